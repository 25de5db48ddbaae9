import Verif.Lemmas.GoTree

/-!
# C43: printed trees

`room` is how much room Go leaves when a slice grows. The result does not depend on it, though the slices of flags share
their arrays.
-/

namespace Wbnf

/-- What is printed is one block for each node, depth-first, the first being the root: its first line leads to the node with
`├── ` or `└── ` and the lines before it show for each ancestor whether there is more to come below it; the further lines of
a label are indented as the children are. -/
theorem C43_blocks (room : Nat → Nat) (t : GTree) : Shows (t.rows []) (t.print room) := by
  rw [print_eq]
  obtain ⟨l, ls, _, h⟩ := splitLines_spec t.text
  cases t with
  | mk text items =>
    rw [h.2]
    have e : unlines (l :: ls) = unlines (block [] l ls) := rfl
    rw [e]
    exact .cons h (textItems_shows items [])

/-- Each node has one line, if no label has line breaks. -/
theorem C43_one_line (room : Nat → Nat) (t : GTree) (h : t.OneLined) :
    ∃ lines : List Str, t.print room = unlines lines ∧ (∀ l ∈ lines, OneLine l) ∧ lines.length = t.size := by
  have ho := rows_oneLine t [] h
  refine ⟨_, (C43_blocks room t).lines ho, ?_, by simp [rows_length]⟩
  intro l hl
  obtain ⟨r, hr, rfl⟩ := List.mem_map.mp hl
  exact rowLine_oneLine (ho r hr)

/-- Different trees are printed differently, if no label has line breaks. -/
theorem C43_injective (room room' : Nat → Nat) (t u : GTree) (ht : t.OneLined) (hu : u.OneLined)
    (h : t.print room = u.print room') : t = u := by
  have h1 := (C43_blocks room t).lines (rows_oneLine t [] ht)
  have h2 := (C43_blocks room' u).lines (rows_oneLine u [] hu)
  rw [h1, h2] at h
  have e := unlines_inj
    (fun l hl => by
      obtain ⟨r, hr, rfl⟩ := List.mem_map.mp hl
      exact rowLine_oneLine (rows_oneLine t [] ht r hr))
    (fun l hl => by
      obtain ⟨r, hr, rfl⟩ := List.mem_map.mp hl
      exact rowLine_oneLine (rows_oneLine u [] hu r hr)) h
  cases t with
  | mk l ks => cases u with
    | mk m js =>
      simp only [GTree.rows, List.map_cons, List.cons.injEq] at e
      have e1 : l = m := e.1
      have e2 := rows_inj_map (fun r hr => by
          intro hn; have := rowsOf_long ks [] r hr; simp [hn] at this)
        (fun r hr => by intro hn; have := rowsOf_long js [] r hr; simp [hn] at this) e.2
      rw [e1, rowsOf_inj ks js [] e2]

/-- So a tree can be read back from what is printed, if no label has line breaks. -/
theorem C43_reads_back : ∃ read : Str → GTree, ∀ (room : Nat → Nat) (t : GTree), t.OneLined → read (t.print room) = t := by
  refine ⟨fun s => open Classical in
    if h : ∃ t room, GTree.OneLined t ∧ t.print room = s then h.choose else .new [], fun room t ht => ?_⟩
  have h : ∃ u room', GTree.OneLined u ∧ u.print room' = t.print room := ⟨t, room, ht, rfl⟩
  simp only [h, dite_true]
  obtain ⟨room', hu, e⟩ := h.choose_spec
  exact C43_injective room' room _ t hu ht e

namespace Ex

/-- Two children, the first of them with a child. -/
def gBush : GTree :=
  ((GTree.new (str "r")).addTree ((GTree.new (str "a")).add (str "b"))).add (str "c")

example : gBush.OneLined := by simp [gBush, GTree.new, GTree.add, GTree.addTree, GTree.OneLined, oneLinedAll, OneLine, str]

example : gBush.print (fun n => n) = "r\n├── a\n│   └── b\n└── c\n".toUTF8.data.toList := by decide +kernel

example : gBush.rows [] =
    [([], str "r"), ([false], str "a"), ([false, true], str "b"), ([true], str "c")] := by decide +kernel

/-- A label with a line break, and a node with a child. -/
def gBroken : GTree := (GTree.new (str "r")).add (str "a\n" ++ lastItem ++ str "b")
def gNested : GTree := (GTree.new (str "r")).addTree ((GTree.new (str "a")).add (str "b"))

end Ex

/-- With line breaks in labels two trees may look the same. -/
theorem C43_breaks : Ex.gBroken ≠ Ex.gNested ∧ ∀ room, Ex.gBroken.print room = Ex.gNested.print room := by
  refine ⟨by simp [Ex.gBroken, Ex.gNested, GTree.new, GTree.add, GTree.addTree], fun room => ?_⟩
  rw [print_eq, print_eq]
  decide +kernel

end Wbnf

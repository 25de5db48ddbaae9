import Verif.Lemmas.TreeViewSame
import Verif.Lemmas.TreeViewLine
import Verif.Props.AstString
import Verif.Props.GoTree

/-!
# Tree views of ASTs (C64)

`sort` is Go's `sort.Slice` in gotree `SortItems`, `room` how much room Go leaves when a slice grows.
-/

namespace Wbnf

variable {quote : Str → Str} {sort sort' : List GTree → List GTree} {skip : Bool} {room room' : Nat → Nat} {name : Str}
  {E : Engine} {X : Externals} {g G : Grammar} {m n k : Nat} {ps : Parsers} {r : Str} {inp rest : Scanner} {ρ : Nat → Nat}

/-- **C64** Tree views show all that is at the ends of the AST, each as often as it is there, and nothing else. -/
theorem C64_ends (hs : SortsByRank sort) {a : Ast} {t : GTree} (h : fromAst quote sort skip name a = some t) : t.ends.Perm (a.ends quote skip name) :=
  fromAst_ends (fun items => (hs items).1) a name t h

/-- **C64** There is a view, that is the tree printed, with siblings in the order of the first thing below them. -/
theorem C64_ordered (hs : SortsByRank sort) {a : Ast} (h : a.Viewable skip) :
    ∃ t, fromAst quote sort skip name a = some t ∧ t.Ordered ∧ buildTreeView quote sort room name a skip = some (t.print room) := by
  obtain ⟨t, h1, _, h2⟩ := fromAst_good (quote := quote) hs a name h
  exact ⟨t, h1, h2, by simp [buildTreeView, h1]⟩

/-- **C64** Leaves are where the scanner starts, but for those at the start of the source: their 0 is not read. -/
theorem C64_leaf_place {s : Scanner} {t : Str} (h : leafString quote s = some t) : StandsAt t (if 0 < s.start then s.start else -1) := leaf_place h

/-- **C64** The number that is read is the only one. -/
theorem C64_one_place {s : Str} {j k : Int} (h : StandsAt s j) (h' : StandsAt s k) : j = k := by
  rw [place_iff] at h h'
  exact h.trans h'.symm

/-- **C64** The text of the view does not depend on the order of the maps nor on how items of the same rank are sorted, if no two ends are at the same place. -/
theorem C64_same (hs : SortsByRank sort) (hs' : SortsByRank sort') {a a' : Ast} (h : Alike a a') (hv : a.Viewable skip) (ha : Apart (a.ends quote skip name)) :
    ∃ s, buildTreeView quote sort room name a skip = some s ∧ buildTreeView quote sort' room' name a' skip = some s := by
  obtain ⟨t, h1, h2⟩ := fromAst_same hs hs' h name hv ha
  refine ⟨t.print room, by simp [buildTreeView, h1], ?_⟩
  simp only [buildTreeView, h2, Option.map_some, print_eq]

/-- **C64** The label of a node has its name and those of the nodes in one line with it, with dots for repetitions. -/
theorem C64_line (hs : SortsByRank sort) {a : Ast} {names : List Str} {t : GTree} (hl : InLine skip name a names) (h : fromAst quote sort skip name a = some t)
    (hn : ∀ n ∈ names, (32 : UInt8) ∉ n ∧ n ≠ str "...") : ∃ rs, names = unrun rs ∧ Runs rs ∧ t.text = separated collapsedNodeSep (runsLine rs) := by
  obtain ⟨rs, _, h1, h2, h3⟩ := inLine_text (fun items => (hs items).1) hl h hn
  exact ⟨rs, h1, h2, h3⟩

theorem unrun_runs : ∀ {rs rs' : List (Str × Nat)}, Runs rs → Runs rs' → unrun rs = unrun rs' → rs = rs' := by
  have ne : ∀ {n m : Str} {k : Nat} {rs : List (Str × Nat)} {x : List Str}, Runs ((n, k) :: rs) → unrun rs = m :: x → n ≠ m := by
    intro n m k rs x h e
    cases rs with
    | nil => simp [unrun] at e
    | cons r rs =>
      obtain ⟨m', j⟩ := r
      simp only [unrun, List.replicate_succ, List.cons_append, List.cons.injEq] at e
      rw [← e.1]; exact h.1
  have tail : ∀ {r : Str × Nat} {rs}, Runs (r :: rs) → Runs rs := by
    intro r rs h
    cases rs with
    | nil => trivial
    | cons r' rs => exact h.2
  have key : ∀ {n : Str} {x y : List Str} (k k' : Nat), (∀ m z, x = m :: z → n ≠ m) → (∀ m z, y = m :: z → n ≠ m) → List.replicate k n ++ x = List.replicate k' n ++ y → k = k' ∧ x = y := by
    intro n x y k
    induction k with
    | zero =>
      intro k' h1 h2 e
      cases k' with
      | zero => simpa using e
      | succ k' => exact absurd rfl (h1 n _ (by simpa [List.replicate_succ] using e))
    | succ k ih =>
      intro k' h1 h2 e
      cases k' with
      | zero => exact absurd rfl (h2 n _ (by simpa [List.replicate_succ] using e.symm))
      | succ k' =>
        simp only [List.replicate_succ, List.cons_append, List.cons.injEq, true_and] at e
        obtain ⟨e1, e2⟩ := ih k' h1 h2 e
        exact ⟨by omega, e2⟩
  intro rs
  induction rs with
  | nil =>
    intro rs' _ _ e
    cases rs' with
    | nil => rfl
    | cons r rs' => simp [unrun, List.replicate_succ] at e
  | cons r rs ih =>
    obtain ⟨n, k⟩ := r
    intro rs' h h' e
    cases rs' with
    | nil => simp [unrun, List.replicate_succ] at e
    | cons r' rs' =>
      obtain ⟨n', k'⟩ := r'
      have e0 : n = n' := by
        have := e
        simp only [unrun, List.replicate_succ, List.cons_append, List.cons.injEq] at this
        exact this.1
      subst e0
      obtain ⟨e1, e2⟩ := key _ _ (fun m z q => ne h q) (fun m z q => ne h' q) e
      rw [ih (tail h) (tail h') e2]
      simp only [Nat.add_right_cancel_iff] at e1
      rw [e1]

/-- **C64** Names are grouped into runs in only one way. -/
theorem C64_line_runs {rs rs' : List (Str × Nat)} (h : Runs rs) (h' : Runs rs') (e : unrun rs = unrun rs') : rs = rs' := unrun_runs h h' e

/-! ### ASTs of parses -/

theorem viewableAll_iff : ∀ {ns : List Ast}, viewableAll skip ns ↔ ∀ n ∈ ns, n.Viewable skip
  | [] => by simp [viewableAll]
  | n :: ns => by simp [viewableAll, viewableAll_iff (ns := ns)]

theorem Groups.viewable {t : Term} {ps : List (Str × Ast)} {b : Branch} (h : Groups t ps b) (ht : ∀ p ∈ ps, ¬ Numbered p.1 ∧ p.2.Viewable skip) : (Ast.branch b).Viewable skip := by
  simp only [Ast.Viewable]
  rw [viewableBranch_iff]
  intro e he
  obtain ⟨h1, h2⟩ := h.entries e he
  obtain ⟨x, hx⟩ := List.exists_mem_of_ne_nil _ h1
  refine .inr ⟨(ht _ (h2 x hx)).1, ?_⟩
  obtain ⟨name, c⟩ := e
  cases c with
  | one n => exact (ht _ (h2 n (by simp [Kids.nodes]))).2
  | many ns => exact viewableAll_iff.2 fun n hn => (ht _ (h2 n hn)).2

instance (s : Str) : Decidable (Numbered s) :=
  match s with
  | [] => .isFalse (fun h => by obtain ⟨c, t, h, _⟩ := h; cases h)
  | c :: s => if h : 49 ≤ c ∧ c ≤ 57 then .isTrue ⟨c, s, rfl, h⟩ else .isFalse (fun g => by obtain ⟨_, _, g, g'⟩ := g; cases g; exact h g')

section
local notation "T" => fun s => (∃ x, Scanner.toStr s = some x) ∧ Scanner.start s < 2 ^ 63

mutual
theorem PartsOf.viewable {G : Grammar} {t v ps} (hG : G.Deep Term.UnnumberedName) : PartsOf G t v ps → t.Deep Term.UnnumberedName → (∀ s ∈ v.leaves, T s) → ∀ p ∈ ps, ¬ Numbered p.1 ∧ p.2.Viewable skip
  | .lit, _, hs => by simpa [Ast.Viewable] using ⟨by decide, hs _ (by simp [Tree.leaves])⟩
  | .regexp, _, hs => by simpa [Ast.Viewable] using ⟨by decide, hs _ (by simp [Tree.leaves])⟩
  | .rule hl h hg, ht, hs => by
    have := hg.viewable (h.viewable hG (deepDefs_iff.1 hG _ _ (lookup_mem hl)) hs)
    simpa using ⟨ht, this⟩
  | .named h hg, ht, hs => by
    have := hg.viewable (h.viewable hG ht.2 hs)
    simpa using ⟨ht.1, this⟩
  | .cut h, ht, hs => h.viewable hG ht.2 hs
  | .scope h, ht, hs => h.viewable hG ht.2.1 hs
  | .look h, ht, hs => h.viewable hG ht.2 fun s hx => hs s (by simp [Tree.leaves, leavesList, hx])
  | .seq h, ht, hs => h.viewable hG ht.2 hs
  | .oneof (i := i) hl h, ht, hs => by
    simp only [List.forall_mem_cons]
    have h1 : i < _ := (List.getElem?_eq_some_iff.1 hl).1
    have h2 := ht.1
    simp only [Term.UnnumberedName] at h2
    refine ⟨⟨by decide +kernel, ?_⟩, h.viewable hG (deepList_iff.1 ht.2 _ (List.mem_of_getElem? hl)) fun s hx => hs s (by simp [Tree.leaves, leavesList, hx])⟩
    simp only [Ast.Viewable]
    omega
  | .quant _ h, ht, hs => h.viewable hG ht.2 hs
  | .delim h h', ht, hs => by
    simp only [List.forall_mem_append]
    exact ⟨h.viewable hG ht.2.1 fun s hx => hs s (by simp [Tree.leaves, leavesList, hx]), h'.viewable hG ht.2.1 ht.2.2 fun s hx => hs s (by simp [Tree.leaves, leavesList, hx])⟩
  | .delimLead _ h, ht, hs => by
    simp only [List.forall_mem_cons]
    exact ⟨⟨by decide +kernel, by simp only [Ast.Viewable]; decide +kernel⟩, h.viewable hG ht.2.1 ht.2.2 fun s hx => hs s (by simp only [Tree.leaves, leavesList] at hx ⊢; simpa using hx)⟩
  | .refLeaf, ht, hs => by simpa [Ast.Viewable] using ⟨ht, hs _ (by simp [Tree.leaves])⟩
  | .refNode h hg, ht, hs => by
    have := hg.viewable (h.viewable hG ht hs)
    simpa using ⟨ht, this⟩
theorem PartsSeq.viewable {G : Grammar} {ts vs ps} (hG : G.Deep Term.UnnumberedName) : PartsSeq G ts vs ps → deepList Term.UnnumberedName ts → (∀ s ∈ leavesList vs, T s) → ∀ p ∈ ps, ¬ Numbered p.1 ∧ p.2.Viewable skip
  | .nil, _, _ => by simp
  | .cons h h', ht, hs => by
    simp only [List.forall_mem_append]
    exact ⟨h.viewable hG ht.1 fun s hx => hs s (by simp [leavesList, hx]), h'.viewable hG ht.2 fun s hx => hs s (by simp [leavesList, hx])⟩
theorem PartsReps.viewable {G : Grammar} {t vs ps} (hG : G.Deep Term.UnnumberedName) : PartsReps G t vs ps → t.Deep Term.UnnumberedName → (∀ s ∈ leavesList vs, T s) → ∀ p ∈ ps, ¬ Numbered p.1 ∧ p.2.Viewable skip
  | .nil, _, _ => by simp
  | .cons h h', ht, hs => by
    simp only [List.forall_mem_append]
    exact ⟨h.viewable hG ht fun s hx => hs s (by simp [leavesList, hx]), h'.viewable hG ht fun s hx => hs s (by simp [leavesList, hx])⟩
theorem PartsList.viewable {G : Grammar} {t sep vs ps} (hG : G.Deep Term.UnnumberedName) :
    PartsList G t sep vs ps → t.Deep Term.UnnumberedName → sep.Deep Term.UnnumberedName → (∀ s ∈ leavesList vs, T s) → ∀ p ∈ ps, ¬ Numbered p.1 ∧ p.2.Viewable skip
  | .nil, _, _, _ => by simp
  | .cons h h' h'', ht, hp, hs => by
    simp only [List.forall_mem_append]
    exact ⟨⟨h.viewable hG hp fun s hx => hs s (by simp [leavesList, hx]), h'.viewable hG ht fun s hx => hs s (by simp [leavesList, hx])⟩,
      h''.viewable hG ht hp fun s hx => hs s (by simp [leavesList, hx])⟩
  | .trail h, _, hp, hs => by
    simp only [List.forall_mem_append]
    exact ⟨h.viewable hG hp fun s hx => hs s (by simp [leavesList, hx]), by simpa using ⟨by decide +kernel, by simp only [Ast.Viewable]; decide +kernel⟩⟩
end
end

/-- **C64** ASTs of parses have such views, if no names of the grammar begin with 1 to 9. Partial as `C31_groups_partial`. -/
theorem C64_parse_partial (hE : E.Sane) (hg : g.wf = true) (hc : g.compile E m = .ok ps) (hG : ps.grammar.ConvertibleIn G)
    (hN : G.Deep Term.UnnumberedName) (hr : ¬ Numbered r) (hesc : X.esc = none)
    (hin : inp.InRange) (hlen : inp.start + inp.len < 2 ^ 63) (hx : NoExt [ps.grammar] (.rule r)) (hp : PatternsSatisfy (ReportsGroup E) [ps.grammar] (.rule r)) {x cs}
    (h : ps.run E X ρ n r inp = .ok (.node r x cs) rest k) (hs : SortsByRank sort) :
    ∃ b g' N t, (∀ n, N ≤ n → fromParserNode n ps.grammar (.node r x cs) = .ok (g', b)) ∧ (Ast.branch b).Viewable skip ∧
      fromAst quote sort skip name (.branch b) = some t ∧ t.Ordered ∧ t.ends.Perm ((Ast.branch b).ends quote skip name) := by
  obtain ⟨u, parts, b, g', N, hl, h1, h2, _, h3⟩ := C31_groups_partial hg hc hG hesc h
  have hm := lookup_mem (hG.sub _ _ hl)
  have hi := C02_leaves_inside hE hg hc hesc hin hx hp h
  have hv : (Ast.branch b).Viewable skip := h2.viewable (by
    simp only [List.forall_mem_cons]
    exact ⟨⟨by decide +kernel, hr⟩, h1.viewable hN (deepDefs_iff.1 hN _ _ hm) fun s hm => ⟨toStr_of_inside hin (hi s hm), by have := hi s hm; omega⟩⟩)
  obtain ⟨t, h4, _, h5⟩ := fromAst_good (quote := quote) hs _ name hv
  exact ⟨b, g', N, t, h3, hv, h4, h5, C64_ends hs h4⟩

end Wbnf

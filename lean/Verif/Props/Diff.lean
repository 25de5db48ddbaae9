import Verif.Lemmas.Diff
import Verif.Lemmas.TermDiff

/-!
# C44: differences between trees and between grammars

`none` is a panic.
-/

namespace Wbnf

/-! ## Trees -/

/-- No difference is found between two nodes exactly if the second has the nodes of the first, with the same tags, extras and
numbers of children. (Partial: where the first tree has something that is not a node, the second may have anything.) -/
theorem C44_nodes_partial (x y : Tree) (hx : x.isNode = true) :
    (∃ d, nodeDiff x y = some d ∧ d.equal = true) ↔ x.Covers y :=
  covers_iff x y hx

/-- Two trees have the same nodes exactly if no difference is found one way and the other. -/
theorem C44_nodes_both (x y : Tree) (hx : x.isNode = true) (hy : y.isNode = true) :
    ((∃ d, nodeDiff x y = some d ∧ d.equal = true) ∧ (∃ d, nodeDiff y x = some d ∧ d.equal = true)) ↔ x.Alike y := by
  rw [covers_iff x y hx, covers_iff y x hy, alike_iff]

/-- The comparison panics exactly if somewhere the first tree has a node and the second something else. -/
theorem C44_nodes_panic (x y : Tree) (hx : x.isNode = true) (hy : y.isNode = true) : nodeDiff x y = none ↔ Clash x y :=
  clash_iff x y hx hy

theorem report_all (d : NodeDiff) (path : List (Str × Nat)) : d.report path = match d with
    | .mk tags extras lens children types =>
      (if tags.1 ≠ tags.2 then [⟨path, str "Tag"⟩] else []) ++
      (if extras.1 ≠ extras.2 then [⟨path, str "Extra"⟩] else []) ++
      (if lens.1 ≠ lens.2 then [⟨path, str "len(Children)"⟩] else []) ++
      types.map (fun _ => ⟨path, str "Type"⟩) ++ reports path children := by
  cases d with
  | mk tags extras lens cs ts =>
    rw [NodeDiff.report]
    split
    · next h =>
      simp only [NodeDiff.equal, Bool.and_eq_true, beq_iff_eq, decide_eq_true_eq, List.isEmpty_iff] at h
      obtain ⟨⟨⟨⟨h1, h2⟩, h3⟩, rfl⟩, rfl⟩ := h
      simp [h1, h2, h3, reports]
    · rfl

theorem differsAt_iff {tag e cs tag' e' cs' p w} : DiffersAt (.node tag e cs) (.node tag' e' cs') p w ↔
    (p = [] ∧ w = str "Tag" ∧ tag ≠ tag') ∨ (p = [] ∧ w = str "Extra" ∧ e ≠ e') ∨
    (p = [] ∧ w = str "len(Children)" ∧ cs.length ≠ cs'.length) ∨
    ∃ i x y t q, cs[i]? = some x ∧ cs'[i]? = some y ∧ x.tagged t ∧ p = (t, i) :: q ∧ DiffersAt x y q w := by
  constructor
  · intro h
    cases h with
    | tag h => exact .inl ⟨rfl, rfl, h⟩
    | extra h => exact .inr (.inl ⟨rfl, rfl, h⟩)
    | count h => exact .inr (.inr (.inl ⟨rfl, rfl, h⟩))
    | child h1 h2 h3 h4 => exact .inr (.inr (.inr ⟨_, _, _, _, _, h1, h2, h3, rfl, h4⟩))
  · rintro (⟨rfl, rfl, h⟩ | ⟨rfl, rfl, h⟩ | ⟨rfl, rfl, h⟩ | ⟨i, x, y, t, q, h1, h2, h3, rfl, h4⟩)
    · exact .tag h
    · exact .extra h
    · exact .count h
    · exact .child h1 h2 h3 h4

mutual
theorem report_iff : (x y : Tree) → (d : NodeDiff) → nodeDiff x y = some d → (path : List (Str × Nat)) → (note : DiffNote) →
    (note ∈ d.report path ↔ ∃ p, note.path = path ++ p ∧ DiffersAt x y p note.what)
  | .node tag e cs, .node tag' e' cs', d, h, path, ⟨q, w⟩ => by
    rw [nodeDiff] at h
    split at h
    · simp at h
    · next ds hds =>
      simp only [Option.some.injEq] at h
      subst h
      have ih := reports_iff cs cs' 0 ds hds path ⟨q, w⟩
      simp only [report_all, List.map_nil, List.append_nil, List.mem_append, ih, differsAt_iff]
      constructor
      · rintro (((h | h) | h) | ⟨j, x, y, t, p, h1, h2, h3, h4, h5⟩)
        · split at h
          · simp only [List.mem_singleton, DiffNote.mk.injEq] at h
            exact ⟨[], by simp [h.1], .inl ⟨rfl, h.2, by assumption⟩⟩
          · simp at h
        · split at h
          · simp only [List.mem_singleton, DiffNote.mk.injEq] at h
            exact ⟨[], by simp [h.1], .inr (.inl ⟨rfl, h.2, by assumption⟩)⟩
          · simp at h
        · split at h
          · simp only [List.mem_singleton, DiffNote.mk.injEq] at h
            exact ⟨[], by simp [h.1], .inr (.inr (.inl ⟨rfl, h.2, by assumption⟩))⟩
          · simp at h
        · exact ⟨_, h4, .inr (.inr (.inr ⟨j, x, y, t, p, h1, h2, h3, by simp, h5⟩))⟩
      · rintro ⟨p, hp, ⟨rfl, rfl, h⟩ | ⟨rfl, rfl, h⟩ | ⟨rfl, rfl, h⟩ | ⟨i, x, y, t, q', h1, h2, h3, rfl, h4⟩⟩
        · left; left; left; simp at hp; simp [h, hp]
        · left; left; right; simp at hp; simp [h, hp]
        · left; right; simp at hp; simp [h, hp]
        · right; exact ⟨i, x, y, t, q', h1, h2, h3, by simpa using hp, h4⟩
  | .leaf _, _, _, h, _, _ => by simp [nodeDiff] at h
  | .empty, _, _, h, _, _ => by simp [nodeDiff] at h
  | .foreign _, _, _, h, _, _ => by simp [nodeDiff] at h
  | .node _ _ _, .leaf _, _, h, _, _ => by simp [nodeDiff] at h
  | .node _ _ _, .empty, _, h, _, _ => by simp [nodeDiff] at h
  | .node _ _ _, .foreign _, _, h, _, _ => by simp [nodeDiff] at h
theorem reports_iff : (xs ys : List Tree) → (i : Nat) → (ds : List (Nat × NodeDiff)) → nodeDiffs i xs ys = some ds →
    (path : List (Str × Nat)) → (note : DiffNote) →
    (note ∈ reports path ds ↔ ∃ (j : Nat) (x y : Tree) (t : Str) (p : List (Str × Nat)), xs[j]? = some x ∧ ys[j]? = some y ∧ x.tagged t ∧
      note.path = path ++ (t, i + j) :: p ∧ DiffersAt x y p note.what)
  | [], ys, i, ds, h, path, note => by
    simp only [nodeDiffs, Option.some.injEq] at h
    subst h
    simp [reports]
  | _ :: _, [], i, ds, h, path, note => by
    simp only [nodeDiffs, Option.some.injEq] at h
    subst h
    simp [reports]
  | x :: xs, y :: ys, i, ds, h, path, note => by
    rw [nodeDiffs] at h
    split at h
    · simp at h
    · next ds' hds =>
      have ih := reports_iff xs ys (i + 1) ds' hds path note
      have key : (∃ (j : Nat) (a b : Tree) (t : Str) (p : List (Str × Nat)), (x :: xs)[j]? = some a ∧ (y :: ys)[j]? = some b ∧
          a.tagged t ∧ note.path = path ++ (t, i + j) :: p ∧ DiffersAt a b p note.what) ↔
          (∃ t p, x.tagged t ∧ note.path = path ++ (t, i) :: p ∧ DiffersAt x y p note.what) ∨ note ∈ reports path ds' := by
        rw [ih]
        constructor
        · rintro ⟨j, a, b, t, p, h1, h2, h3, h4, h5⟩
          cases j with
          | zero =>
            simp at h1 h2
            subst h1 h2
            exact .inl ⟨t, p, h3, h4, h5⟩
          | succ j =>
            simp at h1 h2
            exact .inr ⟨j, a, b, t, p, h1, h2, h3, by rw [h4]; congr 3; omega, h5⟩
        · rintro (⟨t, p, h1, h2, h3⟩ | ⟨j, a, b, t, p, h1, h2, h3, h4, h5⟩)
          · exact ⟨0, x, y, t, p, rfl, rfl, h1, h2, h3⟩
          · exact ⟨j + 1, a, b, t, p, by simpa using h1, by simpa using h2, h3, by rw [h4]; congr 3; omega, h5⟩
      rw [key]
      split at h
      · next hn =>
        split at h
        · simp at h
        · next d hd =>
          simp only [Option.some.injEq] at h
          have ih2 := report_iff x y d hd
          have htag : x.tagged d.tagA ∧ ∀ t, x.tagged t → t = d.tagA := by
            cases x with
            | node tag e cs =>
              cases y with
              | node tag' e' cs' =>
                rw [nodeDiff] at hd
                split at hd
                · simp at hd
                · simp only [Option.some.injEq] at hd
                  subst hd
                  exact ⟨rfl, fun t ht => ht⟩
              | _ => simp [nodeDiff] at hd
            | _ => simp [Tree.isNode] at hn
          have h1 : (∃ t p, x.tagged t ∧ note.path = path ++ (t, i) :: p ∧ DiffersAt x y p note.what) ↔
              note ∈ d.report (path ++ [(d.tagA, i)]) := by
            rw [ih2]
            constructor
            · rintro ⟨t, p, ht, hp, hd'⟩
              rw [htag.2 t ht] at hp
              exact ⟨p, by simpa using hp, hd'⟩
            · rintro ⟨p, hp, hd'⟩
              exact ⟨_, p, htag.1, by simpa using hp, hd'⟩
          rw [h1]
          subst h
          split
          · next he =>
            have : d.report (path ++ [(d.tagA, i)]) = [] := by
              cases d with
              | mk => rw [NodeDiff.report, if_pos he]
            simp [this]
          · simp [reports]
      · next hn =>
        simp only [Option.some.injEq] at h
        subst h
        have : ¬ ∃ t p, x.tagged t ∧ note.path = path ++ (t, i) :: p ∧ DiffersAt x y p note.what := by
          rintro ⟨t, p, ht, _⟩
          cases x <;> simp [Tree.isNode, Tree.tagged] at hn ht
        exact ⟨.inr, fun h => h.resolve_left this⟩
end

/-- The report has a note for each difference between two nodes, on the path that leads to it, and no other. -/
theorem C44_report_notes (x y : Tree) (d : NodeDiff) (h : nodeDiff x y = some d) (note : DiffNote) :
    note ∈ d.report [] ↔ DiffersAt x y note.path note.what := by
  rw [report_iff x y d h]
  simp

/-- The report on two nodes is empty exactly if no difference is found. -/
theorem C44_report (x y : Tree) (d : NodeDiff) (h : nodeDiff x y = some d) : d.report [] = [] ↔ d.equal = true := by
  constructor
  · exact report_nil h
  · intro he
    cases d with
    | mk tags extras lens cs ts => rw [NodeDiff.report, he]; rfl

/-! ## Terms -/

/-- No difference is found between two terms exactly if they are the same but for the names of external references. -/
theorem C44_terms_partial (a b : Term) : termsEqual a b = some true ↔ a.Same false b := by
  rw [termsEqual_iff, same_iff]

/-- Without external references, no difference is found exactly if the terms are the same. -/
theorem C44_terms_internal (a b : Term) (h : a.Internal false) : termsEqual a b = some true ↔ a.Same true b := by
  rw [C44_terms_partial]
  exact ⟨same_strengthen false a b h, same_weaken a b⟩

/-- Without external references and scoped grammars, no difference is found exactly if the terms are equal. -/
theorem C44_terms_equal (a b : Term) (h : a.Internal false) (hs : a.Unscoped) : termsEqual a b = some true ↔ a = b := by
  rw [C44_terms_internal a b h, same_eq a b hs]

/-- Without external references and back references with defaults, the comparison of terms has a result. -/
theorem C44_terms_defined (a b : Term) (ha : a.Internal true) (hb : b.Internal true) : ∃ e, termsEqual a b = some e := by
  obtain ⟨d, h1, h2⟩ := diff_defined a b ha hb
  unfold termsEqual
  rw [h1]
  exact Option.ne_none_iff_exists'.mp h2

/-- If the comparison of two grammars does not panic, no difference is found exactly if they are the same. -/
theorem C44_grammars (g g' : Grammar) (d : GrammarDiff) (h : diffGrammars g g' = some d) :
    d.equal = true ↔ Grammar.Same g g' := by
  unfold diffGrammars at h
  split at h
  · simp at h
  · simp only at h
    split at h
    · simp at h
    · rename_i he
      simp only [Option.some.injEq] at h
      rw [← deepEqualGrammar_iff, ← h]
      simp only [ne_eq, Decidable.not_not] at he
      rw [he]

/-- Comparing two grammars that are the same finds no difference. -/
theorem C44_grammars_same (g g' : Grammar) (h : Grammar.Same g g') : ∃ d, diffGrammars g g' = some d ∧ d.equal = true := by
  have h1 := (inDefs_iff g g').mpr (inDefs_weaken g g' h.1)
  have h2 := (keysIn_iff (g := g) (g' := g')).mpr h.2
  have h3 := (deepEqualGrammar_iff g g').mpr h
  refine ⟨⟨[], [], []⟩, ?_, rfl⟩
  simp [diffGrammars, h1, h2, h3, GrammarDiff.equal]

/-- Without external references and back references with defaults, the comparison of grammars has a result. -/
theorem C44_grammars_defined (g g' : Grammar) (hg : internalDefs true g) (hg' : internalDefs true g') :
    ∃ d, diffGrammars g g' = some d := by
  obtain ⟨⟨oa, ps⟩, h⟩ := diffDefs_defined g g' hg hg'
  refine ⟨_, by simp only [diffGrammars, h, grammarDiff_agrees true hg h, ne_eq, not_true, if_false]; rfl⟩

namespace Ex

def dLeaf (s : String) : Tree := .leaf (newScanner (str s))
/-- A node with a node and text, and the same with another text. -/
def dTree (s : String) : Tree := .node (str "a") .nil [.node (str "b") (.choice 1) [], dLeaf s]

example : (dTree "x").Alike (dTree "y") := by simp [dTree, dLeaf, Tree.Alike, alikeAll]
example : (nodeDiff (dTree "x") (dTree "y")).map NodeDiff.equal = some true := by decide +kernel
example : (nodeDiff (dTree "x") (.node (str "a") .nil [.node (str "b") (.choice 2) [], dLeaf "x"])).map
    (fun d => d.report []) = some [⟨[(str "b", 0)], str "Extra"⟩] := by decide +kernel
/-- The second child differs. -/
example : DiffersAt (.node (str "a") .nil [dLeaf "x", .node (str "b") .nil []]) (.node (str "a") .nil [dLeaf "x", .node (str "c") .nil []])
    [(str "b", 1)] (str "Tag") := .child (i := 1) rfl rfl rfl (.tag (by decide))

/-- Text where the other tree has a node. -/
def dText : Tree := .node (str "a") .nil [dLeaf "x"]
def dNode : Tree := .node (str "a") .nil [.node (str "b") .nil []]

def dTerm (n : Nat) : Term := .seq [.delim (.rule (str "x")) (.s (str ",")) 0 false false, .quant (.ref (str "y") none) n 0]

example : (dTerm 1).Internal true ∧ (dTerm 1).Unscoped := by
  simp [dTerm, Term.Internal, internalAll, internalDflt, Term.Unscoped, unscopedAll, unscopedDflt]
example : termsEqual (dTerm 1) (dTerm 1) = some true ∧ termsEqual (dTerm 1) (dTerm 2) = some false := by decide +kernel

/-- The same rules in two orders. -/
def dGrammar : Grammar := [(str "a", dTerm 1), (str "b", .scope (.rule (str "c")) [(str "c", .s (str "c")), (str "d", dTerm 2)])]
def dGrammar' : Grammar := [(str "b", .scope (.rule (str "c")) [(str "d", dTerm 2), (str "c", .s (str "c"))]), (str "a", dTerm 1)]

example : (diffGrammars dGrammar dGrammar').map GrammarDiff.equal = some true := by decide +kernel
example : (diffGrammars dGrammar (dGrammar'.take 1)).map GrammarDiff.equal = some false := by decide +kernel

end Ex

/-- The comparison of trees is not symmetric: it may find no difference where there is one, and panic the other way. -/
theorem C44_nodes_type : (∃ d, nodeDiff Ex.dText Ex.dNode = some d ∧ d.equal = true) ∧ ¬ Ex.dText.Alike Ex.dNode ∧
    nodeDiff Ex.dNode Ex.dText = none := by
  refine ⟨?_, ?_, by decide +kernel⟩
  · rw [C44_nodes_partial _ _ rfl]
    simp [Ex.dText, Ex.dNode, Ex.dLeaf, Tree.Covers, coversAll]
  · simp [Ex.dText, Ex.dNode, Ex.dLeaf, Tree.Alike, alikeAll]

/-- The names of external references are not compared. For grammars that makes the comparison panic. -/
theorem C44_ext (a b : Str) (h : a ≠ b) (r : Str) : termsEqual (.ext a) (.ext b) = some true ∧
    diffGrammars [(r, .ext a)] [(r, .ext b)] = none := by
  constructor
  · simp [termsEqual, diffTerms, TermDiff.equal]
  · simp [diffGrammars, diffDefs, lookup, diffTerms, TermDiff.equal, GrammarDiff.equal, hasKey, deepEqualGrammar,
      deepEqualDefs, deepEqual, h]

/-- Comparing a back reference that has a default with the same without one panics. -/
theorem C44_default (a : Str) (t : Term) :
    termsEqual (.ref a none) (.ref a (some t)) = none ∧ termsEqual (.ref a (some t)) (.ref a none) = none := by
  simp [termsEqual, diffTerms, diffDflt, TermDiff.equal]

end Wbnf

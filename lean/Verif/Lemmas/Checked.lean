import Verif.Lemmas.Validate

/-!
# The nodes that are checked
-/

namespace Wbnf

variable {skip : Item → Bool} {j : Item}

theorem mem_stmtTrees {k : WTree} : {ss : List StmtN} → (k ∈ stmtTrees ss ↔ ∃ s ∈ ss, k = s.tree)
  | [] => by simp [stmtTrees]
  | s :: ss => by simp [stmtTrees, mem_stmtTrees (ss := ss)]

theorem mem_termTrees {k : WTree} : {ts : List TermN} → (k ∈ termTrees ts ↔ ∃ t ∈ ts, k = t.tree)
  | [] => by simp [termTrees]
  | t :: ts => by simp [termTrees, mem_termTrees (ts := ts)]

theorem mem_quantTrees {k : WTree} : {ts : List QuantN} → (k ∈ quantTrees ts ↔ ∃ t ∈ ts, k = t.tree)
  | [] => by simp [quantTrees]
  | t :: ts => by simp [quantTrees, mem_quantTrees (ts := ts)]

theorem mem_grammarTrees {k : WTree} : {ts : List GrammarN} → (k ∈ grammarTrees ts ↔ ∃ t ∈ ts, k = t.tree)
  | [] => by simp [grammarTrees]
  | t :: ts => by simp [grammarTrees, mem_grammarTrees (ts := ts)]

theorem outer_mk {i : Item} {ks : List WTree} : (WTree.mk i ks).Outer skip j ↔ j = i ∨ (skip i = false ∧ ∃ k ∈ ks, k.Outer skip j) := by
  constructor
  · intro h
    cases h with
    | here => exact .inl rfl
    | inner h hk h' => exact .inr ⟨h, _, hk, h'⟩
  · rintro (rfl | ⟨h, k, hk, h'⟩)
    · exact .here
    · exact .inner h hk h'

theorem outer_tip_iff {i : Item} : (WTree.tip i).Outer skip j ↔ j = i := by
  unfold WTree.tip; rw [outer_mk]; simp

theorem outer_tipOf {mk : Str → Item} {o : Option Str} : (∃ k ∈ tipOf mk o, k.Outer skip j) ↔ ∃ x, o = some x ∧ j = mk x := by
  cases o <;> simp [tipOf, outer_tip_iff]

/-- An item that is not a macro definition. -/
def Item.noMacro : Item → Bool
  | .macrodef _ _ _ => false
  | _ => true

mutual
theorem term_noMacro : (t : TermN) → t.tree.Outer Item.unchecked j → j.noMacro = true
  | .many op gs ts, h => by
    rw [TermN.tree, outer_mk] at h
    rcases h with rfl | ⟨hg, k, hk, h⟩
    · rfl
    · have : gs = [] := by simpa [Item.unchecked] using hg
      subst this
      rw [grammarTrees, List.nil_append] at hk
      exact terms_noMacro ts k hk h
  | .one n qs, h => by
    rw [TermN.tree, outer_mk] at h
    rcases h with rfl | ⟨_, k, hk, h⟩
    · rfl
    · rcases List.mem_cons.1 hk with rfl | hk
      · exact named_noMacro n h
      · exact quants_noMacro qs k hk h
theorem named_noMacro : (n : NamedN) → n.tree.Outer Item.unchecked j → j.noMacro = true
  | .mk i a, h => by
    rw [NamedN.tree, outer_mk] at h
    rcases h with rfl | ⟨_, k, hk, h⟩
    · rfl
    · rcases List.mem_cons.1 hk with rfl | hk
      · exact atom_noMacro a h
      · obtain ⟨x, -, rfl⟩ := outer_tipOf.1 ⟨k, hk, h⟩; rfl
theorem atom_noMacro : (a : AtomN) → a.tree.Outer Item.unchecked j → j.noMacro = true
  | .ident i, h => by
    rw [AtomN.tree, outer_mk] at h
    simp only [List.mem_singleton, exists_eq_left, outer_tip_iff] at h
    rcases h with rfl | ⟨_, rfl⟩ <;> rfl
  | .str i, h => by
    rw [AtomN.tree, outer_mk] at h
    simp only [List.mem_singleton, exists_eq_left, outer_tip_iff] at h
    rcases h with rfl | ⟨_, rfl⟩ <;> rfl
  | .re i, h => by
    rw [AtomN.tree, outer_mk] at h
    simp only [List.mem_singleton, exists_eq_left, outer_tip_iff] at h
    rcases h with rfl | ⟨_, rfl⟩ <;> rfl
  | .macrocall m ts, h => by
    rw [AtomN.tree, outer_mk] at h
    simp only [List.mem_singleton, exists_eq_left] at h
    rcases h with rfl | ⟨_, h⟩
    · rfl
    · rw [outer_mk] at h
      rcases h with rfl | ⟨_, k, hk, h⟩
      · rfl
      · rcases List.mem_cons.1 hk with rfl | hk
        · rw [outer_tip_iff.1 h]; rfl
        · exact terms_noMacro ts k hk h
  | .ext i, h => by
    rw [AtomN.tree, outer_mk] at h
    simp only [List.mem_singleton, exists_eq_left, outer_mk, outer_tip_iff] at h
    rcases h with rfl | ⟨_, rfl | ⟨_, rfl⟩⟩ <;> rfl
  | .ref i d, h => by
    rw [AtomN.tree, outer_mk] at h
    simp only [List.mem_singleton, exists_eq_left] at h
    rcases h with rfl | ⟨_, h⟩
    · rfl
    · rw [outer_mk] at h
      rcases h with rfl | ⟨_, k, hk, h⟩
      · rfl
      · rcases List.mem_append.1 hk with hk | hk
        · obtain ⟨x, -, rfl⟩ := outer_tipOf.1 ⟨k, hk, h⟩; rfl
        · rw [List.mem_singleton.1 hk] at h
          rw [outer_tip_iff.1 h]; rfl
  | .look t, h => by
    rw [AtomN.tree, outer_mk] at h
    simp only [List.mem_singleton, exists_eq_left] at h
    rcases h with rfl | ⟨_, h⟩
    · rfl
    · exact term_noMacro t h
  | .term t, h => by
    rw [AtomN.tree, outer_mk] at h
    simp only [List.mem_singleton, exists_eq_left] at h
    rcases h with rfl | ⟨_, h⟩
    · rfl
    · exact term_noMacro t h
  | .unit, h => by
    rw [AtomN.tree, outer_mk] at h
    simp at h
    subst h; rfl
theorem quant_noMacro : (q : QuantN) → q.tree.Outer Item.unchecked j → j.noMacro = true
  | .op o, h => by
    rw [QuantN.tree, outer_mk] at h
    simp at h
    subst h; rfl
  | .range lo hi, h => by
    rw [QuantN.tree, outer_mk] at h
    rcases h with rfl | ⟨_, k, hk, h⟩
    · rfl
    · rcases List.mem_append.1 hk with hk | hk
      · obtain ⟨x, -, rfl⟩ := outer_tipOf.1 ⟨k, hk, h⟩; rfl
      · obtain ⟨x, -, rfl⟩ := outer_tipOf.1 ⟨k, hk, h⟩; rfl
  | .sep o l t n, h => by
    rw [QuantN.tree, outer_mk] at h
    simp only [List.mem_singleton, exists_eq_left] at h
    rcases h with rfl | ⟨_, h⟩
    · rfl
    · exact named_noMacro n h
theorem terms_noMacro : (ts : List TermN) → ∀ k ∈ termTrees ts, k.Outer Item.unchecked j → j.noMacro = true
  | [], k, hk, _ => by simp [termTrees] at hk
  | t :: ts, k, hk, h => by
    rcases List.mem_cons.1 hk with rfl | hk
    · exact term_noMacro t h
    · exact terms_noMacro ts k hk h
theorem quants_noMacro : (ts : List QuantN) → ∀ k ∈ quantTrees ts, k.Outer Item.unchecked j → j.noMacro = true
  | [], k, hk, _ => by simp [quantTrees] at hk
  | t :: ts, k, hk, h => by
    rcases List.mem_cons.1 hk with rfl | hk
    · exact quant_noMacro t h
    · exact quants_noMacro ts k hk h
end

/-- The macro definitions that are seen are the statements. -/
theorem checked_macrodef {g : GrammarN} {m : Str} {as : List Str} {t : TermN} : g.Checked (.macrodef m as t) ↔ .macrodef m as t ∈ g.stmts := by
  cases g with
  | mk ss =>
    unfold GrammarN.Checked
    rw [GrammarN.tree, outer_mk]
    simp only [reduceCtorEq, false_or, Item.unchecked, true_and, mem_stmtTrees, GrammarN.stmts]
    constructor
    · rintro ⟨k, ⟨s, hs, rfl⟩, h⟩
      cases s with
      | comment x => rw [StmtN.tree, outer_mk] at h; simp [outer_tip_iff] at h
      | prod i us =>
        rw [StmtN.tree, outer_mk] at h
        simp only [reduceCtorEq, false_or, List.mem_singleton, exists_eq_left] at h
        rw [outer_mk] at h
        simp only [reduceCtorEq, false_or] at h
        obtain ⟨-, -, k, hk, h⟩ := h
        rcases List.mem_cons.1 hk with rfl | hk
        · exact absurd (outer_tip_iff.1 h) (by simp)
        · have := terms_noMacro us k hk h
          simp [Item.noMacro] at this
      | imp p =>
        rw [StmtN.tree] at h
        simp [outer_mk] at h
      | macrodef m' as' t' =>
        rw [StmtN.tree, outer_mk] at h
        simp only [reduceCtorEq, false_or, List.mem_singleton, exists_eq_left] at h
        rw [outer_mk] at h
        simp only [reduceCtorEq, false_or, List.mem_singleton, exists_eq_left] at h
        rw [outer_mk] at h
        rcases h.2.2 with e | ⟨e, _⟩
        · simp only [Item.macrodef.injEq] at e
          obtain ⟨rfl, rfl, rfl⟩ := e
          exact hs
        · simp [Item.unchecked] at e
    · intro h
      refine ⟨_, ⟨_, h, rfl⟩, ?_⟩
      rw [StmtN.tree]
      exact .inner rfl (List.mem_singleton.2 rfl) (.inner rfl (List.mem_singleton.2 rfl) .here)

end Wbnf

import Verif.Spec.Deep
import Verif.Spec.Parts
import Verif.Lemmas.Scope

/-! Conditions on all subterms carry over to all parts in use. -/

namespace Wbnf

variable {P : Term → Prop}

theorem deepList_iff {ts : List Term} : deepList P ts ↔ ∀ t ∈ ts, t.Deep P := by
  induction ts with
  | nil => simp [deepList]
  | cons t ts ih => simp [deepList, ih]

theorem deepDefs_iff {g : Grammar} : deepDefs P g ↔ ∀ k t, (k, t) ∈ g → t.Deep P := by
  induction g with
  | nil => simp [deepDefs]
  | cons e g ih =>
    obtain ⟨k, t⟩ := e
    simp only [deepDefs, ih, List.mem_cons, Prod.mk.injEq]
    constructor
    · rintro ⟨h1, h2⟩ k' t' (⟨rfl, rfl⟩ | h)
      · exact h1
      · exact h2 k' t' h
    · exact fun h => ⟨h k t (Or.inl ⟨rfl, rfl⟩), fun k' t' hm => h k' t' (Or.inr hm)⟩

theorem Term.Deep.self {t : Term} (h : t.Deep P) : P t := by
  cases t <;> first | exact h | exact h.1

/-- `P` survives resolving stacks. -/
def LayerOK (P : Term → Prop) : Prop := ∀ (L : Term) new, L.flat = true → L.Deep P → (L.uncut.atTo new).Deep P

variable (hP : LayerOK P)
include hP

theorem deep_resolve {g g' : Grammar} (h : deepDefs P g) (hr : g.resolveStacks = some g') : deepDefs P g' := by
  rw [deepDefs_iff] at *
  intro k t hm
  rcases (resolveStacks_mem hr).1 k t hm with hm | ⟨r, ls, L, j, h1, h2, hf, _, rfl, _⟩
  · exact h k t hm
  · exact hP _ _ hf (deepList_iff.1 (h _ _ h1).2 _ h2)

omit hP in
theorem deep_inherit {w : Option Term} {g : Grammar} (hw : ∀ t, w = some t → t.Deep P) (h : deepDefs P g) : deepDefs P (inheritWrap w g) := by
  rw [deepDefs_iff] at *
  intro k t hm
  rcases mem_inheritWrap hm with hm | hm
  · exact h k t hm
  · exact hw _ hm

omit hP in
theorem deep_wrapOf {Γ : List Grammar} (h : ∀ g ∈ Γ, deepDefs P g) (w : Term) (hw : wrapOf Γ = some w) : w.Deep P := by
  cases Γ with
  | nil => simp [wrapOf] at hw
  | cons g0 Γ => exact deepDefs_iff.1 (h g0 (by simp)) _ _ (lookup_mem hw)

omit hP in
theorem Resolves.deep {Γ r Γ₁ t₁} (hr : Resolves Γ r Γ₁ t₁) (h : ∀ g ∈ Γ, deepDefs P g) :
    (∀ g ∈ Γ₁, deepDefs P g) ∧ t₁.Deep P := by
  induction hr with
  | here hd =>
    obtain ⟨k, hk⟩ := hd.mem
    exact ⟨h, deepDefs_iff.1 (h _ (by simp)) k _ hk⟩
  | outer _ _ ih => exact ih fun g hg => h g (by simp [hg])

theorem Enters.deep {Γ g g'} (he : Enters Γ g g') (hg : deepDefs P g) (h : ∀ g ∈ Γ, deepDefs P g) :
    ∀ g ∈ g' :: Γ, deepDefs P g := by
  obtain ⟨g1, h1, rfl⟩ := he
  intro g hm
  rcases List.mem_cons.1 hm with rfl | hm
  · exact deep_inherit (deep_wrapOf h) (deep_resolve hP hg h1)
  · exact h g hm

theorem PartOf.deep {Γ t Γ' t'} (h : PartOf Γ t Γ' t') (hΓ : ∀ g ∈ Γ, deepDefs P g) (ht : t.Deep P) :
    (∀ g ∈ Γ', deepDefs P g) ∧ t'.Deep P := by
  induction h with
  | refl => exact ⟨hΓ, ht⟩
  | rule hr _ ih => obtain ⟨h1, h2⟩ := hr.deep hΓ; exact ih h1 h2
  | named _ ih => exact ih hΓ ht.2
  | cut _ ih => exact ih hΓ ht.2
  | scope he _ ih => exact ih (he.deep hP ht.2.2 hΓ) ht.2.1
  | seq hm _ ih => exact ih hΓ (deepList_iff.1 ht.2 _ hm)
  | oneof hm _ ih => exact ih hΓ (deepList_iff.1 ht.2 _ hm)
  | quant _ ih => exact ih hΓ ht.2
  | look _ ih => exact ih hΓ ht.2
  | delimTerm _ ih => exact ih hΓ ht.2.1
  | delimSep _ ih => exact ih hΓ ht.2.2

end Wbnf

import Verif.Lemmas.Scope

/-! Grammars without external references. -/

namespace Wbnf

theorem noExtList_iff {ts : List Term} : noExtList ts = true ↔ ∀ t ∈ ts, t.noExt = true := by
  induction ts with
  | nil => simp [noExtList]
  | cons t ts ih => simp [noExtList, ih]

theorem noExtDefs_iff {g : Grammar} : noExtDefs g = true ↔ ∀ k t, (k, t) ∈ g → t.noExt = true := by
  induction g with
  | nil => simp [noExtDefs]
  | cons e g ih =>
    obtain ⟨k, t⟩ := e
    simp only [noExtDefs, Bool.and_eq_true, ih, List.mem_cons, Prod.mk.injEq]
    constructor
    · rintro ⟨h1, h2⟩ k' t' (⟨rfl, rfl⟩ | h)
      · exact h1
      · exact h2 k' t' h
    · exact fun h => ⟨h k t (Or.inl ⟨rfl, rfl⟩), fun k' t' hm => h k' t' (Or.inr hm)⟩

mutual
theorem noExt_layer (new : Str) : (t : Term) → t.flat = true → (t.uncut.atTo new).noExt = t.noExt
  | .rule r, _ => by simp only [Term.uncut, Term.atTo]; split <;> rfl
  | .s _, _ => rfl
  | .re _, _ => rfl
  | .ref _ _, _ => rfl
  | .ext _, _ => rfl
  | .stack _, hf => by simp [Term.flat] at hf
  | .scope _ _, hf => by simp [Term.flat] at hf
  | .seq ts, hf => noExt_layers new ts (by simpa [Term.flat] using hf)
  | .oneof ts, hf => noExt_layers new ts (by simpa [Term.flat] using hf)
  | .delim t sep _ _ _, hf => by
    simp only [Term.flat, Bool.and_eq_true] at hf
    simp only [Term.uncut, Term.atTo, Term.noExt, noExt_layer new t hf.1, noExt_layer new sep hf.2]
  | .look t, hf => noExt_layer new t (by simpa [Term.flat] using hf)
  | .quant t _ _, hf => noExt_layer new t (by simpa [Term.flat] using hf)
  | .named _ t, hf => noExt_layer new t (by simpa [Term.flat] using hf)
  | .cut t, hf => noExt_layer new t (by simpa [Term.flat] using hf)
theorem noExt_layers (new : Str) : (ts : List Term) → flatList ts = true → noExtList (atToList new (uncutList ts)) = noExtList ts
  | [], _ => rfl
  | t :: ts, hf => by
    simp only [flatList, Bool.and_eq_true] at hf
    simp only [uncutList, atToList, noExtList, noExt_layer new t hf.1, noExt_layers new ts hf.2]
end

theorem noExt_resolve {g g' : Grammar} (h : noExtDefs g = true) (hr : g.resolveStacks = some g') : noExtDefs g' = true := by
  rw [noExtDefs_iff] at *
  intro k t hm
  rcases (resolveStacks_mem hr).1 k t hm with hm | ⟨r, ls, L, j, h1, h2, hf, _, rfl, _⟩
  · exact h k t hm
  · rw [noExt_layer _ _ hf]
    have := h _ _ h1
    exact noExtList_iff.1 this _ h2

theorem noExt_parts {Γ t Γ' t'} (h : PartOf Γ t Γ' t') (hΓ : ∀ g ∈ Γ, noExtDefs g = true) (ht : t.noExt = true) : t'.noExt = true := by
  have res : ∀ {Γ r Γ₁ t₁}, Resolves Γ r Γ₁ t₁ → (∀ g ∈ Γ, noExtDefs g = true) → (∀ g ∈ Γ₁, noExtDefs g = true) ∧ t₁.noExt = true := by
    intro Γ r Γ₁ t₁ hr
    induction hr with
    | here hd =>
      intro h
      obtain ⟨k, hk⟩ := hd.mem
      exact ⟨h, noExtDefs_iff.1 (h _ (by simp)) k _ hk⟩
    | outer _ _ ih => exact fun h => ih fun g hg => h g (by simp [hg])
  induction h with
  | refl => exact ht
  | rule hr _ ih => obtain ⟨h1, h2⟩ := res hr hΓ; exact ih h1 h2
  | named _ ih => exact ih hΓ ht
  | cut _ ih => exact ih hΓ ht
  | @scope Γ t g g' _ _ he _ ih =>
    simp only [Term.noExt, Bool.and_eq_true] at ht
    obtain ⟨g1, h1, rfl⟩ := he
    refine ih ?_ ht.1
    intro g hm
    rcases List.mem_cons.1 hm with rfl | hm
    · rw [noExtDefs_iff]
      intro k t hm
      rcases mem_inheritWrap hm with hm | hm
      · exact noExtDefs_iff.1 (noExt_resolve ht.2 h1) k t hm
      · cases Γ with
        | nil => simp [wrapOf] at hm
        | cons g0 Γ => exact noExtDefs_iff.1 (hΓ g0 (by simp)) _ _ (lookup_mem hm)
    · exact hΓ g hm
  | seq hm _ ih => exact ih hΓ (noExtList_iff.1 ht _ hm)
  | oneof hm _ ih => exact ih hΓ (noExtList_iff.1 ht _ hm)
  | quant _ ih => exact ih hΓ ht
  | look _ ih => exact ih hΓ ht
  | delimTerm _ ih => simp only [Term.noExt, Bool.and_eq_true] at ht; exact ih hΓ ht.1
  | delimSep _ ih => simp only [Term.noExt, Bool.and_eq_true] at ht; exact ih hΓ ht.2

/-- A grammar without external references has none in use. -/
theorem noExt_grammar {g : Grammar} (h : noExtDefs g = true) {g' : Grammar} (hr : g.resolveStacks = some g') (r : Str) : NoExt [g'] (.rule r) := by
  intro Γ' x hp
  have := noExt_parts hp (by simpa using noExt_resolve h hr) rfl
  simp [Term.noExt] at this

end Wbnf

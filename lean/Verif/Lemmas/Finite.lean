import Verif.Lemmas.Compiles
import Verif.Lemmas.Top
import Verif.Lemmas.Parts
import Verif.Spec.Terminates
import Mathlib.Data.Fintype.Card
import Mathlib.Data.Set.Finite.List

/-! A grammar that compiles has finitely many places. -/

namespace Wbnf

variable {E : Engine}

/-- The places of a term, `n` levels deep. -/
def places : Nat → List Grammar → Term → List Place
  | 0, _, _ => []
  | n + 1, Γ, t =>
    (Γ, t) :: match t with
    | .named _ t => places n Γ t
    | .cut t => places n Γ t
    | .quant t _ _ => places n Γ t
    | .look t => places n Γ t
    | .seq ts => ts.flatMap (places n Γ)
    | .oneof ts => ts.flatMap (places n Γ)
    | .delim t sep _ cs ce => places n Γ (.seq (delimSeq t sep cs ce))
    | .scope t g =>
      match Grammar.resolveStacks g with
      | none => []
      | some g1 =>
        places n (inheritWrap (wrapOf Γ) g1 :: Γ) t ++
        (inheritWrap (wrapOf Γ) g1).flatMap fun d => places n (inheritWrap (wrapOf Γ) g1 :: Γ) d.2
    | _ => []

theorem places_succ (n Γ t) : (Γ, t) ∈ places (n + 1) Γ t := by simp [places]

/-- All definitions visible under `Γ` are compiled, with their places in `S`. -/
inductive Covered (E : Engine) (S : List Place) : List Grammar → Prop
  | nil : Covered E S []
  | cons {g Γ} : (∀ r t, Defines g r t → ∃ m rule q, compileTerm E m (cacheFor g) rule t = .ok q ∧
      ∀ p ∈ places m (g :: Γ) t, p ∈ S) → Covered E S Γ → Covered E S (g :: Γ)

theorem Covered.resolves {S Γ r Γ' t} (h : Covered E S Γ) (hr : Resolves Γ r Γ' t) :
    Covered E S Γ' ∧ ∃ m rule q, compileTerm E m (cacheOf Γ') rule t = .ok q ∧ ∀ p ∈ places m Γ' t, p ∈ S := by
  induction hr with
  | here hd =>
    cases h with
    | cons h1 h2 => exact ⟨.cons h1 h2, h1 _ _ hd⟩
  | outer _ _ ih =>
    cases h with
    | cons _ h2 => exact ih h2

theorem covered_rules {S g Γ m f} (h : compileRules m g (compileTerm E m (cacheFor g)) g = .ok f)
    (hS : ∀ d ∈ g, ∀ p ∈ places m (g :: Γ) d.2, p ∈ S) (hΓ : Covered E S Γ) : Covered E S (g :: Γ) := by
  refine .cons (fun r t hd => ?_) hΓ
  obtain ⟨k, hk⟩ := hd.mem
  have hne : ∀ r', t ≠ .rule r' := by
    clear hk
    induction hd with
    | here _ h => exact h
    | «alias» _ _ ih => exact ih
  obtain ⟨t', q, h1, h2⟩ := compileRules_inv h _ hk
  have : t' = t := by
    rcases followAlias_stands h1 with ⟨h, _⟩ | ⟨r', h, _⟩
    · exact h
    · exact absurd h (hne _)
  subst this
  exact ⟨m, _, q, h2, hS _ hk⟩

/-- What is kept along `Uses`. -/
structure Kept (E : Engine) (S : List Place) (p : Place) : Prop where
  covered : Covered E S p.1
  compiled : ∃ m rule q, compileTerm E m (cacheOf p.1) rule p.2 = .ok q ∧ ∀ p' ∈ places m p.1 p.2, p' ∈ S

theorem Kept.uses {S p q} (h : Kept E S p) (hu : Uses p q) : Kept E S q := by
  obtain ⟨hΓ, m, rule, c, hc, hp⟩ := h
  cases m with
  | zero => simp [compileTerm_zero] at hc
  | succ m =>
    cases hu with
    | rule hr => exact ⟨(hΓ.resolves hr).1, (hΓ.resolves hr).2⟩
    | named =>
      rw [compileTerm_named] at hc
      exact ⟨hΓ, m, _, c, hc, fun p' h => hp p' (by simp [places, h])⟩
    | cut =>
      simp only [compileTerm_cut, Except.bind_ok] at hc
      obtain ⟨c', hc', _⟩ := hc
      exact ⟨hΓ, m, _, c', hc', fun p' h => hp p' (by simp [places, h])⟩
    | @scope Γ t g g' he =>
      obtain ⟨g1, hg1, rfl⟩ := he
      simp only [compileTerm_scope, Except.bind_ok] at hc
      obtain ⟨g1', h1, f, h2, c', h3, _⟩ := hc
      rw [prepare_ok] at h1
      simp only at hΓ h2 h3 hp
      rw [hg1] at h1; simp at h1; subst h1
      rw [cacheOf_wrap] at h2 h3
      have hp' := fun p' h => hp p' (by simp only [places, hg1]; exact h)
      refine ⟨covered_rules h2 (fun d hd p' h => hp' p' ?_) hΓ, m, _, c', h3, fun p' h => hp' p' ?_⟩
      · simp only [List.mem_cons, List.mem_append, List.mem_flatMap]
        exact Or.inr (Or.inr ⟨d, hd, h⟩)
      · simp only [List.mem_cons, List.mem_append]
        exact Or.inr (Or.inl h)
    | @seq Γ ts t ht =>
      simp only [compileTerm_seq, Except.bind_ok] at hc
      obtain ⟨ps, hps, _⟩ := hc
      obtain ⟨c', hc'⟩ := makeParsers_inv hps t ht
      exact ⟨hΓ, m, _, c', hc', fun p' h => hp p' (by
        simp only [places, List.mem_cons, List.mem_flatMap]; exact Or.inr ⟨t, ht, h⟩)⟩
    | @oneof Γ ts t ht =>
      simp only [compileTerm_oneof, Except.bind_ok] at hc
      obtain ⟨ps, hps, _⟩ := hc
      obtain ⟨c', hc'⟩ := makeParsers_inv hps t ht
      exact ⟨hΓ, m, _, c', hc', fun p' h => hp p' (by
        simp only [places, List.mem_cons, List.mem_flatMap]; exact Or.inr ⟨t, ht, h⟩)⟩
    | quant =>
      simp only [compileTerm_quant, Except.bind_ok] at hc
      obtain ⟨c', hc', _⟩ := hc
      exact ⟨hΓ, m, _, c', hc', fun p' h => hp p' (by simp [places, h])⟩
    | look =>
      simp only [compileTerm_look, Except.bind_ok] at hc
      obtain ⟨c', hc', _⟩ := hc
      exact ⟨hΓ, m, _, c', hc', fun p' h => hp p' (by simp [places, h])⟩
    | delim =>
      simp only [compileTerm_delim, Except.bind_ok] at hc
      obtain ⟨c', hc', _⟩ := hc
      exact ⟨hΓ, m, _, c', hc', fun p' h => hp p' (by simp [places, h])⟩

theorem Kept.mem {S p} (h : Kept E S p) : p ∈ S := by
  obtain ⟨_, m, rule, c, hc, hp⟩ := h
  cases m with
  | zero => simp [compileTerm_zero] at hc
  | succ m => exact hp _ (places_succ _ _ _)

/-- A compiled grammar has finitely many places. -/
theorem finite_places {g : Grammar} {m ps} (h : g.compile E m = .ok ps) (r : Str) :
    ∃ S : List Place, ∀ p, UsedIn ([ps.grammar], .rule r) p → p ∈ S := by
  obtain ⟨_, h2⟩ := compile_inv h
  refine ⟨([ps.grammar], .rule r) :: ps.grammar.flatMap (fun d => places m [ps.grammar] d.2), fun p hp => ?_⟩
  refine Kept.mem (E := E) ?_
  induction hp with
  | self =>
    refine ⟨covered_rules h2 (fun d hd p' h => ?_) .nil, 1, [], .rule r, rfl, fun p' h => ?_⟩
    · simp only [List.mem_cons, List.mem_flatMap]; exact Or.inr ⟨d, hd, h⟩
    · simp [places] at h; simp [h]
  | step _ hu ih => exact ih.uses hu

theorem Starts.uses {X : Externals} {p q} (h : Starts E X p q) : Uses p q := by
  cases h with
  | rule h => exact .rule h
  | scope h => exact .scope h
  | seq => exact .seq (by simp)
  | oneof h => exact .oneof h
  | _ => constructor

theorem StartsWith.trans {X : Externals} {p q q'} (h : StartsWith E X p q) (h' : StartsWith E X q q') :
    StartsWith E X p q' := by
  induction h' with
  | one h1 => exact .step h h1
  | step _ h1 ih => exact .step ih h1

/-- Without left recursion, `Starts` is well-founded. -/
theorem starts_wf {X : Externals} {p0 : Place} (hfin : ∃ S : List Place, ∀ p, UsedIn p0 p → p ∈ S)
    (hl : NoLeftRecursion E X p0) :
    WellFounded fun a b : {p // UsedIn p0 p} => Starts E X b.1 a.1 := by
  obtain ⟨S, hS⟩ := hfin
  have : Finite {p // UsedIn p0 p} := (S.finite_toSet.subset (t := {p | UsedIn p0 p}) hS).to_subtype
  let R : {p // UsedIn p0 p} → {p // UsedIn p0 p} → Prop := fun a b => StartsWith E X b.1 a.1
  have : IsTrans _ R := ⟨fun a b c h1 h2 => StartsWith.trans h2 h1⟩
  have : Std.Irrefl R := ⟨fun a h => hl a.1 a.2 h⟩
  exact Subrelation.wf (r := R) (fun h => .one h) (Finite.wellFounded_of_trans_of_irrefl R)

end Wbnf

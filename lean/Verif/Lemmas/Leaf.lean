import Verif.Spec.Peg
import Verif.Lemmas.Tokens

/-! Leaves: the wrapper and the outcome of a regexp. -/

namespace Wbnf

/-- Outcome of a parser as an outcome of the semantics, for a scope with token `cp`. -/
def Res.out (cp : Option Nat) : Res Tree → Option Out
  | .ok v i _ => some (.ok v i)
  | .err e _ _ => some (if e.isNotMyFatal cp then .abort else .fail)
  | _ => none

theorem isNotMyFatal_mkErr (cp : Option Nat) : (mkErr cp).isNotMyFatal cp = false := by
  cases cp <;> simp [mkErr, Err.isNotMyFatal]

theorem infix_cons_iff {a b c : UInt8} {s : Str} :
    [a, b] <:+: c :: s ↔ (c = a ∧ ∃ s', s = b :: s') ∨ [a, b] <:+: s := by
  constructor
  · rintro ⟨u, v, h⟩
    cases u with
    | nil =>
      simp at h
      exact Or.inl ⟨h.1.symm, v, h.2.symm⟩
    | cons x u =>
      simp at h
      exact Or.inr ⟨u, v, by simpa using h.2⟩
  · rintro (⟨rfl, s', rfl⟩ | ⟨u, v, h⟩)
    · exact ⟨[], s', rfl⟩
    · exact ⟨c :: u, v, by simp at h ⊢; exact h⟩

theorem str_parens : str "()" = [40, 41] := rfl
theorem str_open : str "(" = [40] := rfl

theorem not_infix_append_last {s : Str} {c : UInt8} (hc : c ≠ 41) (h : ¬ ([40, 41] : Str) <:+: s) :
    ¬ ([40, 41] : Str) <:+: s ++ [c] := by
  induction s with
  | nil =>
    rintro ⟨u, v, h⟩
    have := congrArg List.length h
    simp at this; omega
  | cons x s ih =>
    rw [List.cons_append, infix_cons_iff]
    rw [infix_cons_iff] at h
    rintro (⟨rfl, s', h'⟩ | h')
    · cases s with
      | nil => simp at h'; exact hc h'.1
      | cons y s => simp at h'; exact h (Or.inl ⟨rfl, s, by rw [h'.1]⟩)
    · exact ih (fun hh => h (Or.inr hh)) h'

theorem spliced_replaceParens (new : Str) (w : Str) : Spliced new w (replaceParens new w) := by
  fun_induction replaceParens new w with
  | case1 =>
    refine Or.inl ⟨?_, rfl⟩
    rintro ⟨u, v, h⟩; have := congrArg List.length h; simp [str_parens] at this
  | case2 c =>
    refine Or.inl ⟨?_, rfl⟩
    rintro ⟨u, v, h⟩; have := congrArg List.length h; simp [str_parens] at this; omega
  | case3 a b s h =>
    obtain ⟨rfl, rfl⟩ := h
    refine Or.inr ⟨[], s, rfl, ?_, rfl⟩
    rintro ⟨u, v, h⟩; have := congrArg List.length h; simp [str_parens, str_open] at this; omega
  | case4 a b s h ih =>
    have key : ∀ s' : Str, (([40, 41] : Str) <:+: a :: b :: s') → [40, 41] <:+: b :: s' := by
      intro s' h'
      rcases infix_cons_iff.1 h' with ⟨rfl, s'', h''⟩ | h'
      · simp at h''; exact absurd ⟨rfl, h''.1⟩ h
      · exact h'
    rcases ih with ⟨h1, h2⟩ | ⟨x, y, h1, h2, h3⟩
    · exact Or.inl ⟨fun hh => h1 (key _ hh), by rw [h2]⟩
    · refine Or.inr ⟨a :: x, y, by rw [h1]; rfl, ?_, by rw [h3]; rfl⟩
      intro hh
      apply h2
      cases x with
      | nil =>
        rw [str_parens, str_open] at hh ⊢
        rcases infix_cons_iff.1 hh with ⟨rfl, s'', h''⟩ | h'
        · simp at h''
        · exact h'
      | cons z x =>
        simp [str_parens] at h1
        rw [← h1.1] at hh ⊢
        exact key _ hh

theorem first_parens_unique {a b a' b' : Str} (h : a ++ str "()" ++ b = a' ++ str "()" ++ b')
    (h1 : ¬ str "()" <:+: a ++ str "(") (h2 : ¬ str "()" <:+: a' ++ str "(") : a = a' ∧ b = b' := by
  induction a generalizing a' with
  | nil =>
    cases a' with
    | nil => simp [str_parens] at h; exact ⟨rfl, h⟩
    | cons x a' =>
      exfalso
      simp [str_parens] at h
      obtain ⟨rfl, h⟩ := h
      cases a' with
      | nil => simp at h
      | cons y a' =>
        simp at h
        exact h2 ⟨[], a' ++ [40], by rw [← h.1]; rfl⟩
  | cons x a ih =>
    cases a' with
    | nil =>
      exfalso
      simp [str_parens] at h
      obtain ⟨rfl, h⟩ := h
      cases a with
      | nil => simp at h
      | cons y a =>
        simp at h
        exact h1 ⟨[], a ++ [40], by rw [h.1]; rfl⟩
    | cons y a' =>
      simp [str_parens] at h
      obtain ⟨rfl, h⟩ := h
      have := ih (a' := a') (by simpa [str_parens] using h)
        (fun hh => h1 (hh.trans ⟨[x], [], by simp⟩)) (fun hh => h2 (hh.trans ⟨[x], [], by simp⟩))
      exact ⟨by rw [this.1], this.2⟩

theorem spliced_iff {new w r : Str} : Spliced new w r ↔ r = replaceParens new w := by
  refine ⟨fun h => ?_, fun h => h ▸ spliced_replaceParens new w⟩
  rcases spliced_replaceParens new w with ⟨h1, h2⟩ | ⟨a, b, h1, h2, h3⟩
  · rcases h with ⟨_, h⟩ | ⟨a, b, h, _⟩
    · rw [h, h2]
    · exact absurd ⟨a, b, h.symm⟩ h1
  · rcases h with ⟨h, _⟩ | ⟨a', b', h4, h5, h6⟩
    · exact absurd ⟨a, b, h1.symm⟩ h
    · obtain ⟨rfl, rfl⟩ := first_parens_unique (h1.symm.trans h4) h2 h5
      rw [h3, h6]

theorem wrapExcludes_iff {re : Str} {ts : List Term} :
    wrapExcludes re ts = true ↔ (.s re ∈ ts ∨ .re re ∈ ts) := by
  induction ts with
  | nil => simp [wrapExcludes]
  | cons t ts ih =>
    cases t with
    | s x => simp only [wrapExcludes, Bool.or_eq_true, decide_eq_true_eq, ih, List.mem_cons,
        Term.s.injEq, reduceCtorEq, false_or]; rw [or_assoc, eq_comm]
    | re x =>
      simp only [wrapExcludes, Bool.or_eq_true, decide_eq_true_eq, ih, List.mem_cons,
        Term.re.injEq, reduceCtorEq, false_or]
      constructor
      · rintro (h | h | h)
        · exact Or.inr (Or.inl h.symm)
        · exact Or.inl h
        · exact Or.inr (Or.inr h)
      · rintro (h | h | h)
        · exact Or.inr (Or.inl h)
        · exact Or.inl h.symm
        · exact Or.inr (Or.inr h)
    | _ => simp [wrapExcludes, ih]

theorem applyWrapRE_iff {wrap re pre r} :
    applyWrapRE wrap re pre = .ok r ↔ LeafPattern wrap re pre r := by
  constructor
  · intro h
    unfold applyWrapRE at h
    split at h
    · simp at h; subst h; exact .plain rfl
    · rename_i ts
      split at h
      · simp at h
      · rename_i w hw
        have hts : ts = ts.dropLast ++ [w] := by
          have hne : ts ≠ [] := by intro h0; subst h0; simp at hw
          rw [List.getLast?_eq_some_getLast hne] at hw
          simp at hw
          rw [← hw]; exact (List.dropLast_concat_getLast hne).symm
        split at h
        · rename_i hex
          simp at h; subst h
          exact .exempt (by rw [← hts]) (wrapExcludes_iff.1 hex)
        · rename_i hex
          cases w with
          | re w =>
            simp [spliceWrap] at h
            exact .listed (by rw [← hts]) (fun hh => hex (wrapExcludes_iff.2 hh)) (spliced_iff.2 (by rw [← h]; simp))
          | _ => simp [spliceWrap] at h
    · rename_i w _
      cases w with
      | re w =>
        simp [spliceWrap] at h
        exact .wrapped rfl (spliced_iff.2 (by rw [← h]; simp))
      | _ => simp [spliceWrap] at h
  · intro h
    cases h with
    | plain h => subst h; rfl
    | exempt h hex =>
      subst h
      simp [applyWrapRE, wrapExcludes_iff.2 hex]
    | @listed ts w r h hex hs =>
      subst h
      have : wrapExcludes re ts = false := by
        rw [Bool.eq_false_iff]; exact fun hh => hex (wrapExcludes_iff.1 hh)
      simp [applyWrapRE, this, spliceWrap, spliced_iff.1 hs]
    | wrapped h hs =>
      subst h
      simp [applyWrapRE, spliceWrap, spliced_iff.1 hs]

theorem eatRegexp_two {find : Str → Option (List (Int × Int))} {inp : Scanner} :
    inp.eatRegexp find 2 =
      match inp.slice with
      | none => .panic
      | some x =>
        match find x with
        | none => .noMatch
        | some [] => .panic
        | some ((a, b) :: gs) =>
          if a ≠ 0 then .panic
          else .ok gs.length (inp.sub a b) ((gs.take 2).map fun g => inp.sub g.1 g.2) (inp.skip b) := by
  unfold Scanner.eatRegexp
  rfl

theorem eatLeaf_out {E : Engine} {p : Str} {sc : Scope} {inp k o} :
    (eatLeaf (E.find p) sc inp k).out sc.cp = some o ↔ LeafOut E p inp o := by
  constructor
  · intro h
    unfold eatLeaf at h
    rw [eatRegexp_two] at h
    cases hx : inp.slice with
    | none => simp [hx, Res.out] at h
    | some x =>
      simp only [hx] at h
      cases hf : E.find p x with
      | none =>
        simp [hf, Res.out, isNotMyFatal_mkErr] at h
        subst h; exact .fail hx hf
      | some l =>
        simp only [hf] at h
        match l, hf, h with
        | [], _, h => simp [Res.out] at h
        | (a, b) :: gs, hf, h =>
          simp only at h
          by_cases ha : a = 0
          · subst ha
            simp only [ne_eq, not_true_eq_false, if_false] at h
            match gs, hf, h with
            | [], hf, h => simp [Res.out] at h
            | [g], hf, h => simp [Res.out] at h; subst h; exact .one hx hf
            | [g, g'], hf, h => simp [Res.out] at h; subst h; exact .two hx hf
            | a :: b :: c :: d, hf, h => simp [Res.out] at h
          · simp [ha, Res.out] at h
  · intro h
    unfold eatLeaf
    rw [eatRegexp_two]
    cases h with
    | fail hx hf => simp [hx, hf, Res.out, isNotMyFatal_mkErr]
    | one hx hf => simp [hx, hf, Res.out]
    | two hx hf => simp [hx, hf, Res.out]

end Wbnf

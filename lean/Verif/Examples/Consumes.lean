import Verif.Examples.Quote
import Verif.Lemmas.Ranks

/-! When a pattern never matches the empty text, for the example engine: a simple check. -/

namespace Wbnf.Regex

/-- Matching consumes at least one byte. -/
def Re.consumes : Re → Bool
  | .cls _ _ => true
  | .cat a b => a.consumes || b.consumes
  | .alt a b => a.consumes && b.consumes
  | .group _ a => a.consumes
  | _ => false

theorem run_pos {n r st k st'} (h : run n r st k = some st') : ∃ s, st.pos ≤ s.pos ∧ k s = some st' :=
  run_keeps (Q := fun s => st.pos ≤ s.pos) (fun _ _ h => Nat.le_succ_of_le h) (fun _ _ _ h => h) h (Nat.le_refl _)

theorem run_consumes {n r st k st'} (hr : r.consumes = true) (h : run n r st k = some st') :
    ∃ s, st.pos < s.pos ∧ k s = some st' := by
  induction n generalizing r st k st' with
  | zero => simp [run] at h
  | succ n ih =>
    cases r with
    | cls neg rs =>
      simp only [run] at h
      split at h
      · simp at h
      · split at h
        · exact ⟨_, Nat.lt_succ_self _, h⟩
        · simp at h
    | cat a b =>
      simp only [run] at h
      simp only [Re.consumes, Bool.or_eq_true] at hr
      rcases hr with hr | hr
      · obtain ⟨s, hs, h⟩ := ih hr h
        obtain ⟨s', hs', h⟩ := run_pos h
        exact ⟨s', by omega, h⟩
      · obtain ⟨s, hs, h⟩ := run_pos h
        obtain ⟨s', hs', h⟩ := ih hr h
        exact ⟨s', by omega, h⟩
    | alt a b =>
      simp only [run] at h
      simp only [Re.consumes, Bool.and_eq_true] at hr
      rcases Option.or_eq_some_iff.1 h with h | ⟨_, h⟩
      · exact ih hr.1 h
      · exact ih hr.2 h
    | group i a =>
      simp only [run] at h
      simp only [Re.consumes] at hr
      obtain ⟨s, hs, h⟩ := ih hr h
      refine ⟨_, ?_, h⟩
      exact hs
    | empty => simp [Re.consumes] at hr
    | star g a => simp [Re.consumes] at hr
    | bot => simp [Re.consumes] at hr
    | eol => simp [Re.consumes] at hr

/-- The check. -/
def eats (p : Str) : Bool := match read p with
  | some (r, _) => r.consumes
  | none => true

theorem neverEmpty {p : Str} (h : eats p = true) : NeverEmpty regexp p := by
  intro x b gs hf
  simp only [regexp, find] at hf
  unfold eats at h
  split at h
  · rename_i r k hr
    rw [hr] at hf
    obtain ⟨x', pos', st, hrun, he⟩ := search_run hf
    obtain ⟨s, hs, hk⟩ := run_consumes h hrun
    simp at hk he
    subst hk
    simp at hs
    omega
  · rename_i hr
    rw [hr] at hf
    simp at hf

end Wbnf.Regex

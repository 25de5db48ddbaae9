import Verif.Examples.Quote
import Verif.Spec.Wrap

/-! The example engine on a pattern with white space around. -/

namespace Wbnf.Regex

def isSpace (c : UInt8) : Bool := inRanges c space

theorem run_star (n g a st k) : run (n + 1) (.star g a) st k =
    let more := run n a st fun st' => if st'.pos = st.pos then none else run n (.star g a) st' k
    if g then more.or (k st) else (k st).or more := rfl

theorem run_spaces {n : Nat} {st : St} {k : St → Option St} (hn : 2 * st.rest.length + 2 ≤ n) :
    (∀ s, run n (.star true (.cls false space)) st k = some s → ∃ a b, st.rest = a ++ b ∧ a.all isSpace = true ∧
      k { st with rest := b, pos := st.pos + a.length } = some s) ∧
    (run n (.star true (.cls false space)) st k = none → ∀ a b, st.rest = a ++ b → a.all isSpace = true →
      k { st with rest := b, pos := st.pos + a.length } = none) := by
  obtain ⟨rest, pos, caps⟩ := st
  induction rest generalizing n pos with
  | nil =>
    obtain ⟨n, rfl⟩ : ∃ m, n = m + 2 := ⟨n - 2, by omega⟩
    have e : run (n + 2) (.star true (.cls false space)) ⟨[], pos, caps⟩ k = k ⟨[], pos, caps⟩ := by
      simp [run_star, run_cls]
    rw [e]
    refine ⟨fun s h => ⟨[], [], rfl, rfl, h⟩, fun h a b e2 _ => ?_⟩
    simp only [List.nil_eq, List.append_eq_nil_iff] at e2
    obtain ⟨rfl, rfl⟩ := e2
    exact h
  | cons c rest ih =>
    simp only [List.length_cons] at hn
    obtain ⟨n, rfl⟩ : ∃ m, n = m + 2 := ⟨n - 2, by omega⟩
    have e : run (n + 2) (.star true (.cls false space)) ⟨c :: rest, pos, caps⟩ k =
        (if isSpace c then run (n + 1) (.star true (.cls false space)) ⟨rest, pos + 1, caps⟩ k else none).or (k ⟨c :: rest, pos, caps⟩) := by
      rw [run_star]
      simp only [run_cls, isSpace, if_true]
      congr 1
      by_cases hc : inRanges c space = true <;> simp [hc]
    rw [e]
    have ih' := ih (n := n + 1) (pos := pos + 1) (by simp only; omega)
    have e2 : ∀ a : Str, pos + 1 + a.length = pos + (a.length + 1) := fun a => by omega
    by_cases hc : isSpace c = true
    · rw [if_pos hc]
      constructor
      · intro s h
        rcases Option.or_eq_some_iff.1 h with h | ⟨_, h⟩
        · obtain ⟨a, b, e3, h4, h5⟩ := ih'.1 s h
          refine ⟨c :: a, b, by simp at e3; simp [e3], by simp [hc]; simpa using h4, ?_⟩
          simp only [e2] at h5
          simpa using h5
        · exact ⟨[], c :: rest, rfl, rfl, h⟩
      · intro h a b e3 h4
        obtain ⟨h5, h6⟩ := Option.or_eq_none_iff.1 h
        match a, e3, h4 with
        | [], e3, _ => simp at e3; subst e3; simpa using h6
        | x :: a, e3, h4 =>
          simp only [List.cons_append, List.cons.injEq] at e3
          have := ih'.2 h5 a b e3.2 (by simp at h4 ⊢; exact h4.2)
          simp only [e2] at this
          simpa using this
    · rw [if_neg hc]
      simp only [Option.none_or]
      refine ⟨fun s h => ⟨[], c :: rest, rfl, rfl, h⟩, fun h a b e3 h4 => ?_⟩
      match a, e3, h4 with
      | [], e3, _ => simp at e3; subst e3; simpa using h
      | x :: a, e3, h4 =>
        simp only [List.cons_append, List.cons.injEq] at e3
        obtain ⟨rfl, _⟩ := e3
        simp [hc] at h4

theorem find_spaces (y : Str) : ∃ f, f ≥ 2 * y.length + 4 ∧
    regexp.find (anchor ++ (str "\\s*" ++ (str "(?:" ++ (str "(" ++ str "x" ++ str ")") ++ str ")") ++ str "\\s*")) y =
      match run (f + 2) (.star true (.cls false space)) ⟨y, 0, [(-1, -1)]⟩ (fun st =>
        if str "x" <+: st.rest then
          run f (.star true (.cls false space)) ⟨st.rest.drop 1, st.pos + 1, st.caps.set 0 ((st.pos : Int), ((st.pos + 1 : Nat) : Int))⟩ some else none) with
      | some st => some ((0, (st.pos : Int)) :: st.caps)
      | none => none := by
  have hr : read (anchor ++ (str "\\s*" ++ (str "(?:" ++ (str "(" ++ str "x" ++ str ")") ++ str ")") ++ str "\\s*")) =
      some (.cat .empty (.cat .bot (.cat (.star true (.cls false space)) (.cat (.cat (.group 0 (litRe (str "x"))) .empty)
        (.cat (.star true (.cls false space)) .empty)))), 1) := by rfl
  have hlen : (anchor ++ (str "\\s*" ++ (str "(?:" ++ (str "(" ++ str "x" ++ str ")") ++ str ")") ++ str "\\s*")).length = 19 := by decide
  simp only [regexp, find, hr, hlen]
  obtain ⟨f, hf, hf'⟩ : ∃ f, 4 * (19 + 2) * (y.length + 2) = f + 1 + 1 + 1 + 3 ∧ f ≥ 2 * y.length + 4 := ⟨4 * (19 + 2) * (y.length + 2) - 6, by omega, by omega⟩
  refine ⟨f + 1, by omega, ?_⟩
  rw [hf, search_bot]
  have e : ∀ (n : Nat) (st : St) (k : St → Option St), run (n + 1) .empty st k = k st := fun _ _ _ => rfl
  have e1 : ∀ (h : St → Option St) (st : St), run f (litRe (str "x")) st h =
      if str "x" <+: st.rest then h { st with rest := st.rest.drop 1, pos := st.pos + 1 } else none := by
    intro h st
    rw [run_lit (str "x") f st h (by simp [str]; omega)]
    rfl
  simp only [run_cat, run_group, e, e1]
  rfl

/-- The pattern `\s*(?:(x))\s*` does what it looks like. -/
theorem concatenates_x : Concatenates regexp (str "\\s*") (str "x") (str "\\s*") (fun a => a.all isSpace = true) (fun b => b = str "x")
    (fun c => c.all isSpace = true) where
  some := by
    intro y gs h
    obtain ⟨f, hf, e⟩ := find_spaces y
    rw [e] at h
    split at h
    · rename_i st hst
      cases h
      obtain ⟨a, b, e1, h1, h2⟩ := (run_spaces (by simp only; omega)).1 st hst
      simp only at e1 h2
      split at h2
      · rename_i hx
        obtain ⟨b, rfl⟩ := hx
        have := (run_spaces (by simp [str] at e1 ⊢; have := congrArg List.length e1; simp at this; omega)).1 st h2
        obtain ⟨c, d, e3, h3, h4⟩ := this
        simp [str] at e3 h4
        subst h4
        refine ⟨a, str "x", c, d, by rw [e1, e3]; simp, h1, rfl, h3, ?_⟩
        simp [str]; omega
      · simp at h2
    · simp at h
  none := by
    intro y h a b c rest e2 ha hb hc
    obtain ⟨f, hf, e⟩ := find_spaces y
    rw [e] at h
    split at h
    · simp at h
    · rename_i hst
      have h1 := (run_spaces (by simp only; omega)).2 hst a (b ++ c ++ rest) (by simp [e2]) ha
      subst hb
      simp only at h1
      rw [if_pos ⟨c ++ rest, by simp⟩] at h1
      have h2 := (run_spaces (by simp [str]; have := congrArg List.length e2; simp [str] at this; omega)).2 h1 c rest (by simp [str]) hc
      simp at h2

end Wbnf.Regex

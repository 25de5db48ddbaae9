import Verif.Lemmas.Counters

/-!
# The counters and the number of occurrences a term allows
-/

namespace Wbnf

/-- Name `c` is counted where name `d` is stored. -/
def Coh (ns : List (Str × Str)) (c d : Str) : Prop := ∀ q ∈ ns, q.1 = c ↔ q.2 = d

theorem Coh.left {ns ms : List (Str × Str)} {c d : Str} (h : Coh (ns ++ ms) c d) : Coh ns c d := fun q hq => h q (by simp [hq])
theorem Coh.right {ns ms : List (Str × Str)} {c d : Str} (h : Coh (ns ++ ms) c d) : Coh ms c d := fun q hq => h q (by simp [hq])

theorem rep_le {t : Term} {k : Str} {h : Nat} (ht : ∀ n, Times t k n → n ≤ h) : ∀ {m n}, TimesRep t k m n → n ≤ m * h := by
  intro m
  induction m with
  | zero => intro n hr; cases hr; simp
  | succ m ih =>
    intro n hr
    cases hr with
    | succ h1 h2 =>
      have := ht _ h1
      have := ih h2
      rw [Nat.succ_mul]; omega

theorem rep_ge {t : Term} {k : Str} {n : Nat} (ht : Times t k n) : ∀ m, TimesRep t k m (m * n) := by
  intro m
  induction m with
  | zero => rw [Nat.zero_mul]; exact .zero
  | succ m ih =>
    have := TimesRep.succ ht ih
    rwa [Nat.succ_mul, Nat.add_comm (m * n)]

theorem once_eq (a c d b : Str) (h : a = c ↔ b = d) : once b d = (onceC a c).hi := by
  unfold once onceC
  by_cases e : a = c
  · simp [h.1 e, e]
  · have e' : ¬ b = d := fun hb => e (h.2 hb)
    simp [e, e']

mutual
theorem times_le {c d : Str} : (t : Term) → Coh t.partNames c d → t.Deep Term.Converts → ∀ {n}, Times t d n →
    n ≤ (t.tally c).hi ∨ 2 ≤ (t.tally c).hi
  | .s _, h, _, n, ht => by
    cases ht; left; exact Nat.le_of_eq (once_eq _ _ _ _ (h ([], []) (by simp [Term.partNames])))
  | .re _, h, _, n, ht => by
    cases ht; left; exact Nat.le_of_eq (once_eq _ _ _ _ (h ([], []) (by simp [Term.partNames])))
  | .rule r, h, _, n, ht => by
    cases ht; left; exact Nat.le_of_eq (once_eq _ _ _ _ (h (r, shownName r) (by simp [Term.partNames])))
  | .named r _, h, _, n, ht => by
    cases ht; left; exact Nat.le_of_eq (once_eq _ _ _ _ (h (r, r) (by simp [Term.partNames])))
  | .ref r _, h, _, n, ht => by
    cases ht with
    | ref hm =>
      have := once_eq _ _ _ _ (h (r, r) (by simp [Term.partNames]))
      rw [this]
      simp only [Term.tally, Counter.mul, oneOrMore, onceC]
      split <;> simp
  | .ext _, _, h, _, _ => h.elim
  | .scope t _, h, hc, n, ht => by
    cases ht with
    | scope hr h1 =>
      have ih := fun n => times_le t h hc.2.1 (n := n)
      simp only [Term.tally, Counter.mul, oneOrMore]
      by_cases e : (t.tally c).hi = 0
      · have := rep_le (h := 0) (fun n hn => by have := ih n hn; omega) hr
        left; omega
      · right; omega
  | .stack _, _, h, _, _ => h.1.elim
  | .cut t, h, hc, n, ht => by cases ht with | cut ht => exact times_le t h hc.2 ht
  | .look t, h, hc, n, ht => by cases ht with | look ht => exact times_le t h hc.2 ht
  | .quant t lo hi, h, hc, n, ht => by
    cases ht with
    | quant hr h1 h2 =>
      rename_i m
      have ih := fun n => times_le t h hc.2 (n := n)
      simp only [Term.tally, Counter.mul]
      by_cases e : 2 ≤ (t.tally c).hi
      · right
        calc 2 ≤ 1 * (t.tally c).hi := by omega
          _ ≤ _ := Nat.mul_le_mul_right _ (by split <;> omega)
      · have := rep_le (h := (t.tally c).hi) (fun n hn => (ih n hn).resolve_right e) hr
        by_cases e0 : (t.tally c).hi = 0
        · left; simp [e0] at this ⊢; omega
        · have e1 : (t.tally c).hi = 1 := by omega
          rw [e1] at this ⊢
          split <;> omega
  | .delim t sep a cs ce, h, hc, n, ht => by
    cases ht with
    | delim hr h1 hr' h2 h3 =>
      rename_i m m' n n'
      have i1 := fun n => times_le t (Coh.left h) hc.2.1 (n := n)
      have i2 := fun n => times_le sep (Coh.right h) hc.2.2 (n := n)
      simp only [Term.tally, Counter.mul, Counter.add, oneOrMore, zeroOrMore]
      by_cases e : (t.tally c).hi = 0 ∧ (sep.tally c).hi = 0
      · have a1 := rep_le (h := 0) (fun n hn => by have := i1 n hn; omega) hr
        have a2 := rep_le (h := 0) (fun n hn => by have := i2 n hn; omega) hr'
        left; omega
      · right; omega
  | .seq ts, h, hc, n, ht => by cases ht with | seq ht => exact timesAll_le ts h hc.2 ht
  | .oneof ts, h, hc, n, ht => by
    cases ht with
    | oneof hm ht => exact timesOne_le ts h hc.2 hm ht
theorem timesAll_le {c d : Str} : (ts : List Term) → Coh (Term.partNames.names ts) c d → deepList Term.Converts ts → ∀ {n}, TimesAll ts d n →
    n ≤ (tallySum c ts).hi ∨ 2 ≤ (tallySum c ts).hi
  | [], _, _, n, ht => by cases ht; simp
  | t :: ts, h, hc, n, ht => by
    cases ht with
    | cons h1 h2 =>
      have i1 := times_le t (Coh.left h) hc.1 h1
      have i2 := timesAll_le ts (Coh.right h) hc.2 h2
      simp only [tallySum, Counter.add]
      omega
theorem timesOne_le {c d : Str} : (ts : List Term) → Coh (Term.partNames.names ts) c d → deepList Term.Converts ts → ∀ {t n}, t ∈ ts → Times t d n →
    n ≤ tallyMax c ts ∨ 2 ≤ tallyMax c ts
  | [], _, _, t, n, hm, _ => by simp at hm
  | t :: ts, h, hc, t', n, hm, ht => by
    simp only [tallyMax]
    rcases List.mem_cons.1 hm with e | hm
    · rw [e] at ht
      have i1 := times_le t (Coh.left h) hc.1 ht
      omega
    · have i2 := timesOne_le ts (Coh.right h) hc.2 hm ht
      omega
end

mutual
theorem times_ge {c d : Str} : (t : Term) → Coh t.partNames c d → t.Deep Term.Converts → ∃ n, Times t d n ∧ ((t.tally c).hi ≤ n ∨ 2 ≤ n)
  | .s _, h, _ => ⟨_, .lit, .inl (Nat.le_of_eq (once_eq _ _ _ _ (h ([], []) (by simp [Term.partNames]))).symm)⟩
  | .re _, h, _ => ⟨_, .regexp, .inl (Nat.le_of_eq (once_eq _ _ _ _ (h ([], []) (by simp [Term.partNames]))).symm)⟩
  | .rule r, h, _ => ⟨_, .rule, .inl (Nat.le_of_eq (once_eq _ _ _ _ (h (r, shownName r) (by simp [Term.partNames]))).symm)⟩
  | .named r _, h, _ => ⟨_, .named, .inl (Nat.le_of_eq (once_eq _ _ _ _ (h (r, r) (by simp [Term.partNames]))).symm)⟩
  | .ref r _, h, _ => by
    refine ⟨_, .ref (m := 2) (by omega), .inl ?_⟩
    rw [once_eq _ _ _ _ (h (r, r) (by simp [Term.partNames]))]
    exact Nat.le_refl _
  | .ext _, _, h => h.elim
  | .scope t _, h, hc => by
    obtain ⟨n, h1, h2⟩ := times_ge t h hc.2.1
    refine ⟨_, .scope (rep_ge h1 2) (by omega), ?_⟩
    simp only [Term.tally, Counter.mul, oneOrMore]
    omega
  | .stack _, _, h => h.1.elim
  | .cut t, h, hc => by
    obtain ⟨n, h1, h2⟩ := times_ge t h hc.2
    exact ⟨n, .cut h1, h2⟩
  | .look t, h, hc => by
    obtain ⟨n, h1, h2⟩ := times_ge t h hc.2
    exact ⟨n, .look h1, h2⟩
  | .quant t lo hi, h, hc => by
    obtain ⟨n, h1, h2⟩ := times_ge t h hc.2
    have h3 : hi = 0 ∨ lo ≤ hi := hc.1
    simp only [Term.tally, Counter.mul]
    by_cases e : hi = 0
    · refine ⟨_, .quant (m := max lo 2) (rep_ge h1 _) (by omega) (.inl e), ?_⟩
      simp only [e, if_true]
      by_cases e0 : n = 0
      · have : (t.tally c).hi = 0 := by omega
        simp [this]
      · right
        calc 2 ≤ 2 * n := by omega
          _ ≤ _ := Nat.mul_le_mul_right _ (by omega)
    · refine ⟨_, .quant (m := hi) (rep_ge h1 _) (by omega) (.inr (Nat.le_refl _)), ?_⟩
      simp only [e, if_false]
      rcases h2 with h2 | h2
      · left; exact Nat.mul_le_mul_left _ h2
      · right
        calc 2 ≤ 1 * n := by omega
          _ ≤ _ := Nat.mul_le_mul_right _ (by omega)
  | .delim t sep a cs ce, h, hc => by
    obtain ⟨n, h1, h2⟩ := times_ge t (Coh.left h) hc.2.1
    obtain ⟨n', h3, h4⟩ := times_ge sep (Coh.right h) hc.2.2
    refine ⟨_, .delim (rep_ge h1 3) (by omega) (rep_ge h3 2) (by omega) (by omega), ?_⟩
    simp only [Term.tally, Counter.mul, Counter.add, oneOrMore, zeroOrMore]
    omega
  | .seq ts, h, hc => by
    obtain ⟨n, h1, h2⟩ := timesAll_ge ts h hc.2
    exact ⟨n, .seq h1, h2⟩
  | .oneof ts, h, hc => by
    obtain ⟨t, hm, n, h1, h2⟩ := timesOne_ge ts h hc.2 hc.1
    exact ⟨n, .oneof hm h1, h2⟩
theorem timesAll_ge {c d : Str} : (ts : List Term) → Coh (Term.partNames.names ts) c d → deepList Term.Converts ts →
    ∃ n, TimesAll ts d n ∧ ((tallySum c ts).hi ≤ n ∨ 2 ≤ n)
  | [], _, _ => ⟨_, .nil, .inl (Nat.le_refl _)⟩
  | t :: ts, h, hc => by
    obtain ⟨n, h1, h2⟩ := times_ge t (Coh.left h) hc.1
    obtain ⟨m, h3, h4⟩ := timesAll_ge ts (Coh.right h) hc.2
    refine ⟨_, .cons h1 h3, ?_⟩
    simp only [tallySum, Counter.add]
    omega
theorem timesOne_ge {c d : Str} : (ts : List Term) → Coh (Term.partNames.names ts) c d → deepList Term.Converts ts → ts ≠ [] →
    ∃ t ∈ ts, ∃ n, Times t d n ∧ (tallyMax c ts ≤ n ∨ 2 ≤ n)
  | [], _, _, hne => absurd rfl hne
  | [t], h, hc, _ => by
    obtain ⟨n, h1, h2⟩ := times_ge t (Coh.left h) hc.1
    exact ⟨t, by simp, n, h1, by simpa [tallyMax] using h2⟩
  | t :: t' :: ts, h, hc, _ => by
    obtain ⟨n, h1, h2⟩ := times_ge t (Coh.left h) hc.1
    obtain ⟨u, hm, m, h3, h4⟩ := timesOne_ge (t' :: ts) (Coh.right h) hc.2 (by simp)
    simp only [tallyMax] at h4 ⊢
    by_cases e : max (t'.tally c).hi (tallyMax c ts) ≤ (t.tally c).hi
    · exact ⟨t, by simp, n, h1, by omega⟩
    · exact ⟨u, by simp [hm], m, h3, by omega⟩
end

/-- The kind of storage that the counters of a rule choose is the one the rule calls for. -/
theorem atMostOne_iff {t : Term} {c d : Str} (h : Coh t.partNames c d) (hc : t.Deep Term.Converts) : AtMostOne t d ↔ (t.tally c).hi ≤ 1 := by
  constructor
  · intro ha
    obtain ⟨n, h1, h2⟩ := times_ge t h hc
    have := ha n h1
    omega
  · intro hh n hn
    have := times_le t h hc hn
    omega

end Wbnf

import Verif.Model.Scanner

/-! Helper lemmas about scanners. -/

namespace Wbnf

/-- A scanner whose visible slice lies inside its source. Every scanner made by `NewScanner` is,
and parsing keeps it so. -/
def Scanner.InRange (s : Scanner) : Prop :=
  ∃ src, s.src = some src ∧ 0 ≤ s.start ∧ 0 ≤ s.len ∧ s.start + s.len ≤ src.origin.length

/-- The bytes `[i, i+n)` of a text. -/
def bytesAt (t : Str) (i n : Nat) : Str := (t.drop i).take n

theorem Source.slice_inRange (s : Source) (i n : Nat) (h : i + n ≤ s.origin.length) :
    s.slice i n = some (bytesAt s.origin i n) := by
  unfold Source.slice
  rw [if_neg (by omega), if_neg (by omega)]
  simp [bytesAt]

theorem Scanner.InRange.elim {s : Scanner} (h : s.InRange) :
    ∃ (src : Source) (i n : Nat), s = ⟨some src, i, n⟩ ∧ i + n ≤ src.origin.length := by
  obtain ⟨src, h1, h2, h3, h4⟩ := h
  refine ⟨src, s.start.toNat, s.len.toNat, ?_, by omega⟩
  cases s; simp_all; omega

theorem Scanner.inRange_mk {src : Source} {i n : Nat} (h : i + n ≤ src.origin.length) :
    Scanner.InRange ⟨some src, i, n⟩ := ⟨src, rfl, by simp, by simp, by simp; omega⟩

theorem Scanner.toStr_mk {src : Source} {i n : Nat} (h : i + n ≤ src.origin.length) :
    Scanner.toStr ⟨some src, i, n⟩ = some (bytesAt src.origin i n) := by
  simp only [Scanner.toStr, Scanner.slice]
  exact Source.slice_inRange _ _ _ h

theorem Scanner.slice_mk {src : Source} {i n : Nat} (h : i + n ≤ src.origin.length) :
    Scanner.slice ⟨some src, i, n⟩ = some (bytesAt src.origin i n) := by
  simp only [Scanner.slice]
  exact Source.slice_inRange _ _ _ h

@[simp] theorem bytesAt_length {t : Str} {i n : Nat} (h : i + n ≤ t.length) :
    (bytesAt t i n).length = n := by simp [bytesAt]; omega

theorem bytesAt_append {t : Str} {i n m : Nat} :
    bytesAt t i (n + m) = bytesAt t i n ++ bytesAt t (i + n) m := by
  simp only [bytesAt]
  rw [List.take_add, List.drop_drop]

theorem bytesAt_bytesAt {t : Str} {i n a m : Nat} (h : a + m ≤ n) :
    bytesAt (bytesAt t i n) a m = bytesAt t (i + a) m := by
  simp only [bytesAt, List.drop_take, List.drop_drop, List.take_take]
  congr 1; omega

@[simp] theorem bytesAt_zero {t : Str} {i : Nat} : bytesAt t i 0 = [] := by simp [bytesAt]

theorem lastNL_ge (s : Str) : -1 ≤ lastNL s := by
  induction s with
  | nil => simp [lastNL]
  | cons c s ih => simp only [lastNL]; split <;> (try split) <;> omega

/-- The text after the last newline. -/
theorem lastNL_spec (s : Str) :
    ∃ a b : Str, s = a ++ b ∧ (10 : UInt8) ∉ b ∧ countNL a = countNL s ∧
      (b.length : Int) = s.length - 1 - lastNL s ∧ (a = [] ∨ ∃ a', a = a' ++ [10]) := by
  induction s with
  | nil => exact ⟨[], [], by simp [lastNL]⟩
  | cons c s ih =>
    obtain ⟨a, b, h1, h2, h3, h4, h5⟩ := ih
    by_cases hr : 0 ≤ lastNL s
    · refine ⟨c :: a, b, by simp [h1], h2, by simp [countNL, h3], ?_, ?_⟩
      · simp only [lastNL, if_pos hr, List.length_cons]; omega
      · rcases h5 with h5 | ⟨a', h5⟩
        · exfalso; subst h5; simp at h1; subst h1; omega
        · exact Or.inr ⟨c :: a', by simp [h5]⟩
    · have hm : lastNL s = -1 := by have := lastNL_ge s; omega
      have ha : a = [] := by
        rcases h5 with h5 | ⟨a', h5⟩
        · exact h5
        · exfalso; subst h5; subst h1; rw [hm] at h4; simp at h4; omega
      subst ha
      simp at h1; subst h1
      by_cases hc : c = 10
      · refine ⟨[c], s, by simp, h2, ?_, ?_, Or.inr ⟨[], by simp [hc]⟩⟩
        · simp [countNL] at h3 ⊢; omega
        · simp [lastNL, hm, hc]
      · refine ⟨[], c :: s, by simp, by simp [h2]; exact fun h => hc h.symm, ?_, ?_, Or.inl rfl⟩
        · simp [countNL, hc] at h3 ⊢; omega
        · simp [lastNL, hm, hc]

@[simp] theorem countNL_append (a b : Str) : countNL (a ++ b) = countNL a + countNL b := by
  induction a with
  | nil => simp [countNL]
  | cons c a ih => simp [countNL, ih]; omega

theorem countNL_eq_zero {a : Str} (h : (10 : UInt8) ∉ a) : countNL a = 0 := by
  induction a with
  | nil => rfl
  | cons c a ih =>
    simp at h
    simp [countNL, ih h.2]
    intro hc; exact absurd hc.symm h.1

theorem countNL_pos {a : Str} (h : (10 : UInt8) ∈ a) : 0 < countNL a := by
  induction a with
  | nil => simp at h
  | cons c a ih =>
    simp [countNL]
    rcases List.mem_cons.1 h with h | h
    · simp [← h]; omega
    · have := ih h; omega

/-! ### split and join -/

theorem splitNL_ne_nil (s : Str) : splitNL s ≠ [] := by
  induction s with
  | nil => simp [splitNL]
  | cons c s ih =>
    simp only [splitNL]
    split
    · simp
    · split <;> simp

theorem joinNL_cons_ne {l : Str} {ls : List Str} (h : ls ≠ []) :
    joinNL (l :: ls) = l ++ 10 :: joinNL ls := by
  cases ls with
  | nil => exact absurd rfl h
  | cons => rfl

theorem joinNL_cons_cons {c : UInt8} {l : Str} {ls : List Str} :
    joinNL ((c :: l) :: ls) = c :: joinNL (l :: ls) := by
  cases ls <;> simp [joinNL]

theorem joinNL_splitNL (s : Str) : joinNL (splitNL s) = s := by
  induction s with
  | nil => simp [splitNL, joinNL]
  | cons c s ih =>
    simp only [splitNL]
    split
    · rename_i h
      rw [joinNL_cons_ne (splitNL_ne_nil s), ih, h]; rfl
    · split
      · rename_i h2; exact absurd h2 (splitNL_ne_nil s)
      · rename_i l ls h2
        rw [joinNL_cons_cons, ← h2, ih]

theorem length_splitNL (s : Str) : (splitNL s).length = countNL s + 1 := by
  induction s with
  | nil => simp [splitNL, countNL]
  | cons c s ih =>
    simp only [splitNL, countNL]
    split
    · simp [ih]; omega
    · split
      · rename_i h2; exact absurd h2 (splitNL_ne_nil s)
      · rename_i l ls h2; rw [h2] at ih; simp at ih ⊢; omega

theorem splitNL_noNL (s : Str) : ∀ l ∈ splitNL s, (10 : UInt8) ∉ l := by
  induction s with
  | nil => simp [splitNL]
  | cons c s ih =>
    simp only [splitNL]
    split
    · intro l hl; rcases List.mem_cons.1 hl with rfl | hl
      · simp
      · exact ih l hl
    · split
      · rename_i h2; exact absurd h2 (splitNL_ne_nil s)
      · rename_i hc _ l ls h2
        intro x hx
        rcases List.mem_cons.1 hx with rfl | hx
        · have := ih l (by rw [h2]; simp)
          simp only [List.mem_cons, not_or]
          exact ⟨fun h => hc h.symm, this⟩
        · exact ih x (by rw [h2]; simp [hx])

theorem joinNL_append {a b : List Str} (ha : a ≠ []) (hb : b ≠ []) :
    joinNL (a ++ b) = joinNL a ++ 10 :: joinNL b := by
  induction a with
  | nil => exact absurd rfl ha
  | cons x a ih =>
    by_cases h : a = []
    · subst h; simp only [List.cons_append, List.nil_append]
      rw [joinNL_cons_ne hb]; simp [joinNL]
    · rw [List.cons_append, joinNL_cons_ne (by simp [h]), joinNL_cons_ne h, ih h]
      simp

theorem countNL_joinNL {a : List Str} (ha : a ≠ []) (h : ∀ l ∈ a, (10 : UInt8) ∉ l) :
    countNL (joinNL a) + 1 = a.length := by
  induction a with
  | nil => exact absurd rfl ha
  | cons x a ih =>
    by_cases h' : a = []
    · subst h'; simp [joinNL, countNL_eq_zero (h x (by simp))]
    · rw [joinNL_cons_ne h', countNL_append, countNL_eq_zero (h x (by simp))]
      have := ih h' (fun l hl => h l (by simp [hl]))
      simp [countNL]; omega

end Wbnf

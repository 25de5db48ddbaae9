import Verif.Lemmas.Quote
import Verif.Spec.Literal

/-!
# Which text `strconv.Quote` writes without numeric escapes
-/

namespace Wbnf

variable {isPrint : Nat → Bool} {c : UInt8} {s src x : Str} {r : Nat}

theorem Rune.next (h : Rune src r) : nextRune (src ++ x) = some (r, src.length) := by
  cases h with
  | two h1 h2 h3 h4 =>
    simp [nextRune, isCont, UInt8.le_iff_toNat_le, h1, h2, h3, h4]
  | @three c0 c1 c2 h1 h2 h3 h4 h5 h6 h7 h8 =>
    have n1 : (0xC2 ≤ c0 && c0 ≤ 0xDF && isCont c1) = false := by
      have : ¬ c0 ≤ 0xDF := by
        rw [UInt8.le_iff_toNat_le]; exact fun h => by have e : (0xDF : UInt8).toNat = 0xDF := rfl; omega
      simp [this]
    have n2 : (isThree c0 c1 && isCont c2) = true := by
      simp only [Bool.and_eq_true, Bool.or_eq_true, isThree, decide_eq_true_eq, isCont_iff, UInt8.le_iff_toNat_le, ne_eq, ← UInt8.toNat_inj]
      have e0 : (0xE0 : UInt8).toNat = 0xE0 := rfl
      have e1 : (0xED : UInt8).toNat = 0xED := rfl
      have e2 : (0xE1 : UInt8).toNat = 0xE1 := rfl
      have e3 : (0xEF : UInt8).toNat = 0xEF := rfl
      have e4 : (0xA0 : UInt8).toNat = 0xA0 := rfl
      have e5 : (0xBF : UInt8).toNat = 0xBF := rfl
      have e6 : (0x80 : UInt8).toNat = 0x80 := rfl
      have e7 : (0x9F : UInt8).toNat = 0x9F := rfl
      rw [e0, e1, e2, e3, e4, e5, e6, e7]
      omega
    simp only [List.cons_append, List.nil_append, nextRune, n1, n2, Bool.false_eq_true, if_false, if_true, List.length_cons, List.length_nil]
  | @four c0 c1 c2 c3 h1 h2 h3 h4 h5 h6 h7 h8 h9 h10 =>
    have n1 : (0xC2 ≤ c0 && c0 ≤ 0xDF && isCont c1) = false := by
      have : ¬ c0 ≤ 0xDF := by
        rw [UInt8.le_iff_toNat_le]; exact fun h => by have e : (0xDF : UInt8).toNat = 0xDF := rfl; omega
      simp [this]
    have n2 : (isThree c0 c1 && isCont c2) = false := by
      rw [Bool.eq_false_iff]
      intro h
      simp only [Bool.and_eq_true, Bool.or_eq_true, isThree, decide_eq_true_eq, isCont_iff, UInt8.le_iff_toNat_le, ne_eq, ← UInt8.toNat_inj] at h
      have e0 : (0xE0 : UInt8).toNat = 0xE0 := rfl
      have e1 : (0xED : UInt8).toNat = 0xED := rfl
      have e3 : (0xEF : UInt8).toNat = 0xEF := rfl
      rw [e0, e1, e3] at h
      omega
    have n3 : (isFour c0 c1 && isCont c2 && isCont c3) = true := by
      simp only [Bool.and_eq_true, Bool.or_eq_true, isFour, decide_eq_true_eq, isCont_iff, UInt8.le_iff_toNat_le, ← UInt8.toNat_inj]
      have e0 : (0xF0 : UInt8).toNat = 0xF0 := rfl
      have e1 : (0xF1 : UInt8).toNat = 0xF1 := rfl
      have e2 : (0xF3 : UInt8).toNat = 0xF3 := rfl
      have e3 : (0xF4 : UInt8).toNat = 0xF4 := rfl
      have e4 : (0x90 : UInt8).toNat = 0x90 := rfl
      have e5 : (0xBF : UInt8).toNat = 0xBF := rfl
      have e6 : (0x80 : UInt8).toNat = 0x80 := rfl
      have e7 : (0x8F : UInt8).toNat = 0x8F := rfl
      rw [e0, e1, e2, e3, e4, e5, e6, e7]
      omega
    simp only [List.cons_append, List.nil_append, nextRune, n1, n2, n3, Bool.false_eq_true, if_false, if_true, List.length_cons, List.length_nil]

theorem Rune.bytes (h : Rune src r) : ∀ c ∈ src, 0x80 ≤ c.toNat := by
  cases h <;> simp only [List.forall_mem_cons, List.not_mem_nil, false_implies, implies_true, and_true] <;> omega

theorem quotedByte_large (h : 0x80 ≤ c.toNat) : quotedByte c = [c] := by
  unfold quotedByte
  have : escapeLetters.find? (·.1 == c) = none := by
    rw [List.find?_eq_none]
    intro e he
    simp only [escapeLetters, List.mem_cons, List.not_mem_nil, or_false] at he
    rcases he with rfl | rfl | rfl | rfl | rfl | rfl | rfl | rfl | rfl <;>
      (intro h'; rw [beq_iff_eq] at h'; subst h'; revert h; decide)
  rw [this]

theorem Rune.quoted (h : Rune src r) : src.flatMap quotedByte = src := by
  have := h.bytes
  clear h
  induction src with
  | nil => rfl
  | cons c s ih => rw [List.flatMap_cons, quotedByte_large (this c (by simp)), ih fun d hd => this d (by simp [hd])]; rfl

theorem quoteBody_rune (h : Rune src r) : quoteBody isPrint 0 (src ++ x) = escapedRune isPrint r src ++ quoteBody isPrint 0 x := by
  have hn := h.next (x := x)
  obtain ⟨c, s, rfl, hc⟩ := h.cons
  rw [List.cons_append] at hn ⊢
  rw [quoteBody, if_neg (by rw [UInt8.lt_iff_toNat_lt]; exact fun h => by have e : (0x80 : UInt8).toNat = 0x80 := rfl; omega)]
  simp only [hn]
  rw [quoteBody_skip]
  simp

theorem escapedRune_printable (h : Rune src r) (hp : isPrint r = true) : escapedRune isPrint r src = src := by
  have := h.large.1
  unfold escapedRune
  rw [if_neg (by simp only [Bool.or_eq_true, decide_eq_true_eq]; omega), if_pos hp]

theorem escapedRune_not (h : Rune src r) (hp : isPrint r ≠ true) : ∃ e rest, (e = 120 ∨ e = 117 ∨ e = 85) ∧ escapedRune isPrint r src = 92 :: e :: rest := by
  have := h.large.1
  unfold escapedRune
  rw [if_neg (by simp only [Bool.or_eq_true, decide_eq_true_eq]; omega), if_neg hp]
  iterate 7 rw [if_neg (by omega)]
  split
  · exact ⟨_, _, .inl rfl, rfl⟩
  · split
    · exact ⟨_, _, .inr (.inl rfl), rfl⟩
    · exact ⟨_, _, .inr (.inr rfl), rfl⟩

theorem quoteBody_ascii (hp : ∀ r < 128, isPrint r = decide (32 ≤ r ∧ r < 127)) (hc : (32 ≤ c ∧ c ≤ 126) ∨ (7 ≤ c ∧ c ≤ 13)) :
    quoteBody isPrint 0 (c :: x) = quotedByte c ++ quoteBody isPrint 0 x := by
  simp only [UInt8.le_iff_toNat_le] at hc
  have e1 : (32 : UInt8).toNat = 32 := rfl
  have e2 : (126 : UInt8).toNat = 126 := rfl
  have e3 : (7 : UInt8).toNat = 7 := rfl
  have e4 : (13 : UInt8).toNat = 13 := rfl
  rw [e1, e2, e3, e4] at hc
  have hlt : c.toNat < 128 := by omega
  have hs : c < 0x80 := by simpa [UInt8.lt_iff_toNat_lt] using hlt
  rw [quoteBody, if_pos hs]
  congr 1
  have := quotedByte_table c.toNat hlt (by omega)
  rw [UInt8.ofNat_toNat] at this
  rw [← this]
  exact escapedRune_congr (hp _ hlt) _

/-- What is printable is written as it is, but for the escapes with a letter. -/
theorem quoteBody_printable (hp : ∀ r < 128, isPrint r = decide (32 ≤ r ∧ r < 127)) (h : PrintableText isPrint x) :
    quoteBody isPrint 0 x = x.flatMap quotedByte := by
  induction h with
  | nil => rfl
  | ascii hc _ ih => rw [quoteBody_ascii hp hc, ih, List.flatMap_cons]
  | rune hr hi _ ih => rw [quoteBody_rune hr, escapedRune_printable hr hi, ih, List.flatMap_append, hr.quoted]

theorem escapedRune_table : ∀ n < 128, ¬ ((32 ≤ n ∧ n ≤ 126) ∨ (7 ≤ n ∧ n ≤ 13)) →
    escapedRune (fun r => decide (32 ≤ r ∧ r < 127)) n [UInt8.ofNat n] = 92 :: 120 :: hexDigits 2 n := by decide +kernel

theorem Spells.append {q : UInt8} {a b x y : Str} (h : Spells q a x) (h' : Spells q b y) : Spells q (a ++ b) (x ++ y) := by
  induction h with
  | nil => exact h'
  | plain hc _ ih => exact .plain hc ih
  | escape he _ ih => exact .escape he ih

theorem escape_letters : ∀ p ∈ escapeLetters, (p.2, p.1) ∈ escapes 34 := by decide

theorem spells_quoted : Spells 34 (quotedByte c) [c] := by
  unfold quotedByte
  split
  · next e he =>
    have h1 : e.1 = c := by simpa using List.find?_some he
    have := escape_letters _ (List.mem_of_find?_eq_some he)
    rw [h1] at this
    exact .escape this .nil
  · next he =>
    rw [List.find?_eq_none] at he
    exact .plain (fun e => he (92, 92) (by decide) (by simp [e])) .nil

theorem spells_flatMap : ∀ x : Str, Spells 34 (x.flatMap quotedByte) x
  | [] => .nil
  | _ :: x => spells_quoted.append (spells_flatMap x)

/-- What is not, with a numeric escape. -/
theorem quoteBody_numeric (hp : ∀ r < 128, isPrint r = decide (32 ≤ r ∧ r < 127)) (n : Nat) : ∀ {x : Str}, x.length ≤ n → PrintableText isPrint x ∨
    ∃ pre text e rest, (e = 120 ∨ e = 117 ∨ e = 85) ∧ Spells 34 pre text ∧ quoteBody isPrint 0 x = pre ++ 92 :: e :: rest := by
  induction n with
  | zero =>
    intro x hx
    cases List.eq_nil_of_length_eq_zero (Nat.le_zero.1 hx)
    exact .inl .nil
  | succ n ih =>
    intro x hx
    match x with
    | [] => exact .inl .nil
    | c :: s =>
      rw [List.length_cons] at hx
      by_cases hc : c < 0x80
      · by_cases ha : (32 ≤ c ∧ c ≤ 126) ∨ (7 ≤ c ∧ c ≤ 13)
        · rcases ih (x := s) (by omega) with h | ⟨pre, text, e, rest, he, hs, hq⟩
          · exact .inl (.ascii ha h)
          · exact .inr ⟨_, _, e, rest, he, spells_quoted.append hs, by rw [quoteBody_ascii hp ha, hq, List.append_assoc]⟩
        · right
          have hlt : c.toNat < 128 := by simpa [UInt8.lt_iff_toNat_lt] using hc
          have ht := escapedRune_table c.toNat hlt (by simpa [UInt8.le_iff_toNat_le] using ha)
          rw [UInt8.ofNat_toNat] at ht
          refine ⟨[], [], 120, hexDigits 2 c.toNat ++ quoteBody isPrint 0 s, .inl rfl, .nil, ?_⟩
          rw [quoteBody, if_pos hc, escapedRune_congr (q := fun r => decide (32 ≤ r ∧ r < 127)) (hp _ hlt), ht]
          rfl
      · cases hn : nextRune (c :: s) with
        | none =>
          right
          refine ⟨[], [], 120, hexDigits 2 c.toNat ++ quoteBody isPrint 0 s, .inl rfl, .nil, ?_⟩
          rw [quoteBody, if_neg hc, hn]
          rfl
        | some p =>
          obtain ⟨r, w⟩ := p
          obtain ⟨src, rest, e, hr, rfl⟩ := nextRune_rune hn
          have hl : src.length + rest.length = s.length + 1 := by rw [← List.length_append, ← e]; rfl
          have h0 : src.length ≠ 0 := by obtain ⟨_, _, rfl, _⟩ := hr.cons; simp
          rw [e, quoteBody_rune hr]
          by_cases hi : isPrint r = true
          · rcases ih (x := rest) (by omega) with h | ⟨pre, text, d, rest', he, hs, hq⟩
            · exact .inl (.rune hr hi h)
            · refine .inr ⟨src.flatMap quotedByte ++ pre, src ++ text, d, rest', he, (spells_flatMap src).append hs, ?_⟩
              rw [hr.quoted, escapedRune_printable hr hi, hq, List.append_assoc]
          · obtain ⟨d, rest', hd, h⟩ := escapedRune_not hr hi
            exact .inr ⟨[], [], d, _, hd, .nil, by rw [h]; rfl⟩

theorem goQuote_text (hp : ∀ r < 128, isPrint r = decide (32 ≤ r ∧ r < 127)) : QuotesPlain (PrintableText isPrint) (goQuote isPrint) := fun x h => by
  rw [goQuote, quoteBody_printable hp h]

end Wbnf

import Verif.Model.Quote
import Verif.Spec.AstString
import Verif.Spec.TermString

/-!
# What `strconv.Quote` writes can be read back
-/

namespace Wbnf

variable {isPrint : Nat → Bool}

theorem lowerhex_table : ∀ m < 16, ∀ n < 16, lowerhex m = lowerhex n → m = n := by decide +kernel

theorem lowerhex_line : ∀ m < 16, lowerhex m ≠ 10 := by decide +kernel

theorem hexDigits_length {k n : Nat} : (hexDigits k n).length = k := by
  induction k generalizing n with
  | zero => rfl
  | succ k ih => simp [hexDigits, ih]

theorem hexDigits_inj {k : Nat} : ∀ {m n : Nat}, m < 16 ^ k → n < 16 ^ k → hexDigits k m = hexDigits k n → m = n := by
  induction k with
  | zero => intro m n hm hn _; simp at hm hn; omega
  | succ k ih =>
    intro m n hm hn h
    simp only [hexDigits] at h
    obtain ⟨h1, h2⟩ := List.append_inj h (by simp [hexDigits_length])
    rw [Nat.pow_succ] at hm hn
    have h3 := ih (by omega) (by omega) h1
    have h4 := lowerhex_table _ (Nat.mod_lt m (by decide)) _ (Nat.mod_lt n (by decide)) (by simpa using h2)
    omega

theorem hexDigits_line {k n : Nat} : (10 : UInt8) ∉ hexDigits k n := by
  induction k generalizing n with
  | zero => simp [hexDigits]
  | succ k ih =>
    simp only [hexDigits, List.mem_append, List.mem_singleton, not_or]
    exact ⟨ih, fun h => lowerhex_line _ (Nat.mod_lt n (by decide)) h.symm⟩

theorem isCont_iff {c : UInt8} : isCont c = true ↔ 0x80 ≤ c.toNat ∧ c.toNat ≤ 0xBF := by
  simp [isCont, UInt8.le_iff_toNat_le]

theorem nextRune_rune {s : Str} {r w : Nat} (h : nextRune s = some (r, w)) : ∃ src rest, s = src ++ rest ∧ Rune src r ∧ w = src.length := by
  match s with
  | [] => simp [nextRune] at h
  | [_] => simp [nextRune] at h
  | c0 :: c1 :: s =>
    simp only [nextRune] at h
    split at h
    · rename_i hc
      simp only [Bool.and_eq_true, decide_eq_true_eq, isCont_iff, UInt8.le_iff_toNat_le] at hc
      simp only [Option.some.injEq, Prod.mk.injEq] at h
      obtain ⟨rfl, rfl⟩ := h
      exact ⟨[c0, c1], s, rfl, .two hc.1.1 hc.1.2 hc.2.1 hc.2.2, rfl⟩
    · match s with
      | [] => simp at h
      | c2 :: s =>
        simp only at h
        split at h
        · rename_i hc
          simp only [Bool.and_eq_true, Bool.or_eq_true, isThree, decide_eq_true_eq, isCont_iff, UInt8.le_iff_toNat_le, ne_eq,
            ← UInt8.toNat_inj] at hc
          simp only [Option.some.injEq, Prod.mk.injEq] at h
          obtain ⟨rfl, rfl⟩ := h
          have e0 : (0xE0 : UInt8).toNat = 0xE0 := rfl
          have e1 : (0xED : UInt8).toNat = 0xED := rfl
          have e2 : (0xE1 : UInt8).toNat = 0xE1 := rfl
          have e3 : (0xEF : UInt8).toNat = 0xEF := rfl
          have e4 : (0xA0 : UInt8).toNat = 0xA0 := rfl
          have e5 : (0xBF : UInt8).toNat = 0xBF := rfl
          have e6 : (0x80 : UInt8).toNat = 0x80 := rfl
          have e7 : (0x9F : UInt8).toNat = 0x9F := rfl
          rw [e0, e1, e2, e3, e4, e5, e6, e7] at hc
          obtain ⟨hc, h2⟩ := hc
          exact ⟨[c0, c1, c2], s, rfl, .three (by omega) (by omega) (by omega) (by omega) (by omega) (by omega) h2.1 h2.2, rfl⟩
        · match s with
          | [] => simp at h
          | c3 :: s =>
            simp only at h
            split at h
            · rename_i hc
              simp only [Bool.and_eq_true, Bool.or_eq_true, isFour, decide_eq_true_eq, isCont_iff, UInt8.le_iff_toNat_le,
                ← UInt8.toNat_inj] at hc
              simp only [Option.some.injEq, Prod.mk.injEq] at h
              obtain ⟨rfl, rfl⟩ := h
              have e0 : (0xF0 : UInt8).toNat = 0xF0 := rfl
              have e1 : (0xF1 : UInt8).toNat = 0xF1 := rfl
              have e2 : (0xF3 : UInt8).toNat = 0xF3 := rfl
              have e3 : (0xF4 : UInt8).toNat = 0xF4 := rfl
              have e4 : (0x90 : UInt8).toNat = 0x90 := rfl
              have e5 : (0xBF : UInt8).toNat = 0xBF := rfl
              have e6 : (0x80 : UInt8).toNat = 0x80 := rfl
              have e7 : (0x8F : UInt8).toNat = 0x8F := rfl
              rw [e0, e1, e2, e3, e4, e5, e6, e7] at hc
              obtain ⟨⟨hc, h2⟩, h3⟩ := hc
              exact ⟨[c0, c1, c2, c3], s, rfl, .four (by omega) (by omega) (by omega) (by omega) (by omega) (by omega) h2.1 h2.2 h3.1 h3.2, rfl⟩
            · simp at h

theorem Rune.large {src r} (h : Rune src r) : 0x80 ≤ r ∧ r < 16 ^ 8 := by
  cases h <;> omega

theorem Rune.cons {src r} (h : Rune src r) : ∃ c s, src = c :: s ∧ 0xC2 ≤ c.toNat := by
  cases h with
  | two h => exact ⟨_, _, rfl, h⟩
  | three h => exact ⟨_, _, rfl, by omega⟩
  | four h => exact ⟨_, _, rfl, by omega⟩

theorem Rune.line {src r} (h : Rune src r) : (10 : UInt8) ∉ src := by
  have e : (10 : UInt8).toNat = 10 := rfl
  cases h <;> simp only [List.mem_cons, List.not_mem_nil, or_false, ← UInt8.toNat_inj, e] <;> omega

/-- The bytes of a character begin no other. -/
theorem Rune.split {src src' : Str} {r r' : Nat} {x y : Str} (h : Rune src r) (h' : Rune src' r') (e : src ++ x = src' ++ y) : src = src' ∧ x = y := by
  cases h <;> cases h' <;> simp only [List.cons_append, List.nil_append, List.cons.injEq] at e <;>
    first
    | (obtain ⟨rfl, rfl, rfl, rfl, rfl⟩ := e; exact ⟨rfl, rfl⟩)
    | (obtain ⟨rfl, rfl, rfl, rfl⟩ := e; exact ⟨rfl, rfl⟩)
    | (obtain ⟨rfl, rfl, rfl⟩ := e; exact ⟨rfl, rfl⟩)
    | (exfalso; obtain ⟨rfl, _⟩ := e; omega)

/-- A character has one sequence of bytes. -/
theorem Rune.inj {src src' : Str} {r : Nat} (h : Rune src r) (h' : Rune src' r) : src = src' := by
  generalize e : r = q at h'
  cases h <;> cases h' <;>
    first
    | (exfalso; omega)
    | (simp only [List.cons.injEq, and_true, ← UInt8.toNat_inj]; omega)

/-- What is written for a character or an invalid byte. -/
inductive IsChunk : Str → Str → Prop
  | plain {c : UInt8} : c.toNat < 0x80 → c ≠ 34 → c ≠ 92 → c ≠ 10 → IsChunk [c] [c]
  | esc {c e : UInt8} : (c, e) ∈ escapeLetters → IsChunk [c] [92, e]
  | hex {c : UInt8} : IsChunk [c] (92 :: 120 :: hexDigits 2 c.toNat)
  | raw {src r} : Rune src r → IsChunk src src
  | four {src r} : Rune src r → r < 0x10000 → IsChunk src (92 :: 117 :: hexDigits 4 r)
  | eight {src r} : Rune src r → IsChunk src (92 :: 85 :: hexDigits 8 r)

theorem IsChunk.cons {src ch : Str} (h : IsChunk src ch) : ∃ c s, ch = c :: s ∧ c ≠ 34 := by
  cases h with
  | plain _ h => exact ⟨_, _, rfl, h⟩
  | raw h =>
    obtain ⟨c, s, rfl, hc⟩ := h.cons
    exact ⟨c, s, rfl, fun e => by subst e; simp at hc⟩
  | _ => exact ⟨92, _, rfl, by decide⟩

theorem escape_table : ∀ p ∈ escapeLetters, p.2 ≠ 120 ∧ p.2 ≠ 117 ∧ p.2 ≠ 85 ∧ p.2 ≠ 10 ∧ ∀ q ∈ escapeLetters, p.2 = q.2 → p.1 = q.1 := by
  decide

theorem IsChunk.line {src ch : Str} (h : IsChunk src ch) : (10 : UInt8) ∉ ch := by
  cases h with
  | plain _ _ _ h => simpa using Ne.symm h
  | esc h => simpa using Ne.symm (escape_table _ h).2.2.2.1
  | raw h => exact h.line
  | _ => simp only [List.mem_cons, not_or]; exact ⟨by decide, by decide, hexDigits_line⟩

/-- What is written tells what it was written for, whatever follows. -/
theorem IsChunk.split {src ch src' ch' x y : Str} (h : IsChunk src ch) (h' : IsChunk src' ch') (e : ch ++ x = ch' ++ y) :
    src = src' ∧ x = y := by
  have rawne : ∀ {s : Str} {r : Nat} {z : Str}, Rune s r → ∀ c : UInt8, c.toNat < 0x80 → ∀ w, s ++ z = c :: w → False := by
    intro s r z hs c hc w e
    obtain ⟨d, s', rfl, hd⟩ := hs.cons
    simp only [List.cons_append, List.cons.injEq] at e
    obtain ⟨rfl, _⟩ := e
    omega
  cases h with
  | plain a b c d =>
    cases h' with
    | plain => simp at e; exact ⟨by rw [e.1], e.2⟩
    | raw hr => exact (rawne hr _ a _ e.symm).elim
    | _ => simp at e; exact absurd e.1 c
  | esc m =>
    cases h' with
    | plain _ _ c => simp at e; exact absurd e.1.symm c
    | esc m' =>
      simp at e
      have := (escape_table _ m).2.2.2.2 _ m' e.1
      simp only at this
      exact ⟨by rw [this], e.2⟩
    | raw hr => exact (rawne hr 92 (by decide) _ e.symm).elim
    | hex => simp at e; exact absurd e.1 (escape_table _ m).1
    | four => simp at e; exact absurd e.1 (escape_table _ m).2.1
    | eight => simp at e; exact absurd e.1 (escape_table _ m).2.2.1
  | @hex c =>
    cases h' with
    | plain _ _ c => simp at e; exact absurd e.1.symm c
    | esc m' => simp at e; exact absurd e.1.symm (escape_table _ m').1
    | raw hr => exact (rawne hr 92 (by decide) _ e.symm).elim
    | @hex d =>
      simp only [List.cons_append, List.cons.injEq, true_and] at e
      obtain ⟨h1, h2⟩ := List.append_inj e (by simp [hexDigits_length])
      have := hexDigits_inj (by have := c.toNat_lt; omega) (by have := d.toNat_lt; omega) h1
      exact ⟨by rw [UInt8.toNat_inj.1 this], h2⟩
    | four => simp at e
    | eight => simp at e
  | raw hr =>
    cases h' with
    | plain a => exact (rawne hr _ a _ e).elim
    | raw hr' => exact hr.split hr' e
    | _ => exact (rawne hr 92 (by decide) _ e).elim
  | four hr hl =>
    cases h' with
    | plain _ _ c => simp at e; exact absurd e.1.symm c
    | esc m' => simp at e; exact absurd e.1.symm (escape_table _ m').2.1
    | raw hr => exact (rawne hr 92 (by decide) _ e.symm).elim
    | hex => simp at e
    | four hr' hl' =>
      simp only [List.cons_append, List.cons.injEq, true_and] at e
      obtain ⟨h1, h2⟩ := List.append_inj e (by simp [hexDigits_length])
      have := hexDigits_inj (by omega) (by omega) h1
      subst this
      exact ⟨hr.inj hr', h2⟩
    | eight => simp at e
  | eight hr =>
    cases h' with
    | plain _ _ c => simp at e; exact absurd e.1.symm c
    | esc m' => simp at e; exact absurd e.1.symm (escape_table _ m').2.2.1
    | raw hr => exact (rawne hr 92 (by decide) _ e.symm).elim
    | hex => simp at e
    | four => simp at e
    | eight hr' =>
      simp only [List.cons_append, List.cons.injEq, true_and] at e
      obtain ⟨h1, h2⟩ := List.append_inj e (by simp [hexDigits_length])
      have := hexDigits_inj hr.large.2 hr'.large.2 h1
      subst this
      exact ⟨hr.inj hr', h2⟩

theorem quoteBody_skip {k : Nat} : ∀ {s : Str}, quoteBody isPrint k s = quoteBody isPrint 0 (s.drop k) := by
  induction k with
  | zero => intro s; rfl
  | succ k ih =>
    intro s
    cases s with
    | nil => simp [quoteBody]
    | cons c s => simp [quoteBody, ih]

theorem escapedRune_small (hp : ∀ r < 128, isPrint r = decide (32 ≤ r ∧ r < 127)) {c : UInt8} (hc : c.toNat < 0x80) : IsChunk [c] (escapedRune isPrint c.toNat [c]) := by
  have key : ∀ n : Nat, c.toNat = n → n < 256 → c = UInt8.ofNat n := fun n h hn => by
    apply UInt8.toNat_inj.1
    simp; omega
  unfold escapedRune
  split
  · rename_i h
    simp only [Bool.or_eq_true, decide_eq_true_eq] at h
    rcases h with h | h
    · obtain rfl := key _ h (by decide); exact .esc (by decide)
    · obtain rfl := key _ h (by decide); exact .esc (by decide)
  · rename_i h
    simp only [Bool.or_eq_true, decide_eq_true_eq, not_or] at h
    split
    · rename_i hq
      refine .plain hc (fun e => h.1 (by rw [e]; rfl)) (fun e => h.2 (by rw [e]; rfl)) fun e => ?_
      rw [e] at hq
      have e10 : (10 : UInt8).toNat = 10 := rfl
      rw [e10, hp 10 (by decide)] at hq
      simp at hq
    · rename_i hq
      rw [hp _ hc] at hq
      simp only [decide_eq_true_eq] at hq
      repeat' split
      all_goals first
        | (rename_i h; obtain rfl := key _ h (by decide); exact .esc (by decide))
        | exact .hex
        | (exfalso; rename_i h1 _; simp only [Bool.or_eq_true, decide_eq_true_eq, not_or] at h1; omega)
        | (exfalso; rename_i h1; simp only [Bool.or_eq_true, decide_eq_true_eq, not_or] at h1; omega)

theorem escapedRune_large {src : Str} {r : Nat} (hr : Rune src r) : IsChunk src (escapedRune isPrint r src) := by
  have := hr.large.1
  unfold escapedRune
  split
  · rename_i h; simp only [Bool.or_eq_true, decide_eq_true_eq] at h; omega
  · split
    · exact .raw hr
    · repeat' split
      all_goals first
        | exact .four hr ‹_›
        | exact .eight hr
        | (exfalso; omega)
        | (exfalso; rename_i h; simp only [Bool.or_eq_true, decide_eq_true_eq] at h; omega)

/-- The first step of the loop. -/
theorem quoteBody_step (hp : ∀ r < 128, isPrint r = decide (32 ≤ r ∧ r < 127)) {c : UInt8} {s : Str} : ∃ src ch rest, c :: s = src ++ rest ∧ src ≠ [] ∧
    quoteBody isPrint 0 (c :: s) = ch ++ quoteBody isPrint 0 rest ∧ IsChunk src ch := by
  rw [quoteBody]
  split
  · rename_i hc
    exact ⟨[c], _, s, rfl, by simp, rfl, escapedRune_small hp (by simpa [UInt8.lt_iff_toNat_lt] using hc)⟩
  · split
    · rename_i r w hn
      obtain ⟨src, rest, e, hr, rfl⟩ := nextRune_rune hn
      refine ⟨src, _, rest, e, ?_, ?_, escapedRune_large (isPrint := isPrint) hr⟩
      · obtain ⟨_, _, rfl, _⟩ := hr.cons; simp
      · obtain ⟨d, src', rfl, _⟩ := hr.cons
        simp only [List.cons_append, List.cons.injEq] at e
        obtain ⟨rfl, rfl⟩ := e
        rw [quoteBody_skip]
        simp
    · exact ⟨[c], _, s, rfl, by simp, by simp, .hex⟩

theorem quoteBody_split (hp : ∀ r < 128, isPrint r = decide (32 ≤ r ∧ r < 127)) (n : Nat) : ∀ {s t x y : Str}, s.length ≤ n →
    quoteBody isPrint 0 s ++ 34 :: x = quoteBody isPrint 0 t ++ 34 :: y → s = t ∧ x = y := by
  induction n with
  | zero =>
    intro s t x y hs h
    cases s with
    | cons => simp at hs
    | nil =>
      cases t with
      | nil => simpa [quoteBody] using h
      | cons d t =>
        obtain ⟨src, ch, rest, -, -, e2, hc⟩ := quoteBody_step hp (c := d) (s := t)
        obtain ⟨c, s, rfl, h34⟩ := hc.cons
        rw [e2] at h
        simp [quoteBody] at h
        exact absurd h.1.symm h34
  | succ n ih =>
    intro s t x y hs h
    cases s with
    | nil =>
      cases t with
      | nil => simpa [quoteBody] using h
      | cons d t =>
        obtain ⟨src, ch, rest, -, -, e2, hc⟩ := quoteBody_step hp (c := d) (s := t)
        obtain ⟨c, s, rfl, h34⟩ := hc.cons
        rw [e2] at h
        simp [quoteBody] at h
        exact absurd h.1.symm h34
    | cons c s =>
      obtain ⟨src, ch, rest, e1, hne, e2, hc⟩ := quoteBody_step hp (c := c) (s := s)
      cases t with
      | nil =>
        obtain ⟨c, s, rfl, h34⟩ := hc.cons
        rw [e2] at h
        simp [quoteBody] at h
        exact absurd h.1 h34
      | cons d t =>
        obtain ⟨src', ch', rest', e1', -, e2', hc'⟩ := quoteBody_step hp (c := d) (s := t)
        rw [e2, e2', List.append_assoc, List.append_assoc] at h
        obtain ⟨rfl, h⟩ := hc.split hc' h
        have hl : rest.length ≤ n := by
          have := congrArg List.length e1
          have : 0 < src.length := List.length_pos_iff.2 hne
          simp at *
          omega
        obtain ⟨rfl, rfl⟩ := ih hl h
        exact ⟨e1.trans e1'.symm, rfl⟩

theorem quoteBody_line (hp : ∀ r < 128, isPrint r = decide (32 ≤ r ∧ r < 127)) (n : Nat) : ∀ {s : Str}, s.length ≤ n → (10 : UInt8) ∉ quoteBody isPrint 0 s := by
  induction n with
  | zero =>
    intro s hs
    cases s with
    | cons => simp at hs
    | nil => simp [quoteBody]
  | succ n ih =>
    intro s hs
    cases s with
    | nil => simp [quoteBody]
    | cons c s =>
      obtain ⟨src, ch, rest, e1, hne, e2, hc⟩ := quoteBody_step hp (c := c) (s := s)
      rw [e2, List.mem_append, not_or]
      refine ⟨hc.line, ih ?_⟩
      have := congrArg List.length e1
      have : 0 < src.length := List.length_pos_iff.2 hne
      simp at *
      omega

/-- `strconv.Quote` is as the claims about texts of ASTs need it, if what is printable in ASCII is
what it says. -/
theorem goQuote_quoting (hp : ∀ r < 128, isPrint r = decide (32 ≤ r ∧ r < 127)) : Quoting (goQuote isPrint) where
  opens s := ⟨_, rfl⟩
  line s := by
    simp only [goQuote, List.mem_cons, List.mem_append, List.not_mem_nil, or_false, not_or]
    exact ⟨by decide, quoteBody_line hp _ (Nat.le_refl _), by decide⟩
  reads s t x y h := by
    simp only [goQuote, List.cons_append, List.append_assoc, List.nil_append, List.cons.injEq, true_and] at h
    exact quoteBody_split hp _ (Nat.le_refl _) h

theorem quotedByte_table : ∀ n < 128, (32 ≤ n ∧ n ≤ 126) ∨ (7 ≤ n ∧ n ≤ 13) →
    escapedRune (fun r => decide (32 ≤ r ∧ r < 127)) n [UInt8.ofNat n] = quotedByte (UInt8.ofNat n) := by decide +kernel

theorem escapedRune_congr {p q : Nat → Bool} {r : Nat} (h : p r = q r) (src : Str) : escapedRune p r src = escapedRune q r src := by
  unfold escapedRune; rw [h]

/-- And as the claims about texts of terms need it. -/
theorem goQuote_plain (hp : ∀ r < 128, isPrint r = decide (32 ≤ r ∧ r < 127)) : QuotesPlain AsciiText (goQuote isPrint) := by
  intro x hx
  have : quoteBody isPrint 0 x = x.flatMap quotedByte := by
    induction x with
    | nil => rfl
    | cons c x ih =>
      have hc := hx c (by simp)
      simp only [UInt8.le_iff_toNat_le] at hc
      have e1 : (32 : UInt8).toNat = 32 := rfl
      have e2 : (126 : UInt8).toNat = 126 := rfl
      have e3 : (7 : UInt8).toNat = 7 := rfl
      have e4 : (13 : UInt8).toNat = 13 := rfl
      rw [e1, e2, e3, e4] at hc
      have hlt : c.toNat < 128 := by omega
      have hs : c < 0x80 := by simpa [UInt8.lt_iff_toNat_lt] using hlt
      rw [quoteBody, if_pos hs, List.flatMap_cons, ih fun d hd => hx d (by simp [hd])]
      congr 1
      have := quotedByte_table c.toNat hlt (by omega)
      rw [UInt8.ofNat_toNat] at this
      rw [← this]
      exact escapedRune_congr (hp _ hlt) _
  rw [goQuote, this]

end Wbnf

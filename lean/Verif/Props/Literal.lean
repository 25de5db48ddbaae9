import Verif.Model.Literal
import Verif.Spec.Literal

/-!
# C36, C49: literals in wbnf sources
-/

namespace Wbnf

/-! ## Helpers -/

theorem bind_ok {α β : Type} {x : Except Stop α} {f : α → Except Stop β} {b : β} : x.bind f = .ok b ↔ ∃ a, x = .ok a ∧ f a = .ok b := by
  cases x <;> simp [Except.bind]

theorem octal_digit {c : UInt8} (h : isOctal c = true) : ∃ i : Nat, i ≤ 7 ∧ c = UInt8.ofNat (48 + i) ∧ c.toNat = 48 + i := by
  simp only [isOctal, Bool.and_eq_true, decide_eq_true_eq, UInt8.le_iff_toNat_le] at h
  have h1 : 48 ≤ c.toNat := h.1
  have h2 : c.toNat ≤ 55 := h.2
  refine ⟨c.toNat - 48, by omega, ?_, by omega⟩
  rw [show 48 + (c.toNat - 48) = c.toNat by omega, UInt8.ofNat_toNat]

theorem isOctal_ofNat {i : Nat} (h : i ≤ 7) : isOctal (UInt8.ofNat (48 + i)) = true ∧ (UInt8.ofNat (48 + i)).toNat = 48 + i := by
  have e : (UInt8.ofNat (48 + i)).toNat = 48 + i := by
    rw [UInt8.toNat_ofNat']; omega
  refine ⟨?_, e⟩
  simp only [isOctal, Bool.and_eq_true, decide_eq_true_eq, UInt8.le_iff_toNat_le, e]
  exact ⟨by show 48 ≤ 48 + i; omega, by show 48 + i ≤ 55; omega⟩

theorem octal3_eq {i j k : Nat} (hi : i ≤ 1) (hj : j ≤ 7) (hk : k ≤ 7) :
    octal3 (UInt8.ofNat (48 + i)) (UInt8.ofNat (48 + j)) (UInt8.ofNat (48 + k)) = some (UInt8.ofNat (64 * i + 8 * j + k)) := by
  obtain ⟨a1, a2⟩ := isOctal_ofNat (i := i) (by omega)
  obtain ⟨b1, b2⟩ := isOctal_ofNat hj
  obtain ⟨c1, c2⟩ := isOctal_ofNat hk
  simp only [octal3, b1, c1, a2, b2, c2, and_self, if_true]
  rw [if_pos (by omega)]
  congr 2
  omega

theorem octal3_some {a b c n : UInt8} (ha : isOctal a = true) (h : octal3 a b c = some n) :
    ∃ i j k : Nat, i ≤ 1 ∧ j ≤ 7 ∧ k ≤ 7 ∧ a = UInt8.ofNat (48 + i) ∧ b = UInt8.ofNat (48 + j) ∧ c = UInt8.ofNat (48 + k) ∧ n = UInt8.ofNat (64 * i + 8 * j + k) := by
  unfold octal3 at h
  split at h
  · rename_i hbc
    obtain ⟨i, hi, ei, ei'⟩ := octal_digit ha
    obtain ⟨j, hj, ej, ej'⟩ := octal_digit hbc.1
    obtain ⟨k, hk, ek, ek'⟩ := octal_digit hbc.2
    simp only [ei', ej', ek'] at h
    split at h
    · simp only [Option.some.injEq] at h
      refine ⟨i, j, k, by omega, hj, hk, ei, ej, ek, ?_⟩
      rw [← h]
      congr 1
      omega
    · simp at h
  · simp at h

theorem unescape_plain {q c : UInt8} {s : Str} (h : c ≠ 92) : unescape q (c :: s) = (unescape q s).bind fun r => .ok (c :: r) := by
  rw [unescape.eq_def]
  simp only [h, if_false]

theorem unescape_octal {q e b c : UInt8} {s : Str} (h : isOctal e = true) :
    unescape q (92 :: e :: b :: c :: s) = match octal3 e b c with
      | some n => (unescape q (c :: s)).bind fun r => .ok (n :: r)
      | none => .error .panic := by
  have : ¬ (e = 120 ∨ e = 117 ∨ e = 85) := by
    rintro (rfl | rfl | rfl) <;> simp [isOctal] at h
  rw [unescape.eq_def]
  simp only [this, h, if_false, if_true]
  rfl

theorem unescape_escape {q e c : UInt8} {s : Str} (hq : q = 34 ∨ q = 39) (h : (e, c) ∈ escapes q) :
    unescape q (92 :: e :: s) = (unescape q s).bind fun r => .ok (c :: r) := by
  simp only [escapes, List.mem_cons, Prod.mk.injEq, List.not_mem_nil, or_false] at h
  rw [unescape.eq_def]
  rcases hq with rfl | rfl <;>
  rcases h with ⟨rfl, rfl⟩ | ⟨rfl, rfl⟩ | ⟨rfl, rfl⟩ | ⟨rfl, rfl⟩ | ⟨rfl, rfl⟩ | ⟨rfl, rfl⟩ | ⟨rfl, rfl⟩ | ⟨rfl, rfl⟩ | ⟨rfl, rfl⟩ | ⟨rfl, rfl⟩ <;>
  simp [isOctal]

theorem Reads.run {q : UInt8} (hq : q = 34 ∨ q = 39) {body text : Str} (h : Reads q body text) : unescape q body = .ok text := by
  induction h with
  | nil => rw [unescape.eq_def]
  | plain hc _ ih => rw [unescape_plain hc, ih]; rfl
  | escape he _ ih => rw [unescape_escape hq he, ih]; rfl
  | octal hi hj hk _ ih =>
    have hne : UInt8.ofNat (48 + _) ≠ 92 := fun e => by
      have := (isOctal_ofNat hk).1
      rw [e] at this
      simp [isOctal] at this
    rw [unescape_octal (isOctal_ofNat (by omega)).1, octal3_eq hi hj hk]
    simp only
    rw [unescape_plain hne, ih]; rfl

theorem unescape_reads {q : UInt8} (hq : q = 34 ∨ q = 39) : ∀ {n : Nat} {body text : Str}, body.length ≤ n → unescape q body = .ok text → Reads q body text := by
  intro n
  induction n with
  | zero =>
    intro body text hn h
    have : body = [] := List.length_eq_zero_iff.1 (by omega)
    subst this
    rw [unescape.eq_def] at h
    cases h
    exact .nil
  | succ n ih =>
    intro body text hn h
    cases body with
    | nil => rw [unescape.eq_def] at h; cases h; exact .nil
    | cons c s =>
      simp only [List.length_cons] at hn
      by_cases hc : c = 92
      · subst hc
        cases s with
        | nil => rw [unescape.eq_def] at h; simp at h
        | cons e s =>
          simp only [List.length_cons] at hn
          by_cases he : ∃ c, (e, c) ∈ escapes q
          · obtain ⟨c, he⟩ := he
            rw [unescape_escape hq he, bind_ok] at h
            obtain ⟨t, h1, h2⟩ := h
            cases h2
            exact .escape he (ih (by omega) h1)
          · by_cases ho : isOctal e = true
            · match s with
              | [] => rw [unescape.eq_def] at h; simp [ho] at h
              | [_] => rw [unescape.eq_def] at h; simp [ho] at h
              | b :: c :: s =>
                rw [unescape_octal ho] at h
                cases h3 : octal3 e b c with
                | none => rw [h3] at h; simp at h
                | some m =>
                  rw [h3] at h
                  simp only at h
                  rw [bind_ok] at h
                  obtain ⟨t, h1, h2⟩ := h
                  cases h2
                  obtain ⟨i, j, k, hi, hj, hk, rfl, rfl, rfl, rfl⟩ := octal3_some ho h3
                  have hne : UInt8.ofNat (48 + k) ≠ 92 := fun e => by
                    have := (isOctal_ofNat hk).1
                    rw [e] at this
                    simp [isOctal] at this
                  rw [unescape_plain hne, bind_ok] at h1
                  obtain ⟨t', h4, h5⟩ := h1
                  cases h5
                  simp only [List.length_cons] at hn
                  exact .octal hi hj hk (ih (by omega) h4)
            · exfalso
              have ne : ∀ x c, (x, c) ∈ escapes q → e ≠ x := fun x c hm e' => he ⟨c, e' ▸ hm⟩
              rw [unescape.eq_def] at h
              simp [ho, ne 97 7 (by simp [escapes]), ne 98 8 (by simp [escapes]), ne 102 12 (by simp [escapes]), ne 110 10 (by simp [escapes]),
                ne 114 13 (by simp [escapes]), ne 116 9 (by simp [escapes]), ne 118 11 (by simp [escapes]), ne 92 92 (by simp [escapes]),
                ne 39 39 (by simp [escapes]), ne q q (by simp [escapes])] at h
      · rw [unescape_plain hc, bind_ok] at h
        obtain ⟨t, h1, h2⟩ := h
        cases h2
        exact .plain hc (ih (by omega) h1)

theorem unescape_short {q e : UInt8} (h : isOctal e = true) :
    unescape q [92, e] = .error .panic ∧ ∀ b, unescape q [92, e, b] = .error .panic := by
  have : ¬ (e = 120 ∨ e = 117 ∨ e = 85) := by
    rintro (rfl | rfl | rfl) <;> simp [isOctal] at h
  constructor
  · rw [unescape.eq_def]; simp only [this, h, if_false, if_true]
  · intro b; rw [unescape.eq_def]; simp only [this, h, if_false, if_true]

theorem unescape_total {q : UInt8} (body : Str) : unescape q body ≠ .error .oof := by
  have step : ∀ {x : Except Stop Str} {f : Str → Except Stop Str}, x ≠ .error .oof → (∀ r, f r ≠ .error .oof) → x.bind f ≠ .error .oof := by
    intro x f h1 h2
    cases x with
    | error e => exact h1
    | ok r => exact h2 r
  fun_induction unescape q body <;> first
    | (simp; done)
    | (apply step <;> first | assumption | (intro r; simp))

/-! ## String literals -/

/-- **C36** What a literal in double or single quotes is read as. The text between the quotes is read from the
left; a byte that is not a backslash stands for itself, a backslash and one of `a b f n r t v \ '` or the quote
stand for one byte, and an octal escape for its byte and, wrongly, the third digit again. Anything else panics. -/
theorem C36_reads {q last : UInt8} (hq : q = 34 ∨ q = 39) (body : Str) :
    (∀ text, parseString (q :: body ++ [last]) = .ok text ↔ Reads q body text) ∧
    ((¬ ∃ text, Reads q body text) → parseString (q :: body ++ [last]) = .error .panic) := by
  have hne : q ≠ 96 := by rintro rfl; simp at hq
  have hp : parseString (q :: body ++ [last]) = unescape q body := by
    have : ∀ x : Str, x ≠ [] → parseString (q :: x) = unescape q x.dropLast := by
      intro x hx
      cases x with
      | nil => exact absurd rfl hx
      | cons a x => simp only [parseString, hne, if_false]
    rw [List.cons_append, this _ (by simp), List.dropLast_concat]
  rw [hp]
  refine ⟨fun text => ⟨unescape_reads hq (Nat.le_refl _), Reads.run hq⟩, fun hn => ?_⟩
  cases h : unescape q body with
  | ok text => exact absurd ⟨text, unescape_reads hq (Nat.le_refl _) h⟩ hn
  | error e =>
    cases e with
    | panic => rfl
    | oof => exact absurd h (unescape_total _)

theorem Spells.reads {q : UInt8} {body text : Str} (h : Spells q body text) : Reads q body text := by
  induction h with
  | nil => exact .nil
  | plain hc _ ih => exact .plain hc ih
  | escape he _ ih => exact .escape he ih

/-- **C36** A literal in quotes denotes what it spells. Partial: hexadecimal, unicode and octal escapes are not among
the escapes of the table; see `C36_numeric`. -/
theorem C36_spells_partial {q last : UInt8} (hq : q = 34 ∨ q = 39) {body text : Str} (h : Spells q body text) :
    parseString (q :: body ++ [last]) = .ok text := ((C36_reads hq body).1 text).2 h.reads

/-- **C36** Any text can be written between quotes: with backslashes and the quote escaped it is read back as it was. -/
theorem C36_round_trip {q : UInt8} (hq : q = 34 ∨ q = 39) (text : Str) : parseString (q :: quoted q text ++ [q]) = .ok text := by
  refine C36_spells_partial hq ?_
  induction text with
  | nil => exact .nil
  | cons c s ih =>
    simp only [quoted]
    split
    · rename_i h
      refine .escape ?_ ih
      rcases h with rfl | rfl <;> simp [escapes]
    · rename_i h
      exact .plain (fun e => h (.inl e)) ih

theorem undouble_doubled (text : Str) : undouble (doubled text) = text := by
  induction text with
  | nil => rfl
  | cons c s ih =>
    simp only [doubled]
    split
    · rename_i h
      subst h
      simp only [undouble, ih]
    · rename_i h
      have : ∀ x : Str, undouble (c :: x) = c :: undouble x := by
        intro x
        rw [undouble.eq_def]
        split
        · rename_i e; simp only [List.cons.injEq] at e; exact absurd e.1 h
        · rename_i e; simp only [List.cons.injEq] at e; rw [e.1, e.2]
        · rename_i e; simp at e
      rw [this, ih]

/-- **C36** Between backquotes every byte stands for itself, a doubled backquote for one: any text is read back. -/
theorem C36_backquotes (text : Str) : parseString (96 :: doubled text ++ [96]) = .ok text := by
  have : ∀ x : Str, x ≠ [] → parseString (96 :: x) = .ok (undouble x.dropLast) := by
    intro x hx
    cases x with
    | nil => exact absurd rfl hx
    | cons a x => simp only [parseString, if_true]
  rw [List.cons_append, this _ (by simp), List.dropLast_concat, undouble_doubled]

theorem Reads.tail {q : UInt8} (hq : q = 34 ∨ q = 39) {body text body' : Str} (h : Spells q body text) {text' : Str} (hr : Reads q (body ++ body') text') :
    ∃ t, Reads q body' t ∧ text' = text ++ t := by
  induction h generalizing text' with
  | nil => exact ⟨text', hr, rfl⟩
  | plain hc _ ih =>
    have hrun := hr.run hq
    rw [List.cons_append, unescape_plain hc, bind_ok] at hrun
    obtain ⟨t, h1, h2⟩ := hrun
    cases h2
    obtain ⟨t', h3, rfl⟩ := ih (unescape_reads hq (Nat.le_refl _) h1)
    exact ⟨t', h3, rfl⟩
  | @escape e c body text he _ ih =>
    have hrun := hr.run hq
    rw [List.cons_append, List.cons_append, unescape_escape hq he, bind_ok] at hrun
    obtain ⟨t, h1, h2⟩ := hrun
    cases h2
    obtain ⟨t', h3, rfl⟩ := ih (unescape_reads hq (Nat.le_refl _) h1)
    exact ⟨t', h3, rfl⟩

/-- **C36** The numeric escapes do not work. A literal with `\x`, `\u` or `\U`, whatever follows, panics. An octal
escape with three digits up to `177` gives its byte and then the third digit; from `\200` on it panics. -/
theorem C36_numeric {q last : UInt8} (hq : q = 34 ∨ q = 39) {pre text : Str} (h : Spells q pre text) :
    (∀ e body, e = 120 ∨ e = 117 ∨ e = 85 → parseString (q :: (pre ++ 92 :: e :: body) ++ [last]) = .error .panic) ∧
    (∀ (i j k : Nat), i ≤ 1 → j ≤ 7 → k ≤ 7 →
      parseString (q :: (pre ++ [92, UInt8.ofNat (48 + i), UInt8.ofNat (48 + j), UInt8.ofNat (48 + k)]) ++ [last]) =
        .ok (text ++ [UInt8.ofNat (64 * i + 8 * j + k), UInt8.ofNat (48 + k)])) ∧
    (∀ (i : Nat) body, 2 ≤ i → i ≤ 7 → parseString (q :: (pre ++ 92 :: UInt8.ofNat (48 + i) :: body) ++ [last]) = .error .panic) := by
  have app : ∀ {body t}, Reads q body t → Reads q (pre ++ body) (text ++ t) := by
    intro body t hr
    induction h with
    | nil => exact hr
    | plain hc _ ih => exact .plain hc ih
    | escape he _ ih => exact .escape he ih
  refine ⟨fun e body he => (C36_reads hq _).2 ?_, fun i j k hi hj hk => ((C36_reads hq _).1 _).2 (app (.octal hi hj hk .nil)), fun i body h2 h7 => (C36_reads hq _).2 ?_⟩
  · rintro ⟨t, hr⟩
    obtain ⟨t', h1, _⟩ := hr.tail hq h
    have := h1.run hq
    rw [unescape.eq_def] at this
    simp [he] at this
  · rintro ⟨t, hr⟩
    obtain ⟨t', h1, _⟩ := hr.tail hq h
    have hi := isOctal_ofNat (i := i) (by omega)
    have hrun := h1.run hq
    match body with
    | [] => rw [(unescape_short hi.1).1] at hrun; cases hrun
    | [_] => rw [(unescape_short hi.1).2] at hrun; cases hrun
    | b :: c :: s =>
      rw [unescape_octal hi.1] at hrun
      cases h3 : octal3 (UInt8.ofNat (48 + i)) b c with
      | none => rw [h3] at hrun; simp at hrun
      | some m =>
        obtain ⟨i', j, k, hi', hj, hk, e1, e2, e3, e4⟩ := octal3_some hi.1 h3
        have := hi.2
        rw [e1, (isOctal_ofNat (i := i') (by omega)).2] at this
        omega

/-- The hypotheses: `"a\n\"b"` spells `a`, a newline, `"b`; `"\101"` gives `A1`; `"\x41"` panics. -/
example : parseString (str "\"a\\n\\\"b\"") = .ok (str "a\n\"b") ∧
    parseString (str "\"\\101\"") = .ok (str "A1") ∧ parseString (str "\"\\x41\"") = .error .panic := by
  have h : Spells 34 (str "a\\n\\\"b") (str "a\n\"b") :=
    .plain (by decide) (.escape (by decide) (.escape (by decide) (.plain (by decide) .nil)))
  exact ⟨C36_spells_partial (last := 34) (.inl rfl) h, (C36_numeric (last := 34) (.inl rfl) .nil).2.1 1 0 1 (by omega) (by omega) (by omega),
    (C36_numeric (last := 34) (.inl rfl) .nil).1 120 (str "41") (.inl rfl)⟩

/-- Between backquotes: `a``b` for `a`b`. -/
example : parseString (str "`a``b\\n`") = .ok (str "a`b\\n") := C36_backquotes (str "a`b\\n")

/-! ## Regexp literals -/

/-- One pass over a regexp by backslash pairs. `free`: the byte before the pairs of backslashes just read is not part
of the match before. -/
def spaceOnce (free : Bool) : Str → Str
  | 92 :: c :: s =>
    if c = 95 then if free then 32 :: spaceOnce false s else 92 :: 95 :: spaceOnce true s
    else if c = 92 then 92 :: 92 :: spaceOnce free s
    else 92 :: c :: spaceOnce true s
  | c :: s => c :: spaceOnce true s
  | [] => []

theorem spaceOnce_plain {free : Bool} {c : UInt8} {s : Str} (h : c ≠ 92) : spaceOnce free (c :: s) = c :: spaceOnce true s := by
  rw [spaceOnce.eq_def]
  split
  · rename_i e; simp only [List.cons.injEq] at e; exact absurd e.1 h
  · rename_i e; simp only [List.cons.injEq] at e; rw [e.1, e.2]
  · rename_i e; simp at e

theorem pairs_some : ∀ {s pre rest : Str}, pairsThenSpace s = some (pre, rest) → spaceOnce true s = pre ++ 32 :: spaceOnce false rest
  | s, pre, rest, h => by
    unfold pairsThenSpace at h
    split at h
    · rename_i s
      simp only [Option.map_eq_some_iff] at h
      obtain ⟨⟨a, b⟩, h1, h2⟩ := h
      have := pairs_some h1
      simp only [Prod.mk.injEq] at h2
      obtain ⟨rfl, rfl⟩ := h2
      simp [spaceOnce, this]
    · simp only [Option.some.injEq, Prod.mk.injEq] at h
      obtain ⟨rfl, rfl⟩ := h
      simp [spaceOnce]
    · simp at h

theorem pairs_none : ∀ {s : Str}, pairsThenSpace s = none → spaceOnce true s = spaceOnce false s
  | s, h => by
    unfold pairsThenSpace at h
    split at h
    · rename_i s
      simp only [Option.map_eq_none_iff] at h
      have := pairs_none h
      simp [spaceOnce, this]
    · simp at h
    · rename_i h1 h2
      match s with
      | [] => rfl
      | [c] =>
        by_cases hc : c = 92
        · subst hc; rfl
        · rw [spaceOnce_plain hc, spaceOnce_plain hc]
      | c :: d :: s =>
        by_cases hc : c = 92
        · subst hc
          have hd1 : d ≠ 95 := fun e => h2 s (by rw [e])
          have hd2 : d ≠ 92 := fun e => h1 s (by rw [e])
          simp [spaceOnce, hd1, hd2]
        · rw [spaceOnce_plain hc, spaceOnce_plain hc]

theorem escapedSpace_false {s : Str} : escapedSpace false s = match s with
    | c :: s => if c = 92 then none else (pairsThenSpace s).map fun p => (c :: p.1, p.2)
    | [] => none := by simp [escapedSpace]; cases s <;> rfl

theorem spacePass_some {start : Bool} {s pre rest : Str} (h : escapedSpace start s = some (pre, rest)) :
    spacePass start s = pre ++ 32 :: spacePass false rest := by
  rw [spacePass.eq_def]
  split
  · rename_i pre' rest' h'
    rw [h] at h'
    simp only [Option.some.injEq, Prod.mk.injEq] at h'
    rw [h'.1, h'.2]
  · rename_i h'; rw [h] at h'; simp at h'

theorem spacePass_none {start : Bool} {c : UInt8} {s : Str} (h : escapedSpace start (c :: s) = none) :
    spacePass start (c :: s) = c :: spacePass false s := by
  rw [spacePass.eq_def]
  split
  · rename_i h'; rw [h] at h'; simp at h'
  · rfl

theorem spacePass_nil {start : Bool} : spacePass start [] = [] := by
  have h : escapedSpace start [] = none := by cases start <;> simp [escapedSpace, pairsThenSpace]
  rw [spacePass.eq_def]
  split
  · rename_i h'; rw [h] at h'; simp at h'
  · rfl

theorem spacePass_false : ∀ (n : Nat) (s : Str), s.length ≤ n → spacePass false s = spaceOnce false s := by
  intro n
  induction n with
  | zero =>
    intro s hn
    have : s = [] := List.length_eq_zero_iff.1 (by omega)
    subst this
    rw [spacePass_nil]; rfl
  | succ n ih =>
    -- a byte that is no backslash, and what follows
    have plain : ∀ (c : UInt8) (s : Str), c ≠ 92 → s.length ≤ n → spacePass false (c :: s) = c :: spaceOnce true s := by
      intro c s hc hn
      cases hp : pairsThenSpace s with
      | none =>
        rw [spacePass_none (by simp [escapedSpace_false, hc, hp]), ih s hn, pairs_none hp]
      | some p =>
        obtain ⟨pre, rest⟩ := p
        have := pairsThenSpace_length hp
        rw [spacePass_some (pre := c :: pre) (rest := rest) (by simp [escapedSpace_false, hc, hp]), ih rest (by omega), pairs_some hp]
        rfl
    have slash : ∀ s : Str, spacePass false (92 :: s) = 92 :: spacePass false s :=
      fun s => spacePass_none (by simp [escapedSpace_false])
    intro s hn
    cases s with
    | nil => rw [spacePass_nil]; rfl
    | cons c s =>
      simp only [List.length_cons] at hn
      by_cases hc : c = 92
      · subst hc
        rw [slash]
        cases s with
        | nil => rw [spacePass_nil]; rfl
        | cons d s =>
          simp only [List.length_cons] at hn
          by_cases hd : d = 92
          · subst hd
            rw [slash, ih s (by omega)]
            simp [spaceOnce]
          · rw [plain d s hd (by omega)]
            by_cases hd' : d = 95
            · subst hd'; simp [spaceOnce]
            · simp [spaceOnce, hd, hd']
      · rw [plain c s hc (by omega), spaceOnce_plain hc]

theorem spacePass_true (s : Str) : spacePass true s = spaceOnce true s := by
  cases hp : pairsThenSpace s with
  | some p =>
    obtain ⟨pre, rest⟩ := p
    rw [spacePass_some (pre := pre) (rest := rest) (by simp [escapedSpace, hp]), pairs_some hp, spacePass_false _ _ (Nat.le_refl _)]
  | none =>
    have h : escapedSpace true s = escapedSpace false s := by simp [escapedSpace, hp]
    rw [pairs_none hp, ← spacePass_false _ _ (Nat.le_refl _)]
    cases s with
    | nil => rw [spacePass_nil, spacePass_nil]
    | cons c s =>
      cases h' : escapedSpace false (c :: s) with
      | none => rw [spacePass_none (h.trans h'), spacePass_none h']
      | some p => rw [spacePass_some (h.trans h'), spacePass_some h']

theorem withSpaces_plain {c : UInt8} {s : Str} (h : c ≠ 92) : withSpaces (c :: s) = c :: withSpaces s := by
  rw [withSpaces.eq_def]
  split
  · rename_i e; simp only [List.cons.injEq] at e; exact absurd e.1 h
  · rename_i e; simp only [List.cons.injEq] at e; exact absurd e.1 h
  · rename_i e; simp only [List.cons.injEq] at e; rw [e.1, e.2]
  · rename_i e; simp at e

theorem withSpaces_pair {c : UInt8} {s : Str} (h : c ≠ 95) : withSpaces (92 :: c :: s) = 92 :: c :: withSpaces s := by
  rw [withSpaces.eq_def]
  split
  · rename_i e; simp only [List.cons.injEq] at e; exact absurd e.2.1 h
  · rename_i e; simp only [List.cons.injEq] at e; rw [e.2.1, e.2.2]
  · rename_i h1 e; simp only [List.cons.injEq] at e; exact (h1 c s e.1.symm e.2.symm).elim
  · rename_i e; simp at e

theorem twice : ∀ (s : Str),
    spaceOnce true (spaceOnce true s) = withSpaces s ∧ spaceOnce false (spaceOnce true s) = withSpaces s ∧
    spaceOnce true (spaceOnce false s) = withSpaces s
  | [] => ⟨rfl, rfl, rfl⟩
  | [c] => by
    by_cases hc : c = 92
    · subst hc; exact ⟨rfl, rfl, rfl⟩
    · simp only [spaceOnce_plain hc, withSpaces_plain hc]
      exact ⟨rfl, rfl, rfl⟩
  | c :: d :: s => by
    by_cases hc : c = 92
    · subst hc
      have h := twice s
      by_cases hd : d = 95
      · subst hd
        simp [spaceOnce, withSpaces, h, spaceOnce_plain]
      · rw [withSpaces_pair hd]
        by_cases hd' : d = 92
        · subst hd'
          simp [spaceOnce, h]
        · simp [spaceOnce, h, hd, hd']
    · have h := twice (d :: s)
      simp only [spaceOnce_plain hc, withSpaces_plain hc, h, and_self]
termination_by s => s.length

theorem withSpaces_snoc {c : UInt8} (hc : c ≠ 95) : ∀ s : Str, withSpaces (s ++ [c]) = withSpaces s ++ [c]
  | [] => by cases c using UInt8.rec; rw [List.nil_append, withSpaces.eq_def]; split <;> simp_all [withSpaces]
  | [d] => by
    by_cases hd : d = 92
    · subst hd; rw [List.cons_append, List.nil_append, withSpaces_pair hc]; rfl
    · rw [List.cons_append, withSpaces_plain hd, withSpaces_snoc hc [], withSpaces_plain hd]; rfl
  | d :: e :: s => by
    by_cases hd : d = 92
    · subst hd
      by_cases he : e = 95
      · subst he; simp only [List.cons_append, withSpaces, withSpaces_snoc hc s]
      · simp only [List.cons_append, withSpaces_pair he, withSpaces_snoc hc s]
    · rw [List.cons_append, withSpaces_plain hd, withSpaces_snoc hc (e :: s), withSpaces_plain hd]; rfl
termination_by s => s.length

/-- **C49** Two passes over the text, each of which misses a `\_` right after one it replaces, replace each `\_`
whose backslash is not itself escaped, and nothing else. -/
theorem C49_spaces (s : Str) : spacePass true (spacePass true s) = withSpaces s := by
  rw [spacePass_true, spacePass_true]; exact (twice s).1

/-- **C49** The regexp of a literal `/{body}` is the body without its whitespace, with `\_` for a space. -/
theorem C49_braces (body : Str) :
    parseRE (str "/{" ++ body ++ str "}") = withSpaces (body.filter fun c => ! (c = 9 || c = 10 || c = 12 || c = 13 || c = 32)) := by
  simp only [parseRE, C49_spaces]
  generalize hb : (body.filter fun c => ! (c = 9 || c = 10 || c = 12 || c = 13 || c = 32)) = b
  have e : (str "/{" ++ body ++ str "}").filter (fun c => !isSpaceRE c) = 47 :: 123 :: (b ++ [125]) := by
    rw [List.filter_append, List.filter_append, ← hb]
    rfl
  rw [e, withSpaces_plain (by decide), withSpaces_plain (by decide), withSpaces_snoc (by decide),
    if_pos (show str "/{" <+: 47 :: 123 :: (withSpaces b ++ [125]) from ⟨withSpaces b ++ [125], rfl⟩)]
  simp

/-- **C49** The regexp of a literal without braces is its text without whitespace, with `\_` for a space. -/
theorem C49_bare {text : Str} (h : ¬ str "/{" <+: withSpaces (text.filter fun c => ! (c = 9 || c = 10 || c = 12 || c = 13 || c = 32))) :
    parseRE text = withSpaces (text.filter fun c => ! (c = 9 || c = 10 || c = 12 || c = 13 || c = 32)) := by
  simp only [parseRE, C49_spaces]
  exact if_neg h

/-- `/{ a\_\_\_b \\_ }` is the regexp `a   b\\_`. -/
example : parseRE (str "/{ a\\_\\_\\_b \\\\_ }") = str "a   b\\\\_" :=
  C49_braces (str " a\\_\\_\\_b \\\\_ ")

/-- One pass would not do. -/
example : spacePass true (str "\\_\\_\\_") = str " \\_ " := by rw [spacePass_true]; rfl

example : parseRE (str "[a\\_]+") = str "[a ]+" := C49_bare (by decide)

end Wbnf

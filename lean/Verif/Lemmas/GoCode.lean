import Verif.Spec.GoCode
import Verif.Model.Codegen

/-!
# Lemmas about the values of Go texts
-/

namespace Wbnf

/-! ## Texts -/

theorem GoText.nil : GoText [] := ⟨[], rfl, by simp⟩

theorem GoText.append {a b : Str} (ha : GoText a) (hb : GoText b) : GoText (a ++ b) := by
  obtain ⟨cs, rfl, h1⟩ := ha
  obtain ⟨ds, rfl, h2⟩ := hb
  refine ⟨cs ++ ds, by simp, fun c hc => ?_⟩
  rcases List.mem_append.mp hc with h | h
  · exact h1 c h
  · exact h2 c h

/-- Bytes from 1 to 127. -/
def Ascii (s : Str) : Prop := ∀ c ∈ s, 0 < c ∧ c < 128

theorem GoText.ascii {s : Str} (h : Ascii s) : GoText s := by
  induction s with
  | nil => exact .nil
  | cons c s ih =>
    have h1 := h c (by simp)
    have : GoText [c] := by
      refine ⟨[Char.ofNat c.toNat], ?_, ?_⟩
      · have hc : c.toNat < 128 := by have := h1.2; rw [UInt8.lt_iff_toNat_lt] at this; exact this
        have hv : c.toNat.isValidChar := by left; omega
        have e : (Char.ofNat c.toNat).val.toNat = c.toNat := by
          simp [Char.ofNat, hv, Char.ofNatAux]
        simp only [List.flatMap_cons, List.flatMap_nil, List.append_nil, String.utf8EncodeChar]
        rw [e]
        have : c.toNat ≤ 0x7f := by omega
        simp [this]
      · intro d hd
        simp only [List.mem_singleton] at hd
        subst hd
        have hc : c.toNat < 128 := by have := h1.2; rw [UInt8.lt_iff_toNat_lt] at this; exact this
        have h0 : 0 < c.toNat := by have := h1.1; rw [UInt8.lt_iff_toNat_lt] at this; exact this
        have hv : c.toNat.isValidChar := by left; omega
        have e : (Char.ofNat c.toNat).toNat = c.toNat := by
          simp [Char.ofNat, hv, Char.ofNatAux, Char.toNat]
        rw [e]
        omega
    exact this.append (ih fun d hd => h d (by simp [hd]))

instance (s : Str) : Decidable (Ascii s) := by unfold Ascii; infer_instance

theorem safeString_append (a b : Str) : safeString (a ++ b) = safeString a ++ safeString b := by
  induction a with
  | nil => rfl
  | cons c a ih =>
    simp only [List.cons_append, safeString]
    split <;> simp [ih]

theorem safeString_none {a : Str} (h : (96 : UInt8) ∉ a) : safeString a = a := by
  induction a with
  | nil => rfl
  | cons c a ih =>
    simp only [List.mem_cons, not_or] at h
    simp [safeString, Ne.symm h.1, ih h.2]

theorem encode_backquote {c : Char} (h : (96 : UInt8) ∈ String.utf8EncodeChar c) : String.utf8EncodeChar c = [96] := by
  unfold String.utf8EncodeChar at h ⊢
  simp only at h ⊢
  have hb : ∀ n : Nat, 128 ≤ n → n < 256 → (96 : UInt8) ≠ UInt8.ofNat n := by
    intro n h1 h2 e
    have := congrArg UInt8.toNat e
    simp at this
    omega
  split at h
  · rename_i h1
    rw [if_pos h1]
    simp only [List.mem_singleton] at h
    rw [h]
  · exfalso
    split at h
    · simp only [List.mem_cons, List.not_mem_nil, or_false] at h
      rcases h with h | h <;> exact hb _ (by omega) (by omega) h
    · split at h
      · simp only [List.mem_cons, List.not_mem_nil, or_false] at h
        rcases h with h | h | h <;> exact hb _ (by omega) (by omega) h
      · simp only [List.mem_cons, List.not_mem_nil, or_false] at h
        rcases h with h | h | h | h <;> exact hb _ (by omega) (by omega) h

theorem GoText.safe {a : Str} (h : GoText a) : GoText (safeString a) := by
  obtain ⟨cs, rfl, hc⟩ := h
  induction cs with
  | nil => exact .nil
  | cons c cs ih =>
    rw [List.flatMap_cons, safeString_append]
    refine GoText.append ?_ (ih fun d hd => hc d (by simp [hd]))
    by_cases h : (96 : UInt8) ∈ String.utf8EncodeChar c
    · rw [encode_backquote h]
      exact .ascii (by decide)
    · rw [safeString_none h]
      exact ⟨[c], by simp, by simpa using hc c (by simp)⟩

/-! ## Tokens -/

theorem lexRun_append (st : LexState) (a b : Str) : lexRun st (a ++ b) =
    match lexRun st a with
    | none => none
    | some (ts, st') =>
      match lexRun st' b with
      | none => none
      | some (ts', st'') => some (ts ++ ts', st'') := by
  induction a generalizing st with
  | nil =>
    simp only [List.nil_append, lexRun]
    cases lexRun st b with
    | none => rfl
    | some p => rfl
  | cons c a ih =>
    simp only [List.cons_append, lexRun]
    cases lexStep st c with
    | none => rfl
    | some p =>
      obtain ⟨ts, st'⟩ := p
      simp only [ih st']
      cases lexRun st' a with
      | none => rfl
      | some q =>
        obtain ⟨ts1, st1⟩ := q
        simp only
        cases lexRun st1 b with
        | none => rfl
        | some r => simp

theorem lexRun_trans {st st1 st2 : LexState} {a b : Str} {ts1 ts2 : List GoTok} (h1 : lexRun st a = some (ts1, st1))
    (h2 : lexRun st1 b = some (ts2, st2)) : lexRun st (a ++ b) = some (ts1 ++ ts2, st2) := by
  rw [lexRun_append, h1]
  simp only [h2]

theorem lexTop_word {b : Bool} {c : UInt8} (h : isGoWord c = true) : lexTop b c = some ([], .word [c]) := by
  have hn : ∀ d : UInt8, isGoWord d = false → c ≠ d := by rintro d hd rfl; rw [hd] at h; cases h
  unfold lexTop
  rw [if_neg, if_neg, if_neg, if_neg, if_pos h]
  · exact hn 34 (by decide)
  · exact hn 96 (by decide)
  · exact hn 10 (by decide)
  · rintro (e | e | e)
    · exact hn 32 (by decide) e
    · exact hn 9 (by decide) e
    · exact hn 13 (by decide) e

theorem lexRun_word : ∀ {w acc : Str}, (∀ c ∈ w, isGoWord c = true) → lexRun (.word acc) w = some ([], .word (acc ++ w))
  | [], acc, _ => by simp [lexRun]
  | c :: w, acc, h => by
    have h1 := h c (by simp)
    have := lexRun_word (w := w) (acc := acc ++ [c]) fun d hd => h d (by simp [hd])
    simp [lexRun, lexStep, h1, this]

/-- A word. -/
def Word (w : Str) : Prop := w ≠ [] ∧ ∀ c ∈ w, isGoWord c = true

instance (w : Str) : Decidable (Word w) := by unfold Word; infer_instance

theorem Word.ascii {w : Str} (h : Word w) : Ascii w := by
  intro c hc
  have := h.2 c hc
  have key : ∀ c : UInt8, isGoWord c = true → 0 < c ∧ c < 128 := by
    intro c hc
    simp only [isGoWord, Bool.or_eq_true, Bool.and_eq_true, decide_eq_true_eq, beq_iff_eq] at hc
    simp only [UInt8.le_iff_toNat_le, UInt8.lt_iff_toNat_lt] at hc ⊢
    rcases hc with (((h | h) | h) | h) | h
    · have h1 := h.1; have h2 := h.2; simp at h1 h2 ⊢; omega
    · have h1 := h.1; have h2 := h.2; simp at h1 h2 ⊢; omega
    · have h1 := h.1; have h2 := h.2; simp at h1 h2 ⊢; omega
    · rw [h]; decide
    · rw [h]; decide
  exact key c this

theorem lexRun_top_word {b : Bool} {w : Str} (h : Word w) : lexRun (.top b) w = some ([], .word w) := by
  obtain ⟨h0, h1⟩ := h
  cases w with
  | nil => exact absurd rfl h0
  | cons c w =>
    have := lexRun_word (w := w) (acc := [c]) fun d hd => h1 d (by simp [hd])
    simp [lexRun, lexStep, lexTop_word (h1 c (by simp)), this]

/-- A byte that is a token and can follow or open something. -/
def isMark (c : UInt8) : Bool := c == 40 || c == 123 || c == 44 || c == 58 || c == 41 || c == 125
def isClose (c : UInt8) : Bool := c == 41 || c == 125

theorem isMark_iff {c : UInt8} (h : isMark c = true) : c = 40 ∨ c = 123 ∨ c = 44 ∨ c = 58 ∨ c = 41 ∨ c = 125 := by
  simp only [isMark, Bool.or_eq_true, beq_iff_eq] at h
  rcases h with ((((h | h) | h) | h) | h) | h <;> simp [h]

theorem lexTop_mark {b : Bool} {c : UInt8} (h : isMark c = true) : lexTop b c = some ([.punct c], .top (isClose c)) := by
  rcases isMark_iff h with rfl | rfl | rfl | rfl | rfl | rfl <;> rfl

theorem lexRun_mark {b : Bool} {c : UInt8} (h : isMark c = true) :
    lexRun (.top b) [c] = some ([.punct c], .top (isClose c)) := by
  simp [lexRun, lexStep, lexTop_mark h]

theorem lexRun_word_mark {w : Str} {c : UInt8} (h : isMark c = true) :
    lexRun (.word w) [c] = some ([.word w, .punct c], .top (isClose c)) := by
  have : isGoWord c = false := by rcases isMark_iff h with rfl | rfl | rfl | rfl | rfl | rfl <;> rfl
  simp [lexRun, lexStep, lexTop_mark h, this]

/-- The text is read as these tokens, if a comma or a closing bracket follows. -/
def Lexes (s : Str) (toks : List GoTok) : Prop :=
  ∀ c, isMark c = true → lexRun (.top false) (s ++ [c]) = some (toks ++ [.punct c], .top (isClose c))

theorem Lexes.word {w : Str} (h : Word w) : Lexes w [.word w] := fun c hc => by
  rw [lexRun_trans (lexRun_top_word h) (lexRun_word_mark hc)]; rfl

theorem Lexes.of_top {s : Str} {toks : List GoTok} {b : Bool} (h : lexRun (.top false) s = some (toks, .top b)) :
    Lexes s toks := fun _ hc => lexRun_trans h (lexRun_mark hc)

/-- `w` and an opening bracket or a colon. -/
theorem lexRun_open {w : Str} {c : UInt8} (h : Word w) (hc : isMark c = true) (hn : isClose c = false) :
    lexRun (.top false) (w ++ [c]) = some ([.word w, .punct c], .top false) := by
  rw [lexRun_trans (lexRun_top_word h) (lexRun_word_mark hc), hn]; rfl

theorem lexRun_space {b : Bool} : lexRun (.top b) [32] = some ([], .top b) := by simp [lexRun, lexStep, lexTop]

theorem lexRun_newline : lexRun (.top false) [10] = some ([], .top false) := by simp [lexRun, lexStep, lexTop]

theorem lexRun_raw : ∀ {s acc : Str}, (96 : UInt8) ∉ s → (13 : UInt8) ∉ s → lexRun (.raw acc) s = some ([], .raw (acc ++ s))
  | [], acc, _, _ => by simp [lexRun]
  | c :: s, acc, h1, h2 => by
    simp only [List.mem_cons, not_or] at h1 h2
    have := lexRun_raw (s := s) (acc := acc ++ [c]) h1.2 h2.2
    simp [lexRun, lexStep, Ne.symm h1.1, Ne.symm h2.1, this]

theorem lexRun_quoted : ∀ {s acc : Str}, (34 : UInt8) ∉ s → (92 : UInt8) ∉ s → (10 : UInt8) ∉ s →
    lexRun (.quoted acc) s = some ([], .quoted (acc ++ s))
  | [], acc, _, _, _ => by simp [lexRun]
  | c :: s, acc, h1, h2, h3 => by
    simp only [List.mem_cons, not_or] at h1 h2 h3
    have := lexRun_quoted (s := s) (acc := acc ++ [c]) h1.2 h2.2 h3.2
    simp [lexRun, lexStep, Ne.symm h1.1, Ne.symm h2.1, Ne.symm h3.1, this]

/-- A string in back quotes. -/
theorem lexRun_backquotes {b : Bool} {s : Str} (h1 : (96 : UInt8) ∉ s) (h2 : (13 : UInt8) ∉ s) :
    lexRun (.top b) (str "`" ++ s ++ str "`") = some ([.str s], .top true) := by
  have e1 : lexRun (.top b) (str "`") = some ([], .raw []) := rfl
  have e2 : lexRun (.raw s) (str "`") = some ([.str s], .top true) := rfl
  rw [List.append_assoc, lexRun_trans e1 (lexRun_trans (lexRun_raw h1 h2) e2)]; rfl

/-- A string in quotes. -/
theorem lexRun_quotes {b : Bool} {s : Str} (h1 : (34 : UInt8) ∉ s) (h2 : (92 : UInt8) ∉ s) (h3 : (10 : UInt8) ∉ s) :
    lexRun (.top b) (str "\"" ++ s ++ str "\"") = some ([.str s], .top true) := by
  have e1 : lexRun (.top b) (str "\"") = some ([], .quoted []) := rfl
  have e2 : lexRun (.quoted s) (str "\"") = some ([.str s], .top true) := rfl
  rw [List.append_assoc, lexRun_trans e1 (lexRun_trans (lexRun_quoted h1 h2 h3) e2)]; rfl

/-- The tokens for a string with back quotes in it, after `acc`. -/
def safeToks : Str → Str → List GoTok
  | acc, [] => [.str acc]
  | acc, c :: s => if c = 96 then .str acc :: .punct 43 :: .str [96] :: .punct 43 :: safeToks [] s else safeToks (acc ++ [c]) s

theorem lexRun_safe : ∀ {s acc : Str}, (13 : UInt8) ∉ s →
    lexRun (.raw acc) (safeString s ++ str "`") = some (safeToks acc s, .top true)
  | [], acc, _ => rfl
  | c :: s, acc, h => by
    simp only [List.mem_cons, not_or] at h
    by_cases hc : c = 96
    · simp only [safeString, hc, if_true, safeToks]
      have e : lexRun (.raw acc) (str "`+\"`\"+`") =
        some ([.str acc, .punct 43, .str [96], .punct 43], .raw []) := rfl
      rw [List.append_assoc, lexRun_trans e (lexRun_safe (acc := []) h.2)]; rfl
    · simp only [safeString, hc, if_false, safeToks]
      have e : lexRun (.raw acc) [c] = some ([], .raw (acc ++ [c])) := by simp [lexRun, lexStep, hc, Ne.symm h.1]
      have := lexRun_trans e (lexRun_safe (s := s) (acc := acc ++ [c]) h.2)
      simpa using this

theorem safeToks_ne (acc s : Str) : ∃ v ts, safeToks acc s = .str v :: ts := by
  induction s generalizing acc with
  | nil => exact ⟨_, _, rfl⟩
  | cons c s ih =>
    simp only [safeToks]
    split
    · exact ⟨_, _, rfl⟩
    · exact ih _

/-- Their value. -/
theorem goConcat_safe : ∀ {s acc pre : Str} {ts : List GoTok}, (∀ c ts', ts = .punct c :: ts' → c ≠ 43) →
    ∃ v rest, safeToks acc s = .str v :: rest ∧ goConcat (pre ++ v) (rest ++ ts) = (pre ++ acc ++ s, ts)
  | [], acc, pre, ts, h => by
    refine ⟨acc, [], rfl, ?_⟩
    simp only [List.nil_append, List.append_nil]
    unfold goConcat
    split
    · rename_i c s' ts' 
      simp [h c _ rfl]
    · rfl
  | c :: s, acc, pre, ts, h => by
    by_cases hc : c = 96
    · simp only [safeToks, hc, if_true]
      refine ⟨_, _, rfl, ?_⟩
      obtain ⟨v, rest, e1, e2⟩ := goConcat_safe (s := s) (acc := []) (pre := pre ++ acc ++ [96]) h
      rw [e1]
      simp only [List.cons_append, goConcat, if_true]
      rw [e2]
      simp
    · simp only [safeToks, hc, if_false]
      obtain ⟨v, rest, e1, e2⟩ := goConcat_safe (s := s) (acc := acc ++ [c]) (pre := pre) h
      refine ⟨v, rest, e1, ?_⟩
      rw [e2]
      simp

/-! ## Elements -/

/-- The tokens are read as an element, if a comma or a closing bracket follows. -/
structure Element (toks : List GoTok) (e : GoElem) : Prop where
  head : ∀ c, toks.head? ≠ some (.punct c)
  ne : toks ≠ []
  value : ∀ n c rest, c = 44 ∨ isClose c = true → toks.length ≤ n →
    (goKey (toks ++ .punct c :: rest)).1 = e.1 ∧ goExpr n (goKey (toks ++ .punct c :: rest)).2 = some (e.2, .punct c :: rest)

/-- The text is read as an element. -/
def Piece (s : Str) (e : GoElem) : Prop := GoText s ∧ ∃ toks, Lexes s toks ∧ Element toks e

theorem goKey_none {ts : List GoTok} (h : (goKey ts).1 = .none) : (goKey ts).2 = ts := by
  unfold goKey at h ⊢
  split at h
  · split at h
    · simp at h
    · simp_all
  · split at h
    · simp at h
    · simp_all
  · rfl

theorem mark_of {c : UInt8} (h : c = 44 ∨ isClose c = true) : isMark c = true := by
  rcases h with rfl | h
  · rfl
  · simp only [isClose, Bool.or_eq_true, beq_iff_eq] at h
    rcases h with rfl | rfl <;> rfl

theorem mark_not_colon {c : UInt8} (h : c = 44 ∨ isClose c = true) : c ≠ 58 ∧ c ≠ 43 ∧ c ≠ 40 ∧ c ≠ 123 := by
  rcases h with rfl | h
  · decide
  · simp only [isClose, Bool.or_eq_true, beq_iff_eq] at h
    rcases h with rfl | rfl <;> decide

theorem Element.const {w : Str} {v : GoVal} (h : goConst w = some v) : Element [.word w] (.none, v) where
  head := by simp
  ne := by simp
  value n c rest hc hn := by
    obtain ⟨h1, h2, h3, h4⟩ := mark_not_colon hc
    simp only [List.length_singleton] at hn
    obtain ⟨m, rfl⟩ : ∃ m, n = m + 1 := ⟨n - 1, by omega⟩
    simp [goKey, h1, goExpr, h3, h4, h]

theorem Element.string {s : Str} : Element (safeToks [] s) (.none, .str s) where
  head c := by
    obtain ⟨v, ts, e⟩ := safeToks_ne [] s
    simp [e]
  ne := by
    obtain ⟨v, ts, e⟩ := safeToks_ne [] s
    simp [e]
  value n c rest hc hn := by
    obtain ⟨h1, h2, h3, h4⟩ := mark_not_colon hc
    obtain ⟨v, ts, e1, e2⟩ := goConcat_safe (s := s) (acc := []) (pre := []) (ts := .punct c :: rest)
      (by intro d ts' e; cases e; exact h2)
    rw [e1] at hn ⊢
    simp only [List.length_cons] at hn
    obtain ⟨m, rfl⟩ : ∃ m, n = m + 1 := ⟨n - 1, by omega⟩
    simp only [List.nil_append] at e2
    have key : goKey (.str v :: ts ++ .punct c :: rest) = (.none, .str v :: ts ++ .punct c :: rest) := by
      cases ts with
      | nil => simp [goKey, h1]
      | cons t ts =>
        cases t with
        | punct d =>
          have : d ≠ 58 := by
            intro e
            subst e
            cases s with
            | nil => simp [safeToks] at e1
            | cons a s =>
              clear e2 hn
              have aux : ∀ (s acc : Str) v ts, safeToks acc s ≠ .str v :: .punct 58 :: ts := by
                intro s
                induction s with
                | nil => simp [safeToks]
                | cons a s ih =>
                  intro acc v ts
                  simp only [safeToks]
                  split
                  · simp
                  · exact ih _ _ _
              exact aux _ _ _ _ e1
          simp [goKey, this]
        | word w => simp [goKey]
        | str u => simp [goKey]
        | semi => simp [goKey]
    rw [key]
    simp [goExpr, e2]

/-- A field. -/
theorem Element.field {k : Str} {toks : List GoTok} {v : GoVal} (h : Element toks (.none, v)) :
    Element (.word k :: .punct 58 :: toks) (.field k, v) where
  head := by simp
  ne := by simp
  value n c rest hc hn := by
    simp only [List.length_cons] at hn
    have := h.value n c rest hc (by omega)
    simp only at this
    rw [goKey_none this.1] at this
    simp [goKey, this.2]

/-- An entry of a map. -/
theorem Element.entry {k : Str} {toks : List GoTok} {v : GoVal} (h : Element toks (.none, v)) :
    Element (.str k :: .punct 58 :: toks) (.str k, v) where
  head := by simp
  ne := by simp
  value n c rest hc hn := by
    simp only [List.length_cons] at hn
    have := h.value n c rest hc (by omega)
    simp only at this
    rw [goKey_none this.1] at this
    simp [goKey, this.2]

theorem Piece.const {w : Str} {v : GoVal} (hw : Word w) (h : goConst w = some v) : Piece w (.none, v) :=
  ⟨.ascii hw.ascii, _, .word hw, .const h⟩

theorem Piece.field {k s : Str} {v : GoVal} (hk : Word k) (h : Piece s (.none, v)) :
    Piece (k ++ str ": " ++ s) (.field k, v) := by
  obtain ⟨h1, toks, h2, h3⟩ := h
  refine ⟨(GoText.append (.ascii hk.ascii) (.ascii (by decide))).append h1, _, fun c hc => ?_, h3.field⟩
  have e : k ++ str ": " ++ s ++ [c] = (k ++ [58]) ++ ([32] ++ (s ++ [c])) := by simp [str]
  rw [e, lexRun_trans (lexRun_open hk rfl rfl) (lexRun_trans lexRun_space (h2 c hc))]
  rfl

theorem Piece.entry {k s : Str} {v : GoVal} (h1 : (34 : UInt8) ∉ k) (h2 : (92 : UInt8) ∉ k) (h3 : (10 : UInt8) ∉ k)
    (ht : GoText k) (h : Piece s (.none, v)) : Piece (str "\"" ++ k ++ str "\"" ++ str ":" ++ s) (.str k, v) := by
  obtain ⟨h4, toks, h5, h6⟩ := h
  refine ⟨?_, _, fun c hc => ?_, h6.entry⟩
  · exact ((((GoText.ascii (by decide)).append ht).append (.ascii (by decide))).append (.ascii (by decide))).append h4
  · have e : str "\"" ++ k ++ str "\"" ++ str ":" ++ s ++ [c] = (str "\"" ++ k ++ str "\"") ++ ([58] ++ (s ++ [c])) := by
      simp [str]
    rw [e, lexRun_trans (lexRun_quotes h1 h2 h3) (lexRun_trans (lexRun_mark (c := 58) rfl) (h5 c hc))]
    rfl

/-! ## Groups -/

/-- Elements, one by one. -/
inductive Pieces : List GoNode → List GoElem → Prop
  | nil : Pieces [] []
  | cons {c e cs es} (h : Piece c.string e) (hs : Pieces cs es) : Pieces (c :: cs) (e :: es)

/-- Elements with commas between them. -/
theorem joined_pieces : ∀ {cs : List GoNode} {es : List GoElem}, Pieces cs es →
    GoText (joinNodes cs) ∧ ∃ toks, (∀ c, isClose c = true →
        lexRun (.top false) (joinNodes cs ++ [c]) = some (toks ++ [.punct c], .top true)) ∧
      ∀ n c rest, isClose c = true → toks.length + 1 ≤ n → goElems n c (toks ++ .punct c :: rest) = some (es, rest)
  | [], [], _ => by
    refine ⟨.nil, [], fun c hc => ?_, fun n c rest _ hn => ?_⟩
    · have := lexRun_mark (b := false) (mark_of (.inr hc))
      rw [hc] at this
      simpa [joinNodes] using this
    · obtain ⟨m, rfl⟩ : ∃ m, n = m + 1 := ⟨n - 1, by omega⟩
      simp [goElems]
  | [c], [e], .cons h .nil => by
    obtain ⟨h1, toks, h2, h3⟩ := h
    refine ⟨by simpa [joinNodes, joinMore] using h1, toks, fun d hd => ?_, fun n d rest hd hn => ?_⟩
    · have := h2 d (mark_of (.inr hd))
      rw [hd] at this
      simpa [joinNodes, joinMore] using this
    · obtain ⟨m, rfl⟩ : ∃ m, n = m + 1 := ⟨n - 1, by omega⟩
      have hv := h3.value m d rest (.inr hd) (by omega)
      have hh : (toks ++ .punct d :: rest).head? ≠ some (.punct d) := by
        have := h3.head d
        have hne := h3.ne
        cases toks with
        | nil => exact absurd rfl hne
        | cons t ts => simpa using this
      have h44 : d ≠ 44 := by rintro rfl; cases hd
      rw [goElems, if_neg hh, hv.1, hv.2]
      simp [h44]
  | c :: c' :: cs, e :: e' :: es, .cons h hs => by
    obtain ⟨h1, toks, h2, h3⟩ := h
    obtain ⟨i1, toks', i2, i3⟩ := joined_pieces hs
    have ej : joinNodes (c :: c' :: cs) = c.string ++ str ",\n" ++ joinNodes (c' :: cs) := by
      simp [joinNodes, joinMore]
    refine ⟨by rw [ej]; exact (h1.append (.ascii (by decide))).append i1, toks ++ .punct 44 :: toks', fun d hd => ?_,
      fun n d rest hd hn => ?_⟩
    · have e1 : joinNodes (c :: c' :: cs) ++ [d] = (c.string ++ [44]) ++ ([10] ++ (joinNodes (c' :: cs) ++ [d])) := by
        rw [ej]; simp [str]
      rw [e1, lexRun_trans (h2 44 rfl) (lexRun_trans lexRun_newline (i2 d hd))]
      simp
    · simp only [List.length_append, List.length_cons] at hn
      obtain ⟨m, rfl⟩ : ∃ m, n = m + 1 := ⟨n - 1, by omega⟩
      have hv := h3.value m 44 (toks' ++ .punct d :: rest) (.inl rfl) (by omega)
      have hh : (toks ++ .punct 44 :: toks' ++ .punct d :: rest).head? ≠ some (.punct d) := by
        have := h3.head d
        have hne := h3.ne
        cases toks with
        | nil => exact absurd rfl hne
        | cons t ts => simpa using this
      rw [goElems, if_neg hh]
      simp only [List.append_assoc, List.cons_append] at hv ⊢
      rw [hv.1, hv.2]
      simp only [if_true]
      rw [i3 m d rest hd (by omega)]

theorem Piece.call {w : Str} {cs : List GoNode} {es : List GoElem} {v : GoVal} (hw : Word w)
    (h : Pieces cs es) (hv : goCall w es = some v) :
    Piece (GoNode.mk w cs .braces).string (.none, v) := by
  obtain ⟨h1, toks, h2, h3⟩ := joined_pieces h
  refine ⟨?_, .word w :: .punct 40 :: (toks ++ [.punct 41]), fun c hc => ?_, ?_, ?_, ?_⟩
  · exact (((GoText.ascii hw.ascii).append (.ascii (by decide))).append h1).append (.ascii (by decide))
  · have e : (GoNode.mk w cs .braces).string ++ [c] = (w ++ [40]) ++ ((joinNodes cs ++ [41]) ++ [c]) := by
      simp [GoNode.string, GoScope.opening, GoScope.closing, str]
    rw [e, lexRun_trans (lexRun_open hw rfl rfl) (lexRun_trans (h2 41 rfl) (lexRun_mark hc))]
    simp
  · simp
  · simp
  · intro n c rest hc hn
    simp only [List.length_cons, List.length_append, List.length_nil] at hn
    obtain ⟨m, rfl⟩ : ∃ m, n = m + 1 := ⟨n - 1, by omega⟩
    have := h3 m 41 (.punct c :: rest) rfl (by omega)
    simp [goKey, goExpr, this, hv]

theorem Piece.composite {w : Str} {cs : List GoNode} {es : List GoElem} {v : GoVal} (hw : Word w)
    (h : Pieces cs es) (hv : goComposite w es = some v) :
    Piece (GoNode.mk w cs .squiggly).string (.none, v) := by
  obtain ⟨h1, toks, h2, h3⟩ := joined_pieces h
  refine ⟨?_, .word w :: .punct 123 :: (toks ++ [.punct 125]), fun c hc => ?_, ?_, ?_, ?_⟩
  · exact (((GoText.ascii hw.ascii).append (.ascii (by decide))).append h1).append (.ascii (by decide))
  · have e : (GoNode.mk w cs .squiggly).string ++ [c] = (w ++ [123]) ++ ((joinNodes cs ++ [125]) ++ [c]) := by
      simp [GoNode.string, GoScope.opening, GoScope.closing, str]
    rw [e, lexRun_trans (lexRun_open hw rfl rfl) (lexRun_trans (h2 125 rfl) (lexRun_mark hc))]
    simp
  · simp
  · simp
  · intro n c rest hc hn
    simp only [List.length_cons, List.length_append, List.length_nil] at hn
    obtain ⟨m, rfl⟩ : ∃ m, n = m + 1 := ⟨n - 1, by omega⟩
    have := h3 m 125 (.punct c :: rest) rfl (by omega)
    simp [goKey, goExpr, this, hv]

/-- A string with back quotes made safe. -/
theorem Piece.string {s : Str} (ht : GoText s) (h : (13 : UInt8) ∉ s) :
    Piece (str "`" ++ safeString s ++ str "`") (.none, .str s) := by
  refine ⟨((GoText.ascii (by decide)).append ht.safe).append (.ascii (by decide)), _, .of_top (b := true) ?_, .string⟩
  have e1 : lexRun (.top false) (str "`") = some ([], .raw []) := rfl
  rw [List.append_assoc, lexRun_trans e1 (lexRun_safe h)]
  rfl

/-- A conversion of a string. -/
theorem Piece.convert {w s : Str} {v : GoVal} (hw : Word w) (ht : GoText s) (h : (13 : UInt8) ∉ s)
    (hv : goCall w [(.none, .str s)] = some v) :
    Piece (w ++ str "(" ++ (str "`" ++ safeString s ++ str "`") ++ str ")") (.none, v) := by
  have := Piece.call (cs := [stringNode (str "`" ++ safeString s ++ str "`")]) hw
    (.cons (by simpa [stringNode, GoNode.string, GoScope.opening, GoScope.closing, joinNodes] using Piece.string ht h) .nil) hv
  simpa [GoNode.string, GoScope.opening, GoScope.closing, joinNodes, joinMore, stringNode] using this

/-- The value of a text that stands alone. -/
theorem Piece.value {w : Str} {cs : List GoNode} {es : List GoElem} {v : GoVal} (hw : Word w)
    (h : Pieces cs es) (hv : goComposite w es = some v) :
    GoText (GoNode.mk w cs .squiggly).string ∧ goValue (GoNode.mk w cs .squiggly).string = some v := by
  refine ⟨(Piece.composite hw h hv).1, ?_⟩
  obtain ⟨h1, toks, h2, h3⟩ := joined_pieces h
  have e : (GoNode.mk w cs .squiggly).string = (w ++ [123]) ++ (joinNodes cs ++ [125]) := by
    simp [GoNode.string, GoScope.opening, GoScope.closing, str]
  have hl : goTokens (GoNode.mk w cs .squiggly).string = some (.word w :: .punct 123 :: (toks ++ [.punct 125])) := by
    unfold goTokens
    rw [e, lexRun_trans (lexRun_open hw rfl rfl) (h2 125 rfl)]
    rfl
  unfold goValue
  rw [hl]
  have := h3 (toks.length + 3) 125 [] rfl (by omega)
  simp [goExpr, this, hv]

end Wbnf

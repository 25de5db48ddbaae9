import Verif.Model.TermString
import Verif.Spec.TermString
import Verif.Spec.Means
import Verif.Lemmas.Lexemes
import Verif.Lemmas.Codegen
import Verif.Lemmas.CodegenTerm
import Verif.Lemmas.Parts
import Verif.Lemmas.Reorder
import Verif.Props.Means

/-!
# The text of a term is made of words that spell it
-/

namespace Wbnf

variable {w x y : Str} {ws ws' : List Str} {t : Term} {quote : Str → Str} {text : Str → Prop}

/-! ## Words -/

/-- What may come after any of the words: nothing, a space or one of these signs. -/
def Calm (x : Str) : Prop := ∀ d, x.head? = some d → d ∈ str " );*?+{:<,}"

theorem calm_cons {d : UInt8} (h : d ∈ str " );*?+{:<,}") : Calm (d :: x) := fun d' e => by
  simp only [List.head?_cons, Option.some.injEq] at e
  exact e ▸ h

theorem Calm.append (h : Calm x) (h' : Calm y) : Calm (x ++ y) := by
  cases x with
  | nil => exact h'
  | cons c x => exact calm_cons (h c rfl)

/-- However it goes on, calmly, the words are those. -/
def Lays (ws : List Str) (x : Str) : Prop := ∀ ws' x', LaidOut ws' x' → Calm x' → LaidOut (ws ++ ws') (x ++ x')

theorem Lays.append (h : Lays ws x) (h' : Lays ws' y) (hc : Calm y) : Lays (ws ++ ws') (x ++ y) := by
  intro us z hz hz'
  rw [List.append_assoc, List.append_assoc]
  exact h _ _ (h' _ _ hz hz') (hc.append hz')

theorem white_space (h : White x) : White (32 :: x) := by
  intro c hc
  rcases List.mem_cons.1 hc with rfl | hc
  · simp
  · exact h c hc

theorem laidOut_space (h : LaidOut ws x) : LaidOut ws (32 :: x) := by
  cases h with
  | nil h => exact .nil (white_space h)
  | @cons before w ws x h1 h2 h3 =>
    exact .cons (before := 32 :: before) (white_space h1) h2 h3

theorem Lays.space (h : Lays ws x) : Lays ws (32 :: x) := fun _ _ hz hz' => laidOut_space (h _ _ hz hz')

/-- A word with which a term may end. -/
def Quiet (w : Str) : Prop := (∀ c, w.getLast? = some c → c ≠ 40 ∧ c ≠ 47 ∧ c ≠ 60) ∧ ∀ c, w.head? = some c → c ∉ str "[\\^$/"

theorem Quiet.follow (h : Quiet w) (hx : Calm x) : MayFollow w x := by
  intro c d hc hd
  obtain ⟨h1, h2, h3⟩ := h.1 c hc
  have hd := hx d hd
  have hd : d = 32 ∨ d = 41 ∨ d = 59 ∨ d = 42 ∨ d = 63 ∨ d = 43 ∨ d = 123 ∨ d = 58 ∨ d = 60 ∨ d = 44 ∨ d = 125 := by simpa [str] using hd
  refine ⟨fun h => ?_, ?_, fun ⟨⟨b, hb, e⟩, _⟩ => h.2 b e (List.mem_append_left [47] hb), fun ⟨v, e⟩ => absurd (by decide) (h.2 47 (by rw [← e]; rfl))⟩
  · have := h.2
    unfold NameByte at this
    rcases hd with rfl | rfl | rfl | rfl | rfl | rfl | rfl | rfl | rfl | rfl | rfl <;> revert this <;> decide
  · simp only [tokenPairs, List.mem_cons, Prod.mk.injEq, List.not_mem_nil, or_false]
    rcases hd with rfl | rfl | rfl | rfl | rfl | rfl | rfl | rfl | rfl | rfl | rfl <;> simp [h1, h2, h3]

theorem lays_word (h : Quiet w) : Lays [w] w := by
  intro us z hz hz'
  have := LaidOut.cons (before := []) (by simp [White]) (h.follow hz') hz
  simpa using this

/-- The text of a term begins with something else than these. -/
def Begins (x : Str) : Prop := ∃ c v, x = c :: v ∧ c ≠ 62 ∧ c ≠ 63

theorem Begins.append (h : Begins x) : Begins (x ++ y) := by
  obtain ⟨c, v, rfl, h⟩ := h
  exact ⟨c, v ++ y, rfl, h⟩

theorem begins_cons {c : UInt8} (h : decide (c ≠ 62 ∧ c ≠ 63) = true) : Begins (c :: x) := ⟨c, x, rfl, of_decide_eq_true h⟩

/-- A sign before a term. -/
def Sign (w : Str) : Prop := w ∈ ["(", "(?=", "=", ":", ":>", "<:", ",", "{", "->", "|", ">"].map str

theorem Sign.follow (h : Sign w) (hx : Begins x) : MayFollow w x := by
  obtain ⟨d, v, rfl, h1, h2⟩ := hx
  intro c d' hc hd
  simp only [List.head?_cons, Option.some.injEq] at hd
  subst hd
  simp only [Sign, List.map_cons, List.map_nil, List.mem_cons, List.not_mem_nil, or_false] at h
  rcases h with rfl | rfl | rfl | rfl | rfl | rfl | rfl | rfl | rfl | rfl | rfl <;>
    simp [str] at hc <;> subst hc <;> refine ⟨fun h => absurd h.1 (by unfold NameByte; decide), ?_, ?_, fun h => absurd h (by decide)⟩ <;> simp [tokenPairs, str, h1, h2]

theorem Lays.sign (h : Sign w) (hx : Lays ws x) (hb : Begins x) : Lays (w :: ws) (w ++ x) := by
  intro us z hz hz'
  have := LaidOut.cons (before := []) (by simp [White]) (h.follow (hb.append (y := z))) (hx _ _ hz hz')
  simpa using this

/-- A sign and a space. -/
theorem Lays.sign' (h : Sign w) (hx : Lays ws x) : Lays (w :: ws) (w ++ 32 :: x) :=
  hx.space.sign h (begins_cons rfl)

/-! ## Tokens -/

theorem lexeme {t : Term} (h : Token t w) (h1 : decide (t ∉ [Core.comment, Core.re "[a-zA-Z0-9.:]+", Core.regexpLit]) = true) : Lexeme t w := by
  have := of_decide_eq_true h1
  simp only [List.mem_cons, List.not_mem_nil, or_false, not_or] at this
  exact ⟨h, .inl this.2.1, fun e => absurd e this.2.2, fun e => absurd e this.1⟩

theorem name_byte {c : UInt8} (h : NameByte c) : c ≠ 40 ∧ c ≠ 47 ∧ c ≠ 60 ∧ c ≠ 62 ∧ c ≠ 63 ∧ c ≠ 33 ∧ c ≠ 37 ∧ c ∉ str "[\\^$/" := by
  simp [NameByte, str, UInt8.le_iff_toNat_le, ← UInt8.toNat_inj] at h ⊢
  omega

theorem nameText_last (h : NameText w) {c : UInt8} (hc : w.getLast? = some c) : NameByte c := by
  have := h.1 c (List.mem_of_getLast? hc)
  exact this

theorem nameText_head (h : NameText w) : ∃ c v, w = c :: v ∧ NameByte c := by
  obtain ⟨h1, c, v, rfl, _⟩ := h
  exact ⟨c, v, rfl, h1 c (by simp)⟩

theorem ident_head (h : Lexeme Core.ident w) : ∃ c v, w = c :: v ∧ c ≠ 62 ∧ c ≠ 63 ∧ c ≠ 33 ∧ c ≠ 37 ∧ c ∉ str "[\\^$/" := by
  rcases token_ident h.1 with rfl | h | ⟨v, rfl, h⟩
  · exact ⟨64, [], rfl, by decide⟩
  · obtain ⟨c, v, rfl, h'⟩ := nameText_head h
    have := name_byte h'
    exact ⟨c, v, rfl, this.2.2.2⟩
  · exact ⟨46, v, rfl, by decide⟩

theorem ident_quiet (h : Lexeme Core.ident w) : Quiet w := by
  refine ⟨fun c hc => ?_, fun c hc => ?_⟩
  · rcases token_ident h.1 with rfl | h | ⟨v, rfl, hv⟩
    · have : c = 64 := by simpa [str] using hc.symm
      subst this; decide
    · have := name_byte (nameText_last h hc)
      exact ⟨this.1, this.2.1, this.2.2.1⟩
    · obtain ⟨d, v, rfl, h'⟩ := nameText_head hv
      rw [List.getLast?_cons_cons] at hc
      have := name_byte (nameText_last hv hc)
      exact ⟨this.1, this.2.1, this.2.2.1⟩
  · obtain ⟨d, v, rfl, h1⟩ := ident_head h
    simp only [List.head?_cons, Option.some.injEq] at hc
    exact hc ▸ h1.2.2.2.2

theorem ident_slash (h : Lexeme Core.ident w) : ¬ str "//" <+: w := by
  obtain ⟨c, v, rfl, h1⟩ := ident_head h
  rintro ⟨x, e⟩
  have : c = 47 := by simpa [str] using (congrArg List.head? e).symm
  subst this
  exact absurd (by decide) h1.2.2.2.2

theorem ident_begins (h : Lexeme Core.ident w) : Begins w := by
  obtain ⟨c, v, rfl, h1, h2, _⟩ := ident_head h
  exact ⟨c, v, rfl, h1, h2⟩

theorem lays_ident (h : Lexeme Core.ident w) : Lays [w] w := lays_word (ident_quiet h)

/-- `%name` -/
theorem Lays.percent (h : Lexeme Core.ident w) (hx : Lays (w :: ws) (w ++ x)) : Lays (str "%" :: w :: ws) (str "%" ++ (w ++ x)) := by
  intro us z hz hz'
  refine LaidOut.cons (before := []) (w := str "%") (by simp [White]) ?_ (hx _ _ hz hz') |> fun h => by simpa using h
  obtain ⟨d, v, rfl, h1, h2, h3, h4, _⟩ := ident_head h
  intro c d' hc hd
  simp only [List.cons_append, List.head?_cons, Option.some.injEq] at hd
  subst hd
  have : c = 37 := by simpa [str] using hc.symm
  subst this
  refine ⟨fun h => absurd h.1 (by unfold NameByte; decide), ?_, ?_, fun h => absurd h (by decide)⟩ <;> simp [tokenPairs, str, h3, h4]

/-! ### Literals -/

theorem escape_of {c : UInt8} {e : UInt8 × UInt8} (h : escapeLetters.find? (·.1 == c) = some e) : e.1 = c ∧ (e.2, c) ∈ escapes 34 ∧ e.2 ≠ 10 := by
  have h1 : e.1 = c := by simpa using List.find?_some h
  have h2 := List.mem_of_find?_eq_some h
  subst h1
  simp only [escapeLetters, List.mem_cons, List.not_mem_nil, or_false] at h2
  rcases h2 with rfl | rfl | rfl | rfl | rfl | rfl | rfl | rfl | rfl <;> decide

theorem escape_none {c : UInt8} (h : escapeLetters.find? (·.1 == c) = none) : c ≠ 92 ∧ c ≠ 34 := by
  rw [List.find?_eq_none] at h
  exact ⟨fun e => h (92, 92) (by decide) (by simp [e]), fun e => h (34, 34) (by decide) (by simp [e])⟩

theorem quoted_reads : ∀ x : Str, Reads 34 (x.flatMap quotedByte) x ∧ QuotedBody 34 (x.flatMap quotedByte)
  | [] => ⟨.nil, .nil⟩
  | c :: x => by
    obtain ⟨h1, h2⟩ := quoted_reads x
    rw [List.flatMap_cons, quotedByte]
    split
    · next e he =>
      obtain ⟨-, h3, h4⟩ := escape_of he
      exact ⟨.escape h3 h1, .escape h4 h2⟩
    · next he =>
      obtain ⟨h3, h4⟩ := escape_none he
      exact ⟨.plain h3 h1, .plain h3 h4 h2⟩

theorem literal_means (hq : QuotesPlain text quote) (h : text x) : LiteralMeans (quote x) x := by
  rw [hq x h]
  exact .quoted (.inl rfl) (quoted_reads x).1

theorem literal_lexeme (hq : QuotesPlain text quote) (h : text x) : Lexeme Core.strLit (quote x) := by
  rw [hq x h]
  exact lexeme (.quoted (.inl rfl) (quoted_reads x).2) (by decide +kernel)

theorem literal_begins (hq : QuotesPlain text quote) (h : text x) : Begins (quote x) := by
  rw [hq x h]
  exact begins_cons rfl

theorem lays_literal (hq : QuotesPlain text quote) (h : text x) : Lays [quote x] (quote x) := by
  rw [hq x h]
  refine lays_word ⟨fun c hc => ?_, fun c hc => ?_⟩
  · rw [← List.cons_append, List.getLast?_concat, Option.some.injEq] at hc
    subst hc; decide
  · have : c = 34 := by simpa using hc.symm
    subst this; decide

/-! ### Numbers -/

theorem decimalAux_numeral : ∀ (f n : Nat), n < f → Numeral (decimalAux f n) n
  | f + 1, n, h => by
    rw [decimalAux]
    split
    · exact .one (by omega)
    · have := Numeral.more (decimalAux_numeral f (n / 10) (by omega)) (d := n % 10) (by omega)
      rwa [Nat.div_add_mod] at this

theorem decimal_numeral (n : Nat) : Numeral (decimal n) n := decimalAux_numeral _ _ (by omega)

theorem decimal_lexeme (n : Nat) : Lexeme Core.int (decimal n) := by
  refine lexeme (.int (decimal_numeral n).ne fun c hc => ?_) (by decide +kernel)
  have := List.all_eq_true.1 (decimal_numeral n).read.1 c hc
  simpa using this

theorem lays_decimal (n : Nat) : Lays [decimal n] (decimal n) := by
  have h : ∀ c ∈ decimal n, NameByte c := fun c hc => .inl ((token_int (decimal_lexeme n).1).2 c hc)
  refine lays_word ⟨fun c hc => ?_, fun c hc => ?_⟩
  · have := name_byte (h c (List.mem_of_getLast? hc))
    exact ⟨this.1, this.2.1, this.2.2.1⟩
  · exact (name_byte (h c (List.mem_of_head? hc))).2.2.2.2.2.2.2

theorem decimal_begins (n : Nat) : Begins (decimal n) := by
  obtain ⟨h0, h⟩ := token_int (decimal_lexeme n).1
  cases e : decimal n with
  | nil => exact absurd e h0
  | cons c v =>
    have := name_byte (.inl (h c (by rw [e]; simp)))
    exact ⟨c, v, rfl, this.2.2.2.1, this.2.2.2.2.1⟩

end Wbnf

import Verif.Lemmas.QuoteText
import Verif.Props.Literal
import Verif.Props.AstString
import Verif.Props.TermString

/-!
# C63 and C70 for the `%q` of Go

The hypotheses on `%q` in C63 and C70 hold of `strconv.Quote`, whatever `strconv.IsPrint` says of characters beyond ASCII.
-/

namespace Wbnf

variable {isPrint : Nat → Bool} {g g' : Grammar}

/-- **C63** Two quoted texts followed by anything are told apart: `strconv.Quote` is as C63 needs it. -/
theorem C63_quote (hp : ∀ r < 128, isPrint r = decide (32 ≤ r ∧ r < 127)) : Quoting (goQuote isPrint) := goQuote_quoting hp

/-- **C63** So, with it, ASTs have the same text exactly if they are alike. -/
theorem C63_go (hp : ∀ r < 128, isPrint r = decide (32 ≤ r ∧ r < 127)) {a b : Ast} (ha : Printable a) (hb : Printable b) {s : Str}
    (h : a.string (goQuote isPrint) = some s) : b.string (goQuote isPrint) = some s ↔ Alike a b :=
  C63_iff (C63_quote hp) ha hb h

/-- **C70** `strconv.Quote` writes ASCII as C70 needs it. -/
theorem C70_quote (hp : ∀ r < 128, isPrint r = decide (32 ≤ r ∧ r < 127)) : QuotesPlain AsciiText (goQuote isPrint) := goQuote_plain hp

/-- **C70** And so it writes any text of printable characters. -/
theorem C70_text (hp : ∀ r < 128, isPrint r = decide (32 ≤ r ∧ r < 127)) : QuotesPlain (PrintableText isPrint) (goQuote isPrint) := goQuote_text hp

/-- **C70** A literal that `String` writes is read as it was if its characters are printable, and otherwise `Compile` panics at it:
`strconv.Quote` writes numeric escapes, which are not read. -/
theorem C70_literals (hp : ∀ r < 128, isPrint r = decide (32 ≤ r ∧ r < 127)) (x : Str) :
    (PrintableText isPrint x → parseString (goQuote isPrint x) = .ok x) ∧
    (¬ PrintableText isPrint x → parseString (goQuote isPrint x) = .error .panic) := by
  constructor
  · intro h
    rw [goQuote, quoteBody_printable hp h]
    exact C36_spells_partial (.inl rfl) (spells_flatMap x)
  · intro h
    rcases quoteBody_numeric hp _ (Nat.le_refl x.length) with h' | ⟨pre, text, e, rest, he, hs, hq⟩
    · exact absurd h' h
    · rw [goQuote, hq]
      exact (C36_numeric (last := 34) (.inl rfl) hs).1 e rest he

/-- **C70** So the text that `String` returns with it is read back. Partial: as `C70_reads_partial`, but literals may be of any
printable characters. -/
theorem C70_go_partial {E : Engine} (hp : ∀ r < 128, isPrint r = decide (32 ≤ r ∧ r < 127)) (hE : E.Sane) (hC : Core.EngineOK E)
    (hR : Core.EngineReads E) (hF : Core.EngineFinds E) (hg : PrintsGrammar (PrintableText isPrint) g) :
    ∃ b G K, MeansGrammar b G ∧ ReordDefs g G ∧ ∀ ρ, DistinctDraws noExternals ρ K → Stands E ρ (g.string (goQuote isPrint)) b :=
  C70_reads_partial hE hC hR hF (C70_text hp) hg

namespace Ex

/-- What is printable, as far as the examples go. -/
def latinPrint (r : Nat) : Bool := decide (32 ≤ r ∧ r < 127) || decide (0xA1 ≤ r ∧ r ≤ 0xFF ∧ r ≠ 0xAD) || r == 0x20AC

theorem latinPrint_ascii : ∀ r < 128, latinPrint r = decide (32 ≤ r ∧ r < 127) := by decide +kernel

end Ex

open Ex

/-- ASCII, `é`, `€`, a soft hyphen, a character of four bytes, a surrogate and a byte that is no character, and a cut character. -/
example : goQuote latinPrint (str "a\"\\\n\t" ++ [1, 127, 0xC3, 0xA9, 0xE2, 0x82, 0xAC, 0xC2, 0xAD, 0xF0, 0x9F, 0x98, 0x80, 0xED, 0xA0, 0x80, 0xFF, 0xE2, 0x82]) =
    str "\"a\\\"\\\\\\n\\t\\x01\\x7f" ++ [0xC3, 0xA9, 0xE2, 0x82, 0xAC] ++ str "\\u00ad\\U0001f600\\xed\\xa0\\x80\\xff\\xe2\\x82\"" := by decide +kernel

/-- The hypothesis is met by it, and the texts of an AST and of a grammar with it are as with the others. -/
example : Quoting (goQuote latinPrint) ∧ QuotesPlain AsciiText (goQuote latinPrint) ∧
    listAst.string (goQuote latinPrint) = some (printed "(\n  '': 1‣\",\",\n  @rule: a,\n  b: [0‣x, 2‣`\"y`],\n)") ∧
    printed70.string (goQuote latinPrint) = printed70.string quoteAscii :=
  ⟨C63_quote latinPrint_ascii, C70_quote latinPrint_ascii, by decide +kernel, by decide +kernel⟩

/-- `é`, a line break and `€` are read back; a soft hyphen, and a `€` without its last byte, are not. -/
theorem Ex.euros : PrintableText latinPrint [0xC3, 0xA9, 10, 0xE2, 0x82, 0xAC] ∧
    ¬ PrintableText latinPrint [0xC2, 0xAD] ∧ ¬ PrintableText latinPrint [0x61, 0xE2, 0x82] := by
  refine ⟨.rune (src := [0xC3, 0xA9]) (.two (by decide) (by decide) (by decide) (by decide)) (by decide) (.ascii (by decide)
    (.rune (src := [0xE2, 0x82, 0xAC]) (x := []) (.three (by decide) (by decide) (by decide) (by decide) (by decide) (by decide) (by decide) (by decide)) (by decide) .nil)),
    fun h => ?_, fun h => ?_⟩
  · have h1 := (C70_literals latinPrint_ascii _).1 h
    have h2 : goQuote latinPrint [0xC2, 0xAD] = str "\"\\u00ad\"" := by decide +kernel
    rw [h2] at h1
    rw [show str "\"\\u00ad\"" = 34 :: ([] ++ 92 :: 117 :: str "00ad") ++ [34] by decide +kernel,
      (C36_numeric (last := 34) (.inl rfl) .nil).1 117 (str "00ad") (.inr (.inl rfl))] at h1
    cases h1
  · have h1 := (C70_literals latinPrint_ascii _).1 h
    have h2 : goQuote latinPrint [0x61, 0xE2, 0x82] = str "\"a\\xe2\\x82\"" := by decide +kernel
    rw [h2] at h1
    rw [show str "\"a\\xe2\\x82\"" = 34 :: ([97] ++ 92 :: 120 :: str "e2\\x82") ++ [34] by decide +kernel,
      (C36_numeric (last := 34) (.inl rfl) (.plain (by decide) .nil)).1 120 (str "e2\\x82") (.inl rfl)] at h1
    cases h1

/-- A grammar with such a literal is printed, as `a -> "é\n€"; b -> a;`, and read back. -/
example : ∃ b G, MeansGrammar b G ∧ ReordDefs [(str "a", .s [0xC3, 0xA9, 10, 0xE2, 0x82, 0xAC]), (str "b", .rule (str "a"))] G ∧
    Stands regexp ρ0 ((str "a -> \"" ++ [0xC3, 0xA9] ++ str "\\n" ++ [0xE2, 0x82, 0xAC] ++ str "\"; b -> a;")) b := by
  have hg : PrintsGrammar (PrintableText latinPrint) [(str "a", .s [0xC3, 0xA9, 10, 0xE2, 0x82, 0xAC]), (str "b", .rule (str "a"))] :=
    .mk (by decide) (by unfold Grammar.Distinct; decide +kernel) (.cons (ident_letter (c := 97) (by decide)) (.choice (.item (.plain (.plain (.s euros.1)))))
      (.cons (ident_letter (c := 98) (by decide)) (.choice (.item (.plain (.plain (.rule (ident_letter (c := 97) (by decide))))))) .nil))
  obtain ⟨b, G, K, h1, h2, h3⟩ := C70_go_partial latinPrint_ascii regexp_sane coreEngine Regex.engineReads Regex.engineFinds hg
  have h4 := h3 ρ0 (distinct_ρ0 K)
  have e : Grammar.string (goQuote latinPrint) [(str "a", .s [0xC3, 0xA9, 10, 0xE2, 0x82, 0xAC]), (str "b", .rule (str "a"))] =
    (str "a -> \"" ++ [0xC3, 0xA9] ++ str "\\n" ++ [0xE2, 0x82, 0xAC] ++ str "\"; b -> a;") := by decide +kernel
  rw [e] at h4
  exact ⟨b, G, h1, h2, h4⟩

end Wbnf

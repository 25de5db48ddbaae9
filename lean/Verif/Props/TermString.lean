import Verif.Lemmas.TermStringRead
import Verif.Lemmas.Ordinary
import Verif.Props.Written
import Verif.Props.Comments
import Verif.Lemmas.Reorder

/-!
# C70: the text of a grammar is read back as that grammar
-/

namespace Wbnf

variable {E : Engine} {X : Externals} {g g' : Grammar} {quote : Str → Str} {text : Str → Prop}

/-- **C70** The text that `String` returns for a grammar is a source, and the grammar it denotes is that grammar (whose rules are
in no order). Partial: for grammars of two rules at least, here and in braces, without regexps, external references and cut points,
with literals of text that `%q` writes plainly (see `C70_literals`), where parts that are printed without parentheses need none, and an item has one quantifier at most. -/
theorem C70_reads_partial (hE : E.Sane) (hC : Core.EngineOK E) (hR : Core.EngineReads E) (hF : Core.EngineFinds E)
    (hq : QuotesPlain text quote) (hg : PrintsGrammar text g) :
    ∃ b G K, MeansGrammar b G ∧ ReordDefs g G ∧ ∀ ρ, DistinctDraws noExternals ρ K → Stands E ρ (g.string quote) b := by
  obtain ⟨b, ws, G, h1, h2, h3, h4, h5⟩ := hg.back hq
  have h6 := h5 [] [] (.nil (by simp [White])) (fun _ e => by cases e)
  rw [List.append_nil, List.append_nil] at h6
  obtain ⟨K, hK⟩ := C69_written_partial hE hC hR hF h1 h2 h6
  exact ⟨b, G, K, h3, h4, hK⟩

/-- **C70** So `Compile` of that text, if it returns parsers, returns parsers of the grammar (up to the order of its rules). Partial:
as `C70_reads_partial`. -/
theorem C70_parses_partial {reOK : Str → Bool} {ord : List Str → List Str → List Str} (hE : E.Sane) (hC : Core.EngineOK E)
    (hR : Core.EngineReads E) (hF : Core.EngineFinds E) (hq : QuotesPlain text quote) (hg : PrintsGrammar text g) (hX : X.Plain) (hw : g.wf = true) :
    ∃ G K, ReordDefs g G ∧ ∀ ρ, DistinctDraws noExternals ρ K → ∀ F : Files, F.Parsed E ρ →
      ∀ n ps, compileSource F E reOK ord n (g.string quote) = .ok ps → ∃ H, (insertCutPoints G).resolveStacks = some H ∧ ∀ r inp o, ps.Yields E X r inp o ↔ Denotes E X H r inp o := by
  obtain ⟨b, ws, G, h1, h2, h3, h4, h5⟩ := hg.back hq
  have h6 := h5 [] [] (.nil (by simp [White])) (fun _ e => by cases e)
  rw [List.append_nil, List.append_nil] at h6
  obtain ⟨K, hK⟩ := C69_plain_partial hE hC hR hF h1 h2 h6 hX h3 (by unfold Grammar.wf at *; rw [← h4.wf, hw])
  exact ⟨G, K, h4, hK⟩

/-- **C70** Grammars with the same text are the same, but for the order of rules. Partial: as `C70_reads_partial`. -/
theorem C70_injective_partial (hq : QuotesPlain text quote) (hg : PrintsGrammar text g) (hg' : PrintsGrammar text g') (h : g.string quote = g'.string quote) :
    ReordDefs g g' := by
  obtain ⟨b, G, K, h1, h2, h3⟩ := C70_reads_partial regexp_sane Ex.coreEngine Regex.engineReads Regex.engineFinds hq hg
  obtain ⟨b', G', K', h1', h2', h3'⟩ := C70_reads_partial regexp_sane Ex.coreEngine Regex.engineReads Regex.engineFinds hq hg'
  have h4 := h3 Ex.ρ0 (distinct_ρ0 K)
  rw [h] at h4
  cases h4.unique (h3' Ex.ρ0 (distinct_ρ0 K'))
  cases C51_unique h1 h1'
  exact h2.trans h2'.symm

/-- **C70** The text does not depend on the order in which Go goes through a map. -/
theorem C70_order (hd : g.Distinct) (ht : tidyDefs g) (h : ReordDefs g g') : g.string quote = g'.string quote :=
  defsString_perm (h.strings ht) (by rw [keys_stringDefs]; exact hd)

mutual
theorem string_breaks : (t : Term) → (t.string quote = none ↔ Breaks t)
  | .rule _ => by simp only [Term.string, reduceCtorEq, false_iff]; rintro ⟨⟩
  | .s _ => by simp only [Term.string, reduceCtorEq, false_iff]; rintro ⟨⟩
  | .re _ => by simp only [Term.string, reduceCtorEq, false_iff]; rintro ⟨⟩
  | .ref _ none => by simp only [Term.string, reduceCtorEq, false_iff]; rintro ⟨⟩
  | .ref _ (some _) => by simp only [Term.string, reduceCtorEq, false_iff]; rintro ⟨⟩
  | .ext _ => by simp only [Term.string, reduceCtorEq, false_iff]; rintro ⟨⟩
  | .seq ts => by
    simp only [Term.string, Option.map_eq_none_iff, strings_break ts]
    exact ⟨fun ⟨t, h, h'⟩ => .seq h h', fun h => by cases h with | seq h h' => exact ⟨_, h, h'⟩⟩
  | .oneof ts => by
    simp only [Term.string, Option.map_eq_none_iff, strings_break ts]
    exact ⟨fun ⟨t, h, h'⟩ => .oneof h h', fun h => by cases h with | oneof h h' => exact ⟨_, h, h'⟩⟩
  | .stack ts => by
    simp only [Term.string, Option.map_eq_none_iff, strings_break ts]
    exact ⟨fun ⟨t, h, h'⟩ => .stack h h', fun h => by cases h with | stack h h' => exact ⟨_, h, h'⟩⟩
  | .delim .. => by simp only [Term.string, reduceCtorEq, false_iff]; rintro ⟨⟩
  | .look _ => by simp only [Term.string, reduceCtorEq, false_iff]; rintro ⟨⟩
  | .quant t lo hi => by
    simp only [Term.string, Option.map_eq_none_iff]
    constructor
    · intro h
      have : lo = 1 ∧ hi = 1 := by
        unfold quantString at h
        repeat' split at h
        all_goals first | assumption | simp at h
      obtain ⟨rfl, rfl⟩ := this
      exact .quant
    · intro h
      cases h
      rfl
  | .named .. => by simp only [Term.string, reduceCtorEq, false_iff]; rintro ⟨⟩
  | .scope .. => by simp only [Term.string, reduceCtorEq, false_iff]; rintro ⟨⟩
  | .cut t => by
    simp only [Term.string, Option.map_eq_none_iff, string_breaks t]
    exact ⟨.cut, fun h => by cases h; assumption⟩
theorem strings_break : (ts : List Term) → (stringTerms quote ts = none ↔ ∃ t ∈ ts, Breaks t)
  | [] => by simp [stringTerms]
  | t :: ts => by
    have h1 := string_breaks t
    have h2 := strings_break ts
    rw [stringTerms]
    cases h : t.string quote with
    | none => simp [h1.1 h]
    | some x =>
      have : ¬ Breaks t := fun hb => by rw [h1.2 hb] at h; cases h
      simp [h2, this]
end

/-- **C70** `String` of a term panics exactly for those that break; that of a grammar is a total function here: it never does. -/
theorem C70_panics {t : Term} : t.string quote = none ↔ Breaks t := string_breaks t

/-! ## Examples and what fails -/

namespace Ex

/-- `%q` for ASCII. -/
def quoteAscii (x : Str) : Str := 34 :: (x.flatMap quotedByte ++ [34])

theorem quotesPlain_quoteAscii : QuotesPlain text quoteAscii := fun _ _ => rfl

theorem ident_letter {c : UInt8} (hc : 97 ≤ c ∧ c ≤ 122) : Lexeme Core.ident [c] := lexeme_of
  (.name ⟨by simp [hc], c, [], rfl, fun h => absurd (UInt8.le_trans hc.1 h.2) (by decide)⟩) (by decide +kernel) (by decide +kernel)

/-- A stack with a list and a choice, and a rule with a grammar in braces. -/
def printed70 : Grammar :=
  [(str "e", .stack [.delim (.rule (str "e")) (.named (str "o") (.s (str "+"))) leftToRight false true,
      .oneof [.quant (.rule (str "e")) 0 1, .seq [.s (str "(\n"), .rule (str "e"), .s (str "\")")], .look (.rule (str "d"))]]),
    (str "d", .scope (.quant (.named (str "x") (.rule (str "a"))) 2 10)
      [(str "a", .s (str "a")), (str "b", .quant (.seq []) 0 0)])]

theorem prints_printed70 : PrintsGrammar AsciiText printed70 := by
  have id : ∀ c : UInt8, 97 ≤ c ∧ c ≤ 122 → Lexeme Core.ident [c] := fun c h => ident_letter h
  refine .mk (by decide) (by unfold Grammar.Distinct; decide +kernel) (.cons (id 101 (by decide)) (.stack (by decide) (.cons (.item (.delim (.plain (.rule (id 101 (by decide))))
    (.named (id 111 (by decide)) (.s (by unfold AsciiText; decide))) (.inl rfl))) (.cons (.oneof (by decide) (.cons (.quant (.plain (.rule (id 101 (by decide)))) (by decide) (by decide) (by decide))
      (.cons (.plain (.plain (.seq (by decide) (.cons (.plain (.plain (.s (by unfold AsciiText; decide)))) (.cons (.plain (.plain (.rule (id 101 (by decide)))))
        (.cons (.plain (.plain (.s (by unfold AsciiText; decide)))) .nil)))))) (.cons (.plain (.plain (.look (.choice (.item (.plain (.plain (.rule (id 100 (by decide)))))))))) .nil)))) .nil)))
    (.cons (id 100 (by decide)) (.scope (.item (.quant (.named (id 120 (by decide)) (.rule (id 97 (by decide)))) (by decide) (by decide) (by decide)))
      (.mk (by decide) (by unfold Grammar.Distinct; decide +kernel) (.cons (id 97 (by decide)) (.choice (.item (.plain (.plain (.s (by unfold AsciiText; decide))))))
        (.cons (id 98 (by decide)) (.choice (.item (.quant (.plain (.seq (by decide) .nil)) (by decide) (by decide) (by decide)))) .nil)))) .nil))

end Ex

open Ex

example : printed70.string quoteAscii =
    str "d -> x=a{2,10} { a -> \"a\"; b -> ()*; }; e -> e:>o=\"+\", > e? | (\"(\\n\" e \"\\\")\") | (?=d);" := by decide +kernel

/-- The hypotheses hold of it, and of it in another order. -/
example : ∃ b G, MeansGrammar b G ∧ ReordDefs printed70 G ∧ Stands regexp ρ0 (printed70.string quoteAscii) b := by
  obtain ⟨b, G, K, h1, h2, h3⟩ := C70_reads_partial regexp_sane Ex.coreEngine Regex.engineReads Regex.engineFinds quotesPlain_quoteAscii prints_printed70
  exact ⟨b, G, h1, h2, h3 ρ0 (distinct_ρ0 K)⟩

example : printed70.string quoteAscii = Grammar.string quoteAscii printed70.reverse :=
  C70_order (by unfold Grammar.Distinct; decide +kernel)
    (by simp [printed70, tidyDefs, tidyList, Term.Tidy, Grammar.Distinct, Grammar.LayersFresh]; decide +kernel)
    (show ReordDefs [_, _] [_, _] from .swap)

/-- It would print `x{1,1}` if it did not panic; in a name it is printed, with the panic in the text. -/
example : (Term.seq [.quant (.rule (str "x")) 1 1]).string quoteAscii = none ∧
    (Term.named (str "n") (.quant (.rule (str "x")) 1 1)).string quoteAscii = some (str "n=%!v(PANIC=String method: How did this happen!?)") ∧
    Breaks (.seq [.quant (.rule (str "x")) 1 1]) :=
  ⟨by decide +kernel, by decide +kernel, .seq (.head _) .quant⟩

set_option maxRecDepth 100000 in
/-- **C70** is false of other grammars: `Parse` refuses the text of a grammar of one rule (the `;` is missing), and of those with
a regexp, a cut point, or a reference without default. -/
theorem C70_refused : ∀ g ∈ ([[(str "a", .rule (str "b"))],
      [(str "a", .re (str "x")), (str "b", .s (str "x"))],
      [(str "a", .cut (.s (str "x"))), (str "b", .s (str "x"))],
      [(str "a", .ref (str "x") none), (str "b", .s (str "x"))]] : List Grammar), Refused regexp ρ0 (g.string quoteAscii) := by
  simp only [List.forall_mem_cons, List.not_mem_nil, false_implies, implies_true, and_true]
  refine ⟨?_, ?_, ?_, ?_⟩
  · exact refused_text (n := 60) (by decide +kernel)
  · exact refused_text (n := 60) (by decide +kernel)
  · exact refused_text (n := 60) (by decide +kernel)
  · exact refused_text (n := 60) (by decide +kernel)

set_option maxRecDepth 100000 in
/-- **C70** is false of other grammars: the text may be that of another grammar. `x*` in `?` is read as `x?` in `*`; `x | y` in `*` is read
as `x | y*`; an external reference is read as the name of a rule; a stack in a sequence as a sequence in a stack. -/
theorem C70_misread : ∀ p ∈ ([(.quant (.quant (.rule (str "x")) 0 0) 0 1, .quant (.quant (.rule (str "x")) 0 1) 0 0),
      (.quant (.oneof [.rule (str "x"), .rule (str "y")]) 0 0, .oneof [.rule (str "x"), .quant (.rule (str "y")) 0 0]),
      (.ext (str "x"), .rule (str "x")),
      (.seq [.rule (str "x")], .rule (str "x")),
      (.oneof [.stack [.rule (str "x"), .rule (str "y")], .rule (str "z")], .stack [.rule (str "x"), .oneof [.rule (str "y"), .rule (str "z")]])] : List (Term × Term)),
    ¬ Reord p.1 p.2 ∧ ∃ b, Stands regexp ρ0 (Grammar.string quoteAscii [(str "a", p.1), (str "b", .rule (str "x"))]) b ∧
      MeansGrammar b [(str "a", p.2), (str "b", .rule (str "x"))] := by
  have hb : ∀ {t u}, MeansTerm t u → MeansStmts [.prod (str "a") [t], one "b" (.ident (str "x")) []] [(str "a", u), (str "b", .rule (str "x"))] := fun h =>
    .prod (.single h) (.prod (.single (.single (.single (.single (.quants (.plain .ident) .nil))))) .nil)
  have hG : ∀ {t u}, MeansTerm t u → MeansGrammar (.mk [.prod (str "a") [t], one "b" (.ident (str "x")) []]) [(str "a", u), (str "b", .rule (str "x"))] := fun {_ u} h => by
    have := MeansGrammar.mk (hb h)
    have e : lastWins [(str "a", u), (str "b", .rule (str "x"))] = [(str "a", u), (str "b", .rule (str "x"))] := by
      simp [lastWins, str, mapSet]
    rwa [e] at this
  simp only [List.forall_mem_cons, List.not_mem_nil, false_implies, implies_true, and_true]
  refine ⟨⟨?_, ?_⟩, ⟨?_, ?_⟩, ⟨?_, ?_⟩, ⟨?_, ?_⟩, ⟨?_, ?_⟩⟩
  · intro h; cases h
  · exact ⟨_, stands_viewed (n := 60) (g := .mk [one "a" (.ident (str "x")) [.op (str "*"), .op (str "?")], one "b" (.ident (str "x")) []]) (by decide +kernel),
      hG (.single (.single (.single (.quants (.plain .ident) (.cons (.cons .nil .opt) .any)))))⟩
  · intro h; cases h
  · exact ⟨_, stands_viewed (n := 60) (g := .mk [.prod (str "a") [.many [] [] [.many (str "|") [] [.many [] [] [rn "x"],
        .many [] [] [.one (.mk none (.ident (str "y"))) [.op (str "*")]]]]], one "b" (.ident (str "x")) []]) (by decide +kernel),
      hG (.single (.choice (.cons (.single (.quants (.plain .ident) .nil)) (.cons (.single (.quants (.plain .ident) (.cons .nil .any))) .nil))))⟩
  · intro h; cases h
  · exact ⟨_, stands_viewed (n := 60) (g := .mk [one "a" (.ident (str "x")) [], one "b" (.ident (str "x")) []]) (by decide +kernel),
      hG (.single (.single (.single (.quants (.plain .ident) .nil))))⟩
  · intro h; cases h
  · exact ⟨_, stands_viewed (n := 60) (g := .mk [one "a" (.term (.many [] [] [.many [] [] [.many [] [] [rn "x"]]])) [], one "b" (.ident (str "x")) []]) (by decide +kernel),
      hG (.single (.single (.single (.quants (.plain (.parens (.single (.single (.single (.quants (.plain .ident) .nil)))))) .nil))))⟩
  · intro h; cases h
  · exact ⟨_, stands_viewed (n := 60) (g := .mk [.prod (str "a") [.many (str ">") [] [.many [] [] [.many [] [] [rn "x"]],
        .many (str "|") [] [.many [] [] [rn "y"], .many [] [] [rn "z"]]]], one "b" (.ident (str "x")) []]) (by decide +kernel),
      hG (.layers (.cons (.single (.single (.quants (.plain .ident) .nil)))
        (.cons (.choice (.cons (.single (.quants (.plain .ident) .nil)) (.cons (.single (.quants (.plain .ident) .nil)) .nil))) .nil)))⟩

end Wbnf

import Verif.Lemmas.Spells
import Verif.Props.Source

/-!
# C57: the node of a source is a node of its text

Specifications: `SpellsGrammar`, `Spaced`, `GrammarN.settled` (Spec/Spells), `GrammarN.Lexed` (Spec/Lexemes), `Stands` (Spec/Source).
-/

namespace Wbnf

variable {E : Engine} {ρ : Nat → Nat} {x y : Str} {g : GrammarN}

/-- **C57.** What `Parse` returns for a wbnf text is what is written there: the words that the node is spelled with, in that
order, are the text, with white space before, between and after them. So nothing of the text is skipped but white space,
nothing is invented, and operators and brackets are where they belong: `|` binds stronger than `>`, sequences stronger than
both. -/
theorem C57_spelled (hE : E.Sane) (h : Core.EngineOK E) (hr : Core.EngineReads E) (hs : Stands E ρ x g) :
    g.Lexed ∧ ∃ ws, SpellsGrammar g ws ∧ Spaced ws x := by
  obtain ⟨N, b, hN⟩ := hs
  obtain ⟨M, hM | ⟨b', g', ws, h1, h2, h3, hM⟩⟩ := Core.reads hE h hr ρ x
  · have := (hN (max N M) (by omega)).1
    rw [hM _ (by omega)] at this
    cases this
  · have k1 := hN (max N M) (by omega)
    have k2 := hM (max N M) (by omega)
    rw [k2.1, Core.NodeRes.node.injEq] at k1
    rw [k1.1, k1.2, Option.some.injEq] at k2
    obtain ⟨_, rfl⟩ := k2
    exact ⟨h1, ws, h2, h3⟩

/-- **C57.** Two texts with the same node differ in white space only, if there are no pragmas, no macro calls and no braces
among layers. -/
theorem C57_words (hE : E.Sane) (h : Core.EngineOK E) (hr : Core.EngineReads E) (hx : Stands E ρ x g) (hy : Stands E ρ y g) (hg : g.settled) :
    ∃ ws, Spaced ws x ∧ Spaced ws y := by
  obtain ⟨_, ws, h1, h2⟩ := C57_spelled hE h hr hx
  obtain ⟨_, ws', h3, h4⟩ := C57_spelled hE h hr hy
  exact ⟨ws, h2, by rw [h1.words h3 hg]; exact h4⟩

/-! ## Examples -/

open Ex

example : twoRules.Lexed ∧ ∃ ws, SpellsGrammar twoRules ws ∧ Spaced ws twoRulesText :=
  C57_spelled regexp_sane Ex.coreEngine Regex.engineReads twoRules_stand

set_option maxRecDepth 100000 in
/-- The same node, another text. -/
example : Stands regexp ρ0 (str "a->b *\n;b->`x`;") twoRules ∧ twoRules.settled :=
  ⟨stands_viewed (n := 60) (by decide +kernel), by simp [twoRules, one, GrammarN.settled, settledStmts, StmtN.settled, settledTerms,
    TermN.settled, settledGrammars, NamedN.settled, AtomN.settled, settledQuants, QuantN.settled]⟩

/-- A rule with an inner grammar and two layers. -/
def Ex.layersNode : GrammarN := .mk [.prod (str "a") [.many (str ">") [.mk [one "c" (.ident (str "d")) []]]
  [.many [] [] [.many [] [] [.one (.mk none (.ident (str "b"))) []]], .many [] [] [.many [] [] [.one (.mk none (.ident (str "e"))) []]]]]]

set_option maxRecDepth 100000 in
/-- **C57** Braces among layers have to be left out: the node does not tell `a -> b { … } > e;` from `a -> b > e { … };`. -/
theorem C57_braces : Stands regexp ρ0 (str "a -> b { c -> d; } > e;") layersNode ∧ Stands regexp ρ0 (str "a -> b > e { c -> d; };") layersNode :=
  ⟨stands_viewed (n := 60) (by decide +kernel), stands_viewed (n := 60) (by decide +kernel)⟩

set_option maxRecDepth 100000 in
/-- **C57** So have macro calls: arguments left out leave no trace. -/
theorem C57_arguments : ∃ g, Stands regexp ρ0 (str "a -> %!m(b);") g ∧ Stands regexp ρ0 (str "a -> %!m(,b,);") g :=
  ⟨.mk [one "a" (.macrocall (str "m") [.many [] [] [.many [] [] [.many [] [] [.one (.mk none (.ident (str "b"))) []]]]]) []],
    stands_viewed (n := 60) (by decide +kernel), stands_viewed (n := 60) (by decide +kernel)⟩

end Wbnf

import Verif.Lemmas.Bootstrap

/-!
# C71: the grammar of grammars written in its own notation
-/

namespace Wbnf

variable {E : Engine} {F : Files} {X : Externals} {reOK : Str → Bool} {ord : List Str → List Str → List Str} {ρ : Nat → Nat}

/-- The text is accepted, as these nodes. -/
theorem source_stands (hE : E.Sane) (hC : Core.EngineOK E) (hR : Core.EngineReads E) (hF : Core.EngineFinds E) :
    ∃ K, ∀ ρ, DistinctDraws noExternals ρ K → Stands E ρ grammarGrammarSrc Boot.sourceNode :=
  C69_written_partial hE hC hR hF (Boot.sourceNode.spell_ok Boot.source_spelled) (Boot.sourceNode.plainB_ok Boot.source_plain)
    (laidB_ok Boot.source_laid)

theorem shown_parsers {G : Grammar} {n : Nat} {ps : Parsers} (h : G.compile E n = .ok ps) {g : Grammar} (hg : G.resolveStacks = some g)
    (hw : lookup wrapRE g = some Core.wrap) : ps.shown = afterDefs (some Core.wrap) g := by
  have := compile_grammar h
  rw [hg] at this
  cases this
  rw [Parsers.shown, hw]

/-- What `initCore` does, once there is enough fuel. -/
theorem initCore_eq (hC : Core.EngineOK E) (ho : Orders ord) (hre : ∀ x ∈ coreRegexps, reOK x = true) (hP : F.Parsed E ρ)
    (hs : Stands E ρ grammarGrammarSrc Boot.sourceNode) :
    ∃ N ps, (∀ n, N ≤ n → initCore F E reOK ord n = some ps) ∧ Grammar.compile E N Boot.shown = .ok ps := by
  obtain ⟨N1, ps1, h1⟩ := C24_compile_iff.2 (Boot.built_compilable hC)
  obtain ⟨N2, a, h2⟩ := Core.compiles hC
  obtain ⟨N3, ps, h3⟩ := C24_compile_iff.2 (Boot.shown_compilable hC)
  have hord : (GrammarN.mk Boot.sourceNode.stmts).Ordinary false := Boot.sourceNode.plainB_ok Boot.source_plain
  have hi : F.Includes [] (.mk Boot.sourceNode.stmts) Boot.sourceNode.stmts := hord.includes
  obtain ⟨N0, h0⟩ := (compileSource_ok (E := E) (reOK := reOK) (ord := ord) (hP.parse_iff.2 hs) hi ps1).2
    ⟨Boot.source_valid hre ho, Boot.built, ⟨_, Boot.built_ok⟩, N1, h1 N1 (Nat.le_refl _)⟩
  have hle : ∀ {a b c d n : Nat}, a + b + c + d ≤ n → a ≤ n ∧ b ≤ n ∧ c ≤ n ∧ d ≤ n := by omega
  refine ⟨N0 + N1 + N2 + N3, ps, fun n hn => ?_, h3 _ (by omega)⟩
  obtain ⟨hn0, hn1, hn2, hn3⟩ := hle hn
  unfold initCore
  rw [compileSource_mono hn0 h0, h2 n hn2]
  have e1 : ps1.shown = Boot.shown := shown_parsers (h1 N1 (Nat.le_refl _)) Boot.flat_ok Boot.flat_wrap
  have e2 : a.shown = Core.flat := (shown_parsers (h2 n hn2) Core.flat_ok Boot.core_wrap).trans Boot.core_shown
  simp only [e1, e2]
  have hd := Boot.same
  rw [Option.map_eq_some_iff] at hd
  obtain ⟨d, hd, he⟩ := hd
  simp only [hd, he, ↓reduceIte, h3 n hn3]

/-- **C71** Initializing package wbnf does not panic: the text of the grammar of grammars is compiled without error, what it
denotes is equal to the literal, and it can be compiled again. For every engine that the claims about `Parse` are for, whatever
the order maps are ranged over in, if `regexp.Compile` accepts the regexps of the text as they stand there. -/
theorem C71_starts (hE : E.Sane) (hC : Core.EngineOK E) (hR : Core.EngineReads E) (hF : Core.EngineFinds E) (ho : Orders ord)
    (hre : ∀ x ∈ coreRegexps, reOK x = true) :
    ∃ K, ∀ ρ, DistinctDraws noExternals ρ K → ∀ F : Files, F.Parsed E ρ →
      ∃ N ps, ∀ n, N ≤ n → initCore F E reOK ord n = some ps := by
  obtain ⟨K, hK⟩ := source_stands hE hC hR hF
  refine ⟨K, fun ρ hρ F hP => ?_⟩
  obtain ⟨N, ps, h, _⟩ := initCore_eq hC ho hre hP (hK ρ hρ)
  exact ⟨N, ps, h⟩

/-- The parsers of the package are those of the text. -/
theorem initCore_compile {n : Nat} {ps : Parsers} (hP : F.Parsed E ρ) (hs : Stands E ρ grammarGrammarSrc Boot.sourceNode) (h : initCore F E reOK ord n = some ps) :
    ∃ m, Grammar.compile E m Boot.shown = .ok ps := by
  unfold initCore at h
  split at h
  · rename_i g a hg ha
    split at h
    · simp at h
    · split at h
      · split at h
        · rename_i ps' hc
          cases h
          have hord : (GrammarN.mk Boot.sourceNode.stmts).Ordinary false := Boot.sourceNode.plainB_ok Boot.source_plain
          have hi : F.Includes [] (.mk Boot.sourceNode.stmts) Boot.sourceNode.stmts := hord.includes
          obtain ⟨_, G, ⟨k, hG⟩, m, hm⟩ := (compileSource_ok (E := E) (reOK := reOK) (ord := ord) (hP.parse_iff.2 hs) hi g).1 ⟨n, hg⟩
          have hG' := newFromAst_mono (Nat.le_max_left k 400) hG
          have hB := newFromAst_mono (Nat.le_max_right k 400) Boot.built_ok
          have e : G = Boot.built := by
            have : (Except.ok G : Except Stop Grammar) = .ok Boot.built := hG'.symm.trans hB
            cases this; rfl
          subst e
          rw [shown_parsers hm Boot.flat_ok Boot.flat_wrap] at hc
          exact ⟨n, hc⟩
        · simp at h
      · simp at h
  · simp at h

/-- **C71** `Core()` and `Grammar()` do the same with every rule and every input. -/
theorem C71_same (hE : E.Sane) (hC : Core.EngineOK E) (hR : Core.EngineReads E) (hF : Core.EngineFinds E) (hX : X.Plain) :
    ∃ K, ∀ ρ, DistinctDraws noExternals ρ K → ∀ F : Files, F.Parsed E ρ → ∀ n core, initCore F E reOK ord n = some core →
      ∀ m literal, Core.grammar.compile E m = .ok literal →
        ∀ r inp o, core.Yields E X r inp o ↔ literal.Yields E X r inp o := by
  obtain ⟨K, hK⟩ := source_stands hE hC hR hF
  refine ⟨K, fun ρ hρ F hP n core h m literal hl r inp o => ?_⟩
  obtain ⟨k, hk⟩ := initCore_compile hP (hK ρ hρ) h
  have hl' : Core.flat.compile E m = .ok literal := by
    unfold Grammar.compile prepare at hl ⊢
    rw [Core.flat_ok] at hl
    rw [Boot.core_flat]
    exact hl
  exact (C21_behaves Boot.core_tidy Boot.shown_reord Boot.core_wf hl' hk hX).symm

/-- **C71** And their grammars are the same, up to order. -/
theorem C71_grammar (hE : E.Sane) (hC : Core.EngineOK E) (hR : Core.EngineReads E) (hF : Core.EngineFinds E) :
    ∃ K, ∀ ρ, DistinctDraws noExternals ρ K → ∀ F : Files, F.Parsed E ρ → ∀ n core, initCore F E reOK ord n = some core →
      ∀ m literal, Core.grammar.compile E m = .ok literal → ReordDefs literal.grammar core.grammar := by
  obtain ⟨K, hK⟩ := source_stands hE hC hR hF
  refine ⟨K, fun ρ hρ F hP n core h m literal hl => ?_⟩
  obtain ⟨k, hk⟩ := initCore_compile hP (hK ρ hρ) h
  have h1 := compile_grammar hl
  have h2 := compile_grammar hk
  rw [Core.flat_ok] at h1
  rw [Boot.shown_flat] at h2
  rw [← Option.some.inj h1, ← Option.some.inj h2]
  exact Boot.shown_reord

/-! ## Examples -/

/-- The hypotheses can be met: with the model of regexp, files that are parsed, and an order of maps. -/
example : ∃ F : Files, F.Parsed regexp Ex.ρ0 ∧ Orders (fun _ l => l) ∧
    ∃ N ps, ∀ n, N ≤ n → initCore F regexp (fun _ => true) (fun _ l => l) n = some ps := by
  obtain ⟨F, -, -, -, h⟩ := C55_read regexp_sane Ex.coreEngine Regex.engineReads Ex.ρ0 (fun _ => none) (fun _ _ => []) id
  have ho : Orders (fun _ l => l) := fun _ _ => .refl _
  obtain ⟨K, hK⟩ := C71_starts (reOK := fun _ => true) regexp_sane Ex.coreEngine Regex.engineReads Regex.engineFinds ho (fun _ _ => rfl)
  exact ⟨F, h, ho, hK Ex.ρ0 (distinct_ρ0 K) F h⟩

/-- The beginning of the text. The reversed primes are backquotes in it. -/
example : grammarGrammarSrc.take 36 = 10 :: str "// Non-terminals" ++ 10 :: str "grammar -> stmt+;" ++ [10] ∧
    unfakeBackquote (faked "[^‵]") = str "[^`]" := by decide +kernel

/-- The wrapper is in the braces of the compiled grammar, though it is not written there: it was added by compiling. -/
example : (match lookup (str "pragma") Boot.flat, lookup (str "pragma") Boot.shown with
    | some (.scope _ g), some (.scope _ g') => !hasKey wrapRE g && hasKey wrapRE g'
    | _, _ => false) = true := by decide +kernel

end Wbnf

import Verif.Lemmas.Gen
import Verif.Props.Cmd

/-!
# C67: what the package written by `wbnf gen` does

Specifications: Spec/Gen, Spec/Cmd; `Denotes` (Spec/Top), `MeansGrammar` (Spec/Source), `goValue`, `GoText` (Spec/GoCode: what Go source
denotes), `Grammar.GoWritable`, `PlainText` (Spec/Codegen).
-/

namespace Wbnf

variable {T : Tools} {W : World} {f : GenFlags} {ρ' : Nat → Nat} {G H : Grammar} {p : PkgText}

theorem genCmd_compiled {text : Str} {ps : Parsers} {n : Nat} (hs : f.start ≠ []) (hr : W.read f.grammar = some text)
    (hc : compileSource (cmdFiles W.read T.parse f.grammar) T.engine T.reOK T.ord n text = .ok ps) :
    genCmd T W f n = .written ⟨grammarLiteral ps.grammar, identName f.start⟩ := by
  unfold genCmd
  simp only [hr, if_neg hs, hc]

section
variable (hE : T.engine.Sane) (hC : Core.EngineOK T.engine) (hR : Core.EngineReads T.engine)
  (hP : (cmdFiles W.read T.parse f.grammar).Parsed T.engine ρ') (hs : f.start ≠ [])
  (hG : GrammarFile T W f.grammar G H) (hw : G.wf = true)
include hE hC hR hP hs hG hw

/-- The package that is written. -/
theorem generates_iff : ∃ m ps, ps.grammar = H ∧ (insertCutPoints G).wf = true ∧ (insertCutPoints G).compile T.engine m = .ok ps ∧
    ∀ p, Generates T W f p ↔ p = ⟨grammarLiteral H, identName f.start⟩ := by
  obtain ⟨text, ps, N, m, hr, rfl, hw', hc, hN⟩ := GrammarFile.compiled (f := ⟨f.grammar, f.start, [], false⟩) hE hC hR hP hG hw
  refine ⟨m, ps, rfl, hw', hc, fun p => ⟨?_, ?_⟩⟩
  · rintro ⟨M, h⟩
    have := h (max N M) (by omega)
    rw [genCmd_compiled hs hr (hN _ (by omega))] at this
    cases this
    rfl
  · rintro rfl
    exact ⟨N, fun n hn => genCmd_compiled hs hr (hN n hn)⟩

variable (hg : G.GoWritable) (hps : PlainText f.start)
include hg hps

/-- **C67** `wbnf gen` writes a package, and the expressions in it are Go source. Not all grammars can be written (see C42), hence
`_partial`. -/
theorem C67_writes_partial : ∃ p, Generates T W f p ∧ GoText p.grammar ∧ GoText p.start := by
  obtain ⟨m, ps, rfl, hw', hc, h⟩ := generates_iff hE hC hR hP hs hG hw
  exact ⟨_, (h _).2 rfl, (pkgParse_iff hg.cut hw' hc).1, (identName_value hps).2⟩

variable (hp : Generates T W f p)
include hp

theorem pkg_iff (inp : Scanner) : (∀ b, PkgParses T.engine p inp (.node b) ↔ MatchesAll T.engine H f.start inp b) ∧
    (PkgParses T.engine p inp .err ↔ MatchesNotAll T.engine H f.start inp) ∧ (lookup f.start H = none → PkgParses T.engine p inp .panic) := by
  obtain ⟨m, ps, rfl, hw', hc, h⟩ := generates_iff hE hC hR hP hs hG hw
  cases (h _).1 hp
  obtain ⟨-, g, h1, h2⟩ := pkgParse_iff hg.cut hw' hc
  have key : ∀ r, PkgParses T.engine ⟨grammarLiteral ps.grammar, identName f.start⟩ inp r ↔ AlwaysGives (fun ρ n => pkgParse T.engine g f.start ρ n inp) r := by
    intro r
    constructor
    · rintro ⟨g', start, h3, h4, h5⟩
      rw [h1] at h3
      cases h3
      rw [(identName_value hps).1] at h4
      cases h4
      exact h5
    · intro h5
      exact ⟨g, f.start, h1, (identName_value hps).1, h5⟩
  exact ⟨fun b => (key _).trans ((h2 f.start inp).1 b), (key _).trans (h2 f.start inp).2.1, fun hl => (key _).2 ((h2 f.start inp).2.2 hl)⟩

/-- **C67** `Parse` of the package returns a node exactly if the rule matches all of the input, and then it is the AST. -/
theorem C67_node (inp : Scanner) (b : Branch) : PkgParses T.engine p inp (.node b) ↔ MatchesAll T.engine H f.start inp b :=
  (pkg_iff hE hC hR hP hs hG hw hg hps hp inp).1 b

/-- **C67** `Parse` of the package returns an error exactly if the rule does not match or does not match all of the input. -/
theorem C67_error (inp : Scanner) : PkgParses T.engine p inp .err ↔ MatchesNotAll T.engine H f.start inp :=
  (pkg_iff hE hC hR hP hs hG hw hg hps hp inp).2.1

/-- **C67** `ParseString` does the same with a string. -/
theorem C67_string (input : Str) : (∀ b, PkgParsesString T.engine p input (.node b) ↔ MatchesAll T.engine H f.start (newScannerWithFilename input []) b) ∧
    (PkgParsesString T.engine p input .err ↔ MatchesNotAll T.engine H f.start (newScannerWithFilename input [])) :=
  have h := pkg_iff hE hC hR hP hs hG hw hg hps hp (newScannerWithFilename input [])
  ⟨h.1, h.2.1⟩

/-- **C67** The package does the same as a program that compiles the grammar file itself. -/
theorem C67_library (inp : Scanner) (r : PkgRes) (hr : r = .err ∨ ∃ b, r = .node b) :
    PkgParses T.engine p inp r ↔ AlwaysGives (fun ρ n => libParse T W f ρ n inp) r := by
  obtain ⟨h1, h2, -⟩ := pkg_iff hE hC hR hP hs hG hw hg hps hp inp
  obtain ⟨text, ps, N, m, hread, rfl, hw', hc, hN⟩ := GrammarFile.compiled (f := ⟨f.grammar, f.start, [], false⟩) hE hC hR hP hG hw
  have hh : ∀ ρ n, N ≤ n → libParse T W f ρ n inp = parseNode T.engine ps f.start ρ n inp := fun ρ n hn => by
    have hread' : W.read f.grammar = some text := hread
    simp only [libParse, hread', hN n hn]
  rw [AlwaysGives.congr hh]
  obtain ⟨i1, i2⟩ := parseNode_iff (r := f.start) (inp := inp) hw' hc
  rcases hr with rfl | ⟨b, rfl⟩
  · rw [h2, i2]
  · rw [h1, i1]

/-- **C67** A rule that the grammar does not have makes `Parse` panic. -/
theorem C67_no_rule (h : lookup f.start H = none) (inp : Scanner) : PkgParses T.engine p inp .panic :=
  (pkg_iff hE hC hR hP hs hG hw hg hps hp inp).2.2 h

/-- **C67** A string is accepted exactly if the rule matches all of it. Partial as `C31_groups_partial`. -/
theorem C67_language_partial {K : Grammar} (hH : H.ConvertibleIn K) {t : Term} (hl : lookup f.start H = some t) (ht : t.Yielding)
    (hx : NoExt [H] (.rule f.start)) (hq : PatternsSatisfy (ReportsGroup T.engine) [H] (.rule f.start)) (input : Str) :
    (∃ b, PkgParsesString T.engine p input (.node b)) ↔
      ∃ v rest, Denotes T.engine noExternals H f.start (newScannerWithFilename input []) (.ok v rest) ∧ rest.toStr = some [] := by
  simp only [(C67_string hE hC hR hP hs hG hw hg hps hp input).1]
  constructor
  · rintro ⟨b, v, rest, h1, h2, -⟩
    exact ⟨v, rest, h1, h2⟩
  · rintro ⟨v, rest, h1, h2⟩
    obtain ⟨b, -, h3, -⟩ := C66_prints_partial (f := ⟨f.grammar, f.start, [], false⟩) hE hC hR hP hs hG hw hH hl ht hx hq (by simp) h1
    exact ⟨b, v, rest, h1, h2, h3⟩

end

/-- **C67** Nothing is written without a grammar that can be read, or without a rule. -/
theorem C67_unreadable {n : Nat} (h : W.read f.grammar = none ∨ f.start = []) : genCmd T W f n = .failed := by
  unfold genCmd
  rcases h with h | h
  · rw [h]
  · split
    · rfl
    · rw [if_pos h]

/-- **C67** A package is only written for a grammar that compiles. -/
theorem C67_invalid (hE : T.engine.Sane) (hC : Core.EngineOK T.engine) (hR : Core.EngineReads T.engine)
    (hP : (cmdFiles W.read T.parse f.grammar).Parsed T.engine ρ') {text : Str} {g : GrammarN} {ss : List StmtN}
    (hr : W.read f.grammar = some text) (hs : T.parse text = some g) (hin : (cmdFiles W.read T.parse f.grammar).Includes [] g ss) {g' : GrammarN} (hm : Unfolds (.mk ss) g')
    {n : Nat} (h : genCmd T W f n = .written p) :
    Valid T.reOK (.mk ss) ∧ (GrammarN.mk ss).Ints ∧ badRoutes T.ord (.mk ss) = [] ∧ ∃ G, MeansGrammar g' G ∧ ∃ m ps, (insertCutPoints G).compile T.engine m = .ok ps := by
  unfold genCmd at h
  simp only [hr] at h
  split at h
  · cases h
  · split at h
    · cases h
    · cases h
    · next ps hc =>
      obtain ⟨h1, h2, h3, G, h4, m, h5⟩ := (C55_compile_partial (reOK := T.reOK) (ord := T.ord) (ps := ps) hE hC hR hP (hP.stands hs) hin hm).1 ⟨n, hc⟩
      exact ⟨h1, h2, h3, G, h4, m, ps, h5⟩
    · cases h

/-! ### Example -/

open Ex

theorem twoRules_writable : twoRulesMean.GoWritable := by
  have hn : ∀ s, Ascii s → (∀ c ∈ s, c ≠ 96 ∧ c ≠ 34 ∧ c ≠ 92 ∧ c ≠ 10 ∧ c ≠ 13) → (64 : UInt8) ∉ s → RuleName s :=
    fun s h h' h'' => ⟨.ascii h h', h''⟩
  refine ⟨?_, by unfold Grammar.Distinct; decide +kernel⟩
  have : twoRulesMean = [(str "a", .quant (.rule (str "b")) 0 0), (str "b", .s (str "x"))] := by rfl
  rw [this]
  simp only [goWritableDefs, Term.GoWritable, WritableBounds, and_true]
  exact ⟨hn _ (by decide) (by decide) (by decide), ⟨.inr (hn _ (by decide) (by decide) (by decide)), by simp⟩, hn _ (by decide) (by decide) (by decide), .ascii (by decide) (by decide)⟩

section
variable {parse : Str → Option GrammarN} (hP : ∀ read file, (cmdFiles read parse file).Parsed regexp ρ0)
include hP

/-- The package made of ``a -> b*; b -> `x`;``, for `a`: its strings are those of `a`. -/
theorem twoRules_package (input : Str) : ∃ p, Generates (tools parse) (world []) ⟨str "g", str "a"⟩ p ∧
    ((∃ b, PkgParsesString regexp p input (.node b)) ↔
      ∃ v rest, Denotes regexp noExternals twoRulesComp.grammar (str "a") (newScannerWithFilename input []) (.ok v rest) ∧ rest.toStr = some []) := by
  have hq := fun r => plainLeaf_check (q := Regex.setsLast) (Q := ReportsGroup regexp) (fun p => Regex.reportsGroup) (g := twoRulesComp.grammar) (by decide +kernel) (by decide +kernel) r
  have ha : PlainText (str "a") := .ascii (by decide) (by decide)
  obtain ⟨p, hp, -⟩ := C67_writes_partial (T := tools parse) (f := ⟨str "g", str "a"⟩) regexp_sane coreEngine Regex.engineReads (hP _ _) (by decide) (twoRules_file (input := []) (hP _ []))
    (by decide +kernel) twoRules_writable ha
  exact ⟨p, hp, C67_language_partial (T := tools parse) (f := ⟨str "g", str "a"⟩) regexp_sane coreEngine Regex.engineReads (hP _ _) (by decide) (twoRules_file (hP _ []))
    (by decide +kernel) twoRules_writable ha hp (K := twoRulesComp.grammar) (convertible_of_convertibleB (by decide +kernel)) (t := .quant (.rule (str "b")) 0 0) rfl trivial (hq _).2.2 (hq _).1 input⟩

/-- `xx` is accepted, `xy` is not. -/
example : ∃ p, Generates (tools parse) (world []) ⟨str "g", str "a"⟩ p ∧ ∃ b, PkgParsesString regexp p (str "xx") (.node b) := by
  obtain ⟨p, h1, h2⟩ := twoRules_package hP (str "xx")
  exact ⟨p, h1, h2.2 ((twoRules_decides (o := true) (by decide +kernel)).2 rfl)⟩

example : ∃ p, Generates (tools parse) (world []) ⟨str "g", str "a"⟩ p ∧ ¬ ∃ b, PkgParsesString regexp p (str "xy") (.node b) := by
  obtain ⟨p, h1, h2⟩ := twoRules_package hP (str "xy")
  exact ⟨p, h1, by rw [h2, twoRules_decides (o := false) (by decide +kernel)]; decide⟩

end

end Wbnf

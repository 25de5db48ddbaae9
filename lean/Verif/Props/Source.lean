import Verif.Lemmas.Source
import Verif.Lemmas.CompileEnds
import Verif.Lemmas.SyntaxEq
import Verif.Lemmas.Yields
import Verif.Props.Expand

/-!
# C55: compiling the text of a grammar

Specifications: `Stands`, `Files.Parsed` (Spec/Source), `Files.Includes` (Spec/Import), `Valid` (Spec/Validate), `Unfolds`
(Spec/Expand), `MeansGrammar` (Spec/Means), `Grammar.CompileEnds` (Spec/CompileEnds), `Denotes` (Spec/Top).
-/

namespace Wbnf

variable {E : Engine} {X : Externals} {ρ : Nat → Nat} {F : Files} {reOK : Str → Bool} {ord : List Str → List Str → List Str}
  {text : Str} {g g' : GrammarN} {ss : List StmtN} {ps : Parsers} {G : Grammar}

/-- **C55** Reading texts with the parser of wbnf sources is a way to read them: every text is a source or refused. -/
theorem C55_read (hE : E.Sane) (h : Core.EngineOK E) (hr : Core.EngineReads E) (ρ : Nat → Nat) (read : Str → Option Str)
    (path : Str → List Str → Str) (clean : Str → Str) : ∃ F : Files, F.read = read ∧ F.path = path ∧ F.clean = clean ∧ F.Parsed E ρ := by
  have key : ∀ x, ∃ r : Option GrammarN, (∀ g, r = some g → Stands E ρ x g) ∧ (r = none → Refused E ρ x) := fun x => by
    rcases stands_or_refused hE h hr ρ x with h | ⟨g, -, h⟩
    · exact ⟨none, by simp, fun _ => h⟩
    · exact ⟨some g, fun g' e => by cases e; exact h, by simp⟩
  refine ⟨⟨read, fun x => (key x).choose, path, clean⟩, rfl, rfl, rfl, fun {x g} e => (key x).choose_spec.1 g e, fun {x} e => (key x).choose_spec.2 e⟩

theorem Files.Parsed.parse_iff (hF : F.Parsed E ρ) : F.parse text = some g ↔ Stands E ρ text g := by
  refine ⟨fun h => hF.stands h, fun h => ?_⟩
  cases hp : F.parse text with
  | none => exact (h.not_refused (hF.refused hp)).elim
  | some g' => rw [(hF.stands hp).unique h]

theorem Files.Parsed.parse_none (hF : F.Parsed E ρ) : F.parse text = none ↔ Refused E ρ text := by
  refine ⟨fun h => hF.refused h, fun h => ?_⟩
  cases hp : F.parse text with
  | none => rfl
  | some g' => exact ((hF.stands hp).not_refused h).elim

/-- **C55** `Compile` returns parsers only for a text that is a source whose imports, and theirs, can be read. -/
theorem C55_needs (hF : F.Parsed E ρ) {n : Nat} (h : compileSource F E reOK ord n text = .ok ps) :
    ∃ g ss, Stands E ρ text g ∧ F.Includes [] g ss := by
  unfold compileSource at h
  rcases hm : makeGrammar F n [] text ⟨[], []⟩ with ⟨c, r⟩
  rw [hm] at h
  cases r with
  | error e => simp at h
  | ok g' =>
    obtain ⟨g, hp, hi⟩ := C41_statements.1 ⟨n, c, by rw [grammarN_eta g']; exact hm⟩
    exact ⟨g, _, hF.stands hp, hi⟩

/-- **C55** `Compile` returns parsers exactly if the source with its imports is valid (and the check for recursion finds nothing),
with the calls of macros expanded it denotes a grammar, and that grammar, with cut points, can be compiled; they are the parsers of
that grammar. Partial: for sources whose calls can be expanded (`C68_exists`, `C68_plain`). -/
theorem C55_compile_partial (hE : E.Sane) (h : Core.EngineOK E) (hr : Core.EngineReads E) (hF : F.Parsed E ρ) (hs : Stands E ρ text g)
    (hi : F.Includes [] g ss) (hm : Unfolds (.mk ss) g') : (∃ n, compileSource F E reOK ord n text = .ok ps) ↔
      Valid reOK (.mk ss) ∧ (GrammarN.mk ss).Ints ∧ badRoutes ord (.mk ss) = [] ∧
      ∃ G, MeansGrammar g' G ∧ ∃ m, (insertCutPoints G).compile E m = .ok ps := by
  have hp := hF.parse_iff.2 hs
  rw [compileSource_ok hp hi, C40_exact, and_assoc, and_assoc]
  refine and_congr_right fun _ => and_congr_right fun _ => and_congr_right fun _ => ?_
  simp only [C68_grammar_partial (includes_lexed hE h hr hF hp hi) hm]
  constructor
  · rintro ⟨G', ⟨G, h1, rfl⟩, hc⟩
    exact ⟨G, h1, hc⟩
  · rintro ⟨G, h1, hc⟩
    exact ⟨_, ⟨G, h1, rfl⟩, hc⟩

/-- **C55** And then parsing yields what the grammar, with cut points and its stacks resolved, denotes. -/
theorem C55_parses_partial (hE : E.Sane) (h : Core.EngineOK E) (hr : Core.EngineReads E) (hF : F.Parsed E ρ) (hs : Stands E ρ text g)
    (hi : F.Includes [] g ss) (hm : Unfolds (.mk ss) g') (hG : MeansGrammar g' G) (hw : G.wf = true) {n : Nat}
    (hc : compileSource F E reOK ord n text = .ok ps) (hX : X.Plain) :
    ∃ H, (insertCutPoints G).resolveStacks = some H ∧
      ∀ r inp o, ps.Yields E X r inp o ↔ Denotes E X H r inp o := by
  obtain ⟨-, -, -, G', hG', m, hc'⟩ := (C55_compile_partial hE h hr hF hs hi hm).1 ⟨n, hc⟩
  cases C51_unique hG hG'
  refine ⟨ps.grammar, compile_grammar hc', fun r inp o => yields_iff ?_ hc' hX⟩
  exact (wfDefs_fix G hG.uncut).trans hw

/-- Not the fuel: a real outcome. -/
def Compiled.Done : Compiled → Prop
  | .load e => e ≠ .oof
  | .stop e => e ≠ .oof
  | _ => True

/-- **C55** If following imports, calls of macros and aliases comes to an end, so does `Compile`: with an error of reading or
parsing, errors of validation, a panic, or parsers. More fuel makes no difference. -/
theorem C55_ends (hF : F.Parsed E ρ) (he : ∀ g, Stands E ρ text g → ∀ q, F.Needs [] g q → F.Ends q)
    (hm : ∀ g ss, Stands E ρ text g → F.Includes [] g ss → ∀ m ∈ (GrammarN.mk ss).calls, (macrosOf (.mk ss)).Ends m)
    (ha : ∀ g ss G n, Stands E ρ text g → F.Includes [] g ss → newFromAst n (.mk ss) = .ok G → G.CompileEnds) :
    ∃ N r, r.Done ∧ ∀ n, N ≤ n → compileSource F E reOK ord n text = r := by
  obtain ⟨N, r, hr, hN⟩ : ∃ N r, r ≠ .error .oof ∧ ∀ n, N ≤ n → (makeGrammar F n [] text ⟨[], []⟩).2 = r := by
    cases hp : F.parse text with
    | none =>
      refine ⟨1, .error (.parse []), by simp, fun n hn => ?_⟩
      obtain ⟨n, rfl⟩ : ∃ m, n = m + 1 := ⟨n - 1, by omega⟩
      rw [makeGrammar_succ, hp]
    | some g =>
      obtain ⟨N, hN⟩ := (C41_ends hp).1.2 (he g (hF.stands hp))
      exact ⟨N, _, hN N (Nat.le_refl _), fun n hn => by rw [makeGrammar_mono hn (hN N (Nat.le_refl _))]⟩
  cases r with
  | error e =>
    refine ⟨N, .load e, fun h => hr (by rw [h]), fun n hn => ?_⟩
    unfold compileSource
    rw [hN n hn]
  | ok g' =>
    have hi : ∃ g, Stands E ρ text g ∧ F.Includes [] g g'.stmts := by
      obtain ⟨g, hp, hi⟩ := C41_statements (F := F) (text := text).1 ⟨N, _, Prod.ext rfl (by rw [grammarN_eta g']; exact hN N (Nat.le_refl _))⟩
      exact ⟨g, hF.stands hp, hi⟩
    obtain ⟨g, hs, hi⟩ := hi
    have hm := hm g _ hs hi
    have ha := fun G n => ha g _ G n hs hi
    rw [grammarN_eta g'] at hm ha
    cases hv : validate reOK ord g' with
    | error e =>
      refine ⟨N, .stop e, ?_, fun n hn => by unfold compileSource; rw [hN n hn]; simp only [hv]⟩
      intro h
      rw [h, validate] at hv
      dsimp only at hv
      split at hv
      · cases hv
      · split at hv <;> cases hv
    | ok es =>
      cases es with
      | cons e es => exact ⟨N, .invalid (e :: es), trivial, fun n hn => by unfold compileSource; rw [hN n hn]; simp only [hv]⟩
      | nil =>
        rcases C38_ends g' hm with ⟨M, G, hG⟩ | ⟨M, hG⟩
        · obtain ⟨K, hK⟩ := compile_ends (E := E) (ha G M (hG M (Nat.le_refl _)))
          refine ⟨max N (max M K), match G.compile E K with | .error e => .stop e | .ok ps => .ok ps, ?_, fun n hn => ?_⟩
          · cases hc : G.compile E K with
            | error e => exact fun h => hK K (Nat.le_refl _) (by dsimp only; rw [hc, h])
            | ok ps => trivial
          · unfold compileSource
            rw [hN n (by omega)]
            simp only [hv, hG n (by omega), compile_mono_le (n := K) (m := n) (by omega) (hK K (Nat.le_refl _))]
            cases G.compile E K <;> rfl
        · refine ⟨max N M, .stop .panic, by simp [Compiled.Done], fun n hn => ?_⟩
          unfold compileSource
          rw [hN n (by omega)]
          simp only [hv, hG n (by omega)]

/-- **C55** None of this can be left out: where a file that is needed imports itself `Compile` does not end (`C41_cycle`), and
what compiles has no circle of aliases. -/
theorem C55_aliases (h : ∃ n, G.compile E n = .ok ps) : G.CompileEnds := by
  obtain ⟨n, h⟩ := h
  exact (compile_iff.1 ⟨n, ps, fun m hm => by rw [compile_mono_le hm (by rw [h]; simp), h]⟩).ends

/-! ## Examples -/

/-- What `Compile` does with a source that imports nothing. -/
theorem compileSource_text (hF : F.Parsed E ρ) (hs : Stands E ρ text g) (hi : g.imports = []) (n : Nat) :
    (∀ e, validate reOK ord g = .error e → compileSource F E reOK ord (n + 1) text = .stop e) ∧
    (validate reOK ord g = .ok [] →
      (∀ e, newFromAst (n + 1) g = .error e → compileSource F E reOK ord (n + 1) text = .stop e) ∧
      ∀ G, newFromAst (n + 1) g = .ok G →
        (∀ e, G.compile E (n + 1) = .error e → compileSource F E reOK ord (n + 1) text = .stop e) ∧
        ∀ ps, G.compile E (n + 1) = .ok ps → compileSource F E reOK ord (n + 1) text = .ok ps) := by
  have hm : (makeGrammar F (n + 1) [] text ⟨[], []⟩).2 = .ok g := by
    rw [makeGrammar_succ, hF.parse_iff.2 hs]
    simp only [imported, hi, List.foldl_nil]
  unfold compileSource
  rw [hm]
  refine ⟨fun e h => by simp only [h], fun h => ⟨fun e h1 => by simp only [h, h1], fun G h1 => ⟨fun e h2 => by simp only [h, h1, h2], fun ps h2 => by simp only [h, h1, h2]⟩⟩⟩

theorem includes_self (hi : g.imports = []) : F.Includes [] g g.stmts := by
  have := Files.Includes.mk (F := F) (f := []) (g := g) (ps := []) (by rw [hi]; exact .nil)
  rwa [List.append_nil] at this

theorem stands_viewed {n : Nat} {x : Str} (h : Core.viewed n x = some g) : Stands regexp Ex.ρ0 x g := by
  unfold Core.viewed at h
  split at h
  · exact stands_of (by assumption) h
  · cases h

namespace Ex

/-- A production of one atom, as it is parsed. -/
def one (r : String) (a : AtomN) (qs : List QuantN) : StmtN :=
  .prod (str r) [.many [] [] [.many [] [] [.many [] [] [.one (.mk none a) qs]]]]

/-- ``a -> b*; b -> `x`;`` -/
def twoRules : GrammarN := .mk [one "a" (.ident (str "b")) [.op (str "*")], one "b" (.str (str "`x`")) []]
def twoRulesText : Str := str "a -> b*; b -> `x`;"
def twoRulesMean : Grammar := [(str "a", .quant (.rule (str "b")) 0 0), (str "b", .s (str "x"))]

set_option maxRecDepth 100000 in
theorem twoRules_stand : Stands regexp ρ0 twoRulesText twoRules :=
  stands_viewed (n := 60) (by decide +kernel)

theorem twoRules_mean : MeansGrammar (.mk twoRules.stmts) twoRulesMean := by
  have lit : MeansAtom (.str (str "`x`")) (.s (str "x")) := .str (.backquoted (text := str "x"))
  exact .mk (.prod (.single (.single (.single (.single (.quants (.plain .ident) (.cons .nil .any))))))
    (.prod (.single (.single (.single (.single (.quants (.plain lit) .nil))))) .nil))

end Ex

open Ex

/-- All of C55 holds of this text: it is a source, what it includes is the source itself, it is valid and compiles. -/
example (hF : F.Parsed regexp ρ0) : Stands regexp ρ0 twoRulesText twoRules ∧ F.Includes [] twoRules twoRules.stmts ∧
    (GrammarN.mk twoRules.stmts).calls = [] ∧ MeansGrammar (.mk twoRules.stmts) twoRulesMean ∧ twoRulesMean.wf = true ∧
    (insertCutPoints twoRulesMean).CompileEnds ∧
    compileSource F regexp reOK asWritten 60 twoRulesText = .ok (comp! (insertCutPoints twoRulesMean)) := by
  have hc : (insertCutPoints twoRulesMean).compile regexp 60 = .ok (comp! (insertCutPoints twoRulesMean)) := by
    have := comp_ok (g := insertCutPoints twoRulesMean) (by decide +kernel)
    rw [compile_mono_le (n := 50) (m := 60) (by omega) (by rw [this]; simp), this]
  refine ⟨twoRules_stand, includes_self rfl, by decide +kernel, twoRules_mean, by decide +kernel, C55_aliases ⟨60, hc⟩, ?_⟩
  have hv : validate reOK asWritten twoRules = .ok [] := rfl
  have hG : newFromAst 60 twoRules = .ok (insertCutPoints twoRulesMean) := by rfl
  exact (((compileSource_text hF twoRules_stand rfl 59).2 hv).2 _ hG).2 _ hc

namespace Ex

def withMacrosText : Str := str ".macro two(x) { %!opt(x) x } .macro opt(x) { x? } a -> %!two(b); b -> `x`;"

set_option maxRecDepth 100000 in
theorem withMacros_stand : Stands regexp ρ0 withMacrosText withMacros :=
  stands_viewed (n := 60) (by decide +kernel)

end Ex

/-- And of this one, with macros. -/
example (hF : F.Parsed regexp ρ0) : Stands regexp ρ0 withMacrosText withMacros ∧ F.Includes [] withMacros withMacros.stmts ∧
    Unfolds withMacros unfolded ∧ MeansGrammar unfolded unfoldedMean ∧ unfoldedMean.wf = true ∧
    compileSource F regexp reOK asWritten 60 withMacrosText = .ok (comp! (insertCutPoints unfoldedMean)) := by
  have hc : (insertCutPoints unfoldedMean).compile regexp 60 = .ok (comp! (insertCutPoints unfoldedMean)) := by
    have := comp_ok (g := insertCutPoints unfoldedMean) (by decide +kernel)
    rw [compile_mono_le (n := 50) (m := 60) (by omega) (by rw [this]; simp), this]
  refine ⟨withMacros_stand, includes_self rfl, withMacros_unfolds, unfolded_mean, by decide +kernel, ?_⟩
  have hv : validate reOK asWritten withMacros = .ok [] := rfl
  have hG : newFromAst 60 withMacros = .ok (insertCutPoints unfoldedMean) := by rfl
  exact (((compileSource_text hF withMacros_stand rfl 59).2 hv).2 _ hG).2 _ hc

set_option maxRecDepth 100000 in
/-- **C55** Texts that are parsed and valid, but for which `Compile` panics: `a -> "\x41";`, ``a -> (b > b) `c`; b -> `d`;``, `a -> @;`,
`a -> /{*};` (what is checked is the literal, not the regexp) and ``a -> `x`{9223372036854775808,};``. -/
theorem C55_panics (hF : F.Parsed regexp ρ0) (hre : reOK (str "/{*}") = true) (n : Nat) :
    compileSource F regexp reOK asWritten (n + 20) (str "a -> \"\\x41\";") = .stop .panic ∧
    compileSource F regexp reOK asWritten (n + 20) (str "a -> (b > b) `c`; b -> `d`;") = .stop .panic ∧
    compileSource F regexp reOK asWritten (n + 20) (str "a -> @;") = .stop .panic ∧
    compileSource F regexp reOK asWritten (n + 20) (str "a -> /{*};") = .stop .panic ∧
    compileSource F regexp reOK asWritten (n + 20) (str "a -> `x`{9223372036854775808,};") = .stop .panic := by
  refine ⟨?_, ?_, ?_, ?_, ?_⟩
  · have hs : Stands regexp ρ0 (str "a -> \"\\x41\";") (.mk [one "a" (.str (str "\"\\x41\"")) []]) := stands_viewed (n := 60) (by decide +kernel)
    refine ((compileSource_text hF hs rfl (n + 19)).2 rfl).1 _ ?_
    have hp : parseString (str "\"\\x41\"") = .error .panic :=
      (C36_numeric (q := 34) (last := 34) (.inl rfl) .nil).1 120 (str "41") (.inl rfl)
    have : newFromAst (n + 19 + 1) (.mk [one "a" (.str (str "\"\\x41\"")) []]) = (parseString (str "\"\\x41\"")).bind fun s => .ok [(str "a", .cut (.s s))] := by
      rw [hp]
      simp only [newFromAst, one, buildGrammar, buildStmts, mapE, buildTerm, buildNamed, buildAtom, hp, Except.bind]
    rw [this, hp]
    rfl
  · have hs : Stands regexp ρ0 (str "a -> (b > b) `c`; b -> `d`;") (.mk [.prod (str "a") [.many [] [] [.many [] [] [.many [] [] [
      .one (.mk none (.term (.many (str ">") [] [.many [] [] [.many [] [] [rn "b"]], .many [] [] [.many [] [] [rn "b"]]]))) [],
      .one (.mk none (.str (str "`c`"))) []]]]], one "b" (.str (str "`d`")) []]) := stands_viewed (n := 60) (by decide +kernel)
    exact (((compileSource_text hF hs rfl (n + 19)).2 rfl).2 _ rfl).1 _ rfl
  · have hs : Stands regexp ρ0 (str "a -> @;") (.mk [one "a" (.ident (str "@")) []]) := stands_viewed (n := 60) (by decide +kernel)
    exact (((compileSource_text hF hs rfl (n + 19)).2 rfl).2 _ rfl).1 _ rfl
  · have hs : Stands regexp ρ0 (str "a -> /{*};") (.mk [one "a" (.re (str "/{*}")) []]) := stands_viewed (n := 60) (by decide +kernel)
    have hp : parseRE (str "/{*}") = str "*" := (RegexpMeans.braces (body := str "*")).reads
    have hv : validate reOK asWritten (.mk [one "a" (.re (str "/{*}")) []]) = .ok [] := by
      have : validate reOK asWritten (.mk [one "a" (.re (str "/{*}")) []]) =
        validate (fun _ => reOK (str "/{*}")) asWritten (.mk [one "a" (.re (str "/{*}")) []]) := rfl
      rw [this, hre]
      rfl
    have hG : newFromAst (n + 19 + 1) (.mk [one "a" (.re (str "/{*}")) []]) = .ok [(str "a", .re (str "*"))] := by
      have : newFromAst (n + 19 + 1) (.mk [one "a" (.re (str "/{*}")) []]) = .ok [(str "a", .re (parseRE (str "/{*}")))] := rfl
      rw [this, hp]
    exact (((compileSource_text hF hs rfl (n + 19)).2 hv).2 _ hG).1 _ rfl
  · have hs : Stands regexp ρ0 (str "a -> `x`{9223372036854775808,};") (.mk [one "a" (.str (str "`x`")) [.range (some (str "9223372036854775808")) none]]) :=
      stands_viewed (n := 60) (by decide +kernel)
    exact (compileSource_text hF hs rfl (n + 19)).1 _ rfl

set_option maxRecDepth 100000 in
/-- **C55** And one for which it never returns: `a -> b { b -> b; };`. -/
theorem C55_hangs (hF : F.Parsed regexp ρ0) (n : Nat) :
    compileSource F regexp reOK asWritten (n + 20) (str "a -> b { b -> b; };") = .stop .oof := by
  have hs : Stands regexp ρ0 (str "a -> b { b -> b; };") (.mk [.prod (str "a") [.many [] [.mk [one "b" (.ident (str "b")) []]] [.many [] [] [.many [] [] [rn "b"]]]]]) :=
    stands_viewed (n := 60) (by decide +kernel)
  refine (((compileSource_text hF hs rfl (n + 19)).2 rfl).2 _ rfl).1 _ ?_
  have : ∀ n, followAlias [(str "b", .rule (str "b"))] n (.rule (str "b")) = .error .oof := by
    intro n
    induction n with
    | zero => rfl
    | succ n ih => exact ih
  have h2 : compileTerm regexp (n + 20) (cacheFor [(str "a", .scope (.rule (str "b")) [(str "b", .rule (str "b"))])]) (str "a")
      (.scope (.rule (str "b")) [(str "b", .rule (str "b"))]) = .error .oof := by
    rw [compileTerm_scope]
    have hp : prepare [(str "b", .rule (str "b"))] = .ok [(str "b", .rule (str "b"))] := rfl
    rw [hp]
    have hw : inheritWrap (cacheFor [(str "a", .scope (.rule (str "b")) [(str "b", .rule (str "b"))])]).wrap [(str "b", .rule (str "b"))] =
      [(str "b", .rule (str "b"))] := rfl
    simp only [Except.bind, hw, compileRules, this]
  have h3 : (insertCutPoints [(str "a", .scope (.rule (str "b")) [(str "b", .rule (str "b"))])]) = [(str "a", .scope (.rule (str "b")) [(str "b", .rule (str "b"))])] := rfl
  have h4 : prepare [(str "a", .scope (.rule (str "b")) [(str "b", .rule (str "b"))])] = .ok [(str "a", .scope (.rule (str "b")) [(str "b", .rule (str "b"))])] := rfl
  show Grammar.compile regexp (n + 20) (insertCutPoints [(str "a", .scope (.rule (str "b")) [(str "b", .rule (str "b"))])]) = _
  rw [h3, Grammar.compile, h4]
  simp only [Except.bind, compileRules, followAlias, h2]

end Wbnf

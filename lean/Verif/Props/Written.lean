import Verif.Lemmas.WriteGrammar
import Verif.Props.Source
import Verif.Props.Spells
import Verif.Props.Comments
import Verif.Lemmas.Ordinary
import Verif.Examples.Finds

/-!
# C69: what is written in the notation is read as what it spells
-/

namespace Wbnf

variable {E : Engine} {X : Externals} {ρ : Nat → Nat} {n m : Nat} {x : Str} {g : GrammarN} {ws : List Str} {full : Bool}

namespace Core

/-- The node of a text that is accepted. -/
theorem node_of (hE : E.Sane) (h : EngineOK E) (hr : EngineReads E) {v : Tree} {i : Scanner} {N : Nat}
    (hp : ∀ n, N ≤ n → Core.parse E ρ n (newScanner x) = .ok v i) :
    ∃ b parts M, PartsBy LeafRead allRules (some (rule "stmt")) v parts ∧
      Groups (some (rule "stmt")) ((ruleTag, .extra (.rule (str "grammar"))) :: parts) b ∧
      ∀ n, M ≤ n → parseNode E ρ n (newScanner x) = .node b := by
  obtain ⟨N1, ps, hc⟩ := Core.compiles h
  have hps : ps.grammar = Core.flat := by
    have := compile_grammar (hc N1 (Nat.le_refl _))
    rw [Core.flat_ok] at this
    exact (Option.some.inj this).symm
  have hg : Core.grammar.wf = true := by decide +kernel
  have hK : ∀ n, max N N1 ≤ n → ps.parse E noExternals ρ n (str "grammar") (newScanner x) = .ok v i := fun n hn => by
    have := hp n (by omega)
    simpa only [Core.parse, hc n (by omega)] using this
  have hK1 := hK _ (Nat.le_refl _)
  have hrun : ∃ k, ps.run E noExternals ρ (max N N1) (str "grammar") (newScanner x) = .ok v i k := by
    unfold Parsers.parse at hK1
    cases hrr : ps.run E noExternals ρ (max N N1) (str "grammar") (newScanner x) with
    | ok v' i' k' =>
      rw [hrr, Res.top] at hK1
      split at hK1
      · cases hK1
      · cases hK1; exact ⟨k', rfl⟩
      · cases hK1
    | err => rw [hrr] at hK1; cases hK1
    | panic => rw [hrr] at hK1; cases hK1
    | oof => rw [hrr] at hK1; cases hK1
  obtain ⟨k, hrun⟩ := hrun
  have hd := run_derive hg (hc N1 (Nat.le_refl _)) rfl hrun
  rw [hps] at hd
  obtain ⟨v', hv, hconf⟩ := hd.conformsBy (I := Scanner.InRange)
    (fun hd hi => (hd.advances hE Ex.sane_noExternals hi).inRange hi) (Ex.newScanner_inRange x)
  cases hv
  have hconf : ConformsBy (fun _ => Core.LeafRead) [Core.flat] [] (.rule (str "grammar")) v :=
    hconf.imp fun Γ' t' s hp hl => Core.leaf_read hE hr hp hl
  have hv : ∃ xx cs, v = .node (str "grammar") xx cs := by
    cases hconf with
    | @rule _ _ _ Γ t _ hres hb =>
      have ht : t = Core.some (Core.rule "stmt") := by
        have hl : lookup (str "grammar") Core.flat = Option.some (Core.some (Core.rule "stmt")) := by decide +kernel
        cases hres with
        | here h => exact h.det (.here hl (by simp [Core.some]))
        | outer h => rw [hl] at h; cases h
      subst ht
      cases hb
      exact ⟨_, _, rfl⟩
  obtain ⟨xx, cs, rfl⟩ := hv
  obtain ⟨t, parts, b, g', N2, hl, h1, h2, _, h3⟩ := hconf.groups Core.convertible
  have ht : t = Core.some (Core.rule "stmt") := by
    have : lookup (str "grammar") Core.flat = Option.some (Core.some (Core.rule "stmt")) := by decide +kernel
    rw [this] at hl
    exact (Option.some.inj hl).symm
  subst ht
  refine ⟨b, parts, max (max N N1) N2, h1, h2, fun n hn => ?_⟩
  simp only [Core.parseNode, hc n (by omega), hK n (by omega), hps, h3 n (by omega)]

theorem noStmt_nil : NoStmt [] := fun _ _ => .inl rfl

end Core

theorem DistinctDraws.mono {K L : Nat} (h : DistinctDraws X ρ L) (hk : K ≤ L) : DistinctDraws X ρ K :=
  ⟨fun i j hi hj => h.inj i j (by omega) (by omega), fun i hi => h.foreign i (by omega)⟩

/-- **C69** A text whose words, with any white space between them (or none, where that does not make other words), spell a source
is read as that source. Partial: for sources without comments `/*…*/` with a character beyond ASCII, whose regexps have no brackets in brackets,
and do not begin with `.` or have `\p` outside braces, and whose paths are made of `/`, `.`, `..` and names that begin and end with a letter
or digit (`C69_dots`). (Terms that are not the last on a right-hand side have one layer and end with braces;
arguments of macros do not end with `a:","`, because the comma between the arguments would be taken for that after the separator:
`C69_comma`.) -/
theorem C69_written_partial (hE : E.Sane) (hC : Core.EngineOK E) (hR : Core.EngineReads E) (hF : Core.EngineFinds E)
    (hs : SpellsGrammar g ws) (hg : g.Ordinary full) (hx : LaidOut ws x) :
    ∃ K, ∀ ρ, DistinctDraws noExternals ρ K → Stands E ρ x g := by
  cases hs with
  | @mk ss _ hn h =>
  have hrd := Core.body_reads (X := noExternals) hn (Core.spelled_stmts ⟨hE, hC, hR, hF⟩ h hg) Core.noStmt_nil
  have hws : ws ≠ [] := by
    cases h with
    | nil => exact absurd rfl hn
    | cons h _ => cases h <;> simp
  have hsits : Core.Sits (newScanner x) (ws ++ []) := by
    rw [List.append_nil]
    exact ⟨Ex.newScanner_inRange x, x, x, [], [], Ex.newScanner_toStr x, hx, by simp [White], by simp [White], rfl, fun e => absurd e hws⟩
  obtain ⟨v, j, hpeg, ⟨_, s, _, _, _, hj, _, _, _, _, hs⟩, hP⟩ := hrd _ hsits (str "grammar")
  rw [hs rfl] at hj
  obtain ⟨N, K, hNK⟩ := (C53_accepts_iff hC Core.flat_ok).1 ⟨Peg.rule Core.resolves_grammar (hpeg []), hj⟩
  refine ⟨K, fun ρ hρ => ?_⟩
  obtain ⟨b, parts, M, h1, h2, h3⟩ := Core.node_of hE hC hR (hNK ρ hρ)
  obtain ⟨M', hM'⟩ := Core.view_grammar (b := b) (p := parts) (by rw [groups_all h2, partsNamed_cons, if_neg (by decide), List.nil_append]) (hP _ h1)
  exact ⟨max M M', b, fun n hn => ⟨h3 n (by omega), hM' n (by omega)⟩⟩

/-- **C69** How the words are laid out makes no difference: texts of the same words stand for the same source. Partial: as
`C69_written_partial`. -/
theorem C69_layout_partial {y : Str} (hE : E.Sane) (hC : Core.EngineOK E) (hR : Core.EngineReads E) (hF : Core.EngineFinds E)
    (hs : SpellsGrammar g ws) (hg : g.Ordinary full) (hx : LaidOut ws x) (hy : LaidOut ws y) :
    ∃ K, ∀ ρ, DistinctDraws noExternals ρ K → ∀ g', Stands E ρ x g' ↔ Stands E ρ y g' := by
  obtain ⟨K, hK⟩ := C69_written_partial hE hC hR hF hs hg hx
  obtain ⟨K', hK'⟩ := C69_written_partial hE hC hR hF hs hg hy
  refine ⟨max K K', fun ρ hρ g' => ?_⟩
  have h1 := hK ρ (hρ.mono (by omega))
  have h2 := hK' ρ (hρ.mono (by omega))
  exact ⟨fun h => h1.unique h ▸ h2, fun h => h2.unique h ▸ h1⟩

/-- With line ends instead of spaces. -/
def onLines (x : String) : Str := (str x).map fun c => if c = 32 then 10 else c

/-- Each of the words on its own line. -/
def spacedOut (ws : List Str) : Str := ws.flatMap fun w => 10 :: w

theorem laidOut_spacedOut : ∀ ws, LaidOut ws (spacedOut ws)
  | [] => .nil (by simp [White, spacedOut])
  | w :: ws => by
    have h : MayFollow w (spacedOut ws) := by
      intro c d _ hd
      cases ws with
      | nil => cases hd
      | cons w' ws =>
        have : d = 10 := by simpa [spacedOut] using hd.symm
        subst this
        exact ⟨fun h => absurd h.2 (by unfold NameByte; decide), by simp [tokenPairs], fun h => absurd h.2 (by decide), fun _ => rfl⟩
    have := LaidOut.cons (before := [10]) (by simp [White]) h (laidOut_spacedOut ws)
    simpa [spacedOut] using this

/-- **C69** The notation is not ambiguous: the same words do not spell two different sources. (Where words are missing, they
may.) -/
theorem C69_unambiguous {g' : GrammarN} (hs : SpellsGrammar g ws) (hs' : SpellsGrammar g' ws) (hg : g.Ordinary full) (hg' : g'.Ordinary full) : g = g' := by
  obtain ⟨K, hK⟩ := C69_written_partial regexp_sane Ex.coreEngine Regex.engineReads Regex.engineFinds hs hg (laidOut_spacedOut ws)
  obtain ⟨K', hK'⟩ := C69_written_partial regexp_sane Ex.coreEngine Regex.engineReads Regex.engineFinds hs' hg' (laidOut_spacedOut ws)
  exact (hK Ex.ρ0 (distinct_ρ0 K)).unique (hK' Ex.ρ0 (distinct_ρ0 K'))

/-- **C69** So `Compile` of a text with these words returns parsers exactly if the source is valid (and the check for recursion
finds nothing), with its macros expanded it denotes a grammar and that can be compiled, and they are the parsers of that. Partial: as
`C69_written_partial`, and for sources whose calls can be expanded. -/
theorem C69_compiles_partial {reOK : Str → Bool} {ord : List Str → List Str → List Str} {g' : GrammarN} {ss : List StmtN} (hE : E.Sane)
    (hC : Core.EngineOK E) (hR : Core.EngineReads E) (hF : Core.EngineFinds E) (hs : SpellsGrammar g ws) (hg : g.Ordinary full) (hx : LaidOut ws x)
    (hm : Unfolds (.mk ss) g') :
    ∃ K, ∀ ρ, DistinctDraws noExternals ρ K → ∀ F : Files, F.Parsed E ρ → F.Includes [] g ss →
      ∀ ps, (∃ n, compileSource F E reOK ord n x = .ok ps) ↔
        Valid reOK (.mk ss) ∧ (GrammarN.mk ss).Ints ∧ badRoutes ord (.mk ss) = [] ∧
          ∃ G, MeansGrammar g' G ∧ ∃ m, (insertCutPoints G).compile E m = .ok ps := by
  obtain ⟨K, hK⟩ := C69_written_partial hE hC hR hF hs hg hx
  exact ⟨K, fun ρ hρ F hP hi ps => C55_compile_partial hE hC hR hP (hK ρ hρ) hi hm⟩

/-- **C69** Those parsers do what the grammar says. Partial: as `C69_compiles_partial`. -/
theorem C69_parses_partial {reOK : Str → Bool} {ord : List Str → List Str → List Str} {G : Grammar} {g' : GrammarN} {ss : List StmtN} (hE : E.Sane)
    (hC : Core.EngineOK E) (hR : Core.EngineReads E) (hF : Core.EngineFinds E) (hs : SpellsGrammar g ws) (hg : g.Ordinary full) (hx : LaidOut ws x)
    (hX : X.Plain) (hm : Unfolds (.mk ss) g') (hG : MeansGrammar g' G) (hw : G.wf = true) :
    ∃ K, ∀ ρ, DistinctDraws noExternals ρ K → ∀ F : Files, F.Parsed E ρ → F.Includes [] g ss → ∀ n ps, compileSource F E reOK ord n x = .ok ps →
      ∃ H, (insertCutPoints G).resolveStacks = some H ∧ ∀ r inp o, ps.Yields E X r inp o ↔ Denotes E X H r inp o := by
  obtain ⟨K, hK⟩ := C69_written_partial hE hC hR hF hs hg hx
  exact ⟨K, fun ρ hρ F hP hi n ps hc => C55_parses_partial hE hC hR hP (hK ρ hρ) hi hm hG hw hc hX⟩

/-- **C69** Without macros and imports there is nothing to expand or to include. Partial: as `C69_written_partial`. -/
theorem C69_plain_partial {reOK : Str → Bool} {ord : List Str → List Str → List Str} {G : Grammar} (hE : E.Sane) (hC : Core.EngineOK E)
    (hR : Core.EngineReads E) (hF : Core.EngineFinds E) (hs : SpellsGrammar g ws) (hg : g.Ordinary false) (hx : LaidOut ws x) (hX : X.Plain)
    (hG : MeansGrammar g G) (hw : G.wf = true) :
    ∃ K, ∀ ρ, DistinctDraws noExternals ρ K → ∀ F : Files, F.Parsed E ρ → ∀ n ps, compileSource F E reOK ord n x = .ok ps →
      ∃ H, (insertCutPoints G).resolveStacks = some H ∧ ∀ r inp o, ps.Yields E X r inp o ↔ Denotes E X H r inp o := by
  obtain ⟨ss⟩ := g
  obtain ⟨K, hK⟩ := C69_parses_partial (reOK := reOK) (ord := ord) hE hC hR hF hs hg hx hX hg.unfolds hG hw
  exact ⟨K, fun ρ hρ F hP => hK ρ hρ F hP hg.includes⟩

/-! ## Examples -/

namespace Ex

/-- A term of one layer, one alternative and one part. -/
abbrev alone (n : NamedN) (qs : List QuantN) : TermN := .many [] [] [.many [] [] [.many [] [] [.one n qs]]]

/-- A list of `b`s with separators, maybe one at the end; a production with a regexp, and a grammar in braces. -/
def noteNode : GrammarN := .mk
  [.prod (str "a") [alone (.mk none (.ident (str "b"))) [.sep (str ":") false true (.mk (some (str "n")) (.str (str "\",\"")))]],
    .prod (str "b") [.many [] [.mk [.prod (str "c") [alone (.mk none (.re (str "[a-z]+?\\d"))) []]]]
      [.many (str "|") [] [.many [] [] [.one (.mk none (.re (str "/{[0-9]{2,}}"))) []],
        .many [] [] [.one (.mk none (.ident (str "c"))) [.range none (some (str "2"))]]]]]]

def noteWords : List Str := ["a", "->", "b", ":", "n", "=", "\",\"", ",", ";",
  "b", "->", "/{[0-9]{2,}}", "|", "c", "{", ",", "2", "}", "{", "c", "->", "[a-z]+?\\d", ";", "}", ";"].map str

theorem note_spelled : SpellsGrammar noteNode noteWords :=
  .mk (by simp) (.cons (.prod (by simp) (.cons (.layers (.plain (.alternatives (.sequence (by simp) (.cons (.one (.plain .ident)
      (.cons (.sep (lead := false) (.named .str)) .nil)) .nil)) .nil)) .nil) .nil))
    (.cons (.prod (by simp) (.cons (.layers (.braces (.alternatives (.sequence (by simp) (.cons (.one (.plain .re) .nil) .nil))
        (.cons (.sequence (by simp) (.cons (.one (.plain .ident) (.cons .range .nil)) .nil)) .nil))
      (.mk (by simp) (.cons (.prod (by simp) (.cons (.layers (.plain (.alternatives (.sequence (by simp) (.cons (.one (.plain .re) .nil) .nil)) .nil)) .nil) .nil)) .nil))) .nil) .nil)) .nil))

instance (c : UInt8) : Decidable (NameByte c) := by unfold NameByte; infer_instance

/-- Whether words may be written without white space between them. -/
def mayTouch : List Str → Bool
  | w :: w' :: ws => (match w.getLast?, w'.head? with
    | some c, some d => decide (¬ (NameByte c ∧ (NameByte d ∨ d = 46))) && decide ((c, d) ∉ tokenPairs) && !((str "[\\^$").any (w.head? == some ·) && (str "[\\^$.+*?{").contains d) &&
      !(str "//").isPrefixOf w
    | _, _ => false) && mayTouch (w' :: ws)
  | _ => true

theorem laidOut_touching : ∀ ws, mayTouch ws = true → LaidOut ws ws.flatten
  | [], _ => .nil (by simp [White])
  | [w], _ => by
    have := LaidOut.cons (before := []) (w := w) (ws := []) (x := []) (by simp [White]) (by intro c d _ h; cases h) (.nil (by simp [White]))
    simpa using this
  | w :: w' :: ws, h => by
    simp only [mayTouch, Bool.and_eq_true] at h
    have := LaidOut.cons (before := []) (w := w) (by simp [White]) ?_ (laidOut_touching (w' :: ws) h.2)
    · simpa using this
    · intro c d hc hd
      have h := h.1
      cases w' with
      | nil => simp [hc] at h
      | cons d' w' =>
        simp only [List.flatten_cons, List.cons_append, List.head?_cons, Option.some.injEq] at hd
        subst hd
        simp only [hc, List.head?_cons, Bool.and_eq_true, decide_eq_true_eq, Bool.not_eq_true', Bool.and_eq_false_iff] at h
        refine ⟨h.1.1.1, h.1.1.2, fun ⟨⟨b, hb, e⟩, hd⟩ => ?_, fun hp => ?_⟩
        rotate_left
        · rw [← List.isPrefixOf_iff_prefix, h.2] at hp; cases hp
        rcases h.1.2 with h | h
        · rw [List.any_eq_false] at h
          exact h b hb (by simp [e])
        · simp only [List.contains_eq_mem, decide_eq_false_iff_not] at h
          exact h hd

theorem lexeme_of {t : Term} {w : Str} (h : Token t w) (h1 : decide (t ∉ [Core.comment, Core.re "[a-zA-Z0-9.:]+"]) = true) (h2 : decide (t ≠ Core.regexpLit) = true) : Lexeme t w :=
  have := of_decide_eq_true h1
  ⟨h, .inl fun e => this (by simp [e]), fun e => absurd e (of_decide_eq_true h2), fun e => absurd (by simp [e]) this⟩

theorem note_ordinary : noteNode.Ordinary full := by
  have name : ∀ c : UInt8, 97 ≤ c ∧ c ≤ 122 → Lexeme Core.ident [c] := fun c hc => lexeme_of
    (.name ⟨by simp [hc], c, [], rfl, fun h => absurd (UInt8.le_trans hc.1 h.2) (by decide)⟩) (by decide +kernel) (by decide +kernel)
  have ha : Lexeme Core.ident (str "a") := name 97 (by decide)
  have hb : Lexeme Core.ident (str "b") := name 98 (by decide)
  have hc : Lexeme Core.ident (str "c") := name 99 (by decide)
  have hn : Lexeme Core.ident (str "n") := name 110 (by decide)
  have hq : Lexeme Core.strLit (str "\",\"") := lexeme_of (.quoted (q := 34) (body := [44]) (.inl rfl) (.plain (by decide) (by decide) .nil)) (by decide +kernel) (by decide +kernel)
  have hr : Lexeme Core.regexpLit (str "/{[0-9]{2,}}") := ⟨.braced (body := str "[0-9]{2,}"), .inl (by decide +kernel), fun _ => .inl ⟨str "[0-9]{2,}",
    .cls (y := str "0-9") (by decide) (.plain (by decide) (by decide) (by decide) (.plain (by decide) (by decide) (by decide) (.plain (by decide) (by decide) (by decide) .nil)))
      (.count (y := str "2,") (.atLeast (a := str "2") (b := []) (by decide) (by unfold Digits; decide) (by simp [Digits])) .nil), rfl⟩, fun e => absurd e (by decide +kernel)⟩
  have hd : Lexeme Core.regexpLit (str "[a-z]+?\\d") := ⟨.bare (c := 91) (x := str "a-z]+?\\d") (by decide), .inl (by decide +kernel), fun _ => .inr ⟨
    .more (u := str "[a-z]") (q := str "+?") (x := str "\\d") (.cls (y := str "a-z") (by decide) (.plain (by decide) (by decide) (by decide)
        (.plain (by decide) (by decide) (by decide) (.plain (by decide) (by decide) (by decide) .nil)))) (.reluctant (by decide))
      (.one (u := str "\\d") (q := []) (.letter (by decide) (by decide) (by decide)) .once), by decide⟩, fun e => absurd e (by decide +kernel)⟩
  have h2 : Lexeme Core.int (str "2") := lexeme_of (.int (by decide) (by decide)) (by decide +kernel) (by decide +kernel)
  have hs : Lexeme (Core.re "<:|:>?") (str ":") := lexeme_of .plain (by decide +kernel) (by decide +kernel)
  simp [noteNode, GrammarN.Ordinary, ordinaryStmts, StmtN.Ordinary, ordinaryTerms, TermN.Ordinary, ordinaryGrammars, NamedN.Ordinary, AtomN.Ordinary,
    ordinaryQuants, QuantN.Ordinary, ha, hb, hc, hn, hq, hr, hd, h2, hs]

/-- Comments; a macro with two parameters and calls of it, one with a missing argument; a production with two terms. -/
def macroNode : GrammarN := .mk
  [.comment (str "//m"), .comment (str "/***!*/"), .macrodef (str "m") [str "x", str "y"] (alone (.mk none (.ident (str "x"))) [.sep (str ":") false true (.mk none (.ident (str "y")))]),
    .prod (str "a") [.many [] [.mk [.prod (str "b") [alone (.mk none (.str (str "'b'"))) []]]]
        [.many [] [] [.many [] [] [.one (.mk none (.macrocall (str "m") [alone (.mk none (.ident (str "b"))) [], alone (.mk none (.str (str "','"))) []])) []]]],
      alone (.mk none (.macrocall (str "m") [alone (.mk none (.ident (str "a"))) []])) [.op (str "?")]]]

def macroWords : List Str := ["//m", "/***!*/", ".macro", "m", "(", "x", ",", "y", ")", "{", "x", ":", "y", ",", "}",
  "a", "->", "%!", "m", "(", "b", ",", "','", ")", "{", "b", "->", "'b'", ";", "}", "%!", "m", "(", "a", ",", ")", "?", ";"].map str

theorem spells_alone {n : NamedN} {qs : List QuantN} {ws ws' : List Str} (h : SpellsNamed n ws) (h' : SpellsQuants qs ws') :
    SpellsTerm 0 (alone n qs) (ws ++ ws') := by
  simpa using SpellsTerm.layers (.plain (.alternatives (.sequence (by simp) (.cons (.one h h') .nil)) .nil)) .nil

theorem macro_spelled : SpellsGrammar macroNode macroWords :=
  .mk (by simp) (.cons .comment (.cons .comment (.cons (.macrodef (first := Option.some (str "x")) (rest := [str ",", str "y"]) (.cons .nil)
      (spells_alone (.plain .ident) (.cons (.sep (lead := false) (trail := true) (.plain .ident)) .nil)) (.inl rfl))
    (.cons (.prod (by simp) (.cons (.layers (.braces (.alternatives (.sequence (by simp) (.cons (.one (.plain
          (.macrocall (.given (spells_alone (.plain .ident) .nil)) (.cons (.given (spells_alone (.plain .str) .nil)) .nil))) .nil) .nil)) .nil)
        (.mk (by simp) (.cons (.prod (by simp) (.cons (spells_alone (.plain .str) .nil) .nil)) .nil))) .nil)
      (.cons (spells_alone (.plain (.macrocall (.given (spells_alone (.plain .ident) .nil)) (.cons .missing .nil))) (.cons .op .nil)) .nil))) .nil))))

theorem name_lexeme {c : UInt8} (hc : 97 ≤ c ∧ c ≤ 122) : Lexeme Core.ident [c] := lexeme_of
  (.name ⟨by simp [hc], c, [], rfl, fun h => absurd (UInt8.le_trans hc.1 h.2) (by decide)⟩) (by decide +kernel) (by decide +kernel)

theorem macro_ordinary : macroNode.Ordinary true := by
  have ha : Lexeme Core.ident (str "a") := name_lexeme (c := 97) (by decide)
  have hb : Lexeme Core.ident (str "b") := name_lexeme (c := 98) (by decide)
  have hm : Lexeme Core.ident (str "m") := name_lexeme (c := 109) (by decide)
  have hx : Lexeme Core.ident (str "x") := name_lexeme (c := 120) (by decide)
  have hy : Lexeme Core.ident (str "y") := name_lexeme (c := 121) (by decide)
  have hq : Lexeme Core.strLit (str "'b'") := lexeme_of (.quoted (q := 39) (body := [98]) (.inr rfl) (.plain (by decide) (by decide) .nil)) (by decide +kernel) (by decide +kernel)
  have hc : Lexeme Core.strLit (str "','") := lexeme_of (.quoted (q := 39) (body := [44]) (.inr rfl) (.plain (by decide) (by decide) .nil)) (by decide +kernel) (by decide +kernel)
  have hs : Lexeme (Core.re "<:|:>?") (str ":") := lexeme_of .plain (by decide +kernel) (by decide +kernel)
  have hk : Lexeme Core.comment (str "//m") := ⟨.line (x := str "m") (by decide), .inl (by decide +kernel), fun e => absurd e (by decide +kernel), fun _ => .inl ⟨str "m", rfl⟩⟩
  have hl : Lexeme Core.comment (str "/***!*/") := ⟨.block (k := 2) (x := str "!") (by decide) (by decide) (by decide), .inl (by decide +kernel),
    fun e => absurd e (by decide +kernel), fun _ => .inr ⟨2, 33, by decide, by decide, by decide, by decide⟩⟩
  have ho : Lexeme (Core.re "[?*+]") (str "?") := lexeme_of .opt (by decide +kernel) (by decide +kernel)
  simp [macroNode, GrammarN.Ordinary, ordinaryStmts, StmtN.Ordinary, ordinaryTerms, TermN.Ordinary, ordinaryGrammars, NamedN.Ordinary, AtomN.Ordinary,
    ordinaryQuants, QuantN.Ordinary, TermN.hangs, hangTerms, hangQuants, TermN.braced, ha, hb, hm, hx, hy, hq, hc, hs, ho, hk, hl]

/-- Imports, with and without `;`, a comment after one, and a production. -/
def importNode : GrammarN := .mk
  [.imp (["/", "a.b", "/", ".."].map str), .comment (str "//m"), .imp (["lib:2", "/", "c"].map str), .imp (["."].map str), .prod (str "a") [alone (.mk none (.ident (str "b"))) []]]

def importWords : List Str := [".import", "/", "a.b", "/", "..", "//m", ".import", "lib:2", "/", "c", ";", ".import", ".", "a", "->", "b", ";"].map str

theorem import_spelled : SpellsGrammar importNode importWords :=
  .mk (by simp) (.cons (.imp (.rooted (by decide) (.cons (by decide) .nil)) (.inl rfl)) (.cons .comment
    (.cons (.imp (.relative (by decide) (.cons (by decide) .nil)) (.inr rfl)) (.cons (.imp (.relative (by decide) .nil) (.inl rfl))
      (.cons (.prod (by simp) (.cons (spells_alone (.plain .ident) .nil) .nil)) .nil)))))

theorem path_lexeme {w : Str} (h : Token (Core.re "[a-zA-Z0-9.:]+") w) (h1 : w.head?.all (fun c => decide (NameByte c)) = true)
    (h2 : w.getLast?.all (fun c => decide (NameByte c)) = true) : Lexeme (Core.re "[a-zA-Z0-9.:]+") w :=
  ⟨h, .inr ⟨fun c e => by simpa [e] using h1, fun c e => by simpa [e] using h2⟩, fun e => absurd e (by decide +kernel), fun e => absurd e (by decide +kernel)⟩

theorem import_ordinary : importNode.Ordinary true := by
  have ha : Lexeme Core.ident (str "a") := name_lexeme (c := 97) (by decide)
  have hb : Lexeme Core.ident (str "b") := name_lexeme (c := 98) (by decide)
  have hk : Lexeme Core.comment (str "//m") := ⟨.line (x := str "m") (by decide), .inl (by decide +kernel), fun e => absurd e (by decide +kernel), fun _ => .inl ⟨str "m", rfl⟩⟩
  have h1 : Lexeme (Core.re "[a-zA-Z0-9.:]+") (str "a.b") := path_lexeme (.path (by decide) (by decide)) (by decide) (by decide)
  have h2 : Lexeme (Core.re "[a-zA-Z0-9.:]+") (str "lib:2") := path_lexeme (.path (by decide) (by decide)) (by decide) (by decide)
  have h3 : Lexeme (Core.re "[a-zA-Z0-9.:]+") (str "c") := path_lexeme (.path (by decide) (by decide)) (by decide) (by decide)
  simp [importNode, GrammarN.Ordinary, ordinaryStmts, StmtN.Ordinary, ordinaryTerms, TermN.Ordinary, ordinaryGrammars, NamedN.Ordinary, AtomN.Ordinary,
    ordinaryQuants, TermN.braced, ha, hb, hk, h1, h2, h3]

end Ex

open Ex

set_option maxRecDepth 100000 in
/-- **C69** Words may spell two sources where it says "a comma may follow" or where terms follow each other, and then the longer part
is read: in `%!m(a:"," , b)` the comma ends the separator, and there is one argument; in `b c` there is one term. -/
theorem C69_comma : ∃ ws g g', SpellsGrammar g ws ∧ SpellsGrammar g' ws ∧ g ≠ g' ∧ Stands regexp ρ0 (spacedOut ws) g' ∧
    ∃ ws g g', SpellsGrammar g ws ∧ SpellsGrammar g' ws ∧ g ≠ g' ∧ Stands regexp ρ0 (spacedOut ws) g' := by
  refine ⟨["a", "->", "%!", "m", "(", "a", ":", "','", ",", "b", ")", ";"].map str,
    .mk [.prod (str "a") [Ex.alone (.mk none (.macrocall (str "m") [Ex.alone (.mk none (.ident (str "a"))) [.sep (str ":") false false (.mk none (.str (str "','")))],
      Ex.alone (.mk none (.ident (str "b"))) []])) []]],
    .mk [.prod (str "a") [Ex.alone (.mk none (.macrocall (str "m") [.many [] [] [.many [] [] [.many [] [] [
      .one (.mk none (.ident (str "a"))) [.sep (str ":") false true (.mk none (.str (str "','")))], .one (.mk none (.ident (str "b"))) []]]]])) []]],
    .mk (by simp) (.cons (.prod (by simp) (.cons (spells_alone (.plain (.macrocall (.given (spells_alone (.plain .ident)
      (.cons (.sep (lead := false) (trail := false) (.plain .str)) .nil))) (.cons (.given (spells_alone (.plain .ident) .nil)) .nil))) .nil) .nil)) .nil),
    .mk (by simp) (.cons (.prod (by simp) (.cons (spells_alone (.plain (.macrocall (.given (.layers (.plain (.alternatives (.sequence (by simp)
      (.cons (.one (.plain .ident) (.cons (.sep (lead := false) (trail := true) (.plain .str)) .nil)) (.cons (.one (.plain .ident) .nil) .nil))) .nil)) .nil)) .nil)) .nil) .nil)) .nil),
    by simp, stands_viewed (n := 60) (by decide +kernel),
    ["a", "->", "b", "c", ";"].map str,
    .mk [.prod (str "a") [Ex.alone (.mk none (.ident (str "b"))) [], Ex.alone (.mk none (.ident (str "c"))) []]],
    .mk [.prod (str "a") [.many [] [] [.many [] [] [.many [] [] [.one (.mk none (.ident (str "b"))) [], .one (.mk none (.ident (str "c"))) []]]]]],
    .mk (by simp) (.cons (.prod (by simp) (.cons (spells_alone (.plain .ident) .nil) (.cons (spells_alone (.plain .ident) .nil) .nil))) .nil),
    .mk (by simp) (.cons (.prod (by simp) (.cons (.layers (.plain (.alternatives (.sequence (by simp) (.cons (.one (.plain .ident) .nil)
      (.cons (.one (.plain .ident) .nil) .nil))) .nil)) .nil) .nil)) .nil),
    by simp, stands_viewed (n := 60) (by decide +kernel)⟩

set_option maxRecDepth 100000 in
/-- **C69** In a path a dot is read as the directory, so that a name that begins with one is not read: `.import .x;` is refused, and
`.import .x -> y;` imports `.` and defines `x`. -/
theorem C69_dots : ∃ ws g, SpellsGrammar g ws ∧ Refused regexp ρ0 (spacedOut ws) ∧
    Stands regexp ρ0 (str ".import .x -> y;") (.mk [.imp [str "."], .prod (str "x") [Ex.alone (.mk none (.ident (str "y"))) []]]) :=
  ⟨[".import", ".x", ";"].map str, .mk [.imp [str ".x"]], .mk (by simp) (.cons (.imp (.relative (by decide) .nil) (.inr rfl)) .nil),
    refused_text (n := 60) (by decide +kernel), stands_viewed (n := 60) (by decide +kernel)⟩

example : Stands regexp ρ0 (spacedOut importWords) importNode := by
  obtain ⟨K, hK⟩ := C69_written_partial regexp_sane Ex.coreEngine Regex.engineReads Regex.engineFinds import_spelled import_ordinary (laidOut_spacedOut importWords)
  exact hK ρ0 (distinct_ρ0 K)

example : spacedOut importWords = onLines " .import / a.b / .. //m .import lib:2 / c ; .import . a -> b ;" := by decide +kernel

example : Stands regexp ρ0 (spacedOut macroWords) macroNode := by
  obtain ⟨K, hK⟩ := C69_written_partial regexp_sane Ex.coreEngine Regex.engineReads Regex.engineFinds macro_spelled macro_ordinary (laidOut_spacedOut macroWords)
  exact hK ρ0 (distinct_ρ0 K)

example : spacedOut macroWords = onLines " //m /***!*/ .macro m ( x , y ) { x : y , } a -> %! m ( b , ',' ) { b -> 'b' ; } %! m ( a , ) ? ;" := by decide +kernel

/-- All the hypotheses hold of these words, each on its own line and without any white space. -/
example : Stands regexp ρ0 (spacedOut noteWords) noteNode ∧ Stands regexp ρ0 noteWords.flatten noteNode := by
  obtain ⟨K, hK⟩ := C69_written_partial regexp_sane Ex.coreEngine Regex.engineReads Regex.engineFinds note_spelled (note_ordinary (full := false)) (laidOut_spacedOut noteWords)
  obtain ⟨K', hK'⟩ := C69_written_partial regexp_sane Ex.coreEngine Regex.engineReads Regex.engineFinds note_spelled (note_ordinary (full := false))
    (laidOut_touching noteWords (by decide +kernel))
  exact ⟨hK ρ0 (distinct_ρ0 K), hK' ρ0 (distinct_ρ0 K')⟩

example : spacedOut noteWords = onLines " a -> b : n = \",\" , ; b -> /{[0-9]{2,}} | c { , 2 } { c -> [a-z]+?\\d ; } ;" ∧
    noteWords.flatten = str "a->b:n=\",\",;b->/{[0-9]{2,}}|c{,2}{c->[a-z]+?\\d;};" := by decide +kernel

set_option maxRecDepth 100000 in
/-- Some words must not touch: `` `a` `b` `` are two literals, ``` `a``b` ``` is one. -/
example : ¬ LaidOut [str "`a`", str "`b`"] (str "`a``b`") ∧
    ∃ g, Stands regexp ρ0 (str "a -> `a` `b`;") g ∧ ¬ Stands regexp ρ0 (str "a -> `a``b`;") g := by
  refine ⟨fun h => ?_, .mk [.prod (str "a") [.many [] [] [.many [] [] [.many [] [] [.one (.mk none (.str (str "`a`"))) [], .one (.mk none (.str (str "`b`"))) []]]]]],
    stands_viewed (n := 60) (by decide +kernel), fun h => ?_⟩
  · generalize e : str "`a``b`" = x at h
    cases h with
    | @cons before _ _ x' h1 h2 h3 =>
      cases before with
      | cons c before =>
        have : c = 96 := by simpa [str] using (congrArg List.head? e).symm
        exact absurd (h1 c (by simp)) (by rw [this]; decide)
      | nil =>
        have e : x' = str "`b`" := by simpa [str] using e.symm
        subst e
        exact (h2 96 96 rfl rfl).2.1 (by decide)
  · have := h.unique (stands_viewed (n := 60) (g := .mk [one "a" (.str (str "`a``b`")) []]) (by decide +kernel))
    simp [one] at this

end Wbnf

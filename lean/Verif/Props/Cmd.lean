import Verif.Spec.Cmd
import Verif.Props.Source
import Verif.Props.AstString
import Verif.Props.TreeView
import Verif.Props.TreeViewExamples
import Verif.Props.Semantics
import Verif.Lemmas.EscapeNested

/-!
# C66: what `wbnf test` prints and exits with

Specifications: Spec/Cmd; `Denotes` (Spec/Top), `MeansGrammar` (Spec/Source), `Files.Includes` (Spec/Import).
-/

namespace Wbnf

variable {T : Tools} {W : World} {f : TestFlags} {ρ ρ' : Nat → Nat} {G H : Grammar} {input : Str} {v : Tree} {rest : Scanner} {b : Branch} {s : Str}

theorem compileSource_mono {F : Files} {E : Engine} {reOK : Str → Bool} {ord : List Str → List Str → List Str} {n m : Nat} {text : Str} {ps : Parsers}
    (hn : n ≤ m) (h : compileSource F E reOK ord n text = .ok ps) : compileSource F E reOK ord m text = .ok ps := by
  unfold compileSource at h ⊢
  rcases hm : makeGrammar F n [] text ⟨[], []⟩ with ⟨c, r⟩
  rw [hm] at h
  cases r with
  | error e => simp at h
  | ok g =>
    rw [makeGrammar_mono hn (by rw [hm]; simp), hm]
    simp only at h ⊢
    cases hv : validate reOK ord g with
    | error e => rw [hv] at h; simp at h
    | ok es =>
      cases es with
      | cons e es => rw [hv] at h; simp at h
      | nil =>
        rw [hv] at h
        simp only at h ⊢
        cases hg : newFromAst n g with
        | error e => rw [hg] at h; simp at h
        | ok G =>
          rw [hg] at h
          rw [newFromAst_mono hn hg]
          simp only at h ⊢
          cases hc : G.compile E n with
          | error e => rw [hc] at h; simp at h
          | ok ps' =>
            rw [hc] at h
            rw [compile_mono_le hn (by rw [hc]; simp), hc]
            exact h

theorem GivenText.reads {file : Str} (h : GivenText W file input) : W.input file = some input := by
  unfold World.input
  rcases h with ⟨h1, h2⟩ | ⟨h1, h2⟩
  · rw [if_pos (by simpa using h1), h2]
  · rw [if_neg (by simpa using h1), h2]

/-- What the command has compiled. -/
theorem GrammarFile.compiled (hE : T.engine.Sane) (hC : Core.EngineOK T.engine) (hR : Core.EngineReads T.engine)
    (hP : (cmdFiles W.read T.parse f.grammar).Parsed T.engine ρ') (hG : GrammarFile T W f.grammar G H) (hw : G.wf = true) :
    ∃ text ps N m, W.read f.grammar = some text ∧ ps.grammar = H ∧ (insertCutPoints G).wf = true ∧ (insertCutPoints G).compile T.engine m = .ok ps ∧
      ∀ n, N ≤ n → compileSource (cmdFiles W.read T.parse f.grammar) T.engine T.reOK T.ord n text = .ok ps := by
  obtain ⟨text, g, ss, g', hr, hp, hi, hm, hv, hin, hb, hG, m, ps, hc, hH⟩ := hG
  obtain ⟨N, h⟩ := (C55_compile_partial hE hC hR hP (hP.stands hp) hi hm).2 ⟨hv, hin, hb, G, hG, m, hc⟩
  refine ⟨text, ps, N, m, hr, ?_, ?_, hc, fun n hn => compileSource_mono hn h⟩
  · have := compile_grammar hc
    rw [hH] at this
    exact (Option.some.inj this).symm
  · exact (wfDefs_fix G hG.uncut).trans hw

/-- The command once the grammar is compiled. -/
theorem testCmd_compiled {text : Str} {ps : Parsers} {n : Nat} (hg : f.grammar ≠ []) (hs : f.start ≠ []) (hi : W.input f.input = some input)
    (hr : W.read f.grammar = some text) (hc : compileSource (cmdFiles W.read T.parse f.grammar) T.engine T.reOK T.ord n text = .ok ps) :
    testCmd T W f ρ n = if hasKey f.start ps.parsers = false then .exit .nothing 1 else
      match ps.parse T.engine noExternals ρ n f.start (newScannerWithFilename input f.input) with
      | .oof => .oof
      | .panic => .exit .nothing 1
      | .ok tree _ => showAst T n f ps.grammar tree 0
      | .err (.unconsumed tree _) _ => showAst T n f ps.grammar tree 1
      | .err _ _ => .exit .nothing 1 := by
  unfold testCmd
  simp only [hi, if_neg hg, hr, if_neg hs, hc]
  rfl

theorem hasKey_of_parse {ps : Parsers} {E : Engine} {X : Externals} {n : Nat} {r : Str} {inp : Scanner} (h : ps.parse E X ρ n r inp ≠ .panic) :
    hasKey r ps.parsers = true := by
  cases hl : lookup r ps.parsers with
  | none =>
    exfalso
    apply h
    simp [Parsers.parse, Parsers.run, hl, Res.top]
  | some p => exact hasKey_iff.2 ⟨p, hl⟩

theorem showAst_text {n status : Nat} {H' : Grammar} (h : fromParserNode n H v = .ok (H', b)) (ht : astView T f b = some s) :
    showAst T n f H v status = .exit (.text s) status := by
  unfold showAst
  simp only [h]
  unfold astView at ht
  split
  · next hf => rw [if_pos hf] at ht; rw [ht]
  · next hf => rw [if_neg hf] at ht; rw [ht]

theorem showAst_status {n : Nat} {sh : Shown} (h : showAst T n f H v 1 = .exit sh 0) : False := by
  unfold showAst at h
  split at h
  · cases h
  · cases h
  · split at h <;> split at h <;> cases h

section
variable (hE : T.engine.Sane) (hC : Core.EngineOK T.engine) (hR : Core.EngineReads T.engine)
  (hP : (cmdFiles W.read T.parse f.grammar).Parsed T.engine ρ') (hg : f.grammar ≠ []) (hs : f.start ≠ []) (hi : GivenText W f.input input)
  (hG : GrammarFile T W f.grammar G H) (hw : G.wf = true)
include hE hC hR hP hg hs hi hG hw

/-- **C66** If the whole text matches the rule, `wbnf test` prints its AST and exits with status 0. -/
theorem C66_accepts (h : Denotes T.engine noExternals H f.start (newScannerWithFilename input f.input) (.ok v rest)) (hrest : rest.toStr = some [])
    (hb : HasAst H v b) (ht : astView T f b = some s) : TestDoes T W f (.exit (.text s) 0) := by
  obtain ⟨text, ps, N, m, hr, rfl, hw', hc, hN⟩ := hG.compiled hE hC hR hP hw
  obtain ⟨N', K, hK⟩ := C11_complete hw' hc plain_noExternals h
  obtain ⟨M, H', hM⟩ := hb
  refine ⟨max N (max N' M), K, fun ρ hd n hn => ?_⟩
  have hp := (hK ρ hd n (by omega)).2.1 hrest
  rw [testCmd_compiled hg hs hi.reads hr (hN n (by omega)), if_neg (by rw [hasKey_of_parse (by rw [hp]; simp)]; simp), hp]
  exact showAst_text (hM n (by omega)) ht

/-- **C66** If the rule matches but leaves some of the text, it prints the AST of what it matches and exits with status 1. -/
theorem C66_leftover (h : Denotes T.engine noExternals H f.start (newScannerWithFilename input f.input) (.ok v rest)) {x : Str} (hrest : rest.toStr = some x)
    (hx : x ≠ []) (hb : HasAst H v b) (ht : astView T f b = some s) : TestDoes T W f (.exit (.text s) 1) := by
  obtain ⟨text, ps, N, m, hr, rfl, hw', hc, hN⟩ := hG.compiled hE hC hR hP hw
  obtain ⟨N', K, hK⟩ := C11_complete hw' hc plain_noExternals h
  obtain ⟨M, H', hM⟩ := hb
  refine ⟨max N (max N' M), K, fun ρ hd n hn => ?_⟩
  have hp := (hK ρ hd n (by omega)).2.2 x hrest hx
  rw [testCmd_compiled hg hs hi.reads hr (hN n (by omega)), if_neg (by rw [hasKey_of_parse (by rw [hp]; simp)]; simp), hp]
  exact showAst_text (hM n (by omega)) ht

/-- **C66** If no AST can be made of what the rule matches (`C31_not_always`), it exits with status 1 though the text matches. -/
theorem C66_no_ast (h : Denotes T.engine noExternals H f.start (newScannerWithFilename input f.input) (.ok v rest)) (hrest : rest.toStr = some [])
    (hb : ∃ N, ∀ n, N ≤ n → fromParserNode n H v = .error .panic) : TestDoes T W f (.exit .nothing 1) := by
  obtain ⟨text, ps, N, m, hr, rfl, hw', hc, hN⟩ := hG.compiled hE hC hR hP hw
  obtain ⟨N', K, hK⟩ := C11_complete hw' hc plain_noExternals h
  obtain ⟨M, hM⟩ := hb
  refine ⟨max N (max N' M), K, fun ρ hd n hn => ?_⟩
  have hp := (hK ρ hd n (by omega)).2.1 hrest
  rw [testCmd_compiled hg hs hi.reads hr (hN n (by omega)), if_neg (by rw [hasKey_of_parse (by rw [hp]; simp)]; simp), hp]
  simp only [showAst, hM n (by omega)]

/-- **C66** If the rule does not match, it prints no AST and exits with status 1. -/
theorem C66_rejects (h : Denotes T.engine noExternals H f.start (newScannerWithFilename input f.input) .fail ∨
    Denotes T.engine noExternals H f.start (newScannerWithFilename input f.input) .abort) : TestDoes T W f (.exit .nothing 1) := by
  obtain ⟨text, ps, N, m, hr, rfl, hw', hc, hN⟩ := hG.compiled hE hC hR hP hw
  have key : ∃ N K, ∀ ρ, DistinctDraws noExternals ρ K → ∀ n, N ≤ n →
      ∃ e i k, ps.run T.engine noExternals ρ n f.start (newScannerWithFilename input f.input) = .err e i k := by
    rcases h with h | h
    · obtain ⟨N', K, hK⟩ := (yields_iff hw' hc plain_noExternals).2 h
      exact ⟨N', K, fun ρ hd n hn => by obtain ⟨-, e, i, k, h, -⟩ := hK ρ hd n hn; exact ⟨e, i, k, h⟩⟩
    · obtain ⟨N', K, hK⟩ := (yields_iff hw' hc plain_noExternals).2 h
      exact ⟨N', K, fun ρ hd n hn => by obtain ⟨-, e, i, k, h, -⟩ := hK ρ hd n hn; exact ⟨e, i, k, h⟩⟩
  obtain ⟨N', K, hK⟩ := key
  refine ⟨max N N', K, fun ρ hd n hn => ?_⟩
  obtain ⟨e, i, k, he⟩ := hK ρ hd n (by omega)
  have hp := C05_rejects he
  rw [testCmd_compiled hg hs hi.reads hr (hN n (by omega)), if_neg (by rw [hasKey_of_parse (by rw [hp]; simp)]; simp), hp]
  have hu := run_reported he
  cases e with
  | unconsumed v' r' =>
    obtain ⟨_, _, _, h, _⟩ := hu
    simp [noExternals] at h
  | _ => rfl

/-- **C66** It exits with status 0 only if the rule matches the whole text. -/
theorem C66_sound {n : Nat} {sh : Shown} (hd : TestDistinct T W f ρ n) (h : testCmd T W f ρ n = .exit sh 0) :
    ∃ v rest, Denotes T.engine noExternals H f.start (newScannerWithFilename input f.input) (.ok v rest) ∧ rest.toStr = some [] := by
  obtain ⟨text, ps, N, m, hr, rfl, hw', hc, hN⟩ := hG.compiled hE hC hR hP hw
  have hcs : compileSource (cmdFiles W.read T.parse f.grammar) T.engine T.reOK T.ord n text = .ok ps := by
    have hh : ∃ ps, compileSource (cmdFiles W.read T.parse f.grammar) T.engine T.reOK T.ord n text = .ok ps := by
      unfold testCmd at h
      simp only [hi.reads, if_neg hg, hr, if_neg hs] at h
      split at h <;> first | cases h | exact ⟨_, by assumption⟩
    obtain ⟨ps', hh⟩ := hh
    have h1 := compileSource_mono (Nat.le_max_left n N) hh
    rw [hN _ (Nat.le_max_right n N)] at h1
    cases h1
    exact hh
  rw [testCmd_compiled hg hs hi.reads hr hcs] at h
  split at h
  · cases h
  · split at h
    · cases h
    · cases h
    · next tree i hp => exact ⟨_, _, (C11_sound hw' hc plain_noExternals (hd _ _ _ hr hi hcs)).1 _ _ hp⟩
    · exact absurd h showAst_status
    · cases h

/-- **C66** The status tells whether the rule matches the whole text, if ASTs can be made and printed. -/
theorem C66_status (ha : ∀ v rest, Denotes T.engine noExternals H f.start (newScannerWithFilename input f.input) (.ok v rest) → ∃ b s, HasAst H v b ∧ astView T f b = some s) :
    (∃ sh, TestDoes T W f (.exit sh 0)) ↔ ∃ v rest, Denotes T.engine noExternals H f.start (newScannerWithFilename input f.input) (.ok v rest) ∧ rest.toStr = some [] := by
  constructor
  · rintro ⟨sh, N, K, h⟩
    obtain ⟨B, hB⟩ := plain_noExternals.bounded
    have hρ := fun K => (good_canonical hB).distinct (K := K)
    exact C66_sound hE hC hR hP hg hs hi hG hw (fun _ _ _ _ _ _ => hρ _) (h _ (hρ K) N (Nat.le_refl _))
  · rintro ⟨v, rest, h, hrest⟩
    obtain ⟨b, s, hb, ht⟩ := ha v rest h
    exact ⟨_, C66_accepts hE hC hR hP hg hs hi hG hw h hrest hb ht⟩

/-- **C66** A rule that the grammar does not have. -/
theorem C66_no_rule (h : lookup f.start H = none) : TestDoes T W f (.exit .nothing 1) := by
  obtain ⟨text, ps, N, m, hr, rfl, hw', hc, hN⟩ := hG.compiled hE hC hR hP hw
  refine ⟨N, 0, fun ρ hd n hn => ?_⟩
  rw [testCmd_compiled hg hs hi.reads hr (hN n (by omega)), if_pos]
  have h1 := ((compileRules_lookup (compile_inv hc).2 f.start).1).2 h
  cases hk : hasKey f.start ps.parsers with
  | false => rfl
  | true =>
    obtain ⟨p, hp⟩ := hasKey_iff.1 hk
    rw [h1] at hp
    cases hp

end

theorem conforms_own {Γ : List Grammar} {r : Str} (hr : r ≠ []) : ∀ {t : Term} {v : Tree}, Conforms Γ r t v → t.Yielding → (∃ x cs, v = .node r x cs) ∨ ∃ s, v = .leaf s := by
  intro t v h ht
  have hra : ∀ a, ruleOrAlt r a = r := fun a => by unfold ruleOrAlt; rw [if_neg hr]
  induction h with
  | cut _ ih => exact ih hr ht hra
  | lit => exact .inr ⟨_, rfl⟩
  | regexp => exact .inr ⟨_, rfl⟩
  | seq => rw [hra]; exact .inl ⟨_, _, rfl⟩
  | oneof => rw [hra]; exact .inl ⟨_, _, rfl⟩
  | quant => rw [hra]; exact .inl ⟨_, _, rfl⟩
  | delim _ _ _ _ _ _ _ hl =>
    rw [hra] at hl
    cases hl with
    | flat => exact .inl ⟨_, _, rfl⟩
    | left h => exact absurd h ht.1
    | right h => exact absurd h ht.2
  | _ => exact ht.elim

theorem Conforms.own {H : Grammar} {r : Str} {t : Term} {v : Tree} (h : Conforms [H] [] (.rule r) v) (hr : r ≠ []) (hl : lookup r H = some t) (ht : t.Yielding) :
    (∃ x cs, v = .node r x cs) ∨ ∃ s, v = .leaf s := by
  cases h with
  | rule h1 h2 =>
    cases h1 with
    | here hd =>
      cases hd with
      | here h _ => rw [hl] at h; cases h; exact conforms_own hr h2 ht
      | «alias» h _ => rw [hl] at h; cases h; exact ht.elim
    | outer h _ => rw [hl] at h; cases h

section
variable (hE : T.engine.Sane) (hC : Core.EngineOK T.engine) (hR : Core.EngineReads T.engine)
  (hP : (cmdFiles W.read T.parse f.grammar).Parsed T.engine ρ') (hg : f.grammar ≠ []) (hs : f.start ≠ []) (hi : GivenText W f.input input)
  (hG : GrammarFile T W f.grammar G H) (hw : G.wf = true) {K : Grammar} (hH : H.ConvertibleIn K) {t : Term} (hl : lookup f.start H = some t) (ht : t.Yielding)
  (hx : NoExt [H] (.rule f.start)) (hp : PatternsSatisfy (ReportsGroup T.engine) [H] (.rule f.start))
  (hv : f.tree = true → K.Deep Term.UnnumberedName ∧ ¬ Numbered f.start ∧ SortsByRank T.sort ∧ input.length < 2 ^ 63)
include hE hC hR hP hs hG hw hH hl ht hx hp hv

/-- **C66** ASTs are made and printed. Partial as `C31_groups_partial`. -/
theorem C66_prints_partial (h : Denotes T.engine noExternals H f.start (newScannerWithFilename input f.input) (.ok v rest)) :
    ∃ b s, HasAst H v b ∧ astView T f b = some s := by
  obtain ⟨text, ps, N, m, hr, rfl, hw', hc, hN⟩ := hG.compiled hE hC hR hP hw
  obtain ⟨N', K', hK⟩ := (yields_iff hw' hc plain_noExternals).2 h
  obtain ⟨B, hB⟩ := plain_noExternals.bounded
  obtain ⟨-, k, hrun⟩ := hK _ (good_canonical hB).distinct N' (Nat.le_refl _)
  have hin : (newScannerWithFilename input f.input).InRange := by
    simp [newScannerWithFilename, Scanner.InRange]
  have hins := C02_leaves_inside hE hw' hc rfl hin hx hp hrun
  rcases (C04_conforms hw' hc rfl hrun).own hs hl ht with ⟨x, cs, rfl⟩ | ⟨sc, rfl⟩
  · obtain ⟨u, parts, b, g', M, hl', h1, h2, _, h3⟩ := C31_groups_partial hw' hc hH rfl hrun
    refine ⟨b, ?_⟩
    have hm := lookup_mem (hH.sub _ _ hl')
    unfold astView
    split
    · next hf =>
      obtain ⟨hN, hnum, hsort, hlen⟩ := hv hf
      obtain ⟨t', h4, -, h5⟩ := C64_ordered (quote := T.quote) (name := f.start) (room := T.room) (skip := true) hsort (a := .branch b) (h2.viewable (by
        simp only [List.forall_mem_cons]
        refine ⟨⟨by decide +kernel, hnum⟩, h1.viewable hN (deepDefs_iff.1 hN _ _ hm) fun s hm => ⟨toStr_of_inside hin (hins s hm), ?_⟩⟩
        have h4 := hins s hm
        simp [newScannerWithFilename] at h4
        omega))
      exact ⟨_, ⟨M, g', h3⟩, h5⟩
    · obtain ⟨s, h4⟩ := tidy_string (quote := T.quote) (.branch b) (h2.tidy (by
        simp only [List.forall_mem_cons]
        exact ⟨trivial, h1.tidy fun s hm => toStr_of_inside hin (hins s hm)⟩))
      exact ⟨s, ⟨M, g', h3⟩, h4⟩
  · have h1 := hins sc (by simp [Tree.leaves])
    refine ⟨[([], .one (.leaf sc))], ?_⟩
    have ha : HasAst ps.grammar (.leaf sc) [([], .one (.leaf sc))] := ⟨0, ps.grammar, fun n _ => (C31_leaf sc).1⟩
    unfold astView
    split
    · next hf =>
      obtain ⟨hN, hnum, hsort, hlen⟩ := hv hf
      obtain ⟨t', h4, -, h5⟩ := C64_ordered (quote := T.quote) (name := f.start) (room := T.room) (skip := true) hsort (a := .branch [([], .one (.leaf sc))]) (by
        simp only [Ast.Viewable, viewableBranch, Kids.Viewable, and_true]
        refine .inr ⟨by decide +kernel, toStr_of_inside hin h1, ?_⟩
        simp [newScannerWithFilename] at h1
        omega)
      exact ⟨_, ha, h5⟩
    · obtain ⟨s, h4⟩ := tidy_string (quote := T.quote) (.branch [([], .one (.leaf sc))]) (by
        simp only [Ast.Tidy, tidyBranch, Kids.Tidy, and_true]
        exact ⟨by simp, toStr_of_inside hin h1⟩)
      exact ⟨s, ha, h4⟩

include hg hi
/-- **C66** The status tells whether the rule matches the whole text. Partial as `C31_groups_partial`. -/
theorem C66_language_partial :
    (∃ sh, TestDoes T W f (.exit sh 0)) ↔ ∃ v rest, Denotes T.engine noExternals H f.start (newScannerWithFilename input f.input) (.ok v rest) ∧ rest.toStr = some [] :=
  C66_status hE hC hR hP hg hs hi hG hw fun _ _ h => C66_prints_partial hE hC hR hP hs hG hw hH hl ht hx hp hv h

end

/-! ### Without a grammar the input is one -/

/-- **C66** Without `--grammar` the status tells whether the input compiles. -/
theorem C66_grammar (hE : T.engine.Sane) (hC : Core.EngineOK T.engine) (hR : Core.EngineReads T.engine)
    (hP : (cmdFiles W.read T.parse f.input).Parsed T.engine ρ') (hg : f.grammar = []) (hi : GivenText W f.input input) {g : GrammarN} {ss : List StmtN}
    (hs : T.parse input = some g) (hin : (cmdFiles W.read T.parse f.input).Includes [] g ss) {g' : GrammarN} (hm : Unfolds (.mk ss) g') :
    (∃ n, testCmd T W f ρ n = .exit .grammar 0) ↔
      Valid T.reOK (.mk ss) ∧ (GrammarN.mk ss).Ints ∧ badRoutes T.ord (.mk ss) = [] ∧ ∃ G, MeansGrammar g' G ∧ ∃ m ps, (insertCutPoints G).compile T.engine m = .ok ps := by
  have key : ∀ n, testCmd T W f ρ n = .exit .grammar 0 ↔ ∃ ps, compileSource (cmdFiles W.read T.parse f.input) T.engine T.reOK T.ord n input = .ok ps := by
    intro n
    unfold testCmd
    simp only [hi.reads, if_pos hg]
    constructor
    · intro h
      split at h <;> first | exact ⟨_, by assumption⟩ | cases h
    · rintro ⟨ps, h⟩
      rw [h]
  have c := fun ps => C55_compile_partial (reOK := T.reOK) (ord := T.ord) (ps := ps) hE hC hR hP (hP.stands hs) hin hm
  constructor
  · rintro ⟨n, h⟩
    obtain ⟨ps, h⟩ := (key n).1 h
    obtain ⟨h1, h2, h3, G, h4, m, h5⟩ := (c ps).1 ⟨n, h⟩
    exact ⟨h1, h2, h3, G, h4, m, ps, h5⟩
  · rintro ⟨h1, h2, h3, G, h4, m, ps, h5⟩
    obtain ⟨n, h⟩ := (c ps).2 ⟨h1, h2, h3, G, h4, m, h5⟩
    exact ⟨n, (key n).2 ⟨ps, h⟩⟩

/-- **C66** With a grammar that does not compile the status is never 0. -/
theorem C66_invalid (hE : T.engine.Sane) (hC : Core.EngineOK T.engine) (hR : Core.EngineReads T.engine)
    (hP : (cmdFiles W.read T.parse f.grammar).Parsed T.engine ρ') (hg : f.grammar ≠ []) {text : Str} {g : GrammarN} {ss : List StmtN}
    (hr : W.read f.grammar = some text) (hs : T.parse text = some g) (hin : (cmdFiles W.read T.parse f.grammar).Includes [] g ss) {g' : GrammarN} (hm : Unfolds (.mk ss) g')
    {n : Nat} {sh : Shown} (h : testCmd T W f ρ n = .exit sh 0) :
    Valid T.reOK (.mk ss) ∧ (GrammarN.mk ss).Ints ∧ badRoutes T.ord (.mk ss) = [] ∧ ∃ G, MeansGrammar g' G ∧ ∃ m ps, (insertCutPoints G).compile T.engine m = .ok ps := by
  unfold testCmd at h
  cases hi : W.input f.input with
  | none => rw [hi] at h; cases h
  | some input =>
    simp only [hi, if_neg hg, hr] at h
    split at h
    · cases h
    · split at h
      · cases h
      · cases h
      · next ps hc =>
        obtain ⟨h1, h2, h3, G, h4, m, h5⟩ := (C55_compile_partial (reOK := T.reOK) (ord := T.ord) (ps := ps) hE hC hR hP (hP.stands hs) hin hm).1 ⟨n, hc⟩
        exact ⟨h1, h2, h3, G, h4, m, ps, h5⟩
      · cases h

/-- **C66** Input and grammar must be readable. -/
theorem C66_unreadable (h : (∀ input, ¬ GivenText W f.input input) ∨ (f.grammar ≠ [] ∧ W.read f.grammar = none)) {n : Nat} : testCmd T W f ρ n = .exit .nothing 1 := by
  unfold testCmd
  rcases h with h | ⟨h1, h2⟩
  · have : W.input f.input = none := by
      cases hi : W.input f.input with
      | none => rfl
      | some input =>
        refine absurd ?_ (h input)
        unfold World.input at hi
        split at hi
        · next hf => exact .inl ⟨by simpa using hf, hi⟩
        · next hf => exact .inr ⟨by simpa using hf, hi⟩
    rw [this]
  · cases W.input f.input with
    | none => rfl
    | some => simp only [if_neg h1, h2]

/-! ### Examples -/

namespace Ex

/-- The file `g` has the grammar ``a -> b*; b -> `x`;``; the input is read from the standard input. -/
def world (input : Str) : World := ⟨fun p => if p = str "g" then some twoRulesText else none, some input⟩

def tools (parse : Str → Option GrammarN) : Tools := ⟨regexp, parse, fun _ => true, asWritten, byteQuote, sortRank false, id⟩

def flags (tree : Bool) : TestFlags := ⟨str "g", str "a", [], tree⟩

def twoRulesComp : Parsers := comp! (insertCutPoints twoRulesMean)

theorem twoRules_comp : (insertCutPoints twoRulesMean).compile regexp 50 = .ok twoRulesComp := comp_ok (by decide +kernel)

theorem twoRules_file {parse : Str → Option GrammarN} {input : Str} {file : Str} (hP : (cmdFiles (world input).read parse file).Parsed regexp ρ0) :
    GrammarFile (tools parse) (world input) (str "g") twoRulesMean twoRulesComp.grammar := by
  refine ⟨twoRulesText, twoRules, twoRules.stmts, _, by simp [world], hP.parse_iff.2 twoRules_stand, includes_self rfl, unfolds_self (by decide +kernel), ?_⟩
  have hc : ∃ n, compileSource (cmdFiles (world input).read parse file) regexp (fun _ => true) asWritten n twoRulesText = .ok twoRulesComp := by
    have hv : validate (fun _ => true) asWritten twoRules = .ok [] := rfl
    have hG : newFromAst 50 twoRules = .ok (insertCutPoints twoRulesMean) := by rfl
    exact ⟨50, (((compileSource_text hP twoRules_stand rfl 49).2 hv).2 _ hG).2 _ twoRules_comp⟩
  obtain ⟨h1, h2, h3, G, h4, m, h5⟩ := (C55_compile_partial regexp_sane coreEngine Regex.engineReads hP twoRules_stand (includes_self rfl) (unfolds_self (by decide +kernel))).1 hc
  exact ⟨h1, h2, h3, twoRules_mean, 50, _, twoRules_comp, compile_grammar twoRules_comp⟩

end Ex

open Ex

section
variable {parse : Str → Option GrammarN} (hP : ∀ read file, (cmdFiles read parse file).Parsed regexp ρ0)
include hP

/-- The hypotheses of `C66_language_partial` are met. -/
theorem twoRules_status (input : Str) (hlen : input.length < 2 ^ 63) (tree : Bool) :
    (∃ sh, TestDoes (tools parse) (world input) (flags tree) (.exit sh 0)) ↔
      ∃ v rest, Denotes regexp noExternals twoRulesComp.grammar (str "a") (newScannerWithFilename input []) (.ok v rest) ∧ rest.toStr = some [] := by
  have hq := fun r => plainLeaf_check (q := Regex.setsLast) (Q := ReportsGroup regexp) (fun p => Regex.reportsGroup) (g := twoRulesComp.grammar) (by decide +kernel) (by decide +kernel) r
  refine C66_language_partial (T := tools parse) (f := flags tree) regexp_sane coreEngine Regex.engineReads (hP _ _) (by simp only [flags]; decide +kernel) (by simp only [flags]; decide +kernel) (.inl ⟨by simp [flags], rfl⟩) (twoRules_file (hP _ []))
    (by decide +kernel) (K := twoRulesComp.grammar) (convertible_of_convertibleB (by decide +kernel)) (t := .quant (.rule (str "b")) 0 0) rfl trivial (hq _).2.2 (hq _).1
    fun _ => ⟨?_, by simp only [flags]; decide +kernel, sortRank_sorts _, hlen⟩
  have : twoRulesComp.grammar = [(str "a", .quant (.rule (str "b")) 0 0), (str "b", .cut (.s (str "x")))] := by rfl
  rw [this]
  have h2 : ¬ Numbered (shownName (str "b")) := by decide +kernel
  simp [Grammar.Deep, deepDefs, Term.Deep, Term.UnnumberedName, h2]

omit hP in
/-- What the parser does decides. -/
theorem twoRules_decides {input : Str} {o : Bool}
    (h : (match twoRulesComp.parse regexp noExternals ρ0 50 (str "a") (newScannerWithFilename input []) with
      | .ok _ _ => some true
      | .err (.unconsumed _ i) _ => if i.toStr = some [] then none else some false
      | _ => none) = some o) :
    (∃ v rest, Denotes regexp noExternals twoRulesComp.grammar (str "a") (newScannerWithFilename input []) (.ok v rest) ∧ rest.toStr = some []) ↔ o = true := by
  have hw : (insertCutPoints twoRulesMean).wf = true := by decide +kernel
  split at h
  · next v i hp =>
    cases h
    simp only [iff_true]
    exact ⟨v, i, (C11_sound hw twoRules_comp plain_noExternals (distinct_ρ0 _)).1 _ _ hp⟩
  · next v i j hp =>
    split at h
    · cases h
    · next hne =>
      cases h
      simp only [Bool.false_eq_true, iff_false]
      rintro ⟨v', rest, h1, h2⟩
      rcases (C11_sound hw twoRules_comp plain_noExternals (distinct_ρ0 _)).2 _ _ hp with ⟨w, x, e, h3, h4, h5⟩ | ⟨-, h3⟩ | ⟨-, h3⟩
      · cases C11_deterministic hw twoRules_comp plain_noExternals h1 h3
        rw [h4] at h2
        exact h5 (Option.some.inj h2)
      · cases C11_deterministic hw twoRules_comp plain_noExternals h1 h3
      · cases C11_deterministic hw twoRules_comp plain_noExternals h1 h3
  · cases h

/-- `xx` matches. -/
example (tree : Bool) : ∃ sh, TestDoes (tools parse) (world (str "xx")) (flags tree) (.exit sh 0) :=
  (twoRules_status hP _ (by decide) tree).2 ((twoRules_decides (o := true) (by decide +kernel)).2 rfl)

/-- `xy` does not. -/
example (tree : Bool) : ¬ ∃ sh, TestDoes (tools parse) (world (str "xy")) (flags tree) (.exit sh 0) := by
  rw [twoRules_status hP _ (by decide) tree, twoRules_decides (o := false) (by decide +kernel)]
  decide

/-- There is no rule `c`. -/
example : TestDoes (tools parse) (world (str "xx")) ⟨str "g", str "c", [], false⟩ (.exit .nothing 1) :=
  C66_no_rule (f := ⟨str "g", str "c", [], false⟩) regexp_sane coreEngine Regex.engineReads (hP _ _) (by decide +kernel) (by decide +kernel) (.inl ⟨by simp, rfl⟩) (twoRules_file (hP _ []))
    (by decide +kernel) (by rfl)

end

/-- Such a `parse` exists. -/
example : ∃ parse : Str → Option GrammarN, ∀ read file, (cmdFiles read parse file).Parsed regexp ρ0 := by
  obtain ⟨F, -, -, -, h⟩ := C55_read regexp_sane coreEngine Regex.engineReads ρ0 (fun _ => none) (fun _ _ => []) id
  exact ⟨F.parse, fun read file => ⟨fun e => h.stands e, fun e => h.refused e⟩⟩

end Wbnf

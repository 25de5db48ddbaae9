import Verif.Lemmas.Expand
import Verif.Lemmas.Settles

/-!
# C68: grammars with macros

Specifications: `Unfolds`, `Macros.Hygienic`, `CallsRight` (Spec/Expand), `Macros.Ends` (Spec/Source), `MeansGrammar` (Spec/Means).
-/

namespace Wbnf

variable {g g' : GrammarN} {G : Grammar}

/-- **C68** `NewFromAst` makes of a source with macros what the source denotes once every call is replaced by the body of the
macro with the arguments for the parameters. Partial: not where a parameter is used in a look-ahead or in braces, or a macro uses
a name that is a parameter of one that calls it (`C38_lookahead`, `C38_braces`, `C38_capture`). -/
theorem C68_grammar_partial (hl : g.Lexed) (h : Unfolds g g') :
    (∃ n, newFromAst n g = .ok G) ↔ ∃ H, MeansGrammar g' H ∧ G = insertCutPoints H := by
  simp only [newFromAst, ebind_ok, Except.ok.injEq]
  constructor
  · rintro ⟨n, H, hH, rfl⟩
    obtain ⟨m, hm⟩ := (h.builds H).1 ⟨n, hH⟩
    rcases GrammarN.settles (ms := macrosOf g) _ (h.lexed hl) h.1.noCalls with ⟨H', h1⟩ | ⟨N, hN⟩
    · obtain ⟨N, h2⟩ := h1.builds (ms := macrosOf g)
      have e1 := buildGrammar_mono (Nat.le_max_left m N) hm
      have e2 := buildGrammar_mono (Nat.le_max_right m N) h2
      rw [e1, Except.ok.injEq] at e2
      subst e2
      exact ⟨_, h1, rfl⟩
    · have := buildGrammar_mono (Nat.le_max_left m N) hm
      exact absurd (this.symm.trans (hN _ (Nat.le_max_right m N))) (by simp)
  · rintro ⟨H, hH, rfl⟩
    obtain ⟨n, hn⟩ := (h.builds H).2 (hH.builds (ms := macrosOf g))
    exact ⟨n, H, hn, rfl⟩

/-- **C68** There is such a source, if the macros that are called are there, with that number of parameters, and do not call
themselves, not even through others; -/
theorem C68_exists (hr : ∀ m mc, lookup m (macrosOf g) = some mc → mc.body.CallsRight (macrosOf g)) (hg : g.CallsRight (macrosOf g))
    (he : ∀ m ∈ g.calls, (macrosOf g).Ends m) : ∃ g', ExpandsGrammar (macrosOf g) g g' :=
  expands_of_ends hr hg he

/-- **C68** there is only one; it calls no macros; -/
theorem C68_unique (h : Unfolds g g') : g'.calls = [] ∧ ∀ g'', Unfolds g g'' → g'' = g' :=
  ⟨h.1.noCalls, fun _ h' => h'.1.unique h.1⟩

/-- **C68** and a source that calls no macros is left as it is. -/
theorem C68_plain (hc : g.calls = []) : Unfolds g g' ↔ g' = g :=
  ⟨fun h => h.1.unique (g.expands_self hc), fun h => by subst h; exact unfolds_self hc⟩

/-! ## Examples -/

namespace Ex

/-- A term of one alternative, as it is parsed. -/
def tm (ts : List TermN) : TermN := .many [] [] [.many [] [] [.many [] [] ts]]
def callOf (m : String) (ts : List TermN) : TermN := .one (.mk none (.macrocall (str m) ts)) []
/-- In parentheses. -/
def par (t : TermN) (qs : List QuantN) : TermN := .one (.mk none (.term t)) qs

def twoMacro : Macro := ⟨[str "x"], tm [callOf "opt" [tm [rn "x"]], rn "x"]⟩
def optMacro : Macro := ⟨[str "x"], tm [.one (.mk none (.ident (str "x"))) [.op (str "?")]]⟩

/-- ``.macro two(x) { %!opt(x) x } .macro opt(x) { x? } a -> %!two(b); b -> `x`;`` -/
def withMacros : GrammarN := .mk [.macrodef (str "two") twoMacro.args twoMacro.body, .macrodef (str "opt") optMacro.args optMacro.body,
  .prod (str "a") [tm [callOf "two" [tm [rn "b"]]]], .prod (str "b") [tm [.one (.mk none (.str (str "`x`"))) []]]]

/-- ``a -> ((((b))?) (b)); b -> `x`;`` and the macros. -/
def unfolded : GrammarN := .mk [.macrodef (str "two") twoMacro.args twoMacro.body, .macrodef (str "opt") optMacro.args optMacro.body,
  .prod (str "a") [tm [par (tm [par (tm [par (tm [par (tm [rn "b"]) []]) [.op (str "?")]]) [], par (tm [rn "b"]) []]) []]],
  .prod (str "b") [tm [.one (.mk none (.str (str "`x`"))) []]]]

def unfoldedMean : Grammar := [(str "a", .seq [.quant (.rule (str "b")) 0 1, .rule (str "b")]), (str "b", .s (str "x"))]

theorem withMacros_macros : macrosOf withMacros = [(str "two", twoMacro), (str "opt", optMacro)] := rfl

theorem withMacros_lookup {m : Str} {mc : Macro} (h : lookup m (macrosOf withMacros) = some mc) : mc = twoMacro ∨ mc = optMacro := by
  rw [withMacros_macros, lookup] at h
  split at h
  · exact .inl (by simpa [eq_comm] using h)
  · rw [lookup] at h
    split at h
    · exact .inr (by simpa [eq_comm] using h)
    · cases h

theorem withMacros_hygienic : (macrosOf withMacros).Hygienic := by
  intro m mc h
  refine ⟨?_, ?_⟩
  · rcases withMacros_lookup h with rfl | rfl <;> decide
  · intro n mc' h' p hp _
    have hp : p = str "x" := by
      rcases withMacros_lookup h with rfl | rfl
      · exact List.mem_singleton.1 hp
      · exact List.mem_singleton.1 hp
    subst hp
    rcases withMacros_lookup h' with rfl | rfl
    · exact List.mem_singleton.2 rfl
    · exact List.mem_singleton.2 rfl

theorem tm_expands {ms : Macros} {ts ts' : List TermN} (h : ExpandsTerms ms ts ts') : ExpandsTerm ms (tm ts) (tm ts') :=
  .many .nil (.cons (.many .nil (.cons (.many .nil h) .nil)) .nil)

theorem withMacros_unfolds : Unfolds withMacros unfolded := by
  have hb : ExpandsTerm (macrosOf withMacros) (rn "b") (rn "b") := TermN.expands_self _ rfl
  have pb : ∀ {t t' qs}, ExpandsTerm (macrosOf withMacros) t t' → callsQuants qs = [] → ExpandsTerm (macrosOf withMacros) (par t qs) (par t' qs) :=
    fun h hq => .one (.mk (.term h)) (expandsQuants_self _ hq)
  refine ⟨.mk (.cons .macrodef (.cons .macrodef (.cons (.prod (.cons (tm_expands (.cons (.one (.mk ?_) .nil) .nil)) .nil))
    (.cons (StmtN.expands_self _ rfl) .nil)))), .inr withMacros_hygienic⟩
  refine .call (mc := twoMacro) rfl rfl ?_
  refine tm_expands (.cons (.one (.mk ?_) .nil) (.cons (pb (tm_expands (.cons hb .nil)) rfl) .nil))
  exact .call (mc := optMacro) rfl rfl (tm_expands (.cons (pb (tm_expands (.cons (pb (tm_expands (.cons hb .nil)) rfl) .nil)) rfl) .nil))

theorem unfolded_mean : MeansGrammar unfolded unfoldedMean := by
  have lit : MeansAtom (.str (str "`x`")) (.s (str "x")) := .str (.backquoted (text := str "x"))
  have one : ∀ {t u}, MeansTerm t u → MeansTerm (tm [t]) u := fun h => .single (.single (.single h))
  have pb : ∀ {t u v qs}, MeansTerm t u → MeansQuants qs u v → MeansTerm (par t qs) v := fun h hq => .quants (.plain (.parens h)) hq
  have b : MeansTerm (par (tm [rn "b"]) []) (.rule (str "b")) := pb (one (.quants (.plain .ident) .nil)) .nil
  refine .mk (.macrodef (.macrodef (.prod (.single (one (pb (.single (.single (.seq (by decide) (.cons ?_ (.cons b .nil))))) .nil)))
    (.prod (.single (one (.quants (.plain lit) .nil))) .nil))))
  exact pb (one (pb (one b) (.cons .nil .opt))) .nil

end Ex

open Ex

/-- The hypotheses of `C68_grammar_partial` and `C68_exists` are met. -/
example : withMacros.Lexed ∧ Unfolds withMacros unfolded ∧ MeansGrammar unfolded unfoldedMean ∧ withMacros.CallsRight (macrosOf withMacros) ∧
    (∀ m mc, lookup m (macrosOf withMacros) = some mc → mc.body.CallsRight (macrosOf withMacros)) ∧
    ∀ m ∈ withMacros.calls, (macrosOf withMacros).Ends m := by
  have x : Token Core.ident (str "x") := .name ⟨by decide, _, _, rfl, by decide⟩
  have a : Token Core.ident (str "a") := .name ⟨by decide, _, _, rfl, by decide⟩
  have b : Token Core.ident (str "b") := .name ⟨by decide, _, _, rfl, by decide⟩
  have two : Token Core.ident (str "two") := .name ⟨by decide, _, _, rfl, by decide⟩
  have op : Token Core.ident (str "opt") := .name ⟨by decide, _, _, rfl, by decide⟩
  have lit : Token Core.strLit (str "`x`") := .backquoted (text := str "x")
  have q : Token (Core.re "[?*+]") (str "?") := .opt
  refine ⟨?_, withMacros_unfolds, unfolded_mean, ?_, ?_, ?_⟩
  · simp [withMacros, GrammarN.Lexed, lexedStmts, StmtN.Lexed, twoMacro, optMacro, tm, callOf, rn, TermN.Lexed, lexedTerms, lexedGrammars, NamedN.Lexed,
      AtomN.Lexed, lexedQuants, QuantN.Lexed, x, a, b, two, op, lit, q]
  · simp [withMacros, GrammarN.CallsRight, callsRightStmts, StmtN.CallsRight, tm, callOf, rn, TermN.CallsRight, callsRightTerms, callsRightGrammars,
      NamedN.CallsRight, AtomN.CallsRight, callsRightQuants]
    exact ⟨twoMacro, rfl, rfl⟩
  · intro m mc h
    rcases withMacros_lookup h with rfl | rfl
    · simp [twoMacro, tm, callOf, rn, TermN.CallsRight, callsRightTerms, callsRightGrammars, NamedN.CallsRight, AtomN.CallsRight, callsRightQuants]
      exact ⟨optMacro, rfl, rfl⟩
    · simp [optMacro, tm, TermN.CallsRight, callsRightTerms, callsRightGrammars, NamedN.CallsRight, AtomN.CallsRight, callsRightQuants, QuantN.CallsRight]
  · have hopt : (macrosOf withMacros).Ends (str "opt") := ⟨_, fun b hb => by
      obtain ⟨mc, h1, h2⟩ := hb
      cases (h1.symm.trans (show lookup (str "opt") (macrosOf withMacros) = some optMacro from rfl))
      cases h2⟩
    have htwo : (macrosOf withMacros).Ends (str "two") := ⟨_, fun b hb => by
      obtain ⟨mc, h1, h2⟩ := hb
      cases (h1.symm.trans (show lookup (str "two") (macrosOf withMacros) = some twoMacro from rfl))
      rw [List.mem_singleton.1 h2]
      exact hopt⟩
    intro m hm
    rw [List.mem_singleton.1 hm]
    exact htwo

end Wbnf

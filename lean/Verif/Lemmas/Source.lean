import Verif.Props.Views
import Verif.Props.Import
import Verif.Props.Means
import Verif.Props.Macro
import Verif.Props.Validate
import Verif.Props.Cutpoints
import Verif.Lemmas.NodeFuel
import Verif.Lemmas.Settles
import Verif.Lemmas.Deep
import Verif.Spec.Source

/-!
# Compiling a text, step by step
-/

namespace Wbnf

variable {E : Engine} {X : Externals} {ρ : Nat → Nat} {n m : Nat} {x : Str} {F : Files}

/-! ## Loading with more fuel -/

section
variable {path : List Str → Str} {load load' : Str → Loader → Loader × Except LoadError GrammarN}

theorem importStep_oof {s : LoadState} (h : s.err = some .oof) (p : List Str) : importStep path load s p = s := by
  simp [importStep, importOps, h]

theorem imports_mono (h : ∀ f c, (load f c).2 ≠ .error .oof → load' f c = load f c) : ∀ {is : List (List Str)} {s : LoadState},
    (is.foldl (importStep path load) s).err ≠ some .oof → is.foldl (importStep path load') s = is.foldl (importStep path load) s
  | [], _, _ => rfl
  | p :: is, s, hne => by
    rw [List.foldl_cons] at hne
    rw [List.foldl_cons, List.foldl_cons]
    have hs : (importStep path load s p).err ≠ some .oof := fun e => hne (by rw [imports_oof e])
    have : importStep path load' s p = importStep path load s p := by
      unfold importStep at hs ⊢
      simp only [importOps] at hs ⊢
      by_cases he : s.err = some .oof
      · rw [if_pos he, if_pos he]
      · rw [if_neg he] at hs
        rw [if_neg he, if_neg he]
        rw [h]
        intro e
        rcases hc : load (path p) s.loader with ⟨c, r⟩
        rw [hc] at e hs
        simp only at e
        subst e
        exact hs rfl
    rw [this]
    exact imports_mono h hne
end

/-- Loading with more fuel. -/
structure LoadMono (F : Files) (n : Nat) : Prop where
  make : ∀ f text c, (makeGrammar F n f text c).2 ≠ .error .oof → makeGrammar F (n + 1) f text c = makeGrammar F n f text c
  load : ∀ f c, (loadGrammarFile F n f c).2 ≠ .error .oof → loadGrammarFile F (n + 1) f c = loadGrammarFile F n f c

theorem load_step (F : Files) : ∀ n, LoadMono F n
  | 0 => ⟨fun _ _ _ h => absurd rfl h, fun _ _ h => absurd rfl h⟩
  | n + 1 => by
    have ih := load_step F n
    constructor
    · intro f text c h
      rw [makeGrammar_succ] at h ⊢
      rw [makeGrammar_succ]
      cases hp : F.parse text with
      | none => rfl
      | some g =>
        rw [hp] at h
        simp only at h ⊢
        have : imported F (n + 1) f g c = imported F n f g c := by
          refine imports_mono ih.load fun e => h ?_
          have e : (imported F n f g c).err = some .oof := e
          rw [e]
        rw [this]
    · intro f c h
      rw [loadGrammarFile] at h ⊢
      rw [loadGrammarFile]
      simp only at h ⊢
      cases hl : lookup (F.clean f) c.imports with
      | some g => rfl
      | none =>
        rw [hl] at h
        simp only at h ⊢
        cases hr : F.read (F.clean f) with
        | none => rfl
        | some text =>
          rw [hr] at h
          simp only at h ⊢
          rw [ih.make]
          intro e
          rcases hm : makeGrammar F n (F.clean f) text { c with reads := c.reads ++ [F.clean f] } with ⟨c1, r⟩
          rw [hm] at e h
          simp only at e
          subst e
          exact h rfl

theorem makeGrammar_mono (h : n ≤ m) {f text c} (hne : (makeGrammar F n f text c).2 ≠ .error .oof) :
    makeGrammar F m f text c = makeGrammar F n f text c := by
  induction h with
  | refl => rfl
  | step _ ih => rw [(load_step F _).make _ _ _ (by rw [ih]; exact hne), ih]

/-! ## Reading -/

theorem parseNode_mono (h : n ≤ m) {b : Branch} (hn : Core.parseNode E ρ n (newScanner x) = .node b) :
    Core.parseNode E ρ m (newScanner x) = .node b := by
  unfold Core.parseNode at hn ⊢
  cases hc : Core.grammar.compile E n with
  | error e => rw [hc] at hn; cases e <;> simp at hn
  | ok ps =>
    rw [compile_mono_le h (by rw [hc]; simp), hc]
    rw [hc] at hn
    simp only at hn ⊢
    cases hp : ps.parse E noExternals ρ n (str "grammar") (newScanner x) with
    | err _ _ => rw [hp] at hn; simp at hn
    | panic => rw [hp] at hn; simp at hn
    | oof => rw [hp] at hn; simp at hn
    | ok v i =>
      have : ps.parse E noExternals ρ m (str "grammar") (newScanner x) = .ok v i := by
        unfold Parsers.parse at hp ⊢
        rw [run_mono_le h, hp]
        intro e
        rw [e] at hp
        simp [Res.top] at hp
      rw [this]
      rw [hp] at hn
      simp only at hn ⊢
      cases hf : fromParserNode n ps.grammar v with
      | error e => rw [hf] at hn; cases e <;> simp at hn
      | ok s =>
        rw [hf] at hn
        rw [fromParserNode_mono h hf]
        exact hn

/-- Once refused, always refused. -/
theorem refused_of (hn : Core.parseNode E ρ n (newScanner x) = .err) : Refused E ρ x := by
  refine ⟨n, fun m h => ?_⟩
  unfold Core.parseNode at hn ⊢
  cases hc : Core.grammar.compile E n with
  | error e => rw [hc] at hn; cases e <;> simp at hn
  | ok ps =>
    rw [compile_mono_le h (by rw [hc]; simp), hc]
    rw [hc] at hn
    simp only at hn ⊢
    cases hp : ps.parse E noExternals ρ n (str "grammar") (newScanner x) with
    | panic => rw [hp] at hn; simp at hn
    | oof => rw [hp] at hn; simp at hn
    | ok v i =>
      rw [hp] at hn
      simp only at hn
      cases hf : fromParserNode n ps.grammar v with
      | error e => rw [hf] at hn; cases e <;> simp at hn
      | ok s => rw [hf] at hn; simp at hn
    | err e i =>
      have : ps.parse E noExternals ρ m (str "grammar") (newScanner x) = .err e i := by
        unfold Parsers.parse at hp ⊢
        rw [run_mono_le h, hp]
        intro e
        rw [e] at hp
        simp [Res.top] at hp
      rw [this]

/-- What the parser and the views make of a text once, they make of it. -/
theorem stands_of {b : Branch} {g : GrammarN} (h1 : Core.parseNode E ρ n (newScanner x) = .node b) (h2 : viewGrammar n (.branch b) = some g) :
    Stands E ρ x g := ⟨n, b, fun _ hm => ⟨parseNode_mono hm h1, viewGrammar_mono hm h2⟩⟩

theorem Stands.unique {g h : GrammarN} (h1 : Stands E ρ x g) (h2 : Stands E ρ x h) : g = h := by
  obtain ⟨N, b, h1⟩ := h1
  obtain ⟨M, c, h2⟩ := h2
  obtain ⟨e1, e2⟩ := h1 (max N M) (by omega)
  obtain ⟨e3, e4⟩ := h2 (max N M) (by omega)
  rw [e1, Core.NodeRes.node.injEq] at e3
  subst e3
  rw [e2, Option.some.injEq] at e4
  exact e4

theorem Stands.not_refused {g : GrammarN} (h1 : Stands E ρ x g) (h2 : Refused E ρ x) : False := by
  obtain ⟨N, b, h1⟩ := h1
  obtain ⟨M, h2⟩ := h2
  have e1 := (h1 (max N M) (by omega)).1
  rw [h2 _ (by omega)] at e1
  cases e1

theorem stands_or_refused (hE : E.Sane) (h : Core.EngineOK E) (hr : Core.EngineReads E) (ρ : Nat → Nat) (x : Str) :
    Refused E ρ x ∨ ∃ g, g.Lexed ∧ Stands E ρ x g := by
  obtain ⟨N, h | ⟨b, g, h1, h2⟩⟩ := C54_nodes hE h hr ρ x
  · exact .inl ⟨N, h⟩
  · exact .inr ⟨g, h1, N, b, h2⟩

theorem Stands.lexed (hE : E.Sane) (h : Core.EngineOK E) (hr : Core.EngineReads E) {g : GrammarN} (hs : Stands E ρ x g) : g.Lexed := by
  rcases stands_or_refused hE h hr ρ x with h | ⟨g', h1, h2⟩
  · exact (hs.not_refused h).elim
  · rw [hs.unique h2]; exact h1

theorem GrammarN.Lexed.stmt {g : GrammarN} (h : g.Lexed) {s : StmtN} (hs : s ∈ g.stmts) : s.Lexed := by
  cases g with
  | mk ss => exact lexedStmts_iff.1 h.2 s hs

theorem includes_lexed (hE : E.Sane) (h : Core.EngineOK E) (hr : Core.EngineReads E) (hF : F.Parsed E ρ) {g ss f} (hp : F.parse x = some g)
    (hi : F.Includes f g ss) : (GrammarN.mk ss).Lexed := by
  have hx : ∀ {x g}, F.parse x = some g → g.Lexed := fun hp => (hF.stands hp).lexed hE h hr
  refine ⟨?_, lexedStmts_iff.2 fun s hs => ?_⟩
  · have := hx hp
    cases g with
    | mk gs =>
      obtain ⟨s, hs⟩ := List.exists_mem_of_ne_nil _ this.1
      exact List.ne_nil_of_mem ((includes_mem hi).2 (.inl hs))
  · rcases (includes_mem hi).1 hs with hs | ⟨q, g', hq, hf, hs⟩
    · exact (hx hp).stmt hs
    · unfold Files.file at hf
      obtain ⟨y, hy, hf⟩ := Option.bind_eq_some_iff.1 hf
      exact (hx hf).stmt hs

/-! ## What a source denotes has no cut points -/

theorem deepDefs_lastWins {P : Term → Prop} : ∀ {ps : List (Str × Term)} {g : Grammar}, deepDefs P g → (∀ p ∈ ps, p.2.Deep P) →
    deepDefs P (ps.foldl (fun g p => mapSet p.1 p.2 g) g)
  | [], _, hg, _ => hg
  | p :: ps, g, hg, h => by
    rw [List.foldl_cons]
    refine deepDefs_lastWins (ps := ps) ?_ fun q hq => h q (List.mem_cons_of_mem _ hq)
    have hp := h p (.head _)
    clear h
    induction g with
    | nil => exact ⟨hp, trivial⟩
    | cons e g ih =>
      obtain ⟨k, t⟩ := e
      simp only [mapSet]
      split
      · exact ⟨hp, hg.2⟩
      · exact ⟨hg.1, ih hg.2⟩

mutual
theorem MeansTerm.uncut : {t : TermN} → {u : Term} → MeansTerm t u → u.Deep Term.NotCut
  | _, _, .choice h => ⟨trivial, h.uncut⟩
  | _, _, .layers h => ⟨trivial, h.uncut⟩
  | _, _, .seq _ h => ⟨trivial, h.uncut⟩
  | _, _, .single h => h.uncut
  | _, _, .braces h hg => ⟨trivial, h.uncut, hg.uncut⟩
  | _, _, .quants h hq => hq.uncut h.uncut
theorem MeansTerms.uncut : {ts : List TermN} → {us : List Term} → MeansTerms ts us → deepList Term.NotCut us
  | _, _, .nil => trivial
  | _, _, .cons h hs => ⟨h.uncut, hs.uncut⟩
theorem MeansQuants.uncut : {qs : List QuantN} → {t u : Term} → MeansQuants qs t u → t.Deep Term.NotCut → u.Deep Term.NotCut
  | _, _, _, .nil, ht => ht
  | _, _, _, .cons h hq, ht => hq.uncut (h.uncut ht)
theorem MeansQuant.uncut : {q : QuantN} → {t u : Term} → MeansQuant q t u → t.Deep Term.NotCut → u.Deep Term.NotCut
  | _, _, _, .any, ht => ⟨trivial, ht⟩
  | _, _, _, .opt, ht => ⟨trivial, ht⟩
  | _, _, _, .some, ht => ⟨trivial, ht⟩
  | _, _, _, .range _ _, ht => ⟨trivial, ht⟩
  | _, _, _, .sep _ h, ht => ⟨trivial, ht, h.uncut⟩
theorem MeansNamed.uncut : {n : NamedN} → {u : Term} → MeansNamed n u → u.Deep Term.NotCut
  | _, _, .plain h => h.uncut
  | _, _, .named _ h => ⟨trivial, h.uncut⟩
theorem MeansAtom.uncut : {a : AtomN} → {u : Term} → MeansAtom a u → u.Deep Term.NotCut
  | _, _, .ident => trivial
  | _, _, .str _ => trivial
  | _, _, .re _ => trivial
  | _, _, .ref => trivial
  | _, _, .default _ => ⟨_, rfl⟩
  | _, _, .ext => trivial
  | _, _, .look h => ⟨trivial, h.uncut⟩
  | _, _, .parens h => h.uncut
  | _, _, .unit => ⟨trivial, trivial⟩
theorem MeansGrammar.uncut : {g : GrammarN} → {G : Grammar} → MeansGrammar g G → deepDefs Term.NotCut G
  | _, _, .mk h => deepDefs_lastWins trivial h.uncut
theorem MeansStmts.uncut : {ss : List StmtN} → {ps : List (Str × Term)} → MeansStmts ss ps → ∀ p ∈ ps, p.2.Deep Term.NotCut
  | _, _, .nil => fun _ h => nomatch h
  | _, _, .prod h hs => fun p hp => by
    rcases List.mem_cons.1 hp with rfl | hp
    · exact h.uncut
    · exact hs.uncut p hp
  | _, _, .comment hs => hs.uncut
  | _, _, .imp hs => hs.uncut
  | _, _, .macrodef hs => hs.uncut
end

/-! ## Compiling with more fuel -/

theorem compile_settles (g : Grammar) : (∃ N r, r ≠ .error .oof ∧ ∀ n, N ≤ n → g.compile E n = r) ∨ ∀ n, g.compile E n = .error .oof := by
  by_cases h : ∃ n, g.compile E n ≠ .error .oof
  · obtain ⟨n, h⟩ := h
    exact .inl ⟨n, _, h, fun m hm => compile_mono_le hm h⟩
  · exact .inr fun n => Classical.byContradiction fun hn => h ⟨n, hn⟩

end Wbnf

import Verif.Lemmas.Comments
import Verif.Props.Source

/-!
# C56: comments

Specifications: `StmtN.isComment`, `GrammarN.uncomment` (Spec/Comments), `Stands` (Spec/Source), `MeansGrammar` (Spec/Means).
-/

namespace Wbnf

variable {E : Engine} {ρ : Nat → Nat} {F : Files} {reOK : Str → Bool} {ord : List Str → List Str → List Str}
  {text text' : Str} {g g' : GrammarN} {ps : Parsers} {G : Grammar}

theorem imports_noComments (ss : List StmtN) : (GrammarN.mk ss).imports = (GrammarN.mk (ss.filter (!·.isComment))).imports := by
  have key : ∀ ss : List StmtN, importsOf (stmtTrees ss) = importsOf (stmtTrees (ss.filter (!·.isComment))) := by
    intro ss
    induction ss with
    | nil => rfl
    | cons st ss ih =>
      cases hst : (!st.isComment) with
      | false =>
        obtain ⟨x, rfl⟩ := not_keep hst
        rw [List.filter_cons_of_neg (by simp [hst]), stmtTrees, importsOf, ih]
        rfl
      | true => rw [List.filter_cons_of_pos (p := fun st : StmtN => !st.isComment) hst, stmtTrees, stmtTrees, importsOf, importsOf, ih]
  unfold GrammarN.imports
  rw [GrammarN.tree, GrammarN.tree, imports_other (fun _ => by simp), imports_other (fun _ => by simp), key]

theorem imports_same (h : g.stmts.filter (!·.isComment) = g'.stmts.filter (!·.isComment)) : g.imports = g'.imports := by
  obtain ⟨ss⟩ := g
  obtain ⟨ss'⟩ := g'
  have h : ss.filter (!·.isComment) = ss'.filter (!·.isComment) := h
  rw [imports_noComments ss, imports_noComments ss', h]

theorem foldl_node {path : List Str → Str} {load : Str → Loader → Loader × Except LoadError GrammarN} :
    ∀ (is : List (List Str)) (s : LoadState), ∃ ps, (is.foldl (importStep path load) s).node = .mk (s.node.stmts ++ ps) ∧
      ∀ h : GrammarN, is.foldl (importStep path load) { s with node := h } =
        { is.foldl (importStep path load) s with node := .mk (h.stmts ++ ps) }
  | [], s => ⟨[], by simp [grammarN_eta], fun h => by simp [grammarN_eta]⟩
  | p :: is, s => by
    have step : ∃ ps, (importStep path load s p).node = .mk (s.node.stmts ++ ps) ∧
        ∀ h : GrammarN, importStep path load { s with node := h } p = { importStep path load s p with node := .mk (h.stmts ++ ps) } := by
      unfold importStep
      simp only [importOps]
      by_cases he : s.err = some .oof
      · simp only [if_pos he]
        exact ⟨[], by simp [grammarN_eta], fun h => by simp [grammarN_eta]⟩
      · simp only [if_neg he]
        rcases load (path p) s.loader with ⟨c, e | g⟩
        · exact ⟨[], by simp [grammarN_eta], fun h => by simp [grammarN_eta]⟩
        · refine ⟨g.stmts, ?_, fun h => ?_⟩
          · simp only [← mergeNodes_stmts, grammarN_eta]
          · simp only [← mergeNodes_stmts, grammarN_eta]
    obtain ⟨ps, h1, h2⟩ := step
    obtain ⟨qs, h3, h4⟩ := foldl_node is (importStep path load s p)
    refine ⟨ps ++ qs, ?_, fun h => ?_⟩
    · rw [List.foldl_cons, h3, h1]
      simp [GrammarN.stmts]
    · rw [List.foldl_cons, List.foldl_cons, h2, h4]
      simp [GrammarN.stmts]

/-- Loading the one is like loading the other. -/
theorem makeGrammar_noComments (hp : F.parse text = some g) (hp' : F.parse text' = some g')
    (h : g.stmts.filter (!·.isComment) = g'.stmts.filter (!·.isComment)) (n : Nat) (f : Str) (c : Loader) :
    (∃ c' e, makeGrammar F n f text c = (c', .error e) ∧ makeGrammar F n f text' c = (c', .error e)) ∨
    ∃ c' ss ss', makeGrammar F n f text c = (c', .ok (.mk ss)) ∧ makeGrammar F n f text' c = (c', .ok (.mk ss')) ∧
      ss.filter (!·.isComment) = ss'.filter (!·.isComment) := by
  cases n with
  | zero => exact .inl ⟨c, .oof, rfl, rfl⟩
  | succ n =>
    rw [makeGrammar_succ, makeGrammar_succ, hp, hp']
    dsimp only
    unfold imported
    rw [← imports_same h]
    obtain ⟨ps, h1, h2⟩ := foldl_node (path := F.path f) (load := loadGrammarFile F n) g.imports ⟨c, g, none⟩
    have h2 := h2 g'
    dsimp only at h2
    rw [h2]
    dsimp only
    rw [h1]
    cases (g.imports.foldl (importStep (F.path f) (loadGrammarFile F n)) ⟨c, g, none⟩).err with
    | some e => exact .inl ⟨_, e, rfl, rfl⟩
    | none => exact .inr ⟨_, _, _, rfl, rfl, by dsimp only; rw [List.filter_append, List.filter_append, h]⟩

/-- **C56** Two sources that differ only in comments between their statements are loaded with the same errors and have the same
errors of validation, -/
theorem C56_errors (hF : F.Parsed E ρ) (hs : Stands E ρ text g) (hs' : Stands E ρ text' g')
    (h : g.stmts.filter (!·.isComment) = g'.stmts.filter (!·.isComment)) (n : Nat) :
    (∀ e, compileSource F E reOK ord n text = .load e ↔ compileSource F E reOK ord n text' = .load e) ∧
    ∀ es, compileSource F E reOK ord n text = .invalid es ↔ compileSource F E reOK ord n text' = .invalid es := by
  unfold compileSource
  rcases makeGrammar_noComments (hF.parse_iff.2 hs) (hF.parse_iff.2 hs') h n [] ⟨[], []⟩ with ⟨c, e, h1, h2⟩ | ⟨c, ss, ss', h1, h2, h3⟩
  · rw [h1, h2]
    simp
  · rw [h1, h2]
    dsimp only
    rw [validate_noComments ss, validate_noComments ss', h3]
    have stop : ∀ {G : GrammarN} {r : Compiled}, r = (match newFromAst n G with
        | .error e => .stop e
        | .ok G => match G.compile E n with
          | .error e => .stop e
          | .ok ps => .ok ps) → (∀ e, r ≠ .load e) ∧ ∀ es, r ≠ .invalid es := by
      rintro G r rfl
      cases newFromAst n G with
      | error e => simp
      | ok G =>
        dsimp only
        cases G.compile E n <;> simp
    cases validate reOK ord (.mk (ss'.filter (!·.isComment))) with
    | error e => simp
    | ok es =>
      cases es with
      | cons e es => simp
      | nil =>
        have k1 := stop (G := .mk ss) rfl
        have k2 := stop (G := .mk ss') rfl
        exact ⟨fun e => ⟨fun h => absurd h (k1.1 e), fun h => absurd h (k2.1 e)⟩, fun es => ⟨fun h => absurd h (k1.2 es), fun h => absurd h (k2.2 es)⟩⟩

/-- and they compile to the same parsers. -/
theorem C56_parsers_partial (hF : F.Parsed E ρ) (hs : Stands E ρ text g) (hs' : Stands E ρ text' g')
    (h : g.stmts.filter (!·.isComment) = g'.stmts.filter (!·.isComment)) (ps : Parsers) :
    (∃ n, compileSource F E reOK ord n text = .ok ps) ↔ ∃ n, compileSource F E reOK ord n text' = .ok ps := by
  have half : ∀ {text text' g g'}, Stands E ρ text g → Stands E ρ text' g' → g.stmts.filter (!·.isComment) = g'.stmts.filter (!·.isComment) →
      (∃ n, compileSource F E reOK ord n text = .ok ps) → ∃ n, compileSource F E reOK ord n text' = .ok ps := by
    intro text text' g g' hs hs' h hc
    obtain ⟨n, hn⟩ := hc
    obtain ⟨g0, ss, hs0, hi⟩ := C55_needs hF hn
    cases hs.unique hs0
    rw [compileSource_ok (hF.parse_iff.2 hs') (ss := g'.stmts ++ ss.drop g.stmts.length) (by
      cases hi with
      | mk hi =>
        rw [List.drop_left]
        exact .mk (by rw [← imports_same h]; exact hi))]
    have hf : ss.filter (!·.isComment) = (g'.stmts ++ ss.drop g.stmts.length).filter (!·.isComment) := by
      cases hi with
      | mk hi => rw [List.drop_left, List.filter_append, List.filter_append, h]
    have := (compileSource_ok (hF.parse_iff.2 hs) hi ps).1 ⟨n, hn⟩
    rw [validate_noComments] at this ⊢
    simp only [newFromAst_noComments ss] at this
    simp only [newFromAst_noComments (g'.stmts ++ ss.drop g.stmts.length)]
    rw [← hf]
    exact this
  exact ⟨half hs hs' h, half hs' hs h.symm⟩

/-- **C56** Wherever the comments are, also in braces, leaving them out does not change the grammar that is denoted. -/
theorem C56_means (h : MeansGrammar g G) : MeansGrammar g.uncomment G := h.uncomment

/-! ## Texts -/

namespace Ex

/-- A comment with one character, and one to the end of the line. -/
def commented : Str := str "/*!*/ a -> `x`; // the rest"
def bare : Str := str "a -> `x`;"

end Ex

open Ex

set_option maxRecDepth 100000 in
/-- All of C56 holds of these texts. -/
example : Stands regexp ρ0 commented (.mk [.comment (str "/*!*/"), one "a" (.str (str "`x`")) [], .comment (str "// the rest")]) ∧
    Stands regexp ρ0 bare (.mk [one "a" (.str (str "`x`")) []]) :=
  ⟨stands_viewed (n := 60) (by decide +kernel), stands_viewed (n := 60) (by decide +kernel)⟩

/-- `a -> b { /*!*/ b -> c; };` -/
example : GrammarN.uncomment (.mk [.prod (str "a") [.many [] [.mk [.comment (str "/*!*/"), one "b" (.ident (str "c")) []]] [rn "b"]]]) =
    .mk [.prod (str "a") [.many [] [.mk [one "b" (.ident (str "c")) []]] [rn "b"]]] := rfl

theorem refused_text {n : Nat} {x : Str} (h : Core.refused (Core.parseNode regexp ρ0 n (newScanner x)) = true) : Refused regexp ρ0 x := by
  refine refused_of (n := n) ?_
  cases hr : Core.parseNode regexp ρ0 n (newScanner x) <;> rw [hr] at h <;> first | rfl | cases h

set_option maxRecDepth 100000 in
/-- **C56** But comments are not allowed everywhere: a comment within a production is refused, and so is, even between statements,
one in `/*` and `*/` with more than one character in it; `/**/` is refused too. -/
theorem C56_refused : Refused regexp ρ0 (str "a -> /*!*/ `x`;") ∧ Refused regexp ρ0 (str "/*ab*/ a -> `x`;") ∧
    Refused regexp ρ0 (str "/**/ a -> `x`;") :=
  ⟨refused_text (n := 60) (by decide +kernel), refused_text (n := 60) (by decide +kernel), refused_text (n := 60) (by decide +kernel)⟩

end Wbnf

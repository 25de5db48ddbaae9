import Verif.Spec.Comments
import Verif.Spec.Means
import Verif.Props.Import

/-! Comments are skipped. -/

namespace Wbnf

variable {reOK : Str → Bool} {ord : List Str → List Str → List Str}

/-- Statements the callbacks do nothing at can be left out. -/
theorem walk_filter {σ : Type} {ops : WalkerOps σ} {keep : StmtN → Bool} (he : ∀ i s, ops.exit i s = (s, none))
    (hg : ∀ g s, ops.enter (.grammar g) s = (s, none)) (hk : ∀ st, keep st = false → ∀ s, walk ops st.tree s = (s, none)) (ss : List StmtN) (s : σ) :
    walk ops (GrammarN.mk ss).tree s = walk ops (GrammarN.mk (ss.filter keep)).tree s := by
  have hr : ∀ (ss : List StmtN) (i j : Item) (s : σ), walkRest ops i (stmtTrees ss) s = walkRest ops j (stmtTrees (ss.filter keep)) s := by
    intro ss i j
    induction ss with
    | nil => intro s; simp [stmtTrees, walkRest, he]
    | cons st ss ih =>
      intro s
      rw [stmtTrees]
      cases hst : keep st with
      | false =>
        rw [List.filter_cons_of_neg (by simp [hst]), walkRest, hk st hst]
        exact ih s
      | true =>
        rw [List.filter_cons_of_pos hst, stmtTrees, walkRest, walkRest]
        rcases walk ops _ s with ⟨s, _ | st⟩
        · exact ih s
        · simp only [ih]
  rw [GrammarN.tree, GrammarN.tree, walk, walk, hg, hg]
  exact hr ss _ _ s

theorem not_keep {st : StmtN} (h : (!st.isComment) = false) : ∃ x, st = .comment x := by
  cases st <;> simp [StmtN.isComment] at h ⊢

/-- Callbacks that do nothing at comments. -/
structure WalkerOps.NoComments {σ : Type} (ops : WalkerOps σ) : Prop where
  exit : ∀ i s, ops.exit i s = (s, none)
  grammar : ∀ g s, ops.enter (.grammar g) s = (s, none)
  stmt : ∀ x s, ops.enter (.stmt (.comment x)) s = (s, none)
  comment : ∀ x s, ops.enter (.comment x) s = (s, none)

theorem walk_noComments {σ : Type} {ops : WalkerOps σ} (h : ops.NoComments) (ss : List StmtN) (s : σ) :
    walk ops (GrammarN.mk ss).tree s = walk ops (GrammarN.mk (ss.filter (!·.isComment))).tree s :=
  walk_filter h.exit h.grammar (fun st hst s => by
    obtain ⟨x, rfl⟩ := not_keep hst
    simp [StmtN.tree, WTree.tip, walk, walkRest, Item.leaf, h.stmt, h.comment, h.exit]) ss s

theorem macrosOf_noComments (ss : List StmtN) : macrosOf (.mk ss) = macrosOf (.mk (ss.filter (!·.isComment))) := by
  unfold macrosOf
  rw [walk_noComments ⟨fun _ _ => rfl, fun _ _ => rfl, fun _ _ => rfl, fun _ _ => rfl⟩]

theorem validate_noComments (ss : List StmtN) : validate reOK ord (.mk ss) = validate reOK ord (.mk (ss.filter (!·.isComment))) := by
  have h1 : findDefinedRules (.mk ss) = findDefinedRules (.mk (ss.filter (!·.isComment))) := by
    unfold findDefinedRules
    rw [walk_noComments ⟨fun _ _ => rfl, fun _ _ => rfl, fun _ _ => rfl, fun _ _ => rfl⟩]
  have h2 : badRoutes ord (.mk ss) = badRoutes ord (.mk (ss.filter (!·.isComment))) := by
    unfold badRoutes
    have : dangersOf (.mk ss) = dangersOf (.mk (ss.filter (!·.isComment))) := by
      unfold dangersOf
      rw [walk_noComments ⟨fun _ _ => rfl, fun _ _ => rfl, fun _ _ => rfl, fun _ _ => rfl⟩]
    rw [this]
  unfold validate
  rw [h1, h2]
  simp only
  rw [walk_noComments ⟨fun _ _ => rfl, fun _ _ => rfl, fun _ _ => rfl, fun _ _ => rfl⟩]

theorem buildStmts_noComments {ms : Macros} {G : Grammar} : ∀ (ss : List StmtN) (g0 : Grammar),
    (∃ n, buildStmts ms n ss g0 = .ok G) ↔ ∃ n, buildStmts ms n (ss.filter (!·.isComment)) g0 = .ok G
  | [], g0 => by simp
  | st :: ss, g0 => by
    have ih := buildStmts_noComments (ms := ms) (G := G) ss
    have skip : ∀ {st : StmtN} {ss us : List StmtN}, (∀ n ss g, buildStmts ms (n + 1) (st :: ss) g = buildStmts ms n ss g) →
        ((∃ n, buildStmts ms n ss g0 = .ok G) ↔ ∃ n, buildStmts ms n us g0 = .ok G) →
        ((∃ n, buildStmts ms n (st :: ss) g0 = .ok G) ↔ ∃ n, buildStmts ms n us g0 = .ok G) := by
      intro st ss us h hus
      rw [← hus]
      constructor
      · rintro ⟨n, hn⟩
        cases n with
        | zero => simp [buildStmts] at hn
        | succ n => exact ⟨n, by rwa [h] at hn⟩
      · rintro ⟨n, hn⟩
        exact ⟨n + 1, by rwa [h]⟩
    cases st with
    | comment x =>
      rw [List.filter_cons_of_neg (by simp [StmtN.isComment])]
      exact skip (fun _ _ _ => by rw [buildStmts]) (ih g0)
    | imp p =>
      rw [List.filter_cons_of_pos (by simp [StmtN.isComment])]
      exact skip (fun _ _ _ => by rw [buildStmts]) ((ih g0).trans (skip (fun _ _ _ => by rw [buildStmts]) Iff.rfl).symm)
    | macrodef x y z =>
      rw [List.filter_cons_of_pos (by simp [StmtN.isComment])]
      exact skip (fun _ _ _ => by rw [buildStmts]) ((ih g0).trans (skip (fun _ _ _ => by rw [buildStmts]) Iff.rfl).symm)
    | prod i ts =>
      rw [List.filter_cons_of_pos (by simp [StmtN.isComment])]
      have step : ∀ {ss us : List StmtN}, (∀ g, (∃ n, buildStmts ms n ss g = .ok G) → ∃ n, buildStmts ms n us g = .ok G) →
          (∃ n, buildStmts ms n (.prod i ts :: ss) g0 = .ok G) → ∃ n, buildStmts ms n (.prod i ts :: us) g0 = .ok G := by
        rintro ss us hs ⟨n, h⟩
        cases n with
        | zero => simp [buildStmts] at h
        | succ n =>
          rw [buildStmts, ebind_ok] at h
          obtain ⟨ts', h1, h⟩ := h
          obtain ⟨m, hm⟩ := hs _ ⟨n, h⟩
          refine ⟨n + m + 1, ?_⟩
          rw [buildStmts, ebind_ok]
          exact ⟨ts', mapE_mono (fun _ _ h => buildTerm_mono (by omega) h) h1, buildStmts_mono (by omega) hm⟩
      exact ⟨step fun g => (ih g).1, step fun g => (ih g).2⟩

theorem newFromAst_noComments {G : Grammar} (ss : List StmtN) :
    (∃ n, newFromAst n (.mk ss) = .ok G) ↔ ∃ n, newFromAst n (.mk (ss.filter (!·.isComment))) = .ok G := by
  have key : ∀ ss : List StmtN, (∃ n, newFromAst n (.mk ss) = .ok G) ↔ ∃ G', (∃ n, buildStmts (macrosOf (.mk ss)) n ss [] = .ok G') ∧ insertCutPoints G' = G := by
    intro ss
    constructor
    · rintro ⟨n, h⟩
      simp only [newFromAst, ebind_ok, Except.ok.injEq] at h
      obtain ⟨G', h1, h2⟩ := h
      cases n with
      | zero => simp [buildGrammar] at h1
      | succ n => exact ⟨G', ⟨n, by rwa [buildGrammar] at h1⟩, h2⟩
    · rintro ⟨G', ⟨n, h1⟩, h2⟩
      refine ⟨n + 1, ?_⟩
      simp only [newFromAst, ebind_ok, Except.ok.injEq]
      exact ⟨G', by rwa [buildGrammar], h2⟩
  rw [key, key, ← macrosOf_noComments]
  simp only [buildStmts_noComments ss]

/-! ## In braces -/

theorem uncommentTerms_length : (ts : List TermN) → (uncommentTerms ts).length = ts.length
  | [] => rfl
  | _ :: ts => by simp [uncommentTerms, uncommentTerms_length ts]

mutual
theorem MeansTerm.uncomment : {t : TermN} → {u : Term} → MeansTerm t u → MeansTerm t.uncomment u
  | _, _, .choice h => .choice h.uncomment
  | _, _, .layers h => .layers h.uncomment
  | _, _, .seq (ts := ts) hl h => by
    have := h.uncomment
    rw [TermN.uncomment]
    exact .seq (by rw [uncommentTerms_length]; exact hl) this
  | _, _, .single h => .single h.uncomment
  | _, _, .braces h hg => .braces h.uncomment hg.uncomment
  | _, _, .quants h hq => .quants h.uncomment hq.uncomment
theorem MeansTerms.uncomment : {ts : List TermN} → {us : List Term} → MeansTerms ts us → MeansTerms (uncommentTerms ts) us
  | _, _, .nil => .nil
  | _, _, .cons h hs => .cons h.uncomment hs.uncomment
theorem MeansQuants.uncomment : {qs : List QuantN} → {t u : Term} → MeansQuants qs t u → MeansQuants (uncommentQuants qs) t u
  | _, _, _, .nil => .nil
  | _, _, _, .cons h hq => .cons h.uncomment hq.uncomment
theorem MeansQuant.uncomment : {q : QuantN} → {t u : Term} → MeansQuant q t u → MeansQuant q.uncomment t u
  | _, _, _, .any => .any
  | _, _, _, .opt => .opt
  | _, _, _, .some => .some
  | _, _, _, .range h1 h2 => .range h1 h2
  | _, _, _, .sep ho h => .sep ho h.uncomment
theorem MeansNamed.uncomment : {n : NamedN} → {u : Term} → MeansNamed n u → MeansNamed n.uncomment u
  | _, _, .plain h => .plain h.uncomment
  | _, _, .named hi h => .named hi h.uncomment
theorem MeansAtom.uncomment : {a : AtomN} → {u : Term} → MeansAtom a u → MeansAtom a.uncomment u
  | _, _, .ident => .ident
  | _, _, .str h => .str h
  | _, _, .re h => .re h
  | _, _, .ref => .ref
  | _, _, .default h => .default h
  | _, _, .ext => .ext
  | _, _, .look h => .look h.uncomment
  | _, _, .parens h => .parens h.uncomment
  | _, _, .unit => .unit
theorem MeansGrammar.uncomment : {g : GrammarN} → {G : Grammar} → MeansGrammar g G → MeansGrammar g.uncomment G
  | _, _, .mk h => .mk h.uncomment
theorem MeansStmts.uncomment : {ss : List StmtN} → {ps : List (Str × Term)} → MeansStmts ss ps → MeansStmts (uncommentStmts ss) ps
  | _, _, .nil => .nil
  | _, _, .prod h hs => .prod h.uncomment hs.uncomment
  | _, _, .comment hs => hs.uncomment
  | _, _, .imp hs => .imp hs.uncomment
  | _, _, .macrodef hs => .macrodef hs.uncomment
end

end Wbnf

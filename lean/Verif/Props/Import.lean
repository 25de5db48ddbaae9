import Verif.Lemmas.Reads
import Verif.Lemmas.Build
import Verif.Lemmas.Fuel
import Verif.Props.Recursion

/-!
# C41: imports
-/

namespace Wbnf

variable {F : Files} {text : Str} {ss : List StmtN} {g g' : GrammarN} {f : Str} {c : Loader}

theorem good_empty : Loader.Good F ⟨[], []⟩ := by intro q g h; simp [lookup] at h

theorem needs_iff {q : Str} : F.Needs f g q ↔ ∃ p ∈ g.imports, q = F.target f p ∨ F.Above (F.target f p) q := by
  constructor
  · intro h
    induction h with
    | direct hp => exact ⟨_, hp, .inl rfl⟩
    | indirect _ hi ih =>
      obtain ⟨p, hp, h⟩ := ih
      refine ⟨p, hp, .inr ?_⟩
      rcases h with rfl | h
      · exact .one hi
      · exact above_snoc h hi
  · rintro ⟨p, hp, rfl | h⟩
    · exact .direct hp
    · have : ∀ {a b}, F.Above a b → F.Needs f g a → F.Needs f g b := by
        intro a b h
        induction h with
        | one h => exact fun ha => .indirect ha h
        | more h _ ih => exact fun ha => ih (.indirect ha h)
      exact this h (.direct hp)

/-- **C41** A grammar is loaded exactly if there is something it includes, and then it has those statements: its own, and then
those that its imports include, in order. -/
theorem C41_statements : (∃ n c, makeGrammar F n [] text ⟨[], []⟩ = (c, .ok (.mk ss))) ↔ ∃ g, F.parse text = some g ∧ F.Includes [] g ss := by
  constructor
  · rintro ⟨n, c, h⟩
    exact ((load_sound F n).make good_empty h).2
  · rintro ⟨g, hp, hi⟩
    obtain ⟨N, hN⟩ := includes_complete hi
    obtain ⟨c, h⟩ := hN N (Nat.le_refl _) text ⟨[], []⟩ hp good_empty
    exact ⟨N, c, h⟩

mutual
theorem includes_mem {s : StmtN} : ∀ {f g ss}, F.Includes f g ss → (s ∈ ss ↔ s ∈ g.stmts ∨ ∃ q h, F.Needs f g q ∧ F.file q = some h ∧ s ∈ h.stmts)
  | f, g, _, .mk (ps := ps) hi => by
    rw [List.mem_append, includesAll_mem hi]
    simp only [needs_iff]
    constructor
    · rintro (h | ⟨p, hp, q, h, hq, hf, hs⟩)
      · exact .inl h
      · exact .inr ⟨q, h, ⟨p, hp, hq⟩, hf, hs⟩
    · rintro (h | ⟨q, h, ⟨p, hp, hq⟩, hf, hs⟩)
      · exact .inl h
      · exact .inr ⟨p, hp, q, h, hq, hf, hs⟩
theorem includesAll_mem {s : StmtN} : ∀ {f is ps}, F.IncludesAll f is ps →
    (s ∈ ps ↔ ∃ p ∈ is, ∃ q h, (q = F.target f p ∨ F.Above (F.target f p) q) ∧ F.file q = some h ∧ s ∈ h.stmts)
  | _, _, _, .nil => by simp
  | f, _, _, @Files.IncludesAll.cons _ _ p is g ss ps h1 h2 h3 => by
    rw [List.mem_append, includesAll_mem h3, includes_mem h2]
    simp only [List.mem_cons, exists_eq_or_imp, needs_iff]
    constructor
    · rintro ((h | ⟨q, h, ⟨p', hp', hq⟩, hf, hs⟩) | h)
      · exact .inl ⟨_, g, .inl rfl, h1, h⟩
      · refine .inl ⟨q, h, .inr ?_, hf, hs⟩
        rcases hq with rfl | hq
        · exact .one ⟨g, p', h1, hp', rfl⟩
        · exact .more ⟨g, p', h1, hp', rfl⟩ hq
      · exact .inr h
    · rintro (⟨q, h, hq, hf, hs⟩ | h)
      · left
        rcases hq with rfl | hq
        · cases h1.symm.trans hf
          exact .inl hs
        · right
          refine ⟨q, h, ?_, hf, hs⟩
          cases hq with
          | one hi =>
            obtain ⟨g', p', e, hp', rfl⟩ := hi
            cases h1.symm.trans e
            exact ⟨p', hp', .inl rfl⟩
          | more hi hq =>
            obtain ⟨g', p', e, hp', rfl⟩ := hi
            cases h1.symm.trans e
            exact ⟨p', hp', .inr hq⟩
      · exact .inr h
end

/-- **C41** What is loaded has the statements of the source and of the files it imports, directly or through others, and no others. -/
theorem C41_members {n : Nat} (h : makeGrammar F n [] text ⟨[], []⟩ = (c, .ok g')) : ∃ g, F.parse text = some g ∧
    ∀ s, s ∈ g'.stmts ↔ s ∈ g.stmts ∨ ∃ q h, F.Needs [] g q ∧ F.file q = some h ∧ s ∈ h.stmts := by
  obtain ⟨g, hp, hi⟩ := ((load_sound F n).make good_empty h).2
  exact ⟨g, hp, fun s => includes_mem hi⟩

/-- **C41** When a grammar is loaded, the files that it imports, directly or through others, have been read, each exactly once,
and no others. -/
theorem C41_once {n : Nat} (h : makeGrammar F n [] text ⟨[], []⟩ = (c, .ok g')) : c.reads.Nodup ∧ ∃ g, F.parse text = some g ∧
    ∀ q, q ∈ c.reads ↔ F.Needs [] g q := by
  obtain ⟨g, hp, hi⟩ := ((load_sound F n).make good_empty h).2
  obtain ⟨ht, hk, ha⟩ := (load_tidy F n).make (opens := []) ⟨good_empty, by simp, by simp, by simp [hasKey, lookup], by simp [hasKey, lookup]⟩ hp (by simp) h
  refine ⟨ht.once, g, hp, fun q => ⟨fun hq => ?_, fun hq => ht.read q ?_⟩⟩
  · rcases ha.new q hq with h | ⟨a, ⟨p, hp, rfl⟩, h⟩
    · simp at h
    · exact needs_iff.2 ⟨p, hp, h⟩
  · induction hq with
    | direct hp => exact hk _ hp
    | indirect _ hi ih =>
      obtain ⟨h, p, hf, hp, rfl⟩ := hi
      exact ht.closed _ h p ih hf hp

/-- **C41** Loading ends exactly if following the imports ends: then there is a bound on how deep it recurses, and otherwise it
recurses forever. -/
theorem C41_ends (hp : F.parse text = some g) : ((∃ N, ∀ n, N ≤ n → (makeGrammar F n [] text ⟨[], []⟩).2 ≠ .error .oof) ↔ ∀ q, F.Needs [] g q → F.Ends q) ∧
    ((∀ n, (makeGrammar F n [] text ⟨[], []⟩).2 = .error .oof) ↔ ¬ ∀ q, F.Needs [] g q → F.Ends q) := by
  have h1 : (∀ q, F.Needs [] g q → F.Ends q) → ∃ N, ∀ n, N ≤ n → (makeGrammar F n [] text ⟨[], []⟩).2 ≠ .error .oof := by
    intro h
    obtain ⟨N, hN⟩ := makeGrammar_ends (F := F) (f := []) (g := g) (exists_fuel fun p hp => by
      obtain ⟨N, hN⟩ := loadFile_ends (h _ (.direct hp))
      exact ⟨N, fun n hn c => hN n hn _ rfl c⟩)
    exact ⟨N, fun n hn => hN n hn text _ hp⟩
  have h2 : ∀ n, (makeGrammar F n [] text ⟨[], []⟩).2 ≠ .error .oof → ∀ q, F.Needs [] g q → F.Ends q := by
    intro n h q hq
    have := ((load_ends F n).make (by intro q h; simp [hasKey, lookup] at h) h).2 g hp
    induction hq with
    | direct hp => exact this _ hp
    | indirect _ hi ih => exact ih.inv hi
  refine ⟨⟨fun ⟨N, hN⟩ => h2 N (hN N (Nat.le_refl _)), h1⟩, ⟨fun h hall => ?_, fun h n => ?_⟩⟩
  · obtain ⟨N, hN⟩ := h1 hall
    exact hN N (Nat.le_refl _) (h N)
  · exact Classical.byContradiction fun hn => h (h2 n hn)

/-- **C41** In particular it recurses forever if a file that is needed imports itself, directly or through others. -/
theorem C41_cycle (hp : F.parse text = some g) {q : Str} (hq : F.Needs [] g q) (hc : ∃ h, F.file q = some h ∧ F.Needs q h q) (n : Nat) :
    (makeGrammar F n [] text ⟨[], []⟩).2 = .error .oof := by
  refine (C41_ends hp).2.2 (fun h => ?_) n
  obtain ⟨g', hf, hn⟩ := hc
  obtain ⟨p, hp', h'⟩ := needs_iff.1 hn
  refine ends_irrefl (h q hq) ?_
  rcases h' with e | h'
  · exact .one ⟨g', p, hf, hp', e⟩
  · exact .more ⟨g', p, hf, hp', rfl⟩ h'

/-- **C41** If following the imports ends, a grammar is loaded exactly if all the files it needs can be read and parsed. -/
theorem C41_all_there (hp : F.parse text = some g) (he : ∀ q, F.Needs [] g q → F.Ends q) :
    (∃ n c g', makeGrammar F n [] text ⟨[], []⟩ = (c, .ok g')) ↔ ∀ q, F.Needs [] g q → ∃ h, F.file q = some h := by
  constructor
  · rintro ⟨n, c, g', h⟩ q hq
    obtain ⟨_, g0, hp', hr⟩ := C41_once h
    cases hp.symm.trans hp'
    obtain ⟨ht, -, -⟩ := (load_tidy F n).make (opens := []) ⟨good_empty, by simp, by simp, by simp [hasKey, lookup], by simp [hasKey, lookup]⟩ hp (by simp) h
    rcases ht.done q ((hr q).2 hq) with h | h
    · obtain ⟨g1, hl⟩ := hasKey_iff.1 h
      obtain ⟨g2, hf, -⟩ := ht.good _ _ hl
      exact ⟨g2, hf⟩
    · simp at h
  · intro h
    have hne : ∀ q, F.Needs [] g q → F.file q ≠ none := fun q hq e => by
      obtain ⟨g', hf⟩ := h q hq
      rw [e] at hf
      simp at hf
    obtain ⟨ss, hi⟩ := includes_exists (F := F) (f := []) (g := g) fun p hp' => by
      have := includes_of_ends (he _ (.direct hp')) (hne _ (.direct hp')) (fun b hb => hne b (needs_iff.2 ⟨p, hp', .inr hb⟩))
      exact this
    obtain ⟨n, c, hm⟩ := C41_statements.2 ⟨g, hp, hi⟩
    exact ⟨n, c, _, hm⟩

/-! ## Compiling -/

variable {E : Engine} {reOK : Str → Bool} {ord : List Str → List Str → List Str}

def StmtN.isImport : StmtN → Bool
  | .imp _ => true
  | _ => false

/-- Callbacks that do nothing at imports. -/
structure WalkerOps.NoImports {σ : Type} (ops : WalkerOps σ) : Prop where
  exit : ∀ i s, ops.exit i s = (s, none)
  grammar : ∀ g s, ops.enter (.grammar g) s = (s, none)
  stmt : ∀ p s, ops.enter (.stmt (.imp p)) s = (s, none)
  pragma : ∀ p s, ops.enter (.pragma (.imp p)) s = (s, none)
  imp : ∀ p s, ops.enter (.imp p) s = (s, none)
  path : ∀ p s, ops.enter (.impPath p) s = (s, none)

theorem walk_noImports {σ : Type} {ops : WalkerOps σ} (h : ops.NoImports) (ss : List StmtN) (s : σ) :
    walk ops (GrammarN.mk ss).tree s = walk ops (GrammarN.mk (ss.filter (!·.isImport))).tree s := by
  have hi : ∀ p s, walk ops (StmtN.imp p).tree s = (s, none) := by
    intro p s
    simp [StmtN.tree, walk, walkRest, Item.leaf, h.stmt, h.pragma, h.imp, h.path, h.exit]
  have hr : ∀ (ss : List StmtN) (i j : Item) (s : σ), walkRest ops i (stmtTrees ss) s = walkRest ops j (stmtTrees (ss.filter (!·.isImport))) s := by
    intro ss i j
    induction ss with
    | nil => intro s; simp [stmtTrees, walkRest, h.exit]
    | cons st ss ih =>
      intro s
      rw [stmtTrees]
      cases st with
      | imp p =>
        rw [List.filter_cons_of_neg (by simp [StmtN.isImport]), walkRest, hi]
        exact ih s
      | comment _ =>
        rw [List.filter_cons_of_pos (by simp [StmtN.isImport]), stmtTrees, walkRest, walkRest]
        rcases walk ops _ s with ⟨s, _ | st⟩
        · exact ih s
        · simp only [ih]
      | prod _ _ =>
        rw [List.filter_cons_of_pos (by simp [StmtN.isImport]), stmtTrees, walkRest, walkRest]
        rcases walk ops _ s with ⟨s, _ | st⟩
        · exact ih s
        · simp only [ih]
      | macrodef _ _ _ =>
        rw [List.filter_cons_of_pos (by simp [StmtN.isImport]), stmtTrees, walkRest, walkRest]
        rcases walk ops _ s with ⟨s, _ | st⟩
        · exact ih s
        · simp only [ih]
  rw [GrammarN.tree, GrammarN.tree, walk, walk, h.grammar, h.grammar]
  exact hr ss _ _ s

theorem macrosOf_noImports (ss : List StmtN) : macrosOf (.mk ss) = macrosOf (.mk (ss.filter (!·.isImport))) := by
  unfold macrosOf
  rw [walk_noImports ⟨fun _ _ => rfl, fun _ _ => rfl, fun _ _ => rfl, fun _ _ => rfl, fun _ _ => rfl, fun _ _ => rfl⟩]

theorem dangersOf_noImports (ss : List StmtN) : dangersOf (.mk ss) = dangersOf (.mk (ss.filter (!·.isImport))) := by
  unfold dangersOf
  rw [walk_noImports ⟨fun _ _ => rfl, fun _ _ => rfl, fun _ _ => rfl, fun _ _ => rfl, fun _ _ => rfl, fun _ _ => rfl⟩]

theorem validate_noImports (ss : List StmtN) : validate reOK ord (.mk ss) = validate reOK ord (.mk (ss.filter (!·.isImport))) := by
  have h1 : findDefinedRules (.mk ss) = findDefinedRules (.mk (ss.filter (!·.isImport))) := by
    unfold findDefinedRules
    rw [walk_noImports ⟨fun _ _ => rfl, fun _ _ => rfl, fun _ _ => rfl, fun _ _ => rfl, fun _ _ => rfl, fun _ _ => rfl⟩]
  have h2 : badRoutes ord (.mk ss) = badRoutes ord (.mk (ss.filter (!·.isImport))) := by
    unfold badRoutes
    rw [dangersOf_noImports]
  unfold validate
  rw [h1, h2]
  simp only
  rw [walk_noImports ⟨fun _ _ => rfl, fun _ _ => rfl, fun _ _ => rfl, fun _ _ => rfl, fun _ _ => rfl, fun _ _ => rfl⟩]

theorem buildStmts_noImports {ms : Macros} {G : Grammar} : ∀ (ss : List StmtN) (g0 : Grammar),
    (∃ n, buildStmts ms n ss g0 = .ok G) ↔ ∃ n, buildStmts ms n (ss.filter (!·.isImport)) g0 = .ok G
  | [], g0 => by simp
  | st :: ss, g0 => by
    have ih := buildStmts_noImports (ms := ms) (G := G) ss
    cases st with
    | imp p =>
      rw [List.filter_cons_of_neg (by simp [StmtN.isImport]), ← ih]
      constructor
      · rintro ⟨n, h⟩
        cases n with
        | zero => simp [buildStmts] at h
        | succ n => exact ⟨n, by rwa [buildStmts] at h⟩
      · rintro ⟨n, h⟩
        exact ⟨n + 1, by rwa [buildStmts]⟩
    | comment x =>
      rw [List.filter_cons_of_pos (by simp [StmtN.isImport])]
      constructor
      · rintro ⟨n, h⟩
        cases n with
        | zero => simp [buildStmts] at h
        | succ n =>
          rw [buildStmts] at h
          obtain ⟨m, hm⟩ := (ih g0).1 ⟨n, h⟩
          exact ⟨m + 1, by rwa [buildStmts]⟩
      · rintro ⟨n, h⟩
        cases n with
        | zero => simp [buildStmts] at h
        | succ n =>
          rw [buildStmts] at h
          obtain ⟨m, hm⟩ := (ih g0).2 ⟨n, h⟩
          exact ⟨m + 1, by rwa [buildStmts]⟩
    | macrodef x y z =>
      rw [List.filter_cons_of_pos (by simp [StmtN.isImport])]
      constructor
      · rintro ⟨n, h⟩
        cases n with
        | zero => simp [buildStmts] at h
        | succ n =>
          rw [buildStmts] at h
          obtain ⟨m, hm⟩ := (ih g0).1 ⟨n, h⟩
          exact ⟨m + 1, by rwa [buildStmts]⟩
      · rintro ⟨n, h⟩
        cases n with
        | zero => simp [buildStmts] at h
        | succ n =>
          rw [buildStmts] at h
          obtain ⟨m, hm⟩ := (ih g0).2 ⟨n, h⟩
          exact ⟨m + 1, by rwa [buildStmts]⟩
    | prod i ts =>
      rw [List.filter_cons_of_pos (by simp [StmtN.isImport])]
      constructor
      · rintro ⟨n, h⟩
        cases n with
        | zero => simp [buildStmts] at h
        | succ n =>
          rw [buildStmts, ebind_ok] at h
          obtain ⟨us, h1, h⟩ := h
          obtain ⟨m, hm⟩ := (ih _).1 ⟨n, h⟩
          refine ⟨n + m + 1, ?_⟩
          rw [buildStmts, ebind_ok]
          exact ⟨us, mapE_mono (fun _ _ h => buildTerm_mono (by omega) h) h1, buildStmts_mono (by omega) hm⟩
      · rintro ⟨n, h⟩
        cases n with
        | zero => simp [buildStmts] at h
        | succ n =>
          rw [buildStmts, ebind_ok] at h
          obtain ⟨us, h1, h⟩ := h
          obtain ⟨m, hm⟩ := (ih _).2 ⟨n, h⟩
          refine ⟨n + m + 1, ?_⟩
          rw [buildStmts, ebind_ok]
          exact ⟨us, mapE_mono (fun _ _ h => buildTerm_mono (by omega) h) h1, buildStmts_mono (by omega) hm⟩

theorem newFromAst_noImports {G : Grammar} (ss : List StmtN) :
    (∃ n, newFromAst n (.mk ss) = .ok G) ↔ ∃ n, newFromAst n (.mk (ss.filter (!·.isImport))) = .ok G := by
  have key : ∀ ss : List StmtN, (∃ n, newFromAst n (.mk ss) = .ok G) ↔ ∃ G', (∃ n, buildStmts (macrosOf (.mk ss)) n ss [] = .ok G') ∧ insertCutPoints G' = G := by
    intro ss
    constructor
    · rintro ⟨n, h⟩
      simp only [newFromAst, ebind_ok, Except.ok.injEq] at h
      obtain ⟨G', h1, h2⟩ := h
      cases n with
      | zero => simp [buildGrammar] at h1
      | succ n => exact ⟨G', ⟨n, by rwa [buildGrammar] at h1⟩, h2⟩
    · rintro ⟨G', ⟨n, h1⟩, h2⟩
      refine ⟨n + 1, ?_⟩
      simp only [newFromAst, ebind_ok, Except.ok.injEq]
      exact ⟨G', by rwa [buildGrammar], h2⟩
  rw [key, key, ← macrosOf_noImports]
  simp only [buildStmts_noImports ss]

theorem newFromAst_mono {n m : Nat} {G : Grammar} (hn : n ≤ m) (h : newFromAst n g = .ok G) : newFromAst m g = .ok G := by
  simp only [newFromAst, ebind_ok] at h ⊢
  obtain ⟨G', h1, h2⟩ := h
  exact ⟨G', buildGrammar_mono hn h1, h2⟩

/-- What `Compile` does for a source whose imports can be followed. -/
theorem compileSource_ok (hp : F.parse text = some g) (hi : F.Includes [] g ss) (ps : Parsers) :
    (∃ n, compileSource F E reOK ord n text = .ok ps) ↔ validate reOK ord (.mk ss) = .ok [] ∧
      ∃ G, (∃ n, newFromAst n (.mk ss) = .ok G) ∧ ∃ n, G.compile E n = .ok ps := by
  have hdet : ∀ {n c g'}, makeGrammar F n [] text ⟨[], []⟩ = (c, .ok g') → g' = .mk ss := by
    intro n c g' h
    obtain ⟨g0, h1, h2⟩ := ((load_sound F n).make good_empty h).2
    cases hp.symm.trans h1
    rw [← grammarN_eta g', includes_det h2 hi]
  constructor
  · rintro ⟨n, h⟩
    unfold compileSource at h
    rcases hm : makeGrammar F n [] text ⟨[], []⟩ with ⟨c, r⟩
    rw [hm] at h
    cases r with
    | error e => simp at h
    | ok g' =>
      cases hdet hm
      simp only at h
      split at h
      · simp at h
      · simp at h
      · rename_i hv
        refine ⟨hv, ?_⟩
        split at h
        · simp at h
        · rename_i G hG
          refine ⟨G, ⟨n, hG⟩, n, ?_⟩
          split at h
          · simp at h
          · rename_i ps' hc
            cases h
            exact hc
  · rintro ⟨hv, G, ⟨n1, hG⟩, n2, hc⟩
    obtain ⟨N, hN⟩ := includes_complete hi
    obtain ⟨c, hm⟩ := hN (N + n1 + n2) (by omega) text ⟨[], []⟩ hp good_empty
    refine ⟨N + n1 + n2, ?_⟩
    unfold compileSource
    rw [hm]
    simp only [hv]
    rw [newFromAst_mono (m := N + n1 + n2) (by omega) hG]
    simp only
    rw [compile_mono_le (n := n2) (m := N + n1 + n2) (by omega) (by rw [hc]; simp), hc]

theorem compileSource_invalid (hp : F.parse text = some g) (hi : F.Includes [] g ss) (es : List ErrorKind) :
    (∃ n, compileSource F E reOK ord n text = .invalid es) ↔ es ≠ [] ∧ validate reOK ord (.mk ss) = .ok es := by
  constructor
  · rintro ⟨n, h⟩
    unfold compileSource at h
    rcases hm : makeGrammar F n [] text ⟨[], []⟩ with ⟨c, r⟩
    rw [hm] at h
    cases r with
    | error e => simp at h
    | ok g' =>
      have : g' = .mk ss := by
        obtain ⟨g0, h1, h2⟩ := ((load_sound F n).make good_empty hm).2
        cases hp.symm.trans h1
        rw [← grammarN_eta g', includes_det h2 hi]
      subst this
      simp only at h
      split at h
      · simp at h
      · rename_i hv
        cases h
        exact ⟨by simp, hv⟩
      · split at h
        · simp at h
        · split at h <;> simp at h
  · rintro ⟨hne, hv⟩
    obtain ⟨N, hN⟩ := includes_complete hi
    obtain ⟨c, hm⟩ := hN N (Nat.le_refl _) text ⟨[], []⟩ hp good_empty
    refine ⟨N, ?_⟩
    unfold compileSource
    rw [hm]
    simp only [hv]
    cases es with
    | nil => simp at hne
    | cons e es => rfl

/-- **C41** Compiling a source with imports gives the same parsers, or errors of validation, as compiling one in which the
imports are replaced by the statements they include. -/
theorem C41_inline {text' : Str} (hp : F.parse text = some g) (hi : F.Includes [] g ss)
    (hp' : F.parse text' = some (.mk (ss.filter (!·.isImport)))) (hn : (GrammarN.mk (ss.filter (!·.isImport))).imports = []) :
    (∀ ps, (∃ n, compileSource F E reOK ord n text = .ok ps) ↔ ∃ n, compileSource F E reOK ord n text' = .ok ps) ∧
    ∀ es, (∃ n, compileSource F E reOK ord n text = .invalid es) ↔ ∃ n, compileSource F E reOK ord n text' = .invalid es := by
  have hi' : F.Includes [] (.mk (ss.filter (!·.isImport))) (ss.filter (!·.isImport)) := by
    have : F.IncludesAll [] (GrammarN.mk (ss.filter (!·.isImport))).imports [] := by rw [hn]; exact .nil
    have := Files.Includes.mk this
    rwa [List.append_nil] at this
  refine ⟨fun ps => ?_, fun es => ?_⟩
  · rw [compileSource_ok hp hi, compileSource_ok hp' hi', ← validate_noImports]
    simp only [newFromAst_noImports ss]
  · rw [compileSource_invalid hp hi, compileSource_invalid hp' hi', ← validate_noImports]

/-! ## Examples and violations -/

namespace Ex

/-- Files with these grammars; the text of a file is its name. -/
def files (m : List (Str × GrammarN)) : Files :=
  ⟨fun q => if hasKey q m then some q else none, fun x => lookup x m, fun _ p => p.flatten, id⟩
def im (x : String) : StmtN := .imp [str x]
/-- `r -> "x";` -/
def def1 (r : String) : StmtN := .prod (str r) [lit "`x`" []]

/-- `main`: `.import b a -> r;`, `b`: `.import d s -> "x";`, `d`: `r -> "x";` -/
def fChain : Files := files [(str "main", .mk [im "b", .prod (str "a") [rn "r"]]), (str "b", .mk [im "d", def1 "s"]), (str "d", .mk [def1 "r"]),
  (str "flat", .mk [.prod (str "a") [rn "r"], def1 "s", def1 "r"])]
/-- `main`: `.import b .import c`, both `.import d`, `d`: `r -> "x";` -/
def fDiamond : Files := files [(str "main", .mk [im "b", im "c"]), (str "b", .mk [im "d"]), (str "c", .mk [im "d"]), (str "d", .mk [def1 "r"])]
/-- `main`: `.import b .import b`, `b`: `.import none`; there is no `none`. -/
def fMissing : Files := files [(str "main", .mk [im "b", im "b"]), (str "b", .mk [im "none"])]
/-- `main`: `.import b`, `b`: `.import c`, `c`: `.import b` -/
def fCycle : Files := files [(str "main", .mk [im "b"]), (str "b", .mk [im "c"]), (str "c", .mk [im "b"])]
/-- `main`: `a -> r { .import d s -> "x"; };`, `d`: `r -> "x";` -/
def fBrace : Files := files [(str "main", .mk [.prod (str "a") [.many [] [.mk [im "d", def1 "s"]] [rn "r"]]]), (str "d", .mk [def1 "r"])]

end Ex

open Ex

/-- The hypotheses of the theorems hold of `fChain`: the source includes `main`, `b` and `d` in this order, and `flat` is the same
with the imports replaced. -/
example : ∃ g, fChain.parse (str "main") = some g ∧ fChain.Includes [] g [im "b", .prod (str "a") [rn "r"], im "d", def1 "s", def1 "r"] ∧
    (∀ q, fChain.Needs [] g q → fChain.Ends q) ∧
    fChain.parse (str "flat") = some (.mk ([im "b", .prod (str "a") [rn "r"], im "d", def1 "s", def1 "r"].filter (!·.isImport))) ∧
    (GrammarN.mk ([im "b", .prod (str "a") [rn "r"], im "d", def1 "s", def1 "r"].filter (!·.isImport))).imports = [] ∧
    ∃ c, makeGrammar fChain 9 [] (str "main") ⟨[], []⟩ = (c, .ok (.mk [im "b", .prod (str "a") [rn "r"], im "d", def1 "s", def1 "r"])) ∧ c.reads = [str "b", str "d"] := by
  have hm : ∃ c, makeGrammar fChain 9 [] (str "main") ⟨[], []⟩ = (c, .ok (.mk [im "b", .prod (str "a") [rn "r"], im "d", def1 "s", def1 "r"])) ∧
      c.reads = [str "b", str "d"] := ⟨_, rfl, rfl⟩
  obtain ⟨c, hm, hr⟩ := hm
  obtain ⟨g, hp, hi⟩ := C41_statements.1 ⟨9, c, hm⟩
  refine ⟨g, hp, hi, ?_, rfl, rfl, c, hm, hr⟩
  refine Classical.byContradiction fun hn => ?_
  have := (C41_ends hp).2.2 hn 9
  rw [hm] at this
  simp at this

/-- In `fCycle` the file `b` is needed and imports itself through `c`. -/
example : ∃ g q, fCycle.parse (str "main") = some g ∧ fCycle.Needs [] g q ∧ ∃ h, fCycle.file q = some h ∧ fCycle.Needs q h q :=
  ⟨_, str "b", rfl, .direct (p := [str "b"]) (.head _), _, rfl,
    .indirect (a := str "c") (.direct (p := [str "c"]) (.head _)) ⟨.mk [im "b"], [str "b"], rfl, .head _, rfl⟩⟩

/-- **C41** A file that is imported in two ways is merged twice; if it defines a rule, the grammar is not valid. -/
theorem C41_diamond : ∃ c, makeGrammar fDiamond 9 [] (str "main") ⟨[], []⟩ = (c, .ok (.mk [im "b", im "c", im "d", def1 "r", im "d", def1 "r"])) ∧
    c.reads = [str "b", str "d", str "c"] ∧ compileSource fDiamond E reOK ord 9 (str "main") = .invalid [.duplicatedRule] :=
  ⟨_, rfl, rfl, rfl⟩

/-- **C41** What can be said of reading files only once holds only if everything is loaded: after an error the other imports are
still loaded, and files that could not be loaded are read again. -/
theorem C41_read_again : (makeGrammar fMissing 9 [] (str "main") ⟨[], []⟩).2 = .error (.read (str "none")) ∧
    (makeGrammar fMissing 9 [] (str "main") ⟨[], []⟩).1.reads = [str "b", str "none", str "b", str "none"] :=
  ⟨rfl, rfl⟩

/-- **C41** An import in braces does not import into the grammar in braces, but into the whole: `r` is a rule of the top level. -/
theorem C41_braces : newFromAst 9 (.mk [.prod (str "a") [.many [] [.mk [im "d", def1 "s"]] [rn "r"]], def1 "r"]) =
      .ok [(str "a", .scope (.rule (str "r")) [(str "s", .s (str "x"))]), (str "r", .s (str "x"))] ∧
    (makeGrammar fBrace 9 [] (str "main") ⟨[], []⟩).2 = .ok (.mk [.prod (str "a") [.many [] [.mk [im "d", def1 "s"]] [rn "r"]], def1 "r"]) :=
  ⟨rfl, rfl⟩

end Wbnf

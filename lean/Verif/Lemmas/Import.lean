import Verif.Spec.Import
import Verif.Lemmas.Scope

/-!
# Loading grammars
-/

namespace Wbnf

/-! ## The walk makes one call per import -/

mutual
/-- Below an import or a leaf there are no imports. -/
def WTree.ImpEnds : WTree → Prop
  | .mk i ks => (i.leaf = true ∨ (∃ p, i = .imp p) → importsOf ks = []) ∧ ImpEndsAll ks
def ImpEndsAll : List WTree → Prop
  | [] => True
  | t :: ts => t.ImpEnds ∧ ImpEndsAll ts
end

theorem impEnds_append {ks ks' : List WTree} (h : ImpEndsAll ks) (h' : ImpEndsAll ks') : ImpEndsAll (ks ++ ks') := by
  induction ks with
  | nil => exact h'
  | cons k ks ih => exact ⟨h.1, ih h.2⟩

theorem impEnds_tip {i : Item} : (WTree.tip i).ImpEnds := ⟨fun _ => rfl, trivial⟩
theorem impEnds_tipOf (mk : Str → Item) : ∀ o, ImpEndsAll (tipOf mk o)
  | none => trivial
  | some _ => ⟨impEnds_tip, trivial⟩
theorem impEnds_args : ∀ as : List Str, ImpEndsAll (as.map fun a => .tip (.ident a))
  | [] => trivial
  | _ :: as => ⟨impEnds_tip, impEnds_args as⟩

mutual
theorem termN_impEnds : (t : TermN) → t.tree.ImpEnds
  | .many _ gs ts => ⟨by simp [Item.leaf], impEnds_append (grammars_impEnds gs) (terms_impEnds ts)⟩
  | .one n qs => ⟨by simp [Item.leaf], namedN_impEnds n, quants_impEnds qs⟩
theorem namedN_impEnds : (n : NamedN) → n.tree.ImpEnds
  | .mk i a => ⟨by simp [Item.leaf], atomN_impEnds a, impEnds_tipOf _ i⟩
theorem atomN_impEnds : (a : AtomN) → a.tree.ImpEnds
  | .ident _ => ⟨by simp [Item.leaf], impEnds_tip, trivial⟩
  | .str _ => ⟨by simp [Item.leaf], impEnds_tip, trivial⟩
  | .re _ => ⟨by simp [Item.leaf], impEnds_tip, trivial⟩
  | .macrocall _ ts => ⟨by simp [Item.leaf], ⟨by simp [Item.leaf], impEnds_tip, terms_impEnds ts⟩, trivial⟩
  | .ext _ => ⟨by simp [Item.leaf], ⟨by simp [Item.leaf], impEnds_tip, trivial⟩, trivial⟩
  | .ref _ d => ⟨by simp [Item.leaf], ⟨by simp [Item.leaf], impEnds_append (impEnds_tipOf _ d) ⟨impEnds_tip, trivial⟩⟩, trivial⟩
  | .look t => ⟨by simp [Item.leaf], termN_impEnds t, trivial⟩
  | .term t => ⟨by simp [Item.leaf], termN_impEnds t, trivial⟩
  | .unit => ⟨by simp [Item.leaf], trivial⟩
theorem quantN_impEnds : (q : QuantN) → q.tree.ImpEnds
  | .op _ => ⟨by simp [Item.leaf], trivial⟩
  | .range lo hi => ⟨by simp [Item.leaf], impEnds_append (impEnds_tipOf _ hi) (impEnds_tipOf _ lo)⟩
  | .sep _ _ _ n => ⟨by simp [Item.leaf], namedN_impEnds n, trivial⟩
theorem stmtN_impEnds : (s : StmtN) → s.tree.ImpEnds
  | .comment _ => ⟨by simp [Item.leaf], impEnds_tip, trivial⟩
  | .prod _ ts => ⟨by simp [Item.leaf], ⟨by simp [Item.leaf], impEnds_tip, terms_impEnds ts⟩, trivial⟩
  | .imp _ => ⟨by simp [Item.leaf], ⟨by simp [Item.leaf], ⟨fun _ => rfl, ⟨by simp [Item.leaf], trivial⟩, trivial⟩, trivial⟩, trivial⟩
  | .macrodef _ as t => ⟨by simp [Item.leaf], ⟨by simp [Item.leaf], ⟨by simp [Item.leaf],
      impEnds_append (impEnds_args as) ⟨impEnds_tip, termN_impEnds t, trivial⟩⟩, trivial⟩, trivial⟩
theorem grammarN_impEnds : (g : GrammarN) → g.tree.ImpEnds
  | .mk ss => ⟨by simp [Item.leaf], stmts_impEnds ss⟩
theorem terms_impEnds : (ts : List TermN) → ImpEndsAll (termTrees ts)
  | [] => trivial
  | t :: ts => ⟨termN_impEnds t, terms_impEnds ts⟩
theorem quants_impEnds : (ts : List QuantN) → ImpEndsAll (quantTrees ts)
  | [] => trivial
  | t :: ts => ⟨quantN_impEnds t, quants_impEnds ts⟩
theorem stmts_impEnds : (ts : List StmtN) → ImpEndsAll (stmtTrees ts)
  | [] => trivial
  | t :: ts => ⟨stmtN_impEnds t, stmts_impEnds ts⟩
theorem grammars_impEnds : (ts : List GrammarN) → ImpEndsAll (grammarTrees ts)
  | [] => trivial
  | t :: ts => ⟨grammarN_impEnds t, grammars_impEnds ts⟩
end

variable {path : List Str → Str} {load : Str → Loader → Loader × Except LoadError GrammarN}

/-- The state after an import. -/
def importStep (path : List Str → Str) (load : Str → Loader → Loader × Except LoadError GrammarN) (s : LoadState) (p : List Str) : LoadState :=
  ((importOps path load).enter (.imp p) s).1

theorem enter_other {i : Item} (h : ∀ p, i ≠ .imp p) (s : LoadState) : (importOps path load).enter i s = (s, none) := by
  cases i <;> first | rfl | exact absurd rfl (h _)

theorem imports_other {i : Item} {ks : List WTree} (h : ∀ p, i ≠ .imp p) : (WTree.mk i ks).imports = importsOf ks := by
  cases i <;> first | rfl | exact absurd rfl (h _)

mutual
theorem walk_imports : (t : WTree) → t.ImpEnds → (s : LoadState) →
    walk (importOps path load) t s = (t.imports.foldl (importStep path load) s, none)
  | .mk i ks, h, s => by
    rw [walk]
    by_cases hi : ∃ p, i = .imp p
    · obtain ⟨p, rfl⟩ := hi
      have hk := h.1 (.inr ⟨p, rfl⟩)
      rw [WTree.imports, hk, List.foldl_cons, List.foldl_nil]
      simp only [Item.leaf, Bool.false_eq_true, if_false]
      have rest : ∀ s, walkRest (importOps path load) (.imp p) ks s = (s, none) := fun s => by
        rw [walkRest_imports _ ks h.2, hk]; rfl
      unfold importStep
      simp only [importOps]
      by_cases he : s.err = some .oof
      · rw [if_pos he]; exact rest s
      · rw [if_neg he]
        cases hc : load (path p) s.loader with
        | mk c r =>
          cases r with
          | error e => rfl
          | ok g => exact rest _
    · have hi' : ∀ p, i ≠ .imp p := fun p e => hi ⟨p, e⟩
      rw [imports_other hi', enter_other hi']
      split
      · rename_i hleaf
        rw [h.1 (.inl hleaf)]; rfl
      · exact walkRest_imports i ks h.2 s
theorem walkRest_imports (i : Item) : (ks : List WTree) → ImpEndsAll ks → (s : LoadState) →
    walkRest (importOps path load) i ks s = ((importsOf ks).foldl (importStep path load) s, none)
  | [], _, s => rfl
  | k :: ks, h, s => by
    rw [walkRest, walk_imports k h.1, importsOf, List.foldl_append]
    exact walkRest_imports i ks h.2 _
end

/-! ## What is loaded -/

theorem mergeNodes_stmts (a b : GrammarN) : (mergeNodes a b).stmts = a.stmts ++ b.stmts := by
  cases a; cases b; rfl

theorem grammarN_eta (g : GrammarN) : .mk g.stmts = g := by cases g; rfl

theorem importStep_ok {s : LoadState} {p : List Str} (h : (importStep path load s p).err = none) :
    s.err = none ∧ ∃ c g, load (path p) s.loader = (c, .ok g) ∧ importStep path load s p = ⟨c, mergeNodes s.node g, none⟩ := by
  unfold importStep at h ⊢
  simp only [importOps] at h ⊢
  by_cases he : s.err = some .oof
  · rw [if_pos he] at h; simp [he] at h
  · rw [if_neg he] at h ⊢
    cases hc : load (path p) s.loader with
    | mk c r =>
      rw [hc] at h
      cases r with
      | error e => simp at h
      | ok g =>
        simp only at h
        exact ⟨h, c, g, rfl, by simp [h]⟩

theorem imports_ok : ∀ {is : List (List Str)} {s : LoadState}, (is.foldl (importStep path load) s).err = none → s.err = none
  | [], _, h => h
  | _ :: is, _, h => (importStep_ok (imports_ok (is := is) h)).1

theorem imports_cons {p : List Str} {is : List (List Str)} {s : LoadState} (h : ((p :: is).foldl (importStep path load) s).err = none) :
    s.err = none ∧ ∃ c g, load (path p) s.loader = (c, .ok g) ∧
      (p :: is).foldl (importStep path load) s = is.foldl (importStep path load) ⟨c, mergeNodes s.node g, none⟩ := by
  obtain ⟨h1, c, g, h2, h3⟩ := importStep_ok (imports_ok (is := is) h)
  exact ⟨h1, c, g, h2, by rw [List.foldl_cons, h3]⟩

variable {F : Files}

/-- The state of `makeGrammar` after its walk. -/
def imported (F : Files) (n : Nat) (f : Str) (g : GrammarN) (c : Loader) : LoadState :=
  g.imports.foldl (importStep (F.path f) (loadGrammarFile F n)) ⟨c, g, none⟩

theorem makeGrammar_succ {n : Nat} {f text : Str} {c : Loader} : makeGrammar F (n + 1) f text c =
    match F.parse text with
    | none => (c, .error (.parse f))
    | some g =>
      match (imported F n f g c).err with
      | some e => ((imported F n f g c).loader, .error e)
      | none => ((imported F n f g c).loader, .ok (imported F n f g c).node) := by
  rw [makeGrammar]
  cases F.parse text with
  | none => rfl
  | some g =>
    simp only
    rw [walk_imports g.tree (grammarN_impEnds g)]
    rfl

theorem makeGrammar_ok {n : Nat} {f text : Str} {c c' : Loader} {g' : GrammarN} (h : makeGrammar F n f text c = (c', .ok g')) :
    ∃ m g, n = m + 1 ∧ F.parse text = some g ∧ (imported F m f g c).err = none ∧ (imported F m f g c).loader = c' ∧ (imported F m f g c).node = g' := by
  cases n with
  | zero => simp [makeGrammar] at h
  | succ n =>
    rw [makeGrammar_succ] at h
    cases hp : F.parse text with
    | none => rw [hp] at h; simp at h
    | some g =>
      rw [hp] at h
      simp only at h
      cases he : (imported F n f g c).err with
      | some e => rw [he] at h; simp at h
      | none =>
        rw [he] at h
        simp only [Prod.mk.injEq, Except.ok.injEq] at h
        exact ⟨n, g, rfl, rfl, he, h.1, h.2⟩

theorem loadFile_ok {n : Nat} {f : Str} {c c' : Loader} {g' : GrammarN} (h : loadGrammarFile F n f c = (c', .ok g')) :
    ∃ m, n = m + 1 ∧ ((lookup (F.clean f) c.imports = some g' ∧ c' = c) ∨
      (lookup (F.clean f) c.imports = none ∧ ∃ text c1, F.read (F.clean f) = some text ∧
        makeGrammar F m (F.clean f) text { c with reads := c.reads ++ [F.clean f] } = (c1, .ok g') ∧
        c' = { c1 with imports := mapSet (F.clean f) g' c1.imports })) := by
  cases n with
  | zero => simp [loadGrammarFile] at h
  | succ n =>
    refine ⟨n, rfl, ?_⟩
    rw [loadGrammarFile] at h
    simp only at h
    cases hl : lookup (F.clean f) c.imports with
    | some g =>
      rw [hl] at h
      simp only [Prod.mk.injEq, Except.ok.injEq] at h
      exact .inl ⟨by rw [h.2], h.1.symm⟩
    | none =>
      rw [hl] at h
      simp only at h
      cases hr : F.read (F.clean f) with
      | none => rw [hr] at h; simp at h
      | some text =>
        rw [hr] at h
        simp only at h
        rcases hm : makeGrammar F n (F.clean f) text { c with reads := c.reads ++ [F.clean f] } with ⟨c1, r⟩
        rw [hm] at h
        cases r with
        | error e => simp at h
        | ok g =>
          simp only [Prod.mk.injEq, Except.ok.injEq] at h
          obtain ⟨rfl, rfl⟩ := h
          exact .inr ⟨rfl, text, c1, rfl, hm, rfl⟩

/-- What is kept of files is what they include. -/
def Loader.Good (F : Files) (c : Loader) : Prop := ∀ q g, lookup q c.imports = some g → ∃ g0, F.file q = some g0 ∧ F.Includes q g0 g.stmts

/-- What is loaded is what the files include. -/
structure LoadSound (F : Files) (n : Nat) : Prop where
  file : ∀ {f c c' g}, c.Good F → loadGrammarFile F n f c = (c', .ok g) → c'.Good F ∧ ∃ g0, F.file (F.clean f) = some g0 ∧ F.Includes (F.clean f) g0 g.stmts
  make : ∀ {f text c c' g}, c.Good F → makeGrammar F n f text c = (c', .ok g) → c'.Good F ∧ ∃ g0, F.parse text = some g0 ∧ F.Includes f g0 g.stmts

theorem imported_sound {n : Nat} {f : Str} (ih : LoadSound F n) : ∀ {is : List (List Str)} {s : LoadState}, s.loader.Good F →
    (is.foldl (importStep (F.path f) (loadGrammarFile F n)) s).err = none →
    (is.foldl (importStep (F.path f) (loadGrammarFile F n)) s).loader.Good F ∧
    ∃ ps, F.IncludesAll f is ps ∧ (is.foldl (importStep (F.path f) (loadGrammarFile F n)) s).node.stmts = s.node.stmts ++ ps
  | [], s, hg, _ => ⟨hg, [], .nil, by simp⟩
  | p :: is, s, hg, h => by
    obtain ⟨-, c, g, h2, h3⟩ := imports_cons h
    rw [h3] at h ⊢
    obtain ⟨hg', g0, hf, hi⟩ := ih.file hg h2
    obtain ⟨a, ps, b, d⟩ := imported_sound ih hg' h
    refine ⟨a, _, .cons hf hi b, ?_⟩
    rw [d, mergeNodes_stmts, List.append_assoc]

theorem load_sound (F : Files) : ∀ n, LoadSound F n
  | 0 => ⟨by simp [loadGrammarFile], by simp [makeGrammar]⟩
  | n + 1 => by
    have ih := load_sound F n
    constructor
    · intro f c c' g hg h
      obtain ⟨m, hm, ⟨h1, rfl⟩ | ⟨h1, text, c1, h2, h3, rfl⟩⟩ := loadFile_ok h
      · exact ⟨hg, hg _ _ h1⟩
      · cases hm
        obtain ⟨hg', g0, h4, h5⟩ := ih.make (c := { c with reads := c.reads ++ [F.clean f] }) hg h3
        have hf : F.file (F.clean f) = some g0 := by rw [Files.file, h2]; exact h4
        refine ⟨?_, g0, hf, h5⟩
        intro q g2 hq
        by_cases e : q = F.clean f
        · subst e
          rw [lookup_mapSet_self] at hq
          cases hq
          exact ⟨g0, hf, h5⟩
        · rw [lookup_mapSet_ne e] at hq
          exact hg' q g2 hq
    · intro f text c c' g hg h
      obtain ⟨m, g0, hm, h1, h2, h3, h4⟩ := makeGrammar_ok h
      cases hm
      obtain ⟨a, ps, b, d⟩ := imported_sound ih (s := ⟨c, g0, none⟩) hg h2
      refine ⟨h3 ▸ a, g0, h1, ?_⟩
      rw [← h4]
      unfold imported
      rw [d]
      exact .mk b

mutual
theorem includes_det : ∀ {f g ss ss'}, F.Includes f g ss → F.Includes f g ss' → ss = ss'
  | _, _, _, _, .mk h, .mk h' => by rw [includesAll_det h h']
theorem includesAll_det : ∀ {f is ps ps'}, F.IncludesAll f is ps → F.IncludesAll f is ps' → ps = ps'
  | _, _, _, _, .nil, .nil => rfl
  | _, _, _, _, .cons h1 h2 h3, .cons h1' h2' h3' => by
    cases h1.symm.trans h1'
    rw [includes_det h2 h2', includesAll_det h3 h3']
end

mutual
theorem includes_ends : ∀ {f g ss}, F.Includes f g ss → F.file f = some g → F.Ends f
  | f, g, _, .mk h, hf => by
    refine ⟨_, ?_⟩
    rintro b ⟨g', p, h1, h2, rfl⟩
    have e : g = g' := by simpa using hf.symm.trans h1
    exact includesAll_ends h p (e ▸ h2)
theorem includesAll_ends : ∀ {f is ps}, F.IncludesAll f is ps → ∀ p ∈ is, F.Ends (F.target f p)
  | _, _, _, .nil, p, hp => by simp at hp
  | _, _, _, .cons h1 h2 h3, p, hp => by
    rcases List.mem_cons.1 hp with e | hp
    · rw [e]; exact includes_ends h2 h1
    · exact includesAll_ends h3 p hp
end

/-- One file imports another, directly or through others. -/
inductive Files.Above (F : Files) : Str → Str → Prop
  | one {a b} : F.Imports a b → Above F a b
  | more {a b c} : F.Imports a b → Above F b c → Above F a c

theorem above_snoc {a b c : Str} (h : F.Above a b) (h' : F.Imports b c) : F.Above a c := by
  induction h with
  | one h => exact .more h (.one h')
  | more h _ ih => exact .more h (ih h')

/-- A file at which following imports ends is not imported by what it imports. -/
theorem ends_irrefl {a : Str} (h : F.Ends a) : ¬ F.Above a a := by
  unfold Files.Ends at h
  induction h with
  | intro a _ ih =>
    intro h
    cases h with
    | one h => exact ih a h (.one h)
    | more h h' => exact ih _ h (above_snoc h' h)

mutual
theorem includes_complete : ∀ {f g ss}, F.Includes f g ss → ∃ N, ∀ n, N ≤ n → ∀ text c, F.parse text = some g → c.Good F →
    ∃ c', makeGrammar F n f text c = (c', .ok (.mk ss))
  | f, g, _, .mk h => by
    obtain ⟨N, hN⟩ := includesAll_complete h
    refine ⟨N + 1, fun n hn text c ht hc => ?_⟩
    obtain ⟨m, rfl⟩ : ∃ m, n = m + 1 := ⟨n - 1, by omega⟩
    obtain ⟨h1, h2⟩ := hN m (by omega) ⟨c, g, none⟩ hc rfl
    rw [makeGrammar_succ, ht]
    simp only
    unfold imported
    rw [h1]
    simp only
    refine ⟨_, Prod.ext rfl ?_⟩
    simp only [Except.ok.injEq]
    have := congrArg GrammarN.mk h2
    rwa [grammarN_eta] at this
theorem includesAll_complete : ∀ {f is ps}, F.IncludesAll f is ps → ∃ N, ∀ n, N ≤ n → ∀ s : LoadState, s.loader.Good F → s.err = none →
    (is.foldl (importStep (F.path f) (loadGrammarFile F n)) s).err = none ∧
    (is.foldl (importStep (F.path f) (loadGrammarFile F n)) s).node.stmts = s.node.stmts ++ ps
  | _, _, _, .nil => ⟨0, fun n _ s _ he => ⟨he, by simp⟩⟩
  | f, _, _, @Files.IncludesAll.cons _ _ p is g ss ps h1 h2 h3 => by
    obtain ⟨N1, hN1⟩ := includes_complete h2
    obtain ⟨N2, hN2⟩ := includesAll_complete h3
    refine ⟨N1 + N2 + 1, fun n hn s hs he => ?_⟩
    obtain ⟨m, rfl⟩ : ∃ m, n = m + 1 := ⟨n - 1, by omega⟩
    have hload : ∃ c', loadGrammarFile F (m + 1) (F.path f p) s.loader = (c', .ok (.mk ss)) := by
      rw [loadGrammarFile]
      simp only
      cases hl : lookup (F.clean (F.path f p)) s.loader.imports with
      | some g' =>
        obtain ⟨g0, h4, h5⟩ := hs _ _ hl
        have h1' : F.file (F.clean (F.path f p)) = some g := h1
        cases h1'.symm.trans h4
        refine ⟨_, Prod.ext rfl ?_⟩
        have := includes_det h2 h5
        subst this
        simp only [grammarN_eta]
      | none =>
        have h1' : F.file (F.clean (F.path f p)) = some g := h1
        unfold Files.file at h1'
        cases hr : F.read (F.clean (F.path f p)) with
        | none => rw [hr] at h1'; simp at h1'
        | some text =>
          rw [hr] at h1'
          obtain ⟨c', h6⟩ := hN1 m (by omega) text { s.loader with reads := s.loader.reads ++ [F.clean (F.path f p)] } h1' hs
          simp only
          have h6' : makeGrammar F m (F.clean (F.path f p)) text { s.loader with reads := s.loader.reads ++ [F.clean (F.path f p)] } = (c', .ok (.mk ss)) := h6
          rw [h6']
          exact ⟨_, rfl⟩
    obtain ⟨c', hload⟩ := hload
    have hc' := ((load_sound F (m + 1)).file hs hload).1
    have hstep : importStep (F.path f) (loadGrammarFile F (m + 1)) s p = ⟨c', mergeNodes s.node (.mk ss), none⟩ := by
      unfold importStep
      simp only [importOps, he]
      rw [if_neg (by simp), hload]
    rw [List.foldl_cons, hstep]
    obtain ⟨h4, h5⟩ := hN2 (m + 1) (by omega) ⟨c', mergeNodes s.node (.mk ss), none⟩ hc' rfl
    refine ⟨h4, ?_⟩
    rw [h5, mergeNodes_stmts, List.append_assoc]
    rfl
end

end Wbnf

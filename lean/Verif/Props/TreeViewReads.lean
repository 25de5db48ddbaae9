import Verif.Props.TreeView
import Verif.Props.Tree

/-!
# Tree views of ASTs, read from the top to the bottom (C64)
-/

namespace Wbnf

variable {quote : Str → Str} {sort : List GTree → List GTree} {name : Str}
  {E : Engine} {X : Externals} {g G : Grammar} {m n k : Nat} {ps : Parsers} {r : Str} {inp rest : Scanner} {ρ : Nat → Nat}

private def Rising (ss : List Str) : Prop := ss.Pairwise fun s t => placeOf s < placeOf t

private theorem rising_left {ss ts : List Str} (h : Rising (ss ++ ts)) : Rising ss := (List.pairwise_append.1 h).1
private theorem rising_right {ss ts : List Str} (h : Rising (ss ++ ts)) : Rising ts := (List.pairwise_append.1 h).2.1

theorem hidden_tag {name : Str} : Hidden true name ↔ isTagName name = true := by
  cases name with
  | nil => simp [Hidden, isTagName, str]
  | cons c s =>
    simp [Hidden, isTagName, str, List.isPrefixOf]
    exact eq_comm

/-! ### Views in the order of the parts -/

theorem ViewsOf.perm {skip : Bool} {ns ns' : List (Str × Ast)} (h : ns.Perm ns') : ∀ {ts}, ViewsOf quote sort skip ns ts → ∃ ts', ViewsOf quote sort skip ns' ts' ∧ ts.Perm ts' := by
  induction h with
  | nil => intro ts h; exact ⟨ts, h, .refl _⟩
  | cons x _ ih =>
    intro ts h
    cases h with
    | cons h1 h2 =>
      obtain ⟨us, h3, h4⟩ := ih h2
      exact ⟨_, .cons h1 h3, h4.cons _⟩
  | swap x y l =>
    intro ts h
    cases h with
    | cons h1 h2 =>
      cases h2 with
      | cons h3 h4 => exact ⟨_, .cons h3 (.cons h1 h4), .swap _ _ _⟩
  | trans _ _ ih1 ih2 =>
    intro ts h
    obtain ⟨us, h1, h2⟩ := ih1 h
    obtain ⟨vs, h3, h4⟩ := ih2 h1
    exact ⟨vs, h3, h2.trans h4⟩

theorem ViewsOf.unique {skip : Bool} {ns : List (Str × Ast)} {ts us} (h : ViewsOf quote sort skip ns ts) (h' : ViewsOf quote sort skip ns us) : ts = us := by
  induction h generalizing us with
  | nil => cases h'; rfl
  | cons h1 _ ih =>
    cases h' with
    | cons g1 g2 =>
      rw [h1] at g1
      rw [Option.some.inj g1, ih g2]

private def nodesOf (b : Branch) : List (Str × Ast) := b.flatMap fun e => e.2.nodes.map (e.1, ·)

private theorem has_nodes : ∀ {b : Branch} {ps : List (Str × Ast)}, Has ps b → (nodesOf b).Perm ps := by
  intro b
  induction b with
  | nil =>
    intro ps h
    have : ps = [] := by
      cases ps with
      | nil => rfl
      | cons p ps =>
        have := h.2 p.1
        rw [show p :: ps = (p.1, p.2) :: ps from rfl, partsNamed_cons] at this
        simp [lookup] at this
    subst this
    exact .refl _
  | cons e b ih =>
    intro ps h
    obtain ⟨k, c⟩ := e
    obtain ⟨hn, hl⟩ := h
    simp only [List.map_cons, List.nodup_cons] at hn
    have hk := hl k
    simp only [lookup, if_true, Option.map_some, Option.getD_some] at hk
    have hnone : lookup k b = none := by
      cases e : lookup k b with
      | none => rfl
      | some x => exact absurd (List.mem_map.2 ⟨_, lookup_mem e, rfl⟩) hn.1
    have hrest : Has (ps.filter fun p => ¬ p.1 = k) b := by
      refine ⟨hn.2, fun k' => ?_⟩
      by_cases e : k' = k
      · subst e
        rw [hnone]
        unfold partsNamed
        rw [List.filter_filter]
        simp
      · have := hl k'
        simp only [lookup, Ne.symm e, if_false] at this
        rw [this]
        unfold partsNamed
        rw [List.filter_filter]
        congr 1
        apply List.filter_congr
        intro p _
        by_cases e' : p.1 = k'
        · simp [e', e]
        · simp [e']
    have h1 := ih hrest
    have e : ∀ ps : List (Str × Ast), (partsNamed k ps).map (k, ·) = ps.filter fun p => decide (p.1 = k) := by
      intro ps
      induction ps with
      | nil => rfl
      | cons p ps ih =>
        obtain ⟨k', x⟩ := p
        unfold partsNamed at ih ⊢
        by_cases e : k' = k <;> simp [e] at ih ⊢
        · exact ih
        · exact ih
    simp only [nodesOf, List.flatMap_cons]
    rw [hk, e]
    refine ((List.Perm.refl _).append h1).trans ?_
    have := List.filter_append_perm (fun p : Str × Ast => decide (p.1 = k)) ps
    simpa using this

private theorem shownKids_eq : ∀ b : Branch, shownKids true b = (nodesOf b).filter fun p => ¬ isTagName p.1
  | [] => rfl
  | (k, c) :: b => by
    have ih := shownKids_eq b
    have e : ∀ ns : List Ast, (ns.map (k, ·)).filter (fun p => decide (¬ isTagName p.1 = true)) = if Hidden true k then [] else ns.map (k, ·) := by
      intro ns
      by_cases h : Hidden true k
      · rw [if_pos h]; rw [hidden_tag] at h
        simp [h]
      · rw [if_neg h]; rw [hidden_tag] at h
        simp [h]
    have e2 : nodesOf ((k, c) :: b) = c.nodes.map (k, ·) ++ nodesOf b := rfl
    rw [e2, List.filter_append, ← ih, e]
    cases c with
    | one n => simp [shownKids, Kids.nodes]
    | many ns => simp [shownKids, Kids.nodes]

/-- The views of the parts show these ends, in this order. -/
private inductive ReadsAs (quote : Str → Str) (sort : List GTree → List GTree) : List (Str × Ast) → List Str → Prop
  | nil : ReadsAs quote sort [] []
  | hidden {name a ps ss} : isTagName name = true → ReadsAs quote sort ps ss → ReadsAs quote sort ((name, a) :: ps) ss
  | shown {name a t ps ss} : isTagName name = false → fromAst quote sort true name a = some t → t.Sound → ReadsAs quote sort ps ss → ReadsAs quote sort ((name, a) :: ps) (t.ends ++ ss)

private theorem ReadsAs.append {ps ps' ss ss'} (h : ReadsAs quote sort ps ss) (h' : ReadsAs quote sort ps' ss') : ReadsAs quote sort (ps ++ ps') (ss ++ ss') := by
  induction h with
  | nil => exact h'
  | hidden h _ ih => exact .hidden h ih
  | shown h1 h2 h3 _ ih => rw [List.append_assoc]; exact .shown h1 h2 h3 ih

private theorem ReadsAs.views {ps ss} (h : ReadsAs quote sort ps ss) : ∃ us, ViewsOf quote sort true (ps.filter fun p => ¬ isTagName p.1) us ∧ endsAll us = ss ∧ ∀ u ∈ us, u.Sound := by
  induction h with
  | nil => exact ⟨[], .nil, rfl, by simp⟩
  | hidden h _ ih =>
    obtain ⟨us, h1, h2⟩ := ih
    exact ⟨us, by simpa [List.filter_cons, h] using h1, h2⟩
  | @shown name a t ps ss h1 h2 h3 _ ih =>
    obtain ⟨us, g1, g2, g3⟩ := ih
    refine ⟨t :: us, ?_, by simp [endsAll, g2], by simpa using ⟨h3, g3⟩⟩
    simp only [List.filter_cons, h1]
    simpa using ViewsOf.cons h2 (by simpa using g1)

private theorem rising_ranks : ∀ {us : List GTree}, Rising (endsAll us) → (∀ u ∈ us, u.Sound) → us.Pairwise fun t u => t.rank.getD 0 < u.rank.getD 0
  | [], _, _ => .nil
  | t :: us, h, hs => by
    simp only [endsAll] at h
    refine .cons (fun u hu => ?_) (rising_ranks (rising_right h) fun u hu => hs u (by simp [hu]))
    obtain ⟨j, e1, f1, _⟩ := rank_first t (hs t (by simp))
    obtain ⟨k, e2, f2, _⟩ := rank_first u (hs u (by simp [hu]))
    obtain ⟨⟨s, m1, g1⟩, _⟩ := first_iff.1 f1
    obtain ⟨⟨s', m2, g2⟩, _⟩ := first_iff.1 f2
    have hm : ∀ {us : List GTree}, u ∈ us → ∀ s ∈ u.ends, s ∈ endsAll us := by
      intro us hu s hs
      induction us with
      | nil => simp at hu
      | cons v us ih =>
        simp only [endsAll, List.mem_append]
        rcases List.mem_cons.1 hu with e | hu
        · rw [← e]; exact .inl hs
        · exact .inr (ih hu)
    have := (List.pairwise_append.1 h).2.2 s m1 s' (hm hu s' m2)
    rw [e1, e2]
    simp only [Option.getD_some]
    omega

private theorem strict_eq {us : List GTree} (h : us.Pairwise fun t u => t.rank.getD 0 < u.rank.getD 0) : ∀ x ∈ us, ∀ y ∈ us, x.rank.getD 0 ≤ y.rank.getD 0 → y.rank.getD 0 ≤ x.rank.getD 0 → x = y := by
  induction h with
  | nil => simp
  | cons h1 _ ih =>
    intro x hx y hy l1 l2
    rcases List.mem_cons.1 hx with e1 | hx' <;> rcases List.mem_cons.1 hy with e2 | hy'
    · rw [e1, e2]
    · rw [e1] at l1 l2
      have := h1 y hy'; omega
    · rw [e2] at l1 l2
      have := h1 x hx'; omega
    · exact ih x hx' y hy' l1 l2

private theorem groups_reads (hs : SortsByRank sort) {t : Term} {ps : List (Str × Ast)} {b : Branch} {ss : List Str} (hg : Groups t ps b) (h : ReadsAs quote sort ps ss) (hr : Rising ss)
    (hne : ss ≠ []) {name : Str} {u : GTree} (hu : fromAst quote sort true name (.branch b) = some u) : u.ends = ss := by
  obtain ⟨us, h1, h2, h3⟩ := h.views
  simp only [fromAst, Option.bind_eq_some_iff] at hu
  obtain ⟨ts, g1, g2⟩ := hu
  have g3 := branchItems_views g1
  rw [shownKids_eq] at g3
  obtain ⟨us', g4, g5⟩ := g3.perm ((has_nodes hg.has).filter _)
  rw [g4.unique h1] at g5
  have hus : us ≠ [] := by rintro rfl; exact hne h2.symm
  rcases collapseTree_cases g2 with ⟨text, i, rfl, rfl⟩ | ⟨_, rfl⟩
  · have := List.singleton_perm.1 g5
    rw [← h2, ← this]
    simp [GTree.ends, endsAll]
  · have hrank := rising_ranks (us := us) (by rw [h2]; exact hr) h3
    obtain ⟨p1, p2⟩ := hs ts
    have e : us = sort ts := by
      refine perm_sorted_eq (R := fun t u => t.rank.getD 0 ≤ u.rank.getD 0) (g5.symm.trans p1.symm) (strict_eq hrank) (hrank.imp fun h => by omega) (p2 fun t ht => ?_)
      obtain ⟨k, e, _⟩ := rank_first t (h3 t (g5.mem_iff.1 ht))
      rw [e]; simp
    rw [← e]
    have : us.isEmpty = false := by cases us with | nil => exact absurd rfl hus | cons _ _ => rfl
    simp [GTree.ends, this, h2]

/-! ### ASTs of parses -/

section
local notation "T" => fun s => (∃ x, Scanner.toStr s = some x) ∧ Scanner.start s < 2 ^ 63
local notation "S" => fun s => Option.getD (leafString quote s) []

private theorem leaf_reads (hs : SortsByRank sort) {s : Scanner} {name : Str} (h : T s) (hn : ¬ Numbered name) (ht : isTagName name = false) :
    ReadsAs quote sort [(name, .leaf s)] (List.map S [s]) := by
  obtain ⟨t, h1, h2, _⟩ := fromAst_good (quote := quote) (skip := true) hs (.leaf s) name h
  have := ReadsAs.shown ht h1 (h2 hn) .nil
  simp only [fromAst, Option.map_eq_some_iff] at h1
  obtain ⟨x, h3, rfl⟩ := h1
  simpa [GTree.ends, h3] using this

private theorem node_reads (hs : SortsByRank sort) {t : Term} {ps : List (Str × Ast)} {b : Branch} {ss : List Str} (hg : Groups t ps b) (h : ReadsAs quote sort ps ss) (hr : Rising ss)
    (hne : ss ≠ []) {name : Str} (hv : ∀ p ∈ ps, ¬ Numbered p.1 ∧ p.2.Viewable true) (hn : ¬ Numbered name) (ht : isTagName name = false) :
    ReadsAs quote sort [(name, .branch b)] ss := by
  obtain ⟨u, h1, h2, _⟩ := fromAst_good (quote := quote) (skip := true) hs _ name (hg.viewable hv)
  have := ReadsAs.shown ht h1 (h2 hn) .nil
  rw [groups_reads hs hg h hr hne h1] at this
  simpa using this

private theorem leaves_ne {G : Grammar} {t v ps} (hF : G.Fills) (h : PartsOf G t v ps) (ht : t.Deep Term.NamesFill) (hf : t.Fills) : v.leaves.map S ≠ [] := by
  intro e
  have e2 : v.leaves = [] := by simpa using e
  have := h.leaves
  rw [e2] at this
  exact (h.full hF ht).2 hf this.eq_nil

/-- What is asked of the terms. -/
private def Shown (t : Term) : Prop := t.Deep Term.UnnumberedName ∧ t.Deep Term.NamesFill ∧ t.Deep Term.PlainName
private def ShownList (ts : List Term) : Prop := deepList Term.UnnumberedName ts ∧ deepList Term.NamesFill ts ∧ deepList Term.PlainName ts

mutual
private theorem of_reads {G : Grammar} (hs : SortsByRank sort) (hN : G.Deep Term.UnnumberedName) (hF : G.Fills) (hP : G.Deep Term.PlainName) {t v ps} :
    PartsOf G t v ps → Shown t → (∀ s ∈ v.leaves, T s) → Rising (v.leaves.map S) → ReadsAs quote sort ps (v.leaves.map S)
  | .lit, _, hl, _ => leaf_reads hs (hl _ (by simp [Tree.leaves])) (by decide) (by decide)
  | .regexp, _, hl, _ => leaf_reads hs (hl _ (by simp [Tree.leaves])) (by decide) (by decide)
  | .rule hk h hg, ht, hl, hr => by
    have hm := lookup_mem hk
    have d1 := deepDefs_iff.1 hN _ _ hm
    have d2 := deepDefs_iff.1 hF.1 _ _ hm
    have d3 := deepDefs_iff.1 hP _ _ hm
    exact node_reads hs hg (of_reads hs hN hF hP h ⟨d1, d2, d3⟩ hl hr) hr (leaves_ne hF h d2 (hF.2 _ _ hm)) (h.viewable hN d1 hl) ht.1 ht.2.2
  | .named h hg, ht, hl, hr => 
    node_reads hs hg (of_reads hs hN hF hP h ⟨ht.1.2, ht.2.1.2, ht.2.2.2⟩ hl hr) hr (leaves_ne hF h ht.2.1.2 ht.2.1.1) (h.viewable hN ht.1.2 hl) ht.1.1 ht.2.2.1
  | .cut h, ht, hl, hr => of_reads hs hN hF hP h ⟨ht.1.2, ht.2.1.2, ht.2.2.2⟩ hl hr
  | .scope h, ht, hl, hr => of_reads hs hN hF hP h ⟨ht.1.2.1, ht.2.1.2.1, ht.2.2.2.1⟩ hl hr
  | .look (tag := tag) (v := v) h, ht, hl, hr => by
    have e : v.leaves = (Tree.node tag .nil [v]).leaves := by simp [Tree.leaves, leavesList]
    rw [← e] at hl hr ⊢
    exact of_reads hs hN hF hP h ⟨ht.1.2, ht.2.1.2, ht.2.2.2⟩ hl hr
  | .seq h, ht, hl, hr => seq_reads hs hN hF hP h ⟨ht.1.2, ht.2.1.2, ht.2.2.2⟩ hl hr
  | .oneof (tag := tag) (v := v) (i := i) hk h, ht, hl, hr => by
    have hm := List.mem_of_getElem? hk
    have e : v.leaves = (Tree.node tag (.choice i) [v]).leaves := by simp [Tree.leaves, leavesList]
    rw [← e] at hl hr ⊢
    exact .hidden (by decide +kernel) (of_reads hs hN hF hP h ⟨deepList_iff.1 ht.1.2 _ hm, deepList_iff.1 ht.2.1.2 _ hm, deepList_iff.1 ht.2.2.2 _ hm⟩ hl hr)
  | .quant _ h, ht, hl, hr => reps_reads hs hN hF hP h ⟨ht.1.2, ht.2.1.2, ht.2.2.2⟩ hl hr
  | .delim h h', ht, hl, hr => by
    simp only [Tree.leaves, leavesList, List.map_append] at hl hr ⊢
    exact (of_reads hs hN hF hP h ⟨ht.1.2.1, ht.2.1.2.1, ht.2.2.2.1⟩ (fun s hx => hl s (by simp [hx])) (rising_left hr)).append
      (list_reads hs hN hF hP h' ⟨ht.1.2.1, ht.2.1.2.1, ht.2.2.2.1⟩ ⟨ht.1.2.2, ht.2.1.2.2, ht.2.2.2.2⟩ (fun s hx => hl s (by simp [hx])) (rising_right hr))
  | .delimLead (tag := tag) (s := s) (v := v) (vs := vs) _ h, ht, hl, hr => by
    have e : (Tree.node tag (.assoc 0) (.empty :: s :: v :: vs)).leaves = leavesList (s :: v :: vs) := by simp [Tree.leaves, leavesList]
    rw [e] at hl hr ⊢
    exact .hidden (by decide +kernel) (list_reads hs hN hF hP h ⟨ht.1.2.1, ht.2.1.2.1, ht.2.2.2.1⟩ ⟨ht.1.2.2, ht.2.1.2.2, ht.2.2.2.2⟩ hl hr)
  | .refLeaf, ht, _, _ => ht.2.1.elim
  | .refNode _ _, ht, _, _ => ht.2.1.elim
private theorem seq_reads {G : Grammar} (hs : SortsByRank sort) (hN : G.Deep Term.UnnumberedName) (hF : G.Fills) (hP : G.Deep Term.PlainName) {ts vs ps} :
    PartsSeq G ts vs ps → ShownList ts → (∀ s ∈ leavesList vs, T s) → Rising ((leavesList vs).map S) → ReadsAs quote sort ps ((leavesList vs).map S)
  | .nil, _, _, _ => .nil
  | .cons h h', ht, hl, hr => by
    simp only [leavesList, List.map_append] at hl hr ⊢
    exact (of_reads hs hN hF hP h ⟨ht.1.1, ht.2.1.1, ht.2.2.1⟩ (fun s hx => hl s (by simp [hx])) (rising_left hr)).append
      (seq_reads hs hN hF hP h' ⟨ht.1.2, ht.2.1.2, ht.2.2.2⟩ (fun s hx => hl s (by simp [hx])) (rising_right hr))
private theorem reps_reads {G : Grammar} (hs : SortsByRank sort) (hN : G.Deep Term.UnnumberedName) (hF : G.Fills) (hP : G.Deep Term.PlainName) {t vs ps} :
    PartsReps G t vs ps → Shown t → (∀ s ∈ leavesList vs, T s) → Rising ((leavesList vs).map S) → ReadsAs quote sort ps ((leavesList vs).map S)
  | .nil, _, _, _ => .nil
  | .cons h h', ht, hl, hr => by
    simp only [leavesList, List.map_append] at hl hr ⊢
    exact (of_reads hs hN hF hP h ht (fun s hx => hl s (by simp [hx])) (rising_left hr)).append
      (reps_reads hs hN hF hP h' ht (fun s hx => hl s (by simp [hx])) (rising_right hr))
private theorem list_reads {G : Grammar} (hs : SortsByRank sort) (hN : G.Deep Term.UnnumberedName) (hF : G.Fills) (hP : G.Deep Term.PlainName) {t sep vs ps} :
    PartsList G t sep vs ps → Shown t → Shown sep → (∀ s ∈ leavesList vs, T s) → Rising ((leavesList vs).map S) → ReadsAs quote sort ps ((leavesList vs).map S)
  | .nil, _, _, _, _ => .nil
  | .cons h h' h'', ht, hp, hl, hr => by
    simp only [leavesList, List.map_append, ← List.append_assoc] at hl hr ⊢
    exact ((of_reads hs hN hF hP h hp (fun s hx => hl s (by simp [hx])) (rising_left (rising_left hr))).append
      (of_reads hs hN hF hP h' ht (fun s hx => hl s (by simp [hx])) (rising_right (rising_left hr)))).append
      (list_reads hs hN hF hP h'' ht hp (fun s hx => hl s (by simp [hx])) (rising_right hr))
  | .trail h, _, hp, hl, hr => by
    have e : ∀ s : Tree, leavesList [s, .empty] = s.leaves := fun s => by simp [leavesList, Tree.leaves]
    rw [e] at hl hr ⊢
    have := (of_reads hs hN hF hP h hp hl hr).append (ReadsAs.hidden (name := emptyTag) (a := .extra (.text (str "@suffix"))) (by decide +kernel) .nil)
    simpa using this
end
end

/-- **C64** The view of the AST of a parse, read from the top to the bottom, shows the leaves of the parse, from left to right. Partial: for the grammars of
`C35_parse_partial` without lookaheads; leaves are not empty. -/
theorem C64_reads_partial (hE : E.Sane) (hg : g.wf = true) (hc : g.compile E m = .ok ps) (hG : ps.grammar.ConvertibleIn G)
    (hN : G.Deep Term.UnnumberedName) (hrn : ¬ Numbered r) (hP : G.Deep Term.PlainName) (hF : G.Fills) (hesc : X.esc = none)
    (hin : inp.InRange) (hlen : inp.start + inp.len < 2 ^ 63) (hl : NoLook [ps.grammar] (.rule r)) (hx : NoExt [ps.grammar] (.rule r))
    (hp : PatternsSatisfy (ReportsGroup E) [ps.grammar] (.rule r)) {x cs}
    (h : ps.run E X ρ n r inp = .ok (.node r x cs) rest k) (hs : SortsByRank sort) (hne : ∀ s ∈ (Tree.node r x cs).leaves, 0 < s.len) :
    ∃ b g' N t, (∀ n, N ≤ n → fromParserNode n ps.grammar (.node r x cs) = .ok (g', b)) ∧ fromAst quote sort true name (.branch b) = some t ∧
      t.ends.map some = (Tree.node r x cs).leaves.map (leafString quote) := by
  obtain ⟨u, parts, b, g', N, hk, h1, h2, _, h3⟩ := C31_groups_partial hg hc hG hesc h
  have hm := lookup_mem (hG.sub _ _ hk)
  have hi := C02_leaves_inside hE hg hc hesc hin hx hp h
  have ho := (C02_leaves_in_order hE hg hc hesc hin hl hx hp h).1
  have hT : ∀ s ∈ (Tree.node r x cs).leaves, (∃ x, s.toStr = some x) ∧ s.start < 2 ^ 63 := fun s hm => ⟨toStr_of_inside hin (hi s hm), by have := hi s hm; omega⟩
  have h0 : 0 ≤ inp.start := by obtain ⟨src, _, h1, _⟩ := hin; exact h1
  have hp : ∀ s ∈ (Tree.node r x cs).leaves, placeOf ((leafString quote s).getD []) = if 0 < s.start then s.start else -1 := by
    intro s hs
    obtain ⟨y, hy⟩ := (hT s hs).1
    have : ∃ t, leafString quote s = some t := by simp [leafString, hy]
    obtain ⟨t, ht⟩ := this
    rw [ht, Option.getD_some]
    exact (place_iff.1 (leaf_place ht)).symm
  have hr : Rising ((Tree.node r x cs).leaves.map fun s => (leafString quote s).getD []) := by
    generalize (Tree.node r x cs).leaves = L at hne hp ho
    have key : ∀ {L : List Scanner} {lo hi}, 0 ≤ lo → InOrder lo hi L → (∀ s ∈ L, 0 < s.len) → L.Pairwise (fun s t => s.start < t.start ∧ 0 ≤ s.start) ∧ ∀ s ∈ L, lo ≤ s.start := by
      intro L
      induction L with
      | nil => intro lo hi _ _ _; exact ⟨.nil, by simp⟩
      | cons s L ih =>
        intro lo hi h0 ho hn
        obtain ⟨o1, o2, o3⟩ := ho
        have hs := hn s (by simp)
        obtain ⟨i1, i2⟩ := ih (by omega) o3 fun s hs => hn s (by simp [hs])
        refine ⟨.cons (fun t ht => ?_) i1, ?_⟩
        · have := i2 t ht; omega
        · simp only [List.forall_mem_cons]
          exact ⟨o1, fun t ht => by have := i2 t ht; omega⟩
    have hk := (key h0 ho hne).1
    unfold Rising
    rw [List.pairwise_map]
    refine hk.imp_of_mem fun {s t} hs ht hst => ?_
    rw [hp s hs, hp t ht]
    split <;> split <;> omega
  have hd : Shown u := ⟨deepDefs_iff.1 hN _ _ hm, deepDefs_iff.1 hF.1 _ _ hm, deepDefs_iff.1 hP _ _ hm⟩
  have hreads := ReadsAs.hidden (quote := quote) (sort := sort) (name := ruleTag) (a := .extra (.rule r)) (by decide +kernel) (of_reads hs hN hF hP h1 hd hT hr)
  have hv : (Ast.branch b).Viewable true := h2.viewable (by
    simp only [List.forall_mem_cons]
    exact ⟨⟨by decide +kernel, hrn⟩, h1.viewable hN hd.1 hT⟩)
  obtain ⟨t, h4, _, _⟩ := fromAst_good (quote := quote) hs _ name hv
  refine ⟨b, g', N, t, h3, h4, ?_⟩
  rw [groups_reads hs h2 hreads hr (leaves_ne hF h1 hd.2.1 (hF.2 _ _ hm)) h4, List.map_map]
  refine List.map_congr_left fun s hm => ?_
  obtain ⟨y, hy⟩ := (hT s hm).1
  simp [leafString, hy]

end Wbnf

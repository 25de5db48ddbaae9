import Verif.Lemmas.TreeView

/-!
# Lemmas on tree views: one view for one AST
-/

namespace Wbnf

variable {quote : Str → Str} {sort sort' : List GTree → List GTree} {skip : Bool}

theorem apart_iff {ss : List Str} : Apart ss ↔ (ss.map placeOf).Nodup := by
  unfold Apart List.Nodup
  rw [List.pairwise_map]
  constructor
  · exact fun h => h.imp fun h => h _ _ (place_placeOf _) (place_placeOf _)
  · exact fun h => h.imp fun h j k hj hk => by rw [hj.eq, hk.eq]; exact h

theorem Apart.perm {ss ts : List Str} (h : ss.Perm ts) (ha : Apart ss) : Apart ts := apart_iff.2 ((h.map placeOf).nodup_iff.1 (apart_iff.1 ha))

theorem perm_sorted_eq {α : Type} {R : α → α → Prop} : ∀ {xs ys : List α}, xs.Perm ys → (∀ x ∈ xs, ∀ y ∈ xs, R x y → R y x → x = y) → xs.Pairwise R → ys.Pairwise R → xs = ys
  | [], ys, h, _, _, _ => (List.nil_perm.1 h).symm ▸ rfl
  | x :: xs, [], h, _, _, _ => absurd h.length_eq (by simp)
  | x :: xs, y :: ys, h, ha, hx, hy => by
    have e : x = y := by
      have h1 : x ∈ y :: ys := h.mem_iff.1 (by simp)
      have h2 : y ∈ x :: xs := h.mem_iff.2 (by simp)
      rcases List.mem_cons.1 h1 with e | h1
      · exact e
      · rcases List.mem_cons.1 h2 with e | h2
        · exact e.symm
        · exact ha x (by simp) y (by simp [h2]) ((List.pairwise_cons.1 hx).1 y h2) ((List.pairwise_cons.1 hy).1 x h1)
    subst e
    rw [perm_sorted_eq ((List.perm_cons x).1 h) (fun x hx y hy => ha x (by simp [hx]) y (by simp [hy])) (List.pairwise_cons.1 hx).2 (List.pairwise_cons.1 hy).2]

theorem apart_members : ∀ {ts : List GTree}, Apart (endsAll ts) → ∀ t ∈ ts, ∀ u ∈ ts, (∃ s ∈ t.ends, ∃ s' ∈ u.ends, placeOf s = placeOf s') → t = u
  | [], _, t, ht, _, _, _ => by simp at ht
  | v :: ts, ha, t, ht, u, hu, ⟨s, hs, s', hs', e⟩ => by
    rw [apart_iff] at ha
    simp only [endsAll, List.map_append, List.nodup_append] at ha
    obtain ⟨_, h2, h3⟩ := ha
    have hm : ∀ {w : GTree} {x : Str}, w ∈ ts → x ∈ w.ends → placeOf x ∈ (endsAll ts).map placeOf := by
      intro w x hw hx
      rw [endsAll_eq]
      exact List.mem_map_of_mem (List.mem_flatMap.2 ⟨w, hw, hx⟩)
    rcases List.mem_cons.1 ht with e1 | ht' <;> rcases List.mem_cons.1 hu with e2 | hu'
    · rw [e1, e2]
    · rw [e1] at hs
      exact absurd e (h3 _ (List.mem_map_of_mem hs) _ (hm hu' hs'))
    · rw [e2] at hs'
      exact absurd e.symm (h3 _ (List.mem_map_of_mem hs') _ (hm ht' hs))
    · exact apart_members (apart_iff.2 h2) t ht' u hu' ⟨s, hs, s', hs', e⟩

theorem sort_same (hs : SortsByRank sort) (hs' : SortsByRank sort') {ts us : List GTree} (h : ts.Perm us) (h1 : ∀ t ∈ ts, t.Sound) (ha : Apart (endsAll ts)) : sort ts = sort' us := by
  have h1' : ∀ t ∈ us, t.Sound := fun t ht => h1 t (h.mem_iff.2 ht)
  have hr : ∀ {t : GTree}, t.Sound → t.rank ≠ none := fun ht => by
    obtain ⟨k, e, _⟩ := rank_first _ ht
    rw [e]; simp
  obtain ⟨p1, q1⟩ := hs ts
  obtain ⟨p2, q2⟩ := hs' us
  refine perm_sorted_eq ((p1.trans h).trans p2.symm) ?_ (q1 fun t ht => hr (h1 t ht)) (q2 fun t ht => hr (h1' t ht))
  intro t ht u hu l1 l2
  have mt := p1.mem_iff.1 ht
  have mu := p1.mem_iff.1 hu
  obtain ⟨j, e1, f1, _⟩ := rank_first t (h1 t mt)
  obtain ⟨k, e2, f2, _⟩ := rank_first u (h1 u mu)
  rw [e1, e2] at l1 l2
  simp only [Option.getD_some] at l1 l2
  obtain ⟨⟨s, m1, g1⟩, _⟩ := first_iff.1 f1
  obtain ⟨⟨s', m2, g2⟩, _⟩ := first_iff.1 f2
  exact apart_members ha t mt u mu ⟨s, m1, s', m2, by omega⟩

theorem collapse_same (hs : SortsByRank sort) (hs' : SortsByRank sort') {name : Str} {ts us : List GTree} (h : ts.Perm us) (h1 : ∀ t ∈ ts, t.Sound) (h2 : ∀ t ∈ ts, t.Ordered)
    (ha : Apart (endsAll ts)) : ∃ t, collapseTree sort name ts = some t ∧ collapseTree sort' name us = some t := by
  obtain ⟨t, e1, _⟩ := collapse_good hs (name := name) h1 h2
  obtain ⟨u, e2, _⟩ := collapse_good hs' (name := name) (fun t ht => h1 t (h.mem_iff.2 ht)) (fun t ht => h2 t (h.mem_iff.2 ht))
  refine ⟨t, e1, ?_⟩
  rw [e2]
  rcases collapseTree_cases e1 with ⟨text, i, rfl, rfl⟩ | ⟨hn, rfl⟩
  · rw [← List.singleton_perm.1 h] at e2
    rw [← e2]; rfl
  · rcases collapseTree_cases e2 with ⟨text, i, rfl, rfl⟩ | ⟨_, rfl⟩
    · exact absurd (List.perm_singleton.1 h) (hn text i)
    · rw [sort_same hs hs' h h1 ha]

theorem viewableBranch_iff {b : List (Str × Kids)} : viewableBranch skip b ↔ ∀ e ∈ b, Hidden skip e.1 ∨ (¬ Numbered e.1 ∧ e.2.Viewable skip) := by
  induction b with
  | nil => simp [viewableBranch]
  | cons e b ih => simp [viewableBranch, ih]

theorem branchEnds_perm {b b' : List (Str × Kids)} (h : b.Perm b') : (branchEnds quote skip b).Perm (branchEnds quote skip b') := by
  have e : ∀ b, branchEnds quote skip b = b.flatMap fun e => if Hidden skip e.1 then [] else e.2.ends quote skip e.1 := by
    intro b
    induction b with
    | nil => rfl
    | cons e b ih => simp [branchEnds, ih]
  rw [e, e]
  exact h.flatMap_right _

theorem branchItems_perm {b b' : List (Str × Kids)} (h : b.Perm b') : ∀ {ts}, branchItems quote sort skip b = some ts → ∃ us, branchItems quote sort skip b' = some us ∧ ts.Perm us := by
  have cons : ∀ {name c b us}, branchItems quote sort skip b = some us → (Hidden skip name → branchItems quote sort skip ((name, c) :: b) = some us) ∧
      (¬ Hidden skip name → ∀ ks, kidsItems quote sort skip name c = some ks → branchItems quote sort skip ((name, c) :: b) = some (ks ++ us)) := by
    intro name c b us h
    refine ⟨fun hh => ?_, fun hh ks hk => ?_⟩
    · simp only [branchItems]; rw [if_pos (hidden_iff.2 hh), h]
    · simp only [branchItems]; rw [if_neg (fun g => hh (hidden_iff.1 g)), hk, h]
  induction h with
  | nil => intro ts h; exact ⟨ts, h, .refl _⟩
  | cons e _ ih =>
    intro ts h
    rcases branchItems_cons h with ⟨h1, h2⟩ | ⟨h1, us, vs, h2, h3, rfl⟩
    · obtain ⟨us, h3, h4⟩ := ih h2
      exact ⟨us, (cons h3).1 h1, h4⟩
    · obtain ⟨ws, h4, h5⟩ := ih h3
      exact ⟨us ++ ws, (cons h4).2 h1 _ h2, h5.append_left us⟩
  | swap e e' b =>
    intro ts h
    rcases branchItems_cons h with ⟨h1, h2⟩ | ⟨h1, us, vs, h2, h3, rfl⟩
    · rcases branchItems_cons h2 with ⟨h3, h4⟩ | ⟨h3, us', vs', h4, h5, rfl⟩
      · exact ⟨_, (cons ((cons h4).1 h1)).1 h3, .refl _⟩
      · exact ⟨_, (cons ((cons h5).1 h1)).2 h3 _ h4, .refl _⟩
    · rcases branchItems_cons h3 with ⟨h4, h5⟩ | ⟨h4, us', vs', h5, h6, rfl⟩
      · exact ⟨_, (cons ((cons h5).2 h1 _ h2)).1 h4, .refl _⟩
      · refine ⟨_, (cons ((cons h6).2 h1 _ h2)).2 h4 _ h5, ?_⟩
        rw [← List.append_assoc, ← List.append_assoc]
        exact List.perm_append_comm.append_right _
  | trans _ _ ih1 ih2 =>
    intro ts h
    obtain ⟨us, h1, h2⟩ := ih1 h
    obtain ⟨vs, h3, h4⟩ := ih2 h1
    exact ⟨vs, h3, h2.trans h4⟩

theorem Apart.left {ss ts : List Str} (h : Apart (ss ++ ts)) : Apart ss := (List.pairwise_append.1 h).1
theorem Apart.right {ss ts : List Str} (h : Apart (ss ++ ts)) : Apart ts := (List.pairwise_append.1 h).2.1

mutual
theorem fromAst_same (hs : SortsByRank sort) (hs' : SortsByRank sort') : ∀ {a a' : Ast}, Alike a a' → ∀ name : Str, a.Viewable skip → Apart (a.ends quote skip name) →
    ∃ t, fromAst quote sort skip name a = some t ∧ fromAst quote sort' skip name a' = some t
  | _, _, .leaf (s := s) (s' := s') h1 h2, name, hv, _ => by
    obtain ⟨⟨x, h3⟩, _⟩ := hv
    have : ∃ t, leafString quote s = some t := by simp [leafString, h3]
    obtain ⟨t, ht⟩ := this
    have ht' : leafString quote s' = some t := by rw [← ht]; simp only [leafString, h1, h2]
    exact ⟨.mk t [], by simp [fromAst, ht], by simp [fromAst, ht']⟩
  | _, _, .extra h, name, _, _ => ⟨_, rfl, by simp only [fromAst, h]⟩
  | _, _, .branch (b := b) (c := c) (b' := b') (c' := c') h1 h2 h3, name, hv, ha => by
    have ha' : Apart (branchEnds quote skip b) := by
      simp only [Ast.ends] at ha
      split at ha
      · rename_i e; rw [e]; exact List.Pairwise.nil
      · exact ha
    have hv' : viewableBranch skip b := hv
    have hvc : viewableBranch skip c := viewableBranch_iff.2 fun e he => viewableBranch_iff.1 hv' e (h1.mem_iff.2 he)
    obtain ⟨ts, e1, e2⟩ := entries_same hs hs' h2 hvc (ha'.perm (branchEnds_perm h1))
    obtain ⟨ts1, e3, p1⟩ := branchItems_perm h1.symm e1
    obtain ⟨us1, e4, p2⟩ := branchItems_perm h3 e2
    obtain ⟨ts2, e5, g1, g2⟩ := branchItems_good (quote := quote) hs b hv'
    rw [e3] at e5
    cases e5
    have hp : (endsAll ts1).Perm (branchEnds quote skip b) := branchItems_ends (fun items => (hs items).1) b ts1 e3
    obtain ⟨t, e6, e7⟩ := collapse_same hs hs' (name := name) (p1.symm.trans p2) g1 g2 (ha'.perm hp.symm)
    exact ⟨t, by simp [fromAst, e3, e6], by simp [fromAst, e4, e7]⟩
theorem kids_same (hs : SortsByRank sort) (hs' : SortsByRank sort') : ∀ {c c' : Kids}, AlikeKids c c' → ∀ name : Str, c.Viewable skip → Apart (c.ends quote skip name) →
    ∃ ts, kidsItems quote sort skip name c = some ts ∧ kidsItems quote sort' skip name c' = some ts
  | _, _, .one h, name, hv, ha => by
    obtain ⟨t, h1, h2⟩ := fromAst_same hs hs' h name hv ha
    exact ⟨[t], by simp [kidsItems, h1], by simp [kidsItems, h2]⟩
  | _, _, .many h, name, hv, ha => by
    obtain ⟨ts, h1, h2⟩ := all_same hs hs' h name hv ha
    exact ⟨ts, by simp [kidsItems, h1], by simp [kidsItems, h2]⟩
theorem all_same (hs : SortsByRank sort) (hs' : SortsByRank sort') : ∀ {ns ns' : List Ast}, AlikeAll ns ns' → ∀ name : Str, viewableAll skip ns → Apart (manyEnds quote skip name ns) →
    ∃ ts, manyItems quote sort skip name ns = some ts ∧ manyItems quote sort' skip name ns' = some ts
  | _, _, .nil, _, _, _ => ⟨[], rfl, rfl⟩
  | _, _, .cons h h', name, hv, ha => by
    obtain ⟨t, h1, h2⟩ := fromAst_same hs hs' h name hv.1 (Apart.left ha)
    obtain ⟨ts, h3, h4⟩ := all_same hs hs' h' name hv.2 (Apart.right ha)
    exact ⟨t :: ts, by simp [manyItems, h1, h3], by simp [manyItems, h2, h4]⟩
theorem entries_same (hs : SortsByRank sort) (hs' : SortsByRank sort') : ∀ {b b' : List (Str × Kids)}, AlikeEntries b b' → viewableBranch skip b → Apart (branchEnds quote skip b) →
    ∃ ts, branchItems quote sort skip b = some ts ∧ branchItems quote sort' skip b' = some ts
  | _, _, .nil, _, _ => ⟨[], rfl, rfl⟩
  | _, _, .cons (name := name) h h', hv, ha => by
    obtain ⟨ts, h3, h4⟩ := entries_same hs hs' h' hv.2 (Apart.right ha)
    by_cases hh : Hidden skip name
    · exact ⟨ts, by simp [branchItems, hidden_iff.2 hh, h3], by simp [branchItems, hidden_iff.2 hh, h4]⟩
    · have ha' := Apart.left ha
      rw [if_neg hh] at ha'
      obtain ⟨us, h1, h2⟩ := kids_same hs hs' h name (hv.1.resolve_left hh).2 ha'
      refine ⟨us ++ ts, ?_, ?_⟩
      · simp only [branchItems]; rw [if_neg (fun g => hh (hidden_iff.1 g)), h1, h3]
      · simp only [branchItems]; rw [if_neg (fun g => hh (hidden_iff.1 g)), h2, h4]
end

end Wbnf

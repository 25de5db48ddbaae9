import Verif.Lemmas.Scope

/-! Agreeing grammars, and a grammar in braces moved out of them. -/

namespace Wbnf

variable {E : Engine} {X : Externals}

theorem compile_compilable {g : Grammar} {m ps} (h : g.compile E m = .ok ps) :
    g.resolveStacks = some ps.grammar ∧ ∀ e ∈ ps.grammar, ∃ t', StandsFor ps.grammar e.2 t' ∧
      Compilable E (lookup wrapRE ps.grammar) t' := by
  unfold Grammar.compile at h
  simp only [Except.bind_ok] at h
  obtain ⟨g1, hg1, f, hf, h⟩ := h
  cases h
  refine ⟨prepare_ok.1 hg1, fun e he => ?_⟩
  obtain ⟨t', p, h1, h2⟩ := compileRules_inv hf e he
  exact ⟨t', followAlias_stands h1, comp_compilable h2⟩

theorem resolves_top {G : Grammar} {r Γ t} (h : Resolves [G] r Γ t) : Γ = [G] ∧ Defines G r t := by
  cases h with
  | here hd => exact ⟨rfl, hd⟩
  | outer _ h => cases h

/-! ## Agreement -/

/-- Two grammars that have the same definitions for the names in `N`. -/
def AgreeOn (G G' : Grammar) (N : Str → Prop) : ScopeRel := fun B B' M =>
  M = N ∧ ((B = [G] ∧ B' = [G']) ∨ (B = [G'] ∧ B' = [G]))

theorem defines_agree {G G' : Grammar} {N : Str → Prop} (h : ∀ x, N x → lookup x G = lookup x G')
    (hcl : ∀ x t, N x → lookup x G = some t → ∀ y, t.Uses y → N y) {r t} (hd : Defines G r t) (hr : N r) :
    Defines G' r t ∧ ∀ y, t.Uses y → N y := by
  induction hd with
  | here hl hn => exact ⟨.here (by rw [← h _ hr]; exact hl) hn, hcl _ _ hr hl⟩
  | «alias» hl _ ih =>
    obtain ⟨h1, h2⟩ := ih (hcl _ _ hr hl _ rfl)
    exact ⟨.alias (by rw [← h _ hr]; exact hl) h1, h2⟩

theorem matched_agree {G G' : Grammar} {N : Str → Prop} (h : ∀ x, N x → lookup x G = lookup x G')
    (hcl : ∀ x t, N x → lookup x G = some t → ∀ y, t.Uses y → N y) (hw : N wrapRE) : Matched (AgreeOn G G' N) where
  symm := by
    rintro B B' M ⟨rfl, hs⟩
    exact ⟨rfl, hs.symm.imp And.symm And.symm⟩
  wrap := by
    rintro B B' M ⟨rfl, ⟨rfl, rfl⟩ | ⟨rfl, rfl⟩⟩
    · exact ⟨h _ hw, fun w hl => hcl _ w hw hl⟩
    · exact ⟨(h _ hw).symm, fun w hl => hcl _ w hw (by rw [h _ hw]; exact hl)⟩
  res := by
    rintro B B' M r Γ t ⟨rfl, ⟨rfl, rfl⟩ | ⟨rfl, rfl⟩⟩ hr hd
    · obtain ⟨rfl, hdef⟩ := resolves_top hd
      obtain ⟨h1, h2⟩ := defines_agree h hcl hdef hr
      exact ⟨_, _, .here h1, .of ⟨rfl, [], [G], [G'], M, ⟨rfl, Or.inl ⟨rfl, rfl⟩⟩, rfl, rfl, trivial, fun y hy => Or.inr (h2 y hy)⟩⟩
    · obtain ⟨rfl, hdef⟩ := resolves_top hd
      obtain ⟨h1, h2⟩ := defines_agree (fun x hx => (h x hx).symm) (fun x t hx hl => hcl x t hx (by rw [h x hx]; exact hl)) hdef hr
      exact ⟨_, _, .here h1, .of ⟨rfl, [], [G'], [G], M, ⟨rfl, Or.inr ⟨rfl, rfl⟩⟩, rfl, rfl, trivial, fun y hy => Or.inr (h2 y hy)⟩⟩

/-! ## Moving a grammar out of its braces -/

theorem Layered.has {g : Grammar} {k t} (h : Layered g k t) : g.Has k := by
  cases h with
  | plain hm _ => exact Or.inl ⟨_, hm⟩
  | layer hm hL =>
    refine Or.inr ⟨_, _, _, hm, ?_, rfl⟩
    rw [List.getElem?_eq_some_iff] at hL
    exact hL.1

theorem Layered.uses {g : Grammar} (hf : ∀ r ls, (r, .stack ls) ∈ g → flatList ls = true) {k t x} (h : Layered g k t)
    (hu : t.Uses x) : g.Has x ∨ usesDefs x g := by
  cases h with
  | plain hm _ => exact Or.inr (usesDefs_iff.2 ⟨_, _, hm, hu⟩)
  | @layer r ls i L hm hL =>
    have hi : i < ls.length := (List.getElem?_eq_some_iff.1 hL).1
    have hLm := List.mem_of_getElem? hL
    rcases uses_layer L (flatList_iff.1 (hf _ _ hm) L hLm) hu with rfl | ⟨h, h'⟩
    · exact Or.inl (Or.inr ⟨r, ls, _, hm, by split <;> omega, rfl⟩)
    · exact Or.inr (usesDefs_iff.2 ⟨_, _, hm, h', usesList_iff.2 ⟨L, hLm, h⟩⟩)

theorem layered_append {a b : Grammar} {k t} : Layered (a ++ b) k t ↔ Layered a k t ∨ Layered b k t := by
  constructor
  · intro h
    cases h with
    | plain hm hn =>
      rcases List.mem_append.1 hm with hm | hm
      · exact Or.inl (.plain hm hn)
      · exact Or.inr (.plain hm hn)
    | layer hm hL =>
      rcases List.mem_append.1 hm with hm | hm
      · exact Or.inl (.layer hm hL)
      · exact Or.inr (.layer hm hL)
  · rintro (h | h)
    · cases h with
      | plain hm hn => exact .plain (by simp [hm]) hn
      | layer hm hL => exact .layer (by simp [hm]) hL
    · cases h with
      | plain hm hn => exact .plain (by simp [hm]) hn
      | layer hm hL => exact .layer (by simp [hm]) hL

theorem layered_one {r : Str} {t : Term} (ht : ∀ ls, t ≠ .stack ls) {k u} : Layered [(r, t)] k u ↔ k = r ∧ u = t := by
  constructor
  · intro h
    cases h with
    | plain hm hn => simp at hm; exact hm
    | layer hm hL => simp at hm; exact absurd hm.2.symm (ht _)
  · rintro ⟨rfl, rfl⟩
    exact .plain (by simp) fun _ _ => ht _

theorem fresh_mono {a b : Grammar} (h : b.LayersFresh) (hs : ∀ e ∈ a, e ∈ b) : a.LayersFresh :=
  fun r ls i t h1 h2 h3 h4 => h r ls i t (hs _ h1) h2 h3 (hs _ h4)

section
variable {r : Str} {t : Term} {h rest G0 G1 h1 h2 : Grammar}

structure Lifting (r : Str) (t : Term) (h rest G0 G1 h2 : Grammar) : Prop where
  res0 : Grammar.resolveStacks ((r, .scope t h) :: rest) = some G0
  res1 : Grammar.resolveStacks ((r, t) :: (h ++ rest)) = some G1
  resh : Grammar.resolveStacks h = some h2
  comp : ∀ e ∈ inheritWrap (lookup wrapRE G0) h2, ∃ t', StandsFor (inheritWrap (lookup wrapRE G0) h2) e.2 t'

theorem Liftable.lookup0 (L : Liftable r t h rest) (l : Lifting r t h rest G0 G1 h2) {k u} :
    lookup k G0 = some u ↔ (k = r ∧ u = .scope t h) ∨ Layered rest k u := by
  have hd : Grammar.Distinct ((r, .scope t h) :: rest) := by
    have := L.distinct
    unfold Grammar.Distinct at this ⊢
    simp only [List.map_cons, List.map_append, List.nodup_cons, List.nodup_append, List.mem_append, not_or] at this ⊢
    exact ⟨this.1.2, this.2.2.1⟩
  have hf : Grammar.LayersFresh ((r, .scope t h) :: rest) := by
    intro r' ls i t' hm hi hl ht'
    rcases List.mem_cons.1 hm with e | hm
    · cases e
    · rcases List.mem_cons.1 ht' with e | ht'
      · have e1 : layer r' i = r := (Prod.mk.inj e).1
        exact L.fresh r' ls i t (by simp [hm]) hi hl (by rw [e1]; simp)
      · exact L.fresh r' ls i t' (by simp [hm]) hi hl (by simp [ht'])
  rw [resolveStacks_iff hd hf l.res0, show ((r, Term.scope t h) :: rest) = [(r, .scope t h)] ++ rest from rfl,
    layered_append, layered_one (by simp)]

theorem Liftable.lookup1 (L : Liftable r t h rest) (l : Lifting r t h rest G0 G1 h2) {k u} :
    lookup k G1 = some u ↔ (k = r ∧ u = t) ∨ Layered h k u ∨ Layered rest k u := by
  rw [resolveStacks_iff L.distinct L.fresh l.res1, show ((r, t) :: (h ++ rest)) = [(r, t)] ++ (h ++ rest) from rfl,
    layered_append, layered_append, layered_one L.notStack]

theorem Liftable.lookup2 (L : Liftable r t h rest) (l : Lifting r t h rest G0 G1 h2) {k u} :
    lookup k h2 = some u ↔ Layered h k u := by
  have hd : Grammar.Distinct h := by
    have := L.distinct
    unfold Grammar.Distinct at this ⊢
    simp only [List.map_cons, List.map_append, List.nodup_cons, List.nodup_append, List.mem_append, not_or] at this ⊢
    exact this.2.1
  exact resolveStacks_iff hd (fresh_mono L.fresh (by simp +contextual)) l.resh

theorem has_iff {h h2 : Grammar} (hr : h.resolveStacks = some h2) {k} : lookup k h2 = none ↔ ¬ h.Has k := by
  rw [← (resolveStacks_mem hr).2]
  simp [hasKey]

theorem Liftable.wrap01 (L : Liftable r t h rest) (l : Lifting r t h rest G0 G1 h2) : lookup wrapRE G0 = lookup wrapRE G1 := by
  apply Option.ext
  intro u
  rw [L.lookup0 l, L.lookup1 l]
  constructor
  · rintro (⟨e, _⟩ | e)
    · exact absurd e.symm L.notWrap
    · exact Or.inr (Or.inr e)
  · rintro (⟨e, _⟩ | e | e)
    · exact absurd e.symm L.notWrap
    · exact absurd rfl (L.hidden _ e.has).1
    · exact Or.inr e

theorem Liftable.lookupH (L : Liftable r t h rest) (l : Lifting r t h rest G0 G1 h2) {k} :
    lookup k (inheritWrap (lookup wrapRE G0) h2) = if k = wrapRE then lookup wrapRE G0 else lookup k h2 := by
  have hn : lookup wrapRE h2 = none := (has_iff l.resh).2 fun hh => (L.hidden _ hh).1 rfl
  rw [lookup_inheritWrap]
  simp [hn]

theorem Liftable.sub (L : Liftable r t h rest) (l : Lifting r t h rest G0 G1 h2) {k u}
    (hk : lookup k (inheritWrap (lookup wrapRE G0) h2) = some u) : lookup k G1 = some u := by
  rw [L.lookupH l] at hk
  split at hk
  · rename_i e; subst e; rw [← L.wrap01 l]; exact hk
  · rw [L.lookup2 l] at hk
    exact (L.lookup1 l).2 (Or.inr (Or.inl hk))

theorem Defines.mono {g g' : Grammar} (hs : ∀ k u, lookup k g = some u → lookup k g' = some u) {x u} (hd : Defines g x u) :
    Defines g' x u := by
  induction hd with
  | here hl hn => exact .here (hs _ _ hl) hn
  | «alias» hl _ ih => exact .alias (hs _ _ hl) ih

theorem defines_of_stands {g : Grammar} (hc : ∀ e ∈ g, ∃ t', StandsFor g e.2 t') {k u} (hk : lookup k g = some u) :
    ∃ v, Defines g k v := by
  obtain ⟨v, hv⟩ := hc _ (lookup_mem hk)
  rcases hv with ⟨rfl, hn⟩ | ⟨r', e, hd⟩
  · exact ⟨_, .here hk hn⟩
  · simp only at e
    subst e
    exact ⟨v, .alias hk hd⟩

/-- Inside the braces against the flattened grammar, and outside. -/
def Lifted (h G0 G1 h1 : Grammar) : ScopeRel := fun B B' N =>
  (N = (fun _ => True) ∧ ((B = [h1, G0] ∧ B' = [G1]) ∨ (B = [G1] ∧ B' = [h1, G0]))) ∨
  (N = (fun x => ¬ h.Has x) ∧ ((B = [G0] ∧ B' = [G1]) ∨ (B = [G1] ∧ B' = [G0])))

theorem Liftable.outside (L : Liftable r t h rest) (l : Lifting r t h rest G0 G1 h2) {x u} (hx : ¬ h.Has x)
    (hd : Defines G0 x u) : (Defines G1 x u ∧ ∀ y, u.Uses y → ¬ h.Has y) ∨ (Defines G1 x t ∧ u = .scope t h) := by
  have flat : ∀ r' ls, (r', .stack ls) ∈ rest → flatList ls = true := fun r' ls hm =>
    resolveStacks_flat l.res0 (List.mem_cons_of_mem _ hm)
  have ok : ∀ {k v y}, Layered rest k v → v.Uses y → ¬ h.Has y := by
    intro k v y hl hu hh
    obtain ⟨_, _, h1, h2⟩ := L.hidden y hh
    rcases hl.uses flat hu with h | h
    · exact h1 h
    · exact h2 h
  induction hd with
  | here hl hn =>
    rcases (L.lookup0 l).1 hl with ⟨rfl, rfl⟩ | hl
    · exact Or.inr ⟨.here ((L.lookup1 l).2 (Or.inl ⟨rfl, rfl⟩)) L.notRule, rfl⟩
    · exact Or.inl ⟨.here ((L.lookup1 l).2 (Or.inr (Or.inr hl))) hn, fun y hy => ok hl hy⟩
  | «alias» hl _ ih =>
    rcases (L.lookup0 l).1 hl with ⟨_, e⟩ | hl
    · cases e
    · rcases ih (ok hl rfl) with h | h
      · exact Or.inl ⟨.alias ((L.lookup1 l).2 (Or.inr (Or.inr hl))) h.1, h.2⟩
      · exact Or.inr ⟨.alias ((L.lookup1 l).2 (Or.inr (Or.inr hl))) h.1, h.2⟩

theorem Liftable.outside' (L : Liftable r t h rest) (l : Lifting r t h rest G0 G1 h2) {x u} (hx : ¬ h.Has x)
    (hd : Defines G1 x u) : (Defines G0 x u ∧ ∀ y, u.Uses y → ¬ h.Has y) ∨ (Defines G0 x (.scope t h) ∧ u = t) := by
  have flat : ∀ r' ls, (r', .stack ls) ∈ rest → flatList ls = true := fun r' ls hm =>
    resolveStacks_flat l.res0 (List.mem_cons_of_mem _ hm)
  have ok : ∀ {k v y}, Layered rest k v → v.Uses y → ¬ h.Has y := by
    intro k v y hl hu hh
    obtain ⟨_, _, h1, h2⟩ := L.hidden y hh
    rcases hl.uses flat hu with h | h
    · exact h1 h
    · exact h2 h
  induction hd with
  | here hl hn =>
    rcases (L.lookup1 l).1 hl with ⟨rfl, rfl⟩ | hl | hl
    · exact Or.inr ⟨.here ((L.lookup0 l).2 (Or.inl ⟨rfl, rfl⟩)) (by simp), rfl⟩
    · exact absurd hl.has hx
    · exact Or.inl ⟨.here ((L.lookup0 l).2 (Or.inr hl)) hn, fun y hy => ok hl hy⟩
  | «alias» hl _ ih =>
    rcases (L.lookup1 l).1 hl with ⟨_, e⟩ | hl | hl
    · exact absurd e.symm (L.notRule _)
    · exact absurd hl.has hx
    · rcases ih (ok hl rfl) with h | h
      · exact Or.inl ⟨.alias ((L.lookup0 l).2 (Or.inr hl)) h.1, h.2⟩
      · exact Or.inr ⟨.alias ((L.lookup0 l).2 (Or.inr hl)) h.1, h.2⟩

theorem Liftable.matched (L : Liftable r t h rest) (l : Lifting r t h rest G0 G1 h2) :
    Matched (Lifted h G0 G1 (inheritWrap (lookup wrapRE G0) h2)) := by
  have flat : ∀ r' ls, (r', .stack ls) ∈ rest → flatList ls = true := fun r' ls hm =>
    resolveStacks_flat l.res0 (List.mem_cons_of_mem _ hm)
  have hw0 : ∀ w, lookup wrapRE G0 = some w → ∀ y, w.Uses y → ¬ h.Has y := by
    intro w hw y hy hh
    rcases (L.lookup0 l).1 hw with ⟨e, _⟩ | hl
    · exact absurd e.symm L.notWrap
    · obtain ⟨_, _, h1, h2⟩ := L.hidden y hh
      rcases hl.uses flat hy with h | h
      · exact h1 h
      · exact h2 h
  have hwH : lookup wrapRE (inheritWrap (lookup wrapRE G0) h2) = lookup wrapRE G0 := by rw [L.lookupH l, if_pos rfl]
  have enter : Enters [G0] h (inheritWrap (lookup wrapRE G0) h2) := ⟨h2, l.resh, rfl⟩
  have s1 : Lifted h G0 G1 (inheritWrap (lookup wrapRE G0) h2) [inheritWrap (lookup wrapRE G0) h2, G0] [G1] (fun _ => True) :=
    Or.inl ⟨rfl, Or.inl ⟨rfl, rfl⟩⟩
  have s1' : Lifted h G0 G1 (inheritWrap (lookup wrapRE G0) h2) [G1] [inheritWrap (lookup wrapRE G0) h2, G0] (fun _ => True) :=
    Or.inl ⟨rfl, Or.inr ⟨rfl, rfl⟩⟩
  have s2 : Lifted h G0 G1 (inheritWrap (lookup wrapRE G0) h2) [G0] [G1] (fun x => ¬ h.Has x) :=
    Or.inr ⟨rfl, Or.inl ⟨rfl, rfl⟩⟩
  have s2' : Lifted h G0 G1 (inheritWrap (lookup wrapRE G0) h2) [G1] [G0] (fun x => ¬ h.Has x) :=
    Or.inr ⟨rfl, Or.inr ⟨rfl, rfl⟩⟩
  have hno : ∀ {k}, lookup k (inheritWrap (lookup wrapRE G0) h2) = none → ¬ h.Has k := by
    intro k hk
    rw [L.lookupH l] at hk
    split at hk
    · rename_i e; subst e; exact fun hh => (L.hidden _ hh).1 rfl
    · exact (has_iff l.resh).1 hk
  -- outside, both ways
  have r2 : ∀ {x Γ u}, ¬ h.Has x → Resolves [G0] x Γ u → ∃ Γ' t', Resolves [G1] x Γ' t' ∧
      Peeled (Link (Lifted h G0 G1 (inheritWrap (lookup wrapRE G0) h2))) Γ u Γ' t' := by
    intro x Γ u hx hr
    obtain ⟨rfl, hd⟩ := resolves_top hr
    rcases L.outside l hx hd with ⟨h3, h4⟩ | ⟨h3, rfl⟩
    · exact ⟨_, _, .here h3, .of ⟨rfl, [], _, _, _, s2, rfl, rfl, trivial, fun y hy => Or.inr (h4 y hy)⟩⟩
    · exact ⟨_, _, .here h3, _, _, _, _, .step enter .refl, .refl, rfl, [], _, _, _, s1, rfl, rfl, trivial, fun y hy => Or.inr trivial⟩
  have r2' : ∀ {x Γ u}, ¬ h.Has x → Resolves [G1] x Γ u → ∃ Γ' t', Resolves [G0] x Γ' t' ∧
      Peeled (Link (Lifted h G0 G1 (inheritWrap (lookup wrapRE G0) h2))) Γ u Γ' t' := by
    intro x Γ u hx hr
    obtain ⟨rfl, hd⟩ := resolves_top hr
    rcases L.outside' l hx hd with ⟨h3, h4⟩ | ⟨h3, rfl⟩
    · exact ⟨_, _, .here h3, .of ⟨rfl, [], _, _, _, s2', rfl, rfl, trivial, fun y hy => Or.inr (h4 y hy)⟩⟩
    · exact ⟨_, _, .here h3, _, _, _, _, .refl, .step enter .refl, rfl, [], _, _, _, s1', rfl, rfl, trivial, fun y hy => Or.inr trivial⟩
  exact {
    symm := by
      rintro B B' N (⟨rfl, h⟩ | ⟨rfl, h⟩)
      · exact Or.inl ⟨rfl, h.symm.imp And.symm And.symm⟩
      · exact Or.inr ⟨rfl, h.symm.imp And.symm And.symm⟩
    wrap := by
      rintro B B' N (⟨rfl, ⟨rfl, rfl⟩ | ⟨rfl, rfl⟩⟩ | ⟨rfl, ⟨rfl, rfl⟩ | ⟨rfl, rfl⟩⟩)
      · exact ⟨by simp only [wrapOf]; rw [hwH, L.wrap01 l], fun _ _ _ _ => trivial⟩
      · exact ⟨by simp only [wrapOf]; rw [hwH, L.wrap01 l], fun _ _ _ _ => trivial⟩
      · exact ⟨L.wrap01 l, hw0⟩
      · exact ⟨(L.wrap01 l).symm, fun w hw => hw0 w (by rw [L.wrap01 l]; exact hw)⟩
    res := by
      rintro B B' N x Γ u (⟨rfl, ⟨rfl, rfl⟩ | ⟨rfl, rfl⟩⟩ | ⟨rfl, ⟨rfl, rfl⟩ | ⟨rfl, rfl⟩⟩) hx hr
      · cases hr with
        | here hd =>
          exact ⟨_, u, .here (hd.mono fun _ _ => L.sub l), .of ⟨rfl, [], _, _, _, s1, rfl, rfl, trivial, fun y hy => Or.inr trivial⟩⟩
        | outer hl hr => exact r2 (hno hl) hr
      · cases hl : lookup x (inheritWrap (lookup wrapRE G0) h2) with
        | none =>
          obtain ⟨Γ', t', h1, h2⟩ := r2' (hno hl) hr
          exact ⟨Γ', t', .outer hl h1, h2⟩
        | some v =>
          obtain ⟨rfl, hd⟩ := resolves_top hr
          obtain ⟨w, hw⟩ := defines_of_stands l.comp hl
          obtain rfl := (hw.mono fun _ _ => L.sub l).det hd
          exact ⟨_, w, .here hw, .of ⟨rfl, [], _, _, _, s1', rfl, rfl, trivial, fun y hy => Or.inr trivial⟩⟩
      · exact r2 hx hr
      · exact r2' hx hr }

end

end Wbnf

import Verif.Lemmas.Morph
import Verif.Lemmas.Flatten

/-! Compiling a renamed grammar. -/

namespace Wbnf

variable {E : Engine} {X : Externals} {π : Str → Str}

/-! ## Well-formedness -/

theorem headRule_rename : (t : Term) → (t.rename π).headRule = t.headRule.map π
  | .named _ t => by simp only [Term.rename, Term.headRule]; exact headRule_rename t
  | .rule _ => rfl
  | .s _ => rfl
  | .re _ => rfl
  | .ref _ _ => rfl
  | .ext _ => rfl
  | .seq _ => rfl
  | .oneof _ => rfl
  | .stack _ => rfl
  | .delim _ _ _ _ _ => rfl
  | .look _ => rfl
  | .quant _ _ _ => rfl
  | .scope _ _ => rfl
  | .cut _ => rfl

theorem hard_rename (h : Renaming π) : (t : Term) → (t.rename π).hard = t.hard
  | .named _ t => by simp only [Term.rename, Term.hard]; exact hard_rename h t
  | .cut t => by simp only [Term.rename, Term.hard]; exact hard_rename h t
  | .scope t g => by
    simp only [Term.rename, Term.hard, hard_rename h t, headRule_rename]
    cases t.headRule with
    | none => rfl
    | some r => simp [hasKey_rename h]
  | .rule _ => rfl
  | .s _ => rfl
  | .re _ => rfl
  | .ref _ _ => rfl
  | .ext _ => rfl
  | .seq _ => rfl
  | .oneof _ => rfl
  | .stack _ => rfl
  | .delim _ _ _ _ _ => rfl
  | .look _ => rfl
  | .quant _ _ _ => rfl

theorem hardOrRule_rename (h : Renaming π) (t : Term) : (t.rename π).hardOrRule = t.hardOrRule := by
  cases t <;> first | rfl | exact hard_rename h _

theorem defOK_rename (h : Renaming π) (t : Term) : (t.rename π).defOK = t.defOK := by
  cases t with
  | stack ts =>
    simp only [Term.rename, Term.defOK, renameList_eq, List.all_map]
    congr 1
    funext t
    exact hardOrRule_rename h t
  | named n t => exact hard_rename h (.named n t)
  | scope t g => exact hard_rename h (.scope t g)
  | cut t => exact hard_rename h (.cut t)
  | _ => rfl

mutual
theorem wf_rename (h : Renaming π) : (t : Term) → (t.rename π).wf = t.wf
  | .rule _ => rfl
  | .s _ => rfl
  | .re _ => rfl
  | .ref _ none => rfl
  | .ref _ (some _) => rfl
  | .ext _ => rfl
  | .seq ts => by simp only [Term.rename, Term.wf]; exact wfList_rename h ts
  | .oneof ts => by simp only [Term.rename, Term.wf]; exact wfList_rename h ts
  | .stack ts => by simp only [Term.rename, Term.wf]; exact wfList_rename h ts
  | .delim t sep _ _ _ => by simp only [Term.rename, Term.wf, wf_rename h t, wf_rename h sep]
  | .look t => by simp only [Term.rename, Term.wf]; exact wf_rename h t
  | .quant t _ _ => by simp only [Term.rename, Term.wf]; exact wf_rename h t
  | .named _ t => by simp only [Term.rename, Term.wf]; exact wf_rename h t
  | .scope t g => by simp only [Term.rename, Term.wf, wf_rename h t, wfDefs_rename h g]
  | .cut t => by simp only [Term.rename, Term.wf, wf_rename h t, hard_rename h t]
theorem wfList_rename (h : Renaming π) : (ts : List Term) → wfList (renameList π ts) = wfList ts
  | [] => rfl
  | t :: ts => by simp only [renameList, wfList, wf_rename h t, wfList_rename h ts]
theorem wfDefs_rename (h : Renaming π) : (g : Grammar) → wfDefs (renameDefs π g) = wfDefs g
  | [] => rfl
  | (_, t) :: g => by simp only [renameDefs, wfDefs, wf_rename h t, wfDefs_rename h g, defOK_rename h t]
end

/-! ## Layers -/

theorem layersFollowList_iff {ts : List Term} : layersFollowList π ts ↔ ∀ t ∈ ts, t.LayersFollow π := by
  induction ts with
  | nil => simp [layersFollowList]
  | cons t ts ih => simp [layersFollowList, ih]

theorem layersFollowDefs_iff {g : Grammar} : layersFollowDefs π g ↔ ∀ k t, (k, t) ∈ g → t.LayersFollow π := by
  induction g with
  | nil => simp [layersFollowDefs]
  | cons e g ih =>
    obtain ⟨k, t⟩ := e
    simp only [layersFollowDefs, ih, List.mem_cons, Prod.mk.injEq]
    constructor
    · rintro ⟨h1, h2⟩ k' t' (⟨rfl, rfl⟩ | h)
      · exact h1
      · exact h2 k' t' h
    · exact fun h => ⟨h k t (Or.inl ⟨rfl, rfl⟩), fun k' t' hm => h k' t' (Or.inr hm)⟩

mutual
theorem follow_layer (new : Str) : (t : Term) → t.flat = true → (t.uncut.atTo new).LayersFollow π
  | .rule r, _ => by simp only [Term.uncut, Term.atTo]; split <;> trivial
  | .s _, _ => trivial
  | .re _, _ => trivial
  | .ref _ _, _ => trivial
  | .ext _, _ => trivial
  | .stack _, hf => by simp [Term.flat] at hf
  | .scope _ _, hf => by simp [Term.flat] at hf
  | .seq ts, hf => follow_layers new ts (by simpa [Term.flat] using hf)
  | .oneof ts, hf => follow_layers new ts (by simpa [Term.flat] using hf)
  | .delim t sep _ _ _, hf => by
    simp only [Term.flat, Bool.and_eq_true] at hf
    exact ⟨follow_layer new t hf.1, follow_layer new sep hf.2⟩
  | .look t, hf => follow_layer new t (by simpa [Term.flat] using hf)
  | .quant t _ _, hf => follow_layer new t (by simpa [Term.flat] using hf)
  | .named _ t, hf => follow_layer new t (by simpa [Term.flat] using hf)
  | .cut t, hf => follow_layer new t (by simpa [Term.flat] using hf)
theorem follow_layers (new : Str) : (ts : List Term) → flatList ts = true → layersFollowList π (atToList new (uncutList ts))
  | [], _ => trivial
  | t :: ts, hf => by
    simp only [flatList, Bool.and_eq_true] at hf
    exact ⟨follow_layer new t hf.1, follow_layers new ts hf.2⟩
end

theorem layersFollow_resolve {g g' : Grammar} (h : layersFollowDefs π g) (hr : g.resolveStacks = some g') : layersFollowDefs π g' := by
  rw [layersFollowDefs_iff] at *
  intro k t hm
  rcases (resolveStacks_mem hr).1 k t hm with hm | ⟨r, ls, L, j, _, _, hf, _, rfl, _⟩
  · exact h k t hm
  · exact follow_layer _ _ hf

theorem layersFollow_inherit {w : Option Term} {g : Grammar} (hw : ∀ t, w = some t → t.LayersFollow π) (h : layersFollowDefs π g) :
    layersFollowDefs π (inheritWrap w g) := by
  rw [layersFollowDefs_iff] at *
  intro k t hm
  rcases mem_inheritWrap hm with hm | hm
  · exact h k t hm
  · exact hw _ hm

theorem layersFollow_lookup {g : Grammar} (h : layersFollowDefs π g) {k t} (hl : lookup k g = some t) : t.LayersFollow π :=
  layersFollowDefs_iff.1 h k t (lookup_mem hl)

theorem StandsFor.follow {g : Grammar} (h : layersFollowDefs π g) {t t'} (ht : t.LayersFollow π) (hs : StandsFor g t t') : t'.LayersFollow π := by
  rcases hs with ⟨rfl, _⟩ | ⟨r, rfl, hd⟩
  · exact ht
  · obtain ⟨k, hk⟩ := hd.mem
    exact layersFollowDefs_iff.1 h k _ hk

theorem Resolves.follow {Γ r Γ₁ t₁} (hr : Resolves Γ r Γ₁ t₁) (h : ∀ g ∈ Γ, layersFollowDefs π g) :
    (∀ g ∈ Γ₁, layersFollowDefs π g) ∧ t₁.LayersFollow π := by
  induction hr with
  | here hd =>
    obtain ⟨k, hk⟩ := hd.mem
    exact ⟨h, layersFollowDefs_iff.1 (h _ (by simp)) k _ hk⟩
  | outer _ _ ih => exact ih fun g hg => h g (by simp [hg])

theorem Enters.follow {Γ g g'} (he : Enters Γ g g') (hg : layersFollowDefs π g) (h : ∀ g ∈ Γ, layersFollowDefs π g) :
    ∀ g ∈ g' :: Γ, layersFollowDefs π g := by
  obtain ⟨g1, h1, rfl⟩ := he
  intro g hm
  rcases List.mem_cons.1 hm with rfl | hm
  · refine layersFollow_inherit ?_ (layersFollow_resolve hg h1)
    intro w hw
    cases Γ with
    | nil => simp [wrapOf] at hw
    | cons g0 Γ => exact layersFollow_lookup (h g0 (by simp)) hw
  · exact h g hm

theorem PartOf.rename (hπ : Renaming π) {Γ t Γ' t'} (h : PartOf Γ t Γ' t') (hΓ : ∀ g ∈ Γ, layersFollowDefs π g) (ht : t.LayersFollow π) :
    PartOf (Γ.map (renameDefs π)) (t.rename π) (Γ'.map (renameDefs π)) (t'.rename π) ∧ t'.LayersFollow π := by
  induction h with
  | refl => exact ⟨.refl, ht⟩
  | rule hr _ ih =>
    obtain ⟨h1, h2⟩ := hr.follow hΓ
    obtain ⟨h3, h4⟩ := ih h1 h2
    exact ⟨.rule (hr.rename hπ) h3, h4⟩
  | named _ ih => exact (ih hΓ ht).imp .named id
  | cut _ ih => exact (ih hΓ ht).imp .cut id
  | scope he _ ih => exact (ih (he.follow ht.2.1 hΓ) ht.1).imp (.scope (he.rename hπ ht.2.2)) id
  | seq hm _ ih => exact (ih hΓ (layersFollowList_iff.1 ht _ hm)).imp (.seq (by rw [renameList_eq]; exact List.mem_map.2 ⟨_, hm, rfl⟩)) id
  | oneof hm _ ih => exact (ih hΓ (layersFollowList_iff.1 ht _ hm)).imp (.oneof (by rw [renameList_eq]; exact List.mem_map.2 ⟨_, hm, rfl⟩)) id
  | quant _ ih => exact (ih hΓ ht).imp .quant id
  | look _ ih => exact (ih hΓ ht).imp .look id
  | delimTerm _ ih => exact (ih hΓ ht.1).imp .delimTerm id
  | delimSep _ ih => exact (ih hΓ ht.2).imp .delimSep id

/-! ## Compiling -/

theorem StandsFor.rename (h : Renaming π) {g : Grammar} {t t'} (hs : StandsFor g t t') : StandsFor (renameDefs π g) (t.rename π) (t'.rename π) := by
  rcases hs with ⟨rfl, hn⟩ | ⟨r, rfl, hd⟩
  · refine Or.inl ⟨rfl, fun r e => ?_⟩
    cases t' <;> simp [Term.rename] at e
    exact hn _ rfl
  · exact Or.inr ⟨π r, rfl, hd.rename h⟩

theorem mem_renameDefs {g : Grammar} {e} (h : e ∈ renameDefs π g) : ∃ k t, (k, t) ∈ g ∧ e = (π k, t.rename π) := by
  rw [renameDefs_eq] at h
  obtain ⟨⟨k, t⟩, h1, h2⟩ := List.mem_map.1 h
  exact ⟨k, t, h1, h2.symm⟩

theorem LeafValid.rename {w : Option Term} {l gr} (h : LeafValid E w l gr) : LeafValid E (w.map (Term.rename π)) l gr := by
  obtain ⟨p, h1, h2⟩ := h
  exact ⟨p, h1.rename, h2⟩

theorem Compilable.rename (h : Renaming π) {w t} (hc : Compilable E w t) (hw : ∀ u, w = some u → u.LayersFollow π) (ht : t.LayersFollow π) :
    Compilable E (w.map (Term.rename π)) (t.rename π) := by
  induction hc with
  | rule => exact .rule
  | ref => exact .ref
  | ext => exact .ext
  | lit hl => exact .lit hl.rename
  | regexp hl => exact .regexp hl.rename
  | seq _ ih =>
    refine .seq fun t hm => ?_
    rw [renameList_eq] at hm
    obtain ⟨u, h1, rfl⟩ := List.mem_map.1 hm
    exact ih u h1 hw (layersFollowList_iff.1 ht _ h1)
  | oneof _ ih =>
    refine .oneof fun t hm => ?_
    rw [renameList_eq] at hm
    obtain ⟨u, h1, rfl⟩ := List.mem_map.1 hm
    exact ih u h1 hw (layersFollowList_iff.1 ht _ h1)
  | delim _ _ ih1 ih2 => exact .delim (ih1 hw ht.1) (ih2 hw ht.2)
  | look _ ih => exact .look (ih hw ht)
  | quant _ ih => exact .quant (ih hw ht)
  | named _ ih => exact .named (ih hw ht)
  | cut _ ih => exact .cut (ih hw ht)
  | @scope w t g g1 hr hs _ _ ih1 ih2 =>
    have hf : layersFollowDefs π (inheritWrap w g1) := layersFollow_inherit hw (layersFollow_resolve ht.2.1 hr)
    have hl : lookup wrapRE (inheritWrap (w.map (Term.rename π)) (renameDefs π g1)) = (lookup wrapRE (inheritWrap w g1)).map (Term.rename π) := by
      rw [inheritWrap_rename h]
      have := lookup_rename h wrapRE (inheritWrap w g1)
      rwa [wrap_eq h] at this
    refine .scope (g1 := renameDefs π g1) (by rw [resolveStacks_rename h ht.2.2, hr]; rfl) ?_ ?_ ?_
    · intro e he
      rw [inheritWrap_rename h] at he ⊢
      obtain ⟨k, u, h1, rfl⟩ := mem_renameDefs he
      obtain ⟨t', h2⟩ := hs _ h1
      exact ⟨_, h2.rename h⟩
    · intro e he t' ht'
      rw [hl]
      rw [inheritWrap_rename h] at he ht'
      obtain ⟨k, u, h1, rfl⟩ := mem_renameDefs he
      obtain ⟨t'', h2⟩ := hs _ h1
      obtain rfl := (h2.rename h).det ht'
      exact ih1 _ h1 _ h2 (fun u hu => layersFollow_lookup hf hu) (h2.follow hf (layersFollowDefs_iff.1 hf _ _ h1))
    · rw [hl]
      exact ih2 (fun u hu => layersFollow_lookup hf hu) ht.1

theorem Grammar.Compilable.rename (h : Renaming π) {g : Grammar} (hc : g.Compilable E) (hl : Grammar.LayersFollow π g)
    (hf : layersFollowDefs π g) : Grammar.Compilable E (renameDefs π g) := by
  obtain ⟨g1, h1, h2⟩ := hc
  refine ⟨renameDefs π g1, by rw [resolveStacks_rename h hl, h1]; rfl, fun e he => ?_⟩
  have hf1 := layersFollow_resolve hf h1
  obtain ⟨k, u, h3, rfl⟩ := mem_renameDefs he
  obtain ⟨t', h4, h5⟩ := h2 _ h3
  refine ⟨_, h4.rename h, ?_⟩
  have hw := lookup_rename h wrapRE g1
  rw [wrap_eq h] at hw
  rw [hw]
  exact h5.rename h (fun u hu => layersFollow_lookup hf1 hu) (h4.follow hf1 (layersFollowDefs_iff.1 hf1 _ _ h3))

/-! ## Back -/

variable {π' : Str → Str}

mutual
theorem rename_rename (hi : ∀ a, π' (π a) = a) : (t : Term) → (t.rename π).rename π' = t
  | .rule _ => by simp [Term.rename, hi]
  | .s _ => rfl
  | .re _ => rfl
  | .ref _ _ => by simp [Term.rename, hi]
  | .ext _ => rfl
  | .seq ts => by simp [Term.rename, renameList_rename hi ts]
  | .oneof ts => by simp [Term.rename, renameList_rename hi ts]
  | .stack ts => by simp [Term.rename, renameList_rename hi ts]
  | .delim t sep _ _ _ => by simp [Term.rename, rename_rename hi t, rename_rename hi sep]
  | .look t => by simp [Term.rename, rename_rename hi t]
  | .quant t _ _ => by simp [Term.rename, rename_rename hi t]
  | .named _ t => by simp [Term.rename, hi, rename_rename hi t]
  | .scope t g => by simp [Term.rename, rename_rename hi t, renameDefs_rename hi g]
  | .cut t => by simp [Term.rename, rename_rename hi t]
theorem renameList_rename (hi : ∀ a, π' (π a) = a) : (ts : List Term) → renameList π' (renameList π ts) = ts
  | [] => rfl
  | t :: ts => by simp [renameList, rename_rename hi t, renameList_rename hi ts]
theorem renameDefs_rename (hi : ∀ a, π' (π a) = a) : (g : Grammar) → renameDefs π' (renameDefs π g) = g
  | [] => rfl
  | (k, t) :: g => by simp [renameDefs, hi, rename_rename hi t, renameDefs_rename hi g]
end

mutual
theorem tree_map_map (hi : ∀ a, π' (π a) = a) : (v : Tree) → (v.map π id).map π' id = v
  | .node _ _ cs => by simp [Tree.map, hi, trees_map_map hi cs]
  | .leaf _ => rfl
  | .empty => rfl
  | .foreign _ => rfl
theorem trees_map_map (hi : ∀ a, π' (π a) = a) : (vs : List Tree) → mapTrees π' id (mapTrees π id vs) = vs
  | [] => rfl
  | v :: vs => by simp [mapTrees, tree_map_map hi v, trees_map_map hi vs]
end

theorem out_map_map (hi : ∀ a, π' (π a) = a) (o : Out) : (o.map π id).map π' id = o := by
  cases o <;> simp [Out.map, tree_map_map hi, trees_map_map hi]

theorem mem_renameList {ts : List Term} {t} (h : t ∈ renameList π ts) : ∃ u ∈ ts, t = u.rename π := by
  rw [renameList_eq] at h
  obtain ⟨u, h1, h2⟩ := List.mem_map.1 h
  exact ⟨u, h1, h2.symm⟩

theorem follow_back (hi : ∀ a, π' (π a) = a) {g : Grammar} (h : Grammar.LayersFollow π g) : Grammar.LayersFollow π' (renameDefs π g) := by
  intro r ls i hm hlt
  obtain ⟨k, t, h1, h2⟩ := mem_renameDefs hm
  simp only [Prod.mk.injEq] at h2
  obtain ⟨rfl, h2⟩ := h2
  cases t <;> simp [Term.rename] at h2
  rename_i ts
  subst h2
  rw [renameList_length] at hlt
  rw [← h k ts i h1 hlt, hi, hi]

mutual
theorem term_follow_back (hi : ∀ a, π' (π a) = a) : (t : Term) → t.LayersFollow π → (t.rename π).LayersFollow π'
  | .rule _, _ => trivial
  | .s _, _ => trivial
  | .re _, _ => trivial
  | .ref _ _, _ => trivial
  | .ext _, _ => trivial
  | .seq ts, h => list_follow_back hi ts h
  | .oneof ts, h => list_follow_back hi ts h
  | .stack ts, h => list_follow_back hi ts h
  | .delim t sep _ _ _, h => ⟨term_follow_back hi t h.1, term_follow_back hi sep h.2⟩
  | .look t, h => term_follow_back hi t h
  | .quant t _ _, h => term_follow_back hi t h
  | .named _ t, h => term_follow_back hi t h
  | .cut t, h => term_follow_back hi t h
  | .scope t g, h => ⟨term_follow_back hi t h.1, defs_follow_back hi g h.2.1, follow_back hi h.2.2⟩
theorem list_follow_back (hi : ∀ a, π' (π a) = a) : (ts : List Term) → layersFollowList π ts → layersFollowList π' (renameList π ts)
  | [], _ => trivial
  | t :: ts, h => ⟨term_follow_back hi t h.1, list_follow_back hi ts h.2⟩
theorem defs_follow_back (hi : ∀ a, π' (π a) = a) : (g : Grammar) → layersFollowDefs π g → layersFollowDefs π' (renameDefs π g)
  | [], _ => trivial
  | (_, t) :: g, h => ⟨term_follow_back hi t h.1, defs_follow_back hi g h.2⟩
end

theorem Renaming.back (h : Renaming π) (hi : ∀ a, π' (π a) = a) (hj : ∀ b, π (π' b) = b) : Renaming π' where
  inj := fun {a b} e => by rw [← hj a, ← hj b, e]
  nil := by have := hi []; rwa [h.nil] at this
  at_ := by have := hi (str "@"); rwa [h.at_] at this
  wrap := by have := hi (str ".wrapRE"); rwa [h.wrap] at this
  seq := by have := hi (str "_"); rwa [h.seq] at this
  oneof := by have := hi (str "|"); rwa [h.oneof] at this
  delim := by have := hi (str ":"); rwa [h.delim] at this
  quant := by have := hi (str "?"); rwa [h.quant] at this
  look := by have := hi (str "?="); rwa [h.look] at this

/-! ## Renaming and parsing -/

def RenameBase (π : Str → Str) (_ : List Grammar) (t : Term) : Prop :=
  (∀ x, t ≠ .ext x) ∧ ∀ u g, t = .scope u g → Grammar.LayersFollow π g

theorem morph_rename (h : Renaming π) : Morph E π id (fun _ => True) (RenameBase π) where
  ren := h
  slice := fun _ _ => rfl
  toStr := fun _ _ => rfl
  sub := fun _ _ _ => rfl
  skip := fun _ _ => rfl
  leaf := fun _ _ _ _ => ⟨trivial, trivial⟩
  basic := ⟨fun _ _ => ⟨by simp, by simp⟩, fun _ _ _ _ => ⟨by simp, by simp⟩, fun _ _ _ _ _ => ⟨by simp, by simp⟩⟩
  ext := fun h => h.1 _ rfl
  layers := fun h => h.2 _ _ rfl

theorem mapVals_nil {σ} : mapVals π σ [] = [] := rfl

theorem peg_rename (h : Renaming π) {G : Grammar} {r inp o} (hf : layersFollowDefs π G) (hx : NoExt [G] (.rule r))
    (hp : Peg E X (.term [G] [] (.rule r) [] inp) o) : Peg E X (.term [renameDefs π G] [] (.rule (π r)) [] inp) (o.map π id) := by
  have := (hp.map (morph_rename h) ⟨fun Γ' t' hp => ⟨?_, ?_⟩, fun _ _ h => by simp [lookup] at h, trivial⟩).1
  · simpa only [Goal.map, h.nil, mapVals_nil, id, List.map_cons, List.map_nil, Term.rename] using this
  · rintro x rfl; exact hx _ _ hp
  · rintro u g rfl
    exact (hp.rename h (by simpa using hf) trivial).2.2.2

theorem peg_rename_back (h : Renaming π) (hi : ∀ a, π' (π a) = a) (hj : ∀ b, π (π' b) = b) {G : Grammar} {r inp o}
    (hf : layersFollowDefs π G) (hx : NoExt [G] (.rule r))
    (hp : Peg E X (.term [renameDefs π G] [] (.rule (π r)) [] inp) (o.map π id)) : Peg E X (.term [G] [] (.rule r) [] inp) o := by
  have hb := h.back hi hj
  have hfb := defs_follow_back hi G hf
  have := peg_rename hb hfb ?_ hp
  · rwa [renameDefs_rename hi, hi, out_map_map hi] at this
  · intro Γ' x hpart
    have := (hpart.rename hb (by simpa using hfb) trivial).1
    simp only [List.map_cons, List.map_nil, renameDefs_rename hi, Term.rename, hi] at this
    exact hx _ _ this

end Wbnf

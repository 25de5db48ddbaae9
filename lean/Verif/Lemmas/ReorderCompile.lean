import Verif.Lemmas.Reorder

/-! Reordered grammars: well-formedness and compilation. -/

namespace Wbnf

variable {E : Engine} {X : Externals}

theorem mapSet_keys {α} {k : Str} {v : α} {m : List (Str × α)} (h : (m.map Prod.fst).Nodup) :
    ((mapSet k v m).map Prod.fst).Nodup ∧ ∀ x, x ∈ (mapSet k v m).map Prod.fst → x = k ∨ x ∈ m.map Prod.fst := by
  induction m with
  | nil => simp [mapSet]
  | cons e m ih =>
    obtain ⟨k', v'⟩ := e
    simp only [List.map_cons, List.nodup_cons] at h
    simp only [mapSet]
    split
    · rename_i e; subst e; simp [h.1, h.2]
    · rename_i e
      obtain ⟨h1, h2⟩ := ih h.2
      simp only [List.map_cons, List.nodup_cons, List.mem_cons]
      refine ⟨⟨fun hm => ?_, h1⟩, ?_⟩
      · rcases h2 _ hm with h' | h'
        · exact e h'
        · exact h.1 h'
      · rintro x (rfl | hx)
        · exact Or.inr (Or.inl rfl)
        · rcases h2 _ hx with h' | h'
          · exact Or.inl h'
          · exact Or.inr (Or.inr h')

theorem resolveLayers_distinct {r n} : ∀ {layers i old} {g g' : Grammar},
    resolveLayers r n i old layers g = some g' → g.Distinct → g'.Distinct := by
  intro layers
  induction layers with
  | nil => intro i old g g' h hd; simp [resolveLayers] at h; exact h ▸ hd
  | cons L layers ih =>
    intro i old g g' h hd
    simp only [resolveLayers] at h
    split at h
    · simp at h
    · exact ih h (mapSet_keys hd).1

theorem resolveStacksLoop_distinct {es : List (Str × Term)} : ∀ {g g' : Grammar},
    resolveStacksLoop es g = some g' → g.Distinct → g'.Distinct := by
  induction es with
  | nil => intro g g' h hd; simp [resolveStacksLoop] at h; exact h ▸ hd
  | cons e es ih =>
    intro g g' h hd
    unfold resolveStacksLoop at h
    split at h
    · simp at *
    · rename_i heq
      cases heq
      split at h
      · simp at h
      · rename_i hr
        exact ih h (resolveLayers_distinct hr hd)
    · rename_i heq
      cases heq
      exact ih h hd

theorem resolveStacks_distinct {g g' : Grammar} (h : g.resolveStacks = some g') (hd : g.Distinct) : g'.Distinct := by
  unfold Grammar.resolveStacks at h
  split at h
  · exact resolveStacksLoop_distinct h hd
  · cases h; exact hd

theorem inheritWrap_distinct {w : Option Term} {g : Grammar} (hd : g.Distinct) : (inheritWrap w g).Distinct := by
  unfold inheritWrap
  split
  · exact hd
  · split
    · exact hd
    · exact (mapSet_keys hd).1

theorem SameDefs.standsFor {g g' : Grammar} (h : SameDefs g g') {t t' u} (ht : Reord t t') (htt : t.Tidy)
    (hs : StandsFor g t u) : ∃ u', StandsFor g' t' u' ∧ Reord u u' ∧ u.Tidy := by
  rcases hs with ⟨rfl, hn⟩ | ⟨r, rfl, hd⟩
  · exact ⟨t', Or.inl ⟨rfl, fun r e => hn r (by subst e; exact ht.symm.rule_inv)⟩, ht, htt⟩
  · obtain rfl := ht.rule_inv
    obtain ⟨u', h1, h2, h3⟩ := h.defines hd
    exact ⟨u', Or.inr ⟨r, rfl, h1⟩, h2, h3⟩

/-- The rules of reordered grammars can be compiled if those of the original can. -/
theorem SameDefs.rules {g g' : Grammar} (h : SameDefs g g') (hd : g.Distinct) (hd' : g'.Distinct) {P Q : Term → Prop}
    (hPQ : ∀ t t', Reord t t' → t.Tidy → P t → Q t')
    (hP : ∀ e ∈ g, ∃ t', StandsFor g e.2 t' ∧ P t') : ∀ e ∈ g', ∃ t', StandsFor g' e.2 t' ∧ Q t' := by
  rintro ⟨k, t'⟩ hm
  obtain ⟨t, h1, h2, h3⟩ := (h.symm k).2 t' ((lookup_iff_mem hd').2 hm)
  obtain ⟨u, h4, h5⟩ := hP (k, t) ((lookup_iff_mem hd).1 h1)
  obtain ⟨u', h6, h7, h8⟩ := h.standsFor h2.symm (h2.tidy h3) h4
  exact ⟨u', h6, hPQ _ _ h7 h8 h5⟩

theorem ReordList.mem {ts ts' : List Term} (h : ReordList ts ts') (ht : tidyList ts) {t'} (hm : t' ∈ ts') :
    ∃ t ∈ ts, Reord t t' ∧ t.Tidy :=
  match h with
  | .nil => by simp at hm
  | .cons h hs => by
    rcases List.mem_cons.1 hm with rfl | hm
    · exact ⟨_, by simp, h, ht.1⟩
    · obtain ⟨t, h1, h2⟩ := hs.mem ht.2 hm
      exact ⟨t, by simp [h1], h2⟩

theorem Compilable.reord {w t} (h : Compilable E w t) : ∀ {w' t'}, SameWrap w w' → Reord t t' → t.Tidy →
    Compilable E w' t' := by
  induction h with
  | rule => intro w' t' hw hr _; cases hr; exact .rule
  | ref => intro w' t' hw hr _; cases hr; exact .ref
  | ext => intro w' t' hw hr _; cases hr; exact .ext
  | lit h => intro w' t' hw hr _; cases hr; obtain ⟨p, h1, h2⟩ := h; exact .lit ⟨p, hw.pattern h1, h2⟩
  | regexp h => intro w' t' hw hr _; cases hr; obtain ⟨p, h1, h2⟩ := h; exact .regexp ⟨p, hw.pattern h1, h2⟩
  | seq _ ih =>
    intro w' t' hw hr ht
    cases hr with
    | seq h =>
      refine .seq fun t' hm => ?_
      obtain ⟨t, h1, h2, h3⟩ := h.mem ht hm
      exact ih t h1 hw h2 h3
  | oneof _ ih =>
    intro w' t' hw hr ht
    cases hr with
    | oneof h =>
      refine .oneof fun t' hm => ?_
      obtain ⟨t, h1, h2, h3⟩ := h.mem ht hm
      exact ih t h1 hw h2 h3
  | delim _ _ ih1 ih2 => intro w' t' hw hr ht; cases hr with | delim h h' => exact .delim (ih1 hw h ht.1) (ih2 hw h' ht.2)
  | look _ ih => intro w' t' hw hr ht; cases hr with | look h => exact .look (ih hw h (by simpa [Term.Tidy] using ht))
  | quant _ ih => intro w' t' hw hr ht; cases hr with | quant h => exact .quant (ih hw h (by simpa [Term.Tidy] using ht))
  | named _ ih => intro w' t' hw hr ht; cases hr with | named h => exact .named (ih hw h (by simpa [Term.Tidy] using ht))
  | cut _ ih => intro w' t' hw hr ht; cases hr with | cut h => exact .cut (ih hw h (by simpa [Term.Tidy] using ht))
  | @scope w₀ t₀ g₀ g₁ hs hst _ _ ih1 ih2 =>
    intro w' t' hw hr ht
    cases hr with
    | scope h h' =>
      obtain ⟨g1', h1, h2⟩ := resolveStacks_reord h' ⟨ht.2.1, ht.2.2⟩ hs
      have h3 := h2.inherit hw
      have d1 := inheritWrap_distinct (w := w₀) (resolveStacks_distinct hs ht.2.2.1)
      have d2 := inheritWrap_distinct (w := w') (resolveStacks_distinct h1 (h'.distinct ht.2.2.1))
      have key := h3.rules d1 d2 (P := fun t => ∀ {w' t'}, SameWrap _ w' → Reord t t' → t.Tidy → Compilable E w' t')
        (Q := fun t' => Compilable E (lookup wrapRE (inheritWrap w' g1')) t')
        (fun t t' hr ht hP => hP h3.wrap hr ht)
        (fun e he => by
          obtain ⟨u, hu⟩ := hst e he
          exact ⟨u, hu, ih1 e he u hu⟩)
      refine .scope h1 (fun e he => ?_) (fun e he u hu => ?_) (ih2 h3.wrap h ht.1)
      · obtain ⟨u, hu, _⟩ := key e he
        exact ⟨u, hu⟩
      · obtain ⟨u', hu', h4⟩ := key e he
        rw [hu.det hu']
        exact h4

theorem Grammar.Compilable.reord {g g' : Grammar} (h : g.Compilable E) (hr : ReordDefs g g') (ht : g.Tidy) :
    g'.Compilable E := by
  obtain ⟨g1, h1, h2⟩ := h
  obtain ⟨g1', h3, h4⟩ := resolveStacks_reord hr ht h1
  exact ⟨g1', h3, h4.rules (resolveStacks_distinct h1 ht.2.1) (resolveStacks_distinct h3 (hr.distinct ht.2.1))
    (fun t t' hr ht hP => hP.reord h4.wrap hr ht) h2⟩

theorem Grammar.Tidy.reord {g g' : Grammar} (h : g.Tidy) (hr : ReordDefs g g') : g'.Tidy :=
  ⟨hr.tidy h.1, hr.distinct h.2.1, hr.fresh h.2.2⟩

/-! ### Well-formedness -/

theorem ReordDefs.hasKey {g g' : Grammar} (h : ReordDefs g g') (k : Str) : Wbnf.hasKey k g = Wbnf.hasKey k g' := by
  have key : ∀ {m : Grammar}, Wbnf.hasKey k m = true ↔ k ∈ m.map Prod.fst := by
    intro m
    induction m with
    | nil => simp [Wbnf.hasKey, lookup]
    | cons e m ih =>
      obtain ⟨k', t⟩ := e
      simp only [Wbnf.hasKey, lookup, List.map_cons, List.mem_cons] at ih ⊢
      split
      · rename_i e; simp [e]
      · rename_i e; rw [ih]; simp [Ne.symm e]
  have : Wbnf.hasKey k g = true ↔ Wbnf.hasKey k g' = true := by rw [key, key, h.keys.mem_iff]
  cases h1 : Wbnf.hasKey k g <;> cases h2 : Wbnf.hasKey k g' <;> simp_all

theorem Reord.headRule {t t' : Term} (h : Reord t t') : t.headRule = t'.headRule :=
  match h with
  | .rule => rfl
  | .s => rfl
  | .re => rfl
  | .ref => rfl
  | .ext => rfl
  | .seq _ => rfl
  | .oneof _ => rfl
  | .stack _ => rfl
  | .delim _ _ => rfl
  | .look _ => rfl
  | .quant h => rfl
  | .named h => by simp only [Term.headRule]; exact h.headRule
  | .scope _ _ => rfl
  | .cut _ => rfl

theorem Reord.hard {t t' : Term} (h : Reord t t') : t.hard = t'.hard :=
  match h with
  | .rule => rfl
  | .s => rfl
  | .re => rfl
  | .ref => rfl
  | .ext => rfl
  | .seq _ => rfl
  | .oneof _ => rfl
  | .stack _ => rfl
  | .delim _ _ => rfl
  | .look _ => rfl
  | .quant h => rfl
  | .named h => by simp only [Term.hard]; exact h.hard
  | .scope h h' => by
    simp only [Term.hard, h.hard, h.headRule]
    split <;> simp [h'.hasKey]
  | .cut h => by simp only [Term.hard]; exact h.hard

theorem Reord.hardOrRule {t t' : Term} (h : Reord t t') : t.hardOrRule = t'.hardOrRule := by
  have := h.hard
  cases h <;> first | rfl | simpa [Term.hardOrRule] using this

theorem Reord.defOK {t t' : Term} (h : Reord t t') : t.defOK = t'.defOK := by
  have := h.hardOrRule
  have hl : ∀ {ts ts' : List Term}, ReordList ts ts' → ts.all Term.hardOrRule = ts'.all Term.hardOrRule := by
    intro ts
    induction ts with
    | nil => intro ts' h; cases h; rfl
    | cons t ts ih => intro ts' h; cases h with | cons h hs => simp [h.hardOrRule, ih hs]
  cases h with
  | stack h => simpa [Term.defOK] using hl h
  | _ => simpa [Term.defOK] using this

mutual
theorem Reord.wf : {t t' : Term} → Reord t t' → t.wf = t'.wf
  | _, _, .rule => rfl
  | _, _, .s => rfl
  | _, _, .re => rfl
  | _, _, .ref => rfl
  | _, _, .ext => rfl
  | _, _, .seq h => by simp only [Term.wf]; exact h.wf
  | _, _, .oneof h => by simp only [Term.wf]; exact h.wf
  | _, _, .stack h => by simp only [Term.wf]; exact h.wf
  | _, _, .delim h h' => by simp only [Term.wf]; rw [h.wf, h'.wf]
  | _, _, .look h => by simp only [Term.wf]; exact h.wf
  | _, _, .quant h => by simp only [Term.wf]; exact h.wf
  | _, _, .named h => by simp only [Term.wf]; exact h.wf
  | _, _, .scope h h' => by simp only [Term.wf]; rw [h.wf, h'.wf]
  | _, _, .cut h => by simp only [Term.wf]; rw [h.wf, h.hard]
theorem ReordList.wf : {ts ts' : List Term} → ReordList ts ts' → wfList ts = wfList ts'
  | _, _, .nil => rfl
  | _, _, .cons h h' => by simp only [wfList]; rw [h.wf, h'.wf]
theorem ReordDefs.wf : {g g' : Grammar} → ReordDefs g g' → wfDefs g = wfDefs g'
  | _, _, .nil => rfl
  | _, _, .cons h h' => by simp only [wfDefs]; rw [h.wf, h'.wf, h.defOK]
  | _, _, .swap => by
    simp only [wfDefs]
    exact Bool.and_left_comm _ _ _
  | _, _, .trans h h' => h.wf.trans h'.wf
end

end Wbnf

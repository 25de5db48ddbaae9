import Verif.Lemmas.TypesDeclMethods

/-!
# Grammars for which types are made
-/

namespace Wbnf

/-- What the walk needs to know. -/
structure KnowsNames (names : List Str) (known : List (Str × Known)) : Prop where
  rules : ∀ r, r ∈ names → r ≠ atRule → ∃ t, lookup r known = some (.type t)
  self : ∃ i p, lookup atRule known = some (.stackInfo i p)

theorem merge_names {camel : Str → Str} {pre names} : ∀ (g : Grammar) {known}, (∀ r, r ∈ names → r ≠ atRule → ∃ t, lookup r known = some (.type t)) →
    ∀ r, r ∈ g.map Prod.fst ++ names → r ≠ atRule → ∃ t, lookup r (mergeRules camel pre known g) = some (.type t)
  | [], _, h => by simpa [mergeRules] using h
  | (k, t) :: g, known, h => by
    intro r hr hne
    simp only [mergeRules]
    refine merge_names (names := k :: names) g (known := mapSet k (.type (pre ++ goName camel k)) known) ?_ r ?_ hne
    · intro r hr hne
      rw [lookup_mapSet]
      split
      · exact ⟨_, rfl⟩
      · rename_i e
        exact h r ((List.mem_cons.1 hr).resolve_left e) hne
    · simp only [List.map_cons, List.cons_append, List.mem_cons, List.mem_append] at hr ⊢
      rcases hr with hr | hr | hr
      · exact .inr (.inl hr)
      · exact .inl hr
      · exact .inr (.inr hr)

theorem merge_at {camel : Str → Str} {pre i p} : ∀ (g : Grammar) {known}, atRule ∉ g.map Prod.fst → lookup atRule known = some (.stackInfo i p) →
    lookup atRule (mergeRules camel pre known g) = some (.stackInfo i p)
  | [], _, _, h => h
  | (k, t) :: g, known, hn, h => by
    simp only [List.map_cons, List.mem_cons, not_or] at hn
    simp only [mergeRules]
    refine merge_at g hn.2 ?_
    rw [lookup_mapSet_ne hn.1]
    exact h

section
variable {camel : Str → Str} {rnd : Nat → Nat}

mutual
theorem walkType_total : ∀ (t : Term) {names : List Str} (p : Str) (quant : Count) (known : List (Str × Known)) (id : Nat) (st : TypeState), t.inSight names = true → t.Deep Term.Fruitful → KnowsNames names known →
    ∃ st', walkType camel rnd t p quant known id st = some st'
  | .s _, _, _, _, _, _, _, _, _, _ => ⟨_, by simp only [walkType]; rfl⟩
  | .re _, _, _, _, _, _, _, _, _, _ => ⟨_, by simp only [walkType]; rfl⟩
  | .ref _ _, _, _, _, _, _, _, _, _, _ => ⟨_, by simp only [walkType]; rfl⟩
  | .ext _, _, _, _, _, _, _, _, _, _ => ⟨_, by simp only [walkType]; rfl⟩
  | .rule r, _, _, _, _, _, _, hs, _, hk => by
    simp only [Term.inSight, Bool.or_eq_true, decide_eq_true_eq, List.contains_iff_mem] at hs
    simp only [walkType, ruleMember]
    split
    · rename_i e
      subst e
      obtain ⟨i, p, h⟩ := hk.self
      rw [h]
      exact ⟨_, rfl⟩
    · rename_i e
      obtain ⟨t, h⟩ := hk.rules r (hs.resolve_left e) e
      rw [h]
      exact ⟨_, rfl⟩
  | .scope t g, _, p, qu, kn, id, st, hs, hd, hk => by
    simp only [Term.inSight, Bool.and_eq_true, Bool.not_eq_true', List.contains_eq_mem, decide_eq_false_iff_not] at hs
    obtain ⟨⟨h1, h2⟩, h3⟩ := hs
    obtain ⟨i, q, hq⟩ := hk.self
    have hr := merge_names (camel := camel) (pre := p) g hk.rules
    obtain ⟨st1, e1⟩ := walkRules_total g p _ st h3 hd.1 hd.2.2 hr
    obtain ⟨st2, e2⟩ := walkType_total t p qu _ id st1 h2 hd.2.1 ⟨hr, i, q, merge_at g h1 hq⟩
    exact ⟨st2, by simp only [walkType, e1, Option.bind_some]; exact e2⟩
  | .seq ts, _, p, qu, kn, id, st, hs, hd, hk => by simp only [walkType]; exact walkTypes_total ts p qu kn id st hs hd.2 hk
  | .stack ts, _, p, qu, kn, id, st, hs, hd, hk => by simp only [walkType]; exact walkTypes_total ts p qu kn id st hs hd.2 hk
  | .oneof ts, _, p, qu, kn, _, st, hs, hd, hk => by simp only [walkType]; exact walkAlternatives_total ts p qu kn _ hs hd.2 hk
  | .delim t sep _ _ _, _, p, qu, kn, id, st, hs, hd, hk => by
    simp only [Term.inSight, Bool.and_eq_true] at hs
    obtain ⟨st1, e1⟩ := walkType_total t p wantAll kn id st hs.1 hd.2.1 hk
    rw [walkType.eq_def]
    simp only [e1, Option.bind_some]
    have r2 := fun {p} => walkType_total sep p wantAll kn id st1 hs.2 hd.2.2 hk
    split
    · exact ⟨_, rfl⟩
    · exact ⟨_, rfl⟩
    · exact r2
    · exact r2
    · exact ⟨_, rfl⟩
    · exact ⟨_, rfl⟩
    · exact r2
  | .named n t, _, p, qu, kn, id, st, hs, hd, hk => by
    simp only [Term.inSight] at hs
    have r1 := walkType_total t (p ++ goName camel n) qu kn id st hs hd.2 hk
    rw [walkType.eq_def]
    simp only
    split
    · simp only [namedRuleMember]
      split
      · rename_i e
        subst e
        obtain ⟨i, p, h⟩ := hk.self
        rw [h]
        exact ⟨_, rfl⟩
      · exact ⟨_, rfl⟩
    · exact ⟨_, rfl⟩
    · exact ⟨_, rfl⟩
    · exact ⟨_, rfl⟩
    · obtain ⟨st1, e1⟩ := r1
      exact ⟨_, by rw [e1]; rfl⟩
  | .quant t _ _, _, p, qu, kn, id, st, hs, hd, hk => by simp only [walkType]; exact walkType_total t p _ kn id st hs hd.2 hk
  | .cut t, _, p, qu, kn, id, st, hs, hd, hk => by simp only [walkType]; exact walkType_total t p _ kn id st hs hd.2 hk
  | .look t, _, p, qu, kn, id, st, hs, hd, hk => by simp only [walkType]; exact walkType_total t p _ kn id st hs hd.2 hk
termination_by structural t => t
theorem walkTypes_total : ∀ (ts : List Term) {names : List Str} (p : Str) (quant : Count) (known : List (Str × Known)) (id : Nat) (st : TypeState), inSightAll names ts = true → deepList Term.Fruitful ts → KnowsNames names known →
    ∃ st', walkTypes camel rnd ts p quant known id st = some st'
  | [], _, _, _, _, _, st, _, _, _ => ⟨st, by simp only [walkTypes]⟩
  | t :: ts, _, p, qu, kn, id, st, hs, hd, hk => by
    simp only [inSightAll, Bool.and_eq_true] at hs
    obtain ⟨st1, e1⟩ := walkType_total t p qu kn id st hs.1 hd.1 hk
    simp only [walkTypes, e1, Option.bind_some]
    exact walkTypes_total ts p qu kn id st1 hs.2 hd.2 hk
termination_by structural ts => ts
theorem walkAlternatives_total : ∀ (ts : List Term) {names : List Str} (p : Str) (quant : Count) (known : List (Str × Known)) (st : TypeState), inSightAll names ts = true → deepList Term.Fruitful ts → KnowsNames names known →
    ∃ st', walkAlternatives camel rnd ts p quant known st = some st'
  | [], _, _, _, _, st, _, _, _ => ⟨st, by simp only [walkAlternatives]⟩
  | t :: ts, _, p, qu, kn, st, hs, hd, hk => by
    simp only [inSightAll, Bool.and_eq_true] at hs
    obtain ⟨st1, e1⟩ := walkType_total t p qu kn (rnd st.drawn) { st with drawn := st.drawn + 1 } hs.1 hd.1 hk
    simp only [walkAlternatives, e1, Option.bind_some]
    exact walkAlternatives_total ts p qu kn st1 hs.2 hd.2 hk
termination_by structural ts => ts
theorem walkRules_total : ∀ (g : List (Str × Term)) {names : List Str} (pre : Str) (known : List (Str × Known)) (st : TypeState), inSightRules names g = true → (∀ e ∈ g, e.2.adds = true) →
    deepDefs Term.Fruitful g → (∀ r, r ∈ names → r ≠ atRule → ∃ t, lookup r known = some (.type t)) →
    ∃ st', walkRules camel rnd pre g known st = some st'
  | [], _, _, _, st, _, _, _, _ => ⟨st, by simp only [walkRules]⟩
  | (r, t) :: g, _, pre, known, st, hs, ha, hd, hk => by
    simp only [inSightRules, Bool.and_eq_true] at hs
    have hk' : KnowsNames _ (pushRuleName r (pre ++ goName camel r) known) :=
      ⟨fun k hm hne => by rw [pushRuleName, lookup_mapSet_ne hne]; exact hk k hm hne, r, _, by rw [pushRuleName, lookup_mapSet_self]⟩
    obtain ⟨st1, e1⟩ := walkType_total t (pre ++ goName camel r) wantOne _ (rnd st.drawn) { st with drawn := st.drawn + 1 } hs.1 hd.1 hk'
    simp only [walkRules, e1, Option.bind_some]
    have h := walkType_has t (ha (r, t) (by simp)) e1
    obtain ⟨ty, hty⟩ := Option.ne_none_iff_exists'.1 h
    rw [hty]
    exact walkRules_total g pre known _ hs.2 (fun e he => ha e (List.mem_cons_of_mem _ he)) hd.2 hk
termination_by structural g => g
end
end

theorem makeTypes_total {camel : Str → Str} {rnd} {g : Grammar} (hs : inSightRules (g.map Prod.fst) g = true) (ha : ∀ e ∈ g, e.2.adds = true)
    (hd : g.Deep Term.Fruitful) : ∃ tm, makeTypes camel rnd g = some tm := by
  have hk := merge_names (camel := camel) (pre := []) (names := []) g (known := []) (by simp)
  obtain ⟨st, h⟩ := walkRules_total (camel := camel) (rnd := rnd) g [] _ ⟨[], 0⟩ hs ha hd (by simpa using hk)
  exact ⟨_, by rw [makeTypes, h]; rfl⟩

end Wbnf

import Verif.Lemmas.TypesDecl
import Verif.Lemmas.TypesRules

/-!
# The walk over a grammar declares each accessor once
-/

namespace Wbnf

theorem onceFrom_append : ∀ (us vs done : List Usage), onceFrom done (us ++ vs) = (onceFrom done us && onceFrom (done ++ us) vs)
  | [], _, _ => by simp [onceFrom]
  | u :: us, vs, done => by simp [onceFrom, onceFrom_append us vs, Bool.and_assoc]

/-- What is known of `@`. -/
def KnownSelf (self home : Str) (known : List (Str × Known)) : Prop := ∀ i q, lookup atRule known = some (.stackInfo i q) → i = self ∧ q = home

theorem KnownSelf.push (r q : Str) (known) : KnownSelf r q (pushRuleName r q known) := by
  intro i q' h
  rw [pushRuleName, lookup_mapSet_self] at h
  simp only [Option.some.injEq, Known.stackInfo.injEq] at h
  exact ⟨h.1.symm, h.2.symm⟩

theorem KnownSelf.merge {camel : Str → Str} {self home pre} : ∀ (g : Grammar) {known}, KnownSelf self home known → KnownSelf self home (mergeRules camel pre known g)
  | [], _, h => h
  | (k, t) :: g, known, h => by
    simp only [mergeRules]
    refine KnownSelf.merge g ?_
    intro i q hl
    rw [lookup_mapSet] at hl
    split at hl
    · simp at hl
    · exact h i q hl

/-- Rules with `@` may be children of themselves. -/
def SelfClosed (camel : Str → Str) (us : List Usage) (qs : List (Str × Str)) : Prop :=
  ∀ q ∈ qs, (∃ u ∈ us, u.purpose = .self ∧ u.type = goTypeName camel q.2) → ⟨goTypeName camel q.2, q.1, .self, goTypeName camel q.2⟩ ∈ us

theorem SelfClosed.left {camel : Str → Str} {us qs qs'} (h : SelfClosed camel us (qs ++ qs')) : SelfClosed camel us qs :=
  fun q hq => h q (List.mem_append_left _ hq)

theorem SelfClosed.right {camel : Str → Str} {us qs qs'} (h : SelfClosed camel us (qs ++ qs')) : SelfClosed camel us qs' :=
  fun q hq => h q (List.mem_append_right _ hq)

/-- What the walk of a term with these uses of names does. -/
def Spends (camel : Str → Str) (us vs : List Usage) (tm tm' : TypeMap) : Prop :=
  ∀ done, (∀ u ∈ vs, u ∈ us) → DeclOK camel us done tm → onceFrom done vs = true → DeclOK camel us (done ++ vs) tm'

theorem Spends.refl {camel : Str → Str} {us tm} : Spends camel us [] tm tm := by
  intro done _ hd _; simpa using hd

theorem Spends.trans {camel : Str → Str} {us vs ws tm tm' tm''} (h : Spends camel us vs tm tm') (h' : Spends camel us ws tm' tm'') :
    Spends camel us (vs ++ ws) tm tm'' := by
  intro done hm hd hr
  rw [onceFrom_append, Bool.and_eq_true] at hr
  rw [← List.append_assoc]
  exact h' _ (fun u hu => hm u (List.mem_append_right _ hu)) (h done (fun u hu => hm u (List.mem_append_left _ hu)) hd hr.1) hr.2

theorem Spends.add {camel : Str → Str} {us tm p} {m : Member} (hu : Untangled camel us) {u} (e : m.usage camel (goTypeName camel p) = u) :
    Spends camel us [u] tm (addMember camel p m tm) := by
  subst e
  intro done hm hd hr
  exact hd.add hu (hm _ (by simp)) hr

theorem needsStackChild_back {r : Str} : ∀ {ms : List Member} {need : Bool},
    needsStackChild r ms need = true → need = true ∨ ∃ m ∈ ms, m.purpose = .self := by
  intro ms
  induction ms with
  | nil => intro need h; exact .inl h
  | cons m ms ih =>
    intro need h
    cases m with
    | stackBackRef n p => exact .inr ⟨_, List.mem_cons_self .., rfl⟩
    | _ =>
      simp only [needsStackChild] at h
      exact (ih h).imp_right fun ⟨x, hx, e⟩ => ⟨x, by simp [hx], e⟩

mutual
theorem walkType_decl {camel : Str → Str} {rnd us} (hu : Untangled camel us) : ∀ (t : Term) {self home p quant known id st st'},
    KnownSelf self home known → SelfClosed camel us (t.innerRules camel p) → walkType camel rnd t p quant known id st = some st' →
    Spends camel us (t.usages camel self home p) st.types st'.types
  | .s _, _, _, _, _, _, _, _, _, _, _, h => by
    simp only [walkType, Option.some.injEq] at h; subst h
    exact .add hu rfl
  | .re _, _, _, _, _, _, _, _, _, _, _, h => by
    simp only [walkType, Option.some.injEq] at h; subst h
    exact .add hu rfl
  | .rule r, _, _, _, _, _, _, _, _, hk, _, h => by
    simp only [walkType, Option.map_eq_some_iff] at h
    obtain ⟨m, hm, rfl⟩ := h
    unfold ruleMember at hm
    simp only [Term.usages]
    split at hm
    · rename_i e
      subst e
      rw [if_pos rfl]
      split at hm
      · rename_i i q hl
        obtain ⟨rfl, rfl⟩ := hk _ _ hl
        obtain rfl := Option.some.inj hm
        exact .add hu rfl
      · simp at hm
    · rename_i e
      rw [if_neg e]
      split at hm
      · obtain rfl := Option.some.inj hm
        exact .add hu rfl
      · simp at hm
  | .ref _ _, _, _, _, _, _, _, _, _, _, _, h => by
    simp only [walkType, Option.some.injEq] at h; subst h
    exact .add hu rfl
  | .ext _, _, _, _, _, _, _, _, _, _, _, h => by
    simp only [walkType, Option.some.injEq] at h; subst h
    exact .refl
  | .scope t g, _, _, _, _, _, _, _, _, hk, hb, h => by
    simp only [walkType, Option.bind_eq_some_iff] at h
    obtain ⟨st1, h1, h2⟩ := h
    simp only [Term.innerRules] at hb
    exact (walkRules_decl hu g hb.left h1).trans (walkType_decl hu t (hk.merge g) hb.right h2)
  | .seq ts, _, _, _, _, _, _, _, _, hk, hb, h => by
    simp only [walkType] at h
    exact walkTypes_decl hu ts hk hb h
  | .stack ts, _, _, _, _, _, _, _, _, hk, hb, h => by
    simp only [walkType] at h
    exact walkTypes_decl hu ts hk hb h
  | .oneof ts, _, _, _, _, _, _, _, _, hk, hb, h => by
    simp only [walkType] at h
    exact (Spends.add hu rfl).trans (walkAlternatives_decl hu ts hk hb h)
  | .delim t sep _ _ _, self, home, p, _, known, id, _, _, hk, hb, h => by
    simp only [walkType, Option.bind_eq_some_iff] at h
    obtain ⟨st1, h1, h2⟩ := h
    simp only [Term.innerRules] at hb
    have rec1 := walkType_decl hu t hk hb.left h1
    replace hb := hb.right
    have rec2 := fun {p q s'} => walkType_decl hu sep (rnd := rnd) (self := self) (home := home) (p := p) (quant := q) (known := known) (id := id) (st := st1) (st' := s') hk
    simp only [Term.usages]
    refine rec1.trans ?_
    split at h2
    · simp only [Option.some.injEq] at h2; subst h2; exact .add hu rfl
    · simp only [Option.some.injEq] at h2; subst h2; exact .add hu rfl
    · exact rec2 hb h2
    · exact rec2 hb h2
    · simp only [Option.some.injEq] at h2; subst h2; exact .refl
    · simp only [Option.some.injEq] at h2; subst h2; exact .refl
    · cases sep <;> simp only at hb h2 ⊢ <;> first | exact rec2 hb h2 | (exfalso; simp_all)
  | .named n t, self, home, p, _, known, id, _, _, hk, hb, h => by
    have rec1 := fun {p q s s'} => walkType_decl hu t (rnd := rnd) (self := self) (home := home) (p := p) (quant := q) (known := known) (id := id) (st := s) (st' := s') hk
    rw [walkType.eq_def] at h
    rw [Term.innerRules.eq_def] at hb
    rw [Term.usages.eq_def]
    simp only at h hb ⊢
    split at h
    · simp only [Option.map_eq_some_iff] at h
      obtain ⟨m, hm, rfl⟩ := h
      unfold namedRuleMember at hm
      simp only
      split at hm
      · rename_i e
        subst e
        rw [if_pos rfl]
        split at hm
        · rename_i i q hl
          obtain ⟨rfl, rfl⟩ := hk _ _ hl
          obtain rfl := Option.some.inj hm
          exact .add hu rfl
        · simp at hm
      · rename_i e
        rw [if_neg e]
        obtain rfl := Option.some.inj hm
        exact .add hu rfl
    · simp only [Option.some.injEq] at h; subst h; exact .add hu rfl
    · simp only [Option.some.injEq] at h; subst h; exact .add hu rfl
    · simp only [Option.some.injEq] at h; subst h; exact .add hu rfl
    · simp only [Option.map_eq_some_iff] at h
      obtain ⟨st1, h1, rfl⟩ := h
      cases t <;> simp only at hb ⊢ <;> first | exact (rec1 hb h1).trans (.add hu rfl) | (exfalso; simp_all)
  | .quant t _ _, _, _, _, _, _, _, _, _, hk, hb, h => by simp only [walkType] at h; exact walkType_decl hu t hk hb h
  | .cut t, _, _, _, _, _, _, _, _, hk, hb, h => by simp only [walkType] at h; exact walkType_decl hu t hk hb h
  | .look t, _, _, _, _, _, _, _, _, hk, hb, h => by simp only [walkType] at h; exact walkType_decl hu t hk hb h
termination_by structural t => t
theorem walkTypes_decl {camel : Str → Str} {rnd us} (hu : Untangled camel us) : ∀ (ts : List Term) {self home p quant known id st st'},
    KnownSelf self home known → SelfClosed camel us (innerRulesList camel ts p) → walkTypes camel rnd ts p quant known id st = some st' →
    Spends camel us (usagesList camel self home ts p) st.types st'.types
  | [], _, _, _, _, _, _, _, _, _, _, h => by simp only [walkTypes, Option.some.injEq] at h; subst h; exact .refl
  | t :: ts, _, _, _, _, _, _, _, _, hk, hb, h => by
    simp only [walkTypes, Option.bind_eq_some_iff] at h
    obtain ⟨st1, h1, h2⟩ := h
    simp only [innerRulesList] at hb
    exact (walkType_decl hu t hk hb.left h1).trans (walkTypes_decl hu ts hk hb.right h2)
termination_by structural ts => ts
theorem walkAlternatives_decl {camel : Str → Str} {rnd us} (hu : Untangled camel us) : ∀ (ts : List Term) {self home p quant known st st'},
    KnownSelf self home known → SelfClosed camel us (innerRulesList camel ts p) → walkAlternatives camel rnd ts p quant known st = some st' →
    Spends camel us (usagesList camel self home ts p) st.types st'.types
  | [], _, _, _, _, _, _, _, _, _, h => by simp only [walkAlternatives, Option.some.injEq] at h; subst h; exact .refl
  | t :: ts, _, _, _, _, _, st, _, hk, hb, h => by
    simp only [walkAlternatives, Option.bind_eq_some_iff] at h
    obtain ⟨st1, h1, h2⟩ := h
    simp only [innerRulesList] at hb
    exact (walkType_decl hu t (st := { st with drawn := st.drawn + 1 }) hk hb.left h1).trans (walkAlternatives_decl hu ts hk hb.right h2)
termination_by structural ts => ts
theorem walkRules_decl {camel : Str → Str} {rnd us} (hu : Untangled camel us) : ∀ (g : List (Str × Term)) {pre known st st'},
    SelfClosed camel us (innerDefs camel pre g) → walkRules camel rnd pre g known st = some st' →
    Spends camel us (usagesRules camel pre g) st.types st'.types
  | [], _, _, _, _, _, h => by simp only [walkRules, Option.some.injEq] at h; subst h; exact .refl
  | (r, t) :: g, pre, known, st, st', hb, h => by
    simp only [walkRules, Option.bind_eq_some_iff] at h
    obtain ⟨st1, h1, h2⟩ := h
    simp only [innerDefs] at hb
    have hb1 : SelfClosed camel us (t.innerRules camel (pre ++ goName camel r) ++ innerDefs camel pre g) := fun q hq => hb q (List.mem_cons_of_mem _ hq)
    have w := walkType_decl hu t (st := { st with drawn := st.drawn + 1 }) (KnownSelf.push r _ known) hb1.left h1
    have rec2 := fun {s s'} => walkRules_decl hu g (rnd := rnd) (pre := pre) (known := known) (st := s) (st' := s') hb1.right
    split at h2
    · simp at h2
    · rename_i ty hl
      split at h2
      · rename_i hneed
        simp only [usagesRules]
        refine w.trans ?_
        intro rs hm hd hr
        refine rec2 h2 rs hm ?_ hr
        have hback : ⟨goTypeName camel (pre ++ goName camel r), r, .self, goTypeName camel (pre ++ goName camel r)⟩ ∈ us := by
          refine hb (r, pre ++ goName camel r) (by simp) ?_
          rcases needsStackChild_back hneed with h | ⟨m, hm, e⟩
          · simp at h
          · rcases (hd.types _ _ hl).2 with ⟨rfl, _⟩ | ⟨cs, rfl, hc⟩
            · simp [GoType.children] at hm
            · exact ⟨_, hc.mem m hm, e, rfl⟩
        exact (hd.add (m := .stackBackRef r (pre ++ goName camel r)) (p := pre ++ goName camel r) hu hback
          (by simp [onceFrom, Member.usage, Member.purpose])).forget (by simp [Member.usage, Member.purpose])
      · exact w.trans (rec2 h2)
termination_by structural g => g
end

theorem usages_closed (camel : Str → Str) (g : Grammar) : SelfClosed camel (g.usages camel) (innerDefs camel [] g) := by
  intro q hq h
  obtain ⟨u, hu, hp, ht⟩ := h
  simp only [Grammar.usages, List.mem_append, List.mem_map, List.mem_filter, List.any_eq_true, decide_eq_true_eq] at hu ⊢
  right
  refine ⟨q, ⟨hq, ?_⟩, rfl⟩
  rcases hu with hu | ⟨q', ⟨hq', v, hv, hvp, hvt⟩, rfl⟩
  · exact ⟨u, hu, hp, ht⟩
  · exact ⟨v, hv, hvp, hvt.trans ht⟩

theorem makeTypes_decl {camel : Str → Str} {rnd tm} {g : Grammar} (hu : Untangled camel (g.usages camel)) (h : makeTypes camel rnd g = some tm) :
    ∃ rs, DeclOK camel (g.usages camel) rs tm := by
  simp only [makeTypes, Option.map_eq_some_iff] at h
  obtain ⟨st, h, rfl⟩ := h
  have hr := hu.refs
  simp only [Grammar.usages, onceFrom_append, Bool.and_eq_true] at hr
  exact ⟨_, walkRules_decl hu g (usages_closed camel g) h [] (fun u hu => List.mem_append_left _ hu) ⟨by simp, by simp [lookup], by simp⟩ hr.1⟩

end Wbnf

import Verif.Lemmas.Types

/-!
# All names that a grammar uses get a member
-/

namespace Wbnf

/-- What the walk knows about the rules. -/
def KnownOK (camel : Str → Str) (self : Str) (known : List (Str × Known)) : Prop :=
  (∀ r x, r ≠ atRule → lookup r known = some (.type x) → x = goName camel r) ∧
  ∀ i p, lookup atRule known = some (.stackInfo i p) → i = self ∧ p = goName camel self

/-- From the types `tm` to the types `tm'`: members stay, and there are members for `es`. -/
def Walked (camel : Str → Str) (us es : List (Str × Str × Use)) (tm tm' : TypeMap) : Prop :=
  TypesOK camel us tm' ∧ (∀ ty k u, Present camel tm ty k u → Present camel tm' ty k u) ∧
  ∀ e ∈ es, Present camel tm' e.1 e.2.1 e.2.2

theorem Walked.refl {camel : Str → Str} {us tm} (h : TypesOK camel us tm) : Walked camel us [] tm tm :=
  ⟨h, fun _ _ _ h => h, by simp⟩

theorem Walked.trans {camel : Str → Str} {us es es' tm tm' tm''} (h : Walked camel us es tm tm') (h' : Walked camel us es' tm' tm'') :
    Walked camel us (es ++ es') tm tm'' := by
  refine ⟨h'.1, fun ty k u hp => h'.2.1 _ _ _ (h.2.1 _ _ _ hp), fun e he => ?_⟩
  rcases List.mem_append.1 he with he | he
  · exact h'.2.1 _ _ _ (h.2.2 e he)
  · exact h'.2.2 e he

theorem ChildName.ne {k : Str} (h : ChildName k) : k ≠ str "Token" ∧ k ≠ str "@choice" :=
  ⟨h.2, fun e => by have := h.1.2; rw [e] at this; revert this; decide⟩

/-- One member more, for a name. -/
theorem add_walked {camel : Str → Str} {us tm p} {m : Member} {u : Use} (ho : OneWay us) (h : TypesOK camel us tm)
    (hp : goTypeName camel m.parent = goTypeName camel p) (hc : ∀ c, m.count? = some c → c.Some)
    (hu : m.Uses camel u) (hmem : (goTypeName camel p, m.ident, u) ∈ us) (hk : ChildName m.ident) :
    Walked camel us [(goTypeName camel p, m.ident, u)] tm (addMember camel p m tm) := by
  have hm : m.Known camel us (goTypeName camel p) := ⟨hp, hc, .inl ⟨u, hu, hmem⟩⟩
  refine ⟨add_ok h hm, fun _ _ _ => add_keeps, fun e he => ?_⟩
  simp only [List.mem_singleton] at he
  subst he
  exact add_present ho h hm hu hmem hk.ne.1 hk.ne.2

/-- One member more, that is not for a name. -/
theorem add_other {camel : Str → Str} {us tm p} {m : Member} (h : TypesOK camel us tm)
    (hp : goTypeName camel m.parent = goTypeName camel p) (hc : ∀ c, m.count? = some c → c.Some)
    (hk : m.ident = str "Token" ∨ m.ident = str "@choice") :
    Walked camel us [] tm (addMember camel p m tm) :=
  ⟨add_ok h ⟨hp, hc, .inr hk⟩, fun _ _ _ => add_keeps, by simp⟩

theorem wantAll_some : wantAll.Some := .inr rfl
theorem wantOne_some : wantOne.Some := .inl rfl

theorem deepList_mem {P : Term → Prop} : ∀ {ts : List Term}, deepList P ts → ∀ t ∈ ts, t.Deep P
  | [], _ => by simp
  | t :: ts, h => by
    simp only [deepList] at h
    intro t' ht
    rcases List.mem_cons.1 ht with rfl | ht
    · exact h.1
    · exact deepList_mem h.2 t' ht

/-- Where `@` may be. -/
def AtOK (camel : Str → Str) (self : Str) (t : Term) (p : Str) : Prop := t.Deep (· ≠ .rule atRule) ∨ p = goName camel self

theorem namedRuleMember_walked {camel : Str → Str} {us tm g n r p quant known self m} {tm0 : TypeMap} (ho : OneWay us) (hk : KnownOK camel self known)
    (ht : Term.Typed camel tm0 g (.named n (.rule r))) (hat : AtOK camel self (.named n (.rule r)) p) (hq : quant.Some)
    (hu : ∀ e ∈ Term.nameUses camel self (.named n (.rule r)) p, e ∈ us) (hok : TypesOK camel us tm)
    (h : namedRuleMember n r p quant known = some m) :
    Walked camel us (Term.nameUses camel self (.named n (.rule r)) p) tm (addMember camel p m tm) := by
  simp only [Term.Typed] at ht
  unfold namedRuleMember at h
  by_cases e : r = atRule
  · subst e
    simp only [if_true] at h
    split at h
    · rename_i i q hl
      obtain ⟨rfl, rfl⟩ := hk.2 _ _ hl
      simp only [Option.some.injEq] at h
      subst h
      have hp : p = goName camel i := by
        rcases hat with hat | hat
        · exact absurd rfl hat.2
        · exact hat
      subst hp
      simp only [Term.nameUses, if_true] at hu ⊢
      exact add_walked (m := .stackBackRef n _) ho hok rfl (by simp [Member.count?]) rfl (hu _ (List.mem_singleton.2 rfl)) ht.1
    · simp at h
  · simp only [e, if_false, Option.some.injEq] at h
    subst h
    simp only [Term.nameUses, e, if_false] at hu ⊢
    rcases ht.2 with ht' | ht'
    · exact absurd ht' e
    · rw [ht'.1] at hu ⊢
      exact add_walked (m := .namedRule n p r quant) ho hok rfl (by simpa [Member.count?] using hq) ht'.2.1.symm (hu _ (List.mem_singleton.2 rfl)) ht.1

mutual
theorem walkType_walked {camel : Str → Str} {rnd us g self known} {tm : TypeMap} (ho : OneWay us) (hk : KnownOK camel self known) (hs : ChildName self) :
    ∀ (t : Term) {p quant id st st'}, t.Deep (Term.Typed camel tm g) → AtOK camel self t p → quant.Some →
      (∀ e ∈ t.nameUses camel self p, e ∈ us) → TypesOK camel us st.types → walkType camel rnd t p quant known id st = some st' →
      Walked camel us (t.nameUses camel self p) st.types st'.types
  | .s l, p, quant, id, st, st', _, _, hq, _, hok, h => by
    simp only [walkType, Option.some.injEq] at h
    subst h
    simp only [Term.nameUses]
    exact add_other hok rfl (by simpa [Member.count?] using hq.push id) (.inl rfl)
  | .re l, p, quant, id, st, st', _, _, hq, _, hok, h => by
    simp only [walkType, Option.some.injEq] at h
    subst h
    simp only [Term.nameUses]
    exact add_other hok rfl (by simpa [Member.count?] using hq.push id) (.inl rfl)
  | .rule r, p, quant, id, st, st', ht, hat, hq, hu, hok, h => by
    simp only [walkType, Option.map_eq_some_iff] at h
    obtain ⟨m, hm, rfl⟩ := h
    simp only [Term.nameUses] at hu ⊢
    unfold ruleMember at hm
    by_cases e : r = atRule
    · subst e
      simp only [if_true] at hm
      split at hm
      · rename_i i q hl
        obtain ⟨rfl, rfl⟩ := hk.2 _ _ hl
        simp only [Option.some.injEq] at hm
        subst hm
        have hp : p = goName camel i := by
          rcases hat with hat | hat
          · exact absurd rfl hat
          · exact hat
        subst hp
        simp only [referent, if_true] at hu ⊢
        exact add_walked (m := .stackBackRef i _) ho hok rfl (by simp [Member.count?]) rfl (hu _ (List.mem_singleton.2 rfl)) hs
      · simp at hm
    · simp only [e, if_false] at hm
      split at hm
      · rename_i x hl
        have hx := hk.1 _ _ e hl
        subst hx
        simp only [Option.some.injEq] at hm
        subst hm
        rcases ht with ht | ht
        · exact absurd ht e
        · simp only [referent, e, if_false, ht.2] at hu ⊢
          exact add_walked (m := .namedRule r p _ _) ho hok rfl (by simpa [Member.count?] using hq.push id) rfl (hu _ (List.mem_singleton.2 rfl)) ht.1
      · simp at hm
  | .ref i d, p, quant, id, st, st', ht, _, _, hu, hok, h => by
    simp only [walkType, Option.some.injEq] at h
    subst h
    simp only [Term.nameUses] at hu ⊢
    exact add_walked (m := .backRef i p) ho hok rfl (by simp [Member.count?]) trivial (hu _ (List.mem_singleton.2 rfl)) ht
  | .scope t g', _, _, _, _, _, ht, _, _, _, _, _ => by exact absurd ht.1 (by simp [Term.Typed])
  | .ext x, p, quant, id, st, st', _, _, _, _, hok, h => by
    simp only [walkType, Option.some.injEq] at h
    subst h
    exact .refl hok
  | .seq ts, p, quant, id, st, st', ht, hat, hq, hu, hok, h => by
    simp only [walkType] at h
    simp only [Term.nameUses] at hu ⊢
    exact walkTypes_walked ho hk hs ts ht.2 (hat.imp_left fun h => h.2) hq hu hok h
  | .stack ts, p, quant, id, st, st', ht, hat, hq, hu, hok, h => by
    simp only [walkType] at h
    simp only [Term.nameUses] at hu ⊢
    exact walkTypes_walked ho hk hs ts ht.2 (hat.imp_left fun h => h.2) hq hu hok h
  | .oneof ts, p, quant, id, st, st', ht, hat, hq, hu, hok, h => by
    simp only [walkType] at h
    simp only [Term.nameUses] at hu ⊢
    have h1 : Walked camel us [] st.types (st.add camel p (.choice p)).types := add_other hok rfl (by simp [Member.count?]) (.inr rfl)
    exact h1.trans (walkAlternatives_walked ho hk hs ts ht.2 (hat.imp_left fun h => h.2) hq hu h1.1 h)
  | .delim t sep a cs ce, p, quant, id, st, st', ht, hat, hq, hu, hok, h => by
    simp only [walkType, Option.bind_eq_some_iff] at h
    obtain ⟨st1, h1, h2⟩ := h
    simp only [Term.nameUses, List.mem_append] at hu ⊢
    have w1 := walkType_walked ho hk hs t ht.2.1 (hat.imp_left fun h => h.2.1) wantAll_some (fun e he => hu e (.inl he)) hok h1
    refine w1.trans ?_
    have hsep := ht.1
    simp only [Term.Typed] at hsep
    have hat2 : AtOK camel self sep p := hat.imp_left fun h => h.2.2
    have hu2 : ∀ e ∈ sep.nameUses camel self p, e ∈ us := fun e he => hu e (.inr he)
    have rec2 := fun {quant} => walkType_walked (rnd := rnd) (known := known) (tm := tm) (g := g) (us := us) ho hk hs sep (p := p) (quant := quant) (id := id) (st := st1) (st' := st') ht.2.2 hat2
    cases sep with
    | s l => simp only [Option.some.injEq] at h2; subst h2; simpa [Term.nameUses] using Walked.refl w1.1
    | cut t' =>
      simp only [Option.some.injEq] at h2; subst h2
      cases t' <;> simp only [Term.PlainSep] at hsep
      simpa [Term.nameUses] using Walked.refl w1.1
    | named n t' =>
      have hn : ChildName n := ht.2.2.1.1
      cases t' with
      | s l =>
        simp only [Option.some.injEq] at h2; subst h2
        simp only [Term.nameUses] at hu2 ⊢
        exact add_walked (m := .namedToken n p quant) ho w1.1 rfl (by simpa [Member.count?] using hq) trivial (hu2 _ (List.mem_singleton.2 rfl)) hn
      | cut l =>
        simp only [Option.some.injEq] at h2; subst h2
        simp only [Term.nameUses] at hu2 ⊢
        exact add_walked (m := .namedToken n p quant) ho w1.1 rfl (by simpa [Member.count?] using hq) trivial (hu2 _ (List.mem_singleton.2 rfl)) hn
      | _ => exact rec2 wantAll_some hu2 w1.1 h2
    | _ => simp [Term.PlainSep] at hsep
  | .named n t, p, quant, id, st, st', ht, hat, hq, hu, hok, h => by
    have hn : ChildName n := ht.1.1
    have rec1 := fun {q} {s'} => walkType_walked (rnd := rnd) (known := known) (tm := tm) (g := g) (us := us) ho hk hs t (p := q) (quant := quant) (id := id) (st := st) (st' := s') ht.2
    have group : ∀ {st'' : TypeState}, Term.Deep (· ≠ .rule atRule) t →
        Term.nameUses camel self (.named n t) p = (goTypeName camel p, n, .node (goTypeName camel (p ++ goName camel n))) :: t.nameUses camel self (p ++ goName camel n) →
        (walkType camel rnd t (p ++ goName camel n) quant known id st).map (fun st =>
          st.add camel p (.namedRule n p (p ++ goName camel n) quant)) = some st'' →
        Walked camel us (Term.nameUses camel self (.named n t) p) st.types st''.types := by
      intro st'' hd e h'
      simp only [Option.map_eq_some_iff] at h'
      obtain ⟨st1, h1, rfl⟩ := h'
      rw [e] at hu ⊢
      simp only [List.mem_cons, forall_eq_or_imp] at hu
      have w1 := rec1 (.inl hd) hq hu.2 hok h1
      have w2 := add_walked (p := p) (m := .namedRule n p (p ++ goName camel n) quant) (u := .node (goTypeName camel (p ++ goName camel n))) ho w1.1 rfl (by simpa [Member.count?] using hq) rfl hu.1 hn
      refine ⟨w2.1, fun ty k u hp => w2.2.1 _ _ _ (w1.2.1 _ _ _ hp), fun e he => ?_⟩
      rcases List.mem_cons.1 he with rfl | he
      · exact w2.2.2 _ (List.mem_singleton.2 rfl)
      · exact w2.2.1 _ _ _ (w1.2.2 e he)
    have token : Term.nameUses camel self (.named n t) p = [(goTypeName camel p, n, .text)] →
        Walked camel us (Term.nameUses camel self (.named n t) p) st.types (st.add camel p (.namedToken n p quant)).types := by
      intro e
      rw [e] at hu ⊢
      exact add_walked (m := .namedToken n p quant) ho hok rfl (by simpa [Member.count?] using hq) trivial (hu _ (List.mem_singleton.2 rfl)) hn
    have hty := ht.1.2
    cases t with
    | rule r =>
      simp only [walkType, Option.map_eq_some_iff] at h
      obtain ⟨m, hm, rfl⟩ := h
      exact namedRuleMember_walked ho hk ht.1 hat hq hu hok hm
    | re l => simp only [walkType, Option.some.injEq] at h; subst h; exact token (by simp [Term.nameUses])
    | s l => simp only [walkType, Option.some.injEq] at h; subst h; exact token (by simp [Term.nameUses])
    | cut l => simp only [walkType, Option.some.injEq] at h; subst h; exact token (by simp [Term.nameUses])
    | _ => rw [walkType.eq_def] at h; exact group hty (by rw [Term.nameUses.eq_def]) h
  | .quant t lo hi, p, quant, id, st, st', ht, hat, hq, hu, hok, h => by
    simp only [walkType] at h
    simp only [Term.nameUses] at hu ⊢
    refine walkType_walked ho hk hs t ht.2 (hat.imp_left fun h => h.2) ?_ hu hok h
    split
    · exact wantAll_some
    · exact hq
  | .cut t, p, quant, id, st, st', ht, hat, hq, hu, hok, h => by
    simp only [walkType] at h
    simp only [Term.nameUses] at hu ⊢
    exact walkType_walked ho hk hs t ht.2 (hat.imp_left fun h => h.2) hq hu hok h
  | .look t, p, quant, id, st, st', ht, hat, hq, hu, hok, h => by
    simp only [walkType] at h
    simp only [Term.nameUses] at hu ⊢
    exact walkType_walked ho hk hs t ht.2 (hat.imp_left fun h => h.2) hq hu hok h
termination_by structural t => t
theorem walkTypes_walked {camel : Str → Str} {rnd us g self known} {tm : TypeMap} (ho : OneWay us) (hk : KnownOK camel self known) (hs : ChildName self) :
    ∀ (ts : List Term) {p quant id st st'}, deepList (Term.Typed camel tm g) ts → (deepList (· ≠ .rule atRule) ts ∨ p = goName camel self) → quant.Some →
      (∀ e ∈ nameUsesList camel self ts p, e ∈ us) → TypesOK camel us st.types → walkTypes camel rnd ts p quant known id st = some st' →
      Walked camel us (nameUsesList camel self ts p) st.types st'.types
  | [], p, quant, id, st, st', _, _, _, _, hok, h => by
    simp only [walkTypes, Option.some.injEq] at h
    subst h
    exact .refl hok
  | t :: ts, p, quant, id, st, st', ht, hat, hq, hu, hok, h => by
    simp only [walkTypes, Option.bind_eq_some_iff] at h
    obtain ⟨st1, h1, h2⟩ := h
    simp only [nameUsesList, List.mem_append] at hu ⊢
    have w1 := walkType_walked ho hk hs t ht.1 (hat.imp_left fun h => h.1) hq (fun e he => hu e (.inl he)) hok h1
    exact w1.trans (walkTypes_walked ho hk hs ts ht.2 (hat.imp_left fun h => h.2) hq (fun e he => hu e (.inr he)) w1.1 h2)
termination_by structural ts => ts
theorem walkAlternatives_walked {camel : Str → Str} {rnd us g self known} {tm : TypeMap} (ho : OneWay us) (hk : KnownOK camel self known) (hs : ChildName self) :
    ∀ (ts : List Term) {p quant st st'}, deepList (Term.Typed camel tm g) ts → (deepList (· ≠ .rule atRule) ts ∨ p = goName camel self) → quant.Some →
      (∀ e ∈ nameUsesList camel self ts p, e ∈ us) → TypesOK camel us st.types → walkAlternatives camel rnd ts p quant known st = some st' →
      Walked camel us (nameUsesList camel self ts p) st.types st'.types
  | [], p, quant, st, st', _, _, _, _, hok, h => by
    simp only [walkAlternatives, Option.some.injEq] at h
    subst h
    exact .refl hok
  | t :: ts, p, quant, st, st', ht, hat, hq, hu, hok, h => by
    simp only [walkAlternatives, Option.bind_eq_some_iff] at h
    obtain ⟨st1, h1, h2⟩ := h
    simp only [nameUsesList, List.mem_append] at hu ⊢
    have w1 := walkType_walked (st := { st with drawn := st.drawn + 1 }) ho hk hs t ht.1 (hat.imp_left fun h => h.1) hq (fun e he => hu e (.inl he)) hok h1
    exact w1.trans (walkAlternatives_walked ho hk hs ts ht.2 (hat.imp_left fun h => h.2) hq (fun e he => hu e (.inr he)) w1.1 h2)
termination_by structural ts => ts
end

end Wbnf

import Verif.Lemmas.TypesDeclWalk
import Verif.Lemmas.Parts

/-!
# Methods and types that are declared
-/

namespace Wbnf

theorem nodup_flatMap_of {α β : Type} {f : α → List β} : ∀ {l : List α}, (∀ a ∈ l, (f a).Nodup) →
    l.Pairwise (fun a b => ∀ x ∈ f a, x ∉ f b) → (l.flatMap f).Nodup
  | [], _, _ => by simp
  | a :: l, h, hp => by
    simp only [List.flatMap_cons, List.nodup_append]
    obtain ⟨h1, h2⟩ := List.pairwise_cons.1 hp
    refine ⟨h a (by simp), nodup_flatMap_of (fun b hb => h b (by simp [hb])) h2, ?_⟩
    intro x hx y hy e
    subst e
    obtain ⟨b, hb, hy⟩ := List.mem_flatMap.1 hy
    exact h1 b hb x hx hy

/-- What a method is called. -/
def MethodDecl.header (d : MethodDecl) : Str × Str := (d.receiver, d.name)

theorem member_headers {camel : Str → Str} {ty} {m : Member} (hr : goTypeName camel m.parent = ty) :
    ((m.methods camel).map MethodDecl.header).Nodup ∧ ∀ x ∈ (m.methods camel).map MethodDecl.header, x.1 = ty ∧ x.2 ∈ (m.usage camel ty).accessors camel := by
  have oneAll : ∀ x y : Str, str "One" ++ x ≠ str "All" ++ y := by
    intro x y e
    have := congrArg List.head? e
    simp [str] at this
  subst hr
  cases m with
  | choice p => simp [Member.methods, MethodDecl.header, Member.usage, Usage.accessors, Member.purpose, Member.parent]
  | backRef n p => simp [Member.methods, MethodDecl.header, Member.usage, Usage.accessors, Member.purpose, Member.parent, Member.ident]
  | stackBackRef n p => simp [Member.methods, ruleMethods, wantAll, MethodDecl.header, Member.usage, Usage.accessors, Member.purpose, Member.parent, Member.ident]
  | namedToken n p c =>
    simp only [Member.methods, Member.usage, Usage.accessors, Member.purpose, Member.parent, Member.ident]
    cases c.one <;> cases c.all <;> simp [MethodDecl.header, oneAll]
  | unnamedToken p c =>
    simp only [Member.methods, Member.usage, Usage.accessors, Member.purpose, Member.parent]
    have : str "OneToken" ≠ str "AllToken" := by decide
    cases c.one <;> cases c.all <;> simp [MethodDecl.header, this]
  | namedRule n p t c =>
    simp only [Member.methods, ruleMethods, Member.usage, Usage.accessors, Member.purpose, Member.parent, Member.ident]
    cases c.one <;> cases c.all <;> simp [MethodDecl.header, oneAll]

theorem DeclOK.declares {camel : Str → Str} {us rs tm} (h : DeclOK camel us rs tm) : ∀ e ∈ tm, e.2.declares camel = e.1 := by
  rintro ⟨ty, x⟩ he
  obtain ⟨⟨p, rfl⟩, hx⟩ := h.types ty x (lookup_of_mem h.keys he)
  rcases hx with ⟨rfl, _⟩ | ⟨cs, rfl, _⟩ <;> exact goTypeName_node camel _

theorem type_headers {camel : Str → Str} {us rs tm} (hu : Untangled camel us) (h : DeclOK camel us rs tm) {ty x} (hx : (ty, x) ∈ tm) :
    ((x.methods camel).map MethodDecl.header).Nodup ∧ ∀ y ∈ (x.methods camel).map MethodDecl.header, y.1 = ty := by
  obtain ⟨⟨p, rfl⟩, hx⟩ := h.types ty x (lookup_of_mem h.keys hx)
  rcases hx with ⟨rfl, _⟩ | ⟨cs, rfl, hc⟩
  · simp only [GoType.methods, List.map_cons, List.map_nil, MethodDecl.header, List.mem_singleton]
    refine ⟨by simp, ?_⟩
    rintro y rfl
    exact goTypeName_node camel _
  · have hrec : ∀ m ∈ cs, goTypeName camel m.parent = goTypeName camel p := fun m hm => hu.receivers _ (hc.mem m hm)
    simp only [GoType.methods, List.map_flatMap]
    refine ⟨nodup_flatMap_of (fun m hm => (member_headers (hrec m hm)).1) ?_, ?_⟩
    · have hp : cs.Pairwise fun a b => (a.ident, a.purpose) ≠ (b.ident, b.purpose) := List.pairwise_map.1 hc.nodup
      refine hp.imp_of_mem ?_
      intro a b ha hb hne y hy hy'
      exact hu.accessors _ (hc.mem a ha) _ (hc.mem b hb) rfl hne _ ((member_headers (hrec a ha)).2 y hy).2 ((member_headers (hrec b hb)).2 y hy').2
    · intro y hy
      obtain ⟨m, hm, hy⟩ := List.mem_flatMap.1 hy
      exact ((member_headers (hrec m hm)).2 y hy).1

theorem methods_nodup {camel : Str → Str} {us rs tm} (hu : Untangled camel us) (h : DeclOK camel us rs tm) :
    ((allMethods camel tm).map MethodDecl.header).Nodup := by
  simp only [allMethods, List.map_flatMap]
  refine nodup_flatMap_of (fun e he => (type_headers hu h he).1) ?_
  have hp : tm.Pairwise fun a b => a.1 ≠ b.1 := List.pairwise_map.1 h.keys
  refine hp.imp_of_mem ?_
  intro a b ha hb hne y hy hy'
  exact hne (((type_headers hu h ha).2 y hy).symm.trans ((type_headers hu h hb).2 y hy'))

/-! ## Types only -/

/-- The keys are the types. -/
def Keyed (camel : Str → Str) (tm : TypeMap) : Prop :=
  (tm.map Prod.fst).Nodup ∧ ∀ e ∈ tm, e.2.declares camel = e.1

theorem Keyed.add {camel : Str → Str} {tm p m} (h : Keyed camel tm) : Keyed camel (addMember camel p m tm) := by
  refine ⟨(mapSet_keys h.1).1, fun e he => ?_⟩
  rcases mem_mapSet he with rfl | he
  · have : goTypeName camel (goTypeName camel p) = goTypeName camel p := goTypeName_node camel _
    simp only
    split
    · exact this
    · exact this
    · split
      · split <;> exact this
      · exact this
  · exact h.2 e he

theorem MoreTypes.keyed {camel : Str → Str} {tm tm'} (h : MoreTypes camel tm tm') (hk : Keyed camel tm) : Keyed camel tm' := by
  induction h with
  | refl => exact hk
  | add _ ih => exact ih.add

theorem makeTypes_keyed {camel : Str → Str} {rnd tm} {g : Grammar} (h : makeTypes camel rnd g = some tm) : Keyed camel tm := by
  simp only [makeTypes, Option.map_eq_some_iff] at h
  obtain ⟨st, h, rfl⟩ := h
  exact (walkRules_more g h).keyed ⟨by simp, by simp⟩

theorem MoreTypes.has {camel : Str → Str} {tm tm' ty} (h : MoreTypes camel tm tm') (hk : lookup ty tm ≠ none) : lookup ty tm' ≠ none := by
  induction h with
  | refl => exact hk
  | add _ ih =>
    unfold addMember
    simp only
    rw [lookup_mapSet]
    split
    · simp
    · exact ih

theorem add_has {camel : Str → Str} {tm p m} : lookup (goTypeName camel p) (addMember camel p m tm) ≠ none := by
  unfold addMember; simp only; rw [lookup_mapSet_self]; simp

/-! ## Types that are there -/

mutual
theorem walkType_has {camel : Str → Str} {rnd} : ∀ (t : Term) {p quant known id st st'}, t.adds = true →
    walkType camel rnd t p quant known id st = some st' → lookup (goTypeName camel p) st'.types ≠ none
  | .s _, _, _, _, _, _, _, _, h => by simp only [walkType, Option.some.injEq] at h; subst h; exact add_has
  | .re _, _, _, _, _, _, _, _, h => by simp only [walkType, Option.some.injEq] at h; subst h; exact add_has
  | .rule r, _, _, _, _, _, _, _, h => by
    simp only [walkType, Option.map_eq_some_iff] at h
    obtain ⟨m, _, rfl⟩ := h
    exact add_has
  | .ref _ _, _, _, _, _, _, _, _, h => by simp only [walkType, Option.some.injEq] at h; subst h; exact add_has
  | .ext _, _, _, _, _, _, _, ha, _ => by simp [Term.adds] at ha
  | .scope t g, _, _, _, _, _, _, ha, h => by
    simp only [walkType, Option.bind_eq_some_iff] at h
    obtain ⟨st1, h1, h2⟩ := h
    exact walkType_has t ha h2
  | .seq ts, _, _, _, _, _, _, ha, h => by simp only [walkType] at h; exact walkTypes_has ts ha h
  | .stack ts, _, _, _, _, _, _, ha, h => by simp only [walkType] at h; exact walkTypes_has ts ha h
  | .oneof ts, _, _, _, _, _, _, _, h => by
    simp only [walkType] at h
    exact (walkAlternatives_more ts h).has add_has
  | .delim t sep _ _ _, _, _, _, _, _, st', ha, h => by
    simp only [walkType, Option.bind_eq_some_iff] at h
    obtain ⟨st1, h1, h2⟩ := h
    simp only [Term.adds, Bool.or_eq_true] at ha
    rcases ha with ha | ha
    · have h3 := walkType_has t ha h1
      have m2 : MoreTypes camel st1.types st'.types := by
        split at h2
        · simp only [Option.some.injEq] at h2; subst h2; exact .one
        · simp only [Option.some.injEq] at h2; subst h2; exact .one
        · exact walkType_more _ h2
        · simp only [Option.map_eq_some_iff] at h2
          obtain ⟨m, _, rfl⟩ := h2
          exact .one
        · simp only [Option.some.injEq] at h2; subst h2; exact .refl
        · simp only [Option.some.injEq] at h2; subst h2; exact .refl
        · exact walkType_more _ h2
      exact m2.has h3
    · have rec2 := fun {p q} {s'} => walkType_has sep (camel := camel) (rnd := rnd) (p := p) (quant := q) (known := ‹_›) (id := ‹_›) (st := st1) (st' := s')
      split at h2
      · simp only [Option.some.injEq] at h2; subst h2; exact add_has
      · simp only [Option.some.injEq] at h2; subst h2; exact add_has
      · exact rec2 rfl h2
      · simp at ha
      · simp at ha
      · simp at ha
      · cases sep <;> simp_all
  | .named n t, _, _, _, _, _, _, _, h => by
    rw [walkType.eq_def] at h
    simp only at h
    split at h
    · simp only [Option.map_eq_some_iff] at h
      obtain ⟨m, _, rfl⟩ := h
      exact add_has
    · simp only [Option.some.injEq] at h; subst h; exact add_has
    · simp only [Option.some.injEq] at h; subst h; exact add_has
    · simp only [Option.some.injEq] at h; subst h; exact add_has
    · simp only [Option.map_eq_some_iff] at h
      obtain ⟨st1, h1, rfl⟩ := h
      exact add_has
  | .quant t _ _, _, _, _, _, _, _, ha, h => by simp only [walkType] at h; exact walkType_has t ha h
  | .cut t, _, _, _, _, _, _, ha, h => by simp only [walkType] at h; exact walkType_has t ha h
  | .look t, _, _, _, _, _, _, ha, h => by simp only [walkType] at h; exact walkType_has t ha h
termination_by structural t => t
theorem walkTypes_has {camel : Str → Str} {rnd} : ∀ (ts : List Term) {p quant known id st st'}, addsAny ts = true →
    walkTypes camel rnd ts p quant known id st = some st' → lookup (goTypeName camel p) st'.types ≠ none
  | [], _, _, _, _, _, _, ha, _ => by simp [addsAny] at ha
  | t :: ts, _, _, _, _, _, _, ha, h => by
    simp only [walkTypes, Option.bind_eq_some_iff] at h
    obtain ⟨st1, h1, h2⟩ := h
    simp only [addsAny, Bool.or_eq_true] at ha
    rcases ha with ha | ha
    · exact (walkTypes_more ts h2).has (walkType_has t ha h1)
    · exact walkTypes_has ts ha h2
termination_by structural ts => ts
end

/-- All rules that were walked have types. -/
theorem walkRules_has {camel : Str → Str} {rnd pre known} : ∀ (g : List (Str × Term)) {st st'}, walkRules camel rnd pre g known st = some st' →
    ∀ e ∈ g, lookup (goTypeName camel (pre ++ goName camel e.1)) st'.types ≠ none
  | [], _, _, _ => by simp
  | (r, t) :: g, st, st', h => by
    simp only [walkRules, Option.bind_eq_some_iff] at h
    obtain ⟨st1, h1, h2⟩ := h
    split at h2
    · simp at h2
    · rename_i hl
      intro e he
      rcases List.mem_cons.1 he with rfl | he
      · refine (walkRules_more g h2).has ?_
        split
        · exact add_has
        · simp [hl]
      · exact walkRules_has g h2 e he

end Wbnf

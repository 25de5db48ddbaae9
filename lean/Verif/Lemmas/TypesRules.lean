import Verif.Lemmas.TypesWalk

/-!
# All names that a grammar uses get a method
-/

namespace Wbnf

theorem needsStackChild_spec {r : Str} : ∀ {ms : List Member} {need : Bool},
    needsStackChild r ms need = false → (need = true ∨ ∃ n p, .stackBackRef n p ∈ ms) → ∃ p, .stackBackRef r p ∈ ms := by
  intro ms
  induction ms with
  | nil => intro need h hx; simp_all [needsStackChild]
  | cons m ms ih =>
    intro need h hx
    by_cases hm : ∃ n p, m = .stackBackRef n p
    · obtain ⟨n, p, rfl⟩ := hm
      simp only [needsStackChild] at h
      by_cases e : n = r
      · subst e; exact ⟨p, by simp⟩
      · simp only [e, if_false] at h
        obtain ⟨q, hq⟩ := ih h (.inl rfl)
        exact ⟨q, by simp [hq]⟩
    · have h' : needsStackChild r ms need = false := by
        cases m <;> simp only [needsStackChild] at h <;> first | exact h | exact absurd ⟨_, _, rfl⟩ hm
      have : need = true ∨ ∃ n p, .stackBackRef n p ∈ ms := by
        rcases hx with hx | ⟨n, p, hx⟩
        · exact .inl hx
        · rcases List.mem_cons.1 hx with e | hx
          · exact absurd ⟨n, p, e.symm⟩ hm
          · exact .inr ⟨n, p, hx⟩
      obtain ⟨q, hq⟩ := ih h' this
      exact ⟨q, by simp [hq]⟩

/-- What is known of the rules in general. -/
def KnownRules (camel : Str → Str) (known : List (Str × Known)) : Prop :=
  ∀ r x, r ≠ atRule → lookup r known = some (.type x) → x = goName camel r

theorem KnownRules.push {camel : Str → Str} {known} (h : KnownRules camel known) (r : Str) :
    KnownOK camel r (pushRuleName r (goName camel r) known) := by
  constructor
  · intro r' x hr hl
    unfold pushRuleName at hl
    rw [lookup_mapSet_ne hr] at hl
    exact h r' x hr hl
  · intro i p hl
    unfold pushRuleName at hl
    rw [lookup_mapSet_self] at hl
    simp only [Option.some.injEq, Known.stackInfo.injEq] at hl
    exact ⟨hl.1.symm, hl.2.symm⟩

theorem KnownRules.merge {camel : Str → Str} : ∀ (g : Grammar) {known}, KnownRules camel known → KnownRules camel (mergeRules camel [] known g)
  | [], _, h => h
  | (k, t) :: g, known, h => by
    simp only [mergeRules]
    refine KnownRules.merge g ?_
    intro r x hr hl
    rw [lookup_mapSet] at hl
    split at hl
    · rename_i e; subst e; simpa using hl.symm
    · exact h r x hr hl

/-- What there is after the rule `r`. -/
def RuleDone (camel : Str → Str) (tm : TypeMap) (r : Str) (t : Term) : Prop :=
  (∀ e ∈ t.nameUses camel r (goName camel r), Present camel tm e.1 e.2.1 e.2.2) ∧
  ∀ n, (typeOf camel r, n, .self (typeOf camel r)) ∈ t.nameUses camel r (goName camel r) → Present camel tm (typeOf camel r) r (.node (typeOf camel r))

theorem deepDefs_mem {P : Term → Prop} : ∀ {g : List (Str × Term)}, deepDefs P g → ∀ r t, (r, t) ∈ g → t.Deep P
  | [], _ => by simp
  | (r', t') :: g, h => by
    simp only [deepDefs] at h
    intro r t hm
    rcases List.mem_cons.1 hm with e | hm
    · obtain ⟨rfl, rfl⟩ := Prod.mk.inj e
      exact h.1
    · exact deepDefs_mem h.2 r t hm

theorem uses_of_rule {camel : Str → Str} {g : Grammar} {r t} (h : (r, t) ∈ g) : ∀ e ∈ t.nameUses camel r (goName camel r), e ∈ g.nameUses camel := by
  intro e he
  simp only [Grammar.nameUses, List.mem_flatMap]
  exact ⟨(r, t), h, by simp [he]⟩

theorem uses_of_self {camel : Str → Str} {g : Grammar} {r t} (h : (r, t) ∈ g) : (typeOf camel r, r, .node (typeOf camel r)) ∈ g.nameUses camel := by
  simp only [Grammar.nameUses, List.mem_flatMap]
  exact ⟨(r, t), h, by simp⟩

theorem walkRules_done {camel : Str → Str} {rnd} {g : Grammar} {tm : TypeMap} (hg : g.Typed camel tm) {known} (hk : KnownRules camel known) :
    ∀ (rules : List (Str × Term)) {st st'}, (∀ e ∈ rules, e ∈ g) → TypesOK camel (g.nameUses camel) st.types →
      walkRules camel rnd [] rules known st = some st' →
      TypesOK camel (g.nameUses camel) st'.types ∧ (∀ ty k u, Present camel st.types ty k u → Present camel st'.types ty k u) ∧
      ∀ e ∈ rules, RuleDone camel st'.types e.1 e.2
  | [], st, st', _, hok, h => by
    simp only [walkRules, Option.some.injEq] at h
    subst h
    exact ⟨hok, fun _ _ _ h => h, by simp⟩
  | (r, t) :: rules, st, st', hsub, hok, h => by
    simp only [walkRules, Option.bind_eq_some_iff, List.nil_append] at h
    obtain ⟨st1, h1, h2⟩ := h
    have hm := hsub (r, t) (by simp)
    obtain ⟨hn, hsn⟩ := hg.names r t hm
    have w1 := walkType_walked (st := { st with drawn := st.drawn + 1 }) hg.oneWay (hk.push r) hn t (deepDefs_mem hg.deep r t hm) (.inr rfl)
      wantOne_some (uses_of_rule hm) hok h1
    cases hl : lookup (goTypeName camel (goName camel r)) st1.types with
    | none => rw [hl] at h2; simp at h2
    | some ty =>
      rw [hl] at h2
      simp only at h2
      have key : ∃ tm2 : TypeState, walkRules camel rnd [] rules known tm2 = some st' ∧ TypesOK camel (g.nameUses camel) tm2.types ∧
          (∀ ty k u, Present camel st1.types ty k u → Present camel tm2.types ty k u) ∧
          ∀ n, (typeOf camel r, n, .self (typeOf camel r)) ∈ t.nameUses camel r (goName camel r) →
            Present camel tm2.types (typeOf camel r) r (.node (typeOf camel r)) := by
        refine ⟨_, h2, ?_⟩
        -- a member from `name=@` is a stackBackRef
        have back : ∀ n, (typeOf camel r, n, .self (typeOf camel r)) ∈ t.nameUses camel r (goName camel r) →
            ∃ n p, .stackBackRef n p ∈ ty.children := by
          intro n hu
          obtain ⟨x, m, e1, e2, e3, e4⟩ := w1.2.2 _ hu
          simp only [typeOf] at e1
          rw [hl] at e1
          simp only [Option.some.injEq] at e1
          subst e1
          cases m <;> simp only [Member.Uses] at e4
          exact ⟨_, _, e2⟩
        cases hb : needsStackChild r ty.children false with
        | true =>
          simp only [if_true]
          have w2 := add_walked (p := goName camel r) (m := .stackBackRef r (goName camel r)) (u := .node (typeOf camel r)) hg.oneWay w1.1 rfl
            (by simp [Member.count?]) rfl (uses_of_self hm) hn
          exact ⟨w2.1, w2.2.1, fun n _ => w2.2.2 _ (List.mem_singleton.2 rfl)⟩
        | false =>
          simp only [Bool.false_eq_true, if_false]
          refine ⟨w1.1, fun _ _ _ h => h, fun n hu => ?_⟩
          obtain ⟨p, hp⟩ := needsStackChild_spec hb (.inr (back n hu))
          refine ⟨ty, _, hl, hp, rfl, ?_⟩
          obtain ⟨_, hx⟩ := w1.1 _ _ hl
          rcases hx with rfl | ⟨cs, rfl, hc⟩
          · simp [GoType.children] at hp
          · exact (hc _ hp).1.symm
      obtain ⟨st2, h3, hok2, hkeep, hself⟩ := key
      obtain ⟨i1, i2, i3⟩ := walkRules_done hg hk rules (fun e he => hsub e (by simp [he])) hok2 h3
      refine ⟨i1, fun ty k u hp => i2 _ _ _ (hkeep _ _ _ (w1.2.1 _ _ _ hp)), fun e he => ?_⟩
      rcases List.mem_cons.1 he with rfl | he
      · exact ⟨fun e he => i2 _ _ _ (hkeep _ _ _ (w1.2.2 e he)), fun n hu => i2 _ _ _ (hself n hu)⟩
      · exact i3 e he

end Wbnf

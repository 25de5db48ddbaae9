import Verif.Lemmas.TypesManyGrammar
import Verif.Lemmas.TypesVisit

/-!
# In typed grammars accessors are for names of children
-/

namespace Wbnf

section
variable {camel : Str → Str} {tm : TypeMap} {g : Grammar}

/-- An accessor for a child or for `@` has a name for children. -/
def Usage.Apt (u : Usage) : Prop := u.purpose = .child ∨ u.purpose = .self → ChildName u.name

mutual
theorem usages_apt {self home : Str} (hs : ChildName self) : ∀ (t : Term) (p : Str), t.Deep (Term.Typed camel tm g) → ∀ u ∈ t.usages camel self home p, u.Apt
  | .s _, p, _, u, hu => by simp only [Term.usages, List.mem_singleton] at hu; subst hu; simp [Usage.Apt]
  | .re _, p, _, u, hu => by simp only [Term.usages, List.mem_singleton] at hu; subst hu; simp [Usage.Apt]
  | .ext _, p, _, u, hu => by simp [Term.usages] at hu
  | .stack ts, p, ht, u, hu => by simp only [Term.usages] at hu; exact usagesList_apt hs ts p ht.2 u hu
  | .scope _ _, p, ht, _, _ => absurd ht.1 (by simp [Term.Typed])
  | .rule r, p, ht, u, hu => by
    simp only [Term.usages] at hu
    split at hu
    · simp only [List.mem_singleton] at hu; subst hu; exact fun _ => hs
    · rename_i hn
      simp only [List.mem_singleton] at hu; subst hu; exact fun _ => (ht.resolve_left hn).1
  | .ref i d, p, _, u, hu => by simp only [Term.usages, List.mem_singleton] at hu; subst hu; simp [Usage.Apt]
  | .seq ts, p, ht, u, hu => by simp only [Term.usages] at hu; exact usagesList_apt hs ts p ht.2 u hu
  | .oneof ts, p, ht, u, hu => by
    simp only [Term.usages, List.mem_cons] at hu
    rcases hu with rfl | hu
    · simp [Usage.Apt]
    · exact usagesList_apt hs ts p ht.2 u hu
  | .delim t sep a cs ce, p, ht, u, hu => by
    simp only [Term.usages, List.mem_append] at hu
    rcases hu with hu | hu
    · exact usages_apt hs t p ht.2.1 u hu
    · have := fun p => usages_apt (home := home) hs sep p ht.2.2
      split at hu
      · exact this _ u hu
      · exact this _ u hu
      · simp at hu
      · simp at hu
      · exact this _ u hu
  | .quant t lo hi, p, ht, u, hu => by simp only [Term.usages] at hu; exact usages_apt hs t p ht.2 u hu
  | .look t, p, ht, u, hu => by simp only [Term.usages] at hu; exact usages_apt hs t p ht.2 u hu
  | .cut t, p, ht, u, hu => by simp only [Term.usages] at hu; exact usages_apt hs t p ht.2 u hu
  | .named n t, p, ht, u, hu => by
    have hn : ChildName n := ht.1.1
    have rec1 := usages_apt (home := home) hs t (p ++ goName camel n) ht.2
    rw [Term.usages.eq_def] at hu
    simp only at hu
    split at hu
    · split at hu <;> simp only [List.mem_singleton] at hu <;> subst hu <;> exact fun _ => hn
    · simp only [List.mem_singleton] at hu; subst hu; exact fun _ => hn
    · simp only [List.mem_singleton] at hu; subst hu; exact fun _ => hn
    · simp only [List.mem_singleton] at hu; subst hu; exact fun _ => hn
    · simp only [List.mem_append, List.mem_singleton] at hu
      rcases hu with hu | rfl
      · exact rec1 u hu
      · exact fun _ => hn
termination_by structural t => t
theorem usagesList_apt {self home : Str} (hs : ChildName self) : ∀ (ts : List Term) (p : Str), deepList (Term.Typed camel tm g) ts → ∀ u ∈ usagesList camel self home ts p, u.Apt
  | [], p, _, u, hu => by simp [usagesList] at hu
  | t :: ts, p, ht, u, hu => by
    simp only [usagesList, List.mem_append] at hu
    rcases hu with hu | hu
    · exact usages_apt hs t p ht.1 u hu
    · exact usagesList_apt hs ts p ht.2 u hu
termination_by structural ts => ts
end

mutual
theorem innerRules_none : ∀ (t : Term) (p : Str), t.Deep (Term.Typed camel tm g) → t.innerRules camel p = []
  | .s _, p, _ => rfl
  | .re _, p, _ => rfl
  | .ext _, p, _ => rfl
  | .rule _, p, _ => rfl
  | .ref _ _, p, _ => rfl
  | .stack ts, p, ht => innerRulesList_none ts p ht.2
  | .scope _ _, p, ht => absurd ht.1 (by simp [Term.Typed])
  | .seq ts, p, ht => innerRulesList_none ts p ht.2
  | .oneof ts, p, ht => innerRulesList_none ts p ht.2
  | .delim t sep a cs ce, p, ht => by
    simp only [Term.innerRules, innerRules_none t p ht.2.1, List.nil_append]
    have := fun p => innerRules_none sep p ht.2.2
    split <;> first | rfl | exact this _
  | .quant t lo hi, p, ht => by simp only [Term.innerRules]; exact innerRules_none t p ht.2
  | .look t, p, ht => by simp only [Term.innerRules]; exact innerRules_none t p ht.2
  | .cut t, p, ht => by simp only [Term.innerRules]; exact innerRules_none t p ht.2
  | .named n t, p, ht => by
    have rec1 := innerRules_none t (p ++ goName camel n) ht.2
    rw [Term.innerRules.eq_def]
    simp only
    split
    · rfl
    · exact rec1
termination_by structural t => t
theorem innerRulesList_none : ∀ (ts : List Term) (p : Str), deepList (Term.Typed camel tm g) ts → innerRulesList camel ts p = []
  | [], p, _ => rfl
  | t :: ts, p, ht => by simp [innerRulesList, innerRules_none t p ht.1, innerRulesList_none ts p ht.2]
termination_by structural ts => ts
end

theorem usagesRules_apt {g0 : Grammar} : ∀ {g : List (Str × Term)} {pre : Str}, (∀ r t, (r, t) ∈ g → ChildName r ∧ t.Deep (Term.Typed camel tm g0)) →
    (∀ u ∈ usagesRules camel pre g, u.Apt) ∧ ∀ q ∈ innerDefs camel pre g, ChildName q.1
  | [], _, _ => by simp [usagesRules, innerDefs]
  | (r, t) :: g, pre, h => by
    obtain ⟨h1, h2⟩ := usagesRules_apt (g := g) (pre := pre) fun r t hm => h r t (by simp [hm])
    obtain ⟨hn, hd⟩ := h r t (by simp)
    refine ⟨fun u hu => ?_, fun q hq => ?_⟩
    · simp only [usagesRules, List.mem_append] at hu
      rcases hu with hu | hu
      · exact usages_apt hn t _ hd u hu
      · exact h1 u hu
    · simp only [innerDefs, innerRules_none t _ hd, List.nil_append, List.mem_cons] at hq
      rcases hq with rfl | hq
      · exact hn
      · exact h2 q hq

theorem Grammar.Typed.apt (ht : g.Typed camel tm) : ∀ u ∈ g.usages camel, u.Apt := by
  obtain ⟨h1, h2⟩ := usagesRules_apt (g := g) (pre := []) fun r t hm => ⟨(ht.names r t hm).1, deepDefs_mem ht.deep r t hm⟩
  intro u hu
  simp only [Grammar.usages, List.mem_append, List.mem_map, List.mem_filter] at hu
  rcases hu with hu | ⟨q, ⟨hq, _⟩, rfl⟩
  · exact h1 u hu
  · exact fun _ => h2 q hq

variable {rnd : Nat → Nat}

theorem makeTypes_declared (hm : makeTypes camel rnd g = some tm) (hu : Untangled camel (g.usages camel))
    (hd : g.Deep (Term.Makes (g.map fun e => typeOf camel e.1) camel)) : Declared camel tm (g.usages camel) :=
  ⟨hu, makeTypes_decl hu hm, makeTypes_sound hm, fun _ h _ he => makeTypes_closed hm hd h he⟩

/-- What an accessor is for. -/
theorem method_use (hm : makeTypes camel rnd g = some tm) (ht : g.Typed camel tm) (hD : Declared camel tm (g.usages camel)) {d} (hd : d ∈ allMethods camel tm)
    {k} (hk : d.does.of = some k) : ChildName k ∧ ∃ ty', d.does.returns = some ty' ∧ NodesOf (g.nameUses camel) d.receiver k ty' := by
  obtain ⟨⟨ty, x⟩, hx, hdx⟩ := List.mem_flatMap.1 hd
  cases x with
  | basic n => simp only [GoType.methods, List.mem_singleton] at hdx; subst hdx; simp [GoMethod.of] at hk
  | rule n cs =>
    obtain ⟨rfl, rs, hc⟩ := hD.children hx
    simp only [GoType.methods, List.mem_flatMap] at hdx
    obtain ⟨m, hmc, hdm⟩ := hdx
    have hapt := ht.apt _ (hc.mem m hmc)
    obtain ⟨-, hok⟩ := (makeTypes_done hm ht).1 _ _ (lookup_of_mem hD.keyed.1 hx)
    rcases hok with e | ⟨cs', e, hok⟩
    · simp at e
    obtain ⟨-, rfl⟩ := GoType.rule.inj e
    obtain ⟨hp, -, hu⟩ := hok m hmc
    cases m <;> simp only [Member.methods, ruleMethods, List.mem_append, List.mem_singleton] at hdm
    case choice => subst hdm; simp [GoMethod.of] at hk
    case backRef => subst hdm; simp [GoMethod.of] at hk
    case namedToken => rcases hdm with hm | hm <;> split at hm <;> simp only [List.not_mem_nil, List.mem_singleton] at hm <;> subst hm <;> simp [GoMethod.of] at hk
    case unnamedToken => rcases hdm with hm | hm <;> split at hm <;> simp only [List.not_mem_nil, List.mem_singleton] at hm <;> subst hm <;> simp [GoMethod.of] at hk
    case stackBackRef n' p =>
      have hcn : ChildName n' := hapt (.inr rfl)
      simp only [wantAll, Bool.false_eq_true, if_false, if_true, List.not_mem_nil, false_or, List.mem_singleton] at hdm
      subst hdm
      obtain rfl := Option.some.inj hk
      refine ⟨hcn, _, rfl, ?_⟩
      rcases hu with ⟨u, hu, hmem⟩ | hu | hu
      · cases u <;> simp only [Member.Uses] at hu
        · subst hu; simp only [Member.parent] at hp; simp only [hp] at *; exact .inl hmem
        · subst hu; simp only [Member.parent] at hp; simp only [hp] at *; exact .inr hmem
      · exact absurd hu hcn.ne.1
      · exact absurd hu hcn.ne.2
    case namedRule n' p t c =>
      have hcn : ChildName n' := hapt (.inl rfl)
      rcases hu with ⟨u, hu, hmem⟩ | hu | hu
      · cases u <;> simp only [Member.Uses] at hu
        subst hu
        simp only [Member.parent] at hp
        rcases hdm with hm | hm <;> split at hm <;> simp only [List.not_mem_nil, List.mem_singleton] at hm <;> subst hm <;>
          obtain rfl := Option.some.inj hk <;> exact ⟨hcn, _, rfl, .inl (by simp only [hp]; exact hmem)⟩
      · exact absurd hu hcn.ne.1
      · exact absurd hu hcn.ne.2

end

end Wbnf

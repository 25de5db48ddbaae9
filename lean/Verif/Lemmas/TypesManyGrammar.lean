import Verif.Lemmas.TypesNoted
import Verif.Lemmas.TypesGrammar

/-!
# Types of rules have accessors for all where there may be many
-/

namespace Wbnf

variable {camel : Str → Str} {rnd : Nat → Nat} {tm : TypeMap} {g G : Grammar}

theorem walkRules_each {known : List (Str × Known)} : ∀ (rules : List (Str × Term)) {st st'}, walkRules camel rnd [] rules known st = some st' →
    ∀ r t, (r, t) ∈ rules → ∃ id st1 st2, walkType camel rnd t (goName camel r) wantOne (pushRuleName r (goName camel r) known) id st1 = some st2 ∧
      MoreTypes camel st2.types st'.types
  | [], _, _, _ => by simp
  | (r0, t0) :: rules, st, st', h => by
    simp only [walkRules, Option.bind_eq_some_iff, List.nil_append] at h
    obtain ⟨st1, h1, h2⟩ := h
    split at h2
    · simp at h2
    · intro r t hm
      rcases List.mem_cons.1 hm with e | hm
      · obtain ⟨rfl, rfl⟩ := Prod.mk.inj e
        refine ⟨_, _, st1, h1, MoreTypes.trans ?_ (walkRules_more rules h2)⟩
        split
        · exact .one
        · exact .refl
      · exact walkRules_each rules h2 r t hm

theorem inLayerList_get {new : Option Str} : ∀ {ts : List Term} {t : Term}, t ∈ ts → t.inLayer new ∈ inLayerList new ts
  | [], _, h => by simp at h
  | u :: ts, t, h => by
    rw [inLayerList_cons]
    rcases List.mem_cons.1 h with rfl | h
    · simp
    · exact List.mem_cons_of_mem _ (inLayerList_get h)

theorem groupsOf_mem {p : Str} : ∀ {ts : List Term} {t : Term} {q}, t ∈ ts → q ∈ t.groups camel p → q ∈ groupsOf camel ts p
  | [], _, _, h, _ => by simp at h
  | u :: ts, t, q, h, hq => by
    simp only [groupsOf, List.mem_append]
    rcases List.mem_cons.1 h with rfl | h
    · exact .inl hq
    · exact .inr (groupsOf_mem h hq)

theorem many_known (hm : makeTypes camel rnd g = some tm) (ht : g.Typed camel tm) (hr : g.resolveStacks = some G) {r t} (hl : lookup r G = some t)
    {k : Str} (hk : k ≠ []) (hk' : k ≠ str "Token") :
    ∀ q ∈ (goName camel (shownName r), t) :: t.groups camel (goName camel (shownName r)), ManyKnown camel k tm q.1 q.2 := by
  have iff : ∀ {k t}, lookup k G = some t ↔ Layered g k t := resolveStacks_iff ht.rules ht.fresh hr
  simp only [makeTypes, Option.map_eq_some_iff] at hm
  obtain ⟨st, hw, rfl⟩ := hm
  have hkn : KnownRules camel (mergeRules camel [] [] g) := KnownRules.merge g (by intro r x _ hl; simp [lookup] at hl)
  cases iff.1 hl with
  | plain hm hns =>
    rw [(ht.names _ _ hm).2]
    obtain ⟨id, st1, st2, h1, h2⟩ := walkRules_each g hw _ _ hm
    cases hs : t.isStack with
    | false =>
      have n := walkType_noted (new := none) ⟨hkn.push r, by simp, hk, hk'⟩ t (deepDefs_mem ht.deep _ _ hm) (.inl (ht.ats r t hm hs)) rfl h1
      intro q hq
      rcases List.mem_cons.1 hq with rfl | hq
      · exact n.many.more h2
      · exact (n.groups q hq).more h2
    | true =>
      cases t <;> simp [Term.isStack] at hs
      intro q hq
      simp only [Term.groups, List.mem_singleton] at hq
      subst hq
      intro _ n hn _
      cases hn
  | @layer r0 ls i L hm hL =>
    obtain ⟨hi, rfl⟩ := List.getElem?_eq_some_iff.1 hL
    have hn : shownName (layer r0 (if i + 1 = ls.length then 0 else i + 1)) = r0 := by
      apply ht.layers r0 ls hm
      split <;> omega
    rw [ht.layers r0 ls hm i hi]
    obtain ⟨id, st1, st2, h1, h2⟩ := walkRules_each g hw _ _ hm
    simp only [walkType] at h1
    have n := walkTypes_noted (new := some _) ⟨hkn.push r0, by simpa using hn, hk, hk'⟩ ls (deepDefs_mem ht.deep _ _ hm).2 (.inr rfl) rfl h1
    have hmem := inLayerList_get (new := some (layer r0 (if i + 1 = ls.length then 0 else i + 1))) (List.getElem_mem hi)
    intro q hq
    rcases List.mem_cons.1 hq with rfl | hq
    · exact (n.each _ hmem).more h2
    · exact (n.groups q (groupsOf_mem hmem hq)).more h2

theorem TypeKnows.method {us ty k} (hok : TypesOK camel us tm) (hk : ChildName k) (h : TypeKnows tm ty k none) :
    ∃ d ∈ allMethods camel tm, d.receiver = ty ∧ ((∃ ty', d.does = .allNodes k ty') ∨ d.does = .allTexts k ∧ (ty, k, .text) ∈ us) := by
  obtain ⟨x, hl, m, hm, rfl, hc⟩ := h
  obtain ⟨⟨p, rfl⟩, hx⟩ := hok _ _ hl
  rcases hx with rfl | ⟨cs, rfl, hcs⟩
  · simp [GoType.children] at hm
  · obtain ⟨hp, _, hu⟩ := hcs m hm
    have mem : ∀ d ∈ m.methods camel, d ∈ allMethods camel tm := by
      intro d hd
      simp only [allMethods, List.mem_flatMap]
      exact ⟨_, lookup_mem hl, by simp only [GoType.methods, List.mem_flatMap]; exact ⟨m, hm, hd⟩⟩
    cases m with
    | choice q => simp [Member.Knows] at hc
    | backRef n q => simp [Member.Knows] at hc
    | unnamedToken q c => exact absurd rfl hk.2
    | stackBackRef n q =>
      exact ⟨_, mem ⟨goTypeName camel q, str "All" ++ goName camel n, .allNodes n (goTypeName camel q)⟩ (by simp [Member.methods, ruleMethods, wantAll]), hp, .inl ⟨_, rfl⟩⟩
    | namedRule n q t c =>
      have ha : c.all = true := by simpa [Member.Knows, Count.Knows] using hc
      exact ⟨_, mem ⟨goTypeName camel q, str "All" ++ goName camel n, .allNodes n (goTypeName camel t)⟩ (by simp [Member.methods, ruleMethods, ha]), hp, .inl ⟨_, rfl⟩⟩
    | namedToken n q c =>
      have ha : c.all = true := by simpa [Member.Knows, Count.Knows] using hc
      refine ⟨_, mem ⟨goTypeName camel q, str "All" ++ goName camel n, .allTexts n⟩ (by simp [Member.methods, ha]), hp, .inr ⟨rfl, ?_⟩⟩
      rcases hu with ⟨u, hu, hmem⟩ | hu | hu
      · cases u <;> simp only [Member.Uses] at hu
        exact hmem
      · exact absurd hu hk.ne.1
      · exact absurd hu hk.ne.2

end Wbnf

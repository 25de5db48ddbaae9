import Verif.Lemmas.TypesLegible

/-!
# The rules of a typed grammar can be read
-/

namespace Wbnf

variable {camel : Str → Str} {rnd : Nat → Nat} {tm : TypeMap} {g G : Grammar}

theorem Grammar.Typed.fresh (h : g.Typed camel tm) : g.LayersFresh := by
  intro r ls i t hm h0 hi hx
  have h1 := (h.names _ _ hx).2
  rw [h.layers r ls hm i hi] at h1
  unfold layer at h1
  rw [if_neg (by omega)] at h1
  have := congrArg List.length h1
  simp [str] at this

/-- What `makeTypes` gives. -/
theorem makeTypes_done (hm : makeTypes camel rnd g = some tm) (ht : g.Typed camel tm) :
    TypesOK camel (g.nameUses camel) tm ∧ ∀ r t, (r, t) ∈ g → RuleDone camel tm r t := by
  simp only [makeTypes, Option.map_eq_some_iff] at hm
  obtain ⟨st, hw, rfl⟩ := hm
  have hk : KnownRules camel (mergeRules camel [] [] g) := KnownRules.merge g (by intro r x _ hl; simp [lookup] at hl)
  obtain ⟨h1, _, h3⟩ := walkRules_done ht hk g (fun _ h => h) (by intro ty x hl; simp [lookup] at hl) hw
  exact ⟨h1, fun r t hm => h3 (r, t) hm⟩

theorem grammar_reads (hm : makeTypes camel rnd g = some tm) (ht : g.Typed camel tm) (hr : g.resolveStacks = some G) :
    Grammar.Reads camel tm g G := by
  obtain ⟨hok, hdone⟩ := makeTypes_done hm ht
  have iff : ∀ {k t}, lookup k G = some t ↔ Layered g k t := resolveStacks_iff ht.rules ht.fresh hr
  have mkUses : ∀ r t new, (r, t) ∈ g → (∀ x, new = some x → shownName x = r) →
      RuleUses camel tm g r new (t.nameUses camel r (goName camel r)) := by
    intro r t new hm hn
    obtain ⟨h1, h2⟩ := hdone r t hm
    refine ⟨fun e he => (h1 e he).offers hok (uses_of_rule hm e he), fun n hn => (h2 n hn).offers hok (uses_of_self hm), ?_, hn⟩
    rintro r' ⟨t', hm', hu'⟩
    exact ((hdone r' t' hm').1 _ hu').offers hok (uses_of_rule hm' _ hu')
  refine ⟨ht.oneWay, ?_, ?_⟩
  · intro r t hl
    cases iff.1 hl with
    | plain hm hns =>
      rw [(ht.names _ _ hm).2]
      cases hs : t.isStack with
      | false =>
        exact reads_of_uses (mkUses r t none hm (by simp)) t _ (deepDefs_mem ht.deep _ _ hm) (.inl (ht.ats r t hm hs)) (fun e he => he)
      | true => cases t <;> simp [Term.isStack] at hs; trivial
    | @layer r0 ls i L hm hL =>
      obtain ⟨hi, rfl⟩ := List.getElem?_eq_some_iff.1 hL
      have hn : shownName (layer r0 (if i + 1 = ls.length then 0 else i + 1)) = r0 := by
        apply ht.layers r0 ls hm
        split <;> omega
      rw [ht.layers r0 ls hm i hi]
      have hd := deepDefs_mem ht.deep _ _ hm
      refine reads_of_uses (mkUses r0 _ (some _) hm (by simpa using hn)) ls[i] _ (deepList_mem hd.2 _ (List.getElem_mem hi)) (.inr ⟨rfl, rfl⟩) ?_
      intro e he
      simp only [Term.nameUses]
      have : ∀ (us : List Term) (t : Term), t ∈ us → e ∈ t.nameUses camel r0 (goName camel r0) → e ∈ nameUsesList camel r0 us (goName camel r0) := by
        intro us
        induction us with
        | nil => simp
        | cons u us ih =>
          intro t ht he
          simp only [nameUsesList, List.mem_append]
          rcases List.mem_cons.1 ht with rfl | ht
          · exact .inl he
          · exact .inr (ih t ht he)
      exact this ls _ (List.getElem_mem hi) he
  · rintro r t ⟨⟨x, hx⟩, t', hm', htok⟩ hl
    have hlt : lookup r G = some t' := iff.2 (.plain hm' (by rintro l ls rfl; simp [Term.IsToken] at htok))
    rw [hlt] at hl
    simp only [Option.some.injEq] at hl
    subst hl
    obtain ⟨h1, h2⟩ := ht.names _ _ hm'
    refine ⟨htok, h2, h1.1.2, ⟨typeOf camel r, str "String", .text⟩, ?_, rfl, rfl⟩
    obtain ⟨_, hb⟩ := hok _ _ hx
    rcases hb with hb | ⟨_, hb, _⟩
    · simp only [allMethods, List.mem_flatMap]
      refine ⟨_, lookup_mem hx, ?_⟩
      simp only [GoType.basic.injEq] at hb
      simp only [GoType.methods, List.mem_singleton, MethodDecl.mk.injEq, and_true]
      rw [hb]
      obtain ⟨y, hy⟩ := goTypeName_ends camel (goName camel r)
      unfold typeOf
      rw [hy, goTypeName_node]
    · simp at hb

end Wbnf

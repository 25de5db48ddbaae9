import Verif.Spec.Diff

/-!
# Lemmas about differences between terms
-/

namespace Wbnf

theorem andAlso_true {x y : Option Bool} : andAlso x y = some true ↔ x = some true ∧ y = some true := by
  cases x with
  | none => simp [andAlso]
  | some b => cases b <;> simp [andAlso]

theorem keyIn_iff {g : Grammar} {r : Str} : hasKey r g = true ↔ ∃ t, (r, t) ∈ g := by
  induction g with
  | nil => simp [hasKey, lookup]
  | cons e g ih =>
    obtain ⟨k, v⟩ := e
    simp only [hasKey, lookup] at ih ⊢
    by_cases h : k = r
    · simp only [h, if_true, Option.isSome_some, true_iff]; exact ⟨v, by simp⟩
    · simp only [h, if_false, ih, List.mem_cons, Prod.mk.injEq]
      constructor
      · rintro ⟨t, ht⟩; exact ⟨t, .inr ht⟩
      · rintro ⟨t, ⟨h', -⟩ | ht⟩
        · exact absurd h'.symm h
        · exact ⟨t, ht⟩

theorem keysIn_iff {g g' : Grammar} :
    (g'.filter (fun e => !hasKey e.1 g)).map Prod.fst = [] ↔ ∀ e ∈ g', ∃ t, (e.1, t) ∈ g := by
  simp only [List.map_eq_nil_iff, List.filter_eq_nil_iff, Bool.not_eq_true', Bool.not_eq_false, keyIn_iff]

theorem all_keyIn {g g' : Grammar} : (g'.all (fun e => hasKey e.1 g)) = true ↔ ∀ e ∈ g', ∃ t, (e.1, t) ∈ g := by
  simp only [List.all_eq_true, keyIn_iff]

mutual
theorem deepEqual_iff : ∀ (a b : Term), deepEqual a b = true ↔ a.Same true b
  | .rule a, b => by cases b <;> simp [deepEqual, Term.Same]
  | .s a, b => by cases b <;> simp [deepEqual, Term.Same]
  | .re a, b => by cases b <;> simp [deepEqual, Term.Same]
  | .ext a, b => by cases b <;> simp [deepEqual, Term.Same]
  | .ref a d, b => by cases b <;> simp [deepEqual, Term.Same, deepEqualDflt_iff d]
  | .seq ts, b => by cases b <;> simp [deepEqual, Term.Same, deepEqualList_iff ts]
  | .oneof ts, b => by cases b <;> simp [deepEqual, Term.Same, deepEqualList_iff ts]
  | .stack ts, b => by cases b <;> simp [deepEqual, Term.Same, deepEqualList_iff ts]
  | .delim t s _ _ _, b => by cases b <;> simp [deepEqual, Term.Same, deepEqual_iff t, deepEqual_iff s, and_assoc]
  | .look t, b => by cases b <;> simp [deepEqual, Term.Same, deepEqual_iff t]
  | .quant t _ _, b => by cases b <;> simp [deepEqual, Term.Same, deepEqual_iff t, and_assoc]
  | .named _ t, b => by cases b <;> simp [deepEqual, Term.Same, deepEqual_iff t]
  | .cut t, b => by cases b <;> simp [deepEqual, Term.Same, deepEqual_iff t]
  | .scope t g, b => by
    cases b with
    | scope t' g' =>
      simp only [deepEqual, Term.Same, Bool.and_eq_true, deepEqual_iff t, deepEqualDefs_iff g, all_keyIn]
    | _ => simp [deepEqual, Term.Same]
theorem deepEqualDflt_iff : ∀ (a b : Option Term), deepEqualDflt a b = true ↔ sameDflt true a b
  | none, none => by simp [deepEqualDflt, sameDflt]
  | none, some _ => by simp [deepEqualDflt, sameDflt]
  | some _, none => by simp [deepEqualDflt, sameDflt]
  | some a, some b => by simp [deepEqualDflt, sameDflt, deepEqual_iff a b]
theorem deepEqualList_iff : ∀ (a b : List Term), deepEqualList a b = true ↔ sameTerms true a b
  | [], [] => by simp [deepEqualList, sameTerms]
  | [], _ :: _ => by simp [deepEqualList, sameTerms]
  | _ :: _, [] => by simp [deepEqualList, sameTerms]
  | a :: as, b :: bs => by simp [deepEqualList, sameTerms, deepEqual_iff a b, deepEqualList_iff as bs]
theorem deepEqualDefs_iff : ∀ (g : List (Str × Term)) (g' : Grammar), deepEqualDefs g g' = true ↔ inDefs true g g'
  | [], _ => by simp [deepEqualDefs, inDefs]
  | (r, t) :: g, g' => by
    simp only [deepEqualDefs, inDefs, Bool.and_eq_true, deepEqualDefs_iff g g']
    cases lookup r g' with
    | none => simp
    | some t' => simp [deepEqual_iff t t']
end

theorem deepEqualGrammar_iff (g g' : Grammar) : deepEqualGrammar g g' = true ↔ Grammar.Same g g' := by
  simp only [deepEqualGrammar, Bool.and_eq_true, deepEqualDefs_iff, all_keyIn, Grammar.Same]

mutual
theorem same_weaken : ∀ (a b : Term), a.Same true b → a.Same false b
  | .rule a, b => by cases b <;> simp [Term.Same]
  | .s a, b => by cases b <;> simp [Term.Same]
  | .re a, b => by cases b <;> simp [Term.Same]
  | .ext a, b => by cases b <;> simp [Term.Same]
  | .ref a d, b => by
    cases b with
    | ref b e => simp only [Term.Same]; exact fun h => ⟨h.1, sameDflt_weaken d e h.2⟩
    | _ => simp [Term.Same]
  | .seq ts, b => by
    cases b with
    | seq us => simp only [Term.Same]; exact sameTerms_weaken ts us
    | _ => simp [Term.Same]
  | .oneof ts, b => by
    cases b with
    | oneof us => simp only [Term.Same]; exact sameTerms_weaken ts us
    | _ => simp [Term.Same]
  | .stack ts, b => by
    cases b with
    | stack us => simp only [Term.Same]; exact sameTerms_weaken ts us
    | _ => simp [Term.Same]
  | .delim t s _ _ _, b => by
    cases b with
    | delim t' s' _ _ _ => simp only [Term.Same]; exact fun h => ⟨same_weaken t t' h.1, same_weaken s s' h.2.1, h.2.2⟩
    | _ => simp [Term.Same]
  | .look t, b => by
    cases b with
    | look u => simp only [Term.Same]; exact same_weaken t u
    | _ => simp [Term.Same]
  | .quant t _ _, b => by
    cases b with
    | quant u _ _ => simp only [Term.Same]; exact fun h => ⟨same_weaken t u h.1, h.2⟩
    | _ => simp [Term.Same]
  | .named _ t, b => by
    cases b with
    | named _ u => simp only [Term.Same]; exact fun h => ⟨h.1, same_weaken t u h.2⟩
    | _ => simp [Term.Same]
  | .cut t, b => by
    cases b with
    | cut u => simp only [Term.Same]; exact same_weaken t u
    | _ => simp [Term.Same]
  | .scope t g, b => by
    cases b with
    | scope u g' => simp only [Term.Same]; exact fun h => ⟨same_weaken t u h.1, h.2⟩
    | _ => simp [Term.Same]
theorem sameDflt_weaken : ∀ (a b : Option Term), sameDflt true a b → sameDflt false a b
  | none, none => by simp [sameDflt]
  | none, some _ => by simp [sameDflt]
  | some _, none => by simp [sameDflt]
  | some a, some b => by simp only [sameDflt]; exact same_weaken a b
theorem sameTerms_weaken : ∀ (a b : List Term), sameTerms true a b → sameTerms false a b
  | [], [] => by simp [sameTerms]
  | [], _ :: _ => by simp [sameTerms]
  | _ :: _, [] => by simp [sameTerms]
  | a :: as, b :: bs => by
    simp only [sameTerms]; exact fun h => ⟨same_weaken a b h.1, sameTerms_weaken as bs h.2⟩
end

theorem inDefs_weaken : ∀ (g : List (Str × Term)) (g' : Grammar), inDefs true g g' → inDefs false g g'
  | [], _ => by simp [inDefs]
  | (r, t) :: g, g' => by
    simp only [inDefs]
    rintro ⟨⟨t', h1, h2⟩, h⟩
    exact ⟨⟨t', h1, same_weaken t t' h2⟩, inDefs_weaken g g' h⟩

theorem diffTermses_equal {a b : List Term} {ds : Option (List TermDiff)} :
    (∃ d, diffTermses a b ds = some d ∧ d.equal = some true) ↔ ds = some [] ∧ a.length = b.length := by
  cases ds with
  | none => simp [diffTermses]
  | some ds => simp [diffTermses, TermDiff.equal, and_comm]

theorem termsEqual_iff (a b : Term) : termsEqual a b = some true ↔ ∃ d, diffTerms a b = some d ∧ d.equal = some true := by
  unfold termsEqual
  cases diffTerms a b <;> simp

mutual
theorem same_iff : ∀ (a b : Term), (∃ d, diffTerms a b = some d ∧ d.equal = some true) ↔ a.Same false b
  | .rule a, b => by cases b <;> simp [diffTerms, TermDiff.equal, Term.Same]
  | .s a, b => by cases b <;> simp [diffTerms, TermDiff.equal, Term.Same]
  | .re a, b => by cases b <;> simp [diffTerms, TermDiff.equal, Term.Same]
  | .ext a, b => by cases b <;> simp [diffTerms, TermDiff.equal, Term.Same]
  | .ref a d, b => by
    cases b with
    | ref b e =>
      simp only [diffTerms, Option.some.injEq, Term.Same, ← sameDflt_iff d e]
      constructor
      · rintro ⟨d, rfl, h⟩
        simp only [TermDiff.equal] at h
        split at h
        · exact ⟨by assumption, h⟩
        · simp at h
      · rintro ⟨h1, h2⟩
        exact ⟨_, rfl, by simp [TermDiff.equal, h1, h2]⟩
    | _ => simp [diffTerms, TermDiff.equal, Term.Same]
  | .seq ts, b => by
    cases b with
    | seq us => rw [diffTerms, diffTermses_equal, sameTerms_iff ts us, Term.Same]
    | _ => simp [diffTerms, TermDiff.equal, Term.Same]
  | .oneof ts, b => by
    cases b with
    | oneof us => rw [diffTerms, diffTermses_equal, sameTerms_iff ts us, Term.Same]
    | _ => simp [diffTerms, TermDiff.equal, Term.Same]
  | .stack ts, b => by
    cases b with
    | stack us => rw [diffTerms, diffTermses_equal, sameTerms_iff ts us, Term.Same]
    | _ => simp [diffTerms, TermDiff.equal, Term.Same]
  | .delim t s a cs ce, b => by
    cases b with
    | delim t' s' a' cs' ce' =>
      simp only [Term.Same, ← same_iff t t', ← same_iff s s', diffTerms]
      cases diffTerms t t' with
      | none => simp
      | some d => cases diffTerms s s' with
        | none => simp
        | some d' => simp [TermDiff.equal, andAlso_true, and_assoc]
    | _ => simp [diffTerms, TermDiff.equal, Term.Same]
  | .look t, b => by
    cases b with
    | look u => rw [diffTerms, Term.Same]; exact same_iff t u
    | _ => simp [diffTerms, TermDiff.equal, Term.Same]
  | .quant t lo hi, b => by
    cases b with
    | quant u lo' hi' =>
      simp only [Term.Same, ← same_iff t u, diffTerms]
      cases diffTerms t u with
      | none => simp
      | some d => simp [TermDiff.equal, andAlso_true]
    | _ => simp [diffTerms, TermDiff.equal, Term.Same]
  | .named n t, b => by
    cases b with
    | named n' u =>
      simp only [Term.Same, ← same_iff t u, diffTerms]
      cases diffTerms t u with
      | none => simp
      | some d => simp [TermDiff.equal, andAlso_true]
    | _ => simp [diffTerms, TermDiff.equal, Term.Same]
  | .cut t, b => by
    cases b with
    | cut u => rw [diffTerms, Term.Same]; exact same_iff t u
    | _ => simp [diffTerms, TermDiff.equal, Term.Same]
  | .scope t g, b => by
    cases b with
    | scope t' g' =>
      have hd := inDefs_iff g g'
      have hs : Grammar.Same g g' → inDefs false g g' := fun h => inDefs_weaken g g' h.1
      rw [Term.Same, ← same_iff t t', diffTerms]
      change _ ↔ _ ∧ Grammar.Same g g'
      have hk := keysIn_iff (g := g) (g' := g')
      have hq := deepEqualGrammar_iff g g'
      cases diffTerms t t' with
      | none => simp
      | some d => cases hg : diffDefs g g' with
        | none =>
          simp only [reduceCtorEq, false_and, exists_false, Option.some.injEq, false_iff, not_and]
          intro _ h
          have := hd.mpr (hs h)
          rw [hg] at this
          simp at this
        | some p =>
          obtain ⟨oa, ps⟩ := p
          rw [hg] at hd
          simp only [Option.some.injEq, Prod.mk.injEq] at hd
          have hS : Grammar.Same g g' → oa = [] ∧ ps = [] ∧ (g'.filter (fun e => !hasKey e.1 g)).map Prod.fst = [] := by
            intro h
            have h1 := hd.mpr (hs h)
            exact ⟨h1.1, h1.2, hk.mpr h.2⟩
          simp only
          split
          · rename_i hne
            simp only [reduceCtorEq, false_and, exists_false, Option.some.injEq, false_iff, not_and]
            intro _ h
            apply hne
            rw [hq.mpr h]
            obtain ⟨h1, h2, h3⟩ := hS h
            simp [GrammarDiff.equal, h1, h2, h3]
          · rename_i he
            simp only [ne_eq, Decidable.not_not] at he
            simp only [Option.some.injEq, exists_eq_left', TermDiff.equal, andAlso_true]
            have : (oa.isEmpty && ((g'.filter (fun e => !hasKey e.1 g)).map Prod.fst).isEmpty && ps.isEmpty) =
              deepEqualGrammar g g' := he
            rw [this, ← hq]
    | _ => simp [diffTerms, TermDiff.equal, Term.Same]
theorem sameDflt_iff : ∀ (a b : Option Term), diffDflt a b = some true ↔ sameDflt false a b
  | none, none => by simp [diffDflt, sameDflt]
  | none, some _ => by simp [diffDflt, sameDflt]
  | some _, none => by simp [diffDflt, sameDflt]
  | some a, some b => by
    rw [sameDflt, ← same_iff a b, diffDflt]
    cases diffTerms a b <;> simp
theorem sameTerms_iff : ∀ (a b : List Term), (diffLoop a b = some [] ∧ a.length = b.length) ↔ sameTerms false a b
  | [], [] => by simp [diffLoop, sameTerms]
  | [], _ :: _ => by simp [diffLoop, sameTerms]
  | _ :: _, [] => by simp [diffLoop, sameTerms]
  | a :: as, b :: bs => by
    rw [sameTerms, ← same_iff a b, ← sameTerms_iff as bs, diffLoop]
    cases diffTerms a b with
    | none => simp
    | some d => cases diffLoop as bs with
      | none => simp
      | some ds => cases he : d.equal with
        | none => simp [he]
        | some e => cases e <;> simp [he]
theorem inDefs_iff : ∀ (g : List (Str × Term)) (g' : Grammar), diffDefs g g' = some ([], []) ↔ inDefs false g g'
  | [], _ => by simp [diffDefs, inDefs]
  | (r, t) :: g, g' => by
    rw [inDefs, ← inDefs_iff g g', diffDefs]
    cases diffDefs g g' with
    | none => simp
    | some p =>
      obtain ⟨oa, ps⟩ := p
      cases lookup r g' with
      | none => simp
      | some t' =>
        simp only [Option.some.injEq, exists_eq_left', ← same_iff t t']
        cases diffTerms t t' with
        | none => simp
        | some d => cases he : d.equal with
          | none => simp [he]
          | some e => cases e <;> simp [he]
end


mutual
theorem same_strengthen (p : Bool) : ∀ (a b : Term), a.Internal p → a.Same false b → a.Same true b
  | .rule a, b => by cases b <;> simp [Term.Same]
  | .s a, b => by cases b <;> simp [Term.Same]
  | .re a, b => by cases b <;> simp [Term.Same]
  | .ext a, b => by simp [Term.Internal]
  | .ref a d, b => by
    cases b with
    | ref b e => simp only [Term.Same, Term.Internal]; exact fun hi h => ⟨h.1, sameDflt_strengthen p d e hi h.2⟩
    | _ => simp [Term.Same]
  | .seq ts, b => by
    cases b with
    | seq us => simp only [Term.Same, Term.Internal]; exact sameTerms_strengthen p ts us
    | _ => simp [Term.Same]
  | .oneof ts, b => by
    cases b with
    | oneof us => simp only [Term.Same, Term.Internal]; exact sameTerms_strengthen p ts us
    | _ => simp [Term.Same]
  | .stack ts, b => by
    cases b with
    | stack us => simp only [Term.Same, Term.Internal]; exact sameTerms_strengthen p ts us
    | _ => simp [Term.Same]
  | .delim t s _ _ _, b => by
    cases b with
    | delim t' s' _ _ _ =>
      simp only [Term.Same, Term.Internal]
      exact fun hi h => ⟨same_strengthen p t t' hi.1 h.1, same_strengthen p s s' hi.2 h.2.1, h.2.2⟩
    | _ => simp [Term.Same]
  | .look t, b => by
    cases b with
    | look u => simp only [Term.Same, Term.Internal]; exact same_strengthen p t u
    | _ => simp [Term.Same]
  | .quant t _ _, b => by
    cases b with
    | quant u _ _ => simp only [Term.Same, Term.Internal]; exact fun hi h => ⟨same_strengthen p t u hi h.1, h.2⟩
    | _ => simp [Term.Same]
  | .named _ t, b => by
    cases b with
    | named _ u => simp only [Term.Same, Term.Internal]; exact fun hi h => ⟨h.1, same_strengthen p t u hi h.2⟩
    | _ => simp [Term.Same]
  | .cut t, b => by
    cases b with
    | cut u => simp only [Term.Same, Term.Internal]; exact same_strengthen p t u
    | _ => simp [Term.Same]
  | .scope t g, b => by
    cases b with
    | scope u g' => simp only [Term.Same, Term.Internal]; exact fun hi h => ⟨same_strengthen p t u hi.1 h.1, h.2⟩
    | _ => simp [Term.Same]
theorem sameDflt_strengthen (p : Bool) : ∀ (a b : Option Term), internalDflt p a → sameDflt false a b → sameDflt true a b
  | none, none => by simp [sameDflt]
  | none, some _ => by simp [sameDflt]
  | some _, none => by simp [sameDflt]
  | some a, some b => by simp only [internalDflt, sameDflt]; exact fun hi => same_strengthen p a b hi.2
theorem sameTerms_strengthen (p : Bool) : ∀ (a b : List Term), internalAll p a → sameTerms false a b → sameTerms true a b
  | [], [] => by simp [sameTerms]
  | [], _ :: _ => by simp [sameTerms]
  | _ :: _, [] => by simp [sameTerms]
  | a :: as, b :: bs => by
    simp only [sameTerms, internalAll]
    exact fun hi h => ⟨same_strengthen p a b hi.1 h.1, sameTerms_strengthen p as bs hi.2 h.2⟩
end

theorem inDefs_strengthen (p : Bool) : ∀ (g : List (Str × Term)) (g' : Grammar), internalDefs p g → inDefs false g g' →
    inDefs true g g'
  | [], _ => by simp [inDefs]
  | (r, t) :: g, g' => by
    simp only [inDefs, internalDefs]
    rintro ⟨i1, i2⟩ ⟨⟨t', h1, h2⟩, h⟩
    exact ⟨⟨t', h1, same_strengthen p t t' i1 h2⟩, inDefs_strengthen p g g' i2 h⟩

theorem andAlso_some {x y : Option Bool} (hx : x ≠ none) (hy : y ≠ none) : andAlso x y ≠ none := by
  cases x with
  | none => exact absurd rfl hx
  | some b => cases b <;> simp_all [andAlso]

/-- A grammar without external references is found to be equal when it is. -/
theorem grammarDiff_agrees (p : Bool) {g g' : Grammar} {oa : List Str} {ps : List (Str × TermDiff)}
    (hi : internalDefs p g) (h : diffDefs g g' = some (oa, ps)) :
    GrammarDiff.equal ⟨oa, (g'.filter (fun e => !hasKey e.1 g)).map Prod.fst, ps⟩ = deepEqualGrammar g g' := by
  rw [Bool.eq_iff_iff, deepEqualGrammar_iff]
  have hd := inDefs_iff g g'
  rw [h] at hd
  simp only [Option.some.injEq, Prod.mk.injEq] at hd
  simp only [GrammarDiff.equal, Bool.and_eq_true, List.isEmpty_iff, keysIn_iff, Grammar.Same]
  constructor
  · rintro ⟨⟨a, b⟩, c⟩
    exact ⟨inDefs_strengthen p g g' hi (hd.mp ⟨a, c⟩), b⟩
  · rintro ⟨a, b⟩
    have := hd.mpr (inDefs_weaken g g' a)
    exact ⟨⟨this.1, b⟩, this.2⟩

/-- Terms without external references and defaults can be compared. -/
theorem internal_lookup {p : Bool} : ∀ {g : Grammar} {r : Str} {t : Term}, internalDefs p g → lookup r g = some t →
    t.Internal p
  | [], _, _, _, h => by simp [lookup] at h
  | (k, v) :: g, r, t, hi, h => by
    simp only [lookup] at h
    simp only [internalDefs] at hi
    split at h
    · simp only [Option.some.injEq] at h; rw [← h]; exact hi.1
    · exact internal_lookup hi.2 h

mutual
theorem diff_defined : ∀ (a b : Term), a.Internal true → b.Internal true →
    ∃ d, diffTerms a b = some d ∧ d.equal ≠ none
  | .rule a, b, _, _ => by cases b <;> simp [diffTerms, TermDiff.equal]
  | .s a, b, _, _ => by cases b <;> simp [diffTerms, TermDiff.equal]
  | .re a, b, _, _ => by cases b <;> simp [diffTerms, TermDiff.equal]
  | .ext a, b, h, _ => by simp [Term.Internal] at h
  | .ref a d, b, ha, hb => by
    cases b with
    | ref b e =>
      cases d with
      | some d => simp [Term.Internal, internalDflt] at ha
      | none => cases e with
        | some e => simp [Term.Internal, internalDflt] at hb
        | none =>
          refine ⟨_, by rw [diffTerms], ?_⟩
          simp only [TermDiff.equal, diffDflt]
          split <;> simp
    | _ => simp [diffTerms, TermDiff.equal]
  | .seq ts, b, ha, hb => by
    cases b with
    | seq us =>
      obtain ⟨ds, h⟩ := diffLoop_defined ts us (by simpa [Term.Internal] using ha) (by simpa [Term.Internal] using hb)
      simp [diffTerms, h, diffTermses, TermDiff.equal]
    | _ => simp [diffTerms, TermDiff.equal]
  | .oneof ts, b, ha, hb => by
    cases b with
    | oneof us =>
      obtain ⟨ds, h⟩ := diffLoop_defined ts us (by simpa [Term.Internal] using ha) (by simpa [Term.Internal] using hb)
      simp [diffTerms, h, diffTermses, TermDiff.equal]
    | _ => simp [diffTerms, TermDiff.equal]
  | .stack ts, b, ha, hb => by
    cases b with
    | stack us =>
      obtain ⟨ds, h⟩ := diffLoop_defined ts us (by simpa [Term.Internal] using ha) (by simpa [Term.Internal] using hb)
      simp [diffTerms, h, diffTermses, TermDiff.equal]
    | _ => simp [diffTerms, TermDiff.equal]
  | .delim t s _ _ _, b, ha, hb => by
    cases b with
    | delim t' s' _ _ _ =>
      simp only [Term.Internal] at ha hb
      obtain ⟨d, h1, h2⟩ := diff_defined t t' ha.1 hb.1
      obtain ⟨d', h3, h4⟩ := diff_defined s s' ha.2 hb.2
      refine ⟨_, by rw [diffTerms, h1, h3], ?_⟩
      exact andAlso_some h2 (andAlso_some h4 (by simp))
    | _ => simp [diffTerms, TermDiff.equal]
  | .look t, b, ha, hb => by
    cases b with
    | look u => rw [diffTerms]; exact diff_defined t u (by simpa [Term.Internal] using ha) (by simpa [Term.Internal] using hb)
    | _ => simp [diffTerms, TermDiff.equal]
  | .quant t _ _, b, ha, hb => by
    cases b with
    | quant u _ _ =>
      obtain ⟨d, h1, h2⟩ := diff_defined t u (by simpa [Term.Internal] using ha) (by simpa [Term.Internal] using hb)
      refine ⟨_, by rw [diffTerms, h1], ?_⟩
      exact andAlso_some h2 (by simp)
    | _ => simp [diffTerms, TermDiff.equal]
  | .named _ t, b, ha, hb => by
    cases b with
    | named _ u =>
      obtain ⟨d, h1, h2⟩ := diff_defined t u (by simpa [Term.Internal] using ha) (by simpa [Term.Internal] using hb)
      refine ⟨_, by rw [diffTerms, h1], ?_⟩
      exact andAlso_some (by simp) h2
    | _ => simp [diffTerms, TermDiff.equal]
  | .cut t, b, ha, hb => by
    cases b with
    | cut u => rw [diffTerms]; exact diff_defined t u (by simpa [Term.Internal] using ha) (by simpa [Term.Internal] using hb)
    | _ => simp [diffTerms, TermDiff.equal]
  | .scope t g, b, ha, hb => by
    cases b with
    | scope u g' =>
      simp only [Term.Internal] at ha hb
      obtain ⟨d, h1, h2⟩ := diff_defined t u ha.1 hb.1
      obtain ⟨⟨oa, ps⟩, h3⟩ := diffDefs_defined g g' ha.2 hb.2
      have := grammarDiff_agrees true ha.2 h3
      refine ⟨_, by simp only [diffTerms, h1, h3, this, ne_eq, not_true, if_false]; rfl, ?_⟩
      exact andAlso_some h2 (by simp)
    | _ => simp [diffTerms, TermDiff.equal]
theorem diffLoop_defined : ∀ (as bs : List Term), internalAll true as → internalAll true bs →
    ∃ ds, diffLoop as bs = some ds
  | [], _, _, _ => ⟨_, by rw [diffLoop]; simp⟩
  | _ :: _, [], _, _ => ⟨_, by rw [diffLoop]; simp⟩
  | a :: as, b :: bs, ha, hb => by
    simp only [internalAll] at ha hb
    obtain ⟨d, h1, h2⟩ := diff_defined a b ha.1 hb.1
    obtain ⟨ds, h3⟩ := diffLoop_defined as bs ha.2 hb.2
    rw [diffLoop, h1, h3]
    cases he : d.equal with
    | none => exact absurd he h2
    | some e => cases e <;> simp [he]
theorem diffDefs_defined : ∀ (g : List (Str × Term)) (g' : Grammar), internalDefs true g → internalDefs true g' →
    ∃ p, diffDefs g g' = some p
  | [], _, _, _ => ⟨_, by rw [diffDefs]⟩
  | (r, t) :: g, g', ha, hb => by
    simp only [internalDefs] at ha
    obtain ⟨⟨oa, ps⟩, h⟩ := diffDefs_defined g g' ha.2 hb
    rw [diffDefs, h]
    cases hl : lookup r g' with
    | none => simp
    | some t' =>
      obtain ⟨d, h1, h2⟩ := diff_defined t t' ha.1 (internal_lookup hb hl)
      simp only [h1]
      cases he : d.equal with
      | none => exact absurd he h2
      | some e => cases e <;> simp
end

mutual
theorem same_eq : ∀ (a b : Term), a.Unscoped → (a.Same true b ↔ a = b)
  | .rule a, b, _ => by cases b <;> simp [Term.Same]
  | .s a, b, _ => by cases b <;> simp [Term.Same]
  | .re a, b, _ => by cases b <;> simp [Term.Same]
  | .ext a, b, _ => by cases b <;> simp [Term.Same]
  | .ref a d, b, h => by
    simp only [Term.Unscoped] at h
    cases b <;> simp [Term.Same, sameDflt_eq d _ h]
  | .seq ts, b, h => by
    simp only [Term.Unscoped] at h
    cases b <;> simp [Term.Same, sameTerms_eq ts _ h]
  | .oneof ts, b, h => by
    simp only [Term.Unscoped] at h
    cases b <;> simp [Term.Same, sameTerms_eq ts _ h]
  | .stack ts, b, h => by
    simp only [Term.Unscoped] at h
    cases b <;> simp [Term.Same, sameTerms_eq ts _ h]
  | .delim t s _ _ _, b, h => by
    simp only [Term.Unscoped] at h
    cases b <;> simp [Term.Same, same_eq t _ h.1, same_eq s _ h.2]
  | .look t, b, h => by
    simp only [Term.Unscoped] at h
    cases b <;> simp [Term.Same, same_eq t _ h]
  | .quant t _ _, b, h => by
    simp only [Term.Unscoped] at h
    cases b <;> simp [Term.Same, same_eq t _ h]
  | .named _ t, b, h => by
    simp only [Term.Unscoped] at h
    cases b <;> simp [Term.Same, same_eq t _ h]
  | .cut t, b, h => by
    simp only [Term.Unscoped] at h
    cases b <;> simp [Term.Same, same_eq t _ h]
  | .scope t g, b, h => by simp [Term.Unscoped] at h
theorem sameDflt_eq : ∀ (a b : Option Term), unscopedDflt a → (sameDflt true a b ↔ a = b)
  | none, none, _ => by simp [sameDflt]
  | none, some _, _ => by simp [sameDflt]
  | some _, none, _ => by simp [sameDflt]
  | some a, some b, h => by
    simp only [unscopedDflt] at h
    simp [sameDflt, same_eq a b h]
theorem sameTerms_eq : ∀ (a b : List Term), unscopedAll a → (sameTerms true a b ↔ a = b)
  | [], [], _ => by simp [sameTerms]
  | [], _ :: _, _ => by simp [sameTerms]
  | _ :: _, [], _ => by simp [sameTerms]
  | a :: as, b :: bs, h => by
    simp only [unscopedAll] at h
    simp [sameTerms, same_eq a b h.1, sameTerms_eq as bs h.2]
end

end Wbnf

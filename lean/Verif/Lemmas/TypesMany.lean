import Verif.Spec.TypesMany
import Verif.Lemmas.TypesReads

/-!
# Counts of the members of types
-/

namespace Wbnf

/-- The count knows of this one, or of many. -/
def Count.Knows (i : Option Nat) (c : Count) : Prop := c.all = true ∨ ∃ id, i = some id ∧ id ∈ c.nodes

/-- The member has a method for all, or has counted this one. -/
def Member.Knows (i : Option Nat) : Member → Prop
  | .stackBackRef _ _ => True
  | .namedToken _ _ c => c.Knows i
  | .unnamedToken _ c => c.Knows i
  | .namedRule _ _ _ c => c.Knows i
  | _ => False

theorem Count.Knows.force {i} {c : Count} : c.forceMany.Knows i := .inl rfl

theorem Count.Knows.push {i} {c : Count} (h : c.Knows i) (id : Nat) : (c.push id).Knows i := by
  unfold Count.push
  split
  · exact h
  · split
    · exact .force
    · rcases h with h | ⟨x, hx, hm⟩
      · exact .inl h
      · exact .inr ⟨x, hx, by simp [hm]⟩

theorem Count.Knows.pushAll {i} {c : Count} (h : c.Knows i) : ∀ ids, (c.pushAll ids).Knows i := by
  intro ids
  induction ids generalizing c with
  | nil => exact h
  | cons id ids ih => exact ih (h.push id)

theorem Count.Knows.merge {i} {c : Count} (h : c.Knows i) (d : Count) : (c.merge d).Knows i := by
  unfold Count.merge
  split
  · exact .force
  · exact h.pushAll _

theorem newCount_knows {i} {c : Count} (h : c.Knows i) (next : Member) : (newCount c next).Knows i := by
  cases next <;> simp only [newCount] <;> first | exact h | exact h.merge _ | exact .force

theorem Count.knows_push (c : Count) (id : Nat) : (c.push id).Knows (some id) := by
  unfold Count.push
  split
  · rename_i h; exact .inl h
  · split
    · exact .force
    · exact .inr ⟨id, rfl, by simp⟩

theorem Member.Knows.any {m : Member} (h : m.Knows none) (i) : m.Knows i := by
  cases m <;> simp only [Member.Knows, Count.Knows] at h ⊢ <;> first | trivial | exact .inl (by simpa using h)

/-- A new member with a count for all makes every count one for all. -/
theorem newCount_all {next : Member} (c : Count) (h : next.Knows none) : (newCount c next).Knows none := by
  cases next <;> simp only [Member.Knows, newCount] at h ⊢
  · exact .force
  all_goals
    simp only [Count.Knows, reduceCtorEq, false_and, exists_false, or_false] at h ⊢
    simp [Count.merge, h, Count.forceMany]

/-- The second one with the same number makes many. -/
theorem merge_second {c q : Count} {id : Nat} (h : c.Knows (some id)) (hq : q.nodes = []) : (c.merge (q.push id)).Knows none := by
  unfold Count.merge
  split
  · exact .force
  · rename_i ha
    have hq' : q.all = false := by
      cases hx : q.all with
      | false => rfl
      | true => simp [Count.push, hx] at ha
    have e : (q.push id).nodes = [id] := by simp [Count.push, hq, hq']
    rw [e]
    simp only [Count.pushAll, Count.push]
    split
    · rename_i hc; exact .inl hc
    · rename_i hc
      rcases h with h | ⟨x, hx, hm⟩
      · exact absurd h (by simpa using hc)
      · simp only [Option.some.injEq] at hx
        subst hx
        rw [if_pos hm]
        exact .force

/-! ## Adding a child -/

/-- The children have a member of this name that knows. -/
def KnowsOf (k : Str) (i : Option Nat) (cs : List Member) : Prop := ∃ c ∈ cs, c.ident = k ∧ c.Knows i

/-- What the loop does with the counts. -/
theorem dupes_knows {next : Member} {k : Str} {i j : Option Nat} :
    ∀ {cs r}, dupesLoop next cs = some r → (∀ c : Count, c.Knows i → k = next.ident → (newCount c next).Knows j) →
      (k ≠ next.ident → i = j) → (∀ m : Member, m.ident = k → m.count? = none → m.Knows i → m.Knows j) → KnowsOf k i cs → KnowsOf k j r.1 := by
  intro cs
  induction cs with
  | nil => intro r h _ _ _ hk; obtain ⟨c, hc, _⟩ := hk; simp at hc
  | cons c cs ih =>
    intro r h h1 h2 h3 hk
    have step : ∀ {c'' : Member} {fl : Bool → Bool}, (dupesLoop next cs).map (fun r => (c'' :: r.1, fl r.2)) = some r →
        (c.ident = k → c.Knows i → c''.ident = k ∧ c''.Knows j) → KnowsOf k j r.1 := by
      intro c'' fl h hc
      simp only [Option.map_eq_some_iff] at h
      obtain ⟨q, hq, rfl⟩ := h
      obtain ⟨x, hx, hxk, hxi⟩ := hk
      rcases List.mem_cons.1 hx with rfl | hx
      · exact ⟨c'', by simp, hc hxk hxi⟩
      · obtain ⟨y, hy, hyk⟩ := ih hq h1 h2 h3 ⟨x, hx, hxk, hxi⟩
        exact ⟨y, by simp [hy], hyk⟩
    simp only [dupesLoop] at h
    split at h
    · rename_i hid
      refine step (fl := id) h fun e hc => ⟨e, ?_⟩
      have : k ≠ next.ident := fun e' => hid (e'.symm.trans e.symm)
      exact h2 this ▸ hc
    · rename_i hid
      replace hid := Classical.not_not.1 hid
      split at h
      · exact step (fl := fun _ => false) h fun e hc => ⟨e, h1 _ hc (e.symm.trans hid.symm)⟩
      · exact step (fl := fun _ => false) h fun e hc => ⟨e, h1 _ hc (e.symm.trans hid.symm)⟩
      · exact step (fl := fun _ => false) h fun e hc => ⟨e, h1 _ hc (e.symm.trans hid.symm)⟩
      · simp at h
      · simp at h
      · rename_i n1 n2 n3 _ _
        refine step (fl := id) h fun e hc => ⟨e, ?_⟩
        refine h3 _ e ?_ hc
        cases c with
        | unnamedToken p n => exact absurd rfl (n1 p n)
        | namedToken x p n => exact absurd rfl (n2 x p n)
        | namedRule x p t n => exact absurd rfl (n3 x p t n)
        | _ => rfl

theorem dupes_first {next : Member} : ∀ {cs r}, dupesLoop next cs = some r → r.2 = false → next.Knows none → KnowsOf next.ident none r.1 := by
  intro cs
  induction cs with
  | nil => intro r h e; simp only [dupesLoop, Option.some.injEq] at h; subst h; simp at e
  | cons c cs ih =>
    intro r h e hn
    have later : ∀ {c'' : Member}, (dupesLoop next cs).map (fun r => (c'' :: r.1, r.2)) = some r → KnowsOf next.ident none r.1 := by
      intro c'' h
      simp only [Option.map_eq_some_iff] at h
      obtain ⟨q, hq, rfl⟩ := h
      obtain ⟨y, hy, hyk⟩ := ih hq e hn
      exact ⟨y, by simp [hy], hyk⟩
    have now : ∀ {c'' : Member}, (dupesLoop next cs).map (fun r => (c'' :: r.1, false)) = some r → c''.ident = next.ident → c''.Knows none →
        KnowsOf next.ident none r.1 := by
      intro c'' h h1 h2
      simp only [Option.map_eq_some_iff] at h
      obtain ⟨q, hq, rfl⟩ := h
      exact ⟨c'', by simp, h1, h2⟩
    simp only [dupesLoop] at h
    split at h
    · exact later h
    · rename_i hid
      replace hid := Classical.not_not.1 hid
      split at h
      · exact now h hid.symm (newCount_all _ hn)
      · exact now h hid.symm (newCount_all _ hn)
      · exact now h hid.symm (newCount_all _ hn)
      · simp at h
      · simp at h
      · exact later h

theorem dupes_stop {next : Member} : ∀ {cs}, dupesLoop next cs = none → next.count? = none ∧ (next.Knows none → KnowsOf next.ident none cs) := by
  intro cs
  induction cs with
  | nil => intro h; simp [dupesLoop] at h
  | cons c cs ih =>
    intro h
    have later : dupesLoop next cs = none → next.count? = none ∧ (next.Knows none → KnowsOf next.ident none (c :: cs)) := by
      intro h
      obtain ⟨h1, h2⟩ := ih h
      refine ⟨h1, fun hn => ?_⟩
      obtain ⟨y, hy, hyk⟩ := h2 hn
      exact ⟨y, by simp [hy], hyk⟩
    simp only [dupesLoop] at h
    split at h
    · exact later (by simpa using h)
    · rename_i hid
      replace hid := Classical.not_not.1 hid
      split at h
      · exact later (by simpa using h)
      · exact later (by simpa using h)
      · exact later (by simpa using h)
      · exact ⟨rfl, fun _ => ⟨_, by simp, hid.symm, trivial⟩⟩
      · exact ⟨rfl, fun hn => absurd hn (by simp [Member.Knows])⟩
      · exact later (by simpa using h)

/-- What is known stays known. -/
theorem check_knows {cs : List Member} {next : Member} {k i} (h : KnowsOf k i cs) : KnowsOf k i (checkForDupes cs next) := by
  unfold checkForDupes
  split
  · exact h
  · rename_i r fl hr
    have h' := dupes_knows (j := i) hr (fun c hc _ => newCount_knows hc next) (fun _ => rfl) (fun _ _ _ h => h) h
    split
    · obtain ⟨c, hc, hk⟩ := h'
      exact ⟨c, by simp [hc], hk⟩
    · exact h'

/-- A new child for all. -/
theorem check_all {cs : List Member} {next : Member} (h : next.Knows none) : KnowsOf next.ident none (checkForDupes cs next) := by
  unfold checkForDupes
  split
  · rename_i hr; exact (dupes_stop hr).2 h
  · rename_i r fl hr
    split
    · exact ⟨next, by simp, rfl, h⟩
    · rename_i hf
      exact dupes_first hr (by simpa using hf) h

/-- A new child that is counted. -/
theorem check_one {cs : List Member} {x p t : Str} {q : Count} {id : Nat} :
    KnowsOf x (some id) (checkForDupes cs (.namedRule x p t (q.push id))) := by
  by_cases hk : KnowsOf x (some id) cs
  · exact check_knows hk
  · unfold checkForDupes
    split
    · rename_i hr; exact absurd (dupes_stop hr).1 (by simp [Member.count?])
    · rename_i r fl hr
      split
      · exact ⟨.namedRule x p t (q.push id), by simp, rfl, Count.knows_push q id⟩
      · rename_i hf
        -- something of that name was counted: it takes over the number
        have : ∀ {cs r}, dupesLoop (.namedRule x p t (q.push id)) cs = some r → r.2 = false → KnowsOf x (some id) r.1 := by
          intro cs
          induction cs with
          | nil => intro r h e; simp only [dupesLoop, Option.some.injEq] at h; subst h; simp at e
          | cons c cs ih =>
            intro r h e
            have later : ∀ {c'' : Member}, (dupesLoop (.namedRule x p t (q.push id)) cs).map (fun r => (c'' :: r.1, r.2)) = some r → KnowsOf x (some id) r.1 := by
              intro c'' h
              simp only [Option.map_eq_some_iff] at h
              obtain ⟨q, hq, rfl⟩ := h
              obtain ⟨y, hy, hyk⟩ := ih hq e
              exact ⟨y, by simp [hy], hyk⟩
            have now : ∀ {c'' : Member}, (dupesLoop (.namedRule x p t (q.push id)) cs).map (fun r => (c'' :: r.1, false)) = some r → c''.ident = x → c''.Knows (some id) →
                KnowsOf x (some id) r.1 := by
              intro c'' h h1 h2
              simp only [Option.map_eq_some_iff] at h
              obtain ⟨q, hq, rfl⟩ := h
              exact ⟨c'', by simp, h1, h2⟩
            have takes : ∀ c : Count, (newCount c (.namedRule x p t (q.push id))).Knows (some id) := by
              intro c
              simp only [newCount, Count.merge]
              split
              · exact .force
              · rename_i ha
                have := Count.knows_push q id
                rcases this with h | ⟨y, hy, hm⟩
                · exact absurd h ha
                · simp only [Option.some.injEq] at hy
                  subst hy
                  have : ∀ (ids : List Nat) (c : Count), id ∈ ids → (c.pushAll ids).Knows (some id) := by
                    intro ids
                    induction ids with
                    | nil => intro c h; simp at h
                    | cons j ids ih =>
                      intro c h
                      simp only [Count.pushAll]
                      rcases List.mem_cons.1 h with rfl | h
                      · exact (Count.knows_push c id).pushAll _
                      · exact ih _ h
                  exact this _ c hm
            simp only [dupesLoop] at h
            split at h
            · exact later h
            · rename_i hid
              replace hid := Classical.not_not.1 hid
              split at h
              · exact now h hid.symm (takes _)
              · exact now h hid.symm (takes _)
              · exact now h hid.symm (takes _)
              · simp at h
              · simp at h
              · exact later h
        exact this hr (by simpa using hf)

/-- The second one makes many. -/
theorem check_second {cs : List Member} {x p t : Str} {q : Count} {id : Nat} (hq : q.nodes = []) (h : KnowsOf x (some id) cs) :
    KnowsOf x none (checkForDupes cs (.namedRule x p t (q.push id))) := by
  unfold checkForDupes
  split
  · rename_i hr; exact absurd (dupes_stop hr).1 (by simp [Member.count?])
  · rename_i r fl hr
    have h' : KnowsOf x none r := dupes_knows (k := x) (i := some id) (j := none) hr (fun c hc _ => by
        simp only [newCount]; exact merge_second hc hq)
      (fun hne => absurd rfl hne) (fun m _ hc hk => by cases m <;> simp_all [Member.Knows, Member.count?]) h
    split
    · obtain ⟨c, hc, hk⟩ := h'
      exact ⟨c, by simp [hc], hk⟩
    · exact h'

/-! ## The types as they grow -/

/-- The type has a member of this name that knows. -/
def TypeKnows (tm : TypeMap) (ty k : Str) (i : Option Nat) : Prop := ∃ x, lookup ty tm = some x ∧ KnowsOf k i x.children

theorem TypeKnows.any {tm ty k} (h : TypeKnows tm ty k none) (i) : TypeKnows tm ty k i := by
  obtain ⟨x, hx, c, hc, hk, hi⟩ := h
  exact ⟨x, hx, c, hc, hk, hi.any i⟩

theorem add_knows {camel : Str → Str} {tm p m ty k i} (h : TypeKnows tm ty k i) : TypeKnows (addMember camel p m tm) ty k i := by
  obtain ⟨x, hl, hk⟩ := h
  unfold addMember
  simp only [TypeKnows, lookup_mapSet]
  by_cases e : ty = goTypeName camel p
  · subst e
    simp only [if_true, hl]
    cases x with
    | basic n => obtain ⟨c, hc, _⟩ := hk; simp [GoType.children] at hc
    | rule n cs => exact ⟨_, rfl, check_knows hk⟩
  · simp only [e, if_false]
    exact ⟨x, hl, hk⟩

/-- What a new child is added to. -/
theorem add_children {camel : Str → Str} {tm p} {m : Member} (hm : m.ident ≠ str "Token") :
    ∃ x, lookup (goTypeName camel p) (addMember camel p m tm) = some x ∧
      ((∃ cs, x.children = checkForDupes cs m ∧ ∀ k i, TypeKnows tm (goTypeName camel p) k i → KnowsOf k i cs)) := by
  unfold addMember
  simp only [lookup_mapSet_self]
  refine ⟨_, rfl, ?_⟩
  split
  · rename_i n hl
    refine ⟨_, rfl, fun k i h => ?_⟩
    obtain ⟨x, hx, c, hc, _⟩ := h
    rw [hl] at hx
    simp only [Option.some.injEq] at hx
    subst hx
    simp [GoType.children] at hc
  · rename_i n cs hl
    refine ⟨_, rfl, fun k i h => ?_⟩
    obtain ⟨x, hx, hk⟩ := h
    rw [hl] at hx
    simp only [Option.some.injEq] at hx
    subst hx
    exact hk
  · rename_i hl
    refine ⟨[], ?_, fun k i h => ?_⟩
    · cases m <;> first | rfl | exact absurd rfl hm
    · obtain ⟨x, hx, _⟩ := h
      rw [hl] at hx
      simp at hx

theorem add_all {camel : Str → Str} {tm p} {m : Member} (hm : m.ident ≠ str "Token") (h : m.Knows none) :
    TypeKnows (addMember camel p m tm) (goTypeName camel p) m.ident none := by
  obtain ⟨x, hx, cs, hcs, _⟩ := add_children (camel := camel) (tm := tm) (p := p) hm
  exact ⟨x, hx, hcs ▸ check_all h⟩

theorem add_one {camel : Str → Str} {tm p x q t} {c : Count} {id : Nat} (hm : x ≠ str "Token") :
    TypeKnows (addMember camel p (.namedRule x q t (c.push id)) tm) (goTypeName camel p) x (some id) := by
  obtain ⟨y, hy, cs, hcs, _⟩ := add_children (camel := camel) (tm := tm) (p := p) (m := .namedRule x q t (c.push id)) hm
  exact ⟨y, hy, hcs ▸ check_one⟩

theorem add_second {camel : Str → Str} {tm p x q t} {c : Count} {id : Nat} (hm : x ≠ str "Token") (hc : c.nodes = [])
    (h : TypeKnows tm (goTypeName camel p) x (some id)) :
    TypeKnows (addMember camel p (.namedRule x q t (c.push id)) tm) (goTypeName camel p) x none := by
  obtain ⟨y, hy, cs, hcs, hk⟩ := add_children (camel := camel) (tm := tm) (p := p) (m := .namedRule x q t (c.push id)) hm
  exact ⟨y, hy, hcs ▸ check_second hc (hk _ _ h)⟩

/-- Types made by adding members. -/
inductive MoreTypes (camel : Str → Str) : TypeMap → TypeMap → Prop
  | refl {tm} : MoreTypes camel tm tm
  | add {tm tm' p m} : MoreTypes camel tm tm' → MoreTypes camel tm (addMember camel p m tm')

theorem MoreTypes.one {camel : Str → Str} {tm p m} : MoreTypes camel tm (addMember camel p m tm) := .add .refl

theorem MoreTypes.trans {camel : Str → Str} {a b c} (h : MoreTypes camel a b) (h' : MoreTypes camel b c) : MoreTypes camel a c := by
  induction h' with
  | refl => exact h
  | add _ ih => exact .add ih

theorem MoreTypes.knows {camel : Str → Str} {tm tm' ty k i} (h : MoreTypes camel tm tm') (hk : TypeKnows tm ty k i) : TypeKnows tm' ty k i := by
  induction h with
  | refl => exact hk
  | add _ ih => exact add_knows ih

mutual
theorem walkType_more {camel : Str → Str} {rnd} : ∀ (t : Term) {p quant known id st st'},
    walkType camel rnd t p quant known id st = some st' → MoreTypes camel st.types st'.types
  | .s _, _, _, _, _, _, _, h => by simp only [walkType, Option.some.injEq] at h; subst h; exact .one
  | .re _, _, _, _, _, _, _, h => by simp only [walkType, Option.some.injEq] at h; subst h; exact .one
  | .rule r, _, _, _, _, _, _, h => by
    simp only [walkType, Option.map_eq_some_iff] at h
    obtain ⟨m, _, rfl⟩ := h
    exact .one
  | .ref _ _, _, _, _, _, _, _, h => by simp only [walkType, Option.some.injEq] at h; subst h; exact .one
  | .ext _, _, _, _, _, _, _, h => by simp only [walkType, Option.some.injEq] at h; subst h; exact .refl
  | .scope t g, _, _, _, _, _, _, h => by
    simp only [walkType, Option.bind_eq_some_iff] at h
    obtain ⟨st1, h1, h2⟩ := h
    exact (walkRules_more g h1).trans (walkType_more t h2)
  | .seq ts, _, _, _, _, _, _, h => by simp only [walkType] at h; exact walkTypes_more ts h
  | .stack ts, _, _, _, _, _, _, h => by simp only [walkType] at h; exact walkTypes_more ts h
  | .oneof ts, _, _, _, _, _, _, h => by simp only [walkType] at h; exact MoreTypes.one.trans (walkAlternatives_more ts h)
  | .delim t sep _ _ _, _, _, _, _, _, _, h => by
    simp only [walkType, Option.bind_eq_some_iff] at h
    obtain ⟨st1, h1, h2⟩ := h
    refine (walkType_more t h1).trans ?_
    have rec2 := fun {p q} {s'} => walkType_more sep (camel := camel) (rnd := rnd) (p := p) (quant := q) (known := ‹_›) (id := ‹_›) (st := st1) (st' := s')
    split at h2
    · simp only [Option.some.injEq] at h2; subst h2; exact .one
    · simp only [Option.some.injEq] at h2; subst h2; exact .one
    · exact rec2 h2
    · exact rec2 h2
    · simp only [Option.some.injEq] at h2; subst h2; exact .refl
    · simp only [Option.some.injEq] at h2; subst h2; exact .refl
    · exact rec2 h2
  | .named n t, _, _, _, _, _, _, h => by
    have rec1 := fun {p q k i} {s s'} => walkType_more t (camel := camel) (rnd := rnd) (p := p) (quant := q) (known := k) (id := i) (st := s) (st' := s')
    rw [walkType.eq_def] at h
    simp only at h
    split at h
    · simp only [Option.map_eq_some_iff] at h
      obtain ⟨m, _, rfl⟩ := h
      exact .one
    · simp only [Option.some.injEq] at h; subst h; exact .one
    · simp only [Option.some.injEq] at h; subst h; exact .one
    · simp only [Option.some.injEq] at h; subst h; exact .one
    · simp only [Option.map_eq_some_iff] at h
      obtain ⟨st1, h1, rfl⟩ := h
      exact (rec1 h1).trans .one
  | .quant t _ _, _, _, _, _, _, _, h => by simp only [walkType] at h; exact walkType_more t h
  | .cut t, _, _, _, _, _, _, h => by simp only [walkType] at h; exact walkType_more t h
  | .look t, _, _, _, _, _, _, h => by simp only [walkType] at h; exact walkType_more t h
termination_by structural t => t
theorem walkTypes_more {camel : Str → Str} {rnd} : ∀ (ts : List Term) {p quant known id st st'},
    walkTypes camel rnd ts p quant known id st = some st' → MoreTypes camel st.types st'.types
  | [], _, _, _, _, _, _, h => by simp only [walkTypes, Option.some.injEq] at h; subst h; exact .refl
  | t :: ts, _, _, _, _, _, _, h => by
    simp only [walkTypes, Option.bind_eq_some_iff] at h
    obtain ⟨st1, h1, h2⟩ := h
    exact (walkType_more t h1).trans (walkTypes_more ts h2)
termination_by structural ts => ts
theorem walkAlternatives_more {camel : Str → Str} {rnd} : ∀ (ts : List Term) {p quant known st st'},
    walkAlternatives camel rnd ts p quant known st = some st' → MoreTypes camel st.types st'.types
  | [], _, _, _, _, _, h => by simp only [walkAlternatives, Option.some.injEq] at h; subst h; exact .refl
  | t :: ts, _, _, _, st, _, h => by
    simp only [walkAlternatives, Option.bind_eq_some_iff] at h
    obtain ⟨st1, h1, h2⟩ := h
    exact (walkType_more (st := { st with drawn := st.drawn + 1 }) t h1).trans (walkAlternatives_more ts h2)
termination_by structural ts => ts
theorem walkRules_more {camel : Str → Str} {rnd} : ∀ (g : List (Str × Term)) {pre known st st'},
    walkRules camel rnd pre g known st = some st' → MoreTypes camel st.types st'.types
  | [], _, _, _, _, h => by simp only [walkRules, Option.some.injEq] at h; subst h; exact .refl
  | (r, t) :: g, _, _, st, _, h => by
    simp only [walkRules, Option.bind_eq_some_iff] at h
    obtain ⟨st1, h1, h2⟩ := h
    have w := walkType_more (st := { st with drawn := st.drawn + 1 }) t h1
    split at h2
    · simp at h2
    · refine w.trans (MoreTypes.trans ?_ (walkRules_more g h2))
      split
      · exact .one
      · exact .refl
termination_by structural g => g
end

end Wbnf

import Verif.Spec.TypesDecl
import Verif.Lemmas.TypesMany
import Verif.Lemmas.ReorderCompile
import Verif.Lemmas.Scope

/-!
# Types have each name once
-/

namespace Wbnf

def Member.purpose : Member → Purpose
  | .choice _ => .choice
  | .stackBackRef _ _ => .self
  | .backRef _ _ => .ref
  | .namedToken _ _ _ => .child
  | .unnamedToken _ _ => .token
  | .namedRule _ _ _ _ => .child

/-- The use of a name that a child of the type `ty` is for. -/
def Member.usage (camel : Str → Str) (ty : Str) (m : Member) : Usage := ⟨ty, m.ident, m.purpose, goTypeName camel m.parent⟩

/-- It has a count. -/
def Member.Counts (m : Member) : Prop := m.count?.isSome = true

/-- The loop changes counts only. -/
theorem dupes_usage {camel : Str → Str} {ty} {next : Member} : ∀ {cs r}, dupesLoop next cs = some r → r.1.map (Member.usage camel ty) = cs.map (Member.usage camel ty) := by
  intro cs
  induction cs with
  | nil => intro r h; simp only [dupesLoop, Option.some.injEq] at h; subst h; rfl
  | cons c cs ih =>
    intro r h
    have step : ∀ {c'' : Member} {fl : Bool → Bool}, (dupesLoop next cs).map (fun r => (c'' :: r.1, fl r.2)) = some r →
        c''.usage camel ty = c.usage camel ty → r.1.map (Member.usage camel ty) = (c :: cs).map (Member.usage camel ty) := by
      intro c'' fl h hc
      simp only [Option.map_eq_some_iff] at h
      obtain ⟨q, hq, rfl⟩ := h
      simp [ih hq, hc]
    simp only [dupesLoop] at h
    split at h
    · exact step (fl := id) h rfl
    · split at h
      · exact step (fl := fun _ => false) h rfl
      · exact step (fl := fun _ => false) h rfl
      · exact step (fl := fun _ => false) h rfl
      · simp at h
      · simp at h
      · exact step (fl := id) h rfl

/-- A child is only appended if there is none like it, unless it is a back reference, and none with a count. -/
theorem dupes_append {next : Member} : ∀ {cs r}, dupesLoop next cs = some r → r.2 = true →
    ∀ c ∈ cs, c.ident = next.ident → c.count? = none ∧ (c.purpose = next.purpose → next.purpose = .ref) := by
  intro cs
  induction cs with
  | nil => simp
  | cons c cs ih =>
    intro r h hr
    have no : ∀ {c'' : Member}, (dupesLoop next cs).map (fun r => (c'' :: r.1, false)) = some r → False := by
      intro c'' h
      simp only [Option.map_eq_some_iff] at h
      obtain ⟨q, hq, rfl⟩ := h
      simp at hr
    simp only [dupesLoop] at h
    split at h
    · rename_i hid
      simp only [Option.map_eq_some_iff] at h
      obtain ⟨q, hq, rfl⟩ := h
      intro x hx e
      rcases List.mem_cons.1 hx with rfl | hx
      · exact absurd e.symm hid
      · exact ih hq hr x hx e
    · split at h
      · exact (no h).elim
      · exact (no h).elim
      · exact (no h).elim
      · simp at h
      · simp at h
      · rename_i n1 n2 n3 n4 n5
        simp only [Option.map_eq_some_iff] at h
        obtain ⟨q, hq, rfl⟩ := h
        intro x hx e
        rcases List.mem_cons.1 hx with rfl | hx
        · cases x with
          | unnamedToken p n => exact absurd rfl (n1 p n)
          | namedToken x p n => exact absurd rfl (n2 x p n)
          | namedRule x p t n => exact absurd rfl (n3 x p t n)
          | backRef x p => exact ⟨rfl, fun h => h.symm⟩
          | stackBackRef x p =>
            refine ⟨rfl, fun hpc => ?_⟩
            cases next <;> simp [Member.purpose] at hpc
            exact absurd rfl (n4 _ _ _ _ rfl)
          | choice p =>
            refine ⟨rfl, fun hpc => ?_⟩
            cases next <;> simp [Member.purpose] at hpc
            exact absurd rfl (n5 _ _ rfl)
        · exact ih hq hr x hx e

/-- The children have different uses, all in `us`; after `done`, back references are in it, and its children have counts. -/
structure ChildrenOK (camel : Str → Str) (us : List Usage) (done : List Usage) (ty : Str) (cs : List Member) : Prop where
  nodup : (cs.map fun m => (m.ident, m.purpose)).Nodup
  mem : ∀ m ∈ cs, m.usage camel ty ∈ us
  refs : ∀ m ∈ cs, m.purpose = .ref → m.usage camel ty ∈ done
  counts : ∀ u ∈ done, u.type = ty → u.purpose = .child → ∃ m ∈ cs, m.ident = u.name ∧ m.Counts

theorem counts_of {m : Member} : m.Counts ↔ m.purpose = .child ∨ m.purpose = .token := by cases m <;> simp [Member.Counts, Member.purpose, Member.count?]

theorem keys_of_usage {camel : Str → Str} {ty} {cs cs' : List Member} (h : cs'.map (Member.usage camel ty) = cs.map (Member.usage camel ty)) :
    cs'.map (fun m => (m.ident, m.purpose)) = cs.map fun m => (m.ident, m.purpose) := by
  have := congrArg (List.map fun u => (u.name, u.purpose)) h
  simpa [Member.usage, Function.comp_def] using this

theorem ChildrenOK.same {camel : Str → Str} {us done ty cs cs'} (h : ChildrenOK camel us done ty cs)
    (e : cs'.map (Member.usage camel ty) = cs.map (Member.usage camel ty)) : ChildrenOK camel us done ty cs' := by
  have get : ∀ m ∈ cs', ∃ c ∈ cs, c.usage camel ty = m.usage camel ty := by
    intro m hm
    have : m.usage camel ty ∈ cs'.map (Member.usage camel ty) := List.mem_map_of_mem hm
    rw [e] at this
    simpa using this
  have get' : ∀ c ∈ cs, ∃ m ∈ cs', m.usage camel ty = c.usage camel ty := by
    intro m hm
    have : m.usage camel ty ∈ cs.map (Member.usage camel ty) := List.mem_map_of_mem hm
    rw [← e] at this
    simpa using this
  refine ⟨keys_of_usage e ▸ h.nodup, fun m hm => ?_, fun m hm hr => ?_, fun u hu h1 h2 => ?_⟩
  · obtain ⟨c, hc, e⟩ := get m hm
    exact e ▸ h.mem c hc
  · obtain ⟨c, hc, e⟩ := get m hm
    rw [← e]
    exact h.refs c hc ((congrArg Usage.purpose e).trans hr)
  · obtain ⟨c, hc, h3, h4⟩ := h.counts u hu h1 h2
    obtain ⟨m, hm, e⟩ := get' c hc
    refine ⟨m, hm, (congrArg Usage.name e).trans h3, counts_of.2 ?_⟩
    rw [show m.purpose = c.purpose from congrArg Usage.purpose e]
    exact counts_of.1 h4

theorem dupes_counts {next : Member} : ∀ {cs r}, dupesLoop next cs = some r → r.2 = false → ∃ c ∈ r.1, c.ident = next.ident ∧ c.Counts := by
  intro cs
  induction cs with
  | nil => intro r h e; simp only [dupesLoop, Option.some.injEq] at h; subst h; simp at e
  | cons c cs ih =>
    intro r h e
    have later : ∀ {c'' : Member}, (dupesLoop next cs).map (fun r => (c'' :: r.1, r.2)) = some r → ∃ c ∈ r.1, c.ident = next.ident ∧ c.Counts := by
      intro c'' h
      simp only [Option.map_eq_some_iff] at h
      obtain ⟨q, hq, rfl⟩ := h
      obtain ⟨y, hy, hyk⟩ := ih hq e
      exact ⟨y, by simp [hy], hyk⟩
    have now : ∀ {c'' : Member}, (dupesLoop next cs).map (fun r => (c'' :: r.1, false)) = some r → c''.ident = next.ident → c''.Counts →
        ∃ c ∈ r.1, c.ident = next.ident ∧ c.Counts := by
      intro c'' h h1 h2
      simp only [Option.map_eq_some_iff] at h
      obtain ⟨q, hq, rfl⟩ := h
      exact ⟨c'', by simp, h1, h2⟩
    simp only [dupesLoop] at h
    split at h
    · exact later h
    · rename_i hid
      replace hid := Classical.not_not.1 hid
      split at h
      · exact now h hid.symm (by simp [Member.Counts, Member.count?])
      · exact now h hid.symm (by simp [Member.Counts, Member.count?])
      · exact now h hid.symm (by simp [Member.Counts, Member.count?])
      · simp at h
      · simp at h
      · exact later h

theorem check_ok {camel : Str → Str} {us done ty cs} {next : Member} (hu : Untangled camel us) (h : ChildrenOK camel us done ty cs)
    (hn : next.usage camel ty ∈ us) (hr : onceFrom done [next.usage camel ty] = true) :
    ChildrenOK camel us (done ++ [next.usage camel ty]) ty (checkForDupes cs next) := by
  have grow : ∀ {cs}, ChildrenOK camel us done ty cs → (next.purpose = .child → ∃ m ∈ cs, m.ident = next.ident ∧ m.Counts) →
      ChildrenOK camel us (done ++ [next.usage camel ty]) ty cs := by
    intro cs h hc
    refine ⟨h.nodup, h.mem, fun m hm e => List.mem_append_left _ (h.refs m hm e), fun u hu h1 h2 => ?_⟩
    rcases List.mem_append.1 hu with hu | hu
    · exact h.counts u hu h1 h2
    · simp only [List.mem_singleton] at hu
      subst hu
      exact hc h2
  unfold checkForDupes
  split
  · rename_i hd
    refine grow h fun e => ?_
    have := (dupes_stop hd).1
    have hc := (counts_of (m := next)).2 (.inl e)
    simp [Member.Counts, this] at hc
  · rename_i r fl hd
    have h' := h.same (dupes_usage (camel := camel) (ty := ty) hd)
    split
    · rename_i hfl
      have happ := dupes_append hd hfl
      have hne : ∀ c ∈ cs, (c.ident, c.purpose) ≠ (next.ident, next.purpose) := by
        intro c hc e
        obtain ⟨e1, e2⟩ := Prod.mk.inj e
        obtain ⟨_, h2⟩ := happ c hc e1
        have hp := h2 e2
        have h1 := h.refs c hc (e2.trans hp)
        have : c.usage camel ty = next.usage camel ty := by
          have r1 := hu.receivers _ (h.mem c hc)
          have r2 := hu.receivers _ hn
          simp only [Member.usage] at r1 r2 ⊢
          rw [e1, e2, r1, r2]
        rw [this] at h1
        simp only [onceFrom, Bool.and_true, Bool.or_eq_true, List.any_eq_true, decide_eq_true_eq, Bool.not_eq_true'] at hr
        rcases hr with (hr | hr) | ⟨v, hv, hv1, hv2, hv3⟩
        · exact hr hp
        · simp [h1] at hr
        · obtain ⟨m, hm, hm1, hm2⟩ := h.counts v hv hv2 hv1
          have := (happ m hm (hm1.trans hv3)).1
          simp [Member.Counts, this] at hm2
      have hids := keys_of_usage (dupes_usage (camel := camel) (ty := ty) hd)
      refine ⟨?_, fun m hm => ?_, fun m hm e => ?_, fun u hu h1 h2 => ?_⟩
      · rw [List.map_append, List.nodup_append, hids]
        refine ⟨h.nodup, by simp, ?_⟩
        intro a ha b hb
        simp only [List.map_cons, List.map_nil, List.mem_singleton] at hb
        subst hb
        obtain ⟨c, hc, rfl⟩ := List.mem_map.1 ha
        exact hne c hc
      · rcases List.mem_append.1 hm with hm | hm
        · exact h'.mem m hm
        · simp only [List.mem_singleton] at hm; subst hm; exact hn
      · rcases List.mem_append.1 hm with hm | hm
        · exact List.mem_append_left _ (h'.refs m hm e)
        · simp only [List.mem_singleton] at hm; subst hm; simp
      · rcases List.mem_append.1 hu with hu | hu
        · obtain ⟨m, hm, h3⟩ := h'.counts u hu h1 h2
          exact ⟨m, List.mem_append_left _ hm, h3⟩
        · simp only [List.mem_singleton] at hu; subst hu
          exact ⟨next, by simp, rfl, counts_of.2 (.inl h2)⟩
    · rename_i hfl
      exact grow h' fun _ => dupes_counts hd (by simpa using hfl)

/-- The types so far. -/
structure DeclOK (camel : Str → Str) (us done : List Usage) (tm : TypeMap) : Prop where
  keys : (tm.map Prod.fst).Nodup
  types : ∀ ty x, lookup ty tm = some x → (∃ p, ty = goTypeName camel p) ∧
    (x = .basic ty ∧ ⟨ty, str "Token", .token, ty⟩ ∈ us ∧ (∀ u ∈ done, u.type = ty → u.purpose ≠ .child) ∨
      ∃ cs, x = .rule ty cs ∧ ChildrenOK camel us done ty cs)
  none : ∀ u ∈ done, u.purpose = .child → lookup u.type tm ≠ none

/-- Forgetting what is not needed. -/
theorem DeclOK.forget {camel : Str → Str} {us done u tm} (h : DeclOK camel us (done ++ [u]) tm) (hp : u.purpose ≠ .ref) : DeclOK camel us done tm := by
  refine ⟨h.keys, fun ty x hm => ⟨(h.types ty x hm).1, ?_⟩, fun v hv => h.none v (by simp [hv])⟩
  rcases (h.types ty x hm).2 with ⟨e, h1, h2⟩ | ⟨cs, e, h⟩
  · exact .inl ⟨e, h1, fun v hv => h2 v (by simp [hv])⟩
  · refine .inr ⟨cs, e, h.nodup, h.mem, fun m hm e => ?_, fun v hv => h.counts v (by simp [hv])⟩
    rcases List.mem_append.1 (h.refs m hm e) with h | h
    · exact h
    · simp only [List.mem_singleton] at h; subst h; exact absurd e hp

theorem DeclOK.add {camel : Str → Str} {us done tm p} {m : Member} (hu : Untangled camel us) (h : DeclOK camel us done tm)
    (hn : m.usage camel (goTypeName camel p) ∈ us) (hr : onceFrom done [m.usage camel (goTypeName camel p)] = true) :
    DeclOK camel us (done ++ [m.usage camel (goTypeName camel p)]) (addMember camel p m tm) := by
  refine ⟨(mapSet_keys h.keys).1, fun ty x hx => ?_, fun u hu' hp => ?_⟩
  · unfold addMember at hx
    simp only at hx
    rw [lookup_mapSet] at hx
    split at hx
    · rename_i e
      subst e
      simp only [Option.some.injEq] at hx
      subst hx
      refine ⟨⟨p, rfl⟩, ?_⟩
      split
      · rename_i n hl
        rcases (h.types _ _ hl).2 with ⟨e, ht, hd⟩ | ⟨cs, e, _⟩
        · obtain rfl := GoType.basic.inj e
          refine .inr ⟨_, rfl, check_ok hu ⟨by simp, ?_, by simp [upgrade, Member.purpose], fun u hu h1 h2 => absurd h2 (hd u hu h1)⟩ hn hr⟩
          simp only [List.mem_singleton, forall_eq, Member.usage, upgrade, Member.ident, Member.purpose, Member.parent]
          rwa [show goTypeName camel (goTypeName camel p) = goTypeName camel p from goTypeName_node camel _]
        · simp at e
      · rename_i n cs hl
        rcases (h.types _ _ hl).2 with ⟨e, ht⟩ | ⟨cs', e, hc⟩
        · simp at e
        · simp only [GoType.rule.injEq] at e
          obtain ⟨rfl, rfl⟩ := e
          exact .inr ⟨_, rfl, check_ok hu hc hn hr⟩
      · rename_i hl
        have hempty : ∀ u ∈ done, u.type = goTypeName camel p → u.purpose ≠ .child := by
          rintro u hu e hp
          exact h.none u hu hp (e ▸ hl)
        have one : ChildrenOK camel us (done ++ [m.usage camel (goTypeName camel p)]) (goTypeName camel p) [m] := by
          refine ⟨by simp, by simpa using hn, by simp, fun u hu h1 h2 => ?_⟩
          rcases List.mem_append.1 hu with hu | hu
          · exact absurd h2 (hempty u hu h1)
          · simp only [List.mem_singleton] at hu; subst hu
            exact ⟨m, by simp, rfl, counts_of.2 (.inl h2)⟩
        split
        · split
          · left
            refine ⟨rfl, ?_, fun u hu h1 => ?_⟩
            · have := hu.receivers _ hn
              simp only [Member.usage, Member.ident, Member.purpose] at hn this
              rwa [this] at hn
            · rcases List.mem_append.1 hu with hu | hu
              · exact hempty u hu h1
              · simp only [List.mem_singleton] at hu; subst hu; simp [Member.usage, Member.purpose]
          · exact .inr ⟨_, rfl, one⟩
        · exact .inr ⟨_, rfl, one⟩
    · have hx' := h.types ty x hx
      refine ⟨hx'.1, ?_⟩
      rename_i e
      rcases hx'.2 with ⟨e1, h1, h2⟩ | ⟨cs, e1, hc⟩
      · refine .inl ⟨e1, h1, fun u hu h3 => ?_⟩
        rcases List.mem_append.1 hu with hu | hu
        · exact h2 u hu h3
        · simp only [List.mem_singleton] at hu; subst hu; exact absurd h3.symm e
      · refine .inr ⟨cs, e1, hc.nodup, hc.mem, fun m hm h1 => List.mem_append_left _ (hc.refs m hm h1), fun u hu h1 h2 => ?_⟩
        rcases List.mem_append.1 hu with hu | hu
        · exact hc.counts u hu h1 h2
        · simp only [List.mem_singleton] at hu; subst hu; exact absurd h1.symm e
  · unfold addMember
    simp only
    rw [lookup_mapSet]
    split
    · simp
    · rename_i e
      rcases List.mem_append.1 hu' with hu' | hu'
      · exact h.none u hu' hp
      · simp only [List.mem_singleton] at hu'; subst hu'; exact absurd rfl e

end Wbnf

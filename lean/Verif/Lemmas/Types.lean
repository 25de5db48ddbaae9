import Verif.Spec.Types
import Verif.Lemmas.Compile

/-!
# What the walk over a grammar adds to the types
-/

namespace Wbnf

/-! ## Names of types -/

theorem goTypeName_ends (camel : Str → Str) (p : Str) : ∃ x, goTypeName camel p = x ++ nodeSuffix := ⟨_, rfl⟩

theorem goTypeName_node (camel : Str → Str) (x : Str) : goTypeName camel (x ++ nodeSuffix) = x ++ nodeSuffix := by
  have h : nodeSuffix <:+ x ++ nodeSuffix := List.suffix_append _ _
  have hl : nodeSuffix.length = 4 := by decide
  simp [goTypeName, goName, h, hl]

/-! ## Counts -/

/-- One of the two methods is wanted. -/
def Count.Some (c : Count) : Prop := c.one = true ∨ c.all = true

theorem Count.Some.force {c : Count} : c.forceMany.Some := .inr rfl

theorem Count.Some.push {c : Count} (h : c.Some) (id : Nat) : (c.push id).Some := by
  unfold Count.push
  split
  · exact h
  · split
    · exact .force
    · exact h

theorem Count.Some.pushAll {c : Count} (h : c.Some) : ∀ ids, (c.pushAll ids).Some := by
  intro ids
  induction ids generalizing c with
  | nil => exact h
  | cons id ids ih => exact ih (h.push id)

theorem Count.Some.merge {c : Count} (h : c.Some) (d : Count) : (c.merge d).Some := by
  unfold Count.merge
  split
  · exact .force
  · exact h.pushAll _

/-! ## Members -/

def Member.parent : Member → Str
  | .choice p => p
  | .stackBackRef _ p => p
  | .backRef _ p => p
  | .namedToken _ p _ => p
  | .unnamedToken p _ => p
  | .namedRule _ p _ _ => p

/-- How the member uses its name. -/
def Member.Uses (camel : Str → Str) : Member → Use → Prop
  | .stackBackRef _ p, .node ty => ty = goTypeName camel p
  | .stackBackRef _ p, .self ty => ty = goTypeName camel p
  | .backRef _ _, .raw => True
  | .namedToken _ _ _, .text => True
  | .namedRule _ _ t _, .node ty => ty = goTypeName camel t
  | _, _ => False

/-- The count, if there is one. -/
def Member.count? : Member → Option Count
  | .namedToken _ _ c => some c
  | .unnamedToken _ c => some c
  | .namedRule _ _ _ c => some c
  | _ => none

/-- The same but for the count. -/
def Member.Alike (camel : Str → Str) (m m' : Member) : Prop :=
  m.ident = m'.ident ∧ m.parent = m'.parent ∧ (∀ u, m.Uses camel u ↔ m'.Uses camel u) ∧
  ((∀ c, m'.count? = some c → c.Some) → ∀ c, m.count? = some c → c.Some)

theorem Member.Alike.refl {camel : Str → Str} (m : Member) : Member.Alike camel m m := ⟨rfl, rfl, fun _ => .rfl, fun h => h⟩

theorem newCount_some {c : Count} (h : c.Some) (next : Member) : (newCount c next).Some := by
  cases next <;> simp only [newCount] <;> first | exact h | exact h.merge _ | exact .force

theorem dupes_keep {camel : Str → Str} {next : Member} : ∀ {cs r}, dupesLoop next cs = some r →
    (∀ c ∈ cs, ∃ c' ∈ r.1, c'.Alike camel c) ∧ (∀ c' ∈ r.1, ∃ c ∈ cs, c'.Alike camel c) ∧
    (r.2 = false → ∃ c' ∈ r.1, c'.ident = next.ident) := by
  intro cs
  induction cs with
  | nil => intro r h; simp only [dupesLoop, Option.some.injEq] at h; subst h; simp
  | cons c cs ih =>
    intro r h
    -- whatever happens, the head is replaced by something like it
    have step : ∀ {c'' : Member} {fl : Bool → Bool}, (dupesLoop next cs).map (fun r => (c'' :: r.1, fl r.2)) = some r →
        c''.Alike camel c → (c''.ident = next.ident ∨ fl = id) →
        (∀ x ∈ c :: cs, ∃ c' ∈ r.1, c'.Alike camel x) ∧ (∀ c' ∈ r.1, ∃ x ∈ c :: cs, c'.Alike camel x) ∧
        (r.2 = false → ∃ c' ∈ r.1, c'.ident = next.ident) := by
      intro c'' fl h ha hf
      simp only [Option.map_eq_some_iff] at h
      obtain ⟨q, hq, rfl⟩ := h
      obtain ⟨i1, i2, i3⟩ := ih hq
      refine ⟨?_, ?_, ?_⟩
      · intro x hx
        rcases List.mem_cons.1 hx with rfl | hx
        · exact ⟨c'', by simp, ha⟩
        · obtain ⟨c', h1, h2⟩ := i1 x hx
          exact ⟨c', by simp [h1], h2⟩
      · intro x hx
        rcases List.mem_cons.1 hx with rfl | hx
        · exact ⟨c, by simp, ha⟩
        · obtain ⟨c', h1, h2⟩ := i2 x hx
          exact ⟨c', by simp [h1], h2⟩
      · intro e
        rcases hf with hf | rfl
        · exact ⟨c'', by simp, hf⟩
        · obtain ⟨c', h1, h2⟩ := i3 e
          exact ⟨c', by simp [h1], h2⟩
    simp only [dupesLoop] at h
    split at h
    · exact step (fl := id) h (.refl c) (.inr rfl)
    · rename_i hid
      replace hid := Classical.not_not.1 hid
      split at h
      · refine step (fl := fun _ => false) h ⟨rfl, rfl, fun u => by cases u <;> exact .rfl, ?_⟩ (.inl hid.symm)
        intro hc x hx
        simp only [Member.count?, Option.some.injEq] at hx hc
        subst hx
        exact newCount_some (hc _ rfl) _
      · refine step (fl := fun _ => false) h ⟨rfl, rfl, fun u => by cases u <;> exact .rfl, ?_⟩ (.inl hid.symm)
        intro hc x hx
        simp only [Member.count?, Option.some.injEq] at hx hc
        subst hx
        exact newCount_some (hc _ rfl) _
      · refine step (fl := fun _ => false) h ⟨rfl, rfl, fun u => by cases u <;> exact .rfl, ?_⟩ (.inl hid.symm)
        intro hc x hx
        simp only [Member.count?, Option.some.injEq] at hx hc
        subst hx
        exact newCount_some (hc _ rfl) _
      · simp at h
      · simp at h
      · exact step (fl := id) h (.refl _) (.inr rfl)

theorem dupes_none {next : Member} : ∀ {cs}, dupesLoop next cs = none → ∃ c ∈ cs, c.ident = next.ident := by
  intro cs
  induction cs with
  | nil => intro h; simp [dupesLoop] at h
  | cons c cs ih =>
    intro h
    simp only [dupesLoop] at h
    split at h
    · simp only [Option.map_eq_none_iff] at h
      obtain ⟨c', h1, h2⟩ := ih h
      exact ⟨c', by simp [h1], h2⟩
    · rename_i hid
      replace hid := Classical.not_not.1 hid
      exact ⟨c, by simp, hid.symm⟩

/-- Children stay, up to counts; what is new is the one that was to be added; and its name is there. -/
theorem check_keeps {camel : Str → Str} (cs : List Member) (next : Member) :
    (∀ c ∈ cs, ∃ c' ∈ checkForDupes cs next, c'.Alike camel c) ∧
    (∀ c' ∈ checkForDupes cs next, c' = next ∨ ∃ c ∈ cs, c'.Alike camel c) ∧
    ∃ c' ∈ checkForDupes cs next, c'.ident = next.ident := by
  unfold checkForDupes
  split
  · rename_i h
    refine ⟨fun c hc => ⟨c, hc, .refl c⟩, fun c hc => .inr ⟨c, hc, .refl c⟩, dupes_none h⟩
  · rename_i r fl h
    obtain ⟨i1, i2, i3⟩ := dupes_keep (camel := camel) h
    split
    · refine ⟨fun c hc => ?_, fun c hc => ?_, next, by simp, rfl⟩
      · obtain ⟨c', h1, h2⟩ := i1 c hc
        exact ⟨c', by simp [h1], h2⟩
      · rcases List.mem_append.1 hc with hc | hc
        · exact .inr (i2 c hc)
        · exact .inl (by simpa using hc)
    · rename_i hf
      exact ⟨i1, fun c hc => .inr (i2 c hc), i3 (by simpa using hf)⟩

/-! ## The types as they grow -/

/-- What is known of a child of the type `ty`. -/
def Member.Known (camel : Str → Str) (us : List (Str × Str × Use)) (ty : Str) (m : Member) : Prop :=
  goTypeName camel m.parent = ty ∧ (∀ c, m.count? = some c → c.Some) ∧
  ((∃ u, m.Uses camel u ∧ (ty, m.ident, u) ∈ us) ∨ m.ident = str "Token" ∨ m.ident = str "@choice")

theorem Member.Alike.known {camel : Str → Str} {us ty} {m m' : Member} (h : Member.Alike camel m m') (hk : m'.Known camel us ty) :
    m.Known camel us ty := by
  obtain ⟨h1, h2, h3, h4⟩ := h
  refine ⟨h2 ▸ hk.1, h4 hk.2.1, ?_⟩
  rw [h1]
  rcases hk.2.2 with ⟨u, hu, hm⟩ | h
  · exact .inl ⟨u, (h3 u).2 hu, hm⟩
  · exact .inr h

/-- The types have only children with uses from `us`. -/
def TypesOK (camel : Str → Str) (us : List (Str × Str × Use)) (tm : TypeMap) : Prop :=
  ∀ ty x, lookup ty tm = some x → (∃ p, ty = goTypeName camel p) ∧
    (x = .basic ty ∨ ∃ cs, x = .rule ty cs ∧ ∀ m ∈ cs, m.Known camel us ty)

/-- The type has a child with this name and use. -/
def Present (camel : Str → Str) (tm : TypeMap) (ty k : Str) (u : Use) : Prop :=
  ∃ x m, lookup ty tm = some x ∧ m ∈ x.children ∧ m.ident = k ∧ m.Uses camel u

theorem lookup_mapSet {α : Type} (r k : Str) (v : α) (m : List (Str × α)) :
    lookup r (mapSet k v m) = if r = k then some v else lookup r m := by
  split
  · rename_i e; subst e; exact lookup_mapSet_self _ _ _
  · rename_i e; exact lookup_mapSet_ne e _ _

theorem upgrade_known (camel : Str → Str) (us : List (Str × Str × Use)) (p : Str) :
    (upgrade (goTypeName camel p)).Known camel us (goTypeName camel p) := by
  refine ⟨goTypeName_node camel _, ?_, .inr (.inl rfl)⟩
  intro c hc; simp only [upgrade, Member.count?, Option.some.injEq] at hc; subst hc; exact .inl rfl

theorem add_ok {camel : Str → Str} {us tm p} {m : Member} (h : TypesOK camel us tm) (hm : m.Known camel us (goTypeName camel p)) :
    TypesOK camel us (addMember camel p m tm) := by
  intro ty x hx
  unfold addMember at hx
  simp only at hx
  rw [lookup_mapSet] at hx
  split at hx
  · rename_i e
    subst e
    refine ⟨⟨p, rfl⟩, ?_⟩
    simp only [Option.some.injEq] at hx
    subst hx
    split
    · rename_i n hl
      obtain ⟨_, he⟩ := h _ _ hl
      rcases he with he | ⟨cs, he, _⟩
      · simp only [GoType.basic.injEq] at he
        subst he
        refine .inr ⟨_, rfl, fun c hc => ?_⟩
        rcases (check_keeps (camel := camel) _ _).2.1 c hc with rfl | ⟨c', hc', ha⟩
        · exact hm
        · simp only [List.mem_singleton] at hc'
          subst hc'
          exact ha.known (upgrade_known camel us p)
      · simp at he
    · rename_i n cs hl
      obtain ⟨_, he⟩ := h _ _ hl
      rcases he with he | ⟨cs', he, hk⟩
      · simp at he
      · simp only [GoType.rule.injEq] at he
        obtain ⟨rfl, rfl⟩ := he
        refine .inr ⟨_, rfl, fun c hc => ?_⟩
        rcases (check_keeps (camel := camel) _ _).2.1 c hc with rfl | ⟨c', hc', ha⟩
        · exact hm
        · exact ha.known (hk _ hc')
    · split
      · split
        · exact .inl rfl
        · exact .inr ⟨_, rfl, fun c hc => by simp only [List.mem_singleton] at hc; subst hc; exact hm⟩
      · exact .inr ⟨_, rfl, fun c hc => by simp only [List.mem_singleton] at hc; subst hc; exact hm⟩
  · exact h _ _ hx

theorem add_keeps {camel : Str → Str} {tm p ty k u} {m : Member} (h : Present camel tm ty k u) : Present camel (addMember camel p m tm) ty k u := by
  obtain ⟨x, c, hl, hc, hk, hu⟩ := h
  unfold addMember
  by_cases e : ty = goTypeName camel p
  · subst e
    simp only [Present]
    rw [lookup_mapSet_self, hl]
    cases x with
    | basic n => simp [GoType.children] at hc
    | rule n cs =>
      obtain ⟨c', h1, h2⟩ := (check_keeps (camel := camel) cs m).1 c hc
      exact ⟨_, c', rfl, h1, h2.1.trans hk, (h2.2.2.1 u).2 hu⟩
  · refine ⟨x, c, ?_, hc, hk, hu⟩
    simp only
    rw [lookup_mapSet]
    simp [e, hl]

theorem add_present {camel : Str → Str} {us tm p} {m : Member} {u : Use} (ho : OneWay us) (h : TypesOK camel us tm)
    (hm : m.Known camel us (goTypeName camel p)) (hu : m.Uses camel u) (hmem : (goTypeName camel p, m.ident, u) ∈ us)
    (ht : m.ident ≠ str "Token") (hc : m.ident ≠ str "@choice") :
    Present camel (addMember camel p m tm) (goTypeName camel p) m.ident u := by
  have hnew : ∀ cs : List Member, (∀ c ∈ cs, c.Known camel us (goTypeName camel p)) →
      ∃ c ∈ checkForDupes cs m, c.ident = m.ident ∧ c.Uses camel u := by
    intro cs hcs
    obtain ⟨_, h2, c, h3, h4⟩ := check_keeps (camel := camel) cs m
    have hk : c.Known camel us (goTypeName camel p) := by
      rcases h2 c h3 with rfl | ⟨c', h5, h6⟩
      · exact hm
      · exact h6.known (hcs _ h5)
    refine ⟨c, h3, h4, ?_⟩
    rcases hk.2.2 with ⟨u', h5, h6⟩ | e | e
    · have e := ho _ h6 _ hmem rfl h4
      simp only at e
      exact e ▸ h5
    · exact absurd (h4 ▸ e) ht
    · exact absurd (h4 ▸ e) hc
  have hne : ∀ q c, m ≠ .unnamedToken q c := by intro q c e; subst e; exact ht rfl
  simp only [addMember, Present]
  rw [lookup_mapSet_self]
  cases hl : lookup (goTypeName camel p) tm with
  | none =>
    refine ⟨.rule (goTypeName camel p) [m], m, ?_, by simp [GoType.children], rfl, hu⟩
    cases m <;> first | rfl | exact absurd rfl (hne _ _)
  | some x =>
    obtain ⟨_, he⟩ := h _ _ hl
    rcases he with rfl | ⟨cs, rfl, hk⟩
    · obtain ⟨c, h1, h2, h3⟩ := hnew [upgrade (goTypeName camel p)] (by simpa using upgrade_known camel us p)
      exact ⟨_, c, rfl, h1, h2, h3⟩
    · obtain ⟨c, h1, h2, h3⟩ := hnew cs hk
      exact ⟨_, c, rfl, h1, h2, h3⟩

end Wbnf

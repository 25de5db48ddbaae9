import Verif.Model.TypesWalk
import Verif.Lemmas.TypesDeclClosed

/-!
# What the generated walker calls is declared
-/

namespace Wbnf

/-! ## Every type has children that are counted -/

/-- A method is wanted for every child with a count, and types with children have some. -/
def GoType.Sound (x : GoType) : Prop := (∀ m ∈ x.children, ∀ c, m.count? = some c → c.Some) ∧ ∀ n, x ≠ .rule n []

def SoundTypes (tm : TypeMap) : Prop := ∀ e ∈ tm, e.2.Sound

def Member.Some (m : Member) : Prop := ∀ c, m.count? = some c → c.Some

theorem check_sound {cs : List Member} {next : Member} (h : ∀ m ∈ cs, m.Some) (hn : next.Some) :
    (∀ m ∈ checkForDupes cs next, m.Some) ∧ checkForDupes cs next ≠ [] := by
  obtain ⟨_, h2, c, h3, _⟩ := check_keeps (camel := id) cs next
  refine ⟨fun m hm => ?_, fun e => by rw [e] at h3; simp at h3⟩
  rcases h2 m hm with rfl | ⟨c', hc', ha⟩
  · exact hn
  · exact ha.2.2.2 (h c' hc')

theorem SoundTypes.add {camel : Str → Str} {tm p} {m : Member} (h : SoundTypes tm) (hm : m.Some) : SoundTypes (addMember camel p m tm) := by
  have single : ∀ n : Str, (GoType.rule n [m]).Sound := fun n => ⟨by simpa [GoType.children, Member.Some] using hm, by simp⟩
  intro e he
  rcases mem_mapSet he with rfl | he
  · simp only
    split
    · have := check_sound (cs := [upgrade ‹_›]) (next := m) (by simp [upgrade, Member.Some, Member.count?, Count.Some, wantOne]) hm
      exact ⟨this.1, fun n e => this.2 (GoType.rule.inj e).2⟩
    · rename_i hl
      have := check_sound (next := m) (h _ (lookup_mem hl)).1 hm
      exact ⟨this.1, fun n e => this.2 (GoType.rule.inj e).2⟩
    · split
      · split
        · exact ⟨by simp [GoType.children], by simp⟩
        · exact single _
      · exact single _
  · exact h e he

theorem ruleMember_some {r p q known m} (h : ruleMember r p q known = some m) (hq : q.Some) : m.Some := by
  unfold ruleMember at h
  split at h <;> split at h <;> first | (simp at h; done) | (obtain rfl := Option.some.inj h; intro c hc; simp only [Member.count?, Option.some.injEq, reduceCtorEq] at hc; try subst hc; exact hq)

theorem namedRuleMember_some {n r p q known m} (h : namedRuleMember n r p q known = some m) (hq : q.Some) : m.Some := by
  unfold namedRuleMember at h
  split at h
  · split at h
    · obtain rfl := Option.some.inj h; intro c hc; simp [Member.count?] at hc
    · simp at h
  · obtain rfl := Option.some.inj h
    intro c hc; simp only [Member.count?, Option.some.injEq] at hc; subst hc; exact hq

theorem some_of {m : Member} {q : Count} (hq : q.Some) (h : ∀ c, m.count? = some c → c = q) : m.Some := fun c hc => h c hc ▸ hq

section
variable {camel : Str → Str} {rnd : Nat → Nat}

mutual
theorem walkType_sound : ∀ (t : Term) {p quant known id st st'}, quant.Some → SoundTypes st.types →
    walkType camel rnd t p quant known id st = some st' → SoundTypes st'.types
  | .s _, _, _, _, id, _, _, hq, hs, h => by
    simp only [walkType, Option.some.injEq] at h; subst h
    exact hs.add (some_of (hq.push id) (by simp [Member.count?]))
  | .re _, _, _, _, id, _, _, hq, hs, h => by
    simp only [walkType, Option.some.injEq] at h; subst h
    exact hs.add (some_of (hq.push id) (by simp [Member.count?]))
  | .rule r, _, _, _, id, _, _, hq, hs, h => by
    simp only [walkType, Option.map_eq_some_iff] at h
    obtain ⟨m, hm, rfl⟩ := h
    exact hs.add (ruleMember_some hm (hq.push id))
  | .ref _ _, _, _, _, _, _, _, _, hs, h => by
    simp only [walkType, Option.some.injEq] at h; subst h
    exact hs.add (some_of wantOne_some (by simp [Member.count?]))
  | .ext _, _, _, _, _, _, _, _, hs, h => by simp only [walkType, Option.some.injEq] at h; subst h; exact hs
  | .scope t g, _, _, _, _, _, _, hq, hs, h => by
    simp only [walkType, Option.bind_eq_some_iff] at h
    obtain ⟨st1, h1, h2⟩ := h
    exact walkType_sound t hq (walkRules_sound g hs h1) h2
  | .seq ts, _, _, _, _, _, _, hq, hs, h => by simp only [walkType] at h; exact walkTypes_sound ts hq hs h
  | .stack ts, _, _, _, _, _, _, hq, hs, h => by simp only [walkType] at h; exact walkTypes_sound ts hq hs h
  | .oneof ts, _, _, _, _, _, _, hq, hs, h => by
    simp only [walkType] at h
    exact walkAlternatives_sound ts hq (hs.add (some_of wantOne_some (by simp [Member.count?]))) h
  | .delim t sep _ _ _, _, _, _, _, _, _, hq, hs, h => by
    simp only [walkType, Option.bind_eq_some_iff] at h
    obtain ⟨st1, h1, h2⟩ := h
    have hs1 := walkType_sound t wantAll_some hs h1
    have rec2 := fun {p} {s'} => walkType_sound sep (p := p) (quant := wantAll) (known := ‹_›) (id := ‹_›) (st := st1) (st' := s') wantAll_some hs1
    split at h2
    · simp only [Option.some.injEq] at h2; subst h2; exact hs1.add (some_of hq (by simp [Member.count?]))
    · simp only [Option.some.injEq] at h2; subst h2; exact hs1.add (some_of hq (by simp [Member.count?]))
    · exact rec2 h2
    · exact rec2 h2
    · simp only [Option.some.injEq] at h2; subst h2; exact hs1
    · simp only [Option.some.injEq] at h2; subst h2; exact hs1
    · exact rec2 h2
  | .named n t, _, _, _, _, _, _, hq, hs, h => by
    rw [walkType.eq_def] at h
    simp only at h
    split at h
    · simp only [Option.map_eq_some_iff] at h
      obtain ⟨m, hm, rfl⟩ := h
      exact hs.add (namedRuleMember_some hm hq)
    · simp only [Option.some.injEq] at h; subst h; exact hs.add (some_of hq (by simp [Member.count?]))
    · simp only [Option.some.injEq] at h; subst h; exact hs.add (some_of hq (by simp [Member.count?]))
    · simp only [Option.some.injEq] at h; subst h; exact hs.add (some_of hq (by simp [Member.count?]))
    · simp only [Option.map_eq_some_iff] at h
      obtain ⟨st1, h1, rfl⟩ := h
      exact (walkType_sound t hq hs h1).add (some_of hq (by simp [Member.count?]))
  | .quant t _ hi, _, _, _, _, _, _, hq, hs, h => by
    simp only [walkType] at h
    refine walkType_sound t ?_ hs h
    split
    · exact wantAll_some
    · exact hq
  | .cut t, _, _, _, _, _, _, hq, hs, h => by simp only [walkType] at h; exact walkType_sound t hq hs h
  | .look t, _, _, _, _, _, _, hq, hs, h => by simp only [walkType] at h; exact walkType_sound t hq hs h
termination_by structural t => t
theorem walkTypes_sound : ∀ (ts : List Term) {p quant known id st st'}, quant.Some → SoundTypes st.types →
    walkTypes camel rnd ts p quant known id st = some st' → SoundTypes st'.types
  | [], _, _, _, _, _, _, _, hs, h => by simp only [walkTypes, Option.some.injEq] at h; subst h; exact hs
  | t :: ts, _, _, _, _, _, _, hq, hs, h => by
    simp only [walkTypes, Option.bind_eq_some_iff] at h
    obtain ⟨st1, h1, h2⟩ := h
    exact walkTypes_sound ts hq (walkType_sound t hq hs h1) h2
termination_by structural ts => ts
theorem walkAlternatives_sound : ∀ (ts : List Term) {p quant known st st'}, quant.Some → SoundTypes st.types →
    walkAlternatives camel rnd ts p quant known st = some st' → SoundTypes st'.types
  | [], _, _, _, _, _, _, hs, h => by simp only [walkAlternatives, Option.some.injEq] at h; subst h; exact hs
  | t :: ts, _, _, _, st, _, hq, hs, h => by
    simp only [walkAlternatives, Option.bind_eq_some_iff] at h
    obtain ⟨st1, h1, h2⟩ := h
    exact walkAlternatives_sound ts hq (walkType_sound t hq (st := ⟨st.types, st.drawn + 1⟩) hs h1) h2
termination_by structural ts => ts
theorem walkRules_sound : ∀ (g : List (Str × Term)) {pre known st st'}, SoundTypes st.types →
    walkRules camel rnd pre g known st = some st' → SoundTypes st'.types
  | [], _, _, _, _, hs, h => by simp only [walkRules, Option.some.injEq] at h; subst h; exact hs
  | (r, t) :: g, _, _, st, _, hs, h => by
    simp only [walkRules, Option.bind_eq_some_iff] at h
    obtain ⟨st1, h1, h2⟩ := h
    have hs1 := walkType_sound t wantOne_some (st := ⟨st.types, st.drawn + 1⟩) hs h1
    split at h2
    · simp at h2
    · refine walkRules_sound g ?_ h2
      split
      · exact hs1.add (some_of wantOne_some (by simp [Member.count?]))
      · exact hs1
termination_by structural g => g
end

theorem makeTypes_sound {tm} {g : Grammar} (h : makeTypes camel rnd g = some tm) : SoundTypes tm := by
  simp only [makeTypes, Option.map_eq_some_iff] at h
  obtain ⟨st, h, rfl⟩ := h
  exact walkRules_sound g (by intro e he; simp at he) h

/-! ## What is called -/

/-- A child for which the walker does something. -/
theorem walkStep_cases {tm : TypeMap} {m : Member} {st : WalkStep} (h : m.walkStep camel tm = some st) :
    (∃ n p t c, m = .namedRule n p t c ∧ st.many = c.all ∧ st.getter = goName camel n ∧ st.type = goTypeName camel t ∧
      (st.walker = false ↔ ∃ x, lookup (goTypeName camel t) tm = some (.basic x))) ∨
    (∃ n p, m = .stackBackRef n p ∧ st = ⟨true, goName camel n, goTypeName camel p, true⟩) := by
  cases m <;> simp only [Member.walkStep, Option.some.injEq, reduceCtorEq] at h
  · exact .inr ⟨_, _, rfl, h.symm⟩
  · subst h
    refine .inl ⟨_, _, _, _, rfl, rfl, rfl, rfl, ?_⟩
    constructor
    · intro h; simp only at h; split at h
      · exact ⟨_, ‹_›⟩
      · simp at h
    · rintro ⟨x, hx⟩; simp [hx]

/-- The method of the type that the walker calls. -/
def WalkStep.method (st : WalkStep) : Str := (if st.many then str "All" else str "One") ++ st.getter

/-- What it does. -/
def WalkStep.does (st : WalkStep) (k : Str) : GoMethod := if st.many then .allNodes k st.type else .oneNode k st.type

theorem walkStep_method {tm : TypeMap} {m : Member} {st : WalkStep} (h : m.walkStep camel tm = some st) (hc : m.Some) :
    ⟨goTypeName camel m.parent, st.method, st.does m.ident⟩ ∈ m.methods camel := by
  rcases walkStep_cases h with ⟨n, p, t, c, rfl, h1, h2, h3, _⟩ | ⟨n, p, rfl, rfl⟩
  · have := hc c rfl
    simp only [Member.methods, ruleMethods, WalkStep.method, WalkStep.does, h1, h2, h3, Member.parent, Member.ident]
    cases ha : c.all
    · have ho : c.one = true := by rcases this with h | h; exact h; simp [ha] at h
      simp [ho]
    · simp
  · simp [Member.methods, ruleMethods, WalkStep.method, WalkStep.does, Member.parent, Member.ident, wantAll]

end

end Wbnf

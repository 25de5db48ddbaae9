import Verif.Lemmas.TypesDeclMethods

/-!
# Types that accessors return, and grammars for which types are made
-/

namespace Wbnf

/-- The type that the accessors of a child return is in `D`. -/
def Member.Ret (camel : Str → Str) (D : Str → Prop) : Member → Prop
  | .stackBackRef _ p => D (goTypeName camel p)
  | .namedRule _ _ t _ => D (goTypeName camel t)
  | _ => True

def AllRet (camel : Str → Str) (D : Str → Prop) (tm : TypeMap) : Prop := ∀ e ∈ tm, ∀ m ∈ e.2.children, m.Ret camel D

theorem dupes_ret {camel : Str → Str} {D} {next : Member} : ∀ {cs r}, dupesLoop next cs = some r → (∀ m ∈ cs, m.Ret camel D) → ∀ m ∈ r.1, m.Ret camel D := by
  intro cs
  induction cs with
  | nil => intro r h _; simp only [dupesLoop, Option.some.injEq] at h; subst h; simp
  | cons c cs ih =>
    intro r h hc
    have step : ∀ {c'' : Member} {fl : Bool → Bool}, (dupesLoop next cs).map (fun r => (c'' :: r.1, fl r.2)) = some r →
        c''.Ret camel D → ∀ m ∈ r.1, m.Ret camel D := by
      intro c'' fl h h1 m hm
      simp only [Option.map_eq_some_iff] at h
      obtain ⟨q, hq, rfl⟩ := h
      rcases List.mem_cons.1 hm with rfl | hm
      · exact h1
      · exact ih hq (fun x hx => hc x (List.mem_cons_of_mem _ hx)) m hm
    have hc0 := hc c (by simp)
    simp only [dupesLoop] at h
    split at h
    · exact step (fl := id) h hc0
    · split at h
      · exact step (fl := fun _ => false) h hc0
      · exact step (fl := fun _ => false) h hc0
      · exact step (fl := fun _ => false) h hc0
      · simp at h
      · simp at h
      · exact step (fl := id) h hc0

theorem check_ret {camel : Str → Str} {D} {next : Member} {cs} (h : ∀ m ∈ cs, m.Ret camel D) (hn : next.Ret camel D) :
    ∀ m ∈ checkForDupes cs next, m.Ret camel D := by
  unfold checkForDupes
  split
  · exact h
  · rename_i r fl hd
    have := dupes_ret hd h
    split
    · intro m hm
      rcases List.mem_append.1 hm with hm | hm
      · exact this m hm
      · simp only [List.mem_singleton] at hm; subst hm; exact hn
    · exact this

theorem AllRet.add {camel : Str → Str} {D tm p} {m : Member} (h : AllRet camel D tm) (hm : m.Ret camel D) : AllRet camel D (addMember camel p m tm) := by
  intro e he
  rcases mem_mapSet he with rfl | he
  · simp only
    split
    · exact check_ret (by simp [upgrade, Member.Ret]) hm
    · rename_i hl
      exact check_ret (h _ (lookup_mem hl)) hm
    · split
      · split
        · simp [GoType.children]
        · simpa [GoType.children] using hm
      · simpa [GoType.children] using hm
  · exact h e he

/-- What is known are types in `D`. -/
def KnownIn (camel : Str → Str) (D : Str → Prop) (known : List (Str × Known)) : Prop :=
  ∀ r x, lookup r known = some x → match x with
    | .type t => D (goTypeName camel t)
    | .stackInfo _ p => D (goTypeName camel p)

theorem KnownIn.push {camel : Str → Str} {D known} (h : KnownIn camel D known) {r p} (hp : D (goTypeName camel p)) : KnownIn camel D (pushRuleName r p known) := by
  intro k x hl
  rw [pushRuleName, lookup_mapSet] at hl
  split at hl
  · obtain rfl := Option.some.inj hl; exact hp
  · exact h k x hl

theorem KnownIn.merge {camel : Str → Str} {D pre} : ∀ (g : Grammar) {known}, KnownIn camel D known → (∀ e ∈ g, D (goTypeName camel (pre ++ goName camel e.1))) →
    KnownIn camel D (mergeRules camel pre known g)
  | [], _, h, _ => h
  | (k, t) :: g, known, h, hg => by
    simp only [mergeRules]
    refine KnownIn.merge g ?_ fun e he => hg e (List.mem_cons_of_mem _ he)
    intro r x hl
    rw [lookup_mapSet] at hl
    split at hl
    · obtain rfl := Option.some.inj hl; exact hg (k, t) (by simp)
    · exact h r x hl

section
variable {camel : Str → Str} {rnd : Nat → Nat} {types : List Str} {fin : TypeMap}

/-- The walk keeps what is returned within the types that there are in the end. -/
def Stays (camel : Str → Str) (fin tm tm' : TypeMap) : Prop :=
  MoreTypes camel tm' fin → AllRet camel (fun ty => lookup ty fin ≠ none) tm → AllRet camel (fun ty => lookup ty fin ≠ none) tm'

theorem Stays.trans {tm tm' tm''} (h : Stays camel fin tm tm') (hm : MoreTypes camel tm' tm'') (h' : Stays camel fin tm' tm'') : Stays camel fin tm tm'' :=
  fun hf ha => h' hf (h (hm.trans hf) ha)

theorem Stays.add {tm p m} (h : MoreTypes camel (addMember camel p m tm) fin → m.Ret camel fun ty => lookup ty fin ≠ none) : Stays camel fin tm (addMember camel p m tm) :=
  fun hf ha => ha.add (h hf)

mutual
theorem walkType_stays (ht : ∀ ty ∈ types, lookup ty fin ≠ none) : ∀ (t : Term) {p quant known id st st'},
    t.Deep (Term.Makes types camel) → KnownIn camel (fun ty => lookup ty fin ≠ none) known →
    walkType camel rnd t p quant known id st = some st' → Stays camel fin st.types st'.types
  | .s _, _, _, _, _, _, _, _, _, h => by simp only [walkType, Option.some.injEq] at h; subst h; exact .add fun _ => trivial
  | .re _, _, _, _, _, _, _, _, _, h => by simp only [walkType, Option.some.injEq] at h; subst h; exact .add fun _ => trivial
  | .rule r, _, _, _, _, _, _, _, hk, h => by
    simp only [walkType, Option.map_eq_some_iff] at h
    obtain ⟨m, hm, rfl⟩ := h
    unfold ruleMember at hm
    split at hm
    · split at hm
      · rename_i hl
        obtain rfl := Option.some.inj hm
        exact .add fun _ => hk _ _ hl
      · simp at hm
    · split at hm
      · rename_i hl
        obtain rfl := Option.some.inj hm
        exact .add fun _ => hk _ _ hl
      · simp at hm
  | .ref _ _, _, _, _, _, _, _, _, _, h => by simp only [walkType, Option.some.injEq] at h; subst h; exact .add fun _ => trivial
  | .ext _, _, _, _, _, _, _, _, _, h => by simp only [walkType, Option.some.injEq] at h; subst h; exact fun _ h => h
  | .scope t g, _, _, _, _, _, _, hd, hk, h => by
    simp only [walkType, Option.bind_eq_some_iff] at h
    obtain ⟨st1, h1, h2⟩ := h
    intro hf
    have hk' : KnownIn camel (fun ty => lookup ty fin ≠ none) (mergeRules camel _ _ g) :=
      hk.merge g fun e he => ((walkType_more t h2).trans hf).has (walkRules_has g h1 e he)
    exact Stays.trans (walkRules_stays ht g hd.2.2 hk' h1) (walkType_more t h2) (walkType_stays ht t hd.2.1 hk' h2) hf
  | .seq ts, _, _, _, _, _, _, hd, hk, h => by simp only [walkType] at h; exact walkTypes_stays ht ts hd.2 hk h
  | .stack ts, _, _, _, _, _, _, hd, hk, h => by simp only [walkType] at h; exact walkTypes_stays ht ts hd.2 hk h
  | .oneof ts, _, _, _, _, _, _, hd, hk, h => by
    simp only [walkType] at h
    exact (Stays.add (m := .choice _) fun _ => trivial).trans (walkAlternatives_more ts h) (walkAlternatives_stays ht ts hd.2 hk h)
  | .delim t sep _ _ _, _, _, _, _, _, _, hd, hk, h => by
    rw [walkType.eq_def] at h
    simp only [Option.bind_eq_some_iff] at h
    obtain ⟨st1, h1, h2⟩ := h
    have r1 := walkType_stays ht t hd.2.1 hk h1
    have rec2 := fun {p q} {s'} => walkType_stays ht sep (p := p) (quant := q) (known := ‹_›) (id := ‹_›) (st := st1) (st' := s') hd.2.2 hk
    split at h2
    · simp only [Option.some.injEq] at h2; subst h2; exact r1.trans .one (.add fun _ => trivial)
    · simp only [Option.some.injEq] at h2; subst h2; exact r1.trans .one (.add fun _ => trivial)
    · exact r1.trans (walkType_more _ h2) (rec2 h2)
    · exact r1.trans (walkType_more _ h2) (rec2 h2)
    · simp only [Option.some.injEq] at h2; subst h2; exact r1
    · simp only [Option.some.injEq] at h2; subst h2; exact r1
    · exact r1.trans (walkType_more _ h2) (rec2 h2)
  | .named n t, _, _, _, _, _, _, hd, hk, h => by
    have rec1 := fun {p q k i} {s s'} => walkType_stays ht t (p := p) (quant := q) (known := k) (id := i) (st := s) (st' := s') hd.2
    have hmk := hd.1
    simp only [Term.Makes] at hmk
    rw [walkType.eq_def] at h
    simp only at h
    split at h
    · simp only at hmk
      simp only [Option.map_eq_some_iff] at h
      obtain ⟨m, hm, rfl⟩ := h
      unfold namedRuleMember at hm
      split at hm
      · split at hm
        · rename_i hl
          obtain rfl := Option.some.inj hm
          exact .add fun _ => hk _ _ hl
        · simp at hm
      · rename_i hr
        obtain rfl := Option.some.inj hm
        exact .add fun _ => ht _ (hmk.resolve_left hr)
    · simp only [Option.some.injEq] at h; subst h; exact .add fun _ => trivial
    · simp only [Option.some.injEq] at h; subst h; exact .add fun _ => trivial
    · simp only [Option.some.injEq] at h; subst h; exact .add fun _ => trivial
    · simp only [Option.map_eq_some_iff] at h
      obtain ⟨st1, h1, rfl⟩ := h
      have ha : t.adds = true := by cases t <;> first | exact hmk | simp_all
      exact (rec1 hk h1).trans .one (.add fun hf => (MoreTypes.one.trans hf).has (walkType_has t ha h1))
  | .quant t _ _, _, _, _, _, _, _, hd, hk, h => by simp only [walkType] at h; exact walkType_stays ht t hd.2 hk h
  | .cut t, _, _, _, _, _, _, hd, hk, h => by simp only [walkType] at h; exact walkType_stays ht t hd.2 hk h
  | .look t, _, _, _, _, _, _, hd, hk, h => by simp only [walkType] at h; exact walkType_stays ht t hd.2 hk h
termination_by structural t => t
theorem walkTypes_stays (ht : ∀ ty ∈ types, lookup ty fin ≠ none) : ∀ (ts : List Term) {p quant known id st st'},
    deepList (Term.Makes types camel) ts → KnownIn camel (fun ty => lookup ty fin ≠ none) known →
    walkTypes camel rnd ts p quant known id st = some st' → Stays camel fin st.types st'.types
  | [], _, _, _, _, _, _, _, _, h => by simp only [walkTypes, Option.some.injEq] at h; subst h; exact fun _ h => h
  | t :: ts, _, _, _, _, _, _, hd, hk, h => by
    simp only [walkTypes, Option.bind_eq_some_iff] at h
    obtain ⟨st1, h1, h2⟩ := h
    exact (walkType_stays ht t hd.1 hk h1).trans (walkTypes_more ts h2) (walkTypes_stays ht ts hd.2 hk h2)
termination_by structural ts => ts
theorem walkAlternatives_stays (ht : ∀ ty ∈ types, lookup ty fin ≠ none) : ∀ (ts : List Term) {p quant known st st'},
    deepList (Term.Makes types camel) ts → KnownIn camel (fun ty => lookup ty fin ≠ none) known →
    walkAlternatives camel rnd ts p quant known st = some st' → Stays camel fin st.types st'.types
  | [], _, _, _, _, _, _, _, h => by simp only [walkAlternatives, Option.some.injEq] at h; subst h; exact fun _ h => h
  | t :: ts, _, _, _, st, _, hd, hk, h => by
    simp only [walkAlternatives, Option.bind_eq_some_iff] at h
    obtain ⟨st1, h1, h2⟩ := h
    exact (walkType_stays ht t (st := { st with drawn := st.drawn + 1 }) hd.1 hk h1).trans (walkAlternatives_more ts h2) (walkAlternatives_stays ht ts hd.2 hk h2)
termination_by structural ts => ts
theorem walkRules_stays (ht : ∀ ty ∈ types, lookup ty fin ≠ none) : ∀ (g : List (Str × Term)) {pre known st st'},
    deepDefs (Term.Makes types camel) g → KnownIn camel (fun ty => lookup ty fin ≠ none) known →
    walkRules camel rnd pre g known st = some st' → Stays camel fin st.types st'.types
  | [], _, _, _, _, _, _, h => by simp only [walkRules, Option.some.injEq] at h; subst h; exact fun _ h => h
  | (r, t) :: g, pre, known, st, st', hd, hk, h => by
    have hall := walkRules_has _ h
    simp only [walkRules, Option.bind_eq_some_iff] at h
    obtain ⟨st1, h1, h2⟩ := h
    have rec2 := fun {s s'} => walkRules_stays ht g (pre := pre) (known := known) (st := s) (st' := s') hd.2 hk
    intro hf
    have hr : lookup (goTypeName camel (pre ++ goName camel r)) fin ≠ none := hf.has (hall (r, t) (by simp))
    have r1 := walkType_stays ht t (st := { st with drawn := st.drawn + 1 }) hd.1 (hk.push (r := r) hr) h1
    split at h2
    · simp at h2
    · split at h2
      · exact (Stays.trans r1 (MoreTypes.one.trans (walkRules_more g h2)) (Stays.trans (.add (m := .stackBackRef r (pre ++ goName camel r)) fun _ => hr) (walkRules_more g h2) (rec2 h2))) hf
      · exact (Stays.trans r1 (walkRules_more g h2) (rec2 h2)) hf
termination_by structural g => g
end
end

theorem Member.Ret.method {camel : Str → Str} {D} {m : Member} (h : m.Ret camel D) {d} (hd : d ∈ m.methods camel) {ty} (he : d.does.returns = some ty) : D ty := by
  cases m <;> simp only [Member.methods, ruleMethods, List.mem_append, List.mem_singleton] at hd
  case choice => subst hd; simp [GoMethod.returns] at he
  case backRef => subst hd; simp [GoMethod.returns] at he
  case stackBackRef => simp only [wantAll, if_true, Bool.false_eq_true, if_false, List.not_mem_nil, false_or, List.mem_singleton] at hd; subst hd; obtain rfl := Option.some.inj he; exact h
  case namedRule =>
    rcases hd with hd | hd <;> split at hd <;> simp only [List.not_mem_nil, List.mem_singleton] at hd <;> subst hd <;> obtain rfl := Option.some.inj he <;> exact h
  case namedToken =>
    rcases hd with hd | hd <;> split at hd <;> simp only [List.not_mem_nil, List.mem_singleton] at hd <;> subst hd <;> simp [GoMethod.returns] at he
  case unnamedToken =>
    rcases hd with hd | hd <;> split at hd <;> simp only [List.not_mem_nil, List.mem_singleton] at hd <;> subst hd <;> simp [GoMethod.returns] at he

theorem makeTypes_closed {camel : Str → Str} {rnd tm} {g : Grammar} (h : makeTypes camel rnd g = some tm)
    (hd : g.Deep (Term.Makes (g.map fun e => typeOf camel e.1) camel)) {d} (hm : d ∈ allMethods camel tm) {ty} (he : d.does.returns = some ty) :
    ty ∈ allTypes camel tm := by
  have hkey := makeTypes_keyed h
  simp only [makeTypes, Option.map_eq_some_iff] at h
  obtain ⟨st, h, rfl⟩ := h
  have hall := walkRules_has g h
  simp only [List.nil_append] at hall
  have ht : ∀ ty ∈ g.map fun e => typeOf camel e.1, lookup ty st.types ≠ none := by
    intro ty hty
    obtain ⟨e, he, rfl⟩ := List.mem_map.1 hty
    exact hall e he
  have hk : KnownIn camel (fun ty => lookup ty st.types ≠ none) (mergeRules camel [] [] g) :=
    KnownIn.merge g (by intro r x hl; simp [lookup] at hl) (by simpa using hall)
  have := walkRules_stays ht g hd hk h .refl (by intro e he; simp at he)
  simp only [allMethods, List.mem_flatMap] at hm
  obtain ⟨⟨k, x⟩, hx, hm⟩ := hm
  cases x with
  | basic n => simp only [GoType.methods, List.mem_singleton] at hm; subst hm; simp [GoMethod.returns] at he
  | rule n cs =>
    simp only [GoType.methods, List.mem_flatMap] at hm
    obtain ⟨m, hmc, hmd⟩ := hm
    have := (this _ hx m hmc).method hmd he
    obtain ⟨y, hy⟩ := Option.ne_none_iff_exists'.1 this
    exact List.mem_map.2 ⟨_, lookup_mem hy, hkey.2 _ (lookup_mem hy)⟩

end Wbnf

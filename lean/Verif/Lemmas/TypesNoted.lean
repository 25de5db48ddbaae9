import Verif.Lemmas.TypesMany

/-!
# The walk notes what there may be many of
-/

namespace Wbnf

theorem kidNamesOf_mem {ts : List Term} {t : Term} {k : Str} (hm : t ∈ ts) (h : k ∈ t.kidNames) : k ∈ kidNamesOf ts := by
  induction ts with
  | nil => simp at hm
  | cons u ts ih =>
    simp only [kidNamesOf, List.mem_append]
    rcases List.mem_cons.1 hm with rfl | hm
    · exact .inl h
    · exact .inr (ih hm)

mutual
theorem times_kid {t : Term} {k : Str} {n : Nat} (hk : k ≠ []) : Times t k n → n ≠ 0 → k ∈ t.kidNames
  | .lit, h => by simp [once, Ne.symm hk] at h
  | .regexp, h => by simp [once, Ne.symm hk] at h
  | .rule, h => by simp only [once] at h; split at h <;> simp_all [Term.kidNames]
  | .named, h => by simp only [once] at h; split at h <;> simp_all [Term.kidNames]
  | .ref _, h => by simp only [once] at h; split at h <;> simp_all [Term.kidNames]
  | .ext, h => by simp only [once] at h; split at h <;> simp_all [Term.kidNames]
  | .cut h', h => by simpa [Term.kidNames] using times_kid hk h' h
  | .look h', h => by simpa [Term.kidNames] using times_kid hk h' h
  | .scope h' _, h => by simpa [Term.kidNames] using timesRep_kid hk h' h
  | .seq h', h => by simpa [Term.kidNames] using timesAll_kid hk h' h
  | .oneof hm h', h => by
    have := times_kid hk h' h
    simp only [Term.kidNames]
    exact kidNamesOf_mem hm this
  | .quant h' _ _, h => by simpa [Term.kidNames] using timesRep_kid hk h' h
  | .delim (n := a) (n' := b) h1 _ h2 _ _, h => by
    simp only [Term.kidNames, List.mem_append]
    by_cases e : a = 0
    · exact .inr (timesRep_kid hk h2 (by omega))
    · exact .inl (timesRep_kid hk h1 e)
theorem timesAll_kid {ts : List Term} {k : Str} {n : Nat} (hk : k ≠ []) : TimesAll ts k n → n ≠ 0 → k ∈ kidNamesOf ts
  | .nil, h => absurd rfl h
  | .cons (n := a) h1 h2, h => by
    simp only [kidNamesOf, List.mem_append]
    by_cases e : a = 0
    · exact .inr (timesAll_kid hk h2 (by omega))
    · exact .inl (times_kid hk h1 e)
theorem timesRep_kid {t : Term} {k : Str} {m n : Nat} (hk : k ≠ []) : TimesRep t k m n → n ≠ 0 → k ∈ t.kidNames
  | .zero, h => absurd rfl h
  | .succ (n := a) h1 h2, h => by
    by_cases e : a = 0
    · exact timesRep_kid hk h2 (by omega)
    · exact times_kid hk h1 e
end

theorem Times.small {t : Term} {k : Str} {n : Nat} (h : Times t k n) (ht : (∃ r, t = .rule r) ∨ (∃ x u, t = .named x u) ∨ (∃ x, t = .ext x)) : n ≤ 1 := by
  rcases ht with ⟨r, rfl⟩ | ⟨x, u, rfl⟩ | ⟨x, rfl⟩ <;> cases h <;> simp only [once] <;> split <;> omega

mutual
theorem refersTo_typed {k : Str} : ∀ (t : Term), t.refersTo k = true → t.typedFor k = true
  | .s _, _ => rfl
  | .re _, _ => rfl
  | .rule _, _ => rfl
  | .named _ _, _ => rfl
  | .stack _, _ => rfl
  | .ref _ _, h => h
  | .ext _, h => h
  | .scope _ _, h => by simp [Term.refersTo] at h
  | .cut t, h => refersTo_typed t h
  | .look t, h => refersTo_typed t h
  | .quant t _ _, h => refersTo_typed t h
  | .delim t sep _ _ _, h => by
    simp only [Term.refersTo, Bool.and_eq_true] at h
    simp only [Term.typedFor, Bool.and_eq_true]
    exact ⟨refersTo_typed t h.1.1, h.2⟩
  | .seq ts, h => referToAll_typed ts h
  | .oneof ts, h => by
    simp only [Term.refersTo, Bool.and_eq_true] at h
    exact h.2
theorem referToAll_typed {k : Str} : ∀ (ts : List Term), referToAll k ts = true → typedForAll k ts = true
  | [], _ => rfl
  | t :: ts, h => by
    simp only [referToAll, Bool.and_eq_true] at h
    simp only [typedForAll, Bool.and_eq_true]
    exact ⟨refersTo_typed t h.1, referToAll_typed ts h.2⟩
end

/-- The type knows of many where there may be many. -/
def ManyKnown (camel : Str → Str) (k : Str) (tm : TypeMap) (p : Str) (T : Term) : Prop :=
  T.clear k = true → ∀ n, Times T k n → 2 ≤ n → TypeKnows tm (goTypeName camel p) k none

/-- What the walk over a term notes about the name `k`. -/
structure Noted (camel : Str → Str) (T : Term) (p k : Str) (quant : Count) (id : Nat) (tm tm' : TypeMap) : Prop where
  all : quant.all = true → k ∈ T.kidNames → T.typedFor k = true → TypeKnows tm' (goTypeName camel p) k none
  one : T.refersTo k = true → k ∈ T.kidNames → TypeKnows tm' (goTypeName camel p) k (some id)
  second : T.refersTo k = true → k ∈ T.kidNames → TypeKnows tm (goTypeName camel p) k (some id) → TypeKnows tm' (goTypeName camel p) k none
  many : ManyKnown camel k tm' p T
  groups : ∀ q ∈ T.groups camel p, ManyKnown camel k tm' q.1 q.2

/-- The same for a sequence. -/
structure NotedAll (camel : Str → Str) (Ts : List Term) (p k : Str) (quant : Count) (id : Nat) (tm tm' : TypeMap) : Prop where
  all : quant.all = true → k ∈ kidNamesOf Ts → typedForAll k Ts = true → TypeKnows tm' (goTypeName camel p) k none
  one : referToAll k Ts = true → k ∈ kidNamesOf Ts → TypeKnows tm' (goTypeName camel p) k (some id)
  second : referToAll k Ts = true → k ∈ kidNamesOf Ts → TypeKnows tm (goTypeName camel p) k (some id) → TypeKnows tm' (goTypeName camel p) k none
  many : clearAll k Ts = true → ∀ n, TimesAll Ts k n → 2 ≤ n → TypeKnows tm' (goTypeName camel p) k none
  each : ∀ T ∈ Ts, ManyKnown camel k tm' p T
  groups : ∀ q ∈ groupsOf camel Ts p, ManyKnown camel k tm' q.1 q.2

/-- The same for alternatives. -/
structure NotedAny (camel : Str → Str) (Ts : List Term) (p k : Str) (quant : Count) (tm' : TypeMap) : Prop where
  all : quant.all = true → k ∈ kidNamesOf Ts → typedForAll k Ts = true → TypeKnows tm' (goTypeName camel p) k none
  each : ∀ T ∈ Ts, ManyKnown camel k tm' p T
  groups : ∀ q ∈ groupsOf camel Ts p, ManyKnown camel k tm' q.1 q.2

theorem ManyKnown.more {camel : Str → Str} {k tm tm' p T} (h : ManyKnown camel k tm p T) (hm : MoreTypes camel tm tm') : ManyKnown camel k tm' p T :=
  fun hc n ht hn => hm.knows (h hc n ht hn)

/-- Terms without parts. -/
theorem Noted.none {camel : Str → Str} {T : Term} {p k quant id tm tm'} (hk : k ≠ []) (h : T.kidNames = []) (hg : T.groups camel p = []) :
    Noted camel T p k quant id tm tm' := by
  refine ⟨?_, ?_, ?_, ?_, ?_⟩
  · intro _ h'; simp [h] at h'
  · intro _ h'; simp [h] at h'
  · intro _ h'; simp [h] at h'
  · intro _ n ht hn
    have := times_kid hk ht (by omega)
    simp [h] at this
  · simp [hg]

theorem eachClear_mem {k : Str} : ∀ {ts : List Term}, eachClear k ts = true → ∀ t ∈ ts, t.clear k = true
  | [], _ => by simp
  | t :: ts, h => by
    simp only [eachClear, Bool.and_eq_true] at h
    intro u hu
    rcases List.mem_cons.1 hu with rfl | hu
    · exact h.1
    · exact eachClear_mem h.2 u hu

section
variable {camel : Str → Str} {rnd : Nat → Nat} {g : Grammar} {tm0 : TypeMap} {self k : Str} {new : Option Str} {known : List (Str × Known)}

/-- What is to be known. -/
structure NoteCtx (camel : Str → Str) (me k : Str) (new : Option Str) (known : List (Str × Known)) : Prop where
  known : KnownOK camel me known
  shown : ∀ x, new = some x → shownName x = me
  name : k ≠ []
  token : k ≠ str "Token"

theorem atOK_rule {r : Str} (ht : Term.Typed camel tm0 g (.rule r)) (hat : r ≠ atRule ∨ new.isSome) (hx : NoteCtx camel self k new known)
    : ∃ x, (Term.rule r).inLayer new = .rule x ∧ ((r = atRule ∧ shownName x = self) ∨ (r ≠ atRule ∧ x = r ∧ shownName r = r)) := by
  by_cases e : r = atRule
  · subst e
    rcases hat with hat | hat
    · exact absurd rfl hat
    · obtain ⟨y, hy⟩ := Option.isSome_iff_exists.1 hat
      subst hy
      exact ⟨y, inLayer_at, .inl ⟨rfl, hx.shown y rfl⟩⟩
  · rcases ht with ht | ht
    · exact absurd ht e
    · exact ⟨r, inLayer_rule e, .inr ⟨e, rfl, ht.2⟩⟩

mutual
theorem walkType_noted (hx : NoteCtx camel self k new known) :
    ∀ (t : Term) {p quant id st st'}, t.Deep (Term.Typed camel tm0 g) → (t.Deep (· ≠ .rule atRule) ∨ new.isSome) → quant.nodes = [] →
      walkType camel rnd t p quant known id st = some st' →
      Noted camel (t.inLayer new) p k quant id st.types st'.types
  | .s l, p, quant, id, st, st', _, _, _, _ => by rw [inLayer_s]; exact .none hx.name rfl rfl
  | .re l, p, quant, id, st, st', _, _, _, _ => by rw [inLayer_re]; exact .none hx.name rfl rfl
  | .ref i d, p, quant, id, st, st', _, _, _, _ => by
    rw [inLayer_ref]
    refine ⟨?_, ?_, ?_, ?_, by simp [Term.groups]⟩
    · intro _ h1 h2; simp_all [Term.kidNames, Term.typedFor]
    · intro h1 h2; simp_all [Term.kidNames, Term.refersTo]
    · intro h1 h2; simp_all [Term.kidNames, Term.refersTo]
    · intro hc n ht hn
      have := times_kid hx.name ht (by omega)
      simp_all [Term.kidNames, Term.clear]
  | .ext x, p, quant, id, st, st', _, _, _, _ => by
    rw [inLayer_ext]
    refine ⟨?_, ?_, ?_, ?_, by simp [Term.groups]⟩
    · intro _ h1 h2; simp_all [Term.kidNames, Term.typedFor]
    · intro h1 h2; simp_all [Term.kidNames, Term.refersTo]
    · intro h1 h2; simp_all [Term.kidNames, Term.refersTo]
    · intro hc n ht hn
      have := ht.small (.inr (.inr ⟨x, rfl⟩))
      omega
  | .scope t g', _, _, _, _, _, ht, _, _, _ => absurd ht.1 (by simp [Term.Typed])
  | .stack ts, p, quant, id, st, st', _, _, _, _ => by
    obtain ⟨ts', e⟩ := inLayer_stack (new := new) (ts := ts)
    rw [e]; exact .none hx.name rfl (by simp [Term.groups])
  | .rule r, p, quant, id, st, st', ht, hat, hq, h => by
    simp only [walkType, Option.map_eq_some_iff] at h
    obtain ⟨m, hm, rfl⟩ := h
    obtain ⟨x, e, hxr⟩ := atOK_rule ht (hat.imp_left fun h e => h (by rw [e])) hx
    rw [e]
    have small : ManyKnown camel k (st.add camel p m).types p (.rule x) := fun _ n ht hn => by
      have := ht.small (.inl ⟨x, rfl⟩)
      omega
    rcases hxr with ⟨rfl, hs⟩ | ⟨hr, rfl, hs⟩
    · simp only [ruleMember, if_true] at hm
      split at hm
      · rename_i i q hl
        obtain ⟨rfl, rfl⟩ := hx.known.2 _ _ hl
        simp only [Option.some.injEq] at hm
        subst hm
        have key : k ∈ (Term.rule x).kidNames → TypeKnows (st.add camel p (.stackBackRef i (goName camel i))).types (goTypeName camel p) k none := by
          intro hk
          simp only [Term.kidNames, List.mem_singleton, hs] at hk
          subst hk
          exact add_all (m := .stackBackRef k _) hx.token trivial
        exact ⟨fun _ h _ => key h, fun _ h => (key h).any _, fun _ h _ => key h, small, by simp [Term.groups]⟩
      · simp at hm
    · simp only [ruleMember, hr, if_false] at hm
      split at hm
      · rename_i ty hl
        simp only [Option.some.injEq] at hm
        subst hm
        have hkid : k ∈ (Term.rule x).kidNames → x = k := by
          intro hk
          simp only [Term.kidNames, List.mem_singleton, hs] at hk
          exact hk.symm
        refine ⟨?_, ?_, ?_, small, by simp [Term.groups]⟩
        · intro ha hk _
          obtain rfl := hkid hk
          exact add_all (m := .namedRule x p ty (quant.push id)) hx.token (by simp [Member.Knows, Count.Knows, Count.push, ha])
        · intro _ hk
          obtain rfl := hkid hk
          exact add_one hx.token
        · intro _ hk h1
          obtain rfl := hkid hk
          exact add_second hx.token hq h1
      · simp at hm
  | .seq ts, p, quant, id, st, st', ht, hat, hq, h => by
    simp only [walkType] at h
    rw [inLayer_seq]
    have n := walkTypes_noted hx ts ht.2 (hat.imp_left fun h => h.2) hq h
    refine ⟨n.all, n.one, n.second, ?_, n.groups⟩
    intro hc m hm h2
    cases hm with
    | seq hm => exact n.many hc m hm h2
  | .oneof ts, p, quant, id, st, st', ht, hat, hq, h => by
    simp only [walkType] at h
    rw [inLayer_oneof]
    have n := walkAlternatives_noted hx ts ht.2 (hat.imp_left fun h => h.2) hq h
    refine ⟨n.all, ?_, ?_, ?_, n.groups⟩
    · intro h1 h2; simp only [Term.refersTo, Bool.and_eq_true, Bool.not_eq_true', decide_eq_false_iff_not] at h1; exact absurd h2 h1.1
    · intro h1 h2; simp only [Term.refersTo, Bool.and_eq_true, Bool.not_eq_true', decide_eq_false_iff_not] at h1; exact absurd h2 h1.1
    · intro hc m hm h2
      cases hm with
      | oneof hmem hm => exact n.each _ hmem (eachClear_mem hc _ hmem) m hm h2
  | .cut t, p, quant, id, st, st', ht, hat, hq, h => by
    simp only [walkType] at h
    have n := walkType_noted hx t ht.2 (hat.imp_left fun h => h.2) hq h
    rcases inLayer_cut (new := new) (t := t) with e | e <;> rw [e]
    · refine ⟨n.all, n.one, n.second, ?_, n.groups⟩
      intro hc m hm h2
      cases hm with
      | cut hm => exact n.many hc m hm h2
    · exact n
  | .look t, p, quant, id, st, st', ht, hat, hq, h => by
    simp only [walkType] at h
    have n := walkType_noted hx t ht.2 (hat.imp_left fun h => h.2) hq h
    rw [inLayer_look]
    refine ⟨n.all, n.one, n.second, ?_, n.groups⟩
    intro hc m hm h2
    cases hm with
    | look hm => exact n.many hc m hm h2
  | .quant t lo hi, p, quant, id, st, st', ht, hat, hq, h => by
    simp only [walkType] at h
    rw [inLayer_quant]
    by_cases e : hi = 1
    · subst e
      simp only [ne_eq, not_true_eq_false, if_false] at h
      have n := walkType_noted hx t ht.2 (hat.imp_left fun h => h.2) hq h
      refine ⟨n.all, n.one, n.second, ?_, n.groups⟩
      intro hc m hm h2
      simp only [Term.clear, if_true] at hc
      cases hm with
      | quant hr _ hhi =>
        cases hr with
        | zero => omega
        | succ h3 h4 =>
          cases h4 with
          | zero => exact n.many hc _ h3 (by omega)
          | succ _ _ => omega
    · simp only [ne_eq, e, not_false_eq_true, if_true] at h
      have n := walkType_noted hx t ht.2 (hat.imp_left fun h => h.2) (quant := wantAll) rfl h
      refine ⟨fun _ => n.all rfl, fun h1 h2 => (n.all rfl h2 (refersTo_typed _ h1)).any _, fun h1 h2 _ => n.all rfl h2 (refersTo_typed _ h1), ?_, n.groups⟩
      intro hc m hm h2
      simp only [Term.clear, e, if_false] at hc
      exact n.all rfl (by simpa [Term.kidNames] using times_kid hx.name hm (by omega)) hc
  | .delim t sep a cs ce, p, quant, id, st, st', ht, hat, hq, h => by
    simp only [walkType, Option.bind_eq_some_iff] at h
    obtain ⟨st1, h1, h2⟩ := h
    rw [inLayer_delim]
    have n1 := walkType_noted hx t ht.2.1 (hat.imp_left fun h => h.2.1) (quant := wantAll) rfl h1
    have rec2 := fun {q : Count} => walkType_noted hx sep (p := p) (quant := q) (id := id) (st := st1) (st' := st') ht.2.2 (hat.imp_left fun h => h.2.2)
    have hsep : MoreTypes camel st1.types st'.types ∧
        (k ∈ (sep.inLayer new).kidNames → (sep.inLayer new).typedFor k = true → (quant.all = true ∨ (sep.inLayer new).literalName ≠ some k) →
          TypeKnows st'.types (goTypeName camel p) k none) ∧ ∀ q ∈ (sep.inLayer new).groups camel p, ManyKnown camel k st'.types q.1 q.2 := by
      have hps := ht.1
      simp only [Term.Typed] at hps
      have walked : walkType camel rnd sep p wantAll known id st1 = some st' → MoreTypes camel st1.types st'.types ∧
          (k ∈ (sep.inLayer new).kidNames → (sep.inLayer new).typedFor k = true → (quant.all = true ∨ (sep.inLayer new).literalName ≠ some k) →
          TypeKnows st'.types (goTypeName camel p) k none) ∧ ∀ q ∈ (sep.inLayer new).groups camel p, ManyKnown camel k st'.types q.1 q.2 := by
        intro hw
        have n2 := rec2 rfl hw
        exact ⟨walkType_more sep hw, fun h3 h4 _ => n2.all rfl h3 h4, n2.groups⟩
      have literal : ∀ n u, sep.inLayer new = .named n u → (u.groups camel p = u.groups camel p) → (Term.named n u).groups camel p = [] →
          (Term.named n u).literalName = some n → st' = st1.add camel p (.namedToken n p quant) →
          MoreTypes camel st1.types st'.types ∧
          (k ∈ (sep.inLayer new).kidNames → (sep.inLayer new).typedFor k = true → (quant.all = true ∨ (sep.inLayer new).literalName ≠ some k) →
          TypeKnows st'.types (goTypeName camel p) k none) ∧ ∀ q ∈ (sep.inLayer new).groups camel p, ManyKnown camel k st'.types q.1 q.2 := by
        intro n u e _ hg hl hst
        subst hst
        rw [e, hg, hl]
        refine ⟨.one, ?_, by simp⟩
        intro hk _ ha
        simp only [Term.kidNames, List.mem_singleton] at hk
        subst hk
        rcases ha with ha | ha
        · exact add_all (m := .namedToken k p quant) hx.token (.inl ha)
        · exact absurd rfl ha
      cases sep with
      | s l =>
        simp only [Option.some.injEq] at h2; subst h2
        rw [inLayer_s]
        exact ⟨.refl, by simp [Term.kidNames], by simp [Term.groups]⟩
      | cut t' =>
        simp only [Option.some.injEq] at h2; subst h2
        cases t' <;> simp only [Term.PlainSep] at hps
        rcases inLayer_cut (new := new) (t := .s _) with e | e <;> rw [e, inLayer_s]
        · exact ⟨.refl, by simp [Term.kidNames], by simp [Term.groups]⟩
        · exact ⟨.refl, by simp [Term.kidNames], by simp [Term.groups]⟩
      | named n t' =>
        have htt := ht.2.2.1.2
        cases t' with
        | s l =>
          simp only [Option.some.injEq] at h2
          exact literal n (.s l) (by rw [inLayer_named, inLayer_s]) rfl (by simp [Term.groups]) rfl h2.symm
        | cut l =>
          simp only [Option.some.injEq] at h2
          obtain ⟨l', rfl⟩ := htt
          rcases inLayer_cut (new := new) (t := .s l') with e | e
          · exact literal n (.cut (.s l')) (by rw [inLayer_named, e, inLayer_s]) rfl (by simp [Term.groups]) rfl h2.symm
          · exact literal n (.s l') (by rw [inLayer_named, e, inLayer_s]) rfl (by simp [Term.groups]) rfl h2.symm
        | _ => exact walked h2
      | _ => simp [Term.PlainSep] at hps
    obtain ⟨hmore, hs2, hs3⟩ := hsep
    have fromT : k ∈ (t.inLayer new).kidNames → (t.inLayer new).typedFor k = true → TypeKnows st'.types (goTypeName camel p) k none :=
      fun h3 h4 => hmore.knows (n1.all rfl h3 h4)
    have ref : (Term.delim (t.inLayer new) (sep.inLayer new) a cs ce).refersTo k = true → k ∈ (Term.delim (t.inLayer new) (sep.inLayer new) a cs ce).kidNames →
        TypeKnows st'.types (goTypeName camel p) k none := by
      intro h3 h4
      simp only [Term.refersTo, Bool.and_eq_true, Bool.not_eq_true', decide_eq_false_iff_not] at h3
      simp only [Term.kidNames, List.mem_append] at h4
      rcases h4 with h4 | h4
      · exact fromT h4 (refersTo_typed _ h3.1.1)
      · exact absurd h4 h3.1.2
    refine ⟨?_, fun h3 h4 => (ref h3 h4).any _, fun h3 h4 _ => ref h3 h4, ?_, ?_⟩
    · intro ha hk hty
      simp only [Term.kidNames, List.mem_append] at hk
      simp only [Term.typedFor, Bool.and_eq_true] at hty
      rcases hk with hk | hk
      · exact fromT hk hty.1
      · exact hs2 hk hty.2 (.inl ha)
    · intro hc m hm h2
      have hk := times_kid hx.name hm (by omega)
      simp only [Term.kidNames, List.mem_append] at hk
      simp only [Term.clear, Bool.and_eq_true, decide_eq_true_eq] at hc
      rcases hk with hk | hk
      · exact fromT hk hc.1.1
      · exact hs2 hk hc.1.2 (.inr hc.2)
    · intro q hq
      simp only [Term.groups, List.mem_append] at hq
      rcases hq with hq | hq
      · exact (n1.groups q hq).more hmore
      · exact hs3 q hq
  | .named n t, p, quant, id, st, st', ht, hat, hq, h => by
    rw [inLayer_named]
    have rec1 := fun {q} {s'} => walkType_noted hx t (p := q) (quant := quant) (id := id) (st := st) (st' := s') ht.2 (hat.imp_left fun h => h.2)
    have close : ∀ {u : Term} {tm' : TypeMap}, (quant.all = true → n = k → TypeKnows tm' (goTypeName camel p) k none) →
        (∀ q ∈ (Term.named n u).groups camel p, ManyKnown camel k tm' q.1 q.2) → Noted camel (.named n u) p k quant id st.types tm' := by
      intro u tm' h1 h2
      refine ⟨fun ha hk _ => h1 ha ?_, ?_, ?_, ?_, h2⟩
      · simp only [Term.kidNames, List.mem_singleton] at hk; exact hk.symm
      · intro h3 h4; simp_all [Term.kidNames, Term.refersTo]
      · intro h3 h4; simp_all [Term.kidNames, Term.refersTo]
      · intro _ m hm h2
        have := hm.small (.inr (.inl ⟨n, u, rfl⟩))
        omega
    have group : ∀ {u : Term}, t.inLayer new = u →
        ((Term.named n u).groups camel p = (p ++ goName camel n, u) :: u.groups camel (p ++ goName camel n) ∨ (Term.named n u).groups camel p = []) →
        (walkType camel rnd t (p ++ goName camel n) quant known id st).map (fun st =>
          st.add camel p (.namedRule n p (p ++ goName camel n) quant)) = some st' → Noted camel (.named n u) p k quant id st.types st'.types := by
      intro u e hg h'
      simp only [Option.map_eq_some_iff] at h'
      obtain ⟨st1, h1, rfl⟩ := h'
      have n1 := rec1 hq h1
      rw [e] at n1
      refine close ?_ ?_
      · intro ha hk
        subst hk
        exact add_all (m := .namedRule n p _ quant) hx.token (.inl ha)
      · rcases hg with hg | hg <;> rw [hg]
        · intro q hq'
          rcases List.mem_cons.1 hq' with rfl | hq'
          · exact n1.many.more .one
          · exact (n1.groups q hq').more .one
        · simp
    have token : ∀ u, (Term.named n u).groups camel p = [] → Noted camel (.named n u) p k quant id st.types (st.add camel p (.namedToken n p quant)).types := by
      intro u hg
      refine close ?_ (by simp [hg])
      intro ha hk
      subst hk
      exact add_all (m := .namedToken n p quant) hx.token (.inl ha)
    have hty := ht.1.2
    cases t with
    | rule r =>
      simp only [walkType, Option.map_eq_some_iff] at h
      obtain ⟨m, hm, rfl⟩ := h
      obtain ⟨x, e, _⟩ := atOK_rule ht.2 (hat.imp_left fun h e => h.2 (by rw [e])) hx
      rw [e]
      refine close ?_ (by simp [Term.groups])
      intro ha hk
      subst hk
      unfold namedRuleMember at hm
      split at hm
      · split at hm
        · simp only [Option.some.injEq] at hm; subst hm
          exact add_all (m := .stackBackRef n _) hx.token trivial
        · simp at hm
      · simp only [Option.some.injEq] at hm; subst hm
        exact add_all (m := .namedRule n p r quant) hx.token (.inl ha)
    | re l => simp only [walkType, Option.some.injEq] at h; subst h; rw [inLayer_re]; exact token _ (by simp [Term.groups])
    | s l => simp only [walkType, Option.some.injEq] at h; subst h; rw [inLayer_s]; exact token _ (by simp [Term.groups])
    | cut l =>
      simp only [walkType, Option.some.injEq] at h; subst h
      obtain ⟨l', rfl⟩ := hty
      rcases inLayer_cut (new := new) (t := .s l') with e | e <;> rw [e, inLayer_s] <;> exact token _ (by simp [Term.groups])
    | scope t' g' => exact absurd ht.2.1 (by simp [Term.Typed])
    | stack ts =>
      rw [walkType.eq_def] at h
      refine group rfl ?_ h
      obtain ⟨ts', e⟩ := inLayer_stack (new := new) (ts := ts)
      rw [e]
      exact .inl (by simp [Term.groups])
    | _ =>
      rw [walkType.eq_def] at h
      refine group rfl ?_ h
      simp only [inLayer_ref, inLayer_seq, inLayer_oneof, inLayer_delim, inLayer_quant, inLayer_named, inLayer_ext, inLayer_look]
      exact .inl (by simp [Term.groups])
termination_by structural t => t
theorem walkTypes_noted (hx : NoteCtx camel self k new known) :
    ∀ (ts : List Term) {p quant id st st'}, deepList (Term.Typed camel tm0 g) ts → (deepList (· ≠ .rule atRule) ts ∨ new.isSome) → quant.nodes = [] →
      walkTypes camel rnd ts p quant known id st = some st' →
      NotedAll camel (inLayerList new ts) p k quant id st.types st'.types
  | [], p, quant, id, st, st', _, _, _, h => by
    rw [inLayerList_nil]
    refine ⟨by simp [kidNamesOf], by simp [kidNamesOf], by simp [kidNamesOf], ?_, by simp, by simp [groupsOf]⟩
    intro _ n ht hn
    cases ht
    omega
  | t :: ts, p, quant, id, st, st', ht, hat, hq, h => by
    simp only [walkTypes, Option.bind_eq_some_iff] at h
    obtain ⟨st1, h1, h2⟩ := h
    rw [inLayerList_cons]
    have n1 := walkType_noted hx t ht.1 (hat.imp_left fun h => h.1) hq h1
    have n2 := walkTypes_noted hx ts ht.2 (hat.imp_left fun h => h.2) hq h2
    have m2 := walkTypes_more ts h2
    have m1 := walkType_more t h1
    refine ⟨?_, ?_, ?_, ?_, ?_, ?_⟩
    · intro ha hk hty
      simp only [kidNamesOf, List.mem_append] at hk
      simp only [typedForAll, Bool.and_eq_true] at hty
      rcases hk with hk | hk
      · exact m2.knows (n1.all ha hk hty.1)
      · exact n2.all ha hk hty.2
    · intro hr hk
      simp only [kidNamesOf, List.mem_append] at hk
      simp only [referToAll, Bool.and_eq_true] at hr
      rcases hk with hk | hk
      · exact m2.knows (n1.one hr.1 hk)
      · exact n2.one hr.2 hk
    · intro hr hk hb
      simp only [kidNamesOf, List.mem_append] at hk
      simp only [referToAll, Bool.and_eq_true] at hr
      rcases hk with hk | hk
      · exact m2.knows (n1.second hr.1 hk hb)
      · exact n2.second hr.2 hk (m1.knows hb)
    · intro hc n hn h3
      simp only [clearAll, Bool.and_eq_true, Bool.or_eq_true, Bool.not_eq_true', decide_eq_false_iff_not] at hc
      cases hn with
      | @cons _ _ _ a b ha hb =>
        by_cases e1 : 2 ≤ a
        · exact m2.knows (n1.many hc.1.1 a ha e1)
        · by_cases e2 : 2 ≤ b
          · exact n2.many hc.1.2 b hb e2
          · have k1 := times_kid hx.name ha (by omega)
            have k2 := timesAll_kid hx.name hb (by omega)
            rcases hc.2 with (hc | hc) | hc
            · exact absurd k1 hc
            · exact absurd k2 hc
            · exact n2.second hc.2 k2 (n1.one hc.1 k1)
    · intro T hT
      rcases List.mem_cons.1 hT with rfl | hT
      · exact n1.many.more m2
      · exact n2.each T hT
    · intro q hq'
      simp only [groupsOf, List.mem_append] at hq'
      rcases hq' with hq' | hq'
      · exact (n1.groups q hq').more m2
      · exact n2.groups q hq'
termination_by structural ts => ts
theorem walkAlternatives_noted (hx : NoteCtx camel self k new known) :
    ∀ (ts : List Term) {p quant st st'}, deepList (Term.Typed camel tm0 g) ts → (deepList (· ≠ .rule atRule) ts ∨ new.isSome) → quant.nodes = [] →
      walkAlternatives camel rnd ts p quant known st = some st' →
      NotedAny camel (inLayerList new ts) p k quant st'.types
  | [], p, quant, st, st', _, _, _, h => by
    rw [inLayerList_nil]
    exact ⟨by simp [kidNamesOf], by simp, by simp [groupsOf]⟩
  | t :: ts, p, quant, st, st', ht, hat, hq, h => by
    simp only [walkAlternatives, Option.bind_eq_some_iff] at h
    obtain ⟨st1, h1, h2⟩ := h
    rw [inLayerList_cons]
    have n1 := walkType_noted hx t ht.1 (hat.imp_left fun h => h.1) hq h1
    have n2 := walkAlternatives_noted hx ts ht.2 (hat.imp_left fun h => h.2) hq h2
    have m2 := walkAlternatives_more ts h2
    refine ⟨?_, ?_, ?_⟩
    · intro ha hk hty
      simp only [kidNamesOf, List.mem_append] at hk
      simp only [typedForAll, Bool.and_eq_true] at hty
      rcases hk with hk | hk
      · exact m2.knows (n1.all ha hk hty.1)
      · exact n2.all ha hk hty.2
    · intro T hT
      rcases List.mem_cons.1 hT with rfl | hT
      · exact n1.many.more m2
      · exact n2.each T hT
    · intro q hq'
      simp only [groupsOf, List.mem_append] at hq'
      rcases hq' with hq' | hq'
      · exact (n1.groups q hq').more m2
      · exact n2.groups q hq'
termination_by structural ts => ts
end
end

end Wbnf

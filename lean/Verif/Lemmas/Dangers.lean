import Verif.Lemmas.Outer
import Verif.Lemmas.Compile
import Verif.Spec.Recursion
import Verif.Model.Recursion

/-!
# The danger sets are the rules called first
-/

namespace Wbnf

theorem required_iff {q : QuantN} : q.required = false ↔ q.optional := by
  match q with
  | .op o => simp [QuantN.required, QuantN.optional]
  | .range none _ => simp [QuantN.required, QuantN.optional]
  | .range (some lo) _ => simp [QuantN.required, QuantN.optional]
  | .sep _ _ _ _ => simp [QuantN.required, QuantN.optional]

theorem any_required {qs : List QuantN} : qs.any QuantN.required = false ↔ ∀ q ∈ qs, q.optional := by
  rw [List.any_eq_false]
  constructor
  · intro h q hq; exact required_iff.1 (by simpa using h q hq)
  · intro h q hq; simpa using required_iff.2 (h q hq)

/-- What a danger set says. -/
def Danger (t : TermN) (r : Str) : Prop := CallsFirst t r ∨ (r = [] ∧ Blank t)

/-- The sequence of terms calls the rule first. -/
inductive SeqCalls : List TermN → Str → Prop
  | head {t ts r} : CallsFirst t r → SeqCalls (t :: ts) r
  | next {t ts r} : (∃ r', Danger t r') → SeqCalls ts r → SeqCalls (t :: ts) r

theorem seqCalls_iff {op : Str} {gs : List GrammarN} (hop : op ≠ str "|") {r : Str} : {ts : List TermN} →
    (SeqCalls ts r ↔ CallsFirst (.many op gs ts) r)
  | [] => by
    constructor
    · intro h; nomatch h
    · intro h
      generalize hu : TermN.many op gs [] = u at h
      cases h <;> simp_all
  | t :: ts => by
    have ih := seqCalls_iff (gs := gs) hop (r := r) (ts := ts)
    constructor
    · intro h
      cases h with
      | head h => exact .head hop h
      | next h h' =>
        obtain ⟨r', h | ⟨_, h⟩⟩ := h
        · exact .called hop h (ih.1 h')
        · exact .blank hop h (ih.1 h')
    · intro h
      cases h with
      | choice => exact absurd rfl hop
      | head _ h => exact .head h
      | blank _ h h' => exact .next ⟨[], .inr ⟨rfl, h⟩⟩ (ih.2 h')
      | called _ h h' => exact .next ⟨_, .inl h⟩ (ih.2 h')

theorem danger_many_seq {op : Str} {gs : List GrammarN} {ts : List TermN} (hop : op ≠ str "|") {r : Str} :
    Danger (.many op gs ts) r ↔ SeqCalls ts r := by
  rw [seqCalls_iff (gs := gs) hop]
  constructor
  · rintro (h | ⟨_, h⟩)
    · exact h
    · cases h; exact absurd rfl hop
  · exact .inl

theorem danger_many_any {gs : List GrammarN} {ts : List TermN} {r : Str} :
    Danger (.many (str "|") gs ts) r ↔ ∃ t ∈ ts, Danger t r := by
  constructor
  · rintro (h | ⟨rfl, h⟩)
    · cases h with
      | choice h h' => exact ⟨_, h, .inl h'⟩
      | head h => exact absurd rfl h
      | blank h => exact absurd rfl h
      | called h => exact absurd rfl h
    · cases h with
      | choice h h' => exact ⟨_, h, .inr ⟨rfl, h'⟩⟩
  · rintro ⟨t, ht, h | ⟨rfl, h⟩⟩
    · exact .inl (.choice ht h)
    · exact .inr ⟨rfl, .choice ht h⟩

theorem danger_one_required {n : NamedN} {qs : List QuantN} {r : Str} (h : qs.any QuantN.required = true) : ¬ Danger (.one n qs) r := by
  have : ¬ ∀ q ∈ qs, q.optional := fun hh => by rw [any_required.2 hh] at h; simp at h
  rintro (hh | ⟨rfl, hh⟩)
  · cases hh with
    | ident _ h => exact this h
    | paren h => exact this h
  · cases hh with
    | atom h' => exact this h'
    | paren h => exact this h
    | nameless h => exact this h

theorem danger_text {n : Option Str} {a : AtomN} {qs : List QuantN} (hq : ∀ q ∈ qs, q.optional) (h1 : ∀ t, a ≠ .term t)
    (h2 : ∀ i, a ≠ .ident i) {r : Str} : r ∈ (if qs.isEmpty then [] else [[]] : List Str) ↔ Danger (.one (.mk n a) qs) r := by
  cases qs with
  | nil =>
    simp only [List.isEmpty_nil, if_true, List.not_mem_nil, false_iff]
    rintro (h | ⟨_, h⟩)
    · cases h with
      | ident => exact h2 _ rfl
      | paren => exact h1 _ rfl
    · cases h with
      | paren => exact h1 _ rfl
      | nameless => exact h2 _ rfl
  | cons q qs =>
    simp only [List.isEmpty_cons, Bool.false_eq_true, if_false, List.mem_singleton]
    constructor
    · rintro rfl; exact .inr ⟨rfl, .atom hq h1 h2⟩
    · rintro (h | ⟨h, _⟩)
      · cases h with
        | ident => exact absurd rfl (h2 _)
        | paren => exact absurd rfl (h1 _)
      · exact h

theorem danger_ident {n : Option Str} {i : Str} {qs : List QuantN} (hq : ∀ q ∈ qs, q.optional) {r : Str} :
    r ∈ [i] ↔ Danger (.one (.mk n (.ident i)) qs) r := by
  rw [List.mem_singleton]
  constructor
  · rintro rfl
    by_cases hr : r = []
    · subst hr; exact .inr ⟨rfl, .nameless hq⟩
    · exact .inl (.ident hr hq)
  · rintro (h | ⟨rfl, h⟩)
    · cases h; rfl
    · cases h with
      | atom _ _ h => exact absurd rfl (h _)
      | nameless => rfl

theorem danger_term {n : Option Str} {t : TermN} {qs : List QuantN} (hq : ∀ q ∈ qs, q.optional) {r : Str} :
    Danger t r ↔ Danger (.one (.mk n (.term t)) qs) r := by
  constructor
  · rintro (h | ⟨h, h'⟩)
    · exact .inl (.paren hq h)
    · exact .inr ⟨h, .paren hq h'⟩
  · rintro (h | ⟨h, h'⟩)
    · cases h with
      | paren _ h => exact .inl h
    · cases h' with
      | atom _ h => exact absurd rfl (h _)
      | paren _ h' => exact .inr ⟨h, h'⟩

theorem callsFirst_ne {t : TermN} {r : Str} (h : CallsFirst t r) : r ≠ [] := by
  induction h <;> assumption

theorem seqCalls_ne {ts : List TermN} {r : Str} (h : SeqCalls ts r) : r ≠ [] := by
  induction h with
  | head h => exact callsFirst_ne h
  | next _ _ ih => exact ih

mutual
theorem dangers_iff (r : Str) : (t : TermN) → (r ∈ t.dangers ↔ Danger t r)
  | .many op gs ts => by
    rw [TermN.dangers]
    by_cases hop : op = str "|"
    · subst hop
      rw [if_pos rfl, dangersAny_iff r ts, danger_many_any]
    · rw [if_neg hop, danger_many_seq hop, dangersSeq_iff r ts]
  | .one (.mk n a) qs => by
    rw [TermN.dangers]
    cases hq : qs.any QuantN.required with
    | true =>
      have := danger_one_required (n := .mk n a) (r := r) hq
      simp [this]
    | false =>
      have hq := any_required.1 hq
      simp only [Bool.false_eq_true, if_false, NamedN.dangers]
      match a with
      | .term t => rw [AtomN.dangers, dangers_iff r t]; exact danger_term hq
      | .ident i => rw [AtomN.dangers]; exact danger_ident hq
      | .str _ => rw [AtomN.dangers]; exact danger_text hq (by simp) (by simp)
      | .re _ => rw [AtomN.dangers]; exact danger_text hq (by simp) (by simp)
      | .macrocall _ _ => rw [AtomN.dangers]; exact danger_text hq (by simp) (by simp)
      | .ext _ => rw [AtomN.dangers]; exact danger_text hq (by simp) (by simp)
      | .ref _ _ => rw [AtomN.dangers]; exact danger_text hq (by simp) (by simp)
      | .look _ => rw [AtomN.dangers]; exact danger_text hq (by simp) (by simp)
      | .unit => rw [AtomN.dangers]; exact danger_text hq (by simp) (by simp)
theorem dangersAny_iff (r : Str) : (ts : List TermN) → (r ∈ dangersAny ts ↔ ∃ t ∈ ts, Danger t r)
  | [] => by simp [dangersAny]
  | t :: ts => by rw [dangersAny, List.mem_append, dangers_iff r t, dangersAny_iff r ts]; simp
theorem dangersSeq_iff (r : Str) : (ts : List TermN) → (r ∈ dangersSeq ts ↔ SeqCalls ts r)
  | [] => by
    simp only [dangersSeq, List.not_mem_nil, false_iff]
    intro h; nomatch h
  | t :: ts => by
    have ih := dangersSeq_iff r ts
    rw [dangersSeq]
    by_cases hd : t.dangers = []
    · rw [if_pos hd]
      simp only [List.not_mem_nil, false_iff]
      have hno : ∀ r', ¬ Danger t r' := fun r' h => by
        have := (dangers_iff r' t).2 h
        rw [hd] at this; simp at this
      intro h
      cases h with
      | head h => exact hno r (.inl h)
      | next h => exact hno _ h.choose_spec
    · rw [if_neg hd, List.mem_append, List.mem_filter, dangers_iff r t, ih]
      obtain ⟨r', hr'⟩ := List.exists_mem_of_ne_nil _ hd
      have hr' := (dangers_iff r' t).1 hr'
      constructor
      · rintro (⟨h | ⟨rfl, _⟩, h'⟩ | h)
        · exact .head h
        · simp at h'
        · exact .next ⟨r', hr'⟩ h
      · intro h
        cases h with
        | head h => exact .inl ⟨.inl h, by simpa using callsFirst_ne h⟩
        | next _ h => exact .inr h
end

/-! ## The danger sets of a grammar -/

theorem dangerOps_skips : dangerOps.Skips Item.isProd := by
  refine ⟨by simp [dangerOps], ?_, ?_, ?_⟩
  · intro i s hi st h
    cases i <;> simp [dangerOps, Item.leaf] at *
  · intro i s hi hk
    cases i <;> simp [Item.isProd] at hk
    exact ⟨nodeExiter, rfl, rfl⟩
  · intro i s hi hk st h
    cases i <;> simp [dangerOps, Item.isProd] at *

theorem dangersOf_eq (g : GrammarN) : dangersOf g = dangerOps.callAll (g.tree.events Item.isProd) [] := by
  refine walk_callAll dangerOps_skips ?_ g.tree []
  intro e s st h
  cases e with
  | exit i => simp [WalkerOps.call, dangerOps] at h
  | enter i =>
    cases i <;> simp [WalkerOps.call, dangerOps] at h
    subst h; rfl

theorem defines_iff {g : GrammarN} {r : Str} {ts : List TermN} :
    g.Defines r ts ↔ Event.enter (.prod r ts) ∈ g.tree.events Item.isProd :=
  (events_outer _ _ (grammarN_proper g)).symm

theorem dangersOf_some {g : GrammarN} {r : Str} {d : List Str} (h : lookup r (dangersOf g) = some d) :
    ∃ ts, g.Defines r ts ∧ d = dangersAny ts := by
  rw [dangersOf_eq] at h
  refine callAll_inv (ops := dangerOps) (P := fun ds => ∀ r d, lookup r ds = some d → ∃ ts, g.Defines r ts ∧ d = dangersAny ts) (by simp [lookup]) ?_ r d h
  clear h
  intro e he s hs r d h
  cases e with
  | exit i => exact hs r d h
  | enter i =>
    cases i with
    | prod i ts =>
      simp only [WalkerOps.call, dangerOps] at h
      by_cases hr : r = i
      · subst hr
        rw [lookup_mapSet_self, Option.some.injEq] at h
        exact ⟨ts, defines_iff.2 he, h.symm⟩
      · rw [lookup_mapSet_ne (by exact hr)] at h
        exact hs r d h
    | _ => exact hs r d h

theorem dangersOf_def {g : GrammarN} {r : Str} {ts : List TermN} (h : g.Defines r ts) : ∃ d, lookup r (dangersOf g) = some d := by
  rw [dangersOf_eq]
  refine callAll_made (P := fun ds => ∃ d, lookup r ds = some d) (defines_iff.1 h) ?_ ?_
  · intro s
    exact ⟨dangersAny ts, by simp only [WalkerOps.call, dangerOps]; rw [lookup_mapSet_self]⟩
  · intro e _ s ⟨d, hs⟩
    cases e with
    | exit i => exact ⟨d, hs⟩
    | enter i =>
      cases i with
      | prod i ts =>
        simp only [WalkerOps.call, dangerOps]
        by_cases hr : r = i
        · subst hr; exact ⟨_, lookup_mapSet_self ..⟩
        · exact ⟨d, by rw [lookup_mapSet_ne (by exact hr)]; exact hs⟩
      | _ => exact ⟨d, hs⟩

theorem nextOf_calls {g : GrammarN} {r r' : Str} (h : r' ∈ nextOf (dangersOf g) r) (hr : r' ≠ []) : g.Calls r r' := by
  rw [nextOf, List.mem_eraseDups] at h
  cases hl : lookup r (dangersOf g) with
  | none => rw [hl] at h; simp at h
  | some d =>
    rw [hl] at h
    obtain ⟨ts, hd, rfl⟩ := dangersOf_some hl
    obtain ⟨t, ht, h | ⟨e, _⟩⟩ := (dangersAny_iff r' ts).1 h
    · exact ⟨ts, t, hd, ht, h⟩
    · exact absurd e hr

theorem calls_nextOf {g : GrammarN} {r r' : Str} {ts : List TermN} {t : TermN} (hd : g.DefinesOnly r ts) (ht : t ∈ ts)
    (h : CallsFirst t r') : r' ∈ nextOf (dangersOf g) r := by
  obtain ⟨d, hl⟩ := dangersOf_def hd.1
  obtain ⟨ts', hd', rfl⟩ := dangersOf_some hl
  have := hd.2 _ hd'
  subst this
  rw [nextOf, hl, List.mem_eraseDups]
  exact (dangersAny_iff r' _).2 ⟨t, ht, .inl h⟩

end Wbnf

import Verif.Spec.Ast
import Verif.Lemmas.Deep
import Verif.Lemmas.ReorderCompile

/-!
# What the counters of ast/counter.go count
-/

namespace Wbnf

theorem get_mapSet (name k : Str) (c : Counter) (ctrs : Counters) :
    Counters.get (mapSet name c ctrs) k = if name = k then c else ctrs.get k := by
  unfold Counters.get
  by_cases h : name = k
  · subst h; rw [lookup_mapSet_self]; simp
  · rw [lookup_mapSet_ne (Ne.symm h)]; simp [h]

theorem get_cons (name k : Str) (c : Counter) (ctrs : Counters) :
    Counters.get ((name, c) :: ctrs) k = if name = k then c else Counters.get ctrs k := by
  by_cases h : name = k <;> simp [Counters.get, lookup, h]

theorem get_nil (k : Str) : Counters.get [] k = ⟨0, 0⟩ := rfl

theorem Counter.ext' {c d : Counter} (h1 : c.lo = d.lo) (h2 : c.hi = d.hi) : c = d := by
  cases c; cases d; simp_all

/-- The counter of a single occurrence. -/
def onceC (name k : Str) : Counter := if name = k then ⟨1, 1⟩ else ⟨0, 0⟩

theorem get_count (ctrs : Counters) (name k : Str) (c : Counter) :
    (ctrs.count name c).get k = (ctrs.get k).add (c.mul (onceC name k)) := by
  unfold Counters.count onceC
  rw [get_mapSet]
  by_cases h : name = k
  · subst h; simp [Counter.add, Counter.mul]
  · simp [h, Counter.add, Counter.mul]

theorem get_of_not_mem {k : Str} {ctrs : Counters} (h : k ∉ ctrs.map Prod.fst) : ctrs.get k = ⟨0, 0⟩ := by
  induction ctrs with
  | nil => rfl
  | cons e ctrs ih =>
    obtain ⟨n, c⟩ := e
    simp only [List.map_cons, List.mem_cons, not_or] at h
    rw [get_cons, if_neg (fun e => h.1 e.symm), ih h.2]

theorem get_mul (ds : Counters) : ∀ (ctrs : Counters) (p : Counter) (k : Str), (ds.map Prod.fst).Nodup →
    (ctrs.mul ds p).get k = (ctrs.get k).add (p.mul (ds.get k)) := by
  induction ds with
  | nil => intro ctrs p k _; simp [Counters.mul, get_nil, Counter.mul, Counter.add]
  | cons e ds ih =>
    intro ctrs p k hd
    obtain ⟨n, c⟩ := e
    simp only [List.map_cons, List.nodup_cons] at hd
    simp only [Counters.mul]
    rw [ih _ _ _ hd.2, get_count, get_cons]
    by_cases h : n = k
    · subst h
      simp [onceC, get_of_not_mem hd.1, Counter.add, Counter.mul]
    · simp [onceC, h, Counter.add, Counter.mul]

theorem get_union (o : Counters) : ∀ (ctrs : Counters) (k : Str), (o.map Prod.fst).Nodup → (∀ k, (ctrs.get k).lo = 0) →
    (ctrs.union o).get k = ⟨0, max (ctrs.get k).hi (o.get k).hi⟩ := by
  induction o with
  | nil =>
    intro ctrs k _ h
    exact Counter.ext' (h k) (by simp [Counters.union, get_nil])
  | cons e o ih =>
    intro ctrs k hd h
    obtain ⟨n, c⟩ := e
    simp only [List.map_cons, List.nodup_cons] at hd
    simp only [Counters.union]
    have h0 : ∀ k, (Counters.get (mapSet n ((ctrs.get n).union c) ctrs) k).lo = 0 := by
      intro k
      rw [get_mapSet]
      split
      · have := h n
        simp only [Counter.union]; split <;> omega
      · exact h k
    rw [ih _ _ hd.2 h0, get_cons, get_mapSet]
    by_cases e : n = k
    · subst e
      simp only [if_true, get_of_not_mem hd.1, Counter.union]
      congr 1
      split <;> omega
    · simp [e]

theorem nodup_count {ctrs : Counters} {n : Str} {c : Counter} (h : (ctrs.map Prod.fst).Nodup) : ((ctrs.count n c).map Prod.fst).Nodup :=
  (mapSet_keys h).1

theorem nodup_mul (ds : Counters) : ∀ {ctrs : Counters} {p : Counter}, (ctrs.map Prod.fst).Nodup → ((ctrs.mul ds p).map Prod.fst).Nodup := by
  induction ds with
  | nil => intro ctrs p h; exact h
  | cons e ds ih => intro ctrs p h; exact ih (nodup_count h)

theorem nodup_union (o : Counters) : ∀ {ctrs : Counters}, (ctrs.map Prod.fst).Nodup → ((ctrs.union o).map Prod.fst).Nodup := by
  induction o with
  | nil => intro ctrs h; exact h
  | cons e ds ih => intro ctrs h; exact ih (mapSet_keys h).1

mutual
/-- The counter a term adds for a name. -/
def Term.tally (k : Str) : Term → Counter
  | .s _ => onceC [] k
  | .re _ => onceC [] k
  | .rule r => onceC r k
  | .named n _ => onceC n k
  | .ref i _ => oneOrMore.mul (onceC i k)
  | .ext x => onceC x k
  | .cut t => t.tally k
  | .look t => t.tally k
  | .scope t _ => oneOrMore.mul (t.tally k)
  | .quant t lo hi => Counter.mul ⟨lo, if hi = 0 then 2 else hi⟩ (t.tally k)
  | .delim t sep _ _ _ => (oneOrMore.mul (t.tally k)).add (zeroOrMore.mul (sep.tally k))
  | .seq ts => tallySum k ts
  | .oneof ts => ⟨0, tallyMax k ts⟩
  | .stack _ => ⟨0, 0⟩
def tallySum (k : Str) : List Term → Counter
  | [] => ⟨0, 0⟩
  | t :: ts => (t.tally k).add (tallySum k ts)
def tallyMax (k : Str) : List Term → Nat
  | [] => 0
  | t :: ts => max (t.tally k).hi (tallyMax k ts)
end

theorem Counter.add_zero (c : Counter) : c.add ⟨0, 0⟩ = c := Counter.ext' rfl rfl
theorem Counter.zero_add (c : Counter) : Counter.add ⟨0, 0⟩ c = c := by simp [Counter.add]
theorem Counter.add_assoc (a b c : Counter) : (a.add b).add c = a.add (b.add c) := by
  simp [Counter.add, Nat.add_assoc]
theorem Counter.mul_zero (c : Counter) : c.mul ⟨0, 0⟩ = ⟨0, 0⟩ := rfl
theorem Counter.mul_add (a b c : Counter) : a.mul (b.add c) = (a.mul b).add (a.mul c) := by
  simp [Counter.add, Counter.mul, Nat.mul_add]
theorem Counter.mul_assoc (a b c : Counter) : (a.mul b).mul c = a.mul (b.mul c) := by
  simp [Counter.mul, Nat.mul_assoc]
theorem Counter.one_mul (c : Counter) : oneOne.mul c = c := by
  simp [Counter.mul, oneOne]

mutual
theorem count_get : (t : Term) → ∀ {p : Counter} {ctrs c : Counters}, t.countChildren p ctrs = some c → (ctrs.map Prod.fst).Nodup →
    (c.map Prod.fst).Nodup ∧ ∀ k, c.get k = (ctrs.get k).add (p.mul (t.tally k))
  | .s l, p, ctrs, c, h, hn => by
    simp only [Term.countChildren, Option.some.injEq] at h; subst h
    exact ⟨nodup_count hn, fun k => get_count ..⟩
  | .re l, p, ctrs, c, h, hn => by
    simp only [Term.countChildren, Option.some.injEq] at h; subst h
    exact ⟨nodup_count hn, fun k => get_count ..⟩
  | .rule r, p, ctrs, c, h, hn => by
    simp only [Term.countChildren, Option.some.injEq] at h; subst h
    exact ⟨nodup_count hn, fun k => get_count ..⟩
  | .named r _, p, ctrs, c, h, hn => by
    simp only [Term.countChildren, Option.some.injEq] at h; subst h
    exact ⟨nodup_count hn, fun k => get_count ..⟩
  | .ext r, p, ctrs, c, h, hn => by
    simp only [Term.countChildren, Option.some.injEq] at h; subst h
    exact ⟨nodup_count hn, fun k => get_count ..⟩
  | .ref r _, p, ctrs, c, h, hn => by
    simp only [Term.countChildren, Option.some.injEq] at h; subst h
    exact ⟨nodup_count hn, fun k => by rw [get_count, Counter.mul_assoc]; rfl⟩
  | .cut t, p, ctrs, c, h, hn => by
    simp only [Term.countChildren] at h
    simpa only [Term.tally] using count_get t h hn
  | .look t, p, ctrs, c, h, hn => by
    simp only [Term.countChildren] at h
    simpa only [Term.tally] using count_get t h hn
  | .scope t _, p, ctrs, c, h, hn => by
    simp only [Term.countChildren] at h
    simpa only [Term.tally, Counter.mul_assoc] using count_get t h hn
  | .quant t _ _, p, ctrs, c, h, hn => by
    simp only [Term.countChildren] at h
    simpa only [Term.tally, Counter.mul_assoc] using count_get t h hn
  | .delim t sep _ _ _, p, ctrs, c, h, hn => by
    simp only [Term.countChildren, Option.bind_eq_some_iff] at h
    obtain ⟨c1, h1, h2⟩ := h
    obtain ⟨n1, e1⟩ := count_get t h1 hn
    obtain ⟨n2, e2⟩ := count_get sep h2 n1
    refine ⟨n2, fun k => ?_⟩
    simp only [e2, e1, Term.tally, Counter.mul_assoc, Counter.mul_add, Counter.add_assoc]
  | .seq ts, p, ctrs, c, h, hn => by
    simp only [Term.countChildren] at h
    simpa only [Term.tally] using countSeq_get ts h hn
  | .oneof ts, p, ctrs, c, h, hn => by
    simp only [Term.countChildren, Option.map_eq_some_iff] at h
    obtain ⟨ds, h1, rfl⟩ := h
    obtain ⟨n1, e1⟩ := countOneof_get ts h1 (by simp) (fun k => rfl)
    refine ⟨nodup_mul _ hn, fun k => ?_⟩
    rw [get_mul _ _ _ _ n1, e1]
    simp [Term.tally, get_nil]
  | .stack ts, p, ctrs, c, h, hn => by simp [Term.countChildren] at h
theorem countSeq_get : (ts : List Term) → ∀ {p : Counter} {ctrs c : Counters}, countSeq ts p ctrs = some c → (ctrs.map Prod.fst).Nodup →
    (c.map Prod.fst).Nodup ∧ ∀ k, c.get k = (ctrs.get k).add (p.mul (tallySum k ts))
  | [], p, ctrs, c, h, hn => by
    simp only [countSeq, Option.some.injEq] at h; subst h
    exact ⟨hn, fun k => by simp [tallySum, Counter.mul_zero, Counter.add_zero]⟩
  | t :: ts, p, ctrs, c, h, hn => by
    simp only [countSeq, Option.bind_eq_some_iff] at h
    obtain ⟨c1, h1, h2⟩ := h
    obtain ⟨n1, e1⟩ := count_get t h1 hn
    obtain ⟨n2, e2⟩ := countSeq_get ts h2 n1
    exact ⟨n2, fun k => by simp only [e2, e1, tallySum, Counter.mul_add, Counter.add_assoc]⟩
theorem countOneof_get : (ts : List Term) → ∀ {ds c : Counters}, countOneof ts ds = some c → (ds.map Prod.fst).Nodup →
    (∀ k, (ds.get k).lo = 0) →
    (c.map Prod.fst).Nodup ∧ ∀ k, c.get k = ⟨0, max (ds.get k).hi (tallyMax k ts)⟩
  | [], ds, c, h, hn, h0 => by
    simp only [countOneof, Option.some.injEq] at h; subst h
    exact ⟨hn, fun k => Counter.ext' (h0 k) (by simp [tallyMax])⟩
  | t :: ts, ds, c, h, hn, h0 => by
    simp only [countOneof, Option.bind_eq_some_iff] at h
    obtain ⟨c1, h1, h2⟩ := h
    obtain ⟨n1, e1⟩ := count_get t h1 (by simp)
    have e3 := fun k => get_union c1 ds k n1 h0
    obtain ⟨n2, e2⟩ := countOneof_get ts h2 (nodup_union _ hn) (fun k => by rw [e3])
    refine ⟨n2, fun k => ?_⟩
    rw [e2, e3, e1]
    simp [tallyMax, get_nil, Counter.zero_add, Counter.one_mul, Nat.max_assoc]
end

mutual
theorem count_some : (t : Term) → t.Deep Term.Converts → ∀ (p : Counter) (ctrs : Counters), ∃ c, t.countChildren p ctrs = some c
  | .s _, _, _, _ => ⟨_, rfl⟩
  | .re _, _, _, _ => ⟨_, rfl⟩
  | .rule _, _, _, _ => ⟨_, rfl⟩
  | .named _ _, _, _, _ => ⟨_, rfl⟩
  | .ref _ _, _, _, _ => ⟨_, rfl⟩
  | .ext _, _, _, _ => ⟨_, rfl⟩
  | .cut t, h, p, ctrs => count_some t h.2 p ctrs
  | .look t, h, p, ctrs => count_some t h.2 p ctrs
  | .scope t _, h, _, ctrs => count_some t h.2.1 _ ctrs
  | .stack _, h, _, _ => h.1.elim
  | .quant t _ _, h, _, ctrs => count_some t h.2 _ ctrs
  | .delim t sep _ _ _, h, p, ctrs => by
    obtain ⟨c, hc⟩ := count_some t h.2.1 (p.mul oneOrMore) ctrs
    obtain ⟨d, hd⟩ := count_some sep h.2.2 (p.mul zeroOrMore) c
    exact ⟨d, by simp [Term.countChildren, hc, hd]⟩
  | .seq ts, h, p, ctrs => countSeq_some ts h.2 p ctrs
  | .oneof ts, h, p, ctrs => by
    obtain ⟨c, hc⟩ := countOneof_some ts h.2 []
    exact ⟨ctrs.mul c p, by simp [Term.countChildren, hc]⟩
theorem countSeq_some : (ts : List Term) → deepList Term.Converts ts → ∀ (p : Counter) (ctrs : Counters), ∃ c, countSeq ts p ctrs = some c
  | [], _, _, _ => ⟨_, rfl⟩
  | t :: ts, h, p, ctrs => by
    obtain ⟨c, hc⟩ := count_some t h.1 p ctrs
    obtain ⟨d, hd⟩ := countSeq_some ts h.2 p c
    exact ⟨d, by simp [countSeq, hc, hd]⟩
theorem countOneof_some : (ts : List Term) → deepList Term.Converts ts → ∀ (ds : Counters), ∃ c, countOneof ts ds = some c
  | [], _, _ => ⟨_, rfl⟩
  | t :: ts, h, ds => by
    obtain ⟨c, hc⟩ := count_some t h.1 oneOne []
    obtain ⟨d, hd⟩ := countOneof_some ts h.2 (ds.union c)
    exact ⟨d, by simp [countOneof, hc, hd]⟩
end

theorem newCounters_get {t : Term} (h : t.Deep Term.Converts) : ∃ c, newCounters (some t) = .ok c ∧ ∀ k, c.get k = t.tally k := by
  obtain ⟨c, hc⟩ := count_some t h oneOne []
  refine ⟨c, by simp [newCounters, hc], fun k => ?_⟩
  rw [(count_get t hc (by simp)).2 k, get_nil, Counter.zero_add, Counter.one_mul]

/-! ## Bounds of the counters -/

mutual
theorem tally_lo (k : Str) : (t : Term) → t.Deep Term.Converts → (t.tally k).hi = 0 ∧ (t.tally k).lo = 0 ∨ (t.tally k).hi = 1 ∧ (t.tally k).lo ≤ 1 ∨ 2 ≤ (t.tally k).hi
  | .s _, _ => by simp only [Term.tally, onceC]; split <;> simp
  | .re _, _ => by simp only [Term.tally, onceC]; split <;> simp
  | .rule _, _ => by simp only [Term.tally, onceC]; split <;> simp
  | .named _ _, _ => by simp only [Term.tally, onceC]; split <;> simp
  | .ext _, _ => by simp only [Term.tally, onceC]; split <;> simp
  | .ref _ _, _ => by simp only [Term.tally, onceC]; split <;> simp [Counter.mul, oneOrMore]
  | .cut t, h => by simpa only [Term.tally] using tally_lo k t h.2
  | .look t, h => by simpa only [Term.tally] using tally_lo k t h.2
  | .scope t _, h => by
    have := tally_lo k t h.2.1
    simp only [Term.tally, Counter.mul, oneOrMore]
    omega
  | .stack _, h => h.1.elim
  | .quant t lo hi, h => by
    have := tally_lo k t h.2
    have h1 : hi = 0 ∨ lo ≤ hi := h.1
    simp only [Term.tally, Counter.mul]
    rcases this with ⟨e1, e2⟩ | ⟨e1, e2⟩ | e
    · left; simp [e1, e2]
    · by_cases h0 : hi = 0
      · right; right; simp [h0, e1]
      · by_cases h2 : hi = 1
        · right; left
          subst h2
          refine ⟨by simp [e1], ?_⟩
          have : lo ≤ 1 := by omega
          calc lo * (t.tally k).lo ≤ 1 * 1 := Nat.mul_le_mul this e2
            _ = 1 := rfl
        · right; right
          simp only [h0, if_false, e1]; omega
    · right; right
      calc 2 ≤ 1 * (t.tally k).hi := by omega
        _ ≤ _ := Nat.mul_le_mul_right _ (by split <;> omega)
  | .delim t sep _ _ _, h => by
    have h1 := tally_lo k t h.2.1
    have h2 := tally_lo k sep h.2.2
    simp only [Term.tally, Counter.mul, Counter.add, oneOrMore, zeroOrMore]
    omega
  | .seq ts, h => by simpa only [Term.tally] using tallySum_lo k ts h.2
  | .oneof ts, h => by
    show tallyMax k ts = 0 ∧ 0 = 0 ∨ tallyMax k ts = 1 ∧ 0 ≤ 1 ∨ 2 ≤ tallyMax k ts
    omega
theorem tallySum_lo (k : Str) : (ts : List Term) → deepList Term.Converts ts →
    (tallySum k ts).hi = 0 ∧ (tallySum k ts).lo = 0 ∨ (tallySum k ts).hi = 1 ∧ (tallySum k ts).lo ≤ 1 ∨ 2 ≤ (tallySum k ts).hi
  | [], _ => by simp [tallySum]
  | t :: ts, h => by
    have h1 := tally_lo k t h.1
    have h2 := tallySum_lo k ts h.2
    simp only [tallySum, Counter.add]
    omega
end

mutual
theorem tally_pos (k : Str) : (t : Term) → (0 < (t.tally k).hi ↔ ∃ p ∈ t.partNames, p.1 = k)
  | .s _ => by simp only [Term.tally, onceC, Term.partNames]; split <;> simp_all
  | .re _ => by simp only [Term.tally, onceC, Term.partNames]; split <;> simp_all
  | .rule _ => by simp only [Term.tally, onceC, Term.partNames]; split <;> simp_all
  | .named _ _ => by simp only [Term.tally, onceC, Term.partNames]; split <;> simp_all
  | .ext _ => by simp only [Term.tally, onceC, Term.partNames]; split <;> simp_all
  | .ref _ _ => by simp only [Term.tally, onceC, Term.partNames]; split <;> simp_all [Counter.mul, oneOrMore]
  | .cut t => by simpa only [Term.tally, Term.partNames] using tally_pos k t
  | .look t => by simpa only [Term.tally, Term.partNames] using tally_pos k t
  | .scope t _ => by
    simp only [Term.tally, Term.partNames, ← tally_pos k t, Counter.mul, oneOrMore]; omega
  | .stack _ => by simp [Term.tally, Term.partNames]
  | .quant t lo hi => by
    simp only [Term.tally, Term.partNames, ← tally_pos k t, Counter.mul]
    constructor
    · intro h; exact Nat.pos_of_mul_pos_left h
    · intro h; exact Nat.mul_pos (by split <;> omega) h
  | .delim t sep _ _ _ => by
    have h1 := tally_pos k t
    have h2 := tally_pos k sep
    simp only [Term.tally, Term.partNames, Counter.mul, Counter.add, oneOrMore, zeroOrMore, List.mem_append, or_and_right, exists_or, ← h1, ← h2]
    omega
  | .seq ts => by simpa only [Term.tally, Term.partNames] using tallySum_pos k ts
  | .oneof ts => by simpa only [Term.tally, Term.partNames] using tallyMax_pos k ts
theorem tallySum_pos (k : Str) : (ts : List Term) → (0 < (tallySum k ts).hi ↔ ∃ p ∈ Term.partNames.names ts, p.1 = k)
  | [] => by simp [tallySum, Term.partNames.names]
  | t :: ts => by
    have h1 := tally_pos k t
    have h2 := tallySum_pos k ts
    simp only [tallySum, Term.partNames.names, Counter.add, List.mem_append, or_and_right, exists_or, ← h1, ← h2]
    omega
theorem tallyMax_pos (k : Str) : (ts : List Term) → (0 < tallyMax k ts ↔ ∃ p ∈ Term.partNames.names ts, p.1 = k)
  | [] => by simp [tallyMax, Term.partNames.names]
  | t :: ts => by
    have h1 := tally_pos k t
    have h2 := tallyMax_pos k ts
    simp only [tallyMax, Term.partNames.names, List.mem_append, or_and_right, exists_or, ← h1, ← h2]
    omega
end

end Wbnf

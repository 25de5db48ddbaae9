import Verif.Lemmas.Scanner

/-!
# C27-C30, C46: properties of scanners

Specification vocabulary: `Scanner.InRange` (the slice lies inside the source), `Scanner.toStr`
(Go `String()`), list `take`/`drop`.
-/

namespace Wbnf

/-! ## C27 Scanner slices compose -/

/-- A fresh scanner shows exactly the text it was made from. -/
theorem C27_new (t : Str) : (newScanner t).InRange ∧ (newScanner t).toStr = some t := by
  have h : newScanner t = ⟨some ⟨t, []⟩, (0 : Nat), (t.length : Nat)⟩ := rfl
  rw [h]
  exact ⟨Scanner.inRange_mk (by simp), by rw [Scanner.toStr_mk (by simp)]; simp [bytesAt]⟩

/-- Eating `i` bytes splits the text at `i`; nothing is lost, duplicated or moved. -/
theorem C27_eat (s : Scanner) (t : Str) (i : Nat) (hs : s.InRange) (ht : s.toStr = some t)
    (hi : i ≤ t.length) :
    (s.eat i).1.toStr = some (t.take i) ∧ (s.eat i).2.toStr = some (t.drop i) ∧
    (s.eat i).1.InRange ∧ (s.eat i).2.InRange ∧
    (s.eat i).1.start = s.start ∧ (s.eat i).2.start = s.start + i ∧
    (s.eat i).2.start + (s.eat i).2.len = s.start + s.len ∧
    (s.eat i).1.src = s.src ∧ (s.eat i).2.src = s.src := by
  obtain ⟨src, k, n, rfl, h⟩ := hs.elim
  rw [Scanner.toStr_mk h] at ht
  obtain rfl := Option.some.inj ht
  have hn : (bytesAt src.origin k n).length = n := bytesAt_length h
  have hin : i ≤ n := by omega
  have e1 : (Scanner.eat ⟨some src, k, n⟩ i).1 = ⟨some src, k, i⟩ := rfl
  have e2 : (Scanner.eat ⟨some src, k, n⟩ i).2 = ⟨some src, (k + i : Nat), (n - i : Nat)⟩ := by
    simp [Scanner.eat, Scanner.skip]; omega
  rw [e1, e2, Scanner.toStr_mk (by omega), Scanner.toStr_mk (by omega)]
  refine ⟨?_, ?_, Scanner.inRange_mk (by omega), Scanner.inRange_mk (by omega), rfl, by simp,
    by simp; omega, rfl, rfl⟩
  · simp only [bytesAt, List.take_take]; congr 2; omega
  · simp only [bytesAt, List.drop_take, List.drop_drop]

/-- Eating `i` and then `j` bytes leaves the same scanner as eating `i + j`; no range condition. -/
theorem C27_eat_eat (s : Scanner) (i j : Int) : ((s.eat i).2.eat j).2 = (s.eat (i + j)).2 := by
  simp [Scanner.eat, Scanner.skip]; omega

/-- `Slice(a, b)` shows bytes `a..b` of the text. -/
theorem C27_slice (s : Scanner) (t : Str) (a b : Nat) (hs : s.InRange) (ht : s.toStr = some t)
    (hab : a ≤ b) (hb : b ≤ t.length) :
    (s.sub a b).InRange ∧ (s.sub a b).toStr = some ((t.take b).drop a) := by
  obtain ⟨src, k, n, rfl, h⟩ := hs.elim
  rw [Scanner.toStr_mk h] at ht
  obtain rfl := Option.some.inj ht
  have hn : (bytesAt src.origin k n).length = n := bytesAt_length h
  have e : Scanner.sub ⟨some src, k, n⟩ a b = ⟨some src, (k + a : Nat), (b - a : Nat)⟩ := by
    simp [Scanner.sub]; omega
  rw [e, Scanner.toStr_mk (by omega)]
  refine ⟨Scanner.inRange_mk (by omega), ?_⟩
  simp only [bytesAt, List.take_take, List.drop_take, List.drop_drop]
  congr 2; omega

/-- Slices of slices are slices. -/
theorem C27_slice_slice (s : Scanner) (a b c d : Int) :
    (s.sub a b).sub c d = s.sub (a + c) (a + d) := by
  simp [Scanner.sub]; omega

/-- `EatString` succeeds exactly on a prefix of the text and then eats exactly that prefix. -/
theorem C27_eatString (s : Scanner) (t x : Str) (hs : s.InRange) (ht : s.toStr = some t) :
    (x <+: t → ∃ e r, s.eatString x = some (some (e, r)) ∧ e.toStr = some x ∧
      r.toStr = some (t.drop x.length)) ∧
    (¬ x <+: t → s.eatString x = some none) := by
  have hsl : s.slice = some t := by
    obtain ⟨src, k, n, rfl, h⟩ := hs.elim
    rw [Scanner.toStr_mk h] at ht
    rw [Scanner.slice_mk h, ht]
  constructor
  · intro hx
    have hl := hx.length_le
    have h := C27_eat s t x.length hs ht hl
    refine ⟨(s.eat x.length).1, (s.eat x.length).2, by simp [Scanner.eatString, hsl, hx], ?_, h.2.1⟩
    rw [h.1]; congr 1
    exact (List.prefix_iff_eq_take.1 hx).symm
  · intro hx
    simp [Scanner.eatString, hsl, hx]

/-- `StripSource` forgets everything but the visible text, and keeps showing that text even
though the offset still refers to the original source. -/
theorem C27_stripSource (s : Scanner) (t : Str) (hs : s.InRange) (ht : s.toStr = some t) :
    ∃ s', s.stripSource = some s' ∧ s'.toStr = some t ∧ s'.start = s.start ∧ s'.len = s.len ∧
      ∃ src, s'.src = some src ∧ src.origin = t := by
  obtain ⟨src, k, n, rfl, h⟩ := hs.elim
  rw [Scanner.toStr_mk h] at ht
  obtain rfl := Option.some.inj ht
  refine ⟨⟨some { src with origin := bytesAt src.origin k n }, k, n⟩, ?_, ?_, rfl, rfl, _, rfl, rfl⟩
  · simp only [Scanner.stripSource, Source.stripSource]
    rw [Source.slice_inRange _ _ _ h]; rfl
  · simp only [Scanner.toStr, Scanner.slice, Source.slice]
    have hn : (bytesAt src.origin k n).length = n := bytesAt_length h
    by_cases hk : k = 0
    · subst hk
      rw [if_neg (by simp; omega), if_neg (by omega)]
      simp [bytesAt, List.take_take]
    · rw [if_pos (by simp only [hn]; omega)]

/-- Outside the range the law fails: a scanner that sticks out of its source shows the *entire*
source instead (scanner.go:223-225). -/
theorem C27_out_of_range (o f : Str) (i n : Nat) (h : o.length < i + n) :
    Scanner.toStr ⟨some ⟨o, f⟩, i, n⟩ = some o := by
  simp only [Scanner.toStr, Scanner.slice, Source.slice]
  rw [if_pos (by simp; omega)]

example : (newScanner (str "hello world")).InRange ∧
    ((newScanner (str "hello world")).sub 6 11).toStr = some (str "world") := by
  refine ⟨(C27_new _).1, by decide⟩
example : Scanner.toStr (newScannerAt (str "abc") 2 5) = some (str "abc") := by decide
example : ∃ s', ((newScanner (str "hello world")).sub 6 11).stripSource = some s' ∧
    s'.toStr = some (str "world") ∧ s'.start = 6 := ⟨_, rfl, by decide, by decide⟩

/-! ## C28 Position -/

/-- `Position` of an in-range scanner: the text before the offset is `a ++ b`, where `b` is the
part of the current line before the offset and `a` is empty or ends in a newline; the line number
is one more than the number of newlines in `a`, the column one more than the length of `b`. -/
theorem C28_position (s : Scanner) (src : Source) (hs : s.InRange) (hsrc : s.src = some src) :
    ∃ a b : Str, src.origin.take s.start.toNat = a ++ b ∧ (10 : UInt8) ∉ b ∧
      (a = [] ∨ ∃ a', a = a' ++ [10]) ∧
      s.position = some ((a.count 10 : Int) + 1, (b.length : Int) + 1) := by
  obtain ⟨src', k, n, rfl, h⟩ := hs.elim
  simp at hsrc; subst hsrc
  obtain ⟨a, b, h1, h2, h3, h4, h5⟩ := lastNL_spec (src'.origin.take k)
  refine ⟨a, b, by simpa using h1, h2, h5, ?_⟩
  have hcount : ∀ x : Str, countNL x = x.count 10 := by
    intro x; induction x with
    | nil => rfl
    | cons c x ih => simp [countNL, ih, List.count_cons]; omega
  have hsl : src'.slice 0 (k : Int) = some (src'.origin.take k) := by
    have := Source.slice_inRange src' 0 k (by omega)
    simpa [bytesAt] using this
  simp only [Scanner.position, hsl, lineColumn]
  rw [if_neg (by simp; omega)]
  simp only [Int.toNat_natCast, List.take_take, Nat.min_self]
  rw [← hcount, h3]
  simp at h4 ⊢
  omega

/-- Two in-range scanners over one source with the same line and column have the same offset. -/
theorem C28_position_injective (s s' : Scanner) (hs : s.InRange) (hs' : s'.InRange)
    (hsrc : s.src = s'.src) (h : s.position = s'.position) : s.start = s'.start := by
  obtain ⟨src, h1, hb1, hb2, hb3⟩ := hs
  have h1' : s'.src = some src := by rw [← hsrc, h1]
  obtain ⟨src', h2, hc1, hc2, hc3⟩ := hs'
  rw [h1'] at h2; obtain rfl := Option.some.inj h2
  obtain ⟨a, b, e1, e2, e3, e4⟩ := C28_position s src ⟨src, h1, hb1, hb2, hb3⟩ h1
  obtain ⟨a', b', e1', e2', e3', e4'⟩ := C28_position s' src ⟨src, h1', hc1, hc2, hc3⟩ h1'
  rw [h, e4'] at e4
  simp at e4
  obtain ⟨hcnt, hlen⟩ := e4
  have hca : a.count 10 = a'.count 10 := by omega
  -- a and a' are prefixes of the same text
  have key : ∀ x y p q : Str, x ++ y <+: p ++ q → (10 : UInt8) ∉ q →
      (x = [] ∨ ∃ x', x = x' ++ [10]) → (p = [] ∨ ∃ p', p = p' ++ [10]) →
      x.count 10 = p.count 10 → x.length = p.length := by
    intro x y p q hpre hq hx hp hc
    have hxp : x <+: p ++ q := (List.prefix_append x y).trans hpre
    have hpp : p <+: p ++ q := List.prefix_append p q
    rcases List.prefix_or_prefix_of_prefix hxp hpp with hh | hh
    · obtain ⟨z, hz⟩ := hh
      rcases hp with hp | ⟨p', hp⟩
      · subst hp; simp at hz; simp [hz.1]
      · by_cases hzn : z = []
        · subst hzn; simp only [List.append_nil] at hz; rw [hz]
        · exfalso
          obtain ⟨z', c, rfl⟩ : ∃ z' c, z = z' ++ [c] := ⟨z.dropLast, z.getLast hzn, (List.dropLast_concat_getLast hzn).symm⟩
          have hcc : c = 10 := by
            have := congrArg List.getLast? (hz.trans hp)
            simp at this; exact this
          rw [← hz, hcc] at hc
          simp at hc
    · obtain ⟨z, hz⟩ := hh
      rcases hx with hx | ⟨x', hx⟩
      · subst hx; simp at hz; simp [hz.1]
      · by_cases hzn : z = []
        · subst hzn; simp only [List.append_nil] at hz; rw [hz]
        · exfalso
          obtain ⟨z', c, rfl⟩ : ∃ z' c, z = z' ++ [c] := ⟨z.dropLast, z.getLast hzn, (List.dropLast_concat_getLast hzn).symm⟩
          have hcc : c = 10 := by
            have := congrArg List.getLast? (hz.trans hx)
            simp at this; exact this
          rw [← hz, hcc] at hc
          simp at hc
  have htot : (a ++ b).length = s.start.toNat := by rw [← e1]; simp; omega
  have htot' : (a' ++ b').length = s'.start.toNat := by rw [← e1']; simp; omega
  have hl : a.length = a'.length := by
    rcases Nat.le_total s.start.toNat s'.start.toNat with hle | hle
    · exact key a b a' b' (by rw [← e1, ← e1']; exact List.take_prefix_take_left hle) e2' e3 e3' hca
    · exact (key a' b' a b (by rw [← e1, ← e1']; exact List.take_prefix_take_left hle) e2 e3' e3
        hca.symm).symm
  simp at htot htot'
  omega

/-- `Position` answers exactly when the offset lies in the source; otherwise it panics. -/
theorem C28_position_defined (src : Source) (i n : Int) :
    (Scanner.position ⟨some src, i, n⟩).isSome ↔ 0 ≤ i ∧ i ≤ src.origin.length := by
  simp only [Scanner.position, Source.slice]
  split
  · rename_i h
    split at h
    · simp at h
    · split at h <;> simp at h <;> simp <;> omega
  · rename_i t h
    simp only [lineColumn]
    split at h
    · rename_i hc
      simp at h; subst h
      split <;> simp <;> omega
    · split at h
      · simp at h
      · simp at h; subst h
        rw [if_neg (by simp; omega)]; simp; omega

example : ((newScanner (str "ab\ncd\nef")).skip 7).position = some (3, 2) := by decide
/-- After `StripSource` the offset may lie outside the source, and `Position` panics. -/
example : ((((newScanner (str "hello world")).sub 6 11).stripSource).bind Scanner.position) = none := by
  decide

/-! ## C29 MergeScanners -/

/-- End offset of a scanner. -/
def Scanner.stop (s : Scanner) : Int := s.start + s.len

/-- `m` is the least scanner covering all of `xs`. -/
def IsHull (xs : List Scanner) (m : Scanner) : Prop :=
  (∀ x ∈ xs, x.src = m.src ∧ m.start ≤ x.start ∧ x.stop ≤ m.stop) ∧
  (∃ x ∈ xs, x.start = m.start) ∧ (∃ x ∈ xs, x.stop = m.stop)

theorem mergeLoop_some {src : Option Source} {l r l' r' : Int} {xs : List Scanner}
    (h : mergeLoop src l r xs = some (l', r')) :
    (∀ x ∈ xs, x.src = src ∧ l' ≤ x.start ∧ x.stop ≤ r') ∧ l' ≤ l ∧ r ≤ r' ∧
    (l' = l ∨ ∃ x ∈ xs, x.start = l') ∧ (r' = r ∨ ∃ x ∈ xs, x.stop = r') := by
  induction xs generalizing l r with
  | nil => simp [mergeLoop] at h; obtain ⟨rfl, rfl⟩ := h; simp
  | cons v vs ih =>
    simp only [mergeLoop] at h
    split at h
    · simp at h
    · rename_i hsrc
      simp at hsrc
      obtain ⟨i1, i2, i3, i4, i5⟩ := ih h
      unfold Scanner.stop at *
      refine ⟨?_, ?_, ?_, ?_, ?_⟩
      · intro x hx
        rcases List.mem_cons.1 hx with rfl | hx
        · refine ⟨hsrc, ?_, ?_⟩
          · split at i2 <;> omega
          · split at i3 <;> omega
        · exact i1 x hx
      · split at i2 <;> omega
      · split at i3 <;> omega
      · rcases i4 with i4 | ⟨x, hx, i4⟩
        · split at i4
          · right; exact ⟨v, by simp, i4.symm⟩
          · left; exact i4
        · right; exact ⟨x, by simp [hx], i4⟩
      · rcases i5 with i5 | ⟨x, hx, i5⟩
        · split at i5
          · right; exact ⟨v, by simp, i5.symm⟩
          · left; exact i5
        · right; exact ⟨x, by simp [hx], i5⟩

theorem mergeLoop_none {src : Option Source} {l r : Int} {xs : List Scanner} :
    mergeLoop src l r xs = none ↔ ∃ x ∈ xs, x.src ≠ src := by
  induction xs generalizing l r with
  | nil => simp [mergeLoop]
  | cons v vs ih =>
    simp only [mergeLoop]
    split
    · rename_i h; simp [h]
    · rename_i h; simp at h; simp [ih, h]

/-- A successful merge is the hull of the scanners. -/
theorem C29_merge_hull (xs : List Scanner) (m : Scanner) (h : mergeScanners xs = some m) :
    IsHull xs m := by
  match xs, h with
  | [x], h =>
    simp [mergeScanners] at h; subst h
    simp [IsHull]
  | x :: y :: ys, h =>
    simp only [mergeScanners] at h
    split at h
    · simp at h
    · rename_i l r hm
      simp at h; subst h
      obtain ⟨i1, i2, i3, i4, i5⟩ := mergeLoop_some hm
      unfold IsHull Scanner.stop at *
      have e : l + (r - l) = r := by omega
      rw [e]
      refine ⟨?_, ?_, ?_⟩
      · intro z hz
        rcases List.mem_cons.1 hz with rfl | hz
        · exact ⟨rfl, i2, i3⟩
        · exact i1 z hz
      · rcases i4 with i4 | ⟨z, hz, i4⟩
        · exact ⟨x, by simp, i4.symm⟩
        · exact ⟨z, List.mem_cons_of_mem _ hz, i4⟩
      · rcases i5 with i5 | ⟨z, hz, i5⟩
        · exact ⟨x, by simp, i5.symm⟩
        · exact ⟨z, List.mem_cons_of_mem _ hz, i5⟩

/-- Merging fails exactly for no scanners or for scanners of different sources. -/
theorem C29_merge_error (xs : List Scanner) :
    mergeScanners xs = none ↔ xs = [] ∨ ∃ x ∈ xs, ∃ y ∈ xs, x.src ≠ y.src := by
  match xs with
  | [] => simp [mergeScanners]
  | [x] => simp [mergeScanners]
  | x :: y :: ys =>
    simp only [mergeScanners]
    constructor
    · intro h
      split at h
      · rename_i hm
        obtain ⟨z, hz, hne⟩ := mergeLoop_none.1 hm
        exact Or.inr ⟨z, List.mem_cons_of_mem _ hz, x, by simp, hne⟩
      · simp at h
    · intro h
      have : ∃ z ∈ (y :: ys), z.src ≠ x.src := by
        rcases h with h | ⟨a, ha, b, hb, hne⟩
        · simp at h
        · rcases List.mem_cons.1 ha with rfl | ha'
          · rcases List.mem_cons.1 hb with rfl | hb'
            · exact absurd rfl hne
            · exact ⟨b, hb', fun h => hne h.symm⟩
          · by_cases hax : a.src = x.src
            · rcases List.mem_cons.1 hb with rfl | hb'
              · exact absurd hax hne
              · exact ⟨b, hb', fun h => hne (hax.trans h.symm)⟩
            · exact ⟨a, ha', hax⟩
      rw [mergeLoop_none.2 this]

/-- The merge depends only on the set of scanners: order and duplicates are irrelevant. -/
theorem C29_merge_set (xs ys : List Scanner) (h : ∀ s, s ∈ xs ↔ s ∈ ys) :
    mergeScanners xs = mergeScanners ys := by
  have hempty : xs = [] ↔ ys = [] := by
    constructor
    · rintro rfl
      cases ys with
      | nil => rfl
      | cons y ys => have := (h y).2 (by simp); simp at this
    · rintro rfl
      cases xs with
      | nil => rfl
      | cons y ys => have := (h y).1 (by simp); simp at this
  have herr : mergeScanners xs = none ↔ mergeScanners ys = none := by
    rw [C29_merge_error, C29_merge_error, hempty]; simp only [h]
  cases hx : mergeScanners xs with
  | none => exact (herr.1 hx).symm
  | some m =>
    cases hy : mergeScanners ys with
    | none => rw [herr.2 hy] at hx; simp at hx
    | some m' =>
      obtain ⟨a1, ⟨a, ha, a2⟩, ⟨b, hb, a3⟩⟩ := C29_merge_hull xs m hx
      obtain ⟨b1, ⟨c, hc, b2⟩, ⟨d, hd, b3⟩⟩ := C29_merge_hull ys m' hy
      have p1 := a1 c ((h c).2 hc)
      have p2 := a1 d ((h d).2 hd)
      have p3 := b1 a ((h a).1 ha)
      have p4 := b1 b ((h b).1 hb)
      have hsrc : m.src = m'.src := p1.1.symm.trans (b1 c hc).1
      unfold Scanner.stop at *
      cases m; cases m'
      simp_all
      omega

/-- In particular for permutations. -/
theorem C29_merge_perm (xs ys : List Scanner) (h : xs.Perm ys) :
    mergeScanners xs = mergeScanners ys := C29_merge_set xs ys fun _ => h.mem_iff

example : mergeScanners [(newScanner (str "abcdef")).sub 3 4, (newScanner (str "abcdef")).sub 1 2,
    (newScanner (str "abcdef")).sub 5 6] = some ((newScanner (str "abcdef")).sub 1 6) := by decide
example : mergeScanners [newScanner (str "a"), newScanner (str "b")] = none := by decide

/-! ## C30 Contains -/

/-- `Contains` is inclusion of byte intervals of the same source. -/
theorem C30_contains_iff (a b : Scanner) (ha : a.src.isSome) (hb : b.src.isSome) :
    a.contains b = some true ↔ a.src = b.src ∧ a.start ≤ b.start ∧ b.stop ≤ a.stop := by
  obtain ⟨sa, ha⟩ := Option.isSome_iff_exists.1 ha
  obtain ⟨sb, hb⟩ := Option.isSome_iff_exists.1 hb
  simp only [Scanner.contains, ha, hb, Scanner.stop]
  split
  · rename_i h
    simp only [Option.some.injEq, Bool.false_eq_true, false_iff, not_and]
    intro h2; subst h2; simp at h
  · rename_i h
    simp at h
    simp [h.2]

/-- `Contains` panics exactly when one of the scanners is a zero scanner. -/
theorem C30_contains_defined (a b : Scanner) :
    (a.contains b).isSome ↔ a.src.isSome ∧ b.src.isSome := by
  simp only [Scanner.contains]
  split
  · rename_i h1 h2; rw [h1, h2]; split <;> simp
  · rename_i h
    cases ha : a.src <;> cases hb : b.src <;> simp
    exact h _ _ ha hb

theorem C30_contains_refl (a : Scanner) (ha : a.src.isSome) : a.contains a = some true :=
  (C30_contains_iff a a ha ha).2 ⟨rfl, Int.le_refl _, Int.le_refl _⟩

theorem C30_contains_trans (a b c : Scanner) (h1 : a.contains b = some true)
    (h2 : b.contains c = some true) : a.contains c = some true := by
  have d1 := (C30_contains_defined a b).1 (by simp [h1])
  have d2 := (C30_contains_defined b c).1 (by simp [h2])
  have e1 := (C30_contains_iff a b d1.1 d1.2).1 h1
  have e2 := (C30_contains_iff b c d2.1 d2.2).1 h2
  exact (C30_contains_iff a c d1.1 d2.2).2 ⟨e1.1.trans e2.1, by omega, by omega⟩

theorem C30_contains_antisymm (a b : Scanner) (h1 : a.contains b = some true)
    (h2 : b.contains a = some true) : a = b := by
  have d1 := (C30_contains_defined a b).1 (by simp [h1])
  have e1 := (C30_contains_iff a b d1.1 d1.2).1 h1
  have e2 := (C30_contains_iff b a d1.2 d1.1).1 h2
  unfold Scanner.stop at *
  cases a; cases b
  simp_all
  omega

/-- The merge contains every scanner that was merged. -/
theorem C30_contains_merge (xs : List Scanner) (m x : Scanner) (h : mergeScanners xs = some m)
    (hx : x ∈ xs) (hsrc : x.src.isSome) : m.contains x = some true := by
  have h1 := (C29_merge_hull xs m h).1 x hx
  exact (C30_contains_iff m x (by rw [← h1.1]; exact hsrc) hsrc).2 ⟨h1.1.symm, h1.2.1, h1.2.2⟩

example : ((newScanner (str "abcdef")).sub 1 5).contains ((newScanner (str "abcdef")).sub 2 3)
    = some true := by decide

/-! ## C46 Context -/

/-- Without limit, the three pieces shown are exactly the source, split around the scanner. -/
theorem C46_context_unlimited (s : Scanner) (src : Source) (hs : s.InRange)
    (hsrc : s.src = some src) :
    ∃ above mid below, s.context (-1) = some (above, mid, below) ∧ s.toStr = some mid ∧
      src.origin = above ++ mid ++ below ∧ (above.length : Int) = s.start := by
  have hp := (C28_position_defined src s.start s.len).2 (by
    obtain ⟨src', h1, h2, h3, h4⟩ := hs
    rw [hsrc] at h1; obtain rfl := Option.some.inj h1; omega)
  obtain ⟨src', k, n, rfl, h⟩ := hs.elim
  simp at hsrc; subst hsrc
  obtain ⟨pp, hpp⟩ := Option.isSome_iff_exists.1 hp
  have e1 : src'.slice 0 (k : Int) = some (src'.origin.take k) := by
    simpa [bytesAt] using Source.slice_inRange src' 0 k (by omega)
  have e2 : src'.slice ((k : Int) + n) (src'.length - ((k : Int) + n))
      = some (src'.origin.drop (k + n)) := by
    have := Source.slice_inRange src' (k + n) (src'.origin.length - (k + n)) (by omega)
    simp only [Source.length]
    rw [← Int.natCast_add, show ((src'.origin.length : Int) - ((k + n : Nat) : Int))
      = ((src'.origin.length - (k + n) : Nat) : Int) by omega, this]
    simp only [bytesAt]
    rw [List.take_of_length_le (by simp)]
  refine ⟨src'.origin.take k, bytesAt src'.origin k n, src'.origin.drop (k + n), ?_,
    Scanner.toStr_mk h, ?_, ?_⟩
  · simp only [Scanner.context, hpp, e1, e2, Scanner.slice_mk h]
    simp
  · simp only [bytesAt]
    rw [← List.drop_drop, List.append_assoc, List.take_append_drop, List.take_append_drop]
  · simp; omega

/-- With a limit of `k` lines the text shown above is the end of the text before the scanner, from the
beginning of a line, with at most `k` newlines, and the text shown below the beginning of the text after it,
up to the end of a line, with fewer than `k` newlines (nothing for `k = 0`); nothing panics. -/
theorem C46_context_limited (s : Scanner) (src : Source) (k : Nat) (hs : s.InRange)
    (hsrc : s.src = some src) :
    ∃ above mid below above' below', s.context k = some (above', mid, below') ∧
      s.context (-1) = some (above, mid, below) ∧
      (above' = above ∨ ∃ x, above = x ++ 10 :: above') ∧ (below' = below ∨ (∃ x, below = below' ++ 10 :: x) ∨ k = 0 ∧ below' = []) ∧
      above'.count 10 ≤ k ∧ below'.count 10 ≤ k - 1 ∧
      (above'.count 10 < k → above' = above) ∧ (below'.count 10 + 1 < k → below' = below) := by
  obtain ⟨above, mid, below, h1, h2, h3, h4⟩ := C46_context_unlimited s src hs hsrc
  have hcount : ∀ x : Str, x.count 10 = countNL x := by
    intro x; induction x with
    | nil => rfl
    | cons c x ih => simp [countNL, ih, List.count_cons]; omega
  have hcx : ∃ pp, s.position = some pp ∧ src.slice 0 s.start = some above ∧
      src.slice (s.start + s.len) (src.length - (s.start + s.len)) = some below ∧
      s.slice = some mid := by
    simp only [Scanner.context, hsrc] at h1
    split at h1
    · rename_i p a b c q1 q2 q3 q4
      simp at h1
      exact ⟨_, q1, by rw [q2, h1.1], by rw [q3, h1.2.2], by rw [q4, h1.2.1]⟩
    · simp at h1
  obtain ⟨pp, q1, q2, q3, q4⟩ := hcx
  have la := length_splitNL above
  have lb := length_splitNL below
  -- above
  have ha : ∃ above', contextAbove k above = some above' ∧ (above' = above ∨ ∃ x, above = x ++ 10 :: above') ∧ countNL above' ≤ k ∧
          (countNL above' < k → above' = above) := by
    unfold contextAbove
    simp only
    by_cases hk : ((splitNL above).length : Int) > k
    · rw [if_pos hk, if_neg (by omega)]
      have hto : (((splitNL above).length : Int) - k - 1).toNat = (splitNL above).length - k - 1 := by
        omega
      rw [hto]
      have hlen : ((splitNL above).drop ((splitNL above).length - k - 1)).length = k + 1 := by
        simp; omega
      have hne : (splitNL above).drop ((splitNL above).length - k - 1) ≠ [] := by
        intro h; rw [h] at hlen; simp at hlen
      have hc := countNL_joinNL hne (fun l hl => splitNL_noNL above l (List.mem_of_mem_drop hl))
      rw [hlen] at hc
      refine ⟨_, rfl, ?_, by omega, by omega⟩
      by_cases hz : (splitNL above).take ((splitNL above).length - k - 1) = []
      · have hd : (splitNL above).drop ((splitNL above).length - k - 1) = splitNL above := by
          have := List.take_append_drop ((splitNL above).length - k - 1) (splitNL above)
          rw [hz] at this; simpa using this
        rw [hd, joinNL_splitNL]
        exact .inl rfl
      · have := joinNL_append hz hne
        rw [List.take_append_drop, joinNL_splitNL] at this
        exact .inr ⟨joinNL ((splitNL above).take ((splitNL above).length - k - 1)), this⟩
    · rw [if_neg hk]
      exact ⟨_, rfl, .inl rfl, by omega, by simp⟩
  have hb : ∃ below', contextBelow k below = some below' ∧
      (below' = below ∨ (∃ x, below = below' ++ 10 :: x) ∨ k = 0 ∧ below' = []) ∧ countNL below' ≤ k - 1 ∧
          (countNL below' + 1 < k → below' = below) := by
    unfold contextBelow
    simp only
    by_cases hk : ((splitNL below).length : Int) > k
    · rw [if_pos hk, if_neg (by omega)]
      simp only [Int.toNat_natCast]
      by_cases hz : k = 0
      · subst hz; exact ⟨[], by simp [joinNL], .inr (.inr ⟨rfl, rfl⟩), by simp [countNL], by omega⟩
      · have hlen : ((splitNL below).take k).length = k := by simp; omega
        have hne : (splitNL below).take k ≠ [] := by intro h; rw [h] at hlen; simp at hlen; omega
        have hc := countNL_joinNL hne (fun l hl => splitNL_noNL below l (List.mem_of_mem_take hl))
        rw [hlen] at hc
        have hne2 : (splitNL below).drop k ≠ [] := by simp; omega
        have := joinNL_append hne hne2
        rw [List.take_append_drop, joinNL_splitNL] at this
        exact ⟨_, rfl, .inr (.inl ⟨joinNL ((splitNL below).drop k), this⟩), by omega, by omega⟩
    · rw [if_neg hk]
      exact ⟨_, rfl, .inl rfl, by omega, by simp⟩
  obtain ⟨above', ha1, ha2, ha3, ha4⟩ := ha
  obtain ⟨below', hb1, hb2, hb3, hb4⟩ := hb
  refine ⟨above, mid, below, above', below', ?_, h1, ha2, hb2, by rw [hcount]; exact ha3,
    by rw [hcount]; exact hb3, by rw [hcount]; exact ha4, by rw [hcount]; exact hb4⟩
  simp only [Scanner.context, hsrc, q1, q2, q3, q4]
  rw [if_pos (by omega), ha1, hb1]

example : ((newScanner (str "a\nb\nc\nd\ne")).sub 4 5).context 1 =
    some (str "b\n", str "c", str "") := by decide

end Wbnf

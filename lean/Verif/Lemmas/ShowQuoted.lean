import Verif.Spec.ShowQuoted

/-!
# Reading back trees printed with `%q`
-/

namespace Wbnf

variable {quote : Str → Str} {quoteRune : Nat → Str} {n : Nat}

theorem split_stop {P : UInt8 → Prop} : ∀ {l l' : Str} {c c' : UInt8} {r r' : Str}, (∀ d ∈ l, ¬ P d) → (∀ d ∈ l', ¬ P d) → P c → P c' →
    l ++ c :: r = l' ++ c' :: r' → l = l' ∧ c :: r = c' :: r'
  | [], [], _, _, _, _, _, _, _, _, h => ⟨rfl, h⟩
  | [], d :: l', _, _, _, _, _, h', hc, _, h => by
    simp only [List.nil_append, List.cons_append, List.cons.injEq] at h
    exact absurd (h.1 ▸ hc) (h' d (by simp))
  | d :: l, [], _, _, _, _, h, _, _, hc', e => by
    simp only [List.nil_append, List.cons_append, List.cons.injEq] at e
    exact absurd (e.1 ▸ hc') (h d (by simp))
  | d :: l, d' :: l', _, _, _, _, h, h', hc, hc', e => by
    simp only [List.cons_append, List.cons.injEq] at e
    have := split_stop (P := P) (fun x hx => h x (by simp [hx])) (fun x hx => h' x (by simp [hx])) hc hc' e.2
    exact ⟨by rw [e.1, this.1], this.2⟩

theorem assocString_cases (a : Int) : (a.sign = -1 ∧ assocString a = str "<:") ∨ (a.sign = 0 ∧ assocString a = str ":") ∨ (a.sign = 1 ∧ assocString a = str ":>") := by
  match a with
  | .ofNat 0 => exact .inr (.inl ⟨rfl, rfl⟩)
  | .ofNat (k + 1) =>
    refine .inr (.inr ⟨rfl, ?_⟩)
    rw [assocString, if_neg (by simp only [Int.ofNat_eq_natCast]; omega), if_pos (by simp only [Int.ofNat_eq_natCast]; omega)]
  | .negSucc k => exact .inl ⟨rfl, by rw [assocString, if_pos (Int.negSucc_lt_zero k)]⟩

theorem assocString_sign {a b : Int} : assocString a = assocString b ↔ a.sign = b.sign := by
  have h1 : str "<:" ≠ str ":" := by decide
  have h2 : str "<:" ≠ str ":>" := by decide
  have h3 : str ":" ≠ str ":>" := by decide
  rcases assocString_cases a with ⟨ha, ha'⟩ | ⟨ha, ha'⟩ | ⟨ha, ha'⟩ <;> rcases assocString_cases b with ⟨hb, hb'⟩ | ⟨hb, hb'⟩ | ⟨hb, hb'⟩ <;>
    simp [ha, hb, ha', hb', h1, h2, h3, h1.symm, h2.symm, h3.symm]

/-- What follows a tag. -/
theorem extra_head {e : Extra} (z : Str) : ∃ c r, extraQuoted quote quoteRune e ++ (str "[" ++ z) = c :: r ∧ (c = 91 ∨ c = 0xe2) := by
  cases e with
  | nil => exact ⟨91, z, rfl, .inl rfl⟩
  | choice i => exact ⟨0xe2, _, rfl, .inr rfl⟩
  | assoc a => exact ⟨0xe2, _, rfl, .inr rfl⟩

theorem extra_reads (hq : Quoting quote) (hr : RuneQuoting n quoteRune) {e e' : Extra} (he : ∀ i, e = .choice i → i < n) (he' : ∀ i, e' = .choice i → i < n) {x y : Str}
    (h : extraQuoted quote quoteRune e ++ (str "[" ++ x) = extraQuoted quote quoteRune e' ++ (str "[" ++ y)) : e.Same e' ∧ x = y := by
  have hb : str "[" = [91] := rfl
  have hd : doubleBar = [0xe2, 0x95, 0x91] := rfl
  cases e with
  | nil =>
    cases e' with
    | nil => exact ⟨trivial, by simpa [extraQuoted, hb] using h⟩
    | choice j => simp [extraQuoted, hb, hd] at h
    | assoc b => simp [extraQuoted, hb, hd] at h
  | choice i =>
    cases e' with
    | nil => simp [extraQuoted, hb, hd] at h
    | choice j =>
      simp only [extraQuoted, List.append_assoc, List.append_cancel_left_eq] at h
      obtain ⟨hi, hx⟩ := hr.reads i j _ _ (he i rfl) (he' j rfl) h
      exact ⟨hi, List.append_cancel_left hx⟩
    | assoc b =>
      simp only [extraQuoted, List.append_assoc, List.append_cancel_left_eq] at h
      obtain ⟨t, ht⟩ := hr.opens i
      obtain ⟨u, hu⟩ := hq.opens (assocString b)
      simp [ht, hu] at h
  | assoc a =>
    cases e' with
    | nil => simp [extraQuoted, hb, hd] at h
    | choice j =>
      simp only [extraQuoted, List.append_assoc, List.append_cancel_left_eq] at h
      obtain ⟨t, ht⟩ := hr.opens j
      obtain ⟨u, hu⟩ := hq.opens (assocString a)
      simp [ht, hu] at h
    | assoc b =>
      simp only [extraQuoted, List.append_assoc, List.append_cancel_left_eq] at h
      obtain ⟨hi, hx⟩ := hq.reads _ _ _ _ h
      exact ⟨assocString_sign.1 hi, List.append_cancel_left hx⟩

/-- What a printed tree begins with. -/
theorem node_head {tag : Str} (ht : PlainTag tag) {e : Extra} (z : Str) : ∃ c r, tag ++ (extraQuoted quote quoteRune e ++ (str "[" ++ z)) = c :: r ∧ c ≠ 34 ∧ c ≠ 123 ∧ c ≠ 93 := by
  cases tag with
  | nil =>
    obtain ⟨c, r, h, hc⟩ := extra_head (quote := quote) (quoteRune := quoteRune) (e := e) z
    refine ⟨c, r, h, ?_⟩
    rcases hc with rfl | rfl <;> decide
  | cons c r => exact ⟨c, _, rfl, ht.2 c rfl⟩

theorem showq_node {tag : Str} (ht : PlainTag tag) {e : Extra} {cs : List Tree} {a : Str} (ha : (Tree.node tag e cs).quoted quote quoteRune = some a) :
    ∃ c r, a = c :: r ∧ c ≠ 34 ∧ c ≠ 123 ∧ c ≠ 93 := by
  simp only [Tree.quoted] at ha
  cases hb : quotedList quote quoteRune cs with
  | none => simp [hb] at ha
  | some b =>
    simp only [hb, Option.some.injEq] at ha
    obtain ⟨c, r, hcr, hc⟩ := node_head (quote := quote) (quoteRune := quoteRune) (e := e) ht (b ++ str "]")
    exact ⟨c, r, by rw [← ha, ← hcr]; simp, hc⟩

theorem showq_leaf (hq : Quoting quote) {s : Scanner} {a : Str} (ha : (Tree.leaf s).quoted quote quoteRune = some a) : ∃ r, a = 34 :: r := by
  simp only [Tree.quoted, Option.map_eq_some_iff] at ha
  obtain ⟨x, -, rfl⟩ := ha
  exact hq.opens x

theorem showq_empty {a : Str} (ha : Tree.empty.quoted quote quoteRune = some a) : a = [123, 125] := by
  simp only [Tree.quoted, Option.some.injEq] at ha
  exact ha.symm

theorem showq_head (hq : Quoting quote) {t : Tree} (ht : t.PlainTags n) {a : Str} (h : t.quoted quote quoteRune = some a) : ∃ c r, a = c :: r ∧ c ≠ 93 := by
  cases t with
  | node tag e cs =>
    obtain ⟨c, r, hcr, hc⟩ := showq_node ht.1 h
    exact ⟨c, r, hcr, hc.2.2⟩
  | leaf s =>
    obtain ⟨u, hu⟩ := showq_leaf hq h
    exact ⟨34, u, hu, by decide⟩
  | empty => exact ⟨123, [125], showq_empty h, by decide⟩
  | foreign k => simp [Tree.quoted] at h

theorem showq_node_leaf (hq : Quoting quote) {tag : Str} (ht : PlainTag tag) {e : Extra} {cs : List Tree} {s : Scanner} {a b x y : Str}
    (ha : (Tree.node tag e cs).quoted quote quoteRune = some a) (hb : (Tree.leaf s).quoted quote quoteRune = some b) (h : a ++ x = b ++ y) : False := by
  obtain ⟨c, r, rfl, hc⟩ := showq_node ht ha
  obtain ⟨u, rfl⟩ := showq_leaf hq hb
  exact hc.1 (List.cons.inj h).1

theorem showq_node_empty {tag : Str} (ht : PlainTag tag) {e : Extra} {cs : List Tree} {a b x y : Str}
    (ha : (Tree.node tag e cs).quoted quote quoteRune = some a) (hb : Tree.empty.quoted quote quoteRune = some b) (h : a ++ x = b ++ y) : False := by
  obtain ⟨c, r, rfl, hc⟩ := showq_node ht ha
  rw [showq_empty hb] at h
  exact hc.2.1 (List.cons.inj h).1

theorem showq_leaf_empty (hq : Quoting quote) {s : Scanner} {a b x y : Str}
    (ha : (Tree.leaf s).quoted quote quoteRune = some a) (hb : Tree.empty.quoted quote quoteRune = some b) (h : a ++ x = b ++ y) : False := by
  obtain ⟨u, rfl⟩ := showq_leaf hq ha
  rw [showq_empty hb] at h
  exact absurd (List.cons.inj h).1 (by decide)

theorem quotedList_nil (hq : Quoting quote) {u : Tree} {us : List Tree} {a b x y : Str} (hu : allPlainTags n (u :: us))
    (ha : quotedList quote quoteRune [] = some a) (hb : quotedList quote quoteRune (u :: us) = some b) (h : a ++ (str "]" ++ x) = b ++ (str "]" ++ y)) : False := by
  simp only [quotedList, Option.some.injEq] at ha hb
  subst ha
  split at hb
  · rename_i p q hp _
    cases hb
    obtain ⟨c, r, rfl, hc⟩ := showq_head hq hu.1 hp
    exact hc (List.cons.inj h).1.symm
  · cases hb

theorem quotedRest_nil {u : Tree} {us : List Tree} {a b x y : Str}
    (ha : quotedRest quote quoteRune [] = some a) (hb : quotedRest quote quoteRune (u :: us) = some b) (h : a ++ (str "]" ++ x) = b ++ (str "]" ++ y)) : False := by
  simp only [quotedRest, Option.some.injEq] at ha hb
  subst ha
  split at hb
  · cases hb
    exact absurd (List.cons.inj h).1 (by decide)
  · cases hb

mutual
theorem showq_reads (hq : Quoting quote) (hr : RuneQuoting n quoteRune) : ∀ (t u : Tree) {a b x y : Str}, t.PlainTags n → u.PlainTags n →
    t.quoted quote quoteRune = some a → u.quoted quote quoteRune = some b → a ++ x = b ++ y → t.SameTexts u ∧ x = y
  | .node tag e cs, .node tag' e' cs', a, b, x, y, ht, hu, ha, hb, h => by
    simp only [Tree.quoted] at ha hb
    cases hl : quotedList quote quoteRune cs with
    | none => simp [hl] at ha
    | some l =>
      cases hl' : quotedList quote quoteRune cs' with
      | none => simp [hl'] at hb
      | some l' =>
        simp only [hl, hl', Option.some.injEq] at ha hb
        subst ha hb
        simp only [List.append_assoc] at h
        obtain ⟨c, r, h1, hc⟩ := extra_head (quote := quote) (quoteRune := quoteRune) (e := e) (l ++ (str "]" ++ x))
        obtain ⟨c', r', h1', hc'⟩ := extra_head (quote := quote) (quoteRune := quoteRune) (e := e') (l' ++ (str "]" ++ y))
        rw [h1, h1'] at h
        obtain ⟨htag, hrest⟩ := split_stop (P := fun c => c = 91 ∨ c = 0xe2) (fun d hd h => h.elim (ht.1.1 d hd).1 (ht.1.1 d hd).2)
          (fun d hd h => h.elim (hu.1.1 d hd).1 (hu.1.1 d hd).2) hc hc' h
        rw [← h1, ← h1'] at hrest
        obtain ⟨he, hz⟩ := extra_reads hq hr ht.2.1 hu.2.1 hrest
        obtain ⟨hs, hxy⟩ := quotedList_reads hq hr cs cs' ht.2.2 hu.2.2 hl hl' hz
        exact ⟨⟨htag, he, hs⟩, hxy⟩
  | .leaf s, .leaf s', a, b, x, y, _, _, ha, hb, h => by
    simp only [Tree.quoted, Option.map_eq_some_iff] at ha hb
    obtain ⟨p, hp, rfl⟩ := ha
    obtain ⟨q, hq', rfl⟩ := hb
    obtain ⟨hpq, hxy⟩ := hq.reads _ _ _ _ h
    exact ⟨by simp only [Tree.SameTexts]; rw [hp, hq', hpq], hxy⟩
  | .empty, .empty, a, b, x, y, _, _, ha, hb, h => by
    simp only [Tree.quoted, Option.some.injEq] at ha hb
    subst ha hb
    exact ⟨trivial, List.append_cancel_left h⟩
  | .node tag e cs, .leaf s, a, b, x, y, ht, _, ha, hb, h => (showq_node_leaf hq ht.1 ha hb h).elim
  | .leaf s, .node tag e cs, a, b, x, y, _, hu, ha, hb, h => (showq_node_leaf hq hu.1 hb ha h.symm).elim
  | .node tag e cs, .empty, a, b, x, y, ht, _, ha, hb, h => (showq_node_empty ht.1 ha hb h).elim
  | .empty, .node tag e cs, a, b, x, y, _, hu, ha, hb, h => (showq_node_empty hu.1 hb ha h.symm).elim
  | .leaf s, .empty, a, b, x, y, _, _, ha, hb, h => (showq_leaf_empty hq ha hb h).elim
  | .empty, .leaf s, a, b, x, y, _, _, ha, hb, h => (showq_leaf_empty hq hb ha h.symm).elim
  | .foreign _, _, _, _, _, _, _, _, ha, _, _ => by simp [Tree.quoted] at ha
  | .node _ _ _, .foreign _, _, _, _, _, _, _, _, hb, _ => by simp [Tree.quoted] at hb
  | .leaf _, .foreign _, _, _, _, _, _, _, _, hb, _ => by simp [Tree.quoted] at hb
  | .empty, .foreign _, _, _, _, _, _, _, _, hb, _ => by simp [Tree.quoted] at hb
theorem quotedList_reads (hq : Quoting quote) (hr : RuneQuoting n quoteRune) : ∀ (ts us : List Tree) {a b x y : Str}, allPlainTags n ts → allPlainTags n us →
    quotedList quote quoteRune ts = some a → quotedList quote quoteRune us = some b → a ++ (str "]" ++ x) = b ++ (str "]" ++ y) → sameTextsAll ts us ∧ x = y
  | [], [], a, b, x, y, _, _, ha, hb, h => by
    simp only [quotedList, Option.some.injEq] at ha hb
    subst ha hb
    exact ⟨trivial, List.append_cancel_left h⟩
  | [], u :: us, a, b, x, y, _, hu, ha, hb, h => (quotedList_nil hq hu ha hb h).elim
  | t :: ts, [], a, b, x, y, ht, _, ha, hb, h => (quotedList_nil hq ht hb ha h.symm).elim
  | t :: ts, u :: us, a, b, x, y, ht, hu, ha, hb, h => by
    simp only [quotedList] at ha hb
    split at ha
    · rename_i p q hp hq1
      split at hb
      · rename_i p' q' hp' hq1'
        cases ha; cases hb
        simp only [List.append_assoc] at h
        obtain ⟨h1, h2⟩ := showq_reads hq hr t u ht.1 hu.1 hp hp' h
        obtain ⟨h3, h4⟩ := quotedRest_reads hq hr ts us ht.2 hu.2 hq1 hq1' h2
        exact ⟨⟨h1, h3⟩, h4⟩
      · cases hb
    · cases ha
theorem quotedRest_reads (hq : Quoting quote) (hr : RuneQuoting n quoteRune) : ∀ (ts us : List Tree) {a b x y : Str}, allPlainTags n ts → allPlainTags n us →
    quotedRest quote quoteRune ts = some a → quotedRest quote quoteRune us = some b → a ++ (str "]" ++ x) = b ++ (str "]" ++ y) → sameTextsAll ts us ∧ x = y
  | [], [], a, b, x, y, _, _, ha, hb, h => by
    simp only [quotedRest, Option.some.injEq] at ha hb
    subst ha hb
    exact ⟨trivial, List.append_cancel_left h⟩
  | [], u :: us, a, b, x, y, _, _, ha, hb, h => (quotedRest_nil ha hb h).elim
  | t :: ts, [], a, b, x, y, _, _, ha, hb, h => (quotedRest_nil hb ha h.symm).elim
  | t :: ts, u :: us, a, b, x, y, ht, hu, ha, hb, h => by
    simp only [quotedRest] at ha hb
    split at ha
    · rename_i p q hp hq1
      split at hb
      · rename_i p' q' hp' hq1'
        cases ha; cases hb
        simp only [List.append_assoc, List.append_cancel_left_eq] at h
        obtain ⟨h1, h2⟩ := showq_reads hq hr t u ht.1 hu.1 hp hp' h
        obtain ⟨h3, h4⟩ := quotedRest_reads hq hr ts us ht.2 hu.2 hq1 hq1' h2
        exact ⟨⟨h1, h3⟩, h4⟩
      · cases hb
    · cases ha
end

theorem extraQuoted_same {e e' : Extra} (h : e.Same e') : extraQuoted quote quoteRune e = extraQuoted quote quoteRune e' := by
  cases e <;> cases e' <;> simp only [Extra.Same] at h
  · rfl
  · rw [h]
  · rw [extraQuoted, extraQuoted, assocString_sign.2 h]

mutual
theorem showq_same : ∀ (t u : Tree), t.SameTexts u → t.quoted quote quoteRune = u.quoted quote quoteRune
  | .node tag e cs, .node tag' e' cs', h => by
    rw [Tree.quoted, Tree.quoted, quotedList_same cs cs' h.2.2, extraQuoted_same h.2.1, h.1]
  | .leaf s, .leaf s', h => by
    simp only [Tree.SameTexts] at h
    rw [Tree.quoted, Tree.quoted, h]
  | .empty, .empty, _ => rfl
  | .foreign _, .foreign _, _ => rfl
  | .node _ _ _, .leaf _, h => h.elim
  | .node _ _ _, .empty, h => h.elim
  | .node _ _ _, .foreign _, h => h.elim
  | .leaf _, .node _ _ _, h => h.elim
  | .leaf _, .empty, h => h.elim
  | .leaf _, .foreign _, h => h.elim
  | .empty, .node _ _ _, h => h.elim
  | .empty, .leaf _, h => h.elim
  | .empty, .foreign _, h => h.elim
  | .foreign _, .node _ _ _, h => h.elim
  | .foreign _, .leaf _, h => h.elim
  | .foreign _, .empty, h => h.elim
theorem quotedList_same : ∀ (ts us : List Tree), sameTextsAll ts us → quotedList quote quoteRune ts = quotedList quote quoteRune us
  | [], [], _ => rfl
  | t :: ts, u :: us, h => by rw [quotedList, quotedList, showq_same t u h.1, quotedRest_same ts us h.2]
  | [], _ :: _, h => h.elim
  | _ :: _, [], h => h.elim
theorem quotedRest_same : ∀ (ts us : List Tree), sameTextsAll ts us → quotedRest quote quoteRune ts = quotedRest quote quoteRune us
  | [], [], _ => rfl
  | t :: ts, u :: us, h => by rw [quotedRest, quotedRest, showq_same t u h.1, quotedRest_same ts us h.2]
  | [], _ :: _, h => h.elim
  | _ :: _, [], h => h.elim
end

end Wbnf

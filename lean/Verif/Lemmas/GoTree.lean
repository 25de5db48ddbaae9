import Verif.Spec.GoTree

/-!
# Lemmas about printed trees
-/

namespace Wbnf

/-! ## Slices -/

def FlagHeap.Fine (h : FlagHeap) (s : Flags) : Prop := s.arr < h.length ∧ s.len ≤ (h.getD s.arr []).length

/-- `h'` differs from `h` only in new arrays and in what is after the elements of `s`. -/
def FlagHeap.Kept (h h' : FlagHeap) (s : Flags) : Prop :=
  h.length ≤ h'.length ∧
  (∀ a, a < h.length → (h'.getD a []).length = (h.getD a []).length) ∧
  (∀ a, a < h.length → a ≠ s.arr → h'.getD a [] = h.getD a []) ∧
  (h'.getD s.arr []).take s.len = (h.getD s.arr []).take s.len

theorem FlagHeap.Kept.refl (h : FlagHeap) (s : Flags) : h.Kept h s := ⟨Nat.le_refl _, fun _ _ => rfl, fun _ _ _ => rfl, rfl⟩

theorem FlagHeap.Kept.trans {h1 h2 h3 : FlagHeap} {s : Flags} (a : h1.Kept h2 s) (b : h2.Kept h3 s) : h1.Kept h3 s := by
  refine ⟨Nat.le_trans a.1 b.1, fun i hi => ?_, fun i hi hn => ?_, b.2.2.2.trans a.2.2.2⟩
  · rw [b.2.1 i (Nat.lt_of_lt_of_le hi a.1), a.2.1 i hi]
  · rw [b.2.2.1 i (Nat.lt_of_lt_of_le hi a.1) hn, a.2.2.1 i hi hn]

theorem FlagHeap.Kept.fine {h h' : FlagHeap} {s : Flags} (a : h.Kept h' s) (f : h.Fine s) : h'.Fine s :=
  ⟨Nat.lt_of_lt_of_le f.1 a.1, by rw [a.2.1 _ f.1]; exact f.2⟩

theorem FlagHeap.Kept.read {h h' : FlagHeap} {s : Flags} (a : h.Kept h' s) : h'.read s = h.read s := a.2.2.2

/-- Appending gives a slice with one more element, and leaves the old slice. -/
theorem FlagHeap.append_spec (room : Nat → Nat) {h : FlagHeap} {s : Flags} (x : Bool) (f : h.Fine s) :
    (h.append room s x).1.read (h.append room s x).2 = h.read s ++ [x] ∧
    (h.append room s x).1.Fine (h.append room s x).2 ∧
    ∀ h', (h.append room s x).1.Kept h' (h.append room s x).2 → h.Kept h' s := by
  obtain ⟨arr, len⟩ := s
  obtain ⟨f1, f2⟩ := f
  simp only at f1 f2
  unfold FlagHeap.append FlagHeap.read FlagHeap.Fine
  by_cases hl : len < (h.getD arr []).length
  · simp only [hl, if_true]
    have e : (h.set arr ((h.getD arr []).set len x)).getD arr [] = (h.getD arr []).set len x := by
      rw [List.getD_eq_getElem?_getD, List.getElem?_set_self f1]; rfl
    refine ⟨?_, ⟨by simpa using f1, by rw [e, List.length_set]; omega⟩, ?_⟩
    · rw [e]
      generalize h.getD arr [] = a at hl ⊢
      rw [List.take_set]
      apply List.ext_getElem?
      intro i
      by_cases hi : i = len
      · subst hi
        rw [List.getElem?_set_self (by simp; omega), List.getElem?_append_right (by simp; omega)]
        simp [Nat.min_eq_left (Nat.le_of_lt hl)]
      · rw [List.getElem?_set_ne (Ne.symm hi)]
        rcases Nat.lt_or_ge i len with h1 | h1
        · rw [List.getElem?_append_left (by simp; omega)]
          simp [h1, Nat.lt_succ_of_lt h1]
        · rw [List.getElem?_eq_none (by simp; omega), List.getElem?_eq_none (by simp; omega)]
    · intro h' k
      obtain ⟨k1, k2, k3, k4⟩ := k
      simp only [List.length_set] at k1 k2 k3
      refine ⟨k1, fun a ha => ?_, fun a ha hn => ?_, ?_⟩
      · rw [k2 a ha]
        by_cases hn : a = arr
        · subst hn; rw [e, List.length_set]
        · rw [List.getD_eq_getElem?_getD, List.getElem?_set_ne (Ne.symm hn), List.getD_eq_getElem?_getD]
      · rw [k3 a ha hn, List.getD_eq_getElem?_getD, List.getElem?_set_ne (Ne.symm hn), List.getD_eq_getElem?_getD]
      · rw [e] at k4
        have := congrArg (List.take len) k4
        simp only [List.take_take, Nat.min_eq_left (Nat.le_succ len)] at this
        rw [this, List.take_set_of_le (Nat.le_refl _)]
  · simp only [hl, if_false]
    have e : ∀ l : List Bool, (h ++ [l]).getD h.length [] = l := by
      intro l; simp [List.getD_eq_getElem?_getD]
    have e' : ∀ (l : List Bool) a, a < h.length → (h ++ [l]).getD a [] = h.getD a [] := by
      intro l a ha; simp only [List.getD_eq_getElem?_getD, List.getElem?_append_left ha]
    have hlen : (h.getD arr []).length = len := by omega
    refine ⟨?_, ⟨by simp, by rw [e, List.length_append, List.length_take, hlen]; simp⟩, ?_⟩
    · rw [e]
      generalize h.getD arr [] = a at hlen ⊢
      subst hlen
      rw [List.take_of_length_le (Nat.le_refl a.length), List.take_append]
      simp [List.take_of_length_le (Nat.le_succ a.length)]
    · intro h' k
      obtain ⟨k1, k2, k3, k4⟩ := k
      simp only [List.length_append, List.length_singleton] at k1 k2 k3
      refine ⟨by omega, fun a ha => ?_, fun a ha hn => ?_, ?_⟩
      · rw [k2 a (by omega), e' _ a ha]
      · rw [k3 a (by omega) (by omega), e' _ a ha]
      · rw [k3 arr (by omega) (by omega), e' _ arr f1]

/-! ## Printing without slices -/

mutual
def textItem (path : List Bool) (last : Bool) : GTree → Str
  | .mk text items => printText text path last ++ textItems (path ++ [last]) items
def textItems (path : List Bool) : List GTree → Str
  | [] => []
  | f :: rest => textItem path rest.isEmpty f ++ textItems path rest
end

mutual
theorem printItem_eq (room : Nat → Nat) : ∀ (t : GTree) (h : FlagHeap) (s : Flags) (last : Bool), h.Fine s →
    (printItem room h s last t).2 = textItem (h.read s) last t ∧ h.Kept (printItem room h s last t).1 s
  | .mk text [], h, s, last, _ => by
    simp [printItem, textItem, textItems, FlagHeap.Kept.refl]
  | .mk text (k :: ks), h, s, last, f => by
    obtain ⟨a1, a2, a3⟩ := FlagHeap.append_spec room last f
    have ih := printItems_eq room (k :: ks) (h.append room s last).1 (h.append room s last).2 a2
    refine ⟨?_, ?_⟩
    · simp only [printItem, textItem]
      rw [ih.1, a1]
    · simp only [printItem]
      exact a3 _ ih.2
theorem printItems_eq (room : Nat → Nat) : ∀ (ts : List GTree) (h : FlagHeap) (s : Flags), h.Fine s →
    (printItems room h s ts).2 = textItems (h.read s) ts ∧ h.Kept (printItems room h s ts).1 s
  | [], h, s, _ => by simp [printItems, textItems, FlagHeap.Kept.refl]
  | t :: ts, h, s, f => by
    have h1 := printItem_eq room t h s ts.isEmpty f
    have h2 := printItems_eq room ts (printItem room h s ts.isEmpty t).1 s (h1.2.fine f)
    refine ⟨?_, ?_⟩
    · simp only [printItems, textItems]
      rw [h1.1, h2.1, h1.2.read]
    · simp only [printItems]
      exact h1.2.trans h2.2
end

theorem print_eq (room : Nat → Nat) (t : GTree) : t.print room = t.text ++ [10] ++ textItems [] t.items := by
  unfold GTree.print
  rw [(printItems_eq room t.items [[]] ⟨0, 0⟩ ⟨by simp, by simp⟩).1]
  rfl

/-! ## Lines -/

theorem rail_eq (b : Bool) : rail b = if b then emptySpace else continueItem := by cases b <;> decide +kernel
theorem branch_eq (b : Bool) : branch b = if b then lastItem else middleItem := by cases b <;> decide +kernel

theorem spacesText_eq (p : List Bool) : spacesText p = p.flatMap rail := by
  induction p with
  | nil => rfl
  | cons b p ih => simp [spacesText, ih, rail_eq]

theorem splitLines_spec (s : Str) : ∃ l ls, splitLines s = l :: ls ∧ LinesOf s (l :: ls) := by
  induction s with
  | nil => exact ⟨[], [], rfl, by simp [OneLine], by simp [unlines]⟩
  | cons c s ih =>
    obtain ⟨l, ls, e, h1, h2⟩ := ih
    by_cases hc : c = 10
    · subst hc
      refine ⟨[], l :: ls, by simp [splitLines, e], ?_, ?_⟩
      · intro x hx
        rcases List.mem_cons.mp hx with rfl | hx
        · simp [OneLine]
        · exact h1 x hx
      · simp [unlines] at h2 ⊢; exact h2
    · refine ⟨c :: l, ls, by simp [splitLines, e, hc], ?_, ?_⟩
      · intro x hx
        rcases List.mem_cons.mp hx with rfl | hx
        · have := h1 l (by simp)
          simp only [OneLine, List.mem_cons] at this ⊢
          rintro (h | h)
          · exact hc h.symm
          · exact this h
        · exact h1 x (List.mem_cons_of_mem _ hx)
      · simp [unlines] at h2 ⊢; exact h2

theorem moreLines_eq (p : List Bool) (last : Bool) (ls : List Str) :
    moreLines (p.flatMap rail) last ls = unlines (ls.map ((p ++ [last]).flatMap rail ++ ·)) := by
  induction ls with
  | nil => rfl
  | cons l ls ih =>
    simp only [moreLines, List.map_cons, unlines, ih, newLine, List.flatMap_append, List.flatMap_cons, List.flatMap_nil,
      List.append_nil, rail_eq last]

theorem printText_block (text : Str) (p : List Bool) (last : Bool) :
    ∃ l ls, LinesOf text (l :: ls) ∧ printText text p last = unlines (block (p ++ [last]) l ls) := by
  obtain ⟨l, ls, e, h⟩ := splitLines_spec text
  refine ⟨l, ls, h, ?_⟩
  simp only [printText, e, spacesText_eq, moreLines_eq, block, List.getLast?_append, List.getLast?_singleton,
    Option.some_or, List.dropLast_concat, unlines, branch_eq, newLine]

theorem Shows.append {r1 r2 : List Row} {o1 o2 : Str} (h1 : Shows r1 o1) (h2 : Shows r2 o2) :
    Shows (r1 ++ r2) (o1 ++ o2) := by
  induction h1 with
  | nil => exact h2
  | cons hl _ ih => rw [List.append_assoc]; exact .cons hl ih

mutual
theorem textItem_shows : ∀ (t : GTree) (p : List Bool) (last : Bool),
    Shows (t.rows (p ++ [last])) (textItem p last t)
  | .mk text items, p, last => by
    obtain ⟨l, ls, h, e⟩ := printText_block text p last
    simp only [GTree.rows, textItem, e]
    exact .cons h (textItems_shows items (p ++ [last]))
theorem textItems_shows : ∀ (ts : List GTree) (p : List Bool), Shows (rowsOf p ts) (textItems p ts)
  | [], p => .nil
  | [t], p => by
    have := textItem_shows t p true
    simp only [rowsOf, textItems, List.isEmpty_nil, List.append_nil]
    exact this
  | t :: t' :: ts, p => by
    have h1 := textItem_shows t p false
    have h2 := textItems_shows (t' :: ts) p
    rw [rowsOf, textItems, List.isEmpty_cons]
    · exact h1.append h2
    · simp
end

/-! ## Reading back -/

theorem unlines_append (a b : List Str) : unlines (a ++ b) = unlines a ++ unlines b := by
  induction a with
  | nil => rfl
  | cons l ls ih => simp [unlines, ih]

/-- Where the first line ends is determined. -/
theorem first_line {a b c d : Str} (ha : OneLine a) (hb : OneLine b) (h : a ++ [10] ++ c = b ++ [10] ++ d) :
    a = b ∧ c = d := by
  induction a generalizing b with
  | nil =>
    cases b with
    | nil => simpa using h
    | cons x b => simp at h; simp [OneLine, ← h.1] at hb
  | cons x a ih =>
    cases b with
    | nil => simp at h; simp [OneLine, h.1] at ha
    | cons y b =>
      simp only [List.cons_append, List.cons.injEq] at h
      simp only [OneLine, List.mem_cons, not_or] at ha hb
      obtain ⟨e, e'⟩ := ih ha.2 hb.2 h.2
      exact ⟨by rw [h.1, e], e'⟩

theorem unlines_inj {a b : List Str} (ha : ∀ l ∈ a, OneLine l) (hb : ∀ l ∈ b, OneLine l) (h : unlines a = unlines b) :
    a = b := by
  induction a generalizing b with
  | nil => cases b with
    | nil => rfl
    | cons l ls => simp [unlines] at h
  | cons l ls ih => cases b with
    | nil => simp [unlines] at h
    | cons l' ls' =>
      obtain ⟨e, e'⟩ := first_line (ha l (by simp)) (hb l' (by simp)) h
      rw [e, ih (fun x hx => ha x (by simp [hx])) (fun x hx => hb x (by simp [hx])) e']

theorem LinesOf.det {s : Str} {a b : List Str} (h1 : LinesOf s a) (h2 : LinesOf s b) : a = b :=
  unlines_inj h1.1 h2.1 (h1.2.symm.trans h2.2)

theorem LinesOf.single {s : Str} (h : OneLine s) : LinesOf s [s] := ⟨by simpa using h, by simp [unlines]⟩

/-- The line of a node. -/
def rowLine : List Bool → Str → Str
  | [], label => label
  | [b], label => branch b ++ label
  | b :: b' :: p, label => rail b ++ rowLine (b' :: p) label

theorem block_rowLine (p : List Bool) (l : Str) : block p l [] = [rowLine p l] := by
  induction p with
  | nil => rfl
  | cons b p ih => cases p with
    | nil => simp [block, rowLine]
    | cons b' p =>
      simp only [block, List.getLast?_cons_cons, List.dropLast_cons_cons, List.flatMap_cons, List.map_nil] at ih ⊢
      cases hg : (b' :: p).getLast? with
      | none => simp at hg
      | some x =>
        rw [hg] at ih
        simp only [List.cons.injEq, and_true] at ih
        simp [rowLine, ← ih]

theorem rowLine_oneLine {p : List Bool} {l : Str} (h : OneLine l) : OneLine (rowLine p l) := by
  induction p with
  | nil => exact h
  | cons b p ih => cases p with
    | nil =>
      simp only [rowLine, OneLine, List.mem_append, not_or, branch_eq]
      refine ⟨?_, h⟩
      cases b <;> decide
    | cons b' p =>
      rw [rowLine]
      simp only [OneLine, List.mem_append, not_or, rail_eq] at ih ⊢
      refine ⟨?_, ih⟩
      cases b <;> decide

/-- Where the node hangs and its label can be told from its line. -/
theorem rowLine_inj : ∀ {p q : List Bool} {l m : Str}, p ≠ [] → q ≠ [] → rowLine p l = rowLine q m → p = q ∧ l = m
  | [], _, _, _, h, _, _ => absurd rfl h
  | _, [], _, _, _, h, _ => absurd rfl h
  | [b], [c], l, m, _, _, h => by
    simp only [rowLine, branch_eq] at h
    cases b <;> cases c <;> simp [lastItem, middleItem] at h ⊢ <;> exact h
  | [b], c :: c' :: q, l, m, _, _, h => by
    simp only [rowLine, branch_eq, rail_eq] at h
    cases b <;> cases c <;> simp [lastItem, middleItem, emptySpace, continueItem] at h
  | b :: b' :: p, [c], l, m, _, _, h => by
    simp only [rowLine, branch_eq, rail_eq] at h
    cases b <;> cases c <;> simp [lastItem, middleItem, emptySpace, continueItem] at h
  | b :: b' :: p, c :: c' :: q, l, m, _, _, h => by
    simp only [rowLine] at h
    have e : b = c ∧ rowLine (b' :: p) l = rowLine (c' :: q) m := by
      simp only [rail_eq] at h
      cases b <;> cases c <;> simp [emptySpace, continueItem] at h ⊢ <;> exact h
    obtain ⟨e1, e2⟩ := rowLine_inj (by simp) (by simp) e.2
    exact ⟨by rw [e.1, e1], e2⟩

/-- Text in blocks of one line each. -/
theorem Shows.lines {rows : List Row} {out : Str} (h : Shows rows out) (ho : ∀ r ∈ rows, OneLine r.2) :
    out = unlines (rows.map (fun r => rowLine r.1 r.2)) := by
  induction h with
  | nil => rfl
  | @cons path label l ls rows out hl _ ih =>
    have e := hl.det (LinesOf.single (ho (path, label) (by simp)))
    simp only [List.cons.injEq] at e
    obtain ⟨rfl, rfl⟩ := e
    rw [block_rowLine, ih (fun r hr => ho r (by simp [hr]))]
    simp [unlines]

theorem rows_inj_map {a b : List Row} (ha : ∀ r ∈ a, r.1 ≠ []) (hb : ∀ r ∈ b, r.1 ≠ [])
    (h : a.map (fun r => rowLine r.1 r.2) = b.map (fun r => rowLine r.1 r.2)) : a = b := by
  induction a generalizing b with
  | nil => cases b with
    | nil => rfl
    | cons => simp at h
  | cons r a ih => cases b with
    | nil => simp at h
    | cons r' b =>
      simp only [List.map_cons, List.cons.injEq] at h
      obtain ⟨e1, e2⟩ := rowLine_inj (ha r (by simp)) (hb r' (by simp)) h.1
      rw [ih (fun x hx => ha x (by simp [hx])) (fun x hx => hb x (by simp [hx])) h.2, Prod.ext e1 e2]

theorem rowsOf_cons2 (p : List Bool) (t t' : GTree) (ts : List GTree) :
    rowsOf p (t :: t' :: ts) = t.rows (p ++ [false]) ++ rowsOf p (t' :: ts) := by rw [rowsOf]; simp

mutual
theorem rows_long : ∀ (t : GTree) (p : List Bool), ∀ r ∈ t.rows p, p.length ≤ r.1.length
  | .mk l ks, p, r, h => by
    simp only [GTree.rows, List.mem_cons] at h
    rcases h with rfl | h
    · exact Nat.le_refl _
    · exact Nat.le_of_lt (rowsOf_long ks p r h)
theorem rowsOf_long : ∀ (ts : List GTree) (p : List Bool), ∀ r ∈ rowsOf p ts, p.length < r.1.length
  | [], p, r, h => by simp [rowsOf] at h
  | [t], p, r, h => by
    have := rows_long t (p ++ [true]) r (by simpa [rowsOf] using h)
    rw [List.length_append] at this
    exact this
  | t :: t' :: ts, p, r, h => by
    rw [rowsOf, List.mem_append] at h
    · rcases h with h | h
      · have := rows_long t (p ++ [false]) r h
        rw [List.length_append] at this
        exact this
      · exact rowsOf_long (t' :: ts) p r h
    · simp
end

/-- Where a list stops satisfying a condition is determined. -/
theorem split_unique {α : Type} {q : α → Prop} : ∀ {a b c d : List α}, (∀ x ∈ a, q x) → (∀ x ∈ b, q x) →
    (∀ x, c.head? = some x → ¬ q x) → (∀ x, d.head? = some x → ¬ q x) → a ++ c = b ++ d → a = b ∧ c = d
  | [], [], c, d, _, _, _, _, h => ⟨rfl, by simpa using h⟩
  | [], y :: b, c, d, _, hb, hc, _, h => by
    simp only [List.nil_append, List.cons_append] at h
    exact absurd (hb y (by simp)) (hc y (by simp [h]))
  | x :: a, [], c, d, ha, _, _, hd, h => by
    simp only [List.nil_append, List.cons_append] at h
    exact absurd (ha x (by simp)) (hd x (by simp [← h]))
  | x :: a, y :: b, c, d, ha, hb, hc, hd, h => by
    simp only [List.cons_append, List.cons.injEq] at h
    obtain ⟨e1, e2⟩ := split_unique (fun z hz => ha z (by simp [hz])) (fun z hz => hb z (by simp [hz])) hc hd h.2
    exact ⟨by rw [h.1, e1], e2⟩

theorem rowsOf_head : ∀ {ts : List GTree} {p : List Bool} {r : Row}, (rowsOf p ts).head? = some r →
    r.1.length = p.length + 1
  | [], _, _, h => by simp [rowsOf] at h
  | [.mk l ks], p, r, h => by simp [rowsOf, GTree.rows] at h; simp [← h]
  | .mk l ks :: t' :: ts, p, r, h => by
    rw [rowsOf] at h
    · simp [GTree.rows] at h; simp [← h]
    · simp

mutual
theorem rows_inj : ∀ (t u : GTree) (p : List Bool), t.rows p = u.rows p → t = u
  | .mk l ks, .mk m js, p, h => by
    simp only [GTree.rows, List.cons.injEq, Prod.mk.injEq, true_and] at h
    rw [h.1, rowsOf_inj ks js p h.2]
theorem rowsOf_inj : ∀ (ts us : List GTree) (p : List Bool), rowsOf p ts = rowsOf p us → ts = us
  | [], [], _, _ => rfl
  | [], [.mk l ks], p, h => by simp [rowsOf, GTree.rows] at h
  | [], .mk l ks :: u' :: us, p, h => by
    rw [rowsOf, rowsOf] at h
    · simp [GTree.rows] at h
    · simp
  | [.mk l ks], [], p, h => by simp [rowsOf, GTree.rows] at h
  | .mk l ks :: t' :: ts, [], p, h => by
    rw [rowsOf, rowsOf] at h
    · simp [GTree.rows] at h
    · simp
  | [t], [u], p, h => by
    simp only [rowsOf] at h
    rw [rows_inj t u _ h]
  | [.mk l ks], .mk m js :: u' :: us, p, h => by
    rw [rowsOf, rowsOf] at h
    · simp [GTree.rows] at h
    · simp
  | .mk l ks :: t' :: ts, [.mk m js], p, h => by
    rw [rowsOf, rowsOf] at h
    · simp [GTree.rows] at h
    · simp
  | .mk l ks :: t' :: ts, .mk m js :: u' :: us, p, h => by
    rw [rowsOf_cons2, rowsOf_cons2] at h
    · simp only [GTree.rows, List.cons_append, List.cons.injEq, Prod.mk.injEq, true_and] at h
      obtain ⟨e1, e2⟩ := split_unique (q := fun r : Row => p.length + 1 < r.1.length)
        (fun r hr => by simpa using rowsOf_long ks _ r hr) (fun r hr => by simpa using rowsOf_long js _ r hr)
        (fun r hr => by rw [rowsOf_head hr]; omega) (fun r hr => by rw [rowsOf_head hr]; omega) h.2
      rw [h.1, rowsOf_inj ks js _ e1, rowsOf_inj (t' :: ts) (u' :: us) p e2]
end

mutual
theorem rows_oneLine : ∀ (t : GTree) (p : List Bool), t.OneLined → ∀ r ∈ t.rows p, OneLine r.2
  | .mk l ks, p, h, r, hr => by
    simp only [GTree.rows, List.mem_cons] at hr
    rw [GTree.OneLined] at h
    rcases hr with rfl | hr
    · exact h.1
    · exact rowsOf_oneLine ks p h.2 r hr
theorem rowsOf_oneLine : ∀ (ts : List GTree) (p : List Bool), oneLinedAll ts → ∀ r ∈ rowsOf p ts, OneLine r.2
  | [], p, _, r, hr => by simp [rowsOf] at hr
  | [t], p, h, r, hr => by
    rw [oneLinedAll] at h
    exact rows_oneLine t _ h.1 r (by simpa [rowsOf] using hr)
  | t :: t' :: ts, p, h, r, hr => by
    rw [oneLinedAll] at h
    rw [rowsOf, List.mem_append] at hr
    · rcases hr with hr | hr
      · exact rows_oneLine t _ h.1 r hr
      · exact rowsOf_oneLine (t' :: ts) p h.2 r hr
    · simp
end

mutual
theorem rows_length : ∀ (t : GTree) (p : List Bool), (t.rows p).length = t.size
  | .mk l ks, p => by simp [GTree.rows, GTree.size, rowsOf_length ks p, Nat.add_comm]
theorem rowsOf_length : ∀ (ts : List GTree) (p : List Bool), (rowsOf p ts).length = sizeOf' ts
  | [], p => rfl
  | [t], p => by simp [rowsOf, sizeOf', rows_length t]
  | t :: t' :: ts, p => by
    rw [rowsOf, sizeOf', List.length_append, rows_length t, rowsOf_length (t' :: ts)]
    simp
end

end Wbnf

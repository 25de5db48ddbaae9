import Verif.Spec.Diff

/-!
# Lemmas about differences
-/

namespace Wbnf

/-! ## Trees -/

theorem nodeDiff_equal {tag tag' : Str} {e e' : Extra} {cs cs' : List Tree} {d : NodeDiff}
    (h : nodeDiff (.node tag e cs) (.node tag' e' cs') = some d) :
    ∃ ds, nodeDiffs 0 cs cs' = some ds ∧ d = .mk (tag, tag') (e, e') (cs.length, cs'.length) ds [] := by
  rw [nodeDiff] at h
  cases hd : nodeDiffs 0 cs cs' with
  | none => simp [hd] at h
  | some ds => simp only [hd, Option.some.injEq] at h; exact ⟨ds, rfl, h.symm⟩

mutual
theorem covers_iff : ∀ (x y : Tree), x.isNode = true → ((∃ d, nodeDiff x y = some d ∧ d.equal = true) ↔ x.Covers y)
  | .node tag e cs, .node tag' e' cs', _ => by
    have ih := coversAll_iff cs cs' 0
    rw [Tree.Covers, ← ih]
    constructor
    · rintro ⟨d, h, he⟩
      obtain ⟨ds, h1, rfl⟩ := nodeDiff_equal h
      simp only [NodeDiff.equal, Bool.and_eq_true, beq_iff_eq, decide_eq_true_eq, List.isEmpty_iff] at he
      obtain ⟨⟨⟨⟨e1, e2⟩, e3⟩, e4⟩, -⟩ := he
      exact ⟨e2, e3, by rw [h1, e4], e1⟩
    · rintro ⟨rfl, rfl, h, hl⟩
      refine ⟨.mk (tag, tag) (e, e) (cs.length, cs'.length) [] [], by rw [nodeDiff, h], ?_⟩
      simp [NodeDiff.equal, hl]
  | .node _ _ _, .leaf _, _ => by simp [nodeDiff, Tree.Covers]
  | .node _ _ _, .empty, _ => by simp [nodeDiff, Tree.Covers]
  | .node _ _ _, .foreign _, _ => by simp [nodeDiff, Tree.Covers]
  | .leaf _, _, h => by simp [Tree.isNode] at h
  | .empty, _, h => by simp [Tree.isNode] at h
  | .foreign _, _, h => by simp [Tree.isNode] at h
theorem coversAll_iff : ∀ (xs ys : List Tree) (i : Nat),
    (nodeDiffs i xs ys = some [] ∧ xs.length = ys.length) ↔ coversAll xs ys
  | [], [], _ => by simp [nodeDiffs, coversAll]
  | [], _ :: _, _ => by simp [nodeDiffs, coversAll]
  | _ :: _, [], _ => by simp [nodeDiffs, coversAll]
  | x :: xs, y :: ys, i => by
    have ih := coversAll_iff xs ys (i + 1)
    rw [coversAll, ← ih, nodeDiffs]
    by_cases hx : x.isNode = true
    · have ihx := covers_iff x y hx
      rw [← ihx]
      cases hs : nodeDiffs (i + 1) xs ys with
      | none => simp
      | some ds =>
        simp only [hx, if_true]
        cases hd : nodeDiff x y with
        | none => simp
        | some d => cases he : d.equal <;> simp [he]
    · have hc : x.Covers y := by
        cases x <;> simp_all [Tree.isNode, Tree.Covers]
      cases hs : nodeDiffs (i + 1) xs ys with
      | none => simp
      | some ds => simp [hx, hc]
end

mutual
theorem clash_iff : ∀ (x y : Tree), x.isNode = true → y.isNode = true → (nodeDiff x y = none ↔ Clash x y)
  | .node tag e cs, .node tag' e' cs', _, _ => by
    have ih := clashes_iff cs cs' 0
    have : nodeDiff (.node tag e cs) (.node tag' e' cs') = none ↔ nodeDiffs 0 cs cs' = none := by
      rw [nodeDiff]
      cases nodeDiffs 0 cs cs' <;> simp
    rw [this, ih]
    constructor
    · rintro ⟨i, x, y, h1, h2, ⟨h3, h4⟩ | h⟩
      · exact .here h1 h2 h3 h4
      · exact .inside h1 h2 h
    · intro h
      generalize ha : Tree.node tag e cs = a at h
      generalize hb : Tree.node tag' e' cs' = b at h
      cases h with
      | here h1 h2 h3 h4 => cases ha; cases hb; exact ⟨_, _, _, h1, h2, .inl ⟨h3, h4⟩⟩
      | inside h1 h2 h => cases ha; cases hb; exact ⟨_, _, _, h1, h2, .inr h⟩
  | .leaf _, _, h, _ => by simp [Tree.isNode] at h
  | .empty, _, h, _ => by simp [Tree.isNode] at h
  | .foreign _, _, h, _ => by simp [Tree.isNode] at h
  | .node _ _ _, .leaf _, _, h => by simp [Tree.isNode] at h
  | .node _ _ _, .empty, _, h => by simp [Tree.isNode] at h
  | .node _ _ _, .foreign _, _, h => by simp [Tree.isNode] at h
theorem clashes_iff : ∀ (xs ys : List Tree) (i : Nat), nodeDiffs i xs ys = none ↔
    ∃ (j : Nat) (x y : Tree), xs[j]? = some x ∧ ys[j]? = some y ∧ ((x.isNode = true ∧ y.isNode = false) ∨ Clash x y)
  | [], _, _ => by simp [nodeDiffs]
  | _ :: _, [], _ => by simp [nodeDiffs]
  | x :: xs, y :: ys, i => by
    have ih := clashes_iff xs ys (i + 1)
    have hhead : nodeDiffs i (x :: xs) (y :: ys) = none ↔
        (((x.isNode = true ∧ y.isNode = false) ∨ Clash x y) ∨ nodeDiffs (i + 1) xs ys = none) := by
      rw [nodeDiffs]
      cases hs : nodeDiffs (i + 1) xs ys with
      | none => simp
      | some ds =>
        simp only [reduceCtorEq, or_false]
        by_cases hx : x.isNode = true
        · simp only [hx, if_true, true_and]
          by_cases hy : y.isNode = true
          · have := clash_iff x y hx hy
            rw [hy]
            simp only [Bool.true_eq_false, false_or, ← this]
            cases nodeDiff x y <;> simp
          · have hn : nodeDiff x y = none := by
              cases x <;> cases y <;> simp_all [Tree.isNode, nodeDiff]
            simp [hn, Bool.eq_false_iff.mpr hy]
        · simp only [hx, Bool.false_eq_true, if_false, false_and, false_or, reduceCtorEq, false_iff]
          intro hc
          cases hc <;> simp [Tree.isNode] at hx
    rw [hhead, ih]
    constructor
    · rintro (h | ⟨j, u, v, h1, h2, h3⟩)
      · exact ⟨0, x, y, rfl, rfl, h⟩
      · exact ⟨j + 1, u, v, by simpa using h1, by simpa using h2, h3⟩
    · rintro ⟨j, u, v, h1, h2, h3⟩
      cases j with
      | zero =>
        simp only [List.getElem?_cons_zero, Option.some.injEq] at h1 h2
        rw [← h1, ← h2] at h3
        exact .inl h3
      | succ j => exact .inr ⟨j, u, v, by simpa using h1, by simpa using h2, h3⟩
end

mutual
theorem alike_iff : ∀ (x y : Tree), x.Alike y ↔ x.Covers y ∧ y.Covers x
  | .node tag e cs, .node tag' e' cs' => by
    have ih := alikeAll_iff cs cs'
    simp only [Tree.Alike, Tree.Covers, ih]
    constructor
    · rintro ⟨a, b, c, d⟩; exact ⟨⟨a, b, c⟩, a.symm, b.symm, d⟩
    · rintro ⟨⟨a, b, c⟩, -, -, d⟩; exact ⟨a, b, c, d⟩
  | .node _ _ _, .leaf _ => by simp [Tree.Alike, Tree.Covers]
  | .node _ _ _, .empty => by simp [Tree.Alike, Tree.Covers]
  | .node _ _ _, .foreign _ => by simp [Tree.Alike, Tree.Covers]
  | .leaf _, .node _ _ _ => by simp [Tree.Alike, Tree.Covers]
  | .empty, .node _ _ _ => by simp [Tree.Alike, Tree.Covers]
  | .foreign _, .node _ _ _ => by simp [Tree.Alike, Tree.Covers]
  | .leaf _, .leaf _ => by simp [Tree.Alike, Tree.Covers]
  | .leaf _, .empty => by simp [Tree.Alike, Tree.Covers]
  | .leaf _, .foreign _ => by simp [Tree.Alike, Tree.Covers]
  | .empty, .leaf _ => by simp [Tree.Alike, Tree.Covers]
  | .empty, .empty => by simp [Tree.Alike, Tree.Covers]
  | .empty, .foreign _ => by simp [Tree.Alike, Tree.Covers]
  | .foreign _, .leaf _ => by simp [Tree.Alike, Tree.Covers]
  | .foreign _, .empty => by simp [Tree.Alike, Tree.Covers]
  | .foreign _, .foreign _ => by simp [Tree.Alike, Tree.Covers]
theorem alikeAll_iff : ∀ (xs ys : List Tree), alikeAll xs ys ↔ coversAll xs ys ∧ coversAll ys xs
  | [], [] => by simp [alikeAll, coversAll]
  | [], _ :: _ => by simp [alikeAll, coversAll]
  | _ :: _, [] => by simp [alikeAll, coversAll]
  | x :: xs, y :: ys => by
    simp only [alikeAll, coversAll, alike_iff x y, alikeAll_iff xs ys]
    constructor
    · rintro ⟨⟨a, b⟩, c, d⟩; exact ⟨⟨a, c⟩, b, d⟩
    · rintro ⟨⟨a, c⟩, b, d⟩; exact ⟨⟨a, b⟩, c, d⟩
end

mutual
theorem report_nil : ∀ {x y : Tree} {d : NodeDiff} {path : List (Str × Nat)}, nodeDiff x y = some d →
    d.report path = [] → d.equal = true
  | .node tag e cs, .node tag' e' cs', d, path, h, hr => by
    obtain ⟨ds, h1, e1⟩ := nodeDiff_equal h
    rw [e1, NodeDiff.report] at hr
    rw [e1]
    by_cases he : (NodeDiff.mk (tag, tag') (e, e') (cs.length, cs'.length) ds []).equal = true
    · exact he
    · simp only [he, Bool.false_eq_true, if_false, List.append_eq_nil_iff, ite_eq_right_iff, List.map_nil, List.cons_ne_nil,
        imp_false, Decidable.not_not] at hr
      obtain ⟨⟨⟨⟨r1, r2⟩, r3⟩, -⟩, r5⟩ := hr
      have : ds = [] := reports_none h1 r5
      simp [NodeDiff.equal, r1, r2, r3, this]
  | .node _ _ _, .leaf _, _, _, h, _ => by simp [nodeDiff] at h
  | .node _ _ _, .empty, _, _, h, _ => by simp [nodeDiff] at h
  | .node _ _ _, .foreign _, _, _, h, _ => by simp [nodeDiff] at h
  | .leaf _, _, _, _, h, _ => by simp [nodeDiff] at h
  | .empty, _, _, _, h, _ => by simp [nodeDiff] at h
  | .foreign _, _, _, _, h, _ => by simp [nodeDiff] at h
theorem reports_none : ∀ {xs ys : List Tree} {i : Nat} {ds : List (Nat × NodeDiff)} {path : List (Str × Nat)},
    nodeDiffs i xs ys = some ds → reports path ds = [] → ds = []
  | [], _, _, ds, _, h, _ => by simp [nodeDiffs] at h; exact h
  | _ :: _, [], _, ds, _, h, _ => by simp [nodeDiffs] at h; exact h
  | x :: xs, y :: ys, i, ds, path, h, hr => by
    rw [nodeDiffs] at h
    cases hs : nodeDiffs (i + 1) xs ys with
    | none => simp [hs] at h
    | some es =>
      simp only [hs] at h
      by_cases hx : x.isNode = true
      · simp only [hx, if_true] at h
        cases hd : nodeDiff x y with
        | none => simp [hd] at h
        | some d =>
          simp only [hd, Option.some.injEq] at h
          cases he : d.equal with
          | true => simp [he] at h; rw [← h] at hr ⊢; exact reports_none hs hr
          | false =>
            simp [he] at h
            rw [← h, reports, List.append_eq_nil_iff] at hr
            have := report_nil hd hr.1
            rw [he] at this
            exact absurd this (by simp)
      · simp [hx] at h; rw [← h] at hr ⊢; exact reports_none hs hr
end

end Wbnf

import Verif.Model.NodeGet
import Verif.Spec.NodeGet
import Verif.Props.Tree

/-!
# C72: the accessors of parse trees
-/

namespace Wbnf

variable {E : Engine} {X : Externals} {g : Grammar} {m : Nat} {ps : Parsers} {ρ : Nat → Nat} {n : Nat}
  {r : Str} {inp rest : Scanner} {v w : Tree} {k : Nat} {p q : List Int} {s t : Scanner}

theorem childAt_iff {i : Int} : v.childAt i = some w ↔ ∃ tag x before after, v = .node tag x (before ++ w :: after) ∧ i = before.length := by
  constructor
  · intro h
    cases v with
    | node tag x cs =>
      simp only [Tree.childAt] at h
      split at h
      · cases h
      · obtain ⟨hi, rfl⟩ := List.getElem?_eq_some_iff.1 h
        refine ⟨tag, x, cs.take i.toNat, cs.drop (i.toNat + 1), ?_, ?_⟩
        · rw [List.getElem_cons_drop, List.take_append_drop]
        · rw [List.length_take, Nat.min_eq_left (Nat.le_of_lt hi)]; omega
    | _ => simp [Tree.childAt] at h
  · rintro ⟨tag, x, before, after, rfl, rfl⟩
    simp only [Tree.childAt]
    rw [if_neg (by omega)]
    simp

/-- **C72** `Get` returns what the path leads to. -/
theorem C72_get : v.get p = some w ↔ PathTo v p w := by
  induction p generalizing v with
  | nil =>
    simp only [Tree.get, Option.some.injEq]
    constructor
    · rintro rfl; exact .here
    · intro h; cases h; rfl
  | cons i p ih =>
    constructor
    · intro h
      simp only [Tree.get] at h
      split at h
      · rename_i c hc
        obtain ⟨tag, x, before, after, rfl, rfl⟩ := childAt_iff.1 hc
        exact .down (ih.1 h)
      · cases h
    · intro h
      cases h with
      | down h =>
        rw [Tree.get, childAt_iff.2 ⟨_, _, _, _, rfl, rfl⟩]
        exact ih.2 h

/-- **C72** And panics exactly if it leads nowhere. -/
theorem C72_panics : v.get p = none ↔ ¬ ∃ w, PathTo v p w := by
  simp only [← C72_get]
  cases v.get p <;> simp

/-- **C72** `GetNode` is the same, for nodes only; `GetScanner` and `GetString` for leaves only. -/
theorem C72_kinds {tag : Str} {x : Extra} {cs : List Tree} {a : Str} :
    (v.getNode p = some (.node tag x cs) ↔ PathTo v p (.node tag x cs)) ∧
    (v.getScanner p = some s ↔ PathTo v p (.leaf s)) ∧
    (v.getString p = some a ↔ ∃ s, PathTo v p (.leaf s) ∧ s.toStr = some a) ∧
    (v.getNode p = none ↔ ¬ ∃ tag x cs, PathTo v p (.node tag x cs)) ∧
    (v.getScanner p = none ↔ ¬ ∃ s, PathTo v p (.leaf s)) := by
  simp only [← C72_get, Tree.getNode, Tree.getScanner, Tree.getString]
  rcases v.get p with - | ⟨⟩ | _ | _ | _ <;> simp

/-- **C72** A path may be walked in two steps. -/
theorem C72_steps : v.get (p ++ q) = (v.get p).bind fun w => w.get q := by
  induction p generalizing v with
  | nil => simp [Tree.get]
  | cons i p ih =>
    simp only [List.cons_append, Tree.get]
    cases v.childAt i with
    | none => rfl
    | some c => exact ih

/-- **C72** `Count` says how far paths go on. -/
theorem C72_count {i : Int} (h : PathTo v p w) : (∃ c, v.get (p ++ [i]) = some c) ↔ 0 ≤ i ∧ i < w.count := by
  rw [C72_steps, C72_get.2 h]
  cases w with
  | node tag x cs =>
    simp only [Option.bind_some, Tree.get, Tree.childAt, Tree.count]
    by_cases hi : i < 0
    · rw [if_pos hi]; simp; omega
    · rw [if_neg hi]
      by_cases hl : i.toNat < cs.length
      · rw [List.getElem?_eq_getElem hl]; simp; omega
      · rw [List.getElem?_eq_none (by omega)]; simp; omega
  | _ => simp [Tree.get, Tree.childAt, Tree.count]; try omega

theorem pathTo_leaf {q : List Int} : PathTo (.leaf s) q w ↔ q = [] ∧ w = .leaf s := by
  constructor
  · intro h; cases h; exact ⟨rfl, rfl⟩
  · rintro ⟨rfl, rfl⟩; exact .here

theorem PathTo.infix (h : PathTo v p w) : w.leaves <:+: v.leaves := by
  induction h with
  | here => exact List.infix_refl _
  | @down _ _ before after c w _ _ ih =>
    refine ih.trans ?_
    rw [Tree.leaves, leavesList_append, leavesList]
    exact ⟨leavesList before, leavesList after, by simp⟩

mutual
theorem leaf_path : (v : Tree) → s ∈ v.leaves → ∃ p, PathTo v p (.leaf s)
  | .node tag x cs, h => by
    obtain ⟨before, c, after, p, rfl, h1⟩ := leaf_pathList cs h
    exact ⟨_, .down h1⟩
  | .leaf s', h => by
    simp only [Tree.leaves, List.mem_singleton] at h
    subst h
    exact ⟨[], .here⟩
  | .empty, h => by simp [Tree.leaves] at h
  | .foreign _, h => by simp [Tree.leaves] at h
theorem leaf_pathList : (cs : List Tree) → s ∈ leavesList cs → ∃ before c after p, cs = before ++ c :: after ∧ PathTo c p (.leaf s)
  | [], h => by simp [leavesList] at h
  | c :: cs, h => by
    simp only [leavesList, List.mem_append] at h
    rcases h with h | h
    · obtain ⟨p, h⟩ := leaf_path c h
      exact ⟨[], c, cs, p, rfl, h⟩
    · obtain ⟨before, d, after, p, rfl, h1⟩ := leaf_pathList cs h
      exact ⟨c :: before, d, after, p, rfl, h1⟩
end

/-- **C72** The leaves of a tree are what `GetScanner` returns for some path. -/
theorem C72_leaves : s ∈ v.leaves ↔ ∃ p, v.getScanner p = some s := by
  have key : ∀ p, v.getScanner p = some s ↔ PathTo v p (.leaf s) := fun p => (C72_kinds (tag := []) (x := .nil) (cs := []) (a := [])).2.1
  simp only [key]
  constructor
  · exact leaf_path v
  · rintro ⟨p, h⟩
    exact h.infix.subset (by simp [Tree.leaves])

theorem split_between {α : Type} {a b a' b' : List α} {c d : α} (h : a ++ c :: b = a' ++ d :: b') (hl : a.length < a'.length) :
    ∃ m, a' = a ++ c :: m ∧ b = m ++ d :: b' := by
  induction a generalizing a' with
  | nil =>
    cases a' with
    | nil => simp at hl
    | cons e a' =>
      simp only [List.nil_append, List.cons_append, List.cons.injEq] at h
      exact ⟨a', by simp [h.1], h.2⟩
  | cons e a ih =>
    cases a' with
    | nil => simp at hl
    | cons e' a' =>
      simp only [List.cons_append, List.cons.injEq] at h
      obtain ⟨rfl, h⟩ := h
      obtain ⟨m, rfl, h1⟩ := ih h (by simpa using hl)
      exact ⟨m, by simp, h1⟩

/-- Leaves are listed from left to right. -/
theorem leaves_left {c : List Int} {i j : Int} {p q : List Int} (hij : i < j) : ∀ {v : Tree}, PathTo v (c ++ i :: p) (.leaf s) →
    PathTo v (c ++ j :: q) (.leaf t) → ∃ a b d, v.leaves = a ++ s :: (b ++ t :: d) := by
  have mem : ∀ {v : Tree} {p : List Int} {s : Scanner}, PathTo v p (.leaf s) → ∃ a b, v.leaves = a ++ s :: b := by
    intro v p s h
    obtain ⟨a, b, h⟩ := h.infix
    exact ⟨a, b, by rw [← h]; simp [Tree.leaves]⟩
  induction c with
  | nil =>
    intro v h1 h2
    simp only [List.nil_append] at h1 h2
    generalize e1 : i :: p = pi at h1
    generalize e2 : j :: q = qj at h2
    cases h1 with
    | here => cases e1
    | @down tag x before after c _ path h1 =>
      cases e1
      generalize e3 : Tree.node tag x (before ++ c :: after) = v at h2
      cases h2 with
      | here => cases e2
      | @down _ _ before' after' c' _ path' h2 =>
        cases e2
        simp only [Tree.node.injEq] at e3
        obtain ⟨m, rfl, rfl⟩ := split_between e3.2.2 (by omega)
        obtain ⟨a, b, h1⟩ := mem h1
        obtain ⟨a', b', h2⟩ := mem h2
        refine ⟨leavesList before ++ a, b ++ leavesList m ++ a', b' ++ leavesList after', ?_⟩
        simp only [Tree.leaves, leavesList_append, leavesList, h1, h2]
        simp
  | cons l c ih =>
    intro v h1 h2
    simp only [List.cons_append] at h1 h2
    generalize e1 : l :: (c ++ i :: p) = pi at h1
    generalize e2 : l :: (c ++ j :: q) = qj at h2
    cases h1 with
    | here => cases e1
    | @down tag x before after d _ path h1 =>
      cases e1
      generalize e3 : Tree.node tag x (before ++ d :: after) = v at h2
      cases h2 with
      | here => cases e2
      | @down _ _ before' after' d' _ path' h2 =>
        simp only [List.cons.injEq] at e2
        obtain ⟨e4, rfl⟩ := e2
        simp only [Tree.node.injEq] at e3
        obtain ⟨rfl, h⟩ := List.append_inj e3.2.2 (by omega)
        simp only [List.cons.injEq] at h
        obtain ⟨rfl, rfl⟩ := h
        obtain ⟨a, b, f, h⟩ := ih h1 h2
        refine ⟨leavesList before ++ a, b, f ++ leavesList after, ?_⟩
        simp only [Tree.leaves, leavesList_append, leavesList, h]
        simp

theorem InOrder.bounds {hi : Int} {l : List Scanner} : ∀ {lo : Int}, InOrder lo hi l → ∀ s ∈ l, lo ≤ s.start ∧ 0 ≤ s.len ∧ s.start + s.len ≤ hi := by
  have le : ∀ {l : List Scanner} {lo : Int}, InOrder lo hi l → lo ≤ hi := by
    intro l
    induction l with
    | nil => intro lo h; exact h
    | cons s l ih => intro lo h; have := ih h.2.2; have := h.1; have := h.2.1; omega
  induction l with
  | nil => intro lo _ s h; cases h
  | cons a l ih =>
    intro lo h s hs
    have h1 := h.1
    have h2 := h.2.1
    rcases List.mem_cons.1 hs with rfl | hs
    · exact ⟨h1, h2, le h.2.2⟩
    · have := ih h.2.2 s hs
      omega

theorem InOrder.pair {hi : Int} {a b d : List Scanner} : ∀ {lo : Int}, InOrder lo hi (a ++ s :: (b ++ t :: d)) → s.start + s.len ≤ t.start := by
  induction a with
  | nil => intro lo h; exact (h.2.2.bounds t (by simp)).1
  | cons e a ih => intro lo h; exact ih h.2.2

/-- **C72** Of two paths to leaves of a parse tree, the one that turns off to the left leads to what is before in the text. -/
theorem C72_in_order (hE : E.Sane) (hg : g.wf = true) (hc : g.compile E m = .ok ps) (hesc : X.esc = none) (hin : inp.InRange)
    (hl : NoLook [ps.grammar] (.rule r)) (hx : NoExt [ps.grammar] (.rule r)) (hp : PatternsSatisfy (ReportsGroup E) [ps.grammar] (.rule r))
    (h : ps.run E X ρ n r inp = .ok v rest k) (h1 : v.getScanner p = some s) (h2 : v.getScanner q = some t) (hpq : LeftOf p q) :
    s.start + s.len ≤ t.start := by
  obtain ⟨c, i, j, p', q', rfl, rfl, hij⟩ := hpq
  have key : ∀ {p s}, v.getScanner p = some s → PathTo v p (.leaf s) := fun h => (C72_kinds (tag := []) (x := .nil) (cs := []) (a := [])).2.1.1 h
  obtain ⟨a, b, d, e⟩ := leaves_left hij (key h1) (key h2)
  have := (C02_leaves_in_order hE hg hc hesc hin hl hx hp h).1
  rw [e] at this
  exact this.pair

/-- **C72** Different paths to leaves turn off from each other. -/
theorem C72_apart (h1 : v.getScanner p = some s) (h2 : v.getScanner q = some t) (hpq : p ≠ q) : LeftOf p q ∨ LeftOf q p := by
  have key : ∀ {p s}, v.getScanner p = some s → PathTo v p (.leaf s) := fun h => (C72_kinds (tag := []) (x := .nil) (cs := []) (a := [])).2.1.1 h
  replace h1 := key h1
  replace h2 := key h2
  clear key
  induction p generalizing v q with
  | nil =>
    cases h1
    exact absurd (pathTo_leaf.1 h2).1.symm hpq
  | cons i p ih =>
    cases q with
    | nil =>
      cases h2
      exact absurd (pathTo_leaf.1 h1).1.symm (Ne.symm hpq)
    | cons j q =>
      rcases Int.lt_trichotomy i j with hij | rfl | hij
      · exact .inl ⟨[], i, j, p, q, rfl, rfl, hij⟩
      · have e1 := C72_get.2 h1
        have e2 := C72_get.2 h2
        simp only [Tree.get] at e1 e2
        cases hc : v.childAt i with
        | none => rw [hc] at e1; cases e1
        | some c =>
          rw [hc] at e1 e2
          rcases ih (v := c) (q := q) (fun e => hpq (by rw [e])) (C72_get.1 e1) (C72_get.1 e2) with ⟨c, a, b, p', q', rfl, rfl, h⟩ | ⟨c, a, b, p', q', rfl, rfl, h⟩
          · exact .inl ⟨i :: c, a, b, p', q', rfl, rfl, h⟩
          · exact .inr ⟨i :: c, a, b, p', q', rfl, rfl, h⟩
      · exact .inr ⟨[], j, i, q, p, rfl, rfl, hij⟩

mutual
theorem seen_eq : (v w : Tree) → (∀ p a, v.get p = some a → ∃ b, w.get p = some b ∧ SeenAlike a b) → v = w
  | .node tag x cs, w, h => by
    obtain ⟨b, hb, hs⟩ := h [] _ rfl
    cases hb
    cases hs with
    | @node _ _ _ cs' hl =>
      rw [seen_eqList cs cs' hl fun i c hc p a hp => ?_]
      have hi : ¬ (i : Int) < 0 := by omega
      obtain ⟨b, hb, hs⟩ := h (i :: p) a (by simp only [Tree.get, Tree.childAt]; rw [if_neg hi, Int.toNat_natCast, hc]; exact hp)
      simp only [Tree.get, Tree.childAt] at hb
      rw [if_neg hi, Int.toNat_natCast] at hb
      cases hc' : cs'[i]? with
      | none => rw [hc'] at hb; cases hb
      | some c' => rw [hc'] at hb; exact ⟨c', rfl, b, hb, hs⟩
  | .leaf s, w, h => by obtain ⟨b, hb, hs⟩ := h [] _ rfl; cases hb; cases hs; rfl
  | .empty, w, h => by obtain ⟨b, hb, hs⟩ := h [] _ rfl; cases hb; cases hs; rfl
  | .foreign n, w, h => by obtain ⟨b, hb, hs⟩ := h [] _ rfl; cases hb; cases hs; rfl
theorem seen_eqList : (cs cs' : List Tree) → cs.length = cs'.length →
    (∀ (i : Nat) c, cs[i]? = some c → ∀ p a, c.get p = some a → ∃ c', cs'[i]? = some c' ∧ ∃ b, c'.get p = some b ∧ SeenAlike a b) → cs = cs'
  | [], [], _, _ => rfl
  | c :: cs, c' :: cs', hl, h => by
    rw [seen_eq c c' fun p a hp => ?_, seen_eqList cs cs' (by simpa using hl) fun i d hd p a hp => ?_]
    · obtain ⟨d', hd', h⟩ := h (i + 1) d (by simpa using hd) p a hp
      exact ⟨d', by simpa using hd', h⟩
    · obtain ⟨d', hd', h⟩ := h 0 c rfl p a hp
      cases hd'
      exact h
end

/-- **C72** The accessors show all there is: trees of which they show the same are the same. -/
theorem C72_shows (h : ∀ p a, v.get p = some a → ∃ b, w.get p = some b ∧ SeenAlike a b) : v = w := seen_eq v w h

mutual
theorem normalize_eq : (v : Tree) → v.normalize = v
  | .node tag x cs => by rw [Tree.normalize, normalizeList_eq cs]
  | .leaf _ => rfl
  | .empty => rfl
  | .foreign _ => rfl
theorem normalizeList_eq : (vs : List Tree) → normalizeList vs = vs
  | [] => rfl
  | v :: vs => by rw [normalizeList, normalize_eq v, normalizeList_eq vs]
end

/-- **C72** `Normalize` returns the same tree. -/
theorem C72_normalize : v.normalize = v := normalize_eq v

open Ex in
/-- The parse of `1+2*3`, as for C02: paths to leaves, one to a node, and some that lead nowhere. -/
example :
    gExpr.wf = true ∧ (∃ ps, gExpr.compile regexp 50 = .ok ps) ∧
    PatternsSatisfy (ReportsGroup regexp) [(comp! gExpr).grammar] (.rule (str "expr")) ∧
    NoLook [(comp! gExpr).grammar] (.rule (str "expr")) ∧ NoExt [(comp! gExpr).grammar] (.rule (str "expr")) ∧
    LeftOf [1] [2, 0, 1, 0] ∧
    (match (comp! gExpr).run regexp noExternals ρ0 300 (str "expr") (newScanner (str "1+2*3")) with
      | .ok v _ _ => some ([[1], [2, 1], [2, 0, 1, 0], [3], [-1], [1, 0], [2]].map v.getString)
      | _ => none) = some [some (str "+"), some (str "*"), some (str "2"), none, none, none, none] ∧
    (match (comp! gExpr).run regexp noExternals ρ0 300 (str "expr") (newScanner (str "1+2*3")) with
      | .ok v _ _ => some (v.count :: [[2], [0, 0]].map fun p => ((v.getNode p).map Tree.count).getD 100)
      | _ => none) = some [3, 3, 2] := by
  have h := plainLeaf_check (q := Regex.setsLast) (Q := ReportsGroup regexp)
    (fun p => Regex.reportsGroup) (g := (comp! gExpr).grammar) (by rfl) (by decide +kernel)
    (str "expr")
  exact ⟨by decide +kernel, ⟨_, comp_ok (by decide +kernel)⟩, h.1, h.2.1, h.2.2, ⟨[], 1, 2, [], [0, 1, 0], rfl, rfl, by decide⟩,
    by decide +kernel, by decide +kernel⟩

end Wbnf

import Verif.Spec.Derives
import Verif.Spec.Shape

/-! Delimited lists: what the intermediate sequence looks like, and the nodes built from it. -/

namespace Wbnf

theorem delimPairs_map (tag : Str) (rest : List (Tree × Tree)) :
    delimPairs (rest.map fun p => .node tag .nil [p.1, p.2]) = some (rest.flatMap fun p => [p.1, p.2]) := by
  induction rest with
  | nil => rfl
  | cons p rest ih => simp [delimPairs, Tree.get?, Tree.children?, ih]

theorem delimItems_joinTree {tag ltag rtag cs ce lead first rest trail}
    (hl : lead.isSome = true → cs = true) (ht : trail.isSome = true → ce = true) :
    delimItems cs ce (joinTree tag ltag rtag cs ce lead first rest trail) =
      some (listItems lead first rest trail) := by
  cases cs <;> cases ce <;> cases lead <;> cases trail <;>
    simp_all [delimItems, joinTree, Tree.get?, Tree.children?, listItems, leading, trailing,
      delimPairs_map]

/-- The two folds. -/
theorem foldLeft_nest {tag : Str} {items v} (h : LeftNest tag items v) (rest : List (Tree × Tree)) :
    ∃ w, foldLeftAssoc tag 1 v (rest.flatMap fun p => [p.1, p.2]) = some w ∧
      LeftNest tag (items ++ rest.flatMap fun p => [p.1, p.2]) w := by
  induction rest generalizing items v with
  | nil => exact ⟨v, rfl, by simpa using h⟩
  | cons p rest ih =>
    obtain ⟨w, h1, h2⟩ := ih (.more (op := p.1) (y := p.2) h)
    exact ⟨w, by simpa [foldLeftAssoc] using h1, by simpa using h2⟩

theorem foldRight_nest {tag : Str} {items v} (h : RightNest tag items v) (front : List (Tree × Tree)) :
    ∃ w, foldRightAssoc tag (-1) v (front.flatMap fun p => [p.2, p.1]) = some w ∧
      RightNest tag ((front.reverse.flatMap fun p => [p.1, p.2]) ++ items) w := by
  induction front generalizing items v with
  | nil => exact ⟨v, rfl, by simpa using h⟩
  | cons p front ih =>
    obtain ⟨w, h1, h2⟩ := ih (.more (x := p.1) (op := p.2) h)
    exact ⟨w, by simpa [foldRightAssoc] using h1, by simpa using h2⟩

/-- Lists of odd length, as a first element and pairs. -/
theorem odd_pairs {α} (l : List α) (h : l.length % 2 = 1) :
    ∃ x ps, l = x :: (ps : List (α × α)).flatMap fun p => [p.1, p.2] := by
  match l with
  | [] => simp at h
  | [x] => exact ⟨x, [], rfl⟩
  | x :: y :: l =>
    obtain ⟨z, ps, hz⟩ := odd_pairs l (by simp at h; omega)
    exact ⟨x, (y, z) :: ps, by simp [hz]⟩
  termination_by l.length

/-- The same, from the end. -/
theorem odd_pairs_end {α} (l : List α) (h : l.length % 2 = 1) :
    ∃ (ps : List (α × α)) (x : α), l = (ps.flatMap fun p => [p.1, p.2]) ++ [x] := by
  match l with
  | [] => simp at h
  | [x] => exact ⟨[], x, rfl⟩
  | x :: y :: l =>
    obtain ⟨ps, z, hz⟩ := odd_pairs_end l (by simp at h; omega)
    exact ⟨(x, y) :: ps, z, by simp [hz]⟩
  termination_by l.length

theorem reverse_flatMap_pairs {α} (ps : List (α × α)) :
    (ps.flatMap fun p => [p.1, p.2]).reverse = ps.reverse.flatMap fun p => [p.2, p.1] := by
  induction ps with
  | nil => rfl
  | cons p ps ih => simp [ih]

theorem delimBuild_node {tag : Str} {a : Int} {items : List Tree} (h : items.length % 2 = 1) :
    ∃ v, delimBuild tag a items = some v ∧ ListNode tag a items v := by
  unfold delimBuild
  match items, h with
  | [x], _ => exact ⟨_, rfl, .flat (Or.inr rfl)⟩
  | x :: y :: l, h =>
    simp only
    by_cases h1 : a = leftToRight
    · subst h1
      rw [if_pos rfl]
      obtain ⟨z, ps, hz⟩ := odd_pairs l (by simp at h; omega)
      obtain ⟨w, hw1, hw2⟩ := foldLeft_nest (tag := tag) (.three (x := x) (op := y) (y := z)) ps
      exact ⟨w, by simpa [hz, foldLeftAssoc, leftToRight] using hw1,
        .left rfl (by simpa [hz] using hw2)⟩
    · rw [if_neg h1]
      by_cases h2 : a = rightToLeft
      · subst h2
        rw [if_pos rfl]
        obtain ⟨ps, z, hz⟩ := odd_pairs_end (x :: y :: l) h
        rw [hz, List.reverse_append, reverse_flatMap_pairs]
        simp only [List.reverse_cons, List.reverse_nil, List.nil_append, List.singleton_append]
        cases hps : ps.reverse with
        | nil =>
          have : ps = [] := by simpa using hps
          subst this; simp at hz
        | cons p front =>
          have hps' : ps = front.reverse ++ [p] := by
            have := congrArg List.reverse hps; simpa using this
          obtain ⟨w, hw1, hw2⟩ := foldRight_nest (tag := tag) (.three (x := p.1) (op := p.2) (y := z)) front
          refine ⟨w, by simpa [foldRightAssoc, rightToLeft] using hw1, .right rfl ?_⟩
          rw [hps']; simpa using hw2
      · rw [if_neg h2]
        exact ⟨_, rfl, .flat (Or.inl ⟨h1, h2⟩)⟩

theorem listItems_odd (lead first rest trail) : (listItems lead first rest trail).length % 2 = 1 := by
  have h : ∀ l : List (Tree × Tree), (l.flatMap fun p => [p.1, p.2]).length = 2 * l.length := by
    intro l
    induction l with
    | nil => rfl
    | cons p l ih => simp only [List.flatMap_cons, List.length_append, ih]; simp; omega
  cases lead <;> cases trail <;> simp only [listItems, leading, trailing, List.length_append,
    List.length_cons, List.length_nil, h] <;> omega

/-- What the parser makes of the tree of the sequence. -/
theorem delimFinish_joinTree {a tag' tag ltag rtag cs ce lead first rest trail}
    (hl : lead.isSome = true → cs = true) (ht : trail.isSome = true → ce = true) :
    ∃ v, delimFinish tag' a cs ce (joinTree tag ltag rtag cs ce lead first rest trail) = some v ∧
      ListNode tag' a (listItems lead first rest trail) v := by
  obtain ⟨v, h1, h2⟩ := delimBuild_node (tag := tag') (a := a) (listItems_odd lead first rest trail)
  exact ⟨v, by rw [delimFinish, delimItems_joinTree hl ht]; exact h1, h2⟩

theorem LeftNest.det {tag items v w} (h : LeftNest tag items v) (h' : LeftNest tag items w) : v = w := by
  induction h generalizing w with
  | three =>
    generalize hi : ([_, _, _] : List Tree) = l at h'
    cases h' with
    | three => simp at hi; obtain ⟨rfl, rfl, rfl⟩ := hi; rfl
    | @more items v op y h =>
      have := congrArg List.length hi
      simp at this
      cases h <;> simp at this
  | @more items v op y hv ih =>
    generalize hi : items ++ [op, y] = l at h'
    cases h' with
    | three =>
      have := congrArg List.length hi
      simp at this
      cases hv <;> simp at this
    | @more items' v' op' y' h =>
      obtain ⟨rfl, h2⟩ := List.append_inj' hi rfl
      simp at h2; obtain ⟨rfl, rfl⟩ := h2
      rw [ih h]

theorem RightNest.det {tag items v w} (h : RightNest tag items v) (h' : RightNest tag items w) : v = w := by
  induction h generalizing w with
  | three =>
    cases h' with
    | three => rfl
    | more h => cases h
  | more hv ih =>
    cases h' with
    | three => cases hv
    | more h => rw [ih h]

theorem LeftNest.length {tag items v} (h : LeftNest tag items v) : 3 ≤ items.length := by
  cases h with
  | three => simp
  | more h => cases h <;> simp

theorem RightNest.length {tag items v} (h : RightNest tag items v) : 3 ≤ items.length := by
  cases h with
  | three => simp
  | more h => cases h <;> simp

theorem ListNode.det {tag a items v w} (h : ListNode tag a items v) (h' : ListNode tag a items w) : v = w := by
  cases h with
  | flat h =>
    cases h' with
    | flat => rfl
    | left ha hn => have := hn.length; exact (h.elim (fun h => absurd ha h.1) (fun h => by omega))
    | right ha hn => have := hn.length; exact (h.elim (fun h => absurd ha h.2) (fun h => by omega))
  | left ha hn =>
    cases h' with
    | flat h => have := hn.length; exact (h.elim (fun h => absurd ha h.1) (fun h => by omega))
    | left _ hn' => exact hn.det hn'
    | right hb => omega
  | right ha hn =>
    cases h' with
    | flat h => have := hn.length; exact (h.elim (fun h => absurd ha h.2) (fun h => by omega))
    | left hb => omega
    | right _ hn' => exact hn.det hn'

theorem delimFinish_inv {a tag' tag ltag rtag cs ce lead first rest trail v}
    (hl : lead.isSome = true → cs = true) (ht : trail.isSome = true → ce = true)
    (h : delimFinish tag' a cs ce (joinTree tag ltag rtag cs ce lead first rest trail) = some v) :
    ListNode tag' a (listItems lead first rest trail) v := by
  obtain ⟨w, h1, h2⟩ := delimFinish_joinTree (a := a) (tag' := tag') (tag := tag) (ltag := ltag)
    (rtag := rtag) (first := first) (rest := rest) hl ht
  rw [h] at h1; simp at h1; subst h1; exact h2

/-! ### Leaves -/

theorem leavesList_append (a b : List Tree) : leavesList (a ++ b) = leavesList a ++ leavesList b := by
  induction a with
  | nil => rfl
  | cons v a ih => simp [leavesList, ih]

theorem LeftNest.leaves {tag items v} (h : LeftNest tag items v) : v.leaves = leavesList items := by
  induction h with
  | three => rfl
  | more h ih => rw [Tree.leaves, leavesList_append, ← ih]; simp [leavesList]

theorem RightNest.leaves {tag items v} (h : RightNest tag items v) : v.leaves = leavesList items := by
  induction h with
  | three => rfl
  | more h ih => rw [Tree.leaves]; simp only [leavesList, ih, List.append_nil]

theorem ListNode.leaves {tag a items v} (h : ListNode tag a items v) : v.leaves = leavesList items := by
  cases h with
  | flat => rfl
  | left _ h => exact h.leaves
  | right _ h => exact h.leaves

theorem leaves_pairs (tag : Str) (rest : List (Tree × Tree)) :
    leavesList (rest.map fun p => .node tag .nil [p.1, p.2]) =
      leavesList (rest.flatMap fun p => [p.1, p.2]) := by
  induction rest with
  | nil => rfl
  | cons p rest ih => simp [leavesList, Tree.leaves, ih]

theorem leaves_joinTree {tag ltag rtag cs ce lead first rest trail}
    (hl : lead.isSome = true → cs = true) (ht : trail.isSome = true → ce = true) :
    (joinTree tag ltag rtag cs ce lead first rest trail).leaves =
      leavesList (listItems lead first rest trail) := by
  cases cs <;> cases ce <;> cases lead <;> cases trail <;>
    simp_all [joinTree, Tree.leaves, leavesList, listItems, leading, trailing, leaves_pairs,
      leavesList_append]

/-! ### Derivations of the sequence -/

section
variable {E : Engine} {X : Externals}

theorem derives_opt {Γ t vals i vs j} (h : Derives E X (.term Γ [] (optT t) vals) i vs j) :
    ∃ o : Option Tree, vs = [.node quantTag .nil o.toList] ∧
      ∀ w, o = some w → Derives E X (.term Γ [] t vals) i [w] j := by
  unfold optT at h
  cases h with
  | quant h1 h2 h3 =>
    cases h1 with
    | stop => exact ⟨none, rfl, by simp⟩
    | @more _ _ _ _ w _ ws _ h4 h5 =>
      cases h5 with
      | stop => exact ⟨some w, rfl, fun _ h => by cases h; exact h4⟩
      | more => simp at h3

theorem derives_pairs {Γ term sep vals i vs j}
    (h : Derives E X (.reps Γ (.seq [sep, term]) vals) i vs j) :
    ∃ rest : List (Tree × Tree), vs = rest.map fun p => .node seqTag .nil [p.1, p.2] := by
  generalize hG : DGoal.reps Γ (.seq [sep, term]) vals = G at h
  induction h with
  | stop => exact ⟨[], rfl⟩
  | more h1 h2 ih1 ih2 =>
    cases hG
    obtain ⟨rest, rfl⟩ := ih2 rfl
    cases h1 with
    | seq h1 =>
      cases h1 with
      | cons ha h1 =>
        cases h1 with
        | cons hb h1 =>
          cases h1
          exact ⟨(_, _) :: rest, rfl⟩
  | _ => cases hG

theorem derives_join {Γ rule term sep cs ce vals i v j}
    (h : Derives E X (.term Γ rule (.seq (delimSeq term sep cs ce)) vals) i [v] j) :
    ∃ lead first rest trail, v = joinTree (ruleOrAlt rule seqTag) quantTag quantTag cs ce lead first rest trail ∧
      (lead.isSome = true → cs = true) ∧ (trail.isSome = true → ce = true) := by
  have core : ∀ {vals i v j}, Derives E X (.term Γ [] (.seq [term, anyT (.seq [sep, term])]) vals) i [v] j →
      ∃ (first : Tree) (rest : List (Tree × Tree)), v = .node seqTag .nil [first, .node quantTag .nil (rest.map fun p =>
        .node seqTag .nil [p.1, p.2])] := by
    intro vals i v j h
    cases h with
    | seq h =>
      cases h with
      | cons h1 h =>
        cases h with
        | cons h2 h =>
          cases h
          unfold anyT at h2
          cases h2 with
          | quant h2 _ _ =>
            obtain ⟨rest, rfl⟩ := derives_pairs h2
            exact ⟨_, rest, rfl⟩
  cases h with
  | seq h =>
    cases cs <;> cases ce <;>
      simp only [delimSeq, Bool.false_eq_true, if_false, if_true, List.nil_append, List.append_nil,
        List.cons_append] at h
    · cases h with
      | cons h1 h =>
        cases h
        obtain ⟨first, rest, rfl⟩ := core h1
        exact ⟨none, first, rest, none, rfl, by simp, by simp⟩
    · cases h with
      | cons h1 h =>
        cases h with
        | cons h2 h =>
          cases h
          obtain ⟨first, rest, rfl⟩ := core h1
          obtain ⟨o, ho, _⟩ := derives_opt h2
          simp at ho; subst ho
          exact ⟨none, first, rest, o, rfl, by simp, by simp⟩
    · cases h with
      | cons h0 h =>
        cases h with
        | cons h1 h =>
          cases h
          obtain ⟨first, rest, rfl⟩ := core h1
          obtain ⟨o, ho, _⟩ := derives_opt h0
          simp at ho; subst ho
          exact ⟨o, first, rest, none, rfl, by simp, by simp⟩
    · cases h with
      | cons h0 h =>
        cases h with
        | cons h1 h =>
          cases h with
          | cons h2 h =>
            cases h
            obtain ⟨first, rest, rfl⟩ := core h1
            obtain ⟨o, ho, _⟩ := derives_opt h0
            obtain ⟨o', ho', _⟩ := derives_opt h2
            simp at ho ho'; subst ho; subst ho'
            exact ⟨o, first, rest, o', rfl, by simp, by simp⟩

end
end Wbnf

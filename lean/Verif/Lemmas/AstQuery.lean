import Verif.Spec.AstQuery
import Verif.Props.Scanner
import Verif.Lemmas.Parts

/-! ContentEquals and Scanner of AST nodes. -/

namespace Wbnf

/-! ### Lists -/

theorem nodup_subset_length {α : Type} [DecidableEq α] : ∀ {l l' : List α}, l.Nodup → (∀ x ∈ l, x ∈ l') → l.length ≤ l'.length := by
  intro l
  induction l with
  | nil => intro l' _ _; simp
  | cons a l ih =>
    intro l' hn hs
    simp only [List.nodup_cons] at hn
    have ha : a ∈ l' := hs a (by simp)
    have := ih (l' := l'.erase a) hn.2 fun x hx => by
      have hne : x ≠ a := fun e => hn.1 (e ▸ hx)
      exact (List.mem_erase_of_ne hne).2 (hs x (by simp [hx]))
    rw [List.length_erase_of_mem ha] at this
    have := List.length_pos_of_mem ha
    simp
    omega

theorem nodup_subset_eq {α : Type} [DecidableEq α] {l l' : List α} (hn : l.Nodup) (hs : ∀ x ∈ l, x ∈ l') (hlen : l.length = l'.length) :
    ∀ x ∈ l', x ∈ l := by
  intro x hx
  refine Classical.byContradiction fun h => ?_
  have := nodup_subset_length (l := x :: l) (l' := l') (by simp [h, hn]) (by simp [hx]; exact hs)
  simp at this
  omega

theorem lookup_none_iff {α : Type} {k : Str} {b : List (Str × α)} : lookup k b = none ↔ k ∉ b.map Prod.fst := by
  induction b with
  | nil => simp [lookup]
  | cons e b ih =>
    obtain ⟨k', c⟩ := e
    by_cases h : k' = k
    · simp [lookup, h]
    · simp only [lookup, h, if_false, List.map_cons, List.mem_cons, not_or, ih]
      simp [Ne.symm h]

theorem tidyBranch_iff {b : Branch} : tidyBranch b ↔ ∀ p ∈ b, p.2.Tidy := by
  induction b with
  | nil => simp [tidyBranch]
  | cons e b ih => simp [tidyBranch, ih]

theorem tidyNodes_iff {ns : List Ast} : tidyNodes ns ↔ ∀ n ∈ ns, n.Tidy := by
  induction ns with
  | nil => simp [tidyNodes]
  | cons e b ih => simp [tidyNodes, ih]

/-! ### ContentEquals decides same content -/

theorem SameNodes.length : ∀ {ns ns'}, SameNodes ns ns' → ns.length = ns'.length
  | _, _, .nil => rfl
  | _, _, .cons _ h => by simp [h.length]

mutual
theorem contentEq_spec : (a : Ast) → ∀ (a' : Ast), a.Tidy → a'.Tidy → ∃ r, a.contentEq (some a') = .ok r ∧ (r = true ↔ Same a a')
  | .leaf s, a', h, h' => by
    obtain ⟨x, hx⟩ := h
    cases a' with
    | leaf s' =>
      obtain ⟨y, hy⟩ := h'
      refine ⟨decide (x = y), by simp [Ast.contentEq, sameText, hx, hy], ?_⟩
      constructor
      · intro e
        have e : x = y := by simpa using e
        subst e
        exact .leaf hx hy
      · intro hs
        cases hs with
        | leaf h1 h2 => rw [h1] at hx; rw [h2] at hy; cases hx; cases hy; simp
    | extra d => exact ⟨false, by simp [Ast.contentEq], by simp; intro hs; cases hs⟩
    | branch b => exact ⟨false, by simp [Ast.contentEq], by simp; intro hs; cases hs⟩
  | .extra d, a', _, _ => by
    cases a' with
    | leaf s' => exact ⟨false, by simp [Ast.contentEq], by simp; intro hs; cases hs⟩
    | extra d' =>
      refine ⟨decide (d = d'), by simp [Ast.contentEq], ?_⟩
      constructor
      · intro e
        have e : d = d' := by simpa using e
        subst e
        exact .extra
      · intro hs; cases hs; simp
    | branch b => exact ⟨false, by simp [Ast.contentEq], by simp; intro hs; cases hs⟩
  | .branch b, a', h, h' => by
    cases a' with
    | leaf s' => exact ⟨false, by simp [Ast.contentEq], by simp; intro hs; cases hs⟩
    | extra d' => exact ⟨false, by simp [Ast.contentEq], by simp; intro hs; cases hs⟩
    | branch b' =>
      obtain ⟨r, hr, hiff⟩ := branchEq_spec b b' h.2 h'.1 h'.2
      by_cases hlen : b.length = b'.length
      · refine ⟨r, by simp [Ast.contentEq, hlen, hr], hiff.trans ?_⟩
        constructor
        · intro hall
          have hsub : ∀ k ∈ b.map Prod.fst, k ∈ b'.map Prod.fst := by
            intro k hk
            obtain ⟨p, hp, rfl⟩ := List.mem_map.1 hk
            obtain ⟨c', hc', _⟩ := hall p hp
            exact List.mem_map.2 ⟨_, lookup_mem hc', rfl⟩
          have hsub' := nodup_subset_eq h.1 hsub (by simpa using hlen)
          refine .branch (fun k => ?_) (fun k c c' hc hc' => ?_)
          · rw [lookup_none_iff, lookup_none_iff]
            exact ⟨fun hk hk' => hk (hsub' k hk'), fun hk hk' => hk (hsub k hk')⟩
          · obtain ⟨c2, h2, hs⟩ := hall _ (lookup_mem hc)
            rw [hc'] at h2
            cases h2
            exact hs
        · intro hs p hp
          cases hs with
          | branch h1 h2 =>
            have hl := lookup_of_mem h.1 (show (p.1, p.2) ∈ b from hp)
            cases e : lookup p.1 b' with
            | none => rw [(h1 _).2 e] at hl; cases hl
            | some c' => exact ⟨c', rfl, h2 _ _ _ hl e⟩
      · refine ⟨false, by simp [Ast.contentEq, hlen], ?_⟩
        simp only [Bool.false_eq_true, false_iff]
        intro hs
        cases hs with
        | branch h1 h2 =>
          apply hlen
          have hk : ∀ k, k ∈ b.map Prod.fst ↔ k ∈ b'.map Prod.fst := by
            intro k
            have := h1 k
            rw [lookup_none_iff, lookup_none_iff] at this
            exact ⟨fun a => Classical.byContradiction fun b => this.2 b a, fun a => Classical.byContradiction fun b => this.1 b a⟩
          have l1 := nodup_subset_length h.1 fun k => (hk k).1
          have l2 := nodup_subset_length h'.1 fun k => (hk k).2
          simp at l1 l2
          omega
theorem branchEq_spec : (b : List (Str × Kids)) → ∀ (b' : Branch), tidyBranch b → (b'.map Prod.fst).Nodup → tidyBranch b' →
    ∃ r, branchEq b b' = .ok r ∧ (r = true ↔ ∀ p ∈ b, ∃ c', lookup p.1 b' = some c' ∧ SameKids p.2 c')
  | [], b', _, _, _ => ⟨true, rfl, by simp⟩
  | (k, c) :: b, b', h, hn, h' => by
    obtain ⟨r, hr, hiff⟩ := kidsEq_spec c k b' h.1 h'
    obtain ⟨r', hr', hiff'⟩ := branchEq_spec b b' h.2 hn h'
    cases r with
    | false =>
      refine ⟨false, by simp [branchEq, hr, Except.bind], ?_⟩
      simp only [Bool.false_eq_true, false_iff] at hiff ⊢
      intro hall
      exact hiff (hall (k, c) (by simp))
    | true =>
      refine ⟨r', by simp [branchEq, hr, Except.bind, hr'], hiff'.trans ?_⟩
      simp only [List.forall_mem_cons]
      exact ⟨fun hx => ⟨hiff.1 rfl, hx⟩, fun hx => hx.2⟩
theorem kidsEq_spec : (c : Kids) → ∀ (k : Str) (b' : Branch), c.Tidy → tidyBranch b' →
    ∃ r, c.contentEq k b' = .ok r ∧ (r = true ↔ ∃ c', lookup k b' = some c' ∧ SameKids c c')
  | .one n, k, b', h, h' => by
    cases e : lookup k b' with
    | none =>
      refine ⟨false, ?_, by simp⟩
      simp only [Kids.contentEq, Branch.one?, e]
      cases n <;> simp [Ast.contentEq]
    | some c' =>
      cases c' with
      | one n' =>
        have ht : Ast.Tidy n' := by
          have := tidyBranch_iff.1 h' _ (lookup_mem e)
          exact this
        obtain ⟨r, hr, hiff⟩ := contentEq_spec n n' h ht
        refine ⟨r, by simp [Kids.contentEq, Branch.one?, e, hr], hiff.trans ?_⟩
        constructor
        · intro hs; exact ⟨_, rfl, .one hs⟩
        · rintro ⟨c', hc', hs⟩
          cases hc'
          cases hs
          assumption
      | many ns =>
        refine ⟨false, ?_, ?_⟩
        · simp only [Kids.contentEq, Branch.one?, e]
          cases n <;> simp [Ast.contentEq]
        · simp only [Bool.false_eq_true, false_iff]
          rintro ⟨c', hc', hs⟩
          cases hc'
          cases hs
  | .many ns, k, b', h, h' => by
    cases e : lookup k b' with
    | none =>
      refine ⟨false, ?_, by simp⟩
      have : ns.length ≠ 0 := by have := h.1; cases ns <;> simp_all
      simp [Kids.contentEq, Branch.many?, e, this]
    | some c' =>
      cases c' with
      | one n' =>
        refine ⟨false, ?_, ?_⟩
        · have : ns.length ≠ 0 := by have := h.1; cases ns <;> simp_all
          simp [Kids.contentEq, Branch.many?, e, this]
        · simp only [Bool.false_eq_true, false_iff]
          rintro ⟨c', hc', hs⟩
          cases hc'
          cases hs
      | many ns' =>
        have ht : tidyNodes ns' := by
          have := tidyBranch_iff.1 h' _ (lookup_mem e)
          exact this.2
        by_cases hlen : ns.length = ns'.length
        · obtain ⟨r, hr, hiff⟩ := nodesEq_spec ns ns' h.2 ht hlen
          refine ⟨r, by simp [Kids.contentEq, Branch.many?, e, hlen, hr], hiff.trans ?_⟩
          constructor
          · intro hs; exact ⟨_, rfl, .many hs⟩
          · rintro ⟨c', hc', hs⟩
            cases hc'
            cases hs
            assumption
        · refine ⟨false, by simp [Kids.contentEq, Branch.many?, e, hlen], ?_⟩
          simp only [Bool.false_eq_true, false_iff]
          rintro ⟨c', hc', hs⟩
          cases hc'
          cases hs with
          | many hs => exact hlen hs.length
theorem nodesEq_spec : (ns : List Ast) → ∀ (ns' : List Ast), tidyNodes ns → tidyNodes ns' → ns.length = ns'.length →
    ∃ r, nodesEq ns ns' = .ok r ∧ (r = true ↔ SameNodes ns ns')
  | [], ns', _, _, hl => by
    cases ns' with
    | nil => exact ⟨true, by simp [nodesEq], by simp; exact .nil⟩
    | cons => simp at hl
  | n :: ns, ns', h, h', hl => by
    cases ns' with
    | nil => simp at hl
    | cons n' ns' =>
      obtain ⟨r, hr, hiff⟩ := contentEq_spec n n' h.1 h'.1
      obtain ⟨r', hr', hiff'⟩ := nodesEq_spec ns ns' h.2 h'.2 (by simpa using hl)
      cases r with
      | false =>
        refine ⟨false, by simp [nodesEq, hr, Except.bind], ?_⟩
        simp only [Bool.false_eq_true, false_iff] at hiff ⊢
        intro hs
        cases hs
        exact hiff (by assumption)
      | true =>
        refine ⟨r', by simp [nodesEq, hr, Except.bind, hr'], hiff'.trans ?_⟩
        constructor
        · intro hs; exact .cons (hiff.1 rfl) hs
        · intro hs; cases hs; assumption
end

/-! ### Same content is an equivalence -/

mutual
theorem Same.symm : ∀ {a b}, Same a b → Same b a
  | _, _, .leaf h1 h2 => .leaf h2 h1
  | _, _, .extra => .extra
  | _, _, .branch h1 h2 => .branch (fun k => (h1 k).symm) fun k c c' hc hc' => (h2 k c' c hc' hc).symm
theorem SameKids.symm : ∀ {a b}, SameKids a b → SameKids b a
  | _, _, .one h => .one h.symm
  | _, _, .many h => .many h.symm
theorem SameNodes.symm : ∀ {a b}, SameNodes a b → SameNodes b a
  | _, _, .nil => .nil
  | _, _, .cons h h' => .cons h.symm h'.symm
end

mutual
theorem Same.trans : ∀ {a b c}, Same a b → Same b c → Same a c
  | _, _, _, .leaf h1 h2, h => by
    cases h with
    | leaf h3 h4 => rw [h2] at h3; cases h3; exact .leaf h1 h4
  | _, _, _, .extra, h => by cases h; exact .extra
  | _, _, _, .branch (b := b) (b' := b') h1 h2, h => by
    cases h with
    | branch h3 h4 =>
      refine .branch (fun k => (h1 k).trans (h3 k)) fun k c c' hc hc' => ?_
      cases e : lookup k b' with
      | none => rw [(h1 k).2 e] at hc; cases hc
      | some c2 => exact (h2 k c c2 hc e).trans (h4 k c2 c' e hc')
theorem SameKids.trans : ∀ {a b c}, SameKids a b → SameKids b c → SameKids a c
  | _, _, _, .one h, h' => by cases h' with | one h' => exact .one (h.trans h')
  | _, _, _, .many h, h' => by cases h' with | many h' => exact .many (h.trans h')
theorem SameNodes.trans : ∀ {a b c}, SameNodes a b → SameNodes b c → SameNodes a c
  | _, _, _, .nil, h => h
  | _, _, _, .cons h1 h2, h => by cases h with | cons h3 h4 => exact .cons (h1.trans h3) (h2.trans h4)
end

mutual
theorem Same.refl : (a : Ast) → a.Tidy → Same a a
  | .leaf s, h => by obtain ⟨x, hx⟩ := h; exact .leaf hx hx
  | .extra d, _ => .extra
  | .branch b, h => .branch (fun k => Iff.rfl) fun k c c' hc hc' => by
    rw [hc] at hc'
    cases hc'
    exact sameBranch_refl b h.2 (k, c) (lookup_mem hc)
theorem SameKids.refl : (c : Kids) → c.Tidy → SameKids c c
  | .one n, h => .one (Same.refl n h)
  | .many ns, h => .many (SameNodes.refl ns h.2)
theorem SameNodes.refl : (ns : List Ast) → tidyNodes ns → SameNodes ns ns
  | [], _ => .nil
  | n :: ns, h => .cons (Same.refl n h.1) (SameNodes.refl ns h.2)
theorem sameBranch_refl : (b : List (Str × Kids)) → tidyBranch b → ∀ p ∈ b, SameKids p.2 p.2
  | [], _ => by simp
  | (k, c) :: b, h => by
    simp only [List.forall_mem_cons]
    exact ⟨SameKids.refl c h.1, sameBranch_refl b h.2⟩
end

/-! ### Positions -/

theorem lookup_moveBranch (f : Scanner → Scanner) (k : Str) (b : Branch) : lookup k (moveBranch f b) = (lookup k b).map (Kids.move f) := by
  induction b with
  | nil => rfl
  | cons e b ih =>
    obtain ⟨k', c⟩ := e
    simp only [moveBranch, lookup]
    split <;> simp [ih]

theorem length_moveBranch (f : Scanner → Scanner) (b : Branch) : (moveBranch f b).length = b.length := by
  induction b with
  | nil => rfl
  | cons e b ih => obtain ⟨k', c⟩ := e; simp [moveBranch, ih]

theorem length_moveList (f : Scanner → Scanner) (b : List Ast) : (moveList f b).length = b.length := by
  induction b with
  | nil => rfl
  | cons e b ih => simp [moveList, ih]

theorem one_move (f : Scanner → Scanner) (b : Branch) (k : Str) : Branch.one? (moveBranch f b) k = (Branch.one? b k).map (Ast.move f) := by
  simp only [Branch.one?, lookup_moveBranch]
  cases lookup k b with
  | none => rfl
  | some c => cases c <;> rfl

theorem many_move (f : Scanner → Scanner) (b : Branch) (k : Str) : Branch.many? (moveBranch f b) k = moveList f (Branch.many? b k) := by
  simp only [Branch.many?, lookup_moveBranch]
  cases lookup k b with
  | none => rfl
  | some c => cases c <;> rfl

section
variable {f h : Scanner → Scanner} (hf : ∀ s, (f s).toStr = s.toStr) (hh : ∀ s, (h s).toStr = s.toStr)
include hf hh

mutual
theorem contentEq_move : (a : Ast) → ∀ (a' : Option Ast), (a.move f).contentEq (a'.map (Ast.move h)) = a.contentEq a'
  | .leaf s, a' => by
    cases a' with
    | none => rfl
    | some a' => cases a' <;> simp [Ast.move, Ast.contentEq, sameText, hf, hh]
  | .extra d, a' => by
    cases a' with
    | none => rfl
    | some a' => cases a' <;> simp [Ast.move, Ast.contentEq]
  | .branch b, a' => by
    cases a' with
    | none => rfl
    | some a' =>
      cases a' with
      | leaf s => rfl
      | extra d => rfl
      | branch b' =>
        simp only [Option.map_some, Ast.move, Ast.contentEq, length_moveBranch]
        rw [branchEq_move b b']
theorem branchEq_move : (b : List (Str × Kids)) → ∀ (b' : Branch), branchEq (moveBranch f b) (moveBranch h b') = branchEq b b'
  | [], _ => rfl
  | (k, c) :: b, b' => by simp only [moveBranch, branchEq, kidsEq_move c, branchEq_move b]
theorem kidsEq_move : (c : Kids) → ∀ (k : Str) (b' : Branch), (c.move f).contentEq k (moveBranch h b') = c.contentEq k b'
  | .one n, k, b' => by simp only [Kids.move, Kids.contentEq, one_move, contentEq_move n]
  | .many ns, k, b' => by simp only [Kids.move, Kids.contentEq, many_move, length_moveList, nodesEq_move ns]
theorem nodesEq_move : (ns : List Ast) → ∀ (ns' : List Ast), nodesEq (moveList f ns) (moveList h ns') = nodesEq ns ns'
  | [], ns' => by cases ns' <;> rfl
  | n :: ns, ns' => by
    cases ns' with
    | nil => rfl
    | cons n' ns' =>
      have := contentEq_move n (some n')
      simp only [Option.map_some] at this
      simp only [moveList, nodesEq, this, nodesEq_move ns]
end
end

/-! ### Scanner -/

theorem IsHull.spans {xs m} (h : IsHull xs m) : Spans xs m := .inr h

theorem spans_src {src : Source} {xs : List Scanner} {m : Scanner} (hs : ∀ s ∈ xs, s.src = some src) (h : Spans xs m) :
    (xs = [] ∧ m = .zero) ∨ (xs ≠ [] ∧ m.src = some src ∧ IsHull xs m) := by
  rcases h with h | h
  · exact .inl h
  · obtain ⟨x, hx, _⟩ := h.2.1
    refine .inr ⟨fun e => by simp [e] at hx, ?_, h⟩
    rw [← (h.1 x hx).1]
    exact hs x hx

/-- The hull of hulls is the hull of all. -/
theorem IsHull.flatten {xss : List (List Scanner)} {ms : List Scanner} {m : Scanner} (hf : ∀ xs ∈ xss, ∃ m ∈ ms, IsHull xs m)
    (hb : ∀ m ∈ ms, ∃ xs ∈ xss, IsHull xs m) (h : IsHull ms m) : IsHull xss.flatten m := by
  obtain ⟨h1, ⟨a, ha, ha'⟩, ⟨b, hb1, hb'⟩⟩ := h
  refine ⟨?_, ?_, ?_⟩
  · intro x hx
    obtain ⟨xs, hxs, hx⟩ := List.mem_flatten.1 hx
    obtain ⟨m', hm', hh⟩ := hf xs hxs
    obtain ⟨e1, e2, e3⟩ := hh.1 x hx
    obtain ⟨e4, e5, e6⟩ := h1 m' hm'
    exact ⟨e1.trans e4, by omega, by omega⟩
  · obtain ⟨xs, hxs, hh⟩ := hb a ha
    obtain ⟨x, hx, e⟩ := hh.2.1
    exact ⟨x, List.mem_flatten.2 ⟨xs, hxs, hx⟩, e.trans ha'⟩
  · obtain ⟨xs, hxs, hh⟩ := hb b hb1
    obtain ⟨x, hx, e⟩ := hh.2.2
    exact ⟨x, List.mem_flatten.2 ⟨xs, hxs, hx⟩, e.trans hb'⟩

theorem merge_same {ss : List Scanner} {src : Option Source} (hne : ss ≠ []) (h : ∀ s ∈ ss, s.src = src) : ∃ m, mergeScanners ss = some m := by
  cases e : mergeScanners ss with
  | some m => exact ⟨m, rfl⟩
  | none =>
    rcases (C29_merge_error ss).1 e with h' | ⟨x, hx, y, hy, hne'⟩
    · exact absurd h' hne
    · exact absurd ((h x hx).trans (h y hy).symm) hne'

theorem mergeAny_ok {ss : List Scanner} {m : Scanner} (hne : ss ≠ []) (h : mergeScanners ss = some m) : mergeAny ss = .ok m := by
  cases ss with
  | nil => exact absurd rfl hne
  | cons s ss => simp [mergeAny, h]

theorem astLeaves_flatten (ns : List Ast) : astLeaves ns = (ns.map Ast.leaves).flatten := by
  induction ns with
  | nil => rfl
  | cons n ns ih => simp [astLeaves, ih]

/-- What `branchScanners` gives. -/
def Covers (src : Source) (xs : List Scanner) (ss : List Scanner) : Prop :=
  (∀ s ∈ ss, s.src = some src) ∧ (ss = [] ↔ xs = []) ∧ ∀ m, IsHull ss m → IsHull xs m

theorem mergeAny_covers {src : Source} {xs ss : List Scanner} (h : Covers src xs ss) : ∃ m, mergeAny ss = .ok m ∧ Spans xs m := by
  by_cases e : ss = []
  · subst e
    exact ⟨.zero, rfl, .inl ⟨h.2.1.1 rfl, rfl⟩⟩
  · obtain ⟨m, hm⟩ := merge_same e h.1
    exact ⟨m, mergeAny_ok e hm, (h.2.2 m (C29_merge_hull _ _ hm)).spans⟩

theorem mergeAny_zeros : ∀ {ss : List Scanner}, (∀ s ∈ ss, s = .zero) → mergeAny ss = .ok .zero := by
  intro ss h
  by_cases e : ss = []
  · subst e; rfl
  · obtain ⟨m, hm⟩ := merge_same (src := none) e fun s hs => by rw [h s hs]; rfl
    rw [mergeAny_ok e hm]
    have hh := C29_merge_hull _ _ hm
    obtain ⟨x, hx, e1⟩ := hh.2.1
    obtain ⟨y, hy, e2⟩ := hh.2.2
    have e3 := (hh.1 x hx).1
    rw [h x hx] at e1 e3
    rw [h y hy] at e2
    obtain ⟨ms, mst, ml⟩ := m
    simp [Scanner.zero, Scanner.stop] at e1 e2 e3
    subst e3 e1
    simp [Scanner.zero]
    omega

mutual
theorem scanner_spec {src : Source} : (a : Ast) → a.Tagged → (∀ s ∈ a.leaves, s.src = some src) →
    (a.Even → ∃ m, a.scanner = .ok m ∧ Spans a.leaves m) ∧ (¬ a.Even → a.scanner = .error .panic)
  | .leaf s, _, _ => ⟨fun _ => ⟨s, rfl, .inr (by simp [Ast.leaves])⟩, fun h => absurd trivial h⟩
  | .extra _, h, _ => absurd h id
  | .branch b, h, hs => by
    obtain ⟨h1, h2⟩ := branchScanners_spec b h hs
    have hall : (evenBranch b → ∃ m, (branchScanners b).bind mergeAny = .ok m ∧ Spans (branchLeaves b) m) ∧
        (¬ evenBranch b → (branchScanners b).bind mergeAny = .error .panic) := by
      refine ⟨fun he => ?_, fun he => by rw [h2 he]; rfl⟩
      obtain ⟨ss, hss, hc⟩ := h1 he
      obtain ⟨m, hm, hsp⟩ := mergeAny_covers hc
      exact ⟨m, by rw [hss]; exact hm, hsp⟩
    unfold Ast.scanner
    simp only [Ast.Even, Ast.leaves]
    match b, h, hs, hall with
    | [], _, _, hall => exact hall
    | [(k, .one n)], h, hs, hall =>
      by_cases ht : isTagName k = true
      · simp only [ht, if_true]; exact hall
      · simp only [ht, Bool.false_eq_true, if_false]
        simp only [Ast.Tagged, taggedBranch, ht, Bool.false_eq_true, if_false, Kids.Tagged, and_true] at h
        simp only [Ast.leaves, branchLeaves, Kids.leaves, List.append_nil] at hs ⊢
        simp only [evenBranch, ht, Bool.false_eq_true, false_or, Kids.Even, and_true]
        exact scanner_spec n h hs
    | [(k, .many [n])], h, hs, hall =>
      by_cases ht : isTagName k = true
      · simp only [ht, if_true]; exact hall
      · simp only [ht, Bool.false_eq_true, if_false]
        simp only [Ast.Tagged, taggedBranch, ht, Bool.false_eq_true, if_false, Kids.Tagged, taggedList, and_true] at h
        simp only [Ast.leaves, branchLeaves, Kids.leaves, astLeaves, List.append_nil] at hs ⊢
        have := scanner_spec n h hs
        simp only [evenBranch, ht, Bool.false_eq_true, false_or, Kids.Even, evenList, and_true, List.mem_singleton, forall_eq]
        have hem : n.leaves = [] ∨ n.leaves ≠ [] := Classical.em _
        simp only [hem, true_and]
        exact this
    | [(k, .many [])], _, _, hall => exact hall
    | [(k, .many (n :: n' :: ns))], _, _, hall => exact hall
    | (k, .one n) :: q :: b, _, _, hall => exact hall
    | (k, .many []) :: q :: b, _, _, hall => exact hall
    | (k, .many [n]) :: q :: b, _, _, hall => exact hall
    | (k, .many (n :: n' :: ns)) :: q :: b, _, _, hall => exact hall
theorem kidsScanner_spec {src : Source} : (c : Kids) → c.Tagged → (∀ s ∈ c.leaves, s.src = some src) →
    (c.Even → ∃ m, c.scanner = .ok m ∧ Spans c.leaves m) ∧ (¬ c.Even → c.scanner = .error .panic)
  | .one n, h, hs => scanner_spec n h hs
  | .many ns, h, hs => by
    simp only [Kids.leaves] at hs
    obtain ⟨h1, h2⟩ := astScanners_spec ns h hs
    simp only [Kids.Even, Kids.leaves, Kids.scanner]
    by_cases hev : evenList ns
    · obtain ⟨ss, hss, hf, hb⟩ := h1 hev
      rw [hss]
      simp only [Except.bind]
      have hsrc : ∀ n ∈ ns, ∀ s ∈ n.leaves, s.src = some src := fun n hn s hx => hs s (by
        rw [astLeaves_flatten]; exact List.mem_flatten.2 ⟨_, List.mem_map.2 ⟨n, hn, rfl⟩, hx⟩)
      by_cases hz : ∀ n ∈ ns, n.leaves = []
      · have hzero : ∀ s ∈ ss, s = .zero := by
          intro s hx
          obtain ⟨n, hn, hsp⟩ := hb s hx
          rcases spans_src (hsrc n hn) hsp with ⟨_, e⟩ | ⟨e, _⟩
          · exact e
          · exact absurd (hz n hn) e
        refine ⟨fun _ => ⟨.zero, mergeAny_zeros hzero, .inl ⟨?_, rfl⟩⟩, fun hne => absurd ⟨.inl hz, hev⟩ hne⟩
        rw [astLeaves_flatten]
        simpa using hz
      · by_cases hf' : ∀ n ∈ ns, n.leaves ≠ []
        · refine ⟨fun _ => ?_, fun hne => absurd ⟨.inr hf', hev⟩ hne⟩
          have hne : ns ≠ [] := fun e => hz (by simp [e])
          have hne' : ss ≠ [] := by
            intro e
            cases ns with
            | nil => exact hne rfl
            | cons n ns =>
              obtain ⟨m, hm, _⟩ := hf n (by simp)
              simp [e] at hm
          have hss2 : ∀ s ∈ ss, s.src = some src := by
            intro s hx
            obtain ⟨n, hn, hsp⟩ := hb s hx
            rcases spans_src (hsrc n hn) hsp with ⟨e, _⟩ | ⟨_, e, _⟩
            · exact absurd e (hf' n hn)
            · exact e
          obtain ⟨m, hm⟩ := merge_same hne' hss2
          refine ⟨m, mergeAny_ok hne' hm, IsHull.spans ?_⟩
          rw [astLeaves_flatten]
          refine IsHull.flatten ?_ ?_ (C29_merge_hull _ _ hm)
          · intro xs hxs
            obtain ⟨n, hn, rfl⟩ := List.mem_map.1 hxs
            obtain ⟨m, hm, hsp⟩ := hf n hn
            rcases spans_src (hsrc n hn) hsp with ⟨e, _⟩ | ⟨_, _, e⟩
            · exact absurd e (hf' n hn)
            · exact ⟨m, hm, e⟩
          · intro s hx
            obtain ⟨n, hn, hsp⟩ := hb s hx
            refine ⟨_, List.mem_map.2 ⟨n, hn, rfl⟩, ?_⟩
            rcases spans_src (hsrc n hn) hsp with ⟨e, _⟩ | ⟨_, _, e⟩
            · exact absurd e (hf' n hn)
            · exact e
        · refine ⟨fun he => absurd he.1 (fun e => e.elim hz hf'), fun _ => ?_⟩
          simp only [Classical.not_forall] at hz hf'
          obtain ⟨n, hn, hnz⟩ := hz
          obtain ⟨n', hn', hz'⟩ := hf'
          have hz' : n'.leaves = [] := Classical.not_not.1 hz'
          obtain ⟨m, hm, hsp⟩ := hf n hn
          obtain ⟨m', hm', hsp'⟩ := hf n' hn'
          have e1 : m.src = some src := by
            rcases spans_src (hsrc n hn) hsp with ⟨e, _⟩ | ⟨_, e, _⟩
            · exact absurd e hnz
            · exact e
          have e2 : m'.src = none := by
            rcases spans_src (hsrc n' hn') hsp' with ⟨_, e⟩ | ⟨e, _⟩
            · rw [e]; rfl
            · exact absurd hz' e
          have : mergeScanners ss = none := (C29_merge_error ss).2 (.inr ⟨m, hm, m', hm', by rw [e1, e2]; simp⟩)
          cases ss with
          | nil => simp at hm
          | cons s ss => simp [mergeAny, this]
    · rw [h2 hev]
      exact ⟨fun he => absurd he.2 hev, fun _ => rfl⟩
theorem astScanners_spec {src : Source} : (ns : List Ast) → taggedList ns → (∀ s ∈ astLeaves ns, s.src = some src) →
    (evenList ns → ∃ ss, astScanners ns = .ok ss ∧ (∀ n ∈ ns, ∃ s ∈ ss, Spans n.leaves s) ∧ ∀ s ∈ ss, ∃ n ∈ ns, Spans n.leaves s) ∧
    (¬ evenList ns → astScanners ns = .error .panic)
  | [], _, _ => ⟨fun _ => ⟨[], rfl, by simp⟩, fun h => absurd trivial h⟩
  | n :: ns, h, hs => by
    simp only [astLeaves, List.mem_append] at hs
    obtain ⟨h1, h2⟩ := scanner_spec n h.1 fun s hx => hs s (.inl hx)
    obtain ⟨h3, h4⟩ := astScanners_spec ns h.2 fun s hx => hs s (.inr hx)
    simp only [evenList]
    by_cases e1 : n.Even
    · obtain ⟨m, hm, hsp⟩ := h1 e1
      simp only [astScanners, hm, Except.bind]
      by_cases e2 : evenList ns
      · obtain ⟨ss, hss, hf, hb⟩ := h3 e2
        refine ⟨fun _ => ⟨m :: ss, by rw [hss], ?_, ?_⟩, fun hn => absurd ⟨e1, e2⟩ hn⟩
        · simp only [List.forall_mem_cons]
          refine ⟨⟨m, by simp, hsp⟩, fun n hn => ?_⟩
          obtain ⟨s, hs', hsp⟩ := hf n hn
          exact ⟨s, by simp [hs'], hsp⟩
        · simp only [List.forall_mem_cons]
          refine ⟨⟨n, by simp, hsp⟩, fun s hx => ?_⟩
          obtain ⟨n, hn, hsp⟩ := hb s hx
          exact ⟨n, by simp [hn], hsp⟩
      · rw [h4 e2]
        exact ⟨fun h => absurd h.2 e2, fun _ => rfl⟩
    · simp only [astScanners, h2 e1, Except.bind]
      exact ⟨fun h => absurd h.1 e1, fun _ => trivial⟩
theorem branchScanners_spec {src : Source} : (b : List (Str × Kids)) → taggedBranch b → (∀ s ∈ branchLeaves b, s.src = some src) →
    (evenBranch b → ∃ ss, branchScanners b = .ok ss ∧ Covers src (branchLeaves b) ss) ∧ (¬ evenBranch b → branchScanners b = .error .panic)
  | [], _, _ => ⟨fun _ => ⟨[], rfl, by simp, by simp [branchLeaves], fun m h => by obtain ⟨_, ⟨x, hx, _⟩, _⟩ := h; simp at hx⟩, fun h => absurd trivial h⟩
  | (k, c) :: b, h, hs => by
    simp only [branchLeaves, List.mem_append] at hs
    obtain ⟨h3, h4⟩ := branchScanners_spec b h.2 fun s hx => hs s (.inr hx)
    simp only [evenBranch, branchScanners, branchLeaves]
    by_cases ht : isTagName k = true
    · have h1 := h.1
      simp only [ht, if_true] at h1
      simp only [ht, if_true, true_or, true_and, h1, List.nil_append]
      exact ⟨h3, h4⟩
    · have h1 := h.1
      simp only [ht, Bool.false_eq_true, if_false] at h1
      simp only [ht, Bool.false_eq_true, if_false, false_or]
      obtain ⟨h1, h2⟩ := kidsScanner_spec c h1 fun s hx => hs s (.inl hx)
      by_cases e1 : c.Even
      · obtain ⟨m, hm, hsp⟩ := h1 e1
        simp only [hm, Except.bind]
        by_cases e2 : evenBranch b
        · refine ⟨fun _ => ?_, fun hn => absurd ⟨e1, e2⟩ hn⟩
          obtain ⟨ss, hss, hc1, hc2, hc3⟩ := h3 e2
          rw [hss]
          refine ⟨_, rfl, ?_⟩
          rcases spans_src (fun s hx => hs s (.inl hx)) hsp with ⟨e3, e4⟩ | ⟨e3, e4, e5⟩
          · rw [e4, e3]
            simp only [Scanner.isNil, Scanner.zero, Option.isNone_none, if_true, List.nil_append]
            exact ⟨hc1, hc2, hc3⟩
          · simp only [Scanner.isNil, e4, Option.isNone_some, Bool.false_eq_true, if_false]
            refine ⟨?_, ?_, ?_⟩
            · simp only [List.forall_mem_cons]
              exact ⟨e4, hc1⟩
            · simp [e3]
            · intro m' hm'
              by_cases e6 : ss = []
              · rw [hc2.1 e6, List.append_nil]
                rw [e6] at hm'
                have := IsHull.flatten (xss := [c.leaves]) (ms := [m]) (by simpa using e5) (by simpa using e5) hm'
                simpa using this
              · obtain ⟨m2, hm2⟩ := merge_same e6 hc1
                have hh2 := C29_merge_hull _ _ hm2
                have key : IsHull [m, m2] m' := by
                  obtain ⟨a1, ⟨a2, a3, a4⟩, ⟨a5, a6, a7⟩⟩ := hm'
                  obtain ⟨b1, ⟨b2, b3, b4⟩, ⟨b5, b6, b7⟩⟩ := hh2
                  have c1 := a1 b2 (by simp [b3])
                  have c2 := a1 b5 (by simp [b6])
                  have c3 := a1 m (by simp)
                  have c4 := b1 b2 b3
                  refine ⟨?_, ?_, ?_⟩
                  · simp only [List.mem_cons, List.not_mem_nil, or_false, forall_eq_or_imp, forall_eq]
                    exact ⟨c3, c4.1.symm.trans c1.1, by omega, by omega⟩
                  · rcases List.mem_cons.1 a3 with e | a3
                    · exact ⟨m, by simp, e ▸ a4⟩
                    · have := b1 a2 a3
                      exact ⟨m2, by simp, by omega⟩
                  · rcases List.mem_cons.1 a6 with e | a6
                    · exact ⟨m, by simp, e ▸ a7⟩
                    · have := b1 a5 a6
                      exact ⟨m2, by simp, by omega⟩
                have := IsHull.flatten (xss := [c.leaves, branchLeaves b]) (ms := [m, m2])
                  (by simp only [List.mem_cons, List.not_mem_nil, or_false, forall_eq_or_imp, forall_eq]
                      exact ⟨⟨m, by simp, e5⟩, ⟨m2, by simp, hc3 m2 hh2⟩⟩)
                  (by simp only [List.mem_cons, List.not_mem_nil, or_false, forall_eq_or_imp, forall_eq]
                      exact ⟨⟨_, .inl rfl, e5⟩, ⟨_, .inr rfl, hc3 m2 hh2⟩⟩) key
                simpa using this
        · rw [h4 e2]
          exact ⟨fun h => absurd h.2 e2, fun _ => rfl⟩
      · simp only [h2 e1, Except.bind]
        exact ⟨fun h => absurd h.1 e1, fun _ => trivial⟩
end

end Wbnf

import Verif.Lemmas.PartsBy
import Verif.Lemmas.FromTree
import Verif.Props.Helpers
import Verif.Model.Views

/-!
# Parts of small trees

Inversion of `PartsBy`, with a bound on the size of the tree.
-/

namespace Wbnf

variable {L : Term → Scanner → Prop} {G : Grammar} {n : Nat} {t sep : Term} {ps : List (Str × Ast)} {ws : List Str}

/-- The texts of the leaves. -/
def wordsOf (vs : List Tree) : List Str := (leavesList vs).map fun s => s.toStr.getD []

theorem wordsOf_nil : wordsOf [] = [] := rfl

theorem wordsOf_cons {v : Tree} {vs : List Tree} : wordsOf (v :: vs) = wordsOf [v] ++ wordsOf vs := by
  simp [wordsOf, leavesList]

theorem wordsOf_node {tag : Str} {x : Extra} {vs : List Tree} : wordsOf [.node tag x vs] = wordsOf vs := by
  simp [wordsOf, leavesList, Tree.leaves]

theorem wordsOf_empty {vs : List Tree} : wordsOf (.empty :: vs) = wordsOf vs := by
  simp [wordsOf, leavesList, Tree.leaves]

theorem wordsOf_leaf {s : Scanner} : wordsOf [.leaf s] = [s.toStr.getD []] := rfl

/-- The parts of a tree of size less than `n`, and the texts of its leaves. -/
def PartsLt (L : Term → Scanner → Prop) (G : Grammar) (n : Nat) (t : Term) (ps : List (Str × Ast)) (ws : List Str) : Prop :=
  ∃ v : Tree, sizeOf v < n ∧ PartsBy L G t v ps ∧ wordsOf [v] = ws

/-- The parts of trees of size less than `n`, one for each term. -/
def PartsLtSeq (L : Term → Scanner → Prop) (G : Grammar) (n : Nat) : List Term → List (Str × Ast) → List Str → Prop
  | [], ps, ws => ps = [] ∧ ws = []
  | t :: ts, ps, ws => ∃ p p' w w', ps = p ++ p' ∧ ws = w ++ w' ∧ PartsLt L G n t p w ∧ PartsLtSeq L G n ts p' w'

theorem PartsLt.mono {m : Nat} (h : PartsLt L G n t ps ws) (hm : n ≤ m) : PartsLt L G m t ps ws := by
  obtain ⟨v, h1, h2⟩ := h
  exact ⟨v, by omega, h2⟩

theorem PartsLt.zero (h : PartsLt L G 0 t ps ws) : False := by
  obtain ⟨v, h1, _⟩ := h
  omega

theorem size_child {tag : Str} {x : Extra} {vs : List Tree} {v : Tree} (h : v ∈ vs) : sizeOf v < sizeOf (Tree.node tag x vs) := by
  have := List.sizeOf_lt_of_mem h
  simp only [Tree.node.sizeOf_spec]
  omega

theorem PartsBySeq.lt : ∀ {ts : List Term} {vs : List Tree} {ps}, PartsBySeq L G ts vs ps → (∀ v ∈ vs, sizeOf v < n) →
    PartsLtSeq L G n ts ps (wordsOf vs)
  | _, _, _, .nil, _ => ⟨rfl, rfl⟩
  | _, _, _, .cons h h', hs => ⟨_, _, _, _, rfl, wordsOf_cons, ⟨_, hs _ (by simp), h, rfl⟩, h'.lt fun v hv => hs v (by simp [hv])⟩

theorem PartsLt.seq {ts : List Term} (h : PartsLt L G (n + 1) (.seq ts) ps ws) : PartsLtSeq L G n ts ps ws := by
  obtain ⟨v, hv, h, rfl⟩ := h
  cases h with
  | seq h => rw [wordsOf_node]; exact h.lt fun w hw => by have := size_child (tag := ‹_›) (x := .nil) hw; omega

theorem PartsLt.lit {l : Str} (h : PartsLt L G n (.s l) ps ws) : ∃ s, ps = [([], .leaf s)] ∧ L (.s l) s ∧ ws = [s.toStr.getD []] := by
  obtain ⟨v, hv, h, rfl⟩ := h
  cases h with
  | lit h => exact ⟨_, rfl, h, rfl⟩

theorem PartsLt.re {l : Str} (h : PartsLt L G n (.re l) ps ws) : ∃ s, ps = [([], .leaf s)] ∧ L (.re l) s ∧ ws = [s.toStr.getD []] := by
  obtain ⟨v, hv, h, rfl⟩ := h
  cases h with
  | regexp h => exact ⟨_, rfl, h, rfl⟩

theorem PartsLt.rule {r : Str} {t : Term} (hl : lookup r G = some t) (h : PartsLt L G n (.rule r) ps ws) :
    ∃ b p, ps = [(shownName r, .branch b)] ∧ PartsLt L G n t p ws ∧ Groups t p b := by
  obtain ⟨v, hv, h, rfl⟩ := h
  cases h with
  | rule h h1 h2 =>
    rw [hl] at h
    cases h
    exact ⟨_, _, rfl, ⟨_, hv, h1, rfl⟩, h2⟩

theorem PartsLt.named {k : Str} (h : PartsLt L G n (.named k t) ps ws) :
    ∃ b p, ps = [(k, .branch b)] ∧ PartsLt L G n t p ws ∧ Groups t p b := by
  obtain ⟨v, hv, h, rfl⟩ := h
  cases h with
  | named h1 h2 => exact ⟨_, _, rfl, ⟨_, hv, h1, rfl⟩, h2⟩

theorem PartsLt.cut (h : PartsLt L G n (.cut t) ps ws) : PartsLt L G n t ps ws := by
  obtain ⟨v, hv, h, rfl⟩ := h
  cases h with
  | cut h => exact ⟨_, hv, h, rfl⟩

theorem PartsLt.scope {g : Grammar} (h : PartsLt L G n (.scope t g) ps ws) : PartsLt L G n t ps ws := by
  obtain ⟨v, hv, h, rfl⟩ := h
  cases h with
  | scope h => exact ⟨_, hv, h, rfl⟩

theorem PartsLt.oneof {ts : List Term} (h : PartsLt L G (n + 1) (.oneof ts) ps ws) :
    ∃ i t p, ts[i]? = some t ∧ ps = (choiceTag, .extra (.choice i)) :: p ∧ PartsLt L G n t p ws := by
  obtain ⟨v, hv, h, rfl⟩ := h
  cases h with
  | @oneof _ i t tag v p hi h =>
    refine ⟨_, _, _, hi, rfl, _, ?_, h, wordsOf_node.symm⟩
    have := size_child (tag := tag) (x := .choice i) (List.mem_singleton.2 (rfl : v = v))
    omega

/-- The parts of repetitions, in order. -/
inductive PartsLtReps (L : Term → Scanner → Prop) (G : Grammar) (n : Nat) (t : Term) : Nat → List (Str × Ast) → List Str → Prop
  | nil : PartsLtReps L G n t 0 [] []
  | cons {k p w ps ws} : PartsLt L G n t p w → PartsLtReps L G n t k ps ws → PartsLtReps L G n t (k + 1) (p ++ ps) (w ++ ws)

theorem PartsByReps.lt : ∀ {t : Term} {vs : List Tree} {ps}, PartsByReps L G t vs ps → (∀ v ∈ vs, sizeOf v < n) →
    PartsLtReps L G n t vs.length ps (wordsOf vs)
  | _, _, _, .nil, _ => .nil
  | _, _, _, .cons h h', hs => by
    rw [wordsOf_cons]
    exact .cons ⟨_, hs _ (by simp), h, rfl⟩ (h'.lt fun v hv => hs v (by simp [hv]))

theorem PartsLt.quant {lo hi : Nat} (h : PartsLt L G (n + 1) (.quant t lo hi) ps ws) :
    ∃ k, lo ≤ k ∧ (hi = 0 ∨ k ≤ hi) ∧ PartsLtReps L G n t k ps ws := by
  obtain ⟨v, hv, h, rfl⟩ := h
  cases h with
  | quant h1 h2 h =>
    have := h.lt (n := n) fun w hw => by have := size_child (tag := ‹_›) (x := .nil) hw; omega
    rw [wordsOf_node]
    exact ⟨_, h1, h2, this⟩

theorem PartsLt.opt (h : PartsLt L G (n + 1) (.quant t 0 1) ps ws) : ps = [] ∧ ws = [] ∨ PartsLt L G n t ps ws := by
  obtain ⟨k, _, h2, h3⟩ := h.quant
  cases h3 with
  | nil => exact .inl ⟨rfl, rfl⟩
  | cons h1 h' =>
    cases h' with
    | nil => exact .inr (by simpa using h1)
    | cons => omega

/-- What comes after an item of a list: separators and items in turn. -/
inductive PartsLtTail (L : Term → Scanner → Prop) (G : Grammar) (n : Nat) (ce : Bool) (t sep : Term) : List (Str × Ast) → List Str → Prop
  | nil : PartsLtTail L G n ce t sep [] []
  | cons {q u p w ps ws} : PartsLt L G n sep q u → PartsLt L G n t p w → PartsLtTail L G n ce t sep ps ws →
      PartsLtTail L G n ce t sep (q ++ p ++ ps) (u ++ w ++ ws)
  | trail {q u x} : ce = true → PartsLt L G n sep q u → PartsLtTail L G n ce t sep (q ++ [(emptyTag, x)]) u

theorem PartsByList.lt : ∀ {ce : Bool} {t sep : Term} {vs : List Tree} {ps}, PartsByList L G ce t sep vs ps → (∀ v ∈ vs, sizeOf v < n) →
    PartsLtTail L G n ce t sep ps (wordsOf vs)
  | _, _, _, _, _, .nil, _ => .nil
  | _, _, _, s :: v :: vs, _, .cons h1 h2 h3, hs => by
    rw [wordsOf_cons, wordsOf_cons (vs := vs), ← List.append_assoc]
    exact .cons ⟨_, hs _ (by simp), h1, rfl⟩ ⟨_, hs _ (by simp), h2, rfl⟩ (h3.lt fun v hv => hs v (by simp [hv]))
  | _, _, _, _, _, .trail hc h1, hs => by
    rw [wordsOf_cons, wordsOf_empty, wordsOf_nil, List.append_nil]
    exact .trail hc ⟨_, hs _ (by simp), h1, rfl⟩

theorem PartsLt.delim {a : Int} {cs ce : Bool} (h : PartsLt L G (n + 1) (.delim t sep a cs ce) ps ws) :
    ∃ pre u p w post ws', ps = pre ++ p ++ post ∧ ws = u ++ w ++ ws' ∧ PartsLt L G n t p w ∧ PartsLtTail L G n ce t sep post ws' ∧
      (pre = [] ∧ u = [] ∨ cs = true ∧ ∃ x q, pre = (emptyTag, x) :: q ∧ PartsLt L G n sep q u) := by
  obtain ⟨v, hv, h, rfl⟩ := h
  cases h with
  | @delim _ _ _ _ _ tag v vs p p' h1 h2 =>
    have hs : ∀ w ∈ v :: vs, sizeOf w < n := fun w hw => by have := size_child (tag := tag) (x := .assoc 0) hw; omega
    refine ⟨[], [], _, _, _, _, rfl, ?_, ⟨_, hs _ (by simp), h1, rfl⟩, h2.lt fun w hw => hs w (by simp [hw]), .inl ⟨rfl, rfl⟩⟩
    rw [wordsOf_node, wordsOf_cons]
    rfl
  | @delimLead _ _ _ _ _ tag s v vs p hcs hne h2 =>
    have hs : ∀ w ∈ Tree.empty :: s :: v :: vs, sizeOf w < n := fun w hw => by
      have := size_child (tag := tag) (x := .assoc 0) hw; omega
    cases h2 with
    | @cons _ _ _ _ _ _ q p p' h1 h2 h3 =>
      refine ⟨(emptyTag, _) :: q, _, p, _, p', _, by simp; rfl, ?_, ⟨_, hs _ (by simp), h2, rfl⟩, h3.lt fun w hw => hs w (by simp [hw]),
        .inr ⟨hcs, _, _, rfl, _, hs _ (by simp), h1, rfl⟩⟩
      rw [wordsOf_node, wordsOf_empty, wordsOf_cons, wordsOf_cons (vs := vs), List.append_assoc]
    | trail => exact absurd rfl hne

/-! The same without a smaller bound -/

theorem PartsLt.seq' {ts : List Term} (h : PartsLt L G n (.seq ts) ps ws) : PartsLtSeq L G n ts ps ws := (h.mono (Nat.le_succ n)).seq

theorem PartsLt.opt' (h : PartsLt L G n (.quant t 0 1) ps ws) : ps = [] ∧ ws = [] ∨ PartsLt L G n t ps ws := (h.mono (Nat.le_succ n)).opt

theorem PartsLt.quant' {lo hi : Nat} (h : PartsLt L G n (.quant t lo hi) ps ws) :
    ∃ k, lo ≤ k ∧ (hi = 0 ∨ k ≤ hi) ∧ PartsLtReps L G n t k ps ws :=
  (h.mono (Nat.le_succ n)).quant

theorem PartsLt.oneof' {ts : List Term} (h : PartsLt L G n (.oneof ts) ps ws) :
    ∃ i t p, ts[i]? = some t ∧ ps = (choiceTag, .extra (.choice i)) :: p ∧ PartsLt L G n t p ws := (h.mono (Nat.le_succ n)).oneof

theorem PartsLt.delim' {a : Int} {cs ce : Bool} (h : PartsLt L G n (.delim t sep a cs ce) ps ws) :
    ∃ pre u p w post ws', ps = pre ++ p ++ post ∧ ws = u ++ w ++ ws' ∧ PartsLt L G n t p w ∧ PartsLtTail L G n ce t sep post ws' ∧
      (pre = [] ∧ u = [] ∨ cs = true ∧ ∃ x q, pre = (emptyTag, x) :: q ∧ PartsLt L G n sep q u) := (h.mono (Nat.le_succ n)).delim

/-! ## Branches -/

theorem partsNamed_nil (k : Str) : partsNamed k [] = [] := rfl

theorem mem_partsNamed {k : Str} {a : Ast} : a ∈ partsNamed k ps ↔ (k, a) ∈ ps := by
  simp [partsNamed]

theorem Groups.first {b} (h : Groups t ps b) (k : Str) : (Ast.branch b).first k = (partsNamed k ps).head? := by
  rw [(C52_stored b k).2.2, groups_all h]

theorem Groups.hasName {b} (h : Groups t ps b) (k : Str) : hasKey k b = !(partsNamed k ps).isEmpty := by
  have hk := h.2 k
  split at hk
  · next e => simp [hasKey, hk, e]
  · next x xs e =>
    rw [e]
    by_cases hc : AtMostOne t k ∧ k ≠ choiceTag ∧ k ≠ emptyTag
    · simp [hasKey, (hk.1 hc).2]
    · simp [hasKey, hk.2 hc]

theorem Groups.one {b k x} (h : Groups t ps b) (ha : AtMostOne t k) (hk : k ≠ choiceTag ∧ k ≠ emptyTag) (hp : partsNamed k ps = [x]) :
    Branch.one? b k = some x := by
  have h := h.2 k
  rw [hp] at h
  simp [Branch.one?, (h.1 ⟨ha, hk⟩).2]

/-- The text of a branch with one part is that of the part. -/
theorem Groups.text {b k x} (h : Groups t [(k, x)] b) (hk : isTagName k = false) : (Ast.branch b).text = x.text := by
  have hb : b = [(k, .one x)] ∨ b = [(k, .many [x])] := by
    obtain ⟨hn, hl⟩ := h
    have h1 := hl k
    simp only [partsNamed_one, if_true] at h1
    have h2 : ∀ j, j ≠ k → lookup j b = none := fun j hj => by
      have := hl j
      simpa [partsNamed_one, Ne.symm hj] using this
    have h3 : lookup k b = some (.one x) ∨ lookup k b = some (.many [x]) := by
      by_cases hc : AtMostOne t k ∧ k ≠ choiceTag ∧ k ≠ emptyTag
      · exact .inl (h1.1 hc).2
      · exact .inr (h1.2 hc)
    match b, hn, h2, h3 with
    | [], _, _, h3 => simp [lookup] at h3
    | [(j, c)], _, h2, h3 =>
      have : j = k := by
        apply Classical.byContradiction
        intro hj
        have := h2 j hj
        simp [lookup] at this
      subst this
      simpa [lookup] using h3
    | (j, c) :: (j', c') :: b, hn, h2, _ =>
      have e1 : j = k := by
        apply Classical.byContradiction
        intro hj
        have := h2 j hj
        simp [lookup] at this
      have e2 : j' = k := by
        apply Classical.byContradiction
        intro hj
        have := h2 j' hj
        simp only [List.map_cons, List.nodup_cons, List.mem_cons] at hn
        simp only [lookup] at this
        split at this
        · cases this
        · simp at this
      subst e1 e2
      simp at hn
  rcases hb with rfl | rfl <;> simp [Ast.text, Ast.scanner, hk]

end Wbnf

import Verif.Spec.AstString
import Verif.Lemmas.CodegenOrder
import Verif.Lemmas.Parts
import Verif.Lemmas.Stacks
import Verif.Lemmas.AstQuery

/-!
# Printed ASTs can be read back
-/

namespace Wbnf

/-! ## Without the newlines and the spaces after them -/

/-- Drop newlines and the spaces after them. -/
def squash : Bool → Str → Str
  | _, [] => []
  | skip, c :: s => if c = 10 then squash true s else if skip && c = 32 then squash true s else c :: squash false s

/-- Does a text end in a newline and spaces? -/
def ragged : Bool → Str → Bool
  | skip, [] => skip
  | skip, c :: s => if c = 10 then ragged true s else if skip && c = 32 then ragged true s else ragged false s

theorem squash_append : ∀ (b : Bool) (s t : Str), squash b (s ++ t) = squash b s ++ squash (ragged b s) t
  | _, [], _ => rfl
  | b, c :: s, t => by
    simp only [List.cons_append, squash, ragged]
    split
    · exact squash_append _ s t
    · split
      · exact squash_append _ s t
      · rw [squash_append _ s t]; rfl

theorem ragged_append : ∀ (b : Bool) (s t : Str), ragged b (s ++ t) = ragged (ragged b s) t
  | _, [], _ => rfl
  | b, c :: s, t => by
    simp only [List.cons_append, ragged]
    split
    · exact ragged_append _ s t
    · split <;> exact ragged_append _ s t

theorem squash_line : ∀ {s : Str}, (10 : UInt8) ∉ s → squash false s = s ∧ ragged false s = false
  | [], _ => ⟨rfl, rfl⟩
  | c :: s, h => by
    simp only [List.mem_cons, not_or] at h
    have := squash_line h.2
    simp only [squash, ragged, if_neg (Ne.symm h.1), Bool.false_and, Bool.false_eq_true, if_false, this, and_self]

/-- Begins with something that is not dropped, and does not end in a newline. -/
def Neat (s : Str) : Prop := ∃ c t, s = c :: t ∧ c ≠ 32 ∧ c ≠ 10 ∧ ragged false s = false

theorem Neat.any {s : Str} (h : Neat s) (b : Bool) : squash b s = squash false s ∧ ragged b s = false := by
  obtain ⟨c, t, rfl, h1, h2, h3⟩ := h
  simp only [squash, ragged, if_neg h2, h1, decide_false, Bool.and_false, Bool.false_eq_true, if_false] at h3 ⊢
  exact ⟨trivial, h3⟩

theorem squash_replace {k : Nat} : ∀ (b : Bool) (s : Str), squash b (replaceByte 10 (10 :: List.replicate k 32) s) = squash b s ∧
    ragged b (replaceByte 10 (10 :: List.replicate k 32) s) = ragged b s
  | _, [] => ⟨rfl, rfl⟩
  | b, c :: s => by
    have sp : ∀ (k : Nat), squash true (List.replicate k 32) = [] ∧ ragged true (List.replicate k 32) = true := by
      intro k
      induction k with
      | zero => exact ⟨rfl, rfl⟩
      | succ k ih => simpa [List.replicate_succ, squash, ragged] using ih
    have ih := fun b => squash_replace (k := k) b s
    unfold replaceByte at ih ⊢
    rw [List.flatMap_cons]
    by_cases hc : c = 10
    · subst hc
      simp only [if_true, List.cons_append, squash, ragged, squash_append, ragged_append, sp, ih, List.nil_append, and_self]
    · simp only [if_neg hc, List.cons_append, List.nil_append, squash, ragged]
      split
      · exact ih _
      · rw [(ih false).1]; exact ⟨rfl, (ih false).2⟩

theorem pre_eq (c : Bool) : (if c = true then [32, 32] else [] : Str) = List.replicate (if c = true then 2 else 0) 32 := by cases c <;> rfl

/-- The same with nothing dropped. -/
theorem Neat.replace {s : Str} (h : Neat s) (k : Nat) : Neat (replaceByte 10 (10 :: List.replicate k 32) s) := by
  have := squash_replace (k := k) false s
  obtain ⟨c, t, rfl, h1, h2, h3⟩ := h
  refine ⟨c, replaceByte 10 (10 :: List.replicate k 32) t, by simp [replaceByte, h2], h1, h2, by rw [this.2, h3]⟩

/-- Pieces with separators, all of them neat. -/
theorem squash_separated {sep sep' : Str} (hs : ∀ b, squash b sep = sep' ∧ ∃ r, ragged b sep = r) : ∀ {ss : List Str}, (∀ s ∈ ss, Neat s) →
    squash false (ss.flatMap (sep ++ ·)) = (ss.map (squash false)).flatMap (sep' ++ ·) ∧ ragged false (ss.flatMap (sep ++ ·)) = false
  | [], _ => ⟨rfl, rfl⟩
  | s :: ss, h => by
    have ih := squash_separated hs (ss := ss) (fun s hs => h s (by simp [hs]))
    have hn := (h s (by simp)).any (ragged false sep)
    simp only [List.flatMap_cons, List.map_cons, squash_append, ragged_append, hn, ih, (hs false).1, and_self]

theorem squash_separated' {b : Bool} {sep sep' : Str} (hs : ∀ b, squash b sep = sep') {ss : List Str} (h : ∀ s ∈ ss, Neat s) (hne : ss ≠ [] ∨ b = false) :
    squash b (separated sep ss) = separated sep' (ss.map (squash false)) ∧ ragged b (separated sep ss) = false := by
  cases ss with
  | nil =>
    rcases hne with h | rfl
    · exact absurd rfl h
    · exact ⟨rfl, rfl⟩
  | cons s ss =>
    have hn := (h s (by simp)).any b
    have ht := squash_separated (sep := sep) (sep' := sep') (fun b => ⟨hs b, _, rfl⟩) (ss := ss) (fun s hs => h s (by simp [hs]))
    simp only [separated, List.map_cons, squash_append, ragged_append, hn, ht, and_self]

/-- The text of several nodes, without newlines. -/
def manyFlat (complex : Bool) (us : List Str) : Str :=
  [91] ++ separated (if complex then [44] else [44, 32]) us ++ (if complex then [44] else []) ++ [93]

theorem squash_many {complex : Bool} {ss : List Str} (h : ∀ s ∈ ss, Neat s) (hc : complex = true → ss ≠ []) :
    squash false (manyString complex ss) = manyFlat complex (ss.map (squash false)) ∧ Neat (manyString complex ss) := by
  have h1 : ∀ s ∈ ss.map (replaceByte 10 (10 :: List.replicate (if complex = true then 2 else 0) 32)), Neat s := by
    intro s hs
    obtain ⟨t, ht, rfl⟩ := List.mem_map.1 hs
    exact (h t ht).replace _
  have h2 : (ss.map (replaceByte 10 (10 :: List.replicate (if complex = true then 2 else 0) 32))).map (squash false) = ss.map (squash false) := by
    rw [List.map_map]
    exact List.map_congr_left fun s _ => (squash_replace false s).1
  have h3 := fun b sep sep' hs hne => squash_separated' (b := b) (sep := sep) (sep' := sep') hs h1 hne
  rw [h2] at h3
  unfold manyString manyFlat
  simp only [pre_eq]
  cases complex with
  | true =>
    have h4 := h3 true [44, 10, 32, 32] [44] (by intro b; cases b <;> rfl) (.inl (by simpa using hc rfl))
    simp only [if_true, List.replicate, List.cons_append, List.nil_append] at h4 ⊢
    simp only [squash, ragged, squash_append, ragged_append]
    refine ⟨?_, ⟨91, _, rfl, by decide, by decide, ?_⟩⟩
    · simp only [h4]
      simp
    · simp [ragged, ragged_append, h4]
  | false =>
    have h4 := h3 false [44, 32] [44, 32] (by intro b; cases b <;> rfl) (.inr rfl)
    simp only [Bool.false_eq_true, if_false, List.replicate, List.append_nil] at h4 ⊢
    refine ⟨?_, ⟨91, _, rfl, by decide, by decide, ?_⟩⟩
    · simp [squash, squash_append, h4]
    · simp [ragged, ragged_append, h4]

/-! ## Branches -/

/-- An entry of a branch, without newlines. -/
def entryFlat (name u : Str) : Str := (if name = [] then [39, 39] else name) ++ [58, 32] ++ u

/-- The text of a branch, from its entries in order. -/
def branchFlat (es : List (Str × Str)) : Str :=
  [40] ++ separated [44] (es.map fun e => entryFlat e.1 (squash false e.2)) ++ (if 1 < es.length then [44] else []) ++ [41]

/-- The entries in the order of their names. -/
def sortEntries (es : List (Str × Str)) : List (Str × Str) := (sortStrings (es.map (·.1))).map fun name => (name, (lookup name es).getD [])

theorem Identifier.line {s : Str} (h : Identifier s) : (10 : UInt8) ∉ s := fun hm => by
  have := (h 10 hm).1
  revert this; decide

theorem entry_neat {name u : Str} (hi : Identifier name) (hu : Neat u) :
    squash false ((if name = [] then [39, 39] else name) ++ [58, 32] ++ u) = entryFlat name (squash false u) ∧ Neat ((if name = [] then [39, 39] else name) ++ [58, 32] ++ u) := by
  have hn : (10 : UInt8) ∉ (if name = [] then [39, 39] else name) ++ [58, 32] := by
    split
    · decide
    · have := hi.line
      simp [this]
  have h1 := squash_line hn
  refine ⟨by rw [squash_append, h1.1, h1.2]; rfl, ?_⟩
  have h2 : ragged false ((if name = [] then [39, 39] else name) ++ [58, 32] ++ u) = false := by rw [ragged_append, h1.2, (hu.any _).2]
  cases name with
  | nil => exact ⟨39, _, rfl, by decide, by decide, h2⟩
  | cons c name =>
    have hc := hi c (by simp)
    refine ⟨c, _, rfl, hc.2.1, ?_, h2⟩
    rintro rfl
    have := hc.1
    revert this; decide

theorem squash_branch {es : List (Str × Str)} (hi : ∀ e ∈ sortEntries es, Identifier e.1) (h : ∀ e ∈ sortEntries es, Neat e.2) :
    squash false (branchString es) = branchFlat (sortEntries es) ∧ Neat (branchString es) := by
  have hl : (sortEntries es).length = es.length := by simp [sortEntries, (sortStrings_perm _).length_eq]
  have hitems : ∀ k, ((sortStrings (es.map (·.1))).map fun name =>
      (if name = [] then [39, 39] else name) ++ [58, 32] ++ replaceByte 10 (10 :: List.replicate k 32) ((lookup name es).getD [])) =
      (sortEntries es).map fun e => (if e.1 = [] then [39, 39] else e.1) ++ [58, 32] ++ replaceByte 10 (10 :: List.replicate k 32) e.2 := by
    intro k
    simp [sortEntries]
  unfold branchString branchFlat
  simp only [hl]
  have hk : (if 1 < es.length then [32, 32] else [] : Str) = List.replicate (if 1 < es.length then 2 else 0) 32 := by split <;> rfl
  rw [hk, hitems]
  have hn : ∀ s ∈ (sortEntries es).map fun e => (if e.1 = [] then [39, 39] else e.1) ++ [58, 32] ++ replaceByte 10 (10 :: List.replicate (if 1 < es.length then 2 else 0) 32) e.2, Neat s := by
    intro s hs
    obtain ⟨e, he, rfl⟩ := List.mem_map.1 hs
    exact (entry_neat (hi e he) ((h e he).replace _)).2
  have hm : ((sortEntries es).map fun e => (if e.1 = [] then [39, 39] else e.1) ++ [58, 32] ++ replaceByte 10 (10 :: List.replicate (if 1 < es.length then 2 else 0) 32) e.2).map (squash false) =
      (sortEntries es).map fun e => entryFlat e.1 (squash false e.2) := by
    rw [List.map_map]
    refine List.map_congr_left fun e he => ?_
    simp only [Function.comp_apply]
    rw [(entry_neat (hi e he) ((h e he).replace _)).1, (squash_replace false e.2).1]
  have h3 := fun b hne => squash_separated' (b := b) (sep := [44, 10, 32, 32]) (sep' := [44]) (by intro b; cases b <;> rfl) hn hne
  rw [hm] at h3
  have h0 : 1 < es.length → ((sortEntries es).map fun e => (if e.1 = [] then [39, 39] else e.1) ++ [58, 32] ++ replaceByte 10 (10 :: List.replicate (if 1 < es.length then 2 else 0) 32) e.2) ≠ [] := by
    intro hlen h0
    have := congrArg List.length h0
    simp [hl] at this
    simp [this] at hlen
  clear hn hm hk hitems
  generalize ((sortEntries es).map fun e => (if e.1 = [] then [39, 39] else e.1) ++ [58, 32] ++ replaceByte 10 (10 :: List.replicate (if 1 < es.length then 2 else 0) 32) e.2) = items at h3 h0 ⊢
  generalize ((sortEntries es).map fun e => entryFlat e.1 (squash false e.2)) = items' at h3 ⊢
  by_cases hlen : 1 < es.length
  · have h4 := h3 true (.inl (h0 hlen))
    simp only [if_pos hlen] at h4 ⊢
    refine ⟨?_, ⟨40, _, rfl, by decide, by decide, ?_⟩⟩
    · simp [squash, squash_append, h4]
    · simp [ragged, ragged_append, h4]
  · have h4 := h3 false (.inr rfl)
    simp only [if_neg hlen] at h4 ⊢
    refine ⟨?_, ⟨40, _, rfl, by decide, by decide, ?_⟩⟩
    · simp [squash, squash_append, h4]
    · simp [ragged, ragged_append, h4]

variable {quote : Str → Str}

theorem entryStrings_keys : ∀ {b : List (Str × Kids)} {es}, entryStrings quote b = some es → es.map (·.1) = b.map (·.1)
  | [], es, h => by simp only [entryStrings, Option.some.injEq] at h; subst h; rfl
  | (name, c) :: b, es, h => by
    simp only [entryStrings] at h
    split at h
    · rename_i s es' h1 h2
      obtain rfl := Option.some.inj h
      simp [entryStrings_keys h2]
    · simp at h

theorem entryStrings_lookup {name : Str} {c : Kids} : ∀ {b : List (Str × Kids)} {es}, entryStrings quote b = some es → lookup name b = some c →
    ∃ s, c.string quote = some s ∧ lookup name es = some s
  | [], es, _, hl => by simp [lookup] at hl
  | (name', c') :: b, es, h, hl => by
    simp only [entryStrings] at h
    split at h
    · rename_i s es' h1 h2
      obtain rfl := Option.some.inj h
      simp only [lookup] at hl ⊢
      split at hl
      · rename_i e
        obtain rfl := Option.some.inj hl
        exact ⟨s, h1, by rw [if_pos e]⟩
      · rename_i e
        rw [if_neg e]
        exact entryStrings_lookup h2 hl
    · simp at h

/-- The entries of a branch in the order of their names. -/
def sortBranch (b : List (Str × Kids)) : List (Str × Kids) := (sortStrings (b.map (·.1))).filterMap fun name => (lookup name b).map fun c => (name, c)

theorem sortBranch_perm {b : List (Str × Kids)} (hn : (b.map (·.1)).Nodup) : b.Perm (sortBranch b) := by
  have h1 : (b.map (·.1)).filterMap (fun name => (lookup name b).map fun c => (name, c)) = b := by
    rw [List.filterMap_map]
    have : ∀ l : List (Str × Kids), (∀ e ∈ l, e ∈ b) → l.filterMap ((fun name => (lookup name b).map fun c => (name, c)) ∘ fun x => x.1) = l := by
      intro l hl
      induction l with
      | nil => rfl
      | cons e l ih =>
        have he : lookup e.1 b = some e.2 := lookup_of_mem hn (hl e (by simp))
        rw [List.filterMap_cons]
        simp only [Function.comp_apply, he, Option.map_some]
        rw [ih fun e he => hl e (by simp [he])]
    exact this b fun _ h => h
  have h2 := (sortStrings_perm (b.map (·.1))).filterMap (fun name => (lookup name b).map fun c => (name, c))
  rw [h1] at h2
  exact h2.symm

theorem entryStrings_sort {b : List (Str × Kids)} {es} (h : entryStrings quote b = some es) : entryStrings quote (sortBranch b) = some (sortEntries es) := by
  unfold sortBranch sortEntries
  rw [entryStrings_keys h]
  have hmem : ∀ name ∈ sortStrings (b.map (·.1)), name ∈ b.map (·.1) := fun name hm => (sortStrings_perm _).mem_iff.1 hm
  generalize sortStrings (b.map (·.1)) = l at hmem
  induction l with
  | nil => rfl
  | cons name l ih =>
    have hl : ∃ c, lookup name b = some c := by
      cases hl : lookup name b with
      | none => exact absurd (hmem name (by simp)) (lookup_none_iff.1 hl)
      | some c => exact ⟨c, rfl⟩
    obtain ⟨c, hc⟩ := hl
    obtain ⟨s, h1, h2⟩ := entryStrings_lookup h hc
    simp only [List.filterMap_cons, hc, Option.map_some, List.map_cons, h2, Option.getD_some, entryStrings, h1, ih fun name hm => hmem name (by simp [hm])]

end Wbnf

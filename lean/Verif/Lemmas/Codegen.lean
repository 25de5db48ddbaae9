import Verif.Lemmas.GoCode
import Verif.Model.Codegen
import Verif.Spec.Codegen
import Verif.Lemmas.ReorderCompile

/-! The text of a grammar and what it denotes. -/

namespace Wbnf

/-! ## The order of strings -/

theorem strLe_refl : ∀ a : Str, strLe a a = true
  | [] => rfl
  | a :: s => by simp [strLe, strLe_refl s]

theorem strLe_antisymm : ∀ {a b : Str}, strLe a b = true → strLe b a = true → a = b
  | [], [], _, _ => rfl
  | [], _ :: _, _, h => by simp [strLe] at h
  | _ :: _, [], h, _ => by simp [strLe] at h
  | a :: s, b :: t, h1, h2 => by
    simp only [strLe] at h1 h2
    by_cases e : a = b
    · subst e
      simp only [if_true] at h1 h2
      rw [strLe_antisymm h1 h2]
    · simp only [e, if_false, Ne.symm e, decide_eq_true_eq, UInt8.lt_iff_toNat_lt] at h1 h2
      omega

theorem strLe_total : ∀ a b : Str, strLe a b = true ∨ strLe b a = true
  | [], _ => by simp [strLe]
  | _ :: _, [] => by simp [strLe]
  | a :: s, b :: t => by
    simp only [strLe]
    by_cases e : a = b
    · subst e
      simpa using strLe_total s t
    · have : a.toNat ≠ b.toNat := fun h => e (UInt8.toNat_inj.1 h)
      simp only [e, if_false, Ne.symm e, decide_eq_true_eq, UInt8.lt_iff_toNat_lt]
      omega

theorem strLe_trans : ∀ {a b c : Str}, strLe a b = true → strLe b c = true → strLe a c = true
  | [], _, _, _, _ => by simp [strLe]
  | _ :: _, [], _, h, _ => by simp [strLe] at h
  | _ :: _, _ :: _, [], _, h => by simp [strLe] at h
  | a :: s, b :: t, c :: u, h1, h2 => by
    simp only [strLe] at h1 h2 ⊢
    by_cases e1 : a = b
    · subst e1
      simp only [if_true] at h1
      by_cases e2 : a = c
      · subst e2
        simp only [if_true] at h2 ⊢
        exact strLe_trans h1 h2
      · simpa [e2] using h2
    · simp only [e1, if_false, decide_eq_true_eq, UInt8.lt_iff_toNat_lt] at h1
      by_cases e2 : b = c
      · subst e2
        simp only [e1, if_false, decide_eq_true_eq, UInt8.lt_iff_toNat_lt]
        exact h1
      · simp only [e2, if_false, decide_eq_true_eq, UInt8.lt_iff_toNat_lt] at h2
        have : a ≠ c := by rintro rfl; omega
        simp only [this, if_false, decide_eq_true_eq, UInt8.lt_iff_toNat_lt]
        omega

theorem strLe_prefix : ∀ a b : Str, strLe a (a ++ b) = true
  | [], _ => by simp [strLe]
  | a :: s, b => by simp [strLe, strLe_prefix s b]

theorem insertStr_perm (x : Str) : ∀ xs, (insertStr x xs).Perm (x :: xs)
  | [] => .refl _
  | y :: ys => by
    simp only [insertStr]
    split
    · exact .refl _
    · exact ((insertStr_perm x ys).cons y).trans (.swap ..)

theorem sortStrings_perm : ∀ xs, (sortStrings xs).Perm xs
  | [] => .refl _
  | x :: xs => (insertStr_perm x _).trans ((sortStrings_perm xs).cons x)

theorem insertStr_sorted {x : Str} : ∀ {xs : List Str}, xs.Pairwise (fun a b => strLe a b = true) →
    (insertStr x xs).Pairwise (fun a b => strLe a b = true)
  | [], _ => by simp [insertStr]
  | y :: ys, h => by
    simp only [insertStr]
    have h' := List.pairwise_cons.1 h
    split
    · rename_i hxy
      refine List.pairwise_cons.2 ⟨fun z hz => ?_, h⟩
      rcases List.mem_cons.1 hz with rfl | hz
      · exact hxy
      · exact strLe_trans hxy (h'.1 z hz)
    · rename_i hxy
      refine List.pairwise_cons.2 ⟨fun z hz => ?_, insertStr_sorted h'.2⟩
      rcases List.mem_cons.1 ((insertStr_perm x ys).mem_iff.1 hz) with rfl | hz
      · exact (strLe_total y z).resolve_right hxy
      · exact h'.1 z hz

theorem sortStrings_sorted : ∀ xs : List Str, (sortStrings xs).Pairwise (fun a b => strLe a b = true)
  | [] => by simp [sortStrings]
  | _ :: xs => insertStr_sorted (sortStrings_sorted xs)

/-! ## The loop over the rules -/

theorem lookup_mapDelete {α} {k k' : Str} : ∀ {m : List (Str × α)},
    lookup k' (mapDelete k m) = if k' = k then none else lookup k' m
  | [] => by simp [mapDelete, lookup]
  | (a, v) :: m => by
    have ih := lookup_mapDelete (k := k) (k' := k') (m := m)
    unfold mapDelete at ih ⊢
    by_cases h : a = k
    · subst h
      simp only [List.filter_cons, ne_eq, not_true, decide_false, Bool.false_eq_true, if_false, ih, lookup]
      by_cases h2 : k' = a
      · simp [h2]
      · simp [h2, Ne.symm h2]
    · simp only [List.filter_cons, ne_eq, h, not_false_eq_true, decide_true, if_true, lookup, ih]
      by_cases h2 : k' = a
      · subst h2; simp [h]
      · simp [Ne.symm h2]

theorem lookup_mem' {α} {k : Str} {v : α} : ∀ {m : List (Str × α)}, lookup k m = some v → (k, v) ∈ m
  | [], h => by simp [lookup] at h
  | (a, w) :: m, h => by
    simp only [lookup] at h
    split at h
    · rename_i e
      cases h
      simp [e]
    · simp [lookup_mem' h]

theorem hasStackDelim_iff {s : Str} : hasStackDelim s = true ↔ (64 : UInt8) ∈ s := by simp [hasStackDelim]

theorem layer_at {r : Str} {j : Nat} (h : 0 < j) : (64 : UInt8) ∈ layer r j := by rw [layer_pos h]; simp

theorem beforeStackDelim_layer {r : Str} {j : Nat} (hr : (64 : UInt8) ∉ r) (h : 0 < j) : beforeStackDelim (layer r j) = r := by
  rw [layer_pos h]
  unfold beforeStackDelim
  induction r with
  | nil => simp
  | cons c r ih =>
    simp only [List.mem_cons, not_or] at hr
    rw [List.cons_append, List.takeWhile_cons, if_pos (by simp [Ne.symm hr.1]), ih hr.2]

open Classical in
theorem takeLayers_spec {r : Str} {n : Nat} {node : Nat → GoNode} : ∀ {fuel i : Nat} {ρ : List (Str × GoNode)}, 0 < i →
    n ≤ i + fuel → (∀ j, i ≤ j → lookup (layer r j) ρ = if j < n then some (node j) else none) →
    (takeLayers r fuel i ρ).1 = (List.range' i (n - i)).map node ∧
    ∀ k, lookup k (takeLayers r fuel i ρ).2 = if ∃ j, i ≤ j ∧ k = layer r j then none else lookup k ρ
  | 0, i, ρ, h0, hn, h => by
    have : n - i = 0 := by omega
    refine ⟨by simp [takeLayers, this], fun k => ?_⟩
    simp only [takeLayers]
    split
    · rename_i hk
      obtain ⟨j, h1, rfl⟩ := hk
      rw [h j h1, if_neg (by omega)]
    · rfl
  | fuel + 1, i, ρ, h0, hn, h => by
    have hl : r ++ str "@" ++ decimal i = layer r i := by rw [layer_pos h0]; simp [str]
    have hi := h i (Nat.le_refl i)
    simp only [takeLayers, hl]
    by_cases hin : i < n
    · rw [if_pos hin] at hi
      simp only [hi]
      obtain ⟨h1, h2⟩ := takeLayers_spec (fuel := fuel) (i := i + 1) (ρ := mapDelete (layer r i) ρ) (node := node) (n := n) (r := r)
        (by omega) (by omega) fun j hj => by
          rw [lookup_mapDelete, if_neg (fun e => by have := layer_inj_same e; omega), h j (by omega)]
      refine ⟨?_, fun k => ?_⟩
      · rw [h1, show n - i = (n - (i + 1)) + 1 by omega, List.range'_succ]
        simp
      · rw [h2 k, lookup_mapDelete]
        by_cases hk : ∃ j, i ≤ j ∧ k = layer r j
        · rw [if_pos hk]
          obtain ⟨j, h3, rfl⟩ := hk
          by_cases hj : j = i
          · subst hj; simp
          · rw [if_pos ⟨j, by omega, rfl⟩]
        · rw [if_neg hk, if_neg fun ⟨j, h3, e⟩ => hk ⟨j, by omega, e⟩, if_neg fun e => hk ⟨i, Nat.le_refl i, e⟩]
    · rw [if_neg hin] at hi
      simp only [hi]
      refine ⟨by rw [show n - i = 0 by omega]; rfl, fun k => ?_⟩
      split
      · rename_i hk
        obtain ⟨j, h1, rfl⟩ := hk
        rw [h j h1, if_neg (by omega)]
      · rfl

/-- The node for rule `k`, which has `n` layers. -/
def entryNode (node : Str → GoNode) (k : Str) (n : Nat) : GoNode :=
  .mk (str "\"" ++ k ++ str "\"")
    [if 1 < n then .mk (str "parser.Stack") ((List.range n).map fun j => node (layer k j)) .squiggly else node k] .map

/-- The keys are rules without `@`, and layers of these: those of `r` are numbered from 0 to `num r - 1`. -/
structure Layering (keys : List Str) (num : Str → Nat) : Prop where
  layers : ∀ r ∈ keys, (64 : UInt8) ∉ r → ∀ j, layer r j ∈ keys ↔ j < num r
  base : ∀ k ∈ keys, (64 : UInt8) ∈ k → ∃ r ∈ keys, (64 : UInt8) ∉ r ∧ ∃ j, 0 < j ∧ k = layer r j

theorem prefixes_iff {keys : List Str} {num : Str → Nat} (h : Layering keys num) {r : Str} (hr : r ∈ keys)
    (ha : (64 : UInt8) ∉ r) : ((keys.filter hasStackDelim).map beforeStackDelim).contains r = true ↔ 1 < num r := by
  simp only [List.contains_iff_mem, List.mem_map, List.mem_filter, hasStackDelim_iff]
  constructor
  · rintro ⟨k, ⟨hk, hka⟩, e⟩
    obtain ⟨r', h1, h2, j, hj, rfl⟩ := h.base k hk hka
    rw [beforeStackDelim_layer h2 hj] at e
    subst e
    have := (h.layers r' h1 h2 j).1 hk
    omega
  · intro hn
    exact ⟨layer r 1, ⟨(h.layers r hr ha 1).2 hn, layer_at (by omega)⟩, beforeStackDelim_layer ha (by omega)⟩

theorem prefixes_no_at {keys : List Str} {r : Str} (ha : (64 : UInt8) ∈ r) :
    ((keys.filter hasStackDelim).map beforeStackDelim).contains r = false := by
  rw [Bool.eq_false_iff]
  intro h
  simp only [List.contains_iff_mem, List.mem_map] at h
  obtain ⟨k, _, e⟩ := h
  unfold beforeStackDelim at e
  rw [← e] at ha
  have : ∀ s : Str, (64 : UInt8) ∉ s.takeWhile (· ≠ 64) := by
    intro s
    induction s with
    | nil => simp
    | cons c s ih =>
      rw [List.takeWhile_cons]
      split
      · rename_i hc
        simp only [List.mem_cons, not_or]
        exact ⟨fun e => by simp [← e] at hc, ih⟩
      · simp
  exact this k ha

theorem grammarEntries_spec {keys : List Str} {num : Str → Nat} {node : Str → GoNode} (h : Layering keys num) :
    ∀ {ks : List Str} {ρ : List (Str × GoNode)}, (∀ k ∈ ks, k ∈ keys) → ks.Pairwise (fun a b => strLe a b = true) → ks.Nodup →
    (∀ r ∈ ks, (64 : UInt8) ∉ r → ∀ j, lookup (layer r j) ρ = if j < num r then some (node (layer r j)) else none) →
    (∀ k ∈ ks, ∀ r ∈ keys, (64 : UInt8) ∉ r → (∃ j, 0 < j ∧ k = layer r j) → r ∉ ks → lookup k ρ = none) →
    grammarEntries ((keys.filter hasStackDelim).map beforeStackDelim) ks ρ =
      (ks.filter fun k => !hasStackDelim k).map fun k => entryNode node k (num k)
  | [], _, _, _, _, _, _ => rfl
  | k :: ks, ρ, hm, hs, hd, h1, h2 => by
    have hs' := List.pairwise_cons.1 hs
    have hd' := List.nodup_cons.1 hd
    simp only [grammarEntries]
    by_cases ha : (64 : UInt8) ∈ k
    · rw [prefixes_no_at ha]
      obtain ⟨r, hr, hra, j, hj, e⟩ := h.base k (hm k (by simp)) ha
      have hrk : r ∉ k :: ks := by
        intro hr'
        rcases List.mem_cons.1 hr' with rfl | hr'
        · exact hra ha
        · have h3 := hs'.1 r hr'
          have h4 : strLe r k = true := by rw [e, layer_pos hj]; exact strLe_prefix _ _
          have := strLe_antisymm h3 h4
          subst this
          exact hra ha
      have hn := h2 k (by simp) r hr hra ⟨j, hj, e⟩ hrk
      simp only [Bool.false_eq_true, if_false, hn]
      rw [grammarEntries_spec h (fun k' hk' => hm k' (by simp [hk'])) hs'.2 hd'.2
        (fun r' hr' => h1 r' (by simp [hr'])) ?_]
      · simp [hasStackDelim_iff.2 ha]
      · intro k' hk' r' hr' hra' hl hn'
        refine h2 k' (by simp [hk']) r' hr' hra' hl ?_
        simp only [List.mem_cons, not_or]
        exact ⟨fun e' => hra' (e' ▸ ha), hn'⟩
    · have hk1 := h1 k (by simp) ha
      have hk0 := hk1 0
      rw [layer_zero] at hk0
      have h0 : 0 < num k := (h.layers k (hm k (by simp)) ha 0).1 (by rw [layer_zero]; exact hm k (by simp))
      rw [if_pos h0] at hk0
      have hf : (k :: ks).filter (fun k => !hasStackDelim k) = k :: ks.filter (fun k => !hasStackDelim k) := by
        have : hasStackDelim k = false := Bool.eq_false_iff.2 fun e => ha (hasStackDelim_iff.1 e)
        simp [this]
      rw [hf, List.map_cons]
      by_cases hn : 1 < num k
      · rw [if_pos ((prefixes_iff h (hm k (by simp)) ha).2 hn)]
        have hfuel : num k ≤ 1 + ρ.length := by
          have hsub : (List.range' 1 (num k - 1)).map (layer k) ⊆ ρ.map Prod.fst := by
            intro x hx
            obtain ⟨j, hj, rfl⟩ := List.mem_map.1 hx
            have hj' := List.mem_range'_1.1 hj
            have := hk1 j
            rw [if_pos (by omega)] at this
            exact List.mem_map.2 ⟨_, lookup_mem' this, rfl⟩
          have hnd : ((List.range' 1 (num k - 1)).map (layer k)).Nodup := by
            refine List.Pairwise.map _ ?_ (List.nodup_range' (s := 1) (n := num k - 1))
            intro a b hab e
            exact hab (layer_inj_same e)
          have := hnd.length_le_of_subset hsub
          simp at this
          omega
        obtain ⟨h3, h4⟩ := takeLayers_spec (r := k) (n := num k) (node := fun j => node (layer k j)) (fuel := ρ.length)
          (i := 1) (ρ := ρ) (by omega) hfuel fun j hj => hk1 j
        rw [grammarEntries_spec h (ρ := (takeLayers k ρ.length 1 ρ).2) (fun k' hk' => hm k' (by simp [hk'])) hs'.2 hd'.2 ?_ ?_, h3, hk0]
        · simp only [Option.getD_some, entryNode, hn, if_true]
          congr 4
          rw [List.range_eq_range']
          obtain ⟨m, hm'⟩ : ∃ m, num k = m + 1 := ⟨num k - 1, by omega⟩
          rw [hm', List.range'_succ]
          simp [layer_zero]
        · intro r' hr' hra' j
          rw [h4, if_neg, h1 r' (by simp [hr']) hra' j]
          rintro ⟨i, hi, e⟩
          rcases Nat.eq_zero_or_pos j with rfl | hj
          · rw [layer_zero] at e
            exact hra' (e ▸ layer_at (by omega))
          · obtain ⟨rfl, _⟩ := layer_inj hj (by omega) e
            exact hd'.1 hr'
        · intro k' hk' r' hr' hra' hl hn'
          rw [h4]
          split
          · rfl
          · rename_i hnot
            refine h2 k' (by simp [hk']) r' hr' hra' hl ?_
            simp only [List.mem_cons, not_or]
            refine ⟨?_, hn'⟩
            rintro rfl
            obtain ⟨j, hj, e⟩ := hl
            exact hnot ⟨j, hj, e⟩
      · rw [if_neg fun e => hn ((prefixes_iff h (hm k (by simp)) ha).1 e), hk0]
        simp only
        rw [grammarEntries_spec h (fun k' hk' => hm k' (by simp [hk'])) hs'.2 hd'.2
          (fun r' hr' => h1 r' (by simp [hr'])) ?_]
        · simp [entryNode, hn]
        · intro k' hk' r' hr' hra' hl hn'
          by_cases e : r' = k
          · subst e
            obtain ⟨j, hj, rfl⟩ := hl
            rw [hk1 j, if_neg (by omega)]
          · exact h2 k' (by simp [hk']) r' hr' hra' hl (by simp [e, hn'])

end Wbnf

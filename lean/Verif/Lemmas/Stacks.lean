import Verif.Spec.Stacks
import Verif.Lemmas.Compile

/-! Resolving stacks: what `resolveStacks` computes. -/

namespace Wbnf

/-! ### Decimal numbers -/

def digits (s : Str) : Nat := s.foldl (fun a c => a * 10 + (c.toNat - 48)) 0

theorem decimalAux_props : ∀ (f n : Nat), n < f → digits (decimalAux f n) = n ∧ (64 : UInt8) ∉ decimalAux f n := by
  intro f
  induction f with
  | zero => intro n h; omega
  | succ f ih =>
    intro n h
    have dig : ∀ d, d < 10 → (UInt8.ofNat (48 + d)).toNat - 48 = d ∧ UInt8.ofNat (48 + d) ≠ 64 := by
      intro d hd
      have : d = 0 ∨ d = 1 ∨ d = 2 ∨ d = 3 ∨ d = 4 ∨ d = 5 ∨ d = 6 ∨ d = 7 ∨ d = 8 ∨ d = 9 := by omega
      rcases this with rfl | rfl | rfl | rfl | rfl | rfl | rfl | rfl | rfl | rfl <;> decide
    unfold decimalAux
    split
    · rename_i hn
      obtain ⟨h1, h2⟩ := dig n hn
      exact ⟨by simp only [digits, List.foldl_cons, List.foldl_nil, h1]; omega,
        fun h => h2 (List.mem_singleton.1 h).symm⟩
    · obtain ⟨h1, h2⟩ := dig (n % 10) (by omega)
      obtain ⟨h3, h4⟩ := ih (n / 10) (by omega)
      refine ⟨?_, ?_⟩
      · have := h3
        simp only [digits, List.foldl_append, List.foldl_cons, List.foldl_nil] at this ⊢
        rw [this, h1]; omega
      · simp only [List.mem_append, List.mem_singleton, not_or]
        exact ⟨h4, fun h => h2 h.symm⟩

theorem decimal_inj {i j : Nat} (h : decimal i = decimal j) : i = j := by
  have h1 := (decimalAux_props (i + 1) i (by omega)).1
  have h2 := (decimalAux_props (j + 1) j (by omega)).1
  unfold decimal at h
  rw [← h1, h, h2]

theorem at_not_mem_decimal (i : Nat) : (64 : UInt8) ∉ decimal i := (decimalAux_props (i + 1) i (by omega)).2

theorem split_at_unique {a b c d : Str} (hb : (64 : UInt8) ∉ b) (hd : (64 : UInt8) ∉ d)
    (h : a ++ 64 :: b = c ++ 64 :: d) : a = c ∧ b = d := by
  rcases List.append_eq_append_iff.1 h with ⟨e, h1, h2⟩ | ⟨e, h1, h2⟩
  · cases e with
    | nil => simp at h1 h2; exact ⟨h1.symm, h2⟩
    | cons x e =>
      simp at h2
      exact absurd (h2.2 ▸ by simp) hb
  · cases e with
    | nil => simp at h1 h2; exact ⟨h1, h2.symm⟩
    | cons x e =>
      simp at h2
      exact absurd (h2.2 ▸ by simp) hd

theorem layer_zero (r : Str) : layer r 0 = r := rfl

theorem layer_pos {r : Str} {i : Nat} (h : 0 < i) : layer r i = r ++ 64 :: decimal i := by
  have : i ≠ 0 := by omega
  simp [layer, this, str]

theorem layer_inj {r s : Str} {i j : Nat} (hi : 0 < i) (hj : 0 < j) (h : layer r i = layer s j) : r = s ∧ i = j := by
  rw [layer_pos hi, layer_pos hj] at h
  obtain ⟨h1, h2⟩ := split_at_unique (at_not_mem_decimal i) (at_not_mem_decimal j) h
  exact ⟨h1, decimal_inj h2⟩

theorem layer_inj_same {r : Str} {i j : Nat} (h : layer r i = layer r j) : i = j := by
  have ne : ∀ {i}, 0 < i → layer r i ≠ r := by
    intro i hi e
    rw [layer_pos hi] at e
    simp at e
  rcases Nat.eq_zero_or_pos i with rfl | hi
  · rcases Nat.eq_zero_or_pos j with rfl | hj
    · rfl
    · exact absurd h.symm (ne hj)
  · rcases Nat.eq_zero_or_pos j with rfl | hj
    · exact absurd h (ne hi)
    · exact (layer_inj hi hj h).2

theorem layerName_eq {r : Str} {n i : Nat} (hi : i < n) :
    layerName r n i = layer r (if i + 1 = n then 0 else i + 1) := by
  unfold layerName layer
  by_cases h : i + 1 = n
  · simp [h]
  · have : (i + 1) % n = i + 1 := Nat.mod_eq_of_lt (by omega)
    simp [this, h, stackDelim]

/-! ### Substitution -/

mutual
theorem resolve_eq (new : Str) : (t : Term) →
    t.resolve stackDelim new = if t.flat then some (t.uncut.atTo new) else none
  | .rule r => by
    simp only [Term.resolve, Term.flat, Term.uncut, Term.atTo, stackDelim, if_true]
    split <;> simp_all
  | .s _ => rfl
  | .re _ => rfl
  | .ref _ _ => rfl
  | .ext _ => rfl
  | .seq ts => by simp [Term.resolve, Term.flat, Term.uncut, Term.atTo, resolveList_eq new ts]
  | .oneof ts => by simp [Term.resolve, Term.flat, Term.uncut, Term.atTo, resolveList_eq new ts]
  | .stack _ => rfl
  | .delim t sep a cs ce => by
    simp only [Term.resolve, Term.flat, Term.uncut, Term.atTo, resolve_eq new t, resolve_eq new sep]
    cases t.flat <;> cases sep.flat <;> simp
  | .look t => by simp [Term.resolve, Term.flat, Term.uncut, Term.atTo, resolve_eq new t]
  | .quant t lo hi => by simp [Term.resolve, Term.flat, Term.uncut, Term.atTo, resolve_eq new t]
  | .named n t => by simp [Term.resolve, Term.flat, Term.uncut, Term.atTo, resolve_eq new t]
  | .scope _ _ => rfl
  | .cut t => by simp only [Term.resolve, Term.flat, Term.uncut, resolve_eq new t]; rfl
theorem resolveList_eq (new : Str) : (ts : List Term) →
    resolveList stackDelim new ts = if flatList ts then some (atToList new (uncutList ts)) else none
  | [] => rfl
  | t :: ts => by
    simp only [resolveList, flatList, uncutList, atToList, resolve_eq new t, resolveList_eq new ts]
    cases t.flat <;> cases flatList ts <;> simp
end

/-! ### The loops -/

theorem flatList_iff {ts : List Term} : flatList ts = true ↔ ∀ t ∈ ts, t.flat = true := by
  induction ts with
  | nil => simp [flatList]
  | cons t ts ih => simp [flatList, ih]

/-- One stack: it is laid out over the layers' names, everything else stays. -/
theorem resolveLayers_spec {r : Str} {n : Nat} : ∀ {layers : List Term} {i : Nat} {g : Grammar},
    i + layers.length = n →
    (flatList layers = false → resolveLayers r n i (layer r i) layers g = none) ∧
    (flatList layers = true → ∃ g', resolveLayers r n i (layer r i) layers g = some g' ∧
      (∀ j L, layers[j]? = some L → lookup (layer r (i + j)) g' =
        some (L.uncut.atTo (layer r (if i + j + 1 = n then 0 else i + j + 1)))) ∧
      (∀ k, (∀ j, j < layers.length → k ≠ layer r (i + j)) → lookup k g' = lookup k g)) := by
  intro layers
  induction layers with
  | nil => intro i g _; exact ⟨by simp [flatList], fun _ => ⟨g, rfl, by simp, fun _ _ => rfl⟩⟩
  | cons L layers ih =>
    intro i g hn
    simp only [List.length_cons] at hn
    have hname := layerName_eq (r := r) (n := n) (i := i) (by omega)
    simp only [resolveLayers, hname, resolve_eq, flatList, Bool.and_eq_false_iff, Bool.and_eq_true]
    cases hL : L.flat with
    | false => simp
    | true =>
      simp only [true_and, if_true, Bool.true_eq_false, false_or]
      cases layers with
      | nil =>
        refine ⟨by simp [flatList], fun _ => ⟨_, rfl, fun j L' hj => ?_, fun k hk => ?_⟩⟩
        · cases j with
          | zero => simp at hj; subst hj; simp [lookup_mapSet_self]
          | succ j => simp at hj
        · have := hk 0 (by simp)
          exact lookup_mapSet_ne this _ _
      | cons L2 layers =>
        have hne : ¬ i + 1 = n := by simp only [List.length_cons] at hn; omega
        simp only [hne, if_false]
        obtain ⟨h1, h2⟩ := ih (i := i + 1)
          (g := mapSet (layer r i) (L.uncut.atTo (layer r (i + 1))) g) (by omega)
        refine ⟨h1, fun hf => ?_⟩
        obtain ⟨g', hg', h3, h4⟩ := h2 hf
        refine ⟨g', hg', fun j L' hj => ?_, fun k hk => ?_⟩
        · cases j with
          | zero =>
            simp at hj
            subst hj
            simp only [Nat.add_zero, hne, if_false]
            rw [h4 _ fun j _ e => by have := layer_inj_same e; omega, lookup_mapSet_self]
          | succ j =>
            have := h3 j L' (by simpa using hj)
            rw [show i + (j + 1) = i + 1 + j by omega]
            exact this
        · rw [h4 k fun j hj => ?_, lookup_mapSet_ne]
          · simpa using hk 0 (by simp)
          · have := hk (j + 1) (by simp at hj ⊢; omega)
            rwa [show i + (j + 1) = i + 1 + j by omega] at this

/-- Is `k` a layer of one of the stacks? -/
def IsLayer (es : List (Str × Term)) (k : Str) : Prop :=
  ∃ r ls j, (r, .stack ls) ∈ es ∧ j < ls.length ∧ k = layer r j

theorem resolveStacksLoop_none {es : List (Str × Term)} : ∀ {g : Grammar},
    resolveStacksLoop es g = none ↔ ∃ r ls, (r, .stack ls) ∈ es ∧ flatList ls = false := by
  induction es with
  | nil => simp [resolveStacksLoop]
  | cons e es ih =>
    intro g
    obtain ⟨r, t⟩ := e
    by_cases ht : ∃ ls, t = .stack ls
    · obtain ⟨ls, rfl⟩ := ht
      obtain ⟨h1, h2⟩ := resolveLayers_spec (r := r) (layers := ls) (i := 0) (g := g) (n := ls.length) (by omega)
      simp only [layer_zero] at h1 h2
      simp only [resolveStacksLoop]
      cases hf : flatList ls with
      | false => simp only [h1 hf, true_iff]; exact ⟨r, ls, by simp, hf⟩
      | true =>
        obtain ⟨g', hg', _⟩ := h2 hf
        simp only [hg', ih, List.mem_cons, Prod.mk.injEq, Term.stack.injEq]
        constructor
        · rintro ⟨r', ls', h, h'⟩; exact ⟨r', ls', Or.inr h, h'⟩
        · rintro ⟨r', ls', ⟨rfl, rfl⟩ | h, h'⟩
          · simp [hf] at h'
          · exact ⟨r', ls', h, h'⟩
    · have : resolveStacksLoop ((r, t) :: es) g = resolveStacksLoop es g := by
        cases t <;> first | rfl | exact absurd ⟨_, rfl⟩ ht
      rw [this, ih]
      constructor
      · rintro ⟨r', ls', h, h'⟩; exact ⟨r', ls', by simp [h], h'⟩
      · rintro ⟨r', ls', h, h'⟩
        rcases List.mem_cons.1 h with e | h
        · cases e; exact absurd ⟨_, rfl⟩ ht
        · exact ⟨r', ls', h, h'⟩

/-- The layers of different stacks have different names. -/
theorem resolveStacksLoop_spec {es : List (Str × Term)} : ∀ {g g' : Grammar},
    (es.map Prod.fst).Nodup → (∀ r ls i t, (r, .stack ls) ∈ es → 0 < i → i < ls.length → (layer r i, t) ∉ es) →
    resolveStacksLoop es g = some g' →
    (∀ r ls j L, (r, .stack ls) ∈ es → ls[j]? = some L → lookup (layer r j) g' =
      some (L.uncut.atTo (layer r (if j + 1 = ls.length then 0 else j + 1)))) ∧
    (∀ k, ¬ IsLayer es k → lookup k g' = lookup k g) := by
  induction es with
  | nil => intro g g' _ _ h; simp [resolveStacksLoop] at h; subst h; simp
  | cons e es ih =>
    intro g g' hnd hfr h
    obtain ⟨r, t⟩ := e
    simp only [List.map_cons, List.nodup_cons] at hnd
    have hfr' : ∀ r ls i t, (r, .stack ls) ∈ es → 0 < i → i < ls.length → (layer r i, t) ∉ es :=
      fun r ls i t h1 h2 h3 h4 => hfr r ls i t (by simp [h1]) h2 h3 (by simp [h4])
    by_cases ht : ∃ ls, t = .stack ls
    · obtain ⟨ls, rfl⟩ := ht
      obtain ⟨h1, h2⟩ := resolveLayers_spec (r := r) (layers := ls) (i := 0) (g := g) (n := ls.length) (by omega)
      simp only [layer_zero] at h1 h2
      simp only [resolveStacksLoop] at h
      cases hf : flatList ls with
      | false => simp [h1 hf] at h
      | true =>
        obtain ⟨g1, hg1, h3, h4⟩ := h2 hf
        simp only [hg1] at h
        obtain ⟨h5, h6⟩ := ih hnd.2 hfr' h
        have apart : ∀ j, j < ls.length → ¬ IsLayer es (layer r j) := by
          rintro j hj ⟨r', ls', j', hm, hj', e⟩
          have hmem : r' ∈ es.map Prod.fst := List.mem_map.2 ⟨_, hm, rfl⟩
          rcases Nat.eq_zero_or_pos j with rfl | hj0
          · rcases Nat.eq_zero_or_pos j' with rfl | hj0'
            · rw [layer_zero, layer_zero] at e
              exact hnd.1 (e ▸ hmem)
            · rw [layer_zero] at e
              exact hfr r' ls' j' (.stack ls) (by simp [hm]) hj0' hj' (by simp [← e])
          · rcases Nat.eq_zero_or_pos j' with rfl | hj0'
            · rw [layer_zero] at e
              exact hfr r ls j (.stack ls') (by simp) hj0 hj (by simp [e, hm])
            · exact hnd.1 ((layer_inj hj0 hj0' e).1 ▸ hmem)
        refine ⟨fun r' ls' j L hm hL => ?_, fun k hk => ?_⟩
        · rcases List.mem_cons.1 hm with e | hm
          · cases e
            have hj : j < ls.length := by
              rcases Nat.lt_or_ge j ls.length with h | h
              · exact h
              · simp [List.getElem?_eq_none h] at hL
            rw [h6 _ (apart j hj)]
            have := h3 j L hL
            simpa using this
          · exact h5 r' ls' j L hm hL
        · rw [h6 k fun ⟨r', ls', j, hm, hj, e⟩ => hk ⟨r', ls', j, by simp [hm], hj, e⟩]
          exact h4 k fun j hj e => hk ⟨r, ls, j, by simp, hj, by simpa using e⟩
    · have he : resolveStacksLoop ((r, t) :: es) g = resolveStacksLoop es g := by
        cases t <;> first | rfl | exact absurd ⟨_, rfl⟩ ht
      rw [he] at h
      obtain ⟨h5, h6⟩ := ih hnd.2 hfr' h
      refine ⟨fun r' ls' j L hm hL => ?_, fun k hk => ?_⟩
      · rcases List.mem_cons.1 hm with e | hm
        · cases e; exact absurd ⟨_, rfl⟩ ht
        · exact h5 r' ls' j L hm hL
      · exact h6 k fun ⟨r', ls', j, hm, hj, e⟩ => hk ⟨r', ls', j, by simp [hm], hj, e⟩

theorem lookup_iff_mem {α} {g : List (Str × α)} (h : (g.map Prod.fst).Nodup) {k t} :
    lookup k g = some t ↔ (k, t) ∈ g := by
  induction g with
  | nil => simp [lookup]
  | cons e g ih =>
    obtain ⟨k', t'⟩ := e
    simp only [List.map_cons, List.nodup_cons] at h
    simp only [lookup]
    split
    · rename_i e
      subst e
      simp only [Option.some.injEq, List.mem_cons, Prod.mk.injEq, true_and]
      constructor
      · intro h; exact Or.inl h.symm
      · rintro (rfl | hm)
        · rfl
        · exact absurd (List.mem_map.2 ⟨_, hm, rfl⟩) h.1
    · rename_i e
      rw [ih h.2]
      simp [Ne.symm e]

theorem stack_of_isStack {t : Term} (h : t.isStack = true) : ∃ ls, t = .stack ls := by
  cases t <;> simp [Term.isStack] at h ⊢

/-- Resolving gives the layered reading. -/
theorem resolveStacks_iff {g g' : Grammar} (hd : g.Distinct) (hf : g.LayersFresh) (h : g.resolveStacks = some g') {k t} :
    lookup k g' = some t ↔ Layered g k t := by
  have base : ∀ {k t}, lookup k g = some t ↔ (k, t) ∈ g := lookup_iff_mem hd
  unfold Grammar.resolveStacks at h
  split at h
  · obtain ⟨h1, h2⟩ := resolveStacksLoop_spec hd hf h
    constructor
    · intro hl
      rcases Classical.em (IsLayer g k) with ⟨r, ls, j, hm, hj, rfl⟩ | hk
      · have hL : ls[j]? = some ls[j] := by simp [hj]
        rw [h1 r ls j _ hm hL] at hl
        cases hl
        exact .layer hm hL
      · rw [h2 k hk, base] at hl
        refine .plain hl fun l ls e => hk ⟨k, l :: ls, 0, e ▸ hl, by simp, rfl⟩
    · intro hl
      cases hl with
      | plain hm hns =>
        rw [h2, base]
        · exact hm
        · rintro ⟨r, ls, j, hr, hj, rfl⟩
          rcases Nat.eq_zero_or_pos j with rfl | hj0
          · rw [layer_zero] at hm
            have e1 := base.2 hm
            have e2 := base.2 hr
            rw [e1] at e2
            cases e2
            cases ls with
            | nil => simp at hj
            | cons l ls => exact hns l ls rfl
          · exact hf r ls j t hr hj0 hj hm
      | layer hm hL => exact h1 _ _ _ _ hm hL
  · rename_i hns
    cases h
    rw [base]
    have hno : ∀ k ls, (k, .stack ls) ∉ g := fun k ls hm =>
      hns (List.any_eq_true.2 ⟨_, hm, rfl⟩)
    constructor
    · intro hm
      exact .plain hm fun l ls e => hno k _ (e ▸ hm)
    · intro hl
      cases hl with
      | plain hm => exact hm
      | layer hm => exact absurd hm (hno _ _)

theorem resolveStacks_none {g : Grammar} :
    g.resolveStacks = none ↔ ∃ r ls, (r, .stack ls) ∈ g ∧ flatList ls = false := by
  unfold Grammar.resolveStacks
  split
  · exact resolveStacksLoop_none
  · rename_i h
    simp only [reduceCtorEq, false_iff]
    rintro ⟨r, ls, hm, _⟩
    exact h (List.any_eq_true.2 ⟨_, hm, rfl⟩)

end Wbnf

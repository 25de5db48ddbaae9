import Verif.Spec.Scope
import Verif.Lemmas.ReorderCompile
import Verif.Lemmas.Parts

/-! Scopes that agree on the names in use. -/

namespace Wbnf

variable {E : Engine} {X : Externals}

theorem usesList_iff {x : Str} {ts : List Term} : usesList x ts ↔ ∃ t ∈ ts, t.Uses x := by
  induction ts with
  | nil => simp [usesList]
  | cons t ts ih => simp [usesList, ih]

theorem usesDefs_iff {x : Str} {g : Grammar} : usesDefs x g ↔ ∃ k t, (k, t) ∈ g ∧ t.Uses x := by
  induction g with
  | nil => simp [usesDefs]
  | cons e g ih =>
    obtain ⟨k, t⟩ := e
    simp only [usesDefs, ih, List.mem_cons, Prod.mk.injEq]
    constructor
    · rintro (h | ⟨k', t', h, h'⟩)
      · exact ⟨k, t, Or.inl ⟨rfl, rfl⟩, h⟩
      · exact ⟨k', t', Or.inr h, h'⟩
    · rintro ⟨k', t', ⟨rfl, rfl⟩ | h, h'⟩
      · exact Or.inl h'
      · exact Or.inr ⟨k', t', h, h'⟩

mutual
theorem uses_layer {x new : Str} : (t : Term) → t.flat = true → (t.uncut.atTo new).Uses x → x = new ∨ (t.Uses x ∧ x ≠ str "@")
  | .rule r, _, h => by
    simp only [Term.uncut, Term.atTo] at h
    split at h
    · exact Or.inl h.symm
    · rename_i hr; have : r = x := h; subst this; exact Or.inr ⟨rfl, hr⟩
  | .s _, _, h => h.elim
  | .re _, _, h => h.elim
  | .ref _ _, _, h => h.elim
  | .ext _, _, h => h.elim
  | .seq ts, hf, h => usesList_layer ts (by simpa [Term.flat] using hf) h
  | .oneof ts, hf, h => usesList_layer ts (by simpa [Term.flat] using hf) h
  | .stack _, hf, _ => by simp [Term.flat] at hf
  | .scope _ _, hf, _ => by simp [Term.flat] at hf
  | .delim t sep _ _ _, hf, h => by
    simp only [Term.flat, Bool.and_eq_true] at hf
    simp only [Term.uncut, Term.atTo, Term.Uses] at h ⊢
    rcases h with h | h
    · rcases uses_layer t hf.1 h with h | h
      · exact Or.inl h
      · exact Or.inr ⟨Or.inl h.1, h.2⟩
    · rcases uses_layer sep hf.2 h with h | h
      · exact Or.inl h
      · exact Or.inr ⟨Or.inr h.1, h.2⟩
  | .look t, hf, h => by
    simp only [Term.uncut, Term.atTo, Term.Uses] at h ⊢
    exact uses_layer t (by simpa [Term.flat] using hf) h
  | .quant t _ _, hf, h => by
    simp only [Term.uncut, Term.atTo, Term.Uses] at h ⊢
    exact uses_layer t (by simpa [Term.flat] using hf) h
  | .named _ t, hf, h => by
    simp only [Term.uncut, Term.atTo, Term.Uses] at h ⊢
    exact uses_layer t (by simpa [Term.flat] using hf) h
  | .cut t, hf, h => by
    simp only [Term.uncut, Term.Uses] at h ⊢
    exact uses_layer t (by simpa [Term.flat] using hf) h
theorem usesList_layer {x new : Str} : (ts : List Term) → flatList ts = true → usesList x (atToList new (uncutList ts)) →
    x = new ∨ (usesList x ts ∧ x ≠ str "@")
  | [], _, h => h.elim
  | t :: ts, hf, h => by
    simp only [flatList, Bool.and_eq_true] at hf
    simp only [uncutList, atToList, usesList] at h ⊢
    rcases h with h | h
    · rcases uses_layer t hf.1 h with h | h
      · exact Or.inl h
      · exact Or.inr ⟨Or.inl h.1, h.2⟩
    · rcases usesList_layer ts hf.2 h with h | h
      · exact Or.inl h
      · exact Or.inr ⟨Or.inr h.1, h.2⟩
end

/-- An entry of what `g` stands for comes from an entry of `g` or from a layer of one of its stacks. -/
def FromDefs (g : Grammar) (k : Str) (u : Term) : Prop :=
  (k, u) ∈ g ∨ ∃ r ls L j, (r, .stack ls) ∈ g ∧ L ∈ ls ∧ L.flat = true ∧ j < ls.length ∧ u = L.uncut.atTo (layer r j) ∧ g.Has k

theorem mem_mapSet {α} {k : Str} {v : α} {m : List (Str × α)} {e} (h : e ∈ mapSet k v m) : e = (k, v) ∨ e ∈ m := by
  induction m with
  | nil => simp [mapSet] at h; exact Or.inl h
  | cons a m ih =>
    obtain ⟨k', v'⟩ := a
    simp only [mapSet] at h
    split at h
    · rcases List.mem_cons.1 h with h | h
      · exact Or.inl h
      · exact Or.inr (by simp [h])
    · rcases List.mem_cons.1 h with h | h
      · exact Or.inr (by simp [h])
      · rcases ih h with h | h
        · exact Or.inl h
        · exact Or.inr (by simp [h])

theorem hasKey_mapSet_iff {α} {k k' : Str} {v : α} {m : List (Str × α)} :
    hasKey k (mapSet k' v m) = true ↔ k = k' ∨ hasKey k m = true := by
  by_cases h : k = k'
  · subst h; simp [hasKey, lookup_mapSet_self]
  · simp [hasKey, lookup_mapSet_ne h, h]

theorem resolveLayers_mem {g0 : Grammar} {r : Str} {ls : List Term} {n : Nat} (hm : (r, .stack ls) ∈ g0) (hn : n = ls.length)
    {layers : List Term} : ∀ {i : Nat} {g g' : Grammar}, i + layers.length = n → (∀ L ∈ layers, L ∈ ls) →
    (∀ k u, (k, u) ∈ g → FromDefs g0 k u) → resolveLayers r n i (layer r i) layers g = some g' →
    (∀ k u, (k, u) ∈ g' → FromDefs g0 k u) ∧
      ∀ k, hasKey k g' = true ↔ hasKey k g = true ∨ ∃ j, i ≤ j ∧ j < n ∧ k = layer r j := by
  induction layers with
  | nil =>
    intro i g g' hi _ h hr
    simp [resolveLayers] at hr
    subst hr
    refine ⟨h, fun k => ⟨Or.inl, ?_⟩⟩
    rintro (h | ⟨j, h1, h2, _⟩)
    · exact h
    · simp at hi; omega
  | cons L layers ih =>
    intro i g g' hi hsub h hr
    simp only [resolveLayers, resolve_eq] at hr
    simp only [List.length_cons] at hi
    rw [layerName_eq (by omega)] at hr
    cases hf : L.flat with
    | false => simp [hf] at hr
    | true =>
      simp only [hf, if_true] at hr
      have key : ∀ {j}, j < n → (∀ k u, (k, u) ∈ mapSet (layer r i) (L.uncut.atTo (layer r j)) g → FromDefs g0 k u) := by
        intro j hj k u hmem
        rcases mem_mapSet hmem with e | hmem
        · cases e
          exact Or.inr ⟨r, ls, L, j, hm, hsub L (by simp), hf, by omega, rfl, Or.inr ⟨r, ls, i, hm, by omega, rfl⟩⟩
        · exact h k u hmem
      cases layers with
      | nil =>
        simp only [List.length_nil] at hi
        simp only [resolveLayers, Option.some.injEq] at hr
        subst hr
        refine ⟨key (by split <;> omega), fun k => ?_⟩
        rw [hasKey_mapSet_iff]
        constructor
        · rintro (h | h)
          · exact Or.inr ⟨i, Nat.le_refl _, by omega, h⟩
          · exact Or.inl h
        · rintro (h | ⟨j, h1, h2, h3⟩)
          · exact Or.inr h
          · obtain rfl : j = i := by omega
            exact Or.inl h3
      | cons L2 layers =>
        simp only [List.length_cons] at hi
        have hne : ¬ i + 1 = n := by omega
        simp only [hne, if_false] at hr
        obtain ⟨h1, h2⟩ := ih (i := i + 1) (by simp; omega) (fun L hL => hsub L (by simp at hL ⊢; right; exact hL))
          (key (by omega)) hr
        refine ⟨h1, fun k => ?_⟩
        rw [h2, hasKey_mapSet_iff]
        constructor
        · rintro ((h | h) | ⟨j, h1, h2, h3⟩)
          · exact Or.inr ⟨i, Nat.le_refl _, by omega, h⟩
          · exact Or.inl h
          · exact Or.inr ⟨j, by omega, h2, h3⟩
        · rintro (h | ⟨j, h1, h2, h3⟩)
          · exact Or.inl (Or.inr h)
          · rcases Nat.eq_or_lt_of_le h1 with e | h1
            · subst e; exact Or.inl (Or.inl h3)
            · exact Or.inr ⟨j, h1, h2, h3⟩

theorem resolveStacksLoop_mem {g0 : Grammar} {es : List (Str × Term)} : ∀ {g g' : Grammar}, (∀ e ∈ es, e ∈ g0) →
    (∀ k u, (k, u) ∈ g → FromDefs g0 k u) → resolveStacksLoop es g = some g' →
    (∀ k u, (k, u) ∈ g' → FromDefs g0 k u) ∧ ∀ k, hasKey k g' = true ↔ hasKey k g = true ∨ IsLayer es k := by
  induction es with
  | nil =>
    intro g g' _ h hr
    simp [resolveStacksLoop] at hr
    subst hr
    exact ⟨h, fun k => ⟨Or.inl, by rintro (h | ⟨_, _, _, h, _⟩); exact h; simp at h⟩⟩
  | cons e es ih =>
    intro g g' hsub h hr
    obtain ⟨r, t⟩ := e
    by_cases ht : ∃ ls, t = .stack ls
    · obtain ⟨ls, rfl⟩ := ht
      simp only [resolveStacksLoop] at hr
      cases hl : resolveLayers r ls.length 0 r ls g with
      | none => simp [hl] at hr
      | some g1 =>
        simp only [hl] at hr
        obtain ⟨h1, h2⟩ := resolveLayers_mem (g0 := g0) (r := r) (ls := ls) (hsub _ (by simp)) rfl (i := 0) (by omega) (fun _ h => h) h
          (by rw [layer_zero]; exact hl)
        obtain ⟨h3, h4⟩ := ih (fun e he => hsub e (by simp [he])) h1 hr
        refine ⟨h3, fun k => ?_⟩
        rw [h4, h2]
        constructor
        · rintro ((h | ⟨j, _, h6, h7⟩) | ⟨r', ls', j, h5, h6, h7⟩)
          · exact Or.inl h
          · exact Or.inr ⟨r, ls, j, by simp, h6, h7⟩
          · exact Or.inr ⟨r', ls', j, by simp [h5], h6, h7⟩
        · rintro (h | ⟨r', ls', j, h5, h6, h7⟩)
          · exact Or.inl (Or.inl h)
          · rcases List.mem_cons.1 h5 with e | h5
            · cases e; exact Or.inl (Or.inr ⟨j, by omega, h6, h7⟩)
            · exact Or.inr ⟨r', ls', j, h5, h6, h7⟩
    · have he : resolveStacksLoop ((r, t) :: es) g = resolveStacksLoop es g := by
        cases t <;> first | rfl | exact absurd ⟨_, rfl⟩ ht
      rw [he] at hr
      obtain ⟨h3, h4⟩ := ih (fun e he => hsub e (by simp [he])) h hr
      refine ⟨h3, fun k => ?_⟩
      rw [h4]
      constructor
      · rintro (h | ⟨r', ls', j, h5, h6, h7⟩)
        · exact Or.inl h
        · exact Or.inr ⟨r', ls', j, by simp [h5], h6, h7⟩
      · rintro (h | ⟨r', ls', j, h5, h6, h7⟩)
        · exact Or.inl h
        · rcases List.mem_cons.1 h5 with e | h5
          · cases e; exact absurd ⟨_, rfl⟩ ht
          · exact Or.inr ⟨r', ls', j, h5, h6, h7⟩

theorem hasKey_mem {k : Str} {g : Grammar} : hasKey k g = true ↔ ∃ d, (k, d) ∈ g := by
  induction g with
  | nil => simp [hasKey, lookup]
  | cons e g ih =>
    obtain ⟨k', t⟩ := e
    simp only [hasKey, lookup] at ih ⊢
    split
    · rename_i e; subst e; simp only [Option.isSome_some, true_iff]; exact ⟨t, by simp⟩
    · rename_i e; rw [ih]; simp [Ne.symm e]

theorem resolveStacks_mem {g g' : Grammar} (h : g.resolveStacks = some g') :
    (∀ k u, (k, u) ∈ g' → FromDefs g k u) ∧ ∀ k, hasKey k g' = true ↔ g.Has k := by
  unfold Grammar.resolveStacks at h
  split at h
  · obtain ⟨h1, h2⟩ := resolveStacksLoop_mem (g0 := g) (fun _ h => h) (fun k u h => Or.inl h) h
    refine ⟨h1, fun k => ?_⟩
    rw [h2, hasKey_mem]
    rfl
  · rename_i hns
    cases h
    refine ⟨fun k u h => Or.inl h, fun k => ?_⟩
    rw [hasKey_mem]
    constructor
    · exact Or.inl
    · rintro (h | ⟨r, ls, _, h, _⟩)
      · exact h
      · exact absurd (List.any_eq_true.2 ⟨_, h, rfl⟩) hns

/-- What an entry of a resolved grammar uses, the grammar defines or one of its own entries uses. -/
theorem FromDefs.uses {g : Grammar} {k u x} (h : FromDefs g k u) (hu : u.Uses x) : g.Has x ∨ usesDefs x g := by
  rcases h with h | ⟨r, ls, L, j, h1, h2, h3, h4, rfl, _⟩
  · exact Or.inr (usesDefs_iff.2 ⟨_, _, h, hu⟩)
  · rcases uses_layer L h3 hu with rfl | ⟨h, h'⟩
    · exact Or.inl (Or.inr ⟨r, ls, j, h1, h4, rfl⟩)
    · exact Or.inr (usesDefs_iff.2 ⟨_, _, h1, h', usesList_iff.2 ⟨L, h2, h⟩⟩)

/-! ## Environments -/

def Bound (Δ : List Grammar) (x : Str) : Prop := ∃ g ∈ Δ, hasKey x g = true

/-- Names used by definitions in `Δ` are defined there or are in `N`. -/
def EnvOK (N : Str → Prop) : List Grammar → Prop
  | [] => True
  | g :: Δ => (∀ k u, (k, u) ∈ g → ∀ y, u.Uses y → Bound (g :: Δ) y ∨ N y) ∧ EnvOK N Δ

abbrev ScopeRel := List Grammar → List Grammar → (Str → Prop) → Prop

/-- The same term under two scopes that are the same up to some level, and there are related by `S` for the
names that are used. -/
def Link (S : ScopeRel) : TermRel := fun Γ t Γ' t' =>
  t' = t ∧ ∃ Δ B B' N, S B B' N ∧ Γ = Δ ++ B ∧ Γ' = Δ ++ B' ∧ EnvOK N Δ ∧ ∀ y, t.Uses y → Bound Δ y ∨ N y

structure Matched (S : ScopeRel) : Prop where
  symm : ∀ {B B' N}, S B B' N → S B' B N
  wrap : ∀ {B B' N}, S B B' N → wrapOf B = wrapOf B' ∧ ∀ w, wrapOf B = some w → ∀ y, w.Uses y → N y
  res : ∀ {B B' N r Γ t}, S B B' N → N r → Resolves B r Γ t → ∃ Γ' t', Resolves B' r Γ' t' ∧ Peeled (Link S) Γ t Γ' t'

theorem Defines.hasKey {g : Grammar} {r t} (h : Defines g r t) : hasKey r g = true := by
  cases h with
  | here h _ => simp [Wbnf.hasKey, h]
  | «alias» h _ => simp [Wbnf.hasKey, h]

variable {S : ScopeRel}

theorem Link.resolves (hS : Matched S) {B B' N} (h : S B B' N) {r Γ₁ t₁} : {Δ : List Grammar} → EnvOK N Δ →
    (Bound Δ r ∨ N r) → Resolves (Δ ++ B) r Γ₁ t₁ →
    ∃ Γ₁' t₁', Resolves (Δ ++ B') r Γ₁' t₁' ∧ Peeled (Link S) Γ₁ t₁ Γ₁' t₁'
  | [], _, hb, hr => hS.res h (hb.resolve_left (by rintro ⟨_, h, _⟩; simp at h)) hr
  | g :: Δ, he, hb, hr => by
    cases hr with
    | here hd =>
      obtain ⟨k, hk⟩ := hd.mem
      exact ⟨_, t₁, .here hd, .of ⟨rfl, g :: Δ, B, B', N, h, rfl, rfl, he, he.1 k t₁ hk⟩⟩
    | outer hl hr =>
      have hb' : Bound Δ r ∨ N r := by
        rcases hb with ⟨g', hg', hk⟩ | hb
        · rcases List.mem_cons.1 hg' with rfl | hg'
          · simp [Wbnf.hasKey, hl] at hk
          · exact Or.inl ⟨g', hg', hk⟩
        · exact Or.inr hb
      obtain ⟨Γ', t', h1, h2⟩ := Link.resolves hS h he.2 hb' hr
      exact ⟨Γ', t', .outer hl h1, h2⟩

theorem wrapOf_append {Δ B B' : List Grammar} (h : wrapOf B = wrapOf B') : wrapOf (Δ ++ B) = wrapOf (Δ ++ B') := by
  cases Δ with
  | nil => exact h
  | cons g Δ => rfl

theorem mem_inheritWrap {w : Option Term} {g : Grammar} {k u} (h : (k, u) ∈ inheritWrap w g) : (k, u) ∈ g ∨ w = some u := by
  cases w with
  | none => exact Or.inl h
  | some w =>
    simp only [inheritWrap] at h
    split at h
    · exact Or.inl h
    · rcases mem_mapSet h with e | h
      · cases e; exact Or.inr rfl
      · exact Or.inl h

theorem hasKey_inheritWrap {w : Option Term} {g : Grammar} {k} (h : hasKey k g = true) : hasKey k (inheritWrap w g) = true := by
  cases w with
  | none => exact h
  | some w =>
    simp only [inheritWrap]
    split
    · exact h
    · exact hasKey_mapSet_iff.2 (Or.inr h)

theorem Bound.cons {Δ : List Grammar} {x} (h : Bound Δ x) (g : Grammar) : Bound (g :: Δ) x := by
  obtain ⟨g', h, h'⟩ := h
  exact ⟨g', by simp [h], h'⟩

/-- The names used inside braces. -/
theorem Enters.bound {Γ : List Grammar} {t : Term} {g g₁ : Grammar} (he : Enters Γ g g₁) {M : Str → Prop}
    (hM : ∀ y, Term.Uses y (.scope t g) → M y) (hw : ∀ w, wrapOf Γ = some w → ∀ y, w.Uses y → M y) :
    (∀ y, t.Uses y → hasKey y g₁ = true ∨ M y) ∧ ∀ k u, (k, u) ∈ g₁ → ∀ y, u.Uses y → hasKey y g₁ = true ∨ M y := by
  obtain ⟨g2, h1, rfl⟩ := he
  obtain ⟨h2, h3⟩ := resolveStacks_mem h1
  have out : ∀ y, t.Uses y ∨ usesDefs y g → hasKey y (inheritWrap (wrapOf Γ) g2) = true ∨ M y := by
    intro y hy
    by_cases hh : Grammar.Has g y
    · exact Or.inl (hasKey_inheritWrap ((h3 y).2 hh))
    · exact Or.inr (hM y ⟨hh, hy⟩)
  refine ⟨fun y hy => out y (Or.inl hy), fun k u hm y hy => ?_⟩
  rcases mem_inheritWrap hm with hm | hm
  · rcases (h2 k u hm).uses hy with h | h
    · exact Or.inl (hasKey_inheritWrap ((h3 y).2 h))
    · exact out y (Or.inr h)
  · exact Or.inr (hw u hm y hy)

theorem Link.list {Γ Γ' : List Grammar} : {ts : List Term} → (∀ t ∈ ts, Link S Γ t Γ' t) → RList (Link S) Γ Γ' ts ts
  | [], _ => .nil
  | t :: _, h => .cons (h t (by simp)) (Link.list fun t ht => h t (by simp [ht]))

theorem uses_delim {t sep : Term} {cs ce : Bool} {y} (h : usesList y (delimSeq t sep cs ce)) : t.Uses y ∨ sep.Uses y := by
  unfold delimSeq at h
  have h := usesList_iff.1 h
  cases cs <;> cases ce <;> simp [Term.Uses, usesList, optT, anyT] at h <;> grind

theorem sameShape_link (hS : Matched S) : SameShape (Link S) where
  symm := by
    rintro Γ t Γ' t' ⟨rfl, Δ, B, B', N, h1, rfl, rfl, h2, h3⟩
    exact ⟨rfl, Δ, B', B, N, hS.symm h1, rfl, rfl, h2, h3⟩
  ident h := by rw [h.1]
  rule := by
    rintro Γ r Γ' t' ⟨rfl, Δ, B, B', N, h1, rfl, rfl, h2, h3⟩
    exact ⟨rfl, fun hr => Link.resolves hS h1 h2 (h3 r rfl) hr⟩
  lit := by
    rintro Γ l Γ' t' ⟨rfl, Δ, B, B', N, h1, rfl, rfl, h2, h3⟩
    exact ⟨rfl, fun hp => by rwa [← wrapOf_append (hS.wrap h1).1]⟩
  re := by
    rintro Γ l Γ' t' ⟨rfl, Δ, B, B', N, h1, rfl, rfl, h2, h3⟩
    exact ⟨rfl, fun hp => by rwa [← wrapOf_append (hS.wrap h1).1]⟩
  ref h := h.1
  ext h := h.1
  seq := by
    rintro Γ ts Γ' t' ⟨rfl, Δ, B, B', N, h1, rfl, rfl, h2, h3⟩
    exact ⟨ts, rfl, Link.list fun t ht => ⟨rfl, Δ, B, B', N, h1, rfl, rfl, h2, fun y hy => h3 y (usesList_iff.2 ⟨t, ht, hy⟩)⟩⟩
  oneof := by
    rintro Γ ts Γ' t' ⟨rfl, Δ, B, B', N, h1, rfl, rfl, h2, h3⟩
    exact ⟨ts, rfl, Link.list fun t ht => ⟨rfl, Δ, B, B', N, h1, rfl, rfl, h2, fun y hy => h3 y (usesList_iff.2 ⟨t, ht, hy⟩)⟩⟩
  delim := by
    rintro Γ t sep a cs ce Γ' t' ⟨rfl, Δ, B, B', N, h1, rfl, rfl, h2, h3⟩
    exact ⟨t, sep, rfl, rfl, Δ, B, B', N, h1, rfl, rfl, h2, fun y hy => h3 y (uses_delim hy)⟩
  look := by
    rintro Γ t Γ' t' ⟨rfl, Δ, B, B', N, h1, rfl, rfl, h2, h3⟩
    exact ⟨t, rfl, rfl, Δ, B, B', N, h1, rfl, rfl, h2, fun y hy => h3 y (by simpa [Term.Uses] using hy)⟩
  quant := by
    rintro Γ t lo hi Γ' t' ⟨rfl, Δ, B, B', N, h1, rfl, rfl, h2, h3⟩
    exact ⟨t, rfl, rfl, Δ, B, B', N, h1, rfl, rfl, h2, fun y hy => h3 y (by simpa [Term.Uses] using hy)⟩
  named := by
    rintro Γ n t Γ' t' ⟨rfl, Δ, B, B', N, h1, rfl, rfl, h2, h3⟩
    exact ⟨t, rfl, rfl, Δ, B, B', N, h1, rfl, rfl, h2, fun y hy => h3 y (by simpa [Term.Uses] using hy)⟩
  cut := by
    rintro Γ t Γ' t' ⟨rfl, Δ, B, B', N, h1, rfl, rfl, h2, h3⟩
    exact ⟨t, rfl, rfl, Δ, B, B', N, h1, rfl, rfl, h2, fun y hy => h3 y (by simpa [Term.Uses] using hy)⟩
  scope := by
    rintro Γ t g Γ' t' ⟨rfl, Δ, B, B', N, h1, rfl, rfl, h2, h3⟩
    refine ⟨t, g, rfl, fun {g₁} he => ⟨g₁, ?_, rfl, g₁ :: Δ, B, B', N, h1, rfl, rfl, ?_⟩⟩
    · unfold Enters at he ⊢
      rwa [← wrapOf_append (hS.wrap h1).1]
    · have hw : ∀ w, wrapOf (Δ ++ B) = some w → ∀ y, w.Uses y → Bound Δ y ∨ N y := by
        intro w hw y hy
        cases Δ with
        | nil => exact Or.inr ((hS.wrap h1).2 w hw y hy)
        | cons g' Δ => exact h2.1 _ _ (lookup_mem hw) y hy
      obtain ⟨h4, h5⟩ := he.bound h3 hw
      have up : ∀ y, hasKey y g₁ = true ∨ (Bound Δ y ∨ N y) → Bound (g₁ :: Δ) y ∨ N y := by
        rintro y (h | h | h)
        · exact Or.inl ⟨g₁, by simp, h⟩
        · exact Or.inl (h.cons g₁)
        · exact Or.inr h
      exact ⟨⟨fun k u hm y hy => up y (h5 k u hm y hy), h2⟩, fun y hy => up y (h4 y hy)⟩

end Wbnf

import Verif.Lemmas.Tokens

/-! Two runs with different random draws go the same way. -/

namespace Wbnf

section
variable (X : Externals) (ρ ρ' : Nat → Nat) (D : Nat → Prop)

/-- Draws with indices in `D` are distinct and not foreign. -/
structure GoodOn (X : Externals) (ρ : Nat → Nat) (D : Nat → Prop) : Prop where
  inj : ∀ i j, D i → D j → ρ i = ρ j → i = j
  foreign : ∀ i, D i → ¬ X.Emits (ρ i)

def CpRel (k : Nat) (cp cp' : Option Nat) : Prop :=
  (cp = none ∧ cp' = none) ∨ ∃ j, j < k ∧ cp = some (ρ j) ∧ cp' = some (ρ' j)

def ErrRel (k : Nat) (e e' : Err) : Prop :=
  (e = e' ∧ ∀ c, e = .fatal c → X.Emits c) ∨
  ∃ j, j < k ∧ e = .fatal (ρ j) ∧ e' = .fatal (ρ' j)

/-- All draws of the outcome are in `D` (for a panic or a run that was cut short: all are). -/
def Within {α : Type} : Res α → Prop
  | .ok _ _ k => ∀ j, j < k → D j
  | .err _ _ k => ∀ j, j < k → D j
  | _ => ∀ j, D j

def ResRel {α : Type} : Res α → Res α → Prop
  | .ok v i k, r' => r' = .ok v i k
  | .err e i k, r' => ∃ e', ErrRel X ρ ρ' k e e' ∧ r' = .err e' i k
  | .panic, r' => r' = .panic
  | .oof, r' => r' = .oof

def Sim {α : Type} (r r' : Res α) : Prop := Within D r → ResRel X ρ ρ' r r'
end

variable {X : Externals} {ρ ρ' : Nat → Nat} {D : Nat → Prop}

theorem ErrRel.mono {k l e e'} (h : ErrRel X ρ ρ' k e e') (hl : k ≤ l) : ErrRel X ρ ρ' l e e' := by
  rcases h with h | ⟨j, h1, h2⟩
  · exact Or.inl h
  · exact Or.inr ⟨j, by omega, h2⟩

theorem CpRel.mono {k l c c'} (h : CpRel ρ ρ' k c c') (hl : k ≤ l) : CpRel ρ ρ' l c c' := by
  rcases h with h | ⟨j, h1, h2⟩
  · exact Or.inl h
  · exact Or.inr ⟨j, by omega, h2⟩

theorem CpRel.mkErr {k c c'} (h : CpRel ρ ρ' k c c') : ErrRel X ρ ρ' k (mkErr c) (mkErr c') := by
  rcases h with ⟨rfl, rfl⟩ | ⟨j, h1, rfl, rfl⟩
  · exact Or.inl ⟨rfl, by simp [Wbnf.mkErr]⟩
  · exact Or.inr ⟨j, h1, rfl, rfl⟩

theorem ErrRel.isFatal {k e e'} (h : ErrRel X ρ ρ' k e e') : e'.isFatal = e.isFatal := by
  rcases h with ⟨rfl, _⟩ | ⟨j, h1, rfl, rfl⟩ <;> rfl

theorem ErrRel.isNotMyFatal (hD : GoodOn X ρ D) (hD' : GoodOn X ρ' D) {k e e' c c'}
    (hk : ∀ j, j < k → D j) (h : ErrRel X ρ ρ' k e e') (hc : CpRel ρ ρ' k c c') :
    e'.isNotMyFatal c' = e.isNotMyFatal c := by
  rcases h with ⟨rfl, hf⟩ | ⟨j, h1, rfl, rfl⟩
  · rcases hc with ⟨rfl, rfl⟩ | ⟨j, h1, rfl, rfl⟩
    · rfl
    · cases e with
      | fatal c =>
        have he := hf c rfl
        have h2 : c ≠ ρ j := fun h => hD.foreign j (hk j h1) (h ▸ he)
        have h3 : c ≠ ρ' j := fun h => hD'.foreign j (hk j h1) (h ▸ he)
        simp [Err.isNotMyFatal, h2, h3]
      | _ => rfl
  · rcases hc with ⟨rfl, rfl⟩ | ⟨i, h2, rfl, rfl⟩
    · rfl
    · by_cases hij : j = i
      · subst hij; simp [Err.isNotMyFatal]
      · have h3 : ρ j ≠ ρ i := fun h => hij (hD.inj j i (hk j h1) (hk i h2) h)
        have h4 : ρ' j ≠ ρ' i := fun h => hij (hD'.inj j i (hk j h1) (hk i h2) h)
        simp [Err.isNotMyFatal, h3, h4]

theorem Sim.same {α} {r : Res α} (h : ∀ e i k, r = .err e i k → ∀ c, e = .fatal c → X.Emits c) :
    Sim X ρ ρ' D r r := by
  intro _
  cases r with
  | err e i k => exact ⟨e, Or.inl ⟨rfl, h e i k rfl⟩, rfl⟩
  | _ => rfl

/-- A step followed by a continuation that draws after it. -/
theorem Within.left {α β cp} {r : Res α} {f : α → Scanner → Nat → Res β}
    (hf : ∀ v i k, r = .ok v i k → (f v i k).Tok X ρ cp k) (h : Within D (r.bind f)) : Within D r := by
  cases r with
  | ok v i k =>
    have h1 := hf v i k rfl
    intro j hj
    simp only [Res.bind] at h
    cases hr : f v i k with
    | ok w i' k' => rw [hr] at h h1; exact h j (Nat.lt_of_lt_of_le hj h1)
    | err e i' k' => rw [hr] at h h1; exact h j (Nat.lt_of_lt_of_le hj h1.1)
    | panic => rw [hr] at h; exact h j
    | oof => rw [hr] at h; exact h j
  | err e i k => exact h
  | panic => exact h
  | oof => exact h

theorem Sim.bind {α β cp} {r r' : Res α} {f f' : α → Scanner → Nat → Res β} (h : Sim X ρ ρ' D r r')
    (htok : ∀ v i k, r = .ok v i k → (f v i k).Tok X ρ cp k)
    (hf : ∀ v i k, r = .ok v i k → Sim X ρ ρ' D (f v i k) (f' v i k)) :
    Sim X ρ ρ' D (r.bind f) (r'.bind f') := by
  intro hw
  have h1 := h (hw.left htok)
  cases r with
  | ok v i k => rw [h1]; exact hf v i k rfl hw
  | err e i k => obtain ⟨e', h2, rfl⟩ := h1; exact ⟨e', h2, rfl⟩
  | panic => rw [h1]; rfl
  | oof => rw [h1]; rfl

theorem Sim.ofOption {α β} {o : Option α} {f f' : α → Res β} (h : ∀ v, Sim X ρ ρ' D (f v) (f' v)) :
    Sim X ρ ρ' D (Res.ofOption o f) (Res.ofOption o f') := by
  cases o with
  | none => exact fun _ => rfl
  | some v => exact h v

theorem Sim.ofExcept {α β} {o : Except Stop α} {f f' : α → Res β}
    (h : ∀ v, Sim X ρ ρ' D (f v) (f' v)) :
    Sim X ρ ρ' D (Res.ofExcept o f) (Res.ofExcept o f') := by
  cases o with
  | error e => cases e <;> exact fun _ => rfl
  | ok v => exact h v

theorem eatLeaf_sim {find sc sc' inp k} (hc : CpRel ρ ρ' k sc.cp sc'.cp) :
    Sim X ρ ρ' D (eatLeaf find sc inp k) (eatLeaf find sc' inp k) := by
  intro _
  unfold eatLeaf
  split <;> first | rfl | exact ⟨_, hc.mkErr, rfl⟩

theorem escaping_sim {E ident t sc sc' inp k r r'} (hX : X.Blind) (hv : sc'.vals = sc.vals)
    (h : Sim X ρ ρ' D r r') :
    Sim X ρ ρ' D (escaping E X ident t sc inp k r) (escaping E X ident t sc' inp k r') := by
  have he : parseEscape E X ident t sc' inp = parseEscape E X ident t sc inp := by
    unfold parseEscape
    cases hesc : X.esc with
    | none => rfl
    | some e =>
      have hb : ∀ rest, e.external ⟨sc'.getVal, sc'.cp, ident, some t⟩ rest =
          e.external ⟨sc.getVal, sc.cp, ident, some t⟩ rest := by
        intro rest
        have h1 : sc'.getVal = sc.getVal := by funext i; simp [Scope.getVal, hv]
        rw [h1]
        exact hX.esc e hesc ⟨sc.getVal, sc.cp, ident, some t⟩ sc'.cp rest
      simp only [hb]
  unfold escaping
  rw [he]
  split
  · exact h
  · exact fun _ => rfl
  · rename_i e i hr
    refine fun _ => ⟨e, Or.inl ⟨rfl, fun c hc => ?_⟩, rfl⟩
    have := parseEscape_tok hr ρ none k
    rw [hc] at this
    rcases this with h | ⟨j, h1, h2, _⟩ | h
    · simp at h
    · omega
    · exact h
  · exact fun _ => rfl

def ScRel (ρ ρ' : Nat → Nat) (k : Nat) (sc sc' : Scope) : Prop :=
  sc'.vals = sc.vals ∧ CpRel ρ ρ' k sc.cp sc'.cp

theorem ScRel.withVal {k sc sc'} (h : ScRel ρ ρ' k sc sc') (i v) :
    ScRel ρ ρ' k (sc.withVal i v) (sc'.withVal i v) := by
  refine ⟨?_, by rw [withVal_cp, withVal_cp]; exact h.2⟩
  unfold Scope.withVal
  split <;> simp [h.1]

theorem ScRel.mono {k l c c'} (h : ScRel ρ ρ' k c c') (hl : k ≤ l) : ScRel ρ ρ' l c c' :=
  ⟨h.1, h.2.mono hl⟩

theorem seqLoop_sim {f f' : P → Scope → Scanner → Nat → Res Tree} {ic : P → Bool}
    (htok : ∀ p sc i k, (f p sc i k).Tok X ρ sc.cp k)
    (hf : ∀ p sc sc' i k, ScRel ρ ρ' k sc sc' → Sim X ρ ρ' D (f p sc i k) (f' p sc' i k))
    (items : List (Str × P)) (sc sc' i k) (hs : ScRel ρ ρ' k sc sc') :
    Sim X ρ ρ' D (seqLoop ρ f ic items sc i k) (seqLoop ρ' f' ic items sc' i k) := by
  induction items generalizing sc sc' i k with
  | nil => exact fun _ => rfl
  | cons e items ih =>
    obtain ⟨ident, p⟩ := e
    simp only [seqLoop]
    have h := hf p sc sc' i k hs
    have ht := htok p sc i k
    cases hr : f p sc i k with
    | ok v i' k' =>
      rw [hr] at h ht
      have ht : k ≤ k' := ht
      simp only
      intro hw
      -- the scopes for the rest
      have hsc : ScRel ρ ρ' (if ic p then sc.replaceCutPoint ρ true k' else (sc, none, none, k')).2.2.2
          ((if ic p then sc.replaceCutPoint ρ true k' else (sc, none, none, k')).1.withVal ident v)
          ((if ic p then sc'.replaceCutPoint ρ' true k' else (sc', none, none, k')).1.withVal ident v) := by
        apply ScRel.withVal
        cases ic p with
        | false => exact hs.mono ht
        | true =>
          simp only [if_pos, replaceCutPoint_true]
          exact ⟨hs.1, Or.inr ⟨k', by omega, rfl, rfl⟩⟩
      have hk : (if ic p then sc'.replaceCutPoint ρ' true k' else (sc', none, none, k')).2.2.2 =
          (if ic p then sc.replaceCutPoint ρ true k' else (sc, none, none, k')).2.2.2 := by
        cases ic p <;> simp [replaceCutPoint_true]
      have hk2 : k' ≤ (if ic p then sc.replaceCutPoint ρ true k' else (sc, none, none, k')).2.2.2 := by
        cases ic p <;> simp [replaceCutPoint_true]
      have hrest := ih _ _ i' _ hsc
      have htr := seqLoop_tok (X := X) (ρ := ρ) (ic := ic) htok items
        ((if ic p then sc.replaceCutPoint ρ true k' else (sc, none, none, k')).1.withVal ident v) i'
        (if ic p then sc.replaceCutPoint ρ true k' else (sc, none, none, k')).2.2.2
      have hw1 : Within D (Res.ok v i' k') := by
        have hw2 := Within.left (X := X) (ρ := ρ) (cp := none) (fun _ _ _ _ => Nat.le_refl _) hw
        intro j hj
        revert hw2 htr
        cases seqLoop ρ f ic items
          ((if ic p then sc.replaceCutPoint ρ true k' else (sc, none, none, k')).1.withVal ident v) i'
          (if ic p then sc.replaceCutPoint ρ true k' else (sc, none, none, k')).2.2.2 with
        | ok a b c => intro h1 h2; exact h2 j (by have : _ ≤ c := h1; omega)
        | err a b c => intro h1 h2; exact h2 j (by have := h1.1; omega)
        | panic => intro _ h2; exact h2 j
        | oof => intro _ h2; exact h2 j
      rw [h hw1]
      simp only [hk]
      exact Sim.bind (cp := none) hrest (fun _ _ _ _ => Nat.le_refl _) (fun _ _ _ _ _ => rfl) hw
    | err er i' k' =>
      rw [hr] at h ht
      intro hw
      have hw1 : Within D (Res.err (α := Tree) er i' k') := by
        revert hw; simp only; split <;> exact fun h => h
      obtain ⟨e', h1, h2⟩ := h hw1
      rw [h2]
      simp only [h1.isFatal]
      split
      · exact ⟨e', h1, rfl⟩
      · exact ⟨_, (hs.2.mkErr).mono ht.1, rfl⟩
    | panic => rw [hr] at h; intro hw; rw [h hw]; rfl
    | oof => rw [hr] at h; intro hw; rw [h hw]; rfl

theorem quantLoop_sim (hD : GoodOn X ρ D) (hD' : GoodOn X ρ' D) {f f' : Scanner → Nat → Res Tree}
    {max my my' cp k0} (htok : ∀ i k, (f i k).Tok X ρ cp k) (hmy : CpRel ρ ρ' k0 my my')
    (hf : ∀ i k, k0 ≤ k → Sim X ρ ρ' D (f i k) (f' i k)) (n cnt i k) (hk0 : k0 ≤ k) :
    Sim X ρ ρ' D (quantLoop f max my n cnt i k) (quantLoop f' max my' n cnt i k) := by
  induction n generalizing cnt i k with
  | zero => exact fun _ => rfl
  | succ n ih =>
    rw [quantLoop, quantLoop]
    split
    · have h := hf i k hk0
      have ht := htok i k
      cases hr : f i k with
      | ok v i' k' =>
        rw [hr] at h ht
        have ht : k ≤ k' := ht
        simp only
        intro hw
        have htr := quantLoop_tok (X := X) (ρ := ρ) (max := max) (my := my) htok n (cnt + 1) i' k'
        have hw1 : Within D (Res.ok v i' k') := by
          have hw2 := Within.left (X := X) (ρ := ρ) (cp := none) (fun _ _ _ _ => Nat.le_refl _) hw
          intro j hj
          revert hw2 htr
          cases quantLoop f max my n (cnt + 1) i' k' with
          | ok a b c => intro h1 h2; exact h2 j (by have : _ ≤ c := h1; omega)
          | err a b c => intro h1 h2; exact h2 j (by have := h1.1; omega)
          | panic => intro _ h2; exact h2 j
          | oof => intro _ h2; exact h2 j
        rw [h hw1]
        exact Sim.bind (cp := none) (ih _ i' k' (by omega)) (fun _ _ _ _ => Nat.le_refl _)
          (fun _ _ _ _ _ => rfl) hw
      | err er i' k' =>
        rw [hr] at h ht
        intro hw
        have hw1 : Within D (Res.err (α := Tree) er i' k') := by
          revert hw; simp only; split <;> exact fun h => h
        obtain ⟨e', h1, h2⟩ := h hw1
        rw [h2]
        have ht1 := ht.1
        simp only [h1.isNotMyFatal hD hD' hw1 (hmy.mono (by omega))]
        split
        · exact ⟨e', h1, rfl⟩
        · rfl
      | panic => rw [hr] at h; intro hw; rw [h hw]; rfl
      | oof => rw [hr] at h; intro hw; rw [h hw]; rfl
    · exact fun _ => rfl

theorem oneofLoop_sim (hD : GoodOn X ρ D) (hD' : GoodOn X ρ' D)
    {f f' : P → Scanner → Nat → Res Tree} {tag prev prev' my my' inp cp k0}
    (htok : ∀ p i k, (f p i k).Tok X ρ cp k)
    (hmono : ∀ ps i fu k, match oneofLoop f tag prev my inp ps i fu k with
      | .ok _ _ k' => k ≤ k' | .err _ _ k' => k ≤ k' | _ => True)
    (hmy : CpRel ρ ρ' k0 my my')
    (hprev : CpRel ρ ρ' k0 prev prev')
    (hf : ∀ p i k, k0 ≤ k → Sim X ρ ρ' D (f p i k) (f' p i k)) (ps i fu k) (hk0 : k0 ≤ k) :
    Sim X ρ ρ' D (oneofLoop f tag prev my inp ps i fu k) (oneofLoop f' tag prev' my' inp ps i fu k) := by
  induction ps generalizing i fu k with
  | nil => exact fun _ => ⟨_, (hprev.mkErr).mono hk0, rfl⟩
  | cons p ps ih =>
    simp only [oneofLoop]
    have h := hf p inp k hk0
    have ht := htok p inp k
    cases hr : f p inp k with
    | ok v i' k' => rw [hr] at h; intro hw; rw [h hw]; rfl
    | err er i' k' =>
      rw [hr] at h ht
      simp only
      have ht1 := ht.1
      intro hw
      have hw1 : Within D (Res.err (α := Tree) er i' k') := by
        revert hw
        split
        · exact fun h => h
        · intro hw j hj
          have hm := hmono ps (i + 1) (if fu.offset < i'.offset then i' else fu) k'
          revert hm hw
          cases oneofLoop f tag prev my inp ps (i + 1) (if fu.offset < i'.offset then i' else fu) k' with
          | ok a b c => intro hw hm; exact hw j (by have : k' ≤ c := hm; omega)
          | err a b c => intro hw hm; exact hw j (by have : k' ≤ c := hm; omega)
          | panic => intro hw _; exact hw j
          | oof => intro hw _; exact hw j
      obtain ⟨e', h1, h2⟩ := h hw1
      rw [h2]
      simp only [h1.isNotMyFatal hD hD' hw1 (hmy.mono (by omega))]
      revert hw
      split
      · intro _; exact ⟨e', h1, rfl⟩
      · exact ih _ _ k' (by omega)
    | panic => rw [hr] at h; intro hw; rw [h hw]; rfl
    | oof => rw [hr] at h; intro hw; rw [h hw]; rfl

theorem oneofLoop_mono_k {X ρ cp} {f : P → Scanner → Nat → Res Tree} {tag prev my inp}
    (hf : ∀ p i k, (f p i k).Tok X ρ cp k) (ps i fu k) :
    match oneofLoop f tag prev my inp ps i fu k with
      | .ok _ _ k' => k ≤ k' | .err _ _ k' => k ≤ k' | _ => True := by
  induction ps generalizing i fu k with
  | nil => exact Nat.le_refl _
  | cons p ps ih =>
    simp only [oneofLoop]
    have h := hf p inp k
    cases hr : f p inp k with
    | ok v i' k' => rw [hr] at h; exact h
    | err er i' k' =>
      rw [hr] at h
      have h := h.1
      simp only
      split
      · rename_i heq; split at heq
        · simp at heq
        · have := ih (i + 1) (if fu.offset < i'.offset then i' else fu) k'
          rw [heq] at this; exact Nat.le_trans h this
      · rename_i heq; split at heq
        · simp at heq; omega
        · have := ih (i + 1) (if fu.offset < i'.offset then i' else fu) k'
          rw [heq] at this; exact Nat.le_trans h this
      · trivial
    | panic => trivial
    | oof => trivial

theorem replace_rel {sc sc' k} (hs : ScRel ρ ρ' k sc sc') :
    let a := sc.replaceCutPoint ρ false k
    let b := sc'.replaceCutPoint ρ' false k
    k ≤ a.2.2.2 ∧ b.2.2.2 = a.2.2.2 ∧ ScRel ρ ρ' a.2.2.2 a.1 b.1 ∧ CpRel ρ ρ' k a.2.1 b.2.1 ∧
      CpRel ρ ρ' a.2.2.2 a.2.2.1 b.2.2.1 := by
  rcases hs with ⟨hv, ⟨h1, h2⟩ | ⟨j, h0, h1, h2⟩⟩
  · simp only [replaceCutPoint_false_none h1, replaceCutPoint_false_none h2]
    exact ⟨Nat.le_refl _, trivial, ⟨hv, Or.inl ⟨h1, h2⟩⟩, Or.inl ⟨rfl, rfl⟩, Or.inl ⟨rfl, rfl⟩⟩
  · simp only [replaceCutPoint_false_some h1, replaceCutPoint_false_some h2]
    exact ⟨by omega, trivial, ⟨hv, Or.inr ⟨k, by omega, rfl, rfl⟩⟩, Or.inr ⟨j, h0, rfl, rfl⟩,
      Or.inr ⟨k, by omega, rfl, rfl⟩⟩

theorem parse_sim {E : Engine} (hX : X.Blind) (hD : GoodOn X ρ D) (hD' : GoodOn X ρ' D)
    (n env p sc sc' inp k) (hs : ScRel ρ ρ' k sc sc') :
    Sim X ρ ρ' D (parse E X ρ n env p sc inp k) (parse E X ρ' n env p sc' inp k) := by
  induction n generalizing env p sc sc' inp k with
  | zero => exact fun _ => rfl
  | succ n ih =>
    have esc := fun {ident t r r'} (h : Sim X ρ ρ' D r r') =>
      escaping_sim (E := E) (ident := ident) (t := t) (inp := inp) (k := k) hX hs.1 h
    have tok := fun env p sc inp k => parse_tok E X ρ n env p sc inp k
    cases p with
    | rule => exact fun _ => rfl
    | link r => exact Sim.ofOption fun q => ih _ _ _ _ _ _ hs
    | s => exact esc (eatLeaf_sim hs.2)
    | re => exact esc (eatLeaf_sim hs.2)
    | seq rule ts ps =>
      exact esc ((seqLoop_sim (fun p sc i k => tok env p sc i k)
        (fun p sc sc' i k h => ih env p sc sc' i k h) _ sc sc' inp k hs).bind (cp := none)
        (fun _ _ _ _ => Nat.le_refl _) (fun _ _ _ _ _ => rfl))
    | delim rule term sep a cs ce child =>
      exact esc ((ih env child sc sc' inp k hs).bind (cp := none)
        (fun _ _ _ _ => Res.Tok.ofOption fun _ => Nat.le_refl _)
        (fun _ _ _ _ => Sim.ofOption fun _ _ => rfl))
    | look rule t q =>
      apply esc
      have h := ih env q sc sc' inp k hs
      intro hw
      cases hr : parse E X ρ n env q sc inp k with
      | ok v i k' => rw [hr] at h hw; rw [h hw]; rfl
      | err e i k' =>
        rw [hr] at h hw
        obtain ⟨e', h1, h2⟩ := h hw
        rw [h2]; exact ⟨e', h1, rfl⟩
      | panic => rw [hr] at h hw; rw [h hw]; rfl
      | oof => rw [hr] at h hw; rw [h hw]; rfl
    | quant rule t lo hi q =>
      rw [parse_quant, parse_quant]
      obtain ⟨h0, h1, h2, h3, h4⟩ := replace_rel hs
      rw [h1]
      refine esc ((quantLoop_sim hD hD' (fun i k => tok env q _ i k) h4
        (fun i k' hk => ih env q _ _ i k' (h2.mono hk)) n 0 inp _ (Nat.le_refl _)).bind (cp := sc.cp)
        (fun vs i k' h => ?_) (fun vs i k' hr => ?_))
      · split
        · exact Nat.le_refl _
        · refine ⟨Nat.le_refl _, ?_⟩
          cases hcp : sc.cp with
          | none => rw [replaceCutPoint_false_none hcp]; exact tokOK_mkErr
          | some c => rw [replaceCutPoint_false_some hcp]; exact tokOK_mkErr
      · split
        · exact fun _ => rfl
        · have ht := quantLoop_tok (X := X) (ρ := ρ) (max := hi)
            (my := (sc.replaceCutPoint ρ false k).2.2.1)
            (fun i k' => tok env q (sc.replaceCutPoint ρ false k).1 i k') n 0 inp
            (sc.replaceCutPoint ρ false k).2.2.2
          rw [hr] at ht
          have ht : _ ≤ k' := ht
          exact fun _ => ⟨_, h3.mkErr.mono (by omega), rfl⟩
    | oneof rule ts ps =>
      rw [parse_oneof, parse_oneof]
      obtain ⟨h0, h1, h2, h3, h4⟩ := replace_rel hs
      rw [h1]
      exact esc (oneofLoop_sim hD hD' (fun p i k => tok env p _ i k)
        (oneofLoop_mono_k fun p i k => tok env p _ i k) h4 (h3.mono h0)
        (fun p i k' hk => ih env p _ _ i k' (h2.mono hk)) _ _ _ _ (Nat.le_refl _))
    | ref ident dflt =>
      rw [parse_ref, parse_ref]
      have hv : sc'.getVal ident = sc.getVal ident := by simp [Scope.getVal, hs.1]
      rw [hv]
      apply esc
      split
      · refine Sim.ofOption fun t => Sim.ofExcept fun q =>
          (ih [] q sc sc' inp k hs).bind (cp := none) (fun v i k' h => Res.Tok.ofOption fun b => ?_)
            (fun v i k' h => Sim.ofOption fun b => ?_)
        · split
          · exact Nat.le_refl _
          · exact ⟨Nat.le_refl _, trivial⟩
        · split
          · exact fun _ => rfl
          · exact fun _ => ⟨_, Or.inl ⟨rfl, by simp⟩, rfl⟩
      · cases dflt with
        | none => exact fun _ => ⟨_, Or.inl ⟨rfl, by simp⟩, rfl⟩
        | some t => exact Sim.ofExcept fun q => ih [] q sc sc' inp k hs
    | ext name =>
      rw [parse_ext, parse_ext]
      apply esc
      split
      · exact Sim.same fun e i k h c hc => by simp at h; rw [← h.1] at hc; simp at hc; exact Or.inl hc.symm
      · rename_i f hf
        have hb : f ⟨sc'.getVal, sc'.cp, [], none⟩ inp = f ⟨sc.getVal, sc.cp, [], none⟩ inp := by
          have h1 : sc'.getVal = sc.getVal := by funext i; simp [Scope.getVal, hs.1]
          rw [h1]
          exact hX.refs name f hf ⟨sc.getVal, sc.cp, [], none⟩ sc'.cp inp
        rw [hb]
        apply Sim.same
        intro e i k' h c hc
        unfold extResult at h
        split at h
        · simp at h
        · rename_i e' he'
          simp at h
          rw [h.1, hc] at he'
          exact Or.inr (Or.inl ⟨name, f, _, inp, hf, he'⟩)
    | scope f b => exact ih _ _ _ _ _ _ hs
    | cut q t => exact ih _ _ _ _ _ _ hs

end Wbnf

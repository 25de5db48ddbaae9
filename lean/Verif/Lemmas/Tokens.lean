import Verif.Spec.Tokens
import Verif.Lemmas.Eqns

/-! Where the tokens of fatal errors come from, and counters only grow. -/

namespace Wbnf

/-- Where the token of an error may come from: the scope, a draw in `[k, k')`, or an external. -/
def TokOK (X : Externals) (ρ : Nat → Nat) (cp : Option Nat) (k k' : Nat) : Err → Prop
  | .fatal c => cp = some c ∨ (∃ j, k ≤ j ∧ j < k' ∧ ρ j = c) ∨ X.Emits c
  | _ => True

def Res.Tok {α : Type} (X : Externals) (ρ : Nat → Nat) (cp : Option Nat) (k : Nat) : Res α → Prop
  | .ok _ _ k' => k ≤ k'
  | .err e _ k' => k ≤ k' ∧ TokOK X ρ cp k k' e
  | _ => True

theorem TokOK.mono {X ρ cp k k' l l' e} (h : TokOK X ρ cp k k' e) (h1 : l ≤ k) (h2 : k' ≤ l') :
    TokOK X ρ cp l l' e := by
  cases e with
  | fatal c =>
    rcases h with h | ⟨j, h3, h4, h5⟩ | h
    · exact Or.inl h
    · exact Or.inr (Or.inl ⟨j, by omega, by omega, h5⟩)
    · exact Or.inr (Or.inr h)
  | _ => trivial

theorem Res.Tok.mono {α X ρ cp k l} {r : Res α} (h : r.Tok X ρ cp k) (hl : l ≤ k) :
    r.Tok X ρ cp l := by
  cases r with
  | ok v i k' => exact Nat.le_trans hl h
  | err e i k' => exact ⟨Nat.le_trans hl h.1, h.2.mono hl (Nat.le_refl _)⟩
  | _ => trivial

theorem tokOK_mkErr {X ρ cp k k'} : TokOK X ρ cp k k' (mkErr cp) := by
  cases cp with
  | none => trivial
  | some c => exact Or.inl rfl

theorem Res.Tok.bind {α β X ρ cp k} {r : Res α} {f : α → Scanner → Nat → Res β}
    (h : r.Tok X ρ cp k) (hf : ∀ v i k', k ≤ k' → (f v i k').Tok X ρ cp k) :
    (r.bind f).Tok X ρ cp k := by
  cases r with
  | ok v i k' => exact hf v i k' h
  | err e i k' => exact h
  | _ => trivial

theorem Res.Tok.ofOption {α β X ρ cp k} {o : Option α} {f : α → Res β}
    (hf : ∀ v, (f v).Tok X ρ cp k) : (Res.ofOption o f).Tok X ρ cp k := by
  cases o with
  | none => trivial
  | some v => exact hf v

theorem Res.Tok.ofExcept {α β X ρ cp k} {o : Except Stop α} {f : α → Res β}
    (hf : ∀ v, (f v).Tok X ρ cp k) : (Res.ofExcept o f).Tok X ρ cp k := by
  cases o with
  | error e => cases e <;> trivial
  | ok v => exact hf v

theorem Scanner.eatRegexp_cases (E : Engine) (s : Scanner) (p : Str) (sc : Scope) (k : Nat) (X ρ) :
    (eatLeaf (E.find p) sc s k).Tok X ρ sc.cp k := by
  unfold eatLeaf
  split <;> first
    | trivial
    | exact ⟨Nat.le_refl _, tokOK_mkErr⟩
    | exact Nat.le_refl _

theorem parseEscape_tok {E X ident t sc inp e i} (h : parseEscape E X ident t sc inp = .err e i)
    (ρ cp k) : TokOK X ρ cp k k e := by
  unfold parseEscape at h
  split at h
  · simp at h
  · rename_i esc hesc
    split at h
    · simp at h
    · simp at h
    · rename_i rest hr
      have hclose : ∀ v i', closeEscape E esc.closeDelim v i' = .err e i → TokOK X ρ cp k k e := by
        intro v i' hc
        unfold closeEscape at hc
        split at hc <;> simp at hc
        rw [← hc.1]; trivial
      simp only at h
      split at h
      · exact hclose _ _ h
      · exact hclose _ _ h
      · rename_i er _ her
        simp at h
        cases e with
        | fatal c =>
          refine Or.inr (Or.inr (Or.inr (Or.inr
            ⟨esc, ⟨sc.getVal, sc.cp, ident, some t⟩, rest, hesc, ?_⟩)))
          rw [← h.1]; exact her
        | _ => trivial

theorem escaping_tok {E X ident t sc inp k cont} {ρ} (h : Res.Tok X ρ sc.cp k cont) :
    (escaping E X ident t sc inp k cont).Tok X ρ sc.cp k := by
  unfold escaping
  split
  · exact h
  · exact Nat.le_refl _
  · rename_i e i he; exact ⟨Nat.le_refl _, parseEscape_tok he ρ _ _⟩
  · trivial

/-- After a token was replaced by the draw `ρ k`, tokens of the new scope are draws. -/
theorem TokOK.replaced {X ρ cp k l l' e} (h : TokOK X ρ (some (ρ k)) l l' e) (h1 : k < l')
    {k0 : Nat} (h0 : k0 ≤ k) (hl : k0 ≤ l) : TokOK X ρ cp k0 l' e := by
  cases e with
  | fatal c =>
    rcases h with h | ⟨j, h3, h4, h5⟩ | h
    · exact Or.inr (Or.inl ⟨k, h0, h1, Option.some.inj h⟩)
    · exact Or.inr (Or.inl ⟨j, by omega, by omega, h5⟩)
    · exact Or.inr (Or.inr h)
  | _ => trivial

theorem replaceCutPoint_true (ρ sc k) : Scope.replaceCutPoint ρ true sc k =
    ({ sc with cp := some (ρ k) }, sc.cp, some (ρ k), k + 1) := by
  simp [Scope.replaceCutPoint]

theorem replaceCutPoint_false_none {ρ sc k} (h : sc.cp = none) :
    Scope.replaceCutPoint ρ false sc k = (sc, none, none, k) := by
  simp [Scope.replaceCutPoint, h]

theorem replaceCutPoint_false_some {ρ sc k c} (h : sc.cp = some c) :
    Scope.replaceCutPoint ρ false sc k =
      ({ sc with cp := some (ρ k) }, some c, some (ρ k), k + 1) := by
  simp [Scope.replaceCutPoint, h]

theorem withVal_cp (sc : Scope) (i v) : (sc.withVal i v).cp = sc.cp := by
  unfold Scope.withVal; split <;> rfl

theorem seqLoop_tok {X ρ} {f : P → Scope → Scanner → Nat → Res Tree} {ic : P → Bool}
    (hf : ∀ p sc i k, (f p sc i k).Tok X ρ sc.cp k) (items : List (Str × P)) (sc i k) :
    (seqLoop ρ f ic items sc i k).Tok X ρ sc.cp k := by
  induction items generalizing sc i k with
  | nil => exact Nat.le_refl _
  | cons e items ih =>
    obtain ⟨ident, p⟩ := e
    simp only [seqLoop]
    have h := hf p sc i k
    cases hr : f p sc i k with
    | ok v i' k' =>
      rw [hr] at h
      have h : k ≤ k' := h
      simp only
      cases hic : ic p with
      | false =>
        have h2 := ih (sc.withVal ident v) i' k'
        rw [withVal_cp] at h2
        simp only [Bool.false_eq_true, if_false]
        exact (h2.mono h).bind fun _ _ _ h => h
      | true =>
        rw [if_pos rfl, replaceCutPoint_true]
        have h2 := ih ((Scope.mk sc.vals (some (ρ k'))).withVal ident v) i' (k' + 1)
        rw [withVal_cp] at h2
        simp only
        cases hres : seqLoop ρ f ic items ((Scope.mk sc.vals (some (ρ k'))).withVal ident v) i' (k' + 1)
          with
        | ok vs j k'' =>
          rw [hres] at h2
          have h2 : k' + 1 ≤ k'' := h2
          show k ≤ k''
          omega
        | err e j k'' =>
          rw [hres] at h2
          have h3 : k' + 1 ≤ k'' := h2.1
          exact ⟨by omega, h2.2.replaced (by omega) h (by omega)⟩
        | panic => trivial
        | oof => trivial
    | err er i' k' =>
      rw [hr] at h
      simp only
      split
      · exact h
      · exact ⟨h.1, tokOK_mkErr⟩
    | panic => trivial
    | oof => trivial

theorem quantLoop_tok {X ρ cp} {f : Scanner → Nat → Res Tree} {max my}
    (hf : ∀ i k, (f i k).Tok X ρ cp k) (n cnt i k) :
    (quantLoop f max my n cnt i k).Tok X ρ cp k := by
  induction n generalizing cnt i k with
  | zero => trivial
  | succ n ih =>
    rw [quantLoop]
    split
    · have h := hf i k
      cases hr : f i k with
      | ok v i' k' =>
        rw [hr] at h
        simp only
        exact ((ih (cnt + 1) i' k').mono h).bind fun _ _ _ h => h
      | err er i' k' =>
        rw [hr] at h
        simp only
        split
        · exact h
        · exact h.1
      | panic => trivial
      | oof => trivial
    · exact Nat.le_refl _

theorem oneofLoop_tok {X ρ cp} {f : P → Scanner → Nat → Res Tree} {tag prev my inp}
    (hf : ∀ p i k, (f p i k).Tok X ρ cp k) (hprev : ∀ k k', TokOK X ρ cp k k' (mkErr prev))
    (ps i fu k) : (oneofLoop f tag prev my inp ps i fu k).Tok X ρ cp k := by
  induction ps generalizing i fu k with
  | nil => exact ⟨Nat.le_refl _, hprev _ _⟩
  | cons p ps ih =>
    simp only [oneofLoop]
    have h := hf p inp k
    cases hr : f p inp k with
    | ok v i' k' => rw [hr] at h; exact h
    | err er i' k' =>
      rw [hr] at h
      simp only
      split
      · exact h
      · exact (ih _ _ k').mono h.1
    | panic => trivial
    | oof => trivial

/-- From a scope with a replaced token back to the original scope. -/
theorem Res.Tok.replaced {α X ρ cp k l} {r : Res α} (h : r.Tok X ρ (some (ρ k)) l) (hl : k < l) :
    r.Tok X ρ cp k := by
  cases r with
  | ok v i k' => have h : l ≤ k' := h; show k ≤ k'; omega
  | err e i k' =>
    have h1 := h.1
    exact ⟨by omega, h.2.replaced (by omega) (Nat.le_refl _) (by omega)⟩
  | _ => trivial

theorem parse_tok (E X ρ n env p sc inp k) : (parse E X ρ n env p sc inp k).Tok X ρ sc.cp k := by
  induction n generalizing env p sc inp k with
  | zero => trivial
  | succ n ih =>
    cases p with
    | rule => trivial
    | link r => exact Res.Tok.ofOption fun q => ih _ _ _ _ _
    | s => exact escaping_tok (Scanner.eatRegexp_cases _ _ _ _ _ _ _)
    | re => exact escaping_tok (Scanner.eatRegexp_cases _ _ _ _ _ _ _)
    | seq rule ts ps =>
      exact escaping_tok ((seqLoop_tok (fun p sc i k => ih env p sc i k) _ sc inp k).bind
        fun _ _ _ h => h)
    | delim rule term sep a cs ce child =>
      exact escaping_tok ((ih env child sc inp k).bind fun _ _ _ h => Res.Tok.ofOption fun _ => h)
    | look rule t q =>
      apply escaping_tok
      have h := ih env q sc inp k
      cases hr : parse E X ρ n env q sc inp k <;> rw [hr] at h <;> first | trivial | exact h
    | quant rule t lo hi q =>
      rw [parse_quant]
      apply escaping_tok
      cases hcp : sc.cp with
      | none =>
        rw [replaceCutPoint_false_none hcp]
        refine (quantLoop_tok (fun i k => ?_) _ _ _ _).bind fun vs i k' h => ?_
        · have := ih env q sc i k; rw [hcp] at this; exact this
        · split
          · exact h
          · exact ⟨h, tokOK_mkErr⟩
      | some c =>
        rw [replaceCutPoint_false_some hcp]
        have : ((quantLoop (fun i k' => parse E X ρ n env q { sc with cp := some (ρ k) } i k') hi
            (some (ρ k)) n 0 inp (k + 1))).Tok X ρ (some c) k :=
          (quantLoop_tok (fun i k' => ih env q { sc with cp := some (ρ k) } i k') _ _ _ _).replaced
            (by omega)
        refine this.bind fun vs i k' h => ?_
        split
        · exact h
        · exact ⟨h, tokOK_mkErr⟩
    | oneof rule ts ps =>
      rw [parse_oneof]
      apply escaping_tok
      cases hcp : sc.cp with
      | none =>
        rw [replaceCutPoint_false_none hcp]
        exact oneofLoop_tok (fun p i k => by have := ih env p sc i k; rwa [hcp] at this)
          (fun _ _ => tokOK_mkErr) _ _ _ _
      | some c =>
        rw [replaceCutPoint_false_some hcp]
        simp only
        -- the errors of the alternatives carry draws; the final error carries the old token
        have gen : ∀ ps i fu k1, k < k1 →
            (oneofLoop (fun q i k' => parse E X ρ n env q { sc with cp := some (ρ k) } i k')
              (ruleOrAlt rule oneofTag) (some c) (some (ρ k)) inp ps i fu k1).Tok X ρ (some c) k := by
          intro ps
          induction ps with
          | nil => intro i fu k1 h1; exact ⟨by omega, tokOK_mkErr⟩
          | cons p ps ihp =>
            intro i fu k1 h1
            simp only [oneofLoop]
            have h := (ih env p { sc with cp := some (ρ k) } inp k1).replaced (cp := some c) h1
            have h' := ih env p { sc with cp := some (ρ k) } inp k1
            cases hr : parse E X ρ n env p { sc with cp := some (ρ k) } inp k1 with
            | ok v i' k' => rw [hr] at h; exact h
            | err er i' k' =>
              rw [hr] at h h'
              simp only
              have h'' := h'.1
              split
              · exact h
              · exact ihp _ _ k' (by omega)
            | panic => trivial
            | oof => trivial
        exact gen _ _ _ _ (by omega)
    | ref ident dflt =>
      rw [parse_ref]
      apply escaping_tok
      split
      · refine Res.Tok.ofOption fun t => Res.Tok.ofExcept fun q =>
          (ih [] q sc inp k).bind fun v i k' h => Res.Tok.ofOption fun b => ?_
        split
        · exact h
        · exact ⟨h, trivial⟩
      · cases dflt with
        | none => exact ⟨Nat.le_refl _, trivial⟩
        | some t => exact Res.Tok.ofExcept fun q => ih [] q sc inp k
    | ext name =>
      rw [parse_ext]
      apply escaping_tok
      split
      · exact ⟨Nat.le_refl _, Or.inr (Or.inr (Or.inl rfl))⟩
      · rename_i f hf
        unfold extResult
        split
        · exact Nat.le_refl _
        · rename_i e he
          refine ⟨Nat.le_refl _, ?_⟩
          cases e with
          | fatal c => exact Or.inr (Or.inr (Or.inr (Or.inl ⟨name, f, _, inp, hf, he⟩)))
          | _ => trivial
    | scope f b => exact ih _ _ _ _ _
    | cut q t => exact ih _ _ _ _ _

end Wbnf

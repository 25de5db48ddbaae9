import Verif.Lemmas.Top

/-! A parse that starts after `d` draws sees the rest of the stream. -/

namespace Wbnf

/-- The same outcome with `d` more draws. -/
def Res.shift {α : Type} (d : Nat) : Res α → Res α
  | .ok v i k => .ok v i (k + d)
  | .err e i k => .err e i (k + d)
  | .panic => .panic
  | .oof => .oof

variable {α β : Type} {d : Nat} {E : Engine} {X : Externals} {ρ : Nat → Nat}

theorem shift_bind {r r' : Res α} {f f' : α → Scanner → Nat → Res β} (h : r' = r.shift d)
    (hf : ∀ v i k, f' v i (k + d) = (f v i k).shift d) : r'.bind f' = (r.bind f).shift d := by
  subst h
  cases r <;> simp [Res.shift, Res.bind, hf]

theorem shift_ofOption {o : Option α} {f f' : α → Res β} (hf : ∀ v, f' v = (f v).shift d) :
    Res.ofOption o f' = (Res.ofOption o f).shift d := by
  cases o <;> simp [Res.ofOption, hf, Res.shift]

theorem shift_ofExcept {o : Except Stop α} {f f' : α → Res β} (hf : ∀ v, f' v = (f v).shift d) :
    Res.ofExcept o f' = (Res.ofExcept o f).shift d := by
  cases o with
  | ok v => exact hf v
  | error e => cases e <;> rfl

theorem shift_escaping {ident t sc inp k} {r r' : Res Tree} (h : r' = r.shift d) :
    escaping E X ident t sc inp (k + d) r' = (escaping E X ident t sc inp k r).shift d := by
  unfold escaping
  cases parseEscape E X ident t sc inp <;> simp [h, Res.shift]

theorem shift_replace {force sc k} :
    Scope.replaceCutPoint ρ force sc (k + d) =
      let r := Scope.replaceCutPoint (fun j => ρ (j + d)) force sc k
      (r.1, r.2.1, r.2.2.1, r.2.2.2 + d) := by
  unfold Scope.replaceCutPoint
  by_cases h : (sc.cp.isSome || force) = true
  · rw [if_pos h, if_pos h]; simp; omega
  · rw [if_neg h, if_neg h]

theorem shift_leaf {find sc inp k} : eatLeaf find sc inp (k + d) = (eatLeaf find sc inp k).shift d := by
  unfold eatLeaf
  repeat' split
  all_goals rfl

theorem shift_seq {rec rec' : P → Scope → Scanner → Nat → Res Tree} {isCut}
    (h : ∀ p sc inp k, rec' p sc inp (k + d) = (rec p sc inp k).shift d) :
    ∀ (items : List (Str × P)) sc inp k,
      seqLoop ρ rec' isCut items sc inp (k + d) = (seqLoop (fun j => ρ (j + d)) rec isCut items sc inp k).shift d := by
  intro items
  induction items with
  | nil => intro sc inp k; rfl
  | cons it items ih =>
    obtain ⟨ident, p⟩ := it
    intro sc inp k
    simp only [seqLoop, h]
    cases rec p sc inp k with
    | ok v i k' =>
      simp only [Res.shift]
      cases isCut p with
      | true =>
        simp only [if_true, shift_replace]
        exact shift_bind (ih _ _ _) fun _ _ _ => rfl
      | false => exact shift_bind (ih _ _ _) fun _ _ _ => rfl
    | err e i k' =>
      simp only [Res.shift]
      split <;> rfl
    | panic => rfl
    | oof => rfl

theorem shift_quant {rec rec' : Scanner → Nat → Res Tree} {max mycp}
    (h : ∀ inp k, rec' inp (k + d) = (rec inp k).shift d) :
    ∀ n cnt inp k, quantLoop rec' max mycp n cnt inp (k + d) = (quantLoop rec max mycp n cnt inp k).shift d := by
  intro n
  induction n with
  | zero => intros; rfl
  | succ n ih =>
    intro cnt inp k
    simp only [quantLoop, h]
    split
    · cases rec inp k with
      | ok v i k' => exact shift_bind (ih _ _ _) fun _ _ _ => rfl
      | err e i k' =>
        simp only [Res.shift]
        split <;> rfl
      | panic => rfl
      | oof => rfl
    · rfl

theorem shift_oneof {rec rec' : P → Scanner → Nat → Res Tree} {tag prevcp mycp inp}
    (h : ∀ p inp k, rec' p inp (k + d) = (rec p inp k).shift d) :
    ∀ (ps : List P) i fur k, oneofLoop rec' tag prevcp mycp inp ps i fur (k + d) =
      (oneofLoop rec tag prevcp mycp inp ps i fur k).shift d := by
  intro ps
  induction ps with
  | nil => intros; rfl
  | cons p ps ih =>
    intro i fur k
    simp only [oneofLoop, h]
    cases rec p inp k with
    | ok v i k' => rfl
    | err e i k' =>
      simp only [Res.shift]
      split
      · rfl
      · exact ih _ _ _
    | panic => rfl
    | oof => rfl

theorem parse_shift (d : Nat) : ∀ n env p sc inp k,
    parse E X ρ n env p sc inp (k + d) = (parse E X (fun j => ρ (j + d)) n env p sc inp k).shift d := by
  intro n
  induction n with
  | zero => intros; rfl
  | succ n ih =>
    intro env p sc inp k
    unfold parse
    cases p with
    | rule => rfl
    | link r => exact shift_ofOption fun q => ih ..
    | s => exact shift_escaping shift_leaf
    | re => exact shift_escaping shift_leaf
    | seq => exact shift_escaping (shift_bind (shift_seq (fun p sc inp k => ih env p sc inp k) ..) fun _ _ _ => rfl)
    | delim =>
      exact shift_escaping (shift_bind (ih ..) fun v i k => shift_ofOption fun _ => rfl)
    | look =>
      refine shift_escaping ?_
      rw [ih]
      cases parse E X (fun j => ρ (j + d)) n env _ sc inp k <;> rfl
    | quant rule t lo hi q =>
      refine shift_escaping ?_
      simp only [shift_replace]
      refine shift_bind (shift_quant (fun i k => ih ..) ..) fun vs i k' => ?_
      split <;> rfl
    | oneof =>
      refine shift_escaping ?_
      simp only [shift_replace]
      exact shift_oneof (fun p i k => ih ..) ..
    | ref =>
      refine shift_escaping ?_
      split
      · refine shift_ofOption fun t => shift_ofExcept fun q => shift_bind (ih ..) fun v i k' => shift_ofOption fun b => ?_
        cases b <;> rfl
      · unfold refDefault
        split
        · exact shift_ofExcept fun q => ih ..
        · rfl
    | ext =>
      refine shift_escaping ?_
      split
      · rfl
      · unfold extResult
        split <;> rfl
    | scope => exact ih ..
    | cut => exact ih ..

end Wbnf

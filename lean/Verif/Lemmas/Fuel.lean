import Verif.Lemmas.Eqns

/-! More fuel never changes an outcome. -/

namespace Wbnf

/-- `a` is out of fuel, or equal to `b`. -/
def CLe {α : Type} (a b : Except Stop α) : Prop := a = .error .oof ∨ a = b

/-- `a` is out of fuel, or equal to `b`. -/
def RLe {α : Type} (a b : Res α) : Prop := a = .oof ∨ a = b

theorem CLe.refl {α} (a : Except Stop α) : CLe a a := Or.inr rfl
theorem RLe.refl {α} (a : Res α) : RLe a a := Or.inr rfl

theorem CLe.bind {α β} {a b : Except Stop α} {f g : α → Except Stop β} (h : CLe a b)
    (hf : ∀ x, CLe (f x) (g x)) : CLe (a.bind f) (b.bind g) := by
  rcases h with rfl | rfl
  · left; rfl
  · cases a with
    | error e => exact CLe.refl _
    | ok x => exact hf x

theorem RLe.bind {α β} {a b : Res α} {f g : α → Scanner → Nat → Res β} (h : RLe a b)
    (hf : ∀ x i k, RLe (f x i k) (g x i k)) : RLe (a.bind f) (b.bind g) := by
  rcases h with rfl | rfl
  · left; rfl
  · cases a with
    | ok x i k => exact hf x i k
    | _ => exact RLe.refl _

theorem RLe.ofExcept {α β} {a b : Except Stop α} {f g : α → Res β} (h : CLe a b)
    (hf : ∀ x, RLe (f x) (g x)) : RLe (Res.ofExcept a f) (Res.ofExcept b g) := by
  rcases h with rfl | rfl
  · left; rfl
  · cases a with
    | error e => cases e <;> exact RLe.refl _
    | ok x => exact hf x

theorem RLe.ofOption {α β} {a : Option α} {f g : α → Res β}
    (hf : ∀ x, RLe (f x) (g x)) : RLe (Res.ofOption a f) (Res.ofOption a g) := by
  cases a with
  | none => exact RLe.refl _
  | some x => exact hf x

theorem makeParsers_mono {c : Cache} {f f' : Term → Except Stop P} (h : ∀ t, CLe (f t) (f' t))
    (ts : List Term) : CLe (makeParsers c f ts) (makeParsers c f' ts) := by
  induction ts with
  | nil => exact CLe.refl _
  | cons t ts ih =>
    exact (h t).bind fun p => (CLe.refl _).bind fun p' => ih.bind fun ps => CLe.refl _

theorem followAlias_mono (g : Grammar) (n : Nat) (t : Term) :
    CLe (followAlias g n t) (followAlias g (n + 1) t) := by
  induction n generalizing t with
  | zero => left; rfl
  | succ n ih =>
    cases t <;> try exact CLe.refl _
    simp only [followAlias]
    split
    · exact CLe.refl _
    · exact ih _

theorem compileRules_mono {n : Nat} {g : Grammar} {f f' : Str → Term → Except Stop P}
    (h : ∀ r t, CLe (f r t) (f' r t)) (rs : List (Str × Term)) :
    CLe (compileRules n g f rs) (compileRules (n + 1) g f' rs) := by
  induction rs with
  | nil => exact CLe.refl _
  | cons e rs ih =>
    exact (followAlias_mono g n e.2).bind fun t' => (h e.1 t').bind fun p =>
      ih.bind fun ps => CLe.refl _

theorem compileTerm_mono (E : Engine) (n : Nat) (c : Cache) (rule : Str) (t : Term) :
    CLe (compileTerm E n c rule t) (compileTerm E (n + 1) c rule t) := by
  induction n generalizing c rule t with
  | zero => left; rfl
  | succ n ih =>
    have hmk := fun c ts => makeParsers_mono (c := c) (fun t => ih c [] t) ts
    cases t with
    | seq ts => exact (hmk c ts).bind fun _ => CLe.refl _
    | oneof ts => exact (hmk c ts).bind fun _ => CLe.refl _
    | delim term sep a cs ce => exact (ih _ _ _).bind fun _ => CLe.refl _
    | look t' => exact (ih _ _ _).bind fun _ => CLe.refl _
    | quant t' lo hi => exact (ih _ _ _).bind fun _ => CLe.refl _
    | named name t' => exact ih c name t'
    | cut t' => exact (ih _ _ _).bind fun _ => CLe.refl _
    | scope t' g =>
      exact (CLe.refl _).bind fun g1 => (compileRules_mono (fun r t => ih _ r t) _).bind fun f =>
        (ih _ _ _).bind fun p => CLe.refl _
    | _ => exact CLe.refl _

theorem seqLoop_mono {ρ} {f f' : P → Scope → Scanner → Nat → Res Tree} {ic : P → Bool}
    (h : ∀ p sc i k, RLe (f p sc i k) (f' p sc i k)) (items : List (Str × P)) (sc i k) :
    RLe (seqLoop ρ f ic items sc i k) (seqLoop ρ f' ic items sc i k) := by
  induction items generalizing sc i k with
  | nil => exact RLe.refl _
  | cons e items ih =>
    obtain ⟨ident, p⟩ := e
    simp only [seqLoop]
    rcases h p sc i k with hh | hh
    · left; rw [hh]
    · rw [hh]
      cases f' p sc i k with
      | ok v i' k' => exact (ih _ _ _).bind fun _ _ _ => RLe.refl _
      | _ => exact RLe.refl _

theorem quantLoop_mono {f f' : Scanner → Nat → Res Tree} {max cp}
    (h : ∀ i k, RLe (f i k) (f' i k)) (n cnt i k) :
    RLe (quantLoop f max cp n cnt i k) (quantLoop f' max cp (n + 1) cnt i k) := by
  induction n generalizing cnt i k with
  | zero => left; rfl
  | succ n ih =>
    rw [quantLoop, quantLoop]
    split
    · rcases h i k with hh | hh
      · left; rw [hh]
      · rw [hh]
        cases f' i k with
        | ok v i' k' => exact (ih _ _ _).bind fun _ _ _ => RLe.refl _
        | _ => exact RLe.refl _
    · exact RLe.refl _

theorem oneofLoop_mono {f f' : P → Scanner → Nat → Res Tree} {tag prev my inp}
    (h : ∀ p i k, RLe (f p i k) (f' p i k)) (ps i fu k) :
    RLe (oneofLoop f tag prev my inp ps i fu k) (oneofLoop f' tag prev my inp ps i fu k) := by
  induction ps generalizing i fu k with
  | nil => exact RLe.refl _
  | cons p ps ih =>
    simp only [oneofLoop]
    rcases h p inp k with hh | hh
    · left; rw [hh]
    · rw [hh]
      cases f' p inp k with
      | err e i' k' =>
        simp only
        split
        · exact RLe.refl _
        · exact ih _ _ _
      | _ => exact RLe.refl _

theorem escaping_mono {E X ident t sc inp k} {a b : Res Tree} (h : RLe a b) :
    RLe (escaping E X ident t sc inp k a) (escaping E X ident t sc inp k b) := by
  unfold escaping
  cases parseEscape E X ident t sc inp with
  | no => exact h
  | _ => exact RLe.refl _

theorem lookResult_mono {tag inp} {a b : Res Tree} (h : RLe a b) :
    RLe (lookResult tag inp a) (lookResult tag inp b) := by
  rcases h with rfl | rfl
  · left; rfl
  · exact RLe.refl _

/-- More fuel never changes an outcome. -/
theorem parse_mono (E X ρ n env p sc inp k) :
    RLe (parse E X ρ n env p sc inp k) (parse E X ρ (n + 1) env p sc inp k) := by
  induction n generalizing env p sc inp k with
  | zero => left; rfl
  | succ n ih =>
    cases p with
    | link r => exact RLe.ofOption fun q => ih _ _ _ _ _
    | seq rule ts ps =>
      exact escaping_mono ((seqLoop_mono (fun p sc i k => ih env p sc i k) _ sc inp k).bind
        fun _ _ _ => RLe.refl _)
    | delim rule term sep a cs ce child =>
      exact escaping_mono ((ih env child sc inp k).bind fun _ _ _ => RLe.refl _)
    | look rule t q => exact escaping_mono (lookResult_mono (ih env q sc inp k))
    | quant rule t lo hi q =>
      exact escaping_mono ((quantLoop_mono (fun i k' => ih env q _ i k') n 0 inp _).bind
        fun _ _ _ => RLe.refl _)
    | oneof rule ts ps =>
      exact escaping_mono (oneofLoop_mono (fun p i k' => ih env p _ i k') _ _ _ _)
    | ref ident dflt =>
      rw [parse_ref, parse_ref]
      apply escaping_mono
      split
      · exact RLe.ofOption fun t => RLe.ofExcept (compileTerm_mono E n _ ident t) fun q =>
          (ih [] q sc inp k).bind fun _ _ _ => RLe.refl _
      · cases dflt with
        | none => exact RLe.refl _
        | some t => exact RLe.ofExcept (compileTerm_mono E n _ ident t) fun q => ih [] q sc inp k
    | scope f b => exact ih _ _ _ _ _
    | cut q t => exact ih _ _ _ _ _
    | _ => exact RLe.refl _

theorem parse_mono_le {E X ρ n m env p sc inp k} (h : n ≤ m)
    (hne : parse E X ρ n env p sc inp k ≠ .oof) :
    parse E X ρ m env p sc inp k = parse E X ρ n env p sc inp k := by
  induction h with
  | refl => rfl
  | step _ ih =>
    rcases parse_mono E X ρ _ env p sc inp k with h | h
    · rw [ih] at h; exact absurd h hne
    · rw [← h, ih]

theorem compileTerm_mono_le {E n m c rule t} (h : n ≤ m)
    (hne : compileTerm E n c rule t ≠ .error .oof) :
    compileTerm E m c rule t = compileTerm E n c rule t := by
  induction h with
  | refl => rfl
  | step _ ih =>
    rcases compileTerm_mono E _ c rule t with h | h
    · rw [ih] at h; exact absurd h hne
    · rw [← h, ih]

theorem compile_mono (E n) (g : Grammar) :
    CLe (Grammar.compile E n g) (Grammar.compile E (n + 1) g) :=
  (CLe.refl _).bind fun g1 => (compileRules_mono (fun r t => compileTerm_mono E n _ r t) g1).bind
    fun _ => CLe.refl _

theorem compile_mono_le {E n m} {g : Grammar} (h : n ≤ m)
    (hne : Grammar.compile E n g ≠ .error .oof) :
    Grammar.compile E m g = Grammar.compile E n g := by
  induction h with
  | refl => rfl
  | step _ ih =>
    rcases compile_mono E _ g with h | h
    · rw [ih] at h; exact absurd h hne
    · rw [← h, ih]

end Wbnf

import Verif.Lemmas.Report
import Verif.Lemmas.Fuel

/-! More fuel never changes an error. -/

namespace Wbnf

/-- What there is stays. -/
def OLe {α : Type} (a b : Option α) : Prop := a = none ∨ a = b

theorem OLe.refl {α} (a : Option α) : OLe a a := .inr rfl

theorem OLe.map {α β} {a b : Option α} {f : α → β} (h : OLe a b) : OLe (a.map f) (b.map f) := by
  rcases h with rfl | rfl
  · exact .inl rfl
  · exact .refl _

theorem OLe.bind {α β} {a b : Option α} {f g : α → Option β} (h : OLe a b) (hf : ∀ x, OLe (f x) (g x)) : OLe (a.bind f) (b.bind g) := by
  rcases h with rfl | rfl
  · exact .inl rfl
  · cases a with
    | none => exact .refl _
    | some x => exact hf x

theorem seqReport_mono {ρ} {run run' : P → Scope → Scanner → Nat → Res Tree} {rep rep' : P → Scope → Scanner → Nat → Option Report} {ic : P → Bool} {rule : Str}
    (h : ∀ p sc i k, RLe (run p sc i k) (run' p sc i k)) (h' : ∀ p sc i k, OLe (rep p sc i k) (rep' p sc i k)) :
    ∀ (ps : List (Str × P)) (sc i k), OLe (seqReport ρ run rep ic rule ps sc i k) (seqReport ρ run' rep' ic rule ps sc i k)
  | [], _, _, _ => .refl _
  | (ident, p) :: ps, sc, i, k => by
    rw [seqReport, seqReport]
    rcases h p sc i k with hh | hh
    · rw [hh]; exact .inl rfl
    · rw [hh]
      cases run' p sc i k with
      | ok v i' k' => exact seqReport_mono h h' ps _ _ _
      | err e i' k' =>
        simp only
        split
        · exact h' ..
        · exact (h' ..).map
      | panic => exact .refl _
      | oof => exact .refl _

theorem quantStop_mono {run run' : Scanner → Nat → Res Tree} {rep rep' : Scanner → Nat → Option Report} {max cp}
    (h : ∀ i k, RLe (run i k) (run' i k)) (h' : ∀ i k, OLe (rep i k) (rep' i k)) :
    ∀ (n cnt i k), OLe (quantStop run rep max cp n cnt i k) (quantStop run' rep' max cp (n + 1) cnt i k)
  | 0, _, _, _ => .inl rfl
  | n + 1, cnt, i, k => by
    rw [quantStop, quantStop]
    split
    · rcases h i k with hh | hh
      · rw [hh]; exact .inl rfl
      · rw [hh]
        cases run' i k with
        | ok v i' k' => exact quantStop_mono h h' n _ _ _
        | err e i' k' =>
          simp only
          split
          · exact (h' ..).map
          · exact .refl _
        | panic => exact .refl _
        | oof => exact .refl _
    · exact .refl _

theorem oneofReport_mono {run run' : P → Scanner → Nat → Res Tree} {rep rep' : P → Scanner → Nat → Option Report} {rule my inp}
    (h : ∀ p i k, RLe (run p i k) (run' p i k)) (h' : ∀ p i k, OLe (rep p i k) (rep' p i k)) :
    ∀ (ps cs k), OLe (oneofReport run rep rule my inp ps cs k) (oneofReport run' rep' rule my inp ps cs k)
  | [], _, _ => .refl _
  | p :: ps, cs, k => by
    rw [oneofReport, oneofReport]
    rcases h p inp k with hh | hh
    · rw [hh]; exact .inl rfl
    · rw [hh]
      cases run' p inp k with
      | err e i' k' =>
        simp only
        split
        · exact (h' ..).map
        · exact (h' ..).bind fun _ => oneofReport_mono h h' ps _ _
      | ok => exact .refl _
      | panic => exact .refl _
      | oof => exact .refl _

theorem escapingReport_mono {E X ident t sc inp} {a b : Option Report} (h : OLe a b) :
    OLe (escapingReport E X ident t sc inp a) (escapingReport E X ident t sc inp b) := by
  unfold escapingReport
  cases parseEscape E X ident t sc inp with
  | no => exact h
  | _ => exact .refl _

theorem settled_mono {a b : Res Tree} {o o' : Option Report} (h : RLe a b) (h' : OLe o o') : OLe (settled a o) (settled b o') := by
  rcases h with rfl | rfl
  · exact .inl rfl
  · unfold settled
    cases a with
    | err => exact h'.map
    | _ => exact .refl _

theorem report_mono (E X ρ n env p sc inp k) : OLe (report E X ρ n env p sc inp k) (report E X ρ (n + 1) env p sc inp k) := by
  induction n generalizing env p sc inp k with
  | zero => exact .inl rfl
  | succ n ih =>
    cases p with
    | link r =>
      simp only [report]
      cases lookupEnv r env with
      | none => exact .refl _
      | some q => exact ih ..
    | seq rule ts ps => exact escapingReport_mono (seqReport_mono (fun p sc i k => parse_mono E X ρ n env p sc i k) (fun p sc i k => ih env p sc i k) _ sc inp k)
    | delim rule term sep a cs ce child => exact escapingReport_mono (ih ..)
    | look rule t q => exact escapingReport_mono (settled_mono (parse_mono ..) (ih ..))
    | quant rule t lo hi q =>
      refine escapingReport_mono ?_
      simp only
      rcases quantLoop_mono (fun i k' => parse_mono E X ρ n env q (sc.replaceCutPoint ρ false k).1 i k') n 0 inp (sc.replaceCutPoint ρ false k).2.2.2
        (max := hi) (cp := (sc.replaceCutPoint ρ false k).2.2.1) with hq | hq
      · rw [hq]
        left
        have := (quantStop_iff (run := fun i k' => parse E X ρ n env q (sc.replaceCutPoint ρ false k).1 i k')
          (rep := fun i k' => report E X ρ n env q (sc.replaceCutPoint ρ false k).1 i k') (max := hi) (mycp := (sc.replaceCutPoint ρ false k).2.2.1)
          (fun _ _ => fails_iff) (n := n) (cnt := 0) (inp := inp) (k := (sc.replaceCutPoint ρ false k).2.2.2))
        rw [hq] at this
        simpa using this
      · rw [hq]
        generalize quantLoop _ hi _ (n + 1) 0 inp _ = res
        cases res with
        | ok => exact .refl _
        | _ => exact quantStop_mono (fun i k' => parse_mono E X ρ n env q _ i k') (fun i k' => ih env q _ i k') n 0 inp _
    | oneof rule ts ps =>
      exact escapingReport_mono (oneofReport_mono (fun p i k' => parse_mono E X ρ n env p _ i k') (fun p i k' => ih env p _ i k') _ _ _)
    | ref ident dflt =>
      refine escapingReport_mono ?_
      cases sc.getVal ident with
      | some expected =>
        simp only [refReport]
        cases termFromRefVal expected with
        | none => exact .refl _
        | some t =>
          simp only
          rcases compileTerm_mono E n ⟨none, true⟩ ident t with hc | hc
          · rw [hc]; exact .inl rfl
          · rw [hc]
            cases compileTerm E (n + 1) ⟨none, true⟩ ident t with
            | error e => exact .refl _
            | ok q =>
              simp only
              rcases parse_mono E X ρ n [] q sc inp k with hp | hp
              · rw [hp]; exact .inl rfl
              · rw [hp]
                cases parse E X ρ (n + 1) [] q sc inp k with
                | err => exact ih ..
                | ok => exact .refl _
                | panic => exact .refl _
                | oof => exact .refl _
      | none =>
        cases dflt with
        | none => exact .refl _
        | some t =>
          simp only [defaultReport]
          rcases compileTerm_mono E n ⟨none, true⟩ ident t with hc | hc
          · rw [hc]; exact .inl rfl
          · rw [hc]
            cases compileTerm E (n + 1) ⟨none, true⟩ ident t with
            | error e => exact .refl _
            | ok q => exact ih ..
    | scope f b => exact ih ..
    | cut q t => exact ih ..
    | _ => exact .refl _

theorem report_mono_le {E X ρ n m env p sc inp k} {r : Report} (h : n ≤ m) (hr : report E X ρ n env p sc inp k = some r) :
    report E X ρ m env p sc inp k = some r := by
  induction h with
  | refl => exact hr
  | step _ ih =>
    rcases report_mono E X ρ _ env p sc inp k with h | h
    · rw [ih] at h; cases h
    · rw [← h, ih]

theorem settled_mono_le {E X ρ n m env p sc inp k} {r : Report} (h : n ≤ m)
    (hr : settled (parse E X ρ n env p sc inp k) (report E X ρ n env p sc inp k) = some r) :
    settled (parse E X ρ m env p sc inp k) (report E X ρ m env p sc inp k) = some r := by
  induction h with
  | refl => exact hr
  | step _ ih =>
    rcases settled_mono (parse_mono E X ρ _ env p sc inp k) (report_mono E X ρ _ env p sc inp k) with h | h
    · rw [ih] at h; cases h
    · rw [← h, ih]

end Wbnf

import Verif.Spec.Reach
import Verif.Lemmas.PegEnv

/-! Outcomes are unique, and a goal with an outcome needs only finitely many goals. -/

namespace Wbnf

variable {E : Engine} {X : Externals}

theorem Spliced.det {new w a b : Str} (h : Spliced new w a) (h' : Spliced new w b) : a = b := by
  rw [spliced_iff] at h h'; rw [h, h']

theorem LeafPattern.det {wrap text group a b} (h : LeafPattern wrap text group a)
    (h' : LeafPattern wrap text group b) : a = b := by
  rw [← applyWrapRE_iff] at h h'
  rw [h] at h'; simpa using h'

theorem LeafOut.det {p inp a b} (h : LeafOut E p inp a) (h' : LeafOut E p inp b) : a = b := by
  cases h with
  | fail h1 h2 =>
    cases h' with
    | fail => rfl
    | one h3 h4 => rw [h1] at h3; simp at h3; subst h3; rw [h2] at h4; simp at h4
    | two h3 h4 => rw [h1] at h3; simp at h3; subst h3; rw [h2] at h4; simp at h4
  | one h1 h2 =>
    cases h' with
    | fail h3 h4 => rw [h1] at h3; simp at h3; subst h3; rw [h2] at h4; simp at h4
    | one h3 h4 =>
      rw [h1] at h3; simp at h3; subst h3; rw [h2] at h4; simp at h4
      obtain ⟨rfl, rfl⟩ := h4; rfl
    | two h3 h4 => rw [h1] at h3; simp at h3; subst h3; rw [h2] at h4; simp at h4
  | two h1 h2 =>
    cases h' with
    | fail h3 h4 => rw [h1] at h3; simp at h3; subst h3; rw [h2] at h4; simp at h4
    | one h3 h4 => rw [h1] at h3; simp at h3; subst h3; rw [h2] at h4; simp at h4
    | two h3 h4 =>
      rw [h1] at h3; simp at h3; subst h3; rw [h2] at h4; simp at h4
      obtain ⟨rfl, rfl, rfl⟩ := h4; rfl

theorem committed_det {c c1 c2 : Bool} {P : Prop} (h1 : c1 = true ↔ c = true ∨ P)
    (h2 : c2 = true ↔ c = true ∨ P) : c1 = c2 := by
  rw [Bool.eq_iff_iff, h1, h2]

/-- A goal has at most one outcome. -/
theorem Peg.det {G o o'} (h : Peg E X G o) (h' : Peg E X G o') : o = o' := by
  induction h generalizing o' with
  | rule hr _ ih =>
    cases h' with
    | rule hr' h =>
      obtain ⟨rfl, rfl⟩ := hr.det hr'
      exact ih h
  | named _ ih => cases h' with | named h => exact ih h
  | cut _ ih => cases h' with | cut h => exact ih h
  | scope he _ ih =>
    cases h' with
    | scope he' h => obtain rfl := he.det he'; exact ih h
  | lit hp ho => cases h' with | lit hp' ho' => obtain rfl := hp.det hp'; exact ho.det ho'
  | regexp hp ho => cases h' with | regexp hp' ho' => obtain rfl := hp.det hp'; exact ho.det ho'
  | seqOk _ ih =>
    cases h' with
    | seqOk h => have := ih h; simp at this; obtain ⟨rfl, rfl⟩ := this; rfl
    | seqNo h ho => have := ih h; subst this; simp at ho
  | seqNo _ ho ih =>
    cases h' with
    | seqOk h => have := ih h; subst this; simp at ho
    | seqNo h _ => exact ih h
  | itemsNil => cases h' with | itemsNil => rfl
  | itemsCons _ hc _ ih1 ih2 =>
    cases h' with
    | itemsCons h1 hc' h2 =>
      have := ih1 h1; simp at this; obtain ⟨rfl, rfl⟩ := this
      obtain rfl := committed_det hc hc'
      have := ih2 h2; simp at this; obtain ⟨rfl, rfl⟩ := this
      rfl
    | itemsLater h1 hc' h2 ho =>
      have := ih1 h1; simp at this; obtain ⟨rfl, rfl⟩ := this
      obtain rfl := committed_det hc hc'
      have := ih2 h2; subst this; simp at ho
    | itemsFail h1 => have := ih1 h1; simp at this
    | itemsAbort h1 => have := ih1 h1; simp at this
  | itemsLater _ hc _ ho ih1 ih2 =>
    cases h' with
    | itemsCons h1 hc' h2 =>
      have := ih1 h1; simp at this; obtain ⟨rfl, rfl⟩ := this
      obtain rfl := committed_det hc hc'
      have := ih2 h2; subst this; simp at ho
    | itemsLater h1 hc' h2 ho' =>
      have := ih1 h1; simp at this; obtain ⟨rfl, rfl⟩ := this
      obtain rfl := committed_det hc hc'
      exact ih2 h2
    | itemsFail h1 => have := ih1 h1; simp at this
    | itemsAbort h1 => have := ih1 h1; simp at this
  | itemsFail _ ih =>
    cases h' with
    | itemsCons h1 _ _ => have := ih h1; simp at this
    | itemsLater h1 _ _ _ => have := ih h1; simp at this
    | itemsFail h1 => rfl
    | itemsAbort h1 => have := ih h1; simp at this
  | itemsAbort _ ih =>
    cases h' with
    | itemsCons h1 _ _ => have := ih h1; simp at this
    | itemsLater h1 _ _ _ => have := ih h1; simp at this
    | itemsFail h1 => have := ih h1; simp at this
    | itemsAbort h1 => rfl
  | oneof _ ih => cases h' with | oneof h => exact ih h
  | altsNil => cases h' with | altsNil => rfl
  | altsOk _ ih =>
    cases h' with
    | altsOk h => have := ih h; simp at this; obtain ⟨rfl, rfl⟩ := this; rfl
    | altsAbort h => have := ih h; simp at this
    | altsNext h _ => have := ih h; simp at this
  | altsAbort _ ih =>
    cases h' with
    | altsOk h => have := ih h; simp at this
    | altsAbort h => rfl
    | altsNext h _ => have := ih h; simp at this
  | altsNext _ _ ih1 ih2 =>
    cases h' with
    | altsOk h => have := ih1 h; simp at this
    | altsAbort h => have := ih1 h; simp at this
    | altsNext _ h => exact ih2 h
  | quantOk _ hl ih =>
    cases h' with
    | quantOk h _ => have := ih h; simp at this; obtain ⟨rfl, rfl⟩ := this; rfl
    | quantFew h hl' => have := ih h; simp at this; obtain ⟨rfl, rfl⟩ := this; omega
    | quantAbort h => have := ih h; simp at this
  | quantFew _ hl ih =>
    cases h' with
    | quantOk h hl' => have := ih h; simp at this; obtain ⟨rfl, rfl⟩ := this; omega
    | quantFew h hl' => rfl
    | quantAbort h => have := ih h; simp at this
  | quantAbort _ ih =>
    cases h' with
    | quantOk h hl' => have := ih h; simp at this
    | quantFew h hl' => have := ih h; simp at this
    | quantAbort h => rfl
  | repsMax =>
    cases h' with
    | repsMax => rfl
    | repsStop h _ => exact absurd rfl h
    | repsMore h _ _ => exact absurd rfl h
    | repsLater h _ _ => exact absurd rfl h
    | repsAbort h _ => exact absurd rfl h
  | repsStop hl _ ih =>
    cases h' with
    | repsMax => exact absurd rfl hl
    | repsStop _ h => rfl
    | repsMore _ h _ => have := ih h; simp at this
    | repsLater _ h _ => have := ih h; simp at this
    | repsAbort _ h => have := ih h; simp at this
  | repsMore hl _ _ ih1 ih2 =>
    cases h' with
    | repsMax => exact absurd rfl hl
    | repsStop _ h => have := ih1 h; simp at this
    | repsMore _ h h2 =>
      have := ih1 h; simp at this; obtain ⟨rfl, rfl⟩ := this
      have := ih2 h2; simp at this; obtain ⟨rfl, rfl⟩ := this
      rfl
    | repsLater _ h h2 =>
      have := ih1 h; simp at this; obtain ⟨rfl, rfl⟩ := this
      have := ih2 h2; simp at this
    | repsAbort _ h => have := ih1 h; simp at this
  | repsLater hl _ _ ih1 ih2 =>
    cases h' with
    | repsMax => exact absurd rfl hl
    | repsStop _ h => have := ih1 h; simp at this
    | repsMore _ h h2 =>
      have := ih1 h; simp at this; obtain ⟨rfl, rfl⟩ := this
      have := ih2 h2; simp at this
    | repsLater _ h h2 => rfl
    | repsAbort _ h => rfl
  | repsAbort hl _ ih =>
    cases h' with
    | repsMax => exact absurd rfl hl
    | repsStop _ h => have := ih h; simp at this
    | repsMore _ h h2 => have := ih h; simp at this
    | repsLater _ h h2 => rfl
    | repsAbort _ h => rfl
  | lookOk _ ih =>
    cases h' with
    | lookOk h => have := ih h; simp at this; obtain ⟨rfl, rfl⟩ := this; rfl
    | lookNo h ho => have := ih h; subst this; simp at ho
  | lookNo _ ho ih =>
    cases h' with
    | lookOk h => have := ih h; subst this; simp at ho
    | lookNo h _ => exact ih h
  | delimOk _ hf ih =>
    cases h' with
    | delimOk h hf' =>
      have := ih h; simp at this; obtain ⟨rfl, rfl⟩ := this
      rw [hf] at hf'; simp at hf'; rw [hf']
    | delimNo h ho => have := ih h; subst this; simp at ho
  | delimNo _ ho ih =>
    cases h' with
    | delimOk h hf' => have := ih h; subst this; simp at ho
    | delimNo h _ => exact ih h
  | refOk hl ht _ _ he ih =>
    cases h' with
    | refOk hl' ht' _ h he' =>
      rw [hl] at hl'; simp at hl'; subst hl'; rw [ht] at ht'; simp at ht'; subst ht'
      exact ih h
    | refDiffers hl' ht' _ h he' =>
      rw [hl] at hl'; simp at hl'; subst hl'; rw [ht] at ht'; simp at ht'; subst ht'
      have := ih h; simp at this; obtain ⟨rfl, rfl⟩ := this
      rw [he] at he'; simp at he'
    | refNo hl' ht' _ h ho =>
      rw [hl] at hl'; simp at hl'; subst hl'; rw [ht] at ht'; simp at ht'; subst ht'
      have := ih h; subst this; simp at ho
    | refDefault hl' => rw [hl] at hl'; simp at hl'
    | refUnbound hl' => rw [hl] at hl'; simp at hl'
  | refDiffers hl ht _ _ he ih =>
    cases h' with
    | refOk hl' ht' _ h he' =>
      rw [hl] at hl'; simp at hl'; subst hl'; rw [ht] at ht'; simp at ht'; subst ht'
      have := ih h; simp at this; obtain ⟨rfl, rfl⟩ := this
      rw [he] at he'; simp at he'
    | refDiffers hl' ht' _ h he' => rfl
    | refNo hl' ht' _ h ho =>
      rw [hl] at hl'; simp at hl'; subst hl'; rw [ht] at ht'; simp at ht'; subst ht'
      have := ih h; subst this; simp at ho
    | refDefault hl' => rw [hl] at hl'; simp at hl'
    | refUnbound hl' => rfl
  | refNo hl ht _ _ ho ih =>
    cases h' with
    | refOk hl' ht' _ h he' =>
      rw [hl] at hl'; simp at hl'; subst hl'; rw [ht] at ht'; simp at ht'; subst ht'
      have := ih h; subst this; simp at ho
    | refDiffers hl' ht' _ h he' =>
      rw [hl] at hl'; simp at hl'; subst hl'; rw [ht] at ht'; simp at ht'; subst ht'
      have := ih h; subst this; simp at ho
    | refNo hl' ht' _ h ho =>
      rw [hl] at hl'; simp at hl'; subst hl'; rw [ht] at ht'; simp at ht'; subst ht'
      exact ih h
    | refDefault hl' => rw [hl] at hl'; simp at hl'
    | refUnbound hl' => rw [hl] at hl'; simp at hl'
  | refDefault hl _ _ ih =>
    cases h' with
    | refOk hl' => rw [hl] at hl'; simp at hl'
    | refDiffers hl' => rw [hl] at hl'; simp at hl'
    | refNo hl' => rw [hl] at hl'; simp at hl'
    | refDefault _ _ h => exact ih h
  | refUnbound hl =>
    cases h' with
    | refOk hl' => rw [hl] at hl'; simp at hl'
    | refDiffers hl' => rfl
    | refNo hl' => rw [hl] at hl'; simp at hl'
    | refUnbound => rfl
  | extNone hx =>
    cases h' with
    | extNone => rfl
    | ext hx' => rw [hx] at hx'; simp at hx'
  | ext hx =>
    cases h' with
    | extNone hx' => rw [hx] at hx'; simp at hx'
    | ext hx' => rw [hx] at hx'; simp at hx'; subst hx'; rfl

/-- Deciding a goal that has an outcome does not go on forever. -/
theorem Peg.acc {G o} (h : Peg E X G o) : Acc (fun b a => Needs E X a b) G := by
  induction h with
  | rule hr _ ih =>
    refine ⟨_, fun G' hn => ?_⟩
    cases hn with
    | rule hr' => obtain ⟨rfl, rfl⟩ := hr.det hr'; exact ih
  | named _ ih => refine ⟨_, fun G' hn => ?_⟩; cases hn; exact ih
  | cut _ ih => refine ⟨_, fun G' hn => ?_⟩; cases hn; exact ih
  | scope he _ ih =>
    refine ⟨_, fun G' hn => ?_⟩
    cases hn with
    | scope he' => obtain rfl := he.det he'; exact ih
  | lit => refine ⟨_, fun G' hn => ?_⟩; cases hn
  | regexp => refine ⟨_, fun G' hn => ?_⟩; cases hn
  | seqOk _ ih => refine ⟨_, fun G' hn => ?_⟩; cases hn; exact ih
  | seqNo _ _ ih => refine ⟨_, fun G' hn => ?_⟩; cases hn; exact ih
  | itemsNil => refine ⟨_, fun G' hn => ?_⟩; cases hn
  | itemsCons h1 hc _ ih1 ih2 =>
    refine ⟨_, fun G' hn => ?_⟩
    cases hn with
    | item => exact ih1
    | later h1' hc' =>
      have := h1.det h1'; simp at this; obtain ⟨rfl, rfl⟩ := this
      obtain rfl := committed_det hc hc'
      exact ih2
  | itemsLater h1 hc _ _ ih1 ih2 =>
    refine ⟨_, fun G' hn => ?_⟩
    cases hn with
    | item => exact ih1
    | later h1' hc' =>
      have := h1.det h1'; simp at this; obtain ⟨rfl, rfl⟩ := this
      obtain rfl := committed_det hc hc'
      exact ih2
  | itemsFail h1 ih =>
    refine ⟨_, fun G' hn => ?_⟩
    cases hn with
    | item => exact ih
    | later h1' hc' => have := h1.det h1'; simp at this
  | itemsAbort h1 ih =>
    refine ⟨_, fun G' hn => ?_⟩
    cases hn with
    | item => exact ih
    | later h1' hc' => have := h1.det h1'; simp at this
  | oneof _ ih => refine ⟨_, fun G' hn => ?_⟩; cases hn; exact ih
  | altsNil => refine ⟨_, fun G' hn => ?_⟩; cases hn
  | altsOk h1 ih =>
    refine ⟨_, fun G' hn => ?_⟩
    cases hn with
    | alt => exact ih
    | next h1' => have := h1.det h1'; simp at this
  | altsAbort h1 ih =>
    refine ⟨_, fun G' hn => ?_⟩
    cases hn with
    | alt => exact ih
    | next h1' => have := h1.det h1'; simp at this
  | altsNext h1 _ ih1 ih2 =>
    refine ⟨_, fun G' hn => ?_⟩
    cases hn with
    | alt => exact ih1
    | next h1' => exact ih2
  | quantOk _ _ ih => refine ⟨_, fun G' hn => ?_⟩; cases hn; exact ih
  | quantFew _ _ ih => refine ⟨_, fun G' hn => ?_⟩; cases hn; exact ih
  | quantAbort _ ih => refine ⟨_, fun G' hn => ?_⟩; cases hn; exact ih
  | repsMax =>
    refine ⟨_, fun G' hn => ?_⟩
    cases hn with
    | rep h => exact absurd rfl h
    | again h _ => exact absurd rfl h
  | repsStop _ h1 ih =>
    refine ⟨_, fun G' hn => ?_⟩
    cases hn with
    | rep => exact ih
    | again _ h1' => have := h1.det h1'; simp at this
  | repsMore _ h1 _ ih1 ih2 =>
    refine ⟨_, fun G' hn => ?_⟩
    cases hn with
    | rep => exact ih1
    | again _ h1' => have := h1.det h1'; simp at this; obtain ⟨rfl, rfl⟩ := this; exact ih2
  | repsLater _ h1 _ ih1 ih2 =>
    refine ⟨_, fun G' hn => ?_⟩
    cases hn with
    | rep => exact ih1
    | again _ h1' => have := h1.det h1'; simp at this; obtain ⟨rfl, rfl⟩ := this; exact ih2
  | repsAbort _ h1 ih =>
    refine ⟨_, fun G' hn => ?_⟩
    cases hn with
    | rep => exact ih
    | again _ h1' => have := h1.det h1'; simp at this
  | lookOk _ ih => refine ⟨_, fun G' hn => ?_⟩; cases hn; exact ih
  | lookNo _ _ ih => refine ⟨_, fun G' hn => ?_⟩; cases hn; exact ih
  | delimOk _ _ ih => refine ⟨_, fun G' hn => ?_⟩; cases hn; exact ih
  | delimNo _ _ ih => refine ⟨_, fun G' hn => ?_⟩; cases hn; exact ih
  | refOk hl ht _ _ _ ih =>
    refine ⟨_, fun G' hn => ?_⟩
    cases hn with
    | ref hl' ht' => rw [hl] at hl'; simp at hl'; subst hl'; rw [ht] at ht'; simp at ht'; subst ht'; exact ih
    | default hl' => rw [hl] at hl'; simp at hl'
  | refDiffers hl ht _ _ _ ih =>
    refine ⟨_, fun G' hn => ?_⟩
    cases hn with
    | ref hl' ht' => rw [hl] at hl'; simp at hl'; subst hl'; rw [ht] at ht'; simp at ht'; subst ht'; exact ih
    | default hl' => rw [hl] at hl'; simp at hl'
  | refNo hl ht _ _ _ ih =>
    refine ⟨_, fun G' hn => ?_⟩
    cases hn with
    | ref hl' ht' => rw [hl] at hl'; simp at hl'; subst hl'; rw [ht] at ht'; simp at ht'; subst ht'; exact ih
    | default hl' => rw [hl] at hl'; simp at hl'
  | refDefault hl _ _ ih =>
    refine ⟨_, fun G' hn => ?_⟩
    cases hn with
    | ref hl' ht' => rw [hl] at hl'; simp at hl'
    | default => exact ih
  | refUnbound hl =>
    refine ⟨_, fun G' hn => ?_⟩
    cases hn with
    | ref hl' ht' => rw [hl] at hl'; simp at hl'
  | extNone => refine ⟨_, fun G' hn => ?_⟩; cases hn
  | ext => refine ⟨_, fun G' hn => ?_⟩; cases hn

theorem Reaches.acc {G G'} (h : Reaches E X G G') (ha : Acc (fun b a => Needs E X a b) G) :
    Acc (fun b a => Needs E X a b) G' := by
  induction h with
  | refl => exact ha
  | step h _ ih => exact ih (ha.inv h)

end Wbnf

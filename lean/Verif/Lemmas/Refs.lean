import Verif.Lemmas.Safe
import Verif.Lemmas.PegAcc
import Verif.Lemmas.Scanner

/-! Matching the text of a value again. -/

namespace Wbnf

variable {E : Engine} {X : Externals}

theorem skip_text {i : Scanner} {x l : Str} (hin : i.InRange) (hx : i.toStr = some x) (hp : l <+: x) :
    (i.sub 0 l.length).toStr = some l ∧ (i.skip l.length).InRange ∧
    (i.skip l.length).toStr = some (x.drop l.length) := by
  obtain ⟨src, a, n, rfl, hn⟩ := hin.elim
  rw [Scanner.toStr_mk hn] at hx
  simp at hx
  have hlen : l.length ≤ n := by
    have := hp.length_le; rw [← hx, bytesAt_length hn] at this; exact this
  obtain ⟨y, rfl⟩ := hp
  have e : n = l.length + (n - l.length) := by omega
  have hx' := hx
  rw [e, bytesAt_append] at hx'
  have hb := List.append_inj hx' (by rw [bytesAt_length (by omega)])
  have e1 : (Scanner.sub ⟨some src, (a : Int), (n : Int)⟩ 0 l.length) = ⟨some src, (a : Int), (l.length : Int)⟩ := by
    simp [Scanner.sub]
  have e2 : (Scanner.skip ⟨some src, (a : Int), (n : Int)⟩ l.length) =
      ⟨some src, ((a + l.length : Nat) : Int), ((n - l.length : Nat) : Int)⟩ := by
    simp [Scanner.skip]; omega
  rw [e1, e2]
  refine ⟨by rw [Scanner.toStr_mk (by omega), hb.1], Scanner.inRange_mk (by omega), ?_⟩
  rw [Scanner.toStr_mk (by omega), hb.2]
  simp

theorem slice_eq {i : Scanner} {x : Str} (hin : i.InRange) (hx : i.toStr = some x) : i.slice = some x := by
  obtain ⟨src, a, n, rfl, hn⟩ := hin.elim
  rw [Scanner.toStr_mk hn] at hx
  rw [Scanner.slice_mk hn, hx]

theorem skip_skip (i : Scanner) (a b : Nat) : (i.skip a).skip b = i.skip ((a + b : Nat) : Int) := by
  simp [Scanner.skip]; omega

theorem skip_zero (i : Scanner) : i.skip 0 = i := by simp [Scanner.skip]

theorem not_isCut_text {Γ t} (ht : t.isText = true) : ¬ IsCut Γ t := by
  intro h
  cases h <;> simp [Term.isText] at ht

theorem ident_text {t : Term} (ht : t.isText = true) : identFromTerm t = [] := by
  cases t <;> simp_all [Term.isText, identFromTerm]

/-- Matching literal `l`, with the law of the engine. -/
theorem peg_lit {Γ rule l vals} {inp : Scanner} {x : Str} (hΓ : wrapOf Γ = none) (hl : MatchesLiterally E l)
    (hin : inp.InRange) (hx : inp.toStr = some x) :
    (l <+: x → Peg E X (.term Γ rule (.s l) vals inp) (.ok (.leaf (inp.sub 0 l.length)) (inp.skip l.length))) ∧
    (¬ l <+: x → Peg E X (.term Γ rule (.s l) vals inp) .fail) := by
  have hs := slice_eq hin hx
  refine ⟨fun h => .lit (.plain hΓ) (.one hs (by rw [hl.2, if_pos h])),
    fun h => .lit (.plain hΓ) (.fail hs (by rw [hl.2, if_neg h]))⟩

/-- Two lists of leaves have the same texts. -/
def SameTexts (a b : List Scanner) : Prop := a.map Scanner.toStr = b.map Scanner.toStr

mutual
theorem retell : (w : Tree) → {ls : List Str} → w.marks = 0 → w.leaves.map Scanner.toStr = ls.map some →
    (∀ l ∈ ls, MatchesLiterally E l) → ∃ t, termFromRefVal w = some t ∧ t.quotable E = true ∧
      ∀ (rule : Str) vals (inp : Scanner) x, inp.InRange → inp.toStr = some x →
        (ls.flatten <+: x → ∃ v, Peg E X (.term [] rule t vals inp) (.ok v (inp.skip ls.flatten.length)) ∧
          v.leaves.map Scanner.toStr = ls.map some ∧ nodesEqual v w = some true) ∧
        (¬ ls.flatten <+: x → Peg E X (.term [] rule t vals inp) .fail)
  | .leaf s, ls, _, hl, hlaw => by
    simp only [Tree.leaves, List.map_cons, List.map_nil] at hl
    match ls, hl, hlaw with
    | [], hl, _ => simp at hl
    | _ :: _ :: _, hl, _ => simp at hl
    | [l], hl, hlaw =>
      simp at hl
      refine ⟨.s l, by simp [termFromRefVal, hl], (hlaw l (by simp)).1, fun rule vals inp x hin hx => ?_⟩
      obtain ⟨h1, h2⟩ := peg_lit (X := X) (Γ := []) (rule := rule) (vals := vals) rfl (hlaw l (by simp)) hin hx
      simp only [List.flatten_cons, List.flatten_nil, List.append_nil]
      refine ⟨fun h => ⟨_, h1 h, ?_, ?_⟩, h2⟩
      · simp [Tree.leaves, (skip_text hin hx h).1]
      · simp [nodesEqual, (skip_text hin hx h).1, hl]
  | .node tag e cs, ls, hm, hl, hlaw => by
    obtain ⟨ts, h1, h2, h2', h3⟩ := retells cs (by simpa [Tree.marks] using hm) (by simpa [Tree.leaves] using hl) hlaw
    refine ⟨.seq ts, by simp [termFromRefVal, h1], by simpa [Term.quotable] using h2, fun rule vals inp x hin hx => ?_⟩
    obtain ⟨h4, h5⟩ := h3 vals inp x hin hx
    refine ⟨fun h => ?_, fun h => .seqNo (h5 h) (Or.inl rfl)⟩
    obtain ⟨vs, h6, h7, h8, h9⟩ := h4 h
    exact ⟨_, .seqOk h6, by simpa [Tree.leaves] using h7, by simp [nodesEqual, h8, h9]⟩
  | .empty, _, hm, _, _ => by simp [Tree.marks] at hm
  | .foreign _, _, hm, _, _ => by simp [Tree.marks] at hm
theorem retells : (ws : List Tree) → {ls : List Str} → marksList ws = 0 →
    (leavesList ws).map Scanner.toStr = ls.map some → (∀ l ∈ ls, MatchesLiterally E l) →
    ∃ ts, termsFromRefVals ws = some ts ∧ quotableList E ts = true ∧ isTextList ts = true ∧
      ∀ vals (inp : Scanner) x, inp.InRange → inp.toStr = some x →
        (ls.flatten <+: x → ∃ vs, Peg E X (.seq [] ts vals false inp) (.oks vs (inp.skip ls.flatten.length)) ∧
          (leavesList vs).map Scanner.toStr = ls.map some ∧ vs.length = ws.length ∧ nodesEqualList vs ws = some true) ∧
        (¬ ls.flatten <+: x → Peg E X (.seq [] ts vals false inp) .fail)
  | [], ls, _, hl, _ => by
    simp only [leavesList, List.map_nil] at hl
    have : ls = [] := by simpa using hl.symm
    subst this
    refine ⟨[], rfl, rfl, rfl, fun vals inp x hin hx => ⟨fun _ => ⟨[], ?_, rfl, rfl, rfl⟩, fun h => ?_⟩⟩
    · have := Peg.itemsNil (E := E) (X := X) (Γ := []) (vals := vals) (c := false) (inp := inp)
      simpa [skip_zero] using this
    · simp at h
  | w :: ws, ls, hm, hl, hlaw => by
    simp only [marksList] at hm
    simp only [leavesList, List.map_append] at hl
    obtain ⟨l1, l2, rfl, e1, e2⟩ := List.append_eq_map_iff.1 hl
    obtain ⟨t, h1, h2, h3⟩ := retell w (by omega) e1.symm (fun l h => hlaw l (by simp [h]))
    obtain ⟨ts, h4, h5, h5', h6⟩ := retells ws (by omega) e2.symm (fun l h => hlaw l (by simp [h]))
    have ht := quotable_text _ h2
    refine ⟨t :: ts, by simp [termsFromRefVals, h1, h4], by simp [quotableList, h2, h5], by simp [isTextList, ht, h5'],
      fun vals inp x hin hx => ?_⟩
    obtain ⟨ha, hb⟩ := h3 [] vals inp x hin hx
    have hc : (false = true ↔ false = true ∨ IsCut [] t) := by simp [not_isCut_text ht]
    simp only [List.flatten_append]
    by_cases hp : l1.flatten <+: x
    · obtain ⟨v, hv, hv1, hv2⟩ := ha hp
      obtain ⟨_, hin', hx'⟩ := skip_text hin hx hp
      obtain ⟨hd, he⟩ := h6 vals _ _ hin' hx'
      have split : l1.flatten ++ l2.flatten <+: x ↔ l2.flatten <+: x.drop l1.flatten.length := by
        obtain ⟨y, rfl⟩ := hp
        rw [List.prefix_append_right_inj]; simp
      rw [split]
      refine ⟨fun h => ?_, fun h => ?_⟩
      · obtain ⟨vs, g1, g2, g3, g4⟩ := hd h
        refine ⟨v :: vs, ?_, by simp [leavesList, hv1, g2], by simp [g3], by simp [nodesEqualList, hv2, g4]⟩
        rw [skip_skip] at g1
        rw [List.length_append]
        exact .itemsCons hv hc (by simpa [bindVal, ident_text ht] using g1)
      · exact .itemsLater hv hc (by simpa [bindVal, ident_text ht] using he h) (Or.inl rfl)
    · refine ⟨fun h => absurd ((List.prefix_append _ _).trans h) hp, fun _ => ?_⟩
      have := Peg.itemsFail (ts := ts) (c := false) (hb hp)
      simpa using this
end

/-! ### Only the bindings that are referred to matter -/

theorem Agree.sub {Γ t Γ' t' vals vals'} (h : Agree Γ t vals vals')
    (hp : ∀ {Γ₁ t₁}, PartOf Γ' t' Γ₁ t₁ → PartOf Γ t Γ₁ t₁) : Agree Γ' t' vals vals' :=
  ⟨fun x d Γ₁ h1 => h.1 x d Γ₁ (hp h1), fun Γ₁ x h1 => h.2 Γ₁ x (hp h1)⟩

theorem Agree.bind {Γ t vals vals'} (h : Agree Γ t vals vals') (i : Str) (v : Tree) :
    Agree Γ t (bindVal vals i v) (bindVal vals' i v) := by
  refine ⟨fun x d Γ₁ h1 => ?_, fun Γ₁ x h1 y => ?_⟩
  · unfold bindVal; split
    · exact h.1 x d Γ₁ h1
    · simp [lookup, h.1 x d Γ₁ h1]
  · unfold bindVal; split
    · exact h.2 Γ₁ x h1 y
    · simp [lookup, h.2 Γ₁ x h1 y]

theorem Agree.text {Γ t vals vals'} (ht : t.isText = true) : Agree Γ t vals vals' := by
  refine ⟨fun x d Γ₁ h => ?_, fun Γ₁ x h => ?_⟩ <;> rcases within_text ht h with ⟨ts, h⟩ | ⟨l, h, _⟩ <;> simp at h

theorem Agree.delim {Γ t sep a cs ce vals vals'} (h : Agree Γ (.delim t sep a cs ce) vals vals') :
    Agree Γ (.seq (delimSeq t sep cs ce)) vals vals' := by
  refine ⟨fun x d Γ₁ h1 => ?_, fun Γ₁ x h1 => ?_⟩
  · rcases within_delimSeq (a := a) h1 with ⟨_, h2⟩ | ⟨_, _, _, h2⟩ | h2
    · simp at h2
    · simp at h2
    · exact h.1 x d Γ₁ h2
  · rcases within_delimSeq (a := a) h1 with ⟨_, h2⟩ | ⟨_, _, _, h2⟩ | h2
    · simp at h2
    · simp at h2
    · exact h.2 Γ₁ x h2

/-- Goals that differ at most in bindings that are not referred to. -/
inductive SameBindings : Goal → Goal → Prop
  | term {Γ rule t vals vals' inp} : Agree Γ t vals vals' →
      SameBindings (.term Γ rule t vals inp) (.term Γ rule t vals' inp)
  | seq {Γ ts vals vals' c inp} : (∀ t ∈ ts, Agree Γ t vals vals') →
      SameBindings (.seq Γ ts vals c inp) (.seq Γ ts vals' c inp)
  | reps {Γ t vals vals' left inp} : Agree Γ t vals vals' →
      SameBindings (.reps Γ t vals left inp) (.reps Γ t vals' left inp)
  | alts {Γ tag ts i vals vals' inp} : (∀ t ∈ ts, Agree Γ t vals vals') →
      SameBindings (.alts Γ tag ts i vals inp) (.alts Γ tag ts i vals' inp)

theorem Peg.agree {G o} (h : Peg E X G o) {G'} (hG : SameBindings G G') : Peg E X G' o := by
  induction h generalizing G' with
  | rule hr _ ih => cases hG with | term e => exact .rule hr (ih (.term (e.sub (.rule hr))))
  | named _ ih => cases hG with | term e => exact .named (ih (.term (e.sub .named)))
  | cut _ ih => cases hG with | term e => exact .cut (ih (.term (e.sub .cut)))
  | scope he _ ih => cases hG with | term e => exact .scope he (ih (.term (e.sub (.scope he))))
  | lit hp ho => cases hG with | term e => exact .lit hp ho
  | regexp hp ho => cases hG with | term e => exact .regexp hp ho
  | seqOk _ ih => cases hG with | term e => exact .seqOk (ih (.seq fun t ht => e.sub (.seq ht)))
  | seqNo _ ho ih => cases hG with | term e => exact .seqNo (ih (.seq fun t ht => e.sub (.seq ht))) ho
  | itemsNil => cases hG with | seq e => exact .itemsNil
  | itemsCons _ hc _ ih1 ih2 =>
    cases hG with
    | seq e => exact .itemsCons (ih1 (.term (e _ (by simp)))) hc (ih2 (.seq fun t ht => (e t (by simp [ht])).bind _ _))
  | itemsLater _ hc _ ho ih1 ih2 =>
    cases hG with
    | seq e =>
      exact .itemsLater (ih1 (.term (e _ (by simp)))) hc (ih2 (.seq fun t ht => (e t (by simp [ht])).bind _ _)) ho
  | itemsFail _ ih => cases hG with | seq e => exact .itemsFail (ih (.term (e _ (by simp))))
  | itemsAbort _ ih => cases hG with | seq e => exact .itemsAbort (ih (.term (e _ (by simp))))
  | oneof _ ih => cases hG with | term e => exact .oneof (ih (.alts fun t ht => e.sub (.oneof ht)))
  | altsNil => cases hG with | alts e => exact .altsNil
  | altsOk _ ih => cases hG with | alts e => exact .altsOk (ih (.term (e _ (by simp))))
  | altsAbort _ ih => cases hG with | alts e => exact .altsAbort (ih (.term (e _ (by simp))))
  | altsNext _ _ ih1 ih2 =>
    cases hG with | alts e => exact .altsNext (ih1 (.term (e _ (by simp)))) (ih2 (.alts fun t ht => e t (by simp [ht])))
  | quantOk _ hl ih => cases hG with | term e => exact .quantOk (ih (.reps (e.sub .quant))) hl
  | quantFew _ hl ih => cases hG with | term e => exact .quantFew (ih (.reps (e.sub .quant))) hl
  | quantAbort _ ih => cases hG with | term e => exact .quantAbort (ih (.reps (e.sub .quant)))
  | repsMax => cases hG with | reps e => exact .repsMax
  | repsStop hl _ ih => cases hG with | reps e => exact .repsStop hl (ih (.term e))
  | repsMore hl _ _ ih1 ih2 => cases hG with | reps e => exact .repsMore hl (ih1 (.term e)) (ih2 (.reps e))
  | repsLater hl _ _ ih1 ih2 => cases hG with | reps e => exact .repsLater hl (ih1 (.term e)) (ih2 (.reps e))
  | repsAbort hl _ ih => cases hG with | reps e => exact .repsAbort hl (ih (.term e))
  | lookOk _ ih => cases hG with | term e => exact .lookOk (ih (.term (e.sub .look)))
  | lookNo _ ho ih => cases hG with | term e => exact .lookNo (ih (.term (e.sub .look))) ho
  | delimOk _ hf ih => cases hG with | term e => exact .delimOk (ih (.term e.delim)) hf
  | delimNo _ ho ih => cases hG with | term e => exact .delimNo (ih (.term e.delim)) ho
  | refOk hl ht hq _ he ih =>
    cases hG with
    | term e => exact .refOk ((e.1 _ _ _ .refl).symm.trans hl) ht hq (ih (.term (.text (quotable_text _ hq)))) he
  | refDiffers hl ht hq _ he ih =>
    cases hG with
    | term e => exact .refDiffers ((e.1 _ _ _ .refl).symm.trans hl) ht hq (ih (.term (.text (quotable_text _ hq)))) he
  | refNo hl ht hq _ ho ih =>
    cases hG with
    | term e => exact .refNo ((e.1 _ _ _ .refl).symm.trans hl) ht hq (ih (.term (.text (quotable_text _ hq)))) ho
  | refDefault hl hq _ ih =>
    cases hG with
    | term e => exact .refDefault ((e.1 _ _ _ .refl).symm.trans hl) hq (ih (.term (.text (quotable_text _ hq))))
  | refUnbound hl => cases hG with | term e => exact .refUnbound ((e.1 _ _ _ .refl).symm.trans hl)
  | extNone hx => cases hG with | term e => exact .extNone hx
  | ext hx =>
    cases hG with
    | term e =>
      rename_i vals'
      rw [show (fun i => lookup i _) = (fun i => lookup i vals') from funext (e.2 _ _ .refl)]
      exact .ext hx

end Wbnf

import Verif.Lemmas.Faults
import Verif.Props.Validate

/-!
# C76: the errors of validation are those there are
-/

namespace Wbnf

variable {reOK : Str → Bool} {ord : List Str → List Str → List Str} {g : GrammarN} {es : List ErrorKind}

/-- **C76** If a name is defined twice, that is all that is reported. -/
theorem C76_duplicates (h : ¬ g.names.Nodup) : validate reOK ord g = .ok [.duplicatedRule] := by
  unfold validate
  have : (findDefinedRules g).dupes ≠ [] := fun hd => h ((dupes_iff g).1 hd)
  simp [this]

/-- **C76** The names its message lists are those defined more than once, each as often as it is defined again. -/
theorem C76_named (x : Str) : (findDefinedRules g).dupes.count x = g.names.count x - 1 := dupes_count g x

/-- **C76** Validation panics exactly if it gets to the bounds of quantifiers and one is not an `int`. -/
theorem C76_panics : validate reOK ord g = .error .panic ↔ g.names.Nodup ∧ ¬ g.Ints := by
  by_cases hd : g.names.Nodup
  · have hd' := (dupes_iff g).2 hd
    have hp := (walk_errs (e := .unknownRule) (reOK := reOK) (known := (findDefinedRules g).out) (macros := (findDefinedRules g).macros) g).2
    have hi : (∃ i, g.Checked i ∧ NodePanics i) ↔ ¬ g.Ints := by
      constructor
      · rintro ⟨i, hc, h⟩ hn
        match i, hc, h with
        | .quant (.range lo hi), hc, h => exact h (hn lo hi hc)
      · intro h
        refine Classical.byContradiction fun hn => h fun lo hi hc => ?_
        refine Classical.byContradiction fun hb => hn ⟨_, hc, hb⟩
    rw [hi] at hp
    simp only [hd, true_and, ← hp]
    unfold validate
    simp only [hd', ne_eq, not_true_eq_false, if_false]
    split
    · next h => simp [h]
    · next h => simp [h]
  · rw [C76_duplicates hd]
    simp [hd]

/-- **C76** Otherwise the kinds of the errors reported are exactly those of the faults that are there: none is missed because of another, and none is
reported without cause. -/
theorem C76_kinds (hd : g.names.Nodup) (h : validate reOK ord g = .ok es) (e : ErrorKind) : e ∈ es ↔ Faulty reOK ord g e := by
  have hd' := (dupes_iff g).2 hd
  have hints : g.Ints := Classical.byContradiction fun hn => by
    rw [C76_panics.2 ⟨hd, hn⟩] at h
    cases h
  have hw := (walk_errs (e := e) (reOK := reOK) (known := (findDefinedRules g).out) (macros := (findDefinedRules g).macros) g).1
  have hes : e ∈ es ↔ (∃ i, g.Checked i ∧ NodeBad reOK (findDefinedRules g).out (findDefinedRules g).macros e i) ∨
      (e = .possibleCycleDetected ∧ badRoutes ord g ≠ []) := by
    unfold validate at h
    simp only [hd', ne_eq, not_true_eq_false, if_false] at h
    split at h
    · cases h
    · cases h
      rw [mem_report, hw]
      simp
  rw [hes]
  have names : ∀ x, x ∈ (findDefinedRules g).out ↔ x ∈ g.names := mem_out g
  have isMacro : ∀ m mc, lookup m (findDefinedRules g).macros = some mc ↔ .macrodef m mc.args mc.body ∈ g.stmts := fun m mc => lookup_macros hd
  constructor
  · rintro (⟨i, hc, hb⟩ | ⟨rfl, hb⟩)
    · match i, hc, hb with
      | .term (.many [] [] ts), hc, ⟨he, hbad⟩ => subst he; exact ⟨ts, hc, hbad⟩
      | .named (.mk (some x) a), hc, ⟨he, hbad⟩ => subst he; exact .inl ⟨x, a, hc, (names x).1 hbad⟩
      | .atom (.ident i), hc, ⟨he, h1, h2⟩ => subst he; exact ⟨i, hc, h1, fun hn => h2 ((names i).2 hn)⟩
      | .atom (.re x), hc, ⟨he, hbad⟩ => subst he; exact ⟨x, hc, hbad⟩
      | .quant (.range lo hi), hc, ⟨he, _, hbad⟩ => subst he; exact ⟨lo, hi, hc, hbad⟩
      | .macrodef m as t, hc, ⟨he, hbad⟩ =>
        subst he
        refine .inr ⟨m, as, t, checked_macrodef.1 hc, ?_⟩
        by_cases hn : as.Nodup
        · refine .inl (Classical.byContradiction fun hx => hbad ⟨hn, fun a ha hk => hx ⟨a, ha, (names a).1 hk⟩⟩)
        · exact .inr hn
      | .macrocall m ts, hc, .inl ⟨he, hbad⟩ =>
        subst he
        refine ⟨m, ts, hc, fun as t hm => ?_⟩
        rw [(isMacro m ⟨as, t⟩).2 hm] at hbad
        cases hbad
      | .macrocall m ts, hc, .inr ⟨he, mc, hbad, hl⟩ => subst he; exact ⟨m, ts, _, _, hc, (isMacro m mc).1 hbad, hl⟩
    · exact hb
  · intro hf
    cases e with
    | unknownRule => obtain ⟨i, hc, h1, h2⟩ := hf; exact .inl ⟨_, hc, rfl, h1, fun hn => h2 ((names i).1 hn)⟩
    | duplicatedRule => exact (hf hd).elim
    | invalidRegex => obtain ⟨x, hc, hb⟩ := hf; exact .inl ⟨_, hc, rfl, hb⟩
    | nameClashesWithRule =>
      rcases hf with ⟨x, a, hc, hb⟩ | ⟨m, as, t, hm, hb⟩
      · exact .inl ⟨_, hc, rfl, (names x).2 hb⟩
      · refine .inl ⟨_, checked_macrodef.2 hm, rfl, ?_⟩
        rintro ⟨h1, h2⟩
        rcases hb with ⟨a, ha, hk⟩ | hb
        · exact h2 a ha ((names a).2 hk)
        · exact hb h1
    | minMaxQuantError => obtain ⟨lo, hi, hc, hb⟩ := hf; exact .inl ⟨_, hc, rfl, hints lo hi hc, hb⟩
    | multipleTermsWithSameName => obtain ⟨ts, hc, hb⟩ := hf; exact .inl ⟨_, hc, rfl, hb⟩
    | possibleCycleDetected => exact .inr ⟨rfl, hf⟩
    | notAMacro =>
      obtain ⟨m, ts, hc, hb⟩ := hf
      refine .inl ⟨_, hc, .inl ⟨rfl, ?_⟩⟩
      cases hl : lookup m (findDefinedRules g).macros with
      | none => rfl
      | some mc => exact (hb _ _ ((isMacro m mc).1 hl)).elim
    | incorrectMacroArgCount =>
      obtain ⟨m, ts, as, t, hc, hm, hl⟩ := hf
      exact .inl ⟨_, hc, .inr ⟨rfl, ⟨as, t⟩, (isMacro m ⟨as, t⟩).2 hm, hl⟩⟩

/-- **C76** There is one error for each fault, in the order of the text, and one at the end if the check for recursion finds anything. -/
theorem C76_order (hd : g.names.Nodup) (h : validate reOK ord g = .ok es) :
    es = g.visited.flatMap (g.faultsAt reOK) ++ if badRoutes ord g = [] then [] else [.possibleCycleDetected] := by
  have hd' := (dupes_iff g).2 hd
  have hints : g.Ints := Classical.byContradiction fun hn => by
    rw [C76_panics.2 ⟨hd, hn⟩] at h
    cases h
  unfold validate at h
  simp only [hd', ne_eq, not_true_eq_false, if_false] at h
  split at h
  · cases h
  · cases h
    rw [report_errs, walk_callAll validatorOps_skips (fun _ _ _ h => validatorOps_goes h), callAll_order (g := g) (mem_out g) (paramsOf_eq hd)]
    · by_cases hb : badRoutes ord g = [] <;> simp [hb, GrammarN.visited]
    · intro i hi hp
      match i, hi, hp with
      | .quant (.range lo hi'), hi, hp => exact hp (hints _ _ ((events_outer _ _ (grammarN_proper g)).1 hi))

open Ex in
/-- The grammar `nBad` has faults of all kinds but two, and with a name that is defined twice only that is told; `nHuge` makes validation panic. -/
example : (nBad []).names.Nodup ∧ (∀ e, Faulty (fun x => x != str "/{(}") asWritten (nBad []) e ↔ e ≠ .duplicatedRule ∧ e ≠ .possibleCycleDetected) ∧
    ¬ (nBad [.prod (str "a") [rn "a"]]).names.Nodup ∧ nHuge.names.Nodup ∧ ¬ nHuge.Ints := by
  have hd : (nBad []).names.Nodup := by decide +kernel
  refine ⟨hd, fun e => ?_, by decide +kernel, (C76_panics (reOK := fun _ => true) (ord := asWritten).1 (by decide +kernel))⟩
  rw [← C76_kinds hd (es := [.multipleTermsWithSameName, .minMaxQuantError, .notAMacro,
      .nameClashesWithRule, .invalidRegex, .unknownRule, .incorrectMacroArgCount, .nameClashesWithRule, .nameClashesWithRule]) (by decide +kernel)]
  cases e <;> decide

open Ex in
/-- The parameters `a`, `c`, `c` of a macro beside the rules `a` and `b`: two faults. -/
example : (nBad []).faultsAt (fun _ => true) (.macrodef (str "q") [str "a", str "c", str "c"] (rn "c")) = [.nameClashesWithRule, .nameClashesWithRule] := by
  decide +kernel

open Ex in
/-- `a` is defined twice. -/
example : (findDefinedRules (nBad [.prod (str "a") [rn "a"]])).dupes = [str "a"] ∧ (nBad [.prod (str "a") [rn "a"]]).names.count (str "a") = 2 := by
  decide +kernel

end Wbnf

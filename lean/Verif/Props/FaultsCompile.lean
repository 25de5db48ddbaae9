import Verif.Props.Faults
import Verif.Props.Source

/-!
# C76: the errors that Compile returns
-/

namespace Wbnf

variable {E : Engine} {ρ : Nat → Nat} {F : Files} {reOK : Str → Bool} {ord : List Str → List Str → List Str} {text : Str} {g : GrammarN}
  {ss : List StmtN} {es : List ErrorKind}

theorem validate_done (hi : g.Ints) : ∃ es, validate reOK ord g = .ok es := by
  cases h : validate reOK ord g with
  | ok es => exact ⟨es, rfl⟩
  | error e =>
    have hp : validate reOK ord g = .error .panic := by
      unfold validate at h ⊢
      simp only at h ⊢
      split at h
      · cases h
      · next hn =>
        rw [if_neg hn]
        split at h
        · next hv => rw [if_pos hv]
        · cases h
    exact ((C76_panics.1 hp).2 hi).elim

/-- **C76** For a text that is a source whose imports can be read, the errors of validation that `Compile` returns: the one error if a name is defined
twice; and else, if the bounds are `int`s, one for each fault of the source with its imports. -/
theorem C76_compile (hF : F.Parsed E ρ) (hs : Stands E ρ text g) (hi : F.Includes [] g ss) :
    (∃ n, compileSource F E reOK ord n text = .invalid es) ↔ es ≠ [] ∧
      ((¬ (GrammarN.mk ss).names.Nodup ∧ es = [.duplicatedRule]) ∨
       ((GrammarN.mk ss).names.Nodup ∧ (GrammarN.mk ss).Ints ∧
        es = (GrammarN.mk ss).visited.flatMap ((GrammarN.mk ss).faultsAt reOK) ++ if badRoutes ord (.mk ss) = [] then [] else [.possibleCycleDetected])) := by
  rw [compileSource_invalid (hF.parse_iff.2 hs) hi]
  refine and_congr_right fun _ => ?_
  by_cases hd : (GrammarN.mk ss).names.Nodup
  · simp only [hd, not_true_eq_false, false_and, false_or, true_and]
    constructor
    · intro h
      refine ⟨Classical.byContradiction fun hn => ?_, C76_order hd h⟩
      rw [C76_panics.2 ⟨hd, hn⟩] at h
      cases h
    · rintro ⟨hi, h⟩
      obtain ⟨es', he⟩ := validate_done (reOK := reOK) (ord := ord) hi
      rw [he, h, C76_order hd he]
  · rw [C76_duplicates hd]
    simp only [hd, not_false_eq_true, true_and, false_and, or_false, Except.ok.injEq]
    exact eq_comm

namespace Ex

/-- ``a -> b; c -> d{3,2};`` -/
def faulty : GrammarN := .mk [one "a" (.ident (str "b")) [], one "c" (.ident (str "d")) [.range (some (str "3")) (some (str "2"))]]
def faultyText : Str := str "a -> b; c -> d{3,2};"

set_option maxRecDepth 100000 in
theorem faulty_stand : Stands regexp ρ0 faultyText faulty := stands_viewed (n := 60) (by decide +kernel)

end Ex

open Ex in
/-- A text with three faults, which are what `Compile` returns. -/
example (hF : F.Parsed regexp ρ0) : Stands regexp ρ0 faultyText faulty ∧ F.Includes [] faulty faulty.stmts ∧
    ∃ n, compileSource F regexp reOK asWritten n faultyText = .invalid [.unknownRule, .unknownRule, .minMaxQuantError] := by
  refine ⟨faulty_stand, includes_self rfl, (C76_compile hF faulty_stand (includes_self rfl)).2 ⟨by simp, .inr ⟨by decide +kernel, ?_, ?_⟩⟩⟩
  · refine Classical.byContradiction fun hn => ?_
    have := C76_panics (reOK := fun _ => true) (ord := asWritten).2 ⟨(by decide +kernel : (GrammarN.mk faulty.stmts).names.Nodup), hn⟩
    revert this
    decide +kernel
  · rfl

end Wbnf

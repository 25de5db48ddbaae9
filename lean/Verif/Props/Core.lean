import Verif.Lemmas.CoreParse
import Verif.Props.Semantics
import Verif.Props.Stacks
import Verif.Examples.Consumes
import Verif.Examples.Quote

/-!
# C53: parsing wbnf sources
-/

namespace Wbnf

variable {E : Engine} {ρ : Nat → Nat} {n : Nat} {x : Str}

/-- **C53** Whatever text is given to it, the parser for wbnf sources returns a tree or an error, in finitely many steps and
without panicking. -/
theorem C53_parses (hE : E.Sane) (h : Core.EngineOK E) (ρ : Nat → Nat) (x : Str) :
    ∃ N, ∀ n, N ≤ n → (∃ v i, Core.parse E ρ n (newScanner x) = .ok v i) ∨ ∃ e i, Core.parse E ρ n (newScanner x) = .err e i := by
  obtain ⟨N, ps, hc⟩ := Core.compiles h
  have hps : ps.grammar = Core.flat := by
    have := compile_grammar (hc N (Nat.le_refl _))
    rw [Core.flat_ok] at this
    exact (Option.some.inj this).symm
  have hg : Core.grammar.wf = true := by decide +kernel
  have hpl := Core.placesSafe (X := noExternals) hE h (str "grammar")
  obtain ⟨M, hM⟩ := C15_terminates hE Ex.sane_noExternals rfl hg (hc N (Nat.le_refl _)) (Ex.newScanner_inRange x)
    (hps ▸ hpl.1) (hps ▸ hpl.2) ρ
  refine ⟨max N M, fun n hn => ?_⟩
  have h1 := hM n (by omega)
  have h2 := C24_no_panic (ρ := ρ) (n := n) hE Ex.sane_noExternals rfl hg (hc N (Nat.le_refl _)) (Ex.newScanner_inRange x)
    (Ex.newScanner_toStr x) (hps ▸ Core.closed) (hps ▸ Core.patternsSafe h Core.flat_mem Core.start_at)
    (Or.inl (hps ▸ (noRef_at Core.frames_ok Core.flat_mem Core.start_at).1))
  simp only [Core.parse, hc n (by omega)]
  cases hr : ps.parse E noExternals ρ n (str "grammar") (newScanner x) with
  | ok v i => exact .inl ⟨v, i, rfl⟩
  | err e i => exact .inr ⟨e, i, rfl⟩
  | panic => exact absurd hr h2
  | oof => exact absurd hr h1

/-- **C53** It accepts a text with the tree that the grammar of grammars (its stack resolved) denotes, and no other text. -/
theorem C53_accepts_iff (h : Core.EngineOK E) {g v i} (hg : Core.grammar.resolveStacks = some g) :
    (Denotes E noExternals g (str "grammar") (newScanner x) (.ok v i) ∧ i.toStr = some []) ↔
    ∃ N K, ∀ ρ, DistinctDraws noExternals ρ K → ∀ n, N ≤ n → Core.parse E ρ n (newScanner x) = .ok v i := by
  obtain ⟨N, ps, hc⟩ := Core.compiles h
  have hps : g = ps.grammar := Option.some.inj (hg.symm.trans (compile_grammar (hc N (Nat.le_refl _))))
  have hwf : Core.grammar.wf = true := by decide +kernel
  subst hps
  have key := C11_accepts_iff (r := str "grammar") (inp := newScanner x) (v := v) (i := i) hwf (hc N (Nat.le_refl _)) plain_noExternals
  constructor
  · intro hd
    obtain ⟨M, K, hM⟩ := key.1 hd
    refine ⟨max N M, K, fun ρ hρ n hn => ?_⟩
    simp only [Core.parse, hc n (by omega)]
    exact (hM ρ hρ n (by omega)).2
  · rintro ⟨M, K, hM⟩
    obtain ⟨B, hB⟩ := plain_noExternals.bounded
    have h1 := hM _ (good_canonical hB).distinct (max N M) (by omega)
    simp only [Core.parse, hc (max N M) (by omega)] at h1
    exact (C11_sound hwf (hc N (Nat.le_refl _)) plain_noExternals (good_canonical hB).distinct).1 v i h1

/-! Go's regexps, as far as they are modelled; a source that is accepted and one that is not. -/

namespace Ex

set_option maxRecDepth 100000

theorem coreEngine : Core.EngineOK regexp where
  valid p h := List.all_eq_true.1 (show (Core.wrapPattern :: Core.patterns).all regexp.valid = true by decide +kernel) p h
  groups p h := Regex.leafSafe (List.all_eq_true.1
    (show (Core.wrapPattern :: Core.patterns).all Regex.oneOrTwo = true by decide +kernel) p h)
  consumes p h := Regex.neverEmpty (List.all_eq_true.1 (show Core.patterns.all Regex.eats = true by decide +kernel) p h)

example (ρ : Nat → Nat) (x : Str) : ∃ N, ∀ n, N ≤ n →
    (∃ v i, Core.parse regexp ρ n (newScanner x) = .ok v i) ∨ ∃ e i, Core.parse regexp ρ n (newScanner x) = .err e i :=
  C53_parses regexp_sane coreEngine ρ x

example : obs (Core.parse regexp ρ0 300 (newScanner (str "a->b;"))) = .ok (some (utf8
    "grammar[stmt║1[prod[a, ->, ?[term║:[_[term@1║:[term@2[term@3[named[?[], atom║0[b]], ?[]]]], ?[]]]], ;]]]")) 5 0 := by
  decide +kernel

example : obs (Core.parse regexp ρ0 300 (newScanner (str "a -> ;"))) = .err .fatal 0 6 := by decide +kernel

end Ex

end Wbnf

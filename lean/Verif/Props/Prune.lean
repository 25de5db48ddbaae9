import Verif.Lemmas.Uncut
import Verif.Lemmas.Yields
import Verif.Props.Semantics
import Verif.Props.Stacks

/-!
# C13: cut points only prune
-/

namespace Wbnf

variable {E : Engine} {X : Externals} {g : Grammar} {m m' n : Nat} {ps ps' : Parsers} {r : Str} {inp : Scanner} {ρ : Nat → Nat}

theorem denotes_uncut (hg : g.wf = true) (hd : g.Deep Term.PlainCut) (hw : g.WrapUncut) (hc : g.compile E m = .ok ps)
    (hc' : Grammar.compile E m' (uncutDefs g) = .ok ps') {o : Out} (ho : o ≠ .abort) (h : Denotes E X ps.grammar r inp o) :
    Denotes E X ps'.grammar r inp o := by
  have hd' : deepDefs UncutOK g := uncutOK_defs g hg hd
  have e : ps'.grammar = uncutDefs ps.grammar := by
    have h1 := compile_grammar hc'
    rw [resolveStacks_uncut (noCutStack hd'), compile_grammar hc] at h1
    exact (Option.some.inj h1).symm
  have := Peg.uncut h ⟨?_, trivial⟩ ho
  · unfold Denotes; rw [e]; exact this
  · intro g0 hm
    obtain rfl : g0 = ps.grammar := by simpa using hm
    exact ⟨deep_resolve layerOK_uncut hd' (compile_grammar hc), wrapUncut_resolve hw (compile_grammar hc)⟩

theorem wf_uncutDefs (hg : g.wf = true) (hd : g.Deep Term.PlainCut) : Grammar.wf (uncutDefs g) = true :=
  wfDefs_uncut g (uncutOK_defs g hg hd) hg

/-- **C13** The grammar with every cut point removed can be compiled too. -/
theorem C13_compiles (hg : g.wf = true) (hd : g.Deep Term.PlainCut) (hw : g.WrapUncut)
    (hc : ∃ N ps, ∀ n, N ≤ n → g.compile E n = .ok ps) :
    ∃ N ps, ∀ n, N ≤ n → Grammar.compile E n (uncutDefs g) = .ok ps := by
  rw [compile_iff] at *
  exact hc.uncut (uncutOK_defs g hg hd) hw

/-- **C13** What is matched with cut points is matched without, with the same tree and the same scanner. -/
theorem C13_prunes (hg : g.wf = true) (hd : g.Deep Term.PlainCut) (hw : g.WrapUncut) (hc : g.compile E m = .ok ps)
    (hc' : Grammar.compile E m' (uncutDefs g) = .ok ps') (hX : X.Plain) {v : Tree} {i : Scanner}
    (h : ps.Yields E X r inp (.ok v i)) : ps'.Yields E X r inp (.ok v i) := by
  rw [yields_iff hg hc hX] at h
  rw [yields_iff (wf_uncutDefs hg hd) hc' hX]
  exact denotes_uncut hg hd hw hc hc' (by simp) h

/-- **C13** What fails without being cut off fails without cut points as well. -/
theorem C13_fails (hg : g.wf = true) (hd : g.Deep Term.PlainCut) (hw : g.WrapUncut) (hc : g.compile E m = .ok ps)
    (hc' : Grammar.compile E m' (uncutDefs g) = .ok ps') (hX : X.Plain)
    (h : ps.Yields E X r inp .fail) : ps'.Yields E X r inp .fail := by
  rw [yields_iff hg hc hX] at h
  rw [yields_iff (wf_uncutDefs hg hd) hc' hX]
  exact denotes_uncut hg hd hw hc hc' (by simp) h

/-- **C13** The same for one finished call: if it returns a tree, the parser without cut points returns that
tree, in every long enough run. -/
theorem C13_parse (hg : g.wf = true) (hd : g.Deep Term.PlainCut) (hw : g.WrapUncut) (hc : g.compile E m = .ok ps)
    (hc' : Grammar.compile E m' (uncutDefs g) = .ok ps') (hX : X.Plain)
    (hdr : DistinctDraws X ρ (ps.draws E X ρ n r inp)) {v : Tree} {i : Scanner} (h : ps.parse E X ρ n r inp = .ok v i) :
    ∃ N K, ∀ ρ', DistinctDraws X ρ' K → ∀ n', N ≤ n' → ps'.parse E X ρ' n' r inp = .ok v i := by
  have h1 := (C11_sound hg hc hX hdr).1 v i h
  have h2 := denotes_uncut hg hd hw hc hc' (by simp) h1.1
  obtain ⟨N, K, h3⟩ := C11_complete (wf_uncutDefs hg hd) hc' hX h2
  exact ⟨N, K, fun ρ' hρ n' hn => by
    have := (h3 ρ' hρ n' hn).2
    simpa [h1.2] using this⟩

/-- **C13** Cut points never make a parse succeed: what fails without them does not succeed with them. -/
theorem C13_adds_nothing (hg : g.wf = true) (hd : g.Deep Term.PlainCut) (hw : g.WrapUncut) (hc : g.compile E m = .ok ps)
    (hc' : Grammar.compile E m' (uncutDefs g) = .ok ps') (hX : X.Plain)
    (h : ps'.Yields E X r inp .fail ∨ ps'.Yields E X r inp .abort) {v : Tree} {i : Scanner} : ¬ ps.Yields E X r inp (.ok v i) := by
  intro ho
  have h1 := C13_prunes hg hd hw hc hc' hX ho
  rw [yields_iff (wf_uncutDefs hg hd) hc' hX] at h1
  rcases h with h | h <;> rw [yields_iff (wf_uncutDefs hg hd) hc' hX] at h <;>
    exact absurd (Peg.det h1 h) (by simp)

/-! ## Examples and limits -/

namespace Ex

/-- A cut point around a name, `a -> cut(n="x") %n="y";`, which no wbnf text can express. -/
def gCutName : Grammar := [
  (str "a", .seq [.cut (.named (str "n") (.s (str "x"))), .ref (str "n") (some (.s (str "y")))])]

end Ex

open Ex in
/-- **C13** The condition on what is under a cut point is needed: a cut point hides the name under it from back
references, so `gCutName` matches `xy`, and without the cut point it does not (it matches `xx`). -/
theorem C13_named : obs (runTop gCutName "a" "xy") = .ok (some (utf8 "a[x, y]")) 2 0 ∧
    obs (runTop (uncutDefs gCutName) "a" "xy") = .err .parse 1 1 ∧
    obs (runTop (uncutDefs gCutName) "a" "xx") = .ok (some (utf8 "a[x, x]")) 2 0 := by
  decide +kernel

open Ex in
/-- **C13** The converse does not hold, which is what cut points are for: `x!c` is matched without the cut point. -/
theorem C13_converse_false : obs (runTop gCut "a" "x!c") = .err .fatal 0 3 ∧
    obs (runTop (uncutDefs gCut) "a" "x!c") = .ok (some (utf8 "a║1[x!c]")) 3 0 := by
  decide +kernel

open Ex in
/-- The hypotheses of the theorems for `gCut`, and both parses of `x!b`. -/
example : gCut.wf = true ∧ gCut.Deep Term.PlainCut ∧ gCut.WrapUncut ∧
    gCut.compile regexp 50 = .ok (comp! gCut) ∧ Grammar.compile regexp 50 (uncutDefs gCut) = .ok (comp! (uncutDefs gCut)) ∧
    uncutDefs gCut ≠ gCut ∧
    obs (runTop gCut "a" "x!b") = .ok (some (utf8 "a║0[_[x, !, b[b]]]")) 3 0 ∧
    obs (runTop (uncutDefs gCut) "a" "x!b") = .ok (some (utf8 "a║0[_[x, !, b[b]]]")) 3 0 := by
  refine ⟨by decide +kernel, ?_, ?_, comp_ok (by decide +kernel), comp_ok (by decide +kernel), ?_, by decide +kernel, by decide +kernel⟩
  · simp [gCut, Grammar.Deep, deepDefs, Term.Deep, deepList, Term.PlainCut, Term.uncut, identFromTerm, someT]
  · intro w h
    simp [gCut] at h
    rcases h with ⟨h, _⟩ | ⟨h, _⟩ <;> exact absurd h (by decide)
  · simp [gCut, uncutDefs, Term.uncut, uncutList]

end Wbnf

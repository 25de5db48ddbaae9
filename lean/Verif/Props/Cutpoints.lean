import Verif.Lemmas.Cutpoints
import Verif.Examples.Kit
import Verif.Props.Prune

/-!
# C37: the cut points compiling a wbnf text puts in
-/

namespace Wbnf

variable {E : Engine} {X : Externals} {g : Grammar} {m m' : Nat} {ps ps' : Parsers} {r l : Str} {inp : Scanner}

/-- **C37** Nothing but cut points on literals is put in: without them it is the grammar as it was written. -/
theorem C37_erase (hg : g.Uncut) : uncutDefs (insertCutPoints g) = g ∧ (insertCutPoints g).Deep Term.CutsLiteral :=
  ⟨(uncutDefs_fix g).trans (uncutDefs_self g hg), onLitsDefs_fix g hg⟩

/-- **C37** A literal gets a cut point only if it occurs exactly once in the grammar. Partial: literals that occur in
look-aheads, in separators a list may start with, or repeatedly in a grammar in braces are miscounted (`C37_miscounts`). -/
theorem C37_only_unique_partial (hg : g.Uncut) (hl : g.Deep (Term.Counts l)) (h : l ∈ cutLitsDefs (insertCutPoints g)) :
    (litsDefs g).count l = 1 := by
  rw [insertCutPoints, cutLitsDefs_fix g hg, List.mem_filter] at h
  have := h.2
  simp only [uniqueString, decide_eq_true_eq] at this
  rw [← countLit_defs g hg hl, this]

/-- **C37** And every literal that occurs exactly once gets one, if it is not the default of a back reference. -/
theorem C37_all_unique_partial (hg : g.Uncut) (hl : g.Deep (Term.Counts l)) (hd : g.Deep (Term.NoDefault l))
    (h : (litsDefs g).count l = 1) : (cutLitsDefs (insertCutPoints g)).count l = 1 := by
  have hm : l ∈ reachedDefs g := litsDefs_reached g hl hd (List.count_pos_iff.1 (by omega))
  have hu : uniqueString g l = true := by simp [uniqueString, countLit_defs g hg hl, h]
  have hc : l ∈ cutLitsDefs (insertCutPoints g) := by
    rw [insertCutPoints, cutLitsDefs_fix g hg, List.mem_filter]
    exact ⟨hm, hu⟩
  have h1 := List.count_pos_iff.2 hc
  have h2 : (cutLitsDefs (insertCutPoints g)).count l ≤ (litsDefs g).count l := by
    rw [insertCutPoints, cutLitsDefs_fix g hg, List.count_filter hu]
    exact reachedDefs_count g
  omega

/-- **C37** A literal that occurs at least twice outside look-aheads and grammars in braces, or may start a list there
as its separator, never gets a cut point. -/
theorem C37_never_repeated (hg : g.Uncut) (h : 2 ≤ (openLitsDefs g).count l) : l ∉ cutLitsDefs (insertCutPoints g) := by
  intro hm
  rw [insertCutPoints, cutLitsDefs_fix g hg, List.mem_filter] at hm
  have := hm.2
  simp only [uniqueString, decide_eq_true_eq] at this
  have := openLitsDefs_le (l := l) g hg
  omega

/-- **C37** The cut points only prune: what the grammar with cut points parses, it parses without them to the same tree
and the same scanner. Wrapper definitions must not contain literals (`C37_wrapper`). -/
theorem C37_conservative (hg : g.Uncut) (hw : g.wf = true) (hr : g.WrapNoLits) (hs : g.Deep Term.WrapNoLits)
    (hc : (insertCutPoints g).compile E m = .ok ps) (hc' : g.compile E m' = .ok ps') (hX : X.Plain) {v : Tree} {i : Scanner}
    (h : ps.Yields E X r inp (.ok v i)) : ps'.Yields E X r inp (.ok v i) := by
  refine C13_prunes (g := insertCutPoints g) ?_ ?_ ?_ hc ?_ hX h (m' := m')
  · exact (wfDefs_fix g hg).trans hw
  · exact plainDefs_fix g hg hs
  · exact wrapUncut_fix hg hr
  · rw [(C37_erase hg).1]; exact hc'

/-! ## Examples and violations -/

namespace Ex

/-- `a -> "(" a ")" | "x" "+" "x";` -/
def gParen : Grammar := [(str "a", .oneof [.seq [.s (str "("), .rule (str "a"), .s (str ")")], .seq [.s (str "x"), .s (str "+"), .s (str "x")]])]
/-- `a -> "x":",",; b -> "x";`: a comma may end the list. -/
def gTrail : Grammar := [(str "a", .delim (.s (str "x")) (.s (str ",")) 0 false true), (str "b", .s (str "x"))]
/-- `a -> (?="x") b; b -> "x" "y" | /{xz};` -/
def gLookCut : Grammar := [(str "a", .seq [.look (.s (str "x")), .rule (str "b")]),
  (str "b", .oneof [.seq [.s (str "x"), .s (str "y")], .re (str "(xz)")])]
/-- `a -> "x" b { b -> "x" "y" | "x" "z"; };` -/
def gBraceCut : Grammar := [(str "a", .seq [.s (str "x"), .scope (.rule (str "b"))
  [(str "b", .oneof [.seq [.s (str "x"), .s (str "y")], .seq [.s (str "x"), .s (str "z")]])]])]
/-- `a -> (?="x") /{x}; .wrapRE -> "x" | /{ *()};`: the literal `x` is not to be wrapped. -/
def gWrapCut : Grammar := [(str ".wrapRE", .oneof [.s (str "x"), .re (str " *()")]), (str "a", .seq [.look (.s (str "x")), .re (str "x")])]

end Ex

open Ex

/-- The hypotheses: in `gParen`, `(`, `)` and `+` are unique and `x` is not. -/
example : gParen.Uncut ∧ (∀ l, gParen.Deep (Term.Counts l)) ∧ (∀ l, gParen.Deep (Term.NoDefault l)) ∧ gParen.wf = true ∧
    gParen.WrapNoLits ∧ gParen.Deep Term.WrapNoLits ∧ 2 ≤ (openLitsDefs gParen).count (str "x") ∧
    cutLitsDefs (insertCutPoints gParen) = [str "(", str ")", str "+"] ∧
    obs (runTop (insertCutPoints gParen) "a" "(x+x)") = obs (runTop gParen "a" "(x+x)") := by
  refine ⟨?_, fun l => ?_, fun l => ?_, by decide +kernel, ?_, ?_, by decide, by decide, by decide +kernel⟩
  · simp [gParen, Grammar.Uncut, Grammar.Deep, deepDefs, Term.Deep, deepList, Term.NotCut]
  · simp [gParen, Grammar.Deep, deepDefs, Term.Deep, deepList, Term.Counts]
  · simp [gParen, Grammar.Deep, deepDefs, Term.Deep, deepList, Term.NoDefault]
  · intro w hm
    simp [gParen] at hm
    exact absurd hm.1 (by decide)
  · simp [gParen, Grammar.Deep, deepDefs, Term.Deep, deepList, Term.WrapNoLits]

/-- **C37** Literals are miscounted: `x` occurs twice in `gLookCut`, once in a look-ahead, and three times in `gBraceCut`,
twice in braces; all occurrences outside look-aheads get a cut point. -/
theorem C37_miscounts : gLookCut.Uncut ∧ gBraceCut.Uncut ∧
    (litsDefs gLookCut).count (str "x") = 2 ∧ (cutLitsDefs (insertCutPoints gLookCut)).count (str "x") = 1 ∧
    (litsDefs gBraceCut).count (str "x") = 3 ∧ (cutLitsDefs (insertCutPoints gBraceCut)).count (str "x") = 3 := by
  refine ⟨?_, ?_, by decide, by decide, by decide, by decide⟩
  · simp [gLookCut, Grammar.Uncut, Grammar.Deep, deepDefs, Term.Deep, deepList, Term.NotCut]
  · simp [gBraceCut, Grammar.Uncut, Grammar.Deep, deepDefs, Term.Deep, deepList, Term.NotCut]

/-- **C37** The cut points change what is parsed, also where every literal is counted rightly: with a comma that occurs
once, the comma a list may end with is an error (`gTrail` on `x,`); `gLookCut` loses `xz` and `gBraceCut` loses `xxz`. -/
theorem C37_changes_language :
    obs (runTop gTrail "a" "x,") = .ok (some (utf8 "a║:[x, ,, {}]")) 2 0 ∧ obs (runTop (insertCutPoints gTrail) "a" "x,") = .err .fatal 1 1 ∧
    obs (runTop gLookCut "a" "xz") = .ok (some (utf8 "a[?=[x], b║1[xz]]")) 2 0 ∧ obs (runTop (insertCutPoints gLookCut) "a" "xz") = .err .fatal 0 2 ∧
    obs (runTop gBraceCut "a" "xxz") = .ok (some (utf8 "a[x, b║1[_[x, z]]]")) 3 0 ∧ obs (runTop (insertCutPoints gBraceCut) "a" "xxz") = .err .fatal 1 2 := by
  decide +kernel

/-- **C37** A cut point in the wrapper definition changes which literals are wrapped: ` x` is parsed only with it. -/
theorem C37_wrapper : obs (runTop gWrapCut "a" " x") = .err .parse 0 2 ∧
    obs (runTop (insertCutPoints gWrapCut) "a" " x") = .ok (some (utf8 "a[?=[x], x]")) 2 0 := by
  decide +kernel

end Wbnf

import Verif.Lemmas.Advance
import Verif.Examples.Kit

/-!
# C01, C05, C25: what a parse does to the scanner, and when `Parse` accepts

`Parsers.run` is the call of a rule's parser (terms.go:54), `Parsers.parse` is `Parsers.Parse`.
`Advances a b` (Spec/Basic): same source, same end, start of `b` within `a`.
-/

namespace Wbnf

variable {E : Engine} {X : Externals} {ρ : Nat → Nat} {n : Nat} {ps : Parsers} {r : Str} {inp : Scanner}

theorem run_left (hE : E.Sane) (hX : X.Sane) (hin : inp.InRange) :
    (ps.run E X ρ n r inp).Left (Advances inp) := by
  unfold Parsers.run
  split
  · trivial
  · exact parse_left hE hX _ _ _ _ _ _ _ hin

theorem Advances.text {a b : Scanner} (h : Advances a b) (ha : a.InRange) :
    ∃ eaten left, a.toStr = some (eaten ++ left) ∧ b.toStr = some left ∧
      (eaten.length : Int) = b.start - a.start := by
  have hb := h.inRange ha
  obtain ⟨src, i, m, rfl, hm⟩ := ha.elim
  obtain ⟨src', j, m', rfl, hm'⟩ := hb.elim
  obtain ⟨h1, h2, h3, h4⟩ := h
  simp at h1 h2 h3; subst h1
  rw [Scanner.toStr_mk hm, Scanner.toStr_mk hm']
  refine ⟨bytesAt src'.origin i (j - i), bytesAt src'.origin j m', ?_, rfl, ?_⟩
  · have e : m = (j - i) + m' := by omega
    rw [e, bytesAt_append]
    congr 3; omega
  · rw [bytesAt_length (by omega)]; simp; omega

/-- **C01** A rule that succeeds consumes a prefix of the scanner's text: the scanner left behind is
over the same source, has the same end, and starts inside; the text before is split in what was
consumed and what is left. -/
theorem C01_consumes_prefix (hE : E.Sane) (hX : X.Sane) (hin : inp.InRange) {v rest k}
    (h : ps.run E X ρ n r inp = .ok v rest k) :
    rest.src = inp.src ∧ inp.start ≤ rest.start ∧ rest.start + rest.len = inp.start + inp.len ∧
    0 ≤ rest.len ∧
    ∃ eaten left, inp.toStr = some (eaten ++ left) ∧ rest.toStr = some left ∧
      (eaten.length : Int) = rest.start - inp.start := by
  have := run_left (n := n) (ps := ps) (r := r) (ρ := ρ) hE hX hin
  rw [h] at this
  have hadv : Advances inp rest := this
  exact ⟨hadv.src, hadv.start, hadv.stop, hadv.nonneg, hadv.text hin⟩

/-- **C25** After a failure the scanner is over the same source, has the same end, and starts between
where the parse began and the end of the text. -/
theorem C25_failure_scanner (hE : E.Sane) (hX : X.Sane) (hin : inp.InRange) {e rest}
    (h : ps.parse E X ρ n r inp = .err e rest) :
    rest.src = inp.src ∧ inp.start ≤ rest.start ∧ rest.start ≤ inp.start + inp.len ∧
    rest.start + rest.len = inp.start + inp.len := by
  have hl := run_left (n := n) (ps := ps) (r := r) (ρ := ρ) hE hX hin
  unfold Parsers.parse at h
  have hadv : Advances inp rest := by
    cases hr : ps.run E X ρ n r inp with
    | ok v i k =>
      rw [hr] at h hl
      simp only [Res.top] at h
      split at h <;> simp at h
      obtain ⟨_, rfl⟩ := h; exact hl
    | err e' i k =>
      rw [hr] at h hl
      simp [Res.top] at h
      obtain ⟨_, rfl⟩ := h; exact hl
    | panic => rw [hr] at h; simp [Res.top] at h
    | oof => rw [hr] at h; simp [Res.top] at h
  refine ⟨hadv.src, hadv.start, ?_, hadv.stop⟩
  have := hadv.stop; have := hadv.nonneg; omega

/-- **C05** `Parse` returns a tree exactly when the rule succeeds and leaves no text. -/
theorem C05_accepts_iff {v rest} :
    ps.parse E X ρ n r inp = .ok v rest ↔
      (∃ k, ps.run E X ρ n r inp = .ok v rest k) ∧ rest.toStr = some [] := by
  unfold Parsers.parse
  cases ps.run E X ρ n r inp with
  | ok v' i k =>
    simp only [Res.top, Res.ok.injEq]
    split
    · rename_i hs; simp; rintro rfl rfl; simp [hs]
    · rename_i hs; simp; rintro _ rfl; exact hs
    · rename_i hs; simp; rintro rfl rfl; simp [hs]
  | err e i k => simp [Res.top]
  | panic => simp [Res.top]
  | oof => simp [Res.top]

/-- **C05** When the rule succeeds but leaves text, the error holds the tree built so far and the
residue, which is the unread suffix of the text. -/
theorem C05_unconsumed (hE : E.Sane) (hX : X.Sane) (hin : inp.InRange) {v rest k}
    (h : ps.run E X ρ n r inp = .ok v rest k) (hne : rest.toStr ≠ some []) :
    ps.parse E X ρ n r inp = .err (.unconsumed v rest) rest ∧
    ∃ eaten left, left ≠ [] ∧ inp.toStr = some (eaten ++ left) ∧ rest.toStr = some left ∧
      (eaten.length : Int) = rest.start - inp.start := by
  obtain ⟨_, _, _, _, eaten, left, h1, h2, h3⟩ := C01_consumes_prefix hE hX hin h
  have hl : left ≠ [] := fun h0 => hne (by rw [h2, h0])
  refine ⟨?_, eaten, left, hl, h1, h2, h3⟩
  unfold Parsers.parse
  rw [h]
  simp only [Res.top, h2]
  cases left with
  | nil => simp at hl
  | cons => rfl

/-- **C05** When the rule fails, `Parse` returns that error and no tree. -/
theorem C05_rejects {e rest k} (h : ps.run E X ρ n r inp = .err e rest k) :
    ps.parse E X ρ n r inp = .err e rest := by
  unfold Parsers.parse; rw [h]; rfl

/-- **C05** `Parse` panics only if the rule's parser does. -/
theorem C05_no_new_panic (hE : E.Sane) (hX : X.Sane) (hin : inp.InRange)
    (h : ps.parse E X ρ n r inp = .panic) : ps.run E X ρ n r inp = .panic := by
  cases hr : ps.run E X ρ n r inp with
  | ok v i k =>
    obtain ⟨_, _, _, _, eaten, left, h1, h2, h3⟩ := C01_consumes_prefix hE hX hin hr
    unfold Parsers.parse at h
    rw [hr] at h
    simp only [Res.top, h2] at h
    cases left <;> simp at h
  | err e i k => unfold Parsers.parse at h; rw [hr] at h; simp [Res.top] at h
  | panic => rfl
  | oof => unfold Parsers.parse at h; rw [hr] at h; simp [Res.top] at h

/-! ## The hypotheses are met -/

theorem sane_noExternals : noExternals.Sane :=
  ⟨fun _ _ h => by simp [noExternals] at h, fun _ h => by simp [noExternals] at h⟩

open Ex in
/-- An expression followed by junk: the parse succeeds, consumes five bytes and leaves two, and
`Parse` reports them. The scanner starts in the middle of a longer source. -/
example :
    let inp : Scanner := ⟨some ⟨str "xx1+2*3;;yy", []⟩, 2, 7⟩
    inp.InRange ∧
    obsR ((comp! gExpr).run regexp noExternals ρ0 300 (str "expr") inp) =
      .ok (some (utf8 "expr║:[expr@1║:[expr@2[?[], expr@3║0[1]]], +, expr@1║:[expr@2[?[], expr@3║0[2]], *, expr@2[?[], expr@3║0[3]]]]")) 7 2 ∧
    obs ((comp! gExpr).parse regexp noExternals ρ0 300 (str "expr") inp) = .err .unconsumed 7 2 := by
  refine ⟨⟨_, rfl, by decide, by decide, by decide +kernel⟩, by decide +kernel, by decide +kernel⟩

open Ex in
/-- A whole text, and a failing parse: the scanner is left where the back reference should start. -/
example : obs (runTop gRef "a" "xy,xy") = .ok (some (utf8 "a[?=[x], n[|║0[x], |║1[y]], ,, n[_[x], _[y]]]")) 5 0 ∧
    obs (runTop gRef "a" "xy,xx") = .err .parse 3 2 := by
  constructor <;> decide +kernel

end Wbnf

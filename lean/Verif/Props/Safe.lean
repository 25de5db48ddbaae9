import Verif.Lemmas.Safe
import Verif.Lemmas.Compiles
import Verif.Lemmas.Parts
import Verif.Props.Consume
import Verif.Examples.Quote
import Verif.Lemmas.DecEq

/-!
# C24: when compiling and parsing cannot panic

Specifications: `Grammar.Compilable` (Spec/Compiles), `Grammar.wf` (Spec/WellFormed), `Closed`,
`LeafSafe`, `NoRef`, `RefsSafe` (Spec/Safe).
-/

namespace Wbnf

variable {E : Engine} {X : Externals} {g : Grammar} {m : Nat} {ps : Parsers} {ρ : Nat → Nat} {n : Nat}
  {r : Str} {inp : Scanner}

/-- **C24** Compiling succeeds exactly for the grammars whose stacks can be resolved, whose regexps
(with the wrapper spliced in) are valid and whose aliases lead to a definition. -/
theorem C24_compile_iff : (∃ N ps, ∀ n, N ≤ n → g.compile E n = .ok ps) ↔ g.Compilable E := compile_iff

/-- The safety hypotheses of C24 for a rule, with or without back references. -/
theorem safeTerm_of {t : Term} {Γ} (hcl : Closed Γ t) (hp : PatternsSatisfy (LeafSafe E) Γ t) {x}
    (hr : NoRef Γ t ∨ RefsSafe E Γ t x) : ∃ refs, SafeTerm E refs Γ t ∧ (refs = true → RefsSafe E Γ t x) := by
  rcases hr with hr | hr
  · refine ⟨false, fun Γ' t' h => ⟨fun r e => hcl Γ' r (e ▸ h), fun p hm => hp Γ' t' p h hm,
      fun _ x d e => hr Γ' x d (e ▸ h), by simp⟩, by simp⟩
  · refine ⟨true, fun Γ' t' h => ⟨fun r e => hcl Γ' r (e ▸ h), fun p hm => hp Γ' t' p h hm, by simp,
      fun _ => ⟨⟨fun p hm => hr.groups Γ' t' p h hm, by simp, fun _ x e => hr.noExt Γ' x (e ▸ h)⟩, ?_,
        fun x d e => hr.default Γ' x d (e ▸ h)⟩⟩, fun _ => hr⟩
    exact ⟨fun x e => hr.noExt Γ' x (e ▸ h), fun t'' sep a cs ce e => hr.noEnds Γ' t'' sep a cs ce (e ▸ h)⟩

/-- **C24** Parsing does not panic: if every rule reference resolves, every regexp used has at most one
group besides the leaf's own, and – in case there are back references – the values they may refer to can
be matched again (`RefsSafe`), then no run panics, whatever the text, the random tokens and the fuel. -/
theorem C24_no_panic (hE : E.Sane) (hX : X.Sane) (hesc : X.esc = none) (hg : g.wf = true)
    (hc : g.compile E m = .ok ps) (hin : inp.InRange) {x : Str} (hx : inp.toStr = some x)
    (hcl : Closed [ps.grammar] (.rule r)) (hp : PatternsSatisfy (LeafSafe E) [ps.grammar] (.rule r))
    (hr : NoRef [ps.grammar] (.rule r) ∨ RefsSafe E [ps.grammar] (.rule r) x) :
    ps.parse E X ρ n r inp ≠ .panic := by
  obtain ⟨refs, hs, hrs⟩ := safeTerm_of hcl hp hr
  have htext : TextOK E refs inp := by
    intro h s hs
    have hsr := hs.inRange hin
    obtain ⟨src, i, m, rfl, hm⟩ := hin.elim
    obtain ⟨src', j, m', rfl, hm'⟩ := hsr.elim
    obtain ⟨h1, h2, h3, h4⟩ := hs
    simp at h1 h2 h4; subst h1
    rw [Scanner.toStr_mk hm] at hx
    simp at hx; subst hx
    refine ⟨_, Scanner.toStr_mk hm', (hrs h).text (bytesAt src'.origin i (j - i)) _
      (bytesAt src'.origin (j + m') (m - (j - i) - m')) ?_⟩
    have e : m = (j - i) + m' + (m - (j - i) - m') := by omega
    have e1 : i + (j - i) = j := by omega
    have e2 : i + ((j - i) + m') = j + m' := by omega
    conv => lhs; rw [e, bytesAt_append, bytesAt_append, e1, e2]
  have hrun : ps.run E X ρ n r inp ≠ .panic := by
    rw [run_link hg hc]
    exact parse_safe hE hX hesc hin htext (n + 1) 1 [ps.grammar] [ps.parsers] [] (.rule r) (.rule r) .init inp 0
      (compile_env hg hc) rfl (compileTerm_rule ..) hs (.refl hin) (fun _ x w h => by simp [Scope.init, lookup] at h)
  unfold Parsers.parse
  cases h : ps.run E X ρ n r inp with
  | ok v i k =>
    have hl := run_left (n := n) (ps := ps) (r := r) (ρ := ρ) hE hX hin
    rw [h] at hl
    obtain ⟨_, left, _, hi, _⟩ := Advances.text hl hin
    simp only [Res.top, hi]
    cases left <;> simp
  | panic => exact absurd h hrun
  | _ => simp [Res.top]

/-! ## The hypotheses are met -/

namespace Ex

/-- A check of the hypotheses of C24 for grammars without wrapper, external references and grammars in
braces, and with the example engine. -/
def safeLeaf (g : Grammar) : Term → Bool
  | .s _ => true
  | .re l => Regex.oneOrTwo (anchor ++ (str "(" ++ l ++ str ")")) &&
      Regex.setsLast (anchor ++ (str "(" ++ l ++ str ")"))
  | .rule r => match lookup r g with
    | some (.rule _) => false
    | some _ => true
    | none => false
  | .ref _ (some d) => d.quotable regexp
  | .ext _ => false
  | .delim _ _ _ cs ce => !cs && !ce
  | _ => true

theorem safe_check {g : Grammar} {r : Str} (hw : lookup wrapRE g = none)
    (hg : g.allParts (safeLeaf g) = true) (hr : safeLeaf g (.rule r) = true) (x : Str) :
    Closed [g] (.rule r) ∧ PatternsSatisfy (LeafSafe regexp) [g] (.rule r) ∧ RefsSafe regexp [g] (.rule r) x := by
  have part : ∀ {Γ' t'}, PartOf [g] (.rule r) Γ' t' → Γ' = [g] ∧ safeLeaf g t' = true := fun h =>
    partOf_check hg h rfl (by simpa [Term.allParts] using hr)
  have plain : ∀ {text group p}, LeafPattern (wrapOf [g]) text group p → p = group := by
    intro text group p hp
    cases hp with
    | plain => rfl
    | exempt h => simp [wrapOf, hw] at h
    | listed h => simp [wrapOf, hw] at h
    | wrapped h => simp [wrapOf, hw] at h
  have lit : ∀ l, LeafSafe regexp (anchor ++ (str "(" ++ quoteMeta l ++ str ")")) ∧
      ReportsGroup regexp (anchor ++ (str "(" ++ quoteMeta l ++ str ")")) := by
    intro l
    have h := Regex.find_lit l
    refine ⟨fun x locs hf => ?_, fun x locs hf => ?_⟩
    · have hf' := (h x).symm.trans hf
      split at hf'
      · simp at hf'; exact ⟨_, _, Or.inl hf'.symm⟩
      · simp at hf'
    · have hf' := (h x).symm.trans hf
      split at hf'
      · simp at hf'; subst hf'; simp
      · simp at hf'
  have both : ∀ {Γ' t' p}, PartOf [g] (.rule r) Γ' t' → Matches Γ' t' p →
      LeafSafe regexp (anchor ++ p) ∧ ReportsGroup regexp (anchor ++ p) := by
    intro Γ' t' p h hm
    obtain ⟨rfl, hq⟩ := part h
    cases hm with
    | @lit l _ hp => rw [plain hp]; exact lit l
    | @regexp l _ hp =>
      rw [plain hp]
      simp only [safeLeaf, Bool.and_eq_true] at hq
      exact ⟨Regex.leafSafe hq.1, Regex.reportsGroup hq.2⟩
    | ref l => exact lit l
  refine ⟨fun Γ' r' h => ?_, fun Γ' t' p h hm => (both h hm).1, ?_⟩
  · obtain ⟨rfl, hq⟩ := part h
    simp only [safeLeaf] at hq
    cases hl : lookup r' g with
    | none => simp [hl] at hq
    | some t => exact ⟨[g], t, .here (.here hl fun r'' e => by subst e; simp [hl] at hq)⟩
  · exact {
      noExt := fun Γ' x h => by have := (part h).2; simp [safeLeaf] at this
      noEnds := fun Γ' t' sep a cs ce h => by have := (part h).2; simpa [safeLeaf] using this
      groups := fun Γ' t' p h hm => (both h hm).2
      text := fun a l b _ => Regex.valid_lit l
      default := fun Γ' i d h => (part h).2 }

theorem newScanner_inRange (x : Str) : (newScanner x).InRange :=
  ⟨⟨x, []⟩, rfl, by simp [newScanner], by simp [newScanner], by simp [newScanner]⟩

theorem newScanner_toStr (x : Str) : (newScanner x).toStr = some x := by
  have := Scanner.toStr_mk (src := ⟨x, []⟩) (i := 0) (n := x.length) (by simp)
  simpa [newScanner, bytesAt] using this

/-- The hypotheses of C24 hold of the expression grammar (a stack), of the grammar with a cut point and
of the grammar with a back reference – for every text. -/
example (x : Str) :
    (Closed [(comp! gRef).grammar] (.rule (str "a")) ∧
      PatternsSatisfy (LeafSafe regexp) [(comp! gRef).grammar] (.rule (str "a")) ∧
      RefsSafe regexp [(comp! gRef).grammar] (.rule (str "a")) x) ∧
    (Closed [(comp! gExpr).grammar] (.rule (str "expr")) ∧
      PatternsSatisfy (LeafSafe regexp) [(comp! gExpr).grammar] (.rule (str "expr")) ∧
      RefsSafe regexp [(comp! gExpr).grammar] (.rule (str "expr")) x) :=
  ⟨safe_check (by decide +kernel) (by decide +kernel) (by decide +kernel) x,
    safe_check (by decide +kernel) (by decide +kernel) (by decide +kernel) x⟩

/-- So parsing with it never panics. -/
example (ρ : Nat → Nat) (n : Nat) (x : Str) :
    (comp! gRef).parse regexp noExternals ρ n (str "a") (newScanner x) ≠ .panic := by
  obtain ⟨h1, h2, h3⟩ := safe_check (g := (comp! gRef).grammar) (r := str "a") (by decide +kernel)
    (by decide +kernel) (by decide +kernel) x
  exact C24_no_panic regexp_sane ⟨fun _ _ h => by simp [noExternals] at h, fun _ h => by simp [noExternals] at h⟩
    rfl (by decide) (comp_ok (by decide +kernel)) (newScanner_inRange x) (newScanner_toStr x) h1 h2 (Or.inr h3)

/-- It compiles, so it meets the condition of `C24_compile_iff`. -/
example : gRef.Compilable regexp := C24_compile_iff.1 ⟨50, comp! gRef, fun n hn => by
  have h : Grammar.compile regexp 50 gRef = .ok (comp! gRef) := comp_ok (by decide +kernel)
  rw [compile_mono_le hn (by rw [h]; simp), h]⟩

/-! ## What panics -/

/-- What comes of compiling and parsing. -/
inductive Came
  | compiles (o : Obs)
  | stops (s : Stop)
  deriving DecidableEq

def came (g : Grammar) (r s : String) : Came :=
  match comp g with
  | .ok ps => .compiles (obs (ps.parse regexp noExternals ρ0 300 (str r) (newScanner (str s))))
  | .error e => .stops e

end Ex

open Ex in
/-- **C24** Each condition is needed. A reference to a missing rule panics when it is reached; a bare
reference under a name (`a -> x=b;`) and a cut point around a bare reference panic when reached; a regexp
with two groups of its own panics when it matches; a back reference to a delimited list that ends with a
separator panics; an alias to a missing rule, a wrapper that is not a regexp and a stack inside a layer
panic while compiling. -/
theorem C24_panics :
    came [(str "a", .seq [.s (str "x"), .rule (str "b")])] "a" "x" = .compiles .panic ∧
    came [(str "a", .named (str "x") (.rule (str "b"))), (str "b", .s (str "y"))] "a" "y" = .compiles .panic ∧
    came [(str "a", .cut (.rule (str "b"))), (str "b", .s (str "y"))] "a" "y" = .compiles .panic ∧
    came [(str "a", .re (str "(x)(y)"))] "a" "xy" = .compiles .panic ∧
    came [(str "a", .seq [.named (str "l") (.delim (.s (str "x")) (.s (str ",")) 0 false true),
      .ref (str "l") none])] "a" "x,x," = .compiles .panic ∧
    came [(str "a", .rule (str "b"))] "a" "y" = .stops .panic ∧
    came [(str "a", .s (str "y")), (wrapRE, .s (str "y"))] "a" "y" = .stops .panic ∧
    came [(str "a", .stack [.stack [.s (str "y")]])] "a" "y" = .stops .panic := by
  decide +kernel

/-- **C24** A circle of aliases never stops compiling. -/
theorem C24_alias_circle (n : Nat) :
    Grammar.compile regexp n [(str "a", .rule (str "b")), (str "b", .rule (str "a"))] = .error .oof := by
  have key : ∀ n, followAlias [(str "a", .rule (str "b")), (str "b", .rule (str "a"))] n (.rule (str "a")) = .error .oof ∧
      followAlias [(str "a", .rule (str "b")), (str "b", .rule (str "a"))] n (.rule (str "b")) = .error .oof := by
    intro n
    induction n with
    | zero => exact ⟨rfl, rfl⟩
    | succ n ih => exact ⟨ih.2, ih.1⟩
  have : prepare [(str "a", .rule (str "b")), (str "b", .rule (str "a"))] =
      .ok [(str "a", .rule (str "b")), (str "b", .rule (str "a"))] := rfl
  unfold Grammar.compile
  rw [this]
  simp only [Except.bind, compileRules, (key n).2]

end Wbnf

import Verif.Lemmas.Finite
import Verif.Lemmas.Terminates
import Verif.Lemmas.PegAcc
import Verif.Lemmas.Yields
import Verif.Props.Safe
import Verif.Props.Semantics
import Verif.Examples.Consumes

/-!
# C15, C16: when parsing terminates

Specifications: `NoLeftRecursion`, `NoEmptyLoop` (Spec/Terminates), `Needs`, `Reaches` (Spec/Reach),
`Parsers.Yields` (Spec/Top).
-/

namespace Wbnf

variable {E : Engine} {X : Externals} {g : Grammar} {m : Nat} {ps : Parsers} {r : Str} {inp : Scanner}

/-- **C15** If no term used by rule `r` can come back to itself without consuming anything, and no
repetition without upper bound repeats something that can be empty, then parsing with `r` stops on every
text: with enough fuel the model's parser gives a result, whatever random tokens are drawn. -/
theorem C15_terminates (hE : E.Sane) (hX : X.Sane) (hesc : X.esc = none) (hg : g.wf = true)
    (hc : g.compile E m = .ok ps) (hin : inp.InRange) (hl : NoLeftRecursion E X ([ps.grammar], .rule r))
    (hloop : NoEmptyLoop E X ([ps.grammar], .rule r)) (ρ : Nat → Nat) :
    ∃ N, ∀ n, N ≤ n → ps.parse E X ρ n r inp ≠ .oof := by
  obtain ⟨len, hlen⟩ := (show ∃ k : Nat, inp.len = k from by obtain ⟨_, _, _, h, _⟩ := hin; exact ⟨inp.len.toNat, by omega⟩)
  obtain ⟨N, res, hres, hN⟩ := (halts_at (ρ := ρ) hE hX hesc (starts_wf (finite_places hc r) hl) hloop len _ .self
    1 [ps.parsers] [] (.rule r) .init inp 0 (compile_env hg hc) rfl (compileTerm_rule ..) hin hlen).const
  refine ⟨N, fun n hn => ?_⟩
  have := hN (n + 1) (by omega)
  unfold Parsers.parse
  rw [run_link hg hc]
  simp only [slot] at this
  rw [this]
  cases res with
  | oof => exact absurd rfl hres
  | ok v i k =>
    simp only [Res.top]
    split <;> simp
  | _ => simp [Res.top]

/-- The parser returns neither a tree nor an error, however long it runs and whatever distinct tokens
it draws. -/
def Parsers.NeverReturns (E : Engine) (X : Externals) (ps : Parsers) (r : Str) (inp : Scanner) : Prop :=
  ∀ ρ, (∀ K, DistinctDraws X ρ K) → ∀ n, ps.parse E X ρ n r inp = .oof ∨ ps.parse E X ρ n r inp = .panic

theorem never_of_not_acc (hg : g.wf = true) (hc : g.compile E m = .ok ps) (hX : X.Plain)
    (h : ¬ Acc (fun b a => Needs E X a b) (.term [ps.grammar] [] (.rule r) [] inp)) :
    ps.NeverReturns E X r inp := by
  intro ρ hd n
  unfold Parsers.parse
  have hs : ∀ o, (ps.run E X ρ n r inp).out none ≠ some o := fun o ho =>
    h (run_sound hg hc hX (hd _) ho).acc
  cases hr : ps.run E X ρ n r inp with
  | oof => exact Or.inl rfl
  | panic => exact Or.inr rfl
  | ok v i k => exact absurd (by rw [hr]; rfl) (hs (.ok v i))
  | err e i k =>
    cases he : e.isFatal with
    | true => exact absurd (out_none_abort.2 ⟨e, i, k, hr, he⟩) (hs _)
    | false => exact absurd (out_none_fail.2 ⟨e, i, k, hr, he⟩) (hs _)

theorem not_acc_of_again {α} {R : α → α → Prop} {P : α → Prop} (h : ∀ a, P a → ∃ b, P b ∧ R b a) {a} (ha : P a) :
    ¬ Acc R a := fun hacc => by
  induction hacc with
  | intro x _ ih => obtain ⟨b, hb, hr⟩ := h x ha; exact ih b hr hb

/-- The goal is reached in one step or more. -/
def Leads (E : Engine) (X : Externals) (G G' : Goal) : Prop := ∃ G'', Needs E X G G'' ∧ Reaches E X G'' G'

/-- **C16** A left-recursive rule never returns: if matching rule `r` at `inp` leads to matching `r` at the
same place again, whatever is bound. -/
theorem C16_left_recursion (hg : g.wf = true) (hc : g.compile E m = .ok ps) (hX : X.Plain)
    (hrec : ∀ rule vals, ∃ rule' vals',
      Leads E X (.term [ps.grammar] rule (.rule r) vals inp) (.term [ps.grammar] rule' (.rule r) vals' inp)) :
    ps.NeverReturns E X r inp := by
  refine never_of_not_acc hg hc hX fun hacc => ?_
  have key : ∀ G, Acc (fun b a => Needs E X a b) G → ∀ rule vals,
      ¬ Reaches E X G (.term [ps.grammar] rule (.rule r) vals inp) := by
    intro G ha
    induction ha with
    | intro G hall ih =>
      intro rule vals hr
      have hG : Acc (fun b a => Needs E X a b) G := ⟨_, hall⟩
      cases hr with
      | refl =>
        obtain ⟨rule', vals', G'', hn, hr'⟩ := hrec rule vals
        exact ih G'' hn rule' vals' hr'
      | step hn hr' => exact ih _ hn rule vals hr'
  exact key _ hacc _ _ .refl

/-- **C16** A repetition without upper bound never returns once what it repeats matches the empty text: if
matching rule `r` leads to a repetition of `t` at `i` and `t` matches there without moving on. -/
theorem C16_empty_loop (hg : g.wf = true) (hc : g.compile E m = .ok ps) (hX : X.Plain) {Γ t vals i v}
    (hreach : Reaches E X (.term [ps.grammar] [] (.rule r) [] inp) (.reps Γ t vals none i))
    (hempty : Peg E X (.term Γ [] t vals i) (.ok v i)) :
    ps.NeverReturns E X r inp := by
  refine never_of_not_acc hg hc hX fun hacc => ?_
  exact not_acc_of_again (P := fun G => G = .reps Γ t vals none i)
    (fun G e => ⟨G, e, by subst e; exact .again (by simp) hempty⟩) rfl (hreach.acc hacc)

/-- **C16** The same in terms of the parser alone: `r -> a{lo,}` never returns where `a` matches the empty
text. -/
theorem C16_empty_repetition (hg : g.wf = true) (hc : g.compile E m = .ok ps) (hX : X.Plain) {a : Str} {lo : Nat}
    (hr : lookup r ps.grammar = some (.quant (.rule a) lo 0)) {v}
    (ha : ps.Yields E X a inp (.ok v inp)) : ps.NeverReturns E X r inp := by
  have h1 : Needs E X (.term [ps.grammar] [] (.rule r) [] inp)
      (.term [ps.grammar] r (.quant (.rule a) lo 0) [] inp) := .rule (.here (.here hr (by simp)))
  have h2 : Needs E X (.term [ps.grammar] r (.quant (.rule a) lo 0) [] inp)
      (.reps [ps.grammar] (.rule a) [] none inp) := .quant
  exact C16_empty_loop hg hc hX (.step h1 (.step h2 .refl)) ((yields_iff hg hc hX).1 ha)

/-- With the hypotheses of C24 nothing is left but to run forever. -/
theorem C16_forever (h : ps.NeverReturns E X r inp) {ρ : Nat → Nat} (hd : ∀ K, DistinctDraws X ρ K)
    (hsafe : ∀ n, ps.parse E X ρ n r inp ≠ .panic) (n : Nat) : ps.parse E X ρ n r inp = .oof :=
  (h ρ hd n).resolve_right (hsafe n)

/-! ## The hypotheses are met -/

namespace Ex

theorem sane_noExternals : noExternals.Sane :=
  ⟨fun _ _ h => by simp [noExternals] at h, fun _ h => by simp [noExternals] at h⟩

/-- The hypotheses of C15 hold of the expression grammar and of the grammar with look-ahead and back
reference: every rule of the first consumes something, and the rules start with later layers only. -/
example (r : Str) : NoLeftRecursion regexp noExternals ([(comp! gExpr).grammar], .rule r) ∧
    NoEmptyLoop regexp noExternals ([(comp! gExpr).grammar], .rule r) :=
  rankCheck_sound (leaf := Regex.eats) (d := fun _ => true) (rank := fun r => 10 - r.length - (r.getLast?.getD 0).toNat % 4)
    regexp_sane (fun _ => Regex.neverEmpty) (by decide +kernel) r

example (ρ : Nat → Nat) (x : Str) :
    ∃ N, ∀ n, N ≤ n → (comp! gRef).parse regexp noExternals ρ n (str "a") (newScanner x) ≠ .oof := by
  obtain ⟨h1, h2⟩ := rankCheck_sound (X := noExternals) (leaf := Regex.eats) (d := fun _ => true) (rank := fun _ => 0)
    (g := (comp! gRef).grammar) regexp_sane (fun _ => Regex.neverEmpty) (by decide +kernel) (str "a")
  exact C15_terminates regexp_sane sane_noExternals rfl (by decide) (comp_ok (by decide +kernel))
    (newScanner_inRange x) h1 h2 ρ

/-- `a -> a "x" | "x";` -/
def gLeft : Grammar := [(str "a", .oneof [.seq [.rule (str "a"), .s (str "x")], .s (str "x")])]

/-- `a -> b*; b -> "x"?;` -/
def gLoop : Grammar := [(str "a", .quant (.rule (str "b")) 0 0), (str "b", .quant (.s (str "x")) 0 1)]

/-- Direct left recursion never returns, on any text. -/
example (inp : Scanner) : (comp! gLeft).NeverReturns regexp noExternals (str "a") inp := by
  refine C16_left_recursion (g := gLeft) (by decide) (comp_ok (by decide +kernel)) plain_noExternals fun rule vals =>
    ⟨[], vals, _, .rule (.here (.here (t := .oneof [.seq [.rule (str "a"), .s (str "x")], .s (str "x")])
      (by decide +kernel) (by simp))), ?_⟩
  exact .step .oneof (.step .alt (.step .seq (.step .item .refl)))

/-- Left recursion hidden in a repetition, a delimited list or a look-ahead: `a -> a+;`, `a -> a:",";`,
`a -> (?=a) "x";`. -/
def gPlus : Grammar := [(str "a", someT (.rule (str "a")))]
def gDelim : Grammar := [(str "a", .delim (.rule (str "a")) (.s (str ",")) 0 false false)]
def gAhead : Grammar := [(str "a", .seq [.look (.rule (str "a")), .s (str "x")])]

example (inp : Scanner) : (comp! gPlus).NeverReturns regexp noExternals (str "a") inp ∧
    (comp! gDelim).NeverReturns regexp noExternals (str "a") inp ∧
    (comp! gAhead).NeverReturns regexp noExternals (str "a") inp := by
  refine ⟨?_, ?_, ?_⟩
  · refine C16_left_recursion (g := gPlus) (by decide) (comp_ok (by decide +kernel)) plain_noExternals fun rule vals =>
      ⟨[], vals, _, .rule (.here (.here (t := .quant (.rule (str "a")) 1 0) (by decide +kernel) (by simp))), ?_⟩
    exact .step .quant (.step (.rep (by simp)) .refl)
  · refine C16_left_recursion (g := gDelim) (by decide) (comp_ok (by decide +kernel)) plain_noExternals fun rule vals =>
      ⟨[], vals, _, .rule (.here (.here (t := .delim (.rule (str "a")) (.s (str ",")) 0 false false)
        (by decide +kernel) (by simp))), ?_⟩
    exact .step .delim (.step .seq (.step .item (.step .seq (.step .item .refl))))
  · refine C16_left_recursion (g := gAhead) (by decide) (comp_ok (by decide +kernel)) plain_noExternals fun rule vals =>
      ⟨[], vals, _, .rule (.here (.here (t := .seq [.look (.rule (str "a")), .s (str "x")])
        (by decide +kernel) (by simp))), ?_⟩
    exact .step .seq (.step .item (.step .look .refl))

/-- `a -> b*; b -> "x"?;` never returns on a text that does not start with `x`. -/
example (inp : Scanner) {t : Str} (ht : inp.slice = some t) (hx : ¬ str "x" <+: t) :
    (comp! gLoop).NeverReturns regexp noExternals (str "a") inp := by
  have hc : gLoop.compile regexp 50 = .ok (comp! gLoop) := comp_ok (by decide +kernel)
  have hb : Peg regexp noExternals (.term [(comp! gLoop).grammar] [] (.rule (str "b")) [] inp)
      (.ok (.node (str "b") .nil []) inp) := by
    refine .rule (.here (.here (t := .quant (.s (str "x")) 0 1) (by decide +kernel) (by simp))) ?_
    have hw : wrapOf [(comp! gLoop).grammar] = none := by decide +kernel
    refine .quantOk (vs := []) (.repsStop (by simp) (.lit (by rw [hw]; exact .plain rfl) ?_)) (by simp)
    exact .fail ht (by have := Regex.find_lit (str "x") t; rw [if_neg hx] at this; exact this)
  exact C16_empty_repetition (g := gLoop) (by decide) hc plain_noExternals (lo := 0) (by decide +kernel)
    ((yields_iff (by decide) hc plain_noExternals).2 hb)

/-- Distinct tokens can be drawn forever, so `NeverReturns` is about something; and with C24 the parser of
`a -> a "x" | "x";` runs forever. -/
example (x : Str) (n : Nat) (h : (comp! gLeft).NeverReturns regexp noExternals (str "a") (newScanner x)) :
    (comp! gLeft).parse regexp noExternals ρ0 n (str "a") (newScanner x) = .oof := by
  obtain ⟨h1, h2, h3⟩ := safe_check (g := (comp! gLeft).grammar) (r := str "a") (by decide +kernel)
    (by decide +kernel) (by decide +kernel) x
  exact C16_forever h distinct_ρ0 (fun n => C24_no_panic regexp_sane sane_noExternals rfl (by decide)
    (comp_ok (by decide +kernel)) (newScanner_inRange x) (newScanner_toStr x) h1 h2 (Or.inr h3)) n

end Ex

end Wbnf

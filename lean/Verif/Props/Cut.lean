import Verif.Spec.Reach
import Verif.Props.Semantics

/-!
# C14: cut points commit
-/

namespace Wbnf

variable {E : Engine} {X : Externals}

/-- A final failure is final for whatever needs it. -/
theorem Needs.abort {G G'} (h : Needs E X G G') (ha : Peg E X G' .abort) : Peg E X G .abort := by
  cases h with
  | rule hr => exact .rule hr ha
  | named => exact .named ha
  | cut => exact .cut ha
  | scope h => exact .scope h ha
  | seq => exact .seqNo ha (Or.inr rfl)
  | item => exact .itemsAbort ha
  | later h1 h2 => exact .itemsLater h1 h2 ha (Or.inr rfl)
  | oneof => exact .oneof ha
  | alt => exact .altsAbort ha
  | next h => exact .altsNext h ha
  | quant => exact .quantAbort ha
  | rep h => exact .repsAbort h ha
  | again h h1 => exact .repsLater h h1 ha
  | look => exact .lookNo ha (Or.inr rfl)
  | delim => exact .delimNo ha (Or.inr rfl)
  | ref h1 h2 h3 => exact .refNo h1 h2 h3 ha (Or.inr rfl)
  | default h1 h2 => exact .refDefault h1 h2 ha

theorem Reaches.abort {G G'} (h : Reaches E X G G') (ha : Peg E X G' .abort) : Peg E X G .abort := by
  induction h with
  | refl => exact ha
  | step h _ ih => exact h.abort (ih ha)

/-- A sequence that has passed a cut point never fails tentatively. -/
theorem Peg.committed {G o} (h : Peg E X G o) :
    ∀ Γ ts vals inp, G = .seq Γ ts vals true inp → o ≠ .fail := by
  induction h with
  | itemsNil => intros; simp
  | itemsCons => intros; simp
  | itemsLater _ hc _ _ _ ih =>
    intro Γ ts vals inp h
    simp at h
    obtain ⟨rfl, ⟨rfl, rfl⟩, rfl, rfl, rfl⟩ := h
    exact ih _ _ _ _ (by simp at hc; rw [hc])
  | itemsFail =>
    intro Γ ts vals inp h
    simp at h
    obtain ⟨rfl, ⟨rfl, rfl⟩, rfl, rfl, rfl⟩ := h
    simp
  | itemsAbort => intros; simp
  | _ => intros; simp_all

variable {g : Grammar} {m : Nat} {ps : Parsers} {r : Str} {inp : Scanner}

/-- **C14** A sequence passed a cut point (`true`) and its next item `t` does not match: then the
whole parse, however deep the sequence is below whatever choices, repetitions, look-aheads and rules,
ends in a fatal error – nothing else is tried. -/
theorem C14_cut_commits (hg : g.wf = true) (hc : g.compile E m = .ok ps) (hX : X.Plain)
    {Γ t ts vals i o}
    (hreach : Reaches E X (.term [ps.grammar] [] (.rule r) [] inp) (.seq Γ (t :: ts) vals true i))
    (hno : Peg E X (.term Γ [] t vals i) o) (ho : o = .fail ∨ o = .abort) :
    ∃ N K, ∀ ρ, DistinctDraws X ρ K → ∀ n, N ≤ n →
      ∃ e j, e.isFatal = true ∧ ps.parse E X ρ n r inp = .err e j := by
  have hab : Peg E X (.seq Γ (t :: ts) vals true i) .abort := by
    rcases ho with rfl | rfl
    · exact .itemsFail hno
    · exact .itemsAbort hno
  obtain ⟨N, K, h⟩ := C11_complete hg hc hX (hreach.abort hab)
  exact ⟨N, K, fun ρ hd n hn => (h ρ hd n hn).2⟩

/-- **C14** The same for a run that finished: no run with distinct tokens that reaches such a point
returns a tree, an unconsumed-input error of its own, or a tentative failure. -/
theorem C14_cut_final (hg : g.wf = true) (hc : g.compile E m = .ok ps) (hX : X.Plain)
    {Γ ts vals i o ρ n}
    (hreach : Reaches E X (.term [ps.grammar] [] (.rule r) [] inp) (.seq Γ ts vals true i))
    (hno : Peg E X (.seq Γ ts vals true i) o) (ho : o = .fail ∨ o = .abort)
    (hd : DistinctDraws X ρ (ps.draws E X ρ n r inp)) :
    (∀ v j, ps.parse E X ρ n r inp ≠ .ok v j) ∧
    ∀ e j, ps.parse E X ρ n r inp = .err e j → e.isFatal = true := by
  have hab : Denotes E X ps.grammar r inp .abort := by
    rcases ho with rfl | rfl
    · exact absurd rfl (hno.committed _ _ _ _ rfl)
    · exact hreach.abort hno
  obtain ⟨h1, h2⟩ := C11_sound (r := r) (inp := inp) hg hc hX hd
  refine ⟨fun v j h => ?_, fun e j h => ?_⟩
  · have := C11_deterministic hg hc hX hab (h1 v j h).1
    simp at this
  · rcases h2 e j h with ⟨v, x, _, hden, _⟩ | ⟨_, hden⟩ | ⟨hf, _⟩
    · have := C11_deterministic hg hc hX hab hden; simp at this
    · have := C11_deterministic hg hc hX hab hden; simp at this
    · exact hf

/-- Sequence `t :: ts`, all of whose items up to a failing one match and are no cut points: the
failure is tentative. -/
inductive FailsBeforeCut (E : Engine) (X : Externals) (Γ : List Grammar) :
    List Term → List (Str × Tree) → Scanner → Prop
  | here {t ts vals i} : Peg E X (.term Γ [] t vals i) .fail → FailsBeforeCut E X Γ (t :: ts) vals i
  | later {t ts vals i v j} : Peg E X (.term Γ [] t vals i) (.ok v j) → ¬ IsCut Γ t →
      FailsBeforeCut E X Γ ts (bindVal vals (identFromTerm t) v) j →
      FailsBeforeCut E X Γ (t :: ts) vals i

/-- **C14** Before the cut point failure backtracks normally: the choice goes on with the next
alternative, from the same position, with the same bindings. -/
theorem C14_before_cut {Γ ts alts rule vals i tag k o} (h : FailsBeforeCut E X Γ ts vals i) :
    Peg E X (.term Γ rule (.seq ts) vals i) .fail ∧
    (Peg E X (.alts Γ tag alts (k + 1) vals i) o →
      Peg E X (.alts Γ tag (.seq ts :: alts) k vals i) o) := by
  have key : Peg E X (.seq Γ ts vals false i) .fail := by
    induction h with
    | here h => exact .itemsFail (c := false) h
    | later h hc _ ih => exact .itemsLater h (by simp [hc]) ih (Or.inl rfl)
  exact ⟨.seqNo key (Or.inl rfl), fun ho => .altsNext (.seqNo key (Or.inl rfl)) ho⟩

/-! ## Examples -/

open Ex in
/-- `gCut` is `a -> "x" "!" b | /{x!.}` with a cut point on `"!"`: on `x!c` the second alternative
would match but is not tried; on `xc` (no cut point passed) both alternatives are tried, on `x!b` the
first matches. -/
example : obs (runTop gCut "a" "x!c") = .err .fatal 0 3 ∧
    obs (runTop gCut "a" "xc") = .err .parse 1 1 ∧
    obs (runTop gCut "a" "x!b") = .ok (some (utf8 "a║0[_[x, !, b[b]]]")) 3 0 := by
  decide +kernel

open Ex in
/-- The hypotheses of `C14_cut_commits` on `x!c`: after `x!` the sequence is committed, and rule `b`
does not match `c`. -/
example : ∃ Γ t ts vals i, Reaches regexp noExternals (.term [gCut] [] (.rule (str "a")) []
      (newScanner (str "x!c"))) (.seq Γ (t :: ts) vals true i) ∧
    Peg regexp noExternals (.term Γ [] t vals i) .fail := by
  refine ⟨[gCut], .rule (str "b"), [], [], ((newScanner (str "x!c")).skip 1).skip 1, ?_, ?_⟩
  · refine .step (.rule (.here (.here (t := .oneof [.seq [.s (str "x"), .cut (.s (str "!")),
      .rule (str "b")], .re (str "x!.")]) (by rfl) (by simp)))) ?_
    refine .step .oneof (.step .alt (.step .seq ?_))
    have h1 : Peg regexp noExternals (.term [gCut] [] (.s (str "x")) [] (newScanner (str "x!c")))
        (.ok (.leaf ((newScanner (str "x!c")).sub 0 1)) ((newScanner (str "x!c")).skip 1)) :=
      .lit (.plain (by rfl)) (.one (b := 1) (g := (0, 1)) (by rfl) (by decide +kernel))
    refine .step (.later h1 (c' := false) ?_) ?_
    · simp; intro h; cases h
    have h2 : Peg regexp noExternals (.term [gCut] [] (.s (str "!")) [] ((newScanner (str "x!c")).skip 1))
        (.ok (.leaf (((newScanner (str "x!c")).skip 1).sub 0 1)) (((newScanner (str "x!c")).skip 1).skip 1)) :=
      .lit (.plain (by rfl)) (.one (b := 1) (g := (0, 1)) (by rfl) (by decide +kernel))
    refine .step (.later (.cut h2) (c' := true) ?_) .refl
    simp; exact .cut
  · refine .rule (.here (.here (t := someT (.s (str "b"))) (by rfl) (by simp [someT]))) ?_
    refine .quantFew (.repsStop (by simp) (.lit (.plain (by rfl)) (.fail (by rfl) (by decide +kernel)))) ?_
    simp

end Wbnf

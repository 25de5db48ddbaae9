import Verif.Lemmas.Shift
import Verif.Props.Combinators

/-!
# C48: what a failed choice reports
-/

namespace Wbnf

/-- `i` is the first of the scanners that are furthest in the text. -/
def Furthest (js : List Scanner) (i : Scanner) : Prop :=
  ∃ d : Nat, js[d]? = some i ∧ (∀ (d' : Nat) (j : Scanner), js[d']? = some j → j.offset ≤ i.offset) ∧
    ∀ d' < d, ∀ j : Scanner, js[d']? = some j → j.offset < i.offset

variable {E : Engine} {X : Externals} {g : Grammar} {m : Nat} {ps : Parsers} {r : Str} {inp : Scanner}

theorem makeParsers_rules {c : Cache} (hc : c.isNil = false) {n : Nat} : ∀ {alts : List Str} {qs : List P},
    makeParsers c (compileTerm E n c []) (alts.map .rule) = .ok qs → qs = alts.map .link := by
  intro alts
  induction alts with
  | nil => intro qs h; simp [makeParsers] at h; exact h
  | cons a alts ih =>
    intro qs h
    simp only [List.map_cons, makeParsers, Except.bind_ok] at h
    obtain ⟨p, hp, p', hp', qs', hqs, h⟩ := h
    cases n with
    | zero => simp [compileTerm_zero] at hp
    | succ n =>
      rw [compileTerm_rule] at hp
      simp at hp; subst hp
      simp [Cache.register, hc] at hp'; subst hp'
      simp at h; subst h
      rw [ih hqs]; rfl

/-- The scanner the loop ends with. -/
theorem furthest_loop {rec : P → Scanner → Nat → Res Tree} {tag : Str} : ∀ {qs : List P} {i0 : Nat} {fur : Scanner} {k : Nat} {e i k'} {seen : List Scanner},
    Furthest seen fur → oneofLoop rec tag none none inp qs i0 fur k = .err e i k' →
    (e.isFatal = true ∧ i = inp) ∨ e.isFatal = false ∧ ∃ js : List Scanner, js.length = qs.length ∧ Furthest (seen ++ js) i ∧
      ∀ (d : Nat) q j, qs[d]? = some q → js[d]? = some j → ∃ s e' k', rec q inp s = .err e' j k' ∧ e'.isFatal = false := by
  intro qs
  induction qs with
  | nil =>
    intro i0 fur k e i k' seen hs h
    simp only [oneofLoop, mkErr, Res.err.injEq] at h
    obtain ⟨rfl, rfl, rfl⟩ := h
    exact .inr ⟨rfl, [], rfl, by simpa using hs, by simp⟩
  | cons q qs ih =>
    intro i0 fur k e i k' seen hs h
    simp only [oneofLoop] at h
    cases hq : rec q inp k with
    | ok v j k1 => simp [hq] at h
    | panic => simp [hq] at h
    | oof => simp [hq] at h
    | err e1 j k1 =>
      simp only [hq, isNotMyFatal_none] at h
      cases hf : e1.isFatal with
      | true =>
        simp only [hf, if_true, Res.err.injEq] at h
        exact .inl ⟨h.1 ▸ hf, h.2.1.symm⟩
      | false =>
        simp only [hf, Bool.false_eq_true, if_false] at h
        have hs' : Furthest (seen ++ [j]) (if fur.offset < j.offset then j else fur) := by
          obtain ⟨d, h1, h2, h3⟩ := hs
          have hd : d < seen.length := (List.getElem?_eq_some_iff.1 h1).1
          have split : ∀ d' j', (seen ++ [j])[d']? = some j' → seen[d']? = some j' ∨ (d' = seen.length ∧ j' = j) := by
            intro d' j' hj
            by_cases hl : d' < seen.length
            · rw [List.getElem?_append_left hl] at hj; exact .inl hj
            · rw [List.getElem?_append_right (by omega)] at hj
              have := (List.getElem?_eq_some_iff.1 hj).1
              simp only [List.length_cons, List.length_nil] at this
              have e0 : d' - seen.length = 0 := by omega
              rw [e0] at hj
              simp at hj
              exact .inr ⟨by omega, hj.symm⟩
          by_cases hlt : fur.offset < j.offset
          · rw [if_pos hlt]
            refine ⟨seen.length, by simp, fun d' j' hj => ?_, fun d' hd' j' hj => ?_⟩
            · rcases split d' j' hj with hj | ⟨_, rfl⟩
              · have := h2 _ _ hj; omega
              · exact Int.le_refl _
            · rcases split d' j' hj with hj | ⟨e, _⟩
              · have := h2 _ _ hj; omega
              · omega
          · rw [if_neg hlt]
            refine ⟨d, by rw [List.getElem?_append_left hd]; exact h1, fun d' j' hj => ?_, fun d' hd' j' hj => ?_⟩
            · rcases split d' j' hj with hj | ⟨_, rfl⟩
              · exact h2 _ _ hj
              · omega
            · rw [List.getElem?_append_left (by omega)] at hj
              exact h3 d' hd' j' hj
        rcases ih hs' h with h | ⟨h0, js, h1, h2, h3⟩
        · exact .inl h
        · refine .inr ⟨h0, j :: js, by simp [h1], by simpa using h2, ?_⟩
          intro d q' j' hq' hj'
          cases d with
          | zero =>
            simp at hq' hj'
            subst hq' hj'
            exact ⟨k, e1, k1, hq, hf⟩
          | succ d =>
            simp at hq' hj'
            exact h3 d q' j' hq' hj'

/-- **C48** `r -> a₀ | a₁ | …` fails (no fatal error), for any stream of random numbers: then each alternative fails on
its own at the same position, with what is left of the random numbers when it is tried, and of the scanner the choice
started with and the scanners the alternatives leave the choice leaves the first that is furthest. -/
theorem C48_furthest (hg : g.wf = true) (hc : g.compile E m = .ok ps) (hesc : X.esc = none) {alts : List Str}
    (hr : lookup r ps.grammar = some (.oneof (alts.map .rule))) {ρ : Nat → Nat} {n : Nat} {e i k}
    (h : ps.run E X ρ n r inp = .err e i k) (he : e.isFatal = false) :
    ∃ js : List Scanner, js.length = alts.length ∧ Furthest (inp :: js) i ∧
      ∀ (d : Nat) a j, alts[d]? = some a → js[d]? = some j →
        ∃ s n' e' k', ps.run E X (fun l => ρ (l + s)) n' a inp = .err e' j k' ∧ e'.isFatal = false := by
  have hres : Resolves [ps.grammar] r [ps.grammar] (.oneof (alts.map .rule)) := .here (.here hr (by simp))
  obtain ⟨p, env', m', h1, h2, h3, _, _⟩ := (compile_env hg hc).resolves hres
  have hl : lookup r ps.parsers = some p := by
    simp only [lookupEnv] at h1
    cases hq : lookup r ps.parsers with
    | none => simp [hq] at h1
    | some q => simp [hq] at h1; rw [h1.1]
  rw [run_eq hl] at h
  cases m' with
  | zero => simp [compileTerm_zero] at h3
  | succ m' =>
    rw [compileTerm_oneof] at h3
    simp only [Except.bind_ok] at h3
    obtain ⟨qs, hqs, h3⟩ := h3
    simp at h3; subst h3
    have hqs := makeParsers_rules (by rfl) hqs
    subst hqs
    cases n with
    | zero => simp [parse_zero] at h
    | succ n =>
      rw [parse_oneof, escaping_none hesc] at h
      have hrep : Scope.replaceCutPoint ρ false .init 0 = (.init, none, none, 0) := rfl
      rw [hrep] at h
      have h0 : Furthest [inp] inp := ⟨0, rfl, fun d' j hj => by
        cases d' with
        | zero => simp at hj; subst hj; exact Int.le_refl _
        | succ => simp at hj, fun d' hd' => absurd hd' (by omega)⟩
      rcases furthest_loop h0 h with ⟨hf, _⟩ | ⟨_, js, hlen, hfur, hall⟩
      · rw [he] at hf; simp at hf
      · refine ⟨js, by simpa using hlen, hfur, fun d a j ha hj => ?_⟩
        obtain ⟨s, e', k', hrun, hf⟩ := hall d (.link a) j (by rw [List.getElem?_map, ha]; rfl) hj
        have hs := parse_shift (E := E) (X := X) (ρ := ρ) s n [ps.parsers] (.link a) .init inp 0
        rw [Nat.zero_add, hrun] at hs
        cases n with
        | zero => simp [parse_zero] at hrun
        | succ n =>
          rw [← run_link hg hc] at hs
          cases hx : ps.run E X (fun l => ρ (l + s)) n a inp with
          | err e'' j' k'' =>
            rw [hx] at hs
            simp only [Res.shift, Res.err.injEq] at hs
            obtain ⟨rfl, rfl, _⟩ := hs
            exact ⟨s, n, _, _, hx, hf⟩
          | ok => rw [hx] at hs; simp [Res.shift] at hs
          | panic => rw [hx] at hs; simp [Res.shift] at hs
          | oof => rw [hx] at hs; simp [Res.shift] at hs

/-- **C48** If the choice ends with a fatal error (a cut point was passed), its scanner is left where it started. -/
theorem C48_fatal (hg : g.wf = true) (hc : g.compile E m = .ok ps) (hesc : X.esc = none) {alts : List Term}
    (hr : lookup r ps.grammar = some (.oneof alts)) {ρ : Nat → Nat} {n : Nat} {e i k}
    (h : ps.run E X ρ n r inp = .err e i k) (he : e.isFatal = true) : i = inp := by
  have hres : Resolves [ps.grammar] r [ps.grammar] (.oneof alts) := .here (.here hr (by simp))
  obtain ⟨p, env', m', h1, h2, h3, _, _⟩ := (compile_env hg hc).resolves hres
  have hl : lookup r ps.parsers = some p := by
    simp only [lookupEnv] at h1
    cases hq : lookup r ps.parsers with
    | none => simp [hq] at h1
    | some q => simp [hq] at h1; rw [h1.1]
  rw [run_eq hl] at h
  cases m' with
  | zero => simp [compileTerm_zero] at h3
  | succ m' =>
    rw [compileTerm_oneof] at h3
    simp only [Except.bind_ok] at h3
    obtain ⟨qs, hqs, h3⟩ := h3
    simp at h3; subst h3
    cases n with
    | zero => simp [parse_zero] at h
    | succ n =>
      rw [parse_oneof, escaping_none hesc] at h
      have hrep : Scope.replaceCutPoint ρ false .init 0 = (.init, none, none, 0) := rfl
      rw [hrep] at h
      have h0 : Furthest [inp] inp := ⟨0, rfl, fun d' j hj => by
        cases d' with
        | zero => simp at hj; subst hj; exact Int.le_refl _
        | succ => simp at hj, fun d' hd' => absurd hd' (by omega)⟩
      rcases furthest_loop h0 h with ⟨_, hi⟩ | ⟨hf, _⟩
      · exact hi
      · rw [he] at hf; simp at hf

/-- `r -> a | b; a -> "x" "y" "z"; b -> "x" "w";` -/
def Ex.gFar : Grammar := [(str "r", .oneof [.rule (str "a"), .rule (str "b")]),
  (str "a", .seq [.s (str "x"), .s (str "y"), .s (str "z")]), (str "b", .seq [.s (str "x"), .s (str "w")])]

/-- On `xyq` the first alternative gets as far as `q`, the second only to `y`: the choice reports `q`. -/
example : Ex.gFar.wf = true ∧ Ex.compiles Ex.gFar = true ∧ lookup (str "r") (Ex.comp! Ex.gFar).grammar = some (.oneof ([str "a", str "b"].map .rule)) ∧
    Ex.obs (Ex.runTop Ex.gFar "r" "xyq") = .err .parse 2 1 ∧ Ex.obs (Ex.runTop Ex.gFar "a" "xyq") = .err .parse 2 1 ∧
    Ex.obs (Ex.runTop Ex.gFar "b" "xyq") = .err .parse 1 2 :=
  ⟨by decide +kernel, by decide +kernel, by rfl, by decide +kernel, by decide +kernel, by decide +kernel⟩

end Wbnf

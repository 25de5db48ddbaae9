import Verif.Lemmas.Top
import Verif.Examples.Kit

/-!
# C11, C12: the parser computes the meaning of the grammar, whatever random tokens it draws

Specification: `Denotes` (Spec/Top, Spec/Peg), a big-step semantics of grammars without fuel, compiled
parsers, patched slots or random tokens. `ps.grammar` is the grammar with its stacks resolved (see
C20). `Grammar.wf` (Spec/WellFormed) rules out definitions that leave a parser unset. `X.Plain` holds
without external references, and for external handlers that ignore cut tokens (Spec/Top).
-/

namespace Wbnf

variable {E : Engine} {X : Externals} {g : Grammar} {m : Nat} {ps : Parsers} {r : Str} {inp : Scanner}

/-- Good streams of draws exist. -/
theorem exists_distinctDraws (hX : X.Plain) (K : Nat) : ∃ ρ, DistinctDraws X ρ K := by
  obtain ⟨B, hB⟩ := hX.bounded
  exact ⟨_, (good_canonical hB).distinct⟩

/-- **C11** Whatever `Parse` returns is what the grammar means: a tree only if the semantics derives
that tree and nothing is left; an "unconsumed input" error only if the semantics derives its tree and
residue; any other error only if the semantics says the rule does not match – finally (`abort`) if the
error is fatal, tentatively (`fail`) if it is not. (An external handler may itself return an
"unconsumed input" error; that counts as not matching.) -/
theorem C11_sound (hg : g.wf = true) (hc : g.compile E m = .ok ps) (hX : X.Plain) {ρ n}
    (hd : DistinctDraws X ρ (ps.draws E X ρ n r inp)) :
    (∀ v i, ps.parse E X ρ n r inp = .ok v i →
      Denotes E X ps.grammar r inp (.ok v i) ∧ i.toStr = some []) ∧
    (∀ e i, ps.parse E X ρ n r inp = .err e i →
      (∃ v x, e = .unconsumed v i ∧ Denotes E X ps.grammar r inp (.ok v i) ∧ i.toStr = some x ∧ x ≠ []) ∨
      (e.isFatal = false ∧ Denotes E X ps.grammar r inp .fail) ∨
      (e.isFatal = true ∧ Denotes E X ps.grammar r inp .abort)) := by
  have key := fun {o} => run_sound (o := o) (r := r) (inp := inp) (n := n) hg hc hX hd
  unfold Parsers.parse
  cases hr : ps.run E X ρ n r inp with
  | ok v i k =>
    rw [hr] at key
    have hden := key (o := .ok v i) rfl
    cases hs : i.toStr with
    | none => simp [Res.top, hs]
    | some x =>
      cases x with
      | nil =>
        refine ⟨fun v' i' h => ?_, fun e i' h => by simp [Res.top, hs] at h⟩
        simp [Res.top, hs] at h
        obtain ⟨rfl, rfl⟩ := h
        exact ⟨hden, hs⟩
      | cons c x =>
        refine ⟨fun v' i' h => by simp [Res.top, hs] at h, fun e i' h => ?_⟩
        simp [Res.top, hs] at h
        obtain ⟨rfl, rfl⟩ := h
        exact Or.inl ⟨v, c :: x, rfl, hden, hs, by simp⟩
  | err e i k =>
    rw [hr] at key
    refine ⟨fun v' i' h => by simp [Res.top] at h, fun e' i' h => Or.inr ?_⟩
    simp [Res.top] at h
    obtain ⟨rfl, rfl⟩ := h
    have hden := key rfl
    have : e.isNotMyFatal none = e.isFatal := by cases e <;> simp [Err.isNotMyFatal, Err.isFatal]
    rw [this] at hden
    cases hf : e.isFatal with
    | true => rw [hf] at hden; exact Or.inr ⟨rfl, hden⟩
    | false => rw [hf] at hden; exact Or.inl ⟨rfl, hden⟩
  | panic => simp [Res.top]
  | oof => simp [Res.top]

/-- **C11** Everything the semantics derives is found, by every long enough run, whatever the draws
(`K` is how many the run makes). -/
theorem C11_complete (hg : g.wf = true) (hc : g.compile E m = .ok ps) (hX : X.Plain) {o}
    (h : Denotes E X ps.grammar r inp o) :
    ∃ N K, ∀ ρ, DistinctDraws X ρ K → ∀ n, N ≤ n → ps.draws E X ρ n r inp = K ∧
      match o with
      | .ok v i =>
        (i.toStr = some [] → ps.parse E X ρ n r inp = .ok v i) ∧
        (∀ x, i.toStr = some x → x ≠ [] → ps.parse E X ρ n r inp = .err (.unconsumed v i) i)
      | .fail => ∃ e i, e.isFatal = false ∧ ps.parse E X ρ n r inp = .err e i
      | .abort => ∃ e i, e.isFatal = true ∧ ps.parse E X ρ n r inp = .err e i
      | .oks _ _ => False := by
  obtain ⟨N, K, hN⟩ := run_complete hg hc hX h
  refine ⟨N, K, fun ρ hd n hn => ?_⟩
  obtain ⟨h1, h2⟩ := hN ρ hd n hn
  refine ⟨h2, ?_⟩
  unfold Parsers.parse
  cases hr : ps.run E X ρ n r inp with
  | ok v i k =>
    rw [hr] at h1
    simp [Res.out] at h1
    subst h1
    refine ⟨fun hs => by simp [Res.top, hs], fun x hs hx => ?_⟩
    cases x with
    | nil => simp at hx
    | cons => simp [Res.top, hs]
  | err e i k =>
    rw [hr] at h1
    have : e.isNotMyFatal none = e.isFatal := by cases e <;> simp [Err.isNotMyFatal, Err.isFatal]
    simp only [Res.out, this, Option.some.injEq] at h1
    cases hf : e.isFatal with
    | true => rw [hf] at h1; simp at h1; subst h1; exact ⟨e, i, hf, rfl⟩
    | false => rw [hf] at h1; simp at h1; subst h1; exact ⟨e, i, hf, rfl⟩
  | panic => rw [hr] at h1; simp [Res.out] at h1
  | oof => rw [hr] at h1; simp [Res.out] at h1

/-- **C11** The meaning of a grammar is a partial function: at most one outcome. -/
theorem C11_deterministic (hg : g.wf = true) (hc : g.compile E m = .ok ps) (hX : X.Plain) {o o'}
    (h : Denotes E X ps.grammar r inp o) (h' : Denotes E X ps.grammar r inp o') : o = o' := by
  obtain ⟨N, K, hN⟩ := run_complete hg hc hX h
  obtain ⟨N', K', hN'⟩ := run_complete hg hc hX h'
  obtain ⟨B, hB⟩ := hX.bounded
  have h1 := (hN _ (good_canonical hB).distinct (max N N') (by omega)).1
  have h2 := (hN' _ (good_canonical hB).distinct (max N N') (by omega)).1
  rw [h1] at h2
  exact Option.some.inj h2

/-- **C11** Acceptance, as an equivalence: the semantics derives tree `v` and uses up the text iff
every long enough run with distinct tokens returns `v`. -/
theorem C11_accepts_iff (hg : g.wf = true) (hc : g.compile E m = .ok ps) (hX : X.Plain) {v i} :
    (Denotes E X ps.grammar r inp (.ok v i) ∧ i.toStr = some []) ↔
    ∃ N K, ∀ ρ, DistinctDraws X ρ K → ∀ n, N ≤ n → ps.draws E X ρ n r inp = K ∧
      ps.parse E X ρ n r inp = .ok v i := by
  constructor
  · rintro ⟨h, hs⟩
    obtain ⟨N, K, hN⟩ := C11_complete hg hc hX h
    exact ⟨N, K, fun ρ hd n hn => ⟨(hN ρ hd n hn).1, (hN ρ hd n hn).2.1 hs⟩⟩
  · rintro ⟨N, K, hN⟩
    obtain ⟨ρ, hd⟩ := exists_distinctDraws hX K
    obtain ⟨h1, h2⟩ := hN ρ hd N (Nat.le_refl _)
    exact (C11_sound hg hc hX (by rw [h1]; exact hd)).1 v i h2

/-- The same outcome, except that fatal errors may carry different tokens. -/
def SameTop : TopRes → TopRes → Prop
  | .err (.fatal _) i, r => ∃ c, r = .err (.fatal c) i
  | r, r' => r' = r

theorem SameTop.refl (t : TopRes) : SameTop t t := by
  unfold SameTop; split <;> first | exact ⟨_, rfl⟩ | rfl

/-- **C12** Two runs of the same parse whose draws are distinct have the same outcome: same tree,
same kind of error, same scanner. (Draws beyond those the first run makes need not be distinct.) -/
theorem C12_tokens_irrelevant (hX : X.Blind) {ρ ρ' n}
    (hd : DistinctDraws X ρ (ps.draws E X ρ n r inp)) (hd' : DistinctDraws X ρ' (ps.draws E X ρ n r inp))
    (hfin : ∀ K, (ps.parse E X ρ n r inp = .panic ∨ ps.parse E X ρ n r inp = .oof) →
      DistinctDraws X ρ K ∧ DistinctDraws X ρ' K) :
    SameTop (ps.parse E X ρ n r inp) (ps.parse E X ρ' n r inp) := by
  unfold Parsers.parse at *
  cases hr : ps.run E X ρ n r inp with
  | ok v i k =>
    have hsim := run_sim (E := E) (n := n) (ps := ps) (r := r) (inp := inp) hX hd hd'
    unfold Parsers.draws at hsim
    rw [hr] at hsim
    rw [hsim (fun j hj => hj)]
    exact SameTop.refl _
  | err e i k =>
    have hsim := run_sim (E := E) (n := n) (ps := ps) (r := r) (inp := inp) hX hd hd'
    unfold Parsers.draws at hsim
    rw [hr] at hsim
    obtain ⟨e', he, hr'⟩ := hsim (fun j hj => hj)
    rw [hr']
    rcases he with ⟨rfl, _⟩ | ⟨j, _, rfl, rfl⟩
    · exact SameTop.refl _
    · exact ⟨_, rfl⟩
  | panic =>
    have hg := fun K => hfin K (by rw [hr]; exact Or.inl rfl)
    unfold Parsers.run at hr ⊢
    cases hl : lookup r ps.parsers with
    | none => exact SameTop.refl _
    | some p =>
      rw [hl] at hr
      simp only at hr ⊢
      have := parse_sim (E := E) (D := fun _ => True) hX ⟨fun i j _ _ => (hg (i + j + 1)).1.inj i j (by omega) (by omega),
        fun i _ => (hg (i + 1)).1.foreign i (by omega)⟩
        ⟨fun i j _ _ => (hg (i + j + 1)).2.inj i j (by omega) (by omega),
        fun i _ => (hg (i + 1)).2.foreign i (by omega)⟩ n [ps.parsers] p .init .init inp 0 scRel_init
      rw [hr] at this
      rw [this (fun _ => trivial)]; exact SameTop.refl _
  | oof =>
    have hg := fun K => hfin K (by rw [hr]; exact Or.inr rfl)
    unfold Parsers.run at hr ⊢
    cases hl : lookup r ps.parsers with
    | none => rw [hl] at hr; simp at hr
    | some p =>
      rw [hl] at hr
      simp only at hr ⊢
      have := parse_sim (E := E) (D := fun _ => True) hX ⟨fun i j _ _ => (hg (i + j + 1)).1.inj i j (by omega) (by omega),
        fun i _ => (hg (i + 1)).1.foreign i (by omega)⟩
        ⟨fun i j _ _ => (hg (i + j + 1)).2.inj i j (by omega) (by omega),
        fun i _ => (hg (i + 1)).2.foreign i (by omega)⟩ n [ps.parsers] p .init .init inp 0 scRel_init
      rw [hr] at this
      rw [this (fun _ => trivial)]; exact SameTop.refl _

/-! ## The hypotheses are met -/

theorem distinct_ρ0 (K : Nat) : DistinctDraws noExternals Ex.ρ0 K where
  inj := fun i j _ _ h => by simp [Ex.ρ0] at h; exact h
  foreign := fun i _ h => by
    obtain ⟨B, hB⟩ := plain_noExternals.bounded
    rcases h with h | ⟨_, _, _, _, h, _⟩ | ⟨_, _, _, h, _⟩
    · simp [Ex.ρ0] at h
    · simp [noExternals] at h
    · simp [noExternals] at h

open Ex in
/-- Grammars with stacks, cut points and back references satisfy the hypotheses of C11 and C12. -/
example : (gExpr.wf = true ∧ (gExpr.compile regexp 50).isOk) ∧
    (gCut.wf = true ∧ (gCut.compile regexp 50).isOk) ∧
    (gRef.wf = true ∧ (gRef.compile regexp 50).isOk) := by
  decide +kernel

open Ex in
/-- The run of `gCut` on `x!bb` draws a token, succeeds, and its tree is derivable. -/
example : (comp! gCut).draws regexp noExternals ρ0 300 (str "a") (newScanner (str "x!bb")) = 2 ∧
    obs (runTop gCut "a" "x!bb") = .ok (some (utf8 "a║0[_[x, !, b[b, b]]]")) 4 0 := by
  decide +kernel

/-! ## Colliding tokens -/

/-- `a -> "x" ("y" "z" | "yw")` with cut points on `"x"` and `"y"`. -/
def Ex.gTwoCuts : Grammar := [(str "a", .seq [.cut (.s (str "x")),
  .oneof [.seq [.cut (.s (str "y")), .s (str "z")], .s (str "yw")]])]

open Ex in
/-- **C12** Distinctness is needed: on this grammar and the text `xyw`, distinct draws make the
second cut point final and the parse fails; equal draws make the parser take the second alternative. -/
theorem C12_collision :
    obs ((comp! gTwoCuts).parse regexp noExternals ρ0 300 (str "a") (newScanner (str "xyw"))) =
      .err .fatal 1 2 ∧
    obs ((comp! gTwoCuts).parse regexp noExternals (fun _ => 7) 300 (str "a") (newScanner (str "xyw"))) =
      .ok (some (utf8 "a[x, |║1[yw]]")) 3 0 := by
  decide +kernel

end Wbnf

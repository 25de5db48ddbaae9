import Verif.Lemmas.PegComplete
import Verif.Spec.Top

namespace Wbnf

section
variable {E : Engine} {X : Externals}

theorem compile_inv {g : Grammar} {m ps} (h : g.compile E m = .ok ps) :
    g.resolveStacks = some ps.grammar ∧
    compileRules m ps.grammar (compileTerm E m (cacheFor ps.grammar)) ps.grammar = .ok ps.parsers := by
  unfold Grammar.compile at h
  simp only [Except.bind_ok] at h
  obtain ⟨g1, h1, f, h2, h⟩ := h
  simp at h; subst h
  exact ⟨prepare_ok.1 h1, h2⟩

theorem compile_env {g : Grammar} {m ps} (hg : g.wf = true) (h : g.compile E m = .ok ps) :
    EnvRel E [ps.grammar] [ps.parsers] := by
  obtain ⟨h1, h2⟩ := compile_inv h
  exact .cons (resolveStacks_wf h1 hg) h2 .nil

/-- Canonical good draws. -/
theorem good_canonical {B} (hB : ∀ c, X.Emits c → c < B) : Good X (fun j => B + j) where
  inj := fun i j _ _ h => by omega
  foreign := fun i _ h => by have := hB _ h; omega

theorem run_eq {ρ n ps r inp p} (h : lookup r ps.parsers = some p) :
    Parsers.run E X ρ n ps r inp = parse E X ρ n [ps.parsers] p .init inp 0 := by
  unfold Parsers.run; rw [h]

theorem run_link {g : Grammar} {m ps} (hg : g.wf = true) (h : g.compile E m = .ok ps) {ρ n r inp} :
    Parsers.run E X ρ n ps r inp = parse E X ρ (n + 1) [ps.parsers] (.link r) .init inp 0 := by
  unfold Parsers.run
  rw [parse_link]
  simp only [lookupEnv]
  cases lookup r ps.parsers <;> rfl

theorem scRel_init {ρ ρ' : Nat → Nat} : ScRel ρ ρ' 0 .init .init := ⟨rfl, Or.inl ⟨rfl, rfl⟩⟩

/-- Runs with different good draws. -/
theorem run_sim {ρ ρ' : Nat → Nat} {K n ps r inp} (hX : X.Blind) (h1 : DistinctDraws X ρ K)
    (h2 : DistinctDraws X ρ' K) :
    Sim X ρ ρ' (· < K) (Parsers.run E X ρ n ps r inp) (Parsers.run E X ρ' n ps r inp) := by
  unfold Parsers.run
  cases lookup r ps.parsers with
  | none => exact fun _ => rfl
  | some p =>
    exact parse_sim hX ⟨h1.inj, h1.foreign⟩ ⟨h2.inj, h2.foreign⟩ _ _ _ _ _ _ _ scRel_init

theorem Good.distinct {ρ K} (h : Good X ρ) : DistinctDraws X ρ K :=
  ⟨fun i j _ _ => h.inj i j trivial trivial, fun i _ => h.foreign i trivial⟩

theorem run_sound {g : Grammar} {m ps} (hg : g.wf = true) (hc : g.compile E m = .ok ps) (hX : X.Plain)
    {ρ n r inp} (hd : DistinctDraws X ρ (ps.draws E X ρ n r inp)) {o}
    (h : (ps.run E X ρ n r inp).out none = some o) : Denotes E X ps.grammar r inp o := by
  obtain ⟨B, hB⟩ := hX.bounded
  have hgood := good_canonical hB
  have hsim := run_sim (E := E) (n := n) (ps := ps) (r := r) (inp := inp) hX.blind hd
    (hgood.distinct (K := ps.draws E X ρ n r inp))
  have key : (ps.run E X (fun j => B + j) n r inp).out none = some o := by
    unfold Parsers.draws at hsim
    cases hr : ps.run E X ρ n r inp with
    | ok v i k => rw [hr] at hsim h; rw [hsim (fun j hj => hj)]; exact h
    | err e i k =>
      rw [hr] at hsim h
      obtain ⟨e', he, hr'⟩ := hsim (fun j hj => hj)
      rw [hr']
      have : e'.isNotMyFatal none = e.isNotMyFatal none := by
        rcases he with ⟨rfl, _⟩ | ⟨j, _, rfl, rfl⟩ <;> rfl
      simp only [Res.out, this]; exact h
    | panic => rw [hr] at h; simp [Res.out] at h
    | oof => rw [hr] at h; simp [Res.out] at h
  rw [run_link hg hc] at key
  exact parse_sound hgood hX.blind hX.noEscape (n + 1) 1 [ps.grammar] [ps.parsers] [] (.rule r) (.rule r)
    .init inp 0 o (compile_env hg hc) rfl (compileTerm_rule ..) freshCp_none key

theorem run_complete {g : Grammar} {m ps} (hg : g.wf = true) (hc : g.compile E m = .ok ps)
    (hX : X.Plain) {r inp o} (h : Denotes E X ps.grammar r inp o) :
    ∃ N K, ∀ ρ, DistinctDraws X ρ K → ∀ n, N ≤ n → (ps.run E X ρ n r inp).out none = some o ∧
      ps.draws E X ρ n r inp = K := by
  obtain ⟨B, hB⟩ := hX.bounded
  have hgood := good_canonical hB
  obtain ⟨N, hN⟩ := peg_complete hgood hX.blind hX.noEscape h [ps.parsers] 1 (.rule r) (compile_env hg hc) rfl
    (compileTerm_rule ..)
  have h0 := hN (N + 1) (by omega) .init 0 rfl freshCp_none
  rw [slot, ← run_link hg hc] at h0
  -- number of draws
  refine ⟨N, ps.draws E X (fun j => B + j) N r inp, fun ρ hd n hn => ?_⟩
  have hmono : ps.run E X (fun j => B + j) n r inp = ps.run E X (fun j => B + j) N r inp := by
    unfold Parsers.run at h0 ⊢
    cases hl : lookup r ps.parsers with
    | none => rfl
    | some p =>
      simp only [hl] at h0 ⊢
      apply parse_mono_le hn
      intro hh; rw [hh] at h0; simp [Res.out] at h0
  have hsim := run_sim (E := E) (n := n) (ps := ps) (r := r) (inp := inp) hX.blind
    (hgood.distinct (K := ps.draws E X (fun j => B + j) N r inp)) hd
  rw [hmono] at hsim
  unfold Parsers.draws at hsim ⊢
  cases hr : ps.run E X (fun j => B + j) N r inp with
  | ok v i k => rw [hr] at hsim h0; rw [hsim (fun j hj => hj)]; exact ⟨h0, rfl⟩
  | err e i k =>
    rw [hr] at hsim h0
    obtain ⟨e', he, hr'⟩ := hsim (fun j hj => hj)
    rw [hr']
    have : e'.isNotMyFatal none = e.isNotMyFatal none := by
      rcases he with ⟨rfl, _⟩ | ⟨j, _, rfl, rfl⟩ <;> rfl
    exact ⟨by simp only [Res.out, this]; exact h0, rfl⟩
  | panic => rw [hr] at h0; simp [Res.out] at h0
  | oof => rw [hr] at h0; simp [Res.out] at h0

end
end Wbnf

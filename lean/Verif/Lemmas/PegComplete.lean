import Verif.Lemmas.PegSound
import Verif.Lemmas.Fuel

/-! Completeness: every outcome of the semantics is reached by the parser with enough fuel. -/

namespace Wbnf

section
variable {E : Engine} {X : Externals} {ρ : Nat → Nat}

theorem out_ok {cp} {r : Res Tree} {v i} (h : r.out cp = some (.ok v i)) : ∃ k, r = .ok v i k := by
  cases r with
  | ok v' i' k => simp [Res.out] at h; obtain ⟨rfl, rfl⟩ := h; exact ⟨k, rfl⟩
  | err e i' k => simp only [Res.out, Option.some.injEq] at h; split at h <;> simp at h
  | panic => simp [Res.out] at h
  | oof => simp [Res.out] at h

theorem out_fail {cp} {r : Res Tree} (h : r.out cp = some .fail) :
    ∃ e i k, r = .err e i k ∧ e.isNotMyFatal cp = false := by
  cases r with
  | ok v' i' k => simp [Res.out] at h
  | err e i' k =>
    refine ⟨e, i', k, rfl, ?_⟩
    simp only [Res.out, Option.some.injEq] at h
    cases hn : e.isNotMyFatal cp <;> simp [hn] at h ⊢
  | panic => simp [Res.out] at h
  | oof => simp [Res.out] at h

theorem out_abort {cp} {r : Res Tree} (h : r.out cp = some .abort) :
    ∃ e i k, r = .err e i k ∧ e.isNotMyFatal cp = true := by
  cases r with
  | ok v' i' k => simp [Res.out] at h
  | err e i' k =>
    refine ⟨e, i', k, rfl, ?_⟩
    simp only [Res.out, Option.some.injEq] at h
    cases hn : e.isNotMyFatal cp <;> simp [hn] at h ⊢
  | panic => simp [Res.out] at h
  | oof => simp [Res.out] at h

theorem outs_oks {cp} {r : Res (List Tree)} {v i} (h : r.outs cp = some (.oks v i)) :
    ∃ k, r = .ok v i k := by
  cases r with
  | ok v' i' k => simp [Res.outs] at h; obtain ⟨rfl, rfl⟩ := h; exact ⟨k, rfl⟩
  | err e i' k => simp only [Res.outs, Option.some.injEq] at h; split at h <;> simp at h
  | panic => simp [Res.outs] at h
  | oof => simp [Res.outs] at h

theorem outs_no {cp} {r : Res (List Tree)} {o} (h : r.outs cp = some o) (ho : o = .fail ∨ o = .abort) :
    ∃ e i k, r = .err e i k ∧ (if e.isNotMyFatal cp then Out.abort else .fail) = o := by
  cases r with
  | ok v' i' k => simp only [Res.outs, Option.some.injEq] at h; subst h; simp at ho
  | err e i' k =>
    refine ⟨e, i', k, rfl, ?_⟩
    simpa only [Res.outs, Option.some.injEq] using h
  | panic => simp [Res.outs] at h
  | oof => simp [Res.outs] at h

def RepsOut (cp : Option Nat) (o : Out) (r : Res (List Tree)) : Prop :=
  match o with
  | .oks vs i => ∃ k', r = .ok vs i k'
  | .abort => ∃ e i k', r = .err e i k' ∧ e.isNotMyFatal cp = true
  | _ => False

def AltsOut (X : Externals) (ρ : Nat → Nat) (prev cp : Option Nat) (k : Nat) (o : Out) (r : Res Tree) : Prop :=
  match o with
  | .ok v j => ∃ k', r = .ok v j k'
  | .fail => ∃ j k', r = .err (mkErr prev) j k'
  | .abort => ∃ e j k', r = .err e j k' ∧ e.isNotMyFatal cp = true ∧ TokOK X ρ cp k k' e
  | _ => False

/-- What is shown for every derivation. -/
def Reached (E : Engine) (X : Externals) (ρ : Nat → Nat) : Goal → Out → Prop
  | .term Γ rule t vals inp, o => ∀ env m p0, EnvRel E Γ env → t.wf = true →
      compileTerm E m (cacheOf Γ) rule t = .ok p0 → ∃ N, ∀ n, N ≤ n → ∀ sc k, sc.vals = vals →
      FreshCp ρ sc.cp k → (parse E X ρ n env (slot p0) sc inp k).out sc.cp = some o
  | .seq Γ ts vals com inp, o => ∀ env m ps, EnvRel E Γ env → wfList ts = true →
      makeParsers (cacheOf Γ) (compileTerm E m (cacheOf Γ) []) ts = .ok ps → ∃ N, ∀ n, N ≤ n →
      ∀ cp0 k0 sc k, sc.vals = vals → FreshCp ρ cp0 k0 → SeqCp ρ cp0 k0 com sc.cp k →
      (seqLoop ρ (parse E X ρ n env) (isCutItem env) ((ts.map identFromTerm).zip ps) sc inp k).outs cp0
        = some o
  | .reps Γ t vals left inp, o => ∀ env m p, EnvRel E Γ env → t.wf = true →
      compileTerm E m (cacheOf Γ) [] t = .ok p → ∃ N, ∀ n L, N ≤ n → N ≤ L → ∀ sc k max cnt,
      sc.vals = vals → FreshCp ρ sc.cp k → leftOf max cnt = left →
      RepsOut sc.cp o (quantLoop (fun i k => parse E X ρ n env (slot p) sc i k) max sc.cp L cnt inp k)
  | .alts Γ tag ts i vals inp, o => ∀ env m ps, EnvRel E Γ env → wfList ts = true →
      makeParsers (cacheOf Γ) (compileTerm E m (cacheOf Γ) []) ts = .ok ps → ∃ N, ∀ n, N ≤ n →
      ∀ sc prev k fu, sc.vals = vals → FreshCp ρ sc.cp k →
      AltsOut X ρ prev sc.cp k o
        (oneofLoop (fun q i k => parse E X ρ n env q sc i k) tag prev sc.cp inp ps i fu k)

theorem leftOf_pos {max cnt} (h : leftOf max cnt ≠ some 0) : max = 0 ∨ cnt < max := by
  unfold leftOf at h
  by_cases hm : max = 0
  · exact Or.inl hm
  · simp [hm] at h; omega

theorem leftOf_zero {max cnt} (h : leftOf max cnt = some 0) : ¬ (max = 0 ∨ cnt < max) := by
  unfold leftOf at h
  by_cases hm : max = 0
  · simp [hm] at h
  · simp [hm] at h; omega

theorem leftOf_next {max cnt left} (h : leftOf max cnt = left) :
    leftOf max (cnt + 1) = left.map (· - 1) := by
  subst h
  unfold leftOf; split <;> simp; omega

/-- The compiled parser of a literal term. -/
theorem compile_text_ok : ∀ (t : Term), t.quotable E = true → ∃ N, ∀ n, N ≤ n → ∀ rule,
    ∃ p, compileTerm E n ⟨none, true⟩ rule t = .ok p ∧ ∀ r, p ≠ .rule r := by
  have hs : ∀ l, (Term.s l).quotable E = true → ∃ N, ∀ n, N ≤ n → ∀ rule,
      ∃ p, compileTerm E n ⟨none, true⟩ rule (.s l) = .ok p ∧ ∀ r, p ≠ .rule r := by
    intro l h
    refine ⟨1, fun n hn rule => ?_⟩
    obtain ⟨n, rfl⟩ : ∃ n', n = n' + 1 := ⟨n - 1, by omega⟩
    refine ⟨.s rule l (anchor ++ (str "(" ++ quoteMeta l ++ str ")")), ?_, by simp⟩
    rw [compileTerm_s]
    simp only [Term.quotable] at h
    simp only [compileS, applyWrapRE, mustCompile, Except.bind]
    rw [if_pos h]
  have key : ∀ s : Nat, ∀ t : Term, sizeOf t ≤ s → t.quotable E = true → ∃ N, ∀ n, N ≤ n → ∀ rule,
      ∃ p, compileTerm E n ⟨none, true⟩ rule t = .ok p ∧ ∀ r, p ≠ .rule r := by
    intro s
    induction s with
    | zero => intro t ht; cases t <;> simp at ht <;> omega
    | succ s ih =>
      intro t ht h
      cases t with
      | s l => exact hs l h
      | seq ts =>
        have hl : ∀ ts : List Term, sizeOf ts ≤ s → quotableList E ts = true → ∃ N, ∀ n, N ≤ n →
            ∃ ps, makeParsers ⟨none, true⟩ (compileTerm E n ⟨none, true⟩ []) ts = .ok ps := by
          intro ts
          induction ts with
          | nil => intro _ _; exact ⟨0, fun n _ => ⟨[], rfl⟩⟩
          | cons u us ihu =>
            intro hsz hq
            simp only [quotableList, Bool.and_eq_true] at hq
            simp at hsz
            obtain ⟨N1, h1⟩ := ih u (by omega) hq.1
            obtain ⟨N2, h2⟩ := ihu (by omega) hq.2
            refine ⟨N1 + N2, fun n hn => ?_⟩
            obtain ⟨p, hp, hne⟩ := h1 n (by omega) []
            obtain ⟨ps, hps⟩ := h2 n (by omega)
            refine ⟨p :: ps, ?_⟩
            have : Cache.register ⟨none, true⟩ p = .ok p := by
              cases p <;> first | rfl | exact absurd rfl (hne _)
            simp [makeParsers, hp, hps, this, Except.bind]
        simp at ht
        obtain ⟨N, hN⟩ := hl ts (by omega) h
        refine ⟨N + 1, fun n hn rule => ?_⟩
        obtain ⟨n, rfl⟩ : ∃ n', n = n' + 1 := ⟨n - 1, by omega⟩
        obtain ⟨ps, hps⟩ := hN n (by omega)
        exact ⟨.seq rule ts ps, by rw [compileTerm_seq, hps]; rfl, by simp⟩
      | _ => simp [Term.quotable] at h
  exact fun t => key _ t (Nat.le_refl _)

theorem mustCompile_ok {p q} (h : mustCompile E p = .ok q) : q = p := by
  unfold mustCompile at h; split at h <;> simp at h; exact h.symm

/-- The scope after an item of a sequence. -/
theorem seq_step {m Γ env t p} (he : EnvRel E Γ env) (hw : t.wf = true)
    (h1 : compileTerm E m (cacheOf Γ) [] t = .ok p) {cp0 k0 c c'} {sc : Scope} {k k' v vals}
    (hs : SeqCp ρ cp0 k0 c sc.cp k) (hk : k ≤ k') (hcc : c' = true ↔ c = true ∨ IsCut Γ t)
    (hv : sc.vals = vals) :
    ∃ r, (if isCutItem env (slot p) = true then sc.replaceCutPoint ρ true k' else (sc, none, none, k')) = r ∧
      (r.1.withVal (identFromTerm t) v).vals = bindVal vals (identFromTerm t) v ∧
      SeqCp ρ cp0 k0 c' (r.1.withVal (identFromTerm t) v).cp r.2.2.2 := by
  refine ⟨_, rfl, ?_⟩
  have hcut := isCut_item he hw h1
  subst hv
  rw [withVal_cp, bindVal_eq]
  cases hic : isCutItem env (slot p) with
  | true =>
    rw [if_pos rfl, replaceCutPoint_true]
    have : c' = true := hcc.2 (Or.inr (hcut.1 hic))
    subst this
    exact ⟨rfl, by have := hs.1; simp only; omega,
      Or.inr ⟨rfl, k', by have := hs.1; omega, by simp, rfl⟩⟩
  | false =>
    rw [if_neg (by simp)]
    have hn : ¬ IsCut Γ t := fun hh => by rw [hcut.2 hh] at hic; simp at hic
    have : c' = c := by
      rw [Bool.eq_iff_iff, hcc]; simp [hn]
    subst this
    refine ⟨rfl, ?_⟩
    obtain ⟨hk', ⟨rfl, hcp⟩ | ⟨rfl, j, hj1, hj2, hcp⟩⟩ := hs
    · exact ⟨by simp only; omega, Or.inl ⟨rfl, hcp⟩⟩
    · exact ⟨by simp only; omega, Or.inr ⟨rfl, j, hj1, by simp only; omega, hcp⟩⟩

theorem compile_quant_inv {m c rule t lo hi p} (h : compileTerm E m c rule (.quant t lo hi) = .ok p) :
    ∃ q m', compileTerm E m' c [] t = .ok q ∧ p = .quant rule (.quant t lo hi) lo hi (slot q) := by
  cases m with
  | zero => simp [compileTerm_zero] at h
  | succ m =>
    rw [compileTerm_quant] at h
    simp only [Except.bind_ok] at h
    obtain ⟨q, hq, q', hreg, h⟩ := h
    simp at h; subst h
    exact ⟨q, m, hq, by rw [register_slot hreg]⟩

theorem compile_look_inv {m c rule t p} (h : compileTerm E m c rule (.look t) = .ok p) :
    ∃ q m', compileTerm E m' c [] t = .ok q ∧ p = .look rule (.look t) (slot q) := by
  cases m with
  | zero => simp [compileTerm_zero] at h
  | succ m =>
    rw [compileTerm_look] at h
    simp only [Except.bind_ok] at h
    obtain ⟨q, hq, q', hreg, h⟩ := h
    simp at h; subst h
    exact ⟨q, m, hq, by rw [register_slot hreg]⟩

theorem compile_delim_inv {m c rule t s a cs ce p} (h : compileTerm E m c rule (.delim t s a cs ce) = .ok p) :
    ∃ q m', compileTerm E m' c rule (.seq (delimSeq t s cs ce)) = .ok q ∧
      p = .delim rule t s a cs ce (slot q) := by
  cases m with
  | zero => simp [compileTerm_zero] at h
  | succ m =>
    rw [compileTerm_delim] at h
    simp only [Except.bind_ok] at h
    obtain ⟨q, hq, q', hreg, h⟩ := h
    simp at h; subst h
    exact ⟨q, m, hq, by rw [register_slot hreg]⟩

theorem compile_ref_inv {m c rule i d p} (h : compileTerm E m c rule (.ref i d) = .ok p) :
    ∃ _m' : Nat, p = .ref i d := by
  cases m with
  | zero => simp [compileTerm_zero] at h
  | succ m => rw [compileTerm_ref] at h; simp at h; exact ⟨m, h.symm⟩

theorem compile_ext_inv {m c rule i p} (h : compileTerm E m c rule (.ext i) = .ok p) :
    ∃ _m' : Nat, p = .ext i := by
  cases m with
  | zero => simp [compileTerm_zero] at h
  | succ m => rw [compileTerm_ext] at h; simp at h; exact ⟨m, h.symm⟩

theorem out_bind_no {cp} {r : Res Tree} {f : Tree → Scanner → Nat → Res Tree} {o}
    (h : r.out cp = some o) (ho : o = .fail ∨ o = .abort) : (r.bind f).out cp = some o := by
  cases r with
  | ok v i k => simp only [Res.out, Option.some.injEq] at h; subst h; simp at ho
  | err e i k => exact h
  | panic => simp [Res.out] at h
  | oof => simp [Res.out] at h

theorem foreign_notMine (hρ : Good X ρ) {cp k} {e : Err} (hf : FreshCp ρ cp k)
    (hem : ∀ c, e = .fatal c → X.Emits c) (hfat : e.isFatal = true) : e.isNotMyFatal cp = true := by
  cases e with
  | fatal c =>
    cases hcp : cp with
    | none => rfl
    | some c' =>
      obtain ⟨j, _, rfl⟩ := hf c' hcp
      have : c ≠ ρ j := fun hh => hρ.foreign j trivial (hh ▸ hem c rfl)
      simp [Err.isNotMyFatal, this]
  | stop => rfl
  | _ => simp [Err.isFatal] at hfat

theorem peg_complete (hρ : Good X ρ) (hX : X.Blind) (hesc : X.esc = none) {G o} (h : Peg E X G o) :
    Reached E X ρ G o := by
  have succ_of : ∀ {N n : Nat}, N + 1 ≤ n → ∃ n', n = n' + 1 ∧ N ≤ n' := fun {N n} h => ⟨n - 1, by omega, by omega⟩
  induction h with
  | @rule Γ rule r Γ' t vals inp o hr _ ih =>
    intro env m p0 he hw hc
    cases m with
    | zero => simp [compileTerm_zero] at hc
    | succ m =>
      rw [compileTerm_rule] at hc; simp at hc; subst hc
      obtain ⟨p, env', m', h1, h2, h3, h4, h5⟩ := he.resolves hr
      obtain ⟨N, hN⟩ := ih env' m' p h2 h4 h3
      refine ⟨N + 1, fun n h0 sc k hv hf => ?_⟩
      obtain ⟨n, rfl, hn⟩ := succ_of h0
      rw [slot, parse_link, h1]
      simp only [Res.ofOption]
      rw [← slot_of_ne h5]
      exact hN n hn sc k hv hf
  | named _ ih =>
    intro env m p0 he hw hc
    cases m with
    | zero => simp [compileTerm_zero] at hc
    | succ m =>
      rw [compileTerm_named] at hc
      exact ih env m p0 he (by simpa [Term.wf] using hw) hc
  | cut _ ih =>
    intro env m p0 he hw hc
    cases m with
    | zero => simp [compileTerm_zero] at hc
    | succ m =>
      rw [compileTerm_cut] at hc
      simp only [Except.bind_ok] at hc
      obtain ⟨q, hq, hc⟩ := hc
      simp at hc; subst hc
      simp only [Term.wf, Bool.and_eq_true] at hw
      have hne := compile_hard he.wrapWF hw.2 hw.1 hq
      obtain ⟨N, hN⟩ := ih env m q he hw.2 hq
      refine ⟨N + 1, fun n h0 sc k hv hf => ?_⟩
      obtain ⟨n, rfl, hn⟩ := succ_of h0
      rw [slot, parse_cut, ← slot_of_ne hne]
      · exact hN n hn sc k hv hf
      · simp
  | scope hE _ ih =>
    intro env m p0 he hw hc
    cases m with
    | zero => simp [compileTerm_zero] at hc
    | succ m =>
      obtain ⟨g', f, q, h1, h2, h3, h4, h5, h6⟩ := compile_scope_inv he hw hc
      obtain rfl := hE.det h1
      subst h5
      obtain ⟨N, hN⟩ := ih (f :: env) m q h2 h3 h4
      refine ⟨N + 1, fun n h0 sc k hv hf => ?_⟩
      obtain ⟨n, rfl, hn⟩ := succ_of h0
      rcases parse_slot_scope (E := E) (X := X) (ρ := ρ) (n := n + 1) (env := env) (q := q) (sc := sc)
        (inp := _) (k := k) h6 with ⟨_, hp⟩ | ⟨_, hp⟩
      · rw [hp]; exact hN _ (by omega) sc k hv hf
      · rw [hp]; exact hN _ hn sc k hv hf
  | lit hp hl =>
    intro env m p0 he hw hc
    cases m with
    | zero => simp [compileTerm_zero] at hc
    | succ m =>
      rw [compileTerm_s] at hc
      simp only [compileS, Except.bind_ok] at hc
      obtain ⟨re, h1, re', h2, hc⟩ := hc
      simp at hc; subst hc
      rw [← applyWrapRE_iff, ← cacheOf_wrap, h1] at hp
      simp at hp; subst hp
      obtain rfl := mustCompile_ok h2
      refine ⟨1, fun n h0 sc k hv hf => ?_⟩
      obtain ⟨n, rfl, hn⟩ := succ_of h0
      rw [slot, parse_s, escaping_none hesc, eatLeaf_out]
      · exact hl
      · simp
  | regexp hp hl =>
    intro env m p0 he hw hc
    cases m with
    | zero => simp [compileTerm_zero] at hc
    | succ m =>
      rw [compileTerm_re] at hc
      simp only [compileRE, Except.bind_ok] at hc
      obtain ⟨re, h1, re', h2, hc⟩ := hc
      simp at hc; subst hc
      rw [← applyWrapRE_iff, ← cacheOf_wrap, h1] at hp
      simp at hp; subst hp
      obtain rfl := mustCompile_ok h2
      refine ⟨1, fun n h0 sc k hv hf => ?_⟩
      obtain ⟨n, rfl, hn⟩ := succ_of h0
      rw [slot, parse_re, escaping_none hesc, eatLeaf_out]
      · exact hl
      · simp
  | seqOk _ ih =>
    intro env m p0 he hw hc
    cases m with
    | zero => simp [compileTerm_zero] at hc
    | succ m =>
      rw [compileTerm_seq, Except.bind_ok] at hc
      obtain ⟨ps, hps, hc⟩ := hc
      simp at hc; subst hc
      obtain ⟨N, hN⟩ := ih env m ps he hw hps
      refine ⟨N + 1, fun n h0 sc k hv hf => ?_⟩
      obtain ⟨n, rfl, hn⟩ := succ_of h0
      rw [slot, parse_seq, escaping_none hesc]
      · obtain ⟨k', hk⟩ := outs_oks (hN n hn sc.cp k sc k hv hf ⟨Nat.le_refl _, Or.inl ⟨rfl, rfl⟩⟩)
        rw [hk]; rfl
      · simp
  | seqNo _ ho ih =>
    intro env m p0 he hw hc
    cases m with
    | zero => simp [compileTerm_zero] at hc
    | succ m =>
      rw [compileTerm_seq, Except.bind_ok] at hc
      obtain ⟨ps, hps, hc⟩ := hc
      simp at hc; subst hc
      obtain ⟨N, hN⟩ := ih env m ps he hw hps
      refine ⟨N + 1, fun n h0 sc k hv hf => ?_⟩
      obtain ⟨n, rfl, hn⟩ := succ_of h0
      rw [slot, parse_seq, escaping_none hesc]
      · obtain ⟨e, i, k', hk, hcl⟩ := outs_no (hN n hn sc.cp k sc k hv hf ⟨Nat.le_refl _, Or.inl ⟨rfl, rfl⟩⟩) ho
        rw [hk]; simp only [Res.bind, Res.out, hcl]
      · simp
  | itemsNil =>
    intro env m ps he hw hm
    simp [makeParsers] at hm; subst hm
    exact ⟨0, fun n _ cp0 k0 sc k _ _ _ => rfl⟩
  | @itemsCons Γ t ts vals c c' inp v i vs i' _ hcc _ ih1 ih2 =>
    intro env m ps he hw hm
    obtain ⟨p, ps', h1, h2, rfl⟩ := makeParsers_cons hm
    simp only [wfList, Bool.and_eq_true] at hw
    obtain ⟨N1, hN1⟩ := ih1 env m p he hw.1 h1
    obtain ⟨N2, hN2⟩ := ih2 env m ps' he hw.2 h2
    refine ⟨N1 + N2, fun n hn cp0 k0 sc k hv hf hs => ?_⟩
    obtain ⟨k', hr⟩ := out_ok (hN1 n (by omega) sc k hv (hs.fresh hf))
    have htok := parse_tok E X ρ n env (slot p) sc inp k
    rw [hr] at htok
    have htok : k ≤ k' := htok
    simp only [List.map_cons, List.zip_cons_cons, seqLoop, hr]
    obtain ⟨r, hsc, hv', hs'⟩ := seq_step (t := t) (v := v) he hw.1 h1 hs htok hcc hv
    rw [hsc]
    obtain ⟨k'', hk⟩ := outs_oks (hN2 n (by omega) cp0 k0 _ _ hv' hf hs')
    rw [hk]; rfl
  | @itemsLater Γ t ts vals c c' inp v i o _ hcc _ ho ih1 ih2 =>
    intro env m ps he hw hm
    obtain ⟨p, ps', h1, h2, rfl⟩ := makeParsers_cons hm
    simp only [wfList, Bool.and_eq_true] at hw
    obtain ⟨N1, hN1⟩ := ih1 env m p he hw.1 h1
    obtain ⟨N2, hN2⟩ := ih2 env m ps' he hw.2 h2
    refine ⟨N1 + N2, fun n hn cp0 k0 sc k hv hf hs => ?_⟩
    obtain ⟨k', hr⟩ := out_ok (hN1 n (by omega) sc k hv (hs.fresh hf))
    have htok := parse_tok E X ρ n env (slot p) sc inp k
    rw [hr] at htok
    have htok : k ≤ k' := htok
    simp only [List.map_cons, List.zip_cons_cons, seqLoop, hr]
    obtain ⟨r, hsc, hv', hs'⟩ := seq_step (t := t) (v := v) he hw.1 h1 hs htok hcc hv
    rw [hsc]
    obtain ⟨e, i, k'', hk, hcl⟩ := outs_no (hN2 n (by omega) cp0 k0 _ _ hv' hf hs') ho
    rw [hk]; simp only [Res.bind, Res.outs, hcl]
  | @itemsFail Γ t ts vals c inp _ ih =>
    intro env m ps he hw hm
    obtain ⟨p, ps', h1, h2, rfl⟩ := makeParsers_cons hm
    simp only [wfList, Bool.and_eq_true] at hw
    obtain ⟨N1, hN1⟩ := ih env m p he hw.1 h1
    refine ⟨N1, fun n hn cp0 k0 sc k hv hf hs => ?_⟩
    obtain ⟨e, i, k', hr, hnm⟩ := out_fail (hN1 n (by omega) sc k hv (hs.fresh hf))
    have htok := parse_tok E X ρ n env (slot p) sc inp k
    rw [hr] at htok
    simp only [List.map_cons, List.zip_cons_cons, seqLoop, hr]
    obtain ⟨hk, ⟨rfl, hcp⟩ | ⟨rfl, j, hj1, hj2, hcp⟩⟩ := hs
    · rw [hcp] at hnm
      split
      · simp [Res.outs, hnm]
      · simp [Res.outs, hcp, isNotMyFatal_mkErr]
    · split
      · rename_i hfat
        have ht := htok.2
        rw [hcp] at ht
        simp [Res.outs, notMine hρ hf hj1 hk ht hfat]
      · have : (mkErr sc.cp).isNotMyFatal cp0 = true := by
          rw [hcp]
          exact notMine hρ hf hj1 hk (k' := k) tokOK_mkErr rfl
        simp [Res.outs, this]
  | @itemsAbort Γ t ts vals c inp _ ih =>
    intro env m ps he hw hm
    obtain ⟨p, ps', h1, h2, rfl⟩ := makeParsers_cons hm
    simp only [wfList, Bool.and_eq_true] at hw
    obtain ⟨N1, hN1⟩ := ih env m p he hw.1 h1
    refine ⟨N1, fun n hn cp0 k0 sc k hv hf hs => ?_⟩
    obtain ⟨e, i, k', hr, hnm⟩ := out_abort (hN1 n (by omega) sc k hv (hs.fresh hf))
    have htok := parse_tok E X ρ n env (slot p) sc inp k
    rw [hr] at htok
    simp only [List.map_cons, List.zip_cons_cons, seqLoop, hr, isFatal_of_notMine hnm, if_true]
    obtain ⟨hk, ⟨rfl, hcp⟩ | ⟨rfl, j, hj1, hj2, hcp⟩⟩ := hs
    · rw [hcp] at hnm; simp [Res.outs, hnm]
    · have ht := htok.2
      rw [hcp] at ht
      simp [Res.outs, notMine hρ hf hj1 hk ht (isFatal_of_notMine hnm)]
  | @oneof Γ rule ts vals inp o _ ih =>
    intro env m p0 he hw hc
    cases m with
    | zero => simp [compileTerm_zero] at hc
    | succ m =>
      rw [compileTerm_oneof, Except.bind_ok] at hc
      obtain ⟨ps, hps, hc⟩ := hc
      simp at hc; subst hc
      obtain ⟨N, hN⟩ := ih env m ps he hw hps
      refine ⟨N + 1, fun n h0 sc k hv hf => ?_⟩
      obtain ⟨n, rfl, hn⟩ := succ_of h0
      rw [slot, parse_oneof, escaping_none hesc]
      · cases hcp : sc.cp with
        | none =>
          rw [replaceCutPoint_false_none hcp]
          have ha := hN n hn sc none k inp hv hf
          rw [hcp] at ha
          cases o with
          | ok v j => obtain ⟨k', hk⟩ := ha; simp only; rw [hk]; rfl
          | oks => exact ha.elim
          | fail => obtain ⟨j, k', hk⟩ := ha; simp only; rw [hk]; rfl
          | abort => obtain ⟨e, j, k', hk, hnm, _⟩ := ha; simp only; rw [hk]; simp [Res.out, hnm]
        | some c =>
          rw [replaceCutPoint_false_some hcp]
          have ha := hN n hn { sc with cp := some (ρ k) } (some c) (k + 1) inp hv (freshCp_draw (by omega))
          cases o with
          | ok v j => obtain ⟨k', hk⟩ := ha; simp only; simp only at hk; rw [hk]; rfl
          | oks => exact ha.elim
          | fail =>
            obtain ⟨j, k', hk⟩ := ha; simp only; simp only at hk; rw [hk]
            simp [Res.out, isNotMyFatal_mkErr]
          | abort =>
            obtain ⟨e, j, k', hk, hnm, ht⟩ := ha
            simp only; simp only at hk; rw [hk]
            simp [Res.out, notMine hρ (hcp ▸ hf) (Nat.le_refl k) (Nat.le_succ k) ht (isFatal_of_notMine hnm)]
      · simp
  | altsNil =>
    intro env m ps he hw hm
    simp [makeParsers] at hm; subst hm
    exact ⟨0, fun n _ sc prev k fu _ _ => ⟨fu, k, rfl⟩⟩
  | @altsOk Γ tag t ts i vals inp v j _ ih =>
    intro env m ps he hw hm
    obtain ⟨p, ps', h1, h2, rfl⟩ := makeParsers_cons hm
    simp only [wfList, Bool.and_eq_true] at hw
    obtain ⟨N1, hN1⟩ := ih env m p he hw.1 h1
    refine ⟨N1, fun n hn sc prev k fu hv hf => ?_⟩
    obtain ⟨k', hr⟩ := out_ok (hN1 n hn sc k hv hf)
    simp only [oneofLoop, hr]
    exact ⟨k', rfl⟩
  | @altsAbort Γ tag t ts i vals inp _ ih =>
    intro env m ps he hw hm
    obtain ⟨p, ps', h1, h2, rfl⟩ := makeParsers_cons hm
    simp only [wfList, Bool.and_eq_true] at hw
    obtain ⟨N1, hN1⟩ := ih env m p he hw.1 h1
    refine ⟨N1, fun n hn sc prev k fu hv hf => ?_⟩
    obtain ⟨e, j, k', hr, hnm⟩ := out_abort (hN1 n hn sc k hv hf)
    have htok := parse_tok E X ρ n env (slot p) sc inp k
    rw [hr] at htok
    simp only [oneofLoop, hr, hnm, if_true]
    exact ⟨e, inp, k', rfl, hnm, htok.2⟩
  | @altsNext Γ tag t ts i vals inp o _ _ ih1 ih2 =>
    intro env m ps he hw hm
    obtain ⟨p, ps', h1, h2, rfl⟩ := makeParsers_cons hm
    simp only [wfList, Bool.and_eq_true] at hw
    obtain ⟨N1, hN1⟩ := ih1 env m p he hw.1 h1
    obtain ⟨N2, hN2⟩ := ih2 env m ps' he hw.2 h2
    refine ⟨N1 + N2, fun n hn sc prev k fu hv hf => ?_⟩
    obtain ⟨e, j, k', hr, hnm⟩ := out_fail (hN1 n (by omega) sc k hv hf)
    have htok := parse_tok E X ρ n env (slot p) sc inp k
    rw [hr] at htok
    have := hN2 n (by omega) sc prev k' (if fu.offset < j.offset then j else fu) hv (hf.mono htok.1)
    simp only [oneofLoop, hr, hnm]
    cases o with
    | ok v j' => exact this
    | oks => exact this
    | fail => exact this
    | abort =>
      obtain ⟨e', j', k'', hk, hn', ht⟩ := this
      exact ⟨e', j', k'', hk, hn', ht.mono htok.1 (Nat.le_refl _)⟩
  | @quantOk Γ rule t lo hi vals inp vs i _ hlo ih =>
    intro env m p0 he hw hc
    obtain ⟨q, m', hq, rfl⟩ := compile_quant_inv hc
    have hw' : t.wf = true := by simpa [Term.wf] using hw
    obtain ⟨N, hN⟩ := ih env m' q he hw' hq
    refine ⟨N + 1, fun n h0 sc k hv hf => ?_⟩
    obtain ⟨n, rfl, hn⟩ := succ_of h0
    rw [slot, parse_quant, escaping_none hesc]
    · cases hcp : sc.cp with
      | none =>
        rw [replaceCutPoint_false_none hcp]
        obtain ⟨k', hk⟩ := hN n n hn hn sc k hi 0 hv hf (by unfold leftOf; simp)
        rw [hcp] at hk
        simp only [hk, Res.bind, ge_iff_le, if_pos hlo]; rfl
      | some c =>
        rw [replaceCutPoint_false_some hcp]
        obtain ⟨k', hk⟩ := hN n n hn hn { sc with cp := some (ρ k) } (k + 1) hi 0 hv
          (freshCp_draw (by omega)) (by unfold leftOf; simp)
        simp only at hk
        simp only [hk, Res.bind, ge_iff_le, if_pos hlo]; rfl
    · simp
  | @quantFew Γ rule t lo hi vals inp vs i _ hlo ih =>
    intro env m p0 he hw hc
    obtain ⟨q, m', hq, rfl⟩ := compile_quant_inv hc
    have hw' : t.wf = true := by simpa [Term.wf] using hw
    obtain ⟨N, hN⟩ := ih env m' q he hw' hq
    refine ⟨N + 1, fun n h0 sc k hv hf => ?_⟩
    obtain ⟨n, rfl, hn⟩ := succ_of h0
    rw [slot, parse_quant, escaping_none hesc]
    · cases hcp : sc.cp with
      | none =>
        rw [replaceCutPoint_false_none hcp]
        obtain ⟨k', hk⟩ := hN n n hn hn sc k hi 0 hv hf (by unfold leftOf; simp)
        rw [hcp] at hk
        simp only [hk, Res.bind, ge_iff_le, if_neg (show ¬ lo ≤ vs.length by omega), Res.out, isNotMyFatal_mkErr]
        rfl
      | some c =>
        rw [replaceCutPoint_false_some hcp]
        obtain ⟨k', hk⟩ := hN n n hn hn { sc with cp := some (ρ k) } (k + 1) hi 0 hv
          (freshCp_draw (by omega)) (by unfold leftOf; simp)
        simp only at hk
        simp only [hk, Res.bind, ge_iff_le, if_neg (show ¬ lo ≤ vs.length by omega), Res.out, isNotMyFatal_mkErr]
        rfl
    · simp
  | @quantAbort Γ rule t lo hi vals inp _ ih =>
    intro env m p0 he hw hc
    obtain ⟨q, m', hq, rfl⟩ := compile_quant_inv hc
    have hw' : t.wf = true := by simpa [Term.wf] using hw
    obtain ⟨N, hN⟩ := ih env m' q he hw' hq
    refine ⟨N + 1, fun n h0 sc k hv hf => ?_⟩
    obtain ⟨n, rfl, hn⟩ := succ_of h0
    rw [slot, parse_quant, escaping_none hesc]
    · cases hcp : sc.cp with
      | none =>
        rw [replaceCutPoint_false_none hcp]
        obtain ⟨e, i, k', hk, hnm⟩ := hN n n hn hn sc k hi 0 hv hf (by unfold leftOf; simp)
        rw [hcp] at hk hnm
        simp only [hk, Res.bind, Res.out, hnm]; rfl
      | some c =>
        rw [replaceCutPoint_false_some hcp]
        obtain ⟨e, i, k', hk, hnm⟩ := hN n n hn hn { sc with cp := some (ρ k) } (k + 1) hi 0 hv
          (freshCp_draw (by omega)) (by unfold leftOf; simp)
        have htok := quantLoop_tok (X := X) (ρ := ρ) (max := hi) (my := some (ρ k))
          (fun i k' => parse_tok E X ρ n env (slot q) { sc with cp := some (ρ k) } i k') n 0 inp (k + 1)
        simp only at hk htok
        rw [hk] at htok
        simp only [hk, Res.bind, Res.out,
          notMine hρ (hcp ▸ hf) (Nat.le_refl k) (Nat.le_succ k) htok.2 (isFatal_of_notMine hnm)]
        rfl
    · simp
  | repsMax =>
    intro env m p he hw hc
    refine ⟨1, fun n L hn hL sc k max cnt hv hf hl => ?_⟩
    obtain ⟨L, rfl, hL'⟩ := succ_of hL
    rw [quantLoop, if_neg (leftOf_zero hl)]
    exact ⟨k, rfl⟩
  | repsStop hne _ ih =>
    intro env m p he hw hc
    obtain ⟨N, hN⟩ := ih env m p he hw hc
    refine ⟨N + 1, fun n L hn hL sc k max cnt hv hf hl => ?_⟩
    obtain ⟨L, rfl, hL'⟩ := succ_of hL
    obtain ⟨e, j, k', hr, hnm⟩ := out_fail (hN n (by omega) sc k hv hf)
    rw [quantLoop, if_pos (leftOf_pos (hl ▸ hne)), hr]
    simp only [hnm]
    exact ⟨k', rfl⟩
  | @repsMore Γ t vals left inp v i vs i' hne _ _ ih1 ih2 =>
    intro env m p he hw hc
    obtain ⟨N1, hN1⟩ := ih1 env m p he hw hc
    obtain ⟨N2, hN2⟩ := ih2 env m p he hw hc
    refine ⟨N1 + N2 + 1, fun n L hn hL sc k max cnt hv hf hl => ?_⟩
    obtain ⟨L, rfl, hL'⟩ := succ_of hL
    have htok := parse_tok E X ρ n env (slot p) sc inp k
    obtain ⟨k', hr⟩ := out_ok (hN1 n (by omega) sc k hv hf)
    rw [hr] at htok
    obtain ⟨k'', hk⟩ := hN2 n L (by omega) (by omega) sc k' max (cnt + 1) hv (hf.mono htok) (leftOf_next hl)
    rw [quantLoop, if_pos (leftOf_pos (hl ▸ hne)), hr]
    simp only [hk]
    exact ⟨k'', rfl⟩
  | @repsLater Γ t vals left inp v i hne _ _ ih1 ih2 =>
    intro env m p he hw hc
    obtain ⟨N1, hN1⟩ := ih1 env m p he hw hc
    obtain ⟨N2, hN2⟩ := ih2 env m p he hw hc
    refine ⟨N1 + N2 + 1, fun n L hn hL sc k max cnt hv hf hl => ?_⟩
    obtain ⟨L, rfl, hL'⟩ := succ_of hL
    have htok := parse_tok E X ρ n env (slot p) sc inp k
    obtain ⟨k', hr⟩ := out_ok (hN1 n (by omega) sc k hv hf)
    rw [hr] at htok
    obtain ⟨e, j, k'', hk, hnm⟩ := hN2 n L (by omega) (by omega) sc k' max (cnt + 1) hv (hf.mono htok)
      (leftOf_next hl)
    rw [quantLoop, if_pos (leftOf_pos (hl ▸ hne)), hr]
    simp only [hk]
    exact ⟨e, j, k'', rfl, hnm⟩
  | repsAbort hne _ ih =>
    intro env m p he hw hc
    obtain ⟨N, hN⟩ := ih env m p he hw hc
    refine ⟨N + 1, fun n L hn hL sc k max cnt hv hf hl => ?_⟩
    obtain ⟨L, rfl, hL'⟩ := succ_of hL
    obtain ⟨e, j, k', hr, hnm⟩ := out_abort (hN n (by omega) sc k hv hf)
    rw [quantLoop, if_pos (leftOf_pos (hl ▸ hne)), hr]
    simp only [hnm]
    exact ⟨e, _, k', rfl, hnm⟩
  | lookOk _ ih =>
    intro env m p0 he hw hc
    obtain ⟨q, m', hq, rfl⟩ := compile_look_inv hc
    obtain ⟨N, hN⟩ := ih env m' q he (by simpa [Term.wf] using hw) hq
    refine ⟨N + 1, fun n h0 sc k hv hf => ?_⟩
    obtain ⟨n, rfl, hn⟩ := succ_of h0
    rw [slot, parse_look, escaping_none hesc]
    · obtain ⟨k', hr⟩ := out_ok (hN n hn sc k hv hf)
      rw [hr]; rfl
    · simp
  | lookNo _ ho ih =>
    intro env m p0 he hw hc
    obtain ⟨q, m', hq, rfl⟩ := compile_look_inv hc
    obtain ⟨N, hN⟩ := ih env m' q he (by simpa [Term.wf] using hw) hq
    refine ⟨N + 1, fun n h0 sc k hv hf => ?_⟩
    obtain ⟨n, rfl, hn⟩ := succ_of h0
    rw [slot, parse_look, escaping_none hesc]
    · have := hN n hn sc k hv hf
      rcases ho with rfl | rfl
      · obtain ⟨e, j, k', hr, hnm⟩ := out_fail this
        rw [hr]; simp [lookResult, Res.out, hnm]
      · obtain ⟨e, j, k', hr, hnm⟩ := out_abort this
        rw [hr]; simp [lookResult, Res.out, hnm]
    · simp
  | delimOk _ hd ih =>
    intro env m p0 he hw hc
    obtain ⟨q, m', hq, rfl⟩ := compile_delim_inv hc
    simp only [Term.wf, Bool.and_eq_true] at hw
    obtain ⟨N, hN⟩ := ih env m' q he (by simpa [Term.wf] using wf_delimSeq hw.1 hw.2) hq
    refine ⟨N + 1, fun n h0 sc k hv hf => ?_⟩
    obtain ⟨n, rfl, hn⟩ := succ_of h0
    rw [slot, parse_delim, escaping_none hesc]
    · obtain ⟨k', hr⟩ := out_ok (hN n hn sc k hv hf)
      rw [hr]; simp [Res.bind, hd, Res.ofOption, Res.out]
    · simp
  | delimNo _ ho ih =>
    intro env m p0 he hw hc
    obtain ⟨q, m', hq, rfl⟩ := compile_delim_inv hc
    simp only [Term.wf, Bool.and_eq_true] at hw
    obtain ⟨N, hN⟩ := ih env m' q he (by simpa [Term.wf] using wf_delimSeq hw.1 hw.2) hq
    refine ⟨N + 1, fun n h0 sc k hv hf => ?_⟩
    obtain ⟨n, rfl, hn⟩ := succ_of h0
    rw [slot, parse_delim, escaping_none hesc]
    · exact out_bind_no (hN n hn sc k hv hf) ho
    · simp
  | @refOk Γ rule ident d vals inp w t v i hl ht hq _ hn ih =>
    intro env m p0 he hw hc
    obtain ⟨m', rfl⟩ := compile_ref_inv hc
    obtain ⟨M, hM⟩ := compile_text_ok t hq
    obtain ⟨q, hcq, hne⟩ := hM M (Nat.le_refl _) ident
    obtain ⟨hw1, hw2⟩ := isText_wf t (termFromRefVal_text w ht)
    obtain ⟨N, hN⟩ := ih [] M q .nil hw1 hcq
    refine ⟨M + N + 1, fun n h0 sc k hv hf => ?_⟩
    obtain ⟨n, rfl, hnn⟩ := succ_of h0
    have hget : sc.getVal ident = some w := by unfold Scope.getVal; rw [hv, hl]
    rw [slot, parse_ref, escaping_none hesc, hget]
    · simp only [refExpect, ht, Res.ofOption]
      rw [compileTerm_mono_le (show M ≤ n by omega) (by rw [hcq]; simp), hcq]
      simp only [Res.ofExcept]
      obtain ⟨k', hr⟩ := out_ok (hN n (by omega) sc k hv hf)
      rw [slot_of_ne hne] at hr
      rw [hr]; simp [Res.bind, hn, Res.out]
    · simp
  | @refDiffers Γ rule ident d vals inp w t v i hl ht hq _ hn ih =>
    intro env m p0 he hw hc
    obtain ⟨m', rfl⟩ := compile_ref_inv hc
    obtain ⟨M, hM⟩ := compile_text_ok t hq
    obtain ⟨q, hcq, hne⟩ := hM M (Nat.le_refl _) ident
    obtain ⟨hw1, hw2⟩ := isText_wf t (termFromRefVal_text w ht)
    obtain ⟨N, hN⟩ := ih [] M q .nil hw1 hcq
    refine ⟨M + N + 1, fun n h0 sc k hv hf => ?_⟩
    obtain ⟨n, rfl, hnn⟩ := succ_of h0
    have hget : sc.getVal ident = some w := by unfold Scope.getVal; rw [hv, hl]
    rw [slot, parse_ref, escaping_none hesc, hget]
    · simp only [refExpect, ht, Res.ofOption]
      rw [compileTerm_mono_le (show M ≤ n by omega) (by rw [hcq]; simp), hcq]
      simp only [Res.ofExcept]
      obtain ⟨k', hr⟩ := out_ok (hN n (by omega) sc k hv hf)
      rw [slot_of_ne hne] at hr
      rw [hr]; simp [Res.bind, hn, Res.out, Err.isNotMyFatal]
    · simp
  | @refNo Γ rule ident d vals inp w t o hl ht hq _ ho ih =>
    intro env m p0 he hw hc
    obtain ⟨m', rfl⟩ := compile_ref_inv hc
    obtain ⟨M, hM⟩ := compile_text_ok t hq
    obtain ⟨q, hcq, hne⟩ := hM M (Nat.le_refl _) ident
    obtain ⟨hw1, hw2⟩ := isText_wf t (termFromRefVal_text w ht)
    obtain ⟨N, hN⟩ := ih [] M q .nil hw1 hcq
    refine ⟨M + N + 1, fun n h0 sc k hv hf => ?_⟩
    obtain ⟨n, rfl, hnn⟩ := succ_of h0
    have hget : sc.getVal ident = some w := by unfold Scope.getVal; rw [hv, hl]
    rw [slot, parse_ref, escaping_none hesc, hget]
    · simp only [refExpect, ht, Res.ofOption]
      rw [compileTerm_mono_le (show M ≤ n by omega) (by rw [hcq]; simp), hcq]
      simp only [Res.ofExcept]
      have := hN n (by omega) sc k hv hf
      rw [slot_of_ne hne] at this
      exact out_bind_no this ho
    · simp
  | @refDefault Γ rule ident t vals inp o hl hq _ ih =>
    intro env m p0 he hw hc
    obtain ⟨m', rfl⟩ := compile_ref_inv hc
    obtain ⟨M, hM⟩ := compile_text_ok t hq
    obtain ⟨q, hcq, hne⟩ := hM M (Nat.le_refl _) ident
    obtain ⟨hw1, hw2⟩ := isText_wf t (by simpa [Term.wf] using hw)
    obtain ⟨N, hN⟩ := ih [] M q .nil hw1 hcq
    refine ⟨M + N + 1, fun n h0 sc k hv hf => ?_⟩
    obtain ⟨n, rfl, hnn⟩ := succ_of h0
    have hget : sc.getVal ident = none := by unfold Scope.getVal; rw [hv, hl]
    rw [slot, parse_ref, escaping_none hesc, hget]
    · simp only [Wbnf.refDefault]
      rw [compileTerm_mono_le (show M ≤ n by omega) (by rw [hcq]; simp), hcq]
      simp only [Res.ofExcept]
      have := hN n (by omega) sc k hv hf
      rwa [slot_of_ne hne] at this
    · simp
  | @refUnbound Γ rule ident vals inp hl =>
    intro env m p0 he hw hc
    obtain ⟨m', rfl⟩ := compile_ref_inv hc
    refine ⟨1, fun n hn sc k hv hf => ?_⟩
    obtain ⟨n, rfl, hn'⟩ := succ_of hn
    have hget : sc.getVal ident = none := by unfold Scope.getVal; rw [hv, hl]
    rw [slot, parse_ref, escaping_none hesc, hget]
    · simp [Wbnf.refDefault, Res.out, Err.isNotMyFatal]
    · simp
  | @extNone Γ rule x vals inp hx =>
    intro env m p0 he hw hc
    obtain ⟨m', rfl⟩ := compile_ext_inv hc
    refine ⟨1, fun n hn sc k hv hf => ?_⟩
    obtain ⟨n, rfl, hn'⟩ := succ_of hn
    rw [slot, parse_ext, escaping_none hesc, hx]
    · simp only [Res.out, foreign_notMine hρ hf (e := .fatal 1) (fun c hc => by simp at hc; exact Or.inl hc.symm) rfl]
      rfl
    · simp
  | @ext Γ rule x f vals inp hx =>
    intro env m p0 he hw hc
    obtain ⟨m', rfl⟩ := compile_ext_inv hc
    refine ⟨1, fun n hn sc k hv hf => ?_⟩
    obtain ⟨n, rfl, hn'⟩ := succ_of hn
    rw [slot, parse_ext, escaping_none hesc, hx]
    · simp only
      have hb : f ⟨sc.getVal, sc.cp, [], none⟩ inp = f ⟨fun i => lookup i vals, none, [], none⟩ inp := by
        subst hv
        exact hX.refs x f hx ⟨sc.getVal, none, [], none⟩ sc.cp inp
      rw [hb]
      unfold extResult extOut
      cases her : (f ⟨fun i => lookup i vals, none, [], none⟩ inp).err with
      | none => rfl
      | some e =>
        simp only [Res.out, Option.some.injEq]
        cases hfat : e.isFatal with
        | false => rw [notMine_of_notFatal hfat]
        | true =>
          rw [foreign_notMine hρ hf (fun c hc => Or.inr (Or.inl ⟨x, f, _, inp, hx, hc ▸ her⟩)) hfat]
    · simp
end

end Wbnf

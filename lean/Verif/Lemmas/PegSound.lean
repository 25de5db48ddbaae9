import Verif.Lemmas.PegEnv

/-! Soundness: every outcome of the parser is an outcome of the semantics. -/

namespace Wbnf

section
variable {E : Engine} {X : Externals} {ρ : Nat → Nat}

/-- The token of the scope was drawn before. -/
def FreshCp (ρ : Nat → Nat) (cp : Option Nat) (k : Nat) : Prop :=
  ∀ c, cp = some c → ∃ j, j < k ∧ ρ j = c

theorem FreshCp.mono {cp k l} (h : FreshCp ρ cp k) (hl : k ≤ l) : FreshCp ρ cp l :=
  fun c hc => by obtain ⟨j, h1, h2⟩ := h c hc; exact ⟨j, by omega, h2⟩

theorem freshCp_none {k} : FreshCp ρ none k := fun c hc => by simp at hc

theorem freshCp_draw {k l} (h : k < l) : FreshCp ρ (some (ρ k)) l :=
  fun c hc => ⟨k, h, by simpa using hc⟩

abbrev Good (X : Externals) (ρ : Nat → Nat) : Prop := GoodOn X ρ (fun _ => True)

/-- A fatal error of a scope whose token was drawn later is not for the outer scope. -/
theorem notMine (hρ : Good X ρ) {cp0 k0 j k k' e} (h0 : FreshCp ρ cp0 k0) (hj : k0 ≤ j) (hk : k0 ≤ k)
    (ht : TokOK X ρ (some (ρ j)) k k' e) (hf : e.isFatal = true) : e.isNotMyFatal cp0 = true := by
  cases e with
  | fatal c =>
    cases cp0 with
    | none => simp [Err.isNotMyFatal]
    | some c0 =>
      obtain ⟨i, hi, rfl⟩ := h0 c0 rfl
      simp only [Err.isNotMyFatal, ne_eq, Option.some.injEq, decide_not, Bool.not_eq_eq_eq_not,
        Bool.not_true, decide_eq_false_iff_not]
      rcases ht with h | ⟨l, h1, h2, h3⟩ | h
      · simp at h; rw [← h]; intro hh; have := hρ.inj j i trivial trivial hh; omega
      · rw [← h3]; intro hh; have := hρ.inj l i trivial trivial hh; omega
      · intro hh; subst hh; exact hρ.foreign i trivial h
  | stop => rfl
  | _ => simp [Err.isFatal] at hf

theorem isFatal_of_notMine {e : Err} {cp} (h : e.isNotMyFatal cp = true) : e.isFatal = true := by
  cases e <;> simp [Err.isNotMyFatal] at h <;> rfl

theorem notMine_of_notFatal {e : Err} {cp} (h : e.isFatal = false) : e.isNotMyFatal cp = false := by
  cases e <;> simp [Err.isFatal] at h <;> rfl

/-- As `Res.out`, for lists. -/
def Res.outs (cp : Option Nat) : Res (List Tree) → Option Out
  | .ok v i _ => some (.oks v i)
  | .err e _ _ => some (if e.isNotMyFatal cp then .abort else .fail)
  | _ => none

theorem bindVal_eq (sc : Scope) (i v) : (sc.withVal i v).vals = bindVal sc.vals i v := by
  unfold Scope.withVal bindVal
  by_cases h : i = [] <;> simp [h]

/-- State of the scope while a sequence is going on: before a cut point the token is the one it
started with, afterwards it is a draw. -/
def SeqCp (ρ : Nat → Nat) (cp0 : Option Nat) (k0 : Nat) (com : Bool) (cp : Option Nat) (k : Nat) : Prop :=
  k0 ≤ k ∧ ((com = false ∧ cp = cp0) ∨ (com = true ∧ ∃ j, k0 ≤ j ∧ j < k ∧ cp = some (ρ j)))

theorem SeqCp.fresh {cp0 k0 com cp k} (h : SeqCp ρ cp0 k0 com cp k) (h0 : FreshCp ρ cp0 k0) :
    FreshCp ρ cp k := by
  obtain ⟨h1, ⟨_, rfl⟩ | ⟨_, j, _, h3, rfl⟩⟩ := h
  · exact h0.mono h1
  · exact freshCp_draw h3

theorem makeParsers_cons {c comp t ts ps} (h : makeParsers c comp (t :: ts) = .ok ps) :
    ∃ p ps', comp t = .ok p ∧ makeParsers c comp ts = .ok ps' ∧ ps = slot p :: ps' := by
  simp only [makeParsers, Except.bind_ok] at h
  obtain ⟨p, h1, p', h2, ps', h3, h⟩ := h
  simp at h
  exact ⟨p, ps', h1, h3, by rw [← h, register_slot h2]⟩

/-- What is shown for one term with fuel `n`. -/
def SoundAt (E : Engine) (X : Externals) (ρ : Nat → Nat) (n : Nat) : Prop :=
  ∀ m Γ env rule t p0 sc inp k o, EnvRel E Γ env → t.wf = true →
    compileTerm E m (cacheOf Γ) rule t = .ok p0 → FreshCp ρ sc.cp k →
    (parse E X ρ n env (slot p0) sc inp k).out sc.cp = some o →
    Peg E X (.term Γ rule t sc.vals inp) o

theorem seq_sound (hρ : Good X ρ) {n} (ih : SoundAt E X ρ n) {m Γ env} (he : EnvRel E Γ env) {ts ps}
    (hw : wfList ts = true) (hm : makeParsers (cacheOf Γ) (compileTerm E m (cacheOf Γ) []) ts = .ok ps)
    {cp0 k0 com sc k inp o} (h0 : FreshCp ρ cp0 k0) (hs : SeqCp ρ cp0 k0 com sc.cp k)
    (h : (seqLoop ρ (parse E X ρ n env) (isCutItem env) ((ts.map identFromTerm).zip ps) sc inp k).outs cp0
      = some o) : Peg E X (.seq Γ ts sc.vals com inp) o := by
  induction ts generalizing ps com sc k inp o with
  | nil =>
    simp [seqLoop, Res.outs] at h; subst h
    exact .itemsNil
  | cons t ts iht =>
    obtain ⟨p, ps', h1, h2, rfl⟩ := makeParsers_cons hm
    simp only [wfList, Bool.and_eq_true] at hw
    simp only [List.map_cons, List.zip_cons_cons, seqLoop] at h
    have hit := ih m Γ env [] t p sc inp k
    have htok := parse_tok E X ρ n env (slot p) sc inp k
    cases hr : parse E X ρ n env (slot p) sc inp k with
    | panic => simp [hr, Res.outs] at h
    | oof => simp [hr, Res.outs] at h
    | err e inp' k' =>
      rw [hr] at htok h
      simp only at h
      have hitem := fun o' ho => hit o' he hw.1 h1 (hs.fresh h0) ho
      rw [hr] at hitem
      simp only [Res.out, Option.some.injEq] at hitem
      have hitem := hitem _ rfl
      by_cases hf : e.isFatal = true
      · rw [if_pos hf] at h
        simp only [Res.outs, Option.some.injEq] at h
        subst h
        obtain ⟨hk, ⟨rfl, hcp⟩ | ⟨rfl, j, hj1, hj2, hcp⟩⟩ := hs
        · rw [hcp] at hitem
          by_cases hm' : e.isNotMyFatal cp0 = true
          · simp only [hm', if_true] at hitem ⊢
            exact .itemsAbort hitem
          · simp only [hm'] at hitem ⊢
            exact .itemsFail hitem
        · have ht := htok.2
          rw [hcp] at ht
          rw [if_pos (notMine hρ h0 hj1 hk ht hf)]
          split at hitem
          · exact .itemsAbort hitem
          · exact .itemsFail (c := true) hitem
      · rw [if_neg hf] at h
        simp only [Res.outs, Option.some.injEq] at h
        subst h
        rw [notMine_of_notFatal (by simpa using hf)] at hitem
        obtain ⟨hk, ⟨rfl, hcp⟩ | ⟨rfl, j, hj1, hj2, hcp⟩⟩ := hs
        · rw [hcp, isNotMyFatal_mkErr]
          exact .itemsFail (c := false) hitem
        · have : (mkErr sc.cp).isNotMyFatal cp0 = true := by
            rw [hcp]
            exact notMine hρ h0 hj1 hk (k' := k) tokOK_mkErr rfl
          rw [this]
          exact .itemsFail (c := true) hitem
    | ok v inp' k' =>
      rw [hr] at htok h
      have htok : k ≤ k' := htok
      simp only at h
      have hitem : Peg E X (.term Γ [] t sc.vals inp) (.ok v inp') :=
        hit _ he hw.1 h1 (hs.fresh h0) (by rw [hr]; rfl)
      have hcut := isCut_item he hw.1 h1
      -- the rest of the sequence
      have hrest : ∀ (com' : Bool) (sc' : Scope) (k1 : Nat), (com' = true ↔ com = true ∨ IsCut Γ t) →
          sc'.vals = bindVal sc.vals (identFromTerm t) v → SeqCp ρ cp0 k0 com' sc'.cp k1 →
          ((seqLoop ρ (parse E X ρ n env) (isCutItem env) ((ts.map identFromTerm).zip ps') sc' inp' k1).bind
            fun vs i k'' => Res.ok (v :: vs) i k'').outs cp0 = some o →
          Peg E X (.seq Γ (t :: ts) sc.vals com inp) o := by
        intro com' sc' k1 hcom hv hs' hh
        cases hr' : seqLoop ρ (parse E X ρ n env) (isCutItem env) ((ts.map identFromTerm).zip ps') sc' inp' k1 with
        | ok vs i k'' =>
          rw [hr'] at hh
          simp only [Res.bind, Res.outs, Option.some.injEq] at hh
          subst hh
          have := iht hw.2 h2 hs' (o := .oks vs i) (by rw [hr']; rfl)
          rw [hv] at this
          exact .itemsCons hitem hcom this
        | err e i k'' =>
          rw [hr'] at hh
          simp only [Res.bind, Res.outs, Option.some.injEq] at hh
          have := iht hw.2 h2 hs' (o := o) (by rw [hr']; simp only [Res.outs, hh])
          rw [hv] at this
          exact .itemsLater hitem hcom this (by subst hh; split <;> simp)
        | panic => simp [hr', Res.bind, Res.outs] at hh
        | oof => simp [hr', Res.bind, Res.outs] at hh
      cases hic : isCutItem env (slot p) with
      | true =>
        rw [hic] at h
        simp only [if_true, replaceCutPoint_true] at h
        refine hrest true _ _ ?_ (bindVal_eq { sc with cp := some (ρ k') } _ _) ?_ h
        · simp [hcut.1 hic]
        · rw [withVal_cp]
          exact ⟨by have := hs.1; omega, Or.inr ⟨rfl, k', by have := hs.1; omega, by omega, rfl⟩⟩
      | false =>
        rw [hic] at h
        simp only [Bool.false_eq_true, if_false] at h
        refine hrest com _ _ ?_ (bindVal_eq _ _ _) ?_ h
        · have : ¬ IsCut Γ t := fun hh => by rw [hcut.2 hh] at hic; simp at hic
          simp [this]
        · rw [withVal_cp]
          obtain ⟨hk, ⟨rfl, hcp⟩ | ⟨rfl, j, hj1, hj2, hcp⟩⟩ := hs
          · exact ⟨by omega, Or.inl ⟨rfl, hcp⟩⟩
          · exact ⟨by omega, Or.inr ⟨rfl, j, hj1, by omega, hcp⟩⟩

/-- How many more repetitions are allowed. -/
def leftOf (max cnt : Nat) : Option Nat := if max = 0 then none else some (max - cnt)

theorem reps_sound {n} (ih : SoundAt E X ρ n) {m Γ env} (he : EnvRel E Γ env) {t p}
    (hw : t.wf = true) (hm : compileTerm E m (cacheOf Γ) [] t = .ok p) {max : Nat} {sc : Scope} {N cnt}
    {inp : Scanner} {k : Nat} (hs : FreshCp ρ sc.cp k) :
    (∀ vs i k', quantLoop (fun i k => parse E X ρ n env (slot p) sc i k) max sc.cp N cnt inp k = .ok vs i k' →
      Peg E X (.reps Γ t sc.vals (leftOf max cnt) inp) (.oks vs i)) ∧
    (∀ e i k', quantLoop (fun i k => parse E X ρ n env (slot p) sc i k) max sc.cp N cnt inp k = .err e i k' →
      Peg E X (.reps Γ t sc.vals (leftOf max cnt) inp) .abort ∧ e.isNotMyFatal sc.cp = true) := by
  induction N generalizing cnt inp k with
  | zero => simp [quantLoop]
  | succ N ihN =>
    rw [quantLoop]
    by_cases hc : max = 0 ∨ cnt < max
    · rw [if_pos hc]
      have hleft : leftOf max cnt ≠ some 0 := by
        unfold leftOf; split <;> simp; omega
      have hnext : leftOf max (cnt + 1) = (leftOf max cnt).map (· - 1) := by
        unfold leftOf; split <;> simp; omega
      have hit := ih m Γ env [] t p sc inp k
      have htok := parse_tok E X ρ n env (slot p) sc inp k
      cases hr : parse E X ρ n env (slot p) sc inp k with
      | panic => simp
      | oof => simp
      | err e i' k' =>
        have hitem := hit _ he hw hm hs (by rw [hr]; rfl)
        simp only
        by_cases hn : e.isNotMyFatal sc.cp = true
        · simp only [hn, if_true] at hitem ⊢
          constructor
          · intro _ _ _ h; simp at h
          · intro e' i k'' h
            simp at h
            obtain ⟨rfl, _⟩ := h
            exact ⟨.repsAbort hleft hitem, hn⟩
        · simp only [hn] at hitem ⊢
          constructor
          · intro vs i k'' h
            simp at h
            obtain ⟨rfl, rfl, _⟩ := h
            exact .repsStop hleft hitem
          · intro _ _ _ h; simp at h
      | ok v i' k' =>
        rw [hr] at htok
        have hitem := hit _ he hw hm hs (by rw [hr]; rfl)
        obtain ⟨a, b⟩ := ihN (cnt := cnt + 1) (inp := i') (k := k') (hs.mono htok)
        simp only
        rw [hnext] at a b
        cases hr' : quantLoop (fun i k => parse E X ρ n env (slot p) sc i k) max sc.cp N (cnt + 1) i' k' with
        | ok vs j k'' =>
          simp only [Res.bind]
          constructor
          · intro vs' i k3 h
            simp at h
            obtain ⟨rfl, rfl, _⟩ := h
            exact .repsMore hleft hitem (a vs j k'' hr')
          · intro _ _ _ h; simp at h
        | err e j k'' =>
          simp only [Res.bind]
          constructor
          · intro _ _ _ h; simp at h
          · intro e' i k3 h
            simp at h
            obtain ⟨rfl, _⟩ := h
            exact ⟨.repsLater hleft hitem (b e j k'' hr').1, (b e j k'' hr').2⟩
        | panic => simp [Res.bind]
        | oof => simp [Res.bind]
    · rw [if_neg hc]
      have hleft : leftOf max cnt = some 0 := by
        unfold leftOf; rw [if_neg (by omega)]; simp; omega
      constructor
      · intro vs i k' h
        simp at h
        obtain ⟨rfl, rfl, _⟩ := h
        rw [hleft]
        exact .repsMax
      · intro _ _ _ h; simp at h

theorem alts_sound {n} (ih : SoundAt E X ρ n) {m Γ env} (he : EnvRel E Γ env) {ts ps}
    (hw : wfList ts = true) (hm : makeParsers (cacheOf Γ) (compileTerm E m (cacheOf Γ) []) ts = .ok ps)
    {tag prev} {sc : Scope} {inp : Scanner} {i fu k} (hs : FreshCp ρ sc.cp k) :
    match oneofLoop (fun q i k => parse E X ρ n env q sc i k) tag prev sc.cp inp ps i fu k with
    | .ok v j _ => Peg E X (.alts Γ tag ts i sc.vals inp) (.ok v j)
    | .err e _ k' => (Peg E X (.alts Γ tag ts i sc.vals inp) .fail ∧ e = mkErr prev) ∨
        (Peg E X (.alts Γ tag ts i sc.vals inp) .abort ∧ e.isNotMyFatal sc.cp = true ∧
          TokOK X ρ sc.cp k k' e)
    | _ => True := by
  induction ts generalizing ps i fu k with
  | nil =>
    simp [makeParsers] at hm; subst hm
    simp only [oneofLoop]
    exact Or.inl ⟨.altsNil, by simp⟩
  | cons t ts iht =>
    obtain ⟨p, ps', h1, h2, rfl⟩ := makeParsers_cons hm
    simp only [wfList, Bool.and_eq_true] at hw
    simp only [oneofLoop]
    have hit := ih m Γ env [] t p sc inp k
    have htok := parse_tok E X ρ n env (slot p) sc inp k
    cases hr : parse E X ρ n env (slot p) sc inp k with
    | panic => trivial
    | oof => trivial
    | ok v j k' =>
      exact .altsOk (hit _ he hw.1 h1 hs (by rw [hr]; rfl))
    | err e j k' =>
      rw [hr] at htok
      have hitem := hit _ he hw.1 h1 hs (by rw [hr]; rfl)
      simp only
      by_cases hn : e.isNotMyFatal sc.cp = true
      · rw [if_pos hn] at hitem ⊢
        exact Or.inr ⟨.altsAbort hitem, hn, htok.2⟩
      · simp only [hn] at hitem ⊢
        have := iht hw.2 h2 (i := i + 1) (fu := if fu.offset < j.offset then j else fu) (k := k')
          (hs.mono htok.1)
        simp only [Bool.false_eq_true, if_false] at hitem ⊢
        revert this
        cases oneofLoop (fun q i k => parse E X ρ n env q sc i k) tag prev sc.cp inp ps' (i + 1)
            (if fu.offset < j.offset then j else fu) k' with
        | ok v j' k'' => exact fun h => .altsNext hitem h
        | err e' j' k'' =>
          rintro (⟨h, he⟩ | ⟨h, he, ht⟩)
          · exact Or.inl ⟨.altsNext hitem h, he⟩
          · exact Or.inr ⟨.altsNext hitem h, he, ht.mono htok.1 (Nat.le_refl _)⟩
        | panic => exact fun _ => trivial
        | oof => exact fun _ => trivial

theorem escaping_none (hX : X.esc = none) {ident t sc inp k cont} :
    escaping E X ident t sc inp k cont = cont := by
  simp [escaping, parseEscape, hX]

mutual
theorem termFromRefVal_text : (v : Tree) → ∀ {t}, termFromRefVal v = some t → t.isText = true
  | .node _ _ cs, t, h => by
    simp only [termFromRefVal, Option.map_eq_some_iff] at h
    obtain ⟨ts, h, rfl⟩ := h
    exact termsFromRefVals_text cs h
  | .leaf s, t, h => by
    simp only [termFromRefVal, Option.map_eq_some_iff] at h
    obtain ⟨l, _, rfl⟩ := h
    rfl
  | .empty, t, h => by simp [termFromRefVal] at h
  | .foreign _, t, h => by simp [termFromRefVal] at h
theorem termsFromRefVals_text : (vs : List Tree) → ∀ {ts}, termsFromRefVals vs = some ts →
    isTextList ts = true
  | [], ts, h => by simp [termsFromRefVals] at h; subst h; rfl
  | v :: vs, ts, h => by
    simp only [termsFromRefVals] at h
    split at h
    · rename_i a b ha hb
      simp at h; subst h
      simp only [isTextList, Bool.and_eq_true]
      exact ⟨termFromRefVal_text v ha, termsFromRefVals_text vs hb⟩
    · simp at h
end

mutual
theorem isText_wf : (t : Term) → t.isText = true → t.wf = true ∧ t.hard = true
  | .s _, _ => ⟨rfl, rfl⟩
  | .seq ts, h => ⟨isTextList_wf ts h, rfl⟩
  | .rule _, h => by simp [Term.isText] at h
  | .re _, h => by simp [Term.isText] at h
  | .ref _ _, h => by simp [Term.isText] at h
  | .ext _, h => by simp [Term.isText] at h
  | .oneof _, h => by simp [Term.isText] at h
  | .stack _, h => by simp [Term.isText] at h
  | .delim _ _ _ _ _, h => by simp [Term.isText] at h
  | .look _, h => by simp [Term.isText] at h
  | .quant _ _ _, h => by simp [Term.isText] at h
  | .named _ _, h => by simp [Term.isText] at h
  | .scope _ _, h => by simp [Term.isText] at h
  | .cut _, h => by simp [Term.isText] at h
theorem isTextList_wf : (ts : List Term) → isTextList ts = true → wfList ts = true
  | [], _ => rfl
  | t :: ts, h => by
    simp only [isTextList, Bool.and_eq_true] at h
    simp only [wfList, Bool.and_eq_true]
    exact ⟨(isText_wf t h.1).1, isTextList_wf ts h.2⟩
end

/-- A literal term compiles exactly when its literals can be quoted. -/
theorem compile_text {m} : ∀ {rule t}, t.isText = true → ∀ {p}, compileTerm E m ⟨none, true⟩ rule t = .ok p →
    t.quotable E = true := by
  induction m with
  | zero => intro rule t _ p h; simp [compileTerm_zero] at h
  | succ m ih =>
    have hl : ∀ (ts : List Term) ps, isTextList ts = true →
        makeParsers ⟨none, true⟩ (compileTerm E m ⟨none, true⟩ []) ts = .ok ps → quotableList E ts = true := by
      intro ts
      induction ts with
      | nil => intro _ _ _; rfl
      | cons t ts iht =>
        intro ps ht h
        obtain ⟨p, ps', h1, h2, rfl⟩ := makeParsers_cons h
        simp only [isTextList, Bool.and_eq_true] at ht
        simp only [quotableList, Bool.and_eq_true]
        exact ⟨ih ht.1 h1, iht _ ht.2 h2⟩
    intro rule t ht p h
    cases t with
    | s l =>
      rw [compileTerm_s] at h
      simp only [compileS, applyWrapRE, Except.bind_ok] at h
      obtain ⟨re, h1, re', h2, _⟩ := h
      simp at h1; subst h1
      unfold mustCompile at h2
      split at h2
      · assumption
      · simp at h2
    | seq ts =>
      rw [compileTerm_seq, Except.bind_ok] at h
      obtain ⟨ps, hps, _⟩ := h
      exact hl ts ps ht hps
    | _ => simp [Term.isText] at ht

theorem parse_slot_scope {n env f q} (hf : ∀ r p', lookup r f = some p' → ∀ r', p' ≠ .rule r')
    {sc : Scope} {inp k} :
    ((∃ r, q = P.rule r) ∧ parse E X ρ n env (slot (scopeResult f q)) sc inp k =
        parse E X ρ n (f :: env) (slot q) sc inp k) ∨
    ((∀ r, q ≠ P.rule r) ∧ parse E X ρ n env (slot (scopeResult f q)) sc inp k =
        (match n with | 0 => .oof | n + 1 => parse E X ρ n (f :: env) (slot q) sc inp k)) := by
  rcases scopeResult_cases (q := q) hf with ⟨r', rfl, h7, h8⟩ | ⟨r', p', rfl, h7, h8, h9⟩ | ⟨h7, h8⟩
  · refine Or.inl ⟨⟨_, rfl⟩, ?_⟩
    rw [h8]
    cases n with
    | zero => rfl
    | succ n => simp only [slot, parse_link, lookupEnv, h7]
  · refine Or.inl ⟨⟨_, rfl⟩, ?_⟩
    rw [h8]
    cases n with
    | zero => rfl
    | succ n => simp [slot, parse_link, parse_scope, lookupEnv, h7, Res.ofOption]
  · refine Or.inr ⟨h7, ?_⟩
    rw [h8, slot_of_ne h7]
    cases n with
    | zero => rfl
    | succ n => rfl

theorem out_bind_ok {cp} {r : Res Tree} {f : Tree → Scanner → Nat → Res Tree} {o}
    (h : (r.bind f).out cp = some o) :
    (∃ v i k, r = .ok v i k ∧ (f v i k).out cp = some o) ∨
    (r.out cp = some o ∧ (o = .fail ∨ o = .abort)) := by
  cases r with
  | ok v i k => exact Or.inl ⟨v, i, k, rfl, h⟩
  | err e i k =>
    refine Or.inr ⟨h, ?_⟩
    simp only [Res.bind, Res.out, Option.some.injEq] at h
    subst h; split <;> simp
  | panic => simp [Res.bind, Res.out] at h
  | oof => simp [Res.bind, Res.out] at h

theorem parse_sound (hρ : Good X ρ) (hX : X.Blind) (hesc : X.esc = none) (n : Nat) :
    SoundAt E X ρ n := by
  induction n with
  | zero => intro m Γ env rule t p0 sc inp k o _ _ _ _ h; simp [parse_zero, Res.out] at h
  | succ n ih =>
    intro m
    induction m with
    | zero => intro Γ env rule t p0 sc inp k o _ _ h; simp [compileTerm_zero] at h
    | succ m ihm =>
      intro Γ env rule t p0 sc inp k o he hw hc hfr h
      cases t with
      | rule r =>
        rw [compileTerm_rule] at hc; simp at hc; subst hc
        rw [slot, parse_link] at h
        cases hl : lookupEnv r env with
        | none => simp [hl, Res.ofOption, Res.out] at h
        | some q =>
          obtain ⟨q, env'⟩ := q
          simp only [hl, Res.ofOption] at h
          obtain ⟨Γ', t', m', h1, h2, h3, h4, h5⟩ := he.lookup_some hl
          rw [← slot_of_ne h5] at h
          exact .rule h1 (ih m' Γ' env' r t' q sc inp k o h2 h4 h3 hfr h)
      | named nm t =>
        rw [compileTerm_named] at hc
        exact .named (ihm Γ env nm t p0 sc inp k o he (by simpa [Term.wf] using hw) hc hfr h)
      | scope t g =>
        obtain ⟨g', f, q, h1, h2, h3, h4, h5, h6⟩ := compile_scope_inv he hw hc
        subst h5
        rcases parse_slot_scope (E := E) (X := X) (ρ := ρ) (n := n + 1) (env := env) (q := q) (sc := sc)
          (inp := inp) (k := k) h6 with ⟨_, hp⟩ | ⟨_, hp⟩
        · rw [hp] at h
          exact .scope h1 (ihm (g' :: Γ) (f :: env) rule t q sc inp k o h2 h3 h4 hfr h)
        · rw [hp] at h
          exact .scope h1 (ih m (g' :: Γ) (f :: env) rule t q sc inp k o h2 h3 h4 hfr h)
      | cut t =>
        rw [compileTerm_cut] at hc
        simp only [Except.bind_ok] at hc
        obtain ⟨q, hq, hc⟩ := hc
        simp at hc; subst hc
        simp only [Term.wf, Bool.and_eq_true] at hw
        have hne := compile_hard he.wrapWF hw.2 hw.1 hq
        rw [slot, parse_cut, ← slot_of_ne hne] at h
        exact .cut (ih m Γ env rule t q sc inp k o he hw.2 hq hfr h)
        exact fun r hr => by simp at hr
      | s l =>
        rw [compileTerm_s] at hc
        simp only [compileS, Except.bind_ok] at hc
        obtain ⟨re, h1, re', h2, hc⟩ := hc
        simp at hc; subst hc
        rw [slot, parse_s, escaping_none hesc, eatLeaf_out] at h
        · rw [applyWrapRE_iff, cacheOf_wrap] at h1
          have : re' = anchor ++ re := by
            unfold mustCompile at h2; split at h2 <;> simp at h2; exact h2.symm
          rw [this] at h
          exact .lit h1 h
        · exact fun r hr => by simp at hr
      | re l =>
        rw [compileTerm_re] at hc
        simp only [compileRE, Except.bind_ok] at hc
        obtain ⟨re, h1, re', h2, hc⟩ := hc
        simp at hc; subst hc
        rw [slot, parse_re, escaping_none hesc, eatLeaf_out] at h
        · rw [applyWrapRE_iff, cacheOf_wrap] at h1
          have : re' = anchor ++ re := by
            unfold mustCompile at h2; split at h2 <;> simp at h2; exact h2.symm
          rw [this] at h
          exact .regexp h1 h
        · exact fun r hr => by simp at hr
      | ref i d =>
        rw [compileTerm_ref] at hc; simp at hc; subst hc
        rw [slot, parse_ref, escaping_none hesc] at h
        · cases hl : sc.getVal i with
          | none =>
            rw [hl] at h
            cases d with
            | none =>
              simp [refDefault, Res.out, Err.isNotMyFatal] at h
              subst h
              exact .refUnbound hl
            | some d =>
              simp only [refDefault] at h
              cases hcd : compileTerm E n ⟨none, true⟩ i d with
              | error e => cases e <;> simp [hcd, Res.ofExcept, Res.out] at h
              | ok q =>
                simp only [hcd, Res.ofExcept] at h
                have hd : d.isText = true := by simpa [Term.wf] using hw
                obtain ⟨hw1, hw2⟩ := isText_wf d hd
                have hne := compile_hard (EnvRel.nil (E := E)).wrapWF hw1 hw2 hcd
                rw [← slot_of_ne hne] at h
                exact .refDefault hl (compile_text hd hcd) (ih n [] [] i d q sc inp k o .nil hw1 hcd hfr h)
          | some w =>
            rw [hl] at h
            simp only [refExpect] at h
            cases ht : termFromRefVal w with
            | none => simp [ht, Res.ofOption, Res.out] at h
            | some t =>
              simp only [ht, Res.ofOption] at h
              have htt := termFromRefVal_text w ht
              obtain ⟨hw1, hw2⟩ := isText_wf t htt
              cases hcd : compileTerm E n ⟨none, true⟩ i t with
              | error e => cases e <;> simp [hcd, Res.ofExcept, Res.out] at h
              | ok q =>
                simp only [hcd, Res.ofExcept] at h
                have hne := compile_hard (EnvRel.nil (E := E)).wrapWF hw1 hw2 hcd
                rw [← slot_of_ne hne] at h
                have hquo := compile_text htt hcd
                have hsub := fun o ho => ih n [] [] i t q sc inp k o .nil hw1 hcd hfr ho
                rcases out_bind_ok h with ⟨v, j, k', h1, h2⟩ | ⟨h1, h2⟩
                · have hp := hsub (.ok v j) (by rw [h1]; rfl)
                  cases hn : nodesEqual v w with
                  | none => simp [hn, Res.ofOption, Res.out] at h2
                  | some b =>
                    simp only [hn, Res.ofOption] at h2
                    cases b with
                    | true =>
                      simp [Res.out] at h2; subst h2
                      exact .refOk hl ht hquo hp hn
                    | false =>
                      simp [Res.out, Err.isNotMyFatal] at h2; subst h2
                      exact .refDiffers hl ht hquo hp hn
                · exact .refNo hl ht hquo (hsub o h1) h2
        · exact fun r hr => by simp at hr
      | ext x =>
        rw [compileTerm_ext] at hc; simp at hc; subst hc
        rw [slot, parse_ext, escaping_none hesc] at h
        · cases hl : X.refs x with
          | none =>
            rw [hl] at h
            simp only [Res.out, Option.some.injEq] at h
            have : (Err.fatal 1).isNotMyFatal sc.cp = true := by
              cases hcp : sc.cp with
              | none => rfl
              | some c =>
                obtain ⟨j, _, rfl⟩ := hfr c hcp
                have : 1 ≠ ρ j := fun hh => hρ.foreign j trivial (Or.inl hh.symm)
                simp [Err.isNotMyFatal, this]
            rw [this] at h; simp at h; subst h
            exact .extNone hl
          | some f =>
            rw [hl] at h
            simp only at h
            have hb : f ⟨sc.getVal, sc.cp, [], none⟩ inp = f ⟨fun i => lookup i sc.vals, none, [], none⟩ inp := by
              exact hX.refs x f hl ⟨sc.getVal, none, [], none⟩ sc.cp inp
            rw [hb] at h
            have := Peg.ext (E := E) (Γ := Γ) (rule := rule) (vals := sc.vals) (inp := inp) hl
            have ho : o = extOut (f ⟨fun i => lookup i sc.vals, none, [], none⟩ inp) := by
              revert h
              unfold extResult extOut
              cases her : (f ⟨fun i => lookup i sc.vals, none, [], none⟩ inp).err with
              | none => simp only [Res.out, Option.some.injEq]; exact fun h => h.symm
              | some e =>
                simp only [Res.out, Option.some.injEq]
                intro h
                rw [← h]
                cases hfat : e.isFatal with
                | false => rw [notMine_of_notFatal hfat]
                | true =>
                  have : e.isNotMyFatal sc.cp = true := by
                    cases e with
                    | fatal c =>
                      have hem : X.Emits c := Or.inr (Or.inl ⟨x, f, _, inp, hl, her⟩)
                      cases hcp : sc.cp with
                      | none => rfl
                      | some c' =>
                        obtain ⟨j, _, rfl⟩ := hfr c' hcp
                        have : c ≠ ρ j := fun hh => hρ.foreign j trivial (hh ▸ hem)
                        simp [Err.isNotMyFatal, this]
                    | stop => rfl
                    | _ => simp [Err.isFatal] at hfat
                  rw [this]
            rw [ho]; exact this
        · exact fun r hr => by simp at hr
      | seq ts =>
        rw [compileTerm_seq, Except.bind_ok] at hc
        obtain ⟨ps, hps, hc⟩ := hc
        simp at hc; subst hc
        rw [slot, parse_seq, escaping_none hesc] at h
        · have hseq := fun o ho => seq_sound hρ ih he hw hps (com := false) (sc := sc) (k := k) (inp := inp)
            (o := o) hfr ⟨Nat.le_refl _, Or.inl ⟨rfl, rfl⟩⟩ ho
          cases hr : seqLoop ρ (parse E X ρ n env) (isCutItem env) ((ts.map identFromTerm).zip ps) sc inp k with
          | ok vs i k' =>
            rw [hr] at h hseq
            simp only [Res.bind, Res.out, Option.some.injEq] at h
            subst h
            exact .seqOk (hseq _ rfl)
          | err e i k' =>
            rw [hr] at h hseq
            simp only [Res.bind, Res.out, Option.some.injEq] at h
            exact .seqNo (hseq o (by simp only [Res.outs, h])) (by subst h; split <;> simp)
          | panic => simp [hr, Res.bind, Res.out] at h
          | oof => simp [hr, Res.bind, Res.out] at h
        · exact fun r hr => by simp at hr
      | oneof ts =>
        rw [compileTerm_oneof, Except.bind_ok] at hc
        obtain ⟨ps, hps, hc⟩ := hc
        simp at hc; subst hc
        rw [slot, parse_oneof, escaping_none hesc] at h
        · apply Peg.oneof
          cases hcp : sc.cp with
          | none =>
            rw [replaceCutPoint_false_none hcp] at h
            simp only at h
            have ha := alts_sound ih he hw hps (tag := ruleOrAlt rule oneofTag) (prev := none) (sc := sc)
              (inp := inp) (i := 0) (fu := inp) (k := k) hfr
            rw [hcp] at ha h
            revert ha h
            cases oneofLoop (fun q i k => parse E X ρ n env q sc i k) (ruleOrAlt rule oneofTag) none none
              inp ps 0 inp k with
            | ok v j k' => intro h ha; simp [Res.out] at h; subst h; exact ha
            | err e j k' =>
              intro h ha
              simp only [Res.out, Option.some.injEq] at h
              rcases ha with ⟨ha, rfl⟩ | ⟨ha, hn, _⟩
              · rw [isNotMyFatal_mkErr] at h; simp at h; subst h; exact ha
              · rw [hn] at h; simp at h; subst h; exact ha
            | panic => intro h; simp [Res.out] at h
            | oof => intro h; simp [Res.out] at h
          | some c =>
            rw [replaceCutPoint_false_some hcp] at h
            simp only at h
            have ha := alts_sound ih he hw hps (tag := ruleOrAlt rule oneofTag) (prev := some c)
              (sc := { sc with cp := some (ρ k) }) (inp := inp) (i := 0) (fu := inp) (k := k + 1)
              (freshCp_draw (by omega))
            rw [hcp] at h
            revert ha h
            simp only
            cases oneofLoop (fun q i k' => parse E X ρ n env q { sc with cp := some (ρ k) } i k')
              (ruleOrAlt rule oneofTag) (some c) (some (ρ k)) inp ps 0 inp (k + 1) with
            | ok v j k' => intro h ha; simp [Res.out] at h; subst h; exact ha
            | err e j k' =>
              intro h ha
              simp only [Res.out, Option.some.injEq] at h
              rcases ha with ⟨ha, rfl⟩ | ⟨ha, hn, ht⟩
              · rw [isNotMyFatal_mkErr] at h; simp at h; subst h; exact ha
              · rw [notMine hρ (hcp ▸ hfr) (Nat.le_refl k) (Nat.le_succ k) ht (isFatal_of_notMine hn)] at h
                simp at h; subst h; exact ha
            | panic => intro h; simp [Res.out] at h
            | oof => intro h; simp [Res.out] at h
        · exact fun r hr => by simp at hr
      | stack ts => rw [compileTerm_stack] at hc; simp at hc
      | delim term sep a cs ce =>
        rw [compileTerm_delim] at hc
        simp only [Except.bind_ok] at hc
        obtain ⟨child, hch, child', hreg, hc⟩ := hc
        simp at hc; subst hc
        rw [register_slot hreg] at h
        simp only [Term.wf, Bool.and_eq_true] at hw
        rw [slot, parse_delim, escaping_none hesc] at h
        · have hsub := fun o ho => ih m Γ env rule (.seq (delimSeq term sep cs ce)) child sc inp k o he
            (by simpa [Term.wf] using wf_delimSeq hw.1 hw.2) hch hfr ho
          rcases out_bind_ok h with ⟨v, j, k', h1, h2⟩ | ⟨h1, h2⟩
          · have hp := hsub (.ok v j) (by rw [h1]; rfl)
            cases hd : delimFinish (ruleOrAlt rule delimTag) a cs ce v with
            | none => simp [hd, Res.ofOption, Res.out] at h2
            | some v' =>
              simp [hd, Res.ofOption, Res.out] at h2; subst h2
              exact .delimOk hp hd
          · exact .delimNo (hsub o h1) h2
        · exact fun r hr => by simp at hr
      | look t =>
        rw [compileTerm_look] at hc
        simp only [Except.bind_ok] at hc
        obtain ⟨q, hq, q', hreg, hc⟩ := hc
        simp at hc; subst hc
        rw [register_slot hreg] at h
        rw [slot, parse_look, escaping_none hesc] at h
        · have hsub := fun o ho => ih m Γ env [] t q sc inp k o he (by simpa [Term.wf] using hw) hq hfr ho
          cases hr : parse E X ρ n env (slot q) sc inp k with
          | ok v i k' =>
            rw [hr] at h hsub
            simp [lookResult, Res.out] at h; subst h
            exact .lookOk (hsub _ rfl)
          | err e i k' =>
            rw [hr] at h hsub
            simp only [lookResult, Res.out, Option.some.injEq] at h
            exact .lookNo (hsub o (by simp only [Res.out, h])) (by subst h; split <;> simp)
          | panic => simp [hr, lookResult, Res.out] at h
          | oof => simp [hr, lookResult, Res.out] at h
        · exact fun r hr => by simp at hr
      | quant t lo hi =>
        rw [compileTerm_quant] at hc
        simp only [Except.bind_ok] at hc
        obtain ⟨q, hq, q', hreg, hc⟩ := hc
        simp at hc; subst hc
        rw [register_slot hreg] at h
        rw [slot, parse_quant, escaping_none hesc] at h
        · have hw' : t.wf = true := by simpa [Term.wf] using hw
          have hl0 : leftOf hi 0 = if hi = 0 then none else some hi := by unfold leftOf; simp
          cases hcp : sc.cp with
          | none =>
            rw [replaceCutPoint_false_none hcp] at h
            obtain ⟨a, b⟩ := reps_sound ih he hw' hq (max := hi) (sc := sc) (N := n) (cnt := 0) (inp := inp)
              (k := k) hfr
            rw [hcp, hl0] at a b
            rw [hcp] at h
            simp only at h
            revert a b h
            cases quantLoop (fun i k => parse E X ρ n env (slot q) sc i k) hi none n 0 inp k with
            | ok vs i k' =>
              intro a _ h
              have ha := a vs i k' rfl
              simp only [Res.bind] at h
              by_cases hlo : lo ≤ vs.length
              · rw [if_pos hlo] at h; simp [Res.out] at h; subst h; exact .quantOk ha hlo
              · rw [if_neg hlo] at h; simp [Res.out, isNotMyFatal_mkErr] at h; subst h
                exact .quantFew ha (by omega)
            | err e i k' =>
              intro _ b h
              obtain ⟨hb, hn⟩ := b e i k' rfl
              simp [Res.bind, Res.out, hn] at h; subst h
              exact .quantAbort hb
            | panic => intro _ _ h; simp [Res.bind, Res.out] at h
            | oof => intro _ _ h; simp [Res.bind, Res.out] at h
          | some c =>
            rw [replaceCutPoint_false_some hcp] at h
            obtain ⟨a, b⟩ := reps_sound ih he hw' hq (max := hi) (sc := { sc with cp := some (ρ k) }) (N := n)
              (cnt := 0) (inp := inp) (k := k + 1) (freshCp_draw (by omega))
            have htok := quantLoop_tok (X := X) (ρ := ρ) (max := hi) (my := some (ρ k))
              (fun i k' => parse_tok E X ρ n env (slot q) { sc with cp := some (ρ k) } i k') n 0 inp (k + 1)
            rw [hl0] at a b
            rw [hcp] at h
            simp only at h a b
            revert a b h htok
            cases quantLoop (fun i k' => parse E X ρ n env (slot q) { sc with cp := some (ρ k) } i k') hi
              (some (ρ k)) n 0 inp (k + 1) with
            | ok vs i k' =>
              intro a _ _ h
              have ha := a vs i k' rfl
              simp only [Res.bind] at h
              by_cases hlo : lo ≤ vs.length
              · rw [if_pos hlo] at h; simp [Res.out] at h; subst h; exact .quantOk ha hlo
              · rw [if_neg hlo] at h; simp [Res.out, isNotMyFatal_mkErr] at h; subst h
                exact .quantFew ha (by omega)
            | err e i k' =>
              intro _ b htok h
              obtain ⟨hb, hn⟩ := b e i k' rfl
              have hn' := notMine hρ (hcp ▸ hfr) (Nat.le_refl k) (Nat.le_succ k) htok.2
                (isFatal_of_notMine hn)
              simp [Res.bind, Res.out, hn'] at h; subst h
              exact .quantAbort hb
            | panic => intro _ _ _ h; simp [Res.bind, Res.out] at h
            | oof => intro _ _ _ h; simp [Res.bind, Res.out] at h
        · exact fun r hr => by simp at hr

end

end Wbnf

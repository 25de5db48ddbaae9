import Verif.Lemmas.Finite
import Verif.Lemmas.Safe

/-! The parser halts on grammars without left recursion and empty loops. -/

namespace Wbnf

variable {E : Engine} {X : Externals} {ρ : Nat → Nat}

/-- Some amount of fuel suffices. -/
def Halts (E : Engine) (X : Externals) (ρ : Nat → Nat) (env : List Frame) (p : P) (sc : Scope) (inp : Scanner)
    (k : Nat) : Prop := ∃ n, parse E X ρ n env p sc inp k ≠ .oof

theorem Halts.const {env p sc inp k} (h : Halts E X ρ env p sc inp k) :
    ∃ N r, r ≠ .oof ∧ ∀ n, N ≤ n → parse E X ρ n env p sc inp k = r := by
  obtain ⟨N, h⟩ := h
  exact ⟨N, _, h, fun n hn => parse_mono_le hn h⟩

/-! ### Quoted text -/

mutual
theorem text_compile : (t : Term) → t.isText = true →
    ∃ N, ∀ n, N ≤ n → ∀ id, compileTerm E n ⟨none, true⟩ id t ≠ .error .oof
  | .s l, _ => ⟨1, fun n hn id => by
      obtain ⟨n, rfl⟩ : ∃ j, n = j + 1 := ⟨n - 1, by omega⟩
      rw [compileTerm_s]
      simp only [compileS, applyWrapRE, Except.bind, mustCompile]
      by_cases h : E.valid (anchor ++ (str "(" ++ quoteMeta l ++ str ")")) = true
      · rw [if_pos h]; simp
      · rw [if_neg h]; simp⟩
  | .seq ts, h => by
    obtain ⟨N, hN⟩ := texts_compile ts (by simpa [Term.isText] using h)
    refine ⟨N + 1, fun n hn id => ?_⟩
    obtain ⟨n, rfl⟩ : ∃ j, n = j + 1 := ⟨n - 1, by omega⟩
    rw [compileTerm_seq]
    have := hN n (by omega)
    cases hm : makeParsers ⟨none, true⟩ (compileTerm E n ⟨none, true⟩ []) ts with
    | error e => cases e with
      | panic => simp [Except.bind]
      | oof => exact absurd hm this
    | ok ps => simp [Except.bind]
  | .rule _, h => by simp [Term.isText] at h
  | .re _, h => by simp [Term.isText] at h
  | .ref _ _, h => by simp [Term.isText] at h
  | .ext _, h => by simp [Term.isText] at h
  | .oneof _, h => by simp [Term.isText] at h
  | .stack _, h => by simp [Term.isText] at h
  | .delim _ _ _ _ _, h => by simp [Term.isText] at h
  | .look _, h => by simp [Term.isText] at h
  | .quant _ _ _, h => by simp [Term.isText] at h
  | .named _ _, h => by simp [Term.isText] at h
  | .scope _ _, h => by simp [Term.isText] at h
  | .cut _, h => by simp [Term.isText] at h
theorem texts_compile : (ts : List Term) → isTextList ts = true →
    ∃ N, ∀ n, N ≤ n → makeParsers ⟨none, true⟩ (compileTerm E n ⟨none, true⟩ []) ts ≠ .error .oof
  | [], _ => ⟨0, fun n _ => by simp [makeParsers]⟩
  | t :: ts, h => by
    simp only [isTextList, Bool.and_eq_true] at h
    obtain ⟨N1, h1⟩ := text_compile t h.1
    obtain ⟨N2, h2⟩ := texts_compile ts h.2
    refine ⟨max N1 N2, fun n hn => ?_⟩
    have h1 := h1 n (by omega) []
    have h2 := h2 n (by omega)
    simp only [makeParsers]
    cases hc : compileTerm E n ⟨none, true⟩ [] t with
    | error e => cases e with
      | panic => simp [Except.bind]
      | oof => exact absurd hc h1
    | ok p =>
      simp only [Except.bind]
      cases hr : Cache.register ⟨none, true⟩ p with
      | error e => cases p <;> simp [Cache.register] at hr; subst hr; simp
      | ok p' =>
        simp only
        cases hm : makeParsers ⟨none, true⟩ (compileTerm E n ⟨none, true⟩ []) ts with
        | error e => cases e with
          | panic => simp
          | oof => exact absurd hm h2
        | ok ps => simp
end

/-- The loop of a sequence halts if each item does. -/
theorem seqLoop_halts {env} {items : List (Str × P)} {sc inp k}
    (h : ∀ e ∈ items, ∀ sc inp k, Halts E X ρ env e.2 sc inp k) :
    ∃ N, ∀ n, N ≤ n → seqLoop ρ (parse E X ρ n env) (isCutItem env) items sc inp k ≠ .oof := by
  induction items generalizing sc inp k with
  | nil => exact ⟨0, fun n _ => by simp [seqLoop]⟩
  | cons e items ih =>
    obtain ⟨ident, p⟩ := e
    obtain ⟨N, r, hr, hN⟩ := (h (ident, p) (by simp) sc inp k).const
    cases r with
    | oof => exact absurd rfl hr
    | panic => exact ⟨N, fun n hn => by simp [seqLoop, hN n hn]⟩
    | err e i k' => exact ⟨N, fun n hn => by simp only [seqLoop, hN n hn]; split <;> simp⟩
    | ok v i k' =>
      obtain ⟨N', hN'⟩ := ih (fun e he => h e (by simp [he]))
        (sc := (if isCutItem env p then sc.replaceCutPoint ρ true k' else (sc, none, none, k')).1.withVal ident v)
        (inp := i) (k := (if isCutItem env p then sc.replaceCutPoint ρ true k' else (sc, none, none, k')).2.2.2)
      refine ⟨max N N', fun n hn => ?_⟩
      have := hN' n (by omega)
      simp only [seqLoop, hN n (by omega)]
      intro hh
      cases hq : seqLoop ρ (parse E X ρ n env) (isCutItem env) items
        ((if isCutItem env p then sc.replaceCutPoint ρ true k' else (sc, none, none, k')).1.withVal ident v) i
        (if isCutItem env p then sc.replaceCutPoint ρ true k' else (sc, none, none, k')).2.2.2 with
      | oof => exact this hq
      | _ => rw [hq] at hh; simp [Res.bind] at hh

theorem text_parse (hesc : X.esc = none) : ∀ {m id t q}, t.isText = true →
    compileTerm E m ⟨none, true⟩ id t = .ok q → ∀ {env sc inp k}, Halts E X ρ env q sc inp k := by
  intro m
  induction m with
  | zero => intro id t q _ h; simp [compileTerm_zero] at h
  | succ m ih =>
    intro id t q ht h env sc inp k
    cases t with
    | s l =>
      rw [compileTerm_s] at h
      simp only [compileS, Except.bind_ok] at h
      obtain ⟨re, h1, re', h2, h⟩ := h
      simp at h; subst h
      refine ⟨1, ?_⟩
      rw [parse_s, escaping_none hesc]
      unfold eatLeaf
      split <;> simp
    | seq ts =>
      rw [compileTerm_seq, Except.bind_ok] at h
      obtain ⟨ps, hps, h⟩ := h
      simp at h; subst h
      have key : ∀ {ts ps}, isTextList ts = true →
          makeParsers ⟨none, true⟩ (compileTerm E m ⟨none, true⟩ []) ts = .ok ps →
          ∀ p ∈ ps, ∀ sc inp k, Halts E X ρ env p sc inp k := by
        intro ts
        induction ts with
        | nil => intro ps _ h; simp [makeParsers] at h; subst h; simp
        | cons t ts iht =>
          intro ps ht h
          simp only [isTextList, Bool.and_eq_true] at ht
          simp only [makeParsers, Except.bind_ok] at h
          obtain ⟨p, hp, p', hp', ps', hps', h⟩ := h
          simp at h; subst h
          intro q hq
          simp at hq
          rcases hq with rfl | hq
          · have : p = q := by
              cases p <;> simp [Cache.register] at hp' <;> exact hp'
            subst this
            intro sc inp k
            exact ih ht.1 hp
          · exact iht ht.2 hps' q hq
      obtain ⟨N, hN⟩ := seqLoop_halts (E := E) (X := X) (ρ := ρ) (env := env) (sc := sc) (inp := inp) (k := k)
        (items := (ts.map identFromTerm).zip ps)
        (fun e he => key (by simpa [Term.isText] using ht) hps e.2 (List.of_mem_zip he).2)
      refine ⟨N + 1, ?_⟩
      rw [parse_seq, escaping_none hesc]
      have := hN N (by omega)
      intro hh
      cases hq : seqLoop ρ (parse E X ρ N env) (isCutItem env) ((ts.map identFromTerm).zip ps) sc inp k with
      | oof => exact this hq
      | _ => rw [hq] at hh; simp [Res.bind] at hh
    | _ => simp [Term.isText] at ht

/-- A back reference: compile some text and match it. -/
theorem text_halts (hesc : X.esc = none) {id t sc inp k} (ht : t.isText = true) :
    ∃ N, ∀ n, N ≤ n → (compileTerm E n ⟨none, true⟩ id t = .error .panic) ∨
      ∃ q, compileTerm E n ⟨none, true⟩ id t = .ok q ∧ parse E X ρ n [] q sc inp k ≠ .oof := by
  obtain ⟨N1, h1⟩ := text_compile (E := E) t ht
  cases hc : compileTerm E N1 ⟨none, true⟩ id t with
  | error e => cases e with
    | oof => exact absurd hc (h1 N1 (by omega) id)
    | panic =>
      refine ⟨N1, fun n hn => Or.inl ?_⟩
      rw [← hc]
      exact compileTerm_mono_le hn (by simp [hc])
  | ok q =>
    obtain ⟨N2, h2⟩ := text_parse (ρ := ρ) hesc ht hc (env := []) (sc := sc) (inp := inp) (k := k)
    refine ⟨max N1 N2, fun n hn => Or.inr ⟨q, ?_, ?_⟩⟩
    · rw [← hc]
      exact compileTerm_mono_le (by omega) (by simp [hc])
    · rw [parse_mono_le (show N2 ≤ n by omega) h2]
      exact h2

/-! ### Terms -/

/-- The parser for the term at this place halts on inputs of this length. -/
def HaltsAt (E : Engine) (X : Externals) (ρ : Nat → Nat) (len : Nat) (p : Place) : Prop :=
  ∀ m env rule p0 sc (inp : Scanner) k, EnvRel E p.1 env → p.2.wf = true →
    compileTerm E m (cacheOf p.1) rule p.2 = .ok p0 → inp.InRange → inp.len = len →
    Halts E X ρ env (slot p0) sc inp k

theorem Advances.shorter {a b : Scanner} (h : Advances a b) : b = a ∨ b.len < a.len := by
  obtain ⟨h1, h2, h3, h4⟩ := h
  obtain ⟨s, i, l⟩ := a
  obtain ⟨s', i', l'⟩ := b
  simp at *
  by_cases e : i' = i
  · left; exact ⟨h1, e, by omega⟩
  · right; omega

theorem InRange.len_nat {a : Scanner} (h : a.InRange) : ∃ l : Nat, a.len = l := by
  obtain ⟨_, _, _, h, _⟩ := h
  exact ⟨a.len.toNat, by omega⟩

theorem items_halt (hE : E.Sane) (hX : X.Sane) (hesc : X.esc = none) {len m Γ env}
    (he : EnvRel E Γ env) {pre ts ps} (hw : wfList ts = true)
    (hm : makeParsers (cacheOf Γ) (compileTerm E m (cacheOf Γ) []) ts = .ok ps)
    (hshort : ∀ l, l < len → ∀ t ∈ ts, HaltsAt E X ρ l (Γ, t))
    (hfirst : ∀ a t b, pre ++ ts = a ++ t :: b → (∀ u ∈ a, CanBeEmpty E X Γ u) → HaltsAt E X ρ len (Γ, t))
    {sc : Scope} {inp : Scanner} {k : Nat} (hin : inp.InRange)
    (hcase : inp.len < len ∨ inp.len = len ∧ ∀ u ∈ pre, CanBeEmpty E X Γ u) :
    ∃ N, ∀ n, N ≤ n →
      seqLoop ρ (parse E X ρ n env) (isCutItem env) ((ts.map identFromTerm).zip ps) sc inp k ≠ .oof := by
  induction ts generalizing pre ps sc inp k with
  | nil => exact ⟨0, fun n _ => by simp [seqLoop]⟩
  | cons t ts iht =>
    obtain ⟨p, ps', h1, h2, rfl⟩ := makeParsers_cons hm
    simp only [wfList, Bool.and_eq_true] at hw
    have hp : Halts E X ρ env (slot p) sc inp k := by
      rcases hcase with h | ⟨h, hpre⟩
      · obtain ⟨l, hl⟩ := InRange.len_nat hin
        exact hshort l (by omega) t (by simp) m env [] p sc inp k he hw.1 h1 hin hl
      · exact hfirst pre t ts rfl hpre m env [] p sc inp k he hw.1 h1 hin h
    obtain ⟨N, r, hr, hN⟩ := hp.const
    cases r with
    | oof => exact absurd rfl hr
    | panic => exact ⟨N, fun n hn => by simp [seqLoop, hN n hn]⟩
    | err e i k' => exact ⟨N, fun n hn => by simp only [List.map_cons, List.zip_cons_cons, seqLoop, hN n hn]; split <;> simp⟩
    | ok v i k' =>
      have hl := parse_left hE hX ρ N env (slot p) sc inp k hin
      have hd := derive_sound hesc N m Γ env [] t p sc inp k v i k' he hw.1 h1 (hN N (by omega))
      rw [hN N (by omega)] at hl
      have hl : Advances inp i := hl
      have hcase' : i.len < len ∨ i.len = len ∧ ∀ u ∈ pre ++ [t], CanBeEmpty E X Γ u := by
        rcases hl.shorter with rfl | hlt
        · rcases hcase with h | ⟨h, hpre⟩
          · exact Or.inl h
          · refine Or.inr ⟨h, fun u hu => ?_⟩
            simp at hu
            rcases hu with hu | rfl
            · exact hpre u hu
            · exact ⟨_, _, _, _, hin, hd⟩
        · left; rcases hcase with h | ⟨h, _⟩ <;> omega
      obtain ⟨N', hN'⟩ := iht hw.2 h2 (pre := pre ++ [t]) (fun l hl u hu => hshort l hl u (by simp [hu]))
        (fun a u b h => hfirst a u b (by simpa using h)) (hl.inRange hin) hcase'
        (sc := (if isCutItem env (slot p) then sc.replaceCutPoint ρ true k' else (sc, none, none, k')).1.withVal
          (identFromTerm t) v)
        (k := (if isCutItem env (slot p) then sc.replaceCutPoint ρ true k' else (sc, none, none, k')).2.2.2)
      refine ⟨max N N', fun n hn => ?_⟩
      have := hN' n (by omega)
      simp only [List.map_cons, List.zip_cons_cons, seqLoop, hN n (by omega)]
      intro hh
      cases hq : seqLoop ρ (parse E X ρ n env) (isCutItem env) ((ts.map identFromTerm).zip ps')
        ((if isCutItem env (slot p) then sc.replaceCutPoint ρ true k' else (sc, none, none, k')).1.withVal
          (identFromTerm t) v) i
        (if isCutItem env (slot p) then sc.replaceCutPoint ρ true k' else (sc, none, none, k')).2.2.2 with
      | oof => exact this hq
      | _ => rw [hq] at hh; simp [Res.bind] at hh

theorem alts_halt {len m Γ env} (he : EnvRel E Γ env) {ts ps} (hw : wfList ts = true)
    (hm : makeParsers (cacheOf Γ) (compileTerm E m (cacheOf Γ) []) ts = .ok ps)
    (h : ∀ t ∈ ts, HaltsAt E X ρ len (Γ, t))
    {tag prev my sc} {inp : Scanner} {j fu k} (hin : inp.InRange) (hlen : inp.len = len) :
    ∃ N, ∀ n, N ≤ n →
      oneofLoop (fun q i k' => parse E X ρ n env q sc i k') tag prev my inp ps j fu k ≠ .oof := by
  induction ts generalizing ps j fu k with
  | nil => simp [makeParsers] at hm; subst hm; exact ⟨0, fun n _ => by simp [oneofLoop]⟩
  | cons t ts iht =>
    obtain ⟨p, ps', h1, h2, rfl⟩ := makeParsers_cons hm
    simp only [wfList, Bool.and_eq_true] at hw
    obtain ⟨N, r, hr, hN⟩ := (h t (by simp) m env [] p sc inp k he hw.1 h1 hin hlen).const
    cases r with
    | oof => exact absurd rfl hr
    | panic => exact ⟨N, fun n hn => by simp [oneofLoop, hN n hn]⟩
    | ok v i k' => exact ⟨N, fun n hn => by simp [oneofLoop, hN n hn]⟩
    | err e i k' =>
      obtain ⟨N', hN'⟩ := iht hw.2 h2 (fun u hu => h u (by simp [hu])) (j := j + 1)
        (fu := if fu.offset < i.offset then i else fu) (k := k')
      refine ⟨max N N', fun n hn => ?_⟩
      have := hN' n (by omega)
      simp only [oneofLoop, hN n (by omega)]
      split
      · simp
      · exact this

theorem reps_halt (hE : E.Sane) (hX : X.Sane) (hesc : X.esc = none) {len m Γ env} (he : EnvRel E Γ env)
    {t p} (hw : t.wf = true) (hm : compileTerm E m (cacheOf Γ) [] t = .ok p)
    (h : ∀ l, l ≤ len → HaltsAt E X ρ l (Γ, t)) {max : Nat} (hne : max = 0 → ¬ CanBeEmpty E X Γ t) {cp sc}
    {w : Nat} : ∀ {l : Nat} {cnt} {inp : Scanner} {k}, inp.InRange → inp.len = l → l ≤ len →
      (max = 0 ∧ w = l ∨ 0 < max ∧ w = max - cnt) →
    ∃ N, ∀ n, N ≤ n → ∀ f, N ≤ f →
      quantLoop (fun i k => parse E X ρ n env (slot p) sc i k) max cp f cnt inp k ≠ .oof := by
  induction w using Nat.strongRecOn with
  | _ w ih =>
    intro l cnt inp k hin hl hle hw'
    by_cases hgo : max = 0 ∨ cnt < max
    · obtain ⟨N, r, hr, hN⟩ := (h l hle m env [] p sc inp k he hw hm hin hl).const
      cases r with
      | oof => exact absurd rfl hr
      | panic =>
        refine ⟨N + 1, fun n hn f hf => ?_⟩
        obtain ⟨f, rfl⟩ : ∃ j, f = j + 1 := ⟨f - 1, by omega⟩
        rw [quantLoop, if_pos hgo, hN n (by omega)]; simp
      | err e i k' =>
        refine ⟨N + 1, fun n hn f hf => ?_⟩
        obtain ⟨f, rfl⟩ : ∃ j, f = j + 1 := ⟨f - 1, by omega⟩
        rw [quantLoop, if_pos hgo, hN n (by omega)]; simp only; split <;> simp
      | ok v i k' =>
        have ha := parse_left hE hX ρ N env (slot p) sc inp k hin
        have hd := derive_sound hesc N m Γ env [] t p sc inp k v i k' he hw hm (hN N (by omega))
        rw [hN N (by omega)] at ha
        have ha : Advances inp i := ha
        have hi := ha.inRange hin
        obtain ⟨l', hl'⟩ := InRange.len_nat hi
        have hless : max = 0 → l' < l := by
          intro h0
          rcases ha.shorter with rfl | hlt
          · exact absurd ⟨_, _, _, _, hin, hd⟩ (hne h0)
          · omega
        have hle' : l' ≤ l := by
          rcases ha.shorter with rfl | hlt <;> omega
        obtain ⟨N', hN'⟩ := ih (if max = 0 then l' else max - (cnt + 1)) (by
            rcases hw' with ⟨h0, rfl⟩ | ⟨h0, rfl⟩
            · rw [if_pos h0]; exact hless h0
            · rw [if_neg (by omega)]; omega) (cnt := cnt + 1) (inp := i) (k := k') hi hl' (by omega) (by
            rcases hw' with ⟨h0, rfl⟩ | ⟨h0, rfl⟩
            · left; simp [h0]
            · right; exact ⟨h0, by rw [if_neg (by omega)]⟩)
        refine ⟨N + N' + 1, fun n hn f hf => ?_⟩
        obtain ⟨f, rfl⟩ : ∃ j, f = j + 1 := ⟨f - 1, by omega⟩
        have hn1 : N ≤ n := by omega
        have hn2 : N' ≤ n := by omega
        have hn3 : N' ≤ f := by omega
        have := hN' n hn2 f hn3
        rw [quantLoop, if_pos hgo, hN n hn1]
        simp only
        intro hh
        cases hq : quantLoop (fun i k => parse E X ρ n env (slot p) sc i k) max cp f (cnt + 1) i k' with
        | oof => exact this hq
        | _ => rw [hq] at hh; simp [Res.bind] at hh
    · refine ⟨1, fun n hn f hf => ?_⟩
      obtain ⟨f, rfl⟩ : ∃ j, f = j + 1 := ⟨f - 1, by omega⟩
      rw [quantLoop, if_neg hgo]; simp

/-- A parser that halts after one more unfolding. -/
theorem halts_succ {env p sc inp k} (h : ∃ N, ∀ n, N ≤ n → parse E X ρ (n + 1) env p sc inp k ≠ .oof) :
    Halts E X ρ env p sc inp k := by
  obtain ⟨N, h⟩ := h
  exact ⟨N + 1, h N (by omega)⟩

theorem halts_at (hE : E.Sane) (hX : X.Sane) (hesc : X.esc = none) {p0 : Place}
    (hwf : WellFounded fun a b : {p // UsedIn p0 p} => Starts E X b.1 a.1) (hloop : NoEmptyLoop E X p0) :
    ∀ len p, UsedIn p0 p → HaltsAt E X ρ len p := by
  intro len
  induction len using Nat.strongRecOn with
  | _ len ihl =>
    intro p hp
    have main : ∀ q : {p // UsedIn p0 p}, HaltsAt E X ρ len q.1 := by
      intro q
      induction q using hwf.induction with
      | _ q ihq =>
        obtain ⟨⟨Γ, t⟩, hq⟩ := q
        have first : ∀ p', Starts E X (Γ, t) p' → HaltsAt E X ρ len p' := fun p' hs =>
          ihq ⟨p', .step hq hs.uses⟩ hs
        clear ihq
        intro m env rule c sc inp k he hw hc hin hlen
        simp only at he hw hc ⊢
        cases m with
        | zero => simp [compileTerm_zero] at hc
        | succ m =>
        cases t with
        | rule r =>
          rw [compileTerm_rule] at hc; simp at hc; subst hc
          apply halts_succ
          rw [slot]
          cases hl : lookupEnv r env with
          | none => exact ⟨0, fun n _ => by rw [parse_link, hl]; simp [Res.ofOption]⟩
          | some qe =>
            obtain ⟨q, env'⟩ := qe
            obtain ⟨Γ', t', m', h1, h2, h3, h4, h5⟩ := he.lookup_some hl
            obtain ⟨N, r, hr, hN⟩ := (first _ (.rule h1) m' env' _ q sc inp k h2 h4 h3 hin hlen).const
            refine ⟨N, fun n hn => ?_⟩
            rw [parse_link, hl, Res.ofOption]
            simp only
            rw [← slot_of_ne h5, hN n hn]
            exact hr
        | named nm t =>
          rw [compileTerm_named] at hc
          exact first _ .named m env nm c sc inp k he (by simpa [Term.wf] using hw) hc hin hlen
        | scope t g =>
          obtain ⟨g', f, q, h1, h2, h3, h4, h5, h6⟩ := compile_scope_inv he hw hc
          subst h5
          obtain ⟨N, r, hr, hN⟩ := (first _ (.scope h1) m (f :: env) rule q sc inp k h2 h3 h4 hin hlen).const
          apply halts_succ
          refine ⟨N, fun n hn => ?_⟩
          rcases parse_slot_scope (E := E) (X := X) (ρ := ρ) (n := n + 1) (env := env) (q := q) (sc := sc)
            (inp := inp) (k := k) h6 with ⟨_, hp⟩ | ⟨_, hp⟩
          · rw [hp, hN (n + 1) (by omega)]; exact hr
          · rw [hp]; simp only; rw [hN n hn]; exact hr
        | cut t =>
          rw [compileTerm_cut] at hc
          simp only [Except.bind_ok] at hc
          obtain ⟨q, hq, hc⟩ := hc
          simp at hc; subst hc
          simp only [Term.wf, Bool.and_eq_true] at hw
          have hne := compile_hard he.wrapWF hw.2 hw.1 hq
          obtain ⟨N, r, hr, hN⟩ := (first _ .cut m env rule q sc inp k he hw.2 hq hin hlen).const
          apply halts_succ
          refine ⟨N, fun n hn => ?_⟩
          rw [slot, parse_cut, ← slot_of_ne hne]
          · rw [hN n hn]; exact hr
          · exact fun r hr => by simp at hr
        | s l =>
          rw [compileTerm_s] at hc
          simp only [compileS, Except.bind_ok] at hc
          obtain ⟨re, h1, re', h2, hc⟩ := hc
          simp at hc; subst hc
          refine ⟨1, ?_⟩
          rw [slot, parse_s, escaping_none hesc]
          · unfold eatLeaf; split <;> simp
          · exact fun r hr => by simp at hr
        | re l =>
          rw [compileTerm_re] at hc
          simp only [compileRE, Except.bind_ok] at hc
          obtain ⟨re, h1, re', h2, hc⟩ := hc
          simp at hc; subst hc
          refine ⟨1, ?_⟩
          rw [slot, parse_re, escaping_none hesc]
          · unfold eatLeaf; split <;> simp
          · exact fun r hr => by simp at hr
        | ref id d =>
          rw [compileTerm_ref] at hc; simp at hc; subst hc
          apply halts_succ
          rw [slot]
          · cases hl : sc.getVal id with
            | none =>
              cases d with
              | none =>
                refine ⟨0, fun n hn => ?_⟩
                rw [parse_ref, escaping_none hesc, hl]
                simp [refDefault]
              | some d =>
                obtain ⟨N, hN⟩ := text_halts (E := E) (ρ := ρ) (id := id) (sc := sc) (inp := inp) (k := k) (t := d)
                  hesc (by simpa [Term.wf] using hw)
                refine ⟨N, fun n hn => ?_⟩
                rw [parse_ref, escaping_none hesc, hl]
                simp only [refDefault]
                rcases hN n hn with h | ⟨q, h, h'⟩
                · rw [h]; simp [Res.ofExcept]
                · rw [h]; simp only [Res.ofExcept]; exact h'
            | some w =>
              cases ht : termFromRefVal w with
              | none =>
                refine ⟨0, fun n hn => ?_⟩
                rw [parse_ref, escaping_none hesc, hl]
                simp [refExpect, ht, Res.ofOption]
              | some t =>
                obtain ⟨N, hN⟩ := text_halts (E := E) (ρ := ρ) (id := id) (sc := sc) (inp := inp) (k := k) (t := t)
                  hesc (termFromRefVal_text w ht)
                refine ⟨N, fun n hn => ?_⟩
                rw [parse_ref, escaping_none hesc, hl]
                simp only [refExpect, ht, Res.ofOption]
                rcases hN n hn with h | ⟨q, h, h'⟩
                · rw [h]; simp [Res.ofExcept]
                · rw [h]
                  simp only [Res.ofExcept]
                  cases hr : parse E X ρ n [] q sc inp k with
                  | oof => exact absurd hr h'
                  | ok v i k' =>
                    simp only [Res.bind]
                    cases nodesEqual v w with
                    | none => simp
                    | some b => cases b <;> simp
                  | _ => simp [Res.bind]
          · exact fun r hr => by simp at hr
        | ext x =>
          rw [compileTerm_ext] at hc; simp at hc; subst hc
          refine ⟨1, ?_⟩
          rw [slot, parse_ext, escaping_none hesc]
          · cases X.refs x with
            | none => simp
            | some f => simp only [extResult]; split <;> simp
          · exact fun r hr => by simp at hr
        | seq ts =>
          rw [compileTerm_seq, Except.bind_ok] at hc
          obtain ⟨ps, hps, hc⟩ := hc
          simp at hc; subst hc
          obtain ⟨N, hN⟩ := items_halt hE hX hesc he (pre := []) (by simpa [Term.wf] using hw) hps
            (fun l hl t ht => ihl l hl (Γ, t) (.step hq (.seq ht)))
            (fun a t b h hs => first _ (by
              have : ts = a ++ t :: b := by simpa using h
              rw [this]; exact .seq hs))
            (sc := sc) (k := k) hin (Or.inr ⟨hlen, by simp⟩)
          apply halts_succ
          refine ⟨N, fun n hn => ?_⟩
          rw [slot, parse_seq, escaping_none hesc]
          · have := hN n hn
            intro hh
            cases hq : seqLoop ρ (parse E X ρ n env) (isCutItem env) ((ts.map identFromTerm).zip ps) sc inp k with
            | oof => exact this hq
            | _ => rw [hq] at hh; simp [Res.bind] at hh
          · exact fun r hr => by simp at hr
        | oneof ts =>
          rw [compileTerm_oneof, Except.bind_ok] at hc
          obtain ⟨ps, hps, hc⟩ := hc
          simp at hc; subst hc
          obtain ⟨N, hN⟩ := alts_halt (X := X) (ρ := ρ) he (by simpa [Term.wf] using hw) hps
            (fun t ht => first _ (.oneof ht)) (tag := ruleOrAlt rule oneofTag)
            (prev := (sc.replaceCutPoint ρ false k).2.1) (my := (sc.replaceCutPoint ρ false k).2.2.1)
            (sc := (sc.replaceCutPoint ρ false k).1) (j := 0) (fu := inp)
            (k := (sc.replaceCutPoint ρ false k).2.2.2) hin hlen
          apply halts_succ
          refine ⟨N, fun n hn => ?_⟩
          rw [slot, parse_oneof, escaping_none hesc]
          · exact hN n hn
          · exact fun r hr => by simp at hr
        | stack ts => rw [compileTerm_stack] at hc; simp at hc
        | delim term sep a cs ce =>
          rw [compileTerm_delim] at hc
          simp only [Except.bind_ok] at hc
          obtain ⟨child, hch, child', hreg, hc⟩ := hc
          simp at hc; subst hc
          rw [register_slot hreg]
          simp only [Term.wf, Bool.and_eq_true] at hw
          have hw' : (Term.seq (delimSeq term sep cs ce)).wf = true := by
            simpa [Term.wf] using wf_delimSeq hw.1 hw.2
          obtain ⟨N, r, hr, hN⟩ := (first _ .delim m env rule child sc inp k he hw' hch hin hlen).const
          apply halts_succ
          refine ⟨N, fun n hn => ?_⟩
          rw [slot, parse_delim, escaping_none hesc]
          · rw [hN n hn]
            cases r with
            | oof => exact absurd rfl hr
            | ok v i k' =>
              simp only [Res.bind]
              cases delimFinish (ruleOrAlt rule delimTag) a cs ce v <;> simp [Res.ofOption]
            | _ => simp [Res.bind]
          · exact fun r hr => by simp at hr
        | look t =>
          rw [compileTerm_look] at hc
          simp only [Except.bind_ok] at hc
          obtain ⟨q, hq, q', hreg, hc⟩ := hc
          simp at hc; subst hc
          rw [register_slot hreg]
          obtain ⟨N, r, hr, hN⟩ := (first _ .look m env [] q sc inp k he (by simpa [Term.wf] using hw) hq hin hlen).const
          apply halts_succ
          refine ⟨N, fun n hn => ?_⟩
          rw [slot, parse_look, escaping_none hesc]
          · rw [hN n hn]
            cases r with
            | oof => exact absurd rfl hr
            | _ => simp [lookResult]
          · exact fun r hr => by simp at hr
        | quant t lo hi =>
          rw [compileTerm_quant] at hc
          simp only [Except.bind_ok] at hc
          obtain ⟨q, hqc, q', hreg, hc⟩ := hc
          simp at hc; subst hc
          rw [register_slot hreg]
          obtain ⟨N, hN⟩ := reps_halt (ρ := ρ) hE hX hesc he (by simpa [Term.wf] using hw) hqc
            (len := len) (fun l hl => by
              rcases Nat.lt_or_eq_of_le hl with hl | rfl
              · exact ihl l hl (Γ, t) (.step hq .quant)
              · exact first _ .quant)
            (max := hi) (fun h0 => by subst h0; exact hloop _ _ _ hq)
            (cp := (sc.replaceCutPoint ρ false k).2.2.1) (sc := (sc.replaceCutPoint ρ false k).1)
            (k := (sc.replaceCutPoint ρ false k).2.2.2) (cnt := 0) (w := if hi = 0 then len else hi) hin hlen
            (Nat.le_refl _) (by
              by_cases h0 : hi = 0
              · left; simp [h0]
              · right; exact ⟨by omega, by simp [h0]⟩)
          apply halts_succ
          refine ⟨N, fun n hn => ?_⟩
          rw [slot, parse_quant, escaping_none hesc]
          · have := hN n hn n hn
            intro hh
            cases hq2 : quantLoop (fun i k_1 => parse E X ρ n env (slot q) (sc.replaceCutPoint ρ false k).1 i k_1) hi
                (sc.replaceCutPoint ρ false k).2.2.1 n 0 inp (sc.replaceCutPoint ρ false k).2.2.2 with
            | oof => exact this hq2
            | ok vs i k' => rw [hq2] at hh; simp only [Res.bind] at hh; split at hh <;> simp at hh
            | _ => rw [hq2] at hh; simp [Res.bind] at hh
          · exact fun r hr => by simp at hr
    exact main ⟨p, hp⟩

end Wbnf

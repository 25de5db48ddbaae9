import Verif.Lemmas.Top
import Verif.Spec.Derives

/-! Every successful parse has a derivation, whatever the random tokens. -/

namespace Wbnf

section
variable {E : Engine} {X : Externals} {ρ : Nat → Nat}

/-- What is shown for one term with fuel `n`. -/
def DeriveAt (E : Engine) (X : Externals) (ρ : Nat → Nat) (n : Nat) : Prop :=
  ∀ m Γ env rule t p0 sc inp k v i k', EnvRel E Γ env → t.wf = true →
    compileTerm E m (cacheOf Γ) rule t = .ok p0 →
    parse E X ρ n env (slot p0) sc inp k = .ok v i k' →
    Derives E X (.term Γ rule t sc.vals) inp [v] i

theorem items_derive {n} (ih : DeriveAt E X ρ n) {m Γ env} (he : EnvRel E Γ env) {ts ps}
    (hw : wfList ts = true) (hm : makeParsers (cacheOf Γ) (compileTerm E m (cacheOf Γ) []) ts = .ok ps)
    {sc : Scope} {k inp vs i k'}
    (h : seqLoop ρ (parse E X ρ n env) (isCutItem env) ((ts.map identFromTerm).zip ps) sc inp k
      = .ok vs i k') : Derives E X (.items Γ ts sc.vals) inp vs i := by
  induction ts generalizing ps sc k inp vs with
  | nil => simp [seqLoop] at h; obtain ⟨rfl, rfl, _⟩ := h; exact .nil
  | cons t ts iht =>
    obtain ⟨p, ps', h1, h2, rfl⟩ := makeParsers_cons hm
    simp only [wfList, Bool.and_eq_true] at hw
    simp only [List.map_cons, List.zip_cons_cons, seqLoop] at h
    cases hr : parse E X ρ n env (slot p) sc inp k with
    | panic => simp [hr] at h
    | oof => simp [hr] at h
    | err e inp' k1 => rw [hr] at h; simp only at h; split at h <;> simp at h
    | ok v inp' k1 =>
      rw [hr] at h
      simp only at h
      have hitem := ih m Γ env [] t p sc inp k v inp' k1 he hw.1 h1 hr
      have hrest : ∀ (sc' : Scope) (k2 : Nat), sc'.vals = bindVal sc.vals (identFromTerm t) v →
          ((seqLoop ρ (parse E X ρ n env) (isCutItem env) ((ts.map identFromTerm).zip ps') sc' inp' k2).bind
            fun vs i k'' => Res.ok (v :: vs) i k'') = .ok vs i k' →
          Derives E X (.items Γ (t :: ts) sc.vals) inp vs i := by
        intro sc' k2 hv hh
        cases hr' : seqLoop ρ (parse E X ρ n env) (isCutItem env) ((ts.map identFromTerm).zip ps') sc' inp' k2 with
        | ok vs' i' k'' =>
          rw [hr'] at hh
          simp only [Res.bind, Res.ok.injEq] at hh
          obtain ⟨rfl, rfl, rfl⟩ := hh
          have := iht hw.2 h2 hr'
          rw [hv] at this
          exact .cons hitem this
        | err e i k'' => simp [hr', Res.bind] at hh
        | panic => simp [hr', Res.bind] at hh
        | oof => simp [hr', Res.bind] at hh
      cases hic : isCutItem env (slot p) with
      | true =>
        rw [hic] at h
        simp only [if_true, replaceCutPoint_true] at h
        exact hrest _ _ (bindVal_eq { sc with cp := some (ρ k1) } _ _) h
      | false =>
        rw [hic] at h
        simp only [Bool.false_eq_true, if_false] at h
        exact hrest _ _ (bindVal_eq _ _ _) h

theorem reps_derive {n} (ih : DeriveAt E X ρ n) {m Γ env} (he : EnvRel E Γ env) {t p}
    (hw : t.wf = true) (hm : compileTerm E m (cacheOf Γ) [] t = .ok p) {max : Nat} {sc : Scope} {cp N cnt}
    {inp : Scanner} {k vs i k'}
    (h : quantLoop (fun i k => parse E X ρ n env (slot p) sc i k) max cp N cnt inp k = .ok vs i k') :
    Derives E X (.reps Γ t sc.vals) inp vs i ∧ (max = 0 ∨ (cnt ≤ max → cnt + vs.length ≤ max)) := by
  induction N generalizing cnt inp k vs with
  | zero => simp [quantLoop] at h
  | succ N ihN =>
    rw [quantLoop] at h
    by_cases hc : max = 0 ∨ cnt < max
    · rw [if_pos hc] at h
      cases hr : parse E X ρ n env (slot p) sc inp k with
      | panic => simp [hr] at h
      | oof => simp [hr] at h
      | err e i' k1 =>
        rw [hr] at h; simp only at h
        split at h
        · simp at h
        · simp at h; obtain ⟨rfl, rfl, _⟩ := h
          exact ⟨.stop, Or.inr (by simp)⟩
      | ok v i' k1 =>
        rw [hr] at h; simp only at h
        have hitem := ih m Γ env [] t p sc inp k v i' k1 he hw hm hr
        cases hr' : quantLoop (fun i k => parse E X ρ n env (slot p) sc i k) max cp N (cnt + 1) i' k1 with
        | ok vs' j k'' =>
          rw [hr'] at h
          simp only [Res.bind, Res.ok.injEq] at h
          obtain ⟨rfl, rfl, rfl⟩ := h
          obtain ⟨h1, h2⟩ := ihN hr'
          refine ⟨.more hitem h1, ?_⟩
          rcases hc with hc | hc
          · exact Or.inl hc
          · rcases h2 with h2 | h2
            · exact Or.inl h2
            · exact Or.inr fun _ => by have := h2 (by omega); simp; omega
        | err e j k'' => simp [hr', Res.bind] at h
        | panic => simp [hr', Res.bind] at h
        | oof => simp [hr', Res.bind] at h
    · rw [if_neg hc] at h
      simp at h; obtain ⟨rfl, rfl, _⟩ := h
      exact ⟨.stop, Or.inr (by simp)⟩

theorem alts_derive {n} (ih : DeriveAt E X ρ n) {m Γ env} (he : EnvRel E Γ env) {ts ps}
    (hw : wfList ts = true) (hm : makeParsers (cacheOf Γ) (compileTerm E m (cacheOf Γ) []) ts = .ok ps)
    {tag prev my} {sc : Scope} {inp : Scanner} {i fu k v j k'}
    (h : oneofLoop (fun q i k => parse E X ρ n env q sc i k) tag prev my inp ps i fu k = .ok v j k') :
    ∃ d t w, ts[d]? = some t ∧ v = .node tag (.choice (i + d)) [w] ∧
      Derives E X (.term Γ [] t sc.vals) inp [w] j := by
  induction ts generalizing ps i fu k with
  | nil => simp [makeParsers] at hm; subst hm; simp [oneofLoop] at h
  | cons t ts iht =>
    obtain ⟨p, ps', h1, h2, rfl⟩ := makeParsers_cons hm
    simp only [wfList, Bool.and_eq_true] at hw
    simp only [oneofLoop] at h
    cases hr : parse E X ρ n env (slot p) sc inp k with
    | panic => simp [hr] at h
    | oof => simp [hr] at h
    | ok w j' k1 =>
      rw [hr] at h
      simp at h; obtain ⟨rfl, rfl, _⟩ := h
      exact ⟨0, t, w, by simp, rfl, ih m Γ env [] t p sc inp k w j' k1 he hw.1 h1 hr⟩
    | err e j' k1 =>
      rw [hr] at h
      simp only at h
      split at h
      · simp at h
      · obtain ⟨d, t', w, hd, hv, hder⟩ := iht hw.2 h2 h
        exact ⟨d + 1, t', w, by simpa using hd, by rw [hv]; congr 2; omega, hder⟩

theorem Res.bind_eq_ok {α β} {r : Res α} {f : α → Scanner → Nat → Res β} {v i k}
    (h : r.bind f = .ok v i k) : ∃ v' i' k', r = .ok v' i' k' ∧ f v' i' k' = .ok v i k := by
  cases r with
  | ok v' i' k' => exact ⟨v', i', k', rfl, h⟩
  | _ => simp [Res.bind] at h

theorem derive_sound (hesc : X.esc = none) (n : Nat) : DeriveAt E X ρ n := by
  induction n with
  | zero => intro m Γ env rule t p0 sc inp k v i k' _ _ _ h; simp [parse_zero] at h
  | succ n ih =>
    intro m
    induction m with
    | zero => intro Γ env rule t p0 sc inp k v i k' _ _ h; simp [compileTerm_zero] at h
    | succ m ihm =>
      intro Γ env rule t p0 sc inp k v i k' he hw hc h
      cases t with
      | rule r =>
        rw [compileTerm_rule] at hc; simp at hc; subst hc
        rw [slot, parse_link] at h
        cases hl : lookupEnv r env with
        | none => simp [hl, Res.ofOption] at h
        | some q =>
          obtain ⟨q, env'⟩ := q
          simp only [hl, Res.ofOption] at h
          obtain ⟨Γ', t', m', h1, h2, h3, h4, h5⟩ := he.lookup_some hl
          rw [← slot_of_ne h5] at h
          exact .rule h1 (ih m' Γ' env' r t' q sc inp k v i k' h2 h4 h3 h)
      | named nm t =>
        rw [compileTerm_named] at hc
        exact .named (ihm Γ env nm t p0 sc inp k v i k' he (by simpa [Term.wf] using hw) hc h)
      | scope t g =>
        obtain ⟨g', f, q, h1, h2, h3, h4, h5, h6⟩ := compile_scope_inv he hw hc
        subst h5
        rcases parse_slot_scope (E := E) (X := X) (ρ := ρ) (n := n + 1) (env := env) (q := q) (sc := sc)
          (inp := inp) (k := k) h6 with ⟨_, hp⟩ | ⟨_, hp⟩
        · rw [hp] at h
          exact .scope h1 (ihm (g' :: Γ) (f :: env) rule t q sc inp k v i k' h2 h3 h4 h)
        · rw [hp] at h
          exact .scope h1 (ih m (g' :: Γ) (f :: env) rule t q sc inp k v i k' h2 h3 h4 h)
      | cut t =>
        rw [compileTerm_cut] at hc
        simp only [Except.bind_ok] at hc
        obtain ⟨q, hq, hc⟩ := hc
        simp at hc; subst hc
        simp only [Term.wf, Bool.and_eq_true] at hw
        have hne := compile_hard he.wrapWF hw.2 hw.1 hq
        rw [slot, parse_cut, ← slot_of_ne hne] at h
        exact .cut (ih m Γ env rule t q sc inp k v i k' he hw.2 hq h)
        exact fun r hr => by simp at hr
      | s l =>
        rw [compileTerm_s] at hc
        simp only [compileS, Except.bind_ok] at hc
        obtain ⟨re, h1, re', h2, hc⟩ := hc
        simp at hc; subst hc
        rw [slot, parse_s, escaping_none hesc] at h
        · rw [applyWrapRE_iff, cacheOf_wrap] at h1
          have : re' = anchor ++ re := by
            unfold mustCompile at h2; split at h2 <;> simp at h2; exact h2.symm
          rw [this] at h
          exact .lit h1 (eatLeaf_out.1 (by rw [h]; rfl))
        · exact fun r hr => by simp at hr
      | re l =>
        rw [compileTerm_re] at hc
        simp only [compileRE, Except.bind_ok] at hc
        obtain ⟨re, h1, re', h2, hc⟩ := hc
        simp at hc; subst hc
        rw [slot, parse_re, escaping_none hesc] at h
        · rw [applyWrapRE_iff, cacheOf_wrap] at h1
          have : re' = anchor ++ re := by
            unfold mustCompile at h2; split at h2 <;> simp at h2; exact h2.symm
          rw [this] at h
          exact .regexp h1 (eatLeaf_out.1 (by rw [h]; rfl))
        · exact fun r hr => by simp at hr
      | ref id d =>
        rw [compileTerm_ref] at hc; simp at hc; subst hc
        rw [slot, parse_ref, escaping_none hesc] at h
        · cases hl : sc.getVal id with
          | none =>
            rw [hl] at h
            cases d with
            | none => simp [refDefault] at h
            | some d =>
              simp only [refDefault] at h
              cases hcd : compileTerm E n ⟨none, true⟩ id d with
              | error e => cases e <;> simp [hcd, Res.ofExcept] at h
              | ok q =>
                simp only [hcd, Res.ofExcept] at h
                have hd : d.isText = true := by simpa [Term.wf] using hw
                obtain ⟨hw1, hw2⟩ := isText_wf d hd
                have hne := compile_hard (EnvRel.nil (E := E)).wrapWF hw1 hw2 hcd
                rw [← slot_of_ne hne] at h
                exact .default hl (compile_text hd hcd) (ih n [] [] id d q sc inp k v i k' .nil hw1 hcd h)
          | some w =>
            rw [hl] at h
            simp only [refExpect] at h
            cases ht : termFromRefVal w with
            | none => simp [ht, Res.ofOption] at h
            | some t =>
              simp only [ht, Res.ofOption] at h
              have htt := termFromRefVal_text w ht
              obtain ⟨hw1, hw2⟩ := isText_wf t htt
              cases hcd : compileTerm E n ⟨none, true⟩ id t with
              | error e => cases e <;> simp [hcd, Res.ofExcept] at h
              | ok q =>
                simp only [hcd, Res.ofExcept] at h
                have hne := compile_hard (EnvRel.nil (E := E)).wrapWF hw1 hw2 hcd
                rw [← slot_of_ne hne] at h
                have hquo := compile_text htt hcd
                obtain ⟨v', j, k1, h1, h2⟩ := Res.bind_eq_ok h
                have hp := ih n [] [] id t q sc inp k v' j k1 .nil hw1 hcd h1
                cases hn : nodesEqual v' w with
                | none => simp [hn] at h2
                | some b =>
                  simp only [hn] at h2
                  cases b with
                  | true =>
                    simp at h2; obtain ⟨rfl, rfl, _⟩ := h2
                    exact .ref hl ht hquo hp hn
                  | false => simp at h2
        · exact fun r hr => by simp at hr
      | ext x =>
        rw [compileTerm_ext] at hc; simp at hc; subst hc
        rw [slot, parse_ext, escaping_none hesc] at h
        · cases hl : X.refs x with
          | none => simp [hl] at h
          | some f =>
            rw [hl] at h
            simp only [extResult] at h
            split at h
            · rename_i hn
              simp at h; obtain ⟨rfl, rfl, _⟩ := h
              exact .ext (cp := sc.cp) hl (by
                have : (fun n => lookup n sc.vals) = sc.getVal := rfl
                rw [this]
                cases hh : f ⟨sc.getVal, sc.cp, [], none⟩ inp
                rw [hh] at hn; simp at hn; subst hn; rfl)
            · simp at h
        · exact fun r hr => by simp at hr
      | seq ts =>
        rw [compileTerm_seq, Except.bind_ok] at hc
        obtain ⟨ps, hps, hc⟩ := hc
        simp at hc; subst hc
        rw [slot, parse_seq, escaping_none hesc] at h
        · obtain ⟨vs, j, k1, h1, h2⟩ := Res.bind_eq_ok h
          simp at h2; obtain ⟨rfl, rfl, _⟩ := h2
          exact .seq (items_derive ih he hw hps h1)
        · exact fun r hr => by simp at hr
      | oneof ts =>
        rw [compileTerm_oneof, Except.bind_ok] at hc
        obtain ⟨ps, hps, hc⟩ := hc
        simp at hc; subst hc
        rw [slot, parse_oneof, escaping_none hesc] at h
        · have hv : (sc.replaceCutPoint ρ false k).1.vals = sc.vals := by
            unfold Scope.replaceCutPoint; split <;> rfl
          obtain ⟨d, t, w, hd, rfl, hder⟩ := alts_derive ih he hw hps h
          rw [hv] at hder
          rw [Nat.zero_add]
          exact .oneof hd hder
        · exact fun r hr => by simp at hr
      | stack ts => rw [compileTerm_stack] at hc; simp at hc
      | delim term sep a cs ce =>
        rw [compileTerm_delim] at hc
        simp only [Except.bind_ok] at hc
        obtain ⟨child, hch, child', hreg, hc⟩ := hc
        simp at hc; subst hc
        rw [register_slot hreg] at h
        simp only [Term.wf, Bool.and_eq_true] at hw
        rw [slot, parse_delim, escaping_none hesc] at h
        · obtain ⟨v1, j, k1, h1, h2⟩ := Res.bind_eq_ok h
          have hp := ih m Γ env rule (.seq (delimSeq term sep cs ce)) child sc inp k v1 j k1 he
            (by simpa [Term.wf] using wf_delimSeq hw.1 hw.2) hch h1
          cases hd : delimFinish (ruleOrAlt rule delimTag) a cs ce v1 with
          | none => simp [hd, Res.ofOption] at h2
          | some v' =>
            simp [hd, Res.ofOption] at h2; obtain ⟨rfl, rfl, _⟩ := h2
            exact .delim hp hd
        · exact fun r hr => by simp at hr
      | look t =>
        rw [compileTerm_look] at hc
        simp only [Except.bind_ok] at hc
        obtain ⟨q, hq, q', hreg, hc⟩ := hc
        simp at hc; subst hc
        rw [register_slot hreg] at h
        rw [slot, parse_look, escaping_none hesc] at h
        · cases hr : parse E X ρ n env (slot q) sc inp k with
          | ok v1 i1 k1 =>
            rw [hr] at h
            simp [lookResult] at h; obtain ⟨rfl, rfl, _⟩ := h
            exact .look (ih m Γ env [] t q sc inp k v1 i1 k1 he (by simpa [Term.wf] using hw) hq hr)
          | err e i k' => simp [hr, lookResult] at h
          | panic => simp [hr, lookResult] at h
          | oof => simp [hr, lookResult] at h
        · exact fun r hr => by simp at hr
      | quant t lo hi =>
        rw [compileTerm_quant] at hc
        simp only [Except.bind_ok] at hc
        obtain ⟨q, hq, q', hreg, hc⟩ := hc
        simp at hc; subst hc
        rw [register_slot hreg] at h
        rw [slot, parse_quant, escaping_none hesc] at h
        · have hv : (sc.replaceCutPoint ρ false k).1.vals = sc.vals := by
            unfold Scope.replaceCutPoint; split <;> rfl
          obtain ⟨vs, j, k1, h1, h2⟩ := Res.bind_eq_ok h
          obtain ⟨h3, h4⟩ := reps_derive ih he (by simpa [Term.wf] using hw) hq h1
          rw [hv] at h3
          split at h2
          · rename_i hlo
            simp at h2; obtain ⟨rfl, rfl, _⟩ := h2
            exact .quant h3 hlo (by
              rcases h4 with h4 | h4
              · exact Or.inl h4
              · exact Or.inr (by simpa using h4 (by omega)))
          · simp at h2
        · exact fun r hr => by simp at hr

theorem run_derive {g : Grammar} {m ps} (hg : g.wf = true) (hc : g.compile E m = .ok ps)
    (hesc : X.esc = none) {n r inp v i k} (h : ps.run E X ρ n r inp = .ok v i k) :
    Derives E X (.term [ps.grammar] [] (.rule r) []) inp [v] i := by
  rw [run_link hg hc] at h
  exact derive_sound hesc (n + 1) 1 [ps.grammar] [ps.parsers] [] (.rule r) (.rule r) .init inp 0 v i k
    (compile_env hg hc) rfl (compileTerm_rule ..) h

end
end Wbnf

import Verif.Lemmas.Compile
import Verif.Lemmas.Leaf
import Verif.Lemmas.Draws

/-! How compiled parsers relate to the terms they were compiled from. -/

namespace Wbnf

/-- The cache used when compiling under `Γ`; without grammars it is the nil cache of back
references. -/
def cacheOf : List Grammar → Cache
  | [] => ⟨none, true⟩
  | g :: _ => cacheFor g

theorem cacheOf_wrap (Γ : List Grammar) : (cacheOf Γ).wrap = wrapOf Γ := by cases Γ <;> rfl

/-- The frames are the compiled rule tables of the grammars. -/
inductive EnvRel (E : Engine) : List Grammar → List Frame → Prop
  | nil : EnvRel E [] []
  | cons {g Γ f env m} : wfDefs g = true →
      compileRules m g (compileTerm E m (cacheFor g)) g = .ok f → EnvRel E Γ env →
      EnvRel E (g :: Γ) (f :: env)

theorem EnvRel.wrapWF {E Γ env} (h : EnvRel E Γ env) : wrapWF (cacheOf Γ).wrap := by
  cases h with
  | nil => intro t ht; simp [cacheOf] at ht
  | cons h1 _ _ => exact wrapWF_lookup h1

/-- What ends up in the slot for a compiled parser. -/
def slot : P → P
  | .rule r => .link r
  | p => p

theorem slot_of_ne {p : P} (h : ∀ r, p ≠ .rule r) : slot p = p := by
  cases p <;> first | rfl | exact absurd rfl (h _)

theorem register_slot {c : Cache} {p p'} (h : c.register p = .ok p') : p' = slot p := by
  cases p with
  | rule r =>
    simp only [Cache.register] at h
    split at h <;> simp at h
    exact h.symm
  | _ => simp [Cache.register] at h; exact h.symm

theorem EnvRel.lookup_some {E Γ env r p env'} (h : EnvRel E Γ env) (hl : lookupEnv r env = some (p, env')) :
    ∃ Γ' t m, Resolves Γ r Γ' t ∧ EnvRel E Γ' env' ∧ compileTerm E m (cacheOf Γ') r t = .ok p ∧
      t.wf = true ∧ ∀ r', p ≠ .rule r' := by
  induction h with
  | nil => simp [lookupEnv] at hl
  | @cons g Γ f env m hg hc henv ih =>
    simp only [lookupEnv] at hl
    cases hf : lookup r f with
    | some q =>
      simp [hf] at hl
      obtain ⟨rfl, rfl⟩ := hl
      obtain ⟨t, h1, h2⟩ := (frame_lookup hc r).2 _ hf
      exact ⟨g :: Γ, t, m, .here h1, .cons hg hc henv, h2, (h1.wf hg).2.1, frame_hard hg hc hf⟩
    | none =>
      simp [hf] at hl
      obtain ⟨Γ', t, m', h1, h2⟩ := ih hl
      exact ⟨Γ', t, m', .outer ((frame_lookup hc r).1.1 hf) h1, h2⟩

theorem EnvRel.resolves {E Γ env r Γ' t} (h : EnvRel E Γ env) (hr : Resolves Γ r Γ' t) :
    ∃ p env' m, lookupEnv r env = some (p, env') ∧ EnvRel E Γ' env' ∧
      compileTerm E m (cacheOf Γ') r t = .ok p ∧ t.wf = true ∧ ∀ r', p ≠ .rule r' := by
  induction h with
  | nil => cases hr
  | @cons g Γ f env m hg hc henv ih =>
    cases hr with
    | here hd =>
      cases hf : lookup r f with
      | none =>
        have := (frame_lookup hc r).1.1 hf
        obtain ⟨u, hu⟩ := hd.key
        rw [this] at hu; simp at hu
      | some q =>
        obtain ⟨t', h1, h2⟩ := (frame_lookup hc r).2 _ hf
        obtain rfl := h1.det hd
        exact ⟨q, f :: env, m, by simp [lookupEnv, hf], .cons hg hc henv, h2, (h1.wf hg).2.1,
          frame_hard hg hc hf⟩
    | outer hn hr =>
      obtain ⟨p, env', m', h1, h2⟩ := ih hr
      have := (frame_lookup hc r).1.2 hn
      exact ⟨p, env', m', by simp [lookupEnv, this, h1], h2⟩

/-! ### Compiling a grammar in braces -/

theorem compile_scope_inv {E : Engine} {m Γ rule t g p} {env}
    (he : EnvRel E Γ env) (hw : (Term.scope t g).wf = true)
    (h : compileTerm E (m + 1) (cacheOf Γ) rule (.scope t g) = .ok p) :
    ∃ g' f q, Enters Γ g g' ∧ EnvRel E (g' :: Γ) (f :: env) ∧ t.wf = true ∧
      compileTerm E m (cacheOf (g' :: Γ)) rule t = .ok q ∧ p = scopeResult f q ∧
      (∀ r p', lookup r f = some p' → ∀ r', p' ≠ .rule r') := by
  rw [compileTerm_scope] at h
  simp only [Except.bind_ok] at h
  obtain ⟨g1, h1, f, h2, q, h3, h⟩ := h
  simp only [Term.wf, Bool.and_eq_true] at hw
  have hg1 := resolveStacks_wf (prepare_ok.1 h1) hw.2
  have hg2 := inheritWrap_wf he.wrapWF hg1
  simp at h
  refine ⟨inheritWrap (wrapOf Γ) g1, f, q, ⟨g1, prepare_ok.1 h1, rfl⟩, ?_, hw.1, ?_, h.symm, ?_⟩
  · rw [← cacheOf_wrap]; exact .cons hg2 h2 he
  · rw [← cacheOf_wrap]; exact h3
  · intro r p' hp; exact frame_hard hg2 h2 hp

theorem Enters.det {Γ g g1 g2} (h1 : Enters Γ g g1) (h2 : Enters Γ g g2) : g1 = g2 := by
  obtain ⟨a, ha, rfl⟩ := h1
  obtain ⟨b, hb, rfl⟩ := h2
  rw [ha] at hb; simp at hb; rw [hb]

/-- The three ways a grammar in braces compiles. -/
theorem scopeResult_cases {f : Frame} {q : P} (hf : ∀ r p', lookup r f = some p' → ∀ r', p' ≠ .rule r') :
    (∃ r, q = .rule r ∧ lookup r f = none ∧ scopeResult f q = .rule r) ∨
    (∃ r p, q = .rule r ∧ lookup r f = some p ∧ scopeResult f q = .scope f p ∧ ∀ r', p ≠ .rule r') ∨
    ((∀ r, q ≠ .rule r) ∧ scopeResult f q = .scope f q) := by
  cases q with
  | rule r =>
    cases hl : lookup r f with
    | none => exact Or.inl ⟨r, rfl, hl, by simp [scopeResult, hl]⟩
    | some p =>
      have hp := hf r p hl
      refine Or.inr (Or.inl ⟨r, p, rfl, hl, ?_, hp⟩)
      cases p <;> first | (simp [scopeResult, hl]; done) | exact absurd rfl (hp _)
  | _ => exact Or.inr (Or.inr ⟨by simp, rfl⟩)

/-! ### Cut points -/

theorem IsCut.rule_iff {Γ r Γ' t} (h : Resolves Γ r Γ' t) : IsCut Γ (.rule r) ↔ IsCut Γ' t := by
  constructor
  · intro hc
    cases hc with
    | rule h' hc =>
      obtain ⟨rfl, rfl⟩ := h.det h'
      exact hc
  · exact IsCut.rule h

theorem Resolves.outer_iff {g Γ r Γ' t} (hn : lookup r g = none) :
    Resolves (g :: Γ) r Γ' t ↔ Resolves Γ r Γ' t := by
  constructor
  · intro h
    cases h with
    | here h => obtain ⟨u, hu⟩ := h.key; rw [hn] at hu; simp at hu
    | outer _ h => exact h
  · exact .outer hn

theorem IsCut.outer_iff {g Γ r} (hn : lookup r g = none) :
    IsCut (g :: Γ) (.rule r) ↔ IsCut Γ (.rule r) := by
  constructor
  · intro h
    cases h with
    | rule h hc => exact .rule ((Resolves.outer_iff hn).1 h) hc
  · intro h
    cases h with
    | rule h hc => exact .rule (.outer hn h) hc

/-- A term that compiles to a bare reference is a cut point iff that rule is. -/
theorem isCut_bare {E : Engine} {m Γ env rule t r} (he : EnvRel E Γ env) (hw : t.wf = true)
    (h : compileTerm E m (cacheOf Γ) rule t = .ok (.rule r)) : IsCut Γ t ↔ IsCut Γ (.rule r) := by
  induction m generalizing Γ env rule t r with
  | zero => simp [compileTerm_zero] at h
  | succ m ih =>
    cases t with
    | rule r' => rw [compileTerm_rule] at h; simp at h; subst h; exact Iff.rfl
    | named n t =>
      rw [compileTerm_named] at h
      rw [← ih he (t := t) (by simpa [Term.wf] using hw) h]
      exact ⟨fun h => by cases h; assumption, .named⟩
    | scope t g =>
      obtain ⟨g', f, q, h1, h2, h3, h4, h5, h6⟩ := compile_scope_inv he hw h
      rcases scopeResult_cases (q := q) h6 with ⟨r', rfl, h7, h8⟩ | ⟨r', p, rfl, h7, h8, _⟩ | ⟨h7, h8⟩
      · rw [h8] at h5; simp at h5; subst h5
        have := ih h2 h3 h4
        cases h2 with
        | cons hg hc _ =>
          rw [← IsCut.outer_iff ((frame_lookup hc r).1.1 h7), ← this]
          exact ⟨fun h => by cases h with | scope hE hh => obtain rfl := hE.det h1; exact hh, .scope h1⟩
      · rw [h8] at h5; simp at h5
      · rw [h8] at h5; simp at h5
    | s l => rw [compileTerm_s] at h; simp [compileS, Except.bind_ok] at h
    | re l => rw [compileTerm_re] at h; simp [compileRE, Except.bind_ok] at h
    | ref i d => rw [compileTerm_ref] at h; simp at h
    | ext i => rw [compileTerm_ext] at h; simp at h
    | seq ts => rw [compileTerm_seq] at h; simp [Except.bind_ok] at h
    | oneof ts => rw [compileTerm_oneof] at h; simp [Except.bind_ok] at h
    | stack ts => rw [compileTerm_stack] at h; simp at h
    | delim => rw [compileTerm_delim] at h; simp [Except.bind_ok] at h
    | look t => rw [compileTerm_look] at h; simp [Except.bind_ok] at h
    | quant t lo hi => rw [compileTerm_quant] at h; simp [Except.bind_ok] at h
    | cut t => rw [compileTerm_cut] at h; simp [Except.bind_ok] at h

theorem isCut_value {E : Engine} {m Γ env rule t p} (he : EnvRel E Γ env) (hw : t.wf = true)
    (h : compileTerm E m (cacheOf Γ) rule t = .ok p) (hp : ∀ r, p ≠ .rule r) :
    p.isCutValue = true ↔ IsCut Γ t := by
  induction m generalizing Γ env rule t p with
  | zero => simp [compileTerm_zero] at h
  | succ m ih =>
    have no : ∀ {Q : Prop}, p.isCutValue = false → (Q → False) → (p.isCutValue = true ↔ Q) := by
      intro Q h1 h2; rw [h1]; simp; exact h2
    cases t with
    | rule r' => rw [compileTerm_rule] at h; simp at h; exact absurd h.symm (hp _)
    | named n t =>
      rw [compileTerm_named] at h
      rw [ih he (t := t) (by simpa [Term.wf] using hw) h hp]
      exact ⟨.named, fun h => by cases h; assumption⟩
    | scope t g =>
      obtain ⟨g', f, q, h1, h2, h3, h4, h5, h6⟩ := compile_scope_inv he hw h
      have key : IsCut Γ (.scope t g) ↔ IsCut (g' :: Γ) t :=
        ⟨fun h => by cases h with | scope hE hh => obtain rfl := hE.det h1; exact hh, .scope h1⟩
      rw [key]
      rcases scopeResult_cases (q := q) h6 with ⟨r', rfl, h7, h8⟩ | ⟨r', p', rfl, h7, h8, h9⟩ | ⟨h7, h8⟩
      · rw [h8] at h5; exact absurd h5 (hp _)
      · rw [h8] at h5; subst h5
        rw [isCut_bare h2 h3 h4]
        have hE := h2
        have hc := h2
        -- the local rule's parser was compiled with less fuel
        rw [compileTerm_scope] at h
        simp only [Except.bind_ok] at h
        obtain ⟨g1, hh1, f', hh2, q', hh3, hh⟩ := h
        obtain ⟨g1', hg1', hgeq⟩ := h1
        have : g1' = g1 := by rw [prepare_ok] at hh1; rw [hh1] at hg1'; simpa using hg1'.symm
        subst this
        rw [cacheOf_wrap, ← hgeq] at hh2 hh3
        have hq' : q' = .rule r' := by
          have : cacheFor g' = cacheOf (g' :: Γ) := rfl
          rw [this, h4] at hh3; simpa using hh3.symm
        subst hq'
        have hff : f' = f := by
          simp at hh
          cases hl : lookup r' f' with
          | none => simp [scopeResult, hl] at hh
          | some p'' =>
            cases p'' <;> simp [scopeResult, hl] at hh <;> exact hh.1
        subst hff
        obtain ⟨t', hd, hct⟩ := (frame_lookup hh2 r').2 _ h7
        have hwf : wfDefs g' = true := by cases hE; assumption
        rw [IsCut.rule_iff (.here hd)]
        simp only [P.isCutValue]
        exact ih hE (hd.wf hwf).2.1 hct h9
      · rw [h8] at h5; subst h5
        simp only [P.isCutValue]
        exact ih h2 h3 h4 h7
    | cut t =>
      rw [compileTerm_cut] at h
      simp only [Except.bind_ok] at h
      obtain ⟨_, _, h⟩ := h; simp at h; subst h
      simp only [P.isCutValue, true_iff]
      exact .cut
    | s l =>
      rw [compileTerm_s] at h; simp only [compileS, Except.bind_ok] at h
      obtain ⟨_, _, _, _, h⟩ := h; simp at h; subst h; exact no rfl (fun h => by cases h)
    | re l =>
      rw [compileTerm_re] at h; simp only [compileRE, Except.bind_ok] at h
      obtain ⟨_, _, _, _, h⟩ := h; simp at h; subst h; exact no rfl (fun h => by cases h)
    | ref i d =>
      rw [compileTerm_ref] at h; simp at h; subst h; exact no rfl (fun h => by cases h)
    | ext i =>
      rw [compileTerm_ext] at h; simp at h; subst h; exact no rfl (fun h => by cases h)
    | seq ts =>
      rw [compileTerm_seq] at h; simp only [Except.bind_ok] at h
      obtain ⟨_, _, h⟩ := h; simp at h; subst h; exact no rfl (fun h => by cases h)
    | oneof ts =>
      rw [compileTerm_oneof] at h; simp only [Except.bind_ok] at h
      obtain ⟨_, _, h⟩ := h; simp at h; subst h; exact no rfl (fun h => by cases h)
    | stack ts => rw [compileTerm_stack] at h; simp at h
    | delim =>
      rw [compileTerm_delim] at h; simp only [Except.bind_ok] at h
      obtain ⟨_, _, _, _, h⟩ := h; simp at h; subst h; exact no rfl (fun h => by cases h)
    | look t =>
      rw [compileTerm_look] at h; simp only [Except.bind_ok] at h
      obtain ⟨_, _, _, _, h⟩ := h; simp at h; subst h; exact no rfl (fun h => by cases h)
    | quant t lo hi =>
      rw [compileTerm_quant] at h; simp only [Except.bind_ok] at h
      obtain ⟨_, _, _, _, h⟩ := h; simp at h; subst h; exact no rfl (fun h => by cases h)

theorem isCut_item {E : Engine} {m Γ env rule t p} (he : EnvRel E Γ env) (hw : t.wf = true)
    (h : compileTerm E m (cacheOf Γ) rule t = .ok p) :
    isCutItem env (slot p) = true ↔ IsCut Γ t := by
  by_cases hp : ∃ r, p = .rule r
  · obtain ⟨r, rfl⟩ := hp
    rw [isCut_bare he hw h]
    simp only [slot, isCutItem]
    cases hl : lookupEnv r env with
    | none =>
      simp
      intro hc
      cases hc with
      | rule hr _ =>
        obtain ⟨p, env', m, h1, _⟩ := he.resolves hr
        rw [hl] at h1; simp at h1
    | some q =>
      obtain ⟨q, env'⟩ := q
      obtain ⟨Γ', t', m', h1, h2, h3, h4, h5⟩ := he.lookup_some hl
      simp only
      rw [IsCut.rule_iff h1, isCut_value h2 h4 h3 h5]
  · have hp' : ∀ r, p ≠ .rule r := fun r hr => hp ⟨r, hr⟩
    rw [slot_of_ne hp']
    have : isCutItem env p = p.isCutValue := by
      cases p with
      | link r =>
        exfalso
        -- compilation never returns a patched slot
        clear hp hp'
        induction m generalizing Γ env rule t with
        | zero => simp [compileTerm_zero] at h
        | succ m ih =>
          cases t with
          | rule r' => rw [compileTerm_rule] at h; simp at h
          | named n t => rw [compileTerm_named] at h; exact ih he (t := t) (by simpa [Term.wf] using hw) h
          | scope t g =>
            obtain ⟨g', f, q, h1, h2, h3, h4, h5, h6⟩ := compile_scope_inv he hw h
            rcases scopeResult_cases (q := q) h6 with ⟨r', rfl, h7, h8⟩ | ⟨r', p', rfl, h7, h8, h9⟩ | ⟨h7, h8⟩ <;>
              (rw [h8] at h5; simp at h5)
          | s l => rw [compileTerm_s] at h; simp [compileS, Except.bind_ok] at h
          | re l => rw [compileTerm_re] at h; simp [compileRE, Except.bind_ok] at h
          | ref i d => rw [compileTerm_ref] at h; simp at h
          | ext i => rw [compileTerm_ext] at h; simp at h
          | seq ts => rw [compileTerm_seq] at h; simp [Except.bind_ok] at h
          | oneof ts => rw [compileTerm_oneof] at h; simp [Except.bind_ok] at h
          | stack ts => rw [compileTerm_stack] at h; simp at h
          | delim => rw [compileTerm_delim] at h; simp [Except.bind_ok] at h
          | look t => rw [compileTerm_look] at h; simp [Except.bind_ok] at h
          | quant t lo hi => rw [compileTerm_quant] at h; simp [Except.bind_ok] at h
          | cut t => rw [compileTerm_cut] at h; simp [Except.bind_ok] at h
      | _ => rfl
    rw [this]
    exact isCut_value he hw h hp'

end Wbnf

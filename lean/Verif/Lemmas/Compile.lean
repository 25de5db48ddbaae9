import Verif.Spec.Peg
import Verif.Spec.WellFormed
import Verif.Lemmas.Eqns

/-! Facts about compilation: well-formedness is kept, rule tables, bare references. -/

namespace Wbnf

/-! ### Association lists -/

theorem hasKey_iff {α} {r : Str} {m : List (Str × α)} : hasKey r m = true ↔ ∃ v, lookup r m = some v := by
  unfold hasKey; exact Option.isSome_iff_exists

theorem lookup_mapSet_self {α} (r : Str) (v : α) (m : List (Str × α)) :
    lookup r (mapSet r v m) = some v := by
  induction m with
  | nil => simp [mapSet, lookup]
  | cons e m ih =>
    obtain ⟨k, w⟩ := e
    simp only [mapSet]
    split
    · simp [lookup]
    · rename_i h; simp [lookup, h, ih]

theorem lookup_mapSet_ne {α} {r k : Str} (h : r ≠ k) (v : α) (m : List (Str × α)) :
    lookup r (mapSet k v m) = lookup r m := by
  induction m with
  | nil => simp [mapSet, lookup, Ne.symm h]
  | cons e m ih =>
    obtain ⟨k', w⟩ := e
    simp only [mapSet]
    split
    · rename_i h'; subst h'; simp [lookup, Ne.symm h]
    · simp [lookup, ih]

theorem hasKey_mapSet {α} {r k : Str} {v : α} {m : List (Str × α)} (h : hasKey r m = true) :
    hasKey r (mapSet k v m) = true := by
  by_cases hk : r = k
  · subst hk; simp [hasKey, lookup_mapSet_self]
  · simpa [hasKey, lookup_mapSet_ne hk] using h

/-! ### Well-formedness -/

theorem wfDefs_lookup {r : Str} {t : Term} {g : Grammar} (h : wfDefs g = true)
    (hl : lookup r g = some t) : t.defOK = true ∧ t.wf = true := by
  induction g with
  | nil => simp [lookup] at hl
  | cons e g ih =>
    obtain ⟨k, u⟩ := e
    simp only [wfDefs, Bool.and_eq_true] at h
    simp only [lookup] at hl
    split at hl
    · simp at hl; subst hl; exact h.1
    · exact ih h.2 hl

theorem wfDefs_mapSet {r : Str} {t : Term} {g : Grammar} (h : wfDefs g = true)
    (h1 : t.defOK = true) (h2 : t.wf = true) : wfDefs (mapSet r t g) = true := by
  induction g with
  | nil => simp [mapSet, wfDefs, h1, h2]
  | cons e g ih =>
    obtain ⟨k, u⟩ := e
    simp only [wfDefs, Bool.and_eq_true] at h
    simp only [mapSet]
    split
    · simp [wfDefs, h1, h2, h.2]
    · simp [wfDefs, h.1, ih h.2]

theorem wfList_mem {ts : List Term} (h : wfList ts = true) {t} (ht : t ∈ ts) : t.wf = true := by
  induction ts with
  | nil => simp at ht
  | cons u ts ih =>
    simp only [wfList, Bool.and_eq_true] at h
    rcases List.mem_cons.1 ht with rfl | ht
    · exact h.1
    · exact ih h.2 ht

theorem wfList_append {a b : List Term} (ha : wfList a = true) (hb : wfList b = true) :
    wfList (a ++ b) = true := by
  induction a with
  | nil => exact hb
  | cons t a ih =>
    simp only [wfList, Bool.and_eq_true, List.cons_append] at ha ⊢
    exact ⟨ha.1, ih ha.2⟩

theorem wf_delimSeq {term sep : Term} {cs ce} (h1 : term.wf = true) (h2 : sep.wf = true) :
    wfList (delimSeq term sep cs ce) = true := by
  unfold delimSeq
  refine wfList_append (wfList_append ?_ ?_) ?_
  · split <;> simp [wfList, optT, Term.wf, h2]
  · simp [wfList, anyT, Term.wf, h1, h2]
  · split <;> simp [wfList, optT, Term.wf, h2]

mutual
theorem resolve_wf {old new : Str} : (t : Term) → ∀ {t'}, t.resolve old new = some t' →
    t.wf = true → t'.wf = true
  | .rule _, t', h, _ => by simp [Term.resolve] at h; subst h; rfl
  | .s _, t', h, _ => by simp [Term.resolve] at h; subst h; rfl
  | .re _, t', h, _ => by simp [Term.resolve] at h; subst h; rfl
  | .ref _ _, t', h, hw => by simp [Term.resolve] at h; subst h; exact hw
  | .ext _, t', h, _ => by simp [Term.resolve] at h; subst h; rfl
  | .seq ts, t', h, hw => by
    simp only [Term.resolve, Option.map_eq_some_iff] at h
    obtain ⟨ts', h, rfl⟩ := h
    exact resolveList_wf ts h hw
  | .oneof ts, t', h, hw => by
    simp only [Term.resolve, Option.map_eq_some_iff] at h
    obtain ⟨ts', h, rfl⟩ := h
    exact resolveList_wf ts h hw
  | .stack _, t', h, _ => by simp [Term.resolve] at h
  | .delim t sep _ _ _, t', h, hw => by
    simp only [Term.resolve] at h
    split at h
    · rename_i a b ha hb
      simp at h; subst h
      simp only [Term.wf, Bool.and_eq_true] at hw ⊢
      exact ⟨resolve_wf t ha hw.1, resolve_wf sep hb hw.2⟩
    · simp at h
  | .look t, t', h, hw => by
    simp only [Term.resolve, Option.map_eq_some_iff] at h
    obtain ⟨u, h, rfl⟩ := h
    have := resolve_wf t h (by simpa [Term.wf] using hw)
    simpa [Term.wf] using this
  | .quant t _ _, t', h, hw => by
    simp only [Term.resolve, Option.map_eq_some_iff] at h
    obtain ⟨u, h, rfl⟩ := h
    have := resolve_wf t h (by simpa [Term.wf] using hw)
    simpa [Term.wf] using this
  | .named _ t, t', h, hw => by
    simp only [Term.resolve, Option.map_eq_some_iff] at h
    obtain ⟨u, h, rfl⟩ := h
    have := resolve_wf t h (by simpa [Term.wf] using hw)
    simpa [Term.wf] using this
  | .scope _ _, t', h, _ => by simp [Term.resolve] at h
  | .cut t, t', h, hw => by
    simp only [Term.resolve] at h
    simp only [Term.wf, Bool.and_eq_true] at hw
    exact resolve_wf t h hw.2
theorem resolveList_wf {old new : Str} : (ts : List Term) → ∀ {ts'}, resolveList old new ts = some ts' →
    wfList ts = true → wfList ts' = true
  | [], ts', h, _ => by simp [resolveList] at h; subst h; rfl
  | t :: ts, ts', h, hw => by
    simp only [resolveList] at h
    split at h
    · rename_i a b ha hb
      simp at h; subst h
      simp only [wfList, Bool.and_eq_true] at hw ⊢
      exact ⟨resolve_wf t ha hw.1, resolveList_wf ts hb hw.2⟩
    · simp at h
end

theorem resolve_hard {old new : Str} : (t : Term) → ∀ {t'}, t.resolve old new = some t' →
    t.hard = true → t'.hard = true
  | .rule _, t', h, hw => by simp [Term.hard] at hw
  | .s _, t', h, _ => by simp [Term.resolve] at h; subst h; rfl
  | .re _, t', h, _ => by simp [Term.resolve] at h; subst h; rfl
  | .ref _ _, t', h, hw => by simp [Term.resolve] at h; subst h; rfl
  | .ext _, t', h, _ => by simp [Term.resolve] at h; subst h; rfl
  | .seq ts, t', h, hw => by
    simp only [Term.resolve, Option.map_eq_some_iff] at h
    obtain ⟨ts', h, rfl⟩ := h; rfl
  | .oneof ts, t', h, hw => by
    simp only [Term.resolve, Option.map_eq_some_iff] at h
    obtain ⟨ts', h, rfl⟩ := h; rfl
  | .stack _, t', h, _ => by simp [Term.resolve] at h
  | .delim t sep _ _ _, t', h, hw => by
    simp only [Term.resolve] at h
    split at h
    · simp at h; subst h; rfl
    · simp at h
  | .look t, t', h, hw => by
    simp only [Term.resolve, Option.map_eq_some_iff] at h
    obtain ⟨u, h, rfl⟩ := h; rfl
  | .quant t _ _, t', h, hw => by
    simp only [Term.resolve, Option.map_eq_some_iff] at h
    obtain ⟨u, h, rfl⟩ := h; rfl
  | .named _ t, t', h, hw => by
    simp only [Term.resolve, Option.map_eq_some_iff] at h
    obtain ⟨u, h, rfl⟩ := h
    simp only [Term.hard] at hw ⊢
    exact resolve_hard t h hw
  | .scope _ _, t', h, _ => by simp [Term.resolve] at h
  | .cut t, t', h, hw => by
    simp only [Term.resolve] at h
    simp only [Term.hard] at hw
    exact resolve_hard t h hw

theorem hardOrRule_iff {t : Term} : t.hardOrRule = true ↔ (∃ r, t = .rule r) ∨ t.hard = true := by
  cases t <;> simp [Term.hardOrRule, Term.hard]

theorem resolve_hardOrRule {old new : Str} {t t' : Term} (h : t.resolve old new = some t')
    (hw : t.hardOrRule = true) : t'.hardOrRule = true := by
  rw [hardOrRule_iff] at hw ⊢
  rcases hw with ⟨r, rfl⟩ | hw
  · simp [Term.resolve] at h; exact Or.inl ⟨_, h.symm⟩
  · exact Or.inr (resolve_hard t h hw)

theorem resolve_not_stack {old new : Str} : {t t' : Term} → t.resolve old new = some t' →
    ∀ ts, t' ≠ .stack ts
  | .rule _, t', h, _ => by simp [Term.resolve] at h; subst h; simp
  | .s _, t', h, _ => by simp [Term.resolve] at h; subst h; simp
  | .re _, t', h, _ => by simp [Term.resolve] at h; subst h; simp
  | .ref _ _, t', h, _ => by simp [Term.resolve] at h; subst h; simp
  | .ext _, t', h, _ => by simp [Term.resolve] at h; subst h; simp
  | .seq ts, t', h, _ => by
    simp only [Term.resolve, Option.map_eq_some_iff] at h; obtain ⟨ts', h, rfl⟩ := h; simp
  | .oneof ts, t', h, _ => by
    simp only [Term.resolve, Option.map_eq_some_iff] at h; obtain ⟨ts', h, rfl⟩ := h; simp
  | .stack _, t', h, _ => by simp [Term.resolve] at h
  | .delim t sep _ _ _, t', h, _ => by
    simp only [Term.resolve] at h
    split at h
    · simp at h; subst h; simp
    · simp at h
  | .look t, t', h, _ => by
    simp only [Term.resolve, Option.map_eq_some_iff] at h; obtain ⟨u, h, rfl⟩ := h; simp
  | .quant t _ _, t', h, _ => by
    simp only [Term.resolve, Option.map_eq_some_iff] at h; obtain ⟨u, h, rfl⟩ := h; simp
  | .named _ t, t', h, _ => by
    simp only [Term.resolve, Option.map_eq_some_iff] at h; obtain ⟨u, h, rfl⟩ := h; simp
  | .scope _ _, t', h, _ => by simp [Term.resolve] at h
  | .cut t, t', h, ts => by
    simp only [Term.resolve] at h; exact resolve_not_stack h ts

theorem defOK_of_hardOrRule {t : Term} (h : t.hardOrRule = true) (hs : ∀ ts, t ≠ .stack ts) :
    t.defOK = true := by
  cases t <;> first | exact h | exact absurd rfl (hs _)

theorem resolveLayers_wf {rule n} : ∀ {i old layers g g'}, resolveLayers rule n i old layers g = some g' →
    layers.all Term.hardOrRule = true → wfList layers = true → wfDefs g = true → wfDefs g' = true
  | i, old, [], g, g', h, _, _, hg => by simp [resolveLayers] at h; exact h ▸ hg
  | i, old, l :: ls, g, g', h, h1, h2, hg => by
    simp only [resolveLayers] at h
    split at h
    · simp at h
    · rename_i t ht
      simp only [List.all_cons, Bool.and_eq_true] at h1
      simp only [wfList, Bool.and_eq_true] at h2
      exact resolveLayers_wf h h1.2 h2.2 (wfDefs_mapSet hg
        (defOK_of_hardOrRule (resolve_hardOrRule ht h1.1) (resolve_not_stack ht)) (resolve_wf _ ht h2.1))

theorem resolveStacksLoop_wf : ∀ {es g g'}, resolveStacksLoop es g = some g' → wfDefs es = true →
    wfDefs g = true → wfDefs g' = true
  | [], g, g', h, _, hg => by simp [resolveStacksLoop] at h; exact h ▸ hg
  | (r, t) :: es, g, g', h, he, hg => by
    simp only [wfDefs, Bool.and_eq_true] at he
    unfold resolveStacksLoop at h
    split at h
    · rename_i heq; simp at heq
    · rename_i rule layers rest heq
      simp at heq
      obtain ⟨⟨rfl, rfl⟩, rfl⟩ := heq
      split at h
      · simp at h
      · rename_i g1 hg1
        exact resolveStacksLoop_wf h he.2 (resolveLayers_wf hg1 he.1.1 he.1.2 hg)
    · rename_i heq
      simp at heq
      obtain ⟨_, rfl⟩ := heq
      exact resolveStacksLoop_wf h he.2 hg

theorem resolveStacks_wf {g g' : Grammar} (h : g.resolveStacks = some g') (hw : wfDefs g = true) :
    wfDefs g' = true := by
  unfold Grammar.resolveStacks at h
  split at h
  · exact resolveStacksLoop_wf h hw hw
  · simp at h; exact h ▸ hw

theorem resolveLayers_hasKey {rule n k} : ∀ {i old layers g g'},
    resolveLayers rule n i old layers g = some g' → hasKey k g = true → hasKey k g' = true
  | i, old, [], g, g', h, hg => by simp [resolveLayers] at h; exact h ▸ hg
  | i, old, l :: ls, g, g', h, hg => by
    simp only [resolveLayers] at h
    split at h
    · simp at h
    · exact resolveLayers_hasKey h (hasKey_mapSet hg)

theorem resolveStacksLoop_hasKey {k} : ∀ {es g g'}, resolveStacksLoop es g = some g' →
    hasKey k g = true → hasKey k g' = true
  | [], g, g', h, hg => by simp [resolveStacksLoop] at h; exact h ▸ hg
  | (r, t) :: es, g, g', h, hg => by
    unfold resolveStacksLoop at h
    split at h
    · rename_i heq; simp at heq
    · rename_i rule layers rest heq
      simp at heq
      obtain ⟨⟨rfl, rfl⟩, rfl⟩ := heq
      split at h
      · simp at h
      · rename_i g1 hg1
        exact resolveStacksLoop_hasKey h (resolveLayers_hasKey hg1 hg)
    · rename_i heq
      simp at heq
      obtain ⟨_, rfl⟩ := heq
      exact resolveStacksLoop_hasKey h hg

theorem resolveStacks_hasKey {k} {g g' : Grammar} (h : g.resolveStacks = some g')
    (hk : hasKey k g = true) : hasKey k g' = true := by
  unfold Grammar.resolveStacks at h
  split at h
  · exact resolveStacksLoop_hasKey h hk
  · simp at h; exact h ▸ hk

theorem prepare_ok {g g'} : prepare g = .ok g' ↔ g.resolveStacks = some g' := by
  unfold prepare
  cases g.resolveStacks <;> simp

/-- A wrapper taken from a well-formed grammar. -/
def wrapWF (w : Option Term) : Prop := ∀ t, w = some t → t.defOK = true ∧ t.wf = true

theorem wrapWF_lookup {g : Grammar} (h : wfDefs g = true) : wrapWF (lookup wrapRE g) :=
  fun _ ht => wfDefs_lookup h ht

theorem inheritWrap_wf {w : Option Term} {g : Grammar} (hw : wrapWF w) (hg : wfDefs g = true) :
    wfDefs (inheritWrap w g) = true := by
  unfold inheritWrap
  split
  · exact hg
  · split
    · exact hg
    · exact wfDefs_mapSet hg (hw _ rfl).1 (hw _ rfl).2

theorem inheritWrap_hasKey {w : Option Term} {g : Grammar} {k} (hk : hasKey k g = true) :
    hasKey k (inheritWrap w g) = true := by
  unfold inheritWrap
  split
  · exact hk
  · split
    · exact hk
    · exact hasKey_mapSet hk

/-! ### Binding in `Except` -/

theorem Except.bind_ok {ε α β} {a : Except ε α} {f : α → Except ε β} {b} :
    a.bind f = .ok b ↔ ∃ x, a = .ok x ∧ f x = .ok b := by
  cases a <;> simp [Except.bind]

/-! ### Rule tables -/

theorem Defines.det {g r t t'} (h : Defines g r t) (h' : Defines g r t') : t = t' := by
  induction h with
  | here h hn =>
    cases h' with
    | here h1 _ => rw [h] at h1; exact Option.some.inj h1
    | «alias» h1 _ => rw [h] at h1; exact absurd (Option.some.inj h1) (hn _)
  | «alias» h _ ih =>
    cases h' with
    | here h1 hn => rw [h] at h1; exact absurd (Option.some.inj h1).symm (hn _)
    | «alias» h1 h2 =>
      rw [h] at h1
      simp at h1; subst h1
      exact ih h2

theorem Defines.key {g r t} (h : Defines g r t) : ∃ u, lookup r g = some u := by
  cases h with
  | here h _ => exact ⟨_, h⟩
  | «alias» h _ => exact ⟨_, h⟩

theorem Resolves.det {Γ r Γ₁ t₁ Γ₂ t₂} (h : Resolves Γ r Γ₁ t₁) (h' : Resolves Γ r Γ₂ t₂) :
    Γ₁ = Γ₂ ∧ t₁ = t₂ := by
  induction h with
  | here h =>
    cases h' with
    | here h' => exact ⟨rfl, h.det h'⟩
    | outer hn _ => obtain ⟨u, hu⟩ := h.key; rw [hn] at hu; simp at hu
  | outer hn _ ih =>
    cases h' with
    | here h' => obtain ⟨u, hu⟩ := h'.key; rw [hn] at hu; simp at hu
    | outer _ h' => exact ih h'

theorem followAlias_defines {g : Grammar} {n t t'} (h : followAlias g n t = .ok t') :
    (∀ r, t' ≠ .rule r) ∧ ∀ r, lookup r g = some t → Defines g r t' := by
  induction n generalizing t with
  | zero => simp [followAlias] at h
  | succ n ih =>
    by_cases hr : ∃ r, t = .rule r
    · obtain ⟨r, rfl⟩ := hr
      simp only [followAlias] at h
      split at h
      · simp at h
      · rename_i u hu
        exact ⟨(ih h).1, fun r' hr' => .alias hr' ((ih h).2 r hu)⟩
    · have : t' = t := by
        cases t <;> first | (simp [followAlias] at h; exact h.symm) | exact absurd ⟨_, rfl⟩ hr
      subst this
      exact ⟨fun r hh => hr ⟨r, hh⟩, fun r hr' => .here hr' (fun r hh => hr ⟨r, hh⟩)⟩

theorem Defines.wf {g r t} (hg : wfDefs g = true) (h : Defines g r t) :
    t.defOK = true ∧ t.wf = true ∧ ∀ r, t ≠ .rule r := by
  induction h with
  | here h hn => exact ⟨(wfDefs_lookup hg h).1, (wfDefs_lookup hg h).2, hn⟩
  | «alias» _ _ ih => exact ih

theorem compileRules_lookup {n g comp} : ∀ {es f}, compileRules n g comp es = .ok f →
    ∀ r, (lookup r f = none ↔ lookup r es = none) ∧
      ∀ p, lookup r f = some p →
        ∃ t t', lookup r es = some t ∧ followAlias g n t = .ok t' ∧ comp r t' = .ok p
  | [], f, h, r => by simp [compileRules] at h; subst h; simp [lookup]
  | (k, t) :: es, f, h, r => by
    simp only [compileRules, Except.bind_ok] at h
    obtain ⟨t', h1, p, h2, ps, h3, h4⟩ := h
    simp at h4; subst h4
    simp only [lookup]
    split
    · rename_i hk; subst hk
      exact ⟨by simp, fun q hq => ⟨t, t', rfl, h1, by rw [h2]; simp at hq; rw [hq]⟩⟩
    · exact compileRules_lookup h3 r

/-- A compiled rule table: a rule is in the table iff it is in the grammar, and its parser is the
compiled definition. -/
theorem frame_lookup {E : Engine} {m g f} (h : compileRules m g (compileTerm E m (cacheFor g)) g = .ok f)
    (r : Str) : (lookup r f = none ↔ lookup r g = none) ∧
      ∀ p, lookup r f = some p → ∃ t, Defines g r t ∧ compileTerm E m (cacheFor g) r t = .ok p := by
  obtain ⟨h1, h2⟩ := compileRules_lookup h r
  refine ⟨h1, fun p hp => ?_⟩
  obtain ⟨t, t', h3, h4, h5⟩ := h2 p hp
  exact ⟨t', (followAlias_defines h4).2 r h3, h5⟩

/-! ### Bare references -/

theorem headRule_compile {E : Engine} {r m c rule} : ∀ {t : Term} {p}, t.headRule = some r →
    compileTerm E m c rule t = .ok p → p = .rule r := by
  intro t p
  induction m generalizing rule t with
  | zero => intro _ h; simp [compileTerm_zero] at h
  | succ m ih =>
    intro hh h
    cases t with
    | rule r' => rw [compileTerm_rule] at h; simp [Term.headRule] at hh; simp at h; rw [← h, hh]
    | named n t => rw [compileTerm_named] at h; exact ih (t := t) hh h
    | _ => simp [Term.headRule] at hh

theorem compile_hard {E : Engine} {m c rule t p} (hc : wrapWF c.wrap) (hw : t.wf = true)
    (hh : t.hard = true) (h : compileTerm E m c rule t = .ok p) : ∀ r, p ≠ .rule r := by
  induction m generalizing c rule t p with
  | zero => simp [compileTerm_zero] at h
  | succ m ih =>
    cases t with
    | rule r => simp [Term.hard] at hh
    | s l =>
      rw [compileTerm_s] at h
      simp only [compileS, Except.bind_ok] at h
      obtain ⟨_, _, _, _, h⟩ := h; simp at h; subst h; simp
    | re l =>
      rw [compileTerm_re] at h
      simp only [compileRE, Except.bind_ok] at h
      obtain ⟨_, _, _, _, h⟩ := h; simp at h; subst h; simp
    | ref i d => rw [compileTerm_ref] at h; simp at h; subst h; simp
    | ext x => rw [compileTerm_ext] at h; simp at h; subst h; simp
    | seq ts =>
      rw [compileTerm_seq, Except.bind_ok] at h
      obtain ⟨_, _, h⟩ := h; simp at h; subst h; simp
    | oneof ts =>
      rw [compileTerm_oneof, Except.bind_ok] at h
      obtain ⟨_, _, h⟩ := h; simp at h; subst h; simp
    | stack ts => rw [compileTerm_stack] at h; simp at h
    | delim =>
      rw [compileTerm_delim] at h
      simp only [Except.bind_ok] at h
      obtain ⟨_, _, _, _, h⟩ := h; simp at h; subst h; simp
    | look t =>
      rw [compileTerm_look] at h
      simp only [Except.bind_ok] at h
      obtain ⟨_, _, _, _, h⟩ := h; simp at h; subst h; simp
    | quant t lo hi =>
      rw [compileTerm_quant] at h
      simp only [Except.bind_ok] at h
      obtain ⟨_, _, _, _, h⟩ := h; simp at h; subst h; simp
    | named n t =>
      rw [compileTerm_named] at h
      exact ih (t := t) hc (by simpa [Term.wf] using hw) hh h
    | scope t g =>
      rw [compileTerm_scope] at h
      simp only [Except.bind_ok] at h
      obtain ⟨g1, h1, f, h2, q, h3, h⟩ := h
      simp only [Term.wf, Bool.and_eq_true] at hw
      have hg1 := resolveStacks_wf (prepare_ok.1 h1) hw.2
      have hg2 := inheritWrap_wf hc hg1
      simp only [Term.hard, Bool.or_eq_true] at hh
      simp at h; subst h
      intro r
      cases q with
      | rule r0 =>
        rcases hh with hh | hh
        · exact absurd rfl (ih (wrapWF_lookup hg2) hw.1 hh h3 r0)
        · cases hr : t.headRule with
          | none => simp [hr] at hh
          | some r1 =>
            have := headRule_compile hr h3
            simp at this; subst this
            simp [hr] at hh
            have hk := inheritWrap_hasKey (w := c.wrap) (resolveStacks_hasKey (prepare_ok.1 h1) hh)
            simp only [scopeResult]
            split
            · rename_i r' hr'
              obtain ⟨t', h5, h6⟩ := (frame_lookup h2 _).2 _ hr'
              obtain ⟨h7, h8, h9⟩ := h5.wf hg2
              have hhard : t'.hard = true := by
                cases t' with
                | rule r => exact absurd rfl (h9 r)
                | stack ts => cases m with
                  | zero => simp [compileTerm_zero] at h6
                  | succ m => rw [compileTerm_stack] at h6; simp at h6
                | _ => exact h7
              exact absurd rfl (ih (wrapWF_lookup hg2) h8 hhard h6 r')
            · simp
            · rename_i hnone
              have := (frame_lookup h2 _).1.1 hnone
              rw [hasKey_iff] at hk
              rw [this] at hk; simp at hk
      | _ => simp [scopeResult]
    | cut t =>
      rw [compileTerm_cut] at h
      simp only [Except.bind_ok] at h
      obtain ⟨_, _, h⟩ := h; simp at h; subst h; simp

/-- Definitions that compile leave no bare reference in the table. -/
theorem frame_hard {E : Engine} {m g f} (hg : wfDefs g = true)
    (h : compileRules m g (compileTerm E m (cacheFor g)) g = .ok f) {r p} (hl : lookup r f = some p) :
    ∀ r', p ≠ .rule r' := by
  obtain ⟨t', h5, h6⟩ := (frame_lookup h _).2 _ hl
  obtain ⟨h7, h8, h9⟩ := h5.wf hg
  have hhard : t'.hard = true := by
    cases t' with
    | rule r => exact absurd rfl (h9 r)
    | stack ts => cases m with
      | zero => simp [compileTerm_zero] at h6
      | succ m => rw [compileTerm_stack] at h6; simp at h6
    | _ => exact h7
  exact compile_hard (wrapWF_lookup hg) h8 hhard h6

end Wbnf

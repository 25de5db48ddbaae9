import Verif.Spec.Effect
import Verif.Model.Effect
import Verif.Lemmas.ReorderCompile

/-!
# A grammar does the same before and after it was compiled
-/

namespace Wbnf

variable {E : Engine} {X : Externals}

mutual
/-- The same, but for `.wrapRE` added in braces. `w` is the wrapper in force. -/
inductive Mix : Option Term → Term → Term → Prop
  | rule {w r} : Mix w (.rule r) (.rule r)
  | s {w l} : Mix w (.s l) (.s l)
  | re {w p} : Mix w (.re p) (.re p)
  | ref {w i d} : Mix w (.ref i d) (.ref i d)
  | ext {w x} : Mix w (.ext x) (.ext x)
  | stack {w ts} : Mix w (.stack ts) (.stack ts)
  | seq {w ts ts'} : MixList w ts ts' → Mix w (.seq ts) (.seq ts')
  | oneof {w ts ts'} : MixList w ts ts' → Mix w (.oneof ts) (.oneof ts')
  | delim {w t t' sep sep' a cs ce} : Mix w t t' → Mix w sep sep' → Mix w (.delim t sep a cs ce) (.delim t' sep' a cs ce)
  | look {w t t'} : Mix w t t' → Mix w (.look t) (.look t')
  | quant {w t t' lo hi} : Mix w t t' → Mix w (.quant t lo hi) (.quant t' lo hi)
  | named {w n t t'} : Mix w t t' → Mix w (.named n t) (.named n t')
  | cut {w t t'} : Mix w t t' → Mix w (.cut t) (.cut t')
  | stuck {w t t' g g'} : Grammar.resolveStacks g = none → Grammar.resolveStacks g' = none → Mix w (.scope t g) (.scope t' g')
  | scope {w t t' g g' g1 g1'} {f : Str → Term} : Grammar.resolveStacks g = some g1 → Grammar.resolveStacks g' = some g1' →
      Grammar.Distinct (inheritWrap w g1) → Grammar.Distinct (inheritWrap w g1') →
      lookup wrapRE (inheritWrap w g1') = lookup wrapRE (inheritWrap w g1) →
      (∀ k, lookup k (inheritWrap w g1) = none → lookup k (inheritWrap w g1') = none) →
      (∀ k u, lookup k (inheritWrap w g1) = some u → lookup k (inheritWrap w g1') = some (f k)) →
      (∀ k u, lookup k (inheritWrap w g1) = some u → Mix (lookup wrapRE (inheritWrap w g1)) u (f k)) →
      Mix (lookup wrapRE (inheritWrap w g1)) t t' → Mix w (.scope t g) (.scope t' g')
inductive MixList : Option Term → List Term → List Term → Prop
  | nil {w} : MixList w [] []
  | cons {w t t' ts ts'} : Mix w t t' → MixList w ts ts' → MixList w (t :: ts) (t' :: ts')
end

/-- Grammars with their stacks resolved, and with the wrapper inherited. -/
structure MixDefs (g g' : Grammar) : Prop where
  distinct : g.Distinct
  distinct' : g'.Distinct
  wrap : lookup wrapRE g' = lookup wrapRE g
  none : ∀ k, lookup k g = none → lookup k g' = none
  some : ∀ k u, lookup k g = some u → ∃ u', lookup k g' = some u' ∧ Mix (lookup wrapRE g) u u'

theorem MixDefs.scope {w t t'} {g g' g1 g1' : Grammar} (h1 : Grammar.resolveStacks g = .some g1) (h2 : Grammar.resolveStacks g' = .some g1')
    (h : MixDefs (inheritWrap w g1) (inheritWrap w g1')) (ht : Mix (lookup wrapRE (inheritWrap w g1)) t t') :
    Mix w (.scope t g) (.scope t' g') := by
  refine .scope (f := fun k => (lookup k (inheritWrap w g1')).getD (.rule [])) h1 h2 h.distinct h.distinct' h.wrap h.none ?_ ?_ ht
  · intro k u hu
    obtain ⟨u', h3, _⟩ := h.some k u hu
    simp [h3]
  · intro k u hu
    obtain ⟨u', h3, h4⟩ := h.some k u hu
    simpa [h3] using h4

mutual
theorem Mix.symm : {w : Option Term} → {t t' : Term} → Mix w t t' → Mix w t' t
  | _, _, _, .rule => .rule
  | _, _, _, .s => .s
  | _, _, _, .re => .re
  | _, _, _, .ref => .ref
  | _, _, _, .ext => .ext
  | _, _, _, .stack => .stack
  | _, _, _, .seq h => .seq h.symm
  | _, _, _, .oneof h => .oneof h.symm
  | _, _, _, .delim h h' => .delim h.symm h'.symm
  | _, _, _, .look h => .look h.symm
  | _, _, _, .quant h => .quant h.symm
  | _, _, _, .named h => .named h.symm
  | _, _, _, .cut h => .cut h.symm
  | _, _, _, .stuck h h' => .stuck h' h
  | w, _, _, .scope (g1 := g1) (g1' := g1') (f := f) h1 h2 d1 d2 hw hn hs hm ht => by
    have ih : ∀ k u, lookup k (inheritWrap w g1) = some u → Mix (lookup wrapRE (inheritWrap w g1)) (f k) u :=
      fun k u hu => (hm k u hu).symm
    have iht := ht.symm
    have hns : ∀ k u, lookup k (inheritWrap w g1') = some u → ∃ v, lookup k (inheritWrap w g1) = some v ∧ u = f k := by
      intro k u hu
      cases hv : lookup k (inheritWrap w g1) with
      | none => rw [hn k hv] at hu; simp at hu
      | some v => exact ⟨v, rfl, by rw [hs k v hv] at hu; exact (Option.some.inj hu).symm⟩
    rw [← hw] at iht
    refine .scope (f := fun k => (lookup k (inheritWrap w g1)).getD (.rule [])) h2 h1 d2 d1 hw.symm ?_ ?_ ?_ iht
    · intro k hk
      cases hv : lookup k (inheritWrap w g1) with
      | none => rfl
      | some v => rw [hs k v hv] at hk; simp at hk
    · intro k u hu
      obtain ⟨v, h3, _⟩ := hns k u hu
      simp [h3]
    · intro k u hu
      obtain ⟨v, h3, rfl⟩ := hns k u hu
      rw [h3, hw]
      exact ih k v h3
theorem MixList.symm : {w : Option Term} → {t t' : List Term} → MixList w t t' → MixList w t' t
  | _, _, _, .nil => .nil
  | _, _, _, .cons h hs => .cons h.symm hs.symm
end

theorem MixDefs.symm {g g' : Grammar} (h : MixDefs g g') : MixDefs g' g where
  distinct := h.distinct'
  distinct' := h.distinct
  wrap := h.wrap.symm
  none k hk := by
    cases hv : lookup k g with
    | none => rfl
    | some v => obtain ⟨u, h1, _⟩ := h.some k v hv; rw [h1] at hk; simp at hk
  some k u hu := by
    cases hv : lookup k g with
    | none => rw [h.none k hv] at hu; simp at hu
    | some v =>
      obtain ⟨u', h1, h2⟩ := h.some k v hv
      rw [hu] at h1
      cases h1
      exact ⟨v, rfl, by rw [h.wrap]; exact h2.symm⟩

theorem Mix.ident {w} {t t' : Term} (h : Mix w t t') : identFromTerm t = identFromTerm t' :=
  match h with
  | .rule => rfl
  | .s => rfl
  | .re => rfl
  | .ref => rfl
  | .ext => rfl
  | .seq _ => rfl
  | .oneof _ => rfl
  | .stack => rfl
  | .delim _ _ => rfl
  | .look _ => rfl
  | .quant h => by simp only [identFromTerm]; exact h.ident
  | .named h => by simp only [identFromTerm]; rw [h.ident]
  | .scope .. => rfl
  | .stuck .. => rfl
  | .cut _ => rfl

theorem Mix.rule_inv {w r t'} (h : Mix w (.rule r) t') : t' = .rule r := by cases h; rfl

theorem MixDefs.defines {g g' : Grammar} (h : MixDefs g g') {r t} (hd : Defines g r t) :
    ∃ t', Defines g' r t' ∧ Mix (lookup wrapRE g) t t' := by
  induction hd with
  | here hl hn =>
    obtain ⟨t', h1, h2⟩ := h.some _ _ hl
    exact ⟨t', .here h1 fun r' e => hn r' (by subst e; exact h2.symm.rule_inv), h2⟩
  | «alias» hl _ ih =>
    obtain ⟨t', h1, h2⟩ := h.some _ _ hl
    obtain rfl := h2.rule_inv
    obtain ⟨t'', h3, h4⟩ := ih
    exact ⟨t'', .alias h1 h3, h4⟩

/-- Scopes of such grammars. -/
inductive MixScope : List Grammar → List Grammar → Prop
  | nil : MixScope [] []
  | cons {g g' Γ Γ'} : MixDefs g g' → MixScope Γ Γ' → MixScope (g :: Γ) (g' :: Γ')

theorem MixScope.symm {Γ Γ'} (h : MixScope Γ Γ') : MixScope Γ' Γ := by
  induction h with
  | nil => exact .nil
  | cons h _ ih => exact .cons h.symm ih

theorem MixScope.wrap {Γ Γ'} (h : MixScope Γ Γ') : wrapOf Γ' = wrapOf Γ := by
  cases h with
  | nil => rfl
  | cons h _ => exact h.wrap

theorem MixScope.resolves {Γ Γ'} (h : MixScope Γ Γ') {r Γ₁ t₁} (hr : Resolves Γ r Γ₁ t₁) :
    ∃ Γ₁' t₁', Resolves Γ' r Γ₁' t₁' ∧ MixScope Γ₁ Γ₁' ∧ Mix (wrapOf Γ₁) t₁ t₁' := by
  induction h with
  | nil => cases hr
  | cons hg hs ih =>
    cases hr with
    | here hd =>
      obtain ⟨t', h1, h2⟩ := hg.defines hd
      exact ⟨_, t', .here h1, .cons hg hs, h2⟩
    | outer hl hr =>
      obtain ⟨Γ₁', t₁', h1, h2⟩ := ih hr
      exact ⟨Γ₁', t₁', .outer (hg.none _ hl) h1, h2⟩

def MixRel : TermRel := fun Γ t Γ' t' => MixScope Γ Γ' ∧ Mix (wrapOf Γ) t t'

theorem MixRel.list {Γ Γ' ts ts'} (hs : MixScope Γ Γ') (h : MixList (wrapOf Γ) ts ts') : RList MixRel Γ Γ' ts ts' := by
  generalize hw : wrapOf Γ = w at h
  exact go hw h
where
  go {w ts ts'} (hw : wrapOf Γ = w) : MixList w ts ts' → RList MixRel Γ Γ' ts ts'
    | .nil => .nil
    | .cons h hr => .cons ⟨hs, hw ▸ h⟩ (go hw hr)

theorem MixList.append {w} {a a' b b' : List Term} (h : MixList w a a') (h' : MixList w b b') : MixList w (a ++ b) (a' ++ b') :=
  match h with
  | .nil => h'
  | .cons h hs => .cons h (hs.append h')

theorem MixList.delim {w t t' sep sep'} (h : Mix w t t') (h' : Mix w sep sep') (cs ce : Bool) :
    MixList w (delimSeq t sep cs ce) (delimSeq t' sep' cs ce) := by
  have o : MixList w [optT sep] [optT sep'] := .cons (.quant h') .nil
  have m : MixList w [.seq [t, anyT (.seq [sep, t])]] [.seq [t', anyT (.seq [sep', t'])]] :=
    .cons (.seq (.cons h (.cons (.quant (.seq (.cons h' (.cons h .nil)))) .nil))) .nil
  unfold delimSeq
  cases cs <;> cases ce
  · exact .append (.append .nil m) .nil
  · exact .append (.append .nil m) o
  · exact .append (.append o m) .nil
  · exact .append (.append o m) o

theorem Mix.scope_inv {w t g t'} (h : Mix w (.scope t g) t') : ∃ u g', t' = .scope u g' ∧
    ∀ {g1}, Grammar.resolveStacks g = some g1 → ∃ g1', Grammar.resolveStacks g' = some g1' ∧
      MixDefs (inheritWrap w g1) (inheritWrap w g1') ∧ Mix (lookup wrapRE (inheritWrap w g1)) t u := by
  cases h with
  | stuck h1 h2 => exact ⟨_, _, rfl, fun h => by rw [h1] at h; simp at h⟩
  | scope h1 h2 d1 d2 hw hn hs hm ht =>
    refine ⟨_, _, rfl, fun h => ?_⟩
    rw [h1] at h
    cases h
    exact ⟨_, h2, ⟨d1, d2, hw, hn, fun k u hu => ⟨_, hs k u hu, hm k u hu⟩⟩, ht⟩

theorem sameShape_mix : SameShape MixRel where
  symm h := ⟨h.1.symm, by rw [h.1.wrap]; exact h.2.symm⟩
  ident h := h.2.ident
  rule := by
    rintro Γ r Γ' t' ⟨h1, h2⟩
    refine ⟨h2.rule_inv, fun hr => ?_⟩
    obtain ⟨Γ₁', t₁', h4, h5, h6⟩ := h1.resolves hr
    exact ⟨Γ₁', t₁', h4, .of ⟨h5, h6⟩⟩
  lit := by
    rintro Γ r Γ' t' ⟨h1, h2⟩
    refine ⟨?_, fun h => by rw [h1.wrap]; exact h⟩
    generalize wrapOf Γ = w at h2
    cases h2; rfl
  re := by
    rintro Γ r Γ' t' ⟨h1, h2⟩
    refine ⟨?_, fun h => by rw [h1.wrap]; exact h⟩
    generalize wrapOf Γ = w at h2
    cases h2; rfl
  ref := by rintro Γ i d Γ' t' ⟨h1, h2⟩; generalize wrapOf Γ = w at h2; cases h2; rfl
  ext := by rintro Γ i Γ' t' ⟨h1, h2⟩; generalize wrapOf Γ = w at h2; cases h2; rfl
  seq := by
    rintro Γ i Γ' t' ⟨h1, h2⟩
    obtain ⟨ts', rfl, h⟩ : ∃ ts', t' = .seq ts' ∧ MixList (wrapOf Γ) i ts' := by
      generalize wrapOf Γ = w at h2; cases h2 with | seq h => exact ⟨_, rfl, h⟩
    exact ⟨_, rfl, MixRel.list h1 h⟩
  oneof := by
    rintro Γ i Γ' t' ⟨h1, h2⟩
    obtain ⟨ts', rfl, h⟩ : ∃ ts', t' = .oneof ts' ∧ MixList (wrapOf Γ) i ts' := by
      generalize wrapOf Γ = w at h2; cases h2 with | oneof h => exact ⟨_, rfl, h⟩
    exact ⟨_, rfl, MixRel.list h1 h⟩
  delim := by
    rintro Γ t sep a cs ce Γ' t' ⟨h1, h2⟩
    obtain ⟨u, v, rfl, h, h'⟩ : ∃ u v, t' = .delim u v a cs ce ∧ Mix (wrapOf Γ) t u ∧ Mix (wrapOf Γ) sep v := by
      generalize wrapOf Γ = w at h2; cases h2 with | delim h h' => exact ⟨_, _, rfl, h, h'⟩
    exact ⟨_, _, rfl, h1, .seq (.delim h h' cs ce)⟩
  look := by
    rintro Γ t Γ' t' ⟨h1, h2⟩
    obtain ⟨u, rfl, h⟩ : ∃ u, t' = .look u ∧ Mix (wrapOf Γ) t u := by
      generalize wrapOf Γ = w at h2; cases h2 with | look h => exact ⟨_, rfl, h⟩
    exact ⟨_, rfl, h1, h⟩
  quant := by
    rintro Γ t lo hi Γ' t' ⟨h1, h2⟩
    obtain ⟨u, rfl, h⟩ : ∃ u, t' = .quant u lo hi ∧ Mix (wrapOf Γ) t u := by
      generalize wrapOf Γ = w at h2; cases h2 with | quant h => exact ⟨_, rfl, h⟩
    exact ⟨_, rfl, h1, h⟩
  named := by
    rintro Γ n t Γ' t' ⟨h1, h2⟩
    obtain ⟨u, rfl, h⟩ : ∃ u, t' = .named n u ∧ Mix (wrapOf Γ) t u := by
      generalize wrapOf Γ = w at h2; cases h2 with | named h => exact ⟨_, rfl, h⟩
    exact ⟨_, rfl, h1, h⟩
  cut := by
    rintro Γ t Γ' t' ⟨h1, h2⟩
    obtain ⟨u, rfl, h⟩ : ∃ u, t' = .cut u ∧ Mix (wrapOf Γ) t u := by
      generalize wrapOf Γ = w at h2; cases h2 with | cut h => exact ⟨_, rfl, h⟩
    exact ⟨_, rfl, h1, h⟩
  scope := by
    rintro Γ t g Γ' t' ⟨h1, h2⟩
    obtain ⟨u, g', rfl, h3⟩ := h2.scope_inv
    refine ⟨_, _, rfl, ?_⟩
    rintro g₁ ⟨g2, h4, rfl⟩
    obtain ⟨g1', h5, h6, h7⟩ := h3 h4
    exact ⟨_, ⟨g1', h5, by rw [h1.wrap]⟩, .cons h6 h1, h7⟩

/-! ## Compiling -/

theorem MixDefs.standsFor {g g' : Grammar} (h : MixDefs g g') {t t' u} (ht : Mix (lookup wrapRE g) t t')
    (hs : StandsFor g t u) : ∃ u', StandsFor g' t' u' ∧ Mix (lookup wrapRE g) u u' := by
  rcases hs with ⟨rfl, hn⟩ | ⟨r, rfl, hd⟩
  · exact ⟨t', Or.inl ⟨rfl, fun r e => hn r (by subst e; exact ht.symm.rule_inv)⟩, ht⟩
  · obtain rfl := ht.rule_inv
    obtain ⟨u', h1, h2⟩ := h.defines hd
    exact ⟨u', Or.inr ⟨r, rfl, h1⟩, h2⟩

theorem MixDefs.rules {g g' : Grammar} (h : MixDefs g g') {P Q : Term → Prop}
    (hPQ : ∀ t t', Mix (lookup wrapRE g) t t' → P t → Q t')
    (hP : ∀ e ∈ g, ∃ t', StandsFor g e.2 t' ∧ P t') : ∀ e ∈ g', ∃ t', StandsFor g' e.2 t' ∧ Q t' := by
  rintro ⟨k, t'⟩ hm
  obtain ⟨t, h1, h2⟩ := h.symm.some k t' ((lookup_iff_mem h.distinct').2 hm)
  rw [h.wrap] at h2
  obtain ⟨u, h4, h5⟩ := hP (k, t) ((lookup_iff_mem h.distinct).1 h1)
  obtain ⟨u', h6, h7⟩ := h.standsFor h2.symm h4
  exact ⟨u', h6, hPQ _ _ h7 h5⟩

theorem MixList.mem {w} {ts ts' : List Term} (h : MixList w ts ts') {t'} (hm : t' ∈ ts') : ∃ t ∈ ts, Mix w t t' :=
  match h with
  | .nil => by simp at hm
  | .cons h hs => by
    rcases List.mem_cons.1 hm with rfl | hm
    · exact ⟨_, by simp, h⟩
    · obtain ⟨t, h1, h2⟩ := hs.mem hm
      exact ⟨t, by simp [h1], h2⟩

theorem Compilable.mix {w t} (h : Compilable E w t) : ∀ {t'}, Mix w t t' → Compilable E w t' := by
  induction h with
  | rule => intro t' hr; cases hr; exact .rule
  | ref => intro t' hr; cases hr; exact .ref
  | ext => intro t' hr; cases hr; exact .ext
  | lit h => intro t' hr; cases hr; exact .lit h
  | regexp h => intro t' hr; cases hr; exact .regexp h
  | seq _ ih =>
    intro t' hr
    cases hr with
    | seq h =>
      refine .seq fun t' hm => ?_
      obtain ⟨t, h1, h2⟩ := h.mem hm
      exact ih t h1 h2
  | oneof _ ih =>
    intro t' hr
    cases hr with
    | oneof h =>
      refine .oneof fun t' hm => ?_
      obtain ⟨t, h1, h2⟩ := h.mem hm
      exact ih t h1 h2
  | delim _ _ ih1 ih2 => intro t' hr; cases hr with | delim h h' => exact .delim (ih1 h) (ih2 h')
  | look _ ih => intro t' hr; cases hr with | look h => exact .look (ih h)
  | quant _ ih => intro t' hr; cases hr with | quant h => exact .quant (ih h)
  | named _ ih => intro t' hr; cases hr with | named h => exact .named (ih h)
  | cut _ ih => intro t' hr; cases hr with | cut h => exact .cut (ih h)
  | @scope w₀ t₀ g₀ g₁ hs hst _ _ ih1 ih2 =>
    intro t' hr
    obtain ⟨u, g', rfl, h3⟩ := hr.scope_inv
    obtain ⟨g1', h1, h4, h5⟩ := h3 hs
    have key := h4.rules (P := fun t => ∀ {t'}, Mix (lookup wrapRE (inheritWrap w₀ g₁)) t t' → Compilable E (lookup wrapRE (inheritWrap w₀ g₁)) t')
      (Q := fun t' => Compilable E (lookup wrapRE (inheritWrap w₀ g₁)) t')
      (fun t t' hr hP => hP hr)
      (fun e he => by
        obtain ⟨u, hu⟩ := hst e he
        exact ⟨u, hu, ih1 e he u hu⟩)
    rw [← h4.wrap] at key
    refine .scope h1 (fun e he => ?_) (fun e he u hu => ?_) (by rw [h4.wrap]; exact ih2 h5)
    · obtain ⟨u, hu, _⟩ := key e he
      exact ⟨u, hu⟩
    · obtain ⟨u', hu', h4⟩ := key e he
      rw [hu.det hu']
      exact h4

theorem Grammar.Compilable.mix {g g' g1 g1' : Grammar} (h : g.Compilable E) (h1 : g.resolveStacks = some g1)
    (h1' : g'.resolveStacks = some g1') (hm : MixDefs g1 g1') : g'.Compilable E := by
  obtain ⟨_, h2, h3⟩ := h
  rw [h1] at h2
  cases h2
  refine ⟨g1', h1', ?_⟩
  rw [hm.wrap]
  exact hm.rules (fun t t' hr hP => hP.mix hr) h3

/-! ## What compiling leaves behind -/

mutual
theorem flat_after {w : Option Term} : (t : Term) → t.flat = true → t.after w = t
  | .rule _, _ => rfl
  | .s _, _ => rfl
  | .re _, _ => rfl
  | .ref _ _, _ => rfl
  | .ext _, _ => rfl
  | .stack _, h => by simp [Term.flat] at h
  | .scope _ _, h => by simp [Term.flat] at h
  | .seq ts, h => by rw [Term.after, flatList_after ts (by simpa [Term.flat] using h)]
  | .oneof ts, h => by rw [Term.after, flatList_after ts (by simpa [Term.flat] using h)]
  | .delim t sep _ _ _, h => by simp [Term.flat] at h; rw [Term.after, flat_after t h.1, flat_after sep h.2]
  | .look t, h => by rw [Term.after, flat_after t (by simpa [Term.flat] using h)]
  | .quant t _ _, h => by rw [Term.after, flat_after t (by simpa [Term.flat] using h)]
  | .named _ t, h => by rw [Term.after, flat_after t (by simpa [Term.flat] using h)]
  | .cut t, h => by rw [Term.after, flat_after t (by simpa [Term.flat] using h)]
theorem flatList_after {w : Option Term} : (ts : List Term) → flatList ts = true → afterList w ts = ts
  | [], _ => rfl
  | t :: ts, h => by simp [flatList] at h; rw [afterList, flat_after t h.1, flatList_after ts h.2]
end

mutual
theorem flat_mix {w : Option Term} : (t : Term) → t.flat = true → Mix w t t
  | .rule _, _ => .rule
  | .s _, _ => .s
  | .re _, _ => .re
  | .ref _ _, _ => .ref
  | .ext _, _ => .ext
  | .stack _, h => .stack
  | .scope _ _, h => by simp [Term.flat] at h
  | .seq ts, h => .seq (flatList_mix ts (by simpa [Term.flat] using h))
  | .oneof ts, h => .oneof (flatList_mix ts (by simpa [Term.flat] using h))
  | .delim t sep _ _ _, h => by simp [Term.flat] at h; exact .delim (flat_mix t h.1) (flat_mix sep h.2)
  | .look t, h => .look (flat_mix t (by simpa [Term.flat] using h))
  | .quant t _ _, h => .quant (flat_mix t (by simpa [Term.flat] using h))
  | .named _ t, h => .named (flat_mix t (by simpa [Term.flat] using h))
  | .cut t, h => .cut (flat_mix t (by simpa [Term.flat] using h))
theorem flatList_mix {w : Option Term} : (ts : List Term) → flatList ts = true → MixList w ts ts
  | [], _ => .nil
  | t :: ts, h => by simp [flatList] at h; exact .cons (flat_mix t h.1) (flatList_mix ts h.2)
end

mutual
theorem flat_uncut_atTo {new : Str} : (t : Term) → t.flat = true → (t.uncut.atTo new).flat = true
  | .rule r, _ => by simp only [Term.uncut, Term.atTo]; split <;> simp [Term.flat]
  | .s _, _ => rfl
  | .re _, _ => rfl
  | .ref _ _, _ => rfl
  | .ext _, _ => rfl
  | .seq ts, hf => by simp only [Term.uncut, Term.atTo, Term.flat]; exact flatList_uncut_atTo ts (by simpa [Term.flat] using hf)
  | .oneof ts, hf => by simp only [Term.uncut, Term.atTo, Term.flat]; exact flatList_uncut_atTo ts (by simpa [Term.flat] using hf)
  | .stack ts, hf => by simp [Term.flat] at hf
  | .delim t sep _ _ _, hf => by
    simp [Term.flat] at hf
    simp only [Term.uncut, Term.atTo, Term.flat, flat_uncut_atTo t hf.1, flat_uncut_atTo sep hf.2, Bool.and_self]
  | .look t, hf => by simp only [Term.uncut, Term.atTo, Term.flat]; exact flat_uncut_atTo t (by simpa [Term.flat] using hf)
  | .quant t _ _, hf => by simp only [Term.uncut, Term.atTo, Term.flat]; exact flat_uncut_atTo t (by simpa [Term.flat] using hf)
  | .named _ t, hf => by simp only [Term.uncut, Term.atTo, Term.flat]; exact flat_uncut_atTo t (by simpa [Term.flat] using hf)
  | .scope _ _, hf => by simp [Term.flat] at hf
  | .cut t, hf => by simp only [Term.uncut]; exact flat_uncut_atTo t (by simpa [Term.flat] using hf)
theorem flatList_uncut_atTo {new : Str} : (ts : List Term) → flatList ts = true → flatList (atToList new (uncutList ts)) = true
  | [], _ => rfl
  | t :: ts, hf => by
    simp [flatList] at hf
    simp only [uncutList, atToList, flatList, flat_uncut_atTo t hf.1, flatList_uncut_atTo ts hf.2, Bool.and_self]
end

theorem afterDefs_eq {w : Option Term} : (g : Grammar) → afterDefs w g = g.map fun e => (e.1, e.2.after w)
  | [] => rfl
  | (_, _) :: g => by rw [afterDefs, afterDefs_eq g]; rfl

theorem after_stack {w : Option Term} {t : Term} {ls : List Term} : t.after w = .stack ls ↔ t = .stack ls := by
  cases t <;> simp [Term.after]
  split <;> (try split) <;> simp

theorem mem_afterDefs_stack {w : Option Term} {g : Grammar} {r ls} : (r, .stack ls) ∈ afterDefs w g ↔ (r, Term.stack ls) ∈ g := by
  rw [afterDefs_eq, List.mem_map]
  constructor
  · rintro ⟨⟨k, t⟩, h1, h2⟩
    simp only [Prod.mk.injEq] at h2
    obtain ⟨rfl, h2⟩ := h2
    rw [after_stack] at h2
    exact h2 ▸ h1
  · intro h
    exact ⟨_, h, rfl⟩

theorem afterDefs_fst {w : Option Term} {g : Grammar} : (afterDefs w g).map Prod.fst = g.map Prod.fst := by
  rw [afterDefs_eq]; simp

theorem afterDefs_fresh {w : Option Term} {g : Grammar} (h : g.LayersFresh) : Grammar.LayersFresh (afterDefs w g) := by
  intro r ls i t hm hi hl ht
  rw [mem_afterDefs_stack] at hm
  have : layer r i ∈ (afterDefs w g).map Prod.fst := List.mem_map.2 ⟨_, ht, rfl⟩
  rw [afterDefs_fst, List.mem_map] at this
  obtain ⟨⟨k, t'⟩, h1, h2⟩ := this
  simp only at h2
  subst h2
  exact h _ ls i t' hm hi hl h1

theorem wrapRE_layer {r : Str} {i : Nat} (h : wrapRE = layer r i) : i = 0 ∧ r = wrapRE := by
  unfold layer at h
  split at h
  · rename_i e; exact ⟨e, h.symm⟩
  · exfalso
    have : (64 : UInt8) ∈ wrapRE := by rw [h]; simp [str]
    revert this
    decide

theorem flatWraps_mem {g : Grammar} (h : flatWrapsDefs g) {r t} (hm : (r, t) ∈ g) : (r = wrapRE → t.flat = true) ∧ t.FlatWraps := by
  induction g with
  | nil => simp at hm
  | cons e g ih =>
    obtain ⟨k, u⟩ := e
    rcases List.mem_cons.1 hm with e | hm
    · cases e; exact ⟨h.1, h.2.1⟩
    · exact ih h.2.2 hm

/-- The wrapper is the one that is written, if it is not a stack. -/
theorem resolve_wrap {g g1 : Grammar} (hd : g.Distinct) (hf : g.LayersFresh) (hw : flatWrapsDefs g) (h : g.resolveStacks = some g1) :
    lookup wrapRE g1 = lookup wrapRE g := by
  cases h1 : lookup wrapRE g1 with
  | some t =>
    generalize hk : wrapRE = k at h1
    have h2 := (resolveStacks_iff hd hf h).1 h1
    cases h2 with
    | plain hm _ => exact ((lookup_iff_mem hd).2 hm).symm
    | layer hm hi =>
      obtain ⟨rfl, rfl⟩ := wrapRE_layer hk
      have := (flatWraps_mem hw hm).1 rfl
      simp [Term.flat] at this
  | none =>
    cases h2 : lookup wrapRE g with
    | none => rfl
    | some t =>
      have hm := (lookup_iff_mem hd).1 h2
      have hfl := (flatWraps_mem hw hm).1 rfl
      have : Layered g wrapRE t := .plain hm fun l ls e => by subst e; simp [Term.flat] at hfl
      rw [(resolveStacks_iff hd hf h).2 this] at h1
      simp at h1

/-- Wrappers are not changed. -/
theorem lookup_afterDefs {w : Option Term} {g : Grammar} {k : Str} : lookup k (afterDefs w g) = (lookup k g).map (·.after w) := by
  induction g with
  | nil => rfl
  | cons e g ih => obtain ⟨k', t⟩ := e; simp only [afterDefs, lookup]; split <;> simp [ih]

theorem wrap_afterDefs {w : Option Term} {g : Grammar} (hd : g.Distinct) (hw : flatWrapsDefs g) :
    lookup wrapRE (afterDefs w g) = lookup wrapRE g := by
  rw [lookup_afterDefs]
  cases h : lookup wrapRE g with
  | none => rfl
  | some t => simp [flat_after t ((flatWraps_mem hw ((lookup_iff_mem hd).1 h)).1 rfl)]

/-- The same after stacks are resolved. -/
theorem resolve_after {w : Option Term} {g g1 : Grammar} (hd : g.Distinct) (hf : g.LayersFresh) (hw : flatWrapsDefs g)
    (H : ∀ r t, (r, t) ∈ g → Mix w t (t.after w)) (h1 : g.resolveStacks = some g1) :
    ∃ g1', Grammar.resolveStacks (afterDefs w g) = some g1' ∧ lookup wrapRE g1' = lookup wrapRE g1 ∧
      (∀ k, lookup k g1 = none → lookup k g1' = none) ∧
      ∀ k u, lookup k g1 = some u → ∃ u', lookup k g1' = some u' ∧ Mix w u u' := by
  have hd' : Grammar.Distinct (afterDefs w g) := by unfold Grammar.Distinct; rw [afterDefs_fst]; exact hd
  have hf' := afterDefs_fresh (w := w) hf
  cases h2 : Grammar.resolveStacks (afterDefs w g) with
  | none =>
    exfalso
    obtain ⟨r, ls, hm, hl⟩ := resolveStacks_none.1 h2
    rw [resolveStacks_none.2 ⟨r, ls, mem_afterDefs_stack.1 hm, hl⟩] at h1
    simp at h1
  | some g1' =>
    have i1 := fun k t => resolveStacks_iff (k := k) (t := t) hd hf h1
    have i2 := fun k t => resolveStacks_iff (k := k) (t := t) hd' hf' h2
    have fwd : ∀ k u, lookup k g1 = some u → ∃ u', lookup k g1' = some u' ∧ Mix w u u' := by
      intro k u hu
      cases (i1 k u).1 hu with
      | plain hm hn =>
        refine ⟨_, (i2 _ _).2 (.plain (t := u.after w) ?_ fun l ls e => hn l ls (after_stack.1 e)), H _ _ hm⟩
        rw [afterDefs_eq, List.mem_map]
        exact ⟨_, hm, rfl⟩
      | layer hm hi =>
        refine ⟨_, (i2 _ _).2 (.layer (mem_afterDefs_stack.2 hm) hi), flat_mix _ ?_⟩
        exact flat_uncut_atTo _ (flatList_iff.1 (resolveStacks_flat h1 hm) _ (List.mem_of_getElem? hi))
    have bwd : ∀ k u', lookup k g1' = some u' → ∃ u, lookup k g1 = some u := by
      intro k u hu
      cases (i2 k u).1 hu with
      | plain hm hn =>
        rw [afterDefs_eq, List.mem_map] at hm
        obtain ⟨⟨k', t⟩, h3, h4⟩ := hm
        simp only [Prod.mk.injEq] at h4
        obtain ⟨rfl, rfl⟩ := h4
        exact ⟨t, (i1 _ _).2 (.plain h3 fun l ls e => hn l ls (after_stack.2 e))⟩
      | layer hm hi => exact ⟨_, (i1 _ _).2 (.layer (mem_afterDefs_stack.1 hm) hi)⟩
    refine ⟨g1', rfl, ?_, fun k hk => ?_, fwd⟩
    · cases h3 : lookup wrapRE g1 with
      | none =>
        cases h4 : lookup wrapRE g1' with
        | none => rfl
        | some u => obtain ⟨v, h5⟩ := bwd _ _ h4; rw [h3] at h5; simp at h5
      | some u =>
        rw [resolve_wrap hd hf hw h1] at h3
        have hm := (lookup_iff_mem hd).1 h3
        have hfl := (flatWraps_mem hw hm).1 rfl
        refine (i2 _ _).2 (.plain ?_ fun l ls e => by subst e; simp [Term.flat] at hfl)
        rw [afterDefs_eq, List.mem_map]
        exact ⟨_, hm, by simp [flat_after u hfl]⟩
    · cases h4 : lookup k g1' with
      | none => rfl
      | some u => obtain ⟨v, h5⟩ := bwd _ _ h4; rw [hk] at h5; simp at h5

theorem mapSet_new {α : Type} {k : Str} {v : α} : ∀ {m : List (Str × α)}, lookup k m = none → mapSet k v m = m ++ [(k, v)]
  | [], _ => rfl
  | (k', v') :: m, h => by
    simp only [lookup] at h
    split at h
    · simp at h
    · rename_i e
      rw [mapSet, if_neg e, mapSet_new h]; rfl

theorem MixDefs.inherit {w : Option Term} {g1 g1' : Grammar} (d : g1.Distinct) (d' : g1'.Distinct) (hw : ∀ t, w = .some t → t.flat = true)
    (h1 : lookup wrapRE g1' = lookup wrapRE g1) (h2 : ∀ k, lookup k g1 = .none → lookup k g1' = .none)
    (h3 : ∀ k u, lookup k g1 = .some u → ∃ u', lookup k g1' = .some u' ∧ Mix (lookup wrapRE (inheritWrap w g1)) u u') :
    MixDefs (inheritWrap w g1) (inheritWrap w g1') where
  distinct := inheritWrap_distinct d
  distinct' := inheritWrap_distinct d'
  wrap := by rw [lookup_inheritWrap, lookup_inheritWrap, h1]
  none k hk := by
    rw [lookup_inheritWrap] at hk ⊢
    rw [h1]
    split at hk
    · rename_i e; rw [if_pos e, hk]
    · rename_i e; rw [if_neg e, h2 k hk]
  some k u hu := by
    rw [lookup_inheritWrap] at hu
    rw [lookup_inheritWrap w g1' k, h1]
    split at hu
    · rename_i e; rw [if_pos e]; exact ⟨u, hu, flat_mix u (hw u hu)⟩
    · rename_i e; rw [if_neg e]; exact h3 k u hu

/-- The case of braces. -/
theorem mix_scope_after {w : Option Term} {t : Term} {g : Grammar} (hw : ∀ u, w = some u → u.flat = true) (hd : g.Distinct)
    (hf : g.LayersFresh) (hg : flatWrapsDefs g)
    (H : ∀ r t, (r, t) ∈ g → Mix (lookup wrapRE (inheritWrap w g)) t (t.after (lookup wrapRE (inheritWrap w g))))
    (ht : Mix (lookup wrapRE (inheritWrap w g)) t (t.after (lookup wrapRE (inheritWrap w g)))) :
    Mix w (.scope t g) ((Term.scope t g).after w) := by
  have hL : lookup wrapRE (inheritWrap w g) = if hasKey wrapRE g then lookup wrapRE g else w := by
    rw [lookup_inheritWrap]
    cases h : lookup wrapRE g <;> simp [hasKey, h]
  have hd' : ∀ v, Grammar.Distinct (afterDefs v g) := fun v => by unfold Grammar.Distinct; rw [afterDefs_fst]; exact hd
  cases h1 : Grammar.resolveStacks g with
  | none =>
    obtain ⟨r, ls, hm, hl⟩ := resolveStacks_none.1 h1
    have hst : g.any (fun e => e.2.isStack) = true := List.any_eq_true.2 ⟨_, hm, rfl⟩
    rw [Term.after]
    split
    · exact .stuck h1 (resolveStacks_none.2 ⟨r, ls, mem_afterDefs_stack.2 hm, hl⟩)
    · exact .stuck h1 (resolveStacks_none.2 ⟨r, ls, mem_afterDefs_stack.2 hm, hl⟩)
  | some g1 =>
    obtain ⟨g1', h2, h3, h4, h5⟩ := resolve_after hd hf hg H h1
    have e1 : lookup wrapRE (inheritWrap w g1) = lookup wrapRE (inheritWrap w g) := by
      rw [lookup_inheritWrap, lookup_inheritWrap, resolve_wrap hd hf hg h1]
    have hM : MixDefs (inheritWrap w g1) (inheritWrap w g1') :=
      .inherit (resolveStacks_distinct h1 hd) (resolveStacks_distinct h2 (hd' _)) hw h3 h4 (by rw [e1]; exact h5)
    have ht' := ht
    rw [← e1] at ht'
    have plain := hM.scope h1 h2 ht'
    rw [e1] at plain
    rw [hL] at plain
    rw [Term.after]
    by_cases hk : hasKey wrapRE g = true
    · simp only [hk, if_true] at plain ⊢
      exact plain
    · simp only [Bool.not_eq_true] at hk
      simp only [hk, Bool.false_eq_true, if_false] at plain ⊢
      split
      · exact plain
      · rename_i hst
        cases w with
        | none => exact plain
        | some u =>
          simp only [addWrap]
          rw [hL] at h2 ht e1
          simp only [hk, Bool.false_eq_true, if_false] at h2 ht e1
          have ht' : Mix (lookup wrapRE (inheritWrap (some u) g1)) t (t.after (some u)) := by rw [e1]; exact ht
          have hst' : (afterDefs (some u) g).any (fun e => e.2.isStack) = false := by
            rw [Bool.eq_false_iff]
            intro h
            obtain ⟨⟨r, v⟩, hm, hv⟩ := List.any_eq_true.1 h
            obtain ⟨ls, rfl⟩ := stack_of_isStack hv
            exact hst (List.any_eq_true.2 ⟨_, mem_afterDefs_stack.1 hm, rfl⟩)
          have h2' : g1' = afterDefs (some u) g := by
            unfold Grammar.resolveStacks at h2
            rw [hst'] at h2
            simpa using h2.symm
          have hn : lookup wrapRE (afterDefs (some u) g) = none := by
            rw [wrap_afterDefs hd hg]
            simpa [hasKey] using hk
          have e2 : inheritWrap (some u) (afterDefs (some u) g) = afterDefs (some u) g ++ [(wrapRE, u)] := by
            simp [inheritWrap, hasKey, hn, mapSet_new hn]
          have e3 : inheritWrap (some u) (afterDefs (some u) g ++ [(wrapRE, u)]) = afterDefs (some u) g ++ [(wrapRE, u)] := by
            have : hasKey wrapRE (afterDefs (some u) g ++ [(wrapRE, u)]) = true := by
              rw [← e2, hasKey, lookup_inheritWrap, hn]; simp
            simp [inheritWrap, this]
          have hus : u.isStack = false := by
            have := hw u rfl
            cases u <;> simp_all [Term.flat, Term.isStack]
          have h2'' : Grammar.resolveStacks (afterDefs (some u) g ++ [(wrapRE, u)]) = some (afterDefs (some u) g ++ [(wrapRE, u)]) := by
            unfold Grammar.resolveStacks
            rw [List.any_append, hst']
            simp [hus]
          refine MixDefs.scope h1 h2'' ?_ ht'
          rw [e3, ← e2, ← h2']
          exact hM

mutual
theorem mix_after {w : Option Term} (hw : ∀ u, w = some u → u.flat = true) : (t : Term) → t.Tidy → t.FlatWraps → Mix w t (t.after w)
  | .rule _, _, _ => .rule
  | .s _, _, _ => .s
  | .re _, _, _ => .re
  | .ref _ _, _, _ => .ref
  | .ext _, _, _ => .ext
  | .stack _, _, _ => .stack
  | .seq ts, h, h' => .seq (mixList_after hw ts h h')
  | .oneof ts, h, h' => .oneof (mixList_after hw ts h h')
  | .delim t sep _ _ _, h, h' => .delim (mix_after hw t h.1 h'.1) (mix_after hw sep h.2 h'.2)
  | .look t, h, h' => .look (mix_after hw t (by simpa [Term.Tidy] using h) (by simpa [Term.FlatWraps] using h'))
  | .quant t _ _, h, h' => .quant (mix_after hw t (by simpa [Term.Tidy] using h) (by simpa [Term.FlatWraps] using h'))
  | .named _ t, h, h' => .named (mix_after hw t (by simpa [Term.Tidy] using h) (by simpa [Term.FlatWraps] using h'))
  | .cut t, h, h' => .cut (mix_after hw t (by simpa [Term.Tidy] using h) (by simpa [Term.FlatWraps] using h'))
  | .scope t g, h, h' => by
    have hv : ∀ u, lookup wrapRE (inheritWrap w g) = some u → u.flat = true := by
      intro u hu
      rw [lookup_inheritWrap] at hu
      split at hu
      · exact hw u hu
      · exact (flatWraps_mem h'.2 ((lookup_iff_mem h.2.2.1).1 hu)).1 rfl
    exact mix_scope_after hw h.2.2.1 h.2.2.2 h'.2 (mixDefs_after hv g h.2.1 h'.2) (mix_after hv t h.1 h'.1)
theorem mixList_after {w : Option Term} (hw : ∀ u, w = some u → u.flat = true) : (ts : List Term) → tidyList ts → flatWrapsList ts →
    MixList w ts (afterList w ts)
  | [], _, _ => .nil
  | t :: ts, h, h' => .cons (mix_after hw t h.1 h'.1) (mixList_after hw ts h.2 h'.2)
theorem mixDefs_after {w : Option Term} (hw : ∀ u, w = some u → u.flat = true) : (g : List (Str × Term)) → tidyDefs g → flatWrapsDefs g →
    ∀ r t, (r, t) ∈ g → Mix w t (t.after w)
  | [], _, _ => fun _ _ h => by simp at h
  | (k, u) :: g, h, h' => fun r t hm => by
    rcases List.mem_cons.1 hm with e | hm
    · cases e; exact mix_after hw u h.1 h'.2.1
    · exact mixDefs_after hw g h.2 h'.2.2 r t hm
end

theorem wrap_flat {g : Grammar} (hd : g.Distinct) (hw : flatWrapsDefs g) : ∀ u, lookup wrapRE g = some u → u.flat = true :=
  fun _ hu => (flatWraps_mem hw ((lookup_iff_mem hd).1 hu)).1 rfl

/-- The caller's grammar after compiling stands for the same. -/
theorem Grammar.after_mix {g g1 : Grammar} (ht : g.Tidy) (hw : g.FlatWraps) (h : g.resolveStacks = some g1) :
    ∃ g1', g.after.resolveStacks = some g1' ∧ MixDefs g1 g1' := by
  obtain ⟨g1', h2, h3, h4, h5⟩ := resolve_after ht.2.1 ht.2.2 hw (mixDefs_after (wrap_flat ht.2.1 hw) g ht.1 hw) h
  have hd' : Grammar.Distinct (afterDefs (lookup wrapRE g) g) := by unfold Grammar.Distinct; rw [afterDefs_fst]; exact ht.2.1
  exact ⟨g1', h2, resolveStacks_distinct h ht.2.1, resolveStacks_distinct h2 hd', h3, h4, by
    rw [resolve_wrap ht.2.1 ht.2.2 hw h]; exact h5⟩

/-! ## Well-formedness -/

theorem after_headRule {w : Option Term} : (t : Term) → (t.after w).headRule = t.headRule
  | .rule _ => rfl
  | .s _ => rfl
  | .re _ => rfl
  | .ref _ _ => rfl
  | .ext _ => rfl
  | .stack _ => rfl
  | .seq _ => rfl
  | .oneof _ => rfl
  | .delim _ _ _ _ _ => rfl
  | .look _ => rfl
  | .quant _ _ _ => rfl
  | .named _ t => by simp only [Term.after, Term.headRule]; exact after_headRule t
  | .cut _ => rfl
  | .scope t g => by rw [Term.after]; split <;> (try split) <;> rfl

theorem hasKey_afterDefs {w : Option Term} {g : Grammar} {k : Str} : hasKey k (afterDefs w g) = hasKey k g := by
  simp [hasKey, lookup_afterDefs]

theorem hasKey_append {α : Type} {k : Str} {g g' : List (Str × α)} (h : hasKey k g = true) : hasKey k (g ++ g') = true := by
  induction g with
  | nil => simp [hasKey, lookup] at h
  | cons e g ih =>
    obtain ⟨k', t⟩ := e
    simp only [hasKey, lookup, List.cons_append] at h ih ⊢
    split
    · rfl
    · rename_i e; rw [if_neg e] at h; exact ih h

theorem hasKey_addWrap {w : Option Term} {g : Grammar} {k : Str} (h : hasKey k g = true) : hasKey k (addWrap w g) = true := by
  unfold addWrap
  cases w with
  | none => exact h
  | some u => exact hasKey_append h

theorem after_hard {w : Option Term} : (t : Term) → t.hard = true → (t.after w).hard = true
  | .rule _, h => h
  | .s _, _ => rfl
  | .re _, _ => rfl
  | .ref _ _, _ => rfl
  | .ext _, _ => rfl
  | .stack _, _ => rfl
  | .seq _, _ => rfl
  | .oneof _, _ => rfl
  | .delim _ _ _ _ _, _ => rfl
  | .look _, _ => rfl
  | .quant _ _ _, _ => rfl
  | .named _ t, h => by simp only [Term.after, Term.hard] at h ⊢; exact after_hard t h
  | .cut t, h => by simp only [Term.after, Term.hard] at h ⊢; exact after_hard t h
  | .scope t g, h => by
    have key : ∀ (v : Option Term) (g' : Grammar), (∀ k, hasKey k g = true → hasKey k g' = true) →
        (Term.scope (t.after v) g').hard = true := by
      intro v g' hg
      simp only [Term.hard, Bool.or_eq_true] at h ⊢
      rcases h with h | h
      · exact Or.inl (after_hard t h)
      · right
        rw [after_headRule]
        split at h
        · exact hg _ h
        · simp at h
    rw [Term.after]
    split
    · exact key _ _ fun k hk => by rw [hasKey_afterDefs]; exact hk
    · split
      · exact key _ _ fun k hk => by rw [hasKey_afterDefs]; exact hk
      · exact key _ _ fun k hk => hasKey_addWrap (by rw [hasKey_afterDefs]; exact hk)

theorem after_defOK {w : Option Term} (t : Term) (h : t.defOK = true) : (t.after w).defOK = true := by
  have := after_hard (w := w) t
  cases t <;> first | exact h | (simp only [Term.after, Term.defOK, Term.hardOrRule] at h this ⊢; exact this h) | skip
  rename_i t g
  have h2 := this h
  obtain ⟨u, v, e⟩ : ∃ u v, (Term.scope t g).after w = .scope u v := by
    rw [Term.after]; split <;> (try split) <;> exact ⟨_, _, rfl⟩
  rw [e] at h2 ⊢
  exact h2

theorem wfDefs_append {g g' : Grammar} : wfDefs (g ++ g') = (wfDefs g && wfDefs g') := by
  induction g with
  | nil => simp [wfDefs]
  | cons e g ih => obtain ⟨k, t⟩ := e; simp [wfDefs, ih, Bool.and_assoc]

mutual
theorem after_wf {w : Option Term} (hw : ∀ u, w = some u → u.defOK = true ∧ u.wf = true) : (t : Term) → t.wf = true → (t.after w).wf = true
  | .rule _, h => h
  | .s _, h => h
  | .re _, h => h
  | .ref _ _, h => h
  | .ext _, h => h
  | .stack _, h => h
  | .seq ts, h => by simp only [Term.after, Term.wf] at h ⊢; exact afterList_wf hw ts h
  | .oneof ts, h => by simp only [Term.after, Term.wf] at h ⊢; exact afterList_wf hw ts h
  | .delim t sep _ _ _, h => by
    simp only [Term.after, Term.wf, Bool.and_eq_true] at h ⊢; exact ⟨after_wf hw t h.1, after_wf hw sep h.2⟩
  | .look t, h => by simp only [Term.after, Term.wf] at h ⊢; exact after_wf hw t h
  | .quant t _ _, h => by simp only [Term.after, Term.wf] at h ⊢; exact after_wf hw t h
  | .named _ t, h => by simp only [Term.after, Term.wf] at h ⊢; exact after_wf hw t h
  | .cut t, h => by simp only [Term.after, Term.wf, Bool.and_eq_true] at h ⊢; exact ⟨after_hard t h.1, after_wf hw t h.2⟩
  | .scope t g, h => by
    simp only [Term.wf, Bool.and_eq_true] at h
    have hv : ∀ u, lookup wrapRE g = some u → u.defOK = true ∧ u.wf = true := fun u hu => wfDefs_lookup h.2 hu
    rw [Term.after]
    split
    · simp only [Term.wf, Bool.and_eq_true]
      exact ⟨after_wf hv t h.1, afterDefs_wf hv g h.2⟩
    · split
      · simp only [Term.wf, Bool.and_eq_true]
        exact ⟨after_wf hw t h.1, afterDefs_wf hw g h.2⟩
      · simp only [Term.wf, Bool.and_eq_true]
        refine ⟨after_wf hw t h.1, ?_⟩
        have := afterDefs_wf hw g h.2
        unfold addWrap
        cases w with
        | none => exact this
        | some u =>
          simp only [wfDefs_append, wfDefs, Bool.and_true, Bool.and_eq_true]
          exact ⟨this, hw u rfl⟩
theorem afterList_wf {w : Option Term} (hw : ∀ u, w = some u → u.defOK = true ∧ u.wf = true) : (ts : List Term) → wfList ts = true →
    wfList (afterList w ts) = true
  | [], _ => rfl
  | t :: ts, h => by
    simp only [afterList, wfList, Bool.and_eq_true] at h ⊢; exact ⟨after_wf hw t h.1, afterList_wf hw ts h.2⟩
theorem afterDefs_wf {w : Option Term} (hw : ∀ u, w = some u → u.defOK = true ∧ u.wf = true) : (g : List (Str × Term)) → wfDefs g = true →
    wfDefs (afterDefs w g) = true
  | [], _ => rfl
  | (k, t) :: g, h => by
    simp only [afterDefs, wfDefs, Bool.and_eq_true] at h ⊢
    exact ⟨⟨after_defOK t h.1.1, after_wf hw t h.1.2⟩, afterDefs_wf hw g h.2⟩
end

/-! ## The grammar that was compiled -/

mutual
theorem flat_flatWraps : (t : Term) → t.flat = true → t.FlatWraps
  | .rule _, _ => trivial
  | .s _, _ => trivial
  | .re _, _ => trivial
  | .ref _ _, _ => trivial
  | .ext _, _ => trivial
  | .stack _, h => by simp [Term.flat] at h
  | .scope _ _, h => by simp [Term.flat] at h
  | .seq ts, h => flatList_flatWraps ts (by simpa [Term.flat] using h)
  | .oneof ts, h => flatList_flatWraps ts (by simpa [Term.flat] using h)
  | .delim t sep _ _ _, h => by simp [Term.flat] at h; exact ⟨flat_flatWraps t h.1, flat_flatWraps sep h.2⟩
  | .look t, h => by simp only [Term.FlatWraps]; exact flat_flatWraps t (by simpa [Term.flat] using h)
  | .quant t _ _, h => by simp only [Term.FlatWraps]; exact flat_flatWraps t (by simpa [Term.flat] using h)
  | .named _ t, h => by simp only [Term.FlatWraps]; exact flat_flatWraps t (by simpa [Term.flat] using h)
  | .cut t, h => by simp only [Term.FlatWraps]; exact flat_flatWraps t (by simpa [Term.flat] using h)
theorem flatList_flatWraps : (ts : List Term) → flatList ts = true → flatWrapsList ts
  | [], _ => trivial
  | t :: ts, h => by simp [flatList] at h; exact ⟨flat_flatWraps t h.1, flatList_flatWraps ts h.2⟩
end

theorem flatWrapsDefs_of {g : Grammar} (h : ∀ r t, (r, t) ∈ g → (r = wrapRE → t.flat = true) ∧ t.FlatWraps) : flatWrapsDefs g := by
  induction g with
  | nil => trivial
  | cons e g ih =>
    obtain ⟨k, t⟩ := e
    have h1 := h k t (by simp)
    exact ⟨h1.1, h1.2, ih fun r t hm => h r t (by simp [hm])⟩

/-- Resolving stacks keeps grammars as they should be. -/
theorem resolveStacks_keeps {g g1 : Grammar} (ht : g.Tidy) (hw : g.FlatWraps) (h : g.resolveStacks = some g1) : g1.Tidy ∧ g1.FlatWraps := by
  have hd := resolveStacks_distinct h ht.2.1
  have key : ∀ k t, (k, t) ∈ g1 → Layered g k t := fun k t hm =>
    (resolveStacks_iff ht.2.1 ht.2.2 h).1 ((lookup_iff_mem hd).2 hm)
  have fl : ∀ (r : Str) (ls : List Term) (i : Nat) (L : Term), (r, .stack ls) ∈ g → ls[i]? = some L → L.flat = true := fun r ls i L hm hi =>
    flatList_iff.1 (resolveStacks_flat h hm) _ (List.mem_of_getElem? hi)
  refine ⟨⟨tidyDefs_iff.2 fun k t hm => ?_, hd, fun r ls i t hm hi hl _ => ?_⟩, flatWrapsDefs_of fun k t hm => ?_⟩
  · cases key k t hm with
    | plain hm _ => exact tidyDefs_iff.1 ht.1 _ _ hm
    | layer hm' hi => exact flat_tidy _ (fl _ _ _ _ hm' hi)
  · generalize hs : Term.stack ls = s at hm
    cases key r s hm with
    | plain hm hn =>
      cases ls with
      | nil => simp at hl
      | cons l ls => exact hn _ _ hs.symm
    | layer hm' hi =>
      have h3 : (Term.stack ls).flat = true := by rw [hs]; exact flat_uncut_atTo _ (fl _ _ _ _ hm' hi)
      simp [Term.flat] at h3
  · cases key k t hm with
    | plain hm _ => exact flatWraps_mem hw hm
    | layer hm' hi =>
      have := fun new => flat_uncut_atTo (new := new) _ (fl _ _ _ _ hm' hi)
      exact ⟨fun _ => this _, flat_flatWraps _ (this _)⟩

end Wbnf

import Verif.Spec.Reorder
import Verif.Lemmas.Sim
import Verif.Lemmas.Stacks
import Verif.Lemmas.Compiles

/-! The order of the entries of a grammar does not matter. -/

namespace Wbnf

variable {E : Engine} {X : Externals}

mutual
theorem Reord.refl : (t : Term) → Reord t t
  | .rule _ => .rule
  | .s _ => .s
  | .re _ => .re
  | .ref _ _ => .ref
  | .ext _ => .ext
  | .seq ts => .seq (ReordList.refl ts)
  | .oneof ts => .oneof (ReordList.refl ts)
  | .stack ts => .stack (ReordList.refl ts)
  | .delim t sep _ _ _ => .delim (Reord.refl t) (Reord.refl sep)
  | .look t => .look (Reord.refl t)
  | .quant t _ _ => .quant (Reord.refl t)
  | .named _ t => .named (Reord.refl t)
  | .scope t g => .scope (Reord.refl t) (ReordDefs.refl g)
  | .cut t => .cut (Reord.refl t)
theorem ReordList.refl : (ts : List Term) → ReordList ts ts
  | [] => .nil
  | t :: ts => .cons (Reord.refl t) (ReordList.refl ts)
theorem ReordDefs.refl : (g : List (Str × Term)) → ReordDefs g g
  | [] => .nil
  | (_, t) :: g => .cons (Reord.refl t) (ReordDefs.refl g)
end

mutual
theorem Reord.symm : {t t' : Term} → Reord t t' → Reord t' t
  | _, _, .rule => .rule
  | _, _, .s => .s
  | _, _, .re => .re
  | _, _, .ref => .ref
  | _, _, .ext => .ext
  | _, _, .seq h => .seq h.symm
  | _, _, .oneof h => .oneof h.symm
  | _, _, .stack h => .stack h.symm
  | _, _, .delim h h' => .delim h.symm h'.symm
  | _, _, .look h => .look h.symm
  | _, _, .quant h => .quant h.symm
  | _, _, .named h => .named h.symm
  | _, _, .scope h h' => .scope h.symm h'.symm
  | _, _, .cut h => .cut h.symm
theorem ReordList.symm : {ts ts' : List Term} → ReordList ts ts' → ReordList ts' ts
  | _, _, .nil => .nil
  | _, _, .cons h h' => .cons h.symm h'.symm
theorem ReordDefs.symm : {g g' : Grammar} → ReordDefs g g' → ReordDefs g' g
  | _, _, .nil => .nil
  | _, _, .cons h h' => .cons h.symm h'.symm
  | _, _, .swap => .swap
  | _, _, .trans h h' => .trans h'.symm h.symm
end

mutual
theorem Reord.trans : {t t' t'' : Term} → Reord t t' → Reord t' t'' → Reord t t''
  | _, _, _, .rule, h => h
  | _, _, _, .s, h => h
  | _, _, _, .re, h => h
  | _, _, _, .ref, h => h
  | _, _, _, .ext, h => h
  | _, _, _, .seq h, .seq h' => .seq (h.trans h')
  | _, _, _, .oneof h, .oneof h' => .oneof (h.trans h')
  | _, _, _, .stack h, .stack h' => .stack (h.trans h')
  | _, _, _, .delim h i, .delim h' i' => .delim (h.trans h') (i.trans i')
  | _, _, _, .look h, .look h' => .look (h.trans h')
  | _, _, _, .quant h, .quant h' => .quant (h.trans h')
  | _, _, _, .named h, .named h' => .named (h.trans h')
  | _, _, _, .scope h i, .scope h' i' => .scope (h.trans h') (.trans i i')
  | _, _, _, .cut h, .cut h' => .cut (h.trans h')
theorem ReordList.trans : {t t' t'' : List Term} → ReordList t t' → ReordList t' t'' → ReordList t t''
  | _, _, _, .nil, h => h
  | _, _, _, .cons h i, .cons h' i' => .cons (h.trans h') (i.trans i')
end

theorem ReordDefs.mem {g g' : Grammar} (h : ReordDefs g g') : ∀ {k t}, (k, t) ∈ g → ∃ t', (k, t') ∈ g' ∧ Reord t t' :=
  match h with
  | .nil => fun hm => by simp at hm
  | .cons h hs => fun hm => by
    rcases List.mem_cons.1 hm with e | hm
    · cases e; exact ⟨_, by simp, h⟩
    · obtain ⟨t', h1, h2⟩ := hs.mem hm
      exact ⟨t', by simp [h1], h2⟩
  | .swap => fun hm => ⟨_, by
      simp only [List.mem_cons] at hm ⊢
      rcases hm with h | h | h
      · exact Or.inr (Or.inl h)
      · exact Or.inl h
      · exact Or.inr (Or.inr h), .refl _⟩
  | .trans h h' => fun hm => by
    obtain ⟨t', h1, h2⟩ := h.mem hm
    obtain ⟨t'', h3, h4⟩ := h'.mem h1
    exact ⟨t'', h3, h2.trans h4⟩

theorem ReordDefs.keys {g g' : Grammar} (h : ReordDefs g g') : (g.map Prod.fst).Perm (g'.map Prod.fst) :=
  match h with
  | .nil => .refl _
  | .cons _ hs => by
    simp only [List.map_cons]
    exact hs.keys.cons _
  | .swap => by
    simp only [List.map_cons]
    exact .swap _ _ _
  | .trans h h' => h.keys.trans h'.keys

theorem ReordDefs.distinct {g g' : Grammar} (h : ReordDefs g g') (hd : g.Distinct) : g'.Distinct :=
  h.keys.nodup_iff.1 hd

theorem ReordList.length {ts ts' : List Term} (h : ReordList ts ts') : ts.length = ts'.length :=
  match h with
  | .nil => rfl
  | .cons _ hs => by simp [hs.length]

theorem ReordList.get {ts ts' : List Term} (h : ReordList ts ts') {i : Nat} {t} (ht : ts[i]? = some t) :
    ∃ t', ts'[i]? = some t' ∧ Reord t t' :=
  match h, i with
  | .nil, _ => by simp at ht
  | .cons h _, 0 => ⟨_, rfl, by simp at ht; exact ht ▸ h⟩
  | .cons _ hs, i + 1 => by
    obtain ⟨t', h1, h2⟩ := hs.get (i := i) (by simpa using ht)
    exact ⟨t', by simpa using h1, h2⟩

theorem Reord.stack_inv {ts t'} (h : Reord (.stack ts) t') : ∃ ts', t' = .stack ts' ∧ ReordList ts ts' := by
  cases h with | stack h => exact ⟨_, rfl, h⟩

theorem ReordDefs.fresh {g g' : Grammar} (h : ReordDefs g g') (hd : g.LayersFresh) : g'.LayersFresh := by
  intro r ls i t hm hi hl ht
  obtain ⟨t1, h1, h2⟩ := h.symm.mem hm
  obtain ⟨ls1, rfl, h3⟩ := h2.stack_inv
  obtain ⟨t2, h4, _⟩ := h.symm.mem ht
  exact hd r ls1 i t2 h1 hi (h3.length ▸ hl) h4

theorem tidyDefs_iff {g : Grammar} : tidyDefs g ↔ ∀ k t, (k, t) ∈ g → t.Tidy := by
  induction g with
  | nil => simp [tidyDefs]
  | cons e g ih =>
    obtain ⟨k, t⟩ := e
    simp only [tidyDefs, ih, List.mem_cons, Prod.mk.injEq]
    constructor
    · rintro ⟨h1, h2⟩ k' t' (⟨rfl, rfl⟩ | h)
      · exact h1
      · exact h2 k' t' h
    · intro h
      exact ⟨h k t (Or.inl ⟨rfl, rfl⟩), fun k' t' hm => h k' t' (Or.inr hm)⟩

theorem tidyList_iff {ts : List Term} : tidyList ts ↔ ∀ t ∈ ts, t.Tidy := by
  induction ts with
  | nil => simp [tidyList]
  | cons t ts ih => simp [tidyList, ih]

mutual
theorem Reord.tidy : {t t' : Term} → Reord t t' → t.Tidy → t'.Tidy
  | _, _, .rule, h => h
  | _, _, .s, h => h
  | _, _, .re, h => h
  | _, _, .ref, h => h
  | _, _, .ext, h => h
  | _, _, .seq h, hd => h.tidy hd
  | _, _, .oneof h, hd => h.tidy hd
  | _, _, .stack h, hd => h.tidy hd
  | _, _, .delim h h', hd => ⟨h.tidy hd.1, h'.tidy hd.2⟩
  | _, _, .look h, hd => h.tidy (by simpa [Term.Tidy] using hd)
  | _, _, .quant h, hd => h.tidy (by simpa [Term.Tidy] using hd)
  | _, _, .named h, hd => h.tidy (by simpa [Term.Tidy] using hd)
  | _, _, .scope h h', hd => ⟨h.tidy hd.1, h'.tidy hd.2.1, h'.distinct hd.2.2.1, h'.fresh hd.2.2.2⟩
  | _, _, .cut h, hd => h.tidy (by simpa [Term.Tidy] using hd)
theorem ReordList.tidy : {ts ts' : List Term} → ReordList ts ts' → tidyList ts → tidyList ts'
  | _, _, .nil, h => h
  | _, _, .cons h h', hd => ⟨h.tidy hd.1, h'.tidy hd.2⟩
theorem ReordDefs.tidy : {g g' : Grammar} → ReordDefs g g' → tidyDefs g → tidyDefs g'
  | _, _, .nil, h => h
  | _, _, .cons h h', hd => ⟨h.tidy hd.1, h'.tidy hd.2⟩
  | _, _, .swap, hd => ⟨hd.2.1, hd.1, hd.2.2⟩
  | _, _, .trans h h', hd => h'.tidy (h.tidy hd)
end

mutual
theorem Reord.flat : {t t' : Term} → Reord t t' → t.flat = true → t' = t
  | _, _, .rule, _ => rfl
  | _, _, .s, _ => rfl
  | _, _, .re, _ => rfl
  | _, _, .ref, _ => rfl
  | _, _, .ext, _ => rfl
  | _, _, .seq h, hf => by rw [h.flat (by simpa [Term.flat] using hf)]
  | _, _, .oneof h, hf => by rw [h.flat (by simpa [Term.flat] using hf)]
  | _, _, .stack h, hf => by simp [Term.flat] at hf
  | _, _, .delim h h', hf => by
    simp [Term.flat] at hf; rw [h.flat hf.1, h'.flat hf.2]
  | _, _, .look h, hf => by rw [h.flat (by simpa [Term.flat] using hf)]
  | _, _, .quant h, hf => by rw [h.flat (by simpa [Term.flat] using hf)]
  | _, _, .named h, hf => by rw [h.flat (by simpa [Term.flat] using hf)]
  | _, _, .scope h h', hf => by simp [Term.flat] at hf
  | _, _, .cut h, hf => by rw [h.flat (by simpa [Term.flat] using hf)]
theorem ReordList.flat : {ts ts' : List Term} → ReordList ts ts' → flatList ts = true → ts' = ts
  | _, _, .nil, _ => rfl
  | _, _, .cons h h', hf => by simp [flatList] at hf; rw [h.flat hf.1, h'.flat hf.2]
end

theorem ReordList.flatList {ts ts' : List Term} (h : ReordList ts ts') : flatList ts = flatList ts' := by
  cases h1 : Wbnf.flatList ts with
  | true => rw [h.flat h1, h1]
  | false =>
    cases h2 : Wbnf.flatList ts' with
    | true => rw [h.symm.flat h2, h2] at h1; simp at h1
    | false => rfl

mutual
theorem flat_tidy {new : Str} : (t : Term) → t.flat = true → (t.uncut.atTo new).Tidy
  | .rule r, _ => by simp only [Term.uncut, Term.atTo]; split <;> simp [Term.Tidy]
  | .s _, _ => trivial
  | .re _, _ => trivial
  | .ref _ _, _ => trivial
  | .ext _, _ => trivial
  | .seq ts, hf => flatList_tidy ts (by simpa [Term.flat] using hf)
  | .oneof ts, hf => flatList_tidy ts (by simpa [Term.flat] using hf)
  | .stack ts, hf => by simp [Term.flat] at hf
  | .delim t sep _ _ _, hf => by
    simp [Term.flat] at hf; exact ⟨flat_tidy t hf.1, flat_tidy sep hf.2⟩
  | .look t, hf => by
    simp only [Term.uncut, Term.atTo, Term.Tidy]; exact flat_tidy t (by simpa [Term.flat] using hf)
  | .quant t _ _, hf => by
    simp only [Term.uncut, Term.atTo, Term.Tidy]; exact flat_tidy t (by simpa [Term.flat] using hf)
  | .named _ t, hf => by
    simp only [Term.uncut, Term.atTo, Term.Tidy]; exact flat_tidy t (by simpa [Term.flat] using hf)
  | .scope _ _, hf => by simp [Term.flat] at hf
  | .cut t, hf => by simp only [Term.uncut]; exact flat_tidy t (by simpa [Term.flat] using hf)
theorem flatList_tidy {new : Str} : (ts : List Term) → flatList ts = true → tidyList (atToList new (uncutList ts))
  | [], _ => trivial
  | t :: ts, hf => by simp [flatList] at hf; exact ⟨flat_tidy t hf.1, flatList_tidy ts hf.2⟩
end

/-- Grammars (with their stacks resolved) that are the same up to order. -/
def SameDefs (g g' : Grammar) : Prop :=
  ∀ k, (lookup k g = none ↔ lookup k g' = none) ∧ ∀ t, lookup k g = some t → ∃ t', lookup k g' = some t' ∧ Reord t t' ∧ t.Tidy

theorem SameDefs.symm {g g' : Grammar} (h : SameDefs g g') : SameDefs g' g := by
  intro k
  refine ⟨(h k).1.symm, fun t ht => ?_⟩
  cases hg : lookup k g with
  | none => rw [(h k).1.1 hg] at ht; simp at ht
  | some u =>
    obtain ⟨t', h1, h2, h3⟩ := (h k).2 u hg
    rw [ht] at h1
    cases h1
    exact ⟨u, rfl, h2.symm, h2.tidy h3⟩

theorem resolveStacks_flat {g g1 : Grammar} (h : g.resolveStacks = some g1) {r ls} (hm : (r, .stack ls) ∈ g) :
    flatList ls = true := by
  cases hf : flatList ls with
  | true => rfl
  | false => rw [resolveStacks_none.2 ⟨r, ls, hm, hf⟩] at h; simp at h

theorem Layered.reord {g g1 g' : Grammar} (h : ReordDefs g g') (ht : tidyDefs g) (h1 : g.resolveStacks = some g1) {k t}
    (hl : Layered g k t) : ∃ t', Layered g' k t' ∧ Reord t t' ∧ t.Tidy := by
  cases hl with
  | plain hm hs =>
    obtain ⟨t', h2, h3⟩ := h.mem hm
    refine ⟨t', .plain h2 fun l ls e => ?_, h3, tidyDefs_iff.1 ht _ _ hm⟩
    subst e
    obtain ⟨ts', rfl, h4⟩ := h3.symm.stack_inv
    cases h4
    exact hs _ _ rfl
  | layer hm hi =>
    obtain ⟨t', h2, h3⟩ := h.mem hm
    obtain ⟨ts', rfl, h4⟩ := h3.stack_inv
    obtain rfl := h4.flat (resolveStacks_flat h1 hm)
    exact ⟨_, .layer h2 hi, .refl _, flat_tidy _ (flatList_iff.1 (resolveStacks_flat h1 hm) _ (List.mem_of_getElem? hi))⟩

theorem resolveStacks_reord {g g1 g' : Grammar} (h : ReordDefs g g') (ht : g.Tidy) (h1 : g.resolveStacks = some g1) :
    ∃ g1', g'.resolveStacks = some g1' ∧ SameDefs g1 g1' := by
  cases h2 : g'.resolveStacks with
  | none =>
    obtain ⟨r, ls, hm, hf⟩ := resolveStacks_none.1 h2
    obtain ⟨t', h3, h4⟩ := h.symm.mem hm
    obtain ⟨ts', rfl, h5⟩ := h4.stack_inv
    have := resolveStacks_flat h1 h3
    rw [← h5.flatList, hf] at this
    simp at this
  | some g1' =>
    refine ⟨g1', rfl, fun k => ?_⟩
    have i1 := fun t => resolveStacks_iff (k := k) (t := t) ht.2.1 ht.2.2 h1
    have i2 := fun t => resolveStacks_iff (k := k) (t := t) (h.distinct ht.2.1) (h.fresh ht.2.2) h2
    refine ⟨⟨fun hn => ?_, fun hn => ?_⟩, fun t hl => ?_⟩
    · cases hl : lookup k g1' with
      | none => rfl
      | some t =>
        obtain ⟨t', h3, _⟩ := ((i2 t).1 hl).reord h.symm (h.tidy ht.1) h2
        rw [(i1 t').2 h3] at hn; simp at hn
    · cases hl : lookup k g1 with
      | none => rfl
      | some t =>
        obtain ⟨t', h3, _⟩ := ((i1 t).1 hl).reord h ht.1 h1
        rw [(i2 t').2 h3] at hn; simp at hn
    · obtain ⟨t', h3, h4, h5⟩ := ((i1 t).1 hl).reord h ht.1 h1
      exact ⟨t', (i2 t').2 h3, h4, h5⟩

/-- Wrappers that are the same up to order. -/
def SameWrap (w w' : Option Term) : Prop :=
  (w = none ↔ w' = none) ∧ ∀ t, w = some t → ∃ t', w' = some t' ∧ Reord t t' ∧ t.Tidy

theorem SameWrap.symm {w w' : Option Term} (h : SameWrap w w') : SameWrap w' w := by
  refine ⟨h.1.symm, fun t ht => ?_⟩
  cases hw : w with
  | none => rw [h.1.1 hw] at ht; simp at ht
  | some u =>
    obtain ⟨t', h1, h2, h3⟩ := h.2 u hw
    rw [ht] at h1; cases h1
    exact ⟨u, rfl, h2.symm, h2.tidy h3⟩

theorem SameDefs.wrap {g g' : Grammar} (h : SameDefs g g') : SameWrap (lookup wrapRE g) (lookup wrapRE g') := h wrapRE

theorem lookup_inheritWrap (w : Option Term) (g : Grammar) (k : Str) :
    lookup k (inheritWrap w g) = if k = wrapRE ∧ lookup wrapRE g = none then w else lookup k g := by
  unfold inheritWrap
  cases w with
  | none =>
    simp only
    split
    · rename_i h; rw [h.1, h.2]
    · rfl
  | some w =>
    simp only
    cases hl : lookup wrapRE g with
    | some t => simp [hasKey, hl]
    | none =>
      simp only [hasKey, hl, Option.isSome_none, Bool.false_eq_true, if_false, and_true]
      split
      · rename_i h; subst h; rw [lookup_mapSet_self]
      · rename_i h; rw [lookup_mapSet_ne h]

theorem SameDefs.inherit {g g' : Grammar} {w w'} (h : SameDefs g g') (hw : SameWrap w w') :
    SameDefs (inheritWrap w g) (inheritWrap w' g') := by
  intro k
  rw [lookup_inheritWrap, lookup_inheritWrap]
  by_cases hk : k = wrapRE ∧ lookup wrapRE g = none
  · rw [if_pos hk, if_pos ⟨hk.1, (h wrapRE).1.1 hk.2⟩]
    exact hw
  · rw [if_neg hk, if_neg fun h' => hk ⟨h'.1, (h wrapRE).1.2 h'.2⟩]
    exact h k

/-- Scopes that are the same up to order. -/
inductive SameScope : List Grammar → List Grammar → Prop
  | nil : SameScope [] []
  | cons {g g' Γ Γ'} : SameDefs g g' → SameScope Γ Γ' → SameScope (g :: Γ) (g' :: Γ')

theorem SameScope.symm {Γ Γ'} (h : SameScope Γ Γ') : SameScope Γ' Γ := by
  induction h with
  | nil => exact .nil
  | cons h _ ih => exact .cons h.symm ih

theorem SameScope.wrap {Γ Γ'} (h : SameScope Γ Γ') : SameWrap (wrapOf Γ) (wrapOf Γ') := by
  cases h with
  | nil => exact ⟨by simp [wrapOf], by simp [wrapOf]⟩
  | cons h _ => exact h.wrap

theorem SameScope.enters {Γ Γ' g g' g1} (h : SameScope Γ Γ') (hg : ReordDefs g g') (ht : Grammar.Tidy g)
    (he : Enters Γ g g1) : ∃ g1', Enters Γ' g' g1' ∧ SameDefs g1 g1' := by
  obtain ⟨g2, h1, rfl⟩ := he
  obtain ⟨g2', h2, h3⟩ := resolveStacks_reord hg ht h1
  exact ⟨_, ⟨g2', h2, rfl⟩, h3.inherit h.wrap⟩

theorem Reord.rule_inv {r t'} (h : Reord (.rule r) t') : t' = .rule r := by cases h; rfl

theorem SameDefs.defines {g g' : Grammar} (h : SameDefs g g') {r t} (hd : Defines g r t) :
    ∃ t', Defines g' r t' ∧ Reord t t' ∧ t.Tidy := by
  induction hd with
  | here hl hn =>
    obtain ⟨t', h1, h2, h3⟩ := (h _).2 _ hl
    exact ⟨t', .here h1 fun r' e => hn r' (by subst e; exact h2.symm.rule_inv), h2, h3⟩
  | «alias» hl _ ih =>
    obtain ⟨t', h1, h2, _⟩ := (h _).2 _ hl
    obtain rfl := h2.rule_inv
    obtain ⟨t'', h3, h4, h5⟩ := ih
    exact ⟨t'', .alias h1 h3, h4, h5⟩

theorem SameScope.resolves {Γ Γ'} (h : SameScope Γ Γ') {r Γ₁ t₁} (hr : Resolves Γ r Γ₁ t₁) :
    ∃ Γ₁' t₁', Resolves Γ' r Γ₁' t₁' ∧ SameScope Γ₁ Γ₁' ∧ Reord t₁ t₁' ∧ t₁.Tidy := by
  induction h with
  | nil => cases hr
  | cons hg hs ih =>
    cases hr with
    | here hd =>
      obtain ⟨t', h1, h2, h3⟩ := hg.defines hd
      exact ⟨_, t', .here h1, .cons hg hs, h2, h3⟩
    | outer hl hr =>
      obtain ⟨Γ₁', t₁', h1, h2⟩ := ih hr
      exact ⟨Γ₁', t₁', .outer ((hg _).1.1 hl) h1, h2⟩

theorem ReordList.append {a a' b b' : List Term} (h : ReordList a a') (h' : ReordList b b') :
    ReordList (a ++ b) (a' ++ b') :=
  match h with
  | .nil => h'
  | .cons h hs => .cons h (hs.append h')

theorem ReordList.delim {t t' sep sep'} (h : Reord t t') (h' : Reord sep sep') (cs ce : Bool) :
    ReordList (delimSeq t sep cs ce) (delimSeq t' sep' cs ce) := by
  have o : ReordList [optT sep] [optT sep'] := .cons (.quant h') .nil
  have m : ReordList [.seq [t, anyT (.seq [sep, t])]] [.seq [t', anyT (.seq [sep', t'])]] :=
    .cons (.seq (.cons h (.cons (.quant (.seq (.cons h' (.cons h .nil)))) .nil))) .nil
  unfold delimSeq
  cases cs <;> cases ce
  · exact .append (.append .nil m) .nil
  · exact .append (.append .nil m) o
  · exact .append (.append o m) .nil
  · exact .append (.append o m) o

theorem Reord.ident {t t' : Term} (h : Reord t t') : identFromTerm t = identFromTerm t' :=
  match h with
  | .rule => rfl
  | .s => rfl
  | .re => rfl
  | .ref => rfl
  | .ext => rfl
  | .seq _ => rfl
  | .oneof _ => rfl
  | .stack _ => rfl
  | .delim _ _ => rfl
  | .look _ => rfl
  | .quant h => by simp only [identFromTerm]; exact h.ident
  | .named h => by simp only [identFromTerm]; rw [h.ident]
  | .scope _ _ => rfl
  | .cut _ => rfl

theorem ReordList.snoc_inv {ts : List Term} {w ts'} (h : ReordList (ts ++ [w]) ts') :
    ∃ us u, ts' = us ++ [u] ∧ ReordList ts us ∧ Reord w u := by
  induction ts generalizing ts' with
  | nil =>
    cases h with
    | cons h hs => cases hs; exact ⟨[], _, rfl, .nil, h⟩
  | cons t ts ih =>
    cases h with
    | cons h hs =>
      obtain ⟨us, u, rfl, h1, h2⟩ := ih hs
      exact ⟨_ :: us, u, rfl, .cons h h1, h2⟩

theorem ReordList.mem_leaf {ts us : List Term} (h : ReordList ts us) (l : Str) :
    (.s l ∈ ts ↔ .s l ∈ us) ∧ (.re l ∈ ts ↔ .re l ∈ us) := by
  match h with
  | .nil => simp
  | .cons h hs =>
    have := hs.mem_leaf l
    simp only [List.mem_cons, this.1, this.2]
    cases h <;> simp

/-- The pattern of a leaf does not depend on the order inside the wrapper. -/
theorem SameWrap.pattern {w w' : Option Term} (h : SameWrap w w') {text group p} (hp : LeafPattern w text group p) :
    LeafPattern w' text group p := by
  cases hp with
  | plain e => exact .plain (h.1.1 e)
  | exempt e hm =>
    obtain ⟨t', rfl, h2, _⟩ := h.2 _ e
    cases h2 with
    | oneof h2 =>
      obtain ⟨us, u, rfl, h3, _⟩ := h2.snoc_inv
      obtain ⟨h4, h5⟩ := h3.mem_leaf text
      exact .exempt rfl (by rwa [h4, h5] at hm)
  | listed e hm hs =>
    obtain ⟨t', rfl, h2, _⟩ := h.2 _ e
    cases h2 with
    | oneof h2 =>
      obtain ⟨us, u, rfl, h3, h6⟩ := h2.snoc_inv
      obtain ⟨h4, h5⟩ := h3.mem_leaf text
      cases h6
      exact .listed rfl (by rwa [h4, h5] at hm) hs
  | wrapped e hs =>
    obtain ⟨t', rfl, h2, _⟩ := h.2 _ e
    cases h2
    exact .wrapped rfl hs

/-- Terms that are the same up to order, in scopes that are. -/
def ReordRel : TermRel := fun Γ t Γ' t' => SameScope Γ Γ' ∧ Reord t t' ∧ t.Tidy

theorem ReordRel.list {Γ Γ' ts ts'} (hs : SameScope Γ Γ') (h : ReordList ts ts') (ht : tidyList ts) :
    RList ReordRel Γ Γ' ts ts' :=
  match h with
  | .nil => .nil
  | .cons h hr => .cons ⟨hs, h, ht.1⟩ (ReordRel.list hs hr ht.2)

theorem tidy_delim {t sep : Term} (h : t.Tidy) (h' : sep.Tidy) (cs ce : Bool) : tidyList (delimSeq t sep cs ce) := by
  unfold delimSeq
  cases cs <;> cases ce <;> simp [tidyList, Term.Tidy, optT, anyT, h, h']

theorem sameShape_reord : SameShape ReordRel where
  symm h := ⟨h.1.symm, h.2.1.symm, h.2.1.tidy h.2.2⟩
  ident h := h.2.1.ident
  rule := by
    rintro Γ r Γ' t' ⟨h1, h2, h3⟩
    refine ⟨h2.rule_inv, fun hr => ?_⟩
    obtain ⟨Γ₁', t₁', h4, h5, h6, h7⟩ := h1.resolves hr
    exact ⟨Γ₁', t₁', h4, .of ⟨h5, h6, h7⟩⟩
  lit := by rintro Γ r Γ' t' ⟨h1, h2, h3⟩; cases h2; exact ⟨rfl, h1.wrap.pattern⟩
  re := by rintro Γ r Γ' t' ⟨h1, h2, h3⟩; cases h2; exact ⟨rfl, h1.wrap.pattern⟩
  ref := by rintro Γ i d Γ' t' ⟨h1, h2, h3⟩; cases h2; rfl
  ext := by rintro Γ i Γ' t' ⟨h1, h2, h3⟩; cases h2; rfl
  seq := by rintro Γ i Γ' t' ⟨h1, h2, h3⟩; cases h2 with | seq h => exact ⟨_, rfl, ReordRel.list h1 h h3⟩
  oneof := by rintro Γ i Γ' t' ⟨h1, h2, h3⟩; cases h2 with | oneof h => exact ⟨_, rfl, ReordRel.list h1 h h3⟩
  delim := by
    rintro Γ t sep a cs ce Γ' t' ⟨h1, h2, h3⟩
    cases h2 with
    | delim h h' =>
      refine ⟨_, _, rfl, h1, .seq (.delim h h' cs ce), ?_⟩
      exact tidy_delim h3.1 h3.2 cs ce
  look := by
    rintro Γ t Γ' t' ⟨h1, h2, h3⟩
    cases h2 with | look h => exact ⟨_, rfl, h1, h, by simpa [Term.Tidy] using h3⟩
  quant := by
    rintro Γ t lo hi Γ' t' ⟨h1, h2, h3⟩
    cases h2 with | quant h => exact ⟨_, rfl, h1, h, by simpa [Term.Tidy] using h3⟩
  named := by
    rintro Γ n t Γ' t' ⟨h1, h2, h3⟩
    cases h2 with | named h => exact ⟨_, rfl, h1, h, by simpa [Term.Tidy] using h3⟩
  cut := by
    rintro Γ t Γ' t' ⟨h1, h2, h3⟩
    cases h2 with | cut h => exact ⟨_, rfl, h1, h, by simpa [Term.Tidy] using h3⟩
  scope := by
    rintro Γ t g Γ' t' ⟨h1, h2, h3⟩
    cases h2 with
    | scope h h' =>
      refine ⟨_, _, rfl, fun he => ?_⟩
      obtain ⟨g1', h4, h5⟩ := h1.enters h' ⟨h3.2.1, h3.2.2⟩ he
      exact ⟨g1', h4, .cons h5 h1, h, h3.1⟩

end Wbnf

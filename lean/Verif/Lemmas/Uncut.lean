import Verif.Spec.Uncut
import Verif.Lemmas.Deep
import Verif.Lemmas.Fold
import Verif.Lemmas.Flatten
import Verif.Lemmas.ReorderCompile

/-! Parsing without cut points. -/

namespace Wbnf

variable {E : Engine} {X : Externals}

theorem uncutList_eq : (ts : List Term) → uncutList ts = ts.map Term.uncut
  | [] => rfl
  | t :: ts => by simp [uncutList, uncutList_eq ts]

theorem uncutDefs_eq : (g : Grammar) → uncutDefs g = g.map fun e => (e.1, e.2.uncut)
  | [] => rfl
  | (k, t) :: g => by simp [uncutDefs, uncutDefs_eq g]

theorem lookup_uncut (k : Str) : (g : Grammar) → lookup k (uncutDefs g) = (lookup k g).map Term.uncut
  | [] => rfl
  | (k', t) :: g => by simp only [uncutDefs, lookup]; split <;> simp [lookup_uncut k g]

theorem mapSet_uncut (k : Str) (v : Term) : (g : Grammar) → mapSet k v.uncut (uncutDefs g) = uncutDefs (mapSet k v g)
  | [] => rfl
  | (k', t) :: g => by simp only [uncutDefs, mapSet]; split <;> simp [uncutDefs, mapSet_uncut k v g]

mutual
theorem uncut_uncut : (t : Term) → t.uncut.uncut = t.uncut
  | .rule _ => rfl
  | .s _ => rfl
  | .re _ => rfl
  | .ref _ _ => rfl
  | .ext _ => rfl
  | .seq ts => by simp [Term.uncut, uncutList_uncut ts]
  | .oneof ts => by simp [Term.uncut, uncutList_uncut ts]
  | .stack ts => by simp [Term.uncut, uncutList_uncut ts]
  | .delim t sep _ _ _ => by simp [Term.uncut, uncut_uncut t, uncut_uncut sep]
  | .look t => by simp [Term.uncut, uncut_uncut t]
  | .quant t _ _ => by simp [Term.uncut, uncut_uncut t]
  | .named _ t => by simp [Term.uncut, uncut_uncut t]
  | .scope t g => by simp [Term.uncut, uncut_uncut t, uncutDefs_uncut g]
  | .cut t => by simp [Term.uncut, uncut_uncut t]
theorem uncutList_uncut : (ts : List Term) → uncutList (uncutList ts) = uncutList ts
  | [] => rfl
  | t :: ts => by simp [uncutList, uncut_uncut t, uncutList_uncut ts]
theorem uncutDefs_uncut : (g : Grammar) → uncutDefs (uncutDefs g) = uncutDefs g
  | [] => rfl
  | (k, t) :: g => by simp [uncutDefs, uncut_uncut t, uncutDefs_uncut g]
end

mutual
theorem uncut_atTo (new : Str) : (t : Term) → (t.atTo new).uncut = t.uncut.atTo new
  | .rule r => by simp only [Term.atTo, Term.uncut]; split <;> rfl
  | .s _ => rfl
  | .re _ => rfl
  | .ref _ _ => rfl
  | .ext _ => rfl
  | .seq ts => by simp [Term.uncut, Term.atTo, uncutList_atTo new ts]
  | .oneof ts => by simp [Term.uncut, Term.atTo, uncutList_atTo new ts]
  | .stack ts => by simp [Term.uncut, Term.atTo]
  | .delim t sep _ _ _ => by simp [Term.uncut, Term.atTo, uncut_atTo new t, uncut_atTo new sep]
  | .look t => by simp [Term.uncut, Term.atTo, uncut_atTo new t]
  | .quant t _ _ => by simp [Term.uncut, Term.atTo, uncut_atTo new t]
  | .named _ t => by simp [Term.uncut, Term.atTo, uncut_atTo new t]
  | .scope t g => by simp [Term.uncut, Term.atTo]
  | .cut t => by simp [Term.uncut, Term.atTo, uncut_atTo new t]
theorem uncutList_atTo (new : Str) : (ts : List Term) → uncutList (atToList new ts) = atToList new (uncutList ts)
  | [] => rfl
  | t :: ts => by simp [uncutList, atToList, uncut_atTo new t, uncutList_atTo new ts]
end

mutual
theorem flat_uncut : (t : Term) → t.uncut.flat = t.flat
  | .rule _ => rfl
  | .s _ => rfl
  | .re _ => rfl
  | .ref _ _ => rfl
  | .ext _ => rfl
  | .stack _ => rfl
  | .scope _ _ => rfl
  | .seq ts => by simp [Term.uncut, Term.flat, flatList_uncut ts]
  | .oneof ts => by simp [Term.uncut, Term.flat, flatList_uncut ts]
  | .delim t sep _ _ _ => by simp [Term.uncut, Term.flat, flat_uncut t, flat_uncut sep]
  | .look t => by simp [Term.uncut, Term.flat, flat_uncut t]
  | .quant t _ _ => by simp [Term.uncut, Term.flat, flat_uncut t]
  | .named _ t => by simp [Term.uncut, Term.flat, flat_uncut t]
  | .cut t => by simp [Term.uncut, Term.flat, flat_uncut t]
theorem flatList_uncut : (ts : List Term) → flatList (uncutList ts) = flatList ts
  | [] => rfl
  | t :: ts => by simp [uncutList, flatList, flat_uncut t, flatList_uncut ts]
end

theorem resolve_uncut (new : Str) (t : Term) :
    t.uncut.resolve stackDelim new = (t.resolve stackDelim new).map Term.uncut := by
  rw [resolve_eq, resolve_eq, flat_uncut, uncut_uncut]
  cases t.flat with
  | false => simp
  | true => simp [uncut_atTo, uncut_uncut]

theorem resolveLayers_uncut {r : Str} {n : Nat} : ∀ {layers : List Term} {i : Nat} {old : Str} {g : Grammar},
    resolveLayers r n i old (uncutList layers) (uncutDefs g) = (resolveLayers r n i old layers g).map uncutDefs := by
  intro layers
  induction layers with
  | nil => intro i old g; rfl
  | cons L layers ih =>
    intro i old g
    simp only [uncutList, resolveLayers, resolve_uncut]
    cases L.resolve stackDelim (layerName r n i) with
    | none => rfl
    | some t => simp only [Option.map_some, mapSet_uncut]; exact ih

/-- A stack stays one, and other terms do not become one (a cut point may not be on a stack). -/
def NoCutStack (g : Grammar) : Prop := ∀ k t, (k, t) ∈ g → ∀ ls, t.uncut = .stack ls → ∃ ls', t = .stack ls'

theorem length_uncutList (ts : List Term) : (uncutList ts).length = ts.length := by rw [uncutList_eq]; simp

theorem resolveStacksLoop_uncut : ∀ {es : List (Str × Term)} {g : Grammar}, NoCutStack es →
    resolveStacksLoop (uncutDefs es) (uncutDefs g) = (resolveStacksLoop es g).map uncutDefs := by
  intro es
  induction es with
  | nil => intro g _; rfl
  | cons e es ih =>
    intro g hn
    obtain ⟨r, t⟩ := e
    have ih' := fun g => ih (g := g) fun k t hm => hn k t (by simp [hm])
    by_cases ht : ∃ ls, t = .stack ls
    · obtain ⟨ls, rfl⟩ := ht
      simp only [uncutDefs, Term.uncut, resolveStacksLoop, length_uncutList, resolveLayers_uncut]
      cases resolveLayers r ls.length 0 r ls g with
      | none => rfl
      | some g1 => exact ih' g1
    · have e1 : ∀ {t : Term} {es g}, (∀ ls, t ≠ .stack ls) → resolveStacksLoop ((r, t) :: es) g = resolveStacksLoop es g := by
        intro t es g h
        cases t <;> first | rfl | exact absurd rfl (h _)
      rw [e1 fun ls e => ht ⟨ls, e⟩, uncutDefs, e1 fun ls e => ht (hn r t (by simp) ls e), ih']

theorem resolveStacks_uncut {g : Grammar} (hn : NoCutStack g) :
    Grammar.resolveStacks (uncutDefs g) = (g.resolveStacks).map uncutDefs := by
  simp only [Grammar.resolveStacks]
  have : (uncutDefs g).any (fun e => e.2.isStack) = g.any (fun e => e.2.isStack) := by
    rw [uncutDefs_eq, List.any_map, Bool.eq_iff_iff]
    simp only [List.any_eq_true, Function.comp]
    constructor
    · rintro ⟨⟨k, t⟩, hm, h⟩
      refine ⟨_, hm, ?_⟩
      cases hu : t.uncut <;> simp [hu, Term.isStack] at h
      obtain ⟨ls', rfl⟩ := hn k t hm _ hu
      rfl
    · rintro ⟨⟨k, t⟩, hm, h⟩
      refine ⟨_, hm, ?_⟩
      cases t <;> simp [Term.isStack] at h
      rfl
  rw [this]
  cases g.any fun e => e.2.isStack with
  | false => rfl
  | true => exact resolveStacksLoop_uncut hn

theorem hasKey_uncut (k : Str) (g : Grammar) : hasKey k (uncutDefs g) = hasKey k g := by
  simp [hasKey, lookup_uncut]

theorem inheritWrap_uncut (w : Option Term) (g : Grammar) :
    inheritWrap (w.map Term.uncut) (uncutDefs g) = uncutDefs (inheritWrap w g) := by
  cases w with
  | none => rfl
  | some w =>
    simp only [Option.map_some, inheritWrap, hasKey_uncut]
    split
    · rfl
    · exact mapSet_uncut _ _ _

theorem wrapOf_uncut (Γ : List Grammar) : wrapOf (Γ.map uncutDefs) = (wrapOf Γ).map Term.uncut := by
  cases Γ with
  | nil => rfl
  | cons g Γ => exact lookup_uncut wrapRE g

/-! ## The conditions -/

/-- What is used about a term with cut points. -/
def UncutOK : Term → Prop
  | .cut u => identFromTerm u.uncut = [] ∧ (∀ r, u.uncut ≠ .rule r) ∧ ∀ ls, u.uncut ≠ .stack ls
  | .scope _ g => Grammar.WrapUncut g
  | _ => True

mutual
theorem deep_layer (P : Term → Prop) (h : ∀ t : Term, (∀ u, t ≠ .cut u) → (∀ u g, t ≠ .scope u g) → P t) (new : Str) :
    (t : Term) → t.flat = true → (t.uncut.atTo new).Deep P
  | .rule r, _ => by
    simp only [Term.uncut, Term.atTo]
    split <;> exact h _ (by simp) (by simp)
  | .s _, _ => h _ (by simp) (by simp)
  | .re _, _ => h _ (by simp) (by simp)
  | .ref _ _, _ => h _ (by simp) (by simp)
  | .ext _, _ => h _ (by simp) (by simp)
  | .stack _, hf => by simp [Term.flat] at hf
  | .scope _ _, hf => by simp [Term.flat] at hf
  | .seq ts, hf => ⟨h _ (by simp) (by simp), deep_layers P h new ts (by simpa [Term.flat] using hf)⟩
  | .oneof ts, hf => ⟨h _ (by simp) (by simp), deep_layers P h new ts (by simpa [Term.flat] using hf)⟩
  | .delim t sep _ _ _, hf => by
    simp only [Term.flat, Bool.and_eq_true] at hf
    exact ⟨h _ (by simp) (by simp), deep_layer P h new t hf.1, deep_layer P h new sep hf.2⟩
  | .look t, hf => ⟨h _ (by simp) (by simp), deep_layer P h new t (by simpa [Term.flat] using hf)⟩
  | .quant t _ _, hf => ⟨h _ (by simp) (by simp), deep_layer P h new t (by simpa [Term.flat] using hf)⟩
  | .named _ t, hf => ⟨h _ (by simp) (by simp), deep_layer P h new t (by simpa [Term.flat] using hf)⟩
  | .cut t, hf => deep_layer P h new t (by simpa [Term.flat] using hf)
theorem deep_layers (P : Term → Prop) (h : ∀ t : Term, (∀ u, t ≠ .cut u) → (∀ u g, t ≠ .scope u g) → P t) (new : Str) :
    (ts : List Term) → flatList ts = true → deepList P (atToList new (uncutList ts))
  | [], _ => trivial
  | t :: ts, hf => by
    simp only [flatList, Bool.and_eq_true] at hf
    exact ⟨deep_layer P h new t hf.1, deep_layers P h new ts hf.2⟩
end

theorem layerOK_uncut : LayerOK UncutOK := fun L new hf _ => deep_layer _ (by
  intro t h1 h2
  cases t with
  | cut u => exact absurd rfl (h1 u)
  | scope u g => exact absurd rfl (h2 u g)
  | _ => trivial) new L hf

def UncutEnv (Γ : List Grammar) : Prop := ∀ g ∈ Γ, deepDefs UncutOK g ∧ Grammar.WrapUncut g

theorem noCutStack {g : Grammar} (h : deepDefs UncutOK g) : NoCutStack g := by
  intro k t hm ls e
  cases t with
  | stack ls' => exact ⟨_, rfl⟩
  | cut u => exact absurd e ((deepDefs_iff.1 h k _ hm).1.2.2 ls)
  | _ => simp [Term.uncut] at e

theorem notRule_uncut {t : Term} (h : t.Deep UncutOK) (hn : ∀ r, t ≠ .rule r) (r : Str) : t.uncut ≠ .rule r := by
  intro e
  cases t with
  | rule r => exact hn _ rfl
  | cut u => exact h.1.2.1 r e
  | _ => simp [Term.uncut] at e

theorem ident_uncut : (t : Term) → t.Deep UncutOK → identFromTerm t.uncut = identFromTerm t
  | .named n t, h => by simp only [Term.uncut, identFromTerm, ident_uncut t h.2]
  | .quant t _ _, h => by simp only [Term.uncut, identFromTerm, ident_uncut t h.2]
  | .cut t, h => h.1.1
  | .rule _, _ => rfl
  | .s _, _ => rfl
  | .re _, _ => rfl
  | .ref _ _, _ => rfl
  | .ext _, _ => rfl
  | .seq _, _ => rfl
  | .oneof _, _ => rfl
  | .stack _, _ => rfl
  | .delim _ _ _ _ _, _ => rfl
  | .look _, _ => rfl
  | .scope _ _, _ => rfl

theorem wrapUncut_resolve {g g' : Grammar} (h : g.WrapUncut) (hr : g.resolveStacks = some g') : g'.WrapUncut := by
  intro w hm
  rcases (resolveStacks_mem hr).1 _ _ hm with hm | ⟨r, ls, L, j, h1, h2, hf, _, rfl, _⟩
  · exact h w hm
  · rw [uncut_atTo, uncut_uncut]

theorem wrapOf_plain {Γ : List Grammar} (h : UncutEnv Γ) : (wrapOf Γ).map Term.uncut = wrapOf Γ := by
  cases hw : wrapOf Γ with
  | none => rfl
  | some w =>
    cases Γ with
    | nil => simp [wrapOf] at hw
    | cons g0 Γ => simp [(h g0 (by simp)).2 w (lookup_mem hw)]

theorem Resolves.uncutEnv {Γ r Γ₁ t₁} (hr : Resolves Γ r Γ₁ t₁) (h : UncutEnv Γ) : UncutEnv Γ₁ ∧ t₁.Deep UncutOK := by
  induction hr with
  | here hd =>
    obtain ⟨k, hk⟩ := hd.mem
    exact ⟨h, deepDefs_iff.1 (h _ (by simp)).1 k _ hk⟩
  | outer _ _ ih => exact ih fun g hg => h g (by simp [hg])

theorem Enters.uncutEnv {Γ g g'} (he : Enters Γ g g') (hg : deepDefs UncutOK g) (hw : Grammar.WrapUncut g) (h : UncutEnv Γ) :
    UncutEnv (g' :: Γ) := by
  obtain ⟨g1, h1, rfl⟩ := he
  intro g hm
  rcases List.mem_cons.1 hm with rfl | hm
  · refine ⟨deep_inherit (deep_wrapOf fun g hg => (h g hg).1) (deep_resolve layerOK_uncut hg h1), ?_⟩
    intro w hm
    rcases mem_inheritWrap hm with hm | hm
    · exact wrapUncut_resolve hw h1 w hm
    · have := wrapOf_plain h
      rw [hm] at this
      exact Option.some.inj this
  · exact h g hm

/-! ## Scopes -/

theorem Defines.uncut {g r t} (hg : deepDefs UncutOK g) (hd : Defines g r t) : Defines (uncutDefs g) r t.uncut := by
  induction hd with
  | here hl hn => exact .here (by rw [lookup_uncut, hl]; rfl) (notRule_uncut (deepDefs_iff.1 hg _ _ (lookup_mem hl)) hn)
  | «alias» hl _ ih => exact .alias (by rw [lookup_uncut, hl]; rfl) ih

theorem Resolves.uncut {Γ r Γ' t} (h : UncutEnv Γ) (hd : Resolves Γ r Γ' t) :
    Resolves (Γ.map uncutDefs) r (Γ'.map uncutDefs) t.uncut := by
  induction hd with
  | here hd => exact .here (hd.uncut (h _ (by simp)).1)
  | outer hl _ ih => exact .outer (by rw [lookup_uncut, hl]; rfl) (ih fun g hg => h g (by simp [hg]))

theorem Enters.uncut {Γ g g'} (hg : deepDefs UncutOK g) (he : Enters Γ g g') : Enters (Γ.map uncutDefs) (uncutDefs g) (uncutDefs g') := by
  obtain ⟨g1, h1, rfl⟩ := he
  exact ⟨uncutDefs g1, by rw [resolveStacks_uncut (noCutStack hg), h1]; rfl, by rw [wrapOf_uncut, inheritWrap_uncut]⟩

/-! ## No cut points left -/

def NotCut (t : Term) : Prop := ∀ u, t ≠ .cut u

mutual
theorem deep_notCut : (t : Term) → t.uncut.Deep NotCut
  | .rule _ => by simp [Term.uncut, Term.Deep, NotCut]
  | .s _ => by simp [Term.uncut, Term.Deep, NotCut]
  | .re _ => by simp [Term.uncut, Term.Deep, NotCut]
  | .ref _ _ => by simp [Term.uncut, Term.Deep, NotCut]
  | .ext _ => by simp [Term.uncut, Term.Deep, NotCut]
  | .seq ts => ⟨by simp [NotCut], deepList_notCut ts⟩
  | .oneof ts => ⟨by simp [NotCut], deepList_notCut ts⟩
  | .stack ts => ⟨by simp [NotCut], deepList_notCut ts⟩
  | .delim t sep _ _ _ => ⟨by simp [NotCut], deep_notCut t, deep_notCut sep⟩
  | .look t => ⟨by simp [NotCut], deep_notCut t⟩
  | .quant t _ _ => ⟨by simp [NotCut], deep_notCut t⟩
  | .named _ t => ⟨by simp [NotCut], deep_notCut t⟩
  | .scope t g => ⟨by simp [NotCut], deep_notCut t, deepDefs_notCut g⟩
  | .cut t => deep_notCut t
theorem deepList_notCut : (ts : List Term) → deepList NotCut (uncutList ts)
  | [] => trivial
  | t :: ts => ⟨deep_notCut t, deepList_notCut ts⟩
theorem deepDefs_notCut : (g : Grammar) → deepDefs NotCut (uncutDefs g)
  | [] => trivial
  | (_, t) :: g => ⟨deep_notCut t, deepDefs_notCut g⟩
end

theorem IsCut.part {Γ t} (h : IsCut Γ t) : ∃ Γ' u, PartOf Γ t Γ' (.cut u) := by
  induction h with
  | cut => exact ⟨_, _, .refl⟩
  | named _ ih => obtain ⟨Γ', u, h⟩ := ih; exact ⟨Γ', u, .named h⟩
  | rule hr _ ih => obtain ⟨Γ', u, h⟩ := ih; exact ⟨Γ', u, .rule hr h⟩
  | scope he _ ih => obtain ⟨Γ', u, h⟩ := ih; exact ⟨Γ', u, .scope he h⟩

theorem not_isCut_uncut {Γ : List Grammar} {t : Term} : ¬ IsCut (Γ.map uncutDefs) t.uncut := by
  intro h
  obtain ⟨Γ', u, hp⟩ := h.part
  have := (hp.deep (P := NotCut) (fun L new hf _ => deep_layer _ (fun t h _ => h) new L hf) ?_ (deep_notCut t)).2
  · exact this.self u rfl
  · intro g hg
    obtain ⟨g0, _, rfl⟩ := List.mem_map.1 hg
    exact deepDefs_notCut g0

/-! ## Parsing -/

theorem deep_delimSeq {t sep : Term} (cs ce : Bool) (h1 : t.Deep UncutOK) (h2 : sep.Deep UncutOK) : deepList UncutOK (delimSeq t sep cs ce) := by
  unfold delimSeq optT anyT
  cases cs <;> cases ce <;> simp [deepList, Term.Deep, UncutOK, h1, h2]

theorem uncut_delimSeq (t sep : Term) (cs ce : Bool) : uncutList (delimSeq t sep cs ce) = delimSeq t.uncut sep.uncut cs ce := by
  unfold delimSeq
  cases cs <;> cases ce <;> simp [uncutList, Term.uncut, optT, anyT]

mutual
theorem text_uncut : (t : Term) → t.quotable E = true → t.uncut = t ∧ t.Deep UncutOK
  | .s _, _ => ⟨rfl, trivial⟩
  | .seq ts, h => by
    obtain ⟨h1, h2⟩ := textList_uncut ts (by simpa [Term.quotable] using h)
    exact ⟨by simp only [Term.uncut, h1], trivial, h2⟩
  | .rule _, h => by simp [Term.quotable] at h
  | .re _, h => by simp [Term.quotable] at h
  | .ref _ _, h => by simp [Term.quotable] at h
  | .ext _, h => by simp [Term.quotable] at h
  | .oneof _, h => by simp [Term.quotable] at h
  | .stack _, h => by simp [Term.quotable] at h
  | .delim _ _ _ _ _, h => by simp [Term.quotable] at h
  | .look _, h => by simp [Term.quotable] at h
  | .quant _ _ _, h => by simp [Term.quotable] at h
  | .named _ _, h => by simp [Term.quotable] at h
  | .scope _ _, h => by simp [Term.quotable] at h
  | .cut _, h => by simp [Term.quotable] at h
theorem textList_uncut : (ts : List Term) → quotableList E ts = true → uncutList ts = ts ∧ deepList UncutOK ts
  | [], _ => ⟨rfl, trivial⟩
  | t :: ts, h => by
    simp only [quotableList, Bool.and_eq_true] at h
    obtain ⟨h1, h2⟩ := text_uncut t h.1
    obtain ⟨h3, h4⟩ := textList_uncut ts h.2
    exact ⟨by simp only [uncutList, h1, h3], h2, h4⟩
end

def Goal.uncut : Goal → Goal
  | .term Γ rule t vals inp => .term (Γ.map uncutDefs) rule t.uncut vals inp
  | .seq Γ ts vals _ inp => .seq (Γ.map uncutDefs) (uncutList ts) vals false inp
  | .reps Γ t vals left inp => .reps (Γ.map uncutDefs) t.uncut vals left inp
  | .alts Γ tag ts i vals inp => .alts (Γ.map uncutDefs) tag (uncutList ts) i vals inp

def Goal.UncutOK : Goal → Prop
  | .term Γ _ t _ _ => UncutEnv Γ ∧ t.Deep Wbnf.UncutOK
  | .seq Γ ts _ _ _ => UncutEnv Γ ∧ deepList Wbnf.UncutOK ts
  | .reps Γ t _ _ _ => UncutEnv Γ ∧ t.Deep Wbnf.UncutOK
  | .alts Γ _ ts _ _ _ => UncutEnv Γ ∧ deepList Wbnf.UncutOK ts

theorem Peg.uncut {G o} (h : Peg E X G o) : G.UncutOK → o ≠ .abort → Peg E X G.uncut o := by
  induction h with
  | rule hr _ ih =>
    rintro ⟨hΓ, ht⟩ ho
    exact .rule (hr.uncut hΓ) (ih (hr.uncutEnv hΓ) ho)
  | named _ ih => rintro ⟨hΓ, ht⟩ ho; exact .named (ih ⟨hΓ, ht.2⟩ ho)
  | cut _ ih => rintro ⟨hΓ, ht⟩ ho; exact ih ⟨hΓ, ht.2⟩ ho
  | scope he _ ih =>
    rintro ⟨hΓ, ht⟩ ho
    exact .scope (he.uncut ht.2.2) (ih ⟨he.uncutEnv ht.2.2 ht.1 hΓ, ht.2.1⟩ ho)
  | lit hp hl => rintro ⟨hΓ, ht⟩ ho; exact .lit (by rw [wrapOf_uncut, wrapOf_plain hΓ]; exact hp) hl
  | regexp hp hl => rintro ⟨hΓ, ht⟩ ho; exact .regexp (by rw [wrapOf_uncut, wrapOf_plain hΓ]; exact hp) hl
  | seqOk _ ih => rintro ⟨hΓ, ht⟩ ho; exact .seqOk (ih ⟨hΓ, ht.2⟩ (by simp))
  | seqNo _ hno ih => rintro ⟨hΓ, ht⟩ ho; exact .seqNo (ih ⟨hΓ, ht.2⟩ ho) hno
  | itemsNil => rintro ⟨hΓ, ht⟩ ho; exact .itemsNil
  | itemsCons _ _ _ ih1 ih2 =>
    rintro ⟨hΓ, ht⟩ ho
    refine .itemsCons (ih1 ⟨hΓ, ht.1⟩ (by simp)) (c' := false) (by simp [not_isCut_uncut]) ?_
    rw [ident_uncut _ ht.1]
    exact ih2 ⟨hΓ, ht.2⟩ (by simp)
  | itemsLater _ _ _ hno ih1 ih2 =>
    rintro ⟨hΓ, ht⟩ ho
    refine .itemsLater (ih1 ⟨hΓ, ht.1⟩ (by simp)) (c' := false) (by simp [not_isCut_uncut]) ?_ hno
    rw [ident_uncut _ ht.1]
    exact ih2 ⟨hΓ, ht.2⟩ ho
  | @itemsFail Γ t ts vals c inp _ ih =>
    rintro ⟨hΓ, ht⟩ ho
    cases c with
    | true => exact absurd rfl ho
    | false => exact .itemsFail (c := false) (ih ⟨hΓ, ht.1⟩ (by simp))
  | itemsAbort => intro _ ho; exact absurd rfl ho
  | oneof _ ih => rintro ⟨hΓ, ht⟩ ho; exact .oneof (ih ⟨hΓ, ht.2⟩ ho)
  | altsNil => intro _ _; exact .altsNil
  | altsOk _ ih => rintro ⟨hΓ, ht⟩ ho; exact .altsOk (ih ⟨hΓ, ht.1⟩ (by simp))
  | altsAbort => intro _ ho; exact absurd rfl ho
  | altsNext _ _ ih1 ih2 => rintro ⟨hΓ, ht⟩ ho; exact .altsNext (ih1 ⟨hΓ, ht.1⟩ (by simp)) (ih2 ⟨hΓ, ht.2⟩ ho)
  | quantOk _ hle ih => rintro ⟨hΓ, ht⟩ ho; exact .quantOk (ih ⟨hΓ, ht.2⟩ (by simp)) hle
  | quantFew _ hlt ih => rintro ⟨hΓ, ht⟩ ho; exact .quantFew (ih ⟨hΓ, ht.2⟩ (by simp)) hlt
  | quantAbort => intro _ ho; exact absurd rfl ho
  | repsMax => intro _ _; exact .repsMax
  | repsStop hl _ ih => rintro ⟨hΓ, ht⟩ ho; exact .repsStop hl (ih ⟨hΓ, ht⟩ (by simp))
  | repsMore hl _ _ ih1 ih2 => rintro ⟨hΓ, ht⟩ ho; exact .repsMore hl (ih1 ⟨hΓ, ht⟩ (by simp)) (ih2 ⟨hΓ, ht⟩ (by simp))
  | repsLater => intro _ ho; exact absurd rfl ho
  | repsAbort => intro _ ho; exact absurd rfl ho
  | lookOk _ ih => rintro ⟨hΓ, ht⟩ ho; exact .lookOk (ih ⟨hΓ, ht.2⟩ (by simp))
  | lookNo _ hno ih => rintro ⟨hΓ, ht⟩ ho; exact .lookNo (ih ⟨hΓ, ht.2⟩ ho) hno
  | delimOk _ hf ih =>
    rintro ⟨hΓ, ht⟩ ho
    have := ih ⟨hΓ, trivial, deep_delimSeq _ _ ht.2.1 ht.2.2⟩ (by simp)
    simp only [Goal.uncut, Term.uncut, uncut_delimSeq] at this
    exact .delimOk this hf
  | delimNo _ hno ih =>
    rintro ⟨hΓ, ht⟩ ho
    have := ih ⟨hΓ, trivial, deep_delimSeq _ _ ht.2.1 ht.2.2⟩ ho
    simp only [Goal.uncut, Term.uncut, uncut_delimSeq] at this
    exact .delimNo this hno
  | refOk hl ht hq _ he ih =>
    rintro ⟨hΓ, _⟩ ho
    have := ih ⟨(fun g h => by cases h), (text_uncut _ hq).2⟩ (by simp)
    simp only [Goal.uncut, (text_uncut _ hq).1] at this
    exact .refOk hl ht hq this he
  | refDiffers hl ht hq _ he ih =>
    rintro ⟨hΓ, _⟩ ho
    have := ih ⟨(fun g h => by cases h), (text_uncut _ hq).2⟩ (by simp)
    simp only [Goal.uncut, (text_uncut _ hq).1] at this
    exact .refDiffers hl ht hq this he
  | refNo hl ht hq _ hno ih =>
    rintro ⟨hΓ, _⟩ ho
    have := ih ⟨(fun g h => by cases h), (text_uncut _ hq).2⟩ ho
    simp only [Goal.uncut, (text_uncut _ hq).1] at this
    exact .refNo hl ht hq this hno
  | refDefault hl hq _ ih =>
    rintro ⟨hΓ, _⟩ ho
    have := ih ⟨(fun g h => by cases h), (text_uncut _ hq).2⟩ ho
    simp only [Goal.uncut, (text_uncut _ hq).1] at this
    exact .refDefault hl hq this
  | refUnbound hl => intro _ _; exact .refUnbound hl
  | extNone => intro _ ho; exact absurd rfl ho
  | ext h => intro _ _; exact .ext h

/-! ## Compiling -/

theorem headRule_uncut : (t : Term) → ∀ {r}, t.headRule = some r → t.uncut.headRule = some r
  | .rule _, _, h => h
  | .named _ t, _, h => headRule_uncut t h
  | .s _, _, h => by simp [Term.headRule] at h
  | .re _, _, h => by simp [Term.headRule] at h
  | .ref _ _, _, h => by simp [Term.headRule] at h
  | .ext _, _, h => by simp [Term.headRule] at h
  | .seq _, _, h => by simp [Term.headRule] at h
  | .oneof _, _, h => by simp [Term.headRule] at h
  | .stack _, _, h => by simp [Term.headRule] at h
  | .delim _ _ _ _ _, _, h => by simp [Term.headRule] at h
  | .look _, _, h => by simp [Term.headRule] at h
  | .quant _ _ _, _, h => by simp [Term.headRule] at h
  | .scope _ _, _, h => by simp [Term.headRule] at h
  | .cut _, _, h => by simp [Term.headRule] at h

theorem hard_uncut : (t : Term) → t.hard = true → t.uncut.hard = true
  | .rule _, h => h
  | .named _ t, h => hard_uncut t h
  | .cut t, h => hard_uncut t h
  | .scope t g, h => by
    simp only [Term.uncut, Term.hard, Bool.or_eq_true] at h ⊢
    rcases h with h | h
    · exact Or.inl (hard_uncut t h)
    · refine Or.inr ?_
      cases hr : t.headRule with
      | none => simp [hr] at h
      | some r => rw [headRule_uncut t hr]; rw [hr] at h; simpa [hasKey_uncut] using h
  | .s _, _ => rfl
  | .re _, _ => rfl
  | .ref _ _, _ => rfl
  | .ext _, _ => rfl
  | .seq _, _ => rfl
  | .oneof _, _ => rfl
  | .stack _, _ => rfl
  | .delim _ _ _ _ _, _ => rfl
  | .look _, _ => rfl
  | .quant _ _ _, _ => rfl

theorem hardOrRule_uncut {t : Term} (h : t.hardOrRule = true) : t.uncut.hardOrRule = true := by
  have : ∀ {t : Term}, t.hard = true → t.hardOrRule = true := by intro t h; cases t <;> first | rfl | exact h
  by_cases hr : ∃ r, t = .rule r
  · obtain ⟨r, rfl⟩ := hr; rfl
  · refine this (hard_uncut t ?_)
    cases t <;> first | exact h | exact absurd ⟨_, rfl⟩ hr

theorem defOK_uncut {t : Term} (hd : t.Deep UncutOK) (h : t.defOK = true) : t.uncut.defOK = true := by
  by_cases hs : ∃ ls, t = .stack ls
  · obtain ⟨ls, rfl⟩ := hs
    simp only [Term.uncut, Term.defOK, uncutList_eq, List.all_map, List.all_eq_true] at h ⊢
    exact fun t ht => hardOrRule_uncut (h t ht)
  · have h' : t.hardOrRule = true := by cases t <;> first | exact h | exact absurd ⟨_, rfl⟩ hs
    have h2 := hardOrRule_uncut h'
    by_cases hs' : ∃ ls, t.uncut = .stack ls
    · obtain ⟨ls, e⟩ := hs'
      exact absurd (noCutStack (g := [([], t)]) ⟨hd, trivial⟩ [] t (by simp) ls e) hs
    · cases hu : t.uncut <;> rw [hu] at h2 <;> first | exact h2 | exact absurd ⟨_, hu⟩ hs'

mutual
theorem wf_uncut : (t : Term) → t.Deep UncutOK → t.wf = true → t.uncut.wf = true
  | .rule _, _, h => h
  | .s _, _, h => h
  | .re _, _, h => h
  | .ref _ none, _, h => h
  | .ref _ (some _), _, h => h
  | .ext _, _, h => h
  | .seq ts, hd, h => wfList_uncut ts hd.2 h
  | .oneof ts, hd, h => wfList_uncut ts hd.2 h
  | .stack ts, hd, h => wfList_uncut ts hd.2 h
  | .delim t sep _ _ _, hd, h => by
    simp only [Term.wf, Term.uncut, Bool.and_eq_true] at h ⊢
    exact ⟨wf_uncut t hd.2.1 h.1, wf_uncut sep hd.2.2 h.2⟩
  | .look t, hd, h => wf_uncut t hd.2 h
  | .quant t _ _, hd, h => wf_uncut t hd.2 h
  | .named _ t, hd, h => wf_uncut t hd.2 h
  | .scope t g, hd, h => by
    simp only [Term.wf, Term.uncut, Bool.and_eq_true] at h ⊢
    exact ⟨wf_uncut t hd.2.1 h.1, wfDefs_uncut g hd.2.2 h.2⟩
  | .cut t, hd, h => by
    simp only [Term.wf, Bool.and_eq_true] at h
    exact wf_uncut t hd.2 h.2
theorem wfList_uncut : (ts : List Term) → deepList UncutOK ts → wfList ts = true → wfList (uncutList ts) = true
  | [], _, _ => rfl
  | t :: ts, hd, h => by
    simp only [wfList, uncutList, Bool.and_eq_true] at h ⊢
    exact ⟨wf_uncut t hd.1 h.1, wfList_uncut ts hd.2 h.2⟩
theorem wfDefs_uncut : (g : Grammar) → deepDefs UncutOK g → wfDefs g = true → wfDefs (uncutDefs g) = true
  | [], _, _ => rfl
  | (_, t) :: g, hd, h => by
    simp only [wfDefs, uncutDefs, Bool.and_eq_true] at h ⊢
    exact ⟨⟨defOK_uncut hd.1 h.1.1, wf_uncut t hd.1 h.1.2⟩, wfDefs_uncut g hd.2 h.2⟩
end

theorem hard_notRule {t : Term} (h : t.hard = true) (r : Str) : t.uncut ≠ .rule r := by
  intro e
  have := hard_uncut t h
  rw [e] at this
  exact absurd this (by simp [Term.hard])

mutual
theorem uncutOK_of : (t : Term) → t.wf = true → t.Deep Term.PlainCut → t.Deep UncutOK
  | .rule _, _, _ => trivial
  | .s _, _, _ => trivial
  | .re _, _, _ => trivial
  | .ref _ _, _, _ => trivial
  | .ext _, _, _ => trivial
  | .seq ts, h, hd => ⟨trivial, uncutOK_list ts h hd.2⟩
  | .oneof ts, h, hd => ⟨trivial, uncutOK_list ts h hd.2⟩
  | .stack ts, h, hd => ⟨trivial, uncutOK_list ts h hd.2⟩
  | .delim t sep _ _ _, h, hd => by
    simp only [Term.wf, Bool.and_eq_true] at h
    exact ⟨trivial, uncutOK_of t h.1 hd.2.1, uncutOK_of sep h.2 hd.2.2⟩
  | .look t, h, hd => ⟨trivial, uncutOK_of t h hd.2⟩
  | .quant t _ _, h, hd => ⟨trivial, uncutOK_of t h hd.2⟩
  | .named _ t, h, hd => ⟨trivial, uncutOK_of t h hd.2⟩
  | .scope t g, h, hd => by
    simp only [Term.wf, Bool.and_eq_true] at h
    exact ⟨hd.1, uncutOK_of t h.1 hd.2.1, uncutOK_defs g h.2 hd.2.2⟩
  | .cut t, h, hd => by
    simp only [Term.wf, Bool.and_eq_true] at h
    exact ⟨⟨hd.1.1, hard_notRule h.1, hd.1.2⟩, uncutOK_of t h.2 hd.2⟩
theorem uncutOK_list : (ts : List Term) → wfList ts = true → deepList Term.PlainCut ts → deepList UncutOK ts
  | [], _, _ => trivial
  | t :: ts, h, hd => by
    simp only [wfList, Bool.and_eq_true] at h
    exact ⟨uncutOK_of t h.1 hd.1, uncutOK_list ts h.2 hd.2⟩
theorem uncutOK_defs : (g : Grammar) → wfDefs g = true → deepDefs Term.PlainCut g → deepDefs UncutOK g
  | [], _, _ => trivial
  | (_, t) :: g, h, hd => by
    simp only [wfDefs, Bool.and_eq_true] at h
    exact ⟨uncutOK_of t h.1.2 hd.1, uncutOK_defs g h.2 hd.2⟩
end

theorem StandsFor.uncut {g : Grammar} (hg : deepDefs UncutOK g) {t t'} (ht : t.Deep UncutOK) (hs : StandsFor g t t') :
    StandsFor (uncutDefs g) t.uncut t'.uncut := by
  rcases hs with ⟨rfl, hn⟩ | ⟨r, rfl, hd⟩
  · exact Or.inl ⟨rfl, notRule_uncut ht hn⟩
  · exact Or.inr ⟨r, rfl, hd.uncut hg⟩

theorem StandsFor.deepOK {g : Grammar} (hg : deepDefs UncutOK g) {t t'} (ht : t.Deep UncutOK) (hs : StandsFor g t t') : t'.Deep UncutOK := by
  rcases hs with ⟨rfl, hn⟩ | ⟨r, rfl, hd⟩
  · exact ht
  · obtain ⟨k, hk⟩ := hd.mem
    exact deepDefs_iff.1 hg k _ hk

theorem mem_uncutDefs {g : Grammar} {e} (h : e ∈ uncutDefs g) : ∃ k t, (k, t) ∈ g ∧ e = (k, t.uncut) := by
  rw [uncutDefs_eq] at h
  obtain ⟨⟨k, t⟩, h1, h2⟩ := List.mem_map.1 h
  exact ⟨k, t, h1, h2.symm⟩

theorem wrapUncut_lookup {g : Grammar} (h : g.WrapUncut) {u} (hu : lookup wrapRE g = some u) : u.uncut = u := h u (lookup_mem hu)

theorem LeafValid.uncut {w : Option Term} {l gr} (hw : ∀ u, w = some u → u.uncut = u) (h : LeafValid E w l gr) :
    LeafValid E (w.map Term.uncut) l gr := by
  cases w with
  | none => exact h
  | some w => simpa [hw w rfl] using h

theorem Compilable.uncut {w t} (hc : Compilable E w t) (hw : ∀ u, w = some u → u.uncut = u ∧ u.Deep UncutOK) (ht : t.Deep UncutOK) :
    Compilable E (w.map Term.uncut) t.uncut := by
  induction hc with
  | rule => exact .rule
  | ref => exact .ref
  | ext => exact .ext
  | lit hl => exact .lit (hl.uncut fun u hu => (hw u hu).1)
  | regexp hl => exact .regexp (hl.uncut fun u hu => (hw u hu).1)
  | seq _ ih =>
    refine .seq fun t hm => ?_
    rw [uncutList_eq] at hm
    obtain ⟨u, h1, rfl⟩ := List.mem_map.1 hm
    exact ih u h1 hw (deepList_iff.1 ht.2 _ h1)
  | oneof _ ih =>
    refine .oneof fun t hm => ?_
    rw [uncutList_eq] at hm
    obtain ⟨u, h1, rfl⟩ := List.mem_map.1 hm
    exact ih u h1 hw (deepList_iff.1 ht.2 _ h1)
  | delim _ _ ih1 ih2 => exact .delim (ih1 hw ht.2.1) (ih2 hw ht.2.2)
  | look _ ih => exact .look (ih hw ht.2)
  | quant _ ih => exact .quant (ih hw ht.2)
  | named _ ih => exact .named (ih hw ht.2)
  | cut _ ih => exact ih hw ht.2
  | @scope w t g g1 hr hs _ _ ih1 ih2 =>
    have hf : deepDefs UncutOK (inheritWrap w g1) := deep_inherit (fun u hu => (hw u hu).2) (deep_resolve layerOK_uncut ht.2.2 hr)
    have hl : lookup wrapRE (inheritWrap (w.map Term.uncut) (uncutDefs g1)) = (lookup wrapRE (inheritWrap w g1)).map Term.uncut := by
      rw [inheritWrap_uncut, lookup_uncut]
    have hlw : ∀ u, lookup wrapRE (inheritWrap w g1) = some u → u.uncut = u ∧ u.Deep UncutOK := by
      intro u hu
      refine ⟨?_, deepDefs_iff.1 hf _ _ (lookup_mem hu)⟩
      rcases mem_inheritWrap (lookup_mem hu) with hm | hm
      · exact wrapUncut_resolve ht.1 hr _ hm
      · exact (hw u hm).1
    refine .scope (g1 := uncutDefs g1) (by rw [resolveStacks_uncut (noCutStack ht.2.2), hr]; rfl) ?_ ?_ ?_
    · intro e he
      rw [inheritWrap_uncut] at he ⊢
      obtain ⟨k, u, h1, rfl⟩ := mem_uncutDefs he
      obtain ⟨t', h2⟩ := hs _ h1
      exact ⟨_, h2.uncut hf (deepDefs_iff.1 hf _ _ h1)⟩
    · intro e he t' ht'
      rw [hl]
      rw [inheritWrap_uncut] at he ht'
      obtain ⟨k, u, h1, rfl⟩ := mem_uncutDefs he
      obtain ⟨t'', h2⟩ := hs _ h1
      obtain rfl := (h2.uncut hf (deepDefs_iff.1 hf _ _ h1)).det ht'
      exact ih1 _ h1 _ h2 hlw (h2.deepOK hf (deepDefs_iff.1 hf _ _ h1))
    · rw [hl]
      exact ih2 hlw ht.2.1

theorem Grammar.Compilable.uncut {g : Grammar} (hc : g.Compilable E) (hd : deepDefs UncutOK g) (hw : g.WrapUncut) :
    Grammar.Compilable E (uncutDefs g) := by
  obtain ⟨g1, h1, h2⟩ := hc
  refine ⟨uncutDefs g1, by rw [resolveStacks_uncut (noCutStack hd), h1]; rfl, fun e he => ?_⟩
  have hf1 := deep_resolve layerOK_uncut hd h1
  obtain ⟨k, u, h3, rfl⟩ := mem_uncutDefs he
  obtain ⟨t', h4, h5⟩ := h2 _ h3
  refine ⟨_, h4.uncut hf1 (deepDefs_iff.1 hf1 _ _ h3), ?_⟩
  rw [lookup_uncut]
  exact h5.uncut (fun u hu => ⟨wrapUncut_lookup (wrapUncut_resolve hw h1) hu, deepDefs_iff.1 hf1 _ _ (lookup_mem hu)⟩)
    (h4.deepOK hf1 (deepDefs_iff.1 hf1 _ _ h3))

end Wbnf

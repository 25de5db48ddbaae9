import Verif.Lemmas.Report
import Verif.Lemmas.Scope
import Verif.Lemmas.Parts

/-!
# Without quantifiers that ask for one at least, texts of errors end
-/

namespace Wbnf

mutual
/-- No quantifier of a parser asks for one at least. -/
def P.Lenient : P → Prop
  | .rule _ => True
  | .link _ => True
  | .s _ _ _ => True
  | .re _ _ _ => True
  | .seq _ _ ps => lenientParsers ps
  | .delim _ _ _ _ _ _ q => q.Lenient
  | .look _ _ q => q.Lenient
  | .quant _ _ lo _ q => lo = 0 ∧ q.Lenient
  | .oneof _ _ ps => lenientParsers ps
  | .ref _ d => ∀ t, d = some t → t.Lenient
  | .ext _ => True
  | .scope frame body => lenientFrame frame ∧ body.Lenient
  | .cut q _ => q.Lenient
def lenientParsers : List P → Prop
  | [] => True
  | p :: ps => p.Lenient ∧ lenientParsers ps
def lenientFrame : List (Str × P) → Prop
  | [] => True
  | d :: f => d.2.Lenient ∧ lenientFrame f
end

theorem lenientAll_iff : ∀ {ts : List Term}, lenientAll ts ↔ ∀ t ∈ ts, t.Lenient
  | [] => by simp [lenientAll]
  | t :: ts => by simp [lenientAll, lenientAll_iff]

theorem lenientDefs_iff : ∀ {g : Grammar}, lenientDefs g ↔ ∀ d ∈ g, d.2.Lenient
  | [] => by simp [lenientDefs]
  | t :: ts => by simp [lenientDefs, lenientDefs_iff]

theorem lenientParsers_iff : ∀ {ps : List P}, lenientParsers ps ↔ ∀ p ∈ ps, p.Lenient
  | [] => by simp [lenientParsers]
  | t :: ts => by simp [lenientParsers, lenientParsers_iff]

theorem lenientFrame_iff : ∀ {f : Frame}, lenientFrame f ↔ ∀ d ∈ f, d.2.Lenient
  | [] => by simp [lenientFrame]
  | t :: ts => by simp [lenientFrame, lenientFrame_iff]

/-! ## Compiling -/

mutual
theorem resolve_lenient {old new : Str} : ∀ {t u : Term}, t.Lenient → t.resolve old new = some u → u.Lenient
  | .rule _, u, _, h => by simp only [Term.resolve, Option.some.injEq] at h; subst h; trivial
  | .s _, u, _, h => by simp only [Term.resolve, Option.some.injEq] at h; subst h; trivial
  | .re _, u, _, h => by simp only [Term.resolve, Option.some.injEq] at h; subst h; trivial
  | .ext _, u, _, h => by simp only [Term.resolve, Option.some.injEq] at h; subst h; trivial
  | .ref _ _, u, ht, h => by simp only [Term.resolve, Option.some.injEq] at h; subst h; exact ht
  | .seq ts, u, ht, h => by
    simp only [Term.resolve, Option.map_eq_some_iff] at h
    obtain ⟨us, h, rfl⟩ := h
    exact resolveList_lenient (ts := ts) ht h
  | .oneof ts, u, ht, h => by
    simp only [Term.resolve, Option.map_eq_some_iff] at h
    obtain ⟨us, h, rfl⟩ := h
    exact resolveList_lenient (ts := ts) ht h
  | .stack _, u, _, h => by simp [Term.resolve] at h
  | .scope _ _, u, _, h => by simp [Term.resolve] at h
  | .delim t sep a cs ce, u, ht, h => by
    simp only [Term.resolve] at h
    cases h1 : t.resolve old new with
    | none => simp [h1] at h
    | some t' =>
      cases h2 : sep.resolve old new with
      | none => simp [h1, h2] at h
      | some sep' =>
        simp only [h1, h2, Option.some.injEq] at h
        subst h
        exact ⟨resolve_lenient ht.1 h1, resolve_lenient ht.2 h2⟩
  | .look t, u, ht, h => by
    simp only [Term.resolve, Option.map_eq_some_iff] at h
    obtain ⟨us, h, rfl⟩ := h
    exact show us.Lenient from resolve_lenient (t := t) ht h
  | .quant t lo hi, u, ht, h => by
    simp only [Term.resolve, Option.map_eq_some_iff] at h
    obtain ⟨us, h, rfl⟩ := h
    exact ⟨ht.1, resolve_lenient (t := t) ht.2 h⟩
  | .named n t, u, ht, h => by
    simp only [Term.resolve, Option.map_eq_some_iff] at h
    obtain ⟨us, h, rfl⟩ := h
    exact show us.Lenient from resolve_lenient (t := t) ht h
  | .cut t, u, ht, h => resolve_lenient (t := t) ht (by simpa [Term.resolve] using h)
theorem resolveList_lenient {old new : Str} : ∀ {ts us : List Term}, lenientAll ts → resolveList old new ts = some us → lenientAll us
  | [], us, _, h => by simp only [resolveList, Option.some.injEq] at h; subst h; trivial
  | t :: ts, us, ht, h => by
    rw [resolveList] at h
    cases h1 : t.resolve old new with
    | none => simp [h1] at h
    | some t' =>
      cases h2 : resolveList old new ts with
      | none => simp [h1, h2] at h
      | some ts' =>
        simp only [h1, h2, Option.some.injEq] at h
        subst h
        exact ⟨resolve_lenient ht.1 h1, resolveList_lenient ht.2 h2⟩
end

theorem mapSet_lenient {k : Str} {t : Term} {g : Grammar} (ht : t.Lenient) (hg : lenientDefs g) : lenientDefs (mapSet k t g) := by
  rw [lenientDefs_iff] at hg ⊢
  intro d hd
  rcases mem_mapSet hd with rfl | hd
  · exact ht
  · exact hg d hd

theorem resolveLayers_lenient {rule : Str} {n : Nat} : ∀ {ls : List Term} {i : Nat} {o : Str} {g g' : Grammar}, lenientAll ls → lenientDefs g →
    resolveLayers rule n i o ls g = some g' → lenientDefs g'
  | [], _, _, _, _, _, hg, h => by simp only [resolveLayers, Option.some.injEq] at h; subst h; exact hg
  | l :: ls, i, o, g, g', hl, hg, h => by
    simp only [resolveLayers] at h
    split at h
    · cases h
    · next t ht => exact resolveLayers_lenient hl.2 (mapSet_lenient (resolve_lenient hl.1 ht) hg) h

theorem resolveStacksLoop_lenient : ∀ {es : List (Str × Term)} {g g' : Grammar}, lenientDefs es → lenientDefs g → resolveStacksLoop es g = some g' → lenientDefs g'
  | [], _, _, _, hg, h => by simp only [resolveStacksLoop, Option.some.injEq] at h; subst h; exact hg
  | (r, t) :: es, g, g', he, hg, h => by
    rw [resolveStacksLoop.eq_def] at h
    split at h
    · next h0 => cases h0
    · next h0 =>
      cases h0
      split at h
      · cases h
      · next g1 h1 => exact resolveStacksLoop_lenient he.2 (resolveLayers_lenient (show lenientAll _ from he.1) hg h1) h
    · next h0 => cases h0; exact resolveStacksLoop_lenient he.2 hg h

theorem resolveStacks_lenient {g g' : Grammar} (hg : lenientDefs g) (h : g.resolveStacks = some g') : lenientDefs g' := by
  unfold Grammar.resolveStacks at h
  split at h
  · exact resolveStacksLoop_lenient hg hg h
  · cases h; exact hg

theorem prepare_lenient {g g' : Grammar} (hg : lenientDefs g) (h : prepare g = .ok g') : lenientDefs g' := by
  unfold prepare at h
  split at h
  · cases h
  · next h1 => cases h; exact resolveStacks_lenient hg h1

theorem bind_is {α β : Type} {x : Except Stop α} {f : α → Except Stop β} {y : β} (h : x.bind f = .ok y) : ∃ a, x = .ok a ∧ f a = .ok y := by
  cases x with
  | error => cases h
  | ok a => exact ⟨a, rfl, h⟩

theorem register_lenient {c : Cache} {p q : P} (hp : p.Lenient) (h : c.register p = .ok q) : q.Lenient := by
  unfold Cache.register at h
  split at h
  · split at h
    · cases h
    · cases h; trivial
  · cases h; exact hp

theorem makeParsers_lenient {c : Cache} {comp : Term → Except Stop P} (hc : ∀ t p, t.Lenient → comp t = .ok p → p.Lenient) :
    ∀ {ts : List Term} {ps : List P}, lenientAll ts → makeParsers c comp ts = .ok ps → lenientParsers ps
  | [], _, _, h => by cases h; trivial
  | t :: ts, ps, ht, h => by
    rw [makeParsers] at h
    obtain ⟨p, h1, h⟩ := bind_is h
    obtain ⟨p', h2, h⟩ := bind_is h
    obtain ⟨ps', h3, h⟩ := bind_is h
    cases h
    exact ⟨register_lenient (hc _ _ ht.1 h1) h2, makeParsers_lenient hc ht.2 h3⟩

theorem followAlias_lenient {g : Grammar} (hg : lenientDefs g) : ∀ {n : Nat} {t u : Term}, t.Lenient → followAlias g n t = .ok u → u.Lenient
  | 0, _, _, _, h => by cases h
  | n + 1, t, u, ht, h => by
    rw [followAlias.eq_def] at h
    split at h
    · next h0 => cases h0
    · next h0 =>
      cases h0
      split at h
      · cases h
      · next t' hl => exact followAlias_lenient hg (lenientDefs_iff.1 hg _ (lookup_mem hl)) h
    · cases h; exact ht

theorem compileRules_lenient {n : Nat} {g : Grammar} {comp : Str → Term → Except Stop P} (hg : lenientDefs g)
    (hc : ∀ r t p, t.Lenient → comp r t = .ok p → p.Lenient) :
    ∀ {es : List (Str × Term)} {f : Frame}, lenientDefs es → compileRules n g comp es = .ok f → lenientFrame f
  | [], _, _, h => by cases h; trivial
  | (r, t) :: es, f, he, h => by
    rw [compileRules] at h
    obtain ⟨t', h1, h⟩ := bind_is h
    obtain ⟨p, h2, h⟩ := bind_is h
    obtain ⟨ps, h3, h⟩ := bind_is h
    cases h
    exact ⟨hc _ _ _ (followAlias_lenient hg he.1 h1) h2, compileRules_lenient hg hc he.2 h3⟩

theorem inheritWrap_lenient {w : Option Term} {g : Grammar} (hw : ∀ t, w = some t → t.Lenient) (hg : lenientDefs g) : lenientDefs (inheritWrap w g) := by
  unfold inheritWrap
  split
  · exact hg
  · split
    · exact hg
    · exact mapSet_lenient (hw _ rfl) hg

theorem cacheFor_lenient {g : Grammar} (hg : lenientDefs g) : ∀ t, (cacheFor g).wrap = some t → t.Lenient := fun _ h =>
  lenientDefs_iff.1 hg _ (lookup_mem h)

theorem scopeResult_lenient {f : Frame} {p : P} (hf : lenientFrame f) (hp : p.Lenient) : (scopeResult f p).Lenient := by
  unfold scopeResult
  split
  · split
    · trivial
    · next h => exact ⟨hf, lenientFrame_iff.1 hf _ (lookup_mem h)⟩
    · trivial
  · exact ⟨hf, hp⟩

theorem delimSeq_lenient {t sep : Term} {cs ce : Bool} (ht : t.Lenient) (hs : sep.Lenient) : lenientAll (delimSeq t sep cs ce) := by
  cases cs <;> cases ce <;> simp [delimSeq, optT, anyT, lenientAll, Term.Lenient, ht, hs]

theorem compile_lenient {E : Engine} : ∀ {n : Nat} {c : Cache} {rule : Str} {t : Term} {p : P}, (∀ w, c.wrap = some w → w.Lenient) → t.Lenient →
    compileTerm E n c rule t = .ok p → p.Lenient
  | 0, _, _, _, _, _, _, h => by cases h
  | n + 1, c, rule, t, p, hw, ht, h => by
    have ih := @compile_lenient E n
    cases t with
    | rule => cases h; trivial
    | s =>
      obtain ⟨_, _, h⟩ := bind_is (show compileS E c rule _ = .ok p from h)
      obtain ⟨_, _, h⟩ := bind_is h
      cases h; trivial
    | re =>
      obtain ⟨_, _, h⟩ := bind_is (show compileRE E c rule _ = .ok p from h)
      obtain ⟨_, _, h⟩ := bind_is h
      cases h; trivial
    | ref i d =>
      cases h
      intro u e
      subst e
      exact ht
    | ext => cases h; trivial
    | seq ts =>
      rw [compileTerm] at h
      obtain ⟨ps, h1, h⟩ := bind_is h
      cases h
      exact makeParsers_lenient (fun _ _ => ih hw) ht h1
    | oneof ts =>
      rw [compileTerm] at h
      obtain ⟨ps, h1, h⟩ := bind_is h
      cases h
      exact makeParsers_lenient (fun _ _ => ih hw) ht h1
    | stack => cases h
    | delim term sep a cs ce =>
      rw [compileTerm] at h
      obtain ⟨q, h1, h⟩ := bind_is h
      obtain ⟨q', h2, h⟩ := bind_is h
      cases h
      exact show q'.Lenient from register_lenient (ih hw (show (Term.seq _).Lenient from delimSeq_lenient ht.1 ht.2) h1) h2
    | look t =>
      rw [compileTerm] at h
      obtain ⟨q, h1, h⟩ := bind_is h
      obtain ⟨q', h2, h⟩ := bind_is h
      cases h
      exact show q'.Lenient from register_lenient (ih hw (show t.Lenient from ht) h1) h2
    | quant t lo hi =>
      rw [compileTerm] at h
      obtain ⟨q, h1, h⟩ := bind_is h
      obtain ⟨q', h2, h⟩ := bind_is h
      cases h
      exact ⟨ht.1, register_lenient (ih hw ht.2 h1) h2⟩
    | named name t => exact ih hw (show t.Lenient from ht) h
    | scope t g =>
      rw [compileTerm] at h
      obtain ⟨g1, h1, h⟩ := bind_is h
      obtain ⟨f, h2, h⟩ := bind_is h
      obtain ⟨q, h3, h⟩ := bind_is h
      cases h
      have hg := inheritWrap_lenient hw (prepare_lenient ht.2 h1)
      exact scopeResult_lenient (compileRules_lenient hg (fun _ _ _ => ih (cacheFor_lenient hg)) hg h2) (ih (cacheFor_lenient hg) ht.1 h3)
    | cut t =>
      rw [compileTerm] at h
      obtain ⟨q, h1, h⟩ := bind_is h
      cases h
      exact show q.Lenient from ih hw (show t.Lenient from ht) h1

theorem grammar_lenient {E : Engine} {n : Nat} {g : Grammar} {ps : Parsers} (hg : lenientDefs g) (h : g.compile E n = .ok ps) : lenientFrame ps.parsers := by
  unfold Grammar.compile at h
  obtain ⟨g1, h1, h⟩ := bind_is h
  obtain ⟨f, h2, h⟩ := bind_is h
  cases h
  have hg1 := prepare_lenient hg h1
  exact compileRules_lenient hg1 (fun _ _ _ => compile_lenient (cacheFor_lenient hg1)) hg1 h2

/-! ## Parsing -/

theorem ends_notes {rule msg : Str} {cs : List Cause} (h : ∀ c ∈ cs, ∃ n, c = .note n) : ¬ Endless (.error rule msg cs) := by
  rintro (⟨hm⟩ | ⟨hm, -⟩)
  · obtain ⟨n, e⟩ := h _ hm; cases e
  · obtain ⟨n, e⟩ := h _ hm; cases e

theorem ends_other {e : Err} : ¬ Endless (.other e) := by rintro ⟨⟩

/-- The report, if there is one, ends. -/
def ReportEnds (o : Option Report) : Prop := ∀ r, o = some r → ¬ Endless r

theorem ends_none : ReportEnds none := fun _ h => by cases h

mutual
theorem settle_endless {last : Scanner} : ∀ {r : Report}, Endless (r.settle last) → Endless r
  | .error rule msg cs, h => by
    rw [Report.settle] at h
    have h' := settleAll_endless (last := last) (cs := cs)
    cases h with
    | here h => exact (h' (.inl h)).elim .here fun ⟨_, hm, hq⟩ => .cause hm hq
    | cause hm hq => exact (h' (.inr ⟨_, hm, hq⟩)).elim .here fun ⟨_, hm, hq⟩ => .cause hm hq
  | .other _, h => by rw [Report.settle] at h; cases h
theorem settleAll_endless {last : Scanner} : ∀ {cs : List Cause}, (Cause.itself ∈ settleAll last cs ∨ ∃ q, .report q ∈ settleAll last cs ∧ Endless q) →
    Cause.itself ∈ cs ∨ ∃ q, .report q ∈ cs ∧ Endless q
  | [], h => by simp [settleAll] at h
  | .itself :: cs, _ => .inl (by simp)
  | .note n :: cs, h => by
    simp only [settleAll, Cause.settle, List.mem_cons, reduceCtorEq, false_or] at h
    rcases settleAll_endless h with h | ⟨q, h, hq⟩
    · exact .inl (by simp [h])
    · exact .inr ⟨q, by simp [h], hq⟩
  | .report r :: cs, h => by
    simp only [settleAll, Cause.settle, List.mem_cons, reduceCtorEq, false_or] at h
    rcases h with h | ⟨q, h | h, hq⟩
    · rcases settleAll_endless (.inl h) with h | ⟨q, h, hq⟩
      · exact .inl (by simp [h])
      · exact .inr ⟨q, by simp [h], hq⟩
    · cases h
      exact .inr ⟨r, by simp, settle_endless hq⟩
    · rcases settleAll_endless (.inr ⟨q, h, hq⟩) with h | ⟨q, h, hq⟩
      · exact .inl (by simp [h])
      · exact .inr ⟨q, by simp [h], hq⟩
end

theorem mem_settleAll {last : Scanner} {c : Cause} : ∀ {cs : List Cause}, c ∈ cs → c.settle last ∈ settleAll last cs
  | c' :: cs, h => by
    rw [settleAll]
    rcases List.mem_cons.1 h with rfl | h
    · simp
    · exact List.mem_cons_of_mem _ (mem_settleAll h)

theorem Endless.settle {last : Scanner} {r : Report} (h : Endless r) : Endless (r.settle last) := by
  induction h with
  | here h => rw [Report.settle]; exact .here (by simpa [Cause.settle] using mem_settleAll (last := last) h)
  | cause h _ ih => rw [Report.settle]; exact .cause (by simpa [Cause.settle] using mem_settleAll (last := last) h) ih

theorem LedTo.settle {last : Scanner} {q r : Report} (h : LedTo q r) : LedTo (q.settle last) (r.settle last) := by
  induction h with
  | same => exact .same
  | cause h _ ih => rw [Report.settle]; exact .cause (by simpa [Cause.settle] using mem_settleAll (last := last) h) ih

theorem ReportEnds.map {o : Option Report} {last : Scanner} (h : ReportEnds o) : ReportEnds (o.map (·.settle last)) := by
  intro r e he
  obtain ⟨x, hx, rfl⟩ := Option.map_eq_some_iff.1 e
  exact h x hx (settle_endless he)

theorem settled_ends {res : Res Tree} {o : Option Report} (h : ReportEnds o) : ReportEnds (settled res o) := by
  unfold settled
  split
  · exact h.map
  · exact ends_none

theorem escapingReport_ends {E : Engine} {X : Externals} {ident : Str} {t : Term} {sc : Scope} {inp : Scanner} {o : Option Report} (h : ReportEnds o) :
    ReportEnds (escapingReport E X ident t sc inp o) := by
  unfold escapingReport
  split
  · exact h
  · intro r e; cases e; exact ends_other
  · exact ends_none

theorem leafReport_ends {find : Str → Option (List (Int × Int))} {rule : Str} {t : Term} {inp : Scanner} : ReportEnds (leafReport find rule t inp) := by
  unfold leafReport
  split
  · intro r e; cases e
    exact ends_notes (by simp)
  · exact ends_none

theorem seqReport_ends {ρ : Nat → Nat} {run : P → Scope → Scanner → Nat → Res Tree} {rep : P → Scope → Scanner → Nat → Option Report} {isCut : P → Bool}
    {rule : Str} : ∀ {ps : List (Str × P)} {sc : Scope} {inp : Scanner} {k : Nat}, (∀ q ∈ ps, ∀ sc inp k, ReportEnds (rep q.2 sc inp k)) →
    ReportEnds (seqReport ρ run rep isCut rule ps sc inp k)
  | [], _, _, _, _ => ends_none
  | (ident, p) :: ps, sc, inp, k, h => by
    rw [seqReport]
    have hp := h (ident, p) (by simp) sc inp k
    split
    · split
      · exact hp
      · intro r e
        rw [Option.map_eq_some_iff] at e
        obtain ⟨x, hx, rfl⟩ := e
        rintro (⟨hm⟩ | ⟨hm, he⟩)
        · simp at hm
        · simp only [List.mem_cons, Cause.report.injEq, reduceCtorEq, List.not_mem_nil, or_false] at hm
          subst hm
          exact hp _ hx he
    · exact seqReport_ends fun q hq => h q (by simp [hq])
    · exact ends_none

theorem quantStop_ends {run : Scanner → Nat → Res Tree} {rep : Scanner → Nat → Option Report} {max : Nat} {mycp : Option Nat}
    (h : ∀ inp k, ReportEnds (rep inp k)) : ∀ {n cnt : Nat} {inp : Scanner} {k : Nat}, ReportEnds (quantStop run rep max mycp n cnt inp k)
  | 0, _, _, _ => ends_none
  | n + 1, cnt, inp, k => by
    rw [quantStop]
    split
    · split
      · split
        · exact (h _ _).map
        · exact ends_none
      · exact quantStop_ends h
      · exact ends_none
    · exact ends_none

theorem oneofReport_ends {run : P → Scanner → Nat → Res Tree} {rep : P → Scanner → Nat → Option Report} {rule : Str} {mycp : Option Nat} {inp : Scanner} :
    ∀ {ps : List P} {cs : List Cause} {k : Nat}, (∀ q ∈ ps, ∀ inp k, ReportEnds (rep q inp k)) → (∀ c ∈ cs, ∃ r, c = .report r ∧ ¬ Endless r) →
    ReportEnds (oneofReport run rep rule mycp inp ps cs k)
  | [], cs, _, _, hc => by
    intro r e
    cases e
    rintro (⟨hm⟩ | ⟨hm, he⟩)
    · simp only [List.mem_append, List.mem_singleton, reduceCtorEq, or_false] at hm
      obtain ⟨r, e, _⟩ := hc _ hm; cases e
    · simp only [List.mem_append, List.mem_singleton, reduceCtorEq, or_false] at hm
      obtain ⟨r, e, h⟩ := hc _ hm; cases e
      exact h he
  | p :: ps, cs, k, h, hc => by
    rw [oneofReport]
    have hp := h p (by simp) inp k
    split
    · split
      · exact hp.map
      · intro r e
        rw [Option.bind_eq_some_iff] at e
        obtain ⟨x, hx, e⟩ := e
        refine oneofReport_ends (fun q hq => h q (by simp [hq])) (fun c hm => ?_) r e
        rcases List.mem_append.1 hm with hm | hm
        · exact hc c hm
        · exact ⟨x.settle _, by simpa using hm, fun h => hp x hx (settle_endless h)⟩
    · exact ends_none

mutual
theorem refVal_lenient : ∀ {v : Tree} {t : Term}, termFromRefVal v = some t → t.Lenient
  | .node _ _ cs, t, h => by
    simp only [termFromRefVal, Option.map_eq_some_iff] at h
    obtain ⟨ts, h, rfl⟩ := h
    exact refVals_lenient (vs := cs) h
  | .leaf s, t, h => by
    simp only [termFromRefVal, Option.map_eq_some_iff] at h
    obtain ⟨x, h, rfl⟩ := h
    trivial
  | .empty, _, h => by simp [termFromRefVal] at h
  | .foreign _, _, h => by simp [termFromRefVal] at h
theorem refVals_lenient : ∀ {vs : List Tree} {ts : List Term}, termsFromRefVals vs = some ts → lenientAll ts
  | [], ts, h => by simp only [termsFromRefVals, Option.some.injEq] at h; subst h; trivial
  | v :: vs, ts, h => by
    rw [termsFromRefVals] at h
    cases h1 : termFromRefVal v with
    | none => simp [h1] at h
    | some t' =>
      cases h2 : termsFromRefVals vs with
      | none => simp [h1, h2] at h
      | some ts' =>
        simp only [h1, h2, Option.some.injEq] at h
        subst h
        exact ⟨refVal_lenient h1, refVals_lenient h2⟩
end

theorem lookupEnv_lenient {r : Str} : ∀ {env : List Frame} {q : P × List Frame}, (∀ f ∈ env, lenientFrame f) → lookupEnv r env = some q →
    q.1.Lenient ∧ ∀ f ∈ q.2, lenientFrame f
  | [], _, _, h => by cases h
  | f :: env, q, hf, h => by
    rw [lookupEnv] at h
    split at h
    · next p hl => cases h; exact ⟨lenientFrame_iff.1 (hf f (by simp)) _ (lookup_mem hl), hf⟩
    · exact lookupEnv_lenient (fun g hg => hf g (by simp [hg])) h

theorem report_ends {E : Engine} {X : Externals} {ρ : Nat → Nat} : ∀ {n : Nat} {env : List Frame} {p : P} {sc : Scope} {inp : Scanner} {k : Nat},
    (∀ f ∈ env, lenientFrame f) → p.Lenient → ReportEnds (report E X ρ n env p sc inp k)
  | 0, _, _, _, _, _, _, _ => ends_none
  | n + 1, env, p, sc, inp, k, he, hp => by
    have ih := @report_ends E X ρ n
    cases p with
    | rule => exact ends_none
    | link r =>
      simp only [report]
      split
      · exact ends_none
      · next q hl => obtain ⟨h1, h2⟩ := lookupEnv_lenient he hl; exact ih h2 h1
    | s => exact escapingReport_ends leafReport_ends
    | re => exact escapingReport_ends leafReport_ends
    | seq rule ts ps =>
      refine escapingReport_ends (seqReport_ends fun q hq sc inp k => ih he ?_)
      exact lenientParsers_iff.1 hp _ (List.of_mem_zip (a := q.1) (b := q.2) hq).2
    | delim _ _ _ _ _ _ q => exact escapingReport_ends (ih he (show q.Lenient from hp))
    | look _ _ q => exact escapingReport_ends (settled_ends (ih he (show q.Lenient from hp)))
    | quant rule t lo hi q =>
      refine escapingReport_ends ?_
      simp only
      split
      · next vs _ _ _ =>
        rw [if_pos (by rw [hp.1]; exact Nat.zero_le _)]
        exact ends_none
      · exact quantStop_ends fun _ _ => ih he hp.2
    | oneof rule ts ps =>
      exact escapingReport_ends (oneofReport_ends (fun q hq _ _ => ih he (lenientParsers_iff.1 hp _ hq)) fun _ h => by cases h)
    | ref ident dflt =>
      refine escapingReport_ends ?_
      split
      · next expected _ =>
        unfold refReport
        split
        · exact ends_none
        · next term ht =>
          split
          · exact ends_none
          · next q hq =>
            split
            · exact ih (fun _ h => by cases h) (compile_lenient (fun _ h => by cases h) (refVal_lenient ht) hq)
            · split
              · intro r e; cases e; exact ends_notes (by simp)
              · exact ends_none
            · exact ends_none
      · unfold defaultReport
        split
        · next t =>
          split
          · next q hq => exact ih (fun _ h => by cases h) (compile_lenient (fun _ h => by cases h) (hp t rfl) hq)
          · exact ends_none
        · intro r e; cases e; exact ends_notes (by simp)
    | ext name =>
      refine escapingReport_ends ?_
      split
      · intro r e; cases e; exact ends_notes (by simp)
      · intro r e
        rw [Option.map_eq_some_iff] at e
        obtain ⟨_, _, rfl⟩ := e
        exact ends_other
    | scope frame body =>
      refine ih (fun f hf => ?_) hp.2
      rcases List.mem_cons.1 hf with rfl | hf
      · exact hp.1
      · exact he f hf
    | cut q t => exact ih he (show q.Lenient from hp)

theorem quantLoop_stops {run : Scanner → Nat → Res Tree} {max : Nat} {cp : Option Nat} {e : Err} : ∀ {n cnt : Nat} {inp i : Scanner} {k k' : Nat},
    quantLoop run max cp n cnt inp k = .err e i k' → e.isNotMyFatal cp = true
  | 0, _, _, _, _, _, h => by cases h
  | n + 1, cnt, inp, i, k, k', h => by
    rw [quantLoop] at h
    split at h
    · cases hr : run inp k with
      | panic => simp [hr] at h
      | oof => simp [hr] at h
      | err e' i' k'' =>
        simp only [hr] at h
        split at h
        · next he => cases h; exact he
        · cases h
      | ok v i' k'' =>
        simp only [hr] at h
        cases hq : quantLoop run max cp n (cnt + 1) i' k'' with
        | ok => simp [hq, Res.bind] at h
        | panic => simp [hq, Res.bind] at h
        | oof => simp [hq, Res.bind] at h
        | err e' j k3 =>
          simp only [hq, Res.bind] at h
          cases h
          exact quantLoop_stops hq
    · cases h

mutual
/-- Whether an error is a cause of itself, to be computed. -/
def endlessB : Report → Bool
  | .error _ _ cs => endlessCauses cs
  | .other _ => false
/-- The same of causes. -/
def endlessCauses : List Cause → Bool
  | [] => false
  | c :: cs => endlessCause c || endlessCauses cs
/-- The same of one. -/
def endlessCause : Cause → Bool
  | .report r => endlessB r
  | .itself => true
  | .note _ => false
end

mutual
theorem endlessB_sound : ∀ {r : Report}, endlessB r = true → Endless r
  | .error _ _ cs, h => by
    rw [endlessB] at h
    rcases endlessCauses_sound h with h | ⟨q, h, hq⟩
    · exact .here h
    · exact .cause h hq
  | .other _, h => by cases h
theorem endlessCauses_sound : ∀ {cs : List Cause}, endlessCauses cs = true → .itself ∈ cs ∨ ∃ q, .report q ∈ cs ∧ Endless q
  | [], h => by cases h
  | .report r :: cs, h => by
    rw [endlessCauses, endlessCause, Bool.or_eq_true] at h
    rcases h with h | h
    · exact .inr ⟨r, by simp, endlessB_sound h⟩
    · rcases endlessCauses_sound h with h | ⟨q, h, hq⟩
      · exact .inl (by simp [h])
      · exact .inr ⟨q, by simp [h], hq⟩
  | .itself :: cs, _ => .inl (by simp)
  | .note _ :: cs, h => by
    rw [endlessCauses, endlessCause, Bool.false_or] at h
    rcases endlessCauses_sound h with h | ⟨q, h, hq⟩
    · exact .inl (by simp [h])
    · exact .inr ⟨q, by simp [h], hq⟩
end

theorem LedTo.tells {S : Says} {q r : Report} {x : Str} (h : LedTo q r) (hx : Tells S q x) : Tells S r x := by
  induction h with
  | same => exact hx
  | cause h _ ih => exact .cause h ih

theorem Err.fatal_of {e : Err} {cp : Option Nat} (h : e.isNotMyFatal cp = true) : e.isFatal = true := by
  cases e <;> simp_all [Err.isNotMyFatal, Err.isFatal]

theorem seqReport_because {ρ : Nat → Nat} {run : P → Scope → Scanner → Nat → Res Tree} {rep : P → Scope → Scanner → Nat → Option Report} {isCut : P → Bool}
    {rule : Str} {r : Report} : ∀ {ps : List (Str × P)} {sc : Scope} {inp : Scanner} {k : Nat}, seqReport ρ run rep isCut rule ps sc inp k = some r →
    ∃ it ∈ ps, ∃ sc' inp' k' e i j q, run it.2 sc' inp' k' = .err e i j ∧ rep it.2 sc' inp' k' = some q ∧
      (e.isFatal = true ∧ r = q ∨ ∃ cs, r = .error rule (str "could not complete sequence") cs ∧ .report q ∈ cs)
  | [], _, _, _, h => by cases h
  | (ident, p) :: ps, sc, inp, k, h => by
    rw [seqReport] at h
    cases hr : run p sc inp k with
    | panic => simp [hr] at h
    | oof => simp [hr] at h
    | err e i k' =>
      simp only [hr] at h
      split at h
      · next he => exact ⟨_, List.mem_cons_self .., sc, inp, k, e, i, k', r, hr, h, .inl ⟨he, rfl⟩⟩
      · obtain ⟨q, hq, rfl⟩ := Option.map_eq_some_iff.1 h
        exact ⟨_, List.mem_cons_self .., sc, inp, k, e, i, k', q, hr, hq, .inr ⟨_, rfl, by simp⟩⟩
    | ok v i k' =>
      simp only [hr] at h
      obtain ⟨it, hm, h⟩ := seqReport_because h
      exact ⟨it, List.mem_cons_of_mem _ hm, h⟩

theorem oneofReport_because {run : P → Scanner → Nat → Res Tree} {rep : P → Scanner → Nat → Option Report} {rule : Str} {mycp : Option Nat} {inp : Scanner}
    {r : Report} : ∀ {ps : List P} {cs : List Cause} {k : Nat}, oneofReport run rep rule mycp inp ps cs k = some r →
    (∃ p ∈ ps, ∃ k' e i j q, run p inp k' = .err e i j ∧ e.isFatal = true ∧ rep p inp k' = some q ∧ r = q.settle i) ∨
    ∃ cs', r = .error rule (str "None of the available options could be satisfied") cs' ∧ (∀ c ∈ cs, c ∈ cs') ∧
      ∀ p ∈ ps, ∃ k' e i j q, run p inp k' = .err e i j ∧ rep p inp k' = some q ∧ .report (q.settle i) ∈ cs'
  | [], cs, k, h => by
    rw [oneofReport] at h
    cases h
    exact .inr ⟨_, rfl, fun c hc => by simp [hc], by simp⟩
  | p :: ps, cs, k, h => by
    rw [oneofReport] at h
    cases hr : run p inp k with
    | panic => simp [hr] at h
    | oof => simp [hr] at h
    | ok v i k' => simp [hr] at h
    | err e i k' =>
      simp only [hr] at h
      split at h
      · next he =>
        obtain ⟨q, hq, rfl⟩ := Option.map_eq_some_iff.1 h
        exact .inl ⟨p, by simp, k, e, i, k', q, hr, Err.fatal_of he, hq, rfl⟩
      · obtain ⟨q, hq, h⟩ := Option.bind_eq_some_iff.1 h
        rcases oneofReport_because h with ⟨p', hm, h⟩ | ⟨cs', rfl, hc, ha⟩
        · exact .inl ⟨p', by simp [hm], h⟩
        · refine .inr ⟨cs', rfl, fun c h => hc c (by simp [h]), fun p' hm => ?_⟩
          rcases List.mem_cons.1 hm with rfl | hm
          · exact ⟨k, e, i, k', q, hr, hq, hc _ (by simp)⟩
          · exact ha p' hm

mutual
/-- All notes of an error, to be computed. -/
def notesOf : Report → List Note
  | .error _ _ cs => notesOfAll cs
  | .other _ => []
/-- The same of causes. -/
def notesOfAll : List Cause → List Note
  | [] => []
  | c :: cs => notesOfCause c ++ notesOfAll cs
/-- The same of one. -/
def notesOfCause : Cause → List Note
  | .report r => notesOf r
  | .itself => []
  | .note n => [n]
end

theorem notesOfCause_sub {c : Cause} : ∀ {cs : List Cause}, c ∈ cs → ∀ n ∈ notesOfCause c, n ∈ notesOfAll cs
  | c' :: cs, h, n, hn => by
    rw [notesOfAll, List.mem_append]
    rcases List.mem_cons.1 h with rfl | h
    · exact .inl hn
    · exact .inr (notesOfCause_sub h n hn)

theorem HasNote.mem {n : Note} {r : Report} (h : HasNote n r) : n ∈ notesOf r := by
  induction h with
  | here h => exact notesOfCause_sub h _ (by simp [notesOfCause])
  | cause h _ ih => exact notesOfCause_sub h _ (by simpa [notesOfCause] using ih)

mutual
theorem noted_of_mem {n : Note} : ∀ {r : Report}, n ∈ notesOf r → HasNote n r
  | .error _ _ cs, h => by
    rw [notesOf] at h
    rcases noted_of_memAll h with h | ⟨q, h, hq⟩
    · exact .here h
    · exact .cause h hq
  | .other _, h => by simp [notesOf] at h
theorem noted_of_memAll {n : Note} : ∀ {cs : List Cause}, n ∈ notesOfAll cs → .note n ∈ cs ∨ ∃ q, .report q ∈ cs ∧ HasNote n q
  | [], h => by simp [notesOfAll] at h
  | .report r :: cs, h => by
    rw [notesOfAll, notesOfCause, List.mem_append] at h
    rcases h with h | h
    · exact .inr ⟨r, by simp, noted_of_mem h⟩
    · rcases noted_of_memAll h with h | ⟨q, h, hq⟩
      · exact .inl (by simp [h])
      · exact .inr ⟨q, by simp [h], hq⟩
  | .itself :: cs, h => by
    rw [notesOfAll, notesOfCause, List.nil_append] at h
    rcases noted_of_memAll h with h | ⟨q, h, hq⟩
    · exact .inl (by simp [h])
    · exact .inr ⟨q, by simp [h], hq⟩
  | .note m :: cs, h => by
    rw [notesOfAll, notesOfCause, List.singleton_append, List.mem_cons] at h
    rcases h with rfl | h
    · exact .inl (by simp)
    · rcases noted_of_memAll h with h | ⟨q, h, hq⟩
      · exact .inl (by simp [h])
      · exact .inr ⟨q, by simp [h], hq⟩
end

theorem HasNote.tells {S : Says} {n : Note} {r : Report} (h : HasNote n r) : Tells S r (S.note n) := by
  induction h with
  | here h => exact .note h
  | cause h _ ih => exact .cause h ih

theorem LedTo.noted {n : Note} {q r : Report} (h : LedTo q r) (hx : HasNote n q) : HasNote n r := by
  induction h with
  | same => exact hx
  | cause h _ ih => exact .cause h ih

end Wbnf

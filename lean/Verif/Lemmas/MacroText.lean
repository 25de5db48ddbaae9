import Verif.Lemmas.Macro

/-!
# A macro call is a substitution in the source
-/

namespace Wbnf

/-! ## Substituting what does not occur -/

section
variable {σ : Str → Option TermN}

mutual
theorem TermN.subst_id : (t : TermN) → (∀ i ∈ t.idents, σ i = none) → t.subst σ = t
  | .many op gs ts, h => by
    rw [TermN.subst, substGrammars_id gs fun i hi => h i (by simp [TermN.idents, hi]),
      substTerms_id ts fun i hi => h i (by simp [TermN.idents, hi])]
  | .one n qs, h => by
    rw [TermN.subst, NamedN.subst_id n fun i hi => h i (by simp [TermN.idents, hi]),
      substQuants_id qs fun i hi => h i (by simp [TermN.idents, hi])]
theorem NamedN.subst_id : (n : NamedN) → (∀ i ∈ n.idents, σ i = none) → n.subst σ = n
  | .mk i a, h => by rw [NamedN.subst, AtomN.subst_id a h]
theorem AtomN.subst_id : (a : AtomN) → (∀ i ∈ a.idents, σ i = none) → a.subst σ = a
  | .ident i, h => by rw [AtomN.subst, h i (by simp [AtomN.idents])]
  | .str _, _ => rfl
  | .re _, _ => rfl
  | .macrocall _ ts, h => by rw [AtomN.subst, substTerms_id ts h]
  | .ext _, _ => rfl
  | .ref _ _, _ => rfl
  | .look t, h => by rw [AtomN.subst, TermN.subst_id t h]
  | .term t, h => by rw [AtomN.subst, TermN.subst_id t h]
  | .unit, _ => rfl
theorem QuantN.subst_id : (q : QuantN) → (∀ i ∈ q.idents, σ i = none) → q.subst σ = q
  | .op _, _ => rfl
  | .range _ _, _ => rfl
  | .sep _ _ _ n, h => by rw [QuantN.subst, NamedN.subst_id n h]
theorem StmtN.subst_id : (s : StmtN) → (∀ i ∈ s.idents, σ i = none) → s.subst σ = s
  | .comment _, _ => rfl
  | .prod _ ts, h => by rw [StmtN.subst, substTerms_id ts h]
  | .imp _, _ => rfl
  | .macrodef _ _ _, _ => rfl
theorem GrammarN.subst_id : (g : GrammarN) → (∀ i ∈ g.idents, σ i = none) → g.subst σ = g
  | .mk ss, h => by rw [GrammarN.subst, substStmts_id ss h]
theorem substTerms_id : (ts : List TermN) → (∀ i ∈ identsTerms ts, σ i = none) → substTerms σ ts = ts
  | [], _ => rfl
  | t :: ts, h => by
    rw [substTerms, TermN.subst_id t fun i hi => h i (by simp [identsTerms, hi]),
      substTerms_id ts fun i hi => h i (by simp [identsTerms, hi])]
theorem substQuants_id : (qs : List QuantN) → (∀ i ∈ identsQuants qs, σ i = none) → substQuants σ qs = qs
  | [], _ => rfl
  | q :: qs, h => by
    rw [substQuants, QuantN.subst_id q fun i hi => h i (by simp [identsQuants, hi]),
      substQuants_id qs fun i hi => h i (by simp [identsQuants, hi])]
theorem substStmts_id : (ss : List StmtN) → (∀ i ∈ identsStmts ss, σ i = none) → substStmts σ ss = ss
  | [], _ => rfl
  | s :: ss, h => by
    rw [substStmts, StmtN.subst_id s fun i hi => h i (by simp [identsStmts, hi]),
      substStmts_id ss fun i hi => h i (by simp [identsStmts, hi])]
theorem substGrammars_id : (gs : List GrammarN) → (∀ i ∈ identsGrammars gs, σ i = none) → substGrammars σ gs = gs
  | [], _ => rfl
  | g :: gs, h => by
    rw [substGrammars, GrammarN.subst_id g fun i hi => h i (by simp [identsGrammars, hi]),
      substGrammars_id gs fun i hi => h i (by simp [identsGrammars, hi])]
end

theorem substTerms_getElem (ts : List TermN) (i : Nat) : (substTerms σ ts)[i]? = ts[i]?.map (·.subst σ) := by
  induction ts generalizing i with
  | nil => simp [substTerms]
  | cons t ts ih => cases i <;> simp [substTerms, ih]

theorem substQuants_map (qs : List QuantN) : substQuants σ qs = qs.map (·.subst σ) := by
  induction qs with
  | nil => rfl
  | cons q qs ih => simp [substQuants, ih]

end

/-! ## The rules of a term that was built -/

mutual
theorem expand_rules {f : Str → Except Stop Term} {r : Str} : (t : Term) → {u : Term} → t.expand f = .ok u → r ∈ u.openRules →
    ∃ r' ∈ t.openRules, ∃ v, f r' = .ok v ∧ r ∈ v.openRules
  | .seq ts, u, h, hr => by
    simp only [Term.expand, ebind_ok, Except.ok.injEq] at h
    obtain ⟨us, h1, rfl⟩ := h
    exact expandList_rules ts h1 hr
  | .stack ts, u, h, hr => by
    simp only [Term.expand, ebind_ok, Except.ok.injEq] at h
    obtain ⟨us, h1, rfl⟩ := h
    exact expandList_rules ts h1 hr
  | .oneof ts, u, h, hr => by
    simp only [Term.expand, ebind_ok, Except.ok.injEq] at h
    obtain ⟨us, h1, rfl⟩ := h
    exact expandList_rules ts h1 hr
  | .delim t sep a cs ce, u, h, hr => by
    simp only [Term.expand, ebind_ok, Except.ok.injEq] at h
    obtain ⟨v, h1, w, h2, rfl⟩ := h
    simp only [Term.openRules, List.mem_append] at hr ⊢
    rcases hr with hr | hr
    · obtain ⟨r', h3, h4⟩ := expand_rules t h1 hr
      exact ⟨r', Or.inl h3, h4⟩
    · obtain ⟨r', h3, h4⟩ := expand_rules sep h2 hr
      exact ⟨r', Or.inr h3, h4⟩
  | .quant t _ _, u, h, hr => by
    simp only [Term.expand, ebind_ok, Except.ok.injEq] at h
    obtain ⟨v, h1, rfl⟩ := h
    exact expand_rules t h1 hr
  | .named _ t, u, h, hr => by
    simp only [Term.expand, ebind_ok, Except.ok.injEq] at h
    obtain ⟨v, h1, rfl⟩ := h
    exact expand_rules t h1 hr
  | .scope t _, u, h, hr => by
    simp only [Term.expand, ebind_ok, Except.ok.injEq] at h
    obtain ⟨v, h1, rfl⟩ := h
    exact expand_rules t h1 hr
  | .cut t, u, h, hr => by
    simp only [Term.expand, ebind_ok, Except.ok.injEq] at h
    obtain ⟨v, h1, rfl⟩ := h
    exact expand_rules t h1 hr
  | .rule r', u, h, hr => ⟨r', by simp [Term.openRules], u, h, hr⟩
  | .s _, u, h, hr => by
    simp only [Term.expand, Except.ok.injEq] at h
    subst h; simp [Term.openRules] at hr
  | .ref _ _, u, h, hr => by
    simp only [Term.expand, Except.ok.injEq] at h
    subst h; simp [Term.openRules] at hr
  | .re _, u, h, hr => by
    simp only [Term.expand, Except.ok.injEq] at h
    subst h; simp [Term.openRules] at hr
  | .ext _, u, h, hr => by
    simp only [Term.expand, Except.ok.injEq] at h
    subst h; simp [Term.openRules] at hr
  | .look _, u, h, hr => by
    simp only [Term.expand, Except.ok.injEq] at h
    subst h; simp [Term.openRules] at hr
theorem expandList_rules {f : Str → Except Stop Term} {r : Str} : (ts : List Term) → {us : List Term} →
    Term.expand.expandList f ts = .ok us → r ∈ openRulesList us → ∃ r' ∈ openRulesList ts, ∃ v, f r' = .ok v ∧ r ∈ v.openRules
  | [], us, h, hr => by
    simp only [Term.expand.expandList, Except.ok.injEq] at h
    subst h; simp [openRulesList] at hr
  | t :: ts, us, h, hr => by
    simp only [Term.expand.expandList, ebind_ok, Except.ok.injEq] at h
    obtain ⟨v, h1, vs, h2, rfl⟩ := h
    simp only [openRulesList, List.mem_append] at hr ⊢
    rcases hr with hr | hr
    · obtain ⟨r', h3, h4⟩ := expand_rules t h1 hr
      exact ⟨r', Or.inl h3, h4⟩
    · obtain ⟨r', h3, h4⟩ := expandList_rules ts h2 hr
      exact ⟨r', Or.inr h3, h4⟩
end

theorem joinTerms_rules {op : Str} {g : Option Grammar} {ts : List Term} : (joinTerms op g ts).openRules = openRulesList ts := by
  unfold joinTerms
  have e : (seqOf ts).openRules = openRulesList ts := by
    unfold seqOf
    split
    · simp [openRulesList]
    · rfl
  split
  · rfl
  · split
    · rfl
    · cases g <;> exact e

theorem nameTerm_rules {i : Option Str} {t : Term} : (nameTerm i t).openRules = t.openRules := by
  cases i with
  | none => rfl
  | some i => simp only [nameTerm]; split <;> rfl

theorem argIndex_none {r : Str} : {ps : List Str} → (argIndex r ps = none ↔ r ∉ ps)
  | [] => by simp [argIndex]
  | p :: ps => by
    simp only [argIndex, List.mem_cons]
    by_cases h : p = r
    · simp [h]
    · have h' : r ≠ p := fun e => h e.symm
      simp [h, h', argIndex_none (r := r) (ps := ps)]

theorem identsTerms_mem {r : Str} {t : TermN} : {ts : List TermN} → t ∈ ts → r ∈ t.idents → r ∈ identsTerms ts
  | [], h, _ => by simp at h
  | _ :: ts, h, hr => by
    simp only [identsTerms, List.mem_append]
    rcases List.mem_cons.1 h with rfl | h
    · exact Or.inl hr
    · exact Or.inr (identsTerms_mem h hr)

theorem mapE_rules {ms : Macros} {n : Nat} {r : Str} (h : ∀ t u, buildTerm ms n t = .ok u → r ∈ u.openRules → r ∈ t.idents) :
    {ts : List TermN} → {us : List Term} → mapE (buildTerm ms n) ts = .ok us → r ∈ openRulesList us → r ∈ identsTerms ts
  | [], us, hu, hr => by
    simp only [mapE, Except.ok.injEq] at hu
    subst hu; simp [openRulesList] at hr
  | t :: ts, us, hu, hr => by
    simp only [mapE, ebind_ok, Except.ok.injEq] at hu
    obtain ⟨v, h1, vs, h2, rfl⟩ := hu
    simp only [openRulesList, List.mem_append] at hr
    simp only [identsTerms, List.mem_append]
    rcases hr with hr | hr
    · exact Or.inl (h t v h1 hr)
    · exact Or.inr (mapE_rules h h2 hr)

theorem identsQuants_reverse {r : Str} {qs : List QuantN} : r ∈ identsQuants qs.reverse ↔ r ∈ identsQuants qs := by
  have e : ∀ qs : List QuantN, r ∈ identsQuants qs ↔ ∃ q ∈ qs, r ∈ q.idents := by
    intro qs
    induction qs with
    | nil => simp [identsQuants]
    | cons q qs ih => simp [identsQuants, ih]
  simp [e]

/-- The rules outside look-aheads and braces come from the source, or from a macro that uses them without having a
parameter of that name. -/
structure FromSource (ms : Macros) (r : Str) (n : Nat) : Prop where
  term : ∀ {t u}, buildTerm ms n t = .ok u → r ∈ u.openRules → r ∈ t.idents
  quants : ∀ {qs t u}, buildQuants ms n qs t = .ok u → r ∈ u.openRules → r ∈ t.openRules ∨ r ∈ identsQuants qs
  named : ∀ {t u}, buildNamed ms n t = .ok u → r ∈ u.openRules → r ∈ t.idents
  quant : ∀ {q t u}, buildQuant ms n q t = .ok u → r ∈ u.openRules → r ∈ t.openRules ∨ r ∈ q.idents
  atom : ∀ {a u}, buildAtom ms n a = .ok u → r ∈ u.openRules → r ∈ a.idents

theorem from_source {ms : Macros} {r : Str} (hms : ∀ n m, lookup n ms = some m → r ∈ m.body.idents → r ∈ m.args) :
    ∀ n, FromSource ms r n
  | 0 => by constructor <;> intros <;> rename_i h _ <;> simp [buildTerm, buildQuants, buildNamed, buildQuant, buildAtom] at h
  | n + 1 => by
    have ih := from_source hms n
    constructor
    · intro t u h hr
      cases t with
      | many op gs ts =>
        rw [buildTerm, ebind_ok] at h
        obtain ⟨us, h1, h2⟩ := h
        have key : r ∈ openRulesList us → r ∈ (TermN.many op gs ts).idents := fun h => by
          have := mapE_rules (fun _ _ => ih.term) h1 h
          simp [TermN.idents, this]
        apply key
        split at h2
        · simp only [Except.ok.injEq] at h2
          rwa [← h2, joinTerms_rules] at hr
        · split at h2
          · simp only [ebind_ok, Except.ok.injEq] at h2
            obtain ⟨g, _, h2⟩ := h2
            rwa [← h2, joinTerms_rules] at hr
          · simp only [Except.ok.injEq] at h2
            rwa [← h2, joinTerms_rules] at hr
      | one nm qs =>
        rw [buildTerm, ebind_ok] at h
        obtain ⟨v, h1, h2⟩ := h
        simp only [TermN.idents, List.mem_append]
        rcases ih.quants h2 hr with h | h
        · exact Or.inl (ih.named h1 h)
        · exact Or.inr (identsQuants_reverse.1 h)
    · intro qs t u h hr
      cases qs with
      | nil =>
        simp only [buildQuants, Except.ok.injEq] at h
        subst h; exact Or.inl hr
      | cons q qs =>
        rw [buildQuants, ebind_ok] at h
        obtain ⟨v, h1, h2⟩ := h
        simp only [identsQuants, List.mem_append]
        rcases ih.quants h2 hr with h | h
        · rcases ih.quant h1 h with h | h
          · exact Or.inl h
          · exact Or.inr (Or.inl h)
        · exact Or.inr (Or.inr h)
    · intro t u h hr
      cases t with
      | mk i a =>
        simp only [buildNamed, ebind_ok, Except.ok.injEq] at h
        obtain ⟨v, h1, rfl⟩ := h
        rw [nameTerm_rules] at hr
        exact ih.atom h1 hr
    · intro q t u h hr
      cases q with
      | op o =>
        simp only [buildQuant] at h
        repeat' split at h
        all_goals simp only [Except.ok.injEq, reduceCtorEq] at h
        all_goals (subst h; exact Or.inl hr)
      | range lo hi =>
        simp only [buildQuant, ebind_ok, Except.ok.injEq] at h
        obtain ⟨a, _, b, _, rfl⟩ := h
        exact Or.inl hr
      | sep op l tr nm =>
        simp only [buildQuant, ebind_ok, Except.ok.injEq] at h
        obtain ⟨a, _, v, h1, rfl⟩ := h
        simp only [Term.openRules, List.mem_append] at hr
        rcases hr with h | h
        · exact Or.inl h
        · exact Or.inr (ih.named h1 h)
    · intro t u h hr
      cases t with
      | ident i =>
        simp only [buildAtom, Except.ok.injEq] at h
        subst h; exact hr
      | str x =>
        simp only [buildAtom, ebind_ok, Except.ok.injEq] at h
        obtain ⟨_, _, rfl⟩ := h
        simp [Term.openRules] at hr
      | re x =>
        simp only [buildAtom, Except.ok.injEq] at h
        subst h; simp [Term.openRules] at hr
      | ref i d =>
        cases d with
        | none =>
          simp only [buildAtom, Except.ok.injEq] at h
          subst h; simp [Term.openRules] at hr
        | some x =>
          simp only [buildAtom] at h
          split at h
          · simp only [Except.ok.injEq] at h
            subst h; simp [Term.openRules] at hr
          · simp only [ebind_ok, Except.ok.injEq] at h
            obtain ⟨_, _, rfl⟩ := h
            simp [Term.openRules] at hr
      | ext i =>
        simp only [buildAtom, Except.ok.injEq] at h
        subst h; simp [Term.openRules] at hr
      | look t =>
        simp only [buildAtom, ebind_ok, Except.ok.injEq] at h
        obtain ⟨_, _, rfl⟩ := h
        simp [Term.openRules] at hr
      | term t => rw [buildAtom] at h; exact ih.term h hr
      | macrocall m args =>
        rw [buildAtom] at h
        split at h
        · simp at h
        · rename_i mc hm
          rw [ebind_ok] at h
          obtain ⟨b, h1, h2⟩ := h
          obtain ⟨r', h3, v, h4, h5⟩ := expand_rules b h2 hr
          split at h4
          · rename_i hno
            simp only [Except.ok.injEq] at h4
            subst h4
            simp only [Term.openRules, List.mem_singleton] at h5
            subst h5
            exact absurd (hms m mc hm (ih.term h1 h3)) (argIndex_none.1 hno)
          · split at h4
            · simp at h4
            · rename_i a ha
              exact identsTerms_mem (List.mem_of_getElem? ha) (ih.term h4 h5)
      | unit =>
        simp only [buildAtom, Except.ok.injEq] at h
        subst h; simp [Term.openRules, openRulesList] at hr

/-! ## The substitution -/

theorem joinTerms_subs {R : Str → Term → Prop} {op : Str} {g : Option Grammar} {ts : List Term} {u : Term} :
    (joinTerms op g ts).Subs R u ↔ ∃ us, SubsList R ts us ∧ u = joinTerms op g us := by
  have e : ∀ u, (seqOf ts).Subs R u ↔
      ∃ us, SubsList R ts us ∧ u = seqOf us := by
    intro u
    match ts with
    | [] => simp [Term.Subs, SubsList, seqOf]
    | [t] =>
      simp only [SubsList, seqOf]
      constructor
      · intro h
        exact ⟨[u], ⟨u, [], h, rfl, rfl⟩, rfl⟩
      · rintro ⟨_, ⟨v, _, h, rfl, rfl⟩, rfl⟩
        exact h
    | t :: t' :: ts =>
      simp only [Term.Subs, SubsList, seqOf]
      constructor
      · rintro ⟨_, ⟨v, _, h1, ⟨w, vs, h2, h3, rfl⟩, rfl⟩, rfl⟩
        exact ⟨_, ⟨v, _, h1, ⟨w, vs, h2, h3, rfl⟩, rfl⟩, rfl⟩
      · rintro ⟨_, ⟨v, _, h1, ⟨w, vs, h2, h3, rfl⟩, rfl⟩, rfl⟩
        exact ⟨_, ⟨v, _, h1, ⟨w, vs, h2, h3, rfl⟩, rfl⟩, rfl⟩
  unfold joinTerms
  split
  · rfl
  · split
    · rfl
    · cases g with
      | none => exact e u
      | some g =>
        simp only [Term.Subs, e]
        constructor
        · rintro ⟨v, ⟨us, h1, rfl⟩, rfl⟩
          exact ⟨us, h1, rfl⟩
        · rintro ⟨us, h1, rfl⟩
          exact ⟨_, ⟨us, h1, rfl⟩, rfl⟩

theorem nameTerm_subs {R : Str → Term → Prop} {i : Option Str} {t u : Term} :
    (nameTerm i t).Subs R u ↔ ∃ v, t.Subs R v ∧ u = nameTerm i v := by
  cases i with
  | none => simp [nameTerm]
  | some i =>
    simp only [nameTerm]
    by_cases h : i = []
    · simp [h]
    · simp [h, Term.Subs]

section
variable {ms : Macros} {R : Str → Term → Prop} {σ : Str → Option TermN}

theorem bts_subs {ts : List TermN} (h : ∀ t ∈ ts, ∀ u, BT ms (t.subst σ) u ↔ ∃ b, BT ms t b ∧ b.Subs R u) :
    ∀ {us}, BTs ms (substTerms σ ts) us ↔ ∃ bs, BTs ms ts bs ∧ SubsList R bs us := by
  induction ts with
  | nil => intro us; simp [substTerms, bts_nil, SubsList]
  | cons t ts ih =>
    intro us
    simp only [substTerms, bts_cons, h t (by simp), ih fun t ht => h t (by simp [ht])]
    constructor
    · rintro ⟨v, vs, ⟨b, h1, h2⟩, ⟨bs, h3, h4⟩, rfl⟩
      exact ⟨_, ⟨b, bs, h1, h3, rfl⟩, v, vs, h2, h4, rfl⟩
    · rintro ⟨_, ⟨b, bs, h1, h3, rfl⟩, v, vs, h2, h4, rfl⟩
      exact ⟨v, vs, ⟨b, h1, h2⟩, ⟨bs, h3, h4⟩, rfl⟩

theorem bqs_subs {qs : List QuantN} (h : ∀ q ∈ qs, ∀ b u, (∃ c, BQ ms q b c ∧ c.Subs R u) ↔ ∃ v, b.Subs R v ∧ BQ ms (q.subst σ) v u) :
    ∀ {b u}, (∃ c, BQs ms qs b c ∧ c.Subs R u) ↔ ∃ v, b.Subs R v ∧ BQs ms (qs.map (·.subst σ)) v u := by
  induction qs with
  | nil =>
    intro b u
    simp only [bqs_nil, List.map_nil]
    constructor
    · rintro ⟨_, rfl, h⟩; exact ⟨u, h, rfl⟩
    · rintro ⟨_, h, rfl⟩; exact ⟨b, rfl, h⟩
  | cons q qs ih =>
    intro b u
    simp only [bqs_cons, List.map_cons]
    have ih := fun b u => ih (fun q hq => h q (by simp [hq])) (b := b) (u := u)
    constructor
    · rintro ⟨c, ⟨d, h1, h2⟩, h3⟩
      obtain ⟨v, h4, h5⟩ := (ih d u).1 ⟨c, h2, h3⟩
      obtain ⟨w, h6, h7⟩ := (h q (by simp) b v).1 ⟨d, h1, h4⟩
      exact ⟨w, h6, v, h7, h5⟩
    · rintro ⟨w, h6, v, h7, h5⟩
      obtain ⟨d, h1, h4⟩ := (h q (by simp) b v).2 ⟨w, h6, h7⟩
      obtain ⟨c, h2, h3⟩ := (ih d u).2 ⟨v, h4, h5⟩
      exact ⟨c, ⟨d, h1, h2⟩, h3⟩

variable (hR : ∀ r u, R r u ↔ match σ r with | some a => BT ms a u | none => u = .rule r)
  (hms : ∀ r, σ r ≠ none → ∀ n m, lookup n ms = some m → r ∈ m.body.idents → r ∈ m.args)
include hR hms

mutual
theorem subst_term : (t : TermN) → (∀ i ∈ t.hidden, σ i = none) → ∀ u, (BT ms (t.subst σ) u ↔ ∃ b, BT ms t b ∧ b.Subs R u)
  | .many op gs ts, h, u => by
    have hts := fun us => bts_subs (R := R) (us := us) (subst_terms ts fun i hi => h i (by simp [TermN.hidden, hi]))
    have hgs := substGrammars_id (σ := σ) gs fun i hi => h i (by simp [TermN.hidden, hi])
    simp only [TermN.subst, bt_many, hts, hgs]
    by_cases hop : op = str "|" ∨ op = str ">"
    · simp only [hop, if_true]
      constructor
      · rintro ⟨us, ⟨bs, h1, h2⟩, rfl⟩
        exact ⟨_, ⟨bs, h1, rfl⟩, joinTerms_subs.2 ⟨us, h2, rfl⟩⟩
      · rintro ⟨_, ⟨bs, h1, rfl⟩, h2⟩
        obtain ⟨us, h3, rfl⟩ := joinTerms_subs.1 h2
        exact ⟨us, ⟨bs, h1, h3⟩, rfl⟩
    · simp only [hop, if_false]
      split
      · constructor
        · rintro ⟨us, ⟨bs, h1, h2⟩, gr, h3, rfl⟩
          exact ⟨_, ⟨bs, h1, gr, h3, rfl⟩, joinTerms_subs.2 ⟨us, h2, rfl⟩⟩
        · rintro ⟨_, ⟨bs, h1, gr, h3, rfl⟩, h2⟩
          obtain ⟨us, h4, rfl⟩ := joinTerms_subs.1 h2
          exact ⟨us, ⟨bs, h1, h4⟩, gr, h3, rfl⟩
      · constructor
        · rintro ⟨us, ⟨bs, h1, h2⟩, rfl⟩
          exact ⟨_, ⟨bs, h1, rfl⟩, joinTerms_subs.2 ⟨us, h2, rfl⟩⟩
        · rintro ⟨_, ⟨bs, h1, rfl⟩, h2⟩
          obtain ⟨us, h3, rfl⟩ := joinTerms_subs.1 h2
          exact ⟨us, ⟨bs, h1, h3⟩, rfl⟩
  | .one nm qs, h, u => by
    have hn := subst_named nm fun i hi => h i (by simp [TermN.hidden, hi])
    have hq := subst_quants qs fun i hi => h i (by simp [TermN.hidden, hi])
    have hqs := fun b u => bqs_subs (ms := ms) (R := R) (σ := σ) (qs := qs.reverse) (fun q hq' => hq q (by simpa using hq')) (b := b) (u := u)
    simp only [TermN.subst, bt_one, hn, substQuants_map, ← List.map_reverse]
    constructor
    · rintro ⟨v, ⟨b, h1, h2⟩, h3⟩
      obtain ⟨c, h4, h5⟩ := (hqs b u).2 ⟨v, h2, h3⟩
      exact ⟨c, ⟨b, h1, h4⟩, h5⟩
    · rintro ⟨c, ⟨b, h1, h4⟩, h5⟩
      obtain ⟨v, h2, h3⟩ := (hqs b u).1 ⟨c, h4, h5⟩
      exact ⟨v, ⟨b, h1, h2⟩, h3⟩
theorem subst_named : (t : NamedN) → (∀ i ∈ t.hidden, σ i = none) → ∀ u, (BN ms (t.subst σ) u ↔ ∃ b, BN ms t b ∧ b.Subs R u)
  | .mk i a, h, u => by
    simp only [NamedN.subst, bn_mk, subst_atom a h]
    constructor
    · rintro ⟨v, ⟨b, h1, h2⟩, rfl⟩
      exact ⟨_, ⟨b, h1, rfl⟩, nameTerm_subs.2 ⟨v, h2, rfl⟩⟩
    · rintro ⟨_, ⟨b, h1, rfl⟩, h2⟩
      obtain ⟨v, h3, rfl⟩ := nameTerm_subs.1 h2
      exact ⟨v, ⟨b, h1, h3⟩, rfl⟩
theorem subst_atom : (a : AtomN) → (∀ i ∈ a.hidden, σ i = none) → ∀ u, (Builds ms (a.subst σ) u ↔ ∃ b, Builds ms a b ∧ b.Subs R u)
  | .ident i, _, u => by
    have h1 : (∃ b, Builds ms (.ident i) b ∧ b.Subs R u) ↔ R i u := by
      simp only [ba_ident]
      constructor
      · rintro ⟨_, rfl, h⟩; exact h
      · intro h; exact ⟨_, rfl, h⟩
    rw [h1, hR, AtomN.subst]
    cases h2 : σ i with
    | none => exact ba_ident
    | some a => exact ba_term
  | .str x, _, u => by
    rw [AtomN.subst]
    have : ∀ u, Builds ms (.str x) u → ∃ l, u = .s l := by
      rintro u ⟨n, h⟩
      cases n with
      | zero => simp [buildAtom] at h
      | succ n =>
        simp only [buildAtom, ebind_ok, Except.ok.injEq] at h
        obtain ⟨l, _, rfl⟩ := h
        exact ⟨l, rfl⟩
    constructor
    · intro h
      obtain ⟨l, rfl⟩ := this u h
      exact ⟨_, h, rfl⟩
    · rintro ⟨b, h, h'⟩
      obtain ⟨l, rfl⟩ := this b h
      rw [show u = _ from h']; exact h
  | .re x, _, u => by
    rw [AtomN.subst]
    have : ∀ u, Builds ms (.re x) u → u = .re (parseRE x) := by
      rintro u ⟨n, h⟩
      cases n with
      | zero => simp [buildAtom] at h
      | succ n => simpa [buildAtom, eq_comm] using h
    constructor
    · intro h
      have e := this u h
      subst e
      exact ⟨_, h, rfl⟩
    · rintro ⟨b, h, h'⟩
      have e := this b h
      subst e
      rw [show u = _ from h']; exact h
  | .ext i, _, u => by
    rw [AtomN.subst]
    have : ∀ u, Builds ms (.ext i) u → u = .ext i := by
      rintro u ⟨n, h⟩
      cases n with
      | zero => simp [buildAtom] at h
      | succ n => simpa [buildAtom, eq_comm] using h
    constructor
    · intro h
      have e := this u h
      subst e
      exact ⟨_, h, rfl⟩
    · rintro ⟨b, h, h'⟩
      have e := this b h
      subst e
      rw [show u = _ from h']; exact h
  | .ref i d, _, u => by
    rw [AtomN.subst]
    have : ∀ u, Builds ms (.ref i d) u → ∃ d', u = .ref i d' := by
      rintro u ⟨n, h⟩
      cases n with
      | zero => simp [buildAtom] at h
      | succ n =>
        cases d with
        | none =>
          simp only [buildAtom, Except.ok.injEq] at h
          exact ⟨none, h.symm⟩
        | some x =>
          simp only [buildAtom] at h
          split at h
          · simp only [Except.ok.injEq] at h
            exact ⟨none, h.symm⟩
          · simp only [ebind_ok, Except.ok.injEq] at h
            obtain ⟨l, _, rfl⟩ := h
            exact ⟨_, rfl⟩
    constructor
    · intro h
      obtain ⟨l, rfl⟩ := this u h
      exact ⟨_, h, rfl⟩
    · rintro ⟨b, h, h'⟩
      obtain ⟨l, rfl⟩ := this b h
      rw [show u = _ from h']; exact h
  | .unit, _, u => by
    rw [AtomN.subst]
    have : ∀ u, Builds ms .unit u → u = .seq [] := by
      rintro u ⟨n, h⟩
      cases n with
      | zero => simp [buildAtom] at h
      | succ n => simpa [buildAtom, eq_comm] using h
    constructor
    · intro h
      have e := this u h
      subst e
      exact ⟨_, h, [], rfl, rfl⟩
    · rintro ⟨b, h, h'⟩
      have e := this b h
      subst e
      obtain ⟨_, rfl, rfl⟩ := h'
      exact h
  | .look t, h, u => by
    have : ∀ u, Builds ms (.look t) u → ∃ v, u = .look v := by
      intro u h
      obtain ⟨v, _, e⟩ := ba_look.1 h
      exact ⟨v, e⟩
    rw [AtomN.subst, TermN.subst_id t h]
    constructor
    · intro h
      obtain ⟨l, rfl⟩ := this u h
      exact ⟨_, h, rfl⟩
    · rintro ⟨b, h, h'⟩
      obtain ⟨l, rfl⟩ := this b h
      rw [show u = _ from h']; exact h
  | .term t, h, u => by
    simp only [AtomN.subst, ba_term]
    exact subst_term t h u
  | .macrocall m ts, h, u => by
    have hts := subst_terms ts h
    simp only [AtomN.subst, ba_macrocall]
    have step : ∀ (mc : Macro) (b : Term), lookup m ms = some mc → BT ms mc.body b →
        (b.Subs (ArgOf ms mc.args (substTerms σ ts)) u ↔ ∃ c, b.Subs (ArgOf ms mc.args ts) c ∧ c.Subs R u) := by
      intro mc b hm hb
      have key : ∀ r ∈ b.openRules, ∀ v, ArgOf ms mc.args (substTerms σ ts) r v ↔
          ∃ c, ArgOf ms mc.args ts r c ∧ c.Subs R v := by
        intro r hr v
        unfold ArgOf
        split
        · rename_i hno
          have hσ : σ r = none := by
            cases hs : σ r with
            | none => rfl
            | some a =>
              obtain ⟨n, hb⟩ := hb
              have h1 := (from_source (hms r (by simp [hs])) n).term hb hr
              exact absurd (hms r (by simp [hs]) m mc hm h1) (argIndex_none.1 hno)
          have h2 := hR r v
          simp only [hσ] at h2
          constructor
          · intro e
            exact ⟨_, rfl, h2.2 e⟩
          · rintro ⟨_, rfl, e⟩
            exact h2.1 e
        · rename_i i _
          rw [substTerms_getElem]
          cases ha : ts[i]? with
          | none => simp
          | some a =>
            have := hts a (List.mem_of_getElem? ha) v
            simp only [Option.map_some, Option.some.injEq, exists_eq_left']
            rw [this]
      rw [subs_comp]
      constructor
      · exact subs_congr b fun r hr v => (key r hr v).1
      · exact subs_congr b fun r hr v => (key r hr v).2
    constructor
    · rintro ⟨mc, b, hm, hb, h1⟩
      obtain ⟨c, h2, h3⟩ := (step mc b hm hb).1 h1
      exact ⟨c, ⟨mc, b, hm, hb, h2⟩, h3⟩
    · rintro ⟨c, ⟨mc, b, hm, hb, h2⟩, h3⟩
      exact ⟨mc, b, hm, hb, (step mc b hm hb).2 ⟨c, h2, h3⟩⟩
theorem subst_quant : (q : QuantN) → (∀ i ∈ q.hidden, σ i = none) → ∀ b u,
    ((∃ c, BQ ms q b c ∧ c.Subs R u) ↔ ∃ v, b.Subs R v ∧ BQ ms (q.subst σ) v u)
  | .op o, _, b, u => by
    simp only [QuantN.subst, bq_op]
    constructor
    · rintro ⟨_, ⟨h, rfl⟩ | ⟨h, rfl⟩ | ⟨h, rfl⟩, v, h1, rfl⟩
      · exact ⟨v, h1, Or.inl ⟨h, rfl⟩⟩
      · exact ⟨v, h1, Or.inr (Or.inl ⟨h, rfl⟩)⟩
      · exact ⟨v, h1, Or.inr (Or.inr ⟨h, rfl⟩)⟩
    · rintro ⟨v, h1, ⟨h, rfl⟩ | ⟨h, rfl⟩ | ⟨h, rfl⟩⟩
      · exact ⟨_, Or.inl ⟨h, rfl⟩, v, h1, rfl⟩
      · exact ⟨_, Or.inr (Or.inl ⟨h, rfl⟩), v, h1, rfl⟩
      · exact ⟨_, Or.inr (Or.inr ⟨h, rfl⟩), v, h1, rfl⟩
  | .range lo hi, _, b, u => by
    simp only [QuantN.subst, bq_range]
    constructor
    · rintro ⟨_, ⟨x, y, hx, hy, rfl⟩, v, h1, rfl⟩
      exact ⟨v, h1, x, y, hx, hy, rfl⟩
    · rintro ⟨v, h1, x, y, hx, hy, rfl⟩
      exact ⟨_, ⟨x, y, hx, hy, rfl⟩, v, h1, rfl⟩
  | .sep op l tr nm, h, b, u => by
    simp only [QuantN.subst, bq_sep, subst_named nm h]
    constructor
    · rintro ⟨_, ⟨a, c, h1, h2, rfl⟩, v, w, h3, h4, rfl⟩
      exact ⟨v, h3, a, w, h1, ⟨c, h2, h4⟩, rfl⟩
    · rintro ⟨v, h3, a, w, h1, ⟨c, h2, h4⟩, rfl⟩
      exact ⟨_, ⟨a, c, h1, h2, rfl⟩, v, w, h3, h4, rfl⟩
theorem subst_terms : (ts : List TermN) → (∀ i ∈ hiddenTerms ts, σ i = none) → ∀ t ∈ ts, ∀ u,
    (BT ms (t.subst σ) u ↔ ∃ b, BT ms t b ∧ b.Subs R u)
  | [], _, t, ht => by simp at ht
  | t :: ts, h, t', ht => by
    have h1 := subst_term t fun i hi => h i (by simp [hiddenTerms, hi])
    have h2 := subst_terms ts fun i hi => h i (by simp [hiddenTerms, hi])
    rcases List.mem_cons.1 ht with e | ht
    · rw [e]; exact h1
    · exact h2 t' ht
theorem subst_quants : (qs : List QuantN) → (∀ i ∈ hiddenQuants qs, σ i = none) → ∀ q ∈ qs, ∀ b u,
    ((∃ c, BQ ms q b c ∧ c.Subs R u) ↔ ∃ v, b.Subs R v ∧ BQ ms (q.subst σ) v u)
  | [], _, q, hq => by simp at hq
  | q :: qs, h, q', hq => by
    have h1 := subst_quant q fun i hi => h i (by simp [hiddenQuants, hi])
    have h2 := subst_quants qs fun i hi => h i (by simp [hiddenQuants, hi])
    rcases List.mem_cons.1 hq with e | hq
    · rw [e]; exact h1
    · exact h2 q' hq
end

end

end Wbnf

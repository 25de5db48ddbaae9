import Verif.Lemmas.Build

/-!
# Lemmas on macro calls
-/

namespace Wbnf

/-! ## Substitution in terms, as a relation -/

mutual
/-- `u` is `t` with each rule `r` outside look-aheads and grammars in braces replaced by some term that `R r` allows. -/
def Term.Subs (R : Str → Term → Prop) : Term → Term → Prop
  | .seq ts, u => ∃ us, SubsList R ts us ∧ u = .seq us
  | .stack ts, u => ∃ us, SubsList R ts us ∧ u = .stack us
  | .oneof ts, u => ∃ us, SubsList R ts us ∧ u = .oneof us
  | .delim t sep a cs ce, u => ∃ v w, t.Subs R v ∧ sep.Subs R w ∧ u = .delim v w a cs ce
  | .quant t lo hi, u => ∃ v, t.Subs R v ∧ u = .quant v lo hi
  | .named n t, u => ∃ v, t.Subs R v ∧ u = .named n v
  | .scope t g, u => ∃ v, t.Subs R v ∧ u = .scope v g
  | .cut t, u => ∃ v, t.Subs R v ∧ u = .cut v
  | .rule r, u => R r u
  | .s l, u => u = .s l
  | .ref i d, u => u = .ref i d
  | .re p, u => u = .re p
  | .ext x, u => u = .ext x
  | .look t, u => u = .look t
def SubsList (R : Str → Term → Prop) : List Term → List Term → Prop
  | [], us => us = []
  | t :: ts, us => ∃ v vs, t.Subs R v ∧ SubsList R ts vs ∧ us = v :: vs
end

mutual
/-- The rules outside look-aheads and grammars in braces. -/
def Term.openRules : Term → List Str
  | .seq ts => openRulesList ts
  | .stack ts => openRulesList ts
  | .oneof ts => openRulesList ts
  | .delim t sep _ _ _ => t.openRules ++ sep.openRules
  | .quant t _ _ => t.openRules
  | .named _ t => t.openRules
  | .scope t _ => t.openRules
  | .cut t => t.openRules
  | .rule r => [r]
  | .s _ => []
  | .ref _ _ => []
  | .re _ => []
  | .ext _ => []
  | .look _ => []
def openRulesList : List Term → List Str
  | [] => []
  | t :: ts => t.openRules ++ openRulesList ts
end

mutual
theorem subs_congr {R R' : Str → Term → Prop} : (t : Term) → (∀ r ∈ t.openRules, ∀ u, R r u → R' r u) → {u : Term} →
    t.Subs R u → t.Subs R' u
  | .seq ts, h, u, ⟨us, h1, h2⟩ => ⟨us, subsList_congr ts h h1, h2⟩
  | .stack ts, h, u, ⟨us, h1, h2⟩ => ⟨us, subsList_congr ts h h1, h2⟩
  | .oneof ts, h, u, ⟨us, h1, h2⟩ => ⟨us, subsList_congr ts h h1, h2⟩
  | .delim t sep _ _ _, h, u, ⟨v, w, h1, h2, h3⟩ =>
    ⟨v, w, subs_congr t (fun r hr => h r (by simp [Term.openRules, hr])) h1,
      subs_congr sep (fun r hr => h r (by simp [Term.openRules, hr])) h2, h3⟩
  | .quant t _ _, h, u, ⟨v, h1, h2⟩ => ⟨v, subs_congr t h h1, h2⟩
  | .named _ t, h, u, ⟨v, h1, h2⟩ => ⟨v, subs_congr t h h1, h2⟩
  | .scope t _, h, u, ⟨v, h1, h2⟩ => ⟨v, subs_congr t h h1, h2⟩
  | .cut t, h, u, ⟨v, h1, h2⟩ => ⟨v, subs_congr t h h1, h2⟩
  | .rule r, h, u, hu => h r (by simp [Term.openRules]) u hu
  | .s _, _, _, hu => hu
  | .ref _ _, _, _, hu => hu
  | .re _, _, _, hu => hu
  | .ext _, _, _, hu => hu
  | .look _, _, _, hu => hu
theorem subsList_congr {R R' : Str → Term → Prop} : (ts : List Term) → (∀ r ∈ openRulesList ts, ∀ u, R r u → R' r u) →
    {us : List Term} → SubsList R ts us → SubsList R' ts us
  | [], _, _, hu => hu
  | t :: ts, h, us, ⟨v, vs, h1, h2, h3⟩ =>
    ⟨v, vs, subs_congr t (fun r hr => h r (by simp [openRulesList, hr])) h1,
      subsList_congr ts (fun r hr => h r (by simp [openRulesList, hr])) h2, h3⟩
end

mutual
/-- One substitution after the other. -/
theorem subs_comp {R R' : Str → Term → Prop} : (t : Term) → (w : Term) →
    ((∃ u, t.Subs R u ∧ u.Subs R' w) ↔ t.Subs (fun r w => ∃ u, R r u ∧ u.Subs R' w) w)
  | .seq ts, w => by
    constructor
    · rintro ⟨_, ⟨us, h1, rfl⟩, ws, h2, rfl⟩
      exact ⟨ws, (subsList_comp ts ws).1 ⟨us, h1, h2⟩, rfl⟩
    · rintro ⟨ws, h, rfl⟩
      obtain ⟨us, h1, h2⟩ := (subsList_comp ts ws).2 h
      exact ⟨_, ⟨us, h1, rfl⟩, ws, h2, rfl⟩
  | .stack ts, w => by
    constructor
    · rintro ⟨_, ⟨us, h1, rfl⟩, ws, h2, rfl⟩
      exact ⟨ws, (subsList_comp ts ws).1 ⟨us, h1, h2⟩, rfl⟩
    · rintro ⟨ws, h, rfl⟩
      obtain ⟨us, h1, h2⟩ := (subsList_comp ts ws).2 h
      exact ⟨_, ⟨us, h1, rfl⟩, ws, h2, rfl⟩
  | .oneof ts, w => by
    constructor
    · rintro ⟨_, ⟨us, h1, rfl⟩, ws, h2, rfl⟩
      exact ⟨ws, (subsList_comp ts ws).1 ⟨us, h1, h2⟩, rfl⟩
    · rintro ⟨ws, h, rfl⟩
      obtain ⟨us, h1, h2⟩ := (subsList_comp ts ws).2 h
      exact ⟨_, ⟨us, h1, rfl⟩, ws, h2, rfl⟩
  | .delim t sep a cs ce, w => by
    constructor
    · rintro ⟨_, ⟨v, v', h1, h1', rfl⟩, x, x', h2, h2', rfl⟩
      exact ⟨x, x', (subs_comp t x).1 ⟨v, h1, h2⟩, (subs_comp sep x').1 ⟨v', h1', h2'⟩, rfl⟩
    · rintro ⟨x, x', h, h', rfl⟩
      obtain ⟨v, h1, h2⟩ := (subs_comp t x).2 h
      obtain ⟨v', h1', h2'⟩ := (subs_comp sep x').2 h'
      exact ⟨_, ⟨v, v', h1, h1', rfl⟩, x, x', h2, h2', rfl⟩
  | .quant t lo hi, w => by
    constructor
    · rintro ⟨_, ⟨v, h1, rfl⟩, x, h2, rfl⟩
      exact ⟨x, (subs_comp t x).1 ⟨v, h1, h2⟩, rfl⟩
    · rintro ⟨x, h, rfl⟩
      obtain ⟨v, h1, h2⟩ := (subs_comp t x).2 h
      exact ⟨_, ⟨v, h1, rfl⟩, x, h2, rfl⟩
  | .named _ t, w => by
    constructor
    · rintro ⟨_, ⟨v, h1, rfl⟩, x, h2, rfl⟩
      exact ⟨x, (subs_comp t x).1 ⟨v, h1, h2⟩, rfl⟩
    · rintro ⟨x, h, rfl⟩
      obtain ⟨v, h1, h2⟩ := (subs_comp t x).2 h
      exact ⟨_, ⟨v, h1, rfl⟩, x, h2, rfl⟩
  | .scope t _, w => by
    constructor
    · rintro ⟨_, ⟨v, h1, rfl⟩, x, h2, rfl⟩
      exact ⟨x, (subs_comp t x).1 ⟨v, h1, h2⟩, rfl⟩
    · rintro ⟨x, h, rfl⟩
      obtain ⟨v, h1, h2⟩ := (subs_comp t x).2 h
      exact ⟨_, ⟨v, h1, rfl⟩, x, h2, rfl⟩
  | .cut t, w => by
    constructor
    · rintro ⟨_, ⟨v, h1, rfl⟩, x, h2, rfl⟩
      exact ⟨x, (subs_comp t x).1 ⟨v, h1, h2⟩, rfl⟩
    · rintro ⟨x, h, rfl⟩
      obtain ⟨v, h1, h2⟩ := (subs_comp t x).2 h
      exact ⟨_, ⟨v, h1, rfl⟩, x, h2, rfl⟩
  | .rule r, w => Iff.rfl
  | .s _, w => ⟨by rintro ⟨_, rfl, h⟩; exact h, fun h => ⟨_, rfl, h⟩⟩
  | .ref _ _, w => ⟨by rintro ⟨_, rfl, h⟩; exact h, fun h => ⟨_, rfl, h⟩⟩
  | .re _, w => ⟨by rintro ⟨_, rfl, h⟩; exact h, fun h => ⟨_, rfl, h⟩⟩
  | .ext _, w => ⟨by rintro ⟨_, rfl, h⟩; exact h, fun h => ⟨_, rfl, h⟩⟩
  | .look _, w => ⟨by rintro ⟨_, rfl, h⟩; exact h, fun h => ⟨_, rfl, h⟩⟩
theorem subsList_comp {R R' : Str → Term → Prop} : (ts ws : List Term) →
    ((∃ us, SubsList R ts us ∧ SubsList R' us ws) ↔ SubsList (fun r w => ∃ u, R r u ∧ u.Subs R' w) ts ws)
  | [], ws => ⟨by rintro ⟨_, rfl, h⟩; exact h, fun h => ⟨_, rfl, h⟩⟩
  | t :: ts, ws => by
    constructor
    · rintro ⟨_, ⟨v, vs, h1, h1', rfl⟩, x, xs, h2, h2', rfl⟩
      exact ⟨x, xs, (subs_comp t x).1 ⟨v, h1, h2⟩, (subsList_comp ts xs).1 ⟨vs, h1', h2'⟩, rfl⟩
    · rintro ⟨x, xs, h, h', rfl⟩
      obtain ⟨v, h1, h2⟩ := (subs_comp t x).2 h
      obtain ⟨vs, h1', h2'⟩ := (subsList_comp ts xs).2 h'
      exact ⟨_, ⟨v, vs, h1, h1', rfl⟩, x, xs, h2, h2', rfl⟩
end

section
variable {f : Nat → Str → Except Stop Term}

mutual
theorem subs_of_expand {n : Nat} : (t : Term) → {u : Term} → t.expand (f n) = .ok u → t.Subs (fun r u => ∃ n, f n r = .ok u) u
  | .seq ts, u, h => by
    simp only [Term.expand, ebind_ok, Except.ok.injEq] at h
    obtain ⟨us, h1, rfl⟩ := h
    exact ⟨us, subsList_of_expand ts h1, rfl⟩
  | .stack ts, u, h => by
    simp only [Term.expand, ebind_ok, Except.ok.injEq] at h
    obtain ⟨us, h1, rfl⟩ := h
    exact ⟨us, subsList_of_expand ts h1, rfl⟩
  | .oneof ts, u, h => by
    simp only [Term.expand, ebind_ok, Except.ok.injEq] at h
    obtain ⟨us, h1, rfl⟩ := h
    exact ⟨us, subsList_of_expand ts h1, rfl⟩
  | .delim t sep a cs ce, u, h => by
    simp only [Term.expand, ebind_ok, Except.ok.injEq] at h
    obtain ⟨v, h1, w, h2, rfl⟩ := h
    exact ⟨v, w, subs_of_expand t h1, subs_of_expand sep h2, rfl⟩
  | .quant t _ _, u, h => by
    simp only [Term.expand, ebind_ok, Except.ok.injEq] at h
    obtain ⟨v, h1, rfl⟩ := h
    exact ⟨v, subs_of_expand t h1, rfl⟩
  | .named _ t, u, h => by
    simp only [Term.expand, ebind_ok, Except.ok.injEq] at h
    obtain ⟨v, h1, rfl⟩ := h
    exact ⟨v, subs_of_expand t h1, rfl⟩
  | .scope t _, u, h => by
    simp only [Term.expand, ebind_ok, Except.ok.injEq] at h
    obtain ⟨v, h1, rfl⟩ := h
    exact ⟨v, subs_of_expand t h1, rfl⟩
  | .cut t, u, h => by
    simp only [Term.expand, ebind_ok, Except.ok.injEq] at h
    obtain ⟨v, h1, rfl⟩ := h
    exact ⟨v, subs_of_expand t h1, rfl⟩
  | .rule r, u, h => ⟨n, h⟩
  | .s _, u, h => by simpa [Term.expand, eq_comm, Term.Subs] using h
  | .ref _ _, u, h => by simpa [Term.expand, eq_comm, Term.Subs] using h
  | .re _, u, h => by simpa [Term.expand, eq_comm, Term.Subs] using h
  | .ext _, u, h => by simpa [Term.expand, eq_comm, Term.Subs] using h
  | .look _, u, h => by simpa [Term.expand, eq_comm, Term.Subs] using h
theorem subsList_of_expand {n : Nat} : (ts : List Term) → {us : List Term} → Term.expand.expandList (f n) ts = .ok us →
    SubsList (fun r u => ∃ n, f n r = .ok u) ts us
  | [], us, h => by simpa [Term.expand.expandList, eq_comm, SubsList] using h
  | t :: ts, us, h => by
    simp only [Term.expand.expandList, ebind_ok, Except.ok.injEq] at h
    obtain ⟨v, h1, vs, h2, rfl⟩ := h
    exact ⟨v, vs, subs_of_expand t h1, subsList_of_expand ts h2, rfl⟩
end

mutual
theorem expand_of_subs (hf : ∀ n m, n ≤ m → ∀ r u, f n r = .ok u → f m r = .ok u) : (t : Term) → {u : Term} →
    t.Subs (fun r u => ∃ n, f n r = .ok u) u → ∃ n, t.expand (f n) = .ok u
  | .seq ts, u, ⟨us, h1, e⟩ => by
    obtain ⟨n, h⟩ := expandList_of_subs hf ts h1
    exact ⟨n, by simp [Term.expand, ebind_ok, h, e]⟩
  | .stack ts, u, ⟨us, h1, e⟩ => by
    obtain ⟨n, h⟩ := expandList_of_subs hf ts h1
    exact ⟨n, by simp [Term.expand, ebind_ok, h, e]⟩
  | .oneof ts, u, ⟨us, h1, e⟩ => by
    obtain ⟨n, h⟩ := expandList_of_subs hf ts h1
    exact ⟨n, by simp [Term.expand, ebind_ok, h, e]⟩
  | .delim t sep a cs ce, u, ⟨v, w, h1, h2, e⟩ => by
    obtain ⟨n, h⟩ := expand_of_subs hf t h1
    obtain ⟨m, h'⟩ := expand_of_subs hf sep h2
    refine ⟨max n m, ?_⟩
    have := expand_mono (hf n (max n m) (Nat.le_max_left ..)) t h
    have := expand_mono (hf m (max n m) (Nat.le_max_right ..)) sep h'
    simp [Term.expand, ebind_ok, *]
  | .quant t _ _, u, ⟨v, h1, e⟩ => by
    obtain ⟨n, h⟩ := expand_of_subs hf t h1
    exact ⟨n, by simp [Term.expand, ebind_ok, h, e]⟩
  | .named _ t, u, ⟨v, h1, e⟩ => by
    obtain ⟨n, h⟩ := expand_of_subs hf t h1
    exact ⟨n, by simp [Term.expand, ebind_ok, h, e]⟩
  | .scope t _, u, ⟨v, h1, e⟩ => by
    obtain ⟨n, h⟩ := expand_of_subs hf t h1
    exact ⟨n, by simp [Term.expand, ebind_ok, h, e]⟩
  | .cut t, u, ⟨v, h1, e⟩ => by
    obtain ⟨n, h⟩ := expand_of_subs hf t h1
    exact ⟨n, by simp [Term.expand, ebind_ok, h, e]⟩
  | .rule r, u, h => h
  | .s _, u, h => ⟨0, by rw [show u = _ from h]; rfl⟩
  | .ref _ _, u, h => ⟨0, by rw [show u = _ from h]; rfl⟩
  | .re _, u, h => ⟨0, by rw [show u = _ from h]; rfl⟩
  | .ext _, u, h => ⟨0, by rw [show u = _ from h]; rfl⟩
  | .look _, u, h => ⟨0, by rw [show u = _ from h]; rfl⟩
theorem expandList_of_subs (hf : ∀ n m, n ≤ m → ∀ r u, f n r = .ok u → f m r = .ok u) : (ts : List Term) → {us : List Term} →
    SubsList (fun r u => ∃ n, f n r = .ok u) ts us → ∃ n, Term.expand.expandList (f n) ts = .ok us
  | [], us, h => ⟨0, by rw [show us = _ from h]; rfl⟩
  | t :: ts, us, ⟨v, vs, h1, h2, e⟩ => by
    obtain ⟨n, h⟩ := expand_of_subs hf t h1
    obtain ⟨m, h'⟩ := expandList_of_subs hf ts h2
    refine ⟨max n m, ?_⟩
    have := expand_mono (hf n (max n m) (Nat.le_max_left ..)) t h
    have := expandList_mono (hf m (max n m) (Nat.le_max_right ..)) ts h'
    simp [Term.expand.expandList, ebind_ok, *]
end

end

/-! ## Building, as a relation -/

section
variable (ms : Macros)
def BT (t : TermN) (u : Term) : Prop := ∃ n, buildTerm ms n t = .ok u
def BTs (ts : List TermN) (us : List Term) : Prop := ∃ n, mapE (buildTerm ms n) ts = .ok us
def BQs (qs : List QuantN) (t u : Term) : Prop := ∃ n, buildQuants ms n qs t = .ok u
def BN (t : NamedN) (u : Term) : Prop := ∃ n, buildNamed ms n t = .ok u
def BQ (q : QuantN) (t u : Term) : Prop := ∃ n, buildQuant ms n q t = .ok u
def BG (g : GrammarN) (u : Grammar) : Prop := ∃ n, buildGrammar ms n g = .ok u

/-- What a call with these arguments replaces the rule `r` by. -/
def ArgOf (ps : List Str) (args : List TermN) (r : Str) (u : Term) : Prop :=
  match argIndex r ps with
  | none => u = .rule r
  | some i => ∃ a, args[i]? = some a ∧ BT ms a u
end

section
variable {ms : Macros}

theorem bts_nil {us} : BTs ms [] us ↔ us = [] := by simp [BTs, mapE, eq_comm]

theorem bts_cons {t ts us} : BTs ms (t :: ts) us ↔ ∃ v vs, BT ms t v ∧ BTs ms ts vs ∧ us = v :: vs := by
  simp only [BTs, BT, mapE, ebind_ok, Except.ok.injEq]
  constructor
  · rintro ⟨n, v, h1, vs, h2, h3⟩
    exact ⟨v, vs, ⟨n, h1⟩, ⟨n, h2⟩, h3.symm⟩
  · rintro ⟨v, vs, ⟨n, h1⟩, ⟨m, h2⟩, h3⟩
    exact ⟨max n m, v, buildTerm_mono (Nat.le_max_left ..) h1, vs,
      mapE_mono (fun _ _ => buildTerm_mono (Nat.le_max_right ..)) h2, h3.symm⟩

theorem bt_many {op gs ts u} : BT ms (.many op gs ts) u ↔ ∃ us, BTs ms ts us ∧
    (if op = str "|" ∨ op = str ">" then u = joinTerms op none us
     else match gs with
      | [g] => ∃ gr, BG ms g gr ∧ u = joinTerms op (some gr) us
      | _ => u = joinTerms op none us) := by
  constructor
  · rintro ⟨n, h⟩
    cases n with
    | zero => simp [buildTerm] at h
    | succ n =>
      rw [buildTerm, ebind_ok] at h
      obtain ⟨us, h1, h2⟩ := h
      refine ⟨us, ⟨n, h1⟩, ?_⟩
      split at h2
      · rw [if_pos (by assumption)]; simpa [eq_comm] using h2
      · rw [if_neg (by assumption)]
        split at h2
        · simp only [ebind_ok, Except.ok.injEq] at h2
          obtain ⟨gr, h3, h4⟩ := h2
          exact ⟨gr, ⟨n, h3⟩, h4.symm⟩
        · rename_i hno
          split
          · exact absurd rfl (hno _)
          · simpa [eq_comm] using h2
  · rintro ⟨us, ⟨n, h1⟩, h2⟩
    split at h2
    · rename_i hc
      exact ⟨n + 1, by rw [buildTerm, ebind_ok]; exact ⟨us, h1, by rw [if_pos hc, h2]⟩⟩
    · rename_i hc
      split at h2
      · obtain ⟨gr, ⟨m, h3⟩, h4⟩ := h2
        refine ⟨max n m + 1, ?_⟩
        rw [buildTerm, ebind_ok]
        refine ⟨us, mapE_mono (fun _ _ => buildTerm_mono (Nat.le_max_left ..)) h1, ?_⟩
        rw [if_neg hc]
        simp only [ebind_ok, Except.ok.injEq]
        exact ⟨gr, buildGrammar_mono (Nat.le_max_right ..) h3, h4.symm⟩
      · rename_i hno
        refine ⟨n + 1, ?_⟩
        rw [buildTerm, ebind_ok]
        refine ⟨us, h1, ?_⟩
        rw [if_neg hc]
        split
        · exact absurd rfl (hno _)
        · rw [h2]

theorem bt_one {nm qs u} : BT ms (.one nm qs) u ↔ ∃ v, BN ms nm v ∧ BQs ms qs.reverse v u := by
  constructor
  · rintro ⟨n, h⟩
    cases n with
    | zero => simp [buildTerm] at h
    | succ n =>
      rw [buildTerm, ebind_ok] at h
      obtain ⟨v, h1, h2⟩ := h
      exact ⟨v, ⟨n, h1⟩, n, h2⟩
  · rintro ⟨v, ⟨n, h1⟩, m, h2⟩
    exact ⟨max n m + 1, by rw [buildTerm, ebind_ok]; exact ⟨v, buildNamed_mono (Nat.le_max_left ..) h1,
      buildQuants_mono (Nat.le_max_right ..) h2⟩⟩

theorem bqs_nil {t u} : BQs ms [] t u ↔ u = t := by
  constructor
  · rintro ⟨n, h⟩
    cases n with
    | zero => simp [buildQuants] at h
    | succ n => simpa [buildQuants, eq_comm] using h
  · rintro rfl
    exact ⟨1, rfl⟩

theorem bqs_cons {q qs t u} : BQs ms (q :: qs) t u ↔ ∃ v, BQ ms q t v ∧ BQs ms qs v u := by
  constructor
  · rintro ⟨n, h⟩
    cases n with
    | zero => simp [buildQuants] at h
    | succ n =>
      rw [buildQuants, ebind_ok] at h
      obtain ⟨v, h1, h2⟩ := h
      exact ⟨v, ⟨n, h1⟩, n, h2⟩
  · rintro ⟨v, ⟨n, h1⟩, m, h2⟩
    exact ⟨max n m + 1, by rw [buildQuants, ebind_ok]; exact ⟨v, buildQuant_mono (Nat.le_max_left ..) h1,
      buildQuants_mono (Nat.le_max_right ..) h2⟩⟩

theorem bn_mk {i a u} : BN ms (.mk i a) u ↔ ∃ v, Builds ms a v ∧ u = nameTerm i v := by
  constructor
  · rintro ⟨n, h⟩
    cases n with
    | zero => simp [buildNamed] at h
    | succ n =>
      rw [buildNamed, ebind_ok] at h
      obtain ⟨v, h1, h2⟩ := h
      exact ⟨v, ⟨n, h1⟩, by simpa [eq_comm] using h2⟩
  · rintro ⟨v, ⟨n, h1⟩, h2⟩
    exact ⟨n + 1, by rw [buildNamed, ebind_ok]; exact ⟨v, h1, by rw [h2]⟩⟩

theorem bq_sep {op l tr nm t u} : BQ ms (.sep op l tr nm) t u ↔
    ∃ a sep, newAssociativity op = .ok a ∧ BN ms nm sep ∧ u = .delim t sep a l tr := by
  constructor
  · rintro ⟨n, h⟩
    cases n with
    | zero => simp [buildQuant] at h
    | succ n =>
      simp only [buildQuant, ebind_ok, Except.ok.injEq] at h
      obtain ⟨a, h1, v, h2, h3⟩ := h
      exact ⟨a, v, h1, ⟨n, h2⟩, h3.symm⟩
  · rintro ⟨a, v, h1, ⟨n, h2⟩, h3⟩
    exact ⟨n + 1, by simp only [buildQuant, ebind_ok, Except.ok.injEq]; exact ⟨a, h1, v, h2, h3.symm⟩⟩

theorem bq_range {lo hi t u} : BQ ms (.range lo hi) t u ↔ ∃ a b, bound lo = .ok a ∧ bound hi = .ok b ∧ u = .quant t a b := by
  constructor
  · rintro ⟨n, h⟩
    cases n with
    | zero => simp [buildQuant] at h
    | succ n =>
      simp only [buildQuant, ebind_ok, Except.ok.injEq] at h
      obtain ⟨a, h1, b, h2, h3⟩ := h
      exact ⟨a, b, h1, h2, h3.symm⟩
  · rintro ⟨a, b, h1, h2, h3⟩
    exact ⟨1, by simp only [buildQuant, ebind_ok, Except.ok.injEq]; exact ⟨a, h1, b, h2, h3.symm⟩⟩

theorem bq_op {o t u} : BQ ms (.op o) t u ↔ (o = str "*" ∧ u = .quant t 0 0) ∨ (o = str "?" ∧ u = .quant t 0 1) ∨
    (o = str "+" ∧ u = .quant t 1 0) := by
  constructor
  · rintro ⟨n, h⟩
    cases n with
    | zero => simp [buildQuant] at h
    | succ n =>
      simp only [buildQuant] at h
      split at h
      · simp only [Except.ok.injEq] at h; exact Or.inl ⟨by assumption, h.symm⟩
      · split at h
        · simp only [Except.ok.injEq] at h; exact Or.inr (Or.inl ⟨by assumption, h.symm⟩)
        · split at h
          · simp only [Except.ok.injEq] at h; exact Or.inr (Or.inr ⟨by assumption, h.symm⟩)
          · simp at h
  · have e1 : ¬ str "?" = str "*" := by decide
    have e2 : ¬ str "+" = str "*" := by decide
    have e3 : ¬ str "+" = str "?" := by decide
    rintro (⟨rfl, rfl⟩ | ⟨rfl, rfl⟩ | ⟨rfl, rfl⟩)
    · exact ⟨1, by simp [buildQuant, anyT]⟩
    · exact ⟨1, by simp [buildQuant, optT, e1]⟩
    · exact ⟨1, by simp [buildQuant, someT, e2, e3]⟩

theorem ba_term {t u} : Builds ms (.term t) u ↔ BT ms t u := by
  constructor
  · rintro ⟨n, h⟩
    cases n with
    | zero => simp [buildAtom] at h
    | succ n => exact ⟨n, h⟩
  · rintro ⟨n, h⟩
    exact ⟨n + 1, h⟩

theorem ba_look {t u} : Builds ms (.look t) u ↔ ∃ v, BT ms t v ∧ u = .look v := by
  constructor
  · rintro ⟨n, h⟩
    cases n with
    | zero => simp [buildAtom] at h
    | succ n =>
      simp only [buildAtom, ebind_ok, Except.ok.injEq] at h
      obtain ⟨v, h1, h2⟩ := h
      exact ⟨v, ⟨n, h1⟩, h2.symm⟩
  · rintro ⟨v, ⟨n, h1⟩, h2⟩
    exact ⟨n + 1, by simp only [buildAtom, ebind_ok, Except.ok.injEq]; exact ⟨v, h1, h2.symm⟩⟩

theorem ba_ident {i u} : Builds ms (.ident i) u ↔ u = .rule i := by
  constructor
  · rintro ⟨n, h⟩
    cases n with
    | zero => simp [buildAtom] at h
    | succ n => simpa [buildAtom, eq_comm] using h
  · rintro rfl
    exact ⟨1, rfl⟩

/-- The callback of `expandMacro`. -/
def argBuild (ms : Macros) (ps : List Str) (args : List TermN) (n : Nat) (r : Str) : Except Stop Term :=
  match argIndex r ps with
  | none => .ok (.rule r)
  | some i =>
    match args[i]? with
    | none => .error .panic
    | some a => buildTerm ms n a

theorem argBuild_mono {ps : List Str} {args : List TermN} (n m : Nat) (h : n ≤ m) (r : Str) (u : Term)
    (hr : argBuild ms ps args n r = .ok u) : argBuild ms ps args m r = .ok u := by
  unfold argBuild at hr ⊢
  split at hr
  · exact hr
  · split at hr
    · simp at hr
    · exact buildTerm_mono h hr

theorem argBuild_iff {ps : List Str} {args : List TermN} {r : Str} {u : Term} :
    (∃ n, argBuild ms ps args n r = .ok u) ↔ ArgOf ms ps args r u := by
  unfold argBuild ArgOf
  split
  · simp [eq_comm]
  · split
    · simp_all
    · simp_all [BT]

theorem ba_macrocall {m args u} : Builds ms (.macrocall m args) u ↔
    ∃ mc b, lookup m ms = some mc ∧ BT ms mc.body b ∧ b.Subs (ArgOf ms mc.args args) u := by
  constructor
  · rintro ⟨n, h⟩
    cases n with
    | zero => simp [buildAtom] at h
    | succ n =>
      rw [buildAtom] at h
      split at h
      · simp at h
      · rename_i mc hm
        rw [ebind_ok] at h
        obtain ⟨b, h1, h2⟩ := h
        refine ⟨mc, b, hm, ⟨n, h1⟩, ?_⟩
        have := subs_of_expand (f := argBuild ms mc.args args) b h2
        simp only [argBuild_iff] at this
        exact this
  · rintro ⟨mc, b, hm, ⟨n, h1⟩, h2⟩
    have h3 : b.Subs (fun r u => ∃ n, argBuild ms mc.args args n r = .ok u) u := by simp only [argBuild_iff]; exact h2
    obtain ⟨m', h4⟩ := expand_of_subs argBuild_mono b h3
    refine ⟨max n m' + 1, ?_⟩
    rw [buildAtom, hm]
    simp only [ebind_ok]
    exact ⟨b, buildTerm_mono (Nat.le_max_left ..) h1, expand_mono (argBuild_mono _ _ (Nat.le_max_right ..)) b h4⟩

end

end Wbnf

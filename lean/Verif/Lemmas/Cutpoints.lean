import Verif.Model.Cutpoints
import Verif.Spec.Cutpoints
import Verif.Spec.Uncut
import Verif.Spec.WellFormed

/-! What `insertCutPoints` does, term by term. -/

namespace Wbnf

variable {l : Str} {u : Str → Bool}

mutual
theorem countLit_eq : (t : Term) → t.Deep Term.NotCut → t.Deep (Term.Counts l) → t.countLit l = t.lits.count l
  | .s l', _, _ => by
    simp only [Term.countLit, Term.lits]
    by_cases h : l' = l
    · simp [h]
    · simp [h]
  | .seq ts, h1, h2 => countLit_list ts h1.2 h2.2
  | .oneof ts, h1, h2 => countLit_list ts h1.2 h2.2
  | .stack ts, h1, h2 => countLit_list ts h1.2 h2.2
  | .delim t sep a cs ce, h1, h2 => by
    have e1 := countLit_eq t h1.2.1 h2.2.1
    have e2 := countLit_eq sep h1.2.2 h2.2.2
    have h := h2.1
    cases cs with
    | false => simp [Term.countLit, Term.lits, e1, e2]
    | true =>
      have h : l ∉ sep.lits := h
      simp [Term.countLit, Term.lits, e1, e2, List.count_eq_zero.2 h]
  | .look t, _, h2 => by
    have h : l ∉ t.lits := h2.1
    simp only [Term.countLit, Term.lits, List.count_eq_zero.2 h]
  | .quant t _ _, h1, h2 => countLit_eq t h1.2 h2.2
  | .named _ t, h1, h2 => countLit_eq t h1.2 h2.2
  | .scope t g, h1, h2 => by
    have e1 := countLit_eq t h1.2.1 h2.2.1
    have e2 := countLit_defs g h1.2.2 h2.2.2
    have h : (litsDefs g).count l ≤ 1 := h2.1
    simp only [Term.countLit, Term.lits, e1, e2, List.count_append]
    split <;> omega
  | .cut t, h1, _ => absurd h1.1 (by simp [Term.NotCut])
  | .ref _ none, _, _ => rfl
  | .ref _ (some d), h1, _ => by
    obtain ⟨x, rfl⟩ : ∃ x, d = .s x := h1
    simp only [Term.countLit, Term.lits]
    by_cases h : x = l
    · simp [h]
    · simp [h]
  | .rule _, _, _ => rfl
  | .re _, _, _ => rfl
  | .ext _, _, _ => rfl
theorem countLit_list : (ts : List Term) → deepList Term.NotCut ts → deepList (Term.Counts l) ts → countLitList l ts = (litsList ts).count l
  | [], _, _ => rfl
  | t :: ts, h1, h2 => by
    simp only [countLitList, litsList, List.count_append, countLit_eq t h1.1 h2.1, countLit_list ts h1.2 h2.2]
theorem countLit_defs : (g : List (Str × Term)) → deepDefs Term.NotCut g → deepDefs (Term.Counts l) g → countLitDefs l g = (litsDefs g).count l
  | [], _, _ => rfl
  | (r, t) :: g, h1, h2 => by
    simp only [countLitDefs, litsDefs, List.count_append, countLit_eq t h1.1 h2.1, countLit_defs g h1.2 h2.2]
end

mutual
/-- The literals `fixTerm` gets to. -/
def Term.reached : Term → List Str
  | .s l => [l]
  | .seq ts => reachedList ts
  | .oneof ts => reachedList ts
  | .stack ts => reachedList ts
  | .delim t sep _ _ _ => t.reached ++ sep.reached
  | .quant t _ _ => t.reached
  | .named _ t => t.reached
  | .scope t g => t.reached ++ reachedDefs g
  | .cut t => t.reached
  | _ => []
def reachedList : List Term → List Str
  | [] => []
  | t :: ts => t.reached ++ reachedList ts
def reachedDefs : List (Str × Term) → List Str
  | [] => []
  | (_, t) :: g => t.reached ++ reachedDefs g
end

mutual
theorem cutLits_uncut : (t : Term) → t.Deep Term.NotCut → t.cutLits = []
  | .s _, _ => rfl
  | .seq ts, h => cutLitsList_uncut ts h.2
  | .oneof ts, h => cutLitsList_uncut ts h.2
  | .stack ts, h => cutLitsList_uncut ts h.2
  | .delim t sep _ _ _, h => by simp [Term.cutLits, cutLits_uncut t h.2.1, cutLits_uncut sep h.2.2]
  | .look t, h => cutLits_uncut t h.2
  | .quant t _ _, h => cutLits_uncut t h.2
  | .named _ t, h => cutLits_uncut t h.2
  | .scope t g, h => by simp [Term.cutLits, cutLits_uncut t h.2.1, cutLitsDefs_uncut g h.2.2]
  | .cut t, h => absurd h.1 (by simp [Term.NotCut])
  | .ref _ none, _ => rfl
  | .ref _ (some d), h => by
    obtain ⟨x, rfl⟩ : ∃ x, d = .s x := h
    rfl
  | .rule _, _ => rfl
  | .re _, _ => rfl
  | .ext _, _ => rfl
theorem cutLitsList_uncut : (ts : List Term) → deepList Term.NotCut ts → cutLitsList ts = []
  | [], _ => rfl
  | t :: ts, h => by simp [cutLitsList, cutLits_uncut t h.1, cutLitsList_uncut ts h.2]
theorem cutLitsDefs_uncut : (g : List (Str × Term)) → deepDefs Term.NotCut g → cutLitsDefs g = []
  | [], _ => rfl
  | (r, t) :: g, h => by simp [cutLitsDefs, cutLits_uncut t h.1, cutLitsDefs_uncut g h.2]
end

mutual
theorem cutLits_fix : (t : Term) → t.Deep Term.NotCut → (fixTerm (cutLiteral u) true t).cutLits = t.reached.filter u
  | .s l, _ => by
    cases hl : u l <;> simp [fixTerm, cutLiteral, hl, Term.cutLits, Term.reached]
  | .seq ts, h => cutLitsList_fix ts h.2
  | .oneof ts, h => cutLitsList_fix ts h.2
  | .stack ts, h => cutLitsList_fix ts h.2
  | .delim t sep _ _ _, h => by
    simp [fixTerm, cutLiteral, Term.cutLits, Term.reached, cutLits_fix t h.2.1, cutLits_fix sep h.2.2]
  | .look t, h => cutLits_uncut t h.2
  | .quant t _ _, h => cutLits_fix t h.2
  | .named _ t, h => cutLits_fix t h.2
  | .scope t g, h => by
    simp [fixTerm, cutLiteral, Term.cutLits, Term.reached, cutLits_fix t h.2.1, cutLitsDefs_fix g h.2.2]
  | .cut t, h => absurd h.1 (by simp [Term.NotCut])
  | .ref _ none, _ => rfl
  | .ref i (some d), h => cutLits_uncut (.ref i (some d)) h
  | .rule _, _ => rfl
  | .re _, _ => rfl
  | .ext _, _ => rfl
theorem cutLitsList_fix : (ts : List Term) → deepList Term.NotCut ts → cutLitsList (fixTerms (cutLiteral u) true ts) = (reachedList ts).filter u
  | [], _ => rfl
  | t :: ts, h => by simp [fixTerms, cutLitsList, reachedList, cutLits_fix t h.1, cutLitsList_fix ts h.2]
theorem cutLitsDefs_fix : (g : List (Str × Term)) → deepDefs Term.NotCut g → cutLitsDefs (rebuildGrammar (cutLiteral u) true g) = (reachedDefs g).filter u
  | [], _ => rfl
  | (r, t) :: g, h => by simp [rebuildGrammar, cutLitsDefs, reachedDefs, cutLits_fix t h.1, cutLitsDefs_fix g h.2]
end

mutual
theorem reached_sub : (t : Term) → ∀ l ∈ t.reached, l ∈ t.lits
  | .s _, _, h => h
  | .seq ts, l, h => reachedList_sub ts l h
  | .oneof ts, l, h => reachedList_sub ts l h
  | .stack ts, l, h => reachedList_sub ts l h
  | .delim t sep _ _ _, l, h => by
    simp only [Term.reached, Term.lits, List.mem_append] at *
    exact h.imp (reached_sub t l) (reached_sub sep l)
  | .quant t _ _, l, h => reached_sub t l h
  | .named _ t, l, h => reached_sub t l h
  | .scope t g, l, h => by
    simp only [Term.reached, Term.lits, List.mem_append] at *
    exact h.imp (reached_sub t l) (reachedDefs_sub g l)
  | .cut t, l, h => reached_sub t l h
  | .look _, _, h => by simp [Term.reached] at h
  | .ref _ _, _, h => by simp [Term.reached] at h
  | .rule _, _, h => by simp [Term.reached] at h
  | .re _, _, h => by simp [Term.reached] at h
  | .ext _, _, h => by simp [Term.reached] at h
theorem reachedList_sub : (ts : List Term) → ∀ l ∈ reachedList ts, l ∈ litsList ts
  | [], _, h => h
  | t :: ts, l, h => by
    simp only [reachedList, litsList, List.mem_append] at *
    exact h.imp (reached_sub t l) (reachedList_sub ts l)
theorem reachedDefs_sub : (g : List (Str × Term)) → ∀ l ∈ reachedDefs g, l ∈ litsDefs g
  | [], _, h => h
  | (r, t) :: g, l, h => by
    simp only [reachedDefs, litsDefs, List.mem_append] at *
    exact h.imp (reached_sub t l) (reachedDefs_sub g l)
end

mutual
theorem lits_reached : (t : Term) → t.Deep (Term.Counts l) → t.Deep (Term.NoDefault l) → l ∈ t.lits → l ∈ t.reached
  | .s _, _, _, h => h
  | .seq ts, h1, h2, h => litsList_reached ts h1.2 h2.2 h
  | .oneof ts, h1, h2, h => litsList_reached ts h1.2 h2.2 h
  | .stack ts, h1, h2, h => litsList_reached ts h1.2 h2.2 h
  | .delim t sep _ _ _, h1, h2, h => by
    simp only [Term.reached, Term.lits, List.mem_append] at *
    exact h.imp (lits_reached t h1.2.1 h2.2.1) (lits_reached sep h1.2.2 h2.2.2)
  | .quant t _ _, h1, h2, h => lits_reached t h1.2 h2.2 h
  | .named _ t, h1, h2, h => lits_reached t h1.2 h2.2 h
  | .scope t g, h1, h2, h => by
    simp only [Term.reached, Term.lits, List.mem_append] at *
    exact h.imp (lits_reached t h1.2.1 h2.2.1) (litsDefs_reached g h1.2.2 h2.2.2)
  | .cut t, h1, h2, h => lits_reached t h1.2 h2.2 h
  | .look _, h1, _, h => absurd h h1.1
  | .ref _ none, _, _, h => by simp [Term.lits] at h
  | .ref _ (some _), _, h2, h => absurd h h2
  | .rule _, _, _, h => by simp [Term.lits] at h
  | .re _, _, _, h => by simp [Term.lits] at h
  | .ext _, _, _, h => by simp [Term.lits] at h
theorem litsList_reached : (ts : List Term) → deepList (Term.Counts l) ts → deepList (Term.NoDefault l) ts → l ∈ litsList ts → l ∈ reachedList ts
  | [], _, _, h => h
  | t :: ts, h1, h2, h => by
    simp only [reachedList, litsList, List.mem_append] at *
    exact h.imp (lits_reached t h1.1 h2.1) (litsList_reached ts h1.2 h2.2)
theorem litsDefs_reached : (g : List (Str × Term)) → deepDefs (Term.Counts l) g → deepDefs (Term.NoDefault l) g → l ∈ litsDefs g → l ∈ reachedDefs g
  | [], _, _, h => h
  | (r, t) :: g, h1, h2, h => by
    simp only [reachedDefs, litsDefs, List.mem_append] at *
    exact h.imp (lits_reached t h1.1 h2.1) (litsDefs_reached g h1.2 h2.2)
end

mutual
theorem uncut_fix : (t : Term) → (fixTerm (cutLiteral u) true t).uncut = t.uncut
  | .s l => by cases hl : u l <;> simp [fixTerm, cutLiteral, hl, Term.uncut]
  | .seq ts => by simp [fixTerm, Term.uncut, uncutList_fix ts]
  | .oneof ts => by simp [fixTerm, cutLiteral, Term.uncut, uncutList_fix ts]
  | .stack ts => by simp [fixTerm, cutLiteral, Term.uncut, uncutList_fix ts]
  | .delim t sep _ _ _ => by simp [fixTerm, cutLiteral, Term.uncut, uncut_fix t, uncut_fix sep]
  | .look t => rfl
  | .quant t _ _ => by simp [fixTerm, cutLiteral, Term.uncut, uncut_fix t]
  | .named _ t => by simp [fixTerm, cutLiteral, Term.uncut, uncut_fix t]
  | .scope t g => by simp [fixTerm, cutLiteral, Term.uncut, uncut_fix t, uncutDefs_fix g]
  | .cut t => by simp [fixTerm, cutLiteral, Term.uncut, uncut_fix t]
  | .ref _ _ => rfl
  | .rule _ => rfl
  | .re _ => rfl
  | .ext _ => rfl
theorem uncutList_fix : (ts : List Term) → uncutList (fixTerms (cutLiteral u) true ts) = uncutList ts
  | [] => rfl
  | t :: ts => by simp [fixTerms, uncutList, uncut_fix t, uncutList_fix ts]
theorem uncutDefs_fix : (g : List (Str × Term)) → uncutDefs (rebuildGrammar (cutLiteral u) true g) = uncutDefs g
  | [] => rfl
  | (r, t) :: g => by simp [rebuildGrammar, uncutDefs, uncut_fix t, uncutDefs_fix g]
end

mutual
theorem uncut_self : (t : Term) → t.Deep Term.NotCut → t.uncut = t
  | .s _, _ => rfl
  | .seq ts, h => by simp [Term.uncut, uncutList_self ts h.2]
  | .oneof ts, h => by simp [Term.uncut, uncutList_self ts h.2]
  | .stack ts, h => by simp [Term.uncut, uncutList_self ts h.2]
  | .delim t sep _ _ _, h => by simp [Term.uncut, uncut_self t h.2.1, uncut_self sep h.2.2]
  | .look t, h => by simp [Term.uncut, uncut_self t h.2]
  | .quant t _ _, h => by simp [Term.uncut, uncut_self t h.2]
  | .named _ t, h => by simp [Term.uncut, uncut_self t h.2]
  | .scope t g, h => by simp [Term.uncut, uncut_self t h.2.1, uncutDefs_self g h.2.2]
  | .cut t, h => absurd h.1 (by simp [Term.NotCut])
  | .ref _ _, _ => rfl
  | .rule _, _ => rfl
  | .re _, _ => rfl
  | .ext _, _ => rfl
theorem uncutList_self : (ts : List Term) → deepList Term.NotCut ts → uncutList ts = ts
  | [], _ => rfl
  | t :: ts, h => by simp [uncutList, uncut_self t h.1, uncutList_self ts h.2]
theorem uncutDefs_self : (g : List (Str × Term)) → deepDefs Term.NotCut g → uncutDefs g = g
  | [], _ => rfl
  | (r, t) :: g, h => by simp [uncutDefs, uncut_self t h.1, uncutDefs_self g h.2]
end

mutual
theorem onLits_uncut : (t : Term) → t.Deep Term.NotCut → t.Deep Term.CutsLiteral
  | .s _, _ => trivial
  | .seq ts, h => ⟨trivial, onLitsList_uncut ts h.2⟩
  | .oneof ts, h => ⟨trivial, onLitsList_uncut ts h.2⟩
  | .stack ts, h => ⟨trivial, onLitsList_uncut ts h.2⟩
  | .delim t sep _ _ _, h => ⟨trivial, onLits_uncut t h.2.1, onLits_uncut sep h.2.2⟩
  | .look t, h => ⟨trivial, onLits_uncut t h.2⟩
  | .quant t _ _, h => ⟨trivial, onLits_uncut t h.2⟩
  | .named _ t, h => ⟨trivial, onLits_uncut t h.2⟩
  | .scope t g, h => ⟨trivial, onLits_uncut t h.2.1, onLitsDefs_uncut g h.2.2⟩
  | .cut t, h => absurd h.1 (by simp [Term.NotCut])
  | .ref _ _, _ => trivial
  | .rule _, _ => trivial
  | .re _, _ => trivial
  | .ext _, _ => trivial
theorem onLitsList_uncut : (ts : List Term) → deepList Term.NotCut ts → deepList Term.CutsLiteral ts
  | [], _ => trivial
  | t :: ts, h => ⟨onLits_uncut t h.1, onLitsList_uncut ts h.2⟩
theorem onLitsDefs_uncut : (g : List (Str × Term)) → deepDefs Term.NotCut g → deepDefs Term.CutsLiteral g
  | [], _ => trivial
  | (_, t) :: g, h => ⟨onLits_uncut t h.1, onLitsDefs_uncut g h.2⟩
end

mutual
theorem onLits_fix : (t : Term) → t.Deep Term.NotCut → (fixTerm (cutLiteral u) true t).Deep Term.CutsLiteral
  | .s l, _ => by
    cases hl : u l with
    | false => simp [fixTerm, cutLiteral, hl, Term.Deep, Term.CutsLiteral]
    | true => simp [fixTerm, cutLiteral, hl, Term.Deep, Term.CutsLiteral]
  | .seq ts, h => ⟨trivial, onLitsList_fix ts h.2⟩
  | .oneof ts, h => ⟨trivial, onLitsList_fix ts h.2⟩
  | .stack ts, h => ⟨trivial, onLitsList_fix ts h.2⟩
  | .delim t sep _ _ _, h => ⟨trivial, onLits_fix t h.2.1, onLits_fix sep h.2.2⟩
  | .look t, h => ⟨trivial, onLits_uncut t h.2⟩
  | .quant t _ _, h => ⟨trivial, onLits_fix t h.2⟩
  | .named _ t, h => ⟨trivial, onLits_fix t h.2⟩
  | .scope t g, h => ⟨trivial, onLits_fix t h.2.1, onLitsDefs_fix g h.2.2⟩
  | .cut t, h => absurd h.1 (by simp [Term.NotCut])
  | .ref _ _, _ => trivial
  | .rule _, _ => trivial
  | .re _, _ => trivial
  | .ext _, _ => trivial
theorem onLitsList_fix : (ts : List Term) → deepList Term.NotCut ts → deepList Term.CutsLiteral (fixTerms (cutLiteral u) true ts)
  | [], _ => trivial
  | t :: ts, h => ⟨onLits_fix t h.1, onLitsList_fix ts h.2⟩
theorem onLitsDefs_fix : (g : List (Str × Term)) → deepDefs Term.NotCut g → deepDefs Term.CutsLiteral (rebuildGrammar (cutLiteral u) true g)
  | [], _ => trivial
  | (_, t) :: g, h => ⟨onLits_fix t h.1, onLitsDefs_fix g h.2⟩
end

theorem headRule_fix : (t : Term) → t.Deep Term.NotCut → (fixTerm (cutLiteral u) true t).headRule = t.headRule
  | .s l, _ => by cases hl : u l <;> simp [fixTerm, cutLiteral, hl, Term.headRule]
  | .named _ t, h => headRule_fix t h.2
  | .seq _, _ => rfl
  | .oneof _, _ => rfl
  | .stack _, _ => rfl
  | .delim _ _ _ _ _, _ => rfl
  | .look _, _ => rfl
  | .quant _ _ _, _ => rfl
  | .scope _ _, _ => rfl
  | .cut _, _ => rfl
  | .ref _ _, _ => rfl
  | .rule _, _ => rfl
  | .re _, _ => rfl
  | .ext _, _ => rfl

theorem hasKey_rebuild {f : Term → Term} {d : Bool} (r : Str) : (g : List (Str × Term)) → hasKey r (rebuildGrammar f d g) = hasKey r g
  | [] => rfl
  | (r', t) :: g => by
    have := hasKey_rebuild (f := f) (d := d) r g
    simp only [hasKey, rebuildGrammar, lookup] at *
    split <;> simp_all

theorem hard_fix : (t : Term) → t.Deep Term.NotCut → (fixTerm (cutLiteral u) true t).hard = t.hard
  | .s l, _ => by cases hl : u l <;> simp [fixTerm, cutLiteral, hl, Term.hard]
  | .named _ t, h => hard_fix t h.2
  | .seq _, _ => rfl
  | .oneof _, _ => rfl
  | .stack _, _ => rfl
  | .delim _ _ _ _ _, _ => rfl
  | .look _, _ => rfl
  | .quant _ _ _, _ => rfl
  | .scope t g, h => by
    simp only [fixTerm, cutLiteral, Term.hard, hard_fix t h.2.1, headRule_fix t h.2.1, if_true]
    cases t.headRule with
    | none => rfl
    | some r => simp only [hasKey_rebuild]
  | .cut _, h => absurd h.1 (by simp [Term.NotCut])
  | .ref _ _, _ => rfl
  | .rule _, _ => rfl
  | .re _, _ => rfl
  | .ext _, _ => rfl

theorem hardOrRule_fix (t : Term) (h : t.Deep Term.NotCut) : (fixTerm (cutLiteral u) true t).hardOrRule = t.hardOrRule := by
  have e := hard_fix (u := u) t h
  cases t with
  | s l => cases hl : u l <;> simp [fixTerm, cutLiteral, hl, Term.hardOrRule, Term.hard]
  | rule => rfl
  | _ => exact e

theorem layers_fix : (ts : List Term) → deepList Term.NotCut ts → (fixTerms (cutLiteral u) true ts).all Term.hardOrRule = ts.all Term.hardOrRule
  | [], _ => rfl
  | t :: ts, h => by simp [fixTerms, hardOrRule_fix t h.1, layers_fix ts h.2]

theorem defOK_fix (t : Term) (h : t.Deep Term.NotCut) : (fixTerm (cutLiteral u) true t).defOK = t.defOK := by
  have e := hardOrRule_fix (u := u) t h
  cases t with
  | s l => cases hl : u l <;> simp [fixTerm, cutLiteral, hl, Term.defOK, Term.hardOrRule, Term.hard]
  | stack ts => exact layers_fix ts h.2
  | _ => exact e

mutual
theorem wf_fix : (t : Term) → t.Deep Term.NotCut → (fixTerm (cutLiteral u) true t).wf = t.wf
  | .s l, _ => by cases hl : u l <;> simp [fixTerm, cutLiteral, hl, Term.wf, Term.hard]
  | .seq ts, h => wfList_fix ts h.2
  | .oneof ts, h => wfList_fix ts h.2
  | .stack ts, h => wfList_fix ts h.2
  | .delim t sep _ _ _, h => by simp [fixTerm, cutLiteral, Term.wf, wf_fix t h.2.1, wf_fix sep h.2.2]
  | .look _, _ => rfl
  | .quant t _ _, h => wf_fix t h.2
  | .named _ t, h => wf_fix t h.2
  | .scope t g, h => by simp [fixTerm, cutLiteral, Term.wf, wf_fix t h.2.1, wfDefs_fix g h.2.2]
  | .cut _, h => absurd h.1 (by simp [Term.NotCut])
  | .ref _ _, _ => rfl
  | .rule _, _ => rfl
  | .re _, _ => rfl
  | .ext _, _ => rfl
theorem wfList_fix : (ts : List Term) → deepList Term.NotCut ts → wfList (fixTerms (cutLiteral u) true ts) = wfList ts
  | [], _ => rfl
  | t :: ts, h => by simp [fixTerms, wfList, wf_fix t h.1, wfList_fix ts h.2]
theorem wfDefs_fix : (g : List (Str × Term)) → deepDefs Term.NotCut g → wfDefs (rebuildGrammar (cutLiteral u) true g) = wfDefs g
  | [], _ => rfl
  | (r, t) :: g, h => by simp [rebuildGrammar, wfDefs, defOK_fix t h.1, wf_fix t h.1, wfDefs_fix g h.2]
end

mutual
/-- Without literals to reach, nothing is changed. -/
theorem fix_same : (t : Term) → t.lits = [] → fixTerm (cutLiteral u) true t = t
  | .s _, h => by simp [Term.lits] at h
  | .seq ts, h => by simp [fixTerm, fixTerms_same ts h]
  | .oneof ts, h => by simp [fixTerm, cutLiteral, fixTerms_same ts h]
  | .stack ts, h => by simp [fixTerm, cutLiteral, fixTerms_same ts h]
  | .delim t sep _ _ _, h => by
    simp only [Term.lits, List.append_eq_nil_iff] at h
    simp [fixTerm, cutLiteral, fix_same t h.1, fix_same sep h.2]
  | .look _, _ => rfl
  | .quant t _ _, h => by simp [fixTerm, cutLiteral, fix_same t h]
  | .named _ t, h => by simp [fixTerm, cutLiteral, fix_same t h]
  | .scope t g, h => by
    simp only [Term.lits, List.append_eq_nil_iff] at h
    simp [fixTerm, cutLiteral, fix_same t h.1, rebuild_same g h.2]
  | .cut t, h => by simp [fixTerm, cutLiteral, fix_same t h]
  | .ref _ _, _ => rfl
  | .rule _, _ => rfl
  | .re _, _ => rfl
  | .ext _, _ => rfl
theorem fixTerms_same : (ts : List Term) → litsList ts = [] → fixTerms (cutLiteral u) true ts = ts
  | [], _ => rfl
  | t :: ts, h => by
    simp only [litsList, List.append_eq_nil_iff] at h
    simp [fixTerms, fix_same t h.1, fixTerms_same ts h.2]
theorem rebuild_same : (g : List (Str × Term)) → litsDefs g = [] → rebuildGrammar (cutLiteral u) true g = g
  | [], _ => rfl
  | (r, t) :: g, h => by
    simp only [litsDefs, List.append_eq_nil_iff] at h
    simp [rebuildGrammar, fix_same t h.1, rebuild_same g h.2]
end

theorem rebuild_mem {f : Term → Term} {d : Bool} {r : Str} {w : Term} : (g : List (Str × Term)) → (r, w) ∈ rebuildGrammar f d g →
    ∃ t, (r, t) ∈ g ∧ w = fixTerm f d t
  | [], h => by simp [rebuildGrammar] at h
  | (r', t) :: g, h => by
    simp only [rebuildGrammar, List.mem_cons, Prod.mk.injEq] at h
    rcases h with ⟨rfl, rfl⟩ | h
    · exact ⟨t, by simp, rfl⟩
    · obtain ⟨t', h1, h2⟩ := rebuild_mem g h
      exact ⟨t', by simp [h1], h2⟩

theorem uncut_member {r : Str} {w : Term} : {g : List (Str × Term)} → deepDefs Term.NotCut g → (r, w) ∈ g → w.Deep Term.NotCut
  | (r', t) :: g, h, hm => by
    simp only [List.mem_cons, Prod.mk.injEq] at hm
    rcases hm with ⟨rfl, rfl⟩ | hm
    · exact h.1
    · exact uncut_member h.2 hm

theorem wrapUncut_fix {g : Grammar} (h : g.Uncut) (hw : g.WrapNoLits) : Grammar.WrapUncut (rebuildGrammar (cutLiteral u) true g) := by
  intro w hm
  obtain ⟨t, h1, rfl⟩ := rebuild_mem g hm
  rw [uncut_fix, fix_same t (hw t h1)]
  exact uncut_self t (uncut_member h h1)

mutual
theorem plain_uncut : (t : Term) → t.Deep Term.NotCut → t.Deep Term.PlainCut
  | .s _, _ => trivial
  | .seq ts, h => ⟨trivial, plainList_uncut ts h.2⟩
  | .oneof ts, h => ⟨trivial, plainList_uncut ts h.2⟩
  | .stack ts, h => ⟨trivial, plainList_uncut ts h.2⟩
  | .delim t sep _ _ _, h => ⟨trivial, plain_uncut t h.2.1, plain_uncut sep h.2.2⟩
  | .look t, h => ⟨trivial, plain_uncut t h.2⟩
  | .quant t _ _, h => ⟨trivial, plain_uncut t h.2⟩
  | .named _ t, h => ⟨trivial, plain_uncut t h.2⟩
  | .scope t g, h => ⟨fun _ hm => uncut_self _ (uncut_member h.2.2 hm), plain_uncut t h.2.1, plainDefs_uncut g h.2.2⟩
  | .cut t, h => absurd h.1 (by simp [Term.NotCut])
  | .ref _ _, _ => trivial
  | .rule _, _ => trivial
  | .re _, _ => trivial
  | .ext _, _ => trivial
theorem plainList_uncut : (ts : List Term) → deepList Term.NotCut ts → deepList Term.PlainCut ts
  | [], _ => trivial
  | t :: ts, h => ⟨plain_uncut t h.1, plainList_uncut ts h.2⟩
theorem plainDefs_uncut : (g : List (Str × Term)) → deepDefs Term.NotCut g → deepDefs Term.PlainCut g
  | [], _ => trivial
  | (_, t) :: g, h => ⟨plain_uncut t h.1, plainDefs_uncut g h.2⟩
end

mutual
theorem plain_fix : (t : Term) → t.Deep Term.NotCut → t.Deep Term.WrapNoLits → (fixTerm (cutLiteral u) true t).Deep Term.PlainCut
  | .s l, _, _ => by
    cases hl : u l with
    | false => simp [fixTerm, cutLiteral, hl, Term.Deep, Term.PlainCut]
    | true => simp [fixTerm, cutLiteral, hl, Term.Deep, Term.PlainCut, Term.uncut, identFromTerm]
  | .seq ts, h, h' => ⟨trivial, plainList_fix ts h.2 h'.2⟩
  | .oneof ts, h, h' => ⟨trivial, plainList_fix ts h.2 h'.2⟩
  | .stack ts, h, h' => ⟨trivial, plainList_fix ts h.2 h'.2⟩
  | .delim t sep _ _ _, h, h' => ⟨trivial, plain_fix t h.2.1 h'.2.1, plain_fix sep h.2.2 h'.2.2⟩
  | .look t, h, _ => ⟨trivial, plain_uncut t h.2⟩
  | .quant t _ _, h, h' => ⟨trivial, plain_fix t h.2 h'.2⟩
  | .named _ t, h, h' => ⟨trivial, plain_fix t h.2 h'.2⟩
  | .scope t g, h, h' => ⟨wrapUncut_fix h.2.2 h'.1, plain_fix t h.2.1 h'.2.1, plainDefs_fix g h.2.2 h'.2.2⟩
  | .cut t, h, _ => absurd h.1 (by simp [Term.NotCut])
  | .ref _ _, _, _ => trivial
  | .rule _, _, _ => trivial
  | .re _, _, _ => trivial
  | .ext _, _, _ => trivial
theorem plainList_fix : (ts : List Term) → deepList Term.NotCut ts → deepList Term.WrapNoLits ts → deepList Term.PlainCut (fixTerms (cutLiteral u) true ts)
  | [], _, _ => trivial
  | t :: ts, h, h' => ⟨plain_fix t h.1 h'.1, plainList_fix ts h.2 h'.2⟩
theorem plainDefs_fix : (g : List (Str × Term)) → deepDefs Term.NotCut g → deepDefs Term.WrapNoLits g → deepDefs Term.PlainCut (rebuildGrammar (cutLiteral u) true g)
  | [], _, _ => trivial
  | (_, t) :: g, h, h' => ⟨plain_fix t h.1 h'.1, plainDefs_fix g h.2 h'.2⟩
end

mutual
theorem reached_count : (t : Term) → t.reached.count l ≤ t.lits.count l
  | .s _ => Nat.le_refl _
  | .seq ts => reachedList_count ts
  | .oneof ts => reachedList_count ts
  | .stack ts => reachedList_count ts
  | .delim t sep _ _ _ => by
    have h1 := reached_count t
    have h2 := reached_count sep
    simp only [Term.reached, Term.lits, List.count_append]; omega
  | .look _ => Nat.zero_le _
  | .quant t _ _ => reached_count t
  | .named _ t => reached_count t
  | .scope t g => by
    have h1 := reached_count t
    have h2 := reachedDefs_count g
    simp only [Term.reached, Term.lits, List.count_append]; omega
  | .cut t => reached_count t
  | .ref _ _ => Nat.zero_le _
  | .rule _ => Nat.zero_le _
  | .re _ => Nat.zero_le _
  | .ext _ => Nat.zero_le _
theorem reachedList_count : (ts : List Term) → (reachedList ts).count l ≤ (litsList ts).count l
  | [] => Nat.le_refl _
  | t :: ts => by
    have h1 := reached_count t
    have h2 := reachedList_count ts
    simp only [reachedList, litsList, List.count_append]; omega
theorem reachedDefs_count : (g : List (Str × Term)) → (reachedDefs g).count l ≤ (litsDefs g).count l
  | [] => Nat.le_refl _
  | (_, t) :: g => by
    have h1 := reached_count t
    have h2 := reachedDefs_count g
    simp only [reachedDefs, litsDefs, List.count_append]; omega
end

mutual
theorem openLits_le : (t : Term) → t.Deep Term.NotCut → t.openLits.count l ≤ t.countLit l
  | .s l', _ => by
    simp only [Term.countLit, Term.openLits]
    by_cases h : l' = l
    · simp [h]
    · simp [h]
  | .seq ts, h => openLitsList_le ts h.2
  | .oneof ts, h => openLitsList_le ts h.2
  | .stack ts, h => openLitsList_le ts h.2
  | .delim t sep _ cs _, h => by
    have h1 := openLits_le t h.2.1
    have h2 := openLits_le sep h.2.2
    simp only [Term.countLit, Term.openLits, List.count_append]
    cases cs <;> simp <;> omega
  | .look _, _ => Nat.zero_le _
  | .quant t _ _, h => openLits_le t h.2
  | .named _ t, h => openLits_le t h.2
  | .scope t g, h => by
    have h1 := openLits_le t h.2.1
    simp only [Term.countLit, Term.openLits]; omega
  | .cut t, h => openLits_le t h.2
  | .ref _ none, _ => Nat.zero_le _
  | .ref _ (some d), h => by
    obtain ⟨x, rfl⟩ : ∃ x, d = .s x := h
    simp only [Term.countLit, Term.openLits]
    by_cases h : x = l
    · simp [h]
    · simp [h]
  | .rule _, _ => Nat.zero_le _
  | .re _, _ => Nat.zero_le _
  | .ext _, _ => Nat.zero_le _
theorem openLitsList_le : (ts : List Term) → deepList Term.NotCut ts → (openLitsList ts).count l ≤ countLitList l ts
  | [], _ => Nat.le_refl _
  | t :: ts, h => by
    have h1 := openLits_le t h.1
    have h2 := openLitsList_le ts h.2
    simp only [openLitsList, countLitList, List.count_append]; omega
end

theorem openLitsDefs_le : (g : List (Str × Term)) → deepDefs Term.NotCut g → (openLitsDefs g).count l ≤ countLitDefs l g
  | [], _ => Nat.le_refl _
  | (_, t) :: g, h => by
    have h1 := openLits_le (l := l) t h.1
    have h2 := openLitsDefs_le g h.2
    simp only [openLitsDefs, countLitDefs, List.count_append]; omega

end Wbnf

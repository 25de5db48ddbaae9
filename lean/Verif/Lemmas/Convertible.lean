import Verif.Spec.Ast
import Verif.Lemmas.Deep
import Verif.Lemmas.Parts
import Verif.Lemmas.DecEq

/-!
# Checking that the trees of a grammar convert
-/

namespace Wbnf

mutual
def Term.deepB (P : Term → Bool) : Term → Bool
  | .seq ts => P (.seq ts) && deepListB P ts
  | .oneof ts => P (.oneof ts) && deepListB P ts
  | .stack ts => P (.stack ts) && deepListB P ts
  | .delim t sep a cs ce => P (.delim t sep a cs ce) && (t.deepB P && sep.deepB P)
  | .look t => P (.look t) && t.deepB P
  | .quant t lo hi => P (.quant t lo hi) && t.deepB P
  | .named n t => P (.named n t) && t.deepB P
  | .cut t => P (.cut t) && t.deepB P
  | .scope t g => P (.scope t g) && (t.deepB P && deepDefsB P g)
  | .rule r => P (.rule r)
  | .s l => P (.s l)
  | .re l => P (.re l)
  | .ref i d => P (.ref i d)
  | .ext x => P (.ext x)
def deepListB (P : Term → Bool) : List Term → Bool
  | [] => true
  | t :: ts => t.deepB P && deepListB P ts
def deepDefsB (P : Term → Bool) : List (Str × Term) → Bool
  | [] => true
  | (_, t) :: g => t.deepB P && deepDefsB P g
end

section
variable {P : Term → Bool} {Q : Term → Prop} (h : ∀ t, P t = true → Q t)
include h

mutual
theorem deep_of_deepB : (t : Term) → t.deepB P = true → t.Deep Q
  | .seq ts, ht => by simp only [Term.deepB, Bool.and_eq_true] at ht; exact ⟨h _ ht.1, deepList_of_deepListB ts ht.2⟩
  | .oneof ts, ht => by simp only [Term.deepB, Bool.and_eq_true] at ht; exact ⟨h _ ht.1, deepList_of_deepListB ts ht.2⟩
  | .stack ts, ht => by simp only [Term.deepB, Bool.and_eq_true] at ht; exact ⟨h _ ht.1, deepList_of_deepListB ts ht.2⟩
  | .delim t s _ _ _, ht => by
    simp only [Term.deepB, Bool.and_eq_true] at ht; exact ⟨h _ ht.1, deep_of_deepB t ht.2.1, deep_of_deepB s ht.2.2⟩
  | .look t, ht => by simp only [Term.deepB, Bool.and_eq_true] at ht; exact ⟨h _ ht.1, deep_of_deepB t ht.2⟩
  | .quant t _ _, ht => by simp only [Term.deepB, Bool.and_eq_true] at ht; exact ⟨h _ ht.1, deep_of_deepB t ht.2⟩
  | .named _ t, ht => by simp only [Term.deepB, Bool.and_eq_true] at ht; exact ⟨h _ ht.1, deep_of_deepB t ht.2⟩
  | .cut t, ht => by simp only [Term.deepB, Bool.and_eq_true] at ht; exact ⟨h _ ht.1, deep_of_deepB t ht.2⟩
  | .scope t g, ht => by
    simp only [Term.deepB, Bool.and_eq_true] at ht; exact ⟨h _ ht.1, deep_of_deepB t ht.2.1, deepDefs_of_deepDefsB g ht.2.2⟩
  | .rule _, ht => h _ ht
  | .s _, ht => h _ ht
  | .re _, ht => h _ ht
  | .ref _ _, ht => h _ ht
  | .ext _, ht => h _ ht
theorem deepList_of_deepListB : (ts : List Term) → deepListB P ts = true → deepList Q ts
  | [], _ => trivial
  | t :: ts, ht => by simp only [deepListB, Bool.and_eq_true] at ht; exact ⟨deep_of_deepB t ht.1, deepList_of_deepListB ts ht.2⟩
theorem deepDefs_of_deepDefsB : (g : List (Str × Term)) → deepDefsB P g = true → deepDefs Q g
  | [], _ => trivial
  | (_, t) :: g, ht => by simp only [deepDefsB, Bool.and_eq_true] at ht; exact ⟨deep_of_deepB t ht.1, deepDefs_of_deepDefsB g ht.2⟩
end
end

def Term.apartB (t : Term) : Bool :=
  (t.partNames.all fun p => t.partNames.all fun q => decide (p.1 = q.1) == decide (p.2 = q.2)) &&
  t.partNames.all fun p => p.2 ≠ choiceTag && p.2 ≠ emptyTag && p.2 ≠ ruleTag

theorem apart_of_apartB {t : Term} (h : t.apartB = true) : t.NamesApart := by
  simp only [Term.apartB, Bool.and_eq_true, List.all_eq_true, beq_iff_eq, decide_eq_decide, decide_eq_true_eq] at h
  exact ⟨h.1, fun p hp => ⟨(h.2 p hp).1.1, (h.2 p hp).1.2, (h.2 p hp).2⟩⟩

def Term.isDelim : Term → Bool
  | .delim _ _ _ _ _ => true
  | _ => false

def nodupB : List Str → Bool
  | [] => true
  | a :: l => !l.contains a && nodupB l

theorem nodup_of_nodupB : {l : List Str} → nodupB l = true → l.Nodup
  | [], _ => .nil
  | a :: l, h => by
    simp only [nodupB, Bool.and_eq_true, Bool.not_eq_true', List.contains_eq_mem, decide_eq_false_iff_not] at h
    exact List.nodup_cons.2 ⟨h.1, nodup_of_nodupB h.2⟩

def Term.convertsB : Term → Bool
  | .ext _ => false
  | .scope _ g => nodupB (g.map Prod.fst) && g.all fun e => !e.2.isStack
  | .stack _ => false
  | .delim _ sep a _ _ => a ≠ 1 && a ≠ -1 && !sep.isDelim
  | .oneof ts => !ts.isEmpty
  | .quant _ lo hi => hi = 0 || lo ≤ hi
  | .rule r => match unlevel r with | .ok _ => true | .error _ => false
  | .named _ t => t.apartB
  | _ => true

theorem converts_of_convertsB {t : Term} (h : t.convertsB = true) : t.Converts := by
  cases t with
  | ext => simp [Term.convertsB] at h
  | stack => simp [Term.convertsB] at h
  | scope t g =>
    simp only [Term.convertsB, Bool.and_eq_true, List.all_eq_true, Bool.not_eq_true'] at h
    exact ⟨nodup_of_nodupB h.1, fun r ts hm => by simpa [Term.isStack] using h.2 _ hm⟩
  | delim t sep a cs ce =>
    simp only [Term.convertsB, Bool.and_eq_true, decide_eq_true_eq, Bool.not_eq_true'] at h
    refine ⟨h.1.1, h.1.2, ?_⟩
    rintro ⟨_, _, _, _, _, rfl⟩
    simp [Term.isDelim] at h
  | oneof ts =>
    simp only [Term.Converts]
    rintro rfl
    simp [Term.convertsB] at h
  | quant t lo hi => simpa [Term.convertsB, Term.Converts] using h
  | rule r =>
    simp only [Term.convertsB] at h
    split at h
    · next x hx => exact ⟨x, hx⟩
    · cases h
  | named n t => exact apart_of_apartB h
  | _ => trivial

def Term.bracesB (G : Grammar) : Term → Bool
  | .scope _ g => g.all fun e => decide (lookup e.1 G = some e.2)
  | _ => true

theorem braces_of_bracesB {G : Grammar} {t : Term} (h : t.bracesB G = true) : t.BracesIn G := by
  cases t with
  | scope t g =>
    simp only [Term.bracesB, List.all_eq_true, decide_eq_true_eq] at h
    exact fun r t hl => h (r, t) (lookup_mem hl)
  | _ => trivial

/-- A check of `Grammar.ConvertibleIn`. -/
def Grammar.convertibleB (g G : Grammar) : Bool :=
  (g.all fun e => decide (lookup e.1 G = some e.2)) && (deepDefsB (Term.bracesB G) G && (deepDefsB Term.convertsB G && G.all fun e => e.2.apartB))

theorem convertible_of_convertibleB {g G : Grammar} (h : Grammar.convertibleB g G = true) : g.ConvertibleIn G := by
  simp only [Grammar.convertibleB, Bool.and_eq_true] at h
  obtain ⟨h1, h2, h3, h4⟩ := h
  refine ⟨fun r t hl => ?_, deepDefs_of_deepDefsB (fun _ => braces_of_bracesB) G h2, deepDefs_of_deepDefsB (fun _ => converts_of_convertsB) G h3,
    fun k t hm => apart_of_apartB (List.all_eq_true.1 h4 _ hm)⟩
  simpa using List.all_eq_true.1 h1 _ (lookup_mem hl)

end Wbnf

import Verif.Spec.Macro
import Verif.Lemmas.Outer
import Verif.Lemmas.Compile

/-!
# Which macros are collected
-/

namespace Wbnf

theorem calls_append {σ : Type} {ops : WalkerOps σ} : (es fs : List Event) → (s : σ) →
    ops.callAll (es ++ fs) s = ops.callAll fs (ops.callAll es s)
  | [], _, _ => rfl
  | e :: es, fs, s => calls_append es fs _

/-- Collect macros: a later one replaces an earlier one. -/
def collect (l : List (Str × Macro)) (ms : Macros) : Macros := l.foldl (fun ms p => mapSet p.1 p.2 ms) ms

theorem collect_append (l l' : List (Str × Macro)) (ms : Macros) : collect (l ++ l') ms = collect l' (collect l ms) := by
  simp [collect]

/-- Walking over these trees collects these macros. -/
def Collects (ts : List WTree) (l : List (Str × Macro)) : Prop :=
  ∀ ms, macroOps.callAll (eventsOf (fun _ => false) ts) ms = collect l ms

theorem Collects.nil : Collects [] [] := fun _ => rfl

theorem Collects.append : {ts us : List WTree} → {l l' : List (Str × Macro)} → Collects ts l → Collects us l' → Collects (ts ++ us) (l ++ l') := by
  intro ts us l l' h h' ms
  have : eventsOf (fun _ => false) (ts ++ us) = eventsOf (fun _ => false) ts ++ eventsOf (fun _ => false) us := by
    clear h
    induction ts with
    | nil => rfl
    | cons t ts ih => simp [eventsOf, ih]
  rw [this, calls_append, h, h', collect_append]

theorem Collects.cons {t : WTree} {ts l l'} (h : Collects [t] l) (h' : Collects ts l') : Collects (t :: ts) (l ++ l') := h.append h'

/-- A node that is not a macro. -/
theorem Collects.node {i : Item} {ks l} (hi : i.leaf = false) (hm : ∀ m as t, i ≠ .macrodef m as t) (h : Collects ks l) : Collects [.mk i ks] l := by
  intro ms
  have he : macroOps.enter i ms = (ms, none) := by
    cases i <;> first | rfl | exact absurd rfl (hm _ _ _)
  simp only [eventsOf, WTree.events, hi, Bool.or_false, Bool.false_eq_true, if_false, List.append_nil, WalkerOps.callAll]
  rw [calls_append]
  simp only [WalkerOps.call, he, WalkerOps.callAll, h ms]
  rfl

theorem Collects.tip {i : Item} (hi : i.leaf = true) (hm : ∀ m as t, i ≠ .macrodef m as t) : Collects [.tip i] [] := by
  intro ms
  have he : macroOps.enter i ms = (ms, none) := by
    cases i <;> first | rfl | exact absurd rfl (hm _ _ _)
  simp only [WTree.tip, eventsOf, WTree.events, hi, Bool.true_or, if_true, List.append_nil, WalkerOps.callAll, WalkerOps.call, he]
  rfl

theorem Collects.tips {mk : Str → Item} (hi : ∀ x, (mk x).leaf = true) (hm : ∀ x m as t, mk x ≠ .macrodef m as t) :
    (o : Option Str) → Collects (tipOf mk o) []
  | none => .nil
  | some x => .tip (hi x) (hm x)

theorem Collects.idents : (as : List Str) → Collects (as.map fun a => .tip (.ident a)) []
  | [] => .nil
  | _ :: as => Collects.cons (.tip rfl (by simp)) (Collects.idents as)

mutual
theorem TermN.collects : (t : TermN) → Collects [t.tree] t.macros
  | .many op gs ts => .node rfl (by simp) ((collects_grammars gs).append (collects_terms ts))
  | .one n qs => .node rfl (by simp) (.cons n.collects (collects_quants qs))
theorem NamedN.collects : (n : NamedN) → Collects [n.tree] n.macros
  | .mk i a => by
    rw [NamedN.macros, ← List.append_nil a.macros]
    exact .node rfl (by simp) (.cons a.collects (.tips (fun _ => rfl) (by simp) i))
theorem AtomN.collects : (a : AtomN) → Collects [a.tree] a.macros
  | .ident i => .node rfl (by simp) (.tip rfl (by simp))
  | .str x => .node rfl (by simp) (.tip rfl (by simp))
  | .re x => .node rfl (by simp) (.tip rfl (by simp))
  | .macrocall m ts => .node rfl (by simp) (.node rfl (by simp) (Collects.cons (l := []) (.tip rfl (by simp)) (collects_terms ts)))
  | .ext i => .node rfl (by simp) (.node rfl (by simp) (.tip rfl (by simp)))
  | .ref i d => .node rfl (by simp) (.node rfl (by simp) (Collects.append (l := []) (.tips (fun _ => rfl) (by simp) d) (.tip rfl (by simp))))
  | .look t => .node rfl (by simp) t.collects
  | .term t => .node rfl (by simp) t.collects
  | .unit => .node rfl (by simp) .nil
theorem QuantN.collects : (q : QuantN) → Collects [q.tree] q.macros
  | .op o => .node rfl (by simp) .nil
  | .range lo hi => .node rfl (by simp) (Collects.append (l := []) (.tips (fun _ => rfl) (by simp) hi) (.tips (fun _ => rfl) (by simp) lo))
  | .sep o l t n => .node rfl (by simp) n.collects
theorem StmtN.collects : (s : StmtN) → Collects [s.tree] s.macros
  | .comment x => .node rfl (by simp) (.tip rfl (by simp))
  | .prod i ts => .node rfl (by simp) (.node rfl (by simp) (Collects.cons (l := []) (.tip rfl (by simp)) (collects_terms ts)))
  | .imp p => .node rfl (by simp) (.node rfl (by simp) (.node rfl (by simp) (.node rfl (by simp) .nil)))
  | .macrodef m as t => .node rfl (by simp) (.node rfl (by simp) (by
    have h : Collects (as.map (fun a => .tip (.ident a)) ++ [.tip (.ident m), t.tree]) t.macros :=
      Collects.append (l := []) (.idents as) (Collects.cons (l := []) (.tip rfl (by simp)) t.collects)
    intro ms
    simp only [eventsOf, WTree.events, Item.leaf, Bool.or_false, Bool.false_eq_true, if_false, List.append_nil, WalkerOps.callAll]
    rw [calls_append, h]
    rfl))
theorem GrammarN.collects : (g : GrammarN) → Collects [g.tree] g.macros
  | .mk ss => .node rfl (by simp) (collects_stmts ss)
theorem collects_terms : (ts : List TermN) → Collects (termTrees ts) (macrosTerms ts)
  | [] => .nil
  | t :: ts => .cons t.collects (collects_terms ts)
theorem collects_quants : (qs : List QuantN) → Collects (quantTrees qs) (macrosQuants qs)
  | [] => .nil
  | q :: qs => .cons q.collects (collects_quants qs)
theorem collects_stmts : (ss : List StmtN) → Collects (stmtTrees ss) (macrosStmts ss)
  | [] => .nil
  | s :: ss => .cons s.collects (collects_stmts ss)
theorem collects_grammars : (gs : List GrammarN) → Collects (grammarTrees gs) (macrosGrammars gs)
  | [] => .nil
  | g :: gs => .cons g.collects (collects_grammars gs)
end

theorem macroOps_skips : macroOps.Skips fun _ => false := by
  have he : ∀ i s, (macroOps.enter i s).2 = none := by
    intro i s
    cases i <;> rfl
  exact ⟨fun i s st h => by simp [macroOps] at h, fun i s _ st h => by simp [he] at h, by simp, fun i s _ _ st h => by simp [he] at h⟩

theorem macrosOf_eq (g : GrammarN) : macrosOf g = collect g.macros [] := by
  have h := walk_callAll macroOps_skips (fun e s st h => by
    cases e with
    | enter i =>
      simp only [WalkerOps.call, macroOps] at h
      split at h <;> simp at h
    | exit i => simp [WalkerOps.call, macroOps] at h) g.tree []
  have h2 := g.collects []
  simp only [eventsOf, List.append_nil] at h2
  rw [macrosOf, h, h2]

theorem lookup_collect (m : Str) : (l : List (Str × Macro)) → (ms : Macros) →
    lookup m (collect l ms) = match ((l.filter fun p => p.1 = m).getLast?).map Prod.snd with
      | some mc => some mc
      | none => lookup m ms
  | [], ms => rfl
  | (k, v) :: l, ms => by
    have ih := lookup_collect m l (mapSet k v ms)
    have e : collect ((k, v) :: l) ms = collect l (mapSet k v ms) := rfl
    rw [e, ih]
    by_cases hk : k = m
    · subst hk
      simp only [decide_true, List.filter_cons_of_pos, List.getLast?_cons]
      cases ((l.filter fun p => p.1 = k).getLast?) <;> simp [lookup_mapSet_self]
    · simp only [hk, decide_false, Bool.false_eq_true, not_false_iff, List.filter_cons_of_neg]
      cases ((l.filter fun p => p.1 = m).getLast?) <;> simp [lookup_mapSet_ne (Ne.symm hk)]

end Wbnf

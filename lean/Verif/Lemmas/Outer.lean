import Verif.Lemmas.Walk

/-!
# The nodes a walk enters
-/

namespace Wbnf

variable {σ : Type} {ops : WalkerOps σ} {skip : Item → Bool}

mutual
/-- Leaves are at the ends. -/
def WTree.Proper : WTree → Prop
  | .mk i ks => (i.leaf = true → ks = []) ∧ ProperAll ks
def ProperAll : List WTree → Prop
  | [] => True
  | t :: ts => t.Proper ∧ ProperAll ts
end

theorem properAll_append {ks ks' : List WTree} (h : ProperAll ks) (h' : ProperAll ks') : ProperAll (ks ++ ks') := by
  induction ks with
  | nil => exact h'
  | cons k ks ih => exact ⟨h.1, ih h.2⟩

theorem tip_proper (i : Item) : (WTree.tip i).Proper := ⟨fun _ => rfl, trivial⟩
theorem tipOf_proper (mk : Str → Item) : ∀ o, ProperAll (tipOf mk o)
  | none => trivial
  | some _ => ⟨tip_proper _, trivial⟩
theorem args_proper : ∀ as : List Str, ProperAll (as.map fun a => .tip (.ident a))
  | [] => trivial
  | _ :: as => ⟨tip_proper _, args_proper as⟩

mutual
theorem termN_proper : (t : TermN) → t.tree.Proper
  | .many _ gs ts => ⟨by simp [Item.leaf], properAll_append (grammars_proper gs) (terms_proper ts)⟩
  | .one n qs => ⟨by simp [Item.leaf], namedN_proper n, quants_proper qs⟩
theorem namedN_proper : (n : NamedN) → n.tree.Proper
  | .mk i a => ⟨by simp [Item.leaf], atomN_proper a, tipOf_proper _ i⟩
theorem atomN_proper : (a : AtomN) → a.tree.Proper
  | .ident _ => ⟨by simp [Item.leaf], tip_proper _, trivial⟩
  | .str _ => ⟨by simp [Item.leaf], tip_proper _, trivial⟩
  | .re _ => ⟨by simp [Item.leaf], tip_proper _, trivial⟩
  | .macrocall _ ts => ⟨by simp [Item.leaf], ⟨by simp [Item.leaf], tip_proper _, terms_proper ts⟩, trivial⟩
  | .ext _ => ⟨by simp [Item.leaf], ⟨by simp [Item.leaf], tip_proper _, trivial⟩, trivial⟩
  | .ref _ d => ⟨by simp [Item.leaf], ⟨by simp [Item.leaf], properAll_append (tipOf_proper _ d) ⟨tip_proper _, trivial⟩⟩, trivial⟩
  | .look t => ⟨by simp [Item.leaf], termN_proper t, trivial⟩
  | .term t => ⟨by simp [Item.leaf], termN_proper t, trivial⟩
  | .unit => ⟨by simp [Item.leaf], trivial⟩
theorem quantN_proper : (q : QuantN) → q.tree.Proper
  | .op _ => ⟨by simp [Item.leaf], trivial⟩
  | .range lo hi => ⟨by simp [Item.leaf], properAll_append (tipOf_proper _ hi) (tipOf_proper _ lo)⟩
  | .sep _ _ _ n => ⟨by simp [Item.leaf], namedN_proper n, trivial⟩
theorem stmtN_proper : (s : StmtN) → s.tree.Proper
  | .comment _ => ⟨by simp [Item.leaf], tip_proper _, trivial⟩
  | .prod _ ts => ⟨by simp [Item.leaf], ⟨by simp [Item.leaf], tip_proper _, terms_proper ts⟩, trivial⟩
  | .imp _ => ⟨by simp [Item.leaf], ⟨by simp [Item.leaf], ⟨by simp [Item.leaf], ⟨by simp [Item.leaf], trivial⟩, trivial⟩, trivial⟩, trivial⟩
  | .macrodef _ as t => ⟨by simp [Item.leaf], ⟨by simp [Item.leaf], ⟨by simp [Item.leaf],
      properAll_append (args_proper as) ⟨tip_proper _, termN_proper t, trivial⟩⟩, trivial⟩, trivial⟩
theorem grammarN_proper : (g : GrammarN) → g.tree.Proper
  | .mk ss => ⟨by simp [Item.leaf], stmts_proper ss⟩
theorem terms_proper : (ts : List TermN) → ProperAll (termTrees ts)
  | [] => trivial
  | t :: ts => ⟨termN_proper t, terms_proper ts⟩
theorem quants_proper : (ts : List QuantN) → ProperAll (quantTrees ts)
  | [] => trivial
  | t :: ts => ⟨quantN_proper t, quants_proper ts⟩
theorem stmts_proper : (ts : List StmtN) → ProperAll (stmtTrees ts)
  | [] => trivial
  | t :: ts => ⟨stmtN_proper t, stmts_proper ts⟩
theorem grammars_proper : (ts : List GrammarN) → ProperAll (grammarTrees ts)
  | [] => trivial
  | t :: ts => ⟨grammarN_proper t, grammars_proper ts⟩
end

mutual
theorem events_outer (j : Item) : (t : WTree) → t.Proper → (Event.enter j ∈ t.events skip ↔ t.Outer skip j)
  | .mk i ks, h => by
    have ih := eventsOf_outer j ks h.2
    rw [WTree.events]
    constructor
    · intro he
      split at he
      · simp only [List.mem_singleton, Event.enter.injEq] at he; subst he; exact .here
      · rename_i hs
        simp only [List.mem_cons, Event.enter.injEq, List.mem_append, reduceCtorEq, List.not_mem_nil, or_false] at he
        rcases he with rfl | he
        · exact .here
        · obtain ⟨k, hk, hj⟩ := ih.1 he
          simp only [Bool.or_eq_true, not_or, Bool.not_eq_true] at hs
          exact .inner hs.2 hk hj
    · intro ho
      cases ho with
      | here => split <;> simp
      | @inner _ _ k _ hi hk hj =>
        have hl : i.leaf = false := by
          cases hl : i.leaf with
          | false => rfl
          | true => rw [h.1 hl] at hk; simp at hk
        simp only [hl, hi, Bool.or_false, Bool.false_eq_true, if_false, List.mem_cons, List.mem_append]
        exact .inr (.inl (ih.2 ⟨k, hk, hj⟩))
theorem eventsOf_outer (j : Item) : (ks : List WTree) → ProperAll ks → (Event.enter j ∈ eventsOf skip ks ↔ ∃ k ∈ ks, k.Outer skip j)
  | [], _ => by simp [eventsOf]
  | k :: ks, h => by
    rw [eventsOf, List.mem_append, events_outer j k h.1, eventsOf_outer j ks h.2]
    simp
end

theorem callUntil_all : ∀ (es : List Event) (s : σ), (∀ e s st, (ops.call e s).2 = some st → st.stops = false) →
    (ops.callUntil Stopper.stops es s).1 = ops.callAll es s
  | [], _, _ => rfl
  | e :: es, s, h => by
    have he := h e s
    have ih := fun s => callUntil_all es s h
    rw [WalkerOps.callUntil, WalkerOps.callAll]
    rcases hc : ops.call e s with ⟨s', _ | st⟩
    · simp [ih]
    · simp only
      rw [if_neg]
      · exact ih s'
      · rw [he st (by rw [hc])]; simp

/-- Callbacks that only leave nodes. -/
theorem walk_callAll (h : ops.Skips skip) (hs : ∀ e s st, (ops.call e s).2 = some st → st.stops = false) (t : WTree) (s : σ) :
    (walk ops t s).1 = ops.callAll (t.events skip) s := by
  rw [← callUntil_all _ _ hs, ← (walk_events h t s).1]
  rcases walk ops t s with ⟨s', _ | st⟩
  · rfl
  · simp only [WalkerOps.seen]; split <;> rfl

/-- What holds of the state at the start and is kept by the calls for the nodes. -/
theorem callAll_inv {P : σ → Prop} : ∀ {es : List Event} {s : σ}, P s → (∀ e ∈ es, ∀ s, P s → P (ops.call e s).1) → P (ops.callAll es s)
  | [], _, h, _ => h
  | e :: es, s, h, hk => callAll_inv (es := es) (hk e (by simp) s h) fun e' he' => hk e' (by simp [he'])

/-- What a call makes true, and the others keep. -/
theorem callAll_made {P : σ → Prop} {e : Event} : ∀ {es : List Event} {s : σ}, e ∈ es → (∀ s, P (ops.call e s).1) →
    (∀ e ∈ es, ∀ s, P s → P (ops.call e s).1) → P (ops.callAll es s)
  | [], _, h, _, _ => by simp at h
  | e' :: es, s, h, hm, hk => by
    rcases List.mem_cons.1 h with rfl | h
    · rw [WalkerOps.callAll]
      exact callAll_inv (hm s) fun e' he' => hk e' (by simp [he'])
    · exact callAll_made (es := es) h hm fun e' he' => hk e' (by simp [he'])

end Wbnf

import Verif.Lemmas.TypesVisitNodes

/-!
# The walker for a grammar
-/

namespace Wbnf

variable {camel : Str → Str} {tm : TypeMap} {g G : Grammar} {rnd : Nat → Nat} {ord : List Member → List Member}

theorem grammar_counted (hm : makeTypes camel rnd g = some tm) (ht : g.Typed camel tm) (hr : g.resolveStacks = some G)
    (hc : G.Clear camel (g.nameUses camel)) : Grammar.Counted camel tm g G := by
  refine ⟨grammar_reads hm ht hr, ?_⟩
  intro r t hl q hq k ty' hk ho hn
  obtain ⟨u, hu, hpl⟩ := ho.1
  have hclear : q.2.clear k = true := by
    refine hc _ (lookup_mem hl) q hq _ hu rfl ?_ ?_
    · rintro rfl; simp [Use.plain] at hpl
    · rintro rfl; simp [Use.plain] at hpl
  obtain ⟨n, h1, h2⟩ : ∃ n, Times q.2 k n ∧ 2 ≤ n := by
    apply Classical.byContradiction
    intro hx
    refine hn fun n hn => ?_
    apply Classical.byContradiction
    intro h2
    exact hx ⟨n, hn, by omega⟩
  obtain ⟨d, hd, hrec, hdo⟩ := (many_known hm ht hr hl hk.1.1 hk.2 q hq hclear n h1 h2).method (makeTypes_done hm ht).1 hk
  refine ⟨d, hd, hrec, ?_⟩
  rcases hdo with hdo | ⟨_, hx⟩
  · exact hdo
  · have := ht.oneWay _ hu _ hx rfl rfl
    simp only at this
    subst this
    simp [Use.plain] at hpl

section
variable {σ : Type} {ops : Visitor σ} {st' : Stopper}

theorem visitRest_leaving (he : st'.exitNode = true) {call call' : Bool × Str × Ast → σ → Option (σ × Option Stopper)} {ty : Str} {n : Ast} :
    ∀ (ks : List (Bool × Str × Ast)) (s : σ), (∀ k ∈ ks, ∀ s, call k s = call' k s ∨
      ∃ s' st, call' k s = some (s', some st) ∧ st.exitNode = true ∧ call k s = some (s', some st')) →
    visitRest (ops.leavingWith st') call ty n ks s = visitRest ops call' ty n ks s
  | [], _, _ => rfl
  | k :: ks, s, h => by
    have ih := fun s' => visitRest_leaving he (ty := ty) (n := n) ks s' fun k' hk' => h k' (by simp [hk'])
    simp only [visitRest]
    rcases h k (by simp) s with e | ⟨s', st, e, hx, e'⟩
    · rw [e]
      rcases call' k s with _ | ⟨s', _ | st⟩ <;> simp only [ih]
    · simp [e, e', hx, he]

theorem visitNode_leaving (he : st'.exitNode = true) : ∀ (fuel : Nat) (ty : Str) (n : Ast) (s : σ),
    visitNode camel ord tm (ops.leavingWith st') fuel ty n s = visitNode camel ord tm ops fuel ty n s
  | 0, _, _, _ => rfl
  | fuel + 1, ty, n, s => by
    simp only [visitNode]
    split
    · rfl
    split
    · rfl
    have hrest : ∀ ks s, visitRest (ops.leavingWith st')
        (fun k s => if k.1 then visitNode camel ord tm (ops.leavingWith st') fuel k.2.1 k.2.2 s else some ((ops.leavingWith st').enter k.2.1 k.2.2 s)) ty n ks s =
        visitRest ops (fun k s => if k.1 then visitNode camel ord tm ops fuel k.2.1 k.2.2 s else some (ops.enter k.2.1 k.2.2 s)) ty n ks s := by
      intro ks s
      refine visitRest_leaving he ks s fun k _ s => ?_
      by_cases hk : k.1
      · simp [hk, visitNode_leaving he fuel]
      · simp only [hk, Visitor.leavingWith]
        rcases ops.enter k.2.1 k.2.2 s with ⟨s', _ | st⟩
        · simp
        · by_cases hx : st.exitNode
          · exact .inr ⟨s', st, by simp, hx, by simp [hx]⟩
          · simp [hx]
    have hent : (ops.leavingWith st').enter ty n s = match ops.enter ty n s with
      | (s, some st) => if st.exitNode then (s, some st') else (s, some st)
      | (s, none) => (s, none) := rfl
    rw [hent]
    rcases ops.enter ty n s with ⟨s', _ | st⟩
    · exact hrest _ _
    · by_cases hx : st.exitNode
      · simp [hx, he]
      · simp only [hx, hrest, Bool.false_eq_true, if_false]

end

end Wbnf

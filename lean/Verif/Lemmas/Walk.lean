import Verif.Spec.Walk

/-!
# Lemmas on walks
-/

namespace Wbnf

variable {σ : Type} {ops : WalkerOps σ} {skip : Item → Bool} {s : σ}

theorem callUntil_append (stop : Stopper → Bool) : ∀ (es es' : List Event) (s : σ), ops.callUntil stop (es ++ es') s =
    match ops.callUntil stop es s with
    | (s, some st) => (s, some st)
    | (s, none) => ops.callUntil stop es' s
  | [], es', s => rfl
  | e :: es, es', s => by
    simp only [List.cons_append, WalkerOps.callUntil]
    rcases ops.call e s with ⟨s', _ | st⟩
    · exact callUntil_append stop es es' s'
    · by_cases h : stop st
      · simp [h]
      · simp only [h]; exact callUntil_append stop es es' s'

theorem callUntil_stops {stop : Stopper → Bool} : ∀ {es : List Event} {s s' : σ} {st}, ops.callUntil stop es s = (s', some st) →
    stop st = true
  | [], s, s', st, h => by simp [WalkerOps.callUntil] at h
  | e :: es, s, s', st, h => by
    simp only [WalkerOps.callUntil] at h
    split at h
    · split at h
      · simp_all
      · exact callUntil_stops h
    · exact callUntil_stops h

/-- What a walk returns, where only stopping stoppers are of interest. -/
def WalkerOps.seen (r : σ × Option Stopper) : σ × Option Stopper :=
  match r with
  | (s, some st) => if st.stops then (s, some st) else (s, none)
  | (s, none) => (s, none)

mutual
theorem walk_events (h : ops.Skips skip) : (t : WTree) → (s : σ) →
    WalkerOps.seen (walk ops t s) = ops.callUntil Stopper.stops (t.events skip) s ∧
    (∀ st, (walk ops t s).2 = some st → st.exitNode = false)
  | .mk i ks, s => by
    have ⟨hx, hl, hs, hn⟩ := h
    by_cases hi : i.leaf
    · refine ⟨?_, fun st hst => hl i s hi st ?_⟩
      · simp only [walk, hi, WTree.events, Bool.true_or, if_true, WalkerOps.callUntil, WalkerOps.call, WalkerOps.seen]
        rcases ops.enter i s with ⟨s', _ | st⟩ <;> rfl
      · simpa [walk, hi] using hst
    · by_cases hk : skip i
      · obtain ⟨st, h1, h2⟩ := hs i s (by simpa using hi) hk
        have h3 : walk ops (.mk i ks) s = ((ops.enter i s).1, none) := by
          simp only [walk, hi]
          rcases h4 : ops.enter i s with ⟨s', _ | st'⟩
          · simp [h4] at h1
          · simp only [h4, Option.some.injEq] at h1
            subst h1; simp [h2]
        refine ⟨?_, by simp [h3]⟩
        rw [h3]
        simp only [WTree.events, hk, Bool.or_true, if_true, WalkerOps.callUntil, WalkerOps.call, WalkerOps.seen]
        rcases h4 : ops.enter i s with ⟨s', _ | st'⟩
        · rfl
        · simp only [h4, Option.some.injEq] at h1
          subst h1
          simp [Stopper.stops, h2]
      · have hn := hn i s (by simpa using hi) (by simpa using hk)
        have hi' : i.leaf = false := by simpa using hi
        have hk' : skip i = false := by simpa using hk
        simp only [walk, WTree.events, hi', hk', Bool.or_self, Bool.false_eq_true, if_false, WalkerOps.callUntil, WalkerOps.call]
        rcases h4 : ops.enter i s with ⟨s', _ | st⟩
        · exact walkRest_events h i ks s'
        · have h5 := hn st (by simp [h4])
          simp only [h5, Stopper.stops]
          by_cases ha : st.abort
          · simp [ha, h5, WalkerOps.seen, Stopper.stops]
          · simpa [ha] using walkRest_events h i ks s'
theorem walkRest_events (h : ops.Skips skip) (i : Item) : (ks : List WTree) → (s : σ) →
    WalkerOps.seen (walkRest ops i ks s) = ops.callUntil Stopper.stops (eventsOf skip ks ++ [.exit i]) s ∧
    (∀ st, (walkRest ops i ks s).2 = some st → st.exitNode = false)
  | [], s => by
    simp only [walkRest, eventsOf, List.nil_append, WalkerOps.callUntil, WalkerOps.call]
    rcases h4 : ops.exit i s with ⟨s', _ | st⟩
    · exact ⟨rfl, by simp⟩
    · have h5 := h.1 i s st (by simp [h4])
      by_cases ha : st.abort <;> simp [ha, h5, WalkerOps.seen, Stopper.stops]
  | k :: ks, s => by
    have hk := walk_events h k s
    simp only [walkRest, eventsOf, List.append_assoc]
    rw [callUntil_append, ← hk.1]
    rcases h4 : walk ops k s with ⟨s', _ | st⟩
    · exact walkRest_events h i ks s'
    · have h5 := hk.2 st (by simp [h4])
      by_cases ha : st.abort
      · simp [ha, h5, WalkerOps.seen, Stopper.stops]
      · simpa [ha, h5, WalkerOps.seen, Stopper.stops] using walkRest_events h i ks s'
end

theorem callUntil_never : ∀ (es : List Event) (s : σ), (∀ e s, (ops.call e s).2 = none) →
    ops.callUntil Stopper.stops es s = (ops.callAll es s, none)
  | [], s, h => rfl
  | e :: es, s, h => by
    simp only [WalkerOps.callUntil, WalkerOps.callAll]
    have := h e s
    rcases h4 : ops.call e s with ⟨s', _ | st⟩
    · exact callUntil_never es s' h
    · simp [h4] at this

mutual
theorem walk_leaving {st' : Stopper} (hst : st'.exitNode = true) : (t : WTree) → t.item.leaf = false → (s : σ) →
    walk (ops.leavingWith st') t s = walk ops t s
  | .mk i ks, hi, s => by
    have hi : i.leaf = false := hi
    simp only [walk, hi, WalkerOps.leavingWith]
    rcases h4 : ops.enter i s with ⟨s', _ | st⟩
    · exact walkRest_leaving hst i ks s'
    · by_cases hx : st.exitNode
      · simp [hx, hst]
      · have e := walkRest_leaving hst i ks s'
        simp only [WalkerOps.leavingWith] at e
        by_cases ha : st.abort
        · simp [hx, ha]
        · simpa [hx, ha] using e
theorem walkRest_leaving {st' : Stopper} (hst : st'.exitNode = true) (i : Item) : (ks : List WTree) → (s : σ) →
    walkRest (ops.leavingWith st') i ks s = walkRest ops i ks s
  | [], s => by simp only [walkRest, WalkerOps.leavingWith]
  | .mk j js :: ks, s => by
    by_cases hj : j.leaf
    · simp only [walkRest, walk, hj, if_true, WalkerOps.leavingWith]
      rcases h4 : ops.enter j s with ⟨s', _ | st⟩
      · exact walkRest_leaving hst i ks s'
      · by_cases hx : st.exitNode
        · simp [hx, hst]
        · have e := walkRest_leaving hst i ks s'
          simp only [WalkerOps.leavingWith] at e
          by_cases ha : st.abort
          · simp [hx, ha]
          · simpa [hx, ha] using e
    · simp only [walkRest, walk_leaving hst (.mk j js) (by simpa [WTree.item] using hj) s]
      rcases walk ops (.mk j js) s with ⟨s', _ | st⟩
      · exact walkRest_leaving hst i ks s'
      · by_cases hx : st.exitNode
        · simp [hx]
        · by_cases ha : st.abort
          · simp [hx, ha]
          · simpa [hx, ha] using walkRest_leaving hst i ks s'
end

end Wbnf

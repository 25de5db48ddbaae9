import Verif.Lemmas.Walk
import Verif.Examples.Kit

/-!
# C45: walkers
-/

namespace Wbnf

variable {σ : Type} {ops : WalkerOps σ} {skip : Item → Bool} {s : σ}

/-- **C45** The walker makes the calls for the nodes of the tree in order, each once, leaving out what is below the nodes
the callbacks tell to leave, until a callback returns a stopper that stops; then it makes no more. Partial: a stopper
that says both to stop and to leave the node, as `Aborter` does, only leaves the node (`C45_aborter`), and a callback for
a leaf that tells to leave it leaves its parent (`C45_leaf`). -/
theorem C45_walk_partial (h : ops.Skips skip) (t : WTree) :
    (walk ops t s).1 = (ops.callUntil Stopper.stops (t.events skip) s).1 := by
  rw [← (walk_events h t s).1]
  rcases walk ops t s with ⟨s', _ | st⟩
  · rfl
  · simp only [WalkerOps.seen]; split <;> rfl

/-- **C45** With callbacks that return nil, all nodes are visited. -/
theorem C45_all (he : ∀ i s, (ops.enter i s).2 = none) (hx : ∀ i s, (ops.exit i s).2 = none) (t : WTree) :
    (walk ops t s).1 = ops.callAll (t.events fun _ => false) s := by
  have hs : ops.Skips fun _ => false := ⟨by simp [hx], by simp [he], by simp, by simp [he]⟩
  rw [C45_walk_partial hs t, callUntil_never _ s fun e s => by cases e <;> simp [WalkerOps.call, he, hx]]

/-- **C45** The exported `Aborter` does not abort: returned by the callbacks for entering nodes it does exactly what
`NodeExiter` does, whatever the callbacks and the tree. -/
theorem C45_aborter (t : WTree) (ht : t.item.leaf = false) :
    walk (ops.leavingWith aborter) t s = walk (ops.leavingWith nodeExiter) t s := by
  rw [walk_leaving rfl t ht, walk_leaving rfl t ht]

/-! ## Examples and violations -/

namespace Ex

/-- What a callback was called for, for the examples. -/
def Item.name : Item → Str
  | .prod i _ => i
  | .ident i => i
  | .atom _ => str "atom"
  | .named _ => str "named"
  | .term _ => str "term"
  | .stmt _ => str "stmt"
  | .grammar _ => str "grammar"
  | _ => str "other"

/-- The syntax tree of `a -> b; c -> d;`. -/
def nTwo : GrammarN := .mk [.prod (str "a") [.one (.mk none (.ident (str "b"))) []], .prod (str "c") [.one (.mk none (.ident (str "d"))) []]]

/-- Callbacks that log their calls; on entering an item for which `f` is something they return it. -/
def logging (f : Item → Option Stopper) : WalkerOps (List (Bool × Str)) where
  enter i s := (s ++ [(true, Item.name i)], f i)
  exit i s := (s ++ [(false, Item.name i)], none)

def isProd : Item → Bool
  | .prod _ _ => true
  | _ => false
def isIdent (x : Str) : Item → Bool
  | .ident i => i == x
  | _ => false

end Ex

open Ex

/-- The hypotheses of `C45_walk_partial`: productions are left; and `c` would stop the walk. -/
example : (logging fun i => if isProd i then some nodeExiter else none).Skips isProd ∧
    (logging fun i => if isIdent (str "b") i then some ⟨false, true⟩ else none).Skips (fun _ => false) := by
  refine ⟨⟨by simp [logging], ?_, ?_, ?_⟩, ⟨by simp [logging], ?_, by simp, ?_⟩⟩
  · intro i s hi st h
    cases i <;> simp [logging, isProd, Item.leaf] at *
  · intro i s hi hk
    exact ⟨nodeExiter, by simp [logging, hk], rfl⟩
  · intro i s hi hk st h
    simp [logging, hk] at h
  · intro i s hi st h
    simp only [logging] at h
    split at h
    · simp only [Option.some.injEq] at h; subst h; rfl
    · simp at h
  · intro i s hi hk st h
    simp only [logging] at h
    split at h
    · simp only [Option.some.injEq] at h; subst h; rfl
    · simp at h

/-- **C45** What `C45_walk_partial` excludes. `Aborter`, returned when entering the first production, does not end the
walk: the second one is visited. A stopper that stops does end it. -/
theorem C45_aborter_goes_on :
    (true, str "c") ∈ (walk (logging fun i => if isProd i then some aborter else none) nTwo.tree []).1 ∧
    (true, str "c") ∉ (walk (logging fun i => if isProd i then some ⟨false, true⟩ else none) nTwo.tree []).1 := by
  decide +kernel

/-- **C45** `NodeExiter` returned for a leaf leaves its parent: for the name `a` of a production, its terms are not visited
and its `Exit` is not called. -/
theorem C45_leaf :
    (walk (logging fun i => if isIdent (str "a") i then some nodeExiter else none) nTwo.tree []).1 =
      [(true, str "grammar"), (true, str "stmt"), (true, str "a"), (true, str "a"), (false, str "stmt"),
       (true, str "stmt"), (true, str "c"), (true, str "c"), (true, str "term"), (true, str "named"), (true, str "atom"),
       (true, str "d"), (false, str "atom"), (false, str "named"), (false, str "term"), (false, str "c"), (false, str "stmt"),
       (false, str "grammar")] := by
  decide +kernel

end Wbnf

import Verif.Model.Walk

/-!
# Which callbacks a walk calls
-/

namespace Wbnf

/-- A call of a callback. -/
inductive Event
  | enter (i : Item)
  | exit (i : Item)

mutual
/-- The callbacks for a tree, in order: `Enter` of a node, the callbacks of its children, `Exit` of the node. Nodes for
which `skip` holds have only their `Enter` called, as the leaves. -/
def WTree.events (skip : Item → Bool) : WTree → List Event
  | .mk i ks => if i.leaf || skip i then [.enter i] else .enter i :: (eventsOf skip ks ++ [.exit i])
def eventsOf (skip : Item → Bool) : List WTree → List Event
  | [] => []
  | t :: ts => t.events skip ++ eventsOf skip ts
end

/-- A node of the tree that is not below a node for which `skip` holds. -/
inductive WTree.Outer (skip : Item → Bool) : WTree → Item → Prop
  | here {i ks} : WTree.Outer skip (.mk i ks) i
  | inner {i ks k j} : skip i = false → k ∈ ks → WTree.Outer skip k j → WTree.Outer skip (.mk i ks) j

variable {σ : Type}

/-- Make a call. -/
def WalkerOps.call (ops : WalkerOps σ) : Event → σ → σ × Option Stopper
  | .enter i => ops.enter i
  | .exit i => ops.exit i

/-- Make all the calls, whatever they return. -/
def WalkerOps.callAll (ops : WalkerOps σ) : List Event → σ → σ
  | [], s => s
  | e :: es, s => ops.callAll es (ops.call e s).1

/-- Make the calls up to the first one that returns a stopper for which `stop` holds. -/
def WalkerOps.callUntil (ops : WalkerOps σ) (stop : Stopper → Bool) : List Event → σ → σ × Option Stopper
  | [], s => (s, none)
  | e :: es, s =>
    match ops.call e s with
    | (s, some st) => if stop st then (s, some st) else ops.callUntil stop es s
    | (s, none) => ops.callUntil stop es s

/-- A stopper that tells to stop, and not to leave a node. -/
def Stopper.stops (st : Stopper) : Bool := st.abort && !st.exitNode

/-- Callbacks that leave exactly the nodes for which `skip` holds, when entering them, and may stop anywhere. -/
def WalkerOps.Skips (ops : WalkerOps σ) (skip : Item → Bool) : Prop :=
  (∀ i s st, (ops.exit i s).2 = some st → st.exitNode = false) ∧
  (∀ i s, i.leaf = true → ∀ st, (ops.enter i s).2 = some st → st.exitNode = false) ∧
  (∀ i s, i.leaf = false → skip i = true → ∃ st, (ops.enter i s).2 = some st ∧ st.exitNode = true) ∧
  (∀ i s, i.leaf = false → skip i = false → ∀ st, (ops.enter i s).2 = some st → st.exitNode = false)

/-- The same callbacks, with `st'` in place of the stoppers that tell to leave a node. -/
def WalkerOps.leavingWith (st' : Stopper) (ops : WalkerOps σ) : WalkerOps σ where
  enter i s :=
    match ops.enter i s with
    | (s, some st) => if st.exitNode then (s, some st') else (s, some st)
    | (s, none) => (s, none)
  exit := ops.exit

end Wbnf

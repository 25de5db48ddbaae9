import Verif.Model.Types
import Verif.Model.Walk

/-!
# Model of the walker generated for a grammar

cmd/codegen/walkerinterface.go. As for the types, the Go text is modelled by what it declares: for each type with children a
function that calls the `Enter` callback, goes over the children, and calls the `Exit` callback.
-/

namespace Wbnf

/-- walkerinterface.go:85-103 `getWalkerFuncs`: what the function of a type does for one child. -/
structure WalkStep where
  /-- `for _, child := range node.All…()`, or else `if child := node.One…(); child != nil` (87-91) -/
  many : Bool
  getter : Str
  type : Str
  /-- calls `Walk…` of the type of the child (92-94), or else its `Enter` callback (96-100) -/
  walker : Bool
  deriving DecidableEq, Repr

/-- walkerinterface.go:55-72, with types.go `CallbackData()`: nothing for a choice, a back reference or a token. -/
def Member.walkStep (camel : Str → Str) (tm : TypeMap) : Member → Option WalkStep
  | .namedRule name _ returnType count =>
    some ⟨count.all, goName camel name, goTypeName camel returnType,
      match lookup (goTypeName camel returnType) tm with
      | some (.basic _) => false
      | _ => true⟩
  | .stackBackRef name parent => some ⟨true, goName camel name, goTypeName camel parent, true⟩
  | _ => none

/-- `func (w WalkerOps) Walk…(node …) Stopper`. -/
structure WalkFunc where
  type : Str
  steps : List WalkStep
  deriving DecidableEq, Repr

/-- walkerinterface.go:39-79: there is a function for each type with children. `ord` is the order of the children: printing the
types, which comes before (cmd/gen.go:65-68), sorts them where they are (types.go:341-345). -/
def walkFuncs (camel : Str → Str) (ord : List Member → List Member) (tm : TypeMap) : List WalkFunc :=
  tm.filterMap fun e =>
    if e.2.children = [] then none
    else some ⟨e.2.declares camel, (ord e.2.children).filterMap (Member.walkStep camel tm)⟩

/-- walkerinterface.go:14-23 `WalkerOps`: the callbacks for a node with its type. One that is not set is one that returns nil.
They may have side effects: they act on a state. -/
structure Visitor (σ : Type) where
  enter : Str → Ast → σ → σ × Option Stopper
  exit : Str → Ast → σ → σ × Option Stopper

/-- The call of an accessor of the type `ty`: the children to be visited. `none`: there is none of this name, or it returns something
else, and Go does not compile the code. -/
def WalkStep.children (camel : Str → Str) (tm : TypeMap) (ty : Str) (n : Ast) (st : WalkStep) : Option (List Ast) :=
  match (allMethods camel tm).find? fun d => d.receiver = ty ∧ d.name = (if st.many then str "All" else str "One") ++ st.getter with
  | none => none
  | some d =>
    match d.does.run n with
    | some (.nodes t ns) => if t = st.type ∧ st.many = true then some ns else none
    | some (.node t c) => if t = st.type ∧ st.many = false then some c.toList else none
    | _ => none

/-- All children to be visited, each with its type and whether `Walk…` is called for it. The accessors change nothing, so it does not
matter that they are called one after the other. -/
def stepsChildren (camel : Str → Str) (tm : TypeMap) (ty : Str) (n : Ast) : List WalkStep → Option (List (Bool × Str × Ast))
  | [] => some []
  | st :: sts =>
    match st.children camel tm ty n, stepsChildren camel tm ty n sts with
    | some ns, some rest => some (ns.map (fun c => (st.walker, st.type, c)) ++ rest)
    | _, _ => none

section
variable {σ : Type}

/-- After the `Enter` callback (walkerinterface.go:55-77): `call` is what is done for a child. A stopper that a child returns
leaves the function if it tells to leave a node (95, 99). -/
def visitRest (ops : Visitor σ) (call : Bool × Str × Ast → σ → Option (σ × Option Stopper)) (ty : Str) (n : Ast) :
    List (Bool × Str × Ast) → σ → Option (σ × Option Stopper)
  | [], s =>
    match ops.exit ty n s with
    | (s, some st) => if st.abort then some (s, some st) else some (s, none)
    | (s, none) => some (s, none)
  | k :: ks, s =>
    match call k s with
    | none => none
    | some (s, some st) =>
      if st.exitNode then some (s, none)
      else if st.abort then some (s, some st)
      else visitRest ops call ty n ks s
    | some (s, none) => visitRest ops call ty n ks s

/-- walkerinterface.go:49-79: a call of `Walk…` for a node of the type `ty`. The number bounds how deep the calls go. `none`: the
bound was too small, or there is no such function. -/
def visitNode (camel : Str → Str) (ord : List Member → List Member) (tm : TypeMap) (ops : Visitor σ) :
    Nat → Str → Ast → σ → Option (σ × Option Stopper)
  | 0, _, _, _ => none
  | fuel + 1, ty, n, s =>
    match (walkFuncs camel ord tm).find? fun f => f.type = ty with
    | none => none
    | some f =>
      match stepsChildren camel tm ty n f.steps with
      | none => none
      | some ks =>
        let rest := visitRest ops (fun k s => if k.1 then visitNode camel ord tm ops fuel k.2.1 k.2.2 s else some (ops.enter k.2.1 k.2.2 s)) ty n ks
        match ops.enter ty n s with
        | (s, some st) =>
          if st.exitNode then some (s, none)
          else if st.abort then some (s, some st)
          else rest s
        | (s, none) => rest s

/-- walkerinterface.go:25-38 `Walk`: for a type with children its function is called, for another one the `Enter` callback. -/
def visit (camel : Str → Str) (ord : List Member → List Member) (tm : TypeMap) (ops : Visitor σ) (fuel : Nat) (ty : Str) (n : Ast) (s : σ) :
    Option (σ × Option Stopper) :=
  match tm.find? fun e => e.2.declares camel = ty with
  | none => none
  | some e => if e.2.children = [] then some (ops.enter ty n s) else visitNode camel ord tm ops fuel ty n s

end

end Wbnf

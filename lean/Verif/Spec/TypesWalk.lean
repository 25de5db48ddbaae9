import Verif.Model.TypesWalk
import Verif.Spec.TypesDecl
import Verif.Spec.TypesMany
import Verif.Spec.Walk

/-!
# Which callbacks a generated walker calls
-/

namespace Wbnf

/-- A call of a callback with a node of a type. -/
inductive Callback
  | enter (ty : Str) (n : Ast)
  | exit (ty : Str) (n : Ast)

/-- The types of tokens: their only accessor returns the text. -/
def TokenType (camel : Str → Str) (tm : TypeMap) (ty : Str) : Prop :=
  ∃ d ∈ allMethods camel tm, d.receiver = ty ∧ d.does = .text

mutual
/-- The calls for a node: `Enter`, then the calls for its children, then `Exit`; just `Enter` for a token, and where `skip`
holds. `K` says which the children are. -/
inductive Tour (K : Str → Ast → List (Str × Ast) → Prop) (token : Str → Prop) (skip : Str → Ast → Bool) : Str → Ast → List Callback → Prop
  | token {ty n} : token ty → Tour K token skip ty n [.enter ty n]
  | skip {ty n} : ¬ token ty → skip ty n = true → Tour K token skip ty n [.enter ty n]
  | node {ty n ks cs} : ¬ token ty → skip ty n = false → K ty n ks → Tours K token skip ks cs →
      Tour K token skip ty n (.enter ty n :: (cs ++ [.exit ty n]))
inductive Tours (K : Str → Ast → List (Str × Ast) → Prop) (token : Str → Prop) (skip : Str → Ast → Bool) : List (Str × Ast) → List Callback → Prop
  | nil : Tours K token skip [] []
  | cons {ty n ks cs cs'} : Tour K token skip ty n cs → Tours K token skip ks cs' → Tours K token skip ((ty, n) :: ks) (cs ++ cs')
end

/-! ## Children as accessors return them -/

/-- The name of the children that an accessor for nodes returns. -/
def GoMethod.of : GoMethod → Option Str
  | .oneNode k _ => some k
  | .allNodes k _ => some k
  | _ => none

/-- The accessor returns all children of its name. -/
def GoMethod.isAll : GoMethod → Bool
  | .allNodes _ _ => true
  | _ => false

/-- The children that an accessor for nodes returns, with their type. -/
def GoMethod.returned (d : GoMethod) (n : Ast) : List (Str × Ast) :=
  match d.run n with
  | some (.node ty c) => c.toList.map fun c => (ty, c)
  | some (.nodes ty cs) => cs.map fun c => (ty, c)
  | _ => []

/-- Of the type `ty`, in the order of their names (as `upper` shows them), the accessors for nodes: one for every name for
which there is one, and one that returns all if there is one that does. -/
structure Accessors (camel : Str → Str) (tm : TypeMap) (upper : Str → Str) (ty : Str) (ds : List MethodDecl) : Prop where
  of : ∀ d ∈ ds, d ∈ allMethods camel tm ∧ d.receiver = ty ∧ d.does.of ≠ none
  once : (ds.map fun d => d.does.of).Nodup
  sorted : ds.Pairwise fun d d' => ∀ k k', d.does.of = some k → d'.does.of = some k' → ¬ upper k' < upper k
  every : ∀ d ∈ allMethods camel tm, d.receiver = ty → ∀ k, d.does.of = some k →
    ∃ d' ∈ ds, d'.does.of = some k ∧ (d.does.isAll = true → d' = d)

/-- The children of a node of the type `ty` that these accessors return. -/
def Accessible (camel : Str → Str) (tm : TypeMap) (upper : Str → Str) (ty : Str) (n : Ast) (ks : List (Str × Ast)) : Prop :=
  ∃ ds, Accessors camel tm upper ty ds ∧ ks = ds.flatMap fun d => d.does.returned n

/-- The order in which the children of a type are printed (`upper` is `strings.ToUpper`). -/
def Sorts (upper : Str → Str) (ord : List Member → List Member) : Prop :=
  ∀ cs, (ord cs).Perm cs ∧ (ord cs).Pairwise fun a b => ¬ upper b.ident < upper a.ident

/-! ## Children as the tree has them -/

/-- In the grammar, the children called `k` of nodes of the type `ty` are nodes of the type `ty'`. -/
def NodesOf (us : List (Str × Str × Use)) (ty k ty' : Str) : Prop := (ty, k, .node ty') ∈ us ∨ (ty, k, .self ty') ∈ us

/-- All children of a node of the type `ty` under names that the grammar uses for nodes, in the order of these names. -/
def NamedChildren (us : List (Str × Str × Use)) (upper : Str → Str) (ty : Str) (n : Ast) (ks : List (Str × Ast)) : Prop :=
  ∃ names : List (Str × Str), (names.map Prod.fst).Nodup ∧ (names.Pairwise fun a b => ¬ upper b.1 < upper a.1) ∧
    (∀ k ty', (k, ty') ∈ names ↔ ChildName k ∧ n.all k ≠ [] ∧ NodesOf us ty k ty') ∧
    ks = names.flatMap fun e => (n.all e.1).map fun c => (e.2, c)

/-- A node in a node: it is the node, or in one of its children under names that the grammar uses for nodes. Tokens have no
nodes in them. -/
inductive NodeWithin (us : List (Str × Str × Use)) (token : Str → Prop) : Str → Ast → Str → Ast → Prop
  | here {ty n} : NodeWithin us token ty n ty n
  | inner {ty n k ty' c ty'' n'} : ¬ token ty → ChildName k → NodesOf us ty k ty' → c ∈ n.all k → NodeWithin us token ty' c ty'' n' →
      NodeWithin us token ty n ty'' n'

/-- In every rule and every named group, where there may be many nodes of a name, it can be seen. -/
def Grammar.Clear (camel : Str → Str) (us : List (Str × Str × Use)) (G : Grammar) : Prop :=
  ∀ e ∈ G, ∀ q ∈ (goName camel (shownName e.1), e.2) :: e.2.groups camel (goName camel (shownName e.1)),
    ∀ u ∈ us, u.1 = goTypeName camel q.1 → u.2.2 ≠ .text → u.2.2 ≠ .raw → q.2.clear u.2.1 = true

instance (camel : Str → Str) (us : List (Str × Str × Use)) (G : Grammar) : Decidable (G.Clear camel us) :=
  inferInstanceAs (Decidable (∀ e ∈ G, ∀ q ∈ (goName camel (shownName e.1), e.2) :: e.2.groups camel (goName camel (shownName e.1)),
    ∀ u ∈ us, u.1 = goTypeName camel q.1 → u.2.2 ≠ .text → u.2.2 ≠ .raw → q.2.clear u.2.1 = true))

/-! ## Making the calls -/

section
variable {σ : Type}

def Visitor.call (ops : Visitor σ) : Callback → σ → σ × Option Stopper
  | .enter ty n => ops.enter ty n
  | .exit ty n => ops.exit ty n

/-- Make all the calls, whatever they return. -/
def Visitor.callAll (ops : Visitor σ) : List Callback → σ → σ
  | [], s => s
  | e :: es, s => ops.callAll es (ops.call e s).1

/-- Make the calls up to the first one that returns a stopper for which `stop` holds. -/
def Visitor.callUntil (ops : Visitor σ) (stop : Stopper → Bool) : List Callback → σ → σ × Option Stopper
  | [], s => (s, none)
  | e :: es, s =>
    match ops.call e s with
    | (s, some st) => if stop st then (s, some st) else ops.callUntil stop es s
    | (s, none) => ops.callUntil stop es s

/-- Callbacks that leave exactly the nodes for which `skip` holds, when entering them, and may stop anywhere. -/
structure Visitor.Skips (ops : Visitor σ) (token : Str → Prop) (skip : Str → Ast → Bool) : Prop where
  exit : ∀ ty n s st, (ops.exit ty n s).2 = some st → st.exitNode = false
  tokens : ∀ ty n s, token ty → ∀ st, (ops.enter ty n s).2 = some st → st.exitNode = false
  leave : ∀ ty n s, ¬ token ty → skip ty n = true → ∃ st, (ops.enter ty n s).2 = some st ∧ st.exitNode = true
  stay : ∀ ty n s, ¬ token ty → skip ty n = false → ∀ st, (ops.enter ty n s).2 = some st → st.exitNode = false

/-- The same callbacks, with `st'` in place of the stoppers that tell to leave a node. -/
def Visitor.leavingWith (st' : Stopper) (ops : Visitor σ) : Visitor σ where
  enter ty n s :=
    match ops.enter ty n s with
    | (s, some st) => if st.exitNode then (s, some st') else (s, some st)
    | (s, none) => (s, none)
  exit := ops.exit

end

end Wbnf

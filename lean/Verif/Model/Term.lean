import Verif.Model.Scanner

/-!
# Model of the grammar terms and parse trees

parser/terms.go (types), parser/parsernodes.go (trees), parser/resolve.go (substitution of rules).
-/

namespace Wbnf

/-- parser/terms.go:123-159, the implementations of `Term`.
Simplifications: `Quant.Min/Max` are natural numbers (negative bounds cannot be written in a wbnf
source); a `Grammar` is an association list with unique keys. -/
inductive Term
  | rule (r : Str)
  | s (lit : Str)
  | re (pat : Str)
  /-- `REF{Ident, Default}`; `none` is a nil default. -/
  | ref (ident : Str) (dflt : Option Term)
  | ext (name : Str)
  | seq (ts : List Term)
  | oneof (ts : List Term)
  | stack (ts : List Term)
  /-- `Delim{Term, Sep, Assoc, CanStartWithSep, CanEndWithSep}` -/
  | delim (term sep : Term) (assoc : Int) (canStart canEnd : Bool)
  | look (t : Term)
  /-- `Quant{Term, Min, Max}`; `max = 0` means no upper bound. -/
  | quant (t : Term) (min max : Nat)
  | named (name : Str) (t : Term)
  | scope (t : Term) (g : List (Str × Term))
  | cut (t : Term)
  deriving Repr, Inhabited

/-- parser/terms.go:16 `Grammar`. -/
abbrev Grammar := List (Str × Term)

/-- parser/terms.go:117-121 `Associativity` constants. -/
def rightToLeft : Int := -1
def nonAssociative : Int := 0
def leftToRight : Int := 1

/-- parser/terms.go:165-167 `Opt`, `Any`, `Some`. -/
def optT (t : Term) : Term := .quant t 0 1
def anyT (t : Term) : Term := .quant t 0 0
def someT (t : Term) : Term := .quant t 1 0

/-- parser/parsernodes.go:12-14 `Extra` of a node: nil, `Choice` or `Associativity`. -/
inductive Extra
  | nil
  | choice (i : Nat)
  | assoc (a : Int)
  deriving DecidableEq, Repr

/-- parser/parsernodes.go `TreeElement`: `Node`, `Scanner`, `Empty` (parser.go:387); `foreign`
stands for whatever else an external handler may return (`foreign 0` is a nil interface). -/
inductive Tree
  | node (tag : Str) (extra : Extra) (children : List Tree)
  | leaf (s : Scanner)
  | empty
  | foreign (n : Nat)
  deriving Repr, Inhabited

/-- parser/parser.go:13,16-21: constants. -/
def stackDelim : Str := str "@"
def atRule : Str := str "@"
def seqTag : Str := str "_"
def oneofTag : Str := str "|"
def delimTag : Str := str ":"
def quantTag : Str := str "?"
def lookaheadTag : Str := str "?="
def wrapRE : Str := str ".wrapRE"

/-- parser/parser.go:51-56 `ruleOrAlt`. -/
def ruleOrAlt (rule alt : Str) : Str := if rule = [] then alt else rule

mutual
/-- parser/resolve.go: `Term.Resolve(oldRule, newRule)`; `none` is the panic of `Stack` and
`ScopedGrammar`. `CutPoint.Resolve` (68-70) returns the bare inner term. -/
def Term.resolve (old new : Str) : Term → Option Term
  | .rule r => some (.rule (if r = old then new else r))
  | .s l => some (.s l)
  | .re p => some (.re p)
  | .ref i d => some (.ref i d)
  | .ext n => some (.ext n)
  | .seq ts => (resolveList old new ts).map .seq
  | .oneof ts => (resolveList old new ts).map .oneof
  | .stack _ => none
  | .delim t sep a cs ce =>
    match t.resolve old new, sep.resolve old new with
    | some t', some sep' => some (.delim t' sep' a cs ce)
    | _, _ => none
  | .look t => (t.resolve old new).map .look
  | .quant t lo hi => (t.resolve old new).map (.quant · lo hi)
  | .named n t => (t.resolve old new).map (.named n ·)
  | .scope _ _ => none
  | .cut t => t.resolve old new
/-- The loops of `Seq.Resolve` and `Oneof.Resolve` (resolve.go:23-37). -/
def resolveList (old new : Str) : List Term → Option (List Term)
  | [] => some []
  | t :: ts =>
    match t.resolve old new, resolveList old new ts with
    | some t', some ts' => some (t' :: ts')
    | _, _ => none
end

/-- parser/parser.go:85-88: the name of the layer after layer `i` of `n`. -/
def layerName (rule : Str) (n i : Nat) : Str :=
  let j := (i + 1) % n
  if j > 0 then rule ++ stackDelim ++ decimal j else rule

/-- parser/parser.go:84-91: the inner loop of `resolveStacks` for the layers from index `i`. -/
def resolveLayers (rule : Str) (n : Nat) : Nat → Str → List Term → Grammar → Option Grammar
  | _, _, [], g => some g
  | i, oldRule, layer :: rest, g =>
    let newRule := layerName rule n i
    match layer.resolve stackDelim newRule with
    | none => none
    | some t => resolveLayers rule n (i + 1) newRule rest (mapSet oldRule t g)

/-- parser/parser.go:80-94 `Grammar.resolveStacks`, iterating over the entries the map had when the
loop started (entries added meanwhile are never stacks, so visiting them or not makes no
difference). `none` is a panic. -/
def resolveStacksLoop : List (Str × Term) → Grammar → Option Grammar
  | [], g => some g
  | (rule, .stack layers) :: rest, g =>
    match resolveLayers rule layers.length 0 rule layers g with
    | none => none
    | some g' => resolveStacksLoop rest g'
  | _ :: rest, g => resolveStacksLoop rest g

def Term.isStack : Term → Bool
  | .stack _ => true
  | _ => false

/-- parser/parser.go:99-105 (and 744-750): clone and resolve the stacks if there is one. -/
def Grammar.resolveStacks (g : Grammar) : Option Grammar :=
  if g.any (fun e => e.2.isStack) then resolveStacksLoop g g else some g

/-- parser/parser.go:297-310 `identFromTerm`. -/
def identFromTerm : Term → Str
  | .named name t => if name ≠ [] then name else identFromTerm t
  | .rule r => r
  | .quant t _ _ => identFromTerm t
  | _ => []

end Wbnf

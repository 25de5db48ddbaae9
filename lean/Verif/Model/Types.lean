import Verif.Model.Codegen
import Verif.Model.Views

/-!
# Model of the Go types generated for a grammar

cmd/codegen/types.go, cmd/codegen/pushtype.go, cmd/codegen/typebuilder.go. The Go text that the `String` methods print is
modelled by what it declares: a list of methods for each type.
-/

namespace Wbnf

/-! ## Names (cmd/codegen/types.go:15-50) -/

def isCapital (c : UInt8) : Bool := 65 ≤ c && c ≤ 90

/-- types.go:36-50 `DropCaps`: capitals after a capital become small. `after` says that the byte before is one. -/
def dropCaps (after : Bool) : Str → Str
  | [] => []
  | c :: s => (if after && isCapital c then c + 32 else c) :: dropCaps (isCapital c) s

def nodeSuffix : Str := str "Node"

/-- types.go:19-34 `GoName`; `camel` is `strcase.ToCamel`, which is not part of this repository. The map only remembers
results. -/
def goName (camel : Str → Str) (rule : Str) : Str :=
  if nodeSuffix <:+ rule then rule.take (rule.length - 4) else camel (dropCaps false rule)

/-- types.go:15-17 `GoTypeName`. -/
def goTypeName (camel : Str → Str) (rule : Str) : Str := goName camel rule ++ nodeSuffix

/-! ## How many there may be (types.go:92-145) -/

/-- types.go:111-114 `countManager`: the two bits of the number, and the nodes. -/
structure Count where
  one : Bool
  all : Bool
  nodes : List Nat
  deriving DecidableEq, Repr

/-- types.go:116-119. -/
def Count.forceMany (c : Count) : Count := { c with all := true }

/-- types.go:120-130 `pushSingleNode`. -/
def Count.push (c : Count) (id : Nat) : Count :=
  if c.all then c
  else if id ∈ c.nodes then c.forceMany
  else { c with nodes := c.nodes ++ [id] }

def Count.pushAll (c : Count) : List Nat → Count
  | [] => c
  | id :: ids => (c.push id).pushAll ids

/-- types.go:132-140 `merge`. -/
def Count.merge (c other : Count) : Count := if other.all then c.forceMany else c.pushAll other.nodes

/-- types.go:144-145. -/
def wantOne : Count := ⟨true, false, []⟩
def wantAll : Count := ⟨false, true, []⟩

/-! ## Types and their children (types.go:52-90) -/

/-- types.go:65-85: what a type may have as a child. `parent` is the type the methods belong to. -/
inductive Member
  | choice (parent : Str)
  | stackBackRef (name parent : Str)
  | backRef (name parent : Str)
  | namedToken (name parent : Str) (count : Count)
  | unnamedToken (parent : Str) (count : Count)
  | namedRule (name parent returnType : Str) (count : Count)
  deriving DecidableEq, Repr

/-- types.go:64, 86-89: `basicRule` and `rule`. -/
inductive GoType
  | basic (name : Str)
  | rule (name : Str) (childs : List Member)
  deriving DecidableEq, Repr

/-- types.go `Children()`; a `basicRule` has none. -/
def GoType.children : GoType → List Member
  | .basic _ => []
  | .rule _ cs => cs

/-- types.go `Ident()`. -/
def Member.ident : Member → Str
  | .choice _ => str "@choice"
  | .stackBackRef name _ => name
  | .backRef name _ => name
  | .namedToken name _ _ => name
  | .unnamedToken _ _ => str "Token"
  | .namedRule name _ _ _ => name

/-- typebuilder.go:15 `TypeMap`; a map with unique keys. -/
abbrev TypeMap := List (Str × GoType)

/-! ## Adding a child (cmd/codegen/pushtype.go) -/

/-- pushtype.go:47-59 `getNewCount`. -/
def newCount (old : Count) : Member → Count
  | .unnamedToken _ c => old.merge c
  | .namedToken _ _ c => old.merge c
  | .namedRule _ _ _ c => old.merge c
  | .stackBackRef _ _ => old.forceMany
  | .backRef _ _ => old.forceMany
  | .choice _ => old

/-- pushtype.go:61-100 `checkForDupes`, the loop: what it makes of the rest of the children, and whether `next` is still to
be appended; `none` says that it returns the children as they were (86-88, 90-92). -/
def dupesLoop (next : Member) : List Member → Option (List Member × Bool)
  | [] => some ([], true)
  | c :: cs =>
    if next.ident ≠ c.ident then (dupesLoop next cs).map fun r => (c :: r.1, r.2)
    else
      match c, next with
      | .unnamedToken p n, _ => (dupesLoop next cs).map fun r => (.unnamedToken p (newCount n next) :: r.1, false)
      | .namedToken x p n, _ => (dupesLoop next cs).map fun r => (.namedToken x p (newCount n next) :: r.1, false)
      | .namedRule x p t n, _ => (dupesLoop next cs).map fun r => (.namedRule x p t (newCount n next) :: r.1, false)
      | .stackBackRef _ _, .stackBackRef _ _ => none
      | .choice _, .choice _ => none
      | c, _ => (dupesLoop next cs).map fun r => (c :: r.1, r.2)

/-- pushtype.go:61-100 `checkForDupes`. -/
def checkForDupes (children : List Member) (next : Member) : List Member :=
  match dupesLoop next children with
  | none => children
  | some (cs, append) => if append then cs ++ [next] else cs

/-- types.go:161-166 `Upgrade`. -/
def upgrade (name : Str) : Member := .unnamedToken name wantOne

/-- pushtype.go:22-45 `createOrAddParent`, without the panic at 33: there are no other types. -/
def addMember (camel : Str → Str) (parent : Str) (child : Member) (tm : TypeMap) : TypeMap :=
  let name := goTypeName camel parent
  let new : GoType :=
    match lookup name tm with
    | some (.basic n) => .rule name (checkForDupes [upgrade n] child)                                -- 28-29
    | some (.rule _ cs) => .rule name (checkForDupes cs child)                                       -- 30-31
    | none =>                                                                                        -- 36-42
      match child with
      | .unnamedToken _ c => if c.one then .basic name else .rule name [child]
      | _ => .rule name [child]
  mapSet name new tm

/-! ## Walking the grammar (cmd/codegen/typebuilder.go) -/

/-- typebuilder.go:24: what is known about a name: the type of a rule, or, for `@`, the rule around and its type. -/
inductive Known
  | type (name : Str)
  | stackInfo (ident parentName : Str)
  deriving DecidableEq, Repr

/-- typebuilder.go:26-31 `pushRuleNameForStack`. -/
def pushRuleName (ident parentName : Str) (known : List (Str × Known)) : List (Str × Known) :=
  mapSet atRule (.stackInfo ident parentName) known

/-- typebuilder.go:33-39 `mergeGrammarRules`. -/
def mergeRules (camel : Str → Str) (pre : Str) (known : List (Str × Known)) : Grammar → List (Str × Known)
  | [] => known
  | (k, _) :: g => mergeRules camel pre (mapSet k (.type (pre ++ goName camel k)) known) g

/-- The types so far, and how many random numbers were drawn. -/
structure TypeState where
  types : TypeMap
  drawn : Nat

def TypeState.add (camel : Str → Str) (parent : Str) (m : Member) (st : TypeState) : TypeState :=
  { st with types := addMember camel parent m st.types }

/-- typebuilder.go:80-109 `makeLeafType` for a rule; `none` is a panic, of `MustGet` or of the type assertion. -/
def ruleMember (r parent : Str) (quant : Count) (known : List (Str × Known)) : Option Member :=
  if r = atRule then
    match lookup r known with
    | some (.stackInfo ident p) => some (.stackBackRef ident p)
    | _ => none
  else
    match lookup r known with
    | some (.type t) => some (.namedRule r parent t quant)
    | _ => none

/-- typebuilder.go:166-182: what `name=rule` gives. -/
def namedRuleMember (name r parent : Str) (quant : Count) (known : List (Str × Known)) : Option Member :=
  if r = atRule then
    match lookup r known with
    | some (.stackInfo _ p) => some (.stackBackRef name p)
    | _ => none
  else some (.namedRule name parent r quant)

/-- typebuilder.go:49-62: a child that came from `@` is there, but none named like the rule. -/
def needsStackChild (r : Str) : List Member → Bool → Bool
  | [], need => need
  | .stackBackRef name _ :: ms, _ => if name = r then false else needsStackChild r ms true
  | _ :: ms, need => needsStackChild r ms need

mutual
/-- typebuilder.go:111-212 `walkTerm`. All the maps in it are one map. `rnd` are the random numbers (`rand.Int()`). `none` is a
panic. -/
def walkType (camel : Str → Str) (rnd : Nat → Nat) : Term → Str → Count → List (Str × Known) → Nat → TypeState → Option TypeState
  | .s _, parent, quant, _, id, st => some (st.add camel parent (.unnamedToken parent (quant.push id)))
  | .re _, parent, quant, _, id, st => some (st.add camel parent (.unnamedToken parent (quant.push id)))
  | .rule r, parent, quant, known, id, st =>
    (ruleMember r parent (quant.push id) known).map fun m => st.add camel parent m
  | .ref i _, parent, _, _, _, st => some (st.add camel parent (.backRef i parent))                  -- 121-125
  | .scope t g, parent, quant, known, id, st =>                                                      -- 126-130
    (walkRules camel rnd parent g (mergeRules camel parent known g) st).bind fun st =>
      walkType camel rnd t parent quant (mergeRules camel parent known g) id st
  | .seq ts, parent, quant, known, id, st => walkTypes camel rnd ts parent quant known id st
  | .oneof ts, parent, quant, known, _, st =>                                                        -- 133-137
    walkAlternatives camel rnd ts parent quant known (st.add camel parent (.choice parent))
  | .stack ts, parent, quant, known, id, st => walkTypes camel rnd ts parent quant known id st
  | .delim t sep _ _ _, parent, quant, known, id, st =>                                              -- 140-162
    (walkType camel rnd t parent wantAll known id st).bind fun st =>
      match sep with
      | .named n (.s _) => some (st.add camel parent (.namedToken n parent quant))
      | .named n (.cut _) => some (st.add camel parent (.namedToken n parent quant))
      | .named n t' => walkType camel rnd (.named n t') parent wantAll known id st
      | .rule r => walkType camel rnd (.rule r) (parent ++ goName camel r) wantAll known id st
      | .cut _ => some st
      | .s _ => some st
      | sep => walkType camel rnd sep (parent ++ str "Delim") wantAll known id st
  | .named n t, parent, quant, known, id, st =>                                                      -- 163-197
    match t with
    | .rule r => (namedRuleMember n r parent quant known).map fun m => st.add camel parent m
    | .re _ => some (st.add camel parent (.namedToken n parent quant))
    | .s _ => some (st.add camel parent (.namedToken n parent quant))
    | .cut _ => some (st.add camel parent (.namedToken n parent quant))
    | t =>
      (walkType camel rnd t (parent ++ goName camel n) quant known id st).map fun st =>
        st.add camel parent (.namedRule n parent (parent ++ goName camel n) quant)
  | .quant t _ hi, parent, quant, known, id, st =>                                                   -- 198-202
    walkType camel rnd t parent (if hi ≠ 1 then wantAll else quant) known id st
  | .cut t, parent, quant, known, id, st => walkType camel rnd t parent quant known id st
  | .look t, parent, quant, known, id, st => walkType camel rnd t parent quant known id st
  | .ext _, _, _, _, _, st => some st
/-- typebuilder.go:68-78 `handleSeq`. -/
def walkTypes (camel : Str → Str) (rnd : Nat → Nat) : List Term → Str → Count → List (Str × Known) → Nat → TypeState → Option TypeState
  | [], _, _, _, _, st => some st
  | t :: ts, parent, quant, known, id, st =>
    (walkType camel rnd t parent quant known id st).bind fun st => walkTypes camel rnd ts parent quant known id st
/-- typebuilder.go:135-137. -/
def walkAlternatives (camel : Str → Str) (rnd : Nat → Nat) : List Term → Str → Count → List (Str × Known) → TypeState → Option TypeState
  | [], _, _, _, st => some st
  | t :: ts, parent, quant, known, st =>
    (walkType camel rnd t parent quant known (rnd st.drawn) { st with drawn := st.drawn + 1 }).bind fun st =>
      walkAlternatives camel rnd ts parent quant known st
/-- typebuilder.go:41-66 `walkGrammar`; a range over a map, here in the order of the list. Line 51 calls a method of nil if
the rule added nothing. -/
def walkRules (camel : Str → Str) (rnd : Nat → Nat) (pre : Str) : List (Str × Term) → List (Str × Known) → TypeState → Option TypeState
  | [], _, st => some st
  | (r, t) :: g, known, st =>
    let typeName := pre ++ goName camel r
    (walkType camel rnd t typeName wantOne (pushRuleName r typeName known) (rnd st.drawn) { st with drawn := st.drawn + 1 }).bind fun st =>
      match lookup (goTypeName camel typeName) st.types with
      | none => none
      | some ty =>
        walkRules camel rnd pre g known
          (if needsStackChild r ty.children false then st.add camel typeName (.stackBackRef r typeName) else st)
end

/-- typebuilder.go:10-13 `makeTypesFromGrammar`; types.go:377-380 `MakeTypes` calls it with the grammar of `NewFromAst`. -/
def makeTypes (camel : Str → Str) (rnd : Nat → Nat) (g : Grammar) : Option TypeMap :=
  (walkRules camel rnd [] g (mergeRules camel [] [] g) ⟨[], 0⟩).map TypeState.types

/-! ## The methods (types.go, the `String` methods) -/

/-- What a generated method does with the node that the type wraps. -/
inductive GoMethod
  /-- the text of the whole node (154-157) -/
  | text
  /-- `ast.Choice` (186) -/
  | choice
  /-- `ast.First` of a name, wrapped in a type, nil if there is none (309-314) -/
  | oneNode (name type : Str)
  /-- `ast.All` of a name, each wrapped in a type (318-324) -/
  | allNodes (name type : Str)
  /-- `ast.First` of a name as it is (212) -/
  | raw (name : Str)
  /-- the text of the token in the first child of a name, empty if there is none (229-234) -/
  | oneText (name : Str)
  /-- the same of all (239-245) -/
  | allTexts (name : Str)
  /-- the text of the first token (267-279) -/
  | oneToken
  /-- the texts of all (284-290) -/
  | allTokens
  deriving DecidableEq, Repr

/-- What a generated method returns. -/
inductive GoValue
  | text (x : Str)
  | texts (xs : List Str)
  /-- a pointer to a value of a type that wraps a node, nil if there is no node -/
  | node (type : Str) (n : Option Ast)
  | nodes (type : Str) (ns : List Ast)
  | ast (n : Option Ast)
  | int (i : Int)

/-- Lines 271-277: a branch with a single name. Line 273 asserts that its children are a `One`. -/
def lonelyToken : Branch → Option (Option Ast)
  | [(_, .one c)] => some (c.first [])
  | [(_, .many _)] => none
  | _ => some none

/-- The bodies of the generated methods, for a wrapped node that is not nil; `none` is a panic. -/
def GoMethod.run : GoMethod → Ast → Option GoValue
  | .text, n => n.text.map .text
  | .choice, n => n.choice.map .int
  | .oneNode k ty, n => some (.node ty (n.first k))
  | .allNodes k ty, n => some (.nodes ty (n.all k))
  | .raw k, n => some (.ast (n.first k))
  | .oneText k, n =>
    match n.first k with
    | none => some (.text [])
    | some c => ((c.first []).bind Ast.text).map .text
  | .allTexts k, n => (mapO (fun c => (c.first []).bind Ast.text) (n.all k)).map .texts
  | .oneToken, n =>
    match n.first [] with
    | some c => c.text.map .text
    | none =>
      match n with
      | .branch b =>
        match lonelyToken b with
        | none => none
        | some none => some (.text [])
        | some (some c) => c.text.map .text
      | _ => some (.text [])
  | .allTokens, n => (mapO Ast.text (n.all [])).map .texts

/-- A method: the type it belongs to, its name, and what it does. -/
structure MethodDecl where
  receiver : Str
  name : Str
  does : GoMethod
  deriving DecidableEq, Repr

/-- types.go:300-329. -/
def ruleMethods (camel : Str → Str) (name parent returnType : Str) (count : Count) : List MethodDecl :=
  (if count.one then [⟨goTypeName camel parent, str "One" ++ goName camel name, .oneNode name (goTypeName camel returnType)⟩] else []) ++
  (if count.all then [⟨goTypeName camel parent, str "All" ++ goName camel name, .allNodes name (goTypeName camel returnType)⟩] else [])

/-- types.go `String()` of a child. -/
def Member.methods (camel : Str → Str) : Member → List MethodDecl
  | .choice parent => [⟨goTypeName camel parent, str "Choice", .choice⟩]
  | .stackBackRef name parent => ruleMethods camel name parent parent wantAll                       -- 193-203
  | .backRef name parent => [⟨goTypeName camel parent, goName camel name ++ str "Ref", .raw name⟩]
  | .namedToken name parent count =>
    (if count.one then [⟨goTypeName camel parent, str "One" ++ goName camel name, .oneText name⟩] else []) ++
    (if count.all then [⟨goTypeName camel parent, str "All" ++ goName camel name, .allTexts name⟩] else [])
  | .unnamedToken parent count =>
    (if count.one then [⟨goTypeName camel parent, str "OneToken", .oneToken⟩] else []) ++
    (if count.all then [⟨goTypeName camel parent, str "AllToken", .allTokens⟩] else [])
  | .namedRule name parent returnType count => ruleMethods camel name parent returnType count

/-- types.go:150-159, 337-353 `String()` of a type: the methods, in the order of the children (which are sorted there). -/
def GoType.methods (camel : Str → Str) : GoType → List MethodDecl
  | .basic name => [⟨goTypeName camel name, str "String", .text⟩]
  | .rule _ cs => cs.flatMap (Member.methods camel)

/-- types.go:152 and 338-339: the Go types declared. -/
def GoType.declares (camel : Str → Str) : GoType → Str
  | .basic name => goTypeName camel name
  | .rule name _ => goTypeName camel name

/-- All methods of the generated code. -/
def allMethods (camel : Str → Str) (tm : TypeMap) : List MethodDecl := tm.flatMap fun e => e.2.methods camel

/-- All types of the generated code. -/
def allTypes (camel : Str → Str) (tm : TypeMap) : List Str := tm.map fun e => e.2.declares camel

end Wbnf

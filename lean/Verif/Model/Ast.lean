import Verif.Model.Compile

/-!
# Model of the ast package: nodes, counters, FromParserNode, ToParserNode

ast/node.go, ast/counter.go, ast/from_parsernode.go, ast/to_parsernode.go, ast/helpers.go.
-/

namespace Wbnf

/-- ast/node.go:91-93 `Extra.Data`, as far as the package itself puts something there: the rule at the
top, the choice of an alternative, `"@prefix"` or `"@suffix"`. -/
inductive Datum
  | rule (r : Str)
  | choice (i : Nat)
  | text (s : Str)
  deriving DecidableEq, Repr

mutual
/-- ast/node.go:41-93 `Node`: `Leaf`, `Extra`, `Branch`. A `Branch` is a map with unique keys. -/
inductive Ast
  | leaf (s : Scanner)
  | extra (d : Datum)
  | branch (b : List (Str × Kids))
/-- ast/node.go:24-39 `Children`: `One`, `Many`. (`One{nil}` cannot arise from a conversion and is
left out.) -/
inductive Kids
  | one (n : Ast)
  | many (ns : List Ast)
end

abbrev Branch := List (Str × Kids)

/-- ast/node.go:73-80 `Branch.One`; `none` is nil. -/
def Branch.one? (b : Branch) (name : Str) : Option Ast :=
  match lookup name b with
  | some (.one n) => some n
  | _ => none

/-- ast/node.go:82-89 `Branch.Many`; nil is an empty slice. -/
def Branch.many? (b : Branch) (name : Str) : List Ast :=
  match lookup name b with
  | some (.many ns) => ns
  | _ => []

/-- ast/node.go:19-20. -/
def ruleTag : Str := str "@rule"
def choiceTag : Str := str "@choice"
/-- ast/from_parsernode.go:158. -/
def emptyTag : Str := str "@empty"

/-! ## Level names (ast/node.go:107-123) -/

/-- `\w` of Go's regexp package. -/
def isWordByte (c : UInt8) : Bool :=
  (48 ≤ c && c ≤ 57) || (65 ≤ c && c ≤ 90) || c = 95 || (97 ≤ c && c ≤ 122)

def isDigitByte (c : UInt8) : Bool := 48 ≤ c && c ≤ 57

/-- `strconv.Atoi` of a string of digits, without the range check. -/
def digitsValue (s : Str) : Nat := s.foldl (fun n c => n * 10 + (c.toNat - 48)) 0

/-- ast/node.go:107-123 `unlevel`, first result. The second result, the level, only goes to
`collapse` and `expandNode`, which do nothing with it (from_parsernode.go:37, to_parsernode.go:29). A
number out of the range of `int` panics. -/
def unlevel (name : Str) : Except Stop Str :=
  let w := name.takeWhile isWordByte
  match name.drop w.length with
  | c :: ds =>
    if w ≠ [] ∧ c = 64 ∧ ds ≠ [] ∧ ds.all isDigitByte = true then
      if digitsValue ds < 2 ^ 63 then .ok w else .error .panic
    else .ok name
  | [] => .ok name

/-! ## Counters (ast/counter.go) -/

/-- ast/counter.go:9-11. Natural numbers; simplified: no overflow. -/
structure Counter where
  lo : Nat
  hi : Nat
  deriving DecidableEq, Repr

/-- ast/counter.go:25-30. -/
def zeroOrMore : Counter := ⟨0, 2⟩
def oneOne : Counter := ⟨1, 1⟩
def oneOrMore : Counter := ⟨1, 2⟩

/-- ast/counter.go:32-34. -/
def Counter.add (c d : Counter) : Counter := ⟨c.lo + d.lo, c.hi + d.hi⟩
/-- ast/counter.go:36-38. -/
def Counter.mul (c d : Counter) : Counter := ⟨c.lo * d.lo, c.hi * d.hi⟩
/-- ast/counter.go:40-48. -/
def Counter.union (c d : Counter) : Counter :=
  ⟨if d.lo < c.lo then d.lo else c.lo, if c.hi < d.hi then d.hi else c.hi⟩

abbrev Counters := List (Str × Counter)

/-- `ctrs[name]`: the zero counter if missing. -/
def Counters.get (ctrs : Counters) (name : Str) : Counter := (lookup name ctrs).getD ⟨0, 0⟩

/-- ast/counter.go:81-83. -/
def Counters.count (ctrs : Counters) (name : Str) (c : Counter) : Counters :=
  mapSet name ((ctrs.get name).add c) ctrs

/-- ast/counter.go:85-89; the range over the map is in the order of the list here, the result does not
depend on it. -/
def Counters.mul (ctrs : Counters) : Counters → Counter → Counters
  | [], _ => ctrs
  | (name, c) :: ds, parent => Counters.mul (ctrs.count name (parent.mul c)) ds parent

/-- ast/counter.go:91-95. -/
def Counters.union (ctrs : Counters) : Counters → Counters
  | [] => ctrs
  | (name, c) :: o => Counters.union (mapSet name ((ctrs.get name).union c) ctrs) o

mutual
/-- ast/counter.go:97-133 `termCountChildren`; `none` is a panic. -/
def Term.countChildren : Term → Counter → Counters → Option Counters
  | .s _, p, ctrs => some (ctrs.count [] p)
  | .re _, p, ctrs => some (ctrs.count [] p)
  | .rule r, p, ctrs => some (ctrs.count r p)
  | .seq ts, p, ctrs => countSeq ts p ctrs
  | .oneof ts, p, ctrs => (countOneof ts []).map fun ds => ctrs.mul ds p
  | .delim t sep _ _ _, p, ctrs =>
    (t.countChildren (p.mul oneOrMore) ctrs).bind fun ctrs => sep.countChildren (p.mul zeroOrMore) ctrs
  | .quant t lo hi, p, ctrs => t.countChildren (p.mul ⟨lo, if hi = 0 then 2 else hi⟩) ctrs     -- 17-23
  | .named n _, p, ctrs => some (ctrs.count n p)
  | .ref i _, p, ctrs => some (ctrs.count i (p.mul oneOrMore))
  | .scope t _, p, ctrs => t.countChildren (p.mul oneOrMore) ctrs
  | .cut t, p, ctrs => t.countChildren p ctrs
  | .look t, p, ctrs => t.countChildren p ctrs
  | .ext x, p, ctrs => some (ctrs.count x p)
  | .stack _, _, _ => none
/-- ast/counter.go:103-106, the loop. -/
def countSeq : List Term → Counter → Counters → Option Counters
  | [], _, ctrs => some ctrs
  | t :: ts, p, ctrs => (t.countChildren p ctrs).bind fun ctrs => countSeq ts p ctrs
/-- ast/counter.go:108-111, the loop over the alternatives; line 77 `newCounters`. -/
def countOneof : List Term → Counters → Option Counters
  | [], ds => some ds
  | t :: ts, ds => (t.countChildren oneOne []).bind fun c => countOneof ts (ds.union c)
end

/-- ast/counter.go:75-79 `newCounters`; a nil term panics too. -/
def newCounters : Option Term → Except Stop Counters
  | some t => match t.countChildren oneOne [] with
    | some c => .ok c
    | none => .error .panic
  | none => .error .panic

/-! ## FromParserNode (ast/from_parsernode.go) -/

/-- ast/from_parsernode.go:103-108. -/
def Branch.one (b : Branch) (name : Str) (n : Ast) : Except Stop Branch :=
  if hasKey name b then .error .panic else .ok (mapSet name (.one n) b)

/-- ast/from_parsernode.go:110-116. -/
def Branch.many (b : Branch) (name : Str) (n : Ast) : Except Stop Branch :=
  match lookup name b with
  | some (.many ns) => .ok (mapSet name (.many (ns ++ [n])) b)
  | some (.one _) => .error .panic
  | none => .ok (mapSet name (.many [n]) b)

/-- ast/from_parsernode.go:92-101. -/
def Branch.add (b : Branch) (name : Str) (n : Ast) (c : Counter) : Except Stop Branch :=
  if c = ⟨0, 0⟩ then .error .panic
  else if c = ⟨0, 1⟩ ∨ c = ⟨1, 1⟩ then b.one name n
  else b.many name n

/-- Go's `==` on two terms as interface values (from_parsernode.go:160): different dynamic types are
unequal; slices and structs with maps panic; structs are compared field by field in order. -/
def Term.goEq : Term → Term → Except Stop Bool
  | .rule a, .rule b => .ok (a = b)
  | .s a, .s b => .ok (a = b)
  | .re a, .re b => .ok (a = b)
  | .ext a, .ext b => .ok (a = b)
  | .ref a d, .ref b e =>
    if a = b then
      match d, e with
      | none, none => .ok true
      | some d, some e => d.goEq e
      | _, _ => .ok false
    else .ok false
  | .seq _, .seq _ => .error .panic
  | .oneof _, .oneof _ => .error .panic
  | .stack _, .stack _ => .error .panic
  | .scope _ _, .scope _ _ => .error .panic
  | .delim t sep a cs ce, .delim t' sep' a' cs' ce' =>
    (t.goEq t').bind fun x =>
      if x then (sep.goEq sep').bind fun y => .ok (y && a = a' && cs = cs' && ce = ce') else .ok false
  | .look t, .look t' => t.goEq t'
  | .quant t a b, .quant t' a' b' => (t.goEq t').bind fun x => .ok (x && a = a' && b = b')
  | .named n t, .named n' t' => if n = n' then t.goEq t' else .ok false
  | .cut t, .cut t' => t.goEq t'
  | _, _ => .ok false

/-- `gcopy[rule] = terms` for all rules of a grammar in braces (from_parsernode.go:138-141,
to_parsernode.go:108-111). `gcopy` is the same map as `g`, so the caller's grammar changes: the
grammar is part of the state. -/
def overlay (g : Grammar) : Grammar → Grammar
  | [] => g
  | (r, t) :: rest => overlay (mapSet r t g) rest

/-- A loop over children that passes the state on. -/
def loopTrees (f : Tree → Grammar → Branch → Except Stop (Grammar × Branch)) :
    List Tree → Grammar → Branch → Except Stop (Grammar × Branch)
  | [], g, b => .ok (g, b)
  | v :: vs, g, b => (f v g b).bind fun s => loopTrees f vs s.1 s.2

/-- from_parsernode.go:143-147, the loop of `Seq`: more children than terms panic. -/
def loopSeq (f : Term → Tree → Grammar → Branch → Except Stop (Grammar × Branch)) :
    List Term → List Tree → Grammar → Branch → Except Stop (Grammar × Branch)
  | _, [], g, b => .ok (g, b)
  | [], _ :: _, _, _ => .error .panic
  | t :: ts, v :: vs, g, b => (f t v g b).bind fun s => loopSeq f ts vs s.1 s.2

/-- from_parsernode.go:156-175, the loop of `Delim`: `side`, `other`, `sepnext` are the state of the
generator (parser.go:482-500), `first` is `i == 0`. -/
def loopDelim (f : Term → Tree → Grammar → Branch → Except Stop (Grammar × Branch)) (sep : Term) :
    Term → Term → Bool → Bool → List Tree → Grammar → Branch → Except Stop (Grammar × Branch)
  | _, _, _, _, [], g, b => .ok (g, b)
  | side, other, sepnext, first, v :: vs, g, b =>
    let term := if sepnext then sep else side
    (match v with
    | .empty => (b.many emptyTag (.extra (.text (if first then str "@prefix" else str "@suffix")))).bind
        fun b => .ok (g, b)
    | v => f term v g b).bind fun s =>
      if sepnext then loopDelim f sep side other false false vs s.1 s.2
      else loopDelim f sep other side true false vs s.1 s.2

/-- ast/from_parsernode.go:118-219 `fromParserNode` (commented-out code left out; `collapse`, lines 36-58,
returns its receiver since its condition is `false && …`). The state is the grammar, which `ScopedGrammar`
changes, and the branch. Fuel bounds the recursion through rules. Simplified: an `ExtRef` whose tree holds a
`Branch` in `Extra` is not represented, other trees add nothing. -/
def fromTree : Nat → Term → Counters → Tree → Grammar → Branch → Except Stop (Grammar × Branch)
  | 0, _, _, _, _, _ => .error .oof
  | n + 1, t, ctrs, e, g, b =>
    match t with
    | .s _ | .re _ =>                                                               -- 122-123
      match e with
      | .leaf s => (b.add [] (.leaf s) (ctrs.get [])).bind fun b => .ok (g, b)
      | _ => .error .panic
    | .rule r =>                                                                    -- 124-136
      (newCounters (lookup r g)).bind fun ctrs' =>
      (unlevel r).bind fun name =>
      match lookup r g with
      | some t' =>
        (fromTree n t' ctrs' e g []).bind fun s =>
          (b.add name (.branch s.2) (ctrs.get r)).bind fun b => .ok (s.1, b)
      | none => .error .panic
    | .scope t' g' => fromTree n t' ctrs e (overlay g g') b                         -- 137-142
    | .seq ts =>                                                                    -- 143-147
      match e with
      | .node _ _ vs => loopSeq (fun t v => fromTree n t ctrs v) ts vs g b
      | _ => .error .panic
    | .oneof ts =>                                                                  -- 148-151
      match e with
      | .node _ (.choice i) (v :: _) =>
        (b.many choiceTag (.extra (.choice i))).bind fun b =>
        match ts[i]? with
        | some t' => fromTree n t' ctrs v g b
        | none => .error .panic
      | _ => .error .panic
    | .delim t' sep a cs ce =>                                                      -- 152-175
      match e with
      | .node tag (.assoc a') vs =>
        let here : Term → Tree → Grammar → Branch → Except Stop (Grammar × Branch) := fun lr v g b =>
          (lr.goEq (.delim t' sep a cs ce)).bind fun same =>
            if same then
              match v with
              | .node _ _ _ =>
                (newCounters (some lr)).bind fun c =>
                match (Term.delim t' sep a cs ce).countChildren (ctrs.get []) c with
                | some c' =>
                  (fromTree n lr c' v g []).bind fun s =>
                    (b.one tag (.branch s.2)).bind fun b => .ok (s.1, b)
                | none => .error .panic
              | _ => fromTree n t' ctrs v g b
            else fromTree n lr ctrs v g b
        if a' < 0 then loopDelim here sep t' (.delim t' sep a cs ce) false true vs g b
        else if a' > 0 then loopDelim here sep (.delim t' sep a cs ce) t' false true vs g b
        else loopDelim here sep t' t' false true vs g b
      | _ => .error .panic
    | .quant t' _ _ =>                                                              -- 176-180
      match e with
      | .node _ _ vs => loopTrees (fromTree n t' ctrs) vs g b
      | _ => .error .panic
    | .named name t' =>                                                             -- 181-190
      (newCounters (some t')).bind fun ctrs' =>
        (fromTree n t' ctrs' e g []).bind fun s =>
          (b.add name (.branch s.2) (ctrs.get name)).bind fun b => .ok (s.1, b)
    | .ref i d =>                                                                   -- 191-201
      match e with
      | .leaf s => (b.add i (.leaf s) (ctrs.get i)).bind fun b => .ok (g, b)
      | .node _ _ vs =>
        (loopTrees (fromTree n (.ref i d) ctrs) vs g []).bind fun s =>
          (b.add i (.branch s.2) (ctrs.get i)).bind fun b => .ok (s.1, b)
      | _ => .ok (g, b)
    | .cut t' => fromTree n t' ctrs e g b                                           -- 202-203
    | .ext _ => .ok (g, b)                                                          -- 204-210
    | .look t' =>                                                                   -- 211-215
      match e with
      | .node _ _ vs => loopTrees (fromTree n t' ctrs) vs g b
      | _ => .error .panic
    | .stack _ => .error .panic                                                     -- 216-218

/-- ast/from_parsernode.go:21-34 `FromParserNode`: the branch, and the grammar as it is left. -/
def fromParserNode (n : Nat) (g : Grammar) : Tree → Except Stop (Grammar × Branch)
  | .leaf s => .ok (g, [([], .one (.leaf s))])
  | .node tag x cs =>
    (newCounters (lookup tag g)).bind fun ctrs =>
    match lookup tag g with
    | some t => fromTree n t ctrs (.node tag x cs) g [(ruleTag, .one (.extra (.rule tag)))]
    | none => .error .panic
  | _ => .error .panic

/-! ## ToParserNode (ast/to_parsernode.go) -/

/-- Removal of a key from a map. -/
def mapErase {α : Type} (k : Str) : List (Str × α) → List (Str × α)
  | [] => []
  | (k', v) :: m => if k' = k then m else (k', v) :: mapErase k m

/-- ast/to_parsernode.go:55-61: the node, `none` for nil, and the branch that is left. -/
def Branch.pullOne (b : Branch) (name : Str) : Except Stop (Option Ast × Branch) :=
  match lookup name b with
  | some (.one n) => .ok (some n, mapErase name b)
  | some (.many _) => .error .panic
  | none => .ok (none, b)

/-- ast/to_parsernode.go:63-77. -/
def Branch.pullMany (b : Branch) (name : Str) : Except Stop (Option Ast × Branch) :=
  match lookup name b with
  | some (.many []) => .ok (none, b)
  | some (.many [n]) => .ok (some n, mapErase name b)
  | some (.many (n :: ns)) => .ok (some n, mapSet name (.many ns) b)
  | some (.one _) => .error .panic
  | none => .ok (none, b)

/-- ast/to_parsernode.go:44-53. -/
def Branch.pull (b : Branch) (name : Str) (c : Counter) : Except Stop (Option Ast × Branch) :=
  if c = ⟨0, 0⟩ then .error .panic
  else if c = ⟨0, 1⟩ ∨ c = ⟨1, 1⟩ then b.pullOne name
  else b.pullMany name

/-- ast/to_parsernode.go:20-26 `relabelNode`. -/
def relabel (name : Str) : Tree → Tree
  | .node _ x cs => .node name x cs
  | v => v

/-- State of `toParserNode`: the result (`none` is nil), the grammar and the branch. -/
abbrev ToRes := Except Stop (Option Tree × Grammar × Branch)

/-- to_parsernode.go:114-122, the loop of `Seq`. -/
def toSeq (f : Term → Grammar → Branch → ToRes) : List Term → Grammar → Branch → List Tree → ToRes
  | [], g, b, acc => .ok (some (.node seqTag .nil acc), g, b)
  | t :: ts, g, b, acc => (f t g b).bind fun
    | (some v, g, b) => toSeq f ts g b (acc ++ [v])
    | (none, g, b) => .ok (none, g, b)

/-- to_parsernode.go:138-149, the loop of `Delim`, bounded by fuel: `isSep` is `i % 2 = 1`. -/
def toDelim (f : Term → Grammar → Branch → ToRes) (t sep : Term) : Nat → Bool → Grammar → Branch → List Tree → ToRes
  | 0, _, _, _, _ => .error .oof
  | k + 1, isSep, g, b, acc => (f (if isSep then sep else t) g b).bind fun
    | (some v, g, b) => toDelim f t sep k (!isSep) g b (acc ++ [v])
    | (none, g, b) => if isSep then .ok (some (.node delimTag (.assoc 0) acc), g, b) else .error .panic

/-- to_parsernode.go:152-162, the loop of `Quant`, bounded by fuel; parser/terms.go:181-187 `MaxLessThan`,
`Contains`. -/
def toQuant (f : Grammar → Branch → ToRes) (lo hi : Nat) : Nat → Grammar → Branch → List Tree → ToRes
  | 0, _, _, _ => .error .oof
  | k + 1, g, b, acc =>
    let done : Grammar → Branch → ToRes := fun g b =>
      if lo ≤ acc.length ∧ ¬ (0 < hi ∧ hi < acc.length) then .ok (some (.node quantTag .nil acc), g, b) else .error .panic
    if 0 < hi ∧ hi < acc.length then done g b
    else (f g b).bind fun
      | (some v, g, b) => toQuant f lo hi k g b (acc ++ [v])
      | (none, g, b) => done g b

/-- ast/to_parsernode.go:79-187 `toParserNode`. A nil child of a `Oneof` node (line 129) is kept as
`foreign 0`. -/
def toTree : Nat → Term → Counters → Grammar → Branch → ToRes
  | 0, _, _, _, _ => .error .oof
  | n + 1, t, ctrs, g, b =>
    match t with
    | .s _ | .re _ =>                                                               -- 80-84
      (b.pull [] (ctrs.get [])).bind fun
      | (some (.leaf s), b) => .ok (some (.leaf s), g, b)
      | (some _, _) => .error .panic
      | (none, b) => .ok (none, g, b)
    | .rule r =>                                                                    -- 85-106
      (unlevel r).bind fun name =>
      (b.pull name (ctrs.get r)).bind fun
      | (some node, b) =>
        (newCounters (lookup r g)).bind fun ctrs' =>
        match node, lookup r g with
        | .branch b2, some t' => (toTree n t' ctrs' g b2).bind fun
          | (v, g, _) => .ok (v.map (relabel r), g, b)
        | .leaf s, _ => .ok (some (.leaf s), g, b)
        | _, _ => .error .panic
      | (none, b) => .ok (none, g, b)
    | .scope t' g' => toTree n t' ctrs (overlay g g') b                             -- 107-112
    | .seq ts => toSeq (fun t g b => toTree n t ctrs g b) ts g b []                 -- 113-122
    | .oneof ts =>                                                                  -- 123-132
      (b.pullMany choiceTag).bind fun
      | (some (.extra (.choice i)), b) =>
        match ts[i]? with
        | some t' => (toTree n t' ctrs g b).bind fun
          | (v, g, b) => .ok (some (.node oneofTag (.choice i) [v.getD (.foreign 0)]), g, b)
        | none => .error .panic
      | (some _, _) => .error .panic
      | (none, b) => .ok (none, g, b)
    | .delim t' sep _ _ _ => toDelim (fun t g b => toTree n t ctrs g b) t' sep n false g b []     -- 133-150
    | .quant t' lo hi => toQuant (toTree n t' ctrs) lo hi n g b []                  -- 151-163
    | .named name t' =>                                                             -- 164-179
      (newCounters (some t')).bind fun ctrs' =>
      (b.pull name (ctrs.get name)).bind fun
      | (some (.branch b2), b) => (toTree n t' ctrs' g b2).bind fun
        | (v, g, _) => .ok (v.map (relabel name), g, b)
      | (some (.leaf s), b) => .ok (some (.leaf s), g, b)
      | (some _, _) => .error .panic
      | (none, b) => .ok (none, g, b)
    | .cut t' => toTree n t' ctrs g b                                               -- 180-181
    | .look t' => toTree n t' ctrs g b                                              -- 182-183
    | .ref _ _ | .ext _ | .stack _ => .error .panic

/-- ast/to_parsernode.go:10-18 `ToParserNode`; the clone makes it leave the argument alone. `none` is a nil
result. -/
def toParserNode (n : Nat) (g : Grammar) (b : Branch) : Except Stop (Option Tree × Grammar) :=
  (b.pullOne ruleTag).bind fun
  | (some (.extra (.rule r)), b) =>
    (newCounters (lookup r g)).bind fun ctrs =>
    match lookup r g with
    | some t => (toTree n t ctrs g b).bind fun
      | (v, g, _) => .ok (v.map (relabel r), g)
    | none => .error .panic
  | _ => .error .panic

end Wbnf

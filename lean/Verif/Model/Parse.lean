import Verif.Model.Compile

/-!
# Model of parsing: the `Parse` methods of parser/parser.go

Mutable arguments become results: a parser returns the tree it stores in `*output` and the scanner
it leaves in `*input`, also when it returns an error. `k` counts the random numbers drawn so far and
`ρ` is the stream they are drawn from. The call stack `stk` and the text of errors only feed error
messages and are not modelled.
-/

namespace Wbnf

/-- The error values control flow depends on: parser/error.go `ParseError`, `FatalError` with its
cut token, an error with method `IsStopError`, `UnconsumedInputError`, any other error. -/
inductive Err
  | parse
  | fatal (cp : Nat)
  | stop
  | unconsumed (tree : Tree) (residue : Scanner)
  | other
  deriving Repr

/-- parser/error.go:25-31 `isFatal`. -/
def Err.isFatal : Err → Bool
  | .fatal _ => true
  | .stop => true
  | _ => false

/-- parser/error.go:33-41 `isNotMyFatalError`; `none` is `invalidCutpoint`. -/
def Err.isNotMyFatal (cp : Option Nat) : Err → Bool
  | .fatal c => some c ≠ cp
  | .stop => true
  | _ => false

/-- parser/error.go:43-60 `newParseError(...)(fatal, ...)`. -/
def mkErr : Option Nat → Err
  | none => .parse
  | some c => .fatal c

/-- parser/scope.go:18-20 `Scope`: the bindings and the value under `cutpointkey` (`none` is
`invalidCutpoint`). The externals and the escape, which never change during a parse, are kept apart
in `Externals`; the reserved keys cannot be confused with identifiers here. -/
structure Scope where
  vals : List (Str × Tree)
  cp : Option Nat

/-- parser/scope.go:59-64 `WithVal`: the new binding shadows an old one. -/
def Scope.withVal (sc : Scope) (ident : Str) (v : Tree) : Scope :=
  if ident ≠ [] then { sc with vals := (ident, v) :: sc.vals } else sc

/-- parser/scope.go:66-72 `GetVal`. -/
def Scope.getVal (sc : Scope) (ident : Str) : Option Tree := lookup ident sc.vals

/-- parser/scope.go:82-90 `ReplaceCutPoint(force)`: new scope, `prev`, `replacement` and the
number of draws. -/
def Scope.replaceCutPoint (ρ : Nat → Nat) (force : Bool) (sc : Scope) (k : Nat) :
    Scope × Option Nat × Option Nat × Nat :=
  if sc.cp.isSome || force then ({ sc with cp := some (ρ k) }, sc.cp, some (ρ k), k + 1)
  else (sc, none, none, k)

/-- What an external handler can see of the scope it is called with. For an escape, `ident` and
`term` are the bindings added at parser.go:143-146. -/
structure Call where
  vals : Str → Option Tree
  cp : Option Nat
  ident : Str
  term : Option Term

/-- What an external handler does: `(TreeElement, error)` and the scanner it leaves. Handlers are
assumed to return (no panic, no divergence). -/
structure ExtRes where
  tree : Tree
  err : Option Err
  inp : Scanner

/-- parser/scope.go:12-16 `escape`. -/
structure Escape where
  openDelim : Str
  closeDelim : Str
  external : Call → Scanner → ExtRes

/-- The externals of a parse: `ExternalRefs` and the escape made from a `*open()close` key. -/
structure Externals where
  refs : Str → Option (Call → Scanner → ExtRes)
  esc : Option Escape

/-- `ParseWithExternals(rule, input, nil)`. -/
def noExternals : Externals := ⟨fun _ => none, none⟩

/-- Outcome of a parser: a value, or an error, each with the scanner left in `*input` and the
number of draws; a panic; or no outcome within the fuel. -/
inductive Res (α : Type)
  | ok (v : α) (inp : Scanner) (k : Nat)
  | err (e : Err) (inp : Scanner) (k : Nat)
  | panic
  | oof
  deriving Repr

/-- `if err := ...; err != nil { return err }`, then go on with the value. -/
def Res.bind {α β : Type} (r : Res α) (f : α → Scanner → Nat → Res β) : Res β :=
  match r with
  | .ok v i k => f v i k
  | .err e i k => .err e i k
  | .panic => .panic
  | .oof => .oof

/-- A step that may panic. -/
def Res.ofOption {α β : Type} (o : Option α) (f : α → Res β) : Res β :=
  match o with
  | none => .panic
  | some v => f v

/-- A compilation step inside a parse (back references). -/
def Res.ofExcept {α β : Type} (o : Except Stop α) (f : α → Res β) : Res β :=
  match o with
  | .error .panic => .panic
  | .error .oof => .oof
  | .ok v => f v

inductive EscRes
  | no
  | yes (v : Tree) (inp : Scanner)
  | err (e : Err) (inp : Scanner)
  | panic

/-- parser/parser.go:158-161: the closing delimiter of an escape. -/
def closeEscape (E : Engine) (closeDelim : Str) (v : Tree) (inp : Scanner) : EscRes :=
  match inp.eatRegexp (E.find closeDelim) 0 with
  | .panic => .panic
  | .noMatch => .err .other inp
  | .ok _ _ _ rest => .yes v rest

/-- parser/parser.go:139-165 `parseEscape`. -/
def parseEscape (E : Engine) (X : Externals) (ident : Str) (t : Term) (sc : Scope) (inp : Scanner) :
    EscRes :=
  match X.esc with
  | none => .no
  | some e =>
    match inp.eatRegexp (E.find e.openDelim) 0 with
    | .panic => .panic
    | .noMatch => .no
    | .ok _ _ _ rest =>
      let r := e.external ⟨sc.getVal, sc.cp, ident, some t⟩ rest
      match r.err with
      | none => closeEscape E e.closeDelim r.tree r.inp
      | some (.unconsumed tree residue) => closeEscape E e.closeDelim tree residue
      | some er => .err er r.inp

/-- The first lines of every `Parse` method: `if escaped, err := parseEscape(...); ...`. -/
def escaping (E : Engine) (X : Externals) (ident : Str) (t : Term) (sc : Scope) (inp : Scanner)
    (k : Nat) (cont : Res Tree) : Res Tree :=
  match parseEscape E X ident t sc inp with
  | .no => cont
  | .yes v i => .ok v i k
  | .err e i => .err e i k
  | .panic => .panic

/-- parser/parser.go:196-203 `eatRegexp`, and the error of `sParser.Parse` and `reParser.Parse`
(238-244, 268-274). `eaten[n-1]` panics unless there are one or two groups. -/
def eatLeaf (find : Str → Option (List (Int × Int))) (sc : Scope) (inp : Scanner) (k : Nat) :
    Res Tree :=
  match inp.eatRegexp find 2 with
  | .panic => .panic
  | .noMatch => .err (mkErr sc.cp) inp k
  | .ok 1 _ [a] rest => .ok (.leaf a) rest k
  | .ok 2 _ [_, b] rest => .ok (.leaf b) rest k
  | .ok _ _ _ _ => .panic

/-- parser/parser.go:337-366: the loop of `seqParser.Parse`; `items` pairs `identFromTerm(p.t[i])`
with the item's parser, `isCut` is the type assertion at 358. On failure `*input` is the start of
the failing item (`furthest`), unless the error is fatal. -/
def seqLoop (ρ : Nat → Nat) (rec : P → Scope → Scanner → Nat → Res Tree) (isCut : P → Bool) :
    List (Str × P) → Scope → Scanner → Nat → Res (List Tree)
  | [], _, inp, k => .ok [] inp k
  | (ident, p) :: rest, sc, inp, k =>
    match rec p sc inp k with
    | .panic => .panic
    | .oof => .oof
    | .err e inp' k' => if e.isFatal then .err e inp' k' else .err (mkErr sc.cp) inp k'
    | .ok v inp' k' =>
      let r := if isCut p then sc.replaceCutPoint ρ true k' else (sc, none, none, k')
      (seqLoop ρ rec isCut rest (r.1.withVal ident v) inp' r.2.2.2).bind
        fun vs i k'' => .ok (v :: vs) i k''

/-- parser/parser.go:570-579: the loop of `quantParser.Parse`; `cnt` is `len(result)`, the first
argument bounds the number of iterations. -/
def quantLoop (rec : Scanner → Nat → Res Tree) (max : Nat) (mycp : Option Nat) :
    Nat → Nat → Scanner → Nat → Res (List Tree)
  | 0, _, _, _ => .oof
  | n + 1, cnt, inp, k =>
    if max = 0 ∨ cnt < max then
      match rec inp k with
      | .panic => .panic
      | .oof => .oof
      | .err e _ k' => if e.isNotMyFatal mycp then .err e inp k' else .ok [] inp k'
      | .ok v inp' k' =>
        (quantLoop rec max mycp n (cnt + 1) inp' k').bind fun vs i k'' => .ok (v :: vs) i k''
    else .ok [] inp k

/-- parser/parser.go:622-641: the loop of `oneofParser.Parse`; `i` is the index of the first
remaining alternative. -/
def oneofLoop (rec : P → Scanner → Nat → Res Tree) (tag : Str) (prevcp mycp : Option Nat)
    (inp : Scanner) : List P → Nat → Scanner → Nat → Res Tree
  | [], _, furthest, k => .err (mkErr prevcp) furthest k
  | p :: ps, i, furthest, k =>
    match rec p inp k with
    | .panic => .panic
    | .oof => .oof
    | .err e inp' k' =>
      if e.isNotMyFatal mycp then .err e inp k'
      else
        oneofLoop rec tag prevcp mycp inp ps (i + 1)
          (if furthest.offset < inp'.offset then inp' else furthest) k'
    | .ok v inp' k' => .ok (.node tag (.choice i) [v]) inp' k'

/-- `x.(Node).Children` -/
def Tree.children? : Tree → Option (List Tree)
  | .node _ _ cs => some cs
  | _ => none

/-- parser/parsernodes.go:47-53 `Node.Get(path...)`; `none` is a panic (not a node, or index out of
range). -/
def Tree.get? : Tree → List Nat → Option Tree
  | v, [] => some v
  | v, i :: path =>
    match v.children? with
    | none => none
    | some cs =>
      match cs[i]? with
      | none => none
      | some c => c.get? path

/-- parser/parser.go:423-427: append separator and term of every repetition. -/
def delimPairs : List Tree → Option (List Tree)
  | [] => some []
  | c :: cs =>
    match c.get? [0], c.get? [1], delimPairs cs with
    | some sep, some term, some rest => some (sep :: term :: rest)
    | _, _, _ => none

/-- parser/parser.go:404-431: the flat list of terms and separators, from the tree of the
intermediate sequence; `none` is a panic. A nil tree (`foreign 0`) in the trailing position is
skipped (`final != nil`, 429). -/
def delimItems (canStart canEnd : Bool) (v : Tree) : Option (List Tree) :=
  let off : Nat := if canStart then 1 else 0
  let lead : Option (List Tree) :=
    if canStart then
      match v.get? [0] with
      | some (.node _ _ []) => some []
      | some (.node _ _ (x :: _)) => some [.empty, x]
      | _ => none
    else some []
  let final : Option (List Tree) :=
    if canEnd then
      match v.get? [off + 1] with
      | some (.node _ _ []) => some []
      | some (.node _ _ (x :: _)) => some [x, .empty]
      | some (.foreign 0) => some []
      | _ => none
    else some []
  match lead, v.get? [off, 0], (v.get? [off, 1]).bind Tree.children?, final with
  | some l, some term, some reps, some f =>
    match delimPairs reps with
    | some ps => some (l ++ [term] ++ ps ++ f)
    | none => none
  | _, _, _, _ => none

/-- parser/parser.go:436-439: the left fold; a missing `result[i+1]` panics. -/
def foldLeftAssoc (tag : Str) (a : Int) : Tree → List Tree → Option Tree
  | v, [] => some v
  | v, op :: x :: rest => foldLeftAssoc tag a (.node tag (.assoc a) [v, op, x]) rest
  | _, [_] => none

/-- parser/parser.go:443-447: the right fold, on the reversed list without its first element;
a missing `result[j-1]` panics. -/
def foldRightAssoc (tag : Str) (a : Int) : Tree → List Tree → Option Tree
  | v, [] => some v
  | v, op :: x :: rest => foldRightAssoc tag a (.node tag (.assoc a) [x, op, v]) rest
  | _, [_] => none

/-- parser/parser.go:433-453: build the node(s) from the flat list. -/
def delimBuild (tag : Str) (assoc : Int) (items : List Tree) : Option Tree :=
  match items with
  | v :: rest@(_ :: _) =>
    if assoc = leftToRight then foldLeftAssoc tag assoc v rest
    else if assoc = rightToLeft then
      match items.reverse with
      | w :: back => foldRightAssoc tag assoc w back
      | [] => none
    else some (.node tag (.assoc 0) items)
  | _ => some (.node tag (.assoc 0) items)

mutual
/-- parser/parser.go:670-683 `termFromRefVal`; `none` is a nil term, on which `Parser` panics
(directly, or inside `makeParsers`). -/
def termFromRefVal : Tree → Option Term
  | .node _ _ cs => (termsFromRefVals cs).map .seq
  | .leaf s => s.toStr.map .s
  | .empty => none
  | .foreign _ => none
def termsFromRefVals : List Tree → Option (List Term)
  | [] => some []
  | v :: vs =>
    match termFromRefVal v, termsFromRefVals vs with
    | some t, some ts => some (t :: ts)
    | _, _ => none
end

mutual
/-- parser/parser.go:312-335 `nodesEqual`. Nodes with different numbers of children are *equal*
(the loop is skipped and `true` returned). `none` is a panic of `Scanner.String`. -/
def nodesEqual : Tree → Tree → Option Bool
  | .node _ _ as, .node _ _ bs =>
    if as.length = bs.length then nodesEqualList as bs else some true
  | .leaf a, .leaf b =>
    match a.toStr, b.toStr with
    | some x, some y => some (x = y)
    | _, _ => none
  | _, _ => some false
def nodesEqualList : List Tree → List Tree → Option Bool
  | a :: as, b :: bs =>
    match nodesEqual a b with
    | some true => nodesEqualList as bs
    | some false => some false
    | none => none
  | _, _ => some true
end

abbrev Frame := List (Str × P)

/-- Where a patched slot for rule `r` points: the innermost frame that defines `r`, with the frames
visible there (parser.go:124-129, 779-792); `none`: the parser is nil. -/
def lookupEnv (r : Str) : List Frame → Option (P × List Frame)
  | [] => none
  | f :: env =>
    match lookup r f with
    | some p => some (p, f :: env)
    | none => lookupEnv r env

/-- Is the parser value a `*cutPointParser`? (a scoped grammar's parser is its body's parser) -/
def P.isCutValue : P → Bool
  | .cut _ _ => true
  | .scope _ b => b.isCutValue
  | _ => false

/-- parser/parser.go:358 `item.(*cutPointParser)`, looking through patched slots. -/
def isCutItem (env : List Frame) : P → Bool
  | .link r =>
    match lookupEnv r env with
    | some (p, _) => p.isCutValue
    | none => false
  | p => p.isCutValue

/-- parser/parser.go:691-703: match a back reference to a bound value. `comp` is `term.Parser`, `run`
the parser it returns. -/
def refExpect (comp : Term → Except Stop P) (run : P → Res Tree) (expected : Tree) : Res Tree :=
  .ofOption (termFromRefVal expected) fun term =>
  .ofExcept (comp term) fun q =>
  (run q).bind fun v i k' =>
  .ofOption (nodesEqual v expected) fun eq => if eq then .ok v i k' else .err .parse i k'

/-- parser/parser.go:704-712: a back reference to an unbound identifier. -/
def refDefault (comp : Term → Except Stop P) (run : P → Res Tree) (dflt : Option Term)
    (inp : Scanner) (k : Nat) : Res Tree :=
  match dflt with
  | some t => .ofExcept (comp t) run
  | none => .err .parse inp k

/-- parser/parser.go:404-453: what `delimParser.Parse` makes of the tree of its child. -/
def delimFinish (tag : Str) (assoc : Int) (canStart canEnd : Bool) (v : Tree) : Option Tree :=
  (delimItems canStart canEnd v).bind (delimBuild tag assoc)

/-- parser/parser.go:529-533: a look-ahead works on a copy of the scanner. -/
def lookResult (tag : Str) (inp : Scanner) : Res Tree → Res Tree
  | .ok v _ k => .ok (.node tag .nil [v]) inp k
  | .err e _ k => .err e inp k
  | .panic => .panic
  | .oof => .oof

/-- parser/parser.go:732-733: the result of an external handler. -/
def extResult (r : ExtRes) (k : Nat) : Res Tree :=
  match r.err with
  | none => .ok r.tree r.inp k
  | some e => .err e r.inp k

/-- The `Parse` methods of parser/parser.go. -/
def parse (E : Engine) (X : Externals) (ρ : Nat → Nat) :
    Nat → List Frame → P → Scope → Scanner → Nat → Res Tree
  | 0, _, _, _, _, _ => .oof
  | n + 1, env, p, sc, inp, k =>
    match p with
    | .rule _ => .panic                                                    -- 173-175
    | .link r =>                                     -- a call through a patched slot
      .ofOption (lookupEnv r env) fun q => parse E X ρ n q.2 q.1 sc inp k
    | .s rule t re =>                                                      -- 234-246
      escaping E X rule (.s t) sc inp k (eatLeaf (E.find re) sc inp k)
    | .re rule t re =>                                                     -- 264-276
      escaping E X rule (.re t) sc inp k (eatLeaf (E.find re) sc inp k)
    | .seq rule ts ps =>                                                   -- 337-366
      escaping E X [] (.seq ts) sc inp k <|
        (seqLoop ρ (parse E X ρ n env) (isCutItem env) ((ts.map identFromTerm).zip ps) sc inp k).bind
          fun vs i k' => .ok (.node (ruleOrAlt rule seqTag) .nil vs) i k'
    | .delim rule term sep a cs ce child =>                                -- 391-454
      escaping E X [] (.delim term sep a cs ce) sc inp k <|
        (parse E X ρ n env child sc inp k).bind fun v i k' =>
        .ofOption (delimFinish (ruleOrAlt rule delimTag) a cs ce v) fun v' => .ok v' i k'
    | .look rule t q =>                                                    -- 522-534
      escaping E X [] t sc inp k <|
        lookResult (ruleOrAlt rule lookaheadTag) inp (parse E X ρ n env q sc inp k)
    | .quant rule t min max q =>                                           -- 558-589
      escaping E X [] t sc inp k <|
        let r := sc.replaceCutPoint ρ false k
        (quantLoop (fun i k => parse E X ρ n env q r.1 i k) max r.2.2.1 n 0 inp r.2.2.2).bind
          fun vs i k' =>
            if vs.length ≥ min then .ok (.node (ruleOrAlt rule quantTag) .nil vs) i k'
            else .err (mkErr r.2.1) i k'
    | .oneof rule ts ps =>                                                 -- 612-642
      escaping E X [] (.oneof ts) sc inp k <|
        let r := sc.replaceCutPoint ρ false k
        oneofLoop (fun q i k => parse E X ρ n env q r.1 i k) (ruleOrAlt rule oneofTag) r.2.1 r.2.2.1
          inp ps 0 inp r.2.2.2
    | .ref ident dflt =>                                                   -- 685-715
      escaping E X [] (.ref ident dflt) sc inp k <|
        match sc.getVal ident with
        | some expected =>
          refExpect (compileTerm E n ⟨none, true⟩ ident) (fun q => parse E X ρ n [] q sc inp k) expected
        | none =>
          refDefault (compileTerm E n ⟨none, true⟩ ident) (fun q => parse E X ρ n [] q sc inp k)
            dflt inp k
    | .ext name =>                                                         -- 722-734
      escaping E X [] (.ext name) sc inp k <|
        match X.refs name with
        | none => .err (.fatal 1) inp k
        | some fn => extResult (fn ⟨sc.getVal, sc.cp, [], none⟩ inp) k
    | .scope frame body => parse E X ρ n (frame :: env) body sc inp k      -- 743-794
    | .cut q _ => parse E X ρ n env q sc inp k                             -- 801-803

/-- The scope a parse starts with (parser/terms.go:52). -/
def Scope.init : Scope := ⟨[], none⟩

/-- Outcome of `Parsers.Parse`: a tree, an error (with the caller's scanner afterwards), a panic, or
no outcome within the fuel. -/
inductive TopRes
  | ok (v : Tree) (inp : Scanner)
  | err (e : Err) (inp : Scanner)
  | panic
  | oof

/-- parser/terms.go:54: the call of the rule's parser; a rule without parser is a nil interface and
panics. -/
def Parsers.run (E : Engine) (X : Externals) (ρ : Nat → Nat) (n : Nat) (ps : Parsers) (rule : Str)
    (inp : Scanner) : Res Tree :=
  match lookup rule ps.parsers with
  | none => .panic
  | some p => Wbnf.parse E X ρ n [ps.parsers] p .init inp 0

/-- parser/terms.go:54-62: everything must be consumed. -/
def Res.top : Res Tree → TopRes
  | .ok v i _ =>
    match i.toStr with
    | none => .panic
    | some [] => .ok v i
    | some (_ :: _) => .err (.unconsumed v i) i
  | .err e i _ => .err e i
  | .panic => .panic
  | .oof => .oof

/-- parser/terms.go:51-63 `Parsers.ParseWithExternals` (`Parse` is the case `noExternals`). -/
def Parsers.parse (E : Engine) (X : Externals) (ρ : Nat → Nat) (n : Nat) (ps : Parsers) (rule : Str)
    (inp : Scanner) : TopRes :=
  (ps.run E X ρ n rule inp).top

end Wbnf

import Verif.Model.Term
import Verif.Model.Engine

/-!
# Model of `Grammar.Compile` (parser/parser.go): from terms to parsers
-/

namespace Wbnf

/-- Why a compilation does not return: a Go panic, or the fuel ran out (an infinite loop is one
for which every fuel runs out). -/
inductive Stop
  | panic
  | oof
  deriving DecidableEq, Repr

/-- The parsers built by `Compile`. Each Go parser struct is a constructor and keeps its term `t`.
A `*Parser` slot that was registered in the cache and patched after compilation is `link r`; it
is looked up when it is reached. A compiled regexp is represented by its pattern. -/
inductive P
  /-- `ruleParser` in a slot nobody registered (its `Parse` panics). -/
  | rule (t : Str)
  /-- a registered slot for rule `t` -/
  | link (t : Str)
  | s (rule : Str) (t : Str) (re : Str)
  | re (rule : Str) (t : Str) (re : Str)
  | seq (rule : Str) (t : List Term) (parsers : List P)
  | delim (rule : Str) (term sep : Term) (assoc : Int) (canStart canEnd : Bool) (child : P)
  | look (rule : Str) (t : Term) (p : P)
  | quant (rule : Str) (t : Term) (min max : Nat) (p : P)
  | oneof (rule : Str) (t : List Term) (parsers : List P)
  | ref (ident : Str) (dflt : Option Term)
  | ext (name : Str)
  /-- the parser of a scoped grammar: `body` with its own rule table -/
  | scope (frame : List (Str × P)) (body : P)
  | cut (p : P) (t : Term)
  deriving Repr, Inhabited

/-- parser/parser.go:24-28 `cache`, as far as compilation reads it: the `.wrapRE` entry of
`c.grammar`, and whether the maps are nil (`cache{}`, used for back references). -/
structure Cache where
  wrap : Option Term
  isNil : Bool

/-- parser/parser.go:30-34 `registerRule`: a slot holding a `ruleParser` will be patched; with the
nil maps of `cache{}` the assignment panics. -/
def Cache.register (c : Cache) : P → Except Stop P
  | .rule t => if c.isNil then .error .panic else .ok (.link t)
  | p => .ok p

/-- Does a term of `ts` equal the raw text `re` as a literal or regexp (parser.go:209-220)? -/
def wrapExcludes (re : Str) : List Term → Bool
  | [] => false
  | .s t :: ts => t = re || wrapExcludes re ts
  | .re t :: ts => t = re || wrapExcludes re ts
  | _ :: ts => wrapExcludes re ts

/-- parser/parser.go:223: splice into the wrapper; a wrapper that is not an `RE` panics. -/
def spliceWrap (pre : Str) : Term → Except Stop Str
  | .re w => .ok (replaceParens (str "(?:" ++ pre ++ str ")") w)
  | _ => .error .panic

/-- parser/parser.go:205-226 `applyWrapRE`; `pre` is `prepare(re)`. -/
def applyWrapRE (wrap : Option Term) (re pre : Str) : Except Stop Str :=
  match wrap with
  | none => .ok pre
  | some (.oneof ts) =>
    match ts.getLast? with
    | none => .error .panic
    | some w => if wrapExcludes re ts.dropLast then .ok pre else spliceWrap pre w
  | some w => spliceWrap pre w

/-- parser/parser.go:254, 284 `regexp.MustCompile`. -/
def mustCompile (E : Engine) (re : Str) : Except Stop Str :=
  if E.valid re then .ok re else .error .panic

/-- parser/parser.go:249-256 `S.Parser`. -/
def compileS (E : Engine) (c : Cache) (rule t : Str) : Except Stop P :=
  (applyWrapRE c.wrap t (str "(" ++ quoteMeta t ++ str ")")).bind fun re =>
  (mustCompile E (anchor ++ re)).bind fun re' => .ok (.s rule t re')

/-- parser/parser.go:279-286 `RE.Parser`. -/
def compileRE (E : Engine) (c : Cache) (rule t : Str) : Except Stop P :=
  (applyWrapRE c.wrap t (str "(" ++ t ++ str ")")).bind fun re =>
  (mustCompile E (anchor ++ re)).bind fun re' => .ok (.re rule t re')

/-- parser/parser.go:42-49 `makeParsers` with the compiler for one term as argument: compile and
register each term. -/
def makeParsers (c : Cache) (comp : Term → Except Stop P) : List Term → Except Stop (List P)
  | [] => .ok []
  | t :: ts =>
    (comp t).bind fun p =>
    (c.register p).bind fun p' =>
    (makeParsers c comp ts).bind fun ps => .ok (p' :: ps)

/-- parser/parser.go:113-120 (and 763-770): follow aliases `rule → rule`; a missing rule gives a
nil term, whose method call panics. -/
def followAlias (g : Grammar) : Nat → Term → Except Stop Term
  | 0, _ => .error .oof
  | n + 1, .rule r =>
    match lookup r g with
    | none => .error .panic
    | some t => followAlias g n t
  | _ + 1, t => .ok t

/-- parser/parser.go:112-122 (and 762-772): the loop filling `c.parsers`. -/
def compileRules (n : Nat) (g : Grammar) (comp : Str → Term → Except Stop P) :
    List (Str × Term) → Except Stop (List (Str × P))
  | [] => .ok []
  | (rule, t) :: rest =>
    (followAlias g n t).bind fun t' =>
    (comp rule t').bind fun p =>
    (compileRules n g comp rest).bind fun ps => .ok ((rule, p) :: ps)

/-- parser/parser.go:751-755: the nested grammar inherits `.wrapRE`. -/
def inheritWrap (wrap : Option Term) (g : Grammar) : Grammar :=
  match wrap with
  | none => g
  | some w => if hasKey wrapRE g then g else mapSet wrapRE w g

/-- The sequence a `Delim` stands for (parser.go:462-469). -/
def delimSeq (term sep : Term) (canStart canEnd : Bool) : List Term :=
  (if canStart then [optT sep] else []) ++ [.seq [term, anyT (.seq [sep, term])]] ++
  (if canEnd then [optT sep] else [])

/-- parser/parser.go:777-793: `result` is itself a registered slot. If it is a rule it is patched
before returning when the rule is local (the patch may be a bare `ruleParser` again); otherwise the
caller gets the bare `ruleParser`. -/
def scopeResult (frame : List (Str × P)) : P → P
  | .rule r =>
    match lookup r frame with
    | some (.rule r') => .rule r'
    | some p => .scope frame p
    | none => .rule r
  | p => .scope frame p

/-- A grammar with its stacks resolved; `none` (a panic in `Resolve`) becomes a panic. -/
def prepare (g : Grammar) : Except Stop Grammar :=
  match Grammar.resolveStacks g with
  | none => .error .panic
  | some g' => .ok g'

/-- The cache made for a grammar (parser.go:107-111, 757-761). -/
def cacheFor (g : Grammar) : Cache := ⟨lookup wrapRE g, false⟩

/-- `Term.Parser(rule, c)` for every kind of term (parser/parser.go). The fuel bounds the nesting
of terms and the length of alias chains. -/
def compileTerm (E : Engine) : Nat → Cache → Str → Term → Except Stop P
  | 0, _, _, _ => .error .oof
  | n + 1, c, rule, t =>
    match t with
    | .rule r => .ok (.rule r)                                         -- 178-183
    | .s lit => compileS E c rule lit                                  -- 249-256
    | .re pat => compileRE E c rule pat                                -- 279-286
    | .ref i d => .ok (.ref i d)                                       -- 717-719
    | .ext x => .ok (.ext x)                                           -- 736-738
    | .seq ts =>                                                       -- 369-376
      (makeParsers c (compileTerm E n c []) ts).bind fun ps => .ok (.seq rule ts ps)
    | .oneof ts =>                                                     -- 645-652
      (makeParsers c (compileTerm E n c []) ts).bind fun ps => .ok (.oneof rule ts ps)
    | .stack _ => .error .panic                                        -- 656-658
    | .delim term sep a cs ce =>                                       -- 457-480
      (compileTerm E n c rule (.seq (delimSeq term sep cs ce))).bind fun child =>
      (c.register child).bind fun child' => .ok (.delim rule term sep a cs ce child')
    | .look t' =>                                                      -- 538-547
      (compileTerm E n c [] t').bind fun p =>
      (c.register p).bind fun p' => .ok (.look rule (.look t') p')
    | .quant t' lo hi =>                                               -- 592-601
      (compileTerm E n c [] t').bind fun p =>
      (c.register p).bind fun p' => .ok (.quant rule (.quant t' lo hi) lo hi p')
    | .named name t' => compileTerm E n c name t'                      -- 663-665
    | .scope t' g =>                                                   -- 743-794
      (prepare g).bind fun g1 =>
      let g2 := inheritWrap c.wrap g1
      (compileRules n g2 (compileTerm E n (cacheFor g2)) g2).bind fun frame =>
      (compileTerm E n (cacheFor g2) rule t').bind fun p => .ok (scopeResult frame p)
    | .cut t' =>                                                       -- 805-807
      (compileTerm E n c rule t').bind fun p => .ok (.cut p (.cut t'))

/-- parser/terms.go:27-31 `Parsers` (the opaque `node` is dropped). -/
structure Parsers where
  parsers : List (Str × P)
  grammar : Grammar

/-- parser/parser.go:98-136 `Grammar.Compile`. -/
def Grammar.compile (E : Engine) (n : Nat) (g : Grammar) : Except Stop Parsers :=
  (prepare g).bind fun g1 =>
  (compileRules n g1 (compileTerm E n (cacheFor g1)) g1).bind fun ps => .ok ⟨ps, g1⟩

end Wbnf

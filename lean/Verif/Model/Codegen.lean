import Verif.Model.Term

/-!
# Model of the code generator for grammars

cmd/codegen/grammar.go.
-/

namespace Wbnf

/-- cmd/codegen/grammar.go:13-18. -/
inductive GoScope
  | no
  | braces
  | squiggly
  | map

/-- cmd/codegen/grammar.go:20-24 `GoNode`. -/
inductive GoNode
  | mk (name : Str) (children : List GoNode) (scope : GoScope)

/-- cmd/codegen/grammar.go:27-35. -/
def GoScope.opening : GoScope → Str
  | .no => []
  | .map => str ":"
  | .braces => str "("
  | .squiggly => str "{"
def GoScope.closing : GoScope → Str
  | .no => []
  | .map => []
  | .braces => str ")"
  | .squiggly => str "}"

mutual
/-- cmd/codegen/grammar.go:26-41 `String`. -/
def GoNode.string : GoNode → Str
  | .mk name children scope => name ++ scope.opening ++ joinNodes children ++ scope.closing
/-- cmd/codegen/grammar.go:36-40: the strings of the children, joined with `",\n"`. -/
def joinNodes : List GoNode → Str
  | [] => []
  | c :: cs => c.string ++ joinMore cs
def joinMore : List GoNode → Str
  | [] => []
  | c :: cs => str ",\n" ++ c.string ++ joinMore cs
end

/-- cmd/codegen/grammar.go:47-50 `safeString`. -/
def safeString : Str → Str
  | [] => []
  | c :: s => if c = 96 then str "`+\"`\"+`" ++ safeString s else c :: safeString s

/-- cmd/codegen/grammar.go:52-58 `prefixName`. -/
def prefixName (pre : Str) : GoNode → GoNode
  | .mk name children scope => .mk (pre ++ name) children scope

/-- cmd/codegen/grammar.go:59-61 `stringNode`, after `fmt.Sprintf`. -/
def stringNode (s : Str) : GoNode := .mk s [] .no

/-- `strings.Contains(s, parser.StackDelim)`: the delimiter is one byte. -/
def hasStackDelim (s : Str) : Bool := s.contains 64

/-- `strings.Split(s, parser.StackDelim)[0]`. -/
def beforeStackDelim (s : Str) : Str := s.takeWhile (· ≠ 64)

/-- Go's `<=` on strings. -/
def strLe : Str → Str → Bool
  | [], _ => true
  | _ :: _, [] => false
  | a :: s, b :: t => if a = b then strLe s t else decide (a < b)

def insertStr (x : Str) : List Str → List Str
  | [] => [x]
  | y :: ys => if strLe x y then x :: y :: ys else y :: insertStr x ys

/-- Go's `sort.Strings`: which algorithm it uses makes no difference. -/
def sortStrings : List Str → List Str
  | [] => []
  | x :: xs => insertStr x (sortStrings xs)

/-- Go's `delete(m, k)`. -/
def mapDelete {α : Type} (k : Str) (m : List (Str × α)) : List (Str × α) := m.filter (fun e => e.1 ≠ k)

/-- cmd/codegen/grammar.go:191-199: take the rules `rule@i`, `rule@(i+1)`, … as long as there are any. There are no more than
`rules` has (`fuel`). -/
def takeLayers (rule : Str) : Nat → Nat → List (Str × GoNode) → List GoNode × List (Str × GoNode)
  | 0, _, rules => ([], rules)
  | fuel + 1, i, rules =>
    let stackname := rule ++ str "@" ++ decimal i
    match lookup stackname rules with
    | some node =>
      let r := takeLayers rule fuel (i + 1) (mapDelete stackname rules)
      (node :: r.1, r.2)
    | none => ([], rules)

/-- cmd/codegen/grammar.go:183-213: the loop over the sorted keys; the children of the root. -/
def grammarEntries (stackPrefixes : List Str) : List Str → List (Str × GoNode) → List GoNode
  | [], _ => []
  | rule :: keys, rules =>
    if stackPrefixes.contains rule then
      let first := (lookup rule rules).getD (.mk [] [] .no)
      let r := takeLayers rule rules.length 1 rules
      let stack : GoNode := .mk (str "parser.Stack") (first :: r.1) .squiggly
      .mk (str "\"" ++ rule ++ str "\"") [stack] .map :: grammarEntries stackPrefixes keys r.2
    else
      match lookup rule rules with
      | some node => .mk (str "\"" ++ rule ++ str "\"") [node] .map :: grammarEntries stackPrefixes keys rules
      | none => grammarEntries stackPrefixes keys rules

/-- cmd/codegen/grammar.go:168-215 `MakeGrammarString`, given the nodes of the terms (`rules`, 176-182). -/
def grammarNode (rules : List (Str × GoNode)) : GoNode :=
  let keys := sortStrings (rules.map Prod.fst)
  let stackPrefixes := ((rules.map Prod.fst).filter hasStackDelim).map beforeStackDelim
  .mk (str "parser.Grammar") (grammarEntries stackPrefixes keys rules) .squiggly

/-- cmd/codegen/grammar.go:102-107. -/
def assocNodes (a : Int) : List GoNode :=
  if a = leftToRight then [stringNode (str "Assoc: parser.LeftToRight")]
  else if a = rightToLeft then [stringNode (str "Assoc: parser.RightToLeft")]
  else []

mutual
/-- cmd/codegen/grammar.go:63-166 `walkTerm`. -/
def walkTerm : Term → GoNode
  | .seq ts => .mk (str "parser.Seq") (walkTerms ts) .squiggly
  | .stack ts => .mk (str "parser.Stack") (walkTerms ts) .squiggly
  | .oneof ts => .mk (str "parser.Oneof") (walkTerms ts) .squiggly
  | .s l => stringNode (str "parser.S(`" ++ safeString l ++ str "`)")
  | .delim t sep a cs ce =>
    .mk (str "parser.Delim")
      ([prefixName (str "Term: ") (walkTerm t), prefixName (str "Sep: ") (walkTerm sep)] ++
        (if cs then [stringNode (str "CanStartWithSep: true")] else []) ++
        (if ce then [stringNode (str "CanEndWithSep: true")] else []) ++
        assocNodes a) .squiggly
  | .quant t lo hi =>
    if lo = 0 ∧ hi = 0 then .mk (str "parser.Any") [walkTerm t] .braces
    else if lo = 1 ∧ hi = 0 then .mk (str "parser.Some") [walkTerm t] .braces
    else if lo = 0 ∧ hi = 1 then .mk (str "parser.Opt") [walkTerm t] .braces
    else
      .mk (str "parser.Quant")
        [walkTerm t, stringNode (str "Min: " ++ decimal lo), stringNode (str "Max: " ++ decimal hi)] .squiggly
  | .named n t => .mk (str "parser.Eq") [stringNode (str "`" ++ n ++ str "`"), walkTerm t] .braces
  | .scope t g =>
    .mk (str "parser.ScopedGrammar")
      [prefixName (str "Term: ") (walkTerm t), prefixName (str "Grammar: ") (grammarNode (walkDefs g))] .squiggly
  | .ref i d => .mk (str "parser.REF") (stringNode (str "Ident: `" ++ i ++ str "`") :: walkDflt d) .squiggly
  | .re p => stringNode (str "parser.RE(`" ++ safeString p ++ str "`)")
  | .rule r =>
    if hasStackDelim r then stringNode (str "parser.At") else stringNode (str "parser.Rule(`" ++ r ++ str "`)")
  | .cut t => .mk (str "parser.CutPoint") [walkTerm t] .squiggly
  | .ext x => stringNode (str "parser.ExtRef(`" ++ safeString x ++ str "`)")
  | .look t => .mk (str "parser.LookAhead") [walkTerm t] .squiggly
def walkTerms : List Term → List GoNode
  | [] => []
  | t :: ts => walkTerm t :: walkTerms ts
/-- cmd/codegen/grammar.go:142-144. -/
def walkDflt : Option Term → List GoNode
  | none => []
  | some t => [prefixName (str "Default: ") (walkTerm t)]
/-- cmd/codegen/grammar.go:176-178. -/
def walkDefs : List (Str × Term) → List (Str × GoNode)
  | [] => []
  | (r, t) :: g => (r, walkTerm t) :: walkDefs g
end

/-- cmd/codegen/grammar.go:168-215 `MakeGrammarString`. -/
def makeGrammarString (g : Grammar) : GoNode := grammarNode (walkDefs g)

/-- cmd/gen.go:64, cmd/codegen/template.go:34: what is written in the place of the grammar. -/
def grammarLiteral (g : Grammar) : Str := (makeGrammarString g).string

end Wbnf

import Verif.Model.Walk
import Verif.Model.Literal
import Verif.Model.Cutpoints

/-!
# Model of building a grammar from a syntax tree

wbnf/compile.go:95-297. `Except Stop`: `panic` is a Go panic, `oof` says that the fuel was not enough (Go recurses without
bound for a macro that calls itself).
-/

namespace Wbnf

/-- Apply to each in order, stopping at the first that fails. -/
def mapE {α β : Type} (f : α → Except Stop β) : List α → Except Stop (List β)
  | [] => .ok []
  | a :: as => (f a).bind fun b => (mapE f as).bind fun bs => .ok (b :: bs)

/-- `PragmaMacrodefNode`: its arguments and its term. -/
structure Macro where
  args : List Str
  body : TermN

/-- wbnf/compile.go:95-97 `grammarBuilder`. -/
abbrev Macros := List (Str × Macro)

/-- `strconv.Atoi` of a text of digits; it is an error over 2⁶³ - 1. -/
def atoi (x : Str) : Except Stop Nat :=
  if x ≠ [] ∧ x.all (fun c => 48 ≤ c && c ≤ 57) then
    let n := x.foldl (fun n c => 10 * n + (c.toNat - 48)) 0
    if n < 2 ^ 63 then .ok n else .error .panic
  else .error .panic

/-- wbnf/compile.go:179-194: a bound that is not there is 0. -/
def bound : Option Str → Except Stop Nat
  | none => .ok 0
  | some x => if x = [] then .ok 0 else atoi x

/-- parser/terms.go:93-103 `NewAssociativity`. -/
def newAssociativity (op : Str) : Except Stop Int :=
  if op = str ":" then .ok nonAssociative
  else if op = str ":>" then .ok leftToRight
  else if op = str "<:" then .ok rightToLeft
  else .error .panic

/-- wbnf/cutpoints.go:130-171 `fixTerm` with a callback that changes only rules and may fail, as the one of `expandMacro`
does. -/
def Term.expand (f : Str → Except Stop Term) : Term → Except Stop Term
  | .seq ts => (expandList ts).bind fun ts => .ok (.seq ts)
  | .stack ts => (expandList ts).bind fun ts => .ok (.stack ts)
  | .oneof ts => (expandList ts).bind fun ts => .ok (.oneof ts)
  | .delim t sep a cs ce => (t.expand f).bind fun t => (sep.expand f).bind fun sep => .ok (.delim t sep a cs ce)
  | .quant t lo hi => (t.expand f).bind fun t => .ok (.quant t lo hi)
  | .named n t => (t.expand f).bind fun t => .ok (.named n t)
  | .scope t g => (t.expand f).bind fun t => .ok (.scope t g)
  | .cut t => (t.expand f).bind fun t => .ok (.cut t)
  | .rule r => f r
  | .s l => .ok (.s l)
  | .ref i d => .ok (.ref i d)
  | .re p => .ok (.re p)
  | .ext x => .ok (.ext x)
  | .look t => .ok (.look t)
where
  expandList : List Term → Except Stop (List Term)
    | [] => .ok []
    | t :: ts => (t.expand f).bind fun t => (expandList ts).bind fun ts => .ok (t :: ts)

/-- wbnf/compile.go:238-249, 262-270: a single term stands for itself. -/
def seqOf : List Term → Term
  | [t] => t
  | ts => .seq ts

/-- wbnf/compile.go:225-249: what becomes of the terms of a term. With an operator the grammars in braces are not looked
at; several grammars without an operator are ignored. -/
def joinTerms (op : Str) (nested : Option Grammar) (ts : List Term) : Term :=
  if op = str "|" then .oneof ts
  else if op = str ">" then .stack ts
  else
    match nested with
    | some g => .scope (seqOf ts) g
    | none => seqOf ts

/-- wbnf/compile.go:107-111: the index of the first argument with this name. -/
def argIndex (r : Str) : List Str → Option Nat
  | [] => none
  | a :: as => if a = r then some 0 else (argIndex r as).map (· + 1)

/-- wbnf/compile.go:213-216. -/
def nameTerm (i : Option Str) (t : Term) : Term :=
  match i with
  | some i => if i = [] then t else .named i t
  | none => t

mutual
/-- wbnf/compile.go:219-259 `buildTerm`. -/
def buildTerm (ms : Macros) : Nat → TermN → Except Stop Term
  | 0, _ => .error .oof
  | n + 1, .many op gs ts =>
    (mapE (buildTerm ms n) ts).bind fun terms =>                                          -- 222-224
      if op = str "|" ∨ op = str ">" then .ok (joinTerms op none terms)                   -- 225-230
      else
        match gs with
        | [g] => (buildGrammar ms n g).bind fun g => .ok (joinTerms op (some g) terms)    -- 232-237
        | _ => .ok (joinTerms op none terms)
  | n + 1, .one named qs =>                                                               -- 251-258
    (buildNamed ms n named).bind fun t => buildQuants ms n qs.reverse t
/-- wbnf/compile.go:255-257: the loop over the quantifiers, which are given last first. -/
def buildQuants (ms : Macros) : Nat → List QuantN → Term → Except Stop Term
  | 0, _, _ => .error .oof
  | _ + 1, [], t => .ok t
  | n + 1, q :: qs, t => (buildQuant ms n q t).bind fun t => buildQuants ms n qs t
/-- wbnf/compile.go:211-217 `buildNamed`. -/
def buildNamed (ms : Macros) : Nat → NamedN → Except Stop Term
  | 0, _ => .error .oof
  | n + 1, .mk i a => (buildAtom ms n a).bind fun t => .ok (nameTerm i t)
/-- wbnf/compile.go:167-209 `buildQuant`. -/
def buildQuant (ms : Macros) : Nat → QuantN → Term → Except Stop Term
  | 0, _, _ => .error .oof
  | _ + 1, .op o, t =>
    if o = str "*" then .ok (anyT t)
    else if o = str "?" then .ok (optT t)
    else if o = str "+" then .ok (someT t)
    else .error .panic                                                                    -- 208
  | _ + 1, .range lo hi, t => (bound lo).bind fun lo => (bound hi).bind fun hi => .ok (.quant t lo hi)
  | n + 1, .sep op leading trailing named, t =>
    (newAssociativity op).bind fun a => (buildNamed ms n named).bind fun sep => .ok (.delim t sep a leading trailing)
/-- wbnf/compile.go:118-165 `buildAtom`, and 99-116 `expandMacro`. An argument is built where it is used, each time. -/
def buildAtom (ms : Macros) : Nat → AtomN → Except Stop Term
  | 0, _ => .error .oof
  | _ + 1, .ident i => .ok (.rule i)
  | _ + 1, .str x => (parseString x).bind fun l => .ok (.s l)
  | _ + 1, .re x => .ok (.re (parseRE x))
  | _ + 1, .ref i none => .ok (.ref i none)
  | _ + 1, .ref i (some x) =>
    if x = [] then .ok (.ref i none) else (parseString x).bind fun l => .ok (.ref i (some (.s l)))
  | _ + 1, .ext i => .ok (.ext i)
  | n + 1, .look t => (buildTerm ms n t).bind fun t => .ok (.look t)
  | n + 1, .term t => buildTerm ms n t
  | n + 1, .macrocall m args =>
    match lookup m ms with
    | none => .error .panic                                                               -- 101-102: nil dereference
    | some mc => (buildTerm ms n mc.body).bind fun t =>
      t.expand fun r =>
        match argIndex r mc.args with
        | none => .ok (.rule r)
        | some i =>
          match args[i]? with
          | none => .error .panic                                                         -- 109: index out of range
          | some a => buildTerm ms n a
  | _ + 1, .unit => .ok (.seq [])
/-- wbnf/compile.go:273-282 `buildGrammar`. -/
def buildGrammar (ms : Macros) : Nat → GrammarN → Except Stop Grammar
  | 0, _ => .error .oof
  | n + 1, .mk ss => buildStmts ms n ss []
/-- 276-280, and 261-271 `buildProd`. -/
def buildStmts (ms : Macros) : Nat → List StmtN → Grammar → Except Stop Grammar
  | 0, _, _ => .error .oof
  | _ + 1, [], g => .ok g
  | n + 1, .prod i ts :: ss, g =>
    (mapE (buildTerm ms n) ts).bind fun terms => buildStmts ms n ss (mapSet i (joinTerms [] none terms) g)
  | n + 1, .comment _ :: ss, g => buildStmts ms n ss g
  | n + 1, .imp _ :: ss, g => buildStmts ms n ss g
  | n + 1, .macrodef _ _ _ :: ss, g => buildStmts ms n ss g
end

/-- wbnf/compile.go:288-293: the callbacks that collect the macros, wherever they are defined; a later definition replaces
an earlier one of that name. -/
def macroOps : WalkerOps Macros where
  enter
    | .macrodef m args t, ms => (mapSet m ⟨args, t⟩ ms, none)
    | _, ms => (ms, none)
  exit _ ms := (ms, none)

def macrosOf (g : GrammarN) : Macros := (walk macroOps g.tree []).1

/-- wbnf/compile.go:284-297 `NewFromAst`. -/
def newFromAst (n : Nat) (g : GrammarN) : Except Stop Grammar :=
  (buildGrammar (macrosOf g) n g).bind fun g => .ok (insertCutPoints g)

end Wbnf

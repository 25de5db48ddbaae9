import Verif.Model.Term

/-!
# What Go source denotes

The part of Go that is needed for literals of grammars: words (qualified names and numbers), string literals, `+` of strings,
calls and composite literals. What is not in this part, or does not compile, denotes nothing.
-/

namespace Wbnf

/-- Text that may be part of a Go source file: UTF-8 without NUL and byte order marks. -/
def GoText (s : Str) : Prop :=
  ∃ cs : List Char, s = cs.flatMap String.utf8EncodeChar ∧ ∀ c ∈ cs, c.toNat ≠ 0 ∧ c.toNat ≠ 0xfeff

/-! ## Tokens -/

inductive GoTok
  | word (w : Str)
  | str (v : Str)
  | punct (c : UInt8)
  | semi
  deriving DecidableEq, Repr

/-- Where the lexer is: between tokens, in a word, in a raw string or in a quoted string. `ends` says that the last token can
end a statement, so that a line break counts as a semicolon. -/
inductive LexState
  | top (ends : Bool)
  | word (acc : Str)
  | raw (acc : Str)
  | quoted (acc : Str)
  deriving DecidableEq, Repr

/-- Letters, digits, `_` and, as qualified names are one word, the dot. -/
def isGoWord (c : UInt8) : Bool :=
  (48 ≤ c && c ≤ 57) || (65 ≤ c && c ≤ 90) || (97 ≤ c && c ≤ 122) || c == 95 || c == 46

/-- One byte, between tokens. -/
def lexTop (ends : Bool) (c : UInt8) : Option (List GoTok × LexState) :=
  if c = 32 ∨ c = 9 ∨ c = 13 then some ([], .top ends)
  else if c = 10 then some (if ends then [.semi] else [], .top false)
  else if c = 96 then some ([], .raw [])
  else if c = 34 then some ([], .quoted [])
  else if isGoWord c then some ([], .word [c])
  else if c = 40 ∨ c = 123 ∨ c = 44 ∨ c = 58 ∨ c = 43 then some ([.punct c], .top false)
  else if c = 41 ∨ c = 125 then some ([.punct c], .top true)
  else none

/-- One byte. In raw strings carriage returns are dropped. Escapes in quoted strings are not in the part considered. -/
def lexStep : LexState → UInt8 → Option (List GoTok × LexState)
  | .top ends, c => lexTop ends c
  | .word acc, c =>
    if isGoWord c then some ([], .word (acc ++ [c]))
    else
      match lexTop true c with
      | some (ts, st) => some (.word acc :: ts, st)
      | none => none
  | .raw acc, c =>
    if c = 96 then some ([.str acc], .top true)
    else if c = 13 then some ([], .raw acc)
    else some ([], .raw (acc ++ [c]))
  | .quoted acc, c =>
    if c = 34 then some ([.str acc], .top true)
    else if c = 92 ∨ c = 10 then none
    else some ([], .quoted (acc ++ [c]))

def lexRun : LexState → Str → Option (List GoTok × LexState)
  | st, [] => some ([], st)
  | st, c :: s =>
    match lexStep st c with
    | none => none
    | some (ts, st') =>
      match lexRun st' s with
      | none => none
      | some (ts', st'') => some (ts ++ ts', st'')

/-- The tokens of a text. -/
def goTokens (s : Str) : Option (List GoTok) :=
  match lexRun (.top false) s with
  | some (ts, .top _) => some ts
  | some (ts, .word w) => some (ts ++ [.word w])
  | _ => none

/-! ## Values -/

inductive GoVal
  | term (t : Term)
  | str (s : Str)
  | bool (b : Bool)
  | int (n : Int)
  | assoc (a : Int)
  | grammar (g : Grammar)

/-- How an element of a composite literal is labelled. -/
inductive GoKey
  | none
  | field (w : Str)
  | str (s : Str)
  deriving DecidableEq

abbrev GoElem := GoKey × GoVal

/-- A number in decimal. -/
def goNumber : Str → Option Nat
  | [] => none
  | s => if s.all (fun c => 48 ≤ c && c ≤ 57) then some (s.foldl (fun a c => a * 10 + (c.toNat - 48)) 0) else none

/-- A word that stands alone. -/
def goConst (w : Str) : Option GoVal :=
  if w = str "parser.At" then some (.term (.rule (str "@")))
  else if w = str "parser.LeftToRight" then some (.assoc 1)
  else if w = str "parser.NonAssociative" then some (.assoc 0)
  else if w = str "parser.RightToLeft" then some (.assoc (-1))
  else if w = str "true" then some (.bool true)
  else if w = str "false" then some (.bool false)
  else (goNumber w).map (fun n => .int n)

/-- All elements are terms without a label. -/
def goTerms : List GoElem → Option (List Term)
  | [] => some []
  | (.none, .term t) :: es => (goTerms es).map (t :: ·)
  | _ => Option.none

/-- A conversion or a function call. -/
def goCall (w : Str) (es : List GoElem) : Option GoVal :=
  match es with
  | [(.none, .str s)] =>
    if w = str "parser.S" then some (.term (.s s))
    else if w = str "parser.RE" then some (.term (.re s))
    else if w = str "parser.Rule" then some (.term (.rule s))
    else if w = str "parser.ExtRef" then some (.term (.ext s))
    else none
  | [(.none, .term t)] =>
    if w = str "parser.Any" then some (.term (.quant t 0 0))
    else if w = str "parser.Some" then some (.term (.quant t 1 0))
    else if w = str "parser.Opt" then some (.term (.quant t 0 1))
    else none
  | [(.none, .str s), (.none, .term t)] => if w = str "parser.Eq" then some (.term (.named s t)) else none
  | _ => none

/-- The fields of a struct literal: all labelled, with names of fields and none twice, or none labelled and all there. -/
def goFields (names : List Str) (es : List GoElem) : Option (List (Str × GoVal)) :=
  if es.all (fun e => e.1 = GoKey.none) then
    if es.length = names.length then some (names.zip (es.map Prod.snd)) else if es = [] then some [] else none
  else
    let fs := es.filterMap (fun e => match e.1 with
      | .field w => some (w, e.2)
      | _ => none)
    if fs.length = es.length ∧ (fs.map Prod.fst).Nodup ∧ fs.all (fun f => names.contains f.1) then some fs else none

def fieldTerm (n : String) (fs : List (Str × GoVal)) : Option Term :=
  match lookup (str n) fs with
  | some (.term t) => some t
  | _ => none
def fieldBool (n : String) (fs : List (Str × GoVal)) : Option Bool :=
  match lookup (str n) fs with
  | some (.bool b) => some b
  | none => some false
  | _ => none
def fieldAssoc (n : String) (fs : List (Str × GoVal)) : Option Int :=
  match lookup (str n) fs with
  | some (.assoc a) => some a
  | none => some 0
  | _ => none
def fieldNat (n : String) (fs : List (Str × GoVal)) : Option Nat :=
  match lookup (str n) fs with
  | some (.int i) => if 0 ≤ i then some i.toNat else none
  | none => some 0
  | _ => none
def fieldStr (n : String) (fs : List (Str × GoVal)) : Option Str :=
  match lookup (str n) fs with
  | some (.str s) => some s
  | none => some []
  | _ => none
def fieldTerm? (n : String) (fs : List (Str × GoVal)) : Option (Option Term) :=
  match lookup (str n) fs with
  | some (.term t) => some (some t)
  | none => some none
  | _ => none
def fieldGrammar (n : String) (fs : List (Str × GoVal)) : Option Grammar :=
  match lookup (str n) fs with
  | some (.grammar g) => some g
  | none => some []
  | _ => none

/-- The entries of a map literal. -/
def goEntries : List GoElem → Option Grammar
  | [] => some []
  | (.str s, .term t) :: es => (goEntries es).map ((s, t) :: ·)
  | _ => none

/-- A composite literal. A struct whose `Term` or `Sep` is nil is not a term. -/
def goComposite (w : Str) (es : List GoElem) : Option GoVal :=
  if w = str "parser.Seq" then (goTerms es).map (fun ts => .term (.seq ts))
  else if w = str "parser.Oneof" then (goTerms es).map (fun ts => .term (.oneof ts))
  else if w = str "parser.Stack" then (goTerms es).map (fun ts => .term (.stack ts))
  else if w = str "parser.Delim" then do
    let fs ← goFields [str "Term", str "Sep", str "Assoc", str "CanStartWithSep", str "CanEndWithSep"] es
    let t ← fieldTerm "Term" fs
    let sep ← fieldTerm "Sep" fs
    let a ← fieldAssoc "Assoc" fs
    let cs ← fieldBool "CanStartWithSep" fs
    let ce ← fieldBool "CanEndWithSep" fs
    pure (.term (.delim t sep a cs ce))
  else if w = str "parser.Quant" then do
    let fs ← goFields [str "Term", str "Min", str "Max"] es
    let t ← fieldTerm "Term" fs
    let lo ← fieldNat "Min" fs
    let hi ← fieldNat "Max" fs
    pure (.term (.quant t lo hi))
  else if w = str "parser.ScopedGrammar" then do
    let fs ← goFields [str "Term", str "Grammar"] es
    let t ← fieldTerm "Term" fs
    let g ← fieldGrammar "Grammar" fs
    pure (.term (.scope t g))
  else if w = str "parser.REF" then do
    let fs ← goFields [str "Ident", str "Default"] es
    let i ← fieldStr "Ident" fs
    let d ← fieldTerm? "Default" fs
    pure (.term (.ref i d))
  else if w = str "parser.CutPoint" then do
    let fs ← goFields [str "Term"] es
    let t ← fieldTerm "Term" fs
    pure (.term (.cut t))
  else if w = str "parser.LookAhead" then do
    let fs ← goFields [str "Term"] es
    let t ← fieldTerm "Term" fs
    pure (.term (.look t))
  else if w = str "parser.Grammar" then do
    let g ← goEntries es
    if (g.map Prod.fst).Nodup then pure (.grammar g) else none
  else none

/-! ## Expressions -/

/-- String literals joined with `+`. -/
def goConcat (s : Str) : List GoTok → Str × List GoTok
  | .punct c :: .str s' :: ts => if c = 43 then goConcat (s ++ s') ts else (s, .punct c :: .str s' :: ts)
  | ts => (s, ts)

/-- The label of an element, and what follows. -/
def goKey : List GoTok → GoKey × List GoTok
  | .word w :: .punct c :: ts => if c = 58 then (.field w, ts) else (.none, .word w :: .punct c :: ts)
  | .str s :: .punct c :: ts => if c = 58 then (.str s, ts) else (.none, .str s :: .punct c :: ts)
  | ts => (.none, ts)

mutual
/-- The value of the expression at the beginning of the tokens, and what follows it. The number bounds the depth. -/
def goExpr : Nat → List GoTok → Option (GoVal × List GoTok)
  | 0, _ => none
  | n + 1, ts =>
    match ts with
    | .str s :: ts => some (.str (goConcat s ts).1, (goConcat s ts).2)
    | .word w :: .punct c :: ts =>
      if c = 40 then
        match goElems n 41 ts with
        | some (es, ts) => (goCall w es).map (·, ts)
        | none => none
      else if c = 123 then
        match goElems n 125 ts with
        | some (es, ts) => (goComposite w es).map (·, ts)
        | none => none
      else (goConst w).map (·, .punct c :: ts)
    | .word w :: ts => (goConst w).map (·, ts)
    | _ => none
/-- Elements with commas between them, up to the closing bracket. -/
def goElems : Nat → UInt8 → List GoTok → Option (List GoElem × List GoTok)
  | 0, _, _ => none
  | n + 1, close, ts =>
    if ts.head? = some (.punct close) then some ([], ts.tail)
    else
      match goExpr n (goKey ts).2 with
      | some (v, .punct c :: rest) =>
        if c = 44 then
          match goElems n close rest with
          | some (es, rest) => some (((goKey ts).1, v) :: es, rest)
          | none => none
        else if c = close then some ([((goKey ts).1, v)], rest)
        else none
      | _ => none
end

/-- The value of a text that is an expression. -/
def goValue (s : Str) : Option GoVal :=
  match goTokens s with
  | none => none
  | some ts =>
    match goExpr (ts.length + 1) ts with
    | some (v, []) => some v
    | _ => none

end Wbnf

import Verif.Model.Parse
import Verif.Model.GoTree

/-!
# Model of what errors say

The other half of the `Parse` methods of parser/parser.go: what is in the errors they return, for which `Model/Parse` has only what
control flow depends on; and parser/error.go `Error`. A cause of an error is a function that is called when the text is asked for. What it
returns then may depend on assignments made since: to the result of a method (`Cause.itself`), and to the scanner a parser was called with
(`Note.actual`).
-/

namespace Wbnf

/-- The causes that are not errors of parsers: what was expected and what there is (parser/parser.go:240-241, 270-271, 699-700), and the call
stack (242 and others). What they say is a parameter; the call stack is the same everywhere here. What there is (241, 271) is what the scanner that
the parser got a pointer to holds when the text is asked for: `none` as long as that is the scanner of the caller, which it may still assign to, and
its last value once it is out of reach. -/
inductive Note
  | expect (t : Term)
  | actual (inp : Option Scanner)
  | value (v : Tree)
  | stack

mutual
/-- parser/error.go:9-14 `ParseError` (`FatalError`, 16-19, says the same), with its message formatted; or an error of a handler of external
references or of an escape. -/
inductive Report
  | error (rule msg : Str) (causes : List Cause)
  | other (e : Err)
/-- parser/error.go:13 `children`: a function that returns an error of a parser, or the very error it is a cause of, or a note. -/
inductive Cause
  | report (r : Report)
  | itself
  | note (n : Note)
end

/-- The last assignment to the scanner. -/
def Note.settle (last : Scanner) : Note → Note
  | .actual none => .actual (some last)
  | n => n

mutual
/-- The last assignment to the scanner that the parser of an error got: a local variable of its caller (parser/parser.go:529, 563, 624) which holds
`last` when that returns, or the scanner given to `Parsers.Parse`. -/
def Report.settle (last : Scanner) : Report → Report
  | .error rule msg cs => .error rule msg (settleAll last cs)
  | .other e => .other e
/-- The same of causes. -/
def settleAll (last : Scanner) : List Cause → List Cause
  | [] => []
  | c :: cs => c.settle last :: settleAll last cs
/-- The same of one. -/
def Cause.settle (last : Scanner) : Cause → Cause
  | .report r => .report (r.settle last)
  | .itself => .itself
  | .note n => .note (n.settle last)
end

/-- parser/parser.go:139-165, as `escaping`. -/
def escapingReport (E : Engine) (X : Externals) (ident : Str) (t : Term) (sc : Scope) (inp : Scanner) (cont : Option Report) : Option Report :=
  match parseEscape E X ident t sc inp with
  | .no => cont
  | .err e _ => some (.other e)
  | _ => none

/-- parser/parser.go:238-244, 268-274. -/
def leafReport (find : Str → Option (List (Int × Int))) (rule : Str) (t : Term) (inp : Scanner) : Option Report :=
  match inp.eatRegexp find 2 with
  | .noMatch => some (.error rule [] [.note (.expect t), .note (.actual none), .note .stack])
  | _ => none

/-- parser/parser.go:345-357. -/
def seqReport (ρ : Nat → Nat) (run : P → Scope → Scanner → Nat → Res Tree) (rep : P → Scope → Scanner → Nat → Option Report) (isCut : P → Bool)
    (rule : Str) : List (Str × P) → Scope → Scanner → Nat → Option Report
  | [], _, _, _ => none
  | (ident, p) :: rest, sc, inp, k =>
    match run p sc inp k with
    | .err e _ _ =>
      if e.isFatal then rep p sc inp k
      else (rep p sc inp k).map fun x => .error rule (str "could not complete sequence") [.report x, .note .stack]
    | .ok v inp' k' =>
      let r := if isCut p then sc.replaceCutPoint ρ true k' else (sc, none, none, k')
      seqReport ρ run rep isCut rule rest (r.1.withVal ident v) inp' r.2.2.2
    | _ => none

/-- parser/parser.go:570-579: the error that the loop returns. -/
def quantStop (run : Scanner → Nat → Res Tree) (rep : Scanner → Nat → Option Report) (max : Nat) (mycp : Option Nat) :
    Nat → Nat → Scanner → Nat → Option Report
  | 0, _, _, _ => none
  | n + 1, cnt, inp, k =>
    if max = 0 ∨ cnt < max then
      match run inp k with
      | .err e last _ => if e.isNotMyFatal mycp then (rep inp k).map (·.settle last) else none
      | .ok _ inp' k' => quantStop run rep max mycp n (cnt + 1) inp' k'
      | _ => none
    else none

/-- parser/parser.go:585-588. The first cause is `func() error { return out }`. `out` is the named result of the method (558), to which the `return`
statement assigns the new error: when the cause is called it returns the error it is a cause of, not the error of the last repetition. -/
def quantError (rule : Str) (min max have' : Nat) : Report :=
  .error rule (str "quant failed, expected: (" ++ decimal min ++ str ", " ++ decimal max ++ str "), have " ++ decimal have' ++ str " value(s)")
    [.itself, .note .stack]

/-- parser/parser.go:622-641. -/
def oneofReport (run : P → Scanner → Nat → Res Tree) (rep : P → Scanner → Nat → Option Report) (rule : Str) (mycp : Option Nat) (inp : Scanner) :
    List P → List Cause → Nat → Option Report
  | [], errors, _ => some (.error rule (str "None of the available options could be satisfied") (errors ++ [.note .stack]))
  | p :: ps, errors, k =>
    match run p inp k with
    | .err e last k' =>
      if e.isNotMyFatal mycp then (rep p inp k).map (·.settle last)
      else (rep p inp k).bind fun x => oneofReport run rep rule mycp inp ps (errors ++ [.report (x.settle last)]) k'
    | _ => none

/-- parser/parser.go:691-703. -/
def refReport (comp : Term → Except Stop P) (run : P → Res Tree) (rep : P → Option Report) (ident : Str) (expected : Tree) : Option Report :=
  match termFromRefVal expected with
  | none => none
  | some term =>
    match comp term with
    | .error _ => none
    | .ok q =>
      match run q with
      | .err _ _ _ => rep q
      | .ok v _ _ =>
        if nodesEqual v expected = some false then
          some (.error ident (str "Backref not matched") [.note (.value expected), .note (.value v), .note .stack])
        else none
      | _ => none

/-- parser/parser.go:704-712. -/
def defaultReport (comp : Term → Except Stop P) (rep : P → Option Report) (ident : Str) : Option Term → Option Report
  | some t =>
    match comp t with
    | .ok q => rep q
    | .error _ => none
  | none => some (.error ident (str "Backref not found") [.note .stack])

/-- The error of a parser that was called with a scanner of its own, which the result tells the last value of. -/
def settled (res : Res Tree) (rep : Option Report) : Option Report :=
  match res with
  | .err _ last _ => rep.map (·.settle last)
  | _ => none

/-- The `Parse` methods of parser/parser.go: what is in the error. `none`: there is none. -/
def report (E : Engine) (X : Externals) (ρ : Nat → Nat) : Nat → List Frame → P → Scope → Scanner → Nat → Option Report
  | 0, _, _, _, _, _ => none
  | n + 1, env, p, sc, inp, k =>
    match p with
    | .rule _ => none
    | .link r =>
      match lookupEnv r env with
      | none => none
      | some q => report E X ρ n q.2 q.1 sc inp k
    | .s rule t re => escapingReport E X rule (.s t) sc inp (leafReport (E.find re) rule (.s t) inp)                       -- 234-246
    | .re rule t re => escapingReport E X rule (.re t) sc inp (leafReport (E.find re) rule (.re t) inp)                    -- 264-276
    | .seq rule ts ps =>                                                                                                   -- 337-366
      escapingReport E X [] (.seq ts) sc inp <|
        seqReport ρ (parse E X ρ n env) (report E X ρ n env) (isCutItem env) rule ((ts.map identFromTerm).zip ps) sc inp k
    | .delim _ term sep a cs ce child => escapingReport E X [] (.delim term sep a cs ce) sc inp (report E X ρ n env child sc inp k) -- 391-403
    | .look _ t q =>                                                                                                       -- 522-534
      escapingReport E X [] t sc inp (settled (parse E X ρ n env q sc inp k) (report E X ρ n env q sc inp k))
    | .quant rule t min max q =>                                                                                           -- 558-589
      escapingReport E X [] t sc inp <|
        let r := sc.replaceCutPoint ρ false k
        match quantLoop (fun i k => parse E X ρ n env q r.1 i k) max r.2.2.1 n 0 inp r.2.2.2 with
        | .ok vs _ _ => if vs.length ≥ min then none else some (quantError rule min max vs.length)
        | _ => quantStop (fun i k => parse E X ρ n env q r.1 i k) (fun i k => report E X ρ n env q r.1 i k) max r.2.2.1 n 0 inp r.2.2.2
    | .oneof rule ts ps =>                                                                                                 -- 612-642
      escapingReport E X [] (.oneof ts) sc inp <|
        let r := sc.replaceCutPoint ρ false k
        oneofReport (fun q i k => parse E X ρ n env q r.1 i k) (fun q i k => report E X ρ n env q r.1 i k) rule r.2.2.1 inp ps [] r.2.2.2
    | .ref ident dflt =>                                                                                                   -- 685-715
      escapingReport E X [] (.ref ident dflt) sc inp <|
        match sc.getVal ident with
        | some expected =>
          refReport (compileTerm E n ⟨none, true⟩ ident) (fun q => parse E X ρ n [] q sc inp k) (fun q => report E X ρ n [] q sc inp k) ident expected
        | none => defaultReport (compileTerm E n ⟨none, true⟩ ident) (fun q => report E X ρ n [] q sc inp k) ident dflt
    | .ext name =>                                                                                                         -- 722-734
      escapingReport E X [] (.ext name) sc inp <|
        match X.refs name with
        | none => some (.error name (str "External handler not found") [.note .stack])
        | some fn => (fn ⟨sc.getVal, sc.cp, [], none⟩ inp).err.map .other
    | .scope frame body => report E X ρ n (frame :: env) body sc inp k                                                     -- 743-794
    | .cut q _ => report E X ρ n env q sc inp k                                                                            -- 801-803

/-- parser/terms.go:54: what is in the error of the rule's parser, if the scanner given to `Parse` is left as it is. -/
def Parsers.report (E : Engine) (X : Externals) (ρ : Nat → Nat) (n : Nat) (ps : Parsers) (rule : Str) (inp : Scanner) : Option Report :=
  match lookup rule ps.parsers with
  | none => none
  | some p => settled (Wbnf.parse E X ρ n [ps.parsers] p .init inp 0) (Wbnf.report E X ρ n [ps.parsers] p .init inp 0)

/-- parser/error.go:71-78: the texts of the causes. -/
def causeTexts (text : Cause → Option Str) : List Cause → Option (List Str)
  | [] => some []
  | c :: cs =>
    match text c, causeTexts text cs with
    | some x, some xs => some (x :: xs)
    | _, _ => none

/-- parser/error.go:70: what an error says itself. -/
def reportLine (rule msg : Str) : Str := str "rule(" ++ rule ++ str ") - " ++ msg

/-- What notes and errors of others say. -/
structure Says where
  note : Note → Str
  other : Err → Str

/-- parser/error.go:62-80 `Error` and `walkErrors`. The number bounds the calls in one another; `none` if it does not suffice. The assertion in line 73
is to `*ParseError` and always fails, as errors are `ParseError`s (47-59): causes are added as texts. -/
def Report.text (S : Says) (room : Nat → Nat) : Nat → Report → Option Str
  | 0, _ => none
  | _ + 1, .other e => some (S.other e)
  | n + 1, .error rule msg cs =>
    let one : Cause → Option Str
      | .report r => Report.text S room n r
      | .itself => Report.text S room n (.error rule msg cs)
      | .note x => some (S.note x)
    (causeTexts one cs).map fun xs =>
      newLine ++ ((GTree.new (str "parse failed")).addTree (.mk (reportLine rule msg) (xs.map GTree.new))).print room

end Wbnf

import Verif.Model.Build
import Verif.Model.Recursion

/-!
# Model of the validation of grammars

wbnf/validation.go. Errors are modelled by their kind, without messages and places.
-/

namespace Wbnf

/-- wbnf/validation.go:65-78. -/
inductive ErrorKind
  | unknownRule | duplicatedRule | invalidRegex | nameClashesWithRule | minMaxQuantError | multipleTermsWithSameName
  | possibleCycleDetected | notAMacro | incorrectMacroArgCount
  deriving DecidableEq, Repr

/-- The names found so far, those found again, and the macros. -/
structure RuleNames where
  out : List Str
  dupes : List Str
  macros : Macros

/-- wbnf/validation.go:17-22 `adder`. -/
def RuleNames.add (s : RuleNames) (i : Str) : RuleNames :=
  { s with out := i :: s.out, dupes := if i ∈ s.out then s.dupes ++ [i] else s.dupes }

/-- wbnf/validation.go:23-34: both callbacks leave the node. -/
def definedOps : WalkerOps RuleNames where
  enter
    | .prod i _, s => (s.add i, some nodeExiter)
    | .macrodef m args t, s => ({ s.add m with macros := mapSet m ⟨args, t⟩ s.macros }, some nodeExiter)
    | _, s => (s, none)
  exit _ s := (s, none)

/-- wbnf/validation.go:13-42 `findDefinedRules`. -/
def findDefinedRules (g : GrammarN) : RuleNames := (walk definedOps g.tree ⟨[], [], []⟩).1

/-- The errors so far, and whether something panicked. (What happens after a panic is not observed.) -/
structure Verdict where
  errs : List ErrorKind
  panicked : Bool

def Verdict.report (v : Verdict) (e : ErrorKind) (bad : Bool) : Verdict := if bad then { v with errs := v.errs ++ [e] } else v

/-- wbnf/validation.go:131-132: the name a term of a sequence gives to its atom; `""` is no name. -/
def TermN.label : TermN → Option Str
  | .one (.mk (some x) _) _ => if x = [] then none else some x
  | _ => none

/-- wbnf/validation.go:129-140: an error for each name that is there before. -/
def reportRepeats : List Str → List Str → Verdict → Verdict
  | _, [], v => v
  | seen, x :: xs, v => reportRepeats (x :: seen) xs (v.report .multipleTermsWithSameName (x ∈ seen))

/-- wbnf/validation.go:211-218: the arguments of a macro, each of which must be a new name. -/
def reportArgs : List Str → List Str → Verdict → Verdict
  | _, [], v => v
  | known, a :: as, v => if a ∈ known then reportArgs known as (v.report .nameClashesWithRule true) else reportArgs (a :: known) as v

/-- wbnf/validation.go:176-205 `validateQuant`. -/
def validateRange (lo hi : Option Str) (v : Verdict) : Verdict :=
  match bound lo, bound hi with
  | .ok lo, .ok hi => v.report .minMaxQuantError (lo ≠ 0 ∧ hi ≠ 0 ∧ hi < lo)
  | _, _ => { v with panicked := true }                                                  -- 184-186, 191-193

/-- wbnf/validation.go:107-117 `walk` and the callbacks 123-236. `reOK` tells what `regexp.Compile` accepts; it gets the text
of the literal. In `validateMacro` 207-221 the call `v.walk(node.OneTerm())` passes a `*TermNode`, for which there is no case
in `Walk` (wbnf/wbnfgrammar.go:741-816): it does nothing. `knownRules` is restored at the end, so that it is constant. -/
def validatorOps (reOK : Str → Bool) (known : List Str) (macros : Macros) : WalkerOps Verdict where
  enter
    | .term (.many op gs ts), v =>                                                       -- 123-143
      if gs ≠ [] then (v, some nodeExiter)
      else if op = [] then (reportRepeats [] (ts.filterMap TermN.label) v, none)
      else (v, none)
    | .named (.mk (some x) _), v => (v.report .nameClashesWithRule (x ∈ known), none)    -- 145-153
    | .atom (.ident i), v => (v.report .unknownRule (i ≠ str "@" ∧ i ∉ known), none)     -- 155-162
    | .atom (.re x), v => (v.report .invalidRegex (!reOK x), none)                       -- 163-172
    | .quant (.range lo hi), v => (validateRange lo hi v, none)
    | .macrodef _ args _, v => (reportArgs known args v, some nodeExiter)
    | .macrocall m ts, v =>                                                              -- 223-236
      match lookup m macros with
      | none => (v.report .notAMacro true, none)
      | some mc => (v.report .incorrectMacroArgCount (mc.args.length ≠ ts.length), none)
    | _, v => (v, none)
  exit _ v := (v, none)

/-- wbnf/validation.go:44-63 `validate`: the errors, none if the grammar is accepted. -/
def validate (reOK : Str → Bool) (ord : List Str → List Str → List Str) (g : GrammarN) : Except Stop (List ErrorKind) :=
  let names := findDefinedRules g
  if names.dupes ≠ [] then .ok [.duplicatedRule]                                         -- 45-48
  else
    let v := (walk (validatorOps reOK names.out names.macros) g.tree ⟨[], false⟩).1      -- 49-53
    if v.panicked then .error .panic
    else .ok (v.report .possibleCycleDetected (badRoutes ord g ≠ [])).errs               -- 55-62

end Wbnf

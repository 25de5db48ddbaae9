import Verif.Spec.Validate

/-! What each kind of error that validation reports is about. -/

namespace Wbnf

/-- The names of rules and macros. -/
def GrammarN.names (g : GrammarN) : List Str := g.stmts.filterMap StmtN.name

/-- There is such a fault in the grammar, where validation looks (not in terms with grammars in braces, nor in bodies of macros). -/
def Faulty (reOK : Str → Bool) (ord : List Str → List Str → List Str) (g : GrammarN) : ErrorKind → Prop
  /- a name is used that is not defined -/
  | .unknownRule => ∃ i, g.Checked (.atom (.ident i)) ∧ i ≠ str "@" ∧ i ∉ g.names
  /- a name is defined twice -/
  | .duplicatedRule => ¬ g.names.Nodup
  /- the regexp package refuses a regexp -/
  | .invalidRegex => ∃ x, g.Checked (.atom (.re x)) ∧ reOK x = false
  /- a name of a rule is given to an atom or a parameter of a macro, or a parameter is given twice -/
  | .nameClashesWithRule => (∃ x a, g.Checked (.named (.mk (some x) a)) ∧ x ∈ g.names) ∨
      ∃ m as t, .macrodef m as t ∈ g.stmts ∧ ((∃ a ∈ as, a ∈ g.names) ∨ ¬ as.Nodup)
  /- there is an upper bound, and the lower bound is greater -/
  | .minMaxQuantError => ∃ lo hi, g.Checked (.quant (.range lo hi)) ∧ boundValue hi ≠ 0 ∧ boundValue hi < boundValue lo
  /- a sequence gives a name twice -/
  | .multipleTermsWithSameName => ∃ ts, g.Checked (.term (.many [] [] ts)) ∧ ¬ (ts.filterMap TermN.label).Nodup
  /- the check for recursion (C39) finds something -/
  | .possibleCycleDetected => badRoutes ord g ≠ []
  /- what is called is not a macro -/
  | .notAMacro => ∃ m ts, g.Checked (.macrocall m ts) ∧ ∀ as t, .macrodef m as t ∉ g.stmts
  /- a macro is called with another number of arguments than it has -/
  | .incorrectMacroArgCount => ∃ m ts as t, g.Checked (.macrocall m ts) ∧ .macrodef m as t ∈ g.stmts ∧ as.length ≠ ts.length

/-- The node entered. -/
def Event.entered : Event → Option Item
  | .enter i => some i
  | .exit _ => none

/-- The nodes validation looks at, in the order of the text (those that contain others first). -/
def GrammarN.visited (g : GrammarN) : List Item := (g.tree.events Item.unchecked).filterMap Event.entered

/-- How many names of the second list are in the first, or before them in the second. -/
def extras : List Str → List Str → Nat
  | _, [] => 0
  | seen, x :: xs => (if x ∈ seen then 1 else 0) + extras (x :: seen) xs

/-- The parameters of a macro. -/
def GrammarN.paramsOf (g : GrammarN) (m : Str) : Option (List Str) := g.stmts.findSome? fun
  | .macrodef m' as _ => if m' = m then some as else none
  | _ => none

/-- The faults of a node, one for each name that is wrong. -/
def GrammarN.faultsAt (reOK : Str → Bool) (g : GrammarN) : Item → List ErrorKind
  | .term (.many [] [] ts) => List.replicate (extras [] (ts.filterMap TermN.label)) .multipleTermsWithSameName
  | .named (.mk (some x) _) => if x ∈ g.names then [.nameClashesWithRule] else []
  | .atom (.ident i) => if i ≠ str "@" ∧ i ∉ g.names then [.unknownRule] else []
  | .atom (.re x) => if reOK x then [] else [.invalidRegex]
  | .quant (.range lo hi) => if boundValue hi ≠ 0 ∧ boundValue hi < boundValue lo then [.minMaxQuantError] else []
  | .macrodef _ as _ => List.replicate (extras g.names as) .nameClashesWithRule
  | .macrocall m ts =>
    match g.paramsOf m with
    | none => [.notAMacro]
    | some as => if as.length = ts.length then [] else [.incorrectMacroArgCount]
  | _ => []

end Wbnf

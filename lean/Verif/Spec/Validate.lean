import Verif.Spec.Recursion
import Verif.Model.Validate

/-!
# Valid grammars
-/

namespace Wbnf

/-- The name a statement defines: of a rule or of a macro. -/
def StmtN.name : StmtN → Option Str
  | .prod i _ => some i
  | .macrodef m _ _ => some m
  | _ => none

/-- What is in a term with grammars in braces, and in a macro definition, is not looked at. -/
def Item.unchecked : Item → Bool
  | .term (.many _ gs _) => !gs.isEmpty
  | .macrodef _ _ _ => true
  | _ => false

/-- A node of the grammar that is not in a term with grammars in braces, or in a macro definition. -/
def GrammarN.Checked (g : GrammarN) (i : Item) : Prop := g.tree.Outer Item.unchecked i

/-- The number a text of digits is. -/
def numOf (x : Str) : Nat := x.foldl (fun n c => 10 * n + (c.toNat - 48)) 0

/-- A bound: nothing, or a text of digits that is an `int`. -/
def IsBound : Option Str → Prop
  | none => True
  | some x => (∀ c ∈ x, 48 ≤ c ∧ c ≤ 57) ∧ numOf x < 2 ^ 63

/-- The value of a bound, 0 if there is none. -/
def boundValue : Option Str → Nat
  | none => 0
  | some x => numOf x

/-- What validation demands. -/
structure Valid (reOK : Str → Bool) (g : GrammarN) : Prop where
  /-- No name is defined twice. -/
  distinct : (g.stmts.filterMap StmtN.name).Nodup
  /-- Rule names are defined (as rules or macros). -/
  known : ∀ i, g.Checked (.atom (.ident i)) → i = str "@" ∨ i ∈ g.stmts.filterMap StmtN.name
  /-- Bounds are in order; 0 as the upper bound is no bound. -/
  bounds : ∀ lo hi, g.Checked (.quant (.range lo hi)) → boundValue hi = 0 ∨ boundValue lo ≤ boundValue hi
  /-- Regexps are accepted by the regexp package. -/
  regexps : ∀ x, g.Checked (.atom (.re x)) → reOK x = true
  /-- Names given to atoms are not those of rules. -/
  labels : ∀ x a, g.Checked (.named (.mk (some x) a)) → x ∉ g.stmts.filterMap StmtN.name
  /-- In a sequence no name is given twice. -/
  repeats : ∀ ts, g.Checked (.term (.many [] [] ts)) → (ts.filterMap TermN.label).Nodup
  /-- The arguments of a macro are distinct names, and not those of rules. -/
  args : ∀ m as t, .macrodef m as t ∈ g.stmts → as.Nodup ∧ ∀ a ∈ as, a ∉ g.stmts.filterMap StmtN.name
  /-- Macros that are called are defined, with that number of arguments. -/
  calls : ∀ m ts, g.Checked (.macrocall m ts) → ∃ as t, .macrodef m as t ∈ g.stmts ∧ as.length = ts.length

/-- All the bounds are `int`s. -/
def GrammarN.Ints (g : GrammarN) : Prop := ∀ lo hi, g.Checked (.quant (.range lo hi)) → IsBound lo ∧ IsBound hi

end Wbnf

import Verif.Spec.GoCode
import Verif.Spec.Stacks

/-!
# Grammars that can be written as Go source
-/

namespace Wbnf

/-- Text without quotes, backslashes and line ends. -/
def PlainText (s : Str) : Prop := GoText s ∧ ∀ c ∈ s, c ≠ 96 ∧ c ≠ 34 ∧ c ≠ 92 ∧ c ≠ 10 ∧ c ≠ 13

/-- The name of a rule: as `PlainText`, and without `@`. (Names in wbnf sources consist of letters, digits, `_` and `.`.) -/
def RuleName (s : Str) : Prop := PlainText s ∧ (64 : UInt8) ∉ s

/-- What a reference may refer to: `@`, or a rule. -/
def RefName (s : Str) : Prop := s = str "@" ∨ RuleName s

/-- What a literal or a pattern may consist of: anything a Go source file may contain, except carriage returns. -/
def LiteralText (s : Str) : Prop := GoText s ∧ (13 : UInt8) ∉ s

/-- The default of a reference is a literal, if there is one. -/
def WritableDflt : Option Term → Prop
  | none => True
  | some (.s l) => LiteralText l
  | some _ => False

/-- The quantifiers `*`, `+` and `?`. -/
def WritableBounds (lo hi : Nat) : Prop := (lo = 0 ∧ hi = 0) ∨ (lo = 1 ∧ hi = 0) ∨ (lo = 0 ∧ hi = 1)

mutual
/-- A term that can be written as Go source, with names in references such as `ref` says. -/
def Term.GoWritable (ref : Str → Prop) : Term → Prop
  | .rule r => ref r
  | .s l => LiteralText l
  | .re p => LiteralText p
  | .ext x => LiteralText x
  | .ref i d => PlainText i ∧ WritableDflt d
  | .seq ts => goWritableList ref ts
  | .oneof ts => goWritableList ref ts
  | .stack ts => goWritableList ref ts
  | .delim t sep a _ _ => t.GoWritable ref ∧ sep.GoWritable ref ∧ (a = -1 ∨ a = 0 ∨ a = 1)
  | .look t => t.GoWritable ref
  | .quant t lo hi => t.GoWritable ref ∧ WritableBounds lo hi
  | .named n t => PlainText n ∧ t.GoWritable ref
  | .cut t => t.GoWritable ref
  | .scope t g => t.GoWritable ref ∧ goWritableDefs ref g ∧ Grammar.Distinct g
def goWritableList (ref : Str → Prop) : List Term → Prop
  | [] => True
  | t :: ts => t.GoWritable ref ∧ goWritableList ref ts
def goWritableDefs (ref : Str → Prop) : List (Str × Term) → Prop
  | [] => True
  | (r, t) :: g => RuleName r ∧ t.GoWritable ref ∧ goWritableDefs ref g
end

/-- A grammar that can be written as Go source. -/
def Grammar.GoWritable (g : Grammar) : Prop := goWritableDefs RefName g ∧ g.Distinct

end Wbnf

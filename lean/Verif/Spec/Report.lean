import Verif.Model.Report
import Verif.Spec.GoTree

/-!
# What errors are to say
-/

namespace Wbnf

/-- An error has itself as a cause, at once or among the causes of its causes. -/
inductive Endless : Report → Prop
  | here {rule msg cs} : Cause.itself ∈ cs → Endless (.error rule msg cs)
  | cause {rule msg cs r} : Cause.report r ∈ cs → Endless r → Endless (.error rule msg cs)

/-- What there is to tell: what an error and those that led to it say, and their notes. -/
inductive Tells (S : Says) : Report → Str → Prop
  | here {rule msg cs} : Tells S (.error rule msg cs) (str "rule(" ++ rule ++ str ") - " ++ msg)
  | note {rule msg cs n} : Cause.note n ∈ cs → Tells S (.error rule msg cs) (S.note n)
  | other {rule msg cs e} : Cause.report (.other e) ∈ cs → Tells S (.error rule msg cs) (S.other e)
  | cause {rule msg cs r x} : Cause.report r ∈ cs → Tells S r x → Tells S (.error rule msg cs) x

/-- A note is one of an error, or of one that led to it. -/
inductive HasNote : Note → Report → Prop
  | here {n rule msg cs} : Cause.note n ∈ cs → HasNote n (.error rule msg cs)
  | cause {n r rule msg cs} : Cause.report r ∈ cs → HasNote n r → HasNote n (.error rule msg cs)

/-- An error is another, or a cause of it, or a cause of one of its causes. -/
inductive LedTo : Report → Report → Prop
  | same {r} : LedTo r r
  | cause {q r rule msg cs} : Cause.report r ∈ cs → LedTo q r → LedTo q (.error rule msg cs)

/-- A line of the text ends so. -/
def EndsLine (x s : Str) : Prop := ∃ before after, s = before ++ x ++ 10 :: after

mutual
/-- No quantifier asks for one at least. -/
def Term.Lenient : Term → Prop
  | .rule _ => True
  | .s _ => True
  | .re _ => True
  | .ext _ => True
  | .ref _ none => True
  | .ref _ (some d) => d.Lenient
  | .seq ts => lenientAll ts
  | .oneof ts => lenientAll ts
  | .stack ts => lenientAll ts
  | .delim t sep _ _ _ => t.Lenient ∧ sep.Lenient
  | .look t => t.Lenient
  | .quant t lo _ => lo = 0 ∧ t.Lenient
  | .named _ t => t.Lenient
  | .scope t g => t.Lenient ∧ lenientDefs g
  | .cut t => t.Lenient
def lenientAll : List Term → Prop
  | [] => True
  | t :: ts => t.Lenient ∧ lenientAll ts
def lenientDefs : List (Str × Term) → Prop
  | [] => True
  | d :: g => d.2.Lenient ∧ lenientDefs g
end

end Wbnf

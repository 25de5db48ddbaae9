import Verif.Spec.Walk

/-!
# What the check for recursion looks for
-/

namespace Wbnf

/-- A quantifier that lets there be none: not `+`, not a separator, and no lower bound but 0. -/
def QuantN.optional : QuantN → Prop
  | .op o => o ≠ str "+"
  | .range lo _ => lo = none ∨ lo = some (str "0")
  | .sep _ _ _ _ => False

/-- An optional text: a literal, pattern, look-ahead or the like with a quantifier that lets there be none. -/
inductive Blank : TermN → Prop
  | atom {n a q qs} : (∀ q' ∈ q :: qs, q'.optional) → (∀ t, a ≠ .term t) → (∀ i, a ≠ .ident i) → Blank (.one (.mk n a) (q :: qs))
  | paren {n t qs} : (∀ q ∈ qs, q.optional) → Blank t → Blank (.one (.mk n (.term t)) qs)
  | choice {t ts gs} : t ∈ ts → Blank t → Blank (.many (str "|") gs ts)
  /-- A rule name that is empty (the parser produces none). -/
  | nameless {n qs} : (∀ q ∈ qs, q.optional) → Blank (.one (.mk n (.ident [])) qs)

/-- The term names the rule in its first place, or in a later one when before it there are only rule names, optional texts
and terms that start with one of these. -/
inductive CallsFirst : TermN → Str → Prop
  | ident {n r qs} : r ≠ [] → (∀ q ∈ qs, q.optional) → CallsFirst (.one (.mk n (.ident r)) qs) r
  | paren {n t qs r} : (∀ q ∈ qs, q.optional) → CallsFirst t r → CallsFirst (.one (.mk n (.term t)) qs) r
  | choice {t ts gs r} : t ∈ ts → CallsFirst t r → CallsFirst (.many (str "|") gs ts) r
  | head {op gs t ts r} : op ≠ str "|" → CallsFirst t r → CallsFirst (.many op gs (t :: ts)) r
  | blank {op gs t ts r} : op ≠ str "|" → Blank t → CallsFirst (.many op gs ts) r → CallsFirst (.many op gs (t :: ts)) r
  | called {op gs t ts r r'} : op ≠ str "|" → CallsFirst t r' → CallsFirst (.many op gs ts) r → CallsFirst (.many op gs (t :: ts)) r

/-- The item is a production. -/
def Item.isProd : Item → Bool
  | .prod _ _ => true
  | _ => false

/-- The grammar has this production, not inside another one. -/
def GrammarN.Defines (g : GrammarN) (r : Str) (ts : List TermN) : Prop := g.tree.Outer Item.isProd (.prod r ts)

/-- A production for `r` names `r'` first. -/
def GrammarN.Calls (g : GrammarN) (r r' : Str) : Prop := ∃ ts t, g.Defines r ts ∧ t ∈ ts ∧ CallsFirst t r'

/-- Each is related to the next one. -/
def Chained {α : Type} (R : α → α → Prop) : List α → Prop
  | a :: b :: l => R a b ∧ Chained R (b :: l)
  | _ => True

/-- From `r` a chain of calls leads back to `r`. -/
def GrammarN.Cycle (g : GrammarN) (r : Str) : Prop := ∃ l, Chained g.Calls (r :: l ++ [r])

/-- `ord` only puts things into an order, which may be different each time. -/
def Orders (ord : List Str → List Str → List Str) : Prop := ∀ p l, (ord p l).Perm l

/-- The grammar has one production for `r`, this one. -/
def GrammarN.DefinesOnly (g : GrammarN) (r : Str) (ts : List TermN) : Prop := g.Defines r ts ∧ ∀ ts', g.Defines r ts' → ts' = ts

end Wbnf

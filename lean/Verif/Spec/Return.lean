import Verif.Spec.Ast

/-!
# Which rules can be read back from an AST

A branch keeps parts by name, in order under each name, and forgets the rest of the order. A tree can be
put together again from it if, wherever the term allows more or fewer parts, the names that are left in the
branch tell whether there is another one. This file says when they do, from the term alone.
-/

namespace Wbnf

/-- The names under which parts of the term itself are stored. -/
def Term.keys : Term → List Str
  | .s _ => [[]]
  | .re _ => [[]]
  | .rule r => [shownName r]
  | .named n _ => [n]
  | .ref i _ => [i]
  | .ext x => [x]
  | .cut t => t.keys
  | .look t => t.keys
  | .scope t _ => t.keys
  | .quant t _ _ => t.keys
  | .delim t sep _ _ _ => emptyTag :: (t.keys ++ sep.keys)
  | .seq ts => keysAll ts
  | .oneof ts => choiceTag :: keysAll ts
  | .stack _ => []
where keysAll : List Term → List Str
  | [] => []
  | t :: ts => t.keys ++ keysAll ts

/-- Names such that the term is missing from a branch that has none of them. A repetition that may be empty is
never missing, nor is a list: there are no such names. -/
def Term.signs : Term → Option (List Str)
  | .s _ => some [[]]
  | .re _ => some [[]]
  | .rule r => some [shownName r]
  | .named n _ => some [n]
  | .oneof _ => some [choiceTag]
  | .cut t => t.signs
  | .seq ts => signsSeq ts
  | _ => none
where signsSeq : List Term → Option (List Str)
  | [] => none
  | .quant t 0 _ :: ts =>
    match t.signs, signsSeq ts with
    | some a, some b => some (a ++ b)
    | _, _ => none
  | t :: _ => t.signs

/-- The term has signs, and none of them is among the names. -/
def Term.TellsFrom (t : Term) (names : List Str) : Prop := ∃ K, t.signs = some K ∧ ∀ k ∈ K, k ∉ names

/-- The term makes a node or leaf of its own, so that the node gets the name of the rule or the name given. -/
def Term.Own : Term → Prop
  | .s _ => True
  | .re _ => True
  | .seq _ => True
  | .oneof _ => True
  | .quant _ _ _ => True
  | .delim _ _ _ _ _ => True
  | .cut t => t.Own
  | _ => False

/-- The parts of the term can be told apart from each other and from later parts, which have these names.
Back references, external references, lookahead, grammars in braces and lists with flags are left out. -/
def Term.Readable : List Str → Term → Prop
  | _, .s _ => True
  | _, .re _ => True
  | _, .rule _ => True
  | _, .named n t => n ≠ [] ∧ t.Own ∧ t.Readable []
  | later, .cut t => t.Readable later
  | later, .seq ts => readableSeq later ts
  | later, .oneof ts => readableAll later ts
  | later, .quant t _ _ => t.TellsFrom later ∧ t.Readable (t.keys ++ later)
  | later, .delim t sep a cs ce => cs = false ∧ ce = false ∧ sep.TellsFrom later ∧
      t.Readable ((Term.delim t sep a cs ce).keys ++ later) ∧ sep.Readable ((Term.delim t sep a cs ce).keys ++ later)
  | _, _ => False
where
  readableSeq : List Str → List Term → Prop
  | _, [] => True
  | later, t :: ts => t.Readable (Term.keys.keysAll ts ++ later) ∧ readableSeq later ts
  readableAll : List Str → List Term → Prop
  | _, [] => True
  | later, t :: ts => t.Readable later ∧ readableAll later ts

/-- Every rule has a name, makes a node of its own or is another name for a rule, and can be read back. -/
def Grammar.Readable (G : Grammar) : Prop := ∀ k t, (k, t) ∈ G → k ≠ [] ∧ (t.Own ∨ ∃ r, t = .rule r) ∧ t.Readable []

end Wbnf

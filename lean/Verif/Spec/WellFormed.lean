import Verif.Model.Term

/-!
# Grammars without bare references in the wrong place

A definition `a -> x=b;` (a rule reference under a name and nothing else), or a cut point around a
bare rule reference, leaves an unpatched slot in the compiled parser, which panics when it is
reached. `Grammar.wf` rules these out, also in grammars in braces. It also requires that the default
of a back reference is made of literals, which is all the wbnf syntax `%name="default"` can express.
It is decidable.
-/

namespace Wbnf

/-- The rule name a term comes down to, if it is a reference under names only. -/
def Term.headRule : Term → Option Str
  | .rule r => some r
  | .named _ t => t.headRule
  | _ => none

/-- The term is not a bare reference to a rule defined elsewhere. -/
def Term.hard : Term → Bool
  | .rule _ => false
  | .named _ t => t.hard
  | .cut t => t.hard
  | .scope t g =>
    t.hard || match t.headRule with
      | some r => hasKey r g
      | none => false
  | _ => true

def Term.hardOrRule : Term → Bool
  | .rule _ => true
  | t => t.hard

/-- Right-hand sides of rules: a rule name (an alias), or a stack of such layers, or a term that is
not a bare reference. -/
def Term.defOK : Term → Bool
  | .stack ts => ts.all Term.hardOrRule
  | t => t.hardOrRule

mutual
/-- Literals and sequences of such. -/
def Term.isText : Term → Bool
  | .s _ => true
  | .seq ts => isTextList ts
  | _ => false
def isTextList : List Term → Bool
  | [] => true
  | t :: ts => t.isText && isTextList ts
end

mutual
def Term.wf : Term → Bool
  | .rule _ => true
  | .s _ => true
  | .re _ => true
  | .ref _ none => true
  | .ref _ (some d) => d.isText
  | .ext _ => true
  | .seq ts => wfList ts
  | .oneof ts => wfList ts
  | .stack ts => wfList ts
  | .delim t sep _ _ _ => t.wf && sep.wf
  | .look t => t.wf
  | .quant t _ _ => t.wf
  | .named _ t => t.wf
  | .scope t g => t.wf && wfDefs g
  | .cut t => t.hard && t.wf
def wfList : List Term → Bool
  | [] => true
  | t :: ts => t.wf && wfList ts
def wfDefs : List (Str × Term) → Bool
  | [] => true
  | (_, t) :: g => t.defOK && t.wf && wfDefs g
end

/-- No bare reference where it would leave an unpatched slot. -/
def Grammar.wf (g : Grammar) : Bool := wfDefs g

end Wbnf

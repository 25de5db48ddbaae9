import Verif.Spec.Types

/-!
# Which names the types count

A type has an accessor for all children of a name only if the walk over the grammar noticed that there may be many. It does
so for what is repeated by a quantifier or in a list, and for references to a rule that are repeated in a sequence.
-/

namespace Wbnf

mutual
/-- The names that the parts of a term may have. -/
def Term.kidNames : Term → List Str
  | .rule r => [shownName r]
  | .named n _ => [n]
  | .ref i _ => [i]
  | .ext x => [x]
  | .cut t => t.kidNames
  | .look t => t.kidNames
  | .quant t _ _ => t.kidNames
  | .delim t sep _ _ _ => t.kidNames ++ sep.kidNames
  | .seq ts => kidNamesOf ts
  | .oneof ts => kidNamesOf ts
  | .scope t _ => t.kidNames
  | .s _ => []
  | .re _ => []
  | .stack _ => []
def kidNamesOf : List Term → List Str
  | [] => []
  | t :: ts => t.kidNames ++ kidNamesOf ts
end

mutual
/-- Nothing called `k` comes from `%k` or `%%k`, or is in braces. -/
def Term.typedFor (k : Str) : Term → Bool
  | .ref i _ => i ≠ k
  | .ext x => x ≠ k
  | .cut t => t.typedFor k
  | .look t => t.typedFor k
  | .quant t _ _ => t.typedFor k
  | .delim t sep _ _ _ => t.typedFor k && sep.typedFor k
  | .seq ts => typedForAll k ts
  | .oneof ts => typedForAll k ts
  | .scope _ _ => false
  | _ => true
def typedForAll (k : Str) : List Term → Bool
  | [] => true
  | t :: ts => t.typedFor k && typedForAll k ts
end

mutual
/-- What is called `k` is a rule, outside of alternatives: neither `k=` nor `%k`. -/
def Term.refersTo (k : Str) : Term → Bool
  | .rule _ => true
  | .named n _ => n ≠ k
  | .ref i _ => i ≠ k
  | .ext x => x ≠ k
  | .cut t => t.refersTo k
  | .look t => t.refersTo k
  | .quant t _ _ => t.refersTo k
  | .delim t sep _ _ _ => t.refersTo k && !decide (k ∈ sep.kidNames) && sep.typedFor k
  | .seq ts => referToAll k ts
  | .oneof ts => !decide (k ∈ kidNamesOf ts) && typedForAll k ts
  | .scope _ _ => false
  | .s _ => true
  | .re _ => true
  | .stack _ => true
def referToAll (k : Str) : List Term → Bool
  | [] => true
  | t :: ts => t.refersTo k && referToAll k ts
end

/-- A separator that is always the same literal, with a name. -/
def Term.literalName : Term → Option Str
  | .named n (.s _) => some n
  | .named n (.cut _) => some n
  | _ => none

mutual
/-- Where there may be many of the name `k`, it can be seen: they are repeated by a quantifier or are in a list (but not just
as its separators, if these are always the same), or they are references to a rule that are side by side. -/
def Term.clear (k : Str) : Term → Bool
  | .ref i _ => i ≠ k
  | .ext x => x ≠ k
  | .cut t => t.clear k
  | .look t => t.clear k
  | .quant t _ hi => if hi = 1 then t.clear k else t.typedFor k
  | .delim t sep _ _ _ => t.typedFor k && sep.typedFor k && decide (sep.literalName ≠ some k)
  | .seq ts => clearAll k ts
  | .oneof ts => eachClear k ts
  | .scope _ _ => false
  | _ => true
/-- Side by side. -/
def clearAll (k : Str) : List Term → Bool
  | [] => true
  | t :: ts => t.clear k && clearAll k ts &&
    (!decide (k ∈ t.kidNames) || !decide (k ∈ kidNamesOf ts) || (t.refersTo k && referToAll k ts))
def eachClear (k : Str) : List Term → Bool
  | [] => true
  | t :: ts => t.clear k && eachClear k ts
end

mutual
/-- The named groups in a term, with what their types are called after. -/
def Term.groups (camel : Str → Str) : Term → Str → List (Str × Term)
  | .named n t, p =>
    match t with
    | .rule _ => []
    | .s _ => []
    | .re _ => []
    | .cut _ => []
    | t => (p ++ goName camel n, t) :: t.groups camel (p ++ goName camel n)
  | .cut t, p => t.groups camel p
  | .look t, p => t.groups camel p
  | .quant t _ _, p => t.groups camel p
  | .delim t sep _ _ _, p => t.groups camel p ++ sep.groups camel p
  | .seq ts, p => groupsOf camel ts p
  | .oneof ts, p => groupsOf camel ts p
  | _, _ => []
def groupsOf (camel : Str → Str) : List Term → Str → List (Str × Term)
  | [], _ => []
  | t :: ts, p => t.groups camel p ++ groupsOf camel ts p
end

end Wbnf

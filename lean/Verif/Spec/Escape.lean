import Verif.Model.Externals
import Verif.Spec.Basic
import Verif.Spec.Shape

/-!
# Escapes
-/

namespace Wbnf

/-- The same handlers without an escape. -/
def Externals.withoutEscape (X : Externals) : Externals := { X with esc := none }

/-- The opening delimiter is nowhere in the text. -/
def Escape.Absent (E : Engine) (e : Escape) (inp : Scanner) : Prop :=
  ∀ before after, inp.toStr = some (before ++ after) → E.find e.openDelim after = none

/-- The regexp matches the first `n` bytes of the text. -/
def MatchesFirst (E : Engine) (pattern : Str) (inp : Scanner) (n : Int) : Prop :=
  ∃ text groups, inp.toStr = some text ∧ E.find pattern text = some ((0, n) :: groups)

/-- What a handler has read: a tree and where it ended. A handler that calls `Parse` does not read all; then `Parse` returns an error that has the tree. -/
def HasRead (r : ExtRes) (v : Tree) (i : Scanner) : Prop :=
  (r.err = none ∧ r.tree = v ∧ r.inp = i) ∨ r.err = some (.unconsumed v i)

/-- What is parsed where an opening delimiter of `n` bytes is: what the handler reads after it, up to the closing delimiter, which must be there. -/
inductive Escaped (E : Engine) (e : Escape) (c : Call) (inp : Scanner) (n : Int) : Res Tree → Prop
  | read {v i m k} : HasRead (e.external c (inp.skip n)) v i → MatchesFirst E e.closeDelim i m → Escaped E e c inp n (.ok v (i.skip m) k)
  | unclosed {v i text k} : HasRead (e.external c (inp.skip n)) v i → i.toStr = some text → E.find e.closeDelim text = none → Escaped E e c inp n (.err .other i k)
  | failed {er k} : (e.external c (inp.skip n)).err = some er → (∀ v r, er ≠ .unconsumed v r) → Escaped E e c inp n (.err er (e.external c (inp.skip n)).inp k)

/-- The leaves of a tree that have any text are inside of what was visible of the source. -/
def LeavesInside (inp : Scanner) (v : Tree) : Prop :=
  ∀ s ∈ v.leaves, s.len ≠ 0 → s.src = inp.src ∧ inp.start ≤ s.start ∧ 0 ≤ s.len ∧ s.start + s.len ≤ inp.start + inp.len

/-- Handlers that return trees over the text they were given. -/
def Handler.Honest (f : Handler) : Prop :=
  ∀ c inp, inp.InRange → ∀ v i, HasRead (f c inp) v i → LeavesInside inp v

structure Externals.Honest (X : Externals) : Prop where
  refs : ∀ name f, X.refs name = some f → Handler.Honest f
  esc : ∀ e, X.esc = some e → Handler.Honest e.external

/-- The key of an escape, `*open()close`: the delimiters are before and after the first `()`; a further `()` ends the second one. -/
def DelimsOf (key op cl : Str) : Prop :=
  ∃ more, key = [42] ++ op ++ [40, 41] ++ cl ++ more ∧ ¬ [40, 41] <:+: op ∧ ¬ [40, 41] <:+: cl ∧ (more = [] ∨ [40, 41] <+: more)

/-- Keys that begin with `*` are of escapes. -/
def EscapeKey (key : Str) : Prop := ∃ k, key = 42 :: k

/-- An escape can be made from the key. -/
def EscapeKey.Usable (E : Engine) (key : Str) : Prop :=
  ∃ op cl, DelimsOf key op cl ∧ E.valid (anchor ++ op) = true ∧ E.valid (anchor ++ cl) = true

end Wbnf

import Verif.Model.Term
import Verif.Spec.Written
import Verif.Spec.Stacks

/-!
# Terms whose text is in the notation of wbnf

What is printed without parentheses must bind as tightly as what is around it.
-/

namespace Wbnf

/-- The letter that stands for a byte after a backslash. -/
def escapeLetters : List (UInt8 × UInt8) := [(7, 97), (8, 98), (9, 116), (10, 110), (11, 118), (12, 102), (13, 114), (34, 34), (92, 92)]

/-- The printable characters of ASCII, and those that have an escape with a letter. -/
def AsciiText (x : Str) : Prop := ∀ c ∈ x, (32 ≤ c ∧ c ≤ 126) ∨ (7 ≤ c ∧ c ≤ 13)

/-- A byte of text in quotes. -/
def quotedByte (c : UInt8) : Str :=
  match escapeLetters.find? (·.1 == c) with
  | some e => [92, e.2]
  | none => [c]

/-- The characters of more than one byte, in UTF-8. -/
inductive Rune : Str → Nat → Prop
  | two {c0 c1 : UInt8} : 0xC2 ≤ c0.toNat → c0.toNat ≤ 0xDF → 0x80 ≤ c1.toNat → c1.toNat ≤ 0xBF →
      Rune [c0, c1] ((c0.toNat - 0xC0) * 64 + (c1.toNat - 0x80))
  | three {c0 c1 c2 : UInt8} : 0xE0 ≤ c0.toNat → c0.toNat ≤ 0xEF → 0x80 ≤ c1.toNat → c1.toNat ≤ 0xBF → (c0.toNat = 0xE0 → 0xA0 ≤ c1.toNat) →
      (c0.toNat = 0xED → c1.toNat ≤ 0x9F) →
      0x80 ≤ c2.toNat → c2.toNat ≤ 0xBF → Rune [c0, c1, c2] ((c0.toNat - 0xE0) * 4096 + (c1.toNat - 0x80) * 64 + (c2.toNat - 0x80))
  | four {c0 c1 c2 c3 : UInt8} : 0xF0 ≤ c0.toNat → c0.toNat ≤ 0xF4 → 0x80 ≤ c1.toNat → c1.toNat ≤ 0xBF → (c0.toNat = 0xF0 → 0x90 ≤ c1.toNat) →
      (c0.toNat = 0xF4 → c1.toNat ≤ 0x8F) →
      0x80 ≤ c2.toNat → c2.toNat ≤ 0xBF → 0x80 ≤ c3.toNat → c3.toNat ≤ 0xBF →
      Rune [c0, c1, c2, c3] ((c0.toNat - 0xF0) * 262144 + (c1.toNat - 0x80) * 4096 + (c2.toNat - 0x80) * 64 + (c3.toNat - 0x80))

/-- Text of characters that are printable, and of those of ASCII that have an escape with a letter. -/
inductive PrintableText (isPrint : Nat → Bool) : Str → Prop
  | nil : PrintableText isPrint []
  | ascii {c x} : (32 ≤ c ∧ c ≤ 126) ∨ (7 ≤ c ∧ c ≤ 13) → PrintableText isPrint x → PrintableText isPrint (c :: x)
  | rune {src r x} : Rune src r → isPrint r = true → PrintableText isPrint x → PrintableText isPrint (src ++ x)

/-- What is used of Go's `%q`: what it does with text of some kind. -/
def QuotesPlain (text : Str → Prop) (quote : Str → Str) : Prop := ∀ x, text x → quote x = 34 :: (x.flatMap quotedByte ++ [34])

mutual
/-- What needs no parentheses anywhere: names, literals, back references with a default, and what is printed in parentheses, which are
sequences (but not of one term) and look-aheads. -/
inductive PrintsAtom (text : Str → Prop) : Term → Prop
  | rule {r} : Lexeme Core.ident r → PrintsAtom text (.rule r)
  | s {x} : text x → PrintsAtom text (.s x)
  | ref {i x} : Lexeme Core.ident i → text x → PrintsAtom text (.ref i (some (.s x)))
  | seq {ts} : ts.length ≠ 1 → PrintsItems text ts → PrintsAtom text (.seq ts)
  | look {t} : PrintsTerm text t → PrintsAtom text (.look t)
/-- Atoms with or without a name. -/
inductive PrintsNamed (text : Str → Prop) : Term → Prop
  | plain {t} : PrintsAtom text t → PrintsNamed text t
  | named {i t} : Lexeme Core.ident i → PrintsAtom text t → PrintsNamed text (.named i t)
/-- The same, maybe with one quantifier. -/
inductive PrintsItem (text : Str → Prop) : Term → Prop
  | plain {t} : PrintsNamed text t → PrintsItem text t
  | quant {t lo hi} : PrintsNamed text t → ¬ (lo = 1 ∧ hi = 1) → lo < 2 ^ 63 → hi < 2 ^ 63 → PrintsItem text (.quant t lo hi)
  | delim {t sep a cs ce} : PrintsNamed text t → PrintsNamed text sep → a = leftToRight ∨ a = rightToLeft ∨ a = nonAssociative →
      PrintsItem text (.delim t sep a cs ce)
inductive PrintsItems (text : Str → Prop) : List Term → Prop
  | nil : PrintsItems text []
  | cons {t ts} : PrintsItem text t → PrintsItems text ts → PrintsItems text (t :: ts)
/-- The same, or alternatives: two at least. -/
inductive PrintsChoice (text : Str → Prop) : Term → Prop
  | item {t} : PrintsItem text t → PrintsChoice text t
  | oneof {ts} : 2 ≤ ts.length → PrintsItems text ts → PrintsChoice text (.oneof ts)
inductive PrintsChoices (text : Str → Prop) : List Term → Prop
  | nil : PrintsChoices text []
  | cons {t ts} : PrintsChoice text t → PrintsChoices text ts → PrintsChoices text (t :: ts)
/-- The same, or a stack of two layers at least, or with a grammar in braces. -/
inductive PrintsTerm (text : Str → Prop) : Term → Prop
  | choice {t} : PrintsChoice text t → PrintsTerm text t
  | stack {ts} : 2 ≤ ts.length → PrintsChoices text ts → PrintsTerm text (.stack ts)
  | scope {t g} : PrintsChoice text t → PrintsGrammar text g → PrintsTerm text (.scope t g)
/-- Grammars of two rules at least. -/
inductive PrintsGrammar (text : Str → Prop) : Grammar → Prop
  | mk {g : Grammar} : 2 ≤ g.length → g.Distinct → PrintsDefs text g → PrintsGrammar text g
inductive PrintsDefs (text : Str → Prop) : Grammar → Prop
  | nil : PrintsDefs text []
  | cons {k t g} : Lexeme Core.ident k → PrintsTerm text t → PrintsDefs text g → PrintsDefs text ((k, t) :: g)
end

/-- Terms whose text is asked for in vain: an item that is to occur from once to once, in a sequence, alternatives, a stack or
a cut point (`fmt`, by which the others have their parts written, catches the panic). -/
inductive Breaks : Term → Prop
  | quant {t} : Breaks (.quant t 1 1)
  | seq {t ts} : t ∈ ts → Breaks t → Breaks (.seq ts)
  | oneof {t ts} : t ∈ ts → Breaks t → Breaks (.oneof ts)
  | stack {t ts} : t ∈ ts → Breaks t → Breaks (.stack ts)
  | cut {t} : Breaks t → Breaks (.cut t)

end Wbnf

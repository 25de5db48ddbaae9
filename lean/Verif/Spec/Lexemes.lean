import Verif.Spec.Core
import Verif.Spec.Literal
import Verif.Model.Syntax
import Verif.Spec.Spells

/-!
# The tokens of wbnf sources, and sources made of them
-/

namespace Wbnf

/-- A letter or underscore, then letters, digits and underscores. -/
def NameText (x : Str) : Prop :=
  (∀ c ∈ x, (48 ≤ c ∧ c ≤ 57) ∨ (65 ≤ c ∧ c ≤ 90) ∨ c = 95 ∨ (97 ≤ c ∧ c ≤ 122)) ∧
  ∃ c w, x = c :: w ∧ ¬ (48 ≤ c ∧ c ≤ 57)

/-- Text between quotes `q`: a backslash takes the next byte with it, unless that is the end of the line. -/
inductive QuotedBody (q : UInt8) : Str → Prop
  | nil : QuotedBody q []
  | plain {c x} : c ≠ 92 → c ≠ q → QuotedBody q x → QuotedBody q (c :: x)
  | escape {c x} : c ≠ 10 → QuotedBody q x → QuotedBody q (92 :: c :: x)

/-- `Token t x`: the literal or regexp `t` of the grammar of grammars matches the text `x` (for regexps: a text like `x`). -/
inductive Token : Term → Str → Prop
  | lit {l} : Token (.s l) l
  | anonymous : Token Core.ident (str "@")
  | name {x} : NameText x → Token Core.ident x
  | dotted {x} : NameText x → Token Core.ident (46 :: x)
  | int {x} : x ≠ [] → (∀ c ∈ x, 48 ≤ c ∧ c ≤ 57) → Token Core.int x
  /-- in quotes `"` or `'` -/
  | quoted {q body} : q = 34 ∨ q = 39 → QuotedBody q body → Token Core.strLit (q :: body ++ [q])
  /-- in backquotes, with those of the text doubled -/
  | backquoted {text} : Token Core.strLit (96 :: doubled text ++ [96])
  | braced {body} : Token Core.regexpLit (str "/{" ++ body ++ str "}")
  /-- a regexp that starts with `[`, `.`, `^` or `$` -/
  | bare {c x} : c = 91 ∨ c = 46 ∨ c = 94 ∨ c = 36 → Token Core.regexpLit (c :: x)
  /-- or with a backslash and a letter -/
  | escaped {c x} : (65 ≤ c ∧ c ≤ 90) ∨ (97 ≤ c ∧ c ≤ 122) → Token Core.regexpLit (92 :: c :: x)
  | line {x} : 10 ∉ x → Token Core.comment (str "//" ++ x)
  /-- a single character (of one to four bytes), before it any number of stars -/
  | block {k x} : x ≠ [] → x.length ≤ 4 → 42 ∉ x → Token Core.comment (str "/*" ++ List.replicate k 42 ++ x ++ str "*/")
  | path {x} : x ≠ [] → (∀ c ∈ x, (46 ≤ c ∧ c ≤ 58 ∧ c ≠ 47) ∨ (65 ≤ c ∧ c ≤ 90) ∨ (97 ≤ c ∧ c ≤ 122)) →
      Token (Core.re "[a-zA-Z0-9.:]+") x
  | any : Token (Core.re "[?*+]") (str "*")
  | opt : Token (Core.re "[?*+]") (str "?")
  | some : Token (Core.re "[?*+]") (str "+")
  | plain : Token (Core.re "<:|:>?") (str ":")
  | left : Token (Core.re "<:|:>?") (str ":>")
  | right : Token (Core.re "<:|:>?") (str "<:")

namespace Core

/-- The regexp of a leaf as it is written in the grammar. -/
def own : Term → Str
  | .s l => quoteMeta l
  | .re l => l
  | _ => []

/-- All literals and regexps of leaves. -/
def leaves : List Term := literals.map s ++ regexps

/-- The engine matches with the regexp of a leaf such a token, with white space before and after it, and reports the token as
the last group. -/
def EngineReads (E : Engine) : Prop :=
  ∀ t ∈ leaves, ∀ x locs, E.find (pattern (own t)) x = Option.some locs → ∃ before text after rest : Str,
    x = before ++ text ++ after ++ rest ∧ White before ∧ White after ∧ Token t text ∧
    locs.head? = Option.some (0, ((before.length + text.length + after.length : Nat) : Int)) ∧
    locs.getLast? = Option.some ((before.length : Int), ((before.length + text.length : Nat) : Int))

end Core

/-! ## Sources made of tokens -/

mutual
/-- Identifiers, literals, numbers and operators are tokens of their kind; a term or production is not empty; there are
braces only at the end of a sequence or in `a { … } > b { … }`. -/
def TermN.Lexed : TermN → Prop
  | .many op gs ts => ts ≠ [] ∧ (op = [] ∧ gs.length ≤ 1 ∨ op = str ">" ∨ op = str "|" ∧ gs = []) ∧ lexedGrammars gs ∧ lexedTerms ts
  | .one n qs => n.Lexed ∧ lexedQuants qs
def NamedN.Lexed : NamedN → Prop
  | .mk i a => (∀ x, i = some x → Token Core.ident x) ∧ a.Lexed
def AtomN.Lexed : AtomN → Prop
  | .ident i => Token Core.ident i
  | .str x => Token Core.strLit x
  | .re x => Token Core.regexpLit x
  | .macrocall m ts => Token Core.ident m ∧ lexedTerms ts
  | .ext i => Token Core.ident i
  | .ref i d => Token Core.ident i ∧ ∀ x, d = some x → Token Core.strLit x
  | .look t => t.Lexed
  | .term t => t.Lexed
  | .unit => True
def QuantN.Lexed : QuantN → Prop
  | .op o => Token (Core.re "[?*+]") o
  | .range lo hi => (∀ x, lo = some x → Token Core.int x) ∧ ∀ x, hi = some x → Token Core.int x
  | .sep o _ _ n => Token (Core.re "<:|:>?") o ∧ n.Lexed
def StmtN.Lexed : StmtN → Prop
  | .comment x => Token Core.comment x
  | .prod i ts => Token Core.ident i ∧ ts ≠ [] ∧ lexedTerms ts
  | .imp p => p ≠ [] ∧ ∀ x ∈ p, x = str "/" ∨ x = str "." ∨ x = str ".." ∨ Token (Core.re "[a-zA-Z0-9.:]+") x
  | .macrodef m as t => Token Core.ident m ∧ (∀ a ∈ as, Token Core.ident a) ∧ t.Lexed
def GrammarN.Lexed : GrammarN → Prop
  | .mk ss => ss ≠ [] ∧ lexedStmts ss
def lexedTerms : List TermN → Prop
  | [] => True
  | t :: ts => t.Lexed ∧ lexedTerms ts
def lexedQuants : List QuantN → Prop
  | [] => True
  | q :: qs => q.Lexed ∧ lexedQuants qs
def lexedStmts : List StmtN → Prop
  | [] => True
  | s :: ss => s.Lexed ∧ lexedStmts ss
def lexedGrammars : List GrammarN → Prop
  | [] => True
  | g :: gs => g.Lexed ∧ lexedGrammars gs
end

end Wbnf

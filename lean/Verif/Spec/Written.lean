import Verif.Spec.Lexemes

/-!
# Texts that are written in the notation of wbnf

Words one after the other, the words that are single tokens wherever they stand, and sources that are made of them.
-/

namespace Wbnf

/-- Letters, digits and the underscore. -/
def NameByte (c : UInt8) : Prop := (48 ≤ c ∧ c ≤ 57) ∨ (65 ≤ c ∧ c ≤ 90) ∨ c = 95 ∨ (97 ≤ c ∧ c ≤ 122)

/-- The signs that, next to each other, are the beginning of another token: `` `` ``, `(?`, `%%`, `%!`, `:>`, `<:`, `->`, `//`,
`/*`, `/{`, `.i`, `.m` and `..`. -/
def tokenPairs : List (UInt8 × UInt8) :=
  [(96, 96), (40, 63), (37, 37), (37, 33), (58, 62), (60, 58), (45, 62), (47, 47), (47, 42), (47, 123), (46, 105), (46, 109), (46, 46)]

/-- The text may come right after the word: where they meet, there are not two letters, digits or underscores, nor one and a
dot, nor two signs that are the beginning of another token; it does not go on with a regexp that has no braces around it; and a comment `//…` ends
with its line. -/
def MayFollow (w x : Str) : Prop :=
  ∀ c d, w.getLast? = some c → x.head? = some d → ¬ (NameByte c ∧ (NameByte d ∨ d = 46)) ∧ (c, d) ∉ tokenPairs ∧
    ¬ ((∃ b ∈ str "[\\^$", w.head? = some b) ∧ d ∈ str "[\\^$.+*?{") ∧ (str "//" <+: w → d = 10)

/-- The text is made of these words, in this order, with any white space before, between and after them; some may touch. -/
inductive LaidOut : List Str → Str → Prop
  | nil {x} : White x → LaidOut [] x
  | cons {before w ws x} : White before → MayFollow w x → LaidOut ws x → LaidOut (w :: ws) (before ++ w ++ x)

/-- What is between the brackets of a class in a regexp: characters other than brackets; a backslash takes the next byte with it,
unless that is the end of the line. -/
inductive ClassBody : Str → Prop
  | nil : ClassBody []
  | plain {c x} : c ≠ 91 → c ≠ 92 → c ≠ 93 → ClassBody x → ClassBody (c :: x)
  | escape {c x} : c ≠ 10 → ClassBody x → ClassBody (92 :: c :: x)

def Digits (x : Str) : Prop := ∀ c ∈ x, 48 ≤ c ∧ c ≤ 57

/-- What is between the braces of a quantifier in a regexp: a number, or two with a comma, of which one may be missing. -/
inductive PatternCount : Str → Prop
  | exactly {a} : a ≠ [] → Digits a → PatternCount a
  | atLeast {a b} : a ≠ [] → Digits a → Digits b → PatternCount (a ++ 44 :: b)
  | atMost {b} : b ≠ [] → Digits b → PatternCount (44 :: b)

/-- What is between the braces of a regexp `/{…}`: characters other than brackets, braces and backslashes; a backslash takes
the next byte with it, unless that is the end of the line; classes `[…]`; numbers in braces; and opening braces that no number
or comma follows. -/
inductive PatternBody : Str → Prop
  | nil : PatternBody []
  | plain {c x} : c ≠ 91 → c ≠ 92 → c ≠ 123 → c ≠ 125 → PatternBody x → PatternBody (c :: x)
  | escape {c x} : c ≠ 10 → PatternBody x → PatternBody (92 :: c :: x)
  | cls {y x} : y ≠ [] → ClassBody y → PatternBody x → PatternBody (91 :: (y ++ 93 :: x))
  | count {y x} : PatternCount y → PatternBody x → PatternBody (123 :: (y ++ 125 :: x))
  | brace {x} : (∀ c, x.head? = some c → ¬ (48 ≤ c ∧ c ≤ 57) ∧ c ≠ 44) → PatternBody x → PatternBody (123 :: x)

/-- The regexps that need no braces around them: classes, a letter (other than `p` and `P`) after a backslash, `.`, `^` and `$`. -/
inductive PatternUnit : Str → Prop
  | cls {y} : y ≠ [] → ClassBody y → PatternUnit (91 :: (y ++ [93]))
  | letter {c} : (65 ≤ c ∧ c ≤ 90) ∨ (97 ≤ c ∧ c ≤ 122) → c ≠ 80 → c ≠ 112 → PatternUnit [92, c]
  | sign {c} : c ∈ str ".^$" → PatternUnit [c]

/-- What may come after them. -/
inductive PatternQuant : Str → Prop
  | once : PatternQuant []
  | greedy {c} : c ∈ str "+*?" → PatternQuant [c]
  | reluctant {c} : c ∈ str "+*?" → PatternQuant [c, 63]

/-- Such regexps one after the other. -/
inductive BarePattern : Str → Prop
  | one {u q} : PatternUnit u → PatternQuant q → BarePattern (u ++ q)
  | more {u q x} : PatternUnit u → PatternQuant q → BarePattern x → BarePattern (u ++ q ++ x)

/-- A regexp as it is written; without braces it must not begin with `.`. -/
def PatternText (w : Str) : Prop := (∃ body, PatternBody body ∧ w = str "/{" ++ body ++ str "}") ∨ (BarePattern w ∧ w.head? ≠ some 46)

/-- The comments `/*…*/` that the code reads: with one character (here of ASCII), before it any number of stars. -/
def BlockText (w : Str) : Prop := ∃ k c, c < 128 ∧ c ≠ 42 ∧ (0 < k → c ≠ 47) ∧ w = str "/*" ++ List.replicate k 42 ++ [c] ++ str "*/"

/-- A part of a path that begins and ends with a letter or digit, so not with a dot or colon. -/
def PathName (w : Str) : Prop := (∀ c, w.head? = some c → NameByte c) ∧ ∀ c, w.getLast? = some c → NameByte c

/-- A token that ends where it ends, whatever comes after it that may. -/
def Lexeme (t : Term) (w : Str) : Prop :=
  Token t w ∧ (t ≠ Core.re "[a-zA-Z0-9.:]+" ∨ PathName w) ∧ (t = Core.regexpLit → PatternText w) ∧ (t = Core.comment → str "//" <+: w ∨ BlockText w)

/-- The engine finds such a token with the regexp of its kind, if it is first in the text and what follows may. All white space
around it is taken with it. (A part of a path has no colon after it.) -/
def Core.EngineFinds (E : Engine) : Prop :=
  ∀ t ∈ leaves, ∀ w, Lexeme t w → ∀ before after rest : Str, White before → White after → MayFollow w (after ++ rest) →
    (∀ c, rest.head? = Option.some c → ¬ White [c]) → (t = re "[a-zA-Z0-9.:]+" → (after ++ rest).head? ≠ Option.some 58) →
    ∃ locs, E.find (pattern (own t)) (before ++ w ++ after ++ rest) = Option.some locs ∧
      locs.head? = Option.some ((0 : Int), ((before.length + w.length + after.length : Nat) : Int)) ∧
      locs.getLast? = Option.some ((before.length : Int), ((before.length + w.length : Nat) : Int))

/-- `a:","` without a comma after it. -/
def QuantN.hangs : QuantN → Bool
  | .sep _ _ trail _ => !trail
  | _ => false

def hangQuants : List QuantN → Bool
  | [] => false
  | [q] => q.hangs
  | _ :: q :: qs => hangQuants (q :: qs)

mutual
/-- A comma after the term would be part of it: it ends with `a:","`. -/
def TermN.hangs : TermN → Bool
  | .many _ _ ts => hangTerms ts
  | .one _ qs => hangQuants qs
def hangTerms : List TermN → Bool
  | [] => false
  | t :: ts => match ts with
    | [] => t.hangs
    | _ :: _ => hangTerms ts
end

/-- One layer with a grammar in braces after it. -/
def TermN.braced : TermN → Bool
  | .many [] [_] _ => true
  | _ => false

mutual
/-- Identifiers, literals, regexps, numbers, operators and comments are such tokens of their kind. Paths are made of such names,
dots and slashes. Terms that have
another one after them, on the right-hand side of a production, end with braces; arguments of macros do not end with `a:","`.
There are no macros and imports (`full = false`) or there may be. -/
def TermN.Ordinary (full : Bool) : TermN → Prop
  | .many _ gs ts => ordinaryGrammars full gs ∧ ordinaryTerms full ts
  | .one n qs => n.Ordinary full ∧ ordinaryQuants full qs
def NamedN.Ordinary (full : Bool) : NamedN → Prop
  | .mk i a => (∀ x, i = some x → Lexeme Core.ident x) ∧ a.Ordinary full
def AtomN.Ordinary (full : Bool) : AtomN → Prop
  | .ident i => Lexeme Core.ident i
  | .str x => Lexeme Core.strLit x
  | .re x => Lexeme Core.regexpLit x
  | .macrocall m ts => full = true ∧ Lexeme Core.ident m ∧ (∀ t ∈ ts, t.hangs = false) ∧ ordinaryTerms full ts
  | .ext i => Lexeme Core.ident i
  | .ref i d => Lexeme Core.ident i ∧ ∀ x, d = some x → Lexeme Core.strLit x
  | .look t => t.Ordinary full
  | .term t => t.Ordinary full
  | .unit => True
def QuantN.Ordinary (full : Bool) : QuantN → Prop
  | .op o => Lexeme (Core.re "[?*+]") o
  | .range lo hi => (∀ x, lo = some x → Lexeme Core.int x) ∧ ∀ x, hi = some x → Lexeme Core.int x
  | .sep o _ _ n => Lexeme (Core.re "<:|:>?") o ∧ n.Ordinary full
def StmtN.Ordinary (full : Bool) : StmtN → Prop
  | .prod i ts => Lexeme Core.ident i ∧ (∀ t ∈ ts.dropLast, t.braced = true) ∧ ordinaryTerms full ts
  | .macrodef m as t => full = true ∧ Lexeme Core.ident m ∧ (∀ a ∈ as, Lexeme Core.ident a) ∧ t.Ordinary full
  | .comment x => Lexeme Core.comment x
  | .imp p => full = true ∧ ∀ x ∈ p, x = str "/" ∨ x = str "." ∨ x = str ".." ∨ Lexeme (Core.re "[a-zA-Z0-9.:]+") x
def GrammarN.Ordinary (full : Bool) : GrammarN → Prop
  | .mk ss => ordinaryStmts full ss
def ordinaryTerms (full : Bool) : List TermN → Prop
  | [] => True
  | t :: ts => t.Ordinary full ∧ ordinaryTerms full ts
def ordinaryQuants (full : Bool) : List QuantN → Prop
  | [] => True
  | q :: qs => q.Ordinary full ∧ ordinaryQuants full qs
def ordinaryStmts (full : Bool) : List StmtN → Prop
  | [] => True
  | s :: ss => s.Ordinary full ∧ ordinaryStmts full ss
def ordinaryGrammars (full : Bool) : List GrammarN → Prop
  | [] => True
  | g :: gs => g.Ordinary full ∧ ordinaryGrammars full gs
end

end Wbnf

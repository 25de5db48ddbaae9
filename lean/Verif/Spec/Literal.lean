import Verif.Model.Basic

/-!
# What literals in a wbnf source are meant to denote
-/

namespace Wbnf

/-- The letter of an escape and the byte it stands for; `q` is the quote of the literal. -/
def escapes (q : UInt8) : List (UInt8 × UInt8) :=
  [(97, 7), (98, 8), (102, 12), (110, 10), (114, 13), (116, 9), (118, 11), (92, 92), (39, 39), (q, q)]

/-- The text between the quotes denotes the bytes: bytes stand for themselves, a backslash and a letter for
the byte of the table. -/
inductive Spells (q : UInt8) : Str → Str → Prop
  | nil : Spells q [] []
  | plain {c body text} : c ≠ 92 → Spells q body text → Spells q (c :: body) (c :: text)
  | escape {e c body text} : (e, c) ∈ escapes q → Spells q body text → Spells q (92 :: e :: body) (c :: text)

/-- As `Spells`, with what the reader makes of octal escapes: the byte, and then the third digit once more. -/
inductive Reads (q : UInt8) : Str → Str → Prop
  | nil : Reads q [] []
  | plain {c body text} : c ≠ 92 → Reads q body text → Reads q (c :: body) (c :: text)
  | escape {e c body text} : (e, c) ∈ escapes q → Reads q body text → Reads q (92 :: e :: body) (c :: text)
  | octal {i j k : Nat} {body text} : i ≤ 1 → j ≤ 7 → k ≤ 7 → Reads q body text →
      Reads q (92 :: UInt8.ofNat (48 + i) :: UInt8.ofNat (48 + j) :: UInt8.ofNat (48 + k) :: body)
        (UInt8.ofNat (64 * i + 8 * j + k) :: UInt8.ofNat (48 + k) :: text)

/-- Write text between quotes: backslashes and the quote are escaped. -/
def quoted (q : UInt8) : Str → Str
  | [] => []
  | c :: s => if c = 92 ∨ c = q then 92 :: c :: quoted q s else c :: quoted q s

/-- Write text between backquotes: backquotes are doubled. -/
def doubled : Str → Str
  | [] => []
  | c :: s => if c = 96 then 96 :: 96 :: doubled s else c :: doubled s

/-- A regexp with `\_` for a space: read from the left, a backslash takes the next byte with it; with `_` it
stands for a space. -/
def withSpaces : Str → Str
  | 92 :: 95 :: s => 32 :: withSpaces s
  | 92 :: c :: s => 92 :: c :: withSpaces s
  | c :: s => c :: withSpaces s
  | [] => []

end Wbnf

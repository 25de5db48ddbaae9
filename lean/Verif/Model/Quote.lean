import Verif.Model.Basic

/-!
# Model of `%q`

`strconv.Quote` of Go's standard library (`appendQuotedWith` and `appendEscapedRune` in strconv/quote.go, for `"`, without
`ASCIIonly` and `graphicOnly`), which ast/node_string.go:67, parser/scanner.go:65 and
parser/terms.go:212 use by way of `%q`.
`strconv.IsPrint` is a parameter: a set of characters. The standard library is not in /repo: this follows its source as of Go 1.19
(earlier versions write the byte 0x7f as `\u007f`).
-/

namespace Wbnf

/-- A byte that goes on a character. -/
def isCont (c : UInt8) : Bool := 0x80 ≤ c && c ≤ 0xBF

/-- What may follow the first byte of a character of three bytes. -/
def isThree (c d : UInt8) : Bool :=
  (c = 0xE0 && 0xA0 ≤ d && d ≤ 0xBF) || (0xE1 ≤ c && c ≤ 0xEF && c ≠ 0xED && isCont d) || (c = 0xED && 0x80 ≤ d && d ≤ 0x9F)

/-- What may follow the first byte of a character of four bytes. -/
def isFour (c d : UInt8) : Bool :=
  (c = 0xF0 && 0x90 ≤ d && d ≤ 0xBF) || (0xF1 ≤ c && c ≤ 0xF3 && isCont d) || (c = 0xF4 && 0x80 ≤ d && d ≤ 0x8F)

/-- `utf8.DecodeRuneInString` for a text that begins with a byte of 0x80 or more: the character and its width; `none` for an invalid
beginning, for which Go gives `RuneError` and 1. -/
def nextRune : Str → Option (Nat × Nat)
  | c0 :: c1 :: s =>
    if 0xC2 ≤ c0 && c0 ≤ 0xDF && isCont c1 then some ((c0.toNat - 0xC0) * 64 + (c1.toNat - 0x80), 2)
    else match s with
      | c2 :: s =>
        if isThree c0 c1 && isCont c2 then
          some ((c0.toNat - 0xE0) * 4096 + (c1.toNat - 0x80) * 64 + (c2.toNat - 0x80), 3)
        else match s with
          | c3 :: _ =>
            if isFour c0 c1 && isCont c2 && isCont c3 then
              some ((c0.toNat - 0xF0) * 262144 + (c1.toNat - 0x80) * 4096 + (c2.toNat - 0x80) * 64 + (c3.toNat - 0x80), 4)
            else none
          | [] => none
      | [] => none
  | _ => none

/-- `lowerhex[n]`. -/
def lowerhex (n : Nat) : UInt8 := if n < 10 then UInt8.ofNat (48 + n) else UInt8.ofNat (87 + n)

/-- The last `k` hexadecimal digits of a number. -/
def hexDigits : Nat → Nat → Str
  | 0, _ => []
  | k + 1, n => hexDigits k (n / 16) ++ [lowerhex (n % 16)]

/-- `appendEscapedRune`, for the character `r` with the bytes `src`. (`utf8.AppendRune` writes the bytes that `r` was decoded from.) -/
def escapedRune (isPrint : Nat → Bool) (r : Nat) (src : Str) : Str :=
  if r = 34 || r = 92 then 92 :: src
  else if isPrint r then src
  else if r = 7 then [92, 97]
  else if r = 8 then [92, 98]
  else if r = 12 then [92, 102]
  else if r = 10 then [92, 110]
  else if r = 13 then [92, 114]
  else if r = 9 then [92, 116]
  else if r = 11 then [92, 118]
  else if r < 32 || r = 0x7f then 92 :: 120 :: hexDigits 2 r
  else if r < 0x10000 then 92 :: 117 :: hexDigits 4 r
  else 92 :: 85 :: hexDigits 8 r

/-- The loop of `appendQuotedWith`; the number is how many bytes are left of a character that was written. -/
def quoteBody (isPrint : Nat → Bool) : Nat → Str → Str
  | _, [] => []
  | k + 1, _ :: s => quoteBody isPrint k s
  | 0, c :: s =>
    if c < 0x80 then escapedRune isPrint c.toNat [c] ++ quoteBody isPrint 0 s
    else match nextRune (c :: s) with
      | some (r, w) => escapedRune isPrint r ((c :: s).take w) ++ quoteBody isPrint (w - 1) s
      | none => 92 :: 120 :: hexDigits 2 c.toNat ++ quoteBody isPrint 0 s

/-- `strconv.Quote`. -/
def goQuote (isPrint : Nat → Bool) (s : Str) : Str := 34 :: (quoteBody isPrint 0 s ++ [34])

end Wbnf

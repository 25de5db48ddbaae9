import Verif.Model.Parse

/-!
# Model of the texts that show where a scanner is
-/

namespace Wbnf

/-- parser/scanner.go:85-110 `Scanner.Context`, the whole text. (Line and column are positive, `C28_position`.) -/
def Scanner.contextText (s : Scanner) (limitLines : Int) : Option Str :=
  match s.filename, s.position, s.context limitLines with
  | some f, some (l, c), some (above, mid, below) =>
    some (str "\n\x1b[1;37m" ++ f ++ str ":" ++ decimal l.toNat ++ str ":" ++ decimal c.toNat ++ str ":\x1b[0m\n" ++ above ++ str "\x1b[1;31m" ++ mid
      ++ str "\x1b[0m" ++ below)
  | _, _, _ => none

/-- parser/error.go:93-95 `UnconsumedInputError.Error`, with parser/scanner.go:73 `DefaultLimit`. -/
def unconsumedText (residue : Scanner) : Option Str := (residue.contextText 1).map fun x => str "unconsumed input\n " ++ x

/-- parser/parser.go:187-194 `getErrorStrings`; `strings.TrimSpace` is a parameter. -/
def errorStrings (trim : Str → Str) (inp : Scanner) : Option Str :=
  inp.toStr.bind fun t =>
    let text := trim t
    let text := if text.length > 40 then text.take 40 ++ str "  ..." else text
    (newScanner text).contextText 1

end Wbnf

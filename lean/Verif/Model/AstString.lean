import Verif.Model.AstQuery
import Verif.Model.Codegen

/-!
# Model of ast/node_string.go: the `String` methods
-/

namespace Wbnf

/-- The UTF-8 bytes of `‣` (node_string.go:64). -/
def bullet : Str := [0xe2, 0x80, 0xa3]

/-- Go `fmt.Sprintf("%d", i)`. -/
def intDecimal : Int → Str
  | .ofNat n => decimal n
  | .negSucc n => 45 :: decimal (n + 1)

/-- node_string.go:58 `specialCharRE`, one byte: control characters and ``:,'`(){}[]``. All of them are ASCII, so the regexp matches a string just
when a byte of it is one of these. -/
def isSpecial (c : UInt8) : Bool := c < 32 || c = 127 || [58, 44, 39, 96, 40, 41, 123, 125, 91, 93].contains c

/-- Go `strings.ReplaceAll(s, string(c), by)`. -/
def replaceByte (c : UInt8) (by' : Str) (s : Str) : Str := s.flatMap fun d => if d = c then by' else [d]

/-- node_string.go:60-74 `Leaf.String`; `none` is a panic of `Scanner.String`. `quote` is `%q`, Go's `strconv.Quote`. -/
def leafString (quote : Str → Str) (s : Scanner) : Option Str :=
  s.toStr.map fun t =>
    intDecimal s.start ++ bullet ++
      if t.any isSpecial then quote t
      else if t.contains 34 then [96] ++ replaceByte 96 [96, 96] t ++ [96]
      else t

/-- node_string.go:107-109 `Extra.String`, for the data the package makes. -/
def Datum.string : Datum → Str
  | .rule r => r
  | .choice i => decimal i
  | .text s => s

mutual
/-- ast/node.go:153-179 `narrow`. -/
def Ast.narrow : Ast → Bool
  | .leaf _ => true
  | .extra _ => true
  | .branch b => branchNarrow b
def Kids.narrow : Kids → Bool
  | .one n => n.narrow
  | .many ns => manyNarrow ns
def manyNarrow : List Ast → Bool
  | [] => true
  | [n] => n.narrow
  | _ :: _ :: _ => false
def branchNarrow : List (Str × Kids) → Bool
  | [] => true
  | [(_, c)] => c.narrow
  | _ :: _ :: _ => false
end

/-- Items with something between them. -/
def separated (sep : Str) : List Str → Str
  | [] => []
  | s :: ss => s ++ ss.flatMap (sep ++ ·)

/-- node_string.go:20-56 `Many.String`, from the strings of its nodes. -/
def manyString (complex : Bool) (ss : List Str) : Str :=
  let pre : Str := if complex then [32, 32] else []
  [91] ++ (if complex then 10 :: pre else []) ++
  separated (if complex then [44, 10] ++ pre else [44, 32]) (ss.map (replaceByte 10 (10 :: pre))) ++
  (if complex then [44, 10] else []) ++ [93]

/-- node_string.go:76-105 `Branch.String`, from the strings of its children. -/
def branchString (es : List (Str × Str)) : Str :=
  let pre : Str := if 1 < es.length then [32, 32] else []
  let items := (sortStrings (es.map (·.1))).map fun name =>
    (if name = [] then [39, 39] else name) ++ [58, 32] ++ replaceByte 10 (10 :: pre) ((lookup name es).getD [])
  [40] ++ (if 1 < es.length then [10, 32, 32] else []) ++ separated [44, 10, 32, 32] items ++ (if 1 < es.length then [44, 10] else []) ++ [41]

mutual
/-- ast/node_string.go `String`; `none` is a panic. -/
def Ast.string (quote : Str → Str) : Ast → Option Str
  | .leaf s => leafString quote s
  | .extra d => some d.string
  | .branch b => (entryStrings quote b).map branchString
def Kids.string (quote : Str → Str) : Kids → Option Str
  | .one n => n.string quote
  | .many ns => (astStrings quote ns).map (manyString (1 < ns.length && ns.any (!·.narrow)))
def astStrings (quote : Str → Str) : List Ast → Option (List Str)
  | [] => some []
  | n :: ns =>
    match n.string quote, astStrings quote ns with
    | some s, some ss => some (s :: ss)
    | _, _ => none
def entryStrings (quote : Str → Str) : List (Str × Kids) → Option (List (Str × Str))
  | [] => some []
  | (name, c) :: b =>
    match c.string quote, entryStrings quote b with
    | some s, some es => some ((name, s) :: es)
    | _, _ => none
end

end Wbnf

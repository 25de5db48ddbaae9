import Verif.Model.Basic

/-!
# Model of parser/scanner.go

A function that may panic in Go returns `Option`; `none` is the panic.
-/

namespace Wbnf

/-- parser/scanner.go:23-26 `stringSource` (the only implementation of `source`). -/
structure Source where
  origin : Str
  f : Str
  deriving DecidableEq, Repr

/-- parser/scanner.go:10-14 `Scanner`. `src = none` is the nil interface of a zero `Scanner`.
Go `int` is modelled by unbounded `Int`. -/
structure Scanner where
  src : Option Source
  start : Int
  len : Int
  deriving DecidableEq, Repr

/-- The zero value `Scanner{}`. -/
def Scanner.zero : Scanner := ⟨none, 0, 0⟩

/-- parser/scanner.go:28-30 `NewScanner`. -/
def newScanner (s : Str) : Scanner := ⟨some ⟨s, []⟩, 0, s.length⟩

/-- parser/scanner.go:32-34 `NewScannerWithFilename`. -/
def newScannerWithFilename (s filename : Str) : Scanner := ⟨some ⟨s, filename⟩, 0, s.length⟩

/-- parser/scanner.go:36-38 `NewScannerAt`. -/
def newScannerAt (s : Str) (offset size : Int) : Scanner := ⟨some ⟨s, []⟩, offset, size⟩

/-- parser/scanner.go:221-227 `stringSource.slice`. Out of range offsets give the entire source;
an in-range start with a negative length makes the Go slice expression panic. -/
def Source.slice (s : Source) (i length : Int) : Option Str :=
  if i < 0 ∨ i + length < 0 ∨ i > s.origin.length ∨ i + length > s.origin.length then
    some s.origin
  else if length < 0 then none
  else some ((s.origin.drop i.toNat).take length.toNat)

/-- parser/scanner.go:217-219 `stringSource.length`. -/
def Source.length (s : Source) : Int := s.origin.length

/-- parser/scanner.go:212-215 `stringSource.stripSource`. -/
def Source.stripSource (s : Source) (offset size : Int) : Option Source :=
  (s.slice offset size).map fun o => { s with origin := o }

/-- parser/scanner.go:123-125 `Scanner.slice` (nil source: panic). -/
def Scanner.slice (s : Scanner) : Option Str :=
  match s.src with
  | none => none
  | some src => src.slice s.start s.len

/-- parser/scanner.go:52-57 `Scanner.String`. -/
def Scanner.toStr (s : Scanner) : Option Str :=
  match s.src with
  | none => some []
  | some _ => s.slice

/-- parser/scanner.go:42-45 `Scanner.StripSource`. -/
def Scanner.stripSource (s : Scanner) : Option Scanner :=
  match s.src with
  | none => none
  | some src => (src.stripSource s.start s.len).map fun src' => { s with src := some src' }

/-- parser/scanner.go:59-61 `Scanner.IsNil`. -/
def Scanner.isNil (s : Scanner) : Bool := s.src.isNone

/-- parser/scanner.go:48-50 `Scanner.Filename` (nil source: panic). -/
def Scanner.filename (s : Scanner) : Option Str := s.src.map (·.f)

/-- parser/scanner.go:76-83 `Scanner.Contains` (nil source on either side: panic). -/
def Scanner.contains (s sn : Scanner) : Option Bool :=
  match s.src, sn.src with
  | some a, some b =>
    if a.f ≠ b.f ∨ a ≠ b then some false
    else some (decide (s.start ≤ sn.start ∧ s.start + s.len ≥ sn.start + sn.len))
  | _, _ => none

/-- parser/scanner.go:113-115 `Scanner.Offset`. -/
def Scanner.offset (s : Scanner) : Int := s.start

/-- Go `strings.Count(s, "\n")`. -/
def countNL : Str → Nat
  | [] => 0
  | c :: s => (if c = 10 then 1 else 0) + countNL s

/-- Go `strings.LastIndex(s, "\n")`: index of the last newline or -1. -/
def lastNL : Str → Int
  | [] => -1
  | c :: s =>
    let r := lastNL s
    if 0 ≤ r then r + 1 else if c = 10 then 0 else -1

/-- parser/scanner.go:234-239 `lineColumn`; `str[:pos]` panics when out of range. -/
def lineColumn (s : Str) (pos : Int) : Option (Int × Int) :=
  if pos < 0 ∨ pos > s.length then none
  else
    let pre := s.take pos.toNat
    some ((countNL pre : Int) + 1, pos - lastNL pre)

/-- parser/scanner.go:118-120 `Scanner.Position`. -/
def Scanner.position (s : Scanner) : Option (Int × Int) :=
  match s.src with
  | none => none
  | some src =>
    match src.slice 0 s.start with
    | none => none
    | some t => lineColumn t s.start

/-- Go `strings.Split(s, "\n")`. -/
def splitNL : Str → List Str
  | [] => [[]]
  | c :: s =>
    if c = 10 then [] :: splitNL s
    else match splitNL s with
      | [] => [[c]]
      | l :: ls => (c :: l) :: ls

/-- Go `strings.Join(ls, "\n")`. -/
def joinNL : List Str → Str
  | [] => []
  | [l] => l
  | l :: ls => l ++ 10 :: joinNL ls

/-- parser/scanner.go:92-95: the lines kept above; `a[len(a)-limitLines-1:]` panics out of range. -/
def contextAbove (limitLines : Int) (above : Str) : Option Str :=
  let a := splitNL above
  if (a.length : Int) > limitLines then
    let k : Int := a.length - limitLines - 1
    if k < 0 ∨ k > a.length then none else some (joinNL (a.drop k.toNat))
  else some above

/-- parser/scanner.go:96-99: the lines kept below; `b[:limitLines]` panics out of range. -/
def contextBelow (limitLines : Int) (below : Str) : Option Str :=
  let b := splitNL below
  if (b.length : Int) > limitLines then
    if limitLines < 0 then none else some (joinNL (b.take limitLines.toNat))
  else some below

/-- parser/scanner.go:85-110 `Scanner.Context`: the three pieces of source text shown (text above,
the slice itself, text below); the file name, position and colour codes around them are not
modelled, except that `Position` (line 87) may panic. -/
def Scanner.context (s : Scanner) (limitLines : Int) : Option (Str × Str × Str) :=
  match s.src with
  | none => none
  | some src =>
    let e := s.start + s.len
    match s.position, src.slice 0 s.start, src.slice e (src.length - e), s.slice with
    | some _, some above, some below, some mid =>
      if limitLines ≠ -1 then
        match contextAbove limitLines above, contextBelow limitLines below with
        | some x, some y => some (x, mid, y)
        | _, _ => none
      else some (above, mid, below)
    | _, _, _, _ => none

/-- parser/scanner.go:127-129 `Scanner.Slice`. -/
def Scanner.sub (s : Scanner) (a b : Int) : Scanner := ⟨s.src, s.start + a, b - a⟩

/-- parser/scanner.go:131-133 `Scanner.Skip`. -/
def Scanner.skip (s : Scanner) (i : Int) : Scanner := ⟨s.src, s.start + i, s.len - i⟩

/-- parser/scanner.go:146-156: the loop of `MergeScanners`; `none` is the error return. -/
def mergeLoop (src : Option Source) : Int → Int → List Scanner → Option (Int × Int)
  | l, r, [] => some (l, r)
  | l, r, v :: vs =>
    if v.src ≠ src then none
    else
      let l := if v.start < l then v.start else l
      let r := if v.start + v.len > r then v.start + v.len else r
      mergeLoop src l r vs

/-- parser/scanner.go:135-163 `MergeScanners`; `none` is the error return. -/
def mergeScanners : List Scanner → Option Scanner
  | [] => none
  | [x] => some x
  | x :: xs =>
    match mergeLoop x.src x.start (x.start + x.len) xs with
    | none => none
    | some (l, r) => some ⟨x.src, l, r - l⟩

/-- parser/scanner.go:166-172 `Scanner.Eat`: the eaten scanner and the advanced receiver. -/
def Scanner.eat (s : Scanner) (i : Int) : Scanner × Scanner := (⟨s.src, s.start, i⟩, s.skip i)

/-- parser/scanner.go:174-180 `Scanner.EatString`: outer `none` is a panic (nil source), inner
`none` is `false`. -/
def Scanner.eatString (s : Scanner) (t : Str) : Option (Option (Scanner × Scanner)) :=
  match s.slice with
  | none => none
  | some x => if t.isPrefixOf x then some (some (s.eat t.length)) else some none

/-- Result of `Scanner.EatRegexp`. -/
inductive EatRes
  | panic
  | noMatch
  /-- `n` groups; the whole match; the first captures; the advanced scanner. -/
  | ok (n : Nat) (whole : Scanner) (caps : List Scanner) (rest : Scanner)
  deriving Repr

/-- parser/scanner.go:185-208 `Scanner.EatRegexp`. `find` is `re.FindStringSubmatchIndex`, whose
flat index slice is modelled as a list of pairs (whole match first); `ncap` is `len(captures)`. -/
def Scanner.eatRegexp (s : Scanner) (find : Str → Option (List (Int × Int))) (ncap : Nat) : EatRes :=
  match s.slice with
  | none => .panic
  | some x =>
    match find x with
    | none => .noMatch
    | some [] => .panic
    | some ((a, b) :: groups) =>
      if a ≠ 0 then .panic
      else
        .ok groups.length (s.sub a b)
          ((groups.take ncap).map fun g => s.sub g.1 g.2) (s.skip b)

end Wbnf

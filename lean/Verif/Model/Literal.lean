import Verif.Model.Compile

/-!
# Model of string and regexp literals in wbnf sources

wbnf/compile.go: `parseString`, and the `RE` case of `buildAtom`.
-/

namespace Wbnf

/-- `strings.ReplaceAll(s, "``", "`")`: left to right, without overlap. -/
def undouble : Str → Str
  | 96 :: 96 :: s => 96 :: undouble s
  | c :: s => c :: undouble s
  | [] => []

def isOctal (c : UInt8) : Bool := 48 ≤ c && c ≤ 55

/-- `strconv.ParseInt(s, 8, 8)` of three bytes, the first of which is an octal digit: an error (`none`) for other
bytes and for values over 127. -/
def octal3 (a b c : UInt8) : Option UInt8 :=
  if isOctal b ∧ isOctal c then
    let n := 64 * (a.toNat - 48) + 8 * (b.toNat - 48) + (c.toNat - 48)
    if n ≤ 127 then some (UInt8.ofNat n) else none
  else none

/-- wbnf/compile.go:28-88, the loop of `parseString` after the backquote case. Lines 34-54: `\x`, `\u` and `\U` hand
the letter itself to `ParseInt` in base 16, which fails, or slice past the end: a panic either way. Lines 55-61:
three octal digits are read, two are skipped. Line 33: a backslash at the end indexes out of range. -/
def unescape (quote : UInt8) : Str → Except Stop Str
  | [] => .ok []
  | c :: s =>
    if c = 92 then
      match s with
      | [] => .error .panic
      | e :: s =>
        if e = 120 ∨ e = 117 ∨ e = 85 then .error .panic                            -- 34-54 x u U
        else if isOctal e then                                                      -- 55-61
          match s with
          | b :: c :: s =>
            match octal3 e b c with
            | some n => (unescape quote (c :: s)).bind fun r => .ok (n :: r)
            | none => .error .panic
          | _ => .error .panic
        else if e = 97 then (unescape quote s).bind fun r => .ok (7 :: r)           -- a
        else if e = 98 then (unescape quote s).bind fun r => .ok (8 :: r)           -- b
        else if e = 102 then (unescape quote s).bind fun r => .ok (12 :: r)         -- f
        else if e = 110 then (unescape quote s).bind fun r => .ok (10 :: r)         -- n
        else if e = 114 then (unescape quote s).bind fun r => .ok (13 :: r)         -- r
        else if e = 116 then (unescape quote s).bind fun r => .ok (9 :: r)          -- t
        else if e = 118 then (unescape quote s).bind fun r => .ok (11 :: r)         -- v
        else if e = 92 then (unescape quote s).bind fun r => .ok (92 :: r)          -- \
        else if e = 39 then (unescape quote s).bind fun r => .ok (39 :: r)          -- '
        else if e = quote then (unescape quote s).bind fun r => .ok (quote :: r)
        else .error .panic
    else (unescape quote s).bind fun r => .ok (c :: r)
termination_by s => s.length

/-- wbnf/compile.go:22-90 `parseString`. Line 24 slices out of range if there is only one byte. -/
def parseString : Str → Except Stop Str
  | [] => .error .panic
  | [_] => .error .panic
  | quote :: s => if quote = 96 then .ok (undouble s.dropLast) else unescape quote s.dropLast

/-- `\s` of Go's regexp package: tab, newline, form feed, carriage return, space. -/
def isSpaceRE (c : UInt8) : Bool := c = 9 || c = 10 || c = 12 || c = 13 || c = 32

/-- `(\\\\)*\\_` at the start of the text: what is before the last two bytes, and the rest. Fewer pairs of
backslashes than there are cannot be followed by `\_`, so the pattern matches greedily or not at all. -/
def pairsThenSpace : Str → Option (Str × Str)
  | 92 :: 92 :: s => (pairsThenSpace s).map fun p => (92 :: 92 :: p.1, p.2)
  | 92 :: 95 :: s => some ([], s)
  | _ => none

/-- A match of `((?:\A|[^\\])(?:\\\\)*)\\_` at the start of `s`: the group and the rest. `start` says that `s` is
the whole text. Of a rune outside ASCII the model takes only the last byte as `[^\\]`; the others are copied all the
same. -/
def escapedSpace (start : Bool) (s : Str) : Option (Str × Str) :=
  match (if start then pairsThenSpace s else none) with
  | some p => some p
  | none =>
    match s with
    | c :: s => if c = 92 then none else (pairsThenSpace s).map fun p => (c :: p.1, p.2)
    | [] => none

theorem pairsThenSpace_length : ∀ {s pre rest}, pairsThenSpace s = some (pre, rest) → rest.length < s.length
  | s, pre, rest, h => by
    unfold pairsThenSpace at h
    split at h
    · rename_i s
      simp only [Option.map_eq_some_iff] at h
      obtain ⟨⟨a, b⟩, h1, h2⟩ := h
      have := pairsThenSpace_length h1
      simp only [Prod.mk.injEq] at h2
      simp only [List.length_cons]
      rw [← h2.2]; omega
    · simp only [Option.some.injEq, Prod.mk.injEq] at h
      simp only [List.length_cons, ← h.2]; omega
    · simp at h

theorem escapedSpace_length {start s pre rest} (h : escapedSpace start s = some (pre, rest)) : rest.length < s.length := by
  unfold escapedSpace at h
  split at h
  · rename_i p h'
    simp only [Option.some.injEq] at h
    subst h
    split at h'
    · exact pairsThenSpace_length h'
    · simp at h'
  · split at h
    · rename_i c s _
      split at h
      · simp at h
      · simp only [Option.map_eq_some_iff] at h
        obtain ⟨⟨a, b⟩, h1, h2⟩ := h
        have := pairsThenSpace_length h1
        simp only [Prod.mk.injEq] at h2
        simp only [List.length_cons]
        rw [← h2.2]; omega
    · simp at h

/-- wbnf/compile.go:135: `escapedSpaceRE.ReplaceAllString(s, "$1 ")`; leftmost matches without overlap. -/
def spacePass (start : Bool) (s : Str) : Str :=
  match h : escapedSpace start s with
  | some (pre, rest) =>
    have := escapedSpace_length h
    pre ++ 32 :: spacePass false rest
  | none =>
    match s with
    | [] => []
    | c :: s => c :: spacePass false s
termination_by s.length

/-- wbnf/compile.go:132-140, the `RE` case of `buildAtom`: the regexp for the text of a literal. `/{` is cut off the
front if it is there, and then one byte off the end (the text of a literal that starts so ends in `}`). -/
def parseRE (text : Str) : Str :=
  let s := text.filter fun c => !isSpaceRE c
  let s := spacePass true s
  let s := spacePass true s
  if str "/{" <+: s then (s.drop 2).dropLast else s

end Wbnf

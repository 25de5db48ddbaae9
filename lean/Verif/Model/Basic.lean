/-!
# Basic conventions of the model

Go strings are byte strings; the model uses lists of bytes.
-/

namespace Wbnf

/-- A Go `string`: a list of bytes (Go strings are immutable byte slices). -/
abbrev Str := List UInt8

/-- Byte string of an ASCII Lean literal (used to write Go string constants and examples). -/
def str (s : String) : Str := s.toList.map (fun c => UInt8.ofNat c.toNat)

/-- Go `map` lookup on an association list (first binding wins; the lists used have unique keys). -/
def lookup {α : Type} (k : Str) : List (Str × α) → Option α
  | [] => none
  | (k', v) :: m => if k' = k then some v else lookup k m

/-- Go `m[k] = v` on an association list: replace the binding, or add one at the end. -/
def mapSet {α : Type} (k : Str) (v : α) : List (Str × α) → List (Str × α)
  | [] => [(k, v)]
  | (k', v') :: m => if k' = k then (k, v) :: m else (k', v') :: mapSet k v m

/-- `_, has := m[k]`. -/
def hasKey {α : Type} (k : Str) (m : List (Str × α)) : Bool := (lookup k m).isSome

/-- Decimal digits of a natural number (Go `fmt.Sprintf("%d", n)` for `n ≥ 0`), by the usual
division loop; `fuel` = `n + 1` always suffices. -/
def decimalAux : Nat → Nat → Str
  | 0, _ => []
  | fuel + 1, n =>
    if n < 10 then [UInt8.ofNat (48 + n)]
    else decimalAux fuel (n / 10) ++ [UInt8.ofNat (48 + n % 10)]

/-- Go `fmt.Sprintf("%d", n)`, `n ≥ 0`. -/
def decimal (n : Nat) : Str := decimalAux (n + 1) n

end Wbnf

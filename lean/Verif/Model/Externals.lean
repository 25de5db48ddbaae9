import Verif.Model.Parse

/-!
# Model of how external handlers are given to a parse

parser/scope.go `WithExternals`, parser/externals.go.
-/

namespace Wbnf

abbrev Handler := Call → Scanner → ExtRes

/-- Go `strings.Split(s, "()")`. -/
def splitParens : Str → List Str
  | [] => [[]]
  | [c] => [[c]]
  | a :: b :: s =>
    if a = 40 ∧ b = 41 then [] :: splitParens s
    else
      match splitParens (b :: s) with
      | [] => [[a]]
      | p :: ps => (a :: p) :: ps

/-- parser/scope.go:99-118 `WithExternals`, the loop; a range over a map, here in the order of the list. `none` is a panic: of 104, of the index at 109, or
of `MustCompile`. The regexps are compiled with the prefix `(?m)\A`. -/
def escapeOf (E : Engine) : List (Str × Handler) → Option Escape → Option (Option Escape)
  | [], e => some e
  | (42 :: key, f) :: refs, e =>
    match e with
    | some _ => none
    | none =>
      match splitParens key with
      | op :: cl :: _ =>
        if E.valid (anchor ++ op) ∧ E.valid (anchor ++ cl) then escapeOf E refs (some ⟨anchor ++ op, anchor ++ cl, f⟩) else none
      | _ => none
  | _ :: refs, e => escapeOf E refs e

/-- parser/scope.go:99-118 `WithExternals`, 120-125 `GetExternal`. -/
def withExternals (E : Engine) (refs : List (Str × Handler)) : Option Externals :=
  (escapeOf E refs none).map fun e => ⟨fun name => lookup name refs, e⟩

/-- parser/terms.go:51-63 `ParseWithExternals`. -/
def Parsers.parseWithExternals (E : Engine) (ρ : Nat → Nat) (n : Nat) (ps : Parsers) (rule : Str) (inp : Scanner) (refs : List (Str × Handler)) : TopRes :=
  match withExternals E refs with
  | none => .panic
  | some X => ps.parse E X ρ n rule inp

/-- A handler that parses with the parsers of a grammar, as in parser/parser_test.go:116-140: `return g.Parse(rule, input)`. The tree returned
beside an error is nil. A parse that panics or does not end is not a handler (see `ExtRes`); it is replaced by an error here. -/
def nested (E : Engine) (X : Externals) (ρ : Nat → Nat) (n : Nat) (ps : Parsers) (rule : Str) : Handler := fun _ inp =>
  match ps.parse E X ρ n rule inp with
  | .ok v i => ⟨v, none, i⟩
  | .err e i => ⟨.foreign 0, some e, i⟩
  | _ => ⟨.foreign 0, some .other, inp⟩

end Wbnf

import Verif.Examples.Regex
import Verif.Model.Parse
import Verif.Model.Show

/-!
# Grammars and runs used in the `example`s beside the property theorems
-/

namespace Wbnf.Ex

/-- Cut tokens 2, 3, 4, ... (1 is the token of a missing external). -/
def ρ0 (k : Nat) : Nat := k + 2

/-- Compile with the example regexp engine. -/
def comp (g : Grammar) : Except Stop Parsers := g.compile regexp 50

/-- The compiled grammar, for grammars that compile. -/
def comp! (g : Grammar) : Parsers := match comp g with
  | .ok ps => ps
  | .error _ => ⟨[], []⟩

def compiles (g : Grammar) : Bool := match comp g with
  | .ok _ => true
  | .error _ => false

theorem comp_ok {g : Grammar} (h : compiles g = true) : g.compile regexp 50 = .ok (comp! g) := by
  unfold compiles at h
  unfold comp!
  cases hc : comp g with
  | ok ps => exact hc
  | error e => simp [hc] at h

/-- Parse a text with a rule of a grammar. -/
def runTop (g : Grammar) (r s : String) : TopRes :=
  (comp! g).parse regexp noExternals ρ0 300 (str r) (newScanner (str s))

/-- What is easily compared of an error: its kind. -/
inductive Kind
  | parse | fatal | stop | unconsumed | other
  deriving DecidableEq

def kind : Err → Kind
  | .parse => .parse
  | .fatal _ => .fatal
  | .stop => .stop
  | .unconsumed _ _ => .unconsumed
  | .other => .other

/-- What is easily compared of an outcome: the printed tree or the kind of error, and start and
length of the scanner left behind. -/
inductive Obs
  | ok (tree : Option Str) (start len : Int)
  | err (k : Kind) (start len : Int)
  | panic
  | oof
  deriving DecidableEq

def obs : TopRes → Obs
  | .ok v i => .ok v.format i.start i.len
  | .err e i => .err (kind e) i.start i.len
  | .panic => .panic
  | .oof => .oof

def obsR : Res Tree → Obs
  | .ok v i _ => .ok v.format i.start i.len
  | .err e i _ => .err (kind e) i.start i.len
  | .panic => .panic
  | .oof => .oof

/-- UTF-8 bytes of a string with non-ASCII characters `║` (for printed trees). -/
def utf8 (s : String) : Str :=
  s.toList.flatMap fun c => if c = '║' then doubleBar else [UInt8.ofNat c.toNat]

/-- `expr -> @:/{[-+]} > @:/{[*\/]} > "-"? @ > /{\d+} | "(" @ ")";` (parser/grammar_test.go). -/
def gExpr : Grammar := [(str "expr", .stack [
  .delim (.rule atRule) (.re (str "([-+])")) 0 false false,
  .delim (.rule atRule) (.re (str "([*/])")) 0 false false,
  .seq [.quant (.s (str "-")) 0 1, .rule atRule],
  .oneof [.re (str "(\\d+)"), .seq [.s (str "("), .rule atRule, .s (str ")")]]])]

/-- `a -> "x" %%"!" b | "xy"; b -> "b"+;` with a cut point after `"x" "!"`. -/
def gCut : Grammar := [
  (str "a", .oneof [.seq [.s (str "x"), .cut (.s (str "!")), .rule (str "b")], .re (str "x!.")]),
  (str "b", someT (.s (str "b")))]

/-- `a -> (?="x") n=("x" | "y")+ "," %n;`: look-ahead, names and a back reference. -/
def gRef : Grammar := [
  (str "a", .seq [.look (.s (str "x")),
    .named (str "n") (someT (.oneof [.s (str "x"), .s (str "y")])), .s (str ","),
    .ref (str "n") none])]

end Wbnf.Ex

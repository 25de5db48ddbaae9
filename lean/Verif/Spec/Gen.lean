import Verif.Model.Gen
import Verif.Spec.Cmd
import Verif.Spec.GoCode
import Verif.Spec.Codegen

/-!
# What `wbnf gen` is run for
-/

namespace Wbnf

/-- The command writes this package in every long enough run. -/
def Generates (T : Tools) (W : World) (f : GenFlags) (p : PkgText) : Prop := ∃ N, ∀ n, N ≤ n → genCmd T W f n = .written p

/-- A call does this in every long enough run, whatever distinct random numbers it draws (`K` of them). -/
def AlwaysGives (call : (Nat → Nat) → Nat → PkgRes) (r : PkgRes) : Prop :=
  ∃ N K, ∀ ρ, DistinctDraws noExternals ρ K → ∀ n, N ≤ n → call ρ n = r

/-- `Parse` of the package gives this: its expressions have values, and with them the function does so. -/
def PkgParses (E : Engine) (p : PkgText) (inp : Scanner) (r : PkgRes) : Prop :=
  ∃ g start, goValue p.grammar = some (.grammar g) ∧ goValue p.start = some (.str start) ∧ AlwaysGives (fun ρ n => pkgParse E g start ρ n inp) r

/-- The same for `ParseString`. -/
def PkgParsesString (E : Engine) (p : PkgText) (input : Str) (r : PkgRes) : Prop :=
  ∃ g start, goValue p.grammar = some (.grammar g) ∧ goValue p.start = some (.str start) ∧ AlwaysGives (fun ρ n => pkgParseString E g start ρ n input) r

/-- The rule matches all of the input, and the AST of its tree is `b`. -/
def MatchesAll (E : Engine) (H : Grammar) (start : Str) (inp : Scanner) (b : Branch) : Prop :=
  ∃ v rest, Denotes E noExternals H start inp (.ok v rest) ∧ rest.toStr = some [] ∧ HasAst H v b

/-- The rule does not match, or leaves some of the input. -/
def MatchesNotAll (E : Engine) (H : Grammar) (start : Str) (inp : Scanner) : Prop :=
  Denotes E noExternals H start inp .fail ∨ Denotes E noExternals H start inp .abort ∨
    ∃ v rest x, Denotes E noExternals H start inp (.ok v rest) ∧ rest.toStr = some x ∧ x ≠ []

end Wbnf

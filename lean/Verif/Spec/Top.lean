import Verif.Spec.Peg
import Verif.Spec.WellFormed
import Verif.Spec.Tokens

/-! # What a top-level parse means -/

namespace Wbnf

/-- Outcome of rule `r` of grammar `g` at `inp`, according to the semantics. -/
def Denotes (E : Engine) (X : Externals) (g : Grammar) (r : Str) (inp : Scanner) (o : Out) : Prop :=
  Peg E X (.term [g] [] (.rule r) [] inp) o

/-- How many random numbers a parse drew (0 if it panics or needs more fuel). -/
def Parsers.draws (E : Engine) (X : Externals) (ρ : Nat → Nat) (n : Nat) (ps : Parsers) (rule : Str)
    (inp : Scanner) : Nat :=
  match ps.run E X ρ n rule inp with
  | .ok _ _ k => k
  | .err _ _ k => k
  | _ => 0

/-- What the parser does with rule `r` at `inp`, observed from outside: it does so in every long enough
run, whatever distinct random numbers it draws (`K` of them). -/
def Parsers.Always (E : Engine) (X : Externals) (ps : Parsers) (r : Str) (inp : Scanner)
    (Q : Res Tree → Prop) : Prop :=
  ∃ N K, ∀ ρ, DistinctDraws X ρ K → ∀ n, N ≤ n → ps.draws E X ρ n r inp = K ∧ Q (ps.run E X ρ n r inp)

/-- The parser's outcome for rule `r` at `inp`. -/
def Parsers.Yields (E : Engine) (X : Externals) (ps : Parsers) (r : Str) (inp : Scanner) : Out → Prop
  | .ok v i => ps.Always E X r inp fun res => ∃ k, res = .ok v i k
  | .fail => ps.Always E X r inp fun res => ∃ e i k, res = .err e i k ∧ e.isFatal = false
  | .abort => ps.Always E X r inp fun res => ∃ e i k, res = .err e i k ∧ e.isFatal = true
  | .oks _ _ => False

/-- One step after the other, each starting where the one before stopped. -/
inductive Chain (step : Scanner → Tree → Scanner → Prop) : Scanner → List Tree → Scanner → Prop
  | nil {i} : Chain step i [] i
  | cons {i v j vs k} : step i v j → Chain step j vs k → Chain step i (v :: vs) k

/-- External handlers that do not look at cut tokens, use boundedly many tokens of their own, and no
escape among them. Without externals this holds (`plain_noExternals`). -/
structure Externals.Plain (X : Externals) : Prop where
  blind : X.Blind
  noEscape : X.esc = none
  bounded : ∃ B, ∀ c, X.Emits c → c < B

theorem plain_noExternals : noExternals.Plain where
  blind := ⟨fun _ _ h => by simp [noExternals] at h, fun _ h => by simp [noExternals] at h⟩
  noEscape := rfl
  bounded := ⟨2, fun c h => by
    rcases h with rfl | ⟨_, _, _, _, h, _⟩ | ⟨_, _, _, h, _⟩
    · omega
    · simp [noExternals] at h
    · simp [noExternals] at h⟩

end Wbnf

import Verif.Model.Syntax

/-!
# Equality of wbnf sources is decidable
-/

namespace Wbnf

mutual
def TermN.same : TermN → TermN → Bool
  | .many o gs ts, .many o' gs' ts' => o == o' && eqGrammarsN gs gs' && eqTermsN ts ts'
  | .one n qs, .one n' qs' => n.same n' && eqQuantsN qs qs'
  | _, _ => false
def NamedN.same : NamedN → NamedN → Bool
  | .mk i a, .mk i' a' => i == i' && a.same a'
def AtomN.same : AtomN → AtomN → Bool
  | .ident i, .ident i' => i == i'
  | .str x, .str x' => x == x'
  | .re x, .re x' => x == x'
  | .macrocall m ts, .macrocall m' ts' => m == m' && eqTermsN ts ts'
  | .ext i, .ext i' => i == i'
  | .ref i d, .ref i' d' => i == i' && d == d'
  | .look t, .look t' => t.same t'
  | .term t, .term t' => t.same t'
  | .unit, .unit => true
  | _, _ => false
def QuantN.same : QuantN → QuantN → Bool
  | .op o, .op o' => o == o'
  | .range a b, .range a' b' => a == a' && b == b'
  | .sep o l t n, .sep o' l' t' n' => o == o' && l == l' && t == t' && n.same n'
  | _, _ => false
def StmtN.same : StmtN → StmtN → Bool
  | .comment x, .comment x' => x == x'
  | .prod i ts, .prod i' ts' => i == i' && eqTermsN ts ts'
  | .imp p, .imp p' => p == p'
  | .macrodef m as t, .macrodef m' as' t' => m == m' && as == as' && t.same t'
  | _, _ => false
def GrammarN.same : GrammarN → GrammarN → Bool
  | .mk ss, .mk ss' => eqStmtsN ss ss'
def eqTermsN : List TermN → List TermN → Bool
  | [], [] => true
  | t :: ts, u :: us => t.same u && eqTermsN ts us
  | _, _ => false
def eqQuantsN : List QuantN → List QuantN → Bool
  | [], [] => true
  | t :: ts, u :: us => t.same u && eqQuantsN ts us
  | _, _ => false
def eqStmtsN : List StmtN → List StmtN → Bool
  | [], [] => true
  | t :: ts, u :: us => t.same u && eqStmtsN ts us
  | _, _ => false
def eqGrammarsN : List GrammarN → List GrammarN → Bool
  | [], [] => true
  | t :: ts, u :: us => t.same u && eqGrammarsN ts us
  | _, _ => false
end

mutual
theorem TermN.same_iff : (a b : TermN) → (a.same b = true ↔ a = b)
  | .many o gs ts, b => by
    cases b with
    | many o' gs' ts' => simp [TermN.same, eqGrammarsN_iff gs gs', eqTermsN_iff ts ts', and_assoc]
    | _ => simp [TermN.same]
  | .one n qs, b => by
    cases b with
    | one n' qs' => simp [TermN.same, n.same_iff n', eqQuantsN_iff qs qs']
    | _ => simp [TermN.same]
theorem NamedN.same_iff : (a b : NamedN) → (a.same b = true ↔ a = b)
  | .mk i a, .mk i' a' => by simp [NamedN.same, a.same_iff a']
theorem AtomN.same_iff : (a b : AtomN) → (a.same b = true ↔ a = b)
  | .ident _, b => by cases b <;> simp [AtomN.same]
  | .str _, b => by cases b <;> simp [AtomN.same]
  | .re _, b => by cases b <;> simp [AtomN.same]
  | .macrocall m ts, b => by
    cases b with
    | macrocall m' ts' => simp [AtomN.same, eqTermsN_iff ts ts']
    | _ => simp [AtomN.same]
  | .ext _, b => by cases b <;> simp [AtomN.same]
  | .ref _ _, b => by cases b <;> simp [AtomN.same]
  | .look t, b => by
    cases b with
    | look u => simp [AtomN.same, t.same_iff u]
    | _ => simp [AtomN.same]
  | .term t, b => by
    cases b with
    | term u => simp [AtomN.same, t.same_iff u]
    | _ => simp [AtomN.same]
  | .unit, b => by cases b <;> simp [AtomN.same]
theorem QuantN.same_iff : (a b : QuantN) → (a.same b = true ↔ a = b)
  | .op _, b => by cases b <;> simp [QuantN.same]
  | .range _ _, b => by cases b <;> simp [QuantN.same]
  | .sep o l t n, b => by
    cases b with
    | sep o' l' t' n' => simp [QuantN.same, n.same_iff n', and_assoc]
    | _ => simp [QuantN.same]
theorem StmtN.same_iff : (a b : StmtN) → (a.same b = true ↔ a = b)
  | .comment _, b => by cases b <;> simp [StmtN.same]
  | .prod i ts, b => by
    cases b with
    | prod i' ts' => simp [StmtN.same, eqTermsN_iff ts ts']
    | _ => simp [StmtN.same]
  | .imp _, b => by cases b <;> simp [StmtN.same]
  | .macrodef m as t, b => by
    cases b with
    | macrodef m' as' t' => simp [StmtN.same, t.same_iff t', and_assoc]
    | _ => simp [StmtN.same]
theorem GrammarN.same_iff : (a b : GrammarN) → (a.same b = true ↔ a = b)
  | .mk ss, .mk ss' => by simp [GrammarN.same, eqStmtsN_iff ss ss']
theorem eqTermsN_iff : (a b : List TermN) → (eqTermsN a b = true ↔ a = b)
  | [], b => by cases b <;> simp [eqTermsN]
  | t :: ts, b => by
    cases b with
    | nil => simp [eqTermsN]
    | cons u us => simp [eqTermsN, t.same_iff u, eqTermsN_iff ts us]
theorem eqQuantsN_iff : (a b : List QuantN) → (eqQuantsN a b = true ↔ a = b)
  | [], b => by cases b <;> simp [eqQuantsN]
  | t :: ts, b => by
    cases b with
    | nil => simp [eqQuantsN]
    | cons u us => simp [eqQuantsN, t.same_iff u, eqQuantsN_iff ts us]
theorem eqStmtsN_iff : (a b : List StmtN) → (eqStmtsN a b = true ↔ a = b)
  | [], b => by cases b <;> simp [eqStmtsN]
  | t :: ts, b => by
    cases b with
    | nil => simp [eqStmtsN]
    | cons u us => simp [eqStmtsN, t.same_iff u, eqStmtsN_iff ts us]
theorem eqGrammarsN_iff : (a b : List GrammarN) → (eqGrammarsN a b = true ↔ a = b)
  | [], b => by cases b <;> simp [eqGrammarsN]
  | t :: ts, b => by
    cases b with
    | nil => simp [eqGrammarsN]
    | cons u us => simp [eqGrammarsN, t.same_iff u, eqGrammarsN_iff ts us]
end

instance : DecidableEq TermN := fun a b => decidable_of_iff _ (a.same_iff b)
instance : DecidableEq StmtN := fun a b => decidable_of_iff _ (a.same_iff b)
instance : DecidableEq GrammarN := fun a b => decidable_of_iff _ (a.same_iff b)

end Wbnf

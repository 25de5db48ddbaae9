import Verif.Lemmas.Path
import Verif.Spec.Lexemes
import Verif.Spec.Import
import Verif.Lemmas.Import
import Verif.Lemmas.Settles

/-!
# The imports of a source are paths
-/

namespace Wbnf

theorem importsOf_append : ∀ (a b : List WTree), importsOf (a ++ b) = importsOf a ++ importsOf b
  | [], _ => rfl
  | t :: a, b => by rw [List.cons_append, importsOf, importsOf, importsOf_append a b, List.append_assoc]

theorem importsOf_tipOf (f : Str → Item) (hf : ∀ x p, f x ≠ .imp p) (x : Option Str) : importsOf (tipOf f x) = [] := by
  cases x with
  | none => rfl
  | some x => simp [tipOf, importsOf, WTree.tip, imports_other (hf x)]

theorem importsOf_tips (as : List Str) : importsOf (as.map fun a => .tip (.ident a)) = [] := by
  induction as with
  | nil => rfl
  | cons a as ih => rw [List.map_cons, importsOf, ih]; rfl

theorem Token.path_name {x : Str} (h : Token (Core.re "[a-zA-Z0-9.:]+") x) : x ≠ [] ∧ 47 ∉ x := by
  generalize ht : Core.re "[a-zA-Z0-9.:]+" = t at h
  cases h with
  | path h1 h2 =>
    refine ⟨h1, fun h => ?_⟩
    rcases h2 _ h with h | h | h
    · exact absurd rfl h.2.2
    · exact absurd h.1 (by decide)
    · exact absurd h.1 (by decide)
  | lit => cases ht
  | _ => exact absurd ht (by decide +kernel)

mutual
theorem TermN.Lexed.imports {t : TermN} (h : t.Lexed) : ∀ p ∈ t.tree.imports, ImportPath p := by
  match t, h with
  | .many op gs ts, h =>
    intro p hp
    rw [TermN.tree, imports_other (by simp), importsOf_append] at hp
    rcases List.mem_append.1 hp with hp | hp
    · exact lexedGrammars_imports h.2.2.1 p hp
    · exact lexedTerms_imports h.2.2.2 p hp
  | .one n qs, h =>
    intro p hp
    rw [TermN.tree, imports_other (by simp), importsOf] at hp
    rcases List.mem_append.1 hp with hp | hp
    · exact h.1.imports p hp
    · exact lexedQuants_imports h.2 p hp
theorem NamedN.Lexed.imports {t : NamedN} (h : t.Lexed) : ∀ p ∈ t.tree.imports, ImportPath p := by
  match t, h with
  | .mk i a, h =>
    intro p hp
    rw [NamedN.tree, imports_other (by simp), importsOf, importsOf_tipOf _ (by simp), List.append_nil] at hp
    exact h.2.imports p hp
theorem AtomN.Lexed.imports {t : AtomN} (h : t.Lexed) : ∀ p ∈ t.tree.imports, ImportPath p := by
  match t, h with
  | .ident i, _ => intro p hp; cases hp
  | .str i, _ => intro p hp; cases hp
  | .re i, _ => intro p hp; cases hp
  | .macrocall m ts, h =>
    intro p hp
    rw [AtomN.tree, imports_other (by simp), importsOf, imports_other (by simp), importsOf, importsOf, List.append_nil] at hp
    exact lexedTerms_imports h.2 p hp
  | .ext i, _ => intro p hp; cases hp
  | .ref i d, _ =>
    intro p hp
    rw [AtomN.tree, imports_other (by simp), importsOf, imports_other (by simp), importsOf, importsOf_append, importsOf_tipOf _ (by simp)] at hp
    cases hp
  | .look t, h =>
    intro p hp
    rw [AtomN.tree, imports_other (by simp), importsOf, importsOf, List.append_nil] at hp
    exact TermN.Lexed.imports h p hp
  | .term t, h =>
    intro p hp
    rw [AtomN.tree, imports_other (by simp), importsOf, importsOf, List.append_nil] at hp
    exact TermN.Lexed.imports h p hp
  | .unit, _ => intro p hp; cases hp
theorem QuantN.Lexed.imports {t : QuantN} (h : t.Lexed) : ∀ p ∈ t.tree.imports, ImportPath p := by
  match t, h with
  | .op o, _ => intro p hp; cases hp
  | .range lo hi, _ =>
    intro p hp
    rw [QuantN.tree, imports_other (by simp), importsOf_append, importsOf_tipOf _ (by simp), importsOf_tipOf _ (by simp)] at hp
    cases hp
  | .sep o l t n, h =>
    intro p hp
    rw [QuantN.tree, imports_other (by simp), importsOf, importsOf, List.append_nil] at hp
    exact h.2.imports p hp
theorem StmtN.Lexed.imports {t : StmtN} (h : t.Lexed) : ∀ p ∈ t.tree.imports, ImportPath p := by
  match t, h with
  | .comment i, _ => intro p hp; cases hp
  | .prod i ts, h =>
    intro p hp
    rw [StmtN.tree, imports_other (by simp), importsOf, imports_other (by simp), importsOf, importsOf, List.append_nil] at hp
    exact lexedTerms_imports h.2.2 p hp
  | .imp q, h =>
    intro p hp
    have : p = q := by
      simpa [StmtN.tree, WTree.imports, importsOf] using hp
    subst this
    refine ⟨h.1, fun x hx => ?_⟩
    rcases h.2 x hx with h | h | h | h
    · exact .inl h
    · exact .inr (by subst h; decide)
    · exact .inr (by subst h; decide)
    · exact .inr h.path_name
  | .macrodef m as t, h =>
    intro p hp
    rw [StmtN.tree, imports_other (by simp), importsOf, imports_other (by simp), importsOf, importsOf, importsOf, List.append_nil, List.append_nil,
      imports_other (by simp), importsOf_append, importsOf_tips] at hp
    simp only [importsOf, List.nil_append, List.append_nil] at hp
    exact TermN.Lexed.imports h.2.2 p hp
theorem GrammarN.Lexed.imports {t : GrammarN} (h : t.Lexed) : ∀ p ∈ t.tree.imports, ImportPath p := by
  match t, h with
  | .mk ss, h =>
    intro p hp
    rw [GrammarN.tree, imports_other (by simp)] at hp
    exact lexedStmts_imports h.2 p hp
theorem lexedTerms_imports {ts : List TermN} (h : lexedTerms ts) : ∀ p ∈ importsOf (termTrees ts), ImportPath p := by
  match ts, h with
  | [], _ => intro p hp; cases hp
  | t :: ts, h =>
    intro p hp
    rcases List.mem_append.1 hp with hp | hp
    · exact TermN.Lexed.imports h.1 p hp
    · exact lexedTerms_imports h.2 p hp
theorem lexedQuants_imports {ts : List QuantN} (h : lexedQuants ts) : ∀ p ∈ importsOf (quantTrees ts), ImportPath p := by
  match ts, h with
  | [], _ => intro p hp; cases hp
  | t :: ts, h =>
    intro p hp
    rcases List.mem_append.1 hp with hp | hp
    · exact QuantN.Lexed.imports h.1 p hp
    · exact lexedQuants_imports h.2 p hp
theorem lexedStmts_imports {ts : List StmtN} (h : lexedStmts ts) : ∀ p ∈ importsOf (stmtTrees ts), ImportPath p := by
  match ts, h with
  | [], _ => intro p hp; cases hp
  | t :: ts, h =>
    intro p hp
    rcases List.mem_append.1 hp with hp | hp
    · exact StmtN.Lexed.imports h.1 p hp
    · exact lexedStmts_imports h.2 p hp
theorem lexedGrammars_imports {ts : List GrammarN} (h : lexedGrammars ts) : ∀ p ∈ importsOf (grammarTrees ts), ImportPath p := by
  match ts, h with
  | [], _ => intro p hp; cases hp
  | t :: ts, h =>
    intro p hp
    rcases List.mem_append.1 hp with hp | hp
    · exact GrammarN.Lexed.imports h.1 p hp
    · exact lexedGrammars_imports h.2 p hp
end

end Wbnf

import Verif.Spec.Written
import Verif.Spec.Source
import Verif.Spec.Import
import Verif.Props.Expand

/-!
# Sources without macros and imports
-/

namespace Wbnf

theorem importsOf_both : ∀ (a b : List WTree), importsOf (a ++ b) = importsOf a ++ importsOf b
  | [], _ => rfl
  | t :: a, b => by simp [importsOf, importsOf_both a b]

theorem imports_tip {v : Item} (h : ∀ p, v ≠ .imp p) : (WTree.tip v).imports = [] := by
  unfold WTree.tip
  cases v <;> first | rfl | exact absurd rfl (h _)

theorem imports_tipOf {f : Str → Item} {o : Option Str} (h : ∀ x p, f x ≠ .imp p) : importsOf (tipOf f o) = [] := by
  cases o with
  | none => rfl
  | some x => simp [tipOf, importsOf, imports_tip (h x)]

mutual
theorem TermN.Ordinary.bare : (t : TermN) → t.Ordinary false → t.calls = [] ∧ t.tree.imports = []
  | .many _ gs ts, h => by
    have h1 := ordinaryGrammars_bare gs h.1
    have h2 := ordinaryTerms_bare ts h.2
    simp [TermN.calls, TermN.tree, WTree.imports, importsOf_both, h1, h2]
  | .one n qs, h => by
    have h1 := NamedN.Ordinary.bare n h.1
    have h2 := ordinaryQuants_bare qs h.2
    simp [TermN.calls, TermN.tree, WTree.imports, importsOf, h1, h2]
theorem NamedN.Ordinary.bare : (t : NamedN) → t.Ordinary false → t.calls = [] ∧ t.tree.imports = []
  | .mk i a, h => by
    have h1 := AtomN.Ordinary.bare a h.2
    simp [NamedN.calls, NamedN.tree, WTree.imports, importsOf, h1, imports_tipOf (f := .ident) (o := i) (by simp)]
theorem AtomN.Ordinary.bare : (t : AtomN) → t.Ordinary false → t.calls = [] ∧ t.tree.imports = []
  | .ident _, _ => by simp [AtomN.calls, AtomN.tree, WTree.imports, importsOf, imports_tip]
  | .str _, _ => by simp [AtomN.calls, AtomN.tree, WTree.imports, importsOf, imports_tip]
  | .re _, _ => by simp [AtomN.calls, AtomN.tree, WTree.imports, importsOf, imports_tip]
  | .macrocall _ _, h => by cases h.1
  | .ext _, _ => by simp [AtomN.calls, AtomN.tree, WTree.imports, importsOf, imports_tip]
  | .ref _ d, _ => by simp [AtomN.calls, AtomN.tree, WTree.imports, importsOf, importsOf_both, imports_tip, imports_tipOf (f := .str) (o := d) (by simp)]
  | .look t, h => by
    have h1 := TermN.Ordinary.bare t h
    simp [AtomN.calls, AtomN.tree, WTree.imports, importsOf, h1]
  | .term t, h => by
    have h1 := TermN.Ordinary.bare t h
    simp [AtomN.calls, AtomN.tree, WTree.imports, importsOf, h1]
  | .unit, _ => by simp [AtomN.calls, AtomN.tree, WTree.imports, importsOf]
theorem QuantN.Ordinary.bare : (t : QuantN) → t.Ordinary false → t.calls = [] ∧ t.tree.imports = []
  | .op _, _ => by simp [QuantN.calls, QuantN.tree, WTree.imports, importsOf]
  | .range lo hi, _ => by
    simp [QuantN.calls, QuantN.tree, WTree.imports, importsOf_both, imports_tipOf (f := .int) (o := lo) (by simp), imports_tipOf (f := .int) (o := hi) (by simp)]
  | .sep _ _ _ n, h => by
    have h1 := NamedN.Ordinary.bare n h.2
    simp [QuantN.calls, QuantN.tree, WTree.imports, importsOf, h1]
theorem StmtN.Ordinary.bare : (t : StmtN) → t.Ordinary false → t.calls = [] ∧ t.tree.imports = []
  | .prod _ ts, h => by
    have h1 := ordinaryTerms_bare ts h.2.2
    simp [StmtN.calls, StmtN.tree, WTree.imports, importsOf, imports_tip, h1]
  | .comment _, _ => by simp [StmtN.calls, StmtN.tree, WTree.imports, importsOf, imports_tip]
  | .imp _, h => by cases h.1
  | .macrodef _ _ _, h => by cases h.1
theorem GrammarN.Ordinary.bare : (t : GrammarN) → t.Ordinary false → t.calls = [] ∧ t.tree.imports = []
  | .mk ss, h => by
    have h1 := ordinaryStmts_bare ss h
    simp [GrammarN.calls, GrammarN.tree, WTree.imports, h1]
theorem ordinaryTerms_bare : (ts : List TermN) → ordinaryTerms false ts → callsTerms ts = [] ∧ importsOf (termTrees ts) = []
  | [], _ => ⟨rfl, rfl⟩
  | t :: ts, h => by
    have h1 := TermN.Ordinary.bare t h.1
    have h2 := ordinaryTerms_bare ts h.2
    simp [callsTerms, termTrees, importsOf, h1, h2]
theorem ordinaryQuants_bare : (ts : List QuantN) → ordinaryQuants false ts → callsQuants ts = [] ∧ importsOf (quantTrees ts) = []
  | [], _ => ⟨rfl, rfl⟩
  | t :: ts, h => by
    have h1 := QuantN.Ordinary.bare t h.1
    have h2 := ordinaryQuants_bare ts h.2
    simp [callsQuants, quantTrees, importsOf, h1, h2]
theorem ordinaryStmts_bare : (ts : List StmtN) → ordinaryStmts false ts → callsStmts ts = [] ∧ importsOf (stmtTrees ts) = []
  | [], _ => ⟨rfl, rfl⟩
  | t :: ts, h => by
    have h1 := StmtN.Ordinary.bare t h.1
    have h2 := ordinaryStmts_bare ts h.2
    simp [callsStmts, stmtTrees, importsOf, h1, h2]
theorem ordinaryGrammars_bare : (ts : List GrammarN) → ordinaryGrammars false ts → callsGrammars ts = [] ∧ importsOf (grammarTrees ts) = []
  | [], _ => ⟨rfl, rfl⟩
  | t :: ts, h => by
    have h1 := GrammarN.Ordinary.bare t h.1
    have h2 := ordinaryGrammars_bare ts h.2
    simp [callsGrammars, grammarTrees, importsOf, h1, h2]
end

theorem GrammarN.Ordinary.includes {F : Files} {f : Str} {ss : List StmtN} (h : (GrammarN.mk ss).Ordinary false) : F.Includes f (.mk ss) ss := by
  have h1 : (GrammarN.mk ss).imports = [] := (GrammarN.Ordinary.bare _ h).2
  have := Files.Includes.mk (F := F) (f := f) (g := .mk ss) (ps := []) (by rw [h1]; exact .nil)
  simpa [GrammarN.stmts] using this

theorem GrammarN.Ordinary.unfolds {g : GrammarN} (h : g.Ordinary false) : Unfolds g g := (C68_plain (GrammarN.Ordinary.bare _ h).1).2 rfl

end Wbnf

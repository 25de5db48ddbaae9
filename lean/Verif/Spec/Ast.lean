import Verif.Model.Ast
import Verif.Spec.Shape
import Verif.Spec.Deep

/-!
# What an AST is, in terms of the parse tree

A term in a rule contributes named parts: a literal or regexp contributes its leaf under the empty name, a
reference to a rule contributes one part under the name of the rule, a named term one part under its name.
Sequences, choices, repetitions and lists contribute the parts of their items, in order. The AST of a rule
groups the parts by name.
-/

namespace Wbnf

/-- The name under which the parts of a rule go: layers `r@1`, `r@2`, … of a stack go under `r`. -/
def shownName (r : Str) : Str :=
  match unlevel r with
  | .ok name => name
  | .error _ => r

/-- The level number of a layer fits an `int`. -/
def ShowsName (r : Str) : Prop := ∃ name, unlevel r = .ok name

/-! ## How often a name may occur -/

/-- One if it is the name, else zero. -/
def once (name k : Str) : Nat := if name = k then 1 else 0

mutual
/-- `Times t k n`: term `t` may contribute `n` parts under the name `k`. A back reference, and anything in a
term with a grammar in braces, counts as repeated. -/
inductive Times : Term → Str → Nat → Prop
  | lit {l k} : Times (.s l) k (once [] k)
  | regexp {l k} : Times (.re l) k (once [] k)
  | rule {r k} : Times (.rule r) k (once (shownName r) k)
  | named {n t k} : Times (.named n t) k (once n k)
  | ref {i d k m} : 1 ≤ m → Times (.ref i d) k (m * once i k)
  | ext {x k} : Times (.ext x) k (once x k)
  | cut {t k n} : Times t k n → Times (.cut t) k n
  | look {t k n} : Times t k n → Times (.look t) k n
  | scope {t g k n m} : TimesRep t k m n → 1 ≤ m → Times (.scope t g) k n
  | seq {ts k n} : TimesAll ts k n → Times (.seq ts) k n
  | oneof {ts t k n} : t ∈ ts → Times t k n → Times (.oneof ts) k n
  | quant {t lo hi k m n} : TimesRep t k m n → lo ≤ m → (hi = 0 ∨ m ≤ hi) → Times (.quant t lo hi) k n
  | delim {t sep a cs ce k m m' n n'} : TimesRep t k m n → 1 ≤ m → TimesRep sep k m' n' →
      m ≤ m' + 1 → m' ≤ m - 1 + cs.toNat + ce.toNat → Times (.delim t sep a cs ce) k (n + n')
/-- All items of a sequence together. -/
inductive TimesAll : List Term → Str → Nat → Prop
  | nil {k} : TimesAll [] k 0
  | cons {t ts k n m} : Times t k n → TimesAll ts k m → TimesAll (t :: ts) k (n + m)
/-- `m` repetitions together. -/
inductive TimesRep : Term → Str → Nat → Nat → Prop
  | zero {t k} : TimesRep t k 0 0
  | succ {t k m n n'} : Times t k n → TimesRep t k m n' → TimesRep t k (m + 1) (n + n')
end

/-- The rule allows at most one part under this name. -/
def AtMostOne (t : Term) (k : Str) : Prop := ∀ n, Times t k n → n ≤ 1

/-! ## The parts of a tree, and the branch they make -/

/-- The parts under one name, in order. -/
def partsNamed (k : Str) (ps : List (Str × Ast)) : List Ast := (ps.filter fun p => p.1 = k).map Prod.snd

/-- Branch `b` has the parts `ps`, grouped by name, in order; one part is stored alone exactly if the term
allows at most one. Choices and Empty markers are always lists. -/
def Groups (t : Term) (ps : List (Str × Ast)) (b : Branch) : Prop :=
  (b.map Prod.fst).Nodup ∧ ∀ k, match partsNamed k ps with
    | [] => lookup k b = none
    | x :: xs => (AtMostOne t k ∧ k ≠ choiceTag ∧ k ≠ emptyTag → xs = [] ∧ lookup k b = some (.one x)) ∧
        (¬ (AtMostOne t k ∧ k ≠ choiceTag ∧ k ≠ emptyTag) → lookup k b = some (.many (x :: xs)))

mutual
/-- `PartsOf G t v ps`: `ps` are the parts of tree `v`, read as an instance of term `t`, in order. `G` has all rules, those
in braces too. -/
inductive PartsOf (G : Grammar) : Term → Tree → List (Str × Ast) → Prop
  | lit {l s} : PartsOf G (.s l) (.leaf s) [([], .leaf s)]
  | regexp {l s} : PartsOf G (.re l) (.leaf s) [([], .leaf s)]
  | rule {r t v ps b} : lookup r G = some t → PartsOf G t v ps → Groups t ps b →
      PartsOf G (.rule r) v [(shownName r, .branch b)]
  | named {n t v ps b} : PartsOf G t v ps → Groups t ps b → PartsOf G (.named n t) v [(n, .branch b)]
  | cut {t v ps} : PartsOf G t v ps → PartsOf G (.cut t) v ps
  | scope {t g v ps} : PartsOf G t v ps → PartsOf G (.scope t g) v ps
  | look {t tag v ps} : PartsOf G t v ps → PartsOf G (.look t) (.node tag .nil [v]) ps
  | seq {ts tag vs ps} : PartsSeq G ts vs ps → PartsOf G (.seq ts) (.node tag .nil vs) ps
  | oneof {ts i t tag v ps} : ts[i]? = some t → PartsOf G t v ps →
      PartsOf G (.oneof ts) (.node tag (.choice i) [v]) ((choiceTag, .extra (.choice i)) :: ps)
  | quant {t lo hi tag vs ps} : lo ≤ vs.length → PartsReps G t vs ps → PartsOf G (.quant t lo hi) (.node tag .nil vs) ps
  /-- a list with neither a separator at the start nor at the end -/
  | delim {t sep a cs ce tag v vs ps ps'} : PartsOf G t v ps → PartsList G t sep vs ps' →
      PartsOf G (.delim t sep a cs ce) (.node tag (.assoc 0) (v :: vs)) (ps ++ ps')
  /-- a list that starts with a separator: the Empty marker for the missing term is a part -/
  | delimLead {t sep a cs ce tag s v vs ps} : v ≠ .empty → PartsList G t sep (s :: v :: vs) ps →
      PartsOf G (.delim t sep a cs ce) (.node tag (.assoc 0) (.empty :: s :: v :: vs)) ((emptyTag, .extra (.text (str "@prefix"))) :: ps)
  | refLeaf {i d s} : PartsOf G (.ref i d) (.leaf s) [(i, .leaf s)]
  | refNode {i d tag x vs ps b} : PartsReps G (.ref i d) vs ps → Groups (.ref i d) ps b →
      PartsOf G (.ref i d) (.node tag x vs) [(i, .branch b)]
/-- The items of a sequence, one tree each. -/
inductive PartsSeq (G : Grammar) : List Term → List Tree → List (Str × Ast) → Prop
  | nil : PartsSeq G [] [] []
  | cons {t ts v vs ps ps'} : PartsOf G t v ps → PartsSeq G ts vs ps' → PartsSeq G (t :: ts) (v :: vs) (ps ++ ps')
/-- Repetitions of a term. -/
inductive PartsReps (G : Grammar) : Term → List Tree → List (Str × Ast) → Prop
  | nil {t} : PartsReps G t [] []
  | cons {t v vs ps ps'} : PartsOf G t v ps → PartsReps G t vs ps' → PartsReps G t (v :: vs) (ps ++ ps')
/-- What comes after a term in a list: separators and terms in turn, maybe a separator at the end. -/
inductive PartsList (G : Grammar) : Term → Term → List Tree → List (Str × Ast) → Prop
  | nil {t sep} : PartsList G t sep [] []
  | cons {t sep s v vs ps ps' ps''} : PartsOf G sep s ps → PartsOf G t v ps' → PartsList G t sep vs ps'' →
      PartsList G t sep (s :: v :: vs) (ps ++ ps' ++ ps'')
  | trail {t sep s ps} : PartsOf G sep s ps →
      PartsList G t sep [s, .empty] (ps ++ [(emptyTag, .extra (.text (str "@suffix")))])
end

/-! ## Leaves -/

mutual
/-- All leaves of an AST, in the order of the map (which is any order). -/
def Ast.leaves : Ast → List Scanner
  | .leaf s => [s]
  | .extra _ => []
  | .branch b => branchLeaves b
def Kids.leaves : Kids → List Scanner
  | .one n => n.leaves
  | .many ns => astLeaves ns
def astLeaves : List Ast → List Scanner
  | [] => []
  | n :: ns => n.leaves ++ astLeaves ns
def branchLeaves : List (Str × Kids) → List Scanner
  | [] => []
  | (_, c) :: b => c.leaves ++ branchLeaves b
end

/-! ## What is stored under a name -/

/-- The nodes stored under one name. -/
def Kids.nodes : Kids → List Ast
  | .one n => [n]
  | .many ns => ns

/-- Term `t'` occurs in `t` outside of names: it contributes to the same branch. -/
inductive Contributes : Term → Term → Prop
  | refl {t} : Contributes t t
  | cut {t t'} : Contributes t t' → Contributes (.cut t) t'
  | scope {t g t'} : Contributes t t' → Contributes (.scope t g) t'
  | look {t t'} : Contributes t t' → Contributes (.look t) t'
  | quant {t lo hi t'} : Contributes t t' → Contributes (.quant t lo hi) t'
  | term {t sep a cs ce t'} : Contributes t t' → Contributes (.delim t sep a cs ce) t'
  | sep {t sep a cs ce t'} : Contributes sep t' → Contributes (.delim t sep a cs ce) t'
  | seq {ts t t'} : t ∈ ts → Contributes t t' → Contributes (.seq ts) t'
  | oneof {ts t t'} : t ∈ ts → Contributes t t' → Contributes (.oneof ts) t'

/-- In a branch made by term `t`, a branch stored under name `k` is made by term `body`: the definition of a
rule shown as `k` that `t` refers to, a term that `t` names `k`, or a back reference to `k`. -/
inductive Body (G : Grammar) (t : Term) (k : Str) : Term → Prop
  | rule {r body} : Contributes t (.rule r) → shownName r = k → lookup r G = some body → Body G t k body
  | named {body} : Contributes t (.named k body) → Body G t k body
  | ref {d} : Contributes t (.ref k d) → Body G t k (.ref k d)

/-- In the branch `b` made by term `t`, and in all branches below, each name has a node alone exactly if the term
that makes the branch allows at most one, and a non-empty list otherwise. -/
inductive Stored (G : Grammar) : Term → Branch → Prop
  | mk {t b} (body : Str → Branch → Term) : (∀ k kids, lookup k b = some kids → k ≠ ruleTag → k ≠ choiceTag → k ≠ emptyTag →
        ((∃ n, kids = .one n) ↔ AtMostOne t k) ∧ kids.nodes ≠ []) →
      (∀ k kids b', lookup k b = some kids → .branch b' ∈ kids.nodes → Body G t k (body k b')) →
      (∀ k kids b', lookup k b = some kids → .branch b' ∈ kids.nodes → Stored G (body k b') b') → Stored G t b

/-! ## Grammars whose trees convert -/

/-- The names a term gives to its parts: the name it is counted by and the name it is stored under. -/
def Term.partNames : Term → List (Str × Str)
  | .s _ => [([], [])]
  | .re _ => [([], [])]
  | .rule r => [(r, shownName r)]
  | .named n _ => [(n, n)]
  | .ref i _ => [(i, i)]
  | .ext x => [(x, x)]
  | .cut t => t.partNames
  | .look t => t.partNames
  | .scope t _ => t.partNames
  | .quant t _ _ => t.partNames
  | .delim t sep _ _ _ => t.partNames ++ sep.partNames
  | .seq ts => names ts
  | .oneof ts => names ts
  | .stack _ => []
where names : List Term → List (Str × Str)
  | [] => []
  | t :: ts => t.partNames ++ names ts

/-- Parts that are counted apart are stored apart, and none is stored under a reserved name. (The names of
layers of a stack are counted apart but stored together.) -/
def Term.NamesApart (t : Term) : Prop :=
  (∀ p ∈ t.partNames, ∀ q ∈ t.partNames, p.1 = q.1 ↔ p.2 = q.2) ∧
  (∀ p ∈ t.partNames, p.2 ≠ choiceTag ∧ p.2 ≠ emptyTag ∧ p.2 ≠ ruleTag)

/-- Terms whose trees convert: no external reference, no stack in braces, no list that associates or whose
separator is itself a list, no empty choice, sensible bounds. -/
def Term.Converts : Term → Prop
  | .ext _ => False
  | .scope _ g => (g.map Prod.fst).Nodup ∧ ∀ r ts, (r, .stack ts) ∉ g
  | .stack _ => False
  | .delim _ sep a _ _ => a ≠ 1 ∧ a ≠ -1 ∧ ¬ ∃ t s b cs ce, sep = .delim t s b cs ce
  | .oneof ts => ts ≠ []
  | .quant _ lo hi => hi = 0 ∨ lo ≤ hi
  | .rule r => ShowsName r
  | .named _ t => t.NamesApart
  | _ => True

/-- The rules of grammars in braces are rules of `G`. -/
def Term.BracesIn (G : Grammar) : Term → Prop
  | .scope _ g => ∀ r t, lookup r g = some t → lookup r G = some t
  | _ => True

/-- `G` has all rules of the grammar, and those of grammars in braces (so that no two with the same name differ); they are
made of such terms and keep their names apart. -/
structure Grammar.ConvertibleIn (g G : Grammar) : Prop where
  sub : ∀ r t, lookup r g = some t → lookup r G = some t
  braces : G.Deep (Term.BracesIn G)
  deep : G.Deep Term.Converts
  apart : ∀ k t, (k, t) ∈ G → t.NamesApart

/-- `g'` has the rules of `g`, and all its rules are rules of `G`. -/
def Grammar.Amid (g g' G : Grammar) : Prop :=
  (∀ r t, lookup r g = some t → lookup r g' = some t) ∧ ∀ r t, lookup r g' = some t → lookup r G = some t

/-- The case without grammars in braces: the grammar has all rules itself. -/
abbrev Grammar.Convertible (g : Grammar) : Prop := g.ConvertibleIn g

end Wbnf

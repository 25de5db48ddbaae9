import Verif.Lemmas.TypesDeclClosed
import Verif.Lemmas.TypesDeclTotal
import Verif.Props.Types

/-!
# C60 The generated types and accessors are declared, once
-/

namespace Wbnf

variable {camel : Str → Str} {rnd : Nat → Nat} {tm : TypeMap} {g : Grammar}

/-- **C60** Types are made, without a panic, for every grammar whose references are to rules in sight and whose rules each
have something for their types. -/
theorem C60_total_partial (hs : inSightRules (g.map Prod.fst) g = true) (ha : ∀ e ∈ g, e.2.adds = true) (hd : g.Deep Term.Fruitful) :
    ∃ tm, makeTypes camel rnd g = some tm := makeTypes_total hs ha hd

/-- **C60** No type is declared twice. -/
theorem C60_types_once (hm : makeTypes camel rnd g = some tm) : (allTypes camel tm).Nodup := by
  obtain ⟨h1, h2⟩ := makeTypes_keyed hm
  have : allTypes camel tm = tm.map Prod.fst := List.map_congr_left h2
  rw [this]
  exact h1

/-- **C60** Every rule has its type. -/
theorem C60_rules (hm : makeTypes camel rnd g = some tm) : ∀ r t, (r, t) ∈ g → typeOf camel r ∈ allTypes camel tm := by
  have hkey := makeTypes_keyed hm
  simp only [makeTypes, Option.map_eq_some_iff] at hm
  obtain ⟨st, h, rfl⟩ := hm
  intro r t hr
  obtain ⟨y, hy⟩ := Option.ne_none_iff_exists'.1 (walkRules_has g h _ hr)
  exact List.mem_map.2 ⟨_, lookup_mem hy, hkey.2 _ (lookup_mem hy)⟩

/-- **C60** Every type that an accessor returns is declared. Partial: names are given only to `@`, to rules of the grammar
whose types are made from their names, and to what is not empty. -/
theorem C60_declared_partial (hm : makeTypes camel rnd g = some tm) (hd : g.Deep (Term.Makes (g.map fun e => typeOf camel e.1) camel)) :
    ∀ d ∈ allMethods camel tm, ∀ ty, d.does.returns = some ty → ty ∈ allTypes camel tm :=
  fun _ h _ he => makeTypes_closed hm hd h he

/-- **C60** No type has two accessors of the same name. Partial: `Untangled` says of the names in a grammar that different
uses of them make different Go names. -/
theorem C60_methods_partial (hm : makeTypes camel rnd g = some tm) (hu : Untangled camel (g.usages camel)) :
    ((allMethods camel tm).map fun d => (d.receiver, d.name)).Nodup := by
  obtain ⟨rs, h⟩ := makeTypes_decl hu hm
  exact methods_nodup hu h

/-- **C60** Every accessor belongs to a type that is declared. -/
theorem C60_receivers_partial (hm : makeTypes camel rnd g = some tm) (hu : Untangled camel (g.usages camel)) :
    ∀ d ∈ allMethods camel tm, d.receiver ∈ allTypes camel tm := by
  obtain ⟨rs, h⟩ := makeTypes_decl hu hm
  intro d hd
  obtain ⟨⟨ty, x⟩, hx, hd⟩ := List.mem_flatMap.1 hd
  have := (type_headers hu h hx).2 _ (List.mem_map_of_mem hd)
  exact List.mem_map.2 ⟨_, hx, (h.declares _ hx).trans this.symm⟩

namespace Ex

/-- Types are made, and one has two accessors of the same name. -/
def Twice (g : Grammar) : Prop := ∃ tm, makeTypes cap id g = some tm ∧ ¬ ((allMethods cap tm).map fun d => (d.receiver, d.name)).Nodup

/-- Types are made, and an accessor returns one that is not declared. -/
def Undeclared (g : Grammar) : Prop :=
  ∃ tm, makeTypes cap id g = some tm ∧ ∃ d ∈ allMethods cap tm, ∃ ty, d.does.returns = some ty ∧ ty ∉ allTypes cap tm

theorem twice_of {g : Grammar} (h : (makeTypes cap id g).any (fun tm => decide ¬ ((allMethods cap tm).map fun d => (d.receiver, d.name)).Nodup) = true) : Twice g := by
  simpa [Twice, Option.any_eq_true] using h

theorem undeclared_of {g : Grammar} (h : (makeTypes cap id g).any (fun tm => (allMethods cap tm).any fun d => match d.does.returns with
    | some ty => decide (ty ∉ allTypes cap tm)
    | none => false) = true) : Undeclared g := by
  simp only [Option.any_eq_true, List.any_eq_true] at h
  obtain ⟨tm, h1, d, hd, h2⟩ := h
  refine ⟨tm, h1, d, hd, ?_⟩
  split at h2
  · rename_i ty e
    exact ⟨ty, e, by simpa using h2⟩
  · simp at h2

/-- `a -> x="x" b; b -> %x %x;` -/
def gRefs : Grammar := [(str "a", .seq [.named (str "x") (.s (str "x")), .rule (str "b")]), (str "b", .seq [.ref (str "x") none, .ref (str "x") none])]

/-- `a -> token "x"; token -> "y";` -/
def gToken : Grammar := [(str "a", .seq [.rule (str "token"), .s (str "x")]), (str "token", .s (str "y"))]

/-- `a -> @ "+" @ > "(" a ")" a;` -/
def gSelf : Grammar := [(str "a", .stack [.seq [.rule atRule, .s (str "+"), .rule atRule], .seq [.s (str "("), .rule (str "a"), .s (str ")"), .rule (str "a")]])]

/-- `a -> x=(@ "!") "?" @ > "b";` -/
def gSelfInGroup : Grammar := [(str "a", .stack [.seq [.named (str "x") (.seq [.rule atRule, .s (str "!")]), .s (str "?"), .rule atRule], .s (str "b")])]

/-- `a -> "x" | ab="x" Ab="y";` -/
def gAlike : Grammar := [(str "a", .oneof [.s (str "x"), .seq [.named (str "ab") (.s (str "x")), .named (str "Ab") (.s (str "y"))]])]

/-- `a -> x=b "!" {b -> "b" "c";};` -/
def gInnerNamed : Grammar := [(str "a", .scope (.seq [.named (str "x") (.rule (str "b")), .s (str "!")]) [(str "b", .seq [.s (str "b"), .s (str "c")])])]

/-- `a -> x=() "!";` -/
def gEmptyGroup : Grammar := [(str "a", .seq [.named (str "x") (.seq []), .s (str "!")])]

/-- `a -> x=bNode "!"; bNode -> "b";` -/
def gSuffix : Grammar := [(str "a", .seq [.named (str "x") (.rule (str "bNode")), .s (str "!")]), (str "bNode", .s (str "b"))]

end Ex

/-- **C60** Not for all grammars: the same back reference twice. -/
theorem C60_references : Ex.Twice Ex.gRefs := Ex.twice_of (by decide +kernel)

/-- **C60** A rule called `token`. -/
theorem C60_token : Ex.Twice Ex.gToken := Ex.twice_of (by decide +kernel)

/-- **C60** A stack with `@` and with its own name. -/
theorem C60_self : Ex.Twice Ex.gSelf := Ex.twice_of (by decide +kernel)

/-- **C60** `@` in a named group and outside of it. -/
theorem C60_self_in_group : Ex.Twice Ex.gSelfInGroup := Ex.twice_of (by decide +kernel)

/-- **C60** Names that Go names do not tell apart. -/
theorem C60_alike : Ex.Twice Ex.gAlike := Ex.twice_of (by decide +kernel)

/-- **C60** A name for a rule in braces. -/
theorem C60_inner : Ex.Undeclared Ex.gInnerNamed := Ex.undeclared_of (by decide +kernel)

/-- **C60** A name for nothing. -/
theorem C60_empty_group : Ex.Undeclared Ex.gEmptyGroup := Ex.undeclared_of (by decide +kernel)

/-- **C60** A name for a rule whose name ends with `Node`: a grammar in which `bNode` is a rule, and accessors are for
another type than that made for it. -/
theorem C60_suffix : ∃ tm, makeTypes Ex.cap id Ex.gSuffix = some tm ∧ typeOf Ex.cap (str "bNode") = str "BNode" ∧
    ∃ d ∈ allMethods Ex.cap tm, d.does = .oneNode (str "x") (str "bNode") ∧ str "bNode" ∉ allTypes Ex.cap tm :=
  ⟨_, rfl, by decide +kernel, by decide +kernel⟩

/-- **C60** An empty rule: no types are made at all, there is a panic. -/
theorem C60_empty_rule : makeTypes Ex.cap id [(str "a", .seq [])] = none := by decide +kernel

open Ex in
/-- The hypotheses, for a grammar with a stack, named rules, a named group, alternatives and a rule in braces. -/
example : let g : Grammar := gStmt ++ [(str "q", .scope (.seq [.rule (str "c"), .ref (str "c") none]) [(str "c", .s (str "c"))])]
    inSightRules (g.map Prod.fst) g = true ∧ (∀ e ∈ g, e.2.adds = true) ∧ g.Deep Term.Fruitful ∧
    g.Deep (Term.Makes (g.map fun e => typeOf cap e.1) cap) ∧ Untangled cap (g.usages cap) ∧
    (makeTypes cap id g).map (fun tm => ((allMethods cap tm).length, (allTypes cap tm).length)) = some (16, 7) := by
  refine ⟨by decide +kernel, by decide +kernel, ?_, ?_, by decide +kernel, by decide +kernel⟩
  · simp [gStmt, optT, Grammar.Deep, deepDefs, Term.Deep, deepList, Term.Fruitful, Term.adds]
  · simp [gStmt, optT, Grammar.Deep, deepDefs, Term.Deep, deepList, Term.Makes, Term.adds, addsAny]
    decide +kernel

end Wbnf

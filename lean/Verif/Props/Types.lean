import Verif.Lemmas.TypesGrammar
import Verif.Lemmas.TypesCheck
import Verif.Props.AstQuery

/-!
# C58 Generated types
-/

namespace Wbnf

variable {E : Engine} {X : Externals} {camel : Str → Str} {rnd : Nat → Nat} {tm : TypeMap} {g : Grammar} {m n k : Nat} {ps : Parsers}
  {r : Str} {inp rest : Scanner} {ρ : Nat → Nat}

/-! ## C58 -/

/-- **C58** The AST of what a rule parses can be read with the methods of the type made for the rule, and so can the nodes that
the methods return: nothing under a name is out of reach, and no method that is used for it panics. Partial: for grammars as
`Grammar.Typed` says, without braces, whose rules return nodes; the other hypotheses are those of C31 and C02. -/
theorem C58_legible_partial (hE : E.Sane) (hg : g.wf = true) (hc : g.compile E m = .ok ps) (hG : ps.grammar.Convertible) (hesc : X.esc = none)
    (hin : inp.InRange) (hx : NoExt [ps.grammar] (.rule r)) (hp : PatternsSatisfy (ReportsGroup E) [ps.grammar] (.rule r))
    (hm : makeTypes camel rnd g = some tm) (ht : g.Typed camel tm) {t0} (hr : (r, t0) ∈ g) {x cs}
    (h : ps.run E X ρ n r inp = .ok (.node r x cs) rest k) :
    ∃ b N, (∀ n, N ≤ n → fromParserNode n ps.grammar (.node r x cs) = .ok (ps.grammar, b)) ∧
      Legible camel tm (typeOf camel r) (.branch b) := by
  obtain ⟨t, parts, b, N, hl, h1, h2, h3⟩ := C31_unchanged_partial hg hc hG hesc h
  have hR := grammar_reads hm ht (compile_grammar hc)
  have hs := C02_leaves_inside hE hg hc hesc hin hx hp h
  have hT : HaveTexts (Tree.node r x cs).leaves := fun s hm => toStr_of_inside hin (hs s hm)
  refine ⟨b, N, h3, legible_of_groups hR.oneWay h2 ?_⟩
  have hf := h1.fitting hR hT _ (hR.rules r t hl)
  rw [(ht.names _ _ hr).2] at hf
  exact hf.tag (by decide)

namespace Ex

/-- `strcase.ToCamel` for names that are one word. -/
def cap : Str → Str
  | [] => []
  | c :: s => (if 97 ≤ c && c ≤ 122 then c - 32 else c) :: s

/-- The types of a grammar. -/
def typesOf (g : Grammar) : TypeMap := (makeTypes cap id g).getD []

/-- There are types; the text parses, and its AST can not be read with them. -/
def Illegible (g : Grammar) (r s : String) : Prop :=
  makeTypes cap id g = some (typesOf g) ∧ ∃ g' b, ast g r s = some (.ok (g', b)) ∧ ¬ Legible cap (typesOf g) (typeOf cap (str r)) (.branch b)

def illegibleB (g : Grammar) (r s : String) : Bool :=
  (makeTypes cap id g).isSome &&
  match ast g r s with
  | some (.ok (_, b)) => !legibleB cap (typesOf g) 10 (typeOf cap (str r)) (.branch b)
  | _ => false

theorem illegible_of {g : Grammar} {r s : String} (h : illegibleB g r s = true) : Illegible g r s := by
  simp only [illegibleB, Bool.and_eq_true] at h
  obtain ⟨h1, h2⟩ := h
  refine ⟨?_, ?_⟩
  · obtain ⟨tm, htm⟩ := Option.isSome_iff_exists.1 h1
    simp [typesOf, htm]
  · split at h2
    · rename_i g' b hb
      exact ⟨g', b, hb, not_legible 10 (by simpa using h2)⟩
    · simp at h2

/-- `stmt -> head=("let" ID) val=expr n=NUM?; expr -> @:op="+" > NUM | "(" @ ")"; NUM -> /{\d+}; ID -> /{[a-z]+};` -/
def gStmt : Grammar := [
  (str "stmt", .seq [.named (str "head") (.seq [.s (str "let"), .rule (str "ID")]), .named (str "val") (.rule (str "expr")),
    optT (.named (str "n") (.rule (str "NUM")))]),
  (str "expr", .stack [.delim (.rule atRule) (.named (str "op") (.s (str "+"))) 0 false false,
    .oneof [.rule (str "NUM"), .seq [.s (str "("), .rule atRule, .s (str ")")]]]),
  (str "NUM", .re (str "\\d+")), (str "ID", .re (str "[a-z]+"))]

/-- `a -> b:c; b -> "x"; c -> ",";` -/
def gSepRule : Grammar := [(str "a", .delim (.rule (str "b")) (.rule (str "c")) 0 false false), (str "b", .s (str "x")), (str "c", .s (str ","))]

/-- `a -> x=b "!"; b -> c c; c -> "x";` -/
def gNamedRule : Grammar := [(str "a", .seq [.named (str "x") (.rule (str "b")), .s (str "!")]), (str "b", .seq [.rule (str "c"), .rule (str "c")]), (str "c", .s (str "x"))]

/-- `a -> x="p" | x=(b "q"); b -> "b";` -/
def gTwoKinds : Grammar := [(str "a", .oneof [.named (str "x") (.s (str "p")), .named (str "x") (.seq [.rule (str "b"), .s (str "q")])]),
  (str "b", .s (str "b"))]

/-- `a -> x=(@ "+" @) "!" > b; b -> "b";` -/
def gNamedGroup : Grammar := [(str "a", .stack [.seq [.named (str "x") (.seq [.rule atRule, .s (str "+"), .rule atRule]), .s (str "!")], .rule (str "b")]), (str "b", .s (str "b"))]

/-- `r -> a; a -> b* "x"?; b -> "b";` -/
def gManyOrToken : Grammar := [(str "r", .rule (str "a")), (str "a", .seq [.quant (.rule (str "b")) 0 0, optT (.s (str "x"))]), (str "b", .s (str "b"))]

/-- There is a method of the type with this name, and it panics on the node. -/
def callPanics (tm : TypeMap) (ty name : String) (n : Ast) : Bool :=
  (allMethods cap tm).any fun d => d.receiver = str ty ∧ d.name = str name ∧ (d.does.run n).isNone

/-- The method panics on the AST of the text. -/
def methodPanics (g : Grammar) (r s ty name : String) : Bool :=
  match ast g r s with
  | some (.ok (_, b)) => callPanics (typesOf g) ty name (.branch b)
  | _ => false

/-- The method panics on the first node under the name `k` in the AST of the text. -/
def innerPanics (g : Grammar) (r s k ty name : String) : Bool :=
  match ast g r s with
  | some (.ok (_, b)) =>
    match (Ast.branch b).first (str k) with
    | some n => callPanics (typesOf g) ty name n
    | none => false
  | _ => false

end Ex

open Ex in
/-- The hypotheses, and a text of the grammar. -/
example : gStmt.wf = true ∧ gStmt.compile regexp 50 = .ok (comp! gStmt) ∧ (comp! gStmt).grammar.Convertible ∧
    PatternsSatisfy (ReportsGroup regexp) [(comp! gStmt).grammar] (.rule (str "stmt")) ∧ NoExt [(comp! gStmt).grammar] (.rule (str "stmt")) ∧
    makeTypes cap id gStmt = some (typesOf gStmt) ∧ gStmt.Typed cap (typesOf gStmt) ∧
    astKeys gStmt "stmt" "letx1+(2)3" = some [(ruleTag, none), (str "head", none), (str "val", none), (str "n", none)] := by
  have h := plainLeaf_check (q := Regex.setsLast) (Q := ReportsGroup regexp)
    (fun p => Regex.reportsGroup) (g := (comp! gStmt).grammar) (by rfl) (by decide +kernel) (str "stmt")
  refine ⟨by decide +kernel, comp_ok (by decide +kernel), convertible_of_convertibleB (by decide +kernel), h.1, h.2.2, by decide +kernel,
    typed_of_typedB (by decide +kernel), by decide +kernel⟩

/-- **C58** Not for all grammars. A rule after `:`: its nodes have an accessor in a type of their own that nothing returns. -/
theorem C58_separators : Ex.Illegible Ex.gSepRule "a" "x,x" := Ex.illegible_of (by decide +kernel)

/-- **C58** A name for a rule: what its type wraps is the node above that of the rule, where its accessors find nothing. -/
theorem C58_named_rules : Ex.Illegible Ex.gNamedRule "a" "xx!" := Ex.illegible_of (by decide +kernel)

/-- **C58** A name used for a token and for a group. -/
theorem C58_two_kinds : Ex.Illegible Ex.gTwoKinds "a" "bq" := Ex.illegible_of (by decide +kernel)

/-- **C58** `@` in a named group: the accessor is in the type of the rule, not in that of the group. -/
theorem C58_named_groups : Ex.Illegible Ex.gNamedGroup "a" "b+b!" := Ex.illegible_of (by decide +kernel)

/-- **C58** Accessors that are not needed to read a node may panic: All for a name that is repeated by a reference. -/
theorem C58_panics_reference : Ex.methodPanics Ex.gAgain "a" "xx" "ANode" "AllN" = true := by decide +kernel

/-- **C58** And Token, for a node with nothing but a list. -/
theorem C58_panics_token : Ex.innerPanics Ex.gManyOrToken "r" "bb" "a" "ANode" "OneToken" = true := by decide +kernel

end Wbnf

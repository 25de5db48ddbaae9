import Verif.Lemmas.References
import Verif.Props.Recursion

/-!
# C40: validation
-/

namespace Wbnf

variable {reOK : Str → Bool} {ord : List Str → List Str → List Str} {g : GrammarN}

theorem validate_nil : validate reOK ord g = .ok [] ↔ (findDefinedRules g).dupes = [] ∧
    (walk (validatorOps reOK (findDefinedRules g).out (findDefinedRules g).macros) g.tree ⟨[], false⟩).1.Clean ∧ badRoutes ord g = [] := by
  unfold validate
  simp only
  split
  · rename_i h
    simp only [ne_eq] at h
    simp [h]
  · rename_i h
    simp only [ne_eq, Classical.not_not] at h
    split
    · rename_i hp
      simp [Verdict.Clean, hp]
    · rename_i hp
      simp only [Bool.not_eq_true] at hp
      simp only [Except.ok.injEq, h, true_and, Verdict.Clean, hp, and_true]
      unfold Verdict.report
      split
      · rename_i hb
        simp only [ne_eq, decide_not, Bool.not_eq_true', decide_eq_false_iff_not] at hb
        simp [hb]
      · rename_i hb
        simp only [ne_eq, decide_not, Bool.not_eq_true', decide_eq_false_iff_not, Classical.not_not] at hb
        simp [hb]

/-- **C40** Validation reports no error exactly if the grammar is as it demands, its bounds are numbers that fit an `int`, and the
check for recursion (C39) finds nothing. -/
theorem C40_exact : validate reOK ord g = .ok [] ↔ Valid reOK g ∧ g.Ints ∧ badRoutes ord g = [] := by
  rw [validate_nil, dupes_iff, walk_clean]
  constructor
  · rintro ⟨hd, hw, hb⟩
    refine ⟨⟨hd, ?_, ?_, ?_, ?_, ?_, ?_, ?_⟩, ?_, hb⟩
    · intro i h
      exact (hw _ h).imp id (mem_out g i).1
    · intro lo hi h
      exact (hw _ h).2
    · intro x h
      exact hw _ h
    · intro x a h hx
      exact hw _ h ((mem_out g x).2 hx)
    · intro ts h
      exact hw _ h
    · intro m as t h
      have := hw _ (checked_macrodef.2 h)
      exact ⟨this.1, fun a ha hx => this.2 a ha ((mem_out g a).2 hx)⟩
    · intro m ts h
      obtain ⟨mc, h1, h2⟩ := hw _ h
      exact ⟨_, _, (lookup_macros hd).1 h1, h2⟩
    · intro lo hi h
      exact (hw _ h).1
  · rintro ⟨hv, hi, hb⟩
    refine ⟨hv.distinct, fun i hc => ?_, hb⟩
    match i, hc with
    | .term (.many [] [] ts), hc => exact hv.repeats ts hc
    | .term (.many (_ :: _) _ _), _ => trivial
    | .term (.many [] (_ :: _) _), _ => trivial
    | .term (.one _ _), _ => trivial
    | .named (.mk (some x) a), hc => exact fun hx => hv.labels x a hc ((mem_out g x).1 hx)
    | .named (.mk none _), _ => trivial
    | .atom (.ident i), hc => exact (hv.known i hc).imp id (mem_out g i).2
    | .atom (.re x), hc => exact hv.regexps x hc
    | .atom (.str _), _ => trivial
    | .atom (.macrocall _ _), _ => trivial
    | .atom (.ext _), _ => trivial
    | .atom (.ref _ _), _ => trivial
    | .atom (.look _), _ => trivial
    | .atom (.term _), _ => trivial
    | .atom .unit, _ => trivial
    | .quant (.range lo hi'), hc => exact ⟨hi lo hi' hc, hv.bounds lo hi' hc⟩
    | .quant (.op _), _ => trivial
    | .quant (.sep _ _ _ _), _ => trivial
    | .macrodef m as t, hc =>
      have := hv.args m as t (checked_macrodef.1 hc)
      exact ⟨this.1, fun a ha hx => this.2 a ha ((mem_out g a).1 hx)⟩
    | .macrocall m ts, hc =>
      obtain ⟨as, t, h1, h2⟩ := hv.calls m ts hc
      exact ⟨⟨as, t⟩, (lookup_macros hv.distinct).2 h1, h2⟩
    | .stmt _, _ => trivial
    | .grammar _, _ => trivial
    | .ext _, _ => trivial
    | .ref _ _, _ => trivial
    | .prod _ _, _ => trivial
    | .pragma _, _ => trivial
    | .imp _, _ => trivial
    | .impPath _, _ => trivial
    | .comment _, _ => trivial
    | .ident _, _ => trivial
    | .int _, _ => trivial
    | .re _, _ => trivial
    | .str _, _ => trivial

/-- **C40** If validation reports no error then every rule referred to (outside of macro definitions and terms with grammars in
braces) is defined, no rule is defined twice and no bounds are swapped. Partial: the name of a macro passes for that of a rule
(`C40_macro_as_rule`), and `@` passes everywhere (`C40_at`). -/
theorem C40_sound_partial (h : validate reOK ord g = .ok []) :
    (∀ r, g.Checked (.atom (.ident r)) → r = str "@" ∨ (∃ ts, .prod r ts ∈ g.stmts) ∨ ∃ as t, .macrodef r as t ∈ g.stmts) ∧
    (g.stmts.filterMap StmtN.name).Nodup ∧
    ∀ lo hi, g.Checked (.quant (.range lo hi)) → boundValue hi = 0 ∨ boundValue lo ≤ boundValue hi := by
  obtain ⟨hv, -, -⟩ := C40_exact.1 h
  refine ⟨fun r hr => (hv.known r hr).imp id fun hm => ?_, hv.distinct, hv.bounds⟩
  obtain ⟨s, hs, he⟩ := List.mem_filterMap.1 hm
  cases s with
  | prod i ts => simp only [StmtN.name, Option.some.injEq] at he; exact .inl ⟨ts, he ▸ hs⟩
  | macrodef m as t => simp only [StmtN.name, Option.some.injEq] at he; exact .inr ⟨as, t, he ▸ hs⟩
  | comment _ => simp [StmtN.name] at he
  | imp _ => simp [StmtN.name] at he

/-- Neither grammars in braces nor macros. -/
def GrammarN.Flat (g : GrammarN) : Prop := (∀ op gs ts, g.Checked (.term (.many op gs ts)) → gs = []) ∧
  (∀ m ts, ¬ g.Checked (.macrocall m ts)) ∧ ∀ m as t, .macrodef m as t ∉ g.stmts

/-- **C40** A grammar built from a source that was accepted has no dangling references, if there are no macros and no grammars
in braces. -/
theorem C40_no_dangling (hf : g.Flat) (h : validate reOK ord g = .ok []) {n : Nat} {G : Grammar} (hG : newFromAst n g = .ok G) {x : Str}
    (hx : usesDefs x G) : x = str "@" ∨ ∃ t, (x, t) ∈ G := by
  simp only [newFromAst, ebind_ok, Except.ok.injEq] at hG
  obtain ⟨G', hb, rfl⟩ := hG
  cases n with
  | zero => simp [buildGrammar] at hb
  | succ n =>
    cases g with
    | mk ss =>
      rw [buildGrammar] at hb
      have hp : (GrammarN.mk ss).tree.Plain := by
        intro i hi
        match i, hi with
        | .term (.many op gs ts), hi => exact hf.1 op gs ts hi
        | .macrocall m ts, hi => exact hf.2.1 m ts hi
        | .term (.one _ _), _ => trivial
        | .named _, _ => trivial
        | .atom _, _ => trivial
        | .quant _, _ => trivial
        | .stmt _, _ => trivial
        | .grammar _, _ => trivial
        | .ext _, _ => trivial
        | .ref _ _, _ => trivial
        | .prod _ _, _ => trivial
        | .pragma _, _ => trivial
        | .imp _, _ => trivial
        | .impPath _, _ => trivial
        | .macrodef _ _ _, _ => trivial
        | .comment _, _ => trivial
        | .ident _, _ => trivial
        | .int _, _ => trivial
        | .re _, _ => trivial
        | .str _, _ => trivial
      rw [GrammarN.tree] at hp
      obtain ⟨h1, -, h3⟩ := buildStmts_found (fun s hs => plain_kid hp rfl (mem_stmtTrees.2 ⟨s, hs, rfl⟩)) hb
      obtain ⟨k, t, he, ht⟩ := usesDefs_iff.1 (usesDefs_fix _ hx)
      rcases h3 _ he with h3 | h3
      · simp at h3
      obtain ⟨s, hs, ho⟩ := h3 x ht
      have hc : (GrammarN.mk ss).Checked (.atom (.ident x)) := by
        unfold GrammarN.Checked
        rw [GrammarN.tree]
        exact .inner rfl (mem_stmtTrees.2 ⟨s, hs, rfl⟩) ho
      rcases (C40_sound_partial h).1 x hc with h | ⟨ts, h⟩ | ⟨as, t, h⟩
      · exact .inl h
      · obtain ⟨v, hv⟩ := hasKey_iff.1 (h1 x ts h)
        exact .inr ⟨_, mem_rebuild (lookup_mem hv)⟩
      · exact absurd h (hf.2.2 x as t)

/-! ## Examples and violations -/

namespace Ex

/-- `a -> b{1,2} "x"; b -> "y" | "z":b;` -/
def nGood : GrammarN := .mk [.prod (str "a") [sq [.one (.mk none (.ident (str "b"))) [.range (some (str "1")) (some (str "2"))], lit "`x`" []]],
  .prod (str "b") [alt [lit "`y`" [], .one (.mk none (.str (str "`z`"))) [.sep (str ":") false false (.mk none (.ident (str "b")))]]]]
/-- `a -> m; .macro m(x) { x }` -/
def nMacroAsRule : GrammarN := .mk [.prod (str "a") [rn "m"], .macrodef (str "m") [str "x"] (rn "x")]
/-- `a -> b { c -> d; };` -/
def nBraces : GrammarN := .mk [.prod (str "a") [.many [] [.mk [.prod (str "c") [rn "d"]]] [rn "b"]]]
/-- `.macro m(x) { x y } a -> %!m(a);` -/
def nMacroBody : GrammarN := .mk [.macrodef (str "m") [str "x"] (sq [rn "x", rn "y"]), .prod (str "a") [.one (.mk none (.macrocall (str "m") [rn "a"])) []]]
/-- `.macro m(x) { %!m(x) } a -> %!m(a);` -/
def nLoop : GrammarN := .mk [.macrodef (str "m") [str "x"] (.one (.mk none (.macrocall (str "m") [rn "x"])) []),
  .prod (str "a") [.one (.mk none (.macrocall (str "m") [rn "a"])) []]]
/-- `a -> @;` -/
def nAt : GrammarN := .mk [.prod (str "a") [rn "@"]]
/-- `a -> "x"{9223372036854775808,};` -/
def nHuge : GrammarN := .mk [.prod (str "a") [lit "`x`" [.range (some (str "9223372036854775808")) none]]]
/-- `a -> b{3,2} %!m(a) x=a x=a b="y" /{(} u %!q(a); a -> a; b -> "x"; .macro q(a, c, c) { c }`, with and without the second `a`. -/
def nBad (again : List StmtN) : GrammarN := .mk ([.prod (str "a") [sq [.one (.mk none (.ident (str "b"))) [.range (some (str "3")) (some (str "2"))],
    .one (.mk none (.macrocall (str "m") [rn "a"])) [], .one (.mk (some (str "x")) (.ident (str "a"))) [], .one (.mk (some (str "x")) (.ident (str "a"))) [],
    .one (.mk (some (str "b")) (.str (str "`y`"))) [], .one (.mk none (.re (str "/{(}"))) [], rn "u", .one (.mk none (.macrocall (str "q") [rn "a"])) []]]] ++ again ++
  [.prod (str "b") [lit "`x`" []], .macrodef (str "q") [str "a", str "c", str "c"] (rn "c")])

end Ex

open Ex

/-- A grammar that is accepted, without macros and braces; its references are those of `b`. -/
example : nGood.Flat ∧ validate (fun _ => true) asWritten nGood = .ok [] ∧
    ∃ G, newFromAst 20 nGood = .ok G ∧ usesDefs (str "b") G ∧ hasKey (str "b") G = true := by
  refine ⟨⟨?_, ?_, by simp [nGood, GrammarN.stmts]⟩, by decide +kernel,
    [(str "a", .seq [.quant (.rule (str "b")) 1 2, .cut (.s (str "x"))]),
     (str "b", .oneof [.cut (.s (str "y")), .delim (.cut (.s (str "z"))) (.rule (str "b")) 0 false false])], rfl, ?_, by decide +kernel⟩
  · intro op gs ts h
    simp [nGood, GrammarN.Checked, GrammarN.tree, stmtTrees, StmtN.tree, termTrees, TermN.tree, NamedN.tree, AtomN.tree, quantTrees, QuantN.tree,
      grammarTrees, tipOf, outer_mk, outer_tip_iff, Ex.sq, alt, lit, Item.unchecked] at h
    rcases h with ⟨-, h⟩ | ⟨-, h⟩
    · exact h.1
    · exact h.1
  · intro m ts h
    simp [nGood, GrammarN.Checked, GrammarN.tree, stmtTrees, StmtN.tree, termTrees, TermN.tree, NamedN.tree, AtomN.tree, quantTrees, QuantN.tree,
      grammarTrees, tipOf, outer_mk, outer_tip_iff, Ex.sq, alt, lit, Item.unchecked] at h
  · simp [usesDefs, Term.Uses, usesList]

/-- An error is reported for each place; but a name that is defined twice is the only error then. -/
example : validate (fun x => x != str "/{(}") asWritten (nBad []) = .ok [.multipleTermsWithSameName, .minMaxQuantError, .notAMacro,
      .nameClashesWithRule, .invalidRegex, .unknownRule, .incorrectMacroArgCount, .nameClashesWithRule, .nameClashesWithRule] ∧
    validate (fun x => x != str "/{(}") asWritten (nBad [.prod (str "a") [rn "a"]]) = .ok [.duplicatedRule] := by decide +kernel

/-- **C40** The name of a macro passes for the name of a rule: `a -> m; .macro m(x) { x }` is accepted, and there is no rule `m`. -/
theorem C40_macro_as_rule : validate reOK asWritten nMacroAsRule = .ok [] ∧ newFromAst 20 nMacroAsRule = .ok [(str "a", .rule (str "m"))] :=
  ⟨by rfl, rfl⟩

/-- **C40** Nothing is checked in terms with grammars in braces, nor in the bodies of macros: `a -> b { c -> d; };` is accepted,
and so is `.macro m(x) { x y } a -> %!m(a);`. There are no rules `b`, `d` and `y`. -/
theorem C40_unchecked : validate reOK asWritten nBraces = .ok [] ∧ newFromAst 20 nBraces = .ok [(str "a", .scope (.rule (str "b")) [(str "c", .rule (str "d"))])] ∧
    validate reOK asWritten nMacroBody = .ok [] ∧ newFromAst 20 nMacroBody = .ok [(str "a", .seq [.rule (str "a"), .rule (str "y")])] :=
  ⟨by rfl, rfl, by rfl, rfl⟩

/-- **C40** A macro that calls itself is accepted, and building the grammar never ends. -/
theorem C40_recursive_macro (n : Nat) : validate reOK asWritten nLoop = .ok [] ∧ newFromAst n nLoop = .error .oof := by
  refine ⟨by rfl, ?_⟩
  match n with
  | 0 => rfl
  | 1 => rfl
  | 2 => rfl
  | 3 => rfl
  | 4 => rfl
  | 5 => rfl
  | n + 6 =>
    have hm : macrosOf nLoop = msLoop := rfl
    rw [newFromAst, hm, nLoop, buildGrammar, buildStmts, buildStmts, mapE, buildTerm, buildNamed]
    have := C38_recursive
    rw [this]
    rfl

/-- **C40** `@` passes everywhere: `a -> @;` is accepted, and cannot be compiled. -/
theorem C40_at : validate reOK asWritten nAt = .ok [] ∧ ∃ G, newFromAst 20 nAt = .ok G ∧ G.compile regexp 20 = .error .panic :=
  ⟨by rfl, _, rfl, by rfl⟩

/-- **C40** A bound over 2⁶³ - 1 makes validation panic. -/
theorem C40_huge_bound : validate reOK asWritten nHuge = .error .panic := by rfl

end Wbnf

import Verif.Lemmas.TypesManyGrammar
import Verif.Props.Types

/-!
# C59 Accessors for many children
-/

namespace Wbnf

variable {E : Engine} {X : Externals} {camel : Str → Str} {rnd : Nat → Nat} {tm : TypeMap} {g G : Grammar} {m n k : Nat} {ps : Parsers}
  {r : Str} {inp rest : Scanner} {ρ : Nat → Nat}

/-- **C59** Of every rule, every layer of a stack and every named group in them: where there may be more than one child of a
name, the type has an accessor for all of them. Partial: for grammars as in C58, and for names as `Term.clear` says. -/
theorem C59_accessors_partial (hm : makeTypes camel rnd g = some tm) (ht : g.Typed camel tm) (hr : g.resolveStacks = some G) {t}
    (hl : lookup r G = some t) {q} (hq : q = (goName camel (shownName r), t) ∨ q ∈ t.groups camel (goName camel (shownName r)))
    {key : Str} (hk : ChildName key) (hc : q.2.clear key = true) (hn : ¬ AtMostOne q.2 key) : ReadsAll camel tm (goTypeName camel q.1) key := by
  obtain ⟨n, h1, h2⟩ : ∃ n, Times q.2 key n ∧ 2 ≤ n := by
    apply Classical.byContradiction
    intro hx
    refine hn fun n hn => ?_
    apply Classical.byContradiction
    intro h2
    exact hx ⟨n, hn, by omega⟩
  obtain ⟨d, hd, hrec, hdo⟩ := (many_known hm ht hr hl hk.1.1 hk.2 q (List.mem_cons.2 hq) hc n h1 h2).method (makeTypes_done hm ht).1 hk
  exact ⟨d, hd, hrec, hdo.imp_right fun h => h.1⟩

/-- **C59** So a list of children in the AST of what the rule parses is returned as a whole by an accessor of its type. -/
theorem C59_lists_partial (hE : E.Sane) (hg : g.wf = true) (hc : g.compile E m = .ok ps) (hG : ps.grammar.Convertible) (hesc : X.esc = none)
    (hin : inp.InRange) (hx : NoExt [ps.grammar] (.rule r)) (hp : PatternsSatisfy (ReportsGroup E) [ps.grammar] (.rule r))
    (hm : makeTypes camel rnd g = some tm) (ht : g.Typed camel tm) {t0} (hr : (r, t0) ∈ g) {t} (hl : lookup r ps.grammar = some t)
    {key : Str} (hk : ChildName key) (hcl : t.clear key = true) {x cs} (h : ps.run E X ρ n r inp = .ok (.node r x cs) rest k) :
    ∃ b N, (∀ n, N ≤ n → fromParserNode n ps.grammar (.node r x cs) = .ok (ps.grammar, b)) ∧
      ∀ ns, lookup key b = some (.many ns) → ∃ d ∈ allMethods camel tm, d.receiver = typeOf camel r ∧
        ((∃ ty, d.does.run (.branch b) = some (.nodes ty ns)) ∨ ∃ xs, d.does.run (.branch b) = some (.texts xs) ∧ mapO Ast.text ns = some xs) := by
  obtain ⟨t', parts, b, N, hl', h1, h2, h3⟩ := C31_unchanged_partial hg hc hG hesc h
  rw [hl] at hl'
  obtain rfl := Option.some.inj hl'
  have hR := grammar_reads hm ht (compile_grammar hc)
  have hs := C02_leaves_inside hE hg hc hesc hin hx hp h
  have hT : HaveTexts (Tree.node r x cs).leaves := fun s hm => toStr_of_inside hin (hs s hm)
  refine ⟨b, N, h3, fun ns hns => ?_⟩
  have hname := (ht.names _ _ hr).2
  have hf := h1.fitting hR hT _ (hR.rules r t hl)
  rw [hname] at hf
  have hnt : isTagName key = false := hk.1.2
  have hct : key ≠ choiceTag ∧ key ≠ emptyTag := by
    constructor <;> · rintro rfl; revert hnt; decide
  have hparts : partsNamed key ((ruleTag, .extra (.rule r)) :: parts) = ns ∧ ¬ AtMostOne t key := by
    have h4 := h2.2 key
    cases hp : partsNamed key ((ruleTag, .extra (.rule r)) :: parts) with
    | nil => rw [hp] at h4; simp only at h4; rw [h4] at hns; simp at hns
    | cons y ys =>
      rw [hp] at h4
      simp only at h4
      by_cases ha : AtMostOne t key
      · have := (h4.1 ⟨ha, hct⟩).2
        rw [this] at hns
        simp at hns
      · have := h4.2 fun h => ha h.1
        rw [this] at hns
        simp only [Option.some.injEq, Kids.many.injEq] at hns
        exact ⟨hns, ha⟩
  obtain ⟨hpn, hmany⟩ := hparts
  obtain ⟨j, hj1, hj2⟩ : ∃ n, Times t key n ∧ 2 ≤ n := by
    apply Classical.byContradiction
    intro hx
    refine hmany fun n hn => ?_
    apply Classical.byContradiction
    intro h2
    exact hx ⟨n, hn, by omega⟩
  have hkn := many_known hm ht (compile_grammar hc) hl hk.1.1 hk.2 _ (List.mem_cons_self ..) hcl j hj1 hj2
  rw [hname] at hkn
  obtain ⟨d, hd, hrec, hdo⟩ := hkn.method (makeTypes_done hm ht).1 hk
  have hall : (Ast.branch b).all key = ns := by rw [groups_all h2 key, hpn]
  refine ⟨d, hd, hrec, ?_⟩
  rcases hdo with ⟨ty, hdo⟩ | ⟨hdo, hu⟩
  · exact .inl ⟨ty, by rw [hdo]; simp [GoMethod.run, hall]⟩
  · right
    have fits : ∀ a ∈ ns, Fitting camel tm .text a := by
      intro a ha
      rw [← hpn] at ha
      obtain ⟨u, ⟨⟨u', hu', rfl⟩, _⟩, hfit⟩ := hf.tag (k := ruleTag) (by decide) _ (mem_partsNamed.1 ha) hk.1
      have := ht.oneWay _ hu _ hu' rfl rfl
      simp only at this
      subst this
      exact hfit
    obtain ⟨xs, h4, h5⟩ := mapO_fitting fits
    exact ⟨xs, by rw [hdo]; simp [GoMethod.run, hall, h4], h5⟩

namespace Ex

/-- `a -> b c* x=(d d):","; b -> @:op="+" > "b"; c -> "c"; d -> "d";` -/
def gMany : Grammar := [
  (str "a", .seq [.rule (str "b"), .quant (.rule (str "c")) 0 0, .delim (.named (str "x") (.seq [.rule (str "d"), .rule (str "d")])) (.s (str ",")) 0 false false]),
  (str "b", .stack [.delim (.rule atRule) (.named (str "op") (.s (str "+"))) 0 false false, .s (str "b")]), (str "c", .s (str "c")), (str "d", .s (str "d"))]

/-- There are types; the AST of the text has more than one child under the name, and the type has no accessor for all. -/
def Lost (g : Grammar) (r s k : String) : Prop :=
  makeTypes cap id g = some (typesOf g) ∧ ∃ g' b ns, ast g r s = some (.ok (g', b)) ∧ lookup (str k) b = some (.many ns) ∧ 2 ≤ ns.length ∧
    ¬ ReadsAll cap (typesOf g) (typeOf cap (str r)) (str k)

def lostB (g : Grammar) (r s k : String) : Bool :=
  (makeTypes cap id g).isSome &&
  match ast g r s with
  | some (.ok (_, b)) =>
    match lookup (str k) b with
    | some (.many ns) => decide (2 ≤ ns.length) && (allMethods cap (typesOf g)).all fun d => !decide (d.receiver = typeOf cap (str r)) ||
      match d.does with
      | .allNodes k' _ => decide (k' ≠ str k)
      | .allTexts k' => decide (k' ≠ str k)
      | _ => true
    | _ => false
  | _ => false

theorem lost_of {g : Grammar} {r s k : String} (h : lostB g r s k = true) : Lost g r s k := by
  simp only [lostB, Bool.and_eq_true] at h
  obtain ⟨h1, h2⟩ := h
  refine ⟨?_, ?_⟩
  · obtain ⟨tm, htm⟩ := Option.isSome_iff_exists.1 h1
    simp [typesOf, htm]
  · split at h2
    · rename_i g' b hb
      split at h2
      · rename_i ns hns
        simp only [Bool.and_eq_true, decide_eq_true_eq, List.all_eq_true] at h2
        refine ⟨g', b, ns, hb, hns, h2.1, ?_⟩
        rintro ⟨d, hd, hr, hdo⟩
        have := h2.2 d hd
        rcases hdo with ⟨ty, hdo⟩ | hdo <;> simp [hr, hdo] at this
      · simp at h2
    · simp at h2

/-- `a -> b (b | c); b -> "x"; c -> "y";` -/
def gAlternative : Grammar := [(str "a", .seq [.rule (str "b"), .oneof [.rule (str "b"), .rule (str "c")]]), (str "b", .s (str "x")), (str "c", .s (str "y"))]

/-- `a -> x="x" x="y";` -/
def gNamedTwice : Grammar := [(str "a", .seq [.named (str "x") (.s (str "x")), .named (str "x") (.s (str "y"))])]

/-- `a -> b:op="+"; b -> "b";` -/
def gSeparated : Grammar := [(str "a", .delim (.rule (str "b")) (.named (str "op") (.s (str "+"))) 0 false false), (str "b", .s (str "b"))]

/-- `a -> "x" "y";` -/
def gTwoTokens : Grammar := [(str "a", .seq [.s (str "x"), .s (str "y")])]

end Ex

/-- **C59** Not in general: one child beside an alternative with another. -/
theorem C59_alternatives : Ex.Lost Ex.gAlternative "a" "xx" "b" := Ex.lost_of (by decide +kernel)

/-- **C59** The same name given twice. -/
theorem C59_named_twice : Ex.Lost Ex.gNamedTwice "a" "xy" "x" := Ex.lost_of (by decide +kernel)

/-- **C59** Separators that are one literal. -/
theorem C59_separators : Ex.Lost Ex.gSeparated "a" "b+b+b" "op" := Ex.lost_of (by decide +kernel)

/-- **C59** Two tokens: only the first can be read. -/
theorem C59_tokens : makeTypes Ex.cap id Ex.gTwoTokens = some (Ex.typesOf Ex.gTwoTokens) ∧
    Ex.astKeys Ex.gTwoTokens "a" "xy" = some [(ruleTag, none), ([], some 2)] ∧
    ∀ d ∈ allMethods Ex.cap (Ex.typesOf Ex.gTwoTokens), d.does ≠ .allTokens := by
  refine ⟨by decide +kernel, by decide +kernel, by decide +kernel⟩

open Ex in
/-- The hypotheses. In the rule `a` all names are clear, in the stack `b` all but the one of the separators. -/
example : gMany.wf = true ∧ gMany.compile regexp 50 = .ok (comp! gMany) ∧ (comp! gMany).grammar.Convertible ∧
    PatternsSatisfy (ReportsGroup regexp) [(comp! gMany).grammar] (.rule (str "a")) ∧ NoExt [(comp! gMany).grammar] (.rule (str "a")) ∧
    makeTypes cap id gMany = some (typesOf gMany) ∧ gMany.Typed cap (typesOf gMany) ∧
    astKeys gMany "a" "b+bcdd,dd" = some [(ruleTag, none), (str "b", none), (str "c", some 1), (str "x", some 2), ([], some 1)] ∧
    (∃ t u, lookup (str "a") (comp! gMany).grammar = some t ∧ t.groups cap (str "A") = [(str "AX", u)] ∧
      t.clear (str "c") = true ∧ t.clear (str "x") = true ∧ u.clear (str "d") = true ∧ ¬ AtMostOne u (str "d")) := by
  have h := plainLeaf_check (q := Regex.setsLast) (Q := ReportsGroup regexp)
    (fun p => Regex.reportsGroup) (g := (comp! gMany).grammar) (by rfl) (by decide +kernel) (str "a")
  have e : (comp! gMany).grammar = [
      (str "a", .seq [.rule (str "b"), .quant (.rule (str "c")) 0 0, .delim (.named (str "x") (.seq [.rule (str "d"), .rule (str "d")])) (.s (str ",")) 0 false false]),
      (str "b", .delim (.rule (str "b@1")) (.named (str "op") (.s (str "+"))) 0 false false), (str "c", .s (str "c")), (str "d", .s (str "d")),
      (str "b@1", .s (str "b"))] := by decide +kernel
  refine ⟨by decide +kernel, comp_ok (by decide +kernel), convertible_of_convertibleB (by decide +kernel), h.1, h.2.2, by decide +kernel,
    typed_of_typedB (by decide +kernel), by decide +kernel, ?_⟩
  rw [e]
  refine ⟨_, .seq [.rule (str "d"), .rule (str "d")], rfl, by decide +kernel, by decide +kernel, by decide +kernel, by decide +kernel, ?_⟩
  intro ha
  have := ha _ (.seq (.cons .rule (.cons .rule .nil)))
  revert this
  decide +kernel

end Wbnf

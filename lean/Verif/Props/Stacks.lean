import Verif.Lemmas.ReorderCompile
import Verif.Lemmas.Effect
import Verif.Props.Safe
import Verif.Props.Terminates

/-!
# C20, C21, C22: what Compile does with stacks, map order and its argument

Specifications: `Layered`, `Term.uncut`, `Term.atTo`, `Term.flat`, `Grammar.Distinct`, `Grammar.LayersFresh`
(Spec/Stacks), `ReordDefs`, `Grammar.Tidy` (Spec/Reorder), `Grammar.Compilable` (Spec/Compiles).
-/

namespace Wbnf

variable {E : Engine} {X : Externals} {g g' : Grammar} {m : Nat} {ps ps' : Parsers} {r : Str} {inp : Scanner}

theorem compile_grammar (hc : g.compile E m = .ok ps) : g.resolveStacks = some ps.grammar := by
  unfold Grammar.compile at hc
  obtain ⟨g1, h1, h2⟩ := Except.bind_ok.1 hc
  obtain ⟨p, _, h3⟩ := Except.bind_ok.1 h2
  cases h3
  exact prepare_ok.1 h1

/-! ## C20 -/

/-- **C20** The compiled grammar has exactly the rules of the layered reading: every rule that is not a stack
as it was, and for a stack `r` of `n` layers the rules `r`, `r@1`, …, `r@(n-1)`, each being its layer with
`@` replaced by the next (in the last by `r`). -/
theorem C20_layers (hd : g.Distinct) (hf : g.LayersFresh) (hc : g.compile E m = .ok ps) {k : Str} {t : Term} :
    lookup k ps.grammar = some t ↔ Layered g k t :=
  resolveStacks_iff hd hf (compile_grammar hc)

/-- **C20** In particular, spelled out for one layer of one stack; without cut points in the layer, it is the
layer itself with `@` replaced. -/
theorem C20_layer (hd : g.Distinct) (hf : g.LayersFresh) (hc : g.compile E m = .ok ps) {ls : List Term} {i : Nat} {L : Term}
    (hm : (r, .stack ls) ∈ g) (hL : ls[i]? = some L) (hcut : L.uncut = L) :
    lookup (if i = 0 then r else r ++ str "@" ++ decimal i) ps.grammar =
      some (L.atTo (if i + 1 = ls.length then r else r ++ str "@" ++ decimal (i + 1))) := by
  have := (C20_layers hd hf hc).2 (.layer hm hL)
  rw [hcut] at this
  unfold layer at this
  rw [this]
  by_cases h : i + 1 = ls.length <;> simp [h]

/-- **C20** Rules that are not stacks are untouched. -/
theorem C20_others (hd : g.Distinct) (hf : g.LayersFresh) (hc : g.compile E m = .ok ps) {t : Term}
    (hm : (r, t) ∈ g) (ht : ∀ ls, t ≠ .stack ls) : lookup r ps.grammar = some t :=
  (C20_layers hd hf hc).2 (.plain hm fun _ _ => ht _)

theorem atTo_not_stack {new : Str} : (t : Term) → t.flat = true → ∀ ls, t.uncut.atTo new ≠ .stack ls
  | .rule r, _, ls => by simp only [Term.uncut, Term.atTo]; split <;> simp
  | .s _, _, ls => by simp [Term.uncut, Term.atTo]
  | .re _, _, ls => by simp [Term.uncut, Term.atTo]
  | .ref _ _, _, ls => by simp [Term.uncut, Term.atTo]
  | .ext _, _, ls => by simp [Term.uncut, Term.atTo]
  | .seq _, _, ls => by simp [Term.uncut, Term.atTo]
  | .oneof _, _, ls => by simp [Term.uncut, Term.atTo]
  | .stack _, h, ls => by simp [Term.flat] at h
  | .delim _ _ _ _ _, _, ls => by simp [Term.uncut, Term.atTo]
  | .look _, _, ls => by simp [Term.uncut, Term.atTo]
  | .quant _ _ _, _, ls => by simp [Term.uncut, Term.atTo]
  | .named _ _, _, ls => by simp [Term.uncut, Term.atTo]
  | .scope _ _, h, ls => by simp [Term.flat] at h
  | .cut t, h, ls => by simp only [Term.uncut]; exact atTo_not_stack t (by simpa [Term.flat] using h) ls

/-- **C20** No stack remains (a stack of no layers at all is no stack; compiling it panics). -/
theorem C20_no_stack (hd : g.Distinct) (hf : g.LayersFresh) (hc : g.compile E m = .ok ps) {k : Str} {l : Term} {ls : List Term} :
    lookup k ps.grammar ≠ some (.stack (l :: ls)) := by
  intro h
  generalize ht : Term.stack (l :: ls) = t at h
  cases (C20_layers hd hf hc).1 h with
  | plain _ hn => exact hn _ _ ht.symm
  | layer hm hL =>
    exact atTo_not_stack _ (flatList_iff.1 (resolveStacks_flat (compile_grammar hc) hm) _ (List.mem_of_getElem? hL)) _ ht.symm

/-- **C20** Stacks inside stacks and grammars in braces inside stacks make Compile panic. -/
theorem C20_panics {ls : List Term} {L : Term} (hm : (r, .stack ls) ∈ g) (hL : L ∈ ls) (hf : L.flat = false) :
    g.compile E m = .error .panic := by
  have : g.resolveStacks = none := resolveStacks_none.2 ⟨r, ls, hm, by
    cases h : flatList ls with
    | false => rfl
    | true => rw [flatList_iff.1 h L hL] at hf; simp at hf⟩
  simp [Grammar.compile, prepare, this, Except.bind]

/-- **C20** Cut points written in a stack are lost: `Layered` says so, and here is a case. -/
theorem C20_cut_lost :
    (Ex.comp! [(str "a", .stack [.seq [.s (str "x"), .cut (.s (str "y"))]])]).grammar =
      [(str "a", .seq [.s (str "x"), .s (str "y")])] := by
  decide +kernel

open Ex in
/-- The hypotheses of the theorems above, and what they say of the expression grammar. -/
example : gExpr.Distinct ∧ gExpr.LayersFresh ∧ gExpr.compile regexp 50 = .ok (comp! gExpr) ∧
    lookup (str "expr@3") (comp! gExpr).grammar =
      some (.oneof [.re (str "(\\d+)"), .seq [.s (str "("), .rule (str "expr"), .s (str ")")]]) ∧
    lookup (str "expr@1") (comp! gExpr).grammar =
      some (.delim (.rule (str "expr@2")) (.re (str "([*/])")) 0 false false) := by
  refine ⟨by unfold Grammar.Distinct gExpr; decide, ?_, comp_ok (by decide +kernel), by decide +kernel, by decide +kernel⟩
  intro r ls i t hm hi hl ht
  simp [gExpr] at hm ht
  obtain ⟨rfl, rfl⟩ := hm
  have := ht.1
  rw [layer_pos hi] at this
  simp at this

/-! ## C21 -/

/-- **C21** Whether a grammar can be compiled does not depend on the order of its rules, nor on that of the
rules of grammars in braces. -/
theorem C21_compiles (ht : g.Tidy) (hr : ReordDefs g g') :
    (∃ N ps, ∀ n, N ≤ n → g.compile E n = .ok ps) ↔ ∃ N ps, ∀ n, N ≤ n → g'.compile E n = .ok ps := by
  rw [compile_iff, compile_iff]
  exact ⟨fun h => h.reord hr ht, fun h => h.reord hr.symm (ht.reord hr)⟩

/-- **C21** The parsers compiled from the same grammar in different orders do the same with every rule and
every input. -/
theorem C21_behaves (ht : g.Tidy) (hr : ReordDefs g g') (hg : g.wf = true) (hc : g.compile E m = .ok ps) {m' : Nat}
    (hc' : g'.compile E m' = .ok ps') (hX : X.Plain) {o : Out} :
    ps.Yields E X r inp o ↔ ps'.Yields E X r inp o := by
  have hg' : g'.wf = true := by unfold Grammar.wf at *; rw [← hr.wf, hg]
  rw [yields_iff hg hc hX, yields_iff hg' hc' hX]
  obtain ⟨g1, h1, h2⟩ := resolveStacks_reord hr ht (compile_grammar hc)
  rw [compile_grammar hc'] at h1
  cases h1
  exact sameShape_reord.peg_iff ⟨.cons h2 .nil, .rule, trivial⟩

/-- **C21** The compiled grammar itself is the same, up to order. -/
theorem C21_grammar (ht : g.Tidy) (hr : ReordDefs g g') (hc : g.compile E m = .ok ps) {m' : Nat}
    (hc' : g'.compile E m' = .ok ps') {t : Term} (hl : lookup r ps.grammar = some t) :
    ∃ t', lookup r ps'.grammar = some t' ∧ Reord t t' := by
  obtain ⟨g1, h1, h2⟩ := resolveStacks_reord hr ht (compile_grammar hc)
  rw [compile_grammar hc'] at h1
  cases h1
  obtain ⟨t', h3, h4, _⟩ := (h2 r).2 t hl
  exact ⟨t', h3, h4⟩

/-- **C21** Without the condition on layer names the order matters: a rule that has the name of a layer of a
stack is overwritten or overwrites, whichever comes last. -/
theorem C21_collision :
    Ex.obs (Ex.runTop [(str "a", .stack [.seq [.s (str "x"), .rule atRule], .s (str "y")]), (str "a@1", .stack [.s (str "z")])] "a" "xz") =
      .ok (some (Ex.utf8 "a[x, z]")) 2 0 ∧
    Ex.obs (Ex.runTop [(str "a@1", .stack [.s (str "z")]), (str "a", .stack [.seq [.s (str "x"), .rule atRule], .s (str "y")])] "a" "xz") =
      .err .parse 1 1 := by
  decide +kernel

namespace Ex

/-- `a -> b "," c {c -> "x"; d -> "y";}; b -> "1" > "2";` -/
def gOrder : Grammar := [
  (str "a", .seq [.rule (str "b"), .s (str ","), .scope (.seq [.rule (str "c")]) [(str "c", .s (str "x")), (str "d", .s (str "y"))]]),
  (str "b", .stack [.seq [.s (str "1"), .rule atRule], .s (str "2")])]

/-- The same with the rules in another order, inside too. -/
def gOrder' : Grammar := [
  (str "b", .stack [.seq [.s (str "1"), .rule atRule], .s (str "2")]),
  (str "a", .seq [.rule (str "b"), .s (str ","), .scope (.seq [.rule (str "c")]) [(str "d", .s (str "y")), (str "c", .s (str "x"))]])]

end Ex

open Ex in
/-- The hypotheses of the theorems above. -/
example : gOrder.Tidy ∧ ReordDefs gOrder gOrder' ∧ gOrder.wf = true ∧ gOrder.compile regexp 50 = .ok (comp! gOrder) ∧
    gOrder'.compile regexp 50 = .ok (comp! gOrder') := by
  refine ⟨⟨?_, by unfold Grammar.Distinct gOrder; decide, ?_⟩, ?_, by decide +kernel, comp_ok (by decide +kernel), comp_ok (by decide +kernel)⟩
  · simp only [gOrder, tidyDefs, Term.Tidy, tidyList, true_and, and_true]
    refine ⟨by unfold Grammar.Distinct; decide, ?_⟩
    intro r ls i t hm
    simp at hm
  · intro r ls i t hm hi hl ht
    simp only [gOrder, List.mem_cons, Prod.mk.injEq, reduceCtorEq, and_false, List.not_mem_nil, or_false, false_or] at hm
    obtain ⟨rfl, h⟩ := hm
    cases h
    obtain rfl : i = 1 := by simp at hl; omega
    revert ht
    simp [gOrder, str, layer]
  · refine .trans .swap (.cons (.refl _) (.cons ?_ .nil))
    exact .seq (.cons .rule (.cons .s (.cons (.scope (.refl _) .swap) .nil)))

/-! ## C22 -/

mutual
/-- Below a grammar with a wrapper (`w`: there is one in force), every grammar in braces has its own wrapper
or a stack. -/
def Term.Settled (w : Bool) : Term → Prop
  | .seq ts => settledList w ts
  | .oneof ts => settledList w ts
  | .delim t sep _ _ _ => t.Settled w ∧ sep.Settled w
  | .look t => t.Settled w
  | .quant t _ _ => t.Settled w
  | .named _ t => t.Settled w
  | .cut t => t.Settled w
  | .scope t g => (w = true → (∃ d, (wrapRE, d) ∈ g) ∨ ∃ r ls, (r, .stack ls) ∈ g) ∧
      t.Settled (w || hasKey wrapRE g) ∧ settledDefs (w || hasKey wrapRE g) g
  | .stack _ => True
  | .rule _ => True
  | .s _ => True
  | .re _ => True
  | .ref _ _ => True
  | .ext _ => True
def settledList (w : Bool) : List Term → Prop
  | [] => True
  | t :: ts => t.Settled w ∧ settledList w ts
def settledDefs (w : Bool) : List (Str × Term) → Prop
  | [] => True
  | (_, t) :: g => t.Settled w ∧ settledDefs w g
end

theorem hasKey_iff_mem {k : Str} {g : Grammar} : hasKey k g = true ↔ ∃ d, (k, d) ∈ g := by
  induction g with
  | nil => simp [hasKey, lookup]
  | cons e g ih =>
    obtain ⟨k', t⟩ := e
    simp only [hasKey, lookup] at ih ⊢
    split
    · rename_i e; subst e; simp only [Option.isSome_some, true_iff]; exact ⟨t, by simp⟩
    · rename_i e; rw [ih]; simp [Ne.symm e]

theorem any_isStack {g : Grammar} : g.any (fun e => e.2.isStack) = true ↔ ∃ r ls, (r, .stack ls) ∈ g := by
  rw [List.any_eq_true]
  constructor
  · rintro ⟨⟨r, t⟩, h1, h2⟩
    obtain ⟨ls, h⟩ := stack_of_isStack h2
    exact ⟨r, ls, h ▸ h1⟩
  · rintro ⟨r, ls, h⟩
    exact ⟨_, h, rfl⟩

theorem afterDefs_length (w : Option Term) : (g : List (Str × Term)) → (afterDefs w g).length = g.length
  | [] => rfl
  | _ :: g => by simp [afterDefs, afterDefs_length w g]

mutual
theorem after_iff (w : Option Term) : (t : Term) → (t.after w = t ↔ t.Settled w.isSome)
  | .rule _ => by simp [Term.after, Term.Settled]
  | .s _ => by simp [Term.after, Term.Settled]
  | .re _ => by simp [Term.after, Term.Settled]
  | .ref _ _ => by simp [Term.after, Term.Settled]
  | .ext _ => by simp [Term.after, Term.Settled]
  | .stack _ => by simp [Term.after, Term.Settled]
  | .seq ts => by simp [Term.after, Term.Settled, afterList_iff w ts]
  | .oneof ts => by simp [Term.after, Term.Settled, afterList_iff w ts]
  | .delim t sep _ _ _ => by simp [Term.after, Term.Settled, after_iff w t, after_iff w sep]
  | .look t => by simp [Term.after, Term.Settled, after_iff w t]
  | .quant t _ _ => by simp [Term.after, Term.Settled, after_iff w t]
  | .named _ t => by simp [Term.after, Term.Settled, after_iff w t]
  | .cut t => by simp [Term.after, Term.Settled, after_iff w t]
  | .scope t g => by
    simp only [Term.after, Term.Settled, ← hasKey_iff_mem, ← any_isStack]
    cases hk : hasKey wrapRE g with
    | true =>
      have : (lookup wrapRE g).isSome = true := hk
      simp only [if_true, Term.scope.injEq, after_iff (lookup wrapRE g) t, afterDefs_iff (lookup wrapRE g) g, this,
        Bool.or_true, true_or, implies_true, true_and]
    | false =>
      simp only [Bool.false_eq_true, if_false, Bool.or_false, false_or]
      cases hs : g.any (fun e => e.2.isStack) with
      | true => simp only [if_true, Term.scope.injEq, after_iff w t, afterDefs_iff w g, implies_true, true_and]
      | false =>
        simp only [Bool.false_eq_true, if_false, Term.scope.injEq, after_iff w t]
        cases w with
        | none => simp [addWrap, afterDefs_iff none g]
        | some w =>
          simp only [addWrap, Option.isSome_some, imp_false, not_true, false_and, iff_false, not_and]
          intro _ h
          have := congrArg List.length h
          simp [afterDefs_length] at this
theorem afterList_iff (w : Option Term) : (ts : List Term) → (afterList w ts = ts ↔ settledList w.isSome ts)
  | [] => by simp [afterList, settledList]
  | t :: ts => by simp [afterList, settledList, after_iff w t, afterList_iff w ts]
theorem afterDefs_iff (w : Option Term) : (g : List (Str × Term)) → (afterDefs w g = g ↔ settledDefs w.isSome g)
  | [] => by simp [afterDefs, settledDefs]
  | (k, t) :: g => by simp [afterDefs, settledDefs, after_iff w t, afterDefs_iff w g]
end

/-- **C22** exactly when Compile leaves the caller's grammar as it was: every grammar in braces that is below
a wrapper must have its own wrapper or a stack. In general it does not (`C22_changed`); hence `_partial`. -/
theorem C22_unchanged_iff_partial : g.after = g ↔ settledDefs (hasKey wrapRE g) g := afterDefs_iff _ g

/-- **C22** The caller's own map keeps its rules, in number and names, and those whose definition has no
grammar in braces in it keep their definition. -/
theorem C22_top : g.after.map Prod.fst = g.map Prod.fst ∧
    ∀ t, (r, t) ∈ g → t.flat = true ∨ (∃ ls, t = .stack ls) → (r, t) ∈ g.after := by
  have keys : ∀ (w : Option Term) (g : Grammar), (afterDefs w g).map Prod.fst = g.map Prod.fst := by
    intro w g
    induction g with
    | nil => rfl
    | cons e g ih => obtain ⟨k, t⟩ := e; simp [afterDefs, ih]
  have mem : ∀ (w : Option Term) (g : Grammar) t, (r, t) ∈ g → (r, t.after w) ∈ afterDefs w g := by
    intro w g t hm
    induction g with
    | nil => simp at hm
    | cons e g ih =>
      obtain ⟨k, t⟩ := e
      rcases List.mem_cons.1 hm with e | hm
      · cases e; simp [afterDefs]
      · simp [afterDefs, ih hm]
  refine ⟨keys _ _, fun t hm ht => ?_⟩
  have := mem (lookup wrapRE g) g t hm
  rwa [(after_iff _ t).2 ?_] at this
  rcases ht with ht | ⟨ls, rfl⟩
  · exact flat_settled t ht
  · trivial
where
  flat_settled {w : Bool} : (t : Term) → t.flat = true → t.Settled w
    | .rule _, _ => trivial
    | .s _, _ => trivial
    | .re _, _ => trivial
    | .ref _ _, _ => trivial
    | .ext _, _ => trivial
    | .stack _, _ => trivial
    | .seq ts, h => flatList_settled ts (by simpa [Term.flat] using h)
    | .oneof ts, h => flatList_settled ts (by simpa [Term.flat] using h)
    | .delim t sep _ _ _, h => by
      simp [Term.flat] at h; exact ⟨flat_settled t h.1, flat_settled sep h.2⟩
    | .look t, h => by simp only [Term.Settled]; exact flat_settled t (by simpa [Term.flat] using h)
    | .quant t _ _, h => by simp only [Term.Settled]; exact flat_settled t (by simpa [Term.flat] using h)
    | .named _ t, h => by simp only [Term.Settled]; exact flat_settled t (by simpa [Term.flat] using h)
    | .cut t, h => by simp only [Term.Settled]; exact flat_settled t (by simpa [Term.flat] using h)
    | .scope _ _, h => by simp [Term.flat] at h
  flatList_settled {w : Bool} : (ts : List Term) → flatList ts = true → settledList w ts
    | [], _ => trivial
    | t :: ts, h => by simp [flatList] at h; exact ⟨flat_settled t h.1, flatList_settled ts h.2⟩

namespace Ex

/-- `a -> (x) {x -> "b";}; .wrapRE -> / *() */;` -/
def gWrapIn : Grammar := [
  (str "a", .scope (.seq [.rule (str "x")]) [(str "x", .s (str "b"))]),
  (wrapRE, .re (str " *() *"))]

/-- `a -> (x) {…};` with the grammar in braces taken from `gWrapIn` after compiling that. -/
def gReused : Grammar := match lookup (str "a") gWrapIn.after with
  | some t => [(str "a", t)]
  | none => []

end Ex

open Ex in
/-- **C22** fails: compiling adds the wrapper to the caller's grammar in braces, and a grammar that uses it
afterwards without any wrapper parses differently. -/
theorem C22_changed : gWrapIn.after ≠ gWrapIn ∧ compiles gWrapIn = true ∧
    gReused = [(str "a", .scope (.seq [.rule (str "x")]) [(str "x", .s (str "b")), (wrapRE, .re (str " *() *"))])] ∧
    obs (runTop [(str "a", .scope (.seq [.rule (str "x")]) [(str "x", .s (str "b"))])] "a" " b") = .err .parse 0 2 ∧
    obs (runTop gReused "a" " b") = .ok (some (utf8 "a[b]")) 2 0 := by
  refine ⟨?_, ?_, ?_, ?_, ?_⟩ <;> decide +kernel

namespace Ex

/-- `a -> (x) {x -> "b"; .wrapRE -> /();}; .wrapRE -> / *() */;` -/
def gWrapOwn : Grammar := [
  (str "a", .scope (.rule (str "x")) [(str "x", .s (str "b")), (wrapRE, .re (str "()"))]),
  (wrapRE, .re (str " *() *"))]

end Ex

/-- A grammar that is left alone, though it has a wrapper and a grammar in braces. -/
example : Ex.gWrapOwn.after = Ex.gWrapOwn :=
  C22_unchanged_iff_partial.2 (by
    simp only [Ex.gWrapOwn, settledDefs, Term.Settled, and_true]
    exact fun _ => Or.inl ⟨_, List.mem_cons_of_mem _ (List.mem_cons_self ..)⟩)

theorem compilable_of (hc : g.compile E m = .ok ps) : g.Compilable E :=
  compile_iff.1 ⟨m, ps, fun _ hn => (compile_mono_le hn (by rw [hc]; simp)).trans hc⟩

/-- No stack remains at all. -/
theorem resolveStacks_twice (hc : g.compile E m = .ok ps) : ps.grammar.resolveStacks = some ps.grammar := by
  obtain ⟨g1, h1, h2⟩ := compilable_of hc
  rw [compile_grammar hc] at h1
  rw [Option.some.inj h1]
  have : g1.any (fun e => e.2.isStack) = false := by
    rw [Bool.eq_false_iff]
    intro h
    obtain ⟨r, ls, hm⟩ := any_isStack.1 h
    obtain ⟨t, h3, h4⟩ := h2 _ hm
    rcases h3 with ⟨rfl, _⟩ | ⟨_, h3, _⟩
    · cases h4
    · simp at h3
  unfold Grammar.resolveStacks
  rw [this]
  rfl

/-- Compiling a grammar and compiling what it stands for. -/
theorem behaves_mix {g1 g1' : Grammar} (hg : g.wf = true) (hg' : g'.wf = true) (hc : g.compile E m = .ok ps) (h1 : g.resolveStacks = some g1)
    (h1' : g'.resolveStacks = some g1') (hm : MixDefs g1 g1') :
    ∃ N ps', (∀ n, N ≤ n → g'.compile E n = .ok ps') ∧
      ∀ X : Externals, X.Plain → ∀ r inp o, ps'.Yields E X r inp o ↔ ps.Yields E X r inp o := by
  obtain ⟨N, ps', h⟩ := compile_iff.2 ((compilable_of hc).mix h1 h1' hm)
  refine ⟨N, ps', h, fun X hX r inp o => ?_⟩
  have h2 := compile_grammar hc
  have h3 := compile_grammar (h N (Nat.le_refl _))
  rw [h1] at h2
  rw [h1'] at h3
  rw [yields_iff hg hc hX, yields_iff hg' (h N (Nat.le_refl _)) hX, ← Option.some.inj h2, ← Option.some.inj h3]
  exact (sameShape_mix.peg_iff ⟨.cons hm .nil, .rule⟩).symm

/-- **C22** What compiling changes in the caller's grammar makes no difference to that grammar: compiling it again succeeds, and
the parsers do the same with every rule and every input. If no definition of `.wrapRE` has braces or a stack in it. -/
theorem C22_again_partial (ht : g.Tidy) (hw : g.FlatWraps) (hg : g.wf = true) (hc : g.compile E m = .ok ps) :
    ∃ N ps', (∀ n, N ≤ n → g.after.compile E n = .ok ps') ∧
      ∀ X : Externals, X.Plain → ∀ r inp o, ps'.Yields E X r inp o ↔ ps.Yields E X r inp o := by
  obtain ⟨g1', h1, h2⟩ := Grammar.after_mix ht hw (compile_grammar hc)
  exact behaves_mix hg (afterDefs_wf (fun u hu => wfDefs_lookup hg hu) g hg) hc (compile_grammar hc) h1 h2

/-- **C22** And the grammar that the parsers show can be compiled, to parsers that do the same. -/
theorem C22_shown_partial (ht : g.Tidy) (hw : g.FlatWraps) (hg : g.wf = true) (hc : g.compile E m = .ok ps) :
    ∃ N ps', (∀ n, N ≤ n → ps.shown.compile E n = .ok ps') ∧
      ∀ X : Externals, X.Plain → ∀ r inp o, ps'.Yields E X r inp o ↔ ps.Yields E X r inp o := by
  have h1 := compile_grammar hc
  obtain ⟨ht1, hw1⟩ := resolveStacks_keeps ht hw h1
  have hg1 : wfDefs ps.grammar = true := resolveStacks_wf h1 hg
  have h2 : ps.grammar.resolveStacks = some ps.grammar := resolveStacks_twice hc
  obtain ⟨g1', h3, h4⟩ := Grammar.after_mix ht1 hw1 h2
  exact behaves_mix hg (afterDefs_wf (fun u hu => wfDefs_lookup hg1 hu) ps.grammar hg1) hc h1 h3 h4

theorem settledDefs_append {b : Bool} {g g' : Grammar} (h : settledDefs b g) (h' : settledDefs b g') : settledDefs b (g ++ g') := by
  induction g with
  | nil => exact h'
  | cons e g ih => obtain ⟨k, t⟩ := e; exact ⟨h.1, ih h.2⟩

mutual
theorem settled_after {w : Option Term} (hw : ∀ u, w = some u → u.flat = true) : (t : Term) → t.FlatWraps → (t.after w).Settled w.isSome
  | .rule _, _ => trivial
  | .s _, _ => trivial
  | .re _, _ => trivial
  | .ref _ _, _ => trivial
  | .ext _, _ => trivial
  | .stack _, _ => trivial
  | .seq ts, h => settledList_after hw ts h
  | .oneof ts, h => settledList_after hw ts h
  | .delim t sep _ _ _, h => ⟨settled_after hw t h.1, settled_after hw sep h.2⟩
  | .look t, h => by simp only [Term.after, Term.Settled]; exact settled_after hw t (by simpa [Term.FlatWraps] using h)
  | .quant t _ _, h => by simp only [Term.after, Term.Settled]; exact settled_after hw t (by simpa [Term.FlatWraps] using h)
  | .named _ t, h => by simp only [Term.after, Term.Settled]; exact settled_after hw t (by simpa [Term.FlatWraps] using h)
  | .cut t, h => by simp only [Term.after, Term.Settled]; exact settled_after hw t (by simpa [Term.FlatWraps] using h)
  | .scope t g, h => by
    have hv : ∀ u, lookup wrapRE g = some u → u.flat = true := fun u hu => (flatWraps_mem h.2 (lookup_mem hu)).1 rfl
    rw [Term.after]
    split
    · rename_i hk
      have h1 := settled_after hv t h.1
      have h2 := settledDefs_after hv g h.2
      have e : (lookup wrapRE g).isSome = true := hk
      rw [e] at h1 h2
      simp only [Term.Settled, hasKey_afterDefs, hk, Bool.or_true]
      exact ⟨fun _ => Or.inl (hasKey_iff_mem.1 (by rw [hasKey_afterDefs]; exact hk)), h1, h2⟩
    · rename_i hk
      simp only [Bool.not_eq_true] at hk
      have h1 := settled_after hw t h.1
      have h2 := settledDefs_after hw g h.2
      split
      · rename_i hs
        simp only [Term.Settled, hasKey_afterDefs, hk, Bool.or_false]
        obtain ⟨r, ls, hm⟩ := any_isStack.1 hs
        exact ⟨fun _ => Or.inr ⟨r, ls, mem_afterDefs_stack.2 hm⟩, h1, h2⟩
      · cases w with
        | none =>
          simp only [addWrap, Term.Settled, hasKey_afterDefs, hk, Bool.or_false]
          exact ⟨fun e => by simp at e, h1, h2⟩
        | some u =>
          simp only [addWrap, Term.Settled, Option.isSome_some, Bool.true_or]
          refine ⟨fun _ => Or.inl ⟨u, by simp⟩, h1, settledDefs_append h2 ⟨C22_top.flat_settled u (hw u rfl), trivial⟩⟩
theorem settledList_after {w : Option Term} (hw : ∀ u, w = some u → u.flat = true) : (ts : List Term) → flatWrapsList ts →
    settledList w.isSome (afterList w ts)
  | [], _ => trivial
  | t :: ts, h => ⟨settled_after hw t h.1, settledList_after hw ts h.2⟩
theorem settledDefs_after {w : Option Term} (hw : ∀ u, w = some u → u.flat = true) : (g : List (Str × Term)) → flatWrapsDefs g →
    settledDefs w.isSome (afterDefs w g)
  | [], _ => trivial
  | (_, t) :: g, h => ⟨settled_after hw t h.2.1, settledDefs_after hw g h.2.2⟩
end

/-- **C22** Compiling a second time changes nothing more. -/
theorem C22_settles_partial (hw : g.FlatWraps) : g.after.after = g.after := by
  have h := settledDefs_after (w := lookup wrapRE g) (fun u hu => (flatWraps_mem hw (lookup_mem hu)).1 rfl) g hw
  rw [C22_unchanged_iff_partial]
  have e : hasKey wrapRE g.after = (lookup wrapRE g).isSome := hasKey_afterDefs
  rw [e]
  exact h

/-- A grammar that is changed, with a stack and nested braces, and meets the hypotheses. -/
def Ex.gDeep : Grammar := [
  (str "a", .seq [.s (str "("), .scope (.seq [.rule (str "x"), .scope (.rule (str "y")) [(str "y", .s (str "c"))]])
    [(str "x", .stack [.delim (.rule atRule) (.s (str ",")) 0 false false, .s (str "b")])]]),
  (wrapRE, .re (str " *() *"))]

example : Ex.gDeep.Tidy ∧ Ex.gDeep.FlatWraps ∧ Ex.gDeep.wf = true ∧ Ex.compiles Ex.gDeep = true ∧ Ex.gDeep.after ≠ Ex.gDeep ∧
    Ex.obs (Ex.runTop Ex.gDeep "a" "(b , b c ") = Ex.obs (Ex.runTop Ex.gDeep.after "a" "(b , b c ") ∧
    (match Ex.obs (Ex.runTop Ex.gDeep "a" "(b , b c ") with | .ok _ _ _ => true | _ => false) = true := by
  refine ⟨?_, ?_, by decide +kernel, by decide +kernel, by decide +kernel, by decide +kernel, by decide +kernel⟩
  · refine ⟨?_, by unfold Grammar.Distinct; decide, ?_⟩
    · simp only [Ex.gDeep, tidyDefs, Term.Tidy, tidyList, and_true, true_and]
      refine ⟨⟨by unfold Grammar.Distinct; decide, ?_⟩, by unfold Grammar.Distinct; decide, ?_⟩
      · intro r ls i t hm _ _ ht
        simp at hm
      · intro r ls i t hm hi hl ht
        simp at hm ht
        obtain ⟨rfl, rfl⟩ := hm
        have := ht.1
        rw [layer_pos hi] at this
        simp at this
    · intro r ls i t hm _ _ ht
      simp [Ex.gDeep] at hm
  · simp only [Grammar.FlatWraps, Ex.gDeep, flatWrapsDefs, Term.FlatWraps, flatWrapsList, and_true, true_and]
    decide

end Wbnf

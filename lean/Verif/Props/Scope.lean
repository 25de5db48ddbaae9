import Verif.Lemmas.Move
import Verif.Lemmas.NoExt
import Verif.Props.Stacks

/-!
# C19, C47: lexical scope, renaming, and the place of the text

Specifications: `Grammar.Has`, `Term.Uses`, `Liftable` (Spec/Scope), `Term.rename`, `renameDefs`, `Renaming`,
`Out.map` (Spec/Rename), `Layered` (Spec/Stacks).
-/

namespace Wbnf

variable {E : Engine} {X : Externals} {g g' : Grammar} {m m' : Nat} {ps ps' : Parsers} {r : Str} {inp : Scanner}

/-! ## C19 -/

/-- **C19** Only the rules in use matter: two grammars with the same definitions for all names in some set
`N`, which contains every name these definitions refer to, do the same from every rule in `N`. What rules
outside of `N` are called, or say, is irrelevant. -/
theorem C19_unused (hd : g.Distinct) (hf : g.LayersFresh) (hd' : g'.Distinct) (hf' : g'.LayersFresh)
    (hg : g.wf = true) (hg' : g'.wf = true) (hc : g.compile E m = .ok ps) (hc' : g'.compile E m' = .ok ps') (hX : X.Plain)
    {N : Str → Prop} (same : ∀ x, N x → ∀ t, Layered g x t ↔ Layered g' x t)
    (closed : ∀ x t, N x → Layered g x t → ∀ y, t.Uses y → N y) (wrap : N (str ".wrapRE")) (hr : N r) {o : Out} :
    ps.Yields E X r inp o ↔ ps'.Yields E X r inp o := by
  rw [yields_iff hg hc hX, yields_iff hg' hc' hX]
  have h1 : ∀ x, N x → lookup x ps.grammar = lookup x ps'.grammar := by
    intro x hx
    have : ∀ t, lookup x ps.grammar = some t ↔ lookup x ps'.grammar = some t := fun t => by
      rw [C20_layers hd hf hc, C20_layers hd' hf' hc', same x hx]
    cases h : lookup x ps'.grammar with
    | some t => exact (this t).2 h
    | none =>
      cases h2 : lookup x ps.grammar with
      | none => rfl
      | some t => rw [(this t).1 h2] at h; cases h
  have h2 : ∀ x t, N x → lookup x ps.grammar = some t → ∀ y, t.Uses y → N y := fun x t hx hl =>
    closed x t hx ((C20_layers hd hf hc).1 hl)
  exact (sameShape_link (matched_agree h1 h2 wrap)).peg_iff
    ⟨rfl, [], _, _, N, ⟨rfl, Or.inl ⟨rfl, rfl⟩⟩, rfl, rfl, trivial, fun y hy => Or.inr (hy ▸ hr)⟩

/-- **C19** Grammars in braces mean what they say: `r -> t {h};` does the same as `r -> t;` with the rules of
`h` put beside the others, provided their names do not clash with others in use. Every rule `k` but the ones
of `h` itself, which are not visible outside of the braces, does the same in both. -/
theorem C19_flatten {t : Term} {h rest : Grammar} (L : Liftable r t h rest)
    (hg : Grammar.wf ((r, .scope t h) :: rest) = true) (hg' : Grammar.wf ((r, t) :: (h ++ rest)) = true)
    (hc : Grammar.compile E m ((r, .scope t h) :: rest) = .ok ps) (hc' : Grammar.compile E m' ((r, t) :: (h ++ rest)) = .ok ps')
    (hX : X.Plain) {k : Str} (hk : ¬ h.Has k) {o : Out} :
    ps.Yields E X k inp o ↔ ps'.Yields E X k inp o := by
  rw [yields_iff hg hc hX, yields_iff hg' hc' hX]
  obtain ⟨h0, hs⟩ := compile_compilable hc
  have hin : (r, Term.scope t h) ∈ ps.grammar := by
    have hd : Grammar.Distinct ((r, .scope t h) :: rest) := by
      have := L.distinct
      unfold Grammar.Distinct at this ⊢
      simp only [List.map_cons, List.map_append, List.nodup_cons, List.nodup_append, List.mem_append, not_or] at this ⊢
      exact ⟨this.1.2, this.2.2.1⟩
    have hf : Grammar.LayersFresh ((r, .scope t h) :: rest) := by
      intro r' ls i t' hm hi hl ht'
      have hm' : (r', Term.stack ls) ∈ (r, t) :: (h ++ rest) := by
        rcases List.mem_cons.1 hm with e | hm
        · cases e
        · simp [hm]
      rcases List.mem_cons.1 ht' with e | ht'
      · simp only [Prod.mk.injEq] at e
        exact L.fresh r' ls i t hm' hi hl (by simp [e.1])
      · exact L.fresh r' ls i t' hm' hi hl (by simp [ht'])
    exact lookup_mem ((resolveStacks_iff hd hf h0).2 (.plain (by simp) (by simp)))
  obtain ⟨t', h1, h2⟩ := hs _ hin
  rcases h1 with ⟨rfl, _⟩ | ⟨r', e, _⟩
  · cases h2 with
    | @scope _ _ _ h2' hr h3 h4 h5 =>
      have l : Lifting r t h rest ps.grammar ps'.grammar h2' := ⟨h0, (compile_compilable hc').1, hr, h3⟩
      exact (sameShape_link (L.matched l)).peg_iff
        ⟨rfl, [], _, _, _, Or.inr ⟨rfl, Or.inl ⟨rfl, rfl⟩⟩, rfl, rfl, trivial, fun y hy => Or.inr (hy ▸ hk)⟩
  · cases e

/-- **C19** Renaming consistently does not change whether a grammar can be compiled. -/
theorem C19_rename_compiles {π : Str → Str} (hπ : Renaming π) (hl : Grammar.LayersFollow π g) (hf : layersFollowDefs π g)
    (hc : ∃ N ps, ∀ n, N ≤ n → g.compile E n = .ok ps) :
    ∃ N ps, ∀ n, N ≤ n → Grammar.compile E n (renameDefs π g) = .ok ps := by
  rw [compile_iff] at *
  exact hc.rename hπ hl hf

/-- **C19** Renaming consistently – rules, also in braces, names of items, and back references to them – does
not change what is matched: the outcomes are the same up to the tags. `π` is one-to-one and onto. -/
theorem C19_rename {π : Str → Str} (hπ : Renaming π) (onto : ∀ b, ∃ a, π a = b) (hl : Grammar.LayersFollow π g)
    (hf : layersFollowDefs π g) (hg : g.wf = true) (hc : g.compile E m = .ok ps)
    (hc' : Grammar.compile E m' (renameDefs π g) = .ok ps') (hX : X.Plain) (hx : noExtDefs g = true) {o : Out} :
    ps.Yields E X r inp o ↔ ps'.Yields E X (π r) inp (o.map π id) := by
  rw [yields_iff hg hc hX, yields_iff (by unfold Grammar.wf at *; rw [wfDefs_rename hπ]; exact hg) hc' hX]
  have e : ps'.grammar = renameDefs π ps.grammar := by
    have h1 := compile_grammar hc'
    rw [resolveStacks_rename hπ hl, compile_grammar hc] at h1
    exact (Option.some.inj h1).symm
  have hf1 := layersFollow_resolve hf (compile_grammar hc)
  have hx := noExt_grammar hx (compile_grammar hc) r
  unfold Denotes
  rw [e]
  constructor
  · exact peg_rename hπ hf1 hx
  · intro hp
    obtain ⟨π', h1⟩ : ∃ π' : Str → Str, ∀ b, π (π' b) = b := ⟨fun b => (onto b).choose, fun b => (onto b).choose_spec⟩
    have h2 : ∀ a, π' (π a) = a := fun a => hπ.inj (h1 (π a))
    exact peg_rename_back hπ h2 h1 hf1 hx hp

/-- **C19** Inside braces the inner definition counts, outside the outer one; the braces see the rules around
them. `a -> b "," (b {b -> "2" c;}) "," b; b -> "1"; c -> "3";` -/
def Ex.gShadow : Grammar := [
  (str "a", .seq [.rule (str "b"), .s (str ","), .scope (.seq [.rule (str "b")]) [(str "b", .seq [.s (str "2"), .rule (str "c")])],
    .s (str ","), .rule (str "b")]),
  (str "b", .s (str "1")), (str "c", .s (str "3"))]

theorem C19_shadows :
    Ex.obs (Ex.runTop Ex.gShadow "a" "1,23,1") = .ok (some (Ex.utf8 "a[1, ,, _[b[2, 3]], ,, 1]")) 6 0 ∧
    Ex.obs (Ex.runTop Ex.gShadow "a" "1,1,1") = .err .parse 2 3 ∧ Ex.obs (Ex.runTop Ex.gShadow "a" "23,23,1") = .err .parse 0 7 := by
  decide +kernel

/-! ### The hypotheses are met -/

namespace Ex

/-- `a -> "(" d ")" {d -> @:>"+" > e; e -> "x" | c;}; c -> "1"; b -> a;` -/
def hInner : Grammar := [
  (str "d", .stack [.delim (.rule atRule) (.s (str "+")) 0 false false, .rule (str "e")]),
  (str "e", .oneof [.s (str "x"), .rule (str "c")])]
def tInner : Term := .seq [.s (str "("), .rule (str "d"), .s (str ")")]
def restInner : Grammar := [(str "c", .s (str "1")), (str "b", .rule (str "a"))]
def gScoped : Grammar := (str "a", .scope tInner hInner) :: restInner

/-- The same with all rules at the top. -/
def gLifted : Grammar := (str "a", tInner) :: (hInner ++ restInner)

theorem hInner_has {x : Str} (h : hInner.Has x) : x = str "d" ∨ x = str "e" ∨ x = str "d@1" := by
  rcases h with ⟨t, h⟩ | ⟨r, ls, i, h, hi, rfl⟩
  · simp [hInner] at h
    rcases h with h | h
    · exact Or.inl h.1
    · exact Or.inr (Or.inl h.1)
  · simp only [hInner, List.mem_cons, Prod.mk.injEq, reduceCtorEq, and_false, List.not_mem_nil, or_false] at h
    obtain ⟨rfl, h⟩ := h
    cases h
    simp at hi
    rcases (by omega : i = 0 ∨ i = 1) with rfl | rfl
    · exact Or.inl rfl
    · exact Or.inr (Or.inr (by decide))

/-- Names starting with `d` start with `q` instead and the other way round. -/
def swapDQ : Str → Str
  | 100 :: s => 113 :: s
  | 113 :: s => 100 :: s
  | s => s

theorem swapDQ_swapDQ (s : Str) : swapDQ (swapDQ s) = s := by
  unfold swapDQ
  split <;> rename_i h <;> split at h <;> simp_all

theorem swapDQ_renaming : Renaming swapDQ :=
  ⟨fun {a b} h => by rw [← swapDQ_swapDQ a, h, swapDQ_swapDQ], rfl, rfl, rfl, rfl, rfl, rfl, rfl, rfl⟩

theorem swapDQ_follow : Grammar.LayersFollow swapDQ gScoped ∧ layersFollowDefs swapDQ gScoped := by
  refine ⟨?_, ⟨⟨trivial, trivial, trivial, trivial⟩, ⟨⟨⟨trivial, trivial⟩, trivial, trivial⟩, ⟨trivial, trivial, trivial⟩, trivial⟩, ?_⟩,
    trivial, trivial, trivial⟩
  · intro r ls i h; simp [gScoped, restInner] at h
  · intro r ls i h hi
    simp only [hInner, List.mem_cons, Prod.mk.injEq, reduceCtorEq, and_false, List.not_mem_nil, or_false] at h
    obtain ⟨rfl, _⟩ := h
    unfold layer
    split <;> rfl

end Ex

open Ex in
/-- The hypotheses of `C19_flatten`, and what the two grammars do. -/
example : Liftable (str "a") tInner hInner restInner ∧ gScoped.wf = true ∧ gLifted.wf = true ∧
    gScoped.compile regexp 50 = .ok (comp! gScoped) ∧ gLifted.compile regexp 50 = .ok (comp! gLifted) ∧ ¬ hInner.Has (str "b") ∧
    obs (runTop gScoped "b" "(x+1)") = obs (runTop gLifted "b" "(x+1)") ∧
    obs (runTop gScoped "b" "(x+1)") = .ok (some (utf8 "b[(, d║:[d@1║0[x], +, d@1║1[1]], )]")) 5 0 ∧
    obs (runTop gScoped "d" "x") = .panic := by
  refine ⟨⟨by unfold Grammar.Distinct; decide, ?_, by simp [tInner], by simp [tInner], by decide, ?_⟩, by decide +kernel, by decide +kernel,
    comp_ok (by decide +kernel), comp_ok (by decide +kernel), ?_, by decide +kernel, by decide +kernel, by decide +kernel⟩
  · intro r ls i t hm hi hl ht
    simp only [tInner, hInner, restInner, List.cons_append, List.nil_append, List.mem_cons, Prod.mk.injEq, reduceCtorEq, and_false,
      List.not_mem_nil, or_false, false_or] at hm
    obtain ⟨rfl, h⟩ := hm
    cases h
    obtain rfl : i = 1 := by simp at hl; omega
    revert ht
    simp [tInner, hInner, restInner, str, layer]
  · intro x hx
    have hr : ∀ y, Grammar.Has restInner y → y = str "c" ∨ y = str "b" := by
      rintro y (⟨t, h⟩ | ⟨r, ls, i, h, hi, rfl⟩)
      · simp [restInner] at h
        rcases h with h | h
        · exact Or.inl h.1
        · exact Or.inr h.1
      · simp [restInner] at h
    rcases hInner_has hx with rfl | rfl | rfl <;>
      exact ⟨by decide, by decide, fun h => by rcases hr _ h with h | h <;> exact absurd h (by decide),
        by simp [restInner, usesDefs, Term.Uses]; decide⟩
  · intro h
    rcases hInner_has h with h | h | h <;> exact absurd h (by decide)

open Ex in
/-- The hypotheses of `C19_unused`: with `c` and `b` as above, the rules `c` of both grammars do the same. -/
example : ∃ N : Str → Prop, (∀ x, N x → ∀ t, Layered restInner x t ↔ Layered [(str "c", .s (str "1")), (str "b", .s (str "?"))] x t) ∧
    (∀ x t, N x → Layered restInner x t → ∀ y, t.Uses y → N y) ∧ N (str ".wrapRE") ∧ N (str "c") := by
  refine ⟨fun x => x = str "c" ∨ x = str ".wrapRE", ?_, ?_, Or.inr rfl, Or.inl rfl⟩
  · have h1 : ∀ x t, (x = str "c" ∨ x = str ".wrapRE") → (Layered restInner x t ↔ x = str "c" ∧ t = .s (str "1")) := by
      intro x t hx
      constructor
      · intro h
        cases h with
        | plain hm hn =>
          simp [restInner] at hm
          rcases hm with h | ⟨rfl, _⟩
          · exact h
          · rcases hx with h | h <;> exact absurd h (by decide)
        | layer hm hL => simp [restInner] at hm
      · rintro ⟨rfl, rfl⟩; exact .plain (by simp [restInner]) (by simp)
    intro x hx t
    rw [h1 x t hx]
    constructor
    · rintro ⟨rfl, rfl⟩; exact .plain (by simp) (by simp)
    · intro h
      cases h with
      | plain hm hn =>
        simp at hm
        rcases hm with h | ⟨rfl, _⟩
        · exact h
        · rcases hx with h | h <;> exact absurd h (by decide)
      | layer hm hL => simp at hm
  · intro x t hx h y hy
    cases h with
    | plain hm hn =>
      simp [restInner] at hm
      rcases hm with ⟨_, rfl⟩ | ⟨rfl, rfl⟩
      · exact absurd hy (by simp [Term.Uses])
      · rcases hx with h | h <;> exact absurd h (by decide)
    | layer hm hL => simp [restInner] at hm

open Ex in
/-- The hypotheses of `C19_rename`, and the renamed grammar at work. -/
example : Renaming swapDQ ∧ (∀ b, ∃ a, swapDQ a = b) ∧ Grammar.LayersFollow swapDQ gScoped ∧ layersFollowDefs swapDQ gScoped ∧
    noExtDefs gScoped = true ∧ Grammar.compile regexp 50 (renameDefs swapDQ gScoped) = .ok (comp! (renameDefs swapDQ gScoped)) ∧
    obs (runTop (renameDefs swapDQ gScoped) "b" "(x+1)") = .ok (some (utf8 "b[(, q║:[q@1║0[x], +, q@1║1[1]], )]")) 5 0 :=
  ⟨swapDQ_renaming, fun b => ⟨swapDQ b, swapDQ_swapDQ b⟩, swapDQ_follow.1, swapDQ_follow.2, by decide, comp_ok (by decide +kernel), by decide +kernel⟩

/-! ## C47 -/

/-- **C47** A parse depends only on the text the scanner shows: over another source, or at another place in
it, the same text has the same outcome, and the leaves of the tree are moved along with the text. -/
theorem C47_local (hE : E.Sane) (hg : g.wf = true) (hc : g.compile E m = .ok ps) (hX : X.Plain)
    (hx : NoExt [ps.grammar] (.rule r)) (hp : PatternsSatisfy (ReportsGroup E) [ps.grammar] (.rule r))
    {inp' : Scanner} (hin : inp.InRange) (hin' : inp'.InRange) (same : inp.toStr = inp'.toStr) {o : Out}
    (h : ps.Yields E X r inp o) : ps.Yields E X r inp' (o.map id (Scanner.move inp inp')) := by
  rw [yields_iff hg hc hX] at *
  exact peg_move hE hin hin' same hp hx h

/-- **C47** The two parses succeed, fail and abort together. -/
theorem C47_together (hE : E.Sane) (hg : g.wf = true) (hc : g.compile E m = .ok ps) (hX : X.Plain)
    (hx : NoExt [ps.grammar] (.rule r)) (hp : PatternsSatisfy (ReportsGroup E) [ps.grammar] (.rule r))
    {inp' : Scanner} (hin : inp.InRange) (hin' : inp'.InRange) (same : inp.toStr = inp'.toStr) :
    ((∃ v i, ps.Yields E X r inp (.ok v i)) ↔ ∃ v i, ps.Yields E X r inp' (.ok v i)) ∧
    (ps.Yields E X r inp .fail ↔ ps.Yields E X r inp' .fail) ∧ (ps.Yields E X r inp .abort ↔ ps.Yields E X r inp' .abort) := by
  have a := fun o => C47_local (o := o) hE hg hc hX hx hp hin hin' same
  have b := fun o => C47_local (o := o) hE hg hc hX hx hp hin' hin same.symm
  exact ⟨⟨fun ⟨v, i, h⟩ => ⟨_, _, a (.ok v i) h⟩, fun ⟨v, i, h⟩ => ⟨_, _, b (.ok v i) h⟩⟩, ⟨a .fail, b .fail⟩, ⟨a .abort, b .abort⟩⟩

/-- **C47** Without the condition on the groups it does not hold: `a -> /{(x)?y};` reports a group that took
no part, as a leaf one byte before the text; at the start of the source such a leaf reads as all of it. -/
theorem C47_unset :
    (newScanner (str "y")).toStr = (newScannerAt (str "zy") 1 1).toStr ∧
    (match (Ex.comp! Ex.gUnset).parse regexp noExternals Ex.ρ0 300 (str "a") (newScanner (str "y")) with
      | .ok (.leaf s) _ => some s.toStr
      | _ => none) = some (some (str "y")) ∧
    (match (Ex.comp! Ex.gUnset).parse regexp noExternals Ex.ρ0 300 (str "a") (newScannerAt (str "zy") 1 1) with
      | .ok (.leaf s) _ => some s.toStr
      | _ => none) = some (some []) := by
  decide +kernel

open Ex in
/-- The hypotheses, and the leaves of both parses. -/
example :
    gExpr.wf = true ∧ (∃ ps, gExpr.compile regexp 50 = .ok ps) ∧
    PatternsSatisfy (ReportsGroup regexp) [(comp! gExpr).grammar] (.rule (str "expr")) ∧
    NoExt [(comp! gExpr).grammar] (.rule (str "expr")) ∧
    (newScanner (str "1+2")).InRange ∧ (newScannerAt (str "(1+2*3)") 1 3).InRange ∧
    (newScanner (str "1+2")).toStr = (newScannerAt (str "(1+2*3)") 1 3).toStr ∧
    (match (comp! gExpr).run regexp noExternals ρ0 300 (str "expr") (newScannerAt (str "(1+2*3)") 1 3) with
      | .ok v _ _ => some (v.leaves.map fun s => (s.start, s.len))
      | _ => none) = some [(1, 1), (2, 1), (3, 1)] := by
  have h := plainLeaf_check (q := Regex.setsLast) (Q := ReportsGroup regexp)
    (fun p => Regex.reportsGroup) (g := (comp! gExpr).grammar) (by rfl) (by decide +kernel)
    (str "expr")
  exact ⟨by decide +kernel, ⟨_, comp_ok (by decide +kernel)⟩, h.1, h.2.2, ⟨_, rfl, by decide, by decide, by decide⟩,
    ⟨_, rfl, by decide, by decide, by decide⟩, by decide, by decide +kernel⟩

end Wbnf

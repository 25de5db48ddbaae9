import Verif.Lemmas.MacroText
import Verif.Lemmas.MacrosOf
import Verif.Lemmas.MacroEnds
import Verif.Examples.Kit

/-!
# C38: macro calls
-/

namespace Wbnf

variable {ms : Macros} {m : Str} {mc : Macro} {args : List TermN} {u : Term}

theorem argOf_argument : {ps : List Str} → {args : List TermN} → args.length = ps.length → (r : Str) → (u : Term) →
    (ArgOf ms ps args r u ↔ match lookup r (ps.zip args) with | some a => BT ms a u | none => u = .rule r)
  | [], [], _, r, u => by simp [ArgOf, argIndex, lookup]
  | [], _ :: _, h, _, _ => by simp at h
  | _ :: _, [], h, _, _ => by simp at h
  | p :: ps, a :: args, h, r, u => by
    have ih := argOf_argument (ps := ps) (args := args) (by simpa using h) r u
    by_cases hp : p = r
    · simp [ArgOf, argIndex, lookup, hp]
    · simp only [List.zip_cons_cons, lookup, hp, if_false]
      rw [← ih]
      simp only [ArgOf, argIndex, hp, if_false]
      cases argIndex r ps <;> simp

theorem argument_mem {r : Str} : {ps : List Str} → {args : List TermN} → lookup r (ps.zip args) ≠ none → r ∈ ps
  | [], _, h => by simp [lookup] at h
  | _ :: _, [], h => by simp [lookup] at h
  | p :: ps, a :: args, h => by
    by_cases hp : p = r
    · simp [hp]
    · simp only [List.zip_cons_cons, lookup, hp, if_false] at h
      exact List.mem_cons_of_mem _ (argument_mem h)

/-- **C38** A macro call means the body of the macro with each parameter replaced by its argument in parentheses, all at
once: what is built for the one is built for the other. Partial: parameters used in look-aheads or in grammars in braces are
not replaced (`C38_lookahead`, `C38_braces`), and a macro that the body calls must not use a name that is a parameter here
and not there (`C38_capture`). -/
theorem C38_substitution_partial (hm : lookup m ms = some mc) (hn : args.length = mc.args.length)
    (hid : ∀ p ∈ mc.args, p ∉ mc.body.hidden) (hc : ms.NoCapture mc.args) :
    Builds ms (.macrocall m args) u ↔ Builds ms (.term (mc.body.subst (mc.argument args))) u := by
  have hmem : ∀ r, mc.argument args r ≠ none → r ∈ mc.args := fun r => argument_mem
  rw [ba_term, subst_term (R := ArgOf ms mc.args args) (σ := mc.argument args) (argOf_argument hn)
    (fun r hr n m' hl hi => hc n m' hl r (hmem r hr) hi) mc.body
    (fun i hi => Classical.byContradiction fun h => hid i (hmem i h) hi), ba_macrocall]
  constructor
  · rintro ⟨mc', b, h1, h2, h3⟩
    rw [hm, Option.some.injEq] at h1
    subst h1
    exact ⟨b, h2, h3⟩
  · rintro ⟨b, h2, h3⟩
    exact ⟨mc, b, hm, h2, h3⟩

/-- **C38** Building does not depend on how it is done: there is at most one result. -/
theorem C38_unique {a : AtomN} {v : Term} (h : Builds ms a u) (h' : Builds ms a v) : u = v := by
  obtain ⟨n, h⟩ := h
  obtain ⟨n', h'⟩ := h'
  have h1 := buildAtom_mono (Nat.le_max_left n n') h
  have h2 := buildAtom_mono (Nat.le_max_right n n') h'
  rw [h1, Except.ok.injEq] at h2
  exact h2

/-- **C38** The macros a source may call are those it defines, also within braces; of two with one name, the last. -/
theorem C38_collected (g : GrammarN) (m : Str) :
    lookup m (macrosOf g) = ((g.macros.filter fun p => p.1 = m).getLast?).map Prod.snd := by
  rw [macrosOf_eq, lookup_collect]
  cases ((g.macros.filter fun p => p.1 = m).getLast?) <;> rfl

/-! ## Examples and violations -/

namespace Ex

/-- A reference to a rule, as a term. -/
def rn (r : String) : TermN := .one (.mk none (.ident (str r))) []
def sq (ts : List TermN) : TermN := .many [] [] ts
/-- `.macro list(x, sep) { x (sep x)* } .macro twice(x) { %!list(x, y) x }` -/
def msList : Macros := [(str "list", ⟨[str "x", str "sep"], sq [rn "x", .one (.mk none (.term (sq [rn "sep", rn "x"]))) [.op (str "*")]]⟩),
  (str "twice", ⟨[str "x"], sq [.one (.mk none (.macrocall (str "list") [rn "x", rn "y"])) [], rn "x"]⟩)]
/-- `.macro ahead(x) { (?=x) y }` -/
def msAhead : Macros := [(str "ahead", ⟨[str "x"], sq [.one (.mk none (.look (rn "x"))) [], rn "y"]⟩)]
/-- `.macro local(x) { b { b -> x; } }` -/
def msBrace : Macros := [(str "local", ⟨[str "x"], .many [] [.mk [.prod (str "b") [rn "x"]]] [rn "b"]⟩)]
/-- `.macro f(p) { %!g(p) } .macro g(q) { p q }` -/
def msCapture : Macros := [(str "f", ⟨[str "p"], .one (.mk none (.macrocall (str "g") [rn "p"])) []⟩), (str "g", ⟨[str "q"], sq [rn "p", rn "q"]⟩)]
/-- `.macro m(x) { %!m(x) }` -/
def msLoop : Macros := [(str "m", ⟨[str "x"], .one (.mk none (.macrocall (str "m") [rn "x"])) []⟩)]

/-- `.macro list(x) { %!opt(x) } .macro opt(x) { x? } a -> %!list(b);` -/
def chained : GrammarN := .mk [.macrodef (str "list") [str "x"] (.one (.mk none (.macrocall (str "opt") [rn "x"])) []),
  .macrodef (str "opt") [str "x"] (.one (.mk none (.ident (str "x"))) [.op (str "?")]),
  .prod (str "a") [.one (.mk none (.macrocall (str "list") [rn "b"])) []]]

end Ex

open Ex

/-- The hypotheses hold of `%!twice(z)`; the arguments may use names of parameters without being replaced again: `%!list(sep, x)`. -/
example : (∃ mc, lookup (str "twice") msList = some mc ∧ [rn "z"].length = mc.args.length ∧ (∀ p ∈ mc.args, p ∉ mc.body.hidden) ∧
      msList.NoCapture mc.args) ∧
    Builds msList (.macrocall (str "twice") [rn "z"])
      (.seq [.seq [.rule (str "z"), anyT (.seq [.rule (str "y"), .rule (str "z")])], .rule (str "z")]) ∧
    Builds msList (.macrocall (str "list") [rn "sep", rn "x"])
      (.seq [.rule (str "sep"), anyT (.seq [.rule (str "x"), .rule (str "sep")])]) := by
  refine ⟨⟨_, rfl, rfl, by decide, ?_⟩, ⟨20, rfl⟩, ⟨20, rfl⟩⟩
  intro n m h p hp hi
  have hp : p = str "x" := by simpa using hp
  subst hp
  simp only [msList, lookup] at h
  split at h
  · simp only [Option.some.injEq] at h; subst h; decide
  · split at h
    · simp only [Option.some.injEq] at h; subst h; decide
    · simp at h

/-- `.macro list(x, sep) { … } a -> b { .macro list(y) { y } b -> "x"; };` and again at the end. -/
example : (macrosOf (.mk [.macrodef (str "list") [str "x", str "sep"] (rn "x"),
      .prod (str "a") [.many [] [.mk [.macrodef (str "one") [str "y"] (rn "y")]] [rn "b"]],
      .macrodef (str "list") [str "u", str "v"] (rn "u")])).map (fun p => (p.1, p.2.args)) =
    [(str "list", [str "u", str "v"]), (str "one", [str "y"])] := by decide +kernel

/-- **C38** A parameter in a look-ahead is left as it is: `%!ahead(c)` is `(?=x) y`. -/
theorem C38_lookahead : Builds msAhead (.macrocall (str "ahead") [rn "c"]) (.seq [.look (.rule (str "x")), .rule (str "y")]) ∧
    Builds msAhead (.term ((sq [.one (.mk none (.look (rn "x"))) [], rn "y"]).subst (Macro.argument ⟨[str "x"], rn "x"⟩ [rn "c"])))
      (.seq [.look (.rule (str "c")), .rule (str "y")]) :=
  ⟨⟨20, rfl⟩, ⟨20, rfl⟩⟩

/-- **C38** So is one in a grammar in braces: `%!local(c)` is `b { b -> x; }`. -/
theorem C38_braces : Builds msBrace (.macrocall (str "local") [rn "c"]) (.scope (.rule (str "b")) [(str "b", .rule (str "x"))]) :=
  ⟨20, rfl⟩

/-- **C38** The name `p` in the macro `g` is captured where `f` calls it: `%!f(c)` is `c c`, though `%!g(c)` is `p c`. -/
theorem C38_capture : Builds msCapture (.macrocall (str "f") [rn "c"]) (.seq [.rule (str "c"), .rule (str "c")]) ∧
    Builds msCapture (.macrocall (str "g") [rn "c"]) (.seq [.rule (str "p"), .rule (str "c")]) :=
  ⟨⟨20, rfl⟩, ⟨20, rfl⟩⟩

/-- **C38** A call of a macro that calls itself is never done, however much it recurses. -/
theorem C38_recursive (n : Nat) (a : TermN) : buildAtom msLoop n (.macrocall (str "m") [a]) = .error .oof := by
  induction n using Nat.strongRecOn generalizing a with
  | ind n ih =>
    match n with
    | 0 => rfl
    | 1 => rfl
    | 2 => rfl
    | n + 3 =>
      rw [buildAtom]
      have : lookup (str "m") msLoop = some ⟨[str "x"], .one (.mk none (.macrocall (str "m") [rn "x"])) []⟩ := rfl
      rw [this]
      simp only
      rw [buildTerm, buildNamed, ih n (by omega)]
      rfl

/-- **C38** A call with too few arguments, or of a macro that does not exist, panics. -/
theorem C38_panics : buildAtom msList 20 (.macrocall (str "list") [rn "x"]) = .error .panic ∧
    buildAtom msList 20 (.macrocall (str "none") []) = .error .panic :=
  ⟨rfl, rfl⟩

/-- **C38** If following the calls of macros from the source comes to an end, the grammar is made, or it panics; more fuel
makes no difference. -/
theorem C38_ends (g : GrammarN) (h : ∀ m ∈ g.calls, (macrosOf g).Ends m) :
    (∃ N G, ∀ n, N ≤ n → newFromAst n g = .ok G) ∨ ∃ N, ∀ n, N ≤ n → newFromAst n g = .error .panic := by
  obtain ⟨N, hN⟩ := GrammarN.halts (ms := macrosOf g) g fun m hm => (h m hm).halts
  by_cases hG : ∃ n G, buildGrammar (macrosOf g) n g = .ok G
  · obtain ⟨n, G, hG⟩ := hG
    exact .inl ⟨n, insertCutPoints G, fun m hm => by rw [newFromAst, buildGrammar_mono hm hG]; rfl⟩
  · refine .inr ⟨N, fun n hn => ?_⟩
    unfold newFromAst
    cases hb : buildGrammar (macrosOf g) n g with
    | ok G => exact absurd ⟨n, G, hb⟩ hG
    | error e =>
      cases e with
      | panic => rfl
      | oof => exact absurd hb (hN n hn)

/-- The same for a source whose macro `list` calls `opt`: `.macro list(x) { %!opt(x) } .macro opt(x) { x? } a -> %!list(b);`. -/
example : ∀ m ∈ chained.calls, (macrosOf chained).Ends m := by
  have hopt : (macrosOf chained).Ends (str "opt") := ⟨_, fun b hb => by
    obtain ⟨mc, h1, h2⟩ := hb
    have : (lookup (str "opt") (macrosOf chained)).map (·.body.calls) = some [] := by decide +kernel
    rw [h1, Option.map_some, Option.some.injEq] at this
    rw [this] at h2
    cases h2⟩
  have hlist : (macrosOf chained).Ends (str "list") := ⟨_, fun b hb => by
    obtain ⟨mc, h1, h2⟩ := hb
    have : (lookup (str "list") (macrosOf chained)).map (·.body.calls) = some [str "opt"] := by decide +kernel
    rw [h1, Option.map_some, Option.some.injEq] at this
    rw [this, List.mem_singleton] at h2
    rw [h2]
    exact hopt⟩
  intro m hm
  have : chained.calls = [str "list"] := by decide +kernel
  rw [this, List.mem_singleton] at hm
  rw [hm]
  exact hlist

end Wbnf

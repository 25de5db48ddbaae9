import Verif.Lemmas.TypesVisitGrammar
import Verif.Examples.Generated
import Verif.Props.TypesDecl
import Verif.Props.TypesMany

/-!
# C61 Generated walkers
-/

namespace Wbnf

variable {E : Engine} {X : Externals} {camel : Str → Str} {rnd : Nat → Nat} {tm : TypeMap} {g : Grammar} {m n k : Nat} {ps : Parsers}
  {r : Str} {inp rest : Scanner} {ρ : Nat → Nat} {upper : Str → Str} {ord : List Member → List Member} {σ : Type} {ops : Visitor σ}
  {skip : Str → Ast → Bool}

/-- **C61** Everything that the functions of a walker use is declared, with the right types: the accessors of the type of the node, the type of what
they return, and the function for it. There is one function for a type. Partial: for grammars as in C60. -/
theorem C61_compiles_partial (hm : makeTypes camel rnd g = some tm) (hu : Untangled camel (g.usages camel))
    (hd : g.Deep (Term.Makes (g.map fun e => typeOf camel e.1) camel)) (ho : Sorts upper ord) :
    ((walkFuncs camel ord tm).map WalkFunc.type).Nodup ∧ ∀ f ∈ walkFuncs camel ord tm, f.type ∈ allTypes camel tm ∧ ∀ st ∈ f.steps,
      (∃ d ∈ allMethods camel tm, d.receiver = f.type ∧ d.name = (if st.many then str "All" else str "One") ++ st.getter ∧
        d.does.returns = some st.type ∧ d.does.isAll = st.many) ∧
      st.type ∈ allTypes camel tm ∧ (st.walker = true → ∃ f' ∈ walkFuncs camel ord tm, f'.type = st.type) ∧
      (st.walker = false → TokenType camel tm st.type) := by
  have h := makeTypes_declared hm hu hd
  refine ⟨?_, ?_⟩
  · have h1 := C60_types_once hm
    refine List.pairwise_map.2 (List.pairwise_filterMap.2 ((List.pairwise_map.1 h1).imp ?_))
    intro a b hne f hf f' hf'
    split at hf <;> [simp at hf; skip]
    split at hf' <;> [simp at hf'; skip]
    obtain rfl := Option.some.inj hf
    obtain rfl := Option.some.inj hf'
    exact hne
  · intro f hf
    obtain ⟨⟨ty, x⟩, hx, hf⟩ := List.mem_filterMap.1 hf
    split at hf <;> [simp at hf; skip]
    obtain rfl := Option.some.inj hf
    refine ⟨List.mem_map.2 ⟨_, hx, rfl⟩, fun st hst => ?_⟩
    obtain ⟨c, hc, hs⟩ := List.mem_filterMap.1 hst
    cases x with
    | basic z => exact absurd rfl ‹¬ (ty, GoType.basic z).2.children = []›
    | rule z cs =>
      have hc : c ∈ cs := (ho cs).1.mem_iff.1 hc
      have hty : GoType.declares camel (.rule z cs) = ty := h.keyed.2 _ hx
      have ha := h.accessor hx hc hs
      have hret : (st.does c.ident).returns = some st.type := by simp only [WalkStep.does]; split <;> rfl
      refine ⟨⟨_, ha, hty.symm, rfl, hret, ?_⟩, h.closed _ ha st.type hret, ?_, ?_⟩
      · simp only [WalkStep.does]; split <;> simp_all [GoMethod.isAll]
      · obtain ⟨y, hy, hw⟩ := h.step hx hc hs
        intro hwt
        refine ⟨_, List.mem_filterMap.2 ⟨_, hy, by rw [if_neg (hw.1 hwt)]⟩, ?_⟩
        exact h.keyed.2 _ hy
      · obtain ⟨y, hy, hw⟩ := h.step hx hc hs
        intro hwf
        cases y with
        | basic w => exact h.basic hy
        | rule w cs' =>
          have hne : cs' ≠ [] := fun e => (h.sound _ hy).2 w (by rw [e])
          exact absurd (hw.2 hne) (by simp [hwf])

/-- **C61** A walk ends, for every node and every type, and makes the calls for the node and for the children that its accessors return, in the
order of their names, but for what the callbacks tell to leave, until a callback returns a stopper that stops. Partial: for grammars as in C60; as in C45,
for callbacks that do not return one stopper both to stop and to leave the node (`C61_aborter`), or one to leave the node for a token. -/
theorem C61_walk_partial (hm : makeTypes camel rnd g = some tm) (hu : Untangled camel (g.usages camel))
    (hd : g.Deep (Term.Makes (g.map fun e => typeOf camel e.1) camel)) (ho : Sorts upper ord) (hs : ops.Skips (TokenType camel tm) skip)
    {ty : Str} (hty : ty ∈ allTypes camel tm) (a : Ast) :
    ∃ cs N, Tour (Accessible camel tm upper) (TokenType camel tm) skip ty a cs ∧
      ∀ fuel, N ≤ fuel → ∀ s, (visit camel ord tm ops fuel ty a s).map Prod.fst = some (ops.callUntil Stopper.stops cs s).1 := by
  obtain ⟨cs, h1, h2⟩ := (makeTypes_declared hm hu hd).visit ho hs (sizeOf a + 1) a ty (Nat.lt_succ_self _) hty
  refine ⟨cs, sizeOf a + 1, h1, fun fuel hf s => ?_⟩
  obtain ⟨r, e, h3, _⟩ := h2 fuel hf s
  rw [e, ← h3]
  rcases r with ⟨s', _ | st⟩
  · rfl
  · simp only [Visitor.seen]; split <;> rfl

/-- **C61** In a walk over the AST of what a rule parses, the children of a node are all its children under names that the grammar uses for nodes. Partial:
for grammars as in C58, C59 and C60, and otherwise as above. -/
theorem C61_nodes_partial (hg : g.wf = true) (hc : g.compile E m = .ok ps) (hG : ps.grammar.Convertible) (hesc : X.esc = none)
    (hm : makeTypes camel rnd g = some tm) (ht : g.Typed camel tm) (hcl : ps.grammar.Clear camel (g.nameUses camel)) (hu : Untangled camel (g.usages camel))
    (hd : g.Deep (Term.Makes (g.map fun e => typeOf camel e.1) camel)) (ho : Sorts upper ord) (hs : ops.Skips (TokenType camel tm) skip)
    {t0} (hr : (r, t0) ∈ g) {x cs} (h : ps.run E X ρ n r inp = .ok (.node r x cs) rest k) :
    ∃ b calls N, (∀ n, N ≤ n → fromParserNode n ps.grammar (.node r x cs) = .ok (ps.grammar, b)) ∧
      Tour (NamedChildren (g.nameUses camel) upper) (TokenType camel tm) skip (typeOf camel r) (.branch b) calls ∧
      ∀ fuel, N ≤ fuel → ∀ s, (visit camel ord tm ops fuel (typeOf camel r) (.branch b) s).map Prod.fst = some (ops.callUntil Stopper.stops calls s).1 := by
  obtain ⟨t, parts, b, N, hl, h1, h2, h3⟩ := C31_unchanged_partial hg hc hG hesc h
  have hR := grammar_counted hm ht (compile_grammar hc) hcl
  obtain ⟨calls, N', h4, h5⟩ := C61_walk_partial hm hu hd ho hs (C60_rules hm r t0 hr) (.branch b)
  refine ⟨b, calls, N + N', fun n hn => h3 n (by omega), h4.named hm ht (makeTypes_declared hm hu hd) ?_, fun fuel hf s => h5 fuel (by omega) s⟩
  have hq := hR.counts r t hl
  simp only [List.mem_cons, forall_eq_or_imp] at hq
  have hp := (h1.conform hR _ (hR.reads.rules r t hl) hq.2).tag (k := ruleTag) (x := .extra (.rule r)) (by decide)
  have := conforms_of_groups hR.reads.oneWay h2 hq.1 hp
  rwa [(ht.names _ _ hr).2] at this

/-- **C61** With callbacks that return nil, exactly the nodes in the AST are entered. Partial: as above. -/
theorem C61_all_partial (hg : g.wf = true) (hc : g.compile E m = .ok ps) (hG : ps.grammar.Convertible) (hesc : X.esc = none)
    (hm : makeTypes camel rnd g = some tm) (ht : g.Typed camel tm) (hcl : ps.grammar.Clear camel (g.nameUses camel)) (hu : Untangled camel (g.usages camel))
    (hd : g.Deep (Term.Makes (g.map fun e => typeOf camel e.1) camel)) (ho : Sorts upper ord)
    (he : ∀ ty a s, (ops.enter ty a s).2 = none) (hx : ∀ ty a s, (ops.exit ty a s).2 = none)
    {t0} (hr : (r, t0) ∈ g) {x cs} (h : ps.run E X ρ n r inp = .ok (.node r x cs) rest k) :
    ∃ b calls N, (∀ n, N ≤ n → fromParserNode n ps.grammar (.node r x cs) = .ok (ps.grammar, b)) ∧
      (∀ ty a, .enter ty a ∈ calls ↔ NodeWithin (g.nameUses camel) (TokenType camel tm) (typeOf camel r) (.branch b) ty a) ∧
      ∀ fuel, N ≤ fuel → ∀ s, (visit camel ord tm ops fuel (typeOf camel r) (.branch b) s).map Prod.fst = some (ops.callAll calls s) := by
  have hs : ops.Skips (TokenType camel tm) fun _ _ => false := ⟨by simp [hx], by simp [he], by simp, by simp [he]⟩
  obtain ⟨b, calls, N, h1, h2, h3⟩ := C61_nodes_partial hg hc hG hesc hm ht hcl hu hd ho hs hr h
  refine ⟨b, calls, N, h1, h2.within, fun fuel hf s => ?_⟩
  rw [h3 fuel hf s, Visitor.callUntil_never calls s fun e s => by cases e <;> simp [Visitor.call, he, hx]]

/-- **C61** For every grammar, generated walkers take `Aborter` for `NodeExiter`: returned by the callbacks for entering nodes it does not end the walk. -/
theorem C61_aborter (fuel : Nat) (ty : Str) (a : Ast) (s : σ) :
    (visit camel ord tm (ops.leavingWith aborter) fuel ty a s).map Prod.fst = (visit camel ord tm (ops.leavingWith nodeExiter) fuel ty a s).map Prod.fst := by
  simp only [visit]
  split
  · rfl
  split
  · simp only [Visitor.leavingWith, Option.map_some]
    rcases ops.enter ty a s with ⟨s', _ | st⟩
    · rfl
    · simp only; split <;> rfl
  · rw [visitNode_leaving rfl, visitNode_leaving rfl]

/-! ## Examples and violations -/

namespace Ex

theorem insertMember_perm (a : Member) : ∀ l, (insertMember a l).Perm (a :: l)
  | [] => .refl _
  | x :: xs => by
    unfold insertMember
    split
    · exact .refl _
    · exact ((insertMember_perm a xs).cons x).trans (.swap a x xs)

theorem insertMember_sorted (a : Member) : ∀ {l : List Member}, (l.Pairwise fun a b => ¬ capitals b.ident < capitals a.ident) →
    (insertMember a l).Pairwise fun a b => ¬ capitals b.ident < capitals a.ident
  | [], _ => by simp [insertMember]
  | x :: xs, h => by
    obtain ⟨h1, h2⟩ := List.pairwise_cons.1 h
    unfold insertMember
    split
    · rename_i hlt
      refine List.pairwise_cons.2 ⟨?_, h⟩
      intro y hy
      rcases List.mem_cons.1 hy with rfl | hy
      · exact fun h' => absurd (List.lt_trans h' hlt) (List.lt_irrefl _)
      · exact fun h' => h1 y hy (List.lt_trans h' hlt)
    · rename_i hlt
      refine List.pairwise_cons.2 ⟨?_, insertMember_sorted a h2⟩
      intro y hy
      rcases List.mem_cons.1 ((insertMember_perm a xs).mem_iff.1 hy) with rfl | hy
      · exact hlt
      · exact h1 y hy

theorem sorts_members : Sorts capitals sortMembers := by
  intro cs
  induction cs with
  | nil => exact ⟨.refl _, .nil⟩
  | cons a cs ih => exact ⟨(insertMember_perm a _).trans (ih.1.cons a), insertMember_sorted a ih.2⟩

/-- Callbacks that log the types of nodes, and return this. -/
def logs (st : Str → Option Stopper) : Visitor (List (Bool × Str)) where
  enter ty _ s := (s ++ [(true, ty)], st ty)
  exit ty _ s := (s ++ [(false, ty)], none)

/-- The log of a walk over the AST of the text. -/
def walkLog (g : Grammar) (r s : String) (st : Str → Option Stopper) : Option (List (Bool × Str)) :=
  match ast g r s with
  | some (.ok (_, b)) => (visit cap sortMembers (typesOf g) (logs st) 20 (typeOf cap (str r)) (.branch b) []).map Prod.fst
  | _ => none

end Ex

open Ex in
/-- The hypotheses, and a walk. -/
example : gMany.wf = true ∧ gMany.compile regexp 50 = .ok (comp! gMany) ∧ (comp! gMany).grammar.Convertible ∧
    makeTypes cap id gMany = some (typesOf gMany) ∧ gMany.Typed cap (typesOf gMany) ∧ (comp! gMany).grammar.Clear cap (gMany.nameUses cap) ∧
    Untangled cap (gMany.usages cap) ∧ gMany.Deep (Term.Makes (gMany.map fun e => typeOf cap e.1) cap) ∧ Sorts capitals sortMembers ∧
    walkLog gMany "a" "b+bcdd,dd" (fun _ => none) = some [(true, str "ANode"),
      (true, str "BNode"), (true, str "BNode"), (false, str "BNode"), (true, str "BNode"), (false, str "BNode"), (false, str "BNode"), (true, str "CNode"),
      (true, str "AxNode"), (true, str "DNode"), (true, str "DNode"), (false, str "AxNode"),
      (true, str "AxNode"), (true, str "DNode"), (true, str "DNode"), (false, str "AxNode"), (false, str "ANode")] := by
  refine ⟨by decide +kernel, comp_ok (by decide +kernel), convertible_of_convertibleB (by decide +kernel), by decide +kernel, typed_of_typedB (by decide +kernel),
    by decide +kernel, by decide +kernel, ?_, sorts_members, by decide +kernel⟩
  simp [gMany, Grammar.Deep, deepDefs, Term.Deep, deepList, Term.Makes, Term.adds, addsAny]
  try decide +kernel

/-- **C61** Not for all grammars: of two children with only an accessor for one, one is visited. -/
theorem C61_alternatives : Ex.astKeys Ex.gAlternative "a" "xx" = some [(ruleTag, none), (str "b", some 2), (choiceTag, some 1)] ∧
    Ex.walkLog Ex.gAlternative "a" "xx" (fun _ => none) = some [(true, str "ANode"), (true, str "BNode"), (false, str "ANode")] := by
  decide +kernel

/-- **C61** Rules after `:` are not visited. -/
theorem C61_separators : Ex.astKeys Ex.gSepRule "a" "x,x" = some [(ruleTag, none), (str "b", some 2), (str "c", some 1)] ∧
    Ex.walkLog Ex.gSepRule "a" "x,x" (fun _ => none) = some [(true, str "ANode"), (true, str "BNode"), (true, str "BNode"), (false, str "ANode")] := by
  decide +kernel

/-- **C61** A name for a rule in braces: the walker uses a type that is not declared. -/
theorem C61_inner : ∃ tm, makeTypes Ex.cap id Ex.gInnerNamed = some tm ∧
    ∃ f ∈ walkFuncs Ex.cap id tm, ∃ st ∈ f.steps, st.type ∉ allTypes Ex.cap tm :=
  ⟨_, rfl, by decide +kernel⟩

/-- **C61** What `C61_walk_partial` excludes: a stopper to leave a token leaves its parent, whose other children are not visited and
whose `Exit` is not called. -/
theorem C61_leaf : Ex.walkLog Ex.gMany "a" "b+bcdd,dd" (fun ty => if ty = str "CNode" then some nodeExiter else none) = some [(true, str "ANode"),
      (true, str "BNode"), (true, str "BNode"), (false, str "BNode"), (true, str "BNode"), (false, str "BNode"), (false, str "BNode"), (true, str "CNode")] := by
  decide +kernel

end Wbnf

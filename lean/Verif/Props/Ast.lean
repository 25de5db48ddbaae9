import Verif.Lemmas.FromTree
import Verif.Lemmas.Convertible
import Verif.Props.Tree
import Verif.Props.Stacks
import Verif.Props.Unparse

/-!
# C31, C32: FromParserNode
-/

namespace Wbnf

variable {E : Engine} {X : Externals} {g G : Grammar} {m n k : Nat} {ps : Parsers} {r : Str} {inp rest : Scanner} {v : Tree} {ρ : Nat → Nat}

/-! ## Leaves -/

/-- The leaves of parts, in order. -/
def partsLeaves : List (Str × Ast) → List Scanner
  | [] => []
  | (_, x) :: ps => x.leaves ++ partsLeaves ps

theorem partsLeaves_append (ps qs : List (Str × Ast)) : partsLeaves (ps ++ qs) = partsLeaves ps ++ partsLeaves qs := by
  induction ps with
  | nil => rfl
  | cons p ps ih => simp [partsLeaves, ih]

theorem partsLeaves_perm {ps qs : List (Str × Ast)} (h : ps.Perm qs) : (partsLeaves ps).Perm (partsLeaves qs) := by
  induction h with
  | nil => exact .refl _
  | cons x _ ih => exact (List.Perm.refl _).append ih
  | swap x y l =>
    simp only [partsLeaves, ← List.append_assoc]
    exact List.perm_append_comm.append_right _
  | trans _ _ ih1 ih2 => exact ih1.trans ih2

theorem astLeaves_partsNamed (k : Str) (ps : List (Str × Ast)) : astLeaves (partsNamed k ps) = partsLeaves (ps.filter fun p => p.1 = k) := by
  induction ps with
  | nil => rfl
  | cons p ps ih =>
    obtain ⟨k', x⟩ := p
    rw [partsNamed_cons]
    by_cases h : k' = k
    · simp [h, partsLeaves, astLeaves, ih]
    · simp [h, ih]

theorem Kids.leaves_nodes (c : Kids) : c.leaves = astLeaves c.nodes := by
  cases c <;> simp [Kids.leaves, Kids.nodes, astLeaves]

/-- The branch holds the parts. -/
def Has (ps : List (Str × Ast)) (b : Branch) : Prop :=
  (b.map Prod.fst).Nodup ∧ ∀ k, ((lookup k b).map Kids.nodes).getD [] = partsNamed k ps

theorem Groups.has {t : Term} {ps : List (Str × Ast)} {b : Branch} (h : Groups t ps b) : Has ps b := by
  refine ⟨h.1, fun k => ?_⟩
  have := h.2 k
  cases hp : partsNamed k ps with
  | nil => rw [hp] at this; simp only at this; rw [this]; rfl
  | cons x xs =>
    rw [hp] at this
    by_cases e : AtMostOne t k ∧ k ≠ choiceTag ∧ k ≠ emptyTag
    · obtain ⟨h1, h2⟩ := this.1 e
      rw [h1, h2]; rfl
    · rw [this.2 e]; rfl

theorem Has.leaves : ∀ {b : Branch} {ps : List (Str × Ast)}, Has ps b → (branchLeaves b).Perm (partsLeaves ps) := by
  intro b
  induction b with
  | nil =>
    intro ps h
    have : ps = [] := by
      cases ps with
      | nil => rfl
      | cons p ps =>
        have := h.2 p.1
        rw [show p :: ps = (p.1, p.2) :: ps from rfl, partsNamed_cons] at this
        simp [lookup] at this
    subst this
    exact .refl _
  | cons e b ih =>
    intro ps h
    obtain ⟨k, c⟩ := e
    obtain ⟨hn, hl⟩ := h
    simp only [List.map_cons, List.nodup_cons] at hn
    have hk := hl k
    simp only [lookup, if_true, Option.map_some, Option.getD_some] at hk
    have hnone : lookup k b = none := by
      cases e : lookup k b with
      | none => rfl
      | some x => exact absurd (List.mem_map.2 ⟨_, lookup_mem e, rfl⟩) hn.1
    have hrest : Has (ps.filter fun p => ¬ p.1 = k) b := by
      refine ⟨hn.2, fun k' => ?_⟩
      by_cases e : k' = k
      · subst e
        rw [hnone]
        unfold partsNamed
        rw [List.filter_filter]
        simp
      · have := hl k'
        simp only [lookup, Ne.symm e, if_false] at this
        rw [this]
        unfold partsNamed
        rw [List.filter_filter]
        congr 1
        apply List.filter_congr
        intro p _
        by_cases e' : p.1 = k'
        · simp [e', e]
        · simp [e']
    have h1 := ih hrest
    simp only [branchLeaves]
    rw [Kids.leaves_nodes, hk, astLeaves_partsNamed]
    refine ((List.Perm.refl _).append h1).trans ?_
    rw [← partsLeaves_append]
    apply partsLeaves_perm
    have := List.filter_append_perm (fun p : Str × Ast => decide (p.1 = k)) ps
    simpa using this

mutual
theorem PartsOf.leaves {G : Grammar} {t v ps} : PartsOf G t v ps → (partsLeaves ps).Perm v.leaves
  | .lit => .refl _
  | .regexp => .refl _
  | .rule _ h hg => by
    simp only [partsLeaves, Ast.leaves, List.append_nil]
    exact hg.has.leaves.trans h.leaves
  | .named h hg => by
    simp only [partsLeaves, Ast.leaves, List.append_nil]
    exact hg.has.leaves.trans h.leaves
  | .cut h => h.leaves
  | .scope h => h.leaves
  | .look h => by simpa [Tree.leaves, leavesList] using h.leaves
  | .seq h => h.leaves
  | .oneof _ h => by simpa [Tree.leaves, leavesList, partsLeaves, Ast.leaves] using h.leaves
  | .quant _ h => h.leaves
  | .delim h h' => by
    simp only [Tree.leaves, leavesList, partsLeaves_append]
    exact h.leaves.append h'.leaves
  | .delimLead _ h => by simpa [Tree.leaves, leavesList, partsLeaves, Ast.leaves] using h.leaves
  | .refLeaf => .refl _
  | .refNode h hg => by
    simp only [partsLeaves, Ast.leaves, List.append_nil]
    exact hg.has.leaves.trans h.leaves
theorem PartsSeq.leaves {G : Grammar} {ts vs ps} : PartsSeq G ts vs ps → (partsLeaves ps).Perm (leavesList vs)
  | .nil => .refl _
  | .cons h h' => by
    simp only [leavesList, partsLeaves_append]
    exact h.leaves.append h'.leaves
theorem PartsReps.leaves {G : Grammar} {t vs ps} : PartsReps G t vs ps → (partsLeaves ps).Perm (leavesList vs)
  | .nil => .refl _
  | .cons h h' => by
    simp only [leavesList, partsLeaves_append]
    exact h.leaves.append h'.leaves
theorem PartsList.leaves {G : Grammar} {t sep vs ps} : PartsList G t sep vs ps → (partsLeaves ps).Perm (leavesList vs)
  | .nil => .refl _
  | .cons h h' h'' => by
    simp only [leavesList, partsLeaves_append, List.append_assoc]
    exact h.leaves.append (h'.leaves.append h''.leaves)
  | .trail h => by simpa [leavesList, Tree.leaves, partsLeaves_append, partsLeaves, Ast.leaves] using h.leaves
end

/-! ## Kinds -/

theorem Contributes.trans {a b c : Term} (h1 : Contributes a b) (h2 : Contributes b c) : Contributes a c := by
  induction h1 with
  | refl => exact h2
  | cut _ ih => exact .cut (ih h2)
  | «scope» _ ih => exact .scope (ih h2)
  | look _ ih => exact .look (ih h2)
  | quant _ ih => exact .quant (ih h2)
  | term _ ih => exact .term (ih h2)
  | sep _ ih => exact .sep (ih h2)
  | seq hm _ ih => exact .seq hm (ih h2)
  | oneof hm _ ih => exact .oneof hm (ih h2)

/-- Every branch among the parts is well stored. -/
def PartsStored (G : Grammar) (t : Term) (ps : List (Str × Ast)) : Prop :=
  ∀ k b, (k, .branch b) ∈ ps → ∃ body, Body G t k body ∧ Stored G body b

theorem Body.mono {G : Grammar} {t t' : Term} {k : Str} {body : Term} (h : Contributes t t') (hb : Body G t' k body) : Body G t k body := by
  cases hb with
  | rule a b c => exact .rule (h.trans a) b c
  | named a => exact .named (h.trans a)
  | ref a => exact .ref (h.trans a)

theorem PartsStored.mono {G : Grammar} {t t' : Term} {ps : List (Str × Ast)} (h : Contributes t t') (hb : PartsStored G t' ps) : PartsStored G t ps :=
  fun k b hm => by obtain ⟨body, h1, h2⟩ := hb k b hm; exact ⟨body, h1.mono h, h2⟩

theorem PartsStored.append {G : Grammar} {t : Term} {ps qs : List (Str × Ast)} (h1 : PartsStored G t ps) (h2 : PartsStored G t qs) : PartsStored G t (ps ++ qs) :=
  fun k b hm => (List.mem_append.1 hm).elim (h1 k b) (h2 k b)

theorem PartsStored.stored {G : Grammar} {t : Term} {ps : List (Str × Ast)} {b : Branch} (h : PartsStored G t ps) (hg : Groups t ps b) : Stored G t b := by
  have hh := hg.has
  have hex : ∀ k kids b', lookup k b = some kids → .branch b' ∈ kids.nodes → ∃ body, Body G t k body ∧ Stored G body b' := by
    intro k kids b' hl hm
    have := hh.2 k
    rw [hl] at this
    simp only [Option.map_some, Option.getD_some] at this
    rw [this] at hm
    unfold partsNamed at hm
    obtain ⟨⟨k', x⟩, hp, e⟩ := List.mem_map.1 hm
    have e' := (List.mem_filter.1 hp).2
    simp at e e'
    subst e e'
    exact h k' b' (List.mem_filter.1 hp).1
  classical
  refine .mk (fun k b' => if hx : ∃ body, Body G t k body ∧ Stored G body b' then hx.choose else t) (fun k kids hl h1 h2 h3 => ?_)
    (fun k kids b' hl hm => ?_) (fun k kids b' hl hm => ?_)
  · have := hg.2 k
    cases hp : partsNamed k ps with
    | nil => rw [hp] at this; simp only at this; rw [this] at hl; cases hl
    | cons x xs =>
      rw [hp] at this
      by_cases e : AtMostOne t k ∧ k ≠ choiceTag ∧ k ≠ emptyTag
      · rw [(this.1 e).2] at hl
        cases hl
        exact ⟨⟨fun _ => e.1, fun _ => ⟨_, rfl⟩⟩, by simp [Kids.nodes]⟩
      · rw [this.2 e] at hl
        cases hl
        refine ⟨⟨fun ⟨n, hn⟩ => (by cases hn), fun ha => absurd ⟨ha, h2, h3⟩ e⟩, by simp [Kids.nodes]⟩
  · have hx := hex k kids b' hl hm
    simp only [hx, dif_pos]
    exact hx.choose_spec.1
  · have hx := hex k kids b' hl hm
    simp only [hx, dif_pos]
    exact hx.choose_spec.2

mutual
theorem PartsOf.stored {G : Grammar} {t v ps} : PartsOf G t v ps → PartsStored G t ps
  | .lit => fun k b hm => by simp at hm
  | .regexp => fun k b hm => by simp at hm
  | .rule hl h hg => fun k b hm => by
    simp only [List.mem_singleton, Prod.mk.injEq, Ast.branch.injEq] at hm
    obtain ⟨rfl, rfl⟩ := hm
    exact ⟨_, .rule .refl rfl hl, h.stored.stored hg⟩
  | .named h hg => fun k b hm => by
    simp only [List.mem_singleton, Prod.mk.injEq, Ast.branch.injEq] at hm
    obtain ⟨rfl, rfl⟩ := hm
    exact ⟨_, .named .refl, h.stored.stored hg⟩
  | .cut h => h.stored.mono (.cut .refl)
  | .scope h => h.stored.mono (.scope .refl)
  | .look h => h.stored.mono (.look .refl)
  | .seq h => h.stored fun _ h => h
  | .oneof hl h => fun k b hm => by
    rcases List.mem_cons.1 hm with e | hm
    · simp at e
    · exact (h.stored.mono (.oneof (List.mem_of_getElem? hl) .refl)) k b hm
  | .quant _ h => h.stored.mono (.quant .refl)
  | .delim h h' => (h.stored.mono (.term .refl)).append (h'.stored (.term .refl) (.sep .refl))
  | .delimLead _ h => fun k b hm => by
    rcases List.mem_cons.1 hm with e | hm
    · simp at e
    · exact h.stored (.term .refl) (.sep .refl) k b hm
  | .refLeaf => fun k b hm => by simp at hm
  | .refNode h hg => fun k b hm => by
    simp only [List.mem_singleton, Prod.mk.injEq, Ast.branch.injEq] at hm
    rw [hm.1, hm.2]
    exact ⟨_, .ref .refl, h.stored.stored hg⟩
theorem PartsSeq.stored {G : Grammar} {ts vs ps} : PartsSeq G ts vs ps → ∀ {us : List Term}, (∀ t ∈ ts, t ∈ us) → PartsStored G (.seq us) ps
  | .nil, _, _ => fun k b hm => by simp at hm
  | .cons h h', _, hs => (h.stored.mono (.seq (hs _ (by simp)) .refl)).append (h'.stored fun t ht => hs t (by simp [ht]))
theorem PartsReps.stored {G : Grammar} {t vs ps} : PartsReps G t vs ps → PartsStored G t ps
  | .nil => fun k b hm => by simp at hm
  | .cons h h' => h.stored.append h'.stored
theorem PartsList.stored {G : Grammar} {t sep vs ps} : PartsList G t sep vs ps → ∀ {u : Term}, Contributes u t → Contributes u sep → PartsStored G u ps
  | .nil, _, _, _ => fun k b hm => by simp at hm
  | .cons h h' h'', _, h1, h2 => ((h.stored.mono h2).append (h'.stored.mono h1)).append (h''.stored h1 h2)
  | .trail h, _, _, h2 => (h.stored.mono h2).append (fun k b hm => by simp at hm)
end

/-! ## The theorems -/

theorem ConformsBy.groups {L : Term → Scanner → Prop} {g : Grammar} (hG : g.ConvertibleIn G) {x cs}
    (hconf : ConformsBy (fun _ => L) [g] [] (.rule r) (.node r x cs)) :
    ∃ t parts b g' N, lookup r g = some t ∧ PartsBy L G t (.node r x cs) parts ∧
      Groups t ((ruleTag, .extra (.rule r)) :: parts) b ∧ Grown G g g' ∧
      ∀ n, N ≤ n → fromParserNode n g (.node r x cs) = .ok (g', b) := by
  have hsub : ∀ g' ∈ [g], ∀ r t, lookup r g' = some t → lookup r G = some t := by simpa using hG.sub
  cases hconf with
  | rule hr hconf =>
    rename_i Γ' t'
    obtain ⟨rfl, hd⟩ := resolves_top hr
    obtain ⟨k', hk'⟩ := hd.stored
    have hm' := lookup_mem (hG.sub _ _ hk')
    have hconv := hconf.conv hsub hG (deepDefs_iff.1 hG.deep k' _ hm') (deepDefs_iff.1 hG.braces k' _ hm')
    obtain ⟨t, hl, hconv⟩ : ∃ t, lookup r g = some t ∧ Conv L G [g] t (.node r x cs) := by
      cases hd with
      | here hl _ => exact ⟨_, hl, hconv⟩
      | «alias» hl hd =>
        exact ⟨_, hl, hd.conv hG (by simp) hG.sub (deepDefs_iff.1 hG.deep _ _ (lookup_mem (hG.sub _ _ hl))) hconv⟩
    have hm := lookup_mem (hG.sub _ _ hl)
    obtain ⟨parts, b, ctrs, h1, h2, h3, N, h4⟩ := hconv.body_top (x := .extra (.rule r)) (hG.apart _ _ hm) (deepDefs_iff.1 hG.deep _ _ hm)
    have hb : Between [g] g G := ⟨by simp, hG.sub⟩
    obtain ⟨g', hw, h4⟩ := h4 g hb
    refine ⟨t, parts, b, g', N, hl, h1, h2, hw, fun n hn => ?_⟩
    simp only [fromParserNode, hl, h3, Except.bind]
    exact h4 n hn

theorem parse_groups (hg : g.wf = true) (hc : g.compile E m = .ok ps) (hG : ps.grammar.ConvertibleIn G) (hesc : X.esc = none) {x cs}
    (h : ps.run E X ρ n r inp = .ok (.node r x cs) rest k) :
    ∃ t parts b g' N, lookup r ps.grammar = some t ∧ PartsOf G t (.node r x cs) parts ∧
      Groups t ((ruleTag, .extra (.rule r)) :: parts) b ∧ Grown G ps.grammar g' ∧
      ∀ n, N ≤ n → fromParserNode n ps.grammar (.node r x cs) = .ok (g', b) := by
  obtain ⟨t, parts, b, g', N, hl, h1, h2⟩ := (C04_conforms hg hc hesc h).by.groups hG
  exact ⟨t, parts, b, g', N, hl, h1.forget, h2⟩

/-- **C31**, **C32** FromParserNode succeeds on the tree of a parse and gives the branch that groups the parts of the
tree by name. It adds to the grammar it is given only rules from grammars in braces. Partial: for grammars whose rules
keep their names apart, without external references and lists that associate, where no grammar in braces gives another
definition to a name; see the witnesses below. -/
theorem C31_groups_partial (hg : g.wf = true) (hc : g.compile E m = .ok ps) (hG : ps.grammar.ConvertibleIn G) (hesc : X.esc = none) {x cs}
    (h : ps.run E X ρ n r inp = .ok (.node r x cs) rest k) :
    ∃ t parts b g' N, lookup r ps.grammar = some t ∧ PartsOf G t (.node r x cs) parts ∧
      Groups t ((ruleTag, .extra (.rule r)) :: parts) b ∧ ps.grammar.Amid g' G ∧
      ∀ n, N ≤ n → fromParserNode n ps.grammar (.node r x cs) = .ok (g', b) := by
  obtain ⟨t, parts, b, g', N, hl, h1, h2, hw, h3⟩ := parse_groups hg hc hG hesc h
  have hb := hw.between (Γ := [ps.grammar]) ⟨by simp, hG.sub⟩
  exact ⟨t, parts, b, g', N, hl, h1, h2, ⟨hb.1 _ (by simp), hb.2⟩, h3⟩

/-- **C31** Without grammars in braces it leaves the grammar alone. -/
theorem C31_unchanged_partial (hg : g.wf = true) (hc : g.compile E m = .ok ps) (hG : ps.grammar.Convertible) (hesc : X.esc = none) {x cs}
    (h : ps.run E X ρ n r inp = .ok (.node r x cs) rest k) :
    ∃ t parts b N, lookup r ps.grammar = some t ∧ PartsOf ps.grammar t (.node r x cs) parts ∧
      Groups t ((ruleTag, .extra (.rule r)) :: parts) b ∧
      ∀ n, N ≤ n → fromParserNode n ps.grammar (.node r x cs) = .ok (ps.grammar, b) := by
  obtain ⟨t, parts, b, g', N, hl, h1, h2, hw, h3⟩ := parse_groups hg hc hG hesc h
  rw [hw.same fun _ _ h => h] at h3
  exact ⟨t, parts, b, N, hl, h1, h2, h3⟩

/-- **C31** The AST has the leaves of the tree, each exactly once. -/
theorem C31_leaves_partial (hg : g.wf = true) (hc : g.compile E m = .ok ps) (hG : ps.grammar.ConvertibleIn G) (hesc : X.esc = none) {x cs}
    (h : ps.run E X ρ n r inp = .ok (.node r x cs) rest k) :
    ∃ b g' N, (∀ n, N ≤ n → fromParserNode n ps.grammar (.node r x cs) = .ok (g', b)) ∧
      (Ast.branch b).leaves.Perm (Tree.node r x cs).leaves := by
  obtain ⟨t, parts, b, g', N, hl, h1, h2, _, h3⟩ := C31_groups_partial hg hc hG hesc h
  refine ⟨b, g', N, h3, ?_⟩
  simp only [Ast.leaves]
  refine h2.has.leaves.trans ?_
  simpa [partsLeaves, Ast.leaves] using h1.leaves

/-- **C31** A rule that is a single leaf: the AST has this leaf only. -/
theorem C31_leaf (s : Scanner) : fromParserNode n g (.leaf s) = .ok (g, [([], .one (.leaf s))]) ∧
    (Ast.branch [([], .one (.leaf s))]).leaves = (Tree.leaf s).leaves := by
  simp [fromParserNode, Ast.leaves, branchLeaves, Kids.leaves, Tree.leaves]

/-- **C32** Whatever the input: a name has one node stored alone exactly if the rule allows at most one, and a
list otherwise, in the branch of the rule and in all branches below. -/
theorem C32_kinds_partial (hg : g.wf = true) (hc : g.compile E m = .ok ps) (hG : ps.grammar.ConvertibleIn G) (hesc : X.esc = none) {x cs}
    (h : ps.run E X ρ n r inp = .ok (.node r x cs) rest k) :
    ∃ t b g' N, lookup r ps.grammar = some t ∧ (∀ n, N ≤ n → fromParserNode n ps.grammar (.node r x cs) = .ok (g', b)) ∧
      Stored G t b := by
  obtain ⟨t, parts, b, g', N, hl, h1, h2, _, h3⟩ := C31_groups_partial hg hc hG hesc h
  refine ⟨t, b, g', N, hl, h3, PartsStored.stored (fun k b hm => ?_) h2⟩
  rcases List.mem_cons.1 hm with e | hm
  · simp at e
  · exact h1.stored k b hm

/-- **C32** So code that reads an AST can rely on it: on any two inputs, what the rule stores under a name is a single
node on both or a list on both. -/
theorem C32_same_kind_partial (hg : g.wf = true) (hc : g.compile E m = .ok ps) (hG : ps.grammar.ConvertibleIn G) (hesc : X.esc = none)
    {x x' cs cs' n' k' ρ' inp' rest'}
    (h : ps.run E X ρ n r inp = .ok (.node r x cs) rest k) (h' : ps.run E X ρ' n' r inp' = .ok (.node r x' cs') rest' k') :
    ∃ b b' g1 g1' N, (∀ n, N ≤ n → fromParserNode n ps.grammar (.node r x cs) = .ok (g1, b)) ∧
      (∀ n, N ≤ n → fromParserNode n ps.grammar (.node r x' cs') = .ok (g1', b')) ∧
      ∀ name kids kids', lookup name b = some kids → lookup name b' = some kids' →
        name ≠ ruleTag → name ≠ choiceTag → name ≠ emptyTag → ((∃ n, kids = .one n) ↔ ∃ n, kids' = .one n) := by
  obtain ⟨t, b, g1, N, hl, h1, hs⟩ := C32_kinds_partial hg hc hG hesc h
  obtain ⟨t', b', g1', N', hl', h1', hs'⟩ := C32_kinds_partial hg hc hG hesc h'
  cases hl.symm.trans hl'
  refine ⟨b, b', g1, g1', N + N', fun n hn => h1 n (by omega), fun n hn => h1' n (by omega), fun name kids kids' hk hk' e1 e2 e3 => ?_⟩
  cases hs with
  | mk _ a _ _ =>
    cases hs' with
    | mk _ a' _ _ => exact (a name kids hk e1 e2 e3).1.trans (a' name kids' hk' e1 e2 e3).1.symm

/-! ## Names of layers -/

theorem takeWhile_word {r : Str} (hw : r.all isWordByte = true) (rest : Str) (hr : rest.head?.all (fun c => !isWordByte c) = true) :
    (r ++ rest).takeWhile isWordByte = r := by
  induction r with
  | nil => cases rest with
    | nil => rfl
    | cons c rest => simp at hr; simp [hr]
  | cons c r ih => simp at hw; simp [hw.1, ih (by simpa using hw.2)]

theorem decimal_digits : ∀ (f n : Nat), n < f → (decimalAux f n).all isDigitByte = true ∧ decimalAux f n ≠ [] := by
  intro f
  induction f with
  | zero => intro n h; omega
  | succ f ih =>
    intro n h
    have dig : ∀ d, d < 10 → isDigitByte (UInt8.ofNat (48 + d)) = true := by
      intro d hd
      have : d = 0 ∨ d = 1 ∨ d = 2 ∨ d = 3 ∨ d = 4 ∨ d = 5 ∨ d = 6 ∨ d = 7 ∨ d = 8 ∨ d = 9 := by omega
      rcases this with rfl | rfl | rfl | rfl | rfl | rfl | rfl | rfl | rfl | rfl <;> decide
    unfold decimalAux
    split
    · rename_i hn
      simp only [List.all_cons, List.all_nil, Bool.and_true]
      exact ⟨dig n hn, by simp⟩
    · simp only [List.all_append, List.all_cons, List.all_nil, Bool.and_true, Bool.and_eq_true]
      exact ⟨⟨(ih (n / 10) (by omega)).1, dig _ (by omega)⟩, by simp⟩

/-- A rule with an ordinary name is shown under its name. -/
theorem C31_shown_word {r : Str} (hw : r.all isWordByte = true) : shownName r = r ∧ ShowsName r := by
  have : unlevel r = .ok r := by
    have h := takeWhile_word hw [] rfl
    simp at h
    simp [unlevel, h]
  simp [shownName, ShowsName, this]

/-- The layers of a stack are shown under the name of the stack. -/
theorem C31_shown_layer {r : Str} (hw : r.all isWordByte = true) (hne : r ≠ []) {j : Nat} (hj : j < 2 ^ 63) :
    shownName (r ++ str "@" ++ decimal j) = r ∧ ShowsName (r ++ str "@" ++ decimal j) := by
  have : unlevel (r ++ str "@" ++ decimal j) = .ok r := by
    have hat : str "@" ++ decimal j = 64 :: decimal j := rfl
    have h := takeWhile_word hw (64 :: decimal j) rfl
    have hd := decimal_digits (j + 1) j (by omega)
    have hv : digitsValue (decimal j) = j := (decimalAux_props (j + 1) j (by omega)).1
    rw [List.append_assoc, hat]
    unfold unlevel
    simp only [h, List.drop_left]
    rw [if_pos ⟨hne, trivial, hd.2, hd.1⟩, if_pos (by rw [hv]; exact hj)]
  exact ⟨by rw [shownName, this], ⟨_, this⟩⟩

namespace Ex

/-- What FromParserNode makes of the tree of a parse; `none`: no parse. -/
def ast (g : Grammar) (r s : String) : Option (Except Stop (Grammar × Branch)) :=
  match runTop g r s with
  | .ok v _ => some (fromParserNode 100 (comp! g).grammar v)
  | _ => none

def astPanics (g : Grammar) (r s : String) : Bool :=
  match ast g r s with
  | some (.error .panic) => true
  | _ => false

/-- The names in the branch, with the number of nodes for lists and none for nodes alone. -/
def astKeys (g : Grammar) (r s : String) : Option (List (Str × Option Nat)) :=
  match ast g r s with
  | some (.ok (_, b)) => some (b.map fun p => (p.1, match p.2 with | .one _ => none | .many ns => some ns.length))
  | _ => none

/-- The grammar is left as it was. -/
def astKeeps (g : Grammar) (r s : String) : Bool :=
  match ast g r s with
  | some (.ok (g', _)) => decide (g' = (comp! g).grammar)
  | _ => false

/-- `a -> @ ("[" a "]")? > "x";`: two layers are stored under the name `a`. -/
def gLayers : Grammar := [(str "a", .stack [
  .seq [.rule atRule, .quant (.seq [.s (str "["), .rule (str "a"), .s (str "]")]) 0 1], .s (str "x")])]

/-- `a -> b:>"-"; b -> "x" "y";` -/
def gAssocNode : Grammar := [(str "a", .delim (.rule (str "b")) (.s (str "-")) 1 false false),
  (str "b", .seq [.s (str "x"), .s (str "y")])]

/-- `a -> b {b -> "x" "x";} b; b -> "1" "2";` -/
def gInner : Grammar := [(str "a", .seq [.scope (.rule (str "b")) [(str "b", .seq [.s (str "x"), .s (str "x")])], .quant (.rule (str "b")) 0 1]),
  (str "b", .seq [.s (str "1"), .s (str "2"), .s (str "3")])]

/-- `a -> ("x"):(("-"):",");`, with one-element sequences: the separator is itself a list. -/
def gSepList : Grammar := [(str "a", .delim (.seq [.s (str "x")]) (.delim (.seq [.s (str "-")]) (.s (str ",")) 0 false false) 0 false false)]

/-- `a -> n=b; b -> "x" "y";` -/
def gNamedTop : Grammar := [(str "a", .named (str "n") (.seq [.s (str "x"), .s (str "y")]))]

end Ex

/-- **C31** Not for all grammars. FromParserNode panics: if two layers of a stack are stored in one branch; for
lists that associate; for rules that are a named term; for lists whose separator is a list. A grammar in braces changes the
caller's grammar, so that, if it gives another definition to a name, a tree of the outer rule is no longer converted. -/
theorem C31_not_always :
    Ex.astPanics Ex.gLayers "a" "x[x]" = true ∧ Ex.astPanics Ex.gAssocNode "a" "xy-xy" = true ∧
    Ex.astPanics Ex.gNamedTop "a" "xy" = true ∧ Ex.astPanics Ex.gSepList "a" "x-,-x" = true ∧
    Ex.astKeeps Ex.gInner "a" "xx" = false ∧ Ex.astPanics Ex.gInner "a" "xx123" = true := by
  refine ⟨?_, ?_, ?_, ?_, ?_, ?_⟩ <;> decide +kernel

namespace Ex

/-- `a -> @:"+" > "-"? @ > /{\d+} | "(" @ ")";` as compiled. -/
theorem gSum_compiled : (comp! gSum).grammar = [
    (str "a", .delim (.rule (str "a@1")) (.s (str "+")) 0 false false),
    (str "a@1", .seq [.quant (.s (str "-")) 0 1, .rule (str "a@2")]),
    (str "a@2", .oneof [.re (str "\\d+"), .seq [.s (str "("), .rule (str "a"), .s (str ")")]])] := by decide +kernel

theorem gSum_convertible : (comp! gSum).grammar.Convertible := convertible_of_convertibleB (by decide +kernel)

end Ex

open Ex in
/-- The hypotheses, and the names in the AST of `1+-(2+3)`: a list of two operands and a list of one operator. -/
example : gSum.wf = true ∧ gSum.compile regexp 50 = .ok (comp! gSum) ∧ (comp! gSum).grammar.Convertible ∧
    astKeys gSum "a" "1+-(2+3)" = some [(ruleTag, none), (str "a", some 2), ([], some 1)] :=
  ⟨by decide +kernel, comp_ok (by decide +kernel), gSum_convertible, by decide +kernel⟩

namespace Ex

def hBraced : Grammar := [(str "d", .seq [.s (str "x"), .rule (str "e")]), (str "e", .re (str "\\d+"))]

/-- `a -> ("(" d:"+" ")" {d -> "x" e; e -> /{\d+};}) c?; c -> "!";` -/
def gBraced : Grammar := [
  (str "a", .seq [.scope (.seq [.s (str "("), .delim (.rule (str "d")) (.s (str "+")) 0 false false, .s (str ")")]) hBraced,
    .quant (.rule (str "c")) 0 1]),
  (str "c", .s (str "!"))]

/-- The rules that FromParserNode has added to the grammar. -/
def astAdds (g : Grammar) (r s : String) : Option (List Str) :=
  match ast g r s with
  | some (.ok (g', _)) => some ((g'.map Prod.fst).filter fun r => !(g.map Prod.fst).contains r)
  | _ => none

end Ex

open Ex in
/-- With a grammar in braces: the two rules in it are added. -/
example : gBraced.wf = true ∧ gBraced.compile regexp 50 = .ok (comp! gBraced) ∧
    (comp! gBraced).grammar.ConvertibleIn ((comp! gBraced).grammar ++ hBraced) ∧
    astKeys gBraced "a" "(x1+x22)!" = some [(ruleTag, none), ([], some 3), (str "d", some 2), (str "c", none)] ∧
    astAdds gBraced "a" "(x1+x22)!" = some [str "d", str "e"] :=
  ⟨by decide +kernel, comp_ok (by decide +kernel), convertible_of_convertibleB (by decide +kernel), by decide +kernel, by decide +kernel⟩

end Wbnf

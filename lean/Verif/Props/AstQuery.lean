import Verif.Lemmas.AstQuery
import Verif.Props.Ast

/-!
# C34 ContentEquals, C35 Scanner of AST nodes
-/

namespace Wbnf

variable {E : Engine} {X : Externals} {g G : Grammar} {m n k : Nat} {ps : Parsers} {r : Str} {inp rest : Scanner} {ρ : Nat → Nat}

/-! ## C34 -/

/-- **C34** ContentEquals tells whether two nodes have the same content: same names, same extra data, same texts,
wherever the texts are. -/
theorem C34_same_content_partial {a b : Ast} (ha : a.Tidy) (hb : b.Tidy) :
    (a.contentEq (some b) = .ok true ↔ Same a b) ∧ (a.contentEq (some b) = .ok false ↔ ¬ Same a b) := by
  obtain ⟨r, hr, hiff⟩ := contentEq_spec a b ha hb
  rw [hr]
  cases r <;> simp_all

/-- **C34** Reflexive. -/
theorem C34_refl_partial {a : Ast} (ha : a.Tidy) : a.contentEq (some a) = .ok true :=
  (C34_same_content_partial ha ha).1.2 (Same.refl a ha)

/-- **C34** Symmetric: the two questions have the same answer. -/
theorem C34_symm_partial {a b : Ast} (ha : a.Tidy) (hb : b.Tidy) : a.contentEq (some b) = b.contentEq (some a) := by
  by_cases h : Same a b
  · rw [(C34_same_content_partial ha hb).1.2 h, (C34_same_content_partial hb ha).1.2 h.symm]
  · rw [(C34_same_content_partial ha hb).2.2 h, (C34_same_content_partial hb ha).2.2 fun h' => h h'.symm]

/-- **C34** Transitive. -/
theorem C34_trans_partial {a b c : Ast} (ha : a.Tidy) (hb : b.Tidy) (hc : c.Tidy) (h1 : a.contentEq (some b) = .ok true)
    (h2 : b.contentEq (some c) = .ok true) : a.contentEq (some c) = .ok true :=
  (C34_same_content_partial ha hc).1.2 (((C34_same_content_partial ha hb).1.1 h1).trans ((C34_same_content_partial hb hc).1.1 h2))

/-- **C34** Positions do not matter: with other scanners of the same text the answer is the same. -/
theorem C34_positions {f h : Scanner → Scanner} (hf : ∀ s, (f s).toStr = s.toStr) (hh : ∀ s, (h s).toStr = s.toStr) (a b : Ast) :
    (a.move f).contentEq (some (b.move h)) = a.contentEq (some b) := contentEq_move hf hh a (some b)

/-- **C34** An empty list breaks symmetry (FromParserNode never makes one, see `C34_tidy_partial`). -/
theorem C34_empty_list : ∃ a b : Ast, a.contentEq (some b) = .ok true ∧ b.contentEq (some a) = .ok false :=
  ⟨.branch [(str "a", .many [])], .branch [(str "b", .one (.extra (.choice 0)))], by decide +kernel, by decide +kernel⟩

/-! ### ASTs of parses -/

theorem Groups.entries {t : Term} {ps : List (Str × Ast)} {b : Branch} (h : Groups t ps b) :
    ∀ p ∈ b, p.2.nodes ≠ [] ∧ ∀ x ∈ p.2.nodes, (p.1, x) ∈ ps := by
  intro p hp
  have hl := lookup_of_mem h.1 (show (p.1, p.2) ∈ b from hp)
  have hh := h.has.2 p.1
  rw [hl] at hh
  simp only [Option.map_some, Option.getD_some] at hh
  refine ⟨fun e => ?_, fun x hx => ?_⟩
  · have := h.2 p.1
    rw [← hh, e] at this
    simp only at this
    rw [this] at hl
    cases hl
  · rw [hh] at hx
    unfold partsNamed at hx
    obtain ⟨⟨k', y⟩, hq, e⟩ := List.mem_map.1 hx
    have e' := (List.mem_filter.1 hq).2
    simp at e e'
    subst e e'
    exact (List.mem_filter.1 hq).1

theorem Kids.tidy_iff {c : Kids} (h : c.nodes ≠ []) : c.Tidy ↔ ∀ x ∈ c.nodes, x.Tidy := by
  cases c with
  | one n => simp [Kids.Tidy, Kids.nodes]
  | many ns => simp only [Kids.Tidy, Kids.nodes, tidyNodes_iff] at *; simp [h]

theorem Groups.tidy {t : Term} {ps : List (Str × Ast)} {b : Branch} (h : Groups t ps b) (ht : ∀ p ∈ ps, p.2.Tidy) : (Ast.branch b).Tidy := by
  refine ⟨h.1, tidyBranch_iff.2 fun p hp => ?_⟩
  obtain ⟨h1, h2⟩ := h.entries p hp
  exact (Kids.tidy_iff h1).2 fun x hx => ht _ (h2 x hx)

section
/-- The leaf has a text. -/
private def T (s : Scanner) : Prop := ∃ x, s.toStr = some x

mutual
theorem PartsOf.tidy {G : Grammar} {t v ps} : PartsOf G t v ps → (∀ s ∈ v.leaves, T s) → ∀ p ∈ ps, p.2.Tidy
  | .lit, hs => by simpa [Ast.Tidy, T] using hs _ (by simp [Tree.leaves])
  | .regexp, hs => by simpa [Ast.Tidy, T] using hs _ (by simp [Tree.leaves])
  | .rule _ h hg, hs => by simpa using hg.tidy (h.tidy hs)
  | .named h hg, hs => by simpa using hg.tidy (h.tidy hs)
  | .cut h, hs => h.tidy hs
  | .scope h, hs => h.tidy hs
  | .look h, hs => h.tidy fun s hx => hs s (by simp [Tree.leaves, leavesList, hx])
  | .seq h, hs => h.tidy hs
  | .oneof _ h, hs => by
    simp only [List.forall_mem_cons]
    exact ⟨trivial, h.tidy fun s hx => hs s (by simp [Tree.leaves, leavesList, hx])⟩
  | .quant _ h, hs => h.tidy hs
  | .delim h h', hs => by
    simp only [List.forall_mem_append]
    exact ⟨h.tidy fun s hx => hs s (by simp [Tree.leaves, leavesList, hx]), h'.tidy fun s hx => hs s (by simp [Tree.leaves, leavesList, hx])⟩
  | .delimLead _ h, hs => by
    simp only [List.forall_mem_cons]
    exact ⟨trivial, h.tidy fun s hx => hs s (by simp only [Tree.leaves, leavesList] at hx ⊢; simpa using hx)⟩
  | .refLeaf, hs => by simpa [Ast.Tidy, T] using hs _ (by simp [Tree.leaves])
  | .refNode h hg, hs => by simpa using hg.tidy (h.tidy hs)
theorem PartsSeq.tidy {G : Grammar} {ts vs ps} : PartsSeq G ts vs ps → (∀ s ∈ leavesList vs, T s) → ∀ p ∈ ps, p.2.Tidy
  | .nil, _ => by simp
  | .cons h h', hs => by
    simp only [List.forall_mem_append]
    exact ⟨h.tidy fun s hx => hs s (by simp [leavesList, hx]), h'.tidy fun s hx => hs s (by simp [leavesList, hx])⟩
theorem PartsReps.tidy {G : Grammar} {t vs ps} : PartsReps G t vs ps → (∀ s ∈ leavesList vs, T s) → ∀ p ∈ ps, p.2.Tidy
  | .nil, _ => by simp
  | .cons h h', hs => by
    simp only [List.forall_mem_append]
    exact ⟨h.tidy fun s hx => hs s (by simp [leavesList, hx]), h'.tidy fun s hx => hs s (by simp [leavesList, hx])⟩
theorem PartsList.tidy {G : Grammar} {t sep vs ps} : PartsList G t sep vs ps → (∀ s ∈ leavesList vs, T s) → ∀ p ∈ ps, p.2.Tidy
  | .nil, _ => by simp
  | .cons h h' h'', hs => by
    simp only [List.forall_mem_append]
    exact ⟨⟨h.tidy fun s hx => hs s (by simp [leavesList, hx]), h'.tidy fun s hx => hs s (by simp [leavesList, hx])⟩,
      h''.tidy fun s hx => hs s (by simp [leavesList, hx])⟩
  | .trail h, hs => by
    simp only [List.forall_mem_append]
    exact ⟨h.tidy fun s hx => hs s (by simp [leavesList, hx]), by simp [Ast.Tidy]⟩
end
end

theorem toStr_of_inside {s inp : Scanner} (hin : inp.InRange) (h : s.src = inp.src ∧ inp.start ≤ s.start ∧ 0 ≤ s.len ∧
    s.start + s.len ≤ inp.start + inp.len) : ∃ x, s.toStr = some x := by
  obtain ⟨src, h1, h2, h3, h4⟩ := hin
  obtain ⟨e1, e2, e3, e4⟩ := h
  simp only [Scanner.toStr, Scanner.slice, e1, h1, Source.slice]
  split
  · exact ⟨_, rfl⟩
  · rw [if_neg (by omega)]
    exact ⟨_, rfl⟩

/-- **C34** ASTs of parses are such nodes: ContentEquals is an equivalence on them. Partial as `C31_groups_partial`. -/
theorem C34_tidy_partial (hE : E.Sane) (hg : g.wf = true) (hc : g.compile E m = .ok ps) (hG : ps.grammar.ConvertibleIn G) (hesc : X.esc = none)
    (hin : inp.InRange) (hx : NoExt [ps.grammar] (.rule r)) (hp : PatternsSatisfy (ReportsGroup E) [ps.grammar] (.rule r)) {x cs}
    (h : ps.run E X ρ n r inp = .ok (.node r x cs) rest k) :
    ∃ b g' N, (∀ n, N ≤ n → fromParserNode n ps.grammar (.node r x cs) = .ok (g', b)) ∧ (Ast.branch b).Tidy := by
  obtain ⟨t, parts, b, g', N, hl, h1, h2, _, h3⟩ := C31_groups_partial hg hc hG hesc h
  have hs := C02_leaves_inside hE hg hc hesc hin hx hp h
  refine ⟨b, g', N, h3, h2.tidy ?_⟩
  simp only [List.forall_mem_cons]
  exact ⟨trivial, h1.tidy fun s hm => toStr_of_inside hin (hs s hm)⟩

/-! ## C35 -/

/-- **C35** The scanner of a node is the smallest that covers all its leaves, if in every list all nodes have leaves
or none has. -/
theorem C35_hull {src : Source} {a : Ast} (ht : a.Tagged) (hs : ∀ s ∈ a.leaves, s.src = some src) (he : a.Even) :
    ∃ m, a.scanner = .ok m ∧ Spans a.leaves m := (scanner_spec a ht hs).1 he

/-- **C35** Otherwise it panics. -/
theorem C35_panics {src : Source} {a : Ast} (ht : a.Tagged) (hs : ∀ s ∈ a.leaves, s.src = some src) (he : ¬ a.Even) :
    a.scanner = .error .panic := (scanner_spec a ht hs).2 he

/-- **C35** There is only one such scanner, and it does not depend on the order in which the map is read. -/
theorem C35_unique {xs ys : List Scanner} {m m' : Scanner} (hp : ∀ s, s ∈ xs ↔ s ∈ ys) (h : Spans xs m) (h' : Spans ys m') : m = m' := by
  rcases h with ⟨h1, h2⟩ | ⟨h1, ⟨x, hx, ex⟩, ⟨y, hy, ey⟩⟩
  · rcases h' with ⟨_, h2'⟩ | ⟨_, ⟨x, hx, _⟩, _⟩
    · rw [h2, h2']
    · rw [h1] at hp; exact absurd ((hp x).2 hx) (by simp)
  · rcases h' with ⟨h1', _⟩ | ⟨h1', ⟨x', hx', ex'⟩, ⟨y', hy', ey'⟩⟩
    · rw [h1'] at hp; exact absurd ((hp x).1 hx) (by simp)
    · have a1 := h1 x hx
      have a2 := h1 x' ((hp _).2 hx')
      have a3 := h1 y' ((hp _).2 hy')
      have b1 := h1' x ((hp _).1 hx)
      have b2 := h1' y ((hp _).1 hy)
      obtain ⟨s1, s2, s3⟩ := m
      obtain ⟨s1', s2', s3'⟩ := m'
      simp only [Scanner.mk.injEq] at *
      exact ⟨a1.1.symm.trans b1.1, by omega, by omega⟩

/-! ### ASTs of parses -/

/-- A part that has a proper name has a leaf below it. -/
private def Full (p : Str × Ast) : Prop := isTagName p.1 = false → p.2.leaves ≠ [] ∧ p.2.Even

/-- A part with a reserved name is extra data, others are not. -/
private def Plain (p : Str × Ast) : Prop := if isTagName p.1 = true then p.2.leaves = [] else p.2.Tagged

theorem taggedBranch_iff {b : Branch} : taggedBranch b ↔ ∀ p ∈ b, if isTagName p.1 = true then p.2.leaves = [] else p.2.Tagged := by
  induction b with
  | nil => simp [taggedBranch]
  | cons e b ih => simp [taggedBranch, ih]

theorem taggedList_iff {ns : List Ast} : taggedList ns ↔ ∀ n ∈ ns, n.Tagged := by
  induction ns with
  | nil => simp [taggedList]
  | cons e b ih => simp [taggedList, ih]

theorem evenBranch_iff {b : Branch} : evenBranch b ↔ ∀ p ∈ b, isTagName p.1 = true ∨ p.2.Even := by
  induction b with
  | nil => simp [evenBranch]
  | cons e b ih => simp [evenBranch, ih]

theorem evenList_iff {ns : List Ast} : evenList ns ↔ ∀ n ∈ ns, n.Even := by
  induction ns with
  | nil => simp [evenList]
  | cons e b ih => simp [evenList, ih]

theorem Groups.tagged {t : Term} {ps : List (Str × Ast)} {b : Branch} (h : Groups t ps b) (ht : ∀ p ∈ ps, Plain p) : (Ast.branch b).Tagged := by
  refine taggedBranch_iff.2 fun p hp => ?_
  obtain ⟨_, h2⟩ := h.entries p hp
  obtain ⟨k, c⟩ := p
  have hx : ∀ x ∈ c.nodes, Plain (k, x) := fun x hx => ht _ (h2 x hx)
  unfold Plain at hx
  by_cases e : isTagName k = true
  · simp only [e, if_true] at hx ⊢
    rw [Kids.leaves_nodes, astLeaves_flatten]
    simpa using hx
  · simp only [e, Bool.false_eq_true, if_false] at hx ⊢
    cases c with
    | one n => exact hx n (by simp [Kids.nodes])
    | many ns => exact taggedList_iff.2 hx

theorem Groups.even {t : Term} {ps : List (Str × Ast)} {b : Branch} (h : Groups t ps b) (ht : ∀ p ∈ ps, Full p) : (Ast.branch b).Even := by
  refine evenBranch_iff.2 fun p hp => ?_
  obtain ⟨_, h2⟩ := h.entries p hp
  obtain ⟨k, c⟩ := p
  have hx : ∀ x ∈ c.nodes, Full (k, x) := fun x hx => ht _ (h2 x hx)
  by_cases e : isTagName k = true
  · exact .inl e
  · right
    have e : isTagName k = false := by simpa using e
    cases c with
    | one n => exact (hx n (by simp [Kids.nodes]) e).2
    | many ns => exact ⟨.inr fun n hn => (hx n hn e).1, evenList_iff.2 fun n hn => (hx n hn e).2⟩

mutual
theorem PartsOf.plain {G : Grammar} {t v ps} (hG : G.Deep Term.PlainName) : PartsOf G t v ps → t.Deep Term.PlainName → ∀ p ∈ ps, Plain p
  | .lit, _ => by simp [Plain, Ast.Tagged, isTagName, str]
  | .regexp, _ => by simp [Plain, Ast.Tagged, isTagName, str]
  | .rule hl h hg, ht => by
    have e : isTagName (shownName _) = false := ht
    have := hg.tagged (h.plain hG (deepDefs_iff.1 hG _ _ (lookup_mem hl)))
    simpa [Plain, e] using this
  | .named h hg, ht => by
    have e := ht.1
    simp only [Term.PlainName] at e
    have := hg.tagged (h.plain hG ht.2)
    simpa [Plain, e] using this
  | .cut h, ht => h.plain hG ht.2
  | .scope h, ht => h.plain hG ht.2.1
  | .look h, ht => h.plain hG ht.2
  | .seq h, ht => h.plain hG ht.2
  | .oneof hl h, ht => by
    simp only [List.forall_mem_cons]
    exact ⟨by simp [Plain, Ast.leaves, isTagName, choiceTag, str], h.plain hG (deepList_iff.1 ht.2 _ (List.mem_of_getElem? hl))⟩
  | .quant _ h, ht => h.plain hG ht.2
  | .delim h h', ht => by
    simp only [List.forall_mem_append]
    exact ⟨h.plain hG ht.2.1, h'.plain hG ht.2.1 ht.2.2⟩
  | .delimLead _ h, ht => by
    simp only [List.forall_mem_cons]
    exact ⟨by simp [Plain, Ast.leaves, isTagName, emptyTag, str], h.plain hG ht.2.1 ht.2.2⟩
  | .refLeaf, ht => by
    have e : isTagName _ = false := ht
    simp [Plain, e, Ast.Tagged]
  | .refNode h hg, ht => by
    have e : isTagName _ = false := ht
    have := hg.tagged (h.plain hG ht)
    simpa [Plain, e] using this
theorem PartsSeq.plain {G : Grammar} {ts vs ps} (hG : G.Deep Term.PlainName) : PartsSeq G ts vs ps → deepList Term.PlainName ts → ∀ p ∈ ps, Plain p
  | .nil, _ => by simp
  | .cons h h', ht => by
    simp only [List.forall_mem_append]
    exact ⟨h.plain hG ht.1, h'.plain hG ht.2⟩
theorem PartsReps.plain {G : Grammar} {t vs ps} (hG : G.Deep Term.PlainName) : PartsReps G t vs ps → t.Deep Term.PlainName → ∀ p ∈ ps, Plain p
  | .nil, _ => by simp
  | .cons h h', ht => by
    simp only [List.forall_mem_append]
    exact ⟨h.plain hG ht, h'.plain hG ht⟩
theorem PartsList.plain {G : Grammar} {t sep vs ps} (hG : G.Deep Term.PlainName) : PartsList G t sep vs ps → t.Deep Term.PlainName → sep.Deep Term.PlainName → ∀ p ∈ ps, Plain p
  | .nil, _, _ => by simp
  | .cons h h' h'', ht, hs => by
    simp only [List.forall_mem_append]
    exact ⟨⟨h.plain hG hs, h'.plain hG ht⟩, h''.plain hG ht hs⟩
  | .trail h, _, hs => by
    simp only [List.forall_mem_append]
    exact ⟨h.plain hG hs, by simp [Plain, Ast.leaves, isTagName, emptyTag, str]⟩
end

theorem partsLeaves_ne {ps qs : List (Str × Ast)} : partsLeaves (ps ++ qs) ≠ [] ↔ partsLeaves ps ≠ [] ∨ partsLeaves qs ≠ [] := by
  rw [partsLeaves_append]
  simp only [ne_eq, List.append_eq_nil_iff]
  exact Classical.not_and_iff_not_or_not

theorem someFills_iff {ts : List Term} : someFills ts ↔ ∃ t ∈ ts, t.Fills := by
  induction ts with
  | nil => simp [someFills]
  | cons t ts ih => simp [someFills, ih]

theorem allFill_iff {ts : List Term} : allFill ts ↔ ∀ t ∈ ts, t.Fills := by
  induction ts with
  | nil => simp [allFill]
  | cons t ts ih => simp [allFill, ih]

theorem full_branch {k : Str} {t : Term} {ps : List (Str × Ast)} {b : Branch} (hg : Groups t ps b) (h1 : ∀ p ∈ ps, Full p) (h2 : partsLeaves ps ≠ []) :
    (∀ p ∈ [(k, Ast.branch b)], Full p) ∧ partsLeaves [(k, Ast.branch b)] ≠ [] := by
  have hl : branchLeaves b ≠ [] := fun e => h2 (by
    have := hg.has.leaves
    rw [e] at this
    exact this.symm.eq_nil)
  refine ⟨?_, by simpa [partsLeaves, Ast.leaves] using hl⟩
  simp only [List.mem_singleton, forall_eq, Full]
  exact fun _ => ⟨hl, hg.even h1⟩

mutual
theorem PartsOf.full {G : Grammar} {t v ps} (hG : G.Fills) : PartsOf G t v ps → t.Deep Term.NamesFill → (∀ p ∈ ps, Full p) ∧ (t.Fills → partsLeaves ps ≠ [])
  | .lit, _ => by simp [Full, Ast.Even, partsLeaves, Ast.leaves]
  | .regexp, _ => by simp [Full, Ast.Even, partsLeaves, Ast.leaves]
  | .rule hl h hg, ht => by
    have hm := lookup_mem hl
    obtain ⟨h1, h2⟩ := h.full hG (deepDefs_iff.1 hG.1 _ _ hm)
    obtain ⟨h3, h4⟩ := full_branch (k := shownName _) hg h1 (h2 (hG.2 _ _ hm))
    exact ⟨h3, fun _ => h4⟩
  | .named h hg, ht => by
    obtain ⟨h1, h2⟩ := h.full hG ht.2
    obtain ⟨h3, h4⟩ := full_branch (k := _) hg h1 (h2 ht.1)
    exact ⟨h3, fun _ => h4⟩
  | .cut h, ht => by have := h.full hG ht.2; exact this
  | .scope h, ht => by have := h.full hG ht.2.1; exact this
  | .look h, ht => by have := h.full hG ht.2; exact this
  | .seq h, ht => by
    obtain ⟨h1, h2⟩ := h.full hG ht.2
    exact ⟨h1, fun hf => h2 (someFills_iff.1 hf)⟩
  | .oneof hl h, ht => by
    have hm := List.mem_of_getElem? hl
    obtain ⟨h1, h2⟩ := h.full hG (deepList_iff.1 ht.2 _ hm)
    refine ⟨?_, fun hf => ?_⟩
    · simp only [List.forall_mem_cons]
      exact ⟨by simp [Full, isTagName, choiceTag, str], h1⟩
    · simpa [partsLeaves, Ast.leaves] using h2 (allFill_iff.1 hf _ hm)
  | .quant hlo h, ht => by
    obtain ⟨h1, h2⟩ := h.full hG ht.2
    refine ⟨h1, fun hf => h2 hf.2 (fun e => ?_)⟩
    rw [e] at hlo
    have := hf.1
    simp at hlo
    omega
  | .delim h h', ht => by
    obtain ⟨h1, h2⟩ := h.full hG ht.2.1
    obtain ⟨h3, h4⟩ := h'.full hG ht.2.1 ht.2.2
    simp only [List.forall_mem_append, partsLeaves_ne]
    exact ⟨⟨h1, h3⟩, fun hf => .inl (h2 hf)⟩
  | .delimLead hne h, ht => by
    obtain ⟨h3, h4⟩ := h.full hG ht.2.1 ht.2.2
    refine ⟨?_, fun hf => ?_⟩
    · simp only [List.forall_mem_cons]
      exact ⟨by simp [Full, isTagName, emptyTag, str], h3⟩
    · simpa [partsLeaves, Ast.leaves] using h4 hf _ _ _ rfl hne
  | .refLeaf, ht => False.elim ht
  | .refNode _ _, ht => False.elim ht
theorem PartsSeq.full {G : Grammar} {ts vs ps} (hG : G.Fills) : PartsSeq G ts vs ps → deepList Term.NamesFill ts →
    (∀ p ∈ ps, Full p) ∧ ((∃ t ∈ ts, t.Fills) → partsLeaves ps ≠ [])
  | .nil, _ => by simp
  | .cons h h', ht => by
    obtain ⟨h1, h2⟩ := h.full hG ht.1
    obtain ⟨h3, h4⟩ := h'.full hG ht.2
    simp only [List.forall_mem_append, partsLeaves_ne]
    refine ⟨⟨h1, h3⟩, ?_⟩
    rintro ⟨t, hm, hf⟩
    rcases List.mem_cons.1 hm with e | hm
    · exact .inl (h2 (e ▸ hf))
    · exact .inr (h4 ⟨t, hm, hf⟩)
theorem PartsReps.full {G : Grammar} {t vs ps} (hG : G.Fills) : PartsReps G t vs ps → t.Deep Term.NamesFill →
    (∀ p ∈ ps, Full p) ∧ (t.Fills → vs ≠ [] → partsLeaves ps ≠ [])
  | .nil, _ => by simp
  | .cons h h', ht => by
    obtain ⟨h1, h2⟩ := h.full hG ht
    obtain ⟨h3, h4⟩ := h'.full hG ht
    simp only [List.forall_mem_append, partsLeaves_ne]
    exact ⟨⟨h1, h3⟩, fun hf _ => .inl (h2 hf)⟩
theorem PartsList.full {G : Grammar} {t sep vs ps} (hG : G.Fills) : PartsList G t sep vs ps → t.Deep Term.NamesFill → sep.Deep Term.NamesFill →
    (∀ p ∈ ps, Full p) ∧ (t.Fills → ∀ s v vs', vs = s :: v :: vs' → v ≠ .empty → partsLeaves ps ≠ [])
  | .nil, _, _ => by simp
  | .cons h h' h'', ht, hs => by
    obtain ⟨h1, h2⟩ := h.full hG hs
    obtain ⟨h3, h4⟩ := h'.full hG ht
    obtain ⟨h5, h6⟩ := h''.full hG ht hs
    simp only [List.forall_mem_append, partsLeaves_ne]
    exact ⟨⟨⟨h1, h3⟩, h5⟩, fun hf _ _ _ _ _ => .inl (.inr (h4 hf))⟩
  | .trail h, _, hs => by
    obtain ⟨h1, h2⟩ := h.full hG hs
    simp only [List.forall_mem_append]
    refine ⟨⟨h1, by simp [Full, isTagName, emptyTag, str]⟩, ?_⟩
    rintro _ s v vs' e hne
    simp only [List.cons.injEq] at e
    exact absurd e.2.1.symm hne
end

/-- **C35** For the AST of a parse. Partial: for the grammars of `C31_groups_partial` in which every rule and every named
term leaves a leaf; `C35_not_always` shows that this is needed. -/
theorem C35_parse_partial (hE : E.Sane) (hg : g.wf = true) (hc : g.compile E m = .ok ps) (hG : ps.grammar.ConvertibleIn G)
    (hP : G.Deep Term.PlainName) (hF : G.Fills) (hesc : X.esc = none)
    (hin : inp.InRange) (hx : NoExt [ps.grammar] (.rule r)) (hp : PatternsSatisfy (ReportsGroup E) [ps.grammar] (.rule r)) {x cs}
    (h : ps.run E X ρ n r inp = .ok (.node r x cs) rest k) :
    ∃ b g' N m, (∀ n, N ≤ n → fromParserNode n ps.grammar (.node r x cs) = .ok (g', b)) ∧
      (Ast.branch b).scanner = .ok m ∧ Spans (Tree.node r x cs).leaves m := by
  obtain ⟨t, parts, b, g', N, hl, h1, h2, _, h3⟩ := C31_groups_partial hg hc hG hesc h
  have hm := lookup_mem (hG.sub _ _ hl)
  have hperm : (Ast.branch b).leaves.Perm (Tree.node r x cs).leaves := by
    simp only [Ast.leaves]
    refine h2.has.leaves.trans ?_
    simpa [partsLeaves, Ast.leaves] using h1.leaves
  have hs := C02_leaves_inside hE hg hc hesc hin hx hp h
  obtain ⟨src, hsrc, _⟩ := hin
  have ht : (Ast.branch b).Tagged := h2.tagged (by
    simp only [List.forall_mem_cons]
    exact ⟨by simp [Plain, Ast.leaves, isTagName, ruleTag, str], h1.plain hP (deepDefs_iff.1 hP _ _ hm)⟩)
  have he : (Ast.branch b).Even := h2.even (by
    simp only [List.forall_mem_cons]
    exact ⟨by simp [Full, isTagName, ruleTag, str], (h1.full hF (deepDefs_iff.1 hF.1 _ _ hm)).1⟩)
  obtain ⟨m, hm1, hm2⟩ := C35_hull ht (fun s hx => (hs s (hperm.mem_iff.1 hx)).1.trans hsrc) he
  refine ⟨b, g', N, m, h3, hm1, ?_⟩
  rcases hm2 with ⟨e1, e2⟩ | ⟨e1, ⟨a, ea⟩, ⟨c, ec⟩⟩
  · rw [e1] at hperm
    exact .inl ⟨hperm.symm.eq_nil, e2⟩
  · exact .inr ⟨fun s hx => e1 s (hperm.mem_iff.2 hx), ⟨a, hperm.mem_iff.1 ea.1, ea.2⟩, ⟨c, hperm.mem_iff.1 ec.1, ec.2⟩⟩

namespace Ex

/-- `a -> b:","; b -> "x"?;` -/
def gGaps : Grammar := [(str "a", .delim (.rule (str "b")) (.s (str ",")) 0 false false), (str "b", .quant (.s (str "x")) 0 1)]

/-- Scanner of the AST of a parse. -/
def span (g : Grammar) (r s : String) : Option (Except Stop Scanner) :=
  match ast g r s with
  | some (.ok (_, b)) => some (Ast.branch b).scanner
  | _ => none

def spanIs (g : Grammar) (r s : String) (start len : Int) : Bool :=
  match span g r s with
  | some (.ok m) => m.start = start ∧ m.len = len
  | _ => false

def spanPanics (g : Grammar) (r s : String) : Bool :=
  match span g r s with
  | some (.error .panic) => true
  | _ => false

theorem gSum_plain : (comp! gSum).grammar.Deep Term.PlainName := by
  rw [gSum_compiled]
  have h1 : isTagName (shownName (str "a@1")) = false := by decide +kernel
  have h2 : isTagName (shownName (str "a@2")) = false := by decide +kernel
  have h3 : isTagName (shownName (str "a")) = false := by decide +kernel
  simp [Grammar.Deep, deepDefs, Term.Deep, deepList, Term.PlainName, h1, h2, h3]

theorem gSum_fills : (comp! gSum).grammar.Fills := by
  rw [gSum_compiled]
  constructor
  · simp [Grammar.Deep, deepDefs, Term.Deep, deepList, Term.NamesFill]
  · intro k t hm
    simp only [List.mem_cons, Prod.mk.injEq, List.not_mem_nil, or_false] at hm
    rcases hm with ⟨rfl, rfl⟩ | ⟨rfl, rfl⟩ | ⟨rfl, rfl⟩ <;> simp [Term.Fills, someFills, allFill]

end Ex

/-- **C35** Not for all parses: Scanner panics on `x,` if the second item of the list has no leaf. -/
theorem C35_not_always : Ex.spanPanics Ex.gGaps "a" "x," = true ∧ Ex.spanIs Ex.gGaps "a" "x,x" 0 3 = true := by
  constructor <;> decide +kernel

open Ex in
/-- The hypotheses, and the scanner of the AST of `1+-(2+3)`. -/
example : gSum.wf = true ∧ gSum.compile regexp 50 = .ok (comp! gSum) ∧ (comp! gSum).grammar.Convertible ∧
    (comp! gSum).grammar.Deep Term.PlainName ∧ (comp! gSum).grammar.Fills ∧
    PatternsSatisfy (ReportsGroup regexp) [(comp! gSum).grammar] (.rule (str "a")) ∧ NoExt [(comp! gSum).grammar] (.rule (str "a")) ∧
    spanIs gSum "a" "1+-(2+3)" 0 8 = true := by
  have h := plainLeaf_check (q := Regex.setsLast) (Q := ReportsGroup regexp)
    (fun p => Regex.reportsGroup) (g := (comp! gSum).grammar) (by rfl) (by decide +kernel) (str "a")
  refine ⟨by decide +kernel, comp_ok (by decide +kernel), gSum_convertible, gSum_plain, gSum_fills, h.1, h.2.2, by decide +kernel⟩

open Ex in
/-- Same content at different places, and other content. -/
example : (Ast.branch [(str "a", .one (.leaf ((newScanner (str "xyx")).sub 0 1))), (str "b", .many [.extra (.choice 1)])]).Tidy ∧
    (Ast.branch [(str "a", .one (.leaf ((newScanner (str "xyx")).sub 0 1))), (str "b", .many [.extra (.choice 1)])]).contentEq
      (some (.branch [(str "b", .many [.extra (.choice 1)]), (str "a", .one (.leaf ((newScanner (str "xyx")).sub 2 3)))])) = .ok true ∧
    (Ast.branch [(str "a", .one (.leaf ((newScanner (str "xyx")).sub 0 1)))]).contentEq
      (some (.branch [(str "a", .one (.leaf ((newScanner (str "xyx")).sub 1 2)))])) = .ok false := by
  refine ⟨?_, by decide +kernel, by decide +kernel⟩
  simp [Ast.Tidy, tidyBranch, Kids.Tidy, tidyNodes, str, Scanner.toStr, Scanner.slice, Scanner.sub, newScanner, Source.slice]

end Wbnf

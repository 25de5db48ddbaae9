import Verif.Props.Ast
import Verif.Model.AstQuery
import Verif.Spec.Picks

/-!
# C52: First, All and Choice
-/

namespace Wbnf

variable {E : Engine} {X : Externals} {g G : Grammar} {m n k : Nat} {ps : Parsers} {r : Str} {inp rest : Scanner} {v : Tree} {ρ : Nat → Nat}

/-- **C52** All gives the nodes stored under a name, whether one is stored alone or there is a list, and First the first of
them. -/
theorem C52_stored (b : Branch) (name : Str) :
    (∀ kids, lookup name b = some kids → (Ast.branch b).all name = kids.nodes) ∧
    (lookup name b = none → (Ast.branch b).all name = []) ∧
    (∀ a : Ast, a.first name = (a.all name).head?) := by
  refine ⟨fun kids h => ?_, fun h => ?_, fun a => ?_⟩
  · cases kids <;> simp [Ast.all, Ast.one?, Ast.many?, Branch.one?, Branch.many?, h, Kids.nodes]
  · simp [Ast.all, Ast.one?, Ast.many?, Branch.one?, Branch.many?, h]
  · cases h : a.one? name <;> simp [Ast.all, Ast.first, h]

/-- **C52** Leaves and marks have no children. -/
theorem C52_none (name : Str) (s : Scanner) (x : Datum) :
    (Ast.leaf s).all name = [] ∧ (Ast.extra x).all name = [] ∧ (Ast.leaf s).choice = some (-1) ∧
    (Ast.extra x).choice = some (-1) := by
  simp [Ast.all, Ast.one?, Ast.many?, Ast.choice, Ast.first]

theorem groups_all {t : Term} {parts b} (h : Groups t parts b) (name : Str) : (Ast.branch b).all name = partsNamed name parts := by
  have hk := h.2 name
  split at hk
  · next e => rw [e]; exact (C52_stored b name).2.1 hk
  · next x xs e =>
    rw [e]
    by_cases hc : AtMostOne t name ∧ name ≠ choiceTag ∧ name ≠ emptyTag
    · obtain ⟨rfl, hl⟩ := hk.1 hc
      exact (C52_stored b name).1 _ hl
    · exact (C52_stored b name).1 _ (hk.2 hc)

/-- **C52** In the AST of a parse All gives the parts of the tree under that name, in the order of the text. -/
theorem C52_parts_partial (hg : g.wf = true) (hc : g.compile E m = .ok ps) (hG : ps.grammar.ConvertibleIn G) (hesc : X.esc = none) {x cs}
    (h : ps.run E X ρ n r inp = .ok (.node r x cs) rest k) :
    ∃ t parts b g' N, lookup r ps.grammar = some t ∧ PartsOf G t (.node r x cs) parts ∧
      (∀ n, N ≤ n → fromParserNode n ps.grammar (.node r x cs) = .ok (g', b)) ∧
      ∀ name, name ≠ ruleTag → (Ast.branch b).all name = partsNamed name parts := by
  obtain ⟨t, parts, b, g', N, hl, h1, h2, _, h3⟩ := C31_groups_partial hg hc hG hesc h
  refine ⟨t, parts, b, g', N, hl, h1, h3, fun name hne => ?_⟩
  rw [groups_all h2 name]
  simp [partsNamed, Ne.symm hne]

/-- The marks of choices among the parts. -/
def marks (is : List Nat) : List Ast := is.map fun i => .extra (.choice i)

theorem partsNamed_other {k j : Str} (a : Ast) (h : j ≠ k) : partsNamed k [(j, a)] = [] := by simp [partsNamed, h]

theorem marks_append (is js : List Nat) : marks (is ++ js) = marks is ++ marks js := by simp [marks]

/-- No part is stored where the choices are. -/
def Unmixed (t : Term) : Prop := ∀ p ∈ t.partNames, p.2 ≠ choiceTag

theorem unmixed_seq {t : Term} {ts : List Term} (h : ∀ p ∈ Term.partNames.names (t :: ts), p.2 ≠ choiceTag) :
    Unmixed t ∧ ∀ p ∈ Term.partNames.names ts, p.2 ≠ choiceTag := by
  simp only [Term.partNames.names, List.mem_append] at h
  exact ⟨fun p hp => h p (.inl hp), fun p hp => h p (.inr hp)⟩

theorem unmixed_mem : {ts : List Term} → (∀ p ∈ Term.partNames.names ts, p.2 ≠ choiceTag) → ∀ t ∈ ts, Unmixed t
  | [], _, t, ht => by simp at ht
  | u :: ts, h, t, ht => by
    rcases List.mem_cons.1 ht with rfl | ht
    · exact (unmixed_seq h).1
    · exact unmixed_mem (unmixed_seq h).2 t ht

mutual
theorem PartsOf.picks {G : Grammar} {t v ps} : PartsOf G t v ps → Unmixed t →
    ∃ is, Picks t v is ∧ partsNamed choiceTag ps = marks is
  | .lit, _ => ⟨[], .leaf, partsNamed_other _ (by decide)⟩
  | .regexp, _ => ⟨[], .leaf, partsNamed_other _ (by decide)⟩
  | .rule (r := r) _ _ _, hu => ⟨[], .rule, partsNamed_other _ (hu (r, shownName r) (by simp [Term.partNames]))⟩
  | .named (n := n) _ _, hu => ⟨[], .named, partsNamed_other _ (hu (n, n) (by simp [Term.partNames]))⟩
  | .scope h, hu => by
    obtain ⟨is, h1, h2⟩ := h.picks (by simpa [Unmixed, Term.partNames] using hu)
    exact ⟨is, .scope h1, h2⟩
  | .cut h, hu => by
    obtain ⟨is, h1, h2⟩ := h.picks (by simpa [Unmixed, Term.partNames] using hu)
    exact ⟨is, .cut h1, h2⟩
  | .look h, hu => by
    obtain ⟨is, h1, h2⟩ := h.picks (by simpa [Unmixed, Term.partNames] using hu)
    exact ⟨is, .look h1, h2⟩
  | .seq h, hu => by
    obtain ⟨is, h1, h2⟩ := h.picks (by simpa [Unmixed, Term.partNames] using hu)
    exact ⟨is, h1 _ _, h2⟩
  | .oneof (i := i) (t := t) (ps := ps) hi h, hu => by
    obtain ⟨is, h1, h2⟩ := h.picks (unmixed_mem (by simpa [Unmixed, Term.partNames] using hu) t (List.mem_of_getElem? hi))
    refine ⟨i :: is, .oneof hi h1, ?_⟩
    have : partsNamed choiceTag ((choiceTag, .extra (.choice i)) :: ps) = .extra (.choice i) :: partsNamed choiceTag ps := by
      simp [partsNamed]
    rw [this, h2]; rfl
  | .quant _ h, hu => by
    obtain ⟨is, h1, h2⟩ := h.picks (by simpa [Unmixed, Term.partNames] using hu)
    exact ⟨is, h1 _ _ _ _, h2⟩
  | .delim h hl, hu => by
    simp only [Unmixed, Term.partNames, List.mem_append] at hu
    obtain ⟨is, h1, h2⟩ := h.picks (fun p hp => hu p (.inl hp))
    obtain ⟨js, h3, h4⟩ := hl.picks (fun p hp => hu p (.inl hp)) (fun p hp => hu p (.inr hp))
    exact ⟨is ++ js, .delimCons h1 (h3 _ _ _ _ _), by rw [partsNamed_append, h2, h4, marks_append]⟩
  | .delimLead _ hl, hu => by
    simp only [Unmixed, Term.partNames, List.mem_append] at hu
    obtain ⟨js, h3, h4⟩ := hl.picks (fun p hp => hu p (.inl hp)) (fun p hp => hu p (.inr hp))
    refine ⟨js, .delimEmpty (h3 _ _ _ _ _), ?_⟩
    rw [← h4, ← List.singleton_append, partsNamed_append, partsNamed_other _ (by decide), List.nil_append]
  | .refLeaf (i := i), hu => ⟨[], .leaf, partsNamed_other _ (hu (i, i) (by simp [Term.partNames]))⟩
  | .refNode (i := i) _ _, hu => ⟨[], .ref, partsNamed_other _ (hu (i, i) (by simp [Term.partNames]))⟩
theorem PartsSeq.picks {G : Grammar} {ts vs ps} : PartsSeq G ts vs ps → (∀ p ∈ Term.partNames.names ts, p.2 ≠ choiceTag) →
    ∃ is, (∀ tag x, Picks (.seq ts) (.node tag x vs) is) ∧ partsNamed choiceTag ps = marks is
  | .nil, _ => ⟨[], fun _ _ => .seqNil, rfl⟩
  | .cons h hs, hu => by
    obtain ⟨is, h1, h2⟩ := h.picks (unmixed_seq hu).1
    obtain ⟨js, h3, h4⟩ := hs.picks (unmixed_seq hu).2
    exact ⟨is ++ js, fun tag x => .seqCons h1 (h3 tag x), by rw [partsNamed_append, h2, h4, marks_append]⟩
theorem PartsReps.picks {G : Grammar} {t vs ps} : PartsReps G t vs ps → Unmixed t →
    ∃ is, (∀ lo hi tag x, Picks (.quant t lo hi) (.node tag x vs) is) ∧ partsNamed choiceTag ps = marks is
  | .nil, _ => ⟨[], fun _ _ _ _ => .quantNil, rfl⟩
  | .cons h hs, hu => by
    obtain ⟨is, h1, h2⟩ := h.picks hu
    obtain ⟨js, h3, h4⟩ := hs.picks hu
    exact ⟨is ++ js, fun lo hi tag x => .quantCons h1 (h3 lo hi tag x), by rw [partsNamed_append, h2, h4, marks_append]⟩
theorem PartsList.picks {G : Grammar} {t sep vs ps} : PartsList G t sep vs ps → Unmixed t → Unmixed sep →
    ∃ is, (∀ a cs ce tag x, Picks (.delim sep t a cs ce) (.node tag x vs) is) ∧ partsNamed choiceTag ps = marks is
  | .nil, _, _ => ⟨[], fun _ _ _ _ _ => .delimNil, rfl⟩
  | .cons h1 h2 h3, hu, hs => by
    obtain ⟨is, a1, a2⟩ := h1.picks hs
    obtain ⟨js, b1, b2⟩ := h2.picks hu
    obtain ⟨ks, c1, c2⟩ := h3.picks hu hs
    exact ⟨is ++ (js ++ ks), fun a cs ce tag x => .delimCons a1 (.delimCons b1 (c1 a cs ce tag x)),
      by rw [partsNamed_append, partsNamed_append, a2, b2, c2, marks_append, marks_append, List.append_assoc]⟩
  | .trail h1, _, hs => by
    obtain ⟨is, a1, a2⟩ := h1.picks hs
    refine ⟨is ++ [], fun a cs ce tag x => .delimCons a1 (.delimEmpty .delimNil), ?_⟩
    rw [partsNamed_append, a2, partsNamed_other _ (by decide), marks_append]; rfl
end

/-- **C52** Choice, on the AST of a parse, gives the index of the first choice that was made, and -1 if there was none. It
does not panic. -/
theorem C52_choice_partial (hg : g.wf = true) (hc : g.compile E m = .ok ps) (hG : ps.grammar.ConvertibleIn G) (hesc : X.esc = none) {x cs}
    (h : ps.run E X ρ n r inp = .ok (.node r x cs) rest k) :
    ∃ t is b g' N, lookup r ps.grammar = some t ∧ Picks t (.node r x cs) is ∧
      (∀ n, N ≤ n → fromParserNode n ps.grammar (.node r x cs) = .ok (g', b)) ∧
      (Ast.branch b).all choiceTag = is.map (fun i => .extra (.choice i)) ∧
      (Ast.branch b).choice = some (match is with | [] => -1 | i :: _ => (i : Int)) := by
  obtain ⟨t, parts, b, g', N, hl, h1, h3, h4⟩ := C52_parts_partial hg hc hG hesc h
  obtain ⟨is, h5, h6⟩ := h1.picks (fun p hp => ((hG.apart r t (lookup_mem (hG.sub _ _ hl))).2 p hp).1)
  have h7 := h4 choiceTag (by decide)
  refine ⟨t, is, b, g', N, hl, h5, h3, h7.trans h6, ?_⟩
  unfold Ast.choice
  rw [(C52_stored b choiceTag).2.2, h7, h6]
  cases is <;> rfl

/-- **C52** On the AST of a rule that is a choice, Choice gives the alternative that was taken. -/
theorem C52_alternative_partial (hg : g.wf = true) (hc : g.compile E m = .ok ps) (hG : ps.grammar.ConvertibleIn G) (hesc : X.esc = none) {x cs ts}
    (hr : lookup r ps.grammar = some (.oneof ts)) (h : ps.run E X ρ n r inp = .ok (.node r x cs) rest k) :
    ∃ i t v b g' N, x = .choice i ∧ ts[i]? = some t ∧ cs = [v] ∧
      (∀ n, N ≤ n → fromParserNode n ps.grammar (.node r x cs) = .ok (g', b)) ∧ (Ast.branch b).choice = some (i : Int) := by
  obtain ⟨t, is, b, g', N, hl, h1, h2, _, h3⟩ := C52_choice_partial hg hc hG hesc h
  rw [hr, Option.some.injEq] at hl
  subst hl
  cases h1 with
  | oneof hi hp => exact ⟨_, _, _, b, g', N, rfl, hi, rfl, h2, h3⟩

namespace Ex

/-- `a -> "x" "-" | ("y" | "z") b:","; b -> "v" | "w";` -/
def gPick : Grammar := [
  (str "a", .oneof [.seq [.s (str "x"), .s (str "-")],
    .seq [.oneof [.s (str "y"), .s (str "z")], .delim (.rule (str "b")) (.s (str ",")) 0 false false]]),
  (str "b", .oneof [.s (str "v"), .s (str "w")])]

/-- The choices of the AST of a parse, in order, Choice, and how many nodes there are under a name. -/
def astPicks (g : Grammar) (r s name : String) : Option (List Ast × Option Int × Nat) :=
  match ast g r s with
  | some (.ok (_, b)) => some ((Ast.branch b).all choiceTag, (Ast.branch b).choice, ((Ast.branch b).all (str name)).length)
  | _ => none

theorem gPick_compiled : (comp! gPick).grammar = gPick := by decide +kernel

theorem gPick_convertible : (comp! gPick).grammar.Convertible := convertible_of_convertibleB (by decide +kernel)

end Ex

open Ex in
/-- The hypotheses, and the choices in the AST of `zv,w`: the second alternative, and in it the second. -/
example : gPick.wf = true ∧ gPick.compile regexp 50 = .ok (comp! gPick) ∧ (comp! gPick).grammar.Convertible ∧
    astPicks gPick "a" "zv,w" "b" = some ([.extra (.choice 1), .extra (.choice 1)], some 1, 2) ∧
    astPicks gSum "a" "1+2" "a" = some ([], some (-1), 2) := by
  refine ⟨by decide +kernel, comp_ok (by decide +kernel), gPick_convertible, ?_, ?_⟩ <;> rfl

end Wbnf

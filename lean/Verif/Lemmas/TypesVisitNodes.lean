import Verif.Lemmas.TypesVisitNames

/-!
# The walker visits all nodes of the ASTs of typed grammars
-/

namespace Wbnf

section
variable {camel : Str → Str} {tm : TypeMap} {g G : Grammar} {upper : Str → Str} {skip : Str → Ast → Bool}

/-- There is an accessor for all children of the name. -/
def AllNodes (camel : Str → Str) (tm : TypeMap) (ty k : Str) : Prop := ∃ d ∈ allMethods camel tm, d.receiver = ty ∧ ∃ t, d.does = .allNodes k t

/-- The node is one of its type: what there is under names of children is known to the type, and so on. -/
inductive NodeOfType (camel : Str → Str) (tm : TypeMap) (us : List (Str × Str × Use)) : Str → Ast → Prop
  | token {ty n} : TokenType camel tm ty → NodeOfType camel tm us ty n
  | node {ty b} :
      (∀ k kids, lookup k b = some kids → ChildName k → ∃ u, Offers camel tm us ty k u ∧
        ∀ ty' ns, u = .node ty' → kids = .many ns → AllNodes camel tm ty k) →
      (∀ k kids ty' n, lookup k b = some kids → ChildName k → Offers camel tm us ty k (.node ty') → n ∈ kids.nodes → NodeOfType camel tm us ty' n) →
      NodeOfType camel tm us ty (.branch b)

/-- Where there may be many, the type knows. -/
def CountedAt (camel : Str → Str) (tm : TypeMap) (us : List (Str × Str × Use)) (t : Term) (ty : Str) : Prop :=
  ∀ k ty', ChildName k → Offers camel tm us ty k (.node ty') → ¬ AtMostOne t k → AllNodes camel tm ty k

def PartsConform (camel : Str → Str) (tm : TypeMap) (g : Grammar) (p : Str) (ps : List (Str × Ast)) : Prop :=
  ∀ e ∈ ps, ChildName e.1 → ∃ u, Offers camel tm (g.nameUses camel) (goTypeName camel p) e.1 u ∧
    ∀ ty', u = .node ty' → NodeOfType camel tm (g.nameUses camel) ty' e.2

theorem conforms_of_groups {t : Term} {ps : List (Str × Ast)} {b : Branch} {p : Str} (ho : OneWay (g.nameUses camel)) (hg : Groups t ps b)
    (hc : CountedAt camel tm (g.nameUses camel) t (goTypeName camel p)) (h : PartsConform camel tm g p ps) :
    NodeOfType camel tm (g.nameUses camel) (goTypeName camel p) (.branch b) := by
  have nodes : ∀ {k kids}, lookup k b = some kids → ChildName k → kids.nodes = partsNamed k ps ∧ partsNamed k ps ≠ [] ∧ ∀ ns, kids = .many ns → ¬ AtMostOne t k := by
    intro k kids hl hk
    have hct : k ≠ choiceTag ∧ k ≠ emptyTag := by
      have := hk.1.2
      constructor <;> · rintro rfl; revert this; decide
    have h1 := hg.2 k
    cases hp : partsNamed k ps with
    | nil => rw [hp] at h1; simp only at h1; rw [h1] at hl; simp at hl
    | cons x xs =>
      rw [hp] at h1
      simp only at h1
      by_cases ha : AtMostOne t k
      · obtain ⟨rfl, h2⟩ := h1.1 ⟨ha, hct⟩
        rw [h2] at hl
        simp only [Option.some.injEq] at hl
        subst hl
        exact ⟨rfl, by simp, by simp⟩
      · rw [h1.2 fun h => ha h.1] at hl
        simp only [Option.some.injEq] at hl
        subst hl
        exact ⟨rfl, by simp, fun _ _ => ha⟩
  refine .node ?_ ?_
  · intro k kids hl hk
    obtain ⟨hn, hne, hmany⟩ := nodes hl hk
    obtain ⟨n, hn⟩ := List.exists_mem_of_ne_nil _ hne
    obtain ⟨u, hu, _⟩ := h _ (mem_partsNamed.1 hn) hk
    refine ⟨u, hu, ?_⟩
    rintro ty' ns rfl e
    exact hc k ty' hk hu (hmany ns e)
  · intro k kids ty' n hl hk ho' hn
    obtain ⟨hn', _⟩ := nodes hl hk
    obtain ⟨u, hu, hf⟩ := h _ (mem_partsNamed.1 (hn' ▸ hn)) hk
    exact hf ty' (Offers.unique ho hu ho')

/-- What is known of a resolved grammar. -/
structure Grammar.Counted (camel : Str → Str) (tm : TypeMap) (g G : Grammar) : Prop where
  reads : Grammar.Reads camel tm g G
  counts : ∀ r t, lookup r G = some t → ∀ q ∈ (goName camel (shownName r), t) :: t.groups camel (goName camel (shownName r)),
    CountedAt camel tm (g.nameUses camel) q.2 (goTypeName camel q.1)

theorem PartsConform.append {p ps ps'} (h : PartsConform camel tm g p ps) (h' : PartsConform camel tm g p ps') : PartsConform camel tm g p (ps ++ ps') := by
  intro e he
  rcases List.mem_append.1 he with he | he
  · exact h e he
  · exact h' e he

theorem PartsConform.tag {p ps k x} (h : PartsConform camel tm g p ps) (hk : isTagName k = true) : PartsConform camel tm g p ((k, x) :: ps) := by
  intro e he hn
  rcases List.mem_cons.1 he with rfl | he
  · exact absurd hn.1.2 (by simp [hk])
  · exact h e he hn

theorem conform_leaf {p : Str} {x : Ast} : PartsConform camel tm g p [([], x)] := by
  intro e he hk
  simp only [List.mem_singleton] at he; subst he; exact absurd rfl hk.1.1

theorem conform_one {p k : Str} {x : Ast} {u : Use} (ho : Offers camel tm (g.nameUses camel) (goTypeName camel p) k u)
    (hf : ∀ ty', u = .node ty' → NodeOfType camel tm (g.nameUses camel) ty' x) : PartsConform camel tm g p [(k, x)] := by
  intro e he hk
  simp only [List.mem_singleton] at he; subst he; exact ⟨u, ho, hf⟩

theorem counted_rule {r ty : Str} {us} : CountedAt camel tm us (.rule r) ty := by
  intro k ty' _ _ hn
  refine absurd ?_ hn
  intro n hn
  cases hn
  unfold once
  split <;> omega

theorem named_conform (hR : Grammar.Counted camel tm g G) {n : Str} {t : Term} {ps : List (Str × Ast)} {b : Branch}
    (h2 : Groups t ps b) (rec1 : ∀ p, t.Reads camel tm g p → (∀ q ∈ t.groups camel p, CountedAt camel tm (g.nameUses camel) q.2 (goTypeName camel q.1)) → PartsConform camel tm g p ps) (p : Str)
    (hex : ∀ r, t = .rule r → ∃ t', lookup r G = some t')
    (hp : (Term.named n t).Reads camel tm g p) (hq : ∀ q ∈ (Term.named n t).groups camel p, CountedAt camel tm (g.nameUses camel) q.2 (goTypeName camel q.1)) :
    PartsConform camel tm g p [(n, .branch b)] := by
  have group : Offers camel tm (g.nameUses camel) (goTypeName camel p) n (.node (goTypeName camel (p ++ goName camel n))) ∧
      t.Reads camel tm g (p ++ goName camel n) →
      (Term.named n t).groups camel p = (p ++ goName camel n, t) :: t.groups camel (p ++ goName camel n) →
      PartsConform camel tm g p [(n, .branch b)] := by
    rintro ⟨h3, h4⟩ e
    rw [e] at hq
    simp only [List.mem_cons, forall_eq_or_imp] at hq
    refine conform_one h3 ?_
    intro ty' e
    obtain rfl := Use.node.inj e
    exact conforms_of_groups hR.reads.oneWay h2 hq.1 (rec1 _ h4 hq.2)
  cases t with
  | rule r =>
    simp only [Term.Reads] at hp
    refine conform_one hp.1 ?_
    intro ty' e
    obtain rfl := Use.node.inj e
    rcases hp.2 with h4 | h4
    · obtain ⟨t', ht'⟩ := hex r rfl
      obtain ⟨h8, h9, h10, d, h11, h12, h13⟩ := hR.reads.tokens _ _ h4 ht'
      exact .token ⟨d, h11, h12.trans (by rw [h9]), h13⟩
    · exact conforms_of_groups (p := goName camel (shownName r)) hR.reads.oneWay h2 counted_rule (rec1 (goName camel (shownName r)) h4 (by simp [Term.groups]))
  | s l => exact conform_one hp (by simp)
  | re l => exact conform_one hp (by simp)
  | cut t' =>
    cases t' with
    | s l => exact conform_one hp (by simp)
    | _ => rw [Term.Reads.eq_def] at hp; exact hp.elim
  | _ => rw [Term.Reads.eq_def] at hp; exact group hp (by rw [Term.groups.eq_def])

theorem groupsOf_get {p : Str} {P : Str × Term → Prop} : ∀ {ts : List Term} {i : Nat} {t : Term}, (∀ q ∈ groupsOf camel ts p, P q) → ts[i]? = some t → ∀ q ∈ t.groups camel p, P q
  | [], _, _, _, h => by simp at h
  | u :: ts, 0, t, hr, h => by
    simp only [List.getElem?_cons_zero, Option.some.injEq] at h
    subst h
    exact fun q hq => hr q (by simp [groupsOf, hq])
  | u :: ts, i + 1, t, hr, h => groupsOf_get (ts := ts) (i := i) (fun q hq => hr q (by simp [groupsOf, hq])) (by simpa using h)

/-- The groups in a term are counted. -/
def GroupsCounted (camel : Str → Str) (tm : TypeMap) (g : Grammar) (qs : List (Str × Term)) : Prop :=
  ∀ q ∈ qs, CountedAt camel tm (g.nameUses camel) q.2 (goTypeName camel q.1)

theorem GroupsCounted.left {qs qs'} (h : GroupsCounted camel tm g (qs ++ qs')) : GroupsCounted camel tm g qs := fun q hq => h q (by simp [hq])
theorem GroupsCounted.right {qs qs'} (h : GroupsCounted camel tm g (qs ++ qs')) : GroupsCounted camel tm g qs' := fun q hq => h q (by simp [hq])

mutual
theorem PartsOf.conform (hR : Grammar.Counted camel tm g G) {t v ps} : PartsOf G t v ps → ∀ p, t.Reads camel tm g p → GroupsCounted camel tm g (t.groups camel p) → PartsConform camel tm g p ps
  | .lit, _, _, _ => conform_leaf
  | .regexp, _, _, _ => conform_leaf
  | .rule h1 h2 h3, _, hp, _ => conform_one hp fun ty' e => by
      have hq := hR.counts _ _ h1
      simp only [List.mem_cons, forall_eq_or_imp] at hq
      obtain rfl := Use.node.inj e
      exact conforms_of_groups hR.reads.oneWay h3 hq.1 (h2.conform hR _ (hR.reads.rules _ _ h1) hq.2)
  | .named h1 h2, p, hp, hq => named_conform hR h2 (fun p hp hq => h1.conform hR p hp hq) p
      (fun r e => by subst e; cases h1 with | rule h _ _ => exact ⟨_, h⟩) hp hq
  | .cut h, p, hp, hq => h.conform hR p hp hq
  | .scope _, _, hp, _ => absurd hp (by simp [Term.Reads])
  | .look h, p, hp, hq => h.conform hR p hp hq
  | .seq h, p, hp, hq => h.conform hR p hp hq
  | .oneof hi h, p, hp, hq => (h.conform hR p (readsList_get hp hi) (groupsOf_get hq hi)).tag (by decide)
  | .quant _ h, p, hp, hq => h.conform hR p hp hq
  | .delim h h', p, hp, hq => (h.conform hR p hp.1 (GroupsCounted.left hq)).append (h'.conform hR p hp.1 hp.2 (GroupsCounted.left hq) (GroupsCounted.right hq))
  | .delimLead _ h, p, hp, hq => (h.conform hR p hp.1 hp.2 (GroupsCounted.left hq) (GroupsCounted.right hq)).tag (by decide)
  | .refLeaf, _, hp, _ => conform_one hp (by simp)
  | .refNode _ _, _, hp, _ => conform_one hp (by simp)
theorem PartsSeq.conform (hR : Grammar.Counted camel tm g G) {ts vs ps} : PartsSeq G ts vs ps → ∀ p, readsList camel tm g ts p → GroupsCounted camel tm g (groupsOf camel ts p) → PartsConform camel tm g p ps
  | .nil, _, _, _ => by intro e he; simp at he
  | .cons h h', p, hp, hq => (h.conform hR p hp.1 (GroupsCounted.left hq)).append (h'.conform hR p hp.2 (GroupsCounted.right hq))
theorem PartsReps.conform (hR : Grammar.Counted camel tm g G) {t vs ps} : PartsReps G t vs ps → ∀ p, t.Reads camel tm g p → GroupsCounted camel tm g (t.groups camel p) → PartsConform camel tm g p ps
  | .nil, _, _, _ => by intro e he; simp at he
  | .cons h h', p, hp, hq => (h.conform hR p hp hq).append (h'.conform hR p hp hq)
theorem PartsList.conform (hR : Grammar.Counted camel tm g G) {t sep vs ps} : PartsList G t sep vs ps → ∀ p, t.Reads camel tm g p → sep.Reads camel tm g p →
    GroupsCounted camel tm g (t.groups camel p) → GroupsCounted camel tm g (sep.groups camel p) → PartsConform camel tm g p ps
  | .nil, _, _, _, _, _ => by intro e he; simp at he
  | .cons h h' h'', p, hp, hp', hq, hq' => ((h.conform hR p hp' hq').append (h'.conform hR p hp hq)).append (h''.conform hR p hp hp' hq hq')
  | .trail h, p, _, hp', _, hq' => (h.conform hR p hp' hq').append (PartsConform.tag (by intro e he; simp at he) (by decide))
end

/-! ## From accessors to children -/

variable {rnd : Nat → Nat}

theorem all_lookup {b : Branch} {k : Str} (h : (Ast.branch b).all k ≠ []) : ∃ kids, lookup k b = some kids ∧ (Ast.branch b).all k = kids.nodes := by
  simp only [Ast.all, Ast.one?, Ast.many?, Branch.one?, Branch.many?] at h ⊢
  cases hl : lookup k b with
  | none => simp [hl] at h
  | some kids => cases kids <;> simp [Kids.nodes]

theorem NodesOf.unique {us ty k t t'} (ho : OneWay us) (h : NodesOf us ty k t) (h' : NodesOf us ty k t') : t = t' := by
  rcases h with h | h <;> rcases h' with h' | h' <;> have := ho _ h _ h' rfl rfl <;> simp at this <;> exact this

theorem NodesOf.offers {us ty k t u} (ho : OneWay us) (h : NodesOf us ty k t) (h' : Offers camel tm us ty k u) : u = .node t := by
  obtain ⟨⟨u', hu', rfl⟩, _⟩ := h'
  rcases h with h | h <;> have := ho _ h _ hu' rfl rfl <;> simp only at this <;> subst this <;> rfl

/-- The name and the type of what an accessor returns, if there is something. -/
def MethodDecl.entry (n : Ast) (d : MethodDecl) : Option (Str × Str) :=
  match d.does.of, d.does.returns with
  | some k, some t => if n.all k = [] then none else some (k, t)
  | _, _ => none

theorem named_of_accessible (hm : makeTypes camel rnd g = some tm) (ht : g.Typed camel tm) (hD : Declared camel tm (g.usages camel)) {ty n ks}
    (hn : NodeOfType camel tm (g.nameUses camel) ty n) (htok : ¬ TokenType camel tm ty) (h : Accessible camel tm upper ty n ks) :
    NamedChildren (g.nameUses camel) upper ty n ks ∧ ∀ k ∈ ks, NodeOfType camel tm (g.nameUses camel) k.1 k.2 := by
  obtain ⟨ds, ha, rfl⟩ := h
  cases hn with
  | token h => exact absurd h htok
  | @node _ b h1 h2 =>
    have ho := ht.oneWay
    -- what the accessors are
    have kinds : ∀ d ∈ ds, ∃ k t, d.does.of = some k ∧ d.does.returns = some t ∧ ChildName k ∧ NodesOf (g.nameUses camel) ty k t ∧ (d.does = .oneNode k t ∨ d.does = .allNodes k t) := by
      intro d hd
      obtain ⟨hmem, hr, hof⟩ := ha.of d hd
      obtain ⟨k, hk⟩ := Option.ne_none_iff_exists'.1 hof
      obtain ⟨hc, t, hret, hno⟩ := method_use hm ht hD hmem hk
      refine ⟨k, t, hk, hret, hc, hr ▸ hno, ?_⟩
      cases hdo : d.does <;> simp [hdo, GoMethod.of, GoMethod.returns] at hk hret <;> simp [hk, hret]
    -- each returns all
    have returned : ∀ d ∈ ds, ∀ k t, d.does.of = some k → d.does.returns = some t → d.does.returned (.branch b) = ((Ast.branch b).all k).map fun c => (t, c) := by
      intro d hd k t hk hret
      obtain ⟨k', t', hk', ht', hc, hno, hdo⟩ := kinds d hd
      obtain rfl := Option.some.inj (hk.symm.trans hk')
      obtain rfl := Option.some.inj (hret.symm.trans ht')
      rcases hdo with e | e
      · have hle : ((Ast.branch b).first k).toList = (Ast.branch b).all k := by
          by_cases hne : (Ast.branch b).all k = []
          · rw [first_all, hne]; rfl
          · obtain ⟨kids, hl, hnodes⟩ := all_lookup hne
            rw [first_all, hnodes]
            cases kids with
            | one c => rfl
            | many ns =>
              obtain ⟨u, hu, hmany⟩ := h1 k _ hl hc
              obtain ⟨d2, hd2, hr2, t2, hdo2⟩ := hmany t ns (hno.offers ho hu) rfl
              obtain ⟨d3, hd3, hof3, hall⟩ := ha.every d2 hd2 hr2 k (by rw [hdo2]; rfl)
              have e3 := hall (by rw [hdo2]; rfl)
              subst e3
              have hsame : d3 = d := by
                refine inj_of_nodup (f := fun d => d.does.of) ha.once d3 hd3 d hd ?_
                simp only [hof3, hk]
              subst hsame
              rw [e] at hdo2
              simp at hdo2
        rw [e]
        simp [GoMethod.returned, GoMethod.run, hle]
      · rw [e]
        simp [GoMethod.returned, GoMethod.run]
    refine ⟨⟨ds.filterMap (MethodDecl.entry (.branch b)), ?_, ?_, ?_, ?_⟩, ?_⟩
    · refine List.pairwise_map.2 (List.pairwise_filterMap.2 ?_)
      refine (List.pairwise_map.1 ha.once).imp ?_
      intro d d' hne e he e' he' heq
      apply hne
      unfold MethodDecl.entry at he he'
      split at he <;> [skip; simp at he]
      split at he' <;> [skip; simp at he']
      rename_i k1 t1 hk1 _ _ _ k2 t2 hk2 _
      split at he <;> [simp at he; skip]
      split at he' <;> [simp at he'; skip]
      obtain rfl := Option.some.inj he
      obtain rfl := Option.some.inj he'
      simp only at heq
      rw [hk1, hk2, heq]
    · refine List.pairwise_filterMap.2 (ha.sorted.imp ?_)
      intro d d' hlt e he e' he'
      unfold MethodDecl.entry at he he'
      split at he <;> [skip; simp at he]
      split at he' <;> [skip; simp at he']
      rename_i k1 t1 hk1 _ _ _ k2 t2 hk2 _
      split at he <;> [simp at he; skip]
      split at he' <;> [simp at he'; skip]
      obtain rfl := Option.some.inj he
      obtain rfl := Option.some.inj he'
      exact hlt k1 k2 hk1 hk2
    · intro k t
      simp only [List.mem_filterMap]
      constructor
      · rintro ⟨d, hd, he⟩
        obtain ⟨k', t', hk', ht', hc, hno, _⟩ := kinds d hd
        simp only [MethodDecl.entry, hk', ht'] at he
        split at he <;> simp only [reduceCtorEq, Option.some.injEq, Prod.mk.injEq] at he
        obtain ⟨rfl, rfl⟩ := he
        exact ⟨hc, ‹_›, hno⟩
      · rintro ⟨hc, hne, hno⟩
        obtain ⟨kids, hl, hnodes⟩ := all_lookup hne
        obtain ⟨u, hu, _⟩ := h1 k kids hl hc
        have hu' := hno.offers ho hu
        subst hu'
        obtain ⟨d, hd, hr, hdo⟩ := hu.2
        have hof : d.does.of = some k := by rcases hdo with e | e <;> rw [e] <;> rfl
        obtain ⟨d', hd', hof', _⟩ := ha.every d hd hr k hof
        obtain ⟨k', t', hk', ht', _, hno', _⟩ := kinds d' hd'
        obtain rfl := Option.some.inj (hof'.symm.trans hk')
        obtain rfl := hno.unique ho hno'
        refine ⟨d', hd', ?_⟩
        simp [MethodDecl.entry, hk', ht', hne]
    · clear h1 h2
      have : ∀ l : List MethodDecl, (∀ d ∈ l, d ∈ ds) → l.flatMap (fun d => d.does.returned (.branch b)) =
          (l.filterMap (MethodDecl.entry (.branch b))).flatMap fun e => ((Ast.branch b).all e.1).map fun c => (e.2, c) := by
        intro l
        induction l with
        | nil => intro _; rfl
        | cons d l ih =>
          intro hl
          obtain ⟨k, t, hk, hret, _⟩ := kinds d (hl d (by simp))
          rw [List.flatMap_cons, ih fun d hd => hl d (by simp [hd]), returned d (hl d (by simp)) k t hk hret, List.filterMap_cons]
          by_cases hne : (Ast.branch b).all k = []
          · simp [MethodDecl.entry, hk, hret, hne]
          · simp [MethodDecl.entry, hk, hret, hne]
      exact this ds fun _ h => h
    · intro e he
      obtain ⟨d, hd, he⟩ := List.mem_flatMap.1 he
      obtain ⟨k, t, hk, hret, hc, hno, _⟩ := kinds d hd
      rw [returned d hd k t hk hret] at he
      obtain ⟨c, hcm, rfl⟩ := List.mem_map.1 he
      obtain ⟨kids, hl, hnodes⟩ := all_lookup (List.ne_nil_of_mem hcm)
      obtain ⟨u, hu, _⟩ := h1 k kids hl hc
      have hu' := hno.offers ho hu
      subst hu'
      exact h2 k kids t c hl hc hu (hnodes ▸ hcm)

mutual
theorem Tour.named (hm : makeTypes camel rnd g = some tm) (ht : g.Typed camel tm) (hD : Declared camel tm (g.usages camel)) {ty n cs} :
    Tour (Accessible camel tm upper) (TokenType camel tm) skip ty n cs → NodeOfType camel tm (g.nameUses camel) ty n →
    Tour (NamedChildren (g.nameUses camel) upper) (TokenType camel tm) skip ty n cs
  | .token h, _ => .token h
  | .skip h h', _ => .skip h h'
  | .node h h' hk hr, hn => by
    obtain ⟨h1, h2⟩ := named_of_accessible hm ht hD hn h hk
    exact .node h h' h1 (hr.named hm ht hD h2)
theorem Tours.named (hm : makeTypes camel rnd g = some tm) (ht : g.Typed camel tm) (hD : Declared camel tm (g.usages camel)) {ks cs} :
    Tours (Accessible camel tm upper) (TokenType camel tm) skip ks cs → (∀ k ∈ ks, NodeOfType camel tm (g.nameUses camel) k.1 k.2) →
    Tours (NamedChildren (g.nameUses camel) upper) (TokenType camel tm) skip ks cs
  | .nil, _ => .nil
  | .cons h h', hn => .cons (h.named hm ht hD (hn _ (List.mem_cons_self ..))) (h'.named hm ht hD fun k hk => hn k (by simp [hk]))
end

/-! ## All nodes -/

mutual
theorem Tour.within {us : List (Str × Str × Use)} {token : Str → Prop} {ty n cs} : Tour (NamedChildren us upper) token (fun _ _ => false) ty n cs →
    ∀ ty' n', Callback.enter ty' n' ∈ cs ↔ NodeWithin us token ty n ty' n'
  | .token h, ty', n' => by
    simp only [List.mem_singleton, Callback.enter.injEq]
    constructor
    · rintro ⟨rfl, rfl⟩; exact .here
    · rintro (_ | ⟨h', _⟩)
      · exact ⟨rfl, rfl⟩
      · exact absurd h h'
  | .skip _ h, _, _ => absurd h (by simp)
  | .node (ks := ks) (ty := ty) (n := n) h _ hk hr, ty', n' => by
    simp only [List.mem_cons, Callback.enter.injEq, List.mem_append, reduceCtorEq, List.not_mem_nil, or_self, or_false]
    rw [hr.within ty' n']
    obtain ⟨names, _, _, h3, rfl⟩ := hk
    constructor
    · rintro (⟨rfl, rfl⟩ | ⟨k, hk, hw⟩)
      · exact .here
      · obtain ⟨e, he, hk⟩ := List.mem_flatMap.1 hk
        obtain ⟨c, hc, rfl⟩ := List.mem_map.1 hk
        obtain ⟨h4, _, h5⟩ := (h3 e.1 e.2).1 he
        exact .inner h h4 h5 hc hw
    · rintro (_ | ⟨_, h4, h5, hc, hw⟩)
      · exact .inl ⟨rfl, rfl⟩
      · exact .inr ⟨(_, _), List.mem_flatMap.2 ⟨(_, _), (h3 _ _).2 ⟨h4, List.ne_nil_of_mem hc, h5⟩, List.mem_map.2 ⟨_, hc, rfl⟩⟩, hw⟩
theorem Tours.within {us : List (Str × Str × Use)} {token : Str → Prop} {ks cs} : Tours (NamedChildren us upper) token (fun _ _ => false) ks cs →
    ∀ ty' n', Callback.enter ty' n' ∈ cs ↔ ∃ k ∈ ks, NodeWithin us token k.1 k.2 ty' n'
  | .nil, _, _ => by simp
  | .cons h h', ty', n' => by simp [h.within ty' n', h'.within ty' n']
end

theorem Visitor.callUntil_never {σ : Type} {ops : Visitor σ} : ∀ (es : List Callback) (s : σ), (∀ e s, (ops.call e s).2 = none) →
    ops.callUntil Stopper.stops es s = (ops.callAll es s, none)
  | [], s, h => rfl
  | e :: es, s, h => by
    simp only [Visitor.callUntil, Visitor.callAll]
    have := h e s
    rcases h4 : ops.call e s with ⟨s', _ | st⟩
    · exact Visitor.callUntil_never es s' h
    · simp [h4] at this

end

end Wbnf

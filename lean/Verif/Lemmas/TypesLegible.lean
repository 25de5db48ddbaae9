import Verif.Lemmas.TypesReads
import Verif.Lemmas.PartsLt

/-!
# Parts can be read
-/

namespace Wbnf

variable {camel : Str → Str} {tm : TypeMap} {g G : Grammar}

/-- The node is what the use of its name says. -/
def Fitting (camel : Str → Str) (tm : TypeMap) : Use → Ast → Prop
  | .text, n => ∃ c x, n.first [] = some c ∧ c.text = some x ∧ n.text = some x
  | .node ty, n => Legible camel tm ty n
  | .self _, _ => False
  | .raw, _ => True

theorem mapO_fitting : ∀ {ns : List Ast}, (∀ n ∈ ns, Fitting camel tm .text n) →
    ∃ xs, mapO (fun c => (c.first []).bind Ast.text) ns = some xs ∧ mapO Ast.text ns = some xs
  | [], _ => ⟨[], rfl, rfl⟩
  | n :: ns, h => by
    obtain ⟨c, x, h1, h2, h3⟩ := h n (by simp)
    obtain ⟨xs, h4, h5⟩ := mapO_fitting (ns := ns) fun n hn => h n (by simp [hn])
    exact ⟨x :: xs, by simp [mapO, h1, h2, h4], by simp [mapO, h3, h5]⟩

theorem legible_of_groups {t : Term} {ps : List (Str × Ast)} {b : Branch} {ty : Str} (ho : OneWay (g.nameUses camel)) (hg : Groups t ps b)
    (h : ∀ e ∈ ps, IsName e.1 → ∃ u, Offers camel tm (g.nameUses camel) ty e.1 u ∧ Fitting camel tm u e.2) : Legible camel tm ty (.branch b) := by
  classical
  have nodes : ∀ {k kids}, lookup k b = some kids → kids.nodes = partsNamed k ps ∧ partsNamed k ps ≠ [] := by
    intro k kids hl
    have h1 := hg.2 k
    cases hp : partsNamed k ps with
    | nil => rw [hp] at h1; simp only at h1; rw [h1] at hl; simp at hl
    | cons x xs =>
      rw [hp] at h1
      simp only at h1
      refine ⟨?_, by simp⟩
      by_cases hc : AtMostOne t k ∧ k ≠ choiceTag ∧ k ≠ emptyTag
      · obtain ⟨rfl, h2⟩ := h1.1 hc
        rw [h2] at hl
        simp only [Option.some.injEq] at hl
        subst hl; rfl
      · rw [h1.2 hc] at hl
        simp only [Option.some.injEq] at hl
        subst hl; rfl
  refine .node (fun k => if hx : ∃ t', Offers camel tm (g.nameUses camel) ty k (.node t') then some hx.choose else none) ?_ ?_
  · intro k kids hl hk
    obtain ⟨hn, hne⟩ := nodes hl
    have hf := hg.first k
    have ha := groups_all hg k
    obtain ⟨n, ns, hp⟩ := List.exists_cons_of_ne_nil hne
    have fits : ∀ m ∈ partsNamed k ps, ∃ u, Offers camel tm (g.nameUses camel) ty k u ∧ Fitting camel tm u m := fun m hm => h _ (mem_partsNamed.1 hm) hk
    obtain ⟨u, hu, hfit⟩ := fits n (by simp [hp])
    have allFit : ∀ m ∈ kids.nodes, Fitting camel tm u m := by
      intro m hm
      obtain ⟨u', hu', hf'⟩ := fits m (hn ▸ hm)
      rw [Offers.unique ho hu' hu] at hf'
      exact hf'
    have inner : ∀ t', u = .node t' → (if hx : ∃ t', Offers camel tm (g.nameUses camel) ty k (.node t') then some hx.choose else none) = some t' := by
      intro t' e
      subst e
      have hx : ∃ t', Offers camel tm (g.nameUses camel) ty k (.node t') := ⟨t', hu⟩
      rw [dif_pos hx]
      have := Offers.unique ho hx.choose_spec hu
      simpa using this
    have innerNone : (∀ t', u ≠ .node t') → (if hx : ∃ t', Offers camel tm (g.nameUses camel) ty k (.node t') then some hx.choose else none) = none := by
      intro e
      rw [dif_neg]
      rintro ⟨t', hx⟩
      exact e t' (Offers.unique ho hu hx)
    have hh : (Ast.branch b).first k = kids.nodes.head? := by rw [hf, hn]
    have hall : (Ast.branch b).all k = kids.nodes := by rw [ha, hn]
    have hhead : kids.nodes.head? = some n := by rw [hn, hp]; rfl
    obtain ⟨d, hd, hr, hdo⟩ := hu.2
    cases u with
    | self t' => exact absurd hfit (by simp [Fitting])
    | node t' =>
      rw [inner t' rfl]
      rcases hdo with e | e
      · exact ⟨d, hd, hr, .node t' ((Ast.branch b).first k), by rw [e]; rfl, rfl, by simp [hh, hhead], hh⟩
      · exact ⟨d, hd, hr, .nodes t' ((Ast.branch b).all k), by rw [e]; rfl, rfl, hall⟩
    | text =>
      rw [innerNone (by simp)]
      rcases hdo with e | e
      · obtain ⟨c, x, h1, h2, h3⟩ := hfit
        exact ⟨d, hd, hr, .text x, by rw [e]; simp [GoMethod.run, hh, hhead, h1, h2], rfl, n, hhead, h3⟩
      · obtain ⟨xs, h4, h5⟩ := mapO_fitting allFit
        exact ⟨d, hd, hr, .texts xs, by rw [e]; simp [GoMethod.run, hall, h4], rfl, h5⟩
    | raw =>
      rw [innerNone (by simp)]
      exact ⟨d, hd, hr, .ast ((Ast.branch b).first k), by rw [hdo]; rfl, rfl, by simp [hh, hhead], hh⟩
  · intro k kids ty' n hl hk hi hm
    obtain ⟨hn, hne⟩ := nodes hl
    split at hi
    · rename_i hx
      simp only [Option.some.injEq] at hi
      subst hi
      obtain ⟨u, hu, hf⟩ := h _ (mem_partsNamed.1 (hn ▸ hm)) hk
      rw [Offers.unique ho hu hx.choose_spec] at hf
      exact hf
    · simp at hi

/-- The rules of a resolved grammar can be read. -/
structure Grammar.Reads (camel : Str → Str) (tm : TypeMap) (g G : Grammar) : Prop where
  oneWay : OneWay (g.nameUses camel)
  rules : ∀ r t, lookup r G = some t → t.Reads camel tm g (goName camel (shownName r))
  tokens : ∀ r t, g.TokenRule camel tm r → lookup r G = some t → t.IsToken ∧ shownName r = r ∧ isTagName r = false ∧
    ∃ d ∈ allMethods camel tm, d.receiver = typeOf camel r ∧ d.does = .text

/-- The leaves have texts. -/
def HaveTexts (ls : List Scanner) : Prop := ∀ s ∈ ls, ∃ x, s.toStr = some x

theorem token_fitting {t : Term} {s : Scanner} {b : Branch} (hs : ∃ x, s.toStr = some x) (hg : Groups t [([], .leaf s)] b) :
    Fitting camel tm .text (.branch b) := by
  obtain ⟨x, hx⟩ := hs
  refine ⟨.leaf s, x, ?_, ?_, ?_⟩
  · rw [hg.first]; simp [partsNamed]
  · simp [Ast.text, Ast.scanner, hx]
  · rw [hg.text (by decide)]; simp [Ast.text, Ast.scanner, hx]

theorem readsList_get : ∀ {ts : List Term} {p : Str} {i : Nat} {t : Term}, readsList camel tm g ts p → ts[i]? = some t → t.Reads camel tm g p
  | [], _, _, _, _, h => by simp at h
  | u :: ts, p, 0, t, hr, h => by simp only [List.getElem?_cons_zero, Option.some.injEq] at h; exact h ▸ hr.1
  | u :: ts, p, i + 1, t, hr, h => readsList_get hr.2 (by simpa using h)

/-- The parts fit the methods of the type of `p`. -/
def PartsFit (camel : Str → Str) (tm : TypeMap) (g : Grammar) (p : Str) (ps : List (Str × Ast)) : Prop :=
  ∀ e ∈ ps, IsName e.1 → ∃ u, Offers camel tm (g.nameUses camel) (goTypeName camel p) e.1 u ∧ Fitting camel tm u e.2

theorem PartsFit.append {p ps ps'} (h : PartsFit camel tm g p ps) (h' : PartsFit camel tm g p ps') : PartsFit camel tm g p (ps ++ ps') := by
  intro e he
  rcases List.mem_append.1 he with he | he
  · exact h e he
  · exact h' e he

theorem PartsFit.tag {p ps k x} (h : PartsFit camel tm g p ps) (hk : isTagName k = true) : PartsFit camel tm g p ((k, x) :: ps) := by
  intro e he hn
  rcases List.mem_cons.1 he with rfl | he
  · exact absurd hn.2 (by simp [hk])
  · exact h e he hn

theorem named_fitting (hR : Grammar.Reads camel tm g G) {n : Str} {t : Term} {v : Tree} {ps : List (Str × Ast)} {b : Branch} (h1 : PartsOf G t v ps)
    (h2 : Groups t ps b) (hl : HaveTexts v.leaves) (rec1 : ∀ p, t.Reads camel tm g p → PartsFit camel tm g p ps) (p : Str)
    (hp : (Term.named n t).Reads camel tm g p) : PartsFit camel tm g p [(n, .branch b)] := by
  intro e he hk
  simp only [List.mem_singleton] at he; subst he
  have group : Offers camel tm (g.nameUses camel) (goTypeName camel p) n (.node (goTypeName camel (p ++ goName camel n))) ∧
      t.Reads camel tm g (p ++ goName camel n) →
      ∃ u, Offers camel tm (g.nameUses camel) (goTypeName camel p) n u ∧ Fitting camel tm u (.branch b) := fun ⟨h3, h4⟩ =>
    ⟨_, h3, legible_of_groups hR.oneWay h2 (rec1 _ h4)⟩
  cases t with
  | rule r =>
    simp only [Term.Reads] at hp
    refine ⟨_, hp.1, ?_⟩
    rcases hp.2 with h4 | h4
    · cases h1 with
      | rule h5 h6 h7 =>
        obtain ⟨h8, h9, h10, d, h11, h12, h13⟩ := hR.tokens _ _ h4 h5
        have key : ∃ x, (Ast.branch b).text = some x := by
          rename_i t' ps' b'
          have : ∃ s, v = .leaf s ∧ ps' = [([], .leaf s)] := by
            cases t' <;> simp only [Term.IsToken] at h8
            · cases h6; exact ⟨_, rfl, rfl⟩
            · cases h6; exact ⟨_, rfl, rfl⟩
          obtain ⟨s, rfl, rfl⟩ := this
          obtain ⟨x, hx⟩ := hl s (by simp [Tree.leaves])
          refine ⟨x, ?_⟩
          rw [h2.text (by rw [h9]; exact h10), h7.text (by decide)]
          simp [Ast.text, Ast.scanner, hx]
        obtain ⟨x, hx⟩ := key
        refine Legible.text h11 (h12.trans (by rw [h9])) (x := x) ?_ hx
        rw [h13]; simp [GoMethod.run, hx]
    · exact legible_of_groups hR.oneWay h2 (rec1 (goName camel (shownName r)) h4)
  | s l =>
    cases h1
    exact ⟨_, hp, token_fitting (hl _ (by simp [Tree.leaves])) h2⟩
  | re l =>
    cases h1
    exact ⟨_, hp, token_fitting (hl _ (by simp [Tree.leaves])) h2⟩
  | cut t' =>
    cases t' with
    | s l =>
      cases h1 with
      | cut h1 =>
        cases h1
        exact ⟨_, hp, token_fitting (hl _ (by simp [Tree.leaves])) h2⟩
    | _ => rw [Term.Reads.eq_def] at hp; exact hp.elim
  | _ => rw [Term.Reads.eq_def] at hp; exact group hp

theorem leaf_fitting {p : Str} {x : Ast} : PartsFit camel tm g p [([], x)] := by
  intro e he hk
  simp only [List.mem_singleton] at he; subst he; exact absurd rfl hk.1

theorem one_fitting {p k : Str} {x : Ast} {u : Use} (ho : Offers camel tm (g.nameUses camel) (goTypeName camel p) k u)
    (hf : Fitting camel tm u x) : PartsFit camel tm g p [(k, x)] := by
  intro e he hk
  simp only [List.mem_singleton] at he; subst he; exact ⟨u, ho, hf⟩

mutual
theorem PartsOf.fitting (hR : Grammar.Reads camel tm g G) {t v ps} : PartsOf G t v ps → HaveTexts v.leaves → ∀ p, t.Reads camel tm g p → PartsFit camel tm g p ps
  | .lit, _, _, _ => leaf_fitting
  | .regexp, _, _, _ => leaf_fitting
  | .rule h1 h2 h3, hl, _, hp => one_fitting hp (legible_of_groups hR.oneWay h3 (h2.fitting hR hl _ (hR.rules _ _ h1)))
  | .named h1 h2, hl, p, hp => named_fitting hR h1 h2 hl (fun p hp => h1.fitting hR hl p hp) p hp
  | .cut h, hl, p, hp => h.fitting hR hl p hp
  | .scope _, _, _, hp => absurd hp (by simp [Term.Reads])
  | .look h, hl, p, hp => h.fitting hR (fun s hx => hl s (by simp [Tree.leaves, leavesList, hx])) p hp
  | .seq h, hl, p, hp => h.fitting hR hl p hp
  | .oneof hi h, hl, p, hp => (h.fitting hR (fun s hx => hl s (by simp [Tree.leaves, leavesList, hx])) p (readsList_get hp hi)).tag (by decide)
  | .quant _ h, hl, p, hp => h.fitting hR hl p hp
  | .delim h h', hl, p, hp => (h.fitting hR (fun s hx => hl s (by simp [Tree.leaves, leavesList, hx])) p hp.1).append
      (h'.fitting hR (fun s hx => hl s (by simp [Tree.leaves, leavesList, hx])) p hp.1 hp.2)
  | .delimLead _ h, hl, p, hp => (h.fitting hR (fun s hx => hl s (by simp only [Tree.leaves, leavesList] at hx ⊢; simpa using hx)) p hp.1 hp.2).tag (by decide)
  | .refLeaf, _, _, hp => one_fitting hp trivial
  | .refNode _ _, _, _, hp => one_fitting hp trivial
theorem PartsSeq.fitting (hR : Grammar.Reads camel tm g G) {ts vs ps} : PartsSeq G ts vs ps → HaveTexts (leavesList vs) → ∀ p, readsList camel tm g ts p → PartsFit camel tm g p ps
  | .nil, _, _, _ => by intro e he; simp at he
  | .cons h h', hl, p, hp => (h.fitting hR (fun s hx => hl s (by simp [leavesList, hx])) p hp.1).append
      (h'.fitting hR (fun s hx => hl s (by simp [leavesList, hx])) p hp.2)
theorem PartsReps.fitting (hR : Grammar.Reads camel tm g G) {t vs ps} : PartsReps G t vs ps → HaveTexts (leavesList vs) → ∀ p, t.Reads camel tm g p → PartsFit camel tm g p ps
  | .nil, _, _, _ => by intro e he; simp at he
  | .cons h h', hl, p, hp => (h.fitting hR (fun s hx => hl s (by simp [leavesList, hx])) p hp).append
      (h'.fitting hR (fun s hx => hl s (by simp [leavesList, hx])) p hp)
theorem PartsList.fitting (hR : Grammar.Reads camel tm g G) {t sep vs ps} : PartsList G t sep vs ps → HaveTexts (leavesList vs) → ∀ p, t.Reads camel tm g p → sep.Reads camel tm g p → PartsFit camel tm g p ps
  | .nil, _, _, _, _ => by intro e he; simp at he
  | .cons h h' h'', hl, p, hp, hp' => ((h.fitting hR (fun s hx => hl s (by simp [leavesList, hx])) p hp').append
      (h'.fitting hR (fun s hx => hl s (by simp [leavesList, hx])) p hp)).append (h''.fitting hR (fun s hx => hl s (by simp [leavesList, hx])) p hp hp')
  | .trail h, hl, p, _, hp' => (h.fitting hR (fun s hx => hl s (by simp [leavesList, hx])) p hp').append
      (PartsFit.tag (by intro e he; simp at he) (by decide))
end

end Wbnf

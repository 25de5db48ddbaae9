import Verif.Lemmas.TreeView

/-!
# Lemmas on tree views: several names in one line
-/

namespace Wbnf

variable {quote : Str → Str} {sort sort' : List GTree → List GTree} {skip : Bool}

theorem splitSep_word : ∀ {p : Str}, (32 : UInt8) ∉ p → splitSep collapsedNodeSep 0 p = [p]
  | [], _ => rfl
  | c :: p, h => by
    have h1 : c ≠ 32 := fun e => h (by simp [e])
    have h2 : collapsedNodeSep.isPrefixOf (c :: p) = false := by simp [collapsedNodeSep, bullet, List.isPrefixOf, h1.symm]
    rw [splitSep.eq_def]
    simp only [h2, Bool.false_eq_true, if_false, splitSep_word (p := p) (fun hm => h (by simp [hm]))]

theorem splitSep_cons : ∀ {p rest : Str}, (32 : UInt8) ∉ p → splitSep collapsedNodeSep 0 (p ++ (collapsedNodeSep ++ rest)) = p :: splitSep collapsedNodeSep 0 rest
  | [], rest, _ => by
    have h2 : collapsedNodeSep.isPrefixOf (collapsedNodeSep ++ rest) = true := by simp
    have e : ∀ c t, collapsedNodeSep.isPrefixOf (c :: t) = true → splitSep collapsedNodeSep 0 (c :: t) = [] :: splitSep collapsedNodeSep 4 t := by
      intro c t h
      rw [splitSep.eq_def]
      simp only [h, if_true]
      rfl
    exact (e _ _ h2).trans rfl
  | c :: p, rest, h => by
    have h1 : c ≠ 32 := fun e => h (by simp [e])
    have h2 : collapsedNodeSep.isPrefixOf (c :: (p ++ (collapsedNodeSep ++ rest))) = false := by simp [collapsedNodeSep, bullet, List.isPrefixOf, h1.symm]
    rw [List.cons_append, splitSep.eq_def]
    simp only [h2, Bool.false_eq_true, if_false, splitSep_cons (p := p) (rest := rest) (fun hm => h (by simp [hm]))]

theorem splitSep_separated : ∀ {ps : List Str}, (∀ p ∈ ps, (32 : UInt8) ∉ p) → ps ≠ [] → splitSep collapsedNodeSep 0 (separated collapsedNodeSep ps) = ps
  | [], _, h => absurd rfl h
  | [p], h, _ => by simpa [separated] using splitSep_word (h p (by simp))
  | p :: q :: ps, h, _ => by
    have ih := splitSep_separated (ps := q :: ps) (fun x hx => h x (by simp [hx])) (by simp)
    have e : separated collapsedNodeSep (p :: q :: ps) = p ++ (collapsedNodeSep ++ separated collapsedNodeSep (q :: ps)) := by simp [separated]
    rw [e, splitSep_cons (h p (by simp)), ih]

/-- One more name in front. -/
def push (p : Str) : List (Str × Nat) → List (Str × Nat)
  | [] => [(p, 0)]
  | (n, k) :: rs => if p = n then (n, k + 1) :: rs else (p, 0) :: (n, k) :: rs

theorem push_unrun (p : Str) (rs : List (Str × Nat)) : unrun (push p rs) = p :: unrun rs := by
  unfold push
  split
  · rfl
  · rename_i n k rs
    split
    · rename_i e; simp [unrun, e, List.replicate_succ]
    · simp [unrun]

theorem push_runs (p : Str) {rs : List (Str × Nat)} (h : Runs rs) : Runs (push p rs) := by
  unfold push
  split
  · simp [Runs]
  · rename_i n k rs
    split
    · cases rs with
      | nil => simp [Runs]
      | cons r rs => obtain ⟨m, j⟩ := r; simpa [Runs] using h
    · rename_i hne
      exact ⟨hne, h⟩

theorem runsLine_cons {n : Str} {k : Nat} {r : Str × Nat} {rs : List (Str × Nat)} : runsLine ((n, k) :: r :: rs) = n :: ((if 0 < k then [str "..."] else []) ++ runsLine (r :: rs)) := rfl

theorem runsLine_head {n : Str} {k : Nat} {rs : List (Str × Nat)} : ∃ ps, runsLine ((n, k) :: rs) = n :: ps := by
  cases rs with
  | nil => exact ⟨[], rfl⟩
  | cons r rs => exact ⟨_, runsLine_cons⟩

theorem collapseParts_push {p : Str} {rs : List (Str × Nat)} (hne : rs ≠ []) (hd : ∀ r ∈ rs, r.1 ≠ str "...") (hr : Runs rs) :
    collapseParts p false (runsLine rs) = runsLine (push p rs) := by
  cases rs with
  | nil => exact absurd rfl hne
  | cons r rs =>
    obtain ⟨n, k⟩ := r
    have hn := hd (n, k) (by simp)
    by_cases e : p = n
    · subst e
      simp only [push, if_true]
      cases rs with
      | nil => simp [runsLine, collapseParts]
      | cons r rs =>
        obtain ⟨m, j⟩ := r
        have hm := hd (m, j) (by simp)
        have hpm : p ≠ m := hr.1
        obtain ⟨ps, hp⟩ := runsLine_head (n := m) (k := j) (rs := rs)
        rw [runsLine_cons, runsLine_cons, hp]
        by_cases hk : 0 < k
        · simp [collapseParts, hk, hm, hpm.symm]
        · simp [collapseParts, hk, hm, hpm.symm]
    · simp only [push, if_neg e]
      obtain ⟨ps, hp⟩ := runsLine_head (n := n) (k := k) (rs := rs)
      rw [runsLine_cons, hp]
      have e' : n ≠ p := fun h => e h.symm
      simp [collapseParts, hn, e']

/-! ## Views of the nodes shown -/

inductive ViewsOf (quote : Str → Str) (sort : List GTree → List GTree) (skip : Bool) : List (Str × Ast) → List GTree → Prop
  | nil : ViewsOf quote sort skip [] []
  | cons {name a t ns ts} : fromAst quote sort skip name a = some t → ViewsOf quote sort skip ns ts → ViewsOf quote sort skip ((name, a) :: ns) (t :: ts)

theorem ViewsOf.append {ns ns' ts ts'} (h : ViewsOf quote sort skip ns ts) (h' : ViewsOf quote sort skip ns' ts') : ViewsOf quote sort skip (ns ++ ns') (ts ++ ts') := by
  induction h with
  | nil => exact h'
  | cons h _ ih => exact .cons h ih

theorem manyItems_views {name : Str} : ∀ {ns : List Ast} {ts}, manyItems quote sort skip name ns = some ts → ViewsOf quote sort skip (ns.map (name, ·)) ts
  | [], ts, h => by
    simp only [manyItems, Option.some.injEq] at h
    subst h; exact .nil
  | n :: ns, ts, h => by
    obtain ⟨t, us, h1, h2, rfl⟩ := manyItems_cons h
    exact .cons h1 (manyItems_views h2)

theorem branchItems_views : ∀ {b : List (Str × Kids)} {ts}, branchItems quote sort skip b = some ts → ViewsOf quote sort skip (shownKids skip b) ts
  | [], ts, h => by
    simp only [branchItems, Option.some.injEq] at h
    subst h; exact .nil
  | (name, .one n) :: b, ts, h => by
    rcases branchItems_cons h with ⟨h1, h2⟩ | ⟨h1, us, vs, h2, h3, rfl⟩
    · simp only [shownKids, if_pos h1, List.nil_append]; exact branchItems_views h2
    · simp only [shownKids, if_neg h1]
      simp only [kidsItems, Option.map_eq_some_iff] at h2
      obtain ⟨t, h2, rfl⟩ := h2
      exact .append (.cons h2 .nil) (branchItems_views h3)
  | (name, .many ns) :: b, ts, h => by
    rcases branchItems_cons h with ⟨h1, h2⟩ | ⟨h1, us, vs, h2, h3, rfl⟩
    · simp only [shownKids, if_pos h1, List.nil_append]; exact branchItems_views h2
    · simp only [shownKids, if_neg h1]
      exact .append (manyItems_views h2) (branchItems_views h3)

theorem ViewsOf.length {ns ts} (h : ViewsOf quote sort skip ns ts) : ns.length = ts.length := by
  induction h with
  | nil => rfl
  | cons _ _ ih => simp [ih]

theorem single_iff (hs : ∀ items, (sort items).Perm items) {a : Ast} {name : Str} {t : GTree} (h : fromAst quote sort skip name a = some t) : t.items.length = 1 ↔ Single skip a := by
  cases a with
  | leaf s =>
    simp only [fromAst, Option.map_eq_some_iff] at h
    obtain ⟨x, _, rfl⟩ := h
    simp [GTree.items, Single]
  | extra d =>
    simp only [fromAst, Option.some.injEq] at h
    subst h
    simp [GTree.items, Single]
  | branch b =>
    simp only [fromAst, Option.bind_eq_some_iff] at h
    obtain ⟨ts, h1, h2⟩ := h
    have h3 := (branchItems_views h1).length
    simp only [Single]
    rw [h3]
    rcases collapseTree_cases h2 with ⟨text, i, rfl, rfl⟩ | ⟨_, rfl⟩
    · simp [GTree.items]
    · simp only [GTree.items]
      rw [(hs ts).length_eq]

theorem inLine_text (hs : ∀ items, (sort items).Perm items) {a : Ast} {name : Str} {names : List Str} (h : InLine skip name a names) : ∀ {t : GTree},
    fromAst quote sort skip name a = some t → (∀ n ∈ names, (32 : UInt8) ∉ n ∧ n ≠ str "...") →
    ∃ rs, rs ≠ [] ∧ names = unrun rs ∧ Runs rs ∧ t.text = separated collapsedNodeSep (runsLine rs) := by
  induction h with
  | @extra name _ =>
    intro t h _
    simp only [fromAst, Option.some.injEq] at h
    subst h
    exact ⟨[(name, 0)], by simp, by simp [unrun], by simp [Runs], by simp [GTree.text, runsLine, separated]⟩
  | @stop name b hn =>
    intro t h _
    simp only [fromAst, Option.bind_eq_some_iff] at h
    obtain ⟨ts, h1, h2⟩ := h
    have h3 := branchItems_views h1
    rcases collapseTree_cases h2 with ⟨text, i, rfl, rfl⟩ | ⟨_, rfl⟩
    · generalize hk : shownKids skip _ = ks at h3
      cases h3 with
      | cons g1 g2 =>
        cases g2
        exact absurd ((single_iff hs g1).1 (by simp [GTree.items])) (hn _ _ hk)
    · exact ⟨[(name, 0)], by simp, by simp [unrun], by simp [Runs], by simp [GTree.text, runsLine, separated]⟩
  | step hk hS _ ih =>
    rename_i name b n a names _
    intro t h hok
    simp only [fromAst, Option.bind_eq_some_iff] at h
    obtain ⟨ts, h1, h2⟩ := h
    have h3 := branchItems_views h1
    rw [hk] at h3
    cases h3 with
    | cons g1 g2 =>
      cases g2
      rename_i u
      have hl := (single_iff hs g1).2 hS
      obtain ⟨text, items⟩ := u
      obtain ⟨rs, q1, q2, q3, q4⟩ := ih g1 (fun n hn => hok n (by simp [hn]))
      simp only [GTree.items] at hl
      obtain ⟨i, rfl⟩ := List.length_eq_one_iff.1 hl
      simp only [collapseTree, Option.some.injEq] at h2
      subst h2
      have hrs : ∀ r ∈ rs, (32 : UInt8) ∉ r.1 ∧ r.1 ≠ str "..." := by
        have key : ∀ rs : List (Str × Nat), ∀ r ∈ rs, r.1 ∈ unrun rs := by
          intro rs
          induction rs with
          | nil => simp
          | cons r0 rs ih =>
            obtain ⟨n0, k0⟩ := r0
            intro r hr
            rcases List.mem_cons.1 hr with rfl | hr
            · simp [unrun]
            · simp only [unrun, List.mem_append]; exact .inr (ih r hr)
        intro r hr
        exact hok r.1 (by simp only [List.mem_cons]; right; rw [q2]; exact key rs r hr)
      have hline : ∀ {rs : List (Str × Nat)}, (∀ r ∈ rs, (32 : UInt8) ∉ r.1) → ∀ p ∈ runsLine rs, (32 : UInt8) ∉ p := by
        intro rs
        induction rs with
        | nil => simp [runsLine]
        | cons r0 rs ih =>
          obtain ⟨n0, k0⟩ := r0
          intro h p hp
          cases rs with
          | nil =>
            simp only [runsLine, List.mem_singleton] at hp
            rw [hp]; exact h (n0, k0) (by simp)
          | cons r1 rs =>
            rw [runsLine_cons] at hp
            simp only [List.mem_cons, List.mem_append] at hp
            rcases hp with rfl | hp | hp
            · exact h (p, k0) (by simp)
            · split at hp
              · simp only [List.mem_singleton] at hp
                rw [hp]; decide
              · simp at hp
            · exact ih (fun r hr => h r (by simp [hr])) p hp
      have hne : runsLine rs ≠ [] := by
        cases rs with
        | nil => exact absurd rfl q1
        | cons r rs => obtain ⟨ps, e⟩ := runsLine_head (n := r.1) (k := r.2) (rs := rs); rw [e]; simp
      refine ⟨push name rs, ?_, ?_, push_runs name q3, ?_⟩
      · intro e
        have := push_unrun name rs
        rw [e] at this
        simp [unrun] at this
      · rw [push_unrun, q2]
      · simp only [GTree.text, collapseNodeText] at q4 ⊢
        rw [q4, splitSep_separated (hline fun r hr => (hrs r hr).1) hne, collapseParts_push q1 (fun r hr => (hrs r hr).2) q3]

end Wbnf

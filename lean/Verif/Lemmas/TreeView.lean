import Verif.Spec.TreeView
import Verif.Lemmas.AstStringRead

/-!
# Lemmas on tree views: ranks and ends
-/

namespace Wbnf

variable {quote : Str → Str} {sort sort' : List GTree → List GTree} {skip : Bool}

/-! ## Places -/

def placeOf (s : Str) : Int :=
  match numberPrefix s with
  | some ds => digitsValue ds
  | none => -1

theorem numbered_iff {s : Str} : Numbered s ↔ numberPrefix s ≠ none := by
  cases s with
  | nil => simp [Numbered, numberPrefix]
  | cons c s =>
    simp only [Numbered, numberPrefix, List.cons.injEq]
    constructor
    · rintro ⟨c', t, ⟨rfl, rfl⟩, h1, h2⟩
      simp [h1, h2]
    · intro h
      by_cases hc : (decide (49 ≤ c) && decide (c ≤ 57)) = true
      · simp only [Bool.and_eq_true, decide_eq_true_eq] at hc
        exact ⟨c, s, ⟨rfl, rfl⟩, hc⟩
      · rw [if_neg hc] at h; exact absurd rfl h

theorem takeWhile_digits : ∀ {ds s : Str}, ds.all isDigitByte = true → (∀ d t, s = d :: t → isDigitByte d = false) → (ds ++ s).takeWhile isDigitByte = ds
  | [], s, _, h => by
    cases s with
    | nil => rfl
    | cons d s => simp [h d s rfl]
  | d :: ds, s, hd, h => by
    simp only [List.all_cons, Bool.and_eq_true] at hd
    rw [List.cons_append, List.takeWhile_cons_of_pos hd.1, takeWhile_digits hd.2 h]

theorem StandsAt.eq {s : Str} {k : Int} (h : StandsAt s k) : k = placeOf s := by
  cases h with
  | number h1 h2 h3 h4 => simp [placeOf, numberPrefix, h1, h2, takeWhile_digits h3 h4]
  | nowhere h =>
    have : numberPrefix s = none := by simpa [numbered_iff] using h
    simp [placeOf, this]

theorem place_placeOf (s : Str) : StandsAt s (placeOf s) := by
  by_cases h : Numbered s
  · obtain ⟨c, t, rfl, h1, h2⟩ := h
    have e : placeOf (c :: t) = digitsValue (c :: t.takeWhile isDigitByte) := by simp [placeOf, numberPrefix, h1, h2]
    rw [e]
    have := StandsAt.number (s := t.dropWhile isDigitByte) (ds := t.takeWhile isDigitByte) h1 h2 (by simp) (fun d u hd => by
      have := List.head?_dropWhile_not isDigitByte t
      rw [hd] at this
      simpa using this)
    rwa [List.takeWhile_append_dropWhile] at this
  · have : numberPrefix s = none := by simpa [numbered_iff] using h
    have e : placeOf s = -1 := by simp [placeOf, this]
    rw [e]
    exact .nowhere h

theorem place_iff {s : Str} {k : Int} : StandsAt s k ↔ k = placeOf s := ⟨StandsAt.eq, fun h => h ▸ place_placeOf s⟩

theorem first_iff {ss : List Str} {k : Int} : First ss k ↔ (∃ s ∈ ss, k = placeOf s) ∧ ∀ s ∈ ss, k ≤ placeOf s := by
  simp only [First, place_iff]
  constructor
  · rintro ⟨h1, h2⟩; exact ⟨h1, fun s hs => h2 s hs _ rfl⟩
  · rintro ⟨h1, h2⟩; exact ⟨h1, fun s hs j hj => hj ▸ h2 s hs⟩

theorem First.unique {ss : List Str} {j k : Int} (h : First ss j) (h' : First ss k) : j = k := by
  rw [first_iff] at h h'
  obtain ⟨⟨s, hs, rfl⟩, h2⟩ := h
  obtain ⟨⟨t, ht, rfl⟩, h4⟩ := h'
  have := h2 t ht
  have := h4 s hs
  omega

theorem First.perm {ss ts : List Str} {k : Int} (h : ss.Perm ts) : First ss k ↔ First ts k := by
  simp only [First, h.mem_iff]

/-! ## Ranks -/

mutual
/-- Numbers at the ends are in the range of a Go int, other texts have none. -/
def GTree.Sound : GTree → Prop
  | .mk text items => if items.isEmpty then placeOf text < 2 ^ 63 else ¬ Numbered text ∧ soundAll items
def soundAll : List GTree → Prop
  | [] => True
  | t :: ts => t.Sound ∧ soundAll ts
end

theorem soundAll_iff {ts : List GTree} : soundAll ts ↔ ∀ t ∈ ts, t.Sound := by
  induction ts with
  | nil => simp [soundAll]
  | cons t ts ih => simp [soundAll, ih]

theorem endsAll_eq {ts : List GTree} : endsAll ts = ts.flatMap GTree.ends := by
  induction ts with
  | nil => rfl
  | cons t ts ih => simp [endsAll, ih]

mutual
theorem rank_first : ∀ t : GTree, t.Sound → ∃ k, t.rank = some k ∧ First t.ends k ∧ k < 2 ^ 63
  | .mk text items, h => by
    cases items with
    | nil =>
      simp only [GTree.Sound, List.isEmpty_nil, if_true] at h
      refine ⟨placeOf text, ?_, first_iff.2 ⟨⟨text, by simp [GTree.ends]⟩, by simp [GTree.ends]⟩, h⟩
      simp only [GTree.rank]
      unfold placeOf at h ⊢
      cases e : numberPrefix text with
      | none => rfl
      | some ds =>
        rw [e] at h
        simp only at h ⊢
        rw [if_pos (by omega)]
    | cons i is =>
      simp only [GTree.Sound, List.isEmpty_cons, Bool.false_eq_true, if_false, soundAll] at h
      have hn : numberPrefix text = none := by simpa [numbered_iff] using h.1
      obtain ⟨k, h1, h2, h3⟩ := minRank_first (i :: is) (by simpa [soundAll] using h.2) (2 ^ 63 - 1)
      refine ⟨k, by simp only [GTree.rank, hn]; exact h1, ?_, by omega⟩
      simp only [GTree.ends, List.isEmpty_cons, Bool.false_eq_true, if_false]
      rcases h3 with ⟨h3, h4⟩ | h3
      · obtain ⟨k', _, e2, e3⟩ := rank_first i h.2.1
        obtain ⟨⟨s, hs, rfl⟩, _⟩ := first_iff.1 e2
        have hm : s ∈ endsAll (i :: is) := by simp [endsAll, hs]
        have := h4 s hm
        exact first_iff.2 ⟨⟨s, hm, by omega⟩, fun s hs => by rw [h3]; exact h4 s hs⟩
      · exact h3
theorem minRank_first : ∀ ts : List GTree, soundAll ts → ∀ r : Int, ∃ k, minRank r ts = some k ∧ k ≤ r ∧
    ((k = r ∧ ∀ s ∈ endsAll ts, r ≤ placeOf s) ∨ First (endsAll ts) k)
  | [], _, r => ⟨r, rfl, Int.le_refl _, .inl ⟨rfl, by simp [endsAll]⟩⟩
  | t :: ts, h, r => by
    obtain ⟨k, h1, h2, h3⟩ := rank_first t h.1
    obtain ⟨k', h4, h5, h6⟩ := minRank_first ts h.2 (if k < r then k else r)
    refine ⟨k', by simp only [minRank, h1]; exact h4, by split at h5 <;> omega, ?_⟩
    rw [first_iff] at h2 h6
    obtain ⟨⟨s, hs, hk⟩, h7⟩ := h2
    simp only [endsAll, List.mem_append, first_iff]
    by_cases hr : k < r
    · rw [if_pos hr] at h5 h6
      right
      rcases h6 with ⟨h6, h8⟩ | ⟨⟨s', hs', hk'⟩, h8⟩
      · refine ⟨⟨s, .inl hs, by omega⟩, fun s hs => ?_⟩
        rcases hs with hs | hs
        · rw [h6]; exact h7 s hs
        · rw [h6]; exact h8 s hs
      · refine ⟨⟨s', .inr hs', hk'⟩, fun s hs => ?_⟩
        rcases hs with hs | hs
        · have := h7 s hs; omega
        · exact h8 s hs
    · rw [if_neg hr] at h5 h6
      rcases h6 with ⟨h6, h8⟩ | ⟨⟨s', hs', hk'⟩, h8⟩
      · left
        refine ⟨h6, fun s hs => ?_⟩
        rcases hs with hs | hs
        · have := h7 s hs; omega
        · exact h8 s hs
      · right
        refine ⟨⟨s', .inr hs', hk'⟩, fun s hs => ?_⟩
        rcases hs with hs | hs
        · have := h7 s hs; omega
        · exact h8 s hs
end

/-! ## Ends -/

theorem hidden_iff {name : Str} : (skip && decide (name.head? = some 64)) = true ↔ Hidden skip name := by
  cases name with
  | nil => simp [Hidden]
  | cons c s => simp [Hidden]

theorem branchItems_cons {name : Str} {c : Kids} {b ts} (h : branchItems quote sort skip ((name, c) :: b) = some ts) :
    (Hidden skip name ∧ branchItems quote sort skip b = some ts) ∨
    (¬ Hidden skip name ∧ ∃ us vs, kidsItems quote sort skip name c = some us ∧ branchItems quote sort skip b = some vs ∧ ts = us ++ vs) := by
  simp only [branchItems] at h
  split at h
  · rename_i hh
    exact .inl ⟨hidden_iff.1 hh, h⟩
  · rename_i hh
    refine .inr ⟨fun g => hh (hidden_iff.2 g), ?_⟩
    split at h
    · rename_i us vs e1 e2
      exact ⟨us, vs, e1, e2, (Option.some.inj h).symm⟩
    · cases h

theorem manyItems_cons {name : Str} {n : Ast} {ns ts} (h : manyItems quote sort skip name (n :: ns) = some ts) :
    ∃ t us, fromAst quote sort skip name n = some t ∧ manyItems quote sort skip name ns = some us ∧ ts = t :: us := by
  simp only [manyItems] at h
  split at h
  · rename_i t us e1 e2
    exact ⟨t, us, e1, e2, (Option.some.inj h).symm⟩
  · cases h

theorem endsAll_perm {ts us : List GTree} (h : ts.Perm us) : (endsAll ts).Perm (endsAll us) := by
  rw [endsAll_eq, endsAll_eq]
  exact h.flatMap_right _

theorem endsAll_append {ts us : List GTree} : endsAll (ts ++ us) = endsAll ts ++ endsAll us := by simp [endsAll_eq]

theorem gtree_ends_ne (t : GTree) : t.ends ≠ [] := by
  obtain ⟨text, items⟩ := t
  have key : ∀ n, ∀ t : GTree, sizeOf t < n → t.ends ≠ [] := by
    intro n
    induction n with
    | zero => intro t h; omega
    | succ n ih =>
      rintro ⟨text, items⟩ h
      cases items with
      | nil => simp [GTree.ends]
      | cons i is =>
        simp only [GTree.ends, List.isEmpty_cons, Bool.false_eq_true, if_false, endsAll]
        intro e
        have := List.append_eq_nil_iff.1 e
        refine ih i ?_ this.1
        simp at h; omega
  exact key _ _ (Nat.lt_succ_self _)

theorem sortItems_eq {text : Str} {items : List GTree} {t} (h : sortItems sort text items = some t) : t = .mk text (sort items) := by
  unfold sortItems at h
  split at h
  · cases h
  · exact (Option.some.inj h).symm

theorem collapseTree_cases {name : Str} {items : List GTree} {t} (h : collapseTree sort name items = some t) :
    (∃ text i, items = [.mk text [i]] ∧ t = .mk (collapseNodeText name (.mk text [i])) [i]) ∨ ((∀ text i, items ≠ [.mk text [i]]) ∧ t = .mk name (sort items)) := by
  unfold collapseTree at h
  split at h
  · rename_i text i
    exact .inl ⟨text, i, rfl, (Option.some.inj h).symm⟩
  · rename_i hn
    exact .inr ⟨fun text i e => hn text i e, sortItems_eq h⟩

theorem collapse_ends (hs : ∀ items, (sort items).Perm items) {name : Str} {items : List GTree} {t} (h : collapseTree sort name items = some t) :
    t.ends.Perm (if endsAll items = [] then [name] else endsAll items) := by
  rcases collapseTree_cases h with ⟨text, i, rfl, rfl⟩ | ⟨_, rfl⟩
  · have := gtree_ends_ne i
    simp [GTree.ends, endsAll, this]
  · cases items with
    | nil =>
      have := (hs []).eq_nil
      simp [this, GTree.ends, endsAll]
    | cons i is =>
      have h1 : endsAll (i :: is) ≠ [] := by
        have := gtree_ends_ne i
        simp [endsAll, this]
      have h2 : (sort (i :: is)).isEmpty = false := by
        cases e : sort (i :: is) with
        | nil => have := (hs (i :: is)).length_eq; simp [e] at this
        | cons => rfl
      simp only [GTree.ends, h2, h1, Bool.false_eq_true, if_false]
      exact endsAll_perm (hs _)

mutual
theorem fromAst_ends (hs : ∀ items, (sort items).Perm items) : ∀ (a : Ast) (name : Str) (t : GTree), fromAst quote sort skip name a = some t → t.ends.Perm (a.ends quote skip name)
  | .leaf s, name, t, h => by
    simp only [fromAst, Option.map_eq_some_iff] at h
    obtain ⟨x, h, rfl⟩ := h
    simp [GTree.ends, Ast.ends, h]
  | .extra d, name, t, h => by
    simp only [fromAst, Option.some.injEq] at h
    subst h
    simp [GTree.ends, endsAll, Ast.ends]
  | .branch b, name, t, h => by
    simp only [fromAst, Option.bind_eq_some_iff] at h
    obtain ⟨ts, h1, h2⟩ := h
    have h3 := branchItems_ends hs b ts h1
    have h4 := collapse_ends hs h2
    simp only [Ast.ends]
    by_cases e : endsAll ts = []
    · rw [if_pos e] at h4
      rw [e] at h3
      rw [if_pos h3.symm.eq_nil]
      exact h4
    · rw [if_neg e] at h4
      rw [if_neg fun e' => e (by rw [e'] at h3; exact h3.eq_nil)]
      exact h4.trans h3
theorem branchItems_ends (hs : ∀ items, (sort items).Perm items) : ∀ (b : List (Str × Kids)) (ts : List GTree), branchItems quote sort skip b = some ts → (endsAll ts).Perm (branchEnds quote skip b)
  | [], ts, h => by
    simp only [branchItems, Option.some.injEq] at h
    subst h
    simp [endsAll, branchEnds]
  | (name, c) :: b, ts, h => by
    rcases branchItems_cons h with ⟨h1, h2⟩ | ⟨h1, us, vs, h2, h3, rfl⟩
    · simp only [branchEnds, if_pos h1, List.nil_append]
      exact branchItems_ends hs b ts h2
    · simp only [branchEnds, if_neg h1, endsAll_append]
      exact (kidsItems_ends hs c name us h2).append (branchItems_ends hs b vs h3)
theorem kidsItems_ends (hs : ∀ items, (sort items).Perm items) : ∀ (c : Kids) (name : Str) (ts : List GTree), kidsItems quote sort skip name c = some ts → (endsAll ts).Perm (c.ends quote skip name)
  | .one n, name, ts, h => by
    simp only [kidsItems, Option.map_eq_some_iff] at h
    obtain ⟨t, h, rfl⟩ := h
    simpa [endsAll, Kids.ends] using fromAst_ends hs n name t h
  | .many ns, name, ts, h => by
    simp only [kidsItems] at h
    exact manyItems_ends hs ns name ts h
theorem manyItems_ends (hs : ∀ items, (sort items).Perm items) : ∀ (ns : List Ast) (name : Str) (ts : List GTree), manyItems quote sort skip name ns = some ts → (endsAll ts).Perm (manyEnds quote skip name ns)
  | [], name, ts, h => by
    simp only [manyItems, Option.some.injEq] at h
    subst h
    simp [endsAll, manyEnds]
  | n :: ns, name, ts, h => by
    obtain ⟨t, us, h1, h2, rfl⟩ := manyItems_cons h
    exact (fromAst_ends hs n name t h1).append (manyItems_ends hs ns name us h2)
end

/-! ## No panics; order -/

theorem orderedAll_iff {ts : List GTree} : orderedAll ts ↔ ∀ t ∈ ts, t.Ordered := by
  induction ts with
  | nil => simp [orderedAll]
  | cons t ts ih => simp [orderedAll, ih]

theorem collapse_numbered {name : Str} {t : GTree} (h : ¬ Numbered name) : ¬ Numbered (collapseNodeText name t) := by
  have key : ∀ (ps : List Str) (i : Bool), ∃ rest, collapseParts name i ps = name :: rest := by
    intro ps
    induction ps with
    | nil => intro i; exact ⟨[], rfl⟩
    | cons p ps ih =>
      intro i
      simp only [collapseParts]
      split
      · exact ih true
      · exact ⟨_, rfl⟩
  obtain ⟨rest, e⟩ := key (splitSep collapsedNodeSep 0 t.text) false
  unfold collapseNodeText
  rw [e]
  rintro ⟨c, u, hc, h1, h2⟩
  simp only [separated] at hc
  cases name with
  | cons d name =>
    simp only [List.cons_append, List.cons.injEq] at hc
    exact h ⟨d, name, rfl, by rw [hc.1]; exact h1, by rw [hc.1]; exact h2⟩
  | nil =>
    cases rest with
    | nil => simp at hc
    | cons r rest =>
      simp only [List.nil_append, List.flatMap_cons, collapsedNodeSep, List.cons_append, List.cons.injEq] at hc
      rw [← hc.1] at h1
      exact absurd h1 (by decide)

theorem rank_le {t u : GTree} (ht : t.Sound) (hu : u.Sound) (h : t.rank.getD 0 ≤ u.rank.getD 0) : ∀ j k, First t.ends j → First u.ends k → j ≤ k := by
  intro j k hj hk
  obtain ⟨j', e1, e2, _⟩ := rank_first t ht
  obtain ⟨k', e3, e4, _⟩ := rank_first u hu
  rw [e1, e3] at h
  rw [hj.unique e2, hk.unique e4]
  exact h

theorem collapse_good (hs : SortsByRank sort) {name : Str} {items : List GTree} (h1 : ∀ t ∈ items, t.Sound) (h2 : ∀ t ∈ items, t.Ordered) :
    ∃ t, collapseTree sort name items = some t ∧ (¬ Numbered name → t.Sound) ∧ t.Ordered := by
  unfold collapseTree
  split
  · rename_i text i
    have h3 := h1 _ (List.mem_singleton.2 rfl)
    have h4 := h2 _ (List.mem_singleton.2 rfl)
    simp only [GTree.Sound, List.isEmpty_cons, Bool.false_eq_true, if_false, soundAll, GTree.Ordered, orderedAll] at h3 h4
    have hS : ¬ Numbered name → (GTree.mk (collapseNodeText name (.mk text [i])) [i]).Sound := by
      intro hn
      simp only [GTree.Sound, List.isEmpty_cons, Bool.false_eq_true, if_false, soundAll]
      exact ⟨collapse_numbered hn, h3.2⟩
    refine ⟨_, rfl, hS, ?_⟩
    simp only [GTree.Ordered, orderedAll]
    exact ⟨by simp, h4.2⟩
  · have hr : ∀ t ∈ items, t.rank ≠ none := fun t ht => by
      obtain ⟨k, e, _⟩ := rank_first t (h1 t ht)
      rw [e]; simp
    have hp := (hs items).1
    have hS : ¬ Numbered name → (GTree.mk name (sort items)).Sound := by
      intro hn
      simp only [GTree.Sound]
      have hp' : placeOf name = -1 := (StandsAt.nowhere hn).eq.symm
      split
      · rw [hp']; decide
      · exact ⟨hn, soundAll_iff.2 fun t ht => h1 t (hp.mem_iff.1 ht)⟩
    refine ⟨.mk name (sort items), ?_, hS, ?_⟩
    · unfold sortItems
      rw [if_neg]
      simp only [Bool.and_eq_true, List.any_eq_true, not_and, not_exists]
      intro _ t ht hn
      exact hr t ht (by simpa using hn)
    · simp only [GTree.Ordered]
      refine ⟨?_, orderedAll_iff.2 fun t ht => h2 t (hp.mem_iff.1 ht)⟩
      refine ((hs items).2 hr).imp_of_mem fun ht hu hle => ?_
      exact rank_le (h1 _ (hp.mem_iff.1 ht)) (h1 _ (hp.mem_iff.1 hu)) hle

theorem decimalAux_head : ∀ (f n : Nat), n < f → 0 < n → ∃ c ds, decimalAux f n = c :: ds ∧ 49 ≤ c ∧ c ≤ 57 ∧ ds.all isDigitByte = true := by
  intro f
  induction f with
  | zero => intro n h; omega
  | succ f ih =>
    intro n h hn
    have key : ∀ d < 10, isDigitByte (UInt8.ofNat (48 + d)) = true ∧ (0 < d → 49 ≤ UInt8.ofNat (48 + d) ∧ UInt8.ofNat (48 + d) ≤ 57) := by decide
    unfold decimalAux
    split
    · rename_i h10
      obtain ⟨h1, h2⟩ := (key n h10).2 hn
      exact ⟨_, [], rfl, h1, h2, rfl⟩
    · obtain ⟨c, ds, e, h1, h2, h3⟩ := ih (n / 10) (by omega) (by omega)
      refine ⟨c, ds ++ [UInt8.ofNat (48 + n % 10)], by rw [e]; rfl, h1, h2, ?_⟩
      simp only [List.all_append, h3, List.all_cons, (key (n % 10) (by omega)).1, List.all_nil, Bool.and_self]

theorem decimal_place {n : Nat} {s : Str} (hs : ∀ d t, s = d :: t → isDigitByte d = false) : StandsAt (decimal n ++ s) (if 0 < n then n else -1) := by
  by_cases hn : 0 < n
  · obtain ⟨c, ds, e, h1, h2, h3⟩ := decimalAux_head (n + 1) n (by omega) hn
    have hv : digits (decimalAux (n + 1) n) = n := (decimalAux_props (n + 1) n (by omega)).1
    have hd : digitsValue (c :: ds) = n := by rw [← e]; exact hv
    rw [if_pos hn]
    have := StandsAt.number h1 h2 h3 hs
    rw [hd] at this
    unfold decimal
    rw [e]
    exact this
  · have : n = 0 := by omega
    subst this
    refine .nowhere ?_
    rintro ⟨c, t, e, h1, _⟩
    simp only [decimal, decimalAux, show (0 : Nat) < 10 from by decide, if_true, List.cons_append, List.cons.injEq] at e
    rw [← e.1] at h1
    exact absurd h1 (by decide)

theorem leaf_place {s : Scanner} {t : Str} (h : leafString quote s = some t) : StandsAt t (if 0 < s.start then s.start else -1) := by
  unfold leafString at h
  simp only [Option.map_eq_some_iff] at h
  obtain ⟨x, _, rfl⟩ := h
  rw [List.append_assoc]
  generalize (if x.any isSpecial = true then quote x else if x.contains 34 = true then [96] ++ replaceByte 96 [96, 96] x ++ [96] else x) = y
  cases hs : s.start with
  | ofNat n =>
    have := decimal_place (n := n) (s := bullet ++ y) (fun d t e => by
      simp only [bullet, List.cons_append, List.cons.injEq] at e
      rw [← e.1]; decide)
    have e : (if 0 < n then (n : Int) else -1) = if 0 < Int.ofNat n then Int.ofNat n else -1 := by
      by_cases h : 0 < n
      · rw [if_pos h, if_pos (by simpa using h)]; rfl
      · rw [if_neg h, if_neg (by simpa using h)]
    rw [← e]
    exact this
  | negSucc n =>
    rw [if_neg (by omega)]
    refine .nowhere ?_
    rintro ⟨c, t, e, h1, _⟩
    simp only [intDecimal, List.cons_append, List.cons.injEq] at e
    rw [← e.1] at h1
    exact absurd h1 (by decide)

mutual
theorem fromAst_good (hs : SortsByRank sort) : ∀ (a : Ast) (name : Str), a.Viewable skip → ∃ t, fromAst quote sort skip name a = some t ∧ (¬ Numbered name → t.Sound) ∧ t.Ordered
  | .leaf s, name, h => by
    obtain ⟨⟨x, h1⟩, h2⟩ := h
    have : ∃ t, leafString quote s = some t := by simp [leafString, h1]
    obtain ⟨t, ht⟩ := this
    refine ⟨.mk t [], by simp [fromAst, ht], fun _ => ?_, by simp [GTree.Ordered, orderedAll]⟩
    simp only [GTree.Sound, List.isEmpty_nil, if_true]
    rw [← (leaf_place ht).eq]
    split
    · exact h2
    · decide
  | .extra d, name, h => by
    refine ⟨_, rfl, fun hn => ?_, by simp [GTree.Ordered, orderedAll]⟩
    simp only [GTree.Sound, List.isEmpty_cons, Bool.false_eq_true, if_false, soundAll, and_true, List.isEmpty_nil, if_true]
    refine ⟨hn, ?_⟩
    cases d with
    | choice i =>
      have h : i < 2 ^ 63 := h
      have := (decimal_place (n := i) (s := []) (by simp)).eq
      simp only [List.append_nil] at this
      simp only [Datum.string]
      rw [← this]
      split <;> omega
    | rule r => rw [← (StandsAt.nowhere (show ¬ Numbered (Datum.rule r).string from h)).eq]; decide
    | text r => rw [← (StandsAt.nowhere (show ¬ Numbered (Datum.text r).string from h)).eq]; decide
  | .branch b, name, h => by
    obtain ⟨ts, h1, h2, h3⟩ := branchItems_good hs b h
    obtain ⟨t, h4, h5⟩ := collapse_good hs (name := name) h2 h3
    exact ⟨t, by simp [fromAst, h1, h4], h5⟩
theorem branchItems_good (hs : SortsByRank sort) : ∀ (b : List (Str × Kids)), viewableBranch skip b → ∃ ts, branchItems quote sort skip b = some ts ∧ (∀ t ∈ ts, t.Sound) ∧ ∀ t ∈ ts, t.Ordered
  | [], h => ⟨[], rfl, by simp, by simp⟩
  | (name, c) :: b, h => by
    obtain ⟨ts, h1, h2, h3⟩ := branchItems_good hs b h.2
    by_cases hh : Hidden skip name
    · exact ⟨ts, by simp [branchItems, hidden_iff.2 hh, h1], h2, h3⟩
    · obtain ⟨hn, hc⟩ := h.1.resolve_left hh
      obtain ⟨us, h4, h5, h6⟩ := kidsItems_good hs c name hn hc
      refine ⟨us ++ ts, ?_, fun t ht => ?_, fun t ht => ?_⟩
      · simp only [branchItems]
        rw [if_neg (fun g => hh (hidden_iff.1 g)), h4, h1]
      · rcases List.mem_append.1 ht with ht | ht
        · exact h5 t ht
        · exact h2 t ht
      · rcases List.mem_append.1 ht with ht | ht
        · exact h6 t ht
        · exact h3 t ht
theorem kidsItems_good (hs : SortsByRank sort) : ∀ (c : Kids) (name : Str), ¬ Numbered name → c.Viewable skip →
    ∃ ts, kidsItems quote sort skip name c = some ts ∧ (∀ t ∈ ts, t.Sound) ∧ ∀ t ∈ ts, t.Ordered
  | .one n, name, hn, h => by
    obtain ⟨t, h1, h2, h3⟩ := fromAst_good hs n name h
    exact ⟨[t], by simp [kidsItems, h1], by simpa using h2 hn, by simpa using h3⟩
  | .many ns, name, hn, h => by
    simp only [kidsItems]
    exact manyItems_good hs ns name hn h
theorem manyItems_good (hs : SortsByRank sort) : ∀ (ns : List Ast) (name : Str), ¬ Numbered name → viewableAll skip ns →
    ∃ ts, manyItems quote sort skip name ns = some ts ∧ (∀ t ∈ ts, t.Sound) ∧ ∀ t ∈ ts, t.Ordered
  | [], name, _, _ => ⟨[], rfl, by simp, by simp⟩
  | n :: ns, name, hn, h => by
    obtain ⟨t, h1, h2, h3⟩ := fromAst_good hs n name h.1
    obtain ⟨ts, h4, h5, h6⟩ := manyItems_good hs ns name hn h.2
    refine ⟨t :: ts, by simp [manyItems, h1, h4], ?_, ?_⟩
    · simp only [List.forall_mem_cons]; exact ⟨h2 hn, h5⟩
    · simp only [List.forall_mem_cons]; exact ⟨h3, h6⟩
end

end Wbnf

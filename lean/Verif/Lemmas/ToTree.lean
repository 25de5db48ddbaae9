import Verif.Lemmas.FromTree
import Verif.Spec.Return

/-!
# ToParserNode puts a tree together again
-/

namespace Wbnf

/-! ## Pulling parts from a branch -/

theorem lookup_mapErase_ne {α : Type} {k k' : Str} (h : k' ≠ k) (m : List (Str × α)) : lookup k' (mapErase k m) = lookup k' m := by
  induction m with
  | nil => rfl
  | cons e m ih =>
    obtain ⟨a, x⟩ := e
    simp only [mapErase]
    by_cases e : a = k
    · subst e
      simp [lookup, Ne.symm h]
    · simp only [e, if_false, lookup, ih]

theorem mapErase_sub {α : Type} (k : Str) (m : List (Str × α)) : (mapErase k m).Sublist m := by
  induction m with
  | nil => exact .refl _
  | cons e m ih =>
    obtain ⟨a, x⟩ := e
    simp only [mapErase]
    split
    · exact List.sublist_cons_self ..
    · exact ih.cons_cons _

theorem lookup_mapErase_self {α : Type} {k : Str} {m : List (Str × α)} (h : (m.map Prod.fst).Nodup) : lookup k (mapErase k m) = none := by
  induction m with
  | nil => rfl
  | cons e m ih =>
    obtain ⟨a, x⟩ := e
    simp only [List.map_cons, List.nodup_cons] at h
    simp only [mapErase]
    by_cases e : a = k
    · subst e
      simp only [if_true]
      cases e : lookup a m with
      | none => rfl
      | some y => exact absurd (List.mem_map.2 ⟨_, lookup_mem e, rfl⟩) h.1
    · simp only [e, if_false, lookup, ih h.2]

/-- The branch has these parts, and a name stored alone has one at most. -/
def Keeps (κ : Str → Bool) (ps : List (Str × Ast)) (b : Branch) : Prop :=
  Holds κ ps b ∧ ∀ k, κ k = true → (partsNamed k ps).length ≤ 1

theorem Groups.keeps {t : Term} {ps : List (Str × Ast)} {b : Branch} (h : Groups t ps b) : Keeps (alone t) ps b := by
  have key : ∀ k, lookup k b = kidsOf (alone t k) (partsNamed k ps) ∧ (alone t k = true → (partsNamed k ps).length ≤ 1) := by
    intro k
    have hk := h.2 k
    cases hp : partsNamed k ps with
    | nil => rw [hp] at hk; exact ⟨hk, fun _ => Nat.zero_le _⟩
    | cons x xs =>
      rw [hp] at hk
      by_cases ha : alone t k = true
      · obtain ⟨e1, e2⟩ := hk.1 (alone_iff.1 ha)
        rw [ha, e1]
        exact ⟨e2, fun _ => Nat.le_refl _⟩
      · refine ⟨?_, fun h => absurd h ha⟩
        rw [hk.2 (fun h => ha (alone_iff.2 h))]
        simp [kidsOf, ha]
  exact ⟨⟨h.1, fun k => (key k).1⟩, fun k => (key k).2⟩

theorem pullOne_some {κ : Str → Bool} {d : Str} {x : Ast} {qs : List (Str × Ast)} {b : Branch} (hκ : κ d = true) (h : Keeps κ ((d, x) :: qs) b) :
    ∃ b', b.pullOne d = .ok (some x, b') ∧ Keeps κ qs b' := by
  have hl := h.1.2 d
  have h1 := h.2 d hκ
  rw [partsNamed_cons, if_pos rfl, List.singleton_append] at hl h1
  have hq : partsNamed d qs = [] := List.length_eq_zero_iff.1 (by simp only [List.length_cons] at h1; omega)
  rw [hκ] at hl
  refine ⟨mapErase d b, by simp [Branch.pullOne, hl, kidsOf], ⟨?_, fun k => ?_⟩, fun k hk => ?_⟩
  · exact ((mapErase_sub d b).map _).nodup h.1.1
  · by_cases e : k = d
    · subst e
      rw [lookup_mapErase_self h.1.1, hq]; rfl
    · rw [lookup_mapErase_ne e, h.1.2 k, partsNamed_cons, if_neg (Ne.symm e), List.nil_append]
  · have := h.2 k hk
    rw [partsNamed_cons, List.length_append] at this
    omega

theorem pullMany_some {κ : Str → Bool} {d : Str} {x : Ast} {qs : List (Str × Ast)} {b : Branch} (hκ : ¬ κ d = true) (h : Keeps κ ((d, x) :: qs) b) :
    ∃ b', b.pullMany d = .ok (some x, b') ∧ Keeps κ qs b' := by
  have hl := h.1.2 d
  rw [partsNamed_cons, if_pos rfl, List.singleton_append] at hl
  simp only [kidsOf, hκ, if_false, Bool.false_eq_true] at hl
  have hlen : ∀ k, κ k = true → (partsNamed k qs).length ≤ 1 := fun k hk => by
    have := h.2 k hk
    rw [partsNamed_cons, List.length_append] at this
    omega
  cases hq : partsNamed d qs with
  | nil =>
    rw [hq] at hl
    refine ⟨mapErase d b, by simp [Branch.pullMany, hl], ⟨?_, fun k => ?_⟩, hlen⟩
    · exact ((mapErase_sub d b).map _).nodup h.1.1
    · by_cases e : k = d
      · subst e
        rw [lookup_mapErase_self h.1.1, hq]; rfl
      · rw [lookup_mapErase_ne e, h.1.2 k, partsNamed_cons, if_neg (Ne.symm e), List.nil_append]
  | cons y ys =>
    rw [hq] at hl
    refine ⟨mapSet d (.many (y :: ys)) b, by simp [Branch.pullMany, hl], ⟨(mapSet_keys h.1.1).1, fun k => ?_⟩, hlen⟩
    by_cases e : k = d
    · subst e
      rw [lookup_mapSet_self, hq]
      simp [kidsOf, hκ]
    · rw [lookup_mapSet_ne e, h.1.2 k, partsNamed_cons, if_neg (Ne.symm e), List.nil_append]

theorem Coherent.pull_some {hi ctrs κ} {c d : Str} {ns : List (Str × Str)} {x : Ast} {qs : List (Str × Ast)} {b : Branch} (hc : Coherent ns hi ctrs κ) (hm : (c, d) ∈ ns)
    (h : Keeps κ ((d, x) :: qs) b) : ∃ b', b.pull d (ctrs.get c) = .ok (some x, b') ∧ Keeps κ qs b' := by
  obtain ⟨h1, h2, _⟩ := hc.2.2 (c, d) hm
  unfold Branch.pull
  rw [if_neg h1]
  by_cases e : κ d = true
  · rw [if_pos (h2.1 e)]
    exact pullOne_some e h
  · rw [if_neg (fun h => e (h2.2 h))]
    exact pullMany_some e h

theorem Coherent.pull_none {hi ctrs κ} {c d : Str} {ns : List (Str × Str)} {b : Branch} (hc : Coherent ns hi ctrs κ) (hm : (c, d) ∈ ns)
    (h : lookup d b = none) : b.pull d (ctrs.get c) = .ok (none, b) := by
  obtain ⟨h1, _, _⟩ := hc.2.2 (c, d) hm
  unfold Branch.pull
  rw [if_neg h1]
  split
  · simp [Branch.pullOne, h]
  · simp [Branch.pullMany, h]

theorem Keeps.none {κ : Str → Bool} {ps : List (Str × Ast)} {b : Branch} {k : Str} (h : Keeps κ ps b) (hk : ∀ p ∈ ps, p.1 ≠ k) : lookup k b = none := by
  rw [h.1.2 k]
  have : partsNamed k ps = [] := by
    unfold partsNamed
    simp only [List.map_eq_nil_iff, List.filter_eq_nil_iff, decide_eq_true_eq]
    exact hk
  rw [this]; rfl

/-- The counters store each part alone exactly where `κ` says so. -/
def Fits (ns : List (Str × Str)) (ctrs : Counters) (κ : Str → Bool) : Prop := Coherent ns (fun _ => 0) ctrs κ

theorem Fits.part {ns ms : List (Str × Str)} {ctrs : Counters} {κ : Str → Bool} (h : Fits ns ctrs κ) (hs : ∀ p ∈ ms, p ∈ ns) : Fits ms ctrs κ :=
  Coherent.mono h hs (fun _ => Nat.le_refl _)

theorem Fits.pull_none {ctrs κ} {c d : Str} {ns : List (Str × Str)} {b : Branch} (hc : Fits ns ctrs κ) (hm : (c, d) ∈ ns)
    (h : lookup d b = none) : b.pull d (ctrs.get c) = .ok (none, b) := Coherent.pull_none hc hm h

theorem Fits.pull_some {ctrs κ} {c d : Str} {ns : List (Str × Str)} {x : Ast} {qs : List (Str × Ast)} {b : Branch} (hc : Fits ns ctrs κ) (hm : (c, d) ∈ ns)
    (h : Keeps κ ((d, x) :: qs) b) : ∃ b', b.pull d (ctrs.get c) = .ok (some x, b') ∧ Keeps κ qs b' := Coherent.pull_some hc hm h

theorem fits_new {t : Term} (hn : t.NamesApart) (hd : t.Deep Term.Converts) :
    ∃ ctrs, newCounters (some t) = .ok ctrs ∧ Fits t.partNames ctrs (alone t) := by
  obtain ⟨ctrs, h1, h2⟩ := coherent_new hn hd
  exact ⟨ctrs, h1, h2.mono (fun _ h => h) (fun _ => Nat.zero_le _)⟩

/-! ## Terms that are missing -/

theorem toTree_quant {n : Nat} {t : Term} {lo hi : Nat} {ctrs : Counters} {g : Grammar} {b : Branch} :
    toTree (n + 1) (.quant t lo hi) ctrs g b = toQuant (toTree n t ctrs) lo hi n g b [] := rfl

theorem toTree_delim {n : Nat} {t sep : Term} {a : Int} {cs ce : Bool} {ctrs : Counters} {g : Grammar} {b : Branch} :
    toTree (n + 1) (.delim t sep a cs ce) ctrs g b = toDelim (fun t g b => toTree n t ctrs g b) t sep n false g b [] := rfl

theorem toQuant_end {f : Grammar → Branch → ToRes} {lo hi k : Nat} {g g' : Grammar} {b b' : Branch} {acc : List Tree} (h : f g b = .ok (none, g', b'))
    (h1 : lo ≤ acc.length) (h2 : hi = 0 ∨ acc.length ≤ hi) : toQuant f lo hi (k + 1) g b acc = .ok (some (.node quantTag .nil acc), g', b') := by
  have : ¬ (0 < hi ∧ hi < acc.length) := by omega
  simp only [toQuant, this, if_false, h, Except.bind, h1, not_false_eq_true, and_self, if_true]

theorem toQuant_more {f : Grammar → Branch → ToRes} {lo hi k : Nat} {g g' : Grammar} {b b' : Branch} {acc : List Tree} {v : Tree} (h : f g b = .ok (some v, g', b'))
    (h2 : hi = 0 ∨ acc.length ≤ hi) : toQuant f lo hi (k + 1) g b acc = toQuant f lo hi k g' b' (acc ++ [v]) := by
  have : ¬ (0 < hi ∧ hi < acc.length) := by omega
  simp only [toQuant, this, if_false, h, Except.bind]

mutual
theorem Term.missing {G : Grammar} : (t : Term) → ∀ {K}, t.signs = some K → t.Deep Term.Converts →
    ∃ N, ∀ n, N ≤ n → ∀ ctrs κ b, (∀ k ∈ K, lookup k b = none) → Fits t.partNames ctrs κ → toTree n t ctrs G b = .ok (none, G, b)
  | .s l, K, hK, _ => ⟨1, fun n hn ctrs κ b h hc => by
      obtain ⟨n, rfl⟩ : ∃ k, n = k + 1 := ⟨n - 1, by omega⟩
      simp only [Term.signs, Option.some.injEq] at hK
      simp only [toTree, hc.pull_none (c := []) (d := []) (by simp [Term.partNames]) (h [] (by simp [← hK])), Except.bind]⟩
  | .re l, K, hK, _ => ⟨1, fun n hn ctrs κ b h hc => by
      obtain ⟨n, rfl⟩ : ∃ k, n = k + 1 := ⟨n - 1, by omega⟩
      simp only [Term.signs, Option.some.injEq] at hK
      simp only [toTree, hc.pull_none (c := []) (d := []) (by simp [Term.partNames]) (h [] (by simp [← hK])), Except.bind]⟩
  | .rule r, K, hK, hd => ⟨1, fun n hn ctrs κ b h hc => by
      obtain ⟨n, rfl⟩ : ∃ k, n = k + 1 := ⟨n - 1, by omega⟩
      obtain ⟨name, hname⟩ : ShowsName r := hd
      have hs : shownName r = name := by simp [shownName, hname]
      simp only [Term.signs, Option.some.injEq] at hK
      simp only [toTree, hname, Except.bind, hc.pull_none (c := r) (d := name) (by simp [Term.partNames, hs]) (h name (by simp [← hK, hs]))]⟩
  | .named x t, K, hK, hd => ⟨1, fun n hn ctrs κ b h hc => by
      obtain ⟨n, rfl⟩ : ∃ k, n = k + 1 := ⟨n - 1, by omega⟩
      simp only [Term.signs, Option.some.injEq] at hK
      obtain ⟨ctrs', h1, _⟩ := coherent_new (t := t) hd.1 hd.2
      simp only [toTree, h1, Except.bind, hc.pull_none (c := x) (d := x) (by simp [Term.partNames]) (h x (by simp [← hK]))]⟩
  | .oneof ts, K, hK, _ => ⟨1, fun n hn ctrs κ b h hc => by
      obtain ⟨n, rfl⟩ : ∃ k, n = k + 1 := ⟨n - 1, by omega⟩
      simp only [Term.signs, Option.some.injEq] at hK
      simp only [toTree, Branch.pullMany, h choiceTag (by simp [← hK]), Except.bind]⟩
  | .cut t, K, hK, hd => by
      obtain ⟨N, hN⟩ := t.missing (G := G) (K := K) (by simpa only [Term.signs] using hK) hd.2
      refine ⟨N + 1, fun n hn ctrs κ b h hc => ?_⟩
      obtain ⟨n, rfl⟩ : ∃ k, n = k + 1 := ⟨n - 1, by omega⟩
      simp only [toTree]
      exact hN n (by omega) ctrs κ b h hc
  | .seq ts, K, hK, hd => by
      obtain ⟨N, hN⟩ := Term.missingSeq (G := G) ts (K := K) (by simpa only [Term.signs] using hK) hd.2
      refine ⟨N + 1, fun n hn ctrs κ b h hc => ?_⟩
      obtain ⟨n, rfl⟩ : ∃ k, n = k + 1 := ⟨n - 1, by omega⟩
      simp only [toTree]
      exact hN n (by omega) ctrs κ b h hc []
  | .ref _ _, _, hK, _ => by simp [Term.signs] at hK
  | .ext _, _, hK, _ => by simp [Term.signs] at hK
  | .look _, _, hK, _ => by simp [Term.signs] at hK
  | .scope _ _, _, hK, _ => by simp [Term.signs] at hK
  | .quant _ _ _, _, hK, _ => by simp [Term.signs] at hK
  | .delim _ _ _ _ _, _, hK, _ => by simp [Term.signs] at hK
  | .stack _, _, hK, _ => by simp [Term.signs] at hK
theorem Term.missingSeq {G : Grammar} : (ts : List Term) → ∀ {K}, Term.signs.signsSeq ts = some K → deepList Term.Converts ts →
    ∃ N, ∀ n, N ≤ n → ∀ ctrs κ b, (∀ k ∈ K, lookup k b = none) → Fits (Term.partNames.names ts) ctrs κ → ∀ acc, toSeq (fun t g b => toTree n t ctrs g b) ts G b acc = .ok (none, G, b)
  | [], _, hK, _ => by simp [Term.signs.signsSeq] at hK
  | .quant t lo hi :: ts, K, hK, hd => by
      cases lo with
      | zero =>
        simp only [Term.signs.signsSeq] at hK
        cases e1 : t.signs with
        | none => simp [e1] at hK
        | some K1 =>
          cases e2 : Term.signs.signsSeq ts with
          | none => simp [e1, e2] at hK
          | some K2 =>
            simp only [e1, e2, Option.some.injEq] at hK
            obtain ⟨N, hN⟩ := t.missing (G := G) e1 hd.1.2
            obtain ⟨M, hM⟩ := Term.missingSeq (G := G) ts e2 hd.2
            refine ⟨max N M + 2, fun n hn ctrs κ b h hc acc => ?_⟩
            have hm := hM n (by omega) ctrs κ b (fun k hk => h k (by simp [← hK, hk])) (hc.part (fun p hp => by simp [Term.partNames.names, hp]))
            obtain ⟨n, rfl⟩ : ∃ k, n = k + 2 := ⟨n - 2, by omega⟩
            simp only [toSeq]
            rw [toTree_quant, toQuant_end (hN (n + 1) (by omega) ctrs κ b (fun k hk => h k (by simp [← hK, hk])) (hc.part (fun p hp => by simp [Term.partNames.names, Term.partNames, hp]))) (Nat.zero_le _) (.inr (Nat.zero_le _))]
            exact hm _
      | succ lo => simp [Term.signs.signsSeq, Term.signs] at hK
  | .s l :: ts, K, hK, hd => by
      obtain ⟨N, hN⟩ := (Term.s l).missing (G := G) (K := K) (by simpa only [Term.signs.signsSeq] using hK) hd.1
      exact ⟨N, fun n hn ctrs κ b h hc acc => by
        simp only [toSeq]
        rw [hN n hn ctrs κ b h (hc.part (fun p hp => by simp [Term.partNames.names, hp]))]
        rfl⟩
  | .re l :: ts, K, hK, hd => by
      obtain ⟨N, hN⟩ := (Term.re l).missing (G := G) (K := K) (by simpa only [Term.signs.signsSeq] using hK) hd.1
      exact ⟨N, fun n hn ctrs κ b h hc acc => by
        simp only [toSeq]
        rw [hN n hn ctrs κ b h (hc.part (fun p hp => by simp [Term.partNames.names, hp]))]
        rfl⟩
  | .rule r :: ts, K, hK, hd => by
      obtain ⟨N, hN⟩ := (Term.rule r).missing (G := G) (K := K) (by simpa only [Term.signs.signsSeq] using hK) hd.1
      exact ⟨N, fun n hn ctrs κ b h hc acc => by
        simp only [toSeq]
        rw [hN n hn ctrs κ b h (hc.part (fun p hp => by simp [Term.partNames.names, hp]))]
        rfl⟩
  | .named x t :: ts, K, hK, hd => by
      obtain ⟨N, hN⟩ := (Term.named x t).missing (G := G) (K := K) (by simpa only [Term.signs.signsSeq] using hK) hd.1
      exact ⟨N, fun n hn ctrs κ b h hc acc => by
        simp only [toSeq]
        rw [hN n hn ctrs κ b h (hc.part (fun p hp => by simp [Term.partNames.names, hp]))]
        rfl⟩
  | .oneof us :: ts, K, hK, hd => by
      obtain ⟨N, hN⟩ := (Term.oneof us).missing (G := G) (K := K) (by simpa only [Term.signs.signsSeq] using hK) hd.1
      exact ⟨N, fun n hn ctrs κ b h hc acc => by
        simp only [toSeq]
        rw [hN n hn ctrs κ b h (hc.part (fun p hp => by simp [Term.partNames.names, hp]))]
        rfl⟩
  | .cut t :: ts, K, hK, hd => by
      obtain ⟨N, hN⟩ := (Term.cut t).missing (G := G) (K := K) (by simpa only [Term.signs.signsSeq] using hK) hd.1
      exact ⟨N, fun n hn ctrs κ b h hc acc => by
        simp only [toSeq]
        rw [hN n hn ctrs κ b h (hc.part (fun p hp => by simp [Term.partNames.names, hp]))]
        rfl⟩
  | .seq us :: ts, K, hK, hd => by
      obtain ⟨N, hN⟩ := (Term.seq us).missing (G := G) (K := K) (by simpa only [Term.signs.signsSeq] using hK) hd.1
      exact ⟨N, fun n hn ctrs κ b h hc acc => by
        simp only [toSeq]
        rw [hN n hn ctrs κ b h (hc.part (fun p hp => by simp [Term.partNames.names, hp]))]
        rfl⟩
  | .ref i d :: ts, K, hK, hd => by
      obtain ⟨N, hN⟩ := (Term.ref i d).missing (G := G) (K := K) (by simpa only [Term.signs.signsSeq] using hK) hd.1
      exact ⟨N, fun n hn ctrs κ b h hc acc => by
        simp only [toSeq]
        rw [hN n hn ctrs κ b h (hc.part (fun p hp => by simp [Term.partNames.names, hp]))]
        rfl⟩
  | .ext i :: ts, K, hK, hd => by
      obtain ⟨N, hN⟩ := (Term.ext i).missing (G := G) (K := K) (by simpa only [Term.signs.signsSeq] using hK) hd.1
      exact ⟨N, fun n hn ctrs κ b h hc acc => by
        simp only [toSeq]
        rw [hN n hn ctrs κ b h (hc.part (fun p hp => by simp [Term.partNames.names, hp]))]
        rfl⟩
  | .look t :: ts, K, hK, hd => by
      obtain ⟨N, hN⟩ := (Term.look t).missing (G := G) (K := K) (by simpa only [Term.signs.signsSeq] using hK) hd.1
      exact ⟨N, fun n hn ctrs κ b h hc acc => by
        simp only [toSeq]
        rw [hN n hn ctrs κ b h (hc.part (fun p hp => by simp [Term.partNames.names, hp]))]
        rfl⟩
  | .scope t g :: ts, K, hK, hd => by
      obtain ⟨N, hN⟩ := (Term.scope t g).missing (G := G) (K := K) (by simpa only [Term.signs.signsSeq] using hK) hd.1
      exact ⟨N, fun n hn ctrs κ b h hc acc => by
        simp only [toSeq]
        rw [hN n hn ctrs κ b h (hc.part (fun p hp => by simp [Term.partNames.names, hp]))]
        rfl⟩
  | .delim t u a cs ce :: ts, K, hK, hd => by
      obtain ⟨N, hN⟩ := (Term.delim t u a cs ce).missing (G := G) (K := K) (by simpa only [Term.signs.signsSeq] using hK) hd.1
      exact ⟨N, fun n hn ctrs κ b h hc acc => by
        simp only [toSeq]
        rw [hN n hn ctrs κ b h (hc.part (fun p hp => by simp [Term.partNames.names, hp]))]
        rfl⟩
  | .stack us :: ts, K, hK, hd => by
      obtain ⟨N, hN⟩ := (Term.stack us).missing (G := G) (K := K) (by simpa only [Term.signs.signsSeq] using hK) hd.1
      exact ⟨N, fun n hn ctrs κ b h hc acc => by
        simp only [toSeq]
        rw [hN n hn ctrs κ b h (hc.part (fun p hp => by simp [Term.partNames.names, hp]))]
        rfl⟩
end

/-! ## Tags -/

/-- The tag of the node of the term where no rule or name gives it one. -/
def Term.topTag : Term → Str
  | .rule r => r
  | .named n _ => n
  | .cut t => t.topTag
  | .seq _ => seqTag
  | .oneof _ => oneofTag
  | .quant _ _ _ => quantTag
  | .delim _ _ _ _ _ => delimTag
  | _ => []

theorem relabel_relabel (x y : Str) (v : Tree) : relabel x (relabel y v) = relabel x v := by cases v <;> rfl

/-- The trees differ at most in their top tag. -/
def SameBut (w v : Tree) : Prop := ∀ x, relabel x w = relabel x v

theorem SameBut.node {tag tag' x x' vs vs'} (h : SameBut (.node tag x vs) (.node tag' x' vs')) : x = x' ∧ vs = vs' := by
  have := h []
  simp only [relabel, Tree.node.injEq, true_and] at this
  exact this

theorem own_tag {Γ rule v} : {t : Term} → t.Own → t.Deep Term.Converts → Conforms Γ rule t v → v = relabel (ruleOrAlt rule t.topTag) v
  | .s _, _, _, h => by cases h; rfl
  | .re _, _, _, h => by cases h; rfl
  | .seq _, _, _, h => by cases h; rfl
  | .oneof _, _, _, h => by cases h; rfl
  | .quant _ _ _, _, _, h => by cases h; rfl
  | .delim _ _ _ _ _, _, hd, h => by
    cases h with
    | delim _ _ _ _ _ _ _ hn =>
      cases hn with
      | flat _ => rfl
      | left e _ => exact absurd e hd.1.1
      | right e _ => exact absurd e hd.1.2.1
  | .cut t, ho, hd, h => by
    cases h with
    | cut h => exact own_tag (t := t) ho hd.2 h

theorem own_retag {Γ rule v} : {t : Term} → t.Own → t.Deep Term.Converts → Conforms Γ rule t v → ∀ rule', ∃ w, Conforms Γ rule' t w ∧ SameBut w v
  | .s _, _, _, h, rule' => by cases h; exact ⟨_, .lit, fun _ => rfl⟩
  | .re _, _, _, h, rule' => by cases h; exact ⟨_, .regexp, fun _ => rfl⟩
  | .seq _, _, _, h, rule' => by
    cases h with
    | seq h1 h2 => exact ⟨_, .seq h1 h2, fun _ => rfl⟩
  | .oneof _, _, _, h, rule' => by
    cases h with
    | oneof h1 h2 => exact ⟨_, .oneof h1 h2, fun _ => rfl⟩
  | .quant _ _ _, _, _, h, rule' => by
    cases h with
    | quant h1 h2 h3 => exact ⟨_, .quant h1 h2 h3, fun _ => rfl⟩
  | .delim _ _ _ _ _, _, hd, h, rule' => by
    cases h with
    | delim a b c d e f g hn =>
      cases hn with
      | flat hf => exact ⟨_, .delim a b c d e f g (.flat hf), fun _ => rfl⟩
      | left e _ => exact absurd e hd.1.1
      | right e _ => exact absurd e hd.1.2.1
  | .cut t, ho, hd, h, rule' => by
    cases h with
    | cut h =>
      obtain ⟨w, h1, h2⟩ := own_retag (t := t) ho hd.2 h rule'
      exact ⟨w, .cut h1, h2⟩

theorem Defines.own {G : Grammar} {r : Str} {t : Term} (hR : G.Readable) (h : Defines G r t) : t.Own := by
  induction h with
  | here hl hn =>
    rcases (hR _ _ (lookup_mem hl)).2.1 with h | ⟨s, h⟩
    · exact h
    · exact absurd h (hn s)
  | «alias» _ _ ih => exact ih

theorem Defines.named {G : Grammar} {r : Str} {t : Term} (hR : G.Readable) (h : Defines G r t) : r ≠ [] := by
  cases h with
  | here hl _ => exact (hR _ _ (lookup_mem hl)).1
  | «alias» hl _ => exact (hR _ _ (lookup_mem hl)).1

/-- A tree below another has the tag of its term. -/
theorem top_tag {G : Grammar} (hG : G.Convertible) (hR : G.Readable) {v : Tree} : {t : Term} → ∀ {later}, t.Readable later → t.Deep Term.Converts →
    Conforms [G] [] t v → v = relabel t.topTag v
  | .rule r, _, _, _, h => by
    cases h with
    | rule hr h =>
      obtain ⟨rfl, hd⟩ := resolves_top hr
      obtain ⟨k, hk⟩ := hd.mem
      have := own_tag (hd.own hR) (deepDefs_iff.1 hG.deep k _ hk) h
      rwa [ruleOrAlt, if_neg (hd.named hR)] at this
  | .named n t, _, hr, hd, h => by
    cases h with
    | named h =>
      have := own_tag hr.2.1 hd.2 h
      rwa [ruleOrAlt, if_neg hr.1] at this
  | .cut t, _, hr, hd, h => by
    cases h with
    | cut h => exact top_tag hG hR (t := t) hr hd.2 h
  | .s a, _, _, hd, h => own_tag (t := .s a) trivial hd h
  | .re a, _, _, hd, h => own_tag (t := .re a) trivial hd h
  | .seq a, _, _, hd, h => own_tag (t := .seq a) trivial hd h
  | .oneof a, _, _, hd, h => own_tag (t := .oneof a) trivial hd h
  | .quant a b c, _, _, hd, h => own_tag (t := .quant a b c) trivial hd h
  | .delim a b c d e, _, _, hd, h => own_tag (t := .delim a b c d e) trivial hd h

/-- The tree of a rule is the tree of its definition but for the tag. -/
theorem Conforms.definition {G : Grammar} (hG : G.Convertible) (hR : G.Readable) {rule r : Str} {t : Term} {w : Tree} (hl : lookup r G = some t)
    (h : Conforms [G] rule (.rule r) w) : ∃ rule' w', Conforms [G] rule' t w' ∧ SameBut w' w := by
  cases h with
  | rule hres hcf =>
    obtain ⟨rfl, hdef⟩ := resolves_top hres
    obtain ⟨k, hk⟩ := hdef.mem
    cases hdef with
    | here hl' _ =>
      rw [hl] at hl'
      cases hl'
      exact ⟨_, _, hcf, fun _ => rfl⟩
    | «alias» hl' hdef =>
      rename_i s
      rw [hl] at hl'
      cases hl'
      obtain ⟨w', h1, h2⟩ := own_retag (hdef.own hR) (deepDefs_iff.1 hG.deep k _ hk) hcf s
      exact ⟨[], w', .rule (.here hdef) h1, h2⟩

/-! ## Names of parts -/

theorem mem_keysAll {t : Term} {ts : List Term} {k : Str} (h : t ∈ ts) (hk : k ∈ t.keys) : k ∈ Term.keys.keysAll ts := by
  induction ts with
  | nil => simp at h
  | cons a ts ih =>
    simp only [Term.keys.keysAll, List.mem_append]
    rcases List.mem_cons.1 h with e | h
    · left; rwa [← e]
    · right; exact ih h

mutual
theorem PartsOf.names {G : Grammar} {t v ps} : PartsOf G t v ps → ∀ p ∈ ps, p.1 ∈ t.keys
  | .lit => by simp [Term.keys]
  | .regexp => by simp [Term.keys]
  | .rule _ _ _ => by simp [Term.keys]
  | .named _ _ => by simp [Term.keys]
  | .cut h => h.names
  | .scope h => h.names
  | .look h => h.names
  | .seq h => h.names
  | .oneof hm h => by
    intro p hp
    simp only [Term.keys, List.mem_cons] at hp ⊢
    rcases hp with rfl | hp
    · exact .inl rfl
    · exact .inr (mem_keysAll (List.mem_of_getElem? hm) (h.names p hp))
  | .quant _ h => h.names
  | .delim h h' => by
    intro p hp
    simp only [Term.keys, List.mem_append, List.mem_cons] at hp ⊢
    rcases hp with hp | hp
    · exact .inr (.inl (h.names p hp))
    · have := h'.names p hp
      simpa only [List.mem_append, List.mem_cons] using this
  | .delimLead _ h => by
    intro p hp
    simp only [Term.keys, List.mem_append, List.mem_cons] at hp ⊢
    rcases hp with rfl | hp
    · exact .inl rfl
    · have := h.names p hp
      simpa only [List.mem_append, List.mem_cons] using this
  | .refLeaf => by simp [Term.keys]
  | .refNode _ _ => by simp [Term.keys]
theorem PartsSeq.names {G : Grammar} {ts vs ps} : PartsSeq G ts vs ps → ∀ p ∈ ps, p.1 ∈ Term.keys.keysAll ts
  | .nil => by simp
  | .cons h h' => by
    intro p hp
    simp only [Term.keys.keysAll, List.mem_append] at hp ⊢
    exact hp.imp (h.names p) (h'.names p)
theorem PartsReps.names {G : Grammar} {t vs ps} : PartsReps G t vs ps → ∀ p ∈ ps, p.1 ∈ t.keys
  | .nil => by simp
  | .cons h h' => by
    intro p hp
    exact (List.mem_append.1 hp).elim (h.names p) (h'.names p)
theorem PartsList.names {G : Grammar} {t sep vs ps} : PartsList G t sep vs ps → ∀ p ∈ ps, p.1 ∈ emptyTag :: (t.keys ++ sep.keys)
  | .nil => by simp
  | .cons h h' h'' => by
    intro p hp
    simp only [List.mem_append] at hp
    rcases hp with (hp | hp) | hp
    · have := h.names p hp; simp [this]
    · have := h'.names p hp; simp [this]
    · exact h''.names p hp
  | .trail h => by
    intro p hp
    simp only [List.mem_append, List.mem_singleton] at hp
    rcases hp with hp | rfl
    · have := h.names p hp; simp [this]
    · simp
end

/-! ## Putting the tree together -/

/-- The branch with these parts, then parts with the later names, gives the tree, and the later parts are left. -/
def Back (G : Grammar) (t : Term) (ps : List (Str × Ast)) (later : List Str) (v : Tree) : Prop :=
  ∃ N, ∀ n, N ≤ n → ∀ ctrs κ qs b, Fits t.partNames ctrs κ → (∀ q ∈ qs, q.1 ∈ later) → Keeps κ (ps ++ qs) b →
    ∃ b', toTree n t ctrs G b = .ok (some v, G, b') ∧ Keeps κ qs b'

theorem Term.TellsFrom.missing {t : Term} {later : List Str} {G : Grammar} (ht : t.TellsFrom later) (hd : t.Deep Term.Converts) :
    ∃ N, ∀ n, N ≤ n → ∀ ctrs κ qs b, (∀ q ∈ qs, q.1 ∈ later) → Keeps κ qs b → Fits t.partNames ctrs κ → toTree n t ctrs G b = .ok (none, G, b) := by
  obtain ⟨K, h1, h2⟩ := ht
  obtain ⟨N, hN⟩ := t.missing (G := G) h1 hd
  exact ⟨N, fun n hn ctrs κ qs b hq hk hc => hN n hn ctrs κ b (fun k hK => hk.none (fun p hp e => h2 k hK (e ▸ hq p hp))) hc⟩

mutual
/-- Terms that can be read back have no grammars in braces. -/
theorem Term.Readable.braces {G : Grammar} : (t : Term) → ∀ {later}, t.Readable later → t.Deep (Term.BracesIn G)
  | .s _, _, _ => trivial
  | .re _, _, _ => trivial
  | .rule _, _, _ => trivial
  | .named _ t, _, h => ⟨trivial, Term.Readable.braces t h.2.2⟩
  | .cut t, _, h => ⟨trivial, Term.Readable.braces t h⟩
  | .seq ts, _, h => ⟨trivial, readableSeq_braces ts h⟩
  | .oneof ts, _, h => ⟨trivial, readableAll_braces ts h⟩
  | .quant t _ _, _, h => ⟨trivial, Term.Readable.braces t h.2⟩
  | .delim t sep _ _ _, _, h => ⟨trivial, Term.Readable.braces t h.2.2.2.1, Term.Readable.braces sep h.2.2.2.2⟩
theorem readableSeq_braces {G : Grammar} : (ts : List Term) → ∀ {later}, Term.Readable.readableSeq later ts → deepList (Term.BracesIn G) ts
  | [], _, _ => trivial
  | t :: ts, _, h => ⟨Term.Readable.braces t h.1, readableSeq_braces ts h.2⟩
theorem readableAll_braces {G : Grammar} : (ts : List Term) → ∀ {later}, Term.Readable.readableAll later ts → deepList (Term.BracesIn G) ts
  | [], _, _ => trivial
  | t :: ts, _, h => ⟨Term.Readable.braces t h.1, readableAll_braces ts h.2⟩
end

mutual
theorem PartsOf.back {G : Grammar} (hG : G.Convertible) (hR : G.Readable) {t v ps} : PartsOf G t v ps → ∀ {rule w later}, Conforms [G] rule t w → SameBut w v →
    t.Readable later → t.Deep Term.Converts → Back G t ps later (relabel t.topTag v)
  | .lit, _, _, _, _, _, _, _ => ⟨1, fun n hn ctrs κ qs b hc _ hk => by
      obtain ⟨n, rfl⟩ : ∃ k, n = k + 1 := ⟨n - 1, by omega⟩
      obtain ⟨b', h1, h2⟩ := hc.pull_some (c := []) (d := []) (by simp [Term.partNames]) hk
      exact ⟨b', by simp only [toTree, h1, Except.bind, relabel], h2⟩⟩
  | .regexp, _, _, _, _, _, _, _ => ⟨1, fun n hn ctrs κ qs b hc _ hk => by
      obtain ⟨n, rfl⟩ : ∃ k, n = k + 1 := ⟨n - 1, by omega⟩
      obtain ⟨b', h1, h2⟩ := hc.pull_some (c := []) (d := []) (by simp [Term.partNames]) hk
      exact ⟨b', by simp only [toTree, h1, Except.bind, relabel], h2⟩⟩
  | @PartsOf.rule _ r t v ps b2 hl h hg, rule, w, later, hcf, hw, hr, hd => by
      have hm := lookup_mem hl
      have hdt := deepDefs_iff.1 hG.deep _ _ hm
      obtain ⟨rule', w', hcf', hw''⟩ := hcf.definition hG hR hl
      have hw' : SameBut w' v := fun x => (hw'' x).trans (hw x)
      obtain ⟨N, hN⟩ := h.back hG hR hcf' hw' (hR _ _ hm).2.2 hdt
      obtain ⟨ctrs', hn1, hn2⟩ := fits_new (hG.apart _ _ hm) hdt
      refine ⟨N + 1, fun n hn ctrs κ qs b hc _ hk => ?_⟩
      obtain ⟨n, rfl⟩ : ∃ k, n = k + 1 := ⟨n - 1, by omega⟩
      obtain ⟨name, hname⟩ : ShowsName r := hd
      have hs : shownName r = name := by simp [shownName, hname]
      rw [hs] at hk
      obtain ⟨b', h1, h2⟩ := hc.pull_some (c := r) (d := name) (by simp [Term.partNames, hs]) hk
      obtain ⟨b3, h3, _⟩ := hN n (by omega) ctrs' _ [] b2 hn2 (by simp) (by simpa using hg.keeps)
      refine ⟨b', ?_, h2⟩
      simp only [toTree, hname, Except.bind, h1, hl, hn1, h3, Option.map_some, relabel_relabel, Term.topTag]
  | @PartsOf.named _ x t v ps b2 h hg, rule, w, later, hcf, hw, hr, hd => by
      have hback : Back G t ps [] (relabel t.topTag v) := by
        cases hcf with
        | named hcf => exact h.back hG hR hcf hw hr.2.2 hd.2
      obtain ⟨N, hN⟩ := hback
      obtain ⟨ctrs', hn1, hn2⟩ := fits_new (t := t) hd.1 hd.2
      refine ⟨N + 1, fun n hn ctrs κ qs b hc _ hk => ?_⟩
      obtain ⟨n, rfl⟩ : ∃ k, n = k + 1 := ⟨n - 1, by omega⟩
      obtain ⟨b', h1, h2⟩ := hc.pull_some (c := x) (d := x) (by simp [Term.partNames]) hk
      obtain ⟨b3, h3, _⟩ := hN n (by omega) ctrs' _ [] b2 hn2 (by simp) (by simpa using hg.keeps)
      refine ⟨b', ?_, h2⟩
      simp only [toTree, hn1, Except.bind, h1, h3, Option.map_some, relabel_relabel, Term.topTag]
  | .cut h, rule, w, later, hcf, hw, hr, hd => by
      cases hcf with
      | cut hcf =>
        obtain ⟨N, hN⟩ := h.back hG hR hcf hw hr hd.2
        refine ⟨N + 1, fun n hn ctrs κ qs b hc hq hk => ?_⟩
        obtain ⟨n, rfl⟩ : ∃ k, n = k + 1 := ⟨n - 1, by omega⟩
        exact hN n (by omega) ctrs κ qs b hc hq hk
  | .look h, _, _, _, _, _, hr, _ => hr.elim
  | .scope h, _, _, _, _, _, hr, _ => hr.elim
  | @PartsOf.seq _ ts tag vs ps h, rule, w, later, hcf, hw, hr, hd => by
      cases hcf with
      | seq hlen hall =>
        obtain ⟨_, e⟩ := hw.node
        rw [e] at hall
        obtain ⟨N, hN⟩ := h.back hG hR hall hr hd.2
        refine ⟨N + 1, fun n hn ctrs κ qs b hc hq hk => ?_⟩
        obtain ⟨n, rfl⟩ : ∃ k, n = k + 1 := ⟨n - 1, by omega⟩
        exact hN n (by omega) ctrs κ qs b hc hq hk []
  | @PartsOf.oneof _ ts i t tag v ps hi h, rule, w, later, hcf, hw, hr, hd => by
      cases hcf with
      | oneof hi' hcf =>
        obtain ⟨e1, e2⟩ := hw.node
        cases e1
        rw [hi] at hi'
        cases hi'
        simp only [List.cons.injEq, and_true] at e2
        rw [e2] at hcf
        have hm := List.mem_of_getElem? hi
        have hr' : t.Readable later := by
          have : ∀ us, t ∈ us → Term.Readable.readableAll later us → t.Readable later := by
            intro us
            induction us with
            | nil => simp
            | cons a us ih =>
              intro hm hr
              rcases List.mem_cons.1 hm with e | hm
              · rw [e]; exact hr.1
              · exact ih hm hr.2
          exact this ts hm hr
        have hdt := deepList_iff.1 hd.2 _ hm
        have ht := top_tag hG hR hr' hdt hcf
        obtain ⟨N, hN⟩ := h.back hG hR hcf (fun _ => rfl) hr' hdt
        rw [← ht] at hN
        refine ⟨N + 1, fun n hn ctrs κ qs b hc hq hk => ?_⟩
        obtain ⟨n, rfl⟩ : ∃ k, n = k + 1 := ⟨n - 1, by omega⟩
        obtain ⟨b1, h1, h2⟩ := pullMany_some (by simp [hc.1]) hk
        obtain ⟨b', h3, h4⟩ := hN n (by omega) ctrs κ qs b1 (hc.part (fun p hp => by
          simp only [Term.partNames]
          have : ∀ us : List Term, t ∈ us → p ∈ Term.partNames.names us := by
            intro us
            induction us with
            | nil => simp
            | cons a us ih =>
              intro hm
              simp only [Term.partNames.names, List.mem_append]
              rcases List.mem_cons.1 hm with e | hm
              · left; rwa [← e]
              · exact .inr (ih hm)
          exact this ts hm)) hq h2
        refine ⟨b', ?_, h4⟩
        simp only [toTree, h1, Except.bind, hi, h3, Option.getD_some, relabel, Term.topTag]
  | @PartsOf.quant _ t lo hi tag vs ps hlo h, rule, w, later, hcf, hw, hr, hd => by
      cases hcf with
      | quant h1 h2 hall =>
        obtain ⟨_, e⟩ := hw.node
        rw [e] at hall h1 h2
        obtain ⟨N, hN⟩ := h.back hG hR hall hr.1 hr.2 hd.2 (lo := lo) (hi := hi)
        refine ⟨N + vs.length + 2, fun n hn ctrs κ qs b hc hq hk => ?_⟩
        obtain ⟨n, rfl⟩ : ∃ k, n = k + 1 := ⟨n - 1, by omega⟩
        rw [toTree_quant]
        exact hN n (by omega) ctrs κ qs b hc hq hk n [] (by omega) (by simpa using h1) (by simpa using h2)
  | @PartsOf.delim _ t sep a cs ce tag v vs ps ps' h h', rule, w, later, hcf, hw, hr, hd => by
      obtain ⟨hcs, hce, htell, hrt, hrs⟩ := hr
      have hcf' : Conforms [G] [] t v ∧ ∃ rest : List (Tree × Tree), vs = rest.flatMap (fun p => [p.1, p.2]) ∧ (∀ p ∈ rest, Conforms [G] [] sep p.1) ∧ (∀ p ∈ rest, Conforms [G] [] t p.2) := by
        cases hcf with
        | @delim _ _ _ _ _ _ _ lead first rest trail _ c1 c2 c3 c4 c5 c6 c7 hn =>
          cases hn with
          | left e _ => exact absurd e hd.1.1
          | right e _ => exact absurd e hd.1.2.1
          | flat _ =>
            obtain ⟨_, e⟩ := hw.node
            have e1 : lead = none := by
              cases lead with
              | none => rfl
              | some x => rw [c5 rfl] at hcs; simp at hcs
            have e2 : trail = none := by
              cases trail with
              | none => rfl
              | some x => rw [c7 rfl] at hce; simp at hce
            rw [e1, e2] at e
            simp only [listItems, leading, trailing, List.nil_append, List.append_nil, List.cons.injEq] at e
            rw [← e.1, ← e.2]
            exact ⟨c1, rest, rfl, c2, c3⟩
      obtain ⟨hcf1, rest, hvs, hcf2, hcf3⟩ := hcf'
      have ht := top_tag hG hR hrt hd.2.1 hcf1
      obtain ⟨N, hN⟩ := h.back hG hR hcf1 (fun _ => rfl) hrt hd.2.1
      obtain ⟨M, hM⟩ := h'.back hG hR rest hvs hcf2 hcf3 htell hrt hrs hd.2.1 hd.2.2
      rw [← ht] at hN
      refine ⟨max N M + vs.length + 3, fun n hn ctrs κ qs b hc hq hk => ?_⟩
      obtain ⟨n, rfl⟩ : ∃ k, n = k + 2 := ⟨n - 2, by omega⟩
      rw [List.append_assoc] at hk
      obtain ⟨b1, h1, h2⟩ := hN (n + 1) (by omega) ctrs κ _ b (hc.part (fun p hp => by simp [Term.partNames, hp])) (fun q hq' => by
        rcases List.mem_append.1 hq' with hq' | hq'
        · exact List.mem_append.2 (.inl (h'.names q hq'))
        · exact List.mem_append.2 (.inr (hq q hq'))) hk
      obtain ⟨b2, h3, h4⟩ := hM (n + 1) (by omega) ctrs κ qs b1 hc hq h2 n [v] (by omega)
      refine ⟨b2, ?_, h4⟩
      rw [toTree_delim]
      simp only [toDelim, Bool.false_eq_true, if_false, h1, Except.bind, Bool.not_false, List.nil_append]
      simpa [relabel, Term.topTag] using h3
  | @PartsOf.delimLead _ t sep a cs ce tag x v vs ps hne h, rule, w, later, hcf, hw, hr, hd => by
      exfalso
      obtain ⟨hcs, hce, _, hr⟩ := hr
      cases hcf with
      | @delim _ _ _ _ _ _ _ lead first rest trail _ c1 c2 c3 c4 c5 c6 c7 hn =>
        cases hn with
        | left e _ => exact absurd e hd.1.1
        | right e _ => exact absurd e hd.1.2.1
        | flat _ =>
          obtain ⟨_, e⟩ := hw.node
          have e1 : lead = none := by
            cases lead with
            | none => rfl
            | some x => rw [c5 rfl] at hcs; simp at hcs
          rw [e1] at e
          simp only [listItems, leading, List.nil_append, List.cons_append, List.cons.injEq] at e
          exact (c1.conv (by simp) hG hd.2.1 (Term.Readable.braces _ hr.1)).1 e.1
  | .refLeaf, _, _, _, _, _, hr, _ => hr.elim
  | .refNode _ _, _, _, _, _, _, hr, _ => hr.elim
theorem PartsSeq.back {G : Grammar} (hG : G.Convertible) (hR : G.Readable) {ts vs ps} : PartsSeq G ts vs ps → ∀ {later},
    (∀ (i : Nat) t v, ts[i]? = some t → vs[i]? = some v → Conforms [G] [] t v) → Term.Readable.readableSeq later ts → deepList Term.Converts ts →
    ∃ N, ∀ n, N ≤ n → ∀ ctrs κ qs b, Fits (Term.partNames.names ts) ctrs κ → (∀ q ∈ qs, q.1 ∈ later) → Keeps κ (ps ++ qs) b → ∀ acc,
      ∃ b', toSeq (fun t g b => toTree n t ctrs g b) ts G b acc = .ok (some (.node seqTag .nil (acc ++ vs)), G, b') ∧ Keeps κ qs b'
  | .nil, later, hall, hr, hd => ⟨0, fun n hn ctrs κ qs b hc hq hk acc => ⟨b, by simp [toSeq], hk⟩⟩
  | @PartsSeq.cons _ t ts v vs ps ps' h h', later, hall, hr, hd => by
      have hcf := hall 0 t v rfl rfl
      have ht := top_tag hG hR hr.1 hd.1 hcf
      obtain ⟨N, hN⟩ := h.back hG hR hcf (fun _ => rfl) hr.1 hd.1
      obtain ⟨M, hM⟩ := h'.back hG hR (fun i t v e1 e2 => hall (i + 1) t v (by simpa using e1) (by simpa using e2)) hr.2 hd.2
      rw [← ht] at hN
      refine ⟨max N M, fun n hn ctrs κ qs b hc hq hk acc => ?_⟩
      rw [List.append_assoc] at hk
      obtain ⟨b1, h1, h2⟩ := hN n (by omega) ctrs κ _ b (hc.part (fun p hp => by simp [Term.partNames.names, hp])) (fun q hq' => by
        rcases List.mem_append.1 hq' with hq' | hq'
        · exact List.mem_append.2 (.inl (h'.names q hq'))
        · exact List.mem_append.2 (.inr (hq q hq'))) hk
      obtain ⟨b2, h3, h4⟩ := hM n (by omega) ctrs κ qs b1 (hc.part (fun p hp => by simp [Term.partNames.names, hp])) hq h2 (acc ++ [v])
      refine ⟨b2, ?_, h4⟩
      simp only [toSeq, h1, Except.bind]
      simpa using h3
theorem PartsReps.back {G : Grammar} (hG : G.Convertible) (hR : G.Readable) {t vs ps} : PartsReps G t vs ps → ∀ {later lo hi},
    (∀ v ∈ vs, Conforms [G] [] t v) → t.TellsFrom later → t.Readable (t.keys ++ later) → t.Deep Term.Converts →
    ∃ N, ∀ n, N ≤ n → ∀ ctrs κ qs b, Fits t.partNames ctrs κ → (∀ q ∈ qs, q.1 ∈ later) → Keeps κ (ps ++ qs) b → ∀ k acc, vs.length < k →
      lo ≤ acc.length + vs.length → (hi = 0 ∨ acc.length + vs.length ≤ hi) →
      ∃ b', toQuant (toTree n t ctrs) lo hi k G b acc = .ok (some (.node quantTag .nil (acc ++ vs)), G, b') ∧ Keeps κ qs b'
  | .nil, later, lo, hi, hall, htell, hr, hd => by
      obtain ⟨N, hN⟩ := htell.missing (G := G) hd
      refine ⟨N, fun n hn ctrs κ qs b hc hq hk k acc hlt h1 h2 => ⟨b, ?_, hk⟩⟩
      obtain ⟨k, rfl⟩ : ∃ j, k = j + 1 := ⟨k - 1, by simp only [List.length_nil] at hlt; omega⟩
      rw [toQuant_end (hN n hn ctrs κ qs b hq hk hc) (by simpa using h1) (by simpa using h2), List.append_nil]
  | @PartsReps.cons _ t v vs ps ps' h h', later, lo, hi, hall, htell, hr, hd => by
      have hcf := hall v (by simp)
      have ht := top_tag hG hR hr hd hcf
      obtain ⟨N, hN⟩ := h.back hG hR hcf (fun _ => rfl) hr hd
      obtain ⟨M, hM⟩ := h'.back hG hR (fun v hv => hall v (by simp [hv])) htell hr hd (lo := lo) (hi := hi)
      rw [← ht] at hN
      refine ⟨max N M, fun n hn ctrs κ qs b hc hq hk k acc hlt e1 e2 => ?_⟩
      simp only [List.length_cons] at hlt e1 e2
      obtain ⟨k, rfl⟩ : ∃ j, k = j + 1 := ⟨k - 1, by omega⟩
      rw [List.append_assoc] at hk
      obtain ⟨b1, h1, h2⟩ := hN n (by omega) ctrs κ _ b hc (fun q hq' => by
        rcases List.mem_append.1 hq' with hq' | hq'
        · exact List.mem_append.2 (.inl (h'.names q hq'))
        · exact List.mem_append.2 (.inr (hq q hq'))) hk
      obtain ⟨b2, h3, h4⟩ := hM n (by omega) ctrs κ qs b1 hc hq h2 k (acc ++ [v]) (by omega) (by simp only [List.length_append, List.length_singleton]; omega)
        (by simp only [List.length_append, List.length_singleton]; omega)
      refine ⟨b2, ?_, h4⟩
      rw [toQuant_more h1 (by omega)]
      simpa using h3
theorem PartsList.back {G : Grammar} (hG : G.Convertible) (hR : G.Readable) {t sep vs ps} : PartsList G t sep vs ps → ∀ {later} (rest : List (Tree × Tree)),
    vs = rest.flatMap (fun p => [p.1, p.2]) → (∀ p ∈ rest, Conforms [G] [] sep p.1) → (∀ p ∈ rest, Conforms [G] [] t p.2) →
    sep.TellsFrom later → t.Readable (emptyTag :: (t.keys ++ sep.keys) ++ later) → sep.Readable (emptyTag :: (t.keys ++ sep.keys) ++ later) →
    t.Deep Term.Converts → sep.Deep Term.Converts →
    ∃ N, ∀ n, N ≤ n → ∀ ctrs κ qs b, Fits (t.partNames ++ sep.partNames) ctrs κ → (∀ q ∈ qs, q.1 ∈ later) → Keeps κ (ps ++ qs) b → ∀ k acc, vs.length < k →
      ∃ b', toDelim (fun t g b => toTree n t ctrs g b) t sep k true G b acc = .ok (some (.node delimTag (.assoc 0) (acc ++ vs)), G, b') ∧ Keeps κ qs b'
  | .nil, later, rest, hvs, c2, c3, htell, hrt, hrs, hdt, hds => by
      obtain ⟨N, hN⟩ := htell.missing (G := G) hds
      refine ⟨N, fun n hn ctrs κ qs b hc hq hk k acc hlt => ⟨b, ?_, hk⟩⟩
      obtain ⟨k, rfl⟩ : ∃ j, k = j + 1 := ⟨k - 1, by simp only [List.length_nil] at hlt; omega⟩
      simp only [toDelim, if_true, hN n hn ctrs κ qs b hq hk (hc.part (fun p hp => by simp [hp])), Except.bind, List.append_nil]
  | @PartsList.cons _ t sep x v vs ps ps' ps'' h h' h'', later, rest, hvs, c2, c3, htell, hrt, hrs, hdt, hds => by
      obtain ⟨rest', e, hvs', hx, hv⟩ : ∃ rest' : List (Tree × Tree), rest = (x, v) :: rest' ∧ vs = rest'.flatMap (fun p => [p.1, p.2]) ∧ Conforms [G] [] sep x ∧ Conforms [G] [] t v := by
        cases rest with
        | nil => simp at hvs
        | cons p rest' =>
          obtain ⟨a, a'⟩ := p
          simp only [List.flatMap_cons, List.cons_append, List.nil_append, List.cons.injEq] at hvs
          refine ⟨rest', by rw [hvs.1, hvs.2.1], hvs.2.2, ?_, ?_⟩
          · have := c2 (a, a') (by simp); rw [hvs.1]; exact this
          · have := c3 (a, a') (by simp); rw [hvs.2.1]; exact this
      have ht := top_tag hG hR hrt hdt hv
      have hs := top_tag hG hR hrs hds hx
      obtain ⟨N, hN⟩ := h.back hG hR hx (fun _ => rfl) hrs hds
      obtain ⟨N', hN'⟩ := h'.back hG hR hv (fun _ => rfl) hrt hdt
      obtain ⟨M, hM⟩ := h''.back hG hR rest' hvs' (fun p hp => c2 p (by simp [e, hp])) (fun p hp => c3 p (by simp [e, hp])) htell hrt hrs hdt hds
      rw [← hs] at hN
      rw [← ht] at hN'
      refine ⟨max (max N N') M, fun n hn ctrs κ qs b hc hq hk k acc hlt => ?_⟩
      simp only [List.length_cons] at hlt
      obtain ⟨k, rfl⟩ : ∃ j, k = j + 2 := ⟨k - 2, by omega⟩
      rw [List.append_assoc, List.append_assoc] at hk
      have hlist := h''.names
      have hterm := h'.names
      obtain ⟨b1, h1, h2⟩ := hN n (by omega) ctrs κ _ b (hc.part (fun p hp => by simp [hp])) (fun q hq' => by
        rcases List.mem_append.1 hq' with hq' | hq'
        · have := hterm q hq'; simp [this]
        · rcases List.mem_append.1 hq' with hq' | hq'
          · exact List.mem_append.2 (.inl (hlist q hq'))
          · exact List.mem_append.2 (.inr (hq q hq'))) hk
      obtain ⟨b2, h3, h4⟩ := hN' n (by omega) ctrs κ _ b1 (hc.part (fun p hp => by simp [hp])) (fun q hq' => by
        rcases List.mem_append.1 hq' with hq' | hq'
        · exact List.mem_append.2 (.inl (hlist q hq'))
        · exact List.mem_append.2 (.inr (hq q hq'))) h2
      obtain ⟨b3, h5, h6⟩ := hM n (by omega) ctrs κ qs b2 hc hq h4 k (acc ++ [x] ++ [v]) (by omega)
      refine ⟨b3, ?_, h6⟩
      simp only [toDelim, if_true, Bool.false_eq_true, if_false, h1, h3, Except.bind, Bool.not_false, Bool.not_true]
      simpa using h5
  | @PartsList.trail _ t sep x ps h, later, rest, hvs, c2, c3, htell, hrt, hrs, hdt, hds => by
      exfalso
      cases rest with
      | nil => simp at hvs
      | cons p rest' =>
        simp only [List.flatMap_cons, List.cons_append, List.nil_append, List.cons.injEq] at hvs
        have := c3 p (by simp)
        exact (this.conv (by simp) hG hdt (Term.Readable.braces _ hrt)).1 hvs.2.1.symm
end

end Wbnf

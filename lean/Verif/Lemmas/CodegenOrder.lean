import Verif.Lemmas.Codegen

/-! The text of a grammar does not depend on the order of its entries. -/

namespace Wbnf

theorem sorted_unique : ∀ {a b : List Str}, a.Perm b → a.Pairwise (fun x y => strLe x y = true) →
    b.Pairwise (fun x y => strLe x y = true) → a = b
  | [], b, h, _, _ => (List.nil_perm.1 h).symm
  | x :: a, [], h, _, _ => by simp at h
  | x :: a, y :: b, h, ha, hb => by
    have ha' := List.pairwise_cons.1 ha
    have hb' := List.pairwise_cons.1 hb
    have e : x = y := by
      have h1 : x ∈ y :: b := h.mem_iff.1 (by simp)
      have h2 : y ∈ x :: a := h.mem_iff.2 (by simp)
      rcases List.mem_cons.1 h1 with e | h1
      · exact e
      · rcases List.mem_cons.1 h2 with e | h2
        · exact e.symm
        · exact strLe_antisymm (ha'.1 y h2) (hb'.1 x h1)
    subst e
    rw [sorted_unique ((List.perm_cons x).1 h) ha'.2 hb'.2]

theorem sortStrings_perm_eq {a b : List Str} (h : a.Perm b) : sortStrings a = sortStrings b :=
  sorted_unique ((sortStrings_perm a).trans (h.trans (sortStrings_perm b).symm)) (sortStrings_sorted a) (sortStrings_sorted b)

theorem lookup_perm {α} {m m' : List (Str × α)} (h : m.Perm m') (hd : (m.map Prod.fst).Nodup) (k : Str) :
    lookup k m = lookup k m' := by
  have hd' : (m'.map Prod.fst).Nodup := (h.map _).nodup_iff.1 hd
  cases e : lookup k m with
  | some v => rw [(lookup_iff_mem hd').2 (h.mem_iff.1 ((lookup_iff_mem hd).1 e))]
  | none =>
    cases e' : lookup k m' with
    | none => rfl
    | some v =>
      rw [(lookup_iff_mem hd).2 (h.mem_iff.2 ((lookup_iff_mem hd').1 e'))] at e
      cases e

theorem mapDelete_perm {α} {k : Str} {m m' : List (Str × α)} (h : m.Perm m') : (mapDelete k m).Perm (mapDelete k m') :=
  h.filter _

theorem mapDelete_nodup {α} {k : Str} {m : List (Str × α)} (h : (m.map Prod.fst).Nodup) :
    ((mapDelete k m).map Prod.fst).Nodup := h.sublist (List.filter_sublist.map _)

theorem takeLayers_perm {r : Str} : ∀ {fuel i : Nat} {m m' : List (Str × GoNode)}, m.Perm m' → (m.map Prod.fst).Nodup →
    (takeLayers r fuel i m).1 = (takeLayers r fuel i m').1 ∧ (takeLayers r fuel i m).2.Perm (takeLayers r fuel i m').2 ∧
      ((takeLayers r fuel i m).2.map Prod.fst).Nodup
  | 0, _, _, _, h, hd => ⟨rfl, h, hd⟩
  | fuel + 1, i, m, m', h, hd => by
    simp only [takeLayers]
    rw [← lookup_perm h hd]
    cases lookup (r ++ str "@" ++ decimal i) m with
    | none => exact ⟨rfl, h, hd⟩
    | some n =>
      simp only
      obtain ⟨h1, h2, h3⟩ := takeLayers_perm (r := r) (fuel := fuel) (i := i + 1)
        (mapDelete_perm (k := r ++ str "@" ++ decimal i) h) (mapDelete_nodup hd)
      exact ⟨by rw [h1], h2, h3⟩

theorem grammarEntries_perm {p p' : List Str} (hp : p.Perm p') : ∀ {ks : List Str} {m m' : List (Str × GoNode)}, m.Perm m' →
    (m.map Prod.fst).Nodup → grammarEntries p ks m = grammarEntries p' ks m'
  | [], _, _, _, _ => rfl
  | k :: ks, m, m', h, hd => by
    have hc : p.contains k = p'.contains k := by
      rw [Bool.eq_iff_iff, List.contains_iff_mem, List.contains_iff_mem, hp.mem_iff]
    simp only [grammarEntries, hc]
    obtain ⟨h1, h2, h3⟩ := takeLayers_perm (r := k) (fuel := m.length) (i := 1) h hd
    rw [← h.length_eq, ← h1, ← lookup_perm h hd, grammarEntries_perm hp h2 h3]
    split
    · rfl
    · cases lookup k m with
      | none => exact grammarEntries_perm hp h hd
      | some n => simp only; rw [grammarEntries_perm hp h hd]

theorem grammarNode_perm {m m' : List (Str × GoNode)} (h : m.Perm m') (hd : (m.map Prod.fst).Nodup) :
    grammarNode m = grammarNode m' := by
  simp only [grammarNode]
  rw [sortStrings_perm_eq (h.map _), grammarEntries_perm (((h.map _).filter _).map _) h hd]

theorem keys_walkDefs : (g : List (Str × Term)) → (walkDefs g).map Prod.fst = g.map Prod.fst
  | [] => rfl
  | (_, _) :: g => by simp [walkDefs, keys_walkDefs g]

mutual
theorem Reord.walk : {t t' : Term} → Reord t t' → t.Tidy → walkTerm t = walkTerm t'
  | _, _, .rule, _ => rfl
  | _, _, .s, _ => rfl
  | _, _, .re, _ => rfl
  | _, _, .ref, _ => rfl
  | _, _, .ext, _ => rfl
  | _, _, .seq h, ht => by simp only [walkTerm]; rw [h.walk ht]
  | _, _, .oneof h, ht => by simp only [walkTerm]; rw [h.walk ht]
  | _, _, .stack h, ht => by simp only [walkTerm]; rw [h.walk ht]
  | _, _, .delim h h', ht => by simp only [walkTerm]; rw [h.walk ht.1, h'.walk ht.2]
  | _, _, .look h, ht => by simp only [walkTerm]; rw [h.walk (by simpa [Term.Tidy] using ht)]
  | _, _, .quant h, ht => by simp only [walkTerm]; rw [h.walk (by simpa [Term.Tidy] using ht)]
  | _, _, .named h, ht => by simp only [walkTerm]; rw [h.walk (by simpa [Term.Tidy] using ht)]
  | _, _, .cut h, ht => by simp only [walkTerm]; rw [h.walk (by simpa [Term.Tidy] using ht)]
  | .scope t g, _, .scope h h', ht => by
    simp only [walkTerm]
    rw [h.walk ht.1, grammarNode_perm (h'.walk ht.2.1) (by rw [keys_walkDefs]; exact ht.2.2.1)]
theorem ReordList.walk : {ts ts' : List Term} → ReordList ts ts' → tidyList ts → walkTerms ts = walkTerms ts'
  | _, _, .nil, _ => rfl
  | _, _, .cons h h', ht => by simp only [walkTerms]; rw [h.walk ht.1, h'.walk ht.2]
theorem ReordDefs.walk : {g g' : Grammar} → ReordDefs g g' → tidyDefs g → (walkDefs g).Perm (walkDefs g')
  | _, _, .nil, _ => .refl _
  | _, _, .cons h h', ht => by simp only [walkDefs]; rw [h.walk ht.1]; exact (h'.walk ht.2).cons _
  | _, _, .swap, _ => .swap ..
  | _, _, .trans h h', ht => (h.walk ht).trans (h'.walk (h.tidy ht))
end

end Wbnf

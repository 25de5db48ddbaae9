import Verif.Lemmas.Rename
import Verif.Props.Tree

/-! Moving the text to another source or place. -/

namespace Wbnf

variable {E : Engine} {X : Externals}

mutual
theorem rename_id : (t : Term) → t.rename id = t
  | .rule _ => rfl
  | .s _ => rfl
  | .re _ => rfl
  | .ref _ _ => rfl
  | .ext _ => rfl
  | .seq ts => by simp [Term.rename, renameList_id ts]
  | .oneof ts => by simp [Term.rename, renameList_id ts]
  | .stack ts => by simp [Term.rename, renameList_id ts]
  | .delim t sep _ _ _ => by simp [Term.rename, rename_id t, rename_id sep]
  | .look t => by simp [Term.rename, rename_id t]
  | .quant t _ _ => by simp [Term.rename, rename_id t]
  | .named _ t => by simp [Term.rename, rename_id t]
  | .scope t g => by simp [Term.rename, rename_id t, renameDefs_id g]
  | .cut t => by simp [Term.rename, rename_id t]
theorem renameList_id : (ts : List Term) → renameList id ts = ts
  | [] => rfl
  | t :: ts => by simp [renameList, rename_id t, renameList_id ts]
theorem renameDefs_id : (g : Grammar) → renameDefs id g = g
  | [] => rfl
  | (k, t) :: g => by simp [renameDefs, rename_id t, renameDefs_id g]
end

theorem renaming_id : Renaming id := ⟨fun h => h, rfl, rfl, rfl, rfl, rfl, rfl, rfl, rfl⟩

/-- Inside the text visible in `inp`. -/
def InWindow (inp s : Scanner) : Prop :=
  s.src = inp.src ∧ inp.start ≤ s.start ∧ 0 ≤ s.len ∧ s.start + s.len ≤ inp.start + inp.len

def MoveBase (E : Engine) (Γ : List Grammar) (t : Term) : Prop :=
  (∀ x, t ≠ .ext x) ∧ ∀ p, Matches Γ t p → ReportsGroup E (anchor ++ p)

theorem InWindow.inRange {inp s : Scanner} (hin : inp.InRange) (h : InWindow inp s) : s.InRange := by
  obtain ⟨src, h1, h2, h3, h4⟩ := hin
  obtain ⟨e, h5, h6, h7⟩ := h
  exact ⟨src, e.trans h1, by omega, h6, by omega⟩

theorem slice_move {inp inp' s : Scanner} (hin : inp.InRange) (hin' : inp'.InRange) (same : inp.toStr = inp'.toStr)
    (h : InWindow inp s) : (Scanner.move inp inp' s).slice = s.slice ∧ (Scanner.move inp inp' s).toStr = s.toStr := by
  have hr := h.inRange hin
  obtain ⟨src, i, n, rfl, hn⟩ := hin.elim
  obtain ⟨src', i', n', rfl, hn'⟩ := hin'.elim
  obtain ⟨src2, j, k, rfl, hk⟩ := hr.elim
  obtain ⟨e, h1, h2, h3⟩ := h
  simp only [Option.some.injEq] at e
  subst e
  simp only at h1 h2 h3
  rw [Scanner.toStr_mk hn, Scanner.toStr_mk hn'] at same
  simp only [Option.some.injEq] at same
  have el : n = n' := by
    have := congrArg List.length same
    rwa [bytesAt_length hn, bytesAt_length hn'] at this
  subst el
  have em : Scanner.move ⟨some src2, i, n⟩ ⟨some src', i', n⟩ ⟨some src2, j, k⟩ = ⟨some src', ((i' + (j - i) : Nat) : Int), k⟩ := by
    simp only [Scanner.move, Scanner.mk.injEq, true_and, and_true]; omega
  have e1 : bytesAt src'.origin (i' + (j - i)) k = bytesAt src2.origin j k := by
    have := congrArg (fun t => bytesAt t (j - i) k) same
    rw [bytesAt_bytesAt (by omega), bytesAt_bytesAt (by omega)] at this
    rw [← this]; congr 1; omega
  rw [em, Scanner.slice_mk (by omega), Scanner.slice_mk hk, Scanner.toStr_mk (by omega), Scanner.toStr_mk hk, e1]
  exact ⟨rfl, rfl⟩

theorem morph_move (hE : E.Sane) {inp inp' : Scanner} (hin : inp.InRange) (hin' : inp'.InRange) (same : inp.toStr = inp'.toStr) :
    Morph E id (Scanner.move inp inp') (InWindow inp) (MoveBase E) where
  ren := renaming_id
  slice := fun s h => (slice_move hin hin' same h).1
  toStr := fun s h => (slice_move hin hin' same h).2
  sub := fun s a b => by simp [Scanner.move, Scanner.sub]; omega
  skip := fun s a => by simp [Scanner.move, Scanner.skip]; omega
  leaf := by
    intro Γ t p j s i hB hm hW hl
    obtain ⟨h1, h2, h3, h4, h5⟩ := hl.span hE (hB.2 p hm) (hW.inRange hin)
    obtain ⟨a1, a2, a3, a4⟩ := h1
    obtain ⟨w1, w2, w3, w4⟩ := hW
    exact ⟨⟨h2.trans w1, by omega, h4, by omega⟩, a1.trans w1, by omega, a4, by omega⟩
  basic := by
    refine ⟨fun _ _ => ⟨by simp, fun p h => by cases h⟩, fun _ _ _ _ => ⟨by simp, fun p h => by cases h⟩, fun Γ i d l h => ⟨by simp, fun p hm => ?_⟩⟩
    cases hm with
    | lit hp =>
      have : p = str "(" ++ quoteMeta l ++ str ")" := by cases hp <;> simp_all [wrapOf]
      rw [this]
      exact h.2 _ (.ref l)
  ext := fun h => h.1 _ rfl
  layers := fun _ => fun _ _ _ _ _ => rfl

theorem peg_move (hE : E.Sane) {inp inp' : Scanner} (hin : inp.InRange) (hin' : inp'.InRange) (same : inp.toStr = inp'.toStr)
    {G : Grammar} {r o} (hp : PatternsSatisfy (ReportsGroup E) [G] (.rule r)) (hx : NoExt [G] (.rule r))
    (h : Peg E X (.term [G] [] (.rule r) [] inp) o) : Peg E X (.term [G] [] (.rule r) [] inp') (o.map id (Scanner.move inp inp')) := by
  have hl : inp.len = inp'.len := by
    obtain ⟨src, i, n, rfl, hn⟩ := hin.elim
    obtain ⟨src', i', n', rfl, hn'⟩ := hin'.elim
    rw [Scanner.toStr_mk hn, Scanner.toStr_mk hn'] at same
    have := congrArg List.length (Option.some.inj same)
    rw [bytesAt_length hn, bytesAt_length hn'] at this
    simp [this]
  have h0 : 0 ≤ inp.len := by obtain ⟨_, _, _, h, _⟩ := hin; exact h
  have := (h.map (morph_move hE hin hin' same) ⟨fun Γ' t' hpart => ⟨?_, fun p hm => hp _ _ _ hpart hm⟩,
    fun _ _ h => by simp [lookup] at h, rfl, Int.le_refl _, h0, Int.le_refl _⟩).1
  · have e : Scanner.move inp inp' inp = inp' := by cases inp'; simp [Scanner.move] at *; exact hl
    simpa only [Goal.map, mapVals_nil, List.map_cons, List.map_nil, Term.rename, renameDefs_id, id, e] using this
  · rintro x rfl; exact hx _ _ hpart

end Wbnf

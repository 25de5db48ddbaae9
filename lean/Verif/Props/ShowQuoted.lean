import Verif.Lemmas.ShowQuoted
import Verif.Props.Quote

/-!
# C77 Parse trees printed with `%q`
-/

namespace Wbnf

variable {quote : Str → Str} {quoteRune : Nat → Str} {isPrint : Nat → Bool} {n : Nat}

/-- **C77** What `%q` prints for two parse trees is the same exactly if they are the same trees, but for where their leaves are. (What `%v` prints is not enough: `C63_tree_ambiguous`.) -/
theorem C77_iff (hq : Quoting quote) (hr : RuneQuoting n quoteRune) {t u : Tree} (ht : t.PlainTags n) (hu : u.PlainTags n) {a : Str}
    (h : t.quoted quote quoteRune = some a) : u.quoted quote quoteRune = some a ↔ t.SameTexts u :=
  ⟨fun h' => (showq_reads (x := []) (y := []) hq hr t u ht hu h h' rfl).1, fun h' => showq_same t u h' ▸ h⟩

/-- **C77** The end of what is printed for a tree can be told, whatever follows it. -/
theorem C77_prefix (hq : Quoting quote) (hr : RuneQuoting n quoteRune) {t u : Tree} (ht : t.PlainTags n) (hu : u.PlainTags n) {a b x y : Str}
    (h : t.quoted quote quoteRune = some a) (h' : u.quoted quote quoteRune = some b) (e : a ++ x = b ++ y) : t.SameTexts u ∧ a = b ∧ x = y := by
  obtain ⟨h1, rfl⟩ := showq_reads hq hr t u ht hu h h' e
  exact ⟨h1, List.append_cancel_right e, rfl⟩

theorem runeQuoted_table : ∀ i < 128, ∀ j < 128,
    (goQuoteRune (fun r => decide (32 ≤ r ∧ r < 127)) i).isPrefixOf (goQuoteRune (fun r => decide (32 ≤ r ∧ r < 127)) j) = true → i = j := by decide +kernel

theorem goQuoteRune_ascii (hp : ∀ r < 128, isPrint r = decide (32 ≤ r ∧ r < 127)) {i : Nat} (hi : i < 128) :
    goQuoteRune isPrint i = goQuoteRune (fun r => decide (32 ≤ r ∧ r < 127)) i := by
  rw [goQuoteRune, goQuoteRune, hp 34 (by decide), escapedRune_congr (q := fun r => decide (32 ≤ r ∧ r < 127)) (hp i hi)]

/-- **C77** Go's `strconv.QuoteRune` is as `C77_iff` needs it, for up to 128 alternatives. -/
theorem C77_rune (hp : ∀ r < 128, isPrint r = decide (32 ≤ r ∧ r < 127)) : RuneQuoting 128 (goQuoteRune isPrint) where
  opens i := ⟨_, rfl⟩
  reads i j x y hi hj h := by
    have hij : i = j := by
      rw [goQuoteRune_ascii hp hi, goQuoteRune_ascii hp hj] at h
      rcases List.append_eq_append_iff.1 h with ⟨z, hz, -⟩ | ⟨z, hz, -⟩
      · exact runeQuoted_table i hi j hj (List.isPrefixOf_iff_prefix.2 ⟨z, hz.symm⟩)
      · exact (runeQuoted_table j hj i hi (List.isPrefixOf_iff_prefix.2 ⟨z, hz.symm⟩)).symm
    subst hij
    exact ⟨rfl, List.append_cancel_left h⟩

/-- **C77** With Go's own quoting. -/
theorem C77_go (hp : ∀ r < 128, isPrint r = decide (32 ≤ r ∧ r < 127)) {t u : Tree} (ht : t.PlainTags 128) (hu : u.PlainTags 128) {a : Str}
    (h : t.quoted (goQuote isPrint) (goQuoteRune isPrint) = some a) : u.quoted (goQuote isPrint) (goQuoteRune isPrint) = some a ↔ t.SameTexts u :=
  C77_iff (C63_quote hp) (C77_rune hp) ht hu h

/-- **C77** Tags that are not plain can make other trees print the same: a tag `a[], b` beside the nodes it looks like. -/
theorem C77_needs :
    ∃ t u : Tree, ¬ t.SameTexts u ∧ t.quoted (goQuote isPrint) (goQuoteRune isPrint) = u.quoted (goQuote isPrint) (goQuoteRune isPrint) ∧
      (t.quoted (goQuote isPrint) (goQuoteRune isPrint)).isSome := by
  refine ⟨.node (str "_") .nil [.node (str "a[], b") .nil []], .node (str "_") .nil [.node (str "a") .nil [], .node (str "b") .nil []], ?_, rfl, rfl⟩
  simp [Tree.SameTexts, sameTextsAll]

namespace Ex

/-- `x, y` in one leaf. -/
def qOne : Tree := .node (str "a") (.choice 1) [.leaf (sub "x, y" 0 4), .empty]

/-- `x, y` in two leaves. -/
def qTwo : Tree := .node (str "a") (.choice 1) [.leaf (sub "x, y" 0 1), .leaf (sub "x, y" 3 4)]

/-- The text of `qOne` from another source. -/
def qOther : Tree := .node (str "a") (.choice 1) [.leaf (sub "-x, y-" 1 5), .empty]

end Ex

open Ex in
/-- Trees that `%q` tells apart, and two that differ only in where the leaves are. -/
example : qOne.PlainTags 128 ∧ qTwo.PlainTags 128 ∧
    qOne.quoted (goQuote latinPrint) (goQuoteRune latinPrint) = some (str "a" ++ doubleBar ++ str "'\\x01'[\"x, y\", {}]") ∧
    qTwo.quoted (goQuote latinPrint) (goQuoteRune latinPrint) = some (str "a" ++ doubleBar ++ str "'\\x01'[\"x\", \"y\"]") ∧
    qOther.quoted (goQuote latinPrint) (goQuoteRune latinPrint) = qOne.quoted (goQuote latinPrint) (goQuoteRune latinPrint) ∧ ¬ qOne.SameTexts qTwo := by
  refine ⟨?_, ?_, by decide +kernel, by decide +kernel, by decide +kernel, ?_⟩
  · exact ⟨by unfold PlainTag; decide +kernel, by intro i h; cases h; decide, trivial, trivial, trivial⟩
  · exact ⟨by unfold PlainTag; decide +kernel, by intro i h; cases h; decide, trivial, trivial, trivial⟩
  · intro h
    exact h.2.2.2.1

end Wbnf

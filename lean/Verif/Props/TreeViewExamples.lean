import Verif.Props.TreeViewReads

/-!
# Tree views of ASTs (C64): cases
-/

namespace Wbnf

namespace Ex

/-- Insertion by rank, after or before items of the same rank. -/
def insertRank (last : Bool) (t : GTree) : List GTree → List GTree
  | [] => [t]
  | u :: us => if u.rank.getD 0 < t.rank.getD 0 || (last && u.rank.getD 0 = t.rank.getD 0) then u :: insertRank last t us else t :: u :: us

/-- `sort.Slice` on short slices inserts the items one after the other. -/
def sortRank (last : Bool) (ts : List GTree) : List GTree := ts.foldl (fun us t => insertRank last t us) []

theorem insertRank_perm (last : Bool) (t : GTree) : ∀ us, (insertRank last t us).Perm (t :: us)
  | [] => .refl _
  | u :: us => by
    simp only [insertRank]
    split
    · exact ((insertRank_perm last t us).cons u).trans (.swap _ _ _)
    · exact .refl _

theorem insertRank_sorted (last : Bool) (t : GTree) : ∀ {us : List GTree}, us.Pairwise (fun t u => t.rank.getD 0 ≤ u.rank.getD 0) → (insertRank last t us).Pairwise fun t u => t.rank.getD 0 ≤ u.rank.getD 0
  | [], _ => by simp [insertRank]
  | u :: us, h => by
    obtain ⟨h1, h2⟩ := List.pairwise_cons.1 h
    simp only [insertRank]
    split
    · rename_i hc
      refine .cons (fun v hv => ?_) (insertRank_sorted last t h2)
      rcases List.mem_cons.1 ((insertRank_perm last t us).mem_iff.1 hv) with e | hv
      · rw [e]
        simp only [Bool.or_eq_true, decide_eq_true_eq, Bool.and_eq_true] at hc
        omega
      · exact h1 v hv
    · rename_i hc
      simp only [Bool.or_eq_true, decide_eq_true_eq, Bool.and_eq_true] at hc
      have : t.rank.getD 0 ≤ u.rank.getD 0 := by omega
      refine .cons (fun v hv => ?_) h
      rcases List.mem_cons.1 hv with e | hv
      · rw [e]; exact this
      · have := h1 v hv; omega

theorem sortRank_sorts (last : Bool) : SortsByRank (sortRank last) := by
  have key : ∀ ts us : List GTree, (ts.foldl (fun us t => insertRank last t us) us).Perm (ts ++ us) ∧
      (us.Pairwise (fun t u => t.rank.getD 0 ≤ u.rank.getD 0) → (ts.foldl (fun us t => insertRank last t us) us).Pairwise fun t u => t.rank.getD 0 ≤ u.rank.getD 0) := by
    intro ts
    induction ts with
    | nil => intro us; exact ⟨.refl _, id⟩
    | cons t ts ih =>
      intro us
      obtain ⟨h1, h2⟩ := ih (insertRank last t us)
      exact ⟨h1.trans (((List.Perm.refl ts).append (insertRank_perm last t us)).trans List.perm_middle), fun h => h2 (insertRank_sorted last t h)⟩
  intro items
  obtain ⟨h1, h2⟩ := key items []
  exact ⟨by simpa [sortRank] using h1, fun _ => h2 .nil⟩

/-- The bytes of a printed view. -/
def shown (s : String) : Str := s.toList.flatMap fun c =>
  if c = '‣' then bullet else if c = '├' then [0xe2, 0x94, 0x9c] else if c = '─' then [0xe2, 0x94, 0x80] else if c = '└' then [0xe2, 0x94, 0x94]
  else if c = '│' then [0xe2, 0x94, 0x82] else [UInt8.ofNat c.toNat]

/-- The view of the AST of a parse. -/
def view (last skip : Bool) (g : Grammar) (r s : String) : Option Str :=
  match ast g r s with
  | some (.ok (_, b)) => buildTreeView byteQuote (sortRank last) id (str r) (.branch b) skip
  | _ => none

/-- `a -> b c; b -> "x"?; c -> "y";` -/
def gMaybe : Grammar := [(str "a", .seq [.rule (str "b"), .rule (str "c")]), (str "b", .quant (.s (str "x")) 0 1), (str "c", .s (str "y"))]

/-- The AST of the parse, its map in the order in which it is filled, or the other way round. -/
def viewOf (back : Bool) (g : Grammar) (r s : String) : Option Str :=
  match ast g r s with
  | some (.ok (_, b)) => buildTreeView byteQuote (sortRank true) id (str r) (.branch (if back then b.reverse else b)) true
  | _ => none

/-- A list below three names. -/
def lineAst : Ast := .branch [(str "b", .one (.branch [(str "b", .many [.branch [(str "c", .one (.branch [([], .one (.leaf (sub "xy" 1 2)))])), (str "@choice", .many [.extra (.choice 3)])]])]))]

end Ex

/-- **C64** Views of parses may depend on the order of the map: here is an empty node, and a leaf at the start of the source. -/
theorem C64_not_always : Ex.viewOf false Ex.gMaybe "a" "y" = some (Ex.shown "a\n├── b\n└── c\n    └── 0‣y\n") ∧
    Ex.viewOf true Ex.gMaybe "a" "y" = some (Ex.shown "a\n├── c\n│   └── 0‣y\n└── b\n") := by
  decide +kernel

/-- **C64** A name that begins with too large a number is a panic. -/
theorem C64_panics (quote : Str → Str) (sort : List GTree → List GTree) (hs : SortsByRank sort) (room : Nat → Nat) (name : Str) (skip : Bool) :
    buildTreeView quote sort room name (.branch [(str "9999999999999999999", .one (.branch [])), (str "b", .one (.branch []))]) skip = none := by
  have h0 : sort [] = [] := (hs []).1.eq_nil
  have h1 : (skip && decide ((str "9999999999999999999").head? = some 64)) = false := by cases skip <;> decide
  have h2 : (skip && decide ((str "b").head? = some 64)) = false := by cases skip <;> decide
  have h3 : (GTree.mk (str "9999999999999999999") []).rank = none := by decide +kernel
  simp [buildTreeView, fromAst, branchItems, kidsItems, collapseTree, sortItems, h0, h1, h2, h3]

open Ex in
/-- Sorting, the hypotheses of `C64_reads_partial` on the grammar, and the view of the AST of `1+2`. -/
example : SortsByRank (sortRank true) ∧ gSum.wf = true ∧ gSum.compile regexp 50 = .ok (comp! gSum) ∧ (comp! gSum).grammar.Convertible ∧
    (comp! gSum).grammar.Deep Term.UnnumberedName ∧ ¬ Numbered (str "a") ∧
    (comp! gSum).grammar.Deep Term.PlainName ∧ (comp! gSum).grammar.Fills ∧
    PatternsSatisfy (ReportsGroup regexp) [(comp! gSum).grammar] (.rule (str "a")) ∧ NoLook [(comp! gSum).grammar] (.rule (str "a")) ∧ NoExt [(comp! gSum).grammar] (.rule (str "a")) ∧
    view true true gSum "a" "1+2" = some (shown "a\n├── a\n│   └── 0‣1\n├── 1‣+\n└── a\n    └── 2‣2\n") := by
  have h := plainLeaf_check (q := Regex.setsLast) (Q := ReportsGroup regexp)
    (fun p => Regex.reportsGroup) (g := (comp! gSum).grammar) (by rfl) (by decide +kernel) (str "a")
  refine ⟨sortRank_sorts true, by decide +kernel, comp_ok (by decide +kernel), gSum_convertible, ?_, by decide +kernel, gSum_plain, gSum_fills, h.1, h.2.1, h.2.2, by decide +kernel⟩
  rw [gSum_compiled]
  have h1 : ¬ Numbered (shownName (str "a@1")) := by decide +kernel
  have h2 : ¬ Numbered (shownName (str "a@2")) := by decide +kernel
  have h3 : ¬ Numbered (shownName (str "a")) := by decide +kernel
  simp [Grammar.Deep, deepDefs, Term.Deep, deepList, Term.UnnumberedName, h1, h2, h3]

open Ex in
/-- The AST of a list in two orders of the map has the same view, as nothing is at the same place; the views for either way to sort are the same. -/
example : Alike listAst listAst' ∧ listAst.Viewable true ∧ Apart (listAst.ends byteQuote true (str "r")) ∧
    buildTreeView byteQuote (sortRank true) id (str "r") listAst true = some (shown "r\n├── 0‣x\n├── 1‣\",\"\n└── 2‣`\"y`\n") ∧
    buildTreeView byteQuote (sortRank false) id (str "r") listAst' true = some (shown "r\n├── 0‣x\n├── 1‣\",\"\n└── 2‣`\"y`\n") := by
  refine ⟨?_, ?_, ?_, by decide +kernel, by decide +kernel⟩
  · exact .branch (c := [_, _, _]) (.refl _)
      (.cons (.many (.cons (.leaf rfl rfl) (.cons (.leaf rfl rfl) .nil))) (.cons (.one (.leaf rfl rfl)) (.cons (.one (.extra rfl)) .nil)))
      ((List.Perm.swap _ _ _).trans ((List.Perm.swap _ _ _).cons _))
  · refine ⟨.inr ⟨by decide, ⟨⟨str "x", by decide +kernel⟩, by decide +kernel⟩, ⟨⟨str "\"y", by decide +kernel⟩, by decide +kernel⟩, trivial⟩,
      .inr ⟨by decide, ⟨str ",", by decide +kernel⟩, by decide +kernel⟩, .inl ⟨rfl, _, rfl⟩, trivial⟩
  · rw [apart_iff]
    decide +kernel

open Ex in
/-- Names in one line. -/
example : InLine true (str "a") lineAst [str "a", str "b", str "b", str "c"] ∧ (∀ n ∈ [str "a", str "b", str "b", str "c"], (32 : UInt8) ∉ n ∧ n ≠ str "...") ∧
    buildTreeView byteQuote (sortRank true) id (str "a") lineAst true = some (shown "a ‣ b ‣ ... ‣ c\n└── 1‣y\n") := by
  refine ⟨?_, by decide +kernel, by decide +kernel⟩
  refine .step (n := str "b") rfl rfl (.step (n := str "b") rfl rfl (.step (n := str "c") rfl rfl (.stop ?_)))
  intro n a h
  have : a = .leaf (sub "xy" 1 2) := by
    have h' : [(([] : Str), Ast.leaf (sub "xy" 1 2))] = [(n, a)] := h
    simp only [List.cons.injEq, Prod.mk.injEq] at h'
    exact h'.1.2.symm
  rw [this]
  exact fun h => h

end Wbnf

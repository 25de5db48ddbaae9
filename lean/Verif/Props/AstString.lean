import Verif.Lemmas.AstStringRead
import Verif.Props.AstQuery

/-!
# Printed ASTs (C63)
-/

namespace Wbnf

variable {quote : Str → Str} {E : Engine} {X : Externals} {g G : Grammar} {m n k : Nat} {ps : Parsers} {r : Str} {inp rest : Scanner} {ρ : Nat → Nat}

/-- **C63** Two ASTs print the same text just if they are the same AST. -/
theorem C63_iff (hq : Quoting quote) {a b : Ast} (ha : Printable a) (hb : Printable b) {s : Str} (h : a.string quote = some s) :
    b.string quote = some s ↔ Alike a b := by
  constructor
  · intro h'
    exact (ast_reads hq a b s s [] [] ha hb h h' (.inl rfl) (.inl rfl) rfl).1
  · intro h'
    rw [← h, alike_string h' ha]

/-- **C63** The text does not depend on the order in which the map is read (whatever the names and data are). -/
theorem C63_order {b b' : Branch} (h : b.Perm b') (hn : (b.map (·.1)).Nodup) : (Ast.branch b).string quote = (Ast.branch b').string quote := by
  simp only [Ast.string]
  exact branchString_order h hn

mutual
theorem tidy_string : ∀ a : Ast, a.Tidy → ∃ s, a.string quote = some s
  | .leaf s, h => by
    obtain ⟨x, h⟩ := h
    simp [Ast.string, leafString, h]
  | .extra d, _ => ⟨_, rfl⟩
  | .branch b, h => by
    obtain ⟨es, h⟩ := tidyEntries_string b h.2
    simp [Ast.string, h]
theorem tidyKids_string : ∀ c : Kids, c.Tidy → ∃ s, c.string quote = some s
  | .one n, h => tidy_string n h
  | .many ns, h => by
    obtain ⟨es, h⟩ := tidyNodes_string ns h.2
    simp [Kids.string, h]
theorem tidyNodes_string : ∀ ns : List Ast, tidyNodes ns → ∃ ss, astStrings quote ns = some ss
  | [], _ => ⟨_, rfl⟩
  | n :: ns, h => by
    obtain ⟨s, h1⟩ := tidy_string n h.1
    obtain ⟨ss, h2⟩ := tidyNodes_string ns h.2
    exact ⟨s :: ss, by simp [astStrings, h1, h2]⟩
theorem tidyEntries_string : ∀ b : List (Str × Kids), tidyBranch b → ∃ es, entryStrings quote b = some es
  | [], _ => ⟨_, rfl⟩
  | (name, c) :: b, h => by
    obtain ⟨s, h1⟩ := tidyKids_string c h.1
    obtain ⟨es, h2⟩ := tidyEntries_string b h.2
    exact ⟨(name, s) :: es, by simp [entryStrings, h1, h2]⟩
end

/-- **C63** String does not panic if every leaf has a text. -/
theorem C63_prints {a : Ast} (h : a.Tidy) : ∃ s, a.string quote = some s := tidy_string a h

/-! ### ASTs of parses -/

theorem printableAll_of_mem : ∀ {ns : List Ast}, (∀ n ∈ ns, Printable n) → PrintableAll ns
  | [], _ => .nil
  | n :: _, h => .cons (h n (by simp)) (printableAll_of_mem fun n hn => h n (by simp [hn]))

theorem Groups.printable {t : Term} {ps : List (Str × Ast)} {b : Branch} (h : Groups t ps b) (ht : ∀ p ∈ ps, Identifier p.1 ∧ Printable p.2) : Printable (.branch b) := by
  refine .branch h.1 (fun name hm => ?_) (printableEntries_of_mem fun e he => ?_)
  · obtain ⟨e, he, rfl⟩ := List.mem_map.1 hm
    obtain ⟨h1, h2⟩ := h.entries e he
    obtain ⟨x, hx⟩ := List.exists_mem_of_ne_nil _ h1
    exact (ht _ (h2 x hx)).1
  · obtain ⟨h1, h2⟩ := h.entries e he
    obtain ⟨name, c⟩ := e
    cases c with
    | one n => exact .one (ht _ (h2 n (by simp [Kids.nodes]))).2
    | many ns => exact .many (printableAll_of_mem fun n hn => (ht _ (h2 n hn)).2)

instance (s : Str) : Decidable (Identifier s) := inferInstanceAs (Decidable (∀ c ∈ s, isSpecial c = false ∧ c ≠ 32 ∧ c ≠ 34))

theorem identifier_nil : Identifier [] := by intro c hc; simp at hc

theorem decimal_plain (n : Nat) : Identifier (decimal n) ∧ decimal n ≠ [] ∧ ¬ bullet <:+: decimal n := by
  have key : ∀ m < 256, numberByte (UInt8.ofNat m) = true → isSpecial (UInt8.ofNat m) = false ∧ UInt8.ofNat m ≠ 32 ∧ UInt8.ofNat m ≠ 34 := by decide +kernel
  obtain ⟨h1, h2⟩ := intDecimal_bytes (.ofNat n)
  simp only [intDecimal] at h1 h2
  refine ⟨fun c hc => ?_, h2, fun h => ?_⟩
  · have := key c.toNat c.toNat_lt
    rw [UInt8.ofNat_toNat] at this
    exact this (h1 c hc)
  · have := h1 0xe2 (h.subset (by decide))
    exact absurd this (by decide)

mutual
theorem PartsOf.printable {G : Grammar} {t v ps} (hG : G.Deep Term.IdentifierName) : PartsOf G t v ps → t.Deep Term.IdentifierName → ∀ p ∈ ps, Identifier p.1 ∧ Printable p.2
  | .lit, _ => by simpa using ⟨identifier_nil, .leaf⟩
  | .regexp, _ => by simpa using ⟨identifier_nil, .leaf⟩
  | .rule hl h hg, ht => by
    have := hg.printable (h.printable hG (deepDefs_iff.1 hG _ _ (lookup_mem hl)))
    simpa using ⟨ht, this⟩
  | .named h hg, ht => by
    have := hg.printable (h.printable hG ht.2)
    simpa using ⟨ht.1, this⟩
  | .cut h, ht => h.printable hG ht.2
  | .scope h, ht => h.printable hG ht.2.1
  | .look h, ht => h.printable hG ht.2
  | .seq h, ht => h.printable hG ht.2
  | .oneof (i := i) hl h, ht => by
    simp only [List.forall_mem_cons]
    obtain ⟨h1, h2, h3⟩ := decimal_plain i
    exact ⟨⟨by decide +kernel, .extra h1 h2 h3⟩, h.printable hG (deepList_iff.1 ht.2 _ (List.mem_of_getElem? hl))⟩
  | .quant _ h, ht => h.printable hG ht.2
  | .delim h h', ht => by
    simp only [List.forall_mem_append]
    exact ⟨h.printable hG ht.2.1, h'.printable hG ht.2.1 ht.2.2⟩
  | .delimLead _ h, ht => by
    simp only [List.forall_mem_cons]
    exact ⟨⟨by decide +kernel, .extra (by decide +kernel) (by decide +kernel) (by decide +kernel)⟩, h.printable hG ht.2.1 ht.2.2⟩
  | .refLeaf, ht => by simpa using ⟨ht, .leaf⟩
  | .refNode h hg, ht => by
    have := hg.printable (h.printable hG ht)
    simpa using ⟨ht, this⟩
theorem PartsSeq.printable {G : Grammar} {ts vs ps} (hG : G.Deep Term.IdentifierName) : PartsSeq G ts vs ps → deepList Term.IdentifierName ts → ∀ p ∈ ps, Identifier p.1 ∧ Printable p.2
  | .nil, _ => by simp
  | .cons h h', ht => by
    simp only [List.forall_mem_append]
    exact ⟨h.printable hG ht.1, h'.printable hG ht.2⟩
theorem PartsReps.printable {G : Grammar} {t vs ps} (hG : G.Deep Term.IdentifierName) : PartsReps G t vs ps → t.Deep Term.IdentifierName → ∀ p ∈ ps, Identifier p.1 ∧ Printable p.2
  | .nil, _ => by simp
  | .cons h h', ht => by
    simp only [List.forall_mem_append]
    exact ⟨h.printable hG ht, h'.printable hG ht⟩
theorem PartsList.printable {G : Grammar} {t sep vs ps} (hG : G.Deep Term.IdentifierName) :
    PartsList G t sep vs ps → t.Deep Term.IdentifierName → sep.Deep Term.IdentifierName → ∀ p ∈ ps, Identifier p.1 ∧ Printable p.2
  | .nil, _, _ => by simp
  | .cons h h' h'', ht, hs => by
    simp only [List.forall_mem_append]
    exact ⟨⟨h.printable hG hs, h'.printable hG ht⟩, h''.printable hG ht hs⟩
  | .trail h, _, hs => by
    simp only [List.forall_mem_append]
    exact ⟨h.printable hG hs, by simpa using ⟨by decide +kernel, .extra (by decide +kernel) (by decide +kernel) (by decide +kernel)⟩⟩
end

/-- **C63** ASTs of parses print, and are such ASTs, if the names of the grammar are identifiers. Partial as `C31_groups_partial`. -/
theorem C63_parse_partial (hE : E.Sane) (hg : g.wf = true) (hc : g.compile E m = .ok ps) (hG : ps.grammar.ConvertibleIn G)
    (hN : G.Deep Term.IdentifierName) (hr : Identifier r ∧ r ≠ [] ∧ ¬ bullet <:+: r) (hesc : X.esc = none)
    (hin : inp.InRange) (hx : NoExt [ps.grammar] (.rule r)) (hp : PatternsSatisfy (ReportsGroup E) [ps.grammar] (.rule r)) {x cs}
    (h : ps.run E X ρ n r inp = .ok (.node r x cs) rest k) :
    ∃ b g' N s, (∀ n, N ≤ n → fromParserNode n ps.grammar (.node r x cs) = .ok (g', b)) ∧ Printable (.branch b) ∧ (Ast.branch b).string quote = some s := by
  obtain ⟨t, parts, b, g', N, hl, h1, h2, _, h3⟩ := C31_groups_partial hg hc hG hesc h
  have hm := lookup_mem (hG.sub _ _ hl)
  have hs := C02_leaves_inside hE hg hc hesc hin hx hp h
  have ht : (Ast.branch b).Tidy := h2.tidy (by
    simp only [List.forall_mem_cons]
    exact ⟨trivial, h1.tidy fun s hm => toStr_of_inside hin (hs s hm)⟩)
  obtain ⟨s, h4⟩ := tidy_string (quote := quote) _ ht
  refine ⟨b, g', N, s, h3, h2.printable ?_, h4⟩
  simp only [List.forall_mem_cons]
  exact ⟨⟨by decide +kernel, .extra hr.1 hr.2.1 hr.2.2⟩, h1.printable hN (deepDefs_iff.1 hN _ _ hm)⟩

namespace Ex

/-- Hexadecimal digit. -/
def hex (n : UInt8) : UInt8 := if n < 10 then 48 + n else 87 + n

/-- A quoting function: everything but printable ASCII as `\xNN`. -/
def quoteByte (c : UInt8) : Str := if c < 32 || 126 < c || c = 34 || c = 92 then [92, 120, hex (c / 16), hex (c % 16)] else [c]

def byteQuote (s : Str) : Str := 34 :: (s.flatMap quoteByte ++ [34])

theorem quoteByte_table : ∀ m < 256, (10 : UInt8) ∉ quoteByte (UInt8.ofNat m) ∧
    ((quoteByte (UInt8.ofNat m) = [92, 120, hex (UInt8.ofNat m / 16), hex (UInt8.ofNat m % 16)]) ∨ (quoteByte (UInt8.ofNat m) = [UInt8.ofNat m] ∧ UInt8.ofNat m ≠ 92 ∧ UInt8.ofNat m ≠ 34)) := by
  decide +kernel

theorem hex_table : ∀ m < 16, ∀ m' < 16, hex (UInt8.ofNat m) = hex (UInt8.ofNat m') → m = m' := by decide +kernel

theorem quoteByte_cases (c : UInt8) : (10 : UInt8) ∉ quoteByte c ∧
    ((quoteByte c = [92, 120, hex (c / 16), hex (c % 16)]) ∨ (quoteByte c = [c] ∧ c ≠ 92 ∧ c ≠ 34)) := by
  have := quoteByte_table c.toNat c.toNat_lt
  rwa [UInt8.ofNat_toNat] at this

theorem hex_inj {c d : UInt8} (h1 : hex (c / 16) = hex (d / 16)) (h2 : hex (c % 16) = hex (d % 16)) : c = d := by
  have e1 : ∀ c : UInt8, c / 16 = UInt8.ofNat (c.toNat / 16) := fun c => by apply UInt8.toNat_inj.1; have := c.toNat_lt; simp; omega
  have e2 : ∀ c : UInt8, c % 16 = UInt8.ofNat (c.toNat % 16) := fun c => by apply UInt8.toNat_inj.1; have := c.toNat_lt; simp; omega
  rw [e1, e1] at h1
  rw [e2, e2] at h2
  have hc := c.toNat_lt
  have hd := d.toNat_lt
  have := hex_table _ (by omega) _ (by omega) h1
  have := hex_table _ (by omega) _ (by omega) h2
  apply UInt8.toNat_inj.1
  omega

theorem quoteByte_append {c d : UInt8} {x y : Str} (h : quoteByte c ++ x = quoteByte d ++ y) : c = d ∧ x = y := by
  rcases (quoteByte_cases c).2 with e | ⟨e, h1, _⟩ <;> rcases (quoteByte_cases d).2 with e' | ⟨e', h2, _⟩ <;> rw [e, e'] at h <;> simp at h
  · exact ⟨hex_inj h.1 h.2.1, h.2.2⟩
  · exact absurd h.1.symm h2
  · exact absurd h.1 h1
  · exact h

theorem quoteByte_ne {c : UInt8} {x y : Str} : quoteByte c ++ x ≠ 34 :: y := by
  intro h
  rcases (quoteByte_cases c).2 with e | ⟨e, _, h1⟩ <;> rw [e] at h <;> simp at h
  exact h1 h.1

theorem byteQuote_quoting : Quoting byteQuote where
  opens s := ⟨_, rfl⟩
  line s := by
    simp only [byteQuote, List.mem_cons, List.mem_append, List.mem_flatMap, List.not_mem_nil, or_false]
    rintro (h | ⟨c, _, h⟩ | h)
    · exact absurd h (by decide)
    · exact (quoteByte_cases c).1 h
    · exact absurd h (by decide)
  reads := by
    have key : ∀ s t x y : Str, s.flatMap quoteByte ++ 34 :: x = t.flatMap quoteByte ++ 34 :: y → s = t ∧ x = y := by
      intro s
      induction s with
      | nil =>
        intro t x y h
        cases t with
        | nil => simpa using h
        | cons c t => rw [List.flatMap_cons, List.append_assoc] at h; exact absurd h.symm quoteByte_ne
      | cons c s ih =>
        intro t x y h
        cases t with
        | nil => rw [List.flatMap_cons, List.append_assoc] at h; exact absurd h quoteByte_ne
        | cons d t =>
          rw [List.flatMap_cons, List.flatMap_cons, List.append_assoc, List.append_assoc] at h
          obtain ⟨rfl, h1⟩ := quoteByte_append h
          obtain ⟨rfl, h2⟩ := ih t x y h1
          exact ⟨rfl, h2⟩
    intro s t x y h
    refine key s t x y ?_
    simpa [byteQuote] using h

/-- The bytes of a text with `‣`. -/
def printed (s : String) : Str := s.toList.flatMap fun c => if c = '‣' then bullet else [UInt8.ofNat c.toNat]

/-- What is printed for the AST of a parse. -/
def astText (g : Grammar) (r s : String) : Option Str :=
  match ast g r s with
  | some (.ok (_, b)) => (Ast.branch b).string byteQuote
  | _ => none

def sub (s : String) (a b : Int) : Scanner := (newScanner (str s)).sub a b

/-- The AST of a list with names, in two orders of the map. -/
def listAst : Ast := .branch [(str "b", .many [.leaf (sub "x,\"y" 0 1), .leaf (sub "x,\"y" 2 4)]), ([], .one (.leaf (sub "x,\"y" 1 2))), (str "@rule", .one (.extra (.rule (str "a"))))]
def listAst' : Ast := .branch [([], .one (.leaf (sub "x,\"y" 1 2))), (str "@rule", .one (.extra (.rule (str "a")))), (str "b", .many [.leaf (sub "x,\"y" 0 1), .leaf (sub "x,\"y" 2 4)])]

end Ex

/-- **C63** Not for all ASTs made by hand: a datum can look like a leaf, a name like the start of a child. -/
theorem C63_not_always : (Ast.extra (.text (Ex.printed "0‣x"))).string quote = (Ast.leaf (Ex.sub "x" 0 1)).string quote ∧
    (Ast.branch [(str "a: b", .one (.extra (.text (str "c"))))]).string quote = (Ast.branch [(str "a", .one (.extra (.text (str "b: c"))))]).string quote := by
  refine ⟨?_, ?_⟩
  · simp only [Ast.string]
    have : (Ex.sub "x" 0 1).toStr = some [120] := by decide +kernel
    simp only [leafString, this, Option.map_some]
    rw [if_neg (by decide +kernel)]
    decide +kernel
  · simp only [Ast.string, entryStrings, Kids.string]
    decide +kernel

/-- **C63** The texts of parse trees do not tell them apart: one leaf, two leaves. -/
theorem C63_tree_ambiguous : (Tree.node (str "a") .nil [.leaf (Ex.sub "x, y" 0 4)]).format = (Tree.node (str "a") .nil [.leaf (Ex.sub "x, y" 0 1), .leaf (Ex.sub "x, y" 3 4)]).format := by
  decide +kernel

open Ex in
/-- The same AST in two orders, and its text. -/
example : Printable listAst ∧ Printable listAst' ∧ Alike listAst listAst' ∧
    listAst.string byteQuote = some (printed "(\n  '': 1‣\",\",\n  @rule: a,\n  b: [0‣x, 2‣`\"y`],\n)") ∧ listAst'.string byteQuote = listAst.string byteQuote := by
  refine ⟨?_, ?_, ?_, by decide +kernel, by decide +kernel⟩
  · exact .branch (by decide +kernel) (by decide +kernel)
      (.cons (.many (.cons .leaf (.cons .leaf .nil))) (.cons (.one .leaf) (.cons (.one (.extra (by decide +kernel) (by decide +kernel) (by decide +kernel))) .nil)))
  · exact .branch (by decide +kernel) (by decide +kernel)
      (.cons (.one .leaf) (.cons (.one (.extra (by decide +kernel) (by decide +kernel) (by decide +kernel))) (.cons (.many (.cons .leaf (.cons .leaf .nil))) .nil)))
  · exact .branch (c := [_, _, _]) (.refl _)
      (.cons (.many (.cons (.leaf rfl rfl) (.cons (.leaf rfl rfl) .nil))) (.cons (.one (.leaf rfl rfl)) (.cons (.one (.extra rfl)) .nil)))
      ((List.Perm.swap _ _ _).trans ((List.Perm.swap _ _ _).cons _))

open Ex in
/-- Quoting, the hypotheses on the grammar, and the text of the AST of `1+2`. -/
example : Quoting byteQuote ∧ gSum.wf = true ∧ gSum.compile regexp 50 = .ok (comp! gSum) ∧ (comp! gSum).grammar.Convertible ∧
    (comp! gSum).grammar.Deep Term.IdentifierName ∧ (Identifier (str "a") ∧ str "a" ≠ [] ∧ ¬ bullet <:+: str "a") ∧
    PatternsSatisfy (ReportsGroup regexp) [(comp! gSum).grammar] (.rule (str "a")) ∧ NoExt [(comp! gSum).grammar] (.rule (str "a")) ∧
    astText gSum "a" "1+2" = some (printed "(\n  '': [1‣+],\n  @rule: a,\n  a: [\n    (a: (\n      '': [0‣1],\n      @choice: [0],\n    )),\n    (a: (\n      '': [2‣2],\n      @choice: [0],\n    )),\n  ],\n)") := by
  have h := plainLeaf_check (q := Regex.setsLast) (Q := ReportsGroup regexp)
    (fun p => Regex.reportsGroup) (g := (comp! gSum).grammar) (by rfl) (by decide +kernel) (str "a")
  refine ⟨byteQuote_quoting, by decide +kernel, comp_ok (by decide +kernel), gSum_convertible, ?_, by decide +kernel, h.1, h.2.2, by decide +kernel⟩
  rw [gSum_compiled]
  have h1 : Identifier (shownName (str "a@1")) := by decide +kernel
  have h2 : Identifier (shownName (str "a@2")) := by decide +kernel
  have h3 : Identifier (shownName (str "a")) := by decide +kernel
  simp [Grammar.Deep, deepDefs, Term.Deep, deepList, Term.IdentifierName, h1, h2, h3]

end Wbnf

import Verif.Lemmas.CodegenLayers
import Verif.Lemmas.CodegenOrder
import Verif.Props.Stacks

/-!
# C42, C50: the grammars written by the code generator

Specifications: `goValue`, `GoText` (Spec/GoCode: what Go source denotes), `Grammar.GoWritable` (Spec/Codegen), `Layered`
(Spec/Stacks), `Reord` (Spec/Reorder).
-/

namespace Wbnf

variable {E : Engine} {X : Externals} {g gr : Grammar} {m : Nat} {ps : Parsers}

/-! ## C42 -/

/-- **C42** The literal written for the compiled grammar `g` is Go source and denotes a grammar that stands for the same rules
as `g`, up to the order of rules of grammars in braces. (A stack is written as a stack; in its last layer `@` is written as the
name of the rule, hence not simply `g`.) Not all grammars can be written (`C42_quant`, `C42_carriage_return`, `C42_not_text`),
hence `_partial`. -/
theorem C42_literal_partial (hw : g.GoWritable) (hc : g.compile E m = .ok ps) : GoText (grammarLiteral ps.grammar) ∧
    ∃ h, goValue (grammarLiteral ps.grammar) = some (.grammar h) ∧
      (∀ k t, Layered g k t → ∃ t', Layered h k t' ∧ Reord t t') ∧
      (∀ k t', Layered h k t' → ∃ t, Layered g k t ∧ Reord t t') := by
  obtain ⟨h1, h, hr, h2, h3, h4, h5, h6, _⟩ := literal_denotes hw (compile_grammar hc)
  have iG := fun k t => resolveStacks_iff (k := k) (t := t) hw.2 hw.fresh (compile_grammar hc)
  have iH := fun k t => resolveStacks_iff (k := k) (t := t) h3 h4 h5
  refine ⟨h1, h, h2, fun k t hl => ?_, fun k t' hl => ?_⟩
  · obtain ⟨t', h7, h8, _⟩ := (h6 k).2 t ((iG k t).2 hl)
    exact ⟨t', (iH k t').1 h7, h8⟩
  · obtain ⟨t, h7, h8, _⟩ := (h6.symm k).2 t' ((iH k t').2 hl)
    exact ⟨t, (iG k t).1 h7, h8.symm⟩

/-- **C42** What is denoted can be compiled, and its parsers do the same as those of `g` with every rule and input. -/
theorem C42_behaves (hw : g.GoWritable) (hg : g.wf = true) (hc : g.compile E m = .ok ps) :
    ∃ h, goValue (grammarLiteral ps.grammar) = some (.grammar h) ∧ (∃ N ps', ∀ n, N ≤ n → h.compile E n = .ok ps') ∧
      ∀ m' ps', h.compile E m' = .ok ps' → ∀ X : Externals, X.Plain → ∀ r inp o,
        ps.Yields E X r inp o ↔ ps'.Yields E X r inp o := by
  obtain ⟨_, h, hr, h2, h3, h4, h5, h6, h7⟩ := literal_denotes hw (compile_grammar hc)
  refine ⟨h, h2, ?_, fun m' ps' hc' X hX r inp o => ?_⟩
  · rw [compile_iff]
    have hcomp : g.Compilable E := compile_iff.1 ⟨m, ps, fun n hn => by rw [compile_mono_le hn (by rw [hc]; simp), hc]⟩
    obtain ⟨g1, i1, i2⟩ := hcomp
    rw [compile_grammar hc] at i1
    cases i1
    exact ⟨hr, h5, h6.rules (resolveStacks_distinct (compile_grammar hc) hw.2) (resolveStacks_distinct h5 h3)
      (fun t t' hr ht hP => hP.reord h6.wrap hr ht) i2⟩
  · rw [yields_iff hg hc hX, yields_iff (h7 hg) hc' hX]
    have := compile_grammar hc'
    rw [h5] at this
    cases this
    exact sameShape_reord.peg_iff ⟨.cons h6 .nil, .rule, trivial⟩

/-- The grammar a text denotes. -/
def goGrammar (s : Str) : Option Grammar :=
  match goValue s with
  | some (.grammar g) => some g
  | _ => none

namespace Ex

/-- `a -> "``" b:"," | x="y"* %x="z"; b -> @:"+" > /{\d} (c {c -> "1"; d -> @ c > "2";});`, but the grammar in braces is a rule
of its own, as stacks cannot contain any. -/
def gWrite : Grammar := [
  (str "b", .stack [.delim (.rule atRule) (.s (str "+")) 1 true false, .oneof [.re (str "\\d"), .seq [.s (str "("), .rule atRule, .s (str ")")]]]),
  (str "a", .oneof [.seq [.s (str "``"), .delim (.rule (str "b")) (.s (str ",")) 0 false true, .rule (str "c")],
    .seq [.named (str "x") (.quant (.s (str "y")) 0 0), .cut (.s (str "z")), .ref (str "x") (some (.s (str "z")))]]),
  (str "c", .scope (.rule (str "d")) [(str "d", .stack [.seq [.look (.s (str "1")), .rule atRule], .s (str "1")]), (str "c", .s (str "2"))])]

/-- What its literal denotes: rules are in alphabetical order. -/
def gWritten : Grammar := [
  (str "a", .oneof [.seq [.s (str "``"), .delim (.rule (str "b")) (.s (str ",")) 0 false true, .rule (str "c")],
    .seq [.named (str "x") (.quant (.s (str "y")) 0 0), .cut (.s (str "z")), .ref (str "x") (some (.s (str "z")))]]),
  (str "b", .stack [.delim (.rule atRule) (.s (str "+")) 1 true false, .oneof [.re (str "\\d"), .seq [.s (str "("), .rule (str "b"), .s (str ")")]]]),
  (str "c", .scope (.rule (str "d")) [(str "c", .s (str "2")), (str "d", .stack [.seq [.look (.s (str "1")), .rule atRule], .s (str "1")])])]

end Ex

theorem LiteralText.ascii {s : Str} (h : Ascii s) (h' : (13 : UInt8) ∉ s) : LiteralText s := ⟨.ascii h, h'⟩
theorem PlainText.ascii {s : Str} (h : Ascii s) (h' : ∀ c ∈ s, c ≠ 96 ∧ c ≠ 34 ∧ c ≠ 92 ∧ c ≠ 10 ∧ c ≠ 13) : PlainText s :=
  ⟨.ascii h, h'⟩

open Ex in
/-- The hypotheses of the theorems above, and what they come to. -/
example : gWrite.GoWritable ∧ gWrite.wf = true ∧ gWrite.compile regexp 50 = .ok (comp! gWrite) ∧
    goGrammar (grammarLiteral (comp! gWrite).grammar) = some gWritten := by
  have hn : ∀ s, Ascii s → (∀ c ∈ s, c ≠ 96 ∧ c ≠ 34 ∧ c ≠ 92 ∧ c ≠ 10 ∧ c ≠ 13) → (64 : UInt8) ∉ s → RuleName s :=
    fun s h h' h'' => ⟨.ascii h h', h''⟩
  refine ⟨⟨?_, by unfold Grammar.Distinct gWrite; decide⟩, by decide +kernel, comp_ok (by decide +kernel), by decide +kernel⟩
  unfold gWrite
  simp only [goWritableDefs, Term.GoWritable, goWritableList, WritableDflt, WritableBounds, and_true, Grammar.Distinct]
  refine ⟨hn _ (by decide) (by decide) (by decide), ⟨⟨.inl rfl, ?_, by decide⟩, ?_, ?_, .inl rfl, ?_⟩, ?_⟩
  · exact .ascii (by decide) (by decide)
  · exact .ascii (by decide) (by decide)
  · exact .ascii (by decide) (by decide)
  · exact .ascii (by decide) (by decide)
  refine ⟨hn _ (by decide) (by decide) (by decide), ⟨⟨?_, ⟨.inr (hn _ (by decide) (by decide) (by decide)), ?_, by decide⟩,
    .inr (hn _ (by decide) (by decide) (by decide))⟩, ⟨?_, ?_, by decide⟩, ?_, ?_, ?_⟩, ?_⟩
  · exact .ascii (by decide) (by decide)
  · exact .ascii (by decide) (by decide)
  · exact .ascii (by decide) (by decide)
  · exact .ascii (by decide) (by decide)
  · exact .ascii (by decide) (by decide)
  · exact .ascii (by decide) (by decide)
  · exact .ascii (by decide) (by decide)
  refine ⟨hn _ (by decide) (by decide) (by decide), .inr (hn _ (by decide) (by decide) (by decide)),
    ⟨hn _ (by decide) (by decide) (by decide), ⟨⟨?_, .inl rfl⟩, ?_⟩, hn _ (by decide) (by decide) (by decide), ?_⟩, by decide⟩
  · exact .ascii (by decide) (by decide)
  · exact .ascii (by decide) (by decide)
  · exact .ascii (by decide) (by decide)

/-- **C42** fails for other quantifiers: in `parser.Quant{t, Min: 2, Max: 3}` some fields are named and some are not, which Go
does not accept. (`a -> "x"{2,3};`) -/
theorem C42_quant : (goValue (grammarLiteral (Ex.comp! [(str "a", .quant (.s (str "x")) 2 3)]).grammar)).isNone = true := by
  decide +kernel

/-- **C42** fails for carriage returns, which Go drops from strings in back quotes. (`a -> "x\ry";`) -/
theorem C42_carriage_return :
    goGrammar (grammarLiteral (Ex.comp! [(str "a", .s [120, 13, 121])]).grammar) = some [(str "a", .s (str "xy"))] := by
  decide +kernel

theorem GoText.bytes {s : Str} (h : GoText s) : (0 : UInt8) ∉ s ∧ (255 : UInt8) ∉ s := by
  obtain ⟨cs, rfl, hc⟩ := h
  have key : ∀ c ∈ cs, (0 : UInt8) ∉ String.utf8EncodeChar c ∧ (255 : UInt8) ∉ String.utf8EncodeChar c := by
    intro c hm
    have h0 := (hc c hm).1
    have hb : ∀ n : Nat, 0 < n → n < 255 → (0 : UInt8) ≠ UInt8.ofNat n ∧ (255 : UInt8) ≠ UInt8.ofNat n := by
      intro n h1 h2
      constructor <;> intro e <;> have := congrArg UInt8.toNat e <;> simp at this <;> omega
    unfold String.utf8EncodeChar
    simp only
    split
    · rename_i h1
      have h2 : 0 < c.val.toNat := by
        have : c.val.toNat ≠ 0 := h0
        omega
      have := hb c.val.toNat h2 (by omega)
      simpa using this
    · split
      · have a1 := hb (c.val.toNat / 64 % 32 + 192) (by omega) (by omega)
        have a2 := hb (c.val.toNat % 64 + 128) (by omega) (by omega)
        simp only [List.mem_cons, List.not_mem_nil, or_false, not_or]
        exact ⟨⟨a1.1, a2.1⟩, a1.2, a2.2⟩
      · split
        · have a1 := hb (c.val.toNat / 4096 % 16 + 224) (by omega) (by omega)
          have a2 := hb (c.val.toNat / 64 % 64 + 128) (by omega) (by omega)
          have a3 := hb (c.val.toNat % 64 + 128) (by omega) (by omega)
          simp only [List.mem_cons, List.not_mem_nil, or_false, not_or]
          exact ⟨⟨a1.1, a2.1, a3.1⟩, a1.2, a2.2, a3.2⟩
        · have a1 := hb (c.val.toNat / 262144 % 8 + 240) (by omega) (by omega)
          have a2 := hb (c.val.toNat / 4096 % 64 + 128) (by omega) (by omega)
          have a3 := hb (c.val.toNat / 64 % 64 + 128) (by omega) (by omega)
          have a4 := hb (c.val.toNat % 64 + 128) (by omega) (by omega)
          simp only [List.mem_cons, List.not_mem_nil, or_false, not_or]
          exact ⟨⟨a1.1, a2.1, a3.1, a4.1⟩, a1.2, a2.2, a3.2, a4.2⟩
  constructor
  · intro hm
    obtain ⟨c, h1, h2⟩ := List.mem_flatMap.1 hm
    exact (key c h1).1 h2
  · intro hm
    obtain ⟨c, h1, h2⟩ := List.mem_flatMap.1 hm
    exact (key c h1).2 h2

/-- **C42** fails for bytes that are not text: what is written is not Go source. (A NUL, and a byte that is not UTF-8.) -/
theorem C42_not_text : ¬ GoText (grammarLiteral (Ex.comp! [(str "a", .s [0])]).grammar) ∧
    ¬ GoText (grammarLiteral (Ex.comp! [(str "a", .s [255])]).grammar) :=
  ⟨fun h => h.bytes.1 (by decide +kernel), fun h => h.bytes.2 (by decide +kernel)⟩

/-! ## C50 -/

/-- **C50** The literal written for a grammar does not depend on the order in which Go iterates over its rules, nor over those
of grammars in braces: generated code is the same every time. -/
theorem C50_order {g' : Grammar} (hd : g.Distinct) (ht : tidyDefs g) (h : ReordDefs g g') : grammarLiteral g = grammarLiteral g' := by
  simp only [grammarLiteral, makeGrammarString]
  rw [grammarNode_perm (h.walk ht) (by rw [keys_walkDefs]; exact hd)]

/-- The hypotheses, with two different orders. -/
example : Grammar.Distinct Ex.gOrder ∧ tidyDefs Ex.gOrder ∧ ReordDefs Ex.gOrder Ex.gOrder' ∧ Ex.gOrder ≠ Ex.gOrder' := by
  refine ⟨by unfold Grammar.Distinct Ex.gOrder; decide, ?_, ?_, by decide +kernel⟩
  · simp only [Ex.gOrder, tidyDefs, Term.Tidy, tidyList, true_and, and_true]
    refine ⟨by unfold Grammar.Distinct; decide, ?_⟩
    intro r ls i t hm
    simp at hm
  · refine .trans .swap (.cons (.refl _) (.cons ?_ .nil))
    exact .seq (.cons .rule (.cons .s (.cons (.scope (.refl _) .swap) .nil)))

end Wbnf

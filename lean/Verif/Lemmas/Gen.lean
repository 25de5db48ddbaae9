import Verif.Spec.Gen
import Verif.Lemmas.AstReorder
import Verif.Lemmas.NodeFuel
import Verif.Props.Codegen
import Verif.Props.Semantics

/-! # What a generated package does: lemmas -/

namespace Wbnf

variable {E : Engine} {u : Str → Bool} {ref : Str → Prop}

theorem keys_rebuild {f : Term → Term} {d : Bool} : (g : List (Str × Term)) → (rebuildGrammar f d g).map Prod.fst = g.map Prod.fst
  | [] => rfl
  | (_, _) :: g => by simp [rebuildGrammar, keys_rebuild g]

theorem Grammar.Distinct.rebuild {f : Term → Term} {d : Bool} {g : Grammar} (h : g.Distinct) : Grammar.Distinct (rebuildGrammar f d g) := by
  unfold Grammar.Distinct
  rw [keys_rebuild]
  exact h

mutual
theorem goWritable_fix : (t : Term) → t.GoWritable ref → (fixTerm (cutLiteral u) true t).GoWritable ref
  | .s l, h => by
    simp only [fixTerm, cutLiteral]
    split
    · exact h
    · exact h
  | .seq ts, h => goWritableList_fix ts h
  | .oneof ts, h => goWritableList_fix ts h
  | .stack ts, h => goWritableList_fix ts h
  | .delim t sep _ _ _, h => ⟨goWritable_fix t h.1, goWritable_fix sep h.2.1, h.2.2⟩
  | .look _, h => h
  | .quant t _ _, h => ⟨goWritable_fix t h.1, h.2⟩
  | .named _ t, h => ⟨h.1, goWritable_fix t h.2⟩
  | .scope t g, h => ⟨goWritable_fix t h.1, goWritableDefs_fix g h.2.1, Grammar.Distinct.rebuild h.2.2⟩
  | .cut t, h => goWritable_fix t h
  | .ref _ _, h => h
  | .rule _, h => h
  | .re _, h => h
  | .ext _, h => h
theorem goWritableList_fix : (ts : List Term) → goWritableList ref ts → goWritableList ref (fixTerms (cutLiteral u) true ts)
  | [], _ => trivial
  | t :: ts, h => ⟨goWritable_fix t h.1, goWritableList_fix ts h.2⟩
theorem goWritableDefs_fix : (g : List (Str × Term)) → goWritableDefs ref g → goWritableDefs ref (rebuildGrammar (cutLiteral u) true g)
  | [], _ => trivial
  | (_, t) :: g, h => ⟨h.1, goWritable_fix t h.2.1, goWritableDefs_fix g h.2.2⟩
end

theorem Grammar.GoWritable.cut {g : Grammar} (h : g.GoWritable) : (insertCutPoints g).GoWritable :=
  ⟨goWritableDefs_fix g h.1, h.2.rebuild⟩

/-! ## The start rule -/

theorem identName_value {s : Str} (h : PlainText s) : goValue (identName s) = some (.str s) ∧ GoText (identName s) := by
  have h1 : (34 : UInt8) ∉ s := fun m => (h.2 _ m).2.1 rfl
  have h2 : (92 : UInt8) ∉ s := fun m => (h.2 _ m).2.2.1 rfl
  have h3 : (10 : UInt8) ∉ s := fun m => (h.2 _ m).2.2.2.1 rfl
  constructor
  · have := lexRun_quotes (b := false) h1 h2 h3
    unfold goValue goTokens identName
    have e : (34 :: (s ++ [34]) : Str) = str "\"" ++ s ++ str "\"" := by
      have : str "\"" = [34] := by decide
      simp [this]
    rw [e, this]
    rfl
  · have e : identName s = [34] ++ (s ++ [34]) := rfl
    rw [e]
    exact (GoText.ascii (by intro c hc; simp at hc; subst hc; decide)).append (h.1.append (.ascii (by intro c hc; simp at hc; subst hc; decide)))

/-! ## ASTs -/

theorem hasAst_iff {H : Grammar} {v : Tree} {b : Branch} : HasAst H v b ↔ ∃ n H', fromParserNode n H v = .ok (H', b) := by
  constructor
  · rintro ⟨N, H', h⟩
    exact ⟨N, H', h N (Nat.le_refl _)⟩
  · rintro ⟨n, H', h⟩
    exact ⟨n, H', fun m hm => fromParserNode_mono hm h⟩

theorem HasAst.same {H H' : Grammar} {v : Tree} {b : Branch} (h : SameDefs H H') (ha : HasAst H v b) : HasAst H' v b := by
  obtain ⟨n, K, hn⟩ := hasAst_iff.1 ha
  have := fromParserNode_same (n := n) h v
  rw [hn] at this
  cases hn' : fromParserNode n H' v with
  | error e => rw [hn'] at this; exact this.elim
  | ok s =>
    rw [hn'] at this
    obtain ⟨-, rfl⟩ := this
    exact hasAst_iff.2 ⟨n, _, hn'⟩

/-! ## Parsing and converting -/

section
variable {g : Grammar} {m : Nat} {ps : Parsers} {r : Str} {inp : Scanner}

theorem parseNode_node (hg : g.wf = true) (hc : g.compile E m = .ok ps) {b : Branch} (h : MatchesAll E ps.grammar r inp b) :
    AlwaysGives (fun ρ n => parseNode E ps r ρ n inp) (.node b) := by
  obtain ⟨v, rest, h1, h2, M, H', h3⟩ := h
  obtain ⟨N, K, hK⟩ := C11_complete hg hc plain_noExternals h1
  refine ⟨max N M, K, fun ρ hd n hn => ?_⟩
  simp only [parseNode, (hK ρ hd n (by omega)).2.1 h2, h3 n (by omega)]

theorem parseNode_err (hg : g.wf = true) (hc : g.compile E m = .ok ps) (h : MatchesNotAll E ps.grammar r inp) :
    AlwaysGives (fun ρ n => parseNode E ps r ρ n inp) .err := by
  rcases h with h | h | ⟨v, rest, x, h, h2, h3⟩
  · obtain ⟨N, K, hK⟩ := C11_complete hg hc plain_noExternals h
    refine ⟨N, K, fun ρ hd n hn => ?_⟩
    obtain ⟨e, i, -, h⟩ := (hK ρ hd n hn).2
    simp only [parseNode, h]
  · obtain ⟨N, K, hK⟩ := C11_complete hg hc plain_noExternals h
    refine ⟨N, K, fun ρ hd n hn => ?_⟩
    obtain ⟨e, i, -, h⟩ := (hK ρ hd n hn).2
    simp only [parseNode, h]
  · obtain ⟨N, K, hK⟩ := C11_complete hg hc plain_noExternals h
    refine ⟨N, K, fun ρ hd n hn => ?_⟩
    simp only [parseNode, (hK ρ hd n hn).2.2 x h2 h3]

/-- What one run gives is so. -/
theorem parseNode_sound (hg : g.wf = true) (hc : g.compile E m = .ok ps) {ρ : Nat → Nat} {n : Nat}
    (hd : DistinctDraws noExternals ρ (ps.draws E noExternals ρ n r inp)) :
    (∀ b, parseNode E ps r ρ n inp = .node b → MatchesAll E ps.grammar r inp b) ∧ (parseNode E ps r ρ n inp = .err → MatchesNotAll E ps.grammar r inp) := by
  have hs := C11_sound hg hc plain_noExternals hd
  unfold parseNode
  constructor
  · intro b h
    split at h
    · cases h
    · cases h
    · cases h
    · next v i hp =>
      split at h
      · cases h
      · cases h
      · next H' b' hf =>
        cases h
        obtain ⟨h1, h2⟩ := hs.1 _ _ hp
        exact ⟨v, i, h1, h2, hasAst_iff.2 ⟨n, _, hf⟩⟩
  · intro h
    split at h
    · cases h
    · cases h
    · next e i hp =>
      rcases hs.2 _ _ hp with ⟨v, x, -, h1, h2, h3⟩ | ⟨-, h1⟩ | ⟨-, h1⟩
      · exact .inr (.inr ⟨v, i, x, h1, h2, h3⟩)
      · exact .inl h1
      · exact .inr (.inl h1)
    · split at h <;> cases h

theorem parseNode_iff (hg : g.wf = true) (hc : g.compile E m = .ok ps) :
    (∀ b, AlwaysGives (fun ρ n => parseNode E ps r ρ n inp) (.node b) ↔ MatchesAll E ps.grammar r inp b) ∧
      (AlwaysGives (fun ρ n => parseNode E ps r ρ n inp) .err ↔ MatchesNotAll E ps.grammar r inp) := by
  obtain ⟨B, hB⟩ := plain_noExternals.bounded
  have hρ := fun K => (good_canonical hB).distinct (K := K)
  refine ⟨fun b => ⟨fun ⟨N, K, h⟩ => ?_, parseNode_node hg hc⟩, fun ⟨N, K, h⟩ => ?_, parseNode_err hg hc⟩
  · exact (parseNode_sound hg hc (hρ _)).1 _ (h _ (hρ K) N (Nat.le_refl _))
  · exact (parseNode_sound hg hc (hρ _)).2 (h _ (hρ K) N (Nat.le_refl _))

/-- Fuel for compiling does not matter. -/
theorem AlwaysGives.congr {c c' : (Nat → Nat) → Nat → PkgRes} {N : Nat} (h : ∀ ρ n, N ≤ n → c ρ n = c' ρ n) {x : PkgRes} :
    AlwaysGives c x ↔ AlwaysGives c' x := by
  constructor
  · rintro ⟨M, K, hM⟩
    exact ⟨max N M, K, fun ρ hd n hn => by rw [← h ρ n (by omega)]; exact hM ρ hd n (by omega)⟩
  · rintro ⟨M, K, hM⟩
    exact ⟨max N M, K, fun ρ hd n hn => by rw [h ρ n (by omega)]; exact hM ρ hd n (by omega)⟩

end

/-- The same rules match the same, with the same ASTs. -/
theorem SameDefs.denotes {H H' : Grammar} (h : SameDefs H H') {r : Str} {inp : Scanner} {o : Out} :
    Denotes E noExternals H r inp o ↔ Denotes E noExternals H' r inp o :=
  sameShape_reord.peg_iff ⟨.cons h .nil, .rule, trivial⟩

theorem SameDefs.matchesAll {H H' : Grammar} (h : SameDefs H H') {r : Str} {inp : Scanner} {b : Branch} (hm : MatchesAll E H r inp b) : MatchesAll E H' r inp b := by
  obtain ⟨v, rest, h1, h2, h3⟩ := hm
  exact ⟨v, rest, h.denotes.1 h1, h2, h3.same h⟩

theorem SameDefs.matchesNotAll {H H' : Grammar} (h : SameDefs H H') {r : Str} {inp : Scanner} (hm : MatchesNotAll E H r inp) : MatchesNotAll E H' r inp := by
  rcases hm with h1 | h1 | ⟨v, rest, x, h1, h2⟩
  · exact .inl (h.denotes.1 h1)
  · exact .inr (.inl (h.denotes.1 h1))
  · exact .inr (.inr ⟨v, rest, x, h.denotes.1 h1, h2⟩)

/-- What the functions of the package do. -/
theorem pkgParse_iff {g : Grammar} {m : Nat} {ps : Parsers} (hw : g.GoWritable) (hg : g.wf = true) (hc : g.compile E m = .ok ps) :
    GoText (grammarLiteral ps.grammar) ∧ ∃ h, goValue (grammarLiteral ps.grammar) = some (.grammar h) ∧
      ∀ r inp, (∀ b, AlwaysGives (fun ρ n => pkgParse E h r ρ n inp) (.node b) ↔ MatchesAll E ps.grammar r inp b) ∧
        (AlwaysGives (fun ρ n => pkgParse E h r ρ n inp) .err ↔ MatchesNotAll E ps.grammar r inp) ∧
        (lookup r ps.grammar = none → AlwaysGives (fun ρ n => pkgParse E h r ρ n inp) .panic) := by
  obtain ⟨h0, h, hr, h2, h3, h4, h5, h6, h7⟩ := literal_denotes hw (compile_grammar hc)
  obtain ⟨h', h2', ⟨N, ps', hN⟩, -⟩ := C42_behaves hw hg hc
  rw [h2] at h2'
  cases h2'
  have e : ps'.grammar = hr := by
    have := compile_grammar (hN N (Nat.le_refl _))
    rw [h5] at this
    exact (Option.some.inj this).symm
  refine ⟨h0, h, h2, fun r inp => ?_⟩
  have hh : ∀ ρ n, N ≤ n → pkgParse E h r ρ n inp = parseNode E ps' r ρ n inp := fun ρ n hn => by simp only [pkgParse, hN n hn]
  obtain ⟨i1, i2⟩ := parseNode_iff (r := r) (inp := inp) (h7 hg) (hN N (Nat.le_refl _))
  rw [e] at i1 i2
  refine ⟨fun b => ?_, ?_, fun hl => ?_⟩
  · rw [AlwaysGives.congr hh, i1]
    exact ⟨h6.symm.matchesAll, h6.matchesAll⟩
  · rw [AlwaysGives.congr hh, i2]
    exact ⟨h6.symm.matchesNotAll, h6.matchesNotAll⟩
  · rw [AlwaysGives.congr hh]
    have h8 := ((compileRules_lookup (compile_inv (hN N (Nat.le_refl _))).2 r).1).2 (by rw [e]; exact (h6 r).1.1 hl)
    exact ⟨0, 0, fun ρ _ n _ => by simp [parseNode, Parsers.parse, Parsers.run, h8, Res.top]⟩

end Wbnf

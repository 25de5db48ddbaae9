import Verif.Props.Ast
import Verif.Lemmas.ToTree

/-!
# C33: ToParserNode
-/

namespace Wbnf

variable {E : Engine} {X : Externals} {g : Grammar} {m n k : Nat} {ps : Parsers} {r : Str} {inp rest : Scanner} {v : Tree} {ρ : Nat → Nat}

/-- **C33** ToParserNode gives back the tree of a parse from the branch that FromParserNode makes of it, and
neither changes the grammar. Partial: for grammars whose trees convert (C31) and whose rules can be read back:
wherever a term may be there or not, or once more, the names that are left must tell (`Term.Readable`, from the
grammar alone). See the witnesses below for what is left out. -/
theorem C33_round_trip_partial (hg : g.wf = true) (hc : g.compile E m = .ok ps) (hG : ps.grammar.Convertible) (hR : ps.grammar.Readable)
    (hesc : X.esc = none) {x cs} (h : ps.run E X ρ n r inp = .ok (.node r x cs) rest k) :
    ∃ b N, ∀ n, N ≤ n → fromParserNode n ps.grammar (.node r x cs) = .ok (ps.grammar, b) ∧
      toParserNode n ps.grammar b = .ok (some (.node r x cs), ps.grammar) := by
  obtain ⟨t, parts, b, N, hl, hp, hb, hN⟩ := C31_unchanged_partial hg hc hG hesc h
  have hm := lookup_mem hl
  have hdt := deepDefs_iff.1 hG.deep _ _ hm
  obtain ⟨rule', w', hcf, hw⟩ := (C04_conforms hg hc hesc h).definition hG hR hl
  obtain ⟨M, hM⟩ := hp.back hG hR hcf hw (hR _ _ hm).2.2 hdt
  obtain ⟨ctrs, h1, h2⟩ := fits_new (hG.apart _ _ hm) hdt
  have ha : alone t ruleTag = true := by
    refine alone_iff.2 ⟨fun n ht => ?_, by decide, by decide⟩
    have := times_zero (fun q hq => ((hG.apart _ _ hm).2 q hq).2.2) hdt ht
    omega
  obtain ⟨b1, h3, h4⟩ := pullOne_some ha hb.keeps
  refine ⟨b, max N M, fun n hn => ⟨hN n (by omega), ?_⟩⟩
  obtain ⟨b2, h5, _⟩ := hM n (by omega) ctrs _ [] b1 h2 (by simp) (by simpa using h4)
  simp only [toParserNode, h3, Except.bind, hl, h1, h5, Option.map_some, relabel]

namespace Ex

/-- What the round trip makes of the tree of a parse. -/
inductive Trip where
  | same | other | nil | panics | noParse
deriving DecidableEq

def trip (g : Grammar) (r s : String) : Trip :=
  match runTop g r s with
  | .ok v _ =>
    match fromParserNode 100 (comp! g).grammar v with
    | .ok (g', b) =>
      match toParserNode 100 g' b with
      | .ok (some v', _) => if v' = v then .same else .other
      | .ok (none, _) => .nil
      | .error _ => .panics
    | .error _ => .panics
  | _ => .noParse

/-- `a -> "x"? "y" "z";` -/
def gOpt : Grammar := [(str "a", .seq [.quant (.s (str "x")) 0 1, .s (str "y"), .s (str "z")])]

/-- `a -> (n="x" m="y"?)+ "z";` -/
def gPair : Grammar := [(str "a", .seq [.quant (.seq [.named (str "n") (.s (str "x")), .quant (.named (str "m") (.s (str "y"))) 0 1]) 1 0, .s (str "z")])]

/-- `a -> n="x":,"-",;`: separators may come first and last. -/
def gFlags : Grammar := [(str "a", .delim (.named (str "n") (.s (str "x"))) (.s (str "-")) 0 true true)]

/-- `a -> b "z"; b -> n=("x" "y");`: the node of `b` is tagged `n`. -/
def gRetag : Grammar := [(str "a", .seq [.rule (str "b"), .s (str "z")]), (str "b", .named (str "n") (.seq [.s (str "x"), .s (str "y")]))]

/-- `a -> (?= "x") n="x" "y";` -/
def gPeek : Grammar := [(str "a", .seq [.look (.s (str "x")), .named (str "n") (.s (str "x")), .s (str "y")])]

/-- `a -> n="x" %n "y";` -/
def gBackRef : Grammar := [(str "a", .seq [.named (str "n") (.s (str "x")), .ref (str "n") none, .s (str "y")])]

theorem gSum_readable : (comp! gSum).grammar.Readable := by
  rw [gSum_compiled]
  intro k t hm
  have h : ¬ shownName [97, 64, 50] = [] := by decide +kernel
  simp only [List.mem_cons, Prod.mk.injEq, List.not_mem_nil, or_false] at hm
  rcases hm with ⟨rfl, rfl⟩ | ⟨rfl, rfl⟩ | ⟨rfl, rfl⟩ <;>
    simp [Term.Own, Term.Readable, Term.Readable.readableSeq, Term.Readable.readableAll, Term.TellsFrom, Term.signs, Term.keys, Term.keys.keysAll, h, str]

end Ex

/-- **C33** Not for all grammars that convert. What is optional may take what comes later under the same name, or
what belongs to the next repetition. Nodes of lookahead and markers of missing list items are lost. The tag of a rule that is a named
term is lost. Back references panic. -/
theorem C33_not_always :
    Ex.trip Ex.gOpt "a" "xyz" = .panics ∧ Ex.trip Ex.gPair "a" "xxyz" = .other ∧ Ex.trip Ex.gPeek "a" "xy" = .other ∧
    Ex.trip Ex.gFlags "a" "-x" = .panics ∧ Ex.trip Ex.gRetag "a" "xyz" = .other ∧ Ex.trip Ex.gBackRef "a" "xxy" = .panics := by
  refine ⟨?_, ?_, ?_, ?_, ?_, ?_⟩ <;> decide +kernel

open Ex in
/-- The hypotheses, and a tree that comes back: `1+-(2+3)`. -/
example : gSum.wf = true ∧ gSum.compile regexp 50 = .ok (comp! gSum) ∧ (comp! gSum).grammar.Convertible ∧ (comp! gSum).grammar.Readable ∧
    trip gSum "a" "1+-(2+3)" = .same :=
  ⟨by decide +kernel, comp_ok (by decide +kernel), gSum_convertible, gSum_readable, by decide +kernel⟩

end Wbnf

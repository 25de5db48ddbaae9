import Verif.Lemmas.CoreNodes
import Verif.Lemmas.CoreSpaced
import Verif.Props.Core
import Verif.Examples.Lex

/-!
# C54: the nodes of a wbnf source
-/

namespace Wbnf

variable {E : Engine} {X : Externals} {ρ : Nat → Nat} {n m : Nat} {x : Str}

theorem run_mono_le {ps : Parsers} {r inp} (h : n ≤ m) (hne : ps.run E X ρ n r inp ≠ .oof) :
    ps.run E X ρ m r inp = ps.run E X ρ n r inp := by
  unfold Parsers.run at hne ⊢
  split
  · rfl
  · next e => rw [e] at hne; exact parse_mono_le h hne

namespace Core

theorem convertible : flat.ConvertibleIn allRules := convertible_of_convertibleB (by decide +kernel)

/-- What is known of the leaves of a parse. -/
theorem leaf_read (hE : E.Sane) (hr : EngineReads E) {Γ : List Grammar} {t : Term} {leaf : Scanner}
    (hp : PartOf [flat] (.rule (str "grammar")) Γ t) (h : LeafBy E Scanner.InRange Γ t leaf) : LeafRead t leaf := by
  obtain ⟨hΓ, ht⟩ := partOf_at frames_ok hp flat_mem start_at
  have hq := Term.allAt_self ht
  intro hw
  cases t with
  | s l =>
    obtain ⟨p, i, j, hi, h1, h2⟩ := h
    rw [wrapOf_frames _ hΓ] at h1
    rw [leafPattern_wrap.1 h1] at h2
    simp only [part, List.contains_eq_mem, List.mem_map, decide_eq_true_eq] at hq
    obtain ⟨l', hl, rfl⟩ := hq
    obtain ⟨_, _, x, _, _, h3, _, _, h4, _⟩ := leaf_reads hE hi h2 (hr (.s (str l')) (List.mem_append_left _ (List.mem_map_of_mem hl)))
    exact ⟨x, h3, h4⟩
  | re l =>
    obtain ⟨p, i, j, hi, h1, h2⟩ := h
    rw [wrapOf_frames _ hΓ] at h1
    rw [leafPattern_wrap.1 h1] at h2
    simp only [part, List.contains_eq_mem, decide_eq_true_eq, List.mem_cons] at hq
    obtain ⟨_, _, x, _, _, h3, _, _, h4, _⟩ := leaf_reads hE hi h2 (hr (.re l) (List.mem_append_right _ (hq.resolve_left hw)))
    exact ⟨x, h3, h4⟩
  | _ => exact h.elim

/-- What `Parse` makes of a text. -/
theorem reads (hE : E.Sane) (h : EngineOK E) (hr : EngineReads E) (ρ : Nat → Nat) (x : Str) :
    ∃ N, (∀ n, N ≤ n → parseNode E ρ n (newScanner x) = .err) ∨
      ∃ b g ws, GrammarN.Lexed g ∧ SpellsGrammar g ws ∧ Spaced ws x ∧
        ∀ n, N ≤ n → parseNode E ρ n (newScanner x) = .node b ∧ viewGrammar n (.branch b) = Option.some g := by
  obtain ⟨N, ps, hc⟩ := Core.compiles h
  have hps : ps.grammar = Core.flat := by
    have := compile_grammar (hc N (Nat.le_refl _))
    rw [Core.flat_ok] at this
    exact (Option.some.inj this).symm
  have hg : Core.grammar.wf = true := by decide +kernel
  obtain ⟨M, hM⟩ := C53_parses hE h ρ x
  let K := max N M
  have hK := hM K (by omega)
  simp only [Core.parse, hc K (by omega)] at hK
  have hst : ∀ n, K ≤ n → ps.parse E noExternals ρ n (str "grammar") (newScanner x) = ps.parse E noExternals ρ K (str "grammar") (newScanner x) := by
    intro n hn
    unfold Parsers.parse
    rw [run_mono_le hn]
    intro e
    rw [Parsers.parse, e] at hK
    simp [Res.top] at hK
  rcases hK with ⟨v, i, hK⟩ | ⟨e, i, hK⟩
  · have hrest := (C05_accepts_iff.1 hK).2
    have hrun : ∃ k, ps.run E noExternals ρ K (str "grammar") (newScanner x) = .ok v i k := by
      unfold Parsers.parse at hK
      cases hrr : ps.run E noExternals ρ K (str "grammar") (newScanner x) with
      | ok v' i' k' =>
        rw [hrr, Res.top] at hK
        split at hK
        · cases hK
        · cases hK; exact ⟨k', rfl⟩
        · cases hK
      | err => rw [hrr] at hK; cases hK
      | panic => rw [hrr] at hK; cases hK
      | oof => rw [hrr] at hK; cases hK
    obtain ⟨k, hrun⟩ := hrun
    have hd := run_derive hg (hc N (Nat.le_refl _)) rfl hrun
    rw [hps] at hd
    obtain ⟨y, left, hy, hy2, hy3⟩ := Core.spaced hE hr (Ex.newScanner_inRange x) hd
    rw [hrest, Option.some.injEq] at hy3
    subst hy3
    rw [Ex.newScanner_toStr, Option.some.injEq, List.append_nil] at hy2
    subst hy2
    obtain ⟨v', hv, hconf⟩ := hd.conformsBy (I := Scanner.InRange)
      (fun hd hi => (hd.advances hE Ex.sane_noExternals hi).inRange hi) (Ex.newScanner_inRange x)
    cases hv
    have hconf : ConformsBy (fun _ => Core.LeafRead) [Core.flat] [] (.rule (str "grammar")) v :=
      hconf.imp fun Γ' t' s hp hl => Core.leaf_read hE hr hp hl
    have hv : ∃ xx cs, v = .node (str "grammar") xx cs := by
      cases hconf with
      | @rule _ _ _ Γ t _ hres hb =>
        have ht : t = Core.some (Core.rule "stmt") := by
          have hl : lookup (str "grammar") Core.flat = Option.some (Core.some (Core.rule "stmt")) := by decide +kernel
          cases hres with
          | here h => exact h.det (.here hl (by simp [Core.some]))
          | outer h => rw [hl] at h; cases h
        subst ht
        cases hb
        exact ⟨_, _, rfl⟩
    obtain ⟨xx, cs, rfl⟩ := hv
    obtain ⟨t, parts, b, g', N2, hl, h1, h2, _, h3⟩ := hconf.groups Core.convertible
    have ht : t = Core.some (Core.rule "stmt") := by
      have : lookup (str "grammar") Core.flat = Option.some (Core.some (Core.rule "stmt")) := by decide +kernel
      rw [this] at hl
      exact (Option.some.inj hl).symm
    subst ht
    obtain ⟨N3, g, h4, h5, h6⟩ := Core.views h1 h2
    refine ⟨max K (max N2 N3), .inr ⟨b, g, _, h5, h6, hy, fun n hn => ⟨?_, h4 n (by omega)⟩⟩⟩
    have := hst n (by omega)
    rw [hK] at this
    simp only [Core.parseNode, hc n (by omega), this, hps, h3 n (by omega)]
  · refine ⟨K, .inl fun n hn => ?_⟩
    have := hst n hn
    rw [hK] at this
    simp only [Core.parseNode, hc n (by omega), this]

end Core

/-- **C54.** `Parse` of any text returns an error, or a node whose accessors never panic: reading it down to its leaves with
the typed accessors gives a source made of the tokens and constructs of wbnf. Once the fuel of the model suffices, it makes
no difference. -/
theorem C54_nodes (hE : E.Sane) (h : Core.EngineOK E) (hr : Core.EngineReads E) (ρ : Nat → Nat) (x : Str) :
    ∃ N, (∀ n, N ≤ n → Core.parseNode E ρ n (newScanner x) = .err) ∨
      ∃ b g, GrammarN.Lexed g ∧ ∀ n, N ≤ n → Core.parseNode E ρ n (newScanner x) = .node b ∧ viewGrammar n (.branch b) = some g := by
  obtain ⟨N, h | ⟨b, g, _, h1, _, _, h2⟩⟩ := Core.reads hE h hr ρ x
  · exact ⟨N, .inl h⟩
  · exact ⟨N, .inr ⟨b, g, h1, h2⟩⟩

/-! ## Examples -/

open Ex

/-- For the engine of the examples, with whatever order, and any text. -/
example (x : Str) : ∃ N, (∀ n, N ≤ n → Core.parseNode regexp ρ n (newScanner x) = .err) ∨
    ∃ b g, GrammarN.Lexed g ∧ ∀ n, N ≤ n → Core.parseNode regexp ρ n (newScanner x) = .node b ∧ viewGrammar n (.branch b) = some g :=
  C54_nodes regexp_sane Ex.coreEngine Regex.engineReads ρ x

/-- What the parser and the views make of a text. -/
def Core.viewed (n : Nat) (x : Str) : Option GrammarN :=
  match Core.parseNode regexp ρ0 n (newScanner x) with
  | .node b => viewGrammar n (.branch b)
  | _ => none

/-- A single production, of one term (one of no layers, alternatives or parts), that is a list of optional `b`s with a
separator. -/
def Core.oneList : Option GrammarN → Bool
  | Option.some (.mk [.prod a [.many [] [] [.many [] [] [.many [] [] [.one (.mk none (.ident b)) [.op q, .sep o false true (.mk (Option.some x) (.str l))]]]]]]) =>
    a == str "a" && b == str "b" && q == str "?" && o == str ":>" && x == str "n" && l == str "\",\""
  | _ => false

set_option maxRecDepth 100000 in
example : Core.oneList (Core.viewed 60 (str "a -> b?:>n=\",\",;")) = true := by decide +kernel

/-- A text without a semicolon is refused. -/
def Core.refused : Core.NodeRes → Bool
  | .err => true
  | _ => false

set_option maxRecDepth 100000 in
example : Core.refused (Core.parseNode regexp ρ0 60 (newScanner (str "a -> b"))) = true := by decide +kernel

end Wbnf

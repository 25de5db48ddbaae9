import Verif.Lemmas.Refs
import Verif.Lemmas.Yields
import Verif.Props.Semantics
import Verif.Props.Terminates
import Verif.Examples.Quote

/-!
# C17, C18: back references and the visibility of bindings

Specifications: `MatchesLiterally` (Spec/Safe), `Tree.leaves`, `Tree.marks` (Spec/Shape), `Agree`
(Spec/Parts), `Peg` (Spec/Peg), `Parsers.Yields` (Spec/Top).
-/

namespace Wbnf

variable {E : Engine} {X : Externals} {g : Grammar} {m : Nat} {ps : Parsers} {r : Str} {inp : Scanner}

/-! ## C17 -/

/-- **C17** `%x` where `x` is bound to `w`, whose leaves have the texts `ls` (and which has no Empty marker
in it): if the text here starts with the concatenation of `ls`, exactly that is consumed, and the result
has leaves with the same texts; otherwise `%x` fails. By `Peg.det` these are the only outcomes. -/
theorem C17_backref {Γ rule x d vals} {w : Tree} {ls : List Str} {y : Str} (hin : inp.InRange) (hy : inp.toStr = some y)
    (hw : lookup x vals = some w) (hm : w.marks = 0) (hl : w.leaves.map Scanner.toStr = ls.map some)
    (hlaw : ∀ l ∈ ls, MatchesLiterally E l) :
    (ls.flatten <+: y → ∃ v, Peg E X (.term Γ rule (.ref x d) vals inp) (.ok v (inp.skip ls.flatten.length)) ∧
      v.leaves.map Scanner.toStr = ls.map some) ∧
    (¬ ls.flatten <+: y → Peg E X (.term Γ rule (.ref x d) vals inp) .fail) := by
  obtain ⟨t, h1, h2, h3⟩ := retell (X := X) w hm hl hlaw
  obtain ⟨h4, h5⟩ := h3 x vals inp y hin hy
  refine ⟨fun h => ?_, fun h => .refNo hw h1 h2 (h5 h) (Or.inl rfl)⟩
  obtain ⟨v, hv, hv1, hv2⟩ := h4 h
  exact ⟨v, .refOk hw h1 h2 hv hv2, hv1⟩

/-- **C17** A goal has one outcome, so the outcomes in `C17_backref` and below are the only ones. -/
theorem C17_unique {G o o'} (h : Peg E X G o) (h' : Peg E X G o') : o = o' := h.det h'

/-- **C17** With `x` unbound, `%x="l"` matches the default, and `%x` fails. -/
theorem C17_unbound {Γ rule x vals} {l y : Str} (hin : inp.InRange) (hy : inp.toStr = some y)
    (hw : lookup x vals = none) (hlaw : MatchesLiterally E l) :
    (l <+: y → Peg E X (.term Γ rule (.ref x (some (.s l))) vals inp)
      (.ok (.leaf (inp.sub 0 l.length)) (inp.skip l.length))) ∧
    (¬ l <+: y → Peg E X (.term Γ rule (.ref x (some (.s l))) vals inp) .fail) ∧
    Peg E X (.term Γ rule (.ref x none) vals inp) .fail := by
  obtain ⟨h1, h2⟩ := peg_lit (X := X) (Γ := []) (rule := x) (vals := vals) rfl hlaw hin hy
  exact ⟨fun h => .refDefault hw hlaw.1 (h1 h), fun h => .refDefault hw hlaw.1 (h2 h), .refUnbound hw⟩

/-- **C17** In terms of the parser: `r -> p %p;`. Where `p` yields `v` with leaf texts `ls` and leaves `i`,
`r` succeeds exactly if the text at `i` starts with the same texts again, and consumes them. -/
theorem C17_repeat (hE : E.Sane) (hXs : X.Sane) (hg : g.wf = true) (hc : g.compile E m = .ok ps) (hX : X.Plain)
    {p : Str} (hp0 : p ≠ [])
    (hr : lookup r ps.grammar = some (.seq [.rule p, .ref p none])) (hcut : ¬ IsCut [ps.grammar] (.rule p))
    {v : Tree} {i : Scanner} {y : Str} {ls : List Str} (hin : inp.InRange) (hp : ps.Yields E X p inp (.ok v i))
    (hy : i.toStr = some y) (hm : v.marks = 0) (hl : v.leaves.map Scanner.toStr = ls.map some)
    (hlaw : ∀ l ∈ ls, MatchesLiterally E l) :
    (ls.flatten <+: y → ∃ v', ps.Yields E X r inp
      (.ok (.node (ruleOrAlt r (str "_")) .nil [v, v']) (i.skip ls.flatten.length)) ∧
      v'.leaves.map Scanner.toStr = ls.map some) ∧
    (¬ ls.flatten <+: y → ps.Yields E X r inp .fail) := by
  have hi : i.InRange := by
    obtain ⟨N, K, h⟩ := hp
    obtain ⟨ρ, hd⟩ := exists_distinctDraws hX K
    obtain ⟨_, k, hk⟩ := h ρ hd N (Nat.le_refl _)
    have := run_left (n := N) (ps := ps) (r := p) (ρ := ρ) hE hXs hin
    rw [hk] at this
    exact Advances.inRange this hin
  have hpeg := (yields_iff hg hc hX).1 hp
  have hb : bindVal [] (identFromTerm (.rule p)) v = [(p, v)] := by simp [bindVal, identFromTerm, hp0]
  have hcc : (false = true ↔ false = true ∨ IsCut [ps.grammar] (.rule p)) := by simp [hcut]
  obtain ⟨h1, h2⟩ := C17_backref (E := E) (X := X) (Γ := [ps.grammar]) (rule := []) (x := p) (d := none)
    (vals := [(p, v)]) hi hy (by simp [lookup]) hm hl hlaw
  refine ⟨fun h => ?_, fun h => ?_⟩
  · obtain ⟨v', hv, hv'⟩ := h1 h
    refine ⟨v', (yields_iff hg hc hX).2 ((denotes_rule hr (by simp)).2 (.seqOk ?_)), hv'⟩
    refine .itemsCons hpeg hcc ?_
    rw [hb]
    exact .itemsCons (c' := false) hv (by simp; intro h; cases h) .itemsNil
  · refine (yields_iff hg hc hX).2 ((denotes_rule hr (by simp)).2 (.seqNo ?_ (Or.inl rfl)))
    refine .itemsLater hpeg hcc ?_ (Or.inl rfl)
    rw [hb]
    have := Peg.itemsFail (ts := []) (c := false) (h2 h)
    simpa using this

/-! ## C18 -/

/-- **C18** The outcome of a term depends only on the bindings at its start, and only on those it refers
to. -/
theorem C18_only_referred {Γ rule t vals vals' o} (h : Agree Γ t vals vals') :
    Peg E X (.term Γ rule t vals inp) o ↔ Peg E X (.term Γ rule t vals' inp) o :=
  ⟨fun hp => hp.agree (.term h), fun hp => hp.agree (.term
    ⟨fun x d Γ' hx => (h.1 x d Γ' hx).symm, fun Γ' x hx y => (h.2 Γ' x hx y).symm⟩)⟩

/-- An item alone in parentheses. -/
theorem one_item {Γ a vals o} : Peg E X (.term Γ [] (.seq [a]) vals inp) o ↔
    (∃ v i, Peg E X (.term Γ [] a vals inp) (.ok v i) ∧ o = .ok (.node (str "_") .nil [v]) i) ∨
    (Peg E X (.term Γ [] a vals inp) o ∧ (o = .fail ∨ o = .abort)) := by
  simp only [seq_iff, items_last_iff]
  constructor
  · rintro (⟨vs, j, rfl, ⟨v, i, h1, h⟩ | ⟨_, h⟩ | ⟨_, h⟩⟩ | ⟨ho, ⟨v, i, h1, rfl⟩ | ⟨h, rfl⟩ | ⟨h, rfl⟩⟩)
    · cases h
      exact Or.inl ⟨v, _, h1, rfl⟩
    · simp at h
    · simp at h
    · simp at ho
    · exact Or.inr ⟨h, ho⟩
    · exact Or.inr ⟨h, ho⟩
  · rintro (⟨v, i, h1, rfl⟩ | ⟨h1, ho⟩)
    · exact Or.inl ⟨_, _, rfl, Or.inl ⟨v, i, h1, rfl⟩⟩
    · refine Or.inr ⟨ho, Or.inr ?_⟩
      rcases ho with rfl | rfl
      · exact Or.inl ⟨h1, rfl⟩
      · exact Or.inr ⟨h1, rfl⟩

/-- One item after another, when the second is not influenced by the binding of the first. -/
theorem two_items {Γ rule a b vals o} (hcut : ¬ IsCut Γ a)
    (hb : ∀ v i o, Peg E X (.term Γ [] b (bindVal vals (identFromTerm a) v) i) o ↔ Peg E X (.term Γ [] b vals i) o) :
    Peg E X (.term Γ rule (.seq [a, b]) vals inp) o ↔
      (∃ v i u j, Peg E X (.term Γ [] a vals inp) (.ok v i) ∧ Peg E X (.term Γ [] b vals i) (.ok u j) ∧
        o = .ok (.node (ruleOrAlt rule seqTag) .nil [v, u]) j) ∨
      (∃ v i, Peg E X (.term Γ [] a vals inp) (.ok v i) ∧ Peg E X (.term Γ [] b vals i) o ∧
        (o = .fail ∨ o = .abort)) ∨
      (Peg E X (.term Γ [] a vals inp) o ∧ (o = .fail ∨ o = .abort)) := by
  have hcc : (false = true ↔ false = true ∨ IsCut Γ a) := by simp [hcut]
  constructor
  · intro h0
    rcases seq_iff.1 h0 with ⟨vs, j, rfl, h⟩ | ⟨ho, h⟩ <;> clear hcc <;>
      rcases items_cons_iff.1 h with ⟨v, i, c, o', h1, hc, h2, h3⟩ | ⟨h1, h3⟩ | ⟨h1, h3⟩ 
    · rcases items_last_iff.1 h2 with ⟨u, i', h4, rfl⟩ | ⟨_, rfl⟩ | ⟨_, rfl⟩
      · rcases h3 with ⟨vs, j, h3, h5⟩ | ⟨h3 | h3, _⟩ <;> cases h3
        cases h5
        exact Or.inl ⟨v, i, u, _, h1, (hb _ _ _).1 h4, rfl⟩
      · rcases h3 with ⟨_, _, h3, _⟩ | ⟨_, h3⟩ <;> cases c <;> cases h3
      · rcases h3 with ⟨_, _, h3, _⟩ | ⟨_, h3⟩ <;> cases h3
    · simp at h3
    · simp at h3
    · have hcf : c = false := by cases c <;> simp_all
      subst hcf
      rcases items_last_iff.1 h2 with ⟨u, i', h4, rfl⟩ | ⟨h4, rfl⟩ | ⟨h4, rfl⟩
      · rcases h3 with ⟨vs, j, h3, rfl⟩ | ⟨h3 | h3, _⟩ <;> cases h3
        simp at ho
      · rcases h3 with ⟨_, _, h3, _⟩ | ⟨_, rfl⟩
        · cases h3
        · exact Or.inr (Or.inl ⟨v, i, h1, (hb _ _ _).1 h4, Or.inl rfl⟩)
      · rcases h3 with ⟨_, _, h3, _⟩ | ⟨_, rfl⟩
        · cases h3
        · exact Or.inr (Or.inl ⟨v, i, h1, (hb _ _ _).1 h4, Or.inr rfl⟩)
    · exact Or.inr (Or.inr ⟨h3 ▸ h1, Or.inl h3⟩)
    · exact Or.inr (Or.inr ⟨h3 ▸ h1, Or.inr h3⟩)
  · rintro (⟨v, i, u, j, h1, h2, rfl⟩ | ⟨v, i, h1, h2, ho⟩ | ⟨h1, ho⟩)
    · obtain ⟨c', hc'⟩ := exists_committed Γ b false
      exact .seqOk (.itemsCons h1 hcc (.itemsCons ((hb _ _ _).2 h2) hc' .itemsNil))
    · refine .seqNo (.itemsLater h1 hcc ?_ ho) ho
      rcases ho with rfl | rfl
      · exact Peg.itemsFail (ts := []) (c := false) ((hb v _ _).2 h2)
      · exact .itemsAbort ((hb v _ _).2 h2)
    · refine .seqNo ?_ ho
      rcases ho with rfl | rfl
      · exact Peg.itemsFail (ts := [b]) (c := false) h1
      · exact .itemsAbort h1

/-- Splitting the outcomes of two parts in a row. -/
theorem split_outcomes {a : Out → Prop} {b : Scanner → Out → Prop} {c : Out → Prop} {T : Tree → Tree → Tree}
    (h : ∀ o, c o ↔ (∃ v i u j, a (.ok v i) ∧ b i (.ok u j) ∧ o = .ok (T v u) j) ∨
      (∃ v i, a (.ok v i) ∧ b i o ∧ (o = .fail ∨ o = .abort)) ∨ (a o ∧ (o = .fail ∨ o = .abort))) {w : Tree} {j : Scanner} :
    (c (.ok w j) ↔ ∃ v i u, a (.ok v i) ∧ b i (.ok u j) ∧ w = T v u) ∧
    (c .fail ↔ a .fail ∨ ∃ v i, a (.ok v i) ∧ b i .fail) ∧
    (c .abort ↔ a .abort ∨ ∃ v i, a (.ok v i) ∧ b i .abort) := by
  refine ⟨?_, ?_, ?_⟩
  · rw [h]
    constructor
    · rintro (⟨v, i, u, j', h1, h2, h3⟩ | ⟨_, _, _, _, h⟩ | ⟨_, h⟩)
      · simp at h3; obtain ⟨rfl, rfl⟩ := h3; exact ⟨v, i, u, h1, h2, rfl⟩
      · simp at h
      · simp at h
    · rintro ⟨v, i, u, h1, h2, rfl⟩
      exact Or.inl ⟨v, i, u, j, h1, h2, rfl⟩
  · rw [h]
    constructor
    · rintro (⟨_, _, _, _, _, _, h3⟩ | ⟨v, i, h1, h2, _⟩ | ⟨h1, _⟩)
      · simp at h3
      · exact Or.inr ⟨v, i, h1, h2⟩
      · exact Or.inl h1
    · rintro (h | ⟨v, i, h1, h2⟩)
      · exact Or.inr (Or.inr ⟨h, Or.inl rfl⟩)
      · exact Or.inr (Or.inl ⟨v, i, h1, h2, Or.inl rfl⟩)
  · rw [h]
    constructor
    · rintro (⟨_, _, _, _, _, _, h3⟩ | ⟨v, i, h1, h2, _⟩ | ⟨h1, _⟩)
      · simp at h3
      · exact Or.inr ⟨v, i, h1, h2⟩
      · exact Or.inl h1
    · rintro (h | ⟨v, i, h1, h2⟩)
      · exact Or.inr (Or.inr ⟨h, Or.inr rfl⟩)
      · exact Or.inr (Or.inl ⟨v, i, h1, h2, Or.inr rfl⟩)

/-- **C18** `r -> (p) q;`: nothing bound in the parentheses, or in the rules used there, is visible to `q`;
`r` matches what `p` and then `q` match on their own. -/
theorem C18_no_leak (hg : g.wf = true) (hc : g.compile E m = .ok ps) (hX : X.Plain) {p q : Str}
    (hr : lookup r ps.grammar = some (.seq [.seq [.rule p], .rule q])) {w : Tree} {j : Scanner} :
    (ps.Yields E X r inp (.ok w j) ↔ ∃ v i u, ps.Yields E X p inp (.ok v i) ∧ ps.Yields E X q i (.ok u j) ∧
      w = .node (ruleOrAlt r (str "_")) .nil [.node (str "_") .nil [v], u]) ∧
    (ps.Yields E X r inp .fail ↔ ps.Yields E X p inp .fail ∨
      ∃ v i, ps.Yields E X p inp (.ok v i) ∧ ps.Yields E X q i .fail) ∧
    (ps.Yields E X r inp .abort ↔ ps.Yields E X p inp .abort ∨
      ∃ v i, ps.Yields E X p inp (.ok v i) ∧ ps.Yields E X q i .abort) := by
  simp only [yields_iff hg hc hX]
  have hcut : ¬ IsCut [ps.grammar] (.seq [.rule p]) := fun h => by cases h
  refine split_outcomes (a := Denotes E X ps.grammar p inp) (b := Denotes E X ps.grammar q)
    (c := Denotes E X ps.grammar r inp) (T := fun v u => .node (ruleOrAlt r (str "_")) .nil [.node (str "_") .nil [v], u])
    fun o => ((denotes_rule hr (by simp)).trans
      (two_items hcut (fun v i o => by simp [bindVal, identFromTerm]))).trans ?_
  simp only [one_item, Denotes]
  constructor
  · rintro (⟨v, i, u, j, (⟨v', i', h1, h2⟩ | ⟨_, h1⟩), h3, h4⟩ | ⟨v, i, (⟨v', i', h1, h2⟩ | ⟨_, h1⟩), h3, ho⟩ |
      ⟨(⟨v', i', h1, h2⟩ | ⟨h1, _⟩), ho⟩)
    · simp at h2; obtain ⟨rfl, rfl⟩ := h2
      exact Or.inl ⟨v', i, u, j, h1, h3, h4⟩
    · simp at h1
    · simp at h2; obtain ⟨rfl, rfl⟩ := h2
      exact Or.inr (Or.inl ⟨v', i, h1, h3, ho⟩)
    · simp at h1
    · subst h2; simp at ho
    · exact Or.inr (Or.inr ⟨h1, ho⟩)
  · rintro (⟨v, i, u, j, h1, h2, h3⟩ | ⟨v, i, h1, h2, ho⟩ | ⟨h1, ho⟩)
    · exact Or.inl ⟨_, i, u, j, Or.inl ⟨v, i, h1, rfl⟩, h2, h3⟩
    · exact Or.inr (Or.inl ⟨_, i, Or.inl ⟨v, i, h1, rfl⟩, h2, ho⟩)
    · exact Or.inr (Or.inr ⟨Or.inr ⟨h1, ho⟩, ho⟩)

/-- **C18** `r -> p q;` where nothing used by `q` refers back to `p`: whatever else `p` and its rules bound
is not visible to `q`. -/
theorem C18_rule_private (hg : g.wf = true) (hc : g.compile E m = .ok ps) (hX : X.Plain) {p q : Str}
    (hr : lookup r ps.grammar = some (.seq [.rule p, .rule q])) (hcut : ¬ IsCut [ps.grammar] (.rule p))
    (hq : ∀ Γ d, ¬ PartOf [ps.grammar] (.rule q) Γ (.ref p d)) (hx : NoExt [ps.grammar] (.rule q)) {w : Tree} {j : Scanner} :
    (ps.Yields E X r inp (.ok w j) ↔ ∃ v i u, ps.Yields E X p inp (.ok v i) ∧ ps.Yields E X q i (.ok u j) ∧
      w = .node (ruleOrAlt r (str "_")) .nil [v, u]) ∧
    (ps.Yields E X r inp .fail ↔ ps.Yields E X p inp .fail ∨
      ∃ v i, ps.Yields E X p inp (.ok v i) ∧ ps.Yields E X q i .fail) ∧
    (ps.Yields E X r inp .abort ↔ ps.Yields E X p inp .abort ∨
      ∃ v i, ps.Yields E X p inp (.ok v i) ∧ ps.Yields E X q i .abort) := by
  have hb : ∀ v i o, Peg E X (.term [ps.grammar] [] (.rule q) (bindVal [] (identFromTerm (.rule p)) v) i) o ↔
      Peg E X (.term [ps.grammar] [] (.rule q) [] i) o := fun v i o => C18_only_referred
    ⟨fun x d Γ' h => by
      have : x ≠ p := fun e => hq Γ' d (e ▸ h)
      by_cases hp : p = []
      · simp [bindVal, identFromTerm, hp]
      · simp [bindVal, identFromTerm, hp, lookup, Ne.symm this], fun Γ' x h => absurd h (hx Γ' x)⟩
  simp only [yields_iff hg hc hX]
  exact split_outcomes (a := Denotes E X ps.grammar p inp) (b := Denotes E X ps.grammar q)
    (c := Denotes E X ps.grammar r inp) (T := fun v u => .node (ruleOrAlt r (str "_")) .nil [v, u])
    fun o => (denotes_rule hr (by simp)).trans (two_items hcut hb)

/-! ## Examples -/

namespace Ex

/-- `r -> p %p; p -> [a-z]; s -> (p) q; q -> %p | "b"; t -> p q; u -> p w; w -> "b" %v="c";` -/
def gBack : Grammar := [
  (str "r", .seq [.rule (str "p"), .ref (str "p") none]),
  (str "p", .re (str "[a-z]")),
  (str "s", .seq [.seq [.rule (str "p")], .rule (str "q")]),
  (str "q", .oneof [.ref (str "p") none, .s (str "b")]),
  (str "t", .seq [.rule (str "p"), .rule (str "q")]),
  (str "u", .seq [.rule (str "p"), .rule (str "w")]),
  (str "w", .seq [.s (str "b"), .ref (str "v") (some (.s (str "c")))])]

/-- The example engine matches every quoted text literally. -/
theorem regexp_literal (l : Str) : MatchesLiterally regexp l :=
  ⟨Regex.valid_lit l, fun x => Regex.find_lit l x⟩

/-- Rule `p` of `gBack` on a text beginning with `a`. -/
theorem back_p : (comp! gBack).Yields regexp noExternals (str "p") (newScanner (str "ab"))
    (.ok (.leaf ((newScanner (str "ab")).sub 0 1)) ((newScanner (str "ab")).skip 1)) :=
  (yields_iff (g := gBack) (m := 50) (by decide +kernel) (comp_ok (by decide +kernel)) plain_noExternals).2
    (.rule (Resolves.here (.here (t := .re (str "[a-z]")) (by decide +kernel) (by simp)))
      (.regexp (.plain (by decide +kernel)) (LeafOut.one (E := regexp) (p := anchor ++ str "([a-z])")
        (inp := newScanner (str "ab")) (x := str "ab") (b := 1) (g := (0, 1)) (by decide +kernel) (by decide +kernel))))

end Ex

open Ex in
/-- The hypotheses of `C17_repeat`, with a text on which the reference fails. -/
example : (comp! gBack).Yields regexp noExternals (str "r") (newScanner (str "ab")) .fail :=
  (C17_repeat (g := gBack) (m := 50) (p := str "p") (ls := [str "a"]) (y := str "b") regexp_sane sane_noExternals
    (by decide +kernel) (comp_ok (by decide +kernel)) plain_noExternals (by decide) (by decide +kernel)
    (fun h => by
      cases h with
      | rule hr hc =>
        obtain ⟨rfl, rfl⟩ := hr.det (Resolves.here (.here (t := .re (str "[a-z]")) (by decide +kernel) (by simp)))
        cases hc)
    (newScanner_inRange _) back_p (by decide +kernel) (by decide) (by decide +kernel)
    (fun l _ => regexp_literal l)).2 (by decide)

open Ex in
/-- What the rules of `gBack` do: `%p` repeats `p`; `q` does not see the `p` bound in parentheses, but does
see the one bound in the same sequence. -/
example :
    obsR ((comp! gBack).run regexp noExternals ρ0 300 (str "r") (newScanner (str "aa"))) =
      .ok (some (utf8 "r[a, a]")) 2 0 ∧
    obsR ((comp! gBack).run regexp noExternals ρ0 300 (str "r") (newScanner (str "ab"))) = .err .parse 1 1 ∧
    obsR ((comp! gBack).run regexp noExternals ρ0 300 (str "s") (newScanner (str "aa"))) = .err .parse 1 1 ∧
    obsR ((comp! gBack).run regexp noExternals ρ0 300 (str "s") (newScanner (str "ab"))) =
      .ok (some (utf8 "s[_[a], q║1[b]]")) 2 0 ∧
    obsR ((comp! gBack).run regexp noExternals ρ0 300 (str "t") (newScanner (str "aa"))) =
      .ok (some (utf8 "t[a, q║0[a]]")) 2 0 ∧
    obsR ((comp! gBack).run regexp noExternals ρ0 300 (str "u") (newScanner (str "abc"))) =
      .ok (some (utf8 "u[a, w[b, c]]")) 3 0 := by
  refine ⟨?_, ?_, ?_, ?_, ?_, ?_⟩ <;> decide +kernel

open Ex in
/-- The hypotheses of `C18_no_leak` and `C18_rule_private`. -/
example : gBack.wf = true ∧ gBack.compile regexp 50 = .ok (comp! gBack) ∧
    lookup (str "s") (comp! gBack).grammar = some (.seq [.seq [.rule (str "p")], .rule (str "q")]) ∧
    lookup (str "u") (comp! gBack).grammar = some (.seq [.rule (str "p"), .rule (str "w")]) ∧
    (∀ Γ d, ¬ PartOf [(comp! gBack).grammar] (.rule (str "w")) Γ (.ref (str "p") d)) ∧
    NoExt [(comp! gBack).grammar] (.rule (str "w")) := by
  have hw : ∀ {Γ t}, PartOf [(comp! gBack).grammar] (.rule (str "w")) Γ t →
      t ∈ [.rule (str "w"), .seq [.s (str "b"), .ref (str "v") (some (.s (str "c")))], .s (str "b"),
        .ref (str "v") (some (.s (str "c")))] := by
    intro Γ t h
    cases h with
    | refl => simp
    | rule hr h =>
      obtain ⟨rfl, rfl⟩ := hr.det (Resolves.here (.here (t := .seq [.s (str "b"), .ref (str "v") (some (.s (str "c")))])
        (by decide +kernel) (by simp)))
      cases h with
      | refl => simp
      | seq hm h =>
        simp at hm
        rcases hm with rfl | rfl <;> cases h <;> simp
  refine ⟨by decide +kernel, comp_ok (by decide +kernel), by decide +kernel, by decide +kernel, ?_, ?_⟩
  · intro Γ d h
    have := hw h
    simp [str] at this
  · intro Γ x h
    have := hw h
    simp at this

end Wbnf

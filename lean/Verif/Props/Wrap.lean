import Verif.Spec.Wrap
import Verif.Lemmas.Uncut
import Verif.Lemmas.Refs
import Verif.Lemmas.Yields
import Verif.Props.Stacks
import Verif.Examples.Spaces
import Verif.Examples.Kit

/-!
# C23: the wrapper
-/

namespace Wbnf

variable {E : Engine} {X : Externals} {g : Grammar} {m : Nat} {ps : Parsers} {r : Str} {inp : Scanner}

theorem layerOK_wrap : LayerOK Term.NoOwnWrap := fun L new hf _ => deep_layer _ (by
  intro t _ h2
  cases t with
  | scope u g => exact absurd rfl (h2 u g)
  | _ => trivial) new L hf

/-- In force everywhere. -/
def WrapEnv (w : Term) (Γ : List Grammar) : Prop := Γ ≠ [] ∧ ∀ g ∈ Γ, lookup wrapRE g = some w ∧ deepDefs Term.NoOwnWrap g

theorem Resolves.wrapEnv {w Γ r Γ₁ t₁} (hr : Resolves Γ r Γ₁ t₁) (h : WrapEnv w Γ) : WrapEnv w Γ₁ ∧ t₁.Deep Term.NoOwnWrap := by
  induction hr with
  | here hd =>
    obtain ⟨k, hk⟩ := hd.mem
    exact ⟨h, deepDefs_iff.1 (h.2 _ (by simp)).2 k _ hk⟩
  | outer hl hr' ih => exact ih ⟨(by rintro rfl; cases hr'), fun g hg => h.2 g (by simp [hg])⟩

theorem Enters.wrapEnv {w Γ g g'} (he : Enters Γ g g') (hn : ¬ Grammar.Has g wrapRE) (hg : deepDefs Term.NoOwnWrap g) (h : WrapEnv w Γ) :
    WrapEnv w (g' :: Γ) := by
  obtain ⟨g1, h1, rfl⟩ := he
  refine ⟨by simp, fun g0 hm => ?_⟩
  rcases List.mem_cons.1 hm with rfl | hm
  · refine ⟨?_, deep_inherit (deep_wrapOf fun g hg => (h.2 g hg).2) (deep_resolve layerOK_wrap hg h1)⟩
    have hw : wrapOf Γ = some w := by
      cases Γ with
      | nil => exact absurd rfl h.1
      | cons g0 Γ => exact (h.2 g0 (by simp)).1
    have hl : lookup wrapRE g1 = none := by
      cases hl : lookup wrapRE g1 with
      | none => rfl
      | some u => exact absurd (((resolveStacks_mem h1).2 wrapRE).1 (by simp [hasKey, hl])) hn
    rw [lookup_inheritWrap, if_pos ⟨rfl, hl⟩, hw]
  · exact h.2 g0 hm

theorem PartOf.wrapEnv {w Γ t Γ' t'} (h : PartOf Γ t Γ' t') (hΓ : WrapEnv w Γ) (ht : t.Deep Term.NoOwnWrap) : WrapEnv w Γ' := by
  induction h with
  | refl => exact hΓ
  | rule hr _ ih => obtain ⟨h1, h2⟩ := hr.wrapEnv hΓ; exact ih h1 h2
  | named _ ih => exact ih hΓ ht.2
  | cut _ ih => exact ih hΓ ht.2
  | scope he _ ih => exact ih (he.wrapEnv ht.1 ht.2.2 hΓ) ht.2.1
  | seq hm _ ih => exact ih hΓ (deepList_iff.1 ht.2 _ hm)
  | oneof hm _ ih => exact ih hΓ (deepList_iff.1 ht.2 _ hm)
  | quant _ ih => exact ih hΓ ht.2
  | look _ ih => exact ih hΓ ht.2
  | delimTerm _ ih => exact ih hΓ ht.2.1
  | delimSep _ ih => exact ih hΓ ht.2.2

theorem WrapEnv.wrapOf_eq {w Γ} (h : WrapEnv w Γ) : wrapOf Γ = some w := by
  cases Γ with
  | nil => exact absurd rfl h.1
  | cons g0 Γ => exact (h.2 g0 (by simp)).1

theorem part_wrap (hd : g.Deep Term.NoOwnWrap) (hc : g.compile E m = .ok ps) {w} (hw : lookup wrapRE ps.grammar = some w)
    {Γ t} (hp : PartOf [ps.grammar] (.rule r) Γ t) : wrapOf Γ = some w := by
  refine (hp.wrapEnv (w := w) ⟨by simp, ?_⟩ trivial).wrapOf_eq
  intro g0 hm
  obtain rfl : g0 = ps.grammar := by simpa using hm
  exact ⟨hw, deep_resolve layerOK_wrap hd (compile_grammar hc)⟩

theorem spliced_eq {new pre post res : Str} (hf : ¬ str "()" <:+: pre ++ str "(") (h : Spliced new (pre ++ str "()" ++ post) res) :
    res = pre ++ new ++ post := by
  rcases h with ⟨h, _⟩ | ⟨a, b, e, hf', rfl⟩
  · exact absurd ⟨pre, post, rfl⟩ h
  · have key : ∀ {a b a' b' : Str}, ¬ str "()" <:+: a ++ str "(" → a ++ str "()" ++ b = a' ++ str "()" ++ b' → a'.length ≤ a.length → a' = a ∧ b' = b := by
      intro a b a' b' hf e hle
      have hpre : a' <+: a := List.prefix_of_prefix_length_le (l₃ := a' ++ str "()" ++ b') ⟨str "()" ++ b', by simp⟩ (by rw [← e]; exact ⟨str "()" ++ b, by simp⟩) hle
      obtain ⟨c, rfl⟩ := hpre
      have e' : c ++ str "()" ++ b = str "()" ++ b' := by
        have : a' ++ (c ++ str "()" ++ b) = a' ++ (str "()" ++ b') := by simpa using e
        exact List.append_cancel_left this
      match c, e' with
      | [], e' => simpa using e'.symm
      | [x], e' =>
        simp [str] at e'
      | x :: y :: c, e' =>
        exfalso
        apply hf
        simp [str] at e'
        obtain ⟨rfl, rfl, _⟩ := e'
        exact ⟨a', c ++ str "(", by simp [str]⟩
    rcases Nat.le_total a.length pre.length with h | h
    · obtain ⟨rfl, rfl⟩ := key hf e h
      rfl
    · obtain ⟨rfl, rfl⟩ := key hf' e.symm h
      rfl

/-- The regexp of a leaf of the grammar, or of one in braces. -/
theorem leaf_pattern {except : List Term} {pre post : Str} (hw : ps.grammar.WrappedBy except pre post) (hd : g.Deep Term.NoOwnWrap)
    (hc : g.compile E m = .ok ps) {Γ t} (hp : PartOf [ps.grammar] (.rule r) Γ t) {text group p : Str}
    (hl : LeafPattern (wrapOf Γ) text group p) :
    if .s text ∈ except ∨ .re text ∈ except then p = group else p = pre ++ (str "(?:" ++ group ++ str ")") ++ post := by
  rcases hw.rule with ⟨h1, rfl⟩ | h1
  · rw [part_wrap hd hc h1 hp] at hl
    rw [if_neg (by simp)]
    cases hl with
    | plain h => simp at h
    | exempt h => simp at h
    | listed h => simp at h
    | wrapped h hs => simp only [Option.some.injEq, Term.re.injEq] at h; subst h; exact spliced_eq hw.first hs
  · rw [part_wrap hd hc h1 hp] at hl
    cases hl with
    | plain h => simp at h
    | exempt h hm =>
      simp only [Option.some.injEq, Term.oneof.injEq] at h
      obtain ⟨rfl, _⟩ := List.append_inj' h rfl
      rw [if_pos hm]
    | listed h hm hs =>
      simp only [Option.some.injEq, Term.oneof.injEq] at h
      obtain ⟨rfl, h'⟩ := List.append_inj' h (by rfl)
      simp only [List.cons.injEq, Term.re.injEq, and_true] at h'
      subst h'
      rw [if_neg hm]
      exact spliced_eq hw.first hs
    | wrapped h => simp at h

/-- What the literal or regexp `t`, with regexp `p`, does at `inp`, when it is in the grammar or in one in braces. -/
theorem wrapped_leaf {pre q post : Str} {A B C : Str → Prop} (hlaw : Concatenates E pre q post A B C) {y : Str} (hin : inp.InRange)
    (hy : inp.toStr = some y) {o : Out} (h : LeafOut E (anchor ++ (pre ++ (str "(?:" ++ (str "(" ++ q ++ str ")") ++ str ")") ++ post)) inp o) :
    (∀ v i, o = .ok v i → ∃ a b c rest, y = a ++ b ++ c ++ rest ∧ A a ∧ B b ∧ C c ∧
      (∃ s, v = .leaf s ∧ s = inp.sub a.length (a ++ b).length ∧ s.toStr = some b) ∧ i = inp.skip (a ++ b ++ c).length ∧ i.toStr = some rest) ∧
    (o = .fail → ∀ a b c rest, y = a ++ b ++ c ++ rest → A a → B b → ¬ C c) ∧ o ≠ .abort := by
  have hs := slice_eq hin hy
  cases h with
  | fail h1 h2 =>
    rw [hs] at h1
    cases h1
    exact ⟨fun v i h => by simp at h, fun _ => hlaw.none _ h2, by simp⟩
  | one h1 h2 =>
    rw [hs] at h1
    cases h1
    refine ⟨fun v i h => ?_, by simp, by simp⟩
    simp only [Out.ok.injEq] at h
    obtain ⟨rfl, rfl⟩ := h
    obtain ⟨a, b, c, rest, e, ha, hb, hcc, e2⟩ := hlaw.some _ _ h2
    simp only [List.cons.injEq, Prod.mk.injEq, true_and, and_true] at e2
    obtain ⟨rfl, rfl⟩ := e2
    refine ⟨a, b, c, rest, e, ha, hb, hcc, ⟨_, rfl, rfl, ?_⟩, rfl, ?_⟩
    · obtain ⟨_, h4, h5⟩ := skip_text hin hy (l := a) ⟨b ++ c ++ rest, by simp [e]⟩
      obtain ⟨h6, _⟩ := skip_text h4 h5 (l := b) ⟨c ++ rest, by simp [e]⟩
      rw [← h6]
      simp [Scanner.sub, Scanner.skip]
    · obtain ⟨_, _, h5⟩ := skip_text hin hy (l := a ++ b ++ c) ⟨rest, by simp [e]⟩
      rw [h5, e, List.drop_left]
  | two h1 h2 =>
    exfalso
    obtain ⟨a, b, c, rest, _, _, _, _, e⟩ := hlaw.some _ _ h2
    simp at e

/-- **C23** Every regexp of the grammar and of the grammars in braces in it, unless exempt, matches text for
`pre`, for itself and for `post`, in this order; the leaf is the inner part only, and the parse goes on after
all three. It fails only if the text does not start so. -/
theorem C23_regexp {except : List Term} {pre post q : Str} {A B C : Str → Prop} (hw : ps.grammar.WrappedBy except pre post)
    (hd : g.Deep Term.NoOwnWrap) (hc : g.compile E m = .ok ps) {Γ} (hp : PartOf [ps.grammar] (.rule r) Γ (.re q))
    (hex : ¬ (.s q ∈ except ∨ .re q ∈ except)) (hlaw : Concatenates E pre q post A B C) {y : Str} (hin : inp.InRange)
    (hy : inp.toStr = some y) {rule vals} {o : Out} (h : Peg E X (.term Γ rule (.re q) vals inp) o) :
    (∀ v i, o = .ok v i → ∃ a b c rest, y = a ++ b ++ c ++ rest ∧ A a ∧ B b ∧ C c ∧
      (∃ s, v = .leaf s ∧ s = inp.sub a.length (a ++ b).length ∧ s.toStr = some b) ∧ i = inp.skip (a ++ b ++ c).length ∧ i.toStr = some rest) ∧
    (o = .fail → ∀ a b c rest, y = a ++ b ++ c ++ rest → A a → B b → ¬ C c) ∧ o ≠ .abort := by
  cases h with
  | regexp hl ho =>
    have := leaf_pattern hw hd hc hp hl
    rw [if_neg hex] at this
    subst this
    exact wrapped_leaf hlaw hin hy ho

/-- **C23** The same for a literal. -/
theorem C23_literal {except : List Term} {pre post l : Str} {A C : Str → Prop} (hw : ps.grammar.WrappedBy except pre post)
    (hd : g.Deep Term.NoOwnWrap) (hc : g.compile E m = .ok ps) {Γ} (hp : PartOf [ps.grammar] (.rule r) Γ (.s l))
    (hex : ¬ (.s l ∈ except ∨ .re l ∈ except)) (hlaw : Concatenates E pre (quoteMeta l) post A (fun b => b = l) C) {y : Str}
    (hin : inp.InRange) (hy : inp.toStr = some y) {rule vals} {o : Out} (h : Peg E X (.term Γ rule (.s l) vals inp) o) :
    (∀ v i, o = .ok v i → ∃ a c rest, y = a ++ l ++ c ++ rest ∧ A a ∧ C c ∧
      (∃ s, v = .leaf s ∧ s = inp.sub a.length (a ++ l).length ∧ s.toStr = some l) ∧ i = inp.skip (a ++ l ++ c).length ∧ i.toStr = some rest) ∧
    (o = .fail → ∀ a c rest, y = a ++ l ++ c ++ rest → A a → ¬ C c) ∧ o ≠ .abort := by
  cases h with
  | lit hl ho =>
    have := leaf_pattern hw hd hc hp hl
    rw [if_neg hex] at this
    subst this
    obtain ⟨h1, h2, h3⟩ := wrapped_leaf hlaw hin hy ho
    refine ⟨fun v i e => ?_, fun e a c rest e2 ha => h2 e a l c rest e2 ha rfl, h3⟩
    obtain ⟨a, b, c, rest, e1, e2, rfl, e4⟩ := h1 v i e
    exact ⟨a, c, rest, e1, e2, e4⟩

/-- **C23** Literals listed before the wrapper are matched bare. -/
theorem C23_exempt {except : List Term} {pre post l : Str} (hw : ps.grammar.WrappedBy except pre post)
    (hd : g.Deep Term.NoOwnWrap) (hc : g.compile E m = .ok ps) {Γ} (hp : PartOf [ps.grammar] (.rule r) Γ (.s l))
    (hex : .s l ∈ except ∨ .re l ∈ except) (hlaw : MatchesLiterally E l) {y : Str}
    (hin : inp.InRange) (hy : inp.toStr = some y) {rule vals} {o : Out} (h : Peg E X (.term Γ rule (.s l) vals inp) o) :
    o = if l <+: y then .ok (.leaf (inp.sub 0 l.length)) (inp.skip l.length) else .fail := by
  have hs := slice_eq hin hy
  cases h with
  | lit hl ho =>
    have := leaf_pattern hw hd hc hp hl
    rw [if_pos hex] at this
    subst this
    cases ho with
    | fail h1 h2 =>
      rw [hs] at h1; cases h1
      rw [hlaw.2] at h2
      rw [if_neg (by intro h; simp [h] at h2)]
    | one h1 h2 =>
      rw [hs] at h1; cases h1
      rw [hlaw.2] at h2
      split at h2
      · rename_i hpre; simp at h2; obtain ⟨rfl, rfl⟩ := h2; rw [if_pos hpre]
      · simp at h2
    | two h1 h2 =>
      rw [hlaw.2] at h2
      split at h2 <;> simp at h2

/-- **C23** Back references are matched bare: what `%x` does depends on the bound value and the text alone, not on the
wrapper in force. -/
theorem C23_backref {Γ Γ' rule x d vals} {o : Out} (h : Peg E X (.term Γ rule (.ref x d) vals inp) o) :
    Peg E X (.term Γ' rule (.ref x d) vals inp) o := by
  cases h with
  | refOk h1 h2 h3 h4 h5 => exact .refOk h1 h2 h3 h4 h5
  | refDiffers h1 h2 h3 h4 h5 => exact .refDiffers h1 h2 h3 h4 h5
  | refNo h1 h2 h3 h4 h5 => exact .refNo h1 h2 h3 h4 h5
  | refDefault h1 h2 h3 => exact .refDefault h1 h2 h3
  | refUnbound h1 => exact .refUnbound h1

/-- **C23** For a rule that is a single regexp, in terms of the parser. -/
theorem C23_rule {except : List Term} {pre post q : Str} {A B C : Str → Prop} (hw : ps.grammar.WrappedBy except pre post)
    (hd : g.Deep Term.NoOwnWrap) (hg : g.wf = true) (hc : g.compile E m = .ok ps) (hX : X.Plain) (hr : lookup r ps.grammar = some (.re q))
    (hex : ¬ (.s q ∈ except ∨ .re q ∈ except)) (hlaw : Concatenates E pre q post A B C) {y : Str} (hin : inp.InRange)
    (hy : inp.toStr = some y) :
    (∀ v i, ps.Yields E X r inp (.ok v i) → ∃ a b c rest, y = a ++ b ++ c ++ rest ∧ A a ∧ B b ∧ C c ∧
      (∃ s, v = .leaf s ∧ s = inp.sub a.length (a ++ b).length ∧ s.toStr = some b) ∧ i = inp.skip (a ++ b ++ c).length ∧ i.toStr = some rest) ∧
    (ps.Yields E X r inp .fail → ∀ a b c rest, y = a ++ b ++ c ++ rest → A a → B b → ¬ C c) ∧ ¬ ps.Yields E X r inp .abort := by
  have hp : PartOf [ps.grammar] (.rule r) [ps.grammar] (.re q) := .rule (.here (.here hr (by simp))) .refl
  have key := fun o h => C23_regexp (X := X) (o := o) (rule := r) (vals := []) hw hd hc hp hex hlaw hin hy h
  simp only [yields_iff hg hc hX, denotes_rule hr (by simp)]
  exact ⟨fun v i h => (key _ h).1 v i rfl, fun h => (key _ h).2.1 rfl, fun h => (key _ h).2.2 rfl⟩

/-! ## Examples -/

namespace Ex

/-- `a -> b=/{x} "," %b c d?; c -> d {d -> /{x};}; d -> /{x}; .wrapRE -> "," | /{\s*()\s*};` -/
def gWrap : Grammar := [
  (str "a", .seq [.named (str "b") (.re (str "x")), .s (str ","), .ref (str "b") none, .rule (str "c"), .quant (.rule (str "d")) 0 1]),
  (str "c", .scope (.rule (str "d")) [(str "d", .re (str "x"))]),
  (str "d", .re (str "x")),
  (str ".wrapRE", .oneof [.s (str ","), .re (str "\\s*()\\s*")])]

theorem gWrap_wrapped : gWrap.WrappedBy [.s (str ",")] (str "\\s*") (str "\\s*") where
  rule := Or.inr rfl
  first := by
    rintro ⟨a, b, h⟩
    have h3 : ∀ x : UInt8, x ∈ a ++ str "()" ++ b → x ∈ str "\\s*" ++ str "(" := by rw [h]; exact fun _ h => h
    exact absurd (h3 41 (by simp [str])) (by decide)

theorem gWrap_noOwn : gWrap.Deep Term.NoOwnWrap := by
  simp only [gWrap, Grammar.Deep, deepDefs, Term.Deep, deepList, Term.NoOwnWrap, and_true, true_and]
  rintro (⟨t, h⟩ | ⟨k, ls, i, h, _⟩)
  · simp at h
    exact absurd h.1 (by decide)
  · simp at h

end Ex

open Ex Regex in
/-- The hypotheses for the regexp in braces in rule `c`, and a run: the leaves have no spaces, `,` and `%b` are
matched bare. -/
example : (comp! gWrap).grammar.WrappedBy [.s (str ",")] (str "\\s*") (str "\\s*") ∧ gWrap.Deep Term.NoOwnWrap ∧ gWrap.wf = true ∧
    gWrap.compile regexp 50 = .ok (comp! gWrap) ∧
    (∃ Γ, Γ ≠ [gWrap] ∧ PartOf [(comp! gWrap).grammar] (.rule (str "c")) Γ (.re (str "x"))) ∧
    ¬ (Term.s (str "x") ∈ [Term.s (str ",")] ∨ Term.re (str "x") ∈ [Term.s (str ",")]) ∧
    Concatenates regexp (str "\\s*") (str "x") (str "\\s*") (fun a => a.all isSpace = true) (fun b => b = str "x") (fun c => c.all isSpace = true) ∧
    obs (runTop gWrap "a" " x ,x x x ") = .ok (some (utf8 "a[x, ,, x, x, ?[x]]")) 10 0 ∧
    obs (runTop gWrap "a" " x , x x x ") = .err .parse 4 7 := by
  have hc : gWrap.compile regexp 50 = .ok (comp! gWrap) := comp_ok (by decide +kernel)
  have hg : (comp! gWrap).grammar = gWrap := Option.some.inj ((compile_grammar hc).symm.trans rfl)
  refine ⟨by rw [hg]; exact gWrap_wrapped, gWrap_noOwn, by decide +kernel, hc, ?_, by decide, concatenates_x, by decide +kernel, by decide +kernel⟩
  rw [hg]
  refine ⟨[inheritWrap (wrapOf [gWrap]) [(str "d", .re (str "x"))], gWrap], by simp, .rule (.here (.here (t := .scope (.rule (str "d")) [(str "d", .re (str "x"))]) (by rfl) (by simp))) ?_⟩
  exact .scope ⟨_, rfl, rfl⟩ (.rule (.here (.here (t := .re (str "x")) (by rfl) (by simp))) .refl)

end Wbnf

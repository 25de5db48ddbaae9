import Verif.Spec.Compiles
import Verif.Lemmas.Compile
import Verif.Lemmas.Leaf
import Verif.Lemmas.Fuel

/-! Which grammars compile. -/

namespace Wbnf

section
variable {E : Engine}

theorem followAlias_iff {g : Grammar} {t t'} :
    (∃ N, ∀ n, N ≤ n → followAlias g n t = .ok t') ↔ StandsFor g t t' := by
  constructor
  · rintro ⟨N, h⟩
    have h := h N (Nat.le_refl _)
    obtain ⟨h1, h2⟩ := followAlias_defines h
    cases N with
    | zero => simp [followAlias] at h
    | succ N =>
      by_cases hr : ∃ r, t = .rule r
      · obtain ⟨r, rfl⟩ := hr
        simp only [followAlias] at h
        cases hl : lookup r g with
        | none => simp [hl] at h
        | some u =>
          rw [hl] at h
          exact Or.inr ⟨r, rfl, (followAlias_defines h).2 r hl⟩
      · have : t' = t := by
          cases t <;> simp_all [followAlias]
        exact Or.inl ⟨this, fun r hr' => hr ⟨r, hr'⟩⟩
  · rintro (⟨rfl, h⟩ | ⟨r, rfl, h⟩)
    · refine ⟨1, fun n hn => ?_⟩
      obtain ⟨n, rfl⟩ : ∃ m, n = m + 1 := ⟨n - 1, by omega⟩
      cases t' <;> first | rfl | exact absurd rfl (h _)
    · induction h with
      | @here r t hl hne =>
        refine ⟨2, fun n hn => ?_⟩
        obtain ⟨n, rfl⟩ : ∃ m, n = m + 2 := ⟨n - 2, by omega⟩
        simp only [followAlias, hl]
      | @«alias» r r' t hl _ ih =>
        obtain ⟨N, ih⟩ := ih
        refine ⟨N + 1, fun n hn => ?_⟩
        obtain ⟨n, rfl⟩ : ∃ m, n = m + 1 := ⟨n - 1, by omega⟩
        simp only [followAlias, hl]
        exact ih n (by omega)

theorem followAlias_stands {g : Grammar} {n t t'} (h : followAlias g n t = .ok t') : StandsFor g t t' := by
  apply followAlias_iff.1
  refine ⟨n, fun m hm => ?_⟩
  induction hm with
  | refl => exact h
  | step _ ih =>
    rcases followAlias_mono g _ t with h' | h'
    · rw [ih] at h'; simp at h'
    · rw [← h']; exact ih

theorem StandsFor.det {g : Grammar} {t a b} (h : StandsFor g t a) (h' : StandsFor g t b) : a = b := by
  rcases h with ⟨rfl, h⟩ | ⟨r, rfl, h⟩
  · rcases h' with ⟨rfl, _⟩ | ⟨r, rfl, _⟩
    · rfl
    · exact absurd rfl (h r)
  · rcases h' with ⟨rfl, h'⟩ | ⟨r', hr, h'⟩
    · exact absurd rfl (h' r)
    · simp at hr; subst hr; exact h.det h'

/-- Compiling the term works with enough fuel. -/
def Comp (E : Engine) (c : Cache) (rule : Str) (t : Term) : Prop :=
  ∃ N p, ∀ n, N ≤ n → compileTerm E n c rule t = .ok p

theorem register_ok {c : Cache} (hc : c.isNil = false) (p : P) : ∃ q, c.register p = .ok q := by
  cases p <;> simp [Cache.register, hc]

theorem makeParsers_comp {c : Cache} (hc : c.isNil = false) {ts : List Term} (h : ∀ t ∈ ts, Comp E c [] t) :
    ∃ N ps, ∀ n, N ≤ n → makeParsers c (compileTerm E n c []) ts = .ok ps := by
  induction ts with
  | nil => exact ⟨0, [], fun _ _ => rfl⟩
  | cons t ts ih =>
    obtain ⟨N1, p, h1⟩ := h t (by simp)
    obtain ⟨N2, ps, h2⟩ := ih fun u hu => h u (by simp [hu])
    obtain ⟨q, hq⟩ := register_ok hc p
    refine ⟨max N1 N2, q :: ps, fun n hn => ?_⟩
    simp only [makeParsers, h1 n (by omega), h2 n (by omega), Except.bind, hq]

theorem comp_leaf {c : Cache} {text group : Str} (h : LeafValid E c.wrap text group) :
    ∃ p, (applyWrapRE c.wrap text group).bind (fun re => mustCompile E (anchor ++ re)) = .ok p := by
  obtain ⟨p, hp, hv⟩ := h
  exact ⟨anchor ++ p, by rw [applyWrapRE_iff.2 hp]; simp [Except.bind, mustCompile, hv]⟩

theorem comp_seq {c : Cache} (hc : c.isNil = false) {rule ts} (h : ∀ t ∈ ts, Comp E c [] t) :
    Comp E c rule (.seq ts) := by
  obtain ⟨N, ps, hN⟩ := makeParsers_comp hc h
  refine ⟨N + 1, .seq rule ts ps, fun n hn => ?_⟩
  obtain ⟨n, rfl⟩ : ∃ m, n = m + 1 := ⟨n - 1, by omega⟩
  rw [compileTerm_seq, hN n (by omega)]; rfl

theorem comp_quant {c : Cache} (hc : c.isNil = false) {rule t lo hi} (h : Comp E c [] t) :
    Comp E c rule (.quant t lo hi) := by
  obtain ⟨N, p, hN⟩ := h
  obtain ⟨q, hq⟩ := register_ok hc p
  refine ⟨N + 1, .quant rule (.quant t lo hi) lo hi q, fun n hn => ?_⟩
  obtain ⟨n, rfl⟩ : ∃ m, n = m + 1 := ⟨n - 1, by omega⟩
  rw [compileTerm_quant, hN n (by omega)]; simp only [Except.bind, hq]

theorem compileRules_comp {g : Grammar} {c : Cache} {es : List (Str × Term)}
    (h : ∀ e ∈ es, ∃ t', StandsFor g e.2 t' ∧ ∀ rule, Comp E c rule t') :
    ∃ N ps, ∀ n, N ≤ n → compileRules n g (compileTerm E n c) es = .ok ps := by
  induction es with
  | nil => exact ⟨0, [], fun _ _ => rfl⟩
  | cons e es ih =>
    obtain ⟨t', ht, hcomp⟩ := h e (by simp)
    obtain ⟨N0, h0⟩ := followAlias_iff.2 ht
    obtain ⟨N1, p, h1⟩ := hcomp e.1
    obtain ⟨N2, ps, h2⟩ := ih fun u hu => h u (by simp [hu])
    refine ⟨max N0 (max N1 N2), (e.1, p) :: ps, fun n hn => ?_⟩
    obtain ⟨rule, t⟩ := e
    simp only at h0 h1 ⊢
    simp only [compileRules, h0 n (by omega), h1 n (by omega), h2 n (by omega), Except.bind]

theorem compilable_comp {w t} (h : Compilable E w t) :
    ∀ (c : Cache) (rule : Str), c.isNil = false → c.wrap = w → Comp E c rule t := by
  induction h with
  | rule => intro c rule _ _; exact ⟨1, _, fun n hn => by
      obtain ⟨n, rfl⟩ : ∃ m, n = m + 1 := ⟨n - 1, by omega⟩
      rw [compileTerm_rule]⟩
  | ref => intro c rule _ _; exact ⟨1, _, fun n hn => by
      obtain ⟨n, rfl⟩ : ∃ m, n = m + 1 := ⟨n - 1, by omega⟩
      rw [compileTerm_ref]⟩
  | ext => intro c rule _ _; exact ⟨1, _, fun n hn => by
      obtain ⟨n, rfl⟩ : ∃ m, n = m + 1 := ⟨n - 1, by omega⟩
      rw [compileTerm_ext]⟩
  | @lit w l h =>
    intro c rule _ hw
    subst hw
    obtain ⟨p, hp⟩ := comp_leaf h
    refine ⟨1, .s rule l p, fun n hn => ?_⟩
    obtain ⟨n, rfl⟩ : ∃ m, n = m + 1 := ⟨n - 1, by omega⟩
    simp only [Except.bind_ok] at hp
    obtain ⟨a, ha, hp⟩ := hp
    rw [compileTerm_s]; unfold compileS; rw [ha]; simp only [Except.bind, hp]
  | @regexp w l h =>
    intro c rule _ hw
    subst hw
    obtain ⟨p, hp⟩ := comp_leaf h
    refine ⟨1, .re rule l p, fun n hn => ?_⟩
    obtain ⟨n, rfl⟩ : ∃ m, n = m + 1 := ⟨n - 1, by omega⟩
    simp only [Except.bind_ok] at hp
    obtain ⟨a, ha, hp⟩ := hp
    rw [compileTerm_re]; unfold compileRE; rw [ha]; simp only [Except.bind, hp]
  | seq _ ih => intro c rule hc hw; exact comp_seq hc fun t ht => ih t ht c [] hc hw
  | @oneof w ts _ ih =>
    intro c rule hc hw
    obtain ⟨N, ps, hN⟩ := makeParsers_comp hc fun t ht => ih t ht c [] hc hw
    refine ⟨N + 1, .oneof rule ts ps, fun n hn => ?_⟩
    obtain ⟨n, rfl⟩ : ∃ m, n = m + 1 := ⟨n - 1, by omega⟩
    rw [compileTerm_oneof, hN n (by omega)]; rfl
  | @delim w t sep a cs ce _ _ ih1 ih2 =>
    intro c rule hc hw
    have hs : ∀ u ∈ delimSeq t sep cs ce, Comp E c [] u := by
      intro u hu
      have h1 := ih1 c [] hc hw
      have h2 := ih2 c [] hc hw
      have hopt : Comp E c [] (optT sep) := comp_quant hc h2
      have hmid : Comp E c [] (.seq [t, anyT (.seq [sep, t])]) := by
        refine comp_seq hc fun x hx => ?_
        simp at hx
        rcases hx with rfl | rfl
        · exact h1
        · exact comp_quant hc (comp_seq hc fun x hx => by
            simp at hx
            rcases hx with rfl | rfl
            · exact h2
            · exact h1)
      unfold delimSeq at hu
      simp only [List.mem_append, List.mem_singleton] at hu
      rcases hu with (hu | rfl) | hu
      · split at hu
        · simp at hu; subst hu; exact hopt
        · simp at hu
      · exact hmid
      · split at hu
        · simp at hu; subst hu; exact hopt
        · simp at hu
    obtain ⟨N, p, hN⟩ := comp_seq (rule := rule) hc hs
    obtain ⟨q, hq⟩ := register_ok hc p
    refine ⟨N + 1, .delim rule t sep a cs ce q, fun n hn => ?_⟩
    obtain ⟨n, rfl⟩ : ∃ m, n = m + 1 := ⟨n - 1, by omega⟩
    rw [compileTerm_delim, hN n (by omega)]; simp only [Except.bind, hq]
  | @look w t _ ih =>
    intro c rule hc hw
    obtain ⟨N, p, hN⟩ := ih c [] hc hw
    obtain ⟨q, hq⟩ := register_ok hc p
    refine ⟨N + 1, .look rule (.look t) q, fun n hn => ?_⟩
    obtain ⟨n, rfl⟩ : ∃ m, n = m + 1 := ⟨n - 1, by omega⟩
    rw [compileTerm_look, hN n (by omega)]; simp only [Except.bind, hq]
  | quant _ ih => intro c rule hc hw; exact comp_quant hc (ih c [] hc hw)
  | @named w nm t _ ih =>
    intro c rule hc hw
    obtain ⟨N, p, hN⟩ := ih c nm hc hw
    refine ⟨N + 1, p, fun n hn => ?_⟩
    obtain ⟨n, rfl⟩ : ∃ m, n = m + 1 := ⟨n - 1, by omega⟩
    rw [compileTerm_named, hN n (by omega)]
  | @cut w t _ ih =>
    intro c rule hc hw
    obtain ⟨N, p, hN⟩ := ih c rule hc hw
    refine ⟨N + 1, .cut p (.cut t), fun n hn => ?_⟩
    obtain ⟨n, rfl⟩ : ∃ m, n = m + 1 := ⟨n - 1, by omega⟩
    rw [compileTerm_cut, hN n (by omega)]; rfl
  | @scope w t g g1 hg h1 _ _ ih2 ih3 =>
    intro c rule hc hw
    subst hw
    obtain ⟨N1, f, hf⟩ := compileRules_comp (E := E) (g := inheritWrap c.wrap g1)
      (c := cacheFor (inheritWrap c.wrap g1)) (es := inheritWrap c.wrap g1) (fun e he => by
        obtain ⟨t', ht'⟩ := h1 e he
        exact ⟨t', ht', fun rule => ih2 e he t' ht' _ rule rfl rfl⟩)
    obtain ⟨N2, p, hp⟩ := ih3 (cacheFor (inheritWrap c.wrap g1)) rule rfl rfl
    refine ⟨max N1 N2 + 1, scopeResult f p, fun n hn => ?_⟩
    obtain ⟨n, rfl⟩ : ∃ m, n = m + 1 := ⟨n - 1, by omega⟩
    rw [compileTerm_scope, prepare_ok.2 hg]
    simp only [Except.bind]
    rw [hf n (by omega), hp n (by omega)]

theorem makeParsers_inv {c : Cache} {f : Term → Except Stop P} : ∀ {ts ps}, makeParsers c f ts = .ok ps →
    ∀ t ∈ ts, ∃ p, f t = .ok p := by
  intro ts
  induction ts with
  | nil => simp
  | cons t ts ih =>
    intro ps h u hu
    simp only [makeParsers, Except.bind_ok] at h
    obtain ⟨p, hp, _, _, ps', hps, _⟩ := h
    simp at hu
    rcases hu with rfl | hu
    · exact ⟨p, hp⟩
    · exact ih hps u hu

theorem compileRules_inv {n g} {f : Str → Term → Except Stop P} : ∀ {es ps}, compileRules n g f es = .ok ps →
    ∀ e ∈ es, ∃ t' p, followAlias g n e.2 = .ok t' ∧ f e.1 t' = .ok p := by
  intro es
  induction es with
  | nil => simp
  | cons e es ih =>
    intro ps h u hu
    obtain ⟨rule, t⟩ := e
    simp only [compileRules, Except.bind_ok] at h
    obtain ⟨t', ht', p, hp, ps', hps, _⟩ := h
    simp at hu
    rcases hu with rfl | hu
    · exact ⟨t', p, ht', hp⟩
    · exact ih hps u hu

theorem mustCompile_valid {p q : Str} (h : mustCompile E p = .ok q) : E.valid p = true := by
  unfold mustCompile at h
  split at h
  · assumption
  · simp at h

theorem comp_compilable : ∀ {n c rule t p}, compileTerm E n c rule t = .ok p → Compilable E c.wrap t := by
  intro n
  induction n with
  | zero => intro c rule t p h; simp [compileTerm_zero] at h
  | succ n ih =>
    intro c rule t p h
    cases t with
    | rule => exact .rule
    | ref => exact .ref
    | ext => exact .ext
    | s l =>
      rw [compileTerm_s] at h; unfold compileS at h
      simp only [Except.bind_ok] at h
      obtain ⟨a, ha, b, hb, _⟩ := h
      exact .lit ⟨a, applyWrapRE_iff.1 ha, mustCompile_valid hb⟩
    | re l =>
      rw [compileTerm_re] at h; unfold compileRE at h
      simp only [Except.bind_ok] at h
      obtain ⟨a, ha, b, hb, _⟩ := h
      exact .regexp ⟨a, applyWrapRE_iff.1 ha, mustCompile_valid hb⟩
    | seq ts =>
      rw [compileTerm_seq] at h
      simp only [Except.bind_ok] at h
      obtain ⟨ps, hps, _⟩ := h
      exact .seq fun t ht => by obtain ⟨p, hp⟩ := makeParsers_inv hps t ht; exact ih hp
    | oneof ts =>
      rw [compileTerm_oneof] at h
      simp only [Except.bind_ok] at h
      obtain ⟨ps, hps, _⟩ := h
      exact .oneof fun t ht => by obtain ⟨p, hp⟩ := makeParsers_inv hps t ht; exact ih hp
    | stack ts => rw [compileTerm_stack] at h; simp at h
    | delim t sep a cs ce =>
      rw [compileTerm_delim] at h
      simp only [Except.bind_ok] at h
      obtain ⟨q, hq, _⟩ := h
      have := ih hq
      cases this with
      | seq hs =>
        have hm := hs (.seq [t, anyT (.seq [sep, t])]) (by simp [delimSeq])
        cases hm with
        | seq hm =>
          refine .delim (hm t (by simp)) ?_
          have := hm (anyT (.seq [sep, t])) (by simp)
          cases this with
          | quant hh =>
            cases hh with
            | seq hh => exact hh sep (by simp)
    | look t =>
      rw [compileTerm_look] at h
      simp only [Except.bind_ok] at h
      obtain ⟨q, hq, _⟩ := h
      exact .look (ih hq)
    | quant t lo hi =>
      rw [compileTerm_quant] at h
      simp only [Except.bind_ok] at h
      obtain ⟨q, hq, _⟩ := h
      exact .quant (ih hq)
    | named nm t => rw [compileTerm_named] at h; exact .named (ih h)
    | cut t =>
      rw [compileTerm_cut] at h
      simp only [Except.bind_ok] at h
      obtain ⟨q, hq, _⟩ := h
      exact .cut (ih hq)
    | scope t g =>
      rw [compileTerm_scope] at h
      simp only [Except.bind_ok] at h
      obtain ⟨g1, hg1, f, hf, q, hq, _⟩ := h
      refine .scope (prepare_ok.1 hg1) (fun e he => ?_) (fun e he t' ht' => ?_) (ih hq)
      · obtain ⟨t', _, h1, _⟩ := compileRules_inv hf e he
        exact ⟨t', followAlias_stands h1⟩
      · obtain ⟨t'', p, h1, h2⟩ := compileRules_inv hf e he
        obtain rfl := ht'.det (followAlias_stands h1)
        exact ih h2

theorem compile_iff {g : Grammar} :
    (∃ N ps, ∀ n, N ≤ n → g.compile E n = .ok ps) ↔ g.Compilable E := by
  constructor
  · rintro ⟨N, ps, h⟩
    have h := h N (Nat.le_refl _)
    unfold Grammar.compile at h
    simp only [Except.bind_ok] at h
    obtain ⟨g1, hg1, f, hf, _⟩ := h
    refine ⟨g1, prepare_ok.1 hg1, fun e he => ?_⟩
    obtain ⟨t', p, h1, h2⟩ := compileRules_inv hf e he
    exact ⟨t', followAlias_stands h1, comp_compilable h2⟩
  · rintro ⟨g1, hg1, h⟩
    obtain ⟨N, f, hf⟩ := compileRules_comp (E := E) (g := g1) (c := cacheFor g1) (es := g1) (fun e he => by
      obtain ⟨t', h1, h2⟩ := h e he
      exact ⟨t', h1, fun rule => compilable_comp h2 _ rule rfl rfl⟩)
    refine ⟨N, ⟨f, g1⟩, fun n hn => ?_⟩
    unfold Grammar.compile
    rw [prepare_ok.2 hg1]
    simp only [Except.bind]
    rw [hf n hn]

end
end Wbnf

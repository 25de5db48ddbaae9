import Verif.Spec.CompileEnds
import Verif.Lemmas.Compiles
import Verif.Lemmas.MacroEnds
import Verif.Lemmas.Parts

/-! Compilation ends. -/

namespace Wbnf

variable {E : Engine}

theorem register_ne {c : Cache} {p : P} : c.register p ≠ .error .oof := by
  unfold Cache.register
  repeat' split
  all_goals simp

theorem ebind_ne {α β : Type} {x : Except Stop α} {f : α → Except Stop β} (h1 : x ≠ .error .oof) (h2 : ∀ a, x = .ok a → f a ≠ .error .oof) :
    x.bind f ≠ .error .oof := fun e => by
  rcases ebind_oof e with e | ⟨a, h, e⟩
  · exact h1 e
  · exact h2 a h e

theorem spliceWrap_ne {pre : Str} {w : Term} : spliceWrap pre w ≠ .error .oof := by
  unfold spliceWrap
  split <;> simp

theorem applyWrapRE_ne {w : Option Term} {re pre : Str} : applyWrapRE w re pre ≠ .error .oof := by
  unfold applyWrapRE
  split
  · simp
  · split
    · simp
    · split
      · simp
      · exact spliceWrap_ne
  · exact spliceWrap_ne

theorem mustCompile_ne {re : Str} : mustCompile E re ≠ .error .oof := by
  unfold mustCompile
  split <;> simp

theorem followAlias_ends {g : Grammar} (h : g.AliasesEnd) (t : Term) : Finishes fun n => followAlias g n t := by
  have key : ∀ r, Finishes fun n => followAlias g n (.rule r) := by
    intro r
    induction h r with
    | intro r _ ih =>
      cases hl : lookup r g with
      | none => exact halts_now fun n => by simp [followAlias, hl]
      | some t =>
        by_cases ht : ∃ r', t = .rule r'
        · obtain ⟨r', rfl⟩ := ht
          obtain ⟨N, hN⟩ := ih r' hl
          refine ⟨N + 1, fun n hn => ?_⟩
          obtain ⟨n, rfl⟩ : ∃ m, n = m + 1 := ⟨n - 1, by omega⟩
          simp only [followAlias, hl]
          exact hN n (by omega)
        · refine ⟨2, fun n hn => ?_⟩
          obtain ⟨n, rfl⟩ : ∃ m, n = m + 2 := ⟨n - 2, by omega⟩
          simp only [followAlias, hl]
          cases t <;> simp_all [followAlias]
  cases t with
  | rule r => exact key r
  | _ => exact halts_now fun n => by simp [followAlias]

theorem makeParsers_ends {c : Cache} {ts : List Term} (h : ∀ t ∈ ts, Finishes fun n => compileTerm E n c [] t) :
    Finishes fun n => makeParsers c (compileTerm E n c []) ts := by
  induction ts with
  | nil => exact ⟨0, fun n _ => by simp [makeParsers]⟩
  | cons t ts ih =>
    obtain ⟨N, hN⟩ := h t (.head _)
    obtain ⟨M, hM⟩ := ih fun u hu => h u (List.mem_cons_of_mem _ hu)
    refine ⟨max N M, fun n hn => ?_⟩
    simp only [makeParsers]
    exact ebind_ne (hN n (by omega)) fun p _ => ebind_ne register_ne fun q _ => ebind_ne (hM n (by omega)) fun _ _ => by simp

theorem seq_ends {c : Cache} {rule : Str} {ts : List Term} (h : ∀ t ∈ ts, Finishes fun n => compileTerm E n c [] t) :
    Finishes fun n => compileTerm E n c rule (.seq ts) := by
  obtain ⟨N, hN⟩ := makeParsers_ends h
  refine ⟨N + 1, fun n hn => ?_⟩
  obtain ⟨n, rfl⟩ : ∃ m, n = m + 1 := ⟨n - 1, by omega⟩
  dsimp only
  rw [compileTerm_seq]
  exact ebind_ne (hN n (by omega)) fun _ _ => by simp

theorem quant_ends {c : Cache} {rule : Str} {t : Term} {lo hi} (h : Finishes fun n => compileTerm E n c [] t) :
    Finishes fun n => compileTerm E n c rule (.quant t lo hi) := by
  obtain ⟨N, hN⟩ := h
  refine ⟨N + 1, fun n hn => ?_⟩
  obtain ⟨n, rfl⟩ : ∃ m, n = m + 1 := ⟨n - 1, by omega⟩
  dsimp only
  rw [compileTerm_quant]
  exact ebind_ne (hN n (by omega)) fun _ _ => ebind_ne register_ne fun _ _ => by simp

theorem compileRules_ends {g : Grammar} (hg : g.AliasesEnd) {c : Cache} {es : List (Str × Term)}
    (h : ∀ e ∈ es, ∀ t', StandsFor g e.2 t' → ∀ rule, Finishes fun n => compileTerm E n c rule t') :
    Finishes fun n => compileRules n g (compileTerm E n c) es := by
  induction es with
  | nil => exact ⟨0, fun n _ => by simp [compileRules]⟩
  | cons e es ih =>
    obtain ⟨rule, t⟩ := e
    obtain ⟨N0, h0⟩ := followAlias_ends hg t
    obtain ⟨N2, h2⟩ := ih fun u hu => h u (List.mem_cons_of_mem _ hu)
    by_cases ht : ∃ t', StandsFor g t t'
    · obtain ⟨t', ht⟩ := ht
      obtain ⟨N1, h1⟩ := h _ (.head _) t' ht rule
      refine ⟨max N0 (max N1 N2), fun n hn => ?_⟩
      simp only [compileRules]
      refine ebind_ne (h0 n (by omega)) fun t'' e => ?_
      cases (followAlias_stands e).det ht
      exact ebind_ne (h1 n (by omega)) fun _ _ => ebind_ne (h2 n (by omega)) fun _ _ => by simp
    · refine ⟨N0, fun n hn => ?_⟩
      simp only [compileRules]
      exact ebind_ne (h0 n (by omega)) fun t'' e => absurd ⟨t'', followAlias_stands e⟩ ht

theorem prepare_ne {g : Grammar} : prepare g ≠ .error .oof := by
  unfold prepare
  split <;> simp

theorem scopesEnd_ends {w t} (h : ScopesEnd w t) : ∀ (c : Cache) (rule : Str), c.wrap = w → Finishes fun n => compileTerm E n c rule t := by
  have now : ∀ {c : Cache} {rule : Str} {t : Term}, (∀ n, compileTerm E (n + 1) c rule t ≠ .error .oof) → Finishes fun n => compileTerm E n c rule t :=
    fun h => halts_now h
  induction h with
  | rule => intro c rule _; exact now fun n => by rw [compileTerm_rule]; simp
  | ref => intro c rule _; exact now fun n => by rw [compileTerm_ref]; simp
  | ext => intro c rule _; exact now fun n => by rw [compileTerm_ext]; simp
  | lit =>
    intro c rule _
    exact now fun n => by
      rw [compileTerm_s]; unfold compileS
      exact ebind_ne applyWrapRE_ne fun _ _ => ebind_ne mustCompile_ne fun _ _ => by simp
  | regexp =>
    intro c rule _
    exact now fun n => by
      rw [compileTerm_re]; unfold compileRE
      exact ebind_ne applyWrapRE_ne fun _ _ => ebind_ne mustCompile_ne fun _ _ => by simp
  | stack => intro c rule _; exact now fun n => by rw [compileTerm_stack]; simp
  | seq _ ih => intro c rule hw; exact seq_ends fun t ht => ih t ht c [] hw
  | @oneof w ts _ ih =>
    intro c rule hw
    obtain ⟨N, hN⟩ := makeParsers_ends fun t ht => ih t ht c [] hw
    refine ⟨N + 1, fun n hn => ?_⟩
    obtain ⟨n, rfl⟩ : ∃ m, n = m + 1 := ⟨n - 1, by omega⟩
    dsimp only
    rw [compileTerm_oneof]
    exact ebind_ne (hN n (by omega)) fun _ _ => by simp
  | @delim w t sep a cs ce _ _ ih1 ih2 =>
    intro c rule hw
    have hs : ∀ u ∈ delimSeq t sep cs ce, Finishes fun n => compileTerm E n c [] u := by
      intro u hu
      have h1 := ih1 c [] hw
      have h2 := ih2 c [] hw
      have hopt : Finishes fun n => compileTerm E n c [] (optT sep) := quant_ends h2
      have hmid : Finishes fun n => compileTerm E n c [] (.seq [t, anyT (.seq [sep, t])]) := by
        refine seq_ends fun x hx => ?_
        simp at hx
        rcases hx with rfl | rfl
        · exact h1
        · exact quant_ends (seq_ends fun x hx => by
            simp at hx
            rcases hx with rfl | rfl
            · exact h2
            · exact h1)
      unfold delimSeq at hu
      simp only [List.mem_append, List.mem_singleton] at hu
      rcases hu with (hu | rfl) | hu
      · split at hu
        · simp at hu; subst hu; exact hopt
        · simp at hu
      · exact hmid
      · split at hu
        · simp at hu; subst hu; exact hopt
        · simp at hu
    obtain ⟨N, hN⟩ := seq_ends (rule := rule) hs
    refine ⟨N + 1, fun n hn => ?_⟩
    obtain ⟨n, rfl⟩ : ∃ m, n = m + 1 := ⟨n - 1, by omega⟩
    dsimp only
    rw [compileTerm_delim]
    exact ebind_ne (hN n (by omega)) fun _ _ => ebind_ne register_ne fun _ _ => by simp
  | @look w t _ ih =>
    intro c rule hw
    obtain ⟨N, hN⟩ := ih c [] hw
    refine ⟨N + 1, fun n hn => ?_⟩
    obtain ⟨n, rfl⟩ : ∃ m, n = m + 1 := ⟨n - 1, by omega⟩
    dsimp only
    rw [compileTerm_look]
    exact ebind_ne (hN n (by omega)) fun _ _ => ebind_ne register_ne fun _ _ => by simp
  | quant _ ih => intro c rule hw; exact quant_ends (ih c [] hw)
  | @named w nm t _ ih =>
    intro c rule hw
    obtain ⟨N, hN⟩ := ih c nm hw
    refine ⟨N + 1, fun n hn => ?_⟩
    obtain ⟨n, rfl⟩ : ∃ m, n = m + 1 := ⟨n - 1, by omega⟩
    dsimp only
    rw [compileTerm_named]
    exact hN n (by omega)
  | @cut w t _ ih =>
    intro c rule hw
    obtain ⟨N, hN⟩ := ih c rule hw
    refine ⟨N + 1, fun n hn => ?_⟩
    obtain ⟨n, rfl⟩ : ∃ m, n = m + 1 := ⟨n - 1, by omega⟩
    dsimp only
    rw [compileTerm_cut]
    exact ebind_ne (hN n (by omega)) fun _ _ => by simp
  | @scope w t g h1 _ _ ih2 ih3 =>
    intro c rule hw
    subst hw
    cases hg : Grammar.resolveStacks g with
    | none => exact now fun n => by rw [compileTerm_scope]; simp [prepare, hg, Except.bind]
    | some g1 =>
      obtain ⟨N1, hf⟩ := compileRules_ends (E := E) (h1 g1 hg) (c := cacheFor (inheritWrap c.wrap g1)) (es := inheritWrap c.wrap g1)
        fun e he t' ht' rule => ih2 g1 hg e he t' ht' _ rule rfl
      obtain ⟨N2, hp⟩ := ih3 g1 hg (cacheFor (inheritWrap c.wrap g1)) rule rfl
      refine ⟨max N1 N2 + 1, fun n hn => ?_⟩
      obtain ⟨n, rfl⟩ : ∃ m, n = m + 1 := ⟨n - 1, by omega⟩
      dsimp only
      rw [compileTerm_scope, prepare_ok.2 hg]
      exact ebind_ne (by simp) fun a e => by
        cases e
        exact ebind_ne (hf n (by omega)) fun _ _ => ebind_ne (hp n (by omega)) fun _ _ => by simp

/-- Compilation ends if aliases do. -/
theorem compile_ends {g : Grammar} (h : g.CompileEnds) : Finishes fun n => g.compile E n := by
  cases hg : g.resolveStacks with
  | none => exact ⟨0, fun n _ => by simp [Grammar.compile, prepare, hg, Except.bind]⟩
  | some g1 =>
    obtain ⟨h1, h2⟩ := h g1 hg
    obtain ⟨N, hf⟩ := compileRules_ends (E := E) h1 (c := cacheFor g1) (es := g1) fun e he t' ht' rule => scopesEnd_ends (h2 e he t' ht') _ rule rfl
    refine ⟨N, fun n hn => ?_⟩
    unfold Grammar.compile
    rw [prepare_ok.2 hg]
    exact ebind_ne (by simp) fun a e => by
      cases e
      exact ebind_ne (hf n hn) fun _ _ => by simp

theorem defines_acc {g : Grammar} {r : Str} {t : Term} (h : Defines g r t) : Acc (fun b a => lookup a g = some (.rule b)) r := by
  induction h with
  | @here r t hl hne => exact ⟨_, fun b hb => by rw [hl, Option.some.injEq] at hb; exact absurd hb (hne b)⟩
  | @«alias» r r' t hl _ ih => exact ⟨_, fun b hb => by rw [hl, Option.some.injEq, Term.rule.injEq] at hb; exact hb ▸ ih⟩

theorem aliasesEnd_of {g : Grammar} (h : ∀ e ∈ g, ∃ t', StandsFor g e.2 t') : g.AliasesEnd := fun r => by
  refine ⟨_, fun b hb => ?_⟩
  obtain ⟨t', ⟨_, hn⟩ | ⟨r', e, hd⟩⟩ := h (r, .rule b) (lookup_mem hb)
  · exact absurd rfl (hn b)
  · cases e
    exact defines_acc hd

theorem compilable_scopesEnd {w t} (h : Compilable E w t) : ScopesEnd w t := by
  induction h with
  | rule => exact .rule
  | ref => exact .ref
  | ext => exact .ext
  | lit _ => exact .lit
  | regexp _ => exact .regexp
  | seq _ ih => exact .seq ih
  | oneof _ ih => exact .oneof ih
  | delim _ _ ih1 ih2 => exact .delim ih1 ih2
  | look _ ih => exact .look ih
  | quant _ ih => exact .quant ih
  | named _ ih => exact .named ih
  | cut _ ih => exact .cut ih
  | @scope w t g g1 hg h1 _ _ ih2 ih3 =>
    refine .scope ?_ ?_ ?_ <;> intro g' hg' <;> cases hg.symm.trans hg'
    · exact aliasesEnd_of h1
    · exact ih2
    · exact ih3

/-- Grammars that compile are among those. -/
theorem Grammar.Compilable.ends {g : Grammar} (h : g.Compilable E) : g.CompileEnds := by
  obtain ⟨g1, hg, h⟩ := h
  intro g' hg'
  cases hg.symm.trans hg'
  refine ⟨aliasesEnd_of fun e he => (h e he).imp fun _ h => h.1, fun e he t' ht' => ?_⟩
  obtain ⟨t'', h1, h2⟩ := h e he
  cases h1.det ht'
  exact compilable_scopesEnd h2

end Wbnf

import Verif.Spec.Expand
import Verif.Lemmas.CoreViews
import Verif.Spec.Source
import Verif.Props.Macro

/-!
# Expanding the calls of macros

The expansion is built to the same terms, is made of tokens if the source is, has no calls, and is the only one.
-/

namespace Wbnf

set_option linter.unusedSectionVars false

section
variable {ms : Macros}

/-! ## Statements -/

theorem bs_nil {g u : Grammar} : (∃ n, buildStmts ms n [] g = .ok u) ↔ u = g := by
  constructor
  · rintro ⟨n, h⟩
    cases n with
    | zero => simp [buildStmts] at h
    | succ n => simpa [buildStmts, eq_comm] using h
  · rintro rfl
    exact ⟨1, rfl⟩

theorem bs_prod {i ts ss} {g u : Grammar} : (∃ n, buildStmts ms n (.prod i ts :: ss) g = .ok u) ↔
    ∃ us, BTs ms ts us ∧ ∃ n, buildStmts ms n ss (mapSet i (joinTerms [] none us) g) = .ok u := by
  constructor
  · rintro ⟨n, h⟩
    cases n with
    | zero => simp [buildStmts] at h
    | succ n =>
      rw [buildStmts, ebind_ok] at h
      obtain ⟨us, h1, h2⟩ := h
      exact ⟨us, ⟨n, h1⟩, n, h2⟩
  · rintro ⟨us, ⟨n, h1⟩, m, h2⟩
    refine ⟨max n m + 1, ?_⟩
    rw [buildStmts, ebind_ok]
    exact ⟨us, mapE_mono (fun _ _ => buildTerm_mono (Nat.le_max_left ..)) h1, buildStmts_mono (Nat.le_max_right ..) h2⟩

theorem bs_skip {s : StmtN} {ss} {g u : Grammar} (hs : ∀ n, buildStmts ms (n + 1) (s :: ss) g = buildStmts ms n ss g) :
    (∃ n, buildStmts ms n (s :: ss) g = .ok u) ↔ ∃ n, buildStmts ms n ss g = .ok u := by
  constructor
  · rintro ⟨n, h⟩
    cases n with
    | zero => simp [buildStmts] at h
    | succ n => exact ⟨n, (hs n).symm.trans h⟩
  · rintro ⟨n, h⟩
    exact ⟨n + 1, (hs n).trans h⟩

theorem bg_mk {ss} {u : Grammar} : BG ms (.mk ss) u ↔ ∃ n, buildStmts ms n ss [] = .ok u := by
  constructor
  · rintro ⟨n, h⟩
    cases n with
    | zero => simp [buildGrammar] at h
    | succ n => exact ⟨n, h⟩
  · rintro ⟨n, h⟩
    exact ⟨n + 1, h⟩

theorem bqs_append : {a b : List QuantN} → {t u : Term} → (BQs ms (a ++ b) t u ↔ ∃ v, BQs ms a t v ∧ BQs ms b v u)
  | [], b, t, u => by simp [bqs_nil]
  | q :: a, b, t, u => by
    simp only [List.cons_append, bqs_cons, bqs_append (a := a)]
    constructor
    · rintro ⟨v, h1, w, h2, h3⟩
      exact ⟨w, ⟨v, h1, h2⟩, h3⟩
    · rintro ⟨w, ⟨v, h1, h2⟩, h3⟩
      exact ⟨v, h1, w, h2, h3⟩

/-! ## What is built -/

section
variable (H : ms.Hygienic)
include H

mutual
theorem ExpandsTerm.builds : {t t' : TermN} → ExpandsTerm ms t t' → ∀ u, BT ms t u ↔ BT ms t' u
  | _, _, .many (gs := gs) (gs' := gs') hg ht, u => by
    rw [bt_many, bt_many]
    refine exists_congr fun us => and_congr (ht.builds us) ?_
    split
    · exact Iff.rfl
    · cases hg with
      | nil => exact Iff.rfl
      | cons h hs =>
        cases hs with
        | nil => exact exists_congr fun gr => and_congr (h.builds gr) Iff.rfl
        | cons => exact Iff.rfl
  | _, _, .one hn hq, u => by
    rw [bt_one, bt_one]
    exact exists_congr fun v => and_congr (hn.builds v) (hq.builds v u)
theorem ExpandsNamed.builds : {t t' : NamedN} → ExpandsNamed ms t t' → ∀ u, BN ms t u ↔ BN ms t' u
  | _, _, .mk h, u => by
    rw [bn_mk, bn_mk]
    exact exists_congr fun v => and_congr (h.builds v) Iff.rfl
theorem ExpandsAtom.builds : {t t' : AtomN} → ExpandsAtom ms t t' → ∀ u, Builds ms t u ↔ Builds ms t' u
  | _, _, .call hm hl h, u => by
    rw [C38_substitution_partial hm hl (H _ _ hm).1 (H _ _ hm).2, ba_term, ba_term]
    exact h.builds u
  | _, _, .ident, u => Iff.rfl
  | _, _, .str, u => Iff.rfl
  | _, _, .re, u => Iff.rfl
  | _, _, .ext, u => Iff.rfl
  | _, _, .ref, u => Iff.rfl
  | _, _, .look h, u => by
    rw [ba_look, ba_look]
    exact exists_congr fun v => and_congr (h.builds v) Iff.rfl
  | _, _, .term h, u => by
    rw [ba_term, ba_term]
    exact h.builds u
  | _, _, .unit, u => Iff.rfl
theorem ExpandsQuant.builds : {t t' : QuantN} → ExpandsQuant ms t t' → ∀ v u, BQ ms t v u ↔ BQ ms t' v u
  | _, _, .op, _, _ => Iff.rfl
  | _, _, .range, _, _ => Iff.rfl
  | _, _, .sep h, v, u => by
    rw [bq_sep, bq_sep]
    exact exists_congr fun a => exists_congr fun s => and_congr Iff.rfl (and_congr (h.builds s) Iff.rfl)
theorem ExpandsGrammar.builds : {t t' : GrammarN} → ExpandsGrammar ms t t' → ∀ u, BG ms t u ↔ BG ms t' u
  | _, _, .mk h, u => by
    rw [bg_mk, bg_mk]
    exact h.builds [] u
theorem ExpandsStmts.builds : {t t' : List StmtN} → ExpandsStmts ms t t' → ∀ g u,
    (∃ n, buildStmts ms n t g = .ok u) ↔ ∃ n, buildStmts ms n t' g = .ok u
  | _, _, .nil, _, _ => Iff.rfl
  | _, _, .cons (.comment) hs, g, u => by
    rw [bs_skip (fun n => by rw [buildStmts]), bs_skip (fun n => by rw [buildStmts])]
    exact hs.builds g u
  | _, _, .cons (.imp) hs, g, u => by
    rw [bs_skip (fun n => by rw [buildStmts]), bs_skip (fun n => by rw [buildStmts])]
    exact hs.builds g u
  | _, _, .cons (.macrodef) hs, g, u => by
    rw [bs_skip (fun n => by rw [buildStmts]), bs_skip (fun n => by rw [buildStmts])]
    exact hs.builds g u
  | _, _, .cons (.prod ht) hs, g, u => by
    rw [bs_prod, bs_prod]
    exact exists_congr fun us => and_congr (ht.builds us) (hs.builds _ u)
theorem ExpandsTerms.builds : {t t' : List TermN} → ExpandsTerms ms t t' → ∀ us, BTs ms t us ↔ BTs ms t' us
  | _, _, .nil, _ => Iff.rfl
  | _, _, .cons h hs, us => by
    rw [bts_cons, bts_cons]
    exact exists_congr fun v => exists_congr fun vs => and_congr (h.builds v) (and_congr (hs.builds vs) Iff.rfl)
theorem ExpandsQuants.builds : {t t' : List QuantN} → ExpandsQuants ms t t' → ∀ v u, BQs ms t.reverse v u ↔ BQs ms t'.reverse v u
  | _, _, .nil, _, _ => Iff.rfl
  | _, _, .cons h hs, v, u => by
    rw [List.reverse_cons, List.reverse_cons, bqs_append, bqs_append]
    refine exists_congr fun w => and_congr (hs.builds v w) ?_
    rw [bqs_cons, bqs_cons]
    exact exists_congr fun z => and_congr (h.builds w z) Iff.rfl
end

end

end

/-! ## No calls are left, and there is one expansion -/

section
variable {ms : Macros}

mutual
theorem ExpandsTerm.noCalls : {t t' : TermN} → ExpandsTerm ms t t' → t'.calls = []
  | _, _, .many hg ht => by simp [TermN.calls, hg.noCalls, ht.noCalls]
  | _, _, .one hn hq => by simp [TermN.calls, hn.noCalls, hq.noCalls]
theorem ExpandsNamed.noCalls : {t t' : NamedN} → ExpandsNamed ms t t' → t'.calls = []
  | _, _, .mk h => by simp [NamedN.calls, h.noCalls]
theorem ExpandsAtom.noCalls : {t t' : AtomN} → ExpandsAtom ms t t' → t'.calls = []
  | _, _, .call hm hl h => by simp [AtomN.calls, h.noCalls]
  | _, _, .ident => rfl
  | _, _, .str => rfl
  | _, _, .re => rfl
  | _, _, .ext => rfl
  | _, _, .ref => rfl
  | _, _, .look h => by simp [AtomN.calls, h.noCalls]
  | _, _, .term h => by simp [AtomN.calls, h.noCalls]
  | _, _, .unit => rfl
theorem ExpandsQuant.noCalls : {t t' : QuantN} → ExpandsQuant ms t t' → t'.calls = []
  | _, _, .op => rfl
  | _, _, .range => rfl
  | _, _, .sep h => by simp [QuantN.calls, h.noCalls]
theorem ExpandsStmt.noCalls : {t t' : StmtN} → ExpandsStmt ms t t' → t'.calls = []
  | _, _, .comment => rfl
  | _, _, .prod h => by simp [StmtN.calls, h.noCalls]
  | _, _, .imp => rfl
  | _, _, .macrodef => rfl
theorem ExpandsGrammar.noCalls : {t t' : GrammarN} → ExpandsGrammar ms t t' → t'.calls = []
  | _, _, .mk h => by simp [GrammarN.calls, h.noCalls]
theorem ExpandsTerms.noCalls : {t t' : List TermN} → ExpandsTerms ms t t' → callsTerms t' = []
  | _, _, .nil => rfl
  | _, _, .cons h hs => by simp [callsTerms, h.noCalls, hs.noCalls]
theorem ExpandsQuants.noCalls : {t t' : List QuantN} → ExpandsQuants ms t t' → callsQuants t' = []
  | _, _, .nil => rfl
  | _, _, .cons h hs => by simp [callsQuants, h.noCalls, hs.noCalls]
theorem ExpandsStmts.noCalls : {t t' : List StmtN} → ExpandsStmts ms t t' → callsStmts t' = []
  | _, _, .nil => rfl
  | _, _, .cons h hs => by simp [callsStmts, h.noCalls, hs.noCalls]
theorem ExpandsGrammars.noCalls : {t t' : List GrammarN} → ExpandsGrammars ms t t' → callsGrammars t' = []
  | _, _, .nil => rfl
  | _, _, .cons h hs => by simp [callsGrammars, h.noCalls, hs.noCalls]
end

mutual
theorem ExpandsTerm.unique : {t t' t'' : TermN} → ExpandsTerm ms t t' → ExpandsTerm ms t t'' → t' = t''
  | _, _, _, .many hg ht, h2 => by cases h2 with | many hg' ht' => rw [hg.unique hg', ht.unique ht']
  | _, _, _, .one hn hq, h2 => by cases h2 with | one hn' hq' => rw [hn.unique hn', hq.unique hq']
theorem ExpandsNamed.unique : {t t' t'' : NamedN} → ExpandsNamed ms t t' → ExpandsNamed ms t t'' → t' = t''
  | _, _, _, .mk h, h2 => by cases h2 with | mk h' => rw [h.unique h']
theorem ExpandsAtom.unique : {t t' t'' : AtomN} → ExpandsAtom ms t t' → ExpandsAtom ms t t'' → t' = t''
  | _, _, _, .call hm hl h, h2 => by
    cases h2 with
    | call hm' hl' h' =>
      rw [hm, Option.some.injEq] at hm'
      subst hm'
      rw [h.unique h']
  | _, _, _, .ident, h2 => by cases h2; rfl
  | _, _, _, .str, h2 => by cases h2; rfl
  | _, _, _, .re, h2 => by cases h2; rfl
  | _, _, _, .ext, h2 => by cases h2; rfl
  | _, _, _, .ref, h2 => by cases h2; rfl
  | _, _, _, .look h, h2 => by cases h2 with | look h' => rw [h.unique h']
  | _, _, _, .term h, h2 => by cases h2 with | term h' => rw [h.unique h']
  | _, _, _, .unit, h2 => by cases h2; rfl
theorem ExpandsQuant.unique : {t t' t'' : QuantN} → ExpandsQuant ms t t' → ExpandsQuant ms t t'' → t' = t''
  | _, _, _, .op, h2 => by cases h2; rfl
  | _, _, _, .range, h2 => by cases h2; rfl
  | _, _, _, .sep h, h2 => by cases h2 with | sep h' => rw [h.unique h']
theorem ExpandsStmt.unique : {t t' t'' : StmtN} → ExpandsStmt ms t t' → ExpandsStmt ms t t'' → t' = t''
  | _, _, _, .comment, h2 => by cases h2; rfl
  | _, _, _, .prod h, h2 => by cases h2 with | prod h' => rw [h.unique h']
  | _, _, _, .imp, h2 => by cases h2; rfl
  | _, _, _, .macrodef, h2 => by cases h2; rfl
theorem ExpandsGrammar.unique : {t t' t'' : GrammarN} → ExpandsGrammar ms t t' → ExpandsGrammar ms t t'' → t' = t''
  | _, _, _, .mk h, h2 => by cases h2 with | mk h' => rw [h.unique h']
theorem ExpandsTerms.unique : {t t' t'' : List TermN} → ExpandsTerms ms t t' → ExpandsTerms ms t t'' → t' = t''
  | _, _, _, .nil, h2 => by cases h2; rfl
  | _, _, _, .cons h hs, h2 => by cases h2 with | cons h' hs' => rw [h.unique h', hs.unique hs']
theorem ExpandsQuants.unique : {t t' t'' : List QuantN} → ExpandsQuants ms t t' → ExpandsQuants ms t t'' → t' = t''
  | _, _, _, .nil, h2 => by cases h2; rfl
  | _, _, _, .cons h hs, h2 => by cases h2 with | cons h' hs' => rw [h.unique h', hs.unique hs']
theorem ExpandsStmts.unique : {t t' t'' : List StmtN} → ExpandsStmts ms t t' → ExpandsStmts ms t t'' → t' = t''
  | _, _, _, .nil, h2 => by cases h2; rfl
  | _, _, _, .cons h hs, h2 => by cases h2 with | cons h' hs' => rw [h.unique h', hs.unique hs']
theorem ExpandsGrammars.unique : {t t' t'' : List GrammarN} → ExpandsGrammars ms t t' → ExpandsGrammars ms t t'' → t' = t''
  | _, _, _, .nil, h2 => by cases h2; rfl
  | _, _, _, .cons h hs, h2 => by cases h2 with | cons h' hs' => rw [h.unique h', hs.unique hs']
end

end

/-! ## Tokens -/

section
variable {σ : Str → Option TermN} (hσ : ∀ i t, σ i = some t → t.Lexed)
include hσ

mutual
theorem TermN.subst_lexed : (t : TermN) → t.Lexed → (t.subst σ).Lexed
  | .many op gs ts, ⟨h1, h2, h3, h4⟩ => by
    refine ⟨?_, ?_, substGrammars_lexed gs h3, substTerms_lexed ts h4⟩
    · cases ts with
      | nil => exact absurd rfl h1
      | cons => simp [substTerms]
    · rcases h2 with ⟨h, h'⟩ | h | ⟨h, h'⟩
      · refine .inl ⟨h, ?_⟩
        rcases gs with _ | ⟨g, _ | ⟨g', gs⟩⟩
        · simp [substGrammars]
        · simp [substGrammars]
        · simp at h'
      · exact .inr (.inl h)
      · subst h'
        exact .inr (.inr ⟨h, rfl⟩)
  | .one n qs, ⟨h1, h2⟩ => ⟨n.subst_lexed h1, substQuants_lexed qs h2⟩
theorem NamedN.subst_lexed : (t : NamedN) → t.Lexed → (t.subst σ).Lexed
  | .mk _ a, ⟨h1, h2⟩ => ⟨h1, a.subst_lexed h2⟩
theorem AtomN.subst_lexed : (t : AtomN) → t.Lexed → (t.subst σ).Lexed
  | .ident i, h => by
    rw [AtomN.subst]
    split
    · next t ht => exact hσ i t ht
    · exact h
  | .str _, h => h
  | .re _, h => h
  | .macrocall _ ts, ⟨h1, h2⟩ => ⟨h1, substTerms_lexed ts h2⟩
  | .ext _, h => h
  | .ref _ _, h => h
  | .look t, h => t.subst_lexed h
  | .term t, h => t.subst_lexed h
  | .unit, h => h
theorem QuantN.subst_lexed : (t : QuantN) → t.Lexed → (t.subst σ).Lexed
  | .op _, h => h
  | .range _ _, h => h
  | .sep _ _ _ n, ⟨h1, h2⟩ => ⟨h1, n.subst_lexed h2⟩
theorem StmtN.subst_lexed : (t : StmtN) → t.Lexed → (t.subst σ).Lexed
  | .comment _, h => h
  | .prod _ ts, ⟨h1, h2, h3⟩ => by
    refine ⟨h1, ?_, substTerms_lexed ts h3⟩
    cases ts with
    | nil => exact absurd rfl h2
    | cons => simp [substTerms]
  | .imp _, h => h
  | .macrodef _ _ _, h => h
theorem GrammarN.subst_lexed : (t : GrammarN) → t.Lexed → (t.subst σ).Lexed
  | .mk ss, ⟨h1, h2⟩ => by
    refine ⟨?_, substStmts_lexed ss h2⟩
    cases ss with
    | nil => exact absurd rfl h1
    | cons => simp [substStmts]
theorem substTerms_lexed : (t : List TermN) → lexedTerms t → lexedTerms (substTerms σ t)
  | [], h => h
  | t :: ts, ⟨h1, h2⟩ => ⟨t.subst_lexed h1, substTerms_lexed ts h2⟩
theorem substQuants_lexed : (t : List QuantN) → lexedQuants t → lexedQuants (substQuants σ t)
  | [], h => h
  | t :: ts, ⟨h1, h2⟩ => ⟨t.subst_lexed h1, substQuants_lexed ts h2⟩
theorem substStmts_lexed : (t : List StmtN) → lexedStmts t → lexedStmts (substStmts σ t)
  | [], h => h
  | t :: ts, ⟨h1, h2⟩ => ⟨t.subst_lexed h1, substStmts_lexed ts h2⟩
theorem substGrammars_lexed : (t : List GrammarN) → lexedGrammars t → lexedGrammars (substGrammars σ t)
  | [], h => h
  | t :: ts, ⟨h1, h2⟩ => ⟨t.subst_lexed h1, substGrammars_lexed ts h2⟩
end

end

theorem argument_mem_args {r : Str} {a : TermN} : {ps : List Str} → {args : List TermN} → lookup r (ps.zip args) = some a → a ∈ args
  | [], _, h => by simp [lookup] at h
  | _ :: _, [], h => by simp [lookup] at h
  | p :: ps, b :: args, h => by
    by_cases hp : p = r
    · simp only [List.zip_cons_cons, lookup, hp, if_true, Option.some.injEq] at h
      simp [h]
    · simp only [List.zip_cons_cons, lookup, hp, if_false] at h
      exact List.mem_cons_of_mem _ (argument_mem_args h)

section
variable {ms : Macros} (hL : ∀ m mc, lookup m ms = some mc → mc.body.Lexed)
include hL

mutual
theorem ExpandsTerm.lexed : {t t' : TermN} → ExpandsTerm ms t t' → t.Lexed → t'.Lexed
  | _, _, .many hg ht, ⟨h1, h2, h3, h4⟩ => by
    refine ⟨?_, ?_, hg.lexed h3, ht.lexed h4⟩
    · cases ht with
      | nil => exact absurd rfl h1
      | cons => simp
    · rcases h2 with ⟨h, h'⟩ | h | ⟨h, h'⟩
      · refine .inl ⟨h, ?_⟩
        cases hg with
        | nil => simp
        | cons _ hgs =>
          cases hgs with
          | nil => simp
          | cons => simp at h'
      · exact .inr (.inl h)
      · subst h'
        cases hg
        exact .inr (.inr ⟨h, rfl⟩)
  | _, _, .one hn hq, ⟨h1, h2⟩ => ⟨hn.lexed h1, hq.lexed h2⟩
theorem ExpandsNamed.lexed : {t t' : NamedN} → ExpandsNamed ms t t' → t.Lexed → t'.Lexed
  | _, _, .mk h, ⟨h1, h2⟩ => ⟨h1, h.lexed h2⟩
theorem ExpandsAtom.lexed : {t t' : AtomN} → ExpandsAtom ms t t' → t.Lexed → t'.Lexed
  | _, _, .call hm _ h, ⟨_, h2⟩ =>
    h.lexed (TermN.subst_lexed (fun _ t ht => lexedTerms_iff.1 h2 t (argument_mem_args ht)) _ (hL _ _ hm))
  | _, _, .ident, h => h
  | _, _, .str, h => h
  | _, _, .re, h => h
  | _, _, .ext, h => h
  | _, _, .ref, h => h
  | _, _, .look h, h1 => h.lexed h1
  | _, _, .term h, h1 => h.lexed h1
  | _, _, .unit, h => h
theorem ExpandsQuant.lexed : {t t' : QuantN} → ExpandsQuant ms t t' → t.Lexed → t'.Lexed
  | _, _, .op, h => h
  | _, _, .range, h => h
  | _, _, .sep h, ⟨h1, h2⟩ => ⟨h1, h.lexed h2⟩
theorem ExpandsStmt.lexed : {t t' : StmtN} → ExpandsStmt ms t t' → t.Lexed → t'.Lexed
  | _, _, .comment, h => h
  | _, _, .prod h, ⟨h1, h2, h3⟩ => by
    refine ⟨h1, ?_, h.lexed h3⟩
    cases h with
    | nil => exact absurd rfl h2
    | cons => simp
  | _, _, .imp, h => h
  | _, _, .macrodef, h => h
theorem ExpandsGrammar.lexed : {t t' : GrammarN} → ExpandsGrammar ms t t' → t.Lexed → t'.Lexed
  | _, _, .mk h, ⟨h1, h2⟩ => by
    refine ⟨?_, h.lexed h2⟩
    cases h with
    | nil => exact absurd rfl h1
    | cons => simp
theorem ExpandsTerms.lexed : {t t' : List TermN} → ExpandsTerms ms t t' → lexedTerms t → lexedTerms t'
  | _, _, .nil, h => h
  | _, _, .cons h hs, ⟨h1, h2⟩ => ⟨h.lexed h1, hs.lexed h2⟩
theorem ExpandsQuants.lexed : {t t' : List QuantN} → ExpandsQuants ms t t' → lexedQuants t → lexedQuants t'
  | _, _, .nil, h => h
  | _, _, .cons h hs, ⟨h1, h2⟩ => ⟨h.lexed h1, hs.lexed h2⟩
theorem ExpandsStmts.lexed : {t t' : List StmtN} → ExpandsStmts ms t t' → lexedStmts t → lexedStmts t'
  | _, _, .nil, h => h
  | _, _, .cons h hs, ⟨h1, h2⟩ => ⟨h.lexed h1, hs.lexed h2⟩
theorem ExpandsGrammars.lexed : {t t' : List GrammarN} → ExpandsGrammars ms t t' → lexedGrammars t → lexedGrammars t'
  | _, _, .nil, h => h
  | _, _, .cons h hs, ⟨h1, h2⟩ => ⟨h.lexed h1, hs.lexed h2⟩
end

end

/-! ## The macros of a source that is made of tokens are -/

mutual
theorem TermN.macros_lexed : (t : TermN) → t.Lexed → ∀ p ∈ t.macros, p.2.body.Lexed
  | .many op gs ts, ⟨_, _, h3, h4⟩, p, hp => by
    rcases List.mem_append.1 hp with hp | hp
    · exact macrosGrammars_lexed gs h3 p hp
    · exact macrosTerms_lexed ts h4 p hp
  | .one n qs, ⟨h1, h2⟩, p, hp => by
    rcases List.mem_append.1 hp with hp | hp
    · exact n.macros_lexed h1 p hp
    · exact macrosQuants_lexed qs h2 p hp
theorem NamedN.macros_lexed : (t : NamedN) → t.Lexed → ∀ p ∈ t.macros, p.2.body.Lexed
  | .mk _ a, ⟨_, h2⟩, p, hp => a.macros_lexed h2 p hp
theorem AtomN.macros_lexed : (t : AtomN) → t.Lexed → ∀ p ∈ t.macros, p.2.body.Lexed
  | .macrocall _ ts, ⟨_, h2⟩, p, hp => macrosTerms_lexed ts h2 p hp
  | .look t, h, p, hp => t.macros_lexed h p hp
  | .term t, h, p, hp => t.macros_lexed h p hp
  | .ident _, _, p, hp => by cases hp
  | .str _, _, p, hp => by cases hp
  | .re _, _, p, hp => by cases hp
  | .ext _, _, p, hp => by cases hp
  | .ref _ _, _, p, hp => by cases hp
  | .unit, _, p, hp => by cases hp
theorem QuantN.macros_lexed : (t : QuantN) → t.Lexed → ∀ p ∈ t.macros, p.2.body.Lexed
  | .op _, _, p, hp => by cases hp
  | .range _ _, _, p, hp => by cases hp
  | .sep _ _ _ n, ⟨_, h2⟩, p, hp => n.macros_lexed h2 p hp
theorem StmtN.macros_lexed : (t : StmtN) → t.Lexed → ∀ p ∈ t.macros, p.2.body.Lexed
  | .comment _, _, p, hp => by cases hp
  | .prod _ ts, ⟨_, _, h3⟩, p, hp => macrosTerms_lexed ts h3 p hp
  | .imp _, _, p, hp => by cases hp
  | .macrodef _ _ t, ⟨_, _, h3⟩, p, hp => by
    rcases List.mem_cons.1 hp with rfl | hp
    · exact h3
    · exact t.macros_lexed h3 p hp
theorem GrammarN.macros_lexed : (t : GrammarN) → t.Lexed → ∀ p ∈ t.macros, p.2.body.Lexed
  | .mk ss, ⟨_, h2⟩, p, hp => macrosStmts_lexed ss h2 p hp
theorem macrosTerms_lexed : (t : List TermN) → lexedTerms t → ∀ p ∈ macrosTerms t, p.2.body.Lexed
  | [], _, p, hp => by cases hp
  | t :: ts, ⟨h1, h2⟩, p, hp => by
    rcases List.mem_append.1 hp with hp | hp
    · exact t.macros_lexed h1 p hp
    · exact macrosTerms_lexed ts h2 p hp
theorem macrosQuants_lexed : (t : List QuantN) → lexedQuants t → ∀ p ∈ macrosQuants t, p.2.body.Lexed
  | [], _, p, hp => by cases hp
  | t :: ts, ⟨h1, h2⟩, p, hp => by
    rcases List.mem_append.1 hp with hp | hp
    · exact t.macros_lexed h1 p hp
    · exact macrosQuants_lexed ts h2 p hp
theorem macrosStmts_lexed : (t : List StmtN) → lexedStmts t → ∀ p ∈ macrosStmts t, p.2.body.Lexed
  | [], _, p, hp => by cases hp
  | t :: ts, ⟨h1, h2⟩, p, hp => by
    rcases List.mem_append.1 hp with hp | hp
    · exact t.macros_lexed h1 p hp
    · exact macrosStmts_lexed ts h2 p hp
theorem macrosGrammars_lexed : (t : List GrammarN) → lexedGrammars t → ∀ p ∈ macrosGrammars t, p.2.body.Lexed
  | [], _, p, hp => by cases hp
  | t :: ts, ⟨h1, h2⟩, p, hp => by
    rcases List.mem_append.1 hp with hp | hp
    · exact t.macros_lexed h1 p hp
    · exact macrosGrammars_lexed ts h2 p hp
end

theorem macrosOf_lexed {g : GrammarN} (h : g.Lexed) : ∀ m mc, lookup m (macrosOf g) = some mc → mc.body.Lexed := by
  intro m mc hm
  rw [C38_collected, Option.map_eq_some_iff] at hm
  obtain ⟨p, hp, rfl⟩ := hm
  exact g.macros_lexed h p (List.mem_filter.1 (List.mem_of_getLast? hp)).1

/-! ## There is an expansion if following calls ends -/

mutual
theorem TermN.subst_none : (t : TermN) → t.subst (fun _ => none) = t
  | .many op gs ts => by rw [TermN.subst, substGrammars_none, substTerms_none]
  | .one n qs => by rw [TermN.subst, n.subst_none, substQuants_none]
theorem NamedN.subst_none : (t : NamedN) → t.subst (fun _ => none) = t
  | .mk _ a => by rw [NamedN.subst, a.subst_none]
theorem AtomN.subst_none : (t : AtomN) → t.subst (fun _ => none) = t
  | .ident _ => rfl
  | .str _ => rfl
  | .re _ => rfl
  | .macrocall _ ts => by rw [AtomN.subst, substTerms_none]
  | .ext _ => rfl
  | .ref _ _ => rfl
  | .look t => by rw [AtomN.subst, t.subst_none]
  | .term t => by rw [AtomN.subst, t.subst_none]
  | .unit => rfl
theorem QuantN.subst_none : (t : QuantN) → t.subst (fun _ => none) = t
  | .op _ => rfl
  | .range _ _ => rfl
  | .sep _ _ _ n => by rw [QuantN.subst, n.subst_none]
theorem StmtN.subst_none : (t : StmtN) → t.subst (fun _ => none) = t
  | .comment _ => rfl
  | .prod _ ts => by rw [StmtN.subst, substTerms_none]
  | .imp _ => rfl
  | .macrodef _ _ _ => rfl
theorem GrammarN.subst_none : (t : GrammarN) → t.subst (fun _ => none) = t
  | .mk ss => by rw [GrammarN.subst, substStmts_none]
theorem substTerms_none : (t : List TermN) → substTerms (fun _ => none) t = t
  | [] => rfl
  | t :: ts => by rw [substTerms, t.subst_none, substTerms_none]
theorem substQuants_none : (t : List QuantN) → substQuants (fun _ => none) t = t
  | [] => rfl
  | t :: ts => by rw [substQuants, t.subst_none, substQuants_none]
theorem substStmts_none : (t : List StmtN) → substStmts (fun _ => none) t = t
  | [] => rfl
  | t :: ts => by rw [substStmts, t.subst_none, substStmts_none]
theorem substGrammars_none : (t : List GrammarN) → substGrammars (fun _ => none) t = t
  | [] => rfl
  | t :: ts => by rw [substGrammars, t.subst_none, substGrammars_none]
end

theorem substTerms_length {σ : Str → Option TermN} : (ts : List TermN) → (substTerms σ ts).length = ts.length
  | [] => rfl
  | t :: ts => by simp [substTerms, substTerms_length ts]

theorem ExpandsTerms.mem {ms : Macros} {a : TermN} : {ts ts' : List TermN} → ExpandsTerms ms ts ts' → a ∈ ts → ∃ a', ExpandsTerm ms a a'
  | _, _, .nil, h => by cases h
  | _, _, .cons h hs, ha => by
    rcases List.mem_cons.1 ha with rfl | ha
    · exact ⟨_, h⟩
    · exact hs.mem ha

/-- What these names stand for can be expanded. -/
def Opens (ms : Macros) (σ : Str → Option TermN) : Prop := ∀ i t, σ i = some t → ∃ t', ExpandsTerm ms t t'

/-- The body of this macro can be expanded if what its parameters stand for can. -/
def BodyOpens (ms : Macros) (m : Str) : Prop :=
  ∀ mc, lookup m ms = some mc → ∀ σ, Opens ms σ → ∃ t', ExpandsTerm ms (mc.body.subst σ) t'

section
variable {ms : Macros} {σ : Str → Option TermN} (hσ : Opens ms σ)
include hσ

mutual
theorem TermN.opens : (t : TermN) → t.CallsRight ms → (∀ m ∈ t.calls, BodyOpens ms m) → ∃ t', ExpandsTerm ms (t.subst σ) t'
  | .many op gs ts, ⟨h1, h2⟩, hc => by
    obtain ⟨gs', hg⟩ := opensGrammars gs h1 fun m hm => hc m (List.mem_append.2 (.inl hm))
    obtain ⟨ts', ht⟩ := opensTerms ts h2 fun m hm => hc m (List.mem_append.2 (.inr hm))
    exact ⟨_, .many hg ht⟩
  | .one n qs, ⟨h1, h2⟩, hc => by
    obtain ⟨n', hn⟩ := n.opens h1 fun m hm => hc m (List.mem_append.2 (.inl hm))
    obtain ⟨qs', hq⟩ := opensQuants qs h2 fun m hm => hc m (List.mem_append.2 (.inr hm))
    exact ⟨_, .one hn hq⟩
theorem NamedN.opens : (t : NamedN) → t.CallsRight ms → (∀ m ∈ t.calls, BodyOpens ms m) → ∃ t', ExpandsNamed ms (t.subst σ) t'
  | .mk _ a, h, hc => by
    obtain ⟨a', ha⟩ := a.opens h hc
    exact ⟨_, .mk ha⟩
theorem AtomN.opens : (t : AtomN) → t.CallsRight ms → (∀ m ∈ t.calls, BodyOpens ms m) → ∃ t', ExpandsAtom ms (t.subst σ) t'
  | .ident i, h, hc => by
    rw [AtomN.subst]
    split
    · next t ht =>
      obtain ⟨t', h'⟩ := hσ i t ht
      exact ⟨_, .term h'⟩
    · exact ⟨_, .ident⟩
  | .str _, _, _ => ⟨_, .str⟩
  | .re _, _, _ => ⟨_, .re⟩
  | .macrocall m ts, ⟨⟨mc, hm, hl⟩, h2⟩, hc => by
    obtain ⟨ts', ht⟩ := opensTerms ts h2 fun m hm => hc m (List.mem_cons_of_mem _ hm)
    obtain ⟨t', h'⟩ := hc m (List.mem_cons_self ..) mc hm (mc.argument (substTerms σ ts)) fun i t hi => ht.mem (argument_mem_args hi)
    exact ⟨_, .call hm ((substTerms_length ts).trans hl) h'⟩
  | .ext _, _, _ => ⟨_, .ext⟩
  | .ref _ _, _, _ => ⟨_, .ref⟩
  | .look t, h, hc => by
    obtain ⟨t', h'⟩ := t.opens h hc
    exact ⟨_, .look h'⟩
  | .term t, h, hc => by
    obtain ⟨t', h'⟩ := t.opens h hc
    exact ⟨_, .term h'⟩
  | .unit, _, _ => ⟨_, .unit⟩
theorem QuantN.opens : (t : QuantN) → t.CallsRight ms → (∀ m ∈ t.calls, BodyOpens ms m) → ∃ t', ExpandsQuant ms (t.subst σ) t'
  | .op _, _, _ => ⟨_, .op⟩
  | .range _ _, _, _ => ⟨_, .range⟩
  | .sep _ _ _ n, h, hc => by
    obtain ⟨n', h'⟩ := n.opens h hc
    exact ⟨_, .sep h'⟩
theorem StmtN.opens : (t : StmtN) → t.CallsRight ms → (∀ m ∈ t.calls, BodyOpens ms m) → ∃ t', ExpandsStmt ms (t.subst σ) t'
  | .comment _, _, _ => ⟨_, .comment⟩
  | .prod _ ts, h, hc => by
    obtain ⟨ts', h'⟩ := opensTerms ts h hc
    exact ⟨_, .prod h'⟩
  | .imp _, _, _ => ⟨_, .imp⟩
  | .macrodef _ _ _, _, _ => ⟨_, .macrodef⟩
theorem GrammarN.opens : (t : GrammarN) → t.CallsRight ms → (∀ m ∈ t.calls, BodyOpens ms m) → ∃ t', ExpandsGrammar ms (t.subst σ) t'
  | .mk ss, h, hc => by
    obtain ⟨ss', h'⟩ := opensStmts ss h hc
    exact ⟨_, .mk h'⟩
theorem opensTerms : (t : List TermN) → callsRightTerms ms t → (∀ m ∈ callsTerms t, BodyOpens ms m) → ∃ t', ExpandsTerms ms (substTerms σ t) t'
  | [], _, _ => ⟨_, .nil⟩
  | t :: ts, ⟨h1, h2⟩, hc => by
    obtain ⟨_, h⟩ := t.opens h1 fun m hm => hc m (List.mem_append.2 (.inl hm))
    obtain ⟨_, hs⟩ := opensTerms ts h2 fun m hm => hc m (List.mem_append.2 (.inr hm))
    exact ⟨_, .cons h hs⟩
theorem opensQuants : (t : List QuantN) → callsRightQuants ms t → (∀ m ∈ callsQuants t, BodyOpens ms m) → ∃ t', ExpandsQuants ms (substQuants σ t) t'
  | [], _, _ => ⟨_, .nil⟩
  | t :: ts, ⟨h1, h2⟩, hc => by
    obtain ⟨_, h⟩ := t.opens h1 fun m hm => hc m (List.mem_append.2 (.inl hm))
    obtain ⟨_, hs⟩ := opensQuants ts h2 fun m hm => hc m (List.mem_append.2 (.inr hm))
    exact ⟨_, .cons h hs⟩
theorem opensStmts : (t : List StmtN) → callsRightStmts ms t → (∀ m ∈ callsStmts t, BodyOpens ms m) → ∃ t', ExpandsStmts ms (substStmts σ t) t'
  | [], _, _ => ⟨_, .nil⟩
  | t :: ts, ⟨h1, h2⟩, hc => by
    obtain ⟨_, h⟩ := t.opens h1 fun m hm => hc m (List.mem_append.2 (.inl hm))
    obtain ⟨_, hs⟩ := opensStmts ts h2 fun m hm => hc m (List.mem_append.2 (.inr hm))
    exact ⟨_, .cons h hs⟩
theorem opensGrammars : (t : List GrammarN) → callsRightGrammars ms t → (∀ m ∈ callsGrammars t, BodyOpens ms m) → ∃ t', ExpandsGrammars ms (substGrammars σ t) t'
  | [], _, _ => ⟨_, .nil⟩
  | t :: ts, ⟨h1, h2⟩, hc => by
    obtain ⟨_, h⟩ := t.opens h1 fun m hm => hc m (List.mem_append.2 (.inl hm))
    obtain ⟨_, hs⟩ := opensGrammars ts h2 fun m hm => hc m (List.mem_append.2 (.inr hm))
    exact ⟨_, .cons h hs⟩
end

end

theorem bodyOpens {ms : Macros} (hr : ∀ m mc, lookup m ms = some mc → mc.body.CallsRight ms) {m : Str} (h : ms.Ends m) : BodyOpens ms m := by
  induction h with
  | intro m _ ih =>
    intro mc hm σ hσ
    exact mc.body.opens hσ (hr m mc hm) fun b hb => ih b ⟨mc, hm, hb⟩

theorem expands_of_ends {ms : Macros} {g : GrammarN} (hr : ∀ m mc, lookup m ms = some mc → mc.body.CallsRight ms) (hg : g.CallsRight ms)
    (he : ∀ m ∈ g.calls, ms.Ends m) : ∃ g', ExpandsGrammar ms g g' := by
  have := g.opens (σ := fun _ => none) (fun i t h => by cases h) hg fun m hm => bodyOpens hr (he m hm)
  rwa [g.subst_none] at this

/-! ## Where nothing is called -/

mutual
theorem TermN.expands_self {ms : Macros} : (t : TermN) → t.calls = [] → ExpandsTerm ms t t
  | .many op gs ts, h => by
    rw [TermN.calls, List.append_eq_nil_iff] at h
    exact .many (expandsGrammars_self gs h.1) (expandsTerms_self ts h.2)
  | .one n qs, h => by
    rw [TermN.calls, List.append_eq_nil_iff] at h
    exact .one (n.expands_self h.1) (expandsQuants_self qs h.2)
theorem NamedN.expands_self {ms : Macros} : (t : NamedN) → t.calls = [] → ExpandsNamed ms t t
  | .mk _ a, h => .mk (a.expands_self h)
theorem AtomN.expands_self {ms : Macros} : (t : AtomN) → t.calls = [] → ExpandsAtom ms t t
  | .ident _, _ => .ident
  | .str _, _ => .str
  | .re _, _ => .re
  | .macrocall _ _, h => by simp [AtomN.calls] at h
  | .ext _, _ => .ext
  | .ref _ _, _ => .ref
  | .look t, h => .look (t.expands_self h)
  | .term t, h => .term (t.expands_self h)
  | .unit, _ => .unit
theorem QuantN.expands_self {ms : Macros} : (t : QuantN) → t.calls = [] → ExpandsQuant ms t t
  | .op _, _ => .op
  | .range _ _, _ => .range
  | .sep _ _ _ n, h => .sep (n.expands_self h)
theorem StmtN.expands_self {ms : Macros} : (t : StmtN) → t.calls = [] → ExpandsStmt ms t t
  | .comment _, _ => .comment
  | .prod _ ts, h => .prod (expandsTerms_self ts h)
  | .imp _, _ => .imp
  | .macrodef _ _ _, _ => .macrodef
theorem GrammarN.expands_self {ms : Macros} : (t : GrammarN) → t.calls = [] → ExpandsGrammar ms t t
  | .mk ss, h => .mk (expandsStmts_self ss h)
theorem expandsTerms_self {ms : Macros} : (t : List TermN) → callsTerms t = [] → ExpandsTerms ms t t
  | [], _ => .nil
  | t :: ts, h => by
    rw [callsTerms, List.append_eq_nil_iff] at h
    exact .cons (t.expands_self h.1) (expandsTerms_self ts h.2)
theorem expandsQuants_self {ms : Macros} : (t : List QuantN) → callsQuants t = [] → ExpandsQuants ms t t
  | [], _ => .nil
  | t :: ts, h => by
    rw [callsQuants, List.append_eq_nil_iff] at h
    exact .cons (t.expands_self h.1) (expandsQuants_self ts h.2)
theorem expandsStmts_self {ms : Macros} : (t : List StmtN) → callsStmts t = [] → ExpandsStmts ms t t
  | [], _ => .nil
  | t :: ts, h => by
    rw [callsStmts, List.append_eq_nil_iff] at h
    exact .cons (t.expands_self h.1) (expandsStmts_self ts h.2)
theorem expandsGrammars_self {ms : Macros} : (t : List GrammarN) → callsGrammars t = [] → ExpandsGrammars ms t t
  | [], _ => .nil
  | t :: ts, h => by
    rw [callsGrammars, List.append_eq_nil_iff] at h
    exact .cons (t.expands_self h.1) (expandsGrammars_self ts h.2)
end

theorem unfolds_self {g : GrammarN} (h : g.calls = []) : Unfolds g g := ⟨g.expands_self h, .inl h⟩

theorem Unfolds.builds {g g' : GrammarN} (h : Unfolds g g') (u : Grammar) : BG (macrosOf g) g u ↔ BG (macrosOf g) g' u := by
  rcases h with ⟨h, hc | hh⟩
  · rw [h.unique (g.expands_self hc)]
  · exact h.builds hh u

theorem Unfolds.lexed {g g' : GrammarN} (h : Unfolds g g') (hl : g.Lexed) : g'.Lexed := h.1.lexed (macrosOf_lexed hl) hl

end Wbnf

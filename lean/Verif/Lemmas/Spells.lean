import Verif.Spec.Spells

/-!
# What is written is what the node says
-/

namespace Wbnf

theorem settledGrammars_append : ∀ {gs gs' : List GrammarN}, settledGrammars (gs ++ gs') ↔ settledGrammars gs ∧ settledGrammars gs'
  | [], gs' => by simp [settledGrammars]
  | g :: gs, gs' => by simp [settledGrammars, settledGrammars_append (gs := gs), and_assoc]

theorem SpellsTerm.inv0 {op gs ts ws} (h : SpellsTerm 0 (.many op gs ts) ws) : ∃ t ts' gs1 gs2 ws1 ws2, ts = t :: ts' ∧ gs = gs1 ++ gs2 ∧ ws = ws1 ++ ws2 ∧
    op = (if ts'.isEmpty then [] else str ">") ∧ SpellsLayer t gs1 ws1 ∧ SpellsLayers ts' gs2 ws2 := by
  generalize ht : TermN.many op gs ts = t at h
  generalize hk : 0 = k at h
  cases h with
  | layers h1 h2 => cases ht; exact ⟨_, _, _, _, _, _, rfl, rfl, rfl, rfl, h1, h2⟩
  | alternatives => cases hk
  | sequence => cases hk
  | one => cases hk

theorem SpellsTerm.inv1 {op gs ts ws} (h : SpellsTerm 1 (.many op gs ts) ws) : ∃ t ts' ws1 ws2, ts = t :: ts' ∧ ws = ws1 ++ ws2 ∧
    SpellsTerm 2 t ws1 ∧ SpellsAlts ts' ws2 := by
  generalize ht : TermN.many op gs ts = t at h
  generalize hk : 1 = k at h
  cases h with
  | alternatives h1 h2 => cases ht; exact ⟨_, _, _, _, rfl, rfl, h1, h2⟩
  | layers => cases hk
  | sequence => cases hk
  | one => cases hk

theorem SpellsLayers.inv {t ts gs ws} (h : SpellsLayers (t :: ts) gs ws) : ∃ gs1 gs2 ws1 ws2, gs = gs1 ++ gs2 ∧ ws = str ">" :: ws1 ++ ws2 ∧
    SpellsLayer t gs1 ws1 ∧ SpellsLayers ts gs2 ws2 := by
  generalize ht : t :: ts = u at h
  cases h with
  | nil => cases ht
  | cons h1 h2 => cases ht; exact ⟨_, _, _, _, rfl, rfl, h1, h2⟩

/-- What the braces of layers say of those of all of them. -/
theorem braces_split {op : Str} {ts : List TermN} {gs gs1 gs2 gs3 gs4 : List GrammarN} {ws2 ws4 : List Str}
    (hs : op = str ">" → gs = []) (ho : op = if ts.isEmpty then [] else str ">") (h : gs = gs1 ++ gs2) (h' : gs = gs3 ++ gs4)
    (h2 : SpellsLayers ts gs2 ws2) (h4 : SpellsLayers ts gs4 ws4) : gs1 = gs3 ∧ gs2 = gs4 ∧ (ts ≠ [] → gs2 = []) := by
  cases ts with
  | nil =>
    cases h2
    cases h4
    simp_all
  | cons t ts =>
    have := hs ho
    subst this
    simp only [List.nil_eq, List.append_eq_nil_iff] at h h'
    simp_all

set_option linter.unusedVariables false in
mutual
theorem SpellsTerm.words : ∀ {k t ws ws'}, SpellsTerm k t ws → SpellsTerm k t ws' → t.settled → ws = ws'
  | _, _, _, _, .layers (t := t) (ts := ts) h1 h2, h', s => by
    obtain ⟨t', ts', gs1, gs2, ws1, ws2, e1, e2, rfl, e3, h3, h4⟩ := h'.inv0
    cases e1
    obtain ⟨s1, s2, s3⟩ := s
    obtain ⟨e4, e5, e⟩ := braces_split s1 rfl rfl e2 h2 h4
    have sg := settledGrammars_append.1 s2
    rw [SpellsLayer.words h1 (e4 ▸ h3) s3.1 sg.1, SpellsLayers.words h2 (e5 ▸ h4) s3.2 sg.2 e]
  | _, _, _, _, .alternatives h1 h2, h', s => by
    obtain ⟨t', ts', ws1, ws2, e1, rfl, h3, h4⟩ := h'.inv1
    cases e1
    rw [SpellsTerm.words h1 h3 s.2.2.1, SpellsAlts.words h2 h4 s.2.2.2]
  | _, _, _, _, .sequence _ h, h', s => by
    cases h' with
    | sequence _ h' => exact SpellsTerms.words h h' s.2.2
  | _, _, _, _, .one h1 h2, h', s => by
    cases h' with
    | one h3 h4 => rw [SpellsNamed.words h1 h3 s.1, SpellsQuants.words h2 h4 s.2]
  termination_by structural _ _ _ _ h => h
theorem SpellsLayer.words : ∀ {t gs ws ws'}, SpellsLayer t gs ws → SpellsLayer t gs ws' → t.settled → settledGrammars gs → ws = ws'
  | _, _, _, _, .plain h, h', s, _ => by
    cases h' with
    | plain h' => exact SpellsTerm.words h h' s
  | _, _, _, _, .braces h1 h2, h', s, sg => by
    cases h' with
    | braces h3 h4 => rw [SpellsTerm.words h1 h3 s, SpellsGrammar.words h2 h4 sg.1]
  termination_by structural _ _ _ _ h => h
theorem SpellsLayers.words : ∀ {ts gs ws ws'}, SpellsLayers ts gs ws → SpellsLayers ts gs ws' → settledTerms ts → settledGrammars gs →
    (ts ≠ [] → gs = []) → ws = ws'
  | _, _, _, _, .nil, h', _, _, _ => by cases h'; rfl
  | _, _, _, _, .cons h1 h2, h', s, sg, e => by
    obtain ⟨gs1, gs2, ws1, ws2, e2, rfl, h3, h4⟩ := h'.inv
    have e := e (by simp)
    rw [e] at e2
    obtain ⟨e3, e4⟩ := List.append_eq_nil_iff.1 e
    obtain ⟨e5, e6⟩ := List.append_eq_nil_iff.1 e2.symm
    have sg := settledGrammars_append.1 sg
    rw [SpellsLayer.words h1 (by rw [e3, ← e5]; exact h3) s.1 sg.1, SpellsLayers.words h2 (by rw [e4, ← e6]; exact h4) s.2 sg.2 (fun _ => e4)]
  termination_by structural _ _ _ _ h => h
theorem SpellsAlts.words : ∀ {ts ws ws'}, SpellsAlts ts ws → SpellsAlts ts ws' → settledTerms ts → ws = ws'
  | _, _, _, .nil, h', _ => by cases h'; rfl
  | _, _, _, .cons h1 h2, h', s => by
    cases h' with
    | cons h3 h4 => rw [SpellsTerm.words h1 h3 s.1, SpellsAlts.words h2 h4 s.2]
  termination_by structural _ _ _ h => h
theorem SpellsTerms.words : ∀ {k ts ws ws'}, SpellsTerms k ts ws → SpellsTerms k ts ws' → settledTerms ts → ws = ws'
  | _, _, _, _, .nil, h', _ => by cases h'; rfl
  | _, _, _, _, .cons h1 h2, h', s => by
    cases h' with
    | cons h3 h4 => rw [SpellsTerm.words h1 h3 s.1, SpellsTerms.words h2 h4 s.2]
  termination_by structural _ _ _ _ h => h
theorem SpellsNamed.words : ∀ {n ws ws'}, SpellsNamed n ws → SpellsNamed n ws' → n.settled → ws = ws'
  | _, _, _, .plain h, h', s => by
    cases h' with
    | plain h' => exact SpellsAtom.words h h' s
  | _, _, _, .named h, h', s => by
    cases h' with
    | named h' => rw [SpellsAtom.words h h' s]
  termination_by structural _ _ _ h => h
theorem SpellsAtom.words : ∀ {a ws ws'}, SpellsAtom a ws → SpellsAtom a ws' → a.settled → ws = ws'
  | _, _, _, .ident, h', _ => by cases h'; rfl
  | _, _, _, .str, h', _ => by cases h'; rfl
  | _, _, _, .re, h', _ => by cases h'; rfl
  | _, _, _, .macrocall _ _, _, s => s.elim
  | _, _, _, .ext, h', _ => by cases h'; rfl
  | _, _, _, .ref, h', _ => by cases h'; rfl
  | _, _, _, .default, h', _ => by cases h'; rfl
  | _, _, _, .look h, h', s => by
    cases h' with
    | look h' => rw [SpellsTerm.words h h' s.2.2.1]
  | _, _, _, .term h, h', s => by
    cases h' with
    | term h' => rw [SpellsTerm.words h h' s]
  | _, _, _, .unit, h', _ => by cases h'; rfl
  termination_by structural _ _ _ h => h
theorem SpellsQuant.words : ∀ {q ws ws'}, SpellsQuant q ws → SpellsQuant q ws' → q.settled → ws = ws'
  | _, _, _, .op, h', _ => by cases h'; rfl
  | _, _, _, .range, h', _ => by cases h'; rfl
  | _, _, _, .sep h, h', s => by
    cases h' with
    | sep h' => rw [SpellsNamed.words h h' s]
  termination_by structural _ _ _ h => h
theorem SpellsQuants.words : ∀ {qs ws ws'}, SpellsQuants qs ws → SpellsQuants qs ws' → settledQuants qs → ws = ws'
  | _, _, _, .nil, h', _ => by cases h'; rfl
  | _, _, _, .cons h1 h2, h', s => by
    cases h' with
    | cons h3 h4 => rw [SpellsQuant.words h1 h3 s.1, SpellsQuants.words h2 h4 s.2]
  termination_by structural _ _ _ h => h
theorem SpellsStmt.words : ∀ {x ws ws'}, SpellsStmt x ws → SpellsStmt x ws' → x.settled → ws = ws'
  | _, _, _, .comment, h', _ => by cases h'; rfl
  | _, _, _, .prod _ h, h', s => by
    cases h' with
    | prod _ h' => rw [SpellsTerms.words h h' s]
  | _, _, _, .imp _ _, _, s => s.elim
  | _, _, _, .macrodef _ _ _, _, s => s.elim
  termination_by structural _ _ _ h => h
theorem SpellsStmts.words : ∀ {ss ws ws'}, SpellsStmts ss ws → SpellsStmts ss ws' → settledStmts ss → ws = ws'
  | _, _, _, .nil, h', _ => by cases h'; rfl
  | _, _, _, .cons h1 h2, h', s => by
    cases h' with
    | cons h3 h4 => rw [SpellsStmt.words h1 h3 s.1, SpellsStmts.words h2 h4 s.2]
  termination_by structural _ _ _ h => h
theorem SpellsGrammar.words : ∀ {g ws ws'}, SpellsGrammar g ws → SpellsGrammar g ws' → g.settled → ws = ws'
  | _, _, _, .mk _ h, h', s => by
    cases h' with
    | mk _ h' => exact SpellsStmts.words h h' s
  termination_by structural _ _ _ h => h
end

end Wbnf

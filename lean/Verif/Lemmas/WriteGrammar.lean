import Verif.Lemmas.WriteTerms
import Verif.Spec.Written

/-!
# Reading terms, statements and grammars
-/

namespace Wbnf.Core

set_option linter.unusedSimpArgs false

variable {E : Engine} {X : Externals} {Γ Γ' : List Grammar} {t u : Term} {w : Str} {ws ws' k : List Str}
  {P P' : List (Str × Ast) → Prop} {x : TermN} {ts : List TermN} {gs gs' : List GrammarN}

/-- Compute the parts under a name. -/
local macro "names" : tactic => `(tactic| simp (decide := true) [partsNamed_append, partsNamed_cons, partsNamed_nil, partsNamed_map])

/-! ## Terms -/

structure ReadsTerm (E : Engine) (X : Externals) (r : String) (After : Bool → List Str → Prop) (x : TermN) (ws : List Str) : Prop where
  reads : ∀ k, After x.hangs k → Reads E X [flat] (rule r) k (Is viewTerm (str "term") x) ws
  heads : Heads atomByte ws

/-- An atom with its quantifiers. -/
theorem reads_one {n : NamedN} {qs : List QuantN} (h : ReadsNamed E X n ws) (h' : ReadsQuants E X qs ws') :
    ReadsTerm E X "term@3" After3 (.one n qs) (ws ++ ws') where
  heads := h.heads.append
  reads k hk := by
    have key := Reads.seq (ReadsSeq.cons (ws' := ws' ++ []) (h.reads _ (by simpa using h'.after hk))
      (.cons (.quant (lo := 0) (h'.reads k hk) (by omega)) (.nil (P := (· = [])) rfl)))
    rw [List.append_nil] at key
    refine (Reads.rule resolves_term3 (by decide +kernel) key).imp ?_
    rintro ps ⟨b, p, rfl, hg, _, _, rfl, ⟨a, rfl, N1, h3⟩, _, _, rfl, ⟨as, rfl, N2, h6⟩, rfl⟩
    rw [List.append_nil] at hg
    refine ⟨_, rfl, max N1 N2 + 1, fun m hm => ?_⟩
    obtain ⟨m, rfl⟩ : ∃ m', m = m' + 1 := ⟨m - 1, by omega⟩
    have e1 : (Ast.branch b).lacks ["term"] = true := by rw [lacks_iff hg]; names
    have e2 : (Ast.branch b).lacks ["grammar", "op"] = true := by rw [lacks_iff hg]; names
    have e3 : (Ast.branch b).first (str "named") = Option.some a := by rw [hg.first]; names
    have e4 : (Ast.branch b).all (str "quant") = as := by rw [groups_all hg]; names
    simp [viewTerm, e1, e2, e3, e4, h3 m (by omega), h6 m (by omega)]

theorem after2_mono {o o' : Bool} (h : o' = true → o = true) (hk : After2 o k) : After2 o' k :=
  ⟨⟨⟨hk.1.1.1, fun e => hk.1.1.2 (h e)⟩, hk.1.2⟩, hk.2⟩

theorem after1_mono {o o' : Bool} (h : o' = true → o = true) (hk : After1 o k) : After1 o' k := ⟨after2_mono h hk.1, hk.2⟩

theorem after0_mono {o o' : Bool} (h : o' = true → o = true) (hk : After0 o k) : After0 o' k := ⟨after1_mono h hk.1, hk.2⟩

/-- Terms one after the other. -/
structure ReadsTerms (E : Engine) (X : Externals) (ts : List TermN) (ws : List Str) : Prop where
  reads : ∀ k, After2 (hangTerms ts) k → ReadsReps E X [flat] (rule "term@3") k ts.length (All viewTerm (str "term") ts) ws
  heads : ws = [] ∧ ts = [] ∨ Heads atomByte ws

theorem ReadsTerms.nil (H : Works E) : ReadsTerms E X [] [] where
  heads := .inl ⟨rfl, rfl⟩
  reads k hk := (ReadsReps.nil (term3_misses H hk.2)).imp fun ps h => by rw [h]; exact .nil

theorem ReadsTerms.cons (h : ReadsTerm E X "term@3" After3 x ws) (h' : ReadsTerms E X ts ws') : ReadsTerms E X (x :: ts) (ws ++ ws') where
  heads := .inr h.heads.append
  reads k hk := by
    have : After3 x.hangs (ws' ++ k) ∧ After2 (hangTerms ts) k := by
      rcases h'.heads with ⟨rfl, rfl⟩ | h2
      · exact ⟨hk.1, after2_mono (by simp [hangTerms]) hk⟩
      · refine ⟨heads_after3 h2.append, ?_⟩
        cases ts with
        | nil => exact after2_mono (by simp [hangTerms]) hk
        | cons => exact hk
    exact (ReadsReps.cons (h.reads _ this.1) (h'.reads k this.2)).imp fun ps ⟨p, q, e, h1, h2⟩ => by rw [e]; exact All.cons h1 h2

theorem all_other {α : Type} {view : Nat → Ast → Option α} {key j : Str} {xs : List α} {ps : List (Str × Ast)} (h : All view key xs ps) (hj : key ≠ j) :
    partsNamed j ps = [] := by
  obtain ⟨as, rfl, N, h⟩ := h
  rw [partsNamed_map, if_neg hj]

theorem reads_sequence (hts : ts ≠ []) (h : ReadsTerms E X ts ws) : ReadsTerm E X "term@2" After2 (.many [] [] ts) ws where
  heads := h.heads.resolve_left fun h => hts h.2
  reads k hk := by
    have hl : 1 ≤ ts.length := by cases ts <;> simp at hts ⊢
    refine (Reads.rule resolves_term2 (by decide +kernel) (Reads.quant (lo := 1) (h.reads k hk) hl)).imp ?_
    rintro ps ⟨b, p, rfl, hg, hp⟩
    exact ⟨_, rfl, sees_many (ts := ts) (gs := []) ⟨seesAll_of hp, .nil (all_other hp (by decide)), all_other hp (by decide), all_other hp (by decide)⟩ hts hg
      (opText_nil hg (all_other hp (by decide)))⟩

/-- The parts of the rest of a list of terms. -/
def TailParts (l : String) (ts : List TermN) (gs : List GrammarN) (ps : List (Str × Ast)) : Prop :=
  TermParts ps ts gs ∧ (ts = [] ∧ partsNamed (str "op") ps = [] ∨ ts ≠ [] ∧ ∃ x xs, partsNamed (str "op") ps = x :: xs ∧ OpTok (s l) x (str l))

theorem TailParts.nil {l : String} : TailParts l [] [] [] := ⟨.none (by simp [partsNamed_nil]), .inl ⟨rfl, rfl⟩⟩

theorem TailParts.cons {l : String} {p1 p2 p3 : List (Str × Ast)} {a : Ast} (h1 : p1 = [(str "op", a)]) (ha : OpTok (s l) a (str l))
    (h2 : TermParts p2 [x] gs) (h3 : TailParts l ts gs' p3) : TailParts l (x :: ts) (gs ++ gs') (p1 ++ p2 ++ p3) := by
  subst h1
  refine ⟨((TermParts.other (k := str "op") (by decide)).append h2).append h3.1, .inr ⟨by simp, a, ?_⟩⟩
  rw [List.append_assoc, List.singleton_append, partsNamed_cons, if_pos rfl]
  exact ⟨_, rfl, ha⟩

theorem TailParts.op {l : String} {p q : List (Str × Ast)} {b : Branch} (hg : Groups t (p ++ q) b) (h : partsNamed (str "op") p = [])
    (h' : TailParts l ts gs q) : (Ast.branch b).opText "op" = Option.some (if ts.isEmpty then [] else str l) := by
  rcases h'.2 with ⟨rfl, e⟩ | ⟨e, x, xs, e', hx⟩
  · exact opText_nil hg (by rw [partsNamed_append, h, e]; rfl)
  · rw [opText_cons hg (xs := xs) (by rw [partsNamed_append, h, e']; rfl) hx]
    cases ts
    · exact absurd rfl e
    · rfl

/-- More alternatives. -/
structure ReadsAlts (E : Engine) (X : Externals) (ts : List TermN) (ws : List Str) : Prop where
  reads : ∀ k, After1 (hangTerms ts) k → ReadsTail E X [flat] (rule "term@2") (eq "op" (s "|")) k (TailParts "|" ts []) ws
  heads : ws = [] ∧ ts = [] ∨ ts ≠ [] ∧ ∃ ws', ws = str "|" :: ws'

theorem after2_bar {o : Bool} : After2 o (str "|" :: k) := by
  have key : ∀ t ∈ [s "=", s ",", re "[?*+]", re "<:|:>?", s "{"] ++ atomStarts, Shies t (str "|" :: k) :=
    fun t ht => shies_word (List.all_eq_true.1 (show ([s "=", s ",", re "[?*+]", re "<:|:>?", s "{"] ++ atomStarts).all (fun t => shy t (str "|")) = true by decide +kernel) t ht)
  exact ⟨⟨⟨key _ (by simp), fun _ => key _ (by simp)⟩, key _ (by simp), key _ (by simp), .inl (key _ (by simp))⟩, fun t ht => key _ (by simp [ht])⟩

theorem hangTerms_cons (h : ts ≠ []) : hangTerms (x :: ts) = hangTerms ts := by
  cases ts with
  | nil => exact absurd rfl h
  | cons => rfl

theorem ReadsAlts.after (h : ReadsAlts E X ts ws) (hk : After1 (hangTerms (x :: ts)) k) : After2 x.hangs (ws ++ k) ∧ After1 (hangTerms ts) k := by
  rcases h.heads with ⟨rfl, rfl⟩ | ⟨hn, ws', rfl⟩
  · exact ⟨hk.1, after1_mono (by simp [hangTerms]) hk⟩
  · exact ⟨after2_bar, by rwa [hangTerms_cons hn] at hk⟩

theorem ReadsAlts.nil (H : Works E) : ReadsAlts E X [] [] where
  heads := .inl ⟨rfl, rfl⟩
  reads k hk := (ReadsTail.nil (.named (H.missesLit (by decide) flat_mem hk.2))).imp fun ps h => by rw [h]; exact .nil

theorem ReadsAlts.cons (H : Works E) (h : ReadsTerm E X "term@2" After2 x ws) (h' : ReadsAlts E X ts ws') :
    ReadsAlts E X (x :: ts) (str "|" :: ws ++ ws') where
  heads := .inr ⟨by simp, _, rfl⟩
  reads k hk := by
    refine (ReadsTail.cons (w1 := [str "|"]) (.op (m := "op") (H.lit (l := "|") (by decide) flat_mem)) (h.reads _ (h'.after hk).1) (h'.reads k (h'.after hk).2)).imp ?_
    rintro ps ⟨p1, p2, p3, rfl, ⟨a, h1, ha⟩, ⟨a2, rfl, N, hN⟩, h3⟩
    exact TailParts.cons (gs := []) h1 ha (.term hN) h3

theorem reads_alternatives (h : ReadsTerm E X "term@2" After2 x ws) (h' : ReadsAlts E X ts ws') :
    ReadsTerm E X "term@1" After1 (.many (if ts.isEmpty then [] else str "|") [] (x :: ts)) (ws ++ ws') where
  heads := h.heads.append
  reads k hk := by
    refine (Reads.rule resolves_term1 (by decide +kernel) (.delim (h.reads _ (h'.after hk).1) (h'.reads k (h'.after hk).2))).imp ?_
    rintro ps ⟨b, p, rfl, hg, p, q, rfl, ⟨a, rfl, N, hN⟩, hq⟩
    exact ⟨_, rfl, sees_many (ts := x :: ts) (gs := []) (by simpa using (TermParts.term hN).append hq.1) (by simp) hg
      (hq.op hg (by names))⟩

/-- A layer. -/
structure ReadsLayer (E : Engine) (X : Externals) (x : TermN) (gs : List GrammarN) (ws : List Str) : Prop where
  reads : ∀ k, After1 x.hangs k → Shies (s "{") k → Reads E X [flat] layerTerm k (fun ps => TermParts ps [x] gs ∧ partsNamed (str "op") ps = []) ws
  heads : Heads atomByte ws
  closed : gs ≠ [] → ∀ k, Reads E X [flat] layerTerm k (fun ps => TermParts ps [x] gs ∧ partsNamed (str "op") ps = []) ws

theorem ReadsLayer.plain (H : Works E) (h : ReadsTerm E X "term@1" After1 x ws) : ReadsLayer E X x [] ws where
  heads := h.heads
  closed h := absurd rfl h
  reads k hk hb := by
    have : Reads E X [flat] layerTerm k _ (ws ++ ([] ++ [])) := Reads.seq (ReadsSeq.cons (ws' := [] ++ []) (h.reads k hk)
      (.cons (ws' := []) (.none (.seq (.first (H.missesLit (by decide) flat_mem hb)))) (.nil (P := (· = [])) rfl)))
    rw [List.append_nil, List.append_nil] at this
    refine Reads.imp this ?_
    rintro ps ⟨p, q, rfl, ⟨a, rfl, N, hN⟩, _, _, rfl, rfl, rfl⟩
    exact ⟨by simpa using TermParts.term hN, by names⟩

/-- The first bytes of statements. -/
def stmtByte (c : UInt8) : Bool := mayFirst ident c || mayFirst comment c

/-- No statement follows. -/
def NoStmt (k : List Str) : Prop := ∀ t ∈ [comment, ident, s ".import", s ".macro", s "/", s ";", s ":"], Shies t k

structure ReadsGrammar (E : Engine) (X : Externals) (x : GrammarN) (ws : List Str) : Prop where
  reads : ∀ k, NoStmt k → Reads E X [flat] (rule "grammar") k (Is viewGrammar (str "grammar") x) ws
  heads : Heads stmtByte ws

theorem after1_open {o : Bool} (h : Heads stmtByte k) : After1 o (str "{" :: k) := by
  have key : ∀ t ∈ [s "=", s ",", re "[?*+]", re "<:|:>?", s "|"] ++ atomStarts, Shies t (str "{" :: k) :=
    fun t ht => shies_word (List.all_eq_true.1 (show ([s "=", s ",", re "[?*+]", re "<:|:>?", s "|"] ++ atomStarts).all (fun t => shy t (str "{")) = true by decide +kernel) t ht)
  exact ⟨⟨⟨⟨key _ (by simp), fun _ => key _ (by simp)⟩, key _ (by simp), key _ (by simp), .inr ⟨k, rfl, h.shies (by decide +kernel), h.shies (by decide +kernel)⟩⟩,
    fun t ht => key _ (by simp [ht])⟩, key _ (by simp)⟩

theorem noStmt_brace : NoStmt (str "}" :: k) :=
  fun t ht => shies_word (List.all_eq_true.1 (show [comment, ident, s ".import", s ".macro", s "/", s ";", s ":"].all (fun t => shy t (str "}")) = true by decide +kernel) t ht)

theorem ReadsLayer.braces (H : Works E) {g : GrammarN} (h : ReadsTerm E X "term@1" After1 x ws) (hg : ReadsGrammar E X g ws') :
    ReadsLayer E X x [g] (ws ++ str "{" :: ws' ++ [str "}"]) := by
  suffices key : ∀ k, Reads E X [flat] layerTerm k (fun ps => TermParts ps [x] [g] ∧ partsNamed (str "op") ps = []) (ws ++ str "{" :: ws' ++ [str "}"]) from
    { heads := h.heads.append.append, reads := fun k _ _ => key k, closed := fun _ => key }
  · intro k
    have : Reads E X [flat] layerTerm k _ _ := Reads.seq (ReadsSeq.cons (k := k) (h.reads _ ?_) (.cons (ws := [str "{"] ++ (ws' ++ ([str "}"] ++ [])))
      (.some (.seq (.cons (H.lit (by decide) flat_mem) (.cons (hg.reads _ noStmt_brace) (.cons (H.lit (by decide) flat_mem) (.nil (P := (· = [])) rfl))))))
      (.nil (P := (· = [])) rfl)))
    · rw [show ws ++ str "{" :: ws' ++ [str "}"] = ws ++ ([str "{"] ++ (ws' ++ ([str "}"] ++ [])) ++ []) by simp]
      refine Reads.imp this ?_
      rintro ps ⟨_, _, rfl, ⟨a, rfl, N, hN⟩, _, _, rfl, ⟨_, _, rfl, ⟨x1, rfl, _⟩, _, _, rfl, ⟨x2, rfl, N2, hN2⟩, _, _, rfl, ⟨x3, rfl, _⟩, rfl⟩, rfl⟩
      refine ⟨?_, by names⟩
      have := (TermParts.term hN).append ((TermParts.other (a := x1) (k := []) (by decide)).append ((TermParts.grammar hN2).append
        (TermParts.other (a := x3) (k := []) (by decide))))
      simpa using this
    · rw [show [str "{"] ++ (ws' ++ ([str "}"] ++ [])) ++ [] ++ k = str "{" :: (ws' ++ (str "}" :: k)) by simp]
      exact after1_open hg.heads.append

/-- More layers. -/
structure ReadsLayers (E : Engine) (X : Externals) (ts : List TermN) (gs : List GrammarN) (ws : List Str) : Prop where
  reads : ∀ k, After0 (hangTerms ts) k → ReadsTail E X [flat] layerTerm (eq "op" (s ">")) k (TailParts ">" ts gs) ws
  heads : ws = [] ∧ ts = [] ∨ ts ≠ [] ∧ ∃ ws', ws = str ">" :: ws'

theorem after1_more {o : Bool} : After1 o (str ">" :: k) ∧ Shies (s "{") (str ">" :: k) := by
  have key : ∀ t ∈ [s "=", s ",", re "[?*+]", re "<:|:>?", s "|", s "{"] ++ atomStarts, Shies t (str ">" :: k) :=
    fun t ht => shies_word (List.all_eq_true.1 (show ([s "=", s ",", re "[?*+]", re "<:|:>?", s "|", s "{"] ++ atomStarts).all (fun t => shy t (str ">")) = true by decide +kernel) t ht)
  exact ⟨⟨⟨⟨⟨key _ (by simp), fun _ => key _ (by simp)⟩, key _ (by simp), key _ (by simp), .inl (key _ (by simp))⟩, fun t ht => key _ (by simp [ht])⟩, key _ (by simp)⟩,
    key _ (by simp)⟩

theorem ReadsLayers.after (h : ReadsLayers E X ts gs ws) (hk : After0 (hangTerms (x :: ts)) k) :
    (After1 x.hangs (ws ++ k) ∧ Shies (s "{") (ws ++ k)) ∧ After0 (hangTerms ts) k := by
  rcases h.heads with ⟨rfl, rfl⟩ | ⟨hn, ws', rfl⟩
  · exact ⟨⟨hk.1, hk.2.2⟩, after0_mono (by simp [hangTerms]) hk⟩
  · exact ⟨after1_more, by rwa [hangTerms_cons hn] at hk⟩

theorem ReadsLayers.nil (H : Works E) : ReadsLayers E X [] [] [] where
  heads := .inl ⟨rfl, rfl⟩
  reads k hk := (ReadsTail.nil (.named (H.missesLit (by decide) flat_mem hk.2.1))).imp fun ps h => by rw [h]; exact .nil

theorem ReadsLayers.cons (H : Works E) (h : ReadsLayer E X x gs ws) (h' : ReadsLayers E X ts gs' ws') :
    ReadsLayers E X (x :: ts) (gs ++ gs') (str ">" :: ws ++ ws') where
  heads := .inr ⟨by simp, _, rfl⟩
  reads k hk := by
    refine (ReadsTail.cons (w1 := [str ">"]) (.op (m := "op") (H.lit (l := ">") (by decide) flat_mem)) (h.reads _ (h'.after hk).1.1 (h'.after hk).1.2)
      (h'.reads k (h'.after hk).2)).imp ?_
    rintro ps ⟨p1, p2, p3, rfl, ⟨a, h1, ha⟩, h2, h3⟩
    exact TailParts.cons h1 ha h2.1 h3

theorem reads_layers (h : ReadsLayer E X x gs ws) (h' : ReadsLayers E X ts gs' ws') :
    ReadsTerm0 E X (.many (if ts.isEmpty then [] else str ">") (gs ++ gs') (x :: ts)) (ws ++ ws') := by
  intro Γ hΓ k hk
  refine (Reads.rule (resolves_term0 hΓ) (by decide +kernel) (.delim (h.reads _ (h'.after hk).1.1 (h'.after hk).1.2) (h'.reads k (h'.after hk).2))).imp ?_
  rintro ps ⟨b, p, rfl, hg, p, q, rfl, hp, hq⟩
  exact ⟨_, rfl, sees_many (ts := x :: ts) (by simpa using hp.1.append hq.1) (by simp) hg (hq.op hg hp.2)⟩

theorem reads_braced (H : Works E) (h : ReadsLayer E X x gs ws) (hn : gs ≠ []) (hk : Shies (s ">") k) :
    Reads E X [flat] (rule "term") k (Is viewTerm (str "term") (.many [] gs [x])) ws := by
  have := Reads.rule (resolves_term0 flat_mem) (by decide +kernel) (.delim (h.closed hn ([] ++ k))
    (ReadsTail.nil (t := layerTerm) (.named (n := str "op") (H.missesLit (l := ">") (by decide) flat_mem hk))))
  rw [List.append_nil] at this
  refine this.imp ?_
  rintro ps ⟨b, p, rfl, hg, p, q, rfl, hp, rfl⟩
  refine ⟨_, rfl, sees_many (ts := [x]) (by simpa using hp.1) (by simp) hg ?_⟩
  exact opText_nil hg (by simpa using hp.2)

/-! ## Statements -/

theorem resolves_prod : Resolves [flat] (str "prod") [flat] prod := resolves_flat (by decide +kernel) (by simp [prod])
theorem resolves_pragma : Resolves [flat] (str "pragma") [flat] pragma := resolves_flat (by decide +kernel) (by simp [pragma])
theorem resolves_stmt : Resolves [flat] (str "stmt") [flat] stmt := resolves_flat (by decide +kernel) (by simp [stmt])
theorem resolves_grammar : Resolves [flat] (str "grammar") [flat] (some (rule "stmt")) := resolves_flat (by decide +kernel) (by simp [some])
theorem resolves_comment : Resolves [flat] (str "COMMENT") [flat] comment := resolves_flat (by decide +kernel) (by simp [comment, re])
theorem enters_pragma : Enters [flat] pragmaGrammar pragmaGrammar := ⟨pragmaGrammar, by decide +kernel, by decide +kernel⟩
theorem pragma_mem : [pragmaGrammar, flat] ∈ frames := by simp [frames]
theorem resolves_import : Resolves [pragmaGrammar, flat] (str "import") [pragmaGrammar, flat] «import» :=
  .here (.here (by decide +kernel) (by simp [«import»]))
theorem resolves_macrodef : Resolves [pragmaGrammar, flat] (str "macrodef") [pragmaGrammar, flat] macrodef :=
  .here (.here (by decide +kernel) (by simp [macrodef]))

/-- What comes after a statement: not more of a path. -/
def AfterStmt (k : List Str) : Prop :=
  Shies (s ";") k ∧ Shies (s ":") k ∧ (Shies (s "/") k ∨ ∃ d v k', k = (47 :: d :: v) :: k' ∧ (d = 47 ∨ d = 42))

/-- A slash is part of `//` or `/*`. -/
def SlashTwice (ws : List Str) : Prop := ∀ v ws', ws = (47 :: v) :: ws' → ∃ d u, v = d :: u ∧ (d = 47 ∨ d = 42)

theorem heads_after (h : Heads stmtByte ws) (hs : SlashTwice ws) : AfterStmt (ws ++ k) := by
  refine ⟨h.append.shies (by decide +kernel), h.append.shies (by decide +kernel), ?_⟩
  obtain ⟨c, v, ws', rfl, hc⟩ := h
  by_cases e : c = 47
  · subst e
    obtain ⟨d, u, rfl, hd⟩ := hs v ws' rfl
    exact .inr ⟨d, u, ws' ++ k, rfl, hd⟩
  · refine .inl (.inr ⟨c, v, ws' ++ k, rfl, ?_, by simpa [mayStart, s, str] using e⟩)
    have := disjoint_at (S' := fun c => whites.contains c) (by decide +kernel) hc
    simpa using this

theorem slashTwice_of {S : UInt8 → Bool} (h : Heads S ws) (hS : S 47 = false) : SlashTwice ws := by
  obtain ⟨c, v, ws', rfl, hc⟩ := h
  intro v' ws'' e
  simp only [List.cons.injEq] at e
  rw [e.1.1] at hc
  rw [hc] at hS
  cases hS

structure ReadsStmt (E : Engine) (X : Externals) (x : StmtN) (ws : List Str) : Prop where
  reads : ∀ k, AfterStmt k → Reads E X [flat] (rule "stmt") k (Is viewStmt (str "stmt") x) ws
  heads : Heads stmtByte ws
  slash : SlashTwice ws

theorem stmt_misses (H : Works E) (h : NoStmt k) : Misses E X [flat] (rule "stmt") k := by
  refine .rule resolves_stmt (.oneof fun u hu => ?_)
  simp only [List.mem_cons, List.not_mem_nil, or_false] at hu
  rcases hu with rfl | rfl | rfl
  · exact .rule resolves_comment (H.misses comment_leaf flat_mem (h _ (by simp)))
  · exact .rule resolves_prod (.seq (.first (H.missesIdent flat_mem (h _ (by simp)))))
  · refine .rule resolves_pragma (.scope enters_pragma (.oneof fun u hu => ?_))
    simp only [List.mem_cons, List.not_mem_nil, or_false] at hu
    rcases hu with rfl | rfl
    · exact .rule resolves_import (.seq (.first (.cut (H.missesLit (by decide) pragma_mem (h _ (by simp))))))
    · exact .rule resolves_macrodef (.seq (.first (.cut (H.missesLit (by decide) pragma_mem (h _ (by simp))))))

theorem Works.comment (H : Works E) (h : Lexeme comment w) :
    Reads E X [flat] (rule "COMMENT") k (fun ps => ∃ a, ps = [(Wbnf.str "COMMENT", a)] ∧ Tok Core.comment a w) [w] :=
  H.leafRule (by decide +kernel) resolves_comment comment_leaf h (by decide +kernel)

theorem ReadsStmt.comment (H : Works E) (hw : Lexeme comment w) : ReadsStmt E X (.comment w) [w] where
  heads := (heads_token comment_leaf hw.1).mono (by decide +kernel)
  slash v ws' e := by
    simp only [List.cons.injEq] at e
    obtain ⟨x, e' | e'⟩ := token_comment hw.1
    · rw [e'] at e
      exact ⟨47, x, by simpa [str] using e.1.symm, .inl rfl⟩
    · rw [e'] at e
      exact ⟨42, x, by simpa [str] using e.1.symm, .inr rfl⟩
  reads k _ := by
    refine (Reads.rule resolves_stmt (by decide +kernel) (Reads.oneof (n := 0) rfl (fun l u hl hu => by omega) (H.comment hw))).imp ?_
    rintro ps ⟨b, p, rfl, hg, p, rfl, a, rfl, ha⟩
    refine ⟨_, rfl, 1, fun m hm => ?_⟩
    obtain ⟨m, rfl, hm2⟩ := pred_of_succ hm
    have f1 : (Ast.branch b).first (str "COMMENT") = Option.some a := by rw [hg.first]; names
    have f2 : (Ast.branch b).first (str "prod") = none := by rw [hg.first]; names
    have f3 : (Ast.branch b).first (str "pragma") = none := by rw [hg.first]; names
    simp [viewStmt, f1, f2, f3, ha.1]

/-- The right-hand side of a production. -/
structure ReadsRight (E : Engine) (X : Externals) (ts : List TermN) (ws : List Str) : Prop where
  reads : ∀ k, ReadsReps E X [flat] (rule "term") (str ";" :: k) ts.length (All viewTerm (str "term") ts) ws
  heads : ws = [] ∧ ts = [] ∨ ts ≠ [] ∧ Heads atomByte ws

theorem ReadsRight.nil (H : Works E) : ReadsRight E X [] [] where
  heads := .inl ⟨rfl, rfl⟩
  reads k := (ReadsReps.nil (term0_misses H (after0_semi (o := true)).1.1.2 flat_mem)).imp fun ps h => by rw [h]; exact .nil

theorem ReadsRight.cons (h : ReadsTerm0 E X x ws) (hh : Heads atomByte ws)
    (hb : ts ≠ [] → ∀ k, Shies (s ">") k → Reads E X [flat] (rule "term") k (Is viewTerm (str "term") x) ws) (h' : ReadsRight E X ts ws') :
    ReadsRight E X (x :: ts) (ws ++ ws') where
  heads := .inr ⟨by simp, hh.append⟩
  reads k := by
    have : Reads E X [flat] (rule "term") (ws' ++ str ";" :: k) (Is viewTerm (str "term") x) ws := by
      rcases h'.heads with ⟨rfl, rfl⟩ | ⟨e, h2⟩
      · exact h _ flat_mem _ after0_semi
      · exact hb e _ (h2.append.shies (by decide +kernel))
    exact (ReadsReps.cons this (h'.reads k)).imp fun ps ⟨p, q, e, h1, h2⟩ => by rw [e]; exact All.cons h1 h2

theorem ReadsStmt.prod (H : Works E) (hw : Lexeme ident w) (hn : ts ≠ []) (h : ReadsRight E X ts ws) :
    ReadsStmt E X (.prod w ts) (w :: str "->" :: (ws ++ [str ";"])) where
  slash := slashTwice_of (heads_token ident_leaf hw.1) (by decide +kernel)
  heads := (heads_token ident_leaf hw.1).mono (by decide +kernel)
  reads k _ := by
    have hterm := Reads.quant (lo := 1) (h.reads k) (by cases ts <;> simp at hn ⊢)
    have key := Reads.rule resolves_prod (by decide +kernel) (.seq (.cons (ws := [w]) (k := k) (H.ident flat_mem hw) (.cons (ws := [str "->"]) (.cut (H.lit (by decide) flat_mem))
      (.cons hterm (.cons (ws := [str ";"]) (.cut (H.lit (by decide) flat_mem)) (.nil (P := (· = [])) rfl))))))
    rw [show w :: str "->" :: (ws ++ [str ";"]) = [w] ++ ([str "->"] ++ (ws ++ ([str ";"] ++ []))) by simp]
    refine (Reads.rule resolves_stmt (by decide +kernel) (Reads.oneof (n := 1) rfl (fun l u hl hu => ?_) key)).imp ?_
    · have : l = 0 := by omega
      subst this
      cases hu
      exact .rule resolves_comment (H.misses comment_leaf flat_mem (shies_token ident_leaf hw.1 (by decide +kernel)))
    · rintro ps ⟨b, p, rfl, hg, p, rfl, b', _, rfl, hg', _, _, rfl, ⟨x1, rfl, hx1⟩, _, _, rfl, ⟨x2, rfl, _⟩, _, _, rfl, ⟨as, rfl, N, hN⟩, _, _, rfl, ⟨x4, rfl, _⟩, rfl⟩
      have hi := nameText_cons (m := "IDENT") (x := x1) (xs := []) hg' (by names) hx1
      have ha : (Ast.branch b').all (str "term") = as := by rw [groups_all hg']; names
      have e : shownName (str "prod") = str "prod" := by decide +kernel
      rw [e] at hg
      refine ⟨_, rfl, N + 1, fun m hm => ?_⟩
      obtain ⟨m, rfl, hm2⟩ := pred_of_succ hm
      have f1 : (Ast.branch b).first (str "COMMENT") = none := by rw [hg.first]; names
      have f2 : (Ast.branch b).first (str "prod") = Option.some (.branch b') := by rw [hg.first]; names
      have f3 : (Ast.branch b).first (str "pragma") = none := by rw [hg.first]; names
      simp [viewStmt, f1, f2, f3, hi, ha, hN m hm2]

/-- The parts of parameters. -/
def ParamParts (as : List Str) (ps : List (Str × Ast)) : Prop :=
  mapO Ast.text (partsNamed (str "args") ps) = Option.some as ∧ partsNamed (str "name") ps = [] ∧ partsNamed (str "term") ps = []

theorem ParamParts.append {as as' : List Str} {p q : List (Str × Ast)} (h : ParamParts as p) (h' : ParamParts as' q) : ParamParts (as ++ as') (p ++ q) :=
  ⟨by rw [partsNamed_append]; exact mapO_append h.1 h'.1, by rw [partsNamed_append, h.2.1, h'.2.1]; rfl, by rw [partsNamed_append, h.2.2, h'.2.2]; rfl⟩

theorem ParamParts.nil : ParamParts [] [] := ⟨rfl, rfl, rfl⟩

theorem ParamParts.other {a : Ast} : ParamParts [] [([], a)] := ⟨by names, by names, by names⟩

def paramTerm : Term := opt (eq "args" (rule "IDENT"))

theorem reads_param (H : Works E) {y : Option Str} (h : ∀ a, y = Option.some a → Lexeme ident a) (hk : Shies ident k) :
    Reads E X [pragmaGrammar, flat] paramTerm k (ParamParts y.toList) y.toList := by
  cases y with
  | none => exact (Reads.none (.named (H.missesIdent pragma_mem hk))).imp fun ps h => by rw [h]; exact .nil
  | some a =>
    refine (Reads.some (.eq (m := "args") (u := ident) (y := a) (by decide) (H.ident pragma_mem (h a rfl)))).imp ?_
    rintro ps ⟨x, rfl, hx⟩
    exact ⟨by names; simp [mapO, hx.1], by names, by names⟩

theorem reads_params (H : Works E) {as : List Str} (h : SpellsParams as ws) (ho : ∀ a ∈ as, Lexeme ident a) :
    (∀ k, ReadsTail E X [pragmaGrammar, flat] paramTerm (s ",") (str ")" :: k) (ParamParts as) ws) ∧ ∀ k, Shies ident (ws ++ str ")" :: k) := by
  induction h with
  | nil =>
    exact ⟨fun k => (ReadsTail.nil (H.missesLit (by decide) pragma_mem (shies_word (by decide +kernel)))).imp fun ps h => by rw [h]; exact .nil,
      fun k => shies_word (by decide +kernel)⟩
  | @skip as ws h ih =>
    obtain ⟨h1, h2⟩ := ih ho
    refine ⟨fun k => ?_, fun k => shies_word (by decide +kernel)⟩
    refine (ReadsTail.cons (w1 := [str ","]) (w2 := []) (H.lit (by decide) pragma_mem) (reads_param H (y := none) (by simp) (h2 k)) (h1 k)).imp ?_
    rintro ps ⟨_, p2, p3, rfl, ⟨a, rfl, _⟩, h2, h3⟩
    simpa using (ParamParts.other (a := a)).append (h2.append h3)
  | @cons a as ws h ih =>
    obtain ⟨h1, h2⟩ := ih fun b hb => ho b (by simp [hb])
    refine ⟨fun k => ?_, fun k => shies_word (by decide +kernel)⟩
    refine (ReadsTail.cons (w1 := [str ","]) (w2 := [a]) (H.lit (by decide) pragma_mem)
      (reads_param H (y := Option.some a) (by simpa using ho a (by simp)) (h2 k)) (h1 k)).imp ?_
    rintro ps ⟨_, p2, p3, rfl, ⟨b, rfl, _⟩, h2, h3⟩
    simpa using (ParamParts.other (a := b)).append (h2.append h3)

/-- The end of a pragma. -/
theorem reads_end (H : Works E) (h : SpellsEnd ws) (hk : Shies (s ";") k) :
    Reads E X [pragmaGrammar, flat] (opt (.cut (s ";"))) k (fun ps => ps = [] ∨ ∃ a, ps = [([], a)]) ws := by
  rcases h with rfl | rfl
  · exact (Reads.none (.cut (H.missesLit (by decide) pragma_mem hk))).imp fun ps h => .inl h
  · exact (Reads.some (.cut (H.lit (by decide) pragma_mem))).imp fun ps ⟨a, h, _⟩ => .inr ⟨a, h⟩

theorem macro_lexeme : Lexeme ident (str ".macro") :=
  ⟨.dotted ⟨by decide +kernel, 109, _, rfl, by decide⟩, .inl (by decide +kernel), fun e => absurd e (by decide +kernel), fun e => absurd e (by decide +kernel)⟩

theorem prod_misses (H : Works E) (hw : Lexeme ident w) (hk : Shies (s "->") k) : Misses E X [flat] (rule "prod") (w :: k) :=
  .rule resolves_prod (.seq (.later (ws := [w]) (H.ident flat_mem hw) (ident_noCut flat_mem) (.first (.cut (H.missesLit (by decide) flat_mem hk)))))

theorem reads_macrodef (H : Works E) {as rest : List Str} {first : Option Str} (hw : Lexeme ident w) (hf : ∀ a, first = Option.some a → Lexeme ident a)
    (hs : SpellsParams as rest) (ha : ∀ a ∈ as, Lexeme ident a) (h : ReadsTerm0 E X x ws) (he : SpellsEnd ws') (hk : Shies (s ";") k) :
    Reads E X [pragmaGrammar, flat] macrodef k (fun ps => (∃ y, partsNamed (str "name") ps = [y] ∧ Tok ident y w) ∧
        mapO Ast.text (partsNamed (str "args") ps) = Option.some (first.toList ++ as) ∧
        ∃ a, partsNamed (str "term") ps = [a] ∧ ∃ N, ∀ m, N ≤ m → viewTerm m a = Option.some x)
      (str ".macro" :: w :: str "(" :: (first.toList ++ rest ++ str ")" :: str "{" :: (ws ++ str "}" :: ws'))) := by
  obtain ⟨h1, h2⟩ := reads_params (X := X) H hs ha
  have key : Reads E X [pragmaGrammar, flat] macrodef k _ ([str ".macro"] ++ ([w] ++ ([str "("] ++ ((first.toList ++ rest) ++ ([str ")"] ++ ([str "{"] ++ (ws ++
      ([str "}"] ++ (ws' ++ []))))))))) :=
    .seq (.cons (.cut (H.lit (by decide) pragma_mem)) (.cons (.eq (m := "name") (u := ident) (y := w) (by decide) (H.ident pragma_mem hw))
      (.cons (H.lit (by decide) pragma_mem) (.cons (.delim (reads_param H hf (h2 _)) (h1 _)) (.cons (H.lit (by decide) pragma_mem)
        (.cons (H.lit (by decide) pragma_mem) (.cons (h _ pragma_mem _ after0_brace) (.cons (H.lit (by decide) pragma_mem)
          (.cons (reads_end H he hk) (.nil (P := (· = [])) rfl))))))))))
  rw [show str ".macro" :: w :: str "(" :: (first.toList ++ rest ++ str ")" :: str "{" :: (ws ++ str "}" :: ws')) =
    [str ".macro"] ++ ([w] ++ ([str "("] ++ ((first.toList ++ rest) ++ ([str ")"] ++ ([str "{"] ++ (ws ++ ([str "}"] ++ (ws' ++ [])))))))) by simp]
  refine key.imp ?_
  rintro ps ⟨_, _, rfl, ⟨x1, rfl, _⟩, _, _, rfl, ⟨x2, rfl, hx2⟩, _, _, rfl, ⟨x3, rfl, _⟩, _, _, rfl, ⟨p, q, rfl, hp, hq⟩, _, _, rfl, ⟨x5, rfl, _⟩,
    _, _, rfl, ⟨x6, rfl, _⟩, _, _, rfl, ⟨a, rfl, N, hN⟩, _, _, rfl, ⟨x8, rfl, _⟩, p9, _, rfl, h9, rfl⟩
  have hpq := hp.append hq
  have hs : ∀ j, j ≠ [] → partsNamed j p9 = [] := by
    intro j hj
    rcases h9 with rfl | ⟨x, rfl⟩
    · rfl
    · exact partsNamed_other _ (Ne.symm hj)
  have e1 := hpq.2.1
  have e2 := hpq.2.2
  have e3 := hpq.1
  rw [partsNamed_append] at e1 e2 e3
  rw [List.append_eq_nil_iff] at e1 e2
  refine ⟨⟨x2, ?_, hx2⟩, ?_, a, ?_, N, hN⟩
  · simp (decide := true) [partsNamed_append, partsNamed_cons, partsNamed_nil, e1, hs]
  · simpa (decide := true) [partsNamed_append, partsNamed_cons, partsNamed_nil, hs] using e3
  · simp (decide := true) [partsNamed_append, partsNamed_cons, partsNamed_nil, e2, hs]

theorem ReadsStmt.macrodef (H : Works E) {as rest : List Str} {first : Option Str} (hw : Lexeme ident w) (hf : ∀ a, first = Option.some a → Lexeme ident a)
    (hs : SpellsParams as rest) (ha : ∀ a ∈ as, Lexeme ident a) (h : ReadsTerm0 E X x ws) (he : SpellsEnd ws') :
    ReadsStmt E X (.macrodef w (first.toList ++ as) x)
      (str ".macro" :: w :: str "(" :: (first.toList ++ rest ++ str ")" :: str "{" :: (ws ++ str "}" :: ws'))) where
  heads := heads_word (by decide +kernel)
  slash v ws' e := by simp [str] at e
  reads k hk := by
    have key := Reads.rule resolves_pragma (by decide +kernel) (.scope enters_pragma (Reads.oneof (n := 1) (ts := [rule "import", rule "macrodef"]) rfl
      (fun l u hl hu => ?_) (.rule resolves_macrodef (by decide +kernel) (reads_macrodef (k := k) H hw hf hs ha h he hk.1))))
    · refine (Reads.rule resolves_stmt (by decide +kernel) (Reads.oneof (n := 2) rfl (fun l u hl hu => ?_) key)).imp ?_
      · obtain rfl | rfl : l = 0 ∨ l = 1 := by omega
        · cases hu
          exact .rule resolves_comment (H.misses comment_leaf flat_mem (shies_word (by decide +kernel)))
        · cases hu
          exact prod_misses H macro_lexeme (shies_token ident_leaf hw.1 (by decide +kernel))
      · rintro ps ⟨b, p, rfl, hg, p, rfl, b', _, rfl, hg', p, rfl, c, q, rfl, hc, ⟨y, hy, hy2⟩, hq, a, ha, N, hN⟩
        have e : shownName (str "pragma") = str "pragma" := by decide +kernel
        rw [e] at hg
        have e : shownName (str "macrodef") = str "macrodef" := by decide +kernel
        rw [e] at hg'
        have hi := nameText_cons (m := "name") (x := y) (xs := []) hc hy hy2
        have f1 : (Ast.branch b).first (str "COMMENT") = none := by rw [hg.first]; names
        have f2 : (Ast.branch b).first (str "prod") = none := by rw [hg.first]; names
        have f3 : (Ast.branch b).first (str "pragma") = Option.some (.branch b') := by rw [hg.first]; names
        have f4 : (Ast.branch b').first (str "import") = none := by rw [hg'.first]; names
        have f5 : (Ast.branch b').first (str "macrodef") = Option.some (.branch c) := by rw [hg'.first]; names
        have f6 : (Ast.branch c).first (str "term") = Option.some a := by rw [hc.first, ha]; rfl
        have f7 : mapO Ast.text ((Ast.branch c).all (str "args")) = Option.some (first.toList ++ as) := by rw [groups_all hc]; exact hq
        refine ⟨_, rfl, N + 1, fun m hm => ?_⟩
        obtain ⟨m, rfl, hm2⟩ := pred_of_succ hm
        simp [viewStmt, f1, f2, f3, f4, f5, f6, f7, hi, hN m hm2]
    · have : l = 0 := by omega
      subst this
      cases hu
      exact .rule resolves_import (.seq (.first (.cut (H.missesLit (by decide) pragma_mem (shies_word (by decide +kernel))))))

/-! ## Imports -/

def pathTerm : Term := .oneof [.cut (s ".."), .cut (s "."), re "[a-zA-Z0-9.:]+"]

instance decNameByte (c : UInt8) : Decidable (NameByte c) := by unfold NameByte; infer_instance

/-- The words of a path. -/
def PathWord (x : Str) : Prop := x = str "." ∨ x = str ".." ∨ Lexeme (re "[a-zA-Z0-9.:]+") x

theorem path_leaf : re "[a-zA-Z0-9.:]+" ∈ leaves := by decide +kernel

/-- The parts of a path. -/
def PathParts (xs : List Str) (ps : List (Str × Ast)) : Prop := mapO Ast.text (partsNamed [] ps) = Option.some xs

theorem PathParts.append {xs xs' : List Str} {p q : List (Str × Ast)} (h : PathParts xs p) (h' : PathParts xs' q) : PathParts (xs ++ xs') (p ++ q) := by
  rw [PathParts, partsNamed_append]
  exact mapO_append h h'

theorem PathParts.one {a : Ast} (h : Tok t a w) : PathParts [w] [([], a)] := by
  rw [PathParts, partsNamed_one]
  simp [mapO, h.1]

theorem PathParts.tagged {xs : List Str} {p : List (Str × Ast)} {key : Str} {a : Ast} (hk : key ≠ []) (h : PathParts xs p) : PathParts xs ((key, a) :: p) := by
  rw [PathParts, partsNamed_cons, if_neg hk]
  exact h

theorem PathWord.begins (h : PathWord w) : Heads (fun c => c == 46 || decide (NameByte c)) (w :: k) := by
  rcases h with rfl | rfl | h
  · exact ⟨46, _, _, rfl, by decide⟩
  · exact ⟨46, _, _, rfl, by decide⟩
  · obtain ⟨c, v, rfl, _⟩ := h.first path_leaf
    refine ⟨c, v, k, rfl, ?_⟩
    have := (h.2.1.resolve_left (by simp)).1 c rfl
    simp [this]

theorem reads_pathWord (H : Works E) (h : PathWord w) (hk : Shies (s ":") k) :
    Reads E X [pragmaGrammar, flat] pathTerm k (PathParts [w]) [w] := by
  rcases h with rfl | rfl | h
  · refine (Reads.oneof (n := 1) rfl (fun l u hl hu => ?_) (.cut (H.lit (l := ".") (by decide) pragma_mem))).imp ?_
    · obtain rfl : l = 0 := by omega
      cases hu
      exact .cut (H.missesLit (by decide) pragma_mem (shies_word (by decide +kernel)))
    · rintro ps ⟨p, rfl, a, rfl, ha⟩
      exact .tagged (by decide) (.one ha)
  · refine (Reads.oneof (n := 0) rfl (fun l u hl hu => by omega) (.cut (H.lit (l := "..") (by decide) pragma_mem))).imp ?_
    rintro ps ⟨p, rfl, a, rfl, ha⟩
    exact .tagged (by decide) (.one ha)
  · refine (Reads.oneof (n := 2) rfl (fun l u hl hu => ?_) (H.word path_leaf pragma_mem h fun _ => hk)).imp ?_
    · obtain ⟨c, v, rfl, _⟩ := h.first path_leaf
      have hc := (h.2.1.resolve_left (by simp)).1 c rfl
      have hb : Heads (fun c => decide (NameByte c)) ([c :: v] ++ k) := ⟨c, v, k, rfl, by simpa using hc⟩
      obtain rfl | rfl : l = 0 ∨ l = 1 := by omega
      · cases hu
        exact .cut (H.missesLit (by decide) pragma_mem (hb.shies (by decide +kernel)))
      · cases hu
        exact .cut (H.missesLit (by decide) pragma_mem (hb.shies (by decide +kernel)))
    · rintro ps ⟨p, rfl, a, rfl, ha⟩
      exact .tagged (by decide) (.one ha)

/-- After the slash of a comment there is no part of a path. -/
theorem slash_misses (H : Works E) {d : UInt8} {v : Str} (hd : d = 47 ∨ d = 42) :
    Misses E X [pragmaGrammar, flat] (.seq [s "/", pathTerm]) ((47 :: d :: v) :: k) := by
  intro i hi name vals
  obtain ⟨hr, x, y, a, b, h1, h2, h3, h4, h5, _⟩ := hi
  have hs : i.slice = Option.some x := (slice_toStr hr).trans h1
  have hl : s "/" ∈ leaves := lit_leaf (by decide)
  cases hf : E.find (pattern (own (s "/"))) x with
  | none => exact .seqNo (by simpa using Peg.itemsFail (c := false) (ts := [pathTerm]) (leaf_peg hl pragma_mem (.fail hs hf) [] vals)) (.inl rfl)
  | some locs =>
    obtain ⟨before, text, after, rest, rfl, w1, w2, htok, e1, e2⟩ := H.reads _ hl _ locs hf
    have ht := token_s htok
    subst ht
    have hdw : d ∉ whites := by rcases hd with rfl | rfl <;> decide
    have hrest : ∃ z, rest = d :: z := by
      cases h2 with
      | @cons before2 _ _ x' k1 k3 k4 =>
        have e := white_unique (a := a ++ before) (b := b ++ before2) (d := 47) (c := 47) (s := after ++ rest) (r := d :: (v ++ x'))
          (white_append.2 ⟨h3, w1⟩) (white_append.2 ⟨h4, k1⟩) (by decide) (by decide) (by simpa [str] using h5)
        have e := e.2
        cases after with
        | nil => exact ⟨_, e⟩
        | cons c after =>
          simp only [List.cons_append, List.cons.injEq] at e
          exact absurd (white_byte w2 (by simp)) (e.1 ▸ hdw)
    obtain ⟨z, rfl⟩ := hrest
    have hsafe : LeafSafe E (pattern (own (s "/"))) := H.ok.groups _ (by decide +kernel)
    obtain ⟨leaf, j, hlf⟩ : ∃ leaf j, LeafOut E (pattern (own (s "/"))) i (.ok (.leaf leaf) j) := by
      obtain ⟨b, g, e | ⟨g', e⟩⟩ := hsafe _ _ hf
      · exact ⟨_, _, .one hs (e ▸ hf)⟩
      · exact ⟨_, _, .two hs (e ▸ hf)⟩
    obtain ⟨p1, _, text, _, rest', p2, _, _, hq, _, p3⟩ := leaf_at H.sane hr hlf (Q := fun _ rest => rest = d :: z) fun y l hy hf' => by
      rw [hs, Option.some.injEq] at hy
      subst hy
      rw [hf, Option.some.injEq] at hf'
      subst hf'
      exact ⟨_, _, _, _, rfl, w1, w2, rfl, e1, e2⟩
    subst hq
    have hj : Sits j [d :: z] := ⟨p1.inRange hr, _, d :: z, [], [], p3, by
      have := LaidOut.cons (before := []) (w := d :: z) (ws := []) (x := []) (by simp [White]) (by intro _ _ _ h; cases h) (.nil (by simp [White]))
      simpa using this, by simp [White], by simp [White], rfl, by simp⟩
    have hno : Misses E X [pragmaGrammar, flat] pathTerm [d :: z] := by
      have hb : Heads (fun c => c == 47 || c == 42) [d :: z] := ⟨d, z, [], rfl, by rcases hd with rfl | rfl <;> decide⟩
      refine .oneof fun u hu => ?_
      simp only [List.mem_cons, List.not_mem_nil, or_false] at hu
      rcases hu with rfl | rfl | rfl
      · exact .cut (H.missesLit (by decide) pragma_mem (hb.shies (by decide +kernel)))
      · exact .cut (H.missesLit (by decide) pragma_mem (hb.shies (by decide +kernel)))
      · exact H.misses path_leaf pragma_mem (hb.shies (by decide +kernel))
    have hcut : ¬ IsCut [pragmaGrammar, flat] (s "/") := by rintro ⟨⟩
    exact .seqNo (.itemsLater (c' := false) (leaf_peg hl pragma_mem hlf [] vals) (by simp [hcut]) (by simpa using Peg.itemsFail (c := false) (ts := []) (hno j hj [] _)) (.inl rfl)) (.inl rfl)

theorem reads_names (H : Works E) {p : List Str} (h : SpellsNames p) (ho : ∀ x ∈ p, x = str "/" ∨ PathWord x)
    (hk : Shies (s ":") k) (hm : Misses E X [pragmaGrammar, flat] (.seq [s "/", pathTerm]) k) :
    ReadsTail E X [pragmaGrammar, flat] pathTerm (s "/") k (PathParts p) p ∧ Shies (s ":") (p ++ k) := by
  induction h with
  | nil => exact ⟨(ReadsTail.stop hm).imp fun ps h => by rw [h]; rfl, hk⟩
  | @cons x p hx h ih =>
    obtain ⟨h1, h2⟩ := ih fun y hy => ho y (by simp [hy])
    have hw : PathWord x := (ho x (by simp)).resolve_left hx
    refine ⟨?_, shies_word (by decide +kernel)⟩
    refine (ReadsTail.cons (w1 := [str "/"]) (w2 := [x]) (H.lit (by decide) pragma_mem) (reads_pathWord H hw h2) h1).imp ?_
    rintro ps ⟨_, p2, p3, rfl, ⟨a, rfl, ha⟩, h2, h3⟩
    simpa using ((PathParts.one ha).append h2).append h3

theorem pathTerm_value {vals : List (Str × Tree)} {i j : Scanner} {v : Tree} {name : Str} (h : Peg E X (.term Γ name pathTerm vals i) (.ok v j)) : v ≠ .empty := by
  cases h with
  | oneof h =>
    rintro rfl
    cases h with
    | altsNext _ h => cases h with
      | altsNext _ h => cases h with
        | altsNext _ h => cases h

theorem reads_path (H : Works E) {p : List Str} (h : SpellsPath p) (ho : ∀ x ∈ p, x = str "/" ∨ PathWord x)
    (hk : Shies (s ":") k) (hm : Misses E X [pragmaGrammar, flat] (.seq [s "/", pathTerm]) k) :
    Reads E X [pragmaGrammar, flat] (.delim pathTerm (s "/") 0 true false) k (PathParts p) p := by
  cases h with
  | @relative x p hx h =>
    obtain ⟨h1, h2⟩ := reads_names (X := X) H h (fun y hy => ho y (by simp [hy])) hk hm
    have hw : PathWord x := (ho x (by simp)).resolve_left hx
    refine (Reads.delimPlain (ws := [x]) (H.missesLit (by decide) pragma_mem (hw.begins.shies (by decide +kernel))) (reads_pathWord H hw h2) h1 pathTerm_value).imp ?_
    rintro ps ⟨p, q, rfl, hp, hq⟩
    exact hp.append hq
  | @rooted x p hx h =>
    obtain ⟨h1, h2⟩ := reads_names (X := X) H h (fun y hy => ho y (by simp [hy])) hk hm
    have hw : PathWord x := (ho x (by simp)).resolve_left hx
    refine (Reads.delimLead (w0 := [str "/"]) (ws := [x]) (H.lit (by decide) pragma_mem) (reads_pathWord H hw h2) h1 (by rintro ps ⟨⟩)).imp ?_
    rintro ps ⟨_, p, q, rfl, ⟨a, rfl, ha⟩, hp, hq⟩
    exact .tagged (by decide) (by simpa using ((PathParts.one ha).append hp).append hq)

theorem import_lexeme : Lexeme ident (str ".import") :=
  ⟨.dotted ⟨by decide +kernel, 105, _, rfl, by decide⟩, .inl (by decide +kernel), fun e => absurd e (by decide +kernel), fun e => absurd e (by decide +kernel)⟩

theorem ReadsStmt.imp (H : Works E) {p : List Str} (h : SpellsPath p) (ho : ∀ x ∈ p, x = str "/" ∨ PathWord x) (he : SpellsEnd ws) :
    ReadsStmt E X (.imp p) (str ".import" :: (p ++ ws)) where
  heads := heads_word (by decide +kernel)
  slash v ws' e := by simp [str] at e
  reads k hk := by
    have hcolon : Shies (s ":") (ws ++ k) := by
      rcases he with rfl | rfl
      · exact hk.2.1
      · exact shies_word (by decide +kernel)
    have hm : Misses E X [pragmaGrammar, flat] (.seq [s "/", pathTerm]) (ws ++ k) := by
      rcases he with rfl | rfl
      · rcases hk.2.2 with h | ⟨d, v, k', e, hd⟩
        · exact .seq (.first (H.missesLit (by decide) pragma_mem h))
        · rw [List.nil_append, e]
          exact slash_misses H hd
      · exact .seq (.first (H.missesLit (by decide) pragma_mem (shies_word (by decide +kernel))))
    have hp := reads_path (X := X) H h ho hcolon hm
    have key : Reads E X [pragmaGrammar, flat] «import» k _ ([str ".import"] ++ (p ++ (ws ++ []))) :=
      .seq (.cons (.cut (H.lit (by decide) pragma_mem)) (.cons (.named (n := str "path") (by rw [List.append_nil]; exact hp)) (.cons (reads_end H he hk.1) (.nil (P := (· = [])) rfl))))
    have key := Reads.rule resolves_pragma (by decide +kernel) (.scope enters_pragma (Reads.oneof (n := 0) (ts := [rule "import", rule "macrodef"]) rfl
      (fun l u hl hu => by omega) (.rule resolves_import (by decide +kernel) key)))
    rw [show str ".import" :: (p ++ ws) = [str ".import"] ++ (p ++ (ws ++ [])) by simp]
    refine (Reads.rule resolves_stmt (by decide +kernel) (Reads.oneof (n := 2) rfl (fun l u hl hu => ?_) key)).imp ?_
    · obtain rfl | rfl : l = 0 ∨ l = 1 := by omega
      · cases hu
        exact .rule resolves_comment (H.misses comment_leaf flat_mem (shies_word (by decide +kernel)))
      · cases hu
        refine prod_misses H import_lexeme ?_
        cases h with
        | relative hx _ => exact (PathWord.begins ((ho _ (by simp)).resolve_left hx)).shies (by decide +kernel)
        | rooted => exact shies_word (by decide +kernel)
    · rintro ps ⟨b, p, rfl, hg, p, rfl, b', _, rfl, hg', p, rfl, c, q, rfl, hc, _, _, rfl, ⟨x1, rfl, _⟩, _, _, rfl, ⟨d, r, rfl, hd, hr⟩, p9, _, rfl, h9, rfl⟩
      have e : shownName (str "pragma") = str "pragma" := by decide +kernel
      rw [e] at hg
      have e : shownName (str "import") = str "import" := by decide +kernel
      rw [e] at hg'
      have hs : ∀ j, j ≠ [] → partsNamed j p9 = [] := by
        intro j hj
        rcases h9 with rfl | ⟨x, rfl⟩
        · rfl
        · exact partsNamed_other _ (Ne.symm hj)
      have f1 : (Ast.branch b).first (str "COMMENT") = none := by rw [hg.first]; names
      have f2 : (Ast.branch b).first (str "prod") = none := by rw [hg.first]; names
      have f3 : (Ast.branch b).first (str "pragma") = Option.some (.branch b') := by rw [hg.first]; names
      have f4 : (Ast.branch b').first (str "import") = Option.some (.branch c) := by rw [hg'.first]; names
      have f5 : (Ast.branch b').first (str "macrodef") = none := by rw [hg'.first]; names
      have f6 : (Ast.branch c).first (str "path") = Option.some (.branch d) := by
        rw [hc.first]
        simp (decide := true) [partsNamed_append, partsNamed_cons, partsNamed_nil, hs]
      have f7 : mapO Ast.text ((Ast.branch d).all []) = Option.some p := by rw [groups_all hd]; exact hr
      refine ⟨_, rfl, 1, fun m hm => ?_⟩
      obtain ⟨m, rfl, hm2⟩ := pred_of_succ hm
      simp [viewStmt, f1, f2, f3, f4, f5, f6, f7]

/-- Statements one after the other. -/
structure ReadsStmts (E : Engine) (X : Externals) (xs : List StmtN) (ws : List Str) : Prop where
  reads : ∀ k, NoStmt k → ReadsReps E X [flat] (rule "stmt") k xs.length (All viewStmt (str "stmt") xs) ws
  heads : ws = [] ∧ xs = [] ∨ Heads stmtByte ws ∧ SlashTwice ws

theorem ReadsStmts.nil (H : Works E) : ReadsStmts E X [] [] where
  heads := .inl ⟨rfl, rfl⟩
  reads k hk := (ReadsReps.nil (stmt_misses H hk)).imp fun ps h => by rw [h]; exact .nil

theorem ReadsStmts.cons {x : StmtN} {xs : List StmtN} (h : ReadsStmt E X x ws) (h' : ReadsStmts E X xs ws') :
    ReadsStmts E X (x :: xs) (ws ++ ws') where
  heads := .inr ⟨h.heads.append, by
    obtain ⟨c, v, us, e, _⟩ := h.heads
    subst e
    intro v' us' e'
    simp only [List.cons_append, List.cons.injEq] at e'
    exact h.slash v' us (by rw [e'.1.1, e'.1.2])⟩
  reads k hk := by
    have : AfterStmt (ws' ++ k) := by
      rcases h'.heads with ⟨rfl, _⟩ | ⟨h1, h2⟩
      · exact ⟨hk _ (by simp), hk _ (by simp), .inl (hk _ (by simp))⟩
      · exact heads_after h1 h2
    exact (ReadsReps.cons (h.reads _ this) (h'.reads k hk)).imp fun ps ⟨p, q, e, h1, h2⟩ => by rw [e]; exact All.cons h1 h2

theorem body_reads {xs : List StmtN} (hx : xs ≠ []) (h : ReadsStmts E X xs ws) (hk : NoStmt k) :
    Reads E X [flat] (some (rule "stmt")) k (All viewStmt (str "stmt") xs) ws :=
  .quant (lo := 1) (h.reads k hk) (by cases xs <;> simp at hx ⊢)

theorem view_grammar {xs : List StmtN} {p : List (Str × Ast)} {b : Branch} (hb : (Ast.branch b).all (str "stmt") = partsNamed (str "stmt") p)
    (h : All viewStmt (str "stmt") xs p) : ∃ N, ∀ m, N ≤ m → viewGrammar m (.branch b) = Option.some (.mk xs) := by
  obtain ⟨as, rfl, N, hN⟩ := h
  rw [partsNamed_map, if_pos rfl] at hb
  refine ⟨N + 1, fun m hm => ?_⟩
  obtain ⟨m, rfl, hm2⟩ := pred_of_succ hm
  simp [viewGrammar, hb, hN m hm2]

theorem reads_grammar {xs : List StmtN} (hx : xs ≠ []) (h : ReadsStmts E X xs ws) : ReadsGrammar E X (.mk xs) ws where
  heads := (h.heads.resolve_left fun h => hx h.2).1
  reads k hk := by
    refine (Reads.rule resolves_grammar (by decide +kernel) (body_reads hx h hk)).imp ?_
    rintro ps ⟨b, p, rfl, hg, hp⟩
    exact ⟨_, rfl, view_grammar (groups_all hg _) hp⟩

/-! ## All of them -/

def ReadsAt (E : Engine) (X : Externals) (x : TermN) (ws : List Str) : Nat → Prop
  | 0 => ReadsTerm0 E X x ws ∧ Heads atomByte ws ∧
      (x.braced = true → ∀ k, Shies (s ">") k → Reads E X [flat] (rule "term") k (Is viewTerm (str "term") x) ws)
  | 1 => ReadsTerm E X "term@1" After1 x ws
  | 2 => ReadsTerm E X "term@2" After2 x ws
  | _ => ReadsTerm E X "term@3" After3 x ws

variable {full : Bool}

theorem ordinaryGrammars_append {gs gs' : List GrammarN} : ordinaryGrammars full (gs ++ gs') ↔ ordinaryGrammars full gs ∧ ordinaryGrammars full gs' := by
  induction gs with
  | nil => simp [ordinaryGrammars]
  | cons g gs ih => simp [ordinaryGrammars, ih, and_assoc]

theorem ordinaryTerms_append {ts ts' : List TermN} : ordinaryTerms full (ts ++ ts') ↔ ordinaryTerms full ts ∧ ordinaryTerms full ts' := by
  induction ts with
  | nil => simp [ordinaryTerms]
  | cons g gs ih => simp [ordinaryTerms, ih, and_assoc]

theorem layers_braced (H : Works E) (h : ReadsLayer E X x gs ws) (h' : SpellsLayers ts gs' ws')
    (hb : (TermN.many (if ts.isEmpty then [] else str ">") (gs ++ gs') (x :: ts)).braced = true) (hk : Shies (s ">") k) :
    Reads E X [flat] (rule "term") k (Is viewTerm (str "term") (.many (if ts.isEmpty then [] else str ">") (gs ++ gs') (x :: ts))) (ws ++ ws') := by
  cases h' with
  | nil =>
    simp only [List.append_nil, List.isEmpty_nil, if_true] at hb ⊢
    refine reads_braced H h ?_ hk
    rintro rfl
    cases hb
  | cons => cases hb

mutual
theorem spelled_term (H : Works E) {n : Nat} {x : TermN} {ws : List Str} : SpellsTerm n x ws → x.Ordinary full → ReadsAt E X x ws n
  | .layers h h', ho => by
    simp only [TermN.Ordinary, ordinaryTerms, ordinaryGrammars_append] at ho
    have a := spelled_layer H h ho.2.1 ho.1.1
    exact ⟨reads_layers a (spelled_layers H h' ho.2.2 ho.1.2), a.heads.append, fun hb k hk => layers_braced H a h' hb hk⟩
  | .alternatives h h', ho => reads_alternatives (spelled_term H h ho.2.1) (spelled_alts H h' ho.2.2)
  | .sequence hn h, ho => reads_sequence hn ((spelled_terms H h ho.2).1 rfl)
  | .one h h', ho => reads_one (spelled_named H h ho.1) (spelled_quants H h' ho.2)
theorem spelled_layer (H : Works E) {x : TermN} {gs : List GrammarN} {ws : List Str} : SpellsLayer x gs ws → x.Ordinary full → ordinaryGrammars full gs →
    ReadsLayer E X x gs ws
  | .plain h, ho, _ => .plain H (spelled_term H h ho)
  | .braces h h', ho, hg => .braces H (spelled_term H h ho) (spelled_grammar H h' hg.1)
theorem spelled_layers (H : Works E) {ts : List TermN} {gs : List GrammarN} {ws : List Str} : SpellsLayers ts gs ws → ordinaryTerms full ts →
    ordinaryGrammars full gs → ReadsLayers E X ts gs ws
  | .nil, _, _ => .nil H
  | .cons h h', ho, hg => by
    rw [ordinaryGrammars_append] at hg
    exact .cons H (spelled_layer H h ho.1 hg.1) (spelled_layers H h' ho.2 hg.2)
theorem spelled_alts (H : Works E) {ts : List TermN} {ws : List Str} : SpellsAlts ts ws → ordinaryTerms full ts → ReadsAlts E X ts ws
  | .nil, _ => .nil H
  | .cons h h', ho => .cons H (spelled_term H h ho.1) (spelled_alts H h' ho.2)
theorem spelled_terms (H : Works E) {n : Nat} {ts : List TermN} {ws : List Str} : SpellsTerms n ts ws → ordinaryTerms full ts →
    (n = 3 → ReadsTerms E X ts ws) ∧ (n = 0 → (∀ t ∈ ts.dropLast, t.braced = true) → ReadsRight E X ts ws)
  | .nil, _ => ⟨fun _ => .nil H, fun _ _ => .nil H⟩
  | .cons (ts := ts) h h', ho => by
    have a := spelled_term H h ho.1
    have b := spelled_terms H h' ho.2
    refine ⟨fun e => ?_, fun e hb => ?_⟩
    · subst e
      exact .cons a (b.1 rfl)
    · subst e
      refine .cons a.1 a.2.1 (fun hn => a.2.2 (hb _ ?_)) (b.2 rfl fun t ht => hb t ?_)
      · rw [List.dropLast_cons_of_ne_nil hn]; simp
      · cases ts with
        | nil => cases ht
        | cons => rw [List.dropLast_cons_of_ne_nil (by simp)]; simp [ht]
theorem spelled_named (H : Works E) {x : NamedN} {ws : List Str} : SpellsNamed x ws → x.Ordinary full → ReadsNamed E X x ws
  | .plain h, ho => .plain (spelled_atom H h ho.2)
  | .named h, ho => .named H (ho.1 _ rfl) (spelled_atom H h ho.2)
theorem spelled_atom (H : Works E) {x : AtomN} {ws : List Str} : SpellsAtom x ws → x.Ordinary full → ReadsAtom E X x ws
  | .ident, ho => .ident H ho
  | .str, ho => .str H ho
  | .re, ho => .re H ho
  | .macrocall h h', ho => by
    have h4 := ordinaryTerms_append.1 ho.2.2.2
    exact .macrocall H ho.2.1 (spelled_arg H h (fun t ht => ho.2.2.1 t (by simp [ht])) h4.1) (spelled_args H h' (fun t ht => ho.2.2.1 t (by simp [ht])) h4.2)
  | .ext, ho => .ext H ho
  | .ref, ho => .ref H ho.1
  | .default, ho => .default H ho.1 (ho.2 _ rfl)
  | .look h, ho => .look H (spelled_term H h (by simpa [AtomN.Ordinary, TermN.Ordinary, ordinaryTerms, ordinaryGrammars] using ho)).1
  | .term h, ho => .term H (spelled_term H h ho).1
  | .unit, _ => .unit H
theorem spelled_arg (H : Works E) {ts : List TermN} {ws : List Str} : SpellsArg ts ws → (∀ t ∈ ts, t.hangs = false) → ordinaryTerms full ts → ReadsArg E X ts ws
  | .missing, _, _ => .missing H
  | .given h, hb, ho => .given (spelled_term H h ho.1).1 (hb _ (by simp))
theorem spelled_args (H : Works E) {ts : List TermN} {ws : List Str} : SpellsArgs ts ws → (∀ t ∈ ts, t.hangs = false) → ordinaryTerms full ts → ReadsArgs E X ts ws
  | .nil, _, _ => .nil H
  | .cons h h', hb, ho => by
    have h4 := ordinaryTerms_append.1 ho
    exact .cons H (spelled_arg H h (fun t ht => hb t (by simp [ht])) h4.1) (spelled_args H h' (fun t ht => hb t (by simp [ht])) h4.2)
theorem spelled_quant (H : Works E) {x : QuantN} {ws : List Str} : SpellsQuant x ws → x.Ordinary full → ReadsQuant E X x ws
  | .op, ho => .op H ho
  | .range, ho => .range H ho.1 ho.2
  | .sep h, ho => .sep H ho.1 (spelled_named H h ho.2)
theorem spelled_quants (H : Works E) {xs : List QuantN} {ws : List Str} : SpellsQuants xs ws → ordinaryQuants full xs → ReadsQuants E X xs ws
  | .nil, _ => .nil H
  | .cons h h', ho => .cons (spelled_quant H h ho.1) (spelled_quants H h' ho.2)
theorem spelled_stmt (H : Works E) {x : StmtN} {ws : List Str} : SpellsStmt x ws → x.Ordinary full → ReadsStmt E X x ws
  | .comment, ho => .comment H ho
  | .prod hn h, ho => .prod H ho.1 hn ((spelled_terms H h ho.2.2).2 rfl ho.2.1)
  | .imp h he, ho => .imp H h ho.2 he
  | .macrodef hs h he, ho => .macrodef H ho.2.1 (fun a ha => ho.2.2.1 a (by simp [ha])) hs (fun a ha => ho.2.2.1 a (by simp [ha]))
      (spelled_term H h ho.2.2.2).1 he
theorem spelled_stmts (H : Works E) {xs : List StmtN} {ws : List Str} : SpellsStmts xs ws → ordinaryStmts full xs → ReadsStmts E X xs ws
  | .nil, _ => .nil H
  | .cons h h', ho => .cons (spelled_stmt H h ho.1) (spelled_stmts H h' ho.2)
theorem spelled_grammar (H : Works E) {x : GrammarN} {ws : List Str} : SpellsGrammar x ws → x.Ordinary full → ReadsGrammar E X x ws
  | .mk hn h, ho => reads_grammar hn (spelled_stmts H h ho)
end

end Wbnf.Core

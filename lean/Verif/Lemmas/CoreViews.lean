import Verif.Lemmas.PartsLt
import Verif.Lemmas.CoreParse
import Verif.Lemmas.Times
import Verif.Lemmas.DecEq
import Verif.Spec.Lexemes

/-!
# What the views of a parsed source return
-/

namespace Wbnf

set_option linter.unusedSimpArgs false

variable {n : Nat} {t : Term} {ps : List (Str × Ast)} {ws : List Str} {b : Branch} {a : Ast} {k r : Str}

/-! ## Views with enough fuel -/

/-- With enough fuel the view returns the same, and it satisfies `Q`. -/
def Sees {α : Type} (view : Nat → Ast → Option α) (Q : α → Prop) (a : Ast) : Prop :=
  ∃ N x, (∀ m, N ≤ m → view m a = some x) ∧ Q x

theorem Sees.imp {α : Type} {view : Nat → Ast → Option α} {Q Q' : α → Prop} (h : Sees view Q a) (hq : ∀ x, Q x → Q' x) : Sees view Q' a := by
  obtain ⟨N, x, h1, h2⟩ := h
  exact ⟨N, x, h1, hq x h2⟩

/-- With enough fuel the view of the parts of that name returns these. -/
def SeesAll {α : Type} (view : Nat → Ast → Option α) (k : Str) (ps : List (Str × Ast)) (xs : List α) : Prop :=
  ∃ N, ∀ m, N ≤ m → mapO (view m) (partsNamed k ps) = some xs

theorem mapO_append {α β : Type} {f : α → Option β} {as as' : List α} {bs bs' : List β} (h : mapO f as = some bs) (h' : mapO f as' = some bs') :
    mapO f (as ++ as') = some (bs ++ bs') := by
  induction as generalizing bs with
  | nil => cases h; exact h'
  | cons a as ih =>
    simp only [mapO, Option.bind_eq_some_iff, Option.map_eq_some_iff] at h
    obtain ⟨b, hb, bs, hbs, rfl⟩ := h
    simp [mapO, hb, ih hbs]

theorem SeesAll.nil {α : Type} {view : Nat → Ast → Option α} (h : partsNamed k ps = []) : SeesAll view k ps [] :=
  ⟨0, fun _ _ => by rw [h]; rfl⟩

theorem SeesAll.one {α : Type} {view : Nat → Ast → Option α} {x : α} (h : partsNamed k ps = [a]) {N : Nat} (hx : ∀ m, N ≤ m → view m a = some x) :
    SeesAll view k ps [x] := ⟨N, fun m hm => by rw [h, mapO, hx m hm]; rfl⟩

theorem SeesAll.append {α : Type} {view : Nat → Ast → Option α} {xs xs' : List α} {ps' : List (Str × Ast)} (h : SeesAll view k ps xs)
    (h' : SeesAll view k ps' xs') : SeesAll view k (ps ++ ps') (xs ++ xs') := by
  obtain ⟨N, h⟩ := h
  obtain ⟨N', h'⟩ := h'
  exact ⟨max N N', fun m hm => by rw [partsNamed_append, mapO_append (h m (by omega)) (h' m (by omega))]⟩

theorem lexedTerms_iff {ts : List TermN} : lexedTerms ts ↔ ∀ t ∈ ts, t.Lexed := by
  induction ts <;> simp_all [lexedTerms]
theorem lexedQuants_iff {ts : List QuantN} : lexedQuants ts ↔ ∀ t ∈ ts, t.Lexed := by
  induction ts <;> simp_all [lexedQuants]
theorem lexedStmts_iff {ts : List StmtN} : lexedStmts ts ↔ ∀ t ∈ ts, t.Lexed := by
  induction ts <;> simp_all [lexedStmts]
theorem lexedGrammars_iff {ts : List GrammarN} : lexedGrammars ts ↔ ∀ t ∈ ts, t.Lexed := by
  induction ts <;> simp_all [lexedGrammars]

/-- The text of the node is `x`, such a token. -/
def Tok (t : Term) (a : Ast) (x : Str) : Prop := a.text = some x ∧ Token t x

/-- The node's own token is `x`, such a token. -/
def OpTok (t : Term) (a : Ast) (x : Str) : Prop := ∃ l, a.first [] = some l ∧ Tok t l x

theorem lacks_groups (h : Groups t ps b) (ks : List String) :
    (Ast.branch b).lacks ks = ks.all fun k => (partsNamed (str k) ps).isEmpty := by
  simp only [Ast.lacks, groups_all h]

theorem lacks_iff (h : Groups t ps b) {ks : List String} :
    (Ast.branch b).lacks ks = true ↔ ∀ k ∈ ks, partsNamed (str k) ps = [] := by
  simp [lacks_groups h]

theorem lacks_of {P : Str → Prop} (h : Groups t ps b) (hp : ∀ x ∈ ps, P x.1) {ks : List String} (hk : ∀ k ∈ ks, ¬ P (str k)) :
    (Ast.branch b).lacks ks = true := by
  rw [lacks_iff h]
  intro k hks
  rw [List.eq_nil_iff_forall_not_mem]
  intro a ha
  exact hk k hks (hp _ (mem_partsNamed.1 ha))

namespace Core

/-- All rules of the grammar of grammars. -/
def allRules : Grammar := flat ++ pragmaGrammar

/-- What is known of a leaf. -/
def LeafRead (t : Term) (s : Scanner) : Prop := t ≠ wrap → ∃ x, s.toStr = Option.some x ∧ Token t x

theorem LeafRead.tok {s : Scanner} (h : LeafRead t s) (ht : t ≠ wrap) : Tok t (.leaf s) (s.toStr.getD []) := by
  obtain ⟨x, h1, h2⟩ := h ht
  exact ⟨by simp [Ast.text, Ast.scanner, h1], by simpa [h1] using h2⟩

/-- Parts of trees smaller than `n`. -/
abbrev Lt (n : Nat) (t : Term) (ps : List (Str × Ast)) (ws : List Str) : Prop := PartsLt LeafRead allRules n t ps ws

theorem token_lit {l : String} {y : Str} (h : Token (s l) y) : y = str l := by
  generalize ht : s l = u at h
  cases h <;> first | (cases ht; rfl) | (simp [s, ident, int, strLit, regexpLit, comment, re] at ht)

theorem lt_lit {l : String} (h : Lt n (s l) ps ws) : ∃ x, ps = [([], x)] ∧ ws = [str l] ∧ Tok (s l) x (str l) := by
  obtain ⟨x, h1, h2, h3⟩ := PartsLt.lit h
  have h4 := h2.tok (by simp [wrap, re])
  have e := token_lit h4.2
  rw [e] at h3 h4
  exact ⟨_, h1, h3, h4⟩

theorem lt_re {l : Str} (hw : Term.re l ≠ wrap) (h : Lt n (.re l) ps ws) : ∃ x y, ps = [([], x)] ∧ ws = [y] ∧ Tok (.re l) x y := by
  obtain ⟨x, h1, h2, h3⟩ := PartsLt.re h
  exact ⟨_, _, h1, h3, h2.tok hw⟩

/-- A node with just one part: its text is that of the part. -/
theorem tok_of_groups {u : Term} {x : Ast} {y : Str} (hg : Groups t ps b) (hp : ps = [(k, x)]) (hk : isTagName k = false) (hx : Tok u x y) :
    Tok u (.branch b) y := by
  subst hp
  exact ⟨by rw [hg.text hk, hx.1], hx.2⟩

theorem lt_leafRule {l : Str} (hl : lookup r allRules = Option.some (.re l)) (hw : Term.re l ≠ wrap) (h : Lt n (.rule r) ps ws) :
    ∃ x y, ps = [(shownName r, x)] ∧ ws = [y] ∧ Tok (.re l) x y := by
  obtain ⟨b, p, rfl, h1, h2⟩ := h.rule hl
  obtain ⟨x, y, rfl, rfl, h3⟩ := lt_re hw h1
  exact ⟨_, _, rfl, rfl, tok_of_groups h2 rfl (by decide) h3⟩

theorem lt_ident (h : Lt n (rule "IDENT") ps ws) : ∃ x y, ps = [(str "IDENT", x)] ∧ ws = [y] ∧ Tok ident x y :=
  lt_leafRule (by decide +kernel) (by decide +kernel) h

theorem lt_int (h : Lt n (rule "INT") ps ws) : ∃ x y, ps = [(str "INT", x)] ∧ ws = [y] ∧ Tok int x y :=
  lt_leafRule (by decide +kernel) (by decide +kernel) h

theorem lt_str (h : Lt n (rule "STR") ps ws) : ∃ x y, ps = [(str "STR", x)] ∧ ws = [y] ∧ Tok strLit x y :=
  lt_leafRule (by decide +kernel) (by decide +kernel) h

theorem lt_regexp (h : Lt n (rule "RE") ps ws) : ∃ x y, ps = [(str "RE", x)] ∧ ws = [y] ∧ Tok regexpLit x y :=
  lt_leafRule (by decide +kernel) (by decide +kernel) h

theorem lt_comment (h : Lt n (rule "COMMENT") ps ws) : ∃ x y, ps = [(str "COMMENT", x)] ∧ ws = [y] ∧ Tok comment x y :=
  lt_leafRule (by decide +kernel) (by decide +kernel) h

/-- A name given to a token. -/
theorem lt_eq {u : Term} {j : Str} {m : String} (h : Lt n (eq m t) ps ws) (hj : isTagName j = false)
    (ht : ∀ p, Lt n t p ws → ∃ x y, p = [(j, x)] ∧ ws = [y] ∧ Tok u x y) : ∃ x y, ps = [(str m, x)] ∧ ws = [y] ∧ Tok u x y := by
  obtain ⟨b, p, rfl, h1, h2⟩ := PartsLt.named h
  obtain ⟨x, y, hp, hw, h3⟩ := ht p h1
  exact ⟨_, _, rfl, hw, tok_of_groups h2 hp hj h3⟩

/-- A name given to a literal or regexp. -/
theorem lt_op {u : Term} {m : String} (h : Lt n (eq m t) ps ws) (ht : ∀ p, Lt n t p ws → ∃ x y, p = [([], x)] ∧ ws = [y] ∧ Tok u x y) :
    ∃ x y, ps = [(str m, x)] ∧ ws = [y] ∧ OpTok u x y := by
  obtain ⟨b, p, rfl, h1, h2⟩ := PartsLt.named h
  obtain ⟨x, y, rfl, hw, h3⟩ := ht p h1
  exact ⟨_, _, rfl, hw, x, by rw [h2.first]; simp [partsNamed_one], h3⟩

theorem lt_opLit {m l : String} (h : Lt n (eq m (s l)) ps ws) : ∃ x, ps = [(str m, x)] ∧ ws = [str l] ∧ OpTok (s l) x (str l) := by
  obtain ⟨x, y, rfl, rfl, z, h1, h2⟩ := lt_op (u := s l) h fun p hp => by
    obtain ⟨x, h1, h2, h3⟩ := lt_lit hp
    exact ⟨x, _, h1, h2, h3⟩
  have := token_lit h2.2
  subst this
  exact ⟨_, rfl, rfl, z, h1, h2⟩

/-- The levels of terms. -/
def termRules : List (Str × Nat) := [(str "term", 0), (str "term@1", 1), (str "term@2", 2), (str "term@3", 3)]

/-- The views of smaller trees. -/
structure Good (n : Nat) : Prop where
  term : ∀ r ∈ termRules, ∀ ps ws, Lt n (.rule r.1) ps ws →
    ∃ a, ps = [(str "term", a)] ∧ Sees viewTerm (fun x => x.Lexed ∧ SpellsTerm r.2 x ws) a
  named : ∀ ps ws, Lt n (rule "named") ps ws → ∃ a, ps = [(str "named", a)] ∧ Sees viewNamed (fun x => x.Lexed ∧ SpellsNamed x ws) a
  quant : ∀ ps ws, Lt n (rule "quant") ps ws → ∃ a, ps = [(str "quant", a)] ∧ Sees viewQuant (fun x => x.Lexed ∧ SpellsQuant x ws) a
  stmt : ∀ ps ws, Lt n (rule "stmt") ps ws → ∃ a, ps = [(str "stmt", a)] ∧ Sees viewStmt (fun x => x.Lexed ∧ SpellsStmt x ws) a
  grammar : ∀ ps ws, Lt n (rule "grammar") ps ws → ∃ a, ps = [(str "grammar", a)] ∧ Sees viewGrammar (fun x => x.Lexed ∧ SpellsGrammar x ws) a

theorem Good.rule0 (h : Good n) (hp : Lt n (rule "term") ps ws) :
    ∃ a, ps = [(str "term", a)] ∧ Sees viewTerm (fun x => x.Lexed ∧ SpellsTerm 0 x ws) a := h.term (_, 0) (.head _) ps ws hp

theorem Good.rule1 (h : Good n) (hp : Lt n (rule "term@1") ps ws) :
    ∃ a, ps = [(str "term", a)] ∧ Sees viewTerm (fun x => x.Lexed ∧ SpellsTerm 1 x ws) a := h.term (_, 1) (.tail _ (.head _)) ps ws hp

theorem Good.rule2 (h : Good n) (hp : Lt n (rule "term@2") ps ws) :
    ∃ a, ps = [(str "term", a)] ∧ Sees viewTerm (fun x => x.Lexed ∧ SpellsTerm 2 x ws) a := h.term (_, 2) (.tail _ (.tail _ (.head _))) ps ws hp

theorem Good.rule3 (h : Good n) (hp : Lt n (rule "term@3") ps ws) :
    ∃ a, ps = [(str "term", a)] ∧ Sees viewTerm (fun x => x.Lexed ∧ SpellsTerm 3 x ws) a := h.term (_, 3) (.tail _ (.tail _ (.tail _ (.head _)))) ps ws hp

/-! ## Lists of parts -/

theorem partsNamed_map (j : Str) (as : List Ast) : partsNamed j (as.map fun a => (k, a)) = if k = j then as else [] := by
  induction as with
  | nil => simp [partsNamed_nil]
  | cons a as ih =>
    rw [List.map_cons, partsNamed_cons, ih]
    split <;> rfl

/-- Repetitions of something with one part. -/
theorem seesReps {α : Type} {view : Nat → Ast → Option α} {Q : α → List Str → Prop} {k : Str} {i : Nat}
    (ht : ∀ p w, Lt n t p w → ∃ a, p = [(k, a)] ∧ Sees view (fun x => Q x w) a) (h : PartsLtReps LeafRead allRules n t i ps ws) :
    ∃ (as : List Ast) (xs : List α) (wss : List (List Str)), ps = as.map (fun a => (k, a)) ∧ SeesAll view k ps xs ∧ xs.length = i ∧
      ws = wss.flatten ∧ wss.length = xs.length ∧ ∀ (j : Nat) x w, xs[j]? = Option.some x → wss[j]? = Option.some w → Q x w := by
  induction h with
  | nil => exact ⟨[], [], [], rfl, .nil rfl, rfl, rfl, rfl, by simp⟩
  | cons h _ ih =>
    obtain ⟨a, rfl, N, x, h1, h2⟩ := ht _ _ h
    obtain ⟨as, xs, wss, rfl, h3, h4, rfl, h5, h6⟩ := ih
    refine ⟨a :: as, x :: xs, _ :: wss, rfl, ?_, by simp [h4], rfl, by simp [h5], ?_⟩
    · exact SeesAll.append (xs := [x]) (.one (by simp [partsNamed_one]) h1) h3
    · intro j y w hy hw
      cases j with
      | zero => simp at hy hw; subst hy; subst hw; exact h2
      | succ j => exact h6 j y w (by simpa using hy) (by simpa using hw)

theorem opText_nil (hg : Groups t ps b) {m : String} (h : partsNamed (str m) ps = []) : (Ast.branch b).opText m = Option.some [] := by
  simp [Ast.opText, hg.first, h]

theorem opText_cons (hg : Groups t ps b) {m : String} {u : Term} {x : Ast} {y : Str} {xs : List Ast} (h : partsNamed (str m) ps = x :: xs)
    (hx : OpTok u x y) : (Ast.branch b).opText m = Option.some y := by
  obtain ⟨l, h1, h2, h3⟩ := hx
  simp [Ast.opText, hg.first, h, h1, h2]

theorem nameText_cons (hg : Groups t ps b) {m : String} {u : Term} {x : Ast} {y : Str} {xs : List Ast} (h : partsNamed (str m) ps = x :: xs)
    (hx : Tok u x y) : (Ast.branch b).nameText m = Option.some y := by
  simp [Ast.nameText, hg.first, h, hx.1]

theorem optText_none (hg : Groups t ps b) {m : String} (h : partsNamed (str m) ps = []) : (Ast.branch b).optText m = Option.some none := by
  simp [Ast.optText, hg.first, h]

theorem optText_some (hg : Groups t ps b) {m : String} {u : Term} {x : Ast} {y : Str} (h : partsNamed (str m) ps = [x]) (hx : Tok u x y) :
    (Ast.branch b).optText m = Option.some (Option.some y) := by
  simp [Ast.optText, hg.first, h, hx.1]

/-- An optional token. -/
theorem optText_opt (hg : Groups t ps b) {m : String} {u : Term} {y : Option Str}
    (h : partsNamed (str m) ps = [] ∧ y = none ∨ ∃ x z, partsNamed (str m) ps = [x] ∧ y = Option.some z ∧ Tok u x z) :
    (Ast.branch b).optText m = Option.some y ∧ ∀ z, y = Option.some z → Token u z := by
  rcases h with ⟨h, rfl⟩ | ⟨x, z, h, rfl, hx⟩
  · exact ⟨optText_none hg h, by simp⟩
  · exact ⟨optText_some hg h hx, by simpa using hx.2⟩

/-! ## Terms -/

/-- The parts of a term that has terms. -/
structure TermParts (ps : List (Str × Ast)) (ts : List TermN) (gs : List GrammarN) : Prop where
  terms : SeesAll viewTerm (str "term") ps ts
  grammars : SeesAll viewGrammar (str "grammar") ps gs
  named : partsNamed (str "named") ps = []
  quant : partsNamed (str "quant") ps = []

theorem TermParts.append {ps ps' : List (Str × Ast)} {ts ts' gs gs'} (h : TermParts ps ts gs) (h' : TermParts ps' ts' gs') :
    TermParts (ps ++ ps') (ts ++ ts') (gs ++ gs') :=
  ⟨h.terms.append h'.terms, h.grammars.append h'.grammars, by rw [partsNamed_append, h.named, h'.named]; rfl,
    by rw [partsNamed_append, h.quant, h'.quant]; rfl⟩

theorem TermParts.none {ps : List (Str × Ast)} (h : ∀ k ∈ [str "term", str "grammar", str "named", str "quant"], partsNamed k ps = []) :
    TermParts ps [] [] :=
  ⟨.nil (h _ (by simp)), .nil (h _ (by simp)), h _ (by simp), h _ (by simp)⟩

theorem TermParts.term {N : Nat} {x : TermN} (hx : ∀ m, N ≤ m → viewTerm m a = Option.some x) : TermParts [(str "term", a)] [x] [] :=
  ⟨.one (by simp [partsNamed_one]) hx, .nil (partsNamed_other _ (by decide)), partsNamed_other _ (by decide), partsNamed_other _ (by decide)⟩

theorem TermParts.grammar {N : Nat} {x : GrammarN} (hx : ∀ m, N ≤ m → viewGrammar m a = Option.some x) : TermParts [(str "grammar", a)] [] [x] :=
  ⟨.nil (partsNamed_other _ (by decide)), .one (by simp [partsNamed_one]) hx, partsNamed_other _ (by decide), partsNamed_other _ (by decide)⟩

theorem TermParts.other {k : Str} (h : k ∉ [str "term", str "grammar", str "named", str "quant"]) : TermParts [(k, a)] [] [] :=
  .none fun j hj => partsNamed_other _ (by rintro rfl; exact h hj)

theorem seesAll_ne {α : Type} {view : Nat → Ast → Option α} {k : Str} {xs : List α} (h : SeesAll view k ps xs) (hx : xs ≠ []) : partsNamed k ps ≠ [] := by
  obtain ⟨N, h⟩ := h
  intro e
  have := h N (Nat.le_refl _)
  rw [e] at this
  cases this
  exact hx rfl

theorem sees_many {op : Str} {ts : List TermN} {gs : List GrammarN} (h : TermParts ps ts gs) (hts : ts ≠ []) (hg : Groups t ps b)
    (hop : (Ast.branch b).opText "op" = Option.some op) : ∃ N, ∀ m, N ≤ m → viewTerm m (.branch b) = Option.some (.many op gs ts) := by
  have hl : (Ast.branch b).lacks ["term"] = false := by
    rw [← Bool.not_eq_true, lacks_iff hg]
    simpa using seesAll_ne h.terms hts
  have hl2 : (Ast.branch b).lacks ["named", "quant"] = true := by
    rw [lacks_iff hg]
    simp [h.named, h.quant]
  obtain ⟨N1, h1⟩ := h.terms
  obtain ⟨N2, h2⟩ := h.grammars
  refine ⟨max N1 N2 + 1, fun m hm => ?_⟩
  obtain ⟨m, rfl⟩ : ∃ m', m = m' + 1 := ⟨m - 1, by omega⟩
  simp [viewTerm, hl, hl2, hop, groups_all hg, h1 m (by omega), h2 m (by omega)]

/-- The items of a list of terms: what is said of each of them (`I`), and of what comes after one of them (`T`). -/
theorem sees_tail {l : String} {I T : List TermN → List GrammarN → List Str → Prop} (hn : T [] [] [])
    (hc : ∀ {t gs ws ts gs' ws'}, I [t] gs ws → T ts gs' ws' → T (t :: ts) (gs ++ gs') (str l :: ws ++ ws'))
    (hi : ∀ p w, Lt n t p w → ∃ u gs, TermParts p [u] gs ∧ I [u] gs w ∧ partsNamed (str "op") p = [])
    (h : PartsLtTail LeafRead allRules n false t (eq "op" (s l)) ps ws) :
    ∃ ts gs, TermParts ps ts gs ∧ T ts gs ws ∧
      (ts = [] ∧ partsNamed (str "op") ps = [] ∨ ts ≠ [] ∧ ∃ x xs, partsNamed (str "op") ps = x :: xs ∧ OpTok (s l) x (str l)) := by
  induction h with
  | nil => exact ⟨[], [], .none (by simp [partsNamed_nil]), hn, .inl ⟨rfl, rfl⟩⟩
  | cons h1 h2 _ ih =>
    obtain ⟨x, rfl, rfl, hx⟩ := lt_opLit h1
    obtain ⟨u, gs, hu, h3, _⟩ := hi _ _ h2
    obtain ⟨ts, gs', h4, h5, h6⟩ := ih
    refine ⟨u :: ts, gs ++ gs', ?_, hc h3 h5, .inr ⟨by simp, x, ?_⟩⟩
    · exact ((TermParts.other (k := str "op") (by decide)).append hu).append h4
    · rw [List.append_assoc, List.singleton_append, partsNamed_cons, if_pos rfl]
      exact ⟨_, rfl, hx⟩
  | trail h => cases h

theorem item_parts (ih : Good n)
    (h : Lt n (.seq [rule "term@1", opt (.seq [s "{", rule "grammar", s "}"])]) ps ws) :
    ∃ u gs, TermParts ps [u] gs ∧ (u.Lexed ∧ lexedGrammars gs ∧ gs.length ≤ 1 ∧ SpellsLayer u gs ws) ∧ partsNamed (str "op") ps = [] := by
  obtain ⟨p, p', w, w', rfl, rfl, h1, q, q', x, x', rfl, rfl, h2, rfl, rfl⟩ := h.seq'
  obtain ⟨a, rfl, N, u, hu, hl, hs⟩ := ih.rule1 h1
  rcases h2.opt' with ⟨rfl, rfl⟩ | h2
  · exact ⟨u, [], by simpa using TermParts.term hu, ⟨hl, trivial, by simp, by simpa using SpellsLayer.plain hs⟩, by
      simp (decide := true) [partsNamed_cons, partsNamed_nil]⟩
  · obtain ⟨c1, q, d1, v, rfl, rfl, hc1, c2, q', d2, v', rfl, rfl, hc2, c3, q, d3, v, rfl, rfl, hc3, rfl, rfl⟩ := h2.seq'
    obtain ⟨x1, rfl, rfl, _⟩ := lt_lit hc1
    obtain ⟨g, rfl, N', y, hy, hl', hs'⟩ := ih.grammar _ _ hc2
    obtain ⟨x3, rfl, rfl, _⟩ := lt_lit hc3
    refine ⟨u, [y], ?_, ⟨hl, ⟨hl', trivial⟩, by simp, ?_⟩, by simp (decide := true) [partsNamed_cons, partsNamed_nil]⟩
    · have := (TermParts.term hu).append ((TermParts.other (a := x1) (k := []) (by decide)).append ((TermParts.grammar hy).append
        (TermParts.other (a := x3) (k := []) (by decide))))
      simpa using this
    · simpa using SpellsLayer.braces hs hs'

theorem lexedGrammars_append {gs gs' : List GrammarN} (h : lexedGrammars gs) (h' : lexedGrammars gs') : lexedGrammars (gs ++ gs') := by
  rw [lexedGrammars_iff] at h h' ⊢
  intro g hg
  rcases List.mem_append.1 hg with hg | hg
  · exact h g hg
  · exact h' g hg

theorem term0_step (ih : Good n) (h : Lt (n + 1) (rule "term") ps ws) :
    ∃ a, ps = [(str "term", a)] ∧ Sees viewTerm (fun x => x.Lexed ∧ SpellsTerm 0 x ws) a := by
  obtain ⟨b, q, rfl, h, hg⟩ := PartsLt.rule (t := .delim (.seq [rule "term@1", opt (.seq [s "{", rule "grammar", s "}"])]) (eq "op" (s ">")) 0 false false)
    (by decide +kernel) h
  obtain ⟨pre, u, p, w, post, ws', rfl, rfl, hp, hpost, hpre⟩ := h.delim
  rcases hpre with ⟨rfl, rfl⟩ | ⟨h, _⟩
  · obtain ⟨y, gs, h1, ⟨h2, h3, h4, h5⟩, h6⟩ := item_parts ih hp
    obtain ⟨ts, gs', h7, ⟨h8, h9, h10⟩, h11⟩ := sees_tail (l := ">")
      (I := fun ts gs ws => ∀ t ∈ ts, t.Lexed ∧ lexedGrammars gs ∧ SpellsLayer t gs ws)
      (T := fun ts gs ws => lexedTerms ts ∧ lexedGrammars gs ∧ SpellsLayers ts gs ws) ⟨trivial, trivial, .nil⟩
      (fun {t gs ws ts gs' ws'} h h' => by
        obtain ⟨k1, k2, k3⟩ := h t (by simp)
        exact ⟨⟨k1, h'.1⟩, lexedGrammars_append k2 h'.2.1, .cons k3 h'.2.2⟩)
      (fun p w hp => by
        obtain ⟨u, gs, k1, k2, k3⟩ := item_parts ih hp
        exact ⟨u, gs, k1, by simpa using ⟨k2.1, k2.2.1, k2.2.2.2⟩, k3⟩) hpost
    have hop : (Ast.branch b).opText "op" = Option.some (if ts.isEmpty then [] else str ">") := by
      rcases h11 with ⟨rfl, e⟩ | ⟨e, x, xs, e', hx⟩
      · exact opText_nil hg (by simp [partsNamed_append, partsNamed_nil, h6, e])
      · rw [opText_cons hg (xs := xs) (by simp [partsNamed_append, partsNamed_nil, h6, e']) hx]
        cases ts
        · exact absurd rfl e
        · rfl
    obtain ⟨N, hN⟩ := sees_many (ts := y :: ts) (by simpa using h1.append h7) (by simp) hg hop
    refine ⟨_, rfl, N, _, hN, ⟨by simp, ?_, lexedGrammars_append h3 h9, h2, h8⟩, ?_⟩
    · cases ts with
      | nil =>
        cases h10 with
        | nil => exact .inl ⟨rfl, by simpa using h4⟩
      | cons => exact .inr (.inl rfl)
    · exact .layers h5 h10
  · cases h

theorem term1_step (ih : Good n) (h : Lt (n + 1) (rule "term@1") ps ws) :
    ∃ a, ps = [(str "term", a)] ∧ Sees viewTerm (fun x => x.Lexed ∧ SpellsTerm 1 x ws) a := by
  obtain ⟨b, q, rfl, h, hg⟩ := PartsLt.rule (t := .delim (rule "term@2") (eq "op" (s "|")) 0 false false) (by decide +kernel) h
  obtain ⟨pre, u, p, w, post, ws', rfl, rfl, hp, hpost, hpre⟩ := h.delim
  rcases hpre with ⟨rfl, rfl⟩ | ⟨h, _⟩
  · obtain ⟨a, rfl, N, y, hy, hl, hs⟩ := ih.rule2 hp
    obtain ⟨ts, gs', h7, ⟨rfl, h8, h9⟩, h11⟩ := sees_tail (l := "|")
      (I := fun ts gs ws => ∀ t ∈ ts, gs = [] ∧ t.Lexed ∧ SpellsTerm 2 t ws)
      (T := fun ts gs ws => gs = [] ∧ lexedTerms ts ∧ SpellsAlts ts ws) ⟨rfl, trivial, .nil⟩
      (fun {t gs ws ts gs' ws'} h h' => by
        obtain ⟨rfl, k1, k3⟩ := h t (by simp)
        obtain ⟨rfl, k4, k5⟩ := h'
        exact ⟨rfl, ⟨k1, k4⟩, .cons k3 k5⟩)
      (fun p w hp => by
        obtain ⟨a, rfl, N, y, hy, hl, hs⟩ := ih.rule2 hp
        exact ⟨y, [], .term hy, by simpa using ⟨hl, hs⟩, partsNamed_other _ (by decide)⟩) hpost
    have hop : (Ast.branch b).opText "op" = Option.some (if ts.isEmpty then [] else str "|") := by
      rcases h11 with ⟨rfl, e⟩ | ⟨e, x, xs, e', hx⟩
      · exact opText_nil hg (by simp (decide := true) [partsNamed_append, partsNamed_nil, partsNamed_cons, e])
      · rw [opText_cons hg (xs := xs) (by simp (decide := true) [partsNamed_append, partsNamed_nil, partsNamed_cons, e']) hx]
        cases ts
        · exact absurd rfl e
        · rfl
    obtain ⟨N, hN⟩ := sees_many (ts := y :: ts) (gs := []) (by simpa using (TermParts.term hy).append h7) (by simp) hg hop
    refine ⟨_, rfl, N, _, hN, ⟨by simp, ?_, trivial, hl, h8⟩, .alternatives hs h9⟩
    cases ts with
    | nil => exact .inl ⟨rfl, by simp⟩
    | cons => exact .inr (.inr ⟨rfl, rfl⟩)
  · cases h

/-- One after the other. -/
theorem terms_of {k : Nat} : ∀ {ts : List TermN} {wss : List (List Str)}, wss.length = ts.length →
    (∀ (j : Nat) (x : TermN) w, ts[j]? = Option.some x → wss[j]? = Option.some w → x.Lexed ∧ SpellsTerm k x w) →
    lexedTerms ts ∧ SpellsTerms k ts wss.flatten
  | [], [], _, _ => ⟨trivial, .nil⟩
  | t :: ts, w :: wss, hl, h => by
    obtain ⟨h1, h2⟩ := h 0 t w rfl rfl
    obtain ⟨h3, h4⟩ := terms_of (k := k) (ts := ts) (wss := wss) (by simpa using hl) fun j x w hx hw => h (j + 1) x w (by simpa using hx) (by simpa using hw)
    exact ⟨⟨h1, h3⟩, .cons h2 h4⟩

theorem quants_of : ∀ {ts : List QuantN} {wss : List (List Str)}, wss.length = ts.length →
    (∀ (j : Nat) (x : QuantN) w, ts[j]? = Option.some x → wss[j]? = Option.some w → x.Lexed ∧ SpellsQuant x w) →
    lexedQuants ts ∧ SpellsQuants ts wss.flatten
  | [], [], _, _ => ⟨trivial, .nil⟩
  | t :: ts, w :: wss, hl, h => by
    obtain ⟨h1, h2⟩ := h 0 t w rfl rfl
    obtain ⟨h3, h4⟩ := quants_of (ts := ts) (wss := wss) (by simpa using hl) fun j x w hx hw => h (j + 1) x w (by simpa using hx) (by simpa using hw)
    exact ⟨⟨h1, h3⟩, .cons h2 h4⟩

theorem stmts_of : ∀ {ts : List StmtN} {wss : List (List Str)}, wss.length = ts.length →
    (∀ (j : Nat) (x : StmtN) w, ts[j]? = Option.some x → wss[j]? = Option.some w → x.Lexed ∧ SpellsStmt x w) →
    lexedStmts ts ∧ SpellsStmts ts wss.flatten
  | [], [], _, _ => ⟨trivial, .nil⟩
  | t :: ts, w :: wss, hl, h => by
    obtain ⟨h1, h2⟩ := h 0 t w rfl rfl
    obtain ⟨h3, h4⟩ := stmts_of (ts := ts) (wss := wss) (by simpa using hl) fun j x w hx hw => h (j + 1) x w (by simpa using hx) (by simpa using hw)
    exact ⟨⟨h1, h3⟩, .cons h2 h4⟩

theorem term2_step (ih : Good n) (h : Lt (n + 1) (rule "term@2") ps ws) :
    ∃ a, ps = [(str "term", a)] ∧ Sees viewTerm (fun x => x.Lexed ∧ SpellsTerm 2 x ws) a := by
  obtain ⟨b, q, rfl, h, hg⟩ := PartsLt.rule (t := some (rule "term@3")) (by decide +kernel) h
  obtain ⟨k, h1, _, h2⟩ := PartsLt.quant h
  obtain ⟨as, ts, wss, rfl, h3, h4, rfl, h5, h6⟩ := seesReps (view := viewTerm) (Q := fun x w => x.Lexed ∧ SpellsTerm 3 x w) (fun p w hp => ih.rule3 hp) h2
  obtain ⟨h7, h8⟩ := terms_of h5 h6
  have hts : ts ≠ [] := by
    rintro rfl
    simp at h4
    omega
  have hop : (Ast.branch b).opText "op" = Option.some [] := opText_nil hg (by rw [partsNamed_map, if_neg (by decide)])
  obtain ⟨N, hN⟩ := sees_many (ts := ts) (gs := []) ⟨h3, .nil (by rw [partsNamed_map, if_neg (by decide)]),
    by rw [partsNamed_map, if_neg (by decide)], by rw [partsNamed_map, if_neg (by decide)]⟩ hts hg hop
  exact ⟨_, rfl, N, _, hN, ⟨hts, .inl ⟨rfl, by simp⟩, trivial, h7⟩, .sequence hts h8⟩

theorem term3_step (ih : Good n) (h : Lt (n + 1) (rule "term@3") ps ws) :
    ∃ a, ps = [(str "term", a)] ∧ Sees viewTerm (fun x => x.Lexed ∧ SpellsTerm 3 x ws) a := by
  obtain ⟨b, q, rfl, h, hg⟩ := PartsLt.rule (t := .seq [rule "named", any (rule "quant")]) (by decide +kernel) h
  obtain ⟨p, q, w, w', rfl, rfl, h1, p', q', x, x', rfl, rfl, h2, rfl, rfl⟩ := PartsLt.seq h
  obtain ⟨a, rfl, N1, x, h3, h4, h4'⟩ := ih.named _ _ h1
  obtain ⟨k, _, _, h2⟩ := h2.quant'
  obtain ⟨as, qs, wss, rfl, ⟨N2, h6⟩, h7, rfl, h8, h9⟩ := seesReps (view := viewQuant) (Q := fun x w => x.Lexed ∧ SpellsQuant x w) (fun p w hp => ih.quant p w hp) h2
  obtain ⟨h10, h11⟩ := quants_of h8 h9
  rw [List.append_nil] at hg ⊢
  refine ⟨_, rfl, max N1 N2 + 1, .one x qs, fun m hm => ?_, ⟨h4, h10⟩, .one h4' h11⟩
  obtain ⟨m, rfl⟩ : ∃ m', m = m' + 1 := ⟨m - 1, by omega⟩
  have e1 : (Ast.branch b).lacks ["term"] = true := by
    rw [lacks_iff hg]; simp (decide := true) [partsNamed_append, partsNamed_cons, partsNamed_nil, partsNamed_map]
  have e2 : (Ast.branch b).lacks ["grammar", "op"] = true := by
    rw [lacks_iff hg]; simp (decide := true) [partsNamed_append, partsNamed_cons, partsNamed_nil, partsNamed_map]
  have e3 : (Ast.branch b).first (str "named") = Option.some a := by
    rw [hg.first]; simp (decide := true) [partsNamed_append, partsNamed_cons, partsNamed_nil, partsNamed_map]
  have e4 : (Ast.branch b).all (str "quant") = as := by
    rw [groups_all hg]; simp (decide := true) [partsNamed_append, partsNamed_cons, partsNamed_nil, partsNamed_map]
  have h6 := h6 m (by omega)
  rw [partsNamed_map, if_pos rfl] at h6
  simp [viewTerm, e1, e2, e3, e4, h3 m (by omega), h6]

end Core

end Wbnf

import Verif.Lemmas.WriteNodes

/-!
# Reading named atoms, quantifiers and terms
-/

namespace Wbnf.Core

set_option linter.unusedSimpArgs false

variable {E : Engine} {X : Externals} {Γ Γ' : List Grammar} {t u : Term} {ts : List Term} {w : Str} {ws ws' k : List Str}
  {P P' : List (Str × Ast) → Prop}

/-- Compute the parts under a name. -/
local macro "names" : tactic => `(tactic| simp (decide := true) [partsNamed_append, partsNamed_cons, partsNamed_nil, partsNamed_map])

/-- All parts are under that name, and their views are these. -/
def All {α : Type} (view : Nat → Ast → Option α) (key : Str) (xs : List α) (ps : List (Str × Ast)) : Prop :=
  ∃ as : List Ast, ps = as.map (fun a => (key, a)) ∧ ∃ N, ∀ m, N ≤ m → mapO (view m) as = Option.some xs

theorem All.nil {α : Type} {view : Nat → Ast → Option α} {key : Str} : All view key [] [] := ⟨[], rfl, 0, fun _ _ => rfl⟩

theorem All.cons {α : Type} {view : Nat → Ast → Option α} {key : Str} {x : α} {xs : List α} {p q : List (Str × Ast)}
    (h : Is view key x p) (h' : All view key xs q) : All view key (x :: xs) (p ++ q) := by
  obtain ⟨a, rfl, N, h⟩ := h
  obtain ⟨as, rfl, N', h'⟩ := h'
  exact ⟨a :: as, rfl, max N N', fun m hm => by simp [mapO, h m (by omega), h' m (by omega)]⟩

theorem seesAll_of {α : Type} {view : Nat → Ast → Option α} {key : Str} {xs : List α} {ps : List (Str × Ast)} (h : All view key xs ps) :
    SeesAll view key ps xs := by
  obtain ⟨as, rfl, N, h⟩ := h
  exact ⟨N, fun m hm => by rw [partsNamed_map, if_pos rfl]; exact h m hm⟩

/-! ## Calls of macros -/

/-- The parts of arguments. -/
def ArgParts (ts : List TermN) (ps : List (Str × Ast)) : Prop := SeesAll viewTerm (str "term") ps ts ∧ partsNamed (str "name") ps = []

theorem ArgParts.append {ts ts' : List TermN} {p q : List (Str × Ast)} (h : ArgParts ts p) (h' : ArgParts ts' q) : ArgParts (ts ++ ts') (p ++ q) :=
  ⟨h.1.append h'.1, by rw [partsNamed_append, h.2, h'.2]; rfl⟩

theorem ArgParts.other {a : Ast} : ArgParts [] [([], a)] := ⟨.nil (by names), by names⟩

/-- An argument, which may be missing. -/
def ReadsArg (E : Engine) (X : Externals) (ts : List TermN) (ws : List Str) : Prop :=
  ∀ k, After0 false k → Reads E X [flat] (opt (rule "term")) k (ArgParts ts) ws

theorem ReadsArg.missing (H : Works E) : ReadsArg E X [] [] := fun k hk =>
  (Reads.none (term0_misses H hk.1.1.2 flat_mem)).imp fun ps h => by rw [h]; exact ⟨.nil rfl, rfl⟩

theorem ReadsArg.given {x : TermN} (h : ReadsTerm0 E X x ws) (hx : x.hangs = false) : ReadsArg E X [x] ws := fun k hk =>
  (Reads.some (h _ flat_mem k (by rw [hx]; exact hk))).imp fun ps ⟨a, e, N, hN⟩ => by rw [e]; exact ⟨.one (by names) hN, by names⟩

/-- More arguments. -/
structure ReadsArgs (E : Engine) (X : Externals) (ts : List TermN) (ws : List Str) : Prop where
  reads : ∀ k, ReadsTail E X [flat] (opt (rule "term")) (s ",") (str ")" :: k) (ArgParts ts) ws
  heads : ws = [] ∨ ∃ ws', ws = str "," :: ws'

theorem ReadsArgs.after {ts : List TermN} (h : ReadsArgs E X ts ws) : After0 false (ws ++ str ")" :: k) := by
  rcases h.heads with rfl | ⟨ws', rfl⟩
  · exact after0_close
  · exact after0_comma

theorem ReadsArgs.nil (H : Works E) : ReadsArgs E X [] [] where
  heads := .inl rfl
  reads k := (ReadsTail.nil (H.missesLit (by decide) flat_mem (shies_word (by decide +kernel)))).imp fun ps h => by rw [h]; exact ⟨.nil rfl, rfl⟩

theorem ReadsArgs.cons (H : Works E) {ts ts' : List TermN} (h : ReadsArg E X ts ws) (h' : ReadsArgs E X ts' ws') :
    ReadsArgs E X (ts ++ ts') (str "," :: ws ++ ws') where
  heads := .inr ⟨_, rfl⟩
  reads k := by
    refine (ReadsTail.cons (w1 := [str ","]) (H.lit (by decide) flat_mem) (h _ h'.after) (h'.reads k)).imp ?_
    rintro ps ⟨_, p2, p3, rfl, ⟨a, rfl, _⟩, h2, h3⟩
    have := (ArgParts.other (a := a)).append (h2.append h3)
    simpa using this

theorem atom_macrocall (H : Works E) {ts ts' : List TermN} (hw : Lexeme ident w) (h : ReadsArg E X ts ws) (h' : ReadsArgs E X ts' ws') :
    Reads E X [flat] (rule "atom") k (Is viewAtom (str "atom") (.macrocall w (ts ++ ts'))) (str "%!" :: w :: str "(" :: (ws ++ ws' ++ [str ")"])) := by
  refine atom_alt H (n := 3) rfl (by decide) (lit_starts (by decide +kernel))
    (.rule resolves_macrocall (by decide +kernel) (.seq (.cons (ws := [str "%!"]) (.cut (H.lit (by decide) flat_mem))
      (.cons (ws := [w]) (.eq (u := ident) (y := w) (by decide) (H.ident flat_mem hw)) (.cons (ws := [str "("]) (H.lit (by decide) flat_mem)
        (.cons (.delim (h _ (by simpa using h'.after (k := k))) (by simpa using h'.reads k))
          (.cons (ws := [str ")"]) (H.lit (by decide) flat_mem) (.nil (P := (· = [])) rfl)))))))) ?_
  rintro _ b ⟨b', p, rfl, hg', _, _, rfl, ⟨x1, rfl, _⟩, _, _, rfl, ⟨x2, rfl, hx2⟩, _, _, rfl, ⟨x3, rfl, _⟩, _, _, rfl, ⟨p, q, rfl, hp, hq⟩, _, _, rfl, ⟨x5, rfl, _⟩, rfl⟩ hg
  have hpq := hp.append hq
  have hi := nameText_cons (m := "name") (x := x2) (xs := []) hg' (by
    have := hpq.2
    rw [partsNamed_append] at this
    simp (decide := true) [partsNamed_append, partsNamed_cons, partsNamed_nil, List.append_eq_nil_iff.1 this]) hx2
  obtain ⟨N, hN⟩ := hpq.1
  have ha : (Ast.branch b').all (str "term") = partsNamed (str "term") (p ++ q) := by rw [groups_all hg']; names
  obtain ⟨w, l⟩ := atom_which hg (key := "macrocall") (by decide) (by names) (by names)
  have hf : (Ast.branch b).first (str "macrocall") = Option.some (.branch b') := by
    rw [hg.first]
    have : shownName (str "macrocall") = str "macrocall" := by decide +kernel
    rw [this]; names
  refine ⟨N + 1, fun m hm => ?_⟩
  obtain ⟨m, rfl, hm2⟩ := pred_of_succ hm
  rw [viewAtom_of w l]
  simp (decide := true) [hf, hi, ha, hN m hm2]

/-! ## Named atoms -/

/-- How named atoms that have a name begin. -/
def nameEq : Term := .seq [rule "IDENT", eq "op" (s "=")]

theorem ident_noCut (hΓ : Γ ∈ frames) : ¬ IsCut Γ (rule "IDENT") := by
  intro h
  cases h with
  | rule hr hc =>
    obtain ⟨rfl, rfl⟩ := hr.det (resolves_ident hΓ)
    cases hc

structure ReadsAtom (E : Engine) (X : Externals) (x : AtomN) (ws : List Str) : Prop where
  reads : ∀ k, AfterNamed k → Reads E X [flat] (rule "atom") k (Is viewAtom (str "atom") x) ws
  alone : ∀ k, AfterNamed k → Misses E X [flat] nameEq (ws ++ k)
  heads : Heads atomByte ws

structure ReadsNamed (E : Engine) (X : Externals) (x : NamedN) (ws : List Str) : Prop where
  reads : ∀ k, AfterNamed k → Reads E X [flat] (rule "named") k (Is viewNamed (str "named") x) ws
  heads : Heads atomByte ws

theorem alone_of (H : Works E) (h : Shies ident (ws ++ k)) : Misses E X [flat] nameEq (ws ++ k) := .seq (.first (H.missesIdent flat_mem h))

theorem alone_word (H : Works E) (h : shy ident w = true) : Misses E X [flat] nameEq ((w :: ws) ++ k) := alone_of H (shies_word h)

theorem ReadsAtom.ident (H : Works E) (h : Lexeme ident w) : ReadsAtom E X (.ident w) [w] where
  reads _ _ := atom_ident H h
  alone _ hk := .seq (.later (ws := [w]) (H.ident flat_mem h) (ident_noCut flat_mem) (.first (.named (H.missesLit (by decide) flat_mem hk))))
  heads := (heads_token ident_leaf h.1).mono (by decide +kernel)

theorem ReadsAtom.str (H : Works E) (h : Lexeme strLit w) : ReadsAtom E X (.str w) [w] where
  reads _ _ := atom_str H h
  alone _ hk := alone_of H (shies_token str_leaf h.1 (by decide +kernel))
  heads := (heads_token str_leaf h.1).mono (by decide +kernel)

theorem ReadsAtom.re (H : Works E) (h : Lexeme regexpLit w) : ReadsAtom E X (.re w) [w] where
  reads _ _ := atom_re H h
  alone _ hk := alone_of H ((regexp_heads h).shies (by decide +kernel))
  heads := (regexp_heads h).mono (by decide +kernel)

theorem ReadsAtom.ext (H : Works E) (h : Lexeme Core.ident w) : ReadsAtom E X (.ext w) [Wbnf.str "%%", w] where
  reads _ _ := atom_ext H h
  alone _ hk := alone_word H (by decide +kernel)
  heads := heads_word (by decide +kernel)

theorem ReadsAtom.ref (H : Works E) (h : Lexeme Core.ident w) : ReadsAtom E X (.ref w none) [Wbnf.str "%", w] where
  reads _ hk := atom_ref H h hk
  alone _ hk := alone_word H (by decide +kernel)
  heads := heads_word (by decide +kernel)

theorem ReadsAtom.default (H : Works E) {d : Str} (h : Lexeme Core.ident w) (hd : Lexeme strLit d) :
    ReadsAtom E X (.ref w (Option.some d)) [Wbnf.str "%", w, Wbnf.str "=", d] where
  reads _ _ := atom_default H h hd
  alone _ hk := alone_word H (by decide +kernel)
  heads := heads_word (by decide +kernel)

theorem ReadsAtom.look (H : Works E) {x : TermN} (h : ReadsTerm0 E X x ws) :
    ReadsAtom E X (.look (.many [] [] [x])) (Wbnf.str "(?=" :: (ws ++ [Wbnf.str ")"])) where
  reads _ _ := atom_look H h
  alone _ hk := alone_word H (by decide +kernel)
  heads := heads_word (by decide +kernel)

theorem ReadsAtom.term (H : Works E) {x : TermN} (h : ReadsTerm0 E X x ws) :
    ReadsAtom E X (.term x) (Wbnf.str "(" :: (ws ++ [Wbnf.str ")"])) where
  reads _ _ := atom_term H h
  alone _ hk := alone_word H (by decide +kernel)
  heads := heads_word (by decide +kernel)

theorem ReadsAtom.unit (H : Works E) : ReadsAtom E X .unit [Wbnf.str "(", Wbnf.str ")"] where
  reads _ _ := atom_nothing H
  alone _ hk := alone_word H (by decide +kernel)
  heads := heads_word (by decide +kernel)

theorem ReadsAtom.macrocall (H : Works E) {ts ts' : List TermN} (hw : Lexeme Core.ident w) (h : ReadsArg E X ts ws) (h' : ReadsArgs E X ts' ws') :
    ReadsAtom E X (.macrocall w (ts ++ ts')) (Wbnf.str "%!" :: w :: Wbnf.str "(" :: (ws ++ ws' ++ [Wbnf.str ")"])) where
  reads _ _ := atom_macrocall H hw h h'
  alone _ hk := alone_word H (by decide +kernel)
  heads := heads_word (by decide +kernel)

theorem ReadsNamed.plain {x : AtomN} (h : ReadsAtom E X x ws) : ReadsNamed E X (.mk none x) ws where
  heads := h.heads
  reads k hk := by
    have := Reads.seq (ReadsSeq.cons (ws := []) (Reads.none (k := (ws ++ []) ++ k) (by simpa using h.alone k hk))
      (.cons (h.reads k hk) (.nil (P := (· = [])) rfl)))
    rw [List.nil_append, List.append_nil] at this
    refine (Reads.rule resolves_named (by decide +kernel) this).imp ?_
    rintro ps ⟨b, p, rfl, hg, _, _, rfl, rfl, _, _, rfl, ⟨x, rfl, N, hN⟩, rfl⟩
    have hi := optText_none (m := "IDENT") hg (by names)
    have hf : (Ast.branch b).first (str "atom") = Option.some x := by rw [hg.first]; names
    refine ⟨_, rfl, N + 1, fun m hm => ?_⟩
    obtain ⟨m, rfl, hm2⟩ := pred_of_succ hm
    simp [viewNamed, hi, hf, hN m hm2]

theorem ReadsNamed.named (H : Works E) {x : AtomN} (hw : Lexeme ident w) (h : ReadsAtom E X x ws) :
    ReadsNamed E X (.mk (Option.some w) x) (w :: str "=" :: ws) where
  heads := (heads_token ident_leaf hw.1).mono (by decide +kernel)
  reads k hk := by
    have := Reads.seq (ReadsSeq.cons (ws := [w, str "="]) (k := k) (ws' := ws ++ [])
      (.some (.seq (.cons (ws := [w]) (H.ident flat_mem hw) (.cons (ws := [str "="]) (.op (m := "op") (H.lit (l := "=") (by decide) flat_mem)) (.nil (P := (· = [])) rfl)))))
      (.cons (h.reads k hk) (.nil (P := (· = [])) rfl)))
    rw [List.append_nil] at this
    refine (Reads.rule resolves_named (by decide +kernel) this).imp ?_
    rintro ps ⟨b, p, rfl, hg, _, _, rfl, ⟨_, _, rfl, ⟨x1, rfl, hx1⟩, _, _, rfl, ⟨x2, rfl, hx2⟩, rfl⟩, _, _, rfl, ⟨x, rfl, N, hN⟩, rfl⟩
    have hi := optText_some (m := "IDENT") (x := x1) hg (by names) hx1
    have hf : (Ast.branch b).first (str "atom") = Option.some x := by rw [hg.first]; names
    refine ⟨_, rfl, N + 1, fun m hm => ?_⟩
    obtain ⟨m, rfl, hm2⟩ := pred_of_succ hm
    simp [viewNamed, hi, hf, hN m hm2]

/-! ## Quantifiers -/

/-- The first bytes of quantifiers. -/
def quantByte (c : UInt8) : Bool := mayFirst (re "[?*+]") c || mayFirst (re "<:|:>?") c || c == 123

structure ReadsQuant (E : Engine) (X : Externals) (x : QuantN) (ws : List Str) : Prop where
  reads : ∀ k, AfterQuant x.hangs k → Reads E X [flat] (rule "quant") k (Is viewQuant (str "quant") x) ws
  heads : Heads quantByte ws

def rangeTerm : Term := .seq [s "{", opt (eq "min" (rule "INT")), s ",", opt (eq "max" (rule "INT")), s "}"]
def sepTerm : Term := .seq [eq "op" (re "<:|:>?"), opt (eq "opt_leading" (s ",")), rule "named", opt (eq "opt_trailing" (s ","))]

theorem quant_misses (H : Works E) (h : NoQuant k) : Misses E X [flat] (rule "quant") k := by
  refine .rule resolves_quant (.oneof fun u hu => ?_)
  simp only [List.mem_cons, List.not_mem_nil, or_false] at hu
  rcases hu with rfl | rfl | rfl
  · exact .named (H.misses op_leaf flat_mem h.1)
  · rcases h.2.2 with h | ⟨k, rfl, h1, h2⟩
    · exact .seq (.first (H.missesLit (by decide) flat_mem h))
    · refine .seq (MissesSeq.later (ws := [str "{"]) (H.lit (by decide) flat_mem) (by rintro ⟨⟩) ?_)
      have : Reads E X [flat] (opt (eq "min" (rule "INT"))) k (· = []) [] := .none (.named (.rule resolves_int (H.misses int_leaf flat_mem h1)))
      exact .later this (by rintro ⟨⟩) (.first (H.missesLit (by decide) flat_mem h2))
  · exact .seq (.first (.named (H.misses sep_leaf flat_mem h.2.1)))

theorem ReadsQuant.op (H : Works E) (h : Lexeme (re "[?*+]") w) : ReadsQuant E X (.op w) [w] where
  heads := (heads_token op_leaf h.1).mono (by decide +kernel)
  reads k hk := by
    refine (Reads.rule resolves_quant (by decide +kernel) (Reads.oneof (n := 0) rfl (by simp) (.op (m := "op") (H.word op_leaf flat_mem h fun e => absurd e (by decide +kernel))))).imp ?_
    rintro ps ⟨b, p, rfl, hg, p, rfl, x, rfl, hx⟩
    have h1 := opText_cons (m := "op") (x := x) (xs := []) hg (by names) hx
    refine ⟨_, rfl, 1, fun m hm => ?_⟩
    obtain ⟨m, rfl, hm2⟩ := pred_of_succ hm
    have l : (Ast.branch b).lacks ["min", "max", "named", "opt_leading", "opt_trailing"] = true := by rw [lacks_iff hg]; names
    simp [viewQuant, groups_choice hg, l, h1]

/-- An optional number. -/
theorem opt_int (H : Works E) {m : String} {y : Option Str} (h : ∀ z, y = Option.some z → Lexeme int z) (hk : Shies int k) :
    Reads E X [flat] (opt (eq m (rule "INT"))) k (fun ps => ps = [] ∧ y = none ∨ ∃ a z, ps = [(str m, a)] ∧ y = Option.some z ∧ Tok int a z) y.toList := by
  cases y with
  | none => exact (Reads.none (.named (.rule resolves_int (H.misses int_leaf flat_mem hk)))).imp fun ps h => .inl ⟨h, rfl⟩
  | some z =>
    refine (Reads.some (.eq (m := m) (j := str "INT") (y := z) (by decide) (H.int (h z rfl)))).imp ?_
    rintro ps ⟨a, rfl, ha⟩
    exact .inr ⟨a, z, rfl, rfl, ha⟩

theorem ReadsQuant.range (H : Works E) {lo hi : Option Str} (hlo : ∀ z, lo = Option.some z → Lexeme int z) (hhi : ∀ z, hi = Option.some z → Lexeme int z) :
    ReadsQuant E X (.range lo hi) (str "{" :: (lo.toList ++ str "," :: (hi.toList ++ [str "}"]))) where
  heads := heads_word (by decide +kernel)
  reads k hk := by
    refine (Reads.rule resolves_quant (by decide +kernel) (Reads.oneof (n := 1) rfl (fun l u hl hu => ?_)
      (.seq (.cons (ws := [str "{"]) (H.lit (by decide) flat_mem) (.cons (opt_int H (m := "min") hlo (shies_word (by decide +kernel)))
        (.cons (ws := [str ","]) (H.lit (by decide) flat_mem) (.cons (opt_int H (m := "max") hhi (shies_word (by decide +kernel)))
          (.cons (ws := [str "}"]) (H.lit (by decide) flat_mem) (.nil (P := (· = [])) rfl))))))))).imp ?_
    · have : l = 0 := by omega
      subst this
      cases hu
      exact .named (H.misses op_leaf flat_mem (shies_word (by decide +kernel)))
    · rintro ps ⟨b, p, rfl, hg, p, rfl, _, _, rfl, ⟨x1, rfl, _⟩, p2, _, rfl, h2, _, _, rfl, ⟨x3, rfl, _⟩, p4, _, rfl, h4, _, _, rfl, ⟨x5, rfl, _⟩, rfl⟩
      obtain ⟨h6, _⟩ := optText_opt (m := "min") (u := int) (y := lo) hg (by
        rcases h2 with ⟨rfl, rfl⟩ | ⟨x2, y2, rfl, rfl, hx2⟩ <;> rcases h4 with ⟨rfl, rfl⟩ | ⟨x4, y4, rfl, rfl, hx4⟩
        · exact .inl ⟨by names, rfl⟩
        · exact .inl ⟨by names, rfl⟩
        · exact .inr ⟨x2, y2, by names, rfl, hx2⟩
        · exact .inr ⟨x2, y2, by names, rfl, hx2⟩)
      obtain ⟨h8, _⟩ := optText_opt (m := "max") (u := int) (y := hi) hg (by
        rcases h2 with ⟨rfl, rfl⟩ | ⟨x2, y2, rfl, rfl, hx2⟩ <;> rcases h4 with ⟨rfl, rfl⟩ | ⟨x4, y4, rfl, rfl, hx4⟩
        · exact .inl ⟨by names, rfl⟩
        · exact .inr ⟨x4, y4, by names, rfl, hx4⟩
        · exact .inl ⟨by names, rfl⟩
        · exact .inr ⟨x4, y4, by names, rfl, hx4⟩)
      refine ⟨_, rfl, 1, fun m hm => ?_⟩
      obtain ⟨m, rfl, hm2⟩ := pred_of_succ hm
      have l : (Ast.branch b).lacks ["op", "named", "opt_leading", "opt_trailing"] = true := by
        rw [lacks_iff hg]
        rcases h2 with ⟨rfl, rfl⟩ | ⟨x2, y2, rfl, rfl, hx2⟩ <;> rcases h4 with ⟨rfl, rfl⟩ | ⟨x4, y4, rfl, rfl, hx4⟩ <;> names
      simp [viewQuant, groups_choice hg, l, h6, h8]

/-- An optional comma. -/
theorem opt_sep (H : Works E) {m : String} {y : Bool} (hk : y = false → Shies (s ",") k) :
    Reads E X [flat] (opt (eq m (s ","))) k (fun ps => ps = [] ∧ y = false ∨ ∃ a, ps = [(str m, a)] ∧ y = true ∧ OpTok (s ",") a (str ","))
      (if y then [str ","] else []) := by
  cases y with
  | false => exact (Reads.none (.named (H.missesLit (by decide) flat_mem (hk rfl)))).imp fun ps h => .inl ⟨h, rfl⟩
  | true =>
    refine (Reads.some (.op (m := m) (H.lit (l := ",") (by decide) flat_mem))).imp ?_
    rintro ps ⟨a, rfl, ha⟩
    exact .inr ⟨a, rfl, rfl, ha⟩

theorem sep_opText {t : Term} {ps p : List (Str × Ast)} {b : Branch} (hg : Groups t ps b) {m : String} {y : Bool}
    (h : p = [] ∧ y = false ∨ ∃ a, p = [(str m, a)] ∧ y = true ∧ OpTok (s ",") a (str ","))
    (hp : partsNamed (str m) ps = partsNamed (str m) p) : (Ast.branch b).opText m = Option.some (if y then str "," else []) := by
  rcases h with ⟨rfl, rfl⟩ | ⟨x, rfl, rfl, hx⟩
  · exact opText_nil hg hp
  · exact opText_cons hg (x := x) (xs := []) (by rw [hp]; simp [partsNamed_cons, partsNamed_nil]) hx

theorem ReadsQuant.sep (H : Works E) {n : NamedN} {lead trail : Bool} (hw : Lexeme (re "<:|:>?") w) (h : ReadsNamed E X n ws) :
    ReadsQuant E X (.sep w lead trail n) (w :: ((if lead then [str ","] else []) ++ ws ++ (if trail then [str ","] else []))) where
  heads := (heads_token sep_leaf hw.1).mono (by decide +kernel)
  reads k hk := by
    have key : Reads E X [flat] sepTerm k _ (([w] ++ ((if lead then [str ","] else []) ++ (ws ++ ((if trail then [str ","] else []) ++ []))))) :=
      .seq (.cons (ws := [w]) (.op (m := "op") (H.word sep_leaf flat_mem hw fun e => absurd e (by decide +kernel))) (.cons (opt_sep H (m := "opt_leading") (y := lead) fun _ => ?_)
        (.cons (h.reads _ ?_) (.cons (opt_sep H (m := "opt_trailing") (y := trail) fun e => hk.2 (by simp [QuantN.hangs, e])) (.nil (P := (· = [])) rfl)))))
    · rw [show w :: ((if lead then [str ","] else []) ++ ws ++ (if trail then [str ","] else [])) =
        ([w] ++ ((if lead then [str ","] else []) ++ (ws ++ ((if trail then [str ","] else []) ++ [])))) by simp]
      refine (Reads.rule resolves_quant (by decide +kernel) (Reads.oneof (n := 2) rfl (fun l u hl hu => ?_) key)).imp ?_
      · obtain rfl | rfl : l = 0 ∨ l = 1 := by omega
        · cases hu
          exact .named (H.misses op_leaf flat_mem (shies_token sep_leaf hw.1 (by decide +kernel)))
        · cases hu
          exact .seq (.first (H.missesLit (by decide) flat_mem (shies_token sep_leaf hw.1 (by decide +kernel))))
      · rintro ps ⟨b, p, rfl, hg, p, rfl, _, _, rfl, ⟨x1, rfl, hx1⟩, p2, _, rfl, h2, _, _, rfl, ⟨x3, rfl, N, hN⟩, p4, _, rfl, h4, rfl⟩
        have h7 := opText_cons (m := "op") (x := x1) (xs := []) hg (by
          rcases h2 with ⟨rfl, rfl⟩ | ⟨x2, rfl, rfl, hx2⟩ <;> rcases h4 with ⟨rfl, rfl⟩ | ⟨x4, rfl, rfl, hx4⟩ <;> names) hx1
        have h9 := sep_opText hg h2 (by
          rcases h2 with ⟨rfl, rfl⟩ | ⟨x2, rfl, rfl, hx2⟩ <;> rcases h4 with ⟨rfl, rfl⟩ | ⟨x4, rfl, rfl, hx4⟩ <;> names)
        have h10 := sep_opText hg h4 (by
          rcases h2 with ⟨rfl, rfl⟩ | ⟨x2, rfl, rfl, hx2⟩ <;> rcases h4 with ⟨rfl, rfl⟩ | ⟨x4, rfl, rfl, hx4⟩ <;> names)
        have l : (Ast.branch b).lacks ["min", "max"] = true := by
          rw [lacks_iff hg]
          rcases h2 with ⟨rfl, rfl⟩ | ⟨x2, rfl, rfl, hx2⟩ <;> rcases h4 with ⟨rfl, rfl⟩ | ⟨x4, rfl, rfl, hx4⟩ <;> names
        have hf : (Ast.branch b).first (str "named") = Option.some x3 := by
          rw [hg.first]
          rcases h2 with ⟨rfl, rfl⟩ | ⟨x2, rfl, rfl, hx2⟩ <;> rcases h4 with ⟨rfl, rfl⟩ | ⟨x4, rfl, rfl, hx4⟩ <;> names
        refine ⟨_, rfl, N + 1, fun m hm => ?_⟩
        obtain ⟨m, rfl, hm2⟩ := pred_of_succ hm
        simp [viewQuant, groups_choice hg, l, h7, h9, h10, hf, hN m hm2]
        cases lead <;> cases trail <;> decide
    · rw [List.append_assoc]
      exact h.heads.append.shies (by decide +kernel)
    · cases trail
      · exact hk.1
      · exact shies_word (by decide +kernel)

/-- More quantifiers. -/
structure ReadsQuants (E : Engine) (X : Externals) (qs : List QuantN) (ws : List Str) : Prop where
  reads : ∀ k, After3 (hangQuants qs) k → ReadsReps E X [flat] (rule "quant") k qs.length (All viewQuant (str "quant") qs) ws
  heads : ws = [] ∧ qs = [] ∨ Heads quantByte ws

theorem ReadsQuants.after {qs : List QuantN} (h : ReadsQuants E X qs ws) (hk : After3 (hangQuants qs) k) : AfterNamed (ws ++ k) := by
  rcases h.heads with ⟨rfl, _⟩ | h
  · exact hk.1.1
  · exact h.append.shies (by decide +kernel)

theorem ReadsQuants.nil (H : Works E) : ReadsQuants E X [] [] where
  heads := .inl ⟨rfl, rfl⟩
  reads k hk := (ReadsReps.nil (quant_misses H hk.2)).imp fun ps h => by rw [h]; exact .nil

theorem ReadsQuants.cons {q : QuantN} {qs : List QuantN} (h : ReadsQuant E X q ws) (h' : ReadsQuants E X qs ws') :
    ReadsQuants E X (q :: qs) (ws ++ ws') where
  heads := .inr h.heads.append
  reads k hk := by
    have : AfterQuant q.hangs (ws' ++ k) ∧ After3 (hangQuants qs) k := by
      rcases h'.heads with ⟨rfl, rfl⟩ | h2
      · exact ⟨hk.1, ⟨hk.1.1, by simp [hangQuants]⟩, hk.2⟩
      · refine ⟨⟨h2.append.shies (by decide +kernel), fun _ => h2.append.shies (by decide +kernel)⟩, ?_⟩
        cases qs with
        | nil => exact ⟨⟨hk.1.1, by simp [hangQuants]⟩, hk.2⟩
        | cons => exact hk
    exact (ReadsReps.cons (h.reads _ this.1) (h'.reads k this.2)).imp fun ps ⟨p, q, e, h1, h2⟩ => by rw [e]; exact All.cons h1 h2

end Wbnf.Core

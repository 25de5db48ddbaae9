import Verif.Lemmas.WriteTokens

/-!
# Reading atoms, quantifiers and terms
-/

namespace Wbnf.Core

set_option linter.unusedSimpArgs false

variable {E : Engine} {X : Externals} {Γ Γ' : List Grammar} {t u : Term} {ts : List Term} {w : Str} {ws ws' k : List Str}
  {P P' : List (Str × Ast) → Prop}

/-- Compute the parts under a name. -/
local macro "names" : tactic => `(tactic| simp (decide := true) [partsNamed_append, partsNamed_cons, partsNamed_nil, partsNamed_map])

/-! ## What comes next -/

/-- The tokens that atoms begin with. -/
def atomStarts : List Term := [ident, strLit, regexpLit, s "%!", s "%%", s "%", s "(?=", s "("]

/-- The first bytes of atoms. -/
def atomByte (c : UInt8) : Bool := mayFirst ident c || mayFirst strLit c || mayFirst regexpLit c || c == 37 || c == 40

/-- What follows a named atom. -/
def AfterNamed (k : List Str) : Prop := Shies (s "=") k
/-- What follows a quantifier; if that hangs (`o`), it is not a comma. -/
def AfterQuant (o : Bool) (k : List Str) : Prop := AfterNamed k ∧ (o = true → Shies (s ",") k)
/-- No quantifier follows. -/
def NoQuant (k : List Str) : Prop := Shies (re "[?*+]") k ∧ Shies (re "<:|:>?") k ∧
  (Shies (s "{") k ∨ ∃ k', k = str "{" :: k' ∧ Shies int k' ∧ Shies (s ",") k')
/-- No atom follows. -/
def NoAtom (k : List Str) : Prop := ∀ t ∈ atomStarts, Shies t k
def After3 (o : Bool) (k : List Str) : Prop := AfterQuant o k ∧ NoQuant k
def After2 (o : Bool) (k : List Str) : Prop := After3 o k ∧ NoAtom k
def After1 (o : Bool) (k : List Str) : Prop := After2 o k ∧ Shies (s "|") k
def After0 (o : Bool) (k : List Str) : Prop := After1 o k ∧ Shies (s ">") k ∧ Shies (s "{") k

theorem heads_after3 {o : Bool} (h : Heads atomByte k) : After3 o k :=
  ⟨⟨h.shies (by decide +kernel), fun _ => h.shies (by decide +kernel)⟩, h.shies (by decide +kernel), h.shies (by decide +kernel), .inl (h.shies (by decide +kernel))⟩

/-! ## Atoms -/

theorem resolves_atom : Resolves [flat] (str "atom") [flat] atom := resolves_flat (by decide +kernel) (by simp [atom])
theorem resolves_named : Resolves [flat] (str "named") [flat] named := resolves_flat (by decide +kernel) (by simp [named])
theorem resolves_quant : Resolves [flat] (str "quant") [flat] quant := resolves_flat (by decide +kernel) (by simp [quant])
theorem resolves_macrocall : Resolves [flat] (str "macrocall") [flat] macrocall := resolves_flat (by decide +kernel) (by simp [macrocall])
theorem resolves_ref : Resolves [flat] (str "REF") [flat] ref := resolves_flat (by decide +kernel) (by simp [ref])

/-- The alternatives of an atom. -/
def atomAlts : List Term := [rule "IDENT", rule "STR", rule "RE", rule "macrocall",
  eq "ExtRef" (.seq [.cut (s "%%"), rule "IDENT"]), rule "REF",
  .seq [.cut (s "(?="), eq "lookahead" (rule "term"), s ")"], .seq [s "(", rule "term", s ")"], .seq [s "(", s ")"]]

/-- None of the first alternatives. -/
theorem alts_miss (H : Works E) {n : Nat} (h : ∀ t ∈ atomStarts.take n, Shies t k) :
    ∀ l u, l < n → l < 8 → atomAlts[l]? = Option.some u → Misses E X [flat] u k := by
  intro l u hl h8 hu
  have key : ∀ v, atomStarts[l]? = Option.some v → Shies v k := fun v hv => h v (List.mem_of_getElem? (i := l) (by rw [List.getElem?_take]; simp [hl, hv]))
  obtain rfl | rfl | rfl | rfl | rfl | rfl | rfl | rfl : l = 0 ∨ l = 1 ∨ l = 2 ∨ l = 3 ∨ l = 4 ∨ l = 5 ∨ l = 6 ∨ l = 7 := by omega
  · cases hu; exact H.missesIdent flat_mem (key _ rfl)
  · cases hu; exact .rule resolves_str (H.misses str_leaf flat_mem (key _ rfl))
  · cases hu; exact .rule resolves_re (H.misses re_leaf flat_mem (key _ rfl))
  · cases hu; exact .rule resolves_macrocall (.seq (.first (.cut (H.missesLit (by decide) flat_mem (key _ rfl)))))
  · cases hu; exact .named (.seq (.first (.cut (H.missesLit (by decide) flat_mem (key _ rfl)))))
  · cases hu; exact .rule resolves_ref (.seq (.first (.cut (H.missesLit (by decide) flat_mem (key _ rfl)))))
  · cases hu; exact .seq (.first (.cut (H.missesLit (by decide) flat_mem (key _ rfl))))
  · cases hu; exact .seq (.first (H.missesLit (by decide) flat_mem (key _ rfl)))

theorem atom_misses (H : Works E) (h : NoAtom k) : Misses E X [flat] (rule "atom") k := by
  refine .rule resolves_atom (.oneof fun u hu => ?_)
  obtain ⟨l, hl⟩ := List.mem_iff_getElem?.1 hu
  rcases Nat.lt_or_ge l 8 with h8 | h8
  · exact alts_miss H (n := 8) h l u (by omega) h8 hl
  · have : l = 8 := by
      have := (List.getElem?_eq_some_iff.1 hl).1
      simp at this
      omega
    subst this
    cases hl
    exact .seq (.first (H.missesLit (by decide) flat_mem (h _ (by simp [atomStarts]))))

/-- An alternative of an atom. -/
theorem atom_alt (H : Works E) {n : Nat} {x : AtomN} (ht : atomAlts[n]? = Option.some t) (hn : n < 8) (hs : ∀ t ∈ atomStarts.take n, Shies t (ws ++ k))
    (h : Reads E X [flat] t k P ws)
    (hv : ∀ p b, P p → Groups atom ((choiceTag, .extra (.choice n)) :: p) b → ∃ N, ∀ m, N ≤ m → viewAtom m (.branch b) = Option.some x) :
    Reads E X [flat] (rule "atom") k (Is viewAtom (str "atom") x) ws := by
  refine (Reads.rule resolves_atom (by decide +kernel) (Reads.oneof (ts := atomAlts) ht (fun l u hl hu => alts_miss H hs l u hl (by omega) hu) h)).imp ?_
  rintro ps ⟨b, p, rfl, hg, p, rfl, hp⟩
  exact ⟨_, rfl, hv p b hp hg⟩

theorem atom_ident (H : Works E) (h : Lexeme ident w) : Reads E X [flat] (rule "atom") k (Is viewAtom (str "atom") (.ident w)) [w] := by
  refine atom_alt H (n := 0) rfl (by decide) (by simp) (H.ident flat_mem h) ?_
  rintro _ b ⟨x, rfl, hx⟩ hg
  obtain ⟨w, l⟩ := atom_which hg (key := "IDENT") (by decide) (by names) (by names)
  have h1 := one_sees hg (key := "IDENT") (f := AtomN.ident) (by decide) (by names) hx
  refine ⟨1, fun m hm => ?_⟩
  obtain ⟨m, rfl, hm2⟩ := pred_of_succ hm
  rw [viewAtom_of w l]
  simp (decide := true) [h1]

theorem atom_str (H : Works E) (h : Lexeme strLit w) : Reads E X [flat] (rule "atom") k (Is viewAtom (str "atom") (.str w)) [w] := by
  refine atom_alt H (n := 1) rfl (by decide) ?_ (H.str h) ?_
  · intro t ht
    simp only [atomStarts, List.take_succ_cons, List.take_zero, List.mem_cons, List.not_mem_nil, or_false] at ht
    subst ht
    exact shies_token str_leaf h.1 (by decide +kernel)
  · rintro _ b ⟨x, rfl, hx⟩ hg
    obtain ⟨w, l⟩ := atom_which hg (key := "STR") (by decide) (by names) (by names)
    have h1 := one_sees hg (key := "STR") (f := AtomN.str) (by decide) (by names) hx
    refine ⟨1, fun m hm => ?_⟩
    obtain ⟨m, rfl, hm2⟩ := pred_of_succ hm
    rw [viewAtom_of w l]
    simp (decide := true) [h1]

/-- What a regexp begins with. -/
def regexpByte (c : UInt8) : Bool := (Wbnf.str "/[\\^$").contains c

theorem regexp_heads (h : Lexeme regexpLit w) : Heads regexpByte (w :: k) := by
  obtain ⟨c, v, rfl, hc⟩ := patternText_head (h.2.2.1 rfl)
  exact ⟨c, v, k, rfl, by simpa [regexpByte] using hc⟩

theorem atom_re (H : Works E) (h : Lexeme regexpLit w) : Reads E X [flat] (rule "atom") k (Is viewAtom (str "atom") (.re w)) [w] := by
  refine atom_alt H (n := 2) rfl (by decide) ?_ (H.regexp h) ?_
  · intro t ht
    simp only [atomStarts, List.take_succ_cons, List.take_zero, List.mem_cons, List.not_mem_nil, or_false] at ht
    rcases ht with rfl | rfl <;> exact (regexp_heads h).shies (by decide +kernel)
  · rintro _ b ⟨x, rfl, hx⟩ hg
    obtain ⟨w, l⟩ := atom_which hg (key := "RE") (by decide) (by names) (by names)
    have h1 := one_sees hg (key := "RE") (f := AtomN.re) (by decide) (by names) hx
    refine ⟨1, fun m hm => ?_⟩
    obtain ⟨m, rfl, hm2⟩ := pred_of_succ hm
    rw [viewAtom_of w l]
    simp (decide := true) [h1]

/-- The literal of an alternative is no other. -/
theorem lit_starts {n : Nat} {l : String} (h : (atomStarts.take n).all (fun t => shy t (str l)) = true) : ∀ t ∈ atomStarts.take n, Shies t (str l :: k) :=
  fun t ht => shies_word (List.all_eq_true.1 h t ht)

theorem atom_ext (H : Works E) (h : Lexeme ident w) : Reads E X [flat] (rule "atom") k (Is viewAtom (str "atom") (.ext w)) [str "%%", w] := by
  refine atom_alt H (n := 4) rfl (by decide) (lit_starts (by decide +kernel))
    (.named (.seq (.cons (ws := [str "%%"]) (.cut (H.lit (by decide) flat_mem)) (.cons (ws := [w]) (H.ident flat_mem h) (.nil (P := (· = [])) rfl))))) ?_
  rintro _ b ⟨b', p, rfl, hg', _, _, rfl, ⟨x1, rfl, _⟩, _, _, rfl, ⟨x2, rfl, hx2⟩, rfl⟩ hg
  have hi := nameText_cons (m := "IDENT") (x := x2) (xs := []) hg' (by names) hx2
  obtain ⟨w, l⟩ := atom_which hg (key := "ExtRef") (by decide) (by names) (by names)
  have hf : (Ast.branch b).first (str "ExtRef") = Option.some (.branch b') := by rw [hg.first]; names
  refine ⟨1, fun m hm => ?_⟩
  obtain ⟨m, rfl, hm2⟩ := pred_of_succ hm
  rw [viewAtom_of w l]
  simp (decide := true) [hf, hi]

theorem atom_ref (H : Works E) (h : Lexeme ident w) (hk : AfterNamed k) :
    Reads E X [flat] (rule "atom") k (Is viewAtom (str "atom") (.ref w none)) [str "%", w] := by
  refine atom_alt H (n := 5) rfl (by decide) (lit_starts (by decide +kernel))
    (.rule resolves_ref (by decide +kernel) (.seq (.cons (ws := [str "%"]) (.cut (H.lit (by decide) flat_mem)) (.cons (ws := [w]) (H.ident flat_mem h)
      (.cons (ws := []) (.none (.seq (.first (H.missesLit (by decide) flat_mem hk)))) (.nil (P := (· = [])) rfl)))))) ?_
  rintro _ b ⟨b', p, rfl, hg', _, _, rfl, ⟨x1, rfl, _⟩, _, _, rfl, ⟨x2, rfl, hx2⟩, _, _, rfl, rfl, rfl⟩ hg
  have hi := nameText_cons (m := "IDENT") (x := x2) (xs := []) hg' (by names) hx2
  have hd := optText_none (m := "default") hg' (by names)
  obtain ⟨w, l⟩ := atom_which hg (key := "REF") (by decide) (by names) (by names)
  have hf : (Ast.branch b).first (str "REF") = Option.some (.branch b') := by
    rw [hg.first]
    have : shownName (str "REF") = str "REF" := by decide +kernel
    rw [this]; names
  refine ⟨1, fun m hm => ?_⟩
  obtain ⟨m, rfl, hm2⟩ := pred_of_succ hm
  rw [viewAtom_of w l]
  simp (decide := true) [hf, hi, hd]

theorem atom_default (H : Works E) {d : Str} (h : Lexeme ident w) (hd : Lexeme strLit d) :
    Reads E X [flat] (rule "atom") k (Is viewAtom (str "atom") (.ref w (Option.some d))) [str "%", w, str "=", d] := by
  refine atom_alt H (n := 5) rfl (by decide) (lit_starts (by decide +kernel))
    (.rule resolves_ref (by decide +kernel) (.seq (.cons (ws := [str "%"]) (.cut (H.lit (by decide) flat_mem)) (.cons (ws := [w]) (H.ident flat_mem h)
      (.cons (ws := [str "=", d]) (.some (.seq (.cons (ws := [str "="]) (H.lit (by decide) flat_mem)
        (.cons (ws := [d]) (.eq (u := strLit) (y := d) (by decide) (H.str hd)) (.nil (P := (· = [])) rfl))))) (.nil (P := (· = [])) rfl)))))) ?_
  rintro _ b ⟨b', p, rfl, hg', _, _, rfl, ⟨x1, rfl, _⟩, _, _, rfl, ⟨x2, rfl, hx2⟩, _, _, rfl, ⟨_, _, rfl, ⟨x3, rfl, _⟩, _, _, rfl, ⟨x4, rfl, hx4⟩, rfl⟩, rfl⟩ hg
  have hi := nameText_cons (m := "IDENT") (x := x2) (xs := []) hg' (by names) hx2
  have hd := optText_some (m := "default") (x := x4) hg' (by names) hx4
  obtain ⟨w, l⟩ := atom_which hg (key := "REF") (by decide) (by names) (by names)
  have hf : (Ast.branch b).first (str "REF") = Option.some (.branch b') := by
    rw [hg.first]
    have : shownName (str "REF") = str "REF" := by decide +kernel
    rw [this]; names
  refine ⟨1, fun m hm => ?_⟩
  obtain ⟨m, rfl, hm2⟩ := pred_of_succ hm
  rw [viewAtom_of w l]
  simp (decide := true) [hf, hi, hd]

/-- Words of a term, up to a parenthesis. -/
def ReadsTerm0 (E : Engine) (X : Externals) (x : TermN) (ws : List Str) : Prop :=
  ∀ Γ ∈ frames, ∀ k, After0 x.hangs k → Reads E X Γ (rule "term") k (Is viewTerm (str "term") x) ws

theorem after0_lit {o : Bool} {l : String} (h : ([s "=", re "[?*+]", re "<:|:>?", s "|", s ">", s "{"] ++ atomStarts).all (fun t => shy t (str l)) = true)
    (ho : o = true → shy (s ",") (str l) = true) : After0 o (str l :: k) := by
  have key : ∀ t ∈ [s "=", re "[?*+]", re "<:|:>?", s "|", s ">", s "{"] ++ atomStarts, Shies t (str l :: k) :=
    fun t ht => shies_word (List.all_eq_true.1 h t ht)
  refine ⟨⟨⟨⟨⟨key _ (by simp), fun e => shies_word (ho e)⟩, key _ (by simp), key _ (by simp), .inl (key _ (by simp))⟩, fun t ht => key _ (by simp [ht])⟩,
    key _ (by simp)⟩, key _ (by simp), key _ (by simp)⟩

theorem after0_close {o : Bool} : After0 o (str ")" :: k) := after0_lit (by decide +kernel) (fun _ => by decide +kernel)
theorem after0_semi {o : Bool} : After0 o (str ";" :: k) := after0_lit (by decide +kernel) (fun _ => by decide +kernel)
theorem after0_brace {o : Bool} : After0 o (str "}" :: k) := after0_lit (by decide +kernel) (fun _ => by decide +kernel)
theorem after0_comma : After0 false (str "," :: k) := after0_lit (by decide +kernel) (fun h => by cases h)

theorem atom_look (H : Works E) {x : TermN} (h : ReadsTerm0 E X x ws) :
    Reads E X [flat] (rule "atom") k (Is viewAtom (str "atom") (.look (.many [] [] [x]))) (str "(?=" :: (ws ++ [str ")"])) := by
  refine atom_alt H (n := 6) rfl (by decide) (lit_starts (by decide +kernel))
    (.seq (.cons (ws := [str "(?="]) (.cut (H.lit (by decide) flat_mem)) (.cons (.named (h _ flat_mem _ after0_close))
      (.cons (ws := [str ")"]) (H.lit (by decide) flat_mem) (.nil (P := (· = [])) rfl))))) ?_
  rintro _ b ⟨_, _, rfl, ⟨x1, rfl, _⟩, _, _, rfl, ⟨b', p, rfl, hg', a, rfl, N, hN⟩, _, _, rfl, ⟨x3, rfl, _⟩, rfl⟩ hg
  obtain ⟨N, hN⟩ := sees_many (.term hN) (by simp) hg' (opText_nil hg' (by names))
  obtain ⟨w, l⟩ := atom_which hg (key := "lookahead") (by decide) (by names) (by names)
  have hf : (Ast.branch b).first (str "lookahead") = Option.some (.branch b') := by rw [hg.first]; names
  refine ⟨N + 1, fun m hm => ?_⟩
  obtain ⟨m, rfl, hm2⟩ := pred_of_succ hm
  rw [viewAtom_of w l]
  simp (decide := true) [hf, hN m hm2]

theorem atom_term (H : Works E) {x : TermN} (h : ReadsTerm0 E X x ws) :
    Reads E X [flat] (rule "atom") k (Is viewAtom (str "atom") (.term x)) (str "(" :: (ws ++ [str ")"])) := by
  refine atom_alt H (n := 7) rfl (by decide) (lit_starts (by decide +kernel))
    (.seq (.cons (ws := [str "("]) (H.lit (by decide) flat_mem) (.cons (h _ flat_mem _ after0_close)
      (.cons (ws := [str ")"]) (H.lit (by decide) flat_mem) (.nil (P := (· = [])) rfl))))) ?_
  rintro _ b ⟨_, _, rfl, ⟨x1, rfl, _⟩, _, _, rfl, ⟨a, rfl, N, hN⟩, _, _, rfl, ⟨x3, rfl, _⟩, rfl⟩ hg
  obtain ⟨w, l⟩ := atom_which hg (key := "term") (by decide) (by names) (by names)
  have hf : (Ast.branch b).first (str "term") = Option.some a := by rw [hg.first]; names
  refine ⟨N + 1, fun m hm => ?_⟩
  obtain ⟨m, rfl, hm2⟩ := pred_of_succ hm
  rw [viewAtom_of w l]
  simp (decide := true) [hf, hN m hm2]

/-! ## Where no term is -/

theorem named_misses (H : Works E) (h : NoAtom k) : Misses E X [flat] (rule "named") k := by
  refine .rule resolves_named (.seq ?_)
  have h1 : Reads E X [flat] (opt (.seq [rule "IDENT", eq "op" (s "=")])) k (· = []) [] :=
    .none (.seq (.first (H.missesIdent flat_mem (h _ (by simp [atomStarts])))))
  exact .later h1 (by rintro ⟨⟩) (.first (atom_misses H h))

def term3 : Term := .seq [rule "named", any (rule "quant")]
def term2 : Term := some (rule "term@3")
def term1 : Term := .delim (rule "term@2") (eq "op" (s "|")) 0 false false
def layerTerm : Term := .seq [rule "term@1", opt (.seq [s "{", rule "grammar", s "}"])]
def term0 : Term := .delim layerTerm (eq "op" (s ">")) 0 false false

theorem resolves_term3 : Resolves [flat] (str "term@3") [flat] term3 := resolves_flat (by decide +kernel) (by simp [term3])
theorem resolves_term2 : Resolves [flat] (str "term@2") [flat] term2 := resolves_flat (by decide +kernel) (by simp [term2, some])
theorem resolves_term1 : Resolves [flat] (str "term@1") [flat] term1 := resolves_flat (by decide +kernel) (by simp [term1])
theorem resolves_term0 (hΓ : Γ ∈ frames) : Resolves Γ (str "term") [flat] term0 :=
  resolves_frames hΓ (by decide +kernel) (by simp [term0]) (by decide +kernel)

theorem term3_misses (H : Works E) (h : NoAtom k) : Misses E X [flat] (rule "term@3") k :=
  .rule resolves_term3 (.seq (.first (named_misses H h)))
theorem term2_misses (H : Works E) (h : NoAtom k) : Misses E X [flat] (rule "term@2") k :=
  .rule resolves_term2 (.some (term3_misses H h))
theorem term1_misses (H : Works E) (h : NoAtom k) : Misses E X [flat] (rule "term@1") k :=
  .rule resolves_term1 (.delim (term2_misses H h))
theorem term0_misses (H : Works E) (h : NoAtom k) (hΓ : Γ ∈ frames) : Misses E X Γ (rule "term") k :=
  .rule (resolves_term0 hΓ) (.delim (.seq (.first (term1_misses H h))))

theorem atom_nothing (H : Works E) : Reads E X [flat] (rule "atom") k (Is viewAtom (str "atom") .unit) [str "(", str ")"] := by
  have hf : ∀ l u, l < 8 → atomAlts[l]? = Option.some u → Misses E X [flat] u ([str "(", str ")"] ++ k) := by
    intro l u hl hu
    rcases Nat.lt_or_ge l 7 with h7 | h7
    · exact alts_miss H (n := 7) (lit_starts (by decide +kernel)) l u h7 (by omega) hu
    · have : l = 7 := by omega
      subst this
      cases hu
      exact .seq (MissesSeq.later (ws := [str "("]) (H.lit (by decide) flat_mem) (by rintro ⟨⟩) (.first (term0_misses H (after0_close (o := false)).1.1.2 flat_mem)))
  refine (Reads.rule resolves_atom (by decide +kernel) (Reads.oneof (ts := atomAlts) (n := 8) rfl hf
    (.seq (.cons (ws := [str "("]) (H.lit (by decide) flat_mem) (.cons (ws := [str ")"]) (H.lit (by decide) flat_mem) (.nil (P := (· = [])) rfl)))))).imp ?_
  rintro ps ⟨b, p, rfl, hg, p, rfl, _, _, rfl, ⟨x1, rfl, _⟩, _, _, rfl, ⟨x2, rfl, _⟩, rfl⟩
  obtain ⟨w, l⟩ := atom_unit hg (by names)
  refine ⟨_, rfl, 1, fun m hm => ?_⟩
  obtain ⟨m, rfl, hm2⟩ := pred_of_succ hm
  rw [viewAtom_of w l]
  simp (decide := true) []

end Wbnf.Core

import Verif.Lemmas.WriteReads
import Verif.Lemmas.CoreNodes

/-!
# Reading tokens, and what other words are not
-/

namespace Wbnf

/-- A token may have this first byte. -/
def mayBegin1 : Nat → UInt8 → Bool
  | 3, c => c == 47 || c == 91 || c == 46 || c == 94 || c == 36 || c == 92
  | 4, c => c == 47
  | 6, c => c == 58 || c == 60
  | k, c => mayBegin k c none

def mayFirst : Term → UInt8 → Bool
  | .s [], _ => false
  | .s (a :: _), c => c == a
  | t, c => mayBegin1 (kindOf t) c

theorem mayBegin1_of {k : Nat} {c : UInt8} {d : Option UInt8} (h : mayBegin k c d = true) : mayBegin1 k c = true := by
  unfold mayBegin at h
  split at h <;> simp_all [mayBegin1, mayBegin, or_assoc]
  · rcases h with ⟨h, _⟩ | h <;> simp [h]
  · rcases h with h | ⟨h, _⟩ <;> simp [h]

theorem mayFirst_of {t : Term} {c : UInt8} {d : Option UInt8} (h : mayStart t c d = true) : mayFirst t c = true := by
  unfold mayStart at h
  split at h
  · cases h
  · simpa [mayFirst] using h
  · simp at h; simp [mayFirst, h.1]
  · next h1 h2 h3 =>
    unfold mayFirst
    split
    · exact absurd rfl h1
    · next a x => cases x <;> [exact absurd rfl (h2 a); exact absurd rfl (h3 a _ _)]
    · exact mayBegin1_of h

/-- No byte is in both. -/
def disjoint (S S' : UInt8 → Bool) : Bool := (List.range 256).all fun n => !(S (UInt8.ofNat n) && S' (UInt8.ofNat n))

theorem disjoint_at {S S' : UInt8 → Bool} (h : disjoint S S' = true) {c : UInt8} (hc : S c = true) : S' c = false := by
  have := forall_byte (p := fun c => !(S c && S' c)) h c
  simpa [hc] using this

namespace Core

variable {E : Engine} {X : Externals} {Γ Γ' : List Grammar} {t u : Term} {ts : List Term} {w : Str} {ws ws' k : List Str}
  {P P' : List (Str × Ast) → Prop}

/-- The first word begins with such a byte. -/
def Heads (S : UInt8 → Bool) (ws : List Str) : Prop := ∃ c v ws', ws = (c :: v) :: ws' ∧ S c = true

theorem Heads.append {S : UInt8 → Bool} (h : Heads S ws) : Heads S (ws ++ k) := by
  obtain ⟨c, v, ws', rfl, h⟩ := h
  exact ⟨c, v, ws' ++ k, rfl, h⟩

theorem Heads.shies {S : UInt8 → Bool} (h : Heads S ws) (hd : disjoint S (fun c => whites.contains c || mayFirst t c) = true) : Shies t ws := by
  obtain ⟨c, v, ws', rfl, h⟩ := h
  have := disjoint_at hd h
  simp only [Bool.or_eq_false_iff, List.contains_eq_mem, decide_eq_false_iff_not] at this
  refine .inr ⟨c, v, ws', rfl, this.1, ?_⟩
  rw [← Bool.not_eq_true]
  intro h'
  rw [mayFirst_of h'] at this
  cases this.2

theorem Heads.mono {S S' : UInt8 → Bool} (h : Heads S ws) (hd : disjoint S (fun c => !S' c) = true) : Heads S' ws := by
  obtain ⟨c, v, ws', rfl, h⟩ := h
  refine ⟨c, v, ws', rfl, ?_⟩
  simpa using disjoint_at hd h

theorem heads_token (ht : t ∈ leaves) (h : Token t w) : Heads (mayFirst t) (w :: k) := by
  obtain ⟨c, v, rfl, h'⟩ := token_start ht h
  exact ⟨c, v, k, rfl, mayFirst_of h'⟩

theorem shies_token (ht : t ∈ leaves) (h : Token t w) (hd : disjoint (mayFirst t) (fun c => whites.contains c || mayFirst u c) = true) :
    Shies u (w :: k) := (heads_token ht h).shies hd

/-- The literal does not begin like such a token. -/
def shy (t : Term) : Str → Bool
  | [] => false
  | c :: v => !whites.contains c && !mayStart t c v.head?

theorem shies_word (h : shy t w = true) : Shies t (w :: k) := by
  cases w with
  | nil => cases h
  | cons c v =>
    simp [shy] at h
    exact .inr ⟨c, v, k, rfl, h⟩

theorem heads_word {S : UInt8 → Bool} (h : w.head?.any S = true) : Heads S (w :: k) := by
  cases w with
  | nil => cases h
  | cons c v => exact ⟨c, v, k, rfl, by simpa using h⟩

/-- What is asked of the engine. -/
structure Works (E : Engine) : Prop where
  sane : E.Sane
  ok : EngineOK E
  reads : EngineReads E
  finds : EngineFinds E

theorem Works.misses (H : Works E) (ht : t ∈ leaves) (hΓ : Γ ∈ frames) (h : Shies t k) : Misses E X Γ t k :=
  fun _ hi name vals => leaf_fails H.reads ht hΓ h hi name vals

theorem Works.word (H : Works E) (ht : t ∈ leaves) (hΓ : Γ ∈ frames) (h : Lexeme t w) (hp : t = re "[a-zA-Z0-9.:]+" → Shies (s ":") k) :
    Reads E X Γ t k (fun ps => ∃ a, ps = [([], a)] ∧ Tok t a w) [w] := by
  intro i hi name
  obtain ⟨s, j, h1, h2, h3⟩ := leaf_takes H.sane H.ok H.finds ht hΓ h hp hi
  refine ⟨.leaf s, j, fun vals => h3 name vals, h2, fun ps hps => ⟨.leaf s, ?_, by simp [Ast.text, Ast.scanner, h1], h.1⟩⟩
  revert hps
  refine leaf_cases (P := fun t => PartsBy LeafRead allRules t (.leaf s) ps → ps = [([], .leaf s)]) ht (fun l _ h => ?_) fun l h => ?_
  · cases h; rfl
  · cases h; rfl

theorem lit_leaf {l : String} (h : l ∈ literals) : s l ∈ leaves := List.mem_append_left _ (List.mem_map_of_mem h)

theorem Works.lit (H : Works E) {l : String} (hl : l ∈ literals) (hΓ : Γ ∈ frames) :
    Reads E X Γ (s l) k (fun ps => ∃ a, ps = [([], a)] ∧ Tok (s l) a (str l)) [str l] :=
  H.word (lit_leaf hl) hΓ ⟨.lit, .inl (by simp [s, re]), by simp [s, regexpLit, re], by simp [s, comment, re]⟩ (by simp [s, re])

theorem Works.missesLit (H : Works E) {l : String} (hl : l ∈ literals) (hΓ : Γ ∈ frames) (h : Shies (s l) k) : Misses E X Γ (s l) k :=
  H.misses (lit_leaf hl) hΓ h

/-- A name given to a literal or regexp. -/
theorem Reads.op {m : String} {y : Str} (h : Reads E X Γ t k (fun ps => ∃ a, ps = [([], a)] ∧ Tok u a y) ws) :
    Reads E X Γ (eq m t) k (fun ps => ∃ a, ps = [(str m, a)] ∧ OpTok u a y) ws := by
  refine (Reads.named h).imp ?_
  rintro ps ⟨b, p, rfl, hg, a, rfl, ha⟩
  exact ⟨_, rfl, a, by rw [hg.first]; simp [partsNamed_one], ha⟩

/-- A name given to a token. -/
theorem Reads.eq {m : String} {y j : Str} (hj : isTagName j = false) (h : Reads E X Γ t k (fun ps => ∃ a, ps = [(j, a)] ∧ Tok u a y) ws) :
    Reads E X Γ (eq m t) k (fun ps => ∃ a, ps = [(str m, a)] ∧ Tok u a y) ws := by
  refine (Reads.named h).imp ?_
  rintro ps ⟨b, p, rfl, hg, a, rfl, ha⟩
  exact ⟨_, rfl, tok_of_groups hg rfl hj ha⟩

/-- A rule of the grammar. -/
theorem resolves_flat {r : Str} (h : lookup r flat = Option.some t) (ht : ∀ r', t ≠ .rule r') : Resolves [flat] r [flat] t := .here (.here h ht)

theorem resolves_frames {r : Str} (hΓ : Γ ∈ frames) (h : lookup r flat = Option.some t) (ht : ∀ r', t ≠ .rule r') (hr : lookup r pragmaGrammar = none) :
    Resolves Γ r [flat] t := by
  simp only [frames, List.mem_cons, List.not_mem_nil, or_false] at hΓ
  rcases hΓ with rfl | rfl
  · exact resolves_flat h ht
  · exact .outer hr (resolves_flat h ht)

theorem resolves_ident (hΓ : Γ ∈ frames) : Resolves Γ (str "IDENT") [flat] ident := resolves_frames hΓ (by decide +kernel) (by simp [ident, re]) (by decide +kernel)

theorem Works.leafRule (H : Works E) {r : Str} (hl : lookup r allRules = Option.some t) (hr : Resolves Γ r [flat] t) (ht : t ∈ leaves)
    (h : Lexeme t w) (hp : t ≠ re "[a-zA-Z0-9.:]+") : Reads E X Γ (.rule r) k (fun ps => ∃ a, ps = [(shownName r, a)] ∧ Tok t a w) [w] := by
  refine (Reads.rule hr hl (H.word ht flat_mem h fun e => absurd e hp)).imp ?_
  rintro ps ⟨b, p, rfl, hg, a, rfl, ha⟩
  exact ⟨_, rfl, tok_of_groups hg rfl (by decide) ha⟩

theorem ident_leaf : ident ∈ leaves := by decide +kernel
theorem int_leaf : int ∈ leaves := by decide +kernel
theorem str_leaf : strLit ∈ leaves := by decide +kernel
theorem re_leaf : regexpLit ∈ leaves := by decide +kernel
theorem comment_leaf : comment ∈ leaves := by decide +kernel
theorem op_leaf : re "[?*+]" ∈ leaves := by decide +kernel
theorem sep_leaf : re "<:|:>?" ∈ leaves := by decide +kernel

theorem Works.ident (H : Works E) (hΓ : Γ ∈ frames) (h : Lexeme ident w) :
    Reads E X Γ (rule "IDENT") k (fun ps => ∃ a, ps = [(str "IDENT", a)] ∧ Tok ident a w) [w] :=
  H.leafRule (by decide +kernel) (resolves_ident hΓ) ident_leaf h (by decide +kernel)

theorem Works.missesIdent (H : Works E) (hΓ : Γ ∈ frames) (h : Shies Core.ident k) : Misses E X Γ (rule "IDENT") k :=
  .rule (resolves_ident hΓ) (H.misses ident_leaf flat_mem h)

theorem resolves_str : Resolves [flat] (str "STR") [flat] strLit := resolves_flat (by decide +kernel) (by simp [strLit, re])
theorem resolves_re : Resolves [flat] (str "RE") [flat] regexpLit := resolves_flat (by decide +kernel) (by simp [regexpLit, re])
theorem resolves_int : Resolves [flat] (str "INT") [flat] int := resolves_flat (by decide +kernel) (by simp [int, re])

theorem Works.str (H : Works E) (h : Lexeme strLit w) :
    Reads E X [flat] (rule "STR") k (fun ps => ∃ a, ps = [(Wbnf.str "STR", a)] ∧ Tok strLit a w) [w] :=
  H.leafRule (by decide +kernel) resolves_str str_leaf h (by decide +kernel)

theorem Works.regexp (H : Works E) (h : Lexeme regexpLit w) :
    Reads E X [flat] (rule "RE") k (fun ps => ∃ a, ps = [(Wbnf.str "RE", a)] ∧ Tok regexpLit a w) [w] :=
  H.leafRule (by decide +kernel) resolves_re re_leaf h (by decide +kernel)

theorem Works.int (H : Works E) (h : Lexeme Core.int w) :
    Reads E X [flat] (rule "INT") k (fun ps => ∃ a, ps = [(Wbnf.str "INT", a)] ∧ Tok Core.int a w) [w] :=
  H.leafRule (by decide +kernel) resolves_int int_leaf h (by decide +kernel)

/-- One part under that name, whose view is that. -/
def Is {α : Type} (view : Nat → Ast → Option α) (key : Str) (x : α) (ps : List (Str × Ast)) : Prop :=
  ∃ a, ps = [(key, a)] ∧ ∃ N, ∀ m, N ≤ m → view m a = Option.some x

end Core

end Wbnf

import Verif.Spec.Written
import Verif.Lemmas.DecEq

/-!
# The tokens of each kind
-/

namespace Wbnf

variable {w : Str}

/-- Leave the kind at hand. -/
local macro "kinds" ht:ident : tactic => `(tactic|
  first | exact absurd $ht (by decide +kernel) | (simp [Core.int, Core.ident, Core.strLit, Core.regexpLit, Core.comment, Core.re] at $ht:ident))

theorem token_int (h : Token Core.int w) : w ≠ [] ∧ ∀ c ∈ w, 48 ≤ c ∧ c ≤ 57 := by
  generalize ht : Core.int = t at h
  cases h with
  | int h1 h2 => exact ⟨h1, h2⟩
  | _ => kinds ht

theorem token_ident (h : Token Core.ident w) : w = str "@" ∨ NameText w ∨ ∃ x, w = 46 :: x ∧ NameText x := by
  generalize ht : Core.ident = t at h
  cases h with
  | anonymous => exact .inl rfl
  | name h => exact .inr (.inl h)
  | dotted h => exact .inr (.inr ⟨_, rfl, h⟩)
  | _ => kinds ht

theorem token_str (h : Token Core.strLit w) :
    (∃ q body, (q = 34 ∨ q = 39) ∧ QuotedBody q body ∧ w = q :: body ++ [q]) ∨ ∃ text, w = 96 :: doubled text ++ [96] := by
  generalize ht : Core.strLit = t at h
  cases h with
  | quoted h1 h2 => exact .inl ⟨_, _, h1, h2, rfl⟩
  | backquoted => exact .inr ⟨_, rfl⟩
  | _ => kinds ht

theorem token_regexp (h : Token Core.regexpLit w) : (∃ body, w = str "/{" ++ body ++ str "}") ∨
    (∃ c x, (c = 91 ∨ c = 46 ∨ c = 94 ∨ c = 36) ∧ w = c :: x) ∨ ∃ c x, ((65 ≤ c ∧ c ≤ 90) ∨ (97 ≤ c ∧ c ≤ 122)) ∧ w = 92 :: c :: x := by
  generalize ht : Core.regexpLit = t at h
  cases h with
  | braced => exact .inl ⟨_, rfl⟩
  | bare h => exact .inr (.inl ⟨_, _, h, rfl⟩)
  | escaped h => exact .inr (.inr ⟨_, _, h, rfl⟩)
  | _ => kinds ht

theorem token_line (h : Token Core.comment (str "//" ++ w)) : 10 ∉ w := by
  generalize ht : Core.comment = t at h
  generalize hu : str "//" ++ w = u at h
  cases h with
  | line h =>
    have e := List.append_cancel_left hu
    subst e
    exact h
  | @block k x => simp [str] at hu
  | _ => kinds ht

theorem token_comment (h : Token Core.comment w) : ∃ x, w = str "//" ++ x ∨ w = str "/*" ++ x := by
  generalize ht : Core.comment = t at h
  cases h with
  | line => exact ⟨_, .inl rfl⟩
  | @block k x => exact ⟨List.replicate k 42 ++ x ++ str "*/", .inr (by simp)⟩
  | _ => kinds ht

theorem token_path (h : Token (Core.re "[a-zA-Z0-9.:]+") w) :
    w ≠ [] ∧ ∀ c ∈ w, (46 ≤ c ∧ c ≤ 58 ∧ c ≠ 47) ∨ (65 ≤ c ∧ c ≤ 90) ∨ (97 ≤ c ∧ c ≤ 122) := by
  generalize ht : Core.re "[a-zA-Z0-9.:]+" = t at h
  cases h with
  | path h1 h2 => exact ⟨h1, h2⟩
  | _ => kinds ht

theorem token_op (h : Token (Core.re "[?*+]") w) : w = str "*" ∨ w = str "?" ∨ w = str "+" := by
  generalize ht : Core.re "[?*+]" = t at h
  cases h with
  | any => exact .inl rfl
  | opt => exact .inr (.inl rfl)
  | some => exact .inr (.inr rfl)
  | _ => kinds ht

theorem token_sep (h : Token (Core.re "<:|:>?") w) : w = str ":" ∨ w = str ":>" ∨ w = str "<:" := by
  generalize ht : Core.re "<:|:>?" = t at h
  cases h with
  | plain => exact .inl rfl
  | left => exact .inr (.inl rfl)
  | right => exact .inr (.inr rfl)
  | _ => kinds ht

theorem token_s {l : Str} (h : Token (.s l) w) : w = l := by
  generalize ht : Term.s l = t at h
  cases h with
  | lit => cases ht; rfl
  | _ => simp [Core.int, Core.ident, Core.strLit, Core.regexpLit, Core.comment, Core.re] at ht

/-! ## How tokens begin -/

/-- The kinds of tokens that are not literals. -/
def kindOf (t : Term) : Nat := ([Core.int, Core.ident, Core.strLit, Core.regexpLit, Core.comment, Core.re "[?*+]", Core.re "<:|:>?"]).idxOf t

/-- A token of that kind may have this first byte, and this second one if there is one. -/
def mayBegin : Nat → UInt8 → Option UInt8 → Bool
  | 0, c, _ => 48 ≤ c && c ≤ 57
  | 1, c, _ => c == 64 || c == 46 || c == 95 || (65 ≤ c && c ≤ 90) || (97 ≤ c && c ≤ 122)
  | 2, c, _ => c == 34 || c == 39 || c == 96
  | 3, c, d => (c == 47 && d == some 123) || c == 91 || c == 46 || c == 94 || c == 36 || c == 92
  | 4, c, d => c == 47 && (d == some 47 || d == some 42)
  | 5, c, _ => c == 42 || c == 63 || c == 43
  | 6, c, d => c == 58 || (c == 60 && d == some 58)
  | _, c, _ => (46 ≤ c && c ≤ 58 && c != 47) || (65 ≤ c && c ≤ 90) || (97 ≤ c && c ≤ 122)

/-- Such a token may have this first byte, and this second one if there is one. -/
def mayStart : Term → UInt8 → Option UInt8 → Bool
  | .s [], _, _ => false
  | .s [a], c, _ => c == a
  | .s (a :: b :: _), c, d => c == a && d == some b
  | t, c, d => mayBegin (kindOf t) c d

theorem mayStart_re {l : Str} {c : UInt8} {d : Option UInt8} {k : Nat} (h : kindOf (.re l) = k) : mayStart (.re l) c d = mayBegin k c d := by
  simp only [mayStart, h]

theorem may_int {c d} : mayStart Core.int c d = mayBegin 0 c d := mayStart_re (by decide +kernel)
theorem may_ident {c d} : mayStart Core.ident c d = mayBegin 1 c d := mayStart_re (by decide +kernel)
theorem may_str {c d} : mayStart Core.strLit c d = mayBegin 2 c d := mayStart_re (by decide +kernel)
theorem may_regexp {c d} : mayStart Core.regexpLit c d = mayBegin 3 c d := mayStart_re (by decide +kernel)
theorem may_comment {c d} : mayStart Core.comment c d = mayBegin 4 c d := mayStart_re (by decide +kernel)
theorem may_op {c d} : mayStart (Core.re "[?*+]") c d = mayBegin 5 c d := mayStart_re (by decide +kernel)
theorem may_sep {c d} : mayStart (Core.re "<:|:>?") c d = mayBegin 6 c d := mayStart_re (by decide +kernel)
theorem may_path {c d} : mayStart (Core.re "[a-zA-Z0-9.:]+") c d = mayBegin 7 c d := mayStart_re (by decide +kernel)

theorem nameText_start {x : Str} (h : NameText x) : ∃ c v, x = c :: v ∧ mayBegin 1 c v.head? = true := by
  obtain ⟨h, c, v, rfl, h'⟩ := h
  refine ⟨c, v, rfl, ?_⟩
  have := h c (by simp)
  simp [mayBegin, UInt8.le_iff_toNat_le, ← UInt8.toNat_inj] at this h' ⊢
  omega

/-- A token begins as it may. -/
theorem token_start {t : Term} (ht : t ∈ Core.leaves) (h : Token t w) : ∃ c v, w = c :: v ∧ mayStart t c v.head? = true := by
  rw [Core.leaves, List.mem_append, List.mem_map] at ht
  rcases ht with ⟨l, hl, rfl⟩ | ht
  · have := token_s h
    subst this
    have := List.all_eq_true.1 (show Core.literals.all (fun l => match str l with
      | [] => false
      | c :: v => mayStart (Core.s l) c v.head?) = true by decide +kernel) l hl
    split at this
    · cases this
    · next c v e => exact ⟨c, v, e, this⟩
  · simp only [Core.regexps, List.mem_cons, List.not_mem_nil, or_false] at ht
    rcases ht with rfl | rfl | rfl | rfl | rfl | rfl | rfl | rfl
    · obtain ⟨x, rfl | rfl⟩ := token_comment h <;> exact ⟨_, _, rfl, by rw [may_comment]; rfl⟩
    · rcases token_ident h with rfl | h | ⟨x, rfl, h⟩
      · exact ⟨_, _, rfl, by rw [may_ident]; rfl⟩
      · obtain ⟨c, v, rfl, h'⟩ := nameText_start h
        exact ⟨_, _, rfl, by rw [may_ident, h']⟩
      · exact ⟨_, _, rfl, by rw [may_ident]; rfl⟩
    · obtain ⟨h1, h2⟩ := token_int h
      cases w with
      | nil => exact absurd rfl h1
      | cons c v => exact ⟨c, v, rfl, by rw [may_int]; simpa [mayBegin] using h2 c (by simp)⟩
    · rcases token_regexp h with ⟨x, rfl⟩ | ⟨c, x, h', rfl⟩ | ⟨c, x, h', rfl⟩
      · exact ⟨47, 123 :: (x ++ str "}"), rfl, by rw [may_regexp]; simp [mayBegin]⟩
      · refine ⟨c, x, rfl, ?_⟩
        rw [may_regexp]
        rcases h' with e | e | e | e <;> simp [mayBegin, e]
      · exact ⟨_, _, rfl, by rw [may_regexp]; simp [mayBegin]⟩
    · rcases token_str h with ⟨q, body, rfl | rfl, h, rfl⟩ | ⟨x, rfl⟩ <;> exact ⟨_, _, rfl, by rw [may_str]; rfl⟩
    · obtain ⟨h1, h2⟩ := token_path h
      cases w with
      | nil => exact absurd rfl h1
      | cons c v => exact ⟨c, v, rfl, by rw [may_path]; simpa [mayBegin, and_assoc, or_assoc] using h2 c (by simp)⟩
    · rcases token_op h with rfl | rfl | rfl <;> exact ⟨_, _, rfl, by rw [may_op]; rfl⟩
    · rcases token_sep h with rfl | rfl | rfl <;> exact ⟨_, _, rfl, by rw [may_sep]; rfl⟩

/-- For all bytes. -/
theorem forall_byte {p : UInt8 → Bool} (h : (List.range 256).all (fun n => p (UInt8.ofNat n)) = true) (c : UInt8) : p c = true := by
  have := List.all_eq_true.1 h c.toNat (List.mem_range.2 c.toNat_lt)
  simpa using this

def whites : List UInt8 := [9, 10, 12, 13, 32]

theorem white_iff {c : UInt8} : White [c] ↔ c ∈ whites := by
  simp [White, whites]

theorem mayBegin_white {k : Nat} {c : UInt8} {d : Option UInt8} (h : mayBegin k c d = true) : c ∉ whites := by
  intro hc
  simp only [whites, List.mem_cons, List.not_mem_nil, or_false] at hc
  unfold mayBegin at h
  rcases hc with rfl | rfl | rfl | rfl | rfl <;> split at h <;> simp (decide := true) at h

theorem mayBegin_short {k : Nat} {c : UInt8} {d : Option UInt8} (h : mayBegin k c none = true) : mayBegin k c d = true := by
  unfold mayBegin at h ⊢
  split at h
  case h_4 => simp at h ⊢; rcases h with (((h | h) | h) | h) | h <;> simp [h]
  all_goals simp_all

theorem mayBegin_pair {k : Nat} {c b : UInt8} (hb : (c, b) ∉ tokenPairs) (h : mayBegin k c (some b) = true) : mayBegin k c none = true := by
  simp only [tokenPairs, List.mem_cons, Prod.mk.injEq, List.not_mem_nil, or_false, not_or] at hb
  unfold mayBegin at h ⊢
  split at h <;> simp_all
  · rcases h with ((((h | h) | h) | h) | h) | h <;> simp_all
  · rcases h with h | h <;> simp_all

theorem lit_start {l : String} (hl : l ∈ Core.literals) : ∃ a x, str l = a :: x ∧ a ∉ whites ∧ ∀ b, x.head? = some b → b ∉ whites := by
  have := List.all_eq_true.1 (show Core.literals.all (fun l => match str l with
    | [] => false
    | [a] => !whites.contains a
    | a :: b :: _ => !whites.contains a && !whites.contains b) = true by decide +kernel) l hl
  split at this
  · cases this
  · next a e => exact ⟨a, [], e, by simpa using this, by simp⟩
  · next a b x e => exact ⟨a, b :: x, e, by simp at this; exact this.1, by simp at this ⊢; exact this.2⟩

variable {t : Term} {c : UInt8} {d : Option UInt8}

/-- What holds of literals and of all the others. -/
theorem leaf_cases {P : Term → Prop} (ht : t ∈ Core.leaves) (hs : ∀ l ∈ Core.literals, P (Core.s l)) (hr : ∀ l, P (.re l)) : P t := by
  rw [Core.leaves, List.mem_append, List.mem_map] at ht
  rcases ht with ⟨l, hl, rfl⟩ | ht
  · exact hs l hl
  · simp only [Core.regexps, List.mem_cons, List.not_mem_nil, or_false] at ht
    rcases ht with rfl | rfl | rfl | rfl | rfl | rfl | rfl | rfl <;> exact hr _

theorem mayStart_white (ht : t ∈ Core.leaves) : mayStart t c d = true → c ∉ whites := by
  refine leaf_cases (P := fun t => mayStart t c d = true → c ∉ whites) ht (fun l hl h => ?_) fun l h => mayBegin_white h
  obtain ⟨a, x, e, ha, _⟩ := lit_start hl
  rw [Core.s, e] at h
  have : c = a := by cases x <;> simp [mayStart] at h <;> simp [h]
  rw [this]; exact ha

theorem mayStart_short (ht : t ∈ Core.leaves) : mayStart t c none = true → mayStart t c d = true := by
  refine leaf_cases (P := fun t => mayStart t c none = true → mayStart t c d = true) ht (fun l hl h => ?_) fun l h => mayBegin_short h
  obtain ⟨a, x, e, ha, _⟩ := lit_start hl
  rw [Core.s, e] at h ⊢
  cases x <;> simp [mayStart] at h ⊢
  exact h

theorem mayStart_pair (ht : t ∈ Core.leaves) {b : UInt8} (hb : (c, b) ∉ tokenPairs) : mayStart t c (some b) = true → mayStart t c none = true := by
  refine leaf_cases (P := fun t => mayStart t c (some b) = true → mayStart t c none = true) ht (fun l hl h => ?_) fun l h => mayBegin_pair hb h
  have := List.all_eq_true.1 (show Core.literals.all (fun l => match str l with
    | a :: b :: _ => decide ((a, b) ∈ tokenPairs)
    | _ => true) = true by decide +kernel) l hl
  obtain ⟨a, x, e, ha, hx⟩ := lit_start hl
  rw [e] at this
  rw [Core.s, e] at h ⊢
  cases x with
  | nil => simpa [mayStart] using h
  | cons b' x =>
    simp [mayStart] at h
    obtain ⟨rfl, rfl⟩ := h
    exact absurd (of_decide_eq_true this) hb

theorem Lexeme.first (ht : t ∈ Core.leaves) (h : Lexeme t w) : ∃ b v, w = b :: v ∧ ¬ White [b] := by
  obtain ⟨c, v, rfl, h'⟩ := token_start ht h.1
  exact ⟨c, v, rfl, by rw [white_iff]; exact mayStart_white ht h'⟩

/-! Regexps without braces -/

theorem unit_head {u : Str} (h : PatternUnit u) : ∃ c v, u = c :: v ∧ c ∈ str "[\\^$." := by
  cases h with
  | cls => exact ⟨_, _, rfl, by decide⟩
  | letter => exact ⟨_, _, rfl, by decide⟩
  | @sign e h =>
    have : e = 46 ∨ e = 94 ∨ e = 36 := by simpa [str] using h
    exact ⟨_, _, rfl, by rcases this with rfl | rfl | rfl <;> decide⟩

theorem bare_head {w : Str} (h : BarePattern w) : ∃ c v, w = c :: v ∧ c ∈ str "[\\^$." := by
  cases h with
  | one h _ =>
    obtain ⟨c, v, rfl, h'⟩ := unit_head h
    exact ⟨c, _, rfl, h'⟩
  | more h _ _ =>
    obtain ⟨c, v, rfl, h'⟩ := unit_head h
    exact ⟨c, _, rfl, h'⟩

theorem patternText_head (h : PatternText w) : ∃ c v, w = c :: v ∧ c ∈ str "/[\\^$" := by
  rcases h with ⟨body, _, rfl⟩ | ⟨h, h0⟩
  · exact ⟨_, _, rfl, by decide⟩
  · obtain ⟨c, v, rfl, hc⟩ := bare_head h
    have : c = 91 ∨ c = 92 ∨ c = 94 ∨ c = 36 ∨ c = 46 := by simpa [str] using hc
    refine ⟨c, v, rfl, ?_⟩
    rcases this with rfl | rfl | rfl | rfl | rfl
    · decide
    · decide
    · decide
    · decide
    · exact absurd rfl h0

end Wbnf

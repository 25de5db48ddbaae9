import Verif.Examples.Quote
import Verif.Spec.Lexemes

/-! The example engine on the leaves of the grammar of grammars: what it reports are tokens. -/

namespace Wbnf.Regex

deriving instance DecidableEq for Re

/-- The texts a regexp can match, whatever is around them. -/
inductive Lang : Re → Str → Prop
  | empty : Lang .empty []
  | cls {neg rs c} : (inRanges c rs != neg) = true → Lang (.cls neg rs) [c]
  | cat {a b x y} : Lang a x → Lang b y → Lang (.cat a b) (x ++ y)
  | left {a b x} : Lang a x → Lang (.alt a b) x
  | right {a b x} : Lang b x → Lang (.alt a b) x
  | done {g a} : Lang (.star g a) []
  | more {g a x y} : Lang a x → Lang (.star g a) y → Lang (.star g a) (x ++ y)
  | group {i a x} : Lang a x → Lang (.group i a) x
  | bot : Lang .bot []
  | eol : Lang .eol []

/-- It has no groups. -/
def Re.plain : Re → Bool
  | .cat a b => a.plain && b.plain
  | .alt a b => a.plain && b.plain
  | .star _ a => a.plain
  | .group _ _ => false
  | _ => true

/-- Having read `w`. -/
def Reading (r : Re) (st : St) (w : Str) (s : St) : Prop :=
  st.rest = w ++ s.rest ∧ s.pos = st.pos + w.length ∧ Lang r w ∧ (r.plain = true → s.caps = st.caps) ∧ s.caps.length = st.caps.length

theorem run_lang : ∀ {n r st k st'}, run n r st k = some st' → ∃ w s, Reading r st w s ∧ k s = some st' := by
  intro n
  induction n with
  | zero => intro r st k st' h; simp [run] at h
  | succ n ih =>
    intro r st k st' h
    cases r with
    | empty => exact ⟨[], st, ⟨rfl, rfl, .empty, fun _ => rfl, rfl⟩, h⟩
    | cls neg rs =>
      rw [run_cls] at h
      split at h
      · cases h
      · next c s hs =>
        split at h
        · next hc => exact ⟨[c], ⟨s, st.pos + 1, st.caps⟩, ⟨by simp [hs], rfl, .cls hc, fun _ => rfl, rfl⟩, h⟩
        · cases h
    | cat a b =>
      rw [run_cat] at h
      obtain ⟨w, s, ⟨h1, h2, h3, h4, h6⟩, h5⟩ := ih h
      obtain ⟨w', s', ⟨g1, g2, g3, g4, g6⟩, g5⟩ := ih h5
      refine ⟨w ++ w', s', ⟨by simp [h1, g1], by simp [g2, h2, Nat.add_assoc], .cat h3 g3, fun hp => ?_, by rw [g6, h6]⟩, g5⟩
      simp only [Re.plain, Bool.and_eq_true] at hp
      rw [g4 hp.2, h4 hp.1]
    | alt a b =>
      simp only [run, Option.or_eq_some_iff] at h
      rcases h with h | ⟨_, h⟩
      · obtain ⟨w, s, ⟨h1, h2, h3, h4, h6⟩, h5⟩ := ih h
        refine ⟨w, s, ⟨h1, h2, .left h3, fun hp => h4 ?_, h6⟩, h5⟩
        simp only [Re.plain, Bool.and_eq_true] at hp
        exact hp.1
      · obtain ⟨w, s, ⟨h1, h2, h3, h4, h6⟩, h5⟩ := ih h
        refine ⟨w, s, ⟨h1, h2, .right h3, fun hp => h4 ?_, h6⟩, h5⟩
        simp only [Re.plain, Bool.and_eq_true] at hp
        exact hp.2
    | star g a =>
      have again : ∀ {st'}, (run n a st fun st' => if st'.pos = st.pos then none else run n (.star g a) st' k) = some st' →
          ∃ w s, Reading (.star g a) st w s ∧ k s = some st' := by
        intro st' h
        obtain ⟨w, s, ⟨h1, h2, h3, h4, h6⟩, h5⟩ := ih h
        split at h5
        · cases h5
        · obtain ⟨w', s', ⟨g1, g2, g3, g4, g6⟩, g5⟩ := ih h5
          exact ⟨w ++ w', s', ⟨by simp [h1, g1], by simp [g2, h2, Nat.add_assoc], .more h3 g3,
            fun hp => by rw [g4 hp, h4 hp], by rw [g6, h6]⟩, g5⟩
      have stop : ∀ {st'}, k st = some st' → ∃ w s, Reading (.star g a) st w s ∧ k s = some st' :=
        fun h => ⟨[], st, ⟨rfl, rfl, .done, fun _ => rfl, rfl⟩, h⟩
      simp only [run] at h
      split at h
      · rw [Option.or_eq_some_iff] at h
        exact h.elim again fun h => stop h.2
      · rw [Option.or_eq_some_iff] at h
        exact h.elim stop fun h => again h.2
    | group i a =>
      rw [run_group] at h
      obtain ⟨w, s, ⟨h1, h2, h3, _, h6⟩, h5⟩ := ih h
      exact ⟨w, ⟨s.rest, s.pos, s.caps.set i (st.pos, s.pos)⟩, ⟨h1, h2, .group h3, fun hp => by simp [Re.plain] at hp, by simpa using h6⟩, h5⟩
    | bot =>
      simp only [run] at h
      split at h
      · exact ⟨[], st, ⟨rfl, rfl, .bot, fun _ => rfl, rfl⟩, h⟩
      · cases h
    | eol =>
      simp only [run] at h
      split at h
      · exact ⟨[], st, ⟨rfl, rfl, .eol, fun _ => rfl, rfl⟩, h⟩
      · cases h

/-- White space as the engine has it. -/
def spaceCls : List (UInt8 × UInt8) := [(9, 10), (12, 13), (32, 32)]

/-- The regexp of a leaf without the white space around it. -/
def inner (p : Str) : Option Re :=
  match read p with
  | some (.cat .empty (.cat .bot (.cat (.star true (.cls false s)) (.cat (.cat (.group 0 r) .empty) (.cat (.star true (.cls false s')) .empty)))), 1) =>
    if s = spaceCls ∧ s' = spaceCls then some r else none
  | _ => none

/-! ### What the regexps match -/

theorem lang_empty {w : Str} : Lang .empty w ↔ w = [] := ⟨fun h => by cases h; rfl, fun h => h ▸ .empty⟩

theorem lang_cls {neg rs} {w : Str} : Lang (.cls neg rs) w ↔ ∃ c, w = [c] ∧ (inRanges c rs != neg) = true :=
  ⟨fun h => by cases h with | cls h => exact ⟨_, rfl, h⟩, fun ⟨_, e, h⟩ => e ▸ .cls h⟩

theorem lang_byte {b : UInt8} {w : Str} : Lang (.cls false [(b, b)]) w ↔ w = [b] := by
  rw [lang_cls]
  constructor
  · rintro ⟨c, rfl, h⟩
    simp [inRanges] at h
    rw [UInt8.le_antisymm h.1 h.2]
  · rintro rfl
    exact ⟨b, rfl, by simp [inRanges]⟩

theorem lang_cat {a b : Re} {w : Str} : Lang (.cat a b) w ↔ ∃ x y, w = x ++ y ∧ Lang a x ∧ Lang b y :=
  ⟨fun h => by cases h with | cat h1 h2 => exact ⟨_, _, rfl, h1, h2⟩, fun ⟨_, _, e, h1, h2⟩ => e ▸ .cat h1 h2⟩

theorem lang_alt {a b : Re} {w : Str} : Lang (.alt a b) w ↔ Lang a w ∨ Lang b w :=
  ⟨fun h => by cases h with | left h => exact .inl h | right h => exact .inr h, fun h => h.elim .left .right⟩

theorem lang_eol {w : Str} : Lang .eol w ↔ w = [] := ⟨fun h => by cases h; rfl, fun h => h ▸ .eol⟩

/-- A byte, then more. -/
theorem lang_cons {b : UInt8} {r : Re} {w : Str} : Lang (.cat (.cls false [(b, b)]) r) w ↔ ∃ y, w = b :: y ∧ Lang r y := by
  simp only [lang_cat, lang_byte]
  constructor
  · rintro ⟨x, y, rfl, rfl, h⟩; exact ⟨y, rfl, h⟩
  · rintro ⟨y, rfl, h⟩; exact ⟨[b], y, rfl, rfl, h⟩

theorem lang_last {r : Re} {w : Str} : Lang (.cat r .empty) w ↔ Lang r w := by
  simp only [lang_cat, lang_empty]
  constructor
  · rintro ⟨x, y, rfl, h, rfl⟩; simpa using h
  · intro h; exact ⟨w, [], by simp, h, rfl⟩

theorem lang_star {g : Bool} {a : Re} {w : Str} {P : Str → Prop} (h0 : P []) (h1 : ∀ x y, Lang a x → P y → P (x ++ y))
    (h : Lang (.star g a) w) : P w := by
  generalize hr : Re.star g a = r at h
  induction h with
  | done => exact h0
  | more hx _ _ ih => cases hr; exact h1 _ _ hx (ih rfl)
  | _ => cases hr

/-- Bytes of a class. -/
theorem lang_bytes {g : Bool} {neg rs} {w : Str} (h : Lang (.star g (.cls neg rs)) w) : ∀ c ∈ w, (inRanges c rs != neg) = true := by
  refine lang_star (P := fun w => ∀ c ∈ w, (inRanges c rs != neg) = true) (by simp) ?_ h
  intro x y hx hy c hc
  obtain ⟨d, rfl, hd⟩ := lang_cls.1 hx
  rw [List.mem_append, List.mem_singleton] at hc
  rcases hc with rfl | hc
  · exact hd
  · exact hy c hc

/-- At least one byte of a class. -/
theorem lang_some {g : Bool} {neg rs} {w : Str} (h : Lang (.cat (.cls neg rs) (.star g (.cls neg rs))) w) :
    w ≠ [] ∧ ∀ c ∈ w, (inRanges c rs != neg) = true := by
  obtain ⟨x, y, rfl, hx, hy⟩ := lang_cat.1 h
  obtain ⟨d, rfl, hd⟩ := lang_cls.1 hx
  refine ⟨by simp, fun c hc => ?_⟩
  rw [List.mem_append, List.mem_singleton] at hc
  rcases hc with rfl | hc
  · exact hd
  · exact lang_bytes hy c hc

theorem lang_lit {l w : Str} (h : Lang (litRe l) w) : w = l := by
  induction l generalizing w with
  | nil => exact lang_empty.1 h
  | cons c l ih =>
    obtain ⟨y, rfl, hy⟩ := lang_cons.1 h
    rw [ih hy]

theorem inRanges_iff {c : UInt8} {rs} : inRanges c rs = true ↔ ∃ r ∈ rs, r.1 ≤ c ∧ c ≤ r.2 := by
  simp [inRanges]

theorem white_of {g : Bool} {w : Str} (h : Lang (.star g (.cls false spaceCls)) w) : White w := by
  intro c hc
  have := lang_bytes h c hc
  simp [inRanges, spaceCls, UInt8.le_iff_toNat_le, ← UInt8.toNat_inj] at this ⊢
  omega

/-- What is reported of a leaf. -/
theorem find_inner {p x : Str} {locs : List (Int × Int)} {r : Re} (hi : inner p = some r) (h : regexp.find p x = some locs) :
    ∃ before text after rest : Str, x = before ++ text ++ after ++ rest ∧ White before ∧ White after ∧ Lang r text ∧
      locs.head? = some (0, ((before.length + text.length + after.length : Nat) : Int)) ∧
      locs.getLast? = some ((before.length : Int), ((before.length + text.length : Nat) : Int)) := by
  unfold inner at hi
  simp only [regexp, find] at h
  split at hi
  · next hr =>
    split at hi
    · next hs =>
      obtain ⟨rfl, rfl⟩ := hs
      cases hi
      rw [hr] at h
      simp only at h
      obtain ⟨f, hfu⟩ : ∃ f, 4 * (p.length + 2) * (x.length + 2) = f + 8 := by
        have : 4 * 2 * 2 ≤ 4 * (p.length + 2) * (x.length + 2) :=
          Nat.mul_le_mul (Nat.mul_le_mul_left _ (by omega)) (by omega)
        exact ⟨4 * (p.length + 2) * (x.length + 2) - 8, by omega⟩
      rw [hfu, search_bot] at h
      split at h
      · next st hrun =>
        rw [run_cat] at hrun
        obtain ⟨w1, s1, ⟨a1, a2, a3, a4, a6⟩, a5⟩ := run_lang hrun
        rw [run_cat, run_cat, run_group] at a5
        obtain ⟨w2, s2, ⟨b1, b2, b3, _, b6⟩, b5⟩ := run_lang a5
        obtain ⟨w3, s3, ⟨c1, c2, c3, c4, _⟩, c5⟩ := run_lang b5
        obtain ⟨w4, s4, ⟨d1, d2, d3, d4, _⟩, d5⟩ := run_lang c5
        cases d5
        simp only [Option.some.injEq] at h
        subst h
        have hc := d4 (by simp [Re.plain])
        rw [c4 (by simp [Re.plain])] at hc
        simp only [List.length_replicate] at a6
        rw [a6] at b6
        have := lang_empty.1 c3
        subst this
        rw [lang_last] at d3
        refine ⟨w1, w2, w4, st.rest, ?_, white_of a3, white_of d3, b3, ?_, ?_⟩
        · simp only [List.nil_append] at a1 c1
          rw [a1, b1, c1, d1]
          simp
        · simp only [List.length_nil, Nat.add_zero] at a2 c2
          simp [d2, c2, b2, a2]
        · simp only at hc a2
          rw [hc]
          match hl : s2.caps, b6 with
          | [g], _ => simp [b2, a2]
      · cases h
    · cases hi
  · cases hi

/-! ### The tokens -/

open Core (own pattern)

def digitsRe : Re := .cat (.cat (.cls false [(48, 57)]) (.star true (.cls false [(48, 57)]))) .empty

def identRe : Re := .alt (.cat (.cls false [(64, 64)]) .empty)
  (.cat (.alt (.cat (.cls false [(46, 46)]) .empty) .empty) (.cat (.cls false [(65, 90), (97, 122), (95, 95)])
    (.cat (.star true (.cls false [(48, 57), (65, 90), (95, 95), (97, 122)])) .empty)))

def pathRe : Re := .cat (.cat (.cls false [(97, 122), (65, 90), (48, 57), (46, 46), (58, 58)])
  (.star true (.cls false [(97, 122), (65, 90), (48, 57), (46, 46), (58, 58)]))) .empty

def opRe : Re := .cat (.cls false [(63, 63), (42, 42), (43, 43)]) .empty

def sepRe : Re := .alt (.cat (.cls false [(60, 60)]) (.cat (.cls false [(58, 58)]) .empty))
  (.cat (.cls false [(58, 58)]) (.cat (.alt (.cat (.cls false [(62, 62)]) .empty) .empty) .empty))

def commentRe : Re := .alt
  (.cat (.cls false [(47, 47)]) (.cat (.cls false [(47, 47)]) (.cat (.star true (.cls true [(10, 10)])) (.cat .eol .empty))))
  (.cat (.cat (.cls false [(47, 47)]) (.cat (.cls false [(42, 42)]) (.cat
    (.alt (.cat (.cls true [(42, 42)]) .empty)
      (.cat (.cat (.cls false [(42, 42)]) (.star true (.cls false [(42, 42)]))) (.cat (.cls true [(42, 42), (47, 47)]) .empty)))
    (.cat (.cls false [(42, 42)]) (.cat (.cls false [(47, 47)]) .empty))))) .empty)

def quotedRe (q : UInt8) : Re := .cat (.cls false [(q, q)]) (.cat
  (.star true (.alt (.cat (.cls false [(92, 92)]) (.cat (.cls true [(10, 10)]) .empty)) (.cat (.cls true [(92, 92), (q, q)]) .empty)))
  (.cat (.cls false [(q, q)]) .empty))

def strRe : Re := .alt (quotedRe 34) (.alt (quotedRe 39) (.cat (.cls false [(96, 96)]) (.cat
  (.star true (.alt (.cat (.cls false [(96, 96)]) (.cat (.cls false [(96, 96)]) .empty)) (.cat (.cls true [(96, 96)]) .empty)))
  (.cat (.cls false [(96, 96)]) .empty))))

/-- Each text it matches starts with `[`, `.`, `^`, `$` or a backslash and a letter. -/
def startsRe : Re → Bool
  | .cat (.cls false [(92, 92)]) (.cat (.cls false rs) _) => rs.all fun r => decide (r = (97, 122) ∨ r = (65, 90) ∨ r = (112, 112) ∨ r = (80, 80))
  | .cat (.cls false rs) _ => rs.all fun r => decide (r = (91, 91) ∨ r = (46, 46) ∨ r = (94, 94) ∨ r = (36, 36))
  | .cat a _ => startsRe a
  | .alt a b => startsRe a && startsRe b
  | _ => false

/-- In braces, or as `startsRe` says. -/
def regexpRe : Re → Bool
  | .alt (.cat (.cls false [(47, 47)]) (.cat (.cls false [(123, 123)]) (.cat _ (.cat (.cls false [(125, 125)]) .empty)))) b => startsRe b
  | _ => false

theorem inner_literals : (Core.literals.all fun l => inner (pattern (own (Core.s l))) = some (litRe (str l))) = true := by decide +kernel
theorem inner_comment : inner (pattern (own Core.comment)) = some commentRe := by decide +kernel
theorem inner_ident : inner (pattern (own Core.ident)) = some identRe := by decide +kernel
theorem inner_int : inner (pattern (own Core.int)) = some digitsRe := by decide +kernel
theorem inner_str : inner (pattern (own Core.strLit)) = some strRe := by decide +kernel
theorem inner_path : inner (pattern (own (Core.re "[a-zA-Z0-9.:]+"))) = some pathRe := by decide +kernel
theorem inner_op : inner (pattern (own (Core.re "[?*+]"))) = some opRe := by decide +kernel
theorem inner_sep : inner (pattern (own (Core.re "<:|:>?"))) = some sepRe := by decide +kernel
theorem inner_regexp : (inner (pattern (own Core.regexpLit))).any regexpRe = true := by decide +kernel

theorem tok_int {w : Str} (h : Lang digitsRe w) : Token Core.int w := by
  obtain ⟨h1, h2⟩ := lang_some (lang_last.1 h)
  exact .int h1 fun c hc => by simpa [inRanges] using h2 c hc

theorem tok_path {w : Str} (h : Lang pathRe w) : Token (Core.re "[a-zA-Z0-9.:]+") w := by
  obtain ⟨h1, h2⟩ := lang_some (lang_last.1 h)
  refine .path h1 fun c hc => ?_
  have := h2 c hc
  simp [inRanges, UInt8.le_iff_toNat_le, ← UInt8.toNat_inj] at this ⊢
  omega

theorem tok_op {w : Str} (h : Lang opRe w) : Token (Core.re "[?*+]") w := by
  obtain ⟨c, rfl, hc⟩ := lang_cls.1 (lang_last.1 h)
  have : c = 63 ∨ c = 42 ∨ c = 43 := by
    simp [inRanges, UInt8.le_iff_toNat_le, ← UInt8.toNat_inj] at hc ⊢
    omega
  rcases this with rfl | rfl | rfl
  · exact .opt
  · exact .any
  · exact .some

theorem tok_sep {w : Str} (h : Lang sepRe w) : Token (Core.re "<:|:>?") w := by
  simp only [sepRe, lang_alt, lang_cons, lang_last, lang_byte, lang_empty] at h
  rcases h with ⟨y, rfl, rfl⟩ | ⟨y, rfl, rfl | rfl⟩
  · exact .right
  · exact .left
  · exact .plain

theorem tok_ident {w : Str} (h : Lang identRe w) : Token Core.ident w := by
  simp only [identRe, lang_alt, lang_last, lang_byte] at h
  rcases h with rfl | h
  · exact .anonymous
  · obtain ⟨x, y, rfl, hx, hy⟩ := lang_cat.1 h
    have hy : NameText y := by
      obtain ⟨u, v, rfl, hu, hv⟩ := lang_cat.1 hy
      obtain ⟨c, rfl, hc⟩ := lang_cls.1 hu
      have hv := lang_bytes (lang_last.1 hv)
      refine ⟨?_, c, v, rfl, ?_⟩
      · intro d hd
        rw [List.mem_append, List.mem_singleton] at hd
        rcases hd with rfl | hd
        · simp [inRanges, UInt8.le_iff_toNat_le, ← UInt8.toNat_inj] at hc ⊢
          omega
        · have := hv d hd
          simp [inRanges, UInt8.le_iff_toNat_le, ← UInt8.toNat_inj] at this ⊢
          omega
      · simp [inRanges, UInt8.le_iff_toNat_le] at hc ⊢
        omega
    simp only [lang_alt, lang_last, lang_byte, lang_empty] at hx
    rcases hx with rfl | rfl
    · exact .dotted hy
    · exact .name hy

theorem tok_comment {w : Str} (h : Lang commentRe w) : Token Core.comment w := by
  simp only [commentRe, lang_alt, lang_last, lang_cons] at h
  rcases h with ⟨_, rfl, x, rfl, h⟩ | ⟨_, rfl, x, rfl, h⟩
  · obtain ⟨x, y, rfl, hx, hy⟩ := lang_cat.1 h
    rw [lang_last, lang_eol] at hy
    subst hy
    rw [List.append_nil]
    refine .line (x := x) fun hm => ?_
    simpa [inRanges] using lang_bytes hx 10 hm
  · obtain ⟨x, y, rfl, hx, hy⟩ := lang_cat.1 h
    simp only [lang_cons, lang_last, lang_byte] at hy
    obtain ⟨_, rfl, rfl⟩ := hy
    have : ∃ k c, x = List.replicate k 42 ++ [c] ∧ c ≠ 42 := by
      rw [lang_alt, lang_last] at hx
      rcases hx with hx | hx
      · obtain ⟨c, rfl, hc⟩ := lang_cls.1 hx
        exact ⟨0, c, rfl, by rintro rfl; simp [inRanges] at hc⟩
      · obtain ⟨u, v, rfl, hu, hv⟩ := lang_cat.1 hx
        obtain ⟨c, rfl, hc⟩ := lang_cls.1 (lang_last.1 hv)
        refine ⟨u.length, c, ?_, by rintro rfl; simp [inRanges] at hc⟩
        rw [List.eq_replicate_of_mem (l := u) (a := 42)]
        · simp
        · intro d hd
          have := (lang_some hu).2 d hd
          simp [inRanges] at this
          exact UInt8.le_antisymm this.2 this.1
    obtain ⟨k, c, rfl, hc⟩ := this
    have := Token.block (k := k) (x := [c]) (by simp) (by simp) (by simpa using Ne.symm hc)
    simpa [str] using this

theorem body_quoted {q : UInt8} {w : Str} (h : Lang (.star true (.alt (.cat (.cls false [(92, 92)]) (.cat (.cls true [(10, 10)]) .empty))
    (.cat (.cls true [(92, 92), (q, q)]) .empty))) w) : QuotedBody q w := by
  refine lang_star (P := QuotedBody q) .nil ?_ h
  intro x y hx hy
  simp only [lang_alt, lang_cons, lang_last, lang_cls] at hx
  rcases hx with ⟨_, rfl, c, rfl, hc⟩ | ⟨c, rfl, hc⟩
  · refine .escape ?_ hy
    rintro rfl
    simp [inRanges] at hc
  · refine .plain ?_ ?_ hy
    · rintro rfl
      simp [inRanges] at hc
    · rintro rfl
      simp [inRanges] at hc

theorem tok_quoted {q : UInt8} {w : Str} (hq : q = 34 ∨ q = 39) (h : Lang (quotedRe q) w) : Token Core.strLit w := by
  obtain ⟨_, rfl, h'⟩ := lang_cons.1 h
  obtain ⟨x, y, rfl, hx, hy⟩ := lang_cat.1 h'
  rw [lang_last, lang_byte] at hy
  subst hy
  exact .quoted hq (body_quoted hx)

theorem tok_str {w : Str} (h : Lang strRe w) : Token Core.strLit w := by
  simp only [strRe, lang_alt] at h
  rcases h with h | h | h
  · exact tok_quoted (.inl rfl) h
  · exact tok_quoted (.inr rfl) h
  · obtain ⟨_, rfl, h'⟩ := lang_cons.1 h
    obtain ⟨x, y, rfl, hx, hy⟩ := lang_cat.1 h'
    rw [lang_last, lang_byte] at hy
    subst hy
    have : ∃ t, x = doubled t := by
      refine lang_star (P := fun x => ∃ t, x = doubled t) ⟨[], rfl⟩ ?_ hx
      rintro x y hx ⟨t, rfl⟩
      simp only [lang_alt, lang_cons, lang_last, lang_byte] at hx
      rw [lang_cls] at hx
      rcases hx with ⟨_, rfl, rfl⟩ | ⟨c, rfl, hc⟩
      · exact ⟨96 :: t, by simp [doubled]⟩
      · refine ⟨c :: t, ?_⟩
        have : c ≠ 96 := by rintro rfl; simp [inRanges] at hc
        simp [doubled, this]
    obtain ⟨t, rfl⟩ := this
    exact .backquoted

/-- The start of a regexp without braces. -/
def BareStart (w : Str) : Prop :=
  (∃ c x, w = c :: x ∧ (c = 91 ∨ c = 46 ∨ c = 94 ∨ c = 36)) ∨ ∃ c x, w = 92 :: c :: x ∧ ((65 ≤ c ∧ c ≤ 90) ∨ (97 ≤ c ∧ c ≤ 122))

theorem starts_of {r : Re} (hr : startsRe r = true) : ∀ {w : Str}, Lang r w → BareStart w := by
  fun_induction startsRe r with
  | case1 rs b =>
    intro w h
    obtain ⟨_, rfl, h'⟩ := lang_cons.1 h
    obtain ⟨x, y, rfl, hx, _⟩ := lang_cat.1 h'
    obtain ⟨c, rfl, hc⟩ := lang_cls.1 hx
    refine .inr ⟨c, y, rfl, ?_⟩
    obtain ⟨r, hm, h1, h2⟩ := inRanges_iff.1 (by simpa using hc)
    have := List.all_eq_true.1 hr r hm
    simp only [decide_eq_true_eq] at this
    rcases this with rfl | rfl | rfl | rfl
    · exact .inr ⟨h1, h2⟩
    · exact .inl ⟨h1, h2⟩
    all_goals
      simp [UInt8.le_iff_toNat_le] at h1 h2 ⊢
      omega
  | case2 rs b =>
    intro w h
    obtain ⟨x, y, rfl, hx, _⟩ := lang_cat.1 h
    obtain ⟨c, rfl, hc⟩ := lang_cls.1 hx
    refine .inl ⟨c, y, rfl, ?_⟩
    obtain ⟨r, hm, h1, h2⟩ := inRanges_iff.1 (by simpa using hc)
    have := List.all_eq_true.1 hr r hm
    simp only [decide_eq_true_eq] at this
    rcases this with rfl | rfl | rfl | rfl
    all_goals
      simp [UInt8.le_iff_toNat_le, ← UInt8.toNat_inj] at h1 h2 ⊢
      omega
  | case3 a b _ _ ih =>
    intro w h
    obtain ⟨x, y, rfl, hx, _⟩ := lang_cat.1 h
    rcases ih hr hx with ⟨c, x, rfl, hc⟩ | ⟨c, x, rfl, hc⟩
    · exact .inl ⟨c, x ++ y, rfl, hc⟩
    · exact .inr ⟨c, x ++ y, rfl, hc⟩
  | case4 a b iha ihb =>
    intro w h
    simp only [Bool.and_eq_true] at hr
    rcases lang_alt.1 h with h | h
    · exact iha hr.1 h
    · exact ihb hr.2 h
  | case5 => cases hr

theorem tok_regexp {r : Re} {w : Str} (hr : regexpRe r = true) (h : Lang r w) : Token Core.regexpLit w := by
  unfold regexpRe at hr
  split at hr
  · rcases lang_alt.1 h with h | h
    · obtain ⟨_, rfl, h1⟩ := lang_cons.1 h
      obtain ⟨_, rfl, h2⟩ := lang_cons.1 h1
      obtain ⟨x, y, rfl, hx, hy⟩ := lang_cat.1 h2
      rw [lang_last, lang_byte] at hy
      subst hy
      exact .braced (body := x)
    · rcases starts_of hr h with ⟨c, x, rfl, hc⟩ | ⟨c, x, rfl, hc⟩
      · exact .bare hc
      · exact .escaped hc
  · cases hr

/-- The example engine reads tokens. -/
theorem engineReads : Core.EngineReads regexp := by
  intro t ht x locs hf
  have go : ∀ {r}, inner (pattern (own t)) = some r → (∀ {w}, Lang r w → Token t w) → ∃ before text after rest : Str,
      x = before ++ text ++ after ++ rest ∧ White before ∧ White after ∧ Token t text ∧
      locs.head? = some (0, ((before.length + text.length + after.length : Nat) : Int)) ∧
      locs.getLast? = some ((before.length : Int), ((before.length + text.length : Nat) : Int)) := by
    intro r hr h
    obtain ⟨b, w, a, z, h1, h2, h3, h4, h5⟩ := find_inner hr hf
    exact ⟨b, w, a, z, h1, h2, h3, h h4, h5⟩
  rw [Core.leaves, List.mem_append, List.mem_map] at ht
  rcases ht with ⟨l, hl, rfl⟩ | ht
  · have := List.all_eq_true.1 inner_literals l hl
    exact go (by simpa using this) fun h => by rw [lang_lit h]; exact .lit
  · simp only [Core.regexps, List.mem_cons, List.not_mem_nil, or_false] at ht
    rcases ht with rfl | rfl | rfl | rfl | rfl | rfl | rfl | rfl
    · exact go inner_comment tok_comment
    · exact go inner_ident tok_ident
    · exact go inner_int tok_int
    · have hr := inner_regexp
      cases hi : inner (pattern (own Core.regexpLit)) with
      | none => rw [hi] at hr; cases hr
      | some r =>
        rw [hi] at hr
        exact go hi (tok_regexp hr)
    · exact go inner_str tok_str
    · exact go inner_path tok_path
    · exact go inner_op tok_op
    · exact go inner_sep tok_sep

end Wbnf.Regex

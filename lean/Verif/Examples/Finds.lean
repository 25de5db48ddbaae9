import Verif.Examples.Lex
import Verif.Spec.Written
import Verif.Lemmas.Lexemes

/-! The example engine finds tokens that white space follows. -/

namespace Wbnf.Regex

/-- The first way of matching `r` that the engine tries takes `x` and leaves `rest`. -/
def Eats (c : Nat) (r : Re) (x rest : Str) : Prop :=
  ∀ n k st' pos caps, c ≤ n → k ⟨rest, pos + x.length, caps⟩ = some st' → run n r ⟨x ++ rest, pos, caps⟩ k = some st'

/-- No start of the text matches. -/
def Misses (r : Re) (z : Str) : Prop := ∀ w y, z = w ++ y → ¬ Lang r w

variable {c d : Nat} {a b r : Re} {x y z rest : Str}

theorem Misses.run (h : Misses r z) {n pos caps k} : run n r ⟨z, pos, caps⟩ k = none := by
  cases e : Regex.run n r ⟨z, pos, caps⟩ k with
  | none => rfl
  | some s =>
    obtain ⟨w, s', ⟨h1, _, h3, _⟩, _⟩ := run_lang e
    exact absurd h3 (h w s'.rest h1)

theorem Eats.mono (h : Eats c r x rest) (hc : c ≤ d) : Eats d r x rest := fun n k st' pos caps hn => h n k st' pos caps (by omega)

theorem eats_empty : Eats 1 .empty [] rest := by
  intro n k st' pos caps hn hk
  obtain ⟨n, rfl⟩ : ∃ m, n = m + 1 := ⟨n - 1, by omega⟩
  simpa [run] using hk

theorem eats_cls {neg rs} {b : UInt8} (h : (inRanges b rs != neg) = true) : Eats 1 (.cls neg rs) [b] rest := by
  intro n k st' pos caps hn hk
  obtain ⟨n, rfl⟩ : ∃ m, n = m + 1 := ⟨n - 1, by omega⟩
  simp only [run_cls, List.cons_append, List.nil_append, h, if_true]
  simpa using hk

theorem eats_byte {b : UInt8} : Eats 1 (.cls false [(b, b)]) [b] rest := eats_cls (by simp [inRanges])

theorem Eats.cat (ha : Eats c a x (y ++ rest)) (hb : Eats c b y rest) : Eats (c + 1) (.cat a b) (x ++ y) rest := by
  intro n k st' pos caps hn hk
  obtain ⟨n, rfl⟩ : ∃ m, n = m + 1 := ⟨n - 1, by omega⟩
  rw [run_cat, List.append_assoc]
  refine ha n _ st' pos caps (by omega) (hb n k st' _ caps (by omega) ?_)
  simpa [Nat.add_assoc] using hk

theorem Eats.cons {b : UInt8} (h : Eats c r y rest) (hc : 1 ≤ c) : Eats (c + 1) (.cat (.cls false [(b, b)]) r) (b :: y) rest :=
  Eats.cat (x := [b]) (eats_byte.mono hc) h

theorem Eats.last (h : Eats c r x rest) (hc : 1 ≤ c) : Eats (c + 1) (.cat r .empty) x rest := by
  simpa using Eats.cat (y := []) h (eats_empty.mono hc)

theorem Eats.left (h : Eats c a x rest) : Eats (c + 1) (.alt a b) x rest := by
  intro n k st' pos caps hn hk
  obtain ⟨n, rfl⟩ : ∃ m, n = m + 1 := ⟨n - 1, by omega⟩
  simp only [run, h n k st' pos caps (by omega) hk, Option.some_or]

theorem Eats.right (hm : Misses a (x ++ rest)) (h : Eats c b x rest) : Eats (c + 1) (.alt a b) x rest := by
  intro n k st' pos caps hn hk
  obtain ⟨n, rfl⟩ : ∃ m, n = m + 1 := ⟨n - 1, by omega⟩
  simp only [run, hm.run, Option.none_or, h n k st' pos caps (by omega) hk]

theorem eats_done (h : Misses a rest) : Eats 1 (.star true a) [] rest := by
  intro n k st' pos caps hn hk
  obtain ⟨n, rfl⟩ : ∃ m, n = m + 1 := ⟨n - 1, by omega⟩
  simp only [run, List.nil_append, h.run, Option.none_or, if_true]
  simpa using hk

theorem Eats.more (ha : Eats c a x (y ++ rest)) (hx : x ≠ []) (h : Eats c (.star true a) y rest) : Eats (c + 1) (.star true a) (x ++ y) rest := by
  intro n k st' pos caps hn hk
  obtain ⟨n, rfl⟩ : ∃ m, n = m + 1 := ⟨n - 1, by omega⟩
  have hl : x.length ≠ 0 := by simpa using hx
  have h1 : Regex.run n a ⟨x ++ y ++ rest, pos, caps⟩ (fun st' => if st'.pos = pos then none else Regex.run n (.star true a) st' k) = some st' := by
    rw [List.append_assoc]
    refine ha n _ st' pos caps (by omega) ?_
    rw [if_neg (by simp only; omega)]
    exact h n k st' _ caps (by omega) (by simpa [Nat.add_assoc] using hk)
  simp only [run, if_true]
  rw [h1, Option.some_or]

theorem misses_cls {neg rs} (h : ∀ b, z.head? = some b → (inRanges b rs != neg) = false) : Misses (.cls neg rs) z := by
  intro w y e hl
  obtain ⟨b, rfl, hb⟩ := lang_cls.1 hl
  rw [h b (by rw [e]; rfl)] at hb
  cases hb

theorem misses_byte {b : UInt8} (h : z.head? ≠ some b) : Misses (.cls false [(b, b)]) z := by
  intro w y e hl
  rw [lang_byte] at hl
  subst hl
  exact h (by rw [e]; rfl)

theorem Misses.cat (h : Misses a z) : Misses (.cat a b) z := by
  intro w y e hl
  obtain ⟨u, v, rfl, hu, _⟩ := lang_cat.1 hl
  exact h u (v ++ y) (by simpa using e) hu

theorem Misses.alt (h : Misses a z) (h' : Misses b z) : Misses (.alt a b) z := by
  intro w y e hl
  rcases lang_alt.1 hl with hl | hl
  · exact h w y e hl
  · exact h' w y e hl

/-- A byte, but what comes next does not match. -/
theorem misses_cons {b : UInt8} (h : Misses r z) : Misses (.cat (.cls false [(b, b)]) r) (b :: z) := by
  intro w y e hl
  obtain ⟨v, rfl, hv⟩ := lang_cons.1 hl
  simp only [List.cons_append, List.cons.injEq, true_and] at e
  exact h v y e hv

/-- All bytes of a class. -/
theorem eats_bytes {neg rs} (hx : ∀ b ∈ x, (inRanges b rs != neg) = true) (hr : ∀ b, rest.head? = some b → (inRanges b rs != neg) = false) :
    Eats (x.length + 1) (.star true (.cls neg rs)) x rest := by
  induction x with
  | nil => exact eats_done (misses_cls hr)
  | cons b x ih =>
    exact Eats.more (x := [b]) (c := x.length + 1) ((eats_cls (hx b (by simp))).mono (by omega)) (by simp) (ih fun d hd => hx d (by simp [hd]))

theorem eats_lit (l : Str) : Eats (l.length + 1) (litRe l) l rest := by
  induction l with
  | nil => exact eats_empty
  | cons b l ih => exact ih.cons (by omega)

/-- Not white space. -/
theorem space_cls {b : UInt8} (h : ¬ White [b]) : (inRanges b spaceCls != false) = false := by
  apply Bool.eq_false_iff.2
  intro hb
  apply h
  intro d hd
  rw [List.mem_singleton] at hd
  subst hd
  simp [inRanges, spaceCls, UInt8.le_iff_toNat_le, ← UInt8.toNat_inj] at hb ⊢
  omega

theorem cls_space {b : UInt8} (h : White [b]) : (inRanges b spaceCls != false) = true := by
  have := h b (by simp)
  rcases this with rfl | rfl | rfl | rfl | rfl <;> decide

theorem white_mem (h : White x) : ∀ b ∈ x, White [b] := fun b hb d hd => by
  rw [List.mem_singleton] at hd
  subst hd
  exact h d hb

/-- A repetition can be matched if what follows can. -/
theorem star_isSome {n : Nat} {st : St} {k : St → Option St} (h : (k st).isSome = true) : (run (n + 1) (.star true a) st k).isSome = true := by
  simp only [run, if_true]
  cases run n a st fun st' => if st'.pos = st.pos then none else run n (.star true a) st' k <;> simp [h]

theorem finds_inner {p w before after : Str} (hi : inner p = some r) (hb : White before) (ha : White after) (hrest : ∀ d, rest.head? = some d → ¬ White [d])
    (hw : ∃ b v, w = b :: v ∧ ¬ White [b])
    (he : Eats c r w (after ++ rest)) (hc : c ≤ 2 * (w.length + after.length + rest.length) + 30) (hp : 12 ≤ p.length) :
    ∃ locs, regexp.find p (before ++ w ++ after ++ rest) = some locs ∧
      locs.head? = some ((0 : Int), ((before.length + w.length + after.length : Nat) : Int)) ∧
      locs.getLast? = some ((before.length : Int), ((before.length + w.length : Nat) : Int)) := by
  unfold inner at hi
  simp only [regexp, find]
  split at hi
  · next hr =>
    split at hi
    · next hs =>
      obtain ⟨rfl, rfl⟩ := hs
      cases hi
      rw [hr]
      simp only
      have hlen : (before ++ w ++ after ++ rest).length = before.length + w.length + after.length + rest.length := by simp [Nat.add_assoc]
      obtain ⟨f, hfu, hf⟩ : ∃ f, 4 * (p.length + 2) * ((before ++ w ++ after ++ rest).length + 2) = f + 8 ∧
          before.length + 1 ≤ f ∧ c ≤ f ∧ after.length + 2 ≤ f := by
        have : 4 * 14 * ((before ++ w ++ after ++ rest).length + 2) ≤ 4 * (p.length + 2) * ((before ++ w ++ after ++ rest).length + 2) :=
          Nat.mul_le_mul (Nat.mul_le_mul_left _ (by omega)) (Nat.le_refl _)
        refine ⟨4 * (p.length + 2) * ((before ++ w ++ after ++ rest).length + 2) - 8, by omega, by omega, by omega, by omega⟩
      rw [hfu, search_bot]
      obtain ⟨b, v, rfl, hbv⟩ := hw
      have h1 := eats_bytes (neg := false) (rs := spaceCls) (x := before) (rest := (b :: v) ++ after ++ rest)
        (fun d hd => cls_space (white_mem hb d hd)) (fun d hd => by
          simp only [List.cons_append, List.head?_cons, Option.some.injEq] at hd
          subst hd
          exact space_cls hbv)
      have h5 := ((eats_bytes (neg := false) (rs := spaceCls) (x := after) (rest := rest)
        (fun d hd => cls_space (white_mem ha d hd)) fun d hd => space_cls (hrest d hd)).last (by omega)) (f + 4) some _ (0 + before.length + (b :: v).length)
        ((List.replicate 1 ((-1 : Int), (-1 : Int))).set 0 (((0 + before.length : Nat) : Int), ((0 + before.length + (b :: v).length : Nat) : Int)))
        (by omega) rfl
      generalize hst : St.mk rest (0 + before.length + (b :: v).length + after.length) ((List.replicate 1 ((-1 : Int), (-1 : Int))).set 0
        (((0 + before.length : Nat) : Int), ((0 + before.length + (b :: v).length : Nat) : Int))) = st' at h5
      have h7 : run (f + 6) (.cat (.star true (.cls false spaceCls)) (.cat (.cat (.group 0 r) .empty) (.cat (.star true (.cls false spaceCls)) .empty)))
          ⟨before ++ (b :: v) ++ after ++ rest, 0, List.replicate 1 (-1, -1)⟩ some = some st' := by
        rw [run_cat]
        have := h1 (f + 5) (fun st' => run (f + 5) (.cat (.cat (.group 0 r) .empty) (.cat (.star true (.cls false spaceCls)) .empty)) st' some) st' 0
          (List.replicate 1 (-1, -1)) (by omega)
        simp only [List.append_assoc] at this ⊢
        refine this ?_
        rw [run_cat, run_cat, run_group]
        have := he (f + 2) (fun s => run (f + 3) .empty { s with caps := s.caps.set 0 (((0 + before.length : Nat) : Int), (s.pos : Int)) }
          fun st' => run (f + 4) (.cat (.star true (.cls false spaceCls)) .empty) st' some) st' (0 + before.length) (List.replicate 1 (-1, -1)) (by omega)
        refine this ?_
        exact h5
      rw [h7]
      refine ⟨_, rfl, ?_⟩
      subst hst
      simp
    · cases hi
  · cases hi

/-! ### The kinds of tokens -/

open Core (own pattern)

/-- The word ends with a letter, digit or underscore, so that what follows does not begin with one. -/
theorem follow_name {w : Str} (hz : MayFollow w rest) (hw : ∀ c, w.getLast? = some c → NameByte c) (h0 : w ≠ []) :
    ∀ b, rest.head? = some b → ¬ NameByte b := by
  intro b hb h
  obtain ⟨c, hc⟩ : ∃ c, w.getLast? = some c := ⟨_, List.getLast?_eq_some_getLast h0⟩
  exact (hz c b hc hb).1 ⟨hw c hc, .inl h⟩

theorem name_last {w : Str} (h : NameText w) : (∀ c, w.getLast? = some c → NameByte c) ∧ w ≠ [] := by
  obtain ⟨h1, c, v, rfl, _⟩ := h
  exact ⟨fun d hd => h1 d (List.mem_of_getLast? hd), by simp⟩

theorem not_name {b : UInt8} (h : ¬ NameByte b) : (inRanges b [(48, 57), (65, 90), (95, 95), (97, 122)] != false) = false ∧
    (inRanges b [(48, 57)] != false) = false := by
  simp [NameByte, inRanges, UInt8.le_iff_toNat_le, ← UInt8.toNat_inj] at h ⊢
  omega

theorem eats_some {neg rs} (h0 : x ≠ []) (hx : ∀ b ∈ x, (inRanges b rs != neg) = true) (hr : ∀ b, rest.head? = some b → (inRanges b rs != neg) = false) :
    Eats (x.length + 1) (.cat (.cls neg rs) (.star true (.cls neg rs))) x rest := by
  cases x with
  | nil => exact absurd rfl h0
  | cons b x =>
    exact Eats.cat (x := [b]) (c := x.length + 1) ((eats_cls (hx b (by simp))).mono (by omega)) (eats_bytes (fun d hd => hx d (by simp [hd])) hr)

theorem eats_int {w : Str} (h : Token Core.int w) (hz : MayFollow w rest) : Eats (w.length + 2) digitsRe w rest := by
  obtain ⟨h1, h2⟩ := token_int h
  have := follow_name hz (fun c hc => .inl (h2 c (List.mem_of_getLast? hc))) h1
  exact (eats_some h1 (fun b hb => by simpa [inRanges] using h2 b hb) (fun b hb => (not_name (this b hb)).2)).last (by omega)

theorem eats_op {w : Str} (h : Token (Core.re "[?*+]") w) : Eats 2 opRe w rest := by
  rcases token_op h with rfl | rfl | rfl <;> exact (eats_cls (by decide)).last (by omega)

theorem eats_sep {w : Str} (h : Token (Core.re "<:|:>?") w) (hz : MayFollow w rest) : Eats 7 sepRe w rest := by
  rcases token_sep h with rfl | rfl | rfl
  · refine Eats.right (Misses.cat (misses_byte (by simp [str]))) ?_
    refine Eats.mono (Eats.cons (c := 5) (y := []) (Eats.last (c := 4) ?_ (by omega)) (by omega)) (by omega)
    exact Eats.mono (Eats.right (c := 1) (Misses.cat (misses_byte (fun e => (hz 58 62 rfl e).2.1 (by decide)))) eats_empty) (by omega)
  · refine Eats.right (Misses.cat (misses_byte (by simp [str]))) ?_
    refine Eats.mono (Eats.cons (c := 5) (y := [62]) (Eats.last (c := 4) ?_ (by omega)) (by omega)) (by omega)
    exact (Eats.left (c := 2) (eats_byte.last (by omega))).mono (by omega)
  · exact (Eats.left (c := 3) (Eats.cons (c := 2) (y := [58]) (eats_byte.last (by omega)) (by omega))).mono (by omega)

theorem name_bytes {w : Str} (h : NameText w) : ∃ c v, w = c :: v ∧ (inRanges c [(65, 90), (97, 122), (95, 95)] != false) = true ∧
    ∀ b ∈ v, (inRanges b [(48, 57), (65, 90), (95, 95), (97, 122)] != false) = true := by
  obtain ⟨h1, c, v, rfl, h2⟩ := h
  refine ⟨c, v, rfl, ?_, fun b hb => ?_⟩
  · have := h1 c (by simp)
    simp [inRanges, UInt8.le_iff_toNat_le, ← UInt8.toNat_inj] at this h2 ⊢
    omega
  · have := h1 b (by simp [hb])
    simp [inRanges, UInt8.le_iff_toNat_le, ← UInt8.toNat_inj] at this ⊢
    omega

theorem eats_name {w : Str} (h : NameText w) (hz : ∀ b, rest.head? = some b → ¬ NameByte b) : Eats (w.length + 2) (.cat (.cls false [(65, 90), (97, 122), (95, 95)])
    (.cat (.star true (.cls false [(48, 57), (65, 90), (95, 95), (97, 122)])) .empty)) w rest := by
  obtain ⟨c, v, rfl, hc, hv⟩ := name_bytes h
  exact Eats.cat (x := [c]) (c := v.length + 2) ((eats_cls hc).mono (by omega)) ((eats_bytes hv (fun b hb => (not_name (hz b hb)).1)).last (by omega))

theorem eats_ident {w : Str} (h : Token Core.ident w) (hz : MayFollow w rest) : Eats (w.length + 4) identRe w rest := by
  rcases token_ident h with rfl | h | ⟨x, rfl, hx⟩
  · exact (Eats.left (c := 2) (eats_byte.last (by omega))).mono (by simp [str])
  · have hz2 := follow_name hz (name_last h).1 (name_last h).2
    have hh := name_bytes h
    obtain ⟨c, v, rfl, hc, hv⟩ := hh
    have h1 : ∀ d : UInt8, d = 64 ∨ d = 46 → c ≠ d := by
      rintro d hd rfl
      rcases hd with rfl | rfl <;> revert hc <;> decide
    refine Eats.right (Misses.cat (misses_byte (by simpa using h1 64 (.inl rfl)))) ?_
    refine Eats.mono (Eats.cat (x := []) (c := v.length + 3) ?_ ((eats_name h hz2).mono (by simp))) (by simp)
    exact Eats.mono (Eats.right (c := 1) (Misses.cat (misses_byte (by simpa using h1 46 (.inr rfl)))) eats_empty) (by omega)
  · have hz := follow_name hz (fun c hc => (name_last hx).1 c (by
      obtain ⟨_, c', v, rfl, _⟩ := hx
      simpa using hc)) (by simp)
    refine Eats.right (Misses.cat (misses_byte (by simp))) ?_
    refine Eats.mono (Eats.cat (x := [46]) (c := x.length + 3) ?_ ((eats_name hx hz).mono (by omega))) (by simp)
    exact (Eats.left (c := 2) (eats_byte.last (by omega))).mono (by omega)

theorem eats_quotedBody {q : UInt8} {body : Str} (hq : q = 34 ∨ q = 39) (h : QuotedBody q body) : Eats (body.length + 5) (.star true
    (.alt (.cat (.cls false [(92, 92)]) (.cat (.cls true [(10, 10)]) .empty)) (.cat (.cls true [(92, 92), (q, q)]) .empty))) body (q :: rest) := by
  induction h with
  | nil =>
    refine Eats.mono (eats_done (Misses.alt (Misses.cat (misses_byte ?_)) (Misses.cat (misses_cls ?_)))) (by omega)
    · rcases hq with rfl | rfl <;> simp
    · intro b hb
      simp only [List.head?_cons, Option.some.injEq] at hb
      subst hb
      simp [inRanges]
  | @plain c x h1 h2 _ ih =>
    refine Eats.more (x := [c]) (c := x.length + 5) (Eats.mono (Eats.right (c := 2) (Misses.cat (misses_byte (by simpa using h1))) ?_) (by omega)) (by simp) ih
    refine Eats.last (eats_cls ?_) (by omega)
    simp [inRanges, UInt8.lt_iff_toNat_lt, ← UInt8.toNat_inj] at h1 h2 ⊢
    omega
  | @escape c x h1 _ ih =>
    refine Eats.mono (Eats.more (x := [92, c]) (c := x.length + 5) (Eats.mono (Eats.left (c := 3) ?_) (by omega)) (by simp) ih) (by simp)
    refine Eats.cons (c := 2) (y := [c]) (Eats.last (eats_cls ?_) (by omega)) (by omega)
    simp [inRanges, UInt8.lt_iff_toNat_lt, ← UInt8.toNat_inj] at h1 ⊢
    omega

theorem eats_quoted {q : UInt8} {body : Str} (hq : q = 34 ∨ q = 39) (h : QuotedBody q body) :
    Eats (body.length + 7) (quotedRe q) (q :: body ++ [q]) rest := by
  refine Eats.cons (c := body.length + 6) (y := body ++ [q]) ?_ (by omega)
  exact Eats.cat (y := [q]) (c := body.length + 5) (eats_quotedBody hq h) ((eats_byte.last (by omega)).mono (by omega))

theorem eats_doubled {text : Str} (hz : rest.head? ≠ some 96) : Eats ((doubled text).length + 5) (.star true
    (.alt (.cat (.cls false [(96, 96)]) (.cat (.cls false [(96, 96)]) .empty)) (.cat (.cls true [(96, 96)]) .empty))) (doubled text) (96 :: rest) := by
  induction text with
  | nil =>
    refine Eats.mono (eats_done (Misses.alt (misses_cons (Misses.cat (misses_byte ?_))) (Misses.cat (misses_cls ?_)))) (by omega)
    · exact hz
    · intro b hb
      simp only [List.head?_cons, Option.some.injEq] at hb
      subst hb
      decide
  | cons c text ih =>
    by_cases hc : c = 96
    · subst hc
      have e : doubled (96 :: text) = [96, 96] ++ doubled text := by simp [doubled]
      rw [e]
      refine Eats.mono (Eats.more (x := [96, 96]) (c := (doubled text).length + 5) (Eats.mono (Eats.left (c := 3) ?_) (by omega)) (by simp) ih) (by simp)
      exact Eats.cons (c := 2) (y := [96]) (eats_byte.last (by omega)) (by omega)
    · have e : doubled (c :: text) = [c] ++ doubled text := by simp [doubled, hc]
      rw [e]
      refine Eats.mono (Eats.more (x := [c]) (c := (doubled text).length + 5)
        (Eats.mono (Eats.right (c := 2) (Misses.cat (misses_byte (by simpa using hc))) ?_) (by omega)) (by simp) ih) (by simp)
      refine Eats.last (eats_cls ?_) (by omega)
      simp [inRanges, UInt8.lt_iff_toNat_lt, ← UInt8.toNat_inj] at hc ⊢
      omega

theorem eats_str {w : Str} (h : Token Core.strLit w) (hz : MayFollow w rest) : Eats (w.length + 9) strRe w rest := by
  rcases token_str h with ⟨q, body, hq, hb, rfl⟩ | ⟨text, rfl⟩
  · have := eats_quoted (rest := rest) hq hb
    rcases hq with rfl | rfl
    · exact (Eats.left this).mono (by simp)
    · exact (Eats.right (Misses.cat (misses_byte (by simp))) (Eats.left this)).mono (by simp)
  · refine Eats.mono (Eats.right (c := (doubled text).length + 8) (Misses.cat (misses_byte (by simp))) (Eats.right (c := (doubled text).length + 7)
      (Misses.cat (misses_byte (by simp))) ?_)) (by simp)
    refine Eats.cons (c := (doubled text).length + 6) (y := doubled text ++ [96]) ?_ (by omega)
    exact Eats.cat (y := [96]) (c := (doubled text).length + 5) (eats_doubled fun e => (hz 96 96 (by rw [List.getLast?_append]; rfl) e).2.1 (by decide)) ((eats_byte.last (by omega)).mono (by omega))

def escRe : Re := .cat (.cls false [(92, 92)]) (.cat (.cls true [(10, 10)]) .empty)
def digitRe : Re := .cls false [(48, 57)]
def optRe (r : Re) : Re := .alt (.cat r .empty) .empty

/-- `[:^?[a-z]+:]` -/
def posixRe : Re := .cat (.cls false [(58, 58)]) (.cat (optRe .bot) (.cat (.cat (.cls false [(97, 122)]) (.star true (.cls false [(97, 122)])))
  (.cat (.cls false [(58, 58)]) (.cat (.cls false [(93, 93)]) .empty))))
def itemRe : Re := .alt escRe (.alt (.cat (.cls false [(91, 91)]) posixRe) (.cat (.cls true [(93, 93)]) .empty))
def clsRe : Re := .cat (.cls false [(91, 91)]) (.cat (.cat itemRe (.star true itemRe)) (.cat (.cls false [(93, 93)]) .empty))
def countRe : Re := .alt (.cat (.cat digitRe (.star true digitRe)) (.cat (optRe (.cat (.cls false [(44, 44)]) (.cat (.star true digitRe) .empty))) .empty))
  (.cat (.cls false [(44, 44)]) (.cat (.cat digitRe (.star true digitRe)) .empty))
def bodyRe : Re := .alt escRe (.alt (.cat (.cls false [(123, 123)]) (.cat (optRe (.cat countRe (.cat (.cls false [(125, 125)]) .empty))) .empty))
  (.alt clsRe (.cat (.cls true [(92, 92), (123, 123), (125, 125)]) .empty)))
def bracedRe : Re :=
  .cat (.cls false [(47, 47)]) (.cat (.cls false [(123, 123)]) (.cat (.star true bodyRe) (.cat (.cls false [(125, 125)]) .empty)))

def scriptRe : Re := .cat (.cls false [(112, 112), (80, 80)]) (.cat (.alt (.cat (.cls false [(97, 122)]) .empty) (.cat (.cls false [(123, 123)])
  (.cat (.cat (.cls false [(97, 122), (65, 90), (95, 95)]) (.star true (.cls false [(97, 122), (65, 90), (95, 95)]))) (.cat (.cls false [(125, 125)]) .empty)))) .empty)
def unitRe : Re := .alt clsRe (.alt (.cat (.cls false [(92, 92)]) scriptRe) (.alt (.cat (.cls false [(92, 92)]) (.cat (.cls false [(97, 122), (65, 90)]) .empty))
  (.cat (.cls false [(46, 46), (94, 94), (36, 36)]) .empty)))
def timesRe : Re := .cat (.cat digitRe (.star true digitRe)) (.cat (optRe (.cls false [(44, 44)])) (.cat (optRe digitRe) (.cat (.cls false [(125, 125)]) .empty)))
def quantRe : Re := .cat (.alt (.cat (.cls false [(43, 43), (42, 42), (63, 63)]) .empty) (.cat (.cls false [(123, 123)]) timesRe))
  (.cat (optRe (.cls false [(63, 63)])) .empty)
def bareRe : Re := .cat unitRe (.cat (optRe quantRe) .empty)
def patternRe : Re := .alt bracedRe (.cat (.cat bareRe (.star true bareRe)) .empty)

theorem inner_pattern : inner (pattern (own Core.regexpLit)) = some patternRe := by decide +kernel

theorem Eats.opt (h : Eats c r x rest) (hc : 1 ≤ c) : Eats (c + 2) (optRe r) x rest := Eats.left (h.last hc)

theorem eats_opt_none (h : Misses r rest) : Eats 2 (optRe r) [] rest := Eats.right (Misses.cat h) eats_empty

theorem misses_first {neg rs} {b : UInt8} (h : (inRanges b rs != neg) = false) : Misses (.cls neg rs) (b :: rest) :=
  misses_cls fun d hd => by
    simp only [List.head?_cons, Option.some.injEq] at hd
    subst hd
    exact h

theorem eats_escape {e : UInt8} (h : e ≠ 10) : Eats 3 escRe [92, e] rest := by
  refine Eats.cons (c := 2) (y := [e]) (Eats.last (eats_cls ?_) (by omega)) (by omega)
  simp [inRanges, UInt8.lt_iff_toNat_lt, ← UInt8.toNat_inj] at h ⊢
  omega

theorem eats_item {e : UInt8} (h1 : e ≠ 91) (h2 : e ≠ 92) (h3 : e ≠ 93) : Eats 4 itemRe [e] rest := by
  refine Eats.right (c := 3) (Misses.cat (misses_byte (by simpa using h2))) (Eats.right (c := 2) (Misses.cat (misses_byte (by simpa using h1))) ?_)
  refine Eats.last (eats_cls ?_) (by omega)
  simp [inRanges, UInt8.lt_iff_toNat_lt, ← UInt8.toNat_inj] at h3 ⊢
  omega

theorem eats_items {y : Str} (hy : ClassBody y) : Eats (y.length + 6) (.star true itemRe) y (93 :: rest) := by
  induction hy with
  | nil =>
    exact Eats.mono (eats_done (Misses.alt (Misses.cat (misses_byte (by simp))) (Misses.alt (Misses.cat (misses_byte (by simp)))
      (Misses.cat (misses_first (by decide)))))) (by omega)
  | @plain e y h1 h2 h3 _ ih => exact Eats.more (x := [e]) (c := y.length + 6) ((eats_item h1 h2 h3).mono (by omega)) (by simp) ih
  | @escape e y h1 _ ih =>
    exact Eats.mono (Eats.more (x := [92, e]) (c := y.length + 6) ((Eats.left (eats_escape h1)).mono (by omega)) (by simp) ih) (by simp)

theorem eats_class {y : Str} (h0 : y ≠ []) (hy : ClassBody y) : Eats (y.length + 9) clsRe (91 :: (y ++ [93])) rest := by
  refine Eats.cons (c := y.length + 8) (y := y ++ [93]) (Eats.cat (c := y.length + 7) (y := [93]) ?_ ((eats_byte.last (by omega)).mono (by omega))) (by omega)
  cases hy with
  | nil => exact absurd rfl h0
  | @plain e y h1 h2 h3 h => exact Eats.mono (Eats.cat (x := [e]) (c := y.length + 6) ((eats_item h1 h2 h3).mono (by omega)) (eats_items h)) (by simp)
  | @escape e y h1 h => exact Eats.mono (Eats.cat (x := [92, e]) (c := y.length + 6) ((Eats.left (eats_escape h1)).mono (by omega)) (eats_items h)) (by simp)

theorem digit_cls {y : Str} (h : Digits y) : ∀ b ∈ y, (inRanges b [(48, 57)] != false) = true := fun b hb => by simpa [inRanges] using h b hb

theorem eats_count {y : Str} (h : PatternCount y) : Eats (y.length + 8) countRe y (125 :: rest) := by
  have hd : ∀ e : UInt8, (inRanges e [(48, 57)] != false) = false → ∀ z : Str, ∀ b, (e :: z).head? = some b → (inRanges b [(48, 57)] != false) = false := by
    intro e he z b hb
    simp only [List.head?_cons, Option.some.injEq] at hb
    subst hb
    exact he
  cases h with
  | exactly h0 h =>
    have := Eats.cat (c := y.length + 3) (y := []) ((eats_some h0 (digit_cls h) (hd 125 (by decide) rest)).mono (by omega))
      (((eats_opt_none (r := .cat (.cls false [(44, 44)]) (.cat (.star true digitRe) .empty)) (rest := 125 :: rest)
        (Misses.cat (misses_byte (by simp)))).last (by omega)).mono (by omega))
    rw [List.append_nil] at this
    exact (Eats.left this).mono (by omega)
  | @atLeast a b h0 h h' =>
    have h1 : Eats (b.length + 3) (.cat (.cls false [(44, 44)]) (.cat (.star true digitRe) .empty)) (44 :: b) (125 :: rest) :=
      Eats.cons (c := b.length + 2) ((eats_bytes (digit_cls h') (hd 125 (by decide) rest)).last (by omega)) (by omega)
    refine Eats.mono (Eats.left (c := a.length + b.length + 7) (Eats.cat (c := a.length + b.length + 6) ?_ (((h1.opt (by omega)).last (by omega)).mono (by omega))))
      (by simp)
    exact (eats_some h0 (digit_cls h) (hd 44 (by decide) _)).mono (by omega)
  | @atMost b h0 h =>
    refine Eats.mono (Eats.right (c := b.length + 3) (Misses.cat (Misses.cat (misses_first (by decide)))) (Eats.cons (c := b.length + 2) ?_ (by omega))) (by simp)
    exact (eats_some h0 (digit_cls h) (hd 125 (by decide) rest)).last (by omega)

theorem eats_body {body : Str} (h : PatternBody body) : Eats (2 * body.length + 14) (.star true bodyRe) body (125 :: rest) := by
  induction h with
  | nil =>
    exact Eats.mono (eats_done (Misses.alt (Misses.cat (misses_byte (by simp))) (Misses.alt (Misses.cat (misses_byte (by simp)))
      (Misses.alt (Misses.cat (misses_byte (by simp))) (Misses.cat (misses_first (by decide))))))) (by omega)
  | @plain e x h1 h2 h3 h4 _ ih =>
    refine Eats.mono (Eats.more (x := [e]) (c := 2 * x.length + 14) (Eats.mono (Eats.right (c := 4) (Misses.cat (misses_byte (by simpa using h2)))
      (Eats.right (c := 3) (Misses.cat (misses_byte (by simpa using h3))) (Eats.right (c := 2) (Misses.cat (misses_byte (by simpa using h1))) ?_)))
      (by omega)) (by simp) ih) (by simp; omega)
    refine Eats.last (eats_cls ?_) (by omega)
    simp [inRanges, UInt8.lt_iff_toNat_lt, ← UInt8.toNat_inj] at h2 h3 h4 ⊢
    omega
  | @escape e x h1 _ ih =>
    exact Eats.mono (Eats.more (x := [92, e]) (c := 2 * x.length + 14) (Eats.mono (Eats.left (c := 3) (eats_escape h1)) (by omega)) (by simp) ih) (by simp; omega)
  | @cls y x h0 h1 _ ih =>
    have e : (91 :: (y ++ 93 :: x) : Str) = (91 :: (y ++ [93])) ++ x := by simp
    rw [e]
    refine Eats.mono (Eats.more (x := 91 :: (y ++ [93])) (c := 2 * (y.length + x.length) + 15) ?_ (by simp) (ih.mono (by omega))) (by simp; omega)
    exact Eats.mono (Eats.right (c := y.length + 11) (Misses.cat (misses_byte (by simp))) (Eats.right (c := y.length + 10) (Misses.cat (misses_byte (by simp)))
      (Eats.left (c := y.length + 9) (eats_class h0 h1)))) (by omega)
  | @count y x h1 _ ih =>
    have e : (123 :: (y ++ 125 :: x) : Str) = (123 :: (y ++ [125])) ++ x := by simp
    rw [e]
    refine Eats.mono (Eats.more (x := 123 :: (y ++ [125])) (c := 2 * (y.length + x.length) + 15) ?_ (by simp) (ih.mono (by omega))) (by simp; omega)
    have : Eats (y.length + 9) (.cat countRe (.cat (.cls false [(125, 125)]) .empty)) (y ++ [125]) (x ++ 125 :: rest) :=
      Eats.cat (c := y.length + 8) (y := [125]) (eats_count h1) ((eats_byte.last (by omega)).mono (by omega))
    exact Eats.mono (Eats.right (c := y.length + 14) (Misses.cat (misses_byte (by simp))) (Eats.left (c := y.length + 13)
      (Eats.cons (c := y.length + 12) ((this.opt (by omega)).last (by omega)) (by omega)))) (by omega)
  | @brace x h1 _ ih =>
    refine Eats.mono (Eats.more (x := [123]) (c := 2 * x.length + 14) ?_ (by simp) ih) (by simp; omega)
    have hx : ∀ b, (x ++ 125 :: rest).head? = some b → ¬ (48 ≤ b ∧ b ≤ 57) ∧ b ≠ 44 := by
      cases x with
      | nil => intro b hb; cases hb; decide
      | cons c x => intro b hb; exact h1 b hb
    have hm : Misses (.cat countRe (.cat (.cls false [(125, 125)]) .empty)) (x ++ 125 :: rest) := by
      refine Misses.cat (Misses.alt (Misses.cat (Misses.cat (misses_cls fun b hb => ?_))) (Misses.cat (misses_byte fun e => (hx _ e).2 rfl)))
      have := (hx b hb).1
      simp [inRanges, UInt8.le_iff_toNat_le] at this ⊢
      omega
    exact Eats.mono (Eats.right (c := 12) (Misses.cat (misses_byte (by simp))) (Eats.left (c := 11)
      (Eats.cons (c := 10) (y := []) (((eats_opt_none hm).last (by omega)).mono (by omega)) (by omega)))) (by omega)

theorem eats_braced {body : Str} (h : PatternBody body) : Eats (2 * body.length + 17) bracedRe (str "/{" ++ body ++ str "}") rest :=
  Eats.cons (c := 2 * body.length + 16) (y := 123 :: (body ++ [125])) (Eats.cons (c := 2 * body.length + 15)
    (y := body ++ [125]) (Eats.cat (c := 2 * body.length + 14) (y := [125]) (eats_body h) ((eats_byte.last (by omega)).mono (by omega))) (by omega)) (by omega)

/-! Regexps without braces -/

/-- Nothing that goes on. -/
def EndsHere (z : Str) : Prop := ∀ b, z.head? = some b → b ∉ str "[\\^$.+*?{"

/-- No quantifier. -/
def NoTimes (z : Str) : Prop := ∀ b, z.head? = some b → b ∉ str "+*?{"

theorem eats_unit {u : Str} (h : PatternUnit u) : Eats (u.length + 10) unitRe u rest := by
  cases h with
  | cls h0 h => exact (Eats.left (eats_class h0 h)).mono (by simp)
  | @letter e h1 h2 h3 =>
    refine Eats.mono (Eats.right (c := 5) (Misses.cat (misses_byte (by simp))) (Eats.right (c := 4) (misses_cons (Misses.cat (misses_first ?_)))
      (Eats.left (c := 3) (Eats.cons (c := 2) (y := [e]) (Eats.last (eats_cls ?_) (by omega)) (by omega))))) (by simp)
    · simp [inRanges, UInt8.le_iff_toNat_le, ← UInt8.toNat_inj] at h2 h3 ⊢
      omega
    · simp [inRanges, UInt8.le_iff_toNat_le] at h1 ⊢
      omega
  | @sign e h =>
    have : e = 46 ∨ e = 94 ∨ e = 36 := by simpa [str] using h
    have h1 : e ≠ 91 ∧ e ≠ 92 := by rcases this with rfl | rfl | rfl <;> decide
    refine Eats.mono (Eats.right (c := 4) (Misses.cat (misses_byte (by simpa using h1.1))) (Eats.right (c := 3) (Misses.cat (misses_byte (by simpa using h1.2)))
      (Eats.right (c := 2) (Misses.cat (misses_byte (by simpa using h1.2))) (Eats.last (eats_cls ?_) (by omega))))) (by simp)
    rcases this with rfl | rfl | rfl <;> decide

theorem misses_quant (h : NoTimes rest) : Misses quantRe rest := by
  refine Misses.cat (Misses.alt (Misses.cat (misses_cls fun b hb => ?_)) (Misses.cat (misses_byte fun e => h _ e (by decide))))
  have := h b hb
  simp [str, inRanges, UInt8.le_iff_toNat_le, ← UInt8.toNat_inj] at this ⊢
  omega

theorem eats_times {q : Str} (h : PatternQuant q) (hz : NoTimes rest) : Eats 10 (.cat (optRe quantRe) .empty) q rest := by
  have first : ∀ {e : UInt8} {z : Str}, e ∈ str "+*?" → Eats 3 (.alt (.cat (.cls false [(43, 43), (42, 42), (63, 63)]) .empty) (.cat (.cls false [(123, 123)]) timesRe)) [e] z := by
    intro e z h
    have : e = 43 ∨ e = 42 ∨ e = 63 := by simpa [str] using h
    refine Eats.left (c := 2) (Eats.last (eats_cls ?_) (by omega))
    rcases this with rfl | rfl | rfl <;> decide
  refine Eats.mono (Eats.last (c := 9) ?_ (by omega)) (by omega)
  cases h with
  | once => exact (eats_opt_none (misses_quant hz)).mono (by omega)
  | @greedy e h =>
    refine Eats.mono (Eats.opt (c := 5) (Eats.cat (x := [e]) (y := []) (c := 4) ((first h).mono (by omega)) ?_) (by omega)) (by omega)
    exact ((eats_opt_none (misses_byte fun e => hz _ e (by decide))).last (by omega)).mono (by omega)
  | @reluctant e h =>
    refine Eats.mono (Eats.opt (c := 5) (Eats.cat (x := [e]) (y := [63]) (c := 4) ((first h).mono (by omega)) ?_) (by omega)) (by omega)
    exact ((eats_byte.opt (by omega)).last (by omega)).mono (by omega)

theorem eats_bare1 {u q : Str} (hu : PatternUnit u) (hq : PatternQuant q) (hz : NoTimes rest) : Eats (u.length + 11) bareRe (u ++ q) rest :=
  Eats.cat (c := u.length + 10) (eats_unit hu) ((eats_times hq hz).mono (by omega))

theorem noTimes_bare {w : Str} (h : BarePattern w) : NoTimes (w ++ rest) := by
  obtain ⟨c, v, rfl, h'⟩ := bare_head h
  intro b hb
  simp only [List.cons_append, List.head?_cons, Option.some.injEq] at hb
  subst hb
  have : c = 91 ∨ c = 92 ∨ c = 94 ∨ c = 36 ∨ c = 46 := by simpa [str] using h'
  rcases this with rfl | rfl | rfl | rfl | rfl <;> decide

theorem misses_bare (h : EndsHere rest) : Misses bareRe rest := by
  refine Misses.cat (Misses.alt (Misses.cat (misses_byte fun e => h _ e (by decide))) (Misses.alt (Misses.cat (misses_byte fun e => h _ e (by decide)))
    (Misses.alt (Misses.cat (misses_byte fun e => h _ e (by decide))) (Misses.cat (misses_cls fun b hb => ?_)))))
  have := h b hb
  simp [str, inRanges, UInt8.le_iff_toNat_le, ← UInt8.toNat_inj] at this ⊢
  omega

theorem EndsHere.times (h : EndsHere rest) : NoTimes rest := fun b hb hm => h b hb (by
  have : b = 43 ∨ b = 42 ∨ b = 63 ∨ b = 123 := by simpa [str] using hm
  rcases this with rfl | rfl | rfl | rfl <;> decide)

theorem unit_ne {u q : Str} (h : PatternUnit u) : u ++ q ≠ [] := by
  obtain ⟨c, v, rfl, _⟩ := unit_head h
  simp

theorem eats_bares {w : Str} (h : BarePattern w) (hz : EndsHere rest) : Eats (2 * w.length + 20) (.star true bareRe) w rest := by
  induction h with
  | @one u q hu hq =>
    have := Eats.more (c := u.length + 12) (y := []) ((eats_bare1 hu hq hz.times).mono (by omega)) (unit_ne hu) ((eats_done (misses_bare hz)).mono (by omega))
    rw [List.append_nil] at this
    exact this.mono (by simp; omega)
  | @more u q x hu hq hx ih =>
    have hl : 0 < u.length := by
      obtain ⟨c, v, rfl, _⟩ := unit_head hu
      simp
    exact Eats.mono (Eats.more (c := 2 * x.length + u.length + 20) ((eats_bare1 hu hq (noTimes_bare hx)).mono (by omega)) (unit_ne hu) (ih.mono (by omega)))
      (by simp; omega)

theorem eats_bare {w : Str} (h : BarePattern w) (hz : EndsHere rest) :
    Eats (2 * w.length + 22) (.cat (.cat bareRe (.star true bareRe)) .empty) w rest := by
  refine Eats.last ?_ (by omega)
  cases h with
  | @one u q hu hq =>
    have := Eats.cat (c := u.length + 12) (y := []) ((eats_bare1 hu hq hz.times).mono (by omega)) ((eats_done (misses_bare hz)).mono (by omega))
    rw [List.append_nil] at this
    exact this.mono (by simp; omega)
  | @more u q x hu hq hx =>
    exact Eats.mono (Eats.cat (c := 2 * x.length + u.length + 20) ((eats_bare1 hu hq (noTimes_bare hx)).mono (by omega)) ((eats_bares hx hz).mono (by omega)))
      (by simp; omega)

theorem eats_pattern {w : Str} (h : PatternText w) (hz : MayFollow w rest) : Eats (2 * w.length + 23) patternRe w rest := by
  rcases h with ⟨body, h, rfl⟩ | ⟨h, h0⟩
  · exact (Eats.left (eats_braced h)).mono (by simp; omega)
  · obtain ⟨c, v, rfl, hc⟩ := bare_head h
    have hc : c = 91 ∨ c = 92 ∨ c = 94 ∨ c = 36 := by
      have : c = 91 ∨ c = 92 ∨ c = 94 ∨ c = 36 ∨ c = 46 := by simpa [str] using hc
      rcases this with h | h | h | h | h
      · exact .inl h
      · exact .inr (.inl h)
      · exact .inr (.inr (.inl h))
      · exact .inr (.inr (.inr h))
      · exact absurd (by rw [h]; rfl) h0
    refine Eats.right (Misses.cat (misses_byte ?_)) (eats_bare h fun b hb hm => ?_)
    · rcases hc with rfl | rfl | rfl | rfl <;> simp
    · obtain ⟨l, hl⟩ : ∃ l, (c :: v).getLast? = some l := ⟨_, List.getLast?_eq_some_getLast (by simp)⟩
      refine (hz l b hl hb).2.2.1 ⟨⟨c, ?_, rfl⟩, hm⟩
      rcases hc with rfl | rfl | rfl | rfl <;> decide

theorem eats_eol (h : ∀ b, rest.head? = some b → b = 10) : Eats 1 .eol [] rest := by
  intro n k st' pos caps hn hk
  obtain ⟨n, rfl⟩ : ∃ m, n = m + 1 := ⟨n - 1, by omega⟩
  cases rest with
  | nil => simpa [run] using hk
  | cons b rest => simpa [run, h b rfl] using hk

theorem eats_line {w : Str} (h : Token Core.comment w) (hl : str "//" <+: w) (hz : MayFollow w rest) : Eats (w.length + 5) commentRe w rest := by
  obtain ⟨x, rfl⟩ := hl
  have hx : 10 ∉ x := token_line h
  have hr : ∀ b, rest.head? = some b → b = 10 := fun b hb => by
    obtain ⟨c, hc⟩ : ∃ c, (str "//" ++ x).getLast? = some c := ⟨_, List.getLast?_eq_some_getLast (by simp [str])⟩
    exact (hz c b hc hb).2.2.2 ⟨x, rfl⟩
  have h1 : Eats (x.length + 1) (.star true (.cls true [(10, 10)])) x rest := by
    refine eats_bytes (fun b hb => ?_) fun b hb => ?_
    · have : b ≠ 10 := fun e => hx (e ▸ hb)
      simp [inRanges, UInt8.le_iff_toNat_le, ← UInt8.toNat_inj] at this ⊢
      omega
    · rw [hr b hb]; decide
  have h2 := Eats.cat (c := x.length + 2) (x := x) (y := []) (h1.mono (by omega)) (((eats_eol hr).last (by omega)).mono (by omega))
  rw [List.append_nil] at h2
  exact Eats.mono (Eats.left (Eats.cons (c := x.length + 4) (y := 47 :: x) (Eats.cons (c := x.length + 3) h2 (by omega)) (by omega))) (by simp [str])

theorem eats_block {w : Str} (h : BlockText w) : Eats (w.length + 9) commentRe w rest := by
  obtain ⟨k, c, -, hc, h47, rfl⟩ := h
  have hcn : (inRanges c [(42, 42)] != true) = true := by
    simp [inRanges, UInt8.le_iff_toNat_le, ← UInt8.toNat_inj] at hc ⊢
    omega
  have htail : Eats 3 (.cat (.cls false [(42, 42)]) (.cat (.cls false [(47, 47)]) .empty)) [42, 47] rest :=
    Eats.cons (Eats.last eats_byte (by omega)) (by omega)
  have hbody : Eats (k + 6) (.alt (.cat (.cls true [(42, 42)]) .empty)
      (.cat (.cat (.cls false [(42, 42)]) (.star true (.cls false [(42, 42)]))) (.cat (.cls true [(42, 42), (47, 47)]) .empty)))
      (List.replicate k 42 ++ [c]) ([42, 47] ++ rest) := by
    cases k with
    | zero => exact (Eats.left (Eats.last (eats_cls hcn) (by omega))).mono (by omega)
    | succ k =>
      have h47 := h47 (by omega)
      refine (Eats.right (c := k + 5) (Misses.cat (misses_cls fun b hb => ?_)) ?_).mono (by omega)
      · simp only [List.replicate_succ, List.cons_append, List.head?_cons, Option.some.injEq] at hb
        subst hb
        decide
      · refine Eats.cat (c := k + 4) ?_ ((Eats.last (c := 1) (eats_cls ?_) (by omega)).mono (by omega))
        · refine (Eats.cons (c := k + 1) ?_ (by omega)).mono (by omega)
          have := eats_bytes (x := List.replicate k 42) (neg := false) (rs := [(42, 42)]) (rest := [c] ++ ([42, 47] ++ rest))
            (fun b hb => by rw [List.eq_of_mem_replicate hb]; decide) (fun b hb => by
              simp only [List.cons_append, List.head?_cons, Option.some.injEq] at hb
              subst hb
              simpa using hcn)
          simpa using this
        · simp [inRanges, UInt8.le_iff_toNat_le, ← UInt8.toNat_inj] at hc h47 ⊢
          omega
  have h1 := Eats.cat (c := k + 6) hbody (htail.mono (by omega))
  have h2 : Eats (k + 11) commentRe (47 :: 42 :: ((List.replicate k 42 ++ [c]) ++ [42, 47])) rest :=
    Eats.right (misses_cons (Misses.cat (misses_byte (by simp))))
      (Eats.last (Eats.cons (c := k + 8) (Eats.cons (c := k + 7) h1 (by omega)) (by omega)) (by omega))
  have e : str "/*" ++ List.replicate k 42 ++ [c] ++ str "*/" = 47 :: 42 :: ((List.replicate k 42 ++ [c]) ++ [42, 47]) := by simp [str]
  rw [e]
  exact h2.mono (by simp)

theorem eats_comment {w : Str} (h : Token Core.comment w) (hl : str "//" <+: w ∨ BlockText w) (hz : MayFollow w rest) :
    Eats (w.length + 9) commentRe w rest := by
  rcases hl with hl | hl
  · exact (eats_line h hl hz).mono (by omega)
  · exact eats_block hl

theorem eats_path {w : Str} (h : Token (Core.re "[a-zA-Z0-9.:]+") w) (hp : PathName w) (hz : MayFollow w rest) (hc : rest.head? ≠ some 58) :
    Eats (w.length + 2) pathRe w rest := by
  obtain ⟨h0, h1⟩ := token_path h
  refine (eats_some h0 (fun b hb => ?_) (fun b hb => ?_)).last (by omega)
  · have := h1 b hb
    simp [inRanges, UInt8.le_iff_toNat_le, ← UInt8.toNat_inj] at this ⊢
    omega
  · obtain ⟨c, hl⟩ : ∃ c, w.getLast? = some c := ⟨_, List.getLast?_eq_some_getLast h0⟩
    have h2 := (hz c b hl hb).1
    have h3 : ¬ (NameByte b ∨ b = 46) := fun h => h2 ⟨hp.2 c hl, h⟩
    have h4 : b ≠ 58 := by rintro rfl; exact hc hb
    simp [NameByte, inRanges, UInt8.le_iff_toNat_le, ← UInt8.toNat_inj] at h3 h4 ⊢
    omega

/-- The example engine finds tokens. -/
theorem engineFinds : Core.EngineFinds regexp := by
  intro t ht w hlex before after rest hb ha hz hr' hcolon
  have first := hlex.first ht
  obtain ⟨hw, hc, hre, hco⟩ := hlex
  have go : ∀ {r c}, inner (pattern (own t)) = some r → (∃ b v, w = b :: v ∧ ¬ White [b]) → Eats c r w (after ++ rest) → c ≤ 2 * w.length + 30 →
      ∃ locs, regexp.find (pattern (own t)) (before ++ w ++ after ++ rest) = some locs ∧
        locs.head? = some ((0 : Int), ((before.length + w.length + after.length : Nat) : Int)) ∧
        locs.getLast? = some ((before.length : Int), ((before.length + w.length : Nat) : Int)) := by
    intro r c h1 h2 h3 h4
    exact finds_inner h1 hb ha hr' h2 h3 (by omega) (by simp [pattern, anchor, str])
  rw [Core.leaves, List.mem_append, List.mem_map] at ht
  rcases ht with ⟨l, hl, rfl⟩ | ht
  · have := List.all_eq_true.1 inner_literals l hl
    have e := token_s hw
    subst e
    exact go (by simpa using this) first (eats_lit _) (by omega)
  · simp only [Core.regexps, List.mem_cons, List.not_mem_nil, or_false] at ht
    rcases ht with rfl | rfl | rfl | rfl | rfl | rfl | rfl | rfl
    · exact go inner_comment first (eats_comment hw (hco rfl) hz) (by omega)
    · exact go inner_ident first (eats_ident hw hz) (by omega)
    · exact go inner_int first (eats_int hw hz) (by omega)
    · exact go inner_pattern first (eats_pattern (hre rfl) hz) (by omega)
    · exact go inner_str first (eats_str hw hz) (by omega)
    · exact go inner_path first (eats_path hw (hc.resolve_left (by simp)) hz (hcolon rfl)) (by omega)
    · exact go inner_op first (eats_op hw) (by omega)
    · exact go inner_sep first (eats_sep hw hz) (by omega)

end Wbnf.Regex

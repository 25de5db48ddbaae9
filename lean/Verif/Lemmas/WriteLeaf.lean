import Verif.Lemmas.Lexemes
import Verif.Lemmas.CoreSpaced

/-!
# Leaves at words
-/

namespace Wbnf.Core

variable {E : Engine} {X : Externals} {Γ : List Grammar} {t : Term} {i : Scanner} {w : Str} {ws : List Str}

/-- The text from here on is made of these words. -/
def Sits (i : Scanner) (ws : List Str) : Prop :=
  i.InRange ∧ ∃ s x a b, i.toStr = Option.some s ∧ LaidOut ws x ∧ White a ∧ White b ∧ a ++ s = b ++ x ∧ (ws = [] → s = [])

theorem white_append {a b : Str} : White (a ++ b) ↔ White a ∧ White b := by
  simp only [White, List.mem_append]
  exact ⟨fun h => ⟨fun c hc => h c (.inl hc), fun c hc => h c (.inr hc)⟩, fun h c hc => hc.elim (h.1 c) (h.2 c)⟩

theorem white_byte {a : Str} {c : UInt8} (h : White a) (hc : c ∈ a) : c ∈ whites := by
  rw [← white_iff]
  intro d hd
  rw [List.mem_singleton] at hd
  subst hd
  exact h d hc

/-- White space before something else. -/
theorem white_strip {a b s r : Str} {c : UInt8} (ha : White a) (hb : White b) (hc : c ∉ whites) (h : a ++ s = b ++ c :: r) :
    ∃ s', White s' ∧ s = s' ++ c :: r := by
  rcases List.append_eq_append_iff.1 h with ⟨d, rfl, e⟩ | ⟨d, rfl, e⟩
  · exact ⟨d, (white_append.1 hb).2, e⟩
  · cases d with
    | nil => exact ⟨[], by simp [White], by simpa using e.symm⟩
    | cons c' d =>
      simp only [List.cons_append, List.cons.injEq] at e
      obtain ⟨rfl, _⟩ := e
      exact absurd (white_byte ha (by simp)) hc

theorem white_unique {a b s r : Str} {c d : UInt8} (ha : White a) (hb : White b) (hc : c ∉ whites) (hd : d ∉ whites)
    (h : a ++ d :: s = b ++ c :: r) : d = c ∧ s = r := by
  obtain ⟨s', h1, h2⟩ := white_strip ha hb hc h
  cases s' with
  | nil => simpa using h2
  | cons e s' =>
    simp only [List.cons_append, List.cons.injEq] at h2
    exact absurd (white_byte h1 (by simp)) (h2.1 ▸ hd)

theorem white_split (x : Str) : ∃ a r, x = a ++ r ∧ White a ∧ ∀ c, r.head? = Option.some c → ¬ White [c] := by
  induction x with
  | nil => exact ⟨[], [], rfl, by simp [White], by simp⟩
  | cons c x ih =>
    by_cases hc : White [c]
    · obtain ⟨a, r, rfl, h1, h2⟩ := ih
      exact ⟨c :: a, r, rfl, by rw [← List.singleton_append, white_append]; exact ⟨hc, h1⟩, h2⟩
    · exact ⟨[], c :: x, rfl, by simp [White], by simpa using hc⟩

theorem slice_toStr (hi : i.InRange) : i.slice = i.toStr := by
  obtain ⟨src, o, k, rfl, hk⟩ := hi.elim
  rw [Scanner.slice_mk hk, Scanner.toStr_mk hk]

theorem leaf_peg (ht : t ∈ leaves) (hΓ : Γ ∈ frames) {o : Out} (h : LeafOut E (pattern (own t)) i o) :
    ∀ name vals, Peg E X (.term Γ name t vals i) o := by
  intro name vals
  have hw := wrapOf_frames _ hΓ
  have key : ∀ text q : Str, ∃ p, LeafPattern (wrapOf Γ) text (str "(" ++ q ++ str ")") p ∧ anchor ++ p = pattern q := by
    intro text q
    refine ⟨str "\\s*(?:(" ++ q ++ str "))\\s*", ?_, by simp [pattern]⟩
    rw [hw, leafPattern_wrap]
    simp [pattern]
  revert h
  refine leaf_cases (P := fun t => LeafOut E (pattern (own t)) i o → Peg E X (.term Γ name t vals i) o) ht (fun l _ h => ?_) fun l h => ?_
  · obtain ⟨p, h1, h2⟩ := key (str l) (quoteMeta (str l))
    exact .lit h1 (h2 ▸ h)
  · obtain ⟨p, h1, h2⟩ := key l l
    exact .regexp h1 (h2 ▸ h)

/-- The next word, if there is one, does not begin like such a token. -/
def Shies (t : Term) (ws : List Str) : Prop :=
  ws = [] ∨ ∃ c v ws', ws = (c :: v) :: ws' ∧ c ∉ whites ∧ mayStart t c v.head? = false

/-- No colon is next. -/
theorem Shies.colon {x : Str} (h : Shies (s ":") ws) (hx : LaidOut ws x) : x.head? ≠ Option.some 58 := by
  have hwhite : ∀ {y z : Str}, White y → y ≠ [] → (y ++ z).head? ≠ Option.some 58 := by
    intro y z hy hn e
    cases y with
    | nil => exact hn rfl
    | cons d y =>
      simp only [List.cons_append, List.head?_cons, Option.some.injEq] at e
      subst e
      exact absurd (white_byte (c := 58) hy (by simp)) (by decide)
  cases hx with
  | nil hx =>
    cases x with
    | nil => simp
    | cons d x => simpa using hwhite (z := []) hx (by simp)
  | @cons before w ws x k1 k2 k3 =>
    rcases h with h | ⟨c, v, ws', h, hc, hm⟩
    · cases h
    · simp only [List.cons.injEq] at h
      obtain ⟨rfl, rfl⟩ := h
      cases before with
      | nil =>
        simp only [List.nil_append, List.cons_append, List.head?_cons, ne_eq, Option.some.injEq]
        rintro rfl
        simp [mayStart, s, str] at hm
      | cons d before =>
        rw [List.append_assoc]
        exact hwhite k1 (by simp)

/-- A word is taken. -/
theorem leaf_takes (hE : E.Sane) (hC : EngineOK E) (hF : EngineFinds E) (ht : t ∈ leaves) (hΓ : Γ ∈ frames) (hw : Lexeme t w)
    (hp : t = re "[a-zA-Z0-9.:]+" → Shies (s ":") ws) (hs : Sits i (w :: ws)) :
    ∃ s j, s.toStr = Option.some w ∧ Sits j ws ∧ ∀ name vals, Peg E X (.term Γ name t vals i) (.ok (.leaf s) j) := by
  obtain ⟨hi, s, x, a, b, h1, h2, h3, h4, h5, _⟩ := hs
  cases h2 with
  | @cons before _ _ x' k1 k3 k4 =>
    obtain ⟨c, v, rfl, hc⟩ := hw.first ht
    rw [white_iff] at hc
    obtain ⟨s', g1, rfl⟩ := white_strip (c := c) (r := v ++ x') (b := b ++ before) h3 (white_append.2 ⟨h4, k1⟩) hc (by simpa using h5)
    obtain ⟨lead, r, rfl, g2, g3⟩ := white_split x'
    have hx : s' ++ c :: (v ++ (lead ++ r)) = s' ++ (c :: v) ++ lead ++ r := by simp
    obtain ⟨locs, f1, f2, f3⟩ := hF t ht _ hw s' lead r g1 g2 k3 g3 fun e => (hp e).colon k4
    have hx2 : i.slice = Option.some (s' ++ (c :: v) ++ lead ++ r) := by rw [slice_toStr hi, h1, hx]
    have hsafe : LeafSafe E (pattern (own t)) := by
      refine hC.groups _ (List.mem_cons_of_mem _ ?_)
      rw [leaves, List.mem_append, List.mem_map] at ht
      rcases ht with ⟨l, hl, rfl⟩ | ht
      · exact List.mem_append_left _ (List.mem_map_of_mem hl)
      · refine List.mem_append_right _ (List.mem_filterMap.2 ⟨t, ht, ?_⟩)
        simp only [regexps, List.mem_cons, List.not_mem_nil, or_false] at ht
        rcases ht with rfl | rfl | rfl | rfl | rfl | rfl | rfl | rfl <;> rfl
    obtain ⟨leaf, j, hl⟩ : ∃ leaf j, LeafOut E (pattern (own t)) i (.ok (.leaf leaf) j) := by
      obtain ⟨b, g, e | ⟨g', e⟩⟩ := hsafe _ _ f1
      · exact ⟨_, _, .one hx2 (e ▸ f1)⟩
      · exact ⟨_, _, .two hx2 (e ▸ f1)⟩
    obtain ⟨p1, _, text, _, rest, p2, _, _, ⟨rfl, rfl⟩, _, p3⟩ := leaf_at hE hi hl (Q := fun text rest => text = c :: v ∧ rest = r) fun y l hy hf => by
      rw [hx2, Option.some.injEq] at hy
      subst hy
      rw [f1, Option.some.injEq] at hf
      subst hf
      exact ⟨_, _, _, _, rfl, g1, g2, ⟨rfl, rfl⟩, f2, f3⟩
    refine ⟨leaf, j, p2, ⟨p1.inRange hi, rest, _, lead, [], p3, k4, g2, by simp [White], rfl, ?_⟩, leaf_peg ht hΓ hl⟩
    rintro rfl
    cases k4 with
    | nil hw =>
      cases rest with
      | nil => rfl
      | cons d rest =>
        have := (white_append.1 hw).2
        exact absurd (white_iff.2 (white_byte this (by simp))) (g3 d rfl)

theorem leaf_fails (hR : EngineReads E) (ht : t ∈ leaves) (hΓ : Γ ∈ frames) (h : Shies t ws) (hs : Sits i ws) :
    ∀ name vals, Peg E X (.term Γ name t vals i) .fail := by
  obtain ⟨hi, s, x, a, b, h1, h2, h3, h4, h5, h6⟩ := hs
  refine leaf_peg ht hΓ (.fail ((slice_toStr hi).trans h1) ?_)
  cases hf : E.find (pattern (own t)) s with
  | none => rfl
  | some locs =>
    obtain ⟨before, text, after, rest, rfl, w1, w2, htok, _, _⟩ := hR t ht s locs hf
    obtain ⟨c', v', rfl, hm⟩ := token_start ht htok
    exfalso
    rcases h with rfl | ⟨c, v, ws', rfl, hc, hn⟩
    · simpa using h6 rfl
    · cases h2 with
      | @cons before2 _ _ x' k1 k3 k4 =>
        have e := white_unique (a := a ++ before) (b := b ++ before2) (d := c') (c := c) (s := v' ++ after ++ rest) (r := v ++ x')
          (white_append.2 ⟨h3, w1⟩) (white_append.2 ⟨h4, k1⟩) hc (mayStart_white ht hm) (by simpa using h5)
        obtain ⟨rfl, e⟩ := e
        suffices mayStart t c' v.head? = true by rw [hn] at this; cases this
        cases v' with
        | nil => exact mayStart_short ht hm
        | cons d v' =>
          cases v with
          | cons d' v =>
            simp only [List.cons_append, List.cons.injEq] at e
            rw [e.1] at hm
            exact hm
          | nil =>
            cases x' with
            | nil => simp at e
            | cons d' x' =>
              simp only [List.cons_append, List.nil_append, List.cons.injEq] at e
              rw [List.head?_cons, e.1] at hm
              exact mayStart_pair ht (k3 c' d' rfl rfl).2.1 hm

end Wbnf.Core

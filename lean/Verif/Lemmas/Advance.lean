import Verif.Spec.Basic
import Verif.Lemmas.Eqns

/-! Every parser only advances the scanner, whether it succeeds or fails. -/

namespace Wbnf

theorem Advances.refl {a : Scanner} (h : a.InRange) : Advances a a := by
  obtain ⟨_, _, _, h, _⟩ := h
  exact ⟨rfl, Int.le_refl _, rfl, h⟩

theorem Advances.trans {a b c : Scanner} (h1 : Advances a b) (h2 : Advances b c) : Advances a c :=
  ⟨h2.src.trans h1.src, by have := h1.start; have := h2.start; omega,
    h2.stop.trans h1.stop, h2.nonneg⟩

theorem Advances.inRange {a b : Scanner} (h : Advances a b) (ha : a.InRange) : b.InRange := by
  obtain ⟨src, h1, h2, h3, h4⟩ := ha
  have := h.start; have := h.stop; have := h.nonneg
  exact ⟨src, h.src.trans h1, by omega, by omega, by omega⟩

/-- The scanner left by an outcome satisfies `Q`. -/
def Res.Left {α : Type} (r : Res α) (Q : Scanner → Prop) : Prop :=
  match r with
  | .ok _ i _ => Q i
  | .err _ i _ => Q i
  | _ => True

theorem Res.Left.imp {α} {r : Res α} {Q Q' : Scanner → Prop} (h : r.Left Q)
    (hq : ∀ i, Q i → Q' i) : r.Left Q' := by
  cases r <;> first | exact hq _ h | trivial

theorem Res.Left.bind {α β} {r : Res α} {f : α → Scanner → Nat → Res β} {Q Q' : Scanner → Prop}
    (h : r.Left Q) (hq : ∀ i, Q i → Q' i) (hf : ∀ v i k, Q i → (f v i k).Left Q') :
    (r.bind f).Left Q' := by
  cases r with
  | ok v i k => exact hf v i k h
  | err e i k => exact hq i h
  | panic => trivial
  | oof => trivial

theorem Res.Left.ofOption {α β} {o : Option α} {f : α → Res β} {Q : Scanner → Prop}
    (hf : ∀ v, (f v).Left Q) : (Res.ofOption o f).Left Q := by
  cases o with
  | none => trivial
  | some v => exact hf v

theorem Res.Left.ofExcept {α β} {o : Except Stop α} {f : α → Res β} {Q : Scanner → Prop}
    (hf : ∀ v, (f v).Left Q) : (Res.ofExcept o f).Left Q := by
  cases o with
  | error e => cases e <;> trivial
  | ok v => exact hf v

/-- Shape of a successful `EatRegexp` with a sane engine. -/
theorem eatRegexp_ok {E : Engine} (hE : E.Sane) {inp : Scanner} (hin : inp.InRange) {p : Str}
    {ncap n whole caps rest} (h : inp.eatRegexp (E.find p) ncap = .ok n whole caps rest) :
    Advances inp rest ∧ ∃ x b gs, inp.slice = some x ∧ E.find p x = some ((0, b) :: gs) ∧
      n = gs.length ∧ caps = (gs.take ncap).map (fun g => inp.sub g.1 g.2) ∧
      rest = inp.skip b ∧ 0 ≤ b ∧ b ≤ inp.len := by
  unfold Scanner.eatRegexp at h
  split at h
  · simp at h
  · rename_i x hx
    split at h
    · simp at h
    · simp at h
    · rename_i a b gs hf
      split at h
      · simp at h
      · rename_i ha
        simp at ha; subst ha
        simp only [EatRes.ok.injEq] at h
        obtain ⟨h1, _, h3, h4⟩ := h
        obtain ⟨a', b', gs', he, h5, h6, h7⟩ := hE.whole p x _ hf
        simp at he
        obtain ⟨⟨rfl, rfl⟩, rfl⟩ := he
        have hlen : (x.length : Int) = inp.len := by
          obtain ⟨src, i, m, rfl, hb⟩ := hin.elim
          rw [Scanner.slice_mk hb] at hx
          obtain rfl := Option.some.inj hx
          rw [bytesAt_length hb]
        refine ⟨?_, x, b, gs, hx, hf, h1.symm, h3.symm, h4.symm, h6, by omega⟩
        subst h4
        exact ⟨rfl, by simp [Scanner.skip]; omega, by simp [Scanner.skip]; omega,
          by simp [Scanner.skip]; omega⟩

theorem eatLeaf_left {E : Engine} (hE : E.Sane) {inp : Scanner} (hin : inp.InRange) {p sc k} :
    (eatLeaf (E.find p) sc inp k).Left (Advances inp) := by
  unfold eatLeaf
  split <;> first
    | trivial
    | exact Advances.refl hin
    | (rename_i h; exact (eatRegexp_ok hE hin h).1)

theorem closeEscape_left {E : Engine} (hE : E.Sane) {p v inp} (hin : inp.InRange) :
    match closeEscape E p v inp with
    | .yes _ i => Advances inp i
    | .err _ i => Advances inp i
    | _ => True := by
  unfold closeEscape
  split
  · rename_i h
    split at h
    · simp at h
    · simp at h
    · rename_i h2
      simp at h
      rw [← h.2]; exact (eatRegexp_ok hE hin h2).1
  · rename_i h
    split at h
    · simp at h
    · simp at h
      rw [← h.2]; exact Advances.refl hin
    · simp at h
  · trivial

theorem escaping_left {E : Engine} (hE : E.Sane) {X : Externals} (hX : X.Sane) {inp : Scanner}
    (hin : inp.InRange) {ident t sc k cont} (hc : Res.Left cont (Advances inp)) :
    (escaping E X ident t sc inp k cont).Left (Advances inp) := by
  unfold escaping parseEscape
  cases he : X.esc with
  | none => exact hc
  | some e =>
    simp only
    cases ho : inp.eatRegexp (E.find e.openDelim) 0 with
    | panic => trivial
    | noMatch => exact hc
    | ok n w c rest =>
      have hadv := (eatRegexp_ok hE hin ho).1
      have hs := hX.esc e he ⟨sc.getVal, sc.cp, ident, some t⟩ rest (hadv.inRange hin)
      simp only
      have key : ∀ (d : Str) (v : Tree) (i : Scanner), Advances rest i →
          Res.Left (match closeEscape E d v i with
            | .no => cont
            | .yes v i => .ok v i k
            | .err e i => .err e i k
            | .panic => .panic) (Advances inp) := by
        intro d v i hi
        have hi2 := hadv.trans hi
        have hcl := closeEscape_left hE (p := d) (v := v) (hi2.inRange hin)
        cases hh : closeEscape E d v i with
        | no => exact hc
        | yes v' i' => rw [hh] at hcl; exact hi2.trans hcl
        | err e' i' => rw [hh] at hcl; exact hi2.trans hcl
        | panic => trivial
      cases her : (e.external ⟨sc.getVal, sc.cp, ident, some t⟩ rest).err with
      | none => exact key e.closeDelim _ _ hs.1
      | some er =>
        cases er with
        | unconsumed tr res => exact key e.closeDelim tr res (hs.2 _ _ her)
        | _ => exact hadv.trans hs.1

theorem seqLoop_left {ρ} {f : P → Scope → Scanner → Nat → Res Tree} {ic : P → Bool}
    (hf : ∀ p sc i k, i.InRange → (f p sc i k).Left (Advances i)) (items : List (Str × P)) (sc i k)
    (hi : i.InRange) : (seqLoop ρ f ic items sc i k).Left (Advances i) := by
  induction items generalizing sc i k with
  | nil => exact Advances.refl hi
  | cons e items ih =>
    obtain ⟨ident, p⟩ := e
    simp only [seqLoop]
    have h := hf p sc i k hi
    cases hr : f p sc i k with
    | ok v i' k' =>
      rw [hr] at h
      simp only
      exact (ih _ i' _ (Advances.inRange h hi)).bind (fun j hj => Advances.trans h hj)
        (fun v j k hj => Advances.trans h hj)
    | err er i' k' =>
      rw [hr] at h
      simp only
      split
      · exact h
      · exact Advances.refl hi
    | panic => trivial
    | oof => trivial

theorem quantLoop_left {f : Scanner → Nat → Res Tree} {max cp}
    (hf : ∀ i k, i.InRange → (f i k).Left (Advances i)) (n cnt i k) (hi : i.InRange) :
    (quantLoop f max cp n cnt i k).Left (Advances i) := by
  induction n generalizing cnt i k with
  | zero => trivial
  | succ n ih =>
    rw [quantLoop]
    split
    · have h := hf i k hi
      cases hr : f i k with
      | ok v i' k' =>
        rw [hr] at h
        simp only
        exact (ih _ i' _ (Advances.inRange h hi)).bind (fun j hj => Advances.trans h hj)
          (fun v j k hj => Advances.trans h hj)
      | err er i' k' =>
        simp only
        split <;> exact Advances.refl hi
      | panic => trivial
      | oof => trivial
    · exact Advances.refl hi

theorem oneofLoop_left {f : P → Scanner → Nat → Res Tree} {tag prev my inp}
    (hf : ∀ p i k, i.InRange → (f p i k).Left (Advances i)) (hi : inp.InRange) (ps i fu k)
    (hfu : Advances inp fu) :
    (oneofLoop f tag prev my inp ps i fu k).Left (Advances inp) := by
  induction ps generalizing i fu k with
  | nil => exact hfu
  | cons p ps ih =>
    simp only [oneofLoop]
    have h := hf p inp k hi
    cases hr : f p inp k with
    | ok v i' k' => rw [hr] at h; exact h
    | err er i' k' =>
      rw [hr] at h
      simp only
      split
      · exact Advances.refl hi
      · apply ih
        split
        · exact h
        · exact hfu
    | panic => trivial
    | oof => trivial

theorem parse_left {E : Engine} (hE : E.Sane) {X : Externals} (hX : X.Sane) (ρ n env p sc inp k)
    (hin : inp.InRange) : (parse E X ρ n env p sc inp k).Left (Advances inp) := by
  induction n generalizing env p sc inp k with
  | zero => trivial
  | succ n ih =>
    have esc := fun {ident t cont} (h : Res.Left cont (Advances inp)) =>
      escaping_left hE hX hin (ident := ident) (t := t) (sc := sc) (k := k) h
    cases p with
    | rule => trivial
    | link r => exact Res.Left.ofOption fun q => ih _ _ _ _ _ hin
    | s => exact esc (eatLeaf_left hE hin)
    | re => exact esc (eatLeaf_left hE hin)
    | seq rule ts ps =>
      exact esc ((seqLoop_left (fun p sc i k hi => ih env p sc i k hi) _ sc inp k hin).bind
        (fun _ h => h) (fun _ _ _ h => h))
    | delim rule term sep a cs ce child =>
      exact esc ((ih env child sc inp k hin).bind (fun _ h => h)
        (fun _ _ _ h => Res.Left.ofOption fun _ => h))
    | look rule t q =>
      apply esc
      cases parse E X ρ n env q sc inp k <;> first | trivial | exact Advances.refl hin
    | quant rule t lo hi q =>
      refine esc ((quantLoop_left (fun i k hi => ih env q _ i k hi) _ _ inp _ hin).bind
        (fun _ h => h) (fun vs _ _ h => ?_))
      split <;> exact h
    | oneof rule ts ps =>
      exact esc (oneofLoop_left (fun p i k hi => ih env p _ i k hi) hin _ _ _ _ (Advances.refl hin))
    | ref ident dflt =>
      rw [parse_ref]
      apply esc
      split
      · refine Res.Left.ofOption fun t => Res.Left.ofExcept fun q =>
          (ih [] q sc inp k hin).bind (fun _ h => h) fun v i k' h => Res.Left.ofOption fun b => ?_
        split <;> exact h
      · cases dflt with
        | none => exact Advances.refl hin
        | some t => exact Res.Left.ofExcept fun q => ih [] q sc inp k hin
    | ext name =>
      rw [parse_ext]
      apply esc
      split
      · exact Advances.refl hin
      · rename_i f hf
        have := (hX.refs name f hf ⟨sc.getVal, sc.cp, [], none⟩ inp hin).1
        unfold extResult
        split <;> exact this
    | scope f b => exact ih _ _ _ _ _ hin
    | cut q t => exact ih _ _ _ _ _ hin

end Wbnf

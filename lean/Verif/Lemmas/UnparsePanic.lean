import Verif.Lemmas.UnparseTo

/-! `Unparse` panics to a writer that does not fail whenever it panics. -/

namespace Wbnf

variable {w : Writer}

theorem feed_never (hw : ∀ before y, (w before y).2 = false) : ∀ (xs before : List Str), (feed w before xs).2.2 = false
  | [], _ => rfl
  | x :: xs, before => by
    simp only [feed, hw, Bool.false_eq_true, ↓reduceIte]
    exact feed_never hw xs _

theorem bind_stops {α β : Type} {x : Except Stop α} {f : α → Except Stop β} {s : Stop} (h : x.bind f = .error s) :
    x = .error s ∨ ∃ a, x = .ok a ∧ f a = .error s := by
  cases x with
  | error => cases h; exact .inl rfl
  | ok a => exact .inr ⟨a, rfl, h⟩

/-- A child is written, and then something fails; or it fails. -/
theorem stops_step (hw : ∀ before y, (w before y).2 = false) {a : Except Stop Str} {a' : Writer → List Str → Except Stop Wrote} {b : Except Stop Str}
    {b' : List Str → Nat → Except Stop Wrote} {s : Stop} (h : a.bind (fun x => b.bind fun y => .ok (x ++ y)) = .error s)
    (ha : ∀ x, a = .ok x → Sliced a' x) (hea : a = .error s → ∀ calls, a' w calls = .error s) (heb : b = .error s → ∀ calls so, b' calls so = .error s)
    (calls : List Str) (so : Nat) : ((a' w calls).bind fun o => o.andThen so b') = .error s := by
  rcases bind_stops h with h | ⟨x, h1, h⟩
  · rw [hea h]; rfl
  · obtain ⟨xs, _, hx⟩ := ha x h1
    obtain ⟨k, h2, _⟩ := hx w calls
    rw [h2]
    simp only [Except.bind, Wrote.andThen, feed_never hw, Bool.false_eq_true, ↓reduceIte]
    rcases bind_stops h with h | ⟨_, _, h⟩
    · exact heb h _ _
    · cases h

theorem seqTo_stops (hw : ∀ before y, (w before y).2 = false) {f : Term → Tree → Except Stop Str}
    {f' : Writer → Term → Tree → List Str → Except Stop Wrote} {s : Stop}
    (h : ∀ t v x, f t v = .ok x → Sliced (fun w => f' w t v) x) (he : ∀ t v, f t v = .error s → ∀ calls, f' w t v calls = .error s) :
    ∀ {ts : List Term} {vs : List Tree}, unparseSeq f ts vs = .error s → ∀ calls so, unparseSeqTo (f' w) ts vs calls so = .error s
  | [], _, e => by cases e
  | _ :: _, [], e => by cases e; intro _ _; rfl
  | t :: ts, v :: vs, e => stops_step hw (a' := fun w => f' w t v) e (h t v) (he t v) (seqTo_stops hw h he)

theorem allTo_stops (hw : ∀ before y, (w before y).2 = false) {f : Tree → Except Stop Str}
    {f' : Writer → Tree → List Str → Except Stop Wrote} {s : Stop}
    (h : ∀ v x, f v = .ok x → Sliced (fun w => f' w v) x) (he : ∀ v, f v = .error s → ∀ calls, f' w v calls = .error s) :
    ∀ {vs : List Tree}, unparseAll f vs = .error s → ∀ calls so, unparseAllTo (f' w) vs calls so = .error s
  | [], e => by cases e
  | v :: vs, e => stops_step hw (a' := fun w => f' w v) e (h v) (he v) (allTo_stops hw h he)

theorem delimTo_stops (hw : ∀ before y, (w before y).2 = false) {f : Term → Tree → Except Stop Str}
    {f' : Writer → Term → Tree → List Str → Except Stop Wrote} {s : Stop} {sep : Term}
    (h : ∀ t v x, f t v = .ok x → Sliced (fun w => f' w t v) x) (he : ∀ t v, f t v = .error s → ∀ calls, f' w t v calls = .error s) :
    ∀ {vs : List Tree} {side other : Term} {b : Bool}, unparseDelim f sep side other b vs = .error s →
    ∀ calls so, unparseDelimTo (f' w) sep side other b vs calls so = .error s
  | [], _, _, b, e => by cases b <;> (rw [unparseDelim] at e; cases e)
  | v :: vs, side, other, true, e => stops_step hw (a' := fun w => f' w sep v) e (h sep v) (he sep v) (delimTo_stops hw h he)
  | v :: vs, side, other, false, e => stops_step hw (a' := fun w => f' w side v) e (h side v) (he side v) (delimTo_stops hw h he)

theorem unparseTo_stops (hw : ∀ before y, (w before y).2 = false) {g : Grammar} {s : Stop} : ∀ {n : Nat} {t : Term} {e : Tree},
    unparse n g t e = .error s → ∀ calls, unparseTo w n g t e calls = .error s
  | 0, _, _, h, _ => by cases h; rfl
  | n + 1, t, e, h, calls => by
    have ih : ∀ t e, unparse n g t e = .error s → ∀ calls, unparseTo w n g t e calls = .error s := fun t e h => unparseTo_stops hw h
    have ok := fun t e x => @unparseTo_writes g n t e x
    cases t with
    | s l => simp only [unparse, unparseTo] at h ⊢; rw [h]; rfl
    | re l => simp only [unparse, unparseTo] at h ⊢; rw [h]; rfl
    | ref i d =>
      simp only [unparse, unparseTo] at h ⊢
      rcases bind_stops h with h | ⟨_, _, h⟩
      · rw [h]; rfl
      · cases h
    | seq ts =>
      cases e with
      | node tag ex cs => exact seqTo_stops hw (f' := fun w => unparseTo w n g) (fun t v x => ok t v x) ih h calls 0
      | _ => cases h; rfl
    | oneof ts =>
      simp only [unparse, unparseTo] at h ⊢
      split at h
      · split at h
        · next ht =>
          simp only [ht]
          exact ih _ _ h calls
        · next ht =>
          simp only [ht]
          cases h; rfl
      · next hne =>
        split
        · next h1 => exact (hne _ _ _ _ rfl).elim
        · cases h; rfl
    | delim t' sep a cs ce =>
      have D := fun vs side other b => @delimTo_stops w hw _ (fun w => unparseTo w n g) s sep (fun t v x => ok t v x) ih vs side other b
      simp only [unparse, unparseTo] at h ⊢
      split at h
      · split at h
        · next ha =>
          simp only [ha, ↓reduceIte]
          exact D _ _ _ _ h calls 0
        · next ha =>
          simp only [ha, ↓reduceIte]
          split at h
          · next hb =>
            simp only [hb, ↓reduceIte]
            exact D _ _ _ _ h calls 0
          · next hb =>
            simp only [hb, ↓reduceIte]
            exact D _ _ _ _ h calls 0
      · next hne =>
        split
        · next h1 => exact (hne _ _ _ rfl).elim
        · cases h; rfl
    | look t' =>
      cases e with
      | node tag ex cs => exact allTo_stops hw (f' := fun w => unparseTo w n g t') (fun v x => ok t' v x) (ih t') h calls 0
      | _ => cases h; rfl
    | quant t' lo hi =>
      cases e with
      | node tag ex cs => exact allTo_stops hw (f' := fun w => unparseTo w n g t') (fun v x => ok t' v x) (ih t') h calls 0
      | _ => cases h; rfl
    | rule r =>
      simp only [unparse, unparseTo] at h ⊢
      split at h
      · next ht =>
        simp only [ht]
        exact ih _ _ h calls
      · next ht =>
        simp only [ht]
        cases h; rfl
    | named m t' =>
      simp only [unparse, unparseTo] at h ⊢
      rw [ih t' e h calls]
      rfl
    | cut t' => exact ih t' e h calls
    | stack => cases h; rfl
    | scope => cases h; rfl
    | ext => cases h; rfl

theorem stops_top (hw : ∀ before y, (w before y).2 = false) {g : Grammar} {n : Nat} {tree : Tree} {s : Stop} (h : g.unparse n tree = .error s) :
    g.unparseTo w n tree = .error s := by
  cases tree with
  | node tag ex cs =>
    simp only [Grammar.unparse, Grammar.unparseTo] at h ⊢
    cases ht : lookup tag g with
    | none => rw [ht] at h; cases h; rfl
    | some t =>
      rw [ht] at h
      exact unparseTo_stops hw h []
  | _ => cases h; rfl

end Wbnf

import Verif.Spec.UnparseTo

/-! What `Unparse` writes, in slices. -/

namespace Wbnf

variable {w : Writer}

theorem feed_stop : ∀ {xs before : List Str} (ys : List Str), (feed w before xs).2.2 = true →
    (feed w before (xs ++ ys)).1 = (feed w before xs).1 ∧ (feed w before (xs ++ ys)).2.2 = true
  | [], _, _, h => by simp [feed] at h
  | x :: xs, before, ys, h => by
    simp only [List.cons_append, feed] at h ⊢
    split at h
    · next hb => simp [hb]
    · next hb =>
      simp only [hb, Bool.false_eq_true, ↓reduceIte]
      exact feed_stop ys h

theorem feed_go : ∀ {xs before : List Str} (ys : List Str), (feed w before xs).2.2 = false →
    feed w before (xs ++ ys) = ((feed w (feed w before xs).1 ys).1, (feed w before xs).2.1 + (feed w (feed w before xs).1 ys).2.1,
      (feed w (feed w before xs).1 ys).2.2)
  | [], before, ys, _ => by simp [feed]
  | x :: xs, before, ys, h => by
    simp only [List.cons_append, feed] at h ⊢
    split at h
    · cases h
    · next hb =>
      simp only [hb, Bool.false_eq_true, ↓reduceIte]
      rw [feed_go ys h]
      simp [Nat.add_assoc]

/-- The slices given are the first ones. -/
theorem feed_first : ∀ (xs before : List Str), ∃ ys zs, xs = ys ++ zs ∧ (feed w before xs).1 = before ++ ys ∧ ((feed w before xs).2.2 = false → zs = [])
  | [], before => ⟨[], [], rfl, by simp [feed], fun _ => rfl⟩
  | x :: xs, before => by
    simp only [feed]
    split
    · exact ⟨[x], xs, rfl, rfl, nofun⟩
    · obtain ⟨ys, zs, h1, h2, h3⟩ := feed_first xs (before ++ [x])
      exact ⟨x :: ys, zs, by rw [h1]; rfl, by simp [h2], h3⟩

/-- A write fails if and only if it is the last one of those that fail. -/
theorem feed_last : ∀ {xs before a b : List Str} {y : Str}, (feed w before xs).1 = before ++ a ++ y :: b →
    ((w (before ++ a) y).2 = true ↔ (feed w before xs).2.2 = true ∧ b = [])
  | [], before, a, b, y, h => by
    have := congrArg List.length h
    simp [feed] at this
  | x :: xs, before, a, b, y, h => by
    simp only [feed] at h ⊢
    split at h
    · next hb =>
      rw [List.append_assoc] at h
      have h := List.append_cancel_left h
      cases a with
      | nil =>
        cases h
        simp [hb]
      | cons c a =>
        have := congrArg List.length h
        simp at this
    · next hb =>
      simp only [hb, Bool.false_eq_true, ↓reduceIte]
      obtain ⟨ys, zs, _, h2, _⟩ := feed_first (w := w) xs (before ++ [x])
      have h' := h
      rw [h2, List.append_assoc, List.append_assoc] at h'
      have h' := List.append_cancel_left h'
      cases a with
      | nil =>
        simp only [List.nil_append, List.cons_append, List.cons.injEq] at h'
        obtain ⟨rfl, rfl⟩ := h'
        simp only [List.append_nil, hb, Bool.false_eq_true, false_iff]
        intro ⟨hf, hn⟩
        subst hn
        cases xs with
        | nil => simp [feed] at hf
        | cons z zs' =>
          have := congrArg List.length h
          obtain ⟨ys, zs, _, h2, _⟩ := feed_first (w := w) zs' (before ++ [x] ++ [z])
          simp only [feed] at this
          split at this
          · simp at this
          · rw [h2] at this
            simp at this
      | cons c a =>
        simp only [List.cons_append, List.nil_append, List.cons.injEq] at h'
        obtain ⟨rfl, _⟩ := h'
        have := feed_last (xs := xs) (before := before ++ [x]) (a := a) (b := b) (y := y) (by rw [h]; simp)
        simpa using this

/-- The numbers add up to the lengths if they are the lengths. -/
theorem feed_lengths (h : ∀ before y, (w before y).1 = y.length) : ∀ (xs before : List Str), (feed w before xs).2.2 = false →
    (feed w before xs).2.1 = xs.flatten.length
  | [], _, _ => rfl
  | x :: xs, before, hf => by
    simp only [feed] at hf ⊢
    split at hf
    · cases hf
    · next hb =>
      simp only [hb, Bool.false_eq_true, ↓reduceIte]
      rw [feed_lengths h xs _ hf, h]
      simp

/-- Writing the slices is what is done, from a number on. -/
def Does (w : Writer) (r : List Str → Nat → Except Stop Wrote) (xs : List Str) : Prop :=
  ∀ calls so, ∃ k, r calls so = .ok ⟨(feed w calls xs).1, k, (feed w calls xs).2.2⟩ ∧ ((feed w calls xs).2.2 = false → k = so + (feed w calls xs).2.1)

/-- The same for what begins to count. -/
def WritesTo (w : Writer) (r : List Str → Except Stop Wrote) (xs : List Str) : Prop :=
  ∀ calls, ∃ k, r calls = .ok ⟨(feed w calls xs).1, k, (feed w calls xs).2.2⟩ ∧ ((feed w calls xs).2.2 = false → k = (feed w calls xs).2.1)

theorem Does.writes {r : List Str → Nat → Except Stop Wrote} {xs : List Str} (h : Does w r xs) : WritesTo w (fun c => r c 0) xs := fun calls => by
  obtain ⟨k, h1, h2⟩ := h calls 0
  exact ⟨k, h1, fun h => by rw [h2 h, Nat.zero_add]⟩

theorem does_nil : Does w (fun c so => .ok ⟨c, so, false⟩) [] := fun _ so => ⟨so, rfl, fun _ => rfl⟩

theorem WritesTo.andThen {a : List Str → Except Stop Wrote} {b : List Str → Nat → Except Stop Wrote} {xs ys : List Str} (ha : WritesTo w a xs)
    (hb : Does w b ys) : Does w (fun c so => (a c).bind fun o => o.andThen so b) (xs ++ ys) := by
  intro calls so
  obtain ⟨k, h1, h2⟩ := ha calls
  dsimp only
  rw [h1]
  simp only [Except.bind, Wrote.andThen]
  cases hf : (feed w calls xs).2.2 with
  | true =>
    obtain ⟨e1, e2⟩ := feed_stop ys hf
    exact ⟨so, by simp [e1, e2], fun h => by rw [e2] at h; cases h⟩
  | false =>
    obtain ⟨k', h3, h4⟩ := hb (feed w calls xs).1 (so + k)
    refine ⟨k', ?_, fun h => ?_⟩
    · simp only [Bool.false_eq_true, ↓reduceIte]
      rw [h3, feed_go ys hf]
    · rw [feed_go ys hf] at h ⊢
      rw [h4 h, h2 hf]
      simp [Nat.add_assoc]

theorem writes_leaf {e : Tree} {x y : Str} (p : Str → Str) (h : leafText e = .ok x) (hy : p x = y) :
    WritesTo w (fun c => (leafText e).bind fun x => .ok (w.write (p x) c)) [y] := by
  intro calls
  rw [h]
  subst hy
  simp only [Except.bind, Writer.write, feed]
  cases hb : (w calls (p x)).2 <;> simp

theorem bind_done {α β : Type} {x : Except Stop α} {f : α → Except Stop β} {y : β} (h : x.bind f = .ok y) : ∃ a, x = .ok a ∧ f a = .ok y := by
  cases x with
  | error => cases h
  | ok a => exact ⟨a, rfl, h⟩

/-- What a term writes of a tree comes in these slices, whatever the writer. -/
def Sliced (f : Writer → List Str → Except Stop Wrote) (x : Str) : Prop := ∃ xs : List Str, xs.flatten = x ∧ ∀ w, WritesTo w (f w) xs

theorem seqTo_writes {f : Term → Tree → Except Stop Str} {f' : Writer → Term → Tree → List Str → Except Stop Wrote}
    (h : ∀ t v x, f t v = .ok x → Sliced (fun w => f' w t v) x) : ∀ {ts : List Term} {vs : List Tree} {x : Str}, unparseSeq f ts vs = .ok x →
    ∃ xs : List Str, xs.flatten = x ∧ ∀ w, Does w (unparseSeqTo (f' w) ts vs) xs
  | [], _, _, e => by cases e; exact ⟨[], rfl, fun _ => does_nil⟩
  | _ :: _, [], _, e => by cases e
  | t :: ts, v :: vs, _, e => by
    obtain ⟨a, ha, e⟩ := bind_done e
    obtain ⟨b, hb, e⟩ := bind_done e
    cases e
    obtain ⟨xs, rfl, hx⟩ := h _ _ _ ha
    obtain ⟨ys, rfl, hy⟩ := seqTo_writes h hb
    exact ⟨xs ++ ys, by simp, fun w => (hx w).andThen (hy w)⟩

theorem allTo_writes {f : Tree → Except Stop Str} {f' : Writer → Tree → List Str → Except Stop Wrote}
    (h : ∀ v x, f v = .ok x → Sliced (fun w => f' w v) x) : ∀ {vs : List Tree} {x : Str}, unparseAll f vs = .ok x →
    ∃ xs : List Str, xs.flatten = x ∧ ∀ w, Does w (unparseAllTo (f' w) vs) xs
  | [], _, e => by cases e; exact ⟨[], rfl, fun _ => does_nil⟩
  | v :: vs, _, e => by
    obtain ⟨a, ha, e⟩ := bind_done e
    obtain ⟨b, hb, e⟩ := bind_done e
    cases e
    obtain ⟨xs, rfl, hx⟩ := h _ _ ha
    obtain ⟨ys, rfl, hy⟩ := allTo_writes h hb
    exact ⟨xs ++ ys, by simp, fun w => (hx w).andThen (hy w)⟩

theorem delimTo_writes {f : Term → Tree → Except Stop Str} {f' : Writer → Term → Tree → List Str → Except Stop Wrote} {sep : Term}
    (h : ∀ t v x, f t v = .ok x → Sliced (fun w => f' w t v) x) : ∀ {vs : List Tree} {side other : Term} {b : Bool} {x : Str},
    unparseDelim f sep side other b vs = .ok x → ∃ xs : List Str, xs.flatten = x ∧ ∀ w, Does w (unparseDelimTo (f' w) sep side other b vs) xs
  | [], _, _, b, _, e => by
    cases b <;> (rw [unparseDelim] at e; cases e; exact ⟨[], rfl, fun _ calls so => by rw [unparseDelimTo]; exact does_nil calls so⟩)
  | v :: vs, side, other, true, _, e => by
    obtain ⟨a, ha, e⟩ := bind_done e
    obtain ⟨b, hb, e⟩ := bind_done e
    cases e
    obtain ⟨xs, rfl, hx⟩ := h _ _ _ ha
    obtain ⟨ys, rfl, hy⟩ := delimTo_writes h hb
    exact ⟨xs ++ ys, by simp, fun w => (hx w).andThen (hy w)⟩
  | v :: vs, side, other, false, _, e => by
    obtain ⟨a, ha, e⟩ := bind_done e
    obtain ⟨b, hb, e⟩ := bind_done e
    cases e
    obtain ⟨xs, rfl, hx⟩ := h _ _ _ ha
    obtain ⟨ys, rfl, hy⟩ := delimTo_writes h hb
    exact ⟨xs ++ ys, by simp, fun w => (hx w).andThen (hy w)⟩

theorem unparseTo_writes {g : Grammar} : ∀ {n : Nat} {t : Term} {e : Tree} {x : Str}, unparse n g t e = .ok x →
    Sliced (fun w => unparseTo w n g t e) x
  | 0, _, _, _, h => by cases h
  | n + 1, t, e, x, h => by
    have ih := fun t e x => @unparseTo_writes g n t e x
    cases t with
    | s l => exact ⟨[x], by simp, fun w => writes_leaf id h rfl⟩
    | re l => exact ⟨[x], by simp, fun w => writes_leaf id h rfl⟩
    | ref i d =>
      obtain ⟨a, ha, h⟩ := bind_done h
      cases h
      exact ⟨[str "\\" ++ a], by simp, fun w => writes_leaf (str "\\" ++ ·) ha rfl⟩
    | seq ts =>
      cases e with
      | node tag ex cs =>
        obtain ⟨xs, rfl, hx⟩ := seqTo_writes (f' := fun w => unparseTo w n g) (fun t v x => ih t v x) h
        exact ⟨xs, rfl, fun w => (hx w).writes⟩
      | _ => cases h
    | oneof ts =>
      simp only [unparse, unparseTo] at h ⊢
      split at h
      · split at h
        · next ht =>
          simp only [ht]
          exact ih _ _ _ h
        · cases h
      · cases h
    | delim t' sep a cs ce =>
      simp only [unparse, unparseTo] at h ⊢
      split at h
      · split at h
        · next ha =>
          simp only [ha, ↓reduceIte]
          obtain ⟨xs, rfl, hx⟩ := delimTo_writes (f' := fun w => unparseTo w n g) (fun t v x => ih t v x) h
          exact ⟨xs, rfl, fun w => (hx w).writes⟩
        · next ha =>
          simp only [ha, ↓reduceIte]
          split at h
          · next hb =>
            simp only [hb, ↓reduceIte]
            obtain ⟨xs, rfl, hx⟩ := delimTo_writes (f' := fun w => unparseTo w n g) (fun t v x => ih t v x) h
            exact ⟨xs, rfl, fun w => (hx w).writes⟩
          · next hb =>
            simp only [hb, ↓reduceIte]
            obtain ⟨xs, rfl, hx⟩ := delimTo_writes (f' := fun w => unparseTo w n g) (fun t v x => ih t v x) h
            exact ⟨xs, rfl, fun w => (hx w).writes⟩
      · cases h
    | look t' =>
      cases e with
      | node tag ex cs =>
        obtain ⟨xs, rfl, hx⟩ := allTo_writes (f' := fun w => unparseTo w n g t') (fun v x => ih t' v x) h
        exact ⟨xs, rfl, fun w => (hx w).writes⟩
      | _ => cases h
    | quant t' lo hi =>
      cases e with
      | node tag ex cs =>
        obtain ⟨xs, rfl, hx⟩ := allTo_writes (f' := fun w => unparseTo w n g t') (fun v x => ih t' v x) h
        exact ⟨xs, rfl, fun w => (hx w).writes⟩
      | _ => cases h
    | rule r =>
      simp only [unparse, unparseTo] at h ⊢
      split at h
      · next ht =>
        simp only [ht]
        exact ih _ _ _ h
      · cases h
    | named m t' =>
      obtain ⟨xs, rfl, hx⟩ := ih t' e x h
      refine ⟨xs, rfl, fun w => ?_⟩
      have := ((hx w).andThen does_nil).writes
      rwa [List.append_nil] at this
    | cut t' => exact ih t' e x h
    | stack => cases h
    | scope => cases h
    | ext => cases h

end Wbnf

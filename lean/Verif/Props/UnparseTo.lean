import Verif.Lemmas.UnparseCount
import Verif.Lemmas.UnparsePanic
import Verif.Lemmas.DecEq
import Verif.Props.Unparse

/-!
# C75: Unparse to any writer
-/

namespace Wbnf

variable {g : Grammar} {n : Nat} {tree : Tree} {x : Str}

/-- **C75** What `Unparse` writes comes in slices that do not depend on the writer: they are written in order until one fails, an error is returned
if and only if one fails, and if none fails the number returned is the sum of those returned by the writes. -/
theorem C75_slices (h : g.unparse n tree = .ok x) : ∃ xs : List Str, xs.flatten = x ∧ ∀ w : Writer, ∃ o, g.unparseTo w n tree = .ok o ∧
    o.calls = (feed w [] xs).1 ∧ o.failed = (feed w [] xs).2.2 ∧ (o.failed = false → o.n = (feed w [] xs).2.1) := by
  cases tree with
  | node tag ex cs =>
    simp only [Grammar.unparse, Grammar.unparseTo] at h ⊢
    cases ht : lookup tag g with
    | none => rw [ht] at h; cases h
    | some t =>
      rw [ht] at h
      obtain ⟨xs, hx, hw⟩ := unparseTo_writes h
      refine ⟨xs, hx, fun w => ?_⟩
      obtain ⟨k, h1, h2⟩ := hw w []
      exact ⟨_, h1, rfl, rfl, h2⟩
  | _ => cases h

/-- **C75** A writer is given a beginning of the text, and all of it unless a write fails. A write fails if and only if an error is returned and
it is the last write: nothing is written after a write that fails, and no error is lost or made up. -/
theorem C75_stops (h : g.unparse n tree = .ok x) (w : Writer) : ∃ o, g.unparseTo w n tree = .ok o ∧ o.calls.flatten <+: x ∧
    (o.failed = false → o.calls.flatten = x) ∧ (∀ a y b, o.calls = a ++ y :: b → ((w a y).2 = true ↔ o.failed = true ∧ b = [])) ∧
    (o.failed = true → o.calls ≠ []) := by
  obtain ⟨xs, rfl, hw⟩ := C75_slices h
  obtain ⟨o, h1, h2, h3, _⟩ := hw w
  obtain ⟨ys, zs, e, h4, h5⟩ := feed_first (w := w) xs []
  rw [← h2] at h4
  rw [← h3] at h5
  refine ⟨o, h1, ⟨zs.flatten, by rw [h4, e]; simp⟩, fun hf => by rw [h4, e, h5 hf]; simp, fun a y b hab => ?_, fun hf hn => ?_⟩
  · rw [h3]
    have := feed_last (w := w) (xs := xs) (before := []) (a := a) (b := b) (y := y) (by rw [← h2, hab]; rfl)
    simpa using this
  · rw [h3] at hf
    rw [h2] at hn
    cases xs with
    | nil => cases hf
    | cons z zs' =>
      simp only [feed] at hn
      split at hn
      · cases hn
      · obtain ⟨ys, _, _, h, _⟩ := feed_first (w := w) zs' ([] ++ [z])
        rw [h] at hn
        cases hn

/-- **C75** To a writer whose writes succeed, and return the lengths written, all the text is written, and its length is returned. -/
theorem C75_all (h : g.unparse n tree = .ok x) {w : Writer} (hw : ∀ before y, w before y = (y.length, false)) :
    ∃ calls, g.unparseTo w n tree = .ok ⟨calls, x.length, false⟩ ∧ calls.flatten = x := by
  obtain ⟨xs, rfl, hs⟩ := C75_slices h
  obtain ⟨⟨calls, k, f⟩, h1, h2, h3, h4⟩ := hs w
  have hf : ∀ (xs before : List Str), (feed w before xs).2.2 = false := by
    intro xs
    induction xs with
    | nil => intro _; rfl
    | cons y ys ih => intro before; simp only [feed, hw]; exact ih _
  simp only [hf] at h3
  subst h3
  obtain ⟨ys, zs, e, h5, h6⟩ := feed_first (w := w) xs []
  have := h6 (hf _ _)
  refine ⟨calls, ?_, ?_⟩
  · rw [h1]
    have := h4 rfl
    simp only at this
    rw [this, feed_lengths (fun b y => by rw [hw]) _ _ (hf _ _)]
  · simp only at h2
    rw [h2, h5, e, this]
    simp

/-- **C75** Which writer it is does not matter for panics, as long as its writes succeed (a panic may come after a write that fails, and is then avoided). -/
theorem C75_panics {w : Writer} (hw : ∀ before y, (w before y).2 = false) (s : Stop) : g.unparseTo w n tree = .error s ↔ g.unparse n tree = .error s := by
  constructor
  · intro h
    cases h' : g.unparse n tree with
    | ok x =>
      obtain ⟨_, _, hs⟩ := C75_slices h'
      obtain ⟨_, e, _⟩ := hs w
      rw [h] at e
      cases e
    | error s' =>
      have : g.unparseTo w n tree = .error s' := stops_top hw h'
      rw [h] at this
      cases this
      rfl
  · exact stops_top hw

/-- **C75** The number returned without an error is the number of bytes written, if that is what the writes that succeed return. What is missing is
the same for the number returned with an error: see `C75_count_false`. -/
theorem C75_count_partial (h : g.unparse n tree = .ok x) {w : Writer} (hw : ∀ before y, (w before y).1 = y.length) {o : Wrote}
    (ho : g.unparseTo w n tree = .ok o) (hf : o.failed = false) : o.n = x.length := by
  obtain ⟨xs, rfl, hs⟩ := C75_slices h
  obtain ⟨o', h1, h2, h3, h4⟩ := hs w
  rw [ho] at h1
  cases h1
  rw [h4 hf, feed_lengths hw _ _ (by rw [← h3, hf])]

/-- **C75** With or without an error, and whether or not other writers make it panic, the number returned is never more than the bytes given to the
writer, if no write returns more than it was given. -/
theorem C75_count_most {w : Writer} (hw : ∀ before y, (w before y).1 ≤ y.length) {o : Wrote} (h : g.unparseTo w n tree = .ok o) :
    o.n ≤ o.calls.flatten.length := by
  cases tree with
  | node tag ex cs =>
    simp only [Grammar.unparseTo] at h
    split at h
    · have := unparseTo_counts hw _ _ _ _ _ h
      simpa using this
    · cases h
  | _ => cases h

/-- **C75** with **C26**: what a parse consumed is what a writer whose writes succeed is given, and any other is given a beginning of it. What is missing
is what is missing of `C26_roundtrip_partial`; the case at the end of Props/Unparse meets the hypotheses. -/
theorem C75_roundtrip_partial {E : Engine} {X : Externals} {ρ : Nat → Nat} {m k : Nat} {ps : Parsers} {r : Str} {inp rest : Scanner}
    (hE : E.Sane) (hg : g.wf = true) (hd : g.Deep Term.Writable) (hc : g.compile E m = .ok ps) (hesc : X.esc = none)
    (hin : inp.InRange) (hl : NoLook [ps.grammar] (.rule r)) (hp : PatternsSatisfy (ReportsAll E) [ps.grammar] (.rule r)) {x cs}
    (h : ps.run E X ρ n r inp = .ok (.node r x cs) rest k) :
    ∃ y left N, inp.toStr = some (y ++ left) ∧ rest.toStr = some left ∧ ∀ n, N ≤ n → ∀ w : Writer, ∃ o,
      ps.grammar.unparseTo w n (.node r x cs) = .ok o ∧ o.calls.flatten <+: y ∧ (o.failed = false → o.calls.flatten = y) ∧
      ((∀ before z, (w before z).2 = false) → o.failed = false) := by
  obtain ⟨y, left, N, h1, h2, h3⟩ := C26_roundtrip_partial hE hg hd hc hesc hin hl hp h
  refine ⟨y, left, N, h1, h2, fun n hn w => ?_⟩
  obtain ⟨o, h4, h5, h6, h7, h8⟩ := C75_stops (h3 n hn) w
  refine ⟨o, h4, h5, h6, fun hw => ?_⟩
  cases hf : o.failed with
  | false => rfl
  | true =>
    have hne := h8 hf
    have := (h7 o.calls.dropLast (o.calls.getLast hne) [] (List.dropLast_append_getLast hne).symm).2 ⟨hf, rfl⟩
    rw [hw] at this
    cases this

namespace Ex

/-- `a -> ("x" "y") "z";` -/
def gXyz : Grammar := [(str "a", .seq [.seq [.s (str "x"), .s (str "y")], .s (str "z")])]

/-- The tree of `xyz`. -/
def tXyz : Tree := .node (str "a") .nil [.node (str "_") .nil [.leaf (newScanner (str "x")), .leaf (newScanner (str "y"))], .leaf (newScanner (str "z"))]

/-- A writer with room for one byte. -/
def oneByte : Writer := fun before y => if before.flatten.length + y.length ≤ 1 then (y.length, false) else (1 - before.flatten.length, true)

end Ex

open Ex in
/-- **C75** With an error the number may be too small, even that of a writer with room for one byte which is filled: `x` is written, and the number is 0. -/
theorem C75_count_false : gXyz.unparse 9 tXyz = .ok (str "xyz") ∧
    gXyz.unparseTo oneByte 9 tXyz = .ok ⟨[str "x", str "y"], 0, true⟩ ∧
    oneByte [] (str "x") = (1, false) ∧ oneByte [str "x"] (str "y") = (0, true) := by
  refine ⟨?_, ?_, ?_, ?_⟩ <;> rfl

open Ex in
/-- The hypotheses of the theorems, and a writer that takes all. -/
example : gXyz.unparse 9 tXyz = .ok (str "xyz") ∧
    gXyz.unparseTo (fun _ y => (y.length, false)) 9 tXyz = .ok ⟨[str "x", str "y", str "z"], 3, false⟩ ∧
    feed oneByte [] [str "x", str "y", str "z"] = ([str "x", str "y"], 1, true) := by
  refine ⟨?_, ?_, ?_⟩ <;> rfl

open Ex in
/-- A tree on which Unparse panics: a child is missing. -/
example : gXyz.unparse 9 (.node (str "a") .nil []) = .error .panic ∧
    gXyz.unparseTo (fun _ y => (y.length, false)) 9 (.node (str "a") .nil []) = .error .panic := by
  refine ⟨?_, ?_⟩ <;> rfl

end Wbnf

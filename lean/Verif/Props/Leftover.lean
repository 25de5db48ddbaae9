import Verif.Lemmas.Leftover
import Verif.Props.Consume

/-!
# C74: the error for text that is left over
-/

namespace Wbnf

variable {E : Engine} {X : Externals} {ρ : Nat → Nat} {n : Nat} {ps : Parsers} {r : Str}

/-- **C74** If the rule succeeds and leaves text, `Parse` returns an error whose text names the file, the line (one more than the newlines before what is
left) and the column (one more than what is before it in its line), and shows the lines around the place and all that is left. -/
theorem C74_text (hE : E.Sane) (hX : X.Sane) {x file : Str} {v : Tree} {rest : Scanner} {k : Nat}
    (h : ps.run E X ρ n r (newScannerWithFilename x file) = .ok v rest k) (hne : rest.toStr ≠ some []) :
    ps.parse E X ρ n r (newScannerWithFilename x file) = .err (.unconsumed v rest) rest ∧
    ∃ before line left shown, x = before ++ line ++ left ∧ left ≠ [] ∧ rest.toStr = some left ∧
      (10 : UInt8) ∉ line ∧ (before = [] ∨ ∃ b, before = b ++ [10]) ∧
      (shown = before ++ line ∨ ∃ y, before ++ line = y ++ 10 :: shown) ∧ shown.count 10 ≤ 1 ∧ (before ≠ [] → shown.count 10 = 1) ∧
      unconsumedText rest = some (str "unconsumed input\n \n\x1b[1;37m" ++ file ++ str ":" ++ decimal (before.count 10 + 1) ++ str ":" ++
        decimal (line.length + 1) ++ str ":\x1b[0m\n" ++ shown ++ str "\x1b[1;31m" ++ left ++ str "\x1b[0m") := by
  have hin : (newScannerWithFilename x file).InRange :=
    ⟨⟨x, file⟩, rfl, by simp [newScannerWithFilename], by simp [newScannerWithFilename], by simp [newScannerWithFilename]⟩
  obtain ⟨h1, _, left0, hl0, _, hl0', _⟩ := C05_unconsumed hE hX hin h hne
  obtain ⟨c1, c2, c3, c4, -⟩ := C01_consumes_prefix hE hX hin h
  have hsrc : rest.src = some ⟨x, file⟩ := c1
  have hend : rest.start + rest.len = x.length := by rw [c3]; simp [newScannerWithFilename]
  have hr : rest.InRange := ⟨_, hsrc, by simpa [newScannerWithFilename] using c2, c4, Int.le_of_eq hend⟩
  obtain ⟨before, line, left, shown, e1, e2, e3, e4, e5, e6, e7, e8, e9⟩ := suffix_text hsrc hr hend
  rw [hl0'] at e2
  cases e2
  refine ⟨h1, before, line, left0, shown, e1, hl0, hl0', e4, e5, e6, e7, fun hb => ?_, ?_⟩
  · rcases Nat.lt_or_ge (shown.count 10) 1 with hc | hc
    · have h8 := e8 hc
      rcases e5 with e5 | ⟨b, e5⟩
      · exact absurd e5 hb
      · rw [h8, e5] at hc
        simp [List.count_append] at hc
    · omega
  · rw [unconsumedText, e9]
    rfl

/-- **C73** What an error notes to be there it notes without its place: it is always said to be in line 1, column 1 of a file without name. -/
theorem C73_unplaced {trim : Str → Str} {inp : Scanner} {t : Str} (h : inp.toStr = some t) :
    ∃ shown, errorStrings trim inp = some (str "\n\x1b[1;37m:1:1:\x1b[0m\n\x1b[1;31m" ++ shown ++ str "\x1b[0m") ∧
      (shown = trim t ∨ (trim t).length > 40 ∧ shown = (trim t).take 40 ++ str "  ...") := by
  have key : ∀ x : Str, (newScanner x).contextText 1 = some (str "\n\x1b[1;37m:1:1:\x1b[0m\n\x1b[1;31m" ++ x ++ str "\x1b[0m") := by
    intro x
    have hr : (newScanner x).InRange := ⟨⟨x, []⟩, rfl, by simp [newScanner], by simp [newScanner], by simp [newScanner]⟩
    obtain ⟨before, line, left, shown, e1, e2, e3, e4, e5, e6, e7, e8, e9⟩ := suffix_text (x := x) (file := []) rfl hr (by simp [newScanner])
    have h0 : before = [] ∧ line = [] := by
      simp only [newScanner, List.length_append] at e3
      exact ⟨List.eq_nil_of_length_eq_zero (by omega), List.eq_nil_of_length_eq_zero (by omega)⟩
    obtain ⟨rfl, rfl⟩ := h0
    have hs : shown = [] := by
      rcases e6 with e6 | ⟨y, e6⟩
      · exact e6
      · simp at e6
    subst hs
    have : left = x := by simpa using e1.symm
    subst this
    rw [e9]
    rfl
  rw [errorStrings, h, Option.bind_some]
  simp only
  split
  · next hl => exact ⟨_, key _, .inr ⟨hl, rfl⟩⟩
  · exact ⟨_, key _, .inl rfl⟩

/-! ## Cases -/

/-- `a -> "x";` leaves the second and third line of `x`, `y`, `z`, and says so. -/
example : (match Grammar.compile regexp 20 [(str "a", .s (str "x"))] with
    | .ok ps => match ps.parse regexp noExternals Ex.ρ0 20 (str "a") (newScannerWithFilename (str "x\ny\nz") (str "f.txt")) with
      | .err (.unconsumed _ rest) _ => unconsumedText rest
      | _ => none
    | .error _ => none) =
    some (str "unconsumed input\n \n\x1b[1;37mf.txt:1:2:\x1b[0m\nx\x1b[1;31m\ny\nz\x1b[0m") := by decide +kernel

/-- A scanner in the middle of a text: what is noted does not say so. -/
example : errorStrings id ((newScanner (str "ab\ncd")).sub 3 5) = some (str "\n\x1b[1;37m:1:1:\x1b[0m\n\x1b[1;31mcd\x1b[0m") := by decide +kernel

end Wbnf

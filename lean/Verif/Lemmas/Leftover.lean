import Verif.Model.Leftover
import Verif.Props.Scanner

/-! What `Context` shows of the rest of a text. -/

namespace Wbnf

theorem suffix_text {x file : Str} {s : Scanner} (hsrc : s.src = some ⟨x, file⟩) (hr : s.InRange) (hend : s.start + s.len = x.length) :
    ∃ before line left shown, x = before ++ line ++ left ∧ s.toStr = some left ∧ ((before ++ line).length : Int) = s.start ∧
      (10 : UInt8) ∉ line ∧ (before = [] ∨ ∃ b, before = b ++ [10]) ∧
      (shown = before ++ line ∨ ∃ y, before ++ line = y ++ 10 :: shown) ∧ shown.count 10 ≤ 1 ∧ (shown.count 10 < 1 → shown = before ++ line) ∧
      s.contextText 1 = some (str "\n\x1b[1;37m" ++ file ++ str ":" ++ decimal (before.count 10 + 1) ++ str ":" ++
        decimal (line.length + 1) ++ str ":\x1b[0m\n" ++ shown ++ str "\x1b[1;31m" ++ left ++ str "\x1b[0m") := by
  obtain ⟨above, mid, below, above', below', h1, h2, h3, h4, h5, -, h6, -⟩ := C46_context_limited s ⟨x, file⟩ 1 hr hsrc
  obtain ⟨above0, mid0, below0, g1, g2, g3, g4⟩ := C46_context_unlimited s ⟨x, file⟩ hr hsrc
  rw [h2] at g1
  cases g1
  obtain ⟨a, b, p1, p2, p3, p4⟩ := C28_position s ⟨x, file⟩ hr hsrc
  have hab : above = a ++ b := by
    rw [← p1, show x = above ++ (mid ++ below) by rw [← List.append_assoc]; exact g3, ← g4]
    simp
  have hmid : (mid.length : Int) = s.len := by
    obtain ⟨src', k, m, rfl, h⟩ := hr.elim
    rw [Scanner.toStr_mk h] at g2
    cases g2
    simp only [bytesAt, List.length_take, List.length_drop]
    omega
  have hbelow : below = [] := by
    apply List.eq_nil_of_length_eq_zero
    have := congrArg List.length (show x = above ++ mid ++ below from g3)
    simp only [List.length_append] at this
    omega
  subst hbelow
  have hb' : below' = [] := by
    rcases h4 with h | ⟨y, h⟩ | ⟨h, _⟩
    · exact h
    · simp at h
    · cases h
  subst hb'
  subst hab
  refine ⟨a, b, mid, above', by simpa using g3, g2, g4, p2, p3, h3, h5, h6, ?_⟩
  have hf : s.filename = some file := by rw [Scanner.filename, hsrc]; rfl
  have h1' : s.context 1 = some (above', mid, []) := h1
  rw [Scanner.contextText, hf, p4, h1']
  have e1 : ((a.count 10 : Int) + 1).toNat = a.count 10 + 1 := by omega
  have e2 : ((b.length : Int) + 1).toNat = b.length + 1 := by omega
  simp only [e1, e2, List.append_nil]

end Wbnf

import Verif.Examples.Regex
import Verif.Spec.Parts

/-! When the example engine reports a group, and when the group is the whole match: simple checks. -/

namespace Wbnf.Regex

/-- Matching always sets group `i`. -/
def Re.sets (i : Nat) : Re → Bool
  | .cat a b => a.sets i || b.sets i
  | .alt a b => a.sets i && b.sets i
  | .group j a => j == i || a.sets i
  | _ => false

/-- Matching sets no group. -/
def Re.noGroup : Re → Bool
  | .cat a b => a.noGroup && b.noGroup
  | .alt a b => a.noGroup && b.noGroup
  | .star _ a => a.noGroup
  | .group _ _ => false
  | _ => true

/-- Properties of states kept by matching. -/
theorem run_keeps {Q : St → Prop} (hpos : ∀ st s, Q st → Q { st with rest := s, pos := st.pos + 1 })
    (hcap : ∀ (st : St) (i a : Nat), Q st → Q { st with caps := st.caps.set i (a, st.pos) })
    {n r st k st'} (h : run n r st k = some st') (hQ : Q st) :
    ∃ s, Q s ∧ k s = some st' := by
  induction n generalizing r st k st' with
  | zero => simp [run] at h
  | succ n ih =>
    cases r with
    | empty => exact ⟨st, hQ, h⟩
    | cls neg rs =>
      simp only [run] at h
      split at h
      · simp at h
      · split at h
        · exact ⟨_, hpos _ _ hQ, h⟩
        · simp at h
    | cat a b =>
      simp only [run] at h
      obtain ⟨s, hs, h⟩ := ih h hQ
      exact ih h hs
    | alt a b =>
      simp only [run] at h
      rcases Option.or_eq_some_iff.1 h with h | ⟨_, h⟩ <;> exact ih h hQ
    | star g a =>
      simp only [run] at h
      have hmore : ∀ w, (run n a st fun st' => if st'.pos = st.pos then none else run n (.star g a) st' k)
          = some w → ∃ s, Q s ∧ k s = some w := fun w hw => by
        obtain ⟨s, hs, h'⟩ := ih hw hQ
        split at h'
        · simp at h'
        · exact ih h' hs
      split at h
      · rcases Option.or_eq_some_iff.1 h with h | ⟨_, h⟩
        · exact hmore _ h
        · exact ⟨st, hQ, h⟩
      · rcases Option.or_eq_some_iff.1 h with h | ⟨_, h⟩
        · exact ⟨st, hQ, h⟩
        · exact hmore _ h
    | group i a =>
      simp only [run] at h
      obtain ⟨s, hs, h⟩ := ih h hQ
      exact ⟨_, hcap s i st.pos hs, h⟩
    | bot =>
      simp only [run] at h
      split at h
      · exact ⟨st, hQ, h⟩
      · simp at h
    | eol =>
      simp only [run] at h
      split at h
      · exact ⟨st, hQ, h⟩
      · simp at h

def isSet (i : Nat) (st : St) : Prop := i < st.caps.length ∧ st.caps[i]? ≠ some (-1, -1)

theorem isSet_cap (i : Nat) (st : St) (j a : Nat) (h : isSet i st) :
    isSet i { st with caps := st.caps.set j (a, st.pos) } := by
  refine ⟨by simpa using h.1, ?_⟩
  simp only [List.getElem?_set]
  split
  · split
    · simp
    · simp
  · exact h.2

theorem run_sets {i len : Nat} (hi : i < len) {n r st k st'} (hr : r.sets i = true) (hlen : st.caps.length = len)
    (h : run n r st k = some st') : ∃ s, isSet i s ∧ s.caps.length = len ∧ k s = some st' := by
  have keep : ∀ {n r st k st'}, run n r st k = some st' → st.caps.length = len →
      ∃ s, s.caps.length = len ∧ k s = some st' := fun h hl =>
    run_keeps (Q := fun st => st.caps.length = len) (fun _ _ h => h) (fun _ _ _ h => by simpa using h) h hl
  have keep2 : ∀ {n r st k st'}, run n r st k = some st' → isSet i st ∧ st.caps.length = len →
      ∃ s, (isSet i s ∧ s.caps.length = len) ∧ k s = some st' := fun h hl =>
    run_keeps (Q := fun st => isSet i st ∧ st.caps.length = len) (fun _ _ h => h)
      (fun st j a h => ⟨isSet_cap i st j a h.1, by simpa using h.2⟩) h hl
  induction n generalizing r st k st' with
  | zero => simp [run] at h
  | succ n ih =>
    cases r with
    | cat a b =>
      simp only [run] at h
      simp only [Re.sets, Bool.or_eq_true] at hr
      rcases hr with hr | hr
      · obtain ⟨s, hs, hl, h⟩ := ih hr hlen h
        obtain ⟨s', h1, h2⟩ := keep2 h ⟨hs, hl⟩
        exact ⟨s', h1.1, h1.2, h2⟩
      · obtain ⟨s, hl, h⟩ := keep h hlen
        exact ih hr hl h
    | alt a b =>
      simp only [run] at h
      simp only [Re.sets, Bool.and_eq_true] at hr
      rcases Option.or_eq_some_iff.1 h with h | ⟨_, h⟩
      · exact ih hr.1 hlen h
      · exact ih hr.2 hlen h
    | group j a =>
      simp only [run] at h
      simp only [Re.sets, Bool.or_eq_true, beq_iff_eq] at hr
      rcases hr with rfl | hr
      · obtain ⟨s, hl, h⟩ := keep h hlen
        refine ⟨_, ?_, ?_, h⟩
        · refine ⟨by simp [hl, hi], ?_⟩
          simp only [List.getElem?_set, hl, hi, if_true]
          simp
        · simpa using hl
      · obtain ⟨s, hs, hl, h⟩ := ih hr hlen h
        exact ⟨_, isSet_cap i s _ _ hs, by simpa using hl, h⟩
    | _ => simp [Re.sets] at hr

theorem search_run {fuel r groups} : ∀ {x pos locs}, search fuel r groups x pos = some locs →
    ∃ x' pos' st, run fuel r ⟨x', pos', List.replicate groups (-1, -1)⟩ some = some st ∧
      locs = ((pos' : Int), (st.pos : Int)) :: st.caps := by
  intro x
  induction x with
  | nil =>
    intro pos locs h
    simp only [search] at h
    split at h
    · rename_i st hr; simp at h; exact ⟨_, _, st, hr, h.symm⟩
    · simp at h
  | cons c x ih =>
    intro pos locs h
    unfold search at h
    split at h
    · rename_i st hr; simp at h; exact ⟨_, _, st, hr, h.symm⟩
    · exact ih h

/-- The pattern is readable and always sets its last group. -/
def setsLast (p : Str) : Bool :=
  match read p with
  | some (r, k + 1) => r.sets k
  | _ => false

theorem reportsGroup {p : Str} (h : setsLast p = true) : ReportsGroup regexp p := by
  intro x locs hf
  unfold setsLast at h
  simp only [regexp, find] at hf
  cases hr : read p with
  | none => simp [hr] at h
  | some rk =>
    obtain ⟨r, k⟩ := rk
    rw [hr] at h hf
    cases k with
    | zero => simp at h
    | succ k =>
      simp only at h hf
      obtain ⟨x', pos', st, h1, rfl⟩ := search_run hf
      obtain ⟨s, hs, hl, h2⟩ := run_sets (len := k + 1) (by omega) h (by simp) h1
      simp at h2; subst h2
      have hlast : ∀ a, ((a :: s.caps).getLast? : Option (Int × Int)) = s.caps[k]? := by
        intro a
        rw [List.getLast?_eq_getElem?]
        simp [hl]
      rw [hlast]; exact hs.2

/-- The pattern is `(?m)\A(…)` without further groups. -/
def onlyGroup (p : Str) : Bool :=
  match read p with
  | some (.cat .empty (.cat .bot (.cat (.group 0 r) .empty)), 1) => r.noGroup
  | _ => false

theorem run_noGroup {n r st k st'} (hr : r.noGroup = true) (h : run n r st k = some st') :
    ∃ s, s.caps = st.caps ∧ k s = some st' := by
  induction n generalizing r st k st' with
  | zero => simp [run] at h
  | succ n ih =>
    cases r with
    | empty => exact ⟨st, rfl, h⟩
    | cls neg rs =>
      simp only [run] at h
      split at h
      · simp at h
      · split at h
        · exact ⟨{ st with rest := _, pos := st.pos + 1 }, rfl, h⟩
        · simp at h
    | cat a b =>
      simp only [run] at h
      simp only [Re.noGroup, Bool.and_eq_true] at hr
      obtain ⟨s, hs, h⟩ := ih hr.1 h
      obtain ⟨s', hs', h⟩ := ih hr.2 h
      exact ⟨s', hs'.trans hs, h⟩
    | alt a b =>
      simp only [run] at h
      simp only [Re.noGroup, Bool.and_eq_true] at hr
      rcases Option.or_eq_some_iff.1 h with h | ⟨_, h⟩
      · exact ih hr.1 h
      · exact ih hr.2 h
    | star g a =>
      simp only [run] at h
      have hmore : ∀ w, (run n a st fun st' => if st'.pos = st.pos then none else run n (.star g a) st' k)
          = some w → ∃ s, s.caps = st.caps ∧ k s = some w := fun w hw => by
        obtain ⟨s, hs, h'⟩ := ih (r := a) (by simpa [Re.noGroup] using hr) hw
        split at h'
        · simp at h'
        · obtain ⟨s', hs', h'⟩ := ih hr h'
          exact ⟨s', hs'.trans hs, h'⟩
      split at h
      · rcases Option.or_eq_some_iff.1 h with h | ⟨_, h⟩
        · exact hmore _ h
        · exact ⟨st, rfl, h⟩
      · rcases Option.or_eq_some_iff.1 h with h | ⟨_, h⟩
        · exact ⟨st, rfl, h⟩
        · exact hmore _ h
    | group i a => simp [Re.noGroup] at hr
    | bot =>
      simp only [run] at h
      split at h
      · exact ⟨st, rfl, h⟩
      · simp at h
    | eol =>
      simp only [run] at h
      split at h
      · exact ⟨st, rfl, h⟩
      · simp at h

theorem reportsAll {p : Str} (h : onlyGroup p = true) : ReportsAll regexp p := by
  intro x locs hf
  unfold onlyGroup at h
  simp only [regexp, find] at hf
  split at h
  · rename_i r hr
    rw [hr] at hf
    simp only at hf
    obtain ⟨x', pos', st, h1, rfl⟩ := search_run hf
    generalize 4 * (p.length + 2) * (x.length + 2) = n at h1
    match n, h1 with
    | 0, h1 => simp [run] at h1
    | 1, h1 => simp [run] at h1
    | 2, h1 => simp [run] at h1
    | n + 3, h1 =>
      simp only [run] at h1
      split at h1
      · rename_i hp
        subst hp
        cases n with
        | zero => simp [run] at h1
        | succ n =>
          simp only [run] at h1
          obtain ⟨s, hs, h2⟩ := run_noGroup h h1
          simp at h2; subst h2
          exact ⟨s.pos, by simp [hs]⟩
      · simp at h1
  · simp at h

end Wbnf.Regex

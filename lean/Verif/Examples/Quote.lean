import Verif.Examples.Groups
import Verif.Spec.Safe

/-! The example engine on quoted literals: it matches exactly the literal. -/

namespace Wbnf.Regex

/-- The regexp of a quoted literal. -/
def litRe : Str → Re
  | [] => .empty
  | c :: l => .cat (.cls false [(c, c)]) (litRe l)

theorem meta_facts (c : UInt8) (h : isMeta c = true) : escClass c = none ∧ escByte c = some c ∧ c ≠ 65 := by
  simp [isMeta, or_assoc] at h
  rcases h with rfl | rfl | rfl | rfl | rfl | rfl | rfl | rfl | rfl | rfl | rfl | rfl | rfl | rfl <;> decide

theorem nonmeta_facts (c : UInt8) (h : isMeta c = false) :
    c ≠ 92 ∧ c ≠ 46 ∧ c ≠ 43 ∧ c ≠ 42 ∧ c ≠ 63 ∧ c ≠ 40 ∧ c ≠ 41 ∧ c ≠ 124 ∧ c ≠ 91 ∧ c ≠ 93 ∧ c ≠ 123 ∧
    c ≠ 125 ∧ c ≠ 94 ∧ c ≠ 36 := by
  simpa [isMeta, and_assoc] using h

/-- The head of what follows a quoted byte is never a postfix operator. -/
theorem readPost_quote (n : Nat) (r : Re) (l : Str) (s : Str) :
    readPost (n + 1) r (quoteMeta l ++ 41 :: s) = some (r, quoteMeta l ++ 41 :: s) := by
  cases l with
  | nil => rfl
  | cons c l =>
    by_cases h : isMeta c = true
    · simp [quoteMeta, h, readPost]
    · have h' : isMeta c = false := by simpa using h
      obtain ⟨h1, h2, h3, h4, h5, h6, h7, h8, h9, h10, h11, h12, h13, h14⟩ := nonmeta_facts c h'
      simp [quoteMeta, h', readPost, h3, h4, h5, h11]

theorem readAtom_quote (n k : Nat) (c : UInt8) (s : Str) (hc : isMeta c = false) :
    readAtom (n + 1) k (c :: s) = some (.cls false [(c, c)], k, s) := by
  obtain ⟨h1, h2, h3, h4, h5, h6, h7, h8, h9, h10, h11, h12, h13, h14⟩ := nonmeta_facts c hc
  unfold readAtom
  split <;> simp_all

theorem readAtom_escaped (n k : Nat) (c : UInt8) (s : Str) (hc : isMeta c = true) :
    readAtom (n + 1) k (92 :: c :: s) = some (.cls false [(c, c)], k, s) := by
  obtain ⟨h1, h2, h3⟩ := meta_facts c hc
  simp [readAtom, h1, h2]

theorem readCat_quote (l : Str) : ∀ (n k : Nat) (s : Str), l.length + 2 ≤ n →
    readCat n k (quoteMeta l ++ 41 :: s) = some (litRe l, k, 41 :: s) := by
  induction l with
  | nil =>
    intro n k s hn
    obtain ⟨n, rfl⟩ : ∃ m, n = m + 1 := ⟨n - 1, by simp at hn; omega⟩
    simp [quoteMeta, readCat, litRe]
  | cons c l ih =>
    intro n k s hn
    simp at hn
    obtain ⟨n, rfl⟩ : ∃ m, n = m + 2 := ⟨n - 2, by omega⟩
    have hpost := readPost_quote n (.cls false [(c, c)]) l s
    have hih := ih (n + 1) k s (by omega)
    by_cases h : isMeta c = true
    · simp only [quoteMeta, h, if_true, List.cons_append]
      unfold readCat
      simp only [readAtom_escaped n k c _ h, hpost, hih, litRe]
      split <;> simp_all
    · have h' : isMeta c = false := by simpa using h
      obtain ⟨h1, h2, h3, h4, h5, h6, h7, h8, h9, h10, h11, h12, h13, h14⟩ := nonmeta_facts c h'
      simp only [quoteMeta, h', List.cons_append, Bool.false_eq_true, if_false]
      unfold readCat
      simp only [readAtom_quote n k c _ h', hpost, hih, litRe]
      split <;> simp_all

/-- The pattern made for a literal. -/
def litPattern (l : Str) : Str := anchor ++ (str "(" ++ quoteMeta l ++ str ")")

theorem litPattern_eq (l : Str) :
    litPattern l = 40 :: 63 :: 109 :: 41 :: 92 :: 65 :: 40 :: (quoteMeta l ++ 41 :: []) := by
  simp [litPattern, anchor, str]

theorem quoteMeta_length (l : Str) : l.length ≤ (quoteMeta l).length := by
  induction l with
  | nil => simp [quoteMeta]
  | cons c l ih => simp only [quoteMeta]; split <;> simp <;> omega

theorem read_lit (l : Str) :
    read (litPattern l) = some (.cat .empty (.cat .bot (.cat (.group 0 (litRe l)) .empty)), 1) := by
  have hlen : (litPattern l).length = (quoteMeta l).length + 8 := by rw [litPattern_eq]; simp
  have hq := quoteMeta_length l
  unfold read
  rw [hlen, litPattern_eq]
  have e : 4 * ((quoteMeta l).length + 8) + 8 = (4 * (quoteMeta l).length + 33) + 7 := by omega
  rw [e]
  generalize hm : 4 * (quoteMeta l).length + 33 = m
  have h1 : readAlt (m + 2) 1 (quoteMeta l ++ 41 :: []) = some (litRe l, 1, 41 :: []) := by
    unfold readAlt
    rw [readCat_quote l (m + 1) 1 [] (by omega)]
    rfl
  have h2 : readAtom (m + 3) 0 (40 :: (quoteMeta l ++ 41 :: [])) = some (.group 0 (litRe l), 1, []) := by
    unfold readAtom
    split
    · rename_i heq
      cases l with
      | nil => simp [quoteMeta] at heq
      | cons c l =>
        by_cases h : isMeta c = true
        · simp [quoteMeta, h] at heq
        · have h' : isMeta c = false := by simpa using h
          obtain ⟨h1, h2, h3, h4, h5, h6, h7, h8, h9, h10, h11, h12, h13, h14⟩ := nonmeta_facts c h'
          simp [quoteMeta, h', h5] at heq
    · rename_i heq
      cases l with
      | nil => simp [quoteMeta] at heq
      | cons c l =>
        by_cases h : isMeta c = true
        · simp [quoteMeta, h] at heq
        · have h' : isMeta c = false := by simpa using h
          obtain ⟨h1, h2, h3, h4, h5, h6, h7, h8, h9, h10, h11, h12, h13, h14⟩ := nonmeta_facts c h'
          simp [quoteMeta, h', h5] at heq
    · rename_i heq
      cases l with
      | nil => simp [quoteMeta] at heq
      | cons c l =>
        by_cases h : isMeta c = true
        · simp [quoteMeta, h] at heq
        · have h' : isMeta c = false := by simpa using h
          obtain ⟨h1, h2, h3, h4, h5, h6, h7, h8, h9, h10, h11, h12, h13, h14⟩ := nonmeta_facts c h'
          simp [quoteMeta, h', h5] at heq
    · rename_i heq
      cases l with
      | nil => simp [quoteMeta] at heq
      | cons c l =>
        by_cases h : isMeta c = true
        · simp [quoteMeta, h] at heq
        · have h' : isMeta c = false := by simpa using h
          obtain ⟨h1, h2, h3, h4, h5, h6, h7, h8, h9, h10, h11, h12, h13, h14⟩ := nonmeta_facts c h'
          simp [quoteMeta, h', h5] at heq
    · rename_i heq
      simp at heq
      subst heq
      simp only [Nat.zero_add, h1]
    all_goals simp_all
  have h3 : readCat (m + 4) 0 (40 :: (quoteMeta l ++ 41 :: [])) = some (.cat (.group 0 (litRe l)) .empty, 1, []) := by
    unfold readCat
    simp only [h2]
    simp [readPost, readCat]
  have h4 : readCat (m + 5) 0 (92 :: 65 :: 40 :: (quoteMeta l ++ 41 :: [])) =
      some (.cat .bot (.cat (.group 0 (litRe l)) .empty), 1, []) := by
    unfold readCat
    have : readAtom (m + 4) 0 (92 :: 65 :: 40 :: (quoteMeta l ++ 41 :: [])) =
        some (.bot, 0, 40 :: (quoteMeta l ++ 41 :: [])) := rfl
    simp only [this]
    have : readPost (m + 4) .bot (40 :: (quoteMeta l ++ 41 :: [])) = some (.bot, 40 :: (quoteMeta l ++ 41 :: [])) := rfl
    simp only [this, h3]
    rfl
  have h5 : readCat (m + 6) 0 (40 :: 63 :: 109 :: 41 :: 92 :: 65 :: 40 :: (quoteMeta l ++ 41 :: [])) =
      some (.cat .empty (.cat .bot (.cat (.group 0 (litRe l)) .empty)), 1, []) := by
    unfold readCat
    have : readAtom (m + 5) 0 (40 :: 63 :: 109 :: 41 :: 92 :: 65 :: 40 :: (quoteMeta l ++ 41 :: [])) =
        some (.empty, 0, 92 :: 65 :: 40 :: (quoteMeta l ++ 41 :: [])) := rfl
    simp only [this]
    have : readPost (m + 5) .empty (92 :: 65 :: 40 :: (quoteMeta l ++ 41 :: [])) =
        some (.empty, 92 :: 65 :: 40 :: (quoteMeta l ++ 41 :: [])) := rfl
    simp only [this, h4]
    rfl
  have h6 : readAlt (m + 7) 0 (40 :: 63 :: 109 :: 41 :: 92 :: 65 :: 40 :: (quoteMeta l ++ 41 :: [])) =
      some (.cat .empty (.cat .bot (.cat (.group 0 (litRe l)) .empty)), 1, []) := by
    unfold readAlt
    simp only [h5]
  simp only [h6]

theorem run_cat (n a b st k) : run (n + 1) (.cat a b) st k = run n a st fun st' => run n b st' k := rfl
theorem run_group (n i a st k) : run (n + 1) (.group i a) st k =
    run n a st fun st' => k { st' with caps := st'.caps.set i (st.pos, st'.pos) } := rfl
theorem run_cls (n neg rs st k) : run (n + 1) (.cls neg rs) st k =
    match st.rest with
    | [] => none
    | c :: s => if inRanges c rs != neg then k { st with rest := s, pos := st.pos + 1 } else none := rfl

theorem run_lit (l : Str) : ∀ (n : Nat) (st : St) (k : St → Option St), 2 * l.length + 1 ≤ n →
    run n (litRe l) st k =
      if l <+: st.rest then k { st with rest := st.rest.drop l.length, pos := st.pos + l.length } else none := by
  induction l with
  | nil =>
    intro n st k hn
    obtain ⟨n, rfl⟩ : ∃ m, n = m + 1 := ⟨n - 1, by omega⟩
    simp [litRe, run]
  | cons c l ih =>
    intro n st k hn
    simp at hn
    obtain ⟨n, rfl⟩ : ∃ m, n = m + 2 := ⟨n - 2, by omega⟩
    obtain ⟨rest, pos, caps⟩ := st
    simp only [litRe, run_cat, run_cls]
    cases rest with
    | nil => simp
    | cons d rest =>
      have hd : (inRanges d [(c, c)] != false) = (c == d) := by
        by_cases h : c = d
        · subst h; simp [inRanges]
        · have : ¬ (c ≤ d ∧ d ≤ c) := fun hh => h (UInt8.le_antisymm hh.1 hh.2)
          simp only [beq_eq_false_iff_ne.2 h]
          simp [inRanges] at this ⊢
          exact this
      simp only [hd]
      by_cases h : c = d
      · subst h
        simp only [beq_self_eq_true, if_true]
        rw [ih (n + 1) _ k (by omega)]
        simp only [List.cons_prefix_cons, true_and, List.length_cons, List.drop_succ_cons]
        congr 2
        congr 1; omega
      · simp [h]

theorem search_anchored {fuel r groups} (hr : ∀ x pos, pos ≠ 0 →
    run fuel r ⟨x, pos, List.replicate groups (-1, -1)⟩ some = none) :
    ∀ x pos, pos ≠ 0 → search fuel r groups x pos = none := by
  intro x
  induction x with
  | nil => intro pos hp; unfold search; rw [hr _ _ hp]
  | cons c x ih => intro pos hp; unfold search; rw [hr _ _ hp]; exact ih (pos + 1) (by omega)

/-- A pattern that starts with `(?m)\A` matches at the start of the text only. -/
theorem search_bot {fuel r groups x} : search (fuel + 3) (.cat .empty (.cat .bot r)) groups x 0 =
    match run (fuel + 1) r ⟨x, 0, List.replicate groups (-1, -1)⟩ some with
    | some st => some ((0, (st.pos : Int)) :: st.caps)
    | none => none := by
  have hr : ∀ x pos, pos ≠ 0 →
      run (fuel + 3) (.cat .empty (.cat .bot r)) ⟨x, pos, List.replicate groups (-1, -1)⟩ some = none := by
    intro x pos hp; simp [run, hp]
  have h0 : run (fuel + 3) (.cat .empty (.cat .bot r)) ⟨x, 0, List.replicate groups (-1, -1)⟩ some =
      run (fuel + 1) r ⟨x, 0, List.replicate groups (-1, -1)⟩ some := by
    simp only [run]; simp
  unfold search
  rw [h0]
  cases run (fuel + 1) r ⟨x, 0, List.replicate groups (-1, -1)⟩ some with
  | some st => simp
  | none =>
    cases x with
    | nil => rfl
    | cons c x => exact search_anchored hr x 1 (by omega)

/-- The law of literals holds of the example engine, for every literal and text. -/
theorem find_lit (l x : Str) : regexp.find (litPattern l) x =
    if l <+: x then some [(0, (l.length : Int)), (0, (l.length : Int))] else none := by
  have hq := quoteMeta_length l
  have hlen : (litPattern l).length = (quoteMeta l).length + 8 := by rw [litPattern_eq]; simp
  simp only [regexp, find, read_lit, hlen]
  have : 2 * l.length + 3 ≤ 4 * ((quoteMeta l).length + 8 + 2) * (x.length + 2) - 3 := by
    have : 4 * ((quoteMeta l).length + 8 + 2) * 2 ≤ 4 * ((quoteMeta l).length + 8 + 2) * (x.length + 2) :=
      Nat.mul_le_mul_left _ (by omega)
    omega
  obtain ⟨f, hf⟩ : ∃ f, 4 * ((quoteMeta l).length + 8 + 2) * (x.length + 2) = f + 3 :=
    ⟨4 * ((quoteMeta l).length + 8 + 2) * (x.length + 2) - 3, by omega⟩
  rw [hf] at this ⊢
  rw [search_bot]
  obtain ⟨f, rfl⟩ : ∃ f', f = f' + 2 := ⟨f - 2, by omega⟩
  simp only [run_cat, run_group, run_lit l (f + 1) _ _ (by omega)]
  by_cases h : l <+: x
  · simp [h, run]
  · simp [h]

theorem valid_lit (l : Str) : regexp.valid (litPattern l) = true := by
  simp [regexp, read_lit]

/-- The pattern is readable, anchored, and has one or two groups. -/
def oneOrTwo (p : Str) : Bool :=
  match read p with
  | some (.cat .empty (.cat .bot _), k) => k == 1 || k == 2
  | _ => false

theorem run_capsLen {n r st k st'} {len : Nat} (h : run n r st k = some st') (hl : st.caps.length = len) :
    ∃ s, s.caps.length = len ∧ k s = some st' :=
  run_keeps (Q := fun st => st.caps.length = len) (fun _ _ h => h) (fun _ _ _ h => by simpa using h) h hl

theorem leafSafe {p : Str} (h : oneOrTwo p = true) : LeafSafe regexp p := by
  intro x locs hf
  unfold oneOrTwo at h
  simp only [regexp, find] at hf
  split at h
  · rename_i r k hr
    rw [hr] at hf
    simp only at hf
    obtain ⟨f, hfu⟩ : ∃ f, 4 * (p.length + 2) * (x.length + 2) = f + 3 := by
      have : 4 * 2 * 2 ≤ 4 * (p.length + 2) * (x.length + 2) :=
        Nat.mul_le_mul (Nat.mul_le_mul_left _ (by omega)) (by omega)
      exact ⟨4 * (p.length + 2) * (x.length + 2) - 3, by omega⟩
    rw [hfu, search_bot] at hf
    cases hrun : run (f + 1) r ⟨x, 0, List.replicate k (-1, -1)⟩ some with
    | none => simp [hrun] at hf
    | some st =>
      rw [hrun] at hf
      simp at hf; subst hf
      obtain ⟨s, hs, hk⟩ := run_capsLen (len := k) hrun (by simp)
      simp at hk; subst hk
      simp at h
      obtain ⟨rest, pos, caps⟩ := s
      simp only at hs ⊢
      rcases h with rfl | rfl
      · match caps, hs with
        | [g], _ => exact ⟨pos, g, Or.inl rfl⟩
      · match caps, hs with
        | [g, g'], _ => exact ⟨pos, g, Or.inr ⟨g', rfl⟩⟩
  · simp at h

end Wbnf.Regex

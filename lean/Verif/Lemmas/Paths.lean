import Verif.Spec.Recursion
import Verif.Model.Recursion

/-!
# The slices of the search for cycles
-/

namespace Wbnf

theorem chained_snoc {α : Type} {R : α → α → Prop} {k : α} : ∀ {l : List α}, Chained R l → (∀ a, l.getLast? = some a → R a k) →
    Chained R (l ++ [k])
  | [], _, _ => trivial
  | [a], _, h => ⟨h a rfl, trivial⟩
  | a :: b :: l, hc, h => ⟨hc.1, chained_snoc (l := b :: l) hc.2 fun x hx => h x (by rw [List.getLast?_cons_cons]; exact hx)⟩

theorem chained_tail {α : Type} {R : α → α → Prop} {a : α} : ∀ {l : List α}, Chained R (a :: l) → Chained R l
  | [], _ => trivial
  | _ :: _, h => h.2

theorem chained_drop {α : Type} {R : α → α → Prop} : ∀ {l₁ l₂ : List α}, Chained R (l₁ ++ l₂) → Chained R l₂
  | [], _, h => h
  | _ :: l₁, _, h => chained_drop (l₁ := l₁) (chained_tail h)

theorem chained_mono {α : Type} {R R' : α → α → Prop} : ∀ {l : List α}, (∀ a b, b ∈ l → R a b → R' a b) → Chained R l → Chained R' l
  | [], _, _ => trivial
  | [_], _, _ => trivial
  | a :: b :: l, h, hc => ⟨h a b (by simp) hc.1, chained_mono (l := b :: l) (fun x y hy => h x y (by simp [List.mem_cons.1 hy])) hc.2⟩

/-- The capacity of an array. -/
def Heap.cap (h : Heap) (i : Nat) : Nat := (h.getD i []).length

/-- The slice is one of this heap. -/
def Slice.In (s : Slice) (h : Heap) : Prop := s.arr < h.length ∧ s.len ≤ h.cap s.arr

/-- `c` is `current` of a call of `findPaths`. -/
structure AtCall (h : Heap) (c : Slice) (path : List Str) : Prop where
  arr : c.arr < h.length
  tight : (h.cap c.arr = 0 ∧ c.len = 0) ∨ (h.cap c.arr = 1 ∧ c.len = 1) ∨ (h.cap c.arr = 2 ∧ c.len = 2) ∨
    (h.cap c.arr = 4 ∧ 3 ≤ c.len ∧ c.len ≤ 4) ∨ (5 ≤ c.len ∧ c.len ≤ h.cap c.arr)
  read : h.read c = path

/-- What happens to the heap below a call with `current` `c`. -/
structure Later (W : List Str → Prop) (c : Slice) (h h' : Heap) : Prop where
  length : h.length ≤ h'.length
  cap : ∀ i < h.length, h'.cap i = h.cap i
  other : ∀ i < h.length, i ≠ c.arr → h'.getD i [] = h.getD i []
  take : (h'.getD c.arr []).take c.len = (h.getD c.arr []).take c.len
  short : ∀ s : Slice, s.In h → s.len ≤ 3 → h'.read s = h.read s
  walk : ∀ s : Slice, s.In h → s.len ≤ 6 → W (h.read s) → W (h'.read s)

variable {W : List Str → Prop} {c : Slice} {h h' h'' : Heap} {path : List Str} {k : Str}

theorem Later.refl : Later W c h h := ⟨Nat.le_refl _, fun _ _ => rfl, fun _ _ _ => rfl, rfl, fun _ _ _ => rfl, fun _ _ _ => id⟩

theorem Later.inn {s : Slice} (l : Later W c h h') (hs : s.In h) : s.In h' :=
  ⟨Nat.lt_of_lt_of_le hs.1 l.length, by rw [l.cap _ hs.1]; exact hs.2⟩

theorem Later.trans (l : Later W c h h') (l' : Later W c h' h'') : Later W c h h'' where
  length := Nat.le_trans l.length l'.length
  cap i hi := by rw [l'.cap i (Nat.lt_of_lt_of_le hi l.length), l.cap i hi]
  other i hi hn := by rw [l'.other i (Nat.lt_of_lt_of_le hi l.length) hn, l.other i hi hn]
  take := by rw [l'.take, l.take]
  short s hs hl := by rw [l'.short s (l.inn hs) hl, l.short s hs hl]
  walk s hs hl hw := l'.walk s (l.inn hs) hl (l.walk s hs hl hw)

theorem AtCall.later (f : AtCall h c path) (l : Later W c h h') : AtCall h' c path where
  arr := Nat.lt_of_lt_of_le f.arr l.length
  tight := by rw [l.cap _ f.arr]; exact f.tight
  read := by
    have := f.read
    unfold Heap.read at this ⊢
    rw [l.take, this]

theorem AtCall.len (f : AtCall h c path) : c.len = path.length := by
  have h1 := f.read
  have h2 := f.tight
  rw [← h1, Heap.read, List.length_take]
  unfold Heap.cap at h2
  omega

/-- Appending to `current`. -/
theorem append_frame (f : AtCall h c path) (hw : W (path ++ [k])) :
    Later W c h (h.append c k).1 ∧ AtCall (h.append c k).1 (h.append c k).2 (path ++ [k]) ∧ (h.append c k).2.In (h.append c k).1 ∧
      (h.append c k).2.len = c.len + 1 ∧ ((h.append c k).2.arr = c.arr ∨ h.length ≤ (h.append c k).2.arr) := by
  have hr := f.read
  have ht := f.tight
  have ha := f.arr
  have hlen := f.len
  unfold Heap.cap at ht
  unfold Heap.read at hr
  unfold Heap.append
  generalize hA : h.getD c.arr [] = a at *
  simp only
  split
  · rename_i hroom
    have hset : (h.set c.arr (a.set c.len k)).getD c.arr [] = a.set c.len k := by
      simp [List.getD, List.getElem?_set_self ha]
    have hother : ∀ i, i ≠ c.arr → (h.set c.arr (a.set c.len k)).getD i [] = h.getD i [] := by
      intro i hi
      simp [List.getD, List.getElem?_set_ne (Ne.symm hi)]
    have hcap : ∀ i, ((h.set c.arr (a.set c.len k)).getD i []).length = (h.getD i []).length := by
      intro i
      by_cases hi : i = c.arr
      · subst hi; rw [hset, hA, List.length_set]
      · rw [hother i hi]
    have hnew : (a.set c.len k).take (c.len + 1) = path ++ [k] := by
      rw [← hr, List.take_add_one]
      simp [List.getElem?_set_self hroom, List.take_set_of_le]
    have hkeep : ∀ n ≤ c.len, (a.set c.len k).take n = a.take n := fun n hn => by rw [List.take_set_of_le hn]
    refine ⟨⟨by simp, ?_, ?_, ?_, ?_, ?_⟩, ⟨by simpa using ha, ?_, ?_⟩, ⟨by simpa using ha, ?_⟩, rfl, .inl rfl⟩
    · intro i _; exact hcap i
    · intro i _ hi; exact hother i hi
    · rw [hset, hA]; exact hkeep _ (Nat.le_refl _)
    · intro s hs hl
      unfold Heap.read
      by_cases hi : s.arr = c.arr
      · rw [hi, hset, hA]; exact hkeep _ (by omega)
      · rw [hother _ hi]
    · intro s hs hl hw'
      unfold Heap.read at hw' ⊢
      by_cases hi : s.arr = c.arr
      · have hs2 := hs.2
        unfold Heap.cap at hs2
        rw [hi, hA] at hw' hs2
        rw [hi, hset]
        by_cases hle : s.len ≤ c.len
        · rw [hkeep _ hle]; exact hw'
        · have : s.len = c.len + 1 := by omega
          rw [this, hnew]; exact hw
      · rw [hother _ hi]; exact hw'
    · unfold Heap.cap; rw [hcap, hA]; simp only; omega
    · unfold Heap.read; simp only; rw [hset, hnew]
    · unfold Heap.cap; rw [hcap, hA]; simp only; omega
  · rename_i hroom
    have hfull : a.length = c.len := by omega
    have ha' : a = path := by rw [← hr, List.take_of_length_le (by omega)]
    have hold : ∀ i < h.length, (h ++ [a ++ k :: List.replicate (a.length - 1) []]).getD i [] = h.getD i [] := by
      intro i hi; simp [List.getD, List.getElem?_append_left hi]
    have hnew : (h ++ [a ++ k :: List.replicate (a.length - 1) []]).getD h.length [] = a ++ k :: List.replicate (a.length - 1) [] := by
      simp [List.getD]
    refine ⟨⟨by simp, ?_, ?_, ?_, ?_, ?_⟩, ⟨by simp, ?_, ?_⟩, ⟨by simp, ?_⟩, rfl, .inr (Nat.le_refl _)⟩
    · intro i hi; unfold Heap.cap; rw [hold i hi]
    · intro i hi _; exact hold i hi
    · rw [hold _ ha, hA]
    · intro s hs _; unfold Heap.read; rw [hold _ hs.1]
    · intro s hs _ hw'; unfold Heap.read at hw' ⊢; rw [hold _ hs.1]; exact hw'
    · unfold Heap.cap; rw [hnew]; simp only [List.length_append, List.length_cons, List.length_replicate]; omega
    · unfold Heap.read; simp only; rw [hnew, ha', hlen, show path ++ k :: List.replicate (path.length - 1) [] = (path ++ [k]) ++ List.replicate (path.length - 1) [] by simp]
      exact List.take_left' (by simp)
    · unfold Heap.cap; rw [hnew]; simp only [List.length_append, List.length_cons, List.length_replicate]; omega

/-- What happens below a deeper call. -/
theorem Later.up {s : Slice} (l : Later W c h h') (hs : s.len = c.len + 1) (ha : s.arr = c.arr ∨ h.length ≤ s.arr) (hc : c.arr < h.length)
    (l' : Later W s h' h'') : Later W c h h'' where
  length := Nat.le_trans l.length l'.length
  cap i hi := by rw [l'.cap i (Nat.lt_of_lt_of_le hi l.length), l.cap i hi]
  other i hi hn := by rw [l'.other i (Nat.lt_of_lt_of_le hi l.length) (by omega), l.other i hi hn]
  take := by
    rw [← l.take]
    rcases ha with ha | ha
    · have := congrArg (List.take c.len) l'.take
      rw [List.take_take, List.take_take, hs, Nat.min_eq_left (by omega), ha] at this
      exact this
    · rw [l'.other c.arr (Nat.lt_of_lt_of_le hc l.length) (by omega)]
  short s hs hl := by rw [l'.short s (l.inn hs) hl, l.short s hs hl]
  walk s hs hl hw := l'.walk s (l.inn hs) hl (l.walk s hs hl hw)

/-- Results of the search: slices of the heap, of which the short ones are walks. -/
def GoodAll (W : List Str → Prop) (h : Heap) (ss : List Slice) : Prop := ∀ s ∈ ss, s.In h ∧ (s.len ≤ 6 → W (h.read s))

theorem GoodAll.later {ss : List Slice} (g : GoodAll W h ss) (l : Later W c h h') : GoodAll W h' ss := fun s hs =>
  ⟨l.inn (g s hs).1, fun hl => l.walk s (g s hs).1 hl ((g s hs).2 hl)⟩

/-- One round of the loop of `findPaths`. -/
def findStep (sub : List Str → Slice → Heap → Heap × List Slice) (path : List Str) (c : Slice) (hp : Heap × List Slice) (k : Str) :
    Heap × List Slice :=
  if k ∈ path then
    let (h, s) := hp.1.append c k
    (h, hp.2 ++ [s])
  else
    let (h, s) := if k = [] then (hp.1, c) else hp.1.append c k
    let (h, ss) := sub (path ++ [k]) s h
    (h, hp.2 ++ ss)

theorem findPaths_succ (roots : List Str) (next : Str → List Str) (ord : List Str → List Str → List Str) (n : Nat)
    (path : List Str) (c : Slice) (h : Heap) : findPaths roots next ord (n + 1) path c h =
      (ord path (match path.getLast? with | none => roots | some k => next k)).foldl
        (findStep (findPaths roots next ord n) path c) (h, []) := rfl

/-- What the search does for a path. -/
structure SubGood (W : List Str → Prop) (sub : List Str → Slice → Heap → Heap × List Slice) : Prop where
  good : ∀ path c h, AtCall h c path → W path → [] ∉ path → Later W c h (sub path c h).1 ∧ GoodAll W (sub path c h).1 (sub path c h).2
  nil : ∀ path c h, sub (path ++ [[]]) c h = (h, [])

variable {sub : List Str → Slice → Heap → Heap × List Slice} {hp : Heap × List Slice}

theorem findStep_nil (hsub : SubGood W sub) (hn : [] ∉ path) : findStep sub path c hp [] = hp := by
  simp [findStep, hn, hsub.nil]

theorem findStep_good (hsub : SubGood W sub) (hn : [] ∉ path) (f : AtCall hp.1 c path) (g : GoodAll W hp.1 hp.2)
    (hw : k ≠ [] → W (path ++ [k])) :
    Later W c hp.1 (findStep sub path c hp k).1 ∧ GoodAll W (findStep sub path c hp k).1 (findStep sub path c hp k).2 ∧
      ∀ s ∈ hp.2, s ∈ (findStep sub path c hp k).2 := by
  by_cases hk : k = []
  · subst hk
    rw [findStep_nil hsub hn]
    exact ⟨.refl, g, fun _ h => h⟩
  have hw := hw hk
  obtain ⟨l, f', hin, hlen, harr⟩ := append_frame f hw
  unfold findStep
  rw [if_neg hk]
  generalize hp.1.append c k = ap at *
  simp only
  split
  · refine ⟨l, ?_, fun s hs => by simp [hs]⟩
    intro s hs
    rcases List.mem_append.1 hs with hs | hs
    · exact g.later l s hs
    · rw [List.mem_singleton.1 hs]
      exact ⟨hin, fun _ => by rw [f'.read]; exact hw⟩
  · obtain ⟨l', g'⟩ := hsub.good _ _ _ f' hw (by simp [hn, Ne.symm hk])
    refine ⟨l.up hlen harr f.arr l', ?_, fun s hs => by simp [hs]⟩
    intro s hs
    rcases List.mem_append.1 hs with hs | hs
    · exact (g.later l).later l' s hs
    · exact g' s hs

theorem findFold_good (hsub : SubGood W sub) (hn : [] ∉ path) : ∀ {ks : List Str} {hp : Heap × List Slice}, AtCall hp.1 c path → GoodAll W hp.1 hp.2 →
    (∀ k ∈ ks, k ≠ [] → W (path ++ [k])) →
    Later W c hp.1 (ks.foldl (findStep sub path c) hp).1 ∧
      GoodAll W (ks.foldl (findStep sub path c) hp).1 (ks.foldl (findStep sub path c) hp).2 ∧
      ∀ s ∈ hp.2, s ∈ (ks.foldl (findStep sub path c) hp).2
  | [], _, _, g, _ => ⟨.refl, g, fun _ h => h⟩
  | k :: ks, hp, f, g, hw => by
    obtain ⟨l1, g1, i1⟩ := findStep_good hsub hn f g (hw k (by simp))
    obtain ⟨l2, g2, i2⟩ := findFold_good hsub hn (ks := ks) (f.later l1) g1 fun k hk => hw k (by simp [hk])
    exact ⟨l1.trans l2, g2, fun s hs => i2 s (i1 s hs)⟩

variable {roots : List Str} {next : Str → List Str} {ord : List Str → List Str → List Str}

/-- The walks in the graph. -/
def Walks (next : Str → List Str) (p : List Str) : Prop := Chained (fun a b => b ∈ next a) p

theorem walks_snoc (ho : Orders ord) (hw : Walks next path)
    (hk : k ∈ ord path (match path.getLast? with | none => roots | some k => next k)) : Walks next (path ++ [k]) := by
  refine chained_snoc hw fun a ha => ?_
  have := (ho _ _).mem_iff.1 hk
  rw [ha] at this
  exact this

/-- The same, without empty names. -/
def NameWalks (next : Str → List Str) (p : List Str) : Prop := Walks next p ∧ [] ∉ p

theorem nameWalks_snoc (ho : Orders ord) (hw : NameWalks next path)
    (hk : k ∈ ord path (match path.getLast? with | none => roots | some k => next k)) (h0 : k ≠ []) : NameWalks next (path ++ [k]) :=
  ⟨walks_snoc ho hw.1 hk, by simpa using ⟨hw.2, h0⟩⟩

theorem findPaths_good (ho : Orders ord) (h0 : next [] = []) : ∀ n, SubGood (NameWalks next) (findPaths roots next ord n)
  | 0 => ⟨fun _ _ _ _ _ _ => ⟨.refl, fun _ h => by simp [findPaths] at h⟩, fun _ _ _ => rfl⟩
  | n + 1 => by
    constructor
    · intro path c h f hw hn
      rw [findPaths_succ]
      obtain ⟨l, g, _⟩ := findFold_good (findPaths_good ho h0 n) hn (hp := (h, [])) (ks := ord path _) f (fun s hs => by simp at hs)
        (fun k hk h0 => nameWalks_snoc ho hw hk h0)
      exact ⟨l, g⟩
    · intro path c h
      rw [findPaths_succ]
      simp only [List.getLast?_append, List.getLast?_singleton, Option.some_or, h0]
      rw [List.perm_nil.1 (ho _ _)]
      rfl

/-- A short route is among the results. -/
def Found (r : List Str) (h : Heap) (ss : List Slice) : Prop := ∃ s ∈ ss, s.In h ∧ s.len ≤ 3 ∧ h.read s = r

theorem found_fold {r : List Str} (hsub : SubGood W sub) (hn : [] ∉ path) {ks : List Str} (f : AtCall h c path)
    (hw : ∀ k ∈ ks, k ≠ [] → W (path ++ [k])) (hk : k ∈ ks)
    (hf : ∀ hp : Heap × List Slice, AtCall hp.1 c path → GoodAll W hp.1 hp.2 → Found r (findStep sub path c hp k).1 (findStep sub path c hp k).2) :
    Found r (ks.foldl (findStep sub path c) (h, [])).1 (ks.foldl (findStep sub path c) (h, [])).2 := by
  obtain ⟨l₁, l₂, rfl⟩ := List.append_of_mem hk
  rw [List.foldl_append, List.foldl_cons]
  obtain ⟨la, ga, -⟩ := findFold_good hsub hn (hp := (h, [])) f (fun s hs => by simp at hs) (ks := l₁) fun k hk => hw k (by simp [hk])
  generalize l₁.foldl (findStep sub path c) (h, []) = hp at *
  have fa := f.later la
  obtain ⟨s, hs, hin, hl, hr⟩ := hf hp fa ga
  obtain ⟨lb, gb, -⟩ := findStep_good hsub hn fa ga (hw k (by simp))
  obtain ⟨lc, -, ic⟩ := findFold_good hsub hn (fa.later lb) gb (ks := l₂) fun k hk => hw k (by simp [hk])
  exact ⟨s, ic s hs, lc.inn hin, hl, by rw [lc.short s hin hl, hr]⟩

/-- The last step of a cycle. -/
theorem found_last (ho : Orders ord) (h0 : next [] = []) (hn : [] ∉ path) {n : Nat} (f : AtCall h c path) (hw : NameWalks next path) (hp : path.length ≤ 2)
    (hk : k ∈ (match path.getLast? with | none => roots | some k => next k)) (hm : k ∈ path) :
    Found (path ++ [k]) (findPaths roots next ord (n + 1) path c h).1 (findPaths roots next ord (n + 1) path c h).2 := by
  rw [findPaths_succ]
  refine found_fold (findPaths_good ho h0 n) hn f (fun k hk h0 => nameWalks_snoc ho hw hk h0) ((ho _ _).mem_iff.2 hk) ?_
  intro hp f g
  obtain ⟨l, f', hin, hlen, harr⟩ := append_frame (W := fun _ => True) (k := k) f trivial
  have := f.len
  unfold findStep
  generalize hp.1.append c k = ap at *
  simp only [hm, if_true]
  exact ⟨ap.2, by simp, hin, by omega, f'.read⟩

/-- A step before. -/
theorem found_step (ho : Orders ord) (h0 : next [] = []) (hn : [] ∉ path) (hk0 : k ≠ []) {n : Nat} {r : List Str} (f : AtCall h c path) (hw : NameWalks next path)
    (hk : k ∈ (match path.getLast? with | none => roots | some k => next k)) (hm : k ∉ path)
    (hs : ∀ s h, AtCall h s (path ++ [k]) → NameWalks next (path ++ [k]) →
      Found r (findPaths roots next ord n (path ++ [k]) s h).1 (findPaths roots next ord n (path ++ [k]) s h).2) :
    Found r (findPaths roots next ord (n + 1) path c h).1 (findPaths roots next ord (n + 1) path c h).2 := by
  rw [findPaths_succ]
  have hk' := (ho path _).mem_iff.2 hk
  refine found_fold (findPaths_good ho h0 n) hn f (fun k hk h0 => nameWalks_snoc ho hw hk h0) hk' ?_
  intro hp f g
  have hw' := nameWalks_snoc ho hw hk' hk0
  obtain ⟨l, f', hin, hlen, harr⟩ := append_frame (k := k) f hw'
  unfold findStep
  simp only [hm, if_false, hk0]
  generalize hp.1.append c k = ap at *
  obtain ⟨s, h1, h2⟩ := hs ap.2 ap.1 f' hw'
  exact ⟨s, by simp only [List.mem_append]; exact .inr h1, h2⟩

theorem frame_init : AtCall [[]] ⟨0, 0⟩ [] := ⟨by simp, .inl ⟨rfl, rfl⟩, rfl⟩

/-- If anything is found there is a cycle. -/
theorem find_cycle (ho : Orders ord) : ∀ n path c h, Walks next path → (findPaths roots next ord n path c h).2 ≠ [] →
    ∃ r l, Walks next (r :: l ++ [r])
  | 0, _, _, _, _, h => absurd rfl h
  | n + 1, path, c, h, hw, hne => by
    rw [findPaths_succ] at hne
    generalize hks : ord path _ = ks at hne
    have hk : ∀ k ∈ ks, Walks next (path ++ [k]) := fun k hk => walks_snoc ho hw (hks ▸ hk)
    clear hks
    suffices H : ∀ ks : List Str, (∀ k ∈ ks, Walks next (path ++ [k])) → ∀ hp : Heap × List Slice, hp.2 = [] →
        (ks.foldl (findStep (findPaths roots next ord n) path c) hp).2 ≠ [] → ∃ r l, Walks next (r :: l ++ [r]) from H ks hk _ rfl hne
    intro ks
    induction ks with
    | nil => intro _ hp h0 h; exact absurd h0 h
    | cons k ks ih =>
      intro hk hp h0 hne
      rw [List.foldl_cons] at hne
      have hk1 := hk k (by simp)
      by_cases hm : k ∈ path
      · obtain ⟨p, q, rfl⟩ := List.append_of_mem hm
        rw [List.append_assoc] at hk1
        exact ⟨k, q, chained_drop hk1⟩
      · by_cases hs : (findStep (findPaths roots next ord n) path c hp k).2 = []
        · exact ih (fun k hk' => hk k (by simp [hk'])) _ hs hne
        · unfold findStep at hs
          simp only [hm, if_false, h0, List.nil_append] at hs
          exact find_cycle ho n _ _ _ hk1 hs

/-! ## Cycles without side branches -/

/-- A route of any length is among the results. -/
def FoundAny (r : List Str) (h : Heap) (ss : List Slice) : Prop := ∃ s ∈ ss, s.In h ∧ h.read s = r

/-- Along a way on which there is only one next name. -/
theorem found_single (ho : Orders ord) : ∀ (l path : List Str) (n : Nat) (c : Slice) (h : Heap) (k : Str), l.length < n → AtCall h c path →
    path ≠ [] → (∀ a b p q, path ++ l ++ [k] = p ++ a :: b :: q → path.length ≤ p.length + 1 → next a = [b]) → (path ++ l).Nodup → k ∈ path →
    [] ∉ path ++ l →
    FoundAny (path ++ l ++ [k]) (findPaths roots next ord n path c h).1 (findPaths roots next ord n path c h).2
  | _, _, 0, _, _, _, hl, _, _, _, _, _, _ => by simp at hl
  | l, path, n + 1, c, h, k, hl, f, hne, hnext, hnd, hk, hnil => by
    obtain ⟨p, a, rfl⟩ : ∃ p a, path = p ++ [a] := ⟨path.dropLast, path.getLast hne, (List.dropLast_concat_getLast hne).symm⟩
    rw [findPaths_succ]
    simp only [List.getLast?_append, List.getLast?_singleton, Option.some_or]
    match l with
    | [] =>
      have hn : next a = [k] := hnext a k p [] (by simp) (by simp)
      have hord : ord (p ++ [a]) (next a) = [k] := by rw [hn]; exact List.perm_singleton.1 (ho _ _)
      obtain ⟨l, f', hin, hlen, harr⟩ := append_frame (W := fun _ => True) (k := k) f trivial
      rw [hord, List.foldl_cons, List.foldl_nil]
      simp only [findStep, hk, if_true, List.append_nil]
      exact ⟨(h.append c k).2, by simp, hin, f'.read⟩
    | b :: l =>
      have hn : next a = [b] := hnext a b p (l ++ [k]) (by simp) (by simp)
      have hord : ord (p ++ [a]) (next a) = [b] := by rw [hn]; exact List.perm_singleton.1 (ho _ _)
      obtain ⟨_, f', hin, hlen, harr⟩ := append_frame (W := fun _ => True) (k := b) f trivial
      rw [hord, List.foldl_cons, List.foldl_nil]
      have hb : b ∉ p ++ [a] := fun hb => (List.nodup_append.1 hnd).2.2 b hb b (by simp) rfl
      have hb0 : b ≠ [] := fun e => hnil (by simp [e])
      simp only [findStep, hb, if_false, hb0, List.nil_append]
      have := found_single ho l (p ++ [a] ++ [b]) n (h.append c b).2 (h.append c b).1 k (by simpa using hl) f' (by simp)
        (fun x y p' q' e hlen' => hnext x y p' q' (by rw [← e]; simp) (by simp at hlen' ⊢; omega))
        (by simpa using hnd) (List.mem_append_left _ hk) (by simpa using hnil)
      rw [show p ++ [a] ++ b :: l ++ [k] = p ++ [a] ++ [b] ++ l ++ [k] by simp]
      exact this

/-- A cycle on which each name has only one next is found. -/
theorem found_single_root (ho : Orders ord) (h0 : next [] = []) {n : Nat} {r : Str} {l : List Str} (hr : r ∈ roots) (hl : l.length < n)
    (hnext : ∀ a b p q, r :: l ++ [r] = p ++ a :: b :: q → next a = [b]) (hnd : (r :: l).Nodup) (hnil : [] ∉ r :: l) :
    FoundAny (r :: l ++ [r]) (findPaths roots next ord (n + 1) [] ⟨0, 0⟩ [[]]).1 (findPaths roots next ord (n + 1) [] ⟨0, 0⟩ [[]]).2 := by
  rw [findPaths_succ]
  simp only [List.getLast?_nil]
  have hn : [] ∉ ([] : List Str) := by simp
  have hw : ∀ k : Str, k ≠ [] → NameWalks next ([] ++ [k]) := fun k hk => ⟨trivial, by simpa using Ne.symm hk⟩
  have hsub := findPaths_good (roots := roots) ho h0 n
  obtain ⟨l₁, l₂, e⟩ := List.append_of_mem ((ho [] roots).mem_iff.2 hr)
  rw [e, List.foldl_append, List.foldl_cons]
  obtain ⟨la, ga, -⟩ := findFold_good hsub hn (hp := ([[]], [])) frame_init (fun s hs => by simp at hs) (ks := l₁) fun k _ => hw k
  generalize l₁.foldl (findStep (findPaths roots next ord n) [] ⟨0, 0⟩) ([[]], []) = hp at *
  have fa := frame_init.later la
  obtain ⟨lb, gb, -⟩ := findStep_good hsub hn fa ga (hw r)
  obtain ⟨lc, -, ic⟩ := findFold_good hsub hn (fa.later lb) gb (ks := l₂) fun k _ => hw k
  have hf : FoundAny (r :: l ++ [r]) (findStep (findPaths roots next ord n) [] ⟨0, 0⟩ hp r).1
      (findStep (findPaths roots next ord n) [] ⟨0, 0⟩ hp r).2 := by
    obtain ⟨_, f', -, -, -⟩ := append_frame (W := fun _ => True) (k := r) fa trivial
    have hr0 : r ≠ [] := fun e => hnil (by simp [e])
    simp only [findStep, List.not_mem_nil, if_false, hr0, List.nil_append]
    obtain ⟨s, h1, h2⟩ := found_single (roots := roots) (next := next) ho l [r] n (hp.1.append ⟨0, 0⟩ r).2 (hp.1.append ⟨0, 0⟩ r).1 r hl f'
      (by simp) (fun a b p q e _ => hnext a b p q e) hnd (by simp) hnil
    exact ⟨s, List.mem_append_right _ h1, h2⟩
  obtain ⟨s, h1, h2, h3⟩ := hf
  have hcap0 : (findStep (findPaths roots next ord n) [] ⟨0, 0⟩ hp r).1.cap 0 = 0 := (la.trans lb).cap 0 (by simp)
  have hs0 : s.arr ≠ 0 := fun e => by
    have h4 := h2.2
    rw [e, hcap0] at h4
    have : s.len = 0 := by omega
    rw [Heap.read, this] at h3
    simp at h3
  exact ⟨s, ic s h1, lc.inn h2, by rw [Heap.read, lc.other s.arr h2.1 hs0]; exact h3⟩

/-! ## The bound is enough -/

theorem findPaths_enough (ho : Orders ord) (hc : ∀ a ∈ roots, ∀ b ∈ next a, b ∈ roots) : ∀ n path c h, path.Nodup → (∀ a ∈ path, a ∈ roots) →
    roots.length < n + path.length → ∀ m, findPaths roots next ord (n + m) path c h = findPaths roots next ord n path c h
  | 0, path, _, _, hnd, hs, hl, _ => by
    have := hnd.length_le_of_subset (l₂ := roots) (fun a ha => hs a ha)
    omega
  | n + 1, path, c, h, hnd, hs, hl, m => by
    rw [show n + 1 + m = n + m + 1 by omega, findPaths_succ, findPaths_succ]
    have hks : ∀ k ∈ ord path (match path.getLast? with | none => roots | some k => next k), k ∈ roots := by
      intro k hk
      have hk := (ho _ _).mem_iff.1 hk
      cases hp : path.getLast? with
      | none => rw [hp] at hk; exact hk
      | some a => rw [hp] at hk; exact hc a (hs a (List.mem_of_getLast? hp)) k hk
    generalize ord path _ = ks at hks
    generalize (h, ([] : List Slice)) = hp
    induction ks generalizing hp with
    | nil => rfl
    | cons k ks ih =>
      rw [List.foldl_cons, List.foldl_cons]
      have : findStep (findPaths roots next ord (n + m)) path c hp k = findStep (findPaths roots next ord n) path c hp k := by
        unfold findStep
        by_cases hm : k ∈ path
        · simp only [hm, if_true]
        · simp only [hm, if_false]
          rw [findPaths_enough ho hc n (path ++ [k]) _ _ (List.nodup_append.2 ⟨hnd, by simp, by simp; exact fun a ha e => hm (e ▸ ha)⟩)
            (by simp only [List.mem_append, List.mem_singleton]; rintro a (ha | rfl)
                · exact hs a ha
                · exact hks _ (by simp)) (by simp; omega) m]
      rw [this]
      exact ih (fun k hk => hks k (by simp [hk])) _

end Wbnf

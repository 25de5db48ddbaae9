import Verif.Spec.Path

/-!
# Lemmas about paths
-/

namespace Wbnf

theorem pathElems_ne : ∀ (p : Str), pathElems p ≠ []
  | [] => by simp [pathElems]
  | c :: s => by
    rw [pathElems]
    split
    · simp
    · split <;> simp

theorem pathElems_noSlash : ∀ {p e : Str}, e ∈ pathElems p → 47 ∉ e
  | [], e, h => by
    simp only [pathElems, List.mem_singleton] at h
    subst h; simp
  | c :: s, e, h => by
    rw [pathElems] at h
    split at h
    · rcases List.mem_cons.1 h with rfl | h
      · simp
      · exact pathElems_noSlash h
    · next hc =>
      split at h
      · next he => exact (pathElems_ne s he).elim
      · next e' es he =>
        rcases List.mem_cons.1 h with rfl | h
        · have := pathElems_noSlash (p := s) (e := e') (by rw [he]; simp)
          simp only [List.mem_cons, not_or]
          exact ⟨fun h => hc h.symm, this⟩
        · exact pathElems_noSlash (p := s) (by rw [he]; simp [h])

theorem pathElems_slash : ∀ (p q : Str), pathElems (p ++ 47 :: q) = pathElems p ++ pathElems q
  | [], q => by simp [pathElems]
  | c :: s, q => by
    rw [List.cons_append, pathElems, pathElems, pathElems_slash s q]
    by_cases hc : c = 47
    · simp [hc]
    · rw [if_neg hc, if_neg hc]
      cases h : pathElems s with
      | nil => exact (pathElems_ne s h).elim
      | cons e es => rfl

theorem pathElems_one : ∀ {e : Str}, 47 ∉ e → pathElems e = [e]
  | [], _ => rfl
  | c :: s, h => by
    simp only [List.mem_cons, not_or] at h
    rw [pathElems, if_neg (fun e => h.1 e.symm), pathElems_one h.2]

theorem pathElems_slashed : ∀ {es : List Str}, (∀ e ∈ es, 47 ∉ e) → es ≠ [] → pathElems (slashed es) = es
  | [], _, h => (h rfl).elim
  | [e], h, _ => pathElems_one (h e (by simp))
  | e :: e' :: es, h, _ => by
    rw [slashed, pathElems_slash, pathElems_one (h e (by simp)), pathElems_slashed (es := e' :: es) (fun x hx => h x (by simp [hx])) (by simp)]
    · rfl
    · simp

theorem pathElems_slashed_flat : ∀ {es : List Str}, es ≠ [] → pathElems (slashed es) = es.flatMap pathElems
  | [], h => (h rfl).elim
  | [e], _ => by simp [slashed]
  | e :: e' :: es, _ => by
    rw [slashed, pathElems_slash, pathElems_slashed_flat (es := e' :: es) (by simp), List.flatMap_cons]
    · simp
    · simp

/-- What is kept of a path: names, and before them (later in the list) `..` if the path is not rooted. -/
def CleanOut (abs : Bool) (out : List Str) : Prop :=
  ∃ names k, out = names ++ List.replicate k (str "..") ∧ (∀ x ∈ names, ProperName x) ∧ (abs = true → k = 0)

theorem kept_elem {abs : Bool} {out : List Str} {e : Str} (h : CleanOut abs out) (he : 47 ∉ e) : CleanOut abs (cleanElem abs out e) := by
  obtain ⟨names, k, rfl, hn, hk⟩ := h
  unfold cleanElem
  split
  · exact ⟨names, k, rfl, hn, hk⟩
  · next h1 =>
    split
    · cases names with
      | nil =>
        cases k with
        | zero =>
          cases abs with
          | true => exact ⟨[], 0, rfl, by simp, by simp⟩
          | false => exact ⟨[], 1, rfl, by simp, by simp⟩
        | succ k =>
          refine ⟨[], k + 2, ?_, by simp, fun h => ?_⟩
          · simp [List.replicate_succ]
          · have := hk h; omega
      | cons x xs =>
        have hx := hn x (by simp)
        simp only [List.cons_append]
        rw [if_neg hx.2.2.1]
        exact ⟨xs, k, rfl, fun y hy => hn y (by simp [hy]), hk⟩
    · next h2 =>
      refine ⟨e :: names, k, rfl, fun x hx => ?_, hk⟩
      rcases List.mem_cons.1 hx with rfl | hx
      · rw [not_or] at h1
        exact ⟨h1.1, h1.2, h2, he⟩
      · exact hn x hx

theorem kept_elems {abs : Bool} : ∀ {es out : List Str}, CleanOut abs out → (∀ e ∈ es, 47 ∉ e) → CleanOut abs (es.foldl (cleanElem abs) out)
  | [], _, h, _ => h
  | e :: _, _, h, he => by
    rw [List.foldl_cons]
    exact kept_elems (kept_elem h (he e (by simp))) fun x hx => he x (by simp [hx])

/-- Where what is kept leads to. -/
theorem walks_elem {abs : Bool} {out : List Str} {e : Str} {l : Loc} (h : CleanOut abs out) (hl : abs = true → l = []) :
    (cleanElem abs out e).reverse.foldl Loc.step l = (out.reverse.foldl Loc.step l).step e := by
  obtain ⟨names, k, rfl, hn, hk⟩ := h
  unfold cleanElem
  rw [Loc.step]
  split
  · rfl
  · next h1 =>
    split
    · next h2 =>
      subst h2
      cases names with
      | nil =>
        cases k with
        | zero =>
          cases abs with
          | true => simp [hl rfl]
          | false => simp [Loc.step, str]
        | succ k =>
          simp only [List.nil_append, List.replicate_succ]
          rw [if_pos trivial, List.reverse_cons, List.foldl_append]
          simp [Loc.step, str]
      | cons x xs =>
        have hx := hn x (by simp)
        simp only [List.cons_append]
        rw [if_neg hx.2.2.1, List.reverse_cons, List.foldl_append]
        simp only [List.foldl_cons, List.foldl_nil]
        rw [Loc.step, if_neg (by rw [not_or]; exact ⟨hx.1, hx.2.1⟩), if_neg hx.2.2.1, List.tail_cons]
    · next h2 =>
      rw [List.reverse_cons, List.foldl_append]
      simp only [List.foldl_cons, List.foldl_nil]
      rw [Loc.step, if_neg h1, if_neg h2]

theorem walks_elems {abs : Bool} {l : Loc} (hl : abs = true → l = []) : ∀ {es out : List Str}, CleanOut abs out → (∀ e ∈ es, 47 ∉ e) →
    (es.foldl (cleanElem abs) out).reverse.foldl Loc.step l = es.foldl Loc.step (out.reverse.foldl Loc.step l)
  | [], _, _, _ => rfl
  | e :: es, out, h, he => by
    rw [List.foldl_cons, List.foldl_cons, walks_elems hl (kept_elem h (he e (by simp))) fun x hx => he x (by simp [hx]), walks_elem h hl]

theorem kept_nil {abs : Bool} : CleanOut abs [] := ⟨[], 0, rfl, by simp, by simp⟩

/-- What `cleanPath` keeps. -/
def cleanOut (p : Str) : List Str := (pathElems p).foldl (cleanElem (rooted p)) []

theorem kept_kept (p : Str) : CleanOut (rooted p) (cleanOut p) := kept_elems kept_nil fun _ h => pathElems_noSlash h

theorem CleanOut.noSlash {abs : Bool} {out : List Str} (h : CleanOut abs out) : ∀ e ∈ out, 47 ∉ e := by
  obtain ⟨names, k, rfl, hn, hk⟩ := h
  intro e he
  rcases List.mem_append.1 he with h | h
  · exact (hn e h).2.2.2
  · rw [(List.mem_replicate.1 h).2]; decide

theorem CleanOut.ne {abs : Bool} {out : List Str} (h : CleanOut abs out) : ∀ e ∈ out, e ≠ [] := by
  obtain ⟨names, k, rfl, hn, hk⟩ := h
  intro e he
  rcases List.mem_append.1 he with h | h
  · exact (hn e h).1
  · rw [(List.mem_replicate.1 h).2]; decide

theorem cleanPath_eq (p : Str) : cleanPath p =
    if rooted p then 47 :: slashed (cleanOut p).reverse else if (cleanOut p).isEmpty then str "." else slashed (cleanOut p).reverse := by
  show (if rooted p then 47 :: slashed (cleanOut p).reverse else if (cleanOut p).reverse.isEmpty then str "." else slashed (cleanOut p).reverse) = _
  rw [List.isEmpty_reverse]

theorem rooted_slashed {es : List Str} (h : ∀ e ∈ es, e ≠ [] ∧ 47 ∉ e) : rooted (slashed es) = false := by
  cases es with
  | nil => rfl
  | cons e es =>
    obtain ⟨h1, h2⟩ := h e (by simp)
    cases e with
    | nil => exact (h1 rfl).elim
    | cons c e =>
      have hc : c ≠ 47 := fun hc => h2 (by simp [hc])
      cases es <;> simp [slashed, rooted, hc]

theorem rooted_clean (p : Str) : rooted (cleanPath p) = rooted p := by
  rw [cleanPath_eq]
  cases h : rooted p with
  | true => simp [rooted]
  | false =>
    rw [if_neg (by simp)]
    split
    · rfl
    · exact rooted_slashed fun e he => ⟨(kept_kept p).ne e (List.mem_reverse.1 he), (kept_kept p).noSlash e (List.mem_reverse.1 he)⟩

/-- Where the elements of a cleaned path lead to. -/
theorem elems_clean (p : Str) (l : Loc) : (pathElems (cleanPath p)).foldl Loc.step l = (cleanOut p).reverse.foldl Loc.step l := by
  have hs : ∀ e ∈ (cleanOut p).reverse, 47 ∉ e := fun e he => (kept_kept p).noSlash e (List.mem_reverse.1 he)
  rw [cleanPath_eq]
  by_cases hk : cleanOut p = []
  · rw [hk]
    cases rooted p <;> simp [slashed, pathElems, str, Loc.step]
  · have hk' : (cleanOut p).reverse ≠ [] := by simpa using hk
    split
    · rw [pathElems, if_pos rfl, List.foldl_cons, pathElems_slashed hs hk']
      simp [Loc.step]
    · rw [if_neg (by simpa using hk), pathElems_slashed hs hk']

/-- `Clean` does not change where a path leads to. -/
theorem go_clean (l : Loc) (p : Str) : l.go (cleanPath p) = l.go p := by
  rw [Loc.go, Loc.go, rooted_clean, elems_clean, cleanOut,
    walks_elems (l := if rooted p then [] else l) (fun h => if_pos h) kept_nil fun _ h => pathElems_noSlash h]
  rfl

/-- Where what is kept of a path leads to. -/
theorem kept_go {names : List Str} (hn : ∀ x ∈ names, ProperName x) (k : Nat) (l : Loc) :
    (names ++ List.replicate k (str "..")).reverse.foldl Loc.step l = names ++ l.drop k := by
  rw [List.reverse_append, List.foldl_append]
  have h1 : ∀ (k : Nat) (l : Loc), (List.replicate k (str "..")).foldl Loc.step l = l.drop k := by
    intro k
    induction k with
    | zero => intro l; rfl
    | succ k ih =>
      intro l
      rw [List.replicate_succ, List.foldl_cons, ih]
      have : Loc.step l (str "..") = l.tail := by simp [Loc.step, str]
      rw [this, ← List.drop_one, List.drop_drop]
      congr 1; omega
  rw [List.reverse_replicate, h1]
  have h2 : ∀ (names : List Str) (l : Loc), (∀ x ∈ names, ProperName x) → names.reverse.foldl Loc.step l = names ++ l := by
    intro names
    induction names with
    | nil => intro l _; rfl
    | cons x xs ih =>
      intro l h
      have hx := h x (by simp)
      rw [List.reverse_cons, List.foldl_append, ih l fun y hy => h y (by simp [hy])]
      simp only [List.foldl_cons, List.foldl_nil]
      rw [Loc.step, if_neg (by rw [not_or]; exact ⟨hx.1, hx.2.1⟩), if_neg hx.2.2.1]
      rfl
  exact h2 names _ hn

/-- A name that is longer than the others. -/
theorem fresh_name (xs : List Str) : ∃ x : Str, ProperName x ∧ x ∉ xs := by
  refine ⟨List.replicate ((xs.map List.length).sum + 3) 120, ⟨by simp [List.replicate_succ], ?_, ?_, fun h => ?_⟩, fun h => ?_⟩
  · intro h; have := congrArg List.length h; simp [str] at this
  · intro h; have := congrArg List.length h; simp [str] at this
  · have := (List.mem_replicate.1 h).2
    exact absurd this (by decide)
  · have : ∀ (xs : List Str) (x : Str), x ∈ xs → x.length ≤ (xs.map List.length).sum := by
      intro xs
      induction xs with
      | nil => intro x h; simp at h
      | cons y ys ih =>
        intro x h
        rw [List.map_cons, List.sum_cons]
        rcases List.mem_cons.1 h with rfl | h
        · omega
        · have := ih x h; omega
    have := this _ _ h
    rw [List.length_replicate] at this
    omega

/-- What is kept is known from where it leads to. -/
theorem kept_unique {abs : Bool} {out out' : List Str} (h : CleanOut abs out) (h' : CleanOut abs out')
    (he : ∀ l : Loc, l.Proper → (abs = true → l = []) → out.reverse.foldl Loc.step l = out'.reverse.foldl Loc.step l) : out = out' := by
  obtain ⟨names, k, rfl, hn, hk⟩ := h
  obtain ⟨names', k', rfl, hn', hk'⟩ := h'
  simp only [kept_go hn, kept_go hn'] at he
  cases abs with
  | true =>
    rw [hk rfl, hk' rfl]
    simpa using he [] (by intro x hx; simp at hx) (fun _ => rfl)
  | false =>
    obtain ⟨x, hx, hf⟩ := fresh_name (names ++ names')
    have := he (List.replicate (k + k') x) (by intro y hy; rw [(List.mem_replicate.1 hy).2]; exact hx) (by simp)
    rw [List.drop_replicate, List.drop_replicate] at this
    have hc := congrArg (List.count x) this
    have c1 : List.count x names = 0 := List.count_eq_zero.2 fun h => hf (by simp [h])
    have c2 : List.count x names' = 0 := List.count_eq_zero.2 fun h => hf (by simp [h])
    rw [List.count_append, List.count_append, c1, c2, List.count_replicate_self, List.count_replicate_self] at hc
    have hkk : k = k' := by omega
    subst hkk
    rw [List.append_cancel_right_eq] at this
    rw [this]

theorem clean_of_kept {p q : Str} (hr : rooted p = rooted q) (hk : cleanOut p = cleanOut q) : cleanPath p = cleanPath q := by
  rw [cleanPath_eq, cleanPath_eq, hr, hk]

/-! ## Joining paths -/

/-- Going to a place, not from the root but from where one is. -/
def Loc.onward (l : Loc) (p : Str) : Loc := (pathElems p).foldl Loc.step l

theorem onward_eq {l : Loc} {p : Str} (h : rooted p = false) : l.onward p = l.go p := by
  rw [Loc.onward, Loc.go, h]; rfl

theorem onward_clean (l : Loc) (p : Str) (h : rooted p = false ∨ l = []) : l.onward (cleanPath p) = l.onward p := by
  have e : (if rooted p then [] else l) = l := by
    rcases h with h | h
    · rw [h]; rfl
    · rw [h]; split <;> rfl
  have := go_clean l p
  rw [Loc.go, Loc.go, rooted_clean, e] at this
  exact this

/-- Joining elements of which the first is not empty. -/
theorem joinPath_cons {e : Str} {es : List Str} (h : e ≠ []) : joinPath (e :: es) = cleanPath (slashed (e :: es)) := by
  rw [joinPath, List.dropWhile_cons_of_neg (by simpa using h)]

theorem rooted_append {p q : Str} (h : p ≠ []) : rooted (p ++ q) = rooted p := by
  cases p with
  | nil => exact (h rfl).elim
  | cons c p => rfl

theorem rooted_slashed_cons {e : Str} {es : List Str} (h : e ≠ []) : rooted (slashed (e :: es)) = rooted e := by
  cases es with
  | nil => rfl
  | cons e' es =>
    rw [slashed]
    · exact rooted_append h
    · simp

theorem go_join {e : Str} {es : List Str} (h : e ≠ []) (l : Loc) : l.go (joinPath (e :: es)) = es.foldl Loc.onward (l.go e) := by
  rw [joinPath_cons h, go_clean, Loc.go, Loc.go, rooted_slashed_cons h, pathElems_slashed_flat (by simp), List.flatMap_cons, List.foldl_append]
  generalize (pathElems e).foldl Loc.step _ = m
  induction es generalizing m with
  | nil => rfl
  | cons e' es ih =>
    rw [List.flatMap_cons, List.foldl_append, ih, List.foldl_cons]
    rfl

theorem clean_ne (p : Str) : cleanPath p ≠ [] := by
  rw [cleanPath_eq]
  split
  · simp
  · split
    · decide
    · next h =>
      intro he
      have := pathElems_slashed (es := (cleanOut p).reverse) (fun e he => (kept_kept p).noSlash e (List.mem_reverse.1 he)) (by simpa using h)
      rw [he] at this
      have hm : ([] : Str) ∈ (cleanOut p).reverse := by rw [← this]; simp [pathElems]
      exact (kept_kept p).ne _ (List.mem_reverse.1 hm) rfl

theorem join_ne {e : Str} {es : List Str} (h : e ≠ []) : joinPath (e :: es) ≠ [] := by
  rw [joinPath_cons h]; exact clean_ne _

theorem rooted_join {e : Str} {es : List Str} (h : e ≠ []) : rooted (joinPath (e :: es)) = rooted e := by
  rw [joinPath_cons h, rooted_clean, rooted_slashed_cons h]

/-! ## The path of an import -/

/-- Going along the words of an import. -/
theorem onward_word {x : Str} (h : x = str "/" ∨ (x ≠ [] ∧ 47 ∉ x)) (l : Loc) : l.onward x = if x = str "/" then l else l.step x := by
  rcases h with rfl | ⟨h1, h2⟩
  · rw [if_pos rfl]; simp [Loc.onward, pathElems, str, Loc.step]
  · rw [if_neg (fun e => h2 (by rw [e]; decide)), Loc.onward, pathElems_one h2]; rfl

theorem onwards_words : ∀ {p : List Str} {l : Loc}, (∀ x ∈ p, x = str "/" ∨ (x ≠ [] ∧ 47 ∉ x)) → p.foldl Loc.onward l = l.follow p
  | [], _, _ => rfl
  | x :: p, l, h => by
    rw [List.foldl_cons, onward_word (h x (by simp)), onwards_words (p := p) fun y hy => h y (by simp [hy])]
    rfl

theorem import_word_ne {x : Str} (h : x = str "/" ∨ (x ≠ [] ∧ 47 ∉ x)) : x ≠ [] := by
  rcases h with rfl | h
  · decide
  · exact h.1

/-- Onward along elements, one after the other. -/
theorem onward_slashed (l : Loc) {es : List Str} (h : es ≠ []) : l.onward (slashed es) = es.foldl Loc.onward l := by
  rw [Loc.onward, pathElems_slashed_flat h]
  clear h
  induction es generalizing l with
  | nil => rfl
  | cons e' es ih =>
    rw [List.flatMap_cons, List.foldl_append, ih, List.foldl_cons]
    rfl

/-- Going along a path with a slash at the start, not from the root but from where one is: it does not lead up from there. -/
theorem onward_rooted {p : Str} (h : rooted p = true) (l m : Loc) : l.onward (cleanPath p) = m.go p ++ l := by
  have hk := kept_kept p
  rw [h] at hk
  have h2 := go_clean m p
  rw [Loc.go, rooted_clean, h, if_pos rfl, elems_clean] at h2
  rw [Loc.onward, elems_clean, ← h2]
  obtain ⟨names, k, e, hn, h0⟩ := hk
  rw [e, kept_go hn, kept_go hn, h0 rfl]
  simp

theorem go_rooted {p : Str} (h : rooted p = true) (l : Loc) : l.go p = Loc.onward [] p := by
  rw [Loc.go, h]; rfl

theorem rooted_word {x : Str} (h : x ≠ [] ∧ 47 ∉ x) : rooted x = false := by
  cases x with
  | nil => rfl
  | cons c x =>
    have : c ≠ 47 := fun e => h.2 (by simp [e])
    simp [rooted, this]

/-- Onward along the words of an import. -/
theorem onward_import {p : List Str} (hp : ImportPath p) (l : Loc) :
    l.onward (joinPath p) = if p.head? = some (str "/") then Loc.follow [] p ++ l else l.follow p := by
  obtain ⟨hne, hw⟩ := hp
  cases p with
  | nil => exact (hne rfl).elim
  | cons x p =>
    have hx := import_word_ne (hw x (by simp))
    rw [joinPath_cons hx]
    by_cases h : x = str "/"
    · subst h
      rw [if_pos (by rfl), onward_rooted (m := []) (by rw [rooted_slashed_cons hx]; rfl), go_rooted (by rw [rooted_slashed_cons hx]; rfl),
        onward_slashed _ (by simp), onwards_words hw]
    · have h' : x ≠ [] ∧ 47 ∉ x := (hw x (by simp)).resolve_left h
      rw [if_neg (by simpa using h), onward_clean _ _ (.inl (by rw [rooted_slashed_cons hx]; exact rooted_word h')), onward_slashed _ (by simp), onwards_words hw]

/-! ## Directories -/

theorem dirPath_eq {pre x : Str} (hx : 47 ∉ x) (h : pre = [] ∨ ∃ d, pre = d ++ [47]) : dirPath (pre ++ x) = cleanPath pre := by
  rw [dirPath, List.reverse_append, List.dropWhile_append_of_pos]
  · rcases h with rfl | ⟨d, rfl⟩
    · rfl
    · rw [List.reverse_append, List.reverse_singleton, List.singleton_append, List.dropWhile_cons_of_neg (by simp), List.reverse_cons, List.reverse_reverse]
  · intro c hc
    have : c ≠ 47 := fun e => hx (e ▸ List.mem_reverse.1 hc)
    simpa using this

theorem go_dir {p : Str} (h : NamesFile p) (l : Loc) : l.go (dirPath p) = (l.go p).dir := by
  rw [Loc.dir]
  obtain ⟨pre, x, rfl, hx, h⟩ := h
  rw [dirPath_eq hx.2.2.2 h, go_clean]
  have hs : ∀ m : Loc, m.step x = x :: m := fun m => by
    rw [Loc.step, if_neg (by rw [not_or]; exact ⟨hx.1, hx.2.1⟩), if_neg hx.2.2.1]
  rcases h with rfl | ⟨d, rfl⟩
  · have : rooted x = false := rooted_word ⟨hx.1, hx.2.2.2⟩
    rw [List.nil_append, Loc.go, Loc.go, this, pathElems_one hx.2.2.2]
    simp only [List.foldl_cons, List.foldl_nil, hs, List.tail_cons]
    simp [rooted, pathElems, Loc.step]
  · rw [Loc.go, Loc.go, rooted_append (p := d ++ [47]) (q := x) (by simp), pathElems_slash, List.append_assoc, List.singleton_append, pathElems_slash,
      pathElems_one hx.2.2.2, List.foldl_append, List.foldl_append]
    simp only [List.foldl_cons, List.foldl_nil, hs, List.tail_cons]
    simp [pathElems, Loc.step]

theorem rooted_dir {p : Str} (h : rooted p = true) : rooted (dirPath p) = true := by
  rw [dirPath, rooted_clean]
  cases p with
  | nil => simp [rooted] at h
  | cons c p =>
    have hc : c = 47 := by simpa [rooted] using h
    subst hc
    rw [List.reverse_cons]
    have : ∀ q : Str, ∃ q', (q ++ [47]).dropWhile (· != 47) = q' ++ [47] := by
      intro q
      induction q with
      | nil => exact ⟨[], rfl⟩
      | cons d q ih =>
        by_cases hd : d = 47
        · exact ⟨d :: q, by rw [List.cons_append, List.dropWhile_cons_of_neg (by simp [hd])]⟩
        · rw [List.cons_append, List.dropWhile_cons_of_pos (by simpa using hd)]; exact ih
    obtain ⟨q', e⟩ := this p.reverse
    rw [e, List.reverse_append]
    rfl

theorem dir_ne (p : Str) : dirPath p ≠ [] := clean_ne _

/-- Where the commands look for an import. -/
theorem go_resolve {base src file : Str} (hb : base ≠ []) (l : Loc) : l.go (cleanPath (resolvePath base src file)) =
    (if src = [] then l.go base else (l.go base).onward src).onward file := by
  rw [go_clean, resolvePath]
  split
  · rw [go_clean, go_join hb]; rfl
  · rw [go_clean, go_join hb]; rfl

theorem rooted_resolve {base src file : Str} (hb : base ≠ []) : rooted (resolvePath base src file) = rooted base := by
  rw [resolvePath]
  split <;> rw [rooted_clean, rooted_join hb]

end Wbnf

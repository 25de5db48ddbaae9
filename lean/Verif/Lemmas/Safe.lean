import Verif.Spec.Safe
import Verif.Lemmas.Derive
import Verif.Lemmas.Fold
import Verif.Lemmas.Advance

/-! No panics. -/

namespace Wbnf

theorem marksList_append (a b : List Tree) : marksList (a ++ b) = marksList a + marksList b := by
  induction a with
  | nil => simp [marksList]
  | cons v a ih => simp [marksList, ih]; omega

theorem LeftNest.marks {tag items v} (h : LeftNest tag items v) : v.marks = marksList items := by
  induction h with
  | three => rfl
  | more h ih => rw [Tree.marks, marksList_append, ← ih]; simp [marksList]

theorem RightNest.marks {tag items v} (h : RightNest tag items v) : v.marks = marksList items := by
  induction h with
  | three => rfl
  | more h ih => rw [Tree.marks]; simp only [marksList, ih]; omega

theorem ListNode.marks {tag a items v} (h : ListNode tag a items v) : v.marks = marksList items := by
  cases h with
  | flat => rfl
  | left _ h => exact h.marks
  | right _ h => exact h.marks

theorem marks_pairs (tag : Str) (rest : List (Tree × Tree)) :
    marksList (rest.map fun p => .node tag .nil [p.1, p.2]) =
      marksList (rest.flatMap fun p => [p.1, p.2]) := by
  induction rest with
  | nil => rfl
  | cons p rest ih => simp [marksList, Tree.marks, ih]; omega

theorem marks_joinTree {tag ltag rtag first rest} :
    (joinTree tag ltag rtag false false none first rest none).marks =
      marksList (listItems none first rest none) := by
  simp [joinTree, Tree.marks, marksList, listItems, leading, trailing, marks_pairs]

/-- What may be said of a part for its trees to have no markers. -/
def MarkOK (_Γ : List Grammar) (t : Term) : Prop :=
  (∀ x, t ≠ .ext x) ∧ ∀ t' sep a cs ce, t = .delim t' sep a cs ce → cs = false ∧ ce = false

theorem basic_markOK : Basic MarkOK where
  seq := fun _ _ => ⟨by simp, by simp⟩
  quant := fun _ _ _ _ => ⟨by simp, by simp⟩
  text := fun _ _ _ _ _ => ⟨by simp, by simp⟩

section
variable {E : Engine} {X : Externals} {ρ : Nat → Nat}

theorem Derives.noMarks {G i vs j} (h : Derives E X G i vs j) (hc : Clean MarkOK G) : marksList vs = 0 := by
  induction h with
  | rule hr _ ih => exact ih fun _ _ hw => hc _ _ (.rule hr hw)
  | named _ ih => exact ih fun _ _ hw => hc _ _ (.named hw)
  | cut _ ih => exact ih fun _ _ hw => hc _ _ (.cut hw)
  | scope hE _ ih => exact ih fun _ _ hw => hc _ _ (.scope hE hw)
  | lit hp hl => obtain ⟨s, rfl⟩ := hl.leaf; rfl
  | regexp hp hl => obtain ⟨s, rfl⟩ := hl.leaf; rfl
  | seq _ ih =>
    have := ih fun t ht _ _ hw => hc _ _ (.seq ht hw)
    simpa [marksList, Tree.marks] using this
  | nil => rfl
  | cons _ _ ih1 ih2 =>
    have h1 := ih1 (hc _ (by simp))
    have h2 := ih2 (fun t ht => hc t (by simp [ht]))
    simp only [marksList] at h1 ⊢
    omega
  | oneof hn _ ih =>
    have := ih fun _ _ hw => hc _ _ (.oneof (List.mem_of_getElem? hn) hw)
    simpa [marksList, Tree.marks] using this
  | quant _ _ _ ih =>
    have := ih fun _ _ hw => hc _ _ (.quant hw)
    simpa [marksList, Tree.marks] using this
  | stop => rfl
  | more _ _ ih1 ih2 =>
    have h1 := ih1 hc
    have h2 := ih2 hc
    simp only [marksList] at h1 ⊢
    omega
  | look _ ih =>
    have := ih fun _ _ hw => hc _ _ (.look hw)
    simpa [marksList, Tree.marks] using this
  | @delim Γ rule term sep a cs ce vals i v v' j hd hf ih =>
    obtain ⟨rfl, rfl⟩ := (hc _ _ .refl).2 _ _ _ _ _ rfl
    have h1 := ih (fun Γ' t' hw => by
      rcases within_delimSeq (a := a) hw with ⟨ts, rfl⟩ | ⟨t, lo, hi, rfl⟩ | hw
      · exact basic_markOK.seq [] _
      · exact basic_markOK.quant [] _ _ _
      · exact hc _ _ hw)
    obtain ⟨lead, first, rest, trail, rfl, hl, ht⟩ := derives_join hd
    have := (delimFinish_inv hl ht hf).marks
    cases lead with
    | some => simp at hl
    | none =>
      cases trail with
      | some => simp at ht
      | none =>
        simp only [marksList] at h1 ⊢
        rw [this, ← marks_joinTree (tag := ruleOrAlt rule seqTag) (ltag := quantTag) (rtag := quantTag)]
        exact h1
  | ref _ _ hq _ _ ih => exact ih (clean_text basic_markOK (hc _ _ .refl) (quotable_text _ hq))
  | default _ hq _ ih => exact ih (clean_text basic_markOK (hc _ _ .refl) (quotable_text _ hq))
  | ext hx hf => exact absurd rfl ((hc _ _ .refl).1 _)

/-! ### Leaves are in range -/

/-- `s` shows a part of what `i` shows. -/
def Inside (i s : Scanner) : Prop :=
  s.src = i.src ∧ i.start ≤ s.start ∧ 0 ≤ s.len ∧ s.start + s.len ≤ i.start + i.len

theorem Inside.inRange {i s : Scanner} (h : Inside i s) (hi : i.InRange) : s.InRange := by
  obtain ⟨src, h1, h2, h3, h4⟩ := hi
  obtain ⟨h5, h6, h7, h8⟩ := h
  exact ⟨src, h5.trans h1, by omega, by omega, by omega⟩

theorem Inside.of_advances {i j s : Scanner} (h : Advances i j) (hs : Inside j s) : Inside i s := by
  obtain ⟨h5, h6, h7, h8⟩ := hs
  obtain ⟨a, b, c, d⟩ := h
  exact ⟨h5.trans a, by omega, h7, by omega⟩

theorem leaves_additive (hE : E.Sane) : Additive E X (PartOK true false (ReportsGroup E))
    (fun i ls j => i.InRange → Advances i j ∧ ∀ s ∈ ls, Inside i s) where
  nil := fun i hi => ⟨Advances.refl hi, by simp⟩
  append := fun i a j b k h1 h2 hi => by
    obtain ⟨h3, h4⟩ := h1 hi
    obtain ⟨h5, h6⟩ := h2 (h3.inRange hi)
    refine ⟨h3.trans h5, fun s hs => ?_⟩
    rcases List.mem_append.1 hs with h | h
    · exact h4 s h
    · exact Inside.of_advances h3 (h6 s h)
  leaf := fun Γ t p i s j hq hm hl hi => by
    obtain ⟨x, b, a, c, h1, ⟨locs, h2, h3, h3'⟩, rfl, rfl, h4, h5, h6, h7⟩ := hl.inv hE hi
    refine ⟨h7, fun s hs => ?_⟩
    simp at hs; subst hs
    have : (a, c) ≠ (-1, -1) := fun h => by
      have := hq.1 _ hm _ _ h2
      rw [h3, h] at this; exact this rfl
    obtain ⟨h8, h9, h10⟩ := h6.resolve_left this
    refine ⟨rfl, ?_, ?_, ?_⟩ <;> simp [Scanner.sub] <;> omega
  look := fun Γ t i a j hq h hi => ⟨Advances.refl hi, (h hi).2⟩
  ext := fun Γ x f c i v j hq _ _ => absurd rfl (hq.2.2 rfl x)

/-! ### Values that can be referred back to -/

mutual
theorem quotes_tree : (v : Tree) → v.marks = 0 → (∀ s ∈ v.leaves, ∃ l, s.toStr = some l ∧ Repeatable E l) →
    ∃ t, termFromRefVal v = some t ∧ t.quotable E = true
  | .node _ _ cs, h, hl => by
    obtain ⟨ts, h1, h2⟩ := quotes_list cs (by simpa [Tree.marks] using h) (by simpa [Tree.leaves] using hl)
    exact ⟨.seq ts, by simp [termFromRefVal, h1], by simpa [Term.quotable] using h2⟩
  | .leaf s, _, hl => by
    obtain ⟨l, h1, h2⟩ := hl s (by simp [Tree.leaves])
    exact ⟨.s l, by simp [termFromRefVal, h1], h2⟩
  | .empty, h, _ => by simp [Tree.marks] at h
  | .foreign _, h, _ => by simp [Tree.marks] at h
theorem quotes_list : (vs : List Tree) → marksList vs = 0 →
    (∀ s ∈ leavesList vs, ∃ l, s.toStr = some l ∧ Repeatable E l) →
    ∃ ts, termsFromRefVals vs = some ts ∧ quotableList E ts = true
  | [], _, _ => ⟨[], rfl, rfl⟩
  | v :: vs, h, hl => by
    simp only [marksList] at h
    simp only [leavesList, List.mem_append] at hl
    obtain ⟨t, h1, h2⟩ := quotes_tree v (by omega) (fun s hs => hl s (Or.inl hs))
    obtain ⟨ts, h3, h4⟩ := quotes_list vs (by omega) (fun s hs => hl s (Or.inr hs))
    exact ⟨t :: ts, by simp [termsFromRefVals, h1, h3], by simp [quotableList, h2, h4]⟩
end

mutual
theorem nodesEqual_some : (v w : Tree) → (∀ s ∈ v.leaves, ∃ l, s.toStr = some l) →
    (∀ s ∈ w.leaves, ∃ l, s.toStr = some l) → ∃ b, nodesEqual v w = some b
  | .node _ _ as, .node _ _ bs, h1, h2 => by
    simp only [nodesEqual]
    split
    · exact nodesEqualList_some as bs (by simpa [Tree.leaves] using h1) (by simpa [Tree.leaves] using h2)
    · exact ⟨_, rfl⟩
  | .leaf a, .leaf b, h1, h2 => by
    obtain ⟨l, h1⟩ := h1 a (by simp [Tree.leaves])
    obtain ⟨l', h2⟩ := h2 b (by simp [Tree.leaves])
    exact ⟨_, by simp only [nodesEqual, h1, h2]; rfl⟩
  | .node _ _ _, .leaf _, _, _ => ⟨_, rfl⟩
  | .node _ _ _, .empty, _, _ => ⟨_, rfl⟩
  | .node _ _ _, .foreign _, _, _ => ⟨_, rfl⟩
  | .leaf _, .node _ _ _, _, _ => ⟨_, rfl⟩
  | .leaf _, .empty, _, _ => ⟨_, rfl⟩
  | .leaf _, .foreign _, _, _ => ⟨_, rfl⟩
  | .empty, _, _, _ => ⟨_, rfl⟩
  | .foreign _, _, _, _ => ⟨_, rfl⟩
theorem nodesEqualList_some : (vs ws : List Tree) → (∀ s ∈ leavesList vs, ∃ l, s.toStr = some l) →
    (∀ s ∈ leavesList ws, ∃ l, s.toStr = some l) → ∃ b, nodesEqualList vs ws = some b
  | [], _, _, _ => ⟨_, rfl⟩
  | _ :: _, [], _, _ => ⟨_, rfl⟩
  | v :: vs, w :: ws, h1, h2 => by
    simp only [leavesList, List.mem_append] at h1 h2
    obtain ⟨b, hb⟩ := nodesEqual_some v w (fun s hs => h1 s (Or.inl hs)) (fun s hs => h2 s (Or.inl hs))
    obtain ⟨b', hb'⟩ := nodesEqualList_some vs ws (fun s hs => h1 s (Or.inr hs)) (fun s hs => h2 s (Or.inr hs))
    simp only [nodesEqualList, hb]
    cases b
    · exact ⟨_, rfl⟩
    · exact ⟨_, hb'⟩
end

/-! ### The parser -/

/-- What is asked of every part; `refs`: back references are allowed. -/
def SafePart (E : Engine) (refs : Bool) (Γ : List Grammar) (t : Term) : Prop :=
  (∀ r, t = .rule r → ∃ Γ' t', Resolves Γ r Γ' t') ∧
  (∀ p, Matches Γ t p → LeafSafe E (anchor ++ p)) ∧
  (refs = false → ∀ x d, t ≠ .ref x d) ∧
  (refs = true → PartOK true false (ReportsGroup E) Γ t ∧ MarkOK Γ t ∧
    ∀ x d, t = .ref x (some d) → d.quotable E = true)

theorem basic_safePart {refs} : Basic (SafePart E refs) where
  seq := fun Γ ts => ⟨by simp, fun p h => (by cases h), by simp,
    fun _ => ⟨basic_partOK.seq _ _, basic_markOK.seq [] _, by simp⟩⟩
  quant := fun Γ t lo hi => ⟨by simp, fun p h => (by cases h), by simp,
    fun _ => ⟨basic_partOK.quant _ _ _ _, basic_markOK.quant [] _ _ _, by simp⟩⟩
  text := fun Γ ident d l h => by
    refine ⟨by simp, fun p hp => ?_, by simp,
      fun hr => ⟨basic_partOK.text _ _ _ l (h.2.2.2 hr).1, basic_markOK.text Γ _ _ l (h.2.2.2 hr).2.1, by simp⟩⟩
    cases hp with
    | lit hp =>
      have : p = str "(" ++ quoteMeta l ++ str ")" := by
        cases hp with
        | plain => rfl
        | exempt h => simp [wrapOf] at h
        | listed h => simp [wrapOf] at h
        | wrapped h => simp [wrapOf] at h
      rw [this]
      exact h.2.1 _ (.ref l)

/-- Every part of the term is safe. -/
abbrev SafeTerm (E : Engine) (refs : Bool) (Γ : List Grammar) (t : Term) : Prop :=
  ∀ Γ' t', PartOf Γ t Γ' t' → SafePart E refs Γ' t'

/-- Bound values can be referred back to. -/
def ValsOK (E : Engine) (refs : Bool) (i0 : Scanner) (vals : List (Str × Tree)) : Prop :=
  refs = true → ∀ x w, lookup x vals = some w → w.marks = 0 ∧ ∀ s ∈ w.leaves, Inside i0 s

theorem ValsOK.bind {refs i0 vals x w} (h : ValsOK E refs i0 vals)
    (hw : refs = true → w.marks = 0 ∧ ∀ s ∈ w.leaves, Inside i0 s) :
    ValsOK E refs i0 (bindVal vals x w) := by
  intro hr y u hu
  unfold bindVal at hu
  split at hu
  · exact h hr y u hu
  · simp only [lookup] at hu
    split at hu
    · simp at hu; subst hu; exact hw hr
    · exact h hr y u hu

/-- The text under `i0` can be referred back to. -/
def TextOK (E : Engine) (refs : Bool) (i0 : Scanner) : Prop :=
  refs = true → ∀ s, Inside i0 s → ∃ l, s.toStr = some l ∧ Repeatable E l

theorem derived_ok (hE : E.Sane) {refs i0 Γ rule t vals i v j} (hi : i.InRange) (ha : Advances i0 i)
    (hs : SafeTerm E refs Γ t)
    (h : Derives E X (.term Γ rule t vals) i [v] j) : refs = true → v.marks = 0 ∧ ∀ s ∈ v.leaves, Inside i0 s := by
  intro hr
  refine ⟨?_, fun s hs' => ?_⟩
  · have := h.noMarks (fun Γ' t' hp => ((hs Γ' t' hp).2.2.2 hr).2.1)
    simpa [marksList] using this
  · have := (h.fold basic_partOK (leaves_additive hE) (fun Γ' t' hp => ((hs Γ' t' hp).2.2.2 hr).1) hi).2 s
      (by simpa [leavesList] using hs')
    exact Inside.of_advances ha this

def SafeAt (E : Engine) (X : Externals) (ρ : Nat → Nat) (refs : Bool) (i0 : Scanner) (n : Nat) : Prop :=
  ∀ m Γ env rule t p0 sc inp k, EnvRel E Γ env → t.wf = true →
    compileTerm E m (cacheOf Γ) rule t = .ok p0 → SafeTerm E refs Γ t → Advances i0 inp →
    ValsOK E refs i0 sc.vals → parse E X ρ n env (slot p0) sc inp k ≠ .panic

theorem eatLeaf_safe {p : Str} {sc inp k} (hp : LeafSafe E p) (hin : inp.InRange) :
    eatLeaf (E.find p) sc inp k ≠ .panic := by
  obtain ⟨src, i, n, rfl, hn⟩ := hin.elim
  unfold eatLeaf
  rw [eatRegexp_two, Scanner.slice_mk hn]
  simp only
  cases hf : E.find p (bytesAt src.origin i n) with
  | none => simp
  | some locs =>
    obtain ⟨b, g, rfl | ⟨g', rfl⟩⟩ := hp _ _ hf <;> simp

theorem items_safe (hE : E.Sane) (hX : X.Sane) (hesc : X.esc = none) {refs i0 n} (h0 : i0.InRange)
    (ih : SafeAt E X ρ refs i0 n) {m Γ env}
    (he : EnvRel E Γ env) {ts ps} (hw : wfList ts = true)
    (hm : makeParsers (cacheOf Γ) (compileTerm E m (cacheOf Γ) []) ts = .ok ps)
    (hs : ∀ t ∈ ts, SafeTerm E refs Γ t) {sc inp k} (ha : Advances i0 inp) (hv : ValsOK E refs i0 sc.vals) :
    seqLoop ρ (parse E X ρ n env) (isCutItem env) ((ts.map identFromTerm).zip ps) sc inp k ≠ .panic := by
  induction ts generalizing ps sc inp k with
  | nil => simp [seqLoop]
  | cons t ts iht =>
    obtain ⟨p, ps', h1, h2, rfl⟩ := makeParsers_cons hm
    simp only [wfList, Bool.and_eq_true] at hw
    simp only [List.map_cons, List.zip_cons_cons, seqLoop]
    have hst := hs t (by simp)
    have hp := ih m Γ env [] t p sc inp k he hw.1 h1 hst ha hv
    have hl := parse_left hE hX ρ n env (slot p) sc inp k (ha.inRange h0)
    cases hr : parse E X ρ n env (slot p) sc inp k with
    | panic => exact absurd hr hp
    | oof => simp
    | err e inp' k' => simp only; split <;> simp
    | ok v inp' k' =>
      rw [hr] at hl
      have hd := derive_sound hesc n m Γ env [] t p sc inp k v inp' k' he hw.1 h1 hr
      have hv' := derived_ok hE (ha.inRange h0) ha hst hd
      simp only
      have hbind : ∀ (sc' : Scope) k1, sc'.vals = sc.vals →
          (seqLoop ρ (parse E X ρ n env) (isCutItem env) ((ts.map identFromTerm).zip ps')
            (sc'.withVal (identFromTerm t) v) inp' k1).bind (fun vs i k'' => Res.ok (v :: vs) i k'') ≠ .panic := by
        intro sc' k1 hsc
        have := iht hw.2 h2 (fun u hu => hs u (by simp [hu])) (sc := sc'.withVal (identFromTerm t) v)
          (k := k1) (ha.trans hl) (by rw [bindVal_eq, hsc]; exact hv.bind hv')
        intro hh
        cases hq : seqLoop ρ (parse E X ρ n env) (isCutItem env) ((ts.map identFromTerm).zip ps')
            (sc'.withVal (identFromTerm t) v) inp' k1 with
        | panic => exact this hq
        | _ => simp [hq, Res.bind] at hh
      split
      · exact hbind _ _ (by simp [Scope.replaceCutPoint])
      · exact hbind _ _ rfl

theorem reps_safe (hE : E.Sane) (hX : X.Sane) {refs i0 n} (h0 : i0.InRange)
    (ih : SafeAt E X ρ refs i0 n) {m Γ env}
    (he : EnvRel E Γ env) {t p} (hw : t.wf = true) (hm : compileTerm E m (cacheOf Γ) [] t = .ok p)
    (hs : SafeTerm E refs Γ t) {max cp N cnt sc inp k} (ha : Advances i0 inp) (hv : ValsOK E refs i0 sc.vals) :
    quantLoop (fun i k => parse E X ρ n env (slot p) sc i k) max cp N cnt inp k ≠ .panic := by
  induction N generalizing cnt inp k with
  | zero => simp [quantLoop]
  | succ N ihN =>
    rw [quantLoop]
    split
    · have hp := ih m Γ env [] t p sc inp k he hw hm hs ha hv
      have hl := parse_left hE hX ρ n env (slot p) sc inp k (ha.inRange h0)
      cases hr : parse E X ρ n env (slot p) sc inp k with
      | panic => exact absurd hr hp
      | oof => simp
      | err e inp' k' => simp only; split <;> simp
      | ok v inp' k' =>
        rw [hr] at hl
        simp only
        have := ihN (cnt := cnt + 1) (inp := inp') (k := k') (ha.trans hl)
        intro hh
        cases hq : quantLoop (fun i k => parse E X ρ n env (slot p) sc i k) max cp N (cnt + 1) inp' k' with
        | panic => exact this hq
        | _ => simp [hq, Res.bind] at hh
    · simp

theorem alts_safe {refs i0 n}
    (ih : SafeAt E X ρ refs i0 n) {m Γ env}
    (he : EnvRel E Γ env) {ts ps} (hw : wfList ts = true)
    (hm : makeParsers (cacheOf Γ) (compileTerm E m (cacheOf Γ) []) ts = .ok ps)
    (hs : ∀ t ∈ ts, SafeTerm E refs Γ t) {tag pcp cp i fu sc inp k} (ha : Advances i0 inp)
    (hv : ValsOK E refs i0 sc.vals) :
    oneofLoop (fun q i k => parse E X ρ n env q sc i k) tag pcp cp inp ps i fu k ≠ .panic := by
  induction ts generalizing ps i fu k with
  | nil => simp [makeParsers] at hm; subst hm; simp [oneofLoop]
  | cons t ts iht =>
    obtain ⟨p, ps', h1, h2, rfl⟩ := makeParsers_cons hm
    simp only [wfList, Bool.and_eq_true] at hw
    rw [oneofLoop]
    have hp := ih m Γ env [] t p sc inp k he hw.1 h1 (hs t (by simp)) ha hv
    cases hr : parse E X ρ n env (slot p) sc inp k with
    | panic => exact absurd hr hp
    | oof => simp
    | err e inp' k' =>
      simp only
      split
      · simp
      · exact iht hw.2 h2 (fun u hu => hs u (by simp [hu]))
    | ok v inp' k' => simp

theorem compileTerm_error_ne {n id t} (ht : t.isText = true) (hq : t.quotable E = true) :
    compileTerm E n ⟨none, true⟩ id t ≠ .error .panic := by
  induction n generalizing id t with
  | zero => simp [compileTerm_zero]
  | succ n ih =>
    cases t with
    | s l =>
      rw [compileTerm_s]
      have hq' : E.valid (anchor ++ (str "(" ++ quoteMeta l ++ str ")")) = true := hq
      simp only [compileS, applyWrapRE, Except.bind, mustCompile]
      rw [if_pos hq']
      simp
    | seq ts =>
      rw [compileTerm_seq]
      have : ∀ ts : List Term, isTextList ts = true → quotableList E ts = true →
          makeParsers ⟨none, true⟩ (compileTerm E n ⟨none, true⟩ []) ts ≠ .error .panic := by
        intro ts
        induction ts with
        | nil => simp [makeParsers]
        | cons u us ihu =>
          intro h1 h2
          simp only [isTextList, Bool.and_eq_true] at h1
          simp only [quotableList, Bool.and_eq_true] at h2
          have h3 := ih (id := []) h1.1 h2.1
          have h4 := ihu h1.2 h2.2
          simp only [makeParsers]
          cases hc : compileTerm E n ⟨none, true⟩ [] u with
          | error e => cases e with
            | panic => exact absurd hc h3
            | oof => simp [Except.bind]
          | ok p =>
            have hne := compile_hard (EnvRel.nil (E := E)).wrapWF (isText_wf u h1.1).1 (isText_wf u h1.1).2 hc
            have : Cache.register ⟨none, true⟩ p = .ok p := by
              cases p <;> first | rfl | exact absurd rfl (hne _)
            simp only [Except.bind, this]
            cases hm : makeParsers ⟨none, true⟩ (compileTerm E n ⟨none, true⟩ []) us with
            | error e => cases e with
              | panic => exact absurd hm h4
              | oof => simp
            | ok ps => simp
      have := this ts (by simpa [Term.isText] using ht) (by simpa [Term.quotable] using hq)
      cases hm : makeParsers ⟨none, true⟩ (compileTerm E n ⟨none, true⟩ []) ts with
      | error e => cases e with
        | panic => exact absurd hm this
        | oof => simp [Except.bind]
      | ok ps => simp [Except.bind]
    | _ => simp [Term.isText] at ht

theorem parse_safe (hE : E.Sane) (hX : X.Sane) (hesc : X.esc = none) {refs i0} (h0 : i0.InRange)
    (htext : TextOK E refs i0) (n : Nat) : SafeAt E X ρ refs i0 n := by
  induction n with
  | zero => intro m Γ env rule t p0 sc inp k _ _ _ _ _ _; simp [parse_zero]
  | succ n ih =>
    intro m
    induction m with
    | zero => intro Γ env rule t p0 sc inp k _ _ h; simp [compileTerm_zero] at h
    | succ m ihm =>
      intro Γ env rule t p0 sc inp k he hw hc hs ha hv
      have hin := ha.inRange h0
      cases t with
      | rule r =>
        rw [compileTerm_rule] at hc; simp at hc; subst hc
        rw [slot, parse_link]
        obtain ⟨Γ', t', hr⟩ := (hs _ _ .refl).1 r rfl
        obtain ⟨q, env', m', h1, h2, h3, h4, h5⟩ := he.resolves hr
        rw [h1, Res.ofOption]
        simp only
        rw [← slot_of_ne h5]
        exact ih m' Γ' env' r t' q sc inp k h2 h4 h3 (fun _ _ hp => hs _ _ (.rule hr hp)) ha hv
      | named nm t =>
        rw [compileTerm_named] at hc
        exact ihm Γ env nm t p0 sc inp k he (by simpa [Term.wf] using hw) hc (fun _ _ hp => hs _ _ (.named hp)) ha hv
      | scope t g =>
        obtain ⟨g', f, q, h1, h2, h3, h4, h5, h6⟩ := compile_scope_inv he hw hc
        subst h5
        have hs' : SafeTerm E refs (g' :: Γ) t := fun _ _ hp => hs _ _ (.scope h1 hp)
        rcases parse_slot_scope (E := E) (X := X) (ρ := ρ) (n := n + 1) (env := env) (q := q) (sc := sc)
          (inp := inp) (k := k) h6 with ⟨_, hp⟩ | ⟨_, hp⟩
        · rw [hp]
          exact ihm (g' :: Γ) (f :: env) rule t q sc inp k h2 h3 h4 hs' ha hv
        · rw [hp]
          exact ih m (g' :: Γ) (f :: env) rule t q sc inp k h2 h3 h4 hs' ha hv
      | cut t =>
        rw [compileTerm_cut] at hc
        simp only [Except.bind_ok] at hc
        obtain ⟨q, hq, hc⟩ := hc
        simp at hc; subst hc
        simp only [Term.wf, Bool.and_eq_true] at hw
        have hne := compile_hard he.wrapWF hw.2 hw.1 hq
        rw [slot, parse_cut, ← slot_of_ne hne]
        · exact ih m Γ env rule t q sc inp k he hw.2 hq (fun _ _ hp => hs _ _ (.cut hp)) ha hv
        · exact fun r hr => by simp at hr
      | s l =>
        rw [compileTerm_s] at hc
        simp only [compileS, Except.bind_ok] at hc
        obtain ⟨re, h1, re', h2, hc⟩ := hc
        simp at hc; subst hc
        rw [slot, parse_s, escaping_none hesc]
        · rw [applyWrapRE_iff, cacheOf_wrap] at h1
          have : re' = anchor ++ re := by
            unfold mustCompile at h2; split at h2 <;> simp at h2; exact h2.symm
          rw [this]
          exact eatLeaf_safe ((hs _ _ .refl).2.1 _ (.lit h1)) hin
        · exact fun r hr => by simp at hr
      | re l =>
        rw [compileTerm_re] at hc
        simp only [compileRE, Except.bind_ok] at hc
        obtain ⟨re, h1, re', h2, hc⟩ := hc
        simp at hc; subst hc
        rw [slot, parse_re, escaping_none hesc]
        · rw [applyWrapRE_iff, cacheOf_wrap] at h1
          have : re' = anchor ++ re := by
            unfold mustCompile at h2; split at h2 <;> simp at h2; exact h2.symm
          rw [this]
          exact eatLeaf_safe ((hs _ _ .refl).2.1 _ (.regexp h1)) hin
        · exact fun r hr => by simp at hr
      | ref id d =>
        rw [compileTerm_ref] at hc; simp at hc; subst hc
        have hrefs : refs = true := by
          cases refs with
          | true => rfl
          | false => exact absurd rfl ((hs _ _ .refl).2.2.1 rfl id d)
        have hclean := fun {rule t vals} (ht : t.isText = true) =>
          clean_text (rule := rule) (t := t) (vals := vals) (basic_safePart (E := E) (refs := refs)) (hs _ _ .refl) ht
        rw [slot, parse_ref, escaping_none hesc]
        · cases hl : sc.getVal id with
          | none =>
            simp only
            cases d with
            | none => simp [refDefault]
            | some d =>
              simp only [refDefault]
              have hd : d.isText = true := by simpa [Term.wf] using hw
              have hq := ((hs _ _ .refl).2.2.2 hrefs).2.2 _ _ rfl
              obtain ⟨hw1, hw2⟩ := isText_wf d hd
              cases hcd : compileTerm E n ⟨none, true⟩ id d with
              | error e =>
                cases e with
                | panic => exact absurd hcd (compileTerm_error_ne hd hq)
                | oof => simp [Res.ofExcept]
              | ok q =>
                simp only [Res.ofExcept]
                have hne := compile_hard (EnvRel.nil (E := E)).wrapWF hw1 hw2 hcd
                rw [← slot_of_ne hne]
                exact ih n [] [] id d q sc inp k .nil hw1 hcd (hclean (rule := []) (vals := []) hd) ha hv
          | some w =>
            simp only [refExpect]
            obtain ⟨hwm, hwl⟩ := hv hrefs id w hl
            obtain ⟨t, ht, htq⟩ := quotes_tree (E := E) w hwm (fun s hs => htext hrefs s (hwl s hs))
            rw [ht, Res.ofOption]
            have htt := termFromRefVal_text w ht
            obtain ⟨hw1, hw2⟩ := isText_wf t htt
            cases hcd : compileTerm E n ⟨none, true⟩ id t with
            | error e =>
              cases e with
              | panic => exact absurd hcd (compileTerm_error_ne htt htq)
              | oof => simp [Res.ofExcept]
            | ok q =>
              simp only [Res.ofExcept]
              have hne := compile_hard (EnvRel.nil (E := E)).wrapWF hw1 hw2 hcd
              have hp := ih n [] [] id t q sc inp k .nil hw1 hcd (hclean (rule := []) (vals := []) htt) ha hv
              have hder := fun v j k' => derive_sound (ρ := ρ) hesc n n [] [] id t q sc inp k v j k' .nil hw1 hcd
              rw [slot_of_ne hne] at hp hder
              cases hr : parse E X ρ n [] q sc inp k with
              | panic => exact absurd hr hp
              | oof => simp [Res.bind]
              | err e i' k' => simp [Res.bind]
              | ok v i' k' =>
                have hdv := derived_ok hE hin ha (hclean (rule := []) (vals := []) htt) (hder _ _ _ hr) hrefs
                obtain ⟨b, hb⟩ := nodesEqual_some v w
                  (fun s hs => by obtain ⟨l, h, _⟩ := htext hrefs s (hdv.2 s hs); exact ⟨l, h⟩)
                  (fun s hs => by obtain ⟨l, h, _⟩ := htext hrefs s (hwl s hs); exact ⟨l, h⟩)
                simp only [Res.bind, Res.ofOption, hb]
                cases b <;> simp
        · exact fun r hr => by simp at hr
      | ext x =>
        rw [compileTerm_ext] at hc; simp at hc; subst hc
        rw [slot, parse_ext, escaping_none hesc]
        · cases X.refs x with
          | none => simp
          | some f => simp only [extResult]; split <;> simp
        · exact fun r hr => by simp at hr
      | seq ts =>
        rw [compileTerm_seq, Except.bind_ok] at hc
        obtain ⟨ps, hps, hc⟩ := hc
        simp at hc; subst hc
        rw [slot, parse_seq, escaping_none hesc]
        · have := items_safe hE hX hesc h0 ih he (sc := sc) (k := k) hw hps
            (fun t ht _ _ hp => hs _ _ (.seq ht hp)) ha hv
          intro hh
          cases hq : seqLoop ρ (parse E X ρ n env) (isCutItem env) ((ts.map identFromTerm).zip ps) sc inp k with
          | panic => exact this hq
          | _ => simp [hq, Res.bind] at hh
        · exact fun r hr => by simp at hr
      | oneof ts =>
        rw [compileTerm_oneof, Except.bind_ok] at hc
        obtain ⟨ps, hps, hc⟩ := hc
        simp at hc; subst hc
        rw [slot, parse_oneof, escaping_none hesc]
        · have hv' : (sc.replaceCutPoint ρ false k).1.vals = sc.vals := by
            unfold Scope.replaceCutPoint; split <;> rfl
          exact alts_safe ih he hw hps (fun t ht _ _ hp => hs _ _ (.oneof ht hp)) ha (by rw [hv']; exact hv)
        · exact fun r hr => by simp at hr
      | stack ts => rw [compileTerm_stack] at hc; simp at hc
      | delim term sep a cs ce =>
        rw [compileTerm_delim] at hc
        simp only [Except.bind_ok] at hc
        obtain ⟨child, hch, child', hreg, hc⟩ := hc
        simp at hc; subst hc
        rw [register_slot hreg]
        simp only [Term.wf, Bool.and_eq_true] at hw
        have hw' : (Term.seq (delimSeq term sep cs ce)).wf = true := by
          simpa [Term.wf] using wf_delimSeq hw.1 hw.2
        rw [slot, parse_delim, escaping_none hesc]
        · have hp := ih m Γ env rule (.seq (delimSeq term sep cs ce)) child sc inp k he hw' hch
            (fun Γ' t' hp => by
              rcases within_delimSeq (a := a) hp with ⟨ts, rfl⟩ | ⟨t, lo, hi, rfl⟩ | hp
              · exact basic_safePart.seq _ _
              · exact basic_safePart.quant _ _ _ _
              · exact hs _ _ hp) ha hv
          cases hr : parse E X ρ n env (slot child) sc inp k with
          | panic => exact absurd hr hp
          | oof => simp [Res.bind]
          | err e i k' => simp [Res.bind]
          | ok v1 j k1 =>
            have hd := derive_sound hesc n m Γ env rule _ child sc inp k v1 j k1 he hw' hch hr
            obtain ⟨lead, first, rest, trail, rfl, h1, h2⟩ := derives_join hd
            obtain ⟨v', h3, _⟩ := delimFinish_joinTree (a := a) (tag' := ruleOrAlt rule delimTag)
              (tag := ruleOrAlt rule seqTag) (ltag := quantTag) (rtag := quantTag) (first := first) (rest := rest) h1 h2
            simp only [Res.bind]
            rw [h3]
            simp [Res.ofOption]
        · exact fun r hr => by simp at hr
      | look t =>
        rw [compileTerm_look] at hc
        simp only [Except.bind_ok] at hc
        obtain ⟨q, hq, q', hreg, hc⟩ := hc
        simp at hc; subst hc
        rw [register_slot hreg]
        rw [slot, parse_look, escaping_none hesc]
        · have hp := ih m Γ env [] t q sc inp k he (by simpa [Term.wf] using hw) hq
            (fun _ _ hp => hs _ _ (.look hp)) ha hv
          cases hr : parse E X ρ n env (slot q) sc inp k with
          | panic => exact absurd hr hp
          | _ => simp [lookResult]
        · exact fun r hr => by simp at hr
      | quant t lo hi =>
        rw [compileTerm_quant] at hc
        simp only [Except.bind_ok] at hc
        obtain ⟨q, hq, q', hreg, hc⟩ := hc
        simp at hc; subst hc
        rw [register_slot hreg]
        rw [slot, parse_quant, escaping_none hesc]
        · have hv' : (sc.replaceCutPoint ρ false k).1.vals = sc.vals := by
            unfold Scope.replaceCutPoint; split <;> rfl
          have := reps_safe hE hX h0 ih he (by simpa [Term.wf] using hw) hq (fun _ _ hp => hs _ _ (.quant hp))
            (max := hi) (cp := (sc.replaceCutPoint ρ false k).2.2.1) (N := n) (cnt := 0)
            (sc := (sc.replaceCutPoint ρ false k).1) (k := (sc.replaceCutPoint ρ false k).2.2.2)
            ha (by rw [hv']; exact hv)
          intro hh
          cases hq2 : quantLoop (fun i k_1 => parse E X ρ n env (slot q) (sc.replaceCutPoint ρ false k).1 i k_1) hi
              (sc.replaceCutPoint ρ false k).2.2.1 n 0 inp (sc.replaceCutPoint ρ false k).2.2.2 with
          | panic => exact this hq2
          | ok vs i k' => rw [hq2] at hh; simp only [Res.bind] at hh; split at hh <;> simp at hh
          | _ => simp [hq2, Res.bind] at hh
        · exact fun r hr => by simp at hr

end
end Wbnf

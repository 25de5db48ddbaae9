import Verif.Props.Consume
import Verif.Spec.Escape

/-!
# Parsing with an escape
-/

namespace Wbnf

variable {E : Engine} {X : Externals} {e : Escape} {inp i : Scanner} {ρ : Nat → Nat}

theorem toStr_slice (hin : inp.InRange) : inp.toStr = inp.slice := by
  obtain ⟨src, h, _⟩ := hin
  simp [Scanner.toStr, h]

theorem Escape.Absent.noMatch (h : e.Absent E inp) (hin : inp.InRange) (ha : Advances inp i) : i.eatRegexp (E.find e.openDelim) 0 = .noMatch := by
  obtain ⟨eaten, left, h1, h2, _⟩ := ha.text hin
  have := h eaten left h1
  rw [toStr_slice (ha.inRange hin)] at h2
  simp [Scanner.eatRegexp, h2, this]

theorem Escape.Absent.advance (h : e.Absent E inp) (hin : inp.InRange) (ha : Advances inp i) : e.Absent E i := by
  obtain ⟨eaten, left, h1, h2, _⟩ := ha.text hin
  intro before after hb
  rw [h2] at hb
  obtain rfl := Option.some.inj hb
  exact h (eaten ++ before) after (by rw [h1, List.append_assoc])

/-! ## Without an opening delimiter -/

theorem escaping_absent (he : X.esc = some e) (h : e.Absent E inp) (hin : inp.InRange) {ident t sc k cont} :
    escaping E X ident t sc inp k cont = escaping E X.withoutEscape ident t sc inp k cont := by
  simp [escaping, parseEscape, he, h.noMatch hin (Advances.refl hin), Externals.withoutEscape]

section
variable (hE : E.Sane) (hX : X.Sane)

theorem seqLoop_absent {f f' : P → Scope → Scanner → Nat → Res Tree} {ic : P → Bool} (hin : inp.InRange)
    (hl : ∀ p sc i k, i.InRange → (f p sc i k).Left (Advances i))
    (hf : ∀ p sc i k, Advances inp i → f p sc i k = f' p sc i k) (items : List (Str × P)) : ∀ (sc i k), Advances inp i →
    seqLoop ρ f ic items sc i k = seqLoop ρ f' ic items sc i k := by
  induction items with
  | nil => intro sc i k _; rfl
  | cons x items ih =>
    obtain ⟨ident, p⟩ := x
    intro sc i k ha
    simp only [seqLoop, ← hf p sc i k ha]
    have := hl p sc i k (ha.inRange hin)
    cases hr : f p sc i k with
    | ok v i' k' =>
      rw [hr] at this
      simp only [ih _ _ _ (ha.trans this)]
    | err => rfl
    | panic => rfl
    | oof => rfl

theorem quantLoop_absent {f f' : Scanner → Nat → Res Tree} {max cp} (hin : inp.InRange)
    (hl : ∀ i k, i.InRange → (f i k).Left (Advances i))
    (hf : ∀ i k, Advances inp i → f i k = f' i k) (n : Nat) : ∀ (cnt i k), Advances inp i →
    quantLoop f max cp n cnt i k = quantLoop f' max cp n cnt i k := by
  induction n with
  | zero => intro cnt i k _; rfl
  | succ n ih =>
    intro cnt i k ha
    rw [quantLoop, quantLoop, ← hf i k ha]
    have := hl i k (ha.inRange hin)
    cases hr : f i k with
    | ok v i' k' =>
      rw [hr] at this
      simp only [ih _ _ _ (ha.trans this)]
    | err => rfl
    | panic => rfl
    | oof => rfl

theorem oneofLoop_absent {f f' : P → Scanner → Nat → Res Tree} {tag prev my} (hf : ∀ p k, f p inp k = f' p inp k) (ps : List P) : ∀ (i fu k),
    oneofLoop f tag prev my inp ps i fu k = oneofLoop f' tag prev my inp ps i fu k := by
  induction ps with
  | nil => intro i fu k; rfl
  | cons p ps ih =>
    intro i fu k
    simp only [oneofLoop, ← hf p k, ih]

include hE hX in
theorem parse_absent (he : X.esc = some e) (n : Nat) : ∀ (env p sc inp k), e.Absent E inp → inp.InRange →
    parse E X ρ n env p sc inp k = parse E X.withoutEscape ρ n env p sc inp k := by
  induction n with
  | zero => intros; rfl
  | succ n ih =>
    intro env p sc inp k h hin
    have left : ∀ env p sc i k, i.InRange → (parse E X ρ n env p sc i k).Left (Advances i) := fun env p sc i k hi => parse_left hE hX ρ n env p sc i k hi
    have ih' : ∀ env p sc i k, Advances inp i → parse E X ρ n env p sc i k = parse E X.withoutEscape ρ n env p sc i k :=
      fun env p sc i k ha => ih env p sc i k (h.advance hin ha) (ha.inRange hin)
    have hr := Advances.refl hin
    cases p with
    | rule => rfl
    | link r =>
      rw [parse_link, parse_link]
      cases lookupEnv r env with
      | none => rfl
      | some q => exact ih' _ _ _ _ _ hr
    | s => rw [parse_s, parse_s, escaping_absent he h hin]
    | re => rw [parse_re, parse_re, escaping_absent he h hin]
    | seq rule ts ps =>
      rw [parse_seq, parse_seq, escaping_absent he h hin,
        seqLoop_absent hin (fun p sc i k hi => left env p sc i k hi) (fun p sc i k ha => ih' env p sc i k ha) _ _ _ _ hr]
    | delim rule term sep a cs ce child => rw [parse_delim, parse_delim, escaping_absent he h hin, ih' _ _ _ _ _ hr]
    | look rule t q => rw [parse_look, parse_look, escaping_absent he h hin, ih' _ _ _ _ _ hr]
    | quant rule t lo hi q =>
      rw [parse_quant, parse_quant, escaping_absent he h hin,
        quantLoop_absent hin (fun i k hi => left env q _ i k hi) (fun i k ha => ih' env q _ i k ha) _ _ _ _ hr]
    | oneof rule ts ps =>
      rw [parse_oneof, parse_oneof, escaping_absent he h hin, oneofLoop_absent (fun p k => ih' env p _ inp k hr)]
    | ref ident dflt =>
      rw [parse_ref, parse_ref, escaping_absent he h hin]
      have : (fun q => parse E X ρ n [] q sc inp k) = fun q => parse E X.withoutEscape ρ n [] q sc inp k := funext fun q => ih' [] q sc inp k hr
      rw [this]
    | ext name => rw [parse_ext, parse_ext, escaping_absent he h hin]; rfl
    | scope f b => exact ih' _ _ _ _ _ hr
    | cut q t => exact ih' _ _ _ _ _ hr
end

/-! ## With one -/

theorem eat_first (hE : E.Sane) (hin : inp.InRange) {p : Str} : 
    match inp.eatRegexp (E.find p) 0 with
    | .panic => ∃ text a b gs, inp.toStr = some text ∧ E.find p text = some ((a, b) :: gs) ∧ a ≠ 0
    | .noMatch => ∃ text, inp.toStr = some text ∧ E.find p text = none
    | .ok _ _ _ rest => ∃ m, MatchesFirst E p inp m ∧ rest = inp.skip m ∧ Advances inp rest := by
  obtain ⟨src, i, m, rfl, hb⟩ := hin.elim
  have hs := toStr_slice (Scanner.inRange_mk hb)
  rw [Scanner.toStr_mk hb] at hs
  split
  · rename_i h
    simp only [Scanner.eatRegexp, ← hs] at h
    split at h
    · simp at h
    · rename_i hf
      obtain ⟨_, _, _, he, _⟩ := hE.whole p _ _ hf
      simp at he
    · rename_i a b gs hf
      split at h
      · exact ⟨_, a, b, gs, Scanner.toStr_mk hb, hf, ‹_›⟩
      · simp at h
  · rename_i h
    simp only [Scanner.eatRegexp, ← hs] at h
    split at h
    · exact ⟨_, Scanner.toStr_mk hb, ‹_›⟩
    · simp at h
    · split at h <;> simp at h
  · rename_i h
    obtain ⟨h1, x, b, gs, h2, h3, _, _, h4, _⟩ := eatRegexp_ok hE (Scanner.inRange_mk hb) h
    rw [← hs] at h2
    obtain rfl := Option.some.inj h2
    exact ⟨b, ⟨_, gs, Scanner.toStr_mk hb, h3⟩, h4, h1⟩

theorem skip_of_match {p : Str} {m m' : Int} (h : MatchesFirst E p inp m) (h' : MatchesFirst E p inp m') : m = m' := by
  obtain ⟨t, gs, h1, h2⟩ := h
  obtain ⟨t', gs', h1', h2'⟩ := h'
  rw [h1] at h1'
  obtain rfl := Option.some.inj h1'
  rw [h2] at h2'
  simp at h2'
  exact h2'.1

theorem escaping_opened (hE : E.Sane) (hX : X.Sane) (he : X.esc = some e) (hin : inp.InRange) {m : Int} (hm : MatchesFirst E e.openDelim inp m) {ident t sc k cont res}
    (h : escaping E X ident t sc inp k cont = res) (hp : res ≠ .panic) : ∃ c, Escaped E e c inp m res := by
  simp only [escaping, parseEscape, he] at h
  have h1 := eat_first hE hin (p := e.openDelim)
  cases ho : inp.eatRegexp (E.find e.openDelim) 0 with
  | panic => rw [ho] at h; simp only at h; exact absurd h.symm hp
  | noMatch =>
    rw [ho] at h1
    obtain ⟨text, h2, h3⟩ := h1
    obtain ⟨t', gs, h4, h5⟩ := hm
    rw [h2] at h4
    obtain rfl := Option.some.inj h4
    rw [h3] at h5
    simp at h5
  | ok a w c rest =>
    rw [ho] at h1 h
    obtain ⟨m', h2, rfl, hadv⟩ := h1
    obtain rfl := skip_of_match hm h2
    simp only at h
    have hs := hX.esc e he ⟨sc.getVal, sc.cp, ident, some t⟩ (inp.skip m) (hadv.inRange hin)
    have close : ∀ v i, HasRead (e.external ⟨sc.getVal, sc.cp, ident, some t⟩ (inp.skip m)) v i → Advances (inp.skip m) i →
        (match closeEscape E e.closeDelim v i with
          | .no => cont
          | .yes v i => .ok v i k
          | .err e i => .err e i k
          | .panic => .panic) = res → ∃ c, Escaped E e c inp m res := by
      intro v i hr hi hc
      have h3 := eat_first hE ((hadv.trans hi).inRange hin) (p := e.closeDelim)
      simp only [closeEscape] at hc
      cases hcl : i.eatRegexp (E.find e.closeDelim) 0 with
      | panic => rw [hcl] at hc; simp only at hc; exact absurd hc.symm hp
      | noMatch =>
        rw [hcl] at hc h3
        obtain ⟨text, h4, h5⟩ := h3
        simp only at hc
        rw [← hc]
        exact ⟨_, .unclosed hr h4 h5⟩
      | ok a w c rest =>
        rw [hcl] at hc h3
        obtain ⟨m', h4, rfl, _⟩ := h3
        simp only at hc
        rw [← hc]
        exact ⟨_, .read hr h4⟩
    cases her : (e.external ⟨sc.getVal, sc.cp, ident, some t⟩ (inp.skip m)).err with
    | none => rw [her] at h; exact close _ _ (.inl ⟨her, rfl, rfl⟩) hs.1 h
    | some er =>
      rw [her] at h
      cases er with
      | unconsumed v r => exact close v r (.inr her) (hs.2 v r her) h
      | parse => simp only at h; rw [← h]; exact ⟨_, .failed her (by simp)⟩
      | fatal c => simp only at h; rw [← h]; exact ⟨_, .failed her (by simp)⟩
      | other => simp only at h; rw [← h]; exact ⟨_, .failed her (by simp)⟩
      | stop => simp only at h; rw [← h]; exact ⟨_, .failed her (by simp)⟩

theorem parse_opened (hE : E.Sane) (hX : X.Sane) (he : X.esc = some e) (hin : inp.InRange) {m : Int} (hm : MatchesFirst E e.openDelim inp m) {res} (hp : res ≠ .panic) (ho : res ≠ .oof)
    (n : Nat) : ∀ {env p sc k}, parse E X ρ n env p sc inp k = res → ∃ c, Escaped E e c inp m res := by
  induction n with
  | zero => intro env p sc k h; exact absurd h.symm ho
  | succ n ih =>
    intro env p sc k h
    cases p with
    | rule => exact absurd h.symm hp
    | link r =>
      rw [parse_link] at h
      cases hl : lookupEnv r env with
      | none => rw [hl] at h; exact absurd h.symm hp
      | some q => rw [hl] at h; exact ih h
    | scope f b => exact ih h
    | cut q t => exact ih h
    | s => exact escaping_opened hE hX he hin hm h hp
    | re => exact escaping_opened hE hX he hin hm h hp
    | seq => exact escaping_opened hE hX he hin hm h hp
    | delim => exact escaping_opened hE hX he hin hm h hp
    | look => exact escaping_opened hE hX he hin hm h hp
    | quant => exact escaping_opened hE hX he hin hm h hp
    | oneof => exact escaping_opened hE hX he hin hm h hp
    | ref => rw [parse_ref] at h; exact escaping_opened hE hX he hin hm h hp
    | ext => rw [parse_ext] at h; exact escaping_opened hE hX he hin hm h hp

/-! ## Leaves -/

theorem LeavesInside.advance {v : Tree} (h : LeavesInside i v) (ha : Advances inp i) : LeavesInside inp v := by
  intro s hs h0
  obtain ⟨h1, h2, h3, h4⟩ := h s hs h0
  have := ha.start
  have := ha.stop
  exact ⟨h1.trans ha.src, by omega, h3, by omega⟩

theorem leavesInside_node {tag x vs} : LeavesInside inp (.node tag x vs) ↔ ∀ v ∈ vs, LeavesInside inp v := by
  simp only [LeavesInside, Tree.leaves]
  induction vs with
  | nil => simp [leavesList]
  | cons v vs ih =>
    simp only [leavesList, List.mem_append, List.mem_cons, forall_eq_or_imp, ← ih]
    constructor
    · exact fun h => ⟨fun s hs => h s (.inl hs), fun s hs => h s (.inr hs)⟩
    · rintro ⟨h1, h2⟩ s (hs | hs)
      · exact h1 s hs
      · exact h2 s hs

theorem get_inside : ∀ {path : List Nat} {v w : Tree}, LeavesInside inp v → v.get? path = some w → LeavesInside inp w
  | [], v, w, h, e => by obtain rfl := Option.some.inj e; exact h
  | j :: path, v, w, h, e => by
    simp only [Tree.get?] at e
    split at e
    · simp at e
    · rename_i cs hcs
      split at e
      · simp at e
      · rename_i c hc
        cases v <;> simp only [Tree.children?, reduceCtorEq, Option.some.injEq] at hcs
        subst hcs
        exact get_inside (leavesInside_node.1 h c (List.mem_of_getElem? hc)) e

theorem empty_inside : LeavesInside inp .empty := by intro s hs; simp [Tree.leaves] at hs

theorem delimPairs_inside : ∀ {cs vs : List Tree}, (∀ c ∈ cs, LeavesInside inp c) → delimPairs cs = some vs → ∀ v ∈ vs, LeavesInside inp v
  | [], vs, _, e => by obtain rfl := Option.some.inj e; simp
  | c :: cs, vs, h, e => by
    simp only [delimPairs] at e
    split at e
    · rename_i sep term r h1 h2 h3
      obtain rfl := Option.some.inj e
      intro v hv
      simp only [List.mem_cons] at hv
      rcases hv with rfl | rfl | hv
      · exact get_inside (h c (by simp)) h1
      · exact get_inside (h c (by simp)) h2
      · exact delimPairs_inside (fun c hc => h c (by simp [hc])) h3 v hv
    · simp at e

theorem delimItems_inside {cs ce v vs} (h : LeavesInside inp v) (e : delimItems cs ce v = some vs) : ∀ w ∈ vs, LeavesInside inp w := by
  simp only [delimItems] at e
  have lead : ∀ {j : Nat} {l : List Tree} {c : Bool} {mk : Tree → List Tree}, (∀ x, LeavesInside inp x → ∀ w ∈ mk x, LeavesInside inp w) →
      (if c = true then
        match v.get? [j] with
        | some (.node _ _ []) => some []
        | some (.node _ _ (x :: _)) => some (mk x)
        | _ => none
      else some []) = some l → ∀ w ∈ l, LeavesInside inp w := by
    intro j l c mk hmk e
    split at e
    · split at e
      · obtain rfl := Option.some.inj e; simp
      · rename_i x _ hx
        obtain rfl := Option.some.inj e
        exact hmk x (leavesInside_node.1 (get_inside h hx) x (by simp))
      · simp at e
    · obtain rfl := Option.some.inj e; simp
  have final : ∀ {j : Nat} {l : List Tree} {c : Bool} {mk : Tree → List Tree}, (∀ x, LeavesInside inp x → ∀ w ∈ mk x, LeavesInside inp w) →
      (if c = true then
        match v.get? [j] with
        | some (.node _ _ []) => some []
        | some (.node _ _ (x :: _)) => some (mk x)
        | some (.foreign 0) => some []
        | _ => none
      else some []) = some l → ∀ w ∈ l, LeavesInside inp w := by
    intro j l c mk hmk e
    split at e
    · split at e
      · obtain rfl := Option.some.inj e; simp
      · rename_i x _ hx
        obtain rfl := Option.some.inj e
        exact hmk x (leavesInside_node.1 (get_inside h hx) x (by simp))
      · obtain rfl := Option.some.inj e; simp
      · simp at e
    · obtain rfl := Option.some.inj e; simp
  split at e
  · rename_i l term reps f h1 h2 h3 h4
    split at e
    · rename_i ps h5
      obtain rfl := Option.some.inj e
      intro w hw
      simp only [List.mem_append, List.mem_singleton] at hw
      rcases hw with ((hw | rfl) | hw) | hw
      · exact lead (mk := fun x => [.empty, x]) (fun x hx w hw => by
          simp only [List.mem_cons, List.not_mem_nil, or_false] at hw
          rcases hw with rfl | rfl
          · exact empty_inside
          · exact hx) h1 w hw
      · exact get_inside h h2
      · obtain ⟨u, hu, hc⟩ := Option.bind_eq_some_iff.1 h3
        cases u <;> simp only [Tree.children?, reduceCtorEq, Option.some.injEq] at hc
        subst hc
        exact delimPairs_inside (leavesInside_node.1 (get_inside h hu)) h5 w hw
      · exact final (mk := fun x => [x, .empty]) (fun x hx w hw => by
          simp only [List.mem_cons, List.not_mem_nil, or_false] at hw
          rcases hw with rfl | rfl
          · exact hx
          · exact empty_inside) h4 w hw
    · simp at e
  · simp at e

theorem foldLeft_inside {tag a} : ∀ {l : List Tree} {v w : Tree}, LeavesInside inp v → (∀ x ∈ l, LeavesInside inp x) → foldLeftAssoc tag a v l = some w → LeavesInside inp w
  | [], v, w, h, _, e => by obtain rfl := Option.some.inj e; exact h
  | [_], v, w, _, _, e => by simp [foldLeftAssoc] at e
  | op :: x :: l, v, w, h, hl, e => by
    refine foldLeft_inside (l := l) (leavesInside_node.2 ?_) (fun y hy => hl y (by simp [hy])) e
    intro y hy
    simp only [List.mem_cons, List.not_mem_nil, or_false] at hy
    rcases hy with rfl | rfl | rfl
    · exact h
    · exact hl _ (by simp)
    · exact hl _ (by simp)

theorem foldRight_inside {tag a} : ∀ {l : List Tree} {v w : Tree}, LeavesInside inp v → (∀ x ∈ l, LeavesInside inp x) → foldRightAssoc tag a v l = some w → LeavesInside inp w
  | [], v, w, h, _, e => by obtain rfl := Option.some.inj e; exact h
  | [_], v, w, _, _, e => by simp [foldRightAssoc] at e
  | op :: x :: l, v, w, h, hl, e => by
    refine foldRight_inside (l := l) (leavesInside_node.2 ?_) (fun y hy => hl y (by simp [hy])) e
    intro y hy
    simp only [List.mem_cons, List.not_mem_nil, or_false] at hy
    rcases hy with rfl | rfl | rfl
    · exact hl _ (by simp)
    · exact hl _ (by simp)
    · exact h

theorem delimFinish_inside {tag a cs ce v w} (h : LeavesInside inp v) (e : delimFinish tag a cs ce v = some w) : LeavesInside inp w := by
  obtain ⟨vs, h1, h2⟩ := Option.bind_eq_some_iff.1 e
  have hi := delimItems_inside h h1
  unfold delimBuild at h2
  split at h2
  · rename_i v' x0 l0
    split at h2
    · exact foldLeft_inside (hi _ (by simp)) (fun x hx => hi x (by simp_all)) h2
    · split at h2
      · split at h2
        · rename_i w' back hrev
          have hm : ∀ x ∈ w' :: back, x ∈ v' :: x0 :: l0 := by intro x hx; rw [← hrev] at hx; exact List.mem_reverse.1 hx
          exact foldRight_inside (hi _ (hm w' (by simp))) (fun x hx => hi x (hm x (by simp [hx]))) h2
        · simp at h2
      · obtain rfl := Option.some.inj h2
        exact leavesInside_node.2 hi
  · obtain rfl := Option.some.inj h2
    exact leavesInside_node.2 hi

/-- The value is over the text. -/
def Res.Inside (inp : Scanner) : Res Tree → Prop
  | .ok v _ _ => LeavesInside inp v
  | _ => True

theorem eatLeaf_inside (hE : E.Sane) (hin : inp.InRange) {p sc k} : (eatLeaf (E.find p) sc inp k).Inside inp := by
  unfold eatLeaf
  have key : ∀ {n w caps rest} , inp.eatRegexp (E.find p) 2 = .ok n w caps rest → ∀ s ∈ caps, LeavesInside inp (.leaf s) := by
    intro n w caps rest h s hs
    obtain ⟨hadv, x, b, gs, h1, h2, _, rfl, rfl, hb1, hb2⟩ := eatRegexp_ok hE hin h
    obtain ⟨g, hg, rfl⟩ := List.mem_map.1 hs
    intro s' hs' h0
    simp only [Tree.leaves, List.mem_singleton] at hs'
    subst hs'
    rcases hE.groups p x 0 b gs g h2 (List.mem_of_mem_take hg) with rfl | ⟨g1, g2, g3⟩
    · simp [Scanner.sub] at h0
    · simp only [Scanner.sub]
      exact ⟨trivial, by omega, by omega, by omega⟩
  split <;> first
    | trivial
    | (rename_i h; exact key h _ (by simp))

theorem escaping_inside (hE : E.Sane) (hX : X.Sane) (hH : X.Honest) (hin : inp.InRange) {ident t sc k cont} (hc : Res.Inside inp cont) :
    (escaping E X ident t sc inp k cont).Inside inp := by
  cases he : X.esc with
  | none => simpa [escaping, parseEscape, he] using hc
  | some e =>
    have h1 := eat_first hE hin (p := e.openDelim)
    cases ho : inp.eatRegexp (E.find e.openDelim) 0 with
    | noMatch => simpa [escaping, parseEscape, he, ho] using hc
    | panic => simp [escaping, parseEscape, he, ho, Res.Inside]
    | ok a w c rest =>
      rw [ho] at h1
      obtain ⟨m, hm, rfl, hadv⟩ := h1
      cases hr : escaping E X ident t sc inp k cont with
      | ok v i k' =>
        simp only [escaping, parseEscape, he, ho] at hr
        have hin' := hadv.inRange hin
        have hs := hX.esc e he ⟨sc.getVal, sc.cp, ident, some t⟩ (inp.skip m) hin'
        have close : ∀ w i', HasRead (e.external ⟨sc.getVal, sc.cp, ident, some t⟩ (inp.skip m)) w i' → 
            (match closeEscape E e.closeDelim w i' with
              | .no => cont
              | .yes v i => .ok v i k
              | .err e i => .err e i k
              | .panic => .panic) = .ok v i k' → LeavesInside inp v := by
          intro w i' hread hcl
          simp only [closeEscape] at hcl
          cases hcl' : i'.eatRegexp (E.find e.closeDelim) 0 <;> rw [hcl'] at hcl <;> simp only [reduceCtorEq, Res.ok.injEq] at hcl
          obtain ⟨rfl, _⟩ := hcl
          exact (hH.esc e he _ _ hin' _ _ hread).advance hadv
        cases her : (e.external ⟨sc.getVal, sc.cp, ident, some t⟩ (inp.skip m)).err with
        | none => rw [her] at hr; exact close _ _ (.inl ⟨her, rfl, rfl⟩) hr
        | some er =>
          rw [her] at hr
          cases er with
          | unconsumed w r => exact close w r (.inr her) hr
          | parse => simp at hr
          | fatal c => simp at hr
          | other => simp at hr
          | stop => simp at hr
      | err => trivial
      | panic => trivial
      | oof => trivial

theorem seqLoop_inside {f : P → Scope → Scanner → Nat → Res Tree} {ic : P → Bool} (hin : inp.InRange)
    (hl : ∀ p sc i k, i.InRange → (f p sc i k).Left (Advances i)) (hf : ∀ p sc i k, i.InRange → (f p sc i k).Inside i)
    (items : List (Str × P)) : ∀ {sc i k vs j k'}, Advances inp i → seqLoop ρ f ic items sc i k = .ok vs j k' → ∀ v ∈ vs, LeavesInside inp v := by
  induction items with
  | nil =>
    intro sc i k vs j k' ha e
    simp only [seqLoop, Res.ok.injEq] at e
    obtain ⟨rfl, _⟩ := e
    simp
  | cons x items ih =>
    obtain ⟨ident, p⟩ := x
    intro sc i k vs j k' ha e
    simp only [seqLoop] at e
    have h1 := hl p sc i k (ha.inRange hin)
    have h2 := hf p sc i k (ha.inRange hin)
    cases hr : f p sc i k with
    | ok v i' k1 =>
      rw [hr] at e h1 h2
      simp only at e
      have ha' : Advances inp i' := ha.trans h1
      cases hrest : seqLoop ρ f ic items _ i' _ with
      | ok vs' j' k2 =>
        rw [hrest] at e
        simp only [Res.bind, Res.ok.injEq] at e
        obtain ⟨rfl, _⟩ := e
        intro w hw
        rcases List.mem_cons.1 hw with rfl | hw
        · exact LeavesInside.advance h2 ha
        · exact ih ha' hrest w hw
      | err => rw [hrest] at e; simp [Res.bind] at e
      | panic => rw [hrest] at e; simp [Res.bind] at e
      | oof => rw [hrest] at e; simp [Res.bind] at e
    | err => rw [hr] at e; simp only at e; split at e <;> simp at e
    | panic => rw [hr] at e; simp at e
    | oof => rw [hr] at e; simp at e

theorem quantLoop_inside {f : Scanner → Nat → Res Tree} {max cp} (hin : inp.InRange)
    (hl : ∀ i k, i.InRange → (f i k).Left (Advances i)) (hf : ∀ i k, i.InRange → (f i k).Inside i)
    (n : Nat) : ∀ {cnt i k vs j k'}, Advances inp i → quantLoop f max cp n cnt i k = .ok vs j k' → ∀ v ∈ vs, LeavesInside inp v := by
  induction n with
  | zero => intro cnt i k vs j k' _ e; simp [quantLoop] at e
  | succ n ih =>
    intro cnt i k vs j k' ha e
    rw [quantLoop] at e
    split at e
    · have h1 := hl i k (ha.inRange hin)
      have h2 := hf i k (ha.inRange hin)
      cases hr : f i k with
      | ok v i' k1 =>
        rw [hr] at e h1 h2
        simp only at e
        have ha' : Advances inp i' := ha.trans h1
        cases hrest : quantLoop f max cp n (cnt + 1) i' k1 with
        | ok vs' j' k2 =>
          rw [hrest] at e
          simp only [Res.bind, Res.ok.injEq] at e
          obtain ⟨rfl, _⟩ := e
          intro w hw
          rcases List.mem_cons.1 hw with rfl | hw
          · exact LeavesInside.advance h2 ha
          · exact ih ha' hrest w hw
        | err => rw [hrest] at e; simp [Res.bind] at e
        | panic => rw [hrest] at e; simp [Res.bind] at e
        | oof => rw [hrest] at e; simp [Res.bind] at e
      | err =>
        rw [hr] at e
        simp only at e
        split at e <;> simp only [reduceCtorEq, Res.ok.injEq] at e
        obtain ⟨rfl, _⟩ := e
        simp
      | panic => rw [hr] at e; simp at e
      | oof => rw [hr] at e; simp at e
    · simp only [Res.ok.injEq] at e
      obtain ⟨rfl, _⟩ := e
      simp

theorem oneofLoop_inside {f : P → Scanner → Nat → Res Tree} {tag prev my} (hf : ∀ p k, (f p inp k).Inside inp) (ps : List P) : ∀ (i fu k),
    (oneofLoop f tag prev my inp ps i fu k).Inside inp := by
  induction ps with
  | nil => intro i fu k; trivial
  | cons p ps ih =>
    intro i fu k
    simp only [oneofLoop]
    have := hf p k
    cases hr : f p inp k with
    | ok v i' k' => rw [hr] at this; exact leavesInside_node.2 (by simpa [Res.Inside] using this)
    | err =>
      simp only
      split
      · trivial
      · exact ih _ _ _
    | panic => trivial
    | oof => trivial

theorem Res.Inside.ofOption {α} {o : Option α} {f : α → Res Tree} (h : ∀ v, o = some v → (f v).Inside inp) : (Res.ofOption o f).Inside inp := by
  cases o with
  | none => trivial
  | some v => exact h v rfl

theorem Res.Inside.ofExcept {α} {o : Except Stop α} {f : α → Res Tree} (h : ∀ v, (f v).Inside inp) : (Res.ofExcept o f).Inside inp := by
  cases o with
  | error x => cases x <;> trivial
  | ok v => exact h v

theorem parse_inside (hE : E.Sane) (hX : X.Sane) (hH : X.Honest) (n : Nat) : ∀ (env p sc inp k), inp.InRange →
    (parse E X ρ n env p sc inp k).Inside inp := by
  induction n with
  | zero => intros; trivial
  | succ n ih =>
    intro env p sc inp k hin
    have left : ∀ env p sc i k, i.InRange → (parse E X ρ n env p sc i k).Left (Advances i) := fun env p sc i k hi => parse_left hE hX ρ n env p sc i k hi
    have hr := Advances.refl hin
    have esc := fun {ident t cont} (h : Res.Inside inp cont) => escaping_inside hE hX hH hin (ident := ident) (t := t) (sc := sc) (k := k) h
    cases p with
    | rule => trivial
    | link r => exact Res.Inside.ofOption fun q _ => ih _ _ _ _ _ hin
    | s => exact esc (eatLeaf_inside hE hin)
    | re => exact esc (eatLeaf_inside hE hin)
    | seq rule ts ps =>
      rw [parse_seq]
      apply esc
      cases hs : seqLoop ρ (parse E X ρ n env) (isCutItem env) ((ts.map identFromTerm).zip ps) sc inp k with
      | ok vs i k' => exact leavesInside_node.2 (seqLoop_inside hin (left env) (fun p sc i k hi => ih env p sc i k hi) _ hr hs)
      | err => trivial
      | panic => trivial
      | oof => trivial
    | delim rule term sep a cs ce child =>
      rw [parse_delim]
      apply esc
      have := ih env child sc inp k hin
      cases hs : parse E X ρ n env child sc inp k with
      | ok v i k' => rw [hs] at this; exact Res.Inside.ofOption fun w hw => delimFinish_inside this hw
      | err => trivial
      | panic => trivial
      | oof => trivial
    | look rule t q =>
      rw [parse_look]
      apply esc
      have := ih env q sc inp k hin
      cases hs : parse E X ρ n env q sc inp k with
      | ok v i k' => rw [hs] at this; exact leavesInside_node.2 (by simpa [Res.Inside] using this)
      | err => trivial
      | panic => trivial
      | oof => trivial
    | quant rule t lo hi q =>
      rw [parse_quant]
      apply esc
      cases hs : quantLoop (fun i k' => parse E X ρ n env q (sc.replaceCutPoint ρ false k).1 i k') hi (sc.replaceCutPoint ρ false k).2.2.1 n 0 inp (sc.replaceCutPoint ρ false k).2.2.2 with
      | ok vs i k' =>
        simp only [Res.bind]
        split
        · exact leavesInside_node.2 (quantLoop_inside hin (fun i k' hi => left env q _ i k' hi) (fun i k' hi => ih env q _ i k' hi) n hr hs)
        · trivial
      | err => trivial
      | panic => trivial
      | oof => trivial
    | oneof rule ts ps => exact esc (oneofLoop_inside (fun p k => ih env p _ inp k hin) _ _ _ _)
    | ref ident dflt =>
      rw [parse_ref]
      apply esc
      split
      · refine Res.Inside.ofOption fun t _ => Res.Inside.ofExcept fun q => ?_
        have := ih [] q sc inp k hin
        simp only
        cases hs : parse E X ρ n [] q sc inp k with
        | ok v i k' =>
          rw [hs] at this
          refine Res.Inside.ofOption fun b _ => ?_
          split
          · exact this
          · trivial
        | err => trivial
        | panic => trivial
        | oof => trivial
      · cases dflt with
        | none => trivial
        | some t => exact Res.Inside.ofExcept fun q => ih [] q sc inp k hin
    | ext name =>
      rw [parse_ext]
      apply esc
      split
      · trivial
      · rename_i f hf
        unfold extResult
        split
        · rename_i he
          exact hH.refs name f hf _ inp hin _ _ (.inl ⟨he, rfl, rfl⟩)
        · trivial
    | scope f b => exact ih _ _ _ _ _ hin
    | cut q t => exact ih _ _ _ _ _ hin

end Wbnf

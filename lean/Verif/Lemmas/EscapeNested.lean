import Verif.Lemmas.Escape

/-!
# Handlers that parse with the parsers of a grammar; how handlers are given to a parse
-/

namespace Wbnf

variable {E : Engine} {X : Externals} {ρ : Nat → Nat} {inp : Scanner}

/-! ## Unconsumed input inside of a parse is that of a handler -/

/-- Unconsumed input was reported by a handler that was called where the parse began. -/
def Res.Reported (X : Externals) (inp : Scanner) : Res Tree → Prop
  | .err (.unconsumed v r) _ _ => ∃ name f c, X.refs name = some f ∧ (f c inp).err = some (.unconsumed v r)
  | _ => True

theorem mkErr_reported {o i k} : Res.Reported X inp (.err (mkErr o) i k) := by cases o <;> trivial

theorem escaping_reported {ident t sc k cont} (hc : Res.Reported X inp cont) : (escaping E X ident t sc inp k cont).Reported X inp := by
  unfold escaping parseEscape closeEscape
  split
  · exact hc
  · trivial
  · rename_i e i h
    split at h
    · simp at h
    · split at h
      · simp at h
      · simp at h
      · simp only at h
        split at h
        · split at h <;> simp at h
          obtain ⟨rfl, _⟩ := h
          trivial
        · split at h <;> simp at h
          obtain ⟨rfl, _⟩ := h
          trivial
        · rename_i e' er hne her
          simp only [EscRes.err.injEq] at h
          obtain ⟨rfl, _⟩ := h
          cases er with
          | unconsumed v r => exact absurd her (by simpa using hne v r)
          | _ => trivial
  · trivial

theorem eatLeaf_reported {f sc k} : (eatLeaf f sc inp k).Reported X inp := by
  unfold eatLeaf
  split <;> first | trivial | exact mkErr_reported

theorem seqLoop_reported {f : P → Scope → Scanner → Nat → Res Tree} {ic} (items : List (Str × P)) : ∀ {sc i k e j k'},
    seqLoop ρ f ic items sc i k = .err e j k' → (∀ v r, e ≠ .unconsumed v r) := by
  induction items with
  | nil => intro sc i k e j k' h; simp [seqLoop] at h
  | cons x items ih =>
    obtain ⟨ident, p⟩ := x
    intro sc i k e j k' h
    simp only [seqLoop] at h
    cases hr : f p sc i k with
    | ok v i' k1 =>
      rw [hr] at h
      simp only at h
      cases hrest : seqLoop ρ f ic items _ i' _ with
      | err e' j' k2 =>
        rw [hrest] at h
        simp only [Res.bind, Res.err.injEq] at h
        obtain ⟨rfl, _⟩ := h
        exact ih hrest
      | ok => rw [hrest] at h; simp [Res.bind] at h
      | panic => rw [hrest] at h; simp [Res.bind] at h
      | oof => rw [hrest] at h; simp [Res.bind] at h
    | err e' =>
      rw [hr] at h
      simp only at h
      split at h
      · rename_i hf
        simp only [Res.err.injEq] at h
        obtain ⟨rfl, _⟩ := h
        rintro v r rfl
        simp [Err.isFatal] at hf
      · simp only [Res.err.injEq] at h
        obtain ⟨rfl, _⟩ := h
        cases sc.cp <;> simp [mkErr]
    | panic => rw [hr] at h; simp at h
    | oof => rw [hr] at h; simp at h

theorem quantLoop_reported {f : Scanner → Nat → Res Tree} {max cp} (n : Nat) : ∀ {cnt i k e j k'},
    quantLoop f max cp n cnt i k = .err e j k' → (∀ v r, e ≠ .unconsumed v r) := by
  induction n with
  | zero => intro cnt i k e j k' h; simp [quantLoop] at h
  | succ n ih =>
    intro cnt i k e j k' h
    rw [quantLoop] at h
    split at h
    · cases hr : f i k with
      | ok v i' k1 =>
        rw [hr] at h
        simp only at h
        cases hrest : quantLoop f max cp n (cnt + 1) i' k1 with
        | err e' j' k2 =>
          rw [hrest] at h
          simp only [Res.bind, Res.err.injEq] at h
          obtain ⟨rfl, _⟩ := h
          exact ih hrest
        | ok => rw [hrest] at h; simp [Res.bind] at h
        | panic => rw [hrest] at h; simp [Res.bind] at h
        | oof => rw [hrest] at h; simp [Res.bind] at h
      | err e' =>
        rw [hr] at h
        simp only at h
        split at h
        · rename_i hf
          simp only [Res.err.injEq] at h
          obtain ⟨rfl, _⟩ := h
          rintro v r rfl
          simp [Err.isNotMyFatal] at hf
        · simp at h
      | panic => rw [hr] at h; simp at h
      | oof => rw [hr] at h; simp at h
    · simp at h

theorem oneofLoop_reported {f : P → Scanner → Nat → Res Tree} {tag prev my} (ps : List P) : ∀ {i fu k e j k'},
    oneofLoop f tag prev my inp ps i fu k = .err e j k' → (∀ v r, e ≠ .unconsumed v r) := by
  induction ps with
  | nil =>
    intro i fu k e j k' h
    simp only [oneofLoop, Res.err.injEq] at h
    obtain ⟨rfl, _⟩ := h
    cases prev <;> simp [mkErr]
  | cons p ps ih =>
    intro i fu k e j k' h
    simp only [oneofLoop] at h
    cases hr : f p inp k with
    | ok => rw [hr] at h; simp at h
    | err e' =>
      rw [hr] at h
      simp only at h
      split at h
      · rename_i hf
        simp only [Res.err.injEq] at h
        obtain ⟨rfl, _⟩ := h
        rintro v r rfl
        simp [Err.isNotMyFatal] at hf
      · exact ih h
    | panic => rw [hr] at h; simp at h
    | oof => rw [hr] at h; simp at h

theorem reported_of {r : Res Tree} (h : ∀ e j k, r = .err e j k → ∀ v r, e ≠ .unconsumed v r) : r.Reported X inp := by
  unfold Res.Reported
  split
  · exact absurd rfl (h _ _ _ rfl _ _)
  · trivial

theorem Res.Reported.ofOption {α} {o : Option α} {f : α → Res Tree} (h : ∀ v, (f v).Reported X inp) : (Res.ofOption o f).Reported X inp := by
  cases o with
  | none => trivial
  | some v => exact h v

theorem Res.Reported.ofExcept {α} {o : Except Stop α} {f : α → Res Tree} (h : ∀ v, (f v).Reported X inp) : (Res.ofExcept o f).Reported X inp := by
  cases o with
  | error x => cases x <;> trivial
  | ok v => exact h v

theorem Res.Reported.bind {o : Res Tree} {f : Tree → Scanner → Nat → Res Tree} (ho : o.Reported X inp) (h : ∀ v i k, (f v i k).Reported X inp) : (o.bind f).Reported X inp := by
  cases o with
  | ok v i k => exact h v i k
  | err e i k => exact ho
  | panic => trivial
  | oof => trivial

theorem parse_reported (n : Nat) : ∀ (env p sc inp k), (parse E X ρ n env p sc inp k).Reported X inp := by
  induction n with
  | zero => intros; trivial
  | succ n ih =>
    intro env p sc inp k
    cases p with
    | rule => trivial
    | link r => exact .ofOption fun q => ih _ _ _ _ _
    | s => exact escaping_reported eatLeaf_reported
    | re => exact escaping_reported eatLeaf_reported
    | seq rule ts ps =>
      rw [parse_seq]
      refine escaping_reported (reported_of fun e j k' h => ?_)
      cases hs : seqLoop ρ (parse E X ρ n env) (isCutItem env) ((ts.map identFromTerm).zip ps) sc inp k with
      | err e' j' k2 =>
        rw [hs] at h
        simp only [Res.bind, Res.err.injEq] at h
        obtain ⟨rfl, _⟩ := h
        exact seqLoop_reported _ hs
      | ok => rw [hs] at h; simp [Res.bind] at h
      | panic => rw [hs] at h; simp [Res.bind] at h
      | oof => rw [hs] at h; simp [Res.bind] at h
    | delim rule term sep a cs ce child =>
      rw [parse_delim]
      exact escaping_reported (.bind (ih _ _ _ _ _) fun v i k => .ofOption fun _ => trivial)
    | look rule t q =>
      rw [parse_look]
      refine escaping_reported ?_
      have := ih env q sc inp k
      cases hs : parse E X ρ n env q sc inp k with
      | err e i k' => rw [hs] at this; cases e <;> first | trivial | exact this
      | ok => trivial
      | panic => trivial
      | oof => trivial
    | quant rule t lo hi q =>
      rw [parse_quant]
      refine escaping_reported (reported_of fun e j k' h => ?_)
      cases hs : quantLoop (fun i k' => parse E X ρ n env q (sc.replaceCutPoint ρ false k).1 i k') hi (sc.replaceCutPoint ρ false k).2.2.1 n 0 inp (sc.replaceCutPoint ρ false k).2.2.2 with
      | err e' j' k2 =>
        rw [hs] at h
        simp only [Res.bind, Res.err.injEq] at h
        obtain ⟨rfl, _⟩ := h
        exact quantLoop_reported _ hs
      | ok =>
        rw [hs] at h
        simp only [Res.bind] at h
        split at h <;> simp only [Res.err.injEq, reduceCtorEq] at h
        obtain ⟨rfl, _⟩ := h
        cases (sc.replaceCutPoint ρ false k).2.1 <;> simp [mkErr]
      | panic => rw [hs] at h; simp [Res.bind] at h
      | oof => rw [hs] at h; simp [Res.bind] at h
    | oneof rule ts ps => exact escaping_reported (reported_of fun e j k' h => oneofLoop_reported _ h)
    | ref ident dflt =>
      rw [parse_ref]
      refine escaping_reported ?_
      split
      · refine .ofOption fun t => .ofExcept fun q => .bind (ih _ _ _ _ _) fun v i k => .ofOption fun b => ?_
        split <;> trivial
      · cases dflt with
        | none => trivial
        | some t => exact .ofExcept fun q => ih [] q sc inp k
    | ext name =>
      rw [parse_ext]
      refine escaping_reported ?_
      split
      · trivial
      · rename_i f hf
        unfold extResult
        split
        · trivial
        · rename_i er he
          cases er with
          | unconsumed v r => exact ⟨name, f, _, hf, he⟩
          | _ => trivial
    | scope f b => exact ih _ _ _ _ _
    | cut q t => exact ih _ _ _ _ _

/-! ## Nested parses -/

theorem run_inside (hE : E.Sane) (hX : X.Sane) (hH : X.Honest) (hin : inp.InRange) {n ps r v i k} (h : Parsers.run E X ρ n ps r inp = .ok v i k) : LeavesInside inp v := by
  unfold Parsers.run at h
  split at h
  · simp at h
  · rename_i p _
    have := parse_inside (ρ := ρ) hE hX hH n [ps.parsers] p .init inp 0 hin
    rw [h] at this
    exact this

theorem run_reported {n ps r e i k} (h : Parsers.run E X ρ n ps r inp = .err e i k) : Res.Reported X inp (.err e i k) := by
  rw [← h]
  unfold Parsers.run
  split
  · trivial
  · exact parse_reported _ _ _ _ _ _

theorem parse_cases {n : Nat} {ps : Parsers} {r : Str} (hE : E.Sane) (hX : X.Sane) (hH : X.Honest) (hin : inp.InRange) :
    match ps.parse E X ρ n r inp with
    | .ok v i => Advances inp i ∧ LeavesInside inp v
    | .err e i => Advances inp i ∧ ∀ v r, e = .unconsumed v r → Advances inp r ∧ LeavesInside inp v
    | _ => True := by
  have hl := run_left (n := n) (ps := ps) (r := r) (ρ := ρ) hE hX hin
  unfold Parsers.parse
  cases hr : ps.run E X ρ n r inp with
  | ok v i k =>
    have hv := run_inside hE hX hH hin hr
    rw [hr] at hl
    simp only [Res.top]
    cases i.toStr with
    | none => trivial
    | some s =>
      cases s with
      | nil => exact ⟨hl, hv⟩
      | cons => exact ⟨hl, fun v' r' e => by simp only [Err.unconsumed.injEq] at e; obtain ⟨rfl, rfl⟩ := e; exact ⟨hl, hv⟩⟩
  | err e i k =>
    have hv := run_reported hr
    rw [hr] at hl
    refine ⟨hl, ?_⟩
    rintro v r rfl
    obtain ⟨name, f, c, h1, h2⟩ := hv
    exact ⟨(hX.refs name f h1 c inp hin).2 v r h2, hH.refs name f h1 c inp hin v r (.inr h2)⟩
  | panic => trivial
  | oof => trivial

theorem nested_sane {n : Nat} {ps : Parsers} {r : Str} (hE : E.Sane) (hX : X.Sane) (hH : X.Honest) : Handler.Sane (nested E X ρ n ps r) := by
  intro c inp hin
  have := parse_cases (ρ := ρ) (n := n) (ps := ps) (r := r) hE hX hH hin
  unfold nested
  split <;> rename_i h <;> simp only [h] at this
  · exact ⟨this.1, by simp⟩
  · exact ⟨this.1, fun t r' e => (this.2 t r' (Option.some.inj e)).1⟩
  · exact ⟨.refl hin, by simp⟩

theorem nested_honest {n : Nat} {ps : Parsers} {r : Str} (hE : E.Sane) (hX : X.Sane) (hH : X.Honest) : Handler.Honest (nested E X ρ n ps r) := by
  intro c inp hin v i h
  have := parse_cases (ρ := ρ) (n := n) (ps := ps) (r := r) hE hX hH hin
  unfold nested at h
  split at h <;> rename_i hp <;> simp only [hp] at this
  · rcases h with ⟨_, rfl, _⟩ | h
    · exact this.2
    · simp at h
  · rcases h with ⟨h, _⟩ | h
    · simp at h
    · exact (this.2 v i (Option.some.inj h)).2
  · rcases h with ⟨h, _⟩ | h <;> simp at h

/-! ## The table of handlers -/

theorem no_parens_cons {a : UInt8} {s : Str} (h : ¬ [40, 41] <:+: a :: s) : ¬ [40, 41] <:+: s := fun h' => h (h'.trans (List.suffix_cons a s).isInfix)

theorem splitParens_none : ∀ {s : Str}, ¬ [40, 41] <:+: s → splitParens s = [s]
  | [], _ => rfl
  | [_], _ => rfl
  | a :: b :: s, h => by
    have h1 : ¬ (a = 40 ∧ b = 41) := by
      rintro ⟨rfl, rfl⟩
      exact h (List.prefix_append [40, 41] s).isInfix
    rw [splitParens, if_neg h1, splitParens_none (no_parens_cons h)]

theorem splitParens_append : ∀ {p : Str} (rest : Str), ¬ [40, 41] <:+: p → splitParens (p ++ 40 :: 41 :: rest) = p :: splitParens rest
  | [], rest, _ => by simp [splitParens]
  | [c], rest, _ => by
    rw [List.singleton_append, splitParens, if_neg (by simp), splitParens, if_pos (by simp)]
  | a :: b :: p, rest, h => by
    have h1 : ¬ (a = 40 ∧ b = 41) := by
      rintro ⟨rfl, rfl⟩
      exact h (List.prefix_append [40, 41] p).isInfix
    have := splitParens_append (p := b :: p) rest (no_parens_cons h)
    simp only [List.cons_append] at this ⊢
    rw [splitParens, if_neg h1, this]

theorem first_parens : ∀ {s : Str}, [40, 41] <:+: s → ∃ p rest, s = p ++ 40 :: 41 :: rest ∧ ¬ [40, 41] <:+: p
  | [], h => by simp at h
  | a :: s, h => by
    by_cases h1 : [40, 41] <+: a :: s
    · obtain ⟨t, ht⟩ := h1
      exact ⟨[], t, by simp [← ht], by simp⟩
    · obtain ⟨p, rest, rfl, hp⟩ := first_parens ((List.infix_cons_iff.1 h).resolve_left h1)
      refine ⟨a :: p, rest, rfl, fun h2 => ?_⟩
      rcases List.infix_cons_iff.1 h2 with h3 | h3
      · exact h1 (h3.trans (List.prefix_append (a :: p) _))
      · exact hp h3

theorem delimsOf_iff {k op cl : Str} : DelimsOf (42 :: k) op cl ↔ ∃ rest, splitParens k = op :: cl :: rest := by
  constructor
  · rintro ⟨more, h, ho, hc, hm⟩
    simp only [List.cons_append, List.nil_append, List.append_assoc, List.cons.injEq, true_and] at h
    subst h
    rw [splitParens_append _ ho]
    rcases hm with rfl | ⟨t, rfl⟩
    · rw [List.append_nil, splitParens_none hc]
      exact ⟨_, rfl⟩
    · rw [List.cons_append, List.cons_append, List.nil_append, splitParens_append _ hc]
      exact ⟨_, rfl⟩
  · rintro ⟨rest, h⟩
    by_cases h1 : [40, 41] <:+: k
    · obtain ⟨p, t, rfl, hp⟩ := first_parens h1
      rw [splitParens_append _ hp] at h
      obtain ⟨rfl, h'⟩ := List.cons.inj h
      clear h
      by_cases h2 : [40, 41] <:+: t
      · obtain ⟨p', t', rfl, hp'⟩ := first_parens h2
        rw [splitParens_append _ hp'] at h'
        obtain ⟨rfl, -⟩ := List.cons.inj h'
        exact ⟨40 :: 41 :: t', by simp, hp, hp', .inr ⟨t', rfl⟩⟩
      · rw [splitParens_none h2] at h'
        obtain ⟨rfl, -⟩ := List.cons.inj h'
        exact ⟨[], by simp, hp, h2, .inl rfl⟩
    · rw [splitParens_none h1] at h
      simp at h

theorem escapeOf_skip {key : Str} {f refs e} (h : ¬ EscapeKey key) : escapeOf E ((key, f) :: refs) e = escapeOf E refs e := by
  rw [escapeOf.eq_def]
  split
  · simp_all
  · rename_i heq
    simp only [List.cons.injEq, Prod.mk.injEq] at heq
    exact absurd ⟨_, heq.1.1⟩ h
  · rename_i heq
    simp only [List.cons.injEq] at heq
    rw [heq.2]

theorem escapeOf_twice {key : Str} {f refs e} (h : EscapeKey key) : escapeOf E ((key, f) :: refs) (some e) = none := by
  obtain ⟨k, rfl⟩ := h
  rfl

theorem escapeOf_usable {key op cl : Str} {f refs} (h : DelimsOf key op cl) (ho : E.valid (anchor ++ op) = true) (hc : E.valid (anchor ++ cl) = true) :
    escapeOf E ((key, f) :: refs) none = escapeOf E refs (some ⟨anchor ++ op, anchor ++ cl, f⟩) := by
  have hk : EscapeKey key := by obtain ⟨more, rfl, _⟩ := h; exact ⟨_, rfl⟩
  obtain ⟨k, rfl⟩ := hk
  obtain ⟨rest, hr⟩ := delimsOf_iff.1 h
  rw [escapeOf, hr]
  exact if_pos ⟨ho, hc⟩

theorem escapeOf_unusable {key : Str} {f refs} (h : EscapeKey key) (hu : ¬ EscapeKey.Usable E key) : escapeOf E ((key, f) :: refs) none = none := by
  obtain ⟨k, rfl⟩ := h
  rw [escapeOf]
  split
  · rename_i op cl rest hs
    rw [if_neg]
    rintro ⟨h1, h2⟩
    exact hu ⟨op, cl, delimsOf_iff.2 ⟨rest, hs⟩, h1, h2⟩
  · rfl

theorem escapeOf_swap {x y : Str × Handler} {refs e} : escapeOf E (x :: y :: refs) e = escapeOf E (y :: x :: refs) e := by
  obtain ⟨k, f⟩ := x
  obtain ⟨k', f'⟩ := y
  by_cases h : EscapeKey k
  · by_cases h' : EscapeKey k'
    · cases e with
      | some e => rw [escapeOf_twice h, escapeOf_twice h']
      | none =>
        have key : ∀ {k k' : Str} {f f'}, EscapeKey k → EscapeKey k' → escapeOf E ((k, f) :: (k', f') :: refs) none = none := by
          intro k k' f f' h h'
          by_cases hu : EscapeKey.Usable E k
          · obtain ⟨op, cl, h1, h2, h3⟩ := hu
            rw [escapeOf_usable h1 h2 h3, escapeOf_twice h']
          · exact escapeOf_unusable h hu
        rw [key h h', key h' h]
    · rw [escapeOf_skip h']
      cases e with
      | some e => rw [escapeOf_twice h, escapeOf_twice h]
      | none =>
        by_cases hu : EscapeKey.Usable E k
        · obtain ⟨op, cl, h1, h2, h3⟩ := hu
          rw [escapeOf_usable h1 h2 h3, escapeOf_usable h1 h2 h3, escapeOf_skip h']
        · rw [escapeOf_unusable h hu, escapeOf_unusable h hu]
  · rw [escapeOf_skip h]
    by_cases h' : EscapeKey k'
    · cases e with
      | some e => rw [escapeOf_twice h', escapeOf_twice h']
      | none =>
        by_cases hu : EscapeKey.Usable E k'
        · obtain ⟨op, cl, h1, h2, h3⟩ := hu
          rw [escapeOf_usable h1 h2 h3, escapeOf_usable h1 h2 h3, escapeOf_skip h]
        · rw [escapeOf_unusable h' hu, escapeOf_unusable h' hu]
    · rw [escapeOf_skip h', escapeOf_skip h', escapeOf_skip h]

theorem escapeOf_perm {refs refs' : List (Str × Handler)} (h : refs.Perm refs') : ∀ e, escapeOf E refs e = escapeOf E refs' e := by
  induction h with
  | nil => intro e; rfl
  | cons x _ ih =>
    obtain ⟨k, f⟩ := x
    intro e
    by_cases h : EscapeKey k
    · cases e with
      | some e => rw [escapeOf_twice h, escapeOf_twice h]
      | none =>
        by_cases hu : EscapeKey.Usable E k
        · obtain ⟨op, cl, h1, h2, h3⟩ := hu
          rw [escapeOf_usable h1 h2 h3, escapeOf_usable h1 h2 h3, ih]
        · rw [escapeOf_unusable h hu, escapeOf_unusable h hu]
    · rw [escapeOf_skip h, escapeOf_skip h, ih]
  | swap x y l => intro e; exact escapeOf_swap
  | trans _ _ ih1 ih2 => intro e; rw [ih1, ih2]

theorem escapeOf_set {refs : List (Str × Handler)} : ∀ {e : Escape} {o}, escapeOf E refs (some e) = some o → o = some e ∧ ∀ key ∈ refs.map (·.1), ¬ EscapeKey key := by
  induction refs with
  | nil => intro e o h; simp only [escapeOf, Option.some.injEq] at h; exact ⟨h.symm, by simp⟩
  | cons x refs ih =>
    obtain ⟨k, f⟩ := x
    intro e o h
    by_cases hk : EscapeKey k
    · rw [escapeOf_twice hk] at h; simp at h
    · rw [escapeOf_skip hk] at h
      obtain ⟨h1, h2⟩ := ih h
      refine ⟨h1, ?_⟩
      simp only [List.map_cons, List.mem_cons, forall_eq_or_imp]
      exact ⟨hk, h2⟩

theorem escapeOf_unset {refs : List (Str × Handler)} : ∀ {o}, escapeOf E refs none = some o →
    (∀ key f, (key, f) ∈ refs → EscapeKey key → ∃ op cl, DelimsOf key op cl ∧ E.valid (anchor ++ op) = true ∧ E.valid (anchor ++ cl) = true ∧ o = some ⟨anchor ++ op, anchor ++ cl, f⟩) ∧
    ((∀ key ∈ refs.map (·.1), ¬ EscapeKey key) → o = none) ∧
    (∀ key key', key ∈ refs.map (·.1) → key' ∈ refs.map (·.1) → EscapeKey key → EscapeKey key' → key = key') := by
  induction refs with
  | nil => intro o h; simp only [escapeOf, Option.some.injEq] at h; exact ⟨by simp, fun _ => h.symm, by simp⟩
  | cons x refs ih =>
    obtain ⟨k, f⟩ := x
    intro o h
    by_cases hk : EscapeKey k
    · by_cases hu : EscapeKey.Usable E k
      · obtain ⟨op, cl, h1, h2, h3⟩ := hu
        rw [escapeOf_usable h1 h2 h3] at h
        obtain ⟨rfl, h4⟩ := escapeOf_set h
        have h5 : ∀ key ∈ List.map (fun x : Str × Handler => x.1) ((k, f) :: refs), EscapeKey key → key = k := by
          intro key hm he
          simp only [List.map_cons, List.mem_cons] at hm
          rcases hm with rfl | hm
          · rfl
          · exact absurd he (h4 key hm)
        refine ⟨?_, fun hn => absurd hk (hn k (by simp)), fun key key' hm hm' he he' => by rw [h5 key hm he, h5 key' hm' he']⟩
        intro key f' hm he
        simp only [List.mem_cons, Prod.mk.injEq] at hm
        rcases hm with ⟨rfl, rfl⟩ | hm
        · exact ⟨op, cl, h1, h2, h3, rfl⟩
        · exact absurd he (h4 key (List.mem_map.2 ⟨_, hm, rfl⟩))
      · rw [escapeOf_unusable hk hu] at h; simp at h
    · rw [escapeOf_skip hk] at h
      obtain ⟨h1, h2, h3⟩ := ih h
      refine ⟨?_, fun hn => h2 fun key hm => hn key (by simp at hm ⊢; exact .inr hm), ?_⟩
      · intro key f' hm he
        simp only [List.mem_cons, Prod.mk.injEq] at hm
        rcases hm with ⟨rfl, rfl⟩ | hm
        · exact absurd he hk
        · exact h1 key f' hm he
      · intro key key' hm hm' he he'
        simp only [List.map_cons, List.mem_cons] at hm hm'
        rcases hm with rfl | hm
        · exact absurd he hk
        · rcases hm' with rfl | hm'
          · exact absurd he' hk
          · exact h3 key key' hm hm' he he'

theorem escapeOf_free {refs : List (Str × Handler)} : ∀ {e}, (∀ key ∈ refs.map (·.1), ¬ EscapeKey key) → escapeOf E refs e = some e := by
  induction refs with
  | nil => intro e _; rfl
  | cons x refs ih =>
    obtain ⟨k, f⟩ := x
    intro e h
    rw [escapeOf_skip (h k (by simp))]
    exact ih fun key hm => h key (by simp at hm ⊢; exact .inr hm)

theorem escapeOf_isSome {refs : List (Str × Handler)} (hn : (refs.map (·.1)).Nodup)
    (hu : ∀ key ∈ refs.map (·.1), EscapeKey key → EscapeKey.Usable E key)
    (h1 : ∀ key key', key ∈ refs.map (·.1) → key' ∈ refs.map (·.1) → EscapeKey key → EscapeKey key' → key = key') : escapeOf E refs none ≠ none := by
  induction refs with
  | nil => simp [escapeOf]
  | cons x refs ih =>
    obtain ⟨k, f⟩ := x
    simp only [List.map_cons, List.nodup_cons] at hn
    by_cases hk : EscapeKey k
    · obtain ⟨op, cl, h2, h3, h4⟩ := hu k (by simp) hk
      rw [escapeOf_usable h2 h3 h4, escapeOf_free]
      · simp
      · intro key hm he
        have := h1 k key (by simp) (by simp at hm ⊢; exact .inr hm) hk he
        subst this
        exact hn.1 hm
    · rw [escapeOf_skip hk]
      exact ih hn.2 (fun key hm => hu key (by simp at hm ⊢; exact .inr hm)) (fun key key' hm hm' => h1 key key' (by simp at hm ⊢; exact .inr hm) (by simp at hm' ⊢; exact .inr hm'))

end Wbnf

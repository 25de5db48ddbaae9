import Verif.Lemmas.AstString

/-!
# Printed ASTs: what is printed determines the AST
-/

namespace Wbnf

variable {quote : Str → Str}

/-! ## What follows a node -/

/-- Nothing, or one of `,)]`. -/
def Ends (x : Str) : Prop := x = [] ∨ ∃ t, x = 44 :: t ∨ x = 41 :: t ∨ x = 93 :: t

/-- Bytes of names and data. -/
def plainByte (c : UInt8) : Bool := !isSpecial c && c != 34

theorem Ends.stops {x : Str} (h : Ends x) : ∀ c t, x = c :: t → plainByte c = false := by
  rintro c t rfl
  rcases h with h | ⟨t', h | h | h⟩
  · cases h
  all_goals
    simp only [List.cons.injEq] at h
    rw [h.1]
    decide

theorem split_plain : ∀ {d d' x y : Str}, (∀ c ∈ d, plainByte c = true) → (∀ c ∈ d', plainByte c = true) → (∀ c t, x = c :: t → plainByte c = false) →
    (∀ c t, y = c :: t → plainByte c = false) → d ++ x = d' ++ y → d = d' ∧ x = y
  | [], [], x, y, _, _, _, _, h => ⟨rfl, h⟩
  | [], c :: d', x, y, _, h2, h3, _, h => by
    have := h3 c (d' ++ y) h
    rw [h2 c (by simp)] at this
    cases this
  | c :: d, [], x, y, h1, _, _, h4, h => by
    have := h4 c (d ++ x) h.symm
    rw [h1 c (by simp)] at this
    cases this
  | c :: d, c' :: d', x, y, h1, h2, h3, h4, h => by
    simp only [List.cons_append, List.cons.injEq] at h
    obtain ⟨rfl, h⟩ := h
    obtain ⟨rfl, rfl⟩ := split_plain (fun c hc => h1 c (by simp [hc])) (fun c hc => h2 c (by simp [hc])) h3 h4 h
    exact ⟨rfl, rfl⟩

/-! ## Numbers -/

def numberByte (c : UInt8) : Bool := c = 45 || (48 ≤ c && c ≤ 57)

theorem decimalAux_bytes : ∀ (f n : Nat), ∀ c ∈ decimalAux f n, numberByte c = true
  | 0, _ => by simp [decimalAux]
  | f + 1, n => by
    have key : ∀ m, m < 10 → numberByte (UInt8.ofNat (48 + m)) = true := by decide
    simp only [decimalAux]
    split
    · rename_i h
      intro c hc
      simp only [List.mem_singleton] at hc
      rw [hc]
      exact key n h
    · intro c hc
      simp only [List.mem_append, List.mem_singleton] at hc
      rcases hc with hc | rfl
      · exact decimalAux_bytes f _ c hc
      · exact key _ (Nat.mod_lt _ (by decide))

theorem decimal_nonempty (n : Nat) : ∃ c t, decimal n = c :: t ∧ c ≠ 45 := by
  have key : ∀ m, m < 10 → (UInt8.ofNat (48 + m)) ≠ 45 := by decide
  have : ∀ f n, n < f → ∃ c t, decimalAux f n = c :: t ∧ c ≠ 45 := by
    intro f
    induction f with
    | zero => intro n h; omega
    | succ f ih =>
      intro n h
      simp only [decimalAux]
      split
      · rename_i h'
        exact ⟨_, _, rfl, key n h'⟩
      · obtain ⟨c, t, e, hc⟩ := ih (n / 10) (by omega)
        rw [e]
        exact ⟨c, _, rfl, hc⟩
  exact this _ _ (by omega)

theorem intDecimal_bytes (i : Int) : (∀ c ∈ intDecimal i, numberByte c = true) ∧ intDecimal i ≠ [] := by
  cases i with
  | ofNat n =>
    obtain ⟨c, t, e, _⟩ := decimal_nonempty n
    exact ⟨decimalAux_bytes _ _, by simp [intDecimal, e]⟩
  | negSucc n =>
    refine ⟨?_, by simp [intDecimal]⟩
    intro c hc
    simp only [intDecimal, List.mem_cons] at hc
    rcases hc with rfl | hc
    · rfl
    · exact decimalAux_bytes _ _ c hc

theorem intDecimal_inj {i j : Int} (h : intDecimal i = intDecimal j) : i = j := by
  cases i with
  | ofNat n =>
    cases j with
    | ofNat m => rw [decimal_inj h]
    | negSucc m =>
      obtain ⟨c, t, e, hc⟩ := decimal_nonempty n
      simp only [intDecimal, e, List.cons.injEq] at h
      exact absurd h.1 hc
  | negSucc n =>
    cases j with
    | ofNat m =>
      obtain ⟨c, t, e, hc⟩ := decimal_nonempty m
      simp only [intDecimal, e, List.cons.injEq] at h
      exact absurd h.1.symm hc
    | negSucc m =>
      simp only [intDecimal, List.cons.injEq, true_and] at h
      have := decimal_inj h
      congr 1
      omega

theorem split_number : ∀ {d d' x y : Str}, (∀ c ∈ d, numberByte c = true) → (∀ c ∈ d', numberByte c = true) → d ++ (bullet ++ x) = d' ++ (bullet ++ y) → d = d' ∧ x = y
  | [], [], x, y, _, _, h => by simp [bullet] at h; exact ⟨rfl, h⟩
  | [], c :: d', x, y, _, h2, h => by
    have := h2 c (by simp)
    simp only [bullet, List.cons_append, List.nil_append, List.cons.injEq] at h
    rw [← h.1] at this
    exact absurd this (by decide)
  | c :: d, [], x, y, h1, _, h => by
    have := h1 c (by simp)
    simp only [bullet, List.cons_append, List.nil_append, List.cons.injEq] at h
    rw [h.1] at this
    exact absurd this (by decide)
  | c :: d, c' :: d', x, y, h1, h2, h => by
    simp only [List.cons_append, List.cons.injEq] at h
    obtain ⟨rfl, h⟩ := h
    obtain ⟨rfl, rfl⟩ := split_number (fun c hc => h1 c (by simp [hc])) (fun c hc => h2 c (by simp [hc])) h
    exact ⟨rfl, rfl⟩

/-! ## Leaves -/

/-- The text of a leaf, as it is printed. -/
def leafBody (quote : Str → Str) (t : Str) : Str :=
  if t.any isSpecial then quote t else if t.contains 34 then [96] ++ replaceByte 96 [96, 96] t ++ [96] else t

theorem not_special {t : Str} (h : ¬ t.any isSpecial = true) : ∀ c ∈ t, isSpecial c = false := by
  intro c hc
  cases hs : isSpecial c with
  | false => rfl
  | true => exact absurd (List.any_eq_true.2 ⟨c, hc, hs⟩) h

theorem replace_none {c : UInt8} {by' t : Str} (h : c ∉ t) : replaceByte c by' t = t := by
  induction t with
  | nil => rfl
  | cons d t ih =>
    simp only [List.mem_cons, not_or] at h
    have := ih h.2
    unfold replaceByte at this ⊢
    rw [List.flatMap_cons, this, if_neg (Ne.symm h.1)]
    rfl

theorem leafBody_cases (t : Str) :
    (leafBody quote t = quote t ∧ t.any isSpecial = true) ∨
    (leafBody quote t = 96 :: (t ++ [96]) ∧ (∀ c ∈ t, isSpecial c = false)) ∨
    (leafBody quote t = t ∧ ∀ c ∈ t, plainByte c = true) := by
  unfold leafBody
  by_cases h : t.any isSpecial = true
  · rw [if_pos h]; exact .inl ⟨rfl, h⟩
  · rw [if_neg h]
    have hn := not_special h
    have h96 : (96 : UInt8) ∉ t := fun hm => by have := hn 96 hm; revert this; decide
    by_cases h' : t.contains 34 = true
    · rw [if_pos h', replace_none h96]; exact .inr (.inl ⟨rfl, hn⟩)
    · rw [if_neg h']
      refine .inr (.inr ⟨rfl, fun c hc => ?_⟩)
      have : c ≠ 34 := by rintro rfl; exact h' (by simpa using hc)
      simp [plainByte, hn c hc, this]

theorem split_backquote : ∀ {t t' x y : Str}, (∀ c ∈ t, isSpecial c = false) → (∀ c ∈ t', isSpecial c = false) → t ++ 96 :: x = t' ++ 96 :: y → t = t' ∧ x = y
  | [], [], x, y, _, _, h => by simp at h; exact ⟨rfl, h⟩
  | [], c :: t', x, y, _, h2, h => by
    have := h2 c (by simp)
    simp only [List.nil_append, List.cons_append, List.cons.injEq] at h
    rw [← h.1] at this
    exact absurd this (by decide)
  | c :: t, [], x, y, h1, _, h => by
    have := h1 c (by simp)
    simp only [List.nil_append, List.cons_append, List.cons.injEq] at h
    rw [h.1] at this
    exact absurd this (by decide)
  | c :: t, c' :: t', x, y, h1, h2, h => by
    simp only [List.cons_append, List.cons.injEq] at h
    obtain ⟨rfl, h⟩ := h
    obtain ⟨rfl, rfl⟩ := split_backquote (fun c hc => h1 c (by simp [hc])) (fun c hc => h2 c (by simp [hc])) h
    exact ⟨rfl, rfl⟩

theorem ends_ne {x t : Str} (h : Ends x) {c : UInt8} (hc : c ≠ 44 ∧ c ≠ 41 ∧ c ≠ 93) : x ≠ c :: t := by
  rintro rfl
  rcases h with h | ⟨t', h | h | h⟩
  · cases h
  all_goals
    simp only [List.cons.injEq] at h
    simp_all

theorem split_body (hq : Quoting quote) {t t' x y : Str} (hx : Ends x) (hy : Ends y) (h : leafBody quote t ++ x = leafBody quote t' ++ y) : t = t' ∧ x = y := by
  have qb : ∀ {t t' x y : Str}, quote t ++ x ≠ 96 :: (t' ++ [96]) ++ y := by
    intro t t' x y h
    obtain ⟨u, hu⟩ := hq.opens t
    rw [hu] at h
    simp at h
  have qp : ∀ {t t' x y : Str}, Ends y → (∀ c ∈ t', plainByte c = true) → quote t ++ x ≠ t' ++ y := by
    intro t t' x y hy hp h
    obtain ⟨u, hu⟩ := hq.opens t
    rw [hu] at h
    cases t' with
    | nil => exact ends_ne hy (by decide) h.symm
    | cons c t' =>
      have := hp c (by simp)
      simp only [List.cons_append, List.cons.injEq] at h
      rw [← h.1] at this
      revert this; decide
  have bp : ∀ {t t' x y : Str}, Ends y → (∀ c ∈ t', plainByte c = true) → 96 :: (t ++ [96]) ++ x ≠ t' ++ y := by
    intro t t' x y hy hp h
    cases t' with
    | nil => exact ends_ne hy (by decide) h.symm
    | cons c t' =>
      have := hp c (by simp)
      simp only [List.cons_append, List.cons.injEq] at h
      rw [← h.1] at this
      revert this; decide
  rcases leafBody_cases (quote := quote) t with ⟨e, _⟩ | ⟨e, h1⟩ | ⟨e, h1⟩ <;> rcases leafBody_cases (quote := quote) t' with ⟨e', _⟩ | ⟨e', h1'⟩ | ⟨e', h1'⟩ <;> rw [e, e'] at h
  · exact hq.reads _ _ _ _ h
  · exact absurd h qb
  · exact absurd h (qp hy h1')
  · exact absurd h.symm qb
  · simp only [List.cons_append, List.append_assoc, List.cons.injEq, true_and, List.nil_append] at h
    exact split_backquote h1 h1' h
  · exact absurd h (bp hy h1')
  · exact absurd h.symm (qp hx h1)
  · exact absurd h.symm (bp hx h1)
  · exact split_plain h1 h1' hx.stops hy.stops h

theorem leaf_line (hq : Quoting quote) {s : Scanner} {u : Str} (h : leafString quote s = some u) :
    (10 : UInt8) ∉ u ∧ Neat u ∧ (∃ t, s.toStr = some t ∧ u = intDecimal s.start ++ (bullet ++ leafBody quote t)) := by
  simp only [leafString, Option.map_eq_some_iff] at h
  obtain ⟨t, ht, h⟩ := h
  have h : u = intDecimal s.start ++ (bullet ++ leafBody quote t) := by rw [← h]; simp [leafBody]
  obtain ⟨hb, hne⟩ := intDecimal_bytes s.start
  have hl : (10 : UInt8) ∉ u := by
    rw [h]
    simp only [List.mem_append, not_or]
    refine ⟨fun hm => by have := hb 10 hm; revert this; decide, by decide, ?_⟩
    rcases leafBody_cases (quote := quote) t with ⟨e, _⟩ | ⟨e, h1⟩ | ⟨e, h1⟩ <;> rw [e]
    · exact hq.line t
    · simp only [List.mem_cons, List.mem_append, List.not_mem_nil, or_false, not_or]
      exact ⟨by decide, fun hm => by have := h1 10 hm; revert this; decide, by decide⟩
    · exact fun hm => by have := h1 10 hm; revert this; decide
  refine ⟨hl, ?_, t, ht, h⟩
  cases hd : intDecimal s.start with
  | nil => exact absurd hd hne
  | cons c d =>
    have hc := hb c (by simp [hd])
    refine ⟨c, d ++ (bullet ++ leafBody quote t), by rw [h, hd]; rfl, ?_, ?_, (squash_line hl).2⟩
    · rintro rfl; revert hc; decide
    · rintro rfl; revert hc; decide

theorem Identifier.plain {s : Str} (h : Identifier s) : ∀ c ∈ s, plainByte c = true := by
  intro c hc
  have := h c hc
  simp [plainByte, this.1, this.2.2]

theorem identifier_neat {s : Str} (h : Identifier s) (hne : s ≠ []) : Neat s := by
  cases s with
  | nil => exact absurd rfl hne
  | cons c s =>
    have hc := h c (by simp)
    refine ⟨c, s, rfl, hc.2.1, ?_, (squash_line h.line).2⟩
    rintro rfl
    have := hc.1
    revert this; decide

/-! ## All strings are neat -/

mutual
theorem ast_neat (hq : Quoting quote) : ∀ {a : Ast} {s : Str}, Printable a → a.string quote = some s → Neat s
  | .leaf sc, s, _, h => (leaf_line hq h).2.1
  | .extra d, s, hp, h => by
    cases hp with
    | extra h1 h2 _ =>
      simp only [Ast.string, Option.some.injEq] at h
      rw [← h]
      exact identifier_neat h1 h2
  | .branch b, s, hp, h => by
    cases hp with
    | branch h1 h2 h3 =>
      simp only [Ast.string, Option.map_eq_some_iff] at h
      obtain ⟨es, he, rfl⟩ := h
      have h4 := entries_neat hq h3 he
      have hk := entryStrings_keys he
      refine (squash_branch (fun e hm => ?_) fun e hm => ?_).2
      · obtain ⟨name, hn, rfl⟩ := List.mem_map.1 hm
        have := (sortStrings_perm _).mem_iff.1 hn
        rw [hk] at this
        exact h2 _ this
      · obtain ⟨name, hn, rfl⟩ := List.mem_map.1 hm
        have := (sortStrings_perm _).mem_iff.1 hn
        cases hl : lookup name es with
        | none => exact absurd this (lookup_none_iff.1 hl)
        | some u => exact h4 _ (lookup_mem hl)
theorem kids_neat (hq : Quoting quote) : ∀ {c : Kids} {s : Str}, PrintableKids c → c.string quote = some s → Neat s
  | .one n, s, hp, h => by cases hp with | one hp => exact ast_neat hq hp h
  | .many ns, s, hp, h => by
    cases hp with
    | many hp =>
      simp only [Kids.string, Option.map_eq_some_iff] at h
      obtain ⟨ss, he, rfl⟩ := h
      refine (squash_many (all_neat hq hp he) ?_).2
      rintro hc rfl
      cases ns with
      | nil => simp at hc
      | cons n ns =>
        simp only [astStrings] at he
        split at he <;> simp at he
theorem all_neat (hq : Quoting quote) : ∀ {ns : List Ast} {ss : List Str}, PrintableAll ns → astStrings quote ns = some ss → ∀ s ∈ ss, Neat s
  | [], ss, _, h => by simp only [astStrings, Option.some.injEq] at h; subst h; simp
  | n :: ns, ss, hp, h => by
    cases hp with
    | cons h1 h2 =>
      simp only [astStrings] at h
      split at h
      · rename_i s ss' e1 e2
        obtain rfl := Option.some.inj h
        intro u hu
        rcases List.mem_cons.1 hu with rfl | hu
        · exact ast_neat hq h1 e1
        · exact all_neat hq h2 e2 u hu
      · simp at h
theorem entries_neat (hq : Quoting quote) : ∀ {b : List (Str × Kids)} {es : List (Str × Str)}, PrintableEntries b → entryStrings quote b = some es → ∀ e ∈ es, Neat e.2
  | [], es, _, h => by simp only [entryStrings, Option.some.injEq] at h; subst h; simp
  | (name, c) :: b, es, hp, h => by
    cases hp with
    | cons h1 h2 =>
      simp only [entryStrings] at h
      split at h
      · rename_i s es' e1 e2
        obtain rfl := Option.some.inj h
        intro u hu
        rcases List.mem_cons.1 hu with rfl | hu
        · exact kids_neat hq h1 e1
        · exact entries_neat hq h2 e2 u hu
      · simp at h
end

/-! ## Reading back -/

/-- What is printed for the node, with something that ends it, is printed for no other. -/
def Reads1 (quote : Str → Str) (a : Ast) : Prop := ∀ a' s t x y, Printable a → Printable a' → a.string quote = some s → a'.string quote = some t → Ends x → Ends y →
  squash false s ++ x = squash false t ++ y → Alike a a' ∧ x = y

def ReadsKids (quote : Str → Str) (c : Kids) : Prop := ∀ c' s t x y, PrintableKids c → PrintableKids c' → c.string quote = some s → c'.string quote = some t → Ends x → Ends y →
  squash false s ++ x = squash false t ++ y → AlikeKids c c' ∧ x = y

theorem astStrings_cons {n : Ast} {ns ss} (h : astStrings quote (n :: ns) = some ss) : ∃ s ss', n.string quote = some s ∧ astStrings quote ns = some ss' ∧ ss = s :: ss' := by
  simp only [astStrings] at h
  split at h
  · rename_i s ss' e1 e2
    exact ⟨s, ss', e1, e2, (Option.some.inj h).symm⟩
  · cases h

theorem entryStrings_cons {name : Str} {c : Kids} {b es} (h : entryStrings quote ((name, c) :: b) = some es) :
    ∃ s es', c.string quote = some s ∧ entryStrings quote b = some es' ∧ es = (name, s) :: es' := by
  simp only [entryStrings] at h
  split at h
  · rename_i s es' e1 e2
    exact ⟨s, es', e1, e2, (Option.some.inj h).symm⟩
  · cases h

/-- The rest of several nodes. -/
def manyTail (complex : Bool) (us : List Str) : Str := us.flatMap ((if complex then [44] else [44, 32]) ++ ·) ++ ((if complex then [44] else []) ++ [93])

theorem manyTail_ends {complex us x} : Ends (manyTail complex us ++ x) := by
  unfold manyTail
  cases us with
  | nil => cases complex <;> simp [Ends]
  | cons u us => cases complex <;> simp [Ends]

theorem manyTail_cons {complex u us} : manyTail complex (u :: us) = 44 :: ((if complex then [] else [32]) ++ (u ++ manyTail complex us)) := by
  cases complex <;> simp [manyTail]

theorem Neat.head {s : Str} (h : Neat s) : ∃ c t, squash false s = c :: t ∧ c ≠ 32 ∧ c ≠ 10 := by
  obtain ⟨c, t, rfl, h1, h2, _⟩ := h
  exact ⟨c, squash false t, by simp [squash, h2], h1, h2⟩

/-- What a node begins with. -/
theorem ast_head (hq : Quoting quote) {a : Ast} {s : Str} (hp : Printable a) (h : a.string quote = some s) :
    ∃ c t, squash false s = c :: t ∧ c ≠ 32 ∧ c ≠ 91 ∧ c ≠ 93 ∧ ((∃ b, a = .branch b) ↔ c = 40) := by
  cases a with
  | leaf sc =>
    obtain ⟨h1, h2, t, _, h3⟩ := leaf_line hq h
    rw [(squash_line h1).1]
    obtain ⟨hb, hne⟩ := intDecimal_bytes sc.start
    cases hd : intDecimal sc.start with
    | nil => exact absurd hd hne
    | cons c d =>
      have hc := hb c (by simp [hd])
      refine ⟨c, d ++ (bullet ++ leafBody quote t), by rw [h3, hd]; rfl, ?_, ?_, ?_, ?_⟩
      · rintro rfl; revert hc; decide
      · rintro rfl; revert hc; decide
      · rintro rfl; revert hc; decide
      · constructor
        · rintro ⟨b, hb⟩; cases hb
        · rintro rfl; exact absurd hc (by decide)
  | extra d =>
    cases hp with
    | extra h1 h2 _ =>
      simp only [Ast.string, Option.some.injEq] at h
      rw [← h, (squash_line h1.line).1]
      cases hd : d.string with
      | nil => exact absurd hd h2
      | cons c t =>
        have hc := h1 c (by simp [hd])
        have hs := hc.1
        refine ⟨c, t, rfl, hc.2.1, ?_, ?_, ?_⟩
        · rintro rfl; revert hs; decide
        · rintro rfl; revert hs; decide
        · constructor
          · rintro ⟨b, hb⟩; cases hb
          · rintro rfl; exact absurd hs (by decide)
  | branch b =>
    simp only [Ast.string, Option.map_eq_some_iff] at h
    obtain ⟨es, _, rfl⟩ := h
    refine ⟨40, squash false (branchString es).tail, ?_, by decide, by decide, by decide, by simp⟩
    simp [branchString, squash]

theorem many_head {complex ss} : ∃ t, squash false (manyString complex ss) = 91 :: t := ⟨squash false (manyString complex ss).tail, by simp [manyString, squash]⟩

theorem tail_reads (hq : Quoting quote) : ∀ {ns ns' : List Ast} {ss ss' : List Str} {c c' : Bool} {x y : Str}, (∀ n ∈ ns, Reads1 quote n) → PrintableAll ns → PrintableAll ns' →
    astStrings quote ns = some ss → astStrings quote ns' = some ss' → manyTail c (ss.map (squash false)) ++ x = manyTail c' (ss'.map (squash false)) ++ y → AlikeAll ns ns' ∧ x = y
  | [], [], ss, ss', c, c', x, y, _, _, _, h, h', e => by
    simp only [astStrings, Option.some.injEq] at h h'
    subst h; subst h'
    cases c <;> cases c' <;> simp [manyTail] at e
    · exact ⟨.nil, e⟩
    · exact ⟨.nil, e⟩
  | [], n' :: ns', ss, ss', c, c', x, y, _, _, hp', h, h', e => by
    simp only [astStrings, Option.some.injEq] at h
    subst h
    obtain ⟨s, us, h1, _, rfl⟩ := astStrings_cons h'
    cases hp' with
    | cons hp1 _ =>
      obtain ⟨d, t, ht, hd, _, hd', _⟩ := ast_head hq hp1 h1
      rw [List.map_cons, manyTail_cons, ht] at e
      cases c <;> cases c' <;> simp [manyTail] at e
      exact absurd e.1.symm hd'
  | n :: ns, [], ss, ss', c, c', x, y, _, hp, _, h, h', e => by
    simp only [astStrings, Option.some.injEq] at h'
    subst h'
    obtain ⟨s, us, h1, _, rfl⟩ := astStrings_cons h
    cases hp with
    | cons hp1 _ =>
      obtain ⟨d, t, ht, hd, _, hd', _⟩ := ast_head hq hp1 h1
      rw [List.map_cons, manyTail_cons, ht] at e
      cases c <;> cases c' <;> simp [manyTail] at e
      exact absurd e.1 hd'
  | n :: ns, n' :: ns', ss, ss', c, c', x, y, hr, hp, hp', h, h', e => by
    obtain ⟨s, us, h1, h2, rfl⟩ := astStrings_cons h
    obtain ⟨s', us', h1', h2', rfl⟩ := astStrings_cons h'
    cases hp with
    | cons hp1 hp2 =>
      cases hp' with
      | cons hp1' hp2' =>
        have key : squash false s ++ (manyTail c (us.map (squash false)) ++ x) = squash false s' ++ (manyTail c' (us'.map (squash false)) ++ y) := by
          obtain ⟨d, t, ht, hd, _⟩ := ast_head hq hp1 h1
          obtain ⟨d', t', ht', hd', _⟩ := ast_head hq hp1' h1'
          rw [List.map_cons, List.map_cons, manyTail_cons, manyTail_cons] at e
          cases c <;> cases c' <;> simp only [Bool.false_eq_true, if_false, if_true, List.nil_append, List.cons_append, List.append_assoc, List.cons.injEq, true_and] at e
          · exact e
          · rw [ht'] at e; simp at e; exact absurd e.1.symm hd'
          · rw [ht] at e; simp at e; exact absurd e.1 hd
          · exact e
        obtain ⟨ha, hrest⟩ := hr n (by simp) n' s s' _ _ hp1 hp1' h1 h1' manyTail_ends manyTail_ends key
        obtain ⟨hb, hxy⟩ := tail_reads hq (fun n hn => hr n (by simp [hn])) hp2 hp2' h2 h2' hrest
        exact ⟨.cons ha hb, hxy⟩

theorem manyFlat_cons {c u us} : manyFlat c (u :: us) = 91 :: (u ++ manyTail c us) := by
  cases c <;> simp [manyFlat, separated, manyTail]

/-- The rest of a branch. -/
def branchTail (long : Bool) (us : List Str) : Str := us.flatMap (44 :: ·) ++ ((if long then [44] else []) ++ [41])

theorem branchTail_ends {long us x} : Ends (branchTail long us ++ x) := by
  unfold branchTail
  cases us with
  | nil => cases long <;> simp [Ends]
  | cons u us => cases long <;> simp [Ends]

theorem name_reads {name name' u u' : Str} (hi : Identifier name) (hi' : Identifier name') (e : entryFlat name u = entryFlat name' u') : name = name' ∧ u = u' := by
  have stop : ∀ u : Str, ∀ c t, 58 :: 32 :: u = c :: t → plainByte c = false := by
    intro u c t h
    simp only [List.cons.injEq] at h
    rw [← h.1]; decide
  unfold entryFlat at e
  by_cases h : name = []
  · subst h
    by_cases h' : name' = []
    · subst h'; simpa using e
    · rw [if_pos rfl, if_neg h'] at e
      cases name' with
      | nil => exact absurd rfl h'
      | cons c name' =>
        have := (hi' c (by simp)).1
        simp only [List.cons_append, List.cons.injEq] at e
        rw [← e.1] at this
        exact absurd this (by decide)
  · by_cases h' : name' = []
    · subst h'
      rw [if_neg h, if_pos rfl] at e
      cases name with
      | nil => exact absurd rfl h
      | cons c name =>
        have := (hi c (by simp)).1
        simp only [List.cons_append, List.cons.injEq] at e
        rw [e.1] at this
        exact absurd this (by decide)
    · rw [if_neg h, if_neg h'] at e
      simp only [List.append_assoc, List.cons_append, List.nil_append] at e
      obtain ⟨rfl, e⟩ := split_plain hi.plain hi'.plain (stop u) (stop u') e
      exact ⟨rfl, by simpa using e⟩

theorem entryFlat_append {name u x : Str} : entryFlat name u ++ x = entryFlat name (u ++ x) := by simp [entryFlat]

theorem entry_head {name u : Str} (hi : Identifier name) : ∃ c t, entryFlat name u = c :: t ∧ c ≠ 41 ∧ c ≠ 44 := by
  cases name with
  | nil => exact ⟨39, _, rfl, by decide, by decide⟩
  | cons c name =>
    have := (hi c (by simp)).1
    refine ⟨c, name ++ [58, 32] ++ u, by simp [entryFlat], ?_, ?_⟩
    · rintro rfl; exact absurd this (by decide)
    · rintro rfl; exact absurd this (by decide)

abbrev flatEntries (es : List (Str × Str)) : List Str := es.map fun e => entryFlat e.1 (squash false e.2)

theorem branch_reads : ∀ {b b' : List (Str × Kids)} {es es' : List (Str × Str)} {l l' : Bool} {x y : Str}, (∀ e ∈ b, ReadsKids quote e.2) →
    (∀ name ∈ b.map (·.1), Identifier name) → (∀ name ∈ b'.map (·.1), Identifier name) → (∀ e ∈ b, PrintableKids e.2) → (∀ e ∈ b', PrintableKids e.2) →
    entryStrings quote b = some es → entryStrings quote b' = some es' → branchTail l (flatEntries es) ++ x = branchTail l' (flatEntries es') ++ y → AlikeEntries b b' ∧ x = y
  | [], [], es, es', l, l', x, y, _, _, _, _, _, h, h', e => by
    simp only [entryStrings, Option.some.injEq] at h h'
    subst h; subst h'
    cases l <;> cases l' <;> simp [branchTail] at e
    · exact ⟨.nil, e⟩
    · exact ⟨.nil, e⟩
  | [], (name', c') :: b', es, es', l, l', x, y, _, _, hi', _, _, h, h', e => by
    simp only [entryStrings, Option.some.injEq] at h
    subst h
    obtain ⟨s, es2, h1, _, rfl⟩ := entryStrings_cons h'
    obtain ⟨d, t, ht, hd, _⟩ := entry_head (u := squash false s) (hi' name' (by simp))
    simp only [flatEntries, List.map_cons, ht] at e
    cases l <;> cases l' <;> simp [branchTail] at e
    · exact absurd e.1.symm hd
    · exact absurd e.1.symm hd
  | (name, c) :: b, [], es, es', l, l', x, y, _, hi, _, _, _, h, h', e => by
    simp only [entryStrings, Option.some.injEq] at h'
    subst h'
    obtain ⟨s, es2, h1, _, rfl⟩ := entryStrings_cons h
    obtain ⟨d, t, ht, hd, _⟩ := entry_head (u := squash false s) (hi name (by simp))
    simp only [flatEntries, List.map_cons, ht] at e
    cases l <;> cases l' <;> simp [branchTail] at e
    · exact absurd e.1 hd
    · exact absurd e.1 hd
  | (name, c) :: b, (name', c') :: b', es, es', l, l', x, y, hr, hi, hi', hp, hp', h, h', e => by
    obtain ⟨s, es2, h1, h2, rfl⟩ := entryStrings_cons h
    obtain ⟨s', es2', h1', h2', rfl⟩ := entryStrings_cons h'
    have e2 : entryFlat name (squash false s ++ (branchTail l (flatEntries es2) ++ x)) = entryFlat name' (squash false s' ++ (branchTail l' (flatEntries es2') ++ y)) := by
      simp only [flatEntries, List.map_cons, branchTail, List.flatMap_cons, List.cons_append, List.cons.injEq, true_and, List.append_assoc] at e
      simpa [← entryFlat_append, flatEntries, branchTail] using e
    obtain ⟨rfl, e3⟩ := name_reads (hi name (by simp)) (hi' name' (by simp)) e2
    obtain ⟨ha, hrest⟩ := hr (name, c) (by simp) c' s s' _ _ (hp (name, c) (by simp)) (hp' (name, c') (by simp)) h1 h1' branchTail_ends branchTail_ends e3
    obtain ⟨hb, hxy⟩ := branch_reads (fun e he => hr e (by simp [he])) (fun n hn => hi n (by simp only [List.map_cons, List.mem_cons]; exact .inr hn))
      (fun n hn => hi' n (by simp only [List.map_cons, List.mem_cons]; exact .inr hn)) (fun e he => hp e (by simp [he])) (fun e he => hp' e (by simp [he])) h2 h2' hrest
    exact ⟨.cons ha hb, hxy⟩

theorem branchFlat_eq {es : List (Str × Str)} : branchFlat es ++ x =
    match es with
    | [] => 40 :: (branchTail false [] ++ x)
    | e :: es => 40 :: (entryFlat e.1 (squash false e.2) ++ (branchTail (decide (0 < es.length)) (flatEntries es) ++ x)) := by
  cases es with
  | nil => simp [branchFlat, separated, branchTail]
  | cons e es =>
    by_cases h : 0 < es.length
    · simp [branchFlat, separated, branchTail, h]
    · have : es = [] := by cases es <;> simp_all
      subst this
      simp [branchFlat, separated, branchTail]

theorem printableEntries_mem {b : List (Str × Kids)} (h : PrintableEntries b) : ∀ e ∈ b, PrintableKids e.2 := by
  induction b with
  | nil => simp
  | cons e b ih =>
    cases h with
    | cons h1 h2 =>
      intro e he
      rcases List.mem_cons.1 he with rfl | he
      · exact h1
      · exact ih h2 e he

theorem reads_sorted {b b' : List (Str × Kids)} {es es' : List (Str × Str)} {x y : Str} (hr : ∀ e ∈ b, ReadsKids quote e.2)
    (hi : ∀ name ∈ b.map (·.1), Identifier name) (hi' : ∀ name ∈ b'.map (·.1), Identifier name) (hp : ∀ e ∈ b, PrintableKids e.2) (hp' : ∀ e ∈ b', PrintableKids e.2)
    (h : entryStrings quote b = some es) (h' : entryStrings quote b' = some es') (e : branchFlat es ++ x = branchFlat es' ++ y) : AlikeEntries b b' ∧ x = y := by
  rw [branchFlat_eq, branchFlat_eq] at e
  cases b with
  | nil =>
    simp only [entryStrings, Option.some.injEq] at h
    subst h
    cases b' with
    | nil =>
      simp only [entryStrings, Option.some.injEq] at h'
      subst h'
      simp [branchTail] at e
      exact ⟨.nil, e⟩
    | cons e0 b' =>
      obtain ⟨s, es2, _, _, rfl⟩ := entryStrings_cons h'
      obtain ⟨d, t, ht, hd, _⟩ := entry_head (u := squash false s) (hi' e0.1 (by simp))
      simp only [ht] at e
      simp [branchTail] at e
      exact absurd e.1.symm hd
  | cons e0 b =>
    obtain ⟨s, es2, h1, h2, rfl⟩ := entryStrings_cons h
    cases b' with
    | nil =>
      simp only [entryStrings, Option.some.injEq] at h'
      subst h'
      obtain ⟨d, t, ht, hd, _⟩ := entry_head (u := squash false s) (hi e0.1 (by simp))
      simp only [ht] at e
      simp [branchTail] at e
      exact absurd e.1 hd
    | cons e0' b' =>
      obtain ⟨s', es2', h1', h2', rfl⟩ := entryStrings_cons h'
      obtain ⟨name, c⟩ := e0
      obtain ⟨name', c'⟩ := e0'
      simp only [List.cons.injEq, true_and, entryFlat_append] at e
      obtain ⟨rfl, e3⟩ := name_reads (hi name (by simp)) (hi' name' (by simp)) e
      obtain ⟨ha, hrest⟩ := hr (name, c) (by simp) c' s s' _ _ (hp (name, c) (by simp)) (hp' (name, c') (by simp)) h1 h1' branchTail_ends branchTail_ends e3
      obtain ⟨hb, hxy⟩ := branch_reads (fun e he => hr e (by simp [he])) (fun n hn => hi n (by simp only [List.map_cons, List.mem_cons]; exact .inr hn))
        (fun n hn => hi' n (by simp only [List.map_cons, List.mem_cons]; exact .inr hn)) (fun e he => hp e (by simp [he])) (fun e he => hp' e (by simp [he])) h2 h2' hrest
      exact ⟨.cons ha hb, hxy⟩

theorem sorted_flat (hq : Quoting quote) {b : List (Str × Kids)} {es} (hi : ∀ name ∈ b.map (·.1), Identifier name) (hp : PrintableEntries b)
    (h : entryStrings quote b = some es) : squash false (branchString es) = branchFlat (sortEntries es) := by
  have h4 := entries_neat hq hp h
  have hk := entryStrings_keys h
  refine (squash_branch (fun e hm => ?_) fun e hm => ?_).1
  · obtain ⟨name, hn, rfl⟩ := List.mem_map.1 hm
    have := (sortStrings_perm _).mem_iff.1 hn
    rw [hk] at this
    exact hi _ this
  · obtain ⟨name, hn, rfl⟩ := List.mem_map.1 hm
    have := (sortStrings_perm _).mem_iff.1 hn
    cases hl : lookup name es with
    | none => exact absurd this (lookup_none_iff.1 hl)
    | some u => exact h4 _ (lookup_mem hl)

theorem leaf_not_extra {d x y : Str} {s : Scanner} {t : Str} (hb : ¬ bullet <:+: d) (hy : Ends y) :
    intDecimal s.start ++ (bullet ++ leafBody quote t) ++ x ≠ d ++ y := by
  intro e
  have h1 : ∀ c ∈ intDecimal s.start ++ bullet, plainByte c = true := by
    have key : ∀ n < 256, numberByte (UInt8.ofNat n) = true → plainByte (UInt8.ofNat n) = true := by decide +kernel
    have key2 : ∀ c ∈ bullet, plainByte c = true := by decide
    intro c hc
    rcases List.mem_append.1 hc with hc | hc
    · have := key c.toNat c.toNat_lt
      rw [UInt8.ofNat_toNat] at this
      exact this ((intDecimal_bytes s.start).1 c hc)
    · exact key2 c hc
  have h2 : (intDecimal s.start ++ bullet) ++ (leafBody quote t ++ x) = d ++ y := by rw [← e]; simp
  have h3 : ∀ {p r d y : Str}, (∀ c ∈ p, plainByte c = true) → (∀ c t, y = c :: t → plainByte c = false) → p ++ r = d ++ y → p <+: d := by
    intro p
    induction p with
    | nil => intro r d y _ _ _; exact List.nil_prefix
    | cons c p ih =>
      intro r d y hp hy h
      cases d with
      | nil =>
        have := hy c (p ++ r) h.symm
        rw [hp c (by simp)] at this
        cases this
      | cons c' d =>
        simp only [List.cons_append, List.cons.injEq] at h
        obtain ⟨rfl, h⟩ := h
        exact List.cons_prefix_cons.2 ⟨rfl, ih (fun c hc => hp c (by simp [hc])) hy h⟩
  exact hb ((List.suffix_append _ _).isInfix.trans (h3 h1 hy.stops h2).isInfix)

mutual
theorem ast_reads (hq : Quoting quote) : ∀ a : Ast, Reads1 quote a
  | .leaf sc => by
    intro a' s t x y hp hp' h h' hx hy e
    obtain ⟨h1, _, u, h2, h3⟩ := leaf_line hq h
    cases a' with
    | leaf sc' =>
      obtain ⟨h1', _, u', h2', h3'⟩ := leaf_line hq h'
      rw [(squash_line h1).1, (squash_line h1').1, h3, h3', List.append_assoc, List.append_assoc, List.append_assoc, List.append_assoc] at e
      obtain ⟨e1, e2⟩ := split_number (intDecimal_bytes _).1 (intDecimal_bytes _).1 e
      obtain ⟨rfl, rfl⟩ := split_body hq hx hy e2
      exact ⟨.leaf (intDecimal_inj e1) (by rw [h2, h2']), rfl⟩
    | extra d =>
      cases hp' with
      | extra g1 g2 g3 =>
        simp only [Ast.string, Option.some.injEq] at h'
        subst h'
        rw [(squash_line h1).1, (squash_line g1.line).1, h3] at e
        exact absurd e (leaf_not_extra g3 hy)
    | branch b =>
      obtain ⟨c, r, e1, _, _, _, e2⟩ := ast_head hq hp h
      obtain ⟨c', r', e1', _, _, _, e2'⟩ := ast_head hq hp' h'
      rw [e1, e1', e2'.1 ⟨b, rfl⟩] at e
      simp only [List.cons_append, List.cons.injEq] at e
      obtain ⟨_, hb⟩ := e2.2 e.1
      cases hb
  | .extra d => by
    intro a' s t x y hp hp' h h' hx hy e
    cases hp with
    | extra g1 g2 g3 =>
      have h0 := h
      simp only [Ast.string, Option.some.injEq] at h
      subst h
      cases a' with
      | leaf sc =>
        obtain ⟨h1, _, u, h2, h3⟩ := leaf_line hq h'
        rw [(squash_line h1).1, (squash_line g1.line).1, h3] at e
        exact absurd e.symm (leaf_not_extra g3 hx)
      | extra d' =>
        cases hp' with
        | extra g1' g2' g3' =>
          simp only [Ast.string, Option.some.injEq] at h'
          subst h'
          rw [(squash_line g1.line).1, (squash_line g1'.line).1] at e
          obtain ⟨e1, rfl⟩ := split_plain g1.plain g1'.plain hx.stops hy.stops e
          exact ⟨.extra e1, rfl⟩
      | branch b =>
        obtain ⟨c, r, e1, _, _, _, e2⟩ := ast_head hq (.extra g1 g2 g3) h0
        obtain ⟨c', r', e1', _, _, _, e2'⟩ := ast_head hq hp' h'
        rw [e1, e1', e2'.1 ⟨b, rfl⟩] at e
        simp only [List.cons_append, List.cons.injEq] at e
        obtain ⟨_, hb⟩ := e2.2 e.1
        cases hb
  | .branch b => by
    intro a' s t x y hp hp' h h' hx hy e
    by_cases hb : ∃ b', a' = .branch b'
    · obtain ⟨b', rfl⟩ := hb
      have hr := entries_reads hq b
      cases hp with
      | branch n1 i1 p1 =>
        cases hp' with
        | branch n2 i2 p2 =>
          simp only [Ast.string, Option.map_eq_some_iff] at h h'
          obtain ⟨es, he, rfl⟩ := h
          obtain ⟨es', he', rfl⟩ := h'
          rw [sorted_flat hq i1 p1 he, sorted_flat hq i2 p2 he'] at e
          have hm := sortBranch_perm n1
          have hm' := sortBranch_perm n2
          obtain ⟨g1, g2⟩ := reads_sorted (fun e he => hr e (hm.mem_iff.2 he))
            (fun name hn => i1 name ((hm.map _).mem_iff.2 hn)) (fun name hn => i2 name ((hm'.map _).mem_iff.2 hn))
            (fun e he => printableEntries_mem p1 e (hm.mem_iff.2 he)) (fun e he => printableEntries_mem p2 e (hm'.mem_iff.2 he))
            (entryStrings_sort he) (entryStrings_sort he') e
          exact ⟨.branch hm g1 hm'.symm, g2⟩
    · obtain ⟨c, r, e1, _, _, _, e2⟩ := ast_head hq hp h
      obtain ⟨c', r', e1', _, _, _, e2'⟩ := ast_head hq hp' h'
      rw [e1, e1', e2.1 ⟨b, rfl⟩] at e
      simp only [List.cons_append, List.cons.injEq] at e
      exact absurd (e2'.2 e.1.symm) hb
termination_by structural a => a
theorem kids_reads (hq : Quoting quote) : ∀ c : Kids, ReadsKids quote c
  | .one n => by
    have hr := ast_reads hq n
    intro c' s t x y hp hp' h h' hx hy e
    cases hp with
    | one hp =>
      cases c' with
      | one n' =>
        cases hp' with
        | one hp' =>
          obtain ⟨g1, g2⟩ := hr n' s t x y hp hp' h h' hx hy e
          exact ⟨.one g1, g2⟩
      | many ns' =>
        simp only [Kids.string, Option.map_eq_some_iff] at h'
        obtain ⟨ss', _, rfl⟩ := h'
        obtain ⟨c, r, e1, _, e2, _⟩ := ast_head hq hp h
        obtain ⟨r', e1'⟩ := many_head (complex := 1 < ns'.length && ns'.any (!·.narrow)) (ss := ss')
        rw [e1, e1'] at e
        simp only [List.cons_append, List.cons.injEq] at e
        exact absurd e.1 e2
  | .many ns => by
    have hr := all_reads hq ns
    intro c' s t x y hp hp' h h' hx hy e
    simp only [Kids.string, Option.map_eq_some_iff] at h
    obtain ⟨ss, he, rfl⟩ := h
    cases c' with
    | one n' =>
      cases hp' with
      | one hp' =>
        obtain ⟨c, r, e1, _, e2, _⟩ := ast_head hq hp' h'
        obtain ⟨r', e1'⟩ := many_head (complex := 1 < ns.length && ns.any (!·.narrow)) (ss := ss)
        rw [e1, e1'] at e
        simp only [List.cons_append, List.cons.injEq] at e
        exact absurd e.1.symm e2
    | many ns' =>
      cases hp with
      | many hp =>
        cases hp' with
        | many hp' =>
          simp only [Kids.string, Option.map_eq_some_iff] at h'
          obtain ⟨ss', he', rfl⟩ := h'
          have nonempty : ∀ {ns : List Ast} {ss}, astStrings quote ns = some ss → (1 < ns.length && ns.any (!·.narrow)) = true → ss ≠ [] := by
            rintro ns ss he hc rfl
            cases ns with
            | nil => simp at hc
            | cons n ns => obtain ⟨_, _, _, _, h⟩ := astStrings_cons he; cases h
          rw [(squash_many (all_neat hq hp he) (nonempty he)).1, (squash_many (all_neat hq hp' he') (nonempty he')).1] at e
          have hk : ∀ {ns : List Ast}, ns = [] → (1 < ns.length && ns.any (!·.narrow)) = false := by rintro _ rfl; rfl
          have hk1 := hk (ns := ns)
          have hk2 := hk (ns := ns')
          generalize (1 < ns.length && ns.any (!·.narrow)) = k at e hk1
          generalize (1 < ns'.length && ns'.any (!·.narrow)) = k' at e hk2
          cases ns with
          | nil =>
            simp only [astStrings, Option.some.injEq] at he
            subst he
            cases ns' with
            | nil =>
              simp only [astStrings, Option.some.injEq] at he'
              subst he'
              cases k <;> cases k' <;> simp [manyFlat, separated] at e
              · exact ⟨.many .nil, e⟩
              · exact ⟨.many .nil, e⟩
            | cons n' ns' =>
              obtain ⟨s', us', h1, _, rfl⟩ := astStrings_cons he'
              cases hp' with
              | cons hp1 _ =>
                obtain ⟨d, t, ht, _, _, hd, _⟩ := ast_head hq hp1 h1
                rw [List.map_cons, manyFlat_cons, ht] at e
                rw [hk1 rfl] at e
                simp [manyFlat, separated] at e
                exact absurd e.1.symm hd
          | cons n ns =>
            obtain ⟨s1, us, h1, h2, rfl⟩ := astStrings_cons he
            cases ns' with
            | nil =>
              simp only [astStrings, Option.some.injEq] at he'
              subst he'
              cases hp with
              | cons hp1 _ =>
                obtain ⟨d, t, ht, _, _, hd, _⟩ := ast_head hq hp1 h1
                rw [List.map_cons, manyFlat_cons, ht, hk2 rfl] at e
                simp [manyFlat, separated] at e
                exact absurd e.1 hd
            | cons n' ns' =>
              obtain ⟨s1', us', h1', h2', rfl⟩ := astStrings_cons he'
              cases hp with
              | cons hp1 hp2 =>
                cases hp' with
                | cons hp1' hp2' =>
                  simp only [List.map_cons, manyFlat_cons, List.cons_append, List.append_assoc, List.cons.injEq, true_and] at e
                  obtain ⟨g1, g2⟩ := hr n (by simp) n' s1 s1' _ _ hp1 hp1' h1 h1' manyTail_ends manyTail_ends e
                  obtain ⟨g3, g4⟩ := tail_reads hq (fun m hm => hr m (by simp [hm])) hp2 hp2' h2 h2' g2
                  exact ⟨.many (.cons g1 g3), g4⟩
termination_by structural c => c
theorem all_reads (hq : Quoting quote) : ∀ ns : List Ast, ∀ n ∈ ns, Reads1 quote n
  | [], n, hn => by simp at hn
  | m :: ns, n, hn => by
    rcases List.mem_cons.1 hn with h | hn
    · rw [h]; exact ast_reads hq m
    · exact all_reads hq ns n hn
termination_by structural ns => ns
theorem entries_reads (hq : Quoting quote) : ∀ b : List (Str × Kids), ∀ e ∈ b, ReadsKids quote e.2
  | [], e, he => by simp at he
  | (name, c) :: b, e, he => by
    rcases List.mem_cons.1 he with h | he
    · rw [h]; exact kids_reads hq c
    · exact entries_reads hq b e he
termination_by structural b => b
end

/-! ## The same texts for the same ASTs -/

theorem printableEntries_of_mem : ∀ {b : List (Str × Kids)}, (∀ e ∈ b, PrintableKids e.2) → PrintableEntries b
  | [], _ => .nil
  | (name, c) :: b, h => .cons (h (name, c) (by simp)) (printableEntries_of_mem fun e he => h e (by simp [he]))

theorem entryStrings_perm {b b' : List (Str × Kids)} (h : b.Perm b') : ∀ {es}, entryStrings quote b = some es → ∃ es', entryStrings quote b' = some es' ∧ es.Perm es' := by
  induction h with
  | nil => intro es h; exact ⟨es, h, .refl _⟩
  | cons e _ ih =>
    intro es h
    obtain ⟨s, es1, h1, h2, rfl⟩ := entryStrings_cons h
    obtain ⟨es2, h3, h4⟩ := ih h2
    exact ⟨(e.1, s) :: es2, by simp [entryStrings, h1, h3], h4.cons _⟩
  | swap e e' b =>
    intro es h
    obtain ⟨s, es1, h1, h2, rfl⟩ := entryStrings_cons h
    obtain ⟨s', es2, h3, h4, rfl⟩ := entryStrings_cons h2
    exact ⟨(e.1, s') :: (e'.1, s) :: es2, by simp [entryStrings, h1, h3, h4], .swap _ _ _⟩
  | trans _ _ ih1 ih2 =>
    intro es h
    obtain ⟨es1, h1, h2⟩ := ih1 h
    obtain ⟨es2, h3, h4⟩ := ih2 h1
    exact ⟨es2, h3, h2.trans h4⟩

theorem branchString_perm {es es' : List (Str × Str)} (h : es.Perm es') (hn : (es.map (·.1)).Nodup) : branchString es = branchString es' := by
  have h1 : sortStrings (es.map (·.1)) = sortStrings (es'.map (·.1)) := sortStrings_perm_eq (h.map _)
  unfold branchString
  simp only [h1, h.length_eq, fun name => lookup_perm (k := name) h hn]

theorem branchString_order {b b' : List (Str × Kids)} (h : b.Perm b') (hn : (b.map (·.1)).Nodup) :
    (entryStrings quote b).map branchString = (entryStrings quote b').map branchString := by
  cases h1 : entryStrings quote b with
  | some es =>
    obtain ⟨es', h2, h3⟩ := entryStrings_perm h h1
    rw [h2, Option.map_some, Option.map_some, branchString_perm h3 (by rw [entryStrings_keys h1]; exact hn)]
  | none =>
    cases h2 : entryStrings quote b' with
    | none => rfl
    | some es' =>
      obtain ⟨es, h3, _⟩ := entryStrings_perm h.symm h2
      rw [h1] at h3; cases h3

theorem alikeEntries_names : ∀ {b b' : List (Str × Kids)}, AlikeEntries b b' → b.map (·.1) = b'.map (·.1)
  | _, _, .nil => rfl
  | _, _, .cons _ h => by simp [alikeEntries_names h]

theorem branchNarrow_perm {b b' : List (Str × Kids)} (h : b.Perm b') : branchNarrow b = branchNarrow b' := by
  match b, b', h with
  | [], b', h => rw [List.nil_perm.1 h]
  | [e], b', h => rw [List.singleton_perm.1 h]
  | e :: e2 :: b, [], h => exact absurd h.length_eq (by simp)
  | e :: e2 :: b, [e'], h => exact absurd h.length_eq (by simp)
  | e :: e2 :: b, e' :: e2' :: b', h => simp [branchNarrow]

mutual
theorem alike_narrow : ∀ {a a' : Ast}, Alike a a' → a.narrow = a'.narrow
  | _, _, .leaf _ _ => rfl
  | _, _, .extra _ => rfl
  | _, _, .branch h1 h2 h3 => by simp only [Ast.narrow]; rw [branchNarrow_perm h1, entries_narrow h2, branchNarrow_perm h3]
theorem alikeKids_narrow : ∀ {c c' : Kids}, AlikeKids c c' → c.narrow = c'.narrow
  | _, _, .one h => alike_narrow h
  | _, _, .many h => (all_narrow h).2
theorem all_narrow : ∀ {ns ns' : List Ast}, AlikeAll ns ns' → (ns.length = ns'.length ∧ ns.any (!·.narrow) = ns'.any (!·.narrow)) ∧ manyNarrow ns = manyNarrow ns'
  | _, _, .nil => ⟨⟨rfl, rfl⟩, rfl⟩
  | _, _, .cons (n := n) (n' := n') (ns := ns) (ns' := ns') h1 h2 => by
    have e1 := alike_narrow h1
    have e2 := all_narrow h2
    refine ⟨⟨by simp [e2.1.1], by simp [e1, e2.1.2]⟩, ?_⟩
    have e3 := e2.1.1
    clear e2 h1 h2
    match ns, ns', e3 with
    | [], [], _ => exact e1
    | _ :: _, _ :: _, _ => rfl
theorem entries_narrow : ∀ {b b' : List (Str × Kids)}, AlikeEntries b b' → branchNarrow b = branchNarrow b'
  | _, _, .nil => rfl
  | _, _, .cons (b := b) (b' := b') h1 h2 => by
    have e1 := alikeKids_narrow h1
    have e2 := congrArg List.length (alikeEntries_names h2)
    clear h1 h2
    match b, b', e2 with
    | [], [], _ => exact e1
    | _ :: _, _ :: _, _ => rfl
end

mutual
theorem alike_string : ∀ {a a' : Ast}, Alike a a' → Printable a → a.string quote = a'.string quote
  | _, _, .leaf h1 h2, _ => by simp only [Ast.string, leafString, h1, h2]
  | _, _, .extra h, _ => by simp only [Ast.string, h]
  | _, _, .branch h1 h2 h3, hp => by
    cases hp with
    | branch hn hi hp =>
      have hn2 := (h1.map (·.1)).nodup_iff.1 hn
      simp only [Ast.string]
      rw [branchString_order h1 hn, entries_string h2 (printableEntries_of_mem fun e he => printableEntries_mem hp e (h1.mem_iff.2 he)),
        branchString_order h3 (by rw [← alikeEntries_names h2]; exact hn2)]
theorem alikeKids_string : ∀ {c c' : Kids}, AlikeKids c c' → PrintableKids c → c.string quote = c'.string quote
  | _, _, .one h, .one hp => alike_string h hp
  | _, _, .many h, .many hp => by simp only [Kids.string]; rw [all_string h hp, (all_narrow h).1.1, (all_narrow h).1.2]
theorem all_string : ∀ {ns ns' : List Ast}, AlikeAll ns ns' → PrintableAll ns → astStrings quote ns = astStrings quote ns'
  | _, _, .nil, _ => rfl
  | _, _, .cons h1 h2, .cons p1 p2 => by simp only [astStrings]; rw [alike_string h1 p1, all_string h2 p2]
theorem entries_string : ∀ {b b' : List (Str × Kids)}, AlikeEntries b b' → PrintableEntries b → entryStrings quote b = entryStrings quote b'
  | _, _, .nil, _ => rfl
  | _, _, .cons h1 h2, .cons p1 p2 => by simp only [entryStrings]; rw [alikeKids_string h1 p1, entries_string h2 p2]
end

end Wbnf

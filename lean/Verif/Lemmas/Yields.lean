import Verif.Lemmas.Top
import Verif.Lemmas.Delim

/-! The parser's outcomes as outcomes of the semantics, and inversion of the semantics. -/

namespace Wbnf

section
variable {E : Engine} {X : Externals} {g : Grammar} {m : Nat} {ps : Parsers} {r : Str} {inp : Scanner}

theorem out_none_ok {r : Res Tree} {v i} : r.out none = some (.ok v i) ↔ ∃ k, r = .ok v i k := by
  cases r with
  | ok => simp [Res.out]
  | err e i k =>
    simp only [Res.out]
    split <;> simp
  | _ => simp [Res.out]

theorem isNotMyFatal_none (e : Err) : e.isNotMyFatal none = e.isFatal := by
  cases e <;> simp [Err.isNotMyFatal, Err.isFatal]

theorem out_none_fail {r : Res Tree} :
    r.out none = some .fail ↔ ∃ e i k, r = .err e i k ∧ e.isFatal = false := by
  cases r with
  | err e i k =>
    simp only [Res.out, isNotMyFatal_none]
    cases he : e.isFatal <;> simp [he]
  | _ => simp [Res.out]

theorem out_none_abort {r : Res Tree} :
    r.out none = some .abort ↔ ∃ e i k, r = .err e i k ∧ e.isFatal = true := by
  cases r with
  | err e i k =>
    simp only [Res.out, isNotMyFatal_none]
    cases he : e.isFatal <;> simp [he]
  | _ => simp [Res.out]

theorem out_none_oks {r : Res Tree} {vs i} : r.out none ≠ some (.oks vs i) := by
  cases r with
  | err e i k =>
    simp only [Res.out]
    split <;> simp
  | _ => simp [Res.out]

/-- The parser's outcome is the meaning of the grammar (C11). -/
theorem yields_iff (hg : g.wf = true) (hc : g.compile E m = .ok ps) (hX : X.Plain) {o : Out} :
    ps.Yields E X r inp o ↔ Denotes E X ps.grammar r inp o := by
  have main : (∃ N K, ∀ ρ, DistinctDraws X ρ K → ∀ n, N ≤ n → ps.draws E X ρ n r inp = K ∧
      (ps.run E X ρ n r inp).out none = some o) ↔ Denotes E X ps.grammar r inp o := by
    constructor
    · rintro ⟨N, K, h⟩
      obtain ⟨B, hB⟩ := hX.bounded
      have hd : DistinctDraws X (fun j => B + j) K := (good_canonical hB).distinct
      obtain ⟨h1, h2⟩ := h _ hd N (Nat.le_refl _)
      exact run_sound hg hc hX (by rw [h1]; exact hd) h2
    · intro h
      obtain ⟨N, K, h⟩ := run_complete hg hc hX h
      exact ⟨N, K, fun ρ hd n hn => (h ρ hd n hn).symm⟩
  rw [← main]
  cases o with
  | ok v i => simp only [Parsers.Yields, Parsers.Always, out_none_ok]
  | fail => simp only [Parsers.Yields, Parsers.Always, out_none_fail]
  | abort => simp only [Parsers.Yields, Parsers.Always, out_none_abort]
  | oks vs i =>
    simp only [Parsers.Yields, false_iff]
    rintro ⟨N, K, h⟩
    obtain ⟨B, hB⟩ := hX.bounded
    exact out_none_oks (h _ (good_canonical hB).distinct N (Nat.le_refl _)).2

end

/-! ### Inversion -/

theorem defines_lookup {G : Grammar} {r t} (h : lookup r G = some t) (ht : ∀ r', t ≠ .rule r') :
    ∀ {Γ' t'}, Resolves [G] r Γ' t' → Γ' = [G] ∧ t' = t := by
  intro Γ' t' hr
  cases hr with
  | here hd =>
    cases hd with
    | here h' _ => rw [h] at h'; simp at h'; exact ⟨rfl, h'.symm⟩
    | «alias» h' _ => rw [h] at h'; simp at h'; exact absurd h' (ht _)
  | outer hn hr => cases hr

section
variable {E : Engine} {X : Externals}

theorem denotes_rule {G : Grammar} {r t inp o} (h : lookup r G = some t) (ht : ∀ r', t ≠ .rule r') :
    Denotes E X G r inp o ↔ Peg E X (.term [G] r t [] inp) o := by
  constructor
  · intro hp
    unfold Denotes at hp
    cases hp with
    | rule hr hp => obtain ⟨rfl, rfl⟩ := defines_lookup h ht hr; exact hp
  · exact fun hp => .rule (.here (.here h ht)) hp

theorem alts_ok {Γ tag ts i vals inp w j} : Peg E X (.alts Γ tag ts i vals inp) (.ok w j) ↔
    ∃ d t v, ts[d]? = some t ∧ w = .node tag (.choice (i + d)) [v] ∧
      Peg E X (.term Γ [] t vals inp) (.ok v j) ∧
      ∀ d' < d, ∀ t', ts[d']? = some t' → Peg E X (.term Γ [] t' vals inp) .fail := by
  induction ts generalizing i with
  | nil =>
    constructor
    · intro h; cases h
    · rintro ⟨d, t, v, h, _⟩; simp at h
  | cons t ts ih =>
    constructor
    · intro h
      cases h with
      | altsOk h => exact ⟨0, t, _, by simp, rfl, h, by simp⟩
      | altsNext h1 h2 =>
        obtain ⟨d, t', v, h3, h4, h5, h6⟩ := ih.1 h2
        refine ⟨d + 1, t', v, by simpa using h3, by rw [h4]; congr 2; omega, h5, ?_⟩
        intro d' hd' u hu
        cases d' with
        | zero => simp at hu; subst hu; exact h1
        | succ d' => exact h6 d' (by omega) u (by simpa using hu)
    · rintro ⟨d, t', v, h3, rfl, h5, h6⟩
      cases d with
      | zero => simp at h3; subst h3; exact .altsOk h5
      | succ d =>
        refine .altsNext (h6 0 (by omega) t (by simp)) (ih.2 ⟨d, t', v, by simpa using h3, ?_, h5, ?_⟩)
        · congr 2; omega
        · intro d' hd' u hu; exact h6 (d' + 1) (by omega) u (by simpa using hu)

theorem alts_fail {Γ tag ts i vals inp} : Peg E X (.alts Γ tag ts i vals inp) .fail ↔
    ∀ t ∈ ts, Peg E X (.term Γ [] t vals inp) .fail := by
  induction ts generalizing i with
  | nil => exact ⟨fun _ => by simp, fun _ => .altsNil⟩
  | cons t ts ih =>
    constructor
    · intro h
      cases h with
      | altsNext h1 h2 =>
        intro u hu; simp at hu
        rcases hu with rfl | hu
        · exact h1
        · exact ih.1 h2 u hu
    · intro h
      exact .altsNext (h t (by simp)) (ih.2 fun u hu => h u (by simp [hu]))

theorem alts_abort {Γ tag ts i vals inp} : Peg E X (.alts Γ tag ts i vals inp) .abort ↔
    ∃ (d : Nat) (t : Term), ts[d]? = some t ∧ Peg E X (.term Γ [] t vals inp) .abort ∧
      ∀ d' < d, ∀ t', ts[d']? = some t' → Peg E X (.term Γ [] t' vals inp) .fail := by
  induction ts generalizing i with
  | nil =>
    constructor
    · intro h; cases h
    · rintro ⟨d, t, h, _⟩; simp at h
  | cons t ts ih =>
    constructor
    · intro h
      cases h with
      | altsAbort h => exact ⟨0, t, by simp, h, by simp⟩
      | altsNext h1 h2 =>
        obtain ⟨d, t', h3, h5, h6⟩ := ih.1 h2
        refine ⟨d + 1, t', by simpa using h3, h5, ?_⟩
        intro d' hd' u hu
        cases d' with
        | zero => simp at hu; subst hu; exact h1
        | succ d' => exact h6 d' (by omega) u (by simpa using hu)
    · rintro ⟨d, t', h3, h5, h6⟩
      cases d with
      | zero => simp at h3; subst h3; exact .altsAbort h5
      | succ d =>
        refine .altsNext (h6 0 (by omega) t (by simp)) (ih.2 ⟨d, t', by simpa using h3, h5, ?_⟩)
        intro d' hd' u hu; exact h6 (d' + 1) (by omega) u (by simpa using hu)

theorem oneof_iff {Γ rule ts vals inp o} : Peg E X (.term Γ rule (.oneof ts) vals inp) o ↔
    Peg E X (.alts Γ (ruleOrAlt rule oneofTag) ts 0 vals inp) o :=
  ⟨fun h => by cases h; assumption, .oneof⟩

/-- How repetitions come out. `left` bounds their number. -/
theorem reps_ok {Γ t vals left inp vs j} : Peg E X (.reps Γ t vals left inp) (.oks vs j) ↔
    Chain (fun i v j => Peg E X (.term Γ [] t vals i) (.ok v j)) inp vs j ∧
      (left = some vs.length ∨ ((∀ n, left = some n → vs.length < n) ∧ Peg E X (.term Γ [] t vals j) .fail)) := by
  constructor
  · intro h
    generalize hG : Goal.reps Γ t vals left inp = G at h
    generalize hO : Out.oks vs j = O at h
    induction h generalizing left inp vs with
    | repsMax => cases hG; cases hO; exact ⟨.nil, Or.inl rfl⟩
    | repsStop hl h =>
      cases hG; cases hO
      exact ⟨.nil, Or.inr ⟨fun n hn => by subst hn; simp at hl ⊢; omega, h⟩⟩
    | @repsMore _ _ _ left' _ _ _ _ _ hl h1 h2 _ ih =>
      cases hG; cases hO
      obtain ⟨h3, h4⟩ := ih rfl rfl
      refine ⟨.cons h1 h3, ?_⟩
      cases left' with
      | none =>
        rcases h4 with h4 | h4
        · simp at h4
        · exact Or.inr ⟨by simp, h4.2⟩
      | some n =>
        simp at hl h4 ⊢
        rcases h4 with h4 | h4
        · exact Or.inl (by omega)
        · exact Or.inr ⟨by omega, h4.2⟩
    | _ => cases hG <;> cases hO
  · rintro ⟨h, hl⟩
    induction h generalizing left with
    | nil =>
      rcases hl with rfl | ⟨h1, h2⟩
      · exact .repsMax
      · exact .repsStop (fun h => by have := h1 0 h; simp at this) h2
    | cons h1 h2 ih =>
      refine .repsMore (fun h => ?_) h1 (ih ?_)
      · subst h
        rcases hl with hl | hl
        · simp at hl
        · have := hl.1 0 rfl; simp at this
      · rcases hl with rfl | ⟨h3, h4⟩
        · exact Or.inl (by simp)
        · refine Or.inr ⟨fun n hn => ?_, h4⟩
          cases left with
          | none => simp at hn
          | some n' =>
            have := h3 n' rfl
            simp at hn this; omega

theorem reps_abort {Γ t vals left inp} : Peg E X (.reps Γ t vals left inp) .abort ↔
    ∃ vs j, Chain (fun i v j => Peg E X (.term Γ [] t vals i) (.ok v j)) inp vs j ∧
      (∀ n, left = some n → vs.length < n) ∧ Peg E X (.term Γ [] t vals j) .abort := by
  constructor
  · intro h
    generalize hG : Goal.reps Γ t vals left inp = G at h
    generalize hO : Out.abort = O at h
    induction h generalizing left inp with
    | repsLater hl h1 h2 _ ih =>
      cases hG
      obtain ⟨vs, j, h3, h4, h5⟩ := ih rfl rfl
      refine ⟨_ :: vs, j, .cons h1 h3, fun n hn => ?_, h5⟩
      subst hn
      have := h4 (n - 1) (by simp)
      simp at hl ⊢; omega
    | repsAbort hl h =>
      cases hG
      exact ⟨[], _, .nil, fun n hn => by subst hn; simp at hl ⊢; omega, h⟩
    | _ => cases hG <;> cases hO
  · rintro ⟨vs, j, h, hl, ha⟩
    induction h generalizing left with
    | nil => exact .repsAbort (fun h => by have := hl 0 h; simp at this) ha
    | cons h1 h2 ih =>
      refine .repsLater (fun h => ?_) h1 (ih ?_ ha)
      · have := hl 0 h; simp at this
      · intro n hn
        cases left with
        | none => simp at hn
        | some n' => have := hl n' rfl; simp at hn this; omega

/-- Failing sequences etc. never come out as a list of trees. -/
theorem term_not_oks {Γ rule t vals inp vs j} : ¬ Peg E X (.term Γ rule t vals inp) (.oks vs j) := by
  intro h
  generalize hG : Goal.term Γ rule t vals inp = G at h
  generalize hO : Out.oks vs j = O at h
  have alts : ∀ {Γ tag ts i vals inp}, ¬ Peg E X (.alts Γ tag ts i vals inp) (.oks vs j) → True := fun _ => trivial
  clear alts
  have leaf : ∀ {p i}, ¬ LeafOut E p i (.oks vs j) := by intro p i h; cases h
  suffices ∀ G O, Peg E X G O → O = .oks vs j →
      (∀ Γ rule t vals inp, G ≠ .term Γ rule t vals inp) ∧ (∀ Γ tag ts i vals inp, G ≠ .alts Γ tag ts i vals inp) by
    exact (this G O h hO.symm).1 _ _ _ _ _ hG.symm
  clear h hG hO
  intro G O h hO
  induction h with
  | rule _ _ ih => exact absurd rfl ((ih hO).1 _ _ _ _ _)
  | named _ ih => exact absurd rfl ((ih hO).1 _ _ _ _ _)
  | cut _ ih => exact absurd rfl ((ih hO).1 _ _ _ _ _)
  | scope _ _ ih => exact absurd rfl ((ih hO).1 _ _ _ _ _)
  | lit _ hl => subst hO; exact absurd hl leaf
  | regexp _ hl => subst hO; exact absurd hl leaf
  | seqNo _ ho => subst hO; simp at ho
  | oneof _ ih => exact absurd rfl ((ih hO).2 _ _ _ _ _ _)
  | altsNext _ _ _ ih => exact absurd rfl ((ih hO).2 _ _ _ _ _ _)
  | lookNo _ ho => subst hO; simp at ho
  | delimNo _ ho => subst hO; simp at ho
  | refNo _ _ _ _ ho => subst hO; simp at ho
  | refDefault _ _ _ ih => exact absurd rfl ((ih hO).1 _ _ _ _ _)
  | ext => simp only [extOut] at hO; split at hO <;> (try split at hO) <;> simp at hO
  | itemsNil => exact ⟨by simp, by simp⟩
  | itemsCons => exact ⟨by simp, by simp⟩
  | itemsLater => exact ⟨by simp, by simp⟩
  | itemsFail => exact ⟨by simp, by simp⟩
  | repsMax => exact ⟨by simp, by simp⟩
  | repsStop => exact ⟨by simp, by simp⟩
  | repsMore => exact ⟨by simp, by simp⟩
  | _ => simp at hO

/-- A sequence under another name: the same outcome up to the tag. -/
theorem seq_iff {Γ rule ts vals inp o} : Peg E X (.term Γ rule (.seq ts) vals inp) o ↔
    (∃ vs j, o = .ok (.node (ruleOrAlt rule seqTag) .nil vs) j ∧ Peg E X (.seq Γ ts vals false inp) (.oks vs j)) ∨
    ((o = .fail ∨ o = .abort) ∧ Peg E X (.seq Γ ts vals false inp) o) := by
  constructor
  · intro h
    cases h with
    | seqOk h => exact Or.inl ⟨_, _, rfl, h⟩
    | seqNo h ho => exact Or.inr ⟨ho, h⟩
  · rintro (⟨vs, j, rfl, h⟩ | ⟨ho, h⟩)
    · exact .seqOk h
    · exact .seqNo h ho

theorem items_nil_iff {Γ vals c inp o} : Peg E X (.seq Γ [] vals c inp) o ↔ o = .oks [] inp :=
  ⟨fun h => by cases h; rfl, fun h => h ▸ .itemsNil⟩

theorem exists_committed (Γ : List Grammar) (t : Term) (c : Bool) : ∃ c', (c' = true ↔ c = true ∨ IsCut Γ t) := by
  rcases Classical.em (c = true ∨ IsCut Γ t) with h | h
  · exact ⟨true, by simp [h]⟩
  · exact ⟨false, by simp [h]⟩

/-- The first of the remaining items of a sequence. -/
theorem items_cons_iff {Γ t ts vals c inp o} : Peg E X (.seq Γ (t :: ts) vals c inp) o ↔
    (∃ v i c' o', Peg E X (.term Γ [] t vals inp) (.ok v i) ∧ (c' = true ↔ c = true ∨ IsCut Γ t) ∧
      Peg E X (.seq Γ ts (bindVal vals (identFromTerm t) v) c' i) o' ∧
      ((∃ vs j, o' = .oks vs j ∧ o = .oks (v :: vs) j) ∨ ((o' = .fail ∨ o' = .abort) ∧ o = o'))) ∨
    (Peg E X (.term Γ [] t vals inp) .fail ∧ o = if c then .abort else .fail) ∨
    (Peg E X (.term Γ [] t vals inp) .abort ∧ o = .abort) := by
  constructor
  · intro h
    generalize hG : Goal.seq Γ (t :: ts) vals c inp = G at h
    cases h <;> cases hG
    · rename_i h1 h2 h3
      exact Or.inl ⟨_, _, _, _, h3, h2, h1, Or.inl ⟨_, _, rfl, rfl⟩⟩
    · rename_i h1 h2 h3 h4
      exact Or.inl ⟨_, _, _, _, h4, h3, h2, Or.inr ⟨h1, rfl⟩⟩
    · rename_i h; exact Or.inr (Or.inl ⟨h, rfl⟩)
    · rename_i h; exact Or.inr (Or.inr ⟨h, rfl⟩)
  · rintro (⟨v, i, c', o', h1, h2, h3, (⟨vs, j, rfl, rfl⟩ | ⟨h4, rfl⟩)⟩ | ⟨h, rfl⟩ | ⟨h, rfl⟩)
    · exact .itemsCons h1 h2 h3
    · exact .itemsLater h1 h2 h3 h4
    · exact .itemsFail h
    · exact .itemsAbort h

/-- The last item of a sequence. -/
theorem items_last_iff {Γ t vals c inp o} : Peg E X (.seq Γ [t] vals c inp) o ↔
    (∃ v i, Peg E X (.term Γ [] t vals inp) (.ok v i) ∧ o = .oks [v] i) ∨
    (Peg E X (.term Γ [] t vals inp) .fail ∧ o = if c then .abort else .fail) ∨
    (Peg E X (.term Γ [] t vals inp) .abort ∧ o = .abort) := by
  rw [items_cons_iff]
  refine or_congr_left ⟨?_, ?_⟩
  · rintro ⟨v, i, c', o', h1, _, h2, h3⟩
    obtain rfl := items_nil_iff.1 h2
    rcases h3 with ⟨vs, j, h3, rfl⟩ | ⟨h3 | h3, _⟩ <;> cases h3
    exact ⟨v, i, h1, rfl⟩
  · rintro ⟨v, i, h1, rfl⟩
    obtain ⟨c', hc'⟩ := exists_committed Γ t c
    exact ⟨v, i, c', _, h1, hc', .itemsNil, Or.inl ⟨_, _, rfl, rfl⟩⟩

/-- What derivations say about an outcome. -/
def DerivesOut (E : Engine) (X : Externals) : Goal → Out → Prop
  | .term Γ name t vals inp, .ok v j => Derives E X (.term Γ name t vals) inp [v] j
  | .alts Γ tag ts i vals inp, .ok v j => ∃ d t w, ts[d]? = some t ∧ v = .node tag (.choice (i + d)) [w] ∧
      Derives E X (.term Γ [] t vals) inp [w] j
  | .seq Γ ts vals _ inp, .oks vs j => Derives E X (.items Γ ts vals) inp vs j
  | .reps Γ t vals left inp, .oks vs j => Derives E X (.reps Γ t vals) inp vs j ∧
      ∀ n, left = some n → vs.length ≤ n
  | _, _ => True

/-- What the semantics derives has a derivation. -/
theorem Peg.derives {G o} (h : Peg E X G o) : DerivesOut E X G o := by
  induction h with
  | @rule _ _ _ _ _ _ _ o hr _ ih => cases o <;> first | exact .rule hr ih | trivial
  | @named _ _ _ _ _ _ o _ ih => cases o <;> first | exact .named ih | trivial
  | @cut _ _ _ _ _ o _ ih => cases o <;> first | exact .cut ih | trivial
  | @scope _ _ _ _ _ _ _ o hE _ ih => cases o <;> first | exact .scope hE ih | trivial
  | @lit _ _ _ _ _ _ o hp hl => cases o <;> first | exact .lit hp hl | trivial
  | @regexp _ _ _ _ _ _ o hp hl => cases o <;> first | exact .regexp hp hl | trivial
  | seqOk _ ih => exact .seq ih
  | seqNo _ ho => rcases ho with rfl | rfl <;> trivial
  | itemsNil => exact .nil
  | itemsCons _ _ _ ih1 ih2 => exact .cons ih1 ih2
  | itemsLater _ _ _ ho => rcases ho with rfl | rfl <;> trivial
  | @itemsFail _ _ _ _ c _ _ => cases c <;> trivial
  | itemsAbort => trivial
  | @oneof _ _ _ _ _ o _ ih =>
    cases o with
    | ok v j =>
      obtain ⟨d, t, w, h1, rfl, h2⟩ := ih
      simp only [DerivesOut, Nat.zero_add]
      exact Derives.oneof h1 h2
    | _ => trivial
  | altsNil => trivial
  | altsOk _ ih => exact ⟨0, _, _, by simp, rfl, ih⟩
  | altsAbort => trivial
  | @altsNext _ _ _ _ _ _ _ o _ _ _ ih =>
    cases o with
    | ok v j =>
      obtain ⟨d, t, w, h1, rfl, h2⟩ := ih
      exact ⟨d + 1, t, w, by simpa using h1, by congr 2; omega, h2⟩
    | _ => trivial
  | @quantOk _ _ _ _ hi _ _ vs _ _ hlo ih =>
    refine .quant ih.1 hlo ?_
    by_cases h : hi = 0
    · exact Or.inl h
    · exact Or.inr (ih.2 hi (by simp [h]))
  | quantFew => trivial
  | quantAbort => trivial
  | repsMax => exact ⟨.stop, by simp⟩
  | repsStop => exact ⟨.stop, by simp⟩
  | @repsMore _ _ _ left _ _ _ _ _ hl _ _ ih1 ih2 =>
    refine ⟨.more ih1 ih2.1, fun n hn => ?_⟩
    subst hn
    have := ih2.2 (n - 1) (by simp)
    simp at hl ⊢; omega
  | repsLater => trivial
  | repsAbort => trivial
  | lookOk _ ih => exact .look ih
  | lookNo _ ho => rcases ho with rfl | rfl <;> trivial
  | delimOk _ hf ih => exact .delim ih hf
  | delimNo _ ho => rcases ho with rfl | rfl <;> trivial
  | refOk h1 h2 h3 _ h4 ih => exact .ref h1 h2 h3 ih h4
  | refDiffers => trivial
  | refNo _ _ _ _ ho => rcases ho with rfl | rfl <;> trivial
  | @refDefault _ _ _ _ _ _ o h1 h2 _ ih => cases o <;> first | exact .default h1 h2 ih | trivial
  | refUnbound => trivial
  | extNone => trivial
  | @ext _ _ _ f vals inp hx =>
    cases hh : f ⟨fun i => lookup i vals, none, [], none⟩ inp with
    | mk v e j =>
      cases e with
      | none => exact .ext (cp := none) hx hh
      | some e =>
        simp only [extOut]
        cases e.isFatal <;> exact True.intro

end
end Wbnf

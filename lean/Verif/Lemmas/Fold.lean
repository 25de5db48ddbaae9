import Verif.Lemmas.Delim
import Verif.Lemmas.Derive
import Verif.Spec.Parts
import Verif.Lemmas.Advance

/-! Inductions over derivations that look at the leaves only. -/

namespace Wbnf

/-- `Q` holds of every part of what is matched. -/
def Clean (Q : List Grammar → Term → Prop) : DGoal → Prop
  | .term Γ _ t _ => ∀ Γ' t', PartOf Γ t Γ' t' → Q Γ' t'
  | .items Γ ts _ => ∀ t ∈ ts, ∀ Γ' t', PartOf Γ t Γ' t' → Q Γ' t'
  | .reps Γ t _ => ∀ Γ' t', PartOf Γ t Γ' t' → Q Γ' t'

/-- `Q` is about literals, regexps, references, look-aheads. -/
structure Basic (Q : List Grammar → Term → Prop) : Prop where
  seq : ∀ Γ ts, Q Γ (.seq ts)
  quant : ∀ Γ t lo hi, Q Γ (.quant t lo hi)
  text : ∀ Γ ident d l, Q Γ (.ref ident d) → Q [] (.s l)

theorem within_opt {Γ t lo hi Γ' t'} (h : PartOf Γ (.quant t lo hi) Γ' t') :
    t' = .quant t lo hi ∨ PartOf Γ t Γ' t' := by
  cases h with
  | refl => exact Or.inl rfl
  | quant h => exact Or.inr h

theorem within_pair {Γ a b Γ' t'} (h : PartOf Γ (.seq [a, b]) Γ' t') :
    (∃ ts, t' = .seq ts) ∨ PartOf Γ a Γ' t' ∨ PartOf Γ b Γ' t' := by
  cases h with
  | refl => exact Or.inl ⟨_, rfl⟩
  | seq hm h =>
    simp at hm
    rcases hm with rfl | rfl
    · exact Or.inr (Or.inl h)
    · exact Or.inr (Or.inr h)

theorem within_delimSeq {Γ term sep a cs ce Γ' t'} (h : PartOf Γ (.seq (delimSeq term sep cs ce)) Γ' t') :
    (∃ ts, t' = .seq ts) ∨ (∃ t lo hi, t' = .quant t lo hi) ∨ PartOf Γ (.delim term sep a cs ce) Γ' t' := by
  have opt : ∀ {t lo hi}, PartOf Γ (.quant t lo hi) Γ' t' →
      (PartOf Γ t Γ' t' → (∃ ts, t' = .seq ts) ∨ (∃ t lo hi, t' = .quant t lo hi) ∨
        PartOf Γ (.delim term sep a cs ce) Γ' t') →
      (∃ ts, t' = .seq ts) ∨ (∃ t lo hi, t' = .quant t lo hi) ∨
        PartOf Γ (.delim term sep a cs ce) Γ' t' := by
    intro t lo hi h hh
    rcases within_opt h with rfl | h
    · exact Or.inr (Or.inl ⟨_, _, _, rfl⟩)
    · exact hh h
  cases h with
  | refl => exact Or.inl ⟨_, rfl⟩
  | seq hm h =>
    simp only [delimSeq, List.mem_append] at hm
    rcases hm with (hm | hm) | hm
    · split at hm
      · simp [optT] at hm; subst hm
        exact opt h fun h => Or.inr (Or.inr (.delimSep h))
      · simp at hm
    · simp [anyT] at hm; subst hm
      rcases within_pair h with h | h | h
      · exact Or.inl h
      · exact Or.inr (Or.inr (.delimTerm h))
      · exact opt h fun h => by
          rcases within_pair h with h | h | h
          · exact Or.inl h
          · exact Or.inr (Or.inr (.delimSep h))
          · exact Or.inr (Or.inr (.delimTerm h))
    · split at hm
      · simp [optT] at hm; subst hm
        exact opt h fun h => Or.inr (Or.inr (.delimSep h))
      · simp at hm

theorem quotable_text {E : Engine} : (t : Term) → t.quotable E = true → t.isText = true
  | .s _, _ => rfl
  | .seq ts, h => by
    have : ∀ ts : List Term, (∀ t ∈ ts, t.quotable E = true → t.isText = true) →
        quotableList E ts = true → isTextList ts = true := by
      intro ts
      induction ts with
      | nil => intros; rfl
      | cons t ts ih =>
        intro h1 h2
        simp only [quotableList, Bool.and_eq_true] at h2
        simp only [isTextList, Bool.and_eq_true]
        exact ⟨h1 t (by simp) h2.1, ih (fun t ht => h1 t (by simp [ht])) h2.2⟩
    simp only [Term.quotable] at h
    simp only [Term.isText]
    exact this ts (fun t ht => quotable_text t) h
  | .rule _, h | .re _, h | .ref _ _, h | .ext _, h | .oneof _, h | .stack _, h | .delim _ _ _ _ _, h
  | .look _, h | .quant _ _ _, h | .named _ _, h | .scope _ _, h | .cut _, h => by simp [Term.quotable] at h

theorem isTextList_mem {ts : List Term} (h : isTextList ts = true) : ∀ t ∈ ts, t.isText = true := by
  induction ts with
  | nil => simp
  | cons t ts ih =>
    simp only [isTextList, Bool.and_eq_true] at h
    intro u hu
    simp at hu
    rcases hu with rfl | hu
    · exact h.1
    · exact ih h.2 u hu

theorem within_text {Γ t Γ' t'} (ht : t.isText = true) (h : PartOf Γ t Γ' t') :
    (∃ ts, t' = .seq ts) ∨ ∃ l, t' = .s l ∧ Γ' = Γ := by
  induction h with
  | @refl Γ t =>
    cases t with
    | s l => exact Or.inr ⟨l, rfl, rfl⟩
    | seq ts => exact Or.inl ⟨ts, rfl⟩
    | _ => simp [Term.isText] at ht
  | seq hm h ih => exact ih (isTextList_mem (by simpa [Term.isText] using ht) _ hm)
  | _ => simp [Term.isText] at ht

theorem clean_text {Q Γ ident d rule t vals} (hQ : Basic Q) (h : Q Γ (.ref ident d)) (ht : t.isText = true) :
    Clean Q (.term [] rule t vals) := by
  intro Γ' t' hw
  rcases within_text ht hw with ⟨ts, rfl⟩ | ⟨l, rfl, rfl⟩
  · exact hQ.seq _ _
  · exact hQ.text _ _ _ _ h

/-- What is needed of `T` to hold between the start, the leaves and the end of every derivation. -/
structure Additive (E : Engine) (X : Externals) (Q : List Grammar → Term → Prop)
    (T : Scanner → List Scanner → Scanner → Prop) : Prop where
  nil : ∀ i, T i [] i
  append : ∀ i a j b k, T i a j → T j b k → T i (a ++ b) k
  leaf : ∀ Γ t p i s j, Q Γ t → Matches Γ t p → LeafOut E (anchor ++ p) i (.ok (.leaf s) j) → T i [s] j
  look : ∀ Γ t i a j, Q Γ (.look t) → T i a j → T i a i
  ext : ∀ Γ x f c i v j, Q Γ (.ext x) → X.refs x = some f → f c i = ⟨v, none, j⟩ → T i v.leaves j

theorem LeafOut.leaf {E : Engine} {p i v j} (h : LeafOut E p i (.ok v j)) : ∃ s, v = .leaf s := by
  cases h <;> exact ⟨_, rfl⟩

theorem Derives.fold {E : Engine} {X : Externals} {Q T} (hQ : Basic Q) (hT : Additive E X Q T) {G i vs j}
    (h : Derives E X G i vs j) (hc : Clean Q G) : T i (leavesList vs) j := by
  induction h with
  | rule hr _ ih => exact ih fun _ _ hw => hc _ _ (.rule hr hw)
  | named _ ih => exact ih fun _ _ hw => hc _ _ (.named hw)
  | cut _ ih => exact ih fun _ _ hw => hc _ _ (.cut hw)
  | scope hE _ ih => exact ih fun _ _ hw => hc _ _ (.scope hE hw)
  | lit hp hl =>
    obtain ⟨s, rfl⟩ := hl.leaf
    exact hT.leaf _ _ _ _ _ _ (hc _ _ .refl) (.lit hp) hl
  | regexp hp hl =>
    obtain ⟨s, rfl⟩ := hl.leaf
    exact hT.leaf _ _ _ _ _ _ (hc _ _ .refl) (.regexp hp) hl
  | seq _ ih =>
    have := ih fun t ht _ _ hw => hc _ _ (.seq ht hw)
    simpa [leavesList, Tree.leaves] using this
  | nil => exact hT.nil _
  | cons _ _ ih1 ih2 =>
    have h1 := ih1 (hc _ (by simp))
    have h2 := ih2 (fun t ht => hc t (by simp [ht]))
    simp only [leavesList, List.append_nil] at h1 ⊢
    exact hT.append _ _ _ _ _ h1 h2
  | oneof hn _ ih =>
    have := ih fun _ _ hw => hc _ _ (.oneof (List.mem_of_getElem? hn) hw)
    simpa [leavesList, Tree.leaves] using this
  | quant _ _ _ ih =>
    have := ih fun _ _ hw => hc _ _ (.quant hw)
    simpa [leavesList, Tree.leaves] using this
  | stop => exact hT.nil _
  | more _ _ ih1 ih2 =>
    have h1 := ih1 hc
    have h2 := ih2 hc
    simp only [leavesList, List.append_nil] at h1 ⊢
    exact hT.append _ _ _ _ _ h1 h2
  | look _ ih =>
    have := ih fun _ _ hw => hc _ _ (.look hw)
    have := hT.look _ _ _ _ _ (hc _ _ .refl) this
    simpa [leavesList, Tree.leaves] using this
  | @delim Γ rule term sep a cs ce vals i v v' j hd hf ih =>
    have h1 := ih (fun Γ' t' hw => by
      rcases within_delimSeq (a := a) hw with ⟨ts, rfl⟩ | ⟨t, lo, hi, rfl⟩ | hw
      · exact hQ.seq _ _
      · exact hQ.quant _ _ _ _
      · exact hc _ _ hw)
    obtain ⟨lead, first, rest, trail, rfl, hl, ht⟩ := derives_join hd
    have := (delimFinish_inv hl ht hf).leaves
    simp only [leavesList, List.append_nil] at h1 ⊢
    rw [this, ← leaves_joinTree hl ht]
    exact h1
  | ref _ _ hq _ _ ih => exact ih (clean_text hQ (hc _ _ .refl) (quotable_text _ hq))
  | default _ hq _ ih => exact ih (clean_text hQ (hc _ _ .refl) (quotable_text _ hq))
  | ext hx hf =>
    have := hT.ext _ _ _ _ _ _ _ (hc _ _ .refl) hx hf
    simpa [leavesList] using this

/-- The property of parts used for positions of leaves. -/
def PartOK (look ext : Bool) (R : Str → Prop) (Γ : List Grammar) (t : Term) : Prop :=
  (∀ p, Matches Γ t p → R (anchor ++ p)) ∧ (look = false → ∀ t', t ≠ .look t') ∧
    (ext = false → ∀ x, t ≠ .ext x)

theorem basic_partOK {look ext R} : Basic (PartOK look ext R) where
  seq := fun Γ ts => ⟨fun p h => (by cases h), fun _ t' => by simp, fun _ x => by simp⟩
  quant := fun Γ t lo hi => ⟨fun p h => (by cases h), fun _ t' => by simp, fun _ x => by simp⟩
  text := fun Γ ident d l h => by
    refine ⟨fun p hp => ?_, fun _ t' => by simp, fun _ x => by simp⟩
    cases hp with
    | lit hp =>
      have : p = str "(" ++ quoteMeta l ++ str ")" := by
        cases hp with
        | plain => rfl
        | exempt h => simp [wrapOf] at h
        | listed h => simp [wrapOf] at h
        | wrapped h => simp [wrapOf] at h
      rw [this]
      exact h.1 _ (.ref l)

theorem LeafOut.inv {E : Engine} (hE : E.Sane) {p i s j} (hin : i.InRange)
    (h : LeafOut E p i (.ok (.leaf s) j)) :
    ∃ x b a c, i.slice = some x ∧ (∃ locs, E.find p x = some locs ∧ locs.getLast? = some (a, c) ∧
        locs.head? = some (0, b)) ∧
      s = i.sub a c ∧ j = i.skip b ∧ 0 ≤ b ∧ b ≤ i.len ∧ ((a, c) = (-1, -1) ∨ (0 ≤ a ∧ a ≤ c ∧ c ≤ b)) ∧
      Advances i j := by
  have hlen : ∀ x, i.slice = some x → (x.length : Int) = i.len := by
    intro x hx
    obtain ⟨src, i', m, rfl, hm⟩ := hin.elim
    rw [Scanner.slice_mk hm] at hx; simp at hx; rw [← hx, bytesAt_length hm]
  have hadv : ∀ b, 0 ≤ b → b ≤ i.len → Advances i (i.skip b) := by
    intro b h0 h1
    exact ⟨rfl, by simp [Scanner.skip]; omega, by simp [Scanner.skip]; omega, by simp [Scanner.skip]; omega⟩
  cases h with
  | @one x b g hx hf =>
    obtain ⟨a', b', gs, he, h1, h2, h3⟩ := hE.whole _ _ _ hf
    simp at he; obtain ⟨⟨rfl, rfl⟩, rfl⟩ := he
    rw [hlen _ hx] at h3
    refine ⟨x, b, g.1, g.2, hx, ⟨_, hf, rfl, rfl⟩, rfl, rfl, h2, h3, ?_, hadv b h2 h3⟩
    rcases hE.groups _ _ _ _ _ g hf (by simp) with h | h
    · exact Or.inl h
    · exact Or.inr h
  | @two x b g g' hx hf =>
    obtain ⟨a', b', gs, he, h1, h2, h3⟩ := hE.whole _ _ _ hf
    simp at he; obtain ⟨⟨rfl, rfl⟩, rfl⟩ := he
    rw [hlen _ hx] at h3
    refine ⟨x, b, g'.1, g'.2, hx, ⟨_, hf, rfl, rfl⟩, rfl, rfl, h2, h3, ?_, hadv b h2 h3⟩
    rcases hE.groups _ _ _ _ _ g' hf (by simp) with h | h
    · exact Or.inl h
    · exact Or.inr h

end Wbnf

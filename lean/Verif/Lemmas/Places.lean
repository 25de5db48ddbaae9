import Verif.Lemmas.Ranks
import Verif.Lemmas.DecEq
import Verif.Spec.Safe
import Verif.Spec.Compiles

/-!
The checks of Parts and Ranks for grammars with grammars in braces, without back references: `Fs` lists the stacks of
grammars that are met.
-/

namespace Wbnf

mutual
/-- `q` holds of the term and its parts; grammars in braces have no stacks, and with them one of the stacks `Fs` is met. -/
def Term.allAt (Fs : List (List Grammar)) (q : List Grammar → Term → Bool) : Term → List Grammar → Bool
  | .seq ts, Γ => q Γ (.seq ts) && allAtList Fs q ts Γ
  | .oneof ts, Γ => q Γ (.oneof ts) && allAtList Fs q ts Γ
  | .stack _, _ => false
  | .delim t sep a cs ce, Γ => q Γ (.delim t sep a cs ce) && t.allAt Fs q Γ && sep.allAt Fs q Γ
  | .look t, Γ => q Γ (.look t) && t.allAt Fs q Γ
  | .quant t lo hi, Γ => q Γ (.quant t lo hi) && t.allAt Fs q Γ
  | .named n t, Γ => q Γ (.named n t) && t.allAt Fs q Γ
  | .cut t, Γ => q Γ (.cut t) && t.allAt Fs q Γ
  | .scope t g, Γ => q Γ (.scope t g) && decide ((Grammar.resolveStacks g).map (inheritWrap (wrapOf Γ)) = some g) &&
      decide ((g :: Γ) ∈ Fs) && t.allAt Fs q (g :: Γ)
  | .rule r, Γ => q Γ (.rule r)
  | .s l, Γ => q Γ (.s l)
  | .re l, Γ => q Γ (.re l)
  | .ref _ _, _ => false
  | .ext _, _ => false
def allAtList (Fs : List (List Grammar)) (q : List Grammar → Term → Bool) : List Term → List Grammar → Bool
  | [], _ => true
  | t :: ts, Γ => t.allAt Fs q Γ && allAtList Fs q ts Γ
end

/-- The stacks are closed: so is what is left without the innermost grammar, and all rules of the innermost grammar pass. -/
def framesOK (Fs : List (List Grammar)) (q : List Grammar → Term → Bool) : Bool :=
  Fs.all fun Γ => match Γ with
    | [] => false
    | g :: Γ' => (Γ'.isEmpty || decide (Γ' ∈ Fs)) && g.all fun e => e.2.allAt Fs q (g :: Γ')

section
variable {Fs : List (List Grammar)} {q : List Grammar → Term → Bool} {Γ Γ' : List Grammar} {t t' : Term} {r : Str}

theorem allAtList_mem : {ts : List Term} → allAtList Fs q ts Γ = true → ∀ t ∈ ts, t.allAt Fs q Γ = true
  | [], _, t, ht => by simp at ht
  | u :: ts, h, t, ht => by
    simp only [allAtList, Bool.and_eq_true] at h
    rcases List.mem_cons.1 ht with rfl | ht
    · exact h.1
    · exact allAtList_mem h.2 t ht

theorem Term.allAt_self (h : t.allAt Fs q Γ = true) : q Γ t = true := by
  cases t <;> simp_all [Term.allAt]

theorem framesOK_resolves (hF : framesOK Fs q = true) (hΓ : Γ ∈ Fs) (h : Resolves Γ r Γ' t) :
    Γ' ∈ Fs ∧ t.allAt Fs q Γ' = true ∧ ∃ g Γ'', Γ' = g :: Γ'' ∧ Defines g r t := by
  induction h with
  | here hd =>
    refine ⟨hΓ, ?_, _, _, rfl, hd⟩
    have := (List.all_eq_true.1 hF) _ hΓ
    simp only [Bool.and_eq_true, List.all_eq_true] at this
    obtain ⟨k, hk⟩ := hd.mem
    exact this.2 _ hk
  | @outer g Γ r Γ' t _ hr ih =>
    have := (List.all_eq_true.1 hF) _ hΓ
    simp only [Bool.and_eq_true, Bool.or_eq_true, List.isEmpty_iff, decide_eq_true_eq] at this
    rcases this.1 with rfl | h1
    · cases hr
    · exact ih h1

theorem framesOK_enters {g g' : Grammar} (ht : (Term.scope t g).allAt Fs q Γ = true) (h : Enters Γ g g') :
    g' = g ∧ (g :: Γ) ∈ Fs ∧ t.allAt Fs q (g :: Γ) = true := by
  simp only [Term.allAt, Bool.and_eq_true, decide_eq_true_eq] at ht
  obtain ⟨g1, h1, h2⟩ := h
  rw [h1] at ht
  simp only [Option.map_some, Option.some.injEq] at ht
  exact ⟨h2.trans ht.1.1.2, ht.1.2, ht.2⟩

theorem partOf_at (hF : framesOK Fs q = true) (h : PartOf Γ t Γ' t') (hΓ : Γ ∈ Fs) (ht : t.allAt Fs q Γ = true) :
    Γ' ∈ Fs ∧ t'.allAt Fs q Γ' = true := by
  induction h with
  | refl => exact ⟨hΓ, ht⟩
  | rule hr _ ih =>
    have := framesOK_resolves hF hΓ hr
    exact ih this.1 this.2.1
  | named _ ih => simp [Term.allAt] at ht; exact ih hΓ ht.2
  | cut _ ih => simp [Term.allAt] at ht; exact ih hΓ ht.2
  | scope he _ ih =>
    obtain ⟨rfl, h1, h2⟩ := framesOK_enters ht he
    exact ih h1 h2
  | seq hm _ ih => simp [Term.allAt] at ht; exact ih hΓ (allAtList_mem ht.2 _ hm)
  | oneof hm _ ih => simp [Term.allAt] at ht; exact ih hΓ (allAtList_mem ht.2 _ hm)
  | quant _ ih => simp [Term.allAt] at ht; exact ih hΓ ht.2
  | look _ ih => simp [Term.allAt] at ht; exact ih hΓ ht.2
  | delimTerm _ ih => simp [Term.allAt] at ht; exact ih hΓ ht.1.2
  | delimSep _ ih => simp [Term.allAt] at ht; exact ih hΓ ht.2

/-- No back references and no external references. -/
theorem noRef_at (hF : framesOK Fs q = true) (hΓ : Γ ∈ Fs) (ht : t.allAt Fs q Γ = true) : NoRef Γ t ∧ NoExt Γ t :=
  ⟨fun Γ' x d h => by have := (partOf_at hF h hΓ ht).2; simp [Term.allAt] at this,
   fun Γ' x h => by have := (partOf_at hF h hΓ ht).2; simp [Term.allAt] at this⟩

end

/-- What the check asks of every part. -/
def placeRank (c : Term → Bool) : Term → Bool
  | .quant t _ 0 => c t
  | .delim t sep _ _ _ => c sep || c t
  | _ => true

/-- The whole check. -/
def placesCheck (Fs : List (List Grammar)) (leaf d : Str → Bool) (rank : Str → Nat) : Bool :=
  framesOK Fs (fun _ => placeRank (Term.consumes leaf d)) &&
  Fs.all fun Γ => match Γ with
    | [] => true
    | g :: _ => g.all (fun e => !d e.1 || e.2.consumes leaf d) &&
        g.all (fun e => (e.2.leads (Term.consumes leaf d)).all fun r => decide (rank r < rank e.1))

section
variable {E : Engine} {X : Externals} {leaf d : Str → Bool} {rank : Str → Nat} {Fs : List (List Grammar)}

theorem allAtList_append {q : List Grammar → Term → Bool} {Γ} {a b : List Term} (h1 : allAtList Fs q a Γ = true) (h2 : allAtList Fs q b Γ = true) :
    allAtList Fs q (a ++ b) Γ = true := by
  induction a with
  | nil => exact h2
  | cons t a ih =>
    simp only [allAtList, Bool.and_eq_true] at h1
    simp only [List.cons_append, allAtList, Bool.and_eq_true]
    exact ⟨h1.1, ih h1.2⟩

theorem delimSeq_at {t sep a cs ce Γ}
    (h : (Term.delim t sep a cs ce).allAt Fs (fun _ => placeRank (Term.consumes leaf d)) Γ = true) :
    (Term.seq (delimSeq t sep cs ce)).allAt Fs (fun _ => placeRank (Term.consumes leaf d)) Γ = true := by
  simp only [Term.allAt, Bool.and_eq_true, placeRank] at h
  obtain ⟨⟨h1, h2⟩, h3⟩ := h
  have hopt : (optT sep).allAt Fs (fun _ => placeRank (Term.consumes leaf d)) Γ = true := by
    simp [optT, Term.allAt, placeRank, h3]
  simp only [Term.allAt, placeRank, Bool.true_and, delimSeq]
  refine allAtList_append (allAtList_append ?_ ?_) ?_
  · split
    · simp [allAtList, hopt]
    · rfl
  · simp only [allAtList, Term.allAt, placeRank, anyT, Bool.true_and, h2, h3, Bool.and_true,
      Term.consumes, anyConsumes, Bool.or_false]
    exact h1
  · split
    · simp [allAtList, hopt]
    · rfl

/-- What holds of goals met under the check. -/
def PlaceGoal (Fs : List (List Grammar)) (leaf d : Str → Bool) : DGoal → Prop
  | .term Γ _ t _ => Γ ∈ Fs ∧ t.allAt Fs (fun _ => placeRank (Term.consumes leaf d)) Γ = true
  | .items Γ ts _ => Γ ∈ Fs ∧ allAtList Fs (fun _ => placeRank (Term.consumes leaf d)) ts Γ = true
  | .reps Γ t _ => Γ ∈ Fs ∧ t.allAt Fs (fun _ => placeRank (Term.consumes leaf d)) Γ = true

/-- The leaves that are said to consume something do, with the wrapper. -/
def LeavesConsume (E : Engine) (leaf : Str → Bool) (Fs : List (List Grammar)) : Prop :=
  ∀ Γ ∈ Fs, ∀ text group p, leaf (anchor ++ group) = true → LeafPattern (wrapOf Γ) text group p → NeverEmpty E (anchor ++ p)

theorem place_moves (hE : E.Sane) (hleaf : LeavesConsume E leaf Fs)
    (hF : framesOK Fs (fun _ => placeRank (Term.consumes leaf d)) = true)
    (hd : ∀ g Γ, (g :: Γ) ∈ Fs → ∀ e ∈ g, d e.1 = true → e.2.consumes leaf d = true) {G i vs j}
    (h : Derives E X G i vs j) (hok : PlaceGoal Fs leaf d G) :
    i.start ≤ j.start ∧ (GoalConsumes leaf d G vs → i.start < j.start) := by
  have hdef : ∀ {g Γ r t}, (g :: Γ) ∈ Fs → Defines g r t → d r = true → t.consumes leaf d = true := by
    intro g Γ r t hm h
    induction h with
    | here hl _ => exact hd _ _ hm _ (lookup_mem hl)
    | «alias» hl _ ih =>
      intro h
      have := hd _ _ hm _ (lookup_mem hl) h
      exact ih (by simpa [Term.consumes] using this)
  induction h with
  | rule hr _ ih =>
    obtain ⟨hΓ, hp⟩ := hok
    obtain ⟨h1, h2, g, Γ'', rfl, h3⟩ := framesOK_resolves hF hΓ hr
    have := ih ⟨h1, h2⟩
    exact ⟨this.1, fun hc => this.2 (hdef h1 h3 (by simpa [GoalConsumes, Term.consumes] using hc))⟩
  | named _ ih =>
    have := ih ⟨hok.1, by have := hok.2; simp [Term.allAt] at this; exact this.2⟩
    exact ⟨this.1, fun hc => this.2 (by simpa [GoalConsumes, Term.consumes] using hc)⟩
  | cut _ ih =>
    have := ih ⟨hok.1, by have := hok.2; simp [Term.allAt] at this; exact this.2⟩
    exact ⟨this.1, fun hc => this.2 (by simpa [GoalConsumes, Term.consumes] using hc)⟩
  | scope he _ ih =>
    obtain ⟨rfl, h1, h2⟩ := framesOK_enters hok.2 he
    have := ih ⟨h1, h2⟩
    exact ⟨this.1, fun hc => this.2 (by simpa [GoalConsumes, Term.consumes] using hc)⟩
  | lit hp ho =>
    have := leaf_moves hE ho
    refine ⟨this.1, fun hc => this.2 (hleaf _ hok.1 _ _ _ ?_ hp)⟩
    simpa [GoalConsumes, Term.consumes] using hc
  | regexp hp ho =>
    have := leaf_moves hE ho
    refine ⟨this.1, fun hc => this.2 (hleaf _ hok.1 _ _ _ ?_ hp)⟩
    simpa [GoalConsumes, Term.consumes] using hc
  | seq _ ih =>
    have := ih ⟨hok.1, by have := hok.2; simp [Term.allAt] at this; exact this.2⟩
    exact ⟨this.1, fun hc => this.2 (by simpa [GoalConsumes, Term.consumes] using hc)⟩
  | nil => exact ⟨Int.le_refl _, fun hc => by simp [GoalConsumes, anyConsumes] at hc⟩
  | cons _ _ ih1 ih2 =>
    obtain ⟨hΓ, hp⟩ := hok
    simp only [allAtList, Bool.and_eq_true] at hp
    have h1 := ih1 ⟨hΓ, hp.1⟩
    have h2 := ih2 ⟨hΓ, hp.2⟩
    refine ⟨by omega, fun hc => ?_⟩
    simp only [GoalConsumes, anyConsumes, Bool.or_eq_true] at hc
    rcases hc with hc | hc
    · have := h1.2 hc; omega
    · have := h2.2 hc; omega
  | oneof hn _ ih =>
    have := ih ⟨hok.1, by
      have := hok.2; simp [Term.allAt] at this
      exact allAtList_mem this.2 _ (List.mem_of_getElem? hn)⟩
    exact ⟨this.1, fun hc => this.2 (allConsume_mem (by simpa [GoalConsumes, Term.consumes] using hc) hn)⟩
  | quant _ hlo _ ih =>
    have := ih ⟨hok.1, by have := hok.2; simp [Term.allAt] at this; exact this.2⟩
    refine ⟨this.1, fun hc => this.2 ?_⟩
    simp only [GoalConsumes, Term.consumes, Bool.and_eq_true, decide_eq_true_eq] at hc
    exact ⟨hc.2, fun h => by rw [h] at hlo; simp at hlo; omega⟩
  | stop => exact ⟨Int.le_refl _, fun hc => absurd rfl hc.2⟩
  | more _ _ ih1 ih2 =>
    have h1 := ih1 hok
    have h2 := ih2 hok
    exact ⟨by omega, fun hc => by have := h1.2 hc.1; omega⟩
  | look _ _ => exact ⟨Int.le_refl _, fun hc => by simp [GoalConsumes, Term.consumes] at hc⟩
  | delim _ _ ih =>
    have := ih ⟨hok.1, delimSeq_at hok.2⟩
    refine ⟨this.1, fun hc => this.2 ?_⟩
    simp only [GoalConsumes, Term.consumes] at hc ⊢
    unfold delimSeq
    split <;> simp [anyConsumes, Term.consumes, hc]
  | ref _ _ _ _ _ _ => have := hok.2; simp [Term.allAt] at this
  | default _ _ _ _ => have := hok.2; simp [Term.allAt] at this
  | ext _ _ => have := hok.2; simp [Term.allAt] at this

/-- The check is sound. -/
theorem placesCheck_sound (hE : E.Sane) (hleaf : LeavesConsume E leaf Fs)
    (h : placesCheck Fs leaf d rank = true) {Γ₀ : List Grammar} (h0 : Γ₀ ∈ Fs) (r : Str) :
    NoLeftRecursion E X (Γ₀, .rule r) ∧ NoEmptyLoop E X (Γ₀, .rule r) := by
  simp only [placesCheck, Bool.and_eq_true] at h
  obtain ⟨hF, hrest⟩ := h
  have hd : ∀ g Γ, (g :: Γ) ∈ Fs → ∀ e ∈ g, d e.1 = true → e.2.consumes leaf d = true := by
    intro g Γ hm e he h1
    have := List.all_eq_true.1 hrest _ hm
    simp only [Bool.and_eq_true] at this
    have := List.all_eq_true.1 this.1 e he
    simpa [h1] using this
  have hrank : ∀ g Γ, (g :: Γ) ∈ Fs → ∀ e ∈ g, ∀ r ∈ e.2.leads (Term.consumes leaf d), rank r < rank e.1 := by
    intro g Γ hm e he r hr
    have := List.all_eq_true.1 hrest _ hm
    simp only [Bool.and_eq_true] at this
    have := List.all_eq_true.1 this.2 e he
    simpa using List.all_eq_true.1 this r hr
  have hempty : ∀ {Γ t}, Γ ∈ Fs → t.allAt Fs (fun _ => placeRank (Term.consumes leaf d)) Γ = true → CanBeEmpty E X Γ t →
      t.consumes leaf d = false := by
    intro Γ t hm ht ⟨rule, vals, i, v, _, hv⟩
    cases hc : t.consumes leaf d with
    | false => rfl
    | true =>
      have := (place_moves hE hleaf hF hd hv ⟨hm, ht⟩).2 hc
      omega
  have hdef : ∀ {g Γ r t}, (g :: Γ) ∈ Fs → Defines g r t → ∀ r' ∈ t.leads (Term.consumes leaf d), rank r' < rank r := by
    intro g Γ r t hm h
    induction h with
    | here hl _ => exact hrank _ _ hm _ (lookup_mem hl)
    | @«alias» r r' t hl _ ih =>
      intro r2 h2
      have h1 := hrank _ _ hm _ (lookup_mem hl) r' (by simp [Term.leads])
      have := ih r2 h2
      simp only at h1
      omega
  have used : ∀ {p}, UsedIn (Γ₀, .rule r) p →
      p.1 ∈ Fs ∧ p.2.allAt Fs (fun _ => placeRank (Term.consumes leaf d)) p.1 = true := by
    intro p hp
    induction hp with
    | self => exact ⟨h0, rfl⟩
    | step _ hu ih =>
      cases hu with
      | rule hr =>
        have := framesOK_resolves hF ih.1 hr
        exact ⟨this.1, this.2.1⟩
      | named => simp [Term.allAt] at ih; exact ⟨ih.1, ih.2.2⟩
      | cut => simp [Term.allAt] at ih; exact ⟨ih.1, ih.2.2⟩
      | scope he =>
        obtain ⟨rfl, h1, h2⟩ := framesOK_enters ih.2 he
        exact ⟨h1, h2⟩
      | seq hm => simp [Term.allAt] at ih; exact ⟨ih.1, allAtList_mem ih.2.2 _ hm⟩
      | oneof hm => simp [Term.allAt] at ih; exact ⟨ih.1, allAtList_mem ih.2.2 _ hm⟩
      | quant => simp [Term.allAt] at ih; exact ⟨ih.1, ih.2.2⟩
      | look => simp [Term.allAt] at ih; exact ⟨ih.1, ih.2.2⟩
      | delim => exact ⟨ih.1, delimSeq_at ih.2⟩
  refine ⟨?_, fun Γ t lo hu hc => ?_⟩
  · have stp : ∀ {p q : Place}, UsedIn (Γ₀, .rule r) p → Starts E X p q →
        leadRank (Term.consumes leaf d) rank q.2 ≤ leadRank (Term.consumes leaf d) rank p.2 ∧
        (leadRank (Term.consumes leaf d) rank q.2 < leadRank (Term.consumes leaf d) rank p.2 ∨
          q.2.rankSize < p.2.rankSize) := by
      intro p q hu hs
      obtain ⟨hΓ, hparts⟩ := used hu
      cases hs with
      | @rule Γ r' Γ' t hr =>
        obtain ⟨h1, h2, g, Γ'', rfl, h3⟩ := framesOK_resolves hF hΓ hr
        have := leadRank_lt (hdef h1 h3)
        have e : leadRank (Term.consumes leaf d) rank (.rule r') = rank r' + 1 := by
          simp [leadRank, Term.leads]
        simp only [e]
        omega
      | named => exact ⟨leadRank_mono (by simp [Term.leads]), Or.inr (by simp only [Term.rankSize]; omega)⟩
      | cut => exact ⟨leadRank_mono (by simp [Term.leads]), Or.inr (by simp only [Term.rankSize]; omega)⟩
      | scope => exact ⟨leadRank_mono (by simp [Term.leads]), Or.inr (by simp only [Term.rankSize]; omega)⟩
      | @seq Γ a t b hem =>
        simp [Term.allAt] at hparts
        refine ⟨leadRank_mono ?_, Or.inr ?_⟩
        · simp only [Term.leads]
          exact mem_seqLeads fun u hu' => hempty hΓ (allAtList_mem hparts.2 _ (by simp [hu'])) (hem u hu')
        · have := ranksSize_mem (ts := a ++ t :: b) (t := t) (by simp)
          simp only [Term.rankSize]; omega
      | oneof hm =>
        refine ⟨leadRank_mono ?_, Or.inr ?_⟩
        · simp only [Term.leads]; exact mem_allLeads hm
        · have := ranksSize_mem hm
          simp only [Term.rankSize]; omega
      | quant => exact ⟨leadRank_mono (by simp [Term.leads]), Or.inr (by simp only [Term.rankSize]; omega)⟩
      | look => exact ⟨leadRank_mono (by simp [Term.leads]), Or.inr (by simp only [Term.rankSize]; omega)⟩
      | delim => exact ⟨leadRank_mono delimSeq_leads, Or.inr (delimSeq_size ..)⟩
    intro q hq hqq
    have key : ∀ {p q : Place}, StartsWith E X p q → UsedIn (Γ₀, .rule r) p →
        UsedIn (Γ₀, .rule r) q ∧
        leadRank (Term.consumes leaf d) rank q.2 ≤ leadRank (Term.consumes leaf d) rank p.2 ∧
        (leadRank (Term.consumes leaf d) rank q.2 < leadRank (Term.consumes leaf d) rank p.2 ∨
          q.2.rankSize < p.2.rankSize) := by
      intro p q h hu
      have uses : ∀ {p q}, Starts E X p q → Uses p q := by
        intro p q h
        cases h with
        | rule h => exact .rule h
        | scope h => exact .scope h
        | seq => exact .seq (by simp)
        | oneof h => exact .oneof h
        | _ => constructor
      induction h with
      | one h1 => exact ⟨.step hu (uses h1), stp hu h1⟩
      | step _ h1 ih =>
        obtain ⟨h2, h3, h4⟩ := ih
        have := stp h2 h1
        exact ⟨.step h2 (uses h1), by omega, by omega⟩
    have := (key hqq hq).2.2
    omega
  · obtain ⟨h1, h2⟩ := used hu
    simp only at h1 h2
    simp only [Term.allAt, Bool.and_eq_true, placeRank] at h2
    rw [hempty h1 h2.2 hc] at h2
    simp at h2

end

/-! ### Closed grammars that compile -/

section
variable {E : Engine} {Fs : List (List Grammar)} {q : List Grammar → Term → Bool} {Γ : List Grammar} {t : Term} {r : Str}

/-- No rule of the innermost grammars is just the name of another rule. -/
def noAlias (Fs : List (List Grammar)) : Bool :=
  Fs.all fun Γ => match Γ with
    | [] => true
    | g :: _ => g.all fun e => match e.2 with | .rule _ => false | _ => true

theorem noAlias_mem {g : Grammar} (hn : noAlias Fs = true) (hm : (g :: Γ) ∈ Fs) {e} (he : e ∈ g) (r : Str) : e.2 ≠ .rule r := by
  intro h
  have h1 := List.all_eq_true.1 (List.all_eq_true.1 hn _ hm) e he
  rw [h] at h1
  simp at h1

theorem resolves_at (hF : framesOK Fs q = true) (hn : noAlias Fs = true) : {Γ : List Grammar} → Γ ∈ Fs →
    (Γ.any fun g => hasKey r g) = true → ∃ Γ' t', Resolves Γ r Γ' t'
  | [], _, h => by simp at h
  | g :: Γ, hm, h => by
    cases hl : lookup r g with
    | some t => exact ⟨_, t, .here (.here hl fun r' => noAlias_mem hn hm (lookup_mem hl) r')⟩
    | none =>
      have h' : (Γ.any fun g => hasKey r g) = true := by simpa [hasKey, hl] using h
      have := (List.all_eq_true.1 hF) _ hm
      simp only [Bool.and_eq_true, Bool.or_eq_true, List.isEmpty_iff, decide_eq_true_eq] at this
      rcases this.1 with rfl | h1
      · simp at h'
      · obtain ⟨Γ', t', h2⟩ := resolves_at hF hn h1 h'
        exact ⟨Γ', t', .outer hl h2⟩

theorem closed_at (hF : framesOK Fs q = true) (hn : noAlias Fs = true) (hΓ : Γ ∈ Fs) (ht : t.allAt Fs q Γ = true)
    (hq : ∀ Γ r, q Γ (.rule r) = true → (Γ.any fun g => hasKey r g) = true) : Closed Γ t := by
  intro Γ' r hp
  have := partOf_at hF hp hΓ ht
  exact resolves_at hF hn this.1 (hq _ _ (Term.allAt_self this.2))

/-- The leaves of the parts are valid. -/
def LeavesValid (E : Engine) (Fs : List (List Grammar)) (q : List Grammar → Term → Bool) : Prop :=
  ∀ Γ ∈ Fs, (∀ l, q Γ (.s l) = true → LeafValid E (wrapOf Γ) l (str "(" ++ quoteMeta l ++ str ")")) ∧
    (∀ l, q Γ (.re l) = true → LeafValid E (wrapOf Γ) l (str "(" ++ l ++ str ")"))

mutual
theorem compilable_term (hF : framesOK Fs q = true) (hn : noAlias Fs = true) (hv : LeavesValid E Fs q) (hΓ : Γ ∈ Fs)
    (ih : ∀ g, (g :: Γ) ∈ Fs → ∀ t : Term, t.allAt Fs q (g :: Γ) = true → Compilable E (wrapOf (g :: Γ)) t) :
    (t : Term) → t.allAt Fs q Γ = true → Compilable E (wrapOf Γ) t
  | .rule _, _ => .rule
  | .s l, h => .lit ((hv Γ hΓ).1 l (by simpa [Term.allAt] using h))
  | .re l, h => .regexp ((hv Γ hΓ).2 l (by simpa [Term.allAt] using h))
  | .ref _ _, _ => .ref
  | .ext _, _ => .ext
  | .seq ts, h => .seq (compilable_terms hF hn hv hΓ ih ts (by simp [Term.allAt] at h; exact h.2))
  | .oneof ts, h => .oneof (compilable_terms hF hn hv hΓ ih ts (by simp [Term.allAt] at h; exact h.2))
  | .stack _, h => by simp [Term.allAt] at h
  | .delim t sep _ _ _, h => .delim (compilable_term hF hn hv hΓ ih t (by simp [Term.allAt] at h; exact h.1.2))
      (compilable_term hF hn hv hΓ ih sep (by simp [Term.allAt] at h; exact h.2))
  | .look t, h => .look (compilable_term hF hn hv hΓ ih t (by simp [Term.allAt] at h; exact h.2))
  | .quant t _ _, h => .quant (compilable_term hF hn hv hΓ ih t (by simp [Term.allAt] at h; exact h.2))
  | .named _ t, h => .named (compilable_term hF hn hv hΓ ih t (by simp [Term.allAt] at h; exact h.2))
  | .cut t, h => .cut (compilable_term hF hn hv hΓ ih t (by simp [Term.allAt] at h; exact h.2))
  | .scope t g, h => by
    simp only [Term.allAt, Bool.and_eq_true, decide_eq_true_eq, Option.map_eq_some_iff] at h
    obtain ⟨⟨⟨_, g1, h1, h2⟩, h3⟩, h4⟩ := h
    have hall := (List.all_eq_true.1 hF) _ h3
    simp only [Bool.and_eq_true, List.all_eq_true] at hall
    refine .scope h1 ?_ ?_ ?_ <;> rw [h2]
    · exact fun e he => ⟨e.2, .inl ⟨rfl, fun r => noAlias_mem hn h3 he r⟩⟩
    · rintro e he t' (⟨rfl, _⟩ | ⟨r, hr, _⟩)
      · exact ih g h3 _ (hall.2 e he)
      · exact absurd hr (noAlias_mem hn h3 he r)
    · exact ih g h3 t h4
theorem compilable_terms (hF : framesOK Fs q = true) (hn : noAlias Fs = true) (hv : LeavesValid E Fs q) (hΓ : Γ ∈ Fs)
    (ih : ∀ g, (g :: Γ) ∈ Fs → ∀ t : Term, t.allAt Fs q (g :: Γ) = true → Compilable E (wrapOf (g :: Γ)) t) :
    (ts : List Term) → allAtList Fs q ts Γ = true → ∀ t ∈ ts, Compilable E (wrapOf Γ) t
  | [], _, t, ht => by simp at ht
  | u :: ts, h, t, ht => by
    simp only [allAtList, Bool.and_eq_true] at h
    rcases List.mem_cons.1 ht with e | ht
    · rw [e]; exact compilable_term hF hn hv hΓ ih u h.1
    · exact compilable_terms hF hn hv hΓ ih ts h.2 t ht
end

theorem compilable_at (hF : framesOK Fs q = true) (hn : noAlias Fs = true) (hv : LeavesValid E Fs q) {n : Nat}
    (hlen : ∀ Γ ∈ Fs, Γ.length ≤ n) : (k : Nat) → ∀ Γ ∈ Fs, n < Γ.length + k → ∀ t : Term, t.allAt Fs q Γ = true → Compilable E (wrapOf Γ) t
  | 0, Γ, hΓ, hk => by have := hlen Γ hΓ; omega
  | k + 1, Γ, hΓ, hk => compilable_term hF hn hv hΓ fun g hg => compilable_at hF hn hv hlen k (g :: Γ) hg (by simp; omega)

/-- A grammar without stacks compiles. -/
theorem compiles_at {g g1 : Grammar} (hF : framesOK Fs q = true) (hn : noAlias Fs = true) (hv : LeavesValid E Fs q)
    (hr : g.resolveStacks = some g1) (hm : [g1] ∈ Fs) : g.Compilable E := by
  obtain ⟨n, hlen⟩ : ∃ n, ∀ Γ ∈ Fs, Γ.length ≤ n := by
    clear hF hn hv hm
    induction Fs with
    | nil => exact ⟨0, by simp⟩
    | cons Γ Fs ih =>
      obtain ⟨n, h⟩ := ih
      refine ⟨max n Γ.length, fun Γ' hm => ?_⟩
      rcases List.mem_cons.1 hm with rfl | hm
      · omega
      · have := h Γ' hm; omega
  have hall := (List.all_eq_true.1 hF) _ hm
  simp only [Bool.and_eq_true, List.all_eq_true] at hall
  refine ⟨g1, hr, fun e he => ⟨e.2, .inl ⟨rfl, fun r => noAlias_mem hn hm he r⟩, ?_⟩⟩
  exact compilable_at hF hn hv hlen (n + 1) [g1] hm (by simp; omega) _ (hall.2 e he)

end

end Wbnf

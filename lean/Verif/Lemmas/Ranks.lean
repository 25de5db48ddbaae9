import Verif.Spec.Terminates
import Verif.Spec.Safe
import Verif.Lemmas.Parts
import Verif.Lemmas.Fold

/-!
A check for `NoLeftRecursion` and `NoEmptyLoop`: guess which rules always consume something, and rank the
rules so that a rule may start only with rules of lower rank.
-/

namespace Wbnf

mutual
/-- Matching the term always consumes something; `leaf` says so for patterns, `d` for rules. -/
def Term.consumes (leaf : Str → Bool) (d : Str → Bool) : Term → Bool
  | .rule r => d r
  | .s l => leaf (anchor ++ (str "(" ++ quoteMeta l ++ str ")"))
  | .re l => leaf (anchor ++ (str "(" ++ l ++ str ")"))
  | .seq ts => anyConsumes leaf d ts
  | .oneof ts => allConsume leaf d ts
  | .quant t lo _ => decide (0 < lo) && t.consumes leaf d
  | .named _ t => t.consumes leaf d
  | .cut t => t.consumes leaf d
  | .delim t _ _ _ _ => t.consumes leaf d
  | .scope t _ => t.consumes leaf d
  | _ => false
def anyConsumes (leaf : Str → Bool) (d : Str → Bool) : List Term → Bool
  | [] => false
  | t :: ts => t.consumes leaf d || anyConsumes leaf d ts
def allConsume (leaf : Str → Bool) (d : Str → Bool) : List Term → Bool
  | [] => true
  | t :: ts => t.consumes leaf d && allConsume leaf d ts
end

mutual
/-- The rules a term may start with. -/
def Term.leads (c : Term → Bool) : Term → List Str
  | .rule r => [r]
  | .seq ts => seqLeads c ts
  | .oneof ts => allLeads c ts
  | .quant t _ _ => t.leads c
  | .look t => t.leads c
  | .named _ t => t.leads c
  | .cut t => t.leads c
  | .delim t sep _ _ _ => t.leads c ++ sep.leads c
  | .scope t _ => t.leads c
  | _ => []
def seqLeads (c : Term → Bool) : List Term → List Str
  | [] => []
  | t :: ts => t.leads c ++ if c t then [] else seqLeads c ts
def allLeads (c : Term → Bool) : List Term → List Str
  | [] => []
  | t :: ts => t.leads c ++ allLeads c ts
end

mutual
/-- A size for which a delimited list is bigger than the sequence it stands for. -/
def Term.rankSize : Term → Nat
  | .seq ts => 1 + ranksSize ts
  | .oneof ts => 1 + ranksSize ts
  | .stack ts => 1 + ranksSize ts
  | .quant t _ _ => 1 + t.rankSize
  | .look t => 1 + t.rankSize
  | .named _ t => 1 + t.rankSize
  | .cut t => 1 + t.rankSize
  | .scope t _ => 1 + t.rankSize
  | .delim t sep _ _ _ => 2 * t.rankSize + 3 * sep.rankSize + 20
  | _ => 1
def ranksSize : List Term → Nat
  | [] => 0
  | t :: ts => t.rankSize + ranksSize ts
end

/-- What the check asks of every part. -/
def rankPart (c : Term → Bool) : Term → Bool
  | .quant t _ 0 => c t
  | .delim t sep _ _ _ => c sep || c t
  | .ext _ => false
  | _ => true

/-- The whole check. -/
def rankCheck (leaf d : Str → Bool) (rank : Str → Nat) (g : Grammar) : Bool :=
  (lookup wrapRE g).isNone && g.allParts (rankPart (Term.consumes leaf d)) &&
  g.all (fun e => !d e.1 || e.2.consumes leaf d) &&
  g.all (fun e => (e.2.leads (Term.consumes leaf d)).all fun r => decide (rank r < rank e.1))

section
variable {E : Engine} {X : Externals} {leaf d : Str → Bool} {rank : Str → Nat} {g : Grammar}

theorem text_parts (q : Term → Bool) (hs : ∀ l, q (.s l) = true) (hq : ∀ ts, q (.seq ts) = true) :
    (t : Term) → t.isText = true → t.allParts q = true
  | .s l, _ => by simp [Term.allParts, hs]
  | .seq ts, h => by
    have : ∀ ts : List Term, (∀ t ∈ ts, t.isText = true → t.allParts q = true) → isTextList ts = true →
        allPartsList q ts = true := by
      intro ts
      induction ts with
      | nil => intros; rfl
      | cons t ts ih =>
        intro h1 h2
        simp only [isTextList, Bool.and_eq_true] at h2
        simp only [allPartsList, Bool.and_eq_true]
        exact ⟨h1 t (by simp) h2.1, ih (fun u hu => h1 u (by simp [hu])) h2.2⟩
    simp only [Term.allParts, hq, Bool.true_and]
    exact this ts (fun t ht => text_parts q hs hq t) (by simpa [Term.isText] using h)
  | .rule _, h => by simp [Term.isText] at h
  | .re _, h => by simp [Term.isText] at h
  | .ref _ _, h => by simp [Term.isText] at h
  | .ext _, h => by simp [Term.isText] at h
  | .oneof _, h => by simp [Term.isText] at h
  | .stack _, h => by simp [Term.isText] at h
  | .delim _ _ _ _ _, h => by simp [Term.isText] at h
  | .look _, h => by simp [Term.isText] at h
  | .quant _ _ _, h => by simp [Term.isText] at h
  | .named _ _, h => by simp [Term.isText] at h
  | .scope _ _, h => by simp [Term.isText] at h
  | .cut _, h => by simp [Term.isText] at h

theorem allPartsList_append {q a b} (h1 : allPartsList q a = true) (h2 : allPartsList q b = true) :
    allPartsList q (a ++ b) = true := by
  induction a with
  | nil => exact h2
  | cons t a ih =>
    simp only [allPartsList, Bool.and_eq_true] at h1
    simp only [List.cons_append, allPartsList, Bool.and_eq_true]
    exact ⟨h1.1, ih h1.2⟩

theorem delimSeq_parts {t sep a cs ce}
    (h : (Term.delim t sep a cs ce).allParts (rankPart (Term.consumes leaf d)) = true) :
    (Term.seq (delimSeq t sep cs ce)).allParts (rankPart (Term.consumes leaf d)) = true := by
  simp only [Term.allParts, Bool.and_eq_true, rankPart] at h
  obtain ⟨⟨h1, h2⟩, h3⟩ := h
  have hopt : (optT sep).allParts (rankPart (Term.consumes leaf d)) = true := by
    simp [optT, Term.allParts, rankPart, h3]
  simp only [Term.allParts, rankPart, Bool.true_and, delimSeq]
  refine allPartsList_append (allPartsList_append ?_ ?_) ?_
  · split
    · simp [allPartsList, hopt]
    · rfl
  · have h1' : Term.consumes leaf d sep = true ∨ Term.consumes leaf d t = true := by simpa using h1
    simp only [allPartsList, Term.allParts, rankPart, anyT, Bool.true_and, h2, h3, Bool.and_true,
      Term.consumes, anyConsumes, Bool.or_false]
    exact h1
  · split
    · simp [allPartsList, hopt]
    · rfl

/-- What holds of goals met under the check. -/
def RankGoal (leaf d : Str → Bool) (g : Grammar) : DGoal → Prop
  | .term Γ _ t _ => (Γ = [g] ∨ Γ = []) ∧ t.allParts (rankPart (Term.consumes leaf d)) = true
  | .items Γ ts _ => (Γ = [g] ∨ Γ = []) ∧ allPartsList (rankPart (Term.consumes leaf d)) ts = true
  | .reps Γ t _ => (Γ = [g] ∨ Γ = []) ∧ t.allParts (rankPart (Term.consumes leaf d)) = true

/-- The goal always consumes something (repetitions: when there is at least one). -/
def GoalConsumes (leaf d : Str → Bool) : DGoal → List Tree → Prop
  | .term _ _ t _, _ => t.consumes leaf d = true
  | .items _ ts _, _ => anyConsumes leaf d ts = true
  | .reps _ t _, vs => t.consumes leaf d = true ∧ vs ≠ []

theorem leaf_moves (hE : E.Sane) {p : Str} {i v j} (h : LeafOut E p i (.ok v j)) :
    i.start ≤ j.start ∧ (NeverEmpty E p → i.start < j.start) := by
  cases h with
  | one hs hf =>
    obtain ⟨a, b', gs, h1, h2, h3, h4⟩ := hE.whole _ _ _ hf
    simp at h1
    obtain ⟨⟨rfl, rfl⟩, rfl⟩ := h1
    refine ⟨by simp only [Scanner.skip]; omega, fun hn => ?_⟩
    have := hn _ _ _ hf
    simp only [Scanner.skip]; omega
  | two hs hf =>
    obtain ⟨a, b', gs, h1, h2, h3, h4⟩ := hE.whole _ _ _ hf
    simp at h1
    obtain ⟨⟨rfl, rfl⟩, rfl⟩ := h1
    refine ⟨by simp only [Scanner.skip]; omega, fun hn => ?_⟩
    have := hn _ _ _ hf
    simp only [Scanner.skip]; omega

theorem allConsume_mem {ts : List Term} {n : Nat} {t : Term} (h : allConsume leaf d ts = true) (ht : ts[n]? = some t) :
    t.consumes leaf d = true := by
  induction ts generalizing n with
  | nil => simp at ht
  | cons u ts ih =>
    simp only [allConsume, Bool.and_eq_true] at h
    cases n with
    | zero => simp at ht; subst ht; exact h.1
    | succ n => exact ih h.2 (by simpa using ht)

theorem rank_moves (hE : E.Sane) (hleaf : ∀ p, leaf p = true → NeverEmpty E p)
    (hw : lookup wrapRE g = none) (hg : g.allParts (rankPart (Term.consumes leaf d)) = true)
    (hd : ∀ e ∈ g, d e.1 = true → e.2.consumes leaf d = true) {G i vs j}
    (h : Derives E X G i vs j) (hok : RankGoal leaf d g G) :
    i.start ≤ j.start ∧ (GoalConsumes leaf d G vs → i.start < j.start) := by
  have hwrap : ∀ {Γ}, Γ = [g] ∨ Γ = [] → wrapOf Γ = none := by
    rintro Γ (rfl | rfl)
    · exact hw
    · rfl
  have hpat : ∀ {Γ text group p}, (Γ = [g] ∨ Γ = []) → LeafPattern (wrapOf Γ) text group p → p = group := by
    intro Γ text group p hΓ hp
    rw [hwrap hΓ] at hp
    cases hp with
    | plain => rfl
    | exempt h => simp at h
    | listed h => simp at h
    | wrapped h => simp at h
  have hdef : ∀ {r t}, Defines g r t → d r = true → t.consumes leaf d = true := by
    intro r t h
    induction h with
    | here hl _ => exact hd _ (lookup_mem hl)
    | «alias» hl _ ih =>
      intro h
      have := hd _ (lookup_mem hl) h
      exact ih (by simpa [Term.consumes] using this)
  induction h with
  | rule hr _ ih =>
    obtain ⟨hΓ, hp⟩ := hok
    have : ∀ {Γ r Γ' t}, (Γ = [g] ∨ Γ = []) → Resolves Γ r Γ' t → Γ' = [g] ∧ Defines g r t := by
      rintro Γ r Γ' t (rfl | rfl) h
      · cases h with
        | here h => exact ⟨rfl, h⟩
        | outer _ h => cases h
      · cases h
    obtain ⟨h1, h2⟩ := this hΓ hr
    obtain ⟨k, hk⟩ := h2.mem
    have := ih ⟨Or.inl h1, by simpa using (List.all_eq_true.1 hg) _ hk⟩
    exact ⟨this.1, fun hc => this.2 (hdef h2 (by simpa [GoalConsumes, Term.consumes] using hc))⟩
  | named _ ih =>
    have := ih ⟨hok.1, by have := hok.2; simp [Term.allParts] at this; exact this.2⟩
    exact ⟨this.1, fun hc => this.2 (by simpa [GoalConsumes, Term.consumes] using hc)⟩
  | cut _ ih =>
    have := ih ⟨hok.1, by have := hok.2; simp [Term.allParts] at this; exact this.2⟩
    exact ⟨this.1, fun hc => this.2 (by simpa [GoalConsumes, Term.consumes] using hc)⟩
  | scope _ _ _ => have := hok.2; simp [Term.allParts] at this
  | lit hp ho =>
    have := leaf_moves hE ho
    refine ⟨this.1, fun hc => this.2 (hleaf _ ?_)⟩
    rw [hpat hok.1 hp]; simpa [GoalConsumes, Term.consumes] using hc
  | regexp hp ho =>
    have := leaf_moves hE ho
    refine ⟨this.1, fun hc => this.2 (hleaf _ ?_)⟩
    rw [hpat hok.1 hp]; simpa [GoalConsumes, Term.consumes] using hc
  | seq _ ih =>
    have := ih ⟨hok.1, by have := hok.2; simp [Term.allParts] at this; exact this.2⟩
    exact ⟨this.1, fun hc => this.2 (by simpa [GoalConsumes, Term.consumes] using hc)⟩
  | nil => exact ⟨Int.le_refl _, fun hc => by simp [GoalConsumes, anyConsumes] at hc⟩
  | cons _ _ ih1 ih2 =>
    obtain ⟨hΓ, hp⟩ := hok
    simp only [allPartsList, Bool.and_eq_true] at hp
    have h1 := ih1 ⟨hΓ, hp.1⟩
    have h2 := ih2 ⟨hΓ, hp.2⟩
    refine ⟨by omega, fun hc => ?_⟩
    simp only [GoalConsumes, anyConsumes, Bool.or_eq_true] at hc
    rcases hc with hc | hc
    · have := h1.2 hc; omega
    · have := h2.2 hc; omega
  | oneof hn _ ih =>
    have := ih ⟨hok.1, by
      have := hok.2; simp [Term.allParts] at this
      exact allPartsList_mem this.2 _ (List.mem_of_getElem? hn)⟩
    exact ⟨this.1, fun hc => this.2 (allConsume_mem (by simpa [GoalConsumes, Term.consumes] using hc) hn)⟩
  | quant _ hlo _ ih =>
    have := ih ⟨hok.1, by have := hok.2; simp [Term.allParts] at this; exact this.2⟩
    refine ⟨this.1, fun hc => this.2 ?_⟩
    simp only [GoalConsumes, Term.consumes, Bool.and_eq_true, decide_eq_true_eq] at hc
    exact ⟨hc.2, fun h => by rw [h] at hlo; simp at hlo; omega⟩
  | stop => exact ⟨Int.le_refl _, fun hc => absurd rfl hc.2⟩
  | more _ _ ih1 ih2 =>
    have h1 := ih1 hok
    have h2 := ih2 hok
    exact ⟨by omega, fun hc => by have := h1.2 hc.1; omega⟩
  | look _ _ => exact ⟨Int.le_refl _, fun hc => by simp [GoalConsumes, Term.consumes] at hc⟩
  | delim _ _ ih =>
    have := ih ⟨hok.1, delimSeq_parts hok.2⟩
    refine ⟨this.1, fun hc => this.2 ?_⟩
    simp only [GoalConsumes, Term.consumes] at hc ⊢
    unfold delimSeq
    split <;> simp [anyConsumes, Term.consumes, hc]
  | ref _ hl hq _ _ ih =>
    have := ih ⟨Or.inr rfl, text_parts _ (fun _ => rfl) (fun _ => rfl) _ (quotable_text _ hq)⟩
    exact ⟨this.1, fun hc => by simp [GoalConsumes, Term.consumes] at hc⟩
  | default _ hq _ ih =>
    have := ih ⟨Or.inr rfl, text_parts _ (fun _ => rfl) (fun _ => rfl) _ (quotable_text _ hq)⟩
    exact ⟨this.1, fun hc => by simp [GoalConsumes, Term.consumes] at hc⟩
  | ext _ _ => have := hok.2; simp [Term.allParts, rankPart] at this

/-! ### Ranks -/

/-- A bound on the ranks a term starts with. -/
def leadRank (c : Term → Bool) (rank : Str → Nat) (t : Term) : Nat :=
  ((t.leads c).map fun r => rank r + 1).foldr max 0

theorem foldr_max_mono {a b : List Nat} (h : ∀ x ∈ a, x ∈ b) : a.foldr max 0 ≤ b.foldr max 0 := by
  have mem : ∀ {x : Nat} {b : List Nat}, x ∈ b → x ≤ b.foldr max 0 := by
    intro x b
    induction b with
    | nil => simp
    | cons y b ih =>
      intro h
      simp at h
      simp only [List.foldr_cons]
      rcases h with rfl | h
      · omega
      · have := ih h; omega
  induction a with
  | nil => simp
  | cons x a ih =>
    simp only [List.foldr_cons]
    have h1 := mem (h x (by simp))
    have h2 := ih fun y hy => h y (by simp [hy])
    omega

theorem leadRank_mono {c : Term → Bool} {t t' : Term} (h : ∀ r ∈ t'.leads c, r ∈ t.leads c) :
    leadRank c rank t' ≤ leadRank c rank t :=
  foldr_max_mono (by
    intro x hx
    simp only [List.mem_map] at hx ⊢
    obtain ⟨r, hr, rfl⟩ := hx
    exact ⟨r, h r hr, rfl⟩)

theorem leadRank_lt {c : Term → Bool} {t : Term} {n : Nat} (h : ∀ r ∈ t.leads c, rank r < n) :
    leadRank c rank t ≤ n := by
  unfold leadRank
  generalize t.leads c = l at h
  induction l with
  | nil => simp
  | cons x l ih =>
    simp only [List.map_cons, List.foldr_cons]
    have := h x (by simp)
    have := ih fun y hy => h y (by simp [hy])
    omega

theorem mem_allLeads {c : Term → Bool} {ts : List Term} {t} (h : t ∈ ts) : ∀ r ∈ t.leads c, r ∈ allLeads c ts := by
  induction ts with
  | nil => simp at h
  | cons u ts ih =>
    intro r hr
    simp at h
    simp only [allLeads, List.mem_append]
    rcases h with rfl | h
    · exact Or.inl hr
    · exact Or.inr (ih h r hr)

theorem mem_seqLeads {c : Term → Bool} {a b : List Term} {t} (h : ∀ u ∈ a, c u = false) :
    ∀ r ∈ t.leads c, r ∈ seqLeads c (a ++ t :: b) := by
  induction a with
  | nil => intro r hr; simp [seqLeads, hr]
  | cons u a ih =>
    intro r hr
    simp only [List.cons_append, seqLeads, h u (by simp), List.mem_append]
    exact Or.inr (by simpa using ih (fun v hv => h v (by simp [hv])) r hr)

theorem ranksSize_mem {ts : List Term} {t} (h : t ∈ ts) : t.rankSize ≤ ranksSize ts := by
  induction ts with
  | nil => simp at h
  | cons u ts ih =>
    simp at h
    simp only [ranksSize]
    rcases h with rfl | h
    · omega
    · have := ih h; omega

theorem leads_opt (c : Term → Bool) (t : Term) : (optT t).leads c = t.leads c := by simp [optT, Term.leads]

theorem delimSeq_leads {c : Term → Bool} {t sep a cs ce} :
    ∀ r ∈ (Term.seq (delimSeq t sep cs ce)).leads c, r ∈ (Term.delim t sep a cs ce).leads c := by
  intro r hr
  have sub : ∀ {a b : List Term}, r ∈ seqLeads c (a ++ b) → r ∈ seqLeads c a ∨ r ∈ seqLeads c b := by
    intro a b
    induction a with
    | nil => intro h; exact Or.inr h
    | cons u a ih =>
      simp only [List.cons_append, seqLeads, List.mem_append]
      rintro (h | h)
      · exact Or.inl (Or.inl h)
      · split at h
        · simp at h
        · rename_i hu
          rcases ih h with h | h
          · exact Or.inl (Or.inr (by simpa [hu] using h))
          · exact Or.inr h
  have two : ∀ {a b : Term}, r ∈ seqLeads c [a, b] → r ∈ a.leads c ∨ r ∈ b.leads c := by
    intro a b h
    simp only [seqLeads, List.mem_append] at h
    rcases h with h | h
    · exact Or.inl h
    · split at h
      · simp at h
      · simp at h
        exact Or.inr h
  have one : ∀ {a : Term}, r ∈ seqLeads c [a] → r ∈ a.leads c := by
    intro a h
    simp only [seqLeads, List.mem_append] at h
    rcases h with h | h
    · exact h
    · split at h <;> simp at h
  simp only [Term.leads, List.mem_append]
  simp only [Term.leads, delimSeq] at hr
  rcases sub hr with hr | hr
  · rcases sub hr with hr | hr
    · split at hr
      · have := one hr; rw [leads_opt] at this; exact Or.inr this
      · simp [seqLeads] at hr
    · have := one hr
      simp only [Term.leads] at this
      rcases two this with h | h
      · exact Or.inl h
      · simp only [anyT, Term.leads] at h
        rcases two h with h | h
        · exact Or.inr h
        · exact Or.inl h
  · split at hr
    · have := one hr; rw [leads_opt] at this; exact Or.inr this
    · simp [seqLeads] at hr

theorem ranksSize_append (a b : List Term) : ranksSize (a ++ b) = ranksSize a + ranksSize b := by
  induction a with
  | nil => simp [ranksSize]
  | cons t a ih => simp only [List.cons_append, ranksSize, ih]; omega

theorem delimSeq_size (t sep a cs ce) :
    (Term.seq (delimSeq t sep cs ce)).rankSize < (Term.delim t sep a cs ce).rankSize := by
  have : ∀ b : Bool, ranksSize (if b then [optT sep] else []) ≤ 1 + sep.rankSize := by
    intro b; cases b <;> simp [ranksSize, optT, Term.rankSize]
  have h1 := this cs
  have h2 := this ce
  simp only [Term.rankSize, delimSeq, ranksSize_append]
  simp only [ranksSize, Term.rankSize, anyT]
  omega

/-- The check is sound. -/
theorem rankCheck_sound (hE : E.Sane) (hleaf : ∀ p, leaf p = true → NeverEmpty E p)
    (h : rankCheck leaf d rank g = true) (r : Str) :
    NoLeftRecursion E X ([g], .rule r) ∧ NoEmptyLoop E X ([g], .rule r) := by
  simp only [rankCheck, Bool.and_eq_true] at h
  obtain ⟨⟨⟨hw, hg⟩, hd⟩, hrank⟩ := h
  have hw : lookup wrapRE g = none := by simpa using hw
  have hd : ∀ e ∈ g, d e.1 = true → e.2.consumes leaf d = true := by
    intro e he h1
    have := List.all_eq_true.1 hd e he
    simpa [h1] using this
  have hrank : ∀ e ∈ g, ∀ r ∈ e.2.leads (Term.consumes leaf d), rank r < rank e.1 := by
    intro e he r hr
    have := List.all_eq_true.1 hrank e he
    simpa using List.all_eq_true.1 this r hr
  have hempty : ∀ {t}, t.allParts (rankPart (Term.consumes leaf d)) = true → CanBeEmpty E X [g] t →
      t.consumes leaf d = false := by
    intro t ht ⟨rule, vals, i, v, _, hv⟩
    cases hc : t.consumes leaf d with
    | false => rfl
    | true =>
      have := (rank_moves hE hleaf hw hg hd hv ⟨Or.inl rfl, ht⟩).2 hc
      omega
  have hdef : ∀ {r t}, Defines g r t → ∀ r' ∈ t.leads (Term.consumes leaf d), rank r' < rank r := by
    intro r t h
    induction h with
    | here hl _ => exact hrank _ (lookup_mem hl)
    | @«alias» r r' t hl _ ih =>
      intro r2 h2
      have h1 := hrank _ (lookup_mem hl) r' (by simp [Term.leads])
      have := ih r2 h2
      simp only at h1
      omega
  have used : ∀ {p}, UsedIn ([g], .rule r) p →
      p.1 = [g] ∧ p.2.allParts (rankPart (Term.consumes leaf d)) = true := by
    intro p hp
    induction hp with
    | self => exact ⟨rfl, rfl⟩
    | step _ hu ih =>
      cases hu with
      | rule hr =>
        obtain ⟨rfl, _⟩ := ih
        cases hr with
        | here hdf =>
          obtain ⟨k, hk⟩ := hdf.mem
          exact ⟨rfl, by simpa using (List.all_eq_true.1 hg) _ hk⟩
        | outer _ h => cases h
      | named => simp [Term.allParts] at ih; exact ⟨ih.1, ih.2.2⟩
      | cut => simp [Term.allParts] at ih; exact ⟨ih.1, ih.2.2⟩
      | scope => simp [Term.allParts] at ih
      | seq hm => simp [Term.allParts] at ih; exact ⟨ih.1, allPartsList_mem ih.2.2 _ hm⟩
      | oneof hm => simp [Term.allParts] at ih; exact ⟨ih.1, allPartsList_mem ih.2.2 _ hm⟩
      | quant => simp [Term.allParts] at ih; exact ⟨ih.1, ih.2.2⟩
      | look => simp [Term.allParts] at ih; exact ⟨ih.1, ih.2.2⟩
      | delim => exact ⟨ih.1, delimSeq_parts ih.2⟩
  refine ⟨?_, fun Γ t lo hu hc => ?_⟩
  · have stp : ∀ {p q : Place}, UsedIn ([g], .rule r) p → Starts E X p q →
        leadRank (Term.consumes leaf d) rank q.2 ≤ leadRank (Term.consumes leaf d) rank p.2 ∧
        (leadRank (Term.consumes leaf d) rank q.2 < leadRank (Term.consumes leaf d) rank p.2 ∨
          q.2.rankSize < p.2.rankSize) := by
      intro p q hu hs
      obtain ⟨hΓ, hparts⟩ := used hu
      cases hs with
      | @rule Γ r' Γ' t hr =>
        simp only at hΓ; subst hΓ
        cases hr with
        | here hdf =>
          have := leadRank_lt (hdef hdf)
          have e : leadRank (Term.consumes leaf d) rank (.rule r') = rank r' + 1 := by
            simp [leadRank, Term.leads]
          simp only [e]
          omega
        | outer _ h => cases h
      | named => exact ⟨leadRank_mono (by simp [Term.leads]), Or.inr (by simp only [Term.rankSize]; omega)⟩
      | cut => exact ⟨leadRank_mono (by simp [Term.leads]), Or.inr (by simp only [Term.rankSize]; omega)⟩
      | scope => simp [Term.allParts] at hparts
      | @seq Γ a t b hem =>
        simp only at hΓ; subst hΓ
        simp [Term.allParts] at hparts
        refine ⟨leadRank_mono ?_, Or.inr ?_⟩
        · simp only [Term.leads]
          exact mem_seqLeads fun u hu' => hempty (allPartsList_mem hparts.2 _ (by simp [hu'])) (hem u hu')
        · have := ranksSize_mem (ts := a ++ t :: b) (t := t) (by simp)
          simp only [Term.rankSize]; omega
      | oneof hm =>
        refine ⟨leadRank_mono ?_, Or.inr ?_⟩
        · simp only [Term.leads]; exact mem_allLeads hm
        · have := ranksSize_mem hm
          simp only [Term.rankSize]; omega
      | quant => exact ⟨leadRank_mono (by simp [Term.leads]), Or.inr (by simp only [Term.rankSize]; omega)⟩
      | look => exact ⟨leadRank_mono (by simp [Term.leads]), Or.inr (by simp only [Term.rankSize]; omega)⟩
      | delim => exact ⟨leadRank_mono delimSeq_leads, Or.inr (delimSeq_size ..)⟩
    intro q hq hqq
    have key : ∀ {p q : Place}, StartsWith E X p q → UsedIn ([g], .rule r) p →
        UsedIn ([g], .rule r) q ∧
        leadRank (Term.consumes leaf d) rank q.2 ≤ leadRank (Term.consumes leaf d) rank p.2 ∧
        (leadRank (Term.consumes leaf d) rank q.2 < leadRank (Term.consumes leaf d) rank p.2 ∨
          q.2.rankSize < p.2.rankSize) := by
      intro p q h hu
      have uses : ∀ {p q}, Starts E X p q → Uses p q := by
        intro p q h
        cases h with
        | rule h => exact .rule h
        | scope h => exact .scope h
        | seq => exact .seq (by simp)
        | oneof h => exact .oneof h
        | _ => constructor
      induction h with
      | one h1 => exact ⟨.step hu (uses h1), stp hu h1⟩
      | step _ h1 ih =>
        obtain ⟨h2, h3, h4⟩ := ih
        have := stp h2 h1
        exact ⟨.step h2 (uses h1), by omega, by omega⟩
    have := (key hqq hq).2.2
    omega
  · obtain ⟨h1, h2⟩ := used hu
    simp only at h1 h2; subst h1
    simp only [Term.allParts, Bool.and_eq_true, rankPart] at h2
    rw [hempty h2.2 hc] at h2
    simp at h2

end

end Wbnf

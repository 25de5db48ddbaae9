import Verif.Lemmas.WriteLeaf
import Verif.Lemmas.CoreViews

/-!
# Reading written words, construct by construct
-/

namespace Wbnf.Core

variable {E : Engine} {X : Externals} {Γ Γ' : List Grammar} {t u : Term} {ts : List Term} {w : Str} {ws ws' k : List Str}
  {P P' : List (Str × Ast) → Prop}

/-- At these words, when what follows is `k`, the term matches all of them, and no more; the parts of its tree are such. -/
def Reads (E : Engine) (X : Externals) (Γ : List Grammar) (t : Term) (k : List Str) (P : List (Str × Ast) → Prop) (ws : List Str) : Prop :=
  ∀ i, Sits i (ws ++ k) → ∀ name, ∃ v j, (∀ vals, Peg E X (.term Γ name t vals i) (.ok v j)) ∧ Sits j k ∧
    ∀ ps, PartsBy LeafRead allRules t v ps → P ps

/-- At these words the term does not match. -/
def Misses (E : Engine) (X : Externals) (Γ : List Grammar) (t : Term) (k : List Str) : Prop :=
  ∀ i, Sits i k → ∀ name vals, Peg E X (.term Γ name t vals i) .fail

def ReadsSeq (E : Engine) (X : Externals) (Γ : List Grammar) (ts : List Term) (k : List Str) (P : List (Str × Ast) → Prop) (ws : List Str) : Prop :=
  ∀ i, Sits i (ws ++ k) → ∃ vs j, (∀ vals c, Peg E X (.seq Γ ts vals c i) (.oks vs j)) ∧ Sits j k ∧
    ∀ ps, PartsBySeq LeafRead allRules ts vs ps → P ps

def MissesSeq (E : Engine) (X : Externals) (Γ : List Grammar) (ts : List Term) (k : List Str) : Prop :=
  ∀ i, Sits i k → ∀ vals, Peg E X (.seq Γ ts vals false i) .fail

def ReadsReps (E : Engine) (X : Externals) (Γ : List Grammar) (t : Term) (k : List Str) (n : Nat) (P : List (Str × Ast) → Prop) (ws : List Str) : Prop :=
  ∀ i, Sits i (ws ++ k) → ∃ vs j, (∀ vals, Peg E X (.reps Γ t vals none i) (.oks vs j)) ∧ Sits j k ∧ vs.length = n ∧
    ∀ ps, PartsByReps LeafRead allRules t vs ps → P ps

theorem Reads.imp (h : Reads E X Γ t k P ws) (hp : ∀ ps, P ps → P' ps) : Reads E X Γ t k P' ws := by
  intro i hi name
  obtain ⟨v, j, h1, h2, h3⟩ := h i hi name
  exact ⟨v, j, h1, h2, fun ps hps => hp _ (h3 ps hps)⟩

theorem Reads.rule {r : Str} (hr : Resolves Γ r Γ' t) (hl : lookup r allRules = Option.some t) (h : Reads E X Γ' t k P ws) :
    Reads E X Γ (.rule r) k (fun ps => ∃ b p, ps = [(shownName r, .branch b)] ∧ Groups t p b ∧ P p) ws := by
  intro i hi name
  obtain ⟨v, j, h1, h2, h3⟩ := h i hi r
  refine ⟨v, j, fun vals => .rule hr (h1 vals), h2, fun ps hps => ?_⟩
  cases hps with
  | rule hl' hp hg =>
    rw [hl] at hl'
    cases hl'
    exact ⟨_, _, rfl, hg, h3 _ hp⟩

theorem Misses.rule {r : Str} (hr : Resolves Γ r Γ' t) (h : Misses E X Γ' t k) : Misses E X Γ (.rule r) k :=
  fun i hi _ vals => .rule hr (h i hi r vals)

theorem Reads.named {n : Str} (h : Reads E X Γ t k P ws) :
    Reads E X Γ (.named n t) k (fun ps => ∃ b p, ps = [(n, .branch b)] ∧ Groups t p b ∧ P p) ws := by
  intro i hi name
  obtain ⟨v, j, h1, h2, h3⟩ := h i hi n
  refine ⟨v, j, fun vals => .named (h1 vals), h2, fun ps hps => ?_⟩
  cases hps with
  | named hp hg => exact ⟨_, _, rfl, hg, h3 _ hp⟩

theorem Misses.named {n : Str} (h : Misses E X Γ t k) : Misses E X Γ (.named n t) k :=
  fun i hi _ vals => .named (h i hi n vals)

theorem Reads.cut (h : Reads E X Γ t k P ws) : Reads E X Γ (.cut t) k P ws := by
  intro i hi name
  obtain ⟨v, j, h1, h2, h3⟩ := h i hi name
  refine ⟨v, j, fun vals => .cut (h1 vals), h2, fun ps hps => ?_⟩
  cases hps with
  | cut hp => exact h3 _ hp

theorem Misses.cut (h : Misses E X Γ t k) : Misses E X Γ (.cut t) k :=
  fun i hi name vals => .cut (h i hi name vals)

theorem Reads.scope {g g' : Grammar} (he : Enters Γ g g') (h : Reads E X (g' :: Γ) t k P ws) : Reads E X Γ (.scope t g) k P ws := by
  intro i hi name
  obtain ⟨v, j, h1, h2, h3⟩ := h i hi name
  refine ⟨v, j, fun vals => .scope he (h1 vals), h2, fun ps hps => ?_⟩
  cases hps with
  | scope hp => exact h3 _ hp

theorem Misses.scope {g g' : Grammar} (he : Enters Γ g g') (h : Misses E X (g' :: Γ) t k) : Misses E X Γ (.scope t g) k :=
  fun i hi name vals => .scope he (h i hi name vals)

/-! ## Sequences -/

theorem ReadsSeq.nil (h : P []) : ReadsSeq E X Γ [] k P [] := by
  intro i hi
  refine ⟨[], i, fun _ _ => .itemsNil, hi, fun ps hps => ?_⟩
  cases hps
  exact h

theorem ReadsSeq.cons (h : Reads E X Γ t (ws' ++ k) P ws) (h' : ReadsSeq E X Γ ts k P' ws') :
    ReadsSeq E X Γ (t :: ts) k (fun ps => ∃ p q, ps = p ++ q ∧ P p ∧ P' q) (ws ++ ws') := by
  intro i hi
  rw [List.append_assoc] at hi
  obtain ⟨v, j, h1, h2, h3⟩ := h i hi []
  obtain ⟨vs, j', h4, h5, h6⟩ := h' j h2
  refine ⟨v :: vs, j', fun vals c => ?_, h5, fun ps hps => ?_⟩
  · by_cases hc : c = true ∨ IsCut Γ t
    · exact .itemsCons (c' := true) (h1 vals) (by simp [hc]) (h4 _ _)
    · exact .itemsCons (c' := false) (h1 vals) (by simp [hc]) (h4 _ _)
  · cases hps with
    | cons hp hq => exact ⟨_, _, rfl, h3 _ hp, h6 _ hq⟩

theorem Reads.seq (h : ReadsSeq E X Γ ts k P ws) : Reads E X Γ (.seq ts) k P ws := by
  intro i hi name
  obtain ⟨vs, j, h1, h2, h3⟩ := h i hi
  refine ⟨_, j, fun vals => .seqOk (h1 vals false), h2, fun ps hps => ?_⟩
  cases hps with
  | seq hp => exact h3 _ hp

theorem MissesSeq.first (h : Misses E X Γ t k) : MissesSeq E X Γ (t :: ts) k :=
  fun i hi vals => by simpa using Peg.itemsFail (c := false) (ts := ts) (h i hi [] vals)

theorem MissesSeq.later (h : Reads E X Γ t k P ws) (hc : ¬ IsCut Γ t) (h' : MissesSeq E X Γ ts k) : MissesSeq E X Γ (t :: ts) (ws ++ k) := by
  intro i hi vals
  obtain ⟨v, j, h1, h2, h3⟩ := h i hi []
  exact .itemsLater (c' := false) (h1 vals) (by simp [hc]) (h' j h2 _) (.inl rfl)

theorem Misses.seq (h : MissesSeq E X Γ ts k) : Misses E X Γ (.seq ts) k :=
  fun i hi _ vals => .seqNo (h i hi vals) (.inl rfl)

/-! ## Choices -/

theorem alts_read {tag : Str} {vals : List (Str × Tree)} {i : Scanner} {o : Out} {n : Nat} :
    ∀ {ts : List Term} {m : Nat}, (∀ l u, l < n → ts[l]? = Option.some u → Peg E X (.term Γ [] u vals i) .fail) →
      Peg E X (.alts Γ tag (ts.drop n) (m + n) vals i) o → Peg E X (.alts Γ tag ts m vals i) o := by
  induction n with
  | zero => intro ts m _ h; simpa using h
  | succ n ih =>
    intro ts m hf h
    cases ts with
    | nil => simp at h; cases h with | altsNil => exact .altsNil
    | cons t ts =>
      refine .altsNext (hf 0 t (by omega) rfl) (ih (fun l u hl hu => hf (l + 1) u (by omega) (by simpa using hu)) ?_)
      rw [List.drop_succ_cons, show m + (n + 1) = m + 1 + n by omega] at h
      exact h

theorem Reads.oneof {n : Nat} (ht : ts[n]? = Option.some t) (hf : ∀ l u, l < n → ts[l]? = Option.some u → Misses E X Γ u (ws ++ k))
    (h : Reads E X Γ t k P ws) : Reads E X Γ (.oneof ts) k (fun ps => ∃ p, ps = (choiceTag, .extra (.choice n)) :: p ∧ P p) ws := by
  intro i hi name
  obtain ⟨v, j, h1, h2, h3⟩ := h i hi []
  refine ⟨.node (ruleOrAlt name oneofTag) (.choice n) [v], j, fun vals => .oneof (alts_read (n := n) (fun l u hl hu => hf l u hl hu i hi [] vals) ?_), h2, fun ps hps => ?_⟩
  · obtain ⟨hn, rfl⟩ := List.getElem?_eq_some_iff.1 ht
    rw [List.drop_eq_getElem_cons hn]
    simpa using Peg.altsOk (i := n) (ts := ts.drop (n + 1)) (h1 vals)
  · cases hps with
    | oneof hu hp =>
      rw [ht] at hu
      cases hu
      exact ⟨_, rfl, h3 _ hp⟩

theorem Misses.oneof (h : ∀ u ∈ ts, Misses E X Γ u k) : Misses E X Γ (.oneof ts) k := by
  intro i hi name vals
  refine .oneof (alts_read (n := ts.length) (fun l u _ hu => h u (List.mem_of_getElem? hu) i hi [] vals) ?_)
  simpa using Peg.altsNil

/-! ## Repetitions -/

theorem Reads.none (h : Misses E X Γ t k) : Reads E X Γ (opt t) k (· = []) [] := by
  intro i hi name
  refine ⟨_, i, fun vals => .quantOk (vs := []) (.repsStop (by simp) (h i hi [] vals)) (by simp), hi, fun ps hps => ?_⟩
  cases hps with
  | quant _ _ hp => cases hp; rfl

theorem Reads.some (h : Reads E X Γ t k P ws) : Reads E X Γ (opt t) k P ws := by
  intro i hi name
  obtain ⟨v, j, h1, h2, h3⟩ := h i hi []
  refine ⟨_, j, fun vals => .quantOk (vs := [v]) (.repsMore (by simp) (h1 vals) .repsMax) (by simp), h2, fun ps hps => ?_⟩
  cases hps with
  | quant _ _ hp =>
    cases hp with
    | cons hp hq =>
      cases hq
      rw [List.append_nil]
      exact h3 _ hp

theorem ReadsReps.nil (h : Misses E X Γ t k) : ReadsReps E X Γ t k 0 (· = []) [] := by
  intro i hi
  refine ⟨[], i, fun vals => .repsStop (by simp) (h i hi [] vals), hi, rfl, fun ps hps => ?_⟩
  cases hps
  rfl

theorem ReadsReps.cons {n : Nat} (h : Reads E X Γ t (ws' ++ k) P ws) (h' : ReadsReps E X Γ t k n P' ws') :
    ReadsReps E X Γ t k (n + 1) (fun ps => ∃ p q, ps = p ++ q ∧ P p ∧ P' q) (ws ++ ws') := by
  intro i hi
  rw [List.append_assoc] at hi
  obtain ⟨v, j, h1, h2, h3⟩ := h i hi []
  obtain ⟨vs, j', h4, h5, h6, h7⟩ := h' j h2
  refine ⟨v :: vs, j', fun vals => .repsMore (by simp) (h1 vals) (h4 vals), h5, by simp [h6], fun ps hps => ?_⟩
  cases hps with
  | cons hp hq => exact ⟨_, _, rfl, h3 _ hp, h7 _ hq⟩

theorem ReadsReps.imp {n : Nat} (h : ReadsReps E X Γ t k n P ws) (hp : ∀ ps, P ps → P' ps) : ReadsReps E X Γ t k n P' ws := by
  intro i hi
  obtain ⟨v, j, h1, h2, h3, h4⟩ := h i hi
  exact ⟨v, j, h1, h2, h3, fun ps hps => hp _ (h4 ps hps)⟩

theorem Reads.quant {lo n : Nat} (h : ReadsReps E X Γ t k n P ws) (hn : lo ≤ n) : Reads E X Γ (.quant t lo 0) k P ws := by
  intro i hi name
  obtain ⟨vs, j, h1, h2, h3, h4⟩ := h i hi
  refine ⟨_, j, fun vals => .quantOk (by simpa using h1 vals) (by omega), h2, fun ps hps => ?_⟩
  cases hps with
  | quant _ _ hp => exact h4 _ hp

theorem Misses.some (h : Misses E X Γ t k) : Misses E X Γ (some t) k := by
  intro i hi name vals
  exact .quantFew (vs := []) (by simpa using Peg.repsStop (by simp) (h i hi [] vals)) (by simp)

/-! ## Lists -/

/-- Separators and terms in turn. -/
def ReadsTail (E : Engine) (X : Externals) (Γ : List Grammar) (t u : Term) (k : List Str) (P : List (Str × Ast) → Prop) (ws : List Str) : Prop :=
  ∀ i, Sits i (ws ++ k) → ∃ (vs : List Tree) (items : List Tree) (j : Scanner),
    (∀ vals, Peg E X (.reps Γ (.seq [u, t]) vals none i) (.oks items j)) ∧ Sits j k ∧
    delimPairs items = Option.some vs ∧ ∀ ps, PartsByList LeafRead allRules false t u vs ps → P ps

theorem ReadsTail.stop (h : Misses E X Γ (.seq [u, t]) k) : ReadsTail E X Γ t u k (· = []) [] := by
  intro i hi
  refine ⟨[], [], i, fun vals => .repsStop (by simp) (h i hi [] vals), hi, rfl, fun ps hps => ?_⟩
  cases hps
  rfl

theorem ReadsTail.nil (h : Misses E X Γ u k) : ReadsTail E X Γ t u k (· = []) [] := .stop (.seq (.first h))

theorem ReadsTail.cons {w1 w2 w3 : List Str} {P1 P2 P3 : List (Str × Ast) → Prop} (h1 : Reads E X Γ u (w2 ++ (w3 ++ k)) P1 w1)
    (h2 : Reads E X Γ t (w3 ++ k) P2 w2) (h3 : ReadsTail E X Γ t u k P3 w3) :
    ReadsTail E X Γ t u k (fun ps => ∃ p1 p2 p3, ps = p1 ++ p2 ++ p3 ∧ P1 p1 ∧ P2 p2 ∧ P3 p3) (w1 ++ w2 ++ w3) := by
  intro i hi
  rw [List.append_assoc, List.append_assoc] at hi
  obtain ⟨v1, j1, a1, a2, a3⟩ := h1 i hi []
  obtain ⟨v2, j2, b1, b2, b3⟩ := h2 j1 a2 []
  obtain ⟨vs, items, j3, c1, c2, c3, c4⟩ := h3 j2 b2
  refine ⟨v1 :: v2 :: vs, .node seqTag .nil [v1, v2] :: items, j3, fun vals => .repsMore (by simp) (.seqOk ?_) (c1 vals), c2, ?_, fun ps hps => ?_⟩
  · have key : ∀ c t', ∃ c' : Bool, c' = true ↔ c = true ∨ IsCut Γ t' := fun c t' => by
      by_cases h : c = true ∨ IsCut Γ t'
      · exact ⟨true, by simp [h]⟩
      · exact ⟨false, by simp [h]⟩
    obtain ⟨c, hc⟩ := key false u
    obtain ⟨c', hc'⟩ := key c t
    exact .itemsCons (a1 vals) hc (.itemsCons (b1 _) hc' .itemsNil)
  · simp [delimPairs, Tree.get?, Tree.children?, c3]
  · cases hps with
    | cons q1 q2 q3 => exact ⟨_, _, _, rfl, a3 _ q1, b3 _ q2, c4 _ q3⟩
    | trail h => cases h

theorem ReadsTail.imp (h : ReadsTail E X Γ t u k P ws) (hp : ∀ ps, P ps → P' ps) : ReadsTail E X Γ t u k P' ws := by
  intro i hi
  obtain ⟨vs, items, j, h1, h2, h3, h4⟩ := h i hi
  exact ⟨vs, items, j, h1, h2, h3, fun ps hps => hp _ (h4 ps hps)⟩

theorem Reads.delim (h : Reads E X Γ t (ws' ++ k) P ws) (h' : ReadsTail E X Γ t u k P' ws') :
    Reads E X Γ (.delim t u 0 false false) k (fun ps => ∃ p q, ps = p ++ q ∧ P p ∧ P' q) (ws ++ ws') := by
  intro i hi name
  rw [List.append_assoc] at hi
  obtain ⟨v, j, a1, a2, a3⟩ := h i hi []
  obtain ⟨vs, items, j', b1, b2, b3, b4⟩ := h' j a2
  have hin : ∀ vals, Peg E X (.term Γ [] (.seq [t, anyT (.seq [u, t])]) vals i) (.ok (.node seqTag .nil [v, .node quantTag .nil items]) j') := by
    intro vals
    refine .seqOk ?_
    by_cases hc : IsCut Γ t
    · exact .itemsCons (c' := true) (a1 vals) (by simp [hc]) (.itemsCons (c' := true) (.quantOk (by simpa using b1 _) (by simp)) (by simp) .itemsNil)
    · refine .itemsCons (c' := false) (a1 vals) (by simp [hc]) (.itemsCons (c' := false) (.quantOk (by simpa using b1 _) (by simp)) ?_ .itemsNil)
      simp only [Bool.false_eq_true, false_or, false_iff]
      rintro ⟨⟩
  have hseq : ∀ vals, Peg E X (.term Γ name (.seq (delimSeq t u false false)) vals i)
      (.ok (.node (ruleOrAlt name seqTag) .nil [.node seqTag .nil [v, .node quantTag .nil items]]) j') := by
    intro vals
    refine .seqOk (.itemsCons (c' := false) (hin vals) ?_ .itemsNil)
    simp only [Bool.false_eq_true, false_or, false_iff]
    rintro ⟨⟩
  refine ⟨.node (ruleOrAlt name delimTag) (.assoc 0) (v :: vs), j', fun vals => .delimOk (hseq vals) ?_, b2, fun ps hps => ?_⟩
  · have : delimItems false false (.node (ruleOrAlt name seqTag) .nil [.node seqTag .nil [v, .node quantTag .nil items]]) = Option.some (v :: vs) := by
      simp [delimItems, Tree.get?, Tree.children?, b3]
    rw [delimFinish, this, Option.bind_some, delimBuild.eq_def]
    cases vs with
    | nil => rfl
    | cons v' vs => simp [leftToRight, rightToLeft]
  · cases hps with
    | delim q1 q2 => exact ⟨_, _, rfl, a3 _ q1, b4 _ q2⟩
    | delimLead h => cases h

theorem seq_two {vals : List (Str × Tree)} {i j j' : Scanner} {v v' : Tree} {name : Str} (h : ∀ vals, Peg E X (.term Γ [] t vals i) (.ok v j))
    (h' : ∀ vals, Peg E X (.term Γ [] u vals j) (.ok v' j')) : Peg E X (.term Γ name (.seq [t, u]) vals i) (.ok (.node (ruleOrAlt name seqTag) .nil [v, v']) j') := by
  have key : ∀ c t', ∃ c' : Bool, c' = true ↔ c = true ∨ IsCut Γ t' := fun c t' => by
    by_cases h : c = true ∨ IsCut Γ t'
    · exact ⟨true, by simp [h]⟩
    · exact ⟨false, by simp [h]⟩
  obtain ⟨c, hc⟩ := key false t
  obtain ⟨c', hc'⟩ := key c u
  exact .seqOk (.itemsCons (h vals) hc (.itemsCons (h' _) hc' .itemsNil))

/-- A list that may begin with a separator, but does not. -/
theorem Reads.delimPlain (h0 : Misses E X Γ u (ws ++ (ws' ++ k))) (h : Reads E X Γ t (ws' ++ k) P ws) (h' : ReadsTail E X Γ t u k P' ws')
    (hv : ∀ {name vals i v j}, Peg E X (.term Γ name t vals i) (.ok v j) → v ≠ .empty) :
    Reads E X Γ (.delim t u 0 true false) k (fun ps => ∃ p q, ps = p ++ q ∧ P p ∧ P' q) (ws ++ ws') := by
  intro i hi name
  rw [List.append_assoc] at hi
  obtain ⟨v, j, a1, a2, a3⟩ := h i hi []
  obtain ⟨vs, items, j', b1, b2, b3, b4⟩ := h' j a2
  have hin : ∀ vals, Peg E X (.term Γ [] (.seq [t, anyT (.seq [u, t])]) vals i) (.ok (.node seqTag .nil [v, .node quantTag .nil items]) j') :=
    fun vals => seq_two (name := []) a1 fun vals => .quantOk (by simpa using b1 vals) (by simp)
  have hseq : ∀ vals, Peg E X (.term Γ name (.seq (delimSeq t u true false)) vals i)
      (.ok (.node (ruleOrAlt name seqTag) .nil [.node quantTag .nil [], .node seqTag .nil [v, .node quantTag .nil items]]) j') :=
    fun vals => seq_two (fun vals => .quantOk (vs := []) (.repsStop (by simp) (h0 i hi [] vals)) (by simp)) hin
  refine ⟨.node (ruleOrAlt name delimTag) (.assoc 0) (v :: vs), j', fun vals => .delimOk (hseq vals) ?_, b2, fun ps hps => ?_⟩
  · have : delimItems true false (.node (ruleOrAlt name seqTag) .nil [.node quantTag .nil [], .node seqTag .nil [v, .node quantTag .nil items]]) = Option.some (v :: vs) := by
      simp [delimItems, Tree.get?, Tree.children?, b3]
    rw [delimFinish, this, Option.bind_some, delimBuild.eq_def]
    cases vs with
    | nil => rfl
    | cons v' vs => simp [leftToRight, rightToLeft]
  · cases hps with
    | delim q1 q2 => exact ⟨_, _, rfl, a3 _ q1, b4 _ q2⟩
    | delimLead => exact absurd rfl (hv (a1 []))

/-- A list that begins with a separator. -/
theorem Reads.delimLead {w0 : List Str} {P0 : List (Str × Ast) → Prop} (h0 : Reads E X Γ u (ws ++ (ws' ++ k)) P0 w0) (h : Reads E X Γ t (ws' ++ k) P ws)
    (h' : ReadsTail E X Γ t u k P' ws') (hv : ∀ ps, ¬ PartsBy LeafRead allRules t .empty ps) :
    Reads E X Γ (.delim t u 0 true false) k (fun ps => ∃ p0 p q, ps = (emptyTag, .extra (.text (str "@prefix"))) :: (p0 ++ p ++ q) ∧ P0 p0 ∧ P p ∧ P' q)
      (w0 ++ (ws ++ ws')) := by
  intro i hi name
  rw [List.append_assoc, List.append_assoc] at hi
  obtain ⟨v0, j0, c1, c2, c3⟩ := h0 i hi []
  obtain ⟨v, j, a1, a2, a3⟩ := h j0 c2 []
  obtain ⟨vs, items, j', b1, b2, b3, b4⟩ := h' j a2
  have hin : ∀ vals, Peg E X (.term Γ [] (.seq [t, anyT (.seq [u, t])]) vals j0) (.ok (.node seqTag .nil [v, .node quantTag .nil items]) j') :=
    fun vals => seq_two (name := []) a1 fun vals => .quantOk (by simpa using b1 vals) (by simp)
  have hseq : ∀ vals, Peg E X (.term Γ name (.seq (delimSeq t u true false)) vals i)
      (.ok (.node (ruleOrAlt name seqTag) .nil [.node quantTag .nil [v0], .node seqTag .nil [v, .node quantTag .nil items]]) j') :=
    fun vals => seq_two (fun vals => .quantOk (vs := [v0]) (.repsMore (by simp) (c1 vals) .repsMax) (by simp)) hin
  refine ⟨.node (ruleOrAlt name delimTag) (.assoc 0) (.empty :: v0 :: v :: vs), j', fun vals => .delimOk (hseq vals) ?_, b2, fun ps hps => ?_⟩
  · have : delimItems true false (.node (ruleOrAlt name seqTag) .nil [.node quantTag .nil [v0], .node seqTag .nil [v, .node quantTag .nil items]]) =
        Option.some (.empty :: v0 :: v :: vs) := by
      simp [delimItems, Tree.get?, Tree.children?, b3]
    rw [delimFinish, this, Option.bind_some, delimBuild.eq_def]
    simp [leftToRight, rightToLeft]
  · cases hps with
    | delim q1 q2 => exact absurd q1 (hv _)
    | delimLead _ _ q =>
      cases q with
      | cons q0 q1 q2 => exact ⟨_, _, _, rfl, c3 _ q0, a3 _ q1, b4 _ q2⟩
      | trail h => cases h

theorem Misses.delim (h : Misses E X Γ t k) : Misses E X Γ (.delim t u 0 false false) k := by
  intro i hi name vals
  exact .delimNo (Misses.seq (.first (Misses.seq (.first h))) i hi name vals) (.inl rfl)

end Wbnf.Core

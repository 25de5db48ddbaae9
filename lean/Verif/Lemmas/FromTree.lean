import Verif.Lemmas.Times
import Verif.Lemmas.Flatten
import Verif.Lemmas.ConformsBy
import Verif.Lemmas.PartsBy

/-!
# FromParserNode groups the parts of a tree
-/

namespace Wbnf

/-! ## Adding parts to a branch -/

/-- Add a part to a branch; `κ` says which names are stored alone. -/
def put (κ : Str → Bool) (b : Branch) (k : Str) (x : Ast) : Except Stop Branch :=
  if κ k then b.one k x else b.many k x

def addAll (κ : Str → Bool) : Branch → List (Str × Ast) → Except Stop Branch
  | b, [] => .ok b
  | b, (k, x) :: ps => (put κ b k x).bind fun b => addAll κ b ps

theorem addAll_append {κ : Str → Bool} {b : Branch} {ps qs : List (Str × Ast)} :
    addAll κ b (ps ++ qs) = (addAll κ b ps).bind fun b => addAll κ b qs := by
  induction ps generalizing b with
  | nil => rfl
  | cons p ps ih =>
    obtain ⟨k, x⟩ := p
    simp only [List.cons_append, addAll]
    cases put κ b k x with
    | error e => rfl
    | ok b' => exact ih

theorem partsNamed_append (k : Str) (ps qs : List (Str × Ast)) : partsNamed k (ps ++ qs) = partsNamed k ps ++ partsNamed k qs := by
  simp [partsNamed]

theorem partsNamed_one (k k' : Str) (x : Ast) : partsNamed k [(k', x)] = if k' = k then [x] else [] := by
  unfold partsNamed
  by_cases h : k' = k <;> simp [h]

theorem partsNamed_cons (k k' : Str) (x : Ast) (ps : List (Str × Ast)) :
    partsNamed k ((k', x) :: ps) = (if k' = k then [x] else []) ++ partsNamed k ps := by
  rw [show (k', x) :: ps = [(k', x)] ++ ps from rfl, partsNamed_append, partsNamed_one]

theorem length_partsNamed_one (k k' : Str) (x : Ast) : (partsNamed k [(k', x)]).length = once k' k := by
  rw [partsNamed_one]; unfold once; split <;> rfl

def kidsOf (one : Bool) : List Ast → Option Kids
  | [] => none
  | x :: xs => if one then some (.one x) else some (.many (x :: xs))

/-- The branch has these parts. -/
def Holds (κ : Str → Bool) (ps : List (Str × Ast)) (b : Branch) : Prop :=
  (b.map Prod.fst).Nodup ∧ ∀ k, lookup k b = kidsOf (κ k) (partsNamed k ps)

theorem put_holds {κ : Str → Bool} {ps : List (Str × Ast)} {b : Branch} {k : Str} {x : Ast} (h : Holds κ ps b)
    (h1 : κ k = true → partsNamed k ps = []) : ∃ b', put κ b k x = .ok b' ∧ Holds κ (ps ++ [(k, x)]) b' := by
  obtain ⟨hn, hl⟩ := h
  have hk := hl k
  have key : ∀ c : Kids, kidsOf (κ k) (partsNamed k ps ++ [x]) = some c → Holds κ (ps ++ [(k, x)]) (mapSet k c b) := by
    intro c hc
    refine ⟨(mapSet_keys hn).1, fun k' => ?_⟩
    rw [partsNamed_append, partsNamed_one]
    by_cases e : k = k'
    · subst e
      simp only [if_true, lookup_mapSet_self, hc]
    · simp only [e, if_false, List.append_nil]
      rw [lookup_mapSet_ne (Ne.symm e), hl k']
  unfold put
  by_cases hκ : κ k = true
  · rw [h1 hκ] at hk key
    simp only [kidsOf] at hk
    refine ⟨_, ?_, key (.one x) (by simp [kidsOf, hκ])⟩
    simp [hκ, Branch.one, hasKey, hk]
  · simp only [hκ, if_false, Bool.false_eq_true]
    unfold Branch.many
    cases hp : partsNamed k ps with
    | nil =>
      rw [hp] at hk key
      simp only [kidsOf] at hk
      rw [hk]
      exact ⟨_, rfl, key _ (by simp [kidsOf, hκ])⟩
    | cons y ys =>
      rw [hp] at hk key
      simp only [kidsOf, hκ, if_false, Bool.false_eq_true] at hk
      rw [hk]
      exact ⟨_, rfl, key _ (by simp [kidsOf, hκ])⟩

theorem addAll_holds {κ : Str → Bool} {ps : List (Str × Ast)} : ∀ {qs : List (Str × Ast)} {b : Branch}, Holds κ qs b →
    (∀ k, κ k = true → (partsNamed k (qs ++ ps)).length ≤ 1) → ∃ b', addAll κ b ps = .ok b' ∧ Holds κ (qs ++ ps) b' := by
  induction ps with
  | nil => intro qs b h _; exact ⟨b, rfl, by simpa using h⟩
  | cons p ps ih =>
    intro qs b h h1
    obtain ⟨k, x⟩ := p
    obtain ⟨b1, h2, h3⟩ := put_holds (x := x) h (k := k) (fun hκ => by
      have := h1 k hκ
      rw [partsNamed_append, partsNamed_cons] at this
      simp only [if_true, List.length_append, List.length_cons, List.length_nil] at this
      exact List.length_eq_zero_iff.1 (by omega))
    obtain ⟨b', h4, h5⟩ := ih h3 (by simpa using h1)
    exact ⟨b', by simp only [addAll, h2]; exact h4, by simpa using h5⟩

/-! ## Go equality of a term and the list it is in -/

theorem goEq_delim_self : (x : Term) → ∀ (s : Term) (a : Int) (cs ce : Bool), x.goEq (.delim x s a cs ce) = .ok false
  | .delim y s' _ _ _, _, _, _, _ => by
    simp only [Term.goEq]
    rw [goEq_delim_self y]
    rfl
  | .rule _, _, _, _, _ => rfl
  | .s _, _, _, _, _ => rfl
  | .re _, _, _, _, _ => rfl
  | .named _ _, _, _, _, _ => rfl
  | .ref _ _, _, _, _, _ => rfl
  | .ext _, _, _, _, _ => rfl
  | .scope _ _, _, _, _, _ => rfl
  | .stack _, _, _, _, _ => rfl
  | .seq _, _, _, _, _ => rfl
  | .oneof _, _, _, _, _ => rfl
  | .quant _ _ _, _, _, _, _ => rfl
  | .cut _, _, _, _, _ => rfl
  | .look _, _, _, _, _ => rfl

theorem goEq_not_delim {x t s : Term} {a : Int} {cs ce : Bool} (h : ¬ ∃ t s b cs ce, x = .delim t s b cs ce) :
    x.goEq (.delim t s a cs ce) = .ok false := by
  cases x with
  | delim t s b cs ce => exact absurd ⟨_, _, _, _, _, rfl⟩ h
  | _ => rfl

/-! ## Conversion -/

/-- The counters store each part alone exactly where `κ` says so, and `κ` says so only where at most one part
is counted. -/
def Coherent (ns : List (Str × Str)) (hi : Str → Nat) (ctrs : Counters) (κ : Str → Bool) : Prop :=
  κ choiceTag = false ∧ κ emptyTag = false ∧
  ∀ p ∈ ns, ctrs.get p.1 ≠ ⟨0, 0⟩ ∧ (κ p.2 = true ↔ ctrs.get p.1 = ⟨0, 1⟩ ∨ ctrs.get p.1 = ⟨1, 1⟩) ∧ (κ p.2 = true → hi p.1 ≤ 1)

theorem Coherent.mono {ns ms : List (Str × Str)} {hi hi' : Str → Nat} {ctrs : Counters} {κ : Str → Bool} (h : Coherent ns hi ctrs κ)
    (hs : ∀ p ∈ ms, p ∈ ns) (hh : ∀ c, hi' c ≤ hi c) : Coherent ms hi' ctrs κ :=
  ⟨h.1, h.2.1, fun p hp => by
    obtain ⟨a, b, c⟩ := h.2.2 p (hs p hp)
    exact ⟨a, b, fun hk => Nat.le_trans (hh _) (c hk)⟩⟩

theorem Coherent.add {hi ctrs κ} {c d : Str} {ns : List (Str × Str)} (h : Coherent ns hi ctrs κ) (hm : (c, d) ∈ ns) (b : Branch) (x : Ast) : b.add d x (ctrs.get c) = put κ b d x := by
  obtain ⟨h1, h2, _⟩ := h.2.2 (c, d) hm
  unfold Branch.add put
  rw [if_neg h1]
  by_cases e : κ d = true
  · rw [if_pos (h2.1 e), if_pos e]
  · rw [if_neg (fun h => e (h2.2 h)), if_neg e]

abbrev Term.hi (t : Term) (c : Str) : Nat := (t.tally c).hi

/-- The state `g` has the rules of the stack `Γ`, and only rules of `G`. -/
def Between (Γ : List Grammar) (g G : Grammar) : Prop :=
  (∀ g' ∈ Γ, ∀ r t, lookup r g' = some t → lookup r g = some t) ∧ ∀ r t, lookup r g = some t → lookup r G = some t

/-- The state becomes `g'` by adding rules of `G`. -/
def Grown (G g g' : Grammar) : Prop := ∃ l : Grammar, (∀ e ∈ l, lookup e.1 G = some e.2) ∧ g' = overlay g l

theorem overlay_append (g l m : Grammar) : overlay g (l ++ m) = overlay (overlay g l) m := by
  induction l generalizing g with
  | nil => rfl
  | cons e l ih => obtain ⟨r, t⟩ := e; exact ih _

theorem Grown.refl (G g : Grammar) : Grown G g g := ⟨[], by simp, rfl⟩

theorem Grown.trans {G g g' g'' : Grammar} (h : Grown G g g') (h' : Grown G g' g'') : Grown G g g'' := by
  obtain ⟨l, h1, rfl⟩ := h
  obtain ⟨m, h2, rfl⟩ := h'
  exact ⟨l ++ m, fun e he => (List.mem_append.1 he).elim (h1 e) (h2 e), (overlay_append ..).symm⟩

theorem Grown.between {Γ : List Grammar} {G g g' : Grammar} (h : Grown G g g') (hb : Between Γ g G) : Between Γ g' G := by
  obtain ⟨l, h1, rfl⟩ := h
  induction l generalizing g with
  | nil => exact hb
  | cons e l ih =>
    obtain ⟨r, t⟩ := e
    have hr := h1 (r, t) (by simp)
    refine ih ⟨fun g' hg r' t' hl => ?_, fun r' t' hl => ?_⟩ (fun e he => h1 e (by simp [he]))
    · have h2 := hb.1 g' hg r' t' hl
      by_cases e : r' = r
      · subst e
        rw [lookup_mapSet_self]
        exact hr.symm.trans (hb.2 _ _ h2)
      · rwa [lookup_mapSet_ne e]
    · by_cases e : r' = r
      · subst e
        rw [lookup_mapSet_self] at hl
        exact hr.trans hl
      · rw [lookup_mapSet_ne e] at hl
        exact hb.2 _ _ hl

theorem mapSet_same {α : Type} {r : Str} {t : α} : ∀ {g : List (Str × α)}, lookup r g = some t → mapSet r t g = g
  | [], h => by simp [lookup] at h
  | (k, u) :: g, h => by
    simp only [lookup] at h
    simp only [mapSet]
    split at h
    · rename_i e
      cases h; rw [if_pos e, e]
    · rename_i e
      rw [if_neg e, mapSet_same h]

/-- Nothing is added if all rules are there. -/
theorem Grown.same {G g g' : Grammar} (h : Grown G g g') (hs : ∀ r t, lookup r G = some t → lookup r g = some t) : g' = g := by
  obtain ⟨l, h1, rfl⟩ := h
  induction l with
  | nil => rfl
  | cons e l ih =>
    obtain ⟨r, t⟩ := e
    simp only [overlay]
    rw [mapSet_same (hs r t (h1 (r, t) (by simp)))]
    exact ih fun e he => h1 e (by simp [he])

/-- The tree has parts, their numbers are as the term allows, and conversion adds them to the branch. -/
def Conv (L : Term → Scanner → Prop) (G : Grammar) (Γ : List Grammar) (t : Term) (v : Tree) : Prop :=
  v ≠ .empty ∧ ∃ ps, PartsBy L G t v ps ∧ (∀ k, k ≠ choiceTag → k ≠ emptyTag → Times t k (partsNamed k ps).length) ∧
  ∃ N, ∀ g, Between Γ g G → ∃ g', Grown G g g' ∧
    ∀ n, N ≤ n → ∀ ctrs κ b, Coherent t.partNames t.hi ctrs κ → fromTree n t ctrs v g b = (addAll κ b ps).bind fun b => .ok (g', b)

theorem bind_assoc {α β γ : Type} (x : Except Stop α) (f : α → Except Stop β) (g : β → Except Stop γ) :
    (x.bind f).bind g = x.bind fun a => (f a).bind g := by cases x <;> rfl

theorem bind_pair {G : Grammar} {x : Except Stop Branch} {f : Grammar × Branch → Except Stop (Grammar × Branch)} :
    (x.bind fun b => .ok (G, b)).bind f = x.bind fun b => f (G, b) := by cases x <;> rfl

theorem conv_seq {L : Term → Scanner → Prop} {G : Grammar} {Γ : List Grammar} : ∀ {ts : List Term} {vs : List Tree}, vs.length = ts.length →
    (∀ (i : Nat) t v, ts[i]? = some t → vs[i]? = some v → Conv L G Γ t v) →
    ∃ ps, PartsBySeq L G ts vs ps ∧ (∀ k, k ≠ choiceTag → k ≠ emptyTag → TimesAll ts k (partsNamed k ps).length) ∧
    ∃ N, ∀ g, Between Γ g G → ∃ g', Grown G g g' ∧
      ∀ n, N ≤ n → ∀ ctrs κ b, Coherent (Term.partNames.names ts) (fun c => (tallySum c ts).hi) ctrs κ →
        loopSeq (fun t v => fromTree n t ctrs v) ts vs g b = (addAll κ b ps).bind fun b => .ok (g', b) := by
  intro ts
  induction ts with
  | nil =>
    intro vs hl _
    simp at hl; subst hl
    exact ⟨[], .nil, fun k _ _ => .nil, 0, fun g _ => ⟨g, .refl _ _, fun n _ ctrs κ b _ => rfl⟩⟩
  | cons t ts ih =>
    intro vs hl h
    cases vs with
    | nil => simp at hl
    | cons v vs =>
      obtain ⟨_, ps, h1, h2, N, h3⟩ := h 0 t v rfl rfl
      obtain ⟨qs, h4, h5, M, h6⟩ := ih (vs := vs) (by simpa using hl) (fun i t v e1 e2 => h (i + 1) t v (by simpa using e1) (by simpa using e2))
      refine ⟨ps ++ qs, .cons h1 h4, fun k e1 e2 => ?_, max N M, fun g hg => ?_⟩
      · rw [partsNamed_append, List.length_append]
        exact .cons (h2 k e1 e2) (h5 k e1 e2)
      · obtain ⟨g1, w1, h3⟩ := h3 g hg
        obtain ⟨g2, w2, h6⟩ := h6 g1 (w1.between hg)
        refine ⟨g2, w1.trans w2, fun n hn ctrs κ b hc => ?_⟩
        simp only [loopSeq]
        rw [h3 n (by omega) ctrs κ b (hc.mono (fun p hp => by simp [Term.partNames.names, hp]) (fun c => by simp [tallySum, Counter.add, Term.hi])), bind_pair, addAll_append, bind_assoc]
        congr 1
        funext b
        exact h6 n (by omega) ctrs κ b (hc.mono (fun p hp => by simp [Term.partNames.names, hp]) (fun c => by simp [tallySum, Counter.add]))

theorem conv_reps {L : Term → Scanner → Prop} {G : Grammar} {Γ : List Grammar} {t : Term} : ∀ {vs : List Tree}, (∀ v ∈ vs, Conv L G Γ t v) →
    ∃ ps, PartsByReps L G t vs ps ∧ (∀ k, k ≠ choiceTag → k ≠ emptyTag → TimesRep t k vs.length (partsNamed k ps).length) ∧
    ∃ N, ∀ g, Between Γ g G → ∃ g', Grown G g g' ∧
      ∀ n, N ≤ n → ∀ ctrs κ b, Coherent t.partNames t.hi ctrs κ →
        loopTrees (fromTree n t ctrs) vs g b = (addAll κ b ps).bind fun b => .ok (g', b) := by
  intro vs
  induction vs with
  | nil => intro _; exact ⟨[], .nil, fun k _ _ => .zero, 0, fun g _ => ⟨g, .refl _ _, fun n _ ctrs κ b _ => rfl⟩⟩
  | cons v vs ih =>
    intro h
    obtain ⟨_, ps, h1, h2, N, h3⟩ := h v (by simp)
    obtain ⟨qs, h4, h5, M, h6⟩ := ih (fun v hv => h v (by simp [hv]))
    refine ⟨ps ++ qs, .cons h1 h4, fun k e1 e2 => ?_, max N M, fun g hg => ?_⟩
    · rw [partsNamed_append, List.length_append]
      exact .succ (h2 k e1 e2) (h5 k e1 e2)
    · obtain ⟨g1, w1, h3⟩ := h3 g hg
      obtain ⟨g2, w2, h6⟩ := h6 g1 (w1.between hg)
      refine ⟨g2, w1.trans w2, fun n hn ctrs κ b hc => ?_⟩
      simp only [loopTrees]
      rw [h3 n (by omega) ctrs κ b hc, bind_pair, addAll_append, bind_assoc]
      congr 1
      funext b
      exact h6 n (by omega) ctrs κ b hc

theorem loopDelim_item {f : Term → Tree → Grammar → Branch → Except Stop (Grammar × Branch)} {sep side other : Term} {sepnext first : Bool}
    {v : Tree} {vs : List Tree} {g : Grammar} {b : Branch} (hv : v ≠ .empty) :
    loopDelim f sep side other sepnext first (v :: vs) g b = (f (if sepnext then sep else side) v g b).bind fun s =>
      if sepnext then loopDelim f sep side other false false vs s.1 s.2 else loopDelim f sep other side true false vs s.1 s.2 := by
  cases v with
  | empty => exact absurd rfl hv
  | _ => simp only [loopDelim]

theorem loopDelim_congr {f f' : Term → Tree → Grammar → Branch → Except Stop (Grammar × Branch)} {sep : Term} (h1 : f sep = f' sep) : ∀ {vs : List Tree} {side other : Term}
    {sepnext first : Bool} {g : Grammar} {b : Branch}, f side = f' side → f other = f' other →
    loopDelim f sep side other sepnext first vs g b = loopDelim f' sep side other sepnext first vs g b := by
  intro vs
  induction vs with
  | nil => intros; rfl
  | cons v vs ih =>
    intro side other sepnext first g b h2 h3
    simp only [loopDelim]
    have e : f (if sepnext = true then sep else side) = f' (if sepnext = true then sep else side) := by split <;> assumption
    rw [e]
    congr 1
    funext s
    split
    · exact ih h2 h3
    · exact ih h3 h2

theorem conv_list {L : Term → Scanner → Prop} {G : Grammar} {Γ : List Grammar} {t sep : Term} {ce : Bool} {trail : Option Tree} (ht : ∀ s, trail = some s → Conv L G Γ sep s)
    (hce : trail.isSome = true → ce = true) : ∀ {rest : List (Tree × Tree)}, (∀ p ∈ rest, Conv L G Γ sep p.1) → (∀ p ∈ rest, Conv L G Γ t p.2) →
    ∃ ps, PartsByList L G ce t sep (rest.flatMap (fun p => [p.1, p.2]) ++ trailing trail) ps ∧
    (∀ k, k ≠ choiceTag → k ≠ emptyTag → ∃ n n', (partsNamed k ps).length = n + n' ∧ TimesRep t k rest.length n ∧ TimesRep sep k (rest.length + trail.toList.length) n') ∧
    ∃ N, ∀ g, Between Γ g G → ∃ g', Grown G g g' ∧
      ∀ n, N ≤ n → ∀ ctrs κ b, Coherent (t.partNames ++ sep.partNames) (fun c => t.hi c + sep.hi c) ctrs κ →
      loopDelim (fun t v => fromTree n t ctrs v) sep t t true false (rest.flatMap (fun p => [p.1, p.2]) ++ trailing trail) g b =
        (addAll κ b ps).bind fun b => .ok (g', b) := by
  intro rest
  induction rest with
  | nil =>
    intro _ _
    cases trail with
    | none => exact ⟨[], .nil, fun k _ _ => ⟨0, 0, rfl, .zero, .zero⟩, 0, fun g _ => ⟨g, .refl _ _, fun n _ ctrs κ b _ => rfl⟩⟩
    | some s =>
      obtain ⟨hne, ps, h1, h2, N, h3⟩ := ht s rfl
      refine ⟨_, .trail (hce rfl) h1, fun k e1 e2 => ⟨0, (partsNamed k ps).length + 0, ?_, .zero, .succ (h2 k e1 e2) .zero⟩, N, fun g hg => ?_⟩
      · rw [partsNamed_append, partsNamed_one, if_neg (Ne.symm e2)]; simp
      · obtain ⟨g1, w1, h3⟩ := h3 g hg
        refine ⟨g1, w1, fun n hn ctrs κ b hc => ?_⟩
        simp only [trailing, List.flatMap_nil, List.nil_append]
        rw [loopDelim_item hne]
        simp only [if_true]
        rw [h3 n hn ctrs κ b (hc.mono (fun p hp => by simp [hp]) (fun c => by simp [Term.hi])), bind_pair, addAll_append, bind_assoc]
        congr 1
        funext b
        simp only [loopDelim, addAll, put, hc.2.1, if_false, Bool.false_eq_true]
        cases b.many emptyTag (.extra (.text (str "@suffix"))) <;> rfl
  | cons p rest ih =>
    intro h1 h2
    obtain ⟨hne, ps, a1, a2, N, a3⟩ := h1 p (by simp)
    obtain ⟨hne', ps', b1, b2, N', b3⟩ := h2 p (by simp)
    obtain ⟨qs, c1, c2, M, c3⟩ := ih (fun p hp => h1 p (by simp [hp])) (fun p hp => h2 p (by simp [hp]))
    refine ⟨ps ++ ps' ++ qs, ?_, fun k e1 e2 => ?_, max N (max N' M), fun g hg => ?_⟩
    · simp only [List.flatMap_cons, List.cons_append, List.nil_append]
      exact .cons a1 b1 c1
    · obtain ⟨x, y, e, r1, r2⟩ := c2 k e1 e2
      refine ⟨(partsNamed k ps').length + x, (partsNamed k ps).length + y, ?_, .succ (b2 k e1 e2) r1, ?_⟩
      · simp only [partsNamed_append, List.length_append, e]; omega
      · have := TimesRep.succ (a2 k e1 e2) r2
        rwa [show rest.length + trail.toList.length + 1 = (p :: rest).length + trail.toList.length by simp; omega] at this
    · obtain ⟨g1, w1, a3⟩ := a3 g hg
      obtain ⟨g2, w2, b3⟩ := b3 g1 (w1.between hg)
      obtain ⟨g3, w3, c3⟩ := c3 g2 ((w1.trans w2).between hg)
      refine ⟨g3, (w1.trans w2).trans w3, fun n hn ctrs κ b hc => ?_⟩
      simp only [List.flatMap_cons, List.cons_append, List.nil_append]
      rw [loopDelim_item hne]
      simp only [if_true]
      rw [a3 n (by omega) ctrs κ b (hc.mono (fun p hp => by simp [hp]) (fun c => by simp [Term.hi])), bind_pair, List.append_assoc, addAll_append, bind_assoc]
      congr 1
      funext b
      rw [loopDelim_item hne']
      simp only [if_false, Bool.false_eq_true]
      rw [b3 n (by omega) ctrs κ b (hc.mono (fun p hp => by simp [hp]) (fun c => by simp [Term.hi])), bind_pair, addAll_append, bind_assoc]
      congr 1
      funext b
      exact c3 n (by omega) ctrs κ b hc

/-! ## Bodies of rules and named terms -/

open Classical in
/-- Which names of a rule are stored alone. -/
noncomputable def alone (t : Term) (k : Str) : Bool := decide (AtMostOne t k ∧ k ≠ choiceTag ∧ k ≠ emptyTag)

theorem alone_iff {t : Term} {k : Str} : alone t k = true ↔ AtMostOne t k ∧ k ≠ choiceTag ∧ k ≠ emptyTag := by simp [alone]

theorem Holds.groups {t : Term} {ps : List (Str × Ast)} {b : Branch} (h : Holds (alone t) ps b)
    (h1 : ∀ k, alone t k = true → (partsNamed k ps).length ≤ 1) : Groups t ps b := by
  refine ⟨h.1, fun k => ?_⟩
  have hk := h.2 k
  have hl := h1 k
  cases hp : partsNamed k ps with
  | nil => rw [hp] at hk; exact hk
  | cons x xs =>
    rw [hp] at hk hl
    refine ⟨fun ha => ?_, fun ha => ?_⟩
    · have ha := alone_iff.2 ha
      have := hl ha
      simp only [kidsOf, ha, if_true] at hk
      simp only [List.length_cons] at this
      exact ⟨List.length_eq_zero_iff.1 (by omega), hk⟩
    · have ha : ¬ alone t k = true := fun h => ha (alone_iff.1 h)
      simpa only [kidsOf, ha, if_false, Bool.false_eq_true] using hk

theorem coherent_new {t : Term} (hn : t.NamesApart) (hd : t.Deep Term.Converts) :
    ∃ ctrs, newCounters (some t) = .ok ctrs ∧ Coherent t.partNames t.hi ctrs (alone t) := by
  obtain ⟨ctrs, h1, h2⟩ := newCounters_get hd
  refine ⟨ctrs, h1, ?_, ?_, fun p hp => ?_⟩
  · simp [alone]
  · simp [alone]
  · rw [h2]
    have hc : Coh t.partNames p.1 p.2 := fun q hq => hn.1 q hq p hp
    have hpos := (tally_pos p.1 t).2 ⟨p, hp, rfl⟩
    have hlo := tally_lo p.1 t hd
    have ha := atMostOne_iff hc hd
    have hres := hn.2 p hp
    refine ⟨fun h => by rw [h] at hpos; simp at hpos, ?_, fun hk => ha.1 (alone_iff.1 hk).1⟩
    rw [alone_iff, ha]
    constructor
    · rintro ⟨h, _⟩
      have e1 : (t.tally p.1).hi = 1 := by omega
      rcases Nat.le_one_iff_eq_zero_or_eq_one.1 (show (t.tally p.1).lo ≤ 1 by omega) with e | e
      · exact .inl (Counter.ext' e e1)
      · exact .inr (Counter.ext' e e1)
    · intro h
      refine ⟨?_, hres.1, hres.2.1⟩
      rcases h with h | h <;> rw [h] <;> exact Nat.le_refl _

theorem exists_fresh (l : List (Str × Str)) : ∃ c : Str, ∀ q ∈ l, q.1 ≠ c := by
  have : ∃ m, ∀ q ∈ l, q.1.length < m := by
    induction l with
    | nil => exact ⟨0, by simp⟩
    | cons a l ih =>
      obtain ⟨m, h⟩ := ih
      refine ⟨m + a.1.length + 1, fun q hq => ?_⟩
      rcases List.mem_cons.1 hq with rfl | hq
      · omega
      · have := h q hq; omega
  obtain ⟨m, h⟩ := this
  exact ⟨List.replicate m 0, fun q hq e => by have := h q hq; rw [e] at this; simp at this⟩

theorem times_zero {t : Term} {d : Str} {n : Nat} (h : ∀ q ∈ t.partNames, q.2 ≠ d) (hd : t.Deep Term.Converts) (ht : Times t d n) : n = 0 := by
  obtain ⟨c, hc⟩ := exists_fresh t.partNames
  have h1 : Coh t.partNames c d := fun q hq => ⟨fun e => absurd e (hc q hq), fun e => absurd e (h q hq)⟩
  have h2 : (t.tally c).hi = 0 := by
    have := tally_pos c t
    have h3 : ¬ ∃ p ∈ t.partNames, p.1 = c := fun ⟨p, hp, e⟩ => hc p hp e
    have h4 : ¬ 0 < (t.tally c).hi := fun h => h3 (this.1 h)
    omega
  have := times_le t h1 hd ht
  omega

theorem Conv.body_top {L : Term → Scanner → Prop} {G : Grammar} {Γ : List Grammar} {t : Term} {v : Tree} {x : Ast} (h : Conv L G Γ t v) (hn : t.NamesApart) (hd : t.Deep Term.Converts) :
    ∃ ps b ctrs, PartsBy L G t v ps ∧ Groups t ((ruleTag, x) :: ps) b ∧ newCounters (some t) = .ok ctrs ∧
      ∃ N, ∀ g, Between Γ g G → ∃ g', Grown G g g' ∧ ∀ n, N ≤ n → fromTree n t ctrs v g [(ruleTag, .one x)] = .ok (g', b) := by
  obtain ⟨_, ps, h1, h2, N, h3⟩ := h
  obtain ⟨ctrs, h4, h5⟩ := coherent_new hn hd
  have hr : ∀ n, Times t ruleTag n → n = 0 := fun n => times_zero (fun q hq => (hn.2 q hq).2.2) hd
  have hne : ruleTag ≠ choiceTag ∧ ruleTag ≠ emptyTag := by decide
  have ha : alone t ruleTag = true := alone_iff.2 ⟨fun n hn => by have := hr n hn; omega, hne⟩
  have hle : ∀ k, alone t k = true → (partsNamed k ([(ruleTag, x)] ++ ps)).length ≤ 1 := fun k hk => by
    obtain ⟨a, b, c⟩ := alone_iff.1 hk
    have := h2 k b c
    rw [List.singleton_append, partsNamed_cons, List.length_append]
    by_cases e : ruleTag = k
    · subst e
      have := hr _ this
      simp [this]
    · have := a _ this
      simpa [e] using this
  obtain ⟨b, h6, h7⟩ := addAll_holds (κ := alone t) (qs := [(ruleTag, x)]) (b := [(ruleTag, .one x)]) (ps := ps)
    ⟨by simp, fun k => by
      by_cases e : ruleTag = k
      · subst e; simp [lookup, partsNamed_one, kidsOf, ha]
      · simp [lookup, partsNamed_one, kidsOf, e]⟩ hle
  refine ⟨ps, b, ctrs, h1, h7.groups hle, h4, N, fun g hg => ?_⟩
  obtain ⟨g', w, h3⟩ := h3 g hg
  refine ⟨g', w, fun n hn => ?_⟩
  rw [h3 n hn ctrs _ _ h5, h6]
  rfl

theorem Conv.body {L : Term → Scanner → Prop} {G : Grammar} {Γ : List Grammar} {t : Term} {v : Tree} (h : Conv L G Γ t v) (hn : t.NamesApart) (hd : t.Deep Term.Converts) :
    ∃ ps b ctrs, PartsBy L G t v ps ∧ Groups t ps b ∧ newCounters (some t) = .ok ctrs ∧
      ∃ N, ∀ g, Between Γ g G → ∃ g', Grown G g g' ∧ ∀ n, N ≤ n → fromTree n t ctrs v g [] = .ok (g', b) := by
  obtain ⟨_, ps, h1, h2, N, h3⟩ := h
  obtain ⟨ctrs, h4, h5⟩ := coherent_new hn hd
  have hle : ∀ k, alone t k = true → (partsNamed k ps).length ≤ 1 := fun k hk => by
    obtain ⟨a, b, c⟩ := alone_iff.1 hk
    exact a _ (h2 k b c)
  obtain ⟨b, h6, h7⟩ := addAll_holds (κ := alone t) (qs := []) (b := []) (ps := ps) ⟨by simp, fun k => by simp [lookup, partsNamed, kidsOf]⟩ (by simpa using hle)
  refine ⟨ps, b, ctrs, h1, Holds.groups (by simpa using h7) hle, h4, N, fun g hg => ?_⟩
  obtain ⟨g', w, h3⟩ := h3 g hg
  refine ⟨g', w, fun n hn => ?_⟩
  rw [h3 n hn ctrs _ [] h5, h6]
  rfl

theorem times_once {t : Term} {name : Str} {x : Ast} (h : ∀ k, Times t k (once name k)) (k : Str) (_ : k ≠ choiceTag) (_ : k ≠ emptyTag) :
    Times t k (partsNamed k [(name, x)]).length := by
  rw [length_partsNamed_one]; exact h k

theorem addAll_one {κ : Str → Bool} {b : Branch} {k : Str} {x : Ast} {G : Grammar} :
    (addAll κ b [(k, x)]).bind (fun b => .ok (G, b)) = (put κ b k x).bind fun b => (.ok (G, b) : Except Stop (Grammar × Branch)) := by
  simp only [addAll]
  cases put κ b k x <;> rfl

theorem Conv.mono {L : Term → Scanner → Prop} {G : Grammar} {Γ Γ' : List Grammar} {t : Term} {v : Tree} (h : Conv L G Γ t v) (hs : ∀ g ∈ Γ, g ∈ Γ') : Conv L G Γ' t v := by
  obtain ⟨h0, ps, h1, h2, N, h3⟩ := h
  exact ⟨h0, ps, h1, h2, N, fun g hg => h3 g ⟨fun g' hm => hg.1 g' (hs g' hm), hg.2⟩⟩

theorem Conv.rule {L : Term → Scanner → Prop} {g0 G : Grammar} {Γ : List Grammar} {r : Str} {t : Term} {v : Tree} (hG : g0.ConvertibleIn G)
    {g1 : Grammar} (hm1 : g1 ∈ Γ) (hl1 : lookup r g1 = some t) (hl : lookup r G = some t) (hr : ShowsName r) (h : Conv L G Γ t v) : Conv L G Γ (.rule r) v := by
  have hm := lookup_mem hl
  obtain ⟨ps, b, ctrs', h1, h2, h3, N, h4⟩ := h.body (hG.apart _ _ hm) (deepDefs_iff.1 hG.deep _ _ hm)
  refine ⟨h.1, _, .rule hl h1 h2, times_once fun k => .rule, N + 1, fun g hg => ?_⟩
  obtain ⟨g', w, h4⟩ := h4 g hg
  refine ⟨g', w, fun n hn ctrs κ b' hc => ?_⟩
  obtain ⟨n, rfl⟩ : ∃ k, n = k + 1 := ⟨n - 1, by omega⟩
  obtain ⟨name, hname⟩ := hr
  have hs : shownName r = name := by simp [shownName, hname]
  rw [addAll_one, hs, ← hc.add (c := r) (by simp [Term.partNames, hs])]
  simp only [fromTree, hg.1 g1 hm1 r t hl1, h3, hname, Except.bind, h4 n (by omega)]

theorem Defines.conv {L : Term → Scanner → Prop} {g0 G : Grammar} {Γ : List Grammar} {r : Str} {t : Term} {v : Tree} (hG : g0.ConvertibleIn G)
    {g1 : Grammar} (hm : g1 ∈ Γ) (hs : ∀ r t, lookup r g1 = some t → lookup r G = some t) (hd : Defines g1 r t) (hr : ShowsName r) (h : Conv L G Γ t v) :
    Conv L G Γ (.rule r) v := by
  induction hd with
  | here hl _ => exact h.rule hG hm hl (hs _ _ hl) hr
  | «alias» hl _ ih => exact (ih (deepDefs_iff.1 hG.deep _ _ (lookup_mem (hs _ _ hl))) h).rule hG hm hl (hs _ _ hl) hr

theorem Defines.stored {g : Grammar} {r : Str} {t : Term} (h : Defines g r t) : ∃ k, lookup k g = some t := by
  induction h with
  | here h _ => exact ⟨_, h⟩
  | «alias» _ _ ih => exact ih

/-- What is found under a stack of grammars is in one of them. -/
theorem Resolves.found {Γ Γ' : List Grammar} {r : Str} {t : Term} (h : Resolves Γ r Γ' t) :
    (∀ g ∈ Γ', g ∈ Γ) ∧ ∃ g ∈ Γ', Defines g r t := by
  induction h with
  | here hd => exact ⟨fun _ h => h, _, by simp, hd⟩
  | outer _ _ ih => exact ⟨fun g hg => List.mem_cons_of_mem _ (ih.1 g hg), ih.2⟩

/-- What a grammar in braces stands for has rules of `G` only, and conversion of a tree knows them. -/
theorem Enters.between {Γ : List Grammar} {g0 g1 G : Grammar} (h : Enters Γ g0 g1) (hs : ∀ r ts, (r, .stack ts) ∉ g0)
    (hG : ∀ r t, lookup r g0 = some t → lookup r G = some t) (hΓ : ∀ g' ∈ Γ, ∀ r t, lookup r g' = some t → lookup r G = some t) :
    (∀ r t, lookup r g1 = some t → lookup r G = some t) ∧
    ∀ g, Between Γ g G → (g0.map Prod.fst).Nodup → Between (g1 :: Γ) (overlay g g0) G ∧ Grown G g (overlay g g0) := by
  obtain ⟨g1', hr, rfl⟩ := h
  have hst : g0.any (fun e => e.2.isStack) = false := by
    rw [List.any_eq_false]
    rintro ⟨r, t⟩ hm
    cases t with
    | stack ts => exact absurd hm (hs r ts)
    | _ => simp [Term.isStack]
  simp only [Grammar.resolveStacks, hst, Bool.false_eq_true, if_false, Option.some.injEq] at hr
  subst hr
  have hw : ∀ r t, lookup r (inheritWrap (wrapOf Γ) g0) = some t → lookup r g0 = some t ∨ ∃ g' ∈ Γ, lookup r g' = some t := by
    intro r t hl
    unfold inheritWrap at hl
    split at hl
    · exact .inl hl
    · rename_i w hw
      split at hl
      · exact .inl hl
      · by_cases e : r = wrapRE
        · subst e
          rw [lookup_mapSet_self] at hl
          cases hl
          cases Γ with
          | nil => cases hw
          | cons g' Γ => exact .inr ⟨g', by simp, hw⟩
        · rw [lookup_mapSet_ne e] at hl
          exact .inl hl
  refine ⟨fun r t hl => (hw r t hl).elim (hG r t) (fun ⟨g', hm, h⟩ => hΓ g' hm r t h), fun g hb hn => ?_⟩
  have hlm : ∀ e ∈ g0, lookup e.1 g0 = some e.2 := fun e he => lookup_of_mem hn he
  have hgr : Grown G g (overlay g g0) := ⟨g0, fun e he => hG _ _ (hlm e he), rfl⟩
  have hb' := hgr.between hb
  have hin : ∀ {l : Grammar} {g : Grammar} {r t}, (l.map Prod.fst).Nodup → lookup r l = some t → lookup r (overlay g l) = some t := by
    intro l
    induction l with
    | nil => intro g r t _ h; simp [lookup] at h
    | cons e l ih =>
      intro g r t hn h
      obtain ⟨k, u⟩ := e
      simp only [List.map_cons, List.nodup_cons] at hn
      simp only [lookup] at h
      split at h
      · rename_i e
        cases h; subst e
        simp only [overlay]
        have : ∀ {l : Grammar} {g : Grammar}, k ∉ l.map Prod.fst → lookup k g = some t → lookup k (overlay g l) = some t := by
          intro l
          induction l with
          | nil => intro g _ h; exact h
          | cons e l ih =>
            intro g hk h
            obtain ⟨k', u'⟩ := e
            simp only [List.map_cons, List.mem_cons, not_or] at hk
            exact ih hk.2 (by rwa [lookup_mapSet_ne hk.1])
        exact this hn.1 (lookup_mapSet_self ..)
      · exact ih hn.2 h
  refine ⟨⟨fun g' hm r t hl => ?_, hb'.2⟩, hgr⟩
  rcases List.mem_cons.1 hm with rfl | hm
  · rcases hw r t hl with h | ⟨g', hm, h⟩
    · exact hin hn h
    · exact hb'.1 g' hm r t h
  · exact hb'.1 g' hm r t hl

theorem Conv.ref {L : Term → Scanner → Prop} {G : Grammar} {Γ' : List Grammar} {i : Str} {d : Option Term} {Γ rule t v} (hv : Conforms Γ rule t v) (ht : t.isText = true) : Conv L G Γ' (.ref i d) v := by
  induction hv with
  | lit =>
    refine ⟨by simp, _, .refLeaf, times_once fun k => by simpa using Times.ref (d := d) (m := 1) (i := i) (k := k) (by omega), 1,
      fun g _ => ⟨g, .refl _ _, fun n hn ctrs κ b hc => ?_⟩⟩
    obtain ⟨n, rfl⟩ : ∃ k, n = k + 1 := ⟨n - 1, by omega⟩
    rw [addAll_one, ← hc.add (c := i) (by simp [Term.partNames])]
    rfl
  | seq hl _ ih =>
    rename_i ts vs _
    have hall : ∀ v ∈ vs, Conv L G Γ' (.ref i d) v := by
      intro v hv
      obtain ⟨j, hj⟩ := List.getElem?_of_mem hv
      have hlt : j < ts.length := by
        have := (List.getElem?_eq_some_iff.1 hj).1
        omega
      obtain ⟨t, ht'⟩ : ∃ t, ts[j]? = some t := ⟨ts[j], List.getElem?_eq_getElem hlt⟩
      refine ih j t v ht' hj ?_
      have : ∀ (ts : List Term) t, isTextList ts = true → t ∈ ts → t.isText = true := by
        intro ts
        induction ts with
        | nil => simp
        | cons a ts ih => intro t h hm; simp only [isTextList, Bool.and_eq_true] at h; exact (List.mem_cons.1 hm).elim (fun e => e ▸ h.1) (ih t h.2)
      exact this ts t (by simpa [Term.isText] using ht) (List.mem_of_getElem? ht')
    obtain ⟨ps, h1, h2, N, h3⟩ := conv_reps hall
    have hpl : ∀ κ : Str → Bool, κ i = false → ∀ {vs ps}, PartsByReps L G (.ref i d) vs ps → ∀ k, κ k = true → partsNamed k ps = [] := by
      intro κ hi vs
      induction vs with
      | nil => intro ps h k _; cases h; rfl
      | cons v vs ih =>
        intro ps h k hk
        cases h with
        | cons a b =>
          rw [partsNamed_append, ih b k hk]
          have hne : i ≠ k := fun e => by subst e; rw [hi] at hk; exact absurd hk (by simp)
          cases a <;> simp [partsNamed_one, hne]
    have hnot : ∀ k, alone (.ref i d) k = true → k ≠ i := by
      rintro k hk rfl
      have := (alone_iff.1 hk).1 2 (by simpa [once] using Times.ref (d := d) (m := 2) (i := k) (k := k) (by omega))
      omega
    have hi : alone (.ref i d) i = false := by
      cases e : alone (.ref i d) i with
      | false => rfl
      | true => exact absurd rfl (hnot i e)
    obtain ⟨b2, h6, h7⟩ := addAll_holds (κ := alone (.ref i d)) (qs := []) (b := []) (ps := ps) ⟨by simp, fun k => by simp [lookup, partsNamed, kidsOf]⟩ (fun k hk => by
      simp only [List.nil_append]
      rw [hpl _ hi h1 k hk]; simp)
    have hg : Groups (.ref i d) ps b2 := Holds.groups (by simpa using h7) (fun k hk => by rw [hpl _ hi h1 k hk]; simp)
    refine ⟨by simp, _, .refNode h1 hg, times_once fun k => by simpa using Times.ref (d := d) (m := 1) (i := i) (k := k) (by omega), N + 1, fun g hg => ?_⟩
    obtain ⟨g', w, h3⟩ := h3 g hg
    refine ⟨g', w, fun n hn ctrs κ b hc => ?_⟩
    obtain ⟨n, rfl⟩ : ∃ k, n = k + 1 := ⟨n - 1, by omega⟩
    rw [addAll_one, ← hc.add (c := i) (by simp [Term.partNames])]
    simp only [fromTree]
    rw [h3 n (by omega) ctrs κ [] hc, bind_pair]
    have hκi : κ i = false := by
      cases e : κ i with
      | false => rfl
      | true =>
        have := (hc.2.2 (i, i) (by simp [Term.partNames])).2.2 e
        simp [Term.hi, Term.tally, onceC, Counter.mul, oneOrMore] at this
    have : addAll κ [] ps = addAll (alone (.ref i d)) [] ps := by
      have : ∀ {vs ps}, PartsByReps L G (.ref i d) vs ps → ∀ b, addAll κ b ps = addAll (alone (.ref i d)) b ps := by
        intro vs
        induction vs with
        | nil => intro ps h b; cases h; rfl
        | cons v vs ih =>
          intro ps h b
          cases h with
          | cons a a' =>
            rw [addAll_append, addAll_append]
            have e : ∀ x : Ast, addAll κ b [(i, x)] = addAll (alone (.ref i d)) b [(i, x)] := by
              intro x; simp only [addAll, put, hκi, hi]
            cases a with
            | refLeaf => rw [e]; congr 1; funext b; exact ih a' b
            | refNode _ _ => rw [e]; congr 1; funext b; exact ih a' b
      exact this h1 []
    rw [this, h6]
    rfl
  | _ => simp [Term.isText] at ht

theorem ConformsBy.conv {L : Term → Scanner → Prop} {Γ rule t v} (h : ConformsBy (fun _ => L) Γ rule t v) : ∀ {g0 G : Grammar}, (∀ g' ∈ Γ, ∀ r t, lookup r g' = some t → lookup r G = some t) →
    g0.ConvertibleIn G → t.Deep Term.Converts → t.Deep (Term.BracesIn G) → Conv L G Γ t v := by
  induction h with
  | rule hr _ ih =>
    intro g0 G hΓ hG ht hb
    obtain ⟨hsub, g1, hm, hd⟩ := hr.found
    obtain ⟨k, hk⟩ := hd.stored
    have hk' := lookup_mem (hΓ g1 (hsub g1 hm) k _ hk)
    exact hd.conv hG (hsub g1 hm) (hΓ g1 (hsub g1 hm)) ht
      ((ih (fun g' h => hΓ g' (hsub g' h)) hG (deepDefs_iff.1 hG.deep k _ hk') (deepDefs_iff.1 hG.braces k _ hk')).mono hsub)
  | @named Γ rule name t v _ ih =>
    intro g0 G hΓ hG ht hb
    have h := ih hΓ hG ht.2 hb.2
    obtain ⟨ps, b, ctrs', h1, h2, h3, N, h4⟩ := h.body ht.1 ht.2
    refine ⟨h.1, _, .named h1 h2, times_once fun k => .named, N + 1, fun g hg => ?_⟩
    obtain ⟨g', w, h4⟩ := h4 g hg
    refine ⟨g', w, fun n hn ctrs κ b' hc => ?_⟩
    obtain ⟨n, rfl⟩ : ∃ k, n = k + 1 := ⟨n - 1, by omega⟩
    rw [addAll_one, ← hc.add (c := name) (by simp [Term.partNames])]
    simp only [fromTree, h3, Except.bind, h4 n (by omega)]
  | cut _ ih =>
    intro g0 G hΓ hG ht hb
    obtain ⟨hne, ps, h1, h2, N, h3⟩ := ih hΓ hG ht.2 hb.2
    refine ⟨hne, ps, .cut h1, fun k a b => .cut (h2 k a b), N + 1, fun g hg => ?_⟩
    obtain ⟨g', w, h3⟩ := h3 g hg
    refine ⟨g', w, fun n hN ctrs κ b hc => ?_⟩
    obtain ⟨n, rfl⟩ : ∃ k, n = k + 1 := ⟨n - 1, by omega⟩
    exact h3 n (by omega) ctrs κ b hc
  | scope he _ ih =>
    intro g0 G hΓ hG ht hb
    obtain ⟨hin, hst⟩ := he.between ht.1.2 hb.1 hΓ
    obtain ⟨hne, ps, h1, h2, N, h3⟩ := ih (fun g' hm => (List.mem_cons.1 hm).elim (fun e => e ▸ hin) (hΓ g')) hG ht.2.1 hb.2.1
    refine ⟨hne, ps, .scope h1, fun k a b => ?_, N + 1, fun g hg => ?_⟩
    · have := TimesRep.succ (h2 k a b) .zero
      rw [Nat.add_zero] at this
      exact .scope this (by omega)
    · obtain ⟨hb1, hw1⟩ := hst g hg ht.1.1
      obtain ⟨g', w, h3⟩ := h3 _ hb1
      refine ⟨g', hw1.trans w, fun n hN ctrs κ b hc => ?_⟩
      obtain ⟨n, rfl⟩ : ∃ k, n = k + 1 := ⟨n - 1, by omega⟩
      exact h3 n (by omega) ctrs κ b (hc.mono (fun p hp => hp) (fun c => by simp only [Term.hi, Term.tally, Counter.mul, oneOrMore]; omega))
  | lit hs =>
    intro g0 G hΓ hG ht hb
    refine ⟨by simp, _, .lit hs, times_once fun k => .lit, 1, fun g _ => ⟨g, .refl _ _, fun n hn ctrs κ b hc => ?_⟩⟩
    obtain ⟨n, rfl⟩ : ∃ k, n = k + 1 := ⟨n - 1, by omega⟩
    rw [addAll_one, ← hc.add (c := []) (by simp [Term.partNames])]
    rfl
  | regexp hs =>
    intro g0 G hΓ hG ht hb
    refine ⟨by simp, _, .regexp hs, times_once fun k => .regexp, 1, fun g _ => ⟨g, .refl _ _, fun n hn ctrs κ b hc => ?_⟩⟩
    obtain ⟨n, rfl⟩ : ∃ k, n = k + 1 := ⟨n - 1, by omega⟩
    rw [addAll_one, ← hc.add (c := []) (by simp [Term.partNames])]
    rfl
  | seq hl _ ih =>
    intro g0 G hΓ hG ht hb
    obtain ⟨ps, h1, h2, N, h3⟩ := conv_seq (G := G) hl (fun i t v e1 e2 => ih i t v e1 e2 hΓ hG (deepList_iff.1 ht.2 _ (List.mem_of_getElem? e1)) (deepList_iff.1 hb.2 _ (List.mem_of_getElem? e1)))
    refine ⟨by simp, ps, .seq h1, fun k a b => .seq (h2 k a b), N + 1, fun g hg => ?_⟩
    obtain ⟨g', w, h3⟩ := h3 g hg
    refine ⟨g', w, fun n hn ctrs κ b hc => ?_⟩
    obtain ⟨n, rfl⟩ : ∃ k, n = k + 1 := ⟨n - 1, by omega⟩
    exact h3 n (by omega) ctrs κ b hc
  | @oneof Γ rule ts i t v hl _ ih =>
    intro g0 G hΓ hG ht hb
    have hm := List.mem_of_getElem? hl
    obtain ⟨_, ps, h1, h2, N, h3⟩ := ih hΓ hG (deepList_iff.1 ht.2 _ hm) (deepList_iff.1 hb.2 _ hm)
    refine ⟨by simp, _, .oneof hl h1, fun k a b => ?_, N + 1, fun g hg => ?_⟩
    · rw [partsNamed_cons, if_neg (Ne.symm a)]
      exact .oneof hm (h2 k a b)
    · obtain ⟨g', w, h3⟩ := h3 g hg
      refine ⟨g', w, fun n hn ctrs κ b hc => ?_⟩
      obtain ⟨n, rfl⟩ : ∃ k, n = k + 1 := ⟨n - 1, by omega⟩
      simp only [fromTree, addAll, put, hc.1, if_false, Bool.false_eq_true, hl, bind_assoc]
      congr 1
      funext b
      refine h3 n (by omega) ctrs κ b (hc.mono ?_ ?_)
      · intro p hp
        simp only [Term.partNames]
        clear hc hl ht hb
        induction ts with
        | nil => simp at hm
        | cons a ts ih' =>
          simp only [Term.partNames.names, List.mem_append]
          rcases List.mem_cons.1 hm with e | hm
          · left; rwa [← e]
          · right; exact ih' hm
      · intro c
        simp only [Term.hi, Term.tally]
        clear hc hl ht hb
        induction ts with
        | nil => simp at hm
        | cons a ts ih' =>
          simp only [tallyMax]
          rcases List.mem_cons.1 hm with e | hm
          · rw [e]; omega
          · have := ih' hm; omega
  | @quant Γ rule t lo hi vs h1 h2 _ ih =>
    intro g0 G hΓ hG ht hb
    obtain ⟨ps, a1, a2, N, a3⟩ := conv_reps (G := G) (fun v hv => ih v hv hΓ hG ht.2 hb.2)
    refine ⟨by simp, ps, .quant h1 h2 a1, fun k x y => .quant (a2 k x y) h1 h2, N + 1, fun g hg => ?_⟩
    obtain ⟨g', w, a3⟩ := a3 g hg
    refine ⟨g', w, fun n hn ctrs κ b hc => ?_⟩
    obtain ⟨n, rfl⟩ : ∃ k, n = k + 1 := ⟨n - 1, by omega⟩
    refine a3 n (by omega) ctrs κ b (hc.mono (fun p hp => hp) (fun c => ?_))
    simp only [Term.hi, Term.tally, Counter.mul]
    exact Nat.le_mul_of_pos_left _ (by split <;> omega)
  | look _ ih =>
    intro g0 G hΓ hG ht hb
    obtain ⟨hne, ps, h1, h2, N, h3⟩ := ih hΓ hG ht.2 hb.2
    refine ⟨by simp, ps, .look h1, fun k a b => .look (h2 k a b), N + 1, fun g hg => ?_⟩
    obtain ⟨g', w, h3⟩ := h3 g hg
    refine ⟨g', w, fun n hn ctrs κ b hc => ?_⟩
    obtain ⟨n, rfl⟩ : ∃ k, n = k + 1 := ⟨n - 1, by omega⟩
    simp only [fromTree, loopTrees]
    rw [h3 n (by omega) ctrs κ b hc]
    cases addAll κ b ps <;> rfl
  | @delim Γ rule t sep a cs ce lead first rest trail v _ _ _ _ h1 _ h2 hn ih1 ih2 ih3 ih4 ih5 =>
    rintro g0 G hΓ hG ⟨⟨ha, ha', hsep⟩, ht, hs⟩ ⟨_, bt, bs⟩
    cases hn with
    | left e _ => exact absurd e ha
    | right e _ => exact absurd e ha'
    | flat _ =>
      have hlen : trail.toList.length ≤ ce.toNat := by
        cases trail with
        | none => simp
        | some s => simp [h2]
      have hmono : ∀ {ctrs κ}, Coherent (Term.delim t sep a cs ce).partNames (Term.delim t sep a cs ce).hi ctrs κ →
          Coherent (t.partNames ++ sep.partNames) (fun c => t.hi c + sep.hi c) ctrs κ := fun hc =>
        hc.mono (fun p hp => hp) (fun c => by simp only [Term.hi, Term.tally, Counter.mul, Counter.add, oneOrMore, zeroOrMore]; omega)
      have hfrom : ∀ n ctrs tag vs g b, fromTree (n + 1) (.delim t sep a cs ce) ctrs (.node tag (.assoc 0) vs) g b =
          loopDelim (fun t v => fromTree n t ctrs v) sep t t false true vs g b := by
        intro n ctrs tag vs g b
        simp only [fromTree, Int.lt_irrefl, if_false]
        apply loopDelim_congr
        · funext v g b; rw [goEq_not_delim hsep]; rfl
        · funext v g b; rw [goEq_delim_self]; rfl
        · funext v g b; rw [goEq_delim_self]; rfl
      cases lead with
      | none =>
        obtain ⟨hne, ps, a1, a2, N, a3⟩ := ih1 hΓ hG ht bt
        obtain ⟨qs, b1, b2, M, b3⟩ := conv_list (G := G) (t := t) (sep := sep) (trail := trail) (fun s e => ih5 s e hΓ hG hs bs) h2 (rest := rest)
          (fun p hp => ih2 p hp hΓ hG hs bs) (fun p hp => ih3 p hp hΓ hG ht bt)
        refine ⟨by simp, ps ++ qs, ?_, fun k e1 e2 => ?_, max N M + 1, fun g hg => ?_⟩
        · simpa [listItems, leading] using PartsBy.delim a1 b1
        · obtain ⟨x, y, e, r1, r2⟩ := b2 k e1 e2
          rw [partsNamed_append, List.length_append, e, ← Nat.add_assoc]
          exact .delim (.succ (a2 k e1 e2) r1) (by omega) r2 (by omega) (by omega)
        · obtain ⟨g1, w1, a3⟩ := a3 g hg
          obtain ⟨g2, w2, b3⟩ := b3 g1 (w1.between hg)
          refine ⟨g2, w1.trans w2, fun n hn ctrs κ b hc => ?_⟩
          obtain ⟨n, rfl⟩ : ∃ k, n = k + 1 := ⟨n - 1, by omega⟩
          simp only [listItems, leading, List.nil_append, List.cons_append]
          rw [hfrom, loopDelim_item hne]
          simp only [if_false, Bool.false_eq_true]
          rw [a3 n (by omega) ctrs κ b ((hmono hc).mono (fun p hp => by simp [hp]) (fun c => by simp)), bind_pair, addAll_append, bind_assoc]
          congr 1
          funext b
          exact b3 n (by omega) ctrs κ b (hmono hc)
      | some s =>
        obtain ⟨qs, b1, b2, M, b3⟩ := conv_list (G := G) (t := t) (sep := sep) (trail := trail) (fun s e => ih5 s e hΓ hG hs bs) h2 (rest := (s, first) :: rest)
          (fun p hp => by
            rcases List.mem_cons.1 hp with rfl | hp
            · exact ih4 s rfl hΓ hG hs bs
            · exact ih2 p hp hΓ hG hs bs)
          (fun p hp => by
            rcases List.mem_cons.1 hp with rfl | hp
            · exact ih1 hΓ hG ht bt
            · exact ih3 p hp hΓ hG ht bt)
        have hitems : listItems (some s) first rest trail = .empty :: (((s, first) :: rest).flatMap (fun p => [p.1, p.2]) ++ trailing trail) := by
          simp [listItems, leading]
        refine ⟨by simp, (emptyTag, .extra (.text (str "@prefix"))) :: qs, ?_, fun k e1 e2 => ?_, M + 1, fun g hg => ?_⟩
        · rw [hitems]; exact .delimLead (h1 rfl) (ih1 hΓ hG ht bt).1 b1
        · obtain ⟨x, y, e, r1, r2⟩ := b2 k e1 e2
          rw [partsNamed_cons, if_neg (Ne.symm e2), List.nil_append, e]
          have : cs = true := h1 rfl
          subst this
          exact .delim r1 (by simp) r2 (by omega) (by simp; omega)
        · obtain ⟨g2, w2, b3⟩ := b3 g hg
          refine ⟨g2, w2, fun n hn ctrs κ b hc => ?_⟩
          obtain ⟨n, rfl⟩ : ∃ k, n = k + 1 := ⟨n - 1, by omega⟩
          rw [hitems, hfrom]
          simp only [loopDelim, if_false, Bool.false_eq_true, addAll, put, hc.2.1, if_true]
          cases b.many emptyTag (.extra (.text (str "@prefix"))) with
          | error e => rfl
          | ok b => exact b3 n (by omega) ctrs κ b (hmono hc)
  | ref ht hv => intro g0 G hΓ hG _ _; exact Conv.ref hv ht
  | ext => intro g0 G hΓ hG ht; exact ht.elim

theorem Conforms.conv {Γ rule t v} (h : Conforms Γ rule t v) : ∀ {g0 G : Grammar}, (∀ g' ∈ Γ, ∀ r t, lookup r g' = some t → lookup r G = some t) →
    g0.ConvertibleIn G → t.Deep Term.Converts → t.Deep (Term.BracesIn G) → Conv (fun _ _ => True) G Γ t v :=
  h.by.conv

end Wbnf

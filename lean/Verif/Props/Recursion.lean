import Verif.Lemmas.Dangers
import Verif.Lemmas.Paths
import Verif.Lemmas.Checked
import Verif.Props.Macro
import Verif.Props.Terminates

/-!
# C39: the check for recursion
-/

namespace Wbnf

variable {g : GrammarN} {ord : List Str → List Str → List Str}

theorem eraseDups_nodup : ∀ n (p : List Str), p.length ≤ n → (p.eraseDups.length = p.length ↔ p.Nodup) ∧ p.eraseDups.length ≤ p.length
  | _, [], _ => by simp
  | 0, _ :: _, h => by simp at h
  | n + 1, a :: p, h => by
    have hl : (p.filter fun b => !b == a).length ≤ p.length := List.length_filter_le _ _
    obtain ⟨ih, ih'⟩ := eraseDups_nodup n (p.filter fun b => !b == a) (by simp at h; omega)
    rw [List.eraseDups_cons, List.nodup_cons]
    simp only [List.length_cons, Nat.add_right_cancel_iff]
    refine ⟨?_, by omega⟩
    constructor
    · intro e
      have e1 : (p.filter fun b => !b == a).length = p.length := by omega
      have e2 : (p.filter fun b => !b == a) = p := List.filter_eq_self.2 (List.length_filter_eq_length_iff.1 e1)
      refine ⟨fun hm => ?_, ?_⟩
      · rw [← e2] at hm
        simpa using (List.mem_filter.1 hm).2
      · rw [e2] at ih; exact ih.1 (by rw [e2] at e; exact e)
    · rintro ⟨hm, hn⟩
      have e2 : (p.filter fun b => !b == a) = p := by
        rw [List.filter_eq_self]
        intro b hb
        have : b ≠ a := fun e => hm (e ▸ hb)
        simpa using this
      rw [e2] at ih ⊢
      exact ih.2 hn

theorem bad_iff {p : List Str} : decide (p.eraseDups.length ≠ p.length) = true ↔ ¬ p.Nodup := by
  rw [decide_eq_true_eq, ← (eraseDups_nodup _ p (Nat.le_refl _)).1]

/-- The names of rules are not empty. -/
def GrammarN.Named (g : GrammarN) : Prop := ∀ ts, ¬ g.Defines [] ts

theorem nextOf_nil (hg : g.Named) : nextOf (dangersOf g) [] = [] := by
  cases h : lookup [] (dangersOf g) with
  | none => simp [nextOf, h]
  | some d =>
    obtain ⟨ts, hd, _⟩ := dangersOf_some h
    exact absurd hd (hg ts)

theorem walks_calls {l : List Str} (h0 : [] ∉ l) (h : Walks (nextOf (dangersOf g)) l) : Chained g.Calls l :=
  chained_mono (fun _ _ hb hab => nextOf_calls hab fun e => h0 (e ▸ hb)) h

theorem mem_roots {r : Str} {ts : List TermN} (h : g.Defines r ts) : r ∈ rootsOf (dangersOf g) := by
  obtain ⟨d, hd⟩ := dangersOf_def h
  rw [rootsOf, List.mem_eraseDups, List.mem_append]
  exact .inl (List.mem_map.2 ⟨(r, d), lookup_mem hd, rfl⟩)

theorem bad_walk (ho : Orders ord) (h : badRoutes ord g ≠ []) : ∃ r l, Walks (nextOf (dangersOf g)) (r :: l ++ [r]) := by
  have hne : (findPaths (rootsOf (dangersOf g)) (nextOf (dangersOf g)) ord ((rootsOf (dangersOf g)).length + 1) [] ⟨0, 0⟩ [[]]).2 ≠ [] := by
    intro e
    apply h
    simp [badRoutes, e]
  exact find_cycle ho _ [] _ _ trivial hne

/-- **C39** If recursion is reported, in whatever order maps are ranged over, then there is a chain of rules, each of which
names the next one first, back to itself. -/
theorem C39_real (hg : g.Named) (ho : Orders ord) (h : badRoutes ord g ≠ []) : ∃ r, g.Cycle r := by
  obtain ⟨r, l, hw⟩ := bad_walk ho h
  refine ⟨r, l, walks_calls ?_ hw⟩
  intro hn
  have : ∀ (l : List Str) (x : Str), Walks (nextOf (dangersOf g)) (l ++ [x]) → [] ∈ l → False := by
    intro l x hw hm
    obtain ⟨p, q, rfl⟩ := List.append_of_mem hm
    rw [List.append_assoc] at hw
    have hw := chained_drop hw
    cases q with
    | nil =>
      have : _ ∈ nextOf (dangersOf g) [] := hw.1
      rw [nextOf_nil hg] at this
      simp at this
    | cons b q =>
      have : _ ∈ nextOf (dangersOf g) [] := hw.1
      rw [nextOf_nil hg] at this
      simp at this
  refine this _ _ hw ?_
  rcases List.mem_append.1 hn with hn | hn
  · exact hn
  · rw [List.mem_singleton.1 hn]; simp

/-- **C39** A reported route of up to six names is a chain of rules, each of which names the next one first, that comes to
one of them twice. Partial: a longer one need not be a chain (`C39_wrong_chain`), and naming first is not the same as
calling before consuming anything (`C39_false_alarm`). -/
theorem C39_chain_partial (hg : g.Named) (ho : Orders ord) {p : List Str} (h : p ∈ badRoutes ord g) (hl : p.length ≤ 6) :
    Chained g.Calls p ∧ ¬ p.Nodup := by
  simp only [badRoutes] at h
  obtain ⟨hp, hb⟩ := List.mem_filter.1 h
  obtain ⟨s, hs, rfl⟩ := List.mem_map.1 hp
  obtain ⟨-, hgood⟩ := (findPaths_good (roots := rootsOf (dangersOf g)) ho (nextOf_nil hg) ((rootsOf (dangersOf g)).length + 1)).good [] ⟨0, 0⟩ [[]]
    frame_init ⟨trivial, by simp⟩ (by simp)
  obtain ⟨hin, hw⟩ := hgood s hs
  have hlen : s.len ≤ 6 := by
    rw [Heap.read, List.length_take] at hl
    have := hin.2
    unfold Heap.cap at this
    omega
  have hw := hw hlen
  exact ⟨walks_calls hw.2 hw.1, bad_iff.1 hb⟩

theorem bad_of_found {p : List Str} (hn : ¬ p.Nodup)
    (h : FoundAny p (findPaths (rootsOf (dangersOf g)) (nextOf (dangersOf g)) ord ((rootsOf (dangersOf g)).length + 1) [] ⟨0, 0⟩ [[]]).1
      (findPaths (rootsOf (dangersOf g)) (nextOf (dangersOf g)) ord ((rootsOf (dangersOf g)).length + 1) [] ⟨0, 0⟩ [[]]).2) :
    p ∈ badRoutes ord g := by
  obtain ⟨s, hs, -, hr⟩ := h
  simp only [badRoutes]
  exact List.mem_filter.2 ⟨List.mem_map.2 ⟨s, hs, hr⟩, bad_iff.2 hn⟩

theorem Found.any {p : List Str} {h : Heap} {ss : List Slice} (f : Found p h ss) : FoundAny p h ss := by
  obtain ⟨s, h1, h2, -, h3⟩ := f
  exact ⟨s, h1, h2, h3⟩

/-- **C39** A rule that names itself first is always reported. -/
theorem C39_direct (hg : g.Named) (ho : Orders ord) {r : Str} {ts : List TermN} {t : TermN} (hd : g.DefinesOnly r ts) (ht : t ∈ ts)
    (hc : CallsFirst t r) : [r, r] ∈ badRoutes ord g := by
  have hr := mem_roots hd.1
  have h0 := nextOf_nil hg
  have hlen : 0 < (rootsOf (dangersOf g)).length := List.length_pos_of_mem hr
  obtain ⟨n, hn⟩ : ∃ n, (rootsOf (dangersOf g)).length = n + 1 := ⟨_, (Nat.succ_pred_eq_of_pos hlen).symm⟩
  refine bad_of_found (by simp) (Found.any ?_)
  rw [hn]
  refine found_step ho h0 (by simp) (callsFirst_ne hc) frame_init ⟨trivial, by simp⟩ hr (by simp) fun s h f hw => ?_
  exact found_last ho h0 hw.2 f hw (by simp) (calls_nextOf hd ht hc) (by simp)

/-- **C39** Two rules that name each other first are always reported. -/
theorem C39_pair (hg : g.Named) (ho : Orders ord) {a b : Str} (hab : a ≠ b) {ts us : List TermN} {t u : TermN} (hd : g.DefinesOnly a ts)
    (ht : t ∈ ts) (hc : CallsFirst t b) (hd' : g.DefinesOnly b us) (hu : u ∈ us) (hc' : CallsFirst u a) : [a, b, a] ∈ badRoutes ord g := by
  have hr := mem_roots hd.1
  have hr' := mem_roots hd'.1
  have h0 := nextOf_nil hg
  have hlen : 2 ≤ (rootsOf (dangersOf g)).length :=
    List.Nodup.length_le_of_subset (l₁ := [a, b]) (by simpa using hab) (by simp [hr, hr'])
  obtain ⟨n, hn⟩ : ∃ n, (rootsOf (dangersOf g)).length = n + 2 := ⟨(rootsOf (dangersOf g)).length - 2, by omega⟩
  refine bad_of_found (by simp) (Found.any ?_)
  rw [hn]
  refine found_step ho h0 (by simp) (callsFirst_ne hc') frame_init ⟨trivial, by simp⟩ hr (by simp) fun s h f hw => ?_
  refine found_step ho h0 hw.2 (callsFirst_ne hc) f hw (calls_nextOf hd ht hc) (by simpa using Ne.symm hab) fun s h f hw => ?_
  exact found_last ho h0 hw.2 f hw (by simp) (calls_nextOf hd' hu hc') (by simp)

/-- The rule has one production, which names `b` first and nothing else. -/
def GrammarN.CallsOnly (g : GrammarN) (a b : Str) : Prop :=
  ∃ ts, g.DefinesOnly a ts ∧ (∃ t ∈ ts, CallsFirst t b) ∧ (∀ t ∈ ts, ¬ Blank t) ∧ ∀ t ∈ ts, ∀ c, CallsFirst t c → c = b

theorem nodup_eraseDups' : ∀ n (p : List Str), p.length ≤ n → p.eraseDups.Nodup
  | _, [], _ => by simp
  | 0, _ :: _, h => by simp at h
  | n + 1, a :: p, h => by
    have hl : (p.filter fun b => !b == a).length ≤ p.length := List.length_filter_le _ _
    rw [List.eraseDups_cons, List.nodup_cons]
    refine ⟨fun hm => ?_, nodup_eraseDups' n _ (by simp at h; omega)⟩
    rw [List.mem_eraseDups] at hm
    simpa using (List.mem_filter.1 hm).2

theorem callsOnly_next {a b : Str} (h : g.CallsOnly a b) : nextOf (dangersOf g) a = [b] := by
  obtain ⟨ts, hd, ⟨t, ht, hc⟩, hb, hu⟩ := h
  have hm := calls_nextOf hd ht hc
  have hall : ∀ c ∈ nextOf (dangersOf g) a, c = b := by
    intro c hc'
    obtain ⟨d, hl⟩ := dangersOf_def hd.1
    obtain ⟨ts', hd', rfl⟩ := dangersOf_some hl
    have := hd.2 _ hd'
    subst this
    rw [nextOf, hl, List.mem_eraseDups] at hc'
    obtain ⟨t', ht', h | ⟨_, h⟩⟩ := (dangersAny_iff c _).1 hc'
    · exact hu t' ht' c h
    · exact absurd h (hb t' ht')
  have hnd : (nextOf (dangersOf g) a).Nodup := nodup_eraseDups' _ _ (Nat.le_refl _)
  match hl : nextOf (dangersOf g) a with
  | [] => rw [hl] at hm; simp at hm
  | [c] => rw [hl] at hall; simp [hall c (by simp)]
  | c :: c' :: l =>
    rw [hl] at hall hnd
    have h1 := hall c (by simp)
    have h2 := hall c' (by simp)
    subst h1; subst h2
    simp at hnd

theorem chained_split {α : Type} {R : α → α → Prop} {a b : α} {p q : List α} (h : Chained R (p ++ a :: b :: q)) : R a b :=
  (chained_drop h).1

/-- **C39** A cycle of any length is always reported if each rule on it names only the next one first. -/
theorem C39_ring (hg : g.Named) (ho : Orders ord) {r : Str} {l : List Str} (hnd : (r :: l).Nodup)
    (hc : Chained g.CallsOnly (r :: l ++ [r])) : r :: l ++ [r] ∈ badRoutes ord g := by
  have hnext : ∀ a b p q, r :: l ++ [r] = p ++ a :: b :: q → nextOf (dangersOf g) a = [b] := fun a b p q e =>
    callsOnly_next (chained_split (e ▸ hc))
  have hdef : ∀ x ∈ r :: l, (∃ ts, g.Defines x ts) := by
    intro x hx
    obtain ⟨p, q, e⟩ := List.append_of_mem hx
    rw [e, List.append_assoc] at hc
    cases q with
    | nil => obtain ⟨ts, hd, _⟩ := (chained_drop hc).1; exact ⟨ts, hd.1⟩
    | cons y q => obtain ⟨ts, hd, _⟩ := (chained_drop hc).1; exact ⟨ts, hd.1⟩
  have hlen : (r :: l).length ≤ (rootsOf (dangersOf g)).length :=
    hnd.length_le_of_subset fun x hx => (hdef x hx).elim fun ts h => mem_roots h
  refine bad_of_found ?_ (found_single_root ho (nextOf_nil hg) ?_ (by simp at hlen; omega) hnext hnd ?_)
  · intro h
    simp at h
  · obtain ⟨ts, h⟩ := hdef r (by simp); exact mem_roots h
  · intro h
    obtain ⟨ts, h⟩ := hdef _ h
    exact hg ts h

/-! ## Examples and violations -/

theorem outer_tip {skip : Item → Bool} {i j : Item} (h : (WTree.tip i).Outer skip j) : j = i := by
  cases h with
  | here => rfl
  | inner _ h => simp at h

/-- Without macro definitions the productions are the statements. -/
theorem defines_stmts (hm : ∀ m as t, StmtN.macrodef m as t ∉ g.stmts) {r : Str} {ts : List TermN} :
    g.Defines r ts ↔ .prod r ts ∈ g.stmts := by
  cases g with
  | mk ss =>
    constructor
    · intro h
      unfold GrammarN.Defines at h
      rw [GrammarN.tree] at h
      cases h with
      | inner _ hk h =>
        obtain ⟨s, hs, rfl⟩ := mem_stmtTrees.1 hk
        cases s with
        | comment x =>
          rw [StmtN.tree] at h
          cases h with
          | inner _ hk h => rw [List.mem_singleton.1 hk] at h; cases outer_tip h
        | prod i us =>
          rw [StmtN.tree] at h
          cases h with
          | inner _ hk h =>
            rw [List.mem_singleton.1 hk] at h
            cases h with
            | here => exact hs
            | inner h => simp [Item.isProd] at h
        | imp p =>
          rw [StmtN.tree] at h
          cases h with
          | inner _ hk h =>
            rw [List.mem_singleton.1 hk] at h
            cases h with
            | inner _ hk h =>
              rw [List.mem_singleton.1 hk] at h
              cases h with
              | inner _ hk h =>
                rw [List.mem_singleton.1 hk] at h
                cases h with
                | inner _ hk h => simp at hk
        | macrodef m as t => exact absurd hs (hm m as t)
    · intro h
      unfold GrammarN.Defines
      rw [GrammarN.tree]
      refine .inner rfl (mem_stmtTrees.2 ⟨_, h, rfl⟩) ?_
      rw [StmtN.tree]
      exact .inner rfl (List.mem_singleton.2 rfl) .here

namespace Ex

/-- A backquoted literal, as a term with quantifiers. -/
def lit (x : String) (qs : List QuantN) : TermN := .one (.mk none (.str (str x))) qs
def alt (ts : List TermN) : TermN := .many (str "|") [] ts
def opt : QuantN := .op (str "?")

/-- `a -> "("? a;` -/
def nOpt : GrammarN := .mk [.prod (str "a") [sq [lit "`(`" [opt], rn "a"]]]
/-- `a -> b "x" | "y"; b -> ("z"? a);` -/
def nPair : GrammarN := .mk [.prod (str "a") [alt [sq [rn "b", lit "`x`" []], lit "`y`" []]],
  .prod (str "b") [.one (.mk none (.term (sq [lit "`z`" [opt], rn "a"]))) []]]
/-- `a -> b; b -> c "x"; c -> d; d -> a;` -/
def nRing : GrammarN := .mk [.prod (str "a") [rn "b"], .prod (str "b") [sq [rn "c", lit "`x`" []]], .prod (str "c") [rn "d"], .prod (str "d") [rn "a"]]
/-- `a -> b | x; b -> c | x; c -> a | x; x -> "x";` -/
def nThree : GrammarN := .mk [.prod (str "a") [alt [rn "b", rn "x"]], .prod (str "b") [alt [rn "c", rn "x"]], .prod (str "c") [alt [rn "a", rn "x"]],
  .prod (str "x") [lit "`x`" []]]
/-- `a -> b; b -> c; c -> d; d -> e; e -> f | g; f -> a; g -> "x";` -/
def nSeven : GrammarN := .mk [.prod (str "a") [rn "b"], .prod (str "b") [rn "c"], .prod (str "c") [rn "d"], .prod (str "d") [rn "e"],
  .prod (str "e") [alt [rn "f", rn "g"]], .prod (str "f") [rn "a"], .prod (str "g") [lit "`x`" []]]
/-- `a -> b a | b; b -> "x";` -/
def nFalse : GrammarN := .mk [.prod (str "a") [alt [sq [rn "b", rn "a"], rn "b"]], .prod (str "b") [lit "`x`" []]]
/-- `a -> a+;` -/
def nPlus : GrammarN := .mk [.prod (str "a") [.one (.mk none (.ident (str "a"))) [.op (str "+")]]]
/-- `a -> ("x")? a;` -/
def nParen : GrammarN := .mk [.prod (str "a") [sq [.one (.mk none (.term (lit "`x`" []))) [opt], rn "a"]]]
/-- Map order as written. -/
def asWritten : List Str → List Str → List Str := fun _ l => l

theorem asWritten_orders : Orders asWritten := fun _ _ => .refl _

end Ex

open Ex

/-- The hypotheses are met: of `C39_direct` by `a -> "("? a;`, -/
example : nOpt.Named ∧ ∃ ts t, nOpt.DefinesOnly (str "a") ts ∧ t ∈ ts ∧ CallsFirst t (str "a") := by
  have hm : ∀ m as t, StmtN.macrodef m as t ∉ nOpt.stmts := by simp [nOpt, GrammarN.stmts]
  refine ⟨fun ts h => ?_, _, sq [lit "`(`" [opt], rn "a"], ⟨(defines_stmts hm).2 (.head _), fun ts' h => ?_⟩, .head _, ?_⟩
  · have := (defines_stmts hm).1 h
    simp [nOpt, GrammarN.stmts, str] at this
  · have := (defines_stmts hm).1 h
    simpa [nOpt, GrammarN.stmts] using this
  · refine .blank (by decide) (.atom ?_ (by simp) (by simp)) (.head (by decide) (.ident (by decide) (by simp)))
    simp [opt, QuantN.optional, str]

/-- of `C39_pair` by `a -> b "x" | "y"; b -> ("z"? a);`, -/
example : nPair.Named ∧ (∃ ts t, nPair.DefinesOnly (str "a") ts ∧ t ∈ ts ∧ CallsFirst t (str "b")) ∧
    ∃ ts t, nPair.DefinesOnly (str "b") ts ∧ t ∈ ts ∧ CallsFirst t (str "a") := by
  have hm : ∀ m as t, StmtN.macrodef m as t ∉ nPair.stmts := by simp [nPair, GrammarN.stmts]
  refine ⟨fun ts h => ?_, ⟨_, _, ⟨(defines_stmts hm).2 (.head _), fun ts' h => ?_⟩, .head _, ?_⟩,
    ⟨_, _, ⟨(defines_stmts hm).2 (.tail _ (.head _)), fun ts' h => ?_⟩, .head _, ?_⟩⟩
  · have := (defines_stmts hm).1 h
    simp [nPair, GrammarN.stmts, str] at this
  · have := (defines_stmts hm).1 h
    simpa [nPair, GrammarN.stmts, str] using this
  · exact .choice (.head _) (.head (by decide) (.ident (by decide) (by simp)))
  · have := (defines_stmts hm).1 h
    simpa [nPair, GrammarN.stmts, str] using this
  · refine .paren (by simp) (.blank (by decide) (.atom ?_ (by simp) (by simp)) (.head (by decide) (.ident (by decide) (by simp))))
    simp [opt, QuantN.optional, str]

/-- of `C39_ring` by `a -> b; b -> c "x"; c -> d; d -> a;`. -/
example : nRing.Named ∧ Chained nRing.CallsOnly [str "a", str "b", str "c", str "d", str "a"] := by
  have hm : ∀ m as t, StmtN.macrodef m as t ∉ nRing.stmts := by simp [nRing, GrammarN.stmts]
  have hone : ∀ {a b : String}, str a ≠ [] → str b ≠ [] → StmtN.prod (str a) [rn b] ∈ nRing.stmts →
      (∀ ts, StmtN.prod (str a) ts ∈ nRing.stmts → ts = [rn b]) → nRing.CallsOnly (str a) (str b) := by
    intro a b ha hb h hu
    refine ⟨_, ⟨(defines_stmts hm).2 h, fun ts h => hu ts ((defines_stmts hm).1 h)⟩, ⟨rn b, by simp, .ident hb (by simp)⟩, ?_, ?_⟩
    · intro t ht hbl
      rw [List.mem_singleton.1 ht] at hbl
      generalize hu : rn b = u at hbl
      cases hbl <;> simp [rn] at hu
      exact hb hu.1.2
    · intro t ht c hc
      rw [List.mem_singleton.1 ht] at hc
      generalize hu : rn b = u at hc
      cases hc <;> simp [rn] at hu
      exact hu.1.2.symm
  refine ⟨fun ts h => ?_, hone (by decide) (by decide) ?_ ?_, ?_, hone (by decide) (by decide) ?_ ?_, hone (by decide) (by decide) ?_ ?_, trivial⟩
  · have := (defines_stmts hm).1 h
    simp [nRing, GrammarN.stmts, str] at this
  · simp [nRing, GrammarN.stmts]
  · simp [nRing, GrammarN.stmts, str]
  · refine ⟨_, ⟨(defines_stmts hm).2 (.tail _ (.head _)), fun ts h => ?_⟩, ⟨_, .head _, .head (by decide) (.ident (by decide) (by simp))⟩, ?_, ?_⟩
    · have := (defines_stmts hm).1 h
      simpa [nRing, GrammarN.stmts, str] using this
    · intro t ht hbl
      rw [List.mem_singleton.1 ht] at hbl
      cases hbl
    · intro t ht c hc
      have := (dangers_iff c _).2 (.inl hc)
      rw [List.mem_singleton.1 ht] at this
      revert this
      have : (sq [rn "c", lit "`x`" []]).dangers = [str "c"] := rfl
      rw [this]
      simp
  · simp [nRing, GrammarN.stmts]
  · simp [nRing, GrammarN.stmts, str]
  · simp [nRing, GrammarN.stmts]
  · simp [nRing, GrammarN.stmts, str]

/-- **C39** A cycle of three rules may be missed: `a -> b | x; b -> c | x; c -> a | x; x -> "x";` is not reported when `x`
comes last in the maps, because its route overwrites the one that was found. When `x` comes first it is. -/
theorem C39_missed : nThree.Cycle (str "a") ∧ badRoutes asWritten nThree = [] ∧ badRoutes (fun _ l => l.reverse) nThree ≠ [] := by
  have hm : ∀ m as t, StmtN.macrodef m as t ∉ nThree.stmts := by simp [nThree, GrammarN.stmts]
  have hone : ∀ {a b : String} {ts}, str b ≠ [] → StmtN.prod (str a) [alt (rn b :: ts)] ∈ nThree.stmts → nThree.Calls (str a) (str b) :=
    fun hb h => ⟨_, _, (defines_stmts hm).2 h, .head _, .choice (.head _) (.ident hb (by simp))⟩
  refine ⟨⟨[str "b", str "c"], ?_, ?_, ?_, trivial⟩, by decide +kernel, by decide +kernel⟩ <;>
    exact hone (ts := [rn "x"]) (by decide) (by simp [nThree, GrammarN.stmts])

/-- **C39** What is excluded from `C39_chain_partial`: for `a -> b; b -> c; c -> d; d -> e; e -> f | g; f -> a; g -> "x";` the
route a > b > c > d > e > g > a is reported, though `g` names no rule. -/
theorem C39_wrong_chain : [str "a", str "b", str "c", str "d", str "e", str "g", str "a"] ∈ badRoutes asWritten nSeven ∧
    ∀ r, ¬ nSeven.Calls (str "g") r := by
  refine ⟨by decide +kernel, ?_⟩
  rintro r ⟨ts, t, hd, ht, hc⟩
  have := (defines_stmts (by simp [nSeven, GrammarN.stmts])).1 hd
  have : ts = [lit "`x`" []] := by simpa [nSeven, GrammarN.stmts, str] using this
  subst this
  rw [List.mem_singleton.1 ht] at hc
  cases hc

/-- **C39** A rule name counts as something that may be empty, even if it cannot: `a -> b a | b; b -> "x";` is reported, though
parsing with it always terminates. -/
theorem C39_false_alarm : badRoutes asWritten nFalse ≠ [] ∧
    ∃ g, newFromAst 20 nFalse = .ok g ∧ compiles g ∧ ∀ (ρ : Nat → Nat) (x : Str),
      ∃ N, ∀ n, N ≤ n → (comp! g).parse regexp noExternals ρ n (str "a") (newScanner x) ≠ .oof := by
  refine ⟨by decide +kernel, [(str "a", .oneof [.seq [.rule (str "b"), .rule (str "a")], .rule (str "b")]), (str "b", .cut (.s (str "x")))], rfl, ?_, ?_⟩
  · decide +kernel
  · intro ρ x
    obtain ⟨h1, h2⟩ := rankCheck_sound (X := noExternals) (leaf := Regex.eats) (d := fun _ => true) (rank := fun r => if r = str "a" then 1 else 0)
      (g := (comp! [(str "a", .oneof [.seq [.rule (str "b"), .rule (str "a")], .rule (str "b")]), (str "b", .cut (.s (str "x")))]).grammar) regexp_sane
      (fun _ => Regex.neverEmpty) (by decide +kernel) (str "a")
    exact C15_terminates regexp_sane sane_noExternals rfl (by decide) (comp_ok (by decide +kernel))
      (newScanner_inRange x) h1 h2 ρ

/-- **C39** Recursion through something that is repeated is never looked for, nor after an optional group: `a -> a+;` and
`a -> ("x")? a;` are accepted, and the parser of the first never returns. -/
theorem C39_unseen (ho : Orders ord) (inp : Scanner) : badRoutes ord nPlus = [] ∧ badRoutes ord nParen = [] ∧
    newFromAst 20 nPlus = .ok gPlus ∧ (comp! gPlus).NeverReturns regexp noExternals (str "a") inp := by
  have hno : ∀ g : GrammarN, dangersOf g = [(str "a", [])] → badRoutes ord g = [] := by
    intro g hd
    refine Classical.byContradiction fun hne => ?_
    obtain ⟨r, l, hw⟩ := bad_walk ho hne
    have : ∀ a b, ¬ b ∈ nextOf (dangersOf g) a := by
      intro a b h
      rw [hd, nextOf, lookup] at h
      split at h <;> simp [lookup] at h
    cases l with
    | nil => exact this _ _ hw.1
    | cons b l => exact this _ _ hw.1
  refine ⟨hno _ rfl, hno _ rfl, rfl, ?_⟩
  refine C16_left_recursion (g := gPlus) (by decide) (comp_ok (by decide +kernel)) plain_noExternals fun rule vals =>
    ⟨[], vals, _, .rule (.here (.here (t := .quant (.rule (str "a")) 1 0) (by decide +kernel) (by simp))), ?_⟩
  exact .step .quant (.step (.rep (by simp)) .refl)

end Wbnf

import Verif.Spec.Validate
import Verif.Lemmas.Outer
import Verif.Lemmas.Compile

/-!
# What the walks of the validation see
-/

namespace Wbnf

/-! ## The names that are defined -/

/-- Items that `definedOps` leaves. -/
def Item.defining : Item → Bool
  | .prod _ _ => true
  | .macrodef _ _ _ => true
  | _ => false

theorem definedOps_skips : definedOps.Skips Item.defining := by
  refine ⟨by simp [definedOps], ?_, ?_, ?_⟩
  · intro i s hi st h
    cases i <;> simp [definedOps, Item.leaf] at *
  · intro i s hi hk
    cases i <;> simp [Item.defining] at hk <;> exact ⟨nodeExiter, rfl, rfl⟩
  · intro i s hi hk st h
    cases i <;> simp [definedOps, Item.defining] at *

/-- What a statement adds. -/
def RuleNames.stmt (s : RuleNames) : StmtN → RuleNames
  | .prod i _ => s.add i
  | .macrodef m as t => { s.add m with macros := mapSet m ⟨as, t⟩ s.macros }
  | _ => s

theorem callAll_append {σ : Type} {ops : WalkerOps σ} : ∀ (es es' : List Event) (s : σ), ops.callAll (es ++ es') s = ops.callAll es' (ops.callAll es s)
  | [], _, _ => rfl
  | _ :: es, es', _ => callAll_append es es' _

theorem defined_stmt (st : StmtN) (s : RuleNames) : definedOps.callAll (st.tree.events Item.defining) s = s.stmt st := by
  cases st <;> rfl

theorem defined_stmts : ∀ (ss : List StmtN) (s : RuleNames), definedOps.callAll (eventsOf Item.defining (stmtTrees ss)) s = ss.foldl RuleNames.stmt s
  | [], _ => rfl
  | st :: ss, s => by rw [stmtTrees, eventsOf, callAll_append, defined_stmt, defined_stmts ss]; rfl

theorem findDefinedRules_eq (g : GrammarN) : findDefinedRules g = g.stmts.foldl RuleNames.stmt ⟨[], [], []⟩ := by
  unfold findDefinedRules
  rw [walk_callAll definedOps_skips (skip := Item.defining)]
  · cases g with
    | mk ss =>
      rw [GrammarN.tree, WTree.events]
      simp only [Item.leaf, Item.defining, Bool.or_self, Bool.false_eq_true, if_false]
      rw [WalkerOps.callAll, callAll_append, defined_stmts]
      rfl
  · intro e s st h
    cases e with
    | exit i => simp [WalkerOps.call, definedOps] at h
    | enter i =>
      cases i <;> simp [WalkerOps.call, definedOps] at h <;> (subst h; rfl)

/-- The names known after the statements: `names`, in the other order, and those before. -/
theorem defined_fold : ∀ (ss : List StmtN) (s : RuleNames),
    (ss.foldl RuleNames.stmt s).out = (ss.filterMap StmtN.name).reverse ++ s.out ∧
    ((ss.foldl RuleNames.stmt s).dupes = [] ↔ s.dupes = [] ∧ (ss.filterMap StmtN.name).Nodup ∧ ∀ x ∈ ss.filterMap StmtN.name, x ∉ s.out)
  | [], s => by simp
  | st :: ss, s => by
    obtain ⟨h1, h2⟩ := defined_fold ss (s.stmt st)
    rw [List.foldl_cons, h1, h2]
    have add : ∀ i, (s.add i).out = i :: s.out ∧ ((s.add i).dupes = [] ↔ s.dupes = [] ∧ i ∉ s.out) := by
      intro i
      refine ⟨rfl, ?_⟩
      simp only [RuleNames.add]
      split <;> simp_all
    have key : ∀ i s', st.name = some i → s' = s.stmt st → s'.out = i :: s.out → (s'.dupes = [] ↔ s.dupes = [] ∧ i ∉ s.out) →
        (ss.filterMap StmtN.name).reverse ++ s'.out = ((st :: ss).filterMap StmtN.name).reverse ++ s.out ∧
        (s'.dupes = [] ∧ (ss.filterMap StmtN.name).Nodup ∧ (∀ x ∈ ss.filterMap StmtN.name, x ∉ s'.out) ↔
          s.dupes = [] ∧ ((st :: ss).filterMap StmtN.name).Nodup ∧ ∀ x ∈ (st :: ss).filterMap StmtN.name, x ∉ s.out) := by
      intro i s' hn _ ho hd
      rw [ho, hd, List.filterMap_cons_some hn]
      refine ⟨by simp, ?_⟩
      rw [List.nodup_cons]
      simp only [List.mem_cons, not_or]
      constructor
      · rintro ⟨⟨a, b⟩, c, d⟩
        refine ⟨a, ⟨fun hi => (d i hi).1 rfl, c⟩, ?_⟩
        rintro x (rfl | hx)
        · exact b
        · exact (d x hx).2
      · rintro ⟨a, ⟨b, c⟩, d⟩
        exact ⟨⟨a, d i (.inl rfl)⟩, c, fun x hx => ⟨fun e => b (e ▸ hx), d x (.inr hx)⟩⟩
    cases st with
    | prod i ts => exact key i _ rfl rfl (add i).1 (add i).2
    | macrodef m as t => exact key m _ rfl rfl (add m).1 (add m).2
    | comment x => exact ⟨rfl, Iff.rfl⟩
    | imp p => exact ⟨rfl, Iff.rfl⟩

theorem defined_macros : ∀ (ss : List StmtN) (s : RuleNames) (m : Str) (mc : Macro), (ss.filterMap StmtN.name).Nodup →
    (lookup m (ss.foldl RuleNames.stmt s).macros = some mc ↔
      .macrodef m mc.args mc.body ∈ ss ∨ ((∀ as t, .macrodef m as t ∉ ss) ∧ lookup m s.macros = some mc))
  | [], _, _, _, _ => by simp
  | st :: ss, s, m, mc, hn => by
    have hn' : (ss.filterMap StmtN.name).Nodup := by
      rw [List.filterMap_cons] at hn
      split at hn
      · exact hn
      · exact (List.nodup_cons.1 hn).2
    rw [List.foldl_cons, defined_macros ss _ m mc hn']
    cases st with
    | prod i ts => simp [RuleNames.stmt, RuleNames.add]
    | comment x => simp [RuleNames.stmt]
    | imp p => simp [RuleNames.stmt]
    | macrodef n as t =>
      simp only [RuleNames.stmt]
      by_cases hm : m = n
      · subst hm
        have hnot : ∀ as t, StmtN.macrodef m as t ∉ ss := fun as t h => by
          rw [List.filterMap_cons_some (show StmtN.name _ = some m from rfl), List.nodup_cons] at hn
          exact hn.1 (List.mem_filterMap.2 ⟨_, h, rfl⟩)
        rw [lookup_mapSet_self]
        simp only [hnot, false_or, List.mem_cons, StmtN.macrodef.injEq, true_and, Option.some.injEq, not_false_eq_true, implies_true]
        cases mc
        simp only [Macro.mk.injEq]
        constructor
        · rintro ⟨rfl, rfl⟩; exact .inl (.inl ⟨rfl, rfl⟩)
        · rintro ((⟨h1, h2⟩ | h) | ⟨h, _⟩)
          · exact ⟨h1.symm, h2.symm⟩
          · exact h.elim
          · exact absurd (.inl ⟨rfl, rfl⟩) (h as t)
      · rw [lookup_mapSet_ne (by exact hm)]
        simp [hm]

theorem dupes_iff (g : GrammarN) : (findDefinedRules g).dupes = [] ↔ (g.stmts.filterMap StmtN.name).Nodup := by
  rw [findDefinedRules_eq, (defined_fold _ _).2]; simp

theorem mem_out (g : GrammarN) (x : Str) : x ∈ (findDefinedRules g).out ↔ x ∈ g.stmts.filterMap StmtN.name := by
  rw [findDefinedRules_eq, (defined_fold _ _).1]; simp only [List.append_nil, List.mem_reverse]

theorem lookup_macros {g : GrammarN} (h : (g.stmts.filterMap StmtN.name).Nodup) {m : Str} {mc : Macro} :
    lookup m (findDefinedRules g).macros = some mc ↔ .macrodef m mc.args mc.body ∈ g.stmts := by
  rw [findDefinedRules_eq, defined_macros _ _ _ _ h]; simp [lookup]

/-! ## The callbacks of the validator -/

variable {reOK : Str → Bool} {known : List Str} {macros : Macros}

/-- Nothing was found. -/
def Verdict.Clean (v : Verdict) : Prop := v.errs = [] ∧ v.panicked = false

theorem report_clean {v : Verdict} {e : ErrorKind} {bad : Bool} : (v.report e bad).Clean ↔ v.Clean ∧ bad = false := by
  cases bad <;> simp [Verdict.report, Verdict.Clean]

theorem reportRepeats_clean : ∀ (xs seen : List Str) (v : Verdict), (reportRepeats seen xs v).Clean ↔ v.Clean ∧ xs.Nodup ∧ ∀ x ∈ xs, x ∉ seen
  | [], _, _ => by simp [reportRepeats]
  | x :: xs, seen, v => by
    rw [reportRepeats, reportRepeats_clean xs, report_clean, List.nodup_cons]
    simp only [decide_eq_false_iff_not, List.mem_cons, not_or]
    constructor
    · rintro ⟨⟨a, b⟩, c, d⟩
      refine ⟨a, ⟨fun h => (d x h).1 rfl, c⟩, ?_⟩
      rintro y (rfl | hy)
      · exact b
      · exact (d y hy).2
    · rintro ⟨a, ⟨b, c⟩, d⟩
      exact ⟨⟨a, d x (.inl rfl)⟩, c, fun y hy => ⟨fun e => b (e ▸ hy), d y (.inr hy)⟩⟩

theorem reportArgs_clean : ∀ (as known : List Str) (v : Verdict), (reportArgs known as v).Clean ↔ v.Clean ∧ as.Nodup ∧ ∀ a ∈ as, a ∉ known
  | [], _, _ => by simp [reportArgs]
  | a :: as, known, v => by
    rw [reportArgs]
    split
    · rename_i h
      rw [reportArgs_clean as, report_clean]
      simp [h]
    · rename_i h
      rw [reportArgs_clean as, List.nodup_cons]
      simp only [List.mem_cons, not_or]
      constructor
      · rintro ⟨x, c, d⟩
        refine ⟨x, ⟨fun h => (d a h).1 rfl, c⟩, ?_⟩
        rintro y (rfl | hy)
        · exact h
        · exact (d y hy).2
      · rintro ⟨x, ⟨b, c⟩, d⟩
        exact ⟨x, c, fun y hy => ⟨fun e => b (e ▸ hy), d y (.inr hy)⟩⟩

theorem bound_iff {o : Option Str} {n : Nat} : bound o = .ok n ↔ IsBound o ∧ boundValue o = n := by
  cases o with
  | none => simp [bound, IsBound, boundValue]
  | some x =>
    simp only [bound, IsBound, boundValue]
    by_cases hx : x = []
    · subst hx; simp [numOf]
    · rw [if_neg hx, atoi]
      by_cases hd : ∀ c ∈ x, 48 ≤ c ∧ c ≤ 57
      · rw [if_pos ⟨hx, by simpa using hd⟩]
        simp only [numOf]
        split
        · rename_i hlt; simp only [hlt, and_true, Except.ok.injEq]; exact ⟨fun h => ⟨hd, h⟩, fun h => h.2⟩
        · rename_i hlt; simp [hlt]
      · rw [if_neg (by simpa using fun _ => by simpa using hd)]
        simp [hd]

theorem validateRange_clean {lo hi : Option Str} {v : Verdict} : (validateRange lo hi v).Clean ↔
    v.Clean ∧ (IsBound lo ∧ IsBound hi) ∧ (boundValue hi = 0 ∨ boundValue lo ≤ boundValue hi) := by
  unfold validateRange
  cases h1 : bound lo with
  | error e =>
    have : ¬ IsBound lo := fun h => by rw [bound_iff.2 ⟨h, rfl⟩] at h1; simp at h1
    simp [Verdict.Clean, this]
  | ok m =>
    obtain ⟨b1, rfl⟩ := bound_iff.1 h1
    cases h2 : bound hi with
    | error e =>
      have : ¬ IsBound hi := fun h => by rw [bound_iff.2 ⟨h, rfl⟩] at h2; simp at h2
      simp [Verdict.Clean, this]
    | ok n =>
      obtain ⟨b2, rfl⟩ := bound_iff.1 h2
      simp only
      rw [report_clean, decide_eq_false_iff_not]
      simp only [b1, b2, and_self, true_and]
      constructor
      · rintro ⟨a, b⟩; exact ⟨a, by omega⟩
      · rintro ⟨a, b⟩; exact ⟨a, by omega⟩

/-- What is demanded of a node. -/
def NodeOK (reOK : Str → Bool) (known : List Str) (macros : Macros) : Item → Prop
  | .term (.many [] [] ts) => (ts.filterMap TermN.label).Nodup
  | .named (.mk (some x) _) => x ∉ known
  | .atom (.ident i) => i = str "@" ∨ i ∈ known
  | .atom (.re x) => reOK x = true
  | .quant (.range lo hi) => (IsBound lo ∧ IsBound hi) ∧ (boundValue hi = 0 ∨ boundValue lo ≤ boundValue hi)
  | .macrodef _ as _ => as.Nodup ∧ ∀ a ∈ as, a ∉ known
  | .macrocall m ts => ∃ mc, lookup m macros = some mc ∧ mc.args.length = ts.length
  | _ => True

theorem enter_clean (i : Item) (v : Verdict) :
    ((validatorOps reOK known macros).enter i v).1.Clean ↔ v.Clean ∧ NodeOK reOK known macros i := by
  cases i with
  | term t =>
    cases t with
    | one n qs => simp [validatorOps, NodeOK]
    | many op gs ts =>
      cases gs with
      | cons g gs => simp [validatorOps, NodeOK]
      | nil =>
        cases op with
        | cons c op => simp [validatorOps, NodeOK]
        | nil => simp [validatorOps, NodeOK, reportRepeats_clean]
  | named n =>
    cases n with
    | mk i a =>
      cases i with
      | none => simp [validatorOps, NodeOK]
      | some x => simp [validatorOps, NodeOK, report_clean]
  | atom a =>
    cases a with
    | ident i =>
      simp only [validatorOps, NodeOK, report_clean, decide_eq_false_iff_not]
      constructor
      · rintro ⟨h1, h2⟩; exact ⟨h1, by by_cases h : i = str "@" <;> by_cases h' : i ∈ known <;> simp_all⟩
      · rintro ⟨h1, h2⟩; exact ⟨h1, by rintro ⟨a, b⟩; rcases h2 with h2 | h2 <;> contradiction⟩
    | re x => simp [validatorOps, NodeOK, report_clean]
    | _ => simp [validatorOps, NodeOK]
  | quant q =>
    cases q with
    | range lo hi => simp only [validatorOps, NodeOK, validateRange_clean]
    | _ => simp [validatorOps, NodeOK]
  | macrodef m as t => simp only [validatorOps, NodeOK, reportArgs_clean]
  | macrocall m ts =>
    simp only [validatorOps, NodeOK]
    cases h : lookup m macros with
    | none => simp [report_clean]
    | some mc => simp [report_clean]
  | _ => simp [validatorOps, NodeOK]

theorem validatorOps_skips : (validatorOps reOK known macros).Skips Item.unchecked := by
  refine ⟨by simp [validatorOps], ?_, ?_, ?_⟩
  · intro i s hi st h
    cases i <;> simp [validatorOps, Item.leaf] at *
  · intro i s hi hk
    match i, hk with
    | .term (.many op gs ts), hk =>
      have : gs ≠ [] := by simpa [Item.unchecked] using hk
      exact ⟨nodeExiter, by simp [validatorOps, this], rfl⟩
    | .macrodef m as t, _ => exact ⟨nodeExiter, rfl, rfl⟩
  · intro i s hi hk st h
    cases i with
    | term t =>
      cases t with
      | one n qs => simp [validatorOps] at h
      | many op gs ts =>
        have : gs = [] := by simpa [Item.unchecked] using hk
        subst this
        simp only [validatorOps, ne_eq, not_true_eq_false, if_false] at h
        split at h <;> simp at h
    | named n =>
      cases n with
      | mk i a => cases i <;> simp [validatorOps] at h
    | atom a => cases a <;> simp [validatorOps] at h
    | quant q => cases q <;> simp [validatorOps] at h
    | macrodef => simp [Item.unchecked] at hk
    | macrocall m ts =>
      simp only [validatorOps] at h
      split at h <;> simp at h
    | _ => simp [validatorOps] at h

theorem validatorOps_goes {e : Event} {v : Verdict} {st : Stopper} (h : ((validatorOps reOK known macros).call e v).2 = some st) :
    st.stops = false := by
  cases e with
  | exit i => simp [WalkerOps.call, validatorOps] at h
  | enter i =>
    cases hk : Item.unchecked i with
    | false =>
      have hx : st.exitNode = false := by
        cases hl : i.leaf with
        | false => exact validatorOps_skips.2.2.2 i v hl hk st h
        | true => exact validatorOps_skips.2.1 i v hl st h
      cases i with
      | term t =>
        cases t with
        | one n qs => simp [WalkerOps.call, validatorOps] at h
        | many op gs ts =>
          simp only [WalkerOps.call, validatorOps] at h
          split at h
          · simp at h; subst h; rfl
          · split at h <;> simp at h
      | named n => cases n with
        | mk i a => cases i <;> simp [WalkerOps.call, validatorOps] at h
      | atom a => cases a <;> simp [WalkerOps.call, validatorOps] at h
      | quant q => cases q <;> simp [WalkerOps.call, validatorOps] at h
      | macrodef => simp [Item.unchecked] at hk
      | macrocall m ts =>
        simp only [WalkerOps.call, validatorOps] at h
        split at h <;> simp at h
      | _ => simp [WalkerOps.call, validatorOps] at h
    | true =>
      match i, hk, h with
      | .term (.many op gs ts), hk, h =>
        have : gs ≠ [] := by simpa [Item.unchecked] using hk
        simp [WalkerOps.call, validatorOps, this] at h
        subst h; rfl
      | .macrodef m as t, _, h =>
        simp [WalkerOps.call, validatorOps] at h
        subst h; rfl

theorem callAll_clean : ∀ (es : List Event) (v : Verdict), ((validatorOps reOK known macros).callAll es v).Clean ↔
    v.Clean ∧ ∀ i, .enter i ∈ es → NodeOK reOK known macros i
  | [], v => by simp [WalkerOps.callAll]
  | e :: es, v => by
    rw [WalkerOps.callAll, callAll_clean es]
    cases e with
    | enter i =>
      rw [show (validatorOps reOK known macros).call (.enter i) v = (validatorOps reOK known macros).enter i v from rfl, enter_clean]
      simp only [List.mem_cons, Event.enter.injEq]
      constructor
      · rintro ⟨⟨a, b⟩, c⟩
        refine ⟨a, ?_⟩
        rintro j (rfl | hj)
        · exact b
        · exact c j hj
      · rintro ⟨a, b⟩; exact ⟨⟨a, b i (.inl rfl)⟩, fun j hj => b j (.inr hj)⟩
    | exit i => simp [WalkerOps.call, validatorOps]

theorem walk_clean (g : GrammarN) : (walk (validatorOps reOK known macros) g.tree ⟨[], false⟩).1.Clean ↔
    ∀ i, g.Checked i → NodeOK reOK known macros i := by
  rw [walk_callAll validatorOps_skips (fun _ _ _ h => validatorOps_goes h), callAll_clean]
  constructor
  · rintro ⟨_, h⟩ i hi
    exact h i ((events_outer _ _ (grammarN_proper g)).2 hi)
  · intro h
    exact ⟨⟨rfl, rfl⟩, fun i hi => h i ((events_outer _ _ (grammarN_proper g)).1 hi)⟩

end Wbnf

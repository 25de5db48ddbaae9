import Verif.Spec.Faults
import Verif.Lemmas.References

/-! The errors that the walk of the validator collects. -/

namespace Wbnf

variable {reOK : Str → Bool} {known : List Str} {macros : Macros}

theorem mem_report {v : Verdict} {e e' : ErrorKind} {bad : Bool} : e ∈ (v.report e' bad).errs ↔ e ∈ v.errs ∨ (e = e' ∧ bad = true) := by
  cases bad <;> simp [Verdict.report]

theorem report_panicked {v : Verdict} {e : ErrorKind} {bad : Bool} : (v.report e bad).panicked = v.panicked := by
  cases bad <;> simp [Verdict.report]

theorem mem_reportRepeats {e : ErrorKind} : ∀ (xs seen : List Str) (v : Verdict),
    (e ∈ (reportRepeats seen xs v).errs ↔ e ∈ v.errs ∨ (e = .multipleTermsWithSameName ∧ ¬ (xs.Nodup ∧ ∀ x ∈ xs, x ∉ seen))) ∧
    (reportRepeats seen xs v).panicked = v.panicked
  | [], _, _ => by simp [reportRepeats]
  | x :: xs, seen, v => by
    obtain ⟨h1, h2⟩ := mem_reportRepeats (e := e) xs (x :: seen) (v.report .multipleTermsWithSameName (x ∈ seen))
    rw [reportRepeats, h1, h2, mem_report, report_panicked]
    refine ⟨?_, rfl⟩
    rw [or_assoc, ← and_or_left]
    refine or_congr Iff.rfl (and_congr Iff.rfl ?_)
    rw [List.nodup_cons]
    simp only [decide_eq_true_eq, List.mem_cons, not_or, forall_eq_or_imp]
    constructor
    · rintro (h | h) ⟨⟨a, b⟩, c, d⟩
      · exact c h
      · exact h ⟨b, fun y hy => ⟨fun e => a (e ▸ hy), d y hy⟩⟩
    · intro h
      by_cases hs : x ∈ seen
      · exact .inl hs
      · exact .inr fun ⟨b, d⟩ => h ⟨⟨fun hx => (d x hx).1 rfl, b⟩, hs, fun y hy => (d y hy).2⟩

theorem mem_reportArgs {e : ErrorKind} : ∀ (as known : List Str) (v : Verdict),
    (e ∈ (reportArgs known as v).errs ↔ e ∈ v.errs ∨ (e = .nameClashesWithRule ∧ ¬ (as.Nodup ∧ ∀ a ∈ as, a ∉ known))) ∧
    (reportArgs known as v).panicked = v.panicked
  | [], _, _ => by simp [reportArgs]
  | a :: as, known, v => by
    rw [reportArgs]
    split
    · next h =>
      obtain ⟨h1, h2⟩ := mem_reportArgs (e := e) as known (v.report .nameClashesWithRule true)
      rw [h1, h2, mem_report, report_panicked]
      refine ⟨?_, rfl⟩
      simp only [List.mem_cons, forall_eq_or_imp, h, not_true_eq_false, false_and, and_false, not_false_eq_true, and_true]
      constructor
      · rintro ((h | h) | h)
        · exact .inl h
        · exact .inr h
        · exact .inr h.1
      · rintro (h | h)
        · exact .inl (.inl h)
        · exact .inl (.inr h)
    · next h =>
      obtain ⟨h1, h2⟩ := mem_reportArgs (e := e) as (a :: known) v
      rw [h1, h2]
      refine ⟨or_congr Iff.rfl (and_congr Iff.rfl (not_congr ?_)), rfl⟩
      rw [List.nodup_cons]
      simp only [List.mem_cons, not_or, forall_eq_or_imp]
      constructor
      · rintro ⟨c, d⟩
        exact ⟨⟨fun h => (d a h).1 rfl, c⟩, h, fun y hy => (d y hy).2⟩
      · rintro ⟨⟨b, c⟩, _, d⟩
        exact ⟨c, fun y hy => ⟨fun e => b (e ▸ hy), d y hy⟩⟩

/-- What is wrong with a node. -/
def NodeBad (reOK : Str → Bool) (known : List Str) (macros : Macros) (e : ErrorKind) : Item → Prop
  | .term (.many [] [] ts) => e = .multipleTermsWithSameName ∧ ¬ (ts.filterMap TermN.label).Nodup
  | .named (.mk (some x) _) => e = .nameClashesWithRule ∧ x ∈ known
  | .atom (.ident i) => e = .unknownRule ∧ i ≠ str "@" ∧ i ∉ known
  | .atom (.re x) => e = .invalidRegex ∧ reOK x = false
  | .quant (.range lo hi) => e = .minMaxQuantError ∧ (IsBound lo ∧ IsBound hi) ∧ boundValue hi ≠ 0 ∧ boundValue hi < boundValue lo
  | .macrodef _ as _ => e = .nameClashesWithRule ∧ ¬ (as.Nodup ∧ ∀ a ∈ as, a ∉ known)
  | .macrocall m ts => (e = .notAMacro ∧ lookup m macros = none) ∨ (e = .incorrectMacroArgCount ∧ ∃ mc, lookup m macros = some mc ∧ mc.args.length ≠ ts.length)
  | _ => False

/-- What makes it panic. -/
def NodePanics : Item → Prop
  | .quant (.range lo hi) => ¬ (IsBound lo ∧ IsBound hi)
  | _ => False

theorem mem_validateRange {e : ErrorKind} {lo hi : Option Str} {v : Verdict} :
    (e ∈ (validateRange lo hi v).errs ↔ e ∈ v.errs ∨ (e = .minMaxQuantError ∧ (IsBound lo ∧ IsBound hi) ∧ boundValue hi ≠ 0 ∧ boundValue hi < boundValue lo)) ∧
    ((validateRange lo hi v).panicked = true ↔ v.panicked = true ∨ ¬ (IsBound lo ∧ IsBound hi)) := by
  unfold validateRange
  cases h1 : bound lo with
  | error e =>
    have : ¬ IsBound lo := fun h => by rw [bound_iff.2 ⟨h, rfl⟩] at h1; simp at h1
    simp [this]
  | ok m =>
    obtain ⟨b1, rfl⟩ := bound_iff.1 h1
    cases h2 : bound hi with
    | error e =>
      have : ¬ IsBound hi := fun h => by rw [bound_iff.2 ⟨h, rfl⟩] at h2; simp at h2
      simp [this]
    | ok n =>
      obtain ⟨b2, rfl⟩ := bound_iff.1 h2
      simp only
      rw [mem_report, report_panicked]
      simp only [b1, b2, and_self, true_and, decide_eq_true_eq, not_true_eq_false, or_false, and_true]
      refine or_congr Iff.rfl (and_congr Iff.rfl ?_)
      constructor
      · rintro ⟨_, a, b⟩; exact ⟨a, b⟩
      · rintro ⟨a, b⟩; exact ⟨by omega, a, b⟩

theorem enter_errs {e : ErrorKind} (i : Item) (v : Verdict) :
    (e ∈ ((validatorOps reOK known macros).enter i v).1.errs ↔ e ∈ v.errs ∨ NodeBad reOK known macros e i) ∧
    (((validatorOps reOK known macros).enter i v).1.panicked = true ↔ v.panicked = true ∨ NodePanics i) := by
  cases i with
  | term t =>
    cases t with
    | one n qs => simp [validatorOps, NodeBad, NodePanics]
    | many op gs ts =>
      cases gs with
      | cons g gs => simp [validatorOps, NodeBad, NodePanics]
      | nil =>
        cases op with
        | cons c op => simp [validatorOps, NodeBad, NodePanics]
        | nil => simp [validatorOps, NodeBad, NodePanics, mem_reportRepeats, (mem_reportRepeats (e := e) _ _ _).2]
  | named n =>
    cases n with
    | mk i a =>
      cases i with
      | none => simp [validatorOps, NodeBad, NodePanics]
      | some x => simp [validatorOps, NodeBad, NodePanics, mem_report, report_panicked]
  | atom a =>
    cases a with
    | ident i => simp [validatorOps, NodeBad, NodePanics, mem_report, report_panicked]
    | re x => simp [validatorOps, NodeBad, NodePanics, mem_report, report_panicked]
    | _ => simp [validatorOps, NodeBad, NodePanics]
  | quant q =>
    cases q with
    | range lo hi => exact mem_validateRange
    | _ => simp [validatorOps, NodeBad, NodePanics]
  | macrodef m as t =>
    simp only [validatorOps, NodeBad, NodePanics, or_false, (mem_reportArgs (e := e) _ _ _).2, and_true]
    exact (mem_reportArgs _ _ _).1
  | macrocall m ts =>
    simp only [validatorOps, NodeBad, NodePanics]
    cases h : lookup m macros with
    | none => simp [mem_report, report_panicked]
    | some mc => simp [mem_report, report_panicked]
  | _ => simp [validatorOps, NodeBad, NodePanics]

theorem callAll_errs {e : ErrorKind} : ∀ (es : List Event) (v : Verdict),
    (e ∈ ((validatorOps reOK known macros).callAll es v).errs ↔ e ∈ v.errs ∨ ∃ i, .enter i ∈ es ∧ NodeBad reOK known macros e i) ∧
    (((validatorOps reOK known macros).callAll es v).panicked = true ↔ v.panicked = true ∨ ∃ i, .enter i ∈ es ∧ NodePanics i)
  | [], v => by simp [WalkerOps.callAll]
  | ev :: es, v => by
    obtain ⟨h1, h2⟩ := callAll_errs (e := e) es ((validatorOps reOK known macros).call ev v).1
    rw [WalkerOps.callAll, h1, h2]
    cases ev with
    | enter i =>
      obtain ⟨h3, h4⟩ := enter_errs (e := e) (reOK := reOK) (known := known) (macros := macros) i v
      rw [show (validatorOps reOK known macros).call (.enter i) v = (validatorOps reOK known macros).enter i v from rfl, h3, h4]
      simp only [List.mem_cons, Event.enter.injEq, or_assoc]
      refine ⟨or_congr Iff.rfl ?_, or_congr Iff.rfl ?_⟩
      all_goals
        constructor
        · rintro (h | ⟨j, hj, h⟩)
          · exact ⟨i, .inl rfl, h⟩
          · exact ⟨j, .inr hj, h⟩
        · rintro ⟨j, rfl | hj, h⟩
          · exact .inl h
          · exact .inr ⟨j, hj, h⟩
    | exit i => simp [WalkerOps.call, validatorOps]

theorem walk_errs {e : ErrorKind} (g : GrammarN) :
    (e ∈ (walk (validatorOps reOK known macros) g.tree ⟨[], false⟩).1.errs ↔ ∃ i, g.Checked i ∧ NodeBad reOK known macros e i) ∧
    ((walk (validatorOps reOK known macros) g.tree ⟨[], false⟩).1.panicked = true ↔ ∃ i, g.Checked i ∧ NodePanics i) := by
  rw [walk_callAll validatorOps_skips (fun _ _ _ h => validatorOps_goes h), (callAll_errs _ _).1, (callAll_errs (e := e) _ _).2]
  simp only [List.not_mem_nil, false_or, Bool.false_eq_true]
  constructor
  all_goals
    constructor
    · rintro ⟨i, hi, h⟩
      exact ⟨i, (events_outer _ _ (grammarN_proper g)).1 hi, h⟩
    · rintro ⟨i, hi, h⟩
      exact ⟨i, (events_outer _ _ (grammarN_proper g)).2 hi, h⟩

/-! ## In order -/

theorem report_errs {v : Verdict} {e : ErrorKind} {bad : Bool} : (v.report e bad).errs = v.errs ++ if bad then [e] else [] := by
  cases bad <;> simp [Verdict.report]

theorem extras_congr : ∀ (xs : List Str) {a b : List Str}, (∀ x, x ∈ a ↔ x ∈ b) → extras a xs = extras b xs
  | [], _, _, _ => rfl
  | x :: xs, a, b, h => by
    simp only [extras, h x]
    rw [extras_congr xs (a := x :: a) (b := x :: b) (fun y => by simp [h y])]

theorem reportRepeats_errs : ∀ (xs seen : List Str) (v : Verdict),
    (reportRepeats seen xs v).errs = v.errs ++ List.replicate (extras seen xs) .multipleTermsWithSameName
  | [], _, _ => by simp [reportRepeats, extras]
  | x :: xs, seen, v => by
    rw [reportRepeats, reportRepeats_errs xs, report_errs, extras, ← List.replicate_append_replicate, List.append_assoc]
    by_cases h : x ∈ seen <;> simp [h]

theorem reportArgs_errs : ∀ (as known : List Str) (v : Verdict),
    (reportArgs known as v).errs = v.errs ++ List.replicate (extras known as) .nameClashesWithRule
  | [], _, _ => by simp [reportArgs, extras]
  | a :: as, known, v => by
    rw [reportArgs, extras, ← List.replicate_append_replicate]
    split
    · next h =>
      rw [reportArgs_errs as, report_errs, List.append_assoc]
      rw [extras_congr as (a := a :: known) (b := known) (fun y => by simp only [List.mem_cons]; exact ⟨fun hy => hy.elim (fun e => e ▸ h) id, .inr⟩)]
      simp
    · next h =>
      rw [reportArgs_errs as]
      simp

theorem enter_order {g : GrammarN} (hk : ∀ x, x ∈ known ↔ x ∈ g.names) (hm : ∀ m, (lookup m macros).map (·.args) = g.paramsOf m) (i : Item) (v : Verdict)
    (hp : ¬ NodePanics i) : ((validatorOps reOK known macros).enter i v).1.errs = v.errs ++ g.faultsAt reOK i := by
  cases i with
  | term t =>
    cases t with
    | one n qs => simp [validatorOps, GrammarN.faultsAt]
    | many op gs ts =>
      cases gs with
      | cons g gs => simp [validatorOps, GrammarN.faultsAt]
      | nil =>
        cases op with
        | cons c op => simp [validatorOps, GrammarN.faultsAt]
        | nil => simp [validatorOps, GrammarN.faultsAt, reportRepeats_errs]
  | named n =>
    cases n with
    | mk i a =>
      cases i with
      | none => simp [validatorOps, GrammarN.faultsAt]
      | some x => simp [validatorOps, GrammarN.faultsAt, report_errs, hk]
  | atom a =>
    cases a with
    | ident i => simp [validatorOps, GrammarN.faultsAt, report_errs, hk]
    | re x => cases h : reOK x <;> simp [validatorOps, GrammarN.faultsAt, report_errs, h]
    | _ => simp [validatorOps, GrammarN.faultsAt]
  | quant q =>
    cases q with
    | range lo hi =>
      obtain ⟨h1, h2⟩ : IsBound lo ∧ IsBound hi := Classical.byContradiction hp
      simp only [validatorOps, validateRange, bound_iff.2 ⟨h1, rfl⟩, bound_iff.2 ⟨h2, rfl⟩, report_errs, GrammarN.faultsAt]
      congr 1
      simp only [decide_eq_true_eq]
      have : (boundValue lo ≠ 0 ∧ boundValue hi ≠ 0 ∧ boundValue hi < boundValue lo) ↔ (boundValue hi ≠ 0 ∧ boundValue hi < boundValue lo) :=
        ⟨fun h => h.2, fun h => ⟨by omega, h⟩⟩
      simp only [this]
    | _ => simp [validatorOps, GrammarN.faultsAt]
  | macrodef m as t => simp only [validatorOps, GrammarN.faultsAt, reportArgs_errs, extras_congr as hk]
  | macrocall m ts =>
    simp only [validatorOps, GrammarN.faultsAt, ← hm]
    cases h : lookup m macros with
    | none => simp [report_errs]
    | some mc => by_cases hl : mc.args.length = ts.length <;> simp [report_errs, hl]
  | _ => simp [validatorOps, GrammarN.faultsAt]

theorem callAll_order {g : GrammarN} (hk : ∀ x, x ∈ known ↔ x ∈ g.names) (hm : ∀ m, (lookup m macros).map (·.args) = g.paramsOf m) :
    ∀ (es : List Event) (v : Verdict), (∀ i, .enter i ∈ es → ¬ NodePanics i) →
    ((validatorOps reOK known macros).callAll es v).errs = v.errs ++ (es.filterMap Event.entered).flatMap (g.faultsAt reOK)
  | [], v, _ => by simp [WalkerOps.callAll]
  | .enter i :: es, v, h => by
    rw [WalkerOps.callAll, callAll_order hk hm es _ (fun j hj => h j (List.mem_cons_of_mem _ hj))]
    rw [show (validatorOps reOK known macros).call (.enter i) v = (validatorOps reOK known macros).enter i v from rfl,
      enter_order hk hm i v (h i (List.mem_cons_self ..))]
    simp [Event.entered]
  | .exit i :: es, v, h => by
    rw [WalkerOps.callAll, callAll_order hk hm es _ (fun j hj => h j (List.mem_cons_of_mem _ hj))]
    rw [List.filterMap_cons_none rfl]
    simp [WalkerOps.call, validatorOps]

theorem paramsOf_eq {g : GrammarN} (hd : g.names.Nodup) (m : Str) : (lookup m (findDefinedRules g).macros).map (·.args) = g.paramsOf m := by
  cases hf : g.paramsOf m with
  | none =>
    cases hl : lookup m (findDefinedRules g).macros with
    | none => rfl
    | some mc =>
      have := List.findSome?_eq_none_iff.1 hf _ ((lookup_macros hd).1 hl)
      simp at this
  | some as =>
    obtain ⟨s, hs, h⟩ := List.exists_of_findSome?_eq_some hf
    cases s with
    | macrodef m' as' t =>
      simp only [Option.ite_none_right_eq_some, Option.some.injEq] at h
      obtain ⟨rfl, rfl⟩ := h
      rw [(lookup_macros hd (mc := ⟨as', t⟩)).2 hs]
      rfl
    | _ => cases h

/-! ## Names defined twice -/

theorem add_dupes (s : RuleNames) (i x : Str) : (s.add i).dupes.count x + (if x ∈ (s.add i).out then 1 else 0) =
    s.dupes.count x + (if x ∈ s.out then 1 else 0) + (if i = x then 1 else 0) := by
  simp only [RuleNames.add, List.mem_cons]
  by_cases hi : i ∈ s.out
  · simp only [hi, ↓reduceIte, List.count_append, List.count_singleton]
    by_cases hx : i = x
    · subst hx
      simp [hi]
    · have hx' : ¬ x = i := fun e => hx e.symm
      simp [hx, hx']
  · simp only [hi, ↓reduceIte]
    by_cases hx : i = x
    · subst hx
      simp [hi]
    · have hx' : ¬ x = i := fun e => hx e.symm
      simp [hx, hx']

theorem fold_dupes (x : Str) : ∀ (ss : List StmtN) (s : RuleNames),
    (ss.foldl RuleNames.stmt s).dupes.count x + (if x ∈ (ss.foldl RuleNames.stmt s).out then 1 else 0) =
    s.dupes.count x + (if x ∈ s.out then 1 else 0) + (ss.filterMap StmtN.name).count x
  | [], _ => rfl
  | st :: ss, s => by
    rw [List.foldl_cons, fold_dupes x ss]
    cases st with
    | prod i ts =>
      rw [show s.stmt (.prod i ts) = s.add i from rfl, add_dupes, List.filterMap_cons_some (show StmtN.name (.prod i ts) = some i from rfl), List.count_cons]
      by_cases h : i = x <;> simp [h] <;> omega
    | macrodef m as t =>
      rw [List.filterMap_cons_some (show StmtN.name (.macrodef m as t) = some m from rfl), List.count_cons]
      have := add_dupes s m x
      show (s.add m).dupes.count x + (if x ∈ (s.add m).out then 1 else 0) + _ = _
      rw [this]
      by_cases h : m = x <;> simp [h] <;> omega
    | comment => rw [List.filterMap_cons_none rfl]; rfl
    | imp => rw [List.filterMap_cons_none rfl]; rfl

theorem dupes_count (g : GrammarN) (x : Str) : (findDefinedRules g).dupes.count x = g.names.count x - 1 := by
  have h := fold_dupes x g.stmts ⟨[], [], []⟩
  rw [← findDefinedRules_eq] at h
  have hm := mem_out g x
  simp only [List.count_nil, List.not_mem_nil, ↓reduceIte, Nat.zero_add] at h
  unfold GrammarN.names
  by_cases hx : x ∈ (findDefinedRules g).out
  · rw [if_pos hx] at h
    omega
  · rw [if_neg hx] at h
    have := List.count_eq_zero.2 (fun h' => hx (hm.2 h'))
    omega

end Wbnf

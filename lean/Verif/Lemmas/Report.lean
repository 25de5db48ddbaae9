import Verif.Spec.Report
import Verif.Lemmas.GoTree

/-!
# Texts of errors
-/

namespace Wbnf

variable {S : Says} {room : Nat → Nat} {r : Report} {n m : Nat} {s : Str}

/-- The text of a cause of an error. -/
def Cause.text (S : Says) (room : Nat → Nat) (n : Nat) (self : Report) : Cause → Option Str
  | .report r => r.text S room n
  | .itself => self.text S room n
  | .note x => some (S.note x)

theorem Report.text_error {rule msg : Str} {cs : List Cause} : (Report.error rule msg cs).text S room (n + 1) =
    (causeTexts (Cause.text S room n (.error rule msg cs)) cs).map fun xs =>
      newLine ++ ((GTree.new (str "parse failed")).addTree (.mk (reportLine rule msg) (xs.map GTree.new))).print room := by
  rw [Report.text]
  congr 1

theorem causeTexts_none {f : Cause → Option Str} {c : Cause} : ∀ {cs : List Cause}, c ∈ cs → f c = none → causeTexts f cs = none
  | d :: cs, h, hf => by
    rw [causeTexts]
    rcases List.mem_cons.1 h with rfl | h
    · rw [hf]
    · rw [causeTexts_none h hf]
      cases f d <;> rfl

theorem causeTexts_mem {f : Cause → Option Str} {c : Cause} : ∀ {cs : List Cause} {xs : List Str}, causeTexts f cs = some xs → c ∈ cs → ∃ x ∈ xs, f c = some x
  | d :: cs, xs, h, hm => by
    rw [causeTexts] at h
    cases h1 : f d with
    | none => simp [h1] at h
    | some y =>
      cases h2 : causeTexts f cs with
      | none => simp [h1, h2] at h
      | some ys =>
        simp only [h1, h2, Option.some.injEq] at h
        subst h
        rcases List.mem_cons.1 hm with rfl | hm
        · exact ⟨y, by simp, h1⟩
        · obtain ⟨x, hx, e⟩ := causeTexts_mem h2 hm
          exact ⟨x, by simp [hx], e⟩

theorem causeTexts_mono {f g : Cause → Option Str} : ∀ {cs : List Cause} {xs : List Str}, (∀ c ∈ cs, ∀ x, f c = some x → g c = some x) →
    causeTexts f cs = some xs → causeTexts g cs = some xs
  | [], _, _, h => h
  | d :: cs, xs, hfg, h => by
    rw [causeTexts] at h ⊢
    cases h1 : f d with
    | none => simp [h1] at h
    | some y =>
      cases h2 : causeTexts f cs with
      | none => simp [h1, h2] at h
      | some ys =>
        simp only [h1, h2, Option.some.injEq] at h
        rw [hfg d (by simp) y h1, causeTexts_mono (fun c hc => hfg c (by simp [hc])) h2]
        simpa using h

theorem Endless.text (h : Endless r) : r.text S room n = none := by
  induction n generalizing r with
  | zero => cases r <;> rfl
  | succ n ih =>
    cases h with
    | here hc =>
      rw [Report.text_error, causeTexts_none hc]
      · rfl
      · exact ih (.here hc)
    | cause hc hr =>
      rw [Report.text_error, causeTexts_none hc]
      · rfl
      · exact ih hr

theorem Report.text_mono : ∀ {n : Nat} {r : Report} {s : Str}, r.text S room n = some s → r.text S room (n + 1) = some s
  | 0, r, s, h => by cases r <;> simp [Report.text] at h
  | n + 1, .other e, s, h => h
  | n + 1, .error rule msg cs, s, h => by
    rw [Report.text_error] at h ⊢
    rw [Option.map_eq_some_iff] at h ⊢
    obtain ⟨xs, h1, h2⟩ := h
    refine ⟨xs, causeTexts_mono (fun c _ x hx => ?_) h1, h2⟩
    cases c with
    | report r => exact Report.text_mono (n := n) hx
    | itself => exact Report.text_mono (n := n) hx
    | note => exact hx

theorem Report.text_le (h : r.text S room n = some s) : ∀ d, r.text S room (n + d) = some s
  | 0 => h
  | d + 1 => Report.text_mono (Report.text_le h d)

theorem Report.text_det {s' : Str} (h : r.text S room n = some s) (h' : r.text S room m = some s') : s = s' := by
  have h1 := Report.text_le h m
  have h2 := Report.text_le h' n
  rw [Nat.add_comm] at h2
  rw [h1] at h2
  exact Option.some.inj h2

mutual
theorem text_ends (S : Says) (room : Nat → Nat) : (r : Report) → ¬ Endless r → ∃ n, ∀ d, ∃ s, r.text S room (n + d) = some s
  | .other e, _ => ⟨1, fun d => ⟨S.other e, by rw [Nat.add_comm]; rfl⟩⟩
  | .error rule msg cs, h => by
    obtain ⟨n, hn⟩ := causes_end S room (.error rule msg cs) cs (fun hi => h (.here hi)) (fun r hr he => h (.cause hr he))
    refine ⟨n + 1, fun d => ?_⟩
    obtain ⟨xs, hx⟩ := hn d
    rw [show n + 1 + d = n + d + 1 by omega, Report.text_error, hx]
    exact ⟨_, rfl⟩
theorem causes_end (S : Says) (room : Nat → Nat) (self : Report) : (cs : List Cause) → Cause.itself ∉ cs → (∀ r, Cause.report r ∈ cs → ¬ Endless r) →
    ∃ n, ∀ d, ∃ xs, causeTexts (Cause.text S room (n + d) self) cs = some xs
  | [], _, _ => ⟨0, fun _ => ⟨[], rfl⟩⟩
  | c :: cs, h1, h2 => by
    obtain ⟨n, hn⟩ := cause_ends S room self c (fun e => h1 (by simp [e])) (fun r e => h2 r (by simp [e]))
    obtain ⟨m, hm⟩ := causes_end S room self cs (fun e => h1 (by simp [e])) (fun r e => h2 r (by simp [e]))
    refine ⟨n + m, fun d => ?_⟩
    obtain ⟨x, hx⟩ := hn (m + d)
    obtain ⟨xs, hxs⟩ := hm (n + d)
    rw [causeTexts, show n + m + d = n + (m + d) by omega, hx, show n + (m + d) = m + (n + d) by omega, hxs]
    exact ⟨_, rfl⟩
theorem cause_ends (S : Says) (room : Nat → Nat) (self : Report) : (c : Cause) → c ≠ .itself → (∀ r, c = .report r → ¬ Endless r) →
    ∃ n, ∀ d, ∃ x, Cause.text S room (n + d) self c = some x
  | .report r, _, h => text_ends S room r (h r rfl)
  | .itself, h, _ => absurd rfl h
  | .note x, _, _ => ⟨0, fun _ => ⟨S.note x, rfl⟩⟩
end

/-! ## What is in the text -/

theorem EndsLine.left {x a b : Str} : EndsLine x a → EndsLine x (a ++ b)
  | ⟨p, q, e⟩ => ⟨p, q ++ b, by simp [e]⟩

theorem EndsLine.right {x a b : Str} : EndsLine x b → EndsLine x (a ++ b)
  | ⟨p, q, e⟩ => ⟨a ++ p, q, by simp [e]⟩

theorem EndsLine.suffix {x p s : Str} : EndsLine (p ++ x) s → EndsLine x s
  | ⟨a, b, e⟩ => ⟨a ++ p, b, by simp [e]⟩

theorem splitLines_ne (s : Str) : ∃ l ls, splitLines s = l :: ls := by
  obtain ⟨l, ls, h, -⟩ := splitLines_spec s
  exact ⟨l, ls, h⟩

theorem splitLines_line {x b : Str} (hx : OneLine x) : ∃ ls, splitLines (x ++ 10 :: b) = x :: ls := by
  induction x with
  | nil => exact ⟨splitLines b, by simp [splitLines]⟩
  | cons c x ih =>
    obtain ⟨ls, h⟩ := ih fun hm => hx (by simp [hm])
    refine ⟨ls, ?_⟩
    have hc : c ≠ 10 := fun e => hx (by simp [e])
    rw [List.cons_append, splitLines, if_neg hc, h]

theorem splitLines_ends {x : Str} (hx : OneLine x) (a b : Str) : ∃ l ∈ splitLines (a ++ x ++ 10 :: b), ∃ p, l = p ++ x := by
  induction a with
  | nil =>
    obtain ⟨ls, h⟩ := splitLines_line (b := b) hx
    exact ⟨x, by rw [List.nil_append, h]; simp, [], rfl⟩
  | cons c a ih =>
    obtain ⟨l, hl, p, e⟩ := ih
    rw [List.cons_append, List.cons_append, splitLines]
    split
    · exact ⟨l, List.mem_cons_of_mem _ hl, p, e⟩
    · obtain ⟨l0, ls, h⟩ := splitLines_ne (a ++ x ++ 10 :: b)
      rw [h] at hl ⊢
      rcases List.mem_cons.1 hl with rfl | hl
      · exact ⟨c :: l, by simp, c :: p, by rw [e]; rfl⟩
      · exact ⟨l, by simp [hl], p, e⟩

theorem moreLines_ends {p l : Str} {last : Bool} : ∀ {ls : List Str}, l ∈ ls → EndsLine l (moreLines p last ls)
  | d :: ls, h => by
    rw [moreLines]
    rcases List.mem_cons.1 h with rfl | h
    · exact ⟨p ++ (if last then emptySpace else continueItem), moreLines p last ls, by simp [newLine]⟩
    · exact (moreLines_ends h).right

theorem printText_ends {l text : Str} {sp : List Bool} {last : Bool} (h : l ∈ splitLines text) : EndsLine l (printText text sp last) := by
  obtain ⟨l0, ls, e⟩ := splitLines_ne text
  simp only [printText, e]
  rw [e] at h
  rcases List.mem_cons.1 h with rfl | h
  · exact ⟨spacesText sp ++ (if last then lastItem else middleItem), _, by simp [newLine]; rfl⟩
  · exact (moreLines_ends h).right

theorem textItems_ends {l x : Str} {path : List Bool} (h : l ∈ splitLines x) : ∀ {xs : List Str}, x ∈ xs → EndsLine l (textItems path (xs.map GTree.new))
  | y :: xs, hm => by
    rw [List.map_cons, textItems]
    rcases List.mem_cons.1 hm with rfl | hm
    · exact EndsLine.left (by rw [GTree.new, textItem]; exact (printText_ends h).left)
    · exact (textItems_ends h hm).right

theorem print_ends {l x y : Str} {xs : List Str} (h : l ∈ splitLines x) (hm : x = y ∨ x ∈ xs) :
    EndsLine l (newLine ++ ((GTree.new (str "parse failed")).addTree (.mk y (xs.map GTree.new))).print room) := by
  rw [print_eq]
  refine (EndsLine.right ?_).right
  simp only [GTree.new, GTree.addTree, GTree.items, List.nil_append, textItems, textItem]
  refine EndsLine.left ?_
  rcases hm with rfl | hm
  · exact (printText_ends h).left
  · exact EndsLine.right (textItems_ends h hm)

theorem Tells.ends {x l : Str} (h : Tells S r x) : ∀ {n : Nat} {s : Str}, r.text S room n = some s → OneLine l → l ∈ splitLines x → EndsLine l s := by
  induction h with
  | @here rule msg cs =>
    intro n s ht ho hl
    cases n with
    | zero => simp [Report.text] at ht
    | succ n =>
      rw [Report.text_error, Option.map_eq_some_iff] at ht
      obtain ⟨xs, -, rfl⟩ := ht
      exact print_ends hl (.inl rfl)
  | @note rule msg cs nt hc =>
    intro n s ht ho hl
    cases n with
    | zero => simp [Report.text] at ht
    | succ n =>
      rw [Report.text_error, Option.map_eq_some_iff] at ht
      obtain ⟨xs, h1, rfl⟩ := ht
      obtain ⟨y, hy, e⟩ := causeTexts_mem h1 hc
      cases (show S.note nt = y from Option.some.inj e)
      exact print_ends hl (.inr hy)
  | @other rule msg cs er hc =>
    intro n s ht ho hl
    cases n with
    | zero => simp [Report.text] at ht
    | succ n =>
      rw [Report.text_error, Option.map_eq_some_iff] at ht
      obtain ⟨xs, h1, rfl⟩ := ht
      obtain ⟨y, hy, e⟩ := causeTexts_mem h1 hc
      have e' : Report.text S room n (.other er) = some y := e
      cases n with
      | zero => simp [Report.text] at e'
      | succ n =>
        cases (show S.other er = y from Option.some.inj e')
        exact print_ends hl (.inr hy)
  | @cause rule msg cs r x hc _ ih =>
    intro n s ht ho hl
    cases n with
    | zero => simp [Report.text] at ht
    | succ n =>
      rw [Report.text_error, Option.map_eq_some_iff] at ht
      obtain ⟨xs, h1, rfl⟩ := ht
      obtain ⟨y, hy, e⟩ := causeTexts_mem h1 hc
      obtain ⟨a, b, rfl⟩ := ih (show r.text S room n = some y from e) ho hl
      obtain ⟨l', hl', p, rfl⟩ := splitLines_ends ho a b
      exact (print_ends hl' (.inr hy)).suffix

/-! ## There is one if there is an error -/

theorem escapingReport_iff {E : Engine} {X : Externals} {ident : Str} {t : Term} {sc : Scope} {inp : Scanner} {k : Nat} {a : Option Report} {b : Res Tree}
    (h : a.isSome ↔ ∃ e i k, b = .err e i k) : (escapingReport E X ident t sc inp a).isSome ↔ ∃ e i k', escaping E X ident t sc inp k b = .err e i k' := by
  unfold escapingReport escaping
  cases parseEscape E X ident t sc inp with
  | no => exact h
  | yes => simp
  | err => simp
  | panic => simp

theorem leafReport_iff {find : Str → Option (List (Int × Int))} {rule : Str} {t : Term} {sc : Scope} {inp : Scanner} {k : Nat} :
    (leafReport find rule t inp).isSome ↔ ∃ e i k', eatLeaf find sc inp k = .err e i k' := by
  unfold leafReport eatLeaf
  cases inp.eatRegexp find 2 with
  | panic => simp
  | noMatch => simp
  | ok n p gs rest =>
    simp only [Option.isSome_none, Bool.false_eq_true, false_iff]
    rintro ⟨e, i, k', h⟩
    split at h <;> first | (cases h; done) | (rename_i h0; cases h0)

theorem seqReport_iff {ρ : Nat → Nat} {run : P → Scope → Scanner → Nat → Res Tree} {rep : P → Scope → Scanner → Nat → Option Report} {isCut : P → Bool}
    {rule : Str} (h : ∀ p sc inp k, (rep p sc inp k).isSome ↔ ∃ e i k', run p sc inp k = .err e i k') : ∀ {ps : List (Str × P)} {sc : Scope} {inp : Scanner} {k : Nat},
    (seqReport ρ run rep isCut rule ps sc inp k).isSome ↔ ∃ e i k', seqLoop ρ run isCut ps sc inp k = .err e i k'
  | [], _, _, _ => by simp [seqReport, seqLoop]
  | (ident, p) :: ps, sc, inp, k => by
    rw [seqReport, seqLoop]
    have hp := h p sc inp k
    cases hr : run p sc inp k with
    | panic => simp
    | oof => simp
    | err e i k' =>
      have : (rep p sc inp k).isSome := hp.2 ⟨e, i, k', hr⟩
      simp only
      split <;> simp [this]
    | ok v i k' =>
      simp only
      rw [seqReport_iff h]
      generalize seqLoop ρ run isCut ps _ _ _ = q
      cases q <;> simp [Res.bind]

theorem quantStop_iff {run : Scanner → Nat → Res Tree} {rep : Scanner → Nat → Option Report} {max : Nat} {mycp : Option Nat}
    (h : ∀ inp k, (rep inp k).isSome ↔ ∃ e i k', run inp k = .err e i k') : ∀ {n cnt : Nat} {inp : Scanner} {k : Nat},
    (quantStop run rep max mycp n cnt inp k).isSome ↔ ∃ e i k', quantLoop run max mycp n cnt inp k = .err e i k'
  | 0, _, _, _ => by simp [quantStop, quantLoop]
  | n + 1, cnt, inp, k => by
    rw [quantStop, quantLoop]
    split
    · have hp := h inp k
      cases hr : run inp k with
      | panic => simp
      | oof => simp
      | err e i k' =>
        have : (rep inp k).isSome := hp.2 ⟨e, i, k', hr⟩
        simp only
        split <;> simp [this]
      | ok v i k' =>
        simp only
        rw [quantStop_iff h]
        generalize quantLoop run max mycp n _ _ _ = q
        cases q <;> simp [Res.bind]
    · simp

theorem oneofReport_iff {run : P → Scanner → Nat → Res Tree} {rep : P → Scanner → Nat → Option Report} {rule tag : Str} {prevcp mycp : Option Nat} {inp : Scanner}
    (h : ∀ p inp k, (rep p inp k).isSome ↔ ∃ e i k', run p inp k = .err e i k') : ∀ {ps : List P} {cs : List Cause} {i : Nat} {far : Scanner} {k : Nat},
    (oneofReport run rep rule mycp inp ps cs k).isSome ↔ ∃ e i' k', oneofLoop run tag prevcp mycp inp ps i far k = .err e i' k'
  | [], _, _, _, _ => by simp [oneofReport, oneofLoop]
  | p :: ps, cs, j, far, k => by
    rw [oneofReport, oneofLoop]
    have hp := h p inp k
    cases hr : run p inp k with
    | panic => simp
    | oof => simp
    | ok v i k' => simp
    | err e i k' =>
      obtain ⟨x, hx⟩ := Option.isSome_iff_exists.1 (hp.2 ⟨e, i, k', hr⟩)
      simp only
      split
      · simp [hx]
      · rw [hx, Option.bind_some]
        exact oneofReport_iff h

theorem settled_iff {res : Res Tree} {o : Option Report} (h : o.isSome ↔ ∃ e i k, res = .err e i k) :
    (settled res o).isSome ↔ ∃ e i k, res = .err e i k := by
  unfold settled
  cases res with
  | err e i k => simpa using h
  | _ => simp

theorem fails_iff {E : Engine} {X : Externals} {ρ : Nat → Nat} : ∀ {n : Nat} {env : List Frame} {p : P} {sc : Scope} {inp : Scanner} {k : Nat},
    (report E X ρ n env p sc inp k).isSome ↔ ∃ e i k', parse E X ρ n env p sc inp k = .err e i k'
  | 0, _, _, _, _, _ => by simp [report, parse]
  | n + 1, env, p, sc, inp, k => by
    have ih := @fails_iff E X ρ n
    cases p with
    | rule => simp [report, parse]
    | link r =>
      simp only [report, parse]
      cases lookupEnv r env with
      | none => simp [Res.ofOption]
      | some q => exact ih
    | s => exact escapingReport_iff leafReport_iff
    | re => exact escapingReport_iff leafReport_iff
    | seq rule ts ps =>
      refine escapingReport_iff ?_
      rw [seqReport_iff fun _ _ _ _ => ih]
      generalize seqLoop ρ _ _ _ _ _ _ = q
      cases q <;> simp [Res.bind]
    | delim rule term sep a cs ce child =>
      refine escapingReport_iff ?_
      rw [ih]
      generalize parse E X ρ n env child sc inp k = q
      cases q with
      | ok v i k' =>
        simp only [Res.bind, reduceCtorEq, exists_false, false_iff]
        rintro ⟨e, i, k', h⟩
        cases hd : delimFinish (ruleOrAlt rule delimTag) a cs ce v <;> simp [hd, Res.ofOption] at h
      | err => simp [Res.bind]
      | panic => simp [Res.bind]
      | oof => simp [Res.bind]
    | look rule t q =>
      refine escapingReport_iff ?_
      rw [settled_iff ih]
      generalize parse E X ρ n env q sc inp k = q
      cases q <;> simp [lookResult]
    | quant rule t min max q =>
      refine escapingReport_iff ?_
      simp only
      have hs := @quantStop_iff (fun i k => parse E X ρ n env q (sc.replaceCutPoint ρ false k).1 i k)
      split
      · next vs i k' hq =>
        rw [hq, Res.bind]
        split <;> simp
      · next hq =>
        rw [quantStop_iff fun _ _ => ih]
        generalize quantLoop _ max _ n 0 inp _ = q at hq ⊢
        cases q with
        | ok vs i k' => exact absurd rfl (hq vs i k')
        | err => simp [Res.bind]
        | panic => simp [Res.bind]
        | oof => simp [Res.bind]
    | oneof rule ts ps => exact escapingReport_iff (oneofReport_iff fun _ _ _ => ih)
    | ref ident dflt =>
      refine escapingReport_iff ?_
      cases sc.getVal ident with
      | some expected =>
        simp only [refReport, refExpect]
        cases termFromRefVal expected with
        | none => simp [Res.ofOption]
        | some term =>
          simp only [Res.ofOption]
          cases compileTerm E n ⟨none, true⟩ ident term with
          | error st => cases st <;> simp [Res.ofExcept]
          | ok q =>
            simp only [Res.ofExcept]
            have hq := @ih [] q sc inp k
            cases hr : parse E X ρ n [] q sc inp k with
            | err e i k' =>
              rw [hr] at hq
              simpa [Res.bind] using hq
            | panic => simp [Res.bind]
            | oof => simp [Res.bind]
            | ok v i k' =>
              simp only [Res.bind]
              cases nodesEqual v expected with
              | none => simp
              | some b => cases b <;> simp
      | none =>
        simp only [refDefault]
        cases dflt with
        | none => simp [defaultReport]
        | some t =>
          simp only [defaultReport]
          cases compileTerm E n ⟨none, true⟩ ident t with
          | error st => cases st <;> simp [Res.ofExcept]
          | ok q => exact ih
    | ext name =>
      refine escapingReport_iff ?_
      cases X.refs name with
      | none => simp
      | some fn =>
        simp only [extResult]
        cases (fn ⟨sc.getVal, sc.cp, [], none⟩ inp).err <;> simp
    | scope frame body => exact ih
    | cut q t => exact ih

end Wbnf

import Verif.Lemmas.ReportEnds
import Verif.Lemmas.ReportFuel
import Verif.Props.Comments

/-!
# C73: the text of an error tells all that failed
-/

namespace Wbnf

variable {E : Engine} {X : Externals} {ρ : Nat → Nat} {S : Says} {room : Nat → Nat} {r : Report} {n m : Nat} {s s' : Str}

/-- **C73** There is something to tell exactly if there is an error of a parser. -/
theorem C73_reported {ps : Parsers} {rule : Str} {inp : Scanner} :
    (∃ r, ps.report E X ρ n rule inp = some r) ↔ ∃ e i k, ps.run E X ρ n rule inp = .err e i k := by
  rw [← Option.isSome_iff_exists, Parsers.report, Parsers.run]
  cases lookup rule ps.parsers with
  | none => simp
  | some p => exact settled_iff fails_iff

/-- **C73** A parse has one error: what bounds the model's steps does not change it. -/
theorem C73_one {ps : Parsers} {rule : Str} {inp : Scanner} {r' : Report} (h : ps.report E X ρ n rule inp = some r)
    (h' : ps.report E X ρ m rule inp = some r') : r = r' := by
  rw [Parsers.report] at h h'
  cases hl : lookup rule ps.parsers with
  | none => simp [hl] at h
  | some p =>
    simp only [hl] at h h'
    have h1 := settled_mono_le (Nat.le_max_left n m) h
    rw [settled_mono_le (Nat.le_max_right n m) h'] at h1
    exact (Option.some.inj h1).symm

/-- **C73** `Error` returns exactly if no error among them is a cause of itself. -/
theorem C73_ends : (∃ n s, r.text S room n = some s) ↔ ¬ Endless r := by
  constructor
  · rintro ⟨n, s, h⟩ he
    rw [he.text] at h
    cases h
  · intro h
    obtain ⟨n, hn⟩ := text_ends S room r h
    obtain ⟨s, hs⟩ := hn 0
    exact ⟨n, s, hs⟩

/-- **C73** What it returns is always the same. -/
theorem C73_same (h : r.text S room n = some s) (h' : r.text S room m = some s') : s = s' := Report.text_det h h'

/-- **C73** It shows all: every line of what any of the errors and the notes say ends a line of it. -/
theorem C73_shows (h : r.text S room n = some s) {x : Str} (hx : Tells S r x) {lines : List Str} (hl : LinesOf x lines) : ∀ l ∈ lines, EndsLine l s := by
  intro l hm
  obtain ⟨l0, ls, e, h0⟩ := splitLines_spec x
  rw [← e] at h0
  exact hx.ends h (hl.1 l hm) (by rw [LinesOf.det h0 hl]; exact hm)

/-- **C73** All that an error tells is told by those it led to. -/
theorem C73_causes {q : Report} (h : r.text S room n = some s) (hq : LedTo q r) {x : Str} (hx : Tells S q x) {lines : List Str} (hl : LinesOf x lines) :
    ∀ l ∈ lines, EndsLine l s := C73_shows h (hq.tells hx) hl

/-- **C73** A text or pattern that is not found: the error tells what was expected, and, if the scanner the parser was called with is left as it is, what
there is instead. But see `C73_elsewhere`. -/
theorem C73_leaf {env : List Frame} {rule re : Str} {t : Str} {sc : Scope} {inp : Scanner} {k : Nat} (hX : X.esc = none) :
    (report E X ρ n env (.s rule t re) sc inp k = some r → HasNote (.expect (.s t)) (r.settle inp) ∧ HasNote (.actual (some inp)) (r.settle inp)) ∧
    (report E X ρ n env (.re rule t re) sc inp k = some r → HasNote (.expect (.re t)) (r.settle inp) ∧ HasNote (.actual (some inp)) (r.settle inp)) := by
  cases n with
  | zero => constructor <;> (intro h; cases h)
  | succ n =>
    simp only [report, escapingReport, parseEscape, hX]
    unfold leafReport
    cases inp.eatRegexp (E.find re) 2 with
    | panic => simp
    | ok => simp
    | noMatch =>
      constructor <;>
      · intro h
        cases h
        exact ⟨.here (by simp [settleAll, Cause.settle, Note.settle]), .here (by simp [settleAll, Cause.settle, Note.settle])⟩

/-- **C73** Notes are told. -/
theorem C73_notes (h : r.text S room n = some s) {note : Note} (hx : HasNote note r) {lines : List Str} (hl : LinesOf (S.note note) lines) :
    ∀ l ∈ lines, EndsLine l s := C73_shows h hx.tells hl

/-- **C73** A sequence that fails: one of its items fails, and led to its error, which tells that the sequence was not completed, unless the error of the
item is fatal. -/
theorem C73_sequence {env : List Frame} {rule : Str} {ts : List Term} {ps : List P} {sc : Scope} {inp : Scanner} {k : Nat} (hX : X.esc = none)
    (h : report E X ρ (n + 1) env (.seq rule ts ps) sc inp k = some r) :
    ∃ p ∈ ps, ∃ sc' inp' k' e i j q, parse E X ρ n env p sc' inp' k' = .err e i j ∧ report E X ρ n env p sc' inp' k' = some q ∧ LedTo q r ∧
      (e.isFatal = false → Tells S r (str "rule(" ++ rule ++ str ") - " ++ str "could not complete sequence")) := by
  simp only [report, escapingReport, parseEscape, hX] at h
  obtain ⟨it, hm, sc', inp', k', e, i, j, q, hp, hq, h⟩ := seqReport_because h
  refine ⟨it.2, (List.of_mem_zip hm).2, sc', inp', k', e, i, j, q, hp, hq, ?_⟩
  rcases h with ⟨he, rfl⟩ | ⟨cs, rfl, hc⟩
  · exact ⟨.same, by simp [he]⟩
  · exact ⟨.cause hc .same, fun _ => .here⟩

/-- **C73** A choice that fails: either the error is the fatal error of an alternative, or every alternative failed, and the errors of all led to it. -/
theorem C73_choice {env : List Frame} {rule : Str} {ts : List Term} {ps : List P} {sc : Scope} {inp : Scanner} {k : Nat} (hX : X.esc = none)
    (h : report E X ρ (n + 1) env (.oneof rule ts ps) sc inp k = some r) :
    (∃ p ∈ ps, ∃ sc' k' e i j q, parse E X ρ n env p sc' inp k' = .err e i j ∧ e.isFatal = true ∧ report E X ρ n env p sc' inp k' = some q ∧
      r = q.settle i) ∨
    (Tells S r (str "rule(" ++ rule ++ str ") - " ++ str "None of the available options could be satisfied") ∧
      ∀ p ∈ ps, ∃ sc' k' e i j q, parse E X ρ n env p sc' inp k' = .err e i j ∧ report E X ρ n env p sc' inp k' = some q ∧ LedTo (q.settle i) r) := by
  simp only [report, escapingReport, parseEscape, hX] at h
  rcases oneofReport_because h with ⟨p, hm, k', e, i, j, q, h⟩ | ⟨cs, rfl, _, ha⟩
  · exact .inl ⟨p, hm, _, k', e, i, j, q, h⟩
  · refine .inr ⟨.here, fun p hm => ?_⟩
    obtain ⟨k', e, i, j, q, hp, hq, hc⟩ := ha p hm
    exact ⟨_, k', e, i, j, q, hp, hq, .cause hc .same⟩

/-- **C73** For a grammar without quantifiers that ask for one at least, whatever the text and the handlers, `Error` returns. Partial: see
`C73_quantifier`. -/
theorem C73_ends_partial {g : Grammar} {ps : Parsers} {rule : Str} {inp : Scanner} (hg : lenientDefs g) (hc : g.compile E m = .ok ps)
    (h : ps.report E X ρ n rule inp = some r) : ∃ k s, r.text S room k = some s := by
  refine C73_ends.2 ?_
  have hf := grammar_lenient hg hc
  rw [Parsers.report] at h
  split at h
  · cases h
  · next p hl =>
    exact settled_ends (report_ends (by simpa using hf) (lenientFrame_iff.1 hf _ (lookup_mem hl))) r h

/-- **C73** is false of quantifiers: whenever one fails (other than by a fatal error of what it repeats), the text of its error, and of all errors it is
a cause of, cannot be had: `Error` calls itself until the stack is full. -/
theorem C73_quantifier {env : List Frame} {rule : Str} {t : Term} {lo hi : Nat} {q : P} {sc : Scope} {inp i : Scanner} {k k' : Nat} (hX : X.esc = none)
    (h : parse E X ρ n env (.quant rule t lo hi q) sc inp k = .err .parse i k') :
    ∃ r, report E X ρ n env (.quant rule t lo hi q) sc inp k = some r ∧ Endless r ∧ ∀ m, r.text S room m = none := by
  cases n with
  | zero => cases h
  | succ n =>
    have he : parseEscape E X [] t sc inp = .no := by unfold parseEscape; rw [hX]
    simp only [parse, escaping, he] at h
    simp only [report, escapingReport, he]
    cases hq : quantLoop (fun i k0 => parse E X ρ n env q (sc.replaceCutPoint ρ false k).1 i k0) hi (sc.replaceCutPoint ρ false k).2.2.1 n 0 inp
        (sc.replaceCutPoint ρ false k).2.2.2 with
    | ok vs i1 k1 =>
      rw [hq] at h
      simp only [Res.bind] at h ⊢
      split at h
      · cases h
      · next hl =>
        have hd : Endless (quantError rule lo hi vs.length) := .here (by simp)
        exact ⟨_, by rw [if_neg hl], hd, fun _ => hd.text⟩
    | err e i1 k1 =>
      rw [hq] at h
      cases h
      exact absurd (quantLoop_stops hq) (by simp [Err.isNotMyFatal])
    | panic => rw [hq] at h; cases h
    | oof => rw [hq] at h; cases h

namespace Ex

/-- `a -> "x"+;` -/
def someX : Grammar := [(str "a", .quant (.s (str "x")) 1 0)]

/-- `a -> "x"+ | "z";` -/
def orSomeX : Grammar := [(str "a", .oneof [.quant (.s (str "x")) 1 0, .s (str "z")])]

end Ex

/-! ## Grammars whose errors cannot be told -/

/-- Whether compiling a grammar and parsing a text leaves an error that cannot be told. -/
def untold (g : Grammar) (n : Nat) (rule inp : Str) : Bool :=
  match g.compile regexp n with
  | .ok ps => match ps.report regexp noExternals Ex.ρ0 n rule (newScanner inp) with
    | some r => endlessB r
    | none => false
  | _ => false

theorem untold_spec {g : Grammar} {rule inp : Str} (h : untold g n rule inp = true) :
    ∃ ps r, g.compile regexp n = .ok ps ∧ ps.report regexp noExternals Ex.ρ0 n rule (newScanner inp) = some r ∧
      ∀ S room m, r.text S room m = none := by
  unfold untold at h
  split at h
  · next ps hc =>
    split at h
    · next r hr => exact ⟨ps, r, hc, hr, fun _ _ _ => (endlessB_sound h).text⟩
    · cases h
  · cases h

/-- **C73** is false of `a -> "x"+;`, of grammars where such a quantifier is one of the things that fail, and of the grammar of grammars itself: the
text of the error for an empty source, and for a rule without a body, cannot be had. -/
theorem C73_endless :
    (∃ ps r, Ex.someX.compile regexp 60 = .ok ps ∧ ps.report regexp noExternals Ex.ρ0 60 (str "a") (newScanner (str "y")) = some r ∧
      ∀ S room m, r.text S room m = none) ∧
    (∃ ps r, Ex.orSomeX.compile regexp 60 = .ok ps ∧ ps.report regexp noExternals Ex.ρ0 60 (str "a") (newScanner (str "y")) = some r ∧
      ∀ S room m, r.text S room m = none) ∧
    (∃ ps r, Core.grammar.compile regexp 60 = .ok ps ∧ ps.report regexp noExternals Ex.ρ0 60 (str "grammar") (newScanner []) = some r ∧
      ∀ S room m, r.text S room m = none) :=
  ⟨untold_spec (by decide +kernel), untold_spec (by decide +kernel), untold_spec (by decide +kernel)⟩

/-! ## Where it was -/

namespace Ex

/-- Short notes. -/
def plainSays : Says := ⟨fun _ => str "note", fun _ => str "fatal"⟩

/-- The error a grammar has for a text. -/
def reportOf (g : Grammar) (rule inp : Str) : Option Report :=
  match g.compile regexp 60 with
  | .ok ps => ps.report regexp noExternals ρ0 60 rule (newScanner inp)
  | .error _ => none

/-- `a -> "x" "y" "z";` -/
def flat : Grammar := [(str "a", .seq [.s (str "x"), .s (str "y"), .s (str "z")])]

/-- `a -> "x" ("y" "z");` -/
def nested : Grammar := [(str "a", .seq [.s (str "x"), .seq [.s (str "y"), .s (str "z")]])]

end Ex

/-- Whether an error notes that a literal is expected, and, wherever it notes what there is, notes that it is a text. -/
def expectsAt (lit rest : Str) (r : Report) : Bool :=
  (notesOf r).any (fun | .expect (.s x) => x == lit | _ => false) && (notesOf r).any (fun | .actual (some _) => true | _ => false) &&
    (notesOf r).all (fun | .actual (some i) => i.toStr == some rest | _ => true)

theorem expectsAt_spec {lit rest : Str} (h : expectsAt lit rest r = true) :
    HasNote (.expect (.s lit)) r ∧ (∃ i, HasNote (.actual (some i)) r) ∧ ∀ i, HasNote (.actual (some i)) r → i.toStr = some rest := by
  simp only [expectsAt, Bool.and_eq_true, List.any_eq_true, List.all_eq_true] at h
  obtain ⟨⟨⟨x, hx, h1⟩, ⟨y, hy, h2⟩⟩, h3⟩ := h
  refine ⟨?_, ?_, fun i hi => ?_⟩
  · split at h1
    · rw [← beq_iff_eq.1 h1]; exact noted_of_mem hx
    · cases h1
  · split at h2
    · exact ⟨_, noted_of_mem hy⟩
    · cases h2
  · simpa using h3 _ hi.mem

theorem reportOf_spec {g : Grammar} {rule inp lit rest : Str} (h : (Ex.reportOf g rule inp).any (expectsAt lit rest) = true) :
    ∃ r, Ex.reportOf g rule inp = some r ∧ HasNote (.expect (.s lit)) r ∧ (∃ i, HasNote (.actual (some i)) r) ∧
      ∀ i, HasNote (.actual (some i)) r → i.toStr = some rest := by
  cases hr : Ex.reportOf g rule inp with
  | none => simp [hr] at h
  | some r => exact ⟨r, rfl, expectsAt_spec (by simpa [hr] using h)⟩

/-- **C73** What an error says about where it was may be wrong: the parser of `"z"` fails at the same place of `xyw` for `"x" "y" "z"` and for
`"x" ("y" "z")`, before `w`. The error says so for the first. For the second it says that `yw` is there: the note is a function that looks at the scanner
when the text is asked for, and by then the outer sequence has put it back. -/
theorem C73_elsewhere :
    (∃ r, Ex.reportOf Ex.flat (str "a") (str "xyw") = some r ∧ HasNote (.expect (.s (str "z"))) r ∧ (∃ i, HasNote (.actual (some i)) r) ∧
      ∀ i, HasNote (.actual (some i)) r → i.toStr = some (str "w")) ∧
    (∃ r, Ex.reportOf Ex.nested (str "a") (str "xyw") = some r ∧ HasNote (.expect (.s (str "z"))) r ∧ (∃ i, HasNote (.actual (some i)) r) ∧
      ∀ i, HasNote (.actual (some i)) r → i.toStr = some (str "yw")) :=
  ⟨reportOf_spec (by decide +kernel), reportOf_spec (by decide +kernel)⟩

/-- **C73** It is right for literals that are alternatives of a choice, which have a scanner of their own, unless the error is the fatal error of another. -/
theorem C73_place {env : List Frame} {rule : Str} {ts : List Term} {ps : List P} {sc : Scope} {inp : Scanner} {k : Nat} (hX : X.esc = none)
    (h : report E X ρ (n + 1) env (.oneof rule ts ps) sc inp k = some r) {rule' t re : Str} (hp : .s rule' t re ∈ ps) :
    (∃ p ∈ ps, ∃ sc' k' e i j q, parse E X ρ n env p sc' inp k' = .err e i j ∧ e.isFatal = true ∧ report E X ρ n env p sc' inp k' = some q ∧
      r = q.settle i) ∨
    HasNote (.expect (.s t)) r ∧ HasNote (.actual (some inp)) r := by
  rcases C73_choice (S := Ex.plainSays) hX h with h | ⟨_, h⟩
  · exact .inl h
  · obtain ⟨sc', k', e, i, j, q, h1, h2, h3⟩ := h _ hp
    have hi : i = inp := by
      cases n with
      | zero => cases h1
      | succ n =>
        simp only [parse, escaping, parseEscape, hX] at h1
        unfold eatLeaf at h1
        split at h1 <;> first | (cases h1; done) | (cases h1; rfl)
    subst hi
    obtain ⟨h4, h5⟩ := (C73_leaf hX).1 h2
    exact .inr ⟨h3.noted h4, h3.noted h5⟩

/-- **C73** And for a literal that is looked ahead for, which has a scanner of its own, too. -/
theorem C73_look {env : List Frame} {rule rule' t re : Str} {t' : Term} {sc : Scope} {inp : Scanner} {k : Nat} (hX : X.esc = none)
    (h : report E X ρ (n + 1) env (.look rule t' (.s rule' t re)) sc inp k = some r) :
    HasNote (.expect (.s t)) r ∧ HasNote (.actual (some inp)) r := by
  simp only [report, escapingReport, parseEscape, hX, settled] at h
  split at h
  · next last _ h1 =>
    obtain ⟨q, hq, rfl⟩ := Option.map_eq_some_iff.1 h
    have hi : last = inp := by
      cases n with
      | zero => cases h1
      | succ n =>
        simp only [parse, escaping, parseEscape, hX] at h1
        unfold eatLeaf at h1
        split at h1 <;> first | (cases h1; done) | (cases h1; rfl)
    subst hi
    exact (C73_leaf hX).1 hq
  · cases h

namespace Ex

/-- `a -> "x" (?= "y");` -/
def ahead : Grammar := [(str "a", .seq [.s (str "x"), .look (.s (str "y"))])]

end Ex

/-- For `xw`: `y` was expected where `w` is. -/
example : ∃ r, Ex.reportOf Ex.ahead (str "a") (str "xw") = some r ∧ HasNote (.expect (.s (str "y"))) r ∧ (∃ i, HasNote (.actual (some i)) r) ∧
    ∀ i, HasNote (.actual (some i)) r → i.toStr = some (str "w") := reportOf_spec (by decide +kernel)

/-! ## Cases -/

namespace Ex

/-- `a -> "x" b; b -> "y" | "z";` -/
def lenient : Grammar := [(str "a", .seq [.s (str "x"), .rule (str "b")]), (str "b", .oneof [.s (str "y"), .s (str "z")])]

end Ex

/-- The error for `xw` is that of `a`, and the first cause of it that of `b`. -/
theorem lenient_report : ∃ cs c, Ex.reportOf Ex.lenient (str "a") (str "xw") = some (.error (str "a") (str "could not complete sequence")
    (.report (.error (str "b") (str "None of the available options could be satisfied") cs) :: c)) := by
  have h : (match Ex.reportOf Ex.lenient (str "a") (str "xw") with
    | some (.error a x (.report (.error b y _) :: _)) => decide (a = str "a" ∧ x = str "could not complete sequence" ∧ b = str "b" ∧
        y = str "None of the available options could be satisfied")
    | _ => false) = true := by decide +kernel
  split at h
  · next e =>
    obtain ⟨rfl, rfl, rfl, rfl⟩ := of_decide_eq_true h
    exact ⟨_, _, e⟩
  · cases h

/-- Both are told. -/
example : ∃ r s, Ex.reportOf Ex.lenient (str "a") (str "xw") = some r ∧ r.text Ex.plainSays (fun _ => 1) 60 = some s ∧
    EndsLine (str "rule(a) - could not complete sequence") s ∧
    EndsLine (str "rule(b) - None of the available options could be satisfied") s := by
  obtain ⟨cs, c, h⟩ := lenient_report
  have ht : ((Ex.reportOf Ex.lenient (str "a") (str "xw")).bind (Report.text Ex.plainSays (fun _ => 1) 60)).isSome = true := by decide +kernel
  rw [h] at ht
  obtain ⟨s, hs⟩ := Option.isSome_iff_exists.1 ht
  refine ⟨_, s, h, hs, ?_, ?_⟩
  · exact C73_shows hs .here (lines := [str "rule(a) - could not complete sequence"]) ⟨by simp only [List.mem_singleton, forall_eq, OneLine]; decide +kernel, by decide +kernel⟩ _ (by simp)
  · exact C73_shows hs (.cause (List.mem_cons_self ..) .here) (lines := [str "rule(b) - None of the available options could be satisfied"])
      ⟨by simp only [List.mem_singleton, forall_eq, OneLine]; decide +kernel, by decide +kernel⟩ _ (by simp)

/-- Its grammar has no quantifier that asks for one, and compiles. -/
example : lenientDefs Ex.lenient ∧ ∃ ps, Ex.lenient.compile regexp 60 = .ok ps := by
  refine ⟨by simp [Ex.lenient, lenientDefs, Term.Lenient, lenientAll], ?_⟩
  obtain ⟨cs, c, h⟩ := lenient_report
  unfold Ex.reportOf at h
  split at h
  · next ps hc => exact ⟨ps, hc⟩
  · cases h

/-- A quantifier that fails. -/
example : ∃ i k, parse regexp noExternals Ex.ρ0 9 [] (.quant (str "a") (.quant (.s (str "x")) 1 0) 1 0 (.s [] (str "x") (str "x"))) .init (newScanner (str "y")) 0
    = .err .parse i k := by
  have h : (match parse regexp noExternals Ex.ρ0 9 [] (.quant (str "a") (.quant (.s (str "x")) 1 0) 1 0 (.s [] (str "x") (str "x"))) .init
    (newScanner (str "y")) 0 with | .err .parse _ _ => true | _ => false) = true := by decide +kernel
  split at h
  · next e => exact ⟨_, _, e⟩
  · cases h

end Wbnf

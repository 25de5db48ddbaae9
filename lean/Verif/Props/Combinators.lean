import Verif.Lemmas.Yields
import Verif.Lemmas.Derive
import Verif.Lemmas.DecEq
import Verif.Props.Semantics

/-!
# C06 – C10: choice, repetition, look-ahead, delimited lists

`ps.Yields E X r inp o` (Spec/Top) is the observable outcome of the parser for rule `r` at `inp`: `ok`
with a tree and the scanner left, `fail` (plain error) or `abort` (fatal error, e.g. after a cut point).
The theorems relate the outcome of a rule defined by a combinator to the outcomes of the rules it
combines. Each also comes in a form for arbitrary operand terms, scopes and bindings, in terms of the
semantics `Peg` that the parser implements (C11).
-/

namespace Wbnf

variable {E : Engine} {X : Externals} {g : Grammar} {m : Nat} {ps : Parsers} {r : Str} {inp : Scanner}

/-! ## C06 -/

/-- **C06** `r -> a₀ | a₁ | …`: the choice succeeds exactly with the first alternative that matches, all
earlier ones having failed at the same position; it fails if all fail; and an alternative that aborts,
after earlier ones failed, aborts the choice. -/
theorem C06_first_match (hg : g.wf = true) (hc : g.compile E m = .ok ps) (hX : X.Plain) {alts : List Str}
    (hr : lookup r ps.grammar = some (.oneof (alts.map .rule))) :
    (∀ w j, ps.Yields E X r inp (.ok w j) ↔ ∃ (i : Nat) (a : Str) (v : Tree), alts[i]? = some a ∧
      w = .node (ruleOrAlt r (str "|")) (.choice i) [v] ∧ ps.Yields E X a inp (.ok v j) ∧
      ∀ i' < i, ∀ a', alts[i']? = some a' → ps.Yields E X a' inp .fail) ∧
    (ps.Yields E X r inp .fail ↔ ∀ a ∈ alts, ps.Yields E X a inp .fail) ∧
    (ps.Yields E X r inp .abort ↔ ∃ (i : Nat) (a : Str), alts[i]? = some a ∧ ps.Yields E X a inp .abort ∧
      ∀ i' < i, ∀ a', alts[i']? = some a' → ps.Yields E X a' inp .fail) := by
  simp only [yields_iff hg hc hX, denotes_rule hr (by simp), oneof_iff]
  refine ⟨fun w j => ?_, ?_, ?_⟩
  · rw [alts_ok]
    constructor
    · rintro ⟨d, t, v, h1, h2, h3, h4⟩
      rw [List.getElem?_map, Option.map_eq_some_iff] at h1
      obtain ⟨a, h1, rfl⟩ := h1
      refine ⟨d, a, v, h1, by rw [Nat.zero_add] at h2; exact h2, h3, fun i' hi' a' ha' => ?_⟩
      exact h4 i' hi' _ (by rw [List.getElem?_map, ha']; rfl)
    · rintro ⟨d, a, v, h1, h2, h3, h4⟩
      refine ⟨d, .rule a, v, by rw [List.getElem?_map, h1]; rfl, by rw [Nat.zero_add]; exact h2, h3, ?_⟩
      intro d' hd' t' ht'
      rw [List.getElem?_map, Option.map_eq_some_iff] at ht'
      obtain ⟨a', ha', rfl⟩ := ht'
      exact h4 d' hd' a' ha'
  · rw [alts_fail]
    simp only [List.mem_map, forall_exists_index, and_imp, forall_apply_eq_imp_iff₂]
    rfl
  · rw [alts_abort]
    constructor
    · rintro ⟨d, t, h1, h3, h4⟩
      rw [List.getElem?_map, Option.map_eq_some_iff] at h1
      obtain ⟨a, h1, rfl⟩ := h1
      refine ⟨d, a, h1, h3, fun i' hi' a' ha' => ?_⟩
      exact h4 i' hi' _ (by rw [List.getElem?_map, ha']; rfl)
    · rintro ⟨d, a, h1, h3, h4⟩
      refine ⟨d, .rule a, by rw [List.getElem?_map, h1]; rfl, h3, ?_⟩
      intro d' hd' t' ht'
      rw [List.getElem?_map, Option.map_eq_some_iff] at ht'
      obtain ⟨a', ha', rfl⟩ := ht'
      exact h4 d' hd' a' ha'

/-- **C06** The same for arbitrary alternatives, enclosing scopes and bindings: every alternative is
tried at the same position with the same bindings. -/
theorem C06_first_match_any {Γ : List Grammar} {name : Str} {alts : List Term} {vals : List (Str × Tree)} :
    (∀ w j, Peg E X (.term Γ name (.oneof alts) vals inp) (.ok w j) ↔
      ∃ (i : Nat) (t : Term) (v : Tree), alts[i]? = some t ∧
        w = .node (ruleOrAlt name (str "|")) (.choice i) [v] ∧ Peg E X (.term Γ [] t vals inp) (.ok v j) ∧
        ∀ i' < i, ∀ t', alts[i']? = some t' → Peg E X (.term Γ [] t' vals inp) .fail) ∧
    (Peg E X (.term Γ name (.oneof alts) vals inp) .fail ↔
      ∀ t ∈ alts, Peg E X (.term Γ [] t vals inp) .fail) := by
  refine ⟨fun w j => ?_, ?_⟩
  · rw [oneof_iff, alts_ok]; simp only [Nat.zero_add]; rfl
  · rw [oneof_iff, alts_fail]

/-! ## C07 -/

/-- How a repetition with bounds ends after `n` items at a position: the upper bound is reached, or one
more was tried and failed. -/
def Exhausted (hi n : Nat) (failsHere : Prop) : Prop :=
  (hi ≠ 0 ∧ n = hi) ∨ ((hi = 0 ∨ n < hi) ∧ failsHere)

/-- **C07** `r -> a{lo,hi}` (`hi = 0`: no upper bound). The repetition matches `a` again and again, each
time where the one before stopped, until the upper bound is reached or `a` fails. It succeeds with those
items if they are enough, leaving the scanner where the last one stopped; it fails iff they are too few;
it aborts iff one of the attempts aborts. -/
theorem C07_greedy_bounded (hg : g.wf = true) (hc : g.compile E m = .ok ps) (hX : X.Plain) {a : Str}
    {lo hi : Nat} (hr : lookup r ps.grammar = some (.quant (.rule a) lo hi)) :
    (∀ w j, ps.Yields E X r inp (.ok w j) ↔ ∃ vs : List Tree, w = .node (ruleOrAlt r (str "?")) .nil vs ∧
      Chain (fun i v j => ps.Yields E X a i (.ok v j)) inp vs j ∧ lo ≤ vs.length ∧
      Exhausted hi vs.length (ps.Yields E X a j .fail)) ∧
    (ps.Yields E X r inp .fail ↔ ∃ (vs : List Tree) (j : Scanner),
      Chain (fun i v j => ps.Yields E X a i (.ok v j)) inp vs j ∧ vs.length < lo ∧
      Exhausted hi vs.length (ps.Yields E X a j .fail)) ∧
    (ps.Yields E X r inp .abort ↔ ∃ (vs : List Tree) (j : Scanner),
      Chain (fun i v j => ps.Yields E X a i (.ok v j)) inp vs j ∧ (hi = 0 ∨ vs.length < hi) ∧
      ps.Yields E X a j .abort) := by
  simp only [yields_iff hg hc hX, denotes_rule hr (by simp)]
  have key : ∀ vs j, Peg E X (.reps [ps.grammar] (.rule a) [] (if hi = 0 then none else some hi) inp)
      (.oks vs j) ↔ Chain (fun i v j => Denotes E X ps.grammar a i (.ok v j)) inp vs j ∧
        Exhausted hi vs.length (Denotes E X ps.grammar a j .fail) := by
    intro vs j
    rw [reps_ok]
    refine and_congr Iff.rfl ?_
    unfold Exhausted
    by_cases h : hi = 0
    · simp [h]; rfl
    · simp [h, eq_comm]; rfl
  refine ⟨fun w j => ?_, ?_, ?_⟩
  · constructor
    · intro h
      cases h with
      | quantOk h1 h2 => exact ⟨_, rfl, ((key _ _).1 h1).1, h2, ((key _ _).1 h1).2⟩
    · rintro ⟨vs, rfl, h1, h2, h3⟩
      exact .quantOk ((key _ _).2 ⟨h1, h3⟩) h2
  · constructor
    · intro h
      cases h with
      | quantFew h1 h2 => exact ⟨_, _, ((key _ _).1 h1).1, h2, ((key _ _).1 h1).2⟩
    · rintro ⟨vs, j, h1, h2, h3⟩
      exact .quantFew ((key _ _).2 ⟨h1, h3⟩) h2
  · have : Peg E X (.term [ps.grammar] r (.quant (.rule a) lo hi) [] inp) .abort ↔
        Peg E X (.reps [ps.grammar] (.rule a) [] (if hi = 0 then none else some hi) inp) .abort :=
      ⟨fun h => by cases h; assumption, .quantAbort⟩
    rw [this, reps_abort]
    have h0 : ∀ n : Nat, (∀ k, (if hi = 0 then none else some hi) = some k → n < k) ↔ (hi = 0 ∨ n < hi) := by
      intro n
      by_cases h : hi = 0 <;> simp [h]
    simp only [h0]
    rfl

/-- **C07** The same for arbitrary terms, enclosing scopes and bindings. -/
theorem C07_greedy_bounded_any {Γ : List Grammar} {name : Str} {t : Term} {lo hi : Nat}
    {vals : List (Str × Tree)} :
    (∀ w j, Peg E X (.term Γ name (.quant t lo hi) vals inp) (.ok w j) ↔ ∃ vs : List Tree,
      w = .node (ruleOrAlt name (str "?")) .nil vs ∧
      Chain (fun i v j => Peg E X (.term Γ [] t vals i) (.ok v j)) inp vs j ∧ lo ≤ vs.length ∧
      Exhausted hi vs.length (Peg E X (.term Γ [] t vals j) .fail)) ∧
    (Peg E X (.term Γ name (.quant t lo hi) vals inp) .fail ↔ ∃ (vs : List Tree) (j : Scanner),
      Chain (fun i v j => Peg E X (.term Γ [] t vals i) (.ok v j)) inp vs j ∧ vs.length < lo ∧
      Exhausted hi vs.length (Peg E X (.term Γ [] t vals j) .fail)) := by
  have key : ∀ vs j, Peg E X (.reps Γ t vals (if hi = 0 then none else some hi) inp)
      (.oks vs j) ↔ Chain (fun i v j => Peg E X (.term Γ [] t vals i) (.ok v j)) inp vs j ∧
        Exhausted hi vs.length (Peg E X (.term Γ [] t vals j) .fail) := by
    intro vs j
    rw [reps_ok]
    refine and_congr Iff.rfl ?_
    unfold Exhausted
    by_cases h : hi = 0
    · simp [h]
    · simp [h, eq_comm]
  refine ⟨fun w j => ?_, ?_⟩
  · constructor
    · intro h
      cases h with
      | quantOk h1 h2 => exact ⟨_, rfl, ((key _ _).1 h1).1, h2, ((key _ _).1 h1).2⟩
    · rintro ⟨vs, rfl, h1, h2, h3⟩
      exact .quantOk ((key _ _).2 ⟨h1, h3⟩) h2
  · constructor
    · intro h
      cases h with
      | quantFew h1 h2 => exact ⟨_, _, ((key _ _).1 h1).1, h2, ((key _ _).1 h1).2⟩
    · rintro ⟨vs, j, h1, h2, h3⟩
      exact .quantFew ((key _ _).2 ⟨h1, h3⟩) h2

/-! ## C08 -/

/-- **C08** `r -> (?=a)`: succeeds exactly when `a` does at this position, with the scanner left where it
was and a node with the tree of `a` as its only child; otherwise fails as `a` does. -/
theorem C08_lookahead (hg : g.wf = true) (hc : g.compile E m = .ok ps) (hX : X.Plain) {a : Str}
    (hr : lookup r ps.grammar = some (.look (.rule a))) :
    (∀ w j, ps.Yields E X r inp (.ok w j) ↔ j = inp ∧ ∃ (v : Tree) (i : Scanner),
      w = .node (ruleOrAlt r (str "?=")) .nil [v] ∧ ps.Yields E X a inp (.ok v i)) ∧
    (ps.Yields E X r inp .fail ↔ ps.Yields E X a inp .fail) ∧
    (ps.Yields E X r inp .abort ↔ ps.Yields E X a inp .abort) := by
  simp only [yields_iff hg hc hX, denotes_rule hr (by simp)]
  refine ⟨fun w j => ⟨fun h => ?_, ?_⟩, ⟨fun h => ?_, fun h => .lookNo h (by simp)⟩,
    ⟨fun h => ?_, fun h => .lookNo h (by simp)⟩⟩
  · cases h with
    | lookOk h => exact ⟨rfl, _, _, rfl, h⟩
    | lookNo _ ho => simp at ho
  · rintro ⟨rfl, v, i, rfl, h⟩; exact .lookOk h
  · cases h with
    | lookNo h _ => exact h
  · cases h with
    | lookNo h _ => exact h

/-- **C08** Whatever the term, the bindings, the random tokens and the fuel: the scanner is where it was,
on success and on failure. -/
theorem C08_scanner_untouched (hg : g.wf = true) (hc : g.compile E m = .ok ps) (hesc : X.esc = none)
    {t : Term} (hr : lookup r ps.grammar = some (.look t)) {ρ n} :
    (∀ v i k, ps.run E X ρ n r inp = .ok v i k → i = inp) ∧
    (∀ e i k, ps.run E X ρ n r inp = .err e i k → i = inp) := by
  obtain ⟨_, hcr⟩ := compile_inv hc
  have hres : Resolves [ps.grammar] r [ps.grammar] (.look t) := .here (.here hr (by simp))
  obtain ⟨p, env', m', h1, h2, h3, _, _⟩ := (compile_env hg hc).resolves hres
  have hl : lookup r ps.parsers = some p := by
    simp only [lookupEnv] at h1
    cases hq : lookup r ps.parsers with
    | none => simp [hq] at h1
    | some q => simp [hq] at h1; rw [h1.1]
  rw [run_eq hl]
  cases m' with
  | zero => simp [compileTerm_zero] at h3
  | succ m' =>
    rw [compileTerm_look] at h3
    simp only [Except.bind_ok] at h3
    obtain ⟨q, _, q', _, h3⟩ := h3
    simp at h3; subst h3
    cases n with
    | zero => simp [parse_zero]
    | succ n =>
      rw [parse_look, escaping_none hesc]
      cases parse E X ρ n [ps.parsers] q' .init inp 0 <;> simp [lookResult] <;>
        (intros; subst_vars; rfl)

/-! ## C09 -/

/-- The term a delimited list stands for: `t (sep t)*`, with an optional separator before and after
when the flags allow it. -/
def joined (t sep : Term) (canStart canEnd : Bool) : Term :=
  .seq ((if canStart then [.quant sep 0 1] else []) ++ [.seq [t, .quant (.seq [sep, t]) 0 0]] ++
    (if canEnd then [.quant sep 0 1] else []))

theorem peg_join {Γ : List Grammar} {name : Str} {t sep : Term} {cs ce : Bool} {vals v j}
    (h : Peg E X (.term Γ name (joined t sep cs ce) vals inp) (.ok v j)) :
    ∃ lead first rest trail, v = joinTree (ruleOrAlt name (str "_")) (str "?") (str "?") cs ce lead first rest trail ∧
      (lead.isSome = true → cs = true) ∧ (trail.isSome = true → ce = true) := by
  have h' : Derives E X (.term Γ name (.seq (delimSeq t sep cs ce)) vals) inp [v] j := h.derives
  exact derives_join h'

theorem joined_retag {Γ : List Grammar} {name name' : Str} {t sep : Term} {cs ce : Bool} {vals j}
    {lead first rest trail}
    (h : Peg E X (.term Γ name (joined t sep cs ce) vals inp)
      (.ok (joinTree (ruleOrAlt name (str "_")) (str "?") (str "?") cs ce lead first rest trail) j)) :
    Peg E X (.term Γ name' (joined t sep cs ce) vals inp)
      (.ok (joinTree (ruleOrAlt name' (str "_")) (str "?") (str "?") cs ce lead first rest trail) j) := by
  unfold joined at h ⊢
  rcases seq_iff.1 h with ⟨vs, j', h1, h2⟩ | ⟨h1, _⟩
  · simp only [joinTree, Out.ok.injEq, Tree.node.injEq, true_and] at h1
    obtain ⟨⟨_, rfl⟩, rfl⟩ := h1
    exact .seqOk h2
  · simp at h1

theorem joined_retag_no {Γ : List Grammar} {name name' : Str} {t sep : Term} {cs ce : Bool} {vals o}
    (ho : o = .fail ∨ o = .abort)
    (h : Peg E X (.term Γ name (joined t sep cs ce) vals inp) o) :
    Peg E X (.term Γ name' (joined t sep cs ce) vals inp) o := by
  unfold joined at h ⊢
  rcases seq_iff.1 h with ⟨vs, j', rfl, h2⟩ | ⟨h1, h2⟩
  · simp at ho
  · exact .seqNo h2 h1

theorem delim_ok {Γ : List Grammar} {name name' : Str} {t sep : Term} {a : Int} {cs ce : Bool}
    {vals w j} : Peg E X (.term Γ name (.delim t sep a cs ce) vals inp) (.ok w j) ↔
      ∃ lead first rest trail,
        Peg E X (.term Γ name' (joined t sep cs ce) vals inp)
          (.ok (joinTree (ruleOrAlt name' (str "_")) (str "?") (str "?") cs ce lead first rest trail) j) ∧
        (lead.isSome = true → cs = true) ∧ (trail.isSome = true → ce = true) ∧
        ListNode (ruleOrAlt name (str ":")) a (listItems lead first rest trail) w := by
  constructor
  · intro h
    cases h with
    | delimOk h1 h2 =>
      obtain ⟨lead, first, rest, trail, rfl, hl, ht⟩ := peg_join h1
      exact ⟨lead, first, rest, trail, joined_retag h1, hl, ht, delimFinish_inv hl ht h2⟩
    | delimNo _ ho => simp at ho
  · rintro ⟨lead, first, rest, trail, h1, hl, ht, h2⟩
    obtain ⟨w', h3, h4⟩ := delimFinish_joinTree (a := a) (tag' := ruleOrAlt name (str ":"))
      (tag := ruleOrAlt name (str "_")) (ltag := str "?") (rtag := str "?") (first := first) (rest := rest) hl ht
    obtain rfl := h4.det h2
    exact .delimOk (joined_retag h1) h3

theorem delim_no {Γ : List Grammar} {name name' : Str} {t sep : Term} {a : Int} {cs ce : Bool}
    {vals o} (ho : o = .fail ∨ o = .abort) : Peg E X (.term Γ name (.delim t sep a cs ce) vals inp) o ↔
      Peg E X (.term Γ name' (joined t sep cs ce) vals inp) o := by
  constructor
  · intro h
    cases h with
    | delimOk _ _ => simp at ho
    | delimNo h _ => exact joined_retag_no ho h
  · exact fun h => .delimNo (joined_retag_no ho h) ho

/-- **C09** A rule `r -> t:sep` (any flags, any associativity) compared with a rule `e` that spells the
list out. They succeed together and stop at the same place; the tree of `r` is the node made of the
terms and separators of the tree of `e`, in order, with Empty markers at the missing ends. They fail
together and abort together. -/
theorem C09_list_is_joined (hg : g.wf = true) (hc : g.compile E m = .ok ps) (hX : X.Plain) {e : Str}
    {t sep : Term} {a : Int} {cs ce : Bool}
    (hr : lookup r ps.grammar = some (.delim t sep a cs ce))
    (he : lookup e ps.grammar = some (joined t sep cs ce)) :
    (∀ w j, ps.Yields E X r inp (.ok w j) ↔ ∃ lead first rest trail,
      ps.Yields E X e inp (.ok (joinTree (ruleOrAlt e (str "_")) (str "?") (str "?") cs ce lead first rest trail) j) ∧
      (lead.isSome = true → cs = true) ∧ (trail.isSome = true → ce = true) ∧
      ListNode (ruleOrAlt r (str ":")) a (listItems lead first rest trail) w) ∧
    (∀ v j, ps.Yields E X e inp (.ok v j) → ∃ w, ps.Yields E X r inp (.ok w j)) ∧
    (ps.Yields E X r inp .fail ↔ ps.Yields E X e inp .fail) ∧
    (ps.Yields E X r inp .abort ↔ ps.Yields E X e inp .abort) := by
  have hne : ∀ r', joined t sep cs ce ≠ .rule r' := by simp [joined]
  simp only [yields_iff hg hc hX, denotes_rule hr (by simp), denotes_rule he hne]
  refine ⟨fun w j => delim_ok, fun v j h => ?_, delim_no (by simp), delim_no (by simp)⟩
  obtain ⟨lead, first, rest, trail, rfl, hl, ht⟩ := peg_join h
  obtain ⟨w, _, h4⟩ := delimFinish_joinTree (a := a) (tag' := ruleOrAlt r (str ":"))
      (tag := ruleOrAlt r (str "_")) (ltag := str "?") (rtag := str "?") (first := first) (rest := rest) hl ht
  exact ⟨w, delim_ok.2 ⟨lead, first, rest, trail, h, hl, ht, h4⟩⟩

/-! ## C10 -/

/-- **C10** Three rules `d -> t:sep`, `l -> t:>sep`, `q -> t<:sep` that differ in associativity only:
they consume the same text, and the trees have the same terms and separators in the same order – in one
flat node, nested to the left, nested to the right. (With one term there is nothing to nest.) -/
theorem C10_assoc_only_nests (hg : g.wf = true) (hc : g.compile E m = .ok ps) (hX : X.Plain)
    {d l q : Str} {t sep : Term} {cs ce : Bool}
    (hd : lookup d ps.grammar = some (.delim t sep 0 cs ce))
    (hl : lookup l ps.grammar = some (.delim t sep 1 cs ce))
    (hq : lookup q ps.grammar = some (.delim t sep (-1) cs ce)) :
    (∀ wd j, ps.Yields E X d inp (.ok wd j) → ∃ items wl wq,
      wd = .node (ruleOrAlt d (str ":")) (.assoc 0) items ∧
      ps.Yields E X l inp (.ok wl j) ∧ ps.Yields E X q inp (.ok wq j) ∧
      ((items.length = 1 ∧ wl = .node (ruleOrAlt l (str ":")) (.assoc 0) items ∧
          wq = .node (ruleOrAlt q (str ":")) (.assoc 0) items) ∨
        (3 ≤ items.length ∧ LeftNest (ruleOrAlt l (str ":")) items wl ∧
          RightNest (ruleOrAlt q (str ":")) items wq))) ∧
    (∀ j, (∃ w, ps.Yields E X d inp (.ok w j)) ↔ ∃ w, ps.Yields E X l inp (.ok w j)) ∧
    (∀ j, (∃ w, ps.Yields E X d inp (.ok w j)) ↔ ∃ w, ps.Yields E X q inp (.ok w j)) ∧
    (ps.Yields E X d inp .fail ↔ ps.Yields E X l inp .fail) ∧
    (ps.Yields E X d inp .fail ↔ ps.Yields E X q inp .fail) := by
  simp only [yields_iff hg hc hX, denotes_rule hd (by simp), denotes_rule hl (by simp),
    denotes_rule hq (by simp)]
  have build : ∀ {name : Str} {a : Int} {lead first rest trail}, (lead.isSome = true → cs = true) →
      (trail.isSome = true → ce = true) →
      ∃ w, ListNode (ruleOrAlt name (str ":")) a (listItems lead first rest trail) w := by
    intro name a lead first rest trail h1 h2
    obtain ⟨w, _, h⟩ := delimFinish_joinTree (a := a) (tag' := ruleOrAlt name (str ":"))
      (tag := []) (ltag := []) (rtag := []) (first := first) (rest := rest) h1 h2
    exact ⟨w, h⟩
  have same : ∀ {n1 n2 : Str} {a1 a2 : Int} {j}, (∃ w, Peg E X (.term [ps.grammar] n1 (.delim t sep a1 cs ce) [] inp) (.ok w j)) →
      ∃ w, Peg E X (.term [ps.grammar] n2 (.delim t sep a2 cs ce) [] inp) (.ok w j) := by
    rintro n1 n2 a1 a2 j ⟨w, h⟩
    obtain ⟨lead, first, rest, trail, h1, h2, h3, h4⟩ := (delim_ok (name' := [])).1 h
    obtain ⟨w', hw'⟩ := build (name := n2) (a := a2) (first := first) (rest := rest) h2 h3
    exact ⟨w', (delim_ok (name' := [])).2 ⟨lead, first, rest, trail, h1, h2, h3, hw'⟩⟩
  refine ⟨fun wd j h => ?_, fun j => ⟨same, same⟩, fun j => ⟨same, same⟩,
    (delim_no (name' := []) (by simp)).trans (delim_no (by simp)).symm,
    (delim_no (name' := []) (by simp)).trans (delim_no (by simp)).symm⟩
  obtain ⟨lead, first, rest, trail, h1, h2, h3, h4⟩ := (delim_ok (name' := [])).1 h
  obtain ⟨wl, hwl⟩ := build (name := l) (a := 1) (first := first) (rest := rest) h2 h3
  obtain ⟨wq, hwq⟩ := build (name := q) (a := -1) (first := first) (rest := rest) h2 h3
  refine ⟨listItems lead first rest trail, wl, wq, ?_,
    (delim_ok (name' := [])).2 ⟨lead, first, rest, trail, h1, h2, h3, hwl⟩,
    (delim_ok (name' := [])).2 ⟨lead, first, rest, trail, h1, h2, h3, hwq⟩, ?_⟩
  · cases h4 with
    | flat => rfl
    | left h => simp at h
    | right h => simp at h
  · by_cases hlen : (listItems lead first rest trail).length = 1
    · refine Or.inl ⟨hlen, ?_, ?_⟩
      · exact hwl.det (.flat (Or.inr hlen))
      · exact hwq.det (.flat (Or.inr hlen))
    · have hodd := listItems_odd lead first rest trail
      refine Or.inr ⟨by omega, ?_, ?_⟩
      · cases hwl with
        | flat h => simp at h; exact absurd h hlen
        | left _ h => exact h
        | right h => simp at h
      · cases hwq with
        | flat h => simp at h; exact absurd h hlen
        | left h => simp at h
        | right _ h => exact h

/-! ## The hypotheses are met -/

/-- `c -> x | y | z; x -> "a" "b"; y -> "a" | "c"; z -> "a" "d"; q -> y{1,2}; l -> (?=x);` and the five
forms of a list of `y` separated by `","`. -/
def Ex.gComb : Grammar := [
  (str "c", .oneof [.rule (str "x"), .rule (str "y"), .rule (str "z")]),
  (str "x", .seq [.s (str "a"), .s (str "b")]),
  (str "y", .oneof [.s (str "a"), .s (str "c")]),
  (str "z", .seq [.s (str "a"), .s (str "d")]),
  (str "q", .quant (.rule (str "y")) 1 2),
  (str "l", .look (.rule (str "x"))),
  (str "d0", .delim (.rule (str "y")) (.s (str ",")) 0 true false),
  (str "d1", .delim (.rule (str "y")) (.s (str ",")) 1 true false),
  (str "d2", .delim (.rule (str "y")) (.s (str ",")) (-1) true false),
  (str "e", joined (.rule (str "y")) (.s (str ",")) true false)]

open Ex in
example : gComb.wf = true ∧ gComb.compile regexp 50 = .ok (comp! gComb) ∧
    lookup (str "c") (comp! gComb).grammar = some (.oneof (["x", "y", "z"].map fun s => .rule (str s))) ∧
    lookup (str "e") (comp! gComb).grammar = some (joined (.rule (str "y")) (.s (str ",")) true false) :=
  ⟨by decide +kernel, comp_ok (by decide +kernel), by decide +kernel, by decide +kernel⟩

open Ex in
/-- What these rules do: the second alternative is taken although the third would match more; the
repetition stops at its bound; the look-ahead consumes nothing; the lists nest as they should. -/
example :
    obsR ((comp! gComb).run regexp noExternals ρ0 300 (str "c") (newScanner (str "ad"))) =
      .ok (some (utf8 "c║1[y║0[a]]")) 1 1 ∧
    obsR ((comp! gComb).run regexp noExternals ρ0 300 (str "q") (newScanner (str "aca"))) =
      .ok (some (utf8 "q[y║0[a], y║1[c]]")) 2 1 ∧
    obsR ((comp! gComb).run regexp noExternals ρ0 300 (str "q") (newScanner (str "b"))) = .err .parse 0 1 ∧
    obsR ((comp! gComb).run regexp noExternals ρ0 300 (str "l") (newScanner (str "ab"))) =
      .ok (some (utf8 "l[x[a, b]]")) 0 2 ∧
    obsR ((comp! gComb).run regexp noExternals ρ0 300 (str "d0") (newScanner (str ",a,c,a"))) =
      .ok (some (utf8 "d0║:[{}, ,, y║0[a], ,, y║1[c], ,, y║0[a]]")) 6 0 ∧
    obsR ((comp! gComb).run regexp noExternals ρ0 300 (str "d1") (newScanner (str ",a,c,a"))) =
      .ok (some (utf8 "d1║:>[d1║:>[d1║:>[{}, ,, y║0[a]], ,, y║1[c]], ,, y║0[a]]")) 6 0 ∧
    obsR ((comp! gComb).run regexp noExternals ρ0 300 (str "d2") (newScanner (str ",a,c,a"))) =
      .ok (some (utf8 "d2║<:[{}, ,, d2║<:[y║0[a], ,, d2║<:[y║1[c], ,, y║0[a]]]]")) 6 0 := by
  refine ⟨?_, ?_, ?_, ?_, ?_, ?_, ?_⟩ <;> decide +kernel

end Wbnf

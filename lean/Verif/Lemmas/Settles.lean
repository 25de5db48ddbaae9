import Verif.Props.Means
import Verif.Spec.Source
import Verif.Lemmas.DecEq

/-!
# Sources made of tokens denote something, or make `NewFromAst` panic
-/

namespace Wbnf

variable {ms : Macros}

/-- With fuel enough it panics. -/
def Panics {α : Type} (f : Nat → Except Stop α) : Prop := ∃ N, ∀ n, N ≤ n → f n = .error .panic

theorem Panics.step {α β : Type} {f : Nat → Except Stop α} {g : Nat → Except Stop β} (h : Panics f)
    (hg : ∀ n, f n = .error .panic → g (n + 1) = .error .panic) : Panics g := by
  obtain ⟨N, h⟩ := h
  refine ⟨N + 1, fun n hn => ?_⟩
  obtain ⟨n, rfl⟩ : ∃ k, n = k + 1 := ⟨n - 1, by omega⟩
  exact hg n (h n (by omega))

theorem Panics.after {α β γ : Type} {f : Nat → Except Stop α} {g : Nat → Except Stop β} {k : Nat → Except Stop γ} (h : Panics f)
    (hk : ∃ N b, ∀ n, N ≤ n → k n = .ok b)
    (hg : ∀ n b, f n = .error .panic → k n = .ok b → g (n + 1) = .error .panic) : Panics g := by
  obtain ⟨N, h⟩ := h
  obtain ⟨M, b, hk⟩ := hk
  refine ⟨max N M + 1, fun n hn => ?_⟩
  obtain ⟨n, rfl⟩ : ∃ k, n = k + 1 := ⟨n - 1, by omega⟩
  exact hg n b (h n (by omega)) (hk n (by omega))

theorem panics_now {α : Type} {f : Nat → Except Stop α} (h : ∀ n, f (n + 1) = .error .panic) : Panics f :=
  ⟨1, fun n hn => by obtain ⟨n, rfl⟩ : ∃ k, n = k + 1 := ⟨n - 1, by omega⟩; exact h n⟩

/-! ## Tokens -/

theorem Token.literal {x : Str} (h : Token Core.strLit x) : (∃ l, LiteralMeans x l) ∨ parseString x = .error .panic := by
  generalize ht : Core.strLit = t at h
  cases h with
  | @quoted q body hq _ =>
    by_cases hr : ∃ text, Reads q body text
    · obtain ⟨text, hr⟩ := hr
      exact .inl ⟨_, .quoted hq hr⟩
    · exact .inr ((C36_reads hq body).2 hr)
  | backquoted => exact .inl ⟨_, .backquoted⟩
  | lit => cases ht
  | _ => exact absurd ht (by decide +kernel)

theorem not_slash {c : UInt8} {y : Str} (h : c ≠ 47) : ¬ str "/{" <+: c :: y := by
  rintro ⟨z, hz⟩
  have : str "/{" = [47, 123] := by decide
  rw [this, List.cons_append, List.cons.injEq] at hz
  exact h hz.1.symm

theorem Token.regexp {x : Str} (h : Token Core.regexpLit x) : ∃ p, RegexpMeans x p := by
  generalize ht : Core.regexpLit = t at h
  cases h with
  | braced => exact ⟨_, .braces⟩
  | @bare c x hc =>
    refine ⟨_, .bare ?_⟩
    have e : ∃ y, regexpText (c :: x) = c :: y := by
      rcases hc with rfl | rfl | rfl | rfl <;> exact ⟨_, by simp [regexpText, withSpaces]; rfl⟩
    obtain ⟨y, e⟩ := e
    rw [e]
    exact not_slash (by rintro rfl; simp at hc)
  | @escaped c x hc =>
    refine ⟨_, .bare ?_⟩
    have e : ∃ y, regexpText (92 :: c :: x) = 92 :: y := by
      have hs : (!(c = 9 || c = 10 || c = 12 || c = 13 || c = 32)) = true := by
        simp only [Bool.not_eq_true', Bool.or_eq_false_iff, decide_eq_false_iff_not]
        refine ⟨⟨⟨⟨?_, ?_⟩, ?_⟩, ?_⟩, ?_⟩ <;> (rintro rfl; revert hc; decide)
      have h95 : c ≠ 95 := by rintro rfl; revert hc; decide
      refine ⟨c :: withSpaces (x.filter fun c => !(c = 9 || c = 10 || c = 12 || c = 13 || c = 32)), ?_⟩
      rw [regexpText, List.filter_cons_of_pos (by decide), List.filter_cons_of_pos (a := c) (p := fun c => !(c = 9 || c = 10 || c = 12 || c = 13 || c = 32)) hs, withSpaces]
      exact h95
    obtain ⟨y, e⟩ := e
    rw [e]
    exact not_slash (by decide)
  | lit => cases ht
  | _ => exact absurd ht (by decide +kernel)

theorem numeral_of_digits : ∀ (k : Nat) (x : Str), x.length = k → x ≠ [] → (∀ c ∈ x, 48 ≤ c ∧ c ≤ 57) → ∃ n, Numeral x n := by
  intro k
  induction k with
  | zero => intro x h hx; exact absurd (List.length_eq_zero_iff.1 h) hx
  | succ k ih =>
    intro x h hx hd
    have dig : ∀ c : UInt8, 48 ≤ c ∧ c ≤ 57 → ∃ d, d ≤ 9 ∧ c = UInt8.ofNat (48 + d) := by
      intro c hc
      refine ⟨c.toNat - 48, ?_, ?_⟩
      · have := hc.2; simp [UInt8.le_iff_toNat_le] at this; omega
      · have := hc.1; simp [UInt8.le_iff_toNat_le] at this
        rw [Nat.add_sub_cancel' this]; simp
    obtain ⟨y, c, rfl⟩ : ∃ y c, x = y ++ [c] := ⟨x.dropLast, x.getLast hx, (List.dropLast_concat_getLast hx).symm⟩
    obtain ⟨d, hd9, rfl⟩ := dig c (hd c (by simp))
    cases y with
    | nil => exact ⟨_, .one hd9⟩
    | cons b y =>
      obtain ⟨n, hn⟩ := ih (b :: y) (by simp at h ⊢; omega) (by simp) (fun c hc => hd c (List.mem_append_left _ hc))
      exact ⟨_, .more hn hd9⟩

theorem Token.bound {x : Str} (h : Token Core.int x) : (∃ n, BoundMeans (Option.some x) n) ∨ Wbnf.bound (Option.some x) = .error .panic := by
  generalize ht : Core.int = t at h
  cases h with
  | int hx hd =>
    obtain ⟨n, hn⟩ := numeral_of_digits _ x rfl hx hd
    by_cases hlt : n < 2 ^ 63
    · exact .inl ⟨n, .number hn hlt⟩
    · right
      have := hn.read
      simp only [Wbnf.bound, if_neg hx, atoi]
      rw [if_pos ⟨hx, this.1⟩, this.2, if_neg hlt]
  | lit => cases ht
  | _ => exact absurd ht (by decide +kernel)

theorem bound_settles {x : Option Str} (h : ∀ y, x = some y → Token Core.int y) : (∃ n, BoundMeans x n) ∨ bound x = .error .panic := by
  cases x with
  | none => exact .inl ⟨_, .absent⟩
  | some x => exact (h x rfl).bound

theorem Token.ne {t : Term} {x : Str} (h : Token t x) (ht : t = Core.ident) : x ≠ [] := by
  cases h with
  | lit => cases ht
  | anonymous => decide
  | name h => obtain ⟨_, c, w, rfl, _⟩ := h; simp
  | dotted h => simp
  | _ => exact absurd ht (by decide +kernel)

theorem Token.operator {o : Str} (h : Token (Core.re "<:|:>?") o) : ∃ a, OpMeans o a := by
  generalize ht : Core.re "<:|:>?" = t at h
  cases h with
  | plain => exact ⟨_, .plain⟩
  | left => exact ⟨_, .left⟩
  | right => exact ⟨_, .right⟩
  | lit => cases ht
  | _ => exact absurd ht (by decide +kernel)

theorem Token.quantifier {o : Str} (h : Token (Core.re "[?*+]") o) : o = str "*" ∨ o = str "?" ∨ o = str "+" := by
  generalize ht : Core.re "[?*+]" = t at h
  cases h with
  | any => simp
  | opt => simp
  | some => simp
  | lit => cases ht
  | _ => exact absurd ht (by decide +kernel)

/-! ## Quantifiers one after the other -/

theorem panics_quants_first {qs : List QuantN} {q : QuantN} : ∀ {t : Term}, Panics (fun n => buildQuants ms n qs t) →
    Panics (fun n => buildQuants ms n (qs ++ [q]) t) := by
  have key : ∀ (qs : List QuantN) (n : Nat) (t : Term), buildQuants ms n qs t = .error .panic →
      buildQuants ms n (qs ++ [q]) t = .error .panic := by
    intro qs
    induction qs with
    | nil => intro n t h; cases n <;> simp [buildQuants] at h
    | cons p qs ih =>
      intro n t h
      cases n with
      | zero => simp [buildQuants] at h
      | succ n =>
        simp only [List.cons_append, buildQuants] at h ⊢
        cases hq : buildQuant ms n p t with
        | error e => rw [hq] at h; exact h
        | ok v => rw [hq] at h; exact ih n v h
  intro t ⟨N, h⟩
  exact ⟨N, fun n hn => key _ _ _ (h n hn)⟩

theorem panics_quants_last {qs : List QuantN} {q : QuantN} {u : Term} (h : Panics (fun n => buildQuant ms n q u)) :
    ∀ {t : Term}, BQs ms qs t u → Panics (fun n => buildQuants ms n (qs ++ [q]) t) := by
  induction qs with
  | nil =>
    intro t ht
    rw [bqs_nil] at ht
    subst ht
    exact h.step fun n e => by simp only [List.nil_append, buildQuants, e]; rfl
  | cons p qs ih =>
    intro t ht
    obtain ⟨v, ⟨m, h1⟩, h2⟩ := bqs_cons.1 ht
    exact (ih h2).after (k := fun n => buildQuant ms n p t) ⟨m, v, fun n hn => buildQuant_mono hn h1⟩ fun n b e e' => by
      have : v = b := by
        have e1 := buildQuant_mono (Nat.le_max_left n m) e'
        rw [buildQuant_mono (Nat.le_max_right n m) h1, Except.ok.injEq] at e1
        exact e1
      subst this
      simp only [List.cons_append, buildQuants, e', Except.bind, e]

theorem mapE_error {t : TermN} {ts : List TermN} {n : Nat} {e : Stop} (h : buildTerm ms n t = .error e) :
    mapE (buildTerm ms n) (t :: ts) = .error e := by
  simp only [mapE, h, Except.bind]

theorem mapE_error_rest {t : TermN} {ts : List TermN} {n : Nat} {e : Stop} {u : Term} (h : buildTerm ms n t = .ok u)
    (h' : mapE (buildTerm ms n) ts = .error e) : mapE (buildTerm ms n) (t :: ts) = .error e := by
  simp only [mapE, h, Except.bind, h']

theorem MeansTerms.row {ts : List TermN} {us : List Term} (h : MeansTerms ts us) : ∃ u, MeansTerm (.many [] [] ts) u := by
  by_cases h1 : ts.length = 1
  · match ts, h1, h with
    | [t], _, .cons h _ => exact ⟨_, .single h⟩
  · exact ⟨_, .seq h1 h⟩

mutual
theorem TermN.settles : (t : TermN) → t.Lexed → t.calls = [] → (∃ u, MeansTerm t u) ∨ Panics (fun n => buildTerm ms n t)
  | .many op gs ts, ⟨_, hop, hg, hl⟩, hn => by
    obtain ⟨ng, nl⟩ := List.append_eq_nil_iff.1 hn
    rcases settlesTerms ts hl nl with ⟨us, hus⟩ | hp
    · rcases hop with ⟨rfl, hlen⟩ | rfl | ⟨rfl, _⟩
      · match gs, hlen, hg, ng with
        | [], _, _, _ => exact .inl hus.row
        | [g], _, hg, ng =>
          obtain ⟨u, hu⟩ := hus.row
          rcases GrammarN.settles g hg.1 (List.append_eq_nil_iff.1 ng).1 with ⟨G, hG⟩ | hp
          · exact .inl ⟨_, .braces hu hG⟩
          · right
            obtain ⟨m, hm⟩ := hus.builds (ms := ms)
            refine hp.after (k := fun n => mapE (buildTerm ms n) ts) ⟨m, us, fun n hn => mapE_mono (fun _ _ => buildTerm_mono hn) hm⟩
              fun n b e e' => ?_
            have e1 : ¬ (([] : Str) = str "|" ∨ ([] : Str) = str ">") := by decide
            simp only [buildTerm, e', Except.bind, if_neg e1, e]
      · exact .inl ⟨_, .layers hus⟩
      · exact .inl ⟨_, .choice hus⟩
    · exact .inr (hp.step fun n e => by simp only [buildTerm, e, Except.bind])
  | .one nm qs, ⟨hl, hq⟩, hn => by
    obtain ⟨nl, nq⟩ := List.append_eq_nil_iff.1 hn
    rcases NamedN.settles nm hl nl with ⟨u, hu⟩ | hp
    · rcases settlesQuants qs hq nq u with ⟨v, hv⟩ | hp
      · exact .inl ⟨_, .quants hu hv⟩
      · right
        obtain ⟨m, hm⟩ := hu.builds (ms := ms)
        refine hp.after (k := fun n => buildNamed ms n nm) ⟨m, u, fun n hn => buildNamed_mono hn hm⟩ fun n b e e' => ?_
        have : u = b := by
          have e1 := buildNamed_mono (Nat.le_max_left n m) e'
          rw [buildNamed_mono (Nat.le_max_right n m) hm, Except.ok.injEq] at e1
          exact e1
        subst this
        simp only [buildTerm, e', Except.bind, e]
    · exact .inr (hp.step fun n e => by simp only [buildTerm, e, Except.bind])
theorem NamedN.settles : (t : NamedN) → t.Lexed → t.calls = [] → (∃ u, MeansNamed t u) ∨ Panics (fun n => buildNamed ms n t)
  | .mk i a, ⟨hi, ha⟩, na => by
    rcases AtomN.settles a ha na with ⟨u, hu⟩ | hp
    · left
      cases i with
      | none => exact ⟨_, .plain hu⟩
      | some i => exact ⟨_, .named ((hi i rfl).ne rfl) hu⟩
    · exact .inr (hp.step fun n e => by simp only [buildNamed, e, Except.bind])
theorem AtomN.settles : (a : AtomN) → a.Lexed → a.calls = [] → (∃ u, MeansAtom a u) ∨ Panics (fun n => buildAtom ms n a)
  | .ident _, _, _ => .inl ⟨_, .ident⟩
  | .str x, h, _ => by
    rcases Token.literal h with ⟨l, hl⟩ | hp
    · exact .inl ⟨_, .str hl⟩
    · exact .inr (panics_now fun n => by simp only [buildAtom, hp, Except.bind])
  | .re x, h, _ => by
    obtain ⟨p, hp⟩ := Token.regexp h
    exact .inl ⟨_, .re hp⟩
  | .ref _ none, _, _ => .inl ⟨_, .ref⟩
  | .ref i (some x), h, _ => by
    by_cases hx : x = []
    · subst hx
      have := h.2 [] rfl
      generalize ht : Core.strLit = t at this
      generalize hy : ([] : Str) = y at this
      cases this <;> first | (exact absurd ht (by decide +kernel)) | (cases ht; done) | cases hy
    · rcases Token.literal (h.2 x rfl) with ⟨l, hl⟩ | hp
      · exact .inl ⟨_, .default hl⟩
      · exact .inr (panics_now fun n => by simp only [buildAtom, if_neg hx, hp, Except.bind])
  | .macrocall _ _, _, h => by cases h
  | .ext _, _, _ => .inl ⟨_, .ext⟩
  | .look t, h, hn => by
    rcases TermN.settles t h hn with ⟨u, hu⟩ | hp
    · exact .inl ⟨_, .look hu⟩
    · exact .inr (hp.step fun n e => by simp only [buildAtom, e, Except.bind])
  | .term t, h, hn => by
    rcases TermN.settles t h hn with ⟨u, hu⟩ | hp
    · exact .inl ⟨_, .parens hu⟩
    · exact .inr (hp.step fun n e => by simp only [buildAtom, e])
  | .unit, _, _ => .inl ⟨_, .unit⟩
theorem QuantN.settles : (q : QuantN) → q.Lexed → q.calls = [] → ∀ t, (∃ u, MeansQuant q t u) ∨ Panics (fun n => buildQuant ms n q t)
  | .op o, h, _, t => by
    rcases Token.quantifier h with rfl | rfl | rfl
    · exact .inl ⟨_, .any⟩
    · exact .inl ⟨_, .opt⟩
    · exact .inl ⟨_, .some⟩
  | .range lo hi, h, _, t => by
    rcases bound_settles h.1 with ⟨a, ha⟩ | hp
    · rcases bound_settles h.2 with ⟨b, hb⟩ | hp
      · exact .inl ⟨_, .range ha hb⟩
      · exact .inr (panics_now fun n => by simp only [buildQuant, ha.read, hp, Except.bind])
    · exact .inr (panics_now fun n => by simp only [buildQuant, hp, Except.bind])
  | .sep o _ _ nm, h, hn, t => by
    obtain ⟨a, ha⟩ := Token.operator h.1
    rcases NamedN.settles nm h.2 hn with ⟨u, hu⟩ | hp
    · exact .inl ⟨_, .sep ha hu⟩
    · exact .inr (hp.step fun n e => by simp only [buildQuant, ha.read, e, Except.bind])
theorem GrammarN.settles : (g : GrammarN) → g.Lexed → g.calls = [] → (∃ G, MeansGrammar g G) ∨ Panics (fun n => buildGrammar ms n g)
  | .mk ss, h, hn => by
    rcases settlesStmts ss h.2 hn with ⟨ps, hps⟩ | hp
    · exact .inl ⟨_, .mk hps⟩
    · exact .inr ((hp []).step fun n e => by simp only [buildGrammar, e])
theorem settlesTerms : (ts : List TermN) → lexedTerms ts → callsTerms ts = [] →
    (∃ us, MeansTerms ts us) ∨ Panics (fun n => mapE (buildTerm ms n) ts)
  | [], _, _ => .inl ⟨_, .nil⟩
  | t :: ts, h, hn => by
    have hn := List.append_eq_nil_iff.1 hn
    rcases TermN.settles t h.1 hn.1 with ⟨u, hu⟩ | ⟨N, hp⟩
    · rcases settlesTerms ts h.2 hn.2 with ⟨us, hus⟩ | ⟨N, hp⟩
      · exact .inl ⟨_, .cons hu hus⟩
      · right
        obtain ⟨m, hm⟩ := hu.builds (ms := ms)
        exact ⟨max N m, fun n hn => mapE_error_rest (buildTerm_mono (by omega) hm) (hp n (by omega))⟩
    · exact .inr ⟨N, fun n hn => mapE_error (hp n hn)⟩
theorem settlesQuants : (qs : List QuantN) → lexedQuants qs → callsQuants qs = [] → ∀ t,
    (∃ u, MeansQuants qs t u) ∨ Panics (fun n => buildQuants ms n qs.reverse t)
  | [], _, _, _ => .inl ⟨_, .nil⟩
  | q :: qs, h, hn, t => by
    have hn := List.append_eq_nil_iff.1 hn
    rcases settlesQuants qs h.2 hn.2 t with ⟨u, hu⟩ | hp
    · rcases QuantN.settles q h.1 hn.1 u with ⟨v, hv⟩ | hp
      · exact .inl ⟨_, .cons hu hv⟩
      · right
        rw [List.reverse_cons]
        exact panics_quants_last hp hu.builds
    · right
      rw [List.reverse_cons]
      exact panics_quants_first hp
theorem settlesStmts : (ss : List StmtN) → lexedStmts ss → callsStmts ss = [] →
    (∃ ps, MeansStmts ss ps) ∨ ∀ g, Panics (fun n => buildStmts ms n ss g)
  | [], _, _ => .inl ⟨_, .nil⟩
  | .prod i ts :: ss, h, hn => by
    have hn := List.append_eq_nil_iff.1 hn
    rcases settlesTerms ts h.1.2.2 hn.1 with ⟨us, hus⟩ | hp
    · rcases settlesStmts ss h.2 hn.2 with ⟨ps, hps⟩ | hp
      · obtain ⟨u, hu⟩ := hus.row
        exact .inl ⟨_, .prod hu hps⟩
      · right
        intro g
        obtain ⟨m, hm⟩ := hus.builds (ms := ms)
        refine (hp (mapSet i (joinTerms [] none us) g)).after (k := fun n => mapE (buildTerm ms n) ts)
          ⟨m, us, fun n hn => mapE_mono (fun _ _ => buildTerm_mono hn) hm⟩ fun n b e e' => ?_
        have : us = b := by
          have e1 := mapE_mono (fun _ _ => buildTerm_mono (Nat.le_max_left n m)) e'
          rw [mapE_mono (fun _ _ => buildTerm_mono (Nat.le_max_right n m)) hm, Except.ok.injEq] at e1
          exact e1
        subst this
        simp only [buildStmts, e', Except.bind, e]
    · exact .inr fun g => hp.step fun n e => by simp only [buildStmts, e, Except.bind]
  | .comment _ :: ss, h, hn => by
    have hn := List.append_eq_nil_iff.1 hn
    rcases settlesStmts ss h.2 hn.2 with ⟨ps, hps⟩ | hp
    · exact .inl ⟨_, .comment hps⟩
    · exact .inr fun g => (hp g).step fun n e => by simp only [buildStmts, e]
  | .imp _ :: ss, h, hn => by
    have hn := List.append_eq_nil_iff.1 hn
    rcases settlesStmts ss h.2 hn.2 with ⟨ps, hps⟩ | hp
    · exact .inl ⟨_, .imp hps⟩
    · exact .inr fun g => (hp g).step fun n e => by simp only [buildStmts, e]
  | .macrodef _ _ _ :: ss, h, hn => by
    have hn := List.append_eq_nil_iff.1 hn
    rcases settlesStmts ss h.2 hn.2 with ⟨ps, hps⟩ | hp
    · exact .inl ⟨_, .macrodef hps⟩
    · exact .inr fun g => (hp g).step fun n e => by simp only [buildStmts, e]
end

end Wbnf

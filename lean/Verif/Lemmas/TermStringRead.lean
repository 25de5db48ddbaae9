import Verif.Lemmas.TermString
import Verif.Lemmas.TermStringOrder

/-!
# Each term that can be printed is read back from its text
-/

namespace Wbnf

variable {w x y : Str} {ws ws' : List Str} {t : Term} {quote : Str → Str} {text : Str → Prop} {α : Type}

/-- The text of the term is made of the words of a node (`P`) that denotes the term, with the maps in it maybe in another order. -/
def PrintsBack (quote : Str → Str) (P : α → List Str → Term → Prop) (t : Term) : Prop :=
  ∃ a ws t' x, t.string quote = some x ∧ P a ws t' ∧ Reord t t' ∧ Lays ws x ∧ Begins x

def AtomFor (a : AtomN) (ws : List Str) (t : Term) : Prop := SpellsAtom a ws ∧ a.Ordinary false ∧ MeansAtom a t
def NamedFor (a : NamedN) (ws : List Str) (t : Term) : Prop := SpellsNamed a ws ∧ a.Ordinary false ∧ MeansNamed a t
def TermFor (k : Nat) (a : TermN) (ws : List Str) (t : Term) : Prop := SpellsTerm k a ws ∧ a.Ordinary false ∧ MeansTerm a t

theorem PrintsBack.imp {β : Type} {P : α → List Str → Term → Prop} {Q : β → List Str → Term → Prop} (h : PrintsBack quote P t)
    (hi : ∀ a ws t', P a ws t' → ∃ b, Q b ws t') : PrintsBack quote Q t := by
  obtain ⟨a, ws, t', x, h1, h2, h3⟩ := h
  obtain ⟨b, hb⟩ := hi _ _ _ h2
  exact ⟨b, ws, t', x, h1, hb, h3⟩

/-! ## From one level to the next -/

theorem TermFor.sequence {a : TermN} (h : TermFor 3 a ws t) : TermFor 2 (.many [] [] [a]) ws t := by
  refine ⟨?_, ?_, .single h.2.2⟩
  · have := SpellsTerm.sequence (ts := [a]) (by simp) (.cons h.1 .nil)
    simpa using this
  · simp [TermN.Ordinary, ordinaryGrammars, ordinaryTerms, h.2.1]

theorem TermFor.alternative {a : TermN} (h : TermFor 2 a ws t) : TermFor 1 (.many [] [] [a]) ws t := by
  refine ⟨?_, ?_, .single h.2.2⟩
  · have := SpellsTerm.alternatives h.1 .nil
    simpa using this
  · simp [TermN.Ordinary, ordinaryGrammars, ordinaryTerms, h.2.1]

theorem TermFor.layer {a : TermN} (h : TermFor 1 a ws t) : TermFor 0 (.many [] [] [a]) ws t := by
  refine ⟨?_, ?_, .single h.2.2⟩
  · have := SpellsTerm.layers (.plain h.1) .nil
    simpa using this
  · simp [TermN.Ordinary, ordinaryGrammars, ordinaryTerms, h.2.1]

/-! ## Lists -/

theorem stringTerms_cons {ts : List Term} {xs} (h : t.string quote = some x) (h' : stringTerms quote ts = some xs) :
    stringTerms quote (t :: ts) = some (x :: xs) := by
  rw [stringTerms, h]
  simp [h']

theorem separated_cons {sep : Str} {xs : List Str} : separated sep (x :: y :: xs) = x ++ (sep ++ separated sep (y :: xs)) := by
  simp [separated]

/-- Terms one after the other, with spaces. -/
theorem back_items : ∀ (ts : List Term), ts ≠ [] → (∀ t ∈ ts, PrintsBack quote (TermFor 3) t) →
    ∃ ns ws ts' xs, stringTerms quote ts = some xs ∧ SpellsTerms 3 ns ws ∧ ordinaryTerms false ns ∧ MeansTerms ns ts' ∧ ReordList ts ts' ∧
      ns.length = ts.length ∧ Lays ws (separated (str " ") xs) ∧ Begins (separated (str " ") xs)
  | [], h, _ => absurd rfl h
  | [t], _, h => by
    obtain ⟨n, ws, t', x, h1, h2, h3, h4, h5⟩ := h t (by simp)
    refine ⟨[n], ws ++ [], [t'], [x], ?_, .cons h2.1 .nil, ⟨h2.2.1, trivial⟩, .cons h2.2.2 .nil, .cons h3 .nil, rfl, ?_, ?_⟩
    · exact stringTerms_cons h1 rfl
    · simpa [separated] using h4
    · simpa [separated] using h5
  | t :: u :: ts, _, h => by
    obtain ⟨n, ws, t', x, h1, h2, h3, h4, h5⟩ := h t (by simp)
    obtain ⟨ns, ws', ts', xs, g1, g2, g3, g4, g5, g6, g7, g8⟩ := back_items (u :: ts) (by simp) fun t ht => h t (by simp [ht])
    have g1' := stringTerms_cons h1 g1
    refine ⟨n :: ns, ws ++ ws', t' :: ts', x :: xs, g1', .cons h2.1 g2, ⟨h2.2.1, g3⟩, .cons h2.2.2 g4, .cons h3 g5, by simp [g6], ?_⟩
    cases xs with
    | nil => obtain ⟨_, _, e, _⟩ := g8; cases e
    | cons y xs =>
      rw [separated_cons]
      exact ⟨h4.append g7.space (calm_cons (by decide)), h5.append⟩

/-- Terms with an operator before each. -/
inductive Joined (op : Str) (Q : TermN → List Str → Term → Prop) : List TermN → List Str → List Term → Prop
  | nil : Joined op Q [] [] []
  | cons {n ns ws ws' t ts} : Q n ws t → Joined op Q ns ws' ts → Joined op Q (n :: ns) (op :: ws ++ ws') (t :: ts)

theorem back_joined {op : Str} {Q : TermN → List Str → Term → Prop} (hop : Sign op) : ∀ (ts : List Term), (∀ t ∈ ts, PrintsBack quote Q t) →
    ∃ ns ws ts' xs, stringTerms quote ts = some xs ∧ Joined op Q ns ws ts' ∧ ReordList ts ts' ∧ ns.length = ts.length ∧
      Lays ws (xs.flatMap ((32 :: (op ++ [32])) ++ ·)) ∧ Calm (xs.flatMap ((32 :: (op ++ [32])) ++ ·))
  | [], _ => ⟨[], [], [], [], rfl, .nil, .nil, rfl, fun _ _ h _ => by simpa using h, fun _ h => by cases h⟩
  | t :: ts, h => by
    obtain ⟨n, ws, t', x, h1, h2, h3, h4, h5⟩ := h t (by simp)
    obtain ⟨ns, ws', ts', xs, g1, g2, g3, g4, g5, g6⟩ := back_joined hop ts fun t ht => h t (by simp [ht])
    refine ⟨n :: ns, op :: ws ++ ws', t' :: ts', x :: xs, stringTerms_cons h1 g1, .cons h2 g2, .cons h3 g3, by simp [g4], ?_, ?_⟩
    · have := ((h4.sign' hop).space).append g5 g6
      simpa [List.append_assoc] using this
    · exact calm_cons (by decide)

theorem Joined.alts {ns ts} (h : Joined (str "|") (TermFor 2) ns ws ts) : SpellsAlts ns ws ∧ ordinaryTerms false ns ∧ MeansTerms ns ts := by
  induction h with
  | nil => exact ⟨.nil, trivial, .nil⟩
  | cons h _ ih => exact ⟨.cons h.1 ih.1, ⟨h.2.1, ih.2.1⟩, .cons h.2.2 ih.2.2⟩

theorem Joined.layers {ns ts} (h : Joined (str ">") (TermFor 1) ns ws ts) : SpellsLayers ns [] ws ∧ ordinaryTerms false ns ∧ MeansTerms ns ts := by
  induction h with
  | nil => exact ⟨.nil, trivial, .nil⟩
  | cons h _ ih =>
    refine ⟨?_, ⟨h.2.1, ih.2.1⟩, .cons h.2.2 ih.2.2⟩
    have := SpellsLayers.cons (.plain h.1) ih.1
    simpa using this

theorem separated_eq {sep : Str} {xs : List Str} : separated sep (x :: xs) = x ++ xs.flatMap (sep ++ ·) := rfl

/-- Two terms or more, with an operator between them. -/
theorem back_operator {op : Str} {Q : TermN → List Str → Term → Prop} (hop : Sign op) {ts : List Term} (hl : 2 ≤ ts.length) (h : ∀ t ∈ ts, PrintsBack quote Q t) :
    ∃ n ns ws ws' t' ts' xs, stringTerms quote ts = some xs ∧ Q n ws t' ∧ Joined op Q ns ws' ts' ∧ ns ≠ [] ∧ ReordList ts (t' :: ts') ∧
      Lays (ws ++ ws') (separated (32 :: (op ++ [32])) xs) ∧ Begins (separated (32 :: (op ++ [32])) xs) := by
  match ts with
  | t :: ts =>
    obtain ⟨n, ws, t', x, h1, h2, h3, h4, h5⟩ := h t (by simp)
    obtain ⟨ns, ws', ts', xs, g1, g2, g3, g4, g5, g6⟩ := back_joined hop ts fun t ht => h t (by simp [ht])
    refine ⟨n, ns, ws, ws', t', ts', x :: xs, stringTerms_cons h1 g1, h2, g2, ?_, .cons h3 g3, ?_, ?_⟩
    · rintro rfl
      simp at g4 hl
      omega
    · rw [separated_eq]; exact h4.append g5 g6
    · rw [separated_eq]; exact h5.append

theorem back_oneof {ts : List Term} (hl : 2 ≤ ts.length) (h : ∀ t ∈ ts, PrintsBack quote (TermFor 3) t) : PrintsBack quote (TermFor 1) (.oneof ts) := by
  obtain ⟨n, ns, ws, ws', t', ts', xs, h1, h2, h3, h4, h5, h6, h7⟩ :=
    back_operator (op := str "|") (by simp [Sign]) hl fun t ht => (h t ht).imp (Q := TermFor 2) fun a ws t' h => ⟨_, h.sequence⟩
  have h3 := h3.alts
  refine ⟨.many (str "|") [] (n :: ns), ws ++ ws', .oneof (t' :: ts'), _, ?_, ⟨?_, ?_, ?_⟩, .oneof h5, h6, h7⟩
  · rw [Term.string, h1]; rfl
  · have := SpellsTerm.alternatives h2.1 h3.1
    rwa [if_neg (by simpa using h4)] at this
  · exact ⟨trivial, h2.2.1, h3.2.1⟩
  · exact .choice (.cons h2.2.2 h3.2.2)

theorem back_stack {ts : List Term} (hl : 2 ≤ ts.length) (h : ∀ t ∈ ts, PrintsBack quote (TermFor 1) t) : PrintsBack quote (TermFor 0) (.stack ts) := by
  obtain ⟨n, ns, ws, ws', t', ts', xs, h1, h2, h3, h4, h5, h6, h7⟩ := back_operator (op := str ">") (by simp [Sign]) hl h
  have h3 := h3.layers
  refine ⟨.many (str ">") [] (n :: ns), ws ++ ws', .stack (t' :: ts'), _, ?_, ⟨?_, ?_, ?_⟩, .stack h5, h6, h7⟩
  · rw [Term.string, h1]; rfl
  · have := SpellsTerm.layers (.plain h2.1) h3.1
    rwa [if_neg (by simpa using h4)] at this
  · exact ⟨trivial, h2.2.1, h3.2.1⟩
  · exact .layers (.cons h2.2.2 h3.2.2)

/-! ## Atoms -/

theorem quiet_of (h : (match w.getLast?, w.head? with
    | some c, some d => decide (c ≠ 40 ∧ c ≠ 47 ∧ c ≠ 60) && !((str "[\\^$/").contains d)
    | _, _ => false) = true) : Quiet w := by
  split at h
  · next c d h1 h2 =>
    simp only [Bool.and_eq_true, decide_eq_true_eq, Bool.not_eq_true'] at h
    refine ⟨fun c' hc => ?_, fun d' hd => ?_⟩
    · rw [h1] at hc; cases hc; exact h.1
    · rw [h2] at hd; cases hd; simpa using h.2
  · cases h

theorem lays_close : Lays [str ")"] (str ")") := lays_word (quiet_of (by decide))

theorem back_seq {ts : List Term} (hl : ts.length ≠ 1) (h : ∀ t ∈ ts, PrintsBack quote (TermFor 3) t) : PrintsBack quote AtomFor (.seq ts) := by
  by_cases h0 : ts = []
  · subst h0
    refine ⟨.unit, _, .seq [], str "()", rfl, ⟨.unit, trivial, .unit⟩, .seq .nil, ?_, begins_cons rfl⟩
    exact lays_close.sign (by simp [Sign]) (begins_cons rfl)
  · obtain ⟨ns, ws, ts', xs, g1, g2, g3, g4, g5, g6, g7, g8⟩ := back_items ts h0 h
    have hn : ns ≠ [] := by
      rintro rfl
      exact h0 (List.eq_nil_of_length_eq_zero g6.symm)
    have h2 : TermFor 2 (.many [] [] ns) ws (.seq ts') :=
      ⟨.sequence hn g2, by simp [TermN.Ordinary, ordinaryGrammars, g3], .seq (by rw [g6]; exact hl) g4⟩
    have h0 := h2.alternative.layer
    refine ⟨.term _, _, .seq ts', str "(" ++ separated (str " ") xs ++ str ")", ?_, ⟨.term h0.1, h0.2.1, .parens h0.2.2⟩, .seq g5, ?_, begins_cons rfl⟩
    · rw [Term.string, g1]; rfl
    · have := (g7.append lays_close (calm_cons (by decide))).sign (w := str "(") (by simp [Sign]) g8.append
      simpa [List.append_assoc] using this

theorem back_look (h : PrintsBack quote (TermFor 0) t) : PrintsBack quote AtomFor (.look t) := by
  obtain ⟨n, ws, t', x, h1, h2, h3, h4, h5⟩ := h
  refine ⟨.look (.many [] [] [n]), _, .look t', str "(?=" ++ x ++ str ")", ?_, ⟨.look h2.1, ?_, .look (.single h2.2.2)⟩, .look h3, ?_, begins_cons rfl⟩
  · rw [Term.string, h1]; rfl
  · simp [AtomN.Ordinary, TermN.Ordinary, ordinaryGrammars, ordinaryTerms, h2.2.1]
  · have := (h4.append lays_close (calm_cons (by decide))).sign (w := str "(?=") (by simp [Sign]) h5.append
    simpa [List.append_assoc] using this

theorem back_rule (h : Lexeme Core.ident x) : PrintsBack quote AtomFor (.rule x) :=
  ⟨.ident x, _, .rule x, x, rfl, ⟨.ident, h, .ident⟩, .rule, lays_ident h, ident_begins h⟩

theorem back_s (hq : QuotesPlain text quote) (h : text x) : PrintsBack quote AtomFor (.s x) :=
  ⟨.str (quote x), _, .s x, quote x, rfl, ⟨.str, literal_lexeme hq h, .str (literal_means hq h)⟩, .s, lays_literal hq h, literal_begins hq h⟩

theorem back_ref (hq : QuotesPlain text quote) (hi : Lexeme Core.ident w) (h : text x) : PrintsBack quote AtomFor (.ref w (some (.s x))) := by
  refine ⟨.ref w (some (quote x)), _, .ref w (some (.s x)), str "%" ++ w ++ str "=" ++ quote x, rfl,
    ⟨.default, ⟨hi, fun y e => ?_⟩, .default (literal_means hq h)⟩, .ref, ?_, begins_cons rfl⟩
  · cases e; exact literal_lexeme hq h
  · have := Lays.percent hi (ws := [str "=", quote x]) (x := str "=" ++ quote x) ?_
    · simpa [List.append_assoc] using this
    · intro us z hz hz'
      have := LaidOut.cons (before := []) (w := w) (by simp [White]) ?_ (((lays_literal hq h).sign (w := str "=") (by simp [Sign]) (literal_begins hq h)) us z hz hz')
      · simpa using this
      · intro c d hc hd
        have : d = 61 := by simpa [str] using hd.symm
        subst this
        exact ⟨fun h => absurd h.2 (by unfold NameByte; decide), by simp [tokenPairs], fun h => absurd h.2 (by decide), fun h => absurd h (ident_slash hi)⟩

/-- `name=atom` -/
theorem back_named (hi : Lexeme Core.ident w) (h : PrintsBack quote AtomFor t) : PrintsBack quote NamedFor (.named w t) := by
  obtain ⟨a, ws, t', x, h1, h2, h3, h4, h5⟩ := h
  refine ⟨.mk (some w) a, _, .named w t', w ++ str "=" ++ x, ?_, ⟨.named h2.1, ⟨fun y e => ?_, h2.2.1⟩, .named ?_ h2.2.2⟩, .named h3, ?_, (ident_begins hi).append.append⟩
  · rw [Term.string, h1]; rfl
  · cases e; exact hi
  · obtain ⟨c, v, rfl, _⟩ := ident_head hi
    simp
  · intro us z hz hz'
    have := LaidOut.cons (before := []) (w := w) (by simp [White]) ?_ ((h4.sign (w := str "=") (by simp [Sign]) h5) us z hz hz')
    · simpa [List.append_assoc] using this
    · intro c d hc hd
      have : d = 61 := by simpa [str] using hd.symm
      subst this
      exact ⟨fun h => absurd h.2 (by unfold NameByte; decide), by simp [tokenPairs], fun h => absurd h.2 (by decide), fun h => absurd h (ident_slash hi)⟩

theorem back_plain (h : PrintsBack quote AtomFor t) : PrintsBack quote NamedFor t :=
  h.imp fun a ws t' h => ⟨.mk none a, .plain h.1, ⟨fun _ e => (by cases e), h.2.1⟩, .plain h.2.2⟩

/-! ## Quantifiers -/

theorem back_once (h : PrintsBack quote NamedFor t) : PrintsBack quote (TermFor 3) t :=
  h.imp fun a ws t' h => ⟨.one a [], by simpa using SpellsTerm.one h.1 .nil, ⟨h.2.1, trivial⟩, .quants h.2.2 .nil⟩

theorem back_quantifier {q : QuantN} {ws' : List Str} {y : Str} {f : Term → Term} (h : PrintsBack quote NamedFor t) (hq : SpellsQuant q ws') (ho : q.Ordinary false)
    (hm : ∀ t, MeansQuant q t (f t)) (hr : ∀ {t t'}, Reord t t' → Reord (f t) (f t')) (hs : (f t).string quote = some (verbText (t.string quote) ++ y))
    (hl : Lays ws' y) (hc : Calm y) : PrintsBack quote (TermFor 3) (f t) := by
  obtain ⟨a, ws, t', x, h1, h2, h3, h4, h5⟩ := h
  refine ⟨.one a [q], ws ++ ws', f t', x ++ y, by rw [hs, h1]; rfl, ⟨?_, ⟨h2.2.1, ho, trivial⟩, .quants h2.2.2 (.cons .nil (hm t'))⟩, hr h3, h4.append hl hc, h5.append⟩
  simpa using SpellsTerm.one h2.1 (.cons hq .nil)

theorem bound_means {n : Nat} (h : n < 2 ^ 63) : BoundMeans (if n ≠ 0 then some (decimal n) else none) n := by
  split
  · exact .number (decimal_numeral n) h
  · next h' =>
    have : n = 0 := by omega
    subst this; exact .absent

theorem lays_bound {n : Nat} (hx : Lays ws x) (hc : Calm x) (hb : Begins x) :
    Lays ((if n ≠ 0 then some (decimal n) else none).toList ++ ws) ((if n ≠ 0 then decimal n else []) ++ x) ∧ Begins ((if n ≠ 0 then decimal n else []) ++ x) := by
  split
  · exact ⟨(lays_decimal n).append hx hc, (decimal_begins n).append⟩
  · exact ⟨hx, hb⟩

theorem back_quant {lo hi : Nat} (h : PrintsBack quote NamedFor t) (h1 : ¬ (lo = 1 ∧ hi = 1)) (h2 : lo < 2 ^ 63) (h3 : hi < 2 ^ 63) : PrintsBack quote (TermFor 3) (.quant t lo hi) := by
  have word : ∀ {o : Str}, o = str "*" ∨ o = str "?" ∨ o = str "+" → Lays [o] o ∧ Calm o := by
    rintro _ (rfl | rfl | rfl) <;> exact ⟨lays_word (quiet_of (by decide)), calm_cons (by decide)⟩
  by_cases ha : lo = 0 ∧ hi = 0
  · obtain ⟨rfl, rfl⟩ := ha
    have hw := word (o := str "*") (by simp)
    exact back_quantifier (f := fun t => .quant t 0 0) h .op (lexeme .any (by decide +kernel)) (fun _ => .any) .quant rfl hw.1 hw.2
  by_cases hb : lo = 0 ∧ hi = 1
  · obtain ⟨rfl, rfl⟩ := hb
    have hw := word (o := str "?") (by simp)
    exact back_quantifier (f := fun t => .quant t 0 1) h .op (lexeme .opt (by decide +kernel)) (fun _ => .opt) .quant rfl hw.1 hw.2
  by_cases hc : lo = 1 ∧ hi = 0
  · obtain ⟨rfl, rfl⟩ := hc
    have hw := word (o := str "+") (by simp)
    exact back_quantifier (f := fun t => .quant t 1 0) h .op (lexeme .some (by decide +kernel)) (fun _ => .some) .quant rfl hw.1 hw.2
  have ord : ∀ n x, (if n ≠ 0 then some (decimal n) else none) = some x → Lexeme Core.int x := by
    intro n x e
    split at e
    · cases e; exact decimal_lexeme n
    · cases e
  have l1 := lays_bound (n := hi) (lays_word (w := str "}") (quiet_of (by decide))) (calm_cons (by decide)) (begins_cons rfl)
  have l2 := lays_bound (n := lo) (l1.1.sign (w := str ",") (by simp [Sign]) l1.2) (calm_cons (by decide)) (begins_cons rfl)
  have l3 := l2.1.sign (w := str "{") (by simp [Sign]) l2.2
  refine back_quantifier (f := fun t => .quant t lo hi) h .range ⟨ord lo, ord hi⟩ (fun _ => .range (bound_means h2) (bound_means h3)) .quant
    (y := str "{" ++ (if lo ≠ 0 then decimal lo else []) ++ str "," ++ (if hi ≠ 0 then decimal hi else []) ++ str "}") ?_ ?_ (calm_cons (by decide))
  · rw [Term.string, quantString, if_neg ha, if_neg hb, if_neg hc, if_neg h1]; rfl
  · simpa [List.append_assoc] using l3

theorem back_delim {sep : Term} {a : Int} {cs ce : Bool} (h : PrintsBack quote NamedFor t) (hs : PrintsBack quote NamedFor sep)
    (ha : a = leftToRight ∨ a = rightToLeft ∨ a = nonAssociative) : PrintsBack quote (TermFor 3) (.delim t sep a cs ce) := by
  obtain ⟨b, ws, sep', x, h1, h2, h3, h4, h5⟩ := hs
  have op : ∃ o, assocString a = o ∧ OpMeans o a ∧ Lexeme (Core.re "<:|:>?") o ∧ Sign o ∧ ∀ z, Calm (o ++ z) := by
    rcases ha with rfl | rfl | rfl
    · exact ⟨str ":>", rfl, .left, lexeme .left (by decide +kernel), by simp [Sign], fun _ => calm_cons (by decide)⟩
    · exact ⟨str "<:", rfl, .right, lexeme .right (by decide +kernel), by simp [Sign], fun _ => calm_cons (by decide)⟩
    · exact ⟨str ":", rfl, .plain, lexeme .plain (by decide +kernel), by simp [Sign], fun _ => calm_cons (by decide)⟩
  obtain ⟨o, e, o1, o2, o3, o4⟩ := op
  have l1 : Lays (ws ++ (if ce then [str ","] else [])) (x ++ (if ce then str "," else [])) := by
    cases ce
    · simpa using h4
    · exact h4.append (lays_word (quiet_of (by decide))) (calm_cons (by decide))
  have l2 : Lays ((if cs then [str ","] else []) ++ (ws ++ (if ce then [str ","] else []))) ((if cs then str "," else []) ++ (x ++ (if ce then str "," else []))) ∧
      Begins ((if cs then str "," else []) ++ (x ++ (if ce then str "," else []))) := by
    cases cs
    · exact ⟨l1, h5.append⟩
    · exact ⟨l1.sign (w := str ",") (by simp [Sign]) h5.append, begins_cons rfl⟩
  have l3 := l2.1.sign o3 l2.2
  obtain ⟨b', ws', t', x', g1, g2, g3, g4, g5⟩ := h
  refine ⟨.one b' [.sep o cs ce b], ws' ++ (o :: ((if cs then [str ","] else []) ++ ws ++ (if ce then [str ","] else []))), .delim t' sep' a cs ce,
    x' ++ (o ++ ((if cs then str "," else []) ++ (x ++ (if ce then str "," else [])))), ?_, ⟨?_, ⟨g2.2.1, ⟨o2, h2.2.1⟩, trivial⟩,
      .quants g2.2.2 (.cons .nil (.sep o1 h2.2.2))⟩, .delim g3 h3, ?_, g5.append⟩
  · rw [Term.string, g1, h1, e]
    simp [verbText, List.append_assoc]
  · simpa using SpellsTerm.one g2.1 (.cons (.sep (o := o) (lead := cs) (trail := ce) h2.1) .nil)
  · rw [List.append_assoc (if cs then [str ","] else [])]
    exact g4.append l3 (o4 _)

/-! ## Grammars -/

/-- The text of a statement. -/
def defText (quote : Str → Str) (d : Str × Term) : Str := d.1 ++ str " -> " ++ verbText (d.2.string quote)

theorem laidOut_arrow (hk : Lexeme Core.ident w) (h : LaidOut ws x) : LaidOut (w :: str "->" :: ws) (w ++ (str " -> " ++ x)) := by
  have h1 : LaidOut (str "->" :: ws) (str " -> " ++ x) := by
    have := LaidOut.cons (before := [32]) (w := str "->") (by simp [White]) (Sign.follow (by simp [Sign]) (begins_cons (x := x) (c := 32) rfl)) (laidOut_space h)
    simpa [str] using this
  have := LaidOut.cons (before := []) (w := w) (by simp [White]) ((ident_quiet hk).follow (x := str " -> " ++ x) (calm_cons (by decide))) h1
  simpa using this

theorem lays_semicolon : Lays [str ";"] (str ";") := lays_word (quiet_of (by decide))

theorem back_defs : ∀ (g : Grammar), g ≠ [] → (∀ d ∈ g, Lexeme Core.ident d.1 ∧ PrintsBack quote (TermFor 0) d.2) →
    ∃ ss ws g', SpellsStmts ss ws ∧ ordinaryStmts false ss ∧ MeansStmts ss g' ∧ ReordDefs g g' ∧ g'.map Prod.fst = g.map Prod.fst ∧ ss ≠ [] ∧
      Lays ws (separated (str "; ") (g.map (defText quote)) ++ str ";") := by
  intro g
  induction g with
  | nil => intro h; exact absurd rfl h
  | cons d g ih =>
    intro _ h
    obtain ⟨k, t⟩ := d
    obtain ⟨hk, n, ws, t', x, h1, h2, h3, h4, h5⟩ := h (k, t) (by simp)
    have hs : SpellsStmt (.prod k [n]) (k :: str "->" :: (ws ++ [] ++ [str ";"])) := .prod (by simp) (.cons h2.1 .nil)
    have ho : StmtN.Ordinary false (.prod k [n]) := ⟨hk, by simp, h2.2.1, trivial⟩
    have hl : ∀ us z, LaidOut us z → Calm z → LaidOut ((k :: str "->" :: (ws ++ [] ++ [str ";"])) ++ us) (defText quote (k, t) ++ str ";" ++ z) := by
      intro us z hz hz'
      have := laidOut_arrow hk ((h4.append lays_semicolon (calm_cons (by decide))) us z hz hz')
      rw [defText, h1]
      simpa [List.append_assoc, verbText] using this
    cases g with
    | nil =>
      refine ⟨[.prod k [n]], _ ++ [], [(k, t')], .cons hs .nil, ⟨ho, trivial⟩, .prod (.single h2.2.2) .nil, .cons h3 .nil, rfl, by simp, ?_⟩
      intro us z hz hz'
      simpa [separated, List.append_assoc] using hl us z hz hz'
    | cons e g =>
      obtain ⟨ss, ws', g', g1, g2, g3, g4, g5, g6, g7⟩ := ih (by simp) fun d hd => h d (by simp [hd])
      refine ⟨.prod k [n] :: ss, _ ++ ws', (k, t') :: g', .cons hs g1, ⟨ho, g2⟩, .prod (.single h2.2.2) g3, .cons h3 g4, by simp [g5], by simp, ?_⟩
      intro us z hz hz'
      have := hl _ _ (laidOut_space (g7 us z hz hz')) (calm_cons (by decide))
      rw [List.map_cons, List.map_cons, separated_cons]
      simpa [List.append_assoc, str] using this

theorem lookup_stringDefs {k : Str} : ∀ {g : Grammar} {t : Term}, lookup k g = some t → lookup k (stringDefs quote g) = some (verbText (t.string quote))
  | [], _, h => by cases h
  | (k', t') :: g, t, h => by
    rw [lookup] at h
    rw [stringDefs, lookup]
    split
    · next e =>
      rw [if_pos e] at h
      cases h; rfl
    · next e =>
      rw [if_neg e] at h
      exact lookup_stringDefs h

/-- The rules in the order of their names. -/
def sortDefs (g : Grammar) : Grammar := (sortStrings (g.map Prod.fst)).map fun k => (k, (lookup k g).getD (.seq []))

theorem sortDefs_perm {g : Grammar} (hd : g.Distinct) : g.Perm (sortDefs g) := by
  have h1 := (sortStrings_perm (g.map Prod.fst)).map fun k => (k, (lookup k g).getD (.seq []))
  have h2 : (g.map Prod.fst).map (fun k => (k, (lookup k g).getD (.seq []))) = g := by
    rw [List.map_map]
    refine (List.map_congr_left fun d hd' => ?_).trans (List.map_id g)
    simp only [Function.comp_apply, lookup_of_mem hd hd', Option.getD_some, id]
  rw [h2] at h1
  exact h1.symm

theorem string_sortDefs {g : Grammar} (hd : g.Distinct) (hl : 2 ≤ g.length) :
    g.string quote = separated (str "; ") ((sortDefs g).map (defText quote)) ++ str ";" := by
  have hk : 1 < (sortStrings (g.map Prod.fst)).length := by rw [(sortStrings_perm _).length_eq, List.length_map]; exact hl
  unfold Grammar.string defsString
  simp only [keys_stringDefs]
  rw [if_pos hk, sortDefs, List.map_map]
  congr 2
  refine List.map_congr_left fun k hk => ?_
  obtain ⟨⟨k', t⟩, hm, rfl⟩ := List.mem_map.1 ((sortStrings_perm _).mem_iff.1 hk)
  have := lookup_of_mem hd hm
  simp only [Function.comp_apply, lookup_stringDefs this, this, defText, Option.getD_some]

/-- What is read back from a grammar. -/
def GrammarBack (quote : Str → Str) (g : Grammar) : Prop :=
  ∃ b ws g', SpellsGrammar b ws ∧ b.Ordinary false ∧ MeansGrammar b g' ∧ ReordDefs g g' ∧ Lays ws (g.string quote)

theorem back_grammar {g : Grammar} (hl : 2 ≤ g.length) (hd : g.Distinct) (h : ∀ d ∈ g, Lexeme Core.ident d.1 ∧ PrintsBack quote (TermFor 0) d.2) : GrammarBack quote g := by
  have hp := sortDefs_perm hd
  have hn : sortDefs g ≠ [] := by
    intro e
    have := hp.length_eq
    rw [e] at this
    simp at this
    simp [this] at hl
  obtain ⟨ss, ws, g', g1, g2, g3, g4, g5, g6, g7⟩ := back_defs (sortDefs g) hn fun d hd => h d (hp.mem_iff.2 hd)
  refine ⟨.mk ss, ws, g', .mk g6 g1, g2, ?_, (ReordDefs.of_perm hp).trans g4, by rw [string_sortDefs hd hl]; exact g7⟩
  have hnd : (g'.map (·.1)).Nodup := by
    have : (g'.map Prod.fst).Nodup := by
      rw [g5]
      exact (hp.map _).nodup_iff.1 hd
    exact this
  have := MeansGrammar.mk g3
  rwa [show lastWins g' = g' by simpa [lastWins] using foldl_append (g := []) (ps := g') (by simpa using hnd)] at this

theorem back_scope {g : Grammar} (h : PrintsBack quote (TermFor 1) t) (hg : GrammarBack quote g) : PrintsBack quote (TermFor 0) (.scope t g) := by
  obtain ⟨n, ws, t', x, h1, h2, h3, h4, h5⟩ := h
  obtain ⟨b, ws', g', g1, g2, g3, g4, g5⟩ := hg
  refine ⟨.many [] [b] [n], (ws ++ str "{" :: ws' ++ [str "}"]) ++ [], .scope t' g', x ++ str " { " ++ g.string quote ++ str " }", ?_, ⟨?_, ?_, ?_⟩, .scope h3 g4, ?_,
    h5.append.append.append⟩
  · rw [Term.string, h1]; rfl
  · simpa using SpellsTerm.layers (.braces h2.1 g1) .nil
  · simp [TermN.Ordinary, ordinaryGrammars, ordinaryTerms, h2.2.1, g2]
  · exact .braces (.single h2.2.2) g3
  · have l1 := g5.append (lays_word (w := str "}") (quiet_of (by decide))).space (calm_cons (by decide))
    have l2 := h4.append (l1.sign' (w := str "{") (by simp [Sign])).space (calm_cons (by decide))
    simpa [List.append_assoc, str] using l2

/-! ## All -/

mutual
theorem PrintsAtom.back (hq : QuotesPlain text quote) : {t : Term} → PrintsAtom text t → PrintsBack quote AtomFor t
  | _, .rule h => back_rule h
  | _, .s h => back_s hq h
  | _, .ref h h' => back_ref hq h h'
  | _, .seq h h' => back_seq h (h'.back hq)
  | _, .look h => back_look (h.back hq)
theorem PrintsNamed.back (hq : QuotesPlain text quote) : {t : Term} → PrintsNamed text t → PrintsBack quote NamedFor t
  | _, .plain h => back_plain (h.back hq)
  | _, .named h h' => back_named h (h'.back hq)
theorem PrintsItem.back (hq : QuotesPlain text quote) : {t : Term} → PrintsItem text t → PrintsBack quote (TermFor 3) t
  | _, .plain h => back_once (h.back hq)
  | _, .quant h h1 h2 h3 => back_quant (h.back hq) h1 h2 h3
  | _, .delim h h' ha => back_delim (h.back hq) (h'.back hq) ha
theorem PrintsItems.back (hq : QuotesPlain text quote) : {ts : List Term} → PrintsItems text ts → ∀ t ∈ ts, PrintsBack quote (TermFor 3) t
  | _, .nil => fun _ h => by cases h
  | _, .cons h h' => fun _ hm => by
    have h1 := h.back hq
    have h2 := h'.back hq
    rcases List.mem_cons.1 hm with rfl | hm
    · exact h1
    · exact h2 _ hm
theorem PrintsChoice.back (hq : QuotesPlain text quote) : {t : Term} → PrintsChoice text t → PrintsBack quote (TermFor 1) t
  | _, .item h => (h.back hq).imp fun _ _ _ h => ⟨_, h.sequence.alternative⟩
  | _, .oneof h h' => back_oneof h (h'.back hq)
theorem PrintsChoices.back (hq : QuotesPlain text quote) : {ts : List Term} → PrintsChoices text ts → ∀ t ∈ ts, PrintsBack quote (TermFor 1) t
  | _, .nil => fun _ h => by cases h
  | _, .cons h h' => fun _ hm => by
    have h1 := h.back hq
    have h2 := h'.back hq
    rcases List.mem_cons.1 hm with rfl | hm
    · exact h1
    · exact h2 _ hm
theorem PrintsTerm.back (hq : QuotesPlain text quote) : {t : Term} → PrintsTerm text t → PrintsBack quote (TermFor 0) t
  | _, .choice h => (h.back hq).imp fun _ _ _ h => ⟨_, h.layer⟩
  | _, .stack h h' => back_stack h (h'.back hq)
  | _, .scope h h' => back_scope (h.back hq) (h'.back hq)
theorem PrintsGrammar.back (hq : QuotesPlain text quote) : {g : Grammar} → PrintsGrammar text g → GrammarBack quote g
  | _, .mk h h' hd => back_grammar h h' (hd.back hq)
theorem PrintsDefs.back (hq : QuotesPlain text quote) : {g : Grammar} → PrintsDefs text g → ∀ d ∈ g, Lexeme Core.ident d.1 ∧ PrintsBack quote (TermFor 0) d.2
  | _, .nil => fun _ h => by cases h
  | _, .cons hk h h' => fun _ hm => by
    have h1 := h.back hq
    have h2 := h'.back hq
    rcases List.mem_cons.1 hm with rfl | hm
    · exact ⟨hk, h1⟩
    · exact h2 _ hm
end

end Wbnf

import Verif.Spec.Means
import Verif.Props.Literal
import Verif.Props.Macro
import Verif.Lemmas.Macro
import Verif.Lemmas.Compile

/-!
# C51: what a source denotes
-/

namespace Wbnf

variable {ms : Macros}

theorem LiteralMeans.reads {x l : Str} (h : LiteralMeans x l) : parseString x = .ok l := by
  cases h with
  | quoted hq hr => exact ((C36_reads hq _).1 _).2 hr
  | backquoted => exact C36_backquotes _

theorem LiteralMeans.ne {x l : Str} (h : LiteralMeans x l) : x ≠ [] := by
  cases h <;> simp

theorem RegexpMeans.reads {x p : Str} (h : RegexpMeans x p) : parseRE x = p := by
  cases h with
  | braces => exact C49_braces _
  | bare h => exact C49_bare h

theorem Numeral.ne {x : Str} {n : Nat} (h : Numeral x n) : x ≠ [] := by
  cases h <;> simp

theorem digit_byte {d : Nat} (h : d ≤ 9) : (UInt8.ofNat (48 + d)).toNat = 48 + d := by
  rw [UInt8.toNat_ofNat']; omega

theorem Numeral.read {x : Str} {n : Nat} (h : Numeral x n) :
    (x.all fun c => 48 ≤ c && c ≤ 57) = true ∧ x.foldl (fun n c => 10 * n + (c.toNat - 48)) 0 = n := by
  have dig : ∀ {d : Nat}, d ≤ 9 → (48 ≤ UInt8.ofNat (48 + d) && UInt8.ofNat (48 + d) ≤ 57) = true := by
    intro d hd
    simp only [Bool.and_eq_true, decide_eq_true_eq, UInt8.le_iff_toNat_le, digit_byte hd]
    exact ⟨by simp, by simp; omega⟩
  induction h with
  | one hd => simp only [List.all_cons, List.all_nil, Bool.and_true, List.foldl_cons, List.foldl_nil, digit_byte hd]; exact ⟨dig hd, by omega⟩
  | more _ hd ih =>
    simp only [List.all_append, List.all_cons, List.all_nil, Bool.and_true, List.foldl_append, List.foldl_cons, List.foldl_nil, ih.2, digit_byte hd]
    exact ⟨by rw [ih.1, dig hd]; rfl, by omega⟩

theorem BoundMeans.read {x : Option Str} {n : Nat} (h : BoundMeans x n) : bound x = .ok n := by
  cases h with
  | absent => rfl
  | number h hlt =>
    have := h.read
    simp only [bound, if_neg h.ne, atoi]
    rw [if_pos ⟨h.ne, this.1⟩, this.2, if_pos hlt]

theorem OpMeans.read {o : Str} {a : Int} (h : OpMeans o a) : newAssociativity o = .ok a := by
  cases h <;> rfl

theorem bts_length {ts : List TermN} : ∀ {us : List Term}, BTs ms ts us → us.length = ts.length := by
  induction ts with
  | nil => intro us h; rw [bts_nil] at h; simp [h]
  | cons t ts ih =>
    intro us h
    rw [bts_cons] at h
    obtain ⟨v, vs, _, h2, rfl⟩ := h
    simp [ih h2]

theorem seqOf_seq {us : List Term} (h : us.length ≠ 1) : seqOf us = .seq us := by
  match us, h with
  | [], _ => rfl
  | [_], h => simp at h
  | _ :: _ :: _, _ => rfl

/-- Terms in a row, as in a production. -/
theorem bt_row {ts : List TermN} {u : Term} : BT ms (.many [] [] ts) u ↔ ∃ us, BTs ms ts us ∧ u = seqOf us := by
  rw [bt_many]; rfl

/-- The productions of statements. -/
def BPs (ms : Macros) (ss : List StmtN) (ps : List (Str × Term)) : Prop :=
  ∃ N, ∀ n, N ≤ n → ∀ g, buildStmts ms n ss g = .ok (ps.foldl (fun g p => mapSet p.1 p.2 g) g)

theorem BPs.skip {s : StmtN} {ss ps} (hs : ∀ n g, buildStmts ms (n + 1) (s :: ss) g = buildStmts ms n ss g) (h : BPs ms ss ps) :
    BPs ms (s :: ss) ps := by
  obtain ⟨N, h⟩ := h
  refine ⟨N + 1, fun n hn g => ?_⟩
  obtain ⟨n, rfl⟩ : ∃ k, n = k + 1 := ⟨n - 1, by omega⟩
  rw [hs]; exact h n (by omega) g

theorem bqs_snoc {qs : List QuantN} {q t u v} (h1 : BQs ms qs t u) (h2 : BQ ms q u v) : BQs ms (qs ++ [q]) t v := by
  induction qs generalizing t with
  | nil => rw [bqs_nil] at h1; subst h1; exact bqs_cons.2 ⟨_, h2, bqs_nil.2 rfl⟩
  | cons p qs ih =>
    obtain ⟨w, h3, h4⟩ := bqs_cons.1 h1
    exact bqs_cons.2 ⟨_, h3, ih h4⟩

mutual
theorem MeansTerm.builds : {t : TermN} → {u : Term} → MeansTerm t u → BT ms t u
  | _, _, .choice h => by
    rw [bt_many]; exact ⟨_, h.builds, by simp [joinTerms]⟩
  | _, _, .layers h => by
    rw [bt_many]; exact ⟨_, h.builds, by
      have e : ¬ str ">" = str "|" := by decide
      simp [joinTerms, e]⟩
  | _, _, .seq hl h => by
    rw [bt_row]
    exact ⟨_, h.builds, (seqOf_seq (by rw [bts_length (ms := ms) h.builds]; exact hl)).symm⟩
  | _, _, .single h => by
    rw [bt_row]
    exact ⟨_, bts_cons.2 ⟨_, _, h.builds, bts_nil.2 rfl, rfl⟩, rfl⟩
  | _, _, .braces h hg => by
    obtain ⟨us, h1, h2⟩ := bt_row.1 (h.builds)
    rw [bt_many]
    refine ⟨us, h1, ?_⟩
    have e : ¬ (([] : Str) = str "|" ∨ ([] : Str) = str ">") := by decide
    rw [if_neg e]
    have e1 : ¬ ([] : Str) = str "|" := by decide
    have e2 : ¬ ([] : Str) = str ">" := by decide
    exact ⟨_, hg.builds, by simp [joinTerms, e1, e2, h2]⟩
  | _, _, .quants hn hq => by
    rw [bt_one]
    exact ⟨_, hn.builds, hq.builds⟩
theorem MeansTerms.builds : {ts : List TermN} → {us : List Term} → MeansTerms ts us → BTs ms ts us
  | _, _, .nil => bts_nil.2 rfl
  | _, _, .cons h hs => bts_cons.2 ⟨_, _, h.builds, hs.builds, rfl⟩
theorem MeansQuants.builds : {qs : List QuantN} → {t u : Term} → MeansQuants qs t u → BQs ms qs.reverse t u
  | _, _, _, .nil => bqs_nil.2 rfl
  | _, _, _, .cons hs h => by
    have h1 := hs.builds
    have h2 := h.builds
    rw [List.reverse_cons]
    exact bqs_snoc h1 h2
theorem MeansQuant.builds : {q : QuantN} → {t u : Term} → MeansQuant q t u → BQ ms q t u
  | _, _, _, .any => bq_op.2 (by simp)
  | _, _, _, .opt => bq_op.2 (by simp)
  | _, _, _, .some => bq_op.2 (by simp)
  | _, _, _, .range h1 h2 => bq_range.2 ⟨_, _, h1.read, h2.read, rfl⟩
  | _, _, _, .sep h1 h2 => bq_sep.2 ⟨_, _, h1.read, h2.builds, rfl⟩
theorem MeansNamed.builds : {n : NamedN} → {u : Term} → MeansNamed n u → BN ms n u
  | _, _, .plain h => bn_mk.2 ⟨_, h.builds, rfl⟩
  | _, _, .named hi h => bn_mk.2 ⟨_, h.builds, by simp [nameTerm, hi]⟩
theorem MeansAtom.builds : {a : AtomN} → {u : Term} → MeansAtom a u → Builds ms a u
  | _, _, .ident => ⟨1, rfl⟩
  | _, _, .str h => ⟨1, by simp [buildAtom, h.reads, Except.bind]⟩
  | _, _, .re h => ⟨1, by simp [buildAtom, h.reads]⟩
  | _, _, .ref => ⟨1, rfl⟩
  | _, _, .default h => ⟨1, by simp [buildAtom, h.reads, h.ne, Except.bind]⟩
  | _, _, .ext => ⟨1, rfl⟩
  | _, _, .look h => ba_look.2 ⟨_, h.builds, rfl⟩
  | _, _, .parens h => ba_term.2 h.builds
  | _, _, .unit => ⟨1, rfl⟩
theorem MeansGrammar.builds : {g : GrammarN} → {G : Grammar} → MeansGrammar g G → BG ms g G
  | _, _, .mk h => by
    obtain ⟨N, h⟩ := h.builds
    exact ⟨N + 1, h N (Nat.le_refl _) []⟩
theorem MeansStmts.builds : {ss : List StmtN} → {ps : List (Str × Term)} → MeansStmts ss ps → BPs ms ss ps
  | _, _, .nil => ⟨1, fun n hn g => by
      obtain ⟨n, rfl⟩ : ∃ k, n = k + 1 := ⟨n - 1, by omega⟩
      rfl⟩
  | _, _, .prod ht hs => by
    obtain ⟨us, ⟨m, h1⟩, h2⟩ := bt_row.1 (ht.builds)
    obtain ⟨N, h⟩ := hs.builds
    refine ⟨max m N + 1, fun n hn g => ?_⟩
    obtain ⟨n, rfl⟩ : ∃ k, n = k + 1 := ⟨n - 1, by omega⟩
    rw [buildStmts, mapE_mono (fun _ _ => buildTerm_mono (by omega)) h1]
    have e1 : ¬ ([] : Str) = str "|" := by decide
    have e2 : ¬ ([] : Str) = str ">" := by decide
    simp only [Except.bind, joinTerms, e1, e2, if_false, List.foldl_cons]
    rw [h n (by omega), h2]
  | _, _, .comment hs => BPs.skip (fun n g => by rw [buildStmts]) hs.builds
  | _, _, .imp hs => BPs.skip (fun n g => by rw [buildStmts]) hs.builds
  | _, _, .macrodef hs => BPs.skip (fun n g => by rw [buildStmts]) hs.builds
end

mutual
theorem TermN.Readable.means : (t : TermN) → t.Readable → ∃ u, MeansTerm t u
  | .many op gs ts, h => by
    obtain ⟨h1, h2, h3⟩ := h
    obtain ⟨us, hus⟩ := readableTerms_means ts h3
    rcases h1 with rfl | rfl | ⟨rfl, hl⟩
    · exact ⟨_, .choice hus⟩
    · exact ⟨_, .layers hus⟩
    · have row : ∃ u, MeansTerm (.many [] [] ts) u := by
        by_cases h1 : ts.length = 1
        · match ts, h1, hus with
          | [t], _, .cons h _ => exact ⟨_, .single h⟩
        · exact ⟨_, .seq h1 hus⟩
      match gs, hl, h2 with
      | [], _, _ => exact row
      | [g], _, h2 =>
        obtain ⟨u, hu⟩ := row
        obtain ⟨G, hG⟩ := GrammarN.Readable.means g h2.1
        exact ⟨_, .braces hu hG⟩
  | .one n qs, h => by
    obtain ⟨t, ht⟩ := NamedN.Readable.means n h.1
    obtain ⟨u, hu⟩ := readableQuants_means qs h.2 t
    exact ⟨u, .quants ht hu⟩
theorem NamedN.Readable.means : (n : NamedN) → n.Readable → ∃ u, MeansNamed n u
  | .mk none a, h => by
    obtain ⟨u, hu⟩ := AtomN.Readable.means a h.2
    exact ⟨u, .plain hu⟩
  | .mk (some i) a, h => by
    obtain ⟨u, hu⟩ := AtomN.Readable.means a h.2
    exact ⟨_, .named (fun e => h.1 (by rw [e])) hu⟩
theorem AtomN.Readable.means : (a : AtomN) → a.Readable → ∃ u, MeansAtom a u
  | .ident _, _ => ⟨_, .ident⟩
  | .str _, ⟨_, h⟩ => ⟨_, .str h⟩
  | .re _, ⟨_, h⟩ => ⟨_, .re h⟩
  | .ref _ none, _ => ⟨_, .ref⟩
  | .ref _ (some _), ⟨_, h⟩ => ⟨_, .default h⟩
  | .macrocall _ _, h => h.elim
  | .ext _, _ => ⟨_, .ext⟩
  | .look t, h => by
    obtain ⟨u, hu⟩ := TermN.Readable.means t h
    exact ⟨_, .look hu⟩
  | .term t, h => by
    obtain ⟨u, hu⟩ := TermN.Readable.means t h
    exact ⟨_, .parens hu⟩
  | .unit, _ => ⟨_, .unit⟩
theorem QuantN.Readable.means : (q : QuantN) → q.Readable → ∀ t, ∃ u, MeansQuant q t u
  | .op o, h, t => by
    rcases h with rfl | rfl | rfl
    · exact ⟨_, .any⟩
    · exact ⟨_, .opt⟩
    · exact ⟨_, .some⟩
  | .range lo hi, ⟨⟨_, h1⟩, ⟨_, h2⟩⟩, t => ⟨_, .range h1 h2⟩
  | .sep o _ _ n, ⟨⟨_, h1⟩, h2⟩, t => by
    obtain ⟨u, hu⟩ := NamedN.Readable.means n h2
    exact ⟨_, .sep h1 hu⟩
theorem GrammarN.Readable.means : (g : GrammarN) → g.Readable → ∃ G, MeansGrammar g G
  | .mk ss, h => by
    obtain ⟨ps, hps⟩ := readableStmts_means ss h
    exact ⟨_, .mk hps⟩
theorem readableTerms_means : (ts : List TermN) → readableTerms ts → ∃ us, MeansTerms ts us
  | [], _ => ⟨_, .nil⟩
  | t :: ts, h => by
    obtain ⟨u, hu⟩ := TermN.Readable.means t h.1
    obtain ⟨us, hus⟩ := readableTerms_means ts h.2
    exact ⟨_, .cons hu hus⟩
theorem readableQuants_means : (qs : List QuantN) → readableQuants qs → ∀ t, ∃ u, MeansQuants qs t u
  | [], _, t => ⟨_, .nil⟩
  | q :: qs, h, t => by
    obtain ⟨u, hu⟩ := readableQuants_means qs h.2 t
    obtain ⟨v, hv⟩ := QuantN.Readable.means q h.1 u
    exact ⟨_, .cons hu hv⟩
theorem readableStmts_means : (ss : List StmtN) → readableStmts ss → ∃ ps, MeansStmts ss ps
  | [], _ => ⟨_, .nil⟩
  | .prod i ts :: ss, h => by
    obtain ⟨ps, hps⟩ := readableStmts_means ss h.2
    obtain ⟨us, hus⟩ := readableTerms_means ts h.1
    have row : ∃ u, MeansTerm (.many [] [] ts) u := by
      by_cases h1 : ts.length = 1
      · match ts, h1, hus with
        | [t], _, .cons h _ => exact ⟨_, .single h⟩
      · exact ⟨_, .seq h1 hus⟩
    obtain ⟨u, hu⟩ := row
    exact ⟨_, .prod hu hps⟩
  | .comment _ :: ss, h => by
    obtain ⟨ps, hps⟩ := readableStmts_means ss h.2
    exact ⟨_, .comment hps⟩
  | .imp _ :: ss, h => by
    obtain ⟨ps, hps⟩ := readableStmts_means ss h.2
    exact ⟨_, .imp hps⟩
  | .macrodef _ _ _ :: ss, h => by
    obtain ⟨ps, hps⟩ := readableStmts_means ss h.2
    exact ⟨_, .macrodef hps⟩
end


/-! ## The theorems -/

/-- **C51** A source is made into what it denotes, whatever macros it defines; only cut points are added. -/
theorem C51_denotes {g : GrammarN} {G : Grammar} (h : MeansGrammar g G) :
    ∃ N, ∀ n, N ≤ n → newFromAst n g = .ok (insertCutPoints G) := by
  obtain ⟨N, hN⟩ := h.builds (ms := macrosOf g)
  exact ⟨N, fun n hn => by rw [newFromAst, buildGrammar_mono hn hN]; rfl⟩

/-- **C51** A source without macro calls whose literals, bounds and operators can be read denotes something, -/
theorem C51_total {g : GrammarN} (h : g.Readable) : ∃ G, MeansGrammar g G := h.means

theorem same_result {α : Type} {f : Nat → Except Stop α} {a b : α} (h1 : ∃ N, ∀ n, N ≤ n → f n = .ok a)
    (h2 : ∃ N, ∀ n, N ≤ n → f n = .ok b) : a = b := by
  obtain ⟨N, h1⟩ := h1
  obtain ⟨M, h2⟩ := h2
  have e1 := h1 (max N M) (Nat.le_max_left ..)
  rw [h2 _ (Nat.le_max_right ..), Except.ok.injEq] at e1
  exact e1.symm

/-- and only one thing. -/
theorem C51_unique {g : GrammarN} {G H : Grammar} (h : MeansGrammar g G) (h' : MeansGrammar g H) : G = H := by
  obtain ⟨n, h1⟩ := h.builds (ms := [])
  obtain ⟨m, h2⟩ := h'.builds (ms := [])
  have h3 := buildGrammar_mono (Nat.le_max_left n m) h1
  rw [buildGrammar_mono (Nat.le_max_right n m) h2, Except.ok.injEq] at h3
  exact h3.symm

theorem lookup_foldl {r : Str} : ∀ (ps : List (Str × Term)) (g : Grammar),
    lookup r (ps.foldl (fun g p => mapSet p.1 p.2 g) g) = ((ps.filter fun p => p.1 = r).getLast?.map (·.2)).or (lookup r g) := by
  intro ps
  induction ps with
  | nil => intro g; simp
  | cons p ps ih =>
    intro g
    rw [List.foldl_cons, ih]
    by_cases h : p.1 = r
    · simp only [List.filter_cons, h, decide_true, if_true]
      subst h
      rw [lookup_mapSet_self]
      cases hl : (ps.filter fun q => q.1 = p.1).getLast? with
      | none =>
        rw [List.getLast?_eq_none_iff] at hl
        rw [hl]; rfl
      | some q =>
        rw [List.getLast?_cons, hl]; rfl
    · simp only [List.filter_cons, h, decide_false]
      rw [lookup_mapSet_ne (fun e => h e.symm)]
      simp

/-- **C51** A rule is what its last production says. -/
theorem C51_last {ss : List StmtN} {ps : List (Str × Term)} {G : Grammar} (h : MeansStmts ss ps) (hG : MeansGrammar (.mk ss) G)
    (r : Str) : lookup r G = (ps.filter fun p => p.1 = r).getLast?.map (·.2) := by
  rw [C51_unique hG (.mk h), lastWins, lookup_foldl]
  simp [lookup]


/-- **C51** Grammars in braces in one of several layers do not count. -/
theorem C51_dropped {gs gs' : List GrammarN} {ts : List TermN} {u : Term} :
    MeansTerm (.many (str ">") gs ts) u ↔ MeansTerm (.many (str ">") gs' ts) u := by
  have : ∀ {gs gs' : List GrammarN} {op : Str}, op = str ">" → MeansTerm (.many op gs ts) u → MeansTerm (.many (str ">") gs' ts) u := by
    intro gs gs' op ho h
    cases h with
    | choice _ => exact absurd ho (by decide)
    | layers h => exact .layers h
    | seq _ _ => exact absurd ho (by decide)
    | single _ => exact absurd ho (by decide)
    | braces _ _ => exact absurd ho (by decide)
  exact ⟨this rfl, this rfl⟩

/-! ### Every grammar can be written -/

mutual
/-- What can be written: no cut points, no sequences of one term, no empty names, bounds that fit, separators and defaults
that can be written, regexps that have a literal, one production for each rule. -/
def Term.Sayable : Term → Prop
  | .rule _ => True
  | .s _ => True
  | .re p => ∃ x, RegexpMeans x p
  | .ref _ d => d = none ∨ ∃ l, d = some (.s l)
  | .ext _ => True
  | .seq ts => ts.length ≠ 1 ∧ sayableList ts
  | .oneof ts => sayableList ts
  | .stack ts => sayableList ts
  | .delim t sep a _ _ => (a = nonAssociative ∨ a = leftToRight ∨ a = rightToLeft) ∧ t.Sayable ∧ sep.Sayable
  | .look t => t.Sayable
  | .quant t lo hi => lo < 2 ^ 63 ∧ hi < 2 ^ 63 ∧ t.Sayable
  | .named n t => n ≠ [] ∧ t.Sayable
  | .scope t g => t.Sayable ∧ sayableDefs g ∧ (g.map (·.1)).Nodup
  | .cut _ => False
def sayableList : List Term → Prop
  | [] => True
  | t :: ts => t.Sayable ∧ sayableList ts
def sayableDefs : List (Str × Term) → Prop
  | [] => True
  | (_, t) :: ds => t.Sayable ∧ sayableDefs ds
end

theorem numeral_exists (n : Nat) : ∃ x, Numeral x n := by
  induction n using Nat.strongRecOn with
  | ind n ih =>
    by_cases h : n ≤ 9
    · exact ⟨_, .one h⟩
    · obtain ⟨x, hx⟩ := ih (n / 10) (by omega)
      have := Numeral.more hx (d := n % 10) (by omega)
      rw [Nat.div_add_mod] at this
      exact ⟨_, this⟩

theorem foldl_append {ps : List (Str × Term)} : ∀ {g : Grammar}, ((g ++ ps).map (·.1)).Nodup →
    ps.foldl (fun g p => mapSet p.1 p.2 g) g = g ++ ps := by
  have new : ∀ {p : Str × Term} {g : Grammar}, p.1 ∉ g.map (·.1) → mapSet p.1 p.2 g = g ++ [p] := by
    intro p g
    induction g with
    | nil => intro _; rfl
    | cons q g ih =>
      intro h
      simp only [List.map_cons, List.mem_cons, not_or] at h
      rw [mapSet, if_neg (fun e => h.1 e.symm), ih h.2]
      rfl
  induction ps with
  | nil => intro g _; simp
  | cons p ps ih =>
    intro g h
    rw [List.foldl_cons, new, ih (by simpa using h)]
    · simp
    · intro hm
      rw [List.map_append, List.nodup_append] at h
      exact h.2.2 _ hm p.1 (by simp) rfl

/-- In parentheses. -/
def TermN.group (t : TermN) : NamedN := .mk none (.term t)

theorem means_atom {a : AtomN} {u : Term} (h : MeansAtom a u) : MeansTerm (.one (.mk none a) []) u := .quants (.plain h) .nil

theorem means_group {t : TermN} {u : Term} (h : MeansTerm t u) : MeansNamed t.group u := .plain (.parens h)

mutual
theorem Term.Sayable.source : (t : Term) → t.Sayable → ∃ s, MeansTerm s t
  | .rule _, _ => ⟨_, means_atom .ident⟩
  | .s _, _ => ⟨_, means_atom (.str .backquoted)⟩
  | .re _, ⟨_, h⟩ => ⟨_, means_atom (.re h)⟩
  | .ref _ none, _ => ⟨_, means_atom .ref⟩
  | .ref _ (some d), h => by
    rcases h with h | ⟨l, h⟩
    · simp at h
    · rw [h]; exact ⟨_, means_atom (.default .backquoted)⟩
  | .ext _, _ => ⟨_, means_atom .ext⟩
  | .seq ts, h => by
    obtain ⟨ss, hs, hl⟩ := sayableList_source ts h.2
    exact ⟨_, .seq (by rw [hl]; exact h.1) hs⟩
  | .oneof ts, h => by
    obtain ⟨ss, hs, _⟩ := sayableList_source ts h
    exact ⟨_, .choice (gs := []) hs⟩
  | .stack ts, h => by
    obtain ⟨ss, hs, _⟩ := sayableList_source ts h
    exact ⟨_, .layers (gs := []) hs⟩
  | .delim t sep a _ _, h => by
    obtain ⟨s1, h1⟩ := Term.Sayable.source t h.2.1
    obtain ⟨s2, h2⟩ := Term.Sayable.source sep h.2.2
    have : ∃ o, OpMeans o a := by
      rcases h.1 with e | e | e <;> rw [e]
      · exact ⟨_, .plain⟩
      · exact ⟨_, .left⟩
      · exact ⟨_, .right⟩
    obtain ⟨o, ho⟩ := this
    exact ⟨_, .quants (means_group h1) (.cons .nil (.sep ho (means_group h2)))⟩
  | .look t, h => by
    obtain ⟨s, hs⟩ := Term.Sayable.source t h
    exact ⟨_, means_atom (.look hs)⟩
  | .quant t lo hi, h => by
    obtain ⟨s, hs⟩ := Term.Sayable.source t h.2.2
    obtain ⟨x, hx⟩ := numeral_exists lo
    obtain ⟨y, hy⟩ := numeral_exists hi
    exact ⟨_, .quants (means_group hs) (.cons .nil (.range (.number hx h.1) (.number hy h.2.1)))⟩
  | .named n t, h => by
    obtain ⟨s, hs⟩ := Term.Sayable.source t h.2
    exact ⟨_, .quants (.named h.1 (.parens hs)) .nil⟩
  | .scope t g, h => by
    obtain ⟨s, hs⟩ := Term.Sayable.source t h.1
    obtain ⟨ss, h1⟩ := sayableDefs_source g h.2.1
    have := MeansGrammar.mk h1
    rw [lastWins, foldl_append (g := []) (by simpa using h.2.2)] at this
    exact ⟨_, .braces (.single hs) this⟩
  | .cut _, h => h.elim
theorem sayableList_source : (ts : List Term) → sayableList ts → ∃ ss, MeansTerms ss ts ∧ ss.length = ts.length
  | [], _ => ⟨_, .nil, rfl⟩
  | t :: ts, h => by
    obtain ⟨s, hs⟩ := Term.Sayable.source t h.1
    obtain ⟨ss, hss, hl⟩ := sayableList_source ts h.2
    exact ⟨_, .cons hs hss, by simp [hl]⟩
theorem sayableDefs_source : (ds : List (Str × Term)) → sayableDefs ds → ∃ ss, MeansStmts ss ds
  | [], _ => ⟨_, .nil⟩
  | (i, t) :: ds, h => by
    obtain ⟨s, hs⟩ := Term.Sayable.source t h.1
    obtain ⟨ss, hss⟩ := sayableDefs_source ds h.2
    exact ⟨_, .prod (i := i) (.single hs) hss⟩
end

/-- **C51** Every such grammar is denoted by some source, which is made into it. -/
theorem C51_expressible {G : Grammar} (h : sayableDefs G) (hd : (G.map (·.1)).Nodup) :
    ∃ g, MeansGrammar g G ∧ ∃ N, ∀ n, N ≤ n → newFromAst n g = .ok (insertCutPoints G) := by
  obtain ⟨ss, hs⟩ := sayableDefs_source G h
  have hm := MeansGrammar.mk hs
  rw [lastWins, foldl_append (g := []) (by simpa using hd)] at hm
  exact ⟨_, hm, C51_denotes hm⟩

/-! ## Examples -/

open Ex

/-- `a:","?` is a list of optional `a`s and not an optional list, which is `a?:","`. -/
example : MeansTerm (.one (.mk none (.ident (str "a"))) [.sep (str ":") false false (.mk none (.str (str "\",\""))), .op (str "?")])
      (.delim (.quant (.rule (str "a")) 0 1) (.s (str ",")) nonAssociative false false) ∧
    MeansTerm (.one (.mk none (.ident (str "a"))) [.op (str "?"), .sep (str ":") false false (.mk none (.str (str "\",\"")))])
      (.quant (.delim (.rule (str "a")) (.s (str ",")) nonAssociative false false) 0 1) := by
  have hc : LiteralMeans (str "\",\"") (str ",") := .quoted (q := 34) (body := [44]) (Or.inl rfl) (.plain (by decide) .nil)
  exact ⟨.quants (.plain .ident) (.cons (.cons .nil .opt) (.sep .plain (.plain (.str hc)))),
    .quants (.plain .ident) (.cons (.cons .nil (.sep .plain (.plain (.str hc)))) .opt)⟩

/-- `a -> "x"{2,} | b; // more
a -> x=/{ \d } b { b -> "y"; };` -/
def twoProds : GrammarN := .mk [
  .prod (str "a") [.many (str "|") [] [.one (.mk none (.str (str "\"x\""))) [.range (some (str "2")) none], rn "b"]],
  .comment (str "// more"),
  .prod (str "a") [.many [] [.mk [.prod (str "b") [.one (.mk none (.str (str "\"y\""))) []]]]
    [.one (.mk (some (str "x")) (.re (str "/{ \\d }"))) [], rn "b"]]]

theorem twoProds_readable : twoProds.Readable := by
  have hx : ∃ l, LiteralMeans (str "\"x\"") l := ⟨_, .quoted (q := 34) (body := [120]) (Or.inl rfl) (.plain (by decide) .nil)⟩
  have hy : ∃ l, LiteralMeans (str "\"y\"") l := ⟨_, .quoted (q := 34) (body := [121]) (Or.inl rfl) (.plain (by decide) .nil)⟩
  have hr : ∃ p, RegexpMeans (str "/{ \\d }") p := ⟨_, .braces (body := str " \\d ")⟩
  have h2 : ∃ a, BoundMeans (some (str "2")) a := ⟨_, .number (.one (d := 2) (by decide)) (by decide)⟩
  refine ⟨⟨⟨Or.inl rfl, trivial, ⟨⟨by simp, hx⟩, ⟨h2, ⟨0, .absent⟩⟩, trivial⟩, ⟨⟨by simp, trivial⟩, trivial⟩, trivial⟩, trivial⟩, trivial,
    ⟨⟨Or.inr (Or.inr ⟨rfl, by simp⟩), ⟨⟨⟨⟨⟨by simp, hy⟩, trivial⟩, trivial⟩, trivial⟩, trivial⟩,
      ⟨⟨by simp; decide, hr⟩, trivial⟩, ⟨⟨by simp, trivial⟩, trivial⟩, trivial⟩, trivial⟩, trivial⟩

example : ∃ G, MeansGrammar twoProds G := C51_total twoProds_readable

/-- Of the two productions the second counts. -/
example : MeansGrammar twoProds [(str "a", .scope (.seq [.named (str "x") (.re (str "\\d")), .rule (str "b")]) [(str "b", .s (str "y"))])] := by
  have hx : LiteralMeans (str "\"x\"") (str "x") := .quoted (q := 34) (body := [120]) (Or.inl rfl) (.plain (by decide) .nil)
  have hy : LiteralMeans (str "\"y\"") (str "y") := .quoted (q := 34) (body := [121]) (Or.inl rfl) (.plain (by decide) .nil)
  have hr : RegexpMeans (str "/{ \\d }") (str "\\d") := .braces (body := str " \\d ")
  have h2 : BoundMeans (some (str "2")) 2 := .number (.one (d := 2) (by decide)) (by decide)
  have hb : ∀ b, MeansTerm (rn b) (.rule (str b)) := fun b => .quants (.plain .ident) .nil
  have h1 := MeansStmts.prod (i := str "b") (.single (.quants (.plain (.str hy)) .nil)) .nil
  exact .mk (.prod (.single (.choice (.cons (.quants (.plain (.str hx)) (.cons .nil (.range h2 .absent))) (.cons (hb "b") .nil))))
    (.comment (.prod (.single (.braces (.seq (by decide) (.cons (.quants (.named (by decide) (.re hr)) .nil) (.cons (hb "b") .nil))) (.mk h1))) .nil)))

example : sayableDefs [(str "a", .delim (.rule (str "b")) (.s (str "`")) leftToRight true false), (str "b", .seq [])] :=
  ⟨⟨by simp, trivial, trivial⟩, ⟨by simp, trivial⟩, trivial⟩

end Wbnf

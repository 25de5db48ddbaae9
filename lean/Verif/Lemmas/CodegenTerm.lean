import Verif.Lemmas.Codegen

/-! What the text of a term denotes. -/

namespace Wbnf

/-- A name that is printed as it is, or as `@`. -/
def PrintName (r : Str) : Prop := (64 : UInt8) ∈ r ∨ PlainText r

mutual
/-- The term with all names that contain `@` replaced by `@`. -/
def Term.back : Term → Term
  | .rule r => if hasStackDelim r then .rule (str "@") else .rule r
  | .cut t => .cut t.back
  | .seq ts => .seq (backList ts)
  | .oneof ts => .oneof (backList ts)
  | .stack ts => .stack (backList ts)
  | .delim t sep a cs ce => .delim t.back sep.back a cs ce
  | .look t => .look t.back
  | .quant t lo hi => .quant t.back lo hi
  | .named n t => .named n t.back
  | .scope t g => .scope t.back (backDefs g)
  | .s l => .s l
  | .re p => .re p
  | .ref i d => .ref i d
  | .ext x => .ext x
def backList : List Term → List Term
  | [] => []
  | t :: ts => t.back :: backList ts
def backDefs : List (Str × Term) → List (Str × Term)
  | [] => []
  | (r, t) :: g => (r, t.back) :: backDefs g
end

mutual
theorem Term.GoWritable.mono {P Q : Str → Prop} (h : ∀ r, P r → Q r) : (t : Term) → t.GoWritable P → t.GoWritable Q
  | .rule r, ht => h r ht
  | .s _, ht => ht
  | .re _, ht => ht
  | .ext _, ht => ht
  | .ref _ _, ht => ht
  | .seq ts, ht => goWritableList_mono h ts ht
  | .oneof ts, ht => goWritableList_mono h ts ht
  | .stack ts, ht => goWritableList_mono h ts ht
  | .delim t sep _ _ _, ht => ⟨Term.GoWritable.mono h t ht.1, Term.GoWritable.mono h sep ht.2.1, ht.2.2⟩
  | .look t, ht => by simp only [Term.GoWritable] at ht ⊢; exact Term.GoWritable.mono h t ht
  | .quant t _ _, ht => ⟨Term.GoWritable.mono h t ht.1, ht.2⟩
  | .named _ t, ht => ⟨ht.1, Term.GoWritable.mono h t ht.2⟩
  | .cut t, ht => by simp only [Term.GoWritable] at ht ⊢; exact Term.GoWritable.mono h t ht
  | .scope t g, ht => ⟨Term.GoWritable.mono h t ht.1, goWritableDefs_mono h g ht.2.1, ht.2.2⟩
theorem goWritableList_mono {P Q : Str → Prop} (h : ∀ r, P r → Q r) : (ts : List Term) → goWritableList P ts → goWritableList Q ts
  | [], _ => trivial
  | t :: ts, ht => ⟨Term.GoWritable.mono h t ht.1, goWritableList_mono h ts ht.2⟩
theorem goWritableDefs_mono {P Q : Str → Prop} (h : ∀ r, P r → Q r) : (g : List (Str × Term)) → goWritableDefs P g → goWritableDefs Q g
  | [], _ => trivial
  | (_, t) :: g, ht => ⟨ht.1, Term.GoWritable.mono h t ht.2.1, goWritableDefs_mono h g ht.2.2⟩
end

theorem goWritableDefs_iff {P : Str → Prop} {g : List (Str × Term)} :
    goWritableDefs P g ↔ ∀ r t, (r, t) ∈ g → RuleName r ∧ t.GoWritable P := by
  induction g with
  | nil => simp [goWritableDefs]
  | cons e g ih =>
    obtain ⟨k, t⟩ := e
    simp only [goWritableDefs, ih, List.mem_cons, Prod.mk.injEq]
    constructor
    · rintro ⟨h1, h2, h3⟩ r u (⟨rfl, rfl⟩ | hm)
      · exact ⟨h1, h2⟩
      · exact h3 r u hm
    · intro h
      exact ⟨(h k t (Or.inl ⟨rfl, rfl⟩)).1, (h k t (Or.inl ⟨rfl, rfl⟩)).2, fun r u hm => h r u (Or.inr hm)⟩

theorem goWritableList_iff {P : Str → Prop} {ts : List Term} : goWritableList P ts ↔ ∀ t ∈ ts, t.GoWritable P := by
  induction ts with
  | nil => simp [goWritableList]
  | cons t ts ih => simp [goWritableList, ih]

theorem PlainText.literal {s : Str} (h : PlainText s) : LiteralText s := ⟨h.1, fun hm => (h.2 _ hm).2.2.2.2 rfl⟩

theorem PlainText.safe {s : Str} (h : PlainText s) : safeString s = s := safeString_none fun hm => (h.2 _ hm).1 rfl

/-! ## Grammars -/

theorem ReordDefs.of_perm {g g' : Grammar} (h : g.Perm g') : ReordDefs g g' := by
  induction h with
  | nil => exact .nil
  | cons x _ ih => exact .cons (.refl _) ih
  | swap x y l => exact .swap
  | trans _ _ ih1 ih2 => exact .trans ih1 ih2

/-- The definition of rule `k`, which has `n` layers. -/
def entryTerm (val : Str → Term) (k : Str) (n : Nat) : Term :=
  if 1 < n then .stack ((List.range n).map fun j => val (layer k j)) else val k

theorem goTerms_map {ts : List Term} : goTerms (ts.map fun t => (GoKey.none, GoVal.term t)) = some ts := by
  induction ts with
  | nil => rfl
  | cons t ts ih => simp [goTerms, ih]

theorem Pieces.map {α : Type} {xs : List α} {f : α → GoNode} {e : α → GoElem} (h : ∀ x ∈ xs, Piece (f x).string (e x)) :
    Pieces (xs.map f) (xs.map e) := by
  induction xs with
  | nil => exact .nil
  | cons x xs ih => exact .cons (h x (by simp)) (ih fun y hy => h y (by simp [hy]))

theorem Piece.seq {cs : List GoNode} {ts : List Term} (h : Pieces cs (ts.map fun t => (GoKey.none, GoVal.term t))) :
    Piece (GoNode.mk (str "parser.Seq") cs .squiggly).string (.none, .term (.seq ts)) := by
  refine Piece.composite (by decide) h ?_
  unfold goComposite
  rw [if_pos rfl, goTerms_map]
  rfl

theorem Piece.oneof {cs : List GoNode} {ts : List Term} (h : Pieces cs (ts.map fun t => (GoKey.none, GoVal.term t))) :
    Piece (GoNode.mk (str "parser.Oneof") cs .squiggly).string (.none, .term (.oneof ts)) := by
  refine Piece.composite (by decide) h ?_
  unfold goComposite
  rw [if_neg (by decide), if_pos rfl, goTerms_map]
  rfl

theorem Piece.stack {cs : List GoNode} {ts : List Term} (h : Pieces cs (ts.map fun t => (GoKey.none, GoVal.term t))) :
    Piece (GoNode.mk (str "parser.Stack") cs .squiggly).string (.none, .term (.stack ts)) := by
  refine Piece.composite (by decide) h ?_
  unfold goComposite
  rw [if_neg (by decide), if_neg (by decide), if_pos rfl, goTerms_map]
  rfl

theorem goEntries_map {h : Grammar} : goEntries (h.map fun e => (GoKey.str e.1, GoVal.term e.2)) = some h := by
  induction h with
  | nil => rfl
  | cons e h ih => simp [goEntries, ih]

theorem walkDefs_keys : (g : List (Str × Term)) → (walkDefs g).map Prod.fst = g.map Prod.fst
  | [] => rfl
  | (_, _) :: g => by simp [walkDefs, walkDefs_keys g]

theorem lookup_walkDefs (k : Str) : (g : List (Str × Term)) → lookup k (walkDefs g) = (lookup k g).map walkTerm
  | [] => rfl
  | (a, t) :: g => by
    simp only [walkDefs, lookup, lookup_walkDefs k g]
    split <;> rfl

/-- The rules of the grammar that is denoted. -/
def denoted (keys : List Str) (num : Str → Nat) (val : Str → Term) : Grammar :=
  ((sortStrings keys).filter fun k => !hasStackDelim k).map fun k => (k, entryTerm val k (num k))

theorem denoted_keys {keys : List Str} {num : Str → Nat} {val : Str → Term} (hd : keys.Nodup) :
    ((denoted keys num val).map Prod.fst).Nodup := by
  have e : (denoted keys num val).map Prod.fst = (sortStrings keys).filter fun k => !hasStackDelim k := by
    unfold denoted
    rw [List.map_map]
    exact List.map_id' _
  rw [e]
  exact ((sortStrings_perm keys).nodup_iff.2 hd).filter _

theorem grammar_piece {g : Grammar} {num : Str → Nat} {val : Str → Term} (hd : g.Distinct)
    (hl : Layering (g.map Prod.fst) num) (hn : ∀ k t, (k, t) ∈ g → (64 : UInt8) ∉ k → PlainText k)
    (hv : ∀ k t, (k, t) ∈ g → Piece (walkTerm t).string (.none, .term (val k))) :
    Pieces (grammarEntries (((g.map Prod.fst).filter hasStackDelim).map beforeStackDelim) (sortStrings (g.map Prod.fst)) (walkDefs g))
      ((denoted (g.map Prod.fst) num val).map fun e => (GoKey.str e.1, GoVal.term e.2)) ∧
    goComposite (str "parser.Grammar") ((denoted (g.map Prod.fst) num val).map fun e => (GoKey.str e.1, GoVal.term e.2)) =
      some (.grammar (denoted (g.map Prod.fst) num val)) := by
  have hp := sortStrings_perm (g.map Prod.fst)
  have hat : ∀ r ∈ g.map Prod.fst, ∃ t, (r, t) ∈ g ∧ lookup r (walkDefs g) = some (walkTerm t) := by
    intro r hr
    obtain ⟨⟨k, t⟩, h1, rfl⟩ := List.mem_map.1 hr
    refine ⟨t, h1, ?_⟩
    rw [lookup_walkDefs, (lookup_iff_mem hd).2 h1]
    rfl
  have hnone : ∀ r, r ∉ g.map Prod.fst → lookup r (walkDefs g) = none := by
    intro r hr
    cases e : lookup r (walkDefs g) with
    | none => rfl
    | some v =>
      rw [← walkDefs_keys g] at hr
      exact absurd (List.mem_map.2 ⟨_, lookup_mem' e, rfl⟩) hr
  have hnode : ∀ r ∈ g.map Prod.fst, Piece ((lookup r (walkDefs g)).getD (.mk [] [] .no)).string (.none, .term (val r)) := by
    intro r hr
    obtain ⟨t, h1, h2⟩ := hat r hr
    rw [h2]
    exact hv r t h1
  refine ⟨?_, ?_⟩
  · rw [grammarEntries_spec (node := fun k => (lookup k (walkDefs g)).getD (.mk [] [] .no)) hl
      (fun k hk => hp.mem_iff.1 hk) (sortStrings_sorted _) (hp.nodup_iff.2 hd)]
    · unfold denoted
      rw [List.map_map]
      refine Pieces.map fun k hk => ?_
      obtain ⟨hk1, hk2⟩ := List.mem_filter.1 hk
      have hk1 := hp.mem_iff.1 hk1
      have hka : (64 : UInt8) ∉ k := fun e => by simp [hasStackDelim_iff.2 e] at hk2
      obtain ⟨t, hm, _⟩ := hat k hk1
      have hpt := hn k t hm hka
      have e : ∀ n : GoNode, (GoNode.mk (str "\"" ++ k ++ str "\"") [n] .map).string =
          str "\"" ++ k ++ str "\"" ++ str ":" ++ n.string := by
        intro n
        simp [GoNode.string, GoScope.opening, GoScope.closing, joinNodes, joinMore]
      unfold entryNode
      rw [e]
      refine Piece.entry (fun hm => (hpt.2 _ hm).2.1 rfl) (fun hm => (hpt.2 _ hm).2.2.1 rfl) (fun hm => (hpt.2 _ hm).2.2.2.1 rfl)
        hpt.1 ?_
      unfold entryTerm
      by_cases hnk : 1 < num k
      · simp only [hnk, if_true]
        refine Piece.stack ?_
        rw [List.map_map]
        refine Pieces.map fun j hj => ?_
        exact hnode _ ((hl.layers k hk1 hka j).2 (List.mem_range.1 hj))
      · simp only [hnk, if_false]
        exact hnode k hk1
    · intro r hr hra j
      split
      · rename_i hj
        obtain ⟨t, _, h2⟩ := hat _ ((hl.layers r (hp.mem_iff.1 hr) hra j).2 hj)
        rw [h2]
        rfl
      · rename_i hj
        exact hnone _ fun h => hj ((hl.layers r (hp.mem_iff.1 hr) hra j).1 h)
    · intro k _ r hr _ _ hns
      exact absurd (hp.mem_iff.2 hr) hns
  · unfold goComposite
    rw [if_neg (by decide), if_neg (by decide), if_neg (by decide), if_neg (by decide), if_neg (by decide), if_neg (by decide),
      if_neg (by decide), if_neg (by decide), if_neg (by decide), if_pos rfl, goEntries_map]
    simp [denoted_keys hd]

/-! ## Terms -/

theorem Piece.prefixed {k : Str} {n : GoNode} {v : GoVal} (hk : Word k) (h : Piece n.string (.none, v)) :
    Piece (prefixName (k ++ str ": ") n).string (.field k, v) := by
  have e : (prefixName (k ++ str ": ") n).string = k ++ str ": " ++ n.string := by
    cases n
    simp [prefixName, GoNode.string]
  rw [e]
  exact h.field hk

theorem stringNode_string (s : Str) : (stringNode s).string = s := by
  simp [stringNode, GoNode.string, GoScope.opening, GoScope.closing, joinNodes]

theorem walk_delim {n1 n2 : GoNode} {t sep : Term} {a : Int} {cs ce : Bool} (h1 : Piece n1.string (.none, .term t))
    (h2 : Piece n2.string (.none, .term sep)) (ha : a = -1 ∨ a = 0 ∨ a = 1) :
    Piece (GoNode.mk (str "parser.Delim")
      ([prefixName (str "Term: ") n1, prefixName (str "Sep: ") n2] ++
        (if cs then [stringNode (str "CanStartWithSep: true")] else []) ++
        (if ce then [stringNode (str "CanEndWithSep: true")] else []) ++
        assocNodes a) .squiggly).string (.none, .term (.delim t sep a cs ce)) := by
  have k1 : Piece (prefixName (str "Term: ") n1).string (.field (str "Term"), .term t) := h1.prefixed (k := str "Term") (by decide)
  have k2 : Piece (prefixName (str "Sep: ") n2).string (.field (str "Sep"), .term sep) := h2.prefixed (k := str "Sep") (by decide)
  have k3 : Piece (stringNode (str "CanStartWithSep: true")).string (.field (str "CanStartWithSep"), .bool true) :=
    Piece.field (k := str "CanStartWithSep") (by decide) (Piece.const (w := str "true") (by decide) rfl)
  have k4 : Piece (stringNode (str "CanEndWithSep: true")).string (.field (str "CanEndWithSep"), .bool true) :=
    Piece.field (k := str "CanEndWithSep") (by decide) (Piece.const (w := str "true") (by decide) rfl)
  have k5 : Piece (stringNode (str "Assoc: parser.LeftToRight")).string (.field (str "Assoc"), .assoc 1) :=
    Piece.field (k := str "Assoc") (by decide) (Piece.const (w := str "parser.LeftToRight") (by decide) rfl)
  have k6 : Piece (stringNode (str "Assoc: parser.RightToLeft")).string (.field (str "Assoc"), .assoc (-1)) :=
    Piece.field (k := str "Assoc") (by decide) (Piece.const (w := str "parser.RightToLeft") (by decide) rfl)
  have hw : Word (str "parser.Delim") := by decide
  rcases ha with rfl | rfl | rfl <;> cases cs <;> cases ce
  · exact .composite hw (.cons k1 (.cons k2 (.cons k6 .nil))) rfl
  · exact .composite hw (.cons k1 (.cons k2 (.cons k4 (.cons k6 .nil)))) rfl
  · exact .composite hw (.cons k1 (.cons k2 (.cons k3 (.cons k6 .nil)))) rfl
  · exact .composite hw (.cons k1 (.cons k2 (.cons k3 (.cons k4 (.cons k6 .nil))))) rfl
  · exact .composite hw (.cons k1 (.cons k2 .nil)) rfl
  · exact .composite hw (.cons k1 (.cons k2 (.cons k4 .nil))) rfl
  · exact .composite hw (.cons k1 (.cons k2 (.cons k3 .nil))) rfl
  · exact .composite hw (.cons k1 (.cons k2 (.cons k3 (.cons k4 .nil)))) rfl
  · exact .composite hw (.cons k1 (.cons k2 (.cons k5 .nil))) rfl
  · exact .composite hw (.cons k1 (.cons k2 (.cons k4 (.cons k5 .nil)))) rfl
  · exact .composite hw (.cons k1 (.cons k2 (.cons k3 (.cons k5 .nil)))) rfl
  · exact .composite hw (.cons k1 (.cons k2 (.cons k3 (.cons k4 (.cons k5 .nil))))) rfl

theorem walk_text {pre w s : Str} {v : GoVal} (he : pre = w ++ str "(`") (hw : Word w) (h : LiteralText s)
    (hv : goCall w [(.none, .str s)] = some v) : Piece (stringNode (pre ++ safeString s ++ str "`)")).string (.none, v) := by
  rw [stringNode_string, he]
  have := Piece.convert hw h.1 h.2 hv
  have e : w ++ str "(" ++ (str "`" ++ safeString s ++ str "`") ++ str ")" = w ++ str "(`" ++ safeString s ++ str "`)" := by
    simp [str]
  rwa [e] at this

theorem walk_dflt {i : Str} (hi : PlainText i) : ∀ {d : Option Term}, WritableDflt d →
    Piece (GoNode.mk (str "parser.REF") (stringNode (str "Ident: `" ++ i ++ str "`") :: walkDflt d) .squiggly).string
      (.none, .term (.ref i d)) := by
  have k1 : Piece (stringNode (str "Ident: `" ++ i ++ str "`")).string (.field (str "Ident"), .str i) := by
    rw [stringNode_string]
    have := Piece.field (k := str "Ident") (by decide) (Piece.string hi.literal.1 hi.literal.2)
    rw [hi.safe] at this
    simpa [str] using this
  intro d hd
  match d, hd with
  | none, _ => exact .composite (by decide) (.cons k1 .nil) rfl
  | some (.s l), hd =>
    have k2 : Piece (walkTerm (.s l)).string (.none, .term (.s l)) := by
      simp only [walkTerm]
      exact walk_text (w := str "parser.S") rfl (by decide) hd rfl
    have k3 : Piece (prefixName (str "Default: ") (walkTerm (.s l))).string (.field (str "Default"), .term (.s l)) :=
      k2.prefixed (k := str "Default") (by decide)
    exact .composite (by decide) (.cons k1 (.cons k3 .nil)) rfl

theorem plain_layering {keys : List Str} (h : ∀ k ∈ keys, (64 : UInt8) ∉ k) : Layering keys (fun _ => 1) where
  layers r hr _ j := by
    constructor
    · intro hm
      rcases Nat.eq_zero_or_pos j with rfl | hj
      · omega
      · exact absurd (layer_at hj) (h _ hm)
    · intro hj
      rw [show j = 0 by omega, layer_zero]
      exact hr
  base k hk ha := absurd ha (h k hk)

theorem map_lookup {α : Type} {d : α} : ∀ {g : List (Str × α)}, (g.map Prod.fst).Nodup →
    (g.map Prod.fst).map (fun k => (k, (lookup k g).getD d)) = g := by
  intro g hd
  have : ∀ k v, (k, v) ∈ g → (lookup k g).getD d = v := by
    intro k v hm
    rw [(lookup_iff_mem hd).2 hm]
    rfl
  rw [List.map_map]
  have key : ∀ l : List (Str × α), (∀ k v, (k, v) ∈ l → (lookup k g).getD d = v) →
      l.map ((fun k => (k, (lookup k g).getD d)) ∘ Prod.fst) = l := by
    intro l
    induction l with
    | nil => intro _; rfl
    | cons e l ih =>
      intro h
      obtain ⟨k, v⟩ := e
      rw [List.map_cons, ih fun k v hm => h k v (by simp [hm])]
      simp [h k v (by simp)]
  exact key g this

mutual
theorem walk_piece : (t : Term) → t.GoWritable PrintName → ∃ t', Piece (walkTerm t).string (.none, .term t') ∧ Reord t.back t'
  | .rule r, h => by
    simp only [walkTerm, Term.back]
    split
    · exact ⟨_, Piece.const (w := str "parser.At") (by decide) rfl, .rule⟩
    · rename_i hr
      have hp : PlainText r := h.resolve_left fun e => hr (hasStackDelim_iff.2 e)
      refine ⟨.rule r, ?_, .rule⟩
      have := walk_text (w := str "parser.Rule") (pre := str "parser.Rule(`") (v := .term (.rule r)) rfl (by decide) hp.literal rfl
      rwa [hp.safe] at this
  | .s l, h => ⟨.s l, by simp only [walkTerm]; exact walk_text (w := str "parser.S") rfl (by decide) h rfl, .s⟩
  | .re l, h => ⟨.re l, by simp only [walkTerm]; exact walk_text (w := str "parser.RE") rfl (by decide) h rfl, .re⟩
  | .ext l, h => ⟨.ext l, by simp only [walkTerm]; exact walk_text (w := str "parser.ExtRef") rfl (by decide) h rfl, .ext⟩
  | .ref i d, h => ⟨.ref i d, by simp only [walkTerm]; exact walk_dflt h.1 h.2, .ref⟩
  | .seq ts, h => by
    obtain ⟨ts', h1, h2⟩ := walk_pieces ts h
    exact ⟨_, by simp only [walkTerm]; exact .seq h1, .seq h2⟩
  | .oneof ts, h => by
    obtain ⟨ts', h1, h2⟩ := walk_pieces ts h
    exact ⟨_, by simp only [walkTerm]; exact .oneof h1, .oneof h2⟩
  | .stack ts, h => by
    obtain ⟨ts', h1, h2⟩ := walk_pieces ts h
    exact ⟨_, by simp only [walkTerm]; exact .stack h1, .stack h2⟩
  | .delim t sep a cs ce, h => by
    obtain ⟨t', h1, h2⟩ := walk_piece t h.1
    obtain ⟨s', h3, h4⟩ := walk_piece sep h.2.1
    exact ⟨_, by simp only [walkTerm]; exact walk_delim h1 h3 h.2.2, .delim h2 h4⟩
  | .look t, h => by
    obtain ⟨t', h1, h2⟩ := walk_piece t (by simpa [Term.GoWritable] using h)
    exact ⟨_, by simp only [walkTerm]; exact .composite (by decide) (.cons h1 .nil) rfl, .look h2⟩
  | .cut t, h => by
    obtain ⟨t', h1, h2⟩ := walk_piece t (by simpa [Term.GoWritable] using h)
    exact ⟨_, by simp only [walkTerm]; exact .composite (by decide) (.cons h1 .nil) rfl, .cut h2⟩
  | .quant t lo hi, h => by
    obtain ⟨t', h1, h2⟩ := walk_piece t h.1
    refine ⟨.quant t' lo hi, ?_, .quant h2⟩
    simp only [walkTerm]
    rcases h.2 with ⟨e1, e2⟩ | ⟨e1, e2⟩ | ⟨e1, e2⟩
    · rw [e1, e2]; exact .call (by decide) (.cons h1 .nil) rfl
    · rw [e1, e2]; exact .call (by decide) (.cons h1 .nil) rfl
    · rw [e1, e2]; exact .call (by decide) (.cons h1 .nil) rfl
  | .named n t, h => by
    obtain ⟨t', h1, h2⟩ := walk_piece t h.2
    refine ⟨.named n t', ?_, .named h2⟩
    simp only [walkTerm]
    have k1 : Piece (stringNode (str "`" ++ n ++ str "`")).string (.none, .str n) := by
      rw [stringNode_string]
      have := Piece.string h.1.literal.1 h.1.literal.2
      rwa [h.1.safe] at this
    exact .call (by decide) (.cons k1 (.cons h1 .nil)) rfl
  | .scope t g, h => by
    obtain ⟨t', h1, h2⟩ := walk_piece t h.1
    obtain ⟨g', h3, h4, h5⟩ := walk_defs g h.2.1
    have hno : ∀ k ∈ g.map Prod.fst, (64 : UInt8) ∉ k := by
      intro k hk
      obtain ⟨⟨r, u⟩, hm, e⟩ := List.mem_map.1 hk
      rw [← e]
      exact (goWritableDefs_iff.1 h.2.1 r u hm).1.2
    have hd' : (g'.map Prod.fst).Nodup := by rw [h3]; exact h.2.2
    have hg := grammar_piece (val := fun k => (lookup k g').getD (.seq [])) h.2.2 (plain_layering hno)
      (fun k u hm _ => (goWritableDefs_iff.1 h.2.1 k u hm).1.1) (fun k u hm => by
        obtain ⟨u', i1, i2⟩ := h4 k u hm
        rw [(lookup_iff_mem hd').2 i1]
        exact i2)
    have hden : (denoted (g.map Prod.fst) (fun _ => 1) (fun k => (lookup k g').getD (.seq []))).Perm g' := by
      unfold denoted
      have e : (sortStrings (g.map Prod.fst)).filter (fun k => !hasStackDelim k) = sortStrings (g.map Prod.fst) := by
        rw [List.filter_eq_self]
        intro k hk
        have := hno k ((sortStrings_perm _).mem_iff.1 hk)
        cases e : hasStackDelim k with
        | true => exact absurd (hasStackDelim_iff.1 e) this
        | false => rfl
      rw [e]
      refine ((sortStrings_perm _).map _).trans ?_
      rw [← h3]
      have := map_lookup (d := Term.seq []) hd'
      simp only [entryTerm, Nat.lt_irrefl, if_false]
      rw [this]
    refine ⟨.scope t' _, ?_, .scope h2 (.trans h5 (.of_perm hden.symm))⟩
    simp only [walkTerm, grammarNode, walkDefs_keys]
    have k1 : Piece (prefixName (str "Term: ") (walkTerm t)).string (.field (str "Term"), .term t') :=
      h1.prefixed (k := str "Term") (by decide)
    have k2 := Piece.composite (w := str "parser.Grammar") (by decide) hg.1 hg.2
    have k3 := k2.prefixed (k := str "Grammar") (by decide)
    exact .composite (by decide) (.cons k1 (.cons k3 .nil)) rfl
theorem walk_pieces : (ts : List Term) → goWritableList PrintName ts →
    ∃ ts' : List Term, Pieces (walkTerms ts) (ts'.map fun t => (GoKey.none, GoVal.term t)) ∧ ReordList (backList ts) ts'
  | [], _ => ⟨[], .nil, .nil⟩
  | t :: ts, h => by
    obtain ⟨t', h1, h2⟩ := walk_piece t h.1
    obtain ⟨ts', h3, h4⟩ := walk_pieces ts h.2
    exact ⟨t' :: ts', .cons h1 h3, .cons h2 h4⟩
theorem walk_defs : (g : List (Str × Term)) → goWritableDefs PrintName g →
    ∃ g' : Grammar, g'.map Prod.fst = g.map Prod.fst ∧
      (∀ k t, (k, t) ∈ g → ∃ t', (k, t') ∈ g' ∧ Piece (walkTerm t).string (.none, .term t')) ∧ ReordDefs (backDefs g) g'
  | [], _ => ⟨[], rfl, by simp, .nil⟩
  | (r, t) :: g, h => by
    obtain ⟨t', h1, h2⟩ := walk_piece t h.2.1
    obtain ⟨g', h3, h4, h5⟩ := walk_defs g h.2.2
    refine ⟨(r, t') :: g', by simp [h3], ?_, .cons h2 h5⟩
    intro k u hm
    rcases List.mem_cons.1 hm with e | hm
    · cases e
      exact ⟨t', by simp, h1⟩
    · obtain ⟨u', i1, i2⟩ := h4 k u hm
      exact ⟨u', by simp [i1], i2⟩
end

end Wbnf

import Verif.Spec.Spells
import Verif.Spec.Written
import Verif.Lemmas.DecEq

/-!
# Words of nodes, by computation

For nodes without macros, imports and references.
-/

namespace Wbnf

/-! ## Words of nodes that tell them -/

mutual
def TermN.spell (k : Nat) : TermN → Option (List Str)
  | .one n qs => if k = 3 then n.spell.bind fun a => (spellQuants qs).map fun b => a ++ b else none
  | .many op gs ts =>
    (spellGrammars gs).bind fun gw => (spellEach (k + 1) ts).bind fun tw =>
      match k, gw, tw with
      | 0, [], w :: ws => if op = (if ws.isEmpty then [] else str ">") then some (w ++ ws.flatMap (str ">" :: ·)) else none
      | 0, [g], [w] => if op = [] then some (w ++ str "{" :: g ++ [str "}"]) else none
      | 1, [], w :: ws => if op = (if ws.isEmpty then [] else str "|") then some (w ++ ws.flatMap (str "|" :: ·)) else none
      | 2, [], w :: ws => if op = [] then some ((w :: ws).flatten) else none
      | _, _, _ => none
def NamedN.spell : NamedN → Option (List Str)
  | .mk none a => a.spell
  | .mk (some i) a => a.spell.map fun w => i :: str "=" :: w
def AtomN.spell : AtomN → Option (List Str)
  | .ident i => some [i]
  | .str x => some [x]
  | .re x => some [x]
  | .term t => (t.spell 0).map fun w => Wbnf.str "(" :: (w ++ [Wbnf.str ")"])
  | _ => none
def QuantN.spell : QuantN → Option (List Str)
  | .op o => some [o]
  | .sep o lead trail n =>
    n.spell.map fun w => o :: ((if lead then [str ","] else []) ++ w ++ (if trail then [str ","] else []))
  | _ => none
def StmtN.spell : StmtN → Option (List Str)
  | .comment x => some [x]
  | .prod i ts => if ts.isEmpty then none else (spellEach 0 ts).map fun w => i :: str "->" :: (w.flatten ++ [str ";"])
  | _ => none
def GrammarN.spell : GrammarN → Option (List Str)
  | .mk ss => if ss.isEmpty then none else spellStmts ss
def spellEach (k : Nat) : List TermN → Option (List (List Str))
  | [] => some []
  | t :: ts => (t.spell k).bind fun a => (spellEach k ts).map fun b => a :: b
def spellQuants : List QuantN → Option (List Str)
  | [] => some []
  | q :: qs => q.spell.bind fun a => (spellQuants qs).map fun b => a ++ b
def spellStmts : List StmtN → Option (List Str)
  | [] => some []
  | s :: ss => s.spell.bind fun a => (spellStmts ss).map fun b => a ++ b
def spellGrammars : List GrammarN → Option (List (List Str))
  | [] => some []
  | g :: gs => g.spell.bind fun a => (spellGrammars gs).map fun b => a :: b
end

/-- `Each P l l'`: the lists are related one by one. -/
inductive Each {α β : Type} (P : α → β → Prop) : List α → List β → Prop
  | nil : Each P [] []
  | cons {a b l l'} : P a b → Each P l l' → Each P (a :: l) (b :: l')

theorem Each.terms {k : Nat} {ts ws} (h : Each (SpellsTerm k) ts ws) : SpellsTerms k ts ws.flatten := by
  induction h with
  | nil => exact .nil
  | cons h _ ih => exact .cons h ih

theorem Each.layers {ts ws} (h : Each (SpellsTerm 1) ts ws) : SpellsLayers ts [] (ws.flatMap (str ">" :: ·)) := by
  induction h with
  | nil => exact .nil
  | cons h _ ih => exact .cons (gs := []) (.plain h) ih

theorem Each.alts {ts ws} (h : Each (SpellsTerm 2) ts ws) : SpellsAlts ts (ws.flatMap (str "|" :: ·)) := by
  induction h with
  | nil => exact .nil
  | cons h _ ih => exact .cons h ih

theorem Each.isEmpty {α β : Type} {P : α → β → Prop} {l l'} (h : Each P l l') : l'.isEmpty = l.isEmpty := by
  cases h <;> rfl

mutual
theorem TermN.spell_ok (k : Nat) : (t : TermN) → ∀ {ws}, t.spell k = some ws → SpellsTerm k t ws
  | .one n qs, ws, h => by
    simp only [TermN.spell] at h
    split at h
    · rename_i e
      subst e
      simp only [Option.bind_eq_some_iff, Option.map_eq_some_iff] at h
      obtain ⟨a, ha, b, hb, rfl⟩ := h
      exact .one (NamedN.spell_ok n ha) (spellQuants_ok qs hb)
    · simp at h
  | .many op gs ts, ws, h => by
    simp only [TermN.spell, Option.bind_eq_some_iff] at h
    obtain ⟨gw, hg, tw, ht, h⟩ := h
    have hG := spellGrammars_ok gs hg
    have hT := spellEach_ok (k + 1) ts ht
    split at h
    · rw [Option.ite_none_right_eq_some] at h
      obtain ⟨e, h⟩ := h
      cases h; cases hG
      cases hT with
      | cons h1 h2 =>
        rw [e, h2.isEmpty]
        exact .layers (gs := []) (.plain h1) h2.layers
    · split at h
      · rename_i e
        cases h
        cases hG with | cons g1 g2 =>
        cases g2
        cases hT with | cons h1 h2 =>
        cases h2
        rw [e]
        have := SpellsTerm.layers (SpellsLayer.braces h1 g1) .nil
        simpa using this
      · simp at h
    · rw [Option.ite_none_right_eq_some] at h
      obtain ⟨e, h⟩ := h
      cases h; cases hG
      cases hT with
      | cons h1 h2 =>
        rw [e, h2.isEmpty]
        exact .alternatives h1 h2.alts
    · split at h
      · rename_i e
        cases h; cases hG
        rw [e]
        refine .sequence ?_ hT.terms
        cases hT; simp
      · simp at h
    · simp at h
theorem NamedN.spell_ok : (n : NamedN) → ∀ {ws}, n.spell = some ws → SpellsNamed n ws
  | .mk none a, ws, h => .plain (AtomN.spell_ok a (by simpa [NamedN.spell] using h))
  | .mk (some i) a, ws, h => by
    simp only [NamedN.spell, Option.map_eq_some_iff] at h
    obtain ⟨w, hw, rfl⟩ := h
    exact .named (AtomN.spell_ok a hw)
theorem AtomN.spell_ok : (a : AtomN) → ∀ {ws}, a.spell = some ws → SpellsAtom a ws
  | .ident i, ws, h => by simp only [AtomN.spell] at h; cases h; exact .ident
  | .str i, ws, h => by simp only [AtomN.spell] at h; cases h; exact .str
  | .re i, ws, h => by simp only [AtomN.spell] at h; cases h; exact .re
  | .term t, ws, h => by
    simp only [AtomN.spell, Option.map_eq_some_iff] at h
    obtain ⟨w, hw, rfl⟩ := h
    exact .term (TermN.spell_ok 0 t hw)
  | .macrocall _ _, ws, h => by simp [AtomN.spell] at h
  | .ext _, ws, h => by simp [AtomN.spell] at h
  | .ref _ _, ws, h => by simp [AtomN.spell] at h
  | .look _, ws, h => by simp [AtomN.spell] at h
  | .unit, ws, h => by simp [AtomN.spell] at h
theorem QuantN.spell_ok : (q : QuantN) → ∀ {ws}, q.spell = some ws → SpellsQuant q ws
  | .op o, ws, h => by simp only [QuantN.spell] at h; cases h; exact .op
  | .range _ _, ws, h => by simp [QuantN.spell] at h
  | .sep o lead trail n, ws, h => by
    simp only [QuantN.spell, Option.map_eq_some_iff] at h
    obtain ⟨w, hw, rfl⟩ := h
    exact .sep (NamedN.spell_ok n hw)
theorem StmtN.spell_ok : (s : StmtN) → ∀ {ws}, s.spell = some ws → SpellsStmt s ws
  | .comment x, ws, h => by simp only [StmtN.spell] at h; cases h; exact .comment
  | .prod i ts, ws, h => by
    simp only [StmtN.spell] at h
    split at h
    · simp at h
    · rename_i hne
      simp only [Option.map_eq_some_iff] at h
      obtain ⟨w, hw, rfl⟩ := h
      exact .prod (by simpa using hne) (spellEach_ok 0 ts hw).terms
  | .imp _, ws, h => by simp [StmtN.spell] at h
  | .macrodef _ _ _, ws, h => by simp [StmtN.spell] at h
theorem GrammarN.spell_ok : (g : GrammarN) → ∀ {ws}, g.spell = some ws → SpellsGrammar g ws
  | .mk ss, ws, h => by
    simp only [GrammarN.spell] at h
    split at h
    · simp at h
    · rename_i hne
      exact .mk (by simpa using hne) (spellStmts_ok ss h)
theorem spellEach_ok (k : Nat) : (ts : List TermN) → ∀ {ws}, spellEach k ts = some ws → Each (SpellsTerm k) ts ws
  | [], ws, h => by simp only [spellEach] at h; cases h; exact .nil
  | t :: ts, ws, h => by
    simp only [spellEach, Option.bind_eq_some_iff, Option.map_eq_some_iff] at h
    obtain ⟨a, ha, b, hb, rfl⟩ := h
    exact .cons (TermN.spell_ok k t ha) (spellEach_ok k ts hb)
theorem spellQuants_ok : (qs : List QuantN) → ∀ {ws}, spellQuants qs = some ws → SpellsQuants qs ws
  | [], ws, h => by simp only [spellQuants] at h; cases h; exact .nil
  | t :: ts, ws, h => by
    simp only [spellQuants, Option.bind_eq_some_iff, Option.map_eq_some_iff] at h
    obtain ⟨a, ha, b, hb, rfl⟩ := h
    exact .cons (QuantN.spell_ok t ha) (spellQuants_ok ts hb)
theorem spellStmts_ok : (ss : List StmtN) → ∀ {ws}, spellStmts ss = some ws → SpellsStmts ss ws
  | [], ws, h => by simp only [spellStmts] at h; cases h; exact .nil
  | t :: ts, ws, h => by
    simp only [spellStmts, Option.bind_eq_some_iff, Option.map_eq_some_iff] at h
    obtain ⟨a, ha, b, hb, rfl⟩ := h
    exact .cons (StmtN.spell_ok t ha) (spellStmts_ok ts hb)
theorem spellGrammars_ok : (gs : List GrammarN) → ∀ {ws}, spellGrammars gs = some ws → Each SpellsGrammar gs ws
  | [], ws, h => by simp only [spellGrammars] at h; cases h; exact .nil
  | t :: ts, ws, h => by
    simp only [spellGrammars, Option.bind_eq_some_iff, Option.map_eq_some_iff] at h
    obtain ⟨a, ha, b, hb, rfl⟩ := h
    exact .cons (GrammarN.spell_ok t ha) (spellGrammars_ok ts hb)
end

/-! ## Tokens -/

def nameB (x : Str) : Bool :=
  x.all (fun c => (48 ≤ c && c ≤ 57) || (65 ≤ c && c ≤ 90) || c == 95 || (97 ≤ c && c ≤ 122)) &&
    match x with
    | [] => false
    | c :: _ => !(48 ≤ c && c ≤ 57)

theorem nameB_ok {x : Str} (h : nameB x = true) : NameText x := by
  simp only [nameB, Bool.and_eq_true] at h
  refine ⟨fun c hc => ?_, ?_⟩
  · simpa [or_assoc] using List.all_eq_true.1 h.1 c hc
  · obtain ⟨_, h⟩ := h
    cases x with
    | nil => simp at h
    | cons c w => 
      refine ⟨c, w, rfl, fun e => ?_⟩
      simp only [e.1, e.2] at h
      exact absurd h (by decide)

def identB (x : Str) : Bool :=
  x == str "@" || nameB x || match x with
    | 46 :: x => nameB x
    | _ => false

theorem identB_ok {x : Str} (h : identB x = true) : Lexeme Core.ident x := by
  refine ⟨?_, .inl (by decide +kernel), fun h => absurd h (by decide +kernel), fun h => absurd h (by decide +kernel)⟩
  simp only [identB, Bool.or_eq_true, beq_iff_eq] at h
  rcases h with (rfl | h) | h
  · exact .anonymous
  · exact .name (nameB_ok h)
  · split at h
    · exact .dotted (nameB_ok h)
    · simp at h

/-- In quotes `"`, without backslashes. -/
def strB : Str → Bool
  | 34 :: x => match x.reverse with
    | 34 :: y => y.all fun c => c != 92 && c != 34
    | _ => false
  | _ => false

theorem quotedBody_plain {x : Str} (h : ∀ c ∈ x, c ≠ 92 ∧ c ≠ 34) : QuotedBody 34 x := by
  induction x with
  | nil => exact .nil
  | cons c x ih => exact .plain (h c (by simp)).1 (h c (by simp)).2 (ih fun c hc => h c (by simp [hc]))

theorem strB_ok {x : Str} (h : strB x = true) : Lexeme Core.strLit x := by
  refine ⟨?_, .inl (by decide +kernel), fun h => absurd h (by decide +kernel), fun h => absurd h (by decide +kernel)⟩
  unfold strB at h
  split at h
  · rename_i x
    split at h
    · rename_i y e
      have e : x = y.reverse ++ [34] := by rw [← List.reverse_reverse (as := x), e]; simp
      subst e
      refine Token.quoted (q := 34) (.inl rfl) (quotedBody_plain fun c hc => ?_)
      have := List.all_eq_true.1 h c (by simpa using hc)
      simpa using this
    · simp at h
  · simp at h

/-- The class up to its bracket, and what is after it. -/
def classB : Str → Option (Str × Str)
  | 93 :: x => some ([], x)
  | 92 :: c :: x => if c = 10 then none else (classB x).map fun p => (92 :: c :: p.1, p.2)
  | c :: x => if c = 91 ∨ c = 92 then none else (classB x).map fun p => (c :: p.1, p.2)
  | [] => none

theorem classB_ok : (x : Str) → ∀ {y r}, classB x = some (y, r) → ClassBody y ∧ x = y ++ 93 :: r := by
  intro x
  induction x using classB.induct with
  | case1 x => intro y r h; simp only [classB] at h; cases h; exact ⟨.nil, rfl⟩
  | case2 x => intro y r h; simp [classB] at h
  | case3 c x hc ih =>
    intro y r h
    simp only [classB, hc, ↓reduceIte, Option.map_eq_some_iff] at h
    obtain ⟨⟨y', r'⟩, h, e⟩ := h
    cases e
    obtain ⟨h1, rfl⟩ := ih h
    exact ⟨.escape hc h1, rfl⟩
  | case4 c x h93 h92 hc => intro y r h; rw [classB] at h <;> simp_all
  | case5 c x h93 h92 hc ih =>
    intro y r h
    rw [classB.eq_3 _ _ h93 h92, if_neg hc, Option.map_eq_some_iff] at h
    obtain ⟨⟨y', r'⟩, h, e⟩ := h
    cases e
    obtain ⟨h1, rfl⟩ := ih h
    have h9 : c ≠ 93 := fun e => h93 e
    exact ⟨.plain (fun e => hc (.inl e)) (fun e => hc (.inr e)) h9 h1, rfl⟩
  | case6 => intro y r h; simp [classB] at h

/-- What is between the braces; with fuel. -/
def patternB : Nat → Str → Bool
  | _, [] => true
  | 0, _ => false
  | n + 1, c :: x =>
    if c = 92 then
      match x with
      | [] => false
      | d :: x => d != 10 && patternB n x
    else if c = 91 then
      match classB x with
      | none => false
      | some (y, r) => !y.isEmpty && patternB n r
    else if c = 123 then
      (match x with
        | [] => true
        | d :: _ => !(48 ≤ d && d ≤ 57) && d != 44) && patternB n x
    else c != 125 && patternB n x

theorem patternB_ok : ∀ n x, patternB n x = true → PatternBody x := by
  intro n
  induction n with
  | zero => intro x h; cases x with
    | nil => exact .nil
    | cons c x => simp [patternB] at h
  | succ n ih =>
    intro x h
    cases x with
    | nil => exact .nil
    | cons c x =>
      simp only [patternB] at h
      split at h
      · rename_i e
        subst e
        cases x with
        | nil => simp at h
        | cons d x =>
          simp only [Bool.and_eq_true, bne_iff_ne] at h
          exact .escape h.1 (ih _ h.2)
      · rename_i h92
        split at h
        · rename_i e
          subst e
          split at h
          · simp at h
          · rename_i y r hc
            simp only [Bool.and_eq_true] at h
            obtain ⟨h1, rfl⟩ := classB_ok x hc
            exact .cls (by simpa using h.1) h1 (ih _ h.2)
        · rename_i h91
          split at h
          · rename_i e
            subst e
            simp only [Bool.and_eq_true] at h
            refine .brace (fun d hd => ?_) (ih _ h.2)
            obtain ⟨h, _⟩ := h
            cases x with
            | nil => simp at hd
            | cons d' x =>
              cases hd
              simp only [Bool.and_eq_true, bne_iff_ne] at h
              refine ⟨fun e => ?_, h.2⟩
              simp only [e.1, e.2] at h
              exact absurd h.1 (by decide)
          · rename_i h123
            simp only [Bool.and_eq_true, bne_iff_ne] at h
            exact .plain h91 h92 h123 h.1 (ih _ h.2)

/-- `[…]`, `[…]+` or `\d+`, or in braces. -/
def regexpB (w : Str) : Bool :=
  w == str "\\d+" || match w with
    | 91 :: x => (match classB x with
      | none => false
      | some (y, r) => !y.isEmpty && (r == [] || r == str "+"))
    | 47 :: 123 :: x => match x.reverse with
      | 125 :: y => patternB y.length y.reverse
      | _ => false
    | _ => false

theorem regexpB_ok {w : Str} (h : regexpB w = true) : Lexeme Core.regexpLit w := by
  have key : Token Core.regexpLit w ∧ PatternText w := by
    simp only [regexpB, Bool.or_eq_true, beq_iff_eq] at h
    rcases h with rfl | h
    · refine ⟨.escaped (by decide), .inr ⟨?_, by decide⟩⟩
      exact BarePattern.one (u := [92, 100]) (q := [43]) (.letter (by decide) (by decide) (by decide)) (.greedy (by decide))
    · split at h
      · rename_i x
        split at h
        · simp at h
        · rename_i y r hc
          obtain ⟨h1, rfl⟩ := classB_ok x hc
          simp only [Bool.and_eq_true, Bool.or_eq_true, beq_iff_eq] at h
          refine ⟨.bare (.inl rfl), .inr ⟨?_, by simp⟩⟩
          have hu : PatternUnit (91 :: (y ++ [93])) := .cls (by simpa using h.1) h1
          rcases h.2 with rfl | rfl
          · simpa using BarePattern.one hu .once
          · have := BarePattern.one hu (.greedy (c := 43) (by decide))
            have e : str "+" = [43] := rfl
            rw [e]
            simpa using this
      · rename_i x
        split at h
        · rename_i y e
          have e : x = y.reverse ++ [125] := by rw [← List.reverse_reverse (as := x), e]; simp
          subst e
          exact ⟨.braced (body := y.reverse), .inl ⟨_, patternB_ok _ _ h, rfl⟩⟩
        · simp at h
      · simp at h
  exact ⟨key.1, .inl (by decide +kernel), fun _ => key.2, fun h => absurd h (by decide +kernel)⟩

def commentB (w : Str) : Bool :=
  match w with
  | 47 :: 47 :: x => !x.contains 10
  | [47, 42, c, 42, 47] => c < 128 && c != 42
  | _ => false

theorem commentB_ok {w : Str} (h : commentB w = true) : Lexeme Core.comment w := by
  unfold commentB at h
  split at h
  · rename_i x
    exact ⟨Token.line (x := x) (by simpa using h), .inl (by decide +kernel), fun h => absurd h (by decide +kernel), fun _ => .inl ⟨x, rfl⟩⟩
  · rename_i c
    simp only [Bool.and_eq_true, decide_eq_true_eq, bne_iff_ne, ne_eq] at h
    exact ⟨Token.block (k := 0) (x := [c]) (by simp) (by simp) (by simpa using Ne.symm h.2), .inl (by decide +kernel),
      fun h => absurd h (by decide +kernel), fun _ => .inr ⟨0, c, h.1, h.2, fun h => absurd h (by decide), rfl⟩⟩
  · simp at h

def opB (w : Str) : Bool := w == str "*" || w == str "?" || w == str "+"

theorem opB_ok {w : Str} (h : opB w = true) : Lexeme (Core.re "[?*+]") w := by
  refine ⟨?_, .inl (by decide +kernel), fun h => absurd h (by decide +kernel), fun h => absurd h (by decide +kernel)⟩
  simp only [opB, Bool.or_eq_true, beq_iff_eq] at h
  rcases h with (rfl | rfl) | rfl
  · exact .any
  · exact .opt
  · exact .some

theorem colon_ok : Lexeme (Core.re "<:|:>?") (str ":") :=
  ⟨.plain, .inl (by decide +kernel), fun h => absurd h (by decide +kernel), fun h => absurd h (by decide +kernel)⟩

/-! ## Ordinary nodes -/

mutual
def TermN.plainB : TermN → Bool
  | .many _ gs ts => plainGrammars gs && plainTerms ts
  | .one n qs => n.plainB && plainQuants qs
def NamedN.plainB : NamedN → Bool
  | .mk none a => a.plainB
  | .mk (some i) a => identB i && a.plainB
def AtomN.plainB : AtomN → Bool
  | .ident i => identB i
  | .str x => strB x
  | .re x => regexpB x
  | .term t => t.plainB
  | _ => false
def QuantN.plainB : QuantN → Bool
  | .op o => opB o
  | .sep o _ _ n => o == str ":" && n.plainB
  | _ => false
def StmtN.plainB : StmtN → Bool
  | .prod i ts => identB i && ts.dropLast.isEmpty && plainTerms ts
  | .comment x => commentB x
  | _ => false
def GrammarN.plainB : GrammarN → Bool
  | .mk ss => plainStmts ss
def plainTerms : List TermN → Bool
  | [] => true
  | t :: ts => t.plainB && plainTerms ts
def plainQuants : List QuantN → Bool
  | [] => true
  | q :: qs => q.plainB && plainQuants qs
def plainStmts : List StmtN → Bool
  | [] => true
  | s :: ss => s.plainB && plainStmts ss
def plainGrammars : List GrammarN → Bool
  | [] => true
  | g :: gs => g.plainB && plainGrammars gs
end

mutual
theorem TermN.plainB_ok : (t : TermN) → t.plainB = true → t.Ordinary false
  | .many _ gs ts, h => by
    simp only [TermN.plainB, Bool.and_eq_true] at h
    exact ⟨plainGrammars_ok gs h.1, plainTerms_ok ts h.2⟩
  | .one n qs, h => by
    simp only [TermN.plainB, Bool.and_eq_true] at h
    exact ⟨NamedN.plainB_ok n h.1, plainQuants_ok qs h.2⟩
theorem NamedN.plainB_ok : (n : NamedN) → n.plainB = true → n.Ordinary false
  | .mk none a, h => ⟨by simp, AtomN.plainB_ok a (by simpa [NamedN.plainB] using h)⟩
  | .mk (some i) a, h => by
    simp only [NamedN.plainB, Bool.and_eq_true] at h
    exact ⟨fun x hx => by cases hx; exact identB_ok h.1, AtomN.plainB_ok a h.2⟩
theorem AtomN.plainB_ok : (a : AtomN) → a.plainB = true → a.Ordinary false
  | .ident i, h => identB_ok (by simpa [AtomN.plainB] using h)
  | .str i, h => strB_ok (by simpa [AtomN.plainB] using h)
  | .re i, h => regexpB_ok (by simpa [AtomN.plainB] using h)
  | .term t, h => TermN.plainB_ok t (by simpa [AtomN.plainB] using h)
  | .macrocall _ _, h => by simp [AtomN.plainB] at h
  | .ext _, h => by simp [AtomN.plainB] at h
  | .ref _ _, h => by simp [AtomN.plainB] at h
  | .look _, h => by simp [AtomN.plainB] at h
  | .unit, h => by simp [AtomN.plainB] at h
theorem QuantN.plainB_ok : (q : QuantN) → q.plainB = true → q.Ordinary false
  | .op o, h => opB_ok (by simpa [QuantN.plainB] using h)
  | .range _ _, h => by simp [QuantN.plainB] at h
  | .sep o lead trail n, h => by
    simp only [QuantN.plainB, Bool.and_eq_true, beq_iff_eq] at h
    obtain ⟨rfl, h⟩ := h
    exact ⟨colon_ok, NamedN.plainB_ok n h⟩
theorem StmtN.plainB_ok : (s : StmtN) → s.plainB = true → s.Ordinary false
  | .comment x, h => commentB_ok (by simpa [StmtN.plainB] using h)
  | .prod i ts, h => by
    simp only [StmtN.plainB, Bool.and_eq_true] at h
    refine ⟨identB_ok h.1.1, fun t ht => ?_, plainTerms_ok ts h.2⟩
    rw [List.isEmpty_iff.1 h.1.2] at ht
    simp at ht
  | .imp _, h => by simp [StmtN.plainB] at h
  | .macrodef _ _ _, h => by simp [StmtN.plainB] at h
theorem GrammarN.plainB_ok : (g : GrammarN) → g.plainB = true → g.Ordinary false
  | .mk ss, h => plainStmts_ok ss (by simpa [GrammarN.plainB] using h)
theorem plainTerms_ok : (ts : List TermN) → plainTerms ts = true → ordinaryTerms false ts
  | [], _ => trivial
  | t :: ts, h => by
    simp only [plainTerms, Bool.and_eq_true] at h
    exact ⟨TermN.plainB_ok t h.1, plainTerms_ok ts h.2⟩
theorem plainQuants_ok : (qs : List QuantN) → plainQuants qs = true → ordinaryQuants false qs
  | [], _ => trivial
  | t :: ts, h => by
    simp only [plainQuants, Bool.and_eq_true] at h
    exact ⟨QuantN.plainB_ok t h.1, plainQuants_ok ts h.2⟩
theorem plainStmts_ok : (ss : List StmtN) → plainStmts ss = true → ordinaryStmts false ss
  | [], _ => trivial
  | t :: ts, h => by
    simp only [plainStmts, Bool.and_eq_true] at h
    exact ⟨StmtN.plainB_ok t h.1, plainStmts_ok ts h.2⟩
theorem plainGrammars_ok : (gs : List GrammarN) → plainGrammars gs = true → ordinaryGrammars false gs
  | [], _ => trivial
  | t :: ts, h => by
    simp only [plainGrammars, Bool.and_eq_true] at h
    exact ⟨GrammarN.plainB_ok t h.1, plainGrammars_ok ts h.2⟩
end

/-! ## Words in a text -/

def nameByteB (c : UInt8) : Bool := (48 ≤ c && c ≤ 57) || (65 ≤ c && c ≤ 90) || c == 95 || (97 ≤ c && c ≤ 122)

theorem nameByteB_ok {c : UInt8} : nameByteB c = true ↔ NameByte c := by
  simp [nameByteB, NameByte, or_assoc]

def whiteB (c : UInt8) : Bool := c == 9 || c == 10 || c == 12 || c == 13 || c == 32

def followB (w x : Str) : Bool :=
  match w.getLast?, x.head? with
  | some c, some d => !(nameByteB c && (nameByteB d || d == 46)) && !tokenPairs.contains (c, d) &&
      !((match w.head? with | some b => (str "[\\^$").contains b | none => false) && (str "[\\^$.+*?{").contains d) &&
      (!(str "//").isPrefixOf w || d == 10)
  | _, _ => true

theorem followB_ok {w x : Str} (h : followB w x = true) : MayFollow w x := by
  intro c d hc hd
  simp only [followB, hc, hd, Bool.and_eq_true, Bool.or_eq_true, Bool.not_eq_true', beq_iff_eq] at h
  obtain ⟨⟨⟨h1, h2⟩, h3⟩, h4⟩ := h
  refine ⟨?_, by simpa using h2, ?_, ?_⟩
  · rintro ⟨a, b⟩
    rcases b with b | rfl
    · rw [nameByteB_ok.2 a, nameByteB_ok.2 b] at h1
      simp at h1
    · rw [nameByteB_ok.2 a] at h1
      simp at h1
  · rintro ⟨⟨b, hb, e⟩, hd⟩
    rw [e] at h3
    simp_all
  · intro hp
    rcases h4 with h4 | h4
    · rw [← List.isPrefixOf_iff_prefix] at hp
      rw [hp] at h4; simp at h4
    · exact h4

/-- The words are in the text, with white space between them. -/
def laidB : List Str → Str → Bool
  | [], x => x.all whiteB
  | w :: ws, x =>
    let x := x.dropWhile whiteB
    w.isPrefixOf x && followB w (x.drop w.length) && laidB ws (x.drop w.length)

theorem whiteB_ok {x : Str} (h : ∀ c ∈ x, whiteB c = true) : White x := by
  intro c hc
  simpa [whiteB, or_assoc] using h c hc

theorem laidB_ok : ∀ {ws x}, laidB ws x = true → LaidOut ws x
  | [], x, h => .nil (whiteB_ok (by simpa [laidB] using h))
  | w :: ws, x, h => by
    simp only [laidB, Bool.and_eq_true] at h
    obtain ⟨⟨h1, h2⟩, h3⟩ := h
    have e : x = x.takeWhile whiteB ++ w ++ (x.dropWhile whiteB).drop w.length := by
      obtain ⟨r, hr⟩ := List.isPrefixOf_iff_prefix.1 h1
      conv => lhs; rw [← List.takeWhile_append_dropWhile (p := whiteB) (l := x)]
      rw [← hr, List.drop_left, List.append_assoc]
    rw [e]
    refine .cons (whiteB_ok fun c hc => ?_) (followB_ok h2) (laidB_ok h3)
    exact List.all_eq_true.1 List.all_takeWhile c hc

end Wbnf

import Verif.Spec.Basic

/-!
# A small regexp engine

Used only to show concrete cases: that the hypotheses about engines can be met, and what the model
computes on real grammars. It covers the part of Go's syntax the repository's grammars use
(literals, escapes, classes, groups, alternation, greedy and lazy repetition, `\A`, `$`; `^` only at
the start of the text, and `(?s:` as `(?:`), with leftmost-first backtracking semantics on bytes. No theorem is about this engine except
`regexp_sane`.
-/

namespace Wbnf.Regex

inductive Re
  | empty
  | cls (neg : Bool) (ranges : List (UInt8 × UInt8))
  | cat (a b : Re)
  | alt (a b : Re)
  | star (greedy : Bool) (a : Re)
  | group (i : Nat) (a : Re)
  | bot
  | eol
  deriving Repr, Inhabited

/-! ### Reading patterns -/

def digit : List (UInt8 × UInt8) := [(48, 57)]
def space : List (UInt8 × UInt8) := [(9, 10), (12, 13), (32, 32)]
def word : List (UInt8 × UInt8) := [(48, 57), (65, 90), (95, 95), (97, 122)]

def inRanges (c : UInt8) (rs : List (UInt8 × UInt8)) : Bool := rs.any fun r => r.1 ≤ c && c ≤ r.2

/-- Complement of sorted ranges is only needed for `\D`, `\S`, `\W`; they are given here. -/
def compl : List (UInt8 × UInt8) → UInt8 → List (UInt8 × UInt8)
  | [], lo => [(lo, 255)]
  | (a, b) :: rs, lo => if lo < a then (lo, a - 1) :: compl rs (b + 1) else compl rs (b + 1)

/-- The class of `\c`, if it is one. -/
def escClass (c : UInt8) : Option (List (UInt8 × UInt8)) :=
  if c = 100 then some digit
  else if c = 115 then some space
  else if c = 119 then some word
  else if c = 68 then some (compl digit 0)
  else if c = 83 then some (compl space 0)
  else if c = 87 then some (compl word 0)
  else none

/-- The byte of `\c`. -/
def escByte (c : UInt8) : Option UInt8 :=
  if c = 110 then some 10
  else if c = 116 then some 9
  else if c = 114 then some 13
  else if c = 102 then some 12
  else if c = 118 then some 11
  else if isMeta c || c = 45 || c = 47 || c = 34 || c = 96 || c = 64 || c = 37 || c = 62 || c = 61
    || c = 39 then some c
  else none

/-- The rest of a range that starts with `lo`. -/
def readRange (lo : UInt8) (s : Str) : Option ((UInt8 × UInt8) × Str) :=
  match s with
  | 45 :: 93 :: _ => some ((lo, lo), s)
  | 45 :: 92 :: c :: s' => (escByte c).map fun hi => ((lo, hi), s')
  | 45 :: hi :: s' => some ((lo, hi), s')
  | _ => some ((lo, lo), s)

/-- Items of a class up to `]`. -/
def readClass : Nat → Bool → Str → List (UInt8 × UInt8) → Option (List (UInt8 × UInt8) × Str)
  | 0, _, _, _ => none
  | n + 1, first, s, acc =>
    match s with
    | [] => none
    | 92 :: c :: s' =>
      match escClass c with
      | some rs => readClass n false s' (acc ++ rs)
      | none =>
        match (escByte c).bind (readRange · s') with
        | some (r, s'') => readClass n false s'' (acc ++ [r])
        | none => none
    | c :: s' =>
      if c = 93 && !first then some (acc, s')
      else
        match readRange c s' with
        | some (r, s'') => readClass n false s'' (acc ++ [r])
        | none => none

def readNat : Str → Option Nat → Option Nat × Str
  | c :: s, acc =>
    if 48 ≤ c && c ≤ 57 then readNat s (some (acc.getD 0 * 10 + (c.toNat - 48))) else (acc, c :: s)
  | [], acc => (acc, [])

def power (r : Re) : Nat → Re
  | 0 => .empty
  | n + 1 => .cat r (power r n)

def optional (greedy : Bool) (r : Re) : Nat → Re
  | 0 => .empty
  | n + 1 => if greedy then .alt (.cat r (optional greedy r n)) .empty
    else .alt .empty (.cat r (optional greedy r n))

def lazy : Str → Bool × Str
  | 63 :: s => (false, s)
  | s => (true, s)

/-- Postfix operators. -/
def readPost : Nat → Re → Str → Option (Re × Str)
  | 0, _, _ => none
  | n + 1, r, s =>
    match s with
    | 42 :: s' => let g := lazy s'; readPost n (.star g.1 r) g.2
    | 43 :: s' => let g := lazy s'; readPost n (.cat r (.star g.1 r)) g.2
    | 63 :: s' => let g := lazy s'; readPost n (optional g.1 r 1) g.2
    | 123 :: s' =>
      match readNat s' none with
      | (some lo, 125 :: s'') => let g := lazy s''; readPost n (power r lo) g.2
      | (some lo, 44 :: 125 :: s'') =>
        let g := lazy s''; readPost n (.cat (power r lo) (.star g.1 r)) g.2
      | (some lo, 44 :: s'') =>
        match readNat s'' none with
        | (some hi, 125 :: s3) =>
          let g := lazy s3; readPost n (.cat (power r lo) (optional g.1 r (hi - lo))) g.2
        | _ => some (r, s)
      | _ => some (r, s)
    | _ => some (r, s)

mutual
/-- Alternatives; `k` is the number of groups opened so far. -/
def readAlt : Nat → Nat → Str → Option (Re × Nat × Str)
  | 0, _, _ => none
  | n + 1, k, s =>
    match readCat n k s with
    | none => none
    | some (a, k', 124 :: s') =>
      match readAlt n k' s' with
      | none => none
      | some (b, k'', s'') => some (.alt a b, k'', s'')
    | some r => some r
def readCat : Nat → Nat → Str → Option (Re × Nat × Str)
  | 0, _, _ => none
  | n + 1, k, s =>
    match s with
    | [] => some (.empty, k, [])
    | 41 :: _ => some (.empty, k, s)
    | 124 :: _ => some (.empty, k, s)
    | _ =>
      match readAtom n k s with
      | none => none
      | some (a, k', s') =>
        match readPost n a s' with
        | none => none
        | some (a', s'') =>
          match readCat n k' s'' with
          | none => none
          | some (b, k'', s3) => some (.cat a' b, k'', s3)
def readAtom : Nat → Nat → Str → Option (Re × Nat × Str)
  | 0, _, _ => none
  | n + 1, k, s =>
    match s with
    | 40 :: 63 :: 109 :: 41 :: s' => some (.empty, k, s')      -- (?m)
    | 40 :: 63 :: 58 :: s' =>                                  -- (?:
      match readAlt n k s' with
      | some (a, k', 41 :: s'') => some (a, k', s'')
      | _ => none
    | 40 :: 63 :: 115 :: 58 :: s' =>                           -- (?s:
      match readAlt n k s' with
      | some (a, k', 41 :: s'') => some (a, k', s'')
      | _ => none
    | 40 :: 63 :: _ => none
    | 40 :: s' =>
      match readAlt n (k + 1) s' with
      | some (a, k', 41 :: s'') => some (.group k a, k', s'')
      | _ => none
    | 91 :: 94 :: s' =>
      match readClass n true s' [] with
      | some (rs, s'') => some (.cls true rs, k, s'')
      | none => none
    | 91 :: s' =>
      match readClass n true s' [] with
      | some (rs, s'') => some (.cls false rs, k, s'')
      | none => none
    | 92 :: 65 :: s' => some (.bot, k, s')
    | 92 :: c :: s' =>
      match escClass c with
      | some rs => some (.cls false rs, k, s')
      | none =>
        match escByte c with
        | some b => some (.cls false [(b, b)], k, s')
        | none => none
    | 46 :: s' => some (.cls true [(10, 10)], k, s')
    | 94 :: s' => some (.bot, k, s')
    | 36 :: s' => some (.eol, k, s')
    | c :: s' => if c = 42 || c = 43 || c = 63 || c = 92 then none
        else some (.cls false [(c, c)], k, s')
    | [] => none
end

/-- The pattern with its number of groups. -/
def read (p : Str) : Option (Re × Nat) :=
  match readAlt (4 * p.length + 8) 0 p with
  | some (r, k, []) => some (r, k)
  | _ => none

/-! ### Matching -/

structure St where
  rest : Str
  pos : Nat
  caps : List (Int × Int)

def run : Nat → Re → St → (St → Option St) → Option St
  | 0, _, _, _ => none
  | n + 1, r, st, k =>
    match r with
    | .empty => k st
    | .cls neg rs =>
      match st.rest with
      | [] => none
      | c :: s => if inRanges c rs != neg then k { st with rest := s, pos := st.pos + 1 } else none
    | .cat a b => run n a st fun st' => run n b st' k
    | .alt a b => (run n a st k).or (run n b st k)
    | .star greedy a =>
      let more := run n a st fun st' =>
        if st'.pos = st.pos then none else run n (.star greedy a) st' k
      if greedy then more.or (k st) else (k st).or more
    | .group i a =>
      run n a st fun st' => k { st' with caps := st'.caps.set i (st.pos, st'.pos) }
    | .bot => if st.pos = 0 then k st else none
    | .eol => if st.rest = [] || st.rest.head? = some 10 then k st else none

/-- Leftmost match. -/
def search (fuel : Nat) (r : Re) (groups : Nat) : Str → Nat → Option (List (Int × Int))
  | x, pos =>
    match run fuel r ⟨x, pos, List.replicate groups (-1, -1)⟩ some with
    | some st => some ((pos, st.pos) :: st.caps)
    | none =>
      match x with
      | [] => none
      | _ :: x' => search fuel r groups x' (pos + 1)

def find (p x : Str) : Option (List (Int × Int)) :=
  match read p with
  | none => none
  | some (r, k) => search (4 * (p.length + 2) * (x.length + 2)) r k x 0

end Regex

/-- The engine of the examples. -/
def regexp : Engine := ⟨fun p => (Regex.read p).isSome, Regex.find⟩

/-! ### It satisfies the laws of an engine -/

namespace Regex

/-- Positions stay inside a text of length `len`, started at `lo`. -/
structure Inv (len lo : Nat) (st : St) : Prop where
  tot : st.pos + st.rest.length = len
  low : lo ≤ st.pos
  caps : ∀ g ∈ st.caps, g = (-1, -1) ∨ ((lo : Int) ≤ g.1 ∧ g.1 ≤ g.2 ∧ g.2 ≤ st.pos)

theorem run_inv {len lo : Nat} {n r st k st'} (h : run n r st k = some st')
    (hi : Inv len lo st) (hk : ∀ s, Inv len lo s → st.pos ≤ s.pos → ∀ s', k s = some s' → Inv len lo s') :
    Inv len lo st' := by
  induction n generalizing r st k st' with
  | zero => simp [run] at h
  | succ n ih =>
    cases r with
    | empty => exact hk st hi (Nat.le_refl _) _ h
    | cls neg rs =>
      simp only [run] at h
      split at h
      · simp at h
      · rename_i c s hr
        split at h
        · refine hk _ ?_ (Nat.le_succ _) _ h
          have := hi.tot
          rw [hr] at this
          refine ⟨by simp at this ⊢; omega, by have := hi.low; simp only; omega, ?_⟩
          intro g hg
          rcases hi.caps g hg with h | ⟨h1, h2, h3⟩
          · exact Or.inl h
          · exact Or.inr ⟨h1, h2, by simp only; omega⟩
        · simp at h
    | cat a b =>
      simp only [run] at h
      exact ih h hi fun s hs hle s' h' => ih h' hs fun s2 hs2 hle2 => hk s2 hs2 (by omega)
    | alt a b =>
      simp only [run] at h
      cases ha : run n a st k with
      | some w => rw [ha] at h; simp at h; subst h; exact ih ha hi hk
      | none => rw [ha] at h; simp at h; exact ih h hi hk
    | star g a =>
      simp only [run] at h
      have hmore : ∀ w, (run n a st fun st' => if st'.pos = st.pos then none else run n (.star g a) st' k)
          = some w → Inv len lo w := fun w hw => ih hw hi fun s hs hle s' h' => by
        split at h'
        · simp at h'
        · exact ih h' hs fun s2 hs2 hle2 => hk s2 hs2 (by omega)
      have hstop : ∀ w, k st = some w → Inv len lo w := hk st hi (Nat.le_refl _)
      split at h
      · rcases Option.or_eq_some_iff.1 h with h | ⟨_, h⟩
        · exact hmore _ h
        · exact hstop _ h
      · rcases Option.or_eq_some_iff.1 h with h | ⟨_, h⟩
        · exact hstop _ h
        · exact hmore _ h
    | group i a =>
      simp only [run] at h
      refine ih h hi fun s hs hle s' h' =>
        hk { s with caps := s.caps.set i (st.pos, s.pos) } ?_ hle _ h'
      refine ⟨hs.tot, hs.low, fun g hg => ?_⟩
      rcases List.mem_or_eq_of_mem_set hg with hg | rfl
      · exact hs.caps g hg
      · exact Or.inr ⟨by have := hi.low; simp only; omega, by simp only; omega, by simp only; omega⟩
    | bot =>
      simp only [run] at h
      split at h
      · exact hk st hi (Nat.le_refl _) _ h
      · simp at h
    | eol =>
      simp only [run] at h
      split at h
      · exact hk st hi (Nat.le_refl _) _ h
      · simp at h

theorem search_ok {fuel r groups len} : ∀ {x pos locs}, pos + x.length = len →
    search fuel r groups x pos = some locs → ∃ (a b : Nat) (gs : List (Int × Int)),
      locs = ((a : Int), (b : Int)) :: gs ∧ a ≤ b ∧ b ≤ len ∧
      ∀ g ∈ gs, g = (-1, -1) ∨ ((a : Int) ≤ g.1 ∧ g.1 ≤ g.2 ∧ g.2 ≤ b) := by
  intro x
  induction x with
  | nil =>
    intro pos locs hl h
    simp only [search] at h
    split at h
    · rename_i st hr
      simp at h; subst h
      have := run_inv (len := len) (lo := pos) hr ⟨hl, Nat.le_refl _, fun g hg => by
        rw [List.mem_replicate] at hg; exact Or.inl hg.2⟩ (fun s hs _ s' h' => by simp at h'; exact h' ▸ hs)
      exact ⟨pos, st.pos, st.caps, rfl, this.low, by have := this.tot; omega, this.caps⟩
    · simp at h
  | cons c x ih =>
    intro pos locs hl h
    unfold search at h
    split at h
    · rename_i st hr
      simp at h; subst h
      have := run_inv (len := len) (lo := pos) hr ⟨hl, Nat.le_refl _, fun g hg => by
        rw [List.mem_replicate] at hg; exact Or.inl hg.2⟩ (fun s hs _ s' h' => by simp at h'; exact h' ▸ hs)
      exact ⟨pos, st.pos, st.caps, rfl, this.low, by have := this.tot; omega, this.caps⟩
    · exact ih (by simp at hl; omega) h

end Regex

theorem regexp_sane : regexp.Sane where
  whole := by
    intro p x locs h
    simp only [regexp, Regex.find] at h
    split at h
    · simp at h
    · obtain ⟨a, b, gs, rfl, h1, h2, _⟩ := Regex.search_ok (by simp; rfl) h
      exact ⟨a, b, gs, rfl, by omega, by omega, by omega⟩
  groups := by
    intro p x a b gs g h hg
    simp only [regexp, Regex.find] at h
    split at h
    · simp at h
    · obtain ⟨a', b', gs', heq, h1, h2, h3⟩ := Regex.search_ok (by simp; rfl) h
      simp at heq
      obtain ⟨⟨rfl, rfl⟩, rfl⟩ := heq
      exact h3 g hg

end Wbnf

import Verif.Spec.Source
import Verif.Lemmas.Build

/-!
# Building ends if no macro calls itself
-/

namespace Wbnf

variable {ms : Macros}

/-- With fuel enough it is not fuel that is missing. -/
def Finishes {α : Type} (f : Nat → Except Stop α) : Prop := ∃ N, ∀ n, N ≤ n → f n ≠ .error .oof

theorem ebind_oof {α β : Type} {x : Except Stop α} {f : α → Except Stop β} (h : x.bind f = .error .oof) :
    x = .error .oof ∨ ∃ a, x = .ok a ∧ f a = .error .oof := by
  cases x with
  | error e => exact .inl (by simpa [Except.bind] using h)
  | ok a => exact .inr ⟨a, rfl, h⟩

theorem Finishes.step {α β : Type} {f : Nat → Except Stop α} {g : Nat → Except Stop β} (h : Finishes f)
    (hg : ∀ n, g (n + 1) = .error .oof → f n = .error .oof) : Finishes g := by
  obtain ⟨N, h⟩ := h
  refine ⟨N + 1, fun n hn => ?_⟩
  obtain ⟨n, rfl⟩ : ∃ k, n = k + 1 := ⟨n - 1, by omega⟩
  exact fun e => h n (by omega) (hg n e)

theorem halts_now {α : Type} {f : Nat → Except Stop α} (h : ∀ n, f (n + 1) ≠ .error .oof) : Finishes f :=
  ⟨1, fun n hn => by obtain ⟨n, rfl⟩ : ∃ k, n = k + 1 := ⟨n - 1, by omega⟩; exact h n⟩

theorem ite_ne {α : Type} {c : Prop} [Decidable c] {a b x : α} (h1 : a ≠ x) (h2 : b ≠ x) : (if c then a else b) ≠ x := by
  split <;> assumption

theorem parseString_halts (x : Str) : parseString x ≠ .error .oof := by
  have key : ∀ (q : UInt8) (k : Nat) (s : Str), s.length ≤ k → unescape q s ≠ .error .oof := by
    intro q k
    induction k with
    | zero =>
      intro s h
      cases s with
      | nil => rw [unescape]; simp
      | cons c s => simp at h
    | succ k ih =>
      have cont : ∀ {s : Str} {f : Str → Except Stop Str}, s.length ≤ k → (∀ r, f r ≠ .error .oof) → (unescape q s).bind f ≠ .error .oof := by
        intro s f h hf e
        rcases ebind_oof e with e | ⟨a, _, e⟩
        · exact ih s h e
        · exact hf a e
      intro s h
      cases s with
      | nil => rw [unescape]; simp
      | cons c s =>
        simp only [List.length_cons] at h
        rw [unescape.eq_def]
        dsimp only
        refine ite_ne ?_ (cont (by omega) (by simp))
        cases s with
        | nil => simp
        | cons e s =>
          simp only [List.length_cons] at h
          dsimp only
          refine ite_ne (by simp) (ite_ne ?_ ?_)
          · cases s with
            | nil => simp
            | cons b s =>
              cases s with
              | nil => simp
              | cons c s =>
                simp only [List.length_cons] at h
                dsimp only
                cases octal3 e b c with
                | none => simp
                | some n => exact cont (by simp only [List.length_cons]; omega) (by simp)
          · repeat refine ite_ne (cont (by omega) (by simp)) ?_
            simp
  unfold parseString
  split
  · simp
  · simp
  · split
    · simp
    · exact key _ _ _ (Nat.le_refl _)

theorem bound_halts (x : Option Str) : bound x ≠ .error .oof := by
  cases x with
  | none => simp [bound]
  | some x =>
    simp only [bound]
    split
    · simp
    · simp only [atoi]
      split
      · split <;> simp
      · simp

theorem newAssociativity_halts (o : Str) : newAssociativity o ≠ .error .oof := by
  unfold newAssociativity
  repeat' split
  all_goals simp

mutual
theorem expand_halts {f : Str → Except Stop Term} (h : ∀ r, f r ≠ .error .oof) : (t : Term) → t.expand f ≠ .error .oof
  | .seq ts => by
    intro e
    rcases ebind_oof e with e | ⟨a, _, e⟩
    · exact expandList_halts h ts e
    · cases e
  | .stack ts => by
    intro e
    rcases ebind_oof e with e | ⟨a, _, e⟩
    · exact expandList_halts h ts e
    · cases e
  | .oneof ts => by
    intro e
    rcases ebind_oof e with e | ⟨a, _, e⟩
    · exact expandList_halts h ts e
    · cases e
  | .delim t sep a cs ce => by
    intro e
    rcases ebind_oof e with e | ⟨a, _, e⟩
    · exact expand_halts h t e
    · rcases ebind_oof e with e | ⟨a, _, e⟩
      · exact expand_halts h sep e
      · cases e
  | .quant t _ _ => by
    intro e
    rcases ebind_oof e with e | ⟨a, _, e⟩
    · exact expand_halts h t e
    · cases e
  | .named _ t => by
    intro e
    rcases ebind_oof e with e | ⟨a, _, e⟩
    · exact expand_halts h t e
    · cases e
  | .scope t _ => by
    intro e
    rcases ebind_oof e with e | ⟨a, _, e⟩
    · exact expand_halts h t e
    · cases e
  | .cut t => by
    intro e
    rcases ebind_oof e with e | ⟨a, _, e⟩
    · exact expand_halts h t e
    · cases e
  | .rule r => h r
  | .s _ => by simp [Term.expand]
  | .ref _ _ => by simp [Term.expand]
  | .re _ => by simp [Term.expand]
  | .ext _ => by simp [Term.expand]
  | .look _ => by simp [Term.expand]
theorem expandList_halts {f : Str → Except Stop Term} (h : ∀ r, f r ≠ .error .oof) : (ts : List Term) →
    Term.expand.expandList f ts ≠ .error .oof
  | [] => by simp [Term.expand.expandList]
  | t :: ts => by
    intro e
    rcases ebind_oof e with e | ⟨a, _, e⟩
    · exact expand_halts h t e
    · rcases ebind_oof e with e | ⟨a, _, e⟩
      · exact expandList_halts h ts e
      · cases e
end

/-- The bodies of these macros are built in the end. -/
def BodiesHalt (ms : Macros) (cs : List Str) : Prop := ∀ m ∈ cs, ∀ mc, lookup m ms = some mc → Finishes fun n => buildTerm ms n mc.body

theorem BodiesHalt.left {a b : List Str} (h : BodiesHalt ms (a ++ b)) : BodiesHalt ms a := fun m hm => h m (List.mem_append_left _ hm)
theorem BodiesHalt.right {a b : List Str} (h : BodiesHalt ms (a ++ b)) : BodiesHalt ms b := fun m hm => h m (List.mem_append_right _ hm)

/-- All of them, from one fuel on. -/
def AllHalt (ms : Macros) (ts : List TermN) : Prop := ∃ N, ∀ n, N ≤ n → ∀ t ∈ ts, buildTerm ms n t ≠ .error .oof

theorem AllHalt.mapE {ts : List TermN} (h : AllHalt ms ts) : Finishes fun n => mapE (buildTerm ms n) ts := by
  obtain ⟨N, h⟩ := h
  refine ⟨N, fun n hn => ?_⟩
  replace h := h n hn
  induction ts with
  | nil => simp [Wbnf.mapE]
  | cons t ts ih =>
    intro e
    rcases ebind_oof e with e | ⟨a, _, e⟩
    · exact h t (by simp) e
    · rcases ebind_oof e with e | ⟨a, _, e⟩
      · exact ih (fun t ht => h t (by simp [ht])) e
      · cases e

mutual
theorem TermN.halts : (t : TermN) → BodiesHalt ms t.calls → Finishes fun n => buildTerm ms n t
  | .many op gs ts, h => by
    obtain ⟨N1, h1⟩ := (haltsTerms ts h.right).mapE
    obtain ⟨N2, h2⟩ := haltsGrammars gs h.left
    refine ⟨max N1 N2 + 1, fun n hn => ?_⟩
    obtain ⟨n, rfl⟩ : ∃ k, n = k + 1 := ⟨n - 1, by omega⟩
    simp only [buildTerm]
    intro e
    rcases ebind_oof e with e | ⟨a, _, e⟩
    · exact h1 n (by omega) e
    · split at e
      · cases e
      · split at e
        · rcases ebind_oof e with e | ⟨a, _, e⟩
          · exact h2 n (by omega) _ (by simp) e
          · cases e
        · cases e
  | .one nm qs, h => by
    obtain ⟨N1, h1⟩ := NamedN.halts nm h.left
    obtain ⟨N2, h2⟩ := haltsQuants qs h.right
    refine ⟨max N1 (N2 + qs.length + 1) + 1, fun n hn => ?_⟩
    obtain ⟨n, rfl⟩ : ∃ k, n = k + 1 := ⟨n - 1, by omega⟩
    simp only [buildTerm]
    intro e
    rcases ebind_oof e with e | ⟨a, _, e⟩
    · exact h1 n (by omega) e
    · have key : ∀ (ps : List QuantN) (k : Nat) (t : Term), (∀ q ∈ ps, q ∈ qs) → N2 + ps.length + 1 ≤ k → buildQuants ms k ps t ≠ .error .oof := by
        intro ps
        induction ps with
        | nil =>
          intro k t _ hk
          obtain ⟨k, rfl⟩ : ∃ j, k = j + 1 := ⟨k - 1, by omega⟩
          simp [buildQuants]
        | cons q ps ih =>
          intro k t hm hk
          simp only [List.length_cons] at hk
          obtain ⟨k, rfl⟩ : ∃ j, k = j + 1 := ⟨k - 1, by omega⟩
          rw [buildQuants]
          intro e
          rcases ebind_oof e with e | ⟨a, _, e⟩
          · exact h2 k (by omega) q (hm q (by simp)) _ e
          · exact ih k a (fun q hq => hm q (by simp [hq])) (by omega) e
      exact key qs.reverse n a (fun q hq => List.mem_reverse.1 hq) (by rw [List.length_reverse]; omega) e
theorem NamedN.halts : (t : NamedN) → BodiesHalt ms t.calls → Finishes fun n => buildNamed ms n t
  | .mk i a, h => (AtomN.halts a h).step fun n e => by
    rw [buildNamed] at e
    rcases ebind_oof e with e | ⟨a, _, e⟩
    · exact e
    · cases e
theorem AtomN.halts : (a : AtomN) → BodiesHalt ms a.calls → Finishes fun n => buildAtom ms n a
  | .ident _, _ => halts_now fun n => by simp [buildAtom]
  | .str x, _ => halts_now fun n e => by
    simp only [buildAtom] at e
    rcases ebind_oof e with e | ⟨a, _, e⟩
    · exact parseString_halts _ e
    · cases e
  | .re x, _ => halts_now fun n => by simp [buildAtom]
  | .ref _ none, _ => halts_now fun n => by simp [buildAtom]
  | .ref i (some x), _ => halts_now fun n e => by
    simp only [buildAtom] at e
    split at e
    · cases e
    · rcases ebind_oof e with e | ⟨a, _, e⟩
      · exact parseString_halts _ e
      · cases e
  | .macrocall m args, h => by
    cases hm : lookup m ms with
    | none => exact halts_now fun n => by simp [buildAtom, hm]
    | some mc =>
      obtain ⟨N1, h1⟩ := h m (by simp [AtomN.calls]) mc hm
      obtain ⟨N2, h2⟩ := haltsTerms args fun m hm => h m (by simp [AtomN.calls, hm])
      refine ⟨max N1 N2 + 1, fun n hn => ?_⟩
      obtain ⟨n, rfl⟩ : ∃ k, n = k + 1 := ⟨n - 1, by omega⟩
      simp only [buildAtom, hm]
      intro e
      rcases ebind_oof e with e | ⟨a, _, e⟩
      · exact h1 n (by omega) e
      · refine expand_halts (fun r => ?_) a e
        split
        · simp
        · split
          · simp
          · exact h2 n (by omega) _ (List.mem_of_getElem? (by assumption))
  | .ext _, _ => halts_now fun n => by simp [buildAtom]
  | .look t, h => (TermN.halts t h).step fun n e => by
    simp only [buildAtom] at e
    rcases ebind_oof e with e | ⟨a, _, e⟩
    · exact e
    · cases e
  | .term t, h => (TermN.halts t h).step fun n e => by simpa only [buildAtom] using e
  | .unit, _ => halts_now fun n => by simp [buildAtom]
theorem QuantN.halts : (q : QuantN) → BodiesHalt ms q.calls → ∃ N, ∀ n, N ≤ n → ∀ t, buildQuant ms n q t ≠ .error .oof
  | .op o, _ => ⟨1, fun n hn t => by
    obtain ⟨n, rfl⟩ : ∃ k, n = k + 1 := ⟨n - 1, by omega⟩
    simp only [buildQuant]
    repeat' split
    all_goals simp⟩
  | .range lo hi, _ => ⟨1, fun n hn t e => by
    obtain ⟨n, rfl⟩ : ∃ k, n = k + 1 := ⟨n - 1, by omega⟩
    simp only [buildQuant] at e
    rcases ebind_oof e with e | ⟨a, _, e⟩
    · exact bound_halts _ e
    · rcases ebind_oof e with e | ⟨a, _, e⟩
      · exact bound_halts _ e
      · cases e⟩
  | .sep o _ _ nm, h => by
    obtain ⟨N, h1⟩ := NamedN.halts nm h
    refine ⟨N + 1, fun n hn t e => ?_⟩
    obtain ⟨n, rfl⟩ : ∃ k, n = k + 1 := ⟨n - 1, by omega⟩
    simp only [buildQuant] at e
    rcases ebind_oof e with e | ⟨a, _, e⟩
    · exact newAssociativity_halts _ e
    · rcases ebind_oof e with e | ⟨a, _, e⟩
      · exact h1 n (by omega) e
      · cases e
theorem GrammarN.halts : (g : GrammarN) → BodiesHalt ms g.calls → Finishes fun n => buildGrammar ms n g
  | .mk ss, h => by
    obtain ⟨N, h1⟩ := haltsStmts ss h
    refine ⟨N + 1, fun n hn => ?_⟩
    obtain ⟨n, rfl⟩ : ∃ k, n = k + 1 := ⟨n - 1, by omega⟩
    simp only [buildGrammar]
    exact h1 n (by omega) []
theorem haltsTerms : (ts : List TermN) → BodiesHalt ms (callsTerms ts) → AllHalt ms ts
  | [], _ => ⟨0, by simp⟩
  | t :: ts, h => by
    obtain ⟨N1, h1⟩ := TermN.halts t h.left
    obtain ⟨N2, h2⟩ := haltsTerms ts h.right
    refine ⟨max N1 N2, fun n hn u hu => ?_⟩
    rcases List.mem_cons.1 hu with rfl | hu
    · exact h1 n (by omega)
    · exact h2 n (by omega) u hu
theorem haltsQuants : (qs : List QuantN) → BodiesHalt ms (callsQuants qs) →
    ∃ N, ∀ n, N ≤ n → ∀ q ∈ qs, ∀ t, buildQuant ms n q t ≠ .error .oof
  | [], _ => ⟨0, by simp⟩
  | q :: qs, h => by
    obtain ⟨N1, h1⟩ := QuantN.halts q h.left
    obtain ⟨N2, h2⟩ := haltsQuants qs h.right
    refine ⟨max N1 N2, fun n hn u hu => ?_⟩
    rcases List.mem_cons.1 hu with rfl | hu
    · exact h1 n (by omega)
    · exact h2 n (by omega) u hu
theorem haltsStmts : (ss : List StmtN) → BodiesHalt ms (callsStmts ss) → ∃ N, ∀ n, N ≤ n → ∀ g, buildStmts ms n ss g ≠ .error .oof
  | [], _ => ⟨1, fun n hn g => by
    obtain ⟨n, rfl⟩ : ∃ k, n = k + 1 := ⟨n - 1, by omega⟩
    simp [buildStmts]⟩
  | .prod i ts :: ss, h => by
    obtain ⟨N1, h1⟩ := (haltsTerms ts h.left).mapE
    obtain ⟨N2, h2⟩ := haltsStmts ss h.right
    refine ⟨max N1 N2 + 1, fun n hn g e => ?_⟩
    obtain ⟨n, rfl⟩ : ∃ k, n = k + 1 := ⟨n - 1, by omega⟩
    rw [buildStmts] at e
    rcases ebind_oof e with e | ⟨a, _, e⟩
    · exact h1 n (by omega) e
    · exact h2 n (by omega) _ e
  | .comment _ :: ss, h => by
    obtain ⟨N, h1⟩ := haltsStmts ss h.right
    exact ⟨N + 1, fun n hn g => by
      obtain ⟨n, rfl⟩ : ∃ k, n = k + 1 := ⟨n - 1, by omega⟩
      rw [buildStmts]; exact h1 n (by omega) g⟩
  | .imp _ :: ss, h => by
    obtain ⟨N, h1⟩ := haltsStmts ss h.right
    exact ⟨N + 1, fun n hn g => by
      obtain ⟨n, rfl⟩ : ∃ k, n = k + 1 := ⟨n - 1, by omega⟩
      rw [buildStmts]; exact h1 n (by omega) g⟩
  | .macrodef _ _ _ :: ss, h => by
    obtain ⟨N, h1⟩ := haltsStmts ss h.right
    exact ⟨N + 1, fun n hn g => by
      obtain ⟨n, rfl⟩ : ∃ k, n = k + 1 := ⟨n - 1, by omega⟩
      rw [buildStmts]; exact h1 n (by omega) g⟩
theorem haltsGrammars : (gs : List GrammarN) → BodiesHalt ms (callsGrammars gs) →
    ∃ N, ∀ n, N ≤ n → ∀ g ∈ gs, buildGrammar ms n g ≠ .error .oof
  | [], _ => ⟨0, by simp⟩
  | g :: gs, h => by
    obtain ⟨N1, h1⟩ := GrammarN.halts g h.left
    obtain ⟨N2, h2⟩ := haltsGrammars gs h.right
    refine ⟨max N1 N2, fun n hn u hu => ?_⟩
    rcases List.mem_cons.1 hu with rfl | hu
    · exact h1 n (by omega)
    · exact h2 n (by omega) u hu
end

theorem Macros.Ends.halts {m : Str} (h : ms.Ends m) : ∀ mc, lookup m ms = some mc → Finishes fun n => buildTerm ms n mc.body := by
  induction h with
  | intro m _ ih =>
    intro mc hm
    exact mc.body.halts fun m' hm' => ih m' ⟨mc, hm, hm'⟩

end Wbnf

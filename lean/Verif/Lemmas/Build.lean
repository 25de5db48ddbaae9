import Verif.Spec.Macro

/-!
# Lemmas on building grammars
-/

namespace Wbnf

theorem ebind_ok {α β : Type} {x : Except Stop α} {f : α → Except Stop β} {b : β} :
    x.bind f = .ok b ↔ ∃ a, x = .ok a ∧ f a = .ok b := by
  cases x <;> simp [Except.bind]

theorem mapE_mono {α β : Type} {f f' : α → Except Stop β} (h : ∀ a b, f a = .ok b → f' a = .ok b) :
    ∀ {l : List α} {bs}, mapE f l = .ok bs → mapE f' l = .ok bs
  | [], bs, hl => hl
  | a :: l, bs, hl => by
    simp only [mapE, ebind_ok] at hl ⊢
    obtain ⟨b, h1, bs', h2, h3⟩ := hl
    exact ⟨b, h _ _ h1, bs', mapE_mono h h2, h3⟩

mutual
theorem expand_mono {f f' : Str → Except Stop Term} (h : ∀ r t, f r = .ok t → f' r = .ok t) :
    (t : Term) → {u : Term} → t.expand f = .ok u → t.expand f' = .ok u
  | .seq ts, u, hu => by
    simp only [Term.expand, ebind_ok] at hu ⊢
    obtain ⟨us, h1, h2⟩ := hu
    exact ⟨us, expandList_mono h ts h1, h2⟩
  | .stack ts, u, hu => by
    simp only [Term.expand, ebind_ok] at hu ⊢
    obtain ⟨us, h1, h2⟩ := hu
    exact ⟨us, expandList_mono h ts h1, h2⟩
  | .oneof ts, u, hu => by
    simp only [Term.expand, ebind_ok] at hu ⊢
    obtain ⟨us, h1, h2⟩ := hu
    exact ⟨us, expandList_mono h ts h1, h2⟩
  | .delim t sep a cs ce, u, hu => by
    simp only [Term.expand, ebind_ok] at hu ⊢
    obtain ⟨v, h1, w, h2, h3⟩ := hu
    exact ⟨v, expand_mono h t h1, w, expand_mono h sep h2, h3⟩
  | .quant t _ _, u, hu => by
    simp only [Term.expand, ebind_ok] at hu ⊢
    obtain ⟨v, h1, h2⟩ := hu
    exact ⟨v, expand_mono h t h1, h2⟩
  | .named _ t, u, hu => by
    simp only [Term.expand, ebind_ok] at hu ⊢
    obtain ⟨v, h1, h2⟩ := hu
    exact ⟨v, expand_mono h t h1, h2⟩
  | .scope t _, u, hu => by
    simp only [Term.expand, ebind_ok] at hu ⊢
    obtain ⟨v, h1, h2⟩ := hu
    exact ⟨v, expand_mono h t h1, h2⟩
  | .cut t, u, hu => by
    simp only [Term.expand, ebind_ok] at hu ⊢
    obtain ⟨v, h1, h2⟩ := hu
    exact ⟨v, expand_mono h t h1, h2⟩
  | .rule r, u, hu => h r u hu
  | .s _, u, hu => hu
  | .ref _ _, u, hu => hu
  | .re _, u, hu => hu
  | .ext _, u, hu => hu
  | .look _, u, hu => hu
theorem expandList_mono {f f' : Str → Except Stop Term} (h : ∀ r t, f r = .ok t → f' r = .ok t) :
    (ts : List Term) → {us : List Term} → Term.expand.expandList f ts = .ok us → Term.expand.expandList f' ts = .ok us
  | [], us, hu => hu
  | t :: ts, us, hu => by
    simp only [Term.expand.expandList, ebind_ok] at hu ⊢
    obtain ⟨v, h1, vs, h2, h3⟩ := hu
    exact ⟨v, expand_mono h t h1, vs, expandList_mono h ts h2, h3⟩
end

/-- Building with more fuel. -/
structure Mono (ms : Macros) (n : Nat) : Prop where
  term : ∀ {t u}, buildTerm ms n t = .ok u → buildTerm ms (n + 1) t = .ok u
  quants : ∀ {qs t u}, buildQuants ms n qs t = .ok u → buildQuants ms (n + 1) qs t = .ok u
  named : ∀ {t u}, buildNamed ms n t = .ok u → buildNamed ms (n + 1) t = .ok u
  quant : ∀ {q t u}, buildQuant ms n q t = .ok u → buildQuant ms (n + 1) q t = .ok u
  atom : ∀ {t u}, buildAtom ms n t = .ok u → buildAtom ms (n + 1) t = .ok u
  grammar : ∀ {t u}, buildGrammar ms n t = .ok u → buildGrammar ms (n + 1) t = .ok u
  stmts : ∀ {ss g u}, buildStmts ms n ss g = .ok u → buildStmts ms (n + 1) ss g = .ok u

theorem mono_step (ms : Macros) : ∀ n, Mono ms n
  | 0 => by constructor <;> intros <;> rename_i h <;> simp [buildTerm, buildQuants, buildNamed, buildQuant, buildAtom, buildGrammar, buildStmts] at h
  | n + 1 => by
    have ih := mono_step ms n
    constructor
    · intro t u h
      cases t with
      | many op gs ts =>
        rw [buildTerm, ebind_ok] at h ⊢
        obtain ⟨us, h1, h2⟩ := h
        refine ⟨us, mapE_mono (fun _ _ => ih.term) h1, ?_⟩
        split at h2
        · rw [if_pos (by assumption)]; exact h2
        · rw [if_neg (by assumption)]
          split at h2
          · simp only [ebind_ok] at h2 ⊢
            obtain ⟨g, h3, h4⟩ := h2
            exact ⟨g, ih.grammar h3, h4⟩
          · exact h2
      | one nm qs =>
        rw [buildTerm, ebind_ok] at h ⊢
        obtain ⟨v, h1, h2⟩ := h
        exact ⟨v, ih.named h1, ih.quants h2⟩
    · intro qs t u h
      cases qs with
      | nil => exact h
      | cons q qs =>
        rw [buildQuants, ebind_ok] at h ⊢
        obtain ⟨v, h1, h2⟩ := h
        exact ⟨v, ih.quant h1, ih.quants h2⟩
    · intro t u h
      cases t with
      | mk i a =>
        rw [buildNamed, ebind_ok] at h ⊢
        obtain ⟨v, h1, h2⟩ := h
        exact ⟨v, ih.atom h1, h2⟩
    · intro q t u h
      cases q with
      | op o => exact h
      | range lo hi => exact h
      | sep op l tr nm =>
        rw [buildQuant, ebind_ok] at h ⊢
        obtain ⟨a, h1, h2⟩ := h
        refine ⟨a, h1, ?_⟩
        rw [ebind_ok] at h2 ⊢
        obtain ⟨v, h3, h4⟩ := h2
        exact ⟨v, ih.named h3, h4⟩
    · intro t u h
      cases t with
      | ident i => exact h
      | str x => exact h
      | re x => exact h
      | ref i d => cases d <;> exact h
      | ext i => exact h
      | look t =>
        rw [buildAtom, ebind_ok] at h ⊢
        obtain ⟨v, h1, h2⟩ := h
        exact ⟨v, ih.term h1, h2⟩
      | term t => rw [buildAtom] at h ⊢; exact ih.term h
      | macrocall m args =>
        rw [buildAtom] at h ⊢
        split at h
        · simp at h
        · rw [ebind_ok] at h ⊢
          obtain ⟨v, h1, h2⟩ := h
          refine ⟨v, ih.term h1, expand_mono (fun r t hr => ?_) v h2⟩
          split at hr
          · exact hr
          · split at hr
            · simp at hr
            · exact ih.term hr
      | unit => exact h
    · intro t u h
      cases t with
      | mk ss => rw [buildGrammar] at h ⊢; exact ih.stmts h
    · intro ss g u h
      cases ss with
      | nil => exact h
      | cons s ss =>
        cases s with
        | prod i ts =>
          rw [buildStmts, ebind_ok] at h ⊢
          obtain ⟨us, h1, h2⟩ := h
          exact ⟨us, mapE_mono (fun _ _ => ih.term) h1, ih.stmts h2⟩
        | comment _ => rw [buildStmts] at h ⊢; exact ih.stmts h
        | imp _ => rw [buildStmts] at h ⊢; exact ih.stmts h
        | macrodef _ _ _ => rw [buildStmts] at h ⊢; exact ih.stmts h

theorem mono_of_step {α : Type} {f : Nat → Except Stop α} (h : ∀ n u, f n = .ok u → f (n + 1) = .ok u) {n m : Nat} {u : α}
    (hn : n ≤ m) (hu : f n = .ok u) : f m = .ok u := by
  induction hn with
  | refl => exact hu
  | step _ ih => exact h _ _ ih

section
variable {ms : Macros}

theorem buildTerm_mono {n m : Nat} {t u} (hn : n ≤ m) (h : buildTerm ms n t = .ok u) : buildTerm ms m t = .ok u :=
  mono_of_step (f := fun n => buildTerm ms n t) (fun n _ => (mono_step ms n).term) hn h
theorem buildQuants_mono {n m : Nat} {qs t u} (hn : n ≤ m) (h : buildQuants ms n qs t = .ok u) : buildQuants ms m qs t = .ok u :=
  mono_of_step (f := fun n => buildQuants ms n qs t) (fun n _ => (mono_step ms n).quants) hn h
theorem buildNamed_mono {n m : Nat} {t u} (hn : n ≤ m) (h : buildNamed ms n t = .ok u) : buildNamed ms m t = .ok u :=
  mono_of_step (f := fun n => buildNamed ms n t) (fun n _ => (mono_step ms n).named) hn h
theorem buildQuant_mono {n m : Nat} {q t u} (hn : n ≤ m) (h : buildQuant ms n q t = .ok u) : buildQuant ms m q t = .ok u :=
  mono_of_step (f := fun n => buildQuant ms n q t) (fun n _ => (mono_step ms n).quant) hn h
theorem buildAtom_mono {n m : Nat} {t u} (hn : n ≤ m) (h : buildAtom ms n t = .ok u) : buildAtom ms m t = .ok u :=
  mono_of_step (f := fun n => buildAtom ms n t) (fun n _ => (mono_step ms n).atom) hn h
theorem buildGrammar_mono {n m : Nat} {t u} (hn : n ≤ m) (h : buildGrammar ms n t = .ok u) : buildGrammar ms m t = .ok u :=
  mono_of_step (f := fun n => buildGrammar ms n t) (fun n _ => (mono_step ms n).grammar) hn h
theorem buildStmts_mono {n m : Nat} {ss g u} (hn : n ≤ m) (h : buildStmts ms n ss g = .ok u) : buildStmts ms m ss g = .ok u :=
  mono_of_step (f := fun n => buildStmts ms n ss g) (fun n _ => (mono_step ms n).stmts) hn h
end

end Wbnf

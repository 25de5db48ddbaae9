import Verif.Lemmas.CoreParse
import Verif.Lemmas.Fold
import Verif.Lemmas.PartsLt
import Verif.Spec.Lexemes

/-!
# A parsed source is its words with white space around them
-/

namespace Wbnf

theorem Spaced.append {ws ws' : List Str} {x x' : Str} (h : Spaced ws x) (h' : Spaced ws' x') : Spaced (ws ++ ws') (x ++ x') := by
  induction h with
  | nil => exact h'
  | cons h1 h2 _ ih => simpa using Spaced.cons h1 h2 ih

namespace Core

variable {E : Engine} {Γ Γ' : List Grammar} {t t' : Term} {r : Str}

/-- What the leaf and what is left are texts of. -/
theorem leaf_at (hE : E.Sane) {p : Str} {i j leaf : Scanner} (hi : i.InRange) (h : LeafOut E p i (.ok (.leaf leaf) j)) {Q : Str → Str → Prop}
    (hQ : ∀ x locs, i.slice = Option.some x → E.find p x = Option.some locs → ∃ before text after rest : Str,
      x = before ++ text ++ after ++ rest ∧ White before ∧ White after ∧ Q text rest ∧
      locs.head? = Option.some (0, ((before.length + text.length + after.length : Nat) : Int)) ∧
      locs.getLast? = Option.some ((before.length : Int), ((before.length + text.length : Nat) : Int))) :
    Advances i j ∧ ∃ before text after rest : Str, leaf.toStr = Option.some text ∧ White before ∧ White after ∧ Q text rest ∧
      i.toStr = Option.some (before ++ text ++ after ++ rest) ∧ j.toStr = Option.some rest := by
  obtain ⟨x, b, a, c, hx, ⟨locs, hf, hl, hh⟩, rfl, rfl, _, _, _, hadv⟩ := h.inv hE hi
  obtain ⟨before, text, after, rest, hs, hb, ha, hq, hh2, hl2⟩ := hQ x locs hx hf
  rw [hl, Option.some.injEq, Prod.mk.injEq] at hl2
  rw [hh, Option.some.injEq, Prod.mk.injEq] at hh2
  obtain ⟨rfl, rfl⟩ := hl2
  obtain ⟨_, rfl⟩ := hh2
  refine ⟨hadv, before, text, after, rest, ?_, hb, ha, hq, ?_⟩
  · obtain ⟨src, o, k, rfl, hk⟩ := hi.elim
    rw [Scanner.slice_mk hk, Option.some.injEq] at hx
    have hlen : before.length + text.length + after.length + rest.length = k := by
      have := congrArg List.length hx
      rw [bytesAt_length hk, hs] at this
      simpa [Nat.add_assoc] using this.symm
    have e : Scanner.sub ⟨Option.some src, o, k⟩ before.length ((before.length + text.length : Nat) : Int) =
        ⟨Option.some src, ((o + before.length : Nat) : Int), (text.length : Int)⟩ := by
      simp only [Scanner.sub, Scanner.mk.injEq, true_and]
      omega
    rw [e, Scanner.toStr_mk (by omega), Option.some.injEq]
    have h3 : (src.origin.drop o).take k = before ++ text ++ after ++ rest := by rw [← hs, ← hx]; rfl
    have h4 : bytesAt src.origin (o + before.length) text.length = (((src.origin.drop o).take k).drop before.length).take text.length := by
      unfold bytesAt
      rw [List.drop_take, List.drop_drop, List.take_take]
      congr 1
      omega
    rw [h4, h3]
    simp
  · obtain ⟨e, l, q1, q2, q3⟩ := hadv.text hi
    have hx2 : i.toStr = Option.some x := by
      obtain ⟨src, o, k, rfl, hk⟩ := hi.elim
      rw [Scanner.slice_mk hk] at hx
      rw [Scanner.toStr_mk hk, hx]
    rw [hs] at hx2
    refine ⟨hx2, ?_⟩
    rw [hx2, Option.some.injEq] at q1
    have hel : e.length = (before ++ text ++ after).length := by
      simp only [Scanner.skip] at q3
      simp only [List.length_append]
      omega
    rw [q2, (List.append_inj q1.symm hel).2]

theorem leaf_reads (hE : E.Sane) {p : Str} {i j leaf : Scanner} (hi : i.InRange) (h : LeafOut E p i (.ok (.leaf leaf) j)) {Q : Str → Prop}
    (hQ : ∀ x locs, E.find p x = Option.some locs → ∃ before text after rest : Str,
      x = before ++ text ++ after ++ rest ∧ White before ∧ White after ∧ Q text ∧
      locs.head? = Option.some (0, ((before.length + text.length + after.length : Nat) : Int)) ∧
      locs.getLast? = Option.some ((before.length : Int), ((before.length + text.length : Nat) : Int))) :
    Advances i j ∧ ∃ before text after rest : Str, leaf.toStr = Option.some text ∧ White before ∧ White after ∧ Q text ∧
      i.toStr = Option.some (before ++ text ++ after ++ rest) ∧ j.toStr = Option.some rest :=
  leaf_at hE hi h (Q := fun text _ => Q text) fun x locs _ hf => hQ x locs hf

/-- What the parts of `grammar` look like. -/
def bare (_ : List Grammar) : Term → Bool
  | .rule r => r ≠ wrapRE
  | .s l => (literals.map str).contains l
  | .re l => regexps.contains (.re l)
  | .look _ => false
  | _ => true

set_option maxRecDepth 100000 in
theorem rules_bare : frames.all (fun Γ => match Γ with
    | [] => true
    | g :: Γ' => g.all fun e => decide (e.1 = wrapRE) || e.2.allAt frames bare (g :: Γ')) = true := by decide +kernel

theorem defines_bare {g : Grammar} (hg : (g :: Γ) ∈ frames) (h : Defines g r t) (hr : r ≠ wrapRE) : t.allAt frames bare (g :: Γ) = true := by
  have key : ∀ r t, lookup r g = Option.some t → r ≠ wrapRE → t.allAt frames bare (g :: Γ) = true := by
    intro r t h hr
    have := List.all_eq_true.1 rules_bare _ hg
    have := List.all_eq_true.1 this _ (lookup_mem h)
    simpa [hr] using this
  induction h with
  | here h _ => exact key _ _ h hr
  | «alias» h _ ih =>
    have := Term.allAt_self (key _ _ h hr)
    exact ih (by simpa [bare] using this)

theorem resolves_bare (hΓ : Γ ∈ frames) (h : Resolves Γ r Γ' t) (hr : r ≠ wrapRE) : Γ' ∈ frames ∧ t.allAt frames bare Γ' = true := by
  induction h with
  | here hd => exact ⟨hΓ, defines_bare hΓ hd hr⟩
  | @outer g Γ r Γ' t _ hres ih =>
    have := (List.all_eq_true.1 frames_ok) _ hΓ
    simp only [Bool.and_eq_true, Bool.or_eq_true, List.isEmpty_iff, decide_eq_true_eq] at this
    rcases this.1 with rfl | h1
    · cases hres
    · exact ih h1 hr

theorem partOf_bare (h : PartOf Γ t Γ' t') (hΓ : Γ ∈ frames) (ht : t.allAt frames bare Γ = true) : Γ' ∈ frames ∧ t'.allAt frames bare Γ' = true := by
  induction h with
  | refl => exact ⟨hΓ, ht⟩
  | rule hr _ ih =>
    have := resolves_bare hΓ hr (by simpa [Term.allAt, bare] using ht)
    exact ih this.1 this.2
  | named _ ih => simp [Term.allAt] at ht; exact ih hΓ ht.2
  | cut _ ih => simp [Term.allAt] at ht; exact ih hΓ ht.2
  | scope he _ ih =>
    obtain ⟨rfl, h1, h2⟩ := framesOK_enters ht he
    exact ih h1 h2
  | seq hm _ ih => simp [Term.allAt] at ht; exact ih hΓ (allAtList_mem ht.2 _ hm)
  | oneof hm _ ih => simp [Term.allAt] at ht; exact ih hΓ (allAtList_mem ht.2 _ hm)
  | quant _ ih => simp [Term.allAt] at ht; exact ih hΓ ht.2
  | look _ ih => simp [Term.allAt] at ht; exact ih hΓ ht.2
  | delimTerm _ ih => simp [Term.allAt] at ht; exact ih hΓ ht.1.2
  | delimSep _ ih => simp [Term.allAt] at ht; exact ih hΓ ht.2

/-- The same, as far as leaves, look-aheads and references go. -/
def Bare (Γ : List Grammar) : Term → Prop
  | .s l => Γ ∈ frames ∧ .s l ∈ leaves
  | .re l => Γ ∈ frames ∧ .re l ∈ leaves
  | .look _ => False
  | .ref _ _ => False
  | .ext _ => False
  | _ => True

theorem basic_bare : Basic Bare where
  seq := fun _ _ => trivial
  quant := fun _ _ _ _ => trivial
  text := fun _ _ _ _ h => h.elim

theorem bare_of (hΓ : Γ ∈ frames) (ht : t.allAt frames bare Γ = true) : Bare Γ t := by
  have hq := Term.allAt_self ht
  cases t with
  | s l =>
    simp only [bare, List.contains_eq_mem, List.mem_map, decide_eq_true_eq] at hq
    obtain ⟨l', hl, rfl⟩ := hq
    exact ⟨hΓ, List.mem_append_left _ (List.mem_map_of_mem (f := s) hl)⟩
  | re l =>
    simp only [bare, List.contains_eq_mem, decide_eq_true_eq] at hq
    exact ⟨hΓ, List.mem_append_right _ hq⟩
  | look => simp [bare] at hq
  | ref => simp [Term.allAt] at ht
  | ext => simp [Term.allAt] at ht
  | _ => trivial

/-- The consumed text is made of the texts of the leaves, with white space around them. -/
theorem spaced (hE : E.Sane) (hr : EngineReads E) {X : Externals} {i j : Scanner} {name : Str} {vals : List (Str × Tree)} {v : Tree} (hi : i.InRange)
    (h : Derives E X (.term [flat] name (.rule (str "grammar")) vals) i [v] j) :
    ∃ x left, Spaced (wordsOf [v]) x ∧ i.toStr = Option.some (x ++ left) ∧ j.toStr = Option.some left := by
  have := h.fold (Q := Bare)
    (T := fun i a j => i.InRange → Advances i j ∧ ∃ x left, Spaced (a.map fun s => s.toStr.getD []) x ∧
      i.toStr = Option.some (x ++ left) ∧ j.toStr = Option.some left)
    basic_bare
    { nil := fun i hi => by
        obtain ⟨e, l, h1, h2, h3⟩ := (Advances.refl hi).text hi
        exact ⟨.refl hi, [], l, .nil, by simpa using h2, h2⟩
      append := fun i a j b k h1 h2 hi => by
        obtain ⟨ha, t1, l1, hb, hc, hd⟩ := h1 hi
        obtain ⟨ha', t2, l2, hb', hc', hd'⟩ := h2 (ha.inRange hi)
        refine ⟨ha.trans ha', t1 ++ t2, l2, by simpa using hb.append hb', ?_, hd'⟩
        rw [hd, Option.some.injEq] at hc'
        rw [hc, hc', List.append_assoc]
      leaf := fun Γ t p i s j hQ hm hl hi => by
        have key : ∃ u ∈ leaves, anchor ++ p = pattern (own u) := by
          cases hm with
          | lit hp =>
            rw [wrapOf_frames _ hQ.1] at hp
            exact ⟨_, hQ.2, leafPattern_wrap.1 hp⟩
          | regexp hp =>
            rw [wrapOf_frames _ hQ.1] at hp
            exact ⟨_, hQ.2, leafPattern_wrap.1 hp⟩
          | ref => exact hQ.elim
        obtain ⟨u, hu, e⟩ := key
        rw [e] at hl
        obtain ⟨h1, before, text, after, rest, h2, h3, h4, _, h5, h6⟩ := leaf_reads hE hi hl (hr u hu)
        refine ⟨h1, before ++ text ++ after, rest, ?_, h5, h6⟩
        simpa [h2] using Spaced.cons (w := text) h3 h4 .nil
      look := fun Γ t i a j hQ => hQ.elim
      ext := fun Γ x f c i v j hQ => hQ.elim }
    (fun Γ' t' hp => by
      obtain ⟨h1, h2⟩ := partOf_bare hp flat_mem (by decide +kernel)
      exact bare_of h1 h2) hi
  exact this.2

end Core

end Wbnf

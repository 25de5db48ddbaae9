import Verif.Model.Views
import Verif.Lemmas.Build
import Verif.Lemmas.Fuel

/-!
# Parsing and viewing wbnf sources with more fuel
-/

namespace Wbnf

section
variable {f f' : Tree → Grammar → Branch → Except Stop (Grammar × Branch)}

theorem loopTrees_mono (h : ∀ v g b s, f v g b = .ok s → f' v g b = .ok s) :
    ∀ {vs g b s}, loopTrees f vs g b = .ok s → loopTrees f' vs g b = .ok s
  | [], _, _, _, e => e
  | v :: vs, g, b, s, e => by
    simp only [loopTrees, ebind_ok] at e ⊢
    obtain ⟨a, h1, h2⟩ := e
    exact ⟨a, h _ _ _ _ h1, loopTrees_mono h h2⟩
end

section
variable {f f' : Term → Tree → Grammar → Branch → Except Stop (Grammar × Branch)}

theorem loopSeq_mono (h : ∀ t v g b s, f t v g b = .ok s → f' t v g b = .ok s) :
    ∀ {ts vs g b s}, loopSeq f ts vs g b = .ok s → loopSeq f' ts vs g b = .ok s
  | _, [], _, _, _, e => by simpa [loopSeq] using e
  | [], _ :: _, _, _, _, e => by simp [loopSeq] at e
  | t :: ts, v :: vs, g, b, s, e => by
    simp only [loopSeq, ebind_ok] at e ⊢
    obtain ⟨a, h1, h2⟩ := e
    exact ⟨a, h _ _ _ _ _ h1, loopSeq_mono h h2⟩

theorem loopDelim_mono {sep : Term} (h : ∀ t v g b s, f t v g b = .ok s → f' t v g b = .ok s) :
    ∀ {vs side other sepnext first g b s}, loopDelim f sep side other sepnext first vs g b = .ok s →
      loopDelim f' sep side other sepnext first vs g b = .ok s
  | [], _, _, _, _, _, _, _, e => by simpa [loopDelim] using e
  | v :: vs, side, other, sepnext, first, g, b, s, e => by
    simp only [loopDelim, ebind_ok] at e ⊢
    obtain ⟨a, h1, h2⟩ := e
    refine ⟨a, ?_, ?_⟩
    · cases v with
      | empty => exact h1
      | _ => exact h _ _ _ _ _ h1
    · split at h2
      · rw [if_pos (by assumption)]; exact loopDelim_mono h h2
      · rw [if_neg (by assumption)]; exact loopDelim_mono h h2
end

theorem fromTree_step : ∀ (n : Nat) {t ctrs e g b s}, fromTree n t ctrs e g b = .ok s → fromTree (n + 1) t ctrs e g b = .ok s := by
  intro n
  induction n with
  | zero => intro t ctrs e g b s h; simp [fromTree] at h
  | succ n ih =>
    intro t ctrs e g b s h
    cases t with
    | s _ => exact h
    | re _ => exact h
    | rule r =>
      rw [fromTree.eq_def] at h ⊢; dsimp only at h ⊢
      simp only [ebind_ok] at h ⊢
      obtain ⟨c, h1, nm, h2, h3⟩ := h
      refine ⟨c, h1, nm, h2, ?_⟩
      split at h3
      · simp only [ebind_ok] at h3 ⊢
        obtain ⟨a, h4, h5⟩ := h3
        exact ⟨a, ih h4, h5⟩
      · cases h3
    | scope t' g' => rw [fromTree.eq_def] at h ⊢; dsimp only at h ⊢; exact ih h
    | seq ts =>
      rw [fromTree.eq_def] at h ⊢; dsimp only at h ⊢
      split at h
      · exact loopSeq_mono (fun _ _ _ _ _ h => ih h) h
      · cases h
    | oneof ts =>
      rw [fromTree.eq_def] at h ⊢; dsimp only at h ⊢
      split at h
      · simp only [ebind_ok] at h ⊢
        obtain ⟨a, h1, h2⟩ := h
        refine ⟨a, h1, ?_⟩
        split at h2
        · exact ih h2
        · cases h2
      · cases h
    | delim t' sep a cs ce =>
      rw [fromTree.eq_def] at h ⊢; dsimp only at h ⊢
      split at h
      · have key : ∀ (lr : Term) (v : Tree) (g : Grammar) (b : Branch) (tag : Str) (s : Grammar × Branch),
            ((lr.goEq (.delim t' sep a cs ce)).bind fun same =>
            if same then
              match v with
              | .node _ _ _ =>
                (newCounters (some lr)).bind fun c =>
                match (Term.delim t' sep a cs ce).countChildren (ctrs.get []) c with
                | some c' =>
                  (fromTree n lr c' v g []).bind fun s =>
                    (b.one tag (.branch s.2)).bind fun b => .ok (s.1, b)
                | none => .error .panic
              | _ => fromTree n t' ctrs v g b
            else fromTree n lr ctrs v g b) = .ok s → ((lr.goEq (.delim t' sep a cs ce)).bind fun same =>
            if same then
              match v with
              | .node _ _ _ =>
                (newCounters (some lr)).bind fun c =>
                match (Term.delim t' sep a cs ce).countChildren (ctrs.get []) c with
                | some c' =>
                  (fromTree (n + 1) lr c' v g []).bind fun s =>
                    (b.one tag (.branch s.2)).bind fun b => .ok (s.1, b)
                | none => .error .panic
              | _ => fromTree (n + 1) t' ctrs v g b
            else fromTree (n + 1) lr ctrs v g b) = .ok s := by
          intro lr v g b tag s h
          rw [ebind_ok] at h ⊢
          obtain ⟨same, h1, h2⟩ := h
          refine ⟨same, h1, ?_⟩
          split at h2
          · rw [if_pos (by assumption)]
            split at h2
            · rw [ebind_ok] at h2 ⊢
              obtain ⟨c, h3, h4⟩ := h2
              refine ⟨c, h3, ?_⟩
              split at h4
              · rw [ebind_ok] at h4 ⊢
                obtain ⟨s', h5, h6⟩ := h4
                exact ⟨s', ih h5, h6⟩
              · cases h4
            · exact ih h2
          · rw [if_neg (by assumption)]
            exact ih h2
        split at h
        · rw [if_pos (by assumption)]
          exact loopDelim_mono (fun lr v g b s => key lr v g b _ s) h
        · rw [if_neg (by assumption)]
          split at h
          · rw [if_pos (by assumption)]
            exact loopDelim_mono (fun lr v g b s => key lr v g b _ s) h
          · rw [if_neg (by assumption)]
            exact loopDelim_mono (fun lr v g b s => key lr v g b _ s) h
      · cases h
    | quant t' _ _ =>
      rw [fromTree.eq_def] at h ⊢; dsimp only at h ⊢
      split at h
      · exact loopTrees_mono (fun _ _ _ _ h => ih h) h
      · cases h
    | named name t' =>
      rw [fromTree.eq_def] at h ⊢; dsimp only at h ⊢
      simp only [ebind_ok] at h ⊢
      obtain ⟨c, h1, a, h2, h3⟩ := h
      exact ⟨c, h1, a, ih h2, h3⟩
    | ref i d =>
      rw [fromTree.eq_def] at h ⊢; dsimp only at h ⊢
      split at h
      · exact h
      · rw [ebind_ok] at h ⊢
        obtain ⟨a, h1, h2⟩ := h
        exact ⟨a, loopTrees_mono (fun _ _ _ _ h => ih h) h1, h2⟩
      · exact h
    | cut t' => rw [fromTree.eq_def] at h ⊢; dsimp only at h ⊢; exact ih h
    | ext _ => exact h
    | look t' =>
      rw [fromTree.eq_def] at h ⊢; dsimp only at h ⊢
      split at h
      · exact loopTrees_mono (fun _ _ _ _ h => ih h) h
      · cases h
    | stack _ => exact h

theorem fromParserNode_mono {n m : Nat} (hn : n ≤ m) {g : Grammar} {v : Tree} {s} (h : fromParserNode n g v = .ok s) :
    fromParserNode m g v = .ok s := by
  cases v with
  | node tag x cs =>
    simp only [fromParserNode, ebind_ok] at h ⊢
    obtain ⟨c, h1, h2⟩ := h
    refine ⟨c, h1, ?_⟩
    split at h2
    · exact mono_of_step (f := fun n => fromTree n _ _ _ _ _) (fun n _ => fromTree_step n) hn h2
    · cases h2
  | _ => exact h

/-! ## Views -/

theorem mapO_mono {α β : Type} {f f' : α → Option β} (h : ∀ a b, f a = some b → f' a = some b) :
    ∀ {l : List α} {bs}, mapO f l = some bs → mapO f' l = some bs
  | [], _, hl => hl
  | a :: l, bs, hl => by
    simp only [mapO, Option.bind_eq_some_iff, Option.map_eq_some_iff] at hl ⊢
    obtain ⟨b, h1, bs', h2, h3⟩ := hl
    exact ⟨b, h _ _ h1, bs', mapO_mono h h2, h3⟩

theorem obind_mono {α β : Type} {x : Option α} {f f' : α → Option β} {b : β} (h : ∀ a, f a = some b → f' a = some b) (e : x.bind f = some b) :
    x.bind f' = some b := by
  cases x with
  | none => exact e
  | some a => exact h a e

theorem omap_mono {α β : Type} {x x' : Option α} {f : α → β} {b : β} (h : ∀ a, x = some a → x' = some a) (e : x.map f = some b) :
    x'.map f = some b := by
  cases x with
  | none => cases e
  | some a => rw [h a rfl]; exact e

/-- Viewing with more fuel. -/
structure ViewMono (n : Nat) : Prop where
  term : ∀ {a u}, viewTerm n a = some u → viewTerm (n + 1) a = some u
  named : ∀ {a u}, viewNamed n a = some u → viewNamed (n + 1) a = some u
  atom : ∀ {a u}, viewAtom n a = some u → viewAtom (n + 1) a = some u
  quant : ∀ {a u}, viewQuant n a = some u → viewQuant (n + 1) a = some u
  stmt : ∀ {a u}, viewStmt n a = some u → viewStmt (n + 1) a = some u
  grammar : ∀ {a u}, viewGrammar n a = some u → viewGrammar (n + 1) a = some u

theorem view_step : ∀ n, ViewMono n
  | 0 => by constructor <;> intros <;> rename_i h <;> simp [viewTerm, viewNamed, viewAtom, viewQuant, viewStmt, viewGrammar] at h
  | n + 1 => by
    have ih := view_step n
    have hterms : ∀ {l us}, mapO (viewTerm n) l = some us → mapO (viewTerm (n + 1)) l = some us := mapO_mono fun _ _ => ih.term
    constructor
    · intro a u h
      rw [viewTerm] at h ⊢
      split at h
      · rw [if_pos (by assumption)]
        split at h
        · rw [if_pos (by assumption)]
          rw [Option.bind_eq_some_iff] at h ⊢
          obtain ⟨nm, h1, h2⟩ := h
          exact ⟨nm, obind_mono (fun _ => ih.named) h1, omap_mono (fun _ => mapO_mono fun _ _ => ih.quant) h2⟩
        · cases h
      · rw [if_neg (by assumption)]
        split at h
        · rw [if_pos (by assumption)]
          refine obind_mono (fun op h => ?_) h
          rw [Option.bind_eq_some_iff] at h ⊢
          obtain ⟨gs, h1, h2⟩ := h
          exact ⟨gs, mapO_mono (fun _ _ => ih.grammar) h1, omap_mono (fun _ => hterms) h2⟩
        · cases h
    · intro a u h
      rw [viewNamed] at h ⊢
      exact obind_mono (fun i h => omap_mono (fun _ => obind_mono fun _ => ih.atom) h) h
    · intro a u h
      cases a with
      | branch b =>
        rw [viewAtom] at h ⊢
        split at h
        · rw [if_pos (by assumption)]
          split at h
          · rw [if_pos (by assumption)]; exact h
          · rw [if_neg (by assumption)]
            split at h
            · rw [if_pos (by assumption)]; exact h
            · rw [if_neg (by assumption)]
              split at h
              · rw [if_pos (by assumption)]; exact h
              · rw [if_neg (by assumption)]
                split at h
                · rw [if_pos (by assumption)]
                  exact obind_mono (fun c h => obind_mono (fun _ h => omap_mono (fun _ => hterms) h) h) h
                · rw [if_neg (by assumption)]
                  split at h
                  · rw [if_pos (by assumption)]; exact h
                  · rw [if_neg (by assumption)]
                    split at h
                    · rw [if_pos (by assumption)]; exact h
                    · rw [if_neg (by assumption)]
                      split at h
                      · rw [if_pos (by assumption)]; exact omap_mono (fun _ => obind_mono fun _ => ih.term) h
                      · rw [if_neg (by assumption)]
                        split at h
                        · rw [if_pos (by assumption)]; exact omap_mono (fun _ => obind_mono fun _ => ih.term) h
                        · rw [if_neg (by assumption)]; exact h
        · cases h
      | leaf _ => simp [viewAtom] at h
      | extra _ => simp [viewAtom] at h
    · intro a u h
      rw [viewQuant] at h ⊢
      split at h
      · exact h
      · exact h
      · split at h
        · rw [if_pos (by assumption)]
          exact obind_mono (fun _ => obind_mono fun _ => obind_mono fun _ => omap_mono fun _ => obind_mono fun _ => ih.named) h
        · cases h
      · cases h
    · intro a u h
      rw [viewStmt] at h ⊢
      split at h
      · exact h
      · exact obind_mono (fun _ => omap_mono fun _ => hterms) h
      · split at h
        · exact h
        · exact obind_mono (fun _ => obind_mono fun _ => omap_mono fun _ => obind_mono fun _ => ih.term) h
        · cases h
      · cases h
    · intro a u h
      rw [viewGrammar] at h ⊢
      exact omap_mono (fun _ => mapO_mono fun _ _ => ih.stmt) h

theorem viewGrammar_mono {n m : Nat} (hn : n ≤ m) {a g} (h : viewGrammar n a = some g) : viewGrammar m a = some g := by
  induction hn with
  | refl => exact h
  | step _ ih => exact (view_step _).grammar ih

end Wbnf

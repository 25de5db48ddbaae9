import Verif.Spec.Core
import Verif.Lemmas.Places
import Verif.Lemmas.Leaf
import Verif.Props.Terminates
import Verif.Props.Safe

/-!
The grammar of grammars: what has to be checked for C53.
-/

namespace Wbnf.Core

/-- The grammar with its stack resolved. -/
def flat : Grammar := (grammar.resolveStacks).getD []

/-- The stacks of grammars that are met: the pragmas have a grammar in braces. -/
def frames : List (List Grammar) := [[flat], [pragmaGrammar, flat]]

/-- What the parts look like. -/
def part (Γ : List Grammar) : Term → Bool
  | .rule r => Γ.any fun g => hasKey r g
  | .s l => (literals.map str).contains l
  | .re l => (wrap :: regexps).contains (.re l)
  | _ => true

/-- The leaves that consume something. -/
def leaf (p : Str) : Bool :=
  literals.any (fun l => p = anchor ++ (str "(" ++ quoteMeta (str l) ++ str ")")) ||
  regexps.any (fun | .re l => p = anchor ++ (str "(" ++ l ++ str ")") | _ => false)

def depth (r : Str) : Bool := r ≠ wrapRE

def ranks : List (Str × Nat) := [(str "macrocall", 1), (str "REF", 1), (str "atom", 2), (str "named", 3), (str "term@3", 4),
  (str "term@2", 5), (str "term@1", 6), (str "term", 7), (str "import", 1), (str "macrodef", 1), (str "pragma", 2),
  (str "prod", 2), (str "stmt", 3), (str "grammar", 4)]

def rank (r : Str) : Nat := (lookup r ranks).getD 0

set_option maxRecDepth 100000 in
theorem flat_ok : grammar.resolveStacks = Option.some flat := by decide +kernel

set_option maxRecDepth 100000 in
theorem frames_ok : framesOK frames part = true := by decide +kernel
set_option maxRecDepth 100000 in
theorem frames_noAlias : noAlias frames = true := by decide +kernel
set_option maxRecDepth 100000 in
theorem frames_places : placesCheck frames leaf depth rank = true := by decide +kernel
theorem wrapOf_frames : ∀ Γ ∈ frames, wrapOf Γ = Option.some wrap := by
  intro Γ h
  have : frames.all (fun Γ => wrapOf Γ = Option.some wrap) = true := by decide +kernel
  simpa using List.all_eq_true.1 this Γ h

/-- With the wrapper in force there is one regexp for a leaf. -/
theorem leafPattern_wrap {text own p : Str} :
    LeafPattern (Option.some wrap) text (str "(" ++ own ++ str ")") p ↔ anchor ++ p = pattern own := by
  have key : ∀ own, replaceParens (str "(?:" ++ (str "(" ++ own ++ str ")") ++ str ")") (str "\\s*()\\s*") =
      str "\\s*(?:(" ++ own ++ str "))\\s*" := by
    intro own
    have h1 : replaceParens (str "(?:" ++ (str "(" ++ own ++ str ")") ++ str ")") (str "\\s*()\\s*") =
      str "\\s*" ++ (str "(?:" ++ (str "(" ++ own ++ str ")") ++ str ")") ++ str "\\s*" := rfl
    rw [h1]
    have h2 : str "\\s*(?:(" = str "\\s*" ++ str "(?:" ++ str "(" := rfl
    have h3 : str "))\\s*" = str ")" ++ str ")" ++ str "\\s*" := rfl
    rw [h2, h3]
    simp
  constructor
  · intro h
    cases h with
    | plain e => exact absurd e (by simp)
    | exempt e _ => exact absurd e (by simp [wrap, re])
    | listed e _ _ => exact absurd e (by simp [wrap, re])
    | wrapped e h =>
      simp only [wrap, re, Option.some.injEq, Term.re.injEq] at e
      subst e
      rw [spliced_iff, key] at h
      rw [h, pattern]; simp
  · intro h
    refine .wrapped (w := str "\\s*()\\s*") rfl (spliced_iff.2 ?_)
    rw [key]
    simp only [pattern, List.append_assoc, List.append_cancel_left_eq] at h
    rw [h]; simp

theorem literal_mem {Γ l} (h : part Γ (.s l) = true) : pattern (quoteMeta l) ∈ patterns := by
  simp only [part, List.contains_eq_mem, List.mem_map, decide_eq_true_eq] at h
  obtain ⟨l', h, rfl⟩ := h
  exact List.mem_append_left _ (List.mem_map_of_mem h)

theorem regexp_mem {Γ l} (h : part Γ (.re l) = true) : pattern l ∈ wrapPattern :: patterns := by
  simp only [part, List.contains_eq_mem, decide_eq_true_eq, List.mem_cons] at h
  rcases h with h | h
  · cases h; exact List.mem_cons_self
  · exact List.mem_cons_of_mem _ (List.mem_append_right _ (List.mem_filterMap.2 ⟨_, h, rfl⟩))

variable {E : Engine} {ρ : Nat → Nat} {n : Nat} {x : Str}

theorem leavesValid (h : EngineOK E) : LeavesValid E frames part := by
  intro Γ hΓ
  rw [wrapOf_frames Γ hΓ]
  refine ⟨fun l hl => ?_, fun l hl => ?_⟩
  · exact ⟨_, leafPattern_wrap.2 (show _ = pattern (quoteMeta l) by simp only [pattern, List.append_assoc]; rfl),
      by simpa [pattern] using h.valid _ (List.mem_cons_of_mem _ (literal_mem hl))⟩
  · exact ⟨_, leafPattern_wrap.2 (show _ = pattern l by simp only [pattern, List.append_assoc]; rfl),
      by simpa [pattern] using h.valid _ (regexp_mem hl)⟩

theorem leavesConsume (h : EngineOK E) : LeavesConsume E leaf frames := by
  intro Γ hΓ text group p hl hp
  rw [wrapOf_frames Γ hΓ] at hp
  simp only [leaf, Bool.or_eq_true, List.any_eq_true, decide_eq_true_eq] at hl
  rcases hl with ⟨l, hm, e⟩ | ⟨t, hm, e⟩
  · rw [List.append_cancel_left_eq] at e
    subst e
    rw [leafPattern_wrap.1 hp]
    exact h.consumes _ (List.mem_append_left _ (List.mem_map_of_mem hm))
  · split at e
    · rename_i l
      simp only [decide_eq_true_eq, List.append_cancel_left_eq] at e
      subst e
      rw [leafPattern_wrap.1 hp]
      exact h.consumes _ (List.mem_append_right _ (List.mem_filterMap.2 ⟨_, hm, rfl⟩))
    · simp at e

theorem start_at : (Term.rule (str "grammar")).allAt frames part [flat] = true := by decide +kernel
theorem flat_mem : [flat] ∈ frames := List.mem_cons_self

/-- The literal compiles. -/
theorem compiles (h : EngineOK E) : ∃ N ps, ∀ n, N ≤ n → grammar.compile E n = .ok ps :=
  C24_compile_iff.2 (compiles_at frames_ok frames_noAlias (leavesValid h) flat_ok flat_mem)

theorem patternsSafe (h : EngineOK E) {Γ t} (hΓ : Γ ∈ frames) (ht : t.allAt frames part Γ = true) :
    PatternsSatisfy (LeafSafe E) Γ t := by
  intro Γ' t' p hp hm
  obtain ⟨hΓ', ht'⟩ := partOf_at frames_ok hp hΓ ht
  have hq := Term.allAt_self ht'
  cases hm with
  | lit hl =>
    rw [wrapOf_frames _ hΓ'] at hl
    rw [leafPattern_wrap.1 hl]
    exact h.groups _ (List.mem_cons_of_mem _ (literal_mem hq))
  | regexp hl =>
    rw [wrapOf_frames _ hΓ'] at hl
    rw [leafPattern_wrap.1 hl]
    exact h.groups _ (regexp_mem hq)
  | ref => simp [Term.allAt] at ht'

theorem placesSafe {X : Externals} (hE : E.Sane) (h : EngineOK E) (r : Str) :
    NoLeftRecursion E X ([flat], .rule r) ∧ NoEmptyLoop E X ([flat], .rule r) :=
  placesCheck_sound hE (leavesConsume h) frames_places flat_mem r

theorem closed : Closed [flat] (.rule (str "grammar")) :=
  closed_at frames_ok frames_noAlias flat_mem start_at fun _ _ h => h

end Wbnf.Core

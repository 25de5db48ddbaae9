import Verif.Spec.Parts

/-! Checking the parts of a grammar without grammars in braces. -/

namespace Wbnf

mutual
/-- `q` holds of the term and its parts; no grammar in braces inside. -/
def Term.allParts (q : Term → Bool) : Term → Bool
  | .seq ts => q (.seq ts) && allPartsList q ts
  | .oneof ts => q (.oneof ts) && allPartsList q ts
  | .stack ts => q (.stack ts) && allPartsList q ts
  | .delim t sep a cs ce => q (.delim t sep a cs ce) && t.allParts q && sep.allParts q
  | .look t => q (.look t) && t.allParts q
  | .quant t lo hi => q (.quant t lo hi) && t.allParts q
  | .named n t => q (.named n t) && t.allParts q
  | .cut t => q (.cut t) && t.allParts q
  | .scope _ _ => false
  | .rule r => q (.rule r)
  | .s l => q (.s l)
  | .re l => q (.re l)
  | .ref i d => q (.ref i d)
  | .ext x => q (.ext x)
def allPartsList (q : Term → Bool) : List Term → Bool
  | [] => true
  | t :: ts => t.allParts q && allPartsList q ts
end

def Grammar.allParts (q : Term → Bool) (g : Grammar) : Bool := g.all fun e => e.2.allParts q

theorem allPartsList_mem {q ts} (h : allPartsList q ts = true) : ∀ t ∈ ts, t.allParts q = true := by
  induction ts with
  | nil => simp
  | cons t ts ih =>
    simp only [allPartsList, Bool.and_eq_true] at h
    intro u hu
    simp at hu
    rcases hu with rfl | hu
    · exact h.1
    · exact ih h.2 u hu

theorem Term.allParts_self {q t} (h : Term.allParts q t = true) : q t = true := by
  cases t <;> simp_all [Term.allParts]

theorem lookup_mem {α} {k : Str} {g : List (Str × α)} {v} (h : lookup k g = some v) : (k, v) ∈ g := by
  induction g with
  | nil => simp [lookup] at h
  | cons e g ih =>
    obtain ⟨k', v'⟩ := e
    simp only [lookup] at h
    split at h
    · rename_i hk; simp at h; subst h; subst hk; simp
    · exact List.mem_cons_of_mem _ (ih h)

theorem lookup_of_mem {α : Type} {k : Str} {c : α} {b : List (Str × α)} (hn : (b.map Prod.fst).Nodup) (hm : (k, c) ∈ b) : lookup k b = some c := by
  induction b with
  | nil => simp at hm
  | cons e b ih =>
    obtain ⟨k', c'⟩ := e
    simp only [List.map_cons, List.nodup_cons] at hn
    rcases List.mem_cons.1 hm with e | hm
    · cases e; simp [lookup]
    · have : k' ≠ k := fun e => hn.1 (e ▸ List.mem_map.2 ⟨_, hm, rfl⟩)
      simp [lookup, this, ih hn.2 hm]

theorem Defines.mem {g r t} (h : Defines g r t) : ∃ k, (k, t) ∈ g := by
  induction h with
  | here h _ => exact ⟨_, lookup_mem h⟩
  | «alias» _ _ ih => exact ih

theorem partOf_check {q : Term → Bool} {g : Grammar} (hg : g.allParts q = true) {Γ t Γ' t'}
    (h : PartOf Γ t Γ' t') (hΓ : Γ = [g]) (ht : t.allParts q = true) : Γ' = [g] ∧ q t' = true := by
  induction h with
  | refl => exact ⟨hΓ, Term.allParts_self ht⟩
  | rule hr _ ih =>
    subst hΓ
    cases hr with
    | here hd =>
      obtain ⟨k, hk⟩ := hd.mem
      exact ih rfl (by simpa using (List.all_eq_true.1 hg) _ hk)
    | outer _ h => cases h
  | named _ ih => simp [Term.allParts] at ht; exact ih hΓ ht.2
  | cut _ ih => simp [Term.allParts] at ht; exact ih hΓ ht.2
  | scope => simp [Term.allParts] at ht
  | seq hm _ ih => simp [Term.allParts] at ht; exact ih hΓ (allPartsList_mem ht.2 _ hm)
  | oneof hm _ ih => simp [Term.allParts] at ht; exact ih hΓ (allPartsList_mem ht.2 _ hm)
  | quant _ ih => simp [Term.allParts] at ht; exact ih hΓ ht.2
  | look _ ih => simp [Term.allParts] at ht; exact ih hΓ ht.2
  | delimTerm _ ih => simp [Term.allParts] at ht; exact ih hΓ ht.1.2
  | delimSep _ ih => simp [Term.allParts] at ht; exact ih hΓ ht.2

/-- The parts of a grammar, by a check. -/
theorem partOf_rule {q : Term → Bool} {g : Grammar} (hg : g.allParts q = true) (hr : ∀ r, q (.rule r) = true)
    {r Γ' t'} (h : PartOf [g] (.rule r) Γ' t') : Γ' = [g] ∧ q t' = true :=
  partOf_check hg h rfl (by simpa [Term.allParts] using hr r)

/-- Literals and regexps without wrapper satisfy `q`; no references of any kind, no look-ahead. -/
def plainLeaf (q : Str → Bool) : Term → Bool
  | .s l => q (anchor ++ (str "(" ++ quoteMeta l ++ str ")"))
  | .re l => q (anchor ++ (str "(" ++ l ++ str ")"))
  | .ref _ _ => false
  | .ext _ => false
  | .look _ => false
  | _ => true

theorem plainLeaf_check {q : Str → Bool} {Q : Str → Prop} (hq : ∀ p, q p = true → Q p) {g : Grammar}
    (hw : lookup wrapRE g = none) (hg : g.allParts (plainLeaf q) = true) (r : Str) :
    PatternsSatisfy Q [g] (.rule r) ∧ NoLook [g] (.rule r) ∧ NoExt [g] (.rule r) := by
  refine ⟨fun Γ' t' p h hm => ?_, fun Γ' t' h => ?_, fun Γ' x h => ?_⟩
  · obtain ⟨rfl, hpl⟩ := partOf_rule hg (fun _ => rfl) h
    have hplain : ∀ {text group}, LeafPattern (wrapOf [g]) text group p → p = group := by
      intro text group hp
      cases hp with
      | plain => rfl
      | exempt h => simp [wrapOf, hw] at h
      | listed h => simp [wrapOf, hw] at h
      | wrapped h => simp [wrapOf, hw] at h
    cases hm with
    | lit hp => rw [hplain hp]; exact hq _ hpl
    | regexp hp => rw [hplain hp]; exact hq _ hpl
    | ref => simp [plainLeaf] at hpl
  · have := (partOf_rule hg (fun _ => rfl) h).2; simp [plainLeaf] at this
  · have := (partOf_rule hg (fun _ => rfl) h).2; simp [plainLeaf] at this

end Wbnf

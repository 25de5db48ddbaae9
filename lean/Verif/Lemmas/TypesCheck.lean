import Verif.Spec.Types
import Verif.Lemmas.Convertible

/-!
# Checking that the types of a grammar can be used
-/

namespace Wbnf

def Term.plainSepB : Term → Bool
  | .s _ => true
  | .cut (.s _) => true
  | .named _ _ => true
  | _ => false

def Term.isTokenB : Term → Bool
  | .s _ => true
  | .re _ => true
  | _ => false

def Grammar.tokenRuleB (camel : Str → Str) (tm : TypeMap) (g : Grammar) (r : Str) : Bool :=
  (match lookup (typeOf camel r) tm with
   | some (.basic _) => true
   | _ => false) && g.any fun e => decide (e.1 = r) && e.2.isTokenB

def Grammar.selfRuleB (camel : Str → Str) (g : Grammar) (r : Str) : Bool :=
  g.any fun e => decide (e.1 = r) && decide ((typeOf camel r, r, Use.node (typeOf camel r)) ∈ e.2.nameUses camel r (goName camel r))

def notAt : Term → Bool
  | .rule r => decide (r ≠ atRule)
  | _ => true

def Term.typedB (camel : Str → Str) (tm : TypeMap) (g : Grammar) : Term → Bool
  | .rule r => decide (r = atRule) || (decide (ChildName r) && decide (shownName r = r))
  | .ref i _ => decide (ChildName i)
  | .named n t => decide (ChildName n) &&
    match t with
    | .rule r => decide (r = atRule) || (decide (shownName r = r) && (decide (goTypeName camel r = typeOf camel r) &&
      (g.tokenRuleB camel tm r || g.selfRuleB camel r)))
    | .cut (.s _) => true
    | .cut _ => false
    | t => t.deepB notAt
  | .delim _ sep _ _ _ => sep.plainSepB
  | .scope _ _ => false
  | _ => true

def Grammar.typedB (camel : Str → Str) (tm : TypeMap) (g : Grammar) : Bool :=
  decide (g.map Prod.fst).Nodup && (g.all (fun e => decide (ChildName e.1) && decide (shownName e.1 = e.1)) &&
  (g.all (fun e => match e.2 with
    | .stack ls => (List.range ls.length).all fun i => decide (shownName (layer e.1 i) = e.1)
    | t => t.deepB notAt) &&
  (deepDefsB (Term.typedB camel tm g) g && decide (OneWay (g.nameUses camel)))))

theorem plainSep_of {t : Term} (h : t.plainSepB = true) : t.PlainSep := by
  unfold Term.plainSepB at h
  split at h <;> first | exact trivial | simp at h

theorem isToken_of {t : Term} (h : t.isTokenB = true) : t.IsToken := by
  cases t <;> simp_all [Term.isTokenB, Term.IsToken]

theorem notAt_of (t : Term) (h : notAt t = true) : t ≠ .rule atRule := by
  rintro rfl
  simp [notAt] at h

theorem tokenRule_of {camel : Str → Str} {tm g r} (h : Grammar.tokenRuleB camel tm g r = true) : Grammar.TokenRule camel tm g r := by
  simp only [Grammar.tokenRuleB, Bool.and_eq_true, List.any_eq_true, decide_eq_true_eq] at h
  obtain ⟨h1, e, he, rfl, ht⟩ := h
  refine ⟨?_, e.2, he, isToken_of ht⟩
  split at h1
  · rename_i x hx; exact ⟨x, hx⟩
  · simp at h1

theorem selfRule_of {camel : Str → Str} {g r} (h : Grammar.selfRuleB camel g r = true) : Grammar.SelfRule camel g r := by
  simp only [Grammar.selfRuleB, Bool.and_eq_true, List.any_eq_true, decide_eq_true_eq] at h
  obtain ⟨e, he, rfl, ht⟩ := h
  exact ⟨e.2, he, ht⟩

theorem termTyped_of {camel : Str → Str} {tm g} (t : Term) (h : t.typedB camel tm g = true) : t.Typed camel tm g := by
  cases t with
  | rule r => simpa [Term.typedB, Term.Typed] using h
  | ref i d => simpa [Term.typedB, Term.Typed] using h
  | scope t g => simp [Term.typedB] at h
  | delim t sep a cs ce => exact plainSep_of h
  | named n t =>
    simp only [Term.typedB, Bool.and_eq_true, decide_eq_true_eq] at h
    refine ⟨h.1, ?_⟩
    have h2 := h.2
    cases t with
    | rule r =>
      simp only [Bool.or_eq_true, Bool.and_eq_true, decide_eq_true_eq] at h2
      rcases h2 with h2 | ⟨h3, h4, h5⟩
      · exact .inl h2
      · exact .inr ⟨h3, h4, h5.imp tokenRule_of selfRule_of⟩
    | cut t =>
      cases t <;> simp at h2
      exact ⟨_, rfl⟩
    | _ => exact deep_of_deepB notAt_of _ h2
  | _ => trivial

theorem typed_of_typedB {camel : Str → Str} {tm : TypeMap} {g : Grammar} (h : g.typedB camel tm = true) : g.Typed camel tm := by
  simp only [Grammar.typedB, Bool.and_eq_true, decide_eq_true_eq, List.all_eq_true] at h
  obtain ⟨h1, h2, h3, h4, h5⟩ := h
  refine ⟨h1, fun r t hm => h2 _ hm, ?_, ?_, deepDefs_of_deepDefsB termTyped_of g h4, h5⟩
  · intro r ls hm i hi
    have := h3 _ hm
    simp only [List.all_eq_true, decide_eq_true_eq, List.mem_range] at this
    exact this i hi
  · intro r t hm hs
    have := h3 _ hm
    cases t <;> first | (simp [Term.isStack] at hs; done) | exact deep_of_deepB notAt_of _ this

end Wbnf

namespace Wbnf

/-! ## Nodes that cannot be read -/

/-- The type of what a value gives, if it may give this. -/
def GoValue.mayGive (kids : Kids) : GoValue → Option (Option Str)
  | .nodes ty ns => if ns.length = kids.nodes.length then some (some ty) else none
  | .node ty n => if n.isSome then some (some ty) else none
  | .texts xs => if xs.length = kids.nodes.length then some none else none
  | .text x => if kids.nodes.head?.bind Ast.text = some x then some none else none
  | .ast n => if n.isSome then some none else none
  | .int _ => none

theorem mapO_length {α β : Type} {f : α → Option β} : ∀ {xs : List α} {ys : List β}, mapO f xs = some ys → ys.length = xs.length
  | [], ys, h => by simp [mapO] at h; simp [← h]
  | x :: xs, ys, h => by
    simp only [mapO] at h
    cases hx : f x <;> simp [hx] at h
    cases hy : mapO f xs <;> simp [hy] at h
    rw [← h]
    simp [mapO_length hy]

theorem mayGive_of {ty : Option Str} {kids : Kids} {v : GoValue} (h : v.Gives ty kids) : v.mayGive kids = some ty := by
  cases v <;> simp only [GoValue.Gives] at h
  · obtain ⟨rfl, n, h1, h2⟩ := h
    simp [GoValue.mayGive, h1, h2]
  · obtain ⟨rfl, h⟩ := h
    simp [GoValue.mayGive, mapO_length h]
  · obtain ⟨rfl, h, _⟩ := h
    simp [GoValue.mayGive, h]
  · obtain ⟨rfl, rfl⟩ := h
    simp [GoValue.mayGive]
  · obtain ⟨rfl, h, _⟩ := h
    simp [GoValue.mayGive, h]

/-- A check that legible nodes pass. -/
def legibleB (camel : Str → Str) (tm : TypeMap) : Nat → Str → Ast → Bool
  | 0, _, _ => true
  | f + 1, ty, n =>
    ((allMethods camel tm).any fun d => decide (d.receiver = ty) &&
      match d.does.run n with
      | some (.text x) => decide (n.text = some x)
      | _ => false) ||
    match n with
    | .branch b => b.all fun e => !decide (IsName e.1) ||
      match lookup e.1 b with
      | none => true
      | some kids => (allMethods camel tm).any fun d => decide (d.receiver = ty) &&
        match (d.does.run n).bind (GoValue.mayGive kids) with
        | none => false
        | some none => true
        | some (some ty') => kids.nodes.all (legibleB camel tm f ty')
    | _ => false

theorem legibleB_of {camel : Str → Str} {tm : TypeMap} {ty n} (h : Legible camel tm ty n) : ∀ f, legibleB camel tm f ty n = true := by
  induction h with
  | @text ty n d x h1 h2 h3 h4 =>
    intro f
    cases f with
    | zero => rfl
    | succ f =>
      simp only [legibleB, Bool.or_eq_true, List.any_eq_true]
      exact .inl ⟨d, h1, by simp [h2, h3, h4]⟩
  | @node ty b inner h1 _ ih =>
    intro f
    cases f with
    | zero => rfl
    | succ f =>
      simp only [legibleB, Bool.or_eq_true, List.all_eq_true]
      refine .inr fun e he => ?_
      by_cases hk : IsName e.1
      · right
        split
        · rfl
        · rename_i kids hl
          obtain ⟨d, hd, hr, v, hv, hg⟩ := h1 _ _ hl hk
          simp only [List.any_eq_true]
          refine ⟨d, hd, ?_⟩
          simp only [hr, decide_true, hv, Option.bind_some, mayGive_of hg, Bool.true_and]
          cases hi : inner e.1 with
          | none => rfl
          | some ty' =>
            simp only [List.all_eq_true]
            exact fun n hn => ih _ _ _ _ hl hk hi hn f
      · left; simp [hk]

theorem not_legible {camel : Str → Str} {tm : TypeMap} {ty n} (f : Nat) (h : legibleB camel tm f ty n = false) : ¬ Legible camel tm ty n := by
  intro hl
  rw [legibleB_of hl f] at h
  simp at h

end Wbnf

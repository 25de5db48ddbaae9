import Verif.Lemmas.Checked
import Verif.Lemmas.Build
import Verif.Lemmas.Cutpoints
import Verif.Lemmas.Scope

/-!
# The names a grammar built from a syntax tree refers to
-/

namespace Wbnf

variable {x : Str}

theorem mapE_mem {α β : Type} {f : α → Except Stop β} : {l : List α} → {bs : List β} → mapE f l = .ok bs → ∀ b ∈ bs, ∃ a ∈ l, f a = .ok b
  | [], bs, h, b, hb => by simp only [mapE, Except.ok.injEq] at h; subst h; simp at hb
  | a :: l, bs, h, b, hb => by
    simp only [mapE, ebind_ok, Except.ok.injEq] at h
    obtain ⟨c, h1, cs, h2, rfl⟩ := h
    rcases List.mem_cons.1 hb with rfl | hb
    · exact ⟨a, by simp, h1⟩
    · obtain ⟨a', ha, h'⟩ := mapE_mem h2 b hb
      exact ⟨a', .tail _ ha, h'⟩

theorem seqOf_uses {ts : List Term} (h : (seqOf ts).Uses x) : usesList x ts := by
  unfold seqOf at h
  split at h
  · simpa [usesList] using h
  · simpa [Term.Uses] using h

theorem joinTerms_uses {op : Str} {ts : List Term} (h : (joinTerms op none ts).Uses x) : usesList x ts := by
  unfold joinTerms at h
  split at h
  · simpa [Term.Uses] using h
  · split at h
    · exact (by simpa [Term.Uses] using h : _ ∧ _).2
    · exact seqOf_uses h

/-- A node that validation looks into: no macro call and no grammar in braces. -/
def Item.Plain : Item → Prop
  | .macrocall _ _ => False
  | .term (.many _ gs _) => gs = []
  | _ => True

/-- All that is reached in this tree is such. -/
def WTree.Plain (t : WTree) : Prop := ∀ i, t.Outer Item.unchecked i → i.Plain

theorem plain_kid {i : Item} {ks : List WTree} {k : WTree} (h : (WTree.mk i ks).Plain) (hi : i.unchecked = false) (hk : k ∈ ks) : k.Plain :=
  fun _ hj => h _ (.inner hi hk hj)

/-- What building refers to, it found. -/
structure Finds (ms : Macros) (n : Nat) (x : Str) : Prop where
  term : ∀ {t u}, t.tree.Plain → buildTerm ms n t = .ok u → u.Uses x → t.tree.Outer Item.unchecked (.atom (.ident x))
  quants : ∀ {qs t u}, (∀ q ∈ qs, q.tree.Plain) → buildQuants ms n qs t = .ok u → u.Uses x →
    t.Uses x ∨ ∃ q ∈ qs, q.tree.Outer Item.unchecked (.atom (.ident x))
  named : ∀ {t u}, t.tree.Plain → buildNamed ms n t = .ok u → u.Uses x → t.tree.Outer Item.unchecked (.atom (.ident x))
  quant : ∀ {q t u}, q.tree.Plain → buildQuant ms n q t = .ok u → u.Uses x →
    t.Uses x ∨ q.tree.Outer Item.unchecked (.atom (.ident x))
  atom : ∀ {t u}, t.tree.Plain → buildAtom ms n t = .ok u → u.Uses x → t.tree.Outer Item.unchecked (.atom (.ident x))

theorem finds (ms : Macros) (x : Str) : ∀ n, Finds ms n x
  | 0 => by constructor <;> intros <;> rename_i h _ <;> simp [buildTerm, buildQuants, buildNamed, buildQuant, buildAtom] at h
  | n + 1 => by
    have ih := finds ms x n
    constructor
    · intro t u hp h hu
      cases t with
      | many op gs ts =>
        rw [buildTerm, ebind_ok] at h
        obtain ⟨us, h1, h2⟩ := h
        rw [TermN.tree] at hp ⊢
        have hg : gs = [] := hp _ .here
        subst hg
        have : u = joinTerms op none us := by
          split at h2
          · simpa using h2.symm
          · simpa using h2.symm
        subst this
        obtain ⟨v, hv, hx⟩ := usesList_iff.1 (joinTerms_uses hu)
        obtain ⟨t, ht, hb⟩ := mapE_mem h1 v hv
        have hk : t.tree ∈ grammarTrees [] ++ termTrees ts := List.mem_append.2 (.inr (mem_termTrees.2 ⟨t, ht, rfl⟩))
        exact .inner rfl hk (ih.term (plain_kid hp rfl hk) hb hx)
      | one nm qs =>
        rw [buildTerm, ebind_ok] at h
        obtain ⟨v, h1, h2⟩ := h
        rw [TermN.tree] at hp ⊢
        have hk : ∀ q ∈ qs.reverse, q.tree ∈ nm.tree :: quantTrees qs := fun q hq =>
          .tail _ (mem_quantTrees.2 ⟨q, List.mem_reverse.1 hq, rfl⟩)
        rcases ih.quants (fun q hq => plain_kid hp rfl (hk q hq)) h2 hu with hv | ⟨q, hq, h⟩
        · exact .inner rfl (.head _) (ih.named (plain_kid hp rfl (.head _)) h1 hv)
        · exact .inner rfl (hk q hq) h
    · intro qs t u hp h hu
      cases qs with
      | nil => simp only [buildQuants, Except.ok.injEq] at h; exact .inl (h ▸ hu)
      | cons q qs =>
        rw [buildQuants, ebind_ok] at h
        obtain ⟨v, h1, h2⟩ := h
        rcases ih.quants (fun q hq => hp q (.tail _ hq)) h2 hu with hv | ⟨q, hq, h⟩
        · rcases ih.quant (hp q (.head _)) h1 hv with h | h
          · exact .inl h
          · exact .inr ⟨q, .head _, h⟩
        · exact .inr ⟨q, .tail _ hq, h⟩
    · intro t u hp h hu
      cases t with
      | mk i a =>
        rw [buildNamed, ebind_ok] at h
        obtain ⟨v, h1, h2⟩ := h
        rw [NamedN.tree] at hp ⊢
        refine .inner rfl (.head _) (ih.atom (plain_kid hp rfl (.head _)) h1 ?_)
        simp only [Except.ok.injEq] at h2
        subst h2
        unfold nameTerm at hu
        split at hu
        · split at hu
          · exact hu
          · simpa [Term.Uses] using hu
        · exact hu
    · intro q t u hp h hu
      cases q with
      | op o =>
        rw [buildQuant] at h
        left
        split at h
        · simp only [Except.ok.injEq] at h; subst h; simpa [anyT, Term.Uses] using hu
        · split at h
          · simp only [Except.ok.injEq] at h; subst h; simpa [optT, Term.Uses] using hu
          · split at h
            · simp only [Except.ok.injEq] at h; subst h; simpa [someT, Term.Uses] using hu
            · simp at h
      | range lo hi =>
        simp only [buildQuant, ebind_ok, Except.ok.injEq] at h
        obtain ⟨_, _, _, _, rfl⟩ := h
        exact .inl (by simpa [Term.Uses] using hu)
      | sep op l tr nm =>
        simp only [buildQuant, ebind_ok, Except.ok.injEq] at h
        obtain ⟨_, _, v, hv, rfl⟩ := h
        rw [QuantN.tree] at hp ⊢
        have : t.Uses x ∨ v.Uses x := by simpa [Term.Uses] using hu
        rcases this with hu | hu
        · exact .inl hu
        · exact .inr (.inner rfl (.head _) (ih.named (plain_kid hp rfl (.head _)) hv hu))
    · intro t u hp h hu
      cases t with
      | ident i =>
        simp only [buildAtom, Except.ok.injEq] at h
        subst h
        have : i = x := by simpa [Term.Uses] using hu
        subst this
        exact .here
      | str y =>
        simp only [buildAtom, ebind_ok, Except.ok.injEq] at h
        obtain ⟨_, _, rfl⟩ := h
        simp [Term.Uses] at hu
      | re y =>
        simp only [buildAtom, Except.ok.injEq] at h
        subst h
        simp [Term.Uses] at hu
      | ref i d =>
        cases d with
        | none =>
          simp only [buildAtom, Except.ok.injEq] at h
          subst h
          simp [Term.Uses] at hu
        | some y =>
          simp only [buildAtom] at h
          split at h
          · simp only [Except.ok.injEq] at h; subst h; simp [Term.Uses] at hu
          · simp only [ebind_ok, Except.ok.injEq] at h
            obtain ⟨_, _, rfl⟩ := h
            simp [Term.Uses] at hu
      | ext i =>
        simp only [buildAtom, Except.ok.injEq] at h
        subst h
        simp [Term.Uses] at hu
      | look t =>
        simp only [buildAtom, ebind_ok, Except.ok.injEq] at h
        obtain ⟨v, h1, rfl⟩ := h
        rw [AtomN.tree] at hp ⊢
        exact .inner rfl (.head _) (ih.term (plain_kid hp rfl (.head _)) h1 (by simpa [Term.Uses] using hu))
      | term t =>
        simp only [buildAtom] at h
        rw [AtomN.tree] at hp ⊢
        exact .inner rfl (.head _) (ih.term (plain_kid hp rfl (.head _)) h hu)
      | macrocall m args =>
        rw [AtomN.tree] at hp
        exact (hp _ (.inner rfl (.head _) .here)).elim
      | unit =>
        simp only [buildAtom, Except.ok.injEq] at h
        subst h
        simp [Term.Uses, usesList] at hu

variable {u : Str → Bool}

theorem fixTerms_length {f : Term → Term} {d : Bool} : (ts : List Term) → (fixTerms f d ts).length = ts.length
  | [] => rfl
  | t :: ts => by simp [fixTerms, fixTerms_length ts]

theorem mem_rebuild {f : Term → Term} {d : Bool} {r : Str} {t : Term} : {g : List (Str × Term)} → (r, t) ∈ g → (r, fixTerm f d t) ∈ rebuildGrammar f d g
  | [], h => by simp at h
  | (r', t') :: g, h => by
    rw [rebuildGrammar]
    rcases List.mem_cons.1 h with h | h
    · cases h; exact .head _
    · exact .tail _ (mem_rebuild h)

theorem has_fix {g : Grammar} (h : g.Has x) : Grammar.Has (rebuildGrammar (cutLiteral u) true g) x := by
  rcases h with ⟨t, h⟩ | ⟨r, ls, i, h, hi, rfl⟩
  · exact .inl ⟨_, mem_rebuild h⟩
  · have := mem_rebuild (f := cutLiteral u) (d := true) h
    rw [fixTerm, cutLiteral] at this
    · exact .inr ⟨r, _, i, this, by rw [fixTerms_length]; exact hi, rfl⟩
    · simp

mutual
theorem uses_fix : (t : Term) → (fixTerm (cutLiteral u) true t).Uses x → t.Uses x
  | .seq ts, h => by
    simp only [fixTerm, Term.Uses] at h ⊢
    exact usesList_fix ts h
  | .stack ts, h => by
    simp only [fixTerm, cutLiteral, Term.Uses] at h ⊢
    exact ⟨h.1, usesList_fix ts h.2⟩
  | .oneof ts, h => by
    simp only [fixTerm, cutLiteral, Term.Uses] at h ⊢
    exact usesList_fix ts h
  | .delim t sep a cs ce, h => by
    simp only [fixTerm, cutLiteral, Term.Uses] at h ⊢
    exact h.imp (uses_fix t) (uses_fix sep)
  | .quant t lo hi, h => by
    simp only [fixTerm, cutLiteral, Term.Uses] at h ⊢
    exact uses_fix t h
  | .named n t, h => by
    simp only [fixTerm, cutLiteral, Term.Uses] at h ⊢
    exact uses_fix t h
  | .scope t g, h => by
    simp only [fixTerm, cutLiteral, Term.Uses, if_true] at h ⊢
    exact ⟨fun hg => h.1 (has_fix hg), h.2.imp (uses_fix t) (usesDefs_fix g)⟩
  | .cut t, h => by
    simp only [fixTerm, cutLiteral, Term.Uses] at h ⊢
    exact uses_fix t h
  | .s l, h => by
    simp only [fixTerm, cutLiteral] at h
    split at h <;> simp [Term.Uses] at h
  | .ref i d, h => by simpa only [fixTerm, cutLiteral] using h
  | .re p, h => by simpa only [fixTerm, cutLiteral] using h
  | .rule r, h => by simpa only [fixTerm, cutLiteral] using h
  | .ext y, h => by simpa only [fixTerm, cutLiteral] using h
  | .look t, h => by simpa only [fixTerm, cutLiteral] using h
theorem usesList_fix : (ts : List Term) → usesList x (fixTerms (cutLiteral u) true ts) → usesList x ts
  | [], h => h
  | t :: ts, h => by
    simp only [fixTerms, usesList] at h ⊢
    exact h.imp (uses_fix t) (usesList_fix ts)
theorem usesDefs_fix : (g : List (Str × Term)) → usesDefs x (rebuildGrammar (cutLiteral u) true g) → usesDefs x g
  | [], h => h
  | (_, t) :: g, h => by
    simp only [rebuildGrammar, usesDefs] at h ⊢
    exact h.imp (uses_fix t) (usesDefs_fix g)
end

/-- The rules of the grammar built are those of the statements, and refer to what is there. -/
theorem buildStmts_found {ms : Macros} : ∀ {n : Nat} {ss : List StmtN} {g G : Grammar}, (∀ s ∈ ss, s.tree.Plain) → buildStmts ms n ss g = .ok G →
    (∀ r ts, .prod r ts ∈ ss → hasKey r G = true) ∧ (∀ r, hasKey r g = true → hasKey r G = true) ∧
    ∀ e ∈ G, e ∈ g ∨ ∀ x, e.2.Uses x → ∃ s ∈ ss, s.tree.Outer Item.unchecked (.atom (.ident x))
  | 0, _, _, _, _, h => by simp [buildStmts] at h
  | n + 1, [], g, G, _, h => by
    simp only [buildStmts, Except.ok.injEq] at h
    subst h
    exact ⟨by simp, fun _ h => h, fun e h => .inl h⟩
  | n + 1, .prod i ts :: ss, g, G, hp, h => by
    simp only [buildStmts, ebind_ok] at h
    obtain ⟨us, h1, h2⟩ := h
    obtain ⟨a, b, c⟩ := buildStmts_found (fun s hs => hp s (.tail _ hs)) h2
    refine ⟨fun r us h => ?_, fun r h => b r (hasKey_mapSet h), fun e he => ?_⟩
    · rcases List.mem_cons.1 h with h | h
      · cases h
        exact b _ (hasKey_mapSet_iff.2 (.inl rfl))
      · exact a r us h
    · rcases c e he with h | h
      · rcases mem_mapSet h with rfl | h
        · right
          intro x hx
          have hx : (joinTerms [] none us).Uses x := hx
          obtain ⟨v, hv, hx⟩ := usesList_iff.1 (joinTerms_uses hx)
          obtain ⟨t, ht, hb⟩ := mapE_mem h1 v hv
          have hp' := hp _ (.head _)
          refine ⟨_, .head _, ?_⟩
          rw [StmtN.tree] at hp' ⊢
          have hp2 := plain_kid hp' rfl (.head _)
          have hk : t.tree ∈ .tip (.ident i) :: termTrees ts := .tail _ (mem_termTrees.2 ⟨t, ht, rfl⟩)
          exact .inner rfl (.head _) (.inner rfl hk ((finds ms x n).term (plain_kid hp2 rfl hk) hb hx))
        · exact .inl h
      · right
        intro x hx
        obtain ⟨s, hs, h⟩ := h x hx
        exact ⟨s, .tail _ hs, h⟩
  | n + 1, .comment _ :: ss, g, G, hp, h => by
    simp only [buildStmts] at h
    obtain ⟨a, b, c⟩ := buildStmts_found (fun s hs => hp s (.tail _ hs)) h
    refine ⟨fun r us h => a r us (by simpa using h), b, fun e he => (c e he).imp id fun h x hx => ?_⟩
    obtain ⟨s, hs, h⟩ := h x hx
    exact ⟨s, .tail _ hs, h⟩
  | n + 1, .imp _ :: ss, g, G, hp, h => by
    simp only [buildStmts] at h
    obtain ⟨a, b, c⟩ := buildStmts_found (fun s hs => hp s (.tail _ hs)) h
    refine ⟨fun r us h => a r us (by simpa using h), b, fun e he => (c e he).imp id fun h x hx => ?_⟩
    obtain ⟨s, hs, h⟩ := h x hx
    exact ⟨s, .tail _ hs, h⟩
  | n + 1, .macrodef _ _ _ :: ss, g, G, hp, h => by
    simp only [buildStmts] at h
    obtain ⟨a, b, c⟩ := buildStmts_found (fun s hs => hp s (.tail _ hs)) h
    refine ⟨fun r us h => a r us (by simpa using h), b, fun e he => (c e he).imp id fun h x hx => ?_⟩
    obtain ⟨s, hs, h⟩ := h x hx
    exact ⟨s, .tail _ hs, h⟩

end Wbnf

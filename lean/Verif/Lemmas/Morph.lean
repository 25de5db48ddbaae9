import Verif.Spec.Rename
import Verif.Spec.Parts
import Verif.Lemmas.Scope
import Verif.Lemmas.Fold

/-! Renaming names and moving the text does not change what is matched. -/

namespace Wbnf

variable {E : Engine} {X : Externals} {π : Str → Str} {σ : Scanner → Scanner}

theorem pairs_induction {α} {P : List α → Prop} (nil : P []) (one : ∀ x, P [x]) (more : ∀ a b rest, P rest → P (a :: b :: rest)) :
    (l : List α) → P l
  | [] => nil
  | [x] => one x
  | a :: b :: rest => more a b rest (pairs_induction nil one more rest)

/-! ## Lists -/

theorem renameList_eq (π : Str → Str) : (ts : List Term) → renameList π ts = ts.map (Term.rename π)
  | [] => rfl
  | t :: ts => by simp [renameList, renameList_eq π ts]

theorem renameDefs_eq (π : Str → Str) : (g : Grammar) → renameDefs π g = g.map fun e => (π e.1, e.2.rename π)
  | [] => rfl
  | (k, t) :: g => by simp [renameDefs, renameDefs_eq π g]

theorem mapTrees_eq (π : Str → Str) (σ : Scanner → Scanner) : (ts : List Tree) → mapTrees π σ ts = ts.map (Tree.map π σ)
  | [] => rfl
  | t :: ts => by simp [mapTrees, mapTrees_eq π σ ts]

theorem lookup_map {α β} (hπ : ∀ {a b}, π a = π b → a = b) (f : α → β) (k : Str) (m : List (Str × α)) :
    lookup (π k) (m.map fun e => (π e.1, f e.2)) = (lookup k m).map f := by
  induction m with
  | nil => rfl
  | cons e m ih =>
    obtain ⟨k', v⟩ := e
    simp only [List.map_cons, lookup]
    by_cases h : k' = k
    · simp [h]
    · rw [if_neg h, if_neg fun e => h (hπ e), ih]

theorem mapSet_map {α β} (hπ : ∀ {a b}, π a = π b → a = b) (f : α → β) (k : Str) (v : α) (m : List (Str × α)) :
    mapSet (π k) (f v) (m.map fun e => (π e.1, f e.2)) = (mapSet k v m).map fun e => (π e.1, f e.2) := by
  induction m with
  | nil => rfl
  | cons e m ih =>
    obtain ⟨k', v'⟩ := e
    simp only [List.map_cons, mapSet]
    by_cases h : k' = k
    · simp [h]
    · rw [if_neg h, if_neg fun e => h (hπ e), ih]; rfl

theorem lookup_rename (h : Renaming π) (k : Str) (g : Grammar) :
    lookup (π k) (renameDefs π g) = (lookup k g).map (Term.rename π) := by
  rw [renameDefs_eq, lookup_map h.inj]

theorem mapSet_rename (h : Renaming π) (k : Str) (v : Term) (g : Grammar) :
    mapSet (π k) (v.rename π) (renameDefs π g) = renameDefs π (mapSet k v g) := by
  rw [renameDefs_eq, renameDefs_eq, mapSet_map h.inj]

/-! ## Terms -/

theorem Renaming.eq_nil (h : Renaming π) {a : Str} : π a = [] ↔ a = [] :=
  ⟨fun e => h.inj (by rw [e, h.nil]), fun e => by rw [e, h.nil]⟩

theorem ident_rename (h : Renaming π) : (t : Term) → identFromTerm (t.rename π) = π (identFromTerm t)
  | .named n t => by
    simp only [Term.rename, identFromTerm]
    by_cases hn : n = []
    · subst hn; simp [h.nil, ident_rename h t]
    · simp [hn, h.eq_nil]
  | .quant t _ _ => by simp only [Term.rename, identFromTerm]; exact ident_rename h t
  | .rule _ => rfl
  | .s _ => by simp [Term.rename, identFromTerm, h.nil]
  | .re _ => by simp [Term.rename, identFromTerm, h.nil]
  | .ref _ _ => by simp [Term.rename, identFromTerm, h.nil]
  | .ext _ => by simp [Term.rename, identFromTerm, h.nil]
  | .seq _ => by simp [Term.rename, identFromTerm, h.nil]
  | .oneof _ => by simp [Term.rename, identFromTerm, h.nil]
  | .stack _ => by simp [Term.rename, identFromTerm, h.nil]
  | .delim _ _ _ _ _ => by simp [Term.rename, identFromTerm, h.nil]
  | .look _ => by simp [Term.rename, identFromTerm, h.nil]
  | .scope _ _ => by simp [Term.rename, identFromTerm, h.nil]
  | .cut _ => by simp [Term.rename, identFromTerm, h.nil]

mutual
theorem flat_rename : (t : Term) → (t.rename π).flat = t.flat
  | .rule _ => rfl
  | .s _ => rfl
  | .re _ => rfl
  | .ref _ _ => rfl
  | .ext _ => rfl
  | .stack _ => rfl
  | .scope _ _ => rfl
  | .seq ts => by simp only [Term.rename, Term.flat]; exact flatList_rename ts
  | .oneof ts => by simp only [Term.rename, Term.flat]; exact flatList_rename ts
  | .delim t sep _ _ _ => by simp only [Term.rename, Term.flat, flat_rename t, flat_rename sep]
  | .look t => by simp only [Term.rename, Term.flat]; exact flat_rename t
  | .quant t _ _ => by simp only [Term.rename, Term.flat]; exact flat_rename t
  | .named _ t => by simp only [Term.rename, Term.flat]; exact flat_rename t
  | .cut t => by simp only [Term.rename, Term.flat]; exact flat_rename t
theorem flatList_rename : (ts : List Term) → flatList (renameList π ts) = flatList ts
  | [] => rfl
  | t :: ts => by simp only [renameList, flatList, flat_rename t, flatList_rename ts]
end

mutual
theorem layer_rename (h : Renaming π) (new : Str) : (t : Term) → t.flat = true →
    (t.rename π).uncut.atTo (π new) = (t.uncut.atTo new).rename π
  | .rule r, _ => by
    simp only [Term.rename, Term.uncut, Term.atTo]
    by_cases hr : r = str "@"
    · subst hr; simp [h.at_, Term.rename]
    · have : π r ≠ str "@" := fun e => hr (h.inj (by rw [e, h.at_]))
      simp [hr, this, Term.rename]
  | .s _, _ => rfl
  | .re _, _ => rfl
  | .ref _ _, _ => rfl
  | .ext _, _ => rfl
  | .stack _, hf => by simp [Term.flat] at hf
  | .scope _ _, hf => by simp [Term.flat] at hf
  | .seq ts, hf => by
    simp only [Term.rename, Term.uncut, Term.atTo]; rw [layerList_rename h new ts (by simpa [Term.flat] using hf)]
  | .oneof ts, hf => by
    simp only [Term.rename, Term.uncut, Term.atTo]; rw [layerList_rename h new ts (by simpa [Term.flat] using hf)]
  | .delim t sep _ _ _, hf => by
    simp only [Term.flat, Bool.and_eq_true] at hf
    simp only [Term.rename, Term.uncut, Term.atTo]; rw [layer_rename h new t hf.1, layer_rename h new sep hf.2]
  | .look t, hf => by
    simp only [Term.rename, Term.uncut, Term.atTo]; rw [layer_rename h new t (by simpa [Term.flat] using hf)]
  | .quant t _ _, hf => by
    simp only [Term.rename, Term.uncut, Term.atTo]; rw [layer_rename h new t (by simpa [Term.flat] using hf)]
  | .named _ t, hf => by
    simp only [Term.rename, Term.uncut, Term.atTo]; rw [layer_rename h new t (by simpa [Term.flat] using hf)]
  | .cut t, hf => by
    simp only [Term.rename, Term.uncut]; exact layer_rename h new t (by simpa [Term.flat] using hf)
theorem layerList_rename (h : Renaming π) (new : Str) : (ts : List Term) → flatList ts = true →
    atToList (π new) (uncutList (renameList π ts)) = renameList π (atToList new (uncutList ts))
  | [], _ => rfl
  | t :: ts, hf => by
    simp only [flatList, Bool.and_eq_true] at hf
    simp only [renameList, uncutList, atToList, layer_rename h new t hf.1, layerList_rename h new ts hf.2]
end

theorem resolve_rename (h : Renaming π) (new : Str) (t : Term) :
    (t.rename π).resolve stackDelim (π new) = (t.resolve stackDelim new).map (Term.rename π) := by
  rw [resolve_eq, resolve_eq, flat_rename]
  cases hf : t.flat with
  | false => simp
  | true => simp [layer_rename h new t hf]

theorem resolveLayers_rename (h : Renaming π) {r : Str} {n : Nat} : ∀ {layers : List Term} {i : Nat} {g : Grammar},
    i + layers.length = n → (∀ j < n, π (layer r j) = layer (π r) j) →
    resolveLayers (π r) n i (layer (π r) i) (renameList π layers) (renameDefs π g) =
      (resolveLayers r n i (layer r i) layers g).map (renameDefs π) := by
  intro layers
  induction layers with
  | nil => intro i g _ _; rfl
  | cons L layers ih =>
    intro i g hi hl
    simp only [List.length_cons] at hi
    have hlt : i < n := by omega
    simp only [renameList, resolveLayers]
    rw [layerName_eq hlt, layerName_eq hlt]
    by_cases he : i + 1 = n
    · simp only [he, if_true]
      rw [← hl 0 (by omega), resolve_rename h]
      cases hr : L.resolve stackDelim (layer r 0) with
      | none => rfl
      | some t =>
        obtain rfl : layers = [] := by
          cases layers with
          | nil => rfl
          | cons a b => simp only [List.length_cons] at hi; omega
        simp only [Option.map_some, renameList, resolveLayers, ← hl i hlt, mapSet_rename h]
    · simp only [he, if_false]
      rw [← hl (i + 1) (by omega), resolve_rename h]
      cases hr : L.resolve stackDelim (layer r (i + 1)) with
      | none => rfl
      | some t =>
        simp only [Option.map_some]
        rw [hl (i + 1) (by omega), ← hl i hlt, mapSet_rename h]
        exact ih (by omega) hl

theorem renameList_length (ts : List Term) : (renameList π ts).length = ts.length := by rw [renameList_eq]; simp

theorem resolveStacksLoop_rename (h : Renaming π) : ∀ {es : List (Str × Term)} {g : Grammar},
    (∀ r ls i, (r, .stack ls) ∈ es → i < ls.length → π (layer r i) = layer (π r) i) →
    resolveStacksLoop (renameDefs π es) (renameDefs π g) = (resolveStacksLoop es g).map (renameDefs π) := by
  intro es
  induction es with
  | nil => intro g _; rfl
  | cons e es ih =>
    intro g hl
    obtain ⟨r, t⟩ := e
    have ih' := fun g => ih (g := g) fun r ls i hm => hl r ls i (by simp [hm])
    by_cases ht : ∃ ls, t = .stack ls
    · obtain ⟨ls, rfl⟩ := ht
      simp only [renameDefs, Term.rename, resolveStacksLoop, renameList_length]
      have := resolveLayers_rename h (r := r) (n := ls.length) (layers := ls) (i := 0) (g := g) (by omega)
        (fun j hj => hl r ls j (by simp) hj)
      simp only [layer_zero] at this
      rw [this]
      cases resolveLayers r ls.length 0 r ls g with
      | none => rfl
      | some g1 => exact ih' g1
    · have e1 : resolveStacksLoop ((r, t) :: es) g = resolveStacksLoop es g := by
        cases t <;> first | rfl | exact absurd ⟨_, rfl⟩ ht
      have e2 : resolveStacksLoop (renameDefs π ((r, t) :: es)) (renameDefs π g) =
          resolveStacksLoop (renameDefs π es) (renameDefs π g) := by
        cases t <;> first | rfl | exact absurd ⟨_, rfl⟩ ht
      rw [e1, e2, ih']

theorem isStack_rename (t : Term) : (t.rename π).isStack = t.isStack := by cases t <;> rfl

theorem any_stack_rename (g : Grammar) : (renameDefs π g).any (fun e => e.2.isStack) = g.any (fun e => e.2.isStack) := by
  rw [renameDefs_eq, List.any_map]
  congr 1
  funext e
  exact isStack_rename e.2

theorem resolveStacks_rename (h : Renaming π) {g : Grammar} (hl : Grammar.LayersFollow π g) :
    Grammar.resolveStacks (renameDefs π g) = (g.resolveStacks).map (renameDefs π) := by
  simp only [Grammar.resolveStacks]
  rw [any_stack_rename]
  cases g.any fun e => e.2.isStack with
  | false => rfl
  | true => exact resolveStacksLoop_rename h fun r ls i hm hi => hl r ls i hm hi

theorem wrap_eq (h : Renaming π) : π wrapRE = wrapRE := h.wrap

theorem hasKey_rename (h : Renaming π) (k : Str) (g : Grammar) : hasKey (π k) (renameDefs π g) = hasKey k g := by
  simp [hasKey, lookup_rename h]

theorem inheritWrap_rename (h : Renaming π) (w : Option Term) (g : Grammar) :
    inheritWrap (w.map (Term.rename π)) (renameDefs π g) = renameDefs π (inheritWrap w g) := by
  cases w with
  | none => rfl
  | some w =>
    have := hasKey_rename h wrapRE g
    rw [wrap_eq h] at this
    simp only [Option.map_some, inheritWrap, this]
    split
    · rfl
    · have := mapSet_rename h wrapRE w g
      rwa [wrap_eq h] at this

theorem wrapOf_rename (h : Renaming π) (Γ : List Grammar) :
    wrapOf (Γ.map (renameDefs π)) = (wrapOf Γ).map (Term.rename π) := by
  cases Γ with
  | nil => rfl
  | cons g Γ =>
    have := lookup_rename h wrapRE g
    rwa [wrap_eq h] at this

theorem mem_leaf_rename {ts : List Term} {l : Str} : (.s l ∈ renameList π ts ↔ .s l ∈ ts) ∧ (.re l ∈ renameList π ts ↔ .re l ∈ ts) := by
  rw [renameList_eq]
  constructor
  · constructor
    · intro h
      obtain ⟨t, h1, h2⟩ := List.mem_map.1 h
      cases t <;> simp [Term.rename] at h2
      subst h2; exact h1
    · intro h; exact List.mem_map.2 ⟨_, h, rfl⟩
  · constructor
    · intro h
      obtain ⟨t, h1, h2⟩ := List.mem_map.1 h
      cases t <;> simp [Term.rename] at h2
      subst h2; exact h1
    · intro h; exact List.mem_map.2 ⟨_, h, rfl⟩

theorem LeafPattern.rename {w : Option Term} {l gr p} (hp : LeafPattern w l gr p) : LeafPattern (w.map (Term.rename π)) l gr p := by
  cases hp with
  | plain e => exact .plain (by rw [e]; rfl)
  | @exempt ts w e hm =>
    refine .exempt (ts := renameList π ts) (w := w.rename π) ?_ (by rw [mem_leaf_rename.1, mem_leaf_rename.2]; exact hm)
    rw [e]; simp [Term.rename, renameList_eq]
  | @listed ts w p e hm hs =>
    refine .listed (ts := renameList π ts) (w := w) ?_ (by rw [mem_leaf_rename.1, mem_leaf_rename.2]; exact hm) hs
    rw [e]; simp [Term.rename, renameList_eq]
  | @wrapped w p e hs => exact .wrapped (by rw [e]; rfl) hs

theorem Defines.rename (h : Renaming π) {g r t} (hd : Defines g r t) : Defines (renameDefs π g) (π r) (t.rename π) := by
  induction hd with
  | here hl hn =>
    refine .here (by rw [lookup_rename h, hl]; rfl) fun r' e => ?_
    rename_i t
    cases t <;> simp [Term.rename] at e
    exact hn _ rfl
  | «alias» hl _ ih => exact .alias (by rw [lookup_rename h, hl]; rfl) ih

theorem Resolves.rename (h : Renaming π) {Γ r Γ' t} (hd : Resolves Γ r Γ' t) :
    Resolves (Γ.map (renameDefs π)) (π r) (Γ'.map (renameDefs π)) (t.rename π) := by
  induction hd with
  | here hd => exact .here (hd.rename h)
  | outer hl _ ih => exact .outer (by rw [lookup_rename h, hl]; rfl) ih

theorem Enters.rename (h : Renaming π) {Γ g g'} (hl : Grammar.LayersFollow π g) (he : Enters Γ g g') :
    Enters (Γ.map (renameDefs π)) (renameDefs π g) (renameDefs π g') := by
  obtain ⟨g1, h1, rfl⟩ := he
  exact ⟨renameDefs π g1, by rw [resolveStacks_rename h hl, h1]; rfl, by rw [wrapOf_rename h, inheritWrap_rename h]⟩

theorem delimSeq_rename (t sep : Term) (cs ce : Bool) :
    renameList π (delimSeq t sep cs ce) = delimSeq (t.rename π) (sep.rename π) cs ce := by
  unfold delimSeq
  cases cs <;> cases ce <;> simp [renameList, Term.rename, optT, anyT]

mutual
theorem text_rename : (t : Term) → t.quotable E = true → t.rename π = t
  | .s _, _ => rfl
  | .seq ts, h => by simp only [Term.rename]; rw [textList_rename ts (by simpa [Term.quotable] using h)]
  | .rule _, h => by simp [Term.quotable] at h
  | .re _, h => by simp [Term.quotable] at h
  | .ref _ _, h => by simp [Term.quotable] at h
  | .ext _, h => by simp [Term.quotable] at h
  | .oneof _, h => by simp [Term.quotable] at h
  | .stack _, h => by simp [Term.quotable] at h
  | .delim _ _ _ _ _, h => by simp [Term.quotable] at h
  | .look _, h => by simp [Term.quotable] at h
  | .quant _ _ _, h => by simp [Term.quotable] at h
  | .named _ _, h => by simp [Term.quotable] at h
  | .scope _ _, h => by simp [Term.quotable] at h
  | .cut _, h => by simp [Term.quotable] at h
theorem textList_rename : (ts : List Term) → quotableList E ts = true → renameList π ts = ts
  | [], _ => rfl
  | t :: ts, h => by
    simp only [quotableList, Bool.and_eq_true] at h
    simp only [renameList]; rw [text_rename t h.1, textList_rename ts h.2]
end

/-! ## Trees -/

theorem children_map (v : Tree) : (v.map π σ).children? = v.children?.map (List.map (Tree.map π σ)) := by
  cases v <;> simp [Tree.map, Tree.children?, mapTrees_eq]

theorem get_map (path : List Nat) (v : Tree) : (v.map π σ).get? path = (v.get? path).map (Tree.map π σ) := by
  induction path generalizing v with
  | nil => rfl
  | cons i path ih =>
    simp only [Tree.get?, children_map]
    cases v.children? with
    | none => rfl
    | some cs =>
      simp only [Option.map_some, List.getElem?_map]
      cases cs[i]? with
      | none => rfl
      | some c => simp [ih]

theorem delimPairs_mapped (cs : List Tree) : delimPairs (cs.map (Tree.map π σ)) = (delimPairs cs).map (List.map (Tree.map π σ)) := by
  induction cs with
  | nil => rfl
  | cons c cs ih =>
    simp only [List.map_cons, delimPairs, get_map, ih]
    cases c.get? [0] <;> cases c.get? [1] <;> cases delimPairs cs <;> simp

theorem delimItems_map (cs ce : Bool) (v : Tree) :
    delimItems cs ce (v.map π σ) = (delimItems cs ce v).map (List.map (Tree.map π σ)) := by
  simp only [delimItems, get_map]
  generalize hl : (if cs = true then _ else _ : Option (List Tree)) = l
  generalize hl' : (if cs = true then match v.get? [0] with
      | some (.node _ _ []) => some []
      | some (.node _ _ (x :: _)) => some [.empty, x]
      | _ => none
    else some [] : Option (List Tree)) = l'
  generalize hf : (if ce = true then _ else _ : Option (List Tree)) = f
  generalize hf' : (if ce = true then match v.get? [(if cs = true then 1 else 0) + 1] with
      | some (.node _ _ []) => some []
      | some (.node _ _ (x :: _)) => some [x, .empty]
      | some (.foreign 0) => some []
      | _ => none
    else some [] : Option (List Tree)) = f'
  have e1 : l = l'.map (List.map (Tree.map π σ)) := by
    subst hl hl'
    cases cs with
    | false => rfl
    | true =>
      simp only [if_true]
      cases v.get? [0] with
      | none => rfl
      | some u =>
        cases u with
        | node _ _ c => cases c <;> simp [Tree.map, mapTrees]
        | _ => rfl
  have e2 : f = f'.map (List.map (Tree.map π σ)) := by
    subst hf hf'
    cases ce with
    | false => rfl
    | true =>
      simp only [if_true]
      cases v.get? [(if cs = true then 1 else 0) + 1] with
      | none => rfl
      | some u =>
        cases u with
        | node _ _ c => cases c <;> simp [Tree.map, mapTrees]
        | foreign n => cases n <;> rfl
        | _ => rfl
  have e3 : ((v.get? [(if cs = true then 1 else 0), 1]).map (Tree.map π σ)).bind Tree.children? =
      ((v.get? [(if cs = true then 1 else 0), 1]).bind Tree.children?).map (List.map (Tree.map π σ)) := by
    cases v.get? [(if cs = true then 1 else 0), 1] with
    | none => rfl
    | some u => simp [children_map]
  rw [e1, e2, e3]
  cases l' with
  | none => rfl
  | some l' =>
    cases v.get? [(if cs = true then 1 else 0), 0] with
    | none => rfl
    | some t =>
      cases (v.get? [(if cs = true then 1 else 0), 1]).bind Tree.children? with
      | none => rfl
      | some reps =>
        cases f' with
        | none => rfl
        | some f' =>
          simp only [Option.map_some, delimPairs_mapped]
          cases delimPairs reps with
          | none => rfl
          | some ps => simp

theorem foldLeft_map (tag : Str) (a : Int) (items : List Tree) : ∀ v,
    foldLeftAssoc (π tag) a (v.map π σ) (items.map (Tree.map π σ)) = (foldLeftAssoc tag a v items).map (Tree.map π σ) := by
  induction items using pairs_induction with
  | nil => intro v; rfl
  | one x => intro v; rfl
  | more op x rest ih =>
    intro v
    simp only [List.map_cons, foldLeftAssoc]
    rw [← ih]
    simp [Tree.map, mapTrees]

theorem foldRight_map (tag : Str) (a : Int) (items : List Tree) : ∀ v,
    foldRightAssoc (π tag) a (v.map π σ) (items.map (Tree.map π σ)) = (foldRightAssoc tag a v items).map (Tree.map π σ) := by
  induction items using pairs_induction with
  | nil => intro v; rfl
  | one x => intro v; rfl
  | more op x rest ih =>
    intro v
    simp only [List.map_cons, foldRightAssoc]
    rw [← ih]
    simp [Tree.map, mapTrees]

theorem delimBuild_map (tag : Str) (a : Int) (items : List Tree) :
    delimBuild (π tag) a (items.map (Tree.map π σ)) = (delimBuild tag a items).map (Tree.map π σ) := by
  match items with
  | [] => simp [delimBuild, Tree.map, mapTrees]
  | [x] => simp [delimBuild, Tree.map, mapTrees]
  | v :: x :: rest =>
    simp only [List.map_cons, delimBuild]
    split
    · exact foldLeft_map tag a (x :: rest) v
    · split
      · have : ((v :: x :: rest).map (Tree.map π σ)).reverse = ((v :: x :: rest).reverse).map (Tree.map π σ) := by
          rw [List.map_reverse]
        simp only [List.map_cons] at this
        rw [this]
        cases (v :: x :: rest).reverse with
        | nil => rfl
        | cons w back => exact foldRight_map tag a back w
      · simp [Tree.map, mapTrees, mapTrees_eq]

theorem delimFinish_map (tag : Str) (a : Int) (cs ce : Bool) (v : Tree) :
    delimFinish (π tag) a cs ce (v.map π σ) = (delimFinish tag a cs ce v).map (Tree.map π σ) := by
  simp only [delimFinish, delimItems_map]
  cases delimItems cs ce v with
  | none => rfl
  | some items => exact delimBuild_map tag a items

mutual
/-- All leaves of the tree have property `W`. -/
def Tree.All (W : Scanner → Prop) : Tree → Prop
  | .node _ _ cs => allTrees W cs
  | .leaf s => W s
  | .empty => True
  | .foreign _ => True
def allTrees (W : Scanner → Prop) : List Tree → Prop
  | [] => True
  | t :: ts => t.All W ∧ allTrees W ts
end

variable {W : Scanner → Prop}

theorem allTrees_iff {ts : List Tree} : allTrees W ts ↔ ∀ t ∈ ts, t.All W := by
  induction ts with
  | nil => simp [allTrees]
  | cons t ts ih => simp [allTrees, ih]

theorem all_get {path : List Nat} : ∀ {v u : Tree}, v.All W → v.get? path = some u → u.All W := by
  induction path with
  | nil => intro v u h e; cases e; exact h
  | cons i path ih =>
    intro v u h e
    cases v with
    | node tag x cs =>
      simp only [Tree.get?, Tree.children?] at e
      cases hc : cs[i]? with
      | none => simp [hc] at e
      | some c =>
        simp only [hc] at e
        exact ih (allTrees_iff.1 h c (List.mem_of_getElem? hc)) e
    | _ => simp [Tree.get?, Tree.children?] at e

theorem all_pairs {cs : List Tree} : ∀ {ps}, (∀ c ∈ cs, c.All W) → delimPairs cs = some ps → ∀ p ∈ ps, p.All W := by
  induction cs with
  | nil => intro ps _ e; cases e; simp
  | cons c cs ih =>
    intro ps h e
    simp only [delimPairs] at e
    cases h0 : c.get? [0] with
    | none => simp [h0] at e
    | some a =>
      cases h1 : c.get? [1] with
      | none => simp [h0, h1] at e
      | some b =>
        cases h2 : delimPairs cs with
        | none => simp [h0, h1, h2] at e
        | some rest =>
          simp only [h0, h1, h2, Option.some.injEq] at e
          subst e
          intro p hp
          rcases List.mem_cons.1 hp with rfl | hp
          · exact all_get (h c (by simp)) h0
          · rcases List.mem_cons.1 hp with rfl | hp
            · exact all_get (h c (by simp)) h1
            · exact ih (fun c hc => h c (by simp [hc])) h2 p hp

theorem all_items {cs ce : Bool} {v : Tree} {items} (h : v.All W) (e : delimItems cs ce v = some items) : ∀ i ∈ items, i.All W := by
  unfold delimItems at e
  simp only at e
  split at e
  · rename_i l term reps f hl ht hr hf
    split at e
    · rename_i ps hp
      cases e
      have al : ∀ i ∈ l, i.All W := by
        split at hl
        · split at hl
          · cases hl; simp
          · rename_i x _ hg
            cases hl
            have := all_get h hg
            intro i hi
            simp at hi
            rcases hi with rfl | rfl
            · trivial
            · exact (allTrees_iff.1 this) _ (by simp)
          · cases hl
        · cases hl; simp
      have af : ∀ i ∈ f, i.All W := by
        split at hf
        · split at hf
          · cases hf; simp
          · rename_i x _ hg
            cases hf
            have := all_get h hg
            intro i hi
            simp at hi
            rcases hi with rfl | rfl
            · exact (allTrees_iff.1 this) _ (by simp)
            · trivial
          · cases hf; simp
          · cases hf
        · cases hf; simp
      have ar : ∀ c ∈ reps, c.All W := by
        obtain ⟨u, hu, hc⟩ := Option.bind_eq_some_iff.1 hr
        have := all_get h hu
        cases u with
        | node tag x cs' => cases hc; exact allTrees_iff.1 this
        | _ => simp [Tree.children?] at hc
      intro i hi
      simp only [List.mem_append, List.mem_singleton] at hi
      rcases hi with ((hi | rfl) | hi) | hi
      · exact al i hi
      · exact all_get h ht
      · exact all_pairs ar hp i hi
      · exact af i hi
    · cases e
  · cases e

theorem all_foldLeft {tag a} {items : List Tree} : ∀ {v w}, v.All W → (∀ i ∈ items, i.All W) → foldLeftAssoc tag a v items = some w → w.All W := by
  induction items using pairs_induction with
  | nil => intro v w h _ e; cases e; exact h
  | one x => intro v w h _ e; cases e
  | more op x rest ih =>
    intro v w h hi e
    refine ih (v := .node tag (.assoc a) [v, op, x]) ⟨h, hi op (by simp), hi x (by simp), trivial⟩ (fun i hm => hi i (by simp [hm])) e

theorem all_foldRight {tag a} {items : List Tree} : ∀ {v w}, v.All W → (∀ i ∈ items, i.All W) → foldRightAssoc tag a v items = some w → w.All W := by
  induction items using pairs_induction with
  | nil => intro v w h _ e; cases e; exact h
  | one x => intro v w h _ e; cases e
  | more op x rest ih =>
    intro v w h hi e
    refine ih (v := .node tag (.assoc a) [x, op, v]) ⟨hi x (by simp), hi op (by simp), h, trivial⟩ (fun i hm => hi i (by simp [hm])) e

theorem all_finish {tag a cs ce} {v w : Tree} (h : v.All W) (e : delimFinish tag a cs ce v = some w) : w.All W := by
  unfold delimFinish at e
  obtain ⟨items, h1, h2⟩ := Option.bind_eq_some_iff.1 e
  have ai := all_items h h1
  unfold delimBuild at h2
  split at h2
  · rename_i v' x rest
    split at h2
    · exact all_foldLeft (ai v' (by simp)) (fun i hi => ai i (by simp at hi ⊢; exact Or.inr hi)) h2
    · split at h2
      · split at h2
        · rename_i w' back hrev
          have hm : ∀ i ∈ w' :: back, i.All W := fun i hi => ai i (by rw [← List.mem_reverse, hrev]; exact hi)
          exact all_foldRight (hm w' (by simp)) (fun i hi => hm i (by simp [hi])) h2
        · cases h2
      · cases h2; exact allTrees_iff.2 ai
  · cases h2; exact allTrees_iff.2 ai

mutual
theorem refVal_map (hs : ∀ s, W s → (σ s).toStr = s.toStr) : (v : Tree) → v.All W → termFromRefVal (v.map π σ) = termFromRefVal v
  | .node _ _ cs, h => by simp only [Tree.map, termFromRefVal]; rw [refVals_map hs cs h]
  | .leaf s, h => by simp only [Tree.map, termFromRefVal]; rw [hs s h]
  | .empty, _ => rfl
  | .foreign _, _ => rfl
theorem refVals_map (hs : ∀ s, W s → (σ s).toStr = s.toStr) : (vs : List Tree) → allTrees W vs → termsFromRefVals (mapTrees π σ vs) = termsFromRefVals vs
  | [], _ => rfl
  | v :: vs, h => by simp only [mapTrees, termsFromRefVals]; rw [refVal_map hs v h.1, refVals_map hs vs h.2]
end

theorem mapTrees_length (vs : List Tree) : (mapTrees π σ vs).length = vs.length := by rw [mapTrees_eq]; simp

mutual
theorem nodesEqual_map (hs : ∀ s, W s → (σ s).toStr = s.toStr) : (v w : Tree) → v.All W → w.All W →
    nodesEqual (v.map π σ) (w.map π σ) = nodesEqual v w
  | .node _ _ as, .node _ _ bs, h, h' => by
    simp only [Tree.map, nodesEqual, mapTrees_length]; rw [nodesEqualList_map hs as bs h h']
  | .leaf a, .leaf b, h, h' => by simp only [Tree.map, nodesEqual]; rw [hs a h, hs b h']
  | .node _ _ _, .leaf _, _, _ => rfl
  | .node _ _ _, .empty, _, _ => rfl
  | .node _ _ _, .foreign _, _, _ => rfl
  | .leaf _, .node _ _ _, _, _ => rfl
  | .leaf _, .empty, _, _ => rfl
  | .leaf _, .foreign _, _, _ => rfl
  | .empty, w, _, _ => by cases w <;> rfl
  | .foreign _, w, _, _ => by cases w <;> rfl
theorem nodesEqualList_map (hs : ∀ s, W s → (σ s).toStr = s.toStr) : (vs ws : List Tree) → allTrees W vs → allTrees W ws →
    nodesEqualList (mapTrees π σ vs) (mapTrees π σ ws) = nodesEqualList vs ws
  | [], ws, _, _ => by cases ws <;> rfl
  | _ :: _, [], _, _ => rfl
  | a :: as, b :: bs, h, h' => by
    simp only [mapTrees, nodesEqualList]; rw [nodesEqual_map hs a b h.1 h'.1, nodesEqualList_map hs as bs h.2 h'.2]
end

/-! ## The semantics -/

def mapVals (π : Str → Str) (σ : Scanner → Scanner) (vals : List (Str × Tree)) : List (Str × Tree) :=
  vals.map fun e => (π e.1, e.2.map π σ)

def Goal.map (π : Str → Str) (σ : Scanner → Scanner) : Goal → Goal
  | .term Γ rule t vals inp => .term (Γ.map (renameDefs π)) (π rule) (t.rename π) (mapVals π σ vals) (σ inp)
  | .seq Γ ts vals c inp => .seq (Γ.map (renameDefs π)) (renameList π ts) (mapVals π σ vals) c (σ inp)
  | .reps Γ t vals left inp => .reps (Γ.map (renameDefs π)) (t.rename π) (mapVals π σ vals) left (σ inp)
  | .alts Γ tag ts i vals inp => .alts (Γ.map (renameDefs π)) (π tag) (renameList π ts) i (mapVals π σ vals) (σ inp)

/-- What is needed of the parts of a term. -/
structure Morph (E : Engine) (π : Str → Str) (σ : Scanner → Scanner) (W : Scanner → Prop) (B : List Grammar → Term → Prop) : Prop where
  ren : Renaming π
  slice : ∀ s, W s → (σ s).slice = s.slice
  toStr : ∀ s, W s → (σ s).toStr = s.toStr
  sub : ∀ s a b, σ (s.sub a b) = (σ s).sub a b
  skip : ∀ s a, σ (s.skip a) = (σ s).skip a
  leaf : ∀ {Γ t p inp s i}, B Γ t → Matches Γ t p → W inp → LeafOut E (anchor ++ p) inp (.ok (.leaf s) i) → W s ∧ W i
  basic : Basic B
  ext : ∀ {Γ x}, ¬ B Γ (.ext x)
  layers : ∀ {Γ t g}, B Γ (.scope t g) → Grammar.LayersFollow π g

def PartsOK (B : List Grammar → Term → Prop) (Γ : List Grammar) (t : Term) : Prop := ∀ Γ' t', PartOf Γ t Γ' t' → B Γ' t'

variable {B : List Grammar → Term → Prop}

theorem PartsOK.seq (hB : Basic B) {Γ ts} : PartsOK B Γ (.seq ts) ↔ ∀ t ∈ ts, PartsOK B Γ t := by
  constructor
  · intro h t ht Γ' t' hp; exact h _ _ (.seq ht hp)
  · intro h Γ' t' hp
    cases hp with
    | refl => exact hB.seq _ _
    | seq hm hp => exact h _ hm _ _ hp

theorem PartsOK.delim (hB : Basic B) {Γ t sep a cs ce} (h : PartsOK B Γ (.delim t sep a cs ce)) :
    PartsOK B Γ (.seq (delimSeq t sep cs ce)) := by
  intro Γ' t' hp
  rcases within_delimSeq (a := a) hp with ⟨ts, rfl⟩ | ⟨t, lo, hi, rfl⟩ | hp
  · exact hB.seq _ _
  · exact hB.quant _ _ _ _
  · exact h _ _ hp

theorem PartsOK.text (hB : Basic B) {Γ i d t} (h : PartsOK B Γ (.ref i d)) (ht : t.quotable E = true) : PartsOK B [] t := by
  intro Γ' t' hp
  rcases within_text (quotable_text _ ht) hp with ⟨ts, rfl⟩ | ⟨l, rfl, rfl⟩
  · exact hB.seq _ _
  · exact hB.text _ _ _ _ (h _ _ .refl)

def GoalOK (W : Scanner → Prop) (B : List Grammar → Term → Prop) : Goal → Prop
  | .term Γ _ t vals inp => PartsOK B Γ t ∧ (∀ k v, lookup k vals = some v → v.All W) ∧ W inp
  | .seq Γ ts vals _ inp => (∀ t ∈ ts, PartsOK B Γ t) ∧ (∀ k v, lookup k vals = some v → v.All W) ∧ W inp
  | .reps Γ t vals _ inp => PartsOK B Γ t ∧ (∀ k v, lookup k vals = some v → v.All W) ∧ W inp
  | .alts Γ _ ts _ vals inp => (∀ t ∈ ts, PartsOK B Γ t) ∧ (∀ k v, lookup k vals = some v → v.All W) ∧ W inp

def OutOK (W : Scanner → Prop) : Out → Prop
  | .ok v i => v.All W ∧ W i
  | .oks vs i => allTrees W vs ∧ W i
  | .fail => True
  | .abort => True

theorem IsCut.rename (M : Morph E π σ W B) {Γ t} (h : IsCut Γ t) : PartsOK B Γ t → IsCut (Γ.map (renameDefs π)) (t.rename π) := by
  induction h with
  | cut => intro _; exact .cut
  | named _ ih => intro ho; exact .named (ih (fun Γ' t' hp => ho Γ' t' (.named hp)))
  | rule hr _ ih => intro ho; exact .rule (hr.rename M.ren) (ih (fun Γ' t' hp => ho Γ' t' (.rule hr hp)))
  | scope he _ ih => intro ho; exact .scope (he.rename M.ren (M.layers (ho _ _ .refl))) (ih (fun Γ' t' hp => ho Γ' t' (.scope he hp)))

theorem rename_cut {t : Term} {u} (h : t.rename π = .cut u) : ∃ t', t = .cut t' ∧ u = t'.rename π := by
  cases t <;> simp [Term.rename] at h
  exact ⟨_, rfl, h.symm⟩

theorem resolves_rename_inv (h : Renaming π) {Γ r Γ₁ u} (hr : Resolves (Γ.map (renameDefs π)) (π r) Γ₁ u) :
    ∃ Γ₂ t, Resolves Γ r Γ₂ t ∧ Γ₁ = Γ₂.map (renameDefs π) ∧ u = t.rename π := by
  have hdef : ∀ {g : Grammar} {k u}, Defines (renameDefs π g) k u → ∀ r, k = π r → ∃ t, Defines g r t ∧ u = t.rename π := by
    intro g k u hd
    induction hd with
    | here hl hn =>
      rintro r rfl
      rw [lookup_rename h] at hl
      obtain ⟨t, h1, h2⟩ := Option.map_eq_some_iff.1 hl
      exact ⟨t, .here h1 fun r' e => hn (π r') (by rw [← h2, e]; rfl), h2.symm⟩
    | «alias» hl _ ih =>
      rintro r rfl
      rw [lookup_rename h] at hl
      obtain ⟨t, h1, h2⟩ := Option.map_eq_some_iff.1 hl
      cases t <;> simp [Term.rename] at h2
      subst h2
      obtain ⟨t', h3, h4⟩ := ih _ rfl
      exact ⟨t', .alias h1 h3, h4⟩
  induction Γ with
  | nil => cases hr
  | cons g Γ ih =>
    cases hr with
    | here hd =>
      obtain ⟨t, h1, h2⟩ := hdef hd r rfl
      exact ⟨g :: Γ, t, .here h1, rfl, h2⟩
    | outer hl hr =>
      rw [lookup_rename h] at hl
      obtain ⟨Γ₂, t, h1, h2⟩ := ih hr
      exact ⟨Γ₂, t, .outer (by simpa using hl) h1, h2⟩

theorem IsCut.rename_inv (M : Morph E π σ W B) {Γ' u} (h : IsCut Γ' u) : ∀ {Γ t}, Γ' = Γ.map (renameDefs π) → u = t.rename π →
    PartsOK B Γ t → IsCut Γ t := by
  induction h with
  | cut =>
    intro Γ t e1 e2 _
    obtain ⟨t', rfl, _⟩ := rename_cut e2.symm
    exact .cut
  | named _ ih =>
    intro Γ t e1 e2 ho
    cases t <;> simp [Term.rename] at e2
    exact .named (ih e1 e2.2 (fun Γ' t' hp => ho Γ' t' (.named hp)))
  | rule hr _ ih =>
    intro Γ t e1 e2 ho
    cases t <;> simp [Term.rename] at e2
    subst e1 e2
    obtain ⟨Γ₂, t, h1, h2, h3⟩ := resolves_rename_inv M.ren hr
    exact .rule h1 (ih h2 h3 (fun Γ' t' hp => ho Γ' t' (.rule h1 hp)))
  | scope he _ ih =>
    intro Γ t e1 e2 ho
    cases t <;> simp [Term.rename] at e2
    obtain ⟨rfl, rfl⟩ := e2
    subst e1
    obtain ⟨g1, h1, rfl⟩ := he
    rw [resolveStacks_rename M.ren (M.layers (ho _ _ .refl))] at h1
    obtain ⟨g2, h2, h3⟩ := Option.map_eq_some_iff.1 h1
    have en : Enters Γ _ (inheritWrap (wrapOf Γ) g2) := ⟨g2, h2, rfl⟩
    refine .scope en (ih ?_ rfl (fun Γ' t' hp => ho Γ' t' (.scope en hp)))
    rw [← h3, wrapOf_rename M.ren, inheritWrap_rename M.ren]
    rfl

theorem IsCut.rename_iff (M : Morph E π σ W B) {Γ t} (ho : PartsOK B Γ t) : IsCut (Γ.map (renameDefs π)) (t.rename π) ↔ IsCut Γ t :=
  ⟨fun h => h.rename_inv M rfl rfl ho, fun h => h.rename M ho⟩

theorem ruleOrAlt_map (h : Renaming π) (rule : Str) {tag : Str} (ht : π tag = tag) : ruleOrAlt (π rule) tag = π (ruleOrAlt rule tag) := by
  unfold ruleOrAlt
  by_cases hr : rule = []
  · subst hr; simp [h.nil, ht]
  · simp [hr, h.eq_nil]

theorem bindVal_map (h : Renaming π) (vals : List (Str × Tree)) (i : Str) (v : Tree) :
    bindVal (mapVals π σ vals) (π i) (v.map π σ) = mapVals π σ (bindVal vals i v) := by
  unfold bindVal
  by_cases hi : i = []
  · subst hi; simp [h.nil]
  · simp [hi, h.eq_nil, mapVals]

theorem bindVal_all {vals : List (Str × Tree)} {i : Str} {v : Tree} (h : ∀ k v, lookup k vals = some v → v.All W) (hv : v.All W) :
    ∀ k u, lookup k (bindVal vals i v) = some u → u.All W := by
  intro k u hk
  unfold bindVal at hk
  split at hk
  · exact h k u hk
  · simp only [lookup] at hk
    split at hk
    · cases hk; exact hv
    · exact h k u hk

theorem lookup_vals (h : Renaming π) (k : Str) (vals : List (Str × Tree)) :
    lookup (π k) (mapVals π σ vals) = (lookup k vals).map (Tree.map π σ) := lookup_map h.inj _ _ _

theorem LeafOut.map (M : Morph E π σ W B) {p inp o} (hW : W inp) (h : LeafOut E p inp o) : LeafOut E p (σ inp) (o.map π σ) := by
  have hs := M.slice inp hW
  cases h with
  | fail h1 h2 => exact .fail (by rw [hs]; exact h1) h2
  | one h1 h2 =>
    simp only [Out.map, Tree.map, M.sub, M.skip]
    exact .one (by rw [hs]; exact h1) h2
  | two h1 h2 =>
    simp only [Out.map, Tree.map, M.sub, M.skip]
    exact .two (by rw [hs]; exact h1) h2

theorem LeafOut.outOK (M : Morph E π σ W B) {Γ t p inp o} (ho : B Γ t) (hm : Matches Γ t p) (hW : W inp)
    (h : LeafOut E (anchor ++ p) inp o) : OutOK W o := by
  cases h with
  | fail => trivial
  | one h1 h2 => exact M.leaf ho hm hW (.one h1 h2)
  | two h1 h2 => exact M.leaf ho hm hW (.two h1 h2)

theorem no_map {o : Out} (h : o = .fail ∨ o = .abort) : Out.map π σ o = .fail ∨ Out.map π σ o = .abort := by
  rcases h with rfl | rfl
  · exact Or.inl rfl
  · exact Or.inr rfl

theorem no_outOK {o : Out} (h : o = .fail ∨ o = .abort) : OutOK W o := by rcases h with rfl | rfl <;> trivial

theorem Peg.map (M : Morph E π σ W B) {G o} (h : Peg E X G o) : GoalOK W B G → Peg E X (G.map π σ) (o.map π σ) ∧ OutOK W o := by
  have R := M.ren
  induction h with
  | rule hr _ ih =>
    rintro ⟨ho, hv, hW⟩
    obtain ⟨h1, h2⟩ := ih ⟨fun _ _ hp => ho _ _ (.rule hr hp), hv, hW⟩
    exact ⟨.rule (hr.rename R) h1, h2⟩
  | named _ ih =>
    rintro ⟨ho, hv, hW⟩
    obtain ⟨h1, h2⟩ := ih ⟨fun _ _ hp => ho _ _ (.named hp), hv, hW⟩
    exact ⟨.named h1, h2⟩
  | cut _ ih =>
    rintro ⟨ho, hv, hW⟩
    obtain ⟨h1, h2⟩ := ih ⟨fun _ _ hp => ho _ _ (.cut hp), hv, hW⟩
    exact ⟨.cut h1, h2⟩
  | scope he _ ih =>
    rintro ⟨ho, hv, hW⟩
    obtain ⟨h1, h2⟩ := ih ⟨fun _ _ hp => ho _ _ (.scope he hp), hv, hW⟩
    exact ⟨.scope (he.rename R (M.layers (ho _ _ .refl))) h1, h2⟩
  | lit hp hl =>
    rintro ⟨ho, hv, hW⟩
    refine ⟨.lit (by rw [wrapOf_rename R]; exact hp.rename) (hl.map M hW), hl.outOK M (ho _ _ .refl) (.lit hp) hW⟩
  | regexp hp hl =>
    rintro ⟨ho, hv, hW⟩
    refine ⟨.regexp (by rw [wrapOf_rename R]; exact hp.rename) (hl.map M hW), hl.outOK M (ho _ _ .refl) (.regexp hp) hW⟩
  | @seqOk Γ rule ts vals inp vs i _ ih =>
    rintro ⟨ho, hv, hW⟩
    obtain ⟨h1, h2⟩ := ih ⟨(PartsOK.seq M.basic).1 ho, hv, hW⟩
    have := Peg.seqOk (rule := π rule) h1
    rw [ruleOrAlt_map R rule (tag := seqTag) R.seq] at this
    exact ⟨this, h2⟩
  | seqNo _ hno ih =>
    rintro ⟨ho, hv, hW⟩
    obtain ⟨h1, h2⟩ := ih ⟨(PartsOK.seq M.basic).1 ho, hv, hW⟩
    exact ⟨.seqNo h1 (no_map hno), h2⟩
  | itemsNil => rintro ⟨ho, hv, hW⟩; exact ⟨.itemsNil, trivial, hW⟩
  | itemsCons _ hc _ ih1 ih2 =>
    rintro ⟨ho, hv, hW⟩
    obtain ⟨h1, h2⟩ := ih1 ⟨ho _ (by simp), hv, hW⟩
    obtain ⟨h3, h4⟩ := ih2 ⟨fun t ht => ho t (by simp [ht]), bindVal_all hv h2.1, h2.2⟩
    refine ⟨.itemsCons (by simpa only [Goal.map, Out.map, R.nil] using h1) (by rw [IsCut.rename_iff M (ho _ (by simp))]; exact hc) ?_, ⟨h2.1, h4.1⟩, h4.2⟩
    rw [ident_rename R, bindVal_map R]; exact h3
  | itemsLater _ hc _ hno ih1 ih2 =>
    rintro ⟨ho, hv, hW⟩
    obtain ⟨h1, h2⟩ := ih1 ⟨ho _ (by simp), hv, hW⟩
    obtain ⟨h3, h4⟩ := ih2 ⟨fun t ht => ho t (by simp [ht]), bindVal_all hv h2.1, h2.2⟩
    refine ⟨.itemsLater (by simpa only [Goal.map, Out.map, R.nil] using h1) (by rw [IsCut.rename_iff M (ho _ (by simp))]; exact hc) ?_ (no_map hno), h4⟩
    rw [ident_rename R, bindVal_map R]; exact h3
  | @itemsFail Γ t ts vals c inp _ ih =>
    rintro ⟨ho, hv, hW⟩
    obtain ⟨h1, h2⟩ := ih ⟨ho _ (by simp), hv, hW⟩
    have := Peg.itemsFail (ts := renameList π ts) (c := c) (by simpa only [Goal.map, Out.map, R.nil] using h1)
    cases c <;> exact ⟨this, trivial⟩
  | itemsAbort _ ih =>
    rintro ⟨ho, hv, hW⟩
    obtain ⟨h1, h2⟩ := ih ⟨ho _ (by simp), hv, hW⟩
    exact ⟨.itemsAbort (by simpa only [Goal.map, Out.map, R.nil] using h1), trivial⟩
  | @oneof Γ rule ts vals inp o _ ih =>
    rintro ⟨ho, hv, hW⟩
    obtain ⟨h1, h2⟩ := ih ⟨fun t ht Γ' t' hp => ho _ _ (.oneof ht hp), hv, hW⟩
    refine ⟨.oneof ?_, h2⟩
    rw [ruleOrAlt_map R rule (tag := oneofTag) R.oneof]; exact h1
  | altsNil => rintro ⟨ho, hv, hW⟩; exact ⟨.altsNil, trivial⟩
  | altsOk _ ih =>
    rintro ⟨ho, hv, hW⟩
    obtain ⟨h1, h2⟩ := ih ⟨ho _ (by simp), hv, hW⟩
    exact ⟨.altsOk (by simpa only [Goal.map, Out.map, R.nil] using h1), ⟨h2.1, trivial⟩, h2.2⟩
  | altsAbort _ ih =>
    rintro ⟨ho, hv, hW⟩
    obtain ⟨h1, h2⟩ := ih ⟨ho _ (by simp), hv, hW⟩
    exact ⟨.altsAbort (by simpa only [Goal.map, Out.map, R.nil] using h1), trivial⟩
  | altsNext _ _ ih1 ih2 =>
    rintro ⟨ho, hv, hW⟩
    obtain ⟨h1, h2⟩ := ih1 ⟨ho _ (by simp), hv, hW⟩
    obtain ⟨h3, h4⟩ := ih2 ⟨fun t ht => ho t (by simp [ht]), hv, hW⟩
    exact ⟨.altsNext (by simpa only [Goal.map, Out.map, R.nil] using h1) h3, h4⟩
  | @quantOk Γ rule t lo hi vals inp vs i _ hle ih =>
    rintro ⟨ho, hv, hW⟩
    obtain ⟨h1, h2⟩ := ih ⟨fun _ _ hp => ho _ _ (.quant hp), hv, hW⟩
    have := Peg.quantOk (rule := π rule) (lo := lo) h1 (by rw [mapTrees_length]; exact hle)
    rw [ruleOrAlt_map R rule (tag := quantTag) R.quant] at this
    exact ⟨this, h2⟩
  | quantFew _ hlt ih =>
    rintro ⟨ho, hv, hW⟩
    obtain ⟨h1, h2⟩ := ih ⟨fun _ _ hp => ho _ _ (.quant hp), hv, hW⟩
    exact ⟨.quantFew h1 (by rw [mapTrees_length]; exact hlt), trivial⟩
  | quantAbort _ ih =>
    rintro ⟨ho, hv, hW⟩
    obtain ⟨h1, h2⟩ := ih ⟨fun _ _ hp => ho _ _ (.quant hp), hv, hW⟩
    exact ⟨.quantAbort h1, trivial⟩
  | repsMax => rintro ⟨ho, hv, hW⟩; exact ⟨.repsMax, trivial, hW⟩
  | repsStop hl _ ih =>
    rintro ⟨ho, hv, hW⟩
    obtain ⟨h1, h2⟩ := ih ⟨ho, hv, hW⟩
    exact ⟨.repsStop hl (by simpa only [Goal.map, Out.map, R.nil] using h1), trivial, hW⟩
  | repsMore hl _ _ ih1 ih2 =>
    rintro ⟨ho, hv, hW⟩
    obtain ⟨h1, h2⟩ := ih1 ⟨ho, hv, hW⟩
    obtain ⟨h3, h4⟩ := ih2 ⟨ho, hv, h2.2⟩
    exact ⟨.repsMore hl (by simpa only [Goal.map, Out.map, R.nil] using h1) h3, ⟨h2.1, h4.1⟩, h4.2⟩
  | repsLater hl _ _ ih1 ih2 =>
    rintro ⟨ho, hv, hW⟩
    obtain ⟨h1, h2⟩ := ih1 ⟨ho, hv, hW⟩
    obtain ⟨h3, h4⟩ := ih2 ⟨ho, hv, h2.2⟩
    exact ⟨.repsLater hl (by simpa only [Goal.map, Out.map, R.nil] using h1) h3, trivial⟩
  | repsAbort hl _ ih =>
    rintro ⟨ho, hv, hW⟩
    obtain ⟨h1, h2⟩ := ih ⟨ho, hv, hW⟩
    exact ⟨.repsAbort hl (by simpa only [Goal.map, Out.map, R.nil] using h1), trivial⟩
  | @lookOk Γ rule t vals inp v i _ ih =>
    rintro ⟨ho, hv, hW⟩
    obtain ⟨h1, h2⟩ := ih ⟨fun _ _ hp => ho _ _ (.look hp), hv, hW⟩
    have := Peg.lookOk (rule := π rule) (by simpa only [Goal.map, Out.map, R.nil] using h1)
    rw [ruleOrAlt_map R rule (tag := lookaheadTag) R.look] at this
    exact ⟨this, ⟨h2.1, trivial⟩, hW⟩
  | lookNo _ hno ih =>
    rintro ⟨ho, hv, hW⟩
    obtain ⟨h1, h2⟩ := ih ⟨fun _ _ hp => ho _ _ (.look hp), hv, hW⟩
    exact ⟨.lookNo (by simpa only [Goal.map, Out.map, R.nil] using h1) (no_map hno), h2⟩
  | @delimOk Γ rule term sep a cs ce vals inp v v' i _ hf ih =>
    rintro ⟨ho, hv, hW⟩
    obtain ⟨h1, h2⟩ := ih ⟨PartsOK.delim M.basic ho, hv, hW⟩
    refine ⟨.delimOk (v := v.map π σ) ?_ ?_, all_finish h2.1 hf, h2.2⟩
    · simpa only [Goal.map, Out.map, Term.rename, delimSeq_rename] using h1
    · rw [ruleOrAlt_map R rule (tag := delimTag) R.delim, delimFinish_map, hf]; rfl
  | delimNo _ hno ih =>
    rintro ⟨ho, hv, hW⟩
    obtain ⟨h1, h2⟩ := ih ⟨PartsOK.delim M.basic ho, hv, hW⟩
    refine ⟨.delimNo ?_ (no_map hno), h2⟩
    simpa only [Goal.map, Term.rename, delimSeq_rename] using h1
  | refOk hl ht hq _ he ih =>
    rintro ⟨ho, hv, hW⟩
    have hw := hv _ _ hl
    obtain ⟨h1, h2⟩ := ih ⟨PartsOK.text M.basic ho hq, hv, hW⟩
    simp only [Goal.map, text_rename _ hq, List.map_nil] at h1
    exact ⟨.refOk (by rw [lookup_vals R, hl]; rfl) (by rw [refVal_map M.toStr _ hw]; exact ht) hq h1
      (by rw [nodesEqual_map M.toStr _ _ h2.1 hw]; exact he), h2⟩
  | refDiffers hl ht hq _ he ih =>
    rintro ⟨ho, hv, hW⟩
    have hw := hv _ _ hl
    obtain ⟨h1, h2⟩ := ih ⟨PartsOK.text M.basic ho hq, hv, hW⟩
    simp only [Goal.map, text_rename _ hq, List.map_nil] at h1
    exact ⟨.refDiffers (by rw [lookup_vals R, hl]; rfl) (by rw [refVal_map M.toStr _ hw]; exact ht) hq h1
      (by rw [nodesEqual_map M.toStr _ _ h2.1 hw]; exact he), trivial⟩
  | refNo hl ht hq _ hno ih =>
    rintro ⟨ho, hv, hW⟩
    have hw := hv _ _ hl
    obtain ⟨h1, h2⟩ := ih ⟨PartsOK.text M.basic ho hq, hv, hW⟩
    simp only [Goal.map, text_rename _ hq, List.map_nil] at h1
    exact ⟨.refNo (by rw [lookup_vals R, hl]; rfl) (by rw [refVal_map M.toStr _ hw]; exact ht) hq h1 (no_map hno), h2⟩
  | refDefault hl hq _ ih =>
    rintro ⟨ho, hv, hW⟩
    obtain ⟨h1, h2⟩ := ih ⟨PartsOK.text M.basic ho hq, hv, hW⟩
    simp only [Goal.map, text_rename _ hq, List.map_nil] at h1
    exact ⟨.refDefault (by rw [lookup_vals R, hl]; rfl) hq h1, h2⟩
  | refUnbound hl =>
    rintro ⟨ho, hv, hW⟩
    exact ⟨.refUnbound (by rw [lookup_vals R, hl]; rfl), trivial⟩
  | extNone => rintro ⟨ho, hv, hW⟩; exact absurd (ho _ _ .refl) M.ext
  | ext => rintro ⟨ho, hv, hW⟩; exact absurd (ho _ _ .refl) M.ext

end Wbnf

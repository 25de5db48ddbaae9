import Verif.Model.Ast
import Verif.Lemmas.Reorder
import Verif.Lemmas.Compile
import Verif.Lemmas.Parts

/-!
# ASTs do not depend on the order of the rules of a grammar
-/

namespace Wbnf

mutual
theorem Reord.countChildren : {t t' : Term} → Reord t t' → ∀ p ctrs, t.countChildren p ctrs = t'.countChildren p ctrs
  | _, _, .rule, _, _ => rfl
  | _, _, .s, _, _ => rfl
  | _, _, .re, _, _ => rfl
  | _, _, .ref, _, _ => rfl
  | _, _, .ext, _, _ => rfl
  | _, _, .seq h, p, ctrs => by simp only [Term.countChildren]; exact h.countSeq p ctrs
  | _, _, .oneof h, p, ctrs => by simp only [Term.countChildren]; rw [h.countOneof []]
  | _, _, .stack h, _, _ => rfl
  | _, _, .delim h h', p, ctrs => by
    simp only [Term.countChildren, h.countChildren]
    congr 1
    funext c
    exact h'.countChildren _ c
  | _, _, .look h, p, ctrs => by simp only [Term.countChildren]; exact h.countChildren _ _
  | _, _, .quant h, p, ctrs => by simp only [Term.countChildren]; exact h.countChildren _ _
  | _, _, .named h, _, _ => rfl
  | _, _, .scope h _, p, ctrs => by simp only [Term.countChildren]; exact h.countChildren _ _
  | _, _, .cut h, p, ctrs => by simp only [Term.countChildren]; exact h.countChildren _ _
theorem ReordList.countSeq : {ts ts' : List Term} → ReordList ts ts' → ∀ p ctrs, Wbnf.countSeq ts p ctrs = Wbnf.countSeq ts' p ctrs
  | _, _, .nil, _, _ => rfl
  | _, _, .cons h h', p, ctrs => by
    simp only [Wbnf.countSeq, h.countChildren]
    congr 1
    funext c
    exact h'.countSeq _ c
theorem ReordList.countOneof : {ts ts' : List Term} → ReordList ts ts' → ∀ ds, Wbnf.countOneof ts ds = Wbnf.countOneof ts' ds
  | _, _, .nil, _ => rfl
  | _, _, .cons h h', ds => by
    simp only [Wbnf.countOneof, h.countChildren]
    congr 1
    funext c
    exact h'.countOneof _
end

theorem Reord.goEq : {t t' : Term} → Reord t t' → ∀ {u u' : Term}, Reord u u' → t.goEq u = t'.goEq u'
  | _, _, .rule, _, _, h => by cases h <;> rfl
  | _, _, .s, _, _, h => by cases h <;> rfl
  | _, _, .re, _, _, h => by cases h <;> rfl
  | _, _, .ref, _, _, h => by cases h <;> rfl
  | _, _, .ext, _, _, h => by cases h <;> rfl
  | _, _, .seq _, _, _, h => by cases h <;> rfl
  | _, _, .oneof _, _, _, h => by cases h <;> rfl
  | _, _, .stack _, _, _, h => by cases h <;> rfl
  | _, _, .scope _ _, _, _, h => by cases h <;> rfl
  | _, _, .delim h1 h2, _, _, h => by
    cases h with
    | delim h3 h4 => simp only [Term.goEq, h1.goEq h3, h2.goEq h4]
    | _ => rfl
  | _, _, .look h1, _, _, h => by
    cases h with
    | look h3 => simp only [Term.goEq, h1.goEq h3]
    | _ => rfl
  | _, _, .quant h1, _, _, h => by
    cases h with
    | quant h3 => simp only [Term.goEq, h1.goEq h3]
    | _ => rfl
  | _, _, .named h1, _, _, h => by
    cases h with
    | named h3 => simp only [Term.goEq, h1.goEq h3]
    | _ => rfl
  | _, _, .cut h1, _, _, h => by
    cases h with
    | cut h3 => simp only [Term.goEq, h1.goEq h3]
    | _ => rfl

theorem Reord.newCounters {t t' : Term} (h : Reord t t') : Wbnf.newCounters (some t) = Wbnf.newCounters (some t') := by
  simp only [Wbnf.newCounters, h.countChildren]

theorem SameDefs.newCounters {g g' : Grammar} (h : SameDefs g g') (r : Str) : Wbnf.newCounters (lookup r g) = Wbnf.newCounters (lookup r g') := by
  cases hl : lookup r g with
  | none => rw [(h r).1.1 hl]
  | some t =>
    obtain ⟨t', h1, h2, -⟩ := (h r).2 t hl
    rw [h1, h2.newCounters]

/-! ## Grammars in braces -/

theorem overlay_lookup {k : Str} : ∀ (g' g : Grammar), g'.Distinct → lookup k (overlay g g') = match lookup k g' with | some t => some t | none => lookup k g
  | [], g, _ => rfl
  | (r, t) :: g', g, hd => by
    have hd' : Grammar.Distinct g' := by unfold Grammar.Distinct at hd ⊢; exact (List.nodup_cons.1 hd).2
    simp only [overlay, overlay_lookup g' _ hd']
    simp only [lookup]
    by_cases e : r = k
    · subst e
      have : lookup r g' = none := by
        cases hl : lookup r g' with
        | none => rfl
        | some u =>
          unfold Grammar.Distinct at hd
          exact absurd (List.mem_map.2 ⟨_, lookup_mem hl, rfl⟩) (List.nodup_cons.1 hd).1
      simp [this, lookup_mapSet_self]
    · cases lookup k g' <;> simp [e, lookup_mapSet_ne (Ne.symm e)]

theorem SameDefs.overlay {g g' h h' : Grammar} (hg : SameDefs g g') (hh : ReordDefs h h') (ht : tidyDefs h) (hd : h.Distinct) :
    SameDefs (overlay g h) (overlay g' h') := by
  have hd' := hh.distinct hd
  intro k
  rw [overlay_lookup _ _ hd, overlay_lookup _ _ hd']
  cases hl : lookup k h with
  | some t =>
    obtain ⟨t', h1, h2⟩ := hh.mem (lookup_mem hl)
    rw [(lookup_iff_mem hd').2 h1]
    refine ⟨by simp, fun u hu => ?_⟩
    cases hu
    exact ⟨t', rfl, h2, tidyDefs_iff.1 ht _ _ (lookup_mem hl)⟩
  | none =>
    have : lookup k h' = none := by
      cases hl' : lookup k h' with
      | none => rfl
      | some t =>
        obtain ⟨t', h1, h2⟩ := hh.symm.mem (lookup_mem hl')
        rw [(lookup_iff_mem hd).2 h1] at hl
        cases hl
    rw [this]
    exact hg k

/-! ## FromParserNode -/

theorem ReordList.either : ∀ {ts ts' : List Term}, ReordList ts ts' → ∀ i : Nat, (ts[i]? = none ∧ ts'[i]? = none) ∨ ∃ u u', ts[i]? = some u ∧ ts'[i]? = some u' ∧ Reord u u'
  | _, _, .nil, i => by simp
  | _, _, .cons h _, 0 => .inr ⟨_, _, rfl, rfl, h⟩
  | _, _, .cons _ h, i + 1 => by simpa using h.either i

/-- The same branch, or the same error. -/
def SameAst : Except Stop (Grammar × Branch) → Except Stop (Grammar × Branch) → Prop
  | .ok (g, b), .ok (g', b') => SameDefs g g' ∧ b = b'
  | .error e, .error e' => e = e'
  | _, _ => False

theorem SameAst.bind {x y : Except Stop (Grammar × Branch)} (h : SameAst x y) {f f' : Grammar × Branch → Except Stop (Grammar × Branch)}
    (hf : ∀ g g' b, SameDefs g g' → SameAst (f (g, b)) (f' (g', b))) : SameAst (x.bind f) (y.bind f') := by
  cases x with
  | error e => cases y with
    | error e' => exact h
    | ok q => exact h.elim
  | ok p => cases y with
    | error e' => exact h.elim
    | ok q =>
      obtain ⟨g, b⟩ := p
      obtain ⟨g', b'⟩ := q
      obtain ⟨h1, rfl⟩ := h
      exact hf g g' b h1

theorem SameAst.same {α : Type} (x : Except Stop α) {f f' : α → Except Stop (Grammar × Branch)} (hf : ∀ a, SameAst (f a) (f' a)) : SameAst (x.bind f) (x.bind f') := by
  cases x with
  | error e => rfl
  | ok a => exact hf a

theorem loopTrees_same {f f' : Tree → Grammar → Branch → Except Stop (Grammar × Branch)} (hf : ∀ v g g' b, SameDefs g g' → SameAst (f v g b) (f' v g' b)) :
    ∀ vs {g g' : Grammar} {b}, SameDefs g g' → SameAst (loopTrees f vs g b) (loopTrees f' vs g' b)
  | [], _, _, _, h => ⟨h, rfl⟩
  | v :: vs, _, _, _, h => (hf v _ _ _ h).bind fun _ _ _ h => loopTrees_same hf vs h

theorem loopSeq_same {f f' : Term → Tree → Grammar → Branch → Except Stop (Grammar × Branch)}
    (hf : ∀ t t' v g g' b, Reord t t' → t.Tidy → SameDefs g g' → SameAst (f t v g b) (f' t' v g' b)) :
    ∀ {ts ts'}, ReordList ts ts' → tidyList ts → ∀ vs {g g' : Grammar} {b}, SameDefs g g' → SameAst (loopSeq f ts vs g b) (loopSeq f' ts' vs g' b)
  | _, _, .nil, _, [], _, _, _, h => ⟨h, rfl⟩
  | _, _, .nil, _, _ :: _, _, _, _, _ => rfl
  | _, _, .cons _ _, _, [], _, _, _, h => ⟨h, rfl⟩
  | _, _, .cons h1 h2, ht, v :: vs, _, _, _, h => (hf _ _ v _ _ _ h1 ht.1 h).bind fun _ _ _ h => loopSeq_same hf h2 ht.2 vs h

theorem loopDelim_same {f f' : Term → Tree → Grammar → Branch → Except Stop (Grammar × Branch)}
    (hf : ∀ t t' v g g' b, Reord t t' → t.Tidy → SameDefs g g' → SameAst (f t v g b) (f' t' v g' b)) {sep sep' : Term} (hs : Reord sep sep') (hst : sep.Tidy) :
    ∀ vs {t t' u u' : Term} {sn fi}, Reord t t' → t.Tidy → Reord u u' → u.Tidy → ∀ {g g' : Grammar} {b}, SameDefs g g' →
      SameAst (loopDelim f sep t u sn fi vs g b) (loopDelim f' sep' t' u' sn fi vs g' b)
  | [], _, _, _, _, _, _, _, _, _, _, _, _, _, h => ⟨h, rfl⟩
  | v :: vs, t, t', u, u', sn, fi, h1, ht, h2, hu, g, g', b, h => by
    simp only [loopDelim]
    have key : SameAst
        (match v with
        | .empty => (b.many emptyTag (.extra (.text (if fi then str "@prefix" else str "@suffix")))).bind fun b => .ok (g, b)
        | v => f (if sn then sep else t) v g b)
        (match v with
        | .empty => (b.many emptyTag (.extra (.text (if fi then str "@prefix" else str "@suffix")))).bind fun b => .ok (g', b)
        | v => f' (if sn then sep' else t') v g' b) := by
      have hterm : Reord (if sn then sep else t) (if sn then sep' else t') := by cases sn <;> assumption
      have htt : (if sn then sep else t).Tidy := by cases sn <;> assumption
      cases v with
      | empty => exact .same _ fun b => ⟨h, rfl⟩
      | _ => exact hf _ _ _ _ _ _ hterm htt h
    refine key.bind fun g g' b h => ?_
    cases sn with
    | true => exact loopDelim_same hf hs hst vs h1 ht h2 hu h
    | false => exact loopDelim_same hf hs hst vs h2 hu h1 ht h

theorem fromTree_same (n : Nat) : ∀ {t t' : Term} (_ : Reord t t') (_ : t.Tidy) (ctrs : Counters) (e : Tree) {g g' : Grammar} (b : Branch), SameDefs g g' →
    SameAst (fromTree n t ctrs e g b) (fromTree n t' ctrs e g' b) := by
  induction n with
  | zero => intros; rfl
  | succ n ih =>
    intro t t' ht hd ctrs e g g' b hg
    cases ht with
    | rule =>
      rename_i r
      simp only [fromTree]
      rw [hg.newCounters r]
      refine .same _ fun c => .same _ fun name => ?_
      cases hl : lookup r g with
      | none => rw [(hg r).1.1 hl]; rfl
      | some u =>
        obtain ⟨u', h1, h2, h3⟩ := (hg r).2 u hl
        rw [h1]
        exact (ih h2 h3 c e [] hg).bind fun g g' b' h => .same _ fun b => ⟨h, rfl⟩
    | s => simp only [fromTree]; split <;> first | exact .same _ fun b => ⟨hg, rfl⟩ | rfl
    | re => simp only [fromTree]; split <;> first | exact .same _ fun b => ⟨hg, rfl⟩ | rfl
    | ref =>
      simp only [fromTree]
      split
      · exact .same _ fun b => ⟨hg, rfl⟩
      · exact (loopTrees_same (fun v g g' b h => ih .ref trivial ctrs v b h) _ hg).bind fun g g' b' h => .same _ fun b => ⟨h, rfl⟩
      · exact ⟨hg, rfl⟩
    | ext => exact ⟨hg, rfl⟩
    | seq h =>
      simp only [fromTree]
      split
      · exact loopSeq_same (fun t t' v g g' b h1 h2 h => ih h1 h2 ctrs v b h) h hd _ hg
      · rfl
    | oneof h =>
      simp only [fromTree]
      split
      · rename_i i v _
        refine .same _ fun b => ?_
        rcases h.either i with ⟨h1, h2⟩ | ⟨u, u', h1, h2, h3⟩
        · rw [h1, h2]; rfl
        · rw [h1, h2]
          exact ih h3 (tidyList_iff.1 hd _ (List.mem_of_getElem? h1)) ctrs v b hg
      · rfl
    | stack h => rfl
    | delim h h' =>
      simp only [fromTree]
      split
      · rename_i t u sep sep' a cs ce e tag a' vs
        have hD : Reord (.delim t sep a cs ce) (.delim u sep' a cs ce) := .delim h h'
        have key : ∀ (lr lr' : Term) (v : Tree) (g g' : Grammar) (b : Branch), Reord lr lr' → lr.Tidy → SameDefs g g' →
            SameAst ((lr.goEq (.delim t sep a cs ce)).bind fun same =>
              if same then
                match v with
                | .node _ _ _ =>
                  (newCounters (some lr)).bind fun c =>
                  match (Term.delim t sep a cs ce).countChildren (ctrs.get []) c with
                  | some c' =>
                    (fromTree n lr c' v g []).bind fun s =>
                      (b.one tag (.branch s.2)).bind fun b => .ok (s.1, b)
                  | none => .error .panic
                | _ => fromTree n t ctrs v g b
              else fromTree n lr ctrs v g b)
            ((lr'.goEq (.delim u sep' a cs ce)).bind fun same =>
              if same then
                match v with
                | .node _ _ _ =>
                  (newCounters (some lr')).bind fun c =>
                  match (Term.delim u sep' a cs ce).countChildren (ctrs.get []) c with
                  | some c' =>
                    (fromTree n lr' c' v g' []).bind fun s =>
                      (b.one tag (.branch s.2)).bind fun b => .ok (s.1, b)
                  | none => .error .panic
                | _ => fromTree n u ctrs v g' b
              else fromTree n lr' ctrs v g' b) := by
          intro lr lr' v g g' b h1 h2 hg
          rw [h1.goEq hD]
          refine .same _ fun same => ?_
          cases same with
          | false => exact ih h1 h2 ctrs v b hg
          | true =>
            simp only [if_true]
            split
            · rw [h1.newCounters]
              refine .same _ fun c => ?_
              rw [hD.countChildren]
              split
              · exact (ih h1 h2 _ _ [] hg).bind fun g g' b' h => .same _ fun b => ⟨h, rfl⟩
              · rfl
            · exact ih h hd.1 ctrs _ b hg
        split
        · exact loopDelim_same key h' hd.2 _ h hd.1 hD hd hg
        · split
          · exact loopDelim_same key h' hd.2 _ hD hd h hd.1 hg
          · exact loopDelim_same key h' hd.2 _ h hd.1 h hd.1 hg
      · rfl
    | look h =>
      simp only [fromTree]
      split
      · exact loopTrees_same (fun v g g' b hg => ih h hd ctrs v b hg) _ hg
      · rfl
    | quant h =>
      simp only [fromTree]
      split
      · exact loopTrees_same (fun v g g' b hg => ih h hd ctrs v b hg) _ hg
      · rfl
    | named h =>
      simp only [fromTree]
      rw [h.newCounters]
      exact .same _ fun c => (ih h hd c e [] hg).bind fun g g' b' h => .same _ fun b => ⟨h, rfl⟩
    | scope h h' =>
      simp only [fromTree]
      exact ih h hd.1 ctrs e b (hg.overlay h' hd.2.1 hd.2.2.1)
    | cut h => exact ih h hd ctrs e b hg

theorem fromParserNode_same {n : Nat} {g g' : Grammar} (h : SameDefs g g') (v : Tree) : SameAst (fromParserNode n g v) (fromParserNode n g' v) := by
  cases v with
  | leaf s => exact ⟨h, rfl⟩
  | node tag x cs =>
    simp only [fromParserNode]
    rw [h.newCounters tag]
    refine .same _ fun c => ?_
    cases hl : lookup tag g with
    | none => rw [(h tag).1.1 hl]; rfl
    | some u =>
      obtain ⟨u', h1, h2, h3⟩ := (h tag).2 u hl
      rw [h1]
      exact fromTree_same n h2 h3 c _ _ h
  | _ => rfl

end Wbnf

import Verif.Lemmas.TypesRules
import Verif.Props.Stacks

/-!
# Terms whose parts can be read with the methods of a type
-/

namespace Wbnf

/-- There is a method for this use of a name. -/
def HasMethod (camel : Str → Str) (tm : TypeMap) (ty k : Str) (u : Use) : Prop :=
  ∃ d ∈ allMethods camel tm, d.receiver = ty ∧
    match u with
    | .node t => d.does = .oneNode k t ∨ d.does = .allNodes k t
    | .self t => d.does = .oneNode k t ∨ d.does = .allNodes k t
    | .text => d.does = .oneText k ∨ d.does = .allTexts k
    | .raw => d.does = .raw k

theorem Present.method {camel : Str → Str} {us tm ty k u} (hok : TypesOK camel us tm) (h : Present camel tm ty k u) :
    HasMethod camel tm ty k u := by
  obtain ⟨x, m, hl, hm, rfl, hu⟩ := h
  obtain ⟨⟨p, rfl⟩, hx⟩ := hok _ _ hl
  rcases hx with rfl | ⟨cs, rfl, hcs⟩
  · simp [GoType.children] at hm
  · obtain ⟨hp, hc, _⟩ := hcs m hm
    have mem : ∀ d ∈ m.methods camel, d ∈ allMethods camel tm := by
      intro d hd
      simp only [allMethods, List.mem_flatMap]
      exact ⟨_, lookup_mem hl, by simp only [GoType.methods, List.mem_flatMap]; exact ⟨m, hm, hd⟩⟩
    have rules : ∀ n q t (c : Count), c.Some → (∀ d ∈ ruleMethods camel n q t c, d ∈ allMethods camel tm) →
        goTypeName camel q = goTypeName camel p →
        ∃ d ∈ allMethods camel tm, d.receiver = goTypeName camel p ∧
          (d.does = .oneNode n (goTypeName camel t) ∨ d.does = .allNodes n (goTypeName camel t)) := by
      intro n q t c hc hd hq
      rcases hc with hc | hc
      · exact ⟨_, hd ⟨goTypeName camel q, str "One" ++ goName camel n, .oneNode n (goTypeName camel t)⟩ (by simp [ruleMethods, hc]), hq, .inl rfl⟩
      · exact ⟨_, hd ⟨goTypeName camel q, str "All" ++ goName camel n, .allNodes n (goTypeName camel t)⟩ (by simp [ruleMethods, hc]), hq, .inr rfl⟩
    cases m with
    | choice q => cases u <;> simp [Member.Uses] at hu
    | unnamedToken q c => cases u <;> simp [Member.Uses] at hu
    | stackBackRef n q =>
      cases u <;> simp only [Member.Uses] at hu
      · subst hu; exact rules n q q wantAll wantAll_some mem hp
      · subst hu; exact rules n q q wantAll wantAll_some mem hp
    | namedRule n q t c =>
      cases u <;> simp only [Member.Uses] at hu
      subst hu; exact rules n q t c (hc c rfl) mem hp
    | backRef n q =>
      cases u <;> simp only [Member.Uses] at hu
      exact ⟨_, mem ⟨_, _, .raw n⟩ (List.mem_singleton.2 rfl), hp, rfl⟩
    | namedToken n q c =>
      cases u <;> simp only [Member.Uses] at hu
      rcases hc c rfl with hc | hc
      · exact ⟨_, mem ⟨goTypeName camel q, str "One" ++ goName camel n, .oneText n⟩ (by simp [Member.methods, hc]), hp, .inl rfl⟩
      · exact ⟨_, mem ⟨goTypeName camel q, str "All" ++ goName camel n, .allTexts n⟩ (by simp [Member.methods, hc]), hp, .inr rfl⟩

/-- In a resolved grammar `@` is a rule like others. -/
def Use.plain : Use → Use
  | .self ty => .node ty
  | u => u

/-- The name is used like this, and there is a method for it. -/
def Offers (camel : Str → Str) (tm : TypeMap) (us : List (Str × Str × Use)) (ty k : Str) (u : Use) : Prop :=
  (∃ u', (ty, k, u') ∈ us ∧ u'.plain = u) ∧ HasMethod camel tm ty k u

theorem Offers.unique {camel : Str → Str} {tm us ty k u u'} (ho : OneWay us) (h : Offers camel tm us ty k u) (h' : Offers camel tm us ty k u') : u = u' := by
  obtain ⟨⟨v, hv, rfl⟩, _⟩ := h
  obtain ⟨⟨v', hv', rfl⟩, _⟩ := h'
  have := ho _ hv _ hv' rfl rfl
  simp only at this
  rw [this]

theorem Present.offers {camel : Str → Str} {us tm ty k u} (hok : TypesOK camel us tm) (h : Present camel tm ty k u) (hu : (ty, k, u) ∈ us) :
    Offers camel tm us ty k u.plain := by
  refine ⟨⟨u, hu, rfl⟩, ?_⟩
  have := h.method hok
  cases u <;> exact this

section
variable (camel : Str → Str) (tm : TypeMap) (g : Grammar)

mutual
/-- The methods of the type of `p` fit the parts of this term, of a grammar without stacks. -/
def Term.Reads : Term → Str → Prop
  | .s _, _ => True
  | .re _, _ => True
  | .ext _, _ => True
  | .stack _, _ => True
  | .scope _ _, _ => False
  | .rule r, p => Offers camel tm (g.nameUses camel) (goTypeName camel p) (shownName r) (.node (typeOf camel (shownName r)))
  | .ref i _, p => Offers camel tm (g.nameUses camel) (goTypeName camel p) i .raw
  | .seq ts, p => readsList ts p
  | .oneof ts, p => readsList ts p
  | .delim t sep _ _ _, p => t.Reads p ∧ sep.Reads p
  | .quant t _ _, p => t.Reads p
  | .cut t, p => t.Reads p
  | .look t, p => t.Reads p
  | .named n t, p =>
    match t with
    | .rule r => Offers camel tm (g.nameUses camel) (goTypeName camel p) n (.node (typeOf camel (shownName r))) ∧
      (g.TokenRule camel tm r ∨
        Offers camel tm (g.nameUses camel) (typeOf camel (shownName r)) (shownName r) (.node (typeOf camel (shownName r))))
    | .s _ => Offers camel tm (g.nameUses camel) (goTypeName camel p) n .text
    | .re _ => Offers camel tm (g.nameUses camel) (goTypeName camel p) n .text
    | .cut (.s _) => Offers camel tm (g.nameUses camel) (goTypeName camel p) n .text
    | .cut _ => False
    | t => Offers camel tm (g.nameUses camel) (goTypeName camel p) n (.node (goTypeName camel (p ++ goName camel n))) ∧ t.Reads (p ++ goName camel n)
def readsList : List Term → Str → Prop
  | [], _ => True
  | t :: ts, p => t.Reads p ∧ readsList ts p
end
end

/-- The term itself, or what it is in a layer where `@` is `new`. -/
def Term.inLayer (new : Option Str) (t : Term) : Term :=
  match new with
  | none => t
  | some new => t.uncut.atTo new

def inLayerList (new : Option Str) (ts : List Term) : List Term :=
  match new with
  | none => ts
  | some new => atToList new (uncutList ts)

section
variable {new : Option Str}
theorem inLayer_s {l} : (Term.s l).inLayer new = .s l := by cases new <;> rfl
theorem inLayer_re {l} : (Term.re l).inLayer new = .re l := by cases new <;> rfl
theorem inLayer_ref {i d} : (Term.ref i d).inLayer new = .ref i d := by cases new <;> rfl
theorem inLayer_ext {i} : (Term.ext i).inLayer new = .ext i := by cases new <;> rfl
theorem inLayer_seq {ts} : (Term.seq ts).inLayer new = .seq (inLayerList new ts) := by cases new <;> rfl
theorem inLayer_oneof {ts} : (Term.oneof ts).inLayer new = .oneof (inLayerList new ts) := by cases new <;> rfl
theorem inLayer_quant {t lo hi} : (Term.quant t lo hi).inLayer new = .quant (t.inLayer new) lo hi := by cases new <;> rfl
theorem inLayer_look {t} : (Term.look t).inLayer new = .look (t.inLayer new) := by cases new <;> rfl
theorem inLayer_named {n t} : (Term.named n t).inLayer new = .named n (t.inLayer new) := by cases new <;> rfl
theorem inLayer_delim {t sep a cs ce} : (Term.delim t sep a cs ce).inLayer new = .delim (t.inLayer new) (sep.inLayer new) a cs ce := by cases new <;> rfl
theorem inLayer_stack {ts} : ∃ ts', (Term.stack ts).inLayer new = .stack ts' := by cases new <;> exact ⟨_, rfl⟩
theorem inLayer_cut {t} : (Term.cut t).inLayer new = .cut (t.inLayer new) ∨ (Term.cut t).inLayer new = t.inLayer new := by
  cases new
  · exact .inl rfl
  · exact .inr rfl
theorem inLayerList_cons {t ts} : inLayerList new (t :: ts) = t.inLayer new :: inLayerList new ts := by cases new <;> rfl
theorem inLayerList_nil : inLayerList new [] = [] := by cases new <;> rfl
theorem inLayer_rule {r} (h : r ≠ atRule) : (Term.rule r).inLayer new = .rule r := by
  cases new
  · rfl
  · simp only [Term.inLayer, Term.uncut, Term.atTo]
    rw [if_neg (show ¬ r = str "@" from h)]
theorem inLayer_at {x} : (Term.rule atRule).inLayer (some x) = .rule x := by
  simp [Term.inLayer, Term.uncut, Term.atTo, atRule]
end

/-- What is to be known about a rule to read its terms. -/
structure RuleUses (camel : Str → Str) (tm : TypeMap) (g : Grammar) (me : Str) (new : Option Str) (es : List (Str × Str × Use)) : Prop where
  offers : ∀ e ∈ es, Offers camel tm (g.nameUses camel) e.1 e.2.1 e.2.2.plain
  own : ∀ n, (typeOf camel me, n, .self (typeOf camel me)) ∈ es → Offers camel tm (g.nameUses camel) (typeOf camel me) me (.node (typeOf camel me))
  selfs : ∀ r, g.SelfRule camel r → Offers camel tm (g.nameUses camel) (typeOf camel r) r (.node (typeOf camel r))
  shown : ∀ x, new = some x → shownName x = me

section
variable {camel : Str → Str} {tm : TypeMap} {g : Grammar} {self : Str} {new : Option Str} {es : List (Str × Str × Use)}

mutual
theorem reads_of_uses (h : RuleUses camel tm g self new es) :
    ∀ (t : Term) (p : Str), t.Deep (Term.Typed camel tm g) → (t.Deep (· ≠ .rule atRule) ∨ p = goName camel self ∧ new.isSome) →
      (∀ e ∈ t.nameUses camel self p, e ∈ es) → (t.inLayer new).Reads camel tm g p
  | .s _, p, _, _, _ => by rw [inLayer_s]; trivial
  | .re _, p, _, _, _ => by rw [inLayer_re]; trivial
  | .ext _, p, _, _, _ => by rw [inLayer_ext]; trivial
  | .stack ts, p, _, _, _ => by obtain ⟨_, e⟩ := inLayer_stack (new := new) (ts := ts); rw [e]; trivial
  | .scope _ _, p, ht, _, _ => absurd ht.1 (by simp [Term.Typed])
  | .rule r, p, ht, hat, hu => by
    simp only [Term.nameUses] at hu
    have ho := h.offers _ (hu _ (List.mem_singleton.2 rfl))
    by_cases e : r = atRule
    · subst e
      rcases hat with hat | ⟨_, hn⟩
      · exact absurd rfl hat
      · obtain ⟨x, hx⟩ := Option.isSome_iff_exists.1 hn
        have hsh := h.shown x hx
        subst hx
        rw [inLayer_at]
        simp only [Term.Reads, hsh]
        simpa [referent, Use.plain] using ho
    · rw [inLayer_rule e]
      simpa [Term.Reads, referent, e, Use.plain] using ho
  | .ref i d, p, _, _, hu => by
    simp only [Term.nameUses] at hu
    rw [inLayer_ref]
    exact h.offers _ (hu _ (List.mem_singleton.2 rfl))
  | .seq ts, p, ht, hat, hu => by
    rw [inLayer_seq]
    exact readsList_of_uses h ts p ht.2 (hat.imp_left fun h => h.2) (by simpa [Term.nameUses] using hu)
  | .oneof ts, p, ht, hat, hu => by
    rw [inLayer_oneof]
    exact readsList_of_uses h ts p ht.2 (hat.imp_left fun h => h.2) (by simpa [Term.nameUses] using hu)
  | .delim t sep a cs ce, p, ht, hat, hu => by
    rw [inLayer_delim]
    simp only [Term.nameUses, List.mem_append] at hu
    exact ⟨reads_of_uses h t p ht.2.1 (hat.imp_left fun h => h.2.1) fun e he => hu e (.inl he),
      reads_of_uses h sep p ht.2.2 (hat.imp_left fun h => h.2.2) fun e he => hu e (.inr he)⟩
  | .quant t lo hi, p, ht, hat, hu => by
    rw [inLayer_quant]
    exact reads_of_uses h t p ht.2 (hat.imp_left fun h => h.2) (by simpa [Term.nameUses] using hu)
  | .look t, p, ht, hat, hu => by
    rw [inLayer_look]
    exact reads_of_uses h t p ht.2 (hat.imp_left fun h => h.2) (by simpa [Term.nameUses] using hu)
  | .cut t, p, ht, hat, hu => by
    have := reads_of_uses h t p ht.2 (hat.imp_left fun h => h.2) (by simpa [Term.nameUses] using hu)
    rcases inLayer_cut (new := new) (t := t) with e | e <;> rw [e]
    · exact this
    · exact this
  | .named n t, p, ht, hat, hu => by
    rw [inLayer_named]
    have hty := ht.1.2
    have rec1 := reads_of_uses h t (p ++ goName camel n) ht.2
    have group : t.Deep (· ≠ .rule atRule) → Term.nameUses camel self (.named n t) p =
        (goTypeName camel p, n, .node (goTypeName camel (p ++ goName camel n))) :: t.nameUses camel self (p ++ goName camel n) →
        Offers camel tm (g.nameUses camel) (goTypeName camel p) n (.node (goTypeName camel (p ++ goName camel n))) ∧
          (t.inLayer new).Reads camel tm g (p ++ goName camel n) := by
      intro hd e
      rw [e] at hu
      simp only [List.mem_cons, forall_eq_or_imp] at hu
      exact ⟨h.offers _ hu.1, rec1 (.inl hd) hu.2⟩
    cases t with
    | rule r =>
      simp only [Term.nameUses] at hu
      have ho := h.offers _ (hu _ (List.mem_singleton.2 rfl))
      by_cases e : r = atRule
      · subst e
        rcases hat with hat | ⟨hp, hn⟩
        · exact absurd rfl hat.2
        · obtain ⟨x, hx⟩ := Option.isSome_iff_exists.1 hn
          have hsh := h.shown x hx
          subst hx
          rw [inLayer_at]
          subst hp
          simp only [Term.Reads, hsh]
          simp only [if_true, Use.plain] at ho hu
          exact ⟨ho, .inr (h.own n (hu _ (List.mem_singleton.2 rfl)))⟩
      · rw [inLayer_rule e]
        simp only [e, if_false, Use.plain] at ho
        rcases hty with hty | ⟨h1, _, h2⟩
        · exact absurd hty e
        · simp only [Term.Reads]
          refine ⟨ho, h2.imp_right fun h2 => ?_⟩
          rw [h1]
          exact h.selfs r h2
    | s l =>
      simp only [Term.nameUses] at hu
      rw [inLayer_s]
      exact h.offers _ (hu _ (List.mem_singleton.2 rfl))
    | re l =>
      simp only [Term.nameUses] at hu
      rw [inLayer_re]
      exact h.offers _ (hu _ (List.mem_singleton.2 rfl))
    | cut t' =>
      obtain ⟨l, rfl⟩ := hty
      simp only [Term.nameUses] at hu
      have ho := h.offers _ (hu _ (List.mem_singleton.2 rfl))
      rcases inLayer_cut (new := new) (t := .s l) with e | e <;> rw [e, inLayer_s] <;> exact ho
    | seq ts => have := group hty (by rw [Term.nameUses.eq_def]); rw [inLayer_seq] at this ⊢; rw [Term.Reads.eq_def]; exact this
    | oneof ts => have := group hty (by rw [Term.nameUses.eq_def]); rw [inLayer_oneof] at this ⊢; rw [Term.Reads.eq_def]; exact this
    | delim _ _ _ _ _ => have := group hty (by rw [Term.nameUses.eq_def]); rw [inLayer_delim] at this ⊢; rw [Term.Reads.eq_def]; exact this
    | quant _ _ _ => have := group hty (by rw [Term.nameUses.eq_def]); rw [inLayer_quant] at this ⊢; rw [Term.Reads.eq_def]; exact this
    | look _ => have := group hty (by rw [Term.nameUses.eq_def]); rw [inLayer_look] at this ⊢; rw [Term.Reads.eq_def]; exact this
    | named _ _ => have := group hty (by rw [Term.nameUses.eq_def]); rw [inLayer_named] at this ⊢; rw [Term.Reads.eq_def]; exact this
    | ref _ _ => have := group hty (by rw [Term.nameUses.eq_def]); rw [inLayer_ref] at this ⊢; rw [Term.Reads.eq_def]; exact this
    | ext _ => have := group hty (by rw [Term.nameUses.eq_def]); rw [inLayer_ext] at this ⊢; rw [Term.Reads.eq_def]; exact this
    | stack ts =>
      have := group hty (by rw [Term.nameUses.eq_def])
      obtain ⟨ts', e⟩ := inLayer_stack (new := new) (ts := ts)
      rw [e] at this ⊢
      rw [Term.Reads.eq_def]
      exact this
    | scope t' g' => exact absurd ht.2.1 (by simp [Term.Typed])
termination_by structural t => t
theorem readsList_of_uses (h : RuleUses camel tm g self new es) :
    ∀ (ts : List Term) (p : Str), deepList (Term.Typed camel tm g) ts → (deepList (· ≠ .rule atRule) ts ∨ p = goName camel self ∧ new.isSome) →
      (∀ e ∈ nameUsesList camel self ts p, e ∈ es) → readsList camel tm g (inLayerList new ts) p
  | [], p, _, _, _ => by rw [inLayerList_nil]; trivial
  | t :: ts, p, ht, hat, hu => by
    rw [inLayerList_cons]
    simp only [nameUsesList, List.mem_append] at hu
    exact ⟨reads_of_uses h t p ht.1 (hat.imp_left fun h => h.1) fun e he => hu e (.inl he),
      readsList_of_uses h ts p ht.2 (hat.imp_left fun h => h.2) fun e he => hu e (.inr he)⟩
termination_by structural ts => ts
end

end

end Wbnf

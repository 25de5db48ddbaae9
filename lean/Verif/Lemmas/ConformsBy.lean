import Verif.Lemmas.Fold
import Verif.Lemmas.Parts
import Verif.Props.Consume
import Verif.Spec.Shape

/-!
# The shape of parse trees, and what is known of their leaves

`ConformsBy L` is `Conforms` where each leaf of a literal or regexp satisfies `L`.
-/

namespace Wbnf

variable {E : Engine} {X : Externals}

inductive ConformsBy (L : List Grammar → Term → Scanner → Prop) : List Grammar → Str → Term → Tree → Prop
  | rule {Γ rule r Γ' t v} : Resolves Γ r Γ' t → ConformsBy L Γ' r t v → ConformsBy L Γ rule (.rule r) v
  | named {Γ rule n t v} : ConformsBy L Γ n t v → ConformsBy L Γ rule (.named n t) v
  | cut {Γ rule t v} : ConformsBy L Γ rule t v → ConformsBy L Γ rule (.cut t) v
  | scope {Γ rule t g g' v} : Enters Γ g g' → ConformsBy L (g' :: Γ) rule t v → ConformsBy L Γ rule (.scope t g) v
  | lit {Γ rule l s} : L Γ (.s l) s → ConformsBy L Γ rule (.s l) (.leaf s)
  | regexp {Γ rule l s} : L Γ (.re l) s → ConformsBy L Γ rule (.re l) (.leaf s)
  | seq {Γ rule ts vs} : vs.length = ts.length →
      (∀ (i : Nat) t v, ts[i]? = some t → vs[i]? = some v → ConformsBy L Γ [] t v) →
      ConformsBy L Γ rule (.seq ts) (.node (ruleOrAlt rule (str "_")) .nil vs)
  | oneof {Γ rule ts n t v} : ts[n]? = some t → ConformsBy L Γ [] t v →
      ConformsBy L Γ rule (.oneof ts) (.node (ruleOrAlt rule (str "|")) (.choice n) [v])
  | quant {Γ rule t lo hi vs} : lo ≤ vs.length → (hi = 0 ∨ vs.length ≤ hi) →
      (∀ v ∈ vs, ConformsBy L Γ [] t v) →
      ConformsBy L Γ rule (.quant t lo hi) (.node (ruleOrAlt rule (str "?")) .nil vs)
  | look {Γ rule t v} : ConformsBy L Γ [] t v →
      ConformsBy L Γ rule (.look t) (.node (ruleOrAlt rule (str "?=")) .nil [v])
  | delim {Γ rule t sep a cs ce lead first rest trail v} : ConformsBy L Γ [] t first →
      (∀ p ∈ rest, ConformsBy L Γ [] sep p.1) → (∀ p ∈ rest, ConformsBy L Γ [] t p.2) →
      (∀ s, lead = some s → ConformsBy L Γ [] sep s) → (lead.isSome = true → cs = true) →
      (∀ s, trail = some s → ConformsBy L Γ [] sep s) → (trail.isSome = true → ce = true) →
      ListNode (ruleOrAlt rule (str ":")) a (listItems lead first rest trail) v →
      ConformsBy L Γ rule (.delim t sep a cs ce) v
  | ref {Γ rule ident d t v} : t.isText = true → Conforms [] ident t v →
      ConformsBy L Γ rule (.ref ident d) v
  | ext {Γ rule x v} : ConformsBy L Γ rule (.ext x) v

/-- The leaf was matched by the pattern that the term stands for under the stack of grammars, at a place where `I` holds. -/
def LeafBy (E : Engine) (I : Scanner → Prop) (Γ : List Grammar) : Term → Scanner → Prop
  | .s l, s => ∃ p i j, I i ∧ LeafPattern (wrapOf Γ) l (str "(" ++ quoteMeta l ++ str ")") p ∧ LeafOut E (anchor ++ p) i (.ok (.leaf s) j)
  | .re l, s => ∃ p i j, I i ∧ LeafPattern (wrapOf Γ) l (str "(" ++ l ++ str ")") p ∧ LeafOut E (anchor ++ p) i (.ok (.leaf s) j)
  | _, _ => False

theorem ConformsBy.forget {L Γ rule t v} (h : ConformsBy L Γ rule t v) : Conforms Γ rule t v := by
  induction h with
  | rule hr _ ih => exact .rule hr ih
  | named _ ih => exact .named ih
  | cut _ ih => exact .cut ih
  | scope hE _ ih => exact .scope hE ih
  | lit _ => exact .lit
  | regexp _ => exact .regexp
  | seq hl _ ih => exact .seq hl ih
  | oneof hn _ ih => exact .oneof hn ih
  | quant h1 h2 _ ih => exact .quant h1 h2 ih
  | look _ ih => exact .look ih
  | delim _ _ _ _ hl _ ht hn ih1 ih2 ih3 ih4 ih5 => exact .delim ih1 ih2 ih3 ih4 hl ih5 ht hn
  | ref ht h => exact .ref ht h
  | ext => exact .ext

theorem Conforms.by {Γ rule t v} (h : Conforms Γ rule t v) : ConformsBy (fun _ _ _ => True) Γ rule t v := by
  induction h with
  | rule hr _ ih => exact .rule hr ih
  | named _ ih => exact .named ih
  | cut _ ih => exact .cut ih
  | scope hE _ ih => exact .scope hE ih
  | lit => exact .lit trivial
  | regexp => exact .regexp trivial
  | seq hl _ ih => exact .seq hl ih
  | oneof hn _ ih => exact .oneof hn ih
  | quant h1 h2 _ ih => exact .quant h1 h2 ih
  | look _ ih => exact .look ih
  | delim _ _ _ _ hl _ ht hn ih1 ih2 ih3 ih4 ih5 => exact .delim ih1 ih2 ih3 ih4 hl ih5 ht hn
  | ref ht h _ => exact .ref ht h
  | ext => exact .ext

/-- What is known of the leaves of all parts of the term. -/
theorem ConformsBy.imp {L : List Grammar → Term → Scanner → Prop} {L' : Term → Scanner → Prop} {Γ rule t v} (h : ConformsBy L Γ rule t v) :
    (∀ Γ' t' s, PartOf Γ t Γ' t' → L Γ' t' s → L' t' s) → ConformsBy (fun _ => L') Γ rule t v := by
  induction h with
  | rule hr _ ih => intro hL; exact .rule hr (ih fun Γ' t' s hp => hL Γ' t' s (.rule hr hp))
  | named _ ih => intro hL; exact .named (ih fun Γ' t' s hp => hL Γ' t' s (.named hp))
  | cut _ ih => intro hL; exact .cut (ih fun Γ' t' s hp => hL Γ' t' s (.cut hp))
  | scope he _ ih => intro hL; exact .scope he (ih fun Γ' t' s hp => hL Γ' t' s (.scope he hp))
  | lit h => intro hL; exact .lit (hL _ _ _ .refl h)
  | regexp h => intro hL; exact .regexp (hL _ _ _ .refl h)
  | seq hl _ ih => intro hL; exact .seq hl fun i t v h1 h2 => ih i t v h1 h2 fun Γ' t' s hp => hL Γ' t' s (.seq (List.mem_of_getElem? h1) hp)
  | oneof hn _ ih => intro hL; exact .oneof hn (ih fun Γ' t' s hp => hL Γ' t' s (.oneof (List.mem_of_getElem? hn) hp))
  | quant h1 h2 _ ih => intro hL; exact .quant h1 h2 fun v hv => ih v hv fun Γ' t' s hp => hL Γ' t' s (.quant hp)
  | look _ ih => intro hL; exact .look (ih fun Γ' t' s hp => hL Γ' t' s (.look hp))
  | delim _ _ _ _ hl _ ht hn ih1 ih2 ih3 ih4 ih5 =>
    intro hL
    exact .delim (ih1 fun Γ' t' s hp => hL Γ' t' s (.delimTerm hp)) (fun p hp => ih2 p hp fun Γ' t' s hp => hL Γ' t' s (.delimSep hp))
      (fun p hp => ih3 p hp fun Γ' t' s hp => hL Γ' t' s (.delimTerm hp)) (fun s hs => ih4 s hs fun Γ' t' s hp => hL Γ' t' s (.delimSep hp)) hl
      (fun s hs => ih5 s hs fun Γ' t' s hp => hL Γ' t' s (.delimSep hp)) ht hn
  | ref ht h => intro _; exact .ref ht h
  | ext => intro _; exact .ext

theorem Derives.conformsBy {I : Scanner → Prop} (hI : ∀ {G i vs j}, Derives E X G i vs j → I i → I j) {G i vs j}
    (h : Derives E X G i vs j) (hi : I i) :
    match G with
    | .term Γ name t _ => ∃ v, vs = [v] ∧ ConformsBy (LeafBy E I) Γ name t v
    | .items Γ ts _ => vs.length = ts.length ∧
        ∀ (i : Nat) t v, ts[i]? = some t → vs[i]? = some v → ConformsBy (LeafBy E I) Γ [] t v
    | .reps Γ t _ => ∀ v ∈ vs, ConformsBy (LeafBy E I) Γ [] t v := by
  induction h with
  | rule hr _ ih => obtain ⟨v, hv, h⟩ := ih hi; exact ⟨v, hv, .rule hr h⟩
  | named _ ih => obtain ⟨v, hv, h⟩ := ih hi; exact ⟨v, hv, .named h⟩
  | cut _ ih => obtain ⟨v, hv, h⟩ := ih hi; exact ⟨v, hv, .cut h⟩
  | scope hE _ ih => obtain ⟨v, hv, h⟩ := ih hi; exact ⟨v, hv, .scope hE h⟩
  | lit hp hl => obtain ⟨s, rfl⟩ := hl.leaf; exact ⟨_, rfl, .lit ⟨_, _, _, hi, hp, hl⟩⟩
  | regexp hp hl => obtain ⟨s, rfl⟩ := hl.leaf; exact ⟨_, rfl, .regexp ⟨_, _, _, hi, hp, hl⟩⟩
  | seq _ ih => exact ⟨_, rfl, .seq (ih hi).1 (ih hi).2⟩
  | nil => exact ⟨rfl, by simp⟩
  | cons hd _ ih1 ih2 =>
    obtain ⟨w, hw, h1⟩ := ih1 hi
    have ih2 := ih2 (hI hd hi)
    simp at hw; subst hw
    refine ⟨by simp [ih2.1], fun i t v ht hv => ?_⟩
    cases i with
    | zero => simp at ht hv; subst ht; subst hv; exact h1
    | succ i => exact ih2.2 i t v (by simpa using ht) (by simpa using hv)
  | oneof hn _ ih =>
    obtain ⟨w, hw, h1⟩ := ih hi
    simp at hw; subst hw
    exact ⟨_, rfl, .oneof hn h1⟩
  | quant _ h1 h2 ih => exact ⟨_, rfl, .quant h1 h2 (ih hi)⟩
  | stop => simp
  | more hd _ ih1 ih2 =>
    obtain ⟨w, hw, h1⟩ := ih1 hi
    have ih2 := ih2 (hI hd hi)
    simp at hw; subst hw
    intro v hv
    simp at hv
    rcases hv with rfl | hv
    · exact h1
    · exact ih2 v hv
  | look _ ih =>
    obtain ⟨w, hw, h1⟩ := ih hi
    simp at hw; subst hw
    exact ⟨_, rfl, .look h1⟩
  | @delim Γ rule term sep a cs ce vals i v v' j hd hf ih =>
    obtain ⟨lead, first, rest, trail, rfl, hl, ht⟩ := derives_join hd
    refine ⟨v', rfl, ?_⟩
    obtain ⟨w, hw, hseq⟩ := ih hi
    simp at hw; subst hw
    have hcore : ∀ w, ConformsBy (LeafBy E I) Γ [] (.seq [term, anyT (.seq [sep, term])]) w →
        w = .node seqTag .nil [first, .node quantTag .nil (rest.map fun p => .node seqTag .nil [p.1, p.2])] →
        ConformsBy (LeafBy E I) Γ [] term first ∧ ∀ p ∈ rest, ConformsBy (LeafBy E I) Γ [] sep p.1 ∧ ConformsBy (LeafBy E I) Γ [] term p.2 := by
      intro w hw he
      subst he
      generalize ht : Term.seq [term, anyT (.seq [sep, term])] = tt at hw
      generalize hv : Tree.node seqTag .nil [first, .node quantTag .nil (rest.map fun p => .node seqTag .nil [p.1, p.2])] = vv at hw
      cases hw with
      | seq h1 h2 =>
        simp at ht hv; subst ht; obtain ⟨_, rfl⟩ := hv
        have hq := h2 1 _ _ rfl rfl
        refine ⟨h2 0 _ _ rfl rfl, fun p hp => ?_⟩
        unfold anyT at hq
        cases hq with
        | quant _ _ hq =>
          have := hq (.node seqTag .nil [p.1, p.2]) (List.mem_map.2 ⟨p, hp, rfl⟩)
          generalize hv : Tree.node seqTag .nil [p.1, p.2] = vv at this
          cases this with
          | seq _ h => simp at hv; obtain ⟨_, rfl⟩ := hv; exact ⟨h 0 _ _ rfl rfl, h 1 _ _ rfl rfl⟩
      | _ => simp at ht
    have hopt : ∀ (o : Option Tree) w, ConformsBy (LeafBy E I) Γ [] (optT sep) w → w = .node quantTag .nil o.toList →
        ∀ s, o = some s → ConformsBy (LeafBy E I) Γ [] sep s := by
      intro o w hw he s hs
      subst he; subst hs
      unfold optT at hw
      cases hw with
      | quant _ _ h => exact h s (by simp)
    generalize ht' : Term.seq (delimSeq term sep cs ce) = tt at hseq
    generalize hv : joinTree (ruleOrAlt rule seqTag) quantTag quantTag cs ce lead first rest trail = vv at hseq
    cases hseq with
    | seq h1 h2 =>
      simp at ht'; subst ht'
      simp [joinTree] at hv; obtain ⟨_, rfl⟩ := hv
      have key : ConformsBy (LeafBy E I) Γ [] term first ∧ (∀ p ∈ rest, ConformsBy (LeafBy E I) Γ [] sep p.1 ∧ ConformsBy (LeafBy E I) Γ [] term p.2) ∧
          (∀ s, lead = some s → ConformsBy (LeafBy E I) Γ [] sep s) ∧ (∀ s, trail = some s → ConformsBy (LeafBy E I) Γ [] sep s) := by
        cases cs <;> cases ce <;> simp [delimSeq] at h2
        · have h0 := hcore _ (h2 0 _ _ rfl rfl) rfl
          have hl' : lead = none := by cases lead <;> simp_all
          have ht' : trail = none := by cases trail <;> simp_all
          exact ⟨h0.1, h0.2, by simp [hl'], by simp [ht']⟩
        · have h0 := hcore _ (h2 0 _ _ rfl rfl) rfl
          have hl' : lead = none := by cases lead <;> simp_all
          exact ⟨h0.1, h0.2, by simp [hl'], hopt trail _ (h2 1 _ _ rfl rfl) rfl⟩
        · have h0 := hcore _ (h2 1 _ _ rfl rfl) rfl
          have ht' : trail = none := by cases trail <;> simp_all
          exact ⟨h0.1, h0.2, hopt lead _ (h2 0 _ _ rfl rfl) rfl, by simp [ht']⟩
        · have h0 := hcore _ (h2 1 _ _ rfl rfl) rfl
          exact ⟨h0.1, h0.2, hopt lead _ (h2 0 _ _ rfl rfl) rfl, hopt trail _ (h2 2 _ _ rfl rfl) rfl⟩
      exact .delim key.1 (fun p hp => (key.2.1 p hp).1) (fun p hp => (key.2.1 p hp).2) key.2.2.1 hl
        key.2.2.2 ht (delimFinish_inv hl ht hf)
    | _ => simp at ht'
  | ref _ _ hq _ _ ih => obtain ⟨v, hv, h⟩ := ih hi; exact ⟨v, hv, .ref (quotable_text _ hq) h.forget⟩
  | default _ hq _ ih => obtain ⟨v, hv, h⟩ := ih hi; exact ⟨v, hv, .ref (quotable_text _ hq) h.forget⟩
  | ext => exact ⟨_, rfl, .ext⟩

theorem Derives.advances (hE : E.Sane) (hX : X.Sane) {G i vs j} (h : Derives E X G i vs j) : i.InRange → Advances i j := by
  induction h with
  | rule _ _ ih => exact ih
  | named _ ih => exact ih
  | cut _ ih => exact ih
  | scope _ _ ih => exact ih
  | lit _ hl =>
    intro hi
    obtain ⟨s, rfl⟩ := hl.leaf
    obtain ⟨_, _, _, _, _, _, _, _, _, _, _, h⟩ := hl.inv hE hi
    exact h
  | regexp _ hl =>
    intro hi
    obtain ⟨s, rfl⟩ := hl.leaf
    obtain ⟨_, _, _, _, _, _, _, _, _, _, _, h⟩ := hl.inv hE hi
    exact h
  | seq _ ih => exact ih
  | nil => exact fun hi => .refl hi
  | cons _ _ ih1 ih2 => exact fun hi => (ih1 hi).trans (ih2 ((ih1 hi).inRange hi))
  | oneof _ _ ih => exact ih
  | quant _ _ _ ih => exact ih
  | stop => exact fun hi => .refl hi
  | more _ _ ih1 ih2 => exact fun hi => (ih1 hi).trans (ih2 ((ih1 hi).inRange hi))
  | look _ _ => exact fun hi => .refl hi
  | delim _ _ ih => exact ih
  | ref _ _ _ _ _ ih => exact ih
  | default _ _ _ ih => exact ih
  | ext hr hf =>
    intro hi
    have := fun call => (hX.refs _ _ hr call _ hi).1
    have e := congrArg ExtRes.inp hf
    dsimp only at e
    exact e ▸ this _

end Wbnf

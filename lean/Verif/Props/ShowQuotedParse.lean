import Verif.Props.ShowQuoted
import Verif.Props.Unparse
import Verif.Props.AstString

/-!
# C77 Parse trees printed with `%q`, for parses
-/

namespace Wbnf

variable {E E' : Engine} {X X' : Externals} {g : Grammar} {m n k n' k' N : Nat} {ps : Parsers} {r : Str} {inp rest inp' rest' : Scanner} {v v' : Tree} {ρ ρ' : Nat → Nat}
  {isPrint : Nat → Bool}

theorem allPlainTags_iff {vs : List Tree} : allPlainTags N vs ↔ ∀ v ∈ vs, v.PlainTags N := by
  induction vs with
  | nil => simp [allPlainTags]
  | cons v vs ih => simp [allPlainTags, ih]

theorem plainTag_alt {rule alt : Str} (h : PlainTag rule) (h' : PlainTag alt) : PlainTag (ruleOrAlt rule alt) := by
  unfold ruleOrAlt
  split
  · exact h'
  · exact h

theorem plain_node {tag : Str} {e : Extra} {vs : List Tree} (h : PlainTag tag) (he : ∀ i, e = .choice i → i < N) (hv : ∀ v ∈ vs, v.PlainTags N) :
    (Tree.node tag e vs).PlainTags N := ⟨h, he, allPlainTags_iff.2 hv⟩

theorem LeftNest.plain {tag : Str} (ht : PlainTag tag) {items : List Tree} {v : Tree} (h : LeftNest tag items v) : (∀ i ∈ items, i.PlainTags N) → v.PlainTags N := by
  induction h with
  | three => exact fun h => plain_node ht (by simp) h
  | more _ ih =>
    intro h
    refine plain_node ht (by simp) fun w hw => ?_
    rcases List.mem_cons.1 hw with rfl | hw
    · exact ih fun i hi => h i (List.mem_append_left _ hi)
    · exact h w (List.mem_append_right _ hw)

theorem RightNest.plain {tag : Str} (ht : PlainTag tag) {items : List Tree} {v : Tree} (h : RightNest tag items v) : (∀ i ∈ items, i.PlainTags N) → v.PlainTags N := by
  induction h with
  | three => exact fun h => plain_node ht (by simp) h
  | more _ ih =>
    intro h
    simp only [List.forall_mem_cons] at h
    refine plain_node ht (by simp) ?_
    simp only [List.forall_mem_cons]
    exact ⟨h.1, h.2.1, ih h.2.2, by simp⟩

theorem ListNode.plain {tag : Str} (ht : PlainTag tag) {a : Int} {items : List Tree} {v : Tree} (h : ListNode tag a items v) (hi : ∀ i ∈ items, i.PlainTags N) : v.PlainTags N := by
  cases h with
  | flat _ => exact plain_node ht (by simp) hi
  | left _ h => exact h.plain ht hi
  | right _ h => exact h.plain ht hi

theorem isText_mem : ∀ {ts : List Term} {t : Term}, isTextList ts = true → t ∈ ts → t.isText = true
  | a :: ts, t, h, hm => by
    simp only [isTextList, Bool.and_eq_true] at h
    exact (List.mem_cons.1 hm).elim (fun e => e ▸ h.1) (isText_mem h.2)

theorem conforms_text {Γ rule t v} (h : Conforms Γ rule t v) : t.isText = true → PlainTag rule → v.PlainTags N := by
  have p0 : PlainTag [] := by unfold PlainTag; decide
  have p1 : PlainTag (str "_") := by unfold PlainTag; decide
  induction h with
  | lit => intros; trivial
  | seq hl _ ih =>
    intro ht hn
    refine plain_node (plainTag_alt hn p1) (by simp) fun v hv => ?_
    obtain ⟨i, hi, e⟩ := List.getElem_of_mem hv
    have hi' := hl ▸ hi
    exact ih i _ v (List.getElem?_eq_getElem hi') (by rw [List.getElem?_eq_getElem hi, e])
      (isText_mem (by simpa [Term.isText] using ht) (List.getElem_mem hi')) p0
  | _ => intro ht; simp [Term.isText] at ht

theorem Conforms.plainTags {Γ rule t v} (h : Conforms Γ rule t v) : ∀ {G : Grammar}, Γ = [G] → deepDefs (Term.PlainNames N) G →
    t.Deep (Term.PlainNames N) → PlainTag rule → v.PlainTags N := by
  have p0 : PlainTag [] := by unfold PlainTag; decide
  have p1 : PlainTag (str "_") := by unfold PlainTag; decide
  have p2 : PlainTag (str "|") := by unfold PlainTag; decide
  have p3 : PlainTag (str "?") := by unfold PlainTag; decide
  have p4 : PlainTag (str "?=") := by unfold PlainTag; decide
  have p5 : PlainTag (str ":") := by unfold PlainTag; decide
  induction h with
  | rule hr _ ih =>
    rintro G rfl hG ht _
    obtain ⟨rfl, hd⟩ := resolves_top hr
    obtain ⟨k, hk⟩ := hd.mem
    exact ih rfl hG (deepDefs_iff.1 hG k _ hk) ht
  | named _ ih => rintro G rfl hG ht _; exact ih rfl hG ht.2 ht.1
  | cut _ ih => rintro G rfl hG ht hn; exact ih rfl hG ht.2 hn
  | scope _ _ _ => rintro G rfl hG ht; exact ht.1.elim
  | lit => intros; trivial
  | regexp => intros; trivial
  | seq hl _ ih =>
    rintro G rfl hG ht hn
    refine plain_node (plainTag_alt hn p1) (by simp) fun v hv => ?_
    obtain ⟨i, hi, e⟩ := List.getElem_of_mem hv
    have hi' := hl ▸ hi
    exact ih i _ v (List.getElem?_eq_getElem hi') (by rw [List.getElem?_eq_getElem hi, e]) rfl hG (deepList_iff.1 ht.2 _ (List.getElem_mem hi')) p0
  | oneof hl _ ih =>
    rintro G rfl hG ht hn
    refine plain_node (plainTag_alt hn p2) ?_ ?_
    · rintro i ⟨⟩
      have := (List.getElem?_eq_some_iff.1 hl).1
      have h2 := ht.1
      simp only [Term.PlainNames] at h2
      omega
    · simp only [List.mem_singleton, forall_eq]
      exact ih rfl hG (deepList_iff.1 ht.2 _ (List.mem_of_getElem? hl)) p0
  | quant _ _ _ ih =>
    rintro G rfl hG ht hn
    exact plain_node (plainTag_alt hn p3) (by simp) fun v hv => ih v hv rfl hG ht.2 p0
  | look _ ih =>
    rintro G rfl hG ht hn
    refine plain_node (plainTag_alt hn p4) (by simp) ?_
    simp only [List.mem_singleton, forall_eq]
    exact ih rfl hG ht.2 p0
  | @delim Γ rule t sep a cs ce lead first rest trail v _ _ _ _ h1 _ h2 hn ih1 ih2 ih3 ih4 ih5 =>
    rintro G rfl hG ht hr
    refine hn.plain (plainTag_alt hr p5) fun i hi => ?_
    simp only [listItems, List.mem_append, List.mem_cons, List.mem_flatMap] at hi
    rcases hi with (hi | rfl | ⟨p, hp, hi⟩) | hi
    · cases lead with
      | none => simp [leading] at hi
      | some s =>
        simp only [leading, List.mem_cons, List.not_mem_nil, or_false] at hi
        rcases hi with rfl | rfl
        · trivial
        · exact ih4 _ rfl rfl hG ht.2.2 p0
    · exact ih1 rfl hG ht.2.1 p0
    · simp only [List.not_mem_nil, or_false] at hi
      rcases hi with rfl | rfl
      · exact ih2 p hp rfl hG ht.2.2 p0
      · exact ih3 p hp rfl hG ht.2.1 p0
    · cases trail with
      | none => simp [trailing] at hi
      | some s =>
        simp only [trailing, List.mem_cons, List.not_mem_nil, or_false] at hi
        rcases hi with rfl | rfl
        · exact ih5 _ rfl rfl hG ht.2.2 p0
        · trivial
  | ref h1 h2 _ => rintro G rfl hG ht _; exact conforms_text h2 h1 ht
  | ext => rintro G rfl hG ht; exact ht.elim

/-- **C77** What `%q` prints for the trees of two parses with a grammar is the same exactly if the trees are the same, but for where the leaves are, whatever the
inputs. Partial: for grammars with plain names, at most 128 alternatives in each choice, and neither nested grammars nor external references. -/
theorem C77_parse_partial (hp : ∀ r < 128, isPrint r = decide (32 ≤ r ∧ r < 127)) (hg : g.wf = true) (hc : g.compile E m = .ok ps)
    (hN : ps.grammar.Deep (Term.PlainNames 128)) (hr : PlainTag r) (hesc : X.esc = none) (hesc' : X'.esc = none)
    (h : ps.run E X ρ n r inp = .ok v rest k) (h' : ps.run E X' ρ' n' r inp' = .ok v' rest' k') {a : Str}
    (ha : v.quoted (goQuote isPrint) (goQuoteRune isPrint) = some a) :
    v'.quoted (goQuote isPrint) (goQuoteRune isPrint) = some a ↔ v.SameTexts v' :=
  have p0 : PlainTag [] := by unfold PlainTag; decide
  C77_go hp ((C04_conforms hg hc hesc h).plainTags rfl hN hr p0) ((C04_conforms hg hc hesc' h').plainTags rfl hN hr p0) ha

namespace Ex

/-- What `%q` prints for a parse. -/
def quotedParse (G : Grammar) (r src : String) : Option Str :=
  match (comp! G).run regexp noExternals id 50 (str r) (newScanner (str src)) with
  | .ok v _ _ => v.quoted (goQuote latinPrint) (goQuoteRune latinPrint)
  | _ => none

end Ex

open Ex in
/-- The hypotheses on the grammar, and what is printed for the parses of `1+2` and of `1`. -/
example : gSum.wf = true ∧ gSum.compile regexp 50 = .ok (comp! gSum) ∧ (comp! gSum).grammar.Deep (Term.PlainNames 128) ∧ PlainTag (str "a") ∧
    quotedParse gSum "a" "1+2" = some (utf8 "a║\":\"[a@1[?[], a@2║'\\x00'[\"1\"]], \"+\", a@1[?[], a@2║'\\x00'[\"2\"]]]") ∧ quotedParse gSum "a" "1" = some (utf8 "a║\":\"[a@1[?[], a@2║'\\x00'[\"1\"]]]") := by
  refine ⟨by decide +kernel, comp_ok (by decide +kernel), ?_, by unfold PlainTag; decide, by decide +kernel, by decide +kernel⟩
  rw [gSum_compiled]
  have h1 : PlainTag (str "a@1") := by unfold PlainTag; decide
  have h2 : PlainTag (str "a@2") := by unfold PlainTag; decide
  have h3 : PlainTag (str "a") := by unfold PlainTag; decide
  simp [Grammar.Deep, deepDefs, Term.Deep, deepList, Term.PlainNames, h1, h2, h3]

end Wbnf

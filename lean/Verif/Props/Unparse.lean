import Verif.Model.Unparse
import Verif.Spec.Unparse
import Verif.Lemmas.Deep
import Verif.Lemmas.Flatten
import Verif.Props.Tree
import Verif.Props.Stacks
import Verif.Examples.Kit

/-!
# C26: Unparse
-/

namespace Wbnf

variable {E : Engine} {X : Externals} {g : Grammar} {m n k : Nat} {ps : Parsers} {r : Str} {inp rest : Scanner} {v : Tree} {ρ : Nat → Nat}

mutual
theorem writable_layer (new : Str) : (t : Term) → t.flat = true → t.Deep Term.Writable → (t.uncut.atTo new).Deep Term.Writable
  | .rule r, _, _ => by
    simp only [Term.uncut, Term.atTo]
    split <;> trivial
  | .s _, _, _ => trivial
  | .re _, _, _ => trivial
  | .ref _ _, _, h => h.elim
  | .ext _, _, h => h.elim
  | .stack _, hf, _ => by simp [Term.flat] at hf
  | .scope _ _, hf, _ => by simp [Term.flat] at hf
  | .seq ts, hf, h => ⟨trivial, writable_layers new ts (by simpa [Term.flat] using hf) h.2⟩
  | .oneof ts, hf, h => ⟨trivial, writable_layers new ts (by simpa [Term.flat] using hf) h.2⟩
  | .delim t sep _ _ _, hf, h => by
    simp only [Term.flat, Bool.and_eq_true] at hf
    exact ⟨h.1, writable_layer new t hf.1 h.2.1, writable_layer new sep hf.2 h.2.2⟩
  | .look t, hf, h => ⟨trivial, writable_layer new t (by simpa [Term.flat] using hf) h.2⟩
  | .quant t _ _, hf, h => ⟨trivial, writable_layer new t (by simpa [Term.flat] using hf) h.2⟩
  | .named _ t, hf, h => ⟨trivial, writable_layer new t (by simpa [Term.flat] using hf) h.2⟩
  | .cut t, hf, h => writable_layer new t (by simpa [Term.flat] using hf) h.2
theorem writable_layers (new : Str) : (ts : List Term) → flatList ts = true → deepList Term.Writable ts →
    deepList Term.Writable (atToList new (uncutList ts))
  | [], _, _ => trivial
  | t :: ts, hf, h => by
    simp only [flatList, Bool.and_eq_true] at hf
    exact ⟨writable_layer new t hf.1 h.1, writable_layers new ts hf.2 h.2⟩
end

/-- It writes the text of the leaves. -/
def Writes (G : Grammar) (t : Term) (v : Tree) : Prop :=
  ∀ texts : List Str, v.leaves.map Scanner.toStr = texts.map some → ∃ N, ∀ n, N ≤ n → unparse n G t v = .ok texts.flatten

theorem split_leaves {v : Tree} {vs : List Tree} {texts : List Str} (h : (leavesList (v :: vs)).map Scanner.toStr = texts.map some) :
    ∃ a b, texts = a ++ b ∧ v.leaves.map Scanner.toStr = a.map some ∧ (leavesList vs).map Scanner.toStr = b.map some := by
  simp only [leavesList, List.map_append] at h
  refine ⟨texts.take v.leaves.length, texts.drop v.leaves.length, (List.take_append_drop _ _).symm, ?_, ?_⟩
  · have := congrArg (List.take v.leaves.length) h
    simpa [List.map_take] using this
  · have := congrArg (List.drop v.leaves.length) h
    simpa [List.map_drop] using this

theorem writes_seq {G : Grammar} : ∀ {ts : List Term} {vs : List Tree} {texts : List Str}, vs.length = ts.length →
    (∀ (i : Nat) t v, ts[i]? = some t → vs[i]? = some v → Writes G t v) → (leavesList vs).map Scanner.toStr = texts.map some →
    ∃ N, ∀ n, N ≤ n → unparseSeq (unparse n G) ts vs = .ok texts.flatten := by
  intro ts
  induction ts with
  | nil =>
    intro vs texts hl _ ht
    simp at hl; subst hl
    simp [leavesList] at ht
    obtain rfl : texts = [] := by cases texts <;> simp_all
    exact ⟨0, fun n _ => rfl⟩
  | cons t ts ih =>
    intro vs texts hl h ht
    cases vs with
    | nil => simp at hl
    | cons v vs =>
      obtain ⟨a, b, rfl, h1, h2⟩ := split_leaves ht
      obtain ⟨N1, h3⟩ := h 0 t v rfl rfl a h1
      obtain ⟨N2, h4⟩ := ih (by simpa using hl) (fun i t v e1 e2 => h (i + 1) t v (by simpa using e1) (by simpa using e2)) h2
      exact ⟨max N1 N2, fun n hn => by simp [unparseSeq, h3 n (by omega), h4 n (by omega), Except.bind]⟩

theorem writes_all {G : Grammar} {t : Term} : ∀ {vs : List Tree} {texts : List Str},
    (∀ v ∈ vs, Writes G t v) → (leavesList vs).map Scanner.toStr = texts.map some →
    ∃ N, ∀ n, N ≤ n → unparseAll (unparse n G t) vs = .ok texts.flatten := by
  intro vs
  induction vs with
  | nil =>
    intro texts _ ht
    simp [leavesList] at ht
    obtain rfl : texts = [] := by cases texts <;> simp_all
    exact ⟨0, fun n _ => rfl⟩
  | cons v vs ih =>
    intro texts h ht
    obtain ⟨a, b, rfl, h1, h2⟩ := split_leaves ht
    obtain ⟨N1, h3⟩ := h v (by simp) a h1
    obtain ⟨N2, h4⟩ := ih (fun v hv => h v (by simp [hv])) h2
    exact ⟨max N1 N2, fun n hn => by simp [unparseAll, h3 n (by omega), h4 n (by omega), Except.bind]⟩

theorem writes_delim {G : Grammar} {t sep : Term} : ∀ {rest : List (Tree × Tree)} {texts : List Str},
    (∀ p ∈ rest, Writes G sep p.1) → (∀ p ∈ rest, Writes G t p.2) →
    (leavesList (rest.flatMap fun p => [p.1, p.2])).map Scanner.toStr = texts.map some →
    ∃ N, ∀ n, N ≤ n → unparseDelim (unparse n G) sep t t true (rest.flatMap fun p => [p.1, p.2]) = .ok texts.flatten := by
  intro rest
  induction rest with
  | nil =>
    intro texts _ _ ht
    simp [leavesList] at ht
    obtain rfl : texts = [] := by cases texts <;> simp_all
    exact ⟨0, fun n _ => rfl⟩
  | cons p rest ih =>
    intro texts hs hv ht
    simp only [List.flatMap_cons, List.cons_append, List.nil_append] at ht ⊢
    obtain ⟨a, b, rfl, h1, h2⟩ := split_leaves ht
    obtain ⟨b, c, rfl, h5, h6⟩ := split_leaves h2
    obtain ⟨N1, h3⟩ := hs p (by simp) a h1
    obtain ⟨N3, h7⟩ := hv p (by simp) b h5
    obtain ⟨N2, h4⟩ := ih (fun v hv => hs v (by simp [hv])) (fun v hm => hv v (by simp [hm])) h6
    refine ⟨max N1 (max N2 N3), fun n hn => ?_⟩
    have e1 := h3 n (by omega)
    have e2 := h7 n (by omega)
    have e3 := h4 n (by omega)
    simp [unparseDelim, e1, e2, e3, Except.bind]

theorem Defines.writes {G : Grammar} {r : Str} {t : Term} {v : Tree} (hd : Defines G r t) (h : Writes G t v) : Writes G (.rule r) v := by
  induction hd with
  | here hl _ =>
    intro texts ht
    obtain ⟨N, h1⟩ := h texts ht
    refine ⟨N + 1, fun n hn => ?_⟩
    obtain ⟨n, rfl⟩ : ∃ k, n = k + 1 := ⟨n - 1, by omega⟩
    simp only [unparse, hl]
    exact h1 n (by omega)
  | «alias» hl _ ih =>
    intro texts ht
    obtain ⟨N, h1⟩ := ih h texts ht
    refine ⟨N + 1, fun n hn => ?_⟩
    obtain ⟨n, rfl⟩ : ∃ k, n = k + 1 := ⟨n - 1, by omega⟩
    simp only [unparse, hl]
    exact h1 n (by omega)

theorem Conforms.writes {Γ rule t v} (h : Conforms Γ rule t v) : ∀ {G : Grammar}, Γ = [G] → deepDefs Term.Writable G →
    t.Deep Term.Writable → Writes G t v := by
  have up : ∀ {G : Grammar} {t u : Term} {v : Tree}, (∀ n, unparse (n + 1) G u v = unparse n G t v) → Writes G t v → Writes G u v := by
    intro G t u v he h texts ht
    obtain ⟨N, h1⟩ := h texts ht
    refine ⟨N + 1, fun n hn => ?_⟩
    obtain ⟨n, rfl⟩ : ∃ k, n = k + 1 := ⟨n - 1, by omega⟩
    rw [he]
    exact h1 n (by omega)
  induction h with
  | rule hr _ ih =>
    rintro G rfl hG _
    obtain ⟨rfl, hd⟩ := resolves_top hr
    obtain ⟨k, hk⟩ := hd.mem
    exact hd.writes (ih rfl hG (deepDefs_iff.1 hG k _ hk))
  | named _ ih => rintro G rfl hG ht; exact up (fun n => rfl) (ih rfl hG ht.2)
  | cut _ ih => rintro G rfl hG ht; exact up (fun n => rfl) (ih rfl hG ht.2)
  | scope _ _ _ => rintro G rfl hG ht; exact ht.1.elim
  | lit =>
    rintro G rfl hG ht texts h
    refine ⟨1, fun n hn => ?_⟩
    obtain ⟨n, rfl⟩ : ∃ k, n = k + 1 := ⟨n - 1, by omega⟩
    match texts, h with
    | [x], h => simp [Tree.leaves] at h; simp [unparse, leafText, h]
    | [], h => simp [Tree.leaves] at h
    | _ :: _ :: _, h => simp [Tree.leaves] at h
  | regexp =>
    rintro G rfl hG ht texts h
    refine ⟨1, fun n hn => ?_⟩
    obtain ⟨n, rfl⟩ : ∃ k, n = k + 1 := ⟨n - 1, by omega⟩
    match texts, h with
    | [x], h => simp [Tree.leaves] at h; simp [unparse, leafText, h]
    | [], h => simp [Tree.leaves] at h
    | _ :: _ :: _, h => simp [Tree.leaves] at h
  | seq hl _ ih =>
    rintro G rfl hG ht texts h
    obtain ⟨N, h1⟩ := writes_seq (G := G) hl (fun i t v e1 e2 => ih i t v e1 e2 rfl hG (deepList_iff.1 ht.2 _ (List.mem_of_getElem? e1))) h
    refine ⟨N + 1, fun n hn => ?_⟩
    obtain ⟨n, rfl⟩ : ∃ k, n = k + 1 := ⟨n - 1, by omega⟩
    exact h1 n (by omega)
  | oneof hl _ ih =>
    rintro G rfl hG ht texts h
    obtain ⟨N, h1⟩ := ih rfl hG (deepList_iff.1 ht.2 _ (List.mem_of_getElem? hl)) texts (by simpa [Tree.leaves, leavesList] using h)
    refine ⟨N + 1, fun n hn => ?_⟩
    obtain ⟨n, rfl⟩ : ∃ k, n = k + 1 := ⟨n - 1, by omega⟩
    simp only [unparse, hl]
    exact h1 n (by omega)
  | quant _ _ _ ih =>
    rintro G rfl hG ht texts h
    obtain ⟨N, h1⟩ := writes_all (G := G) (fun v hv => ih v hv rfl hG ht.2) h
    refine ⟨N + 1, fun n hn => ?_⟩
    obtain ⟨n, rfl⟩ : ∃ k, n = k + 1 := ⟨n - 1, by omega⟩
    exact h1 n (by omega)
  | look _ ih =>
    rintro G rfl hG ht texts h
    obtain ⟨N, h1⟩ := writes_all (G := G) (vs := [_]) (fun v hv => by simp at hv; subst hv; exact ih rfl hG ht.2) h
    refine ⟨N + 1, fun n hn => ?_⟩
    obtain ⟨n, rfl⟩ : ∃ k, n = k + 1 := ⟨n - 1, by omega⟩
    exact h1 n (by omega)
  | @delim Γ rule t sep a cs ce lead first rest trail v _ _ _ _ h1 _ h2 hn ih1 ih2 ih3 =>
    rintro G rfl hG ⟨⟨ha, ha', hcs, hce⟩, ht, hsep⟩ texts h
    have hl : lead = none := by cases lead with
      | none => rfl
      | some s => simp [hcs] at h1
    have htr : trail = none := by cases trail with
      | none => rfl
      | some s => simp [hce] at h2
    subst hl htr
    simp only [listItems, leading, trailing, List.nil_append, List.append_nil] at hn
    cases hn with
    | left e _ => exact absurd e ha
    | right e _ => exact absurd e ha'
    | flat _ =>
      obtain ⟨x, y, rfl, h3, h4⟩ := split_leaves h
      obtain ⟨N1, h5⟩ := ih1 rfl hG ht x h3
      obtain ⟨N2, h6⟩ := writes_delim (G := G) (fun p hp => ih2 p hp rfl hG hsep) (fun p hp => ih3 p hp rfl hG ht) h4
      refine ⟨max N1 N2 + 1, fun n hn => ?_⟩
      obtain ⟨n, rfl⟩ : ∃ k, n = k + 1 := ⟨n - 1, by omega⟩
      simp [unparse, unparseDelim, h5 n (by omega), h6 n (by omega), Except.bind]
  | ref => rintro G rfl hG ht; exact ht.elim
  | ext => rintro G rfl hG ht; exact ht.elim

/-- **C26** Unparse writes the texts of the leaves, one after the other. Partial: only for writable terms; the
rest fails, see `C26_not_always`. `r` is the tag of the tree, by which
Unparse finds the rule; so it is unless the rule is a single leaf or named otherwise. -/
theorem C26_leaves_partial (hg : g.wf = true) (hd : g.Deep Term.Writable) (hc : g.compile E m = .ok ps) (hesc : X.esc = none) {x cs}
    (h : ps.run E X ρ n r inp = .ok (.node r x cs) rest k) {texts : List Str}
    (ht : (Tree.node r x cs).leaves.map Scanner.toStr = texts.map some) :
    ∃ N, ∀ n, N ≤ n → ps.grammar.unparse n (.node r x cs) = .ok texts.flatten := by
  have hd' : deepDefs Term.Writable ps.grammar := deep_resolve (fun L new hf hL => writable_layer new L hf hL) hd (compile_grammar hc)
  obtain ⟨N, h1⟩ := (C04_conforms hg hc hesc h).writes rfl hd' trivial texts ht
  refine ⟨N, fun n hn => ?_⟩
  have h2 := h1 (n + 1) (by omega)
  simp only [unparse] at h2
  exact h2

/-- **C26** Unparse after parse gives back the text consumed. -/
theorem C26_roundtrip_partial (hE : E.Sane) (hg : g.wf = true) (hd : g.Deep Term.Writable) (hc : g.compile E m = .ok ps) (hesc : X.esc = none)
    (hin : inp.InRange) (hl : NoLook [ps.grammar] (.rule r)) (hp : PatternsSatisfy (ReportsAll E) [ps.grammar] (.rule r)) {x cs}
    (h : ps.run E X ρ n r inp = .ok (.node r x cs) rest k) :
    ∃ y left N, inp.toStr = some (y ++ left) ∧ rest.toStr = some left ∧
      ∀ n, N ≤ n → ps.grammar.unparse n (.node r x cs) = .ok y := by
  have hd' : deepDefs Term.Writable ps.grammar := deep_resolve (fun L new hf hL => writable_layer new L hf hL) hd (compile_grammar hc)
  have hx : NoExt [ps.grammar] (.rule r) := by
    intro Γ' y hp
    exact ((hp.deep (fun L new hf hL => writable_layer new L hf hL) (fun g hm => by
      obtain rfl : g = ps.grammar := by simpa using hm
      exact hd') trivial).2).elim
  obtain ⟨texts, left, h1, h2, h3⟩ := C03_leaves_are_consumed_text hE hg hc hesc hin hl hx hp h
  obtain ⟨N, h4⟩ := C26_leaves_partial hg hd hc hesc h h1
  exact ⟨_, left, N, h2, h3, h4⟩

/-! ## What is not written back -/

namespace Ex

/-- What Unparse makes of the tree of a parse; `none`: no parse. -/
def back (g : Grammar) (r s : String) : Option (Except Stop Str) :=
  match runTop g r s with
  | .ok v _ => some ((comp! g).grammar.unparse 100 v)
  | _ => none

/-- The text written, if there is one. -/
def written : Option (Except Stop Str) → Option Str
  | some (.ok x) => some x
  | _ => none

def panics : Option (Except Stop Str) → Bool
  | some (.error .panic) => true
  | _ => false

/-- `a -> @:"+" > "-"? @ > /{\d+} | "(" @ ")";` -/
def gSum : Grammar := [(str "a", .stack [
  .delim (.rule atRule) (.s (str "+")) 0 false false,
  .seq [.quant (.s (str "-")) 0 1, .rule atRule],
  .oneof [.re (str "\\d+"), .seq [.s (str "("), .rule atRule, .cut (.s (str ")"))]]])]

/-- `a -> /{\d}:>"-";`: the list associates to the left. -/
def gAssoc : Grammar := [(str "a", .delim (.re (str "\\d")) (.s (str "-")) 1 false false)]

/-- `a -> /{\d}:,",";`: a separator may come first. -/
def gLead : Grammar := [(str "a", .delim (.re (str "\\d")) (.s (str ",")) 0 true false)]

/-- `a -> n="x" %n;` -/
def gAgain : Grammar := [(str "a", .seq [.named (str "n") (.s (str "x")), .ref (str "n") none])]

/-- `a -> "x"; b -> n=("x" "y"); n -> "x";` -/
def gTop : Grammar := [(str "a", .s (str "x")), (str "b", .named (str "n") (.seq [.s (str "x"), .s (str "y")])), (str "n", .s (str "x"))]

end Ex

theorem unparse_leaf_list {g : Grammar} {t sep a cs ce s n x} : unparse n g (.delim t sep a cs ce) (.leaf s) ≠ .ok x := by
  cases n <;> simp [unparse]

theorem unparse_bind {α β} {x : Except Stop α} {f : α → Except Stop β} {y : β} (h : x.bind f = .ok y) : ∃ a, x = .ok a ∧ f a = .ok y := by
  cases x with
  | error e => simp [Except.bind] at h
  | ok a => exact ⟨a, rfl, h⟩

/-- **C26** A list that associates, of two or more items, is not written, if the item that is nested deepest is a leaf: it
is taken for a list. -/
theorem C26_associative {g : Grammar} {t sep : Term} {a : Int} {cs ce : Bool} {tag : Str} {items : List Tree} {v : Tree} {s : Scanner} :
    (LeftNest tag items v → items.head? = some (.leaf s) → ∀ n x, unparse n g (.delim t sep a cs ce) v ≠ .ok x) ∧
    (RightNest tag items v → items.getLast? = some (.leaf s) → ∀ n x, unparse n g (.delim t sep a cs ce) v ≠ .ok x) := by
  constructor
  · intro h
    induction h with
    | three =>
      intro hi n x h
      simp only [List.head?_cons, Option.some.injEq] at hi
      subst hi
      cases n with
      | zero => simp [unparse] at h
      | succ n =>
        simp [unparse, unparseDelim] at h
        obtain ⟨_, h1, _⟩ := unparse_bind h
        exact unparse_leaf_list h1
    | @more items v op y hl ih =>
      intro hi n x h
      cases n with
      | zero => simp [unparse] at h
      | succ n =>
        simp [unparse, unparseDelim] at h
        obtain ⟨_, h1, _⟩ := unparse_bind h
        refine ih ?_ n _ h1
        cases hl <;> simpa using hi
  · intro h
    induction h with
    | three =>
      intro hi n x h
      simp at hi
      subst hi
      cases n with
      | zero => simp [unparse] at h
      | succ n =>
        simp [unparse, unparseDelim] at h
        obtain ⟨_, _, h⟩ := unparse_bind h
        obtain ⟨_, h, _⟩ := unparse_bind h
        obtain ⟨_, _, h⟩ := unparse_bind h
        obtain ⟨_, h, _⟩ := unparse_bind h
        obtain ⟨_, h1, _⟩ := unparse_bind h
        exact unparse_leaf_list h1
    | @more items v op y hl ih =>
      intro hi n x h
      cases n with
      | zero => simp [unparse] at h
      | succ n =>
        simp [unparse, unparseDelim] at h
        obtain ⟨_, _, h⟩ := unparse_bind h
        obtain ⟨_, h, _⟩ := unparse_bind h
        obtain ⟨_, _, h⟩ := unparse_bind h
        obtain ⟨_, h, _⟩ := unparse_bind h
        obtain ⟨_, h1, _⟩ := unparse_bind h
        refine ih ?_ n _ h1
        cases hl <;> simpa using hi

/-- **C26** Not for all trees of successful parses: Unparse panics on a list that associates, on a list with a
leading separator, and on the tree of a rule that is a single leaf; it writes a backslash before the text of a
back reference; and it takes the name of a named term for the name of its rule. -/
theorem C26_not_always :
    Ex.panics (Ex.back Ex.gAssoc "a" "1-2-3") = true ∧
    Ex.panics (Ex.back Ex.gLead "a" ",1,2") = true ∧
    Ex.panics (Ex.back Ex.gTop "a" "x") = true ∧
    Ex.written (Ex.back Ex.gAgain "a" "xx") = some (str "x\\x") ∧
    Ex.panics (Ex.back Ex.gTop "b" "xy") = true := by
  refine ⟨?_, ?_, ?_, ?_, ?_⟩ <;> decide +kernel

open Ex in
/-- The hypotheses, and `1+-(2+3)` written back. -/
example : gSum.wf = true ∧ gSum.Deep Term.Writable ∧ gSum.compile regexp 50 = .ok (comp! gSum) ∧
    NoLook [(comp! gSum).grammar] (.rule (str "a")) ∧
    PatternsSatisfy (ReportsAll regexp) [(comp! gSum).grammar] (.rule (str "a")) ∧
    written (back gSum "a" "1+-(2+3)") = some (str "1+-(2+3)") := by
  have h := plainLeaf_check (q := Regex.onlyGroup) (Q := ReportsAll regexp)
    (fun p => Regex.reportsAll) (g := (comp! gSum).grammar) (by rfl) (by decide +kernel) (str "a")
  refine ⟨by decide +kernel, ?_, comp_ok (by decide +kernel), h.2.1, h.1, by decide +kernel⟩
  simp [gSum, Grammar.Deep, deepDefs, Term.Deep, deepList, Term.Writable]

end Wbnf

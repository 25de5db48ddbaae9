import Verif.Lemmas.Fold
import Verif.Lemmas.Parts
import Verif.Lemmas.ConformsBy
import Verif.Props.Consume
import Verif.Examples.Groups

/-!
# C02, C03, C04: the tree of a successful parse

Specifications: `Tree.leaves`, `Conforms` (Spec/Shape), `PartOf`, `ReportsGroup`, `ReportsAll`
(Spec/Parts). The random tokens `ρ` are arbitrary here, also colliding ones.
-/

namespace Wbnf

variable {E : Engine} {X : Externals} {g : Grammar} {m : Nat} {ps : Parsers} {ρ : Nat → Nat} {n : Nat}
  {r : Str} {inp rest : Scanner} {v : Tree} {k : Nat}

/-- The spans are in order and disjoint, and lie between `lo` and `hi`. -/
def InOrder (lo hi : Int) : List Scanner → Prop
  | [] => lo ≤ hi
  | s :: ss => lo ≤ s.start ∧ 0 ≤ s.len ∧ InOrder (s.start + s.len) hi ss

theorem InOrder.append {a b c : Int} {l l' : List Scanner} (h : InOrder a b l) (h' : InOrder b c l') :
    InOrder a c (l ++ l') := by
  induction l generalizing a with
  | nil =>
    simp only [InOrder] at h
    cases l' with
    | nil => simp only [InOrder, List.append_nil] at *; omega
    | cons s l' => simp only [InOrder, List.nil_append] at *; exact ⟨by omega, h'.2⟩
  | cons s l ih => exact ⟨h.1, h.2.1, ih h.2.2⟩

theorem clean_of {look ext : Bool} {R : Str → Prop} {Γ t rule vals} (hp : PatternsSatisfy R Γ t)
    (hl : look = false → NoLook Γ t) (hx : ext = false → NoExt Γ t) :
    Clean (PartOK look ext R) (.term Γ rule t vals) := fun Γ' t' hw =>
  ⟨fun p hm => hp Γ' t' p hw hm, fun h u hu => hl h Γ' u (hu ▸ hw), fun h x hu => hx h Γ' x (hu ▸ hw)⟩

theorem LeafOut.span (hE : E.Sane) {p i s j} (hR : ReportsGroup E p) (hin : i.InRange)
    (h : LeafOut E p i (.ok (.leaf s) j)) :
    Advances i j ∧ s.src = i.src ∧ i.start ≤ s.start ∧ 0 ≤ s.len ∧ s.start + s.len ≤ j.start := by
  obtain ⟨x, b, a, c, _, ⟨locs, hf, hlast, _⟩, rfl, rfl, h1, h2, h3, hadv⟩ := h.inv hE hin
  rcases h3 with h3 | h3
  · exact absurd (by rw [hlast, h3]) (hR x locs hf)
  · refine ⟨hadv, rfl, ?_, ?_, ?_⟩ <;> simp [Scanner.sub, Scanner.skip] <;> omega

/-- **C02** Leaves read left to right have increasing, disjoint spans, all between where the parse
started and where it stopped, and are slices of the same source. -/
theorem C02_leaves_in_order (hE : E.Sane) (hg : g.wf = true) (hc : g.compile E m = .ok ps)
    (hesc : X.esc = none) (hin : inp.InRange)
    (hl : NoLook [ps.grammar] (.rule r)) (hx : NoExt [ps.grammar] (.rule r))
    (hp : PatternsSatisfy (ReportsGroup E) [ps.grammar] (.rule r))
    (h : ps.run E X ρ n r inp = .ok v rest k) :
    InOrder inp.start rest.start v.leaves ∧ ∀ s ∈ v.leaves, s.src = inp.src := by
  have hd := run_derive hg hc hesc h
  have := hd.fold (Q := PartOK false false (ReportsGroup E))
    (T := fun i a j => i.InRange → Advances i j ∧ InOrder i.start j.start a ∧ ∀ s ∈ a, s.src = i.src)
    basic_partOK
    { nil := fun i hi => ⟨.refl hi, Int.le_refl _, by simp⟩
      append := fun i a j b k h1 h2 hi => by
        obtain ⟨ha, hb, hc⟩ := h1 hi
        obtain ⟨ha', hb', hc'⟩ := h2 (ha.inRange hi)
        refine ⟨ha.trans ha', hb.append hb', fun s hs => ?_⟩
        rcases List.mem_append.1 hs with hs | hs
        · exact hc s hs
        · exact (hc' s hs).trans ha.src
      leaf := fun Γ t p i s j hQ hm hl hi => by
        obtain ⟨h1, h2, h3, h4, h5⟩ := hl.span hE (hQ.1 p hm) hi
        exact ⟨h1, ⟨h3, h4, h5⟩, by simpa using h2⟩
      look := fun Γ t i a j hQ => absurd rfl (hQ.2.1 rfl t)
      ext := fun Γ x f c i v j hQ => absurd rfl (hQ.2.2 rfl x) }
    (clean_of hp (fun _ => hl) (fun _ => hx)) hin
  obtain ⟨_, h2, h3⟩ := this
  simp only [leavesList, List.append_nil] at h2 h3
  exact ⟨h2, h3⟩

/-- **C02** With look-aheads, whose leaves may lie beyond where the parse stopped, every leaf is still
a slice of the input. -/
theorem C02_leaves_inside (hE : E.Sane) (hg : g.wf = true) (hc : g.compile E m = .ok ps)
    (hesc : X.esc = none) (hin : inp.InRange) (hx : NoExt [ps.grammar] (.rule r))
    (hp : PatternsSatisfy (ReportsGroup E) [ps.grammar] (.rule r))
    (h : ps.run E X ρ n r inp = .ok v rest k) :
    ∀ s ∈ v.leaves, s.src = inp.src ∧ inp.start ≤ s.start ∧ 0 ≤ s.len ∧
      s.start + s.len ≤ inp.start + inp.len := by
  have hd := run_derive hg hc hesc h
  have := hd.fold (Q := PartOK true false (ReportsGroup E))
    (T := fun i a j => i.InRange → Advances i j ∧ ∀ s ∈ a, s.src = i.src ∧ i.start ≤ s.start ∧
      0 ≤ s.len ∧ s.start + s.len ≤ i.start + i.len)
    basic_partOK
    { nil := fun i hi => ⟨.refl hi, by simp⟩
      append := fun i a j b k h1 h2 hi => by
        obtain ⟨ha, hc⟩ := h1 hi
        obtain ⟨ha', hc'⟩ := h2 (ha.inRange hi)
        refine ⟨ha.trans ha', fun s hs => ?_⟩
        rcases List.mem_append.1 hs with hs | hs
        · exact hc s hs
        · obtain ⟨q1, q2, q3, q4⟩ := hc' s hs
          have := ha.start; have := ha.stop
          exact ⟨q1.trans ha.src, by omega, q3, by omega⟩
      leaf := fun Γ t p i s j hQ hm hl hi => by
        obtain ⟨h1, h2, h3, h4, h5⟩ := hl.span hE (hQ.1 p hm) hi
        have := h1.stop; have := h1.nonneg
        exact ⟨h1, by simp only [List.mem_singleton, forall_eq]; exact ⟨h2, h3, h4, by omega⟩⟩
      look := fun Γ t i a j _ h hi => ⟨.refl hi, (h hi).2⟩
      ext := fun Γ x f c i v j hQ => absurd rfl (hQ.2.2 rfl x) }
    (clean_of hp (by simp) (fun _ => hx)) hin
  simpa [leavesList] using this.2

/-- **C03** Concatenating the texts of the leaves gives exactly the text consumed: the input is that
concatenation followed by what is left. -/
theorem C03_leaves_are_consumed_text (hE : E.Sane) (hg : g.wf = true) (hc : g.compile E m = .ok ps)
    (hesc : X.esc = none) (hin : inp.InRange)
    (hl : NoLook [ps.grammar] (.rule r)) (hx : NoExt [ps.grammar] (.rule r))
    (hp : PatternsSatisfy (ReportsAll E) [ps.grammar] (.rule r))
    (h : ps.run E X ρ n r inp = .ok v rest k) :
    ∃ (texts : List Str) (left : Str), v.leaves.map Scanner.toStr = texts.map some ∧
      inp.toStr = some (texts.flatten ++ left) ∧ rest.toStr = some left := by
  have hd := run_derive hg hc hesc h
  have := hd.fold (Q := PartOK false false (ReportsAll E))
    (T := fun i a j => i.InRange → Advances i j ∧ ∃ (texts : List Str) (left : Str),
      a.map Scanner.toStr = texts.map some ∧ i.toStr = some (texts.flatten ++ left) ∧ j.toStr = some left)
    basic_partOK
    { nil := fun i hi => by
        obtain ⟨e, l, h1, h2, h3⟩ := (Advances.refl hi).text hi
        exact ⟨.refl hi, [], l, rfl, by simpa using h2, h2⟩
      append := fun i a j b k h1 h2 hi => by
        obtain ⟨ha, t1, l1, hb, hc, hd⟩ := h1 hi
        obtain ⟨ha', t2, l2, hb', hc', hd'⟩ := h2 (ha.inRange hi)
        refine ⟨ha.trans ha', t1 ++ t2, l2, by simp [hb, hb'], ?_, hd'⟩
        rw [hd] at hc'; simp at hc'
        rw [hc, hc']; simp
      leaf := fun Γ t p i s j hQ hm hl hi => by
        obtain ⟨x, b, a, c, _, ⟨locs, hf, hlast, hhead⟩, rfl, rfl, h1, h2, h3, hadv⟩ := hl.inv hE hi
        obtain ⟨b', rfl⟩ := (hQ.1 p hm) x locs hf
        simp at hlast hhead
        obtain ⟨rfl, rfl⟩ := hlast
        subst hhead
        obtain ⟨e, l, q1, q2, q3⟩ := hadv.text hi
        refine ⟨hadv, [e], l, ?_, by simpa using q1, q2⟩
        obtain ⟨src, i', m, rfl, hm⟩ := hi.elim
        obtain ⟨b, rfl⟩ := Int.eq_ofNat_of_zero_le h1
        simp only [Scanner.sub, Scanner.skip, List.map_cons, List.map_nil, List.cons.injEq, and_true] at q2 q3 h2 ⊢
        have e1 : ((i' : Int) + 0) = (i' : Nat) := by omega
        have e2 : ((b : Int) - 0) = (b : Nat) := by omega
        rw [e1, e2, Scanner.toStr_mk (by omega)]
        rw [Scanner.toStr_mk hm] at q1
        simp at q1
        have : m = b + (m - b) := by omega
        rw [this, bytesAt_append] at q1
        have hb : e.length = b := by omega
        congr 1
        exact (List.append_inj q1 (by rw [bytesAt_length (by omega)]; omega)).1
      look := fun Γ t i a j hQ => absurd rfl (hQ.2.1 rfl t)
      ext := fun Γ x f c i v j hQ => absurd rfl (hQ.2.2 rfl x) }
    (clean_of hp (fun _ => hl) (fun _ => hx)) hin
  simpa [leavesList] using this.2

/-- **C03** For `Parse`: the leaves of the returned tree concatenate to the whole text. -/
theorem C03_lossless (hE : E.Sane) (hg : g.wf = true) (hc : g.compile E m = .ok ps)
    (hesc : X.esc = none) (hin : inp.InRange)
    (hl : NoLook [ps.grammar] (.rule r)) (hx : NoExt [ps.grammar] (.rule r))
    (hp : PatternsSatisfy (ReportsAll E) [ps.grammar] (.rule r))
    (h : ps.parse E X ρ n r inp = .ok v rest) :
    ∃ texts : List Str, v.leaves.map Scanner.toStr = texts.map some ∧ inp.toStr = some texts.flatten := by
  obtain ⟨⟨k, hr⟩, hs⟩ := C05_accepts_iff.1 h
  obtain ⟨texts, left, h1, h2, h3⟩ := C03_leaves_are_consumed_text hE hg hc hesc hin hl hx hp hr
  rw [h3] at hs; simp at hs; subst hs
  exact ⟨texts, h1, by simpa using h2⟩

theorem Derives.conforms {G i vs j} (h : Derives E X G i vs j) :
    match G with
    | .term Γ name t _ => ∃ v, vs = [v] ∧ Conforms Γ name t v
    | .items Γ ts _ => vs.length = ts.length ∧
        ∀ (i : Nat) t v, ts[i]? = some t → vs[i]? = some v → Conforms Γ [] t v
    | .reps Γ t _ => ∀ v ∈ vs, Conforms Γ [] t v := by
  have := h.conformsBy (I := fun _ => True) (fun _ _ => trivial) trivial
  cases G with
  | term Γ name t vals => obtain ⟨v, hv, h⟩ := this; exact ⟨v, hv, h.forget⟩
  | items Γ ts vals => exact ⟨this.1, fun i t v h1 h2 => (this.2 i t v h1 h2).forget⟩
  | reps Γ t vals => exact fun v hv => (this v hv).forget

/-- **C04** The tree of a successful parse has the shape the grammar prescribes. -/
theorem C04_conforms (hg : g.wf = true) (hc : g.compile E m = .ok ps) (hesc : X.esc = none)
    (h : ps.run E X ρ n r inp = .ok v rest k) : Conforms [ps.grammar] [] (.rule r) v := by
  obtain ⟨w, hw, h⟩ := (run_derive hg hc hesc h).conforms
  simp at hw; subst hw; exact h

/-! ## The hypotheses are met -/

open Ex in
/-- The expression grammar: no look-ahead, no external references, every pattern reports its group;
the parse of `1+2*3` yields leaves at 0, 1, 2, 3, 4. -/
example :
    gExpr.wf = true ∧ (∃ ps, gExpr.compile regexp 50 = .ok ps) ∧
    PatternsSatisfy (ReportsGroup regexp) [(comp! gExpr).grammar] (.rule (str "expr")) ∧
    NoLook [(comp! gExpr).grammar] (.rule (str "expr")) ∧
    NoExt [(comp! gExpr).grammar] (.rule (str "expr")) ∧
    (match (comp! gExpr).run regexp noExternals ρ0 300 (str "expr") (newScanner (str "1+2*3")) with
      | .ok v _ _ => some (v.leaves.map fun s => (s.start, s.len))
      | _ => none) = some [(0, 1), (1, 1), (2, 1), (3, 1), (4, 1)] := by
  have h := plainLeaf_check (q := Regex.setsLast) (Q := ReportsGroup regexp)
    (fun p => Regex.reportsGroup) (g := (comp! gExpr).grammar) (by rfl) (by decide +kernel)
    (str "expr")
  refine ⟨by decide +kernel, ⟨_, comp_ok (by decide +kernel)⟩, h.1, h.2.1, h.2.2, by decide +kernel⟩

/-- `a -> "(" a ")" | /{[a-z]+}:",";` -/
def Ex.gList : Grammar := [(str "a", .oneof [.seq [.s (str "("), .rule (str "a"), .s (str ")")],
  .delim (.re (str "[a-z]+")) (.s (str ",")) 1 true true])]

open Ex in
/-- A grammar without own groups: the leaves of `((,ab,c,))` concatenate to the text. -/
example :
    PatternsSatisfy (ReportsAll regexp) [(comp! gList).grammar] (.rule (str "a")) ∧
    (match (comp! gList).parse regexp noExternals ρ0 300 (str "a") (newScanner (str "((,ab,c,))")) with
      | .ok v _ => some (v.leaves.map Scanner.toStr)
      | _ => none) = some (["(", "(", ",", "ab", ",", "c", ",", ")", ")"].map fun s => some (str s)) := by
  have h := plainLeaf_check (q := Regex.onlyGroup) (Q := ReportsAll regexp)
    (fun p => Regex.reportsAll) (g := (comp! gList).grammar) (by rfl) (by decide +kernel) (str "a")
  exact ⟨h.1, by decide +kernel⟩

/-- `a -> /{(x)?y};`: the group inside the regexp is the one reported, and it may be unset. -/
def Ex.gUnset : Grammar := [(str "a", .re (str "(x)?y"))]

open Ex in
/-- **C02** The hypothesis on patterns is needed: here the leaf of a successful parse starts before
the input, and its text is not the text consumed. -/
theorem C02_unset_group :
    (match (comp! gUnset).parse regexp noExternals ρ0 300 (str "a") (newScanner (str "y")) with
      | .ok v _ => some (v.leaves.map fun s => (s.start, s.len, s.toStr))
      | _ => none) = some [(-1, 0, some (str "y"))] ∧
    (match (comp! gUnset).run regexp noExternals ρ0 300 (str "a") ⟨some ⟨str "zy", []⟩, 1, 1⟩ with
      | .ok v _ _ => some (v.leaves.map fun s => (s.start, s.len, s.toStr))
      | _ => none) = some [(0, 0, some [])] := by
  constructor <;> decide +kernel

end Wbnf

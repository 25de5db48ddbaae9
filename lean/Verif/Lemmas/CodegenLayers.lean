import Verif.Lemmas.CodegenTerm

/-! The text of a compiled grammar, in which stacks have become layers. -/

namespace Wbnf

theorem RefName.print {r : Str} (h : RefName r) : PrintName r := by
  rcases h with rfl | h
  · exact .inl (by decide)
  · exact .inr h.1

mutual
/-- References in sources are kept. -/
theorem back_id : (t : Term) → t.GoWritable RefName → t.back = t
  | .rule r, h => by
    simp only [Term.back]
    split
    · rename_i ha
      rcases h with rfl | h
      · rfl
      · exact absurd (hasStackDelim_iff.1 ha) h.2
    · rfl
  | .s _, _ => rfl
  | .re _, _ => rfl
  | .ext _, _ => rfl
  | .ref _ _, _ => rfl
  | .seq ts, h => by simp only [Term.back]; rw [backList_id ts h]
  | .oneof ts, h => by simp only [Term.back]; rw [backList_id ts h]
  | .stack ts, h => by simp only [Term.back]; rw [backList_id ts h]
  | .delim t sep _ _ _, h => by simp only [Term.back]; rw [back_id t h.1, back_id sep h.2.1]
  | .look t, h => by simp only [Term.back]; rw [back_id t (by simpa [Term.GoWritable] using h)]
  | .quant t _ _, h => by simp only [Term.back]; rw [back_id t h.1]
  | .named _ t, h => by simp only [Term.back]; rw [back_id t h.2]
  | .cut t, h => by simp only [Term.back]; rw [back_id t (by simpa [Term.GoWritable] using h)]
  | .scope t g, h => by simp only [Term.back]; rw [back_id t h.1, backDefs_id g h.2.1]
theorem backList_id : (ts : List Term) → goWritableList RefName ts → backList ts = ts
  | [], _ => rfl
  | t :: ts, h => by simp only [backList]; rw [back_id t h.1, backList_id ts h.2]
theorem backDefs_id : (g : List (Str × Term)) → goWritableDefs RefName g → backDefs g = g
  | [], _ => rfl
  | (_, t) :: g, h => by simp only [backDefs]; rw [back_id t h.2.1, backDefs_id g h.2.2]
end

mutual
/-- A layer can be printed. -/
theorem layer_writable {Q : Str → Prop} (hq : ∀ r, RefName r → Q r) {nm : Str} (hn : Q nm) : (t : Term) → t.flat = true → t.GoWritable RefName →
    (t.uncut.atTo nm).GoWritable Q
  | .rule r, _, h => by
    simp only [Term.uncut, Term.atTo]
    split
    · exact hn
    · exact hq _ h
  | .s _, _, h => h
  | .re _, _, h => h
  | .ext _, _, h => h
  | .ref _ _, _, h => h
  | .seq ts, hf, h => layers_writable hq hn ts (by simpa [Term.flat] using hf) h
  | .oneof ts, hf, h => layers_writable hq hn ts (by simpa [Term.flat] using hf) h
  | .stack _, hf, _ => by simp [Term.flat] at hf
  | .delim t sep _ _ _, hf, h => by
    simp only [Term.flat, Bool.and_eq_true] at hf
    exact ⟨layer_writable hq hn t hf.1 h.1, layer_writable hq hn sep hf.2 h.2.1, h.2.2⟩
  | .look t, hf, h => by
    simp only [Term.flat, Term.GoWritable, Term.uncut, Term.atTo] at hf h ⊢
    exact layer_writable hq hn t hf h
  | .quant t _ _, hf, h => ⟨layer_writable hq hn t (by simpa [Term.flat] using hf) h.1, h.2⟩
  | .named _ t, hf, h => ⟨h.1, layer_writable hq hn t (by simpa [Term.flat] using hf) h.2⟩
  | .cut t, hf, h => by
    simp only [Term.flat, Term.GoWritable, Term.uncut] at hf h ⊢
    exact layer_writable hq hn t hf h
  | .scope _ _, hf, _ => by simp [Term.flat] at hf
theorem layers_writable {Q : Str → Prop} (hq : ∀ r, RefName r → Q r) {nm : Str} (hn : Q nm) : (ts : List Term) → flatList ts = true → goWritableList RefName ts →
    goWritableList Q (atToList nm (uncutList ts))
  | [], _, _ => trivial
  | t :: ts, hf, h => by
    simp only [flatList, Bool.and_eq_true] at hf
    exact ⟨layer_writable hq hn t hf.1 h.1, layers_writable hq hn ts hf.2 h.2⟩
end

mutual
theorem flat_layer {nm : Str} : (t : Term) → t.flat = true → (t.uncut.atTo nm).flat = true
  | .rule r, _ => by simp only [Term.uncut, Term.atTo]; split <;> rfl
  | .s _, _ => rfl
  | .re _, _ => rfl
  | .ext _, _ => rfl
  | .ref _ _, _ => rfl
  | .seq ts, hf => flat_layers ts (by simpa [Term.flat] using hf)
  | .oneof ts, hf => flat_layers ts (by simpa [Term.flat] using hf)
  | .stack _, hf => by simp [Term.flat] at hf
  | .delim t sep _ _ _, hf => by
    simp only [Term.flat, Bool.and_eq_true, Term.uncut, Term.atTo] at hf ⊢
    exact ⟨flat_layer t hf.1, flat_layer sep hf.2⟩
  | .look t, hf => by simp only [Term.flat, Term.uncut, Term.atTo] at hf ⊢; exact flat_layer t hf
  | .quant t _ _, hf => by simp only [Term.flat, Term.uncut, Term.atTo] at hf ⊢; exact flat_layer t hf
  | .named _ t, hf => by simp only [Term.flat, Term.uncut, Term.atTo] at hf ⊢; exact flat_layer t hf
  | .cut t, hf => by simp only [Term.flat, Term.uncut] at hf ⊢; exact flat_layer t hf
  | .scope _ _, hf => by simp [Term.flat] at hf
theorem flat_layers {nm : Str} : (ts : List Term) → flatList ts = true → flatList (atToList nm (uncutList ts)) = true
  | [], _ => rfl
  | t :: ts, hf => by
    simp only [flatList, Bool.and_eq_true, atToList, uncutList] at hf ⊢
    exact ⟨flat_layer t hf.1, flat_layers ts hf.2⟩
end

mutual
/-- Replacing layers by `@` changes nothing but names. -/
theorem back_flat : (t : Term) → t.flat = true → t.back.flat = true ∧ t.back.wf = t.wf ∧ t.back.hard = t.hard
  | .rule r, _ => by simp only [Term.back]; split <;> exact ⟨rfl, rfl, rfl⟩
  | .s _, _ => ⟨rfl, rfl, rfl⟩
  | .re _, _ => ⟨rfl, rfl, rfl⟩
  | .ext _, _ => ⟨rfl, rfl, rfl⟩
  | .ref _ _, _ => ⟨rfl, rfl, rfl⟩
  | .seq ts, hf => by
    have := backList_flat ts (by simpa [Term.flat] using hf)
    exact ⟨by simpa [Term.back, Term.flat] using this.1, by simpa [Term.back, Term.wf] using this.2, rfl⟩
  | .oneof ts, hf => by
    have := backList_flat ts (by simpa [Term.flat] using hf)
    exact ⟨by simpa [Term.back, Term.flat] using this.1, by simpa [Term.back, Term.wf] using this.2, rfl⟩
  | .stack _, hf => by simp [Term.flat] at hf
  | .delim t sep _ _ _, hf => by
    simp only [Term.flat, Bool.and_eq_true] at hf
    have h1 := back_flat t hf.1
    have h2 := back_flat sep hf.2
    exact ⟨by simp [Term.back, Term.flat, h1.1, h2.1], by simp [Term.back, Term.wf, h1.2.1, h2.2.1], rfl⟩
  | .look t, hf => by
    have h1 := back_flat t (by simpa [Term.flat] using hf)
    exact ⟨by simp [Term.back, Term.flat, h1.1], by simp [Term.back, Term.wf, h1.2.1], rfl⟩
  | .quant t _ _, hf => by
    have h1 := back_flat t (by simpa [Term.flat] using hf)
    exact ⟨by simp [Term.back, Term.flat, h1.1], by simp [Term.back, Term.wf, h1.2.1], rfl⟩
  | .named _ t, hf => by
    have h1 := back_flat t (by simpa [Term.flat] using hf)
    exact ⟨by simp [Term.back, Term.flat, h1.1], by simp [Term.back, Term.wf, h1.2.1], by simp [Term.back, Term.hard, h1.2.2]⟩
  | .cut t, hf => by
    have h1 := back_flat t (by simpa [Term.flat] using hf)
    exact ⟨by simp [Term.back, Term.flat, h1.1], by simp [Term.back, Term.wf, h1.2.1, h1.2.2],
      by simp [Term.back, Term.hard, h1.2.2]⟩
  | .scope _ _, hf => by simp [Term.flat] at hf
theorem backList_flat : (ts : List Term) → flatList ts = true → flatList (backList ts) = true ∧ wfList (backList ts) = wfList ts
  | [], _ => ⟨rfl, rfl⟩
  | t :: ts, hf => by
    simp only [flatList, Bool.and_eq_true] at hf
    have h1 := back_flat t hf.1
    have h2 := backList_flat ts hf.2
    exact ⟨by simp [backList, flatList, h1.1, h2.1], by simp [backList, wfList, h1.2.1, h2.2]⟩
end

theorem back_hardOrRule {t : Term} (hf : t.flat = true) : t.back.hardOrRule = t.hardOrRule := by
  have := (back_flat t hf).2.2
  cases t with
  | rule r => simp only [Term.back]; split <;> rfl
  | _ => simp only [Term.back, Term.hardOrRule] at this ⊢; try exact this

mutual
/-- Resolving a layer that has been printed and read gives the layer. -/
theorem layer_back {nm : Str} (hn : nm ≠ str "@") : (t : Term) → t.flat = true → t.GoWritable RefName →
    (t.uncut.atTo nm).back.uncut.atTo nm = t.uncut.atTo nm
  | .rule r, _, h => by
    simp only [Term.uncut, Term.atTo]
    by_cases e : r = str "@"
    · simp only [e, if_true, Term.back]
      split
      · simp [Term.uncut, Term.atTo]
      · simp [Term.uncut, Term.atTo, hn]
    · have : hasStackDelim r = false := Bool.eq_false_iff.2 fun ha => (h.resolve_left e).2 (hasStackDelim_iff.1 ha)
      simp [e, Term.back, this, Term.uncut, Term.atTo]
  | .s _, _, _ => rfl
  | .re _, _, _ => rfl
  | .ext _, _, _ => rfl
  | .ref _ _, _, _ => rfl
  | .seq ts, hf, h => by
    simp only [Term.uncut, Term.atTo, Term.back]
    rw [layers_back hn ts (by simpa [Term.flat] using hf) h]
  | .oneof ts, hf, h => by
    simp only [Term.uncut, Term.atTo, Term.back]
    rw [layers_back hn ts (by simpa [Term.flat] using hf) h]
  | .stack _, hf, _ => by simp [Term.flat] at hf
  | .delim t sep _ _ _, hf, h => by
    simp only [Term.flat, Bool.and_eq_true] at hf
    simp only [Term.uncut, Term.atTo, Term.back]
    rw [layer_back hn t hf.1 h.1, layer_back hn sep hf.2 h.2.1]
  | .look t, hf, h => by
    simp only [Term.flat, Term.GoWritable] at hf h
    simp only [Term.uncut, Term.atTo, Term.back]
    rw [layer_back hn t hf h]
  | .quant t _ _, hf, h => by
    simp only [Term.flat] at hf
    simp only [Term.uncut, Term.atTo, Term.back]
    rw [layer_back hn t hf h.1]
  | .named _ t, hf, h => by
    simp only [Term.flat] at hf
    simp only [Term.uncut, Term.atTo, Term.back]
    rw [layer_back hn t hf h.2]
  | .cut t, hf, h => by
    simp only [Term.flat, Term.GoWritable] at hf h
    simp only [Term.uncut]
    exact layer_back hn t hf h
  | .scope _ _, hf, _ => by simp [Term.flat] at hf
theorem layers_back {nm : Str} (hn : nm ≠ str "@") : (ts : List Term) → flatList ts = true → goWritableList RefName ts →
    atToList nm (uncutList (backList (atToList nm (uncutList ts)))) = atToList nm (uncutList ts)
  | [], _, _ => rfl
  | t :: ts, hf, h => by
    simp only [flatList, Bool.and_eq_true] at hf
    simp only [uncutList, atToList, backList]
    rw [layer_back hn t hf.1 h.1, layers_back hn ts hf.2 h.2]
end

mutual
theorem goWritable_tidy {P : Str → Prop} : (t : Term) → t.GoWritable P → t.Tidy
  | .rule _, _ => trivial
  | .s _, _ => trivial
  | .re _, _ => trivial
  | .ext _, _ => trivial
  | .ref _ _, _ => trivial
  | .seq ts, h => goWritableList_tidy ts h
  | .oneof ts, h => goWritableList_tidy ts h
  | .stack ts, h => goWritableList_tidy ts h
  | .delim t sep _ _ _, h => ⟨goWritable_tidy t h.1, goWritable_tidy sep h.2.1⟩
  | .look t, h => by simp only [Term.GoWritable, Term.Tidy] at h ⊢; exact goWritable_tidy t h
  | .quant t _ _, h => by simp only [Term.Tidy]; exact goWritable_tidy t h.1
  | .named _ t, h => by simp only [Term.Tidy]; exact goWritable_tidy t h.2
  | .cut t, h => by simp only [Term.GoWritable, Term.Tidy] at h ⊢; exact goWritable_tidy t h
  | .scope t g, h => by
    refine ⟨goWritable_tidy t h.1, goWritableDefs_tidy g h.2.1, h.2.2, ?_⟩
    intro r ls i u _ hi _ hm
    exact (goWritableDefs_iff.1 h.2.1 _ _ hm).1.2 (layer_at hi)
theorem goWritableList_tidy {P : Str → Prop} : (ts : List Term) → goWritableList P ts → tidyList ts
  | [], _ => trivial
  | t :: ts, h => ⟨goWritable_tidy t h.1, goWritableList_tidy ts h.2⟩
theorem goWritableDefs_tidy {P : Str → Prop} : (g : List (Str × Term)) → goWritableDefs P g → tidyDefs g
  | [], _ => trivial
  | (_, t) :: g, h => ⟨goWritable_tidy t h.2.1, goWritableDefs_tidy g h.2.2⟩
end

theorem Grammar.GoWritable.fresh {g : Grammar} (h : g.GoWritable) : g.LayersFresh := by
  intro r ls i t _ hi _ hm
  exact (goWritableDefs_iff.1 h.1 _ _ hm).1.2 (layer_at hi)

/-- How many layers a rule has. -/
def layersOf (g : Grammar) (r : Str) : Nat :=
  match lookup r g with
  | some (.stack (_ :: ls)) => ls.length + 1
  | _ => 1

theorem layersOf_stack {g : Grammar} (hd : g.Distinct) {r : Str} {l : Term} {ls : List Term} (hm : (r, .stack (l :: ls)) ∈ g) :
    layersOf g r = ls.length + 1 := by simp [layersOf, (lookup_iff_mem hd).2 hm]

theorem layersOf_plain {g : Grammar} (hd : g.Distinct) {r : Str} {t : Term} (hm : (r, t) ∈ g) (ht : ∀ l ls, t ≠ .stack (l :: ls)) :
    layersOf g r = 1 := by
  simp only [layersOf, (lookup_iff_mem hd).2 hm]
  split
  · rename_i e
    cases e
    exact absurd rfl (ht _ _)
  · rfl

theorem Grammar.GoWritable.layering {g gr : Grammar} (h : g.GoWritable) (hr : g.resolveStacks = some gr) :
    Layering (gr.map Prod.fst) (layersOf g) := by
  have hi : ∀ {k}, k ∈ gr.map Prod.fst ↔ ∃ t, Layered g k t := by
    intro k
    constructor
    · intro hk
      obtain ⟨⟨k', t⟩, hm, e⟩ := List.mem_map.1 hk
      simp only at e
      subst e
      exact ⟨t, (resolveStacks_iff h.2 h.fresh hr).1 ((lookup_iff_mem (resolveStacks_distinct hr h.2)).2 hm)⟩
    · rintro ⟨t, ht⟩
      exact List.mem_map.2 ⟨_, lookup_mem' ((resolveStacks_iff h.2 h.fresh hr).2 ht), rfl⟩
  have hat : ∀ {k t}, (k, t) ∈ g → (64 : UInt8) ∉ k := fun hm => (goWritableDefs_iff.1 h.1 _ _ hm).1.2
  constructor
  · intro r hr ha j
    rw [hi] at hr ⊢
    obtain ⟨t, ht⟩ := hr
    have hg : ∃ t, (r, t) ∈ g := by
      cases ht with
      | plain hm _ => exact ⟨_, hm⟩
      | @layer r' ls i L hm hL =>
        rcases Nat.eq_zero_or_pos i with rfl | hp
        · exact ⟨_, hm⟩
        · exact absurd (layer_at hp) ha
    constructor
    · rintro ⟨u, hu⟩
      generalize hk : layer r j = k at hu
      cases hu with
      | plain hm hs =>
        rcases Nat.eq_zero_or_pos j with rfl | hp
        · rw [layer_zero] at hk
          subst hk
          rw [layersOf_plain h.2 hm hs]
          omega
        · exact absurd (hk ▸ layer_at hp) (hat hm)
      | @layer r' ls i L hm hL =>
        have hlen : i < ls.length := by
          rcases Nat.lt_or_ge i ls.length with hh | hh
          · exact hh
          · rw [List.getElem?_eq_none hh] at hL; cases hL
        have : r = r' ∧ j = i := by
          rcases Nat.eq_zero_or_pos j with rfl | hp
          · rcases Nat.eq_zero_or_pos i with rfl | hp'
            · exact ⟨hk, rfl⟩
            · rw [layer_zero] at hk
              exact absurd (hk ▸ layer_at hp') ha
          · rcases Nat.eq_zero_or_pos i with rfl | hp'
            · rw [layer_zero r'] at hk
              exact absurd (hk ▸ layer_at hp) (hat hm)
            · exact layer_inj hp hp' hk
        obtain ⟨rfl, rfl⟩ := this
        cases ls with
        | nil => simp at hlen
        | cons l ls =>
          rw [layersOf_stack h.2 hm]
          simpa using hlen
    · intro hj
      obtain ⟨t, hm⟩ := hg
      by_cases hs : ∃ l ls, t = .stack (l :: ls)
      · obtain ⟨l, ls, rfl⟩ := hs
        rw [layersOf_stack h.2 hm] at hj
        have hL : (l :: ls)[j]? = some (l :: ls)[j] := by simp [hj]
        exact ⟨_, .layer hm hL⟩
      · have hs' : ∀ l ls, t ≠ .stack (l :: ls) := fun l ls e => hs ⟨l, ls, e⟩
        rw [layersOf_plain h.2 hm hs'] at hj
        rw [show j = 0 by omega, layer_zero]
        exact ⟨t, .plain hm hs'⟩
  · intro k hk ha
    rw [hi] at hk
    obtain ⟨t, ht⟩ := hk
    cases ht with
    | plain hm _ => exact absurd ha (hat hm)
    | @layer r ls i L hm hL =>
      rcases Nat.eq_zero_or_pos i with rfl | hp
      · exact absurd ha (hat hm)
      · refine ⟨r, hi.2 ?_, hat hm, i, hp, rfl⟩
        cases ls with
        | nil => simp at hL
        | cons l ls =>
          have := Layered.layer (i := 0) hm (by simp : (l :: ls)[0]? = some l)
          exact ⟨_, this⟩

/-- What the text of a compiled grammar denotes. -/
theorem literal_denotes {g gr : Grammar} (hw : g.GoWritable) (hr : g.resolveStacks = some gr) :
    GoText (grammarLiteral gr) ∧ ∃ h hr, goValue (grammarLiteral gr) = some (.grammar h) ∧ h.Distinct ∧ h.LayersFresh ∧
      h.resolveStacks = some hr ∧ SameDefs gr hr ∧ (g.wf = true → h.wf = true) := by
  have hdr : gr.Distinct := resolveStacks_distinct hr hw.2
  have hL : ∀ {k t}, (k, t) ∈ gr ↔ Layered g k t := by
    intro k t
    rw [← resolveStacks_iff hw.2 hw.fresh hr, lookup_iff_mem hdr]
  have hat : ∀ {k t}, (k, t) ∈ g → RuleName k ∧ t.GoWritable RefName := fun hm => goWritableDefs_iff.1 hw.1 _ _ hm
  have hfl : ∀ {r ls} {i : Nat} {L : Term}, (r, .stack ls) ∈ g → ls[i]? = some L → L.flat = true ∧ L.GoWritable RefName := by
    intro r ls i L hm hi
    have hmem := List.mem_of_getElem? hi
    exact ⟨flatList_iff.1 (resolveStacks_flat hr hm) L hmem, goWritableList_iff.1 (hat hm).2 L hmem⟩
  have hpn : ∀ {r t}, (r, t) ∈ g → ∀ j, PrintName (layer r j) ∧ layer r j ≠ str "@" := by
    intro r t hm j
    rcases Nat.eq_zero_or_pos j with rfl | hp
    · rw [layer_zero]
      exact ⟨.inr (hat hm).1.1, fun e => (hat hm).1.2 (e ▸ by decide)⟩
    · refine ⟨.inl (layer_at hp), fun e => ?_⟩
      rw [layer_pos hp] at e
      have h1 := congrArg List.length e
      simp [str] at h1
      have : 0 < (decimal j).length := by
        cases hd : decimal j with
        | nil =>
          have := (decimalAux_props (j + 1) j (by omega)).1
          unfold decimal at hd
          rw [hd] at this
          simp [digits] at this
          omega
        | cons _ _ => simp
      omega
  -- every term of the compiled grammar can be printed
  have hp : ∀ {k t}, (k, t) ∈ gr → t.GoWritable PrintName := by
    intro k t hm
    cases hL.1 hm with
    | plain hg _ => exact Term.GoWritable.mono (fun _ => RefName.print) _ (hat hg).2
    | layer hg hi => exact layer_writable (fun _ => RefName.print) (hpn hg _).1 _ (hfl hg hi).1 (hfl hg hi).2
  have hval : ∀ k, ∃ v, ∀ t, (k, t) ∈ gr → Piece (walkTerm t).string (.none, .term v) ∧ Reord t.back v := by
    intro k
    cases hk : lookup k gr with
    | none => exact ⟨.seq [], fun t hm => by rw [(lookup_iff_mem hdr).2 hm] at hk; cases hk⟩
    | some t =>
      obtain ⟨v, h1, h2⟩ := walk_piece t (hp (lookup_mem' hk))
      refine ⟨v, fun t' hm => ?_⟩
      rw [(lookup_iff_mem hdr).2 hm] at hk
      cases hk
      exact ⟨h1, h2⟩
  let val : Str → Term := fun k => Classical.choose (hval k)
  have hv : ∀ {k t}, (k, t) ∈ gr → Piece (walkTerm t).string (.none, .term (val k)) ∧ Reord t.back (val k) :=
    fun hm => Classical.choose_spec (hval _) _ hm
  have hlay := hw.layering hr
  have hname : ∀ k t, (k, t) ∈ gr → (64 : UInt8) ∉ k → ∃ u, (k, u) ∈ g := by
    intro k t hm ha
    cases hL.1 hm with
    | plain hg _ => exact ⟨_, hg⟩
    | @layer r ls i L hg hi =>
      rcases Nat.eq_zero_or_pos i with rfl | hp
      · exact ⟨_, hg⟩
      · exact absurd (layer_at hp) ha
  obtain ⟨h1, h2⟩ := grammar_piece (val := val) hdr hlay
    (fun k t hm ha => by obtain ⟨u, hu⟩ := hname k t hm ha; exact (hat hu).1.1) (fun k t hm => (hv hm).1)
  have hgoal := Piece.value (w := str "parser.Grammar") (by decide) h1 h2
  have he : (GoNode.mk (str "parser.Grammar") (grammarEntries (((gr.map Prod.fst).filter hasStackDelim).map beforeStackDelim)
      (sortStrings (gr.map Prod.fst)) (walkDefs gr)) .squiggly).string = grammarLiteral gr := by
    simp only [grammarLiteral, makeGrammarString, grammarNode, walkDefs_keys]
  rw [he] at hgoal
  -- the rules of the grammar that is denoted
  let H : Grammar := denoted (gr.map Prod.fst) (layersOf g) val
  have hH : ∀ {k T}, (k, T) ∈ H ↔ (∃ t, (k, t) ∈ g) ∧ T = entryTerm val k (layersOf g k) := by
    intro k T
    simp only [H, denoted, List.mem_map, List.mem_filter, Prod.mk.injEq]
    constructor
    · rintro ⟨k', ⟨hk1, hk2⟩, rfl, rfl⟩
      obtain ⟨⟨k'', t⟩, hm, e⟩ := List.mem_map.1 ((sortStrings_perm _).mem_iff.1 hk1)
      simp only at e
      subst e
      exact ⟨hname _ t hm fun ha => by simp [hasStackDelim_iff.2 ha] at hk2, rfl⟩
    · rintro ⟨⟨t, hm⟩, rfl⟩
      refine ⟨k, ⟨(sortStrings_perm _).mem_iff.2 ?_, ?_⟩, rfl, rfl⟩
      · have : ∃ u, Layered g k u := by
          by_cases hs : ∃ l ls, t = .stack (l :: ls)
          · obtain ⟨l, ls, rfl⟩ := hs
            have := Layered.layer (i := 0) hm (by simp : (l :: ls)[0]? = some l)
            exact ⟨_, this⟩
          · exact ⟨t, .plain hm fun l ls e => hs ⟨l, ls, e⟩⟩
        obtain ⟨u, hu⟩ := this
        exact List.mem_map.2 ⟨_, hL.2 hu, rfl⟩
      · cases e : hasStackDelim k with
        | true => exact absurd (hasStackDelim_iff.1 e) (hat hm).1.2
        | false => rfl
  have hdH : H.Distinct := denoted_keys hdr
  have hfH : H.LayersFresh := by
    intro r ls i t _ hi _ hm
    obtain ⟨⟨u, hu⟩, _⟩ := hH.1 hm
    exact (hat hu).1.2 (layer_at hi)
  -- the values of rules that are no stacks, and of layers
  have hplain : ∀ {k t}, (k, t) ∈ g → (∀ l ls, t ≠ .stack (l :: ls)) →
      entryTerm val k (layersOf g k) = val k ∧ Reord t (val k) := by
    intro k t hm hs
    refine ⟨by simp [entryTerm, layersOf_plain hw.2 hm hs], ?_⟩
    have := (hv (hL.2 (.plain hm hs))).2
    rwa [back_id t (hat hm).2] at this
  have hlayer : ∀ {r ls} {i : Nat} {L : Term}, (r, .stack ls) ∈ g → ls[i]? = some L →
      val (layer r i) = (L.uncut.atTo (layer r (if i + 1 = ls.length then 0 else i + 1))).back := by
    intro r ls i L hm hi
    exact (hv (hL.2 (.layer hm hi))).2.flat (back_flat _ (flat_layer _ (hfl hm hi).1)).1
  have hstack : ∀ {r l ls}, (r, .stack (l :: ls)) ∈ g → ls ≠ [] →
      entryTerm val r (layersOf g r) = .stack ((List.range (ls.length + 1)).map fun j => val (layer r j)) := by
    intro r l ls hm hne
    have : 0 < ls.length := List.length_pos_iff.2 hne
    rw [layersOf_stack hw.2 hm]
    simp [entryTerm, this]
  have hone : ∀ {r} {l : Term}, (r, .stack [l]) ∈ g → entryTerm val r (layersOf g r) = l.uncut.atTo r := by
    intro r l hm
    rw [layersOf_stack hw.2 hm]
    have := hlayer (i := 0) hm (by simp : [l][0]? = some l)
    rw [layer_zero] at this
    simp only [entryTerm, List.length_nil, Nat.zero_add, Nat.lt_irrefl, if_false, this, List.length_singleton, if_true]
    -- nothing to replace: the name of the rule has no `@`
    have : ∀ (t : Term), t.GoWritable RefName → t.flat = true → (t.uncut.atTo r).back = t.uncut.atTo r := by
      intro t ht hf
      have h3 : (t.uncut.atTo r).GoWritable RefName := layer_writable (fun _ h => h) (.inr (hat hm).1) t hf ht
      exact back_id _ h3
    rw [layer_zero]
    exact this l (hfl (i := 0) hm (by simp)).2 (hfl (i := 0) hm (by simp)).1
  have hnot : ∀ {r ls'}, (r, .stack ls') ∈ H →
      ls' = [] ∨ ∃ l ls, (r, .stack (l :: ls)) ∈ g ∧ ls ≠ [] ∧ ls' = (List.range (ls.length + 1)).map fun j => val (layer r j) := by
    intro r ls' hm
    obtain ⟨⟨t, hg⟩, e⟩ := hH.1 hm
    by_cases hs : ∃ l ls, t = .stack (l :: ls)
    · obtain ⟨l, ls, rfl⟩ := hs
      cases ls with
      | nil =>
        rw [hone hg] at e
        have := flat_layer (nm := r) l (hfl (i := 0) hg (by simp)).1
        rw [← e] at this
        simp [Term.flat] at this
      | cons l' ls =>
        rw [hstack hg (by simp)] at e
        cases e
        exact .inr ⟨_, _, hg, by simp, rfl⟩
    · have hs' : ∀ l ls, t ≠ .stack (l :: ls) := fun l ls e => hs ⟨l, ls, e⟩
      obtain ⟨h3, h4⟩ := hplain hg hs'
      rw [h3] at e
      rw [← e] at h4
      obtain ⟨ts, e', h5⟩ := h4.symm.stack_inv
      cases ts with
      | nil => cases h5; exact .inl rfl
      | cons a b => exact absurd e' (hs' _ _)
  have hflat : ∀ {r ls'}, (r, .stack ls') ∈ H → flatList ls' = true := by
    intro r ls' hm
    rcases hnot hm with rfl | ⟨l, ls, hg, _, rfl⟩
    · rfl
    · rw [flatList_iff]
      intro t ht
      obtain ⟨j, hj, rfl⟩ := List.mem_map.1 ht
      have hj : j < (l :: ls).length := by simpa using List.mem_range.1 hj
      have hL' : (l :: ls)[j]? = some (l :: ls)[j] := by simp
      rw [hlayer hg hL']
      exact (back_flat _ (flat_layer _ (hfl hg hL').1)).1
  obtain ⟨Hr, hHr⟩ : ∃ Hr, H.resolveStacks = some Hr := by
    cases hn : H.resolveStacks with
    | some Hr => exact ⟨Hr, rfl⟩
    | none =>
      obtain ⟨r, ls, hm, hf⟩ := resolveStacks_none.1 hn
      rw [hflat hm] at hf
      cases hf
  have hHL : ∀ {k t}, lookup k Hr = some t ↔ Layered H k t := resolveStacks_iff hdH hfH hHr
  have fwd : ∀ {k t}, Layered g k t → ∃ t', Layered H k t' ∧ Reord t t' ∧ t.Tidy := by
    intro k t hl
    cases hl with
    | plain hm hs =>
      obtain ⟨h3, h4⟩ := hplain hm hs
      refine ⟨val k, .plain (hH.2 ⟨⟨t, hm⟩, h3.symm⟩) fun l ls e => ?_, h4, goWritable_tidy _ (hat hm).2⟩
      rw [e] at h4
      obtain ⟨ts, e', h5⟩ := h4.symm.stack_inv
      cases h5
      exact hs _ _ e'
    | @layer r ls i L hm hi =>
      have hf := (hfl hm hi).1
      cases ls with
      | nil => simp at hi
      | cons l ls =>
        cases ls with
        | nil =>
          cases i with
          | succ i => simp at hi
          | zero =>
            simp at hi
            subst hi
            simp only [layer_zero, Nat.zero_add, List.length_singleton, if_true]
            refine ⟨_, .plain (hH.2 ⟨⟨_, hm⟩, (hone hm).symm⟩) fun a b e => ?_, .refl _, flat_tidy _ hf⟩
            have := flat_layer (nm := r) l hf
            rw [e] at this
            simp [Term.flat] at this
        | cons l' ls =>
          have hlen : i < (l :: l' :: ls).length := by
            rcases Nat.lt_or_ge i (l :: l' :: ls).length with hh | hh
            · exact hh
            · rw [List.getElem?_eq_none hh] at hi; cases hi
          have hmem := hH.2 ⟨⟨_, hm⟩, (hstack hm (by simp)).symm⟩
          have hi' : ((List.range ((l' :: ls).length + 1)).map fun j => val (layer r j))[i]? = some (val (layer r i)) := by
            rw [List.getElem?_map, List.getElem?_range (by simpa using hlen)]
            rfl
          have hl := Layered.layer hmem hi'
          have hlen2 : ((List.range ((l' :: ls).length + 1)).map fun j => val (layer r j)).length = (l :: l' :: ls).length := by
            simp
          rw [hlen2, hlayer hm hi, layer_back (hpn hm _).2 L hf (hfl hm hi).2] at hl
          exact ⟨_, hl, .refl _, flat_tidy _ hf⟩
  have bwd : ∀ {k t'}, Layered H k t' → ∃ t, Layered g k t := by
    intro k t' hl
    cases hl with
    | plain hm _ =>
      obtain ⟨⟨t, hg⟩, _⟩ := hH.1 hm
      by_cases hs : ∃ l ls, t = .stack (l :: ls)
      · obtain ⟨l, ls, rfl⟩ := hs
        have := Layered.layer (i := 0) hg (by simp : (l :: ls)[0]? = some l)
        exact ⟨_, this⟩
      · exact ⟨t, .plain hg fun l ls e => hs ⟨l, ls, e⟩⟩
    | @layer r ls' i L hm hi =>
      rcases hnot hm with rfl | ⟨l, ls, hg, _, rfl⟩
      · simp at hi
      · have hlen : i < (l :: ls).length := by
          rcases Nat.lt_or_ge i (l :: ls).length with hh | hh
          · exact hh
          · rw [List.getElem?_eq_none (by simpa using hh)] at hi; cases hi
        have hL' : (l :: ls)[i]? = some (l :: ls)[i] := by simp
        exact ⟨_, .layer hg hL'⟩
  refine ⟨hgoal.1, H, Hr, hgoal.2, hdH, hfH, hHr, ?_, ?_⟩
  · intro k
    refine ⟨⟨fun hn => ?_, fun hn => ?_⟩, fun t ht => ?_⟩
    · cases hk : lookup k Hr with
      | none => rfl
      | some t' =>
        obtain ⟨t, ht⟩ := bwd (hHL.1 hk)
        rw [(resolveStacks_iff hw.2 hw.fresh hr).2 ht] at hn
        cases hn
    · cases hk : lookup k gr with
      | none => rfl
      | some t =>
        obtain ⟨t', ht, _⟩ := fwd ((resolveStacks_iff hw.2 hw.fresh hr).1 hk)
        rw [hHL.2 ht] at hn
        cases hn
    · obtain ⟨t', h3, h4, h5⟩ := fwd ((resolveStacks_iff hw.2 hw.fresh hr).1 ht)
      exact ⟨t', hHL.2 h3, h4, h5⟩
  · intro hwf
    have hgr : wfDefs gr = true := resolveStacks_wf hr hwf
    have key : ∀ (m : Grammar), (∀ k T, (k, T) ∈ m → T.defOK = true ∧ T.wf = true) → wfDefs m = true := by
      intro m
      induction m with
      | nil => intro _; rfl
      | cons e m ih =>
        intro hm
        obtain ⟨k, T⟩ := e
        have h3 := hm k T (by simp)
        simp [wfDefs, h3.1, h3.2, ih fun k T h => hm k T (by simp [h])]
    refine key H fun k T hm => ?_
    obtain ⟨⟨t, hg⟩, rfl⟩ := hH.1 hm
    by_cases hs : ∃ l ls, t = .stack (l :: ls)
    · obtain ⟨l, ls, rfl⟩ := hs
      cases ls with
      | nil =>
        rw [hone hg]
        have hl := Layered.layer (i := 0) hg (by simp : [l][0]? = some l)
        have h3 := wfDefs_lookup hgr ((resolveStacks_iff hw.2 hw.fresh hr).2 hl)
        simpa [layer_zero] using h3
      | cons l' ls =>
        rw [hstack hg (by simp)]
        have hall : ∀ u ∈ (List.range ((l' :: ls).length + 1)).map (fun j => val (layer k j)), u.hardOrRule = true ∧ u.wf = true := by
          intro u hu
          obtain ⟨j, hj, rfl⟩ := List.mem_map.1 hu
          have hj : j < (l :: l' :: ls).length := by simpa using List.mem_range.1 hj
          have hL' : (l :: l' :: ls)[j]? = some (l :: l' :: ls)[j] := by simp
          have hf := flat_layer (nm := layer k (if j + 1 = (l :: l' :: ls).length then 0 else j + 1)) _ (hfl hg hL').1
          have h3 := wfDefs_lookup hgr ((resolveStacks_iff hw.2 hw.fresh hr).2 (.layer hg hL'))
          rw [hlayer hg hL', back_hardOrRule hf, (back_flat _ hf).2.1]
          refine ⟨?_, h3.2⟩
          have hd := h3.1
          revert hd hf
          cases Term.atTo _ (Term.uncut _) <;> intro hf hd <;> first | exact hd | simp [Term.flat] at hf
        constructor
        · simp only [Term.defOK, List.all_eq_true]
          exact fun u hu => (hall u hu).1
        · simp only [Term.wf]
          have : ∀ us : List Term, (∀ u ∈ us, u.wf = true) → wfList us = true := by
            intro us
            induction us with
            | nil => intro _; rfl
            | cons u us ih => intro hu; simp [wfList, hu u (by simp), ih fun v hv => hu v (by simp [hv])]
          exact this _ fun u hu => (hall u hu).2
    · have hs' : ∀ l ls, t ≠ .stack (l :: ls) := fun l ls e => hs ⟨l, ls, e⟩
      obtain ⟨h3, h4⟩ := hplain hg hs'
      have h5 := wfDefs_lookup hgr ((resolveStacks_iff hw.2 hw.fresh hr).2 (.plain hg hs'))
      rw [h3, ← h4.defOK, ← h4.wf]
      exact h5

end Wbnf

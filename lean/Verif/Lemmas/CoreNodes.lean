import Verif.Lemmas.CoreViews
import Verif.Lemmas.Convertible

/-!
# What the views of atoms, quantifiers and statements of a parsed source return
-/

namespace Wbnf.Core

set_option linter.unusedSimpArgs false

variable {n : Nat} {t : Term} {ps : List (Str × Ast)} {ws : List Str} {b : Branch} {a : Ast} {k r : Str}

/-- Compute the parts under a name. -/
local macro "names" : tactic => `(tactic| simp (decide := true) [partsNamed_append, partsNamed_cons, partsNamed_nil, partsNamed_map])

theorem pred_of_succ {N m : Nat} (h : N + 1 ≤ m) : ∃ m', m = m' + 1 ∧ N ≤ m' := ⟨m - 1, by omega, by omega⟩

theorem atom_atMostOne (h : k ∈ [str "RE", str "STR", str "IDENT"]) : AtMostOne atom k := by
  refine (atMostOne_iff (c := k) (d := k) ?_ (deep_of_deepB (fun _ => converts_of_convertsB) _ (by decide +kernel))).2 ?_
  · have : ∀ k ∈ [str "RE", str "STR", str "IDENT"], ∀ q ∈ atom.partNames, q.1 = k ↔ q.2 = k := by decide +kernel
    exact this k h
  · revert k
    decide +kernel

/-! ## Atoms -/

theorem one_sees (hg : Groups atom ps b) {x : Ast} {u : Term} {f : Str → AtomN} {key : String} {y : Str}
    (hk : str key ∈ [str "RE", str "STR", str "IDENT"]) (hp : partsNamed (str key) ps = [x]) (hx : Tok u x y) :
    ((Branch.one? b (str key)).bind Ast.text).map f = Option.some (f y) := by
  rw [hg.one (atom_atMostOne hk) ?_ hp]
  · simp [hx.1]
  · revert hk
    generalize str key = k
    revert k
    decide

/-- The first name an atom has. -/
theorem which_of (hg : Groups t ps b) {ks : List Str} :
    Branch.which b ks = (ks.find? fun k => !(partsNamed k ps).isEmpty).getD [] := by
  induction ks with
  | nil => rfl
  | cons k ks ih =>
    rw [Branch.which, hg.hasName k, List.find?_cons]
    cases e : (partsNamed k ps).isEmpty <;> simp [ih]

theorem ref_sees (h : Lt n (rule "REF") ps ws) : ∃ b', ps = [(str "REF", .branch b')] ∧
    ∃ i d, (Ast.branch b').nameText "IDENT" = Option.some i ∧ Token ident i ∧ (Ast.branch b').optText "default" = Option.some d ∧
      (∀ z, d = Option.some z → Token strLit z) ∧ SpellsAtom (.ref i d) ws := by
  obtain ⟨b, q, rfl, h, hg⟩ := PartsLt.rule (t := ref) (by decide +kernel) h
  obtain ⟨p1, q, w1, v, rfl, rfl, h1, p2, q, w2, v, rfl, rfl, h2, p3, q, w3, v, rfl, rfl, h3, rfl, rfl⟩ := PartsLt.seq' h
  obtain ⟨x1, rfl, rfl, _⟩ := lt_lit h1.cut
  obtain ⟨x2, i, rfl, rfl, hx2⟩ := lt_ident h2
  rcases PartsLt.opt' h3 with ⟨rfl, rfl⟩ | h3
  · have hi := nameText_cons (m := "IDENT") (x := x2) (xs := []) hg (by names) hx2
    have hd := optText_none (m := "default") hg (by names)
    exact ⟨b, rfl, i, none, hi, hx2.2, hd, by simp, .ref⟩
  · obtain ⟨p1, q, w1, v, rfl, rfl, h1, p2, q, w2, v, rfl, rfl, h2, rfl, rfl⟩ := PartsLt.seq' h3
    obtain ⟨x3, rfl, rfl, _⟩ := lt_lit h1
    obtain ⟨x4, d, rfl, rfl, hx4⟩ := lt_eq h2 (by decide) fun _ => lt_str
    have hi := nameText_cons (m := "IDENT") (x := x2) (xs := []) hg (by names) hx2
    have hd := optText_some (m := "default") (x := x4) hg (by names) hx4
    exact ⟨b, rfl, i, Option.some d, hi, hx2.2, hd, by simpa using hx4.2, .default⟩

/-- The parts of a list of arguments that may be missing. -/
theorem args_tail {α : Type} {view : Nat → Ast → Option α} {Q : α → List Str → Prop} {T : List α → List Str → Prop} {t : Term} {key : Str}
    (ht : ∀ p w, Lt n t p w → ∃ a, p = [(key, a)] ∧ Sees view (fun x => Q x w) a) (hkey : key ≠ []) (hn : T [] [])
    (skip : ∀ {xs ws}, T xs ws → T xs (str "," :: ws)) (cons : ∀ {x xs w ws}, Q x w → T xs ws → T (x :: xs) (str "," :: w ++ ws))
    (h : PartsLtTail LeafRead allRules n false (opt t) (s ",") ps ws) :
    ∃ xs, SeesAll view key ps xs ∧ T xs ws ∧ ∀ j, j ≠ key → j ≠ [] → partsNamed j ps = [] := by
  induction h with
  | nil => exact ⟨[], .nil rfl, hn, fun _ _ _ => rfl⟩
  | cons h1 h2 _ ih =>
    obtain ⟨x, rfl, rfl, hx⟩ := lt_lit h1
    obtain ⟨xs, h3, h4, h5⟩ := ih
    have h6 : SeesAll view key [([], x)] [] := .nil (partsNamed_other _ (Ne.symm hkey))
    rcases PartsLt.opt' h2 with ⟨rfl, rfl⟩ | h2
    · refine ⟨xs, by simpa using h6.append h3, by simpa using skip h4, fun j hj h0 => ?_⟩
      rw [List.append_nil, partsNamed_append, partsNamed_other _ (Ne.symm h0), h5 j hj h0]
      rfl
    · obtain ⟨a, rfl, N, y, h7, h8⟩ := ht _ _ h2
      refine ⟨y :: xs, ?_, by simpa using cons h8 h4, fun j hj h0 => ?_⟩
      · exact (h6.append (SeesAll.one (ps := [(key, a)]) (by simp [partsNamed_one]) h7)).append h3
      · rw [partsNamed_append, partsNamed_append, partsNamed_other _ (Ne.symm h0), partsNamed_other _ (Ne.symm hj), h5 j hj h0]
        rfl
  | trail h => cases h

/-- The parts of a list of arguments, each of which may be missing. -/
theorem args_list {α : Type} {view : Nat → Ast → Option α} {Q : α → List Str → Prop} {T : List α → List Str → Prop} {t : Term} {key : Str}
    (ht : ∀ p w, Lt n t p w → ∃ a, p = [(key, a)] ∧ Sees view (fun x => Q x w) a) (hkey : key ≠ []) (hn : T [] [])
    (skip : ∀ {xs ws}, T xs ws → T xs (str "," :: ws)) (cons : ∀ {x xs w ws}, Q x w → T xs ws → T (x :: xs) (str "," :: w ++ ws))
    (h : Lt n (.delim (opt t) (s ",") 0 false false) ps ws) :
    ∃ (x : Option α) (w : List Str) (xs : List α) (ws' : List Str), SeesAll view key ps (x.toList ++ xs) ∧
      (x = none ∧ w = [] ∨ ∃ y, x = Option.some y ∧ Q y w) ∧ T xs ws' ∧ ws = w ++ ws' ∧ ∀ j, j ≠ key → j ≠ [] → partsNamed j ps = [] := by
  obtain ⟨pre, u, p, w, post, ws', rfl, rfl, hp, hpost, hpre⟩ := h.delim'
  obtain ⟨xs, h3, h4, h5⟩ := args_tail ht hkey hn skip cons hpost
  rcases hpre with ⟨rfl, rfl⟩ | ⟨h, _⟩
  · rcases PartsLt.opt' hp with ⟨rfl, rfl⟩ | hp
    · exact ⟨none, [], xs, ws', by simpa using h3, .inl ⟨rfl, rfl⟩, h4, by simp, by simpa using h5⟩
    · obtain ⟨a, rfl, N, y, h7, h8⟩ := ht _ _ hp
      refine ⟨Option.some y, w, xs, ws', ?_, .inr ⟨y, rfl, h8⟩, h4, by simp, fun j hj h0 => ?_⟩
      · exact (SeesAll.one (ps := [(key, a)]) (by simp [partsNamed_one]) h7).append h3
      · rw [List.nil_append, partsNamed_append, partsNamed_other _ (Ne.symm hj), h5 j hj h0]
        rfl
  · cases h

theorem macrocall_sees (ih : Good n) (h : Lt n (rule "macrocall") ps ws) : ∃ b', ps = [(str "macrocall", .branch b')] ∧
    ∃ i N ts, (Ast.branch b').nameText "name" = Option.some i ∧ Token ident i ∧
      (∀ m, N ≤ m → mapO (viewTerm m) ((Ast.branch b').all (str "term")) = Option.some ts) ∧ lexedTerms ts ∧ SpellsAtom (.macrocall i ts) ws := by
  obtain ⟨b, q, rfl, h, hg⟩ := PartsLt.rule (t := macrocall) (by decide +kernel) h
  obtain ⟨p1, q, w1, v, rfl, rfl, h1, p2, q, w2, v, rfl, rfl, h2, p3, q, w3, v, rfl, rfl, h3, p4, q, w4, v, rfl, rfl, h4,
    p5, q, w5, v, rfl, rfl, h5, rfl, rfl⟩ := PartsLt.seq' h
  obtain ⟨x1, rfl, rfl, _⟩ := lt_lit h1.cut
  obtain ⟨x2, i, rfl, rfl, hx2⟩ := lt_eq h2 (by decide) fun _ => lt_ident
  obtain ⟨x3, rfl, rfl, _⟩ := lt_lit h3
  obtain ⟨x5, rfl, rfl, _⟩ := lt_lit h5
  obtain ⟨u, w, ts, ws', ⟨N, h6⟩, h7, ⟨h8, h8'⟩, rfl, h9⟩ := args_list (view := viewTerm) (key := str "term")
    (Q := fun x w => x.Lexed ∧ SpellsTerm 0 x w) (T := fun xs ws => lexedTerms xs ∧ SpellsArgs xs ws)
    (fun p w hp => ih.rule0 hp) (by decide) ⟨trivial, .nil⟩ (fun h => ⟨h.1, .cons .missing h.2⟩)
    (fun h h' => ⟨⟨h.1, h'.1⟩, .cons (.given h.2) h'.2⟩) h4
  have hi := nameText_cons (m := "name") (x := x2) (xs := []) hg
    (by simp (decide := true) [partsNamed_append, partsNamed_cons, partsNamed_nil, h9]) hx2
  refine ⟨b, rfl, i, N, u.toList ++ ts, hi, hx2.2, fun m hm => ?_, ?_, ?_⟩
  · rw [groups_all hg]
    simpa (decide := true) [partsNamed_append, partsNamed_cons, partsNamed_nil] using h6 m hm
  · rcases h7 with ⟨rfl, rfl⟩ | ⟨y, rfl, hy, _⟩
    · exact h8
    · exact ⟨hy, h8⟩
  · have : SpellsArg u.toList w := by
      rcases h7 with ⟨rfl, rfl⟩ | ⟨y, rfl, _, hy⟩
      · exact .missing
      · exact .given hy
    simpa using SpellsAtom.macrocall (m := i) this h8'

theorem ext_sees (h : Lt n (eq "ExtRef" (.seq [.cut (s "%%"), rule "IDENT"])) ps ws) : ∃ b', ps = [(str "ExtRef", .branch b')] ∧
    ∃ i, (Ast.branch b').nameText "IDENT" = Option.some i ∧ Token ident i ∧ SpellsAtom (.ext i) ws := by
  obtain ⟨b, q, rfl, h, hg⟩ := PartsLt.named h
  obtain ⟨p1, q, w1, v, rfl, rfl, h1, p2, q, w2, v, rfl, rfl, h2, rfl, rfl⟩ := PartsLt.seq' h
  obtain ⟨x1, rfl, rfl, _⟩ := lt_lit h1.cut
  obtain ⟨x2, i, rfl, rfl, hx2⟩ := lt_ident h2
  have hi := nameText_cons (m := "IDENT") (x := x2) (xs := []) hg (by names) hx2
  exact ⟨b, rfl, i, hi, hx2.2, .ext⟩

theorem look_sees (ih : Good n) (h : Lt n (eq "lookahead" (rule "term")) ps ws) :
    ∃ a, ps = [(str "lookahead", a)] ∧ Sees viewTerm (fun x => x.Lexed ∧ ∃ y, x = .many [] [] [y] ∧ SpellsTerm 0 y ws) a := by
  obtain ⟨b, q, rfl, h, hg⟩ := PartsLt.named h
  obtain ⟨a, rfl, N, y, h1, h2, h3⟩ := ih.rule0 h
  obtain ⟨N, hN⟩ := sees_many (.term h1) (by simp) hg (opText_nil hg (by names))
  exact ⟨_, rfl, N, _, hN, ⟨by simp, .inl ⟨rfl, by simp⟩, trivial, h2, trivial⟩, y, rfl, h3⟩

/-- The names of the children of an atom. -/
def atomNames : List String := ["RE", "STR", "macrocall", "ExtRef", "IDENT", "REF", "lookahead", "term"]

theorem atom_which (hg : Groups t ps b) {key : String} (hk : key ∈ atomNames) (h : partsNamed (str key) ps ≠ [])
    (ho : ∀ j ∈ atomNames, j ≠ key → partsNamed (str j) ps = []) :
    Branch.which b (atomNames.map str) = str key ∧ (Ast.branch b).lacks (atomNames.filter fun j => str j ≠ str key) = true := by
  have inj : ∀ j ∈ atomNames, ∀ k ∈ atomNames, str j = str k → j = k := by decide
  constructor
  · rw [which_of hg]
    have : (atomNames.map str).find? (fun k => !(partsNamed k ps).isEmpty) = Option.some (str key) := by
      rw [List.find?_map]
      have : atomNames.find? ((fun k => !(partsNamed k ps).isEmpty) ∘ str) = Option.some key := by
        cases e : atomNames.find? ((fun k => !(partsNamed k ps).isEmpty) ∘ str) with
        | none => exact absurd (List.find?_eq_none.1 e key hk) (by simpa using h)
        | some j =>
          have h1 := List.mem_of_find?_eq_some e
          have h2 := List.find?_some e
          apply congrArg
          apply Classical.byContradiction
          intro hj
          simp [ho j h1 hj] at h2
      rw [this]; rfl
    rw [this]; rfl
  · rw [lacks_iff hg]
    intro j hj
    rw [List.mem_filter] at hj
    refine ho j hj.1 fun e => ?_
    simp [e] at hj

theorem atom_unit (hg : Groups t ps b) (ho : ∀ j ∈ atomNames, partsNamed (str j) ps = []) :
    Branch.which b (atomNames.map str) = [] ∧ (Ast.branch b).lacks (atomNames.filter fun j => str j ≠ []) = true := by
  constructor
  · rw [which_of hg]
    have : (atomNames.map str).find? (fun k => !(partsNamed k ps).isEmpty) = none := by
      rw [List.find?_eq_none]
      intro k hk
      obtain ⟨j, hj, rfl⟩ := List.mem_map.1 hk
      simp [ho j hj]
    rw [this]; rfl
  · rw [lacks_iff hg]
    intro j hj
    exact ho j (List.mem_filter.1 hj).1

theorem viewAtom_of {x : Str} {m : Nat} (w : Branch.which b (atomNames.map str) = x)
    (l : (Ast.branch b).lacks (atomNames.filter fun j => str j ≠ x) = true) :
    viewAtom (m + 1) (.branch b) =
      if x = str "RE" then ((Branch.one? b x).bind Ast.text).map .re
      else if x = str "STR" then ((Branch.one? b x).bind Ast.text).map .str
      else if x = str "IDENT" then ((Branch.one? b x).bind Ast.text).map .ident
      else if x = str "macrocall" then
        ((Ast.branch b).first x).bind fun c =>
          (c.nameText "name").bind fun name => (mapO (viewTerm m) (c.all (str "term"))).map fun ts => .macrocall name ts
      else if x = str "ExtRef" then ((Ast.branch b).first x).bind fun c => (c.nameText "IDENT").map .ext
      else if x = str "REF" then
        ((Ast.branch b).first x).bind fun c =>
          (c.nameText "IDENT").bind fun i => (c.optText "default").map fun d => .ref i d
      else if x = str "lookahead" then (((Ast.branch b).first x).bind (viewTerm m)).map .look
      else if x = str "term" then (((Ast.branch b).first x).bind (viewTerm m)).map .term
      else Option.some .unit := by
  simp only [atomNames] at w l
  rw [viewAtom]
  simp only [w, l, if_true]

theorem atom_step (ih : Good n) (h : Lt n (rule "atom") ps ws) :
    ∃ a, ps = [(str "atom", a)] ∧ Sees viewAtom (fun x => x.Lexed ∧ SpellsAtom x ws) a := by
  obtain ⟨b, q, rfl, h, hg⟩ := PartsLt.rule (t := atom) (by decide +kernel) h
  obtain ⟨i, t, p, hi, rfl, h⟩ := PartsLt.oneof' h
  refine ⟨_, rfl, ?_⟩
  match i, hi with
  | 0, hi =>
    cases hi
    obtain ⟨x, y, rfl, rfl, hx⟩ := lt_ident h
    obtain ⟨w, l⟩ := atom_which hg (key := "IDENT") (by decide) (by names) (by names)
    have h1 := one_sees hg (key := "IDENT") (f := AtomN.ident) (by decide) (by names) hx
    refine ⟨1, .ident y, fun m hm => ?_, hx.2, .ident⟩
    obtain ⟨m, rfl, hm2⟩ := pred_of_succ hm
    rw [viewAtom_of w l]
    simp (decide := true) [h1]
  | 1, hi =>
    cases hi
    obtain ⟨x, y, rfl, rfl, hx⟩ := lt_str h
    obtain ⟨w, l⟩ := atom_which hg (key := "STR") (by decide) (by names) (by names)
    have h1 := one_sees hg (key := "STR") (f := AtomN.str) (by decide) (by names) hx
    refine ⟨1, .str y, fun m hm => ?_, hx.2, .str⟩
    obtain ⟨m, rfl, hm2⟩ := pred_of_succ hm
    rw [viewAtom_of w l]
    simp (decide := true) [h1]
  | 2, hi =>
    cases hi
    obtain ⟨x, y, rfl, rfl, hx⟩ := lt_regexp h
    obtain ⟨w, l⟩ := atom_which hg (key := "RE") (by decide) (by names) (by names)
    have h1 := one_sees hg (key := "RE") (f := AtomN.re) (by decide) (by names) hx
    refine ⟨1, .re y, fun m hm => ?_, hx.2, .re⟩
    obtain ⟨m, rfl, hm2⟩ := pred_of_succ hm
    rw [viewAtom_of w l]
    simp (decide := true) [h1]
  | 3, hi =>
    cases hi
    obtain ⟨x, rfl, j, N, ts, h1, h2, h3, h4, h5⟩ := macrocall_sees ih h
    obtain ⟨w, l⟩ := atom_which hg (key := "macrocall") (by decide) (by names) (by names)
    have hf : (Ast.branch b).first (str "macrocall") = Option.some (.branch x) := by rw [hg.first]; names
    refine ⟨N + 1, .macrocall j ts, fun m hm => ?_, ⟨h2, h4⟩, h5⟩
    obtain ⟨m, rfl, hm2⟩ := pred_of_succ hm
    rw [viewAtom_of w l]
    simp (decide := true) [hf, h1, h3 m hm2]
  | 4, hi =>
    cases hi
    obtain ⟨x, rfl, j, h1, h2, h3⟩ := ext_sees h
    obtain ⟨w, l⟩ := atom_which hg (key := "ExtRef") (by decide) (by names) (by names)
    have hf : (Ast.branch b).first (str "ExtRef") = Option.some (.branch x) := by rw [hg.first]; names
    refine ⟨1, .ext j, fun m hm => ?_, h2, h3⟩
    obtain ⟨m, rfl, hm2⟩ := pred_of_succ hm
    rw [viewAtom_of w l]
    simp (decide := true) [hf, h1]
  | 5, hi =>
    cases hi
    obtain ⟨x, rfl, j, d, h1, h2, h3, h4, h5⟩ := ref_sees h
    obtain ⟨w, l⟩ := atom_which hg (key := "REF") (by decide) (by names) (by names)
    have hf : (Ast.branch b).first (str "REF") = Option.some (.branch x) := by rw [hg.first]; names
    refine ⟨1, .ref j d, fun m hm => ?_, ⟨h2, h4⟩, h5⟩
    obtain ⟨m, rfl, hm2⟩ := pred_of_succ hm
    rw [viewAtom_of w l]
    simp (decide := true) [hf, h1, h3]
  | 6, hi =>
    cases hi
    obtain ⟨p1, q, w1, v, rfl, rfl, h1, p2, q, w2, v, rfl, rfl, h2, p3, q, w3, v, rfl, rfl, h3, rfl, rfl⟩ := PartsLt.seq' h
    obtain ⟨x1, rfl, rfl, _⟩ := lt_lit h1.cut
    obtain ⟨x2, rfl, N, u, h4, h5, y, rfl, h6⟩ := look_sees ih h2
    obtain ⟨x3, rfl, rfl, _⟩ := lt_lit h3
    obtain ⟨w, l⟩ := atom_which hg (key := "lookahead") (by decide) (by names) (by names)
    have hf : (Ast.branch b).first (str "lookahead") = Option.some x2 := by rw [hg.first]; names
    refine ⟨N + 1, .look (.many [] [] [y]), fun m hm => ?_, h5, .look h6⟩
    obtain ⟨m, rfl, hm2⟩ := pred_of_succ hm
    rw [viewAtom_of w l]
    simp (decide := true) [hf, h4 m hm2]
  | 7, hi =>
    cases hi
    obtain ⟨p1, q, w1, v, rfl, rfl, h1, p2, q, w2, v, rfl, rfl, h2, p3, q, w3, v, rfl, rfl, h3, rfl, rfl⟩ := PartsLt.seq' h
    obtain ⟨x1, rfl, rfl, _⟩ := lt_lit h1
    obtain ⟨x2, rfl, N, u, h4, h5, h6⟩ := ih.rule0 h2
    obtain ⟨x3, rfl, rfl, _⟩ := lt_lit h3
    obtain ⟨w, l⟩ := atom_which hg (key := "term") (by decide) (by names) (by names)
    have hf : (Ast.branch b).first (str "term") = Option.some x2 := by rw [hg.first]; names
    refine ⟨N + 1, .term u, fun m hm => ?_, h5, .term h6⟩
    obtain ⟨m, rfl, hm2⟩ := pred_of_succ hm
    rw [viewAtom_of w l]
    simp (decide := true) [hf, h4 m hm2]
  | 8, hi =>
    cases hi
    obtain ⟨p1, q, w1, v, rfl, rfl, h1, p2, q, w2, v, rfl, rfl, h2, rfl, rfl⟩ := PartsLt.seq' h
    obtain ⟨x1, rfl, rfl, _⟩ := lt_lit h1
    obtain ⟨x2, rfl, rfl, _⟩ := lt_lit h2
    obtain ⟨w, l⟩ := atom_unit hg (by names)
    refine ⟨1, .unit, fun m hm => ?_, trivial, .unit⟩
    obtain ⟨m, rfl, hm2⟩ := pred_of_succ hm
    rw [viewAtom_of w l]
    simp (decide := true) []
  | i + 9, hi => simp at hi

/-! ## Named atoms and quantifiers -/

theorem named_step (ih : Good n) (h : Lt (n + 1) (rule "named") ps ws) :
    ∃ a, ps = [(str "named", a)] ∧ Sees viewNamed (fun x => x.Lexed ∧ SpellsNamed x ws) a := by
  obtain ⟨b, q, rfl, h, hg⟩ := PartsLt.rule (t := named) (by decide +kernel) h
  obtain ⟨p1, q, w1, v, rfl, rfl, h1, p2, q, w2, v, rfl, rfl, h2, rfl, rfl⟩ := PartsLt.seq h
  obtain ⟨x, rfl, N, y, h3, h4, h5⟩ := atom_step ih h2
  rcases PartsLt.opt' h1 with ⟨rfl, rfl⟩ | h0
  · have hi := optText_none (m := "IDENT") hg (by names)
    refine ⟨_, rfl, N + 1, .mk none y, fun m hm => ?_, ⟨by simp, h4⟩, by simpa using SpellsNamed.plain h5⟩
    obtain ⟨m, rfl, hm2⟩ := pred_of_succ hm
    have hf : (Ast.branch b).first (str "atom") = Option.some x := by rw [hg.first]; names
    simp [viewNamed, hi, hf, h3 m hm2]
  · obtain ⟨p1, q, w1, v, rfl, rfl, h6, p2, q, w2, v, rfl, rfl, h7, rfl, rfl⟩ := PartsLt.seq' h0
    obtain ⟨x1, i, rfl, rfl, hx1⟩ := lt_ident h6
    obtain ⟨x2, rfl, rfl, _⟩ := lt_opLit h7
    have hi := optText_some (m := "IDENT") (x := x1) hg (by names) hx1
    refine ⟨_, rfl, N + 1, .mk (Option.some i) y, fun m hm => ?_, ⟨by simpa using hx1.2, h4⟩, by simpa using SpellsNamed.named h5⟩
    obtain ⟨m, rfl, hm2⟩ := pred_of_succ hm
    have hf : (Ast.branch b).first (str "atom") = Option.some x := by rw [hg.first]; names
    simp [viewNamed, hi, hf, h3 m hm2]

theorem groups_choice {i : Nat} {p : List (Str × Ast)} (hg : Groups t ((choiceTag, .extra (.choice i)) :: p) b) :
    (Ast.branch b).choice = Option.some (i : Int) := by
  simp [Ast.choice, hg.first, partsNamed_cons]

/-- An optional part is there or not. -/
theorem opt_named {m : String} {P : Ast → Str → Prop} (h : Lt n (opt t) ps ws) (ht : ∀ p, Lt n t p ws → ∃ x y, p = [(str m, x)] ∧ ws = [y] ∧ P x y) :
    ps = [] ∧ ws = [] ∨ ∃ x y, ps = [(str m, x)] ∧ ws = [y] ∧ P x y := by
  rcases PartsLt.opt' h with h | h
  · exact .inl h
  · exact .inr (ht _ h)

theorem opt_comma (hg : Groups t ps b) {m : String} {p : List (Str × Ast)}
    (h : p = [] ∧ ws = [] ∨ ∃ x y, p = [(str m, x)] ∧ ws = [y] ∧ y = str "," ∧ OpTok (s ",") x y)
    (hp : partsNamed (str m) ps = partsNamed (str m) p) :
    ∃ y, (Ast.branch b).opText m = Option.some y ∧ ws = if decide (y ≠ []) then [str ","] else [] := by
  rcases h with ⟨rfl, rfl⟩ | ⟨x, y, rfl, rfl, rfl, hx⟩
  · exact ⟨_, opText_nil hg hp, rfl⟩
  · exact ⟨_, opText_cons hg (x := x) (xs := []) (by rw [hp]; simp [partsNamed_cons, partsNamed_nil]) hx, by decide⟩

theorem quant_step (ih : Good n) (h : Lt (n + 1) (rule "quant") ps ws) :
    ∃ a, ps = [(str "quant", a)] ∧ Sees viewQuant (fun x => x.Lexed ∧ SpellsQuant x ws) a := by
  obtain ⟨b, q, rfl, h, hg⟩ := PartsLt.rule (t := quant) (by decide +kernel) h
  obtain ⟨i, t, p, hi, rfl, h⟩ := PartsLt.oneof h
  have hc := groups_choice hg
  refine ⟨_, rfl, ?_⟩
  match i, hi with
  | 0, hi =>
    cases hi
    obtain ⟨x, y, rfl, rfl, hx⟩ := lt_op (u := re "[?*+]") h fun _ => lt_re (by decide +kernel)
    have h1 := opText_cons (m := "op") (x := x) (xs := []) hg (by names) hx
    refine ⟨1, .op y, fun m hm => ?_, hx.choose_spec.2.2, .op⟩
    obtain ⟨m, rfl, hm2⟩ := pred_of_succ hm
    have l : (Ast.branch b).lacks ["min", "max", "named", "opt_leading", "opt_trailing"] = true := by rw [lacks_iff hg]; names
    simp [viewQuant, hc, l, h1]
  | 1, hi =>
    cases hi
    obtain ⟨p1, q, w1, v, rfl, rfl, h1, p2, q, w2, v, rfl, rfl, h2, p3, q, w3, v, rfl, rfl, h3, p4, q, w4, v, rfl, rfl, h4,
      p5, q, w5, v, rfl, rfl, h5, rfl, rfl⟩ := PartsLt.seq' h
    obtain ⟨x1, rfl, rfl, _⟩ := lt_lit h1
    obtain ⟨x3, rfl, rfl, _⟩ := lt_lit h3
    obtain ⟨x5, rfl, rfl, _⟩ := lt_lit h5
    have h2 := opt_named h2 fun p hp => lt_eq (u := int) hp (by decide) fun _ => lt_int
    have h4 := opt_named h4 fun p hp => lt_eq (u := int) hp (by decide) fun _ => lt_int
    obtain ⟨lo, e2⟩ : ∃ lo : Option Str, w2 = lo.toList := by
      rcases h2 with ⟨_, rfl⟩ | ⟨_, y, _, rfl, _⟩
      · exact ⟨none, rfl⟩
      · exact ⟨Option.some y, rfl⟩
    obtain ⟨hi, e4⟩ : ∃ hi : Option Str, w4 = hi.toList := by
      rcases h4 with ⟨_, rfl⟩ | ⟨_, y, _, rfl, _⟩
      · exact ⟨none, rfl⟩
      · exact ⟨Option.some y, rfl⟩
    obtain ⟨h6, h7⟩ := optText_opt (m := "min") (u := int) (y := lo) hg (by
      rcases h2 with ⟨rfl, rfl⟩ | ⟨x2, y2, rfl, rfl, hx2⟩ <;> rcases h4 with ⟨rfl, rfl⟩ | ⟨x4, y4, rfl, rfl, hx4⟩
      · exact .inl ⟨by names, by simpa using e2.symm⟩
      · exact .inl ⟨by names, by simpa using e2.symm⟩
      · exact .inr ⟨x2, y2, by names, by simpa using e2.symm, hx2⟩
      · exact .inr ⟨x2, y2, by names, by simpa using e2.symm, hx2⟩)
    obtain ⟨h8, h9⟩ := optText_opt (m := "max") (u := int) (y := hi) hg (by
      rcases h2 with ⟨rfl, rfl⟩ | ⟨x2, y2, rfl, rfl, hx2⟩ <;> rcases h4 with ⟨rfl, rfl⟩ | ⟨x4, y4, rfl, rfl, hx4⟩
      · exact .inl ⟨by names, by simpa using e4.symm⟩
      · exact .inr ⟨x4, y4, by names, by simpa using e4.symm, hx4⟩
      · exact .inl ⟨by names, by simpa using e4.symm⟩
      · exact .inr ⟨x4, y4, by names, by simpa using e4.symm, hx4⟩)
    refine ⟨1, .range lo hi, fun m hm => ?_, ⟨h7, h9⟩, ?_⟩
    · obtain ⟨m, rfl, hm2⟩ := pred_of_succ hm
      have l : (Ast.branch b).lacks ["op", "named", "opt_leading", "opt_trailing"] = true := by
        rw [lacks_iff hg]
        rcases h2 with ⟨rfl, rfl⟩ | ⟨x2, y2, rfl, rfl, hx2⟩ <;> rcases h4 with ⟨rfl, rfl⟩ | ⟨x4, y4, rfl, rfl, hx4⟩ <;> names
      simp [viewQuant, hc, l, h6, h8]
    · rw [e2, e4]
      simpa using SpellsQuant.range (lo := lo) (hi := hi)
  | 2, hi =>
    cases hi
    obtain ⟨p1, q, w1, v, rfl, rfl, h1, p2, q, w2, v, rfl, rfl, h2, p3, q, w3, v, rfl, rfl, h3, p4, q, w4, v, rfl, rfl, h4,
      rfl, rfl⟩ := PartsLt.seq' h
    obtain ⟨x1, o, rfl, rfl, hx1⟩ := lt_op (u := re "<:|:>?") h1 fun _ => lt_re (by decide +kernel)
    obtain ⟨x3, rfl, N, y, h5, h6, h6'⟩ := ih.named _ _ h3
    have h2 := opt_named (m := "opt_leading") (P := fun x y => y = str "," ∧ OpTok (s ",") x y) h2 fun p hp => by
      obtain ⟨x, h1, h2, h3⟩ := lt_opLit hp
      exact ⟨x, _, h1, h2, rfl, h3⟩
    have h4 := opt_named (m := "opt_trailing") (P := fun x y => y = str "," ∧ OpTok (s ",") x y) h4 fun p hp => by
      obtain ⟨x, h1, h2, h3⟩ := lt_opLit hp
      exact ⟨x, _, h1, h2, rfl, h3⟩
    have h7 := opText_cons (m := "op") (x := x1) (xs := []) hg (by
      rcases h2 with ⟨rfl, rfl⟩ | ⟨x2, y2, rfl, rfl, hx2⟩ <;> rcases h4 with ⟨rfl, rfl⟩ | ⟨x4, y4, rfl, rfl, hx4⟩ <;> names) hx1
    obtain ⟨ld, h9, e2⟩ := opt_comma hg h2 (by
      rcases h2 with ⟨rfl, rfl⟩ | ⟨x2, y2, rfl, rfl, hx2⟩ <;> rcases h4 with ⟨rfl, rfl⟩ | ⟨x4, y4, rfl, rfl, hx4⟩ <;> names)
    obtain ⟨tr, h10, e4⟩ := opt_comma hg h4 (by
      rcases h2 with ⟨rfl, rfl⟩ | ⟨x2, y2, rfl, rfl, hx2⟩ <;> rcases h4 with ⟨rfl, rfl⟩ | ⟨x4, y4, rfl, rfl, hx4⟩ <;> names)
    refine ⟨N + 1, .sep o (ld ≠ []) (tr ≠ []) y, fun m hm => ?_, ⟨hx1.choose_spec.2.2, h6⟩, ?_⟩
    · obtain ⟨m, rfl, hm2⟩ := pred_of_succ hm
      have l : (Ast.branch b).lacks ["min", "max"] = true := by
        rw [lacks_iff hg]
        rcases h2 with ⟨rfl, rfl⟩ | ⟨x2, y2, rfl, rfl, hx2⟩ <;> rcases h4 with ⟨rfl, rfl⟩ | ⟨x4, y4, rfl, rfl, hx4⟩ <;> names
      have hf : (Ast.branch b).first (str "named") = Option.some x3 := by
        rw [hg.first]
        rcases h2 with ⟨rfl, rfl⟩ | ⟨x2, y2, rfl, rfl, hx2⟩ <;> rcases h4 with ⟨rfl, rfl⟩ | ⟨x4, y4, rfl, rfl, hx4⟩ <;> names
      simp [viewQuant, hc, l, h7, h9, h10, hf, h5 m hm2]
    · rw [e2, e4]
      simpa [List.append_assoc] using SpellsQuant.sep (o := o) (lead := decide (ld ≠ [])) (trail := decide (tr ≠ [])) h6'
  | i + 3, hi => simp at hi

/-! ## Statements -/

/-- What a part of a path is. -/
def PathText (x : Str) : Prop := x = str "/" ∨ x = str "." ∨ x = str ".." ∨ Token (re "[a-zA-Z0-9.:]+") x

def pathItem : Term := .oneof [.cut (s ".."), .cut (s "."), re "[a-zA-Z0-9.:]+"]

theorem token_path {x : Str} (h : Token (re "[a-zA-Z0-9.:]+") x) : x ≠ str "/" := by
  rintro rfl
  generalize ht : re "[a-zA-Z0-9.:]+" = u at h
  generalize hx : str "/" = x at h
  cases h with
  | path h1 h2 => subst hx; exact absurd (h2 47 (by decide)) (by decide)
  | lit => cases ht
  | _ => exact absurd ht (by decide +kernel)

theorem path_item (h : Lt n pathItem ps ws) : SeesAll (fun _ => Ast.text) [] ps ws ∧ ∃ y, ws = [y] ∧ y ≠ str "/" ∧ PathText y := by
  obtain ⟨i, t, p, hi, rfl, h⟩ := PartsLt.oneof' h
  match i, hi with
  | 0, hi =>
    cases hi
    obtain ⟨x, rfl, rfl, hx⟩ := lt_lit h.cut
    exact ⟨⟨0, fun m _ => by simp (decide := true) [partsNamed_cons, partsNamed_nil, mapO, hx.1]⟩, _, rfl, by decide, .inr (.inr (.inl rfl))⟩
  | 1, hi =>
    cases hi
    obtain ⟨x, rfl, rfl, hx⟩ := lt_lit h.cut
    exact ⟨⟨0, fun m _ => by simp (decide := true) [partsNamed_cons, partsNamed_nil, mapO, hx.1]⟩, _, rfl, by decide, .inr (.inl rfl)⟩
  | 2, hi =>
    cases hi
    obtain ⟨x, y, rfl, rfl, hx⟩ := lt_re (by decide +kernel) h
    exact ⟨⟨0, fun m _ => by simp (decide := true) [partsNamed_cons, partsNamed_nil, mapO, hx.1]⟩, _, rfl, token_path hx.2, .inr (.inr (.inr hx.2))⟩
  | i + 3, hi => simp at hi

theorem path_slash (h : Lt n (s "/") ps ws) : SeesAll (fun _ => Ast.text) [] ps ws ∧ ws = [str "/"] := by
  obtain ⟨x, rfl, rfl, hx⟩ := lt_lit h
  exact ⟨⟨0, fun m _ => by simp (decide := true) [partsNamed_cons, partsNamed_nil, mapO, hx.1]⟩, rfl⟩

theorem path_tail (h : PartsLtTail LeafRead allRules n false pathItem (s "/") ps ws) :
    SeesAll (fun _ => Ast.text) [] ps ws ∧ SpellsNames ws ∧ ∀ x ∈ ws, PathText x := by
  induction h with
  | nil => exact ⟨.nil rfl, .nil, by simp⟩
  | cons h1 h2 _ ih =>
    obtain ⟨h3, rfl⟩ := path_slash h1
    obtain ⟨h4, y, rfl, h5, h6⟩ := path_item h2
    refine ⟨(h3.append h4).append ih.1, by simpa using SpellsNames.cons h5 ih.2.1, ?_⟩
    have := ih.2.2
    simp only [List.cons_append, List.nil_append, List.mem_cons]
    rintro x (rfl | rfl | hx)
    · exact .inl rfl
    · exact h6
    · exact this x hx
  | trail h => cases h

theorem path_sees (h : Lt n (eq "path" (.delim pathItem (s "/") 0 true false)) ps ws) : ∃ a, ps = [(str "path", a)] ∧
    mapO Ast.text (a.all []) = Option.some ws ∧ SpellsPath ws ∧ ∀ x ∈ ws, PathText x := by
  obtain ⟨b, q, rfl, h, hg⟩ := PartsLt.named h
  obtain ⟨pre, u, p, w, post, ws', rfl, rfl, hp, hpost, hpre⟩ := h.delim'
  refine ⟨_, rfl, ?_⟩
  rw [groups_all hg]
  obtain ⟨h1, y, rfl, h2, h3⟩ := path_item hp
  obtain ⟨h4, h5, h6⟩ := path_tail hpost
  rcases hpre with ⟨rfl, rfl⟩ | ⟨_, x, q, rfl, hq⟩
  · obtain ⟨N, h⟩ := h1.append h4
    exact ⟨h N (Nat.le_refl _), .relative h2 h5, by simpa using ⟨h3, h6⟩⟩
  · obtain ⟨h7, rfl⟩ := path_slash hq
    obtain ⟨N, h⟩ := (h7.append h1).append h4
    refine ⟨?_, .rooted h2 h5, ?_⟩
    · rw [List.cons_append, List.cons_append, partsNamed_cons, if_neg (by decide)]
      exact h N (Nat.le_refl _)
    · simp only [List.cons_append, List.nil_append, List.mem_cons]
      rintro x (rfl | rfl | hx)
      · exact .inl rfl
      · exact h3
      · exact h6 x hx

theorem semi_parts (h : Lt n (opt (.cut (s ";"))) ps ws) : (ps = [] ∨ ∃ x, ps = [([], x)]) ∧ SpellsEnd ws := by
  rcases PartsLt.opt' h with ⟨rfl, rfl⟩ | h
  · exact ⟨.inl rfl, .inl rfl⟩
  · obtain ⟨x, rfl, rfl, _⟩ := lt_lit h.cut
    exact ⟨.inr ⟨x, rfl⟩, .inr rfl⟩

theorem import_sees (h : Lt n (rule "import") ps ws) : ∃ b', ps = [(str "import", .branch b')] ∧
    ∃ a xs, (Ast.branch b').first (str "path") = Option.some a ∧ mapO Ast.text (a.all []) = Option.some xs ∧ xs ≠ [] ∧ (∀ x ∈ xs, PathText x) ∧
      SpellsStmt (.imp xs) ws := by
  obtain ⟨b, q, rfl, h, hg⟩ := PartsLt.rule (t := «import») (by decide +kernel) h
  obtain ⟨p1, q, w1, v, rfl, rfl, h1, p2, q, w2, v, rfl, rfl, h2, p3, q, w3, v, rfl, rfl, h3, rfl, rfl⟩ := PartsLt.seq' h
  obtain ⟨x1, rfl, rfl, _⟩ := lt_lit h1.cut
  obtain ⟨a, rfl, h4, h5, h6⟩ := path_sees h2
  obtain ⟨h7, h8⟩ := semi_parts h3
  refine ⟨b, rfl, a, w2, ?_, h4, ?_, h6, by simpa using SpellsStmt.imp h5 h8⟩
  · rw [hg.first]
    rcases h7 with rfl | ⟨x, rfl⟩ <;> names
  · cases h5 <;> simp

theorem macrodef_sees (ih : Good n) (h : Lt n (rule "macrodef") ps ws) : ∃ b', ps = [(str "macrodef", .branch b')] ∧
    ∃ i as t, (Ast.branch b').nameText "name" = Option.some i ∧ Token ident i ∧
      mapO Ast.text ((Ast.branch b').all (str "args")) = Option.some as ∧ (∀ a ∈ as, Token ident a) ∧
      (Ast.branch b').first (str "term") = Option.some t ∧ Sees viewTerm (fun u => u.Lexed ∧ SpellsStmt (.macrodef i as u) ws) t := by
  obtain ⟨b, q, rfl, h, hg⟩ := PartsLt.rule (t := macrodef) (by decide +kernel) h
  obtain ⟨p1, q, w1, v, rfl, rfl, h1, p2, q, w2, v, rfl, rfl, h2, p3, q, w3, v, rfl, rfl, h3, p4, q, w4, v, rfl, rfl, h4,
    p5, q, w5, v, rfl, rfl, h5, p6, q, w6, v, rfl, rfl, h6, p7, q, w7, v, rfl, rfl, h7, p8, q, w8, v, rfl, rfl, h8,
    p9, q, w9, v, rfl, rfl, h9, rfl, rfl⟩ := PartsLt.seq' h
  obtain ⟨x1, rfl, rfl, _⟩ := lt_lit h1.cut
  obtain ⟨x2, i, rfl, rfl, hx2⟩ := lt_eq h2 (by decide) fun _ => lt_ident
  obtain ⟨x3, rfl, rfl, _⟩ := lt_lit h3
  obtain ⟨x5, rfl, rfl, _⟩ := lt_lit h5
  obtain ⟨x6, rfl, rfl, _⟩ := lt_lit h6
  obtain ⟨t, rfl, ht⟩ := ih.rule0 h7
  obtain ⟨x8, rfl, rfl, _⟩ := lt_lit h8
  obtain ⟨h10, h10'⟩ := semi_parts h9
  obtain ⟨u, w, as, ws', ⟨N, h11⟩, h12, ⟨h13, h13'⟩, rfl, h14⟩ := args_list (view := fun _ => Ast.text) (key := str "args")
    (Q := fun x w => w = [x] ∧ Token ident x) (T := fun xs ws => (∀ x ∈ xs, Token ident x) ∧ SpellsParams xs ws)
    (fun p w hp => by
      obtain ⟨x, y, h1, h2, h3⟩ := lt_eq (u := ident) hp (by decide) fun _ => lt_ident
      exact ⟨x, h1, 0, y, fun _ _ => h3.1, h2, h3.2⟩) (by decide) ⟨by simp, .nil⟩ (fun h => ⟨h.1, .skip h.2⟩)
    (fun h h' => by
      obtain ⟨rfl, h⟩ := h
      exact ⟨by simpa using ⟨h, h'.1⟩, .cons h'.2⟩) h4
  have hs : ∀ j, j ≠ [] → partsNamed j p9 = [] := by
    intro j hj
    rcases h10 with rfl | ⟨x, rfl⟩
    · rfl
    · exact partsNamed_other _ (Ne.symm hj)
  have hi := nameText_cons (m := "name") (x := x2) (xs := []) hg
    (by simp (decide := true) [partsNamed_append, partsNamed_cons, partsNamed_nil, h14, hs]) hx2
  refine ⟨b, rfl, i, u.toList ++ as, t, hi, hx2.2, ?_, ?_, ?_, ht.imp fun y hy => ⟨hy.1, ?_⟩⟩
  · rw [groups_all hg]
    simpa (decide := true) [partsNamed_append, partsNamed_cons, partsNamed_nil, hs] using h11 N (Nat.le_refl _)
  · rcases h12 with ⟨rfl, rfl⟩ | ⟨y, rfl, _, hy⟩
    · simpa using h13
    · simpa using ⟨hy, h13⟩
  · rw [hg.first]
    simp (decide := true) [partsNamed_append, partsNamed_cons, partsNamed_nil, hs, h14]
  · have e : w = u.toList := by
      rcases h12 with ⟨rfl, rfl⟩ | ⟨y, rfl, rfl, hy⟩ <;> rfl
    rw [e]
    simpa using SpellsStmt.macrodef (m := i) (first := u) h13' hy.2 h10'

theorem prod_sees (ih : Good n) (h : Lt n (rule "prod") ps ws) : ∃ b', ps = [(str "prod", .branch b')] ∧
    ∃ i N ts, (Ast.branch b').nameText "IDENT" = Option.some i ∧ Token ident i ∧ ts ≠ [] ∧
      (∀ m, N ≤ m → mapO (viewTerm m) ((Ast.branch b').all (str "term")) = Option.some ts) ∧ lexedTerms ts ∧ SpellsStmt (.prod i ts) ws := by
  obtain ⟨b, q, rfl, h, hg⟩ := PartsLt.rule (t := prod) (by decide +kernel) h
  obtain ⟨p1, q, w1, v, rfl, rfl, h1, p2, q, w2, v, rfl, rfl, h2, p3, q, w3, v, rfl, rfl, h3, p4, q, w4, v, rfl, rfl, h4, rfl, rfl⟩ := PartsLt.seq' h
  obtain ⟨x1, i, rfl, rfl, hx1⟩ := lt_ident h1
  obtain ⟨x2, rfl, rfl, _⟩ := lt_lit h2.cut
  obtain ⟨x4, rfl, rfl, _⟩ := lt_lit h4.cut
  obtain ⟨k, hk, _, h3⟩ := h3.quant'
  obtain ⟨as, ts, wss, rfl, ⟨N, h5⟩, h6, rfl, h7, h8⟩ := seesReps (view := viewTerm) (Q := fun x w => x.Lexed ∧ SpellsTerm 0 x w) (fun p w hp => ih.rule0 hp) h3
  obtain ⟨h9, h10⟩ := terms_of h7 h8
  have hts : ts ≠ [] := by
    rintro rfl
    simp at h6
    omega
  have hi := nameText_cons (m := "IDENT") (x := x1) (xs := []) hg (by names) hx1
  refine ⟨b, rfl, i, N, ts, hi, hx1.2, hts, fun m hm => ?_, h9, by simpa using SpellsStmt.prod (i := i) hts h10⟩
  rw [groups_all hg]
  simpa (decide := true) [partsNamed_append, partsNamed_cons, partsNamed_nil, partsNamed_map] using h5 m hm

theorem stmt_step (ih : Good n) (h : Lt (n + 1) (rule "stmt") ps ws) :
    ∃ a, ps = [(str "stmt", a)] ∧ Sees viewStmt (fun x => x.Lexed ∧ SpellsStmt x ws) a := by
  obtain ⟨b, q, rfl, h, hg⟩ := PartsLt.rule (t := stmt) (by decide +kernel) h
  obtain ⟨i, t, p, hi, rfl, h⟩ := PartsLt.oneof h
  refine ⟨_, rfl, ?_⟩
  match i, hi with
  | 0, hi =>
    cases hi
    obtain ⟨x, y, rfl, rfl, h1, h2⟩ := lt_comment h
    refine ⟨1, .comment y, fun m hm => ?_, h2, .comment⟩
    obtain ⟨m, rfl, hm2⟩ := pred_of_succ hm
    have f1 : (Ast.branch b).first (str "COMMENT") = Option.some x := by rw [hg.first]; names
    have f2 : (Ast.branch b).first (str "prod") = none := by rw [hg.first]; names
    have f3 : (Ast.branch b).first (str "pragma") = none := by rw [hg.first]; names
    simp [viewStmt, f1, f2, f3, h1]
  | 1, hi =>
    cases hi
    obtain ⟨x, rfl, i, N, ts, h1, h2, h3, h4, h5, h6⟩ := prod_sees ih h
    refine ⟨N + 1, .prod i ts, fun m hm => ?_, ⟨h2, h3, h5⟩, h6⟩
    obtain ⟨m, rfl, hm2⟩ := pred_of_succ hm
    have f1 : (Ast.branch b).first (str "COMMENT") = none := by rw [hg.first]; names
    have f2 : (Ast.branch b).first (str "prod") = Option.some (.branch x) := by rw [hg.first]; names
    have f3 : (Ast.branch b).first (str "pragma") = none := by rw [hg.first]; names
    simp [viewStmt, f1, f2, f3, h1, h4 m hm2]
  | 2, hi =>
    cases hi
    obtain ⟨c, q, rfl, h, hc⟩ := PartsLt.rule (t := pragma) (by decide +kernel) h
    obtain ⟨i, t, p, hi, rfl, h⟩ := PartsLt.oneof' h.scope
    have e : shownName (str "pragma") = str "pragma" := by decide +kernel
    rw [e] at hg
    have f1 : (Ast.branch b).first (str "COMMENT") = none := by rw [hg.first]; names
    have f2 : (Ast.branch b).first (str "prod") = none := by rw [hg.first]; names
    have f3 : (Ast.branch b).first (str "pragma") = Option.some (.branch c) := by rw [hg.first]; names
    match i, hi with
    | 0, hi =>
      cases hi
      obtain ⟨x, rfl, a, xs, h1, h2, h3, h4, h5⟩ := import_sees h
      refine ⟨1, .imp xs, fun m hm => ?_, ⟨h3, h4⟩, h5⟩
      obtain ⟨m, rfl, hm2⟩ := pred_of_succ hm
      have f4 : (Ast.branch c).first (str "import") = Option.some (.branch x) := by rw [hc.first]; names
      have f5 : (Ast.branch c).first (str "macrodef") = none := by rw [hc.first]; names
      simp [viewStmt, f1, f2, f3, f4, f5, h1, h2]
    | 1, hi =>
      cases hi
      obtain ⟨x, rfl, i, as, t, h1, h2, h3, h4, h5, N, u, h6, h7, h8⟩ := macrodef_sees ih h
      refine ⟨N + 1, .macrodef i as u, fun m hm => ?_, ⟨h2, h4, h7⟩, h8⟩
      obtain ⟨m, rfl, hm2⟩ := pred_of_succ hm
      have f4 : (Ast.branch c).first (str "import") = none := by rw [hc.first]; names
      have f5 : (Ast.branch c).first (str "macrodef") = Option.some (.branch x) := by rw [hc.first]; names
      simp [viewStmt, f1, f2, f3, f4, f5, h1, h3, h5, h6 m hm2]
    | i + 2, hi => simp at hi
  | i + 3, hi => simp at hi

theorem grammar_body (ih : Good n) (h : Lt (n + 1) (some (rule "stmt")) ps ws)
    (hg : ∀ a, (Ast.branch b).all (str "stmt") = a ↔ partsNamed (str "stmt") ps = a) :
    Sees viewGrammar (fun x => x.Lexed ∧ SpellsGrammar x ws) (.branch b) := by
  obtain ⟨k, hk, _, h⟩ := PartsLt.quant h
  obtain ⟨as, ss, wss, rfl, ⟨N, h5⟩, h6, rfl, h7, h8⟩ := seesReps (view := viewStmt) (Q := fun x w => x.Lexed ∧ SpellsStmt x w) ih.stmt h
  obtain ⟨h9, h10⟩ := stmts_of h7 h8
  have hts : ss ≠ [] := by
    rintro rfl
    simp at h6
    omega
  have ha := (hg _).2 rfl
  refine ⟨N + 1, .mk ss, fun m hm => ?_, ⟨hts, h9⟩, .mk hts h10⟩
  obtain ⟨m, rfl, hm2⟩ := pred_of_succ hm
  simp [viewGrammar, ha, h5 m hm2]

theorem grammar_step (ih : Good n) (h : Lt (n + 1) (rule "grammar") ps ws) :
    ∃ a, ps = [(str "grammar", a)] ∧ Sees viewGrammar (fun x => x.Lexed ∧ SpellsGrammar x ws) a := by
  obtain ⟨b, q, rfl, h, hg⟩ := PartsLt.rule (t := some (rule "stmt")) (by decide +kernel) h
  exact ⟨_, rfl, grammar_body ih h fun a => by rw [groups_all hg]⟩

theorem good : ∀ n, Good n
  | 0 => ⟨fun _ _ _ _ h => h.zero.elim, fun _ _ h => h.zero.elim, fun _ _ h => h.zero.elim, fun _ _ h => h.zero.elim, fun _ _ h => h.zero.elim⟩
  | n + 1 => by
    have ih := good n
    refine ⟨fun r hr ps ws h => ?_, fun _ _ h => named_step ih h, fun _ _ h => quant_step ih h, fun _ _ h => stmt_step ih h, fun _ _ h => grammar_step ih h⟩
    simp only [termRules, List.mem_cons, List.not_mem_nil, or_false] at hr
    rcases hr with rfl | rfl | rfl | rfl
    · exact term0_step ih h
    · exact term1_step ih h
    · exact term2_step ih h
    · exact term3_step ih h

/-- The node of a whole source. -/
theorem views {v : Tree} (h : PartsBy LeafRead allRules (some (rule "stmt")) v ps)
    (hg : Groups (some (rule "stmt")) ((ruleTag, .extra (.rule (str "grammar"))) :: ps) b) :
    Sees viewGrammar (fun x => x.Lexed ∧ SpellsGrammar x (wordsOf [v])) (.branch b) := by
  refine grammar_body (good (sizeOf v)) ⟨v, Nat.lt_succ_self _, h, rfl⟩ fun a => ?_
  rw [groups_all hg, partsNamed_cons, if_neg (by decide)]
  simp

end Wbnf.Core

import Verif.Lemmas.Import

/-!
# Which files are read, and when loading ends
-/

namespace Wbnf

variable {F : Files}

/-- The state of the compiler while the files `opens` are being loaded. -/
structure Loader.Tidy (F : Files) (opens : List Str) (c : Loader) : Prop where
  good : c.Good F
  once : c.reads.Nodup
  done : ∀ q ∈ c.reads, hasKey q c.imports = true ∨ q ∈ opens
  read : ∀ q, hasKey q c.imports = true → q ∈ c.reads
  closed : ∀ q g p, hasKey q c.imports = true → F.file q = some g → p ∈ g.imports → hasKey (F.target q p) c.imports = true

/-- What loading adds. -/
structure Loader.Adds (F : Files) (from_ : Str → Prop) (c c' : Loader) : Prop where
  keys : ∀ q, hasKey q c.imports = true → hasKey q c'.imports = true
  reads : ∀ q, q ∈ c.reads → q ∈ c'.reads
  new : ∀ q, q ∈ c'.reads → q ∈ c.reads ∨ ∃ a, from_ a ∧ (q = a ∨ F.Above a q)

structure LoadTidy (F : Files) (n : Nat) : Prop where
  file : ∀ {f c c' g opens}, c.Tidy F opens → (∀ o ∈ opens, F.Above o (F.clean f)) → loadGrammarFile F n f c = (c', .ok g) →
    c'.Tidy F opens ∧ hasKey (F.clean f) c'.imports = true ∧ c.Adds F (· = F.clean f) c'
  make : ∀ {f text c c' g g' opens}, c.Tidy F opens → F.parse text = some g → (∀ p ∈ g.imports, ∀ o ∈ opens, F.Above o (F.target f p)) →
    makeGrammar F n f text c = (c', .ok g') →
    c'.Tidy F opens ∧ (∀ p ∈ g.imports, hasKey (F.target f p) c'.imports = true) ∧ c.Adds F (fun a => ∃ p ∈ g.imports, a = F.target f p) c'

theorem imported_tidy {n : Nat} {f : Str} {opens : List Str} (ih : LoadTidy F n) : ∀ {is : List (List Str)} {s : LoadState},
    s.loader.Tidy F opens → (∀ p ∈ is, ∀ o ∈ opens, F.Above o (F.target f p)) →
    (is.foldl (importStep (F.path f) (loadGrammarFile F n)) s).err = none →
    (is.foldl (importStep (F.path f) (loadGrammarFile F n)) s).loader.Tidy F opens ∧
    (∀ p ∈ is, hasKey (F.target f p) (is.foldl (importStep (F.path f) (loadGrammarFile F n)) s).loader.imports = true) ∧
    s.loader.Adds F (fun a => ∃ p ∈ is, a = F.target f p) (is.foldl (importStep (F.path f) (loadGrammarFile F n)) s).loader
  | [], s, ht, _, _ => ⟨ht, by simp, ⟨fun _ h => h, fun _ h => h, fun _ h => .inl h⟩⟩
  | p :: is, s, ht, ha, h => by
    obtain ⟨-, c, g, h2, h3⟩ := imports_cons h
    rw [h3] at h ⊢
    obtain ⟨ht', hk, hadd⟩ := ih.file ht (fun o ho => ha p (.head _) o ho) h2
    obtain ⟨a, b, d⟩ := imported_tidy ih (s := ⟨c, mergeNodes s.node g, none⟩) ht' (fun p hp => ha p (.tail _ hp)) h
    refine ⟨a, fun q hq => ?_, ⟨fun q hq => d.keys q (hadd.keys q hq), fun q hq => d.reads q (hadd.reads q hq), fun q hq => ?_⟩⟩
    · rcases List.mem_cons.1 hq with rfl | hq
      · exact d.keys _ hk
      · exact b q hq
    · rcases d.new q hq with hq | ⟨e, ⟨p', hp', rfl⟩, he⟩
      · rcases hadd.new q hq with hq | ⟨e, rfl, he⟩
        · exact .inl hq
        · exact .inr ⟨_, ⟨p, .head _, rfl⟩, he⟩
      · exact .inr ⟨_, ⟨p', .tail _ hp', rfl⟩, he⟩

theorem load_tidy (F : Files) : ∀ n, LoadTidy F n
  | 0 => ⟨by simp [loadGrammarFile], by simp [makeGrammar]⟩
  | n + 1 => by
    have ih := load_tidy F n
    constructor
    · intro f c c' g opens ht ha h
      obtain ⟨hg', g0, hf, hi⟩ := (load_sound F (n + 1)).file ht.good h
      obtain ⟨m, hm, ⟨h1, rfl⟩ | ⟨h1, text, c1, h2, h3, rfl⟩⟩ := loadFile_ok h
      · exact ⟨ht, hasKey_iff.2 ⟨_, h1⟩, ⟨fun _ h => h, fun _ h => h, fun _ h => .inl h⟩⟩
      · cases hm
        have hnk : ¬ hasKey (F.clean f) c.imports = true := by simp [hasKey, h1]
        have hno : F.clean f ∉ opens := fun ho => ends_irrefl (includes_ends hi hf) (ha _ ho)
        have hnr : F.clean f ∉ c.reads := fun hr => (ht.done _ hr).elim hnk hno
        have hp : F.parse text = some g0 := by rw [Files.file, h2] at hf; exact hf
        have ht1 : Loader.Tidy F (F.clean f :: opens) { c with reads := c.reads ++ [F.clean f] } := by
          refine ⟨ht.good, ?_, ?_, fun q hq => List.mem_append.2 (.inl (ht.read q hq)), ht.closed⟩
          · exact List.nodup_append.2 ⟨ht.once, by simp, fun a ha b hb => by simp only [List.mem_singleton] at hb; subst hb; exact fun e => hnr (e ▸ ha)⟩
          · intro q hq
            rcases List.mem_append.1 hq with hq | hq
            · exact (ht.done q hq).imp id fun h => .tail _ h
            · exact .inr (List.mem_cons.2 (.inl (List.mem_singleton.1 hq)))
        obtain ⟨ht2, hk, hadd⟩ := ih.make ht1 hp (fun p hp' o ho => by
          rcases List.mem_cons.1 ho with rfl | ho
          · exact .one ⟨g0, p, hf, hp', rfl⟩
          · exact above_snoc (ha o ho) ⟨g0, p, hf, hp', rfl⟩) h3
        refine ⟨⟨hg', ht2.once, ?_, ?_, ?_⟩, hasKey_mapSet_iff.2 (.inl rfl), ⟨fun q hq => hasKey_mapSet_iff.2 (.inr (hadd.keys q hq)), fun q hq => ?_, fun q hq => ?_⟩⟩
        · intro q hq
          rcases ht2.done q hq with h | h
          · exact .inl (hasKey_mapSet_iff.2 (.inr h))
          · rcases List.mem_cons.1 h with rfl | h
            · exact .inl (hasKey_mapSet_iff.2 (.inl rfl))
            · exact .inr h
        · intro q hq
          rcases hasKey_mapSet_iff.1 hq with rfl | hq
          · exact hadd.reads _ (List.mem_append.2 (.inr (by simp)))
          · exact ht2.read q hq
        · intro q g' p hq hfq hp'
          rcases hasKey_mapSet_iff.1 hq with rfl | hq
          · cases hf.symm.trans hfq
            exact hasKey_mapSet_iff.2 (.inr (hk p hp'))
          · exact hasKey_mapSet_iff.2 (.inr (ht2.closed q g' p hq hfq hp'))
        · exact hadd.reads q (List.mem_append.2 (.inl hq))
        · rcases hadd.new q hq with h | ⟨e, ⟨p, hp', rfl⟩, he⟩
          · rcases List.mem_append.1 h with h | h
            · exact .inl h
            · exact .inr ⟨_, rfl, .inl (List.mem_singleton.1 h)⟩
          · refine .inr ⟨_, rfl, .inr ?_⟩
            rcases he with rfl | he
            · exact .one ⟨g0, p, hf, hp', rfl⟩
            · exact .more ⟨g0, p, hf, hp', rfl⟩ he
    · intro f text c c' g g' opens ht hp ha h
      obtain ⟨m, g0, hm, h1, h2, h3, h4⟩ := makeGrammar_ok h
      cases hm
      cases hp.symm.trans h1
      have := imported_tidy ih (s := ⟨c, g, none⟩) ht ha h2
      rw [← h3]
      exact this

/-! ## When loading ends -/

theorem exists_fuel {α : Type} {P : α → Nat → Prop} : ∀ {l : List α}, (∀ a ∈ l, ∃ N, ∀ n, N ≤ n → P a n) → ∃ N, ∀ n, N ≤ n → ∀ a ∈ l, P a n
  | [], _ => ⟨0, by simp⟩
  | a :: l, h => by
    obtain ⟨N, hN⟩ := h a (.head _)
    obtain ⟨M, hM⟩ := exists_fuel (l := l) fun b hb => h b (.tail _ hb)
    refine ⟨N + M, fun n hn b hb => ?_⟩
    rcases List.mem_cons.1 hb with rfl | hb
    · exact hN n (by omega)
    · exact hM n (by omega) b hb

theorem imports_not_oof {path : List Str → Str} {load : Str → Loader → Loader × Except LoadError GrammarN} :
    ∀ {is : List (List Str)} {s : LoadState}, s.err ≠ some .oof → (∀ p ∈ is, ∀ c, (load (path p) c).2 ≠ .error .oof) →
    (is.foldl (importStep path load) s).err ≠ some .oof
  | [], _, h, _ => h
  | p :: is, s, h, hl => by
    rw [List.foldl_cons]
    refine imports_not_oof (is := is) ?_ fun p hp => hl p (.tail _ hp)
    unfold importStep
    simp only [importOps]
    rw [if_neg h]
    have := hl p (.head _) s.loader
    rcases hc : load (path p) s.loader with ⟨c, r⟩
    rw [hc] at this
    cases r with
    | error e => simpa using this
    | ok g => exact h

theorem makeGrammar_ends {f : Str} {g : GrammarN} (h : ∃ N, ∀ n, N ≤ n → ∀ p ∈ g.imports, ∀ c, (loadGrammarFile F n (F.path f p) c).2 ≠ .error .oof) :
    ∃ N, ∀ n, N ≤ n → ∀ text c, F.parse text = some g → (makeGrammar F n f text c).2 ≠ .error .oof := by
  obtain ⟨N, hN⟩ := h
  refine ⟨N + 1, fun n hn text c ht => ?_⟩
  obtain ⟨m, rfl⟩ : ∃ m, n = m + 1 := ⟨n - 1, by omega⟩
  rw [makeGrammar_succ, ht]
  simp only
  have := imports_not_oof (is := g.imports) (s := ⟨c, g, none⟩) (by simp) (hN m (by omega))
  cases he : (imported F m f g c).err with
  | none => simp
  | some e =>
    have : (imported F m f g c).err ≠ some .oof := this
    rw [he] at this
    simpa using this

theorem loadFile_ends {q : Str} (h : F.Ends q) : ∃ N, ∀ n, N ≤ n → ∀ f, F.clean f = q → ∀ c, (loadGrammarFile F n f c).2 ≠ .error .oof := by
  unfold Files.Ends at h
  induction h with
  | intro q _ ih =>
    have hmake : ∃ N, ∀ n, N ≤ n → ∀ text c, F.read q = some text → (makeGrammar F n q text c).2 ≠ .error .oof := by
      cases hf : F.file q with
      | none =>
        refine ⟨1, fun n hn text c hr => ?_⟩
        obtain ⟨m, rfl⟩ : ∃ m, n = m + 1 := ⟨n - 1, by omega⟩
        unfold Files.file at hf
        rw [hr] at hf
        have hf : F.parse text = none := hf
        rw [makeGrammar_succ, hf]
        simp
      | some g =>
        obtain ⟨N, hN⟩ := makeGrammar_ends (F := F) (f := q) (g := g) (exists_fuel fun p hp => by
          obtain ⟨N, hN⟩ := ih (F.target q p) ⟨g, p, hf, hp, rfl⟩
          exact ⟨N, fun n hn c => hN n hn _ rfl c⟩)
        refine ⟨N, fun n hn text c hr => hN n hn text c ?_⟩
        unfold Files.file at hf
        rw [hr] at hf
        exact hf
    obtain ⟨N, hN⟩ := hmake
    refine ⟨N + 1, fun n hn f hf c => ?_⟩
    subst hf
    obtain ⟨m, rfl⟩ : ∃ m, n = m + 1 := ⟨n - 1, by omega⟩
    rw [loadGrammarFile]
    simp only
    cases hl : lookup (F.clean f) c.imports with
    | some g => simp
    | none =>
      simp only
      cases hr : F.read (F.clean f) with
      | none => simp
      | some text =>
        simp only
        have := hN m (by omega) text { c with reads := c.reads ++ [F.clean f] } hr
        rcases hm : makeGrammar F m (F.clean f) text { c with reads := c.reads ++ [F.clean f] } with ⟨c1, r⟩
        rw [hm] at this
        cases r with
        | error e => simpa using this
        | ok g => simp

/-- Following imports ends at all the files that are kept. -/
def Loader.AllEnd (F : Files) (c : Loader) : Prop := ∀ q, hasKey q c.imports = true → F.Ends q

structure LoadEnds (F : Files) (n : Nat) : Prop where
  file : ∀ {f c}, c.AllEnd F → (loadGrammarFile F n f c).2 ≠ .error .oof → (loadGrammarFile F n f c).1.AllEnd F ∧ F.Ends (F.clean f)
  make : ∀ {f text c}, c.AllEnd F → (makeGrammar F n f text c).2 ≠ .error .oof →
    (makeGrammar F n f text c).1.AllEnd F ∧ ∀ g, F.parse text = some g → ∀ p ∈ g.imports, F.Ends (F.target f p)

theorem imports_oof {path : List Str → Str} {load : Str → Loader → Loader × Except LoadError GrammarN} :
    ∀ {is : List (List Str)} {s : LoadState}, s.err = some .oof → (is.foldl (importStep path load) s).err = some .oof
  | [], _, h => h
  | p :: is, s, h => by
    rw [List.foldl_cons]
    refine imports_oof (is := is) ?_
    unfold importStep
    simp only [importOps]
    rw [if_pos h]
    exact h

theorem imported_ends {n : Nat} {f : Str} (ih : LoadEnds F n) : ∀ {is : List (List Str)} {s : LoadState}, s.loader.AllEnd F →
    (is.foldl (importStep (F.path f) (loadGrammarFile F n)) s).err ≠ some .oof →
    (is.foldl (importStep (F.path f) (loadGrammarFile F n)) s).loader.AllEnd F ∧ ∀ p ∈ is, F.Ends (F.target f p)
  | [], _, ha, _ => ⟨ha, by simp⟩
  | p :: is, s, ha, h => by
    rw [List.foldl_cons] at h ⊢
    have hs : s.err ≠ some .oof := by
      intro he
      refine h (imports_oof ?_)
      unfold importStep
      simp only [importOps]
      rw [if_pos he]
      exact he
    have hf := ih.file (f := F.path f p) ha
    have key : (importStep (F.path f) (loadGrammarFile F n) s p).loader.AllEnd F ∧ F.Ends (F.target f p) := by
      have hstep : (importStep (F.path f) (loadGrammarFile F n) s p).err ≠ some .oof := fun he => h (imports_oof he)
      unfold importStep at hstep ⊢
      simp only [importOps] at hstep ⊢
      rw [if_neg hs] at hstep ⊢
      rcases hc : loadGrammarFile F n (F.path f p) s.loader with ⟨c, r⟩
      rw [hc] at hstep hf
      cases r with
      | error e => exact hf (by simpa using hstep)
      | ok g => exact hf (by simp)
    obtain ⟨a, b⟩ := imported_ends ih key.1 h
    refine ⟨a, fun q hq => ?_⟩
    rcases List.mem_cons.1 hq with rfl | hq
    · exact key.2
    · exact b q hq

theorem load_ends (F : Files) : ∀ n, LoadEnds F n
  | 0 => ⟨by simp [loadGrammarFile], by simp [makeGrammar]⟩
  | n + 1 => by
    have ih := load_ends F n
    constructor
    · intro f c ha h
      rw [loadGrammarFile] at h ⊢
      simp only at h ⊢
      cases hl : lookup (F.clean f) c.imports with
      | some g => exact ⟨ha, ha _ (hasKey_iff.2 ⟨g, hl⟩)⟩
      | none =>
        rw [hl] at h
        simp only at h ⊢
        cases hr : F.read (F.clean f) with
        | none =>
          refine ⟨ha, ⟨_, ?_⟩⟩
          rintro b ⟨g, p, hf, _⟩
          rw [Files.file, hr] at hf
          simp at hf
        | some text =>
          rw [hr] at h
          simp only at h ⊢
          have hm := ih.make (f := F.clean f) (text := text) (c := { c with reads := c.reads ++ [F.clean f] }) ha
          rcases he : makeGrammar F n (F.clean f) text { c with reads := c.reads ++ [F.clean f] } with ⟨c1, r⟩
          rw [he] at h hm
          have hends : (∀ g, F.parse text = some g → ∀ p ∈ g.imports, F.Ends (F.target (F.clean f) p)) → F.Ends (F.clean f) := by
            intro hall
            refine ⟨_, ?_⟩
            rintro b ⟨g, p, hf, hp, rfl⟩
            rw [Files.file, hr] at hf
            exact hall g hf p hp
          cases r with
          | error e =>
            obtain ⟨a, b⟩ := hm (by simpa using h)
            exact ⟨a, hends b⟩
          | ok g =>
            obtain ⟨a, b⟩ := hm (by simp)
            refine ⟨?_, hends b⟩
            intro q hq
            rcases hasKey_mapSet_iff.1 hq with rfl | hq
            · exact hends b
            · exact a q hq
    · intro f text c ha h
      rw [makeGrammar_succ] at h ⊢
      cases hp : F.parse text with
      | none => exact ⟨ha, by simp⟩
      | some g =>
        rw [hp] at h
        simp only at h ⊢
        have key := imported_ends ih (f := f) (is := g.imports) (s := ⟨c, g, none⟩) ha
        cases he : (imported F n f g c).err with
        | none =>
          obtain ⟨a, b⟩ := key (by rw [show List.foldl _ _ _ = imported F n f g c from rfl, he]; simp)
          exact ⟨a, fun g' e => by cases e; exact b⟩
        | some e =>
          rw [he] at h
          obtain ⟨a, b⟩ := key (by rw [show List.foldl _ _ _ = imported F n f g c from rfl, he]; simpa using h)
          exact ⟨a, fun g' e => by cases e; exact b⟩

/-- If following imports ends and all files are there, there is something included. -/
theorem includes_exists {f : Str} {g : GrammarN} (hall : ∀ p ∈ g.imports, ∃ g' ss, F.file (F.target f p) = some g' ∧ F.Includes (F.target f p) g' ss) :
    ∃ ss, F.Includes f g ss := by
  suffices ∀ is : List (List Str), (∀ p ∈ is, ∃ g' ss, F.file (F.target f p) = some g' ∧ F.Includes (F.target f p) g' ss) →
      ∃ ps, F.IncludesAll f is ps by
    obtain ⟨ps, h⟩ := this _ hall
    exact ⟨_, .mk h⟩
  intro is
  induction is with
  | nil => exact fun _ => ⟨_, .nil⟩
  | cons p is ih =>
    intro h
    obtain ⟨g', ss, h1, h2⟩ := h p (.head _)
    obtain ⟨ps, h3⟩ := ih fun q hq => h q (.tail _ hq)
    exact ⟨_, .cons h1 h2 h3⟩

theorem includes_of_ends {q : Str} (h : F.Ends q) : (F.file q ≠ none) → (∀ b, F.Above q b → F.file b ≠ none) →
    ∃ g ss, F.file q = some g ∧ F.Includes q g ss := by
  unfold Files.Ends at h
  induction h with
  | intro q _ ih =>
    intro hq hb
    cases hf : F.file q with
    | none => exact absurd hf hq
    | some g =>
      obtain ⟨ss, h⟩ := includes_exists (F := F) (f := q) (g := g) fun p hp =>
        ih _ ⟨g, p, hf, hp, rfl⟩ (hb _ (.one ⟨g, p, hf, hp, rfl⟩)) fun b h => hb b (.more ⟨g, p, hf, hp, rfl⟩ h)
      exact ⟨g, ss, rfl, h⟩

end Wbnf

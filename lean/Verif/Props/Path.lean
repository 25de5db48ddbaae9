import Verif.Lemmas.PathWords
import Verif.Props.Import
import Verif.Props.Source

/-!
# C65: where imports are looked for
-/

namespace Wbnf

variable {E : Engine} {ρ : Nat → Nat} {read : Str → Option Str} {parse : Str → Option GrammarN} {first text src : Str} {p : List Str}
  {g g' : GrammarN} {c : Loader}

/-- **C65** The names under which files are read and kept are such that two names are the same exactly if both are absolute, or
both are not, and they lead to the same place from everywhere. -/
theorem C65_clean_iff {p q : Str} : cleanPath p = cleanPath q ↔ rooted p = rooted q ∧ ∀ cwd : Loc, cwd.Proper → cwd.go p = cwd.go q := by
  constructor
  · intro h
    refine ⟨by rw [← rooted_clean p, h, rooted_clean], fun cwd _ => ?_⟩
    rw [← go_clean, h, go_clean]
  · rintro ⟨hr, h⟩
    refine clean_of_kept hr (kept_unique (kept_kept p) (hr ▸ kept_kept q) fun l hl hl' => ?_)
    have key : ∀ q, rooted p = rooted q → (cleanOut q).reverse.foldl Loc.step l = l.go q := fun q hq => by
      rw [← elems_clean, ← go_clean, Loc.go, rooted_clean, ← hq]
      split
      · next h => rw [hl' h]
      · rfl
    rw [key p rfl, key q hr, h l hl]

/-- **C65** And the name leads to where the path leads to. -/
theorem C65_clean (cwd : Loc) (p : Str) : cwd.go (cleanPath p) = cwd.go p ∧ cleanPath (cleanPath p) = cleanPath p :=
  ⟨go_clean cwd p, C65_clean_iff.2 ⟨rooted_clean p, fun l _ => go_clean l p⟩⟩

/-- **C65** The path of an import, wherever in a source, is made of names and slashes. -/
theorem C65_words (hE : E.Sane) (h : Core.EngineOK E) (hr : Core.EngineReads E) (hs : Stands E ρ text g) : ∀ p ∈ g.imports, ImportPath p :=
  (hs.lexed hE h hr).imports

/-- **C65** The commands look for what the grammar imports in the directory that the file of the grammar is in, going on from there
along the path of the import. What is missing: this is not so for what imported files import (`C65_nested`, `C65_not_nested`). -/
theorem C65_import_partial (hf : NamesFile first) (hp : ImportPath p) (hr : p.head? ≠ some (str "/")) (cwd : Loc) :
    cwd.go ((cmdFiles read parse first).target [] p) = (cwd.go first).dir.follow p := by
  show cwd.go (cleanPath (resolvePath (dirPath first) [] (joinPath p))) = _
  rw [go_resolve (dir_ne _), if_pos rfl, onward_import hp, if_neg hr, go_dir hf]

/-- **C65** An import with a slash at the start is looked for there too, not at the root, and does not lead up from there. -/
theorem C65_import_slash (hf : NamesFile first) (hp : ImportPath p) (hr : p.head? = some (str "/")) (cwd : Loc) :
    cwd.go ((cmdFiles read parse first).target [] p) = Loc.follow [] p ++ (cwd.go first).dir := by
  show cwd.go (cleanPath (resolvePath (dirPath first) [] (joinPath p))) = _
  rw [go_resolve (dir_ne _), if_pos rfl, onward_import hp, if_pos hr, go_dir hf]

/-- **C65** If the grammar is read from the standard input, imports are looked for in the current directory. -/
theorem C65_import_stdin (hf : first = [] ∨ first = str "-") (hp : ImportPath p) (hr : p.head? ≠ some (str "/")) (cwd : Loc) :
    cwd.go ((cmdFiles read parse first).target [] p) = cwd.follow p := by
  show cwd.go (cleanPath (resolvePath (dirPath first) [] (joinPath p))) = _
  rw [go_resolve (dir_ne _), if_pos rfl, onward_import hp, if_neg hr]
  have : dirPath first = str "." := by rcases hf with rfl | rfl <;> decide
  rw [this]
  rfl

/-- **C65** Without a resolver imports are looked for in the current directory, or at the root, whichever file they are in. -/
theorem C65_no_resolver (hp : ImportPath p) (cwd : Loc) :
    cwd.go ((plainFiles read parse).target src p) = Loc.follow (if p.head? = some (str "/") then [] else cwd) p := by
  show cwd.go (cleanPath (joinPath p)) = _
  obtain ⟨hne, hw⟩ := hp
  cases p with
  | nil => exact (hne rfl).elim
  | cons x p =>
    have hx := import_word_ne (hw x (by simp))
    rw [go_clean, joinPath_cons hx, go_clean, Loc.go, rooted_slashed_cons hx, ← Loc.onward, onward_slashed _ (by simp), onwards_words hw]
    congr 1
    by_cases h : x = str "/"
    · subst h; rfl
    · rw [rooted_word ((hw x (by simp)).resolve_left h), if_neg (by simp), if_neg (by simpa using h)]

/-- **C65** What an imported file imports is looked for by going first to the directory of the grammar, then from there along the
whole path of the imported file, including its name, as if that were a directory, and then along the path of the import. -/
theorem C65_nested (hf : NamesFile first) (hp : ImportPath p) (hr : p.head? ≠ some (str "/")) (hs : src ≠ []) (hs' : rooted src = false) (cwd : Loc) :
    cwd.go ((cmdFiles read parse first).target src p) = ((cwd.go first).dir.go src).follow p := by
  show cwd.go (cleanPath (resolvePath (dirPath first) src (joinPath p))) = _
  rw [go_resolve (dir_ne _), if_neg hs, onward_import hp, if_neg hr, go_dir hf, onward_eq hs']

/-- What leads to a file does not lead to a directory: nothing that can be read is below something that can be read. -/
def FilesAreLeaves (read : Str → Option Str) (cwd : Loc) : Prop :=
  ∀ a b names, read a ≠ none → read b ≠ none → cwd.go b = names ++ cwd.go a → names = []

theorem includes_needs {F : Files} {f : Str} {p : List Str} : ∀ {g : GrammarN} {ss : List StmtN}, F.Includes f g ss → p ∈ g.imports →
    ∃ h ss', F.file (F.target f p) = some h ∧ F.Includes (F.target f p) h ss' := by
  intro g ss hi hp
  obtain ⟨ha⟩ := hi
  have : ∀ {is : List (List Str)} {ps : List StmtN}, F.IncludesAll f is ps → p ∈ is → ∃ h ss', F.file (F.target f p) = some h ∧ F.Includes (F.target f p) h ss' := by
    intro is
    induction is with
    | nil => intro _ _ h; cases h
    | cons q is ih =>
      intro ps h hm
      cases h with
      | cons h1 h2 h3 =>
        rcases List.mem_cons.1 hm with rfl | hm
        · exact ⟨_, _, h1, h2⟩
        · exact ih h3 hm
  exact this ha hp

theorem follow_down : ∀ {p : List Str} {l : Loc}, str ".." ∉ p → ∃ names, l.follow p = names ++ l ∧ ((∃ x ∈ p, ProperName x) → names ≠ [])
  | [], l, _ => ⟨[], rfl, by simp⟩
  | x :: p, l, h => by
    simp only [List.mem_cons, not_or] at h
    obtain ⟨names, h1, h2⟩ := follow_down (p := p) (l := if x = str "/" then l else l.step x) h.2
    have hf : l.follow (x :: p) = names ++ (if x = str "/" then l else l.step x) := h1
    by_cases hl : (if x = str "/" then l else l.step x) = l
    · refine ⟨names, by rw [hf, hl], ?_⟩
      rintro ⟨y, hy, hp⟩
      rcases List.mem_cons.1 hy with rfl | hy
      · exfalso
        rw [if_neg (fun e => hp.2.2.2 (by rw [e]; decide)), Loc.step, if_neg (by rw [not_or]; exact ⟨hp.1, hp.2.1⟩), if_neg hp.2.2.1] at hl
        have := congrArg List.length hl
        simp at this
      · exact h2 ⟨y, hy, hp⟩
    · have : (if x = str "/" then l else l.step x) = x :: l := by
        by_cases hx : x = str "/"
        · rw [if_pos hx] at hl; exact (hl rfl).elim
        · rw [if_neg hx] at hl ⊢
          rw [Loc.step] at hl ⊢
          by_cases h0 : x = [] ∨ x = str "."
          · rw [if_pos h0] at hl; exact (hl rfl).elim
          · rw [if_neg h0, if_neg (fun e => h.1 e.symm)]
      exact ⟨names ++ [x], by rw [hf, this]; simp, by simp⟩

/-- **C65** So, for a grammar in the current directory, loading fails if an imported file imports another by its name: the file
next to it, or in a directory next to it, is not found. -/
theorem C65_nested_fails {F : Files} {cwd : Loc} (hF : F = cmdFiles read parse first) (hfirst : ProperName first) (hl : FilesAreLeaves read cwd)
    (hp : parse text = some g) {q : List Str} (hq : q ∈ g.imports) {h : GrammarN} (hb : F.file (F.target [] q) = some h)
    (hpi : p ∈ h.imports) (hpw : ImportPath p) (hr : p.head? ≠ some (str "/")) (hup : str ".." ∉ p) (hx : ∃ x ∈ p, ProperName x) (n : Nat) (g' : GrammarN) :
    (makeGrammar F n [] text ⟨[], []⟩).2 ≠ .ok g' := by
  subst hF
  intro hm
  obtain ⟨g0, hp0, hi⟩ := C41_statements.1 ⟨n, (makeGrammar (cmdFiles read parse first) n [] text ⟨[], []⟩).1, by rw [grammarN_eta g', ← hm]⟩
  cases hp.symm.trans hp0
  obtain ⟨h', ss', h1, h2⟩ := includes_needs hi hq
  cases hb.symm.trans h1
  obtain ⟨h'', ss'', h3, -⟩ := includes_needs h2 hpi
  have hf : NamesFile first := ⟨[], first, rfl, hfirst, .inl rfl⟩
  have hdir : dirPath first = str "." := by
    have := dirPath_eq (pre := []) hfirst.2.2.2 (.inl rfl)
    rw [List.nil_append] at this
    rw [this]; decide
  have ht : rooted ((cmdFiles read parse first).target [] q) = false := by
    show rooted (cleanPath (resolvePath (dirPath first) [] (joinPath q))) = false
    rw [rooted_clean, rooted_resolve (dir_ne _), hdir]; rfl
  have e := C65_nested (read := read) (parse := parse) (src := (cmdFiles read parse first).target [] q) hf hpw hr
    (clean_ne _) ht cwd
  have hd : (cwd.go first).dir = cwd := by rw [← go_dir hf, hdir]; rfl
  rw [hd] at e
  obtain ⟨names, e1, e2⟩ := follow_down (p := p) (l := cwd.go ((cmdFiles read parse first).target [] q)) hup
  rw [e1] at e
  refine e2 hx (hl _ _ names ?_ ?_ e)
  · intro hn
    have : (cmdFiles read parse first).file ((cmdFiles read parse first).target [] q) = none := by
      show (read _).bind parse = none
      rw [hn]; rfl
    rw [this] at hb; cases hb
  · intro hn
    have : (cmdFiles read parse first).file ((cmdFiles read parse first).target ((cmdFiles read parse first).target [] q) p) = none := by
      show (read _).bind parse = none
      rw [hn]; rfl
    rw [this] at h3; cases h3

/-- **C65** With an absolute path to the grammar, no file is read twice, by whichever paths it is imported. -/
theorem C65_once {n : Nat} (hr : rooted first = true) (h : makeGrammar (cmdFiles read parse first) n [] text ⟨[], []⟩ = (c, .ok g')) (cwd : Loc) :
    (c.reads.map cwd.go).Nodup := by
  obtain ⟨hn, g, -, hm⟩ := C41_once h
  have key : ∀ q ∈ c.reads, rooted q = true ∧ cleanPath q = q := by
    intro q hq
    have : ∃ f p, q = (cmdFiles read parse first).target f p := by
      cases (hm q).1 hq with
      | direct _ => exact ⟨_, _, rfl⟩
      | indirect _ hi => obtain ⟨_, p, -, -, e⟩ := hi; exact ⟨_, p, e⟩
    obtain ⟨f, p, rfl⟩ := this
    refine ⟨?_, (C65_clean cwd _).2⟩
    show rooted (cleanPath (resolvePath (dirPath first) f (joinPath p))) = true
    rw [rooted_clean, rooted_resolve (dir_ne _), rooted_dir hr]
  rw [List.nodup_iff_pairwise_ne] at hn ⊢
  rw [List.pairwise_map]
  refine (List.Pairwise.and_mem.1 hn).imp fun {a b} hab e => hab.2.2 ?_
  obtain ⟨ha, ha'⟩ := key a hab.1
  obtain ⟨hb, hb'⟩ := key b hab.2.1
  rw [← ha', ← hb']
  refine C65_clean_iff.2 ⟨by rw [ha, hb], fun l _ => ?_⟩
  rw [go_rooted ha, go_rooted hb, ← go_rooted ha cwd, ← go_rooted hb cwd, e]

/-! ## Examples and violations -/

namespace Ex

def readFrom (m : List (Str × Str)) (q : Str) : Option Str := lookup q m
def parseAs (m : List (Str × GrammarN)) (x : Str) : Option GrammarN := lookup x m

/-- The file `a` imports `b.wbnf`, which imports `c.wbnf`, which has a rule. -/
def threeTexts : Str → Option GrammarN := parseAs [(str "a", .mk [im "b.wbnf"]), (str "b", .mk [im "c.wbnf"]), (str "c", .mk [def1 "r"])]
/-- The same, but `b.wbnf` imports `../c.wbnf`. -/
def threeTexts' : Str → Option GrammarN :=
  parseAs [(str "a", .mk [im "b.wbnf"]), (str "b", .mk [.imp [str "..", str "/", str "c.wbnf"]]), (str "c", .mk [def1 "r"])]
/-- They are in the directory `d`. -/
def threeFiles : Str → Option Str := readFrom [(str "d/b.wbnf", str "b"), (str "d/c.wbnf", str "c")]
/-- They are in the current directory. -/
def threeHere : Str → Option Str := readFrom [(str "b.wbnf", str "b"), (str "c.wbnf", str "c")]

end Ex

open Ex

/-- **C65** What an imported file imports is not looked for next to it: `d/a.wbnf` imports `b.wbnf`, which imports `c.wbnf`, and all are
in `d`, but loading fails. -/
theorem C65_not_nested : threeFiles (str "d/c.wbnf") = some (str "c") ∧
    (makeGrammar (cmdFiles threeFiles threeTexts (str "d/a.wbnf")) 9 [] (str "a") ⟨[], []⟩).2 = .error (.read (str "d/d/b.wbnf/c.wbnf")) :=
  ⟨by decide, by rfl⟩

/-- **C65** In the current directory it is found if it is imported with `..` before it. -/
theorem C65_nested_up : ∃ c, makeGrammar (cmdFiles threeHere threeTexts' (str "a.wbnf")) 9 [] (str "a") ⟨[], []⟩ =
    (c, .ok (.mk [im "b.wbnf", .imp [str "..", str "/", str "c.wbnf"], def1 "r"])) ∧ c.reads = [str "b.wbnf", str "c.wbnf"] :=
  ⟨_, rfl, rfl⟩

/-- **C65** With a relative path to the grammar the same file may be read twice: in a directory `x` the paths `b.wbnf` and
`../x/b.wbnf` lead to the same file. -/
theorem C65_twice : ∃ c g, makeGrammar (cmdFiles (fun q => if q = str "b.wbnf" ∨ q = str "../x/b.wbnf" then some (str "c") else none)
      (parseAs [(str "a", .mk [im "b.wbnf", .imp [str "..", str "/", str "x", str "/", str "b.wbnf"]]), (str "c", .mk [.comment (str "//")])])
      (str "a.wbnf")) 9 [] (str "a") ⟨[], []⟩ = (c, .ok g) ∧
    c.reads = [str "b.wbnf", str "../x/b.wbnf"] ∧ Loc.go [str "x"] (str "b.wbnf") = Loc.go [str "x"] (str "../x/b.wbnf") :=
  ⟨_, _, rfl, rfl, by decide⟩

/-- The hypotheses of `C65_import_partial` hold: `g/a.wbnf` imports `../x/b.wbnf`, from the directory `w`. -/
example : NamesFile (str "g/a.wbnf") ∧ ImportPath [str "..", str "/", str "x", str "/", str "b.wbnf"] ∧
    (Loc.go [str "w"] (str "g/a.wbnf")).dir.follow [str "..", str "/", str "x", str "/", str "b.wbnf"] = [str "b.wbnf", str "x", str "w"] ∧
    (cmdFiles threeFiles threeTexts (str "g/a.wbnf")).target [] [str "..", str "/", str "x", str "/", str "b.wbnf"] = str "x/b.wbnf" :=
  ⟨⟨str "g/", str "a.wbnf", by decide, by unfold ProperName; decide, .inr ⟨str "g", by decide⟩⟩, by unfold ImportPath; decide, by decide, by decide⟩

/-- With a slash at the start: `/../x/b.wbnf` is `g/x/b.wbnf`. -/
example : ImportPath [str "/", str "..", str "/", str "x"] ∧
    (cmdFiles threeFiles threeTexts (str "g/a.wbnf")).target [] [str "/", str "..", str "/", str "x"] = str "g/x" :=
  ⟨by unfold ImportPath; decide, by decide⟩

/-- The hypotheses of `C65_nested_fails` hold of the three files in the current directory. -/
example (n : Nat) (g' : GrammarN) : (makeGrammar (cmdFiles threeHere threeTexts (str "a.wbnf")) n [] (str "a") ⟨[], []⟩).2 ≠ .ok g' := by
  refine C65_nested_fails (cwd := []) rfl (by unfold ProperName; decide) ?_ rfl (.head _) (h := .mk [im "c.wbnf"]) rfl (.head _)
    (by unfold ImportPath; decide) (by decide) (by decide) ⟨str "c.wbnf", by decide, by unfold ProperName; decide⟩ n g'
  have key : ∀ a, threeHere a ≠ none → a = str "b.wbnf" ∨ a = str "c.wbnf" := by
    intro a h
    by_cases h1 : str "b.wbnf" = a
    · exact .inl h1.symm
    · by_cases h2 : str "c.wbnf" = a
      · exact .inr h2.symm
      · exact (h (by simp [threeHere, readFrom, lookup, h1, h2])).elim
  intro a b names ha hb e
  have h1 : (Loc.go [] a).length = 1 := by rcases key a ha with rfl | rfl <;> decide
  have h2 : (Loc.go [] b).length = 1 := by rcases key b hb with rfl | rfl <;> decide
  rw [e, List.length_append, h1] at h2
  exact List.length_eq_zero_iff.1 (by omega)

/-- The hypotheses of `C65_once` hold of the three files in `/d` if `b.wbnf` does not import anything. -/
example : rooted (str "/d/a.wbnf") = true ∧ ∃ c g', makeGrammar (cmdFiles (readFrom [(str "/d/b.wbnf", str "c")]) threeTexts (str "/d/a.wbnf"))
    9 [] (str "a") ⟨[], []⟩ = (c, .ok g') ∧ c.reads = [str "/d/b.wbnf"] :=
  ⟨by decide, _, _, rfl, rfl⟩

set_option maxRecDepth 100000 in
/-- `C65_words` holds of a text with an import. -/
example : ∀ p ∈ (GrammarN.mk [.imp [str "..", str "/", str "b.wbnf"], .prod (str "a") [.many [] [] [.many [] [] [.many [] [] [rn "b"]]]]]).imports, ImportPath p :=
  C65_words (E := regexp) (ρ := ρ0) (text := str ".import ../b.wbnf;\na -> b;") regexp_sane Ex.coreEngine Regex.engineReads
    (stands_viewed (n := 60) (by decide +kernel))

/-- Paths with the same name, and not. -/
example : cleanPath (str "a//b/./../c/") = str "a/c" ∧ cleanPath (str "../../a") = str "../../a" ∧ cleanPath (str "/../a") = str "/a" ∧
    cleanPath (str "a/..") = str "." ∧ cleanPath [] = str "." ∧ cleanPath (str "a/../../b") = str "../b" := by decide

end Wbnf

import Verif.Props.Written
import Verif.Props.Stacks
import Verif.Props.Recursion
import Verif.Props.Cmd
import Verif.Props.Validate
import Verif.Lemmas.Spell
import Verif.Lemmas.CodegenTerm
import Verif.Spec.Bootstrap

/-!
# The text of the grammar of grammars

What has to be checked for C71: the nodes of the text, their words, that these are tokens, where they are in the text, and what
is built from them.
-/

namespace Wbnf.Boot

/-- The nodes of the text. -/
def sourceNode : GrammarN := .mk [.comment (str "// Non-terminals"),
  .prod (str "grammar") [.many [] [] [.many [] [] [.many [] [] [.one (.mk none (.ident (str "stmt"))) [.op (str "+")]]]]],
  .prod (str "stmt") [.many [] [] [.many (str "|") [] [.many [] [] [.one (.mk none (.ident (str "COMMENT"))) []], .many [] [] [.one (.mk none (.ident (str "prod"))) []], .many [] [] [.one (.mk none (.ident (str "pragma"))) []]]]],
  .prod (str "prod") [.many [] [] [.many [] [] [.many [] [] [.one (.mk none (.ident (str "IDENT"))) [], .one (.mk none (.str (str "\"->\""))) [], .one (.mk none (.ident (str "term"))) [.op (str "+")], .one (.mk none (.str (str "\";\""))) []]]]],
  .prod (str "term") [.many (str ">") [] [.many [] [] [.many [] [] [.one (.mk none (.term (.many [] [] [.many [] [] [.many [] [] [.one (.mk none (.ident (str "@"))) [], .one (.mk none (.term (.many [] [] [.many [] [] [.many [] [] [.one (.mk none (.str (str "\"{\""))) [], .one (.mk none (.ident (str "grammar"))) [], .one (.mk none (.str (str "\"}\""))) []]]]))) [.op (str "?")]]]]))) [.sep (str ":") false false (.mk (some (str "op")) (.str (str "\">\"")))]]], .many [] [] [.many [] [] [.one (.mk none (.ident (str "@"))) [.sep (str ":") false false (.mk (some (str "op")) (.str (str "\"|\"")))]]], .many [] [] [.many [] [] [.one (.mk none (.ident (str "@"))) [.op (str "+")]]], .many [] [] [.many [] [] [.one (.mk none (.ident (str "named"))) [], .one (.mk none (.ident (str "quant"))) [.op (str "*")]]]]],
  .prod (str "named") [.many [] [] [.many [] [] [.many [] [] [.one (.mk none (.term (.many [] [] [.many [] [] [.many [] [] [.one (.mk none (.ident (str "IDENT"))) [], .one (.mk (some (str "op")) (.str (str "\"=\""))) []]]]))) [.op (str "?")], .one (.mk none (.ident (str "atom"))) []]]]],
  .prod (str "quant") [.many [] [] [.many (str "|") [] [.many [] [] [.one (.mk (some (str "op")) (.re (str "[?*+]"))) []], .many [] [] [.one (.mk none (.str (str "\"{\""))) [], .one (.mk (some (str "min")) (.ident (str "INT"))) [.op (str "?")], .one (.mk none (.str (str "\",\""))) [], .one (.mk (some (str "max")) (.ident (str "INT"))) [.op (str "?")], .one (.mk none (.str (str "\"}\""))) []], .many [] [] [.one (.mk (some (str "op")) (.re (str "/{<:|:>?}"))) [], .one (.mk (some (str "opt_leading")) (.str (str "\",\""))) [.op (str "?")], .one (.mk none (.ident (str "named"))) [], .one (.mk (some (str "opt_trailing")) (.str (str "\",\""))) [.op (str "?")]]]]],
  .prod (str "atom") [.many [] [] [.many (str "|") [] [.many [] [] [.one (.mk none (.ident (str "IDENT"))) []], .many [] [] [.one (.mk none (.ident (str "STR"))) []], .many [] [] [.one (.mk none (.ident (str "RE"))) []], .many [] [] [.one (.mk none (.ident (str "macrocall"))) []], .many [] [] [.one (.mk (some (str "ExtRef")) (.term (.many [] [] [.many [] [] [.many [] [] [.one (.mk none (.str (str "\"%%\""))) [], .one (.mk none (.ident (str "IDENT"))) []]]]))) []], .many [] [] [.one (.mk none (.ident (str "REF"))) []], .many [] [] [.one (.mk none (.str (str "\"(?=\""))) [], .one (.mk (some (str "lookahead")) (.ident (str "term"))) [], .one (.mk none (.str (str "\")\""))) []], .many [] [] [.one (.mk none (.str (str "\"(\""))) [], .one (.mk none (.ident (str "term"))) [], .one (.mk none (.str (str "\")\""))) []], .many [] [] [.one (.mk none (.str (str "\"(\""))) [], .one (.mk none (.str (str "\")\""))) []]]]],
  .prod (str "macrocall") [.many [] [] [.many [] [] [.many [] [] [.one (.mk none (.str (str "\"%!\""))) [], .one (.mk (some (str "name")) (.ident (str "IDENT"))) [], .one (.mk none (.str (str "\"(\""))) [], .one (.mk none (.ident (str "term"))) [.sep (str ":") false false (.mk none (.str (str "\",\""))), .op (str "?")], .one (.mk none (.str (str "\")\""))) []]]]],
  .prod (str "REF") [.many [] [] [.many [] [] [.many [] [] [.one (.mk none (.str (str "\"%\""))) [], .one (.mk none (.ident (str "IDENT"))) [], .one (.mk none (.term (.many [] [] [.many [] [] [.many [] [] [.one (.mk none (.str (str "\"=\""))) [], .one (.mk (some (str "default")) (.ident (str "STR"))) []]]]))) [.op (str "?")]]]]],
  .comment (str "// Terminals"),
  .prod (str "COMMENT") [.many [] [] [.many [] [] [.many [] [] [.one (.mk none (.re (inLines ["/{ //.*$", "            | (?s: /\\* (?: [^*] | \\*+[^*/] ) \\*/ )", "            }"]))) []]]]],
  .prod (str "IDENT") [.many [] [] [.many [] [] [.many [] [] [.one (.mk none (.re (str "/{@|\\.?[A-Za-z_]\\w*}"))) []]]]],
  .prod (str "INT") [.many [] [] [.many [] [] [.many [] [] [.one (.mk none (.re (str "\\d+"))) []]]]],
  .prod (str "STR") [.many [] [] [.many [] [] [.many [] [] [.one (.mk none (.re (inLines ["/{ \" (?: \\\\. | [^\\\\\"] )* \"", "            | ' (?: \\\\. | [^\\\\'] )* '", "            | ` (?: ``  | [^`]   )* `", "            }"]))) []]]]],
  .prod (str "RE") [.many [] [] [.many [] [] [.many [] [] [.one (.mk none (.re (inLines ["/{", "             /{", "               (?:", "                 \\\\.", "                 | { (?: (?: \\d+(?:,\\d*)? | ,\\d+ ) \\} )?", "                 | \\[ (?: \\\\. | \\[:^?[a-z]+:\\] | [^\\]] )+ ]", "                 | [^\\\\{\\}]", "               )*", "             \\}", "           | (?:", "               (?:", "                 \\[ (?: \\\\. | \\[:^?[a-z]+:\\] | [^\\]] )+ ]", "               | \\\\[pP](?:[a-z]|\\{[a-zA-Z_]+\\})", "               | \\\\[a-zA-Z]", "               | [.^$]", "               )(?: (?:[+*?]|\\{\\d+,?\\d?\\}) \\?? )?", "             )+", "           }"]))) []]]]],
  .comment (str "// Special"),
  .prod (str "pragma") [.many [] [.mk [.prod (str "import") [.many [] [] [.many [] [] [.many [] [] [.one (.mk none (.str (str "\".import\""))) [], .one (.mk (some (str "path")) (.term (.many [] [] [.many [] [] [.many [] [] [.one (.mk none (.term (.many [] [] [.many (str "|") [] [.many [] [] [.one (.mk none (.str (str "\"..\""))) []], .many [] [] [.one (.mk none (.str (str "\".\""))) []], .many [] [] [.one (.mk none (.re (str "[a-zA-Z0-9.:]+"))) []]]]))) [.sep (str ":") true false (.mk none (.str (str "\"/\"")))]]]]))) [], .one (.mk none (.str (str "\";\""))) [.op (str "?")]]]]],
  .prod (str "macrodef") [.many [] [] [.many [] [] [.many [] [] [.one (.mk none (.str (str "\".macro\""))) [], .one (.mk (some (str "name")) (.ident (str "IDENT"))) [], .one (.mk none (.str (str "\"(\""))) [], .one (.mk (some (str "args")) (.ident (str "IDENT"))) [.sep (str ":") false false (.mk none (.str (str "\",\""))), .op (str "?")], .one (.mk none (.str (str "\")\""))) [], .one (.mk none (.str (str "\"{\""))) [], .one (.mk none (.ident (str "term"))) [], .one (.mk none (.str (str "\"}\""))) [], .one (.mk none (.str (str "\";\""))) [.op (str "?")]]]]]]] [.many (str "|") [] [.many [] [] [.one (.mk none (.ident (str "import"))) []], .many [] [] [.one (.mk none (.ident (str "macrodef"))) []]]]],
  .prod (str ".wrapRE") [.many [] [] [.many [] [] [.many [] [] [.one (.mk none (.re (str "/{\\s*()\\s*}"))) []]]]]]

/-- The words of the text. -/
def sourceWords : List Str := (sourceNode.spell).getD []

set_option maxRecDepth 100000 in
theorem source_spelled : sourceNode.spell = some sourceWords := by decide +kernel
set_option maxRecDepth 100000 in
theorem source_plain : sourceNode.plainB = true := by decide +kernel
set_option maxRecDepth 100000 in
theorem source_laid : laidB sourceWords grammarGrammarSrc = true := by decide +kernel

/-! ## It is valid -/

set_option maxRecDepth 100000 in
theorem source_distinct : (findDefinedRules sourceNode).dupes = [] := by decide +kernel

set_option maxRecDepth 100000 in
theorem source_walk : (fun v : Verdict => (v.errs, v.panicked)) (walk (validatorOps coreRegexps.contains (findDefinedRules sourceNode).out
    (findDefinedRules sourceNode).macros) sourceNode.tree ⟨[], false⟩).1 = ([], false) := by decide +kernel

/-- What a rule names first has a lower rank. -/
def rank (r : Str) : Nat :=
  (lookup r [(str "stmt", 3), (str "prod", 2), (str "pragma", 2), (str "named", 3), (str "atom", 2), (str "macrocall", 1), (str "REF", 1),
    (str "import", 1), (str "macrodef", 1)]).getD 0

set_option maxRecDepth 100000 in
theorem source_ranks : ((dangersOf sourceNode).all fun e => e.2.all fun r => rank r < rank e.1) = true := by decide +kernel

theorem next_rank {a b : Str} (h : b ∈ nextOf (dangersOf sourceNode) a) : rank b < rank a := by
  rw [nextOf, List.mem_eraseDups] at h
  cases hl : lookup a (dangersOf sourceNode) with
  | none => rw [hl] at h; simp at h
  | some l =>
    rw [hl] at h
    have := List.all_eq_true.1 source_ranks _ (lookup_mem hl)
    simpa using List.all_eq_true.1 this b h

theorem walk_rank : ∀ {l : List Str} {r x}, Walks (nextOf (dangersOf sourceNode)) (r :: l ++ [x]) → rank x < rank r
  | [], _, _, h => next_rank h.1
  | _ :: l, _, _, h => Nat.lt_trans (walk_rank (l := l) h.2) (next_rank h.1)

theorem source_routes {ord : List Str → List Str → List Str} (ho : Orders ord) : badRoutes ord sourceNode = [] := by
  refine Classical.byContradiction fun h => ?_
  obtain ⟨r, l, hw⟩ := bad_walk ho h
  exact absurd (walk_rank hw) (Nat.lt_irrefl _)

theorem nodeOK_mono {reOK reOK' : Str → Bool} {known macros} (h : ∀ x, reOK x = true → reOK' x = true) : ∀ {i}, NodeOK reOK known macros i → NodeOK reOK' known macros i := by
  intro i hi
  unfold NodeOK at hi ⊢
  split at hi <;> simp_all

theorem source_valid {reOK : Str → Bool} {ord : List Str → List Str → List Str} (hre : ∀ x ∈ coreRegexps, reOK x = true) (ho : Orders ord) :
    validate reOK ord sourceNode = .ok [] := by
  rw [validate_nil]
  refine ⟨source_distinct, ?_, source_routes ho⟩
  rw [walk_clean]
  have h : (walk (validatorOps coreRegexps.contains (findDefinedRules sourceNode).out
    (findDefinedRules sourceNode).macros) sourceNode.tree ⟨[], false⟩).1.Clean := by
    have := source_walk
    simp only [Prod.mk.injEq] at this
    exact this
  rw [walk_clean] at h
  exact fun i hi => nodeOK_mono (fun x hx => hre x (by simpa using hx)) (h i hi)

/-! ## What is built from it -/

def built : Grammar := match newFromAst 400 sourceNode with
  | .ok G => G
  | .error _ => []

set_option maxRecDepth 100000 in
theorem built_ok : newFromAst 400 sourceNode = .ok built := by
  unfold built
  have : (match newFromAst 400 sourceNode with | .ok _ => true | .error _ => false) = true := by decide +kernel
  split <;> simp_all

/-- The stack resolved. -/
def flat : Grammar := (built.resolveStacks).getD []

set_option maxRecDepth 100000 in
theorem flat_ok : built.resolveStacks = some flat := by decide +kernel

/-- After it has been compiled. -/
def shown : Grammar := afterDefs (some Core.wrap) flat

set_option maxRecDepth 100000 in
theorem flat_wrap : lookup wrapRE flat = some Core.wrap := by decide +kernel

set_option maxRecDepth 100000 in
theorem shown_flat : shown.resolveStacks = some shown := by decide +kernel

set_option maxRecDepth 100000 in
theorem shown_wrap : lookup wrapRE shown = some Core.wrap := by decide +kernel

set_option maxRecDepth 100000 in
theorem core_wrap : lookup wrapRE Core.flat = some Core.wrap := by decide +kernel

set_option maxRecDepth 100000 in
theorem core_flat : Core.flat.resolveStacks = some Core.flat := by decide +kernel

set_option maxRecDepth 100000 in
theorem core_shown : afterDefs (some Core.wrap) Core.flat = Core.flat := by decide +kernel

set_option maxRecDepth 100000 in
theorem same : (diffGrammars Core.flat shown).map (·.equal) = some true := by decide +kernel

/-! ## The order of rules -/

mutual
/-- Without stacks, and rules have distinct names. -/
def tidyTermB : Term → Bool
  | .seq ts => tidyListB ts
  | .oneof ts => tidyListB ts
  | .stack _ => false
  | .delim t sep _ _ _ => tidyTermB t && tidyTermB sep
  | .look t => tidyTermB t
  | .quant t _ _ => tidyTermB t
  | .named _ t => tidyTermB t
  | .cut t => tidyTermB t
  | .scope t g => tidyTermB t && tidyDefsB g && decide (g.map Prod.fst).Nodup
  | _ => true
def tidyListB : List Term → Bool
  | [] => true
  | t :: ts => tidyTermB t && tidyListB ts
def tidyDefsB : List (Str × Term) → Bool
  | [] => true
  | (_, t) :: g => tidyTermB t && tidyDefsB g
end

theorem tidyDefsB_mem : ∀ {g : Grammar}, tidyDefsB g = true → ∀ {r t}, (r, t) ∈ g → tidyTermB t = true
  | (_, _) :: g, h, r, t, hm => by
    simp only [tidyDefsB, Bool.and_eq_true] at h
    rcases List.mem_cons.1 hm with e | hm
    · cases e; exact h.1
    · exact tidyDefsB_mem h.2 hm

theorem fresh_of {g : Grammar} (h : tidyDefsB g = true) : g.LayersFresh := by
  intro r ls i t hm
  have := tidyDefsB_mem h hm
  simp [tidyTermB] at this

mutual
theorem tidyTermB_ok : (t : Term) → tidyTermB t = true → t.Tidy
  | .seq ts, h => tidyListB_ok ts (by simpa [tidyTermB] using h)
  | .oneof ts, h => tidyListB_ok ts (by simpa [tidyTermB] using h)
  | .stack _, h => by simp [tidyTermB] at h
  | .delim t sep _ _ _, h => by
    simp only [tidyTermB, Bool.and_eq_true] at h
    exact ⟨tidyTermB_ok t h.1, tidyTermB_ok sep h.2⟩
  | .look t, h => tidyTermB_ok t (by simpa [tidyTermB] using h)
  | .quant t _ _, h => tidyTermB_ok t (by simpa [tidyTermB] using h)
  | .named _ t, h => tidyTermB_ok t (by simpa [tidyTermB] using h)
  | .cut t, h => tidyTermB_ok t (by simpa [tidyTermB] using h)
  | .scope t g, h => by
    simp only [tidyTermB, Bool.and_eq_true, decide_eq_true_eq] at h
    exact ⟨tidyTermB_ok t h.1.1, tidyDefsB_ok g h.1.2, h.2, fresh_of h.1.2⟩
  | .rule _, _ => trivial
  | .s _, _ => trivial
  | .re _, _ => trivial
  | .ref _ _, _ => trivial
  | .ext _, _ => trivial
theorem tidyListB_ok : (ts : List Term) → tidyListB ts = true → tidyList ts
  | [], _ => trivial
  | t :: ts, h => by
    simp only [tidyListB, Bool.and_eq_true] at h
    exact ⟨tidyTermB_ok t h.1, tidyListB_ok ts h.2⟩
theorem tidyDefsB_ok : (g : List (Str × Term)) → tidyDefsB g = true → tidyDefs g
  | [], _ => trivial
  | (_, t) :: g, h => by
    simp only [tidyDefsB, Bool.and_eq_true] at h
    exact ⟨tidyTermB_ok t h.1, tidyDefsB_ok g h.2⟩
end

/-- The rule, and the other ones. -/
def extract (k : Str) : Grammar → Option (Term × Grammar)
  | [] => none
  | (r, t) :: g => if r = k then some (t, g) else (extract k g).map fun p => (p.1, (r, t) :: p.2)

theorem extract_perm {k : Str} : ∀ {g : Grammar} {t g'}, extract k g = some (t, g') → ((k, t) :: g').Perm g
  | (r, t) :: g, u, g', h => by
    simp only [extract] at h
    split at h
    · rename_i e
      subst e; cases h; exact .refl _
    · rw [Option.map_eq_some_iff] at h
      obtain ⟨⟨t1, g1⟩, h, e⟩ := h
      cases e
      exact (List.Perm.swap _ _ _).trans ((extract_perm h).cons _)

/-- The same rules up to `same`. -/
def reordB (same : Term → Term → Bool) : Grammar → Grammar → Bool
  | [], g' => g'.isEmpty
  | (k, t) :: g, g' => match extract k g' with
    | none => false
    | some (t', g') => same t t' && reordB same g g'

theorem reordB_ok {same : Term → Term → Bool} (hs : ∀ t t', same t t' = true → Reord t t') :
    ∀ {g g' : Grammar}, reordB same g g' = true → ReordDefs g g'
  | [], g', h => by
    simp only [reordB, List.isEmpty_iff] at h
    subst h; exact .nil
  | (k, t) :: g, g', h => by
    simp only [reordB] at h
    split at h
    · simp at h
    · rename_i t' g1 he
      simp only [Bool.and_eq_true] at h
      exact .trans (.cons (hs _ _ h.1) (reordB_ok hs h.2)) (.of_perm (extract_perm he))

/-- The same terms, up to the order of rules in braces. -/
def sameB (t t' : Term) : Bool :=
  decide (t = t') || match t, t' with
    | .scope t g, .scope t' g' => decide (t = t') && reordB (fun a b => decide (a = b)) g g'
    | _, _ => false

theorem sameB_ok (t t' : Term) (h : sameB t t' = true) : Reord t t' := by
  simp only [sameB, Bool.or_eq_true, decide_eq_true_eq] at h
  rcases h with rfl | h
  · exact .refl _
  · split at h
    · simp only [Bool.and_eq_true, decide_eq_true_eq] at h
      obtain ⟨rfl, h⟩ := h
      exact .scope (.refl _) (reordB_ok (fun a b e => by simp only [decide_eq_true_eq] at e; subst e; exact .refl _) h)
    · simp at h

set_option maxRecDepth 100000 in
theorem shown_reordB : reordB sameB Core.flat shown = true := by decide +kernel

theorem shown_reord : ReordDefs Core.flat shown := reordB_ok sameB_ok shown_reordB

set_option maxRecDepth 100000 in
theorem core_tidyB : (tidyDefsB Core.flat && decide (Core.flat.map Prod.fst).Nodup) = true := by decide +kernel

theorem core_tidy : Core.flat.Tidy := by
  have h := core_tidyB
  simp only [Bool.and_eq_true, decide_eq_true_eq] at h
  exact ⟨tidyDefsB_ok _ h.1, h.2, fresh_of h.1⟩

set_option maxRecDepth 100000 in
theorem core_wf : Core.flat.wf = true := by decide +kernel

/-! ## It can be compiled -/

variable {E : Engine}

theorem core_compilable (h : Core.EngineOK E) : Core.flat.Compilable E := by
  obtain ⟨g1, h1, h2⟩ := C24_compile_iff.1 (Core.compiles h)
  rw [Core.flat_ok] at h1
  cases h1
  exact ⟨_, core_flat, h2⟩

theorem shown_compilable (h : Core.EngineOK E) : shown.Compilable E := (core_compilable h).reord shown_reord core_tidy

theorem inheritWrap_idem {w : Option Term} {g : Grammar} : inheritWrap w (inheritWrap w g) = inheritWrap w g := by
  cases w with
  | none => rfl
  | some w =>
    simp only [inheritWrap]
    split
    · simp_all
    · rename_i h
      rw [if_pos]
      simp [hasKey, lookup_mapSet_self]

/-- Braces that get their wrapper when they are compiled can be compiled if they can with it. -/
theorem compilable_scope {w : Option Term} {t : Term} {g : Grammar} (hg : Grammar.resolveStacks g = some g)
    (hi : Grammar.resolveStacks (inheritWrap w g) = some (inheritWrap w g)) (h : Compilable E w (.scope t (inheritWrap w g))) :
    Compilable E w (.scope t g) := by
  cases h with
  | scope h1 h2 h3 h4 =>
    rw [hi] at h1
    cases h1
    rw [inheritWrap_idem] at h2 h3 h4
    exact .scope hg h2 h3 h4

/-- At most the wrapper is added, in braces. -/
def mild (w : Option Term) (t : Term) : Bool :=
  decide (t.after w = t) || match t with
    | .scope t g => decide ((Term.scope t g).after w = .scope t (inheritWrap w g)) && decide (Grammar.resolveStacks g = some g) &&
        decide (Grammar.resolveStacks (inheritWrap w g) = some (inheritWrap w g))
    | _ => false

theorem compilable_after {w : Option Term} {t : Term} (hm : mild w t = true) (h : Compilable E w (t.after w)) : Compilable E w t := by
  simp only [mild, Bool.or_eq_true, decide_eq_true_eq] at hm
  rcases hm with e | hm
  · rwa [e] at h
  · split at hm
    · simp only [Bool.and_eq_true, decide_eq_true_eq] at hm
      rw [hm.1.1] at h
      exact compilable_scope hm.1.2 hm.2 h
    · simp at hm

def notRule : Term → Bool
  | .rule _ => false
  | _ => true

set_option maxRecDepth 100000 in
theorem flat_mild : (flat.all fun e => mild (some Core.wrap) e.2 && notRule e.2 && notRule (e.2.after (some Core.wrap))) = true := by decide +kernel

theorem afterDefs_mem {w : Option Term} : ∀ {g : Grammar} {r t}, (r, t) ∈ g → (r, t.after w) ∈ afterDefs w g
  | (_, _) :: g, r, t, h => by
    rcases List.mem_cons.1 h with e | h
    · cases e; exact List.mem_cons_self
    · exact List.mem_cons_of_mem _ (afterDefs_mem h)

theorem built_compilable (h : Core.EngineOK E) : built.Compilable E := by
  refine ⟨flat, flat_ok, fun e he => ?_⟩
  obtain ⟨r, t⟩ := e
  have hm := List.all_eq_true.1 flat_mild _ he
  simp only [Bool.and_eq_true] at hm
  obtain ⟨⟨hm, hn⟩, hn'⟩ := hm
  obtain ⟨g1, h1, h2⟩ := shown_compilable h
  rw [shown_flat] at h1
  cases h1
  obtain ⟨t', ht, hc⟩ := h2 _ (afterDefs_mem he)
  rw [shown_wrap] at hc
  refine ⟨t, .inl ⟨rfl, fun r e => by simp only at e; subst e; simp [notRule] at hn⟩, ?_⟩
  rw [flat_wrap]
  rcases ht with ⟨rfl, _⟩ | ⟨r, e, _⟩
  · exact compilable_after hm hc
  · simp only at e
    rw [e] at hn'
    simp [notRule] at hn'

end Wbnf.Boot

import Verif.Model.Parse

/-!
# What a grammar means: a big-step semantics of terms

A *declarative* reading of wbnf grammars, independent of the parser: no fuel, no compiled parsers,
no patched slots, no random cut tokens. The outcome of matching a term at a position is

* `ok v inp'` – it matches, yields tree `v` and leaves `inp'`;
* `fail` – it does not match here; an enclosing choice or repetition may go on;
* `abort` – it does not match and nobody may try anything else: a sequence passed a cut point and
  then failed, or an external reported a fatal error.

The only things shared with the model are data types, the regexp engine, and the translation of a
bound value to the text it must repeat.
-/

namespace Wbnf

/-- Rule `r` of grammar `g` stands for the term `t`, going through definitions that are just
another rule name. -/
inductive Defines (g : Grammar) : Str → Term → Prop
  | here {r t} : lookup r g = some t → (∀ r', t ≠ .rule r') → Defines g r t
  | alias {r r' t} : lookup r g = some (.rule r') → Defines g r' t → Defines g r t

/-- Lexical scope: name `r` used under the grammars `Γ` (innermost first) means the definition in
the innermost grammar that has one; the definition's own names are looked up from there. -/
inductive Resolves : List Grammar → Str → List Grammar → Term → Prop
  | here {g Γ r t} : Defines g r t → Resolves (g :: Γ) r (g :: Γ) t
  | outer {g Γ r Γ' t} : lookup r g = none → Resolves Γ r Γ' t → Resolves (g :: Γ) r Γ' t

/-- The wrapper in force under `Γ`. -/
def wrapOf : List Grammar → Option Term
  | [] => none
  | g :: _ => lookup wrapRE g

/-- Grammar `g'` is what the grammar in braces `g` stands for under `Γ`: stacks are layered, and the
wrapper is inherited unless `g` has its own. -/
def Enters (Γ : List Grammar) (g g' : Grammar) : Prop :=
  ∃ g1, Grammar.resolveStacks g = some g1 ∧ g' = inheritWrap (wrapOf Γ) g1

/-- `r` is `w` with its first `()` replaced by `new`, or `w` itself if it has none. -/
def Spliced (new w r : Str) : Prop :=
  (¬ str "()" <:+: w ∧ r = w) ∨
  ∃ a b, w = a ++ str "()" ++ b ∧ ¬ str "()" <:+: a ++ str "(" ∧ r = a ++ new ++ b

/-- The regexp for a literal or regexp with source text `text` whose own group is `group`, when the
wrapper is `wrap`: the group itself without wrapper, or when the text is one of the exemptions listed
before the wrapper; otherwise the wrapper with the group spliced in. -/
inductive LeafPattern (wrap : Option Term) (text group : Str) : Str → Prop
  | plain : wrap = none → LeafPattern wrap text group group
  | exempt {ts w} : wrap = some (.oneof (ts ++ [w])) → (.s text ∈ ts ∨ .re text ∈ ts) →
      LeafPattern wrap text group group
  | listed {ts w r} : wrap = some (.oneof (ts ++ [.re w])) → ¬ (.s text ∈ ts ∨ .re text ∈ ts) →
      Spliced (str "(?:" ++ group ++ str ")") w r → LeafPattern wrap text group r
  | wrapped {w r} : wrap = some (.re w) → Spliced (str "(?:" ++ group ++ str ")") w r →
      LeafPattern wrap text group r

/-- Outcome of matching. -/
inductive Out
  | ok (v : Tree) (inp : Scanner)
  | oks (vs : List Tree) (inp : Scanner)
  | fail
  | abort

/-- Matching the (anchored) regexp `p`: the leaf is the last of its one or two groups. -/
inductive LeafOut (E : Engine) (p : Str) (inp : Scanner) : Out → Prop
  | fail {x} : inp.slice = some x → E.find p x = none → LeafOut E p inp .fail
  | one {x b g} : inp.slice = some x → E.find p x = some [(0, b), g] →
      LeafOut E p inp (.ok (.leaf (inp.sub g.1 g.2)) (inp.skip b))
  | two {x b g g'} : inp.slice = some x → E.find p x = some [(0, b), g, g'] →
      LeafOut E p inp (.ok (.leaf (inp.sub g'.1 g'.2)) (inp.skip b))

/-- Is this item of a sequence a cut point? -/
inductive IsCut : List Grammar → Term → Prop
  | cut {Γ t} : IsCut Γ (.cut t)
  | named {Γ n t} : IsCut Γ t → IsCut Γ (.named n t)
  | rule {Γ r Γ' t} : Resolves Γ r Γ' t → IsCut Γ' t → IsCut Γ (.rule r)
  | scope {Γ t g g'} : Enters Γ g g' → IsCut (g' :: Γ) t → IsCut Γ (.scope t g)

mutual
/-- A term made of literals only, each of which is a valid regexp when quoted. (Back references are
matched by compiling such a term; quoting fails for text that is not valid UTF-8.) -/
def Term.quotable (E : Engine) : Term → Bool
  | .s l => E.valid (anchor ++ (str "(" ++ quoteMeta l ++ str ")"))
  | .seq ts => quotableList E ts
  | _ => false
def quotableList (E : Engine) : List Term → Bool
  | [] => true
  | t :: ts => t.quotable E && quotableList E ts
end

/-- The bindings after an item with name `ident` yielded `v`. -/
def bindVal (vals : List (Str × Tree)) (ident : Str) (v : Tree) : List (Str × Tree) :=
  if ident = [] then vals else (ident, v) :: vals

/-- What is being matched: a term (under the name `rule`, which becomes the tag of its node), the
remaining items of a sequence, further repetitions of a term (`left` = how many more are allowed,
`none` = any number), the remaining alternatives of a choice. `vals` are the bindings visible to
back references, latest first. -/
inductive Goal
  | term (Γ : List Grammar) (rule : Str) (t : Term) (vals : List (Str × Tree)) (inp : Scanner)
  | seq (Γ : List Grammar) (ts : List Term) (vals : List (Str × Tree)) (committed : Bool)
      (inp : Scanner)
  | reps (Γ : List Grammar) (t : Term) (vals : List (Str × Tree)) (left : Option Nat) (inp : Scanner)
  | alts (Γ : List Grammar) (tag : Str) (ts : List Term) (i : Nat) (vals : List (Str × Tree))
      (inp : Scanner)

/-- The outcome of an external handler. -/
def extOut (r : ExtRes) : Out :=
  match r.err with
  | none => .ok r.tree r.inp
  | some e => if e.isFatal then .abort else .fail

/-- The semantics. -/
inductive Peg (E : Engine) (X : Externals) : Goal → Out → Prop
  -- names and wrappers
  | rule {Γ rule r Γ' t vals inp o} : Resolves Γ r Γ' t → Peg E X (.term Γ' r t vals inp) o →
      Peg E X (.term Γ rule (.rule r) vals inp) o
  | named {Γ rule n t vals inp o} : Peg E X (.term Γ n t vals inp) o →
      Peg E X (.term Γ rule (.named n t) vals inp) o
  | cut {Γ rule t vals inp o} : Peg E X (.term Γ rule t vals inp) o →
      Peg E X (.term Γ rule (.cut t) vals inp) o
  | scope {Γ rule t g g' vals inp o} : Enters Γ g g' → Peg E X (.term (g' :: Γ) rule t vals inp) o →
      Peg E X (.term Γ rule (.scope t g) vals inp) o
  -- leaves
  | lit {Γ rule l p vals inp o} : LeafPattern (wrapOf Γ) l (str "(" ++ quoteMeta l ++ str ")") p →
      LeafOut E (anchor ++ p) inp o → Peg E X (.term Γ rule (.s l) vals inp) o
  | regexp {Γ rule l p vals inp o} : LeafPattern (wrapOf Γ) l (str "(" ++ l ++ str ")") p →
      LeafOut E (anchor ++ p) inp o → Peg E X (.term Γ rule (.re l) vals inp) o
  -- sequences
  | seqOk {Γ rule ts vals inp vs i} : Peg E X (.seq Γ ts vals false inp) (.oks vs i) →
      Peg E X (.term Γ rule (.seq ts) vals inp) (.ok (.node (ruleOrAlt rule seqTag) .nil vs) i)
  | seqNo {Γ rule ts vals inp o} : Peg E X (.seq Γ ts vals false inp) o → o = .fail ∨ o = .abort →
      Peg E X (.term Γ rule (.seq ts) vals inp) o
  | itemsNil {Γ vals c inp} : Peg E X (.seq Γ [] vals c inp) (.oks [] inp)
  | itemsCons {Γ t ts vals c c' inp v i vs i'} : Peg E X (.term Γ [] t vals inp) (.ok v i) →
      (c' = true ↔ c = true ∨ IsCut Γ t) →
      Peg E X (.seq Γ ts (bindVal vals (identFromTerm t) v) c' i) (.oks vs i') →
      Peg E X (.seq Γ (t :: ts) vals c inp) (.oks (v :: vs) i')
  | itemsLater {Γ t ts vals c c' inp v i o} : Peg E X (.term Γ [] t vals inp) (.ok v i) →
      (c' = true ↔ c = true ∨ IsCut Γ t) →
      Peg E X (.seq Γ ts (bindVal vals (identFromTerm t) v) c' i) o → o = .fail ∨ o = .abort →
      Peg E X (.seq Γ (t :: ts) vals c inp) o
  | itemsFail {Γ t ts vals c inp} : Peg E X (.term Γ [] t vals inp) .fail →
      Peg E X (.seq Γ (t :: ts) vals c inp) (if c then .abort else .fail)
  | itemsAbort {Γ t ts vals c inp} : Peg E X (.term Γ [] t vals inp) .abort →
      Peg E X (.seq Γ (t :: ts) vals c inp) .abort
  -- choices
  | oneof {Γ rule ts vals inp o} : Peg E X (.alts Γ (ruleOrAlt rule oneofTag) ts 0 vals inp) o →
      Peg E X (.term Γ rule (.oneof ts) vals inp) o
  | altsNil {Γ tag i vals inp} : Peg E X (.alts Γ tag [] i vals inp) .fail
  | altsOk {Γ tag t ts i vals inp v j} : Peg E X (.term Γ [] t vals inp) (.ok v j) →
      Peg E X (.alts Γ tag (t :: ts) i vals inp) (.ok (.node tag (.choice i) [v]) j)
  | altsAbort {Γ tag t ts i vals inp} : Peg E X (.term Γ [] t vals inp) .abort →
      Peg E X (.alts Γ tag (t :: ts) i vals inp) .abort
  | altsNext {Γ tag t ts i vals inp o} : Peg E X (.term Γ [] t vals inp) .fail →
      Peg E X (.alts Γ tag ts (i + 1) vals inp) o → Peg E X (.alts Γ tag (t :: ts) i vals inp) o
  -- repetitions
  | quantOk {Γ rule t lo hi vals inp vs i} :
      Peg E X (.reps Γ t vals (if hi = 0 then none else some hi) inp) (.oks vs i) → lo ≤ vs.length →
      Peg E X (.term Γ rule (.quant t lo hi) vals inp) (.ok (.node (ruleOrAlt rule quantTag) .nil vs) i)
  | quantFew {Γ rule t lo hi vals inp vs i} :
      Peg E X (.reps Γ t vals (if hi = 0 then none else some hi) inp) (.oks vs i) → vs.length < lo →
      Peg E X (.term Γ rule (.quant t lo hi) vals inp) .fail
  | quantAbort {Γ rule t lo hi vals inp} :
      Peg E X (.reps Γ t vals (if hi = 0 then none else some hi) inp) .abort →
      Peg E X (.term Γ rule (.quant t lo hi) vals inp) .abort
  | repsMax {Γ t vals inp} : Peg E X (.reps Γ t vals (some 0) inp) (.oks [] inp)
  | repsStop {Γ t vals left inp} : left ≠ some 0 → Peg E X (.term Γ [] t vals inp) .fail →
      Peg E X (.reps Γ t vals left inp) (.oks [] inp)
  | repsMore {Γ t vals left inp v i vs i'} : left ≠ some 0 →
      Peg E X (.term Γ [] t vals inp) (.ok v i) →
      Peg E X (.reps Γ t vals (left.map (· - 1)) i) (.oks vs i') →
      Peg E X (.reps Γ t vals left inp) (.oks (v :: vs) i')
  | repsLater {Γ t vals left inp v i} : left ≠ some 0 → Peg E X (.term Γ [] t vals inp) (.ok v i) →
      Peg E X (.reps Γ t vals (left.map (· - 1)) i) .abort → Peg E X (.reps Γ t vals left inp) .abort
  | repsAbort {Γ t vals left inp} : left ≠ some 0 → Peg E X (.term Γ [] t vals inp) .abort →
      Peg E X (.reps Γ t vals left inp) .abort
  -- look-ahead
  | lookOk {Γ rule t vals inp v i} : Peg E X (.term Γ [] t vals inp) (.ok v i) →
      Peg E X (.term Γ rule (.look t) vals inp) (.ok (.node (ruleOrAlt rule lookaheadTag) .nil [v]) inp)
  | lookNo {Γ rule t vals inp o} : Peg E X (.term Γ [] t vals inp) o → o = .fail ∨ o = .abort →
      Peg E X (.term Γ rule (.look t) vals inp) o
  -- delimited lists: what the expansion to a sequence matches, as one node
  | delimOk {Γ rule term sep a cs ce vals inp v v' i} :
      Peg E X (.term Γ rule (.seq (delimSeq term sep cs ce)) vals inp) (.ok v i) →
      delimFinish (ruleOrAlt rule delimTag) a cs ce v = some v' →
      Peg E X (.term Γ rule (.delim term sep a cs ce) vals inp) (.ok v' i)
  | delimNo {Γ rule term sep a cs ce vals inp o} :
      Peg E X (.term Γ rule (.seq (delimSeq term sep cs ce)) vals inp) o → o = .fail ∨ o = .abort →
      Peg E X (.term Γ rule (.delim term sep a cs ce) vals inp) o
  -- back references: match the text of the bound value; nothing else is in scope
  | refOk {Γ rule ident d vals inp w t v i} : lookup ident vals = some w → termFromRefVal w = some t →
      t.quotable E = true → Peg E X (.term [] ident t vals inp) (.ok v i) → nodesEqual v w = some true →
      Peg E X (.term Γ rule (.ref ident d) vals inp) (.ok v i)
  | refDiffers {Γ rule ident d vals inp w t v i} : lookup ident vals = some w →
      termFromRefVal w = some t → t.quotable E = true →
      Peg E X (.term [] ident t vals inp) (.ok v i) →
      nodesEqual v w = some false → Peg E X (.term Γ rule (.ref ident d) vals inp) .fail
  | refNo {Γ rule ident d vals inp w t o} : lookup ident vals = some w → termFromRefVal w = some t →
      t.quotable E = true → Peg E X (.term [] ident t vals inp) o → o = .fail ∨ o = .abort →
      Peg E X (.term Γ rule (.ref ident d) vals inp) o
  | refDefault {Γ rule ident t vals inp o} : lookup ident vals = none →
      t.quotable E = true → Peg E X (.term [] ident t vals inp) o →
      Peg E X (.term Γ rule (.ref ident (some t)) vals inp) o
  | refUnbound {Γ rule ident vals inp} : lookup ident vals = none →
      Peg E X (.term Γ rule (.ref ident none) vals inp) .fail
  -- external references
  | extNone {Γ rule x vals inp} : X.refs x = none → Peg E X (.term Γ rule (.ext x) vals inp) .abort
  | ext {Γ rule x f vals inp} : X.refs x = some f →
      Peg E X (.term Γ rule (.ext x) vals inp)
        (extOut (f ⟨fun i => lookup i vals, none, [], none⟩ inp))

end Wbnf

import Verif.Model.Compile

/-!
# What `Compile` does to the grammar it is given

Go maps are references. `Grammar.Compile` (parser/parser.go:98-136) and `ScopedGrammar.Parser` (743-794) clone
the map if it has a stack in it, and otherwise work on the caller's map; 751-755 assigns to it. The functions
here give the term as the caller sees it afterwards. Maps that occur at several places of a grammar are
treated as separate maps, and a wrapper is taken to have no grammar in braces in it.
-/

namespace Wbnf

mutual
/-- The term after `Term.Parser` was called on it, with a `cache` whose grammar has the wrapper `wrap`.
Compiling a term twice (as `Delim.Parser`, parser.go:457-480, and aliases do) changes nothing more. -/
def Term.after (wrap : Option Term) : Term → Term
  | .rule r => .rule r                                     -- 178-183
  | .s l => .s l                                           -- 249-256
  | .re p => .re p                                         -- 279-286
  | .ref i d => .ref i d                                   -- 717-719: the default is compiled when parsing
  | .ext x => .ext x                                       -- 736-738
  | .seq ts => .seq (afterList wrap ts)                    -- 369-376
  | .oneof ts => .oneof (afterList wrap ts)                -- 645-652
  | .stack ts => .stack ts                                 -- 656-658 panics
  | .delim t sep a cs ce => .delim (t.after wrap) (sep.after wrap) a cs ce   -- 457-480
  | .look t => .look (t.after wrap)                        -- 538-547
  | .quant t lo hi => .quant (t.after wrap) lo hi          -- 592-601
  | .named n t => .named n (t.after wrap)                  -- 663-665
  | .cut t => .cut (t.after wrap)                          -- 805-807
  | .scope t g =>                                          -- 743-794
    if hasKey wrapRE g then .scope (t.after (lookup wrapRE g)) (afterDefs (lookup wrapRE g) g)
    else
      -- 744-750: with a stack in it, the map is cloned before `.wrapRE` is added
      if g.any (fun e => e.2.isStack) then .scope (t.after wrap) (afterDefs wrap g)
      else .scope (t.after wrap) (addWrap wrap (afterDefs wrap g))
def afterList (wrap : Option Term) : List Term → List Term
  | [] => []
  | t :: ts => t.after wrap :: afterList wrap ts
/-- The entries after the loop 762-772 (112-122). Entries that are stacks stay in the caller's map as they
were; their layers are compiled from copies without grammars in braces in them (resolve.go). -/
def afterDefs (wrap : Option Term) : List (Str × Term) → List (Str × Term)
  | [] => []
  | (r, t) :: g => (r, t.after wrap) :: afterDefs wrap g
/-- 751-755: `t.Grammar[WrapRE] = wrap`. -/
def addWrap (wrap : Option Term) : List (Str × Term) → List (Str × Term)
  | g => match wrap with
    | none => g
    | some w => g ++ [(wrapRE, w)]
end

/-- The caller's grammar after `Grammar.Compile` (98-136) returned. -/
def Grammar.after (g : Grammar) : Grammar := afterDefs (lookup wrapRE g) g

/-- parser/parser.go:98-136 `Compile`, parser/terms.go:33-35 `Grammar`: what `Grammar()` of the parsers returns after `Compile` made them:
the map that was compiled (a copy, if there were stacks), with what compiling adds to grammars in braces. -/
def Parsers.shown (ps : Parsers) : Grammar := afterDefs (lookup wrapRE ps.grammar) ps.grammar

end Wbnf

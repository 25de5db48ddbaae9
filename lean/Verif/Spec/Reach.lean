import Verif.Spec.Peg

/-!
# Which matches a match depends on

`Needs E X G G'`: while deciding goal `G`, goal `G'` is decided next, given how the goals before it
came out (an item of a sequence after the items before it matched, an alternative after the
alternatives before it failed, a repetition after the earlier ones matched).
-/

namespace Wbnf

inductive Needs (E : Engine) (X : Externals) : Goal → Goal → Prop
  | rule {Γ rule r Γ' t vals inp} : Resolves Γ r Γ' t →
      Needs E X (.term Γ rule (.rule r) vals inp) (.term Γ' r t vals inp)
  | named {Γ rule n t vals inp} : Needs E X (.term Γ rule (.named n t) vals inp) (.term Γ n t vals inp)
  | cut {Γ rule t vals inp} : Needs E X (.term Γ rule (.cut t) vals inp) (.term Γ rule t vals inp)
  | scope {Γ rule t g g' vals inp} : Enters Γ g g' →
      Needs E X (.term Γ rule (.scope t g) vals inp) (.term (g' :: Γ) rule t vals inp)
  | seq {Γ rule ts vals inp} :
      Needs E X (.term Γ rule (.seq ts) vals inp) (.seq Γ ts vals false inp)
  | item {Γ t ts vals c inp} : Needs E X (.seq Γ (t :: ts) vals c inp) (.term Γ [] t vals inp)
  | later {Γ t ts vals c c' inp v i} : Peg E X (.term Γ [] t vals inp) (.ok v i) →
      (c' = true ↔ c = true ∨ IsCut Γ t) →
      Needs E X (.seq Γ (t :: ts) vals c inp) (.seq Γ ts (bindVal vals (identFromTerm t) v) c' i)
  | oneof {Γ rule ts vals inp} : Needs E X (.term Γ rule (.oneof ts) vals inp)
      (.alts Γ (ruleOrAlt rule oneofTag) ts 0 vals inp)
  | alt {Γ tag t ts i vals inp} : Needs E X (.alts Γ tag (t :: ts) i vals inp) (.term Γ [] t vals inp)
  | next {Γ tag t ts i vals inp} : Peg E X (.term Γ [] t vals inp) .fail →
      Needs E X (.alts Γ tag (t :: ts) i vals inp) (.alts Γ tag ts (i + 1) vals inp)
  | quant {Γ rule t lo hi vals inp} : Needs E X (.term Γ rule (.quant t lo hi) vals inp)
      (.reps Γ t vals (if hi = 0 then none else some hi) inp)
  | rep {Γ t vals left inp} : left ≠ some 0 → Needs E X (.reps Γ t vals left inp) (.term Γ [] t vals inp)
  | again {Γ t vals left inp v i} : left ≠ some 0 → Peg E X (.term Γ [] t vals inp) (.ok v i) →
      Needs E X (.reps Γ t vals left inp) (.reps Γ t vals (left.map (· - 1)) i)
  | look {Γ rule t vals inp} : Needs E X (.term Γ rule (.look t) vals inp) (.term Γ [] t vals inp)
  | delim {Γ rule term sep a cs ce vals inp} : Needs E X (.term Γ rule (.delim term sep a cs ce) vals inp)
      (.term Γ rule (.seq (delimSeq term sep cs ce)) vals inp)
  | ref {Γ rule ident d vals inp w t} : lookup ident vals = some w → termFromRefVal w = some t →
      t.quotable E = true → Needs E X (.term Γ rule (.ref ident d) vals inp) (.term [] ident t vals inp)
  | default {Γ rule ident t vals inp} : lookup ident vals = none → t.quotable E = true →
      Needs E X (.term Γ rule (.ref ident (some t)) vals inp) (.term [] ident t vals inp)

/-- Deciding `G` leads to deciding `G'`, in any number of steps. -/
inductive Reaches (E : Engine) (X : Externals) : Goal → Goal → Prop
  | refl {G} : Reaches E X G G
  | step {G G' G''} : Needs E X G G' → Reaches E X G' G'' → Reaches E X G G''

end Wbnf

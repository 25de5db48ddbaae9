import Verif.Model.Term

/-!
# The choices made in a tree
-/

namespace Wbnf

/-- The choices made in a tree of a term, outside of names and rules, in the order of the text. -/
inductive Picks : Term → Tree → List Nat → Prop
  | leaf {t s} : Picks t (.leaf s) []
  | rule {r v} : Picks (.rule r) v []
  | named {name t v} : Picks (.named name t) v []
  | ref {i d v} : Picks (.ref i d) v []
  | cut {t v is} : Picks t v is → Picks (.cut t) v is
  | scope {t g v is} : Picks t v is → Picks (.scope t g) v is
  | look {t tag x v is} : Picks t v is → Picks (.look t) (.node tag x [v]) is
  | oneof {ts t tag i v is} : ts[i]? = some t → Picks t v is → Picks (.oneof ts) (.node tag (.choice i) [v]) (i :: is)
  | seqNil {tag x} : Picks (.seq []) (.node tag x []) []
  | seqCons {t ts tag x v vs is js} : Picks t v is → Picks (.seq ts) (.node tag x vs) js →
      Picks (.seq (t :: ts)) (.node tag x (v :: vs)) (is ++ js)
  | quantNil {t lo hi tag x} : Picks (.quant t lo hi) (.node tag x []) []
  | quantCons {t lo hi tag x v vs is js} : Picks t v is → Picks (.quant t lo hi) (.node tag x vs) js →
      Picks (.quant t lo hi) (.node tag x (v :: vs)) (is ++ js)
  | delimNil {t sep a cs ce tag x} : Picks (.delim t sep a cs ce) (.node tag x []) []
  /-- a missing term at the start or the end -/
  | delimEmpty {t sep a cs ce tag x vs is} : Picks (.delim sep t a cs ce) (.node tag x vs) is →
      Picks (.delim t sep a cs ce) (.node tag x (.empty :: vs)) is
  /-- terms and separators take turns -/
  | delimCons {t sep a cs ce tag x v vs is js} : Picks t v is → Picks (.delim sep t a cs ce) (.node tag x vs) js →
      Picks (.delim t sep a cs ce) (.node tag x (v :: vs)) (is ++ js)

end Wbnf

import Verif.Model.TermString
import Verif.Spec.Reorder
import Verif.Lemmas.CodegenOrder

/-!
# The text of a term does not depend on the order of the maps in it
-/

namespace Wbnf

variable {quote : Str → Str}

theorem defsString_perm {m m' : List (Str × Str)} (h : m.Perm m') (hd : (m.map Prod.fst).Nodup) : defsString m = defsString m' := by
  have hk : sortStrings (m.map Prod.fst) = sortStrings (m'.map Prod.fst) := sortStrings_perm_eq (h.map _)
  have hl : ∀ k, lookup k m = lookup k m' := lookup_perm h hd
  simp only [defsString, hk, hl]

theorem keys_stringDefs (quote : Str → Str) : ∀ g : Grammar, (stringDefs quote g).map Prod.fst = g.map Prod.fst
  | [] => rfl
  | (k, t) :: g => by rw [stringDefs, List.map_cons, List.map_cons, keys_stringDefs quote g]

mutual
theorem Reord.string : {t t' : Term} → Reord t t' → t.Tidy → t.string quote = t'.string quote
  | _, _, .rule, _ => rfl
  | _, _, .s, _ => rfl
  | _, _, .re, _ => rfl
  | _, _, .ref, _ => rfl
  | _, _, .ext, _ => rfl
  | _, _, .seq h, ht => by simp only [Term.string]; rw [h.strings ht]
  | _, _, .oneof h, ht => by simp only [Term.string]; rw [h.strings ht]
  | _, _, .stack h, ht => by simp only [Term.string]; rw [h.strings ht]
  | _, _, .delim h h', ht => by simp only [Term.string]; rw [h.string ht.1, h'.string ht.2]
  | _, _, .look h, ht => by simp only [Term.string]; rw [h.string (by simpa [Term.Tidy] using ht)]
  | _, _, .quant h, ht => by simp only [Term.string]; rw [h.string (by simpa [Term.Tidy] using ht)]
  | _, _, .named h, ht => by simp only [Term.string]; rw [h.string (by simpa [Term.Tidy] using ht)]
  | _, _, .cut h, ht => by simp only [Term.string]; rw [h.string (by simpa [Term.Tidy] using ht)]
  | .scope t g, _, .scope h h', ht => by
    simp only [Term.string]
    rw [h.string ht.1, defsString_perm (h'.strings ht.2.1) (by rw [keys_stringDefs]; exact ht.2.2.1)]
theorem ReordList.strings : {ts ts' : List Term} → ReordList ts ts' → tidyList ts → stringTerms quote ts = stringTerms quote ts'
  | _, _, .nil, _ => rfl
  | _, _, .cons h h', ht => by simp only [stringTerms]; rw [h.string ht.1, h'.strings ht.2]
theorem ReordDefs.strings : {g g' : Grammar} → ReordDefs g g' → tidyDefs g → (stringDefs quote g).Perm (stringDefs quote g')
  | _, _, .nil, _ => .refl _
  | _, _, .cons h h', ht => by simp only [stringDefs]; rw [h.string ht.1]; exact (h'.strings ht.2).cons _
  | _, _, .swap, _ => .swap ..
  | _, _, .trans h h', ht => (h.strings ht).trans (h'.strings (h.tidy ht))
end

end Wbnf

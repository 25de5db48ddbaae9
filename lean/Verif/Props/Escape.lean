import Verif.Lemmas.EscapeNested
import Verif.Lemmas.CodegenOrder
import Verif.Lemmas.Parts
import Verif.Props.Consume

/-!
# C62: external handlers and escapes

`ParseWithExternals` takes a map of handlers. The handler of `name` is called for `%%name`; the handler with a key `*open()close` is called wherever
the text has the opening delimiter, whatever the grammar expects there. `Escaped` (Spec/Escape) says what is parsed then.
-/

namespace Wbnf

variable {E : Engine} {X : Externals} {e : Escape} {ρ : Nat → Nat} {n : Nat} {ps : Parsers} {r : Str} {inp : Scanner} {refs refs' : List (Str × Handler)}

/-! ## The map -/

/-- The handlers are used in the same way whatever the order in which Go goes through the map. -/
theorem C62_order (hp : refs.Perm refs') (hn : (refs.map (·.1)).Nodup) :
    ps.parseWithExternals E ρ n r inp refs = ps.parseWithExternals E ρ n r inp refs' := by
  have : withExternals E refs = withExternals E refs' := by
    unfold withExternals
    rw [escapeOf_perm hp, funext fun k => lookup_perm hp hn k]
  simp only [Parsers.parseWithExternals, this]

/-- The map is refused, by a panic, exactly when it has two escapes, or one whose key has no `()` or whose delimiters are not regexps. -/
theorem C62_refused (hn : (refs.map (·.1)).Nodup) : withExternals E refs = none ↔
    (∃ key ∈ refs.map (·.1), EscapeKey key ∧ ¬ EscapeKey.Usable E key) ∨
    ∃ key ∈ refs.map (·.1), ∃ key' ∈ refs.map (·.1), EscapeKey key ∧ EscapeKey key' ∧ key ≠ key' := by
  simp only [withExternals, Option.map_eq_none_iff]
  constructor
  · intro h
    by_cases h1 : ∃ key ∈ refs.map (·.1), EscapeKey key ∧ ¬ EscapeKey.Usable E key
    · exact .inl h1
    · by_cases h2 : ∃ key ∈ refs.map (·.1), ∃ key' ∈ refs.map (·.1), EscapeKey key ∧ EscapeKey key' ∧ key ≠ key'
      · exact .inr h2
      · refine absurd h (escapeOf_isSome hn (fun key hm he => ?_) fun key key' hm hm' he he' => ?_)
        · exact Classical.byContradiction fun hu => h1 ⟨key, hm, he, hu⟩
        · exact Classical.byContradiction fun hu => h2 ⟨key, hm, key', hm', he, he', hu⟩
  · intro h
    cases ho : escapeOf E refs none with
    | none => rfl
    | some o =>
      obtain ⟨h1, _, h3⟩ := escapeOf_unset ho
      rcases h with ⟨key, hm, he, hu⟩ | ⟨key, hm, key', hm', he, he', hne⟩
      · obtain ⟨⟨_, f⟩, hf, rfl⟩ := List.mem_map.1 hm
        obtain ⟨op, cl, h4, h5, h6, _⟩ := h1 _ f hf he
        exact absurd ⟨op, cl, h4, h5, h6⟩ hu
      · exact absurd (h3 key key' hm hm' he he') hne

/-- Every handler is found under its key. The escape has the delimiters of its key, at the beginning of the rest of the text, and the handler of its key. -/
theorem C62_handlers (hn : (refs.map (·.1)).Nodup) (h : withExternals E refs = some X) :
    (∀ key f, X.refs key = some f ↔ (key, f) ∈ refs) ∧
    (∀ e, X.esc = some e ↔ ∃ key f op cl, (key, f) ∈ refs ∧ DelimsOf key op cl ∧ e = ⟨anchor ++ op, anchor ++ cl, f⟩) := by
  simp only [withExternals, Option.map_eq_some_iff] at h
  obtain ⟨o, ho, rfl⟩ := h
  obtain ⟨h1, h2, h3⟩ := escapeOf_unset ho
  refine ⟨fun key f => ⟨lookup_mem, lookup_of_mem hn⟩, fun e => ⟨fun he => ?_, ?_⟩⟩
  · by_cases hk : ∃ key ∈ refs.map (·.1), EscapeKey key
    · obtain ⟨key, hm, hk⟩ := hk
      obtain ⟨⟨_, f⟩, hf, rfl⟩ := List.mem_map.1 hm
      obtain ⟨op, cl, h4, _, _, rfl⟩ := h1 _ f hf hk
      exact ⟨_, f, op, cl, hf, h4, (Option.some.inj he).symm⟩
    · have := h2 fun key hm he => hk ⟨key, hm, he⟩
      simp only at he
      rw [this] at he
      cases he
  · rintro ⟨key, f, op, cl, hf, hd, rfl⟩
    have hk : EscapeKey key := by obtain ⟨more, rfl, _⟩ := hd; exact ⟨_, rfl⟩
    obtain ⟨op', cl', h4, _, _, rfl⟩ := h1 _ f hf hk
    obtain ⟨k, rfl⟩ := hk
    obtain ⟨rest, h5⟩ := delimsOf_iff.1 hd
    obtain ⟨rest', h6⟩ := delimsOf_iff.1 h4
    rw [h5] at h6
    simp only [List.cons.injEq] at h6
    rw [h6.1, h6.2.1]

/-! ## The escape -/

/-- Where the opening delimiter is nowhere in the text, a parse is as if there were no escape. -/
theorem C62_unused (hE : E.Sane) (hX : X.Sane) (he : X.esc = some e) (hin : inp.InRange) (h : e.Absent E inp) :
    ps.run E X ρ n r inp = ps.run E X.withoutEscape ρ n r inp := by
  unfold Parsers.run
  split
  · rfl
  · exact parse_absent hE hX he n _ _ _ _ _ h hin

/-- Where the opening delimiter is, every term of every grammar is parsed as the escape says, unless the parse panics. -/
theorem C62_escape (hE : E.Sane) (hX : X.Sane) (he : X.esc = some e) (hin : inp.InRange) {m : Int} (hm : MatchesFirst E e.openDelim inp m)
    {env p sc k res} (h : parse E X ρ n env p sc inp k = res) (hp : res ≠ .panic) (ho : res ≠ .oof) : ∃ c, Escaped E e c inp m res :=
  parse_opened hE hX he hin hm hp ho n h

/-- The same for the rule that is parsed: after the delimiter, the grammar makes no difference. -/
theorem C62_escape_rule (hE : E.Sane) (hX : X.Sane) (he : X.esc = some e) (hin : inp.InRange) {m : Int} (hm : MatchesFirst E e.openDelim inp m)
    {v rest k} (h : ps.run E X ρ n r inp = .ok v rest k) :
    ∃ c i m', HasRead (e.external c (inp.skip m)) v i ∧ MatchesFirst E e.closeDelim i m' ∧ rest = i.skip m' := by
  unfold Parsers.run at h
  split at h
  · cases h
  · obtain ⟨c, hc⟩ := C62_escape hE hX he hin hm h (by simp) (by simp)
    cases hc with
    | read h1 h2 => exact ⟨c, _, _, h1, h2, rfl⟩

/-- With handlers that return trees over the text they were given, all leaves of a tree that have any text are inside of the text, whatever the grammar. -/
theorem C62_leaves (hE : E.Sane) (hX : X.Sane) (hH : X.Honest) (hin : inp.InRange) {v rest k} (h : ps.run E X ρ n r inp = .ok v rest k) :
    ∀ s ∈ v.leaves, s.len ≠ 0 → s.src = inp.src ∧ inp.start ≤ s.start ∧ 0 ≤ s.len ∧ s.start + s.len ≤ inp.start + inp.len :=
  run_inside hE hX hH hin h

/-- A handler that parses with the parsers of a grammar takes text from the front, and its trees are over the text it was given. So does one that
is given such handlers, to any depth. -/
theorem C62_nested (hE : E.Sane) (hX : X.Sane) (hH : X.Honest) : Handler.Sane (nested E X ρ n ps r) ∧ Handler.Honest (nested E X ρ n ps r) :=
  ⟨nested_sane hE hX hH, nested_honest hE hX hH⟩

/-! ## Examples -/

namespace EscapeEx
open Ex

theorem sane_none : noExternals.Sane := ⟨fun _ _ h => by simp [noExternals] at h, fun _ h => by simp [noExternals] at h⟩
theorem honest_none : noExternals.Honest := ⟨fun _ _ h => by simp [noExternals] at h, fun _ h => by simp [noExternals] at h⟩

/-- `x -> "h";` -/
def gInner : Grammar := [(str "x", .s (str "h"))]
/-- `x -> "a" ref="h" "c";` -/
def gOuter : Grammar := [(str "x", .seq [.s (str "a"), .named (str "ref") (.s (str "h")), .s (str "c")])]
/-- `x -> "a":",";` -/
def gList : Grammar := [(str "x", .delim (.s (str "a")) (.s (str ",")) 0 false false)]
/-- `x -> "c" (?= "b") "b";` -/
def gLook : Grammar := [(str "x", .seq [.s (str "c"), .look (.s (str "b")), .s (str "b")])]
/-- `x -> %%k | "a";` -/
def gExt : Grammar := [(str "x", .oneof [.ext (str "k"), .s (str "a")])]

def inner : Handler := nested regexp noExternals ρ0 300 (comp! gInner) (str "x")
def table : List (Str × Handler) := [(str "k", inner), (str "*<()>", inner)]
def ext : Externals := ⟨fun name => lookup name table, some ⟨anchor ++ str "<", anchor ++ str ">", inner⟩⟩

theorem inner_ok : Handler.Sane inner ∧ Handler.Honest inner := C62_nested regexp_sane sane_none honest_none

theorem lookup_inner {name : Str} {f : Handler} (h : lookup name table = some f) : f = inner := by
  simp only [table, lookup] at h
  split at h
  · exact (Option.some.inj h).symm
  · split at h
    · exact (Option.some.inj h).symm
    · cases h

theorem ext_sane : ext.Sane := ⟨fun _ _ h => lookup_inner h ▸ inner_ok.1, fun _ h => Option.some.inj h ▸ inner_ok.1⟩
theorem ext_honest : ext.Honest := ⟨fun _ _ h => lookup_inner h ▸ inner_ok.2, fun _ h => Option.some.inj h ▸ inner_ok.2⟩

def run (g : Grammar) (s : String) : Obs := obs ((comp! g).parseWithExternals regexp ρ0 300 (str "x") (newScanner (str s)) table)

end EscapeEx

open Ex EscapeEx

example : ¬ EscapeKey (str "k") ∧ DelimsOf (str "*<()>") (str "<") (str ">") ∧ EscapeKey.Usable regexp (str "*<()>") := by
  have hd : DelimsOf (str "*<()>") (str "<") (str ">") := ⟨[], by decide +kernel, by decide +kernel, by decide +kernel, .inl rfl⟩
  refine ⟨?_, hd, str "<", str ">", hd, by decide +kernel, by decide +kernel⟩
  rintro ⟨k, h⟩
  have h : (str "k").head? = some 42 := by rw [h]; rfl
  revert h
  decide +kernel

theorem EscapeEx.table_ext : withExternals regexp table = some ext := by
  have h1 : ¬ EscapeKey (str "k") := by
    rintro ⟨k, h⟩
    have h : (str "k").head? = some 42 := by rw [h]; rfl
    revert h
    decide +kernel
  have h2 : DelimsOf (str "*<()>") (str "<") (str ">") := ⟨[], by decide +kernel, by decide +kernel, by decide +kernel, .inl rfl⟩
  unfold withExternals
  rw [table, escapeOf_skip h1, escapeOf_usable h2 (by decide +kernel) (by decide +kernel)]
  rfl

/-- `a<h>c` is read as `ahc` is. -/
example : EscapeEx.run gOuter "a<h>c" = .ok (some (str "x[a, h, c]")) 5 0 ∧ EscapeEx.run gOuter "ahc" = .ok (some (str "x[a, h, c]")) 3 0 := by decide +kernel

/-- The escape of `ext` opens at the second byte. -/
example : MatchesFirst regexp (anchor ++ str "<") ⟨some ⟨str "a<h>c", []⟩, 1, 4⟩ 1 ∧ ¬ Escape.Absent regexp ⟨anchor ++ str "<", anchor ++ str ">", inner⟩ (newScanner (str "a<h>c")) := by
  refine ⟨⟨str "<h>c", [], by decide +kernel, by decide +kernel⟩, fun h => ?_⟩
  have := h (str "a") (str "<h>c") (by decide +kernel)
  revert this
  decide +kernel

/-- There is none in `ahc`. -/
example : Escape.Absent regexp ⟨anchor ++ str "<", anchor ++ str ">", inner⟩ (newScanner (str "ahc")) := by
  intro before after h
  have h : before ++ after = str "ahc" := by
    have h1 : (newScanner (str "ahc")).toStr = some (str "ahc") := by decide +kernel
    rw [h1] at h
    exact (Option.some.inj h).symm
  have h2 : ∀ after ∈ [str "ahc", str "hc", str "c", []], regexp.find (anchor ++ str "<") after = none := by decide +kernel
  have h3 : after = (str "ahc").drop before.length := by rw [← h]; simp
  have h4 : before.length ≤ 3 := by have := congrArg List.length h; simp [str] at this; omega
  have h5 : ∀ j ≤ 3, (str "ahc").drop j ∈ [str "ahc", str "hc", str "c", []] := by decide +kernel
  exact h2 after (h3 ▸ h5 _ h4)

/-- A rule that begins with the delimiter: the tree is that of the handler, not one of the rule. The delimiter may be left open only by an error. -/
example : EscapeEx.run gOuter "<h>" = .ok (some (str "h")) 3 0 ∧ EscapeEx.run gOuter "<h" = .err .other 2 0 ∧ EscapeEx.run gOuter "<x>" = .err .parse 1 2 := by decide +kernel

/-! ## What does not hold -/

/-- After an item of a list with separators an escape panics: its tree is taken for that of the repetition. Elsewhere in the list it does not. -/
theorem C62_list_panics : EscapeEx.run gList "a,<h>" = .ok (some (utf8 "x║:[a, ,, h]")) 5 0 ∧ EscapeEx.run gList "a<h>" = .panic := by decide +kernel

/-- A look-ahead takes an escape from the text. -/
theorem C62_look_consumes : EscapeEx.run gLook "cb" ≠ EscapeEx.run gLook "c<h>b" ∧ (∃ v, EscapeEx.run gLook "c<h>b" = .ok v 5 0) := by
  refine ⟨by decide +kernel, some (str "x[c, h, b]"), by decide +kernel⟩

/-- Without the handler of `%%k`, the alternatives after it are not tried. -/
theorem C62_missing : obs ((comp! gExt).parse regexp noExternals ρ0 300 (str "x") (newScanner (str "a"))) = .err .fatal 0 1 ∧
    EscapeEx.run gExt "a" = .ok (some (utf8 "x║1[a]")) 1 0 := by decide +kernel

/-- A delimiter with alternatives is only anchored in the first; a text with another one somewhere panics. -/
theorem C62_alternatives_panic :
    obs ((comp! gOuter).parseWithExternals regexp ρ0 300 (str "x") (newScanner (str "ahc")) [(str "*<|c()>", inner)]) = .panic := by decide +kernel

end Wbnf

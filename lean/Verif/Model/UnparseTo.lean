import Verif.Model.Unparse

/-!
# Model of parser/unparse.go with writers that may fail

`Model/Unparse` returns what is written if every `Write` succeeds. Here the writer is any: what a `Write` returns may depend on all that
was written before. Bytes written before a panic are not recorded, as there.
-/

namespace Wbnf

/-- `io.Writer`: given the slices written so far and the next one, the number `Write` returns and whether it returns an error. -/
abbrev Writer := List Str → Str → Nat × Bool

/-- What `Unparse` did: the slices given to `Write` (after those before), the number it returns, and whether it returns an error. -/
structure Wrote where
  calls : List Str
  n : Nat
  failed : Bool
  deriving DecidableEq

/-- parser/unparse.go:13, 17, 20 `w.Write`. -/
def Writer.write (w : Writer) (x : Str) (calls : List Str) : Wrote := ⟨calls ++ [x], (w calls x).1, (w calls x).2⟩

/-- parser/unparse.go:23-29 `unparse`, where it is called in loops: the number is added if there is no error, and else the error is returned with the
number so far. -/
def Wrote.andThen (o : Wrote) (so : Nat) (next : List Str → Nat → Except Stop Wrote) : Except Stop Wrote :=
  if o.failed then .ok ⟨o.calls, so, true⟩ else next o.calls (so + o.n)

/-- parser/unparse.go:31-39 `Seq.Unparse`. -/
def unparseSeqTo (f : Term → Tree → List Str → Except Stop Wrote) : List Term → List Tree → List Str → Nat → Except Stop Wrote
  | [], _, calls, so => .ok ⟨calls, so, false⟩
  | _ :: _, [], _, _ => .error .panic
  | t :: ts, v :: vs, calls, so => (f t v calls).bind fun o => o.andThen so (unparseSeqTo f ts vs)

/-- parser/unparse.go:57-73: the loop of `LookAhead.Unparse` and `Quant.Unparse`. -/
def unparseAllTo (f : Tree → List Str → Except Stop Wrote) : List Tree → List Str → Nat → Except Stop Wrote
  | [], calls, so => .ok ⟨calls, so, false⟩
  | v :: vs, calls, so => (f v calls).bind fun o => o.andThen so (unparseAllTo f vs)

/-- parser/unparse.go:46-55 and parser/parser.go:482-500, as `unparseDelim`. -/
def unparseDelimTo (f : Term → Tree → List Str → Except Stop Wrote) (sep : Term) : Term → Term → Bool → List Tree → List Str → Nat → Except Stop Wrote
  | _, _, _, [], calls, so => .ok ⟨calls, so, false⟩
  | side, other, true, v :: vs, calls, so =>
    (f sep v calls).bind fun o => o.andThen so (unparseDelimTo f sep side other false vs)
  | side, other, false, v :: vs, calls, so =>
    (f side v calls).bind fun o => o.andThen so (unparseDelimTo f sep other side true vs)

/-- parser/unparse.go: `Unparse` of each term, to any writer. -/
def unparseTo (w : Writer) : Nat → Grammar → Term → Tree → List Str → Except Stop Wrote
  | 0, _, _, _, _ => .error .oof
  | n + 1, g, t, e, calls =>
    match t with
    | .s _ => (leafText e).bind fun x => .ok (w.write x calls)                        -- 12-14
    | .re _ => (leafText e).bind fun x => .ok (w.write x calls)                       -- 16-18
    | .ref _ _ => (leafText e).bind fun x => .ok (w.write (str "\\" ++ x) calls)      -- 19-21
    | .seq ts =>                                                                      -- 31-39
      match e with
      | .node _ _ cs => unparseSeqTo (unparseTo w n g) ts cs calls 0
      | _ => .error .panic
    | .oneof ts =>                                                                    -- 41-44
      match e with
      | .node _ (.choice i) (c :: _) =>
        match ts[i]? with
        | some t => unparseTo w n g t c calls
        | none => .error .panic
      | _ => .error .panic
    | .delim t' sep a cs ce =>                                                        -- 46-55, parser.go:502-511
      match e with
      | .node _ (.assoc a') vs =>
        if a' < 0 then unparseDelimTo (unparseTo w n g) sep t' (.delim t' sep a cs ce) false vs calls 0
        else if a' > 0 then unparseDelimTo (unparseTo w n g) sep (.delim t' sep a cs ce) t' false vs calls 0
        else unparseDelimTo (unparseTo w n g) sep t' t' false vs calls 0
      | _ => .error .panic
    | .look t' =>                                                                     -- 57-64
      match e with
      | .node _ _ vs => unparseAllTo (unparseTo w n g t') vs calls 0
      | _ => .error .panic
    | .quant t' _ _ =>                                                                -- 66-73
      match e with
      | .node _ _ vs => unparseAllTo (unparseTo w n g t') vs calls 0
      | _ => .error .panic
    | .rule r =>                                                                      -- 77-79
      match lookup r g with
      | some t' => unparseTo w n g t' e calls
      | none => .error .panic
    | .named _ t' => (unparseTo w n g t' e calls).bind fun o => o.andThen 0 fun c k => .ok ⟨c, k, false⟩ -- 89-92
    | .cut t' => unparseTo w n g t' e calls                                           -- 100-102
    | .stack _ => .error .panic                                                       -- 83-85
    | .scope _ _ => .error .panic                                                     -- 96-98
    | .ext _ => .error .panic                                                         -- 104-106

/-- parser/terms.go:21-24 `Grammar.Unparse` and terms.go:46-48 `Parsers.Unparse`, to any writer to which nothing has been written. -/
def Grammar.unparseTo (w : Writer) (n : Nat) (g : Grammar) : Tree → Except Stop Wrote
  | .node tag x cs =>
    match lookup tag g with
    | some t => Wbnf.unparseTo w n g t (.node tag x cs) []
    | none => .error .panic
  | _ => .error .panic

end Wbnf

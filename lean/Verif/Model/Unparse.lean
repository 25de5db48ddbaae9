import Verif.Model.Compile

/-!
# Model of parser/unparse.go

`Unparse` writes to an `io.Writer`; the model returns the bytes written. Simplified: the writer never
fails, and bytes written before a panic are not recorded. Fuel bounds the recursion (rules may be
recursive); `.oof` stands for "not finished yet".
-/

namespace Wbnf

/-- unparse.go:13,17,20 `e.(Scanner).String()`; anything but a scanner panics. -/
def leafText : Tree → Except Stop Str
  | .leaf s => match s.toStr with
    | some x => .ok x
    | none => .error .panic
  | _ => .error .panic

/-- unparse.go:31-40 `Seq.Unparse`: a missing child panics, surplus children are ignored. -/
def unparseSeq (f : Term → Tree → Except Stop Str) : List Term → List Tree → Except Stop Str
  | [], _ => .ok []
  | _ :: _, [] => .error .panic
  | t :: ts, v :: vs => (f t v).bind fun x => (unparseSeq f ts vs).bind fun y => .ok (x ++ y)

/-- unparse.go:57-73: the loop of `LookAhead.Unparse` and `Quant.Unparse`. -/
def unparseAll (f : Tree → Except Stop Str) : List Tree → Except Stop Str
  | [] => .ok []
  | v :: vs => (f v).bind fun x => (unparseAll f vs).bind fun y => .ok (x ++ y)

/-- parser.go:482-500 `LRTGen.Next` in the loop of unparse.go:49-53: `side` and `other` are the terms of
the next two sides, `sepnext` says whether a separator is next. -/
def unparseDelim (f : Term → Tree → Except Stop Str) (sep : Term) : Term → Term → Bool → List Tree → Except Stop Str
  | _, _, _, [] => .ok []
  | side, other, true, v :: vs =>
    (f sep v).bind fun x => (unparseDelim f sep side other false vs).bind fun y => .ok (x ++ y)
  | side, other, false, v :: vs =>
    (f side v).bind fun x => (unparseDelim f sep other side true vs).bind fun y => .ok (x ++ y)

/-- unparse.go: `Unparse` of each term. `g[t]` of a missing rule (line 78) is nil, and calling it panics. -/
def unparse : Nat → Grammar → Term → Tree → Except Stop Str
  | 0, _, _, _ => .error .oof
  | n + 1, g, t, e =>
    match t with
    | .s _ => leafText e                                                   -- 12-14
    | .re _ => leafText e                                                  -- 16-18
    | .ref _ _ => (leafText e).bind fun x => .ok (str "\\" ++ x)           -- 19-21
    | .seq ts =>                                                           -- 31-39
      match e with
      | .node _ _ cs => unparseSeq (unparse n g) ts cs
      | _ => .error .panic
    | .oneof ts =>                                                         -- 41-44
      match e with
      | .node _ (.choice i) (c :: _) =>
        match ts[i]? with
        | some t => unparse n g t c
        | none => .error .panic
      | _ => .error .panic
    | .delim t' sep a cs ce =>                                             -- 46-55, parser.go:502-511
      match e with
      | .node _ (.assoc a') vs =>
        if a' < 0 then unparseDelim (unparse n g) sep t' (.delim t' sep a cs ce) false vs
        else if a' > 0 then unparseDelim (unparse n g) sep (.delim t' sep a cs ce) t' false vs
        else unparseDelim (unparse n g) sep t' t' false vs
      | _ => .error .panic
    | .look t' =>                                                          -- 57-64
      match e with
      | .node _ _ vs => unparseAll (unparse n g t') vs
      | _ => .error .panic
    | .quant t' _ _ =>                                                     -- 66-73
      match e with
      | .node _ _ vs => unparseAll (unparse n g t') vs
      | _ => .error .panic
    | .rule r =>                                                           -- 77-79
      match lookup r g with
      | some t' => unparse n g t' e
      | none => .error .panic
    | .named _ t' => unparse n g t' e                                      -- 89-92
    | .cut t' => unparse n g t' e                                          -- 100-102
    | .stack _ => .error .panic                                            -- 83-85
    | .scope _ _ => .error .panic                                          -- 96-98
    | .ext _ => .error .panic                                              -- 104-106

/-- parser/terms.go:21-24 `Grammar.Unparse` and terms.go:46-48 `Parsers.Unparse`: the rule is the tag of
the tree. -/
def Grammar.unparse (n : Nat) (g : Grammar) : Tree → Except Stop Str
  | .node tag x cs =>
    match lookup tag g with
    | some t => Wbnf.unparse n g t (.node tag x cs)
    | none => .error .panic
  | _ => .error .panic

end Wbnf

import Verif.Model.Import

/-!
# Model of the paths of imports

cmd/test.go:71-84 (the resolver of the commands) and wbnf/compile.go:321-325, 344. The functions of `path/filepath` are not in
/repo; they are modelled as documented, for Unix: paths are lists of elements between slashes, not edited byte by byte.
Symbolic links do not matter to them.
-/

namespace Wbnf

/-- What is between the slashes of a path. -/
def pathElems : Str → List Str
  | [] => [[]]
  | c :: s =>
    if c = 47 then [] :: pathElems s
    else
      match pathElems s with
      | [] => [[c]]
      | e :: es => (c :: e) :: es

/-- `strings.Join(es, "/")`. -/
def slashed : List Str → Str
  | [] => []
  | [e] => e
  | e :: es => e ++ 47 :: slashed es

/-- Whether a path starts with a slash (`filepath.IsAbs`). -/
def rooted (p : Str) : Bool := p.head? == some 47

/-- `filepath.Clean`, for one element; `out` is what is kept so far, last first. -/
def cleanElem (abs : Bool) (out : List Str) (e : Str) : List Str :=
  if e = [] ∨ e = str "." then out
  else if e = str ".." then
    match out with
    | [] => if abs then [] else [str ".."]
    | o :: os => if o = str ".." then str ".." :: o :: os else os
  else e :: out

/-- `filepath.Clean`. -/
def cleanPath (p : Str) : Str :=
  let out := ((pathElems p).foldl (cleanElem (rooted p)) []).reverse
  if rooted p then 47 :: slashed out
  else if out.isEmpty then str "."
  else slashed out

/-- `filepath.Join`: empty elements at the start are left out. -/
def joinPath (es : List Str) : Str :=
  match es.dropWhile (· == []) with
  | [] => []
  | es => cleanPath (slashed es)

/-- `filepath.Dir`: all but what is after the last slash. -/
def dirPath (p : Str) : Str := cleanPath (p.reverse.dropWhile (· != 47)).reverse

/-- cmd/test.go:75-80 `Resolve`. -/
def resolvePath (base src file : Str) : Str :=
  if src = [] then cleanPath (joinPath [base, file])                                                 -- 76-78
  else cleanPath (joinPath [base, src, file])                                                        -- 79

/-- The files as the commands see them: `first` is the file of the grammar, or of the input; cmd/test.go:82-84 `makeResolver`
and wbnf/compile.go:321-324. -/
def cmdFiles (read : Str → Option Str) (parse : Str → Option GrammarN) (first : Str) : Files where
  read := read
  parse := parse
  path src p := resolvePath (dirPath first) src (joinPath p)
  clean := cleanPath

/-- The files as seen without a resolver (`Compile(text, nil)`); wbnf/compile.go:321. -/
def plainFiles (read : Str → Option Str) (parse : Str → Option GrammarN) : Files where
  read := read
  parse := parse
  path _ p := joinPath p
  clean := cleanPath

end Wbnf

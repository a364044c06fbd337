import Verif.Model.Base

/-!
# setup.py

The functions of the build script with logic of their own: the search for Cython modules, the
reading of the build directory from the command line, the reading of the version from the file that
`setuptools_scm` writes, and the removal of a compiler flag. Text is a list of characters.
-/

namespace KML.Setup

/-- Text. -/
abbrev Text := List Char

/-- A file or a directory with what `os.listdir` gives for it, in that order. -/
inductive Entry
  | file (name : Text)
  | dir (name : Text) (entries : List Entry)

/-- `s.replace(pat, "")`: every occurrence of `pat`, from the left. `fuel` bounds the steps;
`s.length` is enough. -/
def removeAll (pat : Text) : (fuel : ℕ) → Text → Text
  | 0, s => s
  | _ + 1, [] => []
  | fuel + 1, c :: s =>
    if pat.isPrefixOf (c :: s) then removeAll pat fuel ((c :: s).drop pat.length)
    else c :: removeAll pat fuel s

/-- `s.replace(a, b)` for single characters. -/
def replaceChar (a b : Char) (s : Text) : Text := s.map fun c => if c = a then b else c

/-- `".pyx"`. -/
def pyx : Text := ['.', 'p', 'y', 'x']

/-- The module name of one file. `root` is `CYTHON_DIR.parent`. /repo/setup.py:165-166. -/
def moduleName (root path : Text) : Text :=
  let p := removeAll (root ++ ['/']) path.length path
  (replaceChar '/' '.' p).take (p.length - 4)

mutual

/-- The loop of `scandir`. /repo/setup.py:162-169. -/
def scanDir (root dir : Text) : List Entry → List Text
  | [] => []
  | e :: es => scanEntry root dir e ++ scanDir root dir es

/-- One turn of the loop. /repo/setup.py:163-168. -/
def scanEntry (root dir : Text) : Entry → List Text
  | .file name =>
    let path := dir ++ '/' :: name
    if pyx.isSuffixOf path then [moduleName root path] else []
  | .dir name entries => scanDir root (dir ++ '/' :: name) entries

end

/-- `get_extensions`: the name and the source of every extension. `CYTHON_DIR` is `kml` in
`root`; `PurePath` joins the texts (no part is empty or starts with a slash).
/repo/setup.py:172-193, 16. -/
def extensions (root : Text) (entries : List Entry) : List (Text × Text) :=
  (scanDir root (root ++ "/kml".toList) entries).map fun name =>
    (name, "tools/cython/".toList ++ (replaceChar '.' '/' name ++ pyx))

/-- `a.split("=")[-1]`. -/
def afterEq (a : Text) : Text := (a.reverse.takeWhile (· ≠ '=')).reverse

/-- The loop of `get_buildlib` over the arguments left. /repo/setup.py:84-94. -/
def buildLibLoop : (acc : Text) → List Text → Res Text
  | acc, [] => .ok acc
  | acc, a :: rest =>
    if a = "build_ext".toList then
      match (a :: rest).find? ("--build-lib".toList.isPrefixOf ·) with
      | some b => buildLibLoop (afterEq b) rest
      | none => buildLibLoop acc rest
    else if "-w".toList.isPrefixOf a then
      match rest with
      | [] => .throw "IndexError"
      | v :: _ => .ok v
    else buildLibLoop acc rest

/-- `get_buildlib` up to `os.path.relpath`. /repo/setup.py:75-98. -/
def buildLib (argv : List Text) : Res Text := buildLibLoop "./build".toList argv

/-! ## get_version -/

/-- `s.splitlines()`. Only `\n` ends a line; the generated file has no other line ends. -/
def splitLines : Text → List Text
  | [] => []
  | c :: t =>
    if c = '\n' then [] :: splitLines t
    else match splitLines t with
      | [] => [[c]]
      | l :: ls => (c :: l) :: ls

/-- An element of a tuple: a whole number in decimals, or a text in single quotes. -/
inductive Item
  | num (digits : Text)
  | str (s : Text)
deriving DecidableEq

/-- What `literal_eval` returns. -/
inductive Literal
  | item (i : Item)
  | tuple (is : List Item)
deriving DecidableEq

/-- `str(x)`. -/
def Item.show : Item → Text
  | .num d => d
  | .str s => s

/-- Reads an item off the front: decimals without leading zeros, or a text in single quotes without
backslashes. -/
def parseItem : Text → Option (Item × Text)
  | [] => none
  | c :: t =>
    if c = '\'' then
      let s := t.takeWhile (· ≠ '\'')
      match t.dropWhile (· ≠ '\'') with
      | [] => none
      | _ :: rest => if '\\' ∈ s then none else some (.str s, rest)
    else
      let d := (c :: t).takeWhile Char.isDigit
      if d = [] ∨ (c = '0' ∧ d ≠ ['0']) then none
      else some (.num d, (c :: t).dropWhile Char.isDigit)

/-- Items with `, ` between them, up to the closing bracket. `fuel` bounds their number. -/
def parseItems : (fuel : ℕ) → Text → Option (List Item)
  | 0, _ => none
  | fuel + 1, t =>
    match parseItem t with
    | none => none
    | some (i, [')']) => some [i]
    | some (i, ',' :: ' ' :: rest) => (parseItems fuel rest).map (i :: ·)
    | some _ => none

/-- `ast.literal_eval` for whole numbers, texts in single quotes, and tuples of two or more of them
as Python prints them. Simplification: every other text raises, though Python has more literals. -/
def literalEval (t : Text) : Res Literal :=
  match t with
  | '(' :: rest =>
    match parseItems t.length rest with
    | some (a :: b :: is) => .ok (.tuple (a :: b :: is))
    | _ => .throw "SyntaxError"
  | _ =>
    match parseItem t with
    | some (i, []) => .ok (.item i)
    | _ => .throw "SyntaxError"

/-- `v[:3]` and `str` of every element: a text has its characters as elements, a number none.
/repo/setup.py:67-68. -/
def firstThree : Literal → Res (List Text)
  | .tuple is => .ok ((is.take 3).map Item.show)
  | .item (.str s) => .ok ((s.take 3).map fun c => [c])
  | .item (.num _) => .throw "TypeError"

/-- `get_version`. The argument is the text of `_version.py`, `none` if it cannot be opened.
`lstrip` removes blanks only. /repo/setup.py:54-71. -/
def getVersion : Option Text → Res Text
  | none => .ok []
  | some t =>
    match (splitLines t).getLast? with
    | none => .throw "IndexError"
    | some line => do
      let v ← literalEval ((afterEq line).dropWhile (· = ' '))
      let parts ← firstThree v
      return List.intercalate ['.'] parts

/-! ## build_extensions -/

/-- `"-Wstrict-prototypes"`. -/
def strictPrototypes : Text := "-Wstrict-prototypes".toList

/-- `xs.remove(x)` of a Python list: the first element equal to `x`, an exception if there is
none. -/
def listRemove (x : Text) : List Text → Res (List Text)
  | [] => .throw "ValueError"
  | y :: ys => if y = x then .ok ys else do
      let zs ← listRemove x ys
      return y :: zs

/-- What `build_extensions` makes of the compile command before it builds.
/repo/setup.py:101-111. -/
def stripFlag (cmd : List Text) : Res (List Text) :=
  if strictPrototypes ∈ cmd then listRemove strictPrototypes cmd else .ok cmd

end KML.Setup

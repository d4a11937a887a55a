/-!
# Names of files

Model of the functions of `File` and `Pathname` that work on the names alone: `File.join`, `basename`,
`dirname`, `extname`, `split`, `expand_path`, `absolute_path` (monoruby/src/builtins/file.rs,
monoruby/builtins/file.rb) and `Pathname#cleanpath`, `relative_path_from`, `ascend`
(monoruby/builtins/pathname_builtins.rb); and of what is done to a name before the system is asked.

A name is a list of characters, which stand for its bytes: only `/`, `.` and `~` matter to this code.
Not modelled: encodings, NUL bytes, conversion of other objects with `to_path`.
-/

namespace Verif.PathName

/-- a name, or one of its components -/
abbrev Str := List Char

/-- `split(|&b| b == b'/')` (standard library) -/
def splitSl : Str → List Str
  | [] => [[]]
  | c :: r =>
    if c = '/' then [] :: splitSl r
    else match splitSl r with
      | [] => [[c]]
      | x :: xs => (c :: x) :: xs

/-- names with a slash between each two -/
def withSlashes : List Str → Str
  | [] => []
  | [x] => x
  | x :: y :: r => x ++ '/' :: withSlashes (y :: r)

/-- a name without the slashes at its end -/
def dropTrail (s : Str) : Str := (s.reverse.dropWhile (· == '/')).reverse

/-! ## File.join -/

/-- one round of the loop of `File.join` (file.rs:482-503) after the first -/
def joinStep (path part : Str) : Str :=
  let left := path.getLast? == some '/'
  let right := part.head? == some '/'
  if left && right then dropTrail path ++ part
  else if !left && !right then path ++ '/' :: part
  else path ++ part

/-- `File.join` of Strings (file.rs:431-504); Arrays are flattened before -/
def join : List Str → Str
  | [] => []
  | p :: ps => ps.foldl joinStep p

/-! ## Parts of a name -/

/-- `File.basename(name)` (file.rs:704-712) -/
def base (s : Str) : Str :=
  if s = [] then []
  else match (splitSl s).reverse.find? (fun c => c ≠ []) with
    | some c => c
    | none => ['/']

/-- the place of the last dot (`rposition`) -/
def lastDot : Str → Option Nat
  | [] => none
  | c :: r => match lastDot r with
    | some i => some (i + 1)
    | none => if c = '.' then some 0 else none

/-- `File.basename(name, ".*")` (file.rs:714-723) -/
def baseNoExt (s : Str) : Str :=
  if s = [] then []
  else match lastDot (base s) with
    | some pos => if pos > 0 then (base s).take pos else base s
    | none => base s

/-- `File.basename(name, suffix)` (file.rs:695-728) -/
def basename (s suffix : Str) : Str :=
  if suffix = [] then base s
  else if s = [] then []
  else if suffix = ['.', '*'] then baseNoExt s
  else if suffix.isSuffixOf (base s) then (base s).take ((base s).length - suffix.length)
  else base s

/-- `File.extname` (file.rs:790-822): of what follows the last slash -/
def extname (s : Str) : Str :=
  let b := (splitSl s).getLast?.getD []
  match lastDot b with
  | some pos =>
    if (b.take pos).all (· == '.') then []
    else if pos + 1 < b.length then b.drop pos else ['.']
  | none => []

/-- the place of the last slash (`rindex("/")`) -/
def lastSlash : Str → Option Nat
  | [] => none
  | c :: r => match lastSlash r with
    | some i => some (i + 1)
    | none => if c = '/' then some 0 else none

/-- one slash for the slashes at the beginning: `sub(%r{\A/+}, "/")` -/
def squeezeLead (s : Str) : Str :=
  if s.head? = some '/' then '/' :: s.dropWhile (· == '/') else s

/-- `_dirname_once` (file.rb:114-124) -/
def dirnameOnce (path : Str) : Str :=
  if path ≠ [] ∧ path.all (· == '/') then ['/']
  else
    let s := dropTrail path
    if s = [] then ['.']
    else match lastSlash s with
      | none => ['.']
      | some idx =>
        let pre := dropTrail (s.take idx)
        if pre = [] then ['/'] else squeezeLead pre

/-- `File.dirname(path, level)` (file.rb:94-112) -/
def dirname (path : Str) : Nat → Str
  | 0 => path
  | n + 1 => if dirnameOnce path = path then path else dirname (dirnameOnce path) n

/-! ## expand_path -/

/-- one component in `normalize_abs_bytes` (file.rs:635-643) -/
def cleanStep (acc : List Str) (c : Str) : List Str :=
  if c = [] ∨ c = ['.'] then acc
  else if c = ['.', '.'] then acc.dropLast
  else acc ++ [c]

/-- `normalize_abs_bytes` (file.rs:632-652): the leading slashes stay -/
def normalizeAbs (s : Str) : Str :=
  let lead := max 1 (s.takeWhile (· == '/')).length
  List.replicate lead '/' ++ withSlashes ((splitSl (s.drop lead)).foldl cleanStep [])

/-- `expand_path_bytes` (file.rs:548-576) without a default directory.  `home` gives the home
directory of a user, of `$HOME` for the empty name; `none` raises ArgumentError. -/
def expand1 (cwd : Str) (home : Str → Option Str) (path : Str) : Option Str :=
  match path with
  | '~' :: rest =>
    match home (rest.takeWhile (· != '/')) with
    | none => none
    | some h => if h.head? = some '/' then some (normalizeAbs (h ++ rest.dropWhile (· != '/'))) else none
  | '/' :: _ => some (normalizeAbs path)
  | _ => some (normalizeAbs ((if cwd.getLast? = some '/' then cwd else cwd ++ ['/']) ++ path))

/-- `File.expand_path(path, dir)` (file.rs:548-576) -/
def expandPath (cwd : Str) (home : Str → Option Str) (path : Str) (dir : Option Str) : Option Str :=
  match dir with
  | none => expand1 cwd home path
  | some d =>
    match path with
    | '~' :: _ => expand1 cwd home path
    | '/' :: _ => expand1 cwd home path
    | _ =>
      match expand1 cwd home d with
      | none => none
      | some b => some (normalizeAbs ((if b.getLast? = some '/' then b else b ++ ['/']) ++ path))

/-- `PathBuf::push` of a relative name (standard library) -/
def pushPath (b p : Str) : Str :=
  if b = [] ∨ b.getLast? = some '/' then b ++ p else b ++ '/' :: p

/-- `File.absolute_path(path, dir)` (file.rs:1656-1681) -/
def absolutePath (cwd : Str) (path : Str) (dir : Option Str) : Str :=
  if path.head? = some '/' then path else pushPath (dir.getD cwd) path

/-! ## What the system is asked -/

/-- `Path::iter` (standard library) without the root: empty components and `.` are left out, but for
a `.` at the beginning -/
def components (s : Str) : List Str :=
  let cs := (splitSl s).filter (fun c => c ≠ [] && c ≠ ['.'])
  if s = ['.'] ∨ ['.', '/'].isPrefixOf s then ['.'] :: cs else cs

/-- one round of `normalize_pathbuf` (file.rs:1740-1746): `file_name` is there if the last component
is neither `.` nor `..` -/
def normStep (acc : List Str) (c : Str) : List Str :=
  match acc.getLast? with
  | some l => if c = ['.', '.'] ∧ l ≠ ['.'] ∧ l ≠ ['.', '.'] then acc.dropLast else acc ++ [c]
  | none => acc ++ [c]

/-- `normalize_pathbuf` (file.rs:1738-1748), whether it begins at the root and its components -/
def normPath (s : Str) : Bool × List Str :=
  (s.head? == some '/', (components s).foldl normStep [])

/-- the name handed to the system by `File.exist?`, `file?`, `directory?`, `read`, `stat`, `rename`
and the other methods that go through `to_path` (file.rs:1731-1734) -/
def toPath (s : Str) : Str :=
  (if (normPath s).1 then ['/'] else []) ++ withSlashes (normPath s).2

/-- `File.split` (file.rs:1704-1726): the directory and the last component of the same -/
def fileSplit (s : Str) : Str × Str :=
  let (root, ns) := normPath s
  let dir := if ns = [] then [] else (if root then ['/'] else []) ++ withSlashes ns.dropLast
  let file : Str := match ns.getLast? with
    | some l => if l = ['.'] ∨ l = ['.', '.'] then [] else l
    | none => if root then ['/'] else []
  (if dir = [] then ['.'] else dir, file)

/-! ## Pathname -/

/-- `rindex(base)`: the last place where `b` begins -/
def rindex (b : Str) : Str → Option Nat
  | [] => if b = [] then some 0 else none
  | c :: r => match rindex b r with
    | some i => some (i + 1)
    | none => if b.isPrefixOf (c :: r) then some 0 else none

/-- `chop_basename` (pathname_builtins.rb:359-366) -/
def chop (path : Str) : Option (Str × Str) :=
  if base path = [] ∨ base path = ['/'] then none
  else some (path.take ((rindex (base path) path).getD 0), base path)

/-- the loop `while r = chop_basename(pre)` of several methods (372-375): what is left, and the names
in order.  A name never has more components than characters: `fuel` is enough if it is more than the
length. -/
def chopAll : Nat → Str → List Str → Str × List Str
  | 0, pre, ns => (pre, ns)
  | f + 1, pre, ns => match chop pre with
    | none => (pre, ns)
    | some (pre', b) => chopAll f pre' (b :: ns)

/-- `split_names` (370-377) -/
def splitNames (path : Str) : Str × List Str := chopAll (path.length + 1) path []

/-- one round of the loop of `cleanpath_aggressive` (419-432) -/
def aggrStep (b : Str) (names : List Str) : List Str :=
  if b = ['.'] then names
  else if b = ['.', '.'] then b :: names
  else match names with
    | [] => [b]
    | n :: r => if n = ['.', '.'] then r else b :: n :: r

/-- `prepend_prefix` (380-390) -/
def prepend (pre rel : Str) : Str :=
  if rel = [] then dirnameOnce pre
  else if '/' ∈ pre then
    let p := dirnameOnce pre
    (if base (p ++ ['a']) ≠ ['a'] then join [p, []] else p) ++ rel
  else pre ++ rel

/-- `Pathname#cleanpath` (403-438); the names come from the end of the path -/
def cleanpath (path : Str) : Str :=
  let (pre, bs) := splitNames path
  let names := bs.foldr aggrStep []
  let names := if '/' ∈ base pre then names.dropWhile (· == ['.', '.']) else names
  prepend pre (join names)

/-- leading names in common taken off (844-849) -/
def stripCommon : List Str → List Str → List Str × List Str
  | d :: ds, b :: bs => if d = b then stripCommon ds bs else (d :: ds, b :: bs)
  | ds, bs => (ds, bs)

/-- `Pathname#relative_path_from` (826-861); `none` raises ArgumentError -/
def relativePathFrom (dest bdir : Str) : Option Str :=
  let (dp, dn) := splitNames (cleanpath dest)
  let (bp, bn) := splitNames (cleanpath bdir)
  let dn := dn.filter (fun n => n ≠ ['.'])
  let bn := bn.filter (fun n => n ≠ ['.'])
  if dp ≠ bp then none
  else
    let (dn, bn) := stripCommon dn bn
    if bn.contains ['.', '.'] then none
    else
      let rel := bn.map (fun _ => ['.', '.']) ++ dn
      if rel = [] then some ['.'] else some (join rel)

end Verif.PathName

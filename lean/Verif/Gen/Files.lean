import Verif.Gen.Gen

/-!
# Model of the file handling of the proxy generator, /repo/tool/ferry.gen.go:29-94, 115-119, 158, 164-228 and 251-292

Input: what `filepath.Walk` finds below the working directory, in its order, with the declarations that `go/parser` finds
in the files.  Output: the contents of `proxy.gen.go`.  Simplified: letters outside ASCII are left alone by `lower`, but
changed by `strings.ToLower`; the date in the header of the output (line 257) is left out; `go/format`, which ends the
program if the output is not well-formed (lines 218-221), and failures of `ioutil.WriteFile`, which `main` does not look
at (line 54), are not modelled.
-/

namespace Verif.Gen

open Verif

/-- A file: its path relative to the working directory, and its `*ast.GenDecl` nodes in the order of `ast.Inspect`,
which also descends into functions; `none` if the file does not parse.  /repo/tool/ferry.gen.go:73-81. -/
structure File where
  path : List Char
  decls : Option (List Decl)
  deriving DecidableEq, Repr

/-- A call of the function passed to `filepath.Walk`, /repo/tool/ferry.gen.go:35: with a file, with a directory, or with
an error, for instance because a directory cannot be read. -/
inductive Entry where
  | file (f : File)
  | dir (path : List Char)
  | failed
  deriving DecidableEq, Repr

/-- The loop of `path.Ext` (Go library), from the end of the path: `acc` is what has been passed.  Called in
/repo/tool/ferry.gen.go:61. -/
def extRev : List Char → List Char → List Char
  | [], _ => []
  | c :: rest, acc => if c = '/' then [] else if c = '.' then '.' :: acc else extRev rest (c :: acc)

/-- `path.Ext` (Go library), used in /repo/tool/ferry.gen.go:61: the part of the last element of the path from its last dot on. -/
def ext (path : List Char) : List Char := extRev path.reverse []

/-- `strings.Contains` (Go library), used in /repo/tool/ferry.gen.go:66 -/
def contains (s sub : List Char) : Bool :=
  match s with
  | [] => sub.isPrefixOf []
  | c :: rest => sub.isPrefixOf (c :: rest) || contains rest sub

/-- /repo/tool/ferry.gen.go:25 -/
def cFileExt : List Char := ".go".toList

/-- /repo/tool/ferry.gen.go:26 -/
def cGenFile : List Char := "proxy.gen.go".toList

/-- `ignore`, /repo/tool/ferry.gen.go:60-71 -/
def ignore (file : List Char) : Bool := if cFileExt ≠ ext file then true else contains file cGenFile

/-- The loop of `ast.Inspect` in `scanFile`, /repo/tool/ferry.gen.go:80-91 -/
def scanDecls : List Decl → Res (List AstTarget)
  | [] => .ok []
  | d :: ds => do
    let t ← parseDecl d
    let ts ← scanDecls ds
    match t with
    | some t => return t :: ts
    | none => return ts

/-- `scanFile`, /repo/tool/ferry.gen.go:73-94; each target with its `Source`, line 115 -/
def scanFile (f : File) : Res (List (List Char × AstTarget)) :=
  match f.decls with
  | none => .fatal
  | some ds => do
    let ts ← scanDecls ds
    return ts.map fun t => (f.path, t)

/-- The walk of `main`, /repo/tool/ferry.gen.go:35-48.  An error ends the walk (lines 36-38); `main` does not look at
the result of `filepath.Walk` and goes on with the targets found so far. -/
def scanAll : List Entry → Res (List (List Char × AstTarget))
  | [] => .ok []
  | .failed :: _ => .ok []
  | .dir _ :: es => scanAll es
  | .file f :: es =>
    if ignore f.path then scanAll es
    else do
      let a ← scanFile f
      let b ← scanAll es
      return a ++ b

/-- `strings.ToLower` (Go library), used in /repo/tool/ferry.gen.go:117 -/
def lower (s : List Char) : List Char := s.map Char.toLower

/-- `target.Proxy`, /repo/tool/ferry.gen.go:117 -/
def proxyName (t : AstTarget) : List Char := lower (t.name.toList ++ "proxy".toList)

/-- `target.Methods[m.Name] = m`, /repo/tool/ferry.gen.go:158, for a map written as the list of its values in the order of
the keys, which is the order in which the template visits them, line 272 -/
def putMethod (m : AstMethod) : List AstMethod → List AstMethod
  | [] => [m]
  | x :: xs =>
    if m.name = x.name then m :: xs
    else if m.name.toList < x.name.toList then m :: x :: xs
    else x :: putMethod m xs

/-- The map after the loop of lines 120-159 -/
def methodMap (ms : List AstMethod) : List AstMethod := ms.foldl (fun l m => putMethod m l) []

/-- A proxy in the generated file, /repo/tool/ferry.gen.go:266-284: comment, struct type and methods. -/
structure Proxy where
  source : List Char
  interface : String
  type : List Char
  methods : List GenMethod
  deriving DecidableEq, Repr

/-- The generated file: the proxies and, in `init`, the calls of `ferry.Register` (name and proxy type),
/repo/tool/ferry.gen.go:251-292. -/
structure Output where
  proxies : List Proxy
  registered : List (String × List Char)
  deriving DecidableEq, Repr

/-- `genProxyCode`, /repo/tool/ferry.gen.go:164-225 -/
def genProxyCode (targets : List (List Char × AstTarget)) : Output where
  proxies := targets.map fun t => ⟨t.1, t.2.name, proxyName t.2, (methodMap t.2.methods).map (genMethod t.2.name)⟩
  registered := targets.map fun t => (t.2.name, proxyName t.2)

/-- `main`, /repo/tool/ferry.gen.go:29-58: what `proxy.gen.go` contains afterwards, if it contained `old` before. -/
def generate (walk : List Entry) (old : Option Output) : Res (Option Output) := do
  let targets ← scanAll walk
  if 0 < targets.length then return some (genProxyCode targets)
  else return old

end Verif.Gen

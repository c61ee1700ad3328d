import Verif.Base

/-!
# Model of the proxy generator, /repo/tool/ferry.gen.go

Input: the declarations that `go/parser` finds in a file, as syntax trees.  Output: the proxies, where the parts of the
template that depend on commas are sequences of tokens.  Not modelled: files, `go/parser`, `go/format`, the fixed text
of the template, and the HTML escaping of `html/template`, which does not change identifiers; `Text.lean` has these two.
-/

namespace Verif.Gen

open Verif

/-- A type expression: an identifier (`*ast.Ident`), or anything else.  /repo/tool/ferry.gen.go:134 and 152. -/
inductive TExpr where
  | ident (name : String)
  | other
  deriving DecidableEq, Repr

/-- An `*ast.Field` of a parameter or result list: `x, y T` is one field with two names.  /repo/tool/ferry.gen.go:131
and 143. -/
structure Field where
  names : List String
  ty : TExpr
  deriving DecidableEq, Repr

/-- An `*ast.Field` of an interface: a method, or an embedded interface, which has no name.
/repo/tool/ferry.gen.go:120-122. -/
inductive Member where
  | method (name : String) (params results : List Field)
  | embedded
  deriving DecidableEq, Repr

/-- An `*ast.TypeSpec`: an interface type, or another type.  /repo/tool/ferry.gen.go:107-108. -/
inductive Spec where
  | iface (name : String) (members : List Member)
  | other (name : String)
  deriving DecidableEq, Repr

/-- An `*ast.GenDecl`: a type declaration, or an import, constant or variable declaration.
/repo/tool/ferry.gen.go:96-105. -/
inductive Decl where
  | types (specs : List Spec)
  | other
  deriving DecidableEq, Repr

/-- `astMethod`, /repo/tool/ferry.gen.go:236-242; `PCount` and `RCount` are the lengths. -/
structure AstMethod where
  name : String
  params : List (String × String)
  results : List (String × String)
  deriving DecidableEq, Repr

/-- `astTarget`, /repo/tool/ferry.gen.go:244-249; `Methods` is a map, traversed by the template in the order of its keys;
the methods of an interface have different names, so the order plays no role here. -/
structure AstTarget where
  name : String
  methods : List AstMethod
  deriving DecidableEq, Repr

/-- `param.Type.(*ast.Ident).Name`, /repo/tool/ferry.gen.go:134 and 152. -/
def typeName : TExpr → Res String
  | .ident n => .ok n
  | .other => .panic

/-- Lines 132-135: `param.Names[0].Name` panics for a parameter without a name. -/
def parseParam (f : Field) : Res (String × String) := do
  let n ← match f.names with
    | n :: _ => Res.ok n
    | [] => .panic
  let t ← typeName f.ty
  return (n, t)

/-- Lines 144-153. -/
def parseResult (f : Field) : Res (String × String) := do
  let t ← typeName f.ty
  return (f.names.headD "", t)

/-- `append` in a loop.  /repo/tool/ferry.gen.go:131-136, 143-154 and 120-159. -/
def parseAll {α β : Type} (g : α → Res β) : List α → Res (List β)
  | [] => .ok []
  | x :: xs => do
    let y ← g x
    let ys ← parseAll g xs
    return y :: ys

/-- Lines 121-158: `field.Names[0]` panics for an embedded interface. -/
def parseMember : Member → Res AstMethod
  | .embedded => .panic
  | .method n ps rs => do
    let ps ← parseAll parseParam ps
    let rs ← parseAll parseResult rs
    return ⟨n, ps, rs⟩

/-- `parseFile`, /repo/tool/ferry.gen.go:96-162; `none` if `ok` is false.  `decl.Specs[0]` panics for `type ()`. -/
def parseDecl : Decl → Res (Option AstTarget)
  | .other => .ok none
  | .types [] => .panic
  | .types (_ :: _ :: _) => .ok none
  | .types [.other _] => .ok none
  | .types [.iface n ms] => do
    let ms ← parseAll parseMember ms
    return some ⟨n, ms⟩

/-- Tokens of the generated code; `lit` is a default value, `result k t` is `results[k].(t)`, `quoted` a string
literal.  /repo/tool/ferry.gen.go:273-281. -/
inductive Tok where
  | ident (s : String)
  | quoted (s : String)
  | lit (s : String)
  | result (k : Nat) (t : String)
  | comma
  deriving DecidableEq, Repr

/-- `comma`, /repo/tool/ferry.gen.go:170-176. -/
def comma (index length : Nat) : List Tok := if index + 1 < length then [.comma] else []

/-- `default`, /repo/tool/ferry.gen.go:176-207. -/
def defaultOf (t : String) : String :=
  match t with
  | "bool" => "false"
  | "int" => "0"
  | "int8" => "0"
  | "int16" => "0"
  | "int32" => "0"
  | "int64" => "0"
  | "uint" => "0"
  | "uint8" => "0"
  | "uint16" => "0"
  | "uint32" => "0"
  | "uint64" => "0"
  | "float32" => "0"
  | "float64" => "0"
  | _ => "nil"

/-- `{{range $i, $x := xs}}`.  /repo/tool/ferry.gen.go:273-281. -/
def rangeFrom {α : Type} (f : Nat → α → List Tok) : Nat → List α → List Tok
  | _, [] => []
  | i, x :: xs => f i x ++ rangeFrom f (i + 1) xs

/-- /repo/tool/ferry.gen.go:273-281 -/
def range {α : Type} (f : Nat → α → List Tok) (xs : List α) : List Tok := rangeFrom f 0 xs

/-- A generated method, /repo/tool/ferry.gen.go:273-282. -/
structure GenMethod where
  name : String
  /-- between the parentheses of the parameters, line 273 -/
  params : List Tok
  /-- between the parentheses of the results, line 273 -/
  results : List Tok
  /-- `CallWithResult`, line 274, instead of `Call`, line 275 -/
  withResult : Bool
  /-- the arguments of this call -/
  args : List Tok
  /-- behind `return` in line 278 -/
  onError : List Tok
  /-- behind `return` in line 281 -/
  onSuccess : List Tok
  deriving DecidableEq, Repr

/-- The template for a method of the interface `target`.  /repo/tool/ferry.gen.go:273-282. -/
def genMethod (target : String) (m : AstMethod) : GenMethod where
  name := m.name
  params := range (fun j p => [.ident p.1, .ident p.2] ++ if j ≤ m.params.length then [.comma] else []) m.params
  results := range (fun k r => .ident r.2 :: comma k m.results.length) m.results
  withResult := decide (0 < m.results.length)
  args := [.quoted target, .comma, .quoted m.name, .comma] ++
    range (fun j p => .ident p.1 :: comma j m.params.length) m.params
  onError := range (fun k r => .lit (defaultOf r.2) :: comma k m.results.length) m.results
  onSuccess := if 0 < m.results.length then
    range (fun k r => .result k r.2 :: comma k m.results.length) m.results else []

end Verif.Gen

import Verif.Gen.Files

/-!
# The text of the generated file, /repo/tool/ferry.gen.go:164-225 and 251-292

The template as characters, and what the scanner of the Go compiler (and of `go/format`, line 218) makes of them.
-/

namespace Verif.Gen

open Verif

/-! ## The template -/

/-- How `html/template` (Go library, imported in /repo/tool/ferry.gen.go:14) writes a character of a string into text that is not inside
a tag; the fixed text of the template contains no tags. -/
def escapeChar (c : Char) : List Char :=
  if c = '"' then "&#34;".toList
  else if c = '&' then "&amp;".toList
  else if c = '\'' then "&#39;".toList
  else if c = '+' then "&#43;".toList
  else if c = '<' then "&lt;".toList
  else if c = '>' then "&gt;".toList
  else if c = Char.ofNat 0 then [Char.ofNat 0xFFFD]
  else [c]

/-- `{{x}}` for a string, /repo/tool/ferry.gen.go:257-289. -/
def escape (s : List Char) : List Char := s.flatMap escapeChar

/-- `{{range $i, $x := xs}}`, /repo/tool/ferry.gen.go:266-289. -/
def rangeText {α : Type} (f : Nat → α → List Char) : Nat → List α → List Char
  | _, [] => []
  | i, x :: xs => f i x ++ rangeText f (i + 1) xs

/-- `comma`, /repo/tool/ferry.gen.go:170-176. -/
def commaText (index length : Nat) : List Char := if index + 1 < length then escape ",".toList else []

/-- `{{$k}}` for a number, /repo/tool/ferry.gen.go:281. -/
def numberText (k : Nat) : List Char := Nat.toDigits 10 k

/-- Lines 273-282 of /repo/tool/ferry.gen.go, for a method of the interface `target` with the proxy `proxy`. -/
def methodText (target proxy : List Char) (m : AstMethod) : List Char :=
  "\nfunc (p *".toList ++ escape proxy ++ ") ".toList ++ escape m.name.toList ++ "(".toList ++
  rangeText (fun j p => escape p.1.toList ++ " ".toList ++ escape p.2.toList ++
    if j ≤ m.params.length then ", ".toList else []) 0 m.params ++
  ")".toList ++
  (if 0 < m.results.length then
    "(".toList ++ rangeText (fun k r => escape r.2.toList ++ commaText k m.results.length) 0 m.results ++ ")".toList
  else []) ++
  "{\n\t".toList ++
  (if 0 < m.results.length then
    "results, err := p.slot.CallWithResult(".toList ++ ("\"".toList ++ escape target ++ "\"".toList) ++ ", ".toList ++
    ("\"".toList ++ escape m.name.toList ++ "\"".toList) ++ ", ".toList ++
    rangeText (fun j p => escape p.1.toList ++ commaText j m.params.length) 0 m.params ++ ")\n\t".toList
  else
    "err := p.slot.Call(".toList ++ ("\"".toList ++ escape target ++ "\"".toList) ++ ", ".toList ++
    ("\"".toList ++ escape m.name.toList ++ "\"".toList) ++ ", ".toList ++
    rangeText (fun j p => escape p.1.toList ++ commaText j m.params.length) 0 m.params ++ ")\n\t".toList) ++
  "\n\tif nil != err {\n\t\treturn ".toList ++
  rangeText (fun k r => escape (defaultOf r.2).toList ++ commaText k m.results.length) 0 m.results ++
  "\n\t}".toList ++
  (if 0 < m.results.length then
    "\n\t\n\treturn ".toList ++
    rangeText (fun k r => "results[".toList ++ numberText k ++ "].(".toList ++ escape r.2.toList ++ ")".toList ++
      commaText k m.results.length) 0 m.results
  else []) ++
  "\n}\n".toList

/-- Lines 267-284 of /repo/tool/ferry.gen.go, for a target with its `Source`; the methods in the order in which the template
visits the map (C114). -/
def targetText (t : List Char × AstTarget) : List Char :=
  "\n// ".toList ++ escape t.2.name.toList ++ " from: ".toList ++ escape t.1 ++
  "\ntype ".toList ++ escape (proxyName t.2) ++ " struct {\n\tslot ferry.ISlot\n}\n\n".toList ++
  (methodMap t.2.methods).flatMap (methodText t.2.name.toList (proxyName t.2)) ++
  "\n// end ".toList ++ escape t.2.name.toList ++ "\n".toList

/-- Line 289 of /repo/tool/ferry.gen.go. -/
def registerText (t : List Char × AstTarget) : List Char :=
  "ferry.Register(".toList ++ ("\"".toList ++ escape t.2.name.toList ++ "\"".toList) ++
  ", func(slot ferry.ISlot) interface{} { return &".toList ++ escape (proxyName t.2) ++ "{slot: slot} })\n".toList

/-- The template, /repo/tool/ferry.gen.go:251-292, executed in line 213: the text that is passed to `format.Source`. -/
def fileText (date : List Char) (targets : List (List Char × AstTarget)) : List Char :=
  ("\n//\n// This code was generated by ferry tool.\n// \n// Changes to this file may cause incorrect behavior and will be lost" ++
    " if the code is regenerated.\n// \n// ").toList ++ escape date ++
  "\n//\n\npackage main\n\nimport (\n\t\"github.com/muguangyi/ferry\"\n)\n\n".toList ++
  targets.flatMap targetText ++
  "\n\n// Register to ferry\nfunc init() {\n".toList ++ targets.flatMap registerText ++ "\n}\n".toList

/-! ## The scanner -/

/-- Tokens of Go.  `semi` is a semicolon that is inserted at the end of a line.  Not from /repo: the scanner of
/repo/tool/ferry.gen.go:218. -/
inductive T where
  | word (s : List Char)
  | str (s : List Char)
  | rune (s : List Char)
  | op (c : Char)
  | semi
  | bad
  deriving DecidableEq, Repr

/-- What the scanner of /repo/tool/ferry.gen.go:218 is in the middle of. -/
inductive Mode where
  | idle
  | word (s : List Char)
  | slash
  | line
  | block
  | star
  | str (s : List Char)
  | strEsc (s : List Char)
  | raw (s : List Char)
  | rune (s : List Char)
  | runeEsc (s : List Char)
  deriving DecidableEq, Repr

/-- The characters of identifiers and numbers; all letters outside ASCII are taken for such.  For /repo/tool/ferry.gen.go:218. -/
def wordChar (c : Char) : Bool := c.isAlphanum || c == '_' || decide (128 ≤ c.toNat)

/-- The keywords of Go.  For /repo/tool/ferry.gen.go:218. -/
def keywords : List (List Char) :=
  ["break", "case", "chan", "const", "continue", "default", "defer", "else", "fallthrough", "for", "func", "go", "goto", "if",
    "import", "interface", "map", "package", "range", "return", "select", "struct", "switch", "type", "var"].map String.toList

/-- Is a semicolon inserted at a line that ends with this word?  For /repo/tool/ferry.gen.go:218. -/
def endsLine (s : List Char) : Bool :=
  !(keywords.contains s) || (["break", "continue", "fallthrough", "return"].map String.toList).contains s

/-- The end of a line, behind a token at which a semicolon is inserted, or not.  For /repo/tool/ferry.gen.go:218. -/
def newline (nl : Bool) : List T := if nl then [.semi] else []

/-- A character that begins something new.  Operators are taken character by character.  For /repo/tool/ferry.gen.go:218. -/
def fresh (nl : Bool) (c : Char) : List T × Mode × Bool :=
  if c = '\n' then (newline nl, .idle, false)
  else if c = ' ' ∨ c = '\t' ∨ c = '\r' then ([], .idle, nl)
  else if c = '"' then ([], .str [], nl)
  else if c = '`' then ([], .raw [], nl)
  else if c = '\'' then ([], .rune [], nl)
  else if c = '/' then ([], .slash, nl)
  else if wordChar c then ([], .word [c], nl)
  else ([.op c], .idle, c = ')' ∨ c = ']' ∨ c = '}')

/-- The next character.  The flag says whether a semicolon is inserted if the line ends.  For /repo/tool/ferry.gen.go:218. -/
def scan : Mode × Bool → Char → List T × Mode × Bool
  | (.idle, nl), c => fresh nl c
  | (.word s, nl), c =>
    if wordChar c then ([], .word (s ++ [c]), nl) else
      let r := fresh (endsLine s) c
      (.word s :: r.1, r.2)
  | (.slash, nl), c =>
    if c = '/' then ([], .line, nl) else if c = '*' then ([], .block, nl) else
      let r := fresh false c
      (.op '/' :: r.1, r.2)
  | (.line, nl), c => if c = '\n' then (newline nl, .idle, false) else ([], .line, nl)
  | (.block, nl), c => if c = '*' then ([], .star, nl) else if c = '\n' then (newline nl, .block, false) else ([], .block, nl)
  | (.star, nl), c =>
    if c = '/' then ([], .idle, nl) else if c = '*' then ([], .star, nl) else if c = '\n' then (newline nl, .block, false)
    else ([], .block, nl)
  | (.str s, nl), c =>
    if c = '"' then ([.str s], .idle, true) else if c = '\\' then ([], .strEsc s, nl)
    else if c = '\n' then ([.bad], .idle, false) else ([], .str (s ++ [c]), nl)
  | (.strEsc s, nl), c => ([], .str (s ++ ['\\', c]), nl)
  | (.raw s, nl), c => if c = '`' then ([.str s], .idle, true) else ([], .raw (s ++ [c]), nl)
  | (.rune s, nl), c =>
    if c = '\'' then ([.rune s], .idle, true) else if c = '\\' then ([], .runeEsc s, nl)
    else if c = '\n' then ([.bad], .idle, false) else ([], .rune (s ++ [c]), nl)
  | (.runeEsc s, nl), c => ([], .rune (s ++ ['\\', c]), nl)

/-- The scanner on a text.  For /repo/tool/ferry.gen.go:218. -/
def scanAllChars : Mode × Bool → List Char → List T × Mode × Bool
  | st, [] => ([], st)
  | st, c :: cs =>
    let a := scan st c
    let b := scanAllChars a.2 cs
    (a.1 ++ b.1, b.2)

/-- The end of the text.  For /repo/tool/ferry.gen.go:218. -/
def finish : Mode × Bool → List T
  | (.idle, nl) => newline nl
  | (.word s, _) => .word s :: newline (endsLine s)
  | (.slash, _) => [.op '/']
  | (.line, nl) => newline nl
  | _ => [.bad]

/-- The tokens of a Go file.  For /repo/tool/ferry.gen.go:218. -/
def tokens (text : List Char) : List T :=
  let r := scanAllChars (.idle, false) text
  r.1 ++ finish r.2

/-! ## The tokens of the model of `Gen.lean` -/

/-- A word of the template.  /repo/tool/ferry.gen.go:251-292. -/
def w (s : String) : T := .word s.toList

/-- The characters of a token of `GenMethod` as Go tokens.  /repo/tool/ferry.gen.go:273-281. -/
def Tok.go : Tok → List T
  | .ident s => [w s]
  | .quoted s => [.str s.toList]
  | .lit s => [w s]
  | .result k t => [w "results", .op '[', .word (numberText k), .op ']', .op '.', .op '(', w t, .op ')']
  | .comma => [.op ',']

/-- A method of a proxy.  /repo/tool/ferry.gen.go:273-282. -/
def GenMethod.go (proxy : List Char) (g : GenMethod) : List T :=
  [w "func", .op '(', w "p", .op '*', .word proxy, .op ')', w g.name, .op '('] ++ g.params.flatMap Tok.go ++ [.op ')'] ++
  (if g.withResult then [.op '('] ++ g.results.flatMap Tok.go ++ [.op ')'] else []) ++ [.op '{'] ++
  (if g.withResult then [w "results", .op ',', w "err", .op ':', .op '=', w "p", .op '.', w "slot", .op '.', w "CallWithResult", .op '(']
    else [w "err", .op ':', .op '=', w "p", .op '.', w "slot", .op '.', w "Call", .op '(']) ++
  g.args.flatMap Tok.go ++ [.op ')', .semi] ++
  [w "if", w "nil", .op '!', .op '=', w "err", .op '{', w "return"] ++ g.onError.flatMap Tok.go ++ [.semi, .op '}', .semi] ++
  (if g.withResult then [w "return"] ++ g.onSuccess.flatMap Tok.go ++ [.semi] else []) ++ [.op '}', .semi]

/-- A proxy.  /repo/tool/ferry.gen.go:266-284. -/
def Proxy.go (p : Proxy) : List T :=
  [w "type", .word p.type, w "struct", .op '{', w "slot", w "ferry", .op '.', w "ISlot", .semi, .op '}', .semi] ++
  p.methods.flatMap (GenMethod.go p.type)

/-- A registration.  /repo/tool/ferry.gen.go:289. -/
def registerGo (r : String × List Char) : List T :=
  [w "ferry", .op '.', w "Register", .op '(', .str r.1.toList, .op ',', w "func", .op '(', w "slot", w "ferry", .op '.', w "ISlot", .op ')',
    w "interface", .op '{', .op '}', .op '{', w "return", .op '&', .word r.2, .op '{', w "slot", .op ':', w "slot", .op '}', .op '}', .op ')', .semi]

/-- The generated file.  /repo/tool/ferry.gen.go:251-292. -/
def Output.go (o : Output) : List T :=
  [w "package", w "main", .semi, w "import", .op '(', .str "github.com/muguangyi/ferry".toList, .semi, .op ')', .semi] ++
  o.proxies.flatMap Proxy.go ++ [w "func", w "init", .op '(', .op ')', .op '{'] ++ o.registered.flatMap registerGo ++ [.op '}', .semi]

end Verif.Gen

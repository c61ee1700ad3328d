import Verif.Props.Gen6

/-!
# C156: the proxies that are checked in are those of the sources

/repo/test/proxy.gen.go was written by a run of the generator, so that this also compares the model of the generator with the program.
-/

namespace Verif.Props

open Verif Verif.Gen

/-- /repo/test/proxy.gen.go:1-94, character by character. -/
def checkedIn : List Char :=
  "//\n// This code was generated by ferry tool.\n//\n".toList ++
  "// Changes to this file may cause incorrect behavior and will be lost if the code is regenerated.\n//\n".toList ++
  "// 2019-09-08 08:47:42\n//\n\npackage main\n\nimport (\n\t\"github.com/muguangyi/ferry\"\n)\n\n// IGame from: game.go\n".toList ++
  "type igameproxy struct {\n\tslot ferry.ISlot\n}\n\nfunc (p *igameproxy) Start(level string) {\n".toList ++
  "\terr := p.slot.Call(\"IGame\", \"Start\", level)\n\n\tif nil != err {\n\t\treturn\n\t}\n}\n\n// end IGame\n\n".toList ++
  "// ILobby from: lobby.go\ntype ilobbyproxy struct {\n\tslot ferry.ISlot\n}\n\n// end ILobby\n\n// IMath from: math.go\n".toList ++
  "type imathproxy struct {\n\tslot ferry.ISlot\n}\n\nfunc (p *imathproxy) Add(x float64, y float64) float64 {\n".toList ++
  "\tresults, err := p.slot.CallWithResult(\"IMath\", \"Add\", x, y)\n\n\tif nil != err {\n\t\treturn 0\n\t}\n\n".toList ++
  "\treturn results[0].(float64)\n}\n\nfunc (p *imathproxy) Print(msg string) {\n".toList ++
  "\terr := p.slot.Call(\"IMath\", \"Print\", msg)\n\n\tif nil != err {\n\t\treturn\n\t}\n}\n\n// end IMath\n\n".toList ++
  "// ILogin from: sub/login.go\ntype iloginproxy struct {\n\tslot ferry.ISlot\n}\n\n".toList ++
  "func (p *iloginproxy) Login(name string, pwd string) bool {\n".toList ++
  "\tresults, err := p.slot.CallWithResult(\"ILogin\", \"Login\", name, pwd)\n\n\tif nil != err {\n\t\treturn false\n\t}\n\n".toList ++
  "\treturn results[0].(bool)\n}\n\nfunc (p *iloginproxy) Logout() {\n\terr := p.slot.Call(\"ILogin\", \"Logout\")\n\n".toList ++
  "\tif nil != err {\n\t\treturn\n\t}\n}\n\n// end ILogin\n\n// Register to ferry\nfunc init() {\n".toList ++
  "\tferry.Register(\"IGame\", func(slot ferry.ISlot) interface{} { return &igameproxy{slot: slot} })\n".toList ++
  "\tferry.Register(\"ILobby\", func(slot ferry.ISlot) interface{} { return &ilobbyproxy{slot: slot} })\n".toList ++
  "\tferry.Register(\"IMath\", func(slot ferry.ISlot) interface{} { return &imathproxy{slot: slot} })\n".toList ++
  "\tferry.Register(\"ILogin\", func(slot ferry.ISlot) interface{} { return &iloginproxy{slot: slot} })\n\n}\n".toList

/-- What `filepath.Walk` finds in /repo/test, in its order, with the declarations of the files: /repo/test/game.go:7-24,
/repo/test/lobby.go:7-24, /repo/test/main.go:7-15, /repo/test/math.go:7-24, /repo/test/proxy.gen.go:11-61 and
/repo/test/sub/login.go:3-6. -/
def exampleWalk : List Entry :=
  [.dir ".".toList,
   .file ⟨"game.go".toList, some [.other, .types [.iface "IGame" [.method "Start" [⟨["level"], .ident "string"⟩] []]], .types [.other "game"]]⟩,
   .file ⟨"lobby.go".toList, some [.other, .types [.iface "ILobby" []], .types [.other "lobby"]]⟩,
   .file ⟨"main.go".toList, some [.other, .other]⟩,
   .file ⟨"math.go".toList, some [.other, .types [.iface "IMath" [.method "Print" [⟨["msg"], .ident "string"⟩] [],
      .method "Add" [⟨["x"], .ident "float64"⟩, ⟨["y"], .ident "float64"⟩] [⟨[], .ident "float64"⟩]]], .types [.other "math"]]⟩,
   .file ⟨"proxy.gen.go".toList, some [.other, .types [.other "igameproxy"], .types [.other "ilobbyproxy"], .types [.other "imathproxy"],
      .types [.other "iloginproxy"]]⟩,
   .dir "sub".toList,
   .file ⟨"sub/login.go".toList, some [.types [.iface "ILogin" [.method "Login" [⟨["name"], .ident "string"⟩, ⟨["pwd"], .ident "string"⟩]
      [⟨[], .ident "bool"⟩], .method "Logout" [] []]]]⟩]

/-- `format.Source` (Go library), called in /repo/tool/ferry.gen.go:218, leaves out a comma before a closing parenthesis on the same
line. -/
def dropCommas : List T → List T
  | [] => []
  | [t] => [t]
  | a :: b :: ts => if a = .op ',' ∧ b = .op ')' then dropCommas (b :: ts) else a :: dropCommas (b :: ts)

/-- `format.Source` (Go library), called in /repo/tool/ferry.gen.go:218, leaves out the parentheses around the one unnamed result of
a function. -/
def dropParens : List T → List T
  | .op ')' :: .op '(' :: .word r :: .op ')' :: .op '{' :: ts => .op ')' :: .word r :: .op '{' :: dropParens ts
  | t :: ts => t :: dropParens ts
  | [] => []

/-- The targets of the example. -/
private def exampleTargets : List (List Char × AstTarget) :=
  [("game.go".toList, ⟨"IGame", [⟨"Start", [("level", "string")], []⟩]⟩),
   ("lobby.go".toList, ⟨"ILobby", []⟩),
   ("math.go".toList, ⟨"IMath", [⟨"Print", [("msg", "string")], []⟩, ⟨"Add", [("x", "float64"), ("y", "float64")], [("", "float64")]⟩]⟩),
   ("sub/login.go".toList, ⟨"ILogin", [⟨"Login", [("name", "string"), ("pwd", "string")], [("", "bool")]⟩, ⟨"Logout", [], []⟩]⟩)]

/-- **C156**: running the generator on the sources of the example, at any time, gives the program that is checked in as
/repo/test/proxy.gen.go: the same tokens, after what `go/format` leaves out. -/
theorem C156_checked_in (date : List Char) (hd : '\n' ∉ date) : ∃ targets, scanAll exampleWalk = .ok targets ∧
    dropParens (dropCommas (tokens (fileText date targets))) = tokens checkedIn := by
  refine ⟨exampleTargets, by decide +kernel, ?_⟩
  rw [C154_text_partial date exampleTargets hd ?_ (by decide +kernel)]
  · decide +kernel
  · intro t ht
    simp only [exampleTargets, List.mem_cons, List.not_mem_nil, or_false] at ht
    rcases ht with rfl | rfl | rfl | rfl
    all_goals
      refine ⟨⟨by decide +kernel, by decide +kernel, by decide +kernel⟩, ?_⟩
      intro m hm
      simp only [List.mem_cons, List.not_mem_nil, or_false] at hm
      try (rcases hm with rfl | rfl <;> exact ⟨⟨by decide +kernel, by decide +kernel, by decide +kernel⟩, by decide +kernel, by decide +kernel⟩)
      try (subst hm; exact ⟨⟨by decide +kernel, by decide +kernel, by decide +kernel⟩, by decide +kernel, by decide +kernel⟩)

/-- The text of the year in which it was checked in, and what is in the program. -/
example : '\n' ∉ "2019-09-08 08:47:42".toList ∧ (tokens checkedIn).length = 406 ∧
    [w "return", w "results", .op '[', w "0", .op ']', .op '.', .op '(', w "bool", .op ')', .semi] =
      ((tokens checkedIn).drop 239).take 10 := by decide +kernel

end Verif.Props

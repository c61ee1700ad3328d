import Verif.Codec.Any
import Verif.Codec.ValEq
import Verif.Misc.Set
import Verif.Net.Recv
import Verif.Chan.Callee
import Verif.Chan.Meta

/-!
# The tests of the repository, against the model

What the unit tests under /repo assert, evaluated in the model: a check that the model agrees with the code where the authors
of the code have written down what they expect.  The tests with hub and docks are in `Verif.Props.World8`.
-/

namespace Verif.Tests

open Verif Verif.Codec

/-- `NewAny(v).Encode(buf)`, then `a.Decode(buf)` with the same buffer: the object afterwards, and what is left. -/
def pass (a : Any) (v : Val) : Any × Res (List Byte) := a.decode (newAny v).encode.bytes

/-! ## /repo/codec/API_test.go -/

/-- `Test_String`, lines 14-35 -/
example : let v : Val := .str 0 [0x66, 0x65, 0x72, 0x72, 0x79]
    (newAny v).encode.err = none ∧ (pass (newAny .nil) v).2 = .ok [] ∧
    (pass (newAny .nil) v).1.string = .ok [0x66, 0x65, 0x72, 0x72, 0x79] := ⟨rfl, rfl, rfl⟩

/-- `Test_EmptyString`, lines 37-58 -/
example : (newAny (.str 0 [])).encode.err = none ∧ (pass (newAny .nil) (.str 0 [])).2 = .ok [] ∧
    (pass (newAny .nil) (.str 0 [])).1.string = .ok [] := ⟨rfl, rfl, rfl⟩

/-- `Test_Bool`, lines 60-99: the object is used again. -/
example : let a := pass (newAny .nil) (.bool 0 true)
    a.2 = .ok [] ∧ a.1.bool = .ok true ∧ (pass a.1 (.bool 0 false)).2 = .ok [] ∧ (pass a.1 (.bool 0 false)).1.bool = .ok false :=
  ⟨rfl, rfl, rfl, rfl⟩

/-- `Test_Nil`, lines 101-124 -/
example : (newAny .nil).encode.bytes = [0xc0] ∧ (newAny .nil).encode.err = none ∧ (pass (newAny .nil) .nil).2 = .ok [] ∧
    (pass (newAny .nil) .nil).1.any = .nil := ⟨rfl, rfl, rfl, rfl⟩

/-- `Test_Uint8` to `Test_Uint64`, lines 126-226 -/
example : (pass (newAny .nil) (.uint .u8 0 255)).1.uint8 = .ok 255 ∧ (pass (newAny .nil) (.uint .u16 0 520)).1.uint16 = .ok 520 ∧
    (pass (newAny .nil) (.uint .u32 0 520)).1.uint32 = .ok 520 ∧ (pass (newAny .nil) (.uint .u64 0 520)).1.uint64 = .ok 520 :=
  ⟨rfl, rfl, rfl, rfl⟩

/-- `Test_Int8` to `Test_Int64`, lines 228-326 -/
example : (pass (newAny .nil) (.int .i8 0 (-127))).1.int8 = .ok (-127) ∧
    (pass (newAny .nil) (.int .i16 0 (-520))).1.int16 = .ok (-520) ∧
    (pass (newAny .nil) (.int .i32 0 (-520))).1.int32 = .ok (-520) ∧
    (pass (newAny .nil) (.int .i64 0 (-520))).1.int64 = .ok (-520) := ⟨rfl, rfl, rfl, rfl⟩

/-- `Test_Float32` and `Test_Float64`, lines 328-377: 0.520 and -0.00520 -/
example : (pass (newAny .nil) (.f32 0 0x3f051eb8)).1.float32 = .ok 0x3f051eb8 ∧
    (pass (newAny .nil) (.f64 0 0xbf754c985f06f694)).1.float64 = .ok 0xbf754c985f06f694 := ⟨rfl, rfl⟩

/-- `Test_Array`, lines 379-405: the elements of a slice of `int` arrive as `int8`. -/
example : (pass (newAny .nil) (.seq (.slice 1) [.int .int 0 0, .int .int 0 1, .int .int 0 2, .int .int 0 3, .int .int 0 4,
      .int .int 0 5, .int .int 0 6])).1.arr =
    .ok [.int .i8 0 0, .int .i8 0 1, .int .i8 0 2, .int .i8 0 3, .int .i8 0 4, .int .i8 0 5, .int .i8 0 6] := rfl

/-- `Test_Map`, lines 407-437 -/
example : (pass (newAny .nil) (.map (.other 1) [(.str 0 [0x61], .int .int 0 1), (.str 0 [0x62], .int .int 0 2)])).1.map =
    .ok [(.str 0 [0x61], .int .i8 0 1), (.str 0 [0x62], .int .i8 0 2)] := rfl

/-! ## /repo/misc/set_test.go -/

/-- `TestAddAndRemove`, lines 13-26 -/
example : Misc.runOps [] [.add (.comparable 0 1), .add (.comparable 0 1), .remove (.comparable 0 1)] = .ok ([], [true, false, true]) :=
  rfl

/-- `TestToSlice`, lines 28-38 -/
example : ∃ d bs, Misc.runOps [] [.add (.comparable 0 1), .add (.comparable 0 2), .add (.comparable 0 3)] = .ok (d, bs) ∧
    ∀ xs, Misc.ToSlice d xs → xs.length = 3 := ⟨_, _, rfl, fun _ h => h.length_eq⟩

/-! ## /repo/network/API_test.go -/

/-- The text that the server sends in `TestFlow`, line 22. -/
def hello : Str := "Hello\x00 World!\n\x00".toList.map fun c => BitVec.ofNat 8 c.toNat

/-- `TestFlow`, lines 51-67, waits for two packets at the client: the text sent holds two packets. -/
example : Net.recvAll Net.txtSerializer [] [hello] = ([hello.take 6, hello.drop 6], some []) := by decide

/-! ## /repo/chancall/API_test.go -/

/-- The bytes of a name. -/
def name (s : String) : Str := s.toList.map fun c => BitVec.ofNat 8 c.toNat

/-- The methods of `targetObject`, lines 26-39. -/
def target : Nat → Chan.Target := fun _ => Chan.targetOf ⟨id, id, fun _ _ => none⟩ fun m =>
  if m = name "F0" ∨ m = name "F1" ∨ m = name "LongWaitCall" then some []
  else if m = name "Add" then some [.int .int 0, .int .int 0]
  else none

/-- What call `i` has returned: the result, or `none` for the error of a timeout. -/
def returned (s : Chan.State) (i : Nat) : Option (Option (List Val)) :=
  match s.result i with
  | some (_, .ok r) => some (some (r.getD []))
  | some (_, .timeout) => some none
  | none => none

/-- One call from beginning to end. -/
def one (i : Nat) (m : String) (args res : List Val) : List Chan.Act :=
  [.call 0 0 (name m) args none, .push i, .start 0, .ret 0 res, .settleH 0, .deliverH 0, .receive i]

/-- `TestNormalCall`, lines 41-72: three calls on one caller object. -/
example : ((run (Chan.State.step target) (Chan.State.init target) (one 0 "F0" [] [] ++ one 1 "F1" [] [.int .int 0 1] ++
      one 2 "Add" [.int .int 0 1, .int .int 0 2] [.int .int 0 3])).map fun s => (returned s 0, returned s 1, returned s 2)) =
    some (some (some []), some (some [.int .int 0 1]), some (some [.int .int 0 3])) := by decide +kernel

/-- `TestTimeout`, lines 74-96: `SetTimeout` with 0.1 seconds is one of 0 seconds. -/
example : ((run (Chan.State.step target) (Chan.State.init target) [.setTimeout 0 (name "LongWaitCall") 0x3dcccccd,
      .call 0 0 (name "LongWaitCall") [] none, .push 0, .start 0, .wake 0, .settleT 0, .deliverT 0, .receive 0]).map
      fun s => returned s 0) = some (some none) := by decide +kernel

end Verif.Tests

import Verif.Proto.Packet
import Verif.Codec.Spec

/-! # What a packet means, independent of frames and bytes -/

namespace Verif.Proto

open Verif Verif.Codec

/-- The identifier documented for each packet type (/repo/protocol.go:15-25, comments). -/
def Proto.kind : Proto → Nat
  | .error _ => 0
  | .heartbeat => 1
  | .ready _ => 2
  | .registerRequest _ => 3
  | .registerResponse _ => 4
  | .queryRequest _ => 5
  | .queryResponse _ => 6
  | .rpcRequest .. => 7
  | .rpcResponse .. => 8

/-- The packet a receiver should see: the same fields, RPC arguments and results in their decoded form. -/
def Proto.received : Proto → Proto
  | .rpcRequest i s m args w => .rpcRequest i s m (canonList args) w
  | .rpcResponse i s m res e => .rpcResponse i s m (canonList res) e
  | p => p

/-- The RPC arguments or results (nothing for other packets). -/
def Proto.payload : Proto → List Val
  | .rpcRequest _ _ _ args _ => args
  | .rpcResponse _ _ _ res _ => res
  | _ => []

/-- All arguments and results are among the values that survive a round trip. -/
def Proto.sendable (p : Proto) : Bool := wireOKList p.payload

/-- A packet as the code builds it: the identifier belongs to the type of the body. -/
def Packer.wellFormed (p : Packer) : Prop := p.id.toNat = p.p.kind

end Verif.Proto

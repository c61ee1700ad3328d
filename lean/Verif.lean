import Verif.Base
import Verif.Codec.Value
import Verif.Codec.Float
import Verif.Codec.Encode
import Verif.Codec.Decode
import Verif.Codec.Any
import Verif.Codec.Spec
import Verif.Codec.Lemmas
import Verif.Codec.FloatLemmas
import Verif.Codec.RoundTrip
import Verif.Codec.ValEq
import Verif.Codec.DecodeFacts
import Verif.Codec.AnyFacts
import Verif.Codec.Uniform
import Verif.Codec.Seen
import Verif.Codec.Loose
import Verif.Props.Codec1
import Verif.Props.Codec2
import Verif.Props.Codec3
import Verif.Props.Codec4
import Verif.Codec.MsgPack
import Verif.Props.Codec5
import Verif.Props.Codec6
import Verif.Props.Codec7
import Verif.Props.Codec8
import Verif.Codec.Nearest
import Verif.Props.Float1
import Verif.Proto.Packet
import Verif.Proto.Spec
import Verif.Proto.Facts
import Verif.Net.Recv
import Verif.Props.Proto1
import Verif.Props.Proto2
import Verif.Props.Proto3
import Verif.Trans
import Verif.Fair
import Verif.Net.Peer
import Verif.Net.Fair
import Verif.Net.Routine
import Verif.Net.Pair
import Verif.Props.Net1
import Verif.Text
import Verif.Net.Socket
import Verif.Net.Mock
import Verif.Props.Net2
import Verif.Props.Net3
import Verif.Props.Codec9
import Verif.Props.Codec10
import Verif.Props.Cut
import Verif.Props.Pieces
import Verif.Chan.Callee
import Verif.Chan.Facts
import Verif.Chan.Records
import Verif.Chan.Number
import Verif.Chan.Meta
import Verif.Props.Chan1
import Verif.Props.Chan2
import Verif.Props.Chan3
import Verif.Hub.Hub
import Verif.Hub.Facts
import Verif.Hub.Stubs
import Verif.Hub.Hist
import Verif.Props.Hub1
import Verif.Props.Hub2
import Verif.Props.Hub3
import Verif.Dock.Dock
import Verif.Dock.Facts
import Verif.Dock.Inv
import Verif.Dock.Hist
import Verif.Dock.Whole
import Verif.Dock.WholeFacts
import Verif.Props.Dock1
import Verif.Props.Dock2
import Verif.Props.Dock3
import Verif.Dock.Visit
import Verif.Dock.Life
import Verif.Gen.Gen
import Verif.Misc.Set
import Verif.Props.Visit1
import Verif.Props.Life1
import Verif.Props.Gen1
import Verif.Props.Remote1
import Verif.Props.Misc1
import Verif.Dock.Origin
import Verif.System.System
import Verif.System.Wire
import Verif.System.Inv
import Verif.System.Conn
import Verif.System.Facts
import Verif.Props.System1
import Verif.Props.System2
import Verif.Dock.Answer
import Verif.Props.Dock4
import Verif.Props.System3
import Verif.Props.Dock5
import Verif.Props.Dock6
import Verif.Props.System4
import Verif.Net.Tables
import Verif.Props.Net4
import Verif.Props.Net5
import Verif.Codec.Write
import Verif.Props.Write1
import Verif.Props.Dock7
import Verif.Props.System5
import Verif.Gen.Files
import Verif.Props.Gen2
import Verif.Net.Broadcast
import Verif.Props.Net6
import Verif.Props.Net7
import Verif.Props.Net8
import Verif.Props.Net9
import Verif.Props.Routine1
import Verif.Props.Overload1
import Verif.Dock.Shut
import Verif.Props.Shut1
import Verif.Codec.Memory
import Verif.Codec.MemoryFacts
import Verif.Codec.Count
import Verif.Codec.Word
import Verif.Codec.WordFacts
import Verif.Props.Memory1
import Verif.Dock.Start
import Verif.Props.Start1
import Verif.Dock.Slot
import Verif.Props.Slot1
import Verif.Dock.Runtime
import Verif.Props.Runtime1
import Verif.Hub.Shut
import Verif.Props.HubShut1
import Verif.Race.Race
import Verif.Race.Facts
import Verif.Race.Hub
import Verif.Race.Dock
import Verif.Race.Net
import Verif.Race.Chan
import Verif.Props.Race1
import Verif.Dock.Live
import Verif.Dock.Peers
import Verif.Hub.Live
import Verif.System.Live
import Verif.System.Pair
import Verif.Props.System6
import Verif.Codec.Grammar
import Verif.Props.Grammar1
import Verif.Props.Chan4
import Verif.Props.Chan5
import Verif.Props.Chan6
import Verif.Props.Convert1
import Verif.Props.Whole1
import Verif.Props.Whole2
import Verif.System.World
import Verif.System.WorldFacts
import Verif.Props.World1
import Verif.Props.World2
import Verif.Props.World3
import Verif.Props.World4
import Verif.Props.World5
import Verif.Props.World6
import Verif.Props.World7
import Verif.Props.Hub4
import Verif.Props.Dock8
import Verif.System.Join
import Verif.Props.System7
import Verif.Props.Slot2
import Verif.Props.Gen3
import Verif.Props.Gen4
import Verif.Props.Gen5
import Verif.Chan.App
import Verif.Props.World8
import Verif.Props.World9
import Verif.Props.World10
import Verif.Props.Begin1
import Verif.Props.Begin2
import Verif.Tests
import Verif.Dock.Steps
import Verif.Dock.Fair
import Verif.Hub.Fair
import Verif.System.Parts
import Verif.System.Fair
import Verif.System.Quiet
import Verif.System.WorldFair
import Verif.System.WorldQuiet
import Verif.Props.System8
import Verif.Proto.Word
import Verif.Props.Count1
import Verif.Props.Word1
import Verif.Chan.Variadic
import Verif.Props.Chan7
import Verif.Codec.Heap
import Verif.Net.Shared
import Verif.Props.Heap1
import Verif.Chan.Shared
import Verif.Props.Chan8
import Verif.Props.Hub5
import Verif.Props.MockSystem1
import Verif.Props.Hub6
import Verif.Props.Once1
import Verif.Props.Once2
import Verif.Props.Once3
import Verif.Props.Once4
import Verif.Props.Part1
import Verif.Props.Once5
import Verif.Codec.Forward
import Verif.Props.Forward1
import Verif.Gen.Text
import Verif.Props.Gen6
import Verif.Props.Relay1
import Verif.Props.Gen7
import Verif.Race.Where
import Verif.Props.Race2
import Verif.Props.Once6
import Verif.Props.Once7
import Verif.Props.Net10
import Verif.Net.Flow
import Verif.Props.Net11
import Verif.Props.Chan9
import Verif.Props.Chan10
import Verif.Props.Chan11
import Verif.Props.Chan12
import Verif.Props.Chan13
import Verif.Props.Chan14

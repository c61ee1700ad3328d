# Formal model of muguangyi/ship (Go package `ferry`) in Lean 4

`ferry` is a small RPC framework.  Features live in docks; a hub gives docks their ports and tells them where features
are; docks connect to each other and call features remotely.  This directory contains a model of the code in Lean 4
and proofs of the properties listed in `properties.jsonl`, or of their violation.

* `properties.jsonl`: the properties.  `MANIFEST.json`: status and theorems per property.
* `lean/`: the Lake project; `lake build` checks everything.
* `seeded/LOG.jsonl`: wrong programs against which the theorems were tested.

## Method

Every pure function of the code is a total function of the model.  Go errors, panics, `log.Fatal` and non-termination
are distinct outcomes (`Res` in `Verif/Base.lean`), so "does not crash" is a statement about the result.  Every
stateful or concurrent part is a partial step function `step : State → Action → Option State`, whose actions are the
atomic steps of the goroutines.  An execution is a list of actions accepted from the initial state, so a theorem about
all such lists covers all interleavings, of any length and with any number of goroutines, peers and docks.  Properties
of executions are proved by induction with an invariant; properties of data by induction over the data.  There are no
bounds on sizes other than those named in the statements (2^32 bytes per string, array or frame, where the code stores
a length in 32 bits).

Fields of a state that are marked "history" are not in the code.  They record what happened (what was sent, handled,
executed, returned) so that statements can speak about the past; no step depends on them.

Specifications do not use the functions they are about.  What a value means on the wire is defined in
`Codec/Spec.lean` without bytes or tags, the MsgPack grammar in `Codec/MsgPack.lean` was transcribed from its
documentation, free ports are counted by a specification of their own, and statements about executions are phrased
over the history.

Beside each theorem stands an `example` in which its hypotheses hold for a concrete, non-trivial instance.

## Layout

| code | model | lemmas | property theorems (`Verif/Props`) |
|---|---|---|---|
| `codec/*.go` | `Codec/{Value,Encode,Write,Decode,Memory,Any,Float}` | `Codec/{Spec,Seen,MsgPack,Lemmas,RoundTrip,DecodeFacts,AnyFacts,FloatLemmas,Loose,Uniform,ValEq,MemoryFacts,Grammar,Nearest,Exact}` | `Codec1` … `Codec10`, `Grammar1`, `Cut`, `Pieces`, `Write1`, `Memory1`, `Float1` |
| `protocol.go`, `serializer.go` | `Proto/Packet` | `Proto/{Spec,Facts}` | `Proto1` … `Proto3` |
| `network/peer.go`, `txt_serializer.go` | `Net/{Recv,Peer,Routine}` | same files, `Net/Fair` | `Proto2`, `Net1`, `Net7`, `Net8`, `Routine1` |
| `network/socket.go` | `Net/{Socket,Broadcast}` | same files | `Net2`, `Net6` |
| `network/mock.go` | `Net/Mock` | same file | `Net3`, `Net4` |
| `network/inet.go`, `network/API.go` | `Net/Tables` | same file | `Net5` |
| `chancall/*.go` | `Chan/{Callee,Meta,Number}` | `Chan/{Facts,Records}` | `Chan1` … `Chan6`, `Convert1` |
| `hub.go` | `Hub/Hub`, `Text` | `Hub/{Facts,Stubs,Hist}` | `Hub1` … `Hub4` |
| `dock.go`, `rpc.go`, `slot.go` | `Dock/Dock` | `Dock/{Facts,Inv,Hist,Origin,Answer}` | `Dock1` … `Dock8` |
| a dock with its callees | `Dock/Whole` | `Dock/WholeFacts` | `Whole1`, `Whole2` |
| the system with callees | `System/World` | `System/{WorldFacts,WorldFair,WorldQuiet}` | `World1` … `World10`, `Begin1`, `Begin2` |
| `registry.go`, `Visit` | `Dock/Visit` | same file | `Visit1` |
| the numbers returned by the encoder | `Codec/Count` | | `Count1` |
| the codec and the serializer on 32 bits | `Codec/Word`, `Proto/Word` | `Codec/WordFacts` | `Word1` |
| `runtime.go`, `Close` methods, `ferry.go` | `Dock/Life` | same file | `Life1` |
| calls during `Close` of a dock | `Dock/Shut` | same file | `Shut1` |
| starting and destroying features | `Dock/Start` | same file | `Start1` |
| slots and their docks | `Dock/Slot` | same file | `Slot1`, `Slot2` |
| overlapping `Startup`, `Serve`, `Close` and signals | `Dock/Runtime` | same file | `Runtime1` |
| accesses to shared data | `Race/{Race,Hub,Dock,Net,Chan}` | `Race/Facts` | `Race1` |
| `Close` of a hub in use | `Hub/Shut` | same file | `HubShut1` |
| hub, docks and connections together | `System/{System,Conn}` | `System/{Wire,Inv,Facts,Live,Pair,Join,Fair,Quiet}`, `Dock/{Live,Peers,Fair}`, `Hub/{Live,Fair}` | `System1` … `System8`, `Remote1`, `Overload1` |
| `misc/set.go` | `Misc/Set` | same file | `Misc1` |
| `tool/ferry.gen.go` | `Gen/{Gen,Files}` | same files | `Gen1` … `Gen5`, `Remote1` |

`Base` has bytes and outcomes, `Trans` transition systems, `Fair` infinite executions and fairness, `Text` decimal
numbers and addresses.

## What is modelled, and how it is simplified

Every definition carries the file and lines it models.  In summary:

* `codec/encoder.go`, `decoder.go`, `any.go`, `code.go`, `API.go`: all functions.  Values are the contents of an
  `interface{}`; structs, channels, functions, complex numbers and the like are one "unsupported" class.  A Go map is
  the list of its entries in the order in which `MapKeys` returns them, which is arbitrary; statements quantify over the
  order.  `int` and `uint` have 64 bits; what differs on 32 bits is in `Codec/Word` and `Proto/Word` (C128).  The byte counts returned by the encoder are in `Codec/Count` (C129).
  In `Codec/Encode` writing never fails (a `bytes.Buffer`); `Codec/Write` has the encoder on any writer.  The decoder takes an arbitrary reader, including ones with short reads.
  Floats are bit patterns; widening and narrowing are modelled bit by bit (round to nearest even, NaNs quieted).
  Memory is unlimited in the outcomes: an array header announcing 2^32-1 elements does not run out of memory.  How much is
  requested because of announced lengths is modelled in `Codec/Memory` (not counted: fixed-size buffers, boxes, map buckets, the copy made by `string(data)`).
* `protocol.go`, `iprotocol.go`, `serializer.go`: all functions.
* `network/peer.go`: `Send`, the two routines and `close`; `IsSelf` and the address accessors are not.
  `network/socket.go`: `Listen`, `Dial` and `Close` as far as peers, sinks and their order matter, and `Send`; the
  calls into `net` are not.  `network/mock.go`: all functions, dialling, accepting and closing in steps.  `network/txt_serializer.go`: all.
  `network/inet.go` and `network/API.go`: the tables of networks and serializers, used one call at a time; `netTcp` is not.
* `chancall`: all functions.  The clock counts nanoseconds and is an action; timers fire at or after their time, and
  theorems that need promptness assume it explicitly.  `reflect.Value.Convert` is modelled on basic types; conversions
  between composite types, and of floats outside the range of 64-bit integers (whose result Go leaves to the
  platform), are an unspecified parameter, over which theorems quantify.
  Sending on and receiving from a channel of capacity 1 are steps.
* `hub.go`: everything except the socket itself.  Handling of one packet is several steps where the code releases
  `docksMutex` or works outside it.
* `dock.go`, `rpc.go`, `slot.go`: everything except `Send` over a real socket.  Operations on Go maps and `append` to
  `d.sockets` are atomic steps.  The code does not synchronise all of them, and the Go runtime may abort the process on
  concurrent map accesses; which accesses can coincide is the subject of `Race` (C106 to C109), in the other models they do not.  Everything else that another goroutine can observe is a separate step.
* `Dock/Whole` puts the dock and package chancall together: a call of a local feature, or a request of a peer, is a call of
  chancall on a new caller object, as in the code.  A body of a method that has called waits; that the goroutines of `OnStart`
  and of the user do so is not modelled there.
* `registry.go`, `Visit`: all, visits in steps.  `runtime.go`: `wait` and `destroy` in steps, with the slice of instances and signals
  in `Dock/Runtime`, but the `Close` of one hub or dock is one step there.
* `misc/set.go`: all, items with Go's equality (NaN ≠ NaN) and hashability.
* `tool/ferry.gen.go`: all functions.  Files are paths with declarations.  The proxies are token lists; `Gen/Text` has the template as characters,
  with the escaping of `html/template`, and a scanner that reads them as these tokens (C154).  `go/parser`, the layout made by `go/format`, failures to write the output and letters outside ASCII in `ToLower` are not modelled.
* `test/` (the example application) and `ferry_test.go`: docks, features and the methods `Add`, `Print`, `Start`, `Log` as an
  application (`Props/World8.lean`).  What the other `*_test.go` assert is evaluated in the model (`Tests.lean`).
* Not modelled: `version.go`, logging.

Assumptions about the runtime: shared memory is sequentially consistent; goroutines are scheduled arbitrarily.  Liveness
statements are therefore of one of three forms: "from every reachable state, these steps are possible and lead there";
they name the promptness they need; or they speak about infinite executions that are fair, that is, in which a loop or
goroutine that can go on does so sooner or later (C124 to C127, C130; `Dock/Fair`, `Hub/Fair`, `System/Fair`,
`System/WorldFair` and `Net/Fair` name the loops).  An execution that comes to rest is fair, so these statements cover finite
executions too, and fair executions exist (`fair_of`).

Assumptions of the composed system (`System/System.lean`): a connection hands over packets in order but may lose any of
them; processes fail by stopping; dock `d` runs on host `H d`, a connection to `host:port` reaches a dock on that host
that listens on that port or fails, and the remote address the hub sees starts with the host of the dialling dock; one
hub, and no other programs speak the protocol; a packet has less than 4 GiB.  The bytes of each packet are produced and
parsed by the model of `serializer.go`.

## What was found

Properties marked partial in the manifest with a `…_refuted` theorem are violated by the code.  In short:

* Floats: 0.0 and all other floats whose bits fit a narrower integer cannot be decoded, the receiver panics (C02, C04,
  C05, C21, C65); the float format is not MsgPack (C15).
* Arguments: integers passed to float32 parameters are rounded twice, integers that a parameter's type does not have wrap
  silently, and a string parameter accepts an integer as a character (C133).
* Decoding: malformed bytes panic (C07, C24); truncated or fragmented input yields wrong values (C09, C10); a five-byte
  array header requests up to 64 GiB before any element is read (C100); narrow accessors wrap (C17); `int`, `uint` cannot be read back without encoding (C18); a failed decode leaves a stale tag (C19).
* 32 bits: four bytes of a peer end a process or make the connection useless, long announced lengths end it, and the smallest `int` is
  encoded differently (C128).
* Maps: keys of different integer types merge, values under NaN keys are lost, composite keys crash the reader
  (C06, C13, C14).
* Network: `Send` can block (C29) and discards packets while twenty wait, so that of 21 calls made at once one may wait for ever (C131), a remote disconnect is not reported (C31), packets are delivered after close or crash
  the process (C32), the mock truncates long writes (C33), hands out equal addresses (C34), waits
  forever (C88, C90), leaves half-open connections (C89) and crashes when a listener is closed during an accept (C90);
  a serializer registered as txt is lost (C91) and only Mock("tcp") has an effect (C92).
* Calls: sharing a caller mixes answers (C37); a queued call has no timeout (C40); a re-entrant call deadlocks the callee
  for good (C41), and so do features that call each other (C115), also for their peers (C119) and across docks (C121); requests of a peer may be
  executed in another order (C117), and together with `OnStart` (C118); timeouts are truncated to whole seconds (C42); unknown methods are not reported (C44); wrong arguments
  kill the process (C45).
* Hub: answers can be outdated (C49) and name dead docks (C52); IPv6 addresses are cut (C53).
* Dock: equal clock readings mix up or lose calls (C57, C63); committing a call is a race that can panic (C58); hidden
  features can be called (C60); calls can wait forever (C64); a duplicate response can panic (C75); one connection per
  call instead of per dock (C77); overlapping visits make two proxies (C67); overlapping shutdown loses instances or
  panics (C69).
* Proxies: results of most types make the proxy panic (C66); parameters or results that share a type are dropped (C71,
  C78); the default for string is not Go (C72).
* Generator: interfaces in a group or behind an unreadable directory are left out in silence (C95), proxy types can clash
  (C96), an outdated file stays when there are no interfaces any more (C97), and line breaks in file names become code (C154).
* Failures: a failed write of a float's tag is not reported (C93); calls keep going to a dock that is gone (C94);
  a failed connection can keep a broadcast from the other peers (C98);
  a call during or after `Close` can end the process or wait for ever (C99); a feature whose `OnStart` does not return keeps the others from starting, and `Close` may destroy features before they are started (C101); a slot passed to `Startup` twice calls through the second dock, one passed to none ends the process (C102);
  overlapping calls of `Startup` lose an instance or make `Close` crash (C103); `Startup` does not return when its instance is closed,
  and after a signal it returns without closing it (C104); a registration during `Close` of a hub ends the process and queries spin for ever (C105).
* Races: lists and stubs of a hub (C106), calls, sockets and visitors of a dock (C107), serializers, peers and sinks (C108) and
  timeouts (C109) are accessed without synchronisation.

One property was corrected after the model contradicted it: C12 first claimed the smallest form for all integers; the
least values of int8, int16 and int32 take the next larger one, which `C12_least_values` states.

## Testing the theorems

`seeded/LOG.jsonl` has one line per wrong program.  In a scratch copy the model is edited as a realistic bug would,
everything is rebuilt, and every proof that fails is replaced by `sorry` (in the scratch copy only) to go on.
`theorems_failed` are the property theorems that then depend on `sorry`.  This over-approximates: a theorem is listed
even if only a lemma it uses broke.  For many edits we also proved, in the edited model, the negation of the property
theorem's statement; these carry `statement_disproved_in_edited_model`.  `theorems_tightened` names theorems that had
survived an edit that makes their claim false and were strengthened.

## Trusted base

* The kernel of Lean 4.33.0, and the axioms listed at the end of this file (`propext`, `Classical.choice`,
  `Quot.sound`).  No axioms are added, there is no `sorry`, `native_decide` or `bv_decide`.  Concrete examples that run
  the composed system use `decide +kernel`, which is checked by the kernel.
* The fidelity of the model to the code.  The code was read, not run.
* Of the Go language and library: `encoding/binary`, `bytes`, `math.Float*bits`, `reflect.Kind`, `reflect.Convert` on basic
  types, maps, channels, mutexes, `append`, slices and type assertions behave as documented.

## Per property: what is modelled and how it is proved

Status "partial" with a theorem `…_refuted` means that the code violates the property as stated; the refutation is a
theorem with a concrete witness, and the `…_partial` (or unsuffixed) theorems say what does hold.

### C01 Integer round trip (proved)

`encode`/`decode` on byte lists, integers as bit vectors; case analysis over the size classes with lemmas on big-endian bytes.

Result: every predeclared integer type and every value, any following bytes, any prior content of the object decoded into; uintptr is read back with Uint

Theorems: `C01_int_roundtrip`, `C01_uint_roundtrip`.

### C02 Float round trip (partial)

Floats as bit patterns; the nested integer keeps its width exactly outside the crash zone.

Result: the code violates the full statement: a float64 with bit pattern below 2^32 or a float32 below 2^16 (so 0.0) makes Decode panic (refuted, and shown exact by C02_float_crash_zone); the round trip is proved for all other bit patterns

Theorems: `C02_float_roundtrip_refuted`, `C02_float64_roundtrip_partial`, `C02_float32_roundtrip_partial`, `C02_float_crash_zone`.

### C03 String round trip (proved)

Induction-free: length header round trip and `take`/`drop` of the payload.

Result: all byte strings shorter than 2^32

Theorems: `C03_string_roundtrip`.

### C04 Nested value round trip (partial)

Mutual induction over values and lists for every trailing byte list; `canon` says what comes back. The converse (`Codec/Exact.lean`): by the same induction, a value read with the right content has `topOK`; the lengths, the keys added to the map and the bytes consumed are all determined by the content.

Result: refuted by a slice holding a zero float; proved exactly for the values with topOK (C04_exact is an equivalence): no float in the crash zone, scalar map keys that stay distinct on the wire, nil below a NaN key, lengths below 2^32, nothing unsupported

Theorems: `C04_nested_roundtrip_refuted`, `C04_nested_roundtrip_partial`, `C04_received_type`, `C04_exact`, `C04_never_by_chance`.

### C05 Values are self-delimiting (partial)

Induction over the sequence; the single-value theorem with arbitrary trailing bytes, in both directions.

Result: refuted by a zero float in the sequence; proved for sequences whose values each decode when alone; with their contents they come back exactly if every value has topOK (C05_sequence_exact is an equivalence)

Theorems: `C05_self_delimiting_refuted`, `C05_self_delimiting_partial`, `C05_sequence_content_partial`, `C05_sequence_exact`.

### C06 Unambiguous, prefix-free encoding (partial)

Loose decoder that recovers every encoding (`Codec/Loose`), hence prefix-freeness; decoding gives unambiguity, of what a lookup sees (`Codec/Seen`) for all values.

Result: prefix-freeness is proved for all supported values with lengths below 2^32. Unambiguity of contents is refuted for maps with NaN keys and proved for values without NaN inside map keys; for all values, equal encodings mean that everything a lookup finds is equal (C06_seen), and for slices, arrays and maps this is exact (C06_exact)

Theorems: `C06_prefix_free`, `C06_unambiguous_refuted`, `C06_unambiguous_partial`, `C06_seen`, `C06_exact`.

### C07 Decode never crashes on arbitrary bytes (partial)

Induction over fuel with the invariant "no float or map tag can be reached"; and exactly which inputs crash: a grammar of crashing byte sequences (`Codec/Grammar`, mutual inductive predicates that do not mention the decoder), matched with the decoder in both directions.

Result: Refuted: Decode panics on a float tag whose payload is not the expected width and on an unhashable map key. Proved: exactly which inputs crash it (C07_crash_exact_partial), a grammar on tags and counts; that inputs without a float or map tag byte and encodings of values with topOK do not.

Theorems: `C07_decode_no_crash_refuted`, `C07_decode_no_crash_partial`, `C07_decode_encoded_partial`, `C07_crash_exact_partial`.

### C08 Decode terminates and never over-reads (proved)

Fuel of input length + 1 is proved sufficient for every input, and the rest is a suffix of the input.

Result: for a reader over a byte sequence

Theorems: `C08_decode_terminates`.

### C09 Truncated input is rejected (partial)

Direct computation with the fill-with-zero reads of the decoder, witnesses for the violation; the exact theorem by mutual induction over the value, cutting inside the header, inside an element or behind it (`Cut.lean`).

Result: refuted for every value whose encoding is longer than two bytes (lists and maps: of fewer than 2^24 elements): some proper prefix is accepted; C09_truncated_exact_partial says for every proper prefix of the encoding of every value with topOK whether it is rejected (with EOF) or accepted

Theorems: `C09_truncated_rejected_refuted`, `C09_truncated_uint16_accepted`, `C09_truncated_rejected_partial`, `C09_truncated_exact_partial`, `C09_truncated_rejected_all_refuted`.

### C10 Decoding does not depend on how the reader chunks its data (partial)

The decoder over an arbitrary reader; `ReaderSim` relates two runs on different readers step by step, and is used with a reader that records the sizes of the reads; the pieces of the encoder by mutual induction over the value (`Pieces.lean`).

Result: refuted for a piece boundary inside a payload; proved whenever every read of the decoder is served by one piece, in particular when the value lies entirely in the first piece and when each piece is one Write call of the encoder

Theorems: `C10_chunk_independence_refuted`, `C10_chunk_independence_partial`, `C10_served_partial`, `C10_writes_partial`.

### C11 Encode fails exactly on unsupported values (proved)

Mutual induction over the value; `Supported` is defined without the encoder.

Theorems: `C11_encode_error_iff`, `C11_encode_no_other_error`.

### C12 Compact integers (proved)

Case analysis over ranges; the size is compared with the minimum over all formats that hold the value.

Result: statement corrected after the model showed the least values of int8, int16, int32 to be exceptions (C12_least_values)

Theorems: `C12_uint_size`, `C12_uint_canonical`, `C12_int_size`, `C12_least_values`, `C12_int_canonical`.

### C13 Map encoding is order independent (partial)

Permutations of map entries at any depth (`ValEq`), decoded results compared up to the same relation.

Result: refuted: with keys int8(1) and int16(1) the last entry written wins; proved for values with topOK, maps reordered at any depth

Theorems: `C13_order_independence_refuted`, `C13_order_independence_partial`, `C13_lookup_partial`.

### C14 Maps keep all their entries (partial)

Lookup in the decoded association list, induction over the entries; the converse from C04.

Result: refuted (merged keys, value under a NaN key lost, composite key crashes the reader); proved exactly for the maps whose keys are scalars that stay distinct on the wire and whose values survive (wireOK; C14_map_entries_exact is an equivalence)

Theorems: `C14_map_entries_exact`, `C14_map_entries_refuted`, `C14_map_entries_partial`.

### C15 MsgPack compatibility (partial)

An independent inductive grammar of MsgPack; mutual induction over the value.

Result: refuted for every float, whose payload carries a second tag; proved for all values without floats against an independent grammar of the format

Theorems: `C15_msgpack_refuted`, `C15_msgpack_partial`.

### C16 Accessors never crash and respect the value's class (proved)

Model of the `any` object with tag and value; case analysis over all accessors.

Result: all inputs, all prior contents of the object, all accessors

Theorems: `C16_accessors`.

### C17 Integer accessors are exact (partial)

Two's complement truncation and extension lemmas.

Result: refuted: narrow accessors wrap around silently; proved when the integer fits the accessor, and always for Int, Int64, Uint, Uint64

Theorems: `C17_integer_accessors_refuted`, `C17_signed_partial`, `C17_unsigned_partial`, `C17_int64_exact`.

### C18 A freshly wrapped value can be read back (partial)

Case analysis over the types of values, `NewAny` followed by the accessor.

Result: refuted for int, uint and for slices and maps of other types than those Arr and Map assert; proved for all other types

Theorems: `C18_fresh_refuted`, `C18_fresh_partial`.

### C19 A failed Decode leaves a usable object (partial)

Decode on an object with previous content; exact characterisation of when the tag remains.

Result: refuted: the tag of the previous value stays; proved for objects without previous value, and shown exact

Theorems: `C19_failed_decode_refuted`, `C19_failed_decode_partial`, `C19_failed_decode_exact`.

### C20 float32 elements survive the trip through float64 (proved)

Bit-level model of float32 → float64 → float32, proved inverse for all non-NaN patterns via arithmetic on exponent and mantissa.

Result: elements of a list and values of a map, all float32 other than NaN and +0

Theorems: `C20_float32_roundtrip`, `C20_nan`, `C20_float32_map_roundtrip`, `C20_widen_exact`.

### C21 Packet round trip (partial)

Packets as an inductive type; the codec theorem for sequences applied to the fields of each body; the converse of C04 applied to the payload.

Result: violated for RPC payloads the codec does not round-trip, e.g. float64(0) crashes the receiver (refuted); proved for the seven packet types without payload without side condition, and for RPC packets exactly if the arguments/results are wireOK (C21_exact is an equivalence); body below 2^32 bytes

Theorems: `C21_packet_roundtrip_refuted`, `C21_packet_roundtrip_partial`, `C21_control_packets`, `C21_exact`.

### C22 Frame boundaries are found exactly (proved)

The header is the length of the body; arithmetic on four little-endian bytes.

Result: any packet that marshals, any following bytes, every cut point; body below 2^32 bytes, and C22_oversized_frame shows the limit is needed

Theorems: `C22_frame_boundaries`, `C22_slice_bound`, `C22_oversized_frame`.

### C23 Stream reassembly (proved)

Induction over the packets with the receive loop consuming any partition of the stream; invariant: buffer is the unconsumed suffix.

Result: any list of packets (payload wireOK, below 2^32 bytes), any cut of the byte stream into reads; both for whole streams with an incomplete tail and for every prefix of a stream

Theorems: `C23_reassembly`, `C23_reassembly_prefix`.

### C24 A malformed frame does not take the process down (partial)

The outcome of unmarshal is characterised exactly by conditions on the decoded fields.

Result: violated: five concrete frames kill the process; C24_malformed_frame_partial is an exact characterisation (iff) of the frames that are survived

Theorems: `C24_malformed_frame_refuted`, `C24_malformed_frame_partial`.

### C25 Text framing (proved)

Same receive loop with the NUL-terminated serializer.

Result: with the proviso of the statement; C25_proviso_needed shows what happens without it

Theorems: `C25_text_framing`, `C25_proviso_needed`.

### C26 Packet identifiers are unambiguous (proved)

All 256 identifiers by case analysis; the identifier is the first decoded field.

Result: all 256 identifiers; whatever unmarshal builds has the type its identifier names; the identifier sent is the one received

Theorems: `C26_identifiers`, `C26_identifier_sent`, `C26_maker`.

### C27 Send keeps order and drops only when full (proved)

State machine of one direction of a connection; invariant: sent = transmitted ++ queued, drop only when full.

Result: For every interleaving of check/push/transmit/receive actions on one direction of a connection.

Theorems: `C27_send_order`, `C27_send_drops_iff`.

### C28 End-to-end delivery (proved)

Composition of C27 with the reassembly theorem C23 or C25.

Result: For packets satisfying Sendable (those the serializer encodes and the receiver frames); both serializers.

Theorems: `C28_end_to_end`, `C28_end_to_end_text`.

### C29 Send never blocks (partial)

Two pending pushes past the length check (witness); invariant "queue + pending ≤ capacity" without overlap.

Result: Refuted as stated: two overlapping Sends can pass the length check together and one blocks. Proved when Sends do not overlap.

Theorems: `C29_send_blocks_refuted`, `C29_send_never_blocks_partial`.

### C30 OnClosed is reported once per connection (proved)

State machine of a socket with any number of overlapping `Close` calls; invariant counts reports per connection.

Result: Exactly once by the time Close returns, for all interleavings of overlapping Close calls; connections are not made during a Close. At most once holds without that restriction. C30_accept_race shows a connection accepted during Close is lost and never reported.

Theorems: `C30_closed_at_most_once`, `C30_closed_exactly_once`, `C30_accept_race`.

### C31 OnClosed is reported on remote disconnect (partial)

Invariant: without a local close the receive routine ends without calling the sink.

Result: Refuted: without a local close OnClosed is never called, in no continuation of a remote disconnect.

Theorems: `C31_remote_disconnect_refuted`.

### C32 No delivery after close (partial)

State machine of receive routine and `close`; witnesses; invariant bounds deliveries after close by the one in progress.

Result: Refuted (panic on the nil sink; delivery after close returned). Proved: at most one delivery after close, and none and no crash unless the receive routine was between its test of the sink and the call.

Theorems: `C32_no_delivery_refuted`, `C32_no_delivery_partial`.

### C33 The mock network behaves like a byte stream (partial)

Channel of capacity 1 and `copy`; invariant: written = read ++ in flight when nothing is truncated.

Result: Refuted for writes longer than the read buffer. Proved when no write exceeds the read buffers.

Theorems: `C33_byte_stream_refuted`, `C33_long_write_truncated`, `C33_byte_stream_partial`.

### C34 Mock connections are paired and uniquely addressed (partial)

State machine of listeners and diallers; pairing is an invariant, uniqueness fails for interleaved increments.

Result: Pairing and remote address proved for all executions. Uniqueness of local addresses refuted (reset; overlapping dials) and proved without reset and without overlapping increments of the counter.

Theorems: `C34_paired`, `C34_dialled`, `C34_unique_address_partial`, `C34_unique_address_refuted`.

### C35 Exactly one answer per call (proved)

State machine of callees, callers, timers and clock; invariant linking `done`, locks, channels and answers.

Result: In every execution of the model of callers, callees and timers: at most one answer per request, done iff answered, never both a result and a timeout, every returned answer is a recorded one and no answer is returned twice.

Theorems: `C35_one_answer`.

### C36 Callers get their own answers (proved)

Same invariants with at most one outstanding call per caller object.

Result: Under the property's own hypothesis (no call on a caller object before the earlier ones on it returned): a call returns the answer to itself, and a result is what the method invocation for this request returned.

Theorems: `C36_own_answer`.

### C37 A caller object may be shared (partial)

Concrete execution; what holds for shared callers by an invariant of the callee: the answers handed out are a permutation of the answers to the calls, and callers whose calls do not overlap get their own whatever happens with others.

Result: Refuted: an execution in which two goroutines share a caller object and each gets the other's result (C37_shared_caller_refuted). Proved: however a caller is shared, no answer is returned twice and the answers are those to its calls, permuted (C37_permuted_partial); a caller object whose own calls do not overlap gets its own answers whatever is done with others (C37_single_partial).

Theorems: `C37_shared_caller_refuted`, `C37_permuted_partial`, `C37_single_partial`.

### C38 Methods of one callee run one at a time, in order of arrival (proved)

Log of each handler against the queue history; invariant with list prefixes.

Result: The log of each callee's handler is a prefix of treating the requests one by one in the order in which they entered the queue; each enters once; unless the process died exactly the queued ones are unstarted.

Theorems: `C38_serial_fifo`.

### C39 A started call cannot hang (proved)

Construction of a schedule from an arbitrary reachable state.

Result: From every reachable state with unshared callers and a living process, ticks followed by timer, channel and caller actions only (no action of the method body) make a started call return.

Theorems: `C39_started_call_can_finish`.

### C40 Every call returns within its timeout (partial)

Invariant under promptness: clock ≤ start + timeout for unanswered calls; execution family for the refutation.

Result: Refuted: for every N an execution with a prompt runtime in which a queued call has not returned after N ns (C40_bounded_refuted). Proved part: under a prompt runtime a call has returned when the timeout has elapsed since its method started.

Theorems: `C40_bounded_after_start_partial`, `C40_bounded_refuted`.

### C41 Re-entrant calls are safe (partial)

Invariant "the callee's goroutine waits for a request behind itself in its own queue", stable under all actions.

Result: Refuted for all continuations: a method waiting for a call on its own callee waits forever and the callee never does anything again (C41_reentrant_deadlock, reached in C41_reentrant_refuted). Proved part: a method waiting for a call already started (hence on another callee) can always be released by the timeout.

Theorems: `C41_reentrant_deadlock`, `C41_other_callee_partial`, `C41_reentrant_refuted`.

### C42 Timeouts have the configured length (partial)

Nanosecond arithmetic with wrap-around; invariant on timers.

Result: Refuted: 0.1 s times out after 0 ns; 10^10 s wraps around and times out after 0 ns. Proved part: for timeouts below 9223372037 s, not before the whole seconds of the timeout have passed since the start of the method.

Theorems: `C42_not_early_partial`, `C42_not_early_refuted`, `C42_long_timeout_refuted`.

### C43 SetTimeout is local and defaults to one second (proved)

History of settings; invariant "configured = last set".

Result: The timeout applied at the start of a method is the last one set for this method of this callee before, or one second; unknown methods always have one second.

Theorems: `C43_last_setting_wins`.

### C44 Calling an unknown method is reported (partial)

Invariant on answers of requests whose method is unknown.

Result: Refuted: in every execution a call of an unknown method is answered with nil and no error, or with the timeout error (C44_never_reported), and the former happens (C44_unknown_method_refuted).

Theorems: `C44_never_reported`, `C44_unknown_method_refuted`.

### C45 Wrong arguments are reported, not fatal (partial)

`convertArgs` with exact conditions; execution of a call.

Result: Refuted for all methods and arguments: wrong number, nil or inconvertible arguments kill the process (C45_wrong_arguments_kill, C45_wrong_arguments_refuted). Proved part: arguments of the right number and classes are accepted. Conversions between composite types and of floats beyond the range of the integers are a parameter of the model (C133 for numbers).

Theorems: `C45_wrong_arguments_kill`, `C45_wrong_arguments_refuted`, `C45_right_arguments_accepted`.

### C46 Integer arguments arrive unchanged (proved)

Conversion on bit vectors, composed with the codec for remote calls.

Result: For every integer argument and every integer parameter type that can represent it, locally and after marshalling and unmarshalling the request, for requests whose other arguments survive the codec and whose body is below 2^32 bytes.

Theorems: `C46_integer_arguments`.

### C47 Allocated ports are unique per host (proved)

Hub state machine; ports of one host are strictly increasing.

Result: For all executions of the hub model (any peers, packets, black lists and interleavings): two register requests of peers whose addresses have the same host part get different ports; every port is in 20001..49000 and not black-listed.

Theorems: `C47_ports_unique`, `C47_ports_in_range`.

### C48 Port allocation is the next free port (proved)

Free ports by a specification of their own (`nth` free port); induction over the registrations.

Result: The n-th port given to a host (as seen by pickIP) is the n-th port above 20000 that is not black-listed; the hub dies in a step exactly if the step is a register request whose host's next such port is above 49000.

Theorems: `C48_nth_free_port`, `C48_exit`.

### C49 Queries are answered with the newest ready dock (partial)

Search routine in steps; invariant relates its position and candidate to the entries present at its begin.

Result: Proved: the address was offered (registered, then reported ready) for the queried slot before the response; among the entries present when the routine began its last search none later was ready then (C49_newest_partial). Refuted for the moment of the answer itself: the search is not atomic (C49_newest_refuted).

Theorems: `C49_response_was_offered`, `C49_answer_was_offered`, `C49_newest_partial`, `C49_newest_refuted`.

### C50 Pending queries are eventually answerable (proved)

Stability of entries, measure on the search routine, construction of the remaining schedule.

Result: Entries keep place, peer, address and readiness; once a dock is offered and its packet handled, a query that looks never needs to look again, needs at most entries + 1 further steps and can always take the next one; no answer before.

Theorems: `C50_never_withdrawn`, `C50_answered_at_next_look`, `C50_not_before`.

### C51 Docks are isolated at the hub (proved)

Per-step frame property lifted to executions.

Result: For all states and all executions in which only packets of one peer are handled (and any steps of query routines): the entries of other peers are unchanged and in the same order, the counters of other hosts are unchanged.

Theorems: `C51_isolated`.

### C52 The hub does not hand out dead docks (partial)

Concrete execution and a step lemma; invariant over the history of closings: the connection was open when the dock registered and until it became ready.

Result: Refuted: a query arriving after the only dock has disconnected is answered with its address (C52_dead_dock_refuted), because the end of a connection changes nothing at the hub (C52_close_changes_nothing). Proved: the dock was still connected when it registered and when it reported ready (C52_alive_when_ready_partial).

Theorems: `C52_dead_dock_refuted`, `C52_close_changes_nothing`, `C52_alive_when_ready_partial`.

### C53 The hub derives the dock's host from its address (partial)

Split at colons characterised; text lemmas.

Result: Refuted for hosts with a colon, e.g. [::1]:80. Proved: the host is right exactly if it contains no colon, and then the recorded address is host:port with the allocated port.

Theorems: `C53_host_partial`, `C53_recorded_partial`, `C53_host_refuted`.

### C54 Local features are called locally (proved)

Dock state machine with history; invocations compared with calls by list equality.

Result: C54_invoked: the local invocations in the history are exactly the calls to hosted names, in order (which feature: C68_last_wins). C54_no_packet: no query or request for a hosted name ever leaves the dock. C54_call_sends_nothing: the call itself sends no packet. The run of the method itself is the subject of C35-C46.

Theorems: `C54_invoked`, `C54_no_packet`, `C54_call_sends_nothing`.

### C55 A remote call is sent at most once (proved)

Invariant: every request sent carries a call in state "sent", each call once.

Result: C55_at_most_once: in every interleaving the request packets sent are those of pairwise distinct calls; C55_by_index states the same by packet index. Map operations and peer.Send are atomic in the model.

Theorems: `C55_at_most_once`, `C55_by_index`.

### C56 Remote answers reach the call they belong to (proved)

Invariant: the result of a call is the result in a response delivered to the dock with its index.

Result: C56_own_response (no assumption on indices needed) and C56_once (the result never changes). Mixing under equal indices is C57.

Theorems: `C56_own_response`, `C56_once`.

### C57 Concurrent remote calls never mix (partial)

Concrete executions with equal clock readings; for readings that differ from the table of calls (`RpcInv`).

Result: Refuted: the index is a clock reading; with equal readings one call returns the answer of the other (C57_mixed_refuted) and the other never returns (C57_lost_refuted). Proved: a call whose reading differs from those of all others returns a response with its index, and no other request with this index has been sent (C57_distinct_partial).

Theorems: `C57_mixed_refuted`, `C57_lost_refuted`, `C57_distinct_partial`.

### C58 Committing a pending call is race free (partial)

Concrete executions; invariant on who owns a pending call.

Result: Refuted in three ways: caller and ready handler commit the same call (nil dereference), two ready handlers do, and sockets[0] need not be the hub. C58_exclusive_partial: if no ready handler starts on a call somebody else is about to commit, the request is never nil. Go's abort on concurrent map access is not modelled.

Theorems: `C58_nil_refuted`, `C58_handlers_refuted`, `C58_socket_refuted`, `C58_exclusive_partial`.

### C59 Only discoverable features are advertised (proved)

Function `collect` characterised; register and ready packets in the history.

Result: C59_advertised for all feature lists incl. duplicate names (the last one counts); C59_distinct_names spells it out for distinct names.

Theorems: `C59_advertised`, `C59_distinct_names`.

### C60 Non-discoverable features are unreachable from outside (partial)

Concrete execution; invariant on executions and requests; composition with the honest system.

Result: Refuted: requests for non-discoverable features are executed if a peer sends them (C60_hidden_refuted). C60_only_asked_partial: only what was asked for is executed, each request at most once. C60_honest_partial: in a system of unmodified hub and docks no hidden feature is executed for a peer.

Theorems: `C60_hidden_refuted`, `C60_only_asked_partial`, `C60_honest_partial`.

### C61 Requests are routed to a dock that offers the feature (proved)

Composed system; invariant that knowledge of one process about another stems from packets really sent.

Result: C61_routed: every request sent goes to a dock that carries the feature as discoverable. C61_executed: the executions started at a dock are, in order, exactly those of the requests that arrived, each for a discoverable feature.

Theorems: `C61_routed`, `C61_executed`.

### C62 A dock is listening before it can be found (proved)

Composed system; answers of the hub trace back to the ready packet of a listening dock.

Result: C62_listening, C62_sent: an answered query names the address of a dock that carries the feature as discoverable and has opened its listener there.

Theorems: `C62_listening`, `C62_sent`.

### C63 Remote execution is at most once and genuine (partial)

Injection built from per-connection transfer of packets (sublists), per-dock execution logs and call records.

Result: C63_at_most_once: executions can be attributed injectively to calls, with no assumption (first half, in full). Second half: C63_genuine_partial attributes the result to an execution of a call with the same index; C63_genuine_distinct_partial to the call itself if clock readings are distinct and values survive the wire; C63_mixed_refuted refutes it when two clock readings coincide.

Theorems: `C63_at_most_once`, `C63_genuine_partial`, `C63_genuine_distinct_partial`, `C63_mixed_refuted`.

### C64 Every remote call returns (partial)

Invariant "a call without response stays pending" in all continuations, also for whole systems with a stopped dock; concrete executions.

Result: Refuted: a call without response never returns (C64_no_timeout_refuted, C64_lost_refuted), and dialling a dock that is gone ends the process (C64_dial_refuted). C64_answered_partial: once a response arrives the call can return, with no further steps of others, if its index is unique. C64_dead_dock_refuted: in a system, a call whose request went to a dock that stopped before receiving it never returns.

Theorems: `C64_no_timeout_refuted`, `C64_lost_refuted`, `C64_dial_refuted`, `C64_answered_partial`, `C64_dead_dock_refuted`.

### C65 A remote call behaves like a local one (partial)

Codec round trip followed by `convertArgs`, compared with `convertArgs` alone.

Result: Refuted: interface{} parameters and results change their type, slices are not convertible any more, float64(0) kills the receiver. Proved for parameters of basic types with scalar arguments that survive the codec (the parameters are identical) and, for results, equality of content.

Theorems: `C65_arguments_partial`, `C65_result_content_partial`, `C65_interface_refuted`, `C65_slice_refuted`, `C65_zero_refuted`, `C65_result_type_refuted`.

### C66 Generated proxies return the remote result (partial)

Model of the type assertion in generated code on decoded results; all basic types.

Result: Refuted: for results of type int, uint, uintptr, float32 and all named basic types the proxy always panics. Proved for bool, string and float64 results that survive the codec; C66_exact characterises all basic types.

Theorems: `C66_local`, `C66_returned_partial`, `C66_exact`, `C66_panics_refuted`, `C66_zero_refuted`.

### C67 Visit returns one proxy per slot and name (partial)

State machine of overlapping visits.

Result: Proved for visits of one slot and name that do not overlap, for names never registered, and for slots that already have a visitor (any interleaving). Refuted for overlapping visits and for makers of a wrong type.

Theorems: `C67_same_partial`, `C67_kept`, `C67_unregistered`, `C67_overlap_refuted`, `C67_wrong_maker_refuted`.

### C68 A later feature with the same name wins (proved)

`features` as the last entry with the name; invocations in the history.

Result: C68_last_wins: every invocation, local or remote, is of the last feature carried under the name; C68_others_unaffected.

Theorems: `C68_last_wins`, `C68_others_unaffected`.

### C69 Shutdown destroys everything once, in reverse order (partial)

State machine of overlapping `wait` and `destroy`.

Result: Proved when Startup, Serve and Close do not overlap with a Close (order, once, no panic); OnDestroy once per feature and reverse order of sockets in all interleavings. Refuted: overlapping calls lose an instance or panic, duplicate names are not destroyed, sockets opened during Close are not closed.

Theorems: `C69_once_partial`, `C69_reverse_partial`, `C69_second`, `C69_features`, `C69_sockets`, `C69_lost_refuted`, `C69_double_refuted`, `C69_duplicate_refuted`, `C69_late_socket_refuted`.

### C70 Set semantics (partial)

Refinement to membership with Go equality; for all items, the results, the length and the contents are given by counting additions (`C70_exact_partial`).

Result: Proved for items that are nil or of a comparable type without NaN; refuted for NaN and for unhashable items. C70_exact_partial says what happens for all sequences of items that do not panic, NaN included.

Theorems: `C70_set_partial`, `C70_exact_partial`, `C70_nan_refuted`, `C70_unhashable_refuted`.

### C71 Generated proxies forward all arguments (partial)

Template functions over syntax trees; well-formedness and forwarding read off the generated tokens.

Result: Refuted for parameters that share a type (x, y int) and for a parameter called p; proved when every parameter has its own type.

Theorems: `C71_forward_partial`, `C71_one_per_field`, `C71_grouped_refuted`, `C71_receiver_refuted`, `C71_rejected`.

### C72 Generated proxies return well-typed defaults on error (partial)

Table of defaults against Go's literal rules per type.

Result: C72_exact gives the exact set of result types that get a valid literal; refuted for string, byte, rune, uintptr and the complex types.

Theorems: `C72_exact`, `C72_defaults_partial`, `C72_string_refuted`.

### C73 Unknown tags are rejected (proved)

One step of the decoder dispatch; array prefix by induction.

Result: All byte sequences at top level; as an array element behind any list of encodable values.

Theorems: `C73_unknown_tag_rejected`.

### C74 The hub answers each request once, to the peer that asked (proved)

Multiset of responses against requests in the history, invariant.

Result: For all executions of the hub model; packets handed to peer.Send count as sent.

Theorems: `C74_register_responses`, `C74_query_responses`, `C74_at_most_one_each`.

### C75 Packets cannot crash a dock (partial)

Concrete execution; invariant on the channel of a call under single responses.

Result: Refuted: a duplicated response can hit a closed channel and panic. C75_single_response_partial: with at most one response per index the channel is open and empty. C75_honest_partial: in a system of unmodified processes this holds if the clock readings of the dock are distinct.

Theorems: `C75_duplicate_refuted`, `C75_single_response_partial`, `C75_honest_partial`.

### C76 A pending call is sent when its feature becomes ready (proved)

Invariant on the ready handler's loop over pending calls.

Result: C76_ready_wakes, for all interleavings and map iteration orders.

Theorems: `C76_ready_wakes`.

### C77 One connection per remote dock (partial)

Concrete execution; invariant that counts connections against received query responses.

Result: Refuted: two calls of one remote feature lead to two connections (C77_two_connections_refuted). Proved: the dock opens no more connections than it has received query responses (C77_counted_partial).

Theorems: `C77_two_connections_refuted`, `C77_counted_partial`.

### C78 Generated proxies have the results of the interface (partial)

As C71, for results.

Result: Refuted for results that share a type; proved otherwise.

Theorems: `C78_results_partial`, `C78_grouped_refuted`.

### C79 Docks on one host listen on different ports (proved)

Composed system; C47 with the relation between hosts and addresses.

Result: C79_no_conflict

Theorems: `C79_no_conflict`.

### C80 A dock only dials addresses where a dock listens (proved)

Composed system; dialled addresses come from answers of the hub.

Result: C80_dial: a dock listens there and it is the only one.

Theorems: `C80_dial`.

### C81 An unmodified system does not bring its processes down (partial)

Composed system; every step that ends a dock is traced to a cause, using the invariants of the dock and C75; concrete executions for the refutations.

Result: Refuted in systems without outside failures: a call is committed twice (C81_race_refuted), two calls with one clock reading (C81_clock_refuted), an argument 0.0 (C81_payload_refuted). C81_causes_partial lists all causes: besides these, a failing dial, a stop from outside, and a call before the first socket is stored.

Theorems: `C81_causes_partial`, `C81_race_refuted`, `C81_clock_refuted`, `C81_payload_refuted`.

### C82 Each request is answered at most once, with its own result (proved)

Invariant relating responses sent to executions that are over, and executions to requests received.

Result: C82_at_most_one counts responses against requests per peer and index; C82_own_result relates contents.

Theorems: `C82_at_most_one`, `C82_own_result`.

### C83 Known features are called without the hub (proved)

Invariant: every name in a handled register packet has a route; routes are never removed; commit with a route sends.

Result: For calls whose request is still set (req), as commit panics otherwise (C58).

Theorems: `C83_direct`.

### C84 Answered calls are forgotten (proved)

Invariant relating finished response goroutines to the table of pending calls.

Theorems: `C84_forgotten`.

### C85 Registrations are answered with ready (proved)

Invariant counting ready packets sent against register packets received.

Result: Counts calls of Send; delivery is C61 to C63.

Theorems: `C85_answered`.

### C86 The packet handler of a dock terminates (proved)

Decreasing measure on the handler (names left times calls not yet visited); case analysis for progress.

Result: A Dial in progress is ended by the network, which the model lets fail or succeed at any time.

Theorems: `C86_ends`, `C86_not_stuck`.

### C87 The features of a dock are started once, when it is reachable (partial)

Counting invariant of the dock; in the composed system each dock has one end at the hub and registers once there; concrete executions for the refutations.

Result: Start means the statement go d.start(). C87_starts_partial: starts equal register responses received; C87_once_honest_partial: at most one in a system of unmodified processes; C87_reachable: the dock listens and has sent ready before. Refuted: a second register response starts the features again (C87_twice_refuted); a peer that connects in between has its request executed before the start (C87_early_refuted).

Theorems: `C87_starts_partial`, `C87_reachable`, `C87_twice_refuted`, `C87_early_refuted`, `C87_once_honest_partial`.

### C88 Dial on the mock network returns (partial)

Mock network model with the dialling routine in steps; invariants that hold in all continuations (stuck, lonely); concrete executions.

Result: Refuted: with nobody listening Dial never returns (C88_waits, C88_no_listener_refuted); the second Dial to a closed listener never returns, whatever happens (C88_closed_listener_refuted). C88_returns_partial: once handed over Dial can return by its own steps; with a waiting accept routine it can succeed.

Theorems: `C88_waits`, `C88_no_listener_refuted`, `C88_closed_listener_refuted`, `C88_returns_partial`.

### C89 Both ends agree on the outcome of Dial (partial)

As C34, with the last steps of the dialling routine and its result; concrete executions.

Result: Refuted: Dial returns an error but the listener holds the other end (C89_half_open_refuted, two schedules). C89_outcome_partial: without error both ends are paired; without the time elapsing there is no error.

Theorems: `C89_half_open_refuted`, `C89_outcome_partial`.

### C90 Closing a mock listener (partial)

Invariants after Close; concrete executions; a crash is an explicit state.

Result: Proved in full: nothing is accepted after Close (C90_no_accept). Refuted: a Close overlapping with an Accept ends the process (C90_crash_refuted); the third Close, or the second after a Dial, blocks for good (C90_blocks_refuted). C90_safe_partial: no crash if Close does not drop the map during an Accept.

Theorems: `C90_no_accept`, `C90_crash_refuted`, `C90_blocks_refuted`, `C90_safe_partial`.

### C91 A socket uses the serializer registered under its name (partial)

Tables as functions; induction over the calls of a program.

Result: Refuted for txt registered before the first socket (C91_txt_refuted). C91_lookup_partial gives the exact result for all names and programs.

Theorems: `C91_lookup_partial`, `C91_txt_refuted`.

### C92 Mock redirects sockets to the mock network (partial)

Tables as functions; induction over the calls of a program.

Result: C92_mock_partial gives the exact result for all programs; refuted for Mock of any name but tcp (C92_other_refuted).

Theorems: `C92_mock_partial`, `C92_other_refuted`.

### C93 Encode reports failed writes (partial)

Encoder on an arbitrary writer as a state machine (`Codec/Write`); induction over the value.

Result: C93_reported_partial: for lawful writers, if the value holds no floats or the writer fails for good after its first failure. Refuted for floats: C93_swallowed_refuted, the write of the tag is not checked.

Theorems: `C93_reported_partial`, `C93_swallowed_refuted`.

### C94 Calls move on when the dock in use is gone (partial)

Induction over executions of a dock for the table of routes; invariant of the system with a stopped dock, concrete execution of three docks.

Result: C94_last_partial and C94_kept_partial: the last registering dock serves the feature, until another registers. Refuted: C94_stale_refuted, with another dock ready at the hub the call still goes to the dead one and never returns.

Theorems: `C94_last_partial`, `C94_kept_partial`, `C94_stale_refuted`.

### C95 Every interface gets a proxy (partial)

Walk and declarations as lists (`Gen/Files`); induction over both; concrete walks.

Result: C95_exact_partial: exactly the interfaces not declared in a group, of the Go files met before the first error of the walk, each once; C95_all_partial: hence all, without groups and errors; C95_methods_partial: with exactly their methods. Runs that end in a panic or a fatal error are excluded. Refuted: C95_grouped_refuted, C95_unreadable_refuted.

Theorems: `C95_exact_partial`, `C95_all_partial`, `C95_methods_partial`, `C95_grouped_refuted`, `C95_unreadable_refuted`.

### C96 Proxy types do not clash (partial)

Injectivity of the naming on lower-case names; concrete walks.

Result: C96_exact: the types differ exactly if the names differ in lower case (ASCII); C96_distinct_partial: the names registered then differ as well. Refuted: C96_clash_refuted.

Theorems: `C96_distinct_partial`, `C96_clash_refuted`, `C96_exact`.

### C97 Generating again changes nothing and follows the sources (partial)

Exact condition for reading a file by induction over the path; equality of the scans with and without the output.

Result: C97_scanned_partial: exactly which files are read; C97_again_partial: a second run keeps the proxies (the date in the header is not modelled). Refuted: C97_stale_refuted, without interfaces the old file stays (C97_untouched: always); C97_skipped_refuted, files whose path contains the name of the output are passed over.

Theorems: `C97_scanned_partial`, `C97_again_partial`, `C97_untouched`, `C97_stale_refuted`, `C97_skipped_refuted`.

### C98 A broadcast reaches every peer (partial)

Loop of the call in steps with the queues of the peers (`Net/Broadcast`); invariants over all executions; a state that no continuation leaves.

Result: C98_each_once_partial: a call that has ended met exactly the peers present at its start, each once, and only full queues discard; C98_alone_partial: calls one at a time never wait. Refuted for concurrent calls: C98_blocked_refuted.

Theorems: `C98_each_once_partial`, `C98_alone_partial`, `C98_blocked_refuted`.

### C99 Calls on a dock that is closed (partial)

Closing and calling in steps over the tables of the dock (`Dock/Shut`); invariants for the open dock, exact outcome after `Close` for all states, concrete executions.

Result: C99_open_partial: no call ends the process from the moment the hub's socket is in the table until Close empties it, and own features are found until Close removes them; C99_closed: exactly what a call meets after Close. Refuted: C99_crash_refuted, C99_race_refuted (the process ends), C99_hangs_refuted (the call never returns).

Theorems: `C99_open_partial`, `C99_closed`, `C99_crash_refuted`, `C99_race_refuted`, `C99_hangs_refuted`.

### C100 Memory requested while decoding (partial)

List of the requests made with announced lengths, for every input (`Codec/Memory`); induction over the decoder for the bound on success, independence of what follows the value for encodings, nested headers for every count and depth.

Result: C100_encoded_partial: at most 16 bytes per byte for what Encode wrote; C100_accepted_partial: the same for every accepted input that leaves something over, otherwise at most 4 GiB more; C100_worst_partial: 64 GiB per byte for any input. Refuted: C100_refuted, 5*k bytes that are rejected request 16*n*k bytes for every n below 2^32 and every k.

Theorems: `C100_encoded_partial`, `C100_accepted_partial`, `C100_refuted`, `C100_worst_partial`.

### C101 Features are started and destroyed once and in order (partial)

Both loops in steps with features that return at any time or never (`Dock/Start`); invariants over all executions, completion by induction over the remaining features, concrete executions.

Result: Each method is called at most once per feature, and exactly once by a loop that ends (C101_once_partial); if Close waits for the start, OnStart has returned before OnDestroy (C101_order_partial); the start can be completed from every state if the features return (C101_progress_partial). Violated: an OnStart that does not return keeps the other features from starting (C101_blocked_refuted); Close may destroy features before or while they are started (C101_order_refuted); a port arriving after Close starts nothing (C101_late_refuted).

Theorems: `C101_once_partial`, `C101_order_partial`, `C101_progress_partial`, `C101_blocked_refuted`, `C101_order_refuted`, `C101_late_refuted`.

### C102 A slot calls within its own dock (partial)

Making slots and docks and looking calls up (`Dock/Slot`); invariant relating the tables to the slots each dock was made of, concrete executions.

Result: Proved for executions in which no slot is passed to two docks: calls are looked up among the slots of the own dock (C102_own_partial), and every call of a slot of a dock is possible and goes to the last slot of that name, leaving the dock exactly if there is none (C102_call_partial). Violated: a slot passed to Startup twice calls through the second dock (C102_shared_refuted); a call before Startup ends the process (C102_early_refuted).

Theorems: `C102_own_partial`, `C102_call_partial`, `C102_shared_refuted`, `C102_early_refuted`.

### C103 Instances started at the same time are all closed (partial)

The slice of instances with arrays, headers and appends in steps (`Dock/Runtime`); invariant for non-overlapping calls, an instance that no continuation closes, a concrete crash.

Result: Proved for calls whose assignments of insts do not overlap with one another or with Close (C103_closed_partial). Violated: overlapping calls of Startup lose an instance for good (C103_lost_refuted) or make Close read beyond the end of insts (C103_crash_refuted).

Theorems: `C103_closed_partial`, `C103_lost_refuted`, `C103_crash_refuted`.

### C104 Startup and Serve return when their instance is closed (partial)

Same model with signals; invariants along the phases of a call, concrete executions.

Result: Proved: a signal releases every call that waits (C104_released_partial), and after the first signal.Notify no signal ends the process (C104_survives_partial). Violated: without a signal no call ever returns, whatever is closed (C104_stays_refuted), also one that begins to wait after the last signal (C104_late_refuted); after a signal the calls return with nothing closed (C104_unclosed_refuted); a signal before the first call waits ends the process (C104_killed_refuted).

Theorems: `C104_stays_refuted`, `C104_late_refuted`, `C104_unclosed_refuted`, `C104_killed_refuted`, `C104_released_partial`, `C104_survives_partial`.

### C105 A hub can be closed while packets are handled (partial)

`Close` and the handlers in steps over tables that become nil (`Hub/Shut`); invariants before `Close` and for idle handlers, exact outcome of every registration afterwards, queries that no continuation ends.

Result: Proved: nothing ends the process before line 48 (C105_open_partial), nor afterwards if no registration is handled (C105_quiet_partial). Violated: after Close every registration ends the process (C105_register_refuted), so does one caught between lookup and write (C105_between_refuted); waiting queries go round for ever (C105_spin_refuted).

Theorems: `C105_open_partial`, `C105_quiet_partial`, `C105_register_refuted`, `C105_between_refuted`, `C105_spin_refuted`.

### C106 Data of a hub is accessed by one goroutine at a time (partial)

Sequences of accesses and mutex operations of each kind of packet and of `Close` (`Race/Hub`); a general theorem that data protected by a mutex, or only read, has no conflicting accesses (`Race/Facts`), concrete conflicting executions for the rest. `Race/Where` computes the accesses of a program with the mutex held meanwhile and constructs, for two that are not protected by the same mutex, an interleaving in which they overlap; so the conflicts that are possible are known exactly.

Result: Proved for the three maps as long as the hub is not closed (C106_maps_partial) and for the mutexes in general (C106_progress_partial). Violated: the lists of stubs are read outside the mutex while registrations append to them (C106_list_refuted), and so is ready of the stubs (C106_flag_refuted); Close sets the maps to nil without the mutexes (C106_close_refuted). Exactly which goroutines conflict in some interleaving is proved in C106_where_partial.

Theorems: `C106_maps_partial`, `C106_progress_partial`, `C106_list_refuted`, `C106_flag_refuted`, `C106_close_refuted`, `C106_where_partial`.

### C107 Data of a dock is accessed by one goroutine at a time (partial)

Same with `Race/Dock`, with `Close` and `Register`.

Result: Proved for the table of remote features in general, and for the tables of own features and of proxies as long as the dock is not closed and no proxy is registered (C107_tables_partial); the mutex leaves nobody waiting (C107_progress_partial). Violated for the table of calls (C107_calls_refuted, C107_ready_refuted), the sockets (C107_sockets_refuted) and the visitors (C107_visit_refuted), and by Close (C107_close_refuted) and Register (C107_register_refuted). Exactly which goroutines conflict in some interleaving is proved in C107_where_partial.

Theorems: `C107_tables_partial`, `C107_progress_partial`, `C107_calls_refuted`, `C107_ready_refuted`, `C107_sockets_refuted`, `C107_visit_refuted`, `C107_close_refuted`, `C107_register_refuted`, `C107_where_partial`.

### C108 Data of the network package is accessed by one goroutine at a time (partial)

Same with `Race/Net`.

Result: Proved for the table of networks, and that the mutexes block nobody (C108_makers_partial). Violated for the serializers (C108_serializers_refuted), the listeners of the mock (C108_listeners_refuted), the peers of a socket (C108_peers_refuted) and the sink of a peer (C108_sink_refuted). Exactly which goroutines conflict in some interleaving is proved in C108_where_partial.

Theorems: `C108_makers_partial`, `C108_serializers_refuted`, `C108_listeners_refuted`, `C108_peers_refuted`, `C108_sink_refuted`, `C108_where_partial`.

### C109 Data of a callee is accessed by one goroutine at a time (partial)

Same with `Race/Chan`.

Result: Proved for the table of methods and the requests, and that the mutexes block nobody (C109_requests_partial). Violated for the timeouts (C109_timeout_refuted). Exactly which goroutines conflict in some interleaving is proved in C109_where_partial.

Theorems: `C109_requests_partial`, `C109_timeout_refuted`, `C109_where_partial`.

### C110 A call of a remote feature can complete (proved)

For each packet the exact run of its handler from any quiet state (`Dock/Live`, `Hub/Live`), composed over connections (`System/Live`, `System/Pair`): a continuation is constructed from every state that satisfies the invariants, first directly, then over the hub.

Result: Two theorems: over a known connection, and over the hub. The continuation is one possible execution; that every fair execution ends this way is not claimed (see C64, C81 and C94 for what can go wrong).

Theorems: `C110_direct`, `C110_via_hub`.

### C111 Decode accepts exactly the grammar (proved)

Mutual inductive grammar of byte sequences that does not mention the decoder; induction over fuel gives for every input acceptance with that rest, a crash, or an error, and inversions of the grammar give the converse.

Theorems: `C111_accepted`.

### C112 A dock can join a running system at any time (proved)

As for C110: the runs of the hub's loops over the slots of a registration and of a ready packet are computed by induction, and the steps of dock and hub are composed over the new connection (`System/Join`).

Result: The continuation is one possible execution; that every fair execution ends this way is not claimed.

Theorems: `C112_join`, `C112_serves`.

### C113 Slots are misused in exactly three ways (proved)

Invariant relating the names and docks of slots to the actions taken so far; case analysis of the last action.

Theorems: `C113_misuse`.

### C114 The generated file does not depend on the order of the methods (proved)

Insertion into a sorted list keeps it sorted; sorted lists with the same elements are equal; induction over the declarations and files around the interface.

Result: The order in which the template visits a map is that of the Go library; the date in the header of the file is not modelled.

Theorems: `C114_sorted`, `C114_order`.

### C115 A call among features of a process can return unless they wait in a circle (proved)

"Waits in a circle" is stable under all actions; for the converse induction over the end of the chain: each callee on it can be freed by serving the call its method waits for, or by letting the timer of that call fire, using the steps that are enabled one after the other.

Result: Exact characterisation (C115_exact), with the steps that let a call return (C115_returns) and the frozen circles (C115_circle). C115_mutual shows a circle that is reached by two features calling each other at the same time.

Theorems: `C115_circle`, `C115_returns`, `C115_exact`, `C115_mutual`.

### C116 Responses carry what the feature's method returned (proved)

The dock and its callees in one transition system (`Dock/Whole`) whose runs project to runs of both parts; invariant relating goroutines, calls and responses.

Result: C116_answers.

Theorems: `C116_answers`.

### C117 The requests of a peer are executed in order (partial)

What a callee has accepted only grows; a call made later is behind in it; the log is a prefix of starts and ends in this order.

Result: Refuted: each request is handled by a goroutine of its own, so two requests of one peer may be executed in the other order (C117_order_refuted). Proved: a request that arrives after the response to another one is executed after it.

Theorems: `C117_sequential_partial`, `C117_order_refuted`.

### C118 The methods of a feature are executed one at a time (partial)

As C38, for the callees of a dock; concrete executions for `OnStart` and for two names.

Result: Refuted: OnStart runs concurrently with methods (C118_onStart_refuted), and a feature carried under two names has two callees (C118_two_names_refuted). Proved: methods called through one slot never overlap.

Theorems: `C118_exclusive_partial`, `C118_onStart_refuted`, `C118_two_names_refuted`.

### C119 Every request for a feature of a living dock can be answered (partial)

The steps of C115 are lifted to the dock and composed with those of the goroutine of the request; invariants for methods that wait for remote calls and for circles.

Result: Refuted: a method that waits for a remote call blocks all other requests for its feature until that call returns, which it need not (C119_remote_refuted, in general C119_abroad); features waiting in a circle answer nobody for ever (C119_circle_refuted, in general C119_circle). Proved: otherwise, with suitable arguments, the response can be sent by the goroutine of the request and package chancall alone.

Theorems: `C119_answered_partial`, `C119_abroad`, `C119_circle`, `C119_remote_refuted`, `C119_circle_refuted`.

### C120 Remote calls obtain what the feature's method returned (proved)

Every dock of the composed system is a reachable dock with callees, and the composed system projects to the system of C61 to C63; the invariants of both are joined along the indices of the calls.

Result: C120_results. Without distinct readings of the clock the claim is false (C63_mixed_refuted).

Theorems: `C120_results`.

### C121 Features of different docks that call each other return (partial)

No request is received twice, so a request that has not been started gives no result; by this every step preserves a circle of waiting across docks. A concrete execution leads to one. Conversely, by induction along the chain of waiting, the last method of the chain is let return, then the answer travels back, and so on, while everything that others rely on stays as it is (`Frame`). Requests and responses under way on the connections are let arrive first, which changes nothing that matters to the calls considered (`Drained` in Verif/Props/World10.lean).

Result: Refuted: two docks whose features call each other at the same time wait for ever (C121_circle_refuted; in general C121_circle, and C121_behind for calls that wait behind a circle; the continuations considered are those in which the clock of no dock returns the same reading twice). Proved: in all other cases a call can return (C121_returns_partial), so that circles are the only obstacle (C121_exact_partial), provided the processes concerned are alive, the caller's dock is not handling a packet of the connection between the two docks, only requests and responses that arrive and suit are under way to it, answers without results, for a timeout or with the result obtained already fit into a packet, and arguments suit the methods.

Theorems: `C121_returns_partial`, `C121_exact_partial`, `C121_circle`, `C121_circle_refuted`, `C121_behind`.

### C122 Connections neither reorder, repeat, invent nor alter packets (proved)

`Link` (queue, goroutines and bytes) is related to `Conn` (a lossy queue of packets) by a simulation in lock step; frames of any packet, decodable or not, are cut exactly. `System` projects onto `Conn` at each end.

Result: For the model of peers with goroutines, queue and byte stream (Net.Peer): C122_delivered states it directly; C122_refines relates it to a queue of packets in lock step, and C122_system shows that the ends of the connections of System are such queues. `Regular` says that identifier and body of a packet agree (as in all calls of Send in the code) and that it has less than 4 GiB; for longer ones see C22_oversized_frame.

Theorems: `C122_refines`, `C122_delivered`, `C122_sent_once`, `C122_system`.

### C123 A remote call applies the method to the arguments (partial)

Executions of `World` in which each return follows a given application (`Follows`); an invariant on what methods have returned (`AppInv`); with C120 per call, and the conversions of C65 and C66. The applications of `test/` and of `ferry_test.go` are instances, with concrete executions.

Result: Applied to the arguments as they arrive over the wire: proved for all applications (C123_results). Through proxies: proved for parameters of basic types and results of the types bool, string and float64 that survive the wire (C123_proxy_partial, C123_example, C123_test); others are lost or panic, see C65 and C66. A proxy hides the timeout: 0 as the sum of 1 and 2 (C123_sum_refuted).

Theorems: `C123_results`, `C123_proxy_partial`, `C123_example`, `C123_test`, `C123_sum_refuted`.

### C124 Calls return in every fair execution (proved)

Infinite executions (`Exec` in Verif/Fair.lean) with weak fairness for all goroutines and strong fairness for room in queues. Phases of a call that are left only forwards and cannot last; position in the queue; pigeonhole over the callees that run one method for ever, with C115 for the converse. Concrete fair executions: two calls that return, and two features that call each other.

Theorems: `C124_started`, `C124_returns`, `C124_exact`, `C124_unreturned`.

### C125 Every request that is sent is answered in every fair execution (proved)

Infinite executions of `System` with weak fairness for all goroutines of docks and hub, connections and packets, and strong fairness for the loops over the calls (`System.Fair`). The courses of each dock and of the hub are fair too; a packet moves to the front of its queue, is received and handled; the response is matched with the call by its index. Courses may pause, so executions that end when nothing is left to do are included. That methods return is a hypothesis of its own (`MethodsReturn`); `C125_executed` follows a single request without it. An execution that comes to rest is fair (`quiet_fair` in Verif/System/Quiet.lean), which gives a concrete fair execution.

Theorems: `C125_executed`, `C125_answered`.

### C126 Calls of offered features return in every fair execution (proved)

As C125 (`C126_sent` without the hypothesis that methods return): registration with the hub, query, answer, dialling, introduction, readiness of the peer and commit each lead to the next. With the concrete fair execution of C125.

Theorems: `C126_sent`, `C126_returns`, `C126_joined`.

### C127 Which calls return in fair executions of docks with the callees of their features (proved)

Courses of `World` (docks with the callees of their features and a hub) with weak fairness for all goroutines, strong fairness for the loops over the calls and for goroutines that wait for room in the queue of a callee, and time that passes at every dock (`World.Fair` in Verif/System/WorldFair.lean). From such a course one gets a fair course of `System` and for each dock a fair execution of package chancall with caller objects that are not shared, so the lemmas of C124 to C126 apply to the parts; `C127_exact` and `C127_local` join them with C121 (callees that wait for one another never go on). Whether methods return is not part of fairness. An execution that comes to rest while time passes is fair (Verif/System/WorldQuiet.lean): one in which all methods return, and `C127_unreturned`, in which two features of two docks call each other.

Theorems: `C127_started`, `C127_returns`, `C127_returns_local`, `C127_exact`, `C127_local`, `C127_unreturned`.

### C128 Platforms of 32 and 64 bits understand each other (partial)

`Codec/Word` and `Proto/Word` model what depends on the word size: `encodeInt`, `encodeUint`, `make` with limits, `Int`, and the arithmetic of frame lengths on 32-bit integers.  The decoder with limits is compared with the one without by induction over the requests of `Codec/Memory` (`Codec/WordFacts`).

Result: Proved: values that exist on 32 bits are encoded in the same way except the smallest int (C128_encode_partial), which is still read as the same number (C128_int_partial); a decoder whose make is limited panics exactly at a request beyond the limits and otherwise does the same (C128_decode_partial); what Slice returns, exactly (C128_slice_partial); packets shorter than 128 MiB whose values survive the codec are written, found and read in the same way (C128_packet_partial). Violated: the smallest int (C128_encode_refuted), announced lengths of arrays and strings (C128_decode_refuted), and frame headers announcing nearly 2 GiB or more, which end a process of 32 bits (C128_crash_refuted) or keep it from ever receiving anything more on the connection (C128_stuck_refuted).

Theorems: `C128_encode_partial`, `C128_encode_refuted`, `C128_int_partial`, `C128_decode_partial`, `C128_decode_refuted`, `C128_slice_partial`, `C128_packet_partial`, `C128_crash_refuted`, `C128_stuck_refuted`.

### C129 The byte counts of the encoder (partial)

`Codec/Count` is the encoder on any writer with the numbers that its functions return.  By induction over the value: error and writer are those of `Codec/Write`, and the number is at most the sum of the numbers that the calls of `Write` returned, equal to it without floats.  With C93 it is the length of the encoding if the error is nil.  Refuted for floats: the byte of the tag is not counted (/repo/codec/encoder.go:29, 34).

Result: Proved for values without floats on every lawful writer, also when a write fails; never too large for any value. Refuted for floats: the tag's byte is not counted (/repo/codec/encoder.go:29, 34).

Theorems: `C129_same_partial`, `C129_count_partial`, `C129_length_partial`, `C129_refuted`.

### C130 Packets that are sent arrive in every fair execution of a connection (proved)

on the model of C27 and C28 (`Net/Peer`).  An invariant says that buffer and wire hold the frames of the packets that were written and not delivered; while the next frame is incomplete every read makes the buffer longer, the queue gets shorter by fairness of the send routine, so that there is room again and again and the goroutines in `Send` enter one after the other.  At the level of packets this is what the fairness of C125 to C127 assumes.

Theorems: `C130_arrives`, `C130_arrives_text`.

### C131 Calls made at the same time (partial)

Refuted: `peer.Send` discards packets while twenty are waiting, without telling its caller, and nothing repeats a request.  A request that was sent and is neither under way nor received is never sent again (invariant over all steps of the system, at most one request per call), so the call never returns, whatever all processes do; a concrete system with 21 calls at once, with the execution of the connection in which the last request is discarded.  What holds: while fewer than twenty packets wait, none is discarded, and in fair executions all arrive (C130).

Result: The full statement is refuted: Send discards packets while twenty wait (C131_discarded_refuted), a request lost like this is never sent again and its call never returns (C131_lost_refuted; concrete system C131_overload_refuted). Proved: nothing is discarded while fewer than twenty packets passed to Send are unwritten, and in fair executions all packets then arrive.

Theorems: `C131_lost_refuted`, `C131_discarded_refuted`, `C131_window_partial`, `C131_arrives_partial`, `C131_overload_refuted`.

### C132 A float64 read as float32 is the nearest float32 (proved)

The bits of a float denote a multiple of the least positive float of the format.  Rounding a quotient to nearest is nearest among the multiples of the unit; numbers of smaller exponents are below the least one of the binade, which is a float itself; so the result is nearest among all floats, and unique (between two floats with even fraction there is another one).

Result: The conversion instruction itself (IEEE 754, round to nearest even) is modelled on bit patterns; the theorem says that the model is what IEEE 754 prescribes.

Theorems: `C132_accessor`, `C132_received`, `C132_parameter`, `C132_unique`.

### C133 Numbers passed to parameters of other types (partial)

`Chan/Number`: the conversions of package reflect between numbers and of integers to strings, on bit patterns.  Integers to floats: nearest, by the facts used for C132, for fractions of 52 bits; floats to integers: division of the multiple of 2^-1074 that the float denotes; characters: compared with the UTF-8 encoder of Lean's core library.  Refuted by rounding twice, by wrapping, and by integers that strings accept as code points.

Result: The full statement is refuted: integers above 2^53 passed to float32 parameters are rounded twice (C133_twice_refuted), numbers that the type does not have wrap silently (C133_wraps_refuted), and integers passed to string parameters become characters (C133_string_refuted, C133_character). Proved: integers to float64 and, up to 2^53, to float32 are rounded to nearest, integers and truncated floats that fit arrive unchanged.

Theorems: `C133_float64_partial`, `C133_float32_partial`, `C133_integer_partial`, `C133_truncated_partial`, `C133_twice_refuted`, `C133_wraps_refuted`, `C133_string_refuted`, `C133_character`.

### C134 All features are started (partial)

the steps of the loops of `Whole` in courses of `World`; the join of C126 up to `go d.start()`, one loop per dock (C87), weak fairness of the goroutine; an `OnStart` that lasts for ever waits for a call that C127 shows to return.  Refuted by the race between `run` and the hub's answer, after which queries go to the listener.

Result: Proved for all fair executions in which nothing is lost or stopped, methods return, clocks give no reading twice, and the first socket of a dock that starts its features is the one to the hub; refuted without the last (run stores the hub's socket after the hub's answer has been handled). That an OnStart which does not return waits for a call is a hypothesis on the feature's code.

Theorems: `C134_started_partial`, `C134_test_partial`, `C134_overtaken_refuted`.

### C135 The goroutines of a connection end when it is closed (partial)

`Net/Routine`: the two goroutines of a peer, `Send` and `close` step by step; a nil object stays in the queue until it ends the send routine.  Weak fairness of the two routines; a write after `conn.Close` fails, a read does on connections that follow `net.Conn`.  Refuted by a full queue, which discards the nil; by a failed write, after which `close` can block for ever; by the other end; and for the mock.

Result: Proved: the receive routine ends after conn.Close (lawful connections) or when the other end is closed (all), if the handlers return; the send routine of a lawful connection ends after conn.Close if a nil object entered the queue, and it remains exactly if it waits at an empty queue that nothing enters again.  Refuted: with a full queue close discards its nil, and the send routine can wait for ever; when the other end closes, the send routine and the connection remain; after a failed write close can block for ever; close of a mock connection does not end its own receive routine.  Handlers that do not return, and panics of Marshal, are not modelled here.

Theorems: `C135_receive`, `C135_send_partial`, `C135_send_exact`, `C135_leak_refuted`, `C135_other_end_refuted`, `C135_blocked_refuted`, `C135_mock_refuted`.

### C136 Generated methods compile (partial)

Go's rules for the shape of the generated methods (scopes, short variable declarations, comparison with nil, type assertions, returns) stated on their own in `Props/Gen4`; the tokens are read by the grammar of C71 and C78, uniquely; the rules are then equivalent to conditions on the names and types of the interface.  Refuted by legal parameter names.

Result: C136_exact_partial: exactly which methods compile, if no parameter is named nil, false, err or results.  C136_err_refuted: a parameter err makes every method without results, and every other one unless an error can be assigned to it, fail to compile.  C136_names_refuted: so do blank parameters, parameters named p, and parameters with the name of a result type.  The rules of Go are those that the generated methods meet; the package may not redeclare nil, false and the predeclared types.

Theorems: `C136_exact_partial`, `C136_err_refuted`, `C136_names_refuted`.

### C137 The generated file compiles (partial)

the rules of Go for declarations, methods and imports of a file stated on their own in `Props/Gen5`; the interfaces read and the targets parsed correspond one by one, and C136 is applied to every method.  Refuted by names that differ in case only.

Result: C137_exact_partial: exactly which files compile, if no parameter is named nil, false, err or results: the names of the interfaces differ in lower case, the rest of the package declares neither the resulting types nor ferry, and the methods are those of C136.  C137_case_refuted: names that differ in case only.  Rules of Go: declarations, methods, import, and those of C136.

Theorems: `C137_exact_partial`, `C137_case_refuted`.

### C138 Proxies implement their interfaces (partial)

the generated methods are read by the grammar of C71 and C78; the types of parameters and results are compared with those that the interface declares, counting the names of each field.  Refuted by parameters that share a type.

Result: C138_exact_partial: one proxy per interface, in order, and it implements the interface exactly if no parameters and no results share a type (all types written in the package main).  C138_grouped_refuted: for Add(x, y int) the file compiles but the proxy does not implement the interface.

Theorems: `C138_exact_partial`, `C138_grouped_refuted`.

### C139 Closing a mock connection (partial)

both ends of a mock connection with any number of goroutines in `Net/Pair`, where the two reads of the field `peer` in `Write` are separate steps; crashes are characterised exactly, the return of `Close` is proved for fair executions.  Refuted by a `Close` between the two lines, and by an other end that does not read.

Result: Refuted: a Write that has tested the field peer crashes the process when Close sets it to nil before the next line; Close does not return while the other end does not read; only the first read after Close fails, a second one blocks. Proved: exactly when the process crashes; in fair executions in which the other end reads until a read fails and only one goroutine closes the end, Close returns and a read of the other end fails; what is read is what was written, in order.

Theorems: `C139_crash_exact_partial`, `C139_crash_refuted`, `C139_close_partial`, `C139_order_partial`, `C139_blocked_refuted`, `C139_second_read_refuted`.

### C140 Methods with a variadic parameter (partial)

`reflect.Method.Type.In` and `reflect.Value.Call` for variadic methods in `Chan/Variadic`; the calls that run, and what the method gets, are characterised exactly for all lists of arguments.  Refuted by every call with an argument for the variadic parameter, which kills the process unless the parameter is `...interface{}` and gets one slice.

Result: refuted: a call with an argument for the variadic parameter kills the process, except one slice for ...interface{}; proved: exactly which calls run and what the method gets

Theorems: `C140_exact_partial`, `C140_variadic_kills_refuted`, `C140_sum_refuted`.

### C141 Values that refer to themselves (partial)

slices and maps as references into a memory, and the recursion of the encoder as a machine with explicit frames, in `Codec/Heap`; returning is characterised exactly by the absence of infinite chains of references, and the output is that of the tree in `Codec/Encode`.  Refuted by a slice that is its own element.

Result: refuted: a slice that is its own element is encoded without end; proved: Encode returns exactly if no infinite chain of references starts from the value, and then writes the encoding of the tree

Theorems: `C141_returns_partial`, `C141_exact_partial`, `C141_tree_partial`, `C141_self_refuted`.

### C142 A packet carries what was passed to Send (partial)

the send routine that encodes step by step while others write to the same memory, in `Net/Shared`; proved for executions in which no part of a waiting value is changed, with the part defined by the references at that time.  Refuted by a slice changed while it is encoded, whose packet is equal to no state it ever had.

Result: refuted: a slice changed while its packet is encoded gives a packet equal to no state the slice ever had; proved: without changes to parts of waiting values every packet is the encoding at the time of Send

Theorems: `C142_calm_partial`, `C142_at_send_partial`, `C142_torn_refuted`.

### C143 Arguments of local calls stay as they are (partial)

the memory of `Codec/Heap` added to the callees of `Chan/Callee`, in `Chan/Shared`; a method that runs has not returned, so by C36 its caller either waits, and then the arguments are as they were by induction over the execution, or has been told of the timeout.  Refuted by a method that takes longer than its timeout.

Result: refuted: after a timeout the caller goes on while the method still runs with the shared arguments; proved: until then the arguments are as they were at the call, and the only other case is the timeout error, not before its time

Theorems: `C143_arguments_partial`, `C143_at_call_partial`, `C143_late_refuted`.

### C144 A dock is not given the port of the hub (partial)

the port counters of the hub (Hub.Facts, PortInv), which give the n-th free port to the n-th dock of a host, read backwards: a free port in the range is handed out as soon as enough docks of the host have registered; lifted to the whole system through the register responses (System.Facts); what Listen does on a port in use is outside the model.

Result: Proved exactly when it happens: the hub gives its own port to a dock of a host iff the port is in 20001..49000, is not in the black list and at least as many docks of the host have registered as there are free ports up to it; so a port of the hub outside the range or in the black list is never given (whole system). Refuted otherwise: the hub does not look at its own port, and with the hub on 20002 the second dock is told to listen there.

Theorems: `C144_exact_partial`, `C144_apart_partial`, `C144_refuted`.

### C145 A hub and its docks are found on the mock network (partial)

the system of `System/System` together with the mock network of `Net/Mock`: since the hub sees all docks at 0.0.0.0, their ports differ by C79 and from the hub's by C144, so no `Listen` replaces a listener (induction over the mock execution), and C80 gives the dock that is dialled.  Refuted for a hub whose port is in the range of the ports for docks.

Result: Proved if the port of the hub is outside 20001..49000 or in the black list, for executions without a reset of the mock network. Refuted otherwise: with the hub on port 20002 the second dock replaces the listener of the hub.

Theorems: `C145_found_partial`, `C145_dial_partial`, `C145_hub_refuted`.

### C146 A hub that is started again (partial)

two executions of the hub from its initial state; by C144_exact the first free port of a host is given by both.  Proved only when the ports given before are in the black list of the second hub.

Result: Refuted always: with the same black list, a dock on a host before and one after the restart suffice for a port given twice (C146_always, concrete C146_refuted). Proved: ports that are put into the black list of the second hub are not given again.

Theorems: `C146_apart_partial`, `C146_always`, `C146_refuted`.

### C147 Every call executes its method exactly once (proved)

fair executions of World (hub, docks, callees).  A relation between steps that make a call and steps that start a method (the request of a local call; the request served for the execution whose index and connection are those of the call) is shown total in both directions and one to one: existence of a start from C127, uniqueness from World2 (one execution per index) and from the queue invariants of Chan, attribution of starts from provenance lemmas for requests and calls by induction over the execution.

Result: for executions in which clock readings differ, methods return and remote features are offered, as stated

Theorems: `C147_exactly_once`.

### C148 The program of the README prints once (partial)

C147 and C134 for the two docks of the README, with `OnStart` of the game making one call; under the assumption of C134 that the first socket is the one to the hub; `C148_silent_refuted` is an execution without it that prints nothing.

Result: assumes, as C134, that run has stored the socket to the hub before the answer of the hub is handled; C148_silent_refuted: a fair execution without this that prints nothing

Theorems: `C148_hello_partial`, `C148_silent_refuted`.

### C149 A call takes effect between its being made and its result (proved)

all executions of World.  The step that starts the method for a call is the one of C147's relation; its place before the result follows from what `ret`, `result` and `phase` were written by (induction over the execution), and that the routine does nothing else until the method returns from its being in state running.  `C149_late_return` shows why calls that time out are excepted: after a timeout the method may return after the call has.

Result: the condition on timeouts is needed: C149_late_return

Theorems: `C149_within`, `C149_late_return`.

### C150 Features are atomic objects (proved)

all executions of World; the moment of a call is the return of its method (C149).  `returnsOf` lists the methods of the feature that returned before a step; `Behaves` says of the bodies, which are not in /repo, that they compute a function of arguments and state.  Each entry of the list is for a call that was made before, so calls that fail by timeout may take effect late or not, and nothing else does.  `C150_register` is the case of a register.

Result: For every execution, linearization points between call and result (C150_atomic), and for a register the last value written (C150_register). Results travel through the codec, so what a remote caller gets is the canonical form of what the method returned. Calls that end with an error are not claimed to have or not have taken effect. The bodies of methods are the application's, Behaves states what is assumed of them.

Theorems: `C150_atomic`, `C150_register`.

### C151 Failures elsewhere do not stop a call (proved)

infinite executions of System with `crash`, `lose` and `close` at any time.  `Linked` asks for fairness of all goroutines that can go on, and for two docks that keep running and a connection between them without losses; the course of the dock, of the packets on the connection and of the call is followed as in C125, without the hub.  The example is an execution in which the hub stops before the call is made.

Result: The route must be known and stay the same until the request is sent (routes are never removed, but a later registration of the same name replaces them, see C94). That the dials of the two docks do not fail is part of their keeping running, because a failed Dial ends the process (C81).

Theorems: `C151_returns`.

### C152 What is read was stored, and reads agree with each other (proved)

all executions of World, for features that are registers (C150).  The source of a read is the call for which the last store was executed that returned before the method of the read did (`source_at`, induction over the execution, with failed calls among them); C150's moments give the order.  `C152_learns` combines it with `C150_register` for two features.  The example is an execution with two features of one dock, two stores and two reads.

Theorems: `C152_source`, `C152_learns`.

### C153 What was received can be sent on (proved)

codec model.  `pass_value` (Verif/Codec/Forward.lean, induction over the value, with an invariant of the map that the decoder builds) shows of everything that is decoded from the bytes of `encode` that it satisfies the condition of C04 and is its own canonical form; C04's round trip does the rest.  Not true of bytes written by others, as an example shows.

Theorems: `C153_forward`, `C153_chain`, `C153_elements`.

### C154 The generated text is the program that is meant (partial)

`Gen/Text.lean` has the template as characters and a scanner of Go (words, strings, comments, inserted semicolons; operators character by character).  `C154_text_partial` composes, for all names and lists, what the scanner makes of each piece of the template; the result is the token model of `Gen.lean` and `Files.lean`, which the other properties of the generator use.

Result: C154_text_partial: for file names without line breaks. Refuted: C154_filename_refuted, the name of a source file is written into a line comment, so a file whose name contains a line break adds code to the generated file.

Theorems: `C154_text_partial`, `C154_filename_refuted`.

### C155 A feature may stand in for another (proved)

composed model (`World`).  `Relays` is an inductive definition of a chain of calls; the theorem is by induction over it.  Each link uses what C149 says of one call (`remote_own`, of which only the arguments and results of this call matter) and that what arrives survives the wire again and arrives as it is (`canonList_ready`, from C153).

Theorems: `C155_relay`.

### C156 The proxies that are checked in are those of the sources (proved)

generator model.  The files of /repo/test as `go/parser` sees them, through the model of the generator (C154 for the text, for all dates), against the characters of /repo/test/proxy.gen.go read by the scanner of C154.  What `go/format` leaves out (commas before a parenthesis, parentheses around one result) is removed from the tokens.  The rest is a computation in the kernel on one input: it is a comparison of the model with what a run of the program once wrote.

Theorems: `C156_checked_in`.

### C157 The methods executed are those that the OnStart functions call (partial)

composed model.  `Scripts` says of an execution that its calls are those of lists, one list for each `OnStart`; it says nothing of methods.  C134 gives that each `OnStart` is called and returns, so that all calls are made, and C147 pairs the calls with the methods started; both are composed to one bijection.  `C157_tests_partial` is the instance for the tests of the package, for all distributions of their features.  Under the assumption of C134 that the first socket is the one to the hub; `C157_silent_refuted` is an execution without it.

Result: assumes, as C134, that run has stored the socket to the hub before the answer of the hub is handled; C157_silent_refuted: a fair execution without this in which a call has no method started

Theorems: `C157_scripts_partial`, `C157_tests_partial`, `C157_silent_refuted`.

### C158 A text connection delivers the lines of what is sent (proved)

connection model (`Link`) with the text serializer, without the proviso of C25, C28 and C130 that a string has its only NUL at its end.  `txt_loop` (induction over the buffer) says that the receive loop cuts into lines, `lines_prefix` that there is one way to cut; `TxtInv` is an invariant of all executions, and the rest is by weak fairness of the two routines and strong fairness of the channel, as in C130.  That Dial yields a connection to the listener is C34 and C89; the calls of OnConnected are not part of this model.

Theorems: `C158_lines`, `C158_arrives`, `C158_once`, `C158_flow`.

### C159 The test of the package network ends under every schedule (proved)

a model of the whole test program (`Verif/Net/Flow.lean`), one program counter per goroutine, with the strings and the count of the wait group as parameters.  `left` decreases with every step, which bounds all executions (`C159_finite`); `Inv` is an inductive invariant, from which `quiet` derives that nothing is on its way once the wait group has released the test; `stuck` goes through the goroutines that cannot go on.  `C159_test` is TestFlow itself.  Two Sends of one channel do not overlap here, so Send is one step; data races of plain fields (status, listeners) are modelled as interleavings.

Theorems: `C159_finite`, `C159_safe`, `C159_ends`, `C159_lost`, `C159_test`, `C159_unended`.

### C160 With a prompt runtime the duration of the method decides the outcome of a call (proved)

calls model.  `Sharp` adds to `Prompt` of C40 that handlers settle results without time passing.  `HeldInv` (a result not yet an answer is with the handler, answers are from the past) is an invariant of all executions; `Quick` is an invariant of what follows the return of a method in time, in which a step of the clock is impossible while the call has not returned (`settled_goes`).  Slow methods are by C40 and the recorded answers.  `C160_test` is the test program for all schedules; `C160_unprompt` shows that the premise is needed, with two thousand million ticks of the clock, by induction.

Result: prompt runtime and unshared callers; C160_unprompt shows that the test can fail without promptness

Theorems: `C160_quick`, `C160_slow`, `C160_test`, `C160_unprompt`.

### C161 The goroutine of a timeout lives as long as the timeout, also if the call has returned (proved)

calls model.  `TrackInv` relates the timer of a request to the clock in all executions (`C161_lives`).  `C161_gone` is by an invariant of prompt executions: a step of the clock finds every timer not yet started, over, or sleeping until later.  `C161_ends` continues C124: once the call has returned nothing holds the lock of the request, and weak fairness takes the timer to its end.  `C161_left` is by induction over N.

Result: C161_gone needs a prompt runtime and unshared callers, C161_ends a fair scheduler

Theorems: `C161_lives`, `C161_gone`, `C161_ends`, `C161_left`.

### C162 A goroutine that makes one call after another comes to the end of its list (proved)

calls model, fair executions.  `InTurn` says of an execution that its calls are those of a goroutine that goes through a list; it says nothing of what calls return.  That all calls are made is by induction over the list with C124 for each call; `TurnInv` gives the order in which requests enter the queue, the invariant of C38 the order of the methods, and the last method is over because methods return.

Result: assumes that methods return and a fair scheduler

Theorems: `C162_list`.

### C163 A request in the queue of a callee waits for at most two methods (proved)

calls model.  `Eager` and `Within` speak of the executions: no step of the clock while a goroutine of the package or a caller can go on, and no method that runs for longer than D.  `InLine` follows the request from its position in the queue (0 or 1, by the capacity) to its start, with the time left; `Unreturned` bounds the time since the start of a call that has not returned.  `waitRun` meets the bounds with D = 1.  How long a goroutine waits for room in the queue is not bounded here (C124 says that it gets it).

Result: The clock is discrete, one nanosecond per step.  That only methods take time is a hypothesis on executions, not a property of the scheduler of Go; the time a caller waits for room in the queue is not counted.

Theorems: `C163_started`, `C163_returned`.

### C164 A call waits for the methods of its callee and for nothing else (proved)

calls model, executions as in C163.  `Served` counts the methods of the callee started since the moment: when the clock moves while the call has not returned the callee is running a method (an empty queue has room, so a goroutine in `push` would go on), and no method is given more than D.  The number of started methods is at most the number of calls, by counting.

Result: The same hypotheses on executions as for C163.  The bound counts the calls that others make later, because nothing is assumed about the order in which goroutines that wait for room are served.

Theorems: `C164_waits`.

### C165 With goroutines served in order a call waits only for calls made before it (proved)

calls model, executions as in C163 and C164, with `InOrder` for the order in which requests enter the queue.  `LineInv`: the queue of a callee is sorted by the number of the call and the method at work is of an earlier call.  `ServedTo` is `Served` of C164 with only the calls up to the one in question counted; once its method has returned the clock does not move before the call returns.

Result: The same hypotheses on executions as for C163 and C164.  That senders waiting for a channel are served in order is a property of the Go runtime and is a hypothesis here; the order of calls is the order of the steps in which they are made.

Theorems: `C165_in_order`.

## Axioms each property theorem depends on

As printed by `#print axioms`; `propext`, `Classical.choice` and `Quot.sound` are the standard axioms of Lean.

* Classical.choice, Quot.sound, propext: `C01_int_roundtrip`, `C01_uint_roundtrip`, `C02_float32_roundtrip_partial`, `C02_float64_roundtrip_partial`, `C02_float_crash_zone`, `C03_string_roundtrip`, `C04_exact`, `C04_nested_roundtrip_partial`, `C04_nested_roundtrip_refuted`, `C04_never_by_chance`, `C04_received_type`, `C05_self_delimiting_partial`, `C05_self_delimiting_refuted`, `C05_sequence_content_partial`, `C05_sequence_exact`, `C06_exact`, `C06_prefix_free`, `C06_seen`, `C06_unambiguous_partial`, `C07_crash_exact_partial`, `C07_decode_encoded_partial`, `C07_decode_no_crash_refuted`, `C09_truncated_exact_partial`, `C09_truncated_rejected_all_refuted`, `C09_truncated_rejected_partial`, `C09_truncated_rejected_refuted`, `C100_encoded_partial`, `C100_refuted`, `C101_once_partial`, `C101_order_partial`, `C103_closed_partial`, `C106_progress_partial`, `C106_where_partial`, `C107_progress_partial`, `C107_where_partial`, `C108_makers_partial`, `C108_where_partial`, `C109_requests_partial`, `C109_where_partial`, `C10_chunk_independence_refuted`, `C10_writes_partial`, `C110_direct`, `C110_via_hub`, `C111_accepted`, `C112_join`, `C112_serves`, `C113_misuse`, `C114_order`, `C114_sorted`, `C115_circle`, `C115_exact`, `C115_mutual`, `C115_returns`, `C116_answers`, `C117_order_refuted`, `C117_sequential_partial`, `C118_exclusive_partial`, `C118_onStart_refuted`, `C118_two_names_refuted`, `C119_abroad`, `C119_answered_partial`, `C119_circle`, `C119_circle_refuted`, `C119_remote_refuted`, `C11_encode_error_iff`, `C11_encode_no_other_error`, `C120_results`, `C121_behind`, `C121_circle`, `C121_circle_refuted`, `C121_exact_partial`, `C121_returns_partial`, `C122_delivered`, `C122_refines`, `C123_example`, `C123_proxy_partial`, `C123_results`, `C123_sum_refuted`, `C123_test`, `C124_exact`, `C124_returns`, `C124_started`, `C124_unreturned`, `C125_answered`, `C125_executed`, `C126_joined`, `C126_returns`, `C126_sent`, `C127_exact`, `C127_local`, `C127_returns`, `C127_returns_local`, `C127_started`, `C127_unreturned`, `C128_decode_partial`, `C128_decode_refuted`, `C128_encode_partial`, `C128_int_partial`, `C128_packet_partial`, `C128_slice_partial`, `C128_stuck_refuted`, `C12_int_canonical`, `C12_int_size`, `C130_arrives`, `C130_arrives_text`, `C131_arrives_partial`, `C131_lost_refuted`, `C131_overload_refuted`, `C132_accessor`, `C132_parameter`, `C132_received`, `C132_unique`, `C133_character`, `C133_float32_partial`, `C133_float64_partial`, `C133_truncated_partial`, `C133_wraps_refuted`, `C134_overtaken_refuted`, `C134_started_partial`, `C134_test_partial`, `C135_receive`, `C135_send_exact`, `C135_send_partial`, `C136_err_refuted`, `C136_exact_partial`, `C136_names_refuted`, `C137_case_refuted`, `C137_exact_partial`, `C138_exact_partial`, `C138_grouped_refuted`, `C139_close_partial`, `C13_lookup_partial`, `C13_order_independence_partial`, `C13_order_independence_refuted`, `C140_exact_partial`, `C140_variadic_kills_refuted`, `C141_exact_partial`, `C141_returns_partial`, `C141_self_refuted`, `C141_tree_partial`, `C142_calm_partial`, `C143_arguments_partial`, `C144_apart_partial`, `C144_exact_partial`, `C145_dial_partial`, `C145_found_partial`, `C146_always`, `C146_apart_partial`, `C147_exactly_once`, `C148_hello_partial`, `C148_silent_refuted`, `C149_late_return`, `C149_within`, `C14_map_entries_exact`, `C14_map_entries_partial`, `C14_map_entries_refuted`, `C150_atomic`, `C150_register`, `C151_returns`, `C152_learns`, `C152_source`, `C153_chain`, `C153_elements`, `C153_forward`, `C154_filename_refuted`, `C154_text_partial`, `C155_relay`, `C156_checked_in`, `C157_scripts_partial`, `C157_silent_refuted`, `C157_tests_partial`, `C158_arrives`, `C158_flow`, `C158_once`, `C159_ends`, `C159_lost`, `C159_safe`, `C159_test`, `C15_msgpack_partial`, `C160_quick`, `C160_slow`, `C160_test`, `C160_unprompt`, `C161_ends`, `C161_gone`, `C161_left`, `C161_lives`, `C162_list`, `C163_returned`, `C163_started`, `C164_waits`, `C165_in_order`, `C17_int64_exact`, `C18_fresh_partial`, `C20_float32_map_roundtrip`, `C20_float32_roundtrip`, `C20_nan`, `C20_widen_exact`, `C21_control_packets`, `C21_exact`, `C21_packet_roundtrip_partial`, `C22_frame_boundaries`, `C22_slice_bound`, `C23_reassembly`, `C23_reassembly_prefix`, `C24_malformed_frame_partial`, `C25_text_framing`, `C26_identifier_sent`, `C28_end_to_end`, `C28_end_to_end_text`, `C32_no_delivery_partial`, `C34_dialled`, `C34_paired`, `C34_unique_address_partial`, `C35_one_answer`, `C36_own_answer`, `C37_permuted_partial`, `C37_single_partial`, `C38_serial_fifo`, `C39_started_call_can_finish`, `C40_bounded_after_start_partial`, `C41_other_callee_partial`, `C41_reentrant_deadlock`, `C42_not_early_partial`, `C44_never_reported`, `C45_right_arguments_accepted`, `C45_wrong_arguments_kill`, `C46_integer_arguments`, `C47_ports_in_range`, `C47_ports_unique`, `C48_exit`, `C48_nth_free_port`, `C49_answer_was_offered`, `C49_response_was_offered`, `C50_answered_at_next_look`, `C50_not_before`, `C52_alive_when_ready_partial`, `C57_distinct_partial`, `C59_advertised`, `C60_honest_partial`, `C61_executed`, `C61_routed`, `C62_listening`, `C62_sent`, `C63_at_most_once`, `C63_genuine_distinct_partial`, `C63_genuine_partial`, `C63_mixed_refuted`, `C64_answered_partial`, `C64_dead_dock_refuted`, `C65_arguments_partial`, `C65_result_content_partial`, `C66_exact`, `C66_panics_refuted`, `C66_returned_partial`, `C68_others_unaffected`, `C69_features`, `C69_once_partial`, `C69_reverse_partial`, `C69_sockets`, `C70_exact_partial`, `C71_forward_partial`, `C72_defaults_partial`, `C72_exact`, `C72_string_refuted`, `C73_unknown_tag_rejected`, `C74_at_most_one_each`, `C74_query_responses`, `C75_honest_partial`, `C75_single_response_partial`, `C77_counted_partial`, `C79_no_conflict`, `C80_dial`, `C81_causes_partial`, `C82_at_most_one`, `C85_answered`, `C86_not_stuck`, `C87_once_honest_partial`, `C87_starts_partial`, `C88_closed_listener_refuted`, `C88_no_listener_refuted`, `C88_returns_partial`, `C88_waits`, `C89_outcome_partial`, `C90_blocks_refuted`, `C90_no_accept`, `C90_safe_partial`, `C92_mock_partial`, `C93_swallowed_refuted`, `C94_stale_refuted`, `C95_all_partial`, `C95_exact_partial`, `C95_grouped_refuted`, `C95_methods_partial`, `C95_unreadable_refuted`, `C96_clash_refuted`, `C96_distinct_partial`, `C96_exact`, `C97_again_partial`, `C97_scanned_partial`, `C97_skipped_refuted`, `C97_stale_refuted`, `C97_untouched`, `C99_open_partial`
* Quot.sound, propext: `C02_float_roundtrip_refuted`, `C07_decode_no_crash_partial`, `C08_decode_terminates`, `C09_truncated_uint16_accepted`, `C100_accepted_partial`, `C100_worst_partial`, `C101_blocked_refuted`, `C101_late_refuted`, `C101_order_refuted`, `C101_progress_partial`, `C102_call_partial`, `C102_own_partial`, `C103_lost_refuted`, `C104_late_refuted`, `C104_released_partial`, `C104_stays_refuted`, `C104_survives_partial`, `C105_between_refuted`, `C105_open_partial`, `C105_quiet_partial`, `C105_register_refuted`, `C105_spin_refuted`, `C106_maps_partial`, `C107_tables_partial`, `C10_chunk_independence_partial`, `C10_served_partial`, `C122_sent_once`, `C122_system`, `C128_crash_refuted`, `C129_count_partial`, `C129_length_partial`, `C129_same_partial`, `C12_uint_canonical`, `C12_uint_size`, `C131_discarded_refuted`, `C131_window_partial`, `C133_integer_partial`, `C133_string_refuted`, `C142_at_send_partial`, `C142_torn_refuted`, `C143_at_call_partial`, `C143_late_refuted`, `C144_refuted`, `C145_hub_refuted`, `C146_refuted`, `C158_lines`, `C159_finite`, `C15_msgpack_refuted`, `C16_accessors`, `C17_integer_accessors_refuted`, `C17_signed_partial`, `C17_unsigned_partial`, `C19_failed_decode_exact`, `C19_failed_decode_partial`, `C19_failed_decode_refuted`, `C21_packet_roundtrip_refuted`, `C22_oversized_frame`, `C24_malformed_frame_refuted`, `C26_identifiers`, `C26_maker`, `C27_send_order`, `C29_send_blocks_refuted`, `C29_send_never_blocks_partial`, `C30_accept_race`, `C30_closed_at_most_once`, `C30_closed_exactly_once`, `C33_long_write_truncated`, `C40_bounded_refuted`, `C43_last_setting_wins`, `C49_newest_partial`, `C49_newest_refuted`, `C50_never_withdrawn`, `C51_isolated`, `C52_close_changes_nothing`, `C52_dead_dock_refuted`, `C53_host_partial`, `C53_recorded_partial`, `C54_call_sends_nothing`, `C54_invoked`, `C54_no_packet`, `C55_at_most_once`, `C55_by_index`, `C56_once`, `C56_own_response`, `C57_lost_refuted`, `C57_mixed_refuted`, `C58_exclusive_partial`, `C58_handlers_refuted`, `C58_nil_refuted`, `C58_socket_refuted`, `C59_distinct_names`, `C60_hidden_refuted`, `C60_only_asked_partial`, `C64_dial_refuted`, `C64_lost_refuted`, `C64_no_timeout_refuted`, `C65_interface_refuted`, `C65_result_type_refuted`, `C65_slice_refuted`, `C65_zero_refuted`, `C66_zero_refuted`, `C67_kept`, `C67_same_partial`, `C68_last_wins`, `C69_duplicate_refuted`, `C69_lost_refuted`, `C69_second`, `C70_set_partial`, `C71_one_per_field`, `C71_rejected`, `C74_register_responses`, `C75_duplicate_refuted`, `C76_ready_wakes`, `C77_two_connections_refuted`, `C78_results_partial`, `C81_clock_refuted`, `C81_payload_refuted`, `C81_race_refuted`, `C82_own_result`, `C83_direct`, `C84_forgotten`, `C86_ends`, `C87_early_refuted`, `C87_reachable`, `C87_twice_refuted`, `C91_lookup_partial`, `C93_reported_partial`, `C94_kept_partial`, `C94_last_partial`, `C98_alone_partial`, `C98_blocked_refuted`, `C98_each_once_partial`, `C99_closed`, `C99_hangs_refuted`
* none: `C102_shared_refuted`, `C106_close_refuted`, `C106_flag_refuted`, `C106_list_refuted`, `C107_calls_refuted`, `C107_close_refuted`, `C107_ready_refuted`, `C107_register_refuted`, `C107_sockets_refuted`, `C107_visit_refuted`, `C108_listeners_refuted`, `C108_peers_refuted`, `C108_serializers_refuted`, `C108_sink_refuted`, `C109_timeout_refuted`, `C33_byte_stream_refuted`, `C53_host_refuted`, `C71_grouped_refuted`, `C71_receiver_refuted`, `C78_grouped_refuted`, `C92_other_refuted`
* propext: `C06_unambiguous_refuted`, `C102_early_refuted`, `C103_crash_refuted`, `C104_killed_refuted`, `C104_unclosed_refuted`, `C128_encode_refuted`, `C129_refuted`, `C12_least_values`, `C133_twice_refuted`, `C135_blocked_refuted`, `C135_leak_refuted`, `C135_mock_refuted`, `C135_other_end_refuted`, `C139_blocked_refuted`, `C139_crash_exact_partial`, `C139_crash_refuted`, `C139_order_partial`, `C139_second_read_refuted`, `C140_sum_refuted`, `C159_unended`, `C18_fresh_refuted`, `C25_proviso_needed`, `C27_send_drops_iff`, `C31_remote_disconnect_refuted`, `C32_no_delivery_refuted`, `C33_byte_stream_partial`, `C34_unique_address_refuted`, `C37_shared_caller_refuted`, `C41_reentrant_refuted`, `C42_long_timeout_refuted`, `C42_not_early_refuted`, `C44_unknown_method_refuted`, `C45_wrong_arguments_refuted`, `C66_local`, `C67_overlap_refuted`, `C67_unregistered`, `C67_wrong_maker_refuted`, `C69_double_refuted`, `C69_late_socket_refuted`, `C70_nan_refuted`, `C70_unhashable_refuted`, `C89_half_open_refuted`, `C90_crash_refuted`, `C91_txt_refuted`, `C99_crash_refuted`, `C99_race_refuted`

{"id": "C01", "title": "Integer round trip", "statement": "For every Go integer value of every built-in width and signedness, NewAny(v).Encode into a buffer followed by Decode and the accessor of the same type returns exactly v and no error, and leaves any bytes that followed the encoding unread.", "quantifier": "all values of int8..int64, uint8..uint64, int, uint; all trailing bytes", "why_tests_cant": "2^64 values per type with a different wire tag on either side of each width boundary; tests pick a handful of literals", "anchors": ["codec/encoder.go:encodeUint8..encodeInt", "codec/decoder.go:decode", "codec/any.go:Int8..Uint64", "codec/API.go:NewAny"]}
{"id": "C02", "title": "Float round trip", "statement": "For every float32 and float64 value (bit pattern), encoding it and decoding it yields the same bit pattern and never crashes the reader.", "quantifier": "all 2^32 float32 and 2^64 float64 bit patterns", "why_tests_cant": "the values that fail (+0 and tiny subnormals, whose bit pattern fits a narrower integer) are a vanishing fraction of the space", "anchors": ["codec/encoder.go:encodeFloat32,encodeFloat64", "codec/decoder.go:decode (cFloat32,cFloat64)"]}
{"id": "C03", "title": "String round trip", "statement": "Every string shorter than 2^32 bytes, including the empty string and strings with NUL or invalid UTF-8 bytes, decodes to exactly the bytes that were encoded.", "quantifier": "all byte strings shorter than 2^32 bytes, all trailing bytes", "why_tests_cant": "unbounded input domain; header boundary lengths cannot all be sampled", "anchors": ["codec/encoder.go:encodeString", "codec/decoder.go:decode (cStr32)"]}
{"id": "C04", "title": "Nested value round trip", "statement": "Any value built from nil, bools, integers, strings, floats, slices/arrays and maps by arbitrary nesting decodes to the value with the same mathematical content: the same integers with the same signedness, the same strings, the same list elements in the same order, the same map associations.", "quantifier": "all finite nestings of supported values, of any size and depth", "why_tests_cant": "the domain is recursive and unbounded; tests cover one flat []int and one flat map[string]int", "anchors": ["codec/encoder.go:encodeValue,encodeArray,encodeMap", "codec/decoder.go:decode,decodeArray,decodeMap"]}
{"id": "C05", "title": "Values are self-delimiting", "statement": "Encoding any sequence of values back to back into one writer and decoding the same number of times yields the values in order, each Decode stopping exactly where the next value begins.", "quantifier": "all sequences of encodable values, of any length", "why_tests_cant": "depends on every combination of adjacent encodings", "anchors": ["codec/any.go:Encode,Decode", "codec/decoder.go:decode", "protocol.go:protoRpcRequest.Unmarshal"]}
{"id": "C06", "title": "Unambiguous, prefix-free encoding", "statement": "No encoding of a supported value is a proper prefix of the encoding of another one, and two values with the same encoding have the same decoded meaning.", "quantifier": "all pairs of encodable values", "why_tests_cant": "quantifies over pairs of unbounded values", "anchors": ["codec/encoder.go", "codec/decoder.go"]}
{"id": "C07", "title": "Decode never crashes on arbitrary bytes", "statement": "Decode applied to any byte sequence returns either a value or an error; it never panics.", "quantifier": "all byte sequences", "why_tests_cant": "adversarial input space is infinite; the crashing inputs are rare", "anchors": ["codec/decoder.go:decode (cFloat32,cFloat64 type assertions), decodeMap (unhashable key)"]}
{"id": "C08", "title": "Decode terminates and never over-reads", "statement": "Decode on any byte sequence finishes; on success it consumed at least one byte and what it left unread is a suffix of the input; the number of nested values it creates is bounded by the input length, whatever element counts the headers announce.", "quantifier": "all byte sequences", "why_tests_cant": "headers may announce up to 2^32-1 elements at every nesting level; termination cannot be tested", "anchors": ["codec/decoder.go:decode,decodeArray,decodeMap"]}
{"id": "C09", "title": "Truncated input is rejected", "statement": "Decoding a proper prefix of a valid encoding reports an error rather than a value.", "quantifier": "all encodable values, all cut points", "why_tests_cant": "every cut point of every encoding", "anchors": ["codec/decoder.go:readUint16..readInt64,decode (reader.Read result length ignored)"]}
{"id": "C10", "title": "Decoding does not depend on how the reader chunks its data", "statement": "Decode gives the same result for a reader that returns the bytes in several pieces as for one that returns them at once.", "quantifier": "all conforming io.Reader chunkings of all inputs", "why_tests_cant": "every partition of every input", "anchors": ["codec/decoder.go:readByte..readInt64,decode (cStr32)"]}
{"id": "C11", "title": "Encode fails exactly on unsupported values", "statement": "Encode returns an error if and only if the value contains (at any depth reached by the encoder) a struct, pointer, func, chan, complex or unsafe pointer; in all other cases it returns nil.", "quantifier": "all Go values", "why_tests_cant": "unbounded nesting", "anchors": ["codec/encoder.go:encodeValue,encode"]}
{"id": "C12", "title": "Compact integers", "statement": "An integer is written with the narrowest tag whose open range contains it, so the encoding depends only on its mathematical value and signedness, not on the Go type that carried it, except for the least values -2^7, -2^15 and -2^31, whose encoding may differ between types; the length is 2, 3, 5 or 9, and for predeclared types it never exceeds one byte more than the width of the type.", "quantifier": "all integers of all types", "why_tests_cant": "all boundary values of all types", "anchors": ["codec/encoder.go:encodeUint16..encodeInt64", "codec/code.go:cUint8Max..cInt32Min"]}
{"id": "C13", "title": "Map encoding is order independent", "statement": "Go iterates maps in random order; whatever order the encoder used, decoding yields the same map (same keys, same value for every key).", "quantifier": "all maps, all iteration orders", "why_tests_cant": "iteration order is chosen by the runtime and cannot be enumerated", "anchors": ["codec/encoder.go:encodeMap", "codec/decoder.go:decodeMap"]}
{"id": "C14", "title": "Maps keep all their entries", "statement": "A map that is encoded and decoded has as many entries as before, and each key maps to the decoded form of its value.", "quantifier": "all maps with encodable keys and values", "why_tests_cant": "collisions appear only for particular key combinations (equal numbers of different integer types, NaN, composite keys)", "anchors": ["codec/encoder.go:encodeMap (MapIndex)", "codec/decoder.go:decodeMap (dict[k] = v)"]}
{"id": "C15", "title": "MsgPack compatibility", "statement": "Every encoding produced is a valid MsgPack encoding of the value (code.go: 'Subset format from MsgPack').", "quantifier": "all encodable values", "why_tests_cant": "interoperability must hold for each value", "anchors": ["codec/code.go", "codec/encoder.go"]}
{"id": "C16", "title": "Accessors never crash and respect the value's class", "statement": "After a successful Decode every accessor either returns a value of the decoded class or an error and never panics: Bool succeeds only for bools, String only for strings, IntN only for signed integers, UintN only for unsigned integers, FloatN only for floats, Arr only for arrays, Map only for maps.", "quantifier": "all byte sequences that decode, all accessors", "why_tests_cant": "cross product of all decodable inputs and 15 accessors, including stale state of a reused object", "anchors": ["codec/any.go:Bool..Map,Decode,normalize"]}
{"id": "C17", "title": "Integer accessors are exact", "statement": "An integer accessor that returns no error returns the integer that was decoded.", "quantifier": "all decoded integers, all ten integer accessors", "why_tests_cant": "wrap-around occurs only for values out of the accessor's range", "anchors": ["codec/any.go:Int..Uint64"]}
{"id": "C18", "title": "A freshly wrapped value can be read back", "statement": "For a value v of a supported built-in type, the accessor of v's type applied to NewAny(v) returns v without error.", "quantifier": "all values of the types the accessors mention (bool, string, int*, uint*, float*, slices, maps)", "why_tests_cant": "type-by-value matrix; some rows fail for every value", "anchors": ["codec/API.go:NewAny", "codec/any.go:normalize"]}
{"id": "C19", "title": "A failed Decode leaves a usable object", "statement": "After Decode returned an error, every accessor returns a value or an error; none panics.", "quantifier": "all prior contents of the object, all failing inputs, all accessors", "why_tests_cant": "history dependent: needs a successful Decode followed by a failing one", "anchors": ["codec/any.go:Decode,normalize"]}
{"id": "C20", "title": "float32 elements survive the trip through float64", "statement": "A float32 inside a slice, map or argument list, decoded and read back with Float32, is the float32 that was sent, and the widened value denotes exactly the same real number.", "quantifier": "all non-NaN float32 bit patterns other than +0", "why_tests_cant": "2^32 patterns; subnormals and infinities take separate paths", "anchors": ["codec/encoder.go:encodeValue (reflect.Float32)", "codec/any.go:Float32,Float64"]}
{"id": "C21", "title": "Packet round trip", "statement": "Every protocol packet (error, heartbeat, ready, register request/response, query request/response, RPC request/response) that is marshalled, framed and unmarshalled yields a packet of the same type with the same fields, RPC arguments and results being replaced by their decoded forms.", "quantifier": "all packets with encodable fields and a body below 2^32 bytes", "why_tests_cant": "nine packet types over unbounded strings and argument lists", "anchors": ["serializer.go:Marshal,Unmarshal", "protocol.go:*.Marshal,*.Unmarshal,protoMaker"]}
{"id": "C22", "title": "Frame boundaries are found exactly", "statement": "For any stream that begins with a marshalled packet, Slice returns exactly the length of that packet's frame, and on every proper prefix of a frame it returns 0.", "quantifier": "all packets below 2^32 bytes, all following bytes, all cut points", "why_tests_cant": "all cut points of all packets", "anchors": ["serializer.go:Slice,Marshal"]}
{"id": "C23", "title": "Stream reassembly", "statement": "However the network splits the byte stream into reads, the receiver hands up exactly the packets that were written, in order, each once, and keeps an incomplete tail for later.", "quantifier": "all sequences of packets that survive the codec (C21) and are shorter than 4 GiB, all splits of the byte stream into non-empty reads", "why_tests_cant": "exponentially many splits", "anchors": ["network/peer.go:run (recv routine)", "serializer.go:Slice,Unmarshal"]}
{"id": "C24", "title": "A malformed frame does not take the process down", "statement": "Unmarshal of any frame delivered by Slice returns a packet or an error indication; the process survives.", "quantifier": "all frames", "why_tests_cant": "adversarial input space", "anchors": ["serializer.go:Unmarshal (log.Fatal, nil maker)", "protocol.go:protoMaker"]}
{"id": "C25", "title": "Text framing", "statement": "With the txt serializer the receiver gets back exactly the strings that were sent, in order, however the stream is split, provided each string ends in its only NUL byte.", "quantifier": "all sequences of strings, all splits of the stream", "why_tests_cant": "all contents and all splits", "anchors": ["network/txt_serializer.go", "network/peer.go:run"]}
{"id": "C26", "title": "Packet identifiers are unambiguous", "statement": "The receiver builds the packet type that the sender's identifier names, for each of the nine identifiers, and no two identifiers share a type.", "quantifier": "all identifiers 0..255", "why_tests_cant": "must hold for the whole table including unknown identifiers", "anchors": ["protocol.go:protoMaker,cError..cRpcResponse", "serializer.go:Unmarshal"]}
{"id": "C27", "title": "Send keeps order and drops only when full", "statement": "A peer transmits the objects accepted by Send in the order of acceptance, each once; Send discards an object only when 20 objects are already queued; the queue never holds more than 20.", "quantifier": "all interleavings of senders and the transmit routine", "why_tests_cant": "scheduling dependent", "anchors": ["network/peer.go:Send,run (send routine)"]}
{"id": "C28", "title": "End-to-end delivery", "statement": "On a connection that does not fail, what the remote sink's OnPacket has received at any moment is a prefix of the packets accepted by Send (in decoded form), in the same order.", "quantifier": "all sequences of sent packets that survive the codec (C21) and are shorter than 4 GiB, all schedules of send, transmit and receive steps, all splits of the stream", "why_tests_cant": "product of schedules and stream splits", "anchors": ["network/peer.go:Send,run", "serializer.go"]}
{"id": "C29", "title": "Send never blocks", "statement": "Send returns without waiting, whatever other goroutines do.", "quantifier": "all interleavings of concurrent senders on one peer", "why_tests_cant": "needs a particular interleaving between the fullness test and the channel send", "anchors": ["network/peer.go:Send"]}
{"id": "C30", "title": "OnClosed is reported once per connection", "statement": "The sink's OnClosed is called exactly once for every peer of a socket by the time Close returns, and never again on later Close calls.", "quantifier": "all executions of connects, sends and overlapping Close calls in which no connection is made during a Close", "why_tests_cant": "history dependent", "anchors": ["network/peer.go:close", "network/socket.go:Close"]}
{"id": "C31", "title": "OnClosed is reported on remote disconnect", "statement": "When the remote end disconnects, the sink's OnClosed is called ('Called when socket disconnected').", "quantifier": "all runs in which the remote end closes or fails", "why_tests_cant": "needs failure injection at every point", "anchors": ["network/API.go:ISocketSink", "network/peer.go:run (recv routine)"]}
{"id": "C32", "title": "No delivery after close", "statement": "Once close of a peer has returned, OnPacket is not called any more for that peer, and a close that races with the receive routine is harmless.", "quantifier": "all interleavings of close with the receive routine", "why_tests_cant": "race between the nil test and the call", "anchors": ["network/peer.go:close,run"]}
{"id": "C33", "title": "The mock network behaves like a byte stream", "statement": "Bytes written to a mock connection are read at the other end, complete and in order.", "quantifier": "all write sizes and sequences, all read sizes", "why_tests_cant": "all sizes relative to the 10 KiB receive buffer", "anchors": ["network/mock.go:conn.Read,conn.Write", "network/peer.go:cRecvBytesSize"]}
{"id": "C34", "title": "Mock connections are paired and uniquely addressed", "statement": "A mock Dial to a listening port yields a connection whose peer's peer is itself, whose remote address is the listener's, and whose local address differs from that of every other dialled connection.", "quantifier": "all sequences of Listen, Dial, Accept and reset operations", "why_tests_cant": "history dependent", "anchors": ["network/mock.go:Listen,Dial,Accept,formatAddr"]}
{"id": "C35", "title": "Exactly one answer per call", "statement": "Every call handed to a callee is answered at most once, either with the method's results or with a timeout error, never both; the answer is recorded exactly when the request is settled.", "quantifier": "all interleavings of callers, the handler, timers and method completions", "why_tests_cant": "the race between completion and timeout", "anchors": ["chancall/callee.go:process,result,track", "chancall/caller.go:Call"]}
{"id": "C36", "title": "Callers get their own answers", "statement": "When each caller object is used by one goroutine at a time, the answer returned from Call/CallWithResult is the answer to that very call.", "quantifier": "all interleavings, all numbers of callers and calls, including calls after a timed-out call", "why_tests_cant": "late answers of timed-out calls could surface in a later call", "anchors": ["chancall/caller.go:Call,CallWithResult", "chancall/callee.go:result,track"]}
{"id": "C37", "title": "A caller object may be shared", "statement": "Two goroutines calling through one caller object concurrently each get the answer to their own call.", "quantifier": "all interleavings of two callers sharing an object", "why_tests_cant": "needs a particular interleaving", "anchors": ["chancall/caller.go:callResponse"]}
{"id": "C38", "title": "Methods of one callee run one at a time, in order of arrival", "statement": "The handler starts methods in the order in which requests entered the queue, never starts one before the previous one returned, and never loses or duplicates a request.", "quantifier": "all interleavings", "why_tests_cant": "scheduling dependent", "anchors": ["chancall/callee.go:handling,process", "chancall/API.go:NewCallee"]}
{"id": "C39", "title": "A started call cannot hang", "statement": "From every reachable state, a call whose method has been started can be completed (its caller gets the result or the timeout error) without any help from the method body.", "quantifier": "all reachable states with the process alive and no caller object used for two calls at once", "why_tests_cant": "liveness over all histories", "anchors": ["chancall/callee.go:track", "chancall/caller.go:Call"]}
{"id": "C40", "title": "Every call returns within its timeout", "statement": "A call returns at the latest when the method's timeout has elapsed since the call was made.", "quantifier": "all schedules, all queue contents", "why_tests_cant": "needs a slow method ahead in the queue", "anchors": ["chancall/callee.go:handling,track"]}
{"id": "C41", "title": "Re-entrant calls are safe", "statement": "A method that calls its own feature gets an answer (a result or a timeout error) eventually.", "quantifier": "all reachable states in which a running method waits for a call on its own callee", "why_tests_cant": "a permanent deadlock is a statement about all infinite continuations", "anchors": ["chancall/callee.go:handling,process,track", "slot.go:Call", "dock.go:call"]}
{"id": "C42", "title": "Timeouts have the configured length", "statement": "The timeout error is delivered no earlier than the duration configured with SetTimeout after the method started.", "quantifier": "all configured durations", "why_tests_cant": "fractional durations are truncated to whole seconds", "anchors": ["chancall/callee.go:track (time.Duration(timeout) * time.Second)", "chancall/meta.go:setTimeout,timeout"]}
{"id": "C43", "title": "SetTimeout is local and defaults to one second", "statement": "SetTimeout changes the timeout of exactly the named method; methods never configured, and unknown methods, have a timeout of one second; setting it for an unknown method has no effect.", "quantifier": "all sequences of SetTimeout calls, all method names", "why_tests_cant": "all histories", "anchors": ["chancall/meta.go:collect,timeout,setTimeout", "slot.go:SetTimeout"]}
{"id": "C44", "title": "Calling an unknown method is reported", "statement": "A call to a method the feature does not have returns an error.", "quantifier": "all features, all method names not in their method set, all argument lists", "why_tests_cant": "all names and features", "anchors": ["chancall/meta.go:call"]}
{"id": "C45", "title": "Wrong arguments are reported, not fatal", "statement": "A call with the wrong number of arguments, a nil argument or an inconvertible argument returns an error to the caller and the feature stays alive.", "quantifier": "all methods and argument lists", "why_tests_cant": "all signature/argument combinations", "anchors": ["chancall/meta.go:call", "chancall/callee.go:handling"]}
{"id": "C46", "title": "Integer arguments arrive unchanged", "statement": "An integer argument passed to a method whose parameter is an integer type that can represent it arrives with the same value, whether the call is local or crossed the network.", "quantifier": "all integer argument types and values, all integer parameter types that can hold the value", "why_tests_cant": "product of types, values and wire widths", "anchors": ["chancall/meta.go:call (Convert)", "codec/encoder.go", "protocol.go:protoRpcRequest"]}
{"id": "C47", "title": "Allocated ports are unique per host", "statement": "No two register requests from the same host ever get the same port; every allocated port is above 20000, at most 49000 and not black-listed.", "quantifier": "all sequences of register requests from any number of hosts, all black lists", "why_tests_cant": "history dependent over up to 29000 requests per host", "anchors": ["hub.go:allocate,OnPacket (cRegisterRequest)"]}
{"id": "C48", "title": "Port allocation is the next free port", "statement": "The n-th register request from a host gets the n-th smallest port above 20000 that is not black-listed, independently of other hosts, and the hub exits exactly when that port is above 49000.", "quantifier": "all n, all black lists, all interleavings of hosts", "why_tests_cant": "induction over the number of requests", "anchors": ["hub.go:allocate"]}
{"id": "C49", "title": "Queries are answered with the newest ready dock", "statement": "The address in a query response belongs to a dock that registered the queried slot and afterwards reported ready for it, and no later registration of that slot was ready at that moment.", "quantifier": "all packet histories at the hub", "why_tests_cant": "history dependent", "anchors": ["hub.go:OnPacket (cQueryRequest, cReady)"]}
{"id": "C50", "title": "Pending queries are eventually answerable", "statement": "Readiness is never withdrawn: once some dock is ready for a slot, every pending query for that slot is answered the next time its routine looks, in every continuation; before that it is never answered.", "quantifier": "all histories and continuations", "why_tests_cant": "liveness over all continuations", "anchors": ["hub.go:OnPacket (cQueryRequest)"]}
{"id": "C51", "title": "Docks are isolated at the hub", "statement": "A register, ready or query packet from one peer changes neither the readiness of other peers' entries, nor their addresses, nor the port counters of other hosts, nor their relative order.", "quantifier": "all hub states, all packets", "why_tests_cant": "all states", "anchors": ["hub.go:OnPacket"]}
{"id": "C52", "title": "The hub does not hand out dead docks", "statement": "A query response never names a dock whose connection to the hub has closed.", "quantifier": "all histories with disconnections", "why_tests_cant": "needs failures at particular points", "anchors": ["hub.go:OnClosed,OnPacket (cQueryRequest)"]}
{"id": "C53", "title": "The hub derives the dock's host from its address", "statement": "The host recorded for a dock is the host part of its remote address, for every host:port address.", "quantifier": "all addresses, IPv4, names and IPv6", "why_tests_cant": "all address strings", "anchors": ["hub.go:pickIP"]}
{"id": "C54", "title": "Local features are called locally", "statement": "A call to a feature hosted by the calling dock runs that feature's method and sends no packet, whatever other docks offer the same name.", "quantifier": "all dock states, all names, methods and arguments", "why_tests_cant": "all states", "anchors": ["dock.go:call,callWithResult"]}
{"id": "C55", "title": "A remote call is sent at most once", "statement": "For every remote call at most one RPC request packet ever leaves the dock, however often ready packets arrive and however the handlers interleave with the calling goroutine.", "quantifier": "all interleavings of calls, packets and commits", "why_tests_cant": "scheduling dependent", "anchors": ["dock.go:commit,OnPacket (cReady)", "rpc.go:call"]}
{"id": "C56", "title": "Remote answers reach the call they belong to", "statement": "With distinct call indices, the result a remote call returns was carried by a response with that call's index, and each call returns at most once.", "quantifier": "all interleavings and response orders", "why_tests_cant": "scheduling and reordering dependent", "anchors": ["dock.go:OnPacket (cRpcResponse)", "rpc.go:callback,call"]}
{"id": "C57", "title": "Concurrent remote calls never mix", "statement": "Two remote calls in progress at the same time never receive each other's results, whatever the clock returns as call index.", "quantifier": "all interleavings, all clock readings", "why_tests_cant": "needs two calls within one clock tick", "anchors": ["rpc.go:newRpc", "dock.go:call"]}
{"id": "C58", "title": "Committing a pending call is race free", "statement": "No interleaving of calling goroutines and packet handlers makes the dock crash while committing a call.", "quantifier": "all interleavings", "why_tests_cant": "needs a particular interleaving", "anchors": ["dock.go:OnPacket (cReady),commit"]}
{"id": "C59", "title": "Only discoverable features are advertised", "statement": "The slot names a dock sends in register and ready packets are exactly the names of its discoverable features.", "quantifier": "all sets of carried features", "why_tests_cant": "all feature sets", "anchors": ["dock.go:collect,OnConnected,OnPacket", "slot.go:newSlot"]}
{"id": "C60", "title": "Non-discoverable features are unreachable from outside", "statement": "A dock never executes a method of a non-discoverable feature on behalf of a remote dock.", "quantifier": "all packet histories", "why_tests_cant": "adversarial packets", "anchors": ["dock.go:OnPacket (cRpcRequest)"]}
{"id": "C61", "title": "Requests are routed to a dock that offers the feature", "statement": "In a system of unmodified docks and hub, an RPC request is only ever sent over a connection whose remote dock carries the named feature as discoverable, so it is always executed on arrival.", "quantifier": "all numbers of docks, all features, all message interleavings", "why_tests_cant": "distributed interleavings", "anchors": ["dock.go:OnPacket,commit,collect", "hub.go:OnPacket"]}
{"id": "C62", "title": "A dock is listening before it can be found", "statement": "The hub answers a query only with an address on which the named dock is already listening.", "quantifier": "all interleavings of any number of docks", "why_tests_cant": "distributed interleavings", "anchors": ["dock.go:OnPacket (cRegisterResponse)", "hub.go:OnPacket (cReady,cQueryRequest)"]}
{"id": "C63", "title": "Remote execution is at most once and genuine", "statement": "The method of a remote call is executed at most once, and a call that returned a result returned the (wire-normalised) result of an execution of that method with the (wire-normalised) arguments of that call.", "quantifier": "all numbers of docks and calls, all message interleavings", "why_tests_cant": "distributed interleavings", "anchors": ["dock.go:OnPacket (cRpcRequest,cRpcResponse),commit", "rpc.go"]}
{"id": "C64", "title": "Every remote call returns", "statement": "A remote call returns a result or an error in finite time, also if packets are dropped or the remote dock disappears.", "quantifier": "all fault patterns", "why_tests_cant": "needs loss at a particular point; non-termination cannot be observed", "anchors": ["rpc.go:call", "network/peer.go:Send", "dock.go:OnClosed"]}
{"id": "C65", "title": "A remote call behaves like a local one", "statement": "For the same method and arguments a call through the network has the same result as a call inside the dock.", "quantifier": "all parameter types and argument values", "why_tests_cant": "product of types and values", "anchors": ["dock.go:call", "chancall/meta.go:call", "codec/encoder.go:encodeValue", "codec/decoder.go:decode"]}
{"id": "C66", "title": "Generated proxies return the remote result", "statement": "A generated proxy method returns the value computed by the remote feature.", "quantifier": "all result types and values", "why_tests_cant": "depends on the wire width chosen for each value", "anchors": ["tool/ferry.gen.go:gencode", "test/proxy.gen.go", "codec/decoder.go:decode"]}
{"id": "C67", "title": "Visit returns one proxy per slot and name", "statement": "Repeated Visit calls with a registered name return the same proxy object; an unregistered name yields nil until it is registered; re-registering a name does not affect a slot that already visited it.", "quantifier": "all interleavings of Register and Visit calls", "why_tests_cant": "history dependent", "anchors": ["slot.go:Visit", "registry.go:register,tryMake"]}
{"id": "C68", "title": "A later feature with the same name wins", "statement": "If several features are carried under one name, calls to that name reach the last one passed to Startup; all other names are unaffected.", "quantifier": "all lists of carried features", "why_tests_cant": "all lists", "anchors": ["dock.go:newDock"]}
{"id": "C69", "title": "Shutdown destroys everything once, in reverse order", "statement": "Close calls Close of all running hubs and docks in reverse start order, each exactly once; a dock's Close calls OnDestroy of each of its features exactly once and closes its sockets in reverse order; a second Close does nothing.", "quantifier": "all sequences of starts and closes", "why_tests_cant": "history dependent", "anchors": ["runtime.go:wait,destroy", "dock.go:Close"]}
{"id": "C70", "title": "Set semantics", "statement": "The misc set behaves as a mathematical set: Add and Remove return true exactly when they change membership, and ToSlice lists exactly the members, each once.", "quantifier": "all operation sequences", "why_tests_cant": "all histories", "anchors": ["misc/set.go"]}
{"id": "C71", "title": "Generated proxies forward all arguments", "statement": "For every interface method the generated proxy method has the same parameters and passes all of them, in order, to a call of the same method of the same feature.", "quantifier": "all interface declarations the tool accepts", "why_tests_cant": "all declarations; Go allows several names per parameter field", "anchors": ["tool/ferry.gen.go:parseFile,gencode"]}
{"id": "C72", "title": "Generated proxies return well-typed defaults on error", "statement": "On an error the generated proxy returns, for each result, a literal of the result's type.", "quantifier": "all result types the tool accepts", "why_tests_cant": "all types", "anchors": ["tool/ferry.gen.go:genProxyCode (default)"]}
{"id": "C73", "title": "Unknown tags are rejected", "statement": "Decoding fails with the error 'unsupported code' when the next item begins with a byte that is none of the sixteen documented tags, at the top level and behind any number of well-formed array elements; every documented tag begins some accepted input.", "quantifier": "all byte sequences", "why_tests_cant": "256 tag bytes times all contents and positions", "anchors": ["codec/decoder.go:decode", "codec/code.go"]}
{"id": "C74", "title": "The hub answers each request once, to the peer that asked", "statement": "Every register request that gets a port is answered to its sender, in order, with that port, and the only answer outstanding is that of the request being handled; the query responses sent to a peer are one for one those given to its queries, so it gets at most one for each.", "quantifier": "all packet histories at the hub, all interleavings of the goroutines", "why_tests_cant": "interleavings of one goroutine per peer and per query", "anchors": ["hub.go:OnPacket,respondQueryImme"]}
{"id": "C75", "title": "Packets cannot crash a dock", "statement": "No packet, duplicate or sequence of packets from peers makes the goroutines that handle RPC responses panic or block; in particular a response is always delivered to an open, empty result channel.", "quantifier": "all packet histories and interleavings", "why_tests_cant": "needs two responses within the window between look-up and removal", "anchors": ["dock.go:OnPacket (cRpcResponse)", "rpc.go:callback,call"]}
{"id": "C76", "title": "A pending call is sent when its feature becomes ready", "statement": "If a call is pending and a peer offering its feature is registered, then after a ready packet naming the feature has been handled the request of the call has been sent, unless the call is no longer pending or the dock has crashed.", "quantifier": "all interleavings, all orders of map iteration", "why_tests_cant": "lost wake-ups depend on scheduling and map order", "anchors": ["dock.go:OnPacket (cReady),commit"]}
{"id": "C77", "title": "One connection per remote dock", "statement": "A dock opens at most one connection to the address of another dock.", "quantifier": "all interleavings", "why_tests_cant": "needs overlapping calls", "anchors": ["dock.go:commit,OnPacket (cQueryResponse)"]}
{"id": "C78", "title": "Generated proxies have the results of the interface", "statement": "The generated proxy method has the same result types as the interface method, in the same order, and returns result k of the call as its result k.", "quantifier": "all interface declarations the tool accepts", "why_tests_cant": "all declarations; Go allows several names per result field", "anchors": ["tool/ferry.gen.go:parseFile,gencode"]}
{"id": "C79", "title": "Docks on one host listen on different ports", "statement": "In a system of unmodified docks and hub, no two docks on the same host are ever told to listen on the same port.", "quantifier": "all numbers of docks and hosts, all interleavings, all black lists", "why_tests_cant": "needs many docks starting in all orders", "anchors": ["hub.go:allocate", "dock.go:OnPacket (cRegisterResponse)"]}
{"id": "C80", "title": "A dock only dials addresses where a dock listens", "statement": "In a system of unmodified docks and hub, whenever a dock dials an address that it got from the hub, exactly one dock has opened a listener there (so the connection reaches the dock that was meant, or fails because that dock is gone).", "quantifier": "all numbers of docks, all interleavings", "why_tests_cant": "distributed interleavings", "anchors": ["dock.go:OnPacket (cQueryResponse)", "hub.go:OnPacket,respondQueryImme"]}
{"id": "C81", "title": "An unmodified system does not bring its processes down", "statement": "In a system of unmodified docks and hub in which nothing fails from outside, no sequence of calls, packets and scheduling decisions ends the process of a dock.", "quantifier": "all numbers of docks, all interleavings, all arguments and results", "why_tests_cant": "distributed interleavings, and the faulty ones are rare", "anchors": ["dock.go:OnPacket,commit", "rpc.go:call,callWithResult,callback", "serializer.go:Unmarshal"]}
{"id": "C82", "title": "Each request is answered at most once, with its own result", "statement": "A dock sends a peer at most as many responses with an index as it received requests with that index from it, and every response has the index, feature and method of a request of that peer and the result and error of the execution of that request.", "quantifier": "all packet histories, all interleavings of the executing goroutines", "why_tests_cant": "interleavings of one goroutine per request", "anchors": ["dock.go:OnPacket (cRpcRequest)"]}
{"id": "C83", "title": "Known features are called without the hub", "statement": "Once a dock has handled a register packet naming a feature, every later committed call of that feature is sent at once to a peer that registered it; the hub is not asked.", "quantifier": "all packet histories, all interleavings", "why_tests_cant": "the route must survive arbitrary later packets and calls", "anchors": ["dock.go:OnPacket (cRegisterRequest),commit"]}
{"id": "C84", "title": "Answered calls are forgotten", "statement": "When the goroutine that handled a response has finished, the answered call is not in the table of pending calls under any index, and never comes back.", "quantifier": "all interleavings, all clock readings", "why_tests_cant": "leaks show only in long runs; readings may coincide", "anchors": ["dock.go:OnPacket (cRpcResponse)", "rpc.go:callback"]}
{"id": "C85", "title": "Registrations are answered with ready", "statement": "A dock sends a peer exactly one ready packet for every register request and register response received from it; the ready packet of the registration being handled is the only one that can be outstanding.", "quantifier": "all packet histories, all interleavings", "why_tests_cant": "counts over unbounded histories", "anchors": ["dock.go:OnPacket (cRegisterRequest,cRegisterResponse)"]}
{"id": "C86", "title": "The packet handler of a dock terminates", "statement": "Handling one packet takes at most a bounded number of steps, and at every point the handler can take a step: the loop over pending calls that commits calls on the way neither runs forever nor gets stuck.", "quantifier": "all states, all packets, all orders of map iteration", "why_tests_cant": "non-termination cannot be observed by a test", "anchors": ["dock.go:OnPacket,commit"]}
{"id": "C87", "title": "The features of a dock are started once, when it is reachable", "statement": "The start of the features of a dock is triggered exactly once, after the dock listens on the port assigned by the hub and has announced itself, and no request is executed before.", "quantifier": "all packet histories, all numbers of docks, all interleavings", "why_tests_cant": "needs faulty peers and rare schedules", "anchors": ["dock.go:OnPacket (cRegisterResponse),start"]}
{"id": "C88", "title": "Dial on the mock network returns", "statement": "Dial on the mock network always returns, with a connection or, after its second, with an error.", "quantifier": "all interleavings of dialling routines, accept routines and closes", "why_tests_cant": "a blocked call shows only as a hanging test", "anchors": ["network/mock.go:Dial,Accept,Close"]}
{"id": "C89", "title": "Both ends agree on the outcome of Dial", "statement": "Dial on the mock network returns without error exactly if the listener has accepted the connection; after an error nobody holds the other end.", "quantifier": "all interleavings", "why_tests_cant": "races around the time limit", "anchors": ["network/mock.go:Dial,Accept"]}
{"id": "C90", "title": "Closing a mock listener", "statement": "After Close of a mock listener nothing is accepted any more, Close returns, and it never disturbs the process, whatever else is going on.", "quantifier": "all interleavings of Close, Accept and Dial", "why_tests_cant": "race between Close and Accept", "anchors": ["network/mock.go:Accept,Close", "network/socket.go:Listen,Close"]}
{"id": "C91", "title": "A socket uses the serializer registered under its name", "statement": "NewSocket gives a socket the serializer registered last under the given name.", "quantifier": "all programs", "why_tests_cant": "depends on the order of initialisation", "anchors": ["network/API.go:NewSocket,ExtendSerializer"]}
{"id": "C92", "title": "Mock redirects sockets to the mock network", "statement": "After Mock(network) all sockets use the mock network, and without it the real one.", "quantifier": "all programs, all names of networks", "why_tests_cant": "tests only use tcp", "anchors": ["network/API.go:Mock", "network/inet.go:bind,makeNet", "network/socket.go:Listen,Dial"]}
{"id": "C93", "title": "Encode reports failed writes", "statement": "If a Write of the underlying writer fails while Encode runs, Encode returns an error; if Encode returns no error, the writer has taken exactly the encoding.", "quantifier": "all values, all writers with lawful Write", "why_tests_cant": "needs a writer that fails at one particular call", "anchors": ["codec/encoder.go:encode,encodeFloat32,encodeFloat64"]}
{"id": "C94", "title": "Calls move on when the dock in use is gone", "statement": "After the connection to the dock that serves a feature has ended, later calls of the feature go to another dock that offers it.", "quantifier": "all executions, all numbers of docks", "why_tests_cant": "needs a dock to fail while others stay", "anchors": ["dock.go:OnPacket,OnClosed,call,callWithResult"]}
{"id": "C95", "title": "Every interface gets a proxy", "statement": "For each interface type declared in the Go files below the working directory, other than the generated file, the generator writes one proxy with exactly the methods of the interface and registers it under the name of the interface, and nothing else.", "quantifier": "all directory trees, all declarations, all errors of the walk", "why_tests_cant": "unusual layouts of declarations and unreadable directories are not tried", "anchors": ["tool/ferry.gen.go:main,scanFile,parseFile,genProxyCode"]}
{"id": "C96", "title": "Proxy types do not clash", "statement": "The types written into the generated file have different names, and no interface is registered twice.", "quantifier": "all directory trees, all names of interfaces", "why_tests_cant": "shows only with particular names in particular directories", "anchors": ["tool/ferry.gen.go:parseFile,genProxyCode"]}
{"id": "C97", "title": "Generating again changes nothing and follows the sources", "statement": "The generator reads all Go files but its own output, so a second run on unchanged sources leaves the proxies as they are; and after a run the generated file reflects the present sources, whatever it held before.", "quantifier": "all directory trees, all earlier contents of the generated file", "why_tests_cant": "needs sequences of runs with changes in between", "anchors": ["tool/ferry.gen.go:main,ignore,save"]}
{"id": "C98", "title": "A broadcast reaches every peer", "statement": "Send of a socket hands its object once to each peer connected when it is called, and a peer whose connection has failed does not keep the others from getting it.", "quantifier": "all interleavings of Send calls, send routines, new connections and failures", "why_tests_cant": "needs a failed connection and two calls at the same time", "anchors": ["network/socket.go:Send", "network/peer.go:Send"]}
{"id": "C99", "title": "Calls on a dock that is closed", "statement": "A call on a dock never ends the process, whether it is made before, during or after Close; after Close it returns, with an error.", "quantifier": "all interleavings of Close with calls by any number of goroutines", "why_tests_cant": "needs calls at particular moments of the shutdown", "anchors": ["dock.go:Close,call,callWithResult,commit", "rpc.go:call,callWithResult"]}
{"id": "C100", "title": "Memory requested while decoding", "statement": "Decoding requests no more memory than a small constant, the 16 bytes of one interface value, per byte of input.", "quantifier": "all inputs, accepted or not, all announced lengths, all nestings", "why_tests_cant": "the announced lengths range over 2^32 values and tests use well-formed input", "anchors": ["codec/decoder.go:decode,decodeArray,decodeMap"]}
{"id": "C101", "title": "Features are started and destroyed once and in order", "statement": "When a dock starts, OnStart of every feature is called exactly once, and Close calls OnDestroy of every feature exactly once, after its OnStart has returned and with no OnStart called afterwards.", "quantifier": "all sets of features, all traversal orders, all interleavings of start, Close and the features returning or not", "why_tests_cant": "needs Close at particular moments of the start and features that do not return", "anchors": ["dock.go:start,Close"]}
{"id": "C102", "title": "A slot calls within its own dock", "statement": "A call by the feature of a slot is looked up among the features of the dock that the slot was passed to, reaches the last one of that name, and is sent over the network only if the dock has none.", "quantifier": "all sequences of Carry, Startup with any slots, and calls", "why_tests_cant": "needs slots shared between docks and calls before Startup", "anchors": ["slot.go:Carry,Call,CallWithResult", "dock.go:newDock"]}
{"id": "C103", "title": "Instances started at the same time are all closed", "statement": "Every hub and dock whose Startup or Serve has got to waiting is closed exactly once by the next Close, whatever other instances are being started at the same time, and Close does not end the process.", "quantifier": "all interleavings of any number of Startup and Serve calls with Close and signals", "why_tests_cant": "needs two calls that overlap within one statement", "anchors": ["runtime.go:wait,destroy", "ferry.go:Startup,Serve,Close"]}
{"id": "C104", "title": "Startup and Serve return when their instance is closed", "statement": "A call of Startup or Serve returns after its instance has been closed, and only then; a signal closes the instances before the calls return.", "quantifier": "all interleavings of calls, Close and signals", "why_tests_cant": "a call that never returns cannot be observed by a test, and signals come at any moment", "anchors": ["runtime.go:wait,destroy", "ferry.go:Startup,Serve,Close"]}
{"id": "C105", "title": "A hub can be closed while packets are handled", "statement": "Closing a hub while docks register, report or query does not end the process, and every query goroutine ends.", "quantifier": "all interleavings of Close with any number of registrations, ready packets and queries", "why_tests_cant": "needs Close between two statements of a handler", "anchors": ["hub.go:Close,OnPacket,allocate"]}
{"id": "C106", "title": "Data of a hub is accessed by one goroutine at a time", "statement": "No map, list or stub of a hub is accessed by two goroutines at the same time if one of them writes, and the mutexes never leave goroutines waiting for one another.", "quantifier": "any number of goroutines, all sequences of packets and of closing the hub, all interleavings of the beginnings and ends of accesses", "why_tests_cant": "the race detector reports only races that happen in a run", "anchors": ["hub.go:OnPacket,allocate,Close"]}
{"id": "C107", "title": "Data of a dock is accessed by one goroutine at a time", "statement": "No map or slice of a dock or a slot is accessed by two goroutines at the same time if one of them writes.", "quantifier": "any number of goroutines, all sequences of packets, calls and visits, of closing the dock and of registering proxies, all interleavings of the beginnings and ends of accesses", "why_tests_cant": "the race detector reports only races that happen in a run", "anchors": ["dock.go:OnPacket,call,callWithResult,commit,collect,start,run,Close", "slot.go:Visit", "registry.go:tryMake,register"]}
{"id": "C108", "title": "Data of the network package is accessed by one goroutine at a time", "statement": "No table, list of peers or sink of package network, or table of its mock, is accessed by two goroutines at the same time if one of them writes.", "quantifier": "any number of goroutines, all interleavings of the beginnings and ends of accesses", "why_tests_cant": "the race detector reports only races that happen in a run", "anchors": ["network/API.go:ExtendSerializer,NewSocket", "network/socket.go:Listen,Dial,Close,Send", "network/peer.go:run,close", "network/mock.go:Listen,Dial"]}
{"id": "C109", "title": "Data of a callee is accessed by one goroutine at a time", "statement": "The methods of a callee, their timeouts and the state of a request are not accessed by two goroutines at the same time if one of them writes, and the mutexes never leave goroutines waiting for one another.", "quantifier": "any number of goroutines, all interleavings of the beginnings and ends of accesses", "why_tests_cant": "the race detector reports only races that happen in a run", "anchors": ["chancall/callee.go:process,result,track,SetTimeout", "chancall/meta.go:call,timeout,setTimeout"]}
{"id": "C110", "title": "A call of a remote feature can complete", "statement": "From every state the system can reach in which the parties are alive, nothing is under way between them and no other calls wait for them to get to know each other, a call of a feature that a connected dock carries, or for which the hub has a ready registration of a listening dock, can complete without losses or failures: it returns with the result of an execution of that method with those arguments by that dock.", "quantifier": "all reachable states, any number of docks, any history of losses and failures elsewhere, all calls with sendable arguments and results", "why_tests_cant": "the claim is about all states an arbitrary history can lead to; a test starts from a few", "anchors": ["dock.go:OnConnected,OnPacket,call,callWithResult,commit", "rpc.go:call,callWithResult,callback", "hub.go:OnPacket", "network/socket.go:Dial,Listen"]}
{"id": "C111", "title": "Decode accepts exactly the grammar", "statement": "Decode accepts an input, leaving a given rest, exactly if the bytes before the rest are an item of the grammar: a tag byte with its payload, or a tag byte, a count and that many items. The rest is unique. Every other input on which Decode does not panic is reported as an error.", "quantifier": "all byte sequences, of any length and nesting", "why_tests_cant": "there are infinitely many inputs, and near misses are the interesting ones", "anchors": ["codec/decoder.go:decode,decodeArray,decodeMap,readByte,readUint16,readUint32,readUint64"]}
{"id": "C112", "title": "A dock can join a running system at any time", "statement": "From every state the system can reach in which the hub is alive, keeps the connection and has a port left for the host, a dock that has not connected yet can connect, be registered, listen and start its features without losses or failures and without any other process taking a step. Afterwards nothing else has changed, the hub's newest registration of exactly the features the dock offers for discovery is ready and names the dock's address, and a call of such a feature by a dock that is quietly connected can complete there.", "quantifier": "all reachable states, any number of docks, any history of losses and failures elsewhere", "why_tests_cant": "the claim is about all states an arbitrary history can lead to; a test starts from a few", "anchors": ["dock.go:init,OnConnected,OnPacket,collect", "hub.go:OnPacket,allocate,pickIP"]}
{"id": "C113", "title": "Slots are misused in exactly three ways", "statement": "Of the calls that make and use slots, one ends the process exactly if it is Carry with a value that does not implement IFeature, Startup with something that Carry did not make, or a call by the feature of a slot that was never passed to Startup.", "quantifier": "all sequences of such calls", "why_tests_cant": "that nothing else ends the process is a claim about all sequences of calls", "anchors": ["slot.go:newSlot,Call,CallWithResult", "dock.go:newDock"]}
{"id": "C114", "title": "The generated file does not depend on the order of the methods", "statement": "In a generated file the methods of every proxy are sorted by name, and exchanging the order of the methods of an interface changes nothing in the file.", "quantifier": "all source trees, all orders of the methods", "why_tests_cant": "Go visits maps in random order; a test sees some of the orders", "anchors": ["tool/ferry.gen.go:parseFile,genProxyCode"]}
{"id": "C115", "title": "A call among features of a process can return unless they wait in a circle", "statement": "In every reachable state with the process alive and suitable arguments, a call whose method has not been started can still return, in some continuation, exactly if following the waiting from its callee (its running method waits for a call, not yet started, on another callee, and so on) comes to an end. If it does not, none of the callees in the circle ever does anything again.", "quantifier": "all reachable states of any number of callees, all continuations, caller objects used by one goroutine at a time", "why_tests_cant": "deadlocks depend on interleavings, and that nothing happens ever after is a claim about all continuations", "anchors": ["chancall/callee.go:process,result,track", "chancall/caller.go:Call,CallWithResult,call"]}
{"id": "C116", "title": "Responses carry what the feature's method returned", "statement": "The responses a dock sends can be matched one to one with requests it received and with calls of its callees: each has the peer, index, slot and method of its request; the method was called with the arguments of the request on the last slot of that name; and it either carries the result of that call (none if none was asked for) and no error, or the error that the call timed out, and then the timeout had elapsed since the method was started.", "quantifier": "all packets, any number of peers, all interleavings of the dock with its callees and the bodies of methods", "why_tests_cant": "late results, timeouts and concurrent requests race; a test sees few of the interleavings", "anchors": ["dock.go:OnPacket", "slot.go:newSlot", "chancall/callee.go:process,result,track", "chancall/caller.go:Call,CallWithResult"]}
{"id": "C117", "title": "The requests of a peer are executed in order", "statement": "The methods called by requests for a feature are executed in the order in which the requests arrive.", "quantifier": "all packets, all interleavings", "why_tests_cant": "goroutines usually run in the order in which they are started, so tests see the right order", "anchors": ["dock.go:OnPacket", "chancall/callee.go:process"]}
{"id": "C118", "title": "The methods of a feature are executed one at a time", "statement": "Never are two methods of a feature, OnStart included, executed at the same time.", "quantifier": "all calls by goroutines of the process and by peers, all interleavings", "why_tests_cant": "overlaps depend on the interleaving", "anchors": ["dock.go:OnPacket,start", "slot.go:newSlot", "chancall/callee.go:process"]}
{"id": "C119", "title": "Every request for a feature of a living dock can be answered", "statement": "In every reachable state in which the dock is alive, a request that has arrived and has not been answered can still be answered.", "quantifier": "all reachable states, all packets and calls, all interleavings", "why_tests_cant": "a request that is never answered looks like a slow one in a test", "anchors": ["dock.go:OnPacket", "chancall/callee.go:process,result,track", "rpc.go:call,callWithResult"]}
{"id": "C120", "title": "Remote calls obtain what the feature's method returned", "statement": "In a system in which the clock of no dock returns the same reading twice and all arguments and results are values that survive the wire, the remote calls that have a result can be matched, different ones with different ones, with calls executed by callees of docks: method and arguments are those of the call, the callee is the last slot of that name there and discoverable, and the result is either that of the method (none if none was asked for) without error, or the error that the call timed out, and then the timeout had elapsed since the method was started.", "quantifier": "any number of docks with a hub, all interleavings, all losses, all bodies of methods", "why_tests_cant": "a result that belongs to another call looks right unless the calls differ; which results are mixed up depends on the interleaving", "anchors": ["dock.go:OnPacket,call,callWithResult,commit", "rpc.go:newRpc,call,callWithResult,callback", "slot.go:newSlot", "chancall/callee.go:process,result,track"]}
{"id": "C121", "title": "Features of different docks that call each other return", "statement": "While all processes are alive and no connection is lost, a remote call whose request has been received by the dock that carries the feature can still obtain a result.", "quantifier": "any number of docks with a hub, all reachable states, all continuations", "why_tests_cant": "deadlocks across processes depend on interleavings, and that nothing happens ever after is a claim about all continuations", "anchors": ["rpc.go:call,callWithResult", "dock.go:OnPacket,call,callWithResult", "chancall/callee.go:process,result,track"]}
{"id": "C122", "title": "Connections neither reorder, repeat, invent nor alter packets", "statement": "At every moment, what a peer has handed to OnPacket are the first of the packets that entered the send queue at the other end, in order and with none left out, each as Marshal and Unmarshal turn it over; Send lets every packet enter the queue or discards it; a process is stopped by Marshal or Unmarshal only on a packet that does so, and the receiver exactly on the next packet after those handed up. So a connection behaves like a queue of packets that loses some and delivers the oldest.", "quantifier": "all interleavings of senders, send routine and receive routine, all read sizes, failing writes, all packets below 4 GiB", "why_tests_cant": "how the bytes are cut into reads, when the queue is full and where writes fail depends on timing and network", "anchors": ["network/peer.go:Send,run", "serializer.go:Marshal,Unmarshal,Slice"]}
{"id": "C123", "title": "A remote call applies the method to the arguments", "statement": "Whatever the methods of the features do with their parameters: a call of a method of a remote feature, directly or through the generated proxy, returns what the method returns for these arguments, or reports that it did not return in time. For the applications in test/ and ferry_test.go: Add(x, y) returns the sum.", "quantifier": "any number of docks with a hub, all applications given by parameter types and behaviours of methods, all interleavings, all losses", "why_tests_cant": "which arguments reach which method in which form depends on the whole path through proxy, dock, hub, wire and callee, and on all interleavings", "anchors": ["tool/ferry.gen.go:gencode", "dock.go:OnPacket,callWithResult,commit", "chancall/meta.go:call", "test/main.go:main", "ferry_test.go:TestMultiDocks"]}
{"id": "C124", "title": "Calls return in every fair execution", "statement": "In every execution that goes on for ever, in which goroutines that can go on do so, goroutines that wait for room in a queue get it when there is room again and again, and time passes (no caller object used for two calls at once): a call whose method has been started returns; if all methods return, all calls return; and if methods that never return wait for a call of their own for ever, the calls that never return are exactly those left to callees that wait for one another.", "quantifier": "all infinite fair executions, any number of callees and callers, all methods", "why_tests_cant": "that something happens eventually in every execution cannot be observed in finitely many finite ones", "anchors": ["chancall/caller.go:Call,CallWithResult", "chancall/callee.go:process,result,track"]}
{"id": "C125", "title": "Every request that is sent is answered in every fair execution", "statement": "In every execution, one that ends when nothing is left to do included, in which goroutines that can go on do so, every call is visited by the loops over the calls again and again, packets that were sent arrive, no process stops, the hub closes no connection, all packets fit into frames and all methods that are executed return: if the clock of a dock gives no reading twice, then for every request that the dock sends there is a call of that index, feature, method and arguments, and it returns.", "quantifier": "all fair executions, finite and infinite, of any number of docks with a hub, all calls and features", "why_tests_cant": "that something happens eventually in every execution cannot be observed in finitely many finite ones", "anchors": ["dock.go:OnPacket,commit,callWithResult", "rpc.go:newRpc,call,callWithResult,callback"]}
{"id": "C126", "title": "Calls of offered features return in every fair execution", "statement": "In every fair execution as in C125: a call, made by a dock that has stored its socket to the hub, of a feature that the dock does not carry returns if at some time, before or after the call, the hub has a ready stub for the feature; and it returns if at some time a dock joins that carries the feature as discoverable.", "quantifier": "all fair executions, finite and infinite, of any number of docks with a hub, all calls and features, all orders of joining and calling", "why_tests_cant": "that a call waits for ever although the feature is there depends on the order of registration, query, dialling and readiness", "anchors": ["dock.go:OnConnected,OnPacket,callWithResult,commit,run", "hub.go:OnPacket,respondQueryImme", "rpc.go:callWithResult,callback"]}
{"id": "C127", "title": "Which calls return in fair executions of docks with the callees of their features", "statement": "In every execution in which goroutines that can go on do so, goroutines that wait for room in the queue of a callee get it when there is room again and again, time passes, packets that were sent arrive, no process stops, the hub closes no connection, all packets fit into frames and the clocks of docks give no reading twice: a request whose method has been started at the other dock is answered and the call returns, whether the method returns or not; if all methods return, then every call of a feature that is offered returns; and if methods that never return wait for a call of their own for ever, methods call features that are offered and features are called at finitely many docks only, then the calls of offered features that never return are exactly those that at some time are left, before their method is started, to a callee in a set of callees that wait for one another, within docks or across docks.", "quantifier": "all fair executions of any number of docks with a hub and the callees of their features, all calls, all methods, local and remote calls", "why_tests_cant": "that a call never returns is a claim about all continuations of infinite executions, and which calls are stuck depends on which features call each other across processes", "anchors": ["rpc.go:call,callWithResult,callback", "dock.go:OnPacket,commit,call,callWithResult", "slot.go:newSlot", "hub.go:OnPacket,respondQueryImme", "chancall/callee.go:process,result,track", "chancall/caller.go:Call,CallWithResult"]}
{"id": "C128", "title": "Platforms of 32 and 64 bits understand each other", "statement": "A process on a platform of 32 bits encodes every value and every packet as one of 64 bits does, and takes every sequence of bytes for the same values and packets.", "quantifier": "all values, all packets, all byte sequences and all divisions of the stream into reads", "why_tests_cant": "tests run on one platform, and packets of 2 GiB or headers that announce them do not occur in them", "anchors": ["codec/encoder.go:encodeInt,encodeUint", "codec/decoder.go:decode,decodeArray", "codec/any.go:Int", "serializer.go:Slice,Unmarshal,Marshal", "network/peer.go:run"]}
{"id": "C129", "title": "The byte counts of the encoder", "statement": "The number that the encoder returns beside the error is the number of bytes that the writer has accepted, also when a write fails; with a nil error it is the length of the encoding.", "quantifier": "all values, all writers with lawful Write, all states of the writer", "why_tests_cant": "no caller in the repository looks at the numbers, so no test does", "anchors": ["codec/encoder.go:encode,encodeFloat32,encodeFloat64,encodeString,encodeArray,encodeMap"]}
{"id": "C130", "title": "Packets that are sent arrive in every fair execution of a connection", "statement": "In every execution of a connection in which the send routine and the receive routine go on if they can, goroutines in Send that find room in the channel again and again get it, nobody closes the connection and no write fails: of the packets passed to Send up to any time, those that were not discarded are at some later time all handed to OnPacket at the other end, as they are decoded, and those that had entered the queue by then in that order.", "quantifier": "all fair executions, finite and infinite, any number of senders, all packets that can be encoded, all divisions of the stream into reads; also for text connections", "why_tests_cant": "that every packet arrives eventually in every execution cannot be observed in finitely many finite ones", "anchors": ["network/peer.go:Send,run"]}
{"id": "C131", "title": "Calls made at the same time", "statement": "However many calls are made at the same time over one connection, none of their packets is discarded: every call of a feature whose dock is connected and running obtains its result, if the packets that are not discarded arrive.", "quantifier": "all numbers of simultaneous calls, all interleavings of senders and send routine, all continuations of the system", "why_tests_cant": "whether the twenty places of the send queue are full depends on the scheduler, and that the call then never returns is a claim about all continuations", "anchors": ["network/peer.go:Send,run", "dock.go:callWithResult,commit", "rpc.go:callWithResult,callback"]}
{"id": "C132", "title": "A float64 read as float32 is the nearest float32", "statement": "The accessor Float32, applied to a float64, and the conversion of a float64 argument to a float32 parameter yield the float32 that is nearest to the number, the one with even fraction if two are equally near; the sign is kept, NaNs and infinities stay what they are, and numbers from half a unit above the largest float32 on become infinities.", "quantifier": "all 2^64 bit patterns, at all places of lists that arrive", "why_tests_cant": "2^64 inputs; double rounding, ties and subnormal numbers are met by few of them", "anchors": ["codec/any.go:Float32", "chancall/meta.go:call"]}
{"id": "C133", "title": "Numbers passed to parameters of other types", "statement": "A number passed to a parameter of another numeric type arrives as the same number if the type has it, otherwise as the nearest float or, for a float passed to an integer parameter, without its fraction; a number that cannot be passed like this, or is passed to a parameter that is not numeric, is refused.", "quantifier": "all integers and floats of all types, all numeric and string parameters", "why_tests_cant": "the conversions depend on all bits of 64-bit numbers; tests use small ones, for which rounding and wrapping do not occur", "anchors": ["chancall/meta.go:call"]}
{"id": "C134", "title": "All features are started", "statement": "When a dock has joined, OnStart of each of its features is called exactly once and returns, whatever features of other docks it calls, also if the docks call each other in their OnStart; in particular the example application gets to its end.", "quantifier": "all systems of docks, all features and OnStart functions that wait only for calls of known features, all fair executions", "why_tests_cant": "liveness over all interleavings of registration, starting and calling; tests sleep until it has happened once", "anchors": ["dock.go:start,OnPacket,run,commit", "test/game.go:OnStart", "test/lobby.go:OnStart", "test/main.go:main"]}
{"id": "C135", "title": "The goroutines of a connection end when it is closed", "statement": "After close has been called on a connection, close returns, the receive routine ends and the send routine ends; and both end when the other end closes the connection.", "quantifier": "all fair executions of the two routines, any number of senders and of calls of close, connections that follow the documentation of net.Conn and connections of the mock", "why_tests_cant": "a goroutine that waits for ever looks like one that has not been scheduled yet; the outcome depends on how full the queue is between two lines of close", "anchors": ["network/peer.go:Send,run,close", "network/mock.go:Read,Write,Close"]}
{"id": "C136", "title": "Generated methods compile", "statement": "For every method of a legal interface that the generator accepts, the generated proxy method is Go that compiles, whatever the parameters are called.", "quantifier": "all method, parameter and type names, all numbers of parameters and results, all packages", "why_tests_cant": "the names that break the generated code are legal everywhere else; tests use x and y", "anchors": ["tool/ferry.gen.go:parseFile,genProxyCode,gencode"]}
{"id": "C137", "title": "The generated file compiles", "statement": "For every set of legal interfaces that the generator accepts, the file proxy.gen.go is Go that compiles in the package main of the project: no type is declared twice, the import does not clash, and all methods compile.", "quantifier": "all directories, files and interfaces, all names, all other declarations of the package", "why_tests_cant": "the clashes arise between declarations of different files and directories; the files of a test project have none", "anchors": ["tool/ferry.gen.go:main,scanFile,parseFile,genProxyCode,gencode"]}
{"id": "C138", "title": "Proxies implement their interfaces", "statement": "There is one proxy for every interface that the generator reads, and it implements the interface: it has all its methods, with the same types of parameters and results, so that the value that Visit returns can be used as one.", "quantifier": "all interfaces with any number of methods, parameters and results", "why_tests_cant": "whether the signatures agree depends on how the parameters are written, of which tests use one way", "anchors": ["tool/ferry.gen.go:parseFile,genProxyCode,gencode"]}
{"id": "C139", "title": "Closing a mock connection", "statement": "Close of a mock connection returns, the reads of the other end fail from then on after what was written before, and it never disturbs the process, whatever other goroutines do with the connection.", "quantifier": "any number of goroutines that write to, read from and close the two ends, all interleavings of the lines of Write and Close, all fair executions", "why_tests_cant": "the crash needs a Close between two adjacent lines of a Write in another goroutine", "anchors": ["network/mock.go:Read,Write,Close"]}
{"id": "C140", "title": "Methods with a variadic parameter", "statement": "A method with a variadic parameter, called with any number of arguments of the element type, gets these arguments.", "quantifier": "all methods with any fixed parameters and any variadic parameter, all lists of arguments, all states of the callee", "why_tests_cant": "no method of the tests is variadic, and what reflect does with such a method is not visible in the code", "anchors": ["chancall/meta.go:collect,call"]}
{"id": "C141", "title": "Values that refer to themselves", "statement": "Encode returns for every value, whatever slices and maps it refers to and however often, and writes what it writes for the tree that the value stands for.", "quantifier": "all values with slices and maps that are shared or refer to themselves, all memories", "why_tests_cant": "tests have values that are trees; a value that refers to itself makes the test run until the stack is used up", "anchors": ["codec/encoder.go:encodeArray,encodeMap,encodeValue"]}
{"id": "C142", "title": "A packet carries what was passed to Send", "statement": "What is sent for a packet is the encoding of what its arguments or results were when the packet was passed to Send, whatever the other goroutines do afterwards.", "quantifier": "all values with references, all interleavings of the send routine, reading element by element, with goroutines that change memory", "why_tests_cant": "the packet is encoded later, in another goroutine; a test would have to change the value in the middle of it", "anchors": ["network/peer.go:Send,run", "serializer.go:Marshal", "codec/encoder.go:encodeArray,encodeMap"]}
{"id": "C143", "title": "Arguments of local calls stay as they are", "statement": "While a method called within a process runs, its arguments, which it shares with its caller, are what they were when the call was made, if nobody changes the arguments of a call before it has returned.", "quantifier": "all executions of any number of callers and callees, all values with references, all changes of memory by anyone", "why_tests_cant": "the change needs a method that takes longer than its timeout and a caller that goes on using its slice", "anchors": ["chancall/caller.go:Call,CallWithResult", "chancall/callee.go:process,result,track"]}
{"id": "C144", "title": "A dock is not given the port of the hub", "statement": "The hub never tells a dock to listen on the port on which the hub itself listens.", "quantifier": "all interleavings of any number of docks that register, all hosts, all black lists, all ports of the hub", "why_tests_cant": "tests and examples use a port of the hub outside the range of the ports for docks", "anchors": ["hub.go:allocate,run", "dock.go:OnPacket", "network/socket.go:Listen"]}
{"id": "C145", "title": "A hub and its docks are found on the mock network", "statement": "On the mock network, which forgets the hosts of addresses, a hub and its docks are found under the addresses on which they listen; a dock that dials an address named by the hub reaches the dock that listens there.", "quantifier": "all executions of a hub and any number of docks, all executions of the mock network in which they listen in any order, all addresses of the hub, all black lists", "why_tests_cant": "Listen on an address in use replaces the listener without an error; tests use few docks and one port of the hub", "anchors": ["network/mock.go:Listen,Dial,formatAddr", "hub.go:allocate,run,pickIP", "dock.go:OnPacket"]}
{"id": "C146", "title": "A hub that is started again", "statement": "When a hub is started again, docks that register with it are not given ports that the hub gave to docks on the same host before.", "quantifier": "all executions of the hub before and after, all hosts, all black lists", "why_tests_cant": "tests start one hub and do not keep docks running", "anchors": ["hub.go:newHub,allocate,run"]}
{"id": "C147", "title": "Every call executes its method exactly once", "statement": "In every fair execution in which nothing is lost, methods return, the clock of a dock gives no reading twice, and calls of other docks are of features that are offered and have arguments that survive the wire, the calls made and the methods started correspond one to one: for every call the method it is for is started exactly once, after the call and with its arguments, and no method is started otherwise.", "quantifier": "all infinite fair executions of a hub and any number of docks with their callees, all calls, by goroutines or by methods, of the own or of other docks", "why_tests_cant": "exactly once is a statement about complete executions that do not end; a test sees one prefix", "anchors": ["dock.go:call,callWithResult,OnPacket,commit", "rpc.go:call,callWithResult", "chancall/callee.go:process", "hub.go:OnPacket"]}
{"id": "C148", "title": "The program of the README prints once", "statement": "In every fair execution of the hub, the logger and the game of the README, OnStart of the game is called and returns, and exactly one method is started ever: Print of the logger, with \"Hello Ferry!\".", "quantifier": "all infinite fair executions of the three processes in which nothing is lost and methods return", "why_tests_cant": "the program of the README is not among the tests; a run of it shows one interleaving", "anchors": ["README.md", "dock.go:start,call,commit,OnPacket", "chancall/callee.go:process", "ferry.go:Startup,Serve"]}
{"id": "C149", "title": "A call takes effect between its being made and its result", "statement": "To every call that has got its result a step can be assigned, after the call was made and before it got its result, different ones to different calls, in which the method the call is for is started, with its arguments; if the call did not time out, the method also returned before the call got its result, and what it returned is the result. So calls that do not overlap take effect in their order.", "quantifier": "all executions, fair or not and with losses and crashes, of a hub and any number of docks with their callees in which the clock of a dock gives no reading twice and arguments and results survive the wire; calls of the own and of other docks", "why_tests_cant": "needs all interleavings of calls, timers, hub and routines; tests make one call at a time", "anchors": ["dock.go:call,callWithResult,OnPacket,commit", "rpc.go:call,callWithResult,invoke", "chancall/caller.go:Call,CallWithResult", "chancall/callee.go:process,result,track"]}
{"id": "C150", "title": "Features are atomic objects", "statement": "If the methods of a feature carried by one dock compute a function of their arguments and the state that earlier methods of the feature left, then callers, whatever docks they are on, see an atomic object: for each call that returns without an error there is a moment between the call and its result, different for different calls, such that the result is what the object gives when the methods are executed one at a time in the order of these moments. In particular a value read from a register is the one written last if the writing had returned before the reading began and no other writing is concurrent or in between.", "quantifier": "all executions of a hub and any number of docks, all objects, all calls by any number of callers, remote and local, all readings of clocks that differ, all values that survive the wire", "why_tests_cant": "linearizability is a statement about all interleavings of concurrent calls; tests make one call at a time", "anchors": ["dock.go:call,callWithResult,OnPacket", "rpc.go:call,callWithResult", "chancall/callee.go:run,process", "chancall/caller.go:Call,CallWithResult"]}
{"id": "C151", "title": "Failures elsewhere do not stop a call", "statement": "If a dock knows the connection to another dock for a feature that it calls, both docks keep running, nothing is lost between them and the method returns, then the call returns, whatever happens to the hub, to other docks and on other connections.", "quantifier": "all infinite executions of a hub and any number of docks in which the hub and other docks stop at any time, connections are closed by the hub, and packets of other connections are lost; goroutines that can go on do", "why_tests_cant": "stopping processes at every possible moment while calls are under way is not something tests can do", "anchors": ["dock.go:commit,OnPacket,callWithResult", "rpc.go:call,callWithResult,callback", "hub.go:OnPacket", "network/peer.go:Send,run"]}
{"id": "C152", "title": "What is read was stored, and reads agree with each other", "statement": "For a feature that stores a value, with stores and reads by any docks at the same time, some of which may fail: every read that returns without an error has a source, a store made before the read returned, or the initial value, whose value it got; the source did not return before another store was made that returned before the read was made; of two reads one after the other the second does not get an older value. For two such features: a dock that has read in the second one a value that was stored there after a store in the first one had returned, and then reads the first one, gets what was stored there.", "quantifier": "all executions of a hub and any number of docks, all stores and reads by any number of callers, remote and local, with timeouts, losses and crashes, all readings of clocks that differ, all values that survive the wire", "why_tests_cant": "consistency of reads is a statement about all interleavings of concurrent calls; tests make one call at a time", "anchors": ["dock.go:call,callWithResult,OnPacket", "rpc.go:call,callWithResult", "chancall/callee.go:run,process", "chancall/caller.go:Call,CallWithResult"]}
{"id": "C153", "title": "What was received can be sent on", "statement": "If a process reads a value that another process encoded, whatever the value was, then it can send the value it read to a third process: encoding it gives no error, and the third process reads the very same value, with the same types, and so does every further process in a chain; the elements of a list of arguments that was received can be passed on among others in the same way.", "quantifier": "all values of any nesting with lengths below 2^32 and no unsupported kinds, whether or not they survive the first transmission unchanged; all contents of the objects read into; all bytes that follow; chains of any length", "why_tests_cant": "an induction over all values, among them those that change in the first transmission, NaN keys and keys that become equal; tests send values once", "anchors": ["codec/any.go:Encode,Decode", "codec/encoder.go:encode,encodeValue,encodeMap", "codec/decoder.go:decode,decodeMap,decodeArray"]}
{"id": "C154", "title": "The generated text is the program that is meant", "statement": "The characters that the template produces, with all names inserted and escaped by html/template, are read by a Go compiler as exactly the declarations of the proxies and registrations, whatever the date is and whatever the source files are called.", "quantifier": "all sets of interfaces with identifiers as names, parameters, types and results in any number; all dates and names of source files", "why_tests_cant": "the template has no tests, and a sample shows one combination of optional parts, commas and line ends", "anchors": ["tool/ferry.gen.go:genProxyCode,gencode"]}
{"id": "C155", "title": "A feature may stand in for another", "statement": "If a method does its work by calling a method of a feature of another dock, with the arguments that it received, and returns what it gets, its caller gets what it would have got from the other feature itself: the last method in a chain of such calls is called, while the first call waits, with the arguments of the first call as they arrive anywhere, and the first call gets its results as they arrive anywhere. Only the arguments of the first call and the results of the last method have to be values that survive the wire.", "quantifier": "all executions of a hub and any number of docks with the callees of their features, fair or not, with losses and crashes, all readings of clocks that differ, chains of any length, any other calls made at the same time", "why_tests_cant": "every dock in the chain encodes, decodes and matches answers to requests, with other calls under way; tests have no chain of remote calls", "anchors": ["rpc.go:call,callWithResult,callback", "dock.go:OnPacket,callWithResult", "codec/any.go:Encode,Decode", "chancall/callee.go:run,process"]}
{"id": "C156", "title": "The proxies that are checked in are those of the sources", "statement": "Running the generator on the sources of the example gives the program that is checked in as test/proxy.gen.go, whenever it is run.", "quantifier": "all dates; the files of the directory test as they are", "why_tests_cant": "the repository has no test that runs the generator and compares", "anchors": ["tool/ferry.gen.go:main,scanFile,parseFile,genProxyCode,gencode", "test/proxy.gen.go", "test/game.go", "test/lobby.go", "test/math.go", "test/sub/login.go"]}
{"id": "C157", "title": "The methods executed are those that the OnStart functions call", "statement": "If the OnStart functions of the features make given lists of calls, then the calls in the lists and the methods started in the whole system correspond to each other one to one: each call of each list of a dock that joins has its method started exactly once, after the call, with its arguments, and no method is started otherwise. In particular the tests of the package reach their end however their features are distributed among docks: OnStart of logic returns, Log is called once with the greeting and Add once with 1 and 2.", "quantifier": "all fair executions of a hub and any number of docks in which nothing is lost, nothing stops and methods return; all lists of calls per feature, of the own dock or of others; all distributions of features; all orders in which docks join and start", "why_tests_cant": "the tests run one schedule of one distribution; that no call is lost, duplicated or executed for another is a statement about all schedules of discovery, dialling and calling", "anchors": ["dock.go:run,OnPacket,call,callWithResult", "slot.go:Call,CallWithResult", "rpc.go:call,callWithResult", "chancall/callee.go:handling,process", "ferry_test.go:TestOneDock,TestMultiDocks"]}
{"id": "C158", "title": "A text connection delivers the lines of what is sent", "statement": "On a connection with the serializer txt, whatever strings are sent, with NULs anywhere or none, the strings handed to OnPacket are the lines, each ending with its only NUL, of the strings that entered the queue put together, in order, and neither process ends; if the connection is not closed and no write fails, in every fair execution everything that Send did not discard arrives, and if one string is sent then its lines are handed up and nothing ever after. The client of TestFlow is handed two strings.", "quantifier": "all strings, all executions of a connection with any number of goroutines in Send, all ways to cut the bytes into reads, failing writes and closing (for the first part), all fair executions without them (for the rest)", "why_tests_cant": "the test sends one string and waits for two packets; that no line is lost, joined with another, cut or repeated depends on how reads cut the stream", "anchors": ["network/txt_serializer.go:Marshal,Unmarshal,Slice", "network/peer.go:Send,run", "network/API_test.go:TestFlow"]}
{"id": "C159", "title": "The test of the package network ends under every schedule", "statement": "A program in the manner of TestFlow, in which the server sends strings in OnConnected and the test waits for OnConnected of both sides and for the lines of the strings, then closes both sockets: if the first twenty strings end with a NUL and fit the receive buffer, then under every schedule it takes boundedly many steps, nothing crashes, and where nobody can go on the client has got exactly the lines of the first twenty strings, Close has returned on both sides and every goroutine has ended; unless Dial has failed after a million turns of its loop. Strings after the twentieth are lost, so that a test that waits for them never ends; without the last NUL the process can crash in Close.", "quantifier": "all strings, all counts of the wait group, all schedules of the seven goroutines, without any assumption of fairness", "why_tests_cant": "the test takes one schedule with one string; that the others end as well, and leave no goroutine behind, cannot be seen by running it", "anchors": ["network/API_test.go:TestFlow", "network/socket.go:Listen,Dial,Close", "network/peer.go:Send,run,close", "network/mock.go:Dial,Accept,Close,Read,Write", "network/txt_serializer.go:Slice"]}
{"id": "C160", "title": "With a prompt runtime the duration of the method decides the outcome of a call", "statement": "Let callers not be shared and let time pass only when timers, handlers with a result, channel sends and callers have done what they can.  If the method of a call has returned r before the end of the timeout, counted from its start in whole seconds, then the call returns exactly r, and has done so when the clock has moved on.  If the method has not returned after the end of the timeout, the call has returned the timeout error and keeps it.  Hence the test with the timeout (0.1 seconds, a method of two seconds) does not fail, and the timeout in it is in fact none at all.  Without a prompt runtime the test can fail.", "quantifier": "all targets, all executions with unshared callers and a prompt runtime, all calls and timeouts; for the test all schedules of its goroutines and all durations of the method from two seconds", "why_tests_cant": "the test runs one schedule on one machine and sleeps two seconds; it cannot tell a timeout of 0.1 seconds from one of 0, and says nothing of methods that end near the timeout", "anchors": ["chancall/API_test.go:TestTimeout", "chancall/callee.go:SetTimeout,process,result,track", "chancall/meta.go:timeout,setTimeout"]}
{"id": "C161", "title": "The goroutine of a timeout lives as long as the timeout, also if the call has returned", "statement": "The goroutine started for the timeout of a call is there from the start of the method until at least the end of the timeout, whatever has become of the call.  With unshared callers and a prompt runtime it is gone after the end of the timeout.  In every fair execution it ends.  Hence no goroutine is leaked for ever, but their number is not bounded by the calls in progress: for every N there is an execution in which one goroutine has made N calls, one after another, all have returned results, and the N goroutines are all still there.", "quantifier": "all targets, executions, calls and timeouts; all fair executions; all N", "why_tests_cant": "the tests look at the results of calls, not at the goroutines left behind, and make at most three calls", "anchors": ["chancall/callee.go:process,track,result"]}
{"id": "C162", "title": "A goroutine that makes one call after another comes to the end of its list", "statement": "In every fair execution in which methods return, a goroutine that makes the calls of a list one after another, on one callee and with one caller object, as the test of normal calls does, comes to its end: from some point on all calls of the list have been made and have returned, the i-th with what its own method returned or, no earlier than its timeout after the start of its method, with the timeout error; and the methods have been executed one after another, each exactly once, in the order of the list, also those whose calls had timed out.", "quantifier": "all targets, all lists of calls, all fair executions with this goroutine as the only caller, all durations of methods", "why_tests_cant": "the test makes three calls that do not time out, prints what they return and checks nothing", "anchors": ["chancall/API_test.go:TestNormalCall", "chancall/caller.go:Call,CallWithResult", "chancall/callee.go:handling,process,result,track"]}
{"id": "C163", "title": "A request in the queue of a callee waits for at most two methods", "statement": "Let callers not be shared, let only methods take time (time passes only when the goroutines of the package and the callers have done what they can), and let no method take longer than D.  A request that has entered the queue of its callee is started no later than 2 D after that, and its call returns no later than 3 D after that, and no later than 2 D and its timeout, however many other calls wait for room in the queue.  Both bounds are met by an execution.", "quantifier": "all targets, all D, all executions with unshared callers in which only methods take time, any number of goroutines and callees", "why_tests_cant": "the tests never have two requests in one queue; the bound comes from the capacity of the channel and from the order in which the handler takes requests, and the timeout, which starts with the method, does not give it", "anchors": ["chancall/API.go:NewCallee", "chancall/caller.go:Call,CallWithResult", "chancall/callee.go:handling,process,result,track"]}
{"id": "C164", "title": "A call waits for the methods of its callee and for nothing else", "statement": "Let callers not be shared, let only methods take time, and let no method take longer than D.  While a call that has been made has not returned, the time that has passed since some moment after it was made is at most D for every call of the same callee whose method had not returned at that moment, itself and calls made later included: also a goroutine that waits for room in the queue of the callee waits for nothing but these methods, and calls of other callees do not delay it.", "quantifier": "all targets, all D, all executions with unshared callers in which only methods take time, any number of goroutines and callees", "why_tests_cant": "the tests make one call at a time; that a callee is never idle while somebody waits for it, in every order in which goroutines enter the queue, cannot be seen from runs", "anchors": ["chancall/API.go:NewCallee", "chancall/caller.go:Call,CallWithResult", "chancall/callee.go:handling,process,result,track"]}
{"id": "C165", "title": "With goroutines served in order a call waits only for calls made before it", "statement": "Let callers not be shared, let only methods take time, let no method take longer than D, and let goroutines get room in the queue of a callee in the order of their calls, as Go serves the senders that wait for a channel.  While a call that has been made has not returned, the time that has passed since some moment after it was made is at most D for every call of the same callee made no later than it whose method had not returned at that moment.  Calls made later, by however many goroutines, do not delay it.", "quantifier": "all targets, all D, all executions with unshared callers in which only methods take time and goroutines are served in order, any number of goroutines and callees", "why_tests_cant": "a test would have to fill the queue and have many goroutines go on making calls; it would see one order of them", "anchors": ["chancall/API.go:NewCallee", "chancall/caller.go:Call,CallWithResult", "chancall/callee.go:handling,process,result,track"]}

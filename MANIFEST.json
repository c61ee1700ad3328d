{
 "claims": [
  {
   "property": "C01",
   "status": "proved",
   "theorems": [
    "Verif.Props.C01_int_roundtrip",
    "Verif.Props.C01_uint_roundtrip"
   ],
   "note": "every predeclared integer type and every value, any following bytes, any prior content of the object decoded into; uintptr is read back with Uint"
  },
  {
   "property": "C02",
   "status": "partial",
   "theorems": [
    "Verif.Props.C02_float_roundtrip_refuted",
    "Verif.Props.C02_float64_roundtrip_partial",
    "Verif.Props.C02_float32_roundtrip_partial",
    "Verif.Props.C02_float_crash_zone"
   ],
   "note": "the code violates the full statement: a float64 with bit pattern below 2^32 or a float32 below 2^16 (so 0.0) makes Decode panic (refuted, and shown exact by C02_float_crash_zone); the round trip is proved for all other bit patterns"
  },
  {
   "property": "C03",
   "status": "proved",
   "theorems": [
    "Verif.Props.C03_string_roundtrip"
   ],
   "note": "all byte strings shorter than 2^32"
  },
  {
   "property": "C04",
   "status": "partial",
   "theorems": [
    "Verif.Props.C04_nested_roundtrip_refuted",
    "Verif.Props.C04_nested_roundtrip_partial",
    "Verif.Props.C04_received_type",
    "Verif.Props.C04_exact",
    "Verif.Props.C04_never_by_chance"
   ],
   "note": "refuted by a slice holding a zero float; proved exactly for the values with topOK (C04_exact is an equivalence): no float in the crash zone, scalar map keys that stay distinct on the wire, nil below a NaN key, lengths below 2^32, nothing unsupported"
  },
  {
   "property": "C05",
   "status": "partial",
   "theorems": [
    "Verif.Props.C05_self_delimiting_refuted",
    "Verif.Props.C05_self_delimiting_partial",
    "Verif.Props.C05_sequence_content_partial",
    "Verif.Props.C05_sequence_exact"
   ],
   "note": "refuted by a zero float in the sequence; proved for sequences whose values each decode when alone; with their contents they come back exactly if every value has topOK (C05_sequence_exact is an equivalence)"
  },
  {
   "property": "C06",
   "status": "partial",
   "theorems": [
    "Verif.Props.C06_prefix_free",
    "Verif.Props.C06_unambiguous_refuted",
    "Verif.Props.C06_unambiguous_partial",
    "Verif.Props.C06_seen",
    "Verif.Props.C06_exact"
   ],
   "note": "prefix-freeness is proved for all supported values with lengths below 2^32. Unambiguity of contents is refuted for maps with NaN keys and proved for values without NaN inside map keys; for all values, equal encodings mean that everything a lookup finds is equal (C06_seen), and for slices, arrays and maps this is exact (C06_exact)"
  },
  {
   "property": "C07",
   "status": "partial",
   "theorems": [
    "Verif.Props.C07_decode_no_crash_refuted",
    "Verif.Props.C07_decode_no_crash_partial",
    "Verif.Props.C07_decode_encoded_partial",
    "Verif.Props.C07_crash_exact_partial"
   ],
   "note": "Refuted: Decode panics on a float tag whose payload is not the expected width and on an unhashable map key. Proved: exactly which inputs crash it (C07_crash_exact_partial), a grammar on tags and counts; that inputs without a float or map tag byte and encodings of values with topOK do not."
  },
  {
   "property": "C08",
   "status": "proved",
   "theorems": [
    "Verif.Props.C08_decode_terminates"
   ],
   "note": "for a reader over a byte sequence"
  },
  {
   "property": "C09",
   "status": "partial",
   "theorems": [
    "Verif.Props.C09_truncated_rejected_refuted",
    "Verif.Props.C09_truncated_uint16_accepted",
    "Verif.Props.C09_truncated_rejected_partial",
    "Verif.Props.C09_truncated_exact_partial",
    "Verif.Props.C09_truncated_rejected_all_refuted"
   ],
   "note": "refuted for every value whose encoding is longer than two bytes (lists and maps: of fewer than 2^24 elements): some proper prefix is accepted; C09_truncated_exact_partial says for every proper prefix of the encoding of every value with topOK whether it is rejected (with EOF) or accepted"
  },
  {
   "property": "C10",
   "status": "partial",
   "theorems": [
    "Verif.Props.C10_chunk_independence_refuted",
    "Verif.Props.C10_chunk_independence_partial",
    "Verif.Props.C10_served_partial",
    "Verif.Props.C10_writes_partial"
   ],
   "note": "refuted for a piece boundary inside a payload; proved whenever every read of the decoder is served by one piece, in particular when the value lies entirely in the first piece and when each piece is one Write call of the encoder"
  },
  {
   "property": "C11",
   "status": "proved",
   "theorems": [
    "Verif.Props.C11_encode_error_iff",
    "Verif.Props.C11_encode_no_other_error"
   ],
   "note": ""
  },
  {
   "property": "C12",
   "status": "proved",
   "theorems": [
    "Verif.Props.C12_uint_size",
    "Verif.Props.C12_uint_canonical",
    "Verif.Props.C12_int_size",
    "Verif.Props.C12_least_values",
    "Verif.Props.C12_int_canonical"
   ],
   "note": "statement corrected after the model showed the least values of int8, int16, int32 to be exceptions (C12_least_values)"
  },
  {
   "property": "C13",
   "status": "partial",
   "theorems": [
    "Verif.Props.C13_order_independence_refuted",
    "Verif.Props.C13_order_independence_partial",
    "Verif.Props.C13_lookup_partial"
   ],
   "note": "refuted: with keys int8(1) and int16(1) the last entry written wins; proved for values with topOK, maps reordered at any depth"
  },
  {
   "property": "C14",
   "status": "partial",
   "theorems": [
    "Verif.Props.C14_map_entries_exact",
    "Verif.Props.C14_map_entries_refuted",
    "Verif.Props.C14_map_entries_partial"
   ],
   "note": "refuted (merged keys, value under a NaN key lost, composite key crashes the reader); proved exactly for the maps whose keys are scalars that stay distinct on the wire and whose values survive (wireOK; C14_map_entries_exact is an equivalence)"
  },
  {
   "property": "C15",
   "status": "partial",
   "theorems": [
    "Verif.Props.C15_msgpack_refuted",
    "Verif.Props.C15_msgpack_partial"
   ],
   "note": "refuted for every float, whose payload carries a second tag; proved for all values without floats against an independent grammar of the format"
  },
  {
   "property": "C16",
   "status": "proved",
   "theorems": [
    "Verif.Props.C16_accessors"
   ],
   "note": "all inputs, all prior contents of the object, all accessors"
  },
  {
   "property": "C17",
   "status": "partial",
   "theorems": [
    "Verif.Props.C17_integer_accessors_refuted",
    "Verif.Props.C17_signed_partial",
    "Verif.Props.C17_unsigned_partial",
    "Verif.Props.C17_int64_exact"
   ],
   "note": "refuted: narrow accessors wrap around silently; proved when the integer fits the accessor, and always for Int, Int64, Uint, Uint64"
  },
  {
   "property": "C18",
   "status": "partial",
   "theorems": [
    "Verif.Props.C18_fresh_refuted",
    "Verif.Props.C18_fresh_partial"
   ],
   "note": "refuted for int, uint and for slices and maps of other types than those Arr and Map assert; proved for all other types"
  },
  {
   "property": "C19",
   "status": "partial",
   "theorems": [
    "Verif.Props.C19_failed_decode_refuted",
    "Verif.Props.C19_failed_decode_partial",
    "Verif.Props.C19_failed_decode_exact"
   ],
   "note": "refuted: the tag of the previous value stays; proved for objects without previous value, and shown exact"
  },
  {
   "property": "C20",
   "status": "proved",
   "theorems": [
    "Verif.Props.C20_float32_roundtrip",
    "Verif.Props.C20_nan",
    "Verif.Props.C20_float32_map_roundtrip",
    "Verif.Props.C20_widen_exact"
   ],
   "note": "elements of a list and values of a map, all float32 other than NaN and +0"
  },
  {
   "property": "C21",
   "status": "partial",
   "theorems": [
    "Verif.Props.C21_packet_roundtrip_refuted",
    "Verif.Props.C21_packet_roundtrip_partial",
    "Verif.Props.C21_control_packets",
    "Verif.Props.C21_exact"
   ],
   "note": "violated for RPC payloads the codec does not round-trip, e.g. float64(0) crashes the receiver (refuted); proved for the seven packet types without payload without side condition, and for RPC packets exactly if the arguments/results are wireOK (C21_exact is an equivalence); body below 2^32 bytes"
  },
  {
   "property": "C22",
   "status": "proved",
   "theorems": [
    "Verif.Props.C22_frame_boundaries",
    "Verif.Props.C22_slice_bound",
    "Verif.Props.C22_oversized_frame"
   ],
   "note": "any packet that marshals, any following bytes, every cut point; body below 2^32 bytes, and C22_oversized_frame shows the limit is needed"
  },
  {
   "property": "C23",
   "status": "proved",
   "theorems": [
    "Verif.Props.C23_reassembly",
    "Verif.Props.C23_reassembly_prefix"
   ],
   "note": "any list of packets (payload wireOK, below 2^32 bytes), any cut of the byte stream into reads; both for whole streams with an incomplete tail and for every prefix of a stream"
  },
  {
   "property": "C24",
   "status": "partial",
   "theorems": [
    "Verif.Props.C24_malformed_frame_refuted",
    "Verif.Props.C24_malformed_frame_partial"
   ],
   "note": "violated: five concrete frames kill the process; C24_malformed_frame_partial is an exact characterisation (iff) of the frames that are survived"
  },
  {
   "property": "C25",
   "status": "proved",
   "theorems": [
    "Verif.Props.C25_text_framing",
    "Verif.Props.C25_proviso_needed"
   ],
   "note": "with the proviso of the statement; C25_proviso_needed shows what happens without it"
  },
  {
   "property": "C26",
   "status": "proved",
   "theorems": [
    "Verif.Props.C26_identifiers",
    "Verif.Props.C26_identifier_sent",
    "Verif.Props.C26_maker"
   ],
   "note": "all 256 identifiers; whatever unmarshal builds has the type its identifier names; the identifier sent is the one received"
  },
  {
   "property": "C27",
   "status": "proved",
   "theorems": [
    "Verif.Props.C27_send_order",
    "Verif.Props.C27_send_drops_iff"
   ],
   "note": "For every interleaving of check/push/transmit/receive actions on one direction of a connection."
  },
  {
   "property": "C28",
   "status": "proved",
   "theorems": [
    "Verif.Props.C28_end_to_end",
    "Verif.Props.C28_end_to_end_text"
   ],
   "note": "For packets satisfying Sendable (those the serializer encodes and the receiver frames); both serializers."
  },
  {
   "property": "C29",
   "status": "partial",
   "theorems": [
    "Verif.Props.C29_send_blocks_refuted",
    "Verif.Props.C29_send_never_blocks_partial"
   ],
   "note": "Refuted as stated: two overlapping Sends can pass the length check together and one blocks. Proved when Sends do not overlap."
  },
  {
   "property": "C30",
   "status": "proved",
   "theorems": [
    "Verif.Props.C30_closed_at_most_once",
    "Verif.Props.C30_closed_exactly_once",
    "Verif.Props.C30_accept_race"
   ],
   "note": "Exactly once by the time Close returns, for all interleavings of overlapping Close calls; connections are not made during a Close. At most once holds without that restriction. C30_accept_race shows a connection accepted during Close is lost and never reported."
  },
  {
   "property": "C31",
   "status": "partial",
   "theorems": [
    "Verif.Props.C31_remote_disconnect_refuted"
   ],
   "note": "Refuted: without a local close OnClosed is never called, in no continuation of a remote disconnect."
  },
  {
   "property": "C32",
   "status": "partial",
   "theorems": [
    "Verif.Props.C32_no_delivery_refuted",
    "Verif.Props.C32_no_delivery_partial"
   ],
   "note": "Refuted (panic on the nil sink; delivery after close returned). Proved: at most one delivery after close, and none and no crash unless the receive routine was between its test of the sink and the call."
  },
  {
   "property": "C33",
   "status": "partial",
   "theorems": [
    "Verif.Props.C33_byte_stream_refuted",
    "Verif.Props.C33_long_write_truncated",
    "Verif.Props.C33_byte_stream_partial"
   ],
   "note": "Refuted for writes longer than the read buffer. Proved when no write exceeds the read buffers."
  },
  {
   "property": "C34",
   "status": "partial",
   "theorems": [
    "Verif.Props.C34_paired",
    "Verif.Props.C34_dialled",
    "Verif.Props.C34_unique_address_partial",
    "Verif.Props.C34_unique_address_refuted"
   ],
   "note": "Pairing and remote address proved for all executions. Uniqueness of local addresses refuted (reset; overlapping dials) and proved without reset and without overlapping increments of the counter."
  },
  {
   "property": "C35",
   "status": "proved",
   "theorems": [
    "Verif.Props.C35_one_answer"
   ],
   "note": "In every execution of the model of callers, callees and timers: at most one answer per request, done iff answered, never both a result and a timeout, every returned answer is a recorded one and no answer is returned twice."
  },
  {
   "property": "C36",
   "status": "proved",
   "theorems": [
    "Verif.Props.C36_own_answer"
   ],
   "note": "Under the property's own hypothesis (no call on a caller object before the earlier ones on it returned): a call returns the answer to itself, and a result is what the method invocation for this request returned."
  },
  {
   "property": "C37",
   "status": "partial",
   "theorems": [
    "Verif.Props.C37_shared_caller_refuted",
    "Verif.Props.C37_permuted_partial",
    "Verif.Props.C37_single_partial"
   ],
   "note": "Refuted: an execution in which two goroutines share a caller object and each gets the other's result (C37_shared_caller_refuted). Proved: however a caller is shared, no answer is returned twice and the answers are those to its calls, permuted (C37_permuted_partial); a caller object whose own calls do not overlap gets its own answers whatever is done with others (C37_single_partial)."
  },
  {
   "property": "C38",
   "status": "proved",
   "theorems": [
    "Verif.Props.C38_serial_fifo"
   ],
   "note": "The log of each callee's handler is a prefix of treating the requests one by one in the order in which they entered the queue; each enters once; unless the process died exactly the queued ones are unstarted."
  },
  {
   "property": "C39",
   "status": "proved",
   "theorems": [
    "Verif.Props.C39_started_call_can_finish"
   ],
   "note": "From every reachable state with unshared callers and a living process, ticks followed by timer, channel and caller actions only (no action of the method body) make a started call return."
  },
  {
   "property": "C40",
   "status": "partial",
   "theorems": [
    "Verif.Props.C40_bounded_after_start_partial",
    "Verif.Props.C40_bounded_refuted"
   ],
   "note": "Refuted: for every N an execution with a prompt runtime in which a queued call has not returned after N ns (C40_bounded_refuted). Proved part: under a prompt runtime a call has returned when the timeout has elapsed since its method started."
  },
  {
   "property": "C41",
   "status": "partial",
   "theorems": [
    "Verif.Props.C41_reentrant_deadlock",
    "Verif.Props.C41_other_callee_partial",
    "Verif.Props.C41_reentrant_refuted"
   ],
   "note": "Refuted for all continuations: a method waiting for a call on its own callee waits forever and the callee never does anything again (C41_reentrant_deadlock, reached in C41_reentrant_refuted). Proved part: a method waiting for a call already started (hence on another callee) can always be released by the timeout."
  },
  {
   "property": "C42",
   "status": "partial",
   "theorems": [
    "Verif.Props.C42_not_early_partial",
    "Verif.Props.C42_not_early_refuted",
    "Verif.Props.C42_long_timeout_refuted"
   ],
   "note": "Refuted: 0.1 s times out after 0 ns; 10^10 s wraps around and times out after 0 ns. Proved part: for timeouts below 9223372037 s, not before the whole seconds of the timeout have passed since the start of the method."
  },
  {
   "property": "C43",
   "status": "proved",
   "theorems": [
    "Verif.Props.C43_last_setting_wins"
   ],
   "note": "The timeout applied at the start of a method is the last one set for this method of this callee before, or one second; unknown methods always have one second."
  },
  {
   "property": "C44",
   "status": "partial",
   "theorems": [
    "Verif.Props.C44_never_reported",
    "Verif.Props.C44_unknown_method_refuted"
   ],
   "note": "Refuted: in every execution a call of an unknown method is answered with nil and no error, or with the timeout error (C44_never_reported), and the former happens (C44_unknown_method_refuted)."
  },
  {
   "property": "C45",
   "status": "partial",
   "theorems": [
    "Verif.Props.C45_wrong_arguments_kill",
    "Verif.Props.C45_wrong_arguments_refuted",
    "Verif.Props.C45_right_arguments_accepted"
   ],
   "note": "Refuted for all methods and arguments: wrong number, nil or inconvertible arguments kill the process (C45_wrong_arguments_kill, C45_wrong_arguments_refuted). Proved part: arguments of the right number and classes are accepted. Conversions between composite types and of floats beyond the range of the integers are a parameter of the model (C133 for numbers)."
  },
  {
   "property": "C46",
   "status": "proved",
   "theorems": [
    "Verif.Props.C46_integer_arguments"
   ],
   "note": "For every integer argument and every integer parameter type that can represent it, locally and after marshalling and unmarshalling the request, for requests whose other arguments survive the codec and whose body is below 2^32 bytes."
  },
  {
   "property": "C47",
   "status": "proved",
   "theorems": [
    "Verif.Props.C47_ports_unique",
    "Verif.Props.C47_ports_in_range"
   ],
   "note": "For all executions of the hub model (any peers, packets, black lists and interleavings): two register requests of peers whose addresses have the same host part get different ports; every port is in 20001..49000 and not black-listed."
  },
  {
   "property": "C48",
   "status": "proved",
   "theorems": [
    "Verif.Props.C48_nth_free_port",
    "Verif.Props.C48_exit"
   ],
   "note": "The n-th port given to a host (as seen by pickIP) is the n-th port above 20000 that is not black-listed; the hub dies in a step exactly if the step is a register request whose host's next such port is above 49000."
  },
  {
   "property": "C49",
   "status": "partial",
   "theorems": [
    "Verif.Props.C49_response_was_offered",
    "Verif.Props.C49_answer_was_offered",
    "Verif.Props.C49_newest_partial",
    "Verif.Props.C49_newest_refuted"
   ],
   "note": "Proved: the address was offered (registered, then reported ready) for the queried slot before the response; among the entries present when the routine began its last search none later was ready then (C49_newest_partial). Refuted for the moment of the answer itself: the search is not atomic (C49_newest_refuted)."
  },
  {
   "property": "C50",
   "status": "proved",
   "theorems": [
    "Verif.Props.C50_never_withdrawn",
    "Verif.Props.C50_answered_at_next_look",
    "Verif.Props.C50_not_before"
   ],
   "note": "Entries keep place, peer, address and readiness; once a dock is offered and its packet handled, a query that looks never needs to look again, needs at most entries + 1 further steps and can always take the next one; no answer before."
  },
  {
   "property": "C51",
   "status": "proved",
   "theorems": [
    "Verif.Props.C51_isolated"
   ],
   "note": "For all states and all executions in which only packets of one peer are handled (and any steps of query routines): the entries of other peers are unchanged and in the same order, the counters of other hosts are unchanged."
  },
  {
   "property": "C52",
   "status": "partial",
   "theorems": [
    "Verif.Props.C52_dead_dock_refuted",
    "Verif.Props.C52_close_changes_nothing",
    "Verif.Props.C52_alive_when_ready_partial"
   ],
   "note": "Refuted: a query arriving after the only dock has disconnected is answered with its address (C52_dead_dock_refuted), because the end of a connection changes nothing at the hub (C52_close_changes_nothing). Proved: the dock was still connected when it registered and when it reported ready (C52_alive_when_ready_partial)."
  },
  {
   "property": "C53",
   "status": "partial",
   "theorems": [
    "Verif.Props.C53_host_partial",
    "Verif.Props.C53_recorded_partial",
    "Verif.Props.C53_host_refuted"
   ],
   "note": "Refuted for hosts with a colon, e.g. [::1]:80. Proved: the host is right exactly if it contains no colon, and then the recorded address is host:port with the allocated port."
  },
  {
   "property": "C54",
   "status": "proved",
   "theorems": [
    "Verif.Props.C54_invoked",
    "Verif.Props.C54_no_packet",
    "Verif.Props.C54_call_sends_nothing"
   ],
   "note": "C54_invoked: the local invocations in the history are exactly the calls to hosted names, in order (which feature: C68_last_wins). C54_no_packet: no query or request for a hosted name ever leaves the dock. C54_call_sends_nothing: the call itself sends no packet. The run of the method itself is the subject of C35-C46."
  },
  {
   "property": "C55",
   "status": "proved",
   "theorems": [
    "Verif.Props.C55_at_most_once",
    "Verif.Props.C55_by_index"
   ],
   "note": "C55_at_most_once: in every interleaving the request packets sent are those of pairwise distinct calls; C55_by_index states the same by packet index. Map operations and peer.Send are atomic in the model."
  },
  {
   "property": "C56",
   "status": "proved",
   "theorems": [
    "Verif.Props.C56_own_response",
    "Verif.Props.C56_once"
   ],
   "note": "C56_own_response (no assumption on indices needed) and C56_once (the result never changes). Mixing under equal indices is C57."
  },
  {
   "property": "C57",
   "status": "partial",
   "theorems": [
    "Verif.Props.C57_mixed_refuted",
    "Verif.Props.C57_lost_refuted",
    "Verif.Props.C57_distinct_partial"
   ],
   "note": "Refuted: the index is a clock reading; with equal readings one call returns the answer of the other (C57_mixed_refuted) and the other never returns (C57_lost_refuted). Proved: a call whose reading differs from those of all others returns a response with its index, and no other request with this index has been sent (C57_distinct_partial)."
  },
  {
   "property": "C58",
   "status": "partial",
   "theorems": [
    "Verif.Props.C58_nil_refuted",
    "Verif.Props.C58_handlers_refuted",
    "Verif.Props.C58_socket_refuted",
    "Verif.Props.C58_exclusive_partial"
   ],
   "note": "Refuted in three ways: caller and ready handler commit the same call (nil dereference), two ready handlers do, and sockets[0] need not be the hub. C58_exclusive_partial: if no ready handler starts on a call somebody else is about to commit, the request is never nil. Go's abort on concurrent map access is not modelled."
  },
  {
   "property": "C59",
   "status": "proved",
   "theorems": [
    "Verif.Props.C59_advertised",
    "Verif.Props.C59_distinct_names"
   ],
   "note": "C59_advertised for all feature lists incl. duplicate names (the last one counts); C59_distinct_names spells it out for distinct names."
  },
  {
   "property": "C60",
   "status": "partial",
   "theorems": [
    "Verif.Props.C60_hidden_refuted",
    "Verif.Props.C60_only_asked_partial",
    "Verif.Props.C60_honest_partial"
   ],
   "note": "Refuted: requests for non-discoverable features are executed if a peer sends them (C60_hidden_refuted). C60_only_asked_partial: only what was asked for is executed, each request at most once. C60_honest_partial: in a system of unmodified hub and docks no hidden feature is executed for a peer."
  },
  {
   "property": "C61",
   "status": "proved",
   "theorems": [
    "Verif.Props.C61_routed",
    "Verif.Props.C61_executed"
   ],
   "note": "C61_routed: every request sent goes to a dock that carries the feature as discoverable. C61_executed: the executions started at a dock are, in order, exactly those of the requests that arrived, each for a discoverable feature."
  },
  {
   "property": "C62",
   "status": "proved",
   "theorems": [
    "Verif.Props.C62_listening",
    "Verif.Props.C62_sent"
   ],
   "note": "C62_listening, C62_sent: an answered query names the address of a dock that carries the feature as discoverable and has opened its listener there."
  },
  {
   "property": "C63",
   "status": "partial",
   "theorems": [
    "Verif.Props.C63_at_most_once",
    "Verif.Props.C63_genuine_partial",
    "Verif.Props.C63_genuine_distinct_partial",
    "Verif.Props.C63_mixed_refuted"
   ],
   "note": "C63_at_most_once: executions can be attributed injectively to calls, with no assumption (first half, in full). Second half: C63_genuine_partial attributes the result to an execution of a call with the same index; C63_genuine_distinct_partial to the call itself if clock readings are distinct and values survive the wire; C63_mixed_refuted refutes it when two clock readings coincide."
  },
  {
   "property": "C64",
   "status": "partial",
   "theorems": [
    "Verif.Props.C64_no_timeout_refuted",
    "Verif.Props.C64_lost_refuted",
    "Verif.Props.C64_dial_refuted",
    "Verif.Props.C64_answered_partial",
    "Verif.Props.C64_dead_dock_refuted"
   ],
   "note": "Refuted: a call without response never returns (C64_no_timeout_refuted, C64_lost_refuted), and dialling a dock that is gone ends the process (C64_dial_refuted). C64_answered_partial: once a response arrives the call can return, with no further steps of others, if its index is unique. C64_dead_dock_refuted: in a system, a call whose request went to a dock that stopped before receiving it never returns."
  },
  {
   "property": "C65",
   "status": "partial",
   "theorems": [
    "Verif.Props.C65_arguments_partial",
    "Verif.Props.C65_result_content_partial",
    "Verif.Props.C65_interface_refuted",
    "Verif.Props.C65_slice_refuted",
    "Verif.Props.C65_zero_refuted",
    "Verif.Props.C65_result_type_refuted"
   ],
   "note": "Refuted: interface{} parameters and results change their type, slices are not convertible any more, float64(0) kills the receiver. Proved for parameters of basic types with scalar arguments that survive the codec (the parameters are identical) and, for results, equality of content."
  },
  {
   "property": "C66",
   "status": "partial",
   "theorems": [
    "Verif.Props.C66_local",
    "Verif.Props.C66_returned_partial",
    "Verif.Props.C66_exact",
    "Verif.Props.C66_panics_refuted",
    "Verif.Props.C66_zero_refuted"
   ],
   "note": "Refuted: for results of type int, uint, uintptr, float32 and all named basic types the proxy always panics. Proved for bool, string and float64 results that survive the codec; C66_exact characterises all basic types."
  },
  {
   "property": "C67",
   "status": "partial",
   "theorems": [
    "Verif.Props.C67_same_partial",
    "Verif.Props.C67_kept",
    "Verif.Props.C67_unregistered",
    "Verif.Props.C67_overlap_refuted",
    "Verif.Props.C67_wrong_maker_refuted"
   ],
   "note": "Proved for visits of one slot and name that do not overlap, for names never registered, and for slots that already have a visitor (any interleaving). Refuted for overlapping visits and for makers of a wrong type."
  },
  {
   "property": "C68",
   "status": "proved",
   "theorems": [
    "Verif.Props.C68_last_wins",
    "Verif.Props.C68_others_unaffected"
   ],
   "note": "C68_last_wins: every invocation, local or remote, is of the last feature carried under the name; C68_others_unaffected."
  },
  {
   "property": "C69",
   "status": "partial",
   "theorems": [
    "Verif.Props.C69_once_partial",
    "Verif.Props.C69_reverse_partial",
    "Verif.Props.C69_second",
    "Verif.Props.C69_features",
    "Verif.Props.C69_sockets",
    "Verif.Props.C69_lost_refuted",
    "Verif.Props.C69_double_refuted",
    "Verif.Props.C69_duplicate_refuted",
    "Verif.Props.C69_late_socket_refuted"
   ],
   "note": "Proved when Startup, Serve and Close do not overlap with a Close (order, once, no panic); OnDestroy once per feature and reverse order of sockets in all interleavings. Refuted: overlapping calls lose an instance or panic, duplicate names are not destroyed, sockets opened during Close are not closed."
  },
  {
   "property": "C70",
   "status": "partial",
   "theorems": [
    "Verif.Props.C70_set_partial",
    "Verif.Props.C70_exact_partial",
    "Verif.Props.C70_nan_refuted",
    "Verif.Props.C70_unhashable_refuted"
   ],
   "note": "Proved for items that are nil or of a comparable type without NaN; refuted for NaN and for unhashable items. C70_exact_partial says what happens for all sequences of items that do not panic, NaN included."
  },
  {
   "property": "C71",
   "status": "partial",
   "theorems": [
    "Verif.Props.C71_forward_partial",
    "Verif.Props.C71_one_per_field",
    "Verif.Props.C71_grouped_refuted",
    "Verif.Props.C71_receiver_refuted",
    "Verif.Props.C71_rejected"
   ],
   "note": "Refuted for parameters that share a type (x, y int) and for a parameter called p; proved when every parameter has its own type."
  },
  {
   "property": "C72",
   "status": "partial",
   "theorems": [
    "Verif.Props.C72_exact",
    "Verif.Props.C72_defaults_partial",
    "Verif.Props.C72_string_refuted"
   ],
   "note": "C72_exact gives the exact set of result types that get a valid literal; refuted for string, byte, rune, uintptr and the complex types."
  },
  {
   "property": "C73",
   "status": "proved",
   "theorems": [
    "Verif.Props.C73_unknown_tag_rejected"
   ],
   "note": "All byte sequences at top level; as an array element behind any list of encodable values."
  },
  {
   "property": "C74",
   "status": "proved",
   "theorems": [
    "Verif.Props.C74_register_responses",
    "Verif.Props.C74_query_responses",
    "Verif.Props.C74_at_most_one_each"
   ],
   "note": "For all executions of the hub model; packets handed to peer.Send count as sent."
  },
  {
   "property": "C75",
   "status": "partial",
   "theorems": [
    "Verif.Props.C75_duplicate_refuted",
    "Verif.Props.C75_single_response_partial",
    "Verif.Props.C75_honest_partial"
   ],
   "note": "Refuted: a duplicated response can hit a closed channel and panic. C75_single_response_partial: with at most one response per index the channel is open and empty. C75_honest_partial: in a system of unmodified processes this holds if the clock readings of the dock are distinct."
  },
  {
   "property": "C76",
   "status": "proved",
   "theorems": [
    "Verif.Props.C76_ready_wakes"
   ],
   "note": "C76_ready_wakes, for all interleavings and map iteration orders."
  },
  {
   "property": "C77",
   "status": "partial",
   "theorems": [
    "Verif.Props.C77_two_connections_refuted",
    "Verif.Props.C77_counted_partial"
   ],
   "note": "Refuted: two calls of one remote feature lead to two connections (C77_two_connections_refuted). Proved: the dock opens no more connections than it has received query responses (C77_counted_partial)."
  },
  {
   "property": "C78",
   "status": "partial",
   "theorems": [
    "Verif.Props.C78_results_partial",
    "Verif.Props.C78_grouped_refuted"
   ],
   "note": "Refuted for results that share a type; proved otherwise."
  },
  {
   "property": "C79",
   "status": "proved",
   "theorems": [
    "Verif.Props.C79_no_conflict"
   ],
   "note": "C79_no_conflict"
  },
  {
   "property": "C80",
   "status": "proved",
   "theorems": [
    "Verif.Props.C80_dial"
   ],
   "note": "C80_dial: a dock listens there and it is the only one."
  },
  {
   "property": "C81",
   "status": "partial",
   "theorems": [
    "Verif.Props.C81_causes_partial",
    "Verif.Props.C81_race_refuted",
    "Verif.Props.C81_clock_refuted",
    "Verif.Props.C81_payload_refuted"
   ],
   "note": "Refuted in systems without outside failures: a call is committed twice (C81_race_refuted), two calls with one clock reading (C81_clock_refuted), an argument 0.0 (C81_payload_refuted). C81_causes_partial lists all causes: besides these, a failing dial, a stop from outside, and a call before the first socket is stored."
  },
  {
   "property": "C82",
   "status": "proved",
   "theorems": [
    "Verif.Props.C82_at_most_one",
    "Verif.Props.C82_own_result"
   ],
   "note": "C82_at_most_one counts responses against requests per peer and index; C82_own_result relates contents."
  },
  {
   "property": "C83",
   "status": "proved",
   "theorems": [
    "Verif.Props.C83_direct"
   ],
   "note": "For calls whose request is still set (req), as commit panics otherwise (C58)."
  },
  {
   "property": "C84",
   "status": "proved",
   "theorems": [
    "Verif.Props.C84_forgotten"
   ],
   "note": ""
  },
  {
   "property": "C85",
   "status": "proved",
   "theorems": [
    "Verif.Props.C85_answered"
   ],
   "note": "Counts calls of Send; delivery is C61 to C63."
  },
  {
   "property": "C86",
   "status": "proved",
   "theorems": [
    "Verif.Props.C86_ends",
    "Verif.Props.C86_not_stuck"
   ],
   "note": "A Dial in progress is ended by the network, which the model lets fail or succeed at any time."
  },
  {
   "property": "C87",
   "status": "partial",
   "theorems": [
    "Verif.Props.C87_starts_partial",
    "Verif.Props.C87_reachable",
    "Verif.Props.C87_twice_refuted",
    "Verif.Props.C87_early_refuted",
    "Verif.Props.C87_once_honest_partial"
   ],
   "note": "Start means the statement go d.start(). C87_starts_partial: starts equal register responses received; C87_once_honest_partial: at most one in a system of unmodified processes; C87_reachable: the dock listens and has sent ready before. Refuted: a second register response starts the features again (C87_twice_refuted); a peer that connects in between has its request executed before the start (C87_early_refuted)."
  },
  {
   "property": "C88",
   "status": "partial",
   "theorems": [
    "Verif.Props.C88_waits",
    "Verif.Props.C88_no_listener_refuted",
    "Verif.Props.C88_closed_listener_refuted",
    "Verif.Props.C88_returns_partial"
   ],
   "note": "Refuted: with nobody listening Dial never returns (C88_waits, C88_no_listener_refuted); the second Dial to a closed listener never returns, whatever happens (C88_closed_listener_refuted). C88_returns_partial: once handed over Dial can return by its own steps; with a waiting accept routine it can succeed."
  },
  {
   "property": "C89",
   "status": "partial",
   "theorems": [
    "Verif.Props.C89_half_open_refuted",
    "Verif.Props.C89_outcome_partial"
   ],
   "note": "Refuted: Dial returns an error but the listener holds the other end (C89_half_open_refuted, two schedules). C89_outcome_partial: without error both ends are paired; without the time elapsing there is no error."
  },
  {
   "property": "C90",
   "status": "partial",
   "theorems": [
    "Verif.Props.C90_no_accept",
    "Verif.Props.C90_crash_refuted",
    "Verif.Props.C90_blocks_refuted",
    "Verif.Props.C90_safe_partial"
   ],
   "note": "Proved in full: nothing is accepted after Close (C90_no_accept). Refuted: a Close overlapping with an Accept ends the process (C90_crash_refuted); the third Close, or the second after a Dial, blocks for good (C90_blocks_refuted). C90_safe_partial: no crash if Close does not drop the map during an Accept."
  },
  {
   "property": "C91",
   "status": "partial",
   "theorems": [
    "Verif.Props.C91_lookup_partial",
    "Verif.Props.C91_txt_refuted"
   ],
   "note": "Refuted for txt registered before the first socket (C91_txt_refuted). C91_lookup_partial gives the exact result for all names and programs."
  },
  {
   "property": "C92",
   "status": "partial",
   "theorems": [
    "Verif.Props.C92_mock_partial",
    "Verif.Props.C92_other_refuted"
   ],
   "note": "C92_mock_partial gives the exact result for all programs; refuted for Mock of any name but tcp (C92_other_refuted)."
  },
  {
   "property": "C93",
   "status": "partial",
   "theorems": [
    "Verif.Props.C93_reported_partial",
    "Verif.Props.C93_swallowed_refuted"
   ],
   "note": "C93_reported_partial: for lawful writers, if the value holds no floats or the writer fails for good after its first failure. Refuted for floats: C93_swallowed_refuted, the write of the tag is not checked."
  },
  {
   "property": "C94",
   "status": "partial",
   "theorems": [
    "Verif.Props.C94_last_partial",
    "Verif.Props.C94_kept_partial",
    "Verif.Props.C94_stale_refuted"
   ],
   "note": "C94_last_partial and C94_kept_partial: the last registering dock serves the feature, until another registers. Refuted: C94_stale_refuted, with another dock ready at the hub the call still goes to the dead one and never returns."
  },
  {
   "property": "C95",
   "status": "partial",
   "theorems": [
    "Verif.Props.C95_exact_partial",
    "Verif.Props.C95_all_partial",
    "Verif.Props.C95_methods_partial",
    "Verif.Props.C95_grouped_refuted",
    "Verif.Props.C95_unreadable_refuted"
   ],
   "note": "C95_exact_partial: exactly the interfaces not declared in a group, of the Go files met before the first error of the walk, each once; C95_all_partial: hence all, without groups and errors; C95_methods_partial: with exactly their methods. Runs that end in a panic or a fatal error are excluded. Refuted: C95_grouped_refuted, C95_unreadable_refuted."
  },
  {
   "property": "C96",
   "status": "partial",
   "theorems": [
    "Verif.Props.C96_distinct_partial",
    "Verif.Props.C96_clash_refuted",
    "Verif.Props.C96_exact"
   ],
   "note": "C96_exact: the types differ exactly if the names differ in lower case (ASCII); C96_distinct_partial: the names registered then differ as well. Refuted: C96_clash_refuted."
  },
  {
   "property": "C97",
   "status": "partial",
   "theorems": [
    "Verif.Props.C97_scanned_partial",
    "Verif.Props.C97_again_partial",
    "Verif.Props.C97_untouched",
    "Verif.Props.C97_stale_refuted",
    "Verif.Props.C97_skipped_refuted"
   ],
   "note": "C97_scanned_partial: exactly which files are read; C97_again_partial: a second run keeps the proxies (the date in the header is not modelled). Refuted: C97_stale_refuted, without interfaces the old file stays (C97_untouched: always); C97_skipped_refuted, files whose path contains the name of the output are passed over."
  },
  {
   "property": "C98",
   "status": "partial",
   "theorems": [
    "Verif.Props.C98_each_once_partial",
    "Verif.Props.C98_alone_partial",
    "Verif.Props.C98_blocked_refuted"
   ],
   "note": "C98_each_once_partial: a call that has ended met exactly the peers present at its start, each once, and only full queues discard; C98_alone_partial: calls one at a time never wait. Refuted for concurrent calls: C98_blocked_refuted."
  },
  {
   "property": "C99",
   "status": "partial",
   "theorems": [
    "Verif.Props.C99_open_partial",
    "Verif.Props.C99_closed",
    "Verif.Props.C99_crash_refuted",
    "Verif.Props.C99_race_refuted",
    "Verif.Props.C99_hangs_refuted"
   ],
   "note": "C99_open_partial: no call ends the process from the moment the hub's socket is in the table until Close empties it, and own features are found until Close removes them; C99_closed: exactly what a call meets after Close. Refuted: C99_crash_refuted, C99_race_refuted (the process ends), C99_hangs_refuted (the call never returns)."
  },
  {
   "property": "C100",
   "status": "partial",
   "theorems": [
    "Verif.Props.C100_encoded_partial",
    "Verif.Props.C100_accepted_partial",
    "Verif.Props.C100_refuted",
    "Verif.Props.C100_worst_partial"
   ],
   "note": "C100_encoded_partial: at most 16 bytes per byte for what Encode wrote; C100_accepted_partial: the same for every accepted input that leaves something over, otherwise at most 4 GiB more; C100_worst_partial: 64 GiB per byte for any input. Refuted: C100_refuted, 5*k bytes that are rejected request 16*n*k bytes for every n below 2^32 and every k."
  },
  {
   "property": "C101",
   "status": "partial",
   "theorems": [
    "Verif.Props.C101_once_partial",
    "Verif.Props.C101_order_partial",
    "Verif.Props.C101_progress_partial",
    "Verif.Props.C101_blocked_refuted",
    "Verif.Props.C101_order_refuted",
    "Verif.Props.C101_late_refuted"
   ],
   "note": "Each method is called at most once per feature, and exactly once by a loop that ends (C101_once_partial); if Close waits for the start, OnStart has returned before OnDestroy (C101_order_partial); the start can be completed from every state if the features return (C101_progress_partial). Violated: an OnStart that does not return keeps the other features from starting (C101_blocked_refuted); Close may destroy features before or while they are started (C101_order_refuted); a port arriving after Close starts nothing (C101_late_refuted)."
  },
  {
   "property": "C102",
   "status": "partial",
   "theorems": [
    "Verif.Props.C102_own_partial",
    "Verif.Props.C102_call_partial",
    "Verif.Props.C102_shared_refuted",
    "Verif.Props.C102_early_refuted"
   ],
   "note": "Proved for executions in which no slot is passed to two docks: calls are looked up among the slots of the own dock (C102_own_partial), and every call of a slot of a dock is possible and goes to the last slot of that name, leaving the dock exactly if there is none (C102_call_partial). Violated: a slot passed to Startup twice calls through the second dock (C102_shared_refuted); a call before Startup ends the process (C102_early_refuted)."
  },
  {
   "property": "C103",
   "status": "partial",
   "theorems": [
    "Verif.Props.C103_closed_partial",
    "Verif.Props.C103_lost_refuted",
    "Verif.Props.C103_crash_refuted"
   ],
   "note": "Proved for calls whose assignments of insts do not overlap with one another or with Close (C103_closed_partial). Violated: overlapping calls of Startup lose an instance for good (C103_lost_refuted) or make Close read beyond the end of insts (C103_crash_refuted)."
  },
  {
   "property": "C104",
   "status": "partial",
   "theorems": [
    "Verif.Props.C104_stays_refuted",
    "Verif.Props.C104_late_refuted",
    "Verif.Props.C104_unclosed_refuted",
    "Verif.Props.C104_killed_refuted",
    "Verif.Props.C104_released_partial",
    "Verif.Props.C104_survives_partial"
   ],
   "note": "Proved: a signal releases every call that waits (C104_released_partial), and after the first signal.Notify no signal ends the process (C104_survives_partial). Violated: without a signal no call ever returns, whatever is closed (C104_stays_refuted), also one that begins to wait after the last signal (C104_late_refuted); after a signal the calls return with nothing closed (C104_unclosed_refuted); a signal before the first call waits ends the process (C104_killed_refuted)."
  },
  {
   "property": "C105",
   "status": "partial",
   "theorems": [
    "Verif.Props.C105_open_partial",
    "Verif.Props.C105_quiet_partial",
    "Verif.Props.C105_register_refuted",
    "Verif.Props.C105_between_refuted",
    "Verif.Props.C105_spin_refuted"
   ],
   "note": "Proved: nothing ends the process before line 48 (C105_open_partial), nor afterwards if no registration is handled (C105_quiet_partial). Violated: after Close every registration ends the process (C105_register_refuted), so does one caught between lookup and write (C105_between_refuted); waiting queries go round for ever (C105_spin_refuted)."
  },
  {
   "property": "C106",
   "status": "partial",
   "theorems": [
    "Verif.Props.C106_maps_partial",
    "Verif.Props.C106_progress_partial",
    "Verif.Props.C106_list_refuted",
    "Verif.Props.C106_flag_refuted",
    "Verif.Props.C106_close_refuted",
    "Verif.Props.C106_where_partial"
   ],
   "note": "Proved for the three maps as long as the hub is not closed (C106_maps_partial) and for the mutexes in general (C106_progress_partial). Violated: the lists of stubs are read outside the mutex while registrations append to them (C106_list_refuted), and so is ready of the stubs (C106_flag_refuted); Close sets the maps to nil without the mutexes (C106_close_refuted). Exactly which goroutines conflict in some interleaving is proved in C106_where_partial."
  },
  {
   "property": "C107",
   "status": "partial",
   "theorems": [
    "Verif.Props.C107_tables_partial",
    "Verif.Props.C107_progress_partial",
    "Verif.Props.C107_calls_refuted",
    "Verif.Props.C107_ready_refuted",
    "Verif.Props.C107_sockets_refuted",
    "Verif.Props.C107_visit_refuted",
    "Verif.Props.C107_close_refuted",
    "Verif.Props.C107_register_refuted",
    "Verif.Props.C107_where_partial"
   ],
   "note": "Proved for the table of remote features in general, and for the tables of own features and of proxies as long as the dock is not closed and no proxy is registered (C107_tables_partial); the mutex leaves nobody waiting (C107_progress_partial). Violated for the table of calls (C107_calls_refuted, C107_ready_refuted), the sockets (C107_sockets_refuted) and the visitors (C107_visit_refuted), and by Close (C107_close_refuted) and Register (C107_register_refuted). Exactly which goroutines conflict in some interleaving is proved in C107_where_partial."
  },
  {
   "property": "C108",
   "status": "partial",
   "theorems": [
    "Verif.Props.C108_makers_partial",
    "Verif.Props.C108_serializers_refuted",
    "Verif.Props.C108_listeners_refuted",
    "Verif.Props.C108_peers_refuted",
    "Verif.Props.C108_sink_refuted",
    "Verif.Props.C108_where_partial"
   ],
   "note": "Proved for the table of networks, and that the mutexes block nobody (C108_makers_partial). Violated for the serializers (C108_serializers_refuted), the listeners of the mock (C108_listeners_refuted), the peers of a socket (C108_peers_refuted) and the sink of a peer (C108_sink_refuted). Exactly which goroutines conflict in some interleaving is proved in C108_where_partial."
  },
  {
   "property": "C109",
   "status": "partial",
   "theorems": [
    "Verif.Props.C109_requests_partial",
    "Verif.Props.C109_timeout_refuted",
    "Verif.Props.C109_where_partial"
   ],
   "note": "Proved for the table of methods and the requests, and that the mutexes block nobody (C109_requests_partial). Violated for the timeouts (C109_timeout_refuted). Exactly which goroutines conflict in some interleaving is proved in C109_where_partial."
  },
  {
   "property": "C110",
   "status": "proved",
   "theorems": [
    "Verif.Props.C110_direct",
    "Verif.Props.C110_via_hub"
   ],
   "note": "Two theorems: over a known connection, and over the hub. The continuation is one possible execution; that every fair execution ends this way is not claimed (see C64, C81 and C94 for what can go wrong)."
  },
  {
   "property": "C111",
   "status": "proved",
   "theorems": [
    "Verif.Props.C111_accepted"
   ],
   "note": ""
  },
  {
   "property": "C112",
   "status": "proved",
   "theorems": [
    "Verif.Props.C112_join",
    "Verif.Props.C112_serves"
   ],
   "note": "The continuation is one possible execution; that every fair execution ends this way is not claimed."
  },
  {
   "property": "C113",
   "status": "proved",
   "theorems": [
    "Verif.Props.C113_misuse"
   ],
   "note": ""
  },
  {
   "property": "C114",
   "status": "proved",
   "theorems": [
    "Verif.Props.C114_sorted",
    "Verif.Props.C114_order"
   ],
   "note": "The order in which the template visits a map is that of the Go library; the date in the header of the file is not modelled."
  },
  {
   "property": "C115",
   "status": "proved",
   "theorems": [
    "Verif.Props.C115_circle",
    "Verif.Props.C115_returns",
    "Verif.Props.C115_exact",
    "Verif.Props.C115_mutual"
   ],
   "note": "Exact characterisation (C115_exact), with the steps that let a call return (C115_returns) and the frozen circles (C115_circle). C115_mutual shows a circle that is reached by two features calling each other at the same time."
  },
  {
   "property": "C116",
   "status": "proved",
   "theorems": [
    "Verif.Props.C116_answers"
   ],
   "note": "C116_answers."
  },
  {
   "property": "C117",
   "status": "partial",
   "theorems": [
    "Verif.Props.C117_sequential_partial",
    "Verif.Props.C117_order_refuted"
   ],
   "note": "Refuted: each request is handled by a goroutine of its own, so two requests of one peer may be executed in the other order (C117_order_refuted). Proved: a request that arrives after the response to another one is executed after it."
  },
  {
   "property": "C118",
   "status": "partial",
   "theorems": [
    "Verif.Props.C118_exclusive_partial",
    "Verif.Props.C118_onStart_refuted",
    "Verif.Props.C118_two_names_refuted"
   ],
   "note": "Refuted: OnStart runs concurrently with methods (C118_onStart_refuted), and a feature carried under two names has two callees (C118_two_names_refuted). Proved: methods called through one slot never overlap."
  },
  {
   "property": "C119",
   "status": "partial",
   "theorems": [
    "Verif.Props.C119_answered_partial",
    "Verif.Props.C119_abroad",
    "Verif.Props.C119_circle",
    "Verif.Props.C119_remote_refuted",
    "Verif.Props.C119_circle_refuted"
   ],
   "note": "Refuted: a method that waits for a remote call blocks all other requests for its feature until that call returns, which it need not (C119_remote_refuted, in general C119_abroad); features waiting in a circle answer nobody for ever (C119_circle_refuted, in general C119_circle). Proved: otherwise, with suitable arguments, the response can be sent by the goroutine of the request and package chancall alone."
  },
  {
   "property": "C120",
   "status": "proved",
   "theorems": [
    "Verif.Props.C120_results"
   ],
   "note": "C120_results. Without distinct readings of the clock the claim is false (C63_mixed_refuted)."
  },
  {
   "property": "C121",
   "status": "partial",
   "theorems": [
    "Verif.Props.C121_returns_partial",
    "Verif.Props.C121_exact_partial",
    "Verif.Props.C121_circle",
    "Verif.Props.C121_circle_refuted",
    "Verif.Props.C121_behind"
   ],
   "note": "Refuted: two docks whose features call each other at the same time wait for ever (C121_circle_refuted; in general C121_circle, and C121_behind for calls that wait behind a circle; the continuations considered are those in which the clock of no dock returns the same reading twice). Proved: in all other cases a call can return (C121_returns_partial), so that circles are the only obstacle (C121_exact_partial), provided the processes concerned are alive, the caller's dock is not handling a packet of the connection between the two docks, only requests and responses that arrive and suit are under way to it, answers without results, for a timeout or with the result obtained already fit into a packet, and arguments suit the methods."
  },
  {
   "property": "C122",
   "status": "proved",
   "theorems": [
    "Verif.Props.C122_refines",
    "Verif.Props.C122_delivered",
    "Verif.Props.C122_sent_once",
    "Verif.Props.C122_system"
   ],
   "note": "For the model of peers with goroutines, queue and byte stream (Net.Peer): C122_delivered states it directly; C122_refines relates it to a queue of packets in lock step, and C122_system shows that the ends of the connections of System are such queues. `Regular` says that identifier and body of a packet agree (as in all calls of Send in the code) and that it has less than 4 GiB; for longer ones see C22_oversized_frame."
  },
  {
   "property": "C123",
   "status": "partial",
   "theorems": [
    "Verif.Props.C123_results",
    "Verif.Props.C123_proxy_partial",
    "Verif.Props.C123_example",
    "Verif.Props.C123_test",
    "Verif.Props.C123_sum_refuted"
   ],
   "note": "Applied to the arguments as they arrive over the wire: proved for all applications (C123_results). Through proxies: proved for parameters of basic types and results of the types bool, string and float64 that survive the wire (C123_proxy_partial, C123_example, C123_test); others are lost or panic, see C65 and C66. A proxy hides the timeout: 0 as the sum of 1 and 2 (C123_sum_refuted)."
  },
  {
   "property": "C124",
   "status": "proved",
   "theorems": [
    "Verif.Props.C124_started",
    "Verif.Props.C124_returns",
    "Verif.Props.C124_exact",
    "Verif.Props.C124_unreturned"
   ],
   "note": ""
  },
  {
   "property": "C125",
   "status": "proved",
   "theorems": [
    "Verif.Props.C125_executed",
    "Verif.Props.C125_answered"
   ],
   "note": ""
  },
  {
   "property": "C126",
   "status": "proved",
   "theorems": [
    "Verif.Props.C126_sent",
    "Verif.Props.C126_returns",
    "Verif.Props.C126_joined"
   ],
   "note": ""
  },
  {
   "property": "C127",
   "status": "proved",
   "theorems": [
    "Verif.Props.C127_started",
    "Verif.Props.C127_returns",
    "Verif.Props.C127_returns_local",
    "Verif.Props.C127_exact",
    "Verif.Props.C127_local",
    "Verif.Props.C127_unreturned"
   ],
   "note": ""
  },
  {
   "property": "C128",
   "status": "partial",
   "theorems": [
    "Verif.Props.C128_encode_partial",
    "Verif.Props.C128_encode_refuted",
    "Verif.Props.C128_int_partial",
    "Verif.Props.C128_decode_partial",
    "Verif.Props.C128_decode_refuted",
    "Verif.Props.C128_slice_partial",
    "Verif.Props.C128_packet_partial",
    "Verif.Props.C128_crash_refuted",
    "Verif.Props.C128_stuck_refuted"
   ],
   "note": "Proved: values that exist on 32 bits are encoded in the same way except the smallest int (C128_encode_partial), which is still read as the same number (C128_int_partial); a decoder whose make is limited panics exactly at a request beyond the limits and otherwise does the same (C128_decode_partial); what Slice returns, exactly (C128_slice_partial); packets shorter than 128 MiB whose values survive the codec are written, found and read in the same way (C128_packet_partial). Violated: the smallest int (C128_encode_refuted), announced lengths of arrays and strings (C128_decode_refuted), and frame headers announcing nearly 2 GiB or more, which end a process of 32 bits (C128_crash_refuted) or keep it from ever receiving anything more on the connection (C128_stuck_refuted)."
  },
  {
   "property": "C129",
   "status": "partial",
   "theorems": [
    "Verif.Props.C129_same_partial",
    "Verif.Props.C129_count_partial",
    "Verif.Props.C129_length_partial",
    "Verif.Props.C129_refuted"
   ],
   "note": "Proved for values without floats on every lawful writer, also when a write fails; never too large for any value. Refuted for floats: the tag's byte is not counted (/repo/codec/encoder.go:29, 34)."
  },
  {
   "property": "C130",
   "status": "proved",
   "theorems": [
    "Verif.Props.C130_arrives",
    "Verif.Props.C130_arrives_text"
   ],
   "note": ""
  },
  {
   "property": "C131",
   "status": "partial",
   "theorems": [
    "Verif.Props.C131_lost_refuted",
    "Verif.Props.C131_discarded_refuted",
    "Verif.Props.C131_window_partial",
    "Verif.Props.C131_arrives_partial",
    "Verif.Props.C131_overload_refuted"
   ],
   "note": "The full statement is refuted: Send discards packets while twenty wait (C131_discarded_refuted), a request lost like this is never sent again and its call never returns (C131_lost_refuted; concrete system C131_overload_refuted). Proved: nothing is discarded while fewer than twenty packets passed to Send are unwritten, and in fair executions all packets then arrive."
  },
  {
   "property": "C132",
   "status": "proved",
   "theorems": [
    "Verif.Props.C132_accessor",
    "Verif.Props.C132_received",
    "Verif.Props.C132_parameter",
    "Verif.Props.C132_unique"
   ],
   "note": "The conversion instruction itself (IEEE 754, round to nearest even) is modelled on bit patterns; the theorem says that the model is what IEEE 754 prescribes."
  },
  {
   "property": "C133",
   "status": "partial",
   "theorems": [
    "Verif.Props.C133_float64_partial",
    "Verif.Props.C133_float32_partial",
    "Verif.Props.C133_integer_partial",
    "Verif.Props.C133_truncated_partial",
    "Verif.Props.C133_twice_refuted",
    "Verif.Props.C133_wraps_refuted",
    "Verif.Props.C133_string_refuted",
    "Verif.Props.C133_character"
   ],
   "note": "The full statement is refuted: integers above 2^53 passed to float32 parameters are rounded twice (C133_twice_refuted), numbers that the type does not have wrap silently (C133_wraps_refuted), and integers passed to string parameters become characters (C133_string_refuted, C133_character). Proved: integers to float64 and, up to 2^53, to float32 are rounded to nearest, integers and truncated floats that fit arrive unchanged."
  },
  {
   "property": "C134",
   "status": "partial",
   "theorems": [
    "Verif.Props.C134_started_partial",
    "Verif.Props.C134_test_partial",
    "Verif.Props.C134_overtaken_refuted"
   ],
   "note": "Proved for all fair executions in which nothing is lost or stopped, methods return, clocks give no reading twice, and the first socket of a dock that starts its features is the one to the hub; refuted without the last (run stores the hub's socket after the hub's answer has been handled). That an OnStart which does not return waits for a call is a hypothesis on the feature's code."
  },
  {
   "property": "C135",
   "status": "partial",
   "theorems": [
    "Verif.Props.C135_receive",
    "Verif.Props.C135_send_partial",
    "Verif.Props.C135_send_exact",
    "Verif.Props.C135_leak_refuted",
    "Verif.Props.C135_other_end_refuted",
    "Verif.Props.C135_blocked_refuted",
    "Verif.Props.C135_mock_refuted"
   ],
   "note": "Proved: the receive routine ends after conn.Close (lawful connections) or when the other end is closed (all), if the handlers return; the send routine of a lawful connection ends after conn.Close if a nil object entered the queue, and it remains exactly if it waits at an empty queue that nothing enters again.  Refuted: with a full queue close discards its nil, and the send routine can wait for ever; when the other end closes, the send routine and the connection remain; after a failed write close can block for ever; close of a mock connection does not end its own receive routine.  Handlers that do not return, and panics of Marshal, are not modelled here."
  },
  {
   "property": "C136",
   "status": "partial",
   "theorems": [
    "Verif.Props.C136_exact_partial",
    "Verif.Props.C136_err_refuted",
    "Verif.Props.C136_names_refuted"
   ],
   "note": "C136_exact_partial: exactly which methods compile, if no parameter is named nil, false, err or results.  C136_err_refuted: a parameter err makes every method without results, and every other one unless an error can be assigned to it, fail to compile.  C136_names_refuted: so do blank parameters, parameters named p, and parameters with the name of a result type.  The rules of Go are those that the generated methods meet; the package may not redeclare nil, false and the predeclared types."
  },
  {
   "property": "C137",
   "status": "partial",
   "theorems": [
    "Verif.Props.C137_exact_partial",
    "Verif.Props.C137_case_refuted"
   ],
   "note": "C137_exact_partial: exactly which files compile, if no parameter is named nil, false, err or results: the names of the interfaces differ in lower case, the rest of the package declares neither the resulting types nor ferry, and the methods are those of C136.  C137_case_refuted: names that differ in case only.  Rules of Go: declarations, methods, import, and those of C136."
  },
  {
   "property": "C138",
   "status": "partial",
   "theorems": [
    "Verif.Props.C138_exact_partial",
    "Verif.Props.C138_grouped_refuted"
   ],
   "note": "C138_exact_partial: one proxy per interface, in order, and it implements the interface exactly if no parameters and no results share a type (all types written in the package main).  C138_grouped_refuted: for Add(x, y int) the file compiles but the proxy does not implement the interface."
  },
  {
   "property": "C139",
   "status": "partial",
   "theorems": [
    "Verif.Props.C139_crash_exact_partial",
    "Verif.Props.C139_crash_refuted",
    "Verif.Props.C139_close_partial",
    "Verif.Props.C139_order_partial",
    "Verif.Props.C139_blocked_refuted",
    "Verif.Props.C139_second_read_refuted"
   ],
   "note": "Refuted: a Write that has tested the field peer crashes the process when Close sets it to nil before the next line; Close does not return while the other end does not read; only the first read after Close fails, a second one blocks. Proved: exactly when the process crashes; in fair executions in which the other end reads until a read fails and only one goroutine closes the end, Close returns and a read of the other end fails; what is read is what was written, in order."
  },
  {
   "property": "C140",
   "status": "partial",
   "theorems": [
    "Verif.Props.C140_exact_partial",
    "Verif.Props.C140_variadic_kills_refuted",
    "Verif.Props.C140_sum_refuted"
   ],
   "note": "refuted: a call with an argument for the variadic parameter kills the process, except one slice for ...interface{}; proved: exactly which calls run and what the method gets"
  },
  {
   "property": "C141",
   "status": "partial",
   "theorems": [
    "Verif.Props.C141_returns_partial",
    "Verif.Props.C141_exact_partial",
    "Verif.Props.C141_tree_partial",
    "Verif.Props.C141_self_refuted"
   ],
   "note": "refuted: a slice that is its own element is encoded without end; proved: Encode returns exactly if no infinite chain of references starts from the value, and then writes the encoding of the tree"
  },
  {
   "property": "C142",
   "status": "partial",
   "theorems": [
    "Verif.Props.C142_calm_partial",
    "Verif.Props.C142_at_send_partial",
    "Verif.Props.C142_torn_refuted"
   ],
   "note": "refuted: a slice changed while its packet is encoded gives a packet equal to no state the slice ever had; proved: without changes to parts of waiting values every packet is the encoding at the time of Send"
  },
  {
   "property": "C143",
   "status": "partial",
   "theorems": [
    "Verif.Props.C143_arguments_partial",
    "Verif.Props.C143_at_call_partial",
    "Verif.Props.C143_late_refuted"
   ],
   "note": "refuted: after a timeout the caller goes on while the method still runs with the shared arguments; proved: until then the arguments are as they were at the call, and the only other case is the timeout error, not before its time"
  },
  {
   "property": "C144",
   "status": "partial",
   "theorems": [
    "Verif.Props.C144_exact_partial",
    "Verif.Props.C144_apart_partial",
    "Verif.Props.C144_refuted"
   ],
   "note": "Proved exactly when it happens: the hub gives its own port to a dock of a host iff the port is in 20001..49000, is not in the black list and at least as many docks of the host have registered as there are free ports up to it; so a port of the hub outside the range or in the black list is never given (whole system). Refuted otherwise: the hub does not look at its own port, and with the hub on 20002 the second dock is told to listen there."
  },
  {
   "property": "C145",
   "status": "partial",
   "theorems": [
    "Verif.Props.C145_found_partial",
    "Verif.Props.C145_dial_partial",
    "Verif.Props.C145_hub_refuted"
   ],
   "note": "Proved if the port of the hub is outside 20001..49000 or in the black list, for executions without a reset of the mock network. Refuted otherwise: with the hub on port 20002 the second dock replaces the listener of the hub."
  },
  {
   "property": "C146",
   "status": "partial",
   "theorems": [
    "Verif.Props.C146_apart_partial",
    "Verif.Props.C146_always",
    "Verif.Props.C146_refuted"
   ],
   "note": "Refuted always: with the same black list, a dock on a host before and one after the restart suffice for a port given twice (C146_always, concrete C146_refuted). Proved: ports that are put into the black list of the second hub are not given again."
  },
  {
   "property": "C147",
   "status": "proved",
   "theorems": [
    "Verif.Props.C147_exactly_once"
   ],
   "note": "for executions in which clock readings differ, methods return and remote features are offered, as stated"
  },
  {
   "property": "C148",
   "status": "partial",
   "theorems": [
    "Verif.Props.C148_hello_partial",
    "Verif.Props.C148_silent_refuted"
   ],
   "note": "assumes, as C134, that run has stored the socket to the hub before the answer of the hub is handled; C148_silent_refuted: a fair execution without this that prints nothing"
  },
  {
   "property": "C149",
   "status": "proved",
   "theorems": [
    "Verif.Props.C149_within",
    "Verif.Props.C149_late_return"
   ],
   "note": "the condition on timeouts is needed: C149_late_return"
  },
  {
   "property": "C150",
   "status": "proved",
   "theorems": [
    "Verif.Props.C150_atomic",
    "Verif.Props.C150_register"
   ],
   "note": "For every execution, linearization points between call and result (C150_atomic), and for a register the last value written (C150_register). Results travel through the codec, so what a remote caller gets is the canonical form of what the method returned. Calls that end with an error are not claimed to have or not have taken effect. The bodies of methods are the application's, Behaves states what is assumed of them."
  },
  {
   "property": "C151",
   "status": "proved",
   "theorems": [
    "Verif.Props.C151_returns"
   ],
   "note": "The route must be known and stay the same until the request is sent (routes are never removed, but a later registration of the same name replaces them, see C94). That the dials of the two docks do not fail is part of their keeping running, because a failed Dial ends the process (C81)."
  },
  {
   "property": "C152",
   "status": "proved",
   "theorems": [
    "Verif.Props.C152_source",
    "Verif.Props.C152_learns"
   ],
   "note": ""
  },
  {
   "property": "C153",
   "status": "proved",
   "theorems": [
    "Verif.Props.C153_forward",
    "Verif.Props.C153_chain",
    "Verif.Props.C153_elements"
   ],
   "note": ""
  },
  {
   "property": "C154",
   "status": "partial",
   "theorems": [
    "Verif.Props.C154_text_partial",
    "Verif.Props.C154_filename_refuted"
   ],
   "note": "C154_text_partial: for file names without line breaks. Refuted: C154_filename_refuted, the name of a source file is written into a line comment, so a file whose name contains a line break adds code to the generated file."
  },
  {
   "property": "C155",
   "status": "proved",
   "theorems": [
    "Verif.Props.C155_relay"
   ],
   "note": ""
  },
  {
   "property": "C156",
   "status": "proved",
   "theorems": [
    "Verif.Props.C156_checked_in"
   ],
   "note": ""
  },
  {
   "property": "C157",
   "status": "partial",
   "theorems": [
    "Verif.Props.C157_scripts_partial",
    "Verif.Props.C157_tests_partial",
    "Verif.Props.C157_silent_refuted"
   ],
   "note": "assumes, as C134, that run has stored the socket to the hub before the answer of the hub is handled; C157_silent_refuted: a fair execution without this in which a call has no method started"
  },
  {
   "property": "C158",
   "status": "proved",
   "theorems": [
    "Verif.Props.C158_lines",
    "Verif.Props.C158_arrives",
    "Verif.Props.C158_once",
    "Verif.Props.C158_flow"
   ],
   "note": ""
  },
  {
   "property": "C159",
   "status": "proved",
   "theorems": [
    "Verif.Props.C159_finite",
    "Verif.Props.C159_safe",
    "Verif.Props.C159_ends",
    "Verif.Props.C159_lost",
    "Verif.Props.C159_test",
    "Verif.Props.C159_unended"
   ],
   "note": ""
  },
  {
   "property": "C160",
   "status": "proved",
   "theorems": [
    "Verif.Props.C160_quick",
    "Verif.Props.C160_slow",
    "Verif.Props.C160_test",
    "Verif.Props.C160_unprompt"
   ],
   "note": "prompt runtime and unshared callers; C160_unprompt shows that the test can fail without promptness"
  },
  {
   "property": "C161",
   "status": "proved",
   "theorems": [
    "Verif.Props.C161_lives",
    "Verif.Props.C161_gone",
    "Verif.Props.C161_ends",
    "Verif.Props.C161_left"
   ],
   "note": "C161_gone needs a prompt runtime and unshared callers, C161_ends a fair scheduler"
  },
  {
   "property": "C162",
   "status": "proved",
   "theorems": [
    "Verif.Props.C162_list"
   ],
   "note": "assumes that methods return and a fair scheduler"
  },
  {
   "property": "C163",
   "status": "proved",
   "theorems": [
    "Verif.Props.C163_started",
    "Verif.Props.C163_returned"
   ],
   "note": "The clock is discrete, one nanosecond per step.  That only methods take time is a hypothesis on executions, not a property of the scheduler of Go; the time a caller waits for room in the queue is not counted."
  },
  {
   "property": "C164",
   "status": "proved",
   "theorems": [
    "Verif.Props.C164_waits"
   ],
   "note": "The same hypotheses on executions as for C163.  The bound counts the calls that others make later, because nothing is assumed about the order in which goroutines that wait for room are served."
  },
  {
   "property": "C165",
   "status": "proved",
   "theorems": [
    "Verif.Props.C165_in_order"
   ],
   "note": "The same hypotheses on executions as for C163 and C164.  That senders waiting for a channel are served in order is a property of the Go runtime and is a hypothesis here; the order of calls is the order of the steps in which they are made."
  }
 ]
}
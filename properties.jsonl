{"id": "C01", "title": "Integer wire encoding round-trips", "statement": "Encoding an in-range integer of any integer primitive type in any byte order gives exactly size-many bytes and decoding them in the same order gives the integer back; encoding an out-of-range integer fails and never truncates.", "quantifier": "every integer type (8/16/32/64 bit, signed and unsigned), every byte order, every integer", "why_tests_cant": "2^64 values per type and order; tests sample a few literals", "anchors": ["runtimepy/primitives/types/base.py:PrimitiveType.encode", "runtimepy/primitives/types/base.py:PrimitiveType.decode", "runtimepy/primitives/types/int.py", "runtimepy/primitives/byte_order.py:ByteOrder"]}
{"id": "C02", "title": "Integer wire decoding is a bijection and respects byte order", "statement": "Every byte string of the right length decodes to an in-range integer and re-encoding gives the same bytes; the big-endian (and network) encoding is the reverse of the little-endian one, the first big-endian byte being the most significant.", "quantifier": "every byte string of the type's size, every integer type", "why_tests_cant": "the byte strings of eight bytes cannot be enumerated; an order mix-up that only shows for some values escapes samples", "anchors": ["runtimepy/primitives/types/base.py:PrimitiveType.decode", "runtimepy/primitives/byte_order.py:ByteOrder"]}
{"id": "C03", "title": "Integer primitives always hold an in-range value", "statement": "After any history of assignments and increments with arbitrary integers, an integer primitive's value is the unique value of its type congruent to the last requested integer modulo 2^bits, hence always encodable.", "quantifier": "every finite history of set/increment calls with unbounded integers, every integer type", "why_tests_cant": "histories and integers are unbounded; wrap-around shows only at the boundary", "anchors": ["runtimepy/primitives/base.py:Primitive.set_value", "runtimepy/primitives/int.py:BaseIntPrimitive.increment"]}
{"id": "C04", "title": "Change callbacks are exact", "statement": "Over any history of register, remove and set operations, each set whose requested value differs from the current one invokes every callback registered at that moment once, in registration order, with the old and the requested value, and a set to the equal value invokes none; a one-shot callback runs at most once; a removed callback never runs again.", "quantifier": "every history of register/remove/set operations on a primitive", "why_tests_cant": "depends on the interleaving of registrations, removals and sets of any length", "anchors": ["runtimepy/primitives/base.py:Primitive.register_callback", "runtimepy/primitives/base.py:Primitive._check_callbacks", "runtimepy/primitives/base.py:Primitive.remove_callback"]}
{"id": "C05", "title": "Callback identifiers are never reused", "statement": "Each registration returns an identifier different from every identifier returned before, so removing a stale identifier reports failure and removes nothing.", "quantifier": "every history of operations on a primitive", "why_tests_cant": "reuse would need a specific long history of removals", "anchors": ["runtimepy/primitives/base.py:Primitive.register_callback", "runtimepy/primitives/base.py:Primitive.remove_callback"]}
{"id": "C06", "title": "A callback sees the value that was stored", "statement": "When a change callback runs, the new value it is given equals the value the primitive now holds (true for in-range requests; for requests that wrap the code reports the requested integer).", "quantifier": "every history, every integer", "why_tests_cant": "only wrap-around requests distinguish the two", "anchors": ["runtimepy/primitives/base.py:Primitive.set_value", "runtimepy/primitives/int.py:BaseIntPrimitive.increment"]}
{"id": "C07", "title": "Scaling and its inversion cancel", "statement": "For a linear scaling with non-zero slope, converting a scaled value to raw and applying the scaling gives the value back exactly when no rounding is requested; with rounding to an integer type the result is within half a slope of the requested value when the raw value is in range, and otherwise is clamped to the nearest bound.", "quantifier": "every offset, slope and value (exact rational arithmetic)", "why_tests_cant": "real-valued inputs; tests use a few", "anchors": ["runtimepy/primitives/scaling.py:invert", "runtimepy/primitives/scaling.py:apply", "runtimepy/primitives/base.py:Primitive.scaled"]}
{"id": "C08", "title": "Bounds clamp to the nearest in-range integer", "statement": "Clamping returns an in-range value, leaves in-range values alone, and no in-range value is closer to the input; validation accepts exactly the in-range values; bounds of an n-bit type are the two's-complement (or unsigned) range.", "quantifier": "every width, signedness and integer", "why_tests_cant": "unbounded integers and widths", "anchors": ["runtimepy/primitives/types/bounds.py:IntegerBounds"]}
{"id": "C09", "title": "Waiting for a condition reports the latest comparison", "statement": "Awaiting a comparison on a primitive returns success immediately when it already holds; otherwise the verdict is that of the last change seen before the waiter resumes, a timeout is reported only if no change satisfied it, and in every case the waiter's callback is removed.", "quantifier": "every schedule of changes, wake-up and timeout", "why_tests_cant": "depends on the interleaving of value changes with the waiter's wake-up", "anchors": ["runtimepy/primitives/evaluation.py:evaluate", "runtimepy/primitives/evaluation.py:compare_latest"]}
{"id": "C10", "title": "Sampling a primitive neither loses nor duplicates changes", "statement": "Sampling yields the changes of the primitive in the order they happened, none twice and none skipped, at most the requested count, whatever the interleaving of producer and consumer.", "quantifier": "every schedule of changes, consumer steps and timeouts", "why_tests_cant": "schedule dependent", "anchors": ["runtimepy/primitives/evaluation.py:sample_for"]}
{"id": "C11", "title": "Bit-field write and read", "statement": "Reading a field after writing any integer gives that integer modulo 2^width, and every bit of the underlying integer outside the field is unchanged.", "quantifier": "every underlying value, index, width and written integer", "why_tests_cant": "all bit patterns and all (possibly negative) integers", "anchors": ["runtimepy/primitives/field/__init__.py:BitFieldBase.__call__", "runtimepy/primitives/field/__init__.py:BitField", "runtimepy/primitives/field/__init__.py:BitFlag"]}
{"id": "C12", "title": "Bit-field inversion", "statement": "Inverting a field complements exactly its bits; inverting twice restores the underlying integer.", "quantifier": "every underlying value, index and width", "why_tests_cant": "all bit patterns", "anchors": ["runtimepy/primitives/field/__init__.py:BitFieldBase.invert"]}
{"id": "C13", "title": "Allocated bit-fields never overlap", "statement": "After any sequence of flag, field and padding claims, automatic or at explicit indices, successful or failing, the claimed ranges are pairwise disjoint and inside the primitive; a claim that conflicts or does not fit is refused.", "quantifier": "every sequence of claims on every unsigned width", "why_tests_cant": "sequences of claims are unbounded and the failing paths interleave with the successful ones", "anchors": ["runtimepy/primitives/field/fields.py:BitFields._claim_bits", "runtimepy/primitives/field/fields.py:BitFields.flag", "runtimepy/primitives/field/fields.py:BitFields.field", "runtimepy/primitives/field/fields.py:BitFields.pad"]}
{"id": "C14", "title": "Allocated bit-fields are independent variables", "statement": "Under any history of writes to fields allocated from one group, each field reads the last value written to it modulo 2^width (or its initial bits), whatever was written to the others.", "quantifier": "every allocation and every history of writes", "why_tests_cant": "needs every combination of layout and write order", "anchors": ["runtimepy/primitives/field/fields.py:BitFields", "runtimepy/primitives/field/__init__.py:BitFieldBase.__call__"]}
{"id": "C15", "title": "Bit-field groups survive export and import", "statement": "Exporting a bit-field group and re-creating it gives a group with the same fields at the same positions, the same names and the same value.", "quantifier": "every reachable layout", "why_tests_cant": "failing cases need particular layouts (zero-width fields, duplicate names, dirty padding)", "anchors": ["runtimepy/primitives/field/fields.py:BitFields.asdict", "runtimepy/primitives/field/fields.py:BitFields.__init__"]}
{"id": "C16", "title": "Name mapping is a bijection at all times", "statement": "After any history of insertions, successful or refused, looking up the name of an identifier gives n exactly when looking up the identifier of n gives that identifier.", "quantifier": "every history of insertions with arbitrary keys and names", "why_tests_cant": "refused insertions leave partial state that only some histories reveal", "anchors": ["runtimepy/mapping.py:TwoWayNameMapping._set", "runtimepy/mapping.py:TwoWayNameMapping.identifier", "runtimepy/mapping.py:TwoWayNameMapping.name"]}
{"id": "C17", "title": "Name registration is stable and collision free", "statement": "Registering names, with or without requested identifiers, never gives two names one identifier, never changes an identifier once given, returns the same identifier when a name is registered again, and refuses a requested identifier in use or a different identifier for a known name, changing nothing.", "quantifier": "every history of registrations", "why_tests_cant": "automatic identifiers interleave with requested ones in unboundedly many ways", "anchors": ["runtimepy/registry/name.py:NameRegistry.register_name", "runtimepy/registry/bool.py:BooleanRegistry"]}
{"id": "C18", "title": "Registry look-ups agree", "statement": "In a registry, an item found by name is the item found by its identifier, every registered item stays reachable under both, a duplicate name or identifier is refused without disturbing existing items.", "quantifier": "every history of registrations", "why_tests_cant": "history dependent", "anchors": ["runtimepy/registry/__init__.py:Registry.register", "runtimepy/registry/__init__.py:Registry.register_dict", "runtimepy/registry/__init__.py:Registry.get"]}
{"id": "C19", "title": "Enumeration look-ups invert each other", "statement": "For every registered member of an integer or boolean enumeration, converting name to value and back (and value to name and back) is the identity; unknown names and values are rejected.", "quantifier": "every registered enumeration and every key", "why_tests_cant": "all registries", "anchors": ["runtimepy/enum/__init__.py:RuntimeEnum.get_int", "runtimepy/enum/__init__.py:RuntimeEnum.get_str", "runtimepy/enum/__init__.py:RuntimeEnum.as_int", "runtimepy/enum/__init__.py:RuntimeEnum.get_bool"]}
{"id": "C20", "title": "Primitive arrays serialise exactly", "statement": "For non-native byte orders, an array's bytes have exactly the reported size and are the concatenation of its elements' encodings; updating an array of the same layout with them restores every element; updating with any other length is refused and changes nothing.", "quantifier": "every sequence of element types, lengths and values", "why_tests_cant": "all layouts and values; the native order adds alignment that only some layouts reveal", "anchors": ["runtimepy/primitives/array/__init__.py:PrimitiveArray.__bytes__", "runtimepy/primitives/array/__init__.py:PrimitiveArray.update", "runtimepy/primitives/array/__init__.py:PrimitiveArray.add"]}
{"id": "C21", "title": "Array index and byte positions correspond", "statement": "The byte position reported for an element index is the total size of the elements before it, and the index reported for that byte position is the element index again; a fragment's bytes are the corresponding slice of the whole array's bytes and updating the fragment changes only its elements.", "quantifier": "every array layout, index and fragment", "why_tests_cant": "all layouts and fragments", "anchors": ["runtimepy/primitives/array/__init__.py:PrimitiveArray.byte_at_index", "runtimepy/primitives/array/__init__.py:PrimitiveArray.index_at_byte", "runtimepy/primitives/array/__init__.py:PrimitiveArray.fragment", "runtimepy/primitives/array/__init__.py:PrimitiveArray.update_fragment"]}
{"id": "C22", "title": "Chained serializables round-trip", "statement": "Writing a chain of serializables gives as many bytes as the reported length, and reading that many bytes into a chain of the same shape restores every value and leaves the rest of the stream untouched.", "quantifier": "every chain and every following stream content", "why_tests_cant": "unbounded chains", "anchors": ["runtimepy/primitives/serializable/base.py:Serializable.to_stream", "runtimepy/primitives/serializable/base.py:Serializable.from_stream", "runtimepy/primitives/serializable/base.py:Serializable.length"]}
{"id": "C23", "title": "Copies of chains are equal and independent", "statement": "Copying a chain gives a chain with the same bytes; later changes to either do not affect the other; appending puts the new member at the end and nowhere else.", "quantifier": "every chain and later history of updates", "why_tests_cant": "aliasing shows only after particular later updates", "anchors": ["runtimepy/primitives/serializable/base.py:Serializable.copy", "runtimepy/primitives/serializable/base.py:Serializable.add_to_end", "runtimepy/primitives/serializable/base.py:Serializable.assign"]}
{"id": "C24", "title": "Length-prefixed chunks round-trip", "statement": "A length-prefixed chunk written to a stream and read back gives the same payload and consumes exactly its own bytes; a payload too long for the prefix type is never silently accepted.", "quantifier": "every payload and prefix type", "why_tests_cant": "payload lengths around 2^8, 2^16, 2^32", "anchors": ["runtimepy/primitives/serializable/prefixed.py:PrefixedChunk"]}
{"id": "C25", "title": "String primitives round-trip", "statement": "A string primitive written to a stream and read back gives the same string and consumes exactly the bytes written.", "quantifier": "every string", "why_tests_cant": "fails only for strings with characters outside ASCII", "anchors": ["runtimepy/primitives/string.py:StringPrimitive"]}
{"id": "C26", "title": "Framing respects the MTU and loses nothing", "statement": "Over any history of captures, the frames emitted, in order, followed by the pending bytes are the concatenation of the captured element encodings; every frame is at most the MTU long and contains only whole elements; a frame is emitted as soon as the next element would not fit.", "quantifier": "every element size, MTU and history of captures and flushes", "why_tests_cant": "unbounded histories and sizes", "anchors": ["runtimepy/primitives/serializable/framer.py:SerializableFramer.set_mtu", "runtimepy/primitives/serializable/framer.py:SerializableFramer.capture"]}
{"id": "C27", "title": "Struct datagrams deliver every sample", "statement": "A receiver of the framed struct datagrams observes exactly the captured samples in order, with their timestamps; a datagram whose length is not a multiple of the struct size is rejected.", "quantifier": "every layout, sample history and MTU", "why_tests_cant": "composition of framing and parsing over unbounded histories", "anchors": ["runtimepy/net/arbiter/struct/__init__.py:UdpStructTransceiver.process_datagram", "runtimepy/net/arbiter/struct/__init__.py:TimestampedStruct.update_single"]}
{"id": "C28", "title": "Protocol instances round-trip and stay independent", "statement": "Serialising a protocol instance and reading it into another instance of the same protocol gives equal values for every named field; setting one field leaves the others unchanged.", "quantifier": "every protocol layout and values", "why_tests_cant": "all layouts", "anchors": ["runtimepy/codec/protocol/base.py:ProtocolBase.__getitem__", "runtimepy/codec/protocol/base.py:ProtocolBase.__setitem__", "runtimepy/codec/protocol/base.py:ProtocolBase.add_field"]}
{"id": "C29", "title": "Copying a protocol preserves its layout", "statement": "A copy of a protocol has the same fields in the same order and the same wire size, and so does a copy of a copy; export to and import from JSON likewise.", "quantifier": "every protocol layout", "why_tests_cant": "fails for layouts with bit-fields, arrays or a second copy", "anchors": ["runtimepy/codec/protocol/base.py:ProtocolBase.__copy__", "runtimepy/codec/protocol/json.py:JsonProtocol.export_json", "runtimepy/codec/protocol/json.py:JsonProtocol.import_json"]}
{"id": "C30", "title": "Message framing is independent of how the stream is cut", "statement": "If a sender encodes any list of messages (each shorter than 2^32 bytes) and the byte stream is delivered in arbitrary pieces, a receiver that consumes every yielded message observes exactly that list in order, and nothing more; after each delivery it has observed exactly the messages completely received.", "quantifier": "every list of messages and every chunking of their concatenation", "why_tests_cant": "exponentially many chunkings; boundaries inside a header", "anchors": ["runtimepy/message/__init__.py:MessageProcessor.encode", "runtimepy/message/__init__.py:MessageProcessor.process"]}
{"id": "C31", "title": "Message framing after an abandoned iteration", "statement": "If a consumer stops iterating after a message, the next delivery continues with the following message (false of the code: the parser then takes a header for a body).", "quantifier": "every list of messages, chunking and point of abandonment", "why_tests_cant": "the failing interleaving needs the consumer to stop right after a message", "anchors": ["runtimepy/message/__init__.py:MessageProcessor.process"]}
{"id": "C32", "title": "Event streams replay the recorded changes", "statement": "Parsing the event bytes written for a set of registered channels yields exactly the recorded changes in order, with their channel names, timestamps and values.", "quantifier": "every set of channels and history of changes", "why_tests_cant": "unbounded histories", "anchors": ["runtimepy/channel/event/__init__.py:PrimitiveEvent", "runtimepy/channel/environment/telemetry.py:TelemetryChannelEnvironment.parse_event_stream"]}
{"id": "C33", "title": "Event parsing is independent of how the stream is cut", "statement": "Ingesting an event stream in arbitrary pieces yields the same events as ingesting it at once (false of the code when a piece ends between an event's header and its payload).", "quantifier": "every event stream and chunking", "why_tests_cant": "only some cut points fail", "anchors": ["runtimepy/channel/environment/telemetry.py:TelemetryChannelEnvironment.ingest", "runtimepy/channel/environment/telemetry.py:TelemetryChannelEnvironment.parse_event_stream"]}
{"id": "C34", "title": "Event rate limiting", "statement": "With a minimum period set, two consecutive emitted events of one channel are at least that period apart, the first change is always emitted, and every change at least the period after the last emitted one is emitted.", "quantifier": "every history of change timestamps and period", "why_tests_cant": "unbounded histories", "anchors": ["runtimepy/channel/event/__init__.py:PrimitiveEvent._poll", "runtimepy/channel/event/__init__.py:PrimitiveEvent.set_min_period"]}
{"id": "C35", "title": "Environment set and get", "statement": "Setting a channel or bit-field by name or identifier and reading it back gives the value set (modulo the type's width; enumerated names resolve to their value), and no unrelated channel or field changes.", "quantifier": "every environment, key and value", "why_tests_cant": "all environments and aliasing patterns", "anchors": ["runtimepy/channel/environment/base.py:BaseChannelEnvironment.set", "runtimepy/channel/environment/base.py:BaseChannelEnvironment.value"]}
{"id": "C36", "title": "Environment snapshots restore", "statement": "Applying the values exported from an environment restores every channel and field to its value at the time of export.", "quantifier": "every environment and intervening history", "why_tests_cant": "unbounded histories", "anchors": ["runtimepy/channel/environment/base.py:BaseChannelEnvironment.values", "runtimepy/channel/environment/base.py:BaseChannelEnvironment.apply"]}
{"id": "C37", "title": "Commands respect the commandable flag", "statement": "A local set or toggle command changes a channel only if the channel exists and is commandable or force was given; a refused or failing command changes nothing and runs no hooks; a successful one runs every hook once; a remote command changes nothing locally.", "quantifier": "every environment, command line and hook list", "why_tests_cant": "all combinations of command, flags and channel state", "anchors": ["runtimepy/channel/environment/command/processor.py:ChannelCommandProcessor.handle_command", "runtimepy/channel/environment/command/processor.py:ChannelCommandProcessor.do_set", "runtimepy/channel/environment/command/processor.py:ChannelCommandProcessor.do_toggle", "runtimepy/channel/environment/command/processor.py:RemoteCommandProcessor"]}
{"id": "C38", "title": "TFTP file chunking", "statement": "Splitting a file for transfer yields blocks of exactly the block size except the last, whose length is strictly smaller (possibly zero), and their concatenation is the file.", "quantifier": "every file and block size", "why_tests_cant": "file lengths at exact multiples of the block size", "anchors": ["runtimepy/net/udp/tftp/io.py:tftp_chunks"]}
{"id": "C39", "title": "TFTP reads deliver the exact file or fail", "statement": "Under any loss, duplication, reordering and delay of datagrams, whatever a reader has written is a prefix of the served file, and if the read reports success the written file equals the served file.", "quantifier": "every file (with fewer than 2^16 blocks) and every network schedule", "why_tests_cant": "adversarial network schedules", "anchors": ["runtimepy/net/udp/tftp/__init__.py:TftpConnection.request_read", "runtimepy/net/udp/tftp/endpoint.py:TftpEndpoint.ingest_file", "runtimepy/net/udp/tftp/endpoint.py:TftpEndpoint.serve_file", "runtimepy/net/udp/tftp/endpoint.py:TftpEndpoint.handle_data"]}
{"id": "C40", "title": "TFTP packets round-trip", "statement": "Each TFTP packet kind (read/write request, data, ack, error) encodes and decodes back to the same fields for all file names and modes without zero bytes and all 16-bit block numbers.", "quantifier": "every packet", "why_tests_cant": "all strings and payloads", "anchors": ["runtimepy/net/udp/tftp/enums.py", "runtimepy/net/udp/tftp/base.py:BaseTftpConnection.process_datagram", "runtimepy/net/udp/tftp/base.py:BaseTftpConnection.send_data"]}
{"id": "C41", "title": "TFTP file access stays inside the root", "statement": "A requested file name resolves to a path inside the served directory (false of the code: parent components escape).", "quantifier": "every requested file name", "why_tests_cant": "the set of names is infinite; only some escape", "anchors": ["runtimepy/net/udp/tftp/endpoint.py:TftpEndpoint.get_path"]}
{"id": "C42", "title": "HTTP message framing is independent of how the stream is cut", "statement": "A stream of HTTP messages with content lengths delivered in arbitrary pieces yields the same messages, headers and bodies, as delivered at once.", "quantifier": "every message list and chunking", "why_tests_cant": "exponentially many chunkings; boundaries inside the blank line or the body", "anchors": ["runtimepy/net/http/__init__.py:HttpMessageProcessor.ingest", "runtimepy/net/http/state.py:HeaderProcessingState.service"]}
{"id": "C43", "title": "HTTP headers round-trip", "statement": "Printing a request or response header and parsing it gives the same method or status, target, version and header fields.", "quantifier": "every header with legal field names and values", "why_tests_cant": "all strings", "anchors": ["runtimepy/net/http/header.py:RequestHeader", "runtimepy/net/http/response.py:ResponseHeader", "runtimepy/net/http/common.py:HeadersMixin"]}
{"id": "C44", "title": "Telnet parsing separates text and commands", "statement": "A telnet byte stream is split into text (with escaped bytes restored) and commands with nothing lost, whatever the pieces in which it arrives (false of the code when a command is cut).", "quantifier": "every byte stream and chunking", "why_tests_cant": "only some cut points fail", "anchors": ["runtimepy/net/tcp/telnet/__init__.py:Telnet.process_binary"]}
{"id": "C45", "title": "JSON replies reach their requesters", "statement": "Each request awaiting a JSON reply is completed only by a reply carrying its own identifier, with that reply's content; a reply to one request never completes another; requests that time out report so.", "quantifier": "every interleaving of requests, replies and timeouts", "why_tests_cant": "schedule dependent", "anchors": ["runtimepy/message/interface.py:JsonMessageInterface.wait_json", "runtimepy/message/interface.py:JsonMessageInterface._handle_reserved"]}
{"id": "C46", "title": "Message identifiers of peers do not collide", "statement": "Identifiers handed out by one interface are pairwise distinct; the two ends of a subprocess peer hand out disjoint sets (the two ends of a network connection do not).", "quantifier": "every number of identifiers on both sides", "why_tests_cant": "unbounded sequences", "anchors": ["runtimepy/util.py:Identifier", "runtimepy/subprocess/peer.py:RuntimepyPeer"]}
{"id": "C47", "title": "JSON exchanges terminate", "statement": "A request sent to a peer causes only finitely many messages between the two ends (false of the code for an identifier-less loopback).", "quantifier": "every initial message", "why_tests_cant": "non-termination cannot be observed by a test", "anchors": ["runtimepy/message/interface.py:JsonMessageInterface.process_json", "runtimepy/message/handlers.py"]}
{"id": "C48", "title": "Connection enable state is consistent", "statement": "At every moment a connection is disabled exactly when its disabled event is set; disabling is idempotent, runs its extra actions once per enabled period, and leaves no connection task running.", "quantifier": "every history of enable, disable, restart and stop", "why_tests_cant": "history dependent", "anchors": ["runtimepy/net/connection.py:Connection.disable", "runtimepy/net/connection.py:Connection._set_enabled", "runtimepy/net/connection.py:Connection._handle_restart"]}
{"id": "C49", "title": "Outgoing messages keep their order", "statement": "Messages enqueued on a connection are sent in the order they were enqueued, each at most once, and while the connection stays enabled each is eventually sent.", "quantifier": "every interleaving of senders and the writer", "why_tests_cant": "schedule dependent", "anchors": ["runtimepy/net/connection.py:Connection.send_binary", "runtimepy/net/connection.py:Connection._process_write_binary"]}
{"id": "C50", "title": "Restart attempts are bounded", "statement": "A disabled connection attempts at most the configured number of restarts per processing call, stops at the first success or when the stop signal is set, and counts successes and attempts.", "quantifier": "every sequence of restart outcomes and stop times", "why_tests_cant": "every outcome sequence", "anchors": ["runtimepy/net/connection.py:Connection._handle_restart", "runtimepy/net/backoff.py:ExponentialBackoff"]}
{"id": "C51", "title": "Back-off grows", "statement": "Successive back-off waits never decrease and never exceed the maximum (the bound holds; growth is false of the code).", "quantifier": "every interval, maximum and number of attempts", "why_tests_cant": "the code's formula is monotone on no prefix a test would name", "anchors": ["runtimepy/net/backoff.py:ExponentialBackoff.sleep"]}
{"id": "C52", "title": "One processing task per connection", "statement": "The connection manager runs at most one processing task per connection at a time, and drops a connection only when it is disabled and not auto-restarting (the first part is false of the code).", "quantifier": "every interleaving of completions, new connections and disables", "why_tests_cant": "schedule dependent", "anchors": ["runtimepy/net/manager.py:ConnectionManager.manage"]}
{"id": "C53", "title": "Periodic tasks stop", "statement": "A periodic task stops after a dispatch that returns False, after being disabled, and after the stop signal is set, with at most one further dispatch (false of the code in the first two cases when a stop signal is supplied).", "quantifier": "every sequence of dispatch outcomes, disable calls and stop times", "why_tests_cant": "schedule dependent", "anchors": ["runtimepy/task/basic/periodic.py:PeriodicTask.run", "runtimepy/task/basic/periodic.py:PeriodicTask.disable"]}
{"id": "C54", "title": "Asynchronous tasks honour the iteration limit", "statement": "An asynchronous task with a positive iteration limit is dispatched at most that many times (false of the code for limits above 255).", "quantifier": "every limit and outcome sequence", "why_tests_cant": "the failing limits are above what tests try", "anchors": ["runtimepy/task/asynchronous.py:AsyncTask.run"]}
{"id": "C55", "title": "Application stages run in order and stop at the first failure", "statement": "Application stages run in the configured order; no stage runs after one whose exit code is non-zero; the overall exit code is zero exactly when every stage succeeded; each stage is recorded once with its result (the exit-code part is false of the code when codes cancel).", "quantifier": "every stage list and outcome", "why_tests_cant": "all outcome combinations", "anchors": ["runtimepy/net/arbiter/base.py:BaseConnectionArbiter._run_apps_list", "runtimepy/net/arbiter/base.py:BaseConnectionArbiter._run_apps", "runtimepy/net/arbiter/result.py"]}
{"id": "C56", "title": "Queued commands run in order exactly once", "statement": "Asynchronously queued commands are processed in the order they were enqueued, each once; if a command raises, it is not retried and the ones behind it are kept.", "quantifier": "every interleaving of enqueues and processing, every failing command", "why_tests_cant": "schedule and failure dependent", "anchors": ["runtimepy/mixins/async_command.py:AsyncCommandProcessingMixin.process_command_queue"]}
{"id": "C57", "title": "Path keys select the right components", "statement": "Splitting a URI path at a key yields exactly the components after the first occurrence of the key, and reports the key present exactly when it is a component.", "quantifier": "every path and key", "why_tests_cant": "all strings", "anchors": ["runtimepy/util.py:parse_path_parts", "runtimepy/util.py:path_has_part"]}
{"id": "C58", "title": "JSON path traversal returns the addressed element", "statement": "Traversing exported JSON data along a path returns the element addressed, and an error naming the failing step when there is none; it never raises.", "quantifier": "every document and path", "why_tests_cant": "all documents", "anchors": ["runtimepy/net/server/json.py:traverse_dict"]}
{"id": "C59", "title": "Traffic counters are exact modulo their width", "statement": "After any history of increments since the last reset, the message counter equals the number of messages modulo 2^32 and the byte counter the sum of sizes modulo 2^64.", "quantifier": "every history", "why_tests_cant": "unbounded histories", "anchors": ["runtimepy/metrics/channel.py:ChannelMetrics.increment", "runtimepy/metrics/channel.py:ChannelMetrics.reset"]}
{"id": "C60", "title": "Finalisation is one-way except in a bypass", "statement": "Once finalised, an object stays finalised outside bypass contexts, a bypass always ends with the context even if it fails, bypasses do not nest, and a strict second finalisation is refused.", "quantifier": "every history including failures inside the context", "why_tests_cant": "history and failure dependent", "anchors": ["runtimepy/mixins/finalize.py:FinalizeMixin"]}
{"id": "C61", "title": "Terminal cursor stays on screen", "statement": "After any history of cursor moves and size changes the cursor lies inside the last polled window (false of the code for negative moves and shrinking windows).", "quantifier": "every history", "why_tests_cant": "history dependent", "anchors": ["runtimepy/tui/cursor.py:Cursor"]}
{"id": "C62", "title": "Request targets parse completely", "statement": "Every request target is classified as one of the four forms and its path and query are recovered (the query is false of the code when it contains a second question mark).", "quantifier": "every target string", "why_tests_cant": "all strings", "anchors": ["runtimepy/net/http/request_target.py:RequestTarget"]}
{"id": "C63", "title": "Age of a primitive counts from its latest assignment", "statement": "Whatever was done to a primitive before, the age reported at time t is t minus the time of the latest assignment made through the API, or minus the creation time if there was none; registering or removing callbacks does not change it.", "quantifier": "all histories of assignments, increments, callback registrations and removals, and all later query times", "why_tests_cant": "A test checks a few sequences; the claim is about every interleaving of operations and clock readings.", "anchors": ["runtimepy/primitives/base.py:Primitive.age_ns", "runtimepy/primitives/base.py:Primitive.set_value"]}
{"id": "C64", "title": "TFTP writes store the exact file", "statement": "Under any loss, duplication, reordering and delay of datagrams, if either side of a TFTP write reports success, the file on the server equals the source file (false of the code: a repeated write request empties the file, an empty file is never reported as written; true when the request is delivered once).", "quantifier": "every source file and every network schedule", "why_tests_cant": "adversarial network schedules", "anchors": ["runtimepy/net/udp/tftp/endpoint.py:TftpEndpoint.ingest_file", "runtimepy/net/udp/tftp/endpoint.py:TftpEndpoint.handle_write_request", "runtimepy/net/udp/tftp/__init__.py:TftpConnection.request_write"]}
{"id": "C65", "title": "NP-05B outlet states follow the device", "statement": "Whatever the layout of the device's transcript in lines and frames, the known outlet states and channels are those of the latest accepted status reply and every status query is signalled once; a command to switch an outlet reports success exactly when the device has reported the outlet in that state in answer to the command's own query, and an outlet number that does not exist is refused.", "quantifier": "every list of exchanges, every layout, every cutting into frames, every history of commands, answers and time-outs", "why_tests_cant": "layouts, cuts and interleavings are unbounded; the bundled test device answers in one layout", "anchors": ["runtimepy/net/tcp/telnet/np_05b.py:Np05bConnection.process_text", "runtimepy/net/tcp/telnet/np_05b.py:Np05bConnection.process_response", "runtimepy/net/tcp/telnet/np_05b.py:Np05bConnection.set_outlet_state"]}
{"id": "C66", "title": "SCPI commands get their own replies", "statement": "Lines received from an SCPI device are given to the commands that wait for a reply in order, each once and none lost, and a command is given the reply to that very command.", "quantifier": "every history of commands, frames and time-outs", "why_tests_cant": "depends on the interleaving of commands, arrivals and time-outs", "anchors": ["runtimepy/net/tcp/scpi/__init__.py:ScpiConnection.send_command", "runtimepy/net/tcp/scpi/__init__.py:ScpiConnection.process_text"]}
{"id": "C67", "title": "An array built from keys has each bit-fields primitive once", "statement": "For every environment whose look-ups agree and every list of keys: the keys are accepted exactly when they stand for distinct names, each a channel or a field, with the fields of one bit-fields primitive next to each other, and then the names come out in order. Each primitive should be in the array once, however many of its fields are named; the code adds the bit-fields primitive again for every field.", "quantifier": "all environments (look-ups as functions, members of bit-fields unrestricted) and all lists of keys", "why_tests_cant": "the tests build arrays from a handful of names; contiguity has to be shown for every interleaving of any number of bit-fields", "anchors": ["runtimepy/channel/environment/array.py:43"]}
{"id": "C68", "title": "Loading an exported environment gives the same environment", "statement": "A channel environment built by successful calls (enumerations, channels, groups of bit-fields, single bit-fields) with unscaled channels can be loaded from its exported dictionary; every key then finds the same name, identifier, channel, enumeration and bit-field and reads the same value, except values that are not numbers. Exporting leaves the environment as it was.", "quantifier": "for all name patterns, primitives, groups, histories of successful calls, stored values, export modes and keys", "why_tests_cant": "The environments are built by arbitrary histories; tests export one sample environment and compare it.", "anchors": ["runtimepy/channel/environment/file.py:50-70", "runtimepy/channel/environment/file.py:122-153", "runtimepy/channel/environment/base.py:48-110", "runtimepy/channel/environment/base.py:429-444", "runtimepy/channel/environment/create.py:36-180", "runtimepy/primitives/field/manager/base.py:88-111", "runtimepy/primitives/field/manager/base.py:211-227"]}
{"id": "C69", "title": "A shown tab shows the environment's values", "statement": "While a browser tab is shown, every change of a channel's primitive gives the browser exactly one point, in order, with the value at that time and whatever other browsers do; once it has fetched its frame the browser shows the current value of every channel, also after the tab was hidden in between; a tab that is hidden or closed has no callback left on any primitive. A change between the last frame and hiding, a second shown, an unnamed enumeration value, NaN and a hidden before the first shown break this, and are stated as such.", "quantifier": "all environments (names, shared primitives, renderings, storage), any number of browsers, all sequences of assignments, shown, hidden, frame and close", "why_tests_cant": "The number of browsers, the order of their messages and of the assignments is unbounded; tests open one tab once", "anchors": ["runtimepy/net/server/websocket/state.py:22-93", "runtimepy/net/server/app/env/tab/message.py:18-77", "runtimepy/net/server/websocket/__init__.py:82-156", "runtimepy/primitives/base.py:102-166", "runtimepy/channel/environment/base.py:174-208"]}
{"id": "C70", "title": "Web requests are answered from the search directories, in a fixed order", "statement": "A GET is answered with the icon for /favicon paths, otherwise with the first matching file inside a search directory, otherwise with a registered redirect, otherwise with data when a part of the path is json, otherwise with the registered application, otherwise with a redirect to /404.html; nothing outside the search directories influences the answer. A POST gives the path components after the first, joined by spaces, as a command to the environment named by the first.", "quantifier": "every site (search directories, redirects, applications), every file system and every request target", "why_tests_cant": "Tests fetch a few known paths; they do not try targets that leave the search directories, nor names that share a stem with a markdown file.", "anchors": ["runtimepy/net/server/__init__.py:164-200", "runtimepy/net/server/__init__.py:202-304", "runtimepy/net/server/html.py:29-47", "runtimepy/util.py:25-31"]}
{"id": "C71", "title": "HTTP requests get their own responses", "statement": "For any number of tasks making requests over one HTTP connection, in any interleaving with the peer's answers, every request that returns has the response to itself; requests are answered in the order made, none lost or duplicated, and every request is answered once the peer has answered.", "quantifier": "all sequences of requests, responses, scheduling steps, cancellations and requests of the peer", "why_tests_cant": "Tests await one request after another; no test cancels a request that is waiting for its response or lets the peer send its own request meanwhile.", "anchors": ["runtimepy/net/tcp/http/__init__.py:66-80", "runtimepy/net/tcp/http/__init__.py:131-145", "runtimepy/net/tcp/http/__init__.py:174-199"]}
{"id": "C72", "title": "Incoming messages are processed in order, each once", "statement": "Every message a connection receives is handed to its handler exactly once, in the order of arrival, and every message received is handled eventually, across disconnections and restarts.", "quantifier": "all sequences of arrivals, scheduling steps, handler results and exceptions, disconnections and restarts", "why_tests_cant": "Tests use handlers that succeed and never close a connection with messages still queued; interleavings of arrival, handling and disabling are not enumerated.", "anchors": ["runtimepy/net/connection.py:188-203", "runtimepy/net/connection.py:297-335", "runtimepy/net/tcp/protocol.py:23-46", "runtimepy/net/udp/protocol.py:22-35"]}
{"id": "C73", "title": "Composed types have the size of their fields", "statement": "In a type system every type is found under the name it was registered with, no name is given to two types, and the size of a type is the sum of the sizes of its fields' types times their array lengths.", "quantifier": "all sequences of register, enum and add calls, all namespaces, names, array lengths and primitive sizes", "why_tests_cant": "Tests build two or three types in one namespace with distinct names, complete before use; orders of calls, name clashes and refused calls are not enumerated.", "anchors": ["runtimepy/codec/system/__init__.py:25-234", "runtimepy/codec/protocol/base.py:138-189", "runtimepy/primitives/serializable/base.py:141-161"]}
{"id": "C74", "title": "Names of an application's entities", "statement": "Within connections (deferred or not), structs and tasks a name is given to the first that asks and kept for good; a refused registration changes nothing. If names are also unique across kinds, including NAME.host and NAME.peer of processes that exchanged environments, start-up succeeds and every name leads to its own environment; every connection is queued for the manager. Otherwise start-up raises although every registration was accepted; a connection or struct called housekeeping always prevents it.", "quantifier": "all sequences of registrations of connections, structs, tasks and processes, all names", "why_tests_cant": "the tests' configurations use distinct names; clashes across kinds appear only at start-up and only for particular pairs of names", "anchors": ["runtimepy/net/arbiter/base.py:156-180", "runtimepy/net/arbiter/base.py:198-214", "runtimepy/net/arbiter/imports/__init__.py:99-130", "runtimepy/channel/environment/command/__init__.py:228-239", "runtimepy/task/basic/manager.py:27-34"]}
{"id": "C75", "title": "The pipes of a process deliver its messages and events", "statement": "The messages a host handles are always the first ones its process wrote to standard output, in order, however the bytes are cut; the events it ingests likewise, unless a chunk of standard error ends inside a value, which stops all later events. Bytes that arrive are counted or reported as left over. Foreign text on standard error ends the task that services both pipes; what is written before the queues exist, before the environments are exchanged, or after the task is cancelled is lost.", "quantifier": "all messages, events and ways of cutting them, all interleavings of arrival, servicing, closing pipes and exit", "why_tests_cant": "tests run one well-behaved child whose small writes arrive whole; chunk boundaries and timing are up to the operating system", "anchors": ["runtimepy/subprocess/protocol.py:79-113", "runtimepy/subprocess/__init__.py:47-148", "runtimepy/subprocess/peer.py:239-259", "runtimepy/subprocess/interface.py:214-247"]}
{"id": "C76", "title": "Captured log lines", "statement": "While a followed file only grows, what was appended is cut into pieces that end at line ends, each logged once, in order, stripped, unless blank; whole non-blank lines are each logged by the next dispatch; everything is read after one dispatch more than there are blank lines. A blank line ends a dispatch, a line written in parts is logged in parts, and content of a file written anew is skipped up to the old position.", "quantifier": "all contents, all appends and dispatches in any order, all texts", "why_tests_cant": "the test writes a few whole lines; interleavings with partial writes and blank lines depend on the writer's buffering", "anchors": ["runtimepy/mixins/logging.py:101-133"]}
{"id": "C77", "title": "What a connection keeps across restarts", "statement": "A connection goes on with its peer after any number of restarts: it sends to the address it was created for, keeps its local address, processes what arrived exactly once and in order, and is disabled only for a reason of its own (true of connected sockets and fixed ports; false of unconnected UDP sockets, free ports, waiting messages, late ends of replaced transports and the server's side).", "quantifier": "every history of arrivals, sends, errors, losses, disables, closes and restarts, over any number of transports", "why_tests_cant": "the failures need a restart combined with a particular kind of socket or a particular order of events in the loop", "anchors": ["runtimepy/net/udp/connection.py:UdpConnection", "runtimepy/net/tcp/connection.py:TcpConnection", "runtimepy/net/mixin.py:TransportMixin.set_transport", "runtimepy/net/tcp/protocol.py:QueueProtocol.connection_lost", "runtimepy/net/udp/protocol.py:UdpQueueProtocol"]}
{"id": "C78", "title": "Stepping an application", "statement": "Every change of a stepper's toggle polls each of its structs once per iteration asked for, counts the iterations, and under simulated time all structs of an iteration see the same time, one step after the previous iteration; the stepper's channels tell the time and who owns it (the polling and the simulated time hold; the time channel lags, ownership is lost with two steppers, derived steppers recurse and an exception cuts an iteration short).", "quantifier": "every history of toggles, commands, counts, time-source changes and passing time, any number of steppers, structs and iterations", "why_tests_cant": "needs several steppers, exceptions or long histories; the recursion has no bound", "anchors": ["runtimepy/control/step.py:ToggleStepper", "runtimepy/control/step.py:ToggleStepperTask.dispatch", "runtimepy/control/step.py:should_poll"]}
{"id": "C79", "title": "Prefixed messages over UDP are attributed to their senders", "statement": "A UDP connection for size-prefixed messages that receives any sequence of datagrams made of whole messages, from any peers, in any order and with any repetitions, handles exactly the messages of those datagrams, in the order of arrival, each for the address its datagram came from, and keeps no rest; what send_message sends is one such datagram, and an echo connection gives every peer its own messages back. The processor is shared by all peers: the messages found are those of all bytes in one stream, so a message cut over two datagrams is attributed to the sender of the second, and one stray prefix from anyone swallows the messages of everyone until its length has come. A handler that returns false ends the connection after its datagram; one that raises ends the reader of a connection that stays enabled. A message sent without an address goes nowhere on a socket that is not connected, even when the connection has a remote address.", "quantifier": "for all prefix kinds, byte orders, messages, peers, datagrams, orders, losses and repetitions, handlers", "why_tests_cant": "needs interleavings of several peers, cut datagrams at every byte and unbounded sequences", "anchors": ["runtimepy/net/stream/__init__.py:31-82", "runtimepy/net/stream/base.py:16-72", "runtimepy/net/stream/string.py:13-31", "runtimepy/net/udp/connection.py:94-117", "runtimepy/net/udp/connection.py:195-212", "runtimepy/message/__init__.py:21-85"]}
{"id": "C80", "title": "Struct telemetry over UDP", "statement": "The datagrams of a sender split its samples into runs of whole samples. Whatever arrives of them, in any order and with any repetitions, a receiver with a struct of the same layout sees exactly the samples of the datagrams that arrive, in order of arrival, each with its own time stamp and the address it came from; the sequence numbers of two samples agree exactly if their distance is a multiple of 65536. A connected socket sends every frame to its peer. A datagram of another length from anyone ends the reader of a connection that stays enabled; any bytes of a fitting length from anyone are taken as samples; no frame leaves a socket that is not connected, although its connection has a remote address; and assigning a struct to send sends as many copies of it as fit the default MTU, which a receiver takes for samples.", "quantifier": "for all layouts, sample histories, MTUs, arrivals, addresses and stray datagrams", "why_tests_cant": "needs loss, duplication and reordering over unbounded histories and wrap-around of the sequence number", "anchors": ["runtimepy/net/arbiter/struct/__init__.py:93-204", "runtimepy/net/mtu.py:39-111", "runtimepy/primitives/serializable/framer.py:13-73", "runtimepy/net/udp/connection.py:93-106", "runtimepy/net/udp/connection.py:195-212"]}
{"id": "C81", "title": "An application is what its configuration says", "statement": "A new arbiter accepts a configuration exactly when every factory can be imported and is one, factories of one kind have different class and snake-case names, every client, server, task, struct and process names a factory of its kind, and names are distinct (those of clients with the namespaces of their factory); it then holds exactly the entries listed, in order, each made by the first factory with that name, and listing a factory again changes nothing. Every file is merged once, in order of first mention, and what the files say can be had back. Refused configurations are not undone, refused clients stay open, a clash of struct or process classes is a TypeError, a package added to the front comes last, an arbiter loads once, and the configuration given to the constructor gives no parameters.", "quantifier": "every configuration, every import outcome, every naming", "why_tests_cant": "the tests load a few valid files; clashes, order of search packages, leftovers after a refusal and the constructor's configuration are not looked at", "anchors": ["runtimepy/net/arbiter/config/__init__.py:54", "runtimepy/net/arbiter/config/__init__.py:135", "runtimepy/net/arbiter/imports/__init__.py:131", "runtimepy/net/arbiter/factory/connection.py:80", "runtimepy/net/arbiter/info.py:291"]}
{"id": "C82", "title": "Starting an application", "statement": "An application is entered only after every server has started and the initialisation of every connection has ended, with every connection enabled if they are checked, and refused only for a disabled connection; when all servers have started and all connections are initialised, it is entered or refused. A server that fails to start, or an initialisation that raises or is cancelled by disabling its connection, keeps the application from ever starting or stopping, unless the connection is restarted.", "quantifier": "every number of servers and connections, every order of their events and of the main coroutine", "why_tests_cant": "the tests start servers that do start and connections whose initialisation returns; a hang is not observable by a test that ends", "anchors": ["runtimepy/net/arbiter/base.py:206", "runtimepy/net/arbiter/base.py:248", "runtimepy/net/connection.py:212"]}
{"id": "C83", "title": "Finding an application's connections", "statement": "A search gives exactly the connections of a kind that are registered under a name it matches or, with the default pattern, managed, each once unless it has two names; a single connection is the only one a search gives; tasks and structs are found exactly by name and kind. Names given to a search with the default pattern do not narrow it.", "quantifier": "every set of registered and managed connections, all kinds and names", "why_tests_cant": "the tests search by pattern, or by kind where the count is expected; names with the default pattern are never used", "anchors": ["runtimepy/net/arbiter/info.py:199", "runtimepy/net/arbiter/info.py:247", "runtimepy/net/manager.py:47"]}
{"id": "C84", "title": "Two websocket connections", "statement": "Whatever the order of events, the texts a connection has read are the first texts its peer was asked to send, in order, and the same holds for binary messages; everything arrives once queues and wire are empty while the sender is enabled; an echo gives each type back in order; received lengths are counted exactly. The order between texts and binary messages is not kept, a refused message is counted as sent, and what is under way to a disabled connection is lost.", "quantifier": "every interleaving of sends, reading and writing tasks, disabling and closing; every handler", "why_tests_cant": "the tests exchange one type of message at a time with an idle event loop", "anchors": ["runtimepy/net/websocket/connection.py:70", "runtimepy/net/connection.py:321", "runtimepy/net/connection.py:386"]}
{"id": "C85", "title": "Ports of a configuration", "statement": "Each port of a configuration gets the override of its name, else its own number, else a free one, and is written back; in arguments, at any depth and between the colons of a client's texts, $name becomes that number and nothing else changes; the server command makes a server and a loopback client that meet at one port, over TCP, UDP and websockets.", "quantifier": "every list of ports, overrides, arguments and command lines, whatever sockets the system grants", "why_tests_cant": "the tests use three factories and free ports, never overrides with repeated names, paths behind ports, or a host", "anchors": ["runtimepy/net/arbiter/config/codec.py:36", "runtimepy/net/arbiter/config/util.py:24", "runtimepy/commands/server.py:60", "runtimepy/net/arbiter/config/__init__.py:163"]}
{"id": "C86", "title": "Connections that share the UI struct", "statement": "The number of connections shown by the UI struct is the number of enabled connections that joined it; exactly one of them polls the struct, so that its time follows the frames.", "quantifier": "every history of connections, frames and the moment the struct is finalised; any number of connections", "why_tests_cant": "the tests open one or two connections; three with the first one leaving, or 257, are not tried", "anchors": ["runtimepy/net/server/websocket/__init__.py:45", "runtimepy/net/server/websocket/__init__.py:71", "runtimepy/net/server/websocket/__init__.py:148", "runtimepy/net/server/struct/__init__.py:35"]}
{"id": "C87", "title": "Remote commands have at the peer the effect of the command", "statement": "A command entered in one program for its peer has on the environment it names there exactly the effect it would have if entered there, in the order of entry and once; it changes nothing in the sender; nothing comes back but the reply; an unknown environment is refused.", "quantifier": "every line, parser meeting argparse's laws, environment, and interleaving of entry and queue processing on both sides", "why_tests_cant": "the text is rebuilt and parsed again; any tokens, flags and schedule", "anchors": ["runtimepy/subprocess/interface.py:RuntimepyPeerInterface.handle_command", "runtimepy/message/handlers.py:channel_env_handler", "runtimepy/mixins/async_command.py:AsyncCommandProcessingMixin.process_command_queue", "runtimepy/channel/environment/command/processor.py:RemoteCommandProcessor"]}
{"id": "C88", "title": "A recorded run can be loaded and replayed", "statement": "A session of event telemetry output that ends normally can be loaded from its directory: the selected environments and channels with the values at the start; each file of events holds the start value and then every change of every selected channel in order, replays to the values at the end, and some prefix of it to the values at any moment in between; channels that are not selected are left; afterwards another session can be started.", "quantifier": "every set of environments and channels, selection, initial values and sequence of assignments", "why_tests_cant": "any interleaving of assignments over any number of environments", "anchors": ["runtimepy/channel/environment/command/__init__.py:GlobalEnvironment.event_telemetry_output", "runtimepy/channel/environment/command/__init__.py:GlobalEnvironment.from_root", "runtimepy/channel/environment/command/__init__.py:GlobalEnvironment.file_event_stream", "runtimepy/channel/registry.py:ChannelRegistry.registered", "runtimepy/channel/event/__init__.py:PrimitiveEvent.registered"]}
{"id": "C89", "title": "The host's copy of a peer program's environment follows the program", "statement": "A host and the program it runs exchange environments; from then on the host's copy, with the events under way applied, has the program's values of every channel and bit-field group, and what it shows is a state the program was in, no older than what has been handled; without time-outs the exchange completes under every fair schedule, after any output the program wrote before it.", "quantifier": "every interleaving of both processes and three pipes, set of cells, values, early output and time-outs", "why_tests_cant": "interleavings of two processes; the order of three independent pipes", "anchors": ["runtimepy/subprocess/peer.py:RuntimepyPeer._context", "runtimepy/subprocess/program.py:PeerProgram.running", "runtimepy/subprocess/program.py:PeerProgram.io_task", "runtimepy/subprocess/interface.py:RuntimepyPeerInterface._set_peer_env", "runtimepy/subprocess/interface.py:RuntimepyPeerInterface.handle_stderr", "runtimepy/channel/environment/telemetry.py:TelemetryChannelEnvironment.registered"]}
{"id": "C90", "title": "TFTP datagrams reach the transfer they belong to", "statement": "On one TFTP connection, what each endpoint of a host has received, awaits and sends depends only on the events of that host, and the transfer with a host follows the address its server answers from: the first answer re-points the endpoint, later blocks and acknowledgements from there reach it, its own datagrams go there, and other ports do not reach it.", "quantifier": "all sequences of requests, datagrams, waits and time-outs with any number of hosts and ports, any hostname function", "why_tests_cant": "tests run one client against one server on the local host", "anchors": ["runtimepy/net/udp/tftp/base.py:131-185", "runtimepy/net/udp/tftp/base.py:276-370", "runtimepy/net/udp/tftp/endpoint.py:78-141"]}
{"id": "C91", "title": "Controls of a channel table do what they show", "statement": "A row of a channel table has controls only if its channel or field is commandable, then exactly one for its value; a toggle inverts the value, choosing an option of a drop-down makes the value that option's name, the option marked selected is the current value's name, a reset button and the set-defaults button restore defaults, and nothing else changes.", "quantifier": "all environments, states, enumerations and default values", "why_tests_cant": "tests render one page and press no button; enumerations with gaps, names that look like numbers, scaled defaults are not tried", "anchors": ["runtimepy/net/server/app/env/tab/controls.py:39-157", "runtimepy/net/server/app/env/tab/html.py:91-181", "runtimepy/net/server/app/env/widgets.py:54-68", "runtimepy/data/js/classes/TabInterface.js:130-184"]}
{"id": "C92", "title": "The text interface shows every channel's current value", "statement": "After starting and after every update, the row of each channel shows its name and, in the value column, the text of its current value and nothing else.", "quantifier": "all window sizes, channel names and sequences of values", "why_tests_cant": "tests use a mock window that discards what is drawn", "anchors": ["runtimepy/tui/channels/__init__.py:53-139", "runtimepy/tui/mixin.py:61-83"]}
{"id": "C93", "title": "Pages of the web application", "statement": "After setup each path serves the page composed by its own application; with caching the document composed first is served from then on, without it the current one. The page has exactly one tab for every connection, task, struct and side of a process, in this order with the first active, each tab's script finds its own content and button by identifier, and the tab filter hides exactly the inactive tabs whose names do not match.", "quantifier": "all registrations, all sequences of requests and changes of the application, all lists of names", "why_tests_cant": "The cache is global and lives as long as the process; collisions depend on the names users choose for connections and tasks, tests use a few harmless ones.", "anchors": ["runtimepy/net/server/app/create.py:36-98", "runtimepy/net/server/app/__init__.py:59-94", "runtimepy/net/server/html.py:29-47", "runtimepy/net/server/app/env/__init__.py:20-159", "runtimepy/net/html/bootstrap/tabs.py:20-147", "runtimepy/data/js/classes/TabFilter.js:1-48"]}
{"id": "C94", "title": "The hash of the window restores the view", "statement": "Loading a page with the hash another page built restores that page's view: the shown tab, the tab and channel filters, hidden tabs and channels, the theme, the minimum period and exactly the plotted channels, without an exception. A new window shows the button's tab with the same view and leaves the state of the old window as it was.", "quantifier": "all pages, views, names and filters", "why_tests_cant": "The text is built and parsed by hand, without escaping; the JavaScript is not tested at all.", "anchors": ["runtimepy/data/js/classes/WindowHashManager.js:1-274", "runtimepy/data/js/classes/App.js:9-62"]}
{"id": "C95", "title": "A plot shows the last points of its channel", "statement": "The point buffer of a plotted channel shows the points ingested since the last clearing, in order, none twice, and always the last ones up to one fewer than its capacity, also across changes of capacity; when drawn, the oldest time is at the left border and the newest at the right, the least value at the lower border and the greatest at the upper.", "quantifier": "for all capacities of at least two, all sequences of ingests, clearings and changes of capacity, all points and bounds", "why_tests_cant": "The ring wraps at a point that depends on the whole history; the code is JavaScript that runs in a worker of the browser and no test of the repository executes it.", "anchors": ["data/js/classes/PointBuffer.js:1-193", "data/js/classes/PointManager.js", "data/js/classes/OverlayManager.js:112-121", "data/js/classes/PlotDrawer.js:118-195"]}
{"id": "C96", "title": "A tab plots the channels whose boxes are checked", "statement": "Once a tab has its plot, a channel has a line exactly while its box is checked; the line shows the points the channel got since it was switched on or cleared, in order; every shown point of every channel lies within the two times the horizontal axis is scaled to; every tab that is shown gets a plot.", "quantifier": "for all sequences of messages about any number of tabs and channels", "why_tests_cant": "Switching, showing, clearing, scrolling and points interleave arbitrarily in a worker of the browser; no test of the repository executes its JavaScript.", "anchors": ["data/js/classes/PlotManager.js:1-185", "data/js/classes/PlotDrawer.js:1-205", "data/js/worker.js:1-90"]}
{"id": "C97", "title": "Queued commands of every item are run by housekeeping", "statement": "Commands queued for connections, tasks and structs are started in order and each once; whenever the housekeeping task dispatches, all commands queued until then are started before its next period, and with no connection task running a dispatch whose handlers return empties every queue. A handler that raises, or a connection task cancelled while awaited, must not keep later commands from being started, nor must a long connection task (false of the code).", "quantifier": "all interleavings of queueing, dispatching, handlers returning or raising, and connection tasks starting and ending, for any number of items", "why_tests_cant": "Tests queue one command at a time against handlers that answer; none disables a connection during a transfer or lets a remote command time out while other items have commands.", "anchors": ["runtimepy/net/arbiter/housekeeping/__init__.py:50-74", "runtimepy/mixins/async_command.py:45-66", "runtimepy/net/connection.py:367-383", "runtimepy/net/manager.py:40-45", "runtimepy/task/basic/periodic.py:139-186"]}
{"id": "C98", "title": "The channel table of a tab shows the last values received", "statement": "After every frame of the browser the shown tab shows, for each channel of its table, the last value that came for it, and marks a row stale exactly if its last message is longer ago than the threshold; integers and floats are shown exactly or correctly rounded to five places, names as they are; what enter sends is what was typed. (Refuted where false: NaN or infinity anywhere in a message, names that begin with digits, integers beyond 2^53, updates while typing, tabs shown again, alignment of negative integers.)", "quantifier": "all pages, all sequences of messages, frames, tab changes and typing, all values", "why_tests_cant": "There are no tests of the browser code; server tests never parse what is sent with a strict JSON parser.", "anchors": ["runtimepy/data/js/classes/ChannelTable.js:36-92", "runtimepy/data/js/classes/TabInterface.js:337-421", "runtimepy/data/js/classes/JsonConnection.js:37-92", "runtimepy/net/server/app/env/tab/message.py:30-66"]}
{"id": "C99", "title": "Starting and stopping a periodic task", "statement": "If stop and task are called one after the other, at most one run of the task is alive and it is the one stop would stop; stop ends it and afterwards no dispatch starts until task is called; if no call comes during a dispatch, at most one dispatch goes on at a time.", "quantifier": "all interleavings of calls, runs, dispatches, cancellations and the stop signal", "why_tests_cant": "The overlaps need a call to arrive in the middle of a dispatch or of another call; tests start and stop once.", "anchors": ["runtimepy/task/basic/periodic.py:139", "runtimepy/task/basic/periodic.py:189", "runtimepy/task/basic/periodic.py:211"]}
{"id": "C100", "title": "Floating-point primitives", "statement": "A float or double primitive holds the value of its format nearest to what was assigned (ties to even, infinity beyond the range), sends it exactly, tells its callbacks of every change with the value it then has, and compares equal exactly to primitives with the same value.", "quantifier": "all doubles, all formats, all previous values", "why_tests_cant": "Rounding, ties, subnormals, NaN and signed zeros are a set of measure zero among test values.", "anchors": ["runtimepy/primitives/float.py:20", "runtimepy/primitives/types/float.py:12", "runtimepy/primitives/base.py:156", "runtimepy/primitives/base.py:199"]}
{"id": "C101", "title": "Timing and metrics of a periodic task", "statement": "However long dispatches, sleeps and pauses take and however the period is changed: the dispatch counter is the number of dispatches that came to an end and the overrun counter the number of those that took longer than the period, each modulo its width; a dispatch starts no sooner after the one before than the period and than that one took, so k dispatches take at least k periods; with a constant period the durations of dispatches do not add up; a paused task counts nothing and looks at its flags no more than once a period.", "quantifier": "all lists of turns with arbitrary durations, periods, pauses, delays and outcomes", "why_tests_cant": "overruns together with pauses and counters near their width do not occur in tests that run for fractions of a second", "anchors": ["runtimepy/task/basic/periodic.py:139-187", "runtimepy/metrics/task.py:49-77"]}
{"id": "C102", "title": "Tasks that follow their dispatch counter", "statement": "Whatever channels are written between dispatches: from a dispatch with counter k until the next one, the sinusoid shows the current amplitude times sine and cosine of k steps plus the current phase; n dispatches with n steps are one period, also when the counter starts again; values never exceed the amplitude. The telemetry task with flush count n never leaves n samples waiting, over any number of ends of the counter.", "quantifier": "all histories of channel writes and dispatches, all real amplitudes, phases and steps, any number of dispatches", "why_tests_cant": "the counter wraps after 2^32 dispatches; tests check neither the values of the wave nor when telemetry is flushed", "anchors": ["runtimepy/mixins/trig.py:15-83", "runtimepy/task/trig/__init__.py:12-26", "runtimepy/telemetry/sample.py:57-99"]}
{"id": "C103", "title": "A peer process handles all it was sent before it ends", "statement": "A peer process handles the messages of its host in order; a process that ends cleanly has handled everything its host wrote, returned from main and cleaned up; once its pipe is closed it ends by itself; its host returns only when it has ended.", "quantifier": "all interleavings of host, reader, program and heartbeat; all message sequences; all fair schedules", "why_tests_cant": "interleavings of two processes and four tasks; tests run one schedule", "anchors": ["runtimepy/subprocess/program.py:96-127", "runtimepy/subprocess/program.py:169-215", "runtimepy/subprocess/__init__.py:28-69"]}
{"id": "C104", "title": "Leaving an application", "statement": "When an application is left, every context entered on its stack is left, once and last first, before its connections are disabled, then the stop signal is set, then every pending server and the manager are cancelled and awaited; it returns what its stages gave.", "quantifier": "all sequences of contexts and exceptions, all connections and tasks", "why_tests_cant": "combinations of exceptions while leaving are not exercised", "anchors": ["runtimepy/net/arbiter/base.py:344-380", "runtimepy/net/arbiter/base.py:434-463"]}
{"id": "C105", "title": "Connecting is tried again", "statement": "A host that refuses is tried again, after the waits of the back-off, until it accepts or the tries are used up; the transport returned is that of the first attempt and address that work.", "quantifier": "all sequences of outcomes, all numbers of addresses and tries", "why_tests_cant": "tests need a network that fails in chosen ways over many attempts", "anchors": ["runtimepy/net/tcp/create.py:23-77", "runtimepy/net/udp/create.py:21-82", "runtimepy/net/util.py:215-232"]}
{"id": "C106", "title": "The browser takes server messages apart exactly", "statement": "What the page's JsonConnection sends for a text is byte for byte what the server's encode writes, so that the server receives exactly the texts sent; a websocket message made of any number of server messages is taken apart into exactly these, in order; of each message the registered handlers are called once with the values of their keys, and the page answers exactly the messages with an identifier or a loopback, repeating these two keys and nothing else. A handler that throws loses the rest of the frame and the answer, and three key names throw by themselves.", "quantifier": "all lists of messages, all contents, all cuts of the stream, all sets of handlers", "why_tests_cant": "The page's code runs in no test of the package; framing errors show only for particular lengths and concatenations", "anchors": ["runtimepy/data/js/JsonConnection.js:36-91", "runtimepy/message/__init__.py:39-85"]}
{"id": "C107", "title": "A server and a browser: requests are answered and traffic dies out", "statement": "In a conversation of a server's JSON connection with a page, in any interleaving of requests, other messages, deliveries, returns and time-outs: requests carry different identifiers, each is answered at most once with exactly the loopback it carried, and once nothing is under way each has been; there are at most two messages per request or message of the page and one per other message of the server, and from any state the messages under way cause at most one more each. It fails for a loopback sent without identifier, which goes to and fro for ever, and for channel commands, whose answer lacks the key looked up.", "quantifier": "all interleavings of any length, all message contents, all handlers that make no loopback out of nothing", "why_tests_cant": "Tests open no page; an endless exchange shows only as load", "anchors": ["runtimepy/data/js/JsonConnection.js:38-62", "runtimepy/message/interface.py:213-330", "runtimepy/data/js/worker.js:55-105"]}
{"id": "C108", "title": "Sliders set and show what their controls say", "statement": "For all bounds and numbers of steps, the slider of a channel has its positions between the bounds in equal steps, with as many steps as asked for; every position can be set and is sent to the server, and the slider shows the channel's value to the nearest position unless it is held.", "quantifier": "all bounds, steps, values and histories of pointer and channel events", "why_tests_cant": "tests build one page and never move a slider in a browser", "anchors": ["runtimepy/net/html/bootstrap/elements.py:131", "runtimepy/ui/controls.py:31", "runtimepy/net/server/app/env/tab/controls.py:118", "runtimepy/data/js/init.js:34", "runtimepy/data/js/classes/ChannelTable.js:74"]}
{"id": "C109", "title": "The browser asks for frames at the rate set", "statement": "For all times of animation frames and all changes of the period, the messages a browser sends are never closer than the period and follow at the first frame after it.", "quantifier": "all sequences of frames and settings", "why_tests_cant": "depends on timing in a browser", "anchors": ["runtimepy/data/js/worker.js:87", "runtimepy/data/js/classes/App.js:86"]}
{"id": "C110", "title": "The text over a plot", "statement": "For a whole number of nanoseconds the overlay of a plot shows the value in the largest of ns, us, ms and s that is not above it, cut after three decimals; longer durations never show as shorter ones; each frame draws exactly the lines of the present state, one per row, the longest ending at the right edge; the overlay is hidden after an odd number of clicks; all lines end at the right edge as long as the numbers have at most four digits before the point.", "quantifier": "all durations, all histories of frames, clicks, sizes, spans and depths", "why_tests_cant": "The loop over units and the state of the overlay range over all numbers and histories; tests look at a few durations and nothing looks at the canvas.", "anchors": ["runtimepy/data/js/classes/UnitSystem.js:7-33", "runtimepy/data/js/classes/OverlayManager.js:1-113"]}
{"id": "C111", "title": "Filters follow what is typed", "statement": "Whatever keys are pressed in the filter of a tab's channels, the rows shown are those whose names match the last pattern that is an expression. With characters, Backspace and Enter typed at the end of the text that pattern is the text of the box; every other key, and every key inside the text, makes pattern and text differ until the next character typed at the end. A pattern that is no expression changes no row but is kept, and a page opened from such a hash does not reach its main loop; from a hash without separators in its texts a page starts exactly if all filters in it are expressions. The tab filter never hides the button of the tab shown on a page that was loaded without hash, and shows exactly the matching ones and that; a link may open a tab whose button is hidden.", "quantifier": "All sequences of keys, patterns, pages, views, expression tests", "why_tests_cant": "Sequences of keys with caret movements, and reloads between any two of them, are unboundedly many; no test drives the page.", "anchors": ["runtimepy/data/js/classes/TabInterface.js:80-112", "runtimepy/data/js/classes/TabFilter.js:17-47", "runtimepy/data/js/classes/App.js:31-62"]}
{"id": "C112", "title": "A page finds its connections and starts", "statement": "A page's worker connects for messages to the last configured port whose name is one for the page's scheme and has no 'data' in it, and for data to the last one that has, on the configured host or the page's own; without either the page never runs. If neither connection closes and both open, the page runs once the worker and the main thread have taken their turns, in whatever order that happens; it never runs otherwise. From then on every message for the tabs reaches them once and in order, and a close of either connection reloads the page. A close before the worker is ready leaves the page stuck, neither running nor reloaded, whatever follows.", "quantifier": "All lists of ports, hosts, and interleavings of openings, closings, messages and turns of the two threads", "why_tests_cant": "The failing orders depend on when a connection closes between two asynchronous steps of two threads; no test of the package runs a page.", "anchors": ["runtimepy/data/js/util.js:1-32", "runtimepy/data/js/worker.js:35-88", "runtimepy/data/js/classes/App.js:14-64", "runtimepy/data/js/classes/JsonConnection.js:92-111"]}
{"id": "C113", "title": "Boxes, colours and the list of plotted channels agree", "statement": "At every moment the settings list exactly the channels whose boxes are checked, each once; the button for the colour of a channel is shown exactly while its box is checked; the last message the server got about a channel is the state of its box; every line of every plot has the colour of its channel's button; clearing the plotted channels of a tab unchecks all its boxes and touches no other tab.", "quantifier": "for all pages, all names of channels, all sequences of clicks, clearings, restored hashes, shown tabs and redrawings, all drawn colours", "why_tests_cant": "The state is kept four times, in the boxes, two dictionaries of the page and the worker, and elements are found by identifiers built from channel names; no test of the repository executes its JavaScript.", "anchors": ["runtimepy/data/js/classes/TabInterface.js:238-315", "runtimepy/data/js/classes/WindowHashManager.js:47-103", "runtimepy/data/js/classes/PlotModalManager.js:1-43", "runtimepy/data/js/init.js:45-47", "runtimepy/data/js/classes/PlotManager.js:9-81", "runtimepy/net/server/app/env/tab/html.py:33-47"]}
{"id": "C114", "title": "Hosts as keys and the size of datagrams", "statement": "Taking a host apart and normalising it gives the same host; over any history each address has one name and one text, although the name service may change its answers, and each address has exactly one endpoint object, found at every call although hashes collide; the first discovered size for a pair of hosts is what the sockets reported then, or the fallback, and stays the answer; probes leave from a free port of the local host to the peer; a socket keeps its options and every socket made is closed.", "quantifier": "for all hosts, all hash functions of texts, all answers of the name service and the sockets, all histories", "why_tests_cant": "Tests run against one name service and one loopback device whose answers do not change; that a key is found again depends on every answer between the two look-ups.", "anchors": ["runtimepy/net/util.py:18-172", "runtimepy/net/mtu.py:39-143", "runtimepy/net/udp/tftp/base.py:164-185"]}
{"id": "C115", "title": "Log messages reach the boxes of their tabs", "statement": "Every record logged at a level that the nearest level set allows arrives in the box of every tab following its logger or one above, on every open page, exactly once and in order, after the next frame; starting a tab twice doubles nothing; clearing empties that box only; once a connection closed no logger keeps a handler or record for it; the values of channels sent to a tab reach exactly their rows.", "quantifier": "for all hierarchies of loggers, all levels, all numbers of pages and tabs, all histories of starting, logging, level changes, frames, deliveries, clearings and closing; all messages to a tab", "why_tests_cant": "The order of records, frames, deliveries and closing pages is concurrent, and the page part runs in a browser; no test of the repository executes its JavaScript.", "anchors": ["runtimepy/net/server/websocket/state.py:39-107", "runtimepy/net/server/websocket/__init__.py:84-157", "runtimepy/net/server/app/env/tab/message.py:40-86", "runtimepy/mixins/logging.py:32-66", "runtimepy/data/js/classes/TabInterface.js:330-421"]}
{"id": "C116", "title": "Structs get the names asked for and their final poll", "statement": "Setting up an environment with names pushed to any depth leaves the namespace as it was and adds the asked channels in order up to the first clash, each named by its path; metrics of tasks and connections clash exactly for equal names of the same kind. The poll command polls as often as asked; sources set each output to amplitude times value. However an application ends, every struct that asks for it gets exactly one final poll, the last first, after all tasks stopped and before peers end.", "quantifier": "every nesting of names and environment, any registrations, arguments of the command, amplitudes and values, any structs, peers and ways to end", "why_tests_cant": "tests use a few fixed environments and one way to stop", "anchors": ["runtimepy/mixins/environment.py:34", "runtimepy/net/arbiter/info.py:53", "runtimepy/struct/__init__.py:52", "runtimepy/control/source.py:15", "runtimepy/net/arbiter/base.py:220"]}
{"id": "C117", "title": "A prefix leads to the web application", "statement": "Every prefix of the configuration leads a browser over its index to a page of the application, redirects and paths written in the configuration itself come first and stay, building twice changes nothing, registration succeeds exactly for sources that differ as paths, other paths are answered as before, and the browser is opened for exactly the ports named like a server.", "quantifier": "all configurations, prefixes, sites, file systems and queries", "why_tests_cant": "tests use one prefix and follow no redirects; spellings of one path, repeated set-up and redirect cycles are not tried", "anchors": ["runtimepy/net/html/arbiter.py:9-32", "runtimepy/net/server/app/__init__.py:26-94", "runtimepy/net/server/__init__.py:68-135", "runtimepy/data/server_base.yaml:17-27"]}
{"id": "C118", "title": "A request for TLS is honoured exactly", "statement": "For every dictionary of keyword arguments: TLS is used exactly if use_ssl is true or cafile, capath, cadata or certfile is present; then exactly one context is made, for the caller's side, from exactly the named authorities and certificate; no connection is made without TLS when it was asked for; all arguments that do not ask for TLS are handed on unchanged and those that do are consumed; a restarted connection uses TLS as the first one did; a websocket client without options uses TLS exactly for addresses beginning with wss; the server command's options reach the server and its loopback client's address agrees with the server.", "quantifier": "all argument dictionaries, all values, all outcomes of making a context, any number of restarts, all addresses, all command-line options", "why_tests_cant": "Tests try a certificate pair on one port; dictionaries of arguments, their combinations and histories of restarts are unbounded.", "anchors": ["runtimepy/net/ssl.py:10", "runtimepy/net/tcp/create.py:22", "runtimepy/net/tcp/connection.py:111", "runtimepy/net/websocket/connection.py:92", "runtimepy/commands/server.py:17"]}
{"id": "C119", "title": "The page's scripts are gathered in order and read by the browser as they were composed", "statement": "For every set of files, class lists and tabs: an element is added exactly if one of its files is found and holds all found files in order; the worker's program is its classes and then its main file, complete before any other script runs; the main thread's program is init, events, the classes, one initialisation per tab in order with the tab's file inside, util and main; if files and names contain neither an end tag nor a comment start, a browser's script tokenizer reads back exactly those scripts; a tab's object gets the tab's name exactly if the name has no quote, backslash or line break; exactly the first tab is active.", "quantifier": "all file systems, all names, all numbers of tabs and classes, all texts", "why_tests_cant": "Tests fetch one page and never parse it; texts, names and numbers of tabs are unbounded and the parsing happens in a browser.", "anchors": ["runtimepy/net/html/__init__.py:90", "runtimepy/net/server/app/base.py:44", "runtimepy/net/server/app/tab.py:63", "runtimepy/net/html/bootstrap/tabs.py:120", "runtimepy/data/js/init.js:8"]}
{"id": "C120", "title": "Names are exactly those of the patterns, and safe where they are used", "statement": "The two patterns of mixins/regex.py accept exactly the non-empty texts over their characters, not even with a line break at the end; no registry and no boolean enumeration ever holds another name, after any registrations; names joined by namespaces are valid exactly if their parts are, and differ if no part has a dot; in a command line a channel's name is one word; a valid name can be a tab's name without harm to the page.", "quantifier": "all texts, all registrations, all stacks of namespaces, all command words", "why_tests_cant": "Tests register a few good names and one bad one; the language of the patterns and its consequences range over all texts.", "anchors": ["runtimepy/mixins/regex.py:14", "runtimepy/mapping.py:62", "runtimepy/registry/name.py:37", "runtimepy/registry/bool.py:12", "runtimepy/channel/environment/command/processor.py:173", "runtimepy/channel/environment/command/parser.py:41"]}
{"id": "C121", "title": "Sample telemetry is sent in order and within the flush count", "statement": "The telemetry task sends the samples it polls in order, each once, in datagrams of one to L samples (L the number fitting the MTU), fewer than L waiting at any time. While flush_count stays n >= 1, fewer than n samples wait, also across the wrap of the 32-bit dispatch counter; undisturbed, the first sample is sent alone and then n at a time. Setting flush_count to 0 ends the task with the next round, for good. Commands are queued and never taken out.", "quantifier": "all L >= 1, all flush counts, all sequences of rounds, settings and pauses", "why_tests_cant": "Tests run a few dozen rounds; delays over any history of commands and the wrap after 2^32 rounds need an induction.", "anchors": ["runtimepy/telemetry/sample.py", "runtimepy/net/arbiter/struct/__init__.py", "runtimepy/primitives/serializable/framer.py", "runtimepy/metrics/task.py", "runtimepy/task/basic/periodic.py"]}
{"id": "C122", "title": "A websocket server keeps a connection until it is disabled or the server stops", "statement": "For every interleaving of server handlers, the manager's rounds, processing tasks and peers: the server closes a connection only if its init refused it or raised, if it was disabled, or at the stop signal; accepted connections are taken by the manager in order, each once, and with k before it in the queue a connection is taken within k+1 rounds; one processing task is started for it unless auto_restart is turned on; disabled connections leave the manager at its next round; at the stop every handler returns. False: restart (endless loop), noticing a close after a message handler raised.", "quantifier": "all numbers of connections, all event sequences", "why_tests_cant": "Tests serve a few connections in one order; the claims are about all interleavings, and the endless loop shows as load only.", "anchors": ["runtimepy/net/websocket/connection.py", "runtimepy/net/manager.py", "runtimepy/net/connection.py"]}
{"id": "C123", "title": "Programs end with the status of what they did, where they started", "statement": "For every outcome of the argument parser, the logging set-up, the requested directory and the command: whenever main returns, the working directory is the one it was called in; the command is run exactly once, in the directory asked for, with the arguments parsed, and its value or the integer of its SystemExit is the result; the status of an application within 0..255 is its result; a command run with its own configuration sees the configurations named followed by one file with that configuration, and afterwards exactly that file is gone, whatever the outcome; a task gets the inverse of the rate as period. A transfer's process ends with status 0 exactly if it succeeded.", "quantifier": "all outcomes and effects of the parts, all arguments, directories and sets of files", "why_tests_cant": "tests ignore the results of the tftp command and only call main with good arguments; exit statuses of processes, escaping exceptions and the files left behind are not looked at", "anchors": ["runtimepy/entry.py:27-83", "runtimepy/commands/common.py:45-93", "runtimepy/commands/arbiter.py:20-58", "runtimepy/commands/task.py:19-38", "runtimepy/commands/tftp.py:20-47", "runtimepy/commands/tui.py:26-57", "runtimepy/commands/mtu.py:15-27"]}
{"id": "C124", "title": "The application methods run are the configured ones, in their stages", "statement": "For every configuration, importer and behaviour of the stages: the initialisation and application methods run are exactly those named, each entry of the list one stage and the paths of a nested list together in one stage, in order; if none is named the arbiter's own application is run; a path that cannot be imported leaves the application as it was and is reported. A list is run up to the first stage with a result other than 0, which is the result, and no application is run after a failed initialisation. With the wait flag one more stage follows that waits, so that the result 0 is only given once the stop signal is set; the own application is still run; the configuration is not changed.", "quantifier": "all configurations, importers, stage behaviours, initial states", "why_tests_cant": "tests load a few fixed files; the flag together with an own application or a list in the configuration, and repeated loads, are not looked at", "anchors": ["runtimepy/net/arbiter/imports/util.py:16-46", "runtimepy/net/arbiter/config/__init__.py:226-235", "runtimepy/net/arbiter/base.py:63-76", "runtimepy/net/arbiter/base.py:319-330", "runtimepy/net/arbiter/base.py:368-383"]}
{"id": "C125", "title": "A tab's divider follows the pointer and stays in the window", "statement": "For every sequence of presses, moves and releases of mouse and fingers, changes of the window's size and of the tab shown: while its tab is shown the divider is inside the window, if that has room for it; during a drag with one pointer the column's width changes by exactly the distance the pointer has gone, as long as that width is possible; after releasing, moving has no effect. The divider is under the pointer again when that comes back into the range, more fingers change nothing, and every position of the pointer is followed.", "quantifier": "all sequences of events, all window sizes and positions", "why_tests_cant": "there are no tests of the browser's code; the defects need particular gestures (past the end and back, a second finger, the left edge)", "anchors": ["runtimepy/data/js/classes/TabInterface.js:190-243", "runtimepy/data/js/init.js:23-32", "runtimepy/data/css/bootstrap_extra.css:48-56"]}
{"id": "C126", "title": "Sound is continuous and the button switches it", "statement": "For every division into blocks, number of outputs and channels and rate other than 0: every channel is given the same samples, sample k being the wave at time k / rate, nothing is written before the rate is known, and a new rate continues from the time reached. For every order of clicks and fulfilled promises: the source is connected at most once, to a node that was told the rate. After n clicks the sound is on exactly if n is odd.", "quantifier": "all block sequences, shapes, rates, waves; all interleavings of clicks and promises", "why_tests_cant": "there are no tests of the browser's code; the order of promises is up to the browser", "anchors": ["runtimepy/data/js/audio.js:1-54", "runtimepy/data/js/tab/sound.js:7-54"]}
{"id": "C127", "title": "The default of a channel is of its type and is its value", "statement": "For every channel, literal and sequence of operations: setting a default succeeds exactly if the default then in force is a literal of the channel's type, and the channel then has that value; a default that is refused changes nothing. A new channel takes its default from its data, then from its controls, uses the primitive it was given, and its events are always read from the primitive it has. The default is always of the type, so a channel can be made again from its data with the same default. A task's period becomes the channel's value and default. The button that resets all defaults is there exactly if two channels have one.", "quantifier": "all channels, literals, primitives and sequences of operations", "why_tests_cant": "tests use a few valid defaults; a refused, out of range, cleared or whole number default is not exported and loaded again", "anchors": ["runtimepy/channel/__init__.py:51-133", "runtimepy/channel/environment/__init__.py:38-60", "runtimepy/channel/registry.py:100-137", "runtimepy/task/basic/periodic.py:102-122", "runtimepy/primitives/types/base.py:104-107"]}
{"id": "C128", "title": "Registry items are compared by identifier", "statement": "For all items: two items, or an item and an item's data, are equal exactly if their identifiers are. A set of items with different identifiers can be built, an item is found in it exactly if it is there, and every other item is not.", "quantifier": "all items, sets and orders of insertion", "why_tests_cant": "tests never compare two items; sets find items by identity first, which hides it", "anchors": ["runtimepy/registry/item.py:14-28", "runtimepy/channel/environment/base.py:81-104", "runtimepy/channel/environment/base.py:230-268"]}
{"id": "C129", "title": "Channels are found by their Python type", "statement": "For every sequence of creations, finalization and loads: a channel is found by get_int, get_bool or get_float exactly if it is there and of that type, with the enumeration it was given, from its creation on; a creation that is refused leaves nothing behind; nothing is created after finalization. Adding amounts to an integer channel gives the sum, reduced into the type's range.", "quantifier": "all sequences of creations, all types, names and enumerations", "why_tests_cant": "tests look up channels by type only where they were created by that type's function or loaded, and do not retry refused creations", "anchors": ["runtimepy/channel/environment/create.py:35-163", "runtimepy/channel/environment/base.py:81-104", "runtimepy/channel/environment/base.py:230-279", "runtimepy/channel/environment/base.py:404-410"]}
{"id": "C130", "title": "Waiting for a scaled value looks at the scaled value", "statement": "For every channel with scaling, value wanted and operator: a wait ends with success exactly if the scaled value of the channel stands in the requested relation to the value, now or after the last change; waiting for a name of an enumeration ends when the channel has that name's value. Samples of a channel are its scaled values with their times, in order; samples of an enumeration are names.", "quantifier": "all scalings, values, operators, raw values and schedules", "why_tests_cant": "tests wait without scaling, or with one rising scaling and equality of values that can be reached", "anchors": ["runtimepy/primitives/int.py:43-60", "runtimepy/primitives/float.py:37-48", "runtimepy/primitives/evaluation.py:91-109", "runtimepy/primitives/evaluation.py:166-188", "runtimepy/channel/environment/base.py:280-402"]}
{"id": "C131", "title": "The script of a peer program passes on its path and its name", "statement": "The script written for a peer program assigns to CONFIG_PATH exactly the path of the written configuration and runs the program with exactly the name it was given, as Python reads the two string literals.", "quantifier": "for every configuration path and every peer name of any length", "why_tests_cant": "tests use plain names and POSIX temporary paths; the claim is about every text placed in the literal", "anchors": ["runtimepy/subprocess/peer.py:132-160"]}
{"id": "C132", "title": "Callbacks may act on their primitive", "statement": "A callback that assigns to its primitive, raises, or registers or removes callbacks does not keep the other callbacks from being told every change in order, the last report being the value held, and callbacks for one time are called once.", "quantifier": "for every list of callbacks, every behaviour of them and every nesting of assignments", "why_tests_cant": "tests register one passive callback; the order of reports under nested assignments of any depth is not sampled", "anchors": ["runtimepy/primitives/base.py:102-119", "runtimepy/primitives/base.py:142-166"]}
{"id": "C133", "title": "A group of periodic tasks is started and stopped as a whole", "statement": "A task group holds the first task registered under each name, in order; inside running() all its tasks run, and however the body ends all of them are stopped and the body's exception is passed on.", "quantifier": "for every sequence of registrations, every body and every state the body leaves the tasks in", "why_tests_cant": "tests run two well-behaved tasks once; failing starts, failing stops and bodies that raise are not combined", "anchors": ["runtimepy/task/basic/manager.py:19-64", "runtimepy/task/basic/periodic.py:192-220"]}
{"id": "C134", "title": "Python enumerations and their runtime enumerations agree", "statement": "For a Python enumeration, its runtime enumeration has exactly its members; a member's runtime name gives its value, its value its runtime name, and normalizing either, in any case, gives the member again.", "quantifier": "for every enumeration class of any size, every member, alias and spelling", "why_tests_cant": "tests use two small classes with upper-case names and no aliases", "anchors": ["runtimepy/enum/registry.py:52-94", "runtimepy/enum/__init__.py:166-181", "runtimepy/mapping.py:62-83"]}
{"id": "C135", "title": "A connection used in a context is disabled at its end", "statement": "When the body of process_then_disable ends, the connection is disabled and stays so, it is not restarted, and the context is left as soon as its tasks have ended.", "quantifier": "for every interleaving of the body, the processing task and losses of the connection, and every outcome of restarts", "why_tests_cant": "tests have a body that waits; a body that ends or raises before the processing task has run is a schedule they do not have", "anchors": ["runtimepy/net/connection.py:236-318", "runtimepy/net/udp/tftp/__init__.py:228-232"]}
{"id": "C136", "title": "Names shared by channels and bit fields", "statement": "However channels and groups of bit fields are made, in any order and with any names, what is set under a name is read back under it and exactly one object is written; for a name that is not both a channel's and a field's, the look-up used by commands gives the object that set writes. The claim without that condition is false: a channel and a field of one name are both accepted, and set and the look-up then mean different objects.", "quantifier": "all sequences of making channels and groups of fields, all names, values and stores, all enumerations and text parsers", "why_tests_cant": "tests make channels and fields with distinct names; the clash shows only when two independently written sources name the same thing", "anchors": ["runtimepy/channel/environment/base.py:112-228", "runtimepy/primitives/field/manager/base.py:89-209", "runtimepy/registry/__init__.py:69-92", "runtimepy/registry/name.py:37-62"]}

{"id": "C01", "title": "MQTT topic filter matching follows the wildcard rules", "statement": "For every valid subscription filter and every valid topic name, a publish is considered to match the filter exactly when, level by level, each filter level equals the topic level or is '+', or a final '#' is reached which covers every remaining level (including none), and wildcards at the first level do not match topics beginning with '$'.", "quantifier": "every filter and every topic name, of any number of levels and any level contents", "why_tests_cant": "Filters and topics are unbounded strings; wildcard/empty-level/'$' combinations cannot be enumerated.", "anchors": ["src/lib/mqtt/mqtt_topic.c:rrr_mqtt_topic_match_tokens_recursively", "src/lib/mqtt/mqtt_topic.c:rrr_mqtt_topic_match_str", "src/lib/mqtt/mqtt_topic.c:rrr_mqtt_topic_tokenize"]}
{"id": "C02", "title": "Linear and tokenised topic matching agree", "statement": "Matching a topic given as a length-delimited string against a filter (the in-place linear matcher used for messages and discern definitions) returns the same verdict as tokenising both and using the broker's matcher, and never trips its internal assertions.", "quantifier": "every valid filter and every valid topic name, plus every byte that may follow the topic in memory", "why_tests_cant": "Two independent implementations must agree on an infinite set of string pairs; sampling cannot show equivalence.", "anchors": ["src/lib/mqtt/mqtt_topic.c:rrr_mqtt_topic_match_topic_and_linear_with_end", "src/lib/mqtt/mqtt_topic.c:rrr_mqtt_topic_match_str_with_end"]}
{"id": "C03", "title": "ACL decision is default-deny with last-match precedence", "statement": "For every access control list, user name, topic and requested operation, access is granted exactly when the last entry whose topic pattern matches (and within it the last rule for that user, or the entry's default rule) grants it; when no entry matches, access is denied.", "quantifier": "every list of ACL entries of any length, every user list, every topic and each of the two requested operations", "why_tests_cant": "The precedence rule has to hold for all list lengths and orders.", "anchors": ["src/lib/mqtt/mqtt_acl.c:rrr_mqtt_acl_check_access", "src/lib/mqtt/mqtt_acl.c:__rrr_mqtt_acl_check_access_single"]}
{"id": "C04", "title": "A permitted subscription only exposes permitted topics", "statement": "If the ACL permits a user to subscribe to a filter, then every topic name which that filter matches is a topic the same ACL entry covers.", "quantifier": "every ACL pattern, every subscription filter and every topic name", "why_tests_cant": "Quantifies over every topic covered by a wildcard filter.", "anchors": ["src/lib/mqtt/mqtt_topic.c:rrr_mqtt_topic_match_tokens_recursively_acl"]}
{"id": "C05", "title": "Packet identifiers in flight are unique and non-zero", "statement": "In every sequence of allocate and release calls, an identifier returned by allocate is between 1 and 65535, is not currently allocated, and stays reserved until released; allocate only reports exhaustion when no identifier is free.", "quantifier": "every finite sequence of allocate and release operations", "why_tests_cant": "Uniqueness after wrap-around depends on arbitrarily long histories.", "anchors": ["src/lib/mqtt/mqtt_id_pool.c:rrr_mqtt_id_pool_get_id", "src/lib/mqtt/mqtt_id_pool.c:rrr_mqtt_id_pool_release_id"]}
{"id": "C06", "title": "A session's subscription list is a map keyed by filter", "statement": "After any sequence of subscribe and unsubscribe requests the list holds at most one subscription per filter, carrying the options of the latest subscribe to that filter not followed by an unsubscribe; adding an existing filter replaces it in place and is reported as a replacement.", "quantifier": "every sequence of subscribe/unsubscribe operations, filters and options", "why_tests_cant": "State depends on an unbounded history of requests.", "anchors": ["src/lib/mqtt/mqtt_subscription.c:rrr_mqtt_subscription_collection_add_unique", "src/lib/mqtt/mqtt_subscription.c:rrr_mqtt_subscription_collection_remove_topic"]}
{"id": "C07", "title": "UTF-8 validation accepts exactly well-formed sequences", "statement": "A byte string without NUL bytes is accepted by the UTF-8 validator exactly when it is the UTF-8 encoding of a sequence of Unicode scalar values (no overlong forms, no surrogates, nothing above U+10FFFF), and the characters reported to the iteration callback are that sequence.", "quantifier": "every byte string of any length", "why_tests_cant": "The accepted language is infinite and rejects must be complete over all malformed strings.", "anchors": ["src/lib/util/utf8.c:rrr_utf8_validate", "src/lib/util/utf8.c:rrr_utf8_validate_and_iterate", "src/lib/util/utf8.c:rrr_utf8_get_character"]}
{"id": "C08", "title": "Id increments stay in range and never collide between positions", "statement": "Under every accepted parameter set (step/modulus, position, minimum, maximum), repeatedly applying the modulo increment always yields ids within [min,max] that are congruent to the configured position modulo the step, so two generators with the same modulus and different positions never produce the same id.", "quantifier": "every accepted parameter set, every start value and every number of increments", "why_tests_cant": "Collision freedom is over infinite runs and all parameters including wrap-around at the 32 bit limit.", "anchors": ["src/lib/util/increment.c:rrr_increment_mod", "src/lib/util/increment.c:rrr_increment_basic", "src/lib/util/increment.c:rrr_increment_verify"]}
{"id": "C09", "title": "Increment prefixes are applied and stripped without loss", "statement": "For every prefix accepted by verification and every value within the maximum, applying the prefix and then stripping it returns the value, and the prefix of the combined value is the configured one.", "quantifier": "every prefix, maximum and value", "why_tests_cant": "Bit-level law over 64-bit values.", "anchors": ["src/lib/util/increment.c:rrr_increment_apply_prefix", "src/lib/util/increment.c:rrr_increment_strip_prefix", "src/lib/util/increment.c:rrr_increment_verify_value_prefix"]}
{"id": "C10", "title": "Base64 decoding inverts encoding", "statement": "For every non-empty byte string, decoding the result of base64 encoding yields the same bytes, and the encoder never writes outside the buffer it sized in advance.", "quantifier": "every byte string of any length", "why_tests_cant": "Line-break and padding interactions depend on length; all lengths and contents must hold.", "anchors": ["src/lib/util/base64.c:rrr_base64_encode", "src/lib/util/base64.c:rrr_base64_decode"]}
{"id": "C11", "title": "Base64url decoding inverts encoding", "statement": "For every non-empty byte string, decoding the result of base64url encoding yields the same bytes.", "quantifier": "every byte string of any length", "why_tests_cant": "All lengths and contents must hold.", "anchors": ["src/lib/util/base64.c:rrr_base64url_encode", "src/lib/util/base64.c:rrr_base64url_decode"]}
{"id": "C12", "title": "HDLC framing round-trips and is chunking independent", "statement": "Exporting a non-empty payload as an HDLC frame and feeding the frame to the parser, split into chunks in any way, delivers exactly that payload and stops exactly at the closing flag.", "quantifier": "every non-empty payload the exporter accepts and every way to cut the frame into chunks", "why_tests_cant": "Payload contents (flag and escape bytes) and chunk boundaries are unbounded.", "anchors": ["src/lib/hdlc/hdlc.c:rrr_hdlc_parse_frame", "src/lib/hdlc/hdlc.c:rrr_hdlc_export_frame"]}
{"id": "C13", "title": "CRC32 detects every burst error of at most four bytes", "statement": "If two messages of equal length differ only within some window of at most four consecutive bytes, and differ there, their CRC32 checksums differ.", "quantifier": "every message length, content, window position and corruption pattern", "why_tests_cant": "Space of corrupted messages is infinite.", "anchors": ["src/lib/util/crc32.c:rrr_crc32buf", "src/lib/util/crc32.c:rrr_crc32cmp"]}
{"id": "C14", "title": "RRR messages survive the network encoding", "statement": "A well-formed RRR message which is prepared for network transmission and then received (header converted, checksums verified, content converted and validated) is accepted and equals the original message.", "quantifier": "every message: timestamp, type, class, topic, data and value", "why_tests_cant": "All field values and payload lengths must round-trip.", "anchors": ["src/lib/messages/msg_msg.c:rrr_msg_msg_prepare_for_network", "src/lib/messages/msg_msg.c:rrr_msg_msg_to_host_and_verify", "src/lib/messages/msg_checksum.c:rrr_msg_checksum_and_to_network_endian", "src/lib/messages/msg.c:rrr_msg_head_to_host_and_verify"]}
{"id": "C15", "title": "Accepted network messages are internally consistent", "statement": "Every byte string accepted as an RRR message has a topic which lies inside the message, so that reading topic and data never leaves the received buffer.", "quantifier": "every received byte string", "why_tests_cant": "Adversarial inputs cannot be enumerated.", "anchors": ["src/lib/messages/msg_msg.c:__message_validate", "src/lib/messages/msg_msg.c:rrr_msg_msg_to_host_and_verify"]}
{"id": "C16", "title": "Array messages round-trip", "statement": "Packing a collection of typed, tagged values into an array message and unpacking it yields the same tags, types, flags, element counts and data in the same order.", "quantifier": "every collection: any number of values, tags, types and data", "why_tests_cant": "Number and size of values are unbounded.", "anchors": ["src/lib/array.c:__rrr_array_array_pack_callback", "src/lib/array.c:rrr_array_message_append_to_array", "src/lib/type.c:rrr_type_value_new_and_unpack"]}
{"id": "C17", "title": "Quoted string export and import are inverse", "statement": "Exporting a string value escapes it so that importing the export returns exactly the original bytes and consumes exactly the exported text.", "quantifier": "every byte string", "why_tests_cant": "Escaping corner cases (quotes, runs of backslashes) occur at any position.", "anchors": ["src/lib/type.c:__rrr_type_str_export", "src/lib/type.c:__rrr_type_import_str", "src/lib/type.c:__get_import_length_str"]}
{"id": "C18", "title": "Fixed-width integers are imported with the right value and sign", "statement": "Importing an n-byte (1..8) big- or little-endian, signed or unsigned integer yields the mathematical value of these bytes as a 64-bit integer, for every element of an array of integers.", "quantifier": "every width 1..8, byte content, signedness and number of elements", "why_tests_cant": "All 2^64 contents and every element count.", "anchors": ["src/lib/type.c:__rrr_type_import_int", "src/lib/type.c:__rrr_type_expand_be", "src/lib/type.c:__rrr_type_expand_le"]}
{"id": "C19", "title": "The FIFO buffer is a FIFO queue", "statement": "Every sequence of writes, reads, searches, merges and clears on a FIFO buffer behaves like the corresponding operations on a list: entries are delivered once, in write order, the entry count equals the number of stored entries, and stopping or failing mid-read keeps the unread entries ahead of later writes.", "quantifier": "every sequence of operations and every callback behaviour", "why_tests_cant": "Pointer manipulations must be right for every list shape and callback outcome.", "anchors": ["src/lib/fifo.c:rrr_fifo_write", "src/lib/fifo.c:rrr_fifo_read_clear_forward_all", "src/lib/fifo.c:rrr_fifo_search", "src/lib/fifo.c:rrr_fifo_read", "src/lib/fifo.c:rrr_fifo_merge"]}
{"id": "C20", "title": "Ordered FIFO writes keep the buffer sorted", "statement": "If every write uses the ordered option, reading the buffer delivers the entries in non-decreasing order value, whatever order they were written in, and no entry is lost.", "quantifier": "every sequence of ordered writes", "why_tests_cant": "All permutations and duplicates of order values.", "anchors": ["src/lib/fifo.c:__rrr_fifo_write_update_pointers"]}
{"id": "C21", "title": "Search-and-replace keeps the FIFO intact", "statement": "When a search-and-replace callback keeps, replaces or removes entries in any combination, the remaining buffer consists of exactly the kept and replaced entries in order and the entry count matches.", "quantifier": "every buffer content and every sequence of callback verdicts", "why_tests_cant": "All interleavings of replace and give verdicts.", "anchors": ["src/lib/fifo.c:rrr_fifo_search_and_replace"]}
{"id": "C22", "title": "Shared-memory allocations never overlap", "statement": "In every sequence of allocations and frees from a memory map, live blocks are pairwise disjoint, lie within the heap, do not overlap the allocation index, and are at least as large as requested.", "quantifier": "every heap size and every sequence of allocate/free operations", "why_tests_cant": "Fragmentation/merging states depend on unbounded histories.", "anchors": ["src/lib/rrr_mmap.c:rrr_mmap_allocate_with_handles", "src/lib/rrr_mmap.c:rrr_mmap_free"]}
{"id": "C23", "title": "Freed shared memory can be reused", "statement": "After all blocks in a memory map are freed, an allocation that once succeeded in the map can succeed again.", "quantifier": "every sequence of allocate/free operations which frees everything", "why_tests_cant": "Depends on unbounded histories.", "anchors": ["src/lib/rrr_mmap.c:rrr_mmap_allocate_with_handles"]}
{"id": "C24", "title": "The shared-memory channel delivers messages in order, once", "statement": "For every interleaving of a writer process and a reader process on a channel, the sequence of messages successfully delivered to the reader is a prefix of the sequence of messages successfully written, and a full channel refuses the write instead of overwriting.", "quantifier": "every schedule of the writer's and reader's steps, any number of messages", "why_tests_cant": "The interleavings cannot be enumerated or reproduced by a test.", "anchors": ["src/lib/mmap_channel.c:rrr_mmap_channel_write_using_callback", "src/lib/mmap_channel.c:rrr_mmap_channel_read_with_callback"]}
{"id": "C25", "title": "Conditions are evaluated as written", "statement": "For every arithmetic/logical condition expression, evaluating the parsed condition gives the value of the expression under the documented operator precedence and usual (left) associativity.", "quantifier": "every expression of any depth and every assignment of tag values", "why_tests_cant": "The set of expressions is infinite.", "anchors": ["src/lib/condition.c:rrr_condition_interpret", "src/lib/condition.c:rrr_condition_evaluate"]}
{"id": "C26", "title": "Every accepted condition can be evaluated", "statement": "A condition accepted by the parser can be evaluated on every message without aborting the program.", "quantifier": "every accepted condition text and every value assignment", "why_tests_cant": "All accepted texts cannot be enumerated.", "anchors": ["src/lib/condition.c:__rrr_condition_shunting_yard_finalize", "src/lib/condition.c:__rrr_condition_evaluate_op"]}
{"id": "C27", "title": "Accepted discern definitions never fault at run time", "statement": "Every discern definition which the parser accepts runs to completion on every message without stack underflow, overflow or assertion failure, leaving the stack empty unless it bails.", "quantifier": "every accepted program and every message", "why_tests_cant": "Programs and outcomes of their tests are unbounded.", "anchors": ["src/lib/discern_stack.c:rrr_discern_stack_interpret", "src/lib/discern_stack.c:rrr_discern_stack_collection_execute"]}
{"id": "C28", "title": "Discern definitions forward exactly as their boolean expression says", "statement": "For every message a discern definition invokes the true-callback for a destination exactly when the boolean expression applied to it is true of the message, otherwise the false-callback, in order of appearance; the index shortcut for array tags never changes the outcome.", "quantifier": "every boolean expression and every message", "why_tests_cant": "All expressions and all truth assignments.", "anchors": ["src/lib/discern_stack.c:__rrr_discern_stack_execute", "src/lib/discern_stack_helper.c"]}
{"id": "C29", "title": "A slot broadcasts each message to every reader exactly once", "statement": "With n registered readers, every entry written to a slot is delivered to each reader exactly once and in order, is released only after every reader has processed it, and no write replaces an entry that some reader has not processed.", "quantifier": "every schedule of one or more writers and n readers, for every n", "why_tests_cant": "Interleavings of threads cannot be enumerated.", "anchors": ["src/lib/message_holder/message_holder_slot.c:rrr_msg_holder_slot_read", "src/lib/message_holder/message_holder_slot.c:__rrr_msg_holder_slot_write"]}
{"id": "C30", "title": "URI encoding is inverted by URL decoding", "statement": "URL-decoding the URI encoding of any byte string returns that byte string, the encoding consists only of unreserved characters and percent escapes, and fits in the allocated buffer.", "quantifier": "every byte string", "why_tests_cant": "All byte strings.", "anchors": ["src/lib/http/http_util.c:rrr_http_util_uri_encode", "src/lib/http/http_util.c:rrr_http_util_urlencoded_string_decode"]}
{"id": "C31", "title": "HTTP header value quoting is inverted by unquoting", "statement": "Unquoting a quoted header value returns the original value.", "quantifier": "every printable value", "why_tests_cant": "All strings.", "anchors": ["src/lib/http/http_util.c:rrr_http_util_header_value_quote", "src/lib/http/http_util.c:rrr_http_util_unquote_string"]}
{"id": "C32", "title": "MQTT variable-length integers round-trip", "statement": "Every value up to 268435455 is encoded in the minimal number (1..4) of bytes, decodes to itself consuming exactly these bytes whatever follows, every strict prefix is reported as incomplete, and no input decodes to a larger value.", "quantifier": "every value and every trailing byte string", "why_tests_cant": "2^28 values times all continuations; prefix behaviour drives stream parsing.", "anchors": ["src/lib/mqtt/mqtt_parse.c:__rrr_mqtt_parse_variable_int", "src/lib/mqtt/mqtt_payload_buf.c:rrr_mqtt_payload_buf_put_variable_int"]}
{"id": "C33", "title": "Checked length arithmetic never wraps silently", "statement": "Every checked length helper either returns the exact mathematical result or reports failure; a failing add/sub/mul/inc never reports success with a wrapped result.", "quantifier": "all 32 and 64 bit operands", "why_tests_cant": "2^64 to 2^128 operand combinations.", "anchors": ["src/lib/rrr_types.h"]}
{"id": "C34", "title": "Websocket frames round-trip", "statement": "A frame sent (masked or not) with any opcode, payload length and masking key is parsed to the same opcode, flags and payload; a partially received header is reported incomplete.", "quantifier": "every opcode, payload, masking key and split of the header", "why_tests_cant": "Length encodings cover 2^64 values.", "anchors": ["src/lib/websocket/websocket.c:__rrr_websocket_transport_ctx_frame_send", "src/lib/websocket/websocket.c:__rrr_websocket_get_target_size"]}
{"id": "C35", "title": "Fragmented websocket messages are reassembled", "statement": "A message split into any number of fragments, with control frames allowed between fragments, is delivered exactly once with the concatenated payload and the opcode of the first fragment.", "quantifier": "every fragmentation and every interleaving of control frames", "why_tests_cant": "Unbounded fragmentations.", "anchors": ["src/lib/websocket/websocket.c:__rrr_websocket_receive_callback_interpret_step", "src/lib/websocket/websocket.c:__rrr_websocket_receive_callback_fragmentation_step"]}
{"id": "C36", "title": "A websocket frame header never announces a frame shorter than itself", "statement": "For every received header the computed total frame size is the header size plus the payload size, or the frame is rejected.", "quantifier": "every header byte string", "why_tests_cant": "2^64 announced lengths.", "anchors": ["src/lib/websocket/websocket.c:__rrr_websocket_get_target_size"]}
{"id": "C37", "title": "Modbus responses are matched to their own request", "statement": "In every history of requests, transmissions and responses, in-flight transaction ids are unique, each response invokes the callback at most once with the private data of the request having that id and function code, and requests are transmitted in the order in which they were pushed.", "quantifier": "every history, including 16-bit id wrap-around", "why_tests_cant": "Needs histories longer than 65536 requests and all response orders.", "anchors": ["src/lib/modbus/rrr_modbus.c:rrr_modbus_client_read", "src/lib/modbus/rrr_modbus.c:rrr_modbus_client_write", "src/lib/modbus/rrr_modbus.c:__rrr_modbus_client_req_push"]}
{"id": "C38", "title": "Topic tokenisation is faithful", "statement": "Joining the levels obtained by tokenising a non-empty topic with '/' gives back the topic, and no level contains '/'.", "quantifier": "every non-empty string", "why_tests_cant": "All strings, including empty levels.", "anchors": ["src/lib/mqtt/mqtt_topic.c:rrr_mqtt_topic_tokenize_with_end"]}
{"id": "C39", "title": "Topic filter and topic name validation", "statement": "A filter (a NUL-terminated string) is accepted exactly when it is at most 65535 bytes of well-formed UTF-8, each wildcard occupies a whole level and '#' occurs only as the last level; a topic name is accepted exactly when it is non-empty well-formed UTF-8 without wildcard characters.", "quantifier": "every string", "why_tests_cant": "Infinite language.", "anchors": ["src/lib/mqtt/mqtt_topic.c:rrr_mqtt_topic_filter_validate_name", "src/lib/mqtt/mqtt_topic.c:rrr_mqtt_topic_validate_name"]}
{"id": "C40", "title": "Case-insensitive substring search is correct", "statement": "The HTTP substring search reports a position exactly when the needle occurs (ignoring case) in the text, and the reported position is an occurrence.", "quantifier": "every text and needle", "why_tests_cant": "All string pairs.", "anchors": ["src/lib/http/http_util.c:rrr_http_util_strcasestr"]}
{"id": "C41", "title": "Identifiers assigned by the incrementer module never collide between instances", "statement": "With an accepted configuration (modulus, minimum, maximum, position, prefix), every identifier the incrementer module puts on a message lies in the configured range, has the configured residue and carries the configured prefix; two instances with the same range and prefix but different positions never produce the same identifier, and successive identifiers of one topic are successive members of its residue class (wrapping at the maximum).", "quantifier": "every accepted configuration, every starting identifier and every sequence of messages", "why_tests_cant": "All configurations and histories.", "anchors": ["src/modules/p_incrementer.c:incrementer_process_subject", "src/modules/p_incrementer.c:incrementer_parse_config", "src/lib/util/increment.c"]}
{"id": "C42", "title": "A publish reaches exactly the matching subscriptions", "statement": "Delivering a publish with a valid topic against a session's subscriptions calls the delivery callback for exactly those subscriptions whose filter matches the topic, in list order and once each, and never aborts.", "quantifier": "every list of subscriptions created by the broker, every valid topic name", "why_tests_cant": "All lists and topics.", "anchors": ["src/lib/mqtt/mqtt_subscription.c:rrr_mqtt_subscription_collection_match_publish_with_callback"]}
{"id": "C43", "title": "No MQTT packet aborts the broker", "statement": "Whatever bytes a peer sends, parsing them gives a packet, a rejection or a request for more data; it never aborts the process.", "quantifier": "every byte string, every protocol version", "why_tests_cant": "All byte strings.", "anchors": ["src/lib/mqtt/mqtt_parse.c", "src/lib/mqtt/mqtt_subscription.c:rrr_mqtt_subscription_new"]}
{"id": "C45", "title": "The MQTT parser never reads outside received data", "statement": "Every byte the parser looks at has been received and parsing positions never pass the end of the receive buffer, whatever length fields say.", "quantifier": "every byte string, every protocol version", "why_tests_cant": "All byte strings.", "anchors": ["src/lib/mqtt/mqtt_parse.c"]}
{"id": "C46", "title": "MQTT parsing verdicts are stable under more data", "statement": "When parsing a buffer gives a packet or a rejection, it gives the same for every longer buffer starting with the same bytes; a request for more data is the only verdict which may change.", "quantifier": "every byte string and every continuation", "why_tests_cant": "All byte strings and split points.", "anchors": ["src/lib/mqtt/mqtt_parse.c", "src/lib/mqtt/mqtt_connection.c:__rrr_mqtt_conn_parse"]}
{"id": "C47", "title": "MQTT packets survive assembling and parsing", "statement": "Parsing the bytes assembled for any well-formed packet gives back the same packet (type, flags, identifiers, properties, strings, payload) and consumes exactly those bytes, also if more data follows.", "quantifier": "every well-formed packet of every type for every protocol version, every following data", "why_tests_cant": "All packets.", "anchors": ["src/lib/mqtt/mqtt_assemble.c", "src/lib/mqtt/mqtt_parse.c", "src/lib/mqtt/mqtt_property.c"]}
{"id": "C48", "title": "Accepted MQTT packets are well-formed", "statement": "A packet the parser accepts satisfies the rules of the protocol: QoS at most 2, non-zero packet identifiers where required, valid topic names and filters, at least one and only distinct filters in SUBSCRIBE, known reason codes, CONNECT flags consistent with its payload.", "quantifier": "every byte string, every protocol version", "why_tests_cant": "All byte strings.", "anchors": ["src/lib/mqtt/mqtt_parse.c"]}
{"id": "C49", "title": "The verdict on an MQTT packet depends only on its own bytes", "statement": "Whether a packet is accepted, and as what, does not depend on what follows it on the connection.", "quantifier": "every packet and every following data", "why_tests_cant": "All byte strings.", "anchors": ["src/lib/mqtt/mqtt_parse.c"]}
{"id": "C44", "title": "Messages read from a stream do not depend on how the stream is cut", "statement": "For every stream protocol read through the common read framework, the sequence of messages delivered, and whether and where the connection is closed, depends only on the bytes of the stream and not on how they are divided into reads; every byte is delivered once and in order and no buffer is overrun. For MQTT: the packets sent are the packets handled.", "quantifier": "every byte stream, every division into reads, every read step size, every framing function whose verdicts are stable under more data", "why_tests_cant": "All streams and all divisions.", "anchors": ["src/lib/read.c:rrr_read_message_using_callbacks", "src/lib/mqtt/mqtt_connection.c:__rrr_mqtt_conn_read_get_target_size"]}
{"id": "C50", "title": "Which subscriptions an ACL rule's pattern admits", "statement": "A subscription is admitted by an access rule exactly when, level by level, each rule level is '+', is equal to the subscription's level or the subscription's level is '+', and a '#' in the rule admits at least one remaining level, whatever follows; a rule without wildcards admits exactly the subscriptions which agree with it up to '+' levels.", "quantifier": "All rule patterns and subscription filters, of any number of levels.", "why_tests_cant": "Tests cover sample patterns; the admission relation must be exact for every pair of filters.", "anchors": ["src/lib/mqtt/mqtt_topic.c: rrr_mqtt_topic_match_tokens_recursively_acl"]}
{"id": "C51", "title": "Log messages on the wire", "statement": "A log message made from a file name, line, levels, prefix and text and sent over a connection is received as the same message, and gives back the same prefix and text.", "quantifier": "All prefixes, texts, file names, levels and following bytes.", "why_tests_cant": "Length boundaries (empty texts, texts at the 16 bit limit) and every content matter; tests cover a few.", "anchors": ["src/lib/messages/msg_log.c: rrr_msg_msg_log_new, rrr_msg_msg_log_to_host, rrr_msg_msg_log_prepare_for_network, rrr_msg_msg_log_to_str"]}
{"id": "C52", "title": "Statistics messages on the wire", "statement": "A statistics message with a path and data within the documented limits arrives unchanged; no bytes received can make the receiver write outside of its message buffer.", "quantifier": "All types, flags, paths, data and all received bytes with valid checksums.", "why_tests_cant": "Memory safety must hold for every datagram, including adversarial ones with correct checksums.", "anchors": ["src/lib/stats/stats_message.c: rrr_msg_stats_init, rrr_msg_stats_pack_message, rrr_msg_stats_unpack_message"]}
{"id": "C53", "title": "Operations on messages keep the rest of the message", "statement": "Replacing the topic of a message, copying it, copying it without data, comparing its topic and checking its time to live do exactly that: data, timestamp, type, class and all other fields stay as they were and the message stays consistent.", "quantifier": "All consistent messages, all topics up to 65535 bytes, all times.", "why_tests_cant": "Offsets depend on all lengths; tests cover a few lengths.", "anchors": ["src/lib/messages/msg_msg.c: rrr_msg_msg_topic_set, rrr_msg_msg_duplicate_no_data_with_size, rrr_msg_msg_duplicate_no_data, rrr_msg_msg_topic_equals, rrr_msg_msg_ttl_ok"]}
{"id": "C54", "title": "Message streams do not depend on packetisation", "statement": "Messages sent one after another over a stream connection are received once each, in order and unchanged, whatever the pieces in which the bytes arrive; and for any stream of bytes the messages received and whether the connection is closed do not depend on the pieces.", "quantifier": "All sequences of messages, all splits into reads, all byte streams.", "why_tests_cant": "The number of splits is exponential in the stream length.", "anchors": ["src/lib/read.c: rrr_read_message_using_callbacks, rrr_read_common_get_session_target_length_from_message_and_checksum", "src/lib/messages/msg.c: rrr_msg_get_target_size_and_check_checksum, rrr_msg_to_host_and_verify_with_callback"]}
{"id": "C55", "title": "No received bytes abort the receiver of messages", "statement": "Whatever bytes arrive on a connection carrying messages, the process is not aborted: bad messages are refused.", "quantifier": "All byte strings.", "why_tests_cant": "All byte strings, including ones with valid checksums, cannot be enumerated.", "anchors": ["src/lib/messages/msg.c: rrr_msg_check_data_checksum_and_length, rrr_msg_to_host_and_verify_with_callback", "src/lib/read.c: __rrr_read_message_using_callbacks"]}
{"id": "C56", "title": "Line ends and decimal numbers in HTTP text", "statement": "The search for a line end returns the first CR LF of the text and nothing when there is none. A decimal number is read from exactly the digits at the beginning, must have 1 to 63 digits, and its value is the number the digits denote or 2^64-1 when that does not fit.", "quantifier": "every text, every position, every string of digits", "why_tests_cant": "Only a few texts can be tried; the claim is about every position of the line end and every value.", "anchors": ["src/lib/http/http_util.c:rrr_http_util_find_crlf", "src/lib/http/http_util.c:rrr_http_util_strtoull_raw"]}
{"id": "C57", "title": "An array message which was received can be packed again", "statement": "The values unpacked from an array message which was received can be packed into a message with the same topic again, which yields the very bytes which arrived.", "quantifier": "every array message which is received and unpacked", "why_tests_cant": "The message comes from the network: any sequence of types, tags and lengths.", "anchors": ["src/lib/array.c:rrr_array_message_append_to_array", "src/lib/array.c:rrr_array_new_message_from_array", "src/lib/array.c:__rrr_array_array_pack_callback"]}
{"id": "C58", "title": "Looking up a tag in a message agrees with unpacking the message", "statement": "Asking an array message whether it has a tag, and taking the value with a tag from it, gives what one finds by unpacking the message and looking at the values in order.", "quantifier": "every array message and tag", "why_tests_cant": "Any number of values, duplicate and empty tags.", "anchors": ["src/lib/array.c:rrr_array_message_has_tag", "src/lib/array.c:rrr_array_message_clone_value_by_tag", "src/lib/array.c:rrr_array_value_get_by_tag"]}
{"id": "C59", "title": "Integers of an array are read by tag and index", "statement": "Reading an integer of an array by tag and index gives the integer at that index of the first value with the tag; indexes outside of the value and integers which do not fit the requested signedness are refused.", "quantifier": "every array, tag, index and signedness", "why_tests_cant": "Every index, number of elements and 64 bit content.", "anchors": ["src/lib/array.c:__rrr_array_get_value_64_by_tag", "src/lib/array.c:rrr_array_get_value_unsigned_64_by_tag", "src/lib/array.c:rrr_array_get_value_signed_64_by_tag"]}
{"id": "C60", "title": "Unpacking a received array message neither aborts nor reads outside of it", "statement": "Every array message which the receiver admits is either unpacked or refused.", "quantifier": "every array message which is received", "why_tests_cant": "The content is chosen by the peer.", "anchors": ["src/lib/array.c:rrr_array_message_iterate", "src/lib/type.c:__rrr_type_msg_unpack", "src/lib/type.c:rrr_type_value_new_and_unpack"]}
{"id": "C61", "title": "No bytes received on a websocket connection break the receiver", "statement": "Whatever bytes arrive on a websocket connection, in whatever chunks, the receiver neither aborts nor writes outside of the frame; the frames found and everything which follows from them do not depend on the chunks.", "quantifier": "every byte stream and every way to split it into reads", "why_tests_cant": "Streams and their splits are unbounded.", "anchors": ["src/lib/websocket/websocket.c:__rrr_websocket_get_target_size", "src/lib/websocket/websocket.c:__rrr_websocket_receive_callback_interpret_step", "src/lib/read.c:rrr_read_message_using_callbacks"]}
{"id": "C62", "title": "Modbus data is used in whole frames", "statement": "Received modbus data has no effect before the frame is complete, and the effect of a complete frame does not depend on what follows it.", "quantifier": "every byte string received and every continuation of it", "why_tests_cant": "Unbounded splits of the stream.", "anchors": ["src/lib/modbus/rrr_modbus.c:rrr_modbus_client_read"]}
{"id": "C63", "title": "Private data of modbus requests is released", "statement": "The private data created for a request is destroyed exactly once when the request is finished or refused, after the callback for the response, and is never used afterwards.", "quantifier": "every history of requests, transmissions and responses", "why_tests_cant": "Unbounded histories.", "anchors": ["src/lib/modbus/rrr_modbus.c:__rrr_modbus_client_receive", "src/lib/modbus/rrr_modbus.c:__rrr_modbus_client_req_push"]}
{"id": "C64", "title": "Routes decide which instances may take a message", "statement": "When an instance has routes and all destinations of the routes exist, then a message which the instance outputs may be taken by exactly those instances for which the last APPLY which was executed had the result true; when there is no such instance the message may be taken by any reader. Without routes messages are unchanged.", "quantifier": "all lists of accepted route definitions, all sets of instances, all messages", "why_tests_cant": "Unit tests try a few definitions with a few messages; the statement is about all definitions and messages, and about the order of APPLY across definitions.", "anchors": ["src/lib/instances.c:__rrr_instance_message_broker_entry_postprocess_callback", "src/lib/discern_stack.c:rrr_discern_stack_collection_execute", "src/lib/instance_friends.c", "src/lib/message_holder/message_holder.c:rrr_msg_holder_nexthop_ok"]}
{"id": "C65", "title": "Entries in a slot are not used after they have been freed", "statement": "For every order of the steps of the writer of a slot and of its readers, no message entry is read or has its reference count changed after its memory has been given back.", "quantifier": "all interleavings of writes of every kind, reads and releases, all numbers of readers", "why_tests_cant": "The window between putting an entry in the slot and counting the reference is a few instructions wide; a test will hardly ever hit it.", "anchors": ["src/lib/message_holder/message_holder_slot.c: rrr_msg_holder_slot_write_incref, rrr_msg_holder_slot_write_from_collection, rrr_msg_holder_slot_read", "src/lib/message_holder/message_holder.c: rrr_msg_holder_decref"]}
{"id": "C66", "title": "QoS 2 messages from the remote are delivered exactly once", "statement": "A QoS 2 PUBLISH accepted by an MQTT session is delivered to the application at most once, however often it is sent again, released again and the connection restored; each delivery is preceded by a receipt of the same message since the last delivery with that packet identifier; PUBCOMP with reason 0 is only answered when the message with this identifier has been delivered; and an accepted message is delivered when its PUBREL arrives.", "quantifier": "all histories of received packets, acknowledgements, queue passes with any transmission results, reconnects and clean starts of one session", "why_tests_cant": "The duplicate suppression depends on the order in which PUBLISH, PUBREL, retransmissions, queue maintenance and reconnects happen; the orders cannot be enumerated.", "anchors": ["src/lib/mqtt/mqtt_session_ram.c: __rrr_mqtt_session_ram_receive_publish, __rrr_mqtt_session_ram_process_ack_callback, __rrr_mqtt_session_collection_ram_send_packet_queue", "src/lib/mqtt/mqtt_common.c: rrr_mqtt_common_handle_publish, rrr_mqtt_common_handle_pubrec_pubrel"]}
{"id": "C67", "title": "QoS 1 messages are delivered before they are acknowledged", "statement": "A PUBACK with reason 0 is only answered to a QoS 1 PUBLISH when this message has been delivered to the application before, so that a crash between the two can repeat a message but never lose one.", "quantifier": "all histories of one session", "why_tests_cant": "The claim is about every prefix of every history, including those which end in a crash.", "anchors": ["src/lib/mqtt/mqtt_common.c: rrr_mqtt_common_handle_publish", "src/lib/mqtt/mqtt_session_ram.c: __rrr_mqtt_session_ram_receive_publish"]}
{"id": "C68", "title": "Outgoing messages are the queued ones and their identifiers are unambiguous", "statement": "Every PUBLISH an MQTT session sends carries a message which was handed to the session before, with the same topic, payload, QoS and RETAIN flag, and an identifier which is not 0. It never has the identifier of another message which was sent and whose exchange is not finished.", "quantifier": "all histories of one session: queueing, passes with any transmission results, any valid packets from the remote, reconnects and clean starts, maintenance", "why_tests_cant": "Identifiers are handed out, kept during a grace time and reused in an order which depends on the whole history.", "anchors": ["src/lib/mqtt/mqtt_session_ram.c: __rrr_mqtt_session_ram_iterate_send_queue, __rrr_mqtt_session_ram_iterate_send_queue_callback", "src/lib/mqtt/mqtt_id_pool.c: rrr_mqtt_id_pool_get_id"]}
{"id": "C69", "title": "QoS 1 and 2 messages are kept until they are acknowledged", "statement": "A message with QoS 1 or 2 which is handed to a session is not lost: as long as no acknowledgement which ends its exchange has arrived, working on the queue after the retry interval, with a working connection, free identifiers and limits for messages in flight which leave room, sends the message again, or the PUBREL if a PUBREC has arrived, unless the message has expired.", "quantifier": "all histories of one session, all moments in them", "why_tests_cant": "A message may be lost in any of the many orders of acknowledgements, failed transmissions, reconnects and clean starts.", "anchors": ["src/lib/mqtt/mqtt_session_ram.c: __rrr_mqtt_session_ram_iterate_send_queue_callback, __rrr_mqtt_session_ram_process_ack_callback, __rrr_mqtt_session_ram_clean_final"]}
{"id": "C70", "title": "Repeated messages are marked and keep their identifier", "statement": "A message which is sent again since the session was cleaned has the same content and identifier as before and the DUP flag; a QoS 2 message is not sent again after a successful PUBREC for it has arrived.", "quantifier": "all histories of one session", "why_tests_cant": "The claim relates every pair of transmissions in every history.", "anchors": ["src/lib/mqtt/mqtt_session_ram.c: __rrr_mqtt_session_ram_iterate_send_queue_check_transmit_or_retransmit, __rrr_mqtt_session_ram_iterate_send_queue_process_publish"]}
{"id": "C71", "title": "Packets from the remote never end the program", "statement": "Whatever packets the remote sends, in any order and with any identifiers, as long as the parser lets them through, the program does not abort.", "quantifier": "all histories of one session", "why_tests_cant": "An attacker chooses the packets and their order.", "anchors": ["src/lib/mqtt/mqtt_session_ram.c: __rrr_mqtt_session_ram_process_ack_callback, __rrr_mqtt_session_ram_find_qos2_publish_callback", "src/lib/mqtt/mqtt_common.c: rrr_mqtt_common_handle_puback_pubcomp"]}
{"id": "C72", "title": "Limits for messages in flight are kept", "statement": "A session never has more messages of QoS 1 and 2 in flight than its own maximum and than the Receive Maximum which the remote has announced, and with a limit of one or more, messages are still sent.", "quantifier": "all histories of one session, all limits", "why_tests_cant": "The count is rebuilt in every pass over the queue from flags of the entries; acknowledgements, repetitions, expiry and limits interact over any number of passes.", "anchors": ["src/lib/mqtt/mqtt_session_ram.c __rrr_mqtt_session_ram_process_publish, __rrr_mqtt_session_ram_iterate_send_queue_callback, rrr_mqtt_session_collection_iterate_send_queue"]}
{"id": "C73", "title": "Messages are sent in the order in which they were handed over", "statement": "When a message is sent for the first time, no message which was handed to the session after it has been sent before: slow connections, limits for messages in flight, acknowledgements in any order and repetitions do not reorder messages.", "quantifier": "all histories of one session", "why_tests_cant": "The order depends on which entries are skipped in each of an unbounded number of passes.", "anchors": ["src/lib/mqtt/mqtt_session_ram.c __rrr_mqtt_session_ram_process_publish, __rrr_mqtt_session_ram_iterate_send_queue_callback, rrr_mqtt_session_collection_iterate_send_queue"]}
{"id": "C74", "title": "Messages are repeated after the retry interval only", "statement": "A message which is not acknowledged is not sent again before more than the retry interval has passed since it was last sent.", "quantifier": "all histories of one session, all clocks", "why_tests_cant": "Repetition depends on the times of all earlier passes and on changes of the wall clock.", "anchors": ["src/lib/mqtt/mqtt_session_ram.c __rrr_mqtt_session_ram_process_publish, __rrr_mqtt_session_ram_iterate_send_queue_callback, rrr_mqtt_session_collection_iterate_send_queue"]}
{"id": "C75", "title": "Expired messages are not sent", "statement": "A PUBLISH with a message expiry interval is not sent to the remote after the interval is over, and it is dropped then.", "quantifier": "all histories of one session, all clocks and intervals", "why_tests_cant": "Every combination of creation time, interval, and times of passes over the queue matters.", "anchors": ["src/lib/mqtt/mqtt_session_ram.c __rrr_mqtt_session_ram_process_publish, __rrr_mqtt_session_ram_iterate_send_queue_callback, rrr_mqtt_session_collection_iterate_send_queue", "src/lib/mqtt/mqtt_session_ram.c __rrr_mqtt_session_ram_check_publish_expired, __rrr_mqtt_session_collection_ram_pretransmit_forward"]}
{"id": "C76", "title": "A QoS 1 message which arrives delivers itself only", "statement": "When a QoS 1 PUBLISH arrives at a session, exactly this message is handed on; messages which arrived before with the same packet identifier and were acknowledged are not handed on again.", "quantifier": "all histories of one session followed by a QoS 1 PUBLISH, repeated or not", "why_tests_cant": "Whether an old message is still in the queue depends on how earlier packets and the working on the queue were interleaved.", "anchors": ["src/lib/mqtt/mqtt_session_ram.c: __rrr_mqtt_session_ram_process_ack_callback", "src/lib/mqtt/mqtt_common.c: rrr_mqtt_common_handle_publish"]}
{"id": "C77", "title": "Clients cannot bring the MQTT broker down", "statement": "No sequence of packets which pass the parser, connections, lost connections, write errors and maintenance makes the broker abort or use a session after it was freed.", "quantifier": "all settings, all sequences of packets, connections, lost connections, failing transmissions and maintenance rounds at all times, for any number of clients", "why_tests_cant": "An abort needs a certain order of take-overs, expiries and packets of several clients.", "anchors": ["src/lib/mqtt/mqtt_broker.c __rrr_mqtt_broker_handle_connect, __rrr_mqtt_broker_handle_subscribe, __rrr_mqtt_broker_event_handler", "src/lib/mqtt/mqtt_session_ram.c __rrr_mqtt_session_collection_ram_maintain_expire, __rrr_mqtt_session_ram_receive_packet"]}
{"id": "C78", "title": "Published messages reach exactly the subscribers", "statement": "When the broker publishes a message, it is queued once for each matching subscription of each session, with the lower of both qualities of service and without the retain flag, unless the packet is larger than the client accepts, and nothing is queued for anybody else.", "quantifier": "all settings, all sequences of packets, connections, lost connections, failing transmissions and maintenance rounds at all times, for any number of clients", "why_tests_cant": "Which sessions and subscriptions exist depends on the whole history of all clients.", "anchors": ["src/lib/mqtt/mqtt_session_ram.c __rrr_mqtt_session_collection_ram_forward_publish_to_clients, __rrr_mqtt_session_ram_receive_forwarded_publish, __rrr_mqtt_session_ram_receive_forwarded_publish_match_callback"]}
{"id": "C79", "title": "What a client sends is published", "statement": "A message is published for a client exactly when the session of the client delivers it, at once and in order; in particular an accepted PUBLISH with QoS 0 or 1 is published and forwarded when it arrives, and nothing is published which was not received.", "quantifier": "all settings, all sequences of packets, connections, lost connections, failing transmissions and maintenance rounds at all times, for any number of clients", "why_tests_cant": "Delivery depends on earlier packets and connections of the same client.", "anchors": ["src/lib/mqtt/mqtt_session_ram.c __rrr_mqtt_session_ram_delivery_forward, __rrr_mqtt_session_collection_ram_delivery_forward_final, __rrr_mqtt_session_ram_receive_publish", "src/lib/mqtt/mqtt_common.c rrr_mqtt_common_handle_publish"]}
{"id": "C80", "title": "Retained messages are sent for new subscriptions", "statement": "A client with a new subscription gets, for each topic which matches, the last message which was published to be retained, unless it has expired or was removed by an empty one; retained messages are sent for no other reason.", "quantifier": "all settings, all sequences of packets, connections, lost connections, failing transmissions and maintenance rounds at all times, for any number of clients", "why_tests_cant": "The retained messages are the result of all messages ever published.", "anchors": ["src/lib/mqtt/mqtt_session_ram.c __rrr_mqtt_session_ram_retain_buffer_write_callback, __rrr_mqtt_session_collection_ram_iterate_retain_callback, __rrr_mqtt_session_ram_receive_new_subscription_callback, __rrr_mqtt_session_ram_add_subscriptions"]}
{"id": "C81", "title": "The will is published once, when the connection is lost", "statement": "The will of a connection is published exactly once if the connection ends in another way than by a normal DISCONNECT, after the will delay or when the session ends; it is not published when the client comes back before or leaves normally.", "quantifier": "all settings, all sequences of packets, connections, lost connections, failing transmissions and maintenance rounds at all times, for any number of clients", "why_tests_cant": "Depends on the times of connection losses, re-connections, maintenance and session expiry.", "anchors": ["src/lib/mqtt/mqtt_session_ram.c __rrr_mqtt_session_ram_will_publish_register, __rrr_mqtt_session_ram_will_publish_notify_disconnect, __rrr_mqtt_session_ram_will_publish_maintain", "src/lib/mqtt/mqtt_broker.c __rrr_mqtt_broker_handle_connect_will"]}
{"id": "C82", "title": "Sessions are kept for the session expiry interval", "statement": "A session is there until the session expiry interval has passed after the end of its connection, and is removed by the next maintenance then.", "quantifier": "all settings, all sequences of packets, connections, lost connections, failing transmissions and maintenance rounds at all times, for any number of clients", "why_tests_cant": "Depends on all times of connections and maintenance.", "anchors": ["src/lib/mqtt/mqtt_session_ram.c __rrr_mqtt_session_collection_ram_maintain_expire, __rrr_mqtt_session_ram_notify_disconnect, __rrr_mqtt_session_ram_heartbeat"]}
{"id": "C83", "title": "Only users with the right password connect", "statement": "A client gets a session and a successful CONNACK only if it gives the right password, or none at all if anonymous clients are allowed; otherwise nothing changes.", "quantifier": "all settings, all sequences of packets, connections, lost connections, failing transmissions and maintenance rounds at all times, for any number of clients; all password files", "why_tests_cant": "Every combination of protocol version, user, password and earlier connections must be refused.", "anchors": ["src/lib/mqtt/mqtt_broker.c __rrr_mqtt_broker_handle_connect_auth, __rrr_mqtt_broker_handle_connect"]}
{"id": "C84", "title": "Access rules are enforced", "statement": "Messages are accepted only for topics to which the user may write, subscriptions are granted exactly if the user may read, and the SUBACK tells what was granted; nobody gets messages from topics which they may not read.", "quantifier": "all settings, all sequences of packets, connections, lost connections, failing transmissions and maintenance rounds at all times, for any number of clients; all access rules", "why_tests_cant": "A message can reach a session by subscriptions made on any earlier connection.", "anchors": ["src/lib/mqtt/mqtt_broker.c __rrr_mqtt_broker_acl_handler_subscribe, __rrr_mqtt_broker_acl_handler_publish, __rrr_mqtt_broker_handle_subscribe", "src/lib/mqtt/mqtt_acl.c rrr_mqtt_acl_check_access"]}
{"id": "C85", "title": "A client identifier belongs to one connection", "statement": "After a successful CONNECT only the new connection works on the session of its client identifier; it finds subscriptions and queues as they were unless it asks for a clean session, and the CONNACK tells whether there was a session.", "quantifier": "all settings, all sequences of packets, connections, lost connections, failing transmissions and maintenance rounds at all times, for any number of clients", "why_tests_cant": "Depends on the order of take-over, close and expiry.", "anchors": ["src/lib/mqtt/mqtt_broker.c __rrr_mqtt_broker_handle_connect, __rrr_mqtt_broker_check_unique_client_id, __rrr_mqtt_broker_generate_unique_client_id", "src/lib/mqtt/mqtt_session_ram.c __rrr_mqtt_session_collection_ram_get_session, __rrr_mqtt_session_ram_init"]}
{"id": "C86", "title": "The sessions of the broker keep the guarantees of sessions", "statement": "The packets which the broker hands to and takes from the queues of one session since it was made are a history of a single session, so that the guarantees of C66-C76 hold for each client of the broker.", "quantifier": "all settings, all sequences of packets, connections, lost connections, failing transmissions and maintenance rounds at all times, for any number of clients", "why_tests_cant": "Sessions of several clients are changed by each other's packets.", "anchors": ["src/lib/mqtt/mqtt_session_ram.c __rrr_mqtt_session_ram_receive_packet, __rrr_mqtt_session_ram_iterate_send_queue", "src/lib/mqtt/mqtt_broker.c rrr_mqtt_broker_new"]}
{"id": "C87", "title": "HTTP messages may arrive in any pieces", "statement": "The outcome of the reception of an HTTP/1 request or response (where it ends, all its parsed contents, or refusal) does not depend on how the bytes are divided among the reads from the network, as long as the first line and the header are not longer than the limits; beyond the limits the only other outcome is that the connection is closed.", "quantifier": "all byte strings up to 4 GiB, all ways to divide them into pieces, requests and responses, all limits", "why_tests_cant": "The places where the data may be cut are as many as there are subsets of its positions, and the parser keeps state between reads.", "anchors": ["src/lib/http/http_application_http1.c __rrr_http_application_http1_receive_get_target_size", "src/lib/http/http_part_parse.c rrr_http_part_parse, __rrr_http_part_header_fields_parse, __rrr_http_part_parse_chunk", "src/lib/http/http_header_fields.c rrr_http_header_field_parse_name_and_value"]}
{"id": "C88", "title": "HTTP requests and responses are read as they are written", "statement": "A request or response with a first line and a header which are in order, and with a body of the length given in the header or without a body, is received exactly: it ends at the end of its body whatever comes after, method, URI, version, status code, every header field with its elements, names and values, connection handling and body format are as written, and the body handed on is the body sent.", "quantifier": "all methods, URIs, versions, codes, header lines of the grammar, bodies, following data, and all ways to divide the data into pieces", "why_tests_cant": "The set of messages is infinite and each header field has its own parser; a test shows single messages.", "anchors": ["src/lib/http/http_application_http1.c __rrr_http_application_http1_receive_get_target_size", "src/lib/http/http_part_parse.c rrr_http_part_parse, __rrr_http_part_header_fields_parse, __rrr_http_part_parse_chunk", "src/lib/http/http_header_fields.c rrr_http_header_field_parse_name_and_value", "src/lib/http/http_application_http1.c __rrr_http_application_http1_request_receive_callback", "src/lib/http/http_client.c __rrr_http_client_chunks_iterate_callback", "src/lib/http/http_part.c rrr_http_part_chunks_iterate"]}
{"id": "C89", "title": "Chunked bodies are put together", "statement": "A request or response with a body in chunks is received exactly: it ends after the last chunk whatever comes after, and the body handed on is the data of the chunks, one after the other.", "quantifier": "all messages of the grammar, all sequences of chunks of any sizes, with the lengths written with any hexadecimal digits, all following data, all ways to divide the data into pieces", "why_tests_cant": "Chunk boundaries and read boundaries can fall in any position relative to each other.", "anchors": ["src/lib/http/http_part_parse.c __rrr_http_part_parse_chunk_header, __rrr_http_part_parse_chunk, __rrr_http_part_parse_chunked", "src/lib/http/http_part.c rrr_http_part_chunks_merge, rrr_http_part_chunks_iterate"]}
{"id": "C90", "title": "No HTTP data ends the program", "statement": "Whatever bytes a peer sends to the HTTP/1 server or client, and however they arrive, parsing them does not abort the program and does not compute addresses outside of the data.", "quantifier": "all byte strings up to 4 GiB, all ways to divide them into pieces, requests and responses, all limits and addresses", "why_tests_cant": "A remote peer chooses the bytes; tests try few of them.", "anchors": ["src/lib/http/http_application_http1.c __rrr_http_application_http1_receive_get_target_size", "src/lib/http/http_part_parse.c rrr_http_part_parse, __rrr_http_part_header_fields_parse, __rrr_http_part_parse_chunk", "src/lib/http/http_header_fields.c rrr_http_header_field_parse_name_and_value"]}
{"id": "C91", "title": "A buffer with one reader gives each message once and in order", "statement": "When one reader and any number of writers use a buffer between instances, the reader is given exactly the messages which were written, in the order they were written as long as all writers write in the same way, each once; when the counters say that nothing is left everything has been given, and a reader which calls while something is left is given the oldest of it. This holds whichever way the callback ends each call (go on, stop, error) and no freed memory is used.", "quantifier": "all interleavings of critical sections of the writers and the reader, all numbers of messages, all return values of callbacks", "why_tests_cant": "The reader takes entries out of the list, works without lock and puts the rest back; what happens in between depends on the schedule.", "anchors": ["src/lib/fifo_protected.c rrr_fifo_protected_write, rrr_fifo_protected_write_delayed, rrr_fifo_protected_read_clear_forward, __rrr_fifo_write_queue_merge_nolock"]}
{"id": "C92", "title": "A buffer with many readers gives each message to exactly one of them", "statement": "When any number of readers and writers use a buffer between instances, each message which was written is given to one reader, once, and none is lost; no freed memory is used.", "quantifier": "all interleavings of critical sections, all numbers of readers, writers and messages, all return values of callbacks", "why_tests_cant": "Readers put back entries into a list which other readers have changed in the meantime; the number of schedules is unbounded.", "anchors": ["src/lib/fifo_protected.c rrr_fifo_protected_read_clear_forward, rrr_fifo_protected_write"]}
{"id": "C93", "title": "A buffer between instances frees each message as it was told and leaks none", "statement": "When all readers have returned, a message has been freed exactly if the callback it was given to said so; destroying the buffer frees each message which was not given and leaves no entry in memory.", "quantifier": "all histories as in C91 and C92", "why_tests_cant": "Ownership of a message depends on what callbacks returned and on whether it was put back.", "anchors": ["src/lib/fifo_protected.c __rrr_fifo_protected_entry_destroy_unlocked, __rrr_fifo_protected_clear, rrr_fifo_protected_destroy"]}
{"id": "C94", "title": "With duplicated output each reader gets every message once and in order", "statement": "When an instance has duplicated output, each of its readers is given all messages the instance writes, in the order in which they were written, each exactly once, from the first one on; the pace of one reader does not affect what the others are given, only one reader at a time takes messages from the common buffer, and no freed memory is used.", "quantifier": "all numbers of readers up to the number which was set up, all interleavings of writes and polls of all readers at the level of critical sections, and all values callbacks may return", "why_tests_cant": "A reader which polls moves messages to the buffers of all readers while these are reading them and while new messages are written.", "anchors": ["src/lib/message_broker.c __rrr_message_broker_get_source_buffer, __rrr_message_broker_split_buffers_fill, __rrr_message_broker_split_buffers_fill_callback, rrr_message_broker_poll_delete, rrr_message_broker_setup_split_output_buffer"]}
{"id": "C95", "title": "A reader is woken up for every message", "statement": "While a message waits for an instance and no write call is in progress, the instance does not sleep: its event handler is running or its event loop will call it, and by its own steps it can get all messages. It is told exactly as many messages as wait for it.", "quantifier": "all sets of writers and readers, all interleavings of storing messages, notifying, event handler calls, polls and pauses", "why_tests_cant": "A lost wake-up needs a particular interleaving, and shows only as a message which is late.", "anchors": ["src/lib/event/event.c __rrr_event_signal_event, __rrr_event_unpause, rrr_event_pass", "src/lib/message_broker.c __rrr_message_broker_write_notifications_send, rrr_message_broker_write_entries_from_collection_unsafe, rrr_message_broker_poll_delete"]}
{"id": "C96", "title": "Messages are given to those they are for and not back to where they come from", "statement": "An instance is given a message it polls exactly if its topic filter lets it through (or does not, if inverted) and it is among the next hops, if any are named; with the backstop, the default, it is never given back a message which it made, whatever way this takes through other instances.", "quantifier": "all routes of any length through any instances, with all settings of filter, inversion, backstop, next hops and duplication", "why_tests_cant": "A message may take any way through the instances.", "anchors": ["src/lib/message_broker.c __rrr_message_broker_poll_intermediate_backstop_handling, __rrr_message_broker_entry_prepare, __rrr_message_broker_split_buffers_fill_callback", "src/lib/poll_helper.c __rrr_poll_intermediate_callback", "src/lib/message_holder/message_holder.c rrr_msg_holder_nexthop_ok", "src/lib/message_holder/message_holder_util.c rrr_msg_holder_util_clone_no_locking"]}
{"id": "C97", "title": "Assured single delivery over UDP", "statement": "Every message which a sender with assured delivery has accepted is delivered to the application of the receiver exactly once, or is still kept by the sender and may still get there, however datagrams are lost, repeated, delayed and reordered; neither end aborts, and the receiver goes on taking messages.", "quantifier": "all schedules of giving, sending, losing and arriving of messages and control frames, of any length", "why_tests_cant": "Loss and reordering give unboundedly many schedules; the failures need thousands of messages or a lost frame at one moment.", "anchors": ["src/lib/udpstream/udpstream_asd.c rrr_udpstream_asd_queue_and_incref_message, __rrr_udpstream_asd_control_frame_callback, __rrr_udpstream_asd_do_send_tasks, __rrr_udpstream_asd_receive_messages_callback_final, __rrr_udpstream_asd_deliver_and_maintain_queues, __rrr_udpstream_asd_queue_update_delivery_grace"]}
{"id": "C98", "title": "The cacher answers a request with the latest message", "statement": "A request for a topic is answered from memory with the last message stored under exactly that topic, if it has not been deleted and is younger than the memory limit; otherwise, and only then, the database is asked. Memory holds at most one message per topic, too old messages have no effect, and forwarding follows the settings only.", "quantifier": "all configurations and all histories of messages and tidying with a clock which does not go backwards", "why_tests_cant": "The answer depends on the whole history of messages, deletions and ages.", "anchors": ["src/modules/p_cacher.c cacher_process, cacher_get_from_memory_cache, cacher_save_to_memory_cache, cacher_store, cacher_tidy_memory_cache", "src/lib/messages/msg_msg.c rrr_msg_msg_ttl_ok, rrr_msg_msg_topic_equals"]}
{"id": "C99", "title": "The message database returns what was stored", "statement": "A GET for a topic is answered with the message which was stored last under exactly that topic and was not deleted or tidied since, and is otherwise refused. This also holds after the server is restarted with another directory depth. PUT and DEL are acknowledged when they have been carried out.", "quantifier": "all hash functions with results of 32 bytes, directory depths, histories of requests, cut off writes, visits by the tidier and restarts, and crash points in a PUT or in the restructuring", "why_tests_cant": "What is in a file depends on the whole history, including writes which were cut off.", "anchors": ["src/lib/msgdb/msgdb_server.c __rrr_msgdb_server_put, __rrr_msgdb_server_del, __rrr_msgdb_server_get, __rrr_msgdb_server_open_and_read_file, __rrr_msgdb_server_read_msg_msg_callback, __rrr_msgdb_server_restructure"]}
{"id": "C100", "title": "Listing and tidying the database looks at every message", "statement": "A walk through the database looks at all files and then ends, however its time is divided into slices. Listing sends each message which is old enough and nothing else, tidying removes exactly those which are too old.", "quantifier": "all directories and entries, all divisions of the work into slices", "why_tests_cant": "How far each slice comes depends on the clock.", "anchors": ["src/lib/msgdb/msgdb_server.c __rrr_msgdb_server_client_iteration_session_process, __rrr_msgdb_server_idx_make_directory_index"]}
{"id": "C101", "title": "The hash function is SHA-256", "statement": "The hash calculated for any input is the SHA-256 digest as in FIPS 180-4, always 32 bytes, also if the input is given in pieces and whatever was in memory before.", "quantifier": "all inputs, all divisions into pieces, all contents of uninitialised memory", "why_tests_cant": "Test vectors cover a few inputs; the padding and the rolling message schedule have to be right for each length and content.", "anchors": ["src/lib/util/sha256.c rrr_sha256_calculate, sha_256_init, sha_256_write, sha_256_close, consume_chunk"]}
{"id": "C102", "title": "UDP streams deliver messages once and in order", "statement": "The messages which a receiver gets from a stream over UDP are the first of those queued by the sender: same order, same data and application number, each exactly once, whatever packets and acknowledgements the network loses, repeats or reorders. The receiver never aborts and never writes outside of its memory. Once everything has been acknowledged all messages have been or will be handed over.", "quantifier": "all histories of queueing, sending, arrival of any frame or acknowledgement ever sent (late, repeated, or never), processing with any verdicts of the application, and all message sizes", "why_tests_cant": "Loss and reordering give unboundedly many schedules; a test runs few of them on a network which rarely reorders.", "anchors": ["src/lib/udpstream/udpstream.c rrr_udpstream_queue_outbound_data, __rrr_udpstream_send_loop, __rrr_udpstream_handle_received_frame, __rrr_udpstream_handle_received_frame_ack, __rrr_udpstream_process_receive_buffer"]}
{"id": "C103", "title": "UDP streams send lost frames again", "statement": "A frame which is lost is sent again until it is acknowledged, without the application having to queue more. No more than 100 frames are sent in a burst, and the window asked for stays between 10 and 1500.", "quantifier": "all histories of a stream, all sizes of messages and windows", "why_tests_cant": "Whether something is sent again depends on the events pending after a particular sequence of losses and acknowledgements.", "anchors": ["src/lib/udpstream/udpstream.c rrr_udpstream_queue_outbound_data, __rrr_udpstream_event_send, __rrr_udpstream_send_loop, __rrr_udpstream_process_receive_buffer, __rrr_udpstream_regulate_window_size"]}
{"id": "C104", "title": "Packets cannot harm UDP streams they are not for", "statement": "Whatever packets arrive from whomever: established streams have different numbers, a packet changes no stream but the one it is addressed to, and the endpoint neither aborts nor uses memory which is freed or not its own.", "quantifier": "all histories of packets with any contents and source address, connects, removals and processing; all random numbers", "why_tests_cant": "Packets are chosen by an attacker; combinations of resets, connects and collisions of numbers are unbounded.", "anchors": ["src/lib/udpstream/udpstream.c __rrr_udpstream_handle_received_frame, __rrr_udpstream_handle_received_connect, __rrr_udpstream_update_stream_remote, __rrr_udpstream_allocate_stream_id"]}
{"id": "C105", "title": "UDP stream packets are received as sent, damaged ones are refused", "statement": "Every packet which is sent and arrives unchanged is accepted with the same stream number, frame number, flags, acknowledged range, application number and data. A packet which was cut off or extended, or changed in up to four adjacent bytes, is refused. No bytes whatsoever make the receiver abort.", "quantifier": "all packets of all types with any field values and data up to 1024 bytes; all damages of the kinds named; all byte strings", "why_tests_cant": "The space of packets and damages is far too large to try.", "anchors": ["src/lib/udpstream/udpstream.c __rrr_udpstream_checksum_and_send_packed_frame, __rrr_udpstream_read_get_target_size, __rrr_udpstream_read_callback, __rrr_udpstream_frame_packed_validate, __rrr_udpstream_frame_new_from_packed"]}
{"id": "C106", "title": "The send loop of the modules ip and file keeps order and loses nothing", "statement": "Every message given to the loop is, at any time, in exactly one place: waiting, taken by the sender, finished, or dropped or returned for a stated reason. With order preservation a message is never passed to the sender before an earlier one which is still waiting. A message is dropped or returned only because its TTL has expired, the timeout has passed, or the sender reported an error, and the action taken on timeout is the one configured. As long as messages are waiting another run is scheduled.", "quantifier": "all histories of arrivals, runs with any answers of the sender and any clock, messages given back by the sender, timers and refreshed times; all settings", "why_tests_cant": "Which messages are waiting, timed out or given back at a given moment depends on the whole history.", "anchors": ["src/lib/send_loop.c rrr_send_loop_entry_prepare, rrr_send_loop_push, rrr_send_loop_unshift, rrr_send_loop_unshift_if_timed_out, rrr_send_loop_run, rrr_send_loop_event_add_or_remove", "src/lib/message_holder/message_holder_util.c rrr_msg_holder_util_timeout_check", "src/lib/message_holder/message_holder_collection.c rrr_msg_holder_collection_sort", "src/modules/p_file.c thread_entry_file"]}
{"id": "C107", "title": "Array definitions read data as the manual says", "statement": "With an array definition, data are read if and only if they begin with values as the definition says: each field by its type, with lengths and counts which are given or are the last value with a tag, the first branch of a condition which is true, and fields stepped back over by REWIND. The array then has exactly the values of the data, integers and numbers by their mathematical value, and the bytes used are exactly those of the values.", "quantifier": "all definitions (with conditions nested to any depth, references and REWIND), all data and both byte orders", "why_tests_cant": "Definitions are programs, and the data are arbitrary; which branch, length and count apply depends on the values read before.", "anchors": ["src/lib/array_tree.c rrr_array_tree_import_from_buffer, __rrr_array_tree_iterate, __rrr_array_tree_import_value_callback, __rrr_array_tree_import_rewind_callback", "src/lib/type.c __rrr_type_import_int, __rrr_type_import_blob, __rrr_type_import_sep_stx, __rrr_type_import_numeric_str_raw, __rrr_type_import_fixp, __rrr_type_import_nsep, __rrr_type_import_str, __rrr_type_import_msg, __rrr_type_import_hdlc", "src/lib/fixed_point.c __rrr_fixp_str_preliminary_parse", "misc/man/rrr_post.1 ARRAY DEFINITION"]}
{"id": "C108", "title": "Data read with an array definition cannot abort the program or corrupt memory", "statement": "Whatever bytes are received, reading them with an array definition ends with an array, a request for more data or an error. It does not abort the process and does not access memory outside of the data or of the memory allocated for values.", "quantifier": "all definitions and all received bytes", "why_tests_cant": "An attacker chooses the bytes, including lengths and counts which the definition refers to.", "anchors": ["src/lib/array_tree.c rrr_array_tree_import_from_buffer, __rrr_array_tree_iterate, __rrr_array_tree_import_value_callback, __rrr_array_tree_import_rewind_callback", "src/lib/type.c __rrr_type_import_int, __rrr_type_import_blob, __rrr_type_import_sep_stx, __rrr_type_import_numeric_str_raw, __rrr_type_import_fixp, __rrr_type_import_nsep, __rrr_type_import_str, __rrr_type_import_msg, __rrr_type_import_hdlc", "src/lib/fixed_point.c __rrr_fixp_str_preliminary_parse", "misc/man/rrr_post.1 ARRAY DEFINITION"]}
{"id": "C109", "title": "The verdict of an array definition does not depend on how data arrive", "statement": "When data arrive in parts, reading the first part gives a request for more data, or else the same array, number of bytes or error as with more data.", "quantifier": "all definitions, all data and all places where the data are divided", "why_tests_cant": "The division of a stream into parts is arbitrary.", "anchors": ["src/lib/array_tree.c rrr_array_tree_import_from_buffer, __rrr_array_tree_iterate, __rrr_array_tree_import_value_callback, __rrr_array_tree_import_rewind_callback", "src/lib/type.c __rrr_type_import_int, __rrr_type_import_blob, __rrr_type_import_sep_stx, __rrr_type_import_numeric_str_raw, __rrr_type_import_fixp, __rrr_type_import_nsep, __rrr_type_import_str, __rrr_type_import_msg, __rrr_type_import_hdlc", "src/lib/fixed_point.c __rrr_fixp_str_preliminary_parse", "misc/man/rrr_post.1 ARRAY DEFINITION"]}
{"id": "C110", "title": "Array definitions are read as they are written", "statement": "A text is accepted as an array definition if and only if it is one after the manual: fields with type, length, sign, count and tag, separated by commas, blocks of IF, ELSIF and ELSE which can be nested, REWIND, and a semicolon at the end of each block. The definition which is made is the one that is written, no text has two meanings, and no text aborts the process.", "quantifier": "all texts, with blocks nested to any depth and any number of fields", "why_tests_cant": "The grammar is recursive and the parser works with positions in the text; tests have a few definitions.", "anchors": ["src/lib/array_tree.c rrr_array_tree_interpret, rrr_array_tree_interpret_raw, __rrr_array_tree_interpret_node, __rrr_array_tree_interpret_single_definition, __rrr_array_tree_interpret_identifier_and_size, __rrr_array_tree_interpret_rewind", "src/lib/type.c rrr_type_parse_from_string", "misc/man/rrr_post.1 ARRAY DEFINITION, ARRAY CONDITIONAL BRANCHING"]}
{"id": "C111", "title": "Data given to a socket client arrive complete and in order", "statement": "The bytes which a socket client sends are the data given to it, one after the other in the order given; nothing is left out, doubled or mixed, however the kernel splits the writes. Nothing waits without a write event, the sender is told of the data in order and not before they are sent, and a connection which is to be closed when all is sent is not closed before that.", "quantifier": "all histories of data given, write events and closing, and all answers of the kernel to each write", "why_tests_cant": "Partial writes and full buffers depend on the kernel and the peer; tests on a local host see few of them.", "anchors": ["src/lib/socket/rrr_socket_send_chunk.c __rrr_socket_send_chunk_collection_send", "src/lib/socket/rrr_socket_client.c __rrr_socket_client_event_write, __rrr_socket_client_send_push_notify", "src/lib/socket/rrr_socket.c rrr_socket_sendto_nonblock_with_options"]}
{"id": "C112", "title": "Data given to net transport arrive complete and undivided", "statement": "The bytes which net transport sends are the data given to it, each complete and not mixed with others; urgent data may be before others which are waiting. Nothing is left out or doubled, nothing waits without a write event, an error closes the connection, and a connection which is to be closed when all is sent is not closed before that.", "quantifier": "all histories of urgent and other data given, write events and closing, and all answers of the kernel to each write", "why_tests_cant": "Mixing needs a full buffer at a certain byte of a message; tests on a local host do not see it.", "anchors": ["src/lib/socket/rrr_socket_send_chunk.c rrr_socket_send_chunk_collection_send_with_callback, rrr_socket_send_chunk_collection_push", "src/lib/net_transport/net_transport.c __rrr_net_transport_event_write", "src/lib/net_transport/net_transport_ctx.c __rrr_net_transport_ctx_send_push, rrr_net_transport_ctx_close_when_send_complete_set"]}
{"id": "C113", "title": "ACL files are read as they are written", "statement": "An ACL file is accepted exactly when its lines are written as the manual says, and the rules of the broker are then the blocks of the file in order, each with its filter, its users and its default, which is to deny when it is not given. With these rules a user may publish or subscribe exactly if the last block which matches says so: the last USER line for the user, otherwise DEFAULT.", "quantifier": "all files, all users and all topics", "why_tests_cant": "Files are free text: a mistake in reading one keyword, comment or line end gives rights to someone or takes them away, and tests have only some files.", "anchors": ["src/lib/mqtt/mqtt_acl.c rrr_mqtt_acl_entry_collection_populate_from_file, __rrr_mqtt_acl_parse_topic_blocks, __rrr_mqtt_acl_parse_topic_block_body, __rrr_mqtt_acl_parse_keyword_user, __rrr_mqtt_acl_parse_keyword_default", "misc/man/rrr.conf.5 mqtt_broker_acl_file"]}
{"id": "C114", "title": "Configuration files are read as they are written", "statement": "A configuration file is accepted exactly when it is written as the manual says: comments, array definitions, routes, methods and instances with their settings. The program then has exactly what is written, in the order of the file: nothing is lost, mixed between instances or read twice. Names are defined once and each sub instance has its main instance. What a program writes as instances with settings is read back.", "quantifier": "all files, all instances and all settings", "why_tests_cant": "Files are free text with comments, spaces and nested names: a mistake in one character moves a setting to another instance or drops it, and tests have only some files.", "anchors": ["src/lib/configuration.c rrr_config_parse_string, __rrr_config_parse_any, __rrr_config_parse_block, __rrr_config_parse_setting, __rrr_config_parse_array_tree, __rrr_config_parse_discern_stack", "src/lib/instance_config.c rrr_instance_config_parse_string, __rrr_instance_config_collection_generate_tree", "src/lib/settings.c rrr_settings_add_string", "src/lib/parse.c rrr_parse_str_extract_name, rrr_parse_str_extract_name_with_subscript", "misc/man/rrr.conf.5"]}
{"id": "C115", "title": "Websocket connections are opened with the key and accept value of RFC 6455", "statement": "The hash function gives the SHA-1 digest of the standard for every message, also if it comes in pieces, and refuses messages which are too long. A server answers every key of 16 bytes with the accept value of RFC 6455, refuses other keys, and a client accepts this answer and no other. A client and a server always connect, whatever key is chosen.", "quantifier": "all messages and all ways to cut them into pieces, all keys, all answers", "why_tests_cant": "Keys are random and an error in one bit of the hash for some lengths, or in the end of line of the encoding, only shows for some of them. Test vectors cover a few messages.", "anchors": ["src/lib/sha1/sha1.c rrr_SHA1Reset, rrr_SHA1Input, rrr_SHA1Result, rrr_SHA1toBE", "src/lib/http/http_application_http1.c __rrr_http_application_http1_websocket_make_accept_string, __rrr_http_application_http1_websocket_response_check_headers", "src/lib/websocket/websocket.c rrr_websocket_state_get_key_base64", "src/lib/helpers/nullsafe_str.c rrr_nullsafe_str_util_output_strip_null_append_null_trim_raw_null_ok"]}
{"id": "C116", "title": "The mangler converts values as the manual says", "statement": "Every conversion method makes exactly the value which the manual describes, or is not possible, for every value. All conversions of a recipe are applied from left to right, those which are not possible are skipped. Values with a tag to be cleared are deleted, all other values are in the outgoing message, in order and with their tags. Numbers which are converted to text and back are the same. The program does not fail or abort.", "quantifier": "all values of all types, all recipes, all tags, all settings and byte orders, all received array messages", "why_tests_cant": "There are 13 methods which can be combined in any order and number, and the outcome depends on type, signs, number of elements and size of the values. Tests try a few recipes.", "anchors": ["src/lib/type_conversion.c rrr_type_convert_using_list, __rrr_type_convert_h2str, __rrr_type_convert_str2h, __rrr_type_convert_blob2hex", "src/modules/p_mangler.c mangler_process_value, mangler_poll_callback", "src/lib/util/hex.c rrr_hex_bin_to_hex", "misc/man/rrr.conf.5 mangler, CONVERSION METHODS"]}
{"id": "C117", "title": "The influxdb module stores the values of messages", "statement": "For every array message the module sends a line from which the database reads exactly the configured tags and fields, each with the value which it has in the message, and the fixed tags and fields. No value can change other fields. Messages without a configured value are not sent. The program does not abort.", "quantifier": "all array messages, all values of all types, all configurations of tags, fields and fixed tags and fields", "why_tests_cant": "Values have any bytes, and what the database stores depends on how separators, quotes and escape characters in the values meet those of the line.", "anchors": ["src/lib/http/http_query_builder.c rrr_http_query_builder_append_values_from_array, rrr_http_query_builder_append_values_from_map, __rrr_http_query_builder_escape_field", "src/modules/p_influxdb.c influxdb_send_data_callback, influxdb_process_entry", "src/lib/array.c rrr_array_message_append_to_array", "misc/man/rrr.conf.5 influxdb"]}
{"id": "C118", "title": "The exploder writes one message for each value", "statement": "For every array message, the exploder writes one array message for each value, in order, with exactly this value and its tag, with the topic which the manual describes and the original or current time, and then the original message if that is configured. Other messages are passed through unmodified or dropped. When a topic becomes too long nothing is written after it.", "quantifier": "all array messages with values which the program makes, all tags, topics and settings, both byte orders", "why_tests_cant": "The number, types, sizes and tags of the values and the topics are unbounded and each combination of five settings makes another topic.", "anchors": ["src/modules/p_exploder.c exploder_poll_callback, exploder_process_value", "src/lib/type.c rrr_type_value_clone", "misc/man/rrr.conf.5 exploder"]}
{"id": "C119", "title": "Averages are those of the measurements in the timespan", "statement": "Each message of the averager has the average, maximum, minimum, lowest and highest time of exactly the measurements received in the timespan. Other messages are passed through. The program does not fail for any message.", "quantifier": "all sequences of received messages and intervals, all measurements, timespans and times", "why_tests_cant": "The averages depend on the whole history of messages and times, and on values near the limits of 64 bit numbers.", "anchors": ["src/modules/p_averager.c averager_poll_callback, averager_maintain_buffer, averager_process_message, averager_calculate_average, averager_spawn_message", "misc/man/rrr.conf.5 averager"]}
{"id": "C120", "title": "Blocks of collections of memory maps do not overlap and are freed by address", "statement": "For any number of processes which share collections of memory maps: blocks which are held are inside maps which are in use, do not overlap in any process and keep the bytes written to them. A map with blocks is not removed and does not move. A held block which is freed by its address in any process is found, and exactly that block is freed. No allocation and no maintenance aborts the program.", "quantifier": "all numbers of collections and processes, all histories of allocations of 1 to 2^64 - 9 bytes, frees of held blocks, writes and maintenance in which no process lets a collection change 2^32 times between two of its frees, all addresses which the system may choose for new maps", "why_tests_cant": "Whether a table of addresses is out of date depends on the history of all processes; the state of each map is its bytes.", "anchors": ["src/lib/rrr_mmap.c rrr_mmap_collections_allocate, rrr_mmap_collections_free, rrr_mmap_collections_maintenance, __rrr_mmap_collection_minmax_update_if_needed", "src/lib/rrr_mmap.h rrr_mmap_collection_private_data"]}
{"id": "C121", "title": "Settings mean what the configuration says", "statement": "A setting which is read has the value last set for its name, as long as there is room, and a name cannot be added twice. Numbers, ports, yes and no, times in milliseconds, lists with commas, lists of pairs with a delimiter, what to write, and topics are accepted exactly when they are well-formed, and are then given as they are written; other values are refused with an error and never abort the program. A warning is given exactly when there is a setting which nothing asked for, also when it was asked for in a worker process.", "quantifier": "all histories of settings added and replaced, all names and values, all sequences of settings which are asked for, all sets of settings of workers", "why_tests_cant": "Values are arbitrary texts, and whether a setting is used depends on the whole history of lookups.", "anchors": ["src/lib/settings.c rrr_settings_add_string, rrr_settings_replace_string, rrr_settings_read_unsigned_integer, rrr_settings_check_yesno, rrr_settings_traverse_split_commas, rrr_settings_split_commas_to_array, rrr_settings_check_all_used, rrr_settings_iterate_packed", "src/lib/instance_config.c rrr_instance_config_parse_optional_write_method, rrr_instance_config_parse_optional_topic_and_length, rrr_instance_config_update_used", "src/lib/instance_config.h RRR_INSTANCE_CONFIG_PARSE_OPTIONAL_MS", "src/lib/map.c rrr_map_parse_pair"]}
{"id": "C122", "title": "Handles of shared memory give the memory which was handed out", "statement": "For any number of processes which share memory handed out by handles: looking up a handle gives a pointer to the whole of the object which was last handed out for it, and NULL when it is not handed out. Until the handle is freed, the same process gets the same pointer, whatever other processes do. Different handles have different memory. Freeing a pointer frees exactly its handle. When the master is destroyed, or the process which made the memory exits, no shared memory is left in the system. Errors of the operating system are reported.", "quantifier": "all histories of allocations, frees, lookups, forks and unregistrations by any number of processes in which no process lets 2^32 changes go by, all names and addresses which the system may choose", "why_tests_cant": "Whether a pointer of a process is out of date depends on what all processes have done; failures of the system are hard to provoke.", "anchors": ["src/lib/rrr_shm.c rrr_shm_resolve, rrr_shm_free, rrr_shm_allocate, rrr_shm_collection_master_allocate, rrr_shm_collection_master_free, rrr_shm_collection_master_destroy, rrr_shm_holders_cleanup, __rrr_shm_holder_maintain", "src/lib/rrr_shm_struct.h rrr_shm_collection_master"]}
{"id": "C123", "title": "Command lines mean what is written", "statement": "For every table of options and every list of arguments: a command line is accepted exactly when it consists of options which the table has, by name or by letter, with a value exactly where the table demands one, and of arguments without a flag as many as the table allows; after -- all arguments are without a flag. Each option then has the values which were written for it, split at commas where the table says so, and lookups give these values in order. An option which nobody looks up makes the check of unused arguments fail.", "quantifier": "all tables of options, all lists of arguments, all names and indexes which are looked up", "why_tests_cant": "The number of ways in which options, groups of letters, values and -- can be combined is unbounded.", "anchors": ["src/lib/cmdlineparser/cmdline.c cmd_parse, cmd_get_subvalue, cmd_get_value, cmd_exists, cmd_find_pair, cmd_iterate_subvalues_if_exists, cmd_check_all_args_used, __cmd_pair_split_comma", "src/lib/cmdlineparser/cmdline.h struct cmd_arg_rule"]}
{"id": "C124", "title": "Environment files give the variables which are written in them", "statement": "For every environment file without NUL: the variables which are set are those which its lines give, one after another, where a line is a name, an equal sign and a value, or a name alone, which gets the value 1; blanks around are left out, and empty lines and lines which begin with # say nothing. When a program starts, each variable has the last value given in the file, or the value it had before.", "quantifier": "all texts of files without NUL, all command lines and environments", "why_tests_cant": "A test reads some file; which lines are taken as names, as values or as errors depends on every combination of blanks, equal signs and line ends, and on the order of lines with the same name.", "anchors": ["src/lib/environment_file.c: rrr_environment_file_parse", "src/main.c: rrr_main_parse_cmd_arguments_and_env", "src/lib/parse.c: rrr_parse_str_extract_until, rrr_parse_str_trim"]}
{"id": "C125", "title": "The global configuration comes from the command line, the environment and the defaults, in this order, and within its limits", "statement": "For every command line, environment file and environment: a program starts exactly when each number which is given can be understood, and then each setting is what the command line says, else what the environment file says, else what the environment says, else the default; each number is within the limits of the option, and words for no switch a flag off. Child processes started with the environment of the program have the same configuration.", "quantifier": "all command lines, environment files, environments and answers of the operating system", "why_tests_cant": "There are nine settings with up to four sources each; tests cannot cover all combinations of sources, nor all texts which may be numbers.", "anchors": ["src/main.c: rrr_main_parse_cmd_arguments_and_env, GETENV_U, GETENV_YESNO", "src/lib/cmdlineparser/cmdline.c: cmd_convert_integer_10", "src/lib/rrr_config.c: rrr_config_init"]}
{"id": "C126", "title": "Only users with their password and permission get in", "statement": "For every password file, user name, password and demanded permission: authentication succeeds exactly when the first line of the file for this user stores a password which matches and lists the permission, and the lines before can be read. What the program stores for a password matches exactly the same password (or, with encryption, passwords which have the same key), and no memory is read beyond what was written.", "quantifier": "all texts of password files without NUL, all names, passwords, permissions, salts and key functions", "why_tests_cant": "A test tries some right and some wrong passwords; that no other password or malformed line lets a user in must hold for all texts.", "anchors": ["src/lib/passwd.c: rrr_passwd_authenticate, rrr_passwd_check, rrr_passwd_encrypt, rrr_passwd_iterate_lines", "src/lib/parse.c: rrr_parse_str_split"]}
{"id": "C127", "title": "Changes to a password file concern the one user only", "statement": "For every password file and every change which the program accepts: a user is created when there is none of this name, or the one line of the user is changed or removed; all other lines are kept; and afterwards all other users get in exactly as before, the removed user does not, and the new or changed user does with the stored password and the permissions which were asked for.", "quantifier": "all files without NUL and all accepted combinations of options, names, permissions and hashes", "why_tests_cant": "Tests try some files and options; that no other user is affected must hold for all files and all texts which the options accept.", "anchors": ["src/rrr_passwd.c: __rrr_passwd_process, __rrr_passwd_process_line_callback, __rrr_passwd_write_user, __rrr_passwd_parse_config", "src/lib/passwd.c: rrr_passwd_permission_collection_remove_duplicates, rrr_passwd_iterate_lines"]}
{"id": "C128", "title": "The password file is never lost", "statement": "Whenever the program which changes a password file is interrupted, and whichever of its calls to the operating system fail: the password file exists with its old or its new contents, and other files are kept.", "quantifier": "all crash points, all outcomes of renaming, all contents", "why_tests_cant": "Crash points between calls to the operating system cannot be hit reliably by tests.", "anchors": ["src/rrr_passwd.c: main"]}
{"id": "C129", "title": "JSON gives one array for each object", "statement": "For every JSON text: it is accepted exactly when it can be parsed, no value within the limit of levels stands outside of an object and numbers can be converted. Then one array is handed over for each object within the limit, objects inside of others first, and it has exactly the plain members of the object, by name and in order. The consumer of the arrays can stop this at any array, and of JSON which is wrong only arrays of the first objects are handed over.", "quantifier": "all trees of JSON of any depth and width, all limits, all consumers", "why_tests_cant": "Tests use some texts; order, completeness and names must be right for trees of any shape, and for any point of failure.", "anchors": ["src/lib/json/json.c: rrr_json_to_arrays, __rrr_json_to_array_recurse, __rrr_json_to_array_recurse_object", "src/lib/array.c: rrr_array_push_value_str_with_tag, rrr_array_push_value_i64_with_tag, rrr_array_push_value_vain_with_tag"]}
{"id": "C130", "title": "Arrays become JSON objects with the same values", "statement": "For every array and every choice of tags: the object has a member for each name among the values which were chosen, which is the last value of this name, with all of its elements; objects of plain values survive the way to an array and back.", "quantifier": "all arrays and choices of tags; all objects of plain values", "why_tests_cant": "Tests use single values; every number of elements, every order and every repetition of names must come out right.", "anchors": ["src/lib/json/json.c: rrr_json_from_array, __rrr_json_from_array_callback, __rrr_json_type_to_object, rrr_json_from_map_nolog", "src/lib/array.c: rrr_array_selected_tags_split, __rrr_array_selected_tags_split_callback"]}
{"id": "C131", "title": "Texts of fixed point numbers are read as written", "statement": "For every text: it is taken as a number exactly when it has an optional base, an optional sign, digits and an optional dot with digits, and reading stops at the first character after it. The result is the number written: in base 16 the exact number cut off to units of 2^-24, in base 10 the number with an error of one unit at most.", "quantifier": "all texts, any number of leading characters, digits and what follows", "why_tests_cant": "Tests use some numbers; every digit at every position must count right, and rounding errors add up differently for every text.", "anchors": ["src/lib/fixed_point.c: __rrr_fixp_str_preliminary_parse, rrr_fixp_str_to_fixp, __rrr_fixp_convert_char"]}
{"id": "C132", "title": "Fixed point numbers survive the way to other programs and back", "statement": "For every fixed point number: made into text in base 16 or into a floating point number and read back, it is the same number. Floating point numbers become the nearest fixed point number towards zero, and numbers which cannot be held are refused.", "quantifier": "all 2^64 fixed point numbers, all floating point numbers", "why_tests_cant": "Tests use some numbers; sign, carry and the limits have to be right for each of 2^64 values.", "anchors": ["src/lib/fixed_point.c: rrr_fixp_to_str_16, rrr_fixp_to_ldouble, rrr_fixp_ldouble_to_fixp, rrr_fixp_str_to_fixp", "src/lib/perl5/perl5_types.c"]}
{"id": "C133", "title": "Multipart forms are split at their boundaries", "statement": "For every multipart request which is accepted: there is one part for each line with the boundary, in the same order, each ends at the next boundary, the fields are those of the parts with a name, and the value is exactly what is between the header of the part and the end of the line before the next boundary. A body without its last boundary is refused, and no value is taken from outside of the data.", "quantifier": "every header, every body, every boundary without line feed, any depth of parts in parts", "why_tests_cant": "The number, position and length of boundaries, headers and values are unbounded, as is the nesting.", "anchors": ["src/lib/http/http_part_multipart.c:rrr_http_part_multipart_process", "src/lib/http/http_part.c:rrr_http_part_multipart_and_fields_process", "src/lib/helpers/nullsafe_str.c:rrr_nullsafe_str_str"]}
{"id": "C134", "title": "Forms which are sent are read as the same fields", "statement": "For every list of fields which is made into a multipart form with a boundary of letters and digits: when the form is received, the same names, values and content types are read from it in the same order.", "quantifier": "every list of up to 1000 fields, every name, value and content type, every boundary, every head of the request and everything after the form", "why_tests_cant": "The number of fields and the length and bytes of names and values are unbounded, and they interact with quoting, header parsing and the search for boundaries.", "anchors": ["src/lib/http/http_part_multipart.c:rrr_http_part_multipart_form_data_make", "src/lib/http/http_part_multipart.c:rrr_http_part_multipart_process", "src/lib/http/http_part.c:rrr_http_part_multipart_and_fields_process", "src/lib/http/http_util.c:rrr_http_util_header_value_quote"]}
{"id": "C135", "title": "A thread which is stopped is done before its memory is freed", "statement": "For every interleaving of a thread, its watchdog and the main thread: when all threads have been stopped, the thread has set STOPPED after its cleanup or it is a ghost, memory is freed only after that and is not used afterwards, and no assertion about states fails.", "quantifier": "every schedule of the three threads, from creation to the end, with any point in time for the stop and for timeouts", "why_tests_cant": "Three threads access one word without a lock, and the bad interleavings are a few instructions wide.", "anchors": ["src/lib/threads.c:rrr_thread_state_set", "src/lib/threads.c:__rrr_thread_watchdog_entry", "src/lib/threads.c:rrr_thread_collection_destroy", "src/lib/threads.c:__rrr_thread_start_routine_intermediate"]}
{"id": "C136", "title": "Threads initialize, fork and run in stages, and fork one at a time", "statement": "For every number of threads and every interleaving of the start procedure: no thread forks before all are initialized or have stopped, no two threads fork at the same time, and no thread runs before all have forked or stopped.", "quantifier": "every number of threads and every schedule of threads and main thread", "why_tests_cant": "The number of threads and their speeds are unbounded.", "anchors": ["src/lib/threads.c:rrr_thread_collection_signal_start_procedure_all", "src/lib/threads.c:rrr_thread_start_condition_helper_fork", "src/lib/threads.c:__rrr_thread_wait_for_state_forked"]}
{"id": "C137", "title": "The watchdog leaves a thread alone which is well", "statement": "For every interleaving from the start of a thread: as long as nobody stops the program, the thread is not found to be frozen and it does not leave by itself, it is not told to stop, is not cancelled and is not tagged as ghost.", "quantifier": "every schedule in which there is no stop and no timeout", "why_tests_cant": "The state has no value between two operations of its change, and the watchdog reads it twice for one decision; whether it can look at a bad moment depends on the schedule.", "anchors": ["src/lib/threads.c:__rrr_thread_watchdog_entry", "src/lib/threads.c:rrr_thread_state_set", "src/lib/threads.c:rrr_thread_collection_signal_start_procedure_all"]}
{"id": "C138", "title": "Stopping is heard, and comes to an end even if a thread hangs", "statement": "For every state in which the main thread has told threads to stop: a thread which waits for a signal to go on gets it, and after a bounded number of turns where its time has come the watchdog has ended, whatever the thread does.", "quantifier": "every schedule up to the stop and every schedule after it", "why_tests_cant": "A thread may hang anywhere, and the stop may come at any point of the start.", "anchors": ["src/lib/threads.c:rrr_thread_collection_destroy", "src/lib/threads.c:__rrr_thread_collection_stop_and_join_all_nolock", "src/lib/threads.c:__rrr_thread_watchdog_entry"]}
{"id": "C139", "title": "Messages of statistics arrive as they were sent, and any bytes are safe to read", "statement": "For every message of statistics: it is read as the same type, flags, path and data on the other side. For every sequence of bytes received as a message of statistics: it is refused or read into its buffers without writing beyond them, and what is accepted can be sent on unchanged.", "quantifier": "every type, flags, path and data; every sequence of bytes", "why_tests_cant": "Lengths of paths and data which are valid together but not each by itself are not tried by tests.", "anchors": ["src/lib/stats/stats_message.c:rrr_msg_stats_init", "src/lib/stats/stats_message.c:rrr_msg_stats_unpack", "src/lib/stats/stats_message.c:rrr_msg_stats_pack_and_flip"]}
{"id": "C140", "title": "The tree of statistics has the last value of each path, and drops old ones", "statement": "For every sequence of messages and cleanups with times which do not go back: the tree has at each place the value of the last message for a path with the same levels, unless nothing was received for the place or below it since the time of a later cleanup.", "quantifier": "every sequence of paths, values, times and cleanups", "why_tests_cant": "The number of messages, the depth and the shape of the tree are unbounded.", "anchors": ["src/lib/stats/stats_tree.c:rrr_stats_tree_insert_or_update", "src/lib/stats/stats_tree.c:rrr_stats_tree_purge_old_branches", "src/lib/stats/stats_tree.c:rrr_stats_tree_has_leaf"]}
{"id": "C141", "title": "URIs are read as the parts they are made of", "statement": "For every URI with protocol, host, optional port and endpoint: it is read as these parts, with the port of the protocol if there is none. Everything which is accepted consists of its parts with no byte missing or added, and no text makes the program abort or read outside of it. The same holds for hosts and ports of alternative services.", "quantifier": "every sequence of bytes; every protocol, host, port and endpoint", "why_tests_cant": "Names, ports and endpoints are unbounded, and the separators may be anywhere in them.", "anchors": ["src/lib/http/http_util.c:rrr_http_util_uri_parse", "src/lib/http/http_util.c:rrr_http_util_uri_host_parse", "src/lib/http/http_util.c:__rrr_http_util_uri_parse_hostname_and_port", "src/lib/http/http_util.c:rrr_http_util_uri_flags_get"]}
{"id": "C142", "title": "Servers are not connected to again too soon, and others are not held back", "statement": "For every sequence of requests to any servers: a connection is made to a server exactly if none was made to the same server, port and version in the last second. An address has the flags it was put on a graylist with until its time has passed, and flags of one address do not affect others.", "quantifier": "every sequence of requests with times which do not go back, every sequence of operations on a graylist", "why_tests_cant": "The number of servers and requests and their times are unbounded.", "anchors": ["src/lib/socket/rrr_socket_graylist.c:rrr_socket_graylist_push", "src/lib/socket/rrr_socket_graylist.c:rrr_socket_graylist_get", "src/lib/socket/rrr_socket_graylist.c:rrr_socket_graylist_count", "src/lib/socket/rrr_socket_graylist.c:rrr_socket_graylist_flags_clear", "src/lib/http/http_client.c:__rrr_http_client_request_send_intermediate_connect"]}
{"id": "C143", "title": "The best alternative service is used which is known to work", "statement": "For every list of services which servers have told about: a request uses the original or a service which belongs to that server and port, which the client has a transport for and which is not on the graylist, it is never worse than the original, and no other such service is better. The last service a server has told about is used, and nothing a server tells makes the program abort.", "quantifier": "every list of services, every state of graylists and transports, every history of responses", "why_tests_cant": "The number of services and servers, their order and the times of connections are unbounded.", "anchors": ["src/lib/http/http_client.c:__rrr_http_client_alt_svc_select", "src/lib/http/http_service.c:rrr_http_service_collection_push_unique", "src/lib/http/http_transaction.c:rrr_http_transaction_response_alt_svc_get", "src/lib/net_transport/net_transport.c:__rrr_net_transport_graylist_addr_make"]}
{"id": "C144", "title": "Fields of url-encoded forms and queries arrive as they were sent", "statement": "For every list of named fields with any bytes in names and values: the form, or the query after an address, which is sent for them is read as the same fields in the same order. The same holds for every other valid way of writing the form, with any characters replaced by percent sequences and plus signs for spaces. No text makes the program stop, and what is read has no more bytes than the text.", "quantifier": "every list of fields, every way of writing them, every sequence of bytes", "why_tests_cant": "Number, length and content of fields are unbounded, and separators may be anywhere in them.", "anchors": ["src/lib/http/http_part.c:__rrr_http_part_query_string_parse", "src/lib/http/http_part.c:__rrr_http_part_fields_from_uri_extract", "src/lib/http/http_fields.c:rrr_http_field_collection_to_urlencoded_form_data", "src/lib/http/http_fields.c:rrr_http_field_value_set"]}
{"id": "C145", "title": "Log messages reach every log hook, and hooks are not called after they are unregistered", "statement": "For every number of threads which log, register and unregister hooks at the same time, and hooks which log by themselves: every message logged outside of hooks is delivered once to each hook which is registered at that time, in the same order to all of them; messages logged by hooks are not delivered, and no thread waits for itself; once unregistering has returned the hook is not called any more; the table of hooks is not written outside of its bounds.", "quantifier": "every schedule of every number of threads, every number of messages and hooks", "why_tests_cant": "The outcome depends on how threads are interleaved between taking a lock and making that known.", "anchors": ["src/lib/log.c:rrr_log_hooks_call_raw", "src/lib/log.c:rrr_log_hook_register", "src/lib/log.c:rrr_log_hook_unregister", "src/lib/log.c:LOCK_HOOK_BEGIN"]}
{"id": "C146", "title": "Environment files set the variables which are written in them", "statement": "For every environment file without NUL bytes: it is read as the variables on its lines, with blanks, empty lines and comments ignored and line ends of all systems accepted, and is refused exactly if a value is missing. The program sees the last value of each variable, and other variables are not changed. Nothing outside of the file is looked at.", "quantifier": "every sequence of bytes, every list of variables, every environment", "why_tests_cant": "Number and length of lines and their order are unbounded.", "anchors": ["src/lib/environment_file.c:rrr_environment_file_parse", "src/lib/environment_file.c:__rrr_environment_file_parse", "src/main.c:rrr_main_parse_cmd_arguments_and_env", "src/lib/parse.c:rrr_parse_str_trim"]}
{"id": "C147", "title": "Every child process which ends is noticed, and its exit function is called once", "statement": "For every order of forks, ends of children, signals and calls in all processes of the program: a child which has ended is not forgotten until its parent has waited for it, and the exit function which was given when it was forked is called exactly once, after the child has ended, in the process which forked it, unless it was removed. Its entry in the table is then free again.", "quantifier": "every interleaving of any number of processes which fork, end, get signals, handle ended children, remove exit functions and shut down; every size of the table", "why_tests_cant": "The result depends on when children end in relation to the steps of other processes.", "anchors": ["src/lib/fork.c:rrr_fork", "src/lib/fork.c:rrr_fork_handle_sigchld_and_notify_if_needed", "src/lib/fork.c:rrr_fork_signal_handler", "src/lib/fork.c:rrr_fork_unregister_exit_handler", "src/lib/fork.c:rrr_fork_send_sigusr1_and_wait", "src/lib/cmodule/cmodule_main.c:__rrr_cmodule_main_workers_stop"]}
{"id": "C148", "title": "Array messages are saved to the columns they are configured for, and none is lost", "statement": "For every column configuration which is accepted and every array message: the statement has one place for each column, each column gets the value with its tag or at its position, followed by the fixed texts and the time, and text, binary data and columns configured for it are stored as bytes while integers are stored as numbers. No message aborts the program. Messages which cannot be saved now stay in the buffer in order, unless they are to be dropped, whatever the database does.", "quantifier": "every column configuration, every list of array values, every behaviour of the database, every buffer", "why_tests_cant": "Number of columns, values and messages and the order of failures of the database are unbounded.", "anchors": ["src/modules/p_mysql.c:mysql_colplan_array_create_sql", "src/modules/p_mysql.c:mysql_colplan_array_bind_execute", "src/modules/p_mysql.c:mysql_bind_value", "src/modules/p_mysql.c:mysql_process_entries", "src/modules/p_mysql.c:mysql_event_process_entries", "src/modules/p_mysql.c:mysql_verify_blob_write_colums", "src/modules/p_mysql.c:mysql_parse_column_plan"]}
{"id": "C149", "title": "HTTP redirects lead where the location says, and not more often than configured", "statement": "For every location in a response: with a server in it, the next request goes to that transport, server, port and endpoint. Without a server, transport, server and port stay the same, and a relative endpoint replaces what is after the last slash of the path. For one message, as many redirects as configured are followed and never more, whatever servers answer. Endpoints of requests are split from queries at the first question mark and decoded.", "quantifier": "every location, configuration, message, sequence of responses and request", "why_tests_cant": "Locations and sequences of responses are unbounded and chosen by servers.", "anchors": ["src/lib/http/http_client.c:__rrr_http_client_redirect_callback", "src/lib/http/http_client.c:__rrr_http_client_receive_http_part_callback", "src/lib/http/http_client.c:rrr_http_client_request_data_reset_from_uri", "src/modules/p_httpclient.c:httpclient_redirect_callback", "src/lib/http/http_transaction.c:rrr_http_transaction_endpoint_path_get", "src/lib/http/http_util.c:rrr_http_util_uri_endpoint_prepend", "src/lib/http/http_util.c:rrr_http_util_uri_endpoint_and_query_string_split", "src/lib/http/http_redirect.c:rrr_http_redirect_collection_iterate"]}
{"id": "C150", "title": "The journal delivers everything which is logged, once and in order", "statement": "For everything which is logged by any threads while the journal module runs, exactly one message is delivered, in order, with the topic of the log prefix and with file, line, level, flags, prefix, text and name of the host. With debuglevels other than 0 and 1, only errors are delivered. Everything which is logged is counted. Failures to store an entry end the module with an error.", "quantifier": "every sequence of logging by any threads, rounds of the module and failures", "why_tests_cant": "Number of log entries and their interleaving with the writing thread are unbounded.", "anchors": ["src/modules/src_journal.c:journal_log_hook", "src/modules/src_journal.c:journal_write_message_callback", "src/modules/src_journal.c:thread_entry_journal"]}
{"id": "C151", "title": "Texts from the network are split, searched, compared, trimmed and printed exactly", "statement": "Whatever bytes a text has, splitting it gives the parts between separators in order and which one is last; joined they are the text. A search gives all places of a needle which is not empty, also overlapping ones, and a failing receiver stops it at once. Comparison with and without regard to case finds equality exactly when it is there. Trimming removes exactly the characters to be trimmed from the end. Printing never exceeds the buffer and gives exactly one zero byte, at the end. A text is taken for binary data exactly if a zero byte or at least three of ten non-ASCII bytes are among the first 512.", "quantifier": "every text, needle, separator, buffer size and behaviour of the receiver of the results", "why_tests_cant": "Texts from peers have any length and any bytes.", "anchors": ["src/lib/helpers/nullsafe_str.c:rrr_nullsafe_str_split_raw", "src/lib/helpers/nullsafe_str.c:rrr_nullsafe_str_str", "src/lib/helpers/nullsafe_str.c:rrr_nullsafe_str_chr", "src/lib/helpers/nullsafe_str.c:rrr_nullsafe_str_cmpto", "src/lib/helpers/nullsafe_str.c:rrr_nullsafe_str_cmpto_case", "src/lib/helpers/nullsafe_str.c:rrr_nullsafe_str_trim_set", "src/lib/helpers/nullsafe_str.c:rrr_nullsafe_str_check_likely_binary", "src/lib/helpers/nullsafe_str.c:rrr_nullsafe_str_util_output_strip_null_append_null_trim_raw_null_ok"]}
{"id": "C152", "title": "Messages to be sent with HTTP are sent, kept or given up exactly as configured", "statement": "Every message handed to the HTTP client module is at any time exactly once waiting, sent, given up after an error, too old or too late. Messages of a queue are tried in order and each once per round; they wait again when the client is busy or after a soft error unless errors are configured to drop. Messages are removed exactly when their age or waiting time exceeds what is configured. Low priority waits for all other messages. The documented values of the timeout parameters work. Lists are rotated at a random place.", "quantifier": "every history of arrivals, rounds with any results and checks of timeouts, every configuration", "why_tests_cant": "Histories, results of sending and times are unbounded.", "anchors": ["src/modules/p_httpclient.c:httpclient_queue_process", "src/modules/p_httpclient.c:httpclient_queue_check_timeouts", "src/modules/p_httpclient.c:httpclient_event_queue_process", "src/modules/p_httpclient.c:httpclient_event_queue_process_check_rotate", "src/modules/p_httpclient.c:httpclient_event_periodic", "src/modules/p_httpclient.c:httpclient_poll_callback", "src/lib/message_holder/message_holder_collection.c:rrr_msg_holder_collection_rotate"]}
{"id": "C153", "title": "The MQTT client publishes messages of other modules in order with the right topic, flags and payload, and follows commands", "statement": "Every message handed to the MQTT client module is handled once and in order: it is published with the topic, retain flag, expiry interval, quality of service and payload which configuration and message give, or dropped exactly if there is none. Messages which match the command filter are never published; they change subscriptions exactly as commanded, and commands which are not understood do nothing but give a warning. Messages which wait because sending is disabled are sent when it is enabled. The number of discarded messages is noted.", "quantifier": "every message, configuration and history of messages, connections and answers of the session", "why_tests_cant": "Messages, commands and histories are unbounded.", "anchors": ["src/modules/p_mqttclient.c:mqttclient_publish_set_topic", "src/modules/p_mqttclient.c:mqttclient_publish_handle_retain", "src/modules/p_mqttclient.c:mqttclient_publish_add_payload", "src/modules/p_mqttclient.c:mqttclient_publish", "src/modules/p_mqttclient.c:mqttclient_process_command", "src/modules/p_mqttclient.c:mqttclient_process_command_get_topic_filters", "src/modules/p_mqttclient.c:mqttclient_input_queue_process", "src/modules/p_mqttclient.c:mqttclient_poll_callback"]}
{"id": "C154", "title": "What the MQTT client delivers for a received publish", "statement": "A received publish is delivered as a message with its topic and payload, or with the topic as data if it has no payload. If RRR messages are expected or announced by the content type, an RRR message in the payload is delivered as it was sent, with the topic of the publish if so configured. If RRR messages are expected, nothing is delivered unless the payload is an intact one. A payload which is announced as an RRR message but is none is delivered unchanged as data. With an array definition, the records of the payload are delivered one by one and in order up to the first which is not valid. No payload makes the module read outside of it, stop or loop.", "quantifier": "every publish (topic, payload, content type, time), configuration and array parser", "why_tests_cant": "payloads come from the network and are unbounded; which bytes are accepted or altered depends on checksums and on which of several checks fails first", "anchors": ["src/modules/p_mqttclient.c:mqttclient_receive_publish", "src/modules/p_mqttclient.c:mqttclient_try_get_rrr_msg_msg_from_publish", "src/modules/p_mqttclient.c:mqttclient_try_create_array_message_from_publish", "src/modules/p_mqttclient.c:mqttclient_try_create_rrr_msg_msg_with_publish_data"]}
{"id": "C155", "title": "Texts are put together correctly and within the buffer", "statement": "A text which is put together by any sequence of calls of the string builder is the parts in the order they were added, without what was taken back: its length, its bytes and the C string which is read from or taken over with the buffer all agree. No call writes outside of the buffer or reads bytes which were not written, and calls do not fail unless memory or numbers run out.", "quantifier": "every sequence of calls with every part of any length", "why_tests_cant": "lengths and the order of calls are unbounded, and whether the buffer is large enough and terminated depends on all calls before", "anchors": ["src/lib/helpers/string_builder.c:rrr_string_builder_reserve", "src/lib/helpers/string_builder.c:rrr_string_builder_append", "src/lib/helpers/string_builder.c:rrr_string_builder_append_raw", "src/lib/helpers/string_builder.c:rrr_string_builder_append_format", "src/lib/helpers/string_builder.c:rrr_string_builder_append_from", "src/lib/helpers/string_builder.c:rrr_string_builder_truncate", "src/lib/helpers/string_builder.c:rrr_string_builder_chop"]}
{"id": "C156", "title": "Answers to subscriptions and unsubscriptions are followed", "statement": "When the broker answers an unsubscription, the topic filters which the MQTT client asks for at the next connection are those it had without exactly the ones confirmed as removed, in the same order. When it answers a subscription, there is a warning for exactly those filters which were rejected or got a lower quality of service than asked for, and an error if a reason is not known.", "quantifier": "every list of subscriptions, request and answer, for both protocol versions", "why_tests_cant": "the lists have any length and each entry of the answer is any byte; filters may be repeated and be unknown", "anchors": ["src/modules/p_mqttclient.c:mqttclient_process_suback_unsuback", "src/lib/mqtt/mqtt_subscription.c:rrr_mqtt_subscription_collection_remove_topic"]}

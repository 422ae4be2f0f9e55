c("C01","partial","Verif.Topic.matchStr_sound Verif.Topic.matchStr_iff_partial Verif.Topic.matchStr_no_abort Verif.Topic.matchStr_parent_counterexample Verif.Topic.matchStr_inner_dollar_counterexample","Soundness at full strength; exactness only up to two deviations of the code from MQTT, which are proved as counterexamples.")
c("C02","partial","Verif.Topic.matchLinear_no_abort Verif.Topic.matchLinear_eq_matchStr_partial Verif.Topic.matchLinear_eq_matchStr_cstring Verif.Topic.matchLinear_reads_past_end Verif.Topic.matchLinear_nul_disagrees","Full agreement for NUL-terminated topics; for length-delimited topics the code reads the byte after the topic, counterexamples proved.")
c("C03","proved","Verif.Acl.checkAccess_iff Verif.Acl.checkAccess_total Verif.Acl.checkAccess_default_deny Verif.Acl.handlerPublish_allow_iff Verif.Acl.handlerSubscribe_iff Verif.Acl.pushAllowAll_publish","")
c("C04","partial","Verif.Topic.acl_subscription_contained_partial Verif.Topic.acl_plus_counterexample","The code admits '+' against a literal rule level; counterexample proved, containment proved for filters without such a '+'.")
c("C07","proved","Verif.Utf8.validate_iff Verif.Utf8.validate_iff_of_no_nul Verif.Utf8.validateAndIterate_eq Verif.Utf8.validateAndIterate_reject Verif.Utf8.validate_accepts_garbage_after_nul","")
c("C38","proved","Verif.Topic.tokenize_isLevels Verif.Topic.tokenize_unique Verif.Topic.tokenize_nil Verif.Topic.tokensClone_tokenize","")
c("C39","proved","Verif.Topic.filterValidateName_iff Verif.Topic.validateNameWithEnd_iff Verif.Topic.validateName_iff Verif.Topic.filterValidateName_empty","")
c("C05","proved","Verif.IdPool.run_refines_set Verif.IdPool.run_unique Verif.IdPool.run_nonzero","")
c("C06","proved","Verif.Subscription.addUnique_spec Verif.Subscription.removeTopic_spec Verif.Subscription.run_spec Verif.Subscription.run_eq_fold Verif.Subscription.appendCopy_spec Verif.Subscription.removeMatching_spec Verif.Subscription.appendCopy_refused_reported_ok","The list operations at full strength; appendCopy_refused_reported_ok records that a refused subscription (65536 entries) is announced as stored.")
c("C08","partial","Verif.Increment.incMod_valid Verif.Increment.incMod_next Verif.Increment.iter_valid Verif.Increment.iter_no_collision Verif.Increment.iter_sweep Verif.Increment.iter_sweep_wrap Verif.Increment.incBasic_range Verif.Increment.incBasic_partial Verif.Increment.incBasic_overflow_counterexample","Modulus increment at full strength; the basic increment wraps at 2^32, counterexample proved.")
c("C09","proved","Verif.Increment.strip_apply Verif.Increment.verifyValuePrefix_iff Verif.Increment.bitsToMax_eq","")
c("C41","proved","Verif.Increment.nextId_form Verif.Increment.nextId_next Verif.Increment.run_ids_valid Verif.Increment.run_no_collision Verif.Increment.run_successive","")
c("C42","proved","Verif.Subscription.matchPublish_eq","Matching itself is C01.")
c("C10","proved","Verif.Base64.encode_rfc Verif.Base64.encode_chars Verif.Base64.decode_rfc Verif.Base64.decode_encode Verif.Base64.encode_some Verif.Base64.encode_in_bounds Verif.Base64.decode_in_bounds","")
c("C11","partial","Verif.Base64.encodeUrl_rfc Verif.Base64.decodeUrl_encodeUrl_partial Verif.Base64.decodeUrl_counterexample Verif.Base64.encodeUrl_in_bounds","The decoder refuses the encoder's output unless the length is a multiple of three; exact characterisation and counterexample proved.")
c("C12","proved","Verif.Hdlc.exportLength_eq Verif.Hdlc.parse_frame Verif.Hdlc.parse_export Verif.Hdlc.parse_resync Verif.Hdlc.feed_eq Verif.Hdlc.feed_export Verif.Hdlc.parseMany_export Verif.Hdlc.parse_sound Verif.Hdlc.parse_in_bounds Verif.Hdlc.empty_payload_lost","empty_payload_lost: an empty payload is exported but never delivered.")
c("C13","proved","Verif.Crc32.crc32buf_eq Verif.Crc32.crc32_burst Verif.Crc32.crc32buf_burst_bits Verif.Crc32.crc32buf_burst Verif.Crc32.crc32cmp_iff Verif.Crc32.corrupted_refused","Proved for windows of 32 bits at any bit position.")
c("C32","proved","Verif.Mqtt.vint_encoders Verif.Mqtt.vint_encoders_length Verif.Mqtt.vint_encoders_refuse Verif.Mqtt.vint_decode Verif.Mqtt.vint_decode_prefix Verif.Mqtt.vint_decode_max","")
c("C33","partial","Verif.Checked.lengthSubBug_exact Verif.Checked.lengthAddBugConst_exact Verif.Checked.lengthAddErr_exact Verif.Checked.lengthAddBug_exact Verif.Checked.biglengthSubBug_exact Verif.Checked.biglengthSubBugConst_exact Verif.Checked.biglengthAddErr_exact Verif.Checked.biglengthAddBug_exact Verif.Checked.lengthIncErr_exact Verif.Checked.lengthIncErr_clobbers Verif.Checked.lengthIncBug_exact Verif.Checked.biglengthIncBug_exact Verif.Checked.lengthIncBugOldValue_exact Verif.Checked.lengthDecBug_exact Verif.Checked.lengthMulBug_exact Verif.Checked.biglengthMulErr_exact Verif.Checked.biglengthFromSsizeSubBug_exact Verif.Checked.lengthFromPtrSubErr_exact Verif.Checked.lengthFromPtrSubBug_exact Verif.Checked.lengthFromBiglengthErr_exact Verif.Checked.lengthFromBiglengthBug_exact Verif.Checked.u16FromBiglengthBug_exact Verif.Checked.u16FromSlengthBug_exact Verif.Checked.lengthFromSlengthBug_exact Verif.Checked.lengthFromSlengthErr_exact Verif.Checked.lengthFromSlengthSubErr_exact Verif.Checked.lengthFromSlengthSubBug_exact Verif.Checked.lengthFromSlengthSubErr_ub Verif.Checked.counterAdd_exact Verif.Checked.counterAdd_returns Verif.Checked.counterSub_exact Verif.Checked.counterSub_returns Verif.Checked.intFromBiglength_exact Verif.Checked.intFromSlengthBug_exact Verif.Checked.biglengthFromPtrSubBug_truncates Verif.Checked.biglengthFromPtrSubBug_exact_partial","biglength_from_ptr_sub truncates to 32 bits (negation witness); every other helper is exact.")
c("C43","partial","Verif.Mqtt.parsePacket_no_abort_partial Verif.Mqtt.subscribe_v5_aborts_iff Verif.Mqtt.subscribe_abort_witness","Violated: an MQTT 5 SUBSCRIBE with No Local or Retain As Published set aborts. Every other packet is shown not to.")
c("C45","proved","Verif.Mqtt.parsePacket_in_bounds","")
c("C46","proved","Verif.Mqtt.parsePacket_stable Verif.Mqtt.parsePacket_agree","")
c("C47","partial","Verif.Mqtt.packet_roundtrip_partial Verif.Mqtt.connect_roundtrip_partial Verif.Mqtt.correlation_data_lost","Binary properties (correlation data, authentication data) do not survive (negation witness); all packets without them do.")
c("C48","partial","Verif.Mqtt.parsePacket_accepted_partial Verif.Mqtt.parsePacket_first_accepted Verif.Mqtt.publish_nul_topic_accepted","Strings are only checked up to the first NUL byte (negation witness).")
c("C49","partial","Verif.Mqtt.verdict_uses_next_packet Verif.Mqtt.verdict_own_bytes_partial","Violated by SUBSCRIBE lacking its last options byte (negation witness).")
c("C44","partial","Verif.Read.chunks_irrelevant Verif.Read.always_on_track Verif.Read.max_size_depends_on_chunks Verif.Mqtt.mqtt_conversation_partial Verif.Mqtt.mqtt_chunks_matter","The framework is shown independent of chunks for all callbacks with stable verdicts and without maximum size (with one it is not: negation). For MQTT all well-formed conversations are; a truncated SUBSCRIBE is a counterexample.")
c("C14","proved","Verif.Msg.message_roundtrip Verif.Msg.control_roundtrip Verif.Msg.addr_roundtrip Verif.Msg.corruption_refused","")
c("C15","partial","Verif.Msg.accepted_message_partial Verif.Msg.validate_outside","topic_length is not checked against the message size before the topic is read (negation witness); messages for which it fits are consistent when accepted.")
c("C50","proved","Verif.Topic.acl_admits_iff Verif.Topic.acl_literal_iff","")
c("C51","partial","Verif.Msg.log_roundtrip_partial Verif.Msg.log_empty_refused Verif.Msg.log_long_refused Verif.Msg.log_short_outside","Texts of 1 to 65535 characters survive; empty and truncated texts are refused by the receiver, and too short log messages are read outside of their memory (negations).")
c("C52","partial","Verif.Msg.stats_roundtrip Verif.Msg.stats_overflow","The round trip is proved in full; memory safety is violated (negation: any data of 513 to 1025 bytes overruns the receiver's buffer).")
c("C53","proved","Verif.Msg.topicSet_eq Verif.Msg.newWithData_consistent Verif.Msg.duplicateNoData_eq Verif.Msg.topicEquals_iff Verif.Msg.ttlOk_iff","")
c("C54","partial","Verif.Msg.sent_messages_arrive Verif.Msg.messages_arrive Verif.Msg.message_chunks_irrelevant_partial Verif.Msg.zero_size_aborts_reader","Proved for all streams without a head of size zero, which aborts the reader (negation).")
c("C55","partial","Verif.Msg.tiny_size_aborts Verif.Msg.receive_no_bug_partial","Heads with correct checksum and size 0 to 17 abort (negation); all other bytes do not.")
c("C19","proved","Verif.Fifo.fifo_is_queue Verif.Fifo.delivered_once_in_order Verif.Fifo.search_removes","Pointer-level heap model; any number of buffers, any operation sequence and callbacks. Counts stay below 2^32 (the real counter wraps there) and a buffer is not merged with itself.")
c("C20","proved","Verif.Fifo.ordered_writes_sorted","Sorted and a permutation of what was written.")
c("C21","partial","Verif.Fifo.search_and_replace_partial Verif.Fifo.replace_then_give_faults Verif.Fifo.replace_then_give_loses","Holds unless an entry is removed after one was replaced with none kept in between; otherwise false, with witnesses (use after free; lost entry).")
c("C30","proved","Verif.HttpUtil.uri_roundtrip Verif.HttpUtil.uri_too_long Verif.HttpUtil.uri_encode_injective Verif.HttpUtil.urlDecode_rfc Verif.HttpUtil.urlDecode_total","The decoder is modelled in place. It also accepts strings which are not percent encoded (urlDecode_accepts_invalid), which the property does not forbid.")
c("C31","partial","Verif.HttpUtil.quote_roundtrip_partial Verif.HttpUtil.quote_refuses","Exact characterisation: the value comes back if and only if it has no backslash and no carriage return. The property is violated for the others (quote_backslash) and for values of 2^31-1 or more characters, where memory is overwritten (quote_overflow).")
c("C40","partial","Verif.HttpUtil.strcasestr_partial Verif.HttpUtil.strcasestr_beginning Verif.HttpUtil.strcasestr_single","The property is violated: strcasestr_misses and strcasestr_reports_beginning are the witnesses. What does hold is proved for all texts and needles.")
c("C56","proved","Verif.HttpUtil.findCrlf_exact Verif.HttpUtil.findCrlf_none Verif.HttpUtil.strtoull_decimal Verif.HttpUtil.strtoull_refused","")
c("C25","partial","Verif.Condition.condition_exact Verif.Condition.condition_value_partial Verif.Condition.condition_unchained_partial Verif.Condition.condition_value_fails","Exact for all expressions: precedence as in C, but operators of the same precedence are read from the right (10 - 3 - 2 is 9: condition_value_fails). Agreement with C is proved where only logical operators are chained. Also violated for `(5)` (condition_single) and `((5) - 3)` (condition_parMinus).")
c("C26","partial","Verif.Condition.interpret_never_aborts Verif.Condition.accepted_evaluates_partial Verif.Condition.wellformed_evaluates_partial Verif.Condition.accepted_faults","The property is violated: `((+) 1 2)` is accepted and evaluating it reads outside of the array (accepted_faults, accepted_faults_flat). Exact characterisation for all accepted texts in accepted_evaluates_partial.")
c("C16","partial","Verif.Types.array_roundtrip_partial Verif.Types.array_network_roundtrip Verif.Types.array_overflow Verif.Types.empty_blob_refused Verif.Types.unpackable_aborts","Proved for all collections of values of all types which can be packed, on one host and over the network between hosts of any byte order. Violated when the tag and data of a value together reach 2^32 bytes: array_overflow.")
c("C17","proved","Verif.Types.string_roundtrip","")
c("C18","partial","Verif.Types.import_ints_partial Verif.Types.import_too_wide Verif.Types.import_overflow","Proved for all widths, contents, signs, byte orders and fewer than 2^29 elements. Violated from 2^29 elements, where a 32 bit size wraps: import_overflow.")
c("C57","partial","Verif.Types.repack_partial Verif.Types.repack_vain_aborts","Violated for vain values with data (repack_vain_aborts). Not proved for values which are messages.")
c("C58","partial","Verif.Types.has_tag_exact Verif.Types.value_by_tag_exact Verif.Types.has_tag_malformed","Proved for all messages which can be unpacked and tags without NUL. In messages which cannot be unpacked every tag is found (has_tag_malformed).")
c("C59","partial","Verif.Types.get64_first_partial Verif.Types.get64_oob Verif.Types.get64_wrong","Violated for all indexes but zero: get64_oob, get64_wrong.")
c("C60","partial","Verif.Types.unpack_safe_partial Verif.Types.nested_aborts Verif.Types.nested_oob","Violated by values which hold messages: nested_aborts, nested_oob. Proved for all messages without these.")
c("C34","proved","Verif.Websocket.frame_roundtrip Verif.Websocket.header_incomplete Verif.Websocket.sent_header_incomplete Verif.Websocket.sent_delivered","Frames as written by the program parse to their opcode, flags and payload, whatever follows; every proper prefix of a header is incomplete; a stream of sent messages is delivered in order in any chunks.")
c("C35","partial","Verif.Websocket.messages_delivered_partial Verif.Websocket.bad_frame_refused Verif.Websocket.control_between_fragments Verif.Websocket.stray_continuation","Proved for all fragmentations with control frames between messages. False for control frames between fragments (witness theorem control_between_fragments).")
c("C36","partial","Verif.Websocket.frame_size_partial Verif.Websocket.frame_too_large Verif.Websocket.size_zero_aborts Verif.Websocket.size_below_header_breaks","Proved when header plus payload length is below 2^64; violated otherwise (two witnesses).")
c("C61","partial","Verif.Websocket.any_bytes_partial Verif.Websocket.size_zero_aborts Verif.Websocket.size_below_header_breaks","Proved for all streams without a header whose length wraps 2^64; those break the receiver (witnesses).")
c("C37","proved","Verif.Modbus.follows_ledger Verif.Modbus.sent_in_order Verif.Modbus.answered_once","For all histories the client refines a ledger of numbered requests (Spec.Run); ids of requests in flight are unique; requests are sent in order; each is answered at most once with its own private data.")
c("C62","proved","Verif.Modbus.read_complete","")
c("C63","partial","Verif.Modbus.answered_once Verif.Modbus.private_data_leaks Verif.Modbus.exception_code_missing","At most once and after the callback is proved; exactly once is false: a response with a wrong function code leaks the private data (witness).")
c("C27","partial","Verif.Discern.parse_safe_partial Verif.Discern.execute_safe Verif.Discern.executeAll_safe Verif.Discern.helper_quiet Verif.Discern.routing_safe Verif.Discern.parse_overflow","Texts below 256 MB are parsed without abort or overflow and every accepted definition executes without abort or out-of-bounds access for any callbacks. False for texts of 805 MB and more (list size wraps in 32 bits), proved.")
c("C28","partial","Verif.Discern.text_effects_partial Verif.Discern.accepted_effects_partial Verif.Discern.parse_text Verif.Discern.actions_expression Verif.Discern.index_wrong Verif.Discern.utf8_filter_refused","Semantics proved for every written definition and every message without NUL in topic and tags. Counterexample for tags with NUL (the index shortcut changes the outcome).")
c("C64","partial","Verif.Discern.routing_partial Verif.Discern.applyAll_route Verif.Discern.no_routes","Same conditions on messages as C28.")
c("C22","partial","Verif.Mmap.sound_partial Verif.Mmap.huge_request Verif.Mmap.isEmpty_exact","For all histories of allocations, frees and writes in a map where every request is between 1 and 2^64-9 bytes. Violated by requests of 2^64-8 bytes and more (huge_request). One map; the collection of maps is separate.")
c("C23","partial","Verif.Mmap.never_again Verif.Mmap.reuse_partial","Violated: after the index has been filled once, a map from which everything has been freed never hands out memory again (never_again). Holds for maps with fewer than 64 successful allocations (reuse_partial).")
c("C24","partial","Verif.Channel.in_order_partial Verif.Channel.bounded_partial Verif.Channel.full_refused_partial Verif.Channel.write_succeeds_partial Verif.Channel.read_succeeds_partial Verif.Channel.drained_partial Verif.Channel.count_exact_partial Verif.Channel.never_overrun Verif.Channel.unnotified_delivered Verif.Channel.empty_reorders","For all interleavings of the critical sections of the two processes, provided no message is empty. Violated with empty messages (empty_reorders) and, when written means that write returned success, when the notification fails (unnotified_delivered). Locks of processes which died, and shmat failures, are not modelled.")
c("C29","proved","Verif.Slot.broadcast Verif.Slot.reader_gets Verif.Slot.all_read_releases Verif.Slot.write_when_empty Verif.Slot.too_many","For all histories and any number of distinct readers equal to the number the slot was set up for. One reader more ends the program (too_many).")
c("C65","partial","Verif.Slot.careful_safe Verif.Slot.incref_races Verif.Slot.collection_races","Violated: rrr_msg_holder_slot_write_incref without holding the lock of the entry (incref_races), and writing more than one entry from a list (collection_races). Proved for the other uses (careful_safe).")
c("C66","partial","Verif.Session.qos2_once_per_receipt Verif.Session.qos2_complete_delivered Verif.Session.qos2_at_most_once Verif.Session.qos2_delivered_on_release Verif.Session.qos2_exactly_once_partial Verif.Session.qos2_reused_id_lost Verif.Session.qos2_identifier_in_use","For all histories of one session. Violated: a message which uses an identifier again before the queue has been worked on after the exchange is complete is taken for a repetition, acknowledged and lost when it has the DUP flag and the same size (qos2_reused_id_lost).")
c("C67","proved","Verif.Session.qos1_delivered_before_puback","For all histories of one session with packets as the parser lets them through.")
c("C68","proved","Verif.Session.sent_was_queued Verif.Session.identifiers_differ","For all histories in which every message which is queued counts as one of its own.")
c("C69","proved","Verif.Session.kept_until_acknowledged Verif.Session.unsent_acknowledged","For all histories with fewer than 65535 packets queued, limits for messages in flight above that number at the end, and messages which have not expired. An acknowledgement for a message which was not sent yet also ends its exchange (unsent_acknowledged).")
c("C70","proved","Verif.Session.repeat_marked Verif.Session.not_after_pubrec","")
c("C71","partial","Verif.Session.broker_no_abort Verif.Session.client_no_abort_partial Verif.Session.client_aborts","Proved for a broker, and for a client as long as no SUBACK or UNSUBACK arrives. Violated for a client: SUBACK with the identifier of a PUBLISH (client_aborts).")
c("C72","partial","Verif.Session.in_flight_partial Verif.Session.receive_maximum_one Verif.Session.quota_exceeded Verif.Session.expired_not_counted","Proved for constant limits and messages which do not expire, with exchanges of QoS 2 counted until the PUBREC. Violated by the code: with Receive Maximum 1 nothing is ever sent (receive_maximum_one); exchanges of QoS 2 are not counted after the PUBREC (quota_exceeded); expired messages are not counted (expired_not_counted).")
c("C73","partial","Verif.Session.first_in_order_partial Verif.Session.failed_transmission_reorders Verif.Session.retained_later","Proved for all histories without failing transmissions, retained messages, cleaning, and, in a broker, messages which expire. Violated by the code for failing transmissions (failed_transmission_reorders); retained messages are sent after later ones (retained_later).")
c("C74","partial","Verif.Session.retry_after_partial Verif.Session.clock_set_back","For clocks which do not go back and a constant retry interval. When the clock is set back everything is repeated at once (clock_set_back).")
c("C75","partial","Verif.Session.not_sent_when_expired_partial Verif.Session.client_sends_expired Verif.Session.expired_kept","Proved: brokers do not send expired messages. Violated by the code: clients send them (client_sends_expired), and they are never dropped (expired_kept).")
c("C76","partial","Verif.Session.qos1_repeat_partial Verif.Session.qos1_delivered_again","Proved when the messages with the same identifier which the session still holds are acknowledged. Violated otherwise: a message which is repeated before the queue has been worked on loses its PUBACK, stays in the queue and is delivered again when its identifier is used for another message (qos1_delivered_again).")
c("C77","proved","Verif.Broker.broker_total","Packets as the parser lets them through (Spec.Valid); C43 has the packets with which it does not.")
c("C78","proved","Verif.Broker.broker_forwards","")
c("C79","proved","Verif.Broker.broker_distributes Verif.Broker.publish_forwarded","When the session of a client delivers is the subject of C66, C67 and C76, which apply by C86.")
c("C80","proved","Verif.Broker.broker_retains","As the code defines new subscriptions: filters which the client did not have. The packet size which the client accepts is not considered.")
c("C81","partial","Verif.Broker.broker_will_once Verif.Broker.will_published_partial Verif.Broker.Examples.will_too_early Verif.Broker.Examples.will_dropped_on_write_error Verif.Broker.Examples.will_dropped_on_timeout","Proved: at most once, only for lost connections, not too early apart from 32 bit overflow, and published by the next maintenance if the end of the connection was recorded with a reason. Violated by the code: delays of 4295 s and more are cut to 32 bits (will_too_early), write errors (will_dropped_on_write_error) and silent clients (will_dropped_on_timeout) lose the will.")
c("C82","partial","Verif.Broker.broker_session_kept Verif.Broker.session_expires Verif.Broker.session_ends_at_once Verif.Broker.Examples.resumed_session_lost Verif.Broker.Examples.lasting_session_lost","Proved with the exception which the code makes: sessions with a connection, or without expiry, are removed when nothing was heard of the client for 20 s. This violates the property for sessions which never expire (lasting_session_lost) and for sessions which are resumed (resumed_session_lost).")
c("C83","proved","Verif.Broker.broker_logged_in Verif.Broker.mayLogIn_iff Verif.Broker.wrong_password_refused","")
c("C84","partial","Verif.Broker.broker_access Verif.Broker.subscribe_granted Verif.Broker.broker_suback Verif.Broker.Examples.subscription_of_other_user","Proved for what is accepted and granted. Violated for what is received: a user who takes over the session of another user keeps its subscriptions (subscription_of_other_user). Wills are published without access check.")
c("C85","partial","Verif.Broker.broker_own_session Verif.Broker.connect_accepted Verif.Broker.Examples.message_of_other_client","Violated for clients without identifier: the identifier which the broker makes can be the one of an existing session, whose undelivered messages are sent (message_of_other_client).")
c("C86","proved","Verif.Broker.broker_sessions","")
c("C87","proved","Verif.Http.http_pieces Verif.Http.http_pieces_within Verif.Http.http_pieces_agree Verif.Http.http_limit_depends_on_pieces","Beyond the limits the division does matter (http_limit_depends_on_pieces), as the statement says.")
c("C88","partial","Verif.Http.http_request Verif.Http.http_response Verif.Http.http_response_close Verif.Http.http_equal_refused Verif.Http.http_length_overlooked Verif.Http.http_smuggling Verif.Http.http_length_wraps","Proved for messages with a length and messages which have no body. Violated for responses whose body ends with the connection: the body handed on is always empty (http_response_close). Left out of the grammar: link targets in angle brackets and values which are decoded; some values which are in order are refused (http_equal_refused).")
c("C89","partial","Verif.Http.http_response_chunked Verif.Http.http_request_chunked_partial Verif.Http.http_request_chunked_overread Verif.Http.http_chunk_ends","Proved for responses. Violated for every chunked request: the chunks are put together correctly but the length of the body includes the length of the head, so that memory after the data is read (http_request_chunked_overread). Trailers are not supported by the code.")
c("C90","partial","Verif.Http.http_crash_partial Verif.Http.http_link_crash Verif.Http.http_chunk_crash","Violated by link fields with a target in angle brackets and by enormous chunk lengths (witnesses); proved for all other data.")
c("C91","proved","Verif.Pfifo.single_reader Verif.Pfifo.single_reader_progress Verif.Pfifo.mixed_writes_out_of_order","Messages written with the two different write functions are not kept in order between them (mixed_writes_out_of_order), as the statement says. After 2^32 messages a counter may be full, which the theorem says.")
c("C92","partial","Verif.Pfifo.many_readers_partial Verif.Pfifo.two_readers_stop_at_limit Verif.Pfifo.two_readers_given_twice","Violated by the code: a reader which stops with entry 500 of a call, the last one it can be given, puts back an entry it does not have; this gives a message to two readers (two_readers_given_twice) and makes the next call use freed memory (two_readers_stop_at_limit). Proved for all other histories.")
c("C93","partial","Verif.Pfifo.memory_partial","For all histories of C91 and those for which C92 is proved, up to 2^32 messages.")
c("C94","proved","Verif.Hub.duplicated_output Verif.Hub.exclusive Verif.Hub.more_readers_than_slots Verif.Hub.entries_not_reported","Up to 2^32 messages. More readers than were set up end the program (more_readers_than_slots). The reported number of entries leaves out those waiting in the write queues (entries_not_reported).")
c("C95","partial","Verif.Wake.told_exactly_partial Verif.Wake.awake_unless_paused_partial Verif.Wake.awake_partial Verif.Wake.drains_partial Verif.Wake.amounts Verif.Wake.pause_loses_wakeup Verif.Wake.shared_loses_wakeup Verif.Wake.failed_write_not_notified Verif.Wake.failed_collection_notified","Violated by the code in three ways: a module which pauses while a part of what it was told is deferred sleeps for good (pause_loses_wakeup); when several instances read from one buffer the one which is told need not be the one which takes the message (shared_loses_wakeup); when a write function fails after it stored messages nobody is told, or too much is told (failed_write_not_notified, failed_collection_notified). Proved where each buffer has one reader, no write fails half-way and, for being awake, the module does not pause then.")
c("C96","partial","Verif.Route.first_reader Verif.Route.every_reader Verif.Route.backstop_partial Verif.Route.backstop_fails_if_duplicated Verif.Route.backstop_fails_if_copied","Filters and next hops are proved for all routes. The backstop is violated by the code where output is duplicated or a module writes a copy, as copies do not carry where the message comes from; proved for all other routes.")
c("C97","partial","Verif.Asd.single_delivery_partial Verif.Asd.all_delivered_partial Verif.Asd.always_room_partial Verif.Asd.may_finish_partial Verif.Asd.restart_loses Verif.Asd.late_reset_loses Verif.Asd.second_sender_stops_all Verif.Asd.second_sender_repeats","Proved for one sender which does not begin anew, fewer than 2^32 messages and periodic tasks at least once per 1000 deliveries, over a stream which may lose messages but keeps their order. Violated by the code otherwise: the periodic tasks forget delivered messages of the first sender only, so that a second sender fills the receiver for good (second_sender_stops_all) and makes it forget too early what the first has sent (second_sender_repeats); a lost or late reset frame loses messages (restart_loses, late_reset_loses).")
c("C98","partial","Verif.Cacher.request_answered_partial Verif.Cacher.one_per_topic_partial Verif.Cacher.other_messages Verif.Cacher.too_old Verif.Cacher.zero_in_topic_removes Verif.Cacher.zero_in_topic_answers","Proved for topics without zero bytes. Violated with them: topics are compared as C strings, so that a message with topic a, zero, b replaces the one with topic a (zero_in_topic_removes), and a request for it is answered with that of topic a (zero_in_topic_answers).")
c("C99","partial","Verif.Msgdb.get_sound Verif.Msgdb.get_finds_partial Verif.Msgdb.put_del_answers Verif.Msgdb.acked_is_stored Verif.Msgdb.received_valid Verif.Msgdb.zero_in_topic_lost Verif.Msgdb.cut_put_loses_old Verif.Msgdb.collision_loses","Answers are never wrong, for topics without zero bytes and any hash function. What was stored is found if no other topic of the history has the same hash. Violated for topics with zero bytes, which are acknowledged and then never found (zero_in_topic_lost). A PUT truncates the file before writing, so that a cut off one loses the message stored before (cut_put_loses_old).")
c("C100","partial","Verif.Msgdb.index_covers Verif.Msgdb.walk_complete Verif.Msgdb.walk_ends_partial Verif.Msgdb.walk_never_ends Verif.Msgdb.idx_sends Verif.Msgdb.tidy_removes Verif.Msgdb.stored_file","When the end is reported all files have been looked at. That the end comes is proved if each directory fits into one slice of 150 ms. Violated otherwise: the next slice starts over with the directory, so that a large one is looked at forever, its messages are sent again in each slice, and other directories are never reached (walk_never_ends).")
c("C101","proved","Verif.Sha256.sha256_correct Verif.Sha256.calculate_correct Verif.Sha256.calculate_length Verif.Sha256.k_eq Verif.Sha256.root_spec Verif.Msgdb.get_finds_sha256_partial","The specification is written from the standard, its constants are computed from the prime numbers. get_finds_sha256_partial applies it to the message database.")
c("C102","partial","Verif.Udpstream.in_order Verif.Udpstream.never_bug Verif.Udpstream.overrun_partial Verif.Udpstream.nothing_lost Verif.Udpstream.all_delivered_partial Verif.Udpstream.empty_lost Verif.Udpstream.reordered_first_frames Verif.Udpstream.large_overrun","Order, contents and single delivery hold for all histories, for messages which are not empty. Violated by the code: an empty message is accepted and never handed over (empty_lost), the stream is destroyed if the second frame arrives before the first (reordered_first_frames), and a message of 4 GiB or more is written outside of memory (large_overrun).")
c("C103","partial","Verif.Udpstream.queue_wakes Verif.Udpstream.oldest_resent_partial Verif.Udpstream.burst_limit Verif.Udpstream.window_range Verif.Udpstream.regulation_applied Verif.Udpstream.hole_resent_partial Verif.Udpstream.lost_never_resent Verif.Udpstream.window_stall","Violated by the code: the send event is removed after a complete pass and added again only when something is queued, so that a lost last message is never sent again (lost_never_resent) and frames beyond the window stay unsent even without loss (window_stall). Proved: when the sender looks, the oldest frame is sent again; a hole after delivered messages is filled.")
c("C104","partial","Verif.Udpstream.ids_distinct Verif.Udpstream.connect_answer Verif.Udpstream.other_streams_untouched Verif.Udpstream.packet_memory_partial Verif.Udpstream.process_never_bug Verif.Udpstream.reset_read_after_free Verif.Udpstream.early_frame_read_after_free Verif.Udpstream.connect_copies Verif.Udpstream.address_overflow","Numbers are distinct and other streams are untouched for all histories. Violated by the code: each RESET for a known stream and each data frame other than the first for a new one free the stream and then read it; packet_memory_partial proves that with addresses of equal length these are the only such cases. It happens even if the copies of a CONNECT all arrive (connect_copies). With addresses of different length memory is overflown (address_overflow).")
c("C105","proved","Verif.Udpstream.frame_roundtrip Verif.Udpstream.ack_roundtrip Verif.Udpstream.reset_roundtrip Verif.Udpstream.connect_roundtrip Verif.Udpstream.control_roundtrip Verif.Udpstream.queued_short Verif.Udpstream.accepted_sound Verif.Udpstream.accept_never_bug Verif.Udpstream.damaged_refused Verif.Udpstream.damaged_checksum_refused Verif.Udpstream.resized_refused","Damages of up to four adjacent bytes are covered anywhere behind the first four bytes, and within these; not a damage which spans both the checksum of the header and the bytes behind it.")
c("C106","partial","Verif.SendLoop.accounted Verif.SendLoop.order_preserved Verif.SendLoop.order_preserved_all Verif.SendLoop.reasons_partial Verif.SendLoop.pending_while_queued Verif.SendLoop.all_handed Verif.SendLoop.nothing_left Verif.SendLoop.hard_error_drops Verif.SendLoop.file_timeout_kept Verif.SendLoop.file_timeout_overtaken Verif.SendLoop.long_timeout","Violated by the code: the module file never sets the timeout action, so that a message which timed out is neither written nor dropped, stays for ever (file_timeout_kept) and is overtaken by later ones (file_timeout_overtaken). With a timeout longer than the time since 1970 the comparison wraps around and each message times out at once (long_timeout); reasons_partial excludes this. Order is proved for timeout actions other than retry, which the module ip enforces.")
c("C107","partial","Verif.ArrayTree.valid_data_read_partial Verif.ArrayTree.read_data_valid_partial Verif.ArrayTree.prefix_tag Verif.ArrayTree.rewind_number Verif.ArrayTree.nsep_keeps_starts","Both directions are proved against a specification of the manual, for definitions in which no tag is at the start of a name which is referred to, REWIND does not go back over numbers as text, fixed point numbers, messages and HDLC frames, and counts are small. The code violates the property for others: a tag which is the beginning of a name matches it (prefix_tag); REWIND leaves the position behind such fields (rewind_number); nsep does not end at SOH and STX (nsep_keeps_starts). The conversion of the text of fixed point numbers is a parameter.")
c("C108","partial","Verif.ArrayTree.reading_safe_partial Verif.ArrayTree.count_overflow Verif.ArrayTree.count_wraps Verif.ArrayTree.msg_zero","Violated by the code: four received bytes make be4#n,be8@{n} write outside of memory (count_overflow) and be4#n,blob1024@{n} abort (count_wraps); a header of a message with size 0 aborts the process when a msg is read (msg_zero). Proved for definitions as in C107 without msg and with conditions which are not undefined.")
c("C109","partial","Verif.ArrayTree.verdict_final_partial Verif.ArrayTree.msg_empty Verif.ArrayTree.fixp_cut","Violated by the code for two types: with no data left a msg is an error and not waited for (msg_empty); 16# is read as 16 when nothing else has arrived (fixp_cut). Proved for all definitions without these types.")
c("C110","partial","Verif.ArrayDef.definition_read_partial Verif.ArrayDef.definition_unique Verif.ArrayDef.accepted_definition_partial Verif.ArrayDef.definition_never_aborts Verif.ArrayDef.value_read_partial Verif.ArrayDef.value_never_aborts Verif.ArrayDef.host_refused Verif.ArrayDef.negative_length Verif.ArrayDef.rewind_not_checked Verif.ArrayDef.line_feed_after","Both directions are proved against a grammar after the manual. The code violates the property: fields with a text of two characters such as h4 are refused (host_refused); numbers may have a sign and wrap around (negative_length); REWIND past the start is accepted although the manual says that it is not (rewind_not_checked); a line feed after a definition is allowed or not depending on commas (line_feed_after).")
c("C111","proved","Verif.Chunk.client_in_order Verif.Chunk.client_nothing_waits Verif.Chunk.client_told Verif.Chunk.client_finishes Verif.Chunk.client_closes","For stream sockets, all histories and all answers of the kernel.")
c("C112","partial","Verif.Chunk.transport_never_aborts Verif.Chunk.transport_each_partial Verif.Chunk.transport_nothing_else Verif.Chunk.transport_nothing_waits Verif.Chunk.transport_finishes Verif.Chunk.transport_closes Verif.Chunk.transport_in_order_partial Verif.Chunk.urgent_inside Verif.Chunk.next_inside Verif.Chunk.error_not_seen","The bytes of each piece of data are complete and in order, for all histories; all data are in order if none is urgent and the kernel is steady. The code violates the property: urgent data, which MQTT uses for acknowledgements and pings, are sent inside of data which are partly sent (urgent_inside); after a partial write the next data may be sent inside (next_inside); an error is forgotten when other data can be sent after it (error_not_seen).")
c("C113","partial","Verif.AclFile.file_read_partial Verif.AclFile.file_accepted Verif.AclFile.file_unambiguous Verif.AclFile.file_never_aborts Verif.AclFile.file_publish Verif.AclFile.file_subscribe Verif.AclFile.user_without_space Verif.AclFile.nul_cuts_filter Verif.AclFile.space_in_filter","For all files without zero bytes: accepted if and only if written as the manual says, except that the space after USER may be missing; the rules and the decisions with them are those of the file; no file stops the program. The code violates the property: USERbob WRITE is accepted as a rule for bob (user_without_space) and a zero byte cuts a filter short (nul_cuts_filter).")
c("C114","partial","Verif.Config.config_read_partial Verif.Config.config_accepted Verif.Config.config_unambiguous Verif.Config.written_read Verif.Config.config_aborts_partial Verif.Config.empty_name_aborts Verif.Config.stray_accepted Verif.Config.end_accepted Verif.Config.end_refused","For all files: accepted if and only if written as the manual says, except for stray characters, and the configuration is what is written. The code violates the property: a definition of which the name is missing is not refused (stray_accepted, end_accepted), an empty block name makes the program abort (empty_name_aborts, and config_aborts_partial shows that nothing else does in files below 256 MB).")
c("C115","partial","Verif.Sha1.sha1_correct Verif.Sha1.accept_correct Verif.Sha1.server_answers Verif.Sha1.server_answer_sound Verif.Sha1.handshake Verif.Sha1.client_accepts_partial Verif.Sha1.client_nul","SHA-1, the accept value and the handshake are proved for all messages and keys. The code violates one part: a client takes NUL bytes in the answer for the letter N, and then accepts an answer which is not the accept value (client_nul).")
c("C116","partial","Verif.Convert.convert_exact Verif.Convert.convert_same Verif.Convert.recipe_partial Verif.Convert.mangle_partial Verif.Convert.number_roundtrip Verif.Convert.hex_exact Verif.Convert.recipe_lost Verif.Convert.clear_loses_all Verif.Convert.hex_of_string Verif.Convert.no_elements_aborts Verif.Convert.more_elements_outside Verif.Convert.received_aborts Verif.Convert.empty_blob_dropped Verif.Convert.messages_hex_abort","Every method is proved exact for all values, and recipes and whole messages when the last conversion is possible. The code violates the rest: when the last conversion is not possible the earlier ones are undone (recipe_lost); clearing tags without conversions empties the array (clear_loses_all); strings are not made hexadecimal (hex_of_string); received values with no elements or too many abort or are read outside of the data (no_elements_aborts, more_elements_outside, received_aborts); an empty string made a blob drops the message (empty_blob_dropped); several messages made hexadecimal can abort (messages_hex_abort).")
c("C117","partial","Verif.Influx.fields_exact_partial Verif.Influx.missing_no_line Verif.Influx.array_aborts Verif.Influx.never_sent Verif.Influx.backslash_injects Verif.Influx.nul_truncates Verif.Influx.empty_invalid Verif.Influx.tag_space Verif.Influx.fixed_joined","The code violates this: the module never stores the version of the array, the query builder aborts the program for each array message, and nothing is ever sent (array_aborts, never_sent). Would the version be right, then the fields are proved to be read back for all values without backslash and NUL characters, when tags and fields are configured (fields_exact_partial). Backslashes and NUL characters are not escaped and can add fields (backslash_injects, nul_truncates); empty values (empty_invalid), spaces in tags (tag_space) and fixed fields alone (fixed_joined) make wrong lines.")
c("C118","proved","Verif.Exploder.explode_exact Verif.Exploder.non_array Verif.Exploder.too_long","The new messages are read back with the functions which other modules use. Values as the program makes them, tags without NUL characters, messages of less than 4 GB.")
c("C119","partial","Verif.Averager.average_exact_partial Verif.Averager.input_since Verif.Averager.others_pass Verif.Averager.forgotten Verif.Averager.sum_overflows Verif.Averager.signed_wrong Verif.Averager.others_lost Verif.Averager.long_timespan Verif.Averager.unreadable_unlocks","Proved for all histories: the averages are those of the measurements which came since the last averages and are not older than the timespan, when their sum is less than 2^64. The code violates the rest: measurements are forgotten once averaged, with the default settings too (forgotten); the sum overflows (sum_overflows); signed numbers are taken as unsigned (signed_wrong); arrays without the three tags are lost (others_lost); a very long timespan makes all messages too old (long_timespan); an array which cannot be read makes a mutex be unlocked twice and the module stop (unreadable_unlocks).")
c("C120","proved","Verif.MmapColl.sound Verif.MmapColl.free_exact Verif.MmapColl.no_abort Verif.MmapColl.stays Verif.MmapColl.table_wraps Verif.MmapColl.first_block","The system is assumed to place a new map where no other map of the collections is, in each process. Each function is a step, because it holds the lock of the collection. first_block shows that the states meant are reached; table_wraps shows why the limit on changes is needed.")
c("C121","partial","Verif.Settings.store_exact_partial Verif.Settings.names_distinct Verif.Settings.number_exact_partial Verif.Settings.number_refused Verif.Settings.decimal_read Verif.Settings.port_exact Verif.Settings.port_missing Verif.Settings.number_default Verif.Settings.yesno Verif.Settings.ms_exact_partial Verif.Settings.splits_agree Verif.Settings.split_join Verif.Settings.split_whole Verif.Settings.pair_exact Verif.Settings.map_exact Verif.Settings.map_missing Verif.Settings.value_read Verif.Settings.method_values Verif.Settings.method_message Verif.Settings.topic_exact Verif.Settings.used_exact Verif.Settings.worker_marks Verif.Settings.worker_others Verif.Settings.worker_sends Verif.Settings.long_name_leaves Verif.Settings.empty_value_aborts Verif.Settings.huge_number Verif.Settings.empty_number Verif.Settings.uint_aborts Verif.Settings.yesno_loose Verif.Settings.ms_wraps Verif.Settings.ms_aborts Verif.Settings.long_value_worker","The full claim is false, with witnesses proved: a name of 244 bytes leaves an unnamed setting, an empty string which is set aborts the program when it is read, numbers of 2^64 and more are read as 2^64 - 1, an empty value is 0, a setting held as a number aborts when read as one, only the first letter of yes and no is looked at, great numbers of milliseconds wrap or abort, and a value of 1024 bytes makes worker processes fail. Ports, lists, pairs, topics, what to write and the warnings are exact with no exception.")
c("C122","partial","Verif.Shm.resolve_exact Verif.Shm.resolve_null_or_right Verif.Shm.same_pointer Verif.Shm.free_exact Verif.Shm.no_abort Verif.Shm.allocate_new Verif.Shm.allocate_pointer Verif.Shm.handles_apart Verif.Shm.addresses_apart Verif.Shm.destroy_unlinks Verif.Shm.cleanup_own Verif.Shm.child_cleanup_nothing Verif.Shm.cleanup_exact_partial Verif.Shm.run2_reach Verif.Shm.map_failure_unseen Verif.Shm.truncate_failure_unseen Verif.Shm.zero_size_leaks Verif.Shm.cleanup_forgets Verif.Shm.cleanup_forgets_all Verif.Shm.versions_wrap","The full claim is false, with witnesses proved: a failed mmap gives the pointer MAP_FAILED, because the code compares with NULL; a failed ftruncate is not reported and a handle is given; an allocation of 0 bytes leaks; and the names to unlink at exit are forgotten at the first free, because they are looked up in the root directory of the file system. Without these failures of the system, lookup, freeing and destruction are exact with no exception. The limit of 2^32 changes is needed, see versions_wrap.")
c("C123","partial","Verif.Cmdline.parse_iff Verif.Cmdline.parse_mean_partial Verif.Cmdline.parse_command Verif.Cmdline.write_unambiguous Verif.Cmdline.exists_iff Verif.Cmdline.subvalue_eq Verif.Cmdline.subvalue_used Verif.Cmdline.iterate_eq Verif.Cmdline.iterate_all_partial Verif.Cmdline.unused_named Verif.Cmdline.comma_join Verif.Cmdline.flag_value_ignored Verif.Cmdline.name_taken_as_value Verif.Cmdline.iterate_stops Verif.Cmdline.unused_accepted","The full claim is false, with witnesses proved: a value given to a letter which takes none is ignored (-l=0 means -l, while the long name is refused); the name of a rule for arguments without a flag (--config) is accepted and taken as its own value; iteration over values stops at the first argument without values; and the check of unused arguments never fails. parse_iff gives exactly which command lines are accepted and what they mean, with these forms named as odd items.")
c("C124","proved","Verif.Startup.file_exact Verif.Startup.file_line Verif.Startup.file_in_environment Verif.Startup.nameless_line Verif.Startup.empty_value Verif.Startup.quotes_kept","Lines which begin with an equal sign are read as names, and no program starts with such a file; empty values are errors; quotes and comments after values are part of the values.")
c("C125","partial","Verif.Startup.startup_iff Verif.Startup.inherited Verif.Startup.options_bounded_partial Verif.Startup.flags_only_set Verif.Startup.environment_unlimited Verif.Startup.environment_cut Verif.Startup.environment_all Verif.Startup.environment_false","The sources and their order are proved in full (startup_iff). The limits hold only for numbers on the command line (options_bounded_partial): variables of the environment may exceed them, are cut to 32 bits, and negative numbers become large ones (environment_unlimited, environment_cut). Words like false and off mean yes (environment_false). Output in JSON is not inherited by child processes (inherited).")
c("C126","partial","Verif.Passwd.authenticate_iff Verif.Passwd.check_iff Verif.Passwd.encrypted_iff Verif.Passwd.plain_exact_partial Verif.Passwd.plain_prefix Verif.Passwd.longer_accepted Verif.Passwd.shorter_beyond Verif.Passwd.long_refused Verif.Passwd.failure_unseen Verif.Passwd.stored_short","Who gets in is proved in full in terms of matches (authenticate_iff, check_iff), and for encrypted passwords matches are exact up to the key function, which is a parameter (encrypted_iff). The claim is false for builds without OpenSSL: what is stored is compared only for its own length, so that longer passwords match when the length of the stored one is a multiple of three (plain_prefix, longer_accepted), memory beyond the text is compared for shorter ones (shorter_beyond), and passwords of more than 54 characters can never be stored (long_refused). plain_exact_partial has the cases where the match is exact. Failure of the key function while storing gives no error (failure_unseen), and a stored salt which is too short aborts the program (stored_short).")
c("C127","partial","Verif.Passwd.process_iff Verif.Passwd.newPermissions_mem Verif.Passwd.newPermissions_nodup Verif.Passwd.others_unchanged_partial Verif.Passwd.removed_partial Verif.Passwd.updated_partial Verif.Passwd.many_permissions Verif.Passwd.line_in_name Verif.Passwd.blank_in_name","What is written is proved in full (process_iff). The effect on authentication is proved for texts without line ends, NUL and leading blanks, and at most 32 permissions (the _partial theorems); the program does not check this, and then the file cannot be used (many_permissions, line_in_name, blank_in_name).")
c("C128","partial","Verif.Passwd.crash Verif.Passwd.installed Verif.Passwd.moment_without_file Verif.Passwd.old_file_lost","The contents are never lost (crash, installed), but there is a moment without a password file, in which nobody gets in (moment_without_file), and another file which has the name for old files is deleted (old_file_lost).")
c("C129","proved","Verif.Json.accepted_iff Verif.Json.within_iff Verif.Json.arrays_exact Verif.Json.callback_exact Verif.Json.arrays_prefix Verif.Json.deep_left_out Verif.Json.list_refused Verif.Json.large_changed","The parser of json-c is a parameter, and so is the conversion of floating point numbers. Notes on what the code does: what lies deeper than the limit is silently left out (deep_left_out), an object with a list of numbers is refused after others were handed over (list_refused), and large unsigned numbers are silently changed (large_changed).")
c("C130","partial","Verif.Json.object_iff Verif.Json.object_exact Verif.Json.number_partial Verif.Json.text_partial Verif.Json.vain_null Verif.Json.first_repeated Verif.Json.elements_lost Verif.Json.fixp_bytes Verif.Json.roundtrip_partial Verif.Json.map_exact","Names, choice and order are proved in full (object_iff, object_exact). The values are right for values of one element (number_partial, text_partial, vain_null). The claim is false for values of several elements, of which only the first is used and repeated (first_repeated, elements_lost), and for fixed point numbers, which become text of their bytes in memory (fixp_bytes). Values of type msg are not modelled.")
c("C131","partial","Verif.Fixp.parts_iff Verif.Fixp.hex_exact Verif.Fixp.decimal_near Verif.Fixp.large_zero","Which texts are numbers is proved in full (parts_iff). The value is proved for up to 15 digits before and after the dot and below 2^39 (hex_exact, decimal_near). Above, the claim is false: 549755813888 is read as 0 and nobody is told (large_zero). Rounding of long double operations is a parameter with the properties in Spec.Rounding (64 bits of precision).")
c("C132","partial","Verif.Fixp.text16_roundtrip_partial Verif.Fixp.negative_changed Verif.Fixp.to_exact Verif.Fixp.of_exact Verif.Fixp.float_roundtrip Verif.Fixp.large_negative Verif.Fixp.infinite_undefined Verif.Fixp.smallest_undefined","Proved for floating point numbers in both directions (to_exact, of_exact, float_roundtrip) and for text of numbers which are not negative (text16_roundtrip_partial). The claim is false for text of negative numbers, which always is read as another number (negative_changed); for 2^39, which becomes negative (large_negative); and for infinite numbers, numbers of 2^64 or more and the smallest number, where the C program has undefined behaviour (infinite_undefined, smallest_undefined).")
c("C133","partial","Verif.Multipart.split_exact Verif.Multipart.form_exact Verif.Multipart.values_within Verif.Multipart.receive_nofault Verif.Multipart.end_needed Verif.Multipart.late_refused Verif.Multipart.no_boundary_empty Verif.Multipart.head_searched Verif.Multipart.cut_in_line Verif.Multipart.nul_lost Verif.Multipart.epilogue_read Verif.Multipart.padding_hides Verif.Multipart.two_fields Verif.Multipart.multipart_any_case Verif.Multipart.subvalue_first","The splitting is proved for all texts, but the code takes more for a boundary than the standard does: also in the head of the request (head_searched), at the end of a line (cut_in_line) and after the last boundary (epilogue_read), and it misses a boundary with white space after it (padding_hides). A value which begins with NUL is lost (nul_lost), parts after 64 kB are refused (late_refused), and a body without any boundary is an empty form (no_boundary_empty).")
c("C134","partial","Verif.Multipart.form_roundtrip_partial Verif.Multipart.sendable_example Verif.Multipart.name_cut Verif.Multipart.name_decoded Verif.Multipart.name_doubled Verif.Multipart.name_refused Verif.Multipart.nameless_lost Verif.Multipart.type_cut Verif.Multipart.sent_nul_lost Verif.Multipart.value_split","Proved for fields whose name has only printable ASCII without ; \\ and %, with a single word as content type, a value which does not begin with NUL and the boundary nowhere in it, and for up to 64 kB. The code violates the rest: names are cut at a semicolon (name_cut), decoded (name_decoded), doubled (name_doubled) or refused (name_refused), fields without a name (nameless_lost), parameters of content types (type_cut) and values with NUL (sent_nul_lost) are lost, and the boundary is not checked against the values (value_split).")
c("C135","partial","Verif.Threads.joined_stopped_or_ghost Verif.Threads.abort_only_ghost Verif.Threads.no_use_after_free_partial Verif.Threads.free_after_stop Verif.Threads.free_not_ghost Verif.Threads.ghost_only Verif.Threads.ghost_wakes_aborts Verif.Threads.stop_when_tagged_aborts Verif.Threads.use_after_free_not_initialized Verif.Threads.use_after_free_ghost","Proved for threads which got initialized and which the watchdog has not begun to tag as ghosts. The code violates the rest: a thread stopped before it was initialized reads its name for a warning when its memory may be freed (use_after_free_not_initialized), a ghost which wakes up makes the program abort (ghost_wakes_aborts) or hides its tag when memory is to be freed (use_after_free_ghost), and a thread which stops just when the watchdog gives up makes it abort as well (stop_when_tagged_aborts).")
c("C136","partial","Verif.Threads.Start.initialized_before_fork Verif.Threads.Start.one_fork_at_a_time_partial Verif.Threads.Start.forked_before_run Verif.Threads.Start.forks_overlap_when_stopped","Proved as long as the main thread has not turned to stopping all threads. When the start fails all signals are given to all threads at once, and threads which wait to fork do so at the same time (forks_overlap_when_stopped).")
c("C137","proved","Verif.Threads.well_left_alone","With the start procedure which starts watchdogs after all threads have forked. Whether a thread is frozen is given.")
c("C138","proved","Verif.Threads.stop_heard Verif.Threads.stop_ends","The end includes an abort, see C135. That time passes is given.")
c("C139","partial","Verif.Stats.message_roundtrip Verif.Stats.unpack_overflow_iff Verif.Stats.unpack_safe_partial Verif.Stats.accepted_sendable Verif.Stats.unpack_overflows Verif.Stats.printing_overreads","The roundtrip is proved. Safety is proved for messages of up to 519 bytes, and which others are safe is proved exactly (unpack_overflow_iff); the code checks only the total length and writes up to 513 bytes beyond its buffers otherwise (unpack_overflows). Data of full length is printed beyond its end (printing_overreads).")
c("C140","proved","Verif.Stats.tree_is_store Verif.Stats.insert_accepts_iff Verif.Stats.hasLeaf_iff Verif.Stats.stale_value_stays Verif.Stats.fresh_value_lost Verif.Stats.refused_leaves_branch Verif.Stats.root_is_leaf","With the condition on times, without which new values are lost (fresh_value_lost).")
c("C141","partial","Verif.Uri.uri_parts_partial Verif.Uri.uri_exact Verif.Uri.uri_safe_partial Verif.Uri.hostParse_iff Verif.Uri.wss_is_plain Verif.Uri.never_wss Verif.Uri.reads_beyond Verif.Uri.wrong_accepted Verif.Uri.right_refused","Proved for http, https and ws. The code takes wss for ws, so that encryption and port are lost (wss_is_plain, never_wss), reads one byte after the text and aborts if it is a colon (reads_beyond), takes unknown protocols for known ones and hosts for paths (wrong_accepted) and refuses valid paths with a colon at the end or with a URI in the query (right_refused).")
c("C142","partial","Verif.AltSvc.graylist_exact Verif.AltSvc.clear_others Verif.AltSvc.connect_iff Verif.AltSvc.connects_apart Verif.AltSvc.addr_injective Verif.AltSvc.matchNumber_injective Verif.AltSvc.clear_removes_others","Proved for entries with flags and for names of servers of up to 120 bytes. Entries without flags of other addresses are removed when flags are cleared (clear_removes_others); longer names abort, see C143.")
c("C143","partial","Verif.AltSvc.learned_protocol Verif.AltSvc.select_best Verif.AltSvc.avoided_iff Verif.AltSvc.select_safe_partial Verif.AltSvc.first_of_unordered Verif.AltSvc.last_service_partial Verif.AltSvc.long_name_aborts Verif.AltSvc.other_server_forgotten","Selection is proved in full. The program is safe for names of up to 120 bytes only: a server which tells about a longer name makes the client abort at its next request (long_name_aborts). Services are kept for one server only, as the code compares the name of the server to itself (other_server_forgotten).")
c("C144","partial","Verif.Form.form_read_partial Verif.Form.form_sent Verif.Form.form_roundtrip_partial Verif.Form.query_roundtrip_partial Verif.Form.no_query Verif.Form.leading_space Verif.Form.trailing_separator Verif.Form.leading_equals Verif.Form.second_equals_refused Verif.Form.parse_safe Verif.Form.parse_total Verif.Form.nul_lost Verif.Form.nul_lost_always Verif.Form.nameless_is_name Verif.Form.space_in_value Verif.Form.separator_taken","Proved for values which do not begin with a NUL byte: others are lost on reception (nul_lost, nul_lost_always). Values without name are read as names (nameless_is_name), the first byte of a line end after the form becomes a part of the value (space_in_value) and invalid percent sequences may take a separator (separator_taken).")
c("C145","partial","Verif.LogHook.never_stuck Verif.LogHook.one_caller Verif.LogHook.gone_not_called Verif.LogHook.accounted Verif.LogHook.all_delivered Verif.LogHook.none_lost_partial Verif.LogHook.message_lost Verif.LogHook.message_lost_register Verif.LogHook.table_safe_partial Verif.LogHook.table_overflow","Delivery, order, and the end of calls after unregistering are proved for every schedule. Messages are lost if a thread, which was the last one to log, logs when another one has taken the lock and has not written the holder yet (message_lost), or registers a hook (message_lost_register): none_lost_partial excludes this. Two threads which register at the same time may write outside of the table (table_overflow), table_safe_partial excludes this.")
c("C146","partial","Verif.Env.file_exact Verif.Env.file_roundtrip Verif.Env.last_value_seen Verif.Env.nameless_refused Verif.Env.file_safe_partial Verif.Env.comment_overreads Verif.Env.nul_cuts","Variables are proved for every file without NUL bytes. A comment on the last line without line end makes the program look at the byte after the file (comment_overreads), which file_safe_partial excludes; lines are cut at NUL bytes (nul_cuts).")
c("C147","partial","Verif.Fork.never_missed Verif.Fork.no_needless_call Verif.Fork.notified_once Verif.Fork.right_function Verif.Fork.all_notified_partial Verif.Fork.waited_notified Verif.Fork.wait_complete Verif.Fork.marked_notified Verif.Fork.notified_ended_partial Verif.Fork.parent_notified_partial Verif.Fork.lost_forced Verif.Fork.lost_early Verif.Fork.lost_overwritten Verif.Fork.lost_forever Verif.Fork.forced_lost Verif.Fork.notified_alive Verif.Fork.notified_elsewhere","Children are never missed and never notified twice or with another function. They are all notified unless one ends shortly before a forced call (lost_forced, forced_lost), ends before rrr_fork has returned in the parent (lost_early), or two processes fork at the same time and use the same entry (lost_overwritten); such notifications never come and the entry stays (lost_forever). During the shutdown the function may be called in another process (notified_elsewhere) or for a child which still runs (notified_alive).")
c("C148","partial","Verif.Mysql.statement_exact Verif.Mysql.tagged_row Verif.Mysql.ordered_row Verif.Mysql.abort_iff Verif.Mysql.tagged_safe Verif.Mysql.short_message_aborts Verif.Mysql.saved_iff Verif.Mysql.kept_partial Verif.Mysql.lost_without_server Verif.Mysql.lost_without_statement Verif.Mysql.poll_kept Verif.Mysql.fixp_never_saved Verif.Mysql.blob_columns Verif.Mysql.blob_column_of_tag","Statement and rows are proved for every configuration and message. A message with fewer values than configured columns aborts the program (abort_iff, short_message_aborts). When the server cannot be reached or does not accept the statement, the whole buffer is lost (lost_without_server, lost_without_statement), which kept_partial excludes. Fixed point values are never saved (fixp_never_saved), and columns of tags cannot be configured to be stored as bytes (blob_column_of_tag).")
c("C149","partial","Verif.Redirect.port_used Verif.Redirect.transport_used Verif.Redirect.endpoint_used Verif.Redirect.absolute_followed Verif.Redirect.tool_absolute_followed Verif.Redirect.directory_sent Verif.Redirect.tool_rooted Verif.Redirect.tool_relative_partial Verif.Redirect.rooted_followed Verif.Redirect.rooted_kept_partial Verif.Redirect.relative_partial Verif.Redirect.relative_fault Verif.Redirect.redirects_bounded Verif.Redirect.redirects_allowed_partial Verif.Redirect.single_redirect_refused Verif.Redirect.tool_redirects_bounded Verif.Redirect.waiting_tried Verif.Redirect.waiting_error Verif.Redirect.one_slash Verif.Redirect.clean_exact Verif.Redirect.split_exact Verif.Redirect.split_roundtrip Verif.Redirect.split_safe Verif.Redirect.port_lost Verif.Redirect.server_lost Verif.Redirect.query_not_replaced Verif.Redirect.query_only Verif.Redirect.server_as_endpoint","Locations with server and endpoint are always followed exactly, and the number of redirects is bounded for every sequence of responses. Not holding: a location without endpoint gets the directory of the last request (directory_sent); after a location without server, the module uses configured server and transport instead of the current ones (server_lost) and not the configured port (port_lost); with one redirect configured none is followed (single_redirect_refused); queries with slashes, locations which are only a query or begin with two slashes are resolved wrongly (query_not_replaced, query_only, server_as_endpoint); an endpoint with no slash makes the program read outside of memory (relative_fault). The program rrr_http_client keeps server, port and transport (tool_rooted, tool_relative_partial). Removal of dots from paths is not done by the code and not required here.")
c("C150","partial","Verif.Journal.journal_complete_partial Verif.Journal.journal_in_order_partial Verif.Journal.journal_counted Verif.Journal.round_writes Verif.Journal.silent_forever Verif.Journal.entry_failure Verif.Journal.value_failure Verif.Journal.long_prefix_stops Verif.Journal.suppress_iff","Proved for every interleaving as long as nothing fails and prefixes have at most 65523 bytes. Not holding: after one failed allocation of an entry, nothing is ever delivered again and no error is noted (entry_failure, silent_forever); a longer prefix ends the module and the entry is lost (long_prefix_stops).")
c("C151","proved","Verif.Nullsafe.split_exact Verif.Nullsafe.split_empty Verif.Nullsafe.parts_unique Verif.Nullsafe.find_exact Verif.Nullsafe.find_empty Verif.Nullsafe.chr_exact Verif.Nullsafe.cmpto_iff Verif.Nullsafe.cmpto_case_iff Verif.Nullsafe.begins_iff Verif.Nullsafe.print_exact Verif.Nullsafe.copyto_exact Verif.Nullsafe.trim_set_exact Verif.Nullsafe.trim_exact Verif.Nullsafe.binary_iff","Boundaries which callers must know: an empty text gives no part at all (split_empty), and an empty needle is read outside of (find_empty).")
c("C152","partial","Verif.HttpQueue.accounted Verif.HttpQueue.expire_partial Verif.HttpQueue.round_rotates Verif.HttpQueue.process_exact Verif.HttpQueue.process_tries Verif.HttpQueue.timeouts_partial Verif.HttpQueue.no_timeouts Verif.HttpQueue.config_partial Verif.HttpQueue.low_longer Verif.HttpQueue.rotate_keeps Verif.HttpQueue.arrive_where Verif.HttpQueue.low_waits Verif.HttpQueue.all_ok Verif.HttpQueue.round_all Verif.HttpQueue.future_expired Verif.HttpQueue.factor_zero_refused Verif.HttpQueue.overflow_accepted Verif.HttpQueue.rotate_one Verif.HttpQueue.rotate_first_crashes","Accounting, order and results are proved without restriction. Timeouts are proved for sums of times below 2^64. Not holding: a time stamp in the far future is taken as too old (future_expired); the documented factor 0 prevents the start (factor_zero_refused); too large times are accepted and become short (overflow_accepted); arguments of the rotation are swapped, so that it is never at a random place (rotate_one), which hides that rotation at place 0 would crash (rotate_first_crashes).")
c("C153","partial","Verif.MqttClient.topic_partial Verif.MqttClient.topic_zero Verif.MqttClient.retain_exact Verif.MqttClient.retain_none Verif.MqttClient.publish_exact Verif.MqttClient.payload_exact Verif.MqttClient.subscribe_partial Verif.MqttClient.unsubscribe_partial Verif.MqttClient.disconnect_exact Verif.MqttClient.unknown_ignored Verif.MqttClient.unknown_value_crashes Verif.MqttClient.in_order_partial Verif.MqttClient.arrival_handles Verif.MqttClient.waits_for_next Verif.MqttClient.discard_count","Proved for topics without zero bytes and histories without crash or discarding. Not holding: a topic which begins with a zero byte aborts the program (topic_zero); an unknown value in a command to subscribe or unsubscribe crashes it (unknown_value_crashes); a message which waits is not handled when sending is enabled again, only when another arrives (waits_for_next); discarded messages are counted twice (discard_count).")
c("C154","partial","Verif.MqttReceive.plain_exact Verif.MqttReceive.empty_exact Verif.MqttReceive.message_exact Verif.MqttReceive.expect_only_messages Verif.MqttReceive.fallback_partial Verif.MqttReceive.fallback_altered Verif.MqttReceive.fallback_altered_body Verif.MqttReceive.any_type_accepted Verif.MqttReceive.reads_outside Verif.MqttReceive.records_exact Verif.MqttReceive.array_ends Verif.MqttReceive.array_no_payload","Proved for little endian hosts, with the array parser as a parameter; array_ends needs records of at least one byte. Not holding: a payload which is announced as an RRR message and fails a check after the head was converted is delivered with altered bytes (fallback_altered); the type in the head is not checked (any_type_accepted); a topic length larger than the payload makes the module read outside of it (reads_outside).")
c("C155","partial","Verif.StrBuild.content_partial Verif.StrBuild.fails_iff Verif.StrBuild.text_partial Verif.StrBuild.has_buffer Verif.StrBuild.chop_keeps Verif.StrBuild.reserve_unwritten Verif.StrBuild.reserve_wraps","Proved for sizes which fit in 64 bits, and for the C string without chop and reserve. Not holding: after chop the C string still has the last character (chop_keeps; http_query_builder.c:217 relies on it), the buffer reserved by a new builder is not terminated (reserve_unwritten), reserving a size near 2^64 succeeds without memory (reserve_wraps), adding an empty formatted text fails (fails_iff).")
c("C156","proved","Verif.MqttAck.unsuback_exact Verif.MqttAck.v31_unchanged Verif.MqttAck.suback_warns Verif.MqttAck.unknown_fails Verif.MqttAck.mismatch_aborts","For subscriptions without repetitions, which the collection guarantees, and answers with as many entries as the request, which the session checks (otherwise mismatch_aborts). Which reasons are known is a parameter.")

'Verif.Acl.checkAccess_default_deny' depends on axioms: [propext, Quot.sound]
'Verif.Acl.checkAccess_iff' depends on axioms: [propext, Classical.choice, Quot.sound]
'Verif.Acl.checkAccess_total' depends on axioms: [propext, Classical.choice, Quot.sound]
'Verif.Acl.handlerPublish_allow_iff' depends on axioms: [propext, Classical.choice, Quot.sound]
'Verif.Acl.handlerSubscribe_iff' depends on axioms: [propext, Classical.choice, Quot.sound]
'Verif.Acl.pushAllowAll_publish' depends on axioms: [propext, Classical.choice, Quot.sound]
'Verif.AclFile.file_accepted' depends on axioms: [propext, Classical.choice, Quot.sound]
'Verif.AclFile.file_never_aborts' depends on axioms: [propext, Quot.sound]
'Verif.AclFile.file_publish' depends on axioms: [propext, Classical.choice, Quot.sound]
'Verif.AclFile.file_read_partial' depends on axioms: [propext, Classical.choice, Quot.sound]
'Verif.AclFile.file_subscribe' depends on axioms: [propext, Classical.choice, Quot.sound]
'Verif.AclFile.file_unambiguous' depends on axioms: [propext, Classical.choice, Quot.sound]
'Verif.AclFile.nul_cuts_filter' depends on axioms: [propext]
'Verif.AclFile.space_in_filter' depends on axioms: [propext]
'Verif.AclFile.user_without_space' depends on axioms: [propext]
'Verif.AltSvc.addr_injective' depends on axioms: [propext, Quot.sound]
'Verif.AltSvc.avoided_iff' depends on axioms: [propext, Classical.choice, Quot.sound]
'Verif.AltSvc.clear_others' depends on axioms: [propext, Quot.sound]
'Verif.AltSvc.clear_removes_others' depends on axioms: [propext, Quot.sound]
'Verif.AltSvc.connect_iff' depends on axioms: [propext, Classical.choice, Quot.sound]
'Verif.AltSvc.connects_apart' depends on axioms: [propext, Classical.choice, Quot.sound]
'Verif.AltSvc.first_of_unordered' depends on axioms: [propext, Classical.choice, Quot.sound]
'Verif.AltSvc.graylist_exact' depends on axioms: [propext, Classical.choice, Quot.sound]
'Verif.AltSvc.last_service_partial' depends on axioms: [propext, Classical.choice, Quot.sound]
'Verif.AltSvc.learned_protocol' depends on axioms: [propext]
'Verif.AltSvc.long_name_aborts' depends on axioms: [propext, Quot.sound]
'Verif.AltSvc.matchNumber_injective' depends on axioms: [propext, Quot.sound]
'Verif.AltSvc.other_server_forgotten' does not depend on any axioms
'Verif.AltSvc.select_best' depends on axioms: [propext, Classical.choice, Quot.sound]
'Verif.AltSvc.select_safe_partial' depends on axioms: [propext, Quot.sound]
'Verif.ArrayDef.accepted_definition_partial' depends on axioms: [propext, Classical.choice, Quot.sound]
'Verif.ArrayDef.definition_never_aborts' depends on axioms: [propext, Classical.choice, Quot.sound]
'Verif.ArrayDef.definition_read_partial' depends on axioms: [propext, Classical.choice, Quot.sound]
'Verif.ArrayDef.definition_unique' depends on axioms: [propext, Classical.choice, Quot.sound]
'Verif.ArrayDef.host_refused' depends on axioms: [propext]
'Verif.ArrayDef.line_feed_after' depends on axioms: [propext]
'Verif.ArrayDef.negative_length' depends on axioms: [propext]
'Verif.ArrayDef.rewind_not_checked' depends on axioms: [propext]
'Verif.ArrayDef.value_never_aborts' depends on axioms: [propext, Classical.choice, Quot.sound]
'Verif.ArrayDef.value_read_partial' depends on axioms: [propext, Classical.choice, Quot.sound]
'Verif.ArrayTree.count_overflow' depends on axioms: [propext, Classical.choice, Quot.sound]
'Verif.ArrayTree.count_wraps' depends on axioms: [propext, Quot.sound]
'Verif.ArrayTree.fixp_cut' depends on axioms: [propext, Quot.sound]
'Verif.ArrayTree.msg_empty' depends on axioms: [propext, Quot.sound]
'Verif.ArrayTree.msg_zero' depends on axioms: [propext, Quot.sound]
'Verif.ArrayTree.nsep_keeps_starts' depends on axioms: [propext, Quot.sound]
'Verif.ArrayTree.prefix_tag' depends on axioms: [propext, Quot.sound]
'Verif.ArrayTree.read_data_valid_partial' depends on axioms: [propext, Classical.choice, Quot.sound]
'Verif.ArrayTree.reading_safe_partial' depends on axioms: [propext, Classical.choice, Quot.sound]
'Verif.ArrayTree.rewind_number' depends on axioms: [propext, Quot.sound]
'Verif.ArrayTree.valid_data_read_partial' depends on axioms: [propext, Classical.choice, Quot.sound]
'Verif.ArrayTree.verdict_final_partial' depends on axioms: [propext, Classical.choice, Quot.sound]
'Verif.Asd.all_delivered_partial' depends on axioms: [propext, Classical.choice, Quot.sound]
'Verif.Asd.always_room_partial' depends on axioms: [propext, Classical.choice, Quot.sound]
'Verif.Asd.late_reset_loses' depends on axioms: [propext]
'Verif.Asd.may_finish_partial' depends on axioms: [propext, Classical.choice, Quot.sound]
'Verif.Asd.restart_loses' depends on axioms: [propext]
'Verif.Asd.second_sender_repeats' depends on axioms: [propext, Classical.choice, Quot.sound]
'Verif.Asd.second_sender_stops_all' depends on axioms: [propext, Classical.choice, Quot.sound]
'Verif.Asd.single_delivery_partial' depends on axioms: [propext, Classical.choice, Quot.sound]
'Verif.Averager.average_exact_partial' depends on axioms: [propext, Classical.choice, Quot.sound]
'Verif.Averager.forgotten' depends on axioms: [propext, Quot.sound]
'Verif.Averager.input_since' depends on axioms: [propext, Quot.sound]
'Verif.Averager.long_timespan' depends on axioms: [propext, Quot.sound]
'Verif.Averager.others_lost' depends on axioms: [propext, Quot.sound]
'Verif.Averager.others_pass' depends on axioms: [propext, Quot.sound]
'Verif.Averager.signed_wrong' depends on axioms: [propext, Quot.sound]
'Verif.Averager.sum_overflows' depends on axioms: [propext, Quot.sound]
'Verif.Averager.unreadable_unlocks' depends on axioms: [propext, Quot.sound]
'Verif.Base64.decodeUrl_counterexample' depends on axioms: [propext, Quot.sound]
'Verif.Base64.decodeUrl_encodeUrl_partial' depends on axioms: [propext, Classical.choice, Quot.sound]
'Verif.Base64.decode_encode' depends on axioms: [propext, Quot.sound]
'Verif.Base64.decode_in_bounds' depends on axioms: [propext, Quot.sound]
'Verif.Base64.decode_rfc' depends on axioms: [propext, Quot.sound]
'Verif.Base64.encodeUrl_in_bounds' depends on axioms: [propext, Classical.choice, Quot.sound]
'Verif.Base64.encodeUrl_rfc' depends on axioms: [propext, Quot.sound]
'Verif.Base64.encode_chars' depends on axioms: [propext, Quot.sound]
'Verif.Base64.encode_in_bounds' depends on axioms: [propext, Classical.choice, Quot.sound]
'Verif.Base64.encode_rfc' depends on axioms: [propext, Quot.sound]
'Verif.Base64.encode_some' depends on axioms: [propext, Classical.choice, Quot.sound]
'Verif.Broker.Examples.lasting_session_lost' depends on axioms: [propext, Classical.choice, Quot.sound]
'Verif.Broker.Examples.message_of_other_client' depends on axioms: [propext, Classical.choice, Quot.sound]
'Verif.Broker.Examples.resumed_session_lost' depends on axioms: [propext, Classical.choice, Quot.sound]
'Verif.Broker.Examples.subscription_of_other_user' depends on axioms: [propext, Classical.choice, Quot.sound]
'Verif.Broker.Examples.will_dropped_on_timeout' depends on axioms: [propext, Classical.choice, Quot.sound]
'Verif.Broker.Examples.will_dropped_on_write_error' depends on axioms: [propext, Classical.choice, Quot.sound]
'Verif.Broker.Examples.will_too_early' depends on axioms: [propext, Classical.choice, Quot.sound]
'Verif.Broker.broker_access' depends on axioms: [propext, Classical.choice, Quot.sound]
'Verif.Broker.broker_distributes' depends on axioms: [propext, Classical.choice, Quot.sound]
'Verif.Broker.broker_forwards' depends on axioms: [propext, Classical.choice, Quot.sound]
'Verif.Broker.broker_logged_in' depends on axioms: [propext, Classical.choice, Quot.sound]
'Verif.Broker.broker_own_session' depends on axioms: [propext, Classical.choice, Quot.sound]
'Verif.Broker.broker_retains' depends on axioms: [propext, Classical.choice, Quot.sound]
'Verif.Broker.broker_session_kept' depends on axioms: [propext, Classical.choice, Quot.sound]
'Verif.Broker.broker_sessions' depends on axioms: [propext, Classical.choice, Quot.sound]
'Verif.Broker.broker_suback' depends on axioms: [propext, Classical.choice, Quot.sound]
'Verif.Broker.broker_total' depends on axioms: [propext, Classical.choice, Quot.sound]
'Verif.Broker.broker_will_once' depends on axioms: [propext, Classical.choice, Quot.sound]
'Verif.Broker.connect_accepted' depends on axioms: [propext, Classical.choice, Quot.sound]
'Verif.Broker.mayLogIn_iff' depends on axioms: [propext, Classical.choice, Quot.sound]
'Verif.Broker.publish_forwarded' depends on axioms: [propext, Classical.choice, Quot.sound]
'Verif.Broker.session_ends_at_once' depends on axioms: [propext, Classical.choice, Quot.sound]
'Verif.Broker.session_expires' depends on axioms: [propext, Classical.choice, Quot.sound]
'Verif.Broker.subscribe_granted' depends on axioms: [propext, Classical.choice, Quot.sound]
'Verif.Broker.will_published_partial' depends on axioms: [propext, Classical.choice, Quot.sound]
'Verif.Broker.wrong_password_refused' depends on axioms: [propext, Classical.choice, Quot.sound]
'Verif.Cacher.one_per_topic_partial' depends on axioms: [propext, Classical.choice, Quot.sound]
'Verif.Cacher.other_messages' depends on axioms: [propext, Quot.sound]
'Verif.Cacher.request_answered_partial' depends on axioms: [propext, Classical.choice, Quot.sound]
'Verif.Cacher.too_old' depends on axioms: [propext, Quot.sound]
'Verif.Cacher.zero_in_topic_answers' does not depend on any axioms
'Verif.Cacher.zero_in_topic_removes' does not depend on any axioms
'Verif.Channel.bounded_partial' depends on axioms: [propext, Classical.choice, Quot.sound]
'Verif.Channel.count_exact_partial' depends on axioms: [propext, Classical.choice, Quot.sound]
'Verif.Channel.drained_partial' depends on axioms: [propext, Classical.choice, Quot.sound]
'Verif.Channel.empty_reorders' depends on axioms: [propext, Classical.choice, Quot.sound]
'Verif.Channel.full_refused_partial' depends on axioms: [propext, Classical.choice, Quot.sound]
'Verif.Channel.in_order_partial' depends on axioms: [propext, Classical.choice, Quot.sound]
'Verif.Channel.never_overrun' depends on axioms: [propext, Classical.choice, Quot.sound]
'Verif.Channel.read_succeeds_partial' depends on axioms: [propext, Classical.choice, Quot.sound]
'Verif.Channel.unnotified_delivered' depends on axioms: [propext]
'Verif.Channel.write_succeeds_partial' depends on axioms: [propext, Classical.choice, Quot.sound]
'Verif.Checked.biglengthAddBug_exact' depends on axioms: [propext, Classical.choice, Quot.sound]
'Verif.Checked.biglengthAddErr_exact' depends on axioms: [propext, Classical.choice, Quot.sound]
'Verif.Checked.biglengthFromPtrSubBug_exact_partial' depends on axioms: [propext, Classical.choice, Quot.sound]
'Verif.Checked.biglengthFromPtrSubBug_truncates' does not depend on any axioms
'Verif.Checked.biglengthFromSsizeSubBug_exact' depends on axioms: [propext, Classical.choice, Quot.sound]
'Verif.Checked.biglengthIncBug_exact' depends on axioms: [propext, Classical.choice, Quot.sound]
'Verif.Checked.biglengthMulErr_exact' depends on axioms: [propext, Quot.sound]
'Verif.Checked.biglengthSubBugConst_exact' depends on axioms: [propext, Classical.choice, Quot.sound]
'Verif.Checked.biglengthSubBug_exact' depends on axioms: [propext, Classical.choice, Quot.sound]
'Verif.Checked.counterAdd_exact' depends on axioms: [propext, Classical.choice, Quot.sound]
'Verif.Checked.counterAdd_returns' depends on axioms: [propext, Classical.choice, Quot.sound]
'Verif.Checked.counterSub_exact' depends on axioms: [propext, Classical.choice, Quot.sound]
'Verif.Checked.counterSub_returns' depends on axioms: [propext, Classical.choice, Quot.sound]
'Verif.Checked.intFromBiglength_exact' depends on axioms: [propext, Quot.sound]
'Verif.Checked.intFromSlengthBug_exact' depends on axioms: [propext, Classical.choice, Quot.sound]
'Verif.Checked.lengthAddBugConst_exact' depends on axioms: [propext, Classical.choice, Quot.sound]
'Verif.Checked.lengthAddBug_exact' depends on axioms: [propext, Classical.choice, Quot.sound]
'Verif.Checked.lengthAddErr_exact' depends on axioms: [propext, Classical.choice, Quot.sound]
'Verif.Checked.lengthDecBug_exact' depends on axioms: [propext, Classical.choice, Quot.sound]
'Verif.Checked.lengthFromBiglengthBug_exact' depends on axioms: [propext, Classical.choice, Quot.sound]
'Verif.Checked.lengthFromBiglengthErr_exact' depends on axioms: [propext, Classical.choice, Quot.sound]
'Verif.Checked.lengthFromPtrSubBug_exact' depends on axioms: [propext, Classical.choice, Quot.sound]
'Verif.Checked.lengthFromPtrSubErr_exact' depends on axioms: [propext, Classical.choice, Quot.sound]
'Verif.Checked.lengthFromSlengthBug_exact' depends on axioms: [propext, Classical.choice, Quot.sound]
'Verif.Checked.lengthFromSlengthErr_exact' depends on axioms: [propext, Classical.choice, Quot.sound]
'Verif.Checked.lengthFromSlengthSubBug_exact' depends on axioms: [propext, Classical.choice, Quot.sound]
'Verif.Checked.lengthFromSlengthSubErr_exact' depends on axioms: [propext, Classical.choice, Quot.sound]
'Verif.Checked.lengthFromSlengthSubErr_ub' does not depend on any axioms
'Verif.Checked.lengthIncBugOldValue_exact' depends on axioms: [propext, Classical.choice, Quot.sound]
'Verif.Checked.lengthIncBug_exact' depends on axioms: [propext, Classical.choice, Quot.sound]
'Verif.Checked.lengthIncErr_clobbers' does not depend on any axioms
'Verif.Checked.lengthIncErr_exact' depends on axioms: [propext, Classical.choice, Quot.sound]
'Verif.Checked.lengthMulBug_exact' depends on axioms: [propext, Classical.choice, Quot.sound]
'Verif.Checked.lengthSubBug_exact' depends on axioms: [propext, Classical.choice, Quot.sound]
'Verif.Checked.u16FromBiglengthBug_exact' depends on axioms: [propext, Classical.choice, Quot.sound]
'Verif.Checked.u16FromSlengthBug_exact' depends on axioms: [propext, Classical.choice, Quot.sound]
'Verif.Chunk.client_closes' depends on axioms: [propext, Classical.choice, Quot.sound]
'Verif.Chunk.client_finishes' depends on axioms: [propext, Classical.choice, Quot.sound]
'Verif.Chunk.client_in_order' depends on axioms: [propext, Classical.choice, Quot.sound]
'Verif.Chunk.client_nothing_waits' depends on axioms: [propext, Classical.choice, Quot.sound]
'Verif.Chunk.client_told' depends on axioms: [propext, Classical.choice, Quot.sound]
'Verif.Chunk.error_not_seen' does not depend on any axioms
'Verif.Chunk.next_inside' depends on axioms: [propext, Quot.sound]
'Verif.Chunk.transport_closes' depends on axioms: [propext, Classical.choice, Quot.sound]
'Verif.Chunk.transport_each_partial' depends on axioms: [propext, Classical.choice, Quot.sound]
'Verif.Chunk.transport_finishes' depends on axioms: [propext, Classical.choice, Quot.sound]
'Verif.Chunk.transport_in_order_partial' depends on axioms: [propext, Classical.choice, Quot.sound]
'Verif.Chunk.transport_never_aborts' depends on axioms: [propext, Classical.choice, Quot.sound]
'Verif.Chunk.transport_nothing_else' depends on axioms: [propext, Classical.choice, Quot.sound]
'Verif.Chunk.transport_nothing_waits' depends on axioms: [propext, Classical.choice, Quot.sound]
'Verif.Chunk.urgent_inside' depends on axioms: [propext, Quot.sound]
'Verif.Cmdline.comma_join' depends on axioms: [propext, Quot.sound]
'Verif.Cmdline.exists_iff' depends on axioms: [propext]
'Verif.Cmdline.flag_value_ignored' depends on axioms: [propext, Classical.choice, Quot.sound]
'Verif.Cmdline.iterate_all_partial' depends on axioms: [propext, Quot.sound]
'Verif.Cmdline.iterate_eq' depends on axioms: [propext, Quot.sound]
'Verif.Cmdline.iterate_stops' depends on axioms: [propext]
'Verif.Cmdline.name_taken_as_value' depends on axioms: [propext, Classical.choice, Quot.sound]
'Verif.Cmdline.parse_command' depends on axioms: [propext]
'Verif.Cmdline.parse_iff' depends on axioms: [propext, Classical.choice, Quot.sound]
'Verif.Cmdline.parse_mean_partial' depends on axioms: [propext, Classical.choice, Quot.sound]
'Verif.Cmdline.subvalue_eq' depends on axioms: [propext, Quot.sound]
'Verif.Cmdline.subvalue_used' depends on axioms: [propext]
'Verif.Cmdline.unused_accepted' does not depend on any axioms
'Verif.Cmdline.unused_named' depends on axioms: [propext, Quot.sound]
'Verif.Cmdline.write_unambiguous' depends on axioms: [propext, Classical.choice, Quot.sound]
'Verif.Condition.accepted_evaluates_partial' depends on axioms: [propext, Classical.choice, Quot.sound]
'Verif.Condition.accepted_faults' depends on axioms: [propext, Quot.sound]
'Verif.Condition.condition_exact' depends on axioms: [propext, Classical.choice, Quot.sound]
'Verif.Condition.condition_unchained_partial' depends on axioms: [propext, Classical.choice, Quot.sound]
'Verif.Condition.condition_value_fails' depends on axioms: [propext, Classical.choice, Quot.sound]
'Verif.Condition.condition_value_partial' depends on axioms: [propext, Classical.choice, Quot.sound]
'Verif.Condition.interpret_never_aborts' depends on axioms: [propext, Classical.choice, Quot.sound]
'Verif.Condition.wellformed_evaluates_partial' depends on axioms: [propext, Classical.choice, Quot.sound]
'Verif.Config.config_aborts_partial' depends on axioms: [propext, Classical.choice, Quot.sound]
'Verif.Config.config_accepted' depends on axioms: [propext, Classical.choice, Quot.sound]
'Verif.Config.config_read_partial' depends on axioms: [propext, Classical.choice, Quot.sound]
'Verif.Config.config_unambiguous' depends on axioms: [propext, Classical.choice, Quot.sound]
'Verif.Config.empty_name_aborts' depends on axioms: [propext, Quot.sound]
'Verif.Config.end_accepted' depends on axioms: [propext, Quot.sound]
'Verif.Config.end_refused' depends on axioms: [propext, Quot.sound]
'Verif.Config.stray_accepted' depends on axioms: [propext, Quot.sound]
'Verif.Config.written_read' depends on axioms: [propext, Classical.choice, Quot.sound]
'Verif.Convert.clear_loses_all' depends on axioms: [propext, Quot.sound]
'Verif.Convert.convert_exact' depends on axioms: [propext, Classical.choice, Quot.sound]
'Verif.Convert.convert_same' depends on axioms: [propext, Quot.sound]
'Verif.Convert.empty_blob_dropped' depends on axioms: [propext, Quot.sound]
'Verif.Convert.hex_exact' depends on axioms: [propext, Quot.sound]
'Verif.Convert.hex_of_string' depends on axioms: [propext, Quot.sound]
'Verif.Convert.mangle_partial' depends on axioms: [propext, Classical.choice, Quot.sound]
'Verif.Convert.messages_hex_abort' depends on axioms: [propext, Quot.sound]
'Verif.Convert.more_elements_outside' depends on axioms: [propext, Quot.sound]
'Verif.Convert.no_elements_aborts' depends on axioms: [propext, Quot.sound]
'Verif.Convert.number_roundtrip' depends on axioms: [propext, Classical.choice, Quot.sound]
'Verif.Convert.received_aborts' depends on axioms: [propext, Quot.sound]
'Verif.Convert.recipe_lost' depends on axioms: [propext, Quot.sound]
'Verif.Convert.recipe_partial' depends on axioms: [propext, Classical.choice, Quot.sound]
'Verif.Crc32.corrupted_refused' depends on axioms: [propext, Classical.choice, Quot.sound]
'Verif.Crc32.crc32_burst' depends on axioms: [propext, Classical.choice, Quot.sound]
'Verif.Crc32.crc32buf_burst' depends on axioms: [propext, Classical.choice, Quot.sound]
'Verif.Crc32.crc32buf_burst_bits' depends on axioms: [propext, Classical.choice, Quot.sound]
'Verif.Crc32.crc32buf_eq' depends on axioms: [propext, Classical.choice, Quot.sound]
'Verif.Crc32.crc32cmp_iff' depends on axioms: [propext, Quot.sound]
'Verif.Discern.accepted_effects_partial' depends on axioms: [propext, Classical.choice, Quot.sound]
'Verif.Discern.actions_expression' depends on axioms: [propext, Quot.sound]
'Verif.Discern.applyAll_route' depends on axioms: [propext, Classical.choice, Quot.sound]
'Verif.Discern.executeAll_safe' depends on axioms: [propext, Classical.choice, Quot.sound]
'Verif.Discern.execute_safe' depends on axioms: [propext, Classical.choice, Quot.sound]
'Verif.Discern.helper_quiet' depends on axioms: [propext, Classical.choice, Quot.sound]
'Verif.Discern.index_wrong' depends on axioms: [propext, Quot.sound]
'Verif.Discern.no_routes' depends on axioms: [propext, Quot.sound]
'Verif.Discern.parse_overflow' depends on axioms: [propext, Classical.choice, Quot.sound]
'Verif.Discern.parse_safe_partial' depends on axioms: [propext, Quot.sound]
'Verif.Discern.parse_text' depends on axioms: [propext, Classical.choice, Quot.sound]
'Verif.Discern.routing_partial' depends on axioms: [propext, Classical.choice, Quot.sound]
'Verif.Discern.routing_safe' depends on axioms: [propext, Classical.choice, Quot.sound]
'Verif.Discern.text_effects_partial' depends on axioms: [propext, Classical.choice, Quot.sound]
'Verif.Discern.utf8_filter_refused' depends on axioms: [propext, Quot.sound]
'Verif.Env.comment_overreads' does not depend on any axioms
'Verif.Env.file_exact' depends on axioms: [propext, Quot.sound]
'Verif.Env.file_roundtrip' depends on axioms: [propext, Quot.sound]
'Verif.Env.file_safe_partial' depends on axioms: [propext, Quot.sound]
'Verif.Env.last_value_seen' depends on axioms: [propext, Classical.choice, Quot.sound]
'Verif.Env.nameless_refused' depends on axioms: [propext, Quot.sound]
'Verif.Env.nul_cuts' does not depend on any axioms
'Verif.Exploder.explode_exact' depends on axioms: [propext, Classical.choice, Quot.sound]
'Verif.Exploder.non_array' depends on axioms: [propext, Quot.sound]
'Verif.Exploder.too_long' depends on axioms: [propext, Classical.choice, Quot.sound]
'Verif.Fifo.delivered_once_in_order' depends on axioms: [propext, Classical.choice, Quot.sound]
'Verif.Fifo.fifo_is_queue' depends on axioms: [propext, Classical.choice, Quot.sound]
'Verif.Fifo.ordered_writes_sorted' depends on axioms: [propext, Classical.choice, Quot.sound]
'Verif.Fifo.replace_then_give_faults' depends on axioms: [propext, Quot.sound]
'Verif.Fifo.replace_then_give_loses' depends on axioms: [propext, Quot.sound]
'Verif.Fifo.search_and_replace_partial' depends on axioms: [propext, Classical.choice, Quot.sound]
'Verif.Fifo.search_removes' depends on axioms: [propext, Classical.choice, Quot.sound]
'Verif.Fixp.decimal_near' depends on axioms: [propext, Classical.choice, Quot.sound]
'Verif.Fixp.float_roundtrip' depends on axioms: [propext, Classical.choice, Quot.sound]
'Verif.Fixp.hex_exact' depends on axioms: [propext, Classical.choice, Quot.sound]
'Verif.Fixp.infinite_undefined' depends on axioms: [propext, Classical.choice, Quot.sound]
'Verif.Fixp.large_negative' depends on axioms: [propext, Classical.choice, Quot.sound]
'Verif.Fixp.large_zero' depends on axioms: [propext, Classical.choice, Quot.sound]
'Verif.Fixp.negative_changed' depends on axioms: [propext, Classical.choice, Quot.sound]
'Verif.Fixp.of_exact' depends on axioms: [propext, Classical.choice, Quot.sound]
'Verif.Fixp.parts_iff' depends on axioms: [propext, Quot.sound]
'Verif.Fixp.smallest_undefined' depends on axioms: [propext, Classical.choice, Quot.sound]
'Verif.Fixp.text16_roundtrip_partial' depends on axioms: [propext, Classical.choice, Quot.sound]
'Verif.Fixp.to_exact' depends on axioms: [propext, Classical.choice, Quot.sound]
'Verif.Fork.all_notified_partial' depends on axioms: [propext, Classical.choice, Quot.sound]
'Verif.Fork.forced_lost' depends on axioms: [propext, Classical.choice, Quot.sound]
'Verif.Fork.lost_early' depends on axioms: [propext]
'Verif.Fork.lost_forced' depends on axioms: [propext]
'Verif.Fork.lost_forever' depends on axioms: [propext, Classical.choice, Quot.sound]
'Verif.Fork.lost_overwritten' depends on axioms: [propext]
'Verif.Fork.marked_notified' depends on axioms: [propext, Quot.sound]
'Verif.Fork.never_missed' depends on axioms: [propext, Classical.choice, Quot.sound]
'Verif.Fork.no_needless_call' depends on axioms: [propext, Classical.choice, Quot.sound]
'Verif.Fork.notified_alive' depends on axioms: [propext]
'Verif.Fork.notified_elsewhere' depends on axioms: [propext]
'Verif.Fork.notified_ended_partial' depends on axioms: [propext, Classical.choice, Quot.sound]
'Verif.Fork.notified_once' depends on axioms: [propext, Classical.choice, Quot.sound]
'Verif.Fork.parent_notified_partial' depends on axioms: [propext, Classical.choice, Quot.sound]
'Verif.Fork.right_function' depends on axioms: [propext, Classical.choice, Quot.sound]
'Verif.Fork.wait_complete' depends on axioms: [propext, Quot.sound]
'Verif.Fork.waited_notified' depends on axioms: [propext, Quot.sound]
'Verif.Form.form_read_partial' depends on axioms: [propext, Quot.sound]
'Verif.Form.form_roundtrip_partial' depends on axioms: [propext, Quot.sound]
'Verif.Form.form_sent' depends on axioms: [propext, Quot.sound]
'Verif.Form.leading_equals' depends on axioms: [propext, Quot.sound]
'Verif.Form.leading_space' depends on axioms: [propext]
'Verif.Form.nameless_is_name' depends on axioms: [propext, Quot.sound]
'Verif.Form.no_query' depends on axioms: [propext]
'Verif.Form.nul_lost' depends on axioms: [propext, Quot.sound]
'Verif.Form.nul_lost_always' depends on axioms: [propext, Quot.sound]
'Verif.Form.parse_safe' depends on axioms: [propext, Classical.choice, Quot.sound]
'Verif.Form.parse_total' depends on axioms: [propext, Classical.choice, Quot.sound]
'Verif.Form.query_roundtrip_partial' depends on axioms: [propext, Quot.sound]
'Verif.Form.second_equals_refused' depends on axioms: [propext, Quot.sound]
'Verif.Form.separator_taken' depends on axioms: [propext]
'Verif.Form.space_in_value' depends on axioms: [propext]
'Verif.Form.trailing_separator' depends on axioms: [propext, Quot.sound]
'Verif.Hdlc.empty_payload_lost' depends on axioms: [propext, Quot.sound]
'Verif.Hdlc.exportLength_eq' depends on axioms: [propext, Classical.choice, Quot.sound]
'Verif.Hdlc.feed_eq' depends on axioms: [propext, Quot.sound]
'Verif.Hdlc.feed_export' depends on axioms: [propext, Classical.choice, Quot.sound]
'Verif.Hdlc.parseMany_export' depends on axioms: [propext, Classical.choice, Quot.sound]
'Verif.Hdlc.parse_export' depends on axioms: [propext, Classical.choice, Quot.sound]
'Verif.Hdlc.parse_frame' depends on axioms: [propext, Quot.sound]
'Verif.Hdlc.parse_in_bounds' depends on axioms: [propext, Quot.sound]
'Verif.Hdlc.parse_resync' depends on axioms: [propext, Classical.choice, Quot.sound]
'Verif.Hdlc.parse_sound' depends on axioms: [propext, Quot.sound]
'Verif.Http.http_chunk_crash' depends on axioms: [propext, Classical.choice, Quot.sound]
'Verif.Http.http_chunk_ends' depends on axioms: [propext, Classical.choice, Quot.sound]
'Verif.Http.http_crash_partial' depends on axioms: [propext, Classical.choice, Quot.sound]
'Verif.Http.http_equal_refused' depends on axioms: [propext, Classical.choice, Quot.sound]
'Verif.Http.http_length_overlooked' depends on axioms: [propext, Classical.choice, Quot.sound]
'Verif.Http.http_length_wraps' depends on axioms: [propext, Classical.choice, Quot.sound]
'Verif.Http.http_limit_depends_on_pieces' depends on axioms: [propext, Classical.choice, Quot.sound]
'Verif.Http.http_link_crash' depends on axioms: [propext, Classical.choice, Quot.sound]
'Verif.Http.http_pieces' depends on axioms: [propext, Classical.choice, Quot.sound]
'Verif.Http.http_pieces_agree' depends on axioms: [propext, Classical.choice, Quot.sound]
'Verif.Http.http_pieces_within' depends on axioms: [propext, Classical.choice, Quot.sound]
'Verif.Http.http_request' depends on axioms: [propext, Classical.choice, Quot.sound]
'Verif.Http.http_request_chunked_overread' depends on axioms: [propext, Classical.choice, Quot.sound]
'Verif.Http.http_request_chunked_partial' depends on axioms: [propext, Classical.choice, Quot.sound]
'Verif.Http.http_response' depends on axioms: [propext, Classical.choice, Quot.sound]
'Verif.Http.http_response_chunked' depends on axioms: [propext, Classical.choice, Quot.sound]
'Verif.Http.http_response_close' depends on axioms: [propext, Classical.choice, Quot.sound]
'Verif.Http.http_smuggling' depends on axioms: [propext, Classical.choice, Quot.sound]
'Verif.HttpQueue.accounted' depends on axioms: [propext, Quot.sound]
'Verif.HttpQueue.all_ok' depends on axioms: [propext, Quot.sound]
'Verif.HttpQueue.arrive_where' does not depend on any axioms
'Verif.HttpQueue.config_partial' depends on axioms: [propext]
'Verif.HttpQueue.expire_partial' depends on axioms: [propext, Classical.choice, Quot.sound]
'Verif.HttpQueue.factor_zero_refused' depends on axioms: [propext, Quot.sound]
'Verif.HttpQueue.future_expired' depends on axioms: [propext, Quot.sound]
'Verif.HttpQueue.low_longer' depends on axioms: [propext, Quot.sound]
'Verif.HttpQueue.low_waits' depends on axioms: [propext, Quot.sound]
'Verif.HttpQueue.no_timeouts' depends on axioms: [propext]
'Verif.HttpQueue.overflow_accepted' does not depend on any axioms
'Verif.HttpQueue.process_exact' depends on axioms: [propext, Quot.sound]
'Verif.HttpQueue.process_tries' depends on axioms: [propext, Classical.choice, Quot.sound]
'Verif.HttpQueue.rotate_first_crashes' depends on axioms: [propext]
'Verif.HttpQueue.rotate_keeps' depends on axioms: [propext]
'Verif.HttpQueue.rotate_one' depends on axioms: [propext]
'Verif.HttpQueue.round_all' depends on axioms: [propext, Quot.sound]
'Verif.HttpQueue.round_rotates' depends on axioms: [propext, Quot.sound]
'Verif.HttpQueue.timeouts_partial' depends on axioms: [propext, Classical.choice, Quot.sound]
'Verif.HttpUtil.findCrlf_exact' depends on axioms: [propext, Quot.sound]
'Verif.HttpUtil.findCrlf_none' depends on axioms: [propext, Quot.sound]
'Verif.HttpUtil.quote_refuses' depends on axioms: [propext, Quot.sound]
'Verif.HttpUtil.quote_roundtrip_partial' depends on axioms: [propext, Classical.choice, Quot.sound]
'Verif.HttpUtil.strcasestr_beginning' depends on axioms: [propext, Classical.choice, Quot.sound]
'Verif.HttpUtil.strcasestr_partial' depends on axioms: [propext, Classical.choice, Quot.sound]
'Verif.HttpUtil.strcasestr_single' depends on axioms: [propext, Classical.choice, Quot.sound]
'Verif.HttpUtil.strtoull_decimal' depends on axioms: [propext, Quot.sound]
'Verif.HttpUtil.strtoull_refused' depends on axioms: [propext, Quot.sound]
'Verif.HttpUtil.uri_encode_injective' depends on axioms: [propext, Classical.choice, Quot.sound]
'Verif.HttpUtil.uri_roundtrip' depends on axioms: [propext, Classical.choice, Quot.sound]
'Verif.HttpUtil.uri_too_long' depends on axioms: [propext, Quot.sound]
'Verif.HttpUtil.urlDecode_rfc' depends on axioms: [propext, Classical.choice, Quot.sound]
'Verif.HttpUtil.urlDecode_total' depends on axioms: [propext, Classical.choice, Quot.sound]
'Verif.Hub.duplicated_output' depends on axioms: [propext, Classical.choice, Quot.sound]
'Verif.Hub.entries_not_reported' depends on axioms: [propext, Quot.sound]
'Verif.Hub.exclusive' depends on axioms: [propext, Classical.choice, Quot.sound]
'Verif.Hub.more_readers_than_slots' depends on axioms: [propext, Quot.sound]
'Verif.IdPool.run_nonzero' depends on axioms: [propext, Classical.choice, Quot.sound]
'Verif.IdPool.run_refines_set' depends on axioms: [propext, Classical.choice, Quot.sound]
'Verif.IdPool.run_unique' depends on axioms: [propext, Classical.choice, Quot.sound]
'Verif.Increment.bitsToMax_eq' depends on axioms: [propext, Quot.sound]
'Verif.Increment.incBasic_overflow_counterexample' does not depend on any axioms
'Verif.Increment.incBasic_partial' depends on axioms: [propext, Quot.sound]
'Verif.Increment.incBasic_range' depends on axioms: [propext, Classical.choice, Quot.sound]
'Verif.Increment.incMod_next' depends on axioms: [propext, Classical.choice, Quot.sound]
'Verif.Increment.incMod_valid' depends on axioms: [propext, Classical.choice, Quot.sound]
'Verif.Increment.iter_no_collision' depends on axioms: [propext, Classical.choice, Quot.sound]
'Verif.Increment.iter_sweep' depends on axioms: [propext, Classical.choice, Quot.sound]
'Verif.Increment.iter_sweep_wrap' depends on axioms: [propext, Classical.choice, Quot.sound]
'Verif.Increment.iter_valid' depends on axioms: [propext, Classical.choice, Quot.sound]
'Verif.Increment.nextId_form' depends on axioms: [propext, Classical.choice, Quot.sound]
'Verif.Increment.nextId_next' depends on axioms: [propext, Classical.choice, Quot.sound]
'Verif.Increment.run_ids_valid' depends on axioms: [propext, Classical.choice, Quot.sound]
'Verif.Increment.run_no_collision' depends on axioms: [propext, Classical.choice, Quot.sound]
'Verif.Increment.run_successive' depends on axioms: [propext, Quot.sound]
'Verif.Increment.strip_apply' depends on axioms: [propext, Classical.choice, Quot.sound]
'Verif.Increment.verifyValuePrefix_iff' depends on axioms: [propext, Classical.choice, Quot.sound]
'Verif.Influx.array_aborts' depends on axioms: [propext, Quot.sound]
'Verif.Influx.backslash_injects' depends on axioms: [propext, Quot.sound]
'Verif.Influx.empty_invalid' depends on axioms: [propext, Quot.sound]
'Verif.Influx.fields_exact_partial' depends on axioms: [propext, Classical.choice, Quot.sound]
'Verif.Influx.fixed_joined' depends on axioms: [propext, Quot.sound]
'Verif.Influx.missing_no_line' depends on axioms: [propext, Quot.sound]
'Verif.Influx.never_sent' depends on axioms: [propext, Quot.sound]
'Verif.Influx.nul_truncates' depends on axioms: [propext, Quot.sound]
'Verif.Influx.tag_space' depends on axioms: [propext, Quot.sound]
'Verif.Journal.entry_failure' depends on axioms: [propext, Quot.sound]
'Verif.Journal.journal_complete_partial' depends on axioms: [propext, Classical.choice, Quot.sound]
'Verif.Journal.journal_counted' depends on axioms: [propext, Quot.sound]
'Verif.Journal.journal_in_order_partial' depends on axioms: [propext, Classical.choice, Quot.sound]
'Verif.Journal.long_prefix_stops' depends on axioms: [propext, Classical.choice, Quot.sound]
'Verif.Journal.round_writes' depends on axioms: [propext, Classical.choice, Quot.sound]
'Verif.Journal.silent_forever' depends on axioms: [propext]
'Verif.Journal.suppress_iff' depends on axioms: [propext, Quot.sound]
'Verif.Journal.value_failure' depends on axioms: [propext, Quot.sound]
'Verif.Json.accepted_iff' depends on axioms: [propext, Classical.choice, Quot.sound]
'Verif.Json.arrays_exact' depends on axioms: [propext, Classical.choice, Quot.sound]
'Verif.Json.arrays_prefix' depends on axioms: [propext, Classical.choice, Quot.sound]
'Verif.Json.callback_exact' depends on axioms: [propext, Classical.choice, Quot.sound]
'Verif.Json.deep_left_out' depends on axioms: [propext, Quot.sound]
'Verif.Json.elements_lost' depends on axioms: [propext, Quot.sound]
'Verif.Json.first_repeated' depends on axioms: [propext, Classical.choice, Quot.sound]
'Verif.Json.fixp_bytes' depends on axioms: [propext, Quot.sound]
'Verif.Json.large_changed' depends on axioms: [propext, Quot.sound]
'Verif.Json.list_refused' depends on axioms: [propext, Quot.sound]
'Verif.Json.map_exact' depends on axioms: [propext, Quot.sound]
'Verif.Json.number_partial' depends on axioms: [propext, Quot.sound]
'Verif.Json.object_exact' depends on axioms: [propext, Quot.sound]
'Verif.Json.object_iff' depends on axioms: [propext, Quot.sound]
'Verif.Json.roundtrip_partial' depends on axioms: [propext, Classical.choice, Quot.sound]
'Verif.Json.text_partial' depends on axioms: [propext, Quot.sound]
'Verif.Json.vain_null' depends on axioms: [propext, Quot.sound]
'Verif.Json.within_iff' depends on axioms: [propext, Quot.sound]
'Verif.LogHook.accounted' depends on axioms: [propext, Classical.choice, Quot.sound]
'Verif.LogHook.all_delivered' depends on axioms: [propext, Classical.choice, Quot.sound]
'Verif.LogHook.gone_not_called' depends on axioms: [propext, Classical.choice, Quot.sound]
'Verif.LogHook.message_lost' depends on axioms: [propext, Quot.sound]
'Verif.LogHook.message_lost_register' depends on axioms: [propext]
'Verif.LogHook.never_stuck' depends on axioms: [propext, Classical.choice, Quot.sound]
'Verif.LogHook.none_lost_partial' depends on axioms: [propext, Classical.choice, Quot.sound]
'Verif.LogHook.one_caller' depends on axioms: [propext, Classical.choice, Quot.sound]
'Verif.LogHook.table_overflow' depends on axioms: [propext]
'Verif.LogHook.table_safe_partial' depends on axioms: [propext, Classical.choice, Quot.sound]
'Verif.Mmap.huge_request' depends on axioms: [propext, Quot.sound]
'Verif.Mmap.isEmpty_exact' depends on axioms: [propext, Classical.choice, Quot.sound]
'Verif.Mmap.never_again' depends on axioms: [propext, Classical.choice, Quot.sound]
'Verif.Mmap.reuse_partial' depends on axioms: [propext, Classical.choice, Quot.sound]
'Verif.Mmap.sound_partial' depends on axioms: [propext, Classical.choice, Quot.sound]
'Verif.MmapColl.first_block' depends on axioms: [propext, Classical.choice, Quot.sound]
'Verif.MmapColl.free_exact' depends on axioms: [propext, Classical.choice, Quot.sound]
'Verif.MmapColl.no_abort' depends on axioms: [propext, Classical.choice, Quot.sound]
'Verif.MmapColl.sound' depends on axioms: [propext, Classical.choice, Quot.sound]
'Verif.MmapColl.stays' depends on axioms: [propext, Classical.choice, Quot.sound]
'Verif.MmapColl.table_wraps' depends on axioms: [propext, Quot.sound]
'Verif.Modbus.answered_once' depends on axioms: [propext, Classical.choice, Quot.sound]
'Verif.Modbus.exception_code_missing' depends on axioms: [propext, Quot.sound]
'Verif.Modbus.follows_ledger' depends on axioms: [propext, Classical.choice, Quot.sound]
'Verif.Modbus.private_data_leaks' depends on axioms: [propext, Quot.sound]
'Verif.Modbus.read_complete' depends on axioms: [propext, Classical.choice, Quot.sound]
'Verif.Modbus.sent_in_order' depends on axioms: [propext, Classical.choice, Quot.sound]
'Verif.Mqtt.connect_roundtrip_partial' depends on axioms: [propext, Classical.choice, Quot.sound]
'Verif.Mqtt.correlation_data_lost' depends on axioms: [propext, Quot.sound]
'Verif.Mqtt.mqtt_chunks_matter' depends on axioms: [propext]
'Verif.Mqtt.mqtt_conversation_partial' depends on axioms: [propext, Classical.choice, Quot.sound]
'Verif.Mqtt.packet_roundtrip_partial' depends on axioms: [propext, Classical.choice, Quot.sound]
'Verif.Mqtt.parsePacket_accepted_partial' depends on axioms: [propext, Classical.choice, Quot.sound]
'Verif.Mqtt.parsePacket_agree' depends on axioms: [propext, Classical.choice, Quot.sound]
'Verif.Mqtt.parsePacket_first_accepted' depends on axioms: [propext, Classical.choice, Quot.sound]
'Verif.Mqtt.parsePacket_in_bounds' depends on axioms: [propext, Quot.sound]
'Verif.Mqtt.parsePacket_no_abort_partial' depends on axioms: [propext, Quot.sound]
'Verif.Mqtt.parsePacket_stable' depends on axioms: [propext, Quot.sound]
'Verif.Mqtt.publish_nul_topic_accepted' depends on axioms: [propext]
'Verif.Mqtt.subscribe_abort_witness' depends on axioms: [propext]
'Verif.Mqtt.subscribe_v5_aborts_iff' depends on axioms: [propext, Classical.choice, Quot.sound]
'Verif.Mqtt.verdict_own_bytes_partial' depends on axioms: [propext, Classical.choice, Quot.sound]
'Verif.Mqtt.verdict_uses_next_packet' depends on axioms: [propext]
'Verif.Mqtt.vint_decode' depends on axioms: [propext, Classical.choice, Quot.sound]
'Verif.Mqtt.vint_decode_max' depends on axioms: [propext, Classical.choice, Quot.sound]
'Verif.Mqtt.vint_decode_prefix' depends on axioms: [propext, Classical.choice, Quot.sound]
'Verif.Mqtt.vint_encoders' depends on axioms: [propext, Classical.choice, Quot.sound]
'Verif.Mqtt.vint_encoders_length' depends on axioms: [propext, Quot.sound]
'Verif.Mqtt.vint_encoders_refuse' depends on axioms: [propext]
'Verif.MqttAck.mismatch_aborts' does not depend on any axioms
'Verif.MqttAck.suback_warns' depends on axioms: [propext, Quot.sound]
'Verif.MqttAck.unknown_fails' depends on axioms: [propext, Quot.sound]
'Verif.MqttAck.unsuback_exact' depends on axioms: [propext, Classical.choice, Quot.sound]
'Verif.MqttAck.v31_unchanged' does not depend on any axioms
'Verif.MqttClient.arrival_handles' depends on axioms: [propext, Quot.sound]
'Verif.MqttClient.discard_count' depends on axioms: [propext, Quot.sound]
'Verif.MqttClient.disconnect_exact' depends on axioms: [propext, Quot.sound]
'Verif.MqttClient.in_order_partial' depends on axioms: [propext, Quot.sound]
'Verif.MqttClient.payload_exact' depends on axioms: [propext]
'Verif.MqttClient.publish_exact' depends on axioms: [propext, Quot.sound]
'Verif.MqttClient.retain_exact' depends on axioms: [propext, Quot.sound]
'Verif.MqttClient.retain_none' depends on axioms: [propext]
'Verif.MqttClient.subscribe_partial' depends on axioms: [propext, Classical.choice, Quot.sound]
'Verif.MqttClient.topic_partial' depends on axioms: [propext, Quot.sound]
'Verif.MqttClient.topic_zero' depends on axioms: [propext, Quot.sound]
'Verif.MqttClient.unknown_ignored' depends on axioms: [propext, Quot.sound]
'Verif.MqttClient.unknown_value_crashes' depends on axioms: [propext]
'Verif.MqttClient.unsubscribe_partial' depends on axioms: [propext, Classical.choice, Quot.sound]
'Verif.MqttClient.waits_for_next' depends on axioms: [propext]
'Verif.MqttReceive.any_type_accepted' depends on axioms: [propext, Quot.sound]
'Verif.MqttReceive.array_ends' depends on axioms: [propext, Quot.sound]
'Verif.MqttReceive.array_no_payload' depends on axioms: [propext, Quot.sound]
'Verif.MqttReceive.empty_exact' depends on axioms: [propext, Classical.choice, Quot.sound]
'Verif.MqttReceive.expect_only_messages' depends on axioms: [propext, Classical.choice, Quot.sound]
'Verif.MqttReceive.fallback_altered' depends on axioms: [propext, Quot.sound]
'Verif.MqttReceive.fallback_altered_body' depends on axioms: [propext, Quot.sound]
'Verif.MqttReceive.fallback_partial' depends on axioms: [propext, Classical.choice, Quot.sound]
'Verif.MqttReceive.message_exact' depends on axioms: [propext, Classical.choice, Quot.sound]
'Verif.MqttReceive.plain_exact' depends on axioms: [propext, Classical.choice, Quot.sound]
'Verif.MqttReceive.reads_outside' depends on axioms: [propext, Quot.sound]
'Verif.MqttReceive.records_exact' depends on axioms: [propext, Quot.sound]
'Verif.Msg.accepted_message_partial' depends on axioms: [propext, Classical.choice, Quot.sound]
'Verif.Msg.addr_roundtrip' depends on axioms: [propext, Classical.choice, Quot.sound]
'Verif.Msg.control_roundtrip' depends on axioms: [propext, Classical.choice, Quot.sound]
'Verif.Msg.corruption_refused' depends on axioms: [propext, Classical.choice, Quot.sound]
'Verif.Msg.duplicateNoData_eq' depends on axioms: [propext, Quot.sound]
'Verif.Msg.log_empty_refused' depends on axioms: [propext, Classical.choice, Quot.sound]
'Verif.Msg.log_long_refused' depends on axioms: [propext, Classical.choice, Quot.sound]
'Verif.Msg.log_roundtrip_partial' depends on axioms: [propext, Classical.choice, Quot.sound]
'Verif.Msg.log_short_outside' depends on axioms: [propext, Quot.sound]
'Verif.Msg.message_chunks_irrelevant_partial' depends on axioms: [propext, Classical.choice, Quot.sound]
'Verif.Msg.message_roundtrip' depends on axioms: [propext, Classical.choice, Quot.sound]
'Verif.Msg.messages_arrive' depends on axioms: [propext, Classical.choice, Quot.sound]
'Verif.Msg.newWithData_consistent' depends on axioms: [propext, Quot.sound]
'Verif.Msg.receive_no_bug_partial' depends on axioms: [propext, Quot.sound]
'Verif.Msg.sent_messages_arrive' depends on axioms: [propext, Classical.choice, Quot.sound]
'Verif.Msg.stats_overflow' depends on axioms: [propext, Classical.choice, Quot.sound]
'Verif.Msg.stats_roundtrip' depends on axioms: [propext, Classical.choice, Quot.sound]
'Verif.Msg.tiny_size_aborts' depends on axioms: [propext, Quot.sound]
'Verif.Msg.topicEquals_iff' depends on axioms: [propext, Quot.sound]
'Verif.Msg.topicSet_eq' depends on axioms: [propext, Quot.sound]
'Verif.Msg.ttlOk_iff' depends on axioms: [propext, Quot.sound]
'Verif.Msg.validate_outside' depends on axioms: [propext, Quot.sound]
'Verif.Msg.zero_size_aborts_reader' depends on axioms: [propext, Quot.sound]
'Verif.Msgdb.acked_is_stored' depends on axioms: [propext, Quot.sound]
'Verif.Msgdb.collision_loses' depends on axioms: [propext, Classical.choice, Quot.sound]
'Verif.Msgdb.cut_put_loses_old' depends on axioms: [propext, Classical.choice, Quot.sound]
'Verif.Msgdb.get_finds_partial' depends on axioms: [propext, Classical.choice, Quot.sound]
'Verif.Msgdb.get_finds_sha256_partial' depends on axioms: [propext, Classical.choice, Quot.sound]
'Verif.Msgdb.get_sound' depends on axioms: [propext, Classical.choice, Quot.sound]
'Verif.Msgdb.idx_sends' depends on axioms: [propext, Classical.choice, Quot.sound]
'Verif.Msgdb.index_covers' depends on axioms: [propext, Classical.choice, Quot.sound]
'Verif.Msgdb.put_del_answers' depends on axioms: [propext, Quot.sound]
'Verif.Msgdb.received_valid' depends on axioms: [propext, Classical.choice, Quot.sound]
'Verif.Msgdb.stored_file' depends on axioms: [propext, Classical.choice, Quot.sound]
'Verif.Msgdb.tidy_removes' depends on axioms: [propext, Classical.choice, Quot.sound]
'Verif.Msgdb.walk_complete' depends on axioms: [propext, Quot.sound]
'Verif.Msgdb.walk_ends_partial' depends on axioms: [propext, Quot.sound]
'Verif.Msgdb.walk_never_ends' depends on axioms: [propext, Quot.sound]
'Verif.Msgdb.zero_in_topic_lost' depends on axioms: [propext, Classical.choice, Quot.sound]
'Verif.Multipart.cut_in_line' depends on axioms: [propext, Classical.choice, Quot.sound]
'Verif.Multipart.end_needed' depends on axioms: [propext, Classical.choice, Quot.sound]
'Verif.Multipart.epilogue_read' depends on axioms: [propext, Classical.choice, Quot.sound]
'Verif.Multipart.form_exact' depends on axioms: [propext, Classical.choice, Quot.sound]
'Verif.Multipart.form_roundtrip_partial' depends on axioms: [propext, Classical.choice, Quot.sound]
'Verif.Multipart.head_searched' depends on axioms: [propext, Classical.choice, Quot.sound]
'Verif.Multipart.late_refused' depends on axioms: [propext, Classical.choice, Quot.sound]
'Verif.Multipart.multipart_any_case' depends on axioms: [propext, Classical.choice, Quot.sound]
'Verif.Multipart.name_cut' depends on axioms: [propext, Classical.choice, Quot.sound]
'Verif.Multipart.name_decoded' depends on axioms: [propext, Classical.choice, Quot.sound]
'Verif.Multipart.name_doubled' depends on axioms: [propext, Classical.choice, Quot.sound]
'Verif.Multipart.name_refused' depends on axioms: [propext, Classical.choice, Quot.sound]
'Verif.Multipart.nameless_lost' depends on axioms: [propext, Classical.choice, Quot.sound]
'Verif.Multipart.no_boundary_empty' depends on axioms: [propext, Classical.choice, Quot.sound]
'Verif.Multipart.nul_lost' depends on axioms: [propext, Classical.choice, Quot.sound]
'Verif.Multipart.padding_hides' depends on axioms: [propext, Classical.choice, Quot.sound]
'Verif.Multipart.receive_nofault' depends on axioms: [propext, Classical.choice, Quot.sound]
'Verif.Multipart.sendable_example' depends on axioms: [propext, Classical.choice, Quot.sound]
'Verif.Multipart.sent_nul_lost' depends on axioms: [propext, Classical.choice, Quot.sound]
'Verif.Multipart.split_exact' depends on axioms: [propext, Classical.choice, Quot.sound]
'Verif.Multipart.subvalue_first' depends on axioms: [propext, Classical.choice, Quot.sound]
'Verif.Multipart.two_fields' depends on axioms: [propext, Classical.choice, Quot.sound]
'Verif.Multipart.type_cut' depends on axioms: [propext, Classical.choice, Quot.sound]
'Verif.Multipart.value_split' depends on axioms: [propext, Classical.choice, Quot.sound]
'Verif.Multipart.values_within' depends on axioms: [propext, Classical.choice, Quot.sound]
'Verif.Mysql.abort_iff' depends on axioms: [propext, Quot.sound]
'Verif.Mysql.blob_column_of_tag' depends on axioms: [propext, Quot.sound]
'Verif.Mysql.blob_columns' depends on axioms: [propext, Quot.sound]
'Verif.Mysql.fixp_never_saved' depends on axioms: [propext, Quot.sound]
'Verif.Mysql.kept_partial' depends on axioms: [propext, Quot.sound]
'Verif.Mysql.lost_without_server' depends on axioms: [propext, Quot.sound]
'Verif.Mysql.lost_without_statement' depends on axioms: [propext, Quot.sound]
'Verif.Mysql.ordered_row' depends on axioms: [propext, Classical.choice, Quot.sound]
'Verif.Mysql.poll_kept' does not depend on any axioms
'Verif.Mysql.saved_iff' depends on axioms: [propext, Quot.sound]
'Verif.Mysql.short_message_aborts' depends on axioms: [propext, Quot.sound]
'Verif.Mysql.statement_exact' depends on axioms: [propext, Quot.sound]
'Verif.Mysql.tagged_row' depends on axioms: [propext, Classical.choice, Quot.sound]
'Verif.Mysql.tagged_safe' depends on axioms: [propext, Quot.sound]
'Verif.Nullsafe.begins_iff' depends on axioms: [propext, Classical.choice, Quot.sound]
'Verif.Nullsafe.binary_iff' depends on axioms: [propext, Classical.choice, Quot.sound]
'Verif.Nullsafe.chr_exact' depends on axioms: [propext, Quot.sound]
'Verif.Nullsafe.cmpto_case_iff' depends on axioms: [propext, Classical.choice, Quot.sound]
'Verif.Nullsafe.cmpto_iff' depends on axioms: [propext, Classical.choice, Quot.sound]
'Verif.Nullsafe.copyto_exact' depends on axioms: [propext, Quot.sound]
'Verif.Nullsafe.find_empty' depends on axioms: [propext, Quot.sound]
'Verif.Nullsafe.find_exact' depends on axioms: [propext, Quot.sound]
'Verif.Nullsafe.parts_unique' depends on axioms: [propext]
'Verif.Nullsafe.print_exact' depends on axioms: [propext, Quot.sound]
'Verif.Nullsafe.split_empty' depends on axioms: [propext, Quot.sound]
'Verif.Nullsafe.split_exact' depends on axioms: [propext, Quot.sound]
'Verif.Nullsafe.trim_exact' depends on axioms: [propext, Quot.sound]
'Verif.Nullsafe.trim_set_exact' depends on axioms: [propext, Quot.sound]
'Verif.Passwd.authenticate_iff' depends on axioms: [propext, Quot.sound]
'Verif.Passwd.blank_in_name' depends on axioms: [propext, Quot.sound]
'Verif.Passwd.check_iff' depends on axioms: [propext, Quot.sound]
'Verif.Passwd.crash' depends on axioms: [propext, Quot.sound]
'Verif.Passwd.encrypted_iff' depends on axioms: [propext, Classical.choice, Quot.sound]
'Verif.Passwd.failure_unseen' depends on axioms: [propext, Classical.choice, Quot.sound]
'Verif.Passwd.installed' depends on axioms: [propext]
'Verif.Passwd.line_in_name' depends on axioms: [propext]
'Verif.Passwd.long_refused' depends on axioms: [propext, Classical.choice, Quot.sound]
'Verif.Passwd.longer_accepted' depends on axioms: [propext, Quot.sound]
'Verif.Passwd.many_permissions' depends on axioms: [propext, Quot.sound]
'Verif.Passwd.moment_without_file' depends on axioms: [propext, Quot.sound]
'Verif.Passwd.newPermissions_mem' depends on axioms: [propext]
'Verif.Passwd.newPermissions_nodup' depends on axioms: [propext]
'Verif.Passwd.old_file_lost' does not depend on any axioms
'Verif.Passwd.others_unchanged_partial' depends on axioms: [propext, Quot.sound]
'Verif.Passwd.plain_exact_partial' depends on axioms: [propext, Classical.choice, Quot.sound]
'Verif.Passwd.plain_prefix' depends on axioms: [propext, Classical.choice, Quot.sound]
'Verif.Passwd.process_iff' depends on axioms: [propext, Quot.sound]
'Verif.Passwd.removed_partial' depends on axioms: [propext, Quot.sound]
'Verif.Passwd.shorter_beyond' depends on axioms: [propext, Quot.sound]
'Verif.Passwd.stored_short' depends on axioms: [propext, Quot.sound]
'Verif.Passwd.updated_partial' depends on axioms: [propext, Quot.sound]
'Verif.Pfifo.many_readers_partial' depends on axioms: [propext, Classical.choice, Quot.sound]
'Verif.Pfifo.memory_partial' depends on axioms: [propext, Classical.choice, Quot.sound]
'Verif.Pfifo.mixed_writes_out_of_order' depends on axioms: [propext, Quot.sound]
'Verif.Pfifo.single_reader' depends on axioms: [propext, Classical.choice, Quot.sound]
'Verif.Pfifo.single_reader_progress' depends on axioms: [propext, Classical.choice, Quot.sound]
'Verif.Pfifo.two_readers_given_twice' depends on axioms: [propext, Quot.sound]
'Verif.Pfifo.two_readers_stop_at_limit' depends on axioms: [propext, Quot.sound]
'Verif.Read.always_on_track' depends on axioms: [propext, Classical.choice, Quot.sound]
'Verif.Read.chunks_irrelevant' depends on axioms: [propext, Classical.choice, Quot.sound]
'Verif.Read.max_size_depends_on_chunks' depends on axioms: [propext]
'Verif.Redirect.absolute_followed' depends on axioms: [propext, Classical.choice, Quot.sound]
'Verif.Redirect.clean_exact' depends on axioms: [propext]
'Verif.Redirect.directory_sent' depends on axioms: [propext, Classical.choice, Quot.sound]
'Verif.Redirect.endpoint_used' depends on axioms: [propext]
'Verif.Redirect.one_slash' depends on axioms: [propext, Quot.sound]
'Verif.Redirect.port_lost' depends on axioms: [propext]
'Verif.Redirect.port_used' depends on axioms: [propext]
'Verif.Redirect.query_not_replaced' depends on axioms: [propext]
'Verif.Redirect.query_only' depends on axioms: [propext]
'Verif.Redirect.redirects_allowed_partial' depends on axioms: [propext, Classical.choice, Quot.sound]
'Verif.Redirect.redirects_bounded' depends on axioms: [propext, Quot.sound]
'Verif.Redirect.relative_fault' depends on axioms: [propext, Classical.choice, Quot.sound]
'Verif.Redirect.relative_partial' depends on axioms: [propext, Classical.choice, Quot.sound]
'Verif.Redirect.rooted_followed' depends on axioms: [propext, Classical.choice, Quot.sound]
'Verif.Redirect.rooted_kept_partial' depends on axioms: [propext, Classical.choice, Quot.sound]
'Verif.Redirect.server_as_endpoint' depends on axioms: [propext]
'Verif.Redirect.server_lost' depends on axioms: [propext]
'Verif.Redirect.single_redirect_refused' depends on axioms: [propext, Quot.sound]
'Verif.Redirect.split_exact' depends on axioms: [propext, Classical.choice, Quot.sound]
'Verif.Redirect.split_roundtrip' depends on axioms: [propext, Classical.choice, Quot.sound]
'Verif.Redirect.split_safe' depends on axioms: [propext, Classical.choice, Quot.sound]
'Verif.Redirect.tool_absolute_followed' depends on axioms: [propext, Classical.choice, Quot.sound]
'Verif.Redirect.tool_redirects_bounded' depends on axioms: [propext, Quot.sound]
'Verif.Redirect.tool_relative_partial' depends on axioms: [propext, Classical.choice, Quot.sound]
'Verif.Redirect.tool_rooted' depends on axioms: [propext, Classical.choice, Quot.sound]
'Verif.Redirect.transport_used' depends on axioms: [propext]
'Verif.Redirect.waiting_error' depends on axioms: [propext, Quot.sound]
'Verif.Redirect.waiting_tried' depends on axioms: [propext, Quot.sound]
'Verif.Route.backstop_fails_if_copied' does not depend on any axioms
'Verif.Route.backstop_fails_if_duplicated' does not depend on any axioms
'Verif.Route.backstop_partial' depends on axioms: [propext, Classical.choice, Quot.sound]
'Verif.Route.every_reader' depends on axioms: [propext, Quot.sound]
'Verif.Route.first_reader' depends on axioms: [propext, Quot.sound]
'Verif.SendLoop.accounted' depends on axioms: [propext, Classical.choice, Quot.sound]
'Verif.SendLoop.all_handed' depends on axioms: [propext, Classical.choice, Quot.sound]
'Verif.SendLoop.file_timeout_kept' depends on axioms: [propext, Classical.choice, Quot.sound]
'Verif.SendLoop.file_timeout_overtaken' depends on axioms: [propext]
'Verif.SendLoop.hard_error_drops' depends on axioms: [propext, Classical.choice, Quot.sound]
'Verif.SendLoop.long_timeout' depends on axioms: [propext, Classical.choice, Quot.sound]
'Verif.SendLoop.nothing_left' depends on axioms: [propext, Classical.choice, Quot.sound]
'Verif.SendLoop.order_preserved' depends on axioms: [propext, Classical.choice, Quot.sound]
'Verif.SendLoop.order_preserved_all' depends on axioms: [propext, Classical.choice, Quot.sound]
'Verif.SendLoop.pending_while_queued' depends on axioms: [propext]
'Verif.SendLoop.reasons_partial' depends on axioms: [propext, Classical.choice, Quot.sound]
'Verif.Session.broker_no_abort' depends on axioms: [propext, Classical.choice, Quot.sound]
'Verif.Session.client_aborts' depends on axioms: [propext, Quot.sound]
'Verif.Session.client_no_abort_partial' depends on axioms: [propext, Classical.choice, Quot.sound]
'Verif.Session.client_sends_expired' depends on axioms: [propext, Quot.sound]
'Verif.Session.clock_set_back' depends on axioms: [propext, Quot.sound]
'Verif.Session.expired_kept' depends on axioms: [propext, Quot.sound]
'Verif.Session.expired_not_counted' depends on axioms: [propext, Quot.sound]
'Verif.Session.failed_transmission_reorders' depends on axioms: [propext, Quot.sound]
'Verif.Session.first_in_order_partial' depends on axioms: [propext, Classical.choice, Quot.sound]
'Verif.Session.identifiers_differ' depends on axioms: [propext, Classical.choice, Quot.sound]
'Verif.Session.in_flight_partial' depends on axioms: [propext, Classical.choice, Quot.sound]
'Verif.Session.kept_until_acknowledged' depends on axioms: [propext, Classical.choice, Quot.sound]
'Verif.Session.not_after_pubrec' depends on axioms: [propext, Classical.choice, Quot.sound]
'Verif.Session.not_sent_when_expired_partial' depends on axioms: [propext, Classical.choice, Quot.sound]
'Verif.Session.qos1_delivered_again' depends on axioms: [propext, Quot.sound]
'Verif.Session.qos1_delivered_before_puback' depends on axioms: [propext, Classical.choice, Quot.sound]
'Verif.Session.qos1_repeat_partial' depends on axioms: [propext, Quot.sound]
'Verif.Session.qos2_at_most_once' depends on axioms: [propext, Classical.choice, Quot.sound]
'Verif.Session.qos2_complete_delivered' depends on axioms: [propext, Classical.choice, Quot.sound]
'Verif.Session.qos2_delivered_on_release' depends on axioms: [propext, Classical.choice, Quot.sound]
'Verif.Session.qos2_exactly_once_partial' depends on axioms: [propext, Classical.choice, Quot.sound]
'Verif.Session.qos2_identifier_in_use' depends on axioms: [propext, Classical.choice, Quot.sound]
'Verif.Session.qos2_once_per_receipt' depends on axioms: [propext, Classical.choice, Quot.sound]
'Verif.Session.qos2_reused_id_lost' depends on axioms: [propext, Quot.sound]
'Verif.Session.quota_exceeded' depends on axioms: [propext, Quot.sound]
'Verif.Session.receive_maximum_one' depends on axioms: [propext, Classical.choice, Quot.sound]
'Verif.Session.repeat_marked' depends on axioms: [propext, Classical.choice, Quot.sound]
'Verif.Session.retained_later' depends on axioms: [propext, Quot.sound]
'Verif.Session.retry_after_partial' depends on axioms: [propext, Classical.choice, Quot.sound]
'Verif.Session.sent_was_queued' depends on axioms: [propext, Classical.choice, Quot.sound]
'Verif.Session.unsent_acknowledged' depends on axioms: [propext, Quot.sound]
'Verif.Settings.decimal_read' depends on axioms: [propext, Classical.choice, Quot.sound]
'Verif.Settings.empty_number' does not depend on any axioms
'Verif.Settings.empty_value_aborts' depends on axioms: [propext]
'Verif.Settings.huge_number' does not depend on any axioms
'Verif.Settings.long_name_leaves' depends on axioms: [propext]
'Verif.Settings.long_value_worker' depends on axioms: [propext]
'Verif.Settings.map_exact' depends on axioms: [propext, Quot.sound]
'Verif.Settings.map_missing' depends on axioms: [propext]
'Verif.Settings.method_message' depends on axioms: [propext]
'Verif.Settings.method_values' depends on axioms: [propext, Classical.choice, Quot.sound]
'Verif.Settings.ms_aborts' depends on axioms: [propext]
'Verif.Settings.ms_exact_partial' depends on axioms: [propext, Classical.choice, Quot.sound]
'Verif.Settings.ms_wraps' depends on axioms: [propext]
'Verif.Settings.names_distinct' depends on axioms: [propext, Classical.choice, Quot.sound]
'Verif.Settings.number_default' depends on axioms: [propext]
'Verif.Settings.number_exact_partial' depends on axioms: [propext, Classical.choice, Quot.sound]
'Verif.Settings.number_refused' depends on axioms: [propext, Quot.sound]
'Verif.Settings.pair_exact' depends on axioms: [propext, Quot.sound]
'Verif.Settings.port_exact' depends on axioms: [propext, Classical.choice, Quot.sound]
'Verif.Settings.port_missing' depends on axioms: [propext]
'Verif.Settings.split_join' depends on axioms: [propext, Classical.choice, Quot.sound]
'Verif.Settings.split_whole' depends on axioms: [propext, Classical.choice, Quot.sound]
'Verif.Settings.splits_agree' depends on axioms: [propext, Classical.choice, Quot.sound]
'Verif.Settings.store_exact_partial' depends on axioms: [propext, Classical.choice, Quot.sound]
'Verif.Settings.topic_exact' depends on axioms: [propext, Classical.choice, Quot.sound]
'Verif.Settings.uint_aborts' does not depend on any axioms
'Verif.Settings.used_exact' depends on axioms: [propext, Classical.choice, Quot.sound]
'Verif.Settings.value_read' depends on axioms: [propext, Quot.sound]
'Verif.Settings.worker_marks' depends on axioms: [propext, Classical.choice, Quot.sound]
'Verif.Settings.worker_others' depends on axioms: [propext, Classical.choice, Quot.sound]
'Verif.Settings.worker_sends' depends on axioms: [propext, Quot.sound]
'Verif.Settings.yesno' depends on axioms: [propext]
'Verif.Settings.yesno_loose' depends on axioms: [propext]
'Verif.Sha1.accept_correct' depends on axioms: [propext, Classical.choice, Quot.sound]
'Verif.Sha1.client_accepts_partial' depends on axioms: [propext, Classical.choice, Quot.sound]
'Verif.Sha1.client_nul' depends on axioms: [propext, Quot.sound]
'Verif.Sha1.handshake' depends on axioms: [propext, Classical.choice, Quot.sound]
'Verif.Sha1.server_answer_sound' depends on axioms: [propext, Classical.choice, Quot.sound]
'Verif.Sha1.server_answers' depends on axioms: [propext, Classical.choice, Quot.sound]
'Verif.Sha1.sha1_correct' depends on axioms: [propext, Classical.choice, Quot.sound]
'Verif.Sha256.calculate_correct' depends on axioms: [propext, Classical.choice, Quot.sound]
'Verif.Sha256.calculate_length' depends on axioms: [propext, Classical.choice, Quot.sound]
'Verif.Sha256.k_eq' depends on axioms: [propext]
'Verif.Sha256.root_spec' depends on axioms: [propext, Quot.sound]
'Verif.Sha256.sha256_correct' depends on axioms: [propext, Classical.choice, Quot.sound]
'Verif.Shm.addresses_apart' depends on axioms: [propext, Classical.choice, Quot.sound]
'Verif.Shm.allocate_new' depends on axioms: [propext, Classical.choice, Quot.sound]
'Verif.Shm.allocate_pointer' depends on axioms: [propext, Classical.choice, Quot.sound]
'Verif.Shm.child_cleanup_nothing' depends on axioms: [propext, Quot.sound]
'Verif.Shm.cleanup_exact_partial' depends on axioms: [propext, Classical.choice, Quot.sound]
'Verif.Shm.cleanup_forgets' depends on axioms: [propext, Quot.sound]
'Verif.Shm.cleanup_forgets_all' depends on axioms: [propext, Classical.choice, Quot.sound]
'Verif.Shm.cleanup_own' depends on axioms: [propext, Quot.sound]
'Verif.Shm.destroy_unlinks' depends on axioms: [propext, Classical.choice, Quot.sound]
'Verif.Shm.free_exact' depends on axioms: [propext, Classical.choice, Quot.sound]
'Verif.Shm.handles_apart' depends on axioms: [propext, Classical.choice, Quot.sound]
'Verif.Shm.map_failure_unseen' depends on axioms: [propext]
'Verif.Shm.no_abort' depends on axioms: [propext, Classical.choice, Quot.sound]
'Verif.Shm.resolve_exact' depends on axioms: [propext, Classical.choice, Quot.sound]
'Verif.Shm.resolve_null_or_right' depends on axioms: [propext, Classical.choice, Quot.sound]
'Verif.Shm.run2_reach' depends on axioms: [propext, Quot.sound]
'Verif.Shm.same_pointer' depends on axioms: [propext, Classical.choice, Quot.sound]
'Verif.Shm.truncate_failure_unseen' depends on axioms: [propext]
'Verif.Shm.versions_wrap' depends on axioms: [propext, Classical.choice, Quot.sound]
'Verif.Shm.zero_size_leaks' depends on axioms: [propext, Quot.sound]
'Verif.Slot.all_read_releases' depends on axioms: [propext, Classical.choice, Quot.sound]
'Verif.Slot.broadcast' depends on axioms: [propext, Classical.choice, Quot.sound]
'Verif.Slot.careful_safe' depends on axioms: [propext, Quot.sound]
'Verif.Slot.collection_races' depends on axioms: [propext]
'Verif.Slot.incref_races' depends on axioms: [propext]
'Verif.Slot.reader_gets' depends on axioms: [propext, Classical.choice, Quot.sound]
'Verif.Slot.too_many' depends on axioms: [propext, Classical.choice, Quot.sound]
'Verif.Slot.write_when_empty' depends on axioms: [propext]
'Verif.Startup.empty_value' does not depend on any axioms
'Verif.Startup.environment_all' depends on axioms: [propext]
'Verif.Startup.environment_cut' depends on axioms: [propext]
'Verif.Startup.environment_false' depends on axioms: [propext]
'Verif.Startup.environment_unlimited' depends on axioms: [propext]
'Verif.Startup.file_exact' depends on axioms: [propext, Quot.sound]
'Verif.Startup.file_in_environment' depends on axioms: [propext, Classical.choice, Quot.sound]
'Verif.Startup.file_line' depends on axioms: [propext, Quot.sound]
'Verif.Startup.flags_only_set' depends on axioms: [propext, Classical.choice, Quot.sound]
'Verif.Startup.inherited' depends on axioms: [propext, Classical.choice, Quot.sound]
'Verif.Startup.nameless_line' depends on axioms: [propext, Quot.sound]
'Verif.Startup.options_bounded_partial' depends on axioms: [propext, Classical.choice, Quot.sound]
'Verif.Startup.quotes_kept' does not depend on any axioms
'Verif.Startup.startup_iff' depends on axioms: [propext, Classical.choice, Quot.sound]
'Verif.Stats.accepted_sendable' depends on axioms: [propext, Classical.choice, Quot.sound]
'Verif.Stats.fresh_value_lost' depends on axioms: [propext]
'Verif.Stats.hasLeaf_iff' depends on axioms: [propext]
'Verif.Stats.insert_accepts_iff' depends on axioms: [propext, Classical.choice, Quot.sound]
'Verif.Stats.message_roundtrip' depends on axioms: [propext, Quot.sound]
'Verif.Stats.printing_overreads' depends on axioms: [propext]
'Verif.Stats.refused_leaves_branch' depends on axioms: [propext]
'Verif.Stats.root_is_leaf' depends on axioms: [propext]
'Verif.Stats.stale_value_stays' depends on axioms: [propext, Classical.choice, Quot.sound]
'Verif.Stats.tree_is_store' depends on axioms: [propext, Classical.choice, Quot.sound]
'Verif.Stats.unpack_overflow_iff' depends on axioms: [propext, Quot.sound]
'Verif.Stats.unpack_overflows' depends on axioms: [propext]
'Verif.Stats.unpack_safe_partial' depends on axioms: [propext, Quot.sound]
'Verif.StrBuild.chop_keeps' does not depend on any axioms
'Verif.StrBuild.content_partial' depends on axioms: [propext, Quot.sound]
'Verif.StrBuild.fails_iff' depends on axioms: [propext, Quot.sound]
'Verif.StrBuild.has_buffer' depends on axioms: [propext, Quot.sound]
'Verif.StrBuild.reserve_unwritten' does not depend on any axioms
'Verif.StrBuild.reserve_wraps' does not depend on any axioms
'Verif.StrBuild.text_partial' depends on axioms: [propext, Quot.sound]
'Verif.Subscription.addUnique_spec' depends on axioms: [propext, Quot.sound]
'Verif.Subscription.appendCopy_refused_reported_ok' depends on axioms: [propext, Quot.sound]
'Verif.Subscription.appendCopy_spec' depends on axioms: [propext, Quot.sound]
'Verif.Subscription.matchPublish_eq' depends on axioms: [propext, Classical.choice, Quot.sound]
'Verif.Subscription.removeMatching_spec' depends on axioms: [propext, Quot.sound]
'Verif.Subscription.removeTopic_spec' depends on axioms: [propext, Quot.sound]
'Verif.Subscription.run_eq_fold' depends on axioms: [propext, Quot.sound]
'Verif.Subscription.run_spec' depends on axioms: [propext, Quot.sound]
'Verif.Threads.Start.forked_before_run' depends on axioms: [propext, Classical.choice, Quot.sound]
'Verif.Threads.Start.forks_overlap_when_stopped' depends on axioms: [propext]
'Verif.Threads.Start.initialized_before_fork' depends on axioms: [propext, Classical.choice, Quot.sound]
'Verif.Threads.Start.one_fork_at_a_time_partial' depends on axioms: [propext, Classical.choice, Quot.sound]
'Verif.Threads.abort_only_ghost' depends on axioms: [propext, Classical.choice, Quot.sound]
'Verif.Threads.free_after_stop' depends on axioms: [propext, Classical.choice, Quot.sound]
'Verif.Threads.free_not_ghost' depends on axioms: [propext, Quot.sound]
'Verif.Threads.ghost_only' depends on axioms: [propext, Quot.sound]
'Verif.Threads.ghost_wakes_aborts' depends on axioms: [propext]
'Verif.Threads.joined_stopped_or_ghost' depends on axioms: [propext, Classical.choice, Quot.sound]
'Verif.Threads.no_use_after_free_partial' depends on axioms: [propext, Classical.choice, Quot.sound]
'Verif.Threads.stop_ends' depends on axioms: [propext, Quot.sound]
'Verif.Threads.stop_heard' depends on axioms: [propext, Quot.sound]
'Verif.Threads.stop_when_tagged_aborts' depends on axioms: [propext]
'Verif.Threads.use_after_free_ghost' depends on axioms: [propext]
'Verif.Threads.use_after_free_not_initialized' depends on axioms: [propext]
'Verif.Threads.well_left_alone' depends on axioms: [propext, Classical.choice, Quot.sound]
'Verif.Topic.acl_admits_iff' depends on axioms: [propext, Classical.choice, Quot.sound]
'Verif.Topic.acl_literal_iff' depends on axioms: [propext, Classical.choice, Quot.sound]
'Verif.Topic.acl_plus_counterexample' depends on axioms: [propext, Classical.choice, Quot.sound]
'Verif.Topic.acl_subscription_contained_partial' depends on axioms: [propext, Classical.choice, Quot.sound]
'Verif.Topic.filterValidateName_empty' depends on axioms: [propext]
'Verif.Topic.filterValidateName_iff' depends on axioms: [propext, Classical.choice, Quot.sound]
'Verif.Topic.matchLinear_eq_matchStr_cstring' depends on axioms: [propext, Classical.choice, Quot.sound]
'Verif.Topic.matchLinear_eq_matchStr_partial' depends on axioms: [propext, Classical.choice, Quot.sound]
'Verif.Topic.matchLinear_no_abort' depends on axioms: [propext, Classical.choice, Quot.sound]
'Verif.Topic.matchLinear_nul_disagrees' depends on axioms: [propext]
'Verif.Topic.matchLinear_reads_past_end' depends on axioms: [propext]
'Verif.Topic.matchStr_iff_partial' depends on axioms: [propext, Classical.choice, Quot.sound]
'Verif.Topic.matchStr_inner_dollar_counterexample' depends on axioms: [propext]
'Verif.Topic.matchStr_no_abort' depends on axioms: [propext, Classical.choice, Quot.sound]
'Verif.Topic.matchStr_parent_counterexample' depends on axioms: [propext]
'Verif.Topic.matchStr_sound' depends on axioms: [propext, Classical.choice, Quot.sound]
'Verif.Topic.tokenize_isLevels' depends on axioms: [propext, Classical.choice, Quot.sound]
'Verif.Topic.tokenize_nil' depends on axioms: [propext]
'Verif.Topic.tokenize_unique' depends on axioms: [propext, Classical.choice, Quot.sound]
'Verif.Topic.tokensClone_tokenize' depends on axioms: [propext, Quot.sound]
'Verif.Topic.validateNameWithEnd_iff' depends on axioms: [propext, Classical.choice, Quot.sound]
'Verif.Topic.validateName_iff' depends on axioms: [propext, Classical.choice, Quot.sound]
'Verif.Types.array_network_roundtrip' depends on axioms: [propext, Classical.choice, Quot.sound]
'Verif.Types.array_overflow' depends on axioms: [propext, Classical.choice, Quot.sound]
'Verif.Types.array_roundtrip_partial' depends on axioms: [propext, Classical.choice, Quot.sound]
'Verif.Types.empty_blob_refused' depends on axioms: [propext, Quot.sound]
'Verif.Types.get64_first_partial' depends on axioms: [propext, Quot.sound]
'Verif.Types.get64_oob' depends on axioms: [propext, Classical.choice, Quot.sound]
'Verif.Types.get64_wrong' depends on axioms: [propext, Quot.sound]
'Verif.Types.has_tag_exact' depends on axioms: [propext, Classical.choice, Quot.sound]
'Verif.Types.has_tag_malformed' depends on axioms: [propext, Quot.sound]
'Verif.Types.import_ints_partial' depends on axioms: [propext, Classical.choice, Quot.sound]
'Verif.Types.import_overflow' depends on axioms: [propext, Classical.choice, Quot.sound]
'Verif.Types.import_too_wide' depends on axioms: [propext, Quot.sound]
'Verif.Types.nested_aborts' depends on axioms: [propext, Classical.choice, Quot.sound]
'Verif.Types.nested_oob' depends on axioms: [propext, Classical.choice, Quot.sound]
'Verif.Types.repack_partial' depends on axioms: [propext, Classical.choice, Quot.sound]
'Verif.Types.repack_vain_aborts' depends on axioms: [propext, Classical.choice, Quot.sound]
'Verif.Types.string_roundtrip' depends on axioms: [propext, Classical.choice, Quot.sound]
'Verif.Types.unpack_safe_partial' depends on axioms: [propext, Quot.sound]
'Verif.Types.unpackable_aborts' depends on axioms: [propext, Quot.sound]
'Verif.Types.value_by_tag_exact' depends on axioms: [propext, Classical.choice, Quot.sound]
'Verif.Udpstream.accept_never_bug' depends on axioms: [propext, Quot.sound]
'Verif.Udpstream.accepted_sound' depends on axioms: [propext, Classical.choice, Quot.sound]
'Verif.Udpstream.ack_roundtrip' depends on axioms: [propext, Quot.sound]
'Verif.Udpstream.address_overflow' depends on axioms: [propext]
'Verif.Udpstream.all_delivered_partial' depends on axioms: [propext, Classical.choice, Quot.sound]
'Verif.Udpstream.burst_limit' depends on axioms: [propext, Quot.sound]
'Verif.Udpstream.connect_answer' depends on axioms: [propext, Classical.choice, Quot.sound]
'Verif.Udpstream.connect_copies' depends on axioms: [propext]
'Verif.Udpstream.connect_roundtrip' depends on axioms: [propext, Quot.sound]
'Verif.Udpstream.control_roundtrip' depends on axioms: [propext, Quot.sound]
'Verif.Udpstream.damaged_checksum_refused' depends on axioms: [propext, Classical.choice, Quot.sound]
'Verif.Udpstream.damaged_refused' depends on axioms: [propext, Classical.choice, Quot.sound]
'Verif.Udpstream.early_frame_read_after_free' depends on axioms: [propext]
'Verif.Udpstream.empty_lost' depends on axioms: [propext, Classical.choice, Quot.sound]
'Verif.Udpstream.frame_roundtrip' depends on axioms: [propext, Quot.sound]
'Verif.Udpstream.hole_resent_partial' depends on axioms: [propext, Classical.choice, Quot.sound]
'Verif.Udpstream.ids_distinct' depends on axioms: [propext, Classical.choice, Quot.sound]
'Verif.Udpstream.in_order' depends on axioms: [propext, Classical.choice, Quot.sound]
'Verif.Udpstream.large_overrun' depends on axioms: [propext, Classical.choice, Quot.sound]
'Verif.Udpstream.lost_never_resent' depends on axioms: [propext, Classical.choice, Quot.sound]
'Verif.Udpstream.never_bug' depends on axioms: [propext, Classical.choice, Quot.sound]
'Verif.Udpstream.nothing_lost' depends on axioms: [propext, Classical.choice, Quot.sound]
'Verif.Udpstream.oldest_resent_partial' depends on axioms: [propext, Quot.sound]
'Verif.Udpstream.other_streams_untouched' depends on axioms: [propext, Classical.choice, Quot.sound]
'Verif.Udpstream.overrun_partial' depends on axioms: [propext, Classical.choice, Quot.sound]
'Verif.Udpstream.packet_memory_partial' depends on axioms: [propext, Classical.choice, Quot.sound]
'Verif.Udpstream.process_never_bug' depends on axioms: [propext, Classical.choice, Quot.sound]
'Verif.Udpstream.queue_wakes' does not depend on any axioms
'Verif.Udpstream.queued_short' depends on axioms: [propext, Quot.sound]
'Verif.Udpstream.regulation_applied' depends on axioms: [propext, Classical.choice, Quot.sound]
'Verif.Udpstream.reordered_first_frames' depends on axioms: [propext]
'Verif.Udpstream.reset_read_after_free' depends on axioms: [propext]
'Verif.Udpstream.reset_roundtrip' depends on axioms: [propext, Quot.sound]
'Verif.Udpstream.resized_refused' depends on axioms: [propext, Classical.choice, Quot.sound]
'Verif.Udpstream.window_range' depends on axioms: [propext, Classical.choice, Quot.sound]
'Verif.Udpstream.window_stall' depends on axioms: [propext, Quot.sound]
'Verif.Uri.hostParse_iff' depends on axioms: [propext, Classical.choice, Quot.sound]
'Verif.Uri.never_wss' depends on axioms: [propext]
'Verif.Uri.reads_beyond' depends on axioms: [propext]
'Verif.Uri.right_refused' depends on axioms: [propext]
'Verif.Uri.uri_exact' depends on axioms: [propext, Classical.choice, Quot.sound]
'Verif.Uri.uri_parts_partial' depends on axioms: [propext, Classical.choice, Quot.sound]
'Verif.Uri.uri_safe_partial' depends on axioms: [propext, Classical.choice, Quot.sound]
'Verif.Uri.wrong_accepted' depends on axioms: [propext]
'Verif.Uri.wss_is_plain' depends on axioms: [propext]
'Verif.Utf8.validateAndIterate_eq' depends on axioms: [propext, Classical.choice, Quot.sound]
'Verif.Utf8.validateAndIterate_reject' depends on axioms: [propext, Classical.choice, Quot.sound]
'Verif.Utf8.validate_accepts_garbage_after_nul' depends on axioms: [propext, Quot.sound]
'Verif.Utf8.validate_iff' depends on axioms: [propext, Classical.choice, Quot.sound]
'Verif.Utf8.validate_iff_of_no_nul' depends on axioms: [propext, Classical.choice, Quot.sound]
'Verif.Wake.amounts' depends on axioms: [propext, Classical.choice, Quot.sound]
'Verif.Wake.awake_partial' depends on axioms: [propext, Classical.choice, Quot.sound]
'Verif.Wake.awake_unless_paused_partial' depends on axioms: [propext, Classical.choice, Quot.sound]
'Verif.Wake.drains_partial' depends on axioms: [propext, Classical.choice, Quot.sound]
'Verif.Wake.failed_collection_notified' depends on axioms: [propext, Quot.sound]
'Verif.Wake.failed_write_not_notified' depends on axioms: [propext, Quot.sound]
'Verif.Wake.pause_loses_wakeup' depends on axioms: [propext, Quot.sound]
'Verif.Wake.shared_loses_wakeup' depends on axioms: [propext, Quot.sound]
'Verif.Wake.told_exactly_partial' depends on axioms: [propext, Classical.choice, Quot.sound]
'Verif.Websocket.any_bytes_partial' depends on axioms: [propext, Classical.choice, Quot.sound]
'Verif.Websocket.bad_frame_refused' depends on axioms: [propext, Classical.choice, Quot.sound]
'Verif.Websocket.control_between_fragments' depends on axioms: [propext, Quot.sound]
'Verif.Websocket.frame_roundtrip' depends on axioms: [propext, Classical.choice, Quot.sound]
'Verif.Websocket.frame_size_partial' depends on axioms: [propext, Classical.choice, Quot.sound]
'Verif.Websocket.frame_too_large' depends on axioms: [propext, Classical.choice, Quot.sound]
'Verif.Websocket.header_incomplete' depends on axioms: [propext, Classical.choice, Quot.sound]
'Verif.Websocket.messages_delivered_partial' depends on axioms: [propext, Classical.choice, Quot.sound]
'Verif.Websocket.sent_delivered' depends on axioms: [propext, Classical.choice, Quot.sound]
'Verif.Websocket.sent_header_incomplete' depends on axioms: [propext, Classical.choice, Quot.sound]
'Verif.Websocket.size_below_header_breaks' depends on axioms: [propext, Quot.sound]
'Verif.Websocket.size_zero_aborts' depends on axioms: [propext, Quot.sound]
'Verif.Websocket.stray_continuation' depends on axioms: [propext, Quot.sound]

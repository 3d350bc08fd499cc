{"claims": [{"property": "C01", "status": "proved", "theorems": ["KP2P.C01_window_exact", "KP2P.C01_log_meaning", "KP2P.C01_single", "KP2P.C01_new_twice_apart"], "note": ""},
{"property": "C02", "status": "proved", "theorems": ["KP2P.C02_no_panic_no_stale", "KP2P.C02_keeps_live"], "note": ""},
{"property": "C03", "status": "partial", "theorems": ["KP2P.C03_decisions_apart_partial", "KP2P.C03_submission_decided_partial", "KP2P.C03_rate_partial", "KP2P.C03_block_partial", "KP2P.C03_no_panic_partial", "KP2P.C03_submissions_refuted", "KP2P.C03_blocks_refuted"], "note": "Refuted for the instants of submission (C03_submissions_refuted) and for blocks whose transactions were already cached (C03_blocks_refuted); proved for the decisions to submit, the submission rate, and blocks with uncached transactions."},
{"property": "C04", "status": "partial", "theorems": ["KP2P.C04_success_partial", "KP2P.C04_success_refuted"], "note": "Refuted (C04_success_refuted); proved: accepted or already in the cache."},
{"property": "C05", "status": "proved", "theorems": ["KP2P.C05_threshold_exact", "KP2P.C05_raw", "KP2P.C05_repeat_harmless", "KP2P.C05_other_slots_irrelevant"], "note": ""},
{"property": "C06", "status": "proved", "theorems": ["KP2P.C06_purge_forgets", "KP2P.C06_purge_keeps", "KP2P.C06_purge_clears"], "note": ""},
{"property": "C07", "status": "proved", "theorems": ["KP2P.C07_memory_bound", "KP2P.C07_memory_exact", "KP2P.C07_no_constant_bound"], "note": "Upper bound, exact contents and the absence of a constant bound are all proved."},
{"property": "C08", "status": "proved", "theorems": ["KP2P.C08_exactly_once", "KP2P.C08_only_requests", "KP2P.C08_held_by_one", "KP2P.C08_caller_returns_once", "KP2P.C08_answer_delivered", "KP2P.C08_returned_value"], "note": ""},
{"property": "C09", "status": "proved", "theorems": ["KP2P.C09_one_submission", "KP2P.C09_no_concurrent"], "note": ""},
{"property": "C10", "status": "partial", "theorems": ["KP2P.C10_decision_partial", "KP2P.C10_outdated_job", "KP2P.C10_compared_partial", "KP2P.C10_verdict_after_call", "KP2P.C10_race_refuted"], "note": "Refuted at the moment of the call (C10_race_refuted): the irreversible height may advance between the comparison and the call. Proved for the moment of the comparison (C10_decision_partial, C10_outdated_job) and that nothing but updates in between can make the difference (C10_compared_partial)."},
{"property": "C11", "status": "proved", "theorems": ["KP2P.C11_above_lib", "KP2P.C11_evicts_exactly", "KP2P.C11_answers_exactly"], "note": ""},
{"property": "C12", "status": "proved", "theorems": ["KP2P.C12_bounded"], "note": ""},
{"property": "C13", "status": "partial", "theorems": ["KP2P.C13_effect", "KP2P.C13_admission_partial", "KP2P.C13_admission_refuted"], "note": "Refuted at the 64-bit boundary (C13_admission_refuted); decision proved below it, effect of the decision proved for every state (C13_effect)."},
{"property": "C14", "status": "partial", "theorems": ["KP2P.C14_accepted_partial", "KP2P.C14_accepted_refuted"], "note": "Refuted (C14_accepted_refuted); proved when no waiting time-out fired for the id."},
{"property": "C15", "status": "partial", "theorems": ["KP2P.C15_own_verdict_partial", "KP2P.C15_own_verdict_refuted", "KP2P.C15_forged_success_refuted"], "note": "Refuted both ways (C15_own_verdict_refuted, C15_forged_success_refuted); proved when all requests with the id carry identical contents."},
{"property": "C16", "status": "proved", "theorems": ["KP2P.C16_justified", "KP2P.C16_counted"], "note": ""},
{"property": "C17", "status": "proved", "theorems": ["KP2P.C17_broadcast", "KP2P.C17_fork_heads", "KP2P.C17_applied", "KP2P.C17_children", "KP2P.C17_forced"], "note": ""},
{"property": "C18", "status": "partial", "theorems": ["KP2P.C18_wakeup_fair_partial", "KP2P.C18_wakeup_partial", "KP2P.C18_can_complete_partial", "KP2P.C18_wakeup_refuted"], "note": "Refuted for blocks older than the force threshold (C18_wakeup_refuted); for recent blocks the wake-up is never dropped and can always complete. Liveness is stated as possibility, and under weak fairness in C18_wakeup_fair_partial."},
{"property": "C19", "status": "partial", "theorems": ["KP2P.C19_delay_partial", "KP2P.C19_delay_whole_seconds", "KP2P.C19_delay_refuted"], "note": "Refuted by less than one second (C19_delay_refuted); proved with one second of slack and exactly for whole seconds."},
{"property": "C20", "status": "proved", "theorems": ["KP2P.C20_verdict"], "note": ""},
{"property": "C21", "status": "proved", "theorems": ["KP2P.C21_not_abandoned", "KP2P.C21_deferred"], "note": ""},
{"property": "C22", "status": "proved", "theorems": ["KP2P.C22_tables", "KP2P.C22_empty"], "note": ""},
{"property": "C23", "status": "proved", "theorems": ["KP2P.C23_isolation", "KP2P.C23_other_addresses", "KP2P.C23_shared"], "note": ""},
{"property": "C24", "status": "proved", "theorems": ["KP2P.C24_disconnect_iff", "KP2P.C24_disconnect_nat"], "note": ""},
{"property": "C25", "status": "proved", "theorems": ["KP2P.C25_allowed_iff", "KP2P.C25_no_record", "KP2P.C25_stays_allowed", "KP2P.C25_gater"], "note": ""},
{"property": "C26", "status": "proved", "theorems": ["KP2P.C26_severe_disconnects", "KP2P.C26_ban_exact", "KP2P.C26_ban_at_most", "KP2P.C26_ban_rounded"], "note": "Exact real arithmetic, and (C26_ban_rounded) every decay computed with relative error at most 2^-42, where the instant of exactly two half-lives itself is left open. IEEE arithmetic itself is not modelled."},
{"property": "C27", "status": "partial", "theorems": ["KP2P.C27_halflife_law", "KP2P.C27_reads_bounds_partial", "KP2P.C27_every_read_costs", "KP2P.C27_decay_refuted"], "note": "Refuted as stated (every read truncates, C27_every_read_costs, C27_decay_refuted); bounds with reads in between proved over exact real arithmetic; C80 gives the same law with a relative rounding error per read."},
{"property": "C28", "status": "proved", "theorems": ["KP2P.C28_bounded_by_sum", "KP2P.C28_no_wrap", "KP2P.C28_wrap_beyond"], "note": ""},
{"property": "C29", "status": "proved", "theorems": ["KP2P.C29_classification", "KP2P.C29_wrapping"], "note": ""},
{"property": "C30", "status": "partial", "theorems": ["KP2P.C30_known_address_partial", "KP2P.C30_accountability_refuted"], "note": "Refuted as stated: errors of peers without a tracked connection are dropped (C30_accountability_refuted); proved for known addresses."},
{"property": "C31", "status": "proved", "theorems": ["KP2P.C31_scoring", "KP2P.C31_ignored_is_refused", "KP2P.C31_by_peer"], "note": ""},
{"property": "C32", "status": "proved", "theorems": ["KP2P.C32_decision", "KP2P.C32_only_ticks", "KP2P.C32_wraps_beyond"], "note": ""},
{"property": "C33", "status": "proved", "theorems": ["KP2P.C33_alternating", "KP2P.C33_always_enable", "KP2P.C33_always_disable", "KP2P.C33_force_wins", "KP2P.C33_switches"], "note": ""},
{"property": "C34", "status": "partial", "theorems": ["KP2P.C34_queries_partial", "KP2P.C34_exact", "KP2P.C34_queries_refuted"], "note": "Refuted as stated for peers with two simultaneous connections (C34_queries_refuted); exact behaviour (C34_exact) and agreement under single connections proved."},
{"property": "C35", "status": "proved", "theorems": ["KP2P.C35_one_session", "KP2P.C35_never_revived", "KP2P.C35_no_second_session", "KP2P.C35_shutdown"], "note": ""},
{"property": "C36", "status": "partial", "theorems": ["KP2P.C36_serves_refuted", "KP2P.C36_serves_partial", "KP2P.C36_accounted"], "note": "Refuted when a peer is already connected at start-up (C36_serves_refuted, for all executions); proved otherwise."},
{"property": "C37", "status": "proved", "theorems": ["KP2P.C37_admits_exactly", "KP2P.C37_errors", "KP2P.C37_version", "KP2P.C37_only_questions"], "note": ""},
{"property": "C38", "status": "proved", "theorems": ["KP2P.C38_first_conclusive", "KP2P.C38_verdict_unique", "KP2P.C38_missing", "KP2P.C38_missing_only", "KP2P.C38_own_accepted", "KP2P.C38_middle_ignored"], "note": ""},
{"property": "C39", "status": "proved", "theorems": ["KP2P.C39_window", "KP2P.C39_count", "KP2P.C39_once"], "note": ""},
{"property": "C40", "status": "proved", "theorems": ["KP2P.C40_in_order", "KP2P.C40_class"], "note": ""},
{"property": "C41", "status": "partial", "theorems": ["KP2P.C41_header_crash_partial", "KP2P.C41_no_crash_partial", "KP2P.C41_no_crash_refuted"], "note": "Refuted: one block without header crashes the process whatever the options (C41_no_crash_refuted); no crash proved when all blocks carry a header, the reply has the requested length and the batch size is positive and below 2^32."},
{"property": "C42", "status": "proved", "theorems": ["KP2P.C42_after_fetch", "KP2P.C42_nothing_to_do", "KP2P.C42_failed", "KP2P.C42_session"], "note": ""},
{"property": "C43", "status": "partial", "theorems": ["KP2P.C43_no_round_before_handshake_partial", "KP2P.C43_no_second_handshake_partial", "KP2P.C43_rounds_need_match_partial", "KP2P.C43_one_report_per_failure_partial", "KP2P.C43_quiet_after_end_partial", "KP2P.C43_can_end_partial", "KP2P.C43_quiet_refuted", "KP2P.C43_ends_only_cancelled"], "note": "Refuted for the moment of cancellation (C43_quiet_refuted); proved otherwise."},
{"property": "C44", "status": "proved", "theorems": ["KP2P.C44_exact", "KP2P.C44_errors", "KP2P.C44_honest", "KP2P.C44_honest_answers"], "note": ""},
{"property": "C45", "status": "proved", "theorems": ["KP2P.C45_class", "KP2P.C45_fails_iff"], "note": ""},
{"property": "C46", "status": "proved", "theorems": ["KP2P.C46_block_ok", "KP2P.C46_block_errors", "KP2P.C46_transaction_ok", "KP2P.C46_transaction_errors", "KP2P.C46_exhaustive"], "note": ""},
{"property": "C47", "status": "partial", "theorems": ["KP2P.C47_ok_iff", "KP2P.C47_errors", "KP2P.C47_probes", "KP2P.C47_class_refuted", "KP2P.C47_class_partial"], "note": "Refuted for requests above 512 MiB (C47_class_refuted); proved for every other failure."},
{"property": "C48", "status": "proved", "theorems": ["KP2P.C48_accept_iff", "KP2P.C48_applied_iff", "KP2P.C48_no_crash", "KP2P.C48_report"], "note": ""},
{"property": "C49", "status": "partial", "theorems": ["KP2P.C49_fork_bomb_refuted", "KP2P.C49_not_relayed_partial"], "note": "Refuted for every message (C49_fork_bomb_refuted); proved that fork bombs are not relayed."},
{"property": "C50", "status": "partial", "theorems": ["KP2P.C50_unpunished_refuted", "KP2P.C50_below_partial"], "note": "Refuted at the irreversible height itself and when irreversibility advances meanwhile (C50_unpunished_refuted); proved strictly below."},
{"property": "C51", "status": "proved", "theorems": ["KP2P.C51_accept_iff", "KP2P.C51_blame", "KP2P.C51_applied_iff"], "note": ""},
{"property": "C52", "status": "partial", "theorems": ["KP2P.C52_quiet_refuted", "KP2P.C52_quiet_partial", "KP2P.C52_published_partial", "KP2P.C52_never_started_partial"], "note": "Refuted for a stop right after a start (C52_quiet_refuted); proved when the starts have completed before the stop."},
{"property": "C53", "status": "partial", "theorems": ["KP2P.C53_crash_refuted", "KP2P.C53_late_message_refuted", "KP2P.C53_needs_stop_partial", "KP2P.C53_orderly_partial", "KP2P.C53_pointer_partial"], "note": "Refuted (C53_crash_refuted, C53_late_message_refuted); proved while gossip is never stopped and when readers end before listeners."},
{"property": "C54", "status": "proved", "theorems": ["KP2P.C54_answer"], "note": ""},
{"property": "C55", "status": "proved", "theorems": ["KP2P.C55_id_iff", "KP2P.C55_same_payload", "KP2P.C55_encoding", "KP2P.C55_other_topic"], "note": ""},
{"property": "C56", "status": "proved", "theorems": ["KP2P.C56_deterministic", "KP2P.C56_eight_bytes", "KP2P.C56_number_injective"], "note": ""},
{"property": "C57", "status": "partial", "theorems": ["KP2P.C57_agree_refuted", "KP2P.C57_agree_partial", "KP2P.C57_known_partial", "KP2P.C57_applicator_lib_partial"], "note": "Refuted for two updates delivered in the wrong order (C57_agree_refuted); proved in order, and the applicator only ever holds heights that were announced."},
{"property": "C58", "status": "partial", "theorems": ["KP2P.C58_well_formed_partial", "KP2P.C58_list_partial", "KP2P.C58_malformed_refuted", "KP2P.C58_rejects_refuted", "KP2P.C58_missing_colon_refuted", "KP2P.C58_lockout_refuted"], "note": "Refuted for malformed options (C58_malformed_refuted, C58_missing_colon_refuted, C58_lockout_refuted); proved for well-formed ones."},
{"property": "C59", "status": "proved", "theorems": ["KP2P.C59_terminates", "KP2P.C59_visits", "KP2P.C59_hangs"], "note": ""},
{"property": "C60", "status": "proved", "theorems": ["KP2P.C60_round", "KP2P.C60_each_once", "KP2P.C60_ten_seconds", "KP2P.C60_again"], "note": ""},
{"property": "C61", "status": "partial", "theorems": ["KP2P.C61_abandoned_query_refuted", "KP2P.C61_abandoned_query_reachable", "KP2P.C61_reply_partial"], "note": "Refuted (C61_abandoned_query_refuted, C61_abandoned_query_reachable); proved while no caller gives up after acceptance."},
{"property": "C62", "status": "partial", "theorems": ["KP2P.C62_redial_ends_refuted", "KP2P.C62_redial_blocks"], "note": "Refuted (C62_redial_ends_refuted, C62_redial_blocks)."},
{"property": "C63", "status": "partial", "theorems": ["KP2P.C63_deferred_partial", "KP2P.C63_deferred_refuted"], "note": "Refuted (C63_deferred_refuted); proved when the application ends without error."},
{"property": "C64", "status": "partial", "theorems": ["KP2P.C64_outdated_partial", "KP2P.C64_outdated_refuted"], "note": "Refuted for reused ids (C64_outdated_refuted); proved when the ids are used consistently."},
{"property": "C65", "status": "proved", "theorems": ["KP2P.C65_exactly_once", "KP2P.C65_answer_is_verdict", "KP2P.C65_returned_value", "KP2P.C65_returns_once"], "note": ""},
{"property": "C66", "status": "partial", "theorems": ["KP2P.C66_timeout_refuted", "KP2P.C66_mismatch_partial"], "note": "Refuted for every timed-out chain id query (C66_timeout_refuted); proved when all questions are answered."},
{"property": "C67", "status": "partial", "theorems": ["KP2P.C67_bounded_refuted", "KP2P.C67_as_asked_partial"], "note": "Refuted for every bound (C67_bounded_refuted); the reply is exactly what the block store returns."},
{"property": "C68", "status": "partial", "theorems": ["KP2P.C68_own_failure_refuted", "KP2P.C68_not_handed_partial"], "note": "Refuted (C68_own_failure_refuted); proved for blocks that are never handed to the applicator."},
{"property": "C69", "status": "partial", "theorems": ["KP2P.C69_key_space_refuted", "KP2P.C69_collision_refuted", "KP2P.C69_distinct_partial"], "note": "Refuted for every digest (C69_key_space_refuted, C69_collision_refuted); seeds in the range of the source are kept apart."},
{"property": "C70", "status": "partial", "theorems": ["KP2P.C70_bad_peer_refuted", "KP2P.C70_good_peers_partial"], "note": "Refuted (C70_bad_peer_refuted); proved for options that parse."},
{"property": "C71", "status": "partial", "theorems": ["KP2P.C71_crash_refuted", "KP2P.C71_effects_partial"], "note": "Refuted (C71_crash_refuted); effects proved for complete broadcasts."},
{"property": "C72", "status": "proved", "theorems": ["KP2P.C72_tariff", "KP2P.C72_own_failures_free", "KP2P.C72_tolerance", "KP2P.C72_one_hour"], "note": ""},
{"property": "C73", "status": "proved", "theorems": ["KP2P.C73_refused_exactly", "KP2P.C73_only_accepted"], "note": ""},
{"property": "C74", "status": "proved", "theorems": ["KP2P.C74_highest", "KP2P.C74_too_high"], "note": ""},
{"property": "C75", "status": "proved", "theorems": ["KP2P.C75_no_delay", "KP2P.C75_released", "KP2P.C75_bounded"], "note": ""},
{"property": "C76", "status": "proved", "theorems": ["KP2P.C76_waiting", "KP2P.C76_height", "KP2P.C76_full", "KP2P.C76_delay", "KP2P.C76_batch", "KP2P.C76_synced"], "note": ""},
{"property": "C77", "status": "proved", "theorems": ["KP2P.C77_ancestor", "KP2P.C77_chain", "KP2P.C77_blocks"], "note": ""},
{"property": "C78", "status": "proved", "theorems": ["KP2P.C78_handshake", "KP2P.C78_mutual", "KP2P.C78_round"], "note": ""},
{"property": "C79", "status": "partial", "theorems": ["KP2P.C79_follow_partial", "KP2P.C79_stuck_partial", "KP2P.C79_progress_refuted", "KP2P.C79_news_partial", "KP2P.C79_catch_up_partial"], "note": "Refuted for every batch size below 2^63 (C79_progress_refuted, C79_stuck_partial for all rounds); proved while irreversibility is less than a batch behind."},
{"property": "C80", "status": "proved", "theorems": ["KP2P.C80_score", "KP2P.C80_score_exact"], "note": ""},
{"property": "C81", "status": "proved", "theorems": ["KP2P.C81_persistent", "KP2P.C81_occasional", "KP2P.C81_default"], "note": ""},
{"property": "C82", "status": "proved", "theorems": ["KP2P.C82_pause", "KP2P.C82_sleep_by_status", "KP2P.C82_rate", "KP2P.C82_default_rate", "KP2P.C82_goes_on", "KP2P.C82_wait_length", "KP2P.C82_default_lengths", "KP2P.C82_only_pauses"], "note": ""},
{"property": "C83", "status": "partial", "theorems": ["KP2P.C83_concurrency_partial", "KP2P.C83_all_stuck_partial", "KP2P.C83_lost_replies_refuted", "KP2P.C83_free_worker_partial"], "note": "Refuted for every number of workers (C83_lost_replies_refuted); bound on outstanding calls and progress with a free worker proved."},
{"property": "C84", "status": "proved", "theorems": ["KP2P.C84_overtaking", "KP2P.C84_blocks_first"], "note": ""},
{"property": "C85", "status": "partial", "theorems": ["KP2P.C85_starvation_refuted", "KP2P.C85_turn_partial", "KP2P.C85_fair_partial", "KP2P.C85_sent_partial"], "note": "Refuted for every bound (C85_starvation_refuted); proved when no block waits, and, with one worker served fairly, once no more blocks arrive (C85_fair_partial)."},
{"property": "C86", "status": "proved", "theorems": ["KP2P.C86_gate_answers"], "note": ""},
{"property": "C87", "status": "partial", "theorems": ["KP2P.C87_silent_partial", "KP2P.C87_independent_refuted", "KP2P.C87_idle_partial", "KP2P.C87_address_partial"], "note": "Refuted (C87_independent_refuted, C87_silent_partial for all continuations); proved while no error is being handled."},
{"property": "C88", "status": "proved", "theorems": ["KP2P.C88_closed_until_start", "KP2P.C88_opens"], "note": ""},
{"property": "C89", "status": "partial", "theorems": ["KP2P.C89_peer_query_refuted", "KP2P.C89_after_construction_partial"], "note": "Refuted for the construction interval (C89_peer_query_refuted); proved after construction. Whether libp2p calls the gater in that interval is not modelled."},
{"property": "C90", "status": "proved", "theorems": ["KP2P.C90_comes_to_rest", "KP2P.C90_every_request"], "note": ""},
{"property": "C91", "status": "partial", "theorems": ["KP2P.C91_paced_refuted", "KP2P.C91_bounded_partial"], "note": "Refuted (C91_paced_refuted; stateRounds_run for all options); proved that submissions end without the block-state error and without input."},
{"property": "C92", "status": "partial", "theorems": ["KP2P.C92_one_record_partial", "KP2P.C92_bounded_refuted"], "note": "Refuted for all options and decays (C92_bounded_refuted); exact count proved."},
{"property": "C93", "status": "partial", "theorems": ["KP2P.C93_overwritten_refuted", "KP2P.C93_gap_refuted", "KP2P.C93_settles_partial", "KP2P.C93_in_order_partial"], "note": "Refuted (C93_overwritten_refuted, C93_gap_refuted for every gap); repaired by the next advance, and correct in order."},
{"property": "C94", "status": "proved", "theorems": ["KP2P.C94_known_when_asked"], "note": ""},
{"property": "C95", "status": "proved", "theorems": ["KP2P.C95_blocks_served", "KP2P.C95_nothing_lost", "KP2P.C95_sent_served"], "note": ""},
{"property": "C96", "status": "proved", "theorems": ["KP2P.C96_every_call_returns"], "note": ""},
{"property": "C97", "status": "partial", "theorems": ["KP2P.C97_offender_gone_partial", "KP2P.C97_kept_out_partial", "KP2P.C97_half_hour_partial", "KP2P.C97_banned_refuted", "KP2P.C97_slips_in_refuted", "KP2P.C97_neighbour_stays_refuted"], "note": "Refuted for other peers at the address (C97_banned_refuted for every decay law, C97_neighbour_stays_refuted for all continuations) and for connections that were just being established (C97_slips_in_refuted); proved for the offending peer and for new connections (C97_kept_out_partial, C97_half_hour_partial with exact real decay, 64-bit overflow excluded)."},
{"property": "C98", "status": "partial", "theorems": ["KP2P.C98_same_peer_partial", "KP2P.C98_one_host_partial", "KP2P.C98_amount", "KP2P.C98_origin_refuted"], "note": "Refuted for peers that change hosts (C98_origin_refuted); proved for peers connected from one host, and that the address is always one of the same peer."},
{"property": "C99", "status": "partial", "theorems": ["KP2P.C99_cause_partial", "KP2P.C99_own_fault_refuted", "KP2P.C99_one_each"], "note": "Refuted (C99_own_fault_refuted, for every decay law that keeps a score when no time passes, as realDecay_now shows of the real one); proved that a charged error of the peer met the limit."},
{"property": "C100", "status": "partial", "theorems": ["KP2P.C100_immune_refuted", "KP2P.C100_immunity_refuted", "KP2P.C100_tracked_partial"], "note": "Refuted (C100_immunity_refuted reaches the state, C100_immune_refuted for all continuations); proved while the peer is tracked."},
{"property": "C101", "status": "proved", "theorems": ["KP2P.C101_dealt_with", "KP2P.C101_disconnected", "KP2P.C101_once", "KP2P.C101_reported"], "note": ""},
{"property": "C102", "status": "partial", "theorems": ["KP2P.C102_established_partial", "KP2P.C102_allowed_partial", "KP2P.C102_refused", "KP2P.C102_all_let_in", "KP2P.C102_announced", "KP2P.C102_window_refuted", "KP2P.C102_decided_once"], "note": "Refuted at the instant of establishment: an address may be banned after the last question and before the connection is established (C102_window_refuted); proved for the instant of the last question, for refusals, and for everything else claimed."},
{"property": "C103", "status": "proved", "theorems": ["KP2P.C103_can_receive", "KP2P.C103_settles", "KP2P.C103_connections", "KP2P.C103_no_ghosts", "KP2P.C103_tracked"], "note": ""},
{"property": "C104", "status": "proved", "theorems": ["KP2P.C104_paced"], "note": ""},
{"property": "C105", "status": "proved", "theorems": ["KP2P.C105_one_reader"], "note": ""},
{"property": "C106", "status": "partial", "theorems": ["KP2P.C106_ends_with_context_refuted", "KP2P.C106_room_partial", "KP2P.C106_only_sending_partial", "KP2P.C106_lost_partial", "KP2P.C106_after_end_partial", "KP2P.C106_no_deadline_partial", "KP2P.C106_served_partial", "KP2P.C106_reason_partial", "KP2P.C106_once_partial"], "note": "Refuted for every channel size (C106_ends_with_context_refuted; C106_lost_partial, C106_after_end_partial, C106_no_deadline_partial for all continuations); proved with room in the channel, and under fairness while the loop receives."},
{"property": "C107", "status": "proved", "theorems": ["KP2P.C107_handshake", "KP2P.C107_round", "KP2P.C107_never_accused"], "note": ""},
{"property": "C108", "status": "proved", "theorems": ["KP2P.C108_kept_outside"], "note": ""},
{"property": "C109", "status": "proved", "theorems": ["KP2P.C109_at_most_one_more", "KP2P.C109_cancel_heard", "KP2P.C109_ends", "KP2P.C109_nothing_left"], "note": ""},
{"property": "C110", "status": "partial", "theorems": ["KP2P.C110_ends_partial", "KP2P.C110_all_cancelled_partial", "KP2P.C110_nothing_left_partial", "KP2P.C110_second_start_refuted"], "note": "Refuted without alternation of starts and stops (C110_second_start_refuted); with it all contexts are cancelled (C110_all_cancelled_partial) and everything ends under fairness (C110_nothing_left_partial), unless the process crashes as in C53."},
{"property": "C111", "status": "partial", "theorems": ["KP2P.C111_not_forgotten_partial", "KP2P.C111_settles", "KP2P.C111_in_the_end_partial", "KP2P.C111_lost_reply_refuted", "KP2P.C111_leftover_refuted", "KP2P.C111_old_block_refuted"], "note": "Refuted for lost replies, left-over applications and old blocks (C111_lost_reply_refuted, C111_leftover_refuted, C111_old_block_refuted); proved for every execution without these, at rest (C111_not_forgotten_partial) and in the end under fairness (C111_in_the_end_partial)."},
{"property": "C112", "status": "partial", "theorems": ["KP2P.C112_status", "KP2P.C112_topics_partial", "KP2P.C112_late_start_refuted", "KP2P.C112_switch_ends", "KP2P.C112_follows_toggle", "KP2P.C112_toggle_stays"], "note": "Status, contexts and the end of every switch proved for all executions before Close (C112_status, C112_switch_ends); for the topics refuted when a start-up goroutine runs late (C112_late_start_refuted), proved otherwise (C112_topics_partial)."},
{"property": "C113", "status": "partial", "theorems": ["KP2P.C113_orderly_partial", "KP2P.C113_silent_partial", "KP2P.C113_again_refuted", "KP2P.C113_status_refuted", "KP2P.C113_panic_refuted", "KP2P.C113_context_end"], "note": "Refuted three ways (C113_again_refuted, C113_status_refuted, C113_panic_refuted); proved, but for the status RPC, when the toggle has returned before Close (C113_orderly_partial, C113_silent_partial)."},
{"property": "C114", "status": "proved", "theorems": ["KP2P.C114_conserved", "KP2P.C114_exact", "KP2P.C114_no_empty_report", "KP2P.C114_reporters", "KP2P.C114_reported", "KP2P.C114_reporter_ends"], "note": ""},
{"property": "C115", "status": "partial", "theorems": ["KP2P.C115_connected_partial", "KP2P.C115_disconnected_partial", "KP2P.C115_returns_partial", "KP2P.C115_closed", "KP2P.C115_once", "KP2P.C115_never_refuted", "KP2P.C115_context_refuted", "KP2P.C115_query_refuted", "KP2P.C115_started_refuted"], "note": "Refuted three ways (C115_context_refuted, C115_query_refuted, C115_started_refuted; C115_never_refuted for all continuations); proved under fairness while the manager serves. That the host waits for the callbacks is an assumption about libp2p, stated in Model/NodeClose."},
{"property": "C116", "status": "partial", "theorems": ["KP2P.C116_same_score_partial", "KP2P.C116_key_partial", "KP2P.C116_others_partial", "KP2P.C116_relay_banned_refuted", "KP2P.C116_relay_refuted", "KP2P.C116_zone_refuted"], "note": "Refuted for relays (C116_relay_refuted, C116_relay_banned_refuted for every relay) and zones (C116_zone_refuted); proved for plain addresses. The form of relayed addresses is an assumption about libp2p."},
{"property": "C117", "status": "partial", "theorems": ["KP2P.C117_few", "KP2P.C117_many", "KP2P.C117_own", "KP2P.C117_adds_up_refuted", "KP2P.C117_negative_refuted", "KP2P.C117_panic_refuted", "KP2P.C117_safe"], "note": "Refuted for every list of twelve or more (C117_adds_up_refuted), for a changing one (C117_negative_refuted) and without address (C117_panic_refuted); the lists are proved."},
{"property": "C118", "status": "partial", "theorems": ["KP2P.C118_counted_partial", "KP2P.C118_once_partial", "KP2P.C118_again_refuted", "KP2P.C118_many_refuted"], "note": "Refuted in the ordinary course with an honest chain (C118_again_refuted) and for any number of submissions (C118_many_refuted); the number of submissions is bounded by calls and reports (C118_counted_partial, C118_once_partial)."},
{"property": "C119", "status": "partial", "theorems": ["KP2P.C119_jammed_partial", "KP2P.C119_jam_partial", "KP2P.C119_junk_refuted", "KP2P.C119_room_partial", "KP2P.C119_relief_partial"], "note": "Refuted for all options (C119_junk_refuted, C119_jam_partial) with what follows for all continuations (C119_jammed_partial); room and relief are proved."},
{"property": "C120", "status": "partial", "theorems": ["KP2P.C120_suppressed_partial", "KP2P.C120_own_contents_partial", "KP2P.C120_for_ever_refuted", "KP2P.C120_own_contents_refuted"], "note": "Refuted (C120_own_contents_refuted; for ever: C120_for_ever_refuted; C120_suppressed_partial for all executions); proved if all transactions with the id are the same."},
{"property": "C121", "status": "partial", "theorems": ["KP2P.C121_framed_partial", "KP2P.C121_shut_out_partial", "KP2P.C121_producer_refuted", "KP2P.C121_own_blocks_partial", "KP2P.C121_accused_of", "KP2P.C121_honest_peer_refuted", "KP2P.C121_price_partial"], "note": "Refuted for producers (C121_producer_refuted) and for honest peers (C121_honest_peer_refuted), with what follows for all continuations (C121_framed_partial, C121_shut_out_partial); proved when only genuine blocks were handed over."},
{"property": "C122", "status": "partial", "theorems": ["KP2P.C122_answered_first", "KP2P.C122_up_answered", "KP2P.C122_panics_exactly", "KP2P.C122_retries", "KP2P.C122_contexts_refuted", "KP2P.C122_comes_up_partial", "KP2P.C122_head_refuted"], "note": "Refuted for the one question for the head (C122_head_refuted) and for the contexts of the probes (C122_contexts_refuted); all other failures delay the start only (C122_retries, C122_comes_up_partial, C122_panics_exactly)."},
{"property": "C123", "status": "partial", "theorems": ["KP2P.C123_orderly", "KP2P.C123_only_then", "KP2P.C123_nothing_after", "KP2P.C123_killed_exactly", "KP2P.C123_early_refuted", "KP2P.C123_stuck_refuted", "KP2P.C123_ends_partial"], "note": "Refuted for signals before the program waits for them (C123_early_refuted, exactly then: C123_killed_exactly) and after an early connection (C123_stuck_refuted); proved otherwise (C123_ends_partial), and the end is always orderly (C123_orderly)."},
{"property": "C124", "status": "partial", "theorems": ["KP2P.C124_never_refuted", "KP2P.C124_serves_refuted", "KP2P.C124_serves_partial", "KP2P.C124_noticed_partial"], "note": "Refuted for a connection made between the opening of the gate and the start of the manager (C124_serves_refuted, for all continuations C124_never_refuted); proved otherwise."},
{"property": "C125", "status": "partial", "theorems": ["KP2P.C125_all_accepted_partial", "KP2P.C125_callers_partial", "KP2P.C125_in_the_end_partial", "KP2P.C125_old_block_refuted"], "note": "Refuted for old blocks (C125_old_block_refuted); proved for every execution without these at rest (C125_all_accepted_partial, C125_callers_partial) and in the end under fairness (C125_in_the_end_partial), assuming that the blocks are not turned away at a limit and that the chain is willing and answers."},
{"property": "C126", "status": "proved", "theorems": ["KP2P.C126_accounted", "KP2P.C126_taken", "KP2P.C126_handed_on"], "note": ""},
{"property": "C127", "status": "proved", "theorems": ["KP2P.C127_in_time", "KP2P.C127_can_return", "KP2P.C127_paced", "KP2P.C127_answer", "KP2P.C127_agrees", "KP2P.C127_found", "KP2P.C127_default"], "note": ""},
{"property": "C128", "status": "proved", "theorems": ["KP2P.C128_handshake", "KP2P.C128_silent", "KP2P.C128_round", "KP2P.C128_as_asked", "KP2P.C128_default", "KP2P.C128_patience", "KP2P.C128_again"], "note": ""},
{"property": "C129", "status": "partial", "theorems": ["KP2P.C129_race_free_partial", "KP2P.C129_gossip_cancel_refuted", "KP2P.C129_addr_provider_refuted", "KP2P.C129_manager_unpublished_refuted"], "note": "Refuted for three fields: the cancel function of gossip (C129_gossip_cancel_refuted), the provider of addresses and the channel behind it (C129_addr_provider_refuted, C129_manager_unpublished_refuted); proved for all other shared memory."},
{"property": "C130", "status": "proved", "theorems": ["KP2P.C130_released", "KP2P.C130_one", "KP2P.C130_waits_free"], "note": ""},
{"property": "C131", "status": "partial", "theorems": ["KP2P.C131_returns_partial", "KP2P.C131_sent", "KP2P.C131_handed", "KP2P.C131_silent_partial", "KP2P.C131_takes_up_refuted", "KP2P.C131_off_partial"], "note": "Refuted for gossip that is always on while the connection manager does not serve (C131_takes_up_refuted for every size of the channel, C131_silent_partial for all continuations); proved while the manager serves (C131_returns_partial), and without it when gossip is switched by the toggle (C131_off_partial). How pubsub waits is an assumption, stated in Model/Listen."},
{"property": "C132", "status": "partial", "theorems": ["KP2P.C132_success_partial", "KP2P.C132_success_refuted", "KP2P.C132_round_partial", "KP2P.C132_catches_up_partial", "KP2P.C132_handed", "KP2P.C132_willing_partial", "KP2P.C132_stepwise", "KP2P.C132_follows_partial", "KP2P.C132_in_the_end_partial"], "note": "Success without the block on the chain is possible when the waiting time-out of a block of the future fires (C132_success_refuted); proved otherwise. The number of rounds needs a lag of irreversibility below the batch size (C79) and, for willing chains, the assumption of C125 about old blocks. The last sentence is proved under the same assumptions and if no call of the session runs into its time-out, and while the session waits for one call the traffic from elsewhere does not go on for ever."},
{"property": "C133", "status": "proved", "theorems": ["KP2P.C133_not_disconnected", "KP2P.C133_not_refused"], "note": ""},
{"property": "C134", "status": "partial", "theorems": ["KP2P.C134_round_partial", "KP2P.C134_handshake_partial", "KP2P.C134_few_partial", "KP2P.C134_chain_id_refuted", "KP2P.C134_checkpoint_refuted", "KP2P.C134_own_node_refuted"], "note": "Refuted when the connection breaks during the question for the chain (C134_chain_id_refuted) or for a checkpoint (C134_checkpoint_refuted): refused after one failure; and a failing chain service of our own disconnects honest peers after twenty rounds (C134_own_node_refuted). Proved that all other interruptions cost at most 5000 points (C134_round_partial, C134_handshake_partial), so that ten are needed for a refusal and twenty for a disconnection (C134_few_partial)."},
{"property": "C135", "status": "proved", "theorems": ["KP2P.C135_heard", "KP2P.C135_sessions", "KP2P.C135_charged"], "note": ""},
{"property": "C136", "status": "proved", "theorems": ["KP2P.C136_one", "KP2P.C136_connected", "KP2P.C136_served", "KP2P.C136_never_revived", "KP2P.C136_independent"], "note": ""},
{"property": "C137", "status": "partial", "theorems": ["KP2P.C137_mild_partial", "KP2P.C137_budget_partial", "KP2P.C137_own_node_refuted"], "note": "Refuted while our own chain service is out of order: twenty genuine blocks disconnect the peer that passed them on (C137_own_node_refuted). Proved that no message is taken for a grave offence and costs at most 5000 points, a refused transaction at most 100 (C137_mild_partial), and the budget that follows from it together with interrupted exchanges (C137_budget_partial)."},
{"property": "C138", "status": "proved", "theorems": ["KP2P.C138_thrown_out", "KP2P.C138_told_to_end", "KP2P.C138_does_not_stay", "KP2P.C138_grave", "KP2P.C138_stranger"], "note": ""},
{"property": "C139", "status": "proved", "theorems": ["KP2P.C139_reaches"], "note": ""},
{"property": "C140", "status": "partial", "theorems": ["KP2P.C140_once_partial", "KP2P.C140_not_back_partial", "KP2P.C140_encodings_refuted", "KP2P.C140_forgotten_refuted"], "note": "Proved for the same contents, as long as the node does not forget that it has seen it (C140_once_partial; it does after thirty seconds, and then sends it again, any number of times: C140_forgotten_refuted). Refuted for the same block: ids of messages are digests of bytes, so who knows several encodings of a block makes a node send it that many times (C140_encodings_refuted, for every number of encodings; that protobuf has many is not part of the model). Nothing goes back to the one whose message was validated nor to its publisher (C140_not_back_partial); others that sent a copy meanwhile may get one."},
{"property": "C141", "status": "partial", "theorems": ["KP2P.C141_no_accusations_partial", "KP2P.C141_behind_refuted"], "note": "Refuted where chains judge differently: a node that is behind accuses the honest neighbour that passed on a good block (C141_behind_refuted). Proved where all judge alike and publish what they judge good (C141_no_accusations_partial)."},
{"property": "C142", "status": "proved", "theorems": ["KP2P.C142_chain"], "note": ""},
{"property": "C143", "status": "partial", "theorems": ["KP2P.C143_never_sent_partial", "KP2P.C143_published_partial", "KP2P.C143_sent_partial", "KP2P.C143_passed_on_refuted"], "note": "Refuted: the id of the message counts as seen, so what a node has refused it does not send to anybody, whatever it publishes, until the id is forgotten, in the code for thirty seconds (C143_never_sent_partial for all runs, C143_passed_on_refuted with a run in which it has the block on its chain later). Proved that what is accepted at once goes to all neighbours but the one it came from and its author (C143_sent_partial), and that what is published when its id is not remembered goes to all (C143_published_partial)."},
{"property": "C144", "status": "partial", "theorems": ["KP2P.C144_everywhere_partial", "KP2P.C144_gave_up_refuted"], "note": "Refuted if validations may time out: the block is refused, accepted by the chain later, published, and still not sent, as the node remembers the message (C144_gave_up_refuted). Proved, under fairness, if no validation of the blocks times out and there is room for them (C144_everywhere_partial): blocks that form a chain get on the chains of all nodes connected to the publishers, with gossip, the applicator of each node, its chain and the announcements of the chain in one model."},
{"property": "C145", "status": "partial", "theorems": ["KP2P.C145_id_partial", "KP2P.C145_judged_partial", "KP2P.C145_future_refuted", "KP2P.C145_forged_refuted"], "note": "Refuted for blocks of the future (C145_future_refuted, with the default time-outs: the node that passes such a block on is moreover reported by its neighbours) and for forged blocks that share the id of a good one (C145_forged_refuted). Proved otherwise, for all runs with arbitrary messages from others (C145_id_partial, C145_judged_partial)."},
{"property": "C146", "status": "partial", "theorems": ["KP2P.C146_reasons_partial", "KP2P.C146_forged_refuted"], "note": "Refuted: a forged block with the same id that comes first makes the node report the honest sender of the good block, without asking the chain, and keeps the good block from spreading until the node forgets the message (C146_forged_refuted). Proved if no two blocks of that id are handed over: what is reported was refused by the own chain, by the applicator or the fork watchdog, or timed out (C146_reasons_partial)."},
{"property": "C147", "status": "partial", "theorems": ["KP2P.C147_spreads_partial", "KP2P.C147_bad_peer_refuted"], "note": "Refuted if one of the peers is hostile: a block without header in one of its answers ends the process (C147_bad_peer_refuted). Proved otherwise, under fairness and the assumptions of C132 for each node on the way (C147_spreads_partial): however long the way, and though the peers on it are behind at first."},
{"property": "C148", "status": "partial", "theorems": ["KP2P.C148_everywhere_partial", "KP2P.C148_forged_refuted", "KP2P.C148_gave_up_refuted"], "note": "Refuted if another transaction with the same id is around: who sends it first, and has it refused, keeps the genuine one from the chains of the nodes, which accept and pass it on unseen (C148_forged_refuted); and if validations may time out (C148_gave_up_refuted). And if a node is too busy to validate it (C151). Proved otherwise, under fairness, in any encodings and with cache hits (C148_everywhere_partial)."},
{"property": "C149", "status": "partial", "theorems": ["KP2P.C149_passed_on_partial", "KP2P.C149_resent_refuted", "KP2P.C149_forgotten_refuted"], "note": "Refuted: a transaction that the own chain has refused is passed on if it is sent again in another encoding (C149_resent_refuted), or as it is, when pubsub has forgotten it after thirty seconds, but the transaction cache, which remembers for five minutes, has not (C149_forgotten_refuted). Proved that it is published, accepted by the own chain, or was shown to the cache within its window (C149_passed_on_partial)."},
{"property": "C150", "status": "partial", "theorems": ["KP2P.C150_no_accusation_partial", "KP2P.C150_resent_refuted", "KP2P.C150_forgotten_refuted", "KP2P.C150_gave_up_refuted"], "note": "Refuted: what C149 says makes neighbours report the node that was tricked (C150_resent_refuted, C150_forgotten_refuted), and so does a time-out (C150_gave_up_refuted). Proved if each id has one encoding, no validation gives up, and messages are not forgotten before the transaction cache forgets the ids (C150_no_accusation_partial)."},
{"property": "C151", "status": "partial", "theorems": ["KP2P.C151_taken_partial", "KP2P.C151_displaced_refuted", "KP2P.C151_tx_taken_partial", "KP2P.C151_tx_displaced_refuted"], "note": "Refuted: only so many validations go on at a time, and what arrives meanwhile is marked as seen and thrown away: whoever sends that many messages keeps a block (C151_displaced_refuted) or a transaction (C151_tx_displaced_refuted) from a node until its id is forgotten. Proved: what arrives for the first time while there is room is validated (C151_taken_partial, C151_tx_taken_partial). The limit is that of pubsub, for which the code does not ask for another one."},
{"property": "C152", "status": "partial", "theorems": ["KP2P.C152_too_early_partial", "KP2P.C152_charged_partial", "KP2P.C152_in_time_partial", "KP2P.C152_early_refuted"], "note": "Refuted: a block dated ahead by more than DelayThreshold plus the time that gossip waits (7 seconds by default) is held back for longer than the call lasts; its sender is charged with a failed block though the chain accepts the block later (C152_early_refuted). That is so for every new block dated that far ahead, up to a second because of the way time stamps are read, in every execution (C152_too_early_partial, C152_charged_partial). Proved: a block dated ahead by DelayThreshold and w can be accepted and its call succeed after w (C152_in_time_partial)."},
{"property": "C153", "status": "partial", "theorems": ["KP2P.C153_no_panic", "KP2P.C153_never_stuck", "KP2P.C153_enabled_iff_subscribed", "KP2P.C153_unjoined", "KP2P.C153_retry", "KP2P.C153_publish_answer", "KP2P.C153_status_partial", "KP2P.C153_off_is_off", "KP2P.C153_status_refuted", "KP2P.C153_validated_partial", "KP2P.C153_validated_refuted", "KP2P.C153_sent_refuted", "KP2P.C153_sent_partial"], "note": "no panic, never stuck, on iff subscribed, unjoined topics, retries and \"off is off\" are proved in full; that \"on\" means subscribed, that subscriptions are validated and that \"yes\" means sent hold if the library does not fail and are refuted otherwise: the errors are discarded"}]}

import Verif.Props.Bits
import Verif.Props.BitsShow
import Verif.Props.Bohe
import Verif.Props.Bytes
import Verif.Props.Cpp
import Verif.Props.CppCodec
import Verif.Props.CppHuffman
import Verif.Props.CppHuffmanShow
import Verif.Props.CppParse
import Verif.Props.CppUtils
import Verif.Props.Deflate
import Verif.Props.Delta1
import Verif.Props.Delta1Cut
import Verif.Props.Delta1Groups
import Verif.Props.Delta1Size
import Verif.Props.Delta2Bohe
import Verif.Props.Delta2Cut
import Verif.Props.Delta2Implicit
import Verif.Props.Delta2OwnGroup
import Verif.Props.Delta2Receiver
import Verif.Props.Delta2Repeat
import Verif.Props.Delta2Size
import Verif.Props.Delta2Table
import Verif.Props.DeltaAny
import Verif.Props.DeltaBohe
import Verif.Props.DeltaBoheRead
import Verif.Props.Fields
import Verif.Props.Fork
import Verif.Props.HeaderDiff
import Verif.Props.HeaderDiffCut
import Verif.Props.HeaderDiffReceiver
import Verif.Props.HeaderDiffRepeat
import Verif.Props.HeaderDiffSize
import Verif.Props.Http2
import Verif.Props.Http2Cost
import Verif.Props.Http2Cut
import Verif.Props.Http2Reset
import Verif.Props.Http2Tester
import Verif.Props.Huff
import Verif.Props.HuffLookup
import Verif.Props.HuffShow
import Verif.Props.Hyper
import Verif.Props.Lib
import Verif.Props.Lru
import Verif.Props.Session
import Verif.Props.Simple
import Verif.Props.Spdy3
import Verif.Props.Stats
import Verif.Props.Text
import Verif.Props.Wire
/-
The axioms every property theorem depends on, printed during the build.
-/
#print axioms Verif.Props.C01_http2_session_roundtrip
#print axioms Verif.Props.C02_http2_tables_in_sync
#print axioms Verif.Props.C03_http2_decoder_size
#print axioms Verif.Props.C03_http2_encoder_bound_kept
#print axioms Verif.Props.C03_http2_encoder_size
#print axioms Verif.Props.C04_http2_no_duplicates
#print axioms Verif.Props.C05_http2_encode_diverges
#print axioms Verif.Props.C05_http2_encode_diverges_small_buffer
#print axioms Verif.Props.C05_http2_encode_passes
#print axioms Verif.Props.C05_http2_encode_terminates_partial
#print axioms Verif.Props.C06_http2_integer_roundtrip
#print axioms Verif.Props.C06_http2_integer_roundtrip_zero
#print axioms Verif.Props.C07_http2_integer_is_hpack
#print axioms Verif.Props.C07_http2_integer_prefix_free
#print axioms Verif.Props.C07_http2_integer_shortest
#print axioms Verif.Props.C08_http2_decoder_ignores_frame_header
#print axioms Verif.Props.C08_http2_decoder_total
#print axioms Verif.Props.C09_http2_cut_exact
#print axioms Verif.Props.C09_http2_frame_cut
#print axioms Verif.Props.C09_http2_grammar
#print axioms Verif.Props.C09_http2_literal_cut_partial
#print axioms Verif.Props.C09_http2_truncation_accepted
#print axioms Verif.Props.C100_same_false
#print axioms Verif.Props.C100_silent
#print axioms Verif.Props.C100_wire_partial
#print axioms Verif.Props.C101_codec
#print axioms Verif.Props.C101_modes
#print axioms Verif.Props.C101_says
#print axioms Verif.Props.C101_total
#print axioms Verif.Props.C102_first_frame_false
#print axioms Verif.Props.C102_payload_partial
#print axioms Verif.Props.C102_session_false
#print axioms Verif.Props.C103_decompress_false
#print axioms Verif.Props.C103_headers
#print axioms Verif.Props.C103_texts
#print axioms Verif.Props.C104_dates
#print axioms Verif.Props.C104_exact_partial
#print axioms Verif.Props.C104_made
#print axioms Verif.Props.C104_session_partial
#print axioms Verif.Props.C104_spelling_false
#print axioms Verif.Props.C104_value_iff
#print axioms Verif.Props.C104_zero_false
#print axioms Verif.Props.C105_content
#print axioms Verif.Props.C105_find
#print axioms Verif.Props.C105_find_false
#print axioms Verif.Props.C105_large
#print axioms Verif.Props.C105_lookup_false
#print axioms Verif.Props.C105_lookup_partial
#print axioms Verif.Props.C105_wrap_false
#print axioms Verif.Props.C106_crumbs_false
#print axioms Verif.Props.C106_lost_false
#print axioms Verif.Props.C106_partial
#print axioms Verif.Props.C106_raise_false
#print axioms Verif.Props.C106_small_partial
#print axioms Verif.Props.C107_false
#print axioms Verif.Props.C107_partial
#print axioms Verif.Props.C108_repeat
#print axioms Verif.Props.C109_groups
#print axioms Verif.Props.C109_hosts
#print axioms Verif.Props.C10_http2_substitution_exact
#print axioms Verif.Props.C10_http2_substitution_misplaced
#print axioms Verif.Props.C110_false
#print axioms Verif.Props.C110_order
#print axioms Verif.Props.C110_partial
#print axioms Verif.Props.C111
#print axioms Verif.Props.C112_false
#print axioms Verif.Props.C112_partial
#print axioms Verif.Props.C113_false
#print axioms Verif.Props.C113_partial
#print axioms Verif.Props.C114_bucket
#print axioms Verif.Props.C114_char
#print axioms Verif.Props.C114_char_total
#print axioms Verif.Props.C114_coder
#print axioms Verif.Props.C114_coder_inj
#print axioms Verif.Props.C114_debug
#print axioms Verif.Props.C114_vec
#print axioms Verif.Props.C114_word
#print axioms Verif.Props.C115
#print axioms Verif.Props.C116
#print axioms Verif.Props.C117_bucket
#print axioms Verif.Props.C117_format
#print axioms Verif.Props.C117_readable
#print axioms Verif.Props.C118_false
#print axioms Verif.Props.C118_partial
#print axioms Verif.Props.C119_from_string
#print axioms Verif.Props.C119_reformat
#print axioms Verif.Props.C119_run
#print axioms Verif.Props.C11_http2_frame_length_partial
#print axioms Verif.Props.C11_http2_oversized_refused_partial
#print axioms Verif.Props.C11_http2_refused_message_corrupts
#print axioms Verif.Props.C120_decode
#print axioms Verif.Props.C120_false
#print axioms Verif.Props.C120_test1
#print axioms Verif.Props.C120_test2
#print axioms Verif.Props.C121
#print axioms Verif.Props.C122
#print axioms Verif.Props.C123_http2_amplification
#print axioms Verif.Props.C123_http2_amplification_bound
#print axioms Verif.Props.C123_http2_amplification_reached
#print axioms Verif.Props.C124_http2_frame_overhead
#print axioms Verif.Props.C124_http2_frame_size
#print axioms Verif.Props.C125_http2_empty_iff
#print axioms Verif.Props.C125_http2_repeat_free
#print axioms Verif.Props.C125_http2_repeat_not_free
#print axioms Verif.Props.C126_cut
#print axioms Verif.Props.C126_false
#print axioms Verif.Props.C126_header
#print axioms Verif.Props.C126_receiver
#print axioms Verif.Props.C127_effort
#print axioms Verif.Props.C128_cut
#print axioms Verif.Props.C128_false
#print axioms Verif.Props.C128_noticed
#print axioms Verif.Props.C129_any
#print axioms Verif.Props.C12_http2_no_mismatch
#print axioms Verif.Props.C12_http2_processor_exact
#print axioms Verif.Props.C12_http2_tab_mismatch
#print axioms Verif.Props.C130_unbounded
#print axioms Verif.Props.C131_cut
#print axioms Verif.Props.C131_large_false
#print axioms Verif.Props.C132_delta
#print axioms Verif.Props.C132_delta2
#print axioms Verif.Props.C132_short
#print axioms Verif.Props.C133_accepted
#print axioms Verif.Props.C133_limits
#print axioms Verif.Props.C133_outcomes
#print axioms Verif.Props.C133_poison
#print axioms Verif.Props.C133_poisoned
#print axioms Verif.Props.C134_accepted
#print axioms Verif.Props.C134_false
#print axioms Verif.Props.C134_open
#print axioms Verif.Props.C134_refused
#print axioms Verif.Props.C134_shut
#print axioms Verif.Props.C134_size
#print axioms Verif.Props.C135_false
#print axioms Verif.Props.C135_recover
#print axioms Verif.Props.C135_reset
#print axioms Verif.Props.C136_free
#print axioms Verif.Props.C136_path
#print axioms Verif.Props.C136_repeat
#print axioms Verif.Props.C137_once
#print axioms Verif.Props.C137_others
#print axioms Verif.Props.C137_room
#print axioms Verif.Props.C137_table
#print axioms Verif.Props.C137_third
#print axioms Verif.Props.C138_known
#print axioms Verif.Props.C138_never
#print axioms Verif.Props.C138_repeat
#print axioms Verif.Props.C139_free
#print axioms Verif.Props.C139_message
#print axioms Verif.Props.C139_repeat
#print axioms Verif.Props.C139_shared
#print axioms Verif.Props.C13_all_bits
#print axioms Verif.Props.C13_bit_queue
#print axioms Verif.Props.C13_store_get
#print axioms Verif.Props.C140_least
#print axioms Verif.Props.C140_most
#print axioms Verif.Props.C140_rare
#print axioms Verif.Props.C140_text
#print axioms Verif.Props.C141_least
#print axioms Verif.Props.C141_most
#print axioms Verif.Props.C141_path
#print axioms Verif.Props.C142_group
#print axioms Verif.Props.C142_never
#print axioms Verif.Props.C143_frames
#print axioms Verif.Props.C143_overhead
#print axioms Verif.Props.C144_lost_false
#print axioms Verif.Props.C144_own
#print axioms Verif.Props.C144_room_partial
#print axioms Verif.Props.C145_branch_false
#print axioms Verif.Props.C145_codes
#print axioms Verif.Props.C145_long_false
#print axioms Verif.Props.C145_short_partial
#print axioms Verif.Props.C145_total
#print axioms Verif.Props.C14_store_any
#print axioms Verif.Props.C14_store_exact
#print axioms Verif.Props.C15_all_consumed
#print axioms Verif.Props.C15_bits_remaining_false
#print axioms Verif.Props.C15_bits_remaining_partial
#print axioms Verif.Props.C16_store22_false
#print axioms Verif.Props.C16_store22_lossy
#print axioms Verif.Props.C16_store22_partial
#print axioms Verif.Props.C17_negative
#print axioms Verif.Props.C17_varint
#print axioms Verif.Props.C18_exact
#print axioms Verif.Props.C18_false
#print axioms Verif.Props.C18_fits_partial
#print axioms Verif.Props.C18_width
#print axioms Verif.Props.C19_any_order
#print axioms Verif.Props.C19_canonical_partial
#print axioms Verif.Props.C19_false
#print axioms Verif.Props.C19_shipped
#print axioms Verif.Props.C20_plain_false
#print axioms Verif.Props.C20_shipped
#print axioms Verif.Props.C20_strings
#print axioms Verif.Props.C21_divisor
#print axioms Verif.Props.C21_false
#print axioms Verif.Props.C21_limit_partial
#print axioms Verif.Props.C22_optimal
#print axioms Verif.Props.C22_tree
#print axioms Verif.Props.C23_total
#print axioms Verif.Props.C23_wire
#print axioms Verif.Props.C24_ranges
#print axioms Verif.Props.C24_sets
#print axioms Verif.Props.C25_fifo
#print axioms Verif.Props.C25_lookup
#print axioms Verif.Props.C25_pop
#print axioms Verif.Props.C25_zero_false
#print axioms Verif.Props.C26_limits
#print axioms Verif.Props.C26_reserve_store
#print axioms Verif.Props.C26_storage
#print axioms Verif.Props.C26_zero_false
#print axioms Verif.Props.C27_counted
#print axioms Verif.Props.C27_false
#print axioms Verif.Props.C27_refcnt_false
#print axioms Verif.Props.C27_values_partial
#print axioms Verif.Props.C28_decodes
#print axioms Verif.Props.C28_fresh
#print axioms Verif.Props.C28_in_step
#print axioms Verif.Props.C28_total
#print axioms Verif.Props.C29_session
#print axioms Verif.Props.C30_bijection
#print axioms Verif.Props.C30_distance
#print axioms Verif.Props.C31_false
#print axioms Verif.Props.C31_last_partial
#print axioms Verif.Props.C31_lost
#print axioms Verif.Props.C32_distinct_partial
#print axioms Verif.Props.C32_false
#print axioms Verif.Props.C33_session
#print axioms Verif.Props.C34_false
#print axioms Verif.Props.C34_partial
#print axioms Verif.Props.C35_in_step
#print axioms Verif.Props.C36_bounded
#print axioms Verif.Props.C36_negative
#print axioms Verif.Props.C37_long
#print axioms Verif.Props.C37_long_error
#print axioms Verif.Props.C37_other
#print axioms Verif.Props.C37_short
#print axioms Verif.Props.C37_zero
#print axioms Verif.Props.C38_false
#print axioms Verif.Props.C38_partial
#print axioms Verif.Props.C38_when
#print axioms Verif.Props.C39_common_prefix
#print axioms Verif.Props.C39_delta
#print axioms Verif.Props.C39_limited
#print axioms Verif.Props.C40_missing
#print axioms Verif.Props.C40_shipped
#print axioms Verif.Props.C40_strings
#print axioms Verif.Props.C41_seven_exact
#print axioms Verif.Props.C41_seven_false
#print axioms Verif.Props.C41_seven_partial
#print axioms Verif.Props.C42_http1_no_mismatch
#print axioms Verif.Props.C42_http1_round_trip
#print axioms Verif.Props.C43_empty_path_false
#print axioms Verif.Props.C43_path_partial
#print axioms Verif.Props.C44_comma_false
#print axioms Verif.Props.C44_header_h_false
#print axioms Verif.Props.C44_no_mismatch_partial
#print axioms Verif.Props.C44_response_host_false
#print axioms Verif.Props.C44_session_partial
#print axioms Verif.Props.C45_block_readable
#print axioms Verif.Props.C45_block_unique
#print axioms Verif.Props.C45_block_written
#print axioms Verif.Props.C46_compare_cookies
#print axioms Verif.Props.C46_compare_headers_iff
#print axioms Verif.Props.C46_compare_headers_reorder
#print axioms Verif.Props.C46_compare_headers_symm
#print axioms Verif.Props.C47_filter_headers
#print axioms Verif.Props.C47_filter_headers_idem
#print axioms Verif.Props.C48_streamify_all_one
#print axioms Verif.Props.C48_streamify_by
#print axioms Verif.Props.C48_streamify_count
#print axioms Verif.Props.C48_streamify_host
#print axioms Verif.Props.C48_streamify_no_host
#print axioms Verif.Props.C48_streamify_suffix
#print axioms Verif.Props.C49_merge_dols
#print axioms Verif.Props.C49_total_concatenates
#print axioms Verif.Props.C50_single_session_renamed
#print axioms Verif.Props.C50_totals_extend_first_session
#print axioms Verif.Props.C50_totals_keep_results_partial
#print axioms Verif.Props.C51_tsv
#print axioms Verif.Props.C52_process_headers
#print axioms Verif.Props.C53_har2hdrs
#print axioms Verif.Props.C53_har2hdrs_raises
#print axioms Verif.Props.C53_status_digits
#print axioms Verif.Props.C54_host_from_url
#print axioms Verif.Props.C54_host_header_lost
#print axioms Verif.Props.C54_host_is_whole_url
#print axioms Verif.Props.C55_enc_uvarint
#print axioms Verif.Props.C55_uvarint_bytes
#print axioms Verif.Props.C55_uvarint_prefix_free
#print axioms Verif.Props.C55_uvarint_readable
#print axioms Verif.Props.C56_baseline_key_error
#print axioms Verif.Props.C56_baseline_with_parameters
#print axioms Verif.Props.C56_one_result_per_message
#print axioms Verif.Props.C56_plain_baseline_registered
#print axioms Verif.Props.C56_ratios
#print axioms Verif.Props.C57_mismatch_iff
#print axioms Verif.Props.C58_codecs_measured_independently
#print axioms Verif.Props.C59_twelve_raw
#print axioms Verif.Props.C60_session
#print axioms Verif.Props.C61_false
#print axioms Verif.Props.C61_partial
#print axioms Verif.Props.C62_false
#print axioms Verif.Props.C62_large_false
#print axioms Verif.Props.C62_last_partial
#print axioms Verif.Props.C62_lost
#print axioms Verif.Props.C62_partial
#print axioms Verif.Props.C62_ranges
#print axioms Verif.Props.C62_total
#print axioms Verif.Props.C63_in_step
#print axioms Verif.Props.C64_session
#print axioms Verif.Props.C64_total
#print axioms Verif.Props.C65_entries
#print axioms Verif.Props.C66_false
#print axioms Verif.Props.C66_partial
#print axioms Verif.Props.C66_raises
#print axioms Verif.Props.C67_first
#print axioms Verif.Props.C67_raises
#print axioms Verif.Props.C68_code
#print axioms Verif.Props.C68_optimal
#print axioms Verif.Props.C68_string
#print axioms Verif.Props.C69_queue
#print axioms Verif.Props.C70_false
#print axioms Verif.Props.C70_single
#print axioms Verif.Props.C71_false
#print axioms Verif.Props.C71_partial
#print axioms Verif.Props.C71_total
#print axioms Verif.Props.C72_date
#print axioms Verif.Props.C72_early
#print axioms Verif.Props.C73_cookie
#print axioms Verif.Props.C73_raises
#print axioms Verif.Props.C74_age_false
#print axioms Verif.Props.C74_cookies
#print axioms Verif.Props.C75_directives
#print axioms Verif.Props.C75_false
#print axioms Verif.Props.C76_method_false
#print axioms Verif.Props.C76_method_partial
#print axioms Verif.Props.C76_method_upper
#print axioms Verif.Props.C77_accept
#print axioms Verif.Props.C77_etags
#print axioms Verif.Props.C78_false
#print axioms Verif.Props.C78_partial
#print axioms Verif.Props.C78_raises
#print axioms Verif.Props.C78_unknown
#print axioms Verif.Props.C79_decoded
#print axioms Verif.Props.C79_raises
#print axioms Verif.Props.C79_shorter
#print axioms Verif.Props.C80_false
#print axioms Verif.Props.C80_partial
#print axioms Verif.Props.C81_false
#print axioms Verif.Props.C81_in_step
#print axioms Verif.Props.C81_partial
#print axioms Verif.Props.C82_raises
#print axioms Verif.Props.C82_total
#print axioms Verif.Props.C83_raises
#print axioms Verif.Props.C83_repeat
#print axioms Verif.Props.C84_lost
#print axioms Verif.Props.C84_raises
#print axioms Verif.Props.C85_false
#print axioms Verif.Props.C86_raises
#print axioms Verif.Props.C87_behind
#print axioms Verif.Props.C87_roundtrip
#print axioms Verif.Props.C87_tape
#print axioms Verif.Props.C88_between_partial
#print axioms Verif.Props.C88_boundary
#print axioms Verif.Props.C88_false
#print axioms Verif.Props.C89_false
#print axioms Verif.Props.C89_outside
#print axioms Verif.Props.C89_total_partial
#print axioms Verif.Props.C90_code
#print axioms Verif.Props.C90_shipped
#print axioms Verif.Props.C90_words
#print axioms Verif.Props.C91_abort
#print axioms Verif.Props.C91_bits
#print axioms Verif.Props.C91_encode
#print axioms Verif.Props.C91_eof
#print axioms Verif.Props.C91_next_false
#print axioms Verif.Props.C91_open_false
#print axioms Verif.Props.C91_roundtrip
#print axioms Verif.Props.C91_total
#print axioms Verif.Props.C92_same_partial
#print axioms Verif.Props.C92_tables_false
#print axioms Verif.Props.C93_again
#print axioms Verif.Props.C93_iff
#print axioms Verif.Props.C94_back_false
#print axioms Verif.Props.C94_back_partial
#print axioms Verif.Props.C94_names_false
#print axioms Verif.Props.C95_blocks
#print axioms Verif.Props.C95_line_unique
#print axioms Verif.Props.C95_nonempty
#print axioms Verif.Props.C95_total
#print axioms Verif.Props.C96_chunks_false
#print axioms Verif.Props.C96_nul
#print axioms Verif.Props.C97_child_endless
#print axioms Verif.Props.C97_echo
#print axioms Verif.Props.C97_first_line
#print axioms Verif.Props.C97_step_false
#print axioms Verif.Props.C97_total
#print axioms Verif.Props.C98_accounts
#print axioms Verif.Props.C98_defaults
#print axioms Verif.Props.C98_limits
#print axioms Verif.Props.C98_others
#print axioms Verif.Props.C98_repeat_false
#print axioms Verif.Props.C98_shows_partial
#print axioms Verif.Props.C98_total
#print axioms Verif.Props.C99_abort
#print axioms Verif.Props.C99_dangles
#print axioms Verif.Props.C99_first
#print axioms Verif.Props.C99_ok
#print axioms Verif.Props.C99_room
#print axioms Verif.Props.C99_stored
#print axioms Verif.Props.C99_uaf_false
#print axioms Verif.Props.coder_shipped

{
 "claims": [
  {
   "property": "C01",
   "status": "proved",
   "theorems": [
    "Verif.Props.C01_http2_session_roundtrip"
   ],
   "note": "All sessions the encoder gets through, any buffer size, both tables; header sets compared by membership."
  },
  {
   "property": "C02",
   "status": "proved",
   "theorems": [
    "Verif.Props.C02_http2_tables_in_sync"
   ],
   "note": "At every message boundary."
  },
  {
   "property": "C03",
   "status": "proved",
   "theorems": [
    "Verif.Props.C03_http2_encoder_size",
    "Verif.Props.C03_http2_encoder_bound_kept",
    "Verif.Props.C03_http2_decoder_size"
   ],
   "note": "Encoder for all reachable states (also after a refused message), decoder for all byte strings."
  },
  {
   "property": "C04",
   "status": "proved",
   "theorems": [
    "Verif.Props.C04_http2_no_duplicates"
   ],
   "note": "Any buffer size."
  },
  {
   "property": "C05",
   "status": "partial",
   "theorems": [
    "Verif.Props.C05_http2_encode_terminates_partial",
    "Verif.Props.C05_http2_encode_diverges",
    "Verif.Props.C05_http2_encode_diverges_small_buffer",
    "Verif.Props.C05_http2_encode_passes"
   ],
   "note": "The claim is false: two proved witnesses of an encoder that never returns; termination proved outside those situations; for all buffers, an encoder that returns does so within one pass more than there are headers."
  },
  {
   "property": "C06",
   "status": "proved",
   "theorems": [
    "Verif.Props.C06_http2_integer_roundtrip",
    "Verif.Props.C06_http2_integer_roundtrip_zero"
   ],
   "note": ""
  },
  {
   "property": "C07",
   "status": "proved",
   "theorems": [
    "Verif.Props.C07_http2_integer_is_hpack",
    "Verif.Props.C07_http2_integer_shortest",
    "Verif.Props.C07_http2_integer_prefix_free"
   ],
   "note": ""
  },
  {
   "property": "C08",
   "status": "proved",
   "theorems": [
    "Verif.Props.C08_http2_decoder_total",
    "Verif.Props.C08_http2_decoder_ignores_frame_header"
   ],
   "note": ""
  },
  {
   "property": "C09",
   "status": "partial",
   "theorems": [
    "Verif.Props.C09_http2_literal_cut_partial",
    "Verif.Props.C09_http2_truncation_accepted",
    "Verif.Props.C09_http2_grammar",
    "Verif.Props.C09_http2_cut_exact",
    "Verif.Props.C09_http2_frame_cut"
   ],
   "note": "The claim is false: exactly which cuts of a frame are accepted is proved, for frames of any session and for any accepted bytes."
  },
  {
   "property": "C10",
   "status": "partial",
   "theorems": [
    "Verif.Props.C10_http2_substitution_exact",
    "Verif.Props.C10_http2_substitution_misplaced"
   ],
   "note": "The claim is false: exact behaviour proved, with a concrete misplaced substitution."
  },
  {
   "property": "C100",
   "status": "partial",
   "theorems": [
    "Verif.Props.C100_wire_partial",
    "Verif.Props.C100_silent",
    "Verif.Props.C100_same_false"
   ],
   "note": "The content is proved; that it determines the lines is proved to be false, since toggles are never written."
  },
  {
   "property": "C101",
   "status": "proved",
   "theorems": [
    "Verif.Props.C101_says",
    "Verif.Props.C101_total",
    "Verif.Props.C101_modes",
    "Verif.Props.C101_codec"
   ],
   "note": "Python's int is a parameter."
  },
  {
   "property": "C102",
   "status": "partial",
   "theorems": [
    "Verif.Props.C102_first_frame_false",
    "Verif.Props.C102_session_false",
    "Verif.Props.C102_payload_partial"
   ],
   "note": "The claim is false: the decoder decompresses the frame header too. Proved: the payloads are right, and the first frame raises if its payload has fewer than 512 bytes."
  },
  {
   "property": "C103",
   "status": "proved",
   "theorems": [
    "Verif.Props.C103_texts",
    "Verif.Props.C103_headers",
    "Verif.Props.C103_decompress_false"
   ],
   "note": "zlib is a parameter with a contract."
  },
  {
   "property": "C104",
   "status": "partial",
   "theorems": [
    "Verif.Props.C104_made",
    "Verif.Props.C104_dates",
    "Verif.Props.C104_session_partial",
    "Verif.Props.C104_value_iff",
    "Verif.Props.C104_exact_partial",
    "Verif.Props.C104_zero_false",
    "Verif.Props.C104_spelling_false"
   ],
   "note": "With date, the claim is false for hexadecimal values such as 0 and for dates in another spelling; which values arrive unchanged is proved exactly. Otherwise with the limits of C44."
  },
  {
   "property": "C105",
   "status": "partial",
   "theorems": [
    "Verif.Props.C105_content",
    "Verif.Props.C105_large",
    "Verif.Props.C105_lookup_partial",
    "Verif.Props.C105_lookup_false",
    "Verif.Props.C105_find",
    "Verif.Props.C105_find_false",
    "Verif.Props.C105_wrap_false"
   ],
   "note": "The content is proved. Numbers give their headers until they start again, after that they are proved to be wrong by 64. What the search finds is proved exactly; that it finds every header is false."
  },
  {
   "property": "C106",
   "status": "partial",
   "theorems": [
    "Verif.Props.C106_partial",
    "Verif.Props.C106_small_partial",
    "Verif.Props.C106_crumbs_false",
    "Verif.Props.C106_lost_false",
    "Verif.Props.C106_raise_false"
   ],
   "note": "Proved for sessions in which no message loses a header that it needs and the numbers do not start again, and for all sessions of at most 8192 bytes and 512 headers; in general the claim is false, with three witnesses."
  },
  {
   "property": "C107",
   "status": "partial",
   "theorems": [
    "Verif.Props.C107_partial",
    "Verif.Props.C107_false"
   ],
   "note": "Proved for small sessions without names that bohe encodes; for those names the claim is false for every coder."
  },
  {
   "property": "C108",
   "status": "proved",
   "theorems": [
    "Verif.Props.C108_repeat"
   ],
   "note": ""
  },
  {
   "property": "C109",
   "status": "proved",
   "theorems": [
    "Verif.Props.C109_hosts",
    "Verif.Props.C109_groups"
   ],
   "note": "The regular expression is a parameter."
  },
  {
   "property": "C11",
   "status": "partial",
   "theorems": [
    "Verif.Props.C11_http2_frame_length_partial",
    "Verif.Props.C11_http2_oversized_refused_partial",
    "Verif.Props.C11_http2_refused_message_corrupts"
   ],
   "note": "Refusal and frame length proved; the part about later messages is false, proved with a witness."
  },
  {
   "property": "C110",
   "status": "partial",
   "theorems": [
    "Verif.Props.C110_partial",
    "Verif.Props.C110_false",
    "Verif.Props.C110_order"
   ],
   "note": "Proved for sessions without names that bohe encodes and of limited size; for such names the claim is false, with a witness, and it is false for every coder if the dictionaries are iterated in different orders."
  },
  {
   "property": "C111",
   "status": "proved",
   "theorems": [
    "Verif.Props.C111"
   ],
   "note": ""
  },
  {
   "property": "C112",
   "status": "partial",
   "theorems": [
    "Verif.Props.C112_partial",
    "Verif.Props.C112_false"
   ],
   "note": "SortedByFreq always raises; the printed tables determine the counts."
  },
  {
   "property": "C113",
   "status": "partial",
   "theorems": [
    "Verif.Props.C113_partial",
    "Verif.Props.C113_false"
   ],
   "note": "The length field is always 3 too large; the contents arrive at a reader that does not need it. zlib is a parameter with a contract."
  },
  {
   "property": "C114",
   "status": "proved",
   "theorems": [
    "Verif.Props.C114_vec",
    "Verif.Props.C114_word",
    "Verif.Props.C114_char_total",
    "Verif.Props.C114_char",
    "Verif.Props.C114_bucket",
    "Verif.Props.C114_debug",
    "Verif.Props.C114_coder",
    "Verif.Props.C114_coder_inj"
   ],
   "note": ""
  },
  {
   "property": "C115",
   "status": "proved",
   "theorems": [
    "Verif.Props.C115"
   ],
   "note": ""
  },
  {
   "property": "C116",
   "status": "proved",
   "theorems": [
    "Verif.Props.C116"
   ],
   "note": ""
  },
  {
   "property": "C117",
   "status": "proved",
   "theorems": [
    "Verif.Props.C117_format",
    "Verif.Props.C117_bucket",
    "Verif.Props.C117_readable"
   ],
   "note": ""
  },
  {
   "property": "C118",
   "status": "partial",
   "theorems": [
    "Verif.Props.C118_partial",
    "Verif.Props.C118_false"
   ],
   "note": "Exactly when the mark is in the right column."
  },
  {
   "property": "C119",
   "status": "proved",
   "theorems": [
    "Verif.Props.C119_run",
    "Verif.Props.C119_reformat",
    "Verif.Props.C119_from_string"
   ],
   "note": ""
  },
  {
   "property": "C12",
   "status": "proved",
   "theorems": [
    "Verif.Props.C12_http2_processor_exact",
    "Verif.Props.C12_http2_no_mismatch",
    "Verif.Props.C12_http2_tab_mismatch"
   ],
   "note": "Exact description of what comes back; the whitespace condition is shown to be needed."
  },
  {
   "property": "C120",
   "status": "partial",
   "theorems": [
    "Verif.Props.C120_decode",
    "Verif.Props.C120_false",
    "Verif.Props.C120_test1",
    "Verif.Props.C120_test2"
   ],
   "note": "Without an end of string; with one Decode always raises."
  },
  {
   "property": "C121",
   "status": "proved",
   "theorems": [
    "Verif.Props.C121"
   ],
   "note": ""
  },
  {
   "property": "C122",
   "status": "proved",
   "theorems": [
    "Verif.Props.C122"
   ],
   "note": "The package hpack is a parameter with a contract."
  },
  {
   "property": "C123",
   "status": "proved",
   "theorems": [
    "Verif.Props.C123_http2_amplification_bound",
    "Verif.Props.C123_http2_amplification",
    "Verif.Props.C123_http2_amplification_reached"
   ],
   "note": ""
  },
  {
   "property": "C124",
   "status": "proved",
   "theorems": [
    "Verif.Props.C124_http2_frame_size",
    "Verif.Props.C124_http2_frame_overhead"
   ],
   "note": "The second for header strings shorter than 128^3 bytes."
  },
  {
   "property": "C125",
   "status": "proved",
   "theorems": [
    "Verif.Props.C125_http2_empty_iff",
    "Verif.Props.C125_http2_repeat_free",
    "Verif.Props.C125_http2_repeat_not_free"
   ],
   "note": ""
  },
  {
   "property": "C126",
   "status": "proved",
   "theorems": [
    "Verif.Props.C126_header",
    "Verif.Props.C126_cut",
    "Verif.Props.C126_receiver",
    "Verif.Props.C126_false"
   ],
   "note": "For payloads that fit into a frame (C31 is about the others)."
  },
  {
   "property": "C127",
   "status": "proved",
   "theorems": [
    "Verif.Props.C127_effort"
   ],
   "note": "Beyond 2^63 Python's xrange raises OverflowError, which is not modelled."
  },
  {
   "property": "C128",
   "status": "proved",
   "theorems": [
    "Verif.Props.C128_cut",
    "Verif.Props.C128_noticed",
    "Verif.Props.C128_false"
   ],
   "note": ""
  },
  {
   "property": "C129",
   "status": "proved",
   "theorems": [
    "Verif.Props.C129_any"
   ],
   "note": ""
  },
  {
   "property": "C13",
   "status": "proved",
   "theorems": [
    "Verif.Props.C13_bit_queue",
    "Verif.Props.C13_all_bits",
    "Verif.Props.C13_store_get"
   ],
   "note": "Any sequence of calls on a new bucket."
  },
  {
   "property": "C130",
   "status": "proved",
   "theorems": [
    "Verif.Props.C130_unbounded"
   ],
   "note": "C36_bounded is what holds: the lengths of the values together do not exceed the buffer."
  },
  {
   "property": "C131",
   "status": "proved",
   "theorems": [
    "Verif.Props.C131_cut",
    "Verif.Props.C131_large_false"
   ],
   "note": "For at most 256 operations of a kind (C62 is about the others)."
  },
  {
   "property": "C132",
   "status": "proved",
   "theorems": [
    "Verif.Props.C132_delta",
    "Verif.Props.C132_delta2",
    "Verif.Props.C132_short"
   ],
   "note": ""
  },
  {
   "property": "C133",
   "status": "proved",
   "theorems": [
    "Verif.Props.C133_outcomes",
    "Verif.Props.C133_accepted",
    "Verif.Props.C133_limits",
    "Verif.Props.C133_poisoned",
    "Verif.Props.C133_poison"
   ],
   "note": ""
  },
  {
   "property": "C134",
   "status": "proved",
   "theorems": [
    "Verif.Props.C134_accepted",
    "Verif.Props.C134_refused",
    "Verif.Props.C134_size",
    "Verif.Props.C134_shut",
    "Verif.Props.C134_open",
    "Verif.Props.C134_false"
   ],
   "note": ""
  },
  {
   "property": "C135",
   "status": "proved",
   "theorems": [
    "Verif.Props.C135_reset",
    "Verif.Props.C135_recover",
    "Verif.Props.C135_false"
   ],
   "note": ""
  },
  {
   "property": "C136",
   "status": "proved",
   "theorems": [
    "Verif.Props.C136_free",
    "Verif.Props.C136_repeat",
    "Verif.Props.C136_path"
   ],
   "note": ""
  },
  {
   "property": "C137",
   "status": "proved",
   "theorems": [
    "Verif.Props.C137_table",
    "Verif.Props.C137_room",
    "Verif.Props.C137_third",
    "Verif.Props.C137_others",
    "Verif.Props.C137_once"
   ],
   "note": ""
  },
  {
   "property": "C138",
   "status": "proved",
   "theorems": [
    "Verif.Props.C138_known",
    "Verif.Props.C138_repeat",
    "Verif.Props.C138_never"
   ],
   "note": ""
  },
  {
   "property": "C139",
   "status": "proved",
   "theorems": [
    "Verif.Props.C139_message",
    "Verif.Props.C139_free",
    "Verif.Props.C139_repeat",
    "Verif.Props.C139_shared"
   ],
   "note": ""
  },
  {
   "property": "C14",
   "status": "proved",
   "theorems": [
    "Verif.Props.C14_store_exact",
    "Verif.Props.C14_store_any"
   ],
   "note": "Any bucket reachable by any calls, also calls with too many bytes."
  },
  {
   "property": "C140",
   "status": "proved",
   "theorems": [
    "Verif.Props.C140_most",
    "Verif.Props.C140_least",
    "Verif.Props.C140_text",
    "Verif.Props.C140_rare"
   ],
   "note": ""
  },
  {
   "property": "C141",
   "status": "proved",
   "theorems": [
    "Verif.Props.C141_most",
    "Verif.Props.C141_least",
    "Verif.Props.C141_path"
   ],
   "note": ""
  },
  {
   "property": "C142",
   "status": "proved",
   "theorems": [
    "Verif.Props.C142_group",
    "Verif.Props.C142_never"
   ],
   "note": ""
  },
  {
   "property": "C143",
   "status": "proved",
   "theorems": [
    "Verif.Props.C143_frames",
    "Verif.Props.C143_overhead"
   ],
   "note": ""
  },
  {
   "property": "C144",
   "status": "partial",
   "theorems": [
    "Verif.Props.C144_own",
    "Verif.Props.C144_room_partial",
    "Verif.Props.C144_lost_false"
   ],
   "note": "the group is as claimed if the new headers of the message fit into the table; when the table is full the claim is false: a group that is empty while an entry is evicted is deleted, and the indices stored after that are lost"
  },
  {
   "property": "C145",
   "status": "partial",
   "theorems": [
    "Verif.Props.C145_total",
    "Verif.Props.C145_codes",
    "Verif.Props.C145_short_partial",
    "Verif.Props.C145_branch_false",
    "Verif.Props.C145_long_false"
   ],
   "note": "it returns, and codes of at most eight bits are found; the claim is false of longer codes: the tables for them are built, but no entry of the first table names one"
  },
  {
   "property": "C15",
   "status": "partial",
   "theorems": [
    "Verif.Props.C15_bits_remaining_partial",
    "Verif.Props.C15_bits_remaining_false",
    "Verif.Props.C15_all_consumed"
   ],
   "note": "The claim is false: always one less; AllConsumed is exact."
  },
  {
   "property": "C16",
   "status": "partial",
   "theorems": [
    "Verif.Props.C16_store22_partial",
    "Verif.Props.C16_store22_lossy",
    "Verif.Props.C16_store22_false"
   ],
   "note": "The claim is false: the 30 most significant bits are stored."
  },
  {
   "property": "C17",
   "status": "proved",
   "theorems": [
    "Verif.Props.C17_varint",
    "Verif.Props.C17_negative"
   ],
   "note": ""
  },
  {
   "property": "C18",
   "status": "partial",
   "theorems": [
    "Verif.Props.C18_fits_partial",
    "Verif.Props.C18_exact",
    "Verif.Props.C18_false",
    "Verif.Props.C18_width"
   ],
   "note": "Values that fit survive; the claim that all others are refused is false for widths 17 to 24 (exact characterisation and witness)."
  },
  {
   "property": "C19",
   "status": "partial",
   "theorems": [
    "Verif.Props.C19_canonical_partial",
    "Verif.Props.C19_any_order",
    "Verif.Props.C19_shipped",
    "Verif.Props.C19_false"
   ],
   "note": "Holds for ascending dictionary order, and whenever the constructor succeeds; for the shipped tables under CPython 2.7's order. The claim is false in general: the order of the dictionary can make the constructor raise ValueError."
  },
  {
   "property": "C20",
   "status": "proved",
   "theorems": [
    "Verif.Props.C20_strings",
    "Verif.Props.C20_shipped",
    "Verif.Props.C20_plain_false"
   ],
   "note": "Without Huffman coding PackStr always raises NameError."
  },
  {
   "property": "C21",
   "status": "partial",
   "theorems": [
    "Verif.Props.C21_divisor",
    "Verif.Props.C21_limit_partial",
    "Verif.Props.C21_false"
   ],
   "note": "The claim is false: the retry loop never changes the tree; a table with depth 33 ends in OverflowError."
  },
  {
   "property": "C22",
   "status": "proved",
   "theorems": [
    "Verif.Props.C22_optimal",
    "Verif.Props.C22_tree"
   ],
   "note": "Exact rational weights; the floats of the code are exact for these sums (see DESIGN.md)."
  },
  {
   "property": "C23",
   "status": "proved",
   "theorems": [
    "Verif.Props.C23_total",
    "Verif.Props.C23_wire",
    "Verif.Props.coder_shipped"
   ],
   "note": "For every Huffman object that the constructor can return, every choice of index packing and all operations whose indices fit it."
  },
  {
   "property": "C24",
   "status": "proved",
   "theorems": [
    "Verif.Props.C24_ranges",
    "Verif.Props.C24_sets"
   ],
   "note": "For every multiset of indices, hence for every set."
  },
  {
   "property": "C25",
   "status": "proved",
   "theorems": [
    "Verif.Props.C25_lookup",
    "Verif.Props.C25_fifo",
    "Verif.Props.C25_pop",
    "Verif.Props.C25_zero_false"
   ],
   "note": "Any calls and any changes of the reference counts in between. max_items 0 is excluded, with a witness."
  },
  {
   "property": "C26",
   "status": "proved",
   "theorems": [
    "Verif.Props.C26_limits",
    "Verif.Props.C26_reserve_store",
    "Verif.Props.C26_storage",
    "Verif.Props.C26_zero_false"
   ],
   "note": "max_entries at most max_index - 65, as the constructor of the codec ensures."
  },
  {
   "property": "C27",
   "status": "partial",
   "theorems": [
    "Verif.Props.C27_counted",
    "Verif.Props.C27_values_partial",
    "Verif.Props.C27_false",
    "Verif.Props.C27_refcnt_false"
   ],
   "note": "The claim is false; without refcnt_vals the value characters are bounded."
  },
  {
   "property": "C28",
   "status": "proved",
   "theorems": [
    "Verif.Props.C28_fresh",
    "Verif.Props.C28_total",
    "Verif.Props.C28_in_step",
    "Verif.Props.C28_decodes"
   ],
   "note": "compressor and decompressor end in the same state after every session, for all parameters and orders; a session is any list, so this holds after each message"
  },
  {
   "property": "C29",
   "status": "proved",
   "theorems": [
    "Verif.Props.C29_session"
   ],
   "note": "the decoded dictionary compares equal exactly if no cookie contains a NUL"
  },
  {
   "property": "C30",
   "status": "proved",
   "theorems": [
    "Verif.Props.C30_bijection",
    "Verif.Props.C30_distance"
   ],
   "note": ""
  },
  {
   "property": "C31",
   "status": "partial",
   "theorems": [
    "Verif.Props.C31_last_partial",
    "Verif.Props.C31_lost",
    "Verif.Props.C31_false"
   ],
   "note": "False of the code; what arrives of large payloads is characterised: everything if the last block begins in time, else nothing of what begins too late."
  },
  {
   "property": "C32",
   "status": "partial",
   "theorems": [
    "Verif.Props.C32_distinct_partial",
    "Verif.Props.C32_false"
   ],
   "note": "The claim is false after max_id requests, for every max_id."
  },
  {
   "property": "C33",
   "status": "proved",
   "theorems": [
    "Verif.Props.C33_session"
   ],
   "note": "Deflate layer (windowSize) not modelled. The no-collision hypothesis is needed (C34)."
  },
  {
   "property": "C34",
   "status": "partial",
   "theorems": [
    "Verif.Props.C34_partial",
    "Verif.Props.C34_false"
   ],
   "note": "The claim is false: the table is keyed by name+value. Every decoded header equals the sent one after joining name and value, and was sent in the session."
  },
  {
   "property": "C35",
   "status": "proved",
   "theorems": [
    "Verif.Props.C35_in_step"
   ],
   "note": "With or without collisions."
  },
  {
   "property": "C36",
   "status": "proved",
   "theorems": [
    "Verif.Props.C36_bounded",
    "Verif.Props.C36_negative"
   ],
   "note": ""
  },
  {
   "property": "C37",
   "status": "proved",
   "theorems": [
    "Verif.Props.C37_short",
    "Verif.Props.C37_zero",
    "Verif.Props.C37_long",
    "Verif.Props.C37_long_error",
    "Verif.Props.C37_other"
   ],
   "note": ""
  },
  {
   "property": "C38",
   "status": "partial",
   "theorems": [
    "Verif.Props.C38_when",
    "Verif.Props.C38_partial",
    "Verif.Props.C38_false"
   ],
   "note": "The claim is false; exact condition for success, and a sufficient one in terms of the lengths without Huffman codes."
  },
  {
   "property": "C39",
   "status": "proved",
   "theorems": [
    "Verif.Props.C39_common_prefix",
    "Verif.Props.C39_limited",
    "Verif.Props.C39_delta"
   ],
   "note": ""
  },
  {
   "property": "C40",
   "status": "proved",
   "theorems": [
    "Verif.Props.C40_strings",
    "Verif.Props.C40_missing",
    "Verif.Props.C40_shipped"
   ],
   "note": ""
  },
  {
   "property": "C41",
   "status": "partial",
   "theorems": [
    "Verif.Props.C41_seven_exact",
    "Verif.Props.C41_seven_partial",
    "Verif.Props.C41_seven_false"
   ],
   "note": "The claim is false for lengths that are positive multiples of 8; exact result for every ASCII text."
  },
  {
   "property": "C42",
   "status": "proved",
   "theorems": [
    "Verif.Props.C42_http1_round_trip",
    "Verif.Props.C42_http1_no_mismatch"
   ],
   "note": "Any notion of whitespace and lower-casing with the usual ASCII behaviour."
  },
  {
   "property": "C43",
   "status": "partial",
   "theorems": [
    "Verif.Props.C43_path_partial",
    "Verif.Props.C43_empty_path_false"
   ],
   "note": "The claim is false: IndexError for every request with an empty path."
  },
  {
   "property": "C44",
   "status": "partial",
   "theorems": [
    "Verif.Props.C44_session_partial",
    "Verif.Props.C44_no_mismatch_partial",
    "Verif.Props.C44_header_h_false",
    "Verif.Props.C44_response_host_false",
    "Verif.Props.C44_comma_false"
   ],
   "note": "Holds without headers named h, responses with :host, and commas in names; each exception shown by a witness. With and without the seven parameter."
  },
  {
   "property": "C45",
   "status": "proved",
   "theorems": [
    "Verif.Props.C45_block_readable",
    "Verif.Props.C45_block_written",
    "Verif.Props.C45_block_unique"
   ],
   "note": ""
  },
  {
   "property": "C46",
   "status": "proved",
   "theorems": [
    "Verif.Props.C46_compare_headers_iff",
    "Verif.Props.C46_compare_headers_reorder",
    "Verif.Props.C46_compare_headers_symm",
    "Verif.Props.C46_compare_cookies"
   ],
   "note": "For every set iteration order."
  },
  {
   "property": "C47",
   "status": "proved",
   "theorems": [
    "Verif.Props.C47_filter_headers",
    "Verif.Props.C47_filter_headers_idem"
   ],
   "note": ""
  },
  {
   "property": "C48",
   "status": "proved",
   "theorems": [
    "Verif.Props.C48_streamify_by",
    "Verif.Props.C48_streamify_count",
    "Verif.Props.C48_streamify_all_one",
    "Verif.Props.C48_streamify_host",
    "Verif.Props.C48_streamify_suffix",
    "Verif.Props.C48_streamify_no_host"
   ],
   "note": "streamifyBy covers host and public_suffix (the suffix list is an arbitrary function)."
  },
  {
   "property": "C49",
   "status": "proved",
   "theorems": [
    "Verif.Props.C49_merge_dols",
    "Verif.Props.C49_total_concatenates"
   ],
   "note": ""
  },
  {
   "property": "C50",
   "status": "partial",
   "theorems": [
    "Verif.Props.C50_totals_keep_results_partial",
    "Verif.Props.C50_totals_extend_first_session",
    "Verif.Props.C50_single_session_renamed"
   ],
   "note": "The claim is false: exact effect on message lists and names proved; results are untouched."
  },
  {
   "property": "C51",
   "status": "proved",
   "theorems": [
    "Verif.Props.C51_tsv"
   ],
   "note": ""
  },
  {
   "property": "C52",
   "status": "proved",
   "theorems": [
    "Verif.Props.C52_process_headers"
   ],
   "note": "Any lower-casing function."
  },
  {
   "property": "C53",
   "status": "proved",
   "theorems": [
    "Verif.Props.C53_har2hdrs",
    "Verif.Props.C53_har2hdrs_raises",
    "Verif.Props.C53_status_digits"
   ],
   "note": "urlsplit results are inputs of the model."
  },
  {
   "property": "C54",
   "status": "partial",
   "theorems": [
    "Verif.Props.C54_host_from_url",
    "Verif.Props.C54_host_is_whole_url",
    "Verif.Props.C54_host_header_lost"
   ],
   "note": "The claim is false: :host is always taken from the URL; witness; a URL without path becomes the host as a whole."
  },
  {
   "property": "C55",
   "status": "proved",
   "theorems": [
    "Verif.Props.C55_uvarint_readable",
    "Verif.Props.C55_uvarint_bytes",
    "Verif.Props.C55_uvarint_prefix_free",
    "Verif.Props.C55_enc_uvarint"
   ],
   "note": "int() of a string is a parameter."
  },
  {
   "property": "C56",
   "status": "proved",
   "theorems": [
    "Verif.Props.C56_one_result_per_message",
    "Verif.Props.C56_ratios",
    "Verif.Props.C56_baseline_key_error",
    "Verif.Props.C56_plain_baseline_registered",
    "Verif.Props.C56_baseline_with_parameters"
   ],
   "note": ""
  },
  {
   "property": "C57",
   "status": "proved",
   "theorems": [
    "Verif.Props.C57_mismatch_iff"
   ],
   "note": ""
  },
  {
   "property": "C58",
   "status": "proved",
   "theorems": [
    "Verif.Props.C58_codecs_measured_independently"
   ],
   "note": ""
  },
  {
   "property": "C59",
   "status": "proved",
   "theorems": [
    "Verif.Props.C59_twelve_raw"
   ],
   "note": "zlib is a parameter."
  },
  {
   "property": "C60",
   "status": "proved",
   "theorems": [
    "Verif.Props.C60_session"
   ],
   "note": "Params parsing not modelled; any parameters."
  },
  {
   "property": "C61",
   "status": "partial",
   "theorems": [
    "Verif.Props.C61_false",
    "Verif.Props.C61_partial"
   ],
   "note": "The claim is false: witness for every value of more than 65535 bytes. Proved if every message that raises has more than 255 headers or leaves the tables as they were."
  },
  {
   "property": "C62",
   "status": "partial",
   "theorems": [
    "Verif.Props.C62_total",
    "Verif.Props.C62_ranges",
    "Verif.Props.C62_partial",
    "Verif.Props.C62_last_partial",
    "Verif.Props.C62_false",
    "Verif.Props.C62_lost",
    "Verif.Props.C62_large_false"
   ],
   "note": "The claim is false for more than 256 operations of a kind, and for messages of more than one frame unless the last kind of operations begins in the first; both are characterised."
  },
  {
   "property": "C63",
   "status": "proved",
   "theorems": [
    "Verif.Props.C63_in_step"
   ],
   "note": "For messages of at most 128 pieces, none with the name of the static key (C67), as long as compress does not raise (C64_total says when)."
  },
  {
   "property": "C64",
   "status": "proved",
   "theorems": [
    "Verif.Props.C64_session",
    "Verif.Props.C64_total"
   ],
   "note": ""
  },
  {
   "property": "C65",
   "status": "proved",
   "theorems": [
    "Verif.Props.C65_entries"
   ],
   "note": ""
  },
  {
   "property": "C66",
   "status": "partial",
   "theorems": [
    "Verif.Props.C66_partial",
    "Verif.Props.C66_false",
    "Verif.Props.C66_raises"
   ],
   "note": "The claim is false: only the counter is bounded."
  },
  {
   "property": "C67",
   "status": "proved",
   "theorems": [
    "Verif.Props.C67_first",
    "Verif.Props.C67_raises"
   ],
   "note": ""
  },
  {
   "property": "C68",
   "status": "proved",
   "theorems": [
    "Verif.Props.C68_code",
    "Verif.Props.C68_optimal",
    "Verif.Props.C68_string"
   ],
   "note": ""
  },
  {
   "property": "C69",
   "status": "proved",
   "theorems": [
    "Verif.Props.C69_queue"
   ],
   "note": ""
  },
  {
   "property": "C70",
   "status": "partial",
   "theorems": [
    "Verif.Props.C70_single",
    "Verif.Props.C70_false"
   ],
   "note": "The claim is false; no index is in two groups."
  },
  {
   "property": "C71",
   "status": "partial",
   "theorems": [
    "Verif.Props.C71_total",
    "Verif.Props.C71_partial",
    "Verif.Props.C71_false"
   ],
   "note": "The claim is false: for every value there are two messages with the same frame. Holds for binary values of a length divisible by four and short names."
  },
  {
   "property": "C72",
   "status": "proved",
   "theorems": [
    "Verif.Props.C72_date",
    "Verif.Props.C72_early"
   ],
   "note": "strptime and int are parameters."
  },
  {
   "property": "C73",
   "status": "proved",
   "theorems": [
    "Verif.Props.C73_cookie",
    "Verif.Props.C73_raises"
   ],
   "note": "parse_dict_header is a parameter."
  },
  {
   "property": "C74",
   "status": "proved",
   "theorems": [
    "Verif.Props.C74_cookies",
    "Verif.Props.C74_age_false"
   ],
   "note": "BaseCookie is a parameter whose max-age attributes contain no NUL."
  },
  {
   "property": "C75",
   "status": "proved",
   "theorems": [
    "Verif.Props.C75_directives",
    "Verif.Props.C75_false"
   ],
   "note": "Exact, against a specification of directives; C75_false is a pair of headers sent alike."
  },
  {
   "property": "C76",
   "status": "partial",
   "theorems": [
    "Verif.Props.C76_method_partial",
    "Verif.Props.C76_method_false",
    "Verif.Props.C76_method_upper"
   ],
   "note": "The claim is false for methods of one byte; holds for all others."
  },
  {
   "property": "C77",
   "status": "proved",
   "theorems": [
    "Verif.Props.C77_etags",
    "Verif.Props.C77_accept"
   ],
   "note": "Preferences: for values that are not empty."
  },
  {
   "property": "C78",
   "status": "partial",
   "theorems": [
    "Verif.Props.C78_partial",
    "Verif.Props.C78_false",
    "Verif.Props.C78_raises",
    "Verif.Props.C78_unknown"
   ],
   "note": "The claim is false for the attribute a; what happens with other tokens is proved too."
  },
  {
   "property": "C79",
   "status": "proved",
   "theorems": [
    "Verif.Props.C79_decoded",
    "Verif.Props.C79_shorter",
    "Verif.Props.C79_raises"
   ],
   "note": "Exact."
  },
  {
   "property": "C80",
   "status": "partial",
   "theorems": [
    "Verif.Props.C80_partial",
    "Verif.Props.C80_false"
   ],
   "note": "The claim is false for repeated crumbs (and full tables, C84_lost); holds for at most 1024 different headers."
  },
  {
   "property": "C81",
   "status": "partial",
   "theorems": [
    "Verif.Props.C81_in_step",
    "Verif.Props.C81_partial",
    "Verif.Props.C81_false"
   ],
   "note": "Staying in step is proved for all sessions; the generated headers for sessions as in C80; false for codes of crumbs with NUL. Reading the operations from the wire is C110."
  },
  {
   "property": "C82",
   "status": "proved",
   "theorems": [
    "Verif.Props.C82_total",
    "Verif.Props.C82_raises"
   ],
   "note": ""
  },
  {
   "property": "C83",
   "status": "proved",
   "theorems": [
    "Verif.Props.C83_repeat",
    "Verif.Props.C83_raises"
   ],
   "note": ""
  },
  {
   "property": "C84",
   "status": "proved",
   "theorems": [
    "Verif.Props.C84_raises",
    "Verif.Props.C84_lost"
   ],
   "note": ""
  },
  {
   "property": "C85",
   "status": "proved",
   "theorems": [
    "Verif.Props.C85_false"
   ],
   "note": "The negation is proved for a family of messages."
  },
  {
   "property": "C86",
   "status": "proved",
   "theorems": [
    "Verif.Props.C86_raises"
   ],
   "note": ""
  },
  {
   "property": "C87",
   "status": "proved",
   "theorems": [
    "Verif.Props.C87_tape",
    "Verif.Props.C87_behind",
    "Verif.Props.C87_roundtrip"
   ],
   "note": ""
  },
  {
   "property": "C88",
   "status": "partial",
   "theorems": [
    "Verif.Props.C88_between_partial",
    "Verif.Props.C88_boundary",
    "Verif.Props.C88_false"
   ],
   "note": "The claim is false on byte boundaries; between them it is proved."
  },
  {
   "property": "C89",
   "status": "partial",
   "theorems": [
    "Verif.Props.C89_total_partial",
    "Verif.Props.C89_outside",
    "Verif.Props.C89_false"
   ],
   "note": "The claim is false: the bits already read are not taken off."
  },
  {
   "property": "C90",
   "status": "proved",
   "theorems": [
    "Verif.Props.C90_code",
    "Verif.Props.C90_words",
    "Verif.Props.C90_shipped"
   ],
   "note": ""
  },
  {
   "property": "C91",
   "status": "proved",
   "theorems": [
    "Verif.Props.C91_encode",
    "Verif.Props.C91_eof",
    "Verif.Props.C91_bits",
    "Verif.Props.C91_roundtrip",
    "Verif.Props.C91_total",
    "Verif.Props.C91_open_false",
    "Verif.Props.C91_next_false",
    "Verif.Props.C91_abort"
   ],
   "note": ""
  },
  {
   "property": "C92",
   "status": "partial",
   "theorems": [
    "Verif.Props.C92_same_partial",
    "Verif.Props.C92_tables_false"
   ],
   "note": "Same counts give the same code; the shipped counts differ."
  },
  {
   "property": "C93",
   "status": "proved",
   "theorems": [
    "Verif.Props.C93_again",
    "Verif.Props.C93_iff"
   ],
   "note": ""
  },
  {
   "property": "C94",
   "status": "partial",
   "theorems": [
    "Verif.Props.C94_back_partial",
    "Verif.Props.C94_back_false",
    "Verif.Props.C94_names_false"
   ],
   "note": "Proved with the additional empty response; the full claim is proved to be false for every input."
  },
  {
   "property": "C95",
   "status": "proved",
   "theorems": [
    "Verif.Props.C95_blocks",
    "Verif.Props.C95_total",
    "Verif.Props.C95_line_unique",
    "Verif.Props.C95_nonempty"
   ],
   "note": ""
  },
  {
   "property": "C96",
   "status": "proved",
   "theorems": [
    "Verif.Props.C96_nul",
    "Verif.Props.C96_chunks_false"
   ],
   "note": ""
  },
  {
   "property": "C97",
   "status": "proved",
   "theorems": [
    "Verif.Props.C97_echo",
    "Verif.Props.C97_first_line",
    "Verif.Props.C97_total",
    "Verif.Props.C97_step_false",
    "Verif.Props.C97_child_endless"
   ],
   "note": ""
  },
  {
   "property": "C98",
   "status": "partial",
   "theorems": [
    "Verif.Props.C98_accounts",
    "Verif.Props.C98_defaults",
    "Verif.Props.C98_total",
    "Verif.Props.C98_shows_partial",
    "Verif.Props.C98_limits",
    "Verif.Props.C98_others",
    "Verif.Props.C98_repeat_false"
   ],
   "note": "The lines shown are proved for frames without repeated lines; for repeated ones the claim is proved to be false."
  },
  {
   "property": "C99",
   "status": "proved",
   "theorems": [
    "Verif.Props.C99_dangles",
    "Verif.Props.C99_ok",
    "Verif.Props.C99_stored",
    "Verif.Props.C99_first",
    "Verif.Props.C99_room",
    "Verif.Props.C99_abort",
    "Verif.Props.C99_uaf_false"
   ],
   "note": ""
  }
 ]
}

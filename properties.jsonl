{"id": "C01", "title": "http2: every session decodes back to the header sets that were sent", "statement": "Take one http2 codec object used as encoder and one used as decoder (as Processor does). For any sequence of header lists, if every encode_headers call returns a frame, then feeding the frames in order to decode_headers raises no exception and the i-th result contains exactly the (name, value) pairs of the i-th input, no more and no fewer.", "quantifier": "for every request/response flag, every buffer_size (including ones smaller than the predefined table), every finite sequence of header lists, every header list content (any bytes, duplicates allowed)", "why_tests_cant": "the encoder state depends on the whole history; evictions, reference-set toggles and re-encoded evicted references only interact in particular histories", "anchors": ["compressor/http2/http2Codec.py: HTTP2Codec.encode_headers, decode_headers, compute_diff, encode_header, append_encoded_header, append_decoded_header", "compressor/http2/__init__.py: Processor.compress, decompress"]}
{"id": "C02", "title": "http2: encoder and decoder tables never drift apart", "statement": "After every message of every successful session the decoder's header table equals the encoder's: same headers in the same order, same reference-set membership, same accounted size.", "quantifier": "for every history of messages, at every message boundary", "why_tests_cant": "drift shows only many messages after the divergent step; a test would have to reach the particular eviction pattern", "anchors": ["compressor/http2/http2Codec.py: encoder_table, decoder_table, append_encoded_header, append_decoded_header"]}
{"id": "C03", "title": "http2: header table memory stays within buffer_size", "statement": "The accounted table size always equals the sum over entries of len(name)+len(value)+32, on the encoder and on the decoder; once it is at most buffer_size it stays so forever, for any messages encoded and for any bytes decoded (even malicious ones using incremental indexing or substitution).", "quantifier": "for every encoder history and for every decoder input byte string and prior table", "why_tests_cant": "an attacker-chosen byte string may use representations the encoder never emits; the bound is over all of them", "anchors": ["compressor/http2/http2Codec.py: entry_len, append_decoded_header, insert_decoded_header, append_encoded_header"]}
{"id": "C04", "title": "http2: no header is delivered twice", "statement": "If a header list has no duplicates and the table fits in buffer_size, the decoded list is a permutation of the input: each header is delivered exactly once, even if it was in the reference set, evicted while the message was being encoded and sent again.", "quantifier": "for every session of duplicate-free header lists", "why_tests_cant": "double delivery needs a referenced entry that is both re-encoded and still marked for emission, which depends on eviction order", "anchors": ["compressor/http2/http2Codec.py: encode_headers (lines 418-432), decode_headers (lines 206-209)", "compressor/http2/__init__.py: split_headers"]}
{"id": "C05", "title": "http2: encoding always terminates", "statement": "encode_headers returns (a frame or an exception) for every reachable state and every header list. The code violates this: the loop re-sending evicted references never updates its work list, so a referenced (':path','/') that gets evicted while encoding is re-sent forever. With a buffer that holds the predefined table, encoding always terminates unless the list contains (':path','/') and this is in the reference set. For every buffer, encoding that has not returned after one pass of the loop more than there are headers never returns.", "quantifier": "for every reachable encoder state and every header list", "why_tests_cant": "non-termination needs a specific eviction of a never-indexed header; a test suite that does not hit it always passes", "anchors": ["compressor/http2/http2Codec.py: encode_headers (lines 422-432), determine_representation"]}
{"id": "C06", "title": "http2: integers survive for every prefix length", "statement": "Reading back an integer written with a p-bit prefix (p in 0,5,6,7 as used, or any p from 0 to 8) under any flag bits returns the same value, and consumes exactly the bytes written, whatever bytes follow.", "quantifier": "for every prefix length 0..8, every natural number, every flag byte whose low p bits are zero, every following byte string", "why_tests_cant": "unbounded values and continuation-byte boundaries (127, 128, 2^14...) times all prefixes", "anchors": ["compressor/http2/http2Codec.py: write_integer, read_integer, MAX_VALUES"]}
{"id": "C07", "title": "http2: integer encoding is the HPACK one and is the shortest", "statement": "The bytes written for value v with prefix p are the HPACK integer representation: one byte holding v if v < 2^p-1, otherwise the saturated prefix followed by the base-128 little-endian digits of v-(2^p-1) with no superfluous trailing digit; in particular two different values never share an encoding and none is a prefix of another.", "quantifier": "for every prefix 0..8 and every value", "why_tests_cant": "interoperability is a statement about all values", "anchors": ["compressor/http2/http2Codec.py: write_integer"]}
{"id": "C08", "title": "http2: the decoder never hangs and never reads outside the frame", "statement": "For every byte string decode_headers either returns a header list or raises IndexError; it processes at most one representation per input byte, and the result depends only on the bytes after the 8-byte frame header and on the table.", "quantifier": "for every input byte string and every decoder table", "why_tests_cant": "robustness against all malformed inputs", "anchors": ["compressor/http2/http2Codec.py: decode_headers, read_next_byte, read_integer, read_literal_string"]}
{"id": "C09", "title": "http2: truncated frames are detected", "statement": "A frame cut short is rejected. The code violates this: string literals are sliced without a length check, so cutting bytes from the end of a frame that ends in a literal is silently accepted with a shortened value. Exactly these cut points are accepted: inside the frame header, where a representation begins or ends, and inside the value string at the end of one; every other cut raises IndexError.", "quantifier": "for every frame (of the encoder after any session, or of any origin) and every cut point", "why_tests_cant": "needs all cut points of all frames", "anchors": ["compressor/http2/http2Codec.py: decode_headers, read_next_byte, read_integer, read_literal_string (lines 140-249)"]}
{"id": "C10", "title": "http2: substitution keeps table order", "statement": "When a literal-with-substitution evicts its own target, the new entry is placed at the beginning of the table. The code violates this: list.insert is called with a negative index, so the entry lands in front of the k-th last element; the exact resulting position is characterised and witnesses given.", "quantifier": "for every table, every target index and every entry", "why_tests_cant": "only particular size/index combinations evict the target while leaving several newer entries", "anchors": ["compressor/http2/http2Codec.py: insert_decoded_header (lines 113-138)"]}
{"id": "C11", "title": "http2: an oversized frame is refused and does not corrupt the session", "statement": "If the encoded block exceeds 65535 bytes encode_headers raises instead of producing a frame with a wrong length field, and otherwise the length field equals the payload length. The second half of the expectation - that the failed call leaves the encoder unchanged - is false: the table has already been updated, so later frames no longer decode correctly (witness).", "quantifier": "for every state and header list", "why_tests_cant": "needs unbounded header sizes and the state after the failure", "anchors": ["compressor/http2/http2Codec.py: encode_headers (line 436)"]}
{"id": "C12", "title": "http2: Processor.decompress(compress(h)) is equivalent to h for the tester", "statement": "For every session of header dictionaries, the decompressed dictionary compares equal (compare_headers returns the empty string) to the one given to compress, provided every value piece has only plain spaces (no tabs/newlines) as surrounding whitespace.", "quantifier": "for every session of dictionaries, every dictionary order", "why_tests_cant": "depends on interaction of split/strip/join with set semantics and whole codec history", "anchors": ["compressor/http2/__init__.py: split_headers, join_headers, Processor", "lib/processors.py: Processors.compare_headers"]}
{"id": "C13", "title": "BitBucket is a first-in first-out bit queue", "statement": "Any interleaving of StoreBits/StoreBit/StoreBits4/8/16/32, PadToByteBoundary and GetBits/GetBit/GetBits4/8/16/32/AdvanceReadPtrToByteBoundary behaves like an unbounded queue of bits: what is read is exactly what was stored, in order, at any alignment; reading more than is stored raises and changes nothing.", "quantifier": "for every finite sequence of store and read operations and every alignment of both pointers", "why_tests_cant": "64 alignment combinations times unbounded lengths times interleavings", "anchors": ["compressor/delta2/bit_bucket.py: BitBucket"]}
{"id": "C14", "title": "BitBucket.StoreBits stores exactly the requested bits", "statement": "StoreBits((bytes, n)) appends exactly the first n bits of bytes when ceil(n/8) = len(bytes), never disturbs bits already stored, and the final consistency check never fires. When the byte list is longer than n requires, 8*(len-1)+((n-1) mod 8 + 1) bits are stored instead of n.", "quantifier": "for every bucket state, byte list and n", "why_tests_cant": "all alignments and lengths", "anchors": ["compressor/delta2/bit_bucket.py: StoreBits (84-125)", "compressor/bohe/bit_bucket.py: StoreBits22"]}
{"id": "C15", "title": "BitBucket.BitsRemaining counts unread bits", "statement": "BitsRemaining returns the number of unread bits. The code violates this: it is always one less than the number of unread bits, while AllConsumed is exact.", "quantifier": "for every bucket state", "why_tests_cant": "needs all states", "anchors": ["compressor/delta2/bit_bucket.py: BitsRemaining, AllConsumed, NumBits"]}
{"id": "C16", "title": "bohe: StoreBits22 stores a 22-bit value", "statement": "StoreBits22(v) appends the 22 least significant bits of v. The code violates this: it appends the 30 most significant bits of the 32-bit value, so the two lowest bits of v are lost and values differing only there are indistinguishable.", "quantifier": "for every value and every bucket state", "why_tests_cant": "needs all values", "anchors": ["compressor/bohe/bit_bucket.py: StoreBits22", "compressor/bohe/bohe.py"]}
{"id": "C17", "title": "delta2: variable-length indices survive at any bit alignment", "statement": "UnpackVarInt reads back exactly the value PackVarInt wrote and leaves the read pointer exactly after it, whatever was stored before and after.", "quantifier": "for every natural number, every bucket state, every following bits", "why_tests_cant": "unbounded values and all nibble boundaries", "anchors": ["compressor/delta2/spdy4_codec_impl.py: PackVarInt, UnpackVarInt"]}
{"id": "C18", "title": "delta2: fixed-width integers survive and out-of-range values are refused", "statement": "For 1 <= bitlen <= 32 and val < 2^bitlen, UnpackInt reads back what PackInt wrote. A value that does not fit is rejected with an exception - which the code only half does: the guard tests a single bit, so some too-large values are silently stored truncated (exact characterisation and witness).", "quantifier": "for every width 1..32 and every value", "why_tests_cant": "2^32 values per width", "anchors": ["compressor/delta2/spdy4_codec_impl.py: PackInt, UnpackInt"]}
{"id": "C19", "title": "delta2: canonical Huffman code is prefix-free and complete for any frequency table", "statement": "For any frequency table with symbols 0..n-1 (n >= 2), the canonical codes assigned have the lengths of the Huffman tree, no code is a prefix of another, every code fits its length, and the decode tree built from them leads each code to its symbol.", "quantifier": "for every frequency table", "why_tests_cant": "quantifies over all frequency tables, not just the two shipped", "anchors": ["compressor/delta2/huffman.py: BuildCodeTree, DiscoverDepthAndStoreIt, BuildCanonicalCodeTable, RebuildDecodeTreeFromCanonicalCodes"]}
{"id": "C20", "title": "delta2: Huffman strings survive, with correct end-of-string and padding", "statement": "UnpackStr(PackStr(s)) = s for every byte string s, at any alignment, and the read pointer ends exactly where the write pointer was after padding.", "quantifier": "for every byte string, frequency table with 257 symbols, alignment and following data", "why_tests_cant": "unbounded strings; EOF/padding confusion only at certain lengths", "anchors": ["compressor/delta2/huffman.py: EncodeToBB, Encode, DecodeFromBB", "compressor/delta2/spdy4_codec_impl.py: PackStr, UnpackStr"]}
{"id": "C21", "title": "delta2: Huffman code lengths are limited to 32 bits", "statement": "The constructor produces a code whose longest codeword has at most 32 bits for every frequency table. The code violates this: its retry loop divides every weight by the same divisor, which never changes the tree, so it either accepts the first tree or retries forever; the tree is proved independent of the divisor.", "quantifier": "for every frequency table and every divisor", "why_tests_cant": "no finite test can show that a loop never changes its outcome", "anchors": ["compressor/delta2/huffman.py: Huffman.__init__ (20-27), BuildCodeTree"]}
{"id": "C22", "title": "delta2: the Huffman tree is optimal", "statement": "For every frequency table no prefix-free code has a smaller total weighted length than the one constructed.", "quantifier": "for every frequency table and every competing prefix code", "why_tests_cant": "quantifies over all competing codes", "anchors": ["compressor/delta2/huffman.py: BuildCodeTree"]}
{"id": "C23", "title": "delta2: operations survive the wire", "statement": "Serialising any set of operations (payload up to 65527 bytes) and deserialising the frame returns the same group id and the same operations in the same order.", "quantifier": "for every list of operations per opcode (any counts, any indices, any strings), every group id 0..255", "why_tests_cant": "operation counts around 16, unaligned nibbles and padding at the end of the frame interact", "anchors": ["compressor/delta2/spdy4_codec_impl.py: OutputOps, WriteOpData, SerializeInstructions, DeserializeInstructions"]}
{"id": "C24", "title": "delta2: toggle ranges denote exactly the toggles they replace", "statement": "Collapsing runs of toggles into ranges does not change the set of toggled indices: expanding the resulting toggles and ranges gives exactly the original set, and each index once.", "quantifier": "for every set of indices", "why_tests_cant": "all run patterns", "anchors": ["compressor/delta2/spdy4_codec_impl.py: MutateTogglesToTrangs"]}
{"id": "C25", "title": "delta2: ring-buffer lookups find exactly the live entries", "statement": "In an LruStorage driven by any sequence of Reserve/Store/PopOne, every stored and not yet evicted item is found by Lookup under the sequence number it was given, sequence numbers of live items are pairwise distinct, entries are evicted oldest first, and an evicted number is not found until reused.", "quantifier": "for every operation sequence, every nonzero max_items <= max_seq_num - offset (or no bound on the numbers), across any number of sequence-number wrap-arounds; with max_items 0 a bare Store is unchecked and numbers collide (witness)", "why_tests_cant": "wrap-around interacts with evictions; tests cover one roll-over", "anchors": ["compressor/delta2/lrustorage.py: LruStorage.Reserve, PopOne, Store, SeqNumToIdxFromLeft, Lookup, FindKeyValEntries"]}
{"id": "C26", "title": "delta2: storage limits are respected", "statement": "After any history of the codec's Storage the number of entries never exceeds max_entries and the accounted byte size never exceeds max_byte_size, InsertVal never raises, and Store after a successful Reserve never raises MemoryError. A bare LruStorage with max_items 0 does not check the number of items in Store (witness).", "quantifier": "for every history and all limits", "why_tests_cant": "needs every history", "anchors": ["compressor/delta2/lrustorage.py: Reserve, Store", "compressor/delta2/spdy4_codec_impl.py: Storage.InsertVal"]}
{"id": "C27", "title": "delta2: max_byte_size bounds the buffered key and value characters", "statement": "The total number of key and value characters held is at most max_byte_size. The code violates this: temporary KV objects are never released, so key characters are never counted (and with refcnt_vals neither are values); only the value characters are bounded.", "quantifier": "for every history", "why_tests_cant": "the accounting error shows only in reference counts of temporaries", "anchors": ["compressor/delta2/lrustorage.py: RefCntString, KV.ByteSize", "compressor/delta2/spdy4_codec_impl.py: DecompressorExecuteOps, Store"]}
{"id": "C28", "title": "delta2: compressor and decompressor stay in step", "statement": "For every session whose payloads fit a frame, after each message the decompressor's storage and header groups equal the compressor's.", "quantifier": "for every parameter setting, every session, every host sequence", "why_tests_cant": "history dependent", "anchors": ["compressor/delta2/spdy4_codec_impl.py: MakeOperations, DecompressorExecuteOps, RealOpsToOpAndExecute"]}
{"id": "C29", "title": "delta2: every session decodes back to the headers that were sent", "statement": "For every session of header dictionaries whose cookie values contain no NUL and whose payloads fit a frame, the decompressed dictionary compares equal to the compressed one; a cookie value containing NUL (two Cookie lines in the HAR) is reported as a mismatch (witness).", "quantifier": "for every parameter setting, session, host sequence and set/dict iteration order", "why_tests_cant": "history dependent, unbounded", "anchors": ["compressor/delta2/spdy4_codec_impl.py: MakeOperations, DecompressorExecuteOps", "compressor/delta2/__init__.py: Processor"]}
{"id": "C30", "title": "delta2: index translation is a bijection on live entries", "statement": "Translating an index of a live entry to its distance from the newest entry and back gives the index again, distances are below the number of live entries, and different entries get different distances.", "quantifier": "for every storage state", "why_tests_cant": "wrap-around of sequence numbers", "anchors": ["compressor/delta2/spdy4_codec_impl.py: LruIdxToHgIdx, HgIdxToLruIdx"]}
{"id": "C31", "title": "delta2: oversized payloads are split correctly", "statement": "A message whose operations need more than 65527 bytes still round-trips. The code violates this: the whole payload is written after the first frame header, every frame is flagged as last, and the deserialiser stops after the first frame.", "quantifier": "for every operation list with a large payload", "why_tests_cant": "needs inputs over 64 KiB", "anchors": ["compressor/delta2/spdy4_codec_impl.py: SerializeInstructions (599-613)"]}
{"id": "C32", "title": "group ids: distinct hosts get distinct header groups", "statement": "IDStore.GetNext returns an id different from all ids handed out and not yet returned. True for the first max_id requests (255 for the codec), false afterwards: the counter wraps and reuses live ids (witness, for every max_id).", "quantifier": "for every sequence of GetNext/DoneWithId", "why_tests_cant": "needs more than 255 hosts in one session", "anchors": ["compressor/delta2/common_utils.py: IDStore", "compressor/delta2/__init__.py: Processor.compress"]}
{"id": "C33", "title": "headerdiff: every session decodes to exactly the list of headers sent", "statement": "For every session in which no two different headers have equal name+value concatenation, if every encodeHeaders call returns a frame then decodeHeaders returns exactly the same list of headers in the same order.", "quantifier": "for every non-negative buffer size, delta mode (off, full prefix, prefix up to a delimiter, limited number of uses), Huffman on or off with any table, every session of byte strings, every dictionary iteration order; deflate off", "why_tests_cant": "history dependent, unbounded", "anchors": ["compressor/headerdiff/headerDiffCodec.py: encodeHeaders, decodeHeaders, determineRepresentation", "compressor/headerdiff/__init__.py: Processor"]}
{"id": "C34", "title": "headerdiff: header identity is (name, value)", "statement": "A header is only ever sent as a reference to an equal header. The code violates this: its table is keyed by the concatenation name+value, so after ('ab','c') the header ('a','bc') is sent as a reference and decoded as ('ab','c') (witness).", "quantifier": "for every pair of headers", "why_tests_cant": "needs colliding splits", "anchors": ["compressor/headerdiff/headerDiffCodec.py: IndexedHeader.full, determineRepresentation"]}
{"id": "C35", "title": "headerdiff: encoder and decoder tables never drift apart", "statement": "After every message of a successful session, the decoder's list of indexed headers and names corresponds entry by entry to the encoder's, and the accounted sizes agree.", "quantifier": "for every session", "why_tests_cant": "history dependent", "anchors": ["compressor/headerdiff/headerDiffCodec.py: headersTableEncoder, headersTableDecoder, headerNamesEncoderTable, headerNamesDecoderTable"]}
{"id": "C36", "title": "headerdiff: the decoder's size limit is never tripped by the encoder", "statement": "With a non-negative buffer, the accounted size of indexed values never exceeds the buffer size on either side, so the decoder's overflow exception is never raised on frames produced by the encoder; with a negative buffer it is raised on the first frame with a header.", "quantifier": "for every session and every buffer size", "why_tests_cant": "history dependent", "anchors": ["compressor/headerdiff/headerDiffCodec.py: determineRepresentation (513-551), decodeHeaders"]}
{"id": "C37", "title": "headerdiff: integers survive for every prefix length including 14 bits", "statement": "readInteger returns what writeInteger wrote for prefixes of 0, 4, 5, 6 and 8 bits at any value and for the two-byte 14-bit prefix for values below 16383; for larger values with the 14-bit prefix writeInteger raises struct.error, and for all other prefix sizes a KeyError.", "quantifier": "for every prefix and value", "why_tests_cant": "unbounded values", "anchors": ["compressor/headerdiff/headerDiffCodec.py: writeInteger, readInteger"]}
{"id": "C38", "title": "headerdiff: at most 255 headers per message", "statement": "Encoding any number of headers works. The code violates this: the header count is packed in one byte, so a message with more than 255 headers raises, after the ages of all indexed headers were changed (and nothing else). What holds: a message is encoded exactly if it has at most 255 headers and its payload at most 65535 bytes, as long as the indices fit in the 14-bit integers.", "quantifier": "for every header list", "why_tests_cant": "needs large messages", "anchors": ["compressor/headerdiff/headerDiffCodec.py: encodeHeaders"]}
{"id": "C39", "title": "headerdiff: delta coding reconstructs the value", "statement": "The common prefix is the longest one; with delimiters it is the longest common prefix ending in a delimiter; a delta always refers to an indexed header of the same name, with the longest such prefix among the entries that may be used (in the mode with a number, those used fewer times), and prefix plus remainder is the value.", "quantifier": "for every pair of strings, every delimiter set and limit", "why_tests_cant": "all pairs of strings", "anchors": ["compressor/headerdiff/headerDiffCodec.py: common_prefix, common_prefix_limited"]}
{"id": "C40", "title": "headerdiff: Huffman strings survive", "statement": "HuffmanCodec.decode(encode(s) + rest) returns s and the exact number of bytes used, for every frequency table with at least two symbols covering the bytes of s and the end symbol.", "quantifier": "for every table, string and following bytes", "why_tests_cant": "unbounded", "anchors": ["compressor/headerdiff/Huffman.py: create_tree, Node.encoding, BitEncoder, BitDecoder, HuffmanCodec"]}
{"id": "C41", "title": "simple: seven-bit packing is lossless", "statement": "decode(encode(t)) = t for every 7-bit text. True exactly when t is empty or its length is not a multiple of 8; otherwise the last character is lost.", "quantifier": "for every 7-bit string", "why_tests_cant": "depends on length modulo 8 for all lengths", "anchors": ["compressor/simple/seven.py: encode, decode"]}
{"id": "C42", "title": "http1: formatting then parsing gives the headers back", "statement": "parse_http1(format_http1(h)) has the same headers as h (up to the attributes the tester ignores) for every well-formed header dictionary: names lower-case without ':' or whitespace, values without line breaks and surrounding whitespace, non-empty method/path/status without whitespace.", "quantifier": "for every well-formed dictionary, both directions, any dictionary order", "why_tests_cant": "unbounded", "anchors": ["compressor/__init__.py: format_http1, parse_http1", "compressor/http1/__init__.py: Processor"]}
{"id": "C43", "title": "http1: every HAR request can be processed", "statement": "A request whose URL has no path (http://example.com) survives the http1 codec. The code violates this: the request line then has only two words and parse_http1 raises IndexError.", "quantifier": "for every request with an empty path", "why_tests_cant": "needs the empty-path input", "anchors": ["compressor/__init__.py: parse_http1 (line 102)", "lib/harfile.py: har2hdrs"]}
{"id": "C44", "title": "simple: every session decodes back to the headers that were sent", "statement": "For every session of well-formed header dictionaries, decompress(compress(h)) compares equal to h, including headers sent as references to the previous message, for any max_entries (date and Huffman options off).", "quantifier": "for every session", "why_tests_cant": "history dependent", "anchors": ["compressor/simple/__init__.py: Processor.compress, decompress, hdr_name"]}
{"id": "C45", "title": "spdy3: the uncompressed header block is uniquely decodable", "statement": "Two header lists with the same serialised block are equal; a reference parser recovers the list.", "quantifier": "for every header list with lengths below 2^32", "why_tests_cant": "unbounded", "anchors": ["compressor/spdy3/__init__.py: Spdy3HeadersFormat"]}
{"id": "C46", "title": "tester: compare_headers reports a difference iff there is one", "statement": "compare_headers returns the empty string iff, ignoring :version, :status-text and connection, both dictionaries have the same set of (name, piece) where pieces are the ';'-separated cookie crumbs or NUL-separated values with surrounding spaces removed; hence it is reflexive, symmetric, insensitive to cookie order, header order and repetition.", "quantifier": "for every pair of dictionaries", "why_tests_cant": "all pairs", "anchors": ["lib/processors.py: compare_headers_impl, Processors.compare_headers"]}
{"id": "C47", "title": "tester: filter_headers removes exactly the hop-by-hop headers", "statement": "filter_headers keeps a header iff its name is not :status-text, :version, keep-alive, connection and not listed in the connection header (comma separated, spaces removed); values and order are unchanged; filtering twice equals filtering once.", "quantifier": "for every dictionary", "why_tests_cant": "all dictionaries", "anchors": ["lib/processors.py: Processors.filter_headers"]}
{"id": "C48", "title": "streamifiers: every message goes to exactly one request and one response stream, in order", "statement": "For each streamifier, for any message list: each key has one request stream and one response stream at adjacent positions, in order of first appearance; concatenating restricted to a key preserves the original order; nothing is lost or duplicated, the i-th request and i-th response of a stream belong to the same message.", "quantifier": "for every message list and key function", "why_tests_cant": "all lists", "anchors": ["lib/streamifiers/all_one.py", "lib/streamifiers/host.py", "lib/streamifiers/public_suffix.py"]}
{"id": "C49", "title": "totals: merging streams concatenates all measurements", "statement": "merge_dols gives for each codec the concatenation of both lists and has exactly the union of keys; the total stream produced by adding all sessions has for each codec the concatenation of all sessions' sizes, so its total size is the sum of the totals.", "quantifier": "for every list of sessions", "why_tests_cant": "all lists", "anchors": ["lib/stream.py: merge_dols, Stream.__add__", "compare_compressors.py: run"]}
{"id": "C50", "title": "totals: computing totals does not disturb the per-session results", "statement": "Adding streams leaves the operands unchanged. The code violates this: the sum shares and extends the first session's message list (witness and exact effect), and with a single session per direction the session itself is renamed TOTAL; sizes are untouched.", "quantifier": "for every list of sessions", "why_tests_cant": "aliasing is invisible unless operands are inspected afterwards", "anchors": ["lib/stream.py: Stream.__add__", "compare_compressors.py: run (lines 58-62)"]}
{"id": "C51", "title": "tsv: one numbered line per message", "statement": "Printing sessions as TSV yields for each direction lines numbered consecutively from 1 with one line per message and, in column order, the size recorded by each codec for that message, provided every codec recorded one size per message.", "quantifier": "for every list of sessions", "why_tests_cant": "all lists", "anchors": ["lib/stream.py: print_tsv", "compare_compressors.py: run"]}
{"id": "C52", "title": "har import: header lines are neither lost nor invented", "statement": "process_headers maps each lower-cased name (host renamed :host) to the NUL-joined values of all its header lines in order, and raises iff some name is empty.", "quantifier": "for every header line list", "why_tests_cant": "all lists", "anchors": ["lib/harfile.py: process_headers"]}
{"id": "C53", "title": "har import: requests and responses stay paired", "statement": "har2hdrs yields request and response lists of equal length, one per http/https entry, in order, each request carrying :method, :path (with query), :scheme, :host, :version and each response :status, :status-text, :version.", "quantifier": "for every HAR log", "why_tests_cant": "all logs", "anchors": ["lib/harfile.py: har2hdrs"]}
{"id": "C54", "title": "har import: the Host header line is kept", "statement": "A request's :host is the value of its Host header line if it has one. The code violates this: the membership test looks in the list of earlier requests, so :host is always overwritten from the URL (witness).", "quantifier": "for every HAR request with a Host header", "why_tests_cant": "needs differing Host and URL", "anchors": ["lib/harfile.py: har2hdrs (line 52)"]}
{"id": "C55", "title": "bohe: unsigned varints are uniquely decodable", "statement": "enc_uvarint produces the LEB128 encoding: a reference decoder recovers the value and the rest for every value and following bytes.", "quantifier": "for every natural number", "why_tests_cant": "unbounded", "anchors": ["compressor/bohe/bohe.py: enc_uvarint"]}
{"id": "C56", "title": "results: every codec's result is recorded once per message and relative to the baseline", "statement": "For each message process_session records for each distinct codec name exactly one size and the ratio size/baseline size (1 for the baseline); it raises KeyError iff some codec is present and the baseline option does not equal the name under which the baseline codec registers itself, which happens exactly when the baseline is given with parameters.", "quantifier": "for every codec list, baseline and session", "why_tests_cant": "all option combinations", "anchors": ["lib/processors.py: process_session, process_message, get_processors", "compressor/__init__.py: BaseProcessor.__init__"]}
{"id": "C57", "title": "tester: a mismatch is reported for a codec iff its decompressed headers differ", "statement": "process_message warns about a codec exactly when its decompressor returned headers that differ (in the sense of C46) from the filtered headers given to its compressor; codecs without decompressor are never reported.", "quantifier": "for every list of codecs in any state, every message and every set iteration order", "why_tests_cant": "quantifies over all codecs, including wrong ones", "anchors": ["lib/processors.py: process_message", "lib/headers.py: compare_headers, filter_headers"]}
{"id": "C58", "title": "tester: codecs are measured independently of each other", "statement": "In a session with distinctly named codecs, the list of sizes recorded for a codec is exactly the list of output lengths it produces when run on its own on the same (filtered) messages, its decompressor being fed its own output after each message.", "quantifier": "for every list of codecs, initial states, baseline and session", "why_tests_cant": "quantifies over all codecs and sessions", "anchors": ["lib/processors.py: process_session, process_message", "lib/stream.py: Stream.record_result"]}
{"id": "C59", "title": "spdy3: the first twelve bytes of the header block are sent uncompressed", "statement": "The frame starts with the first twelve bytes of the serialised headers themselves (the frame header they were meant to be is commented out); the rest is the zlib stream of the remaining block, so with a decompressor for that stream the reference parser recovers all headers.", "quantifier": "for every header list whose block has at least twelve bytes, every zlib state and every compression function", "why_tests_cant": "quantifies over all header lists and all compression functions", "anchors": ["compressor/spdy3/__init__.py: Processor.compress, Spdy3HeadersFormat"]}
{"id": "C60", "title": "headerdiff: what the tester sees of a Processor", "statement": "For every session of header dictionaries whose parts do not collide, if all messages are compressed then all are decompressed, and compare_headers reports nothing exactly if no value it sees starts or ends with white space other than spaces (which split_from_dict strips and the tester keeps).", "quantifier": "for every non-negative buffer size, delta mode, Huffman table, session, dictionary iteration order", "why_tests_cant": "history dependent, unbounded; needs rare white space", "anchors": ["compressor/headerdiff/__init__.py: HeaderTuple.split_from_dict, Processor.compress, Processor.decompress", "lib/processors.py: compare_headers"]}
{"id": "C61", "title": "headerdiff: an exception in the encoder leaves both sides in step", "statement": "After an exception in encodeHeaders, later messages still decode. The code violates this: with a payload of more than 65535 bytes encodeHeaders raises after its table was changed, and a later message is encoded as a reference that the decoder does not know (witness for every value of that length).", "quantifier": "for every value of more than 65535 bytes", "why_tests_cant": "needs huge messages followed by others", "anchors": ["compressor/headerdiff/headerDiffCodec.py: encodeHeaders"]}
{"id": "C62", "title": "delta: operations survive the wire format", "statement": "The serialiser never raises for operations with 16-bit indices and byte strings, toggles and ranges stand for the indices to be toggled, and the deserialiser returns the operations and the group id. The code violates the last part for more than 256 operations of one kind: the count written is 256 but all are written, so 257 toggles come back as 256. It also violates it for messages larger than a frame: the deserialiser looks at the length of the first frame only, so a kind of operations that begins after 65525 bytes is silently lost, while one that begins before is read to its end.", "quantifier": "for every list of operations, group id and Huffman table; the negation for every list of 257 indices", "why_tests_cant": "unbounded lists of operations; needs more than 256 of a kind", "anchors": ["compressor/delta/spdy4_codec_impl.py: OutputOps, SerializeInstructions, DeserializeInstructions, MutateTogglesToToggleRanges"]}
{"id": "C63", "title": "delta: compressor and decompressor stay in step", "statement": "After every message the decompressor's storage and header groups are equal to the compressor's.", "quantifier": "for every session of messages that fit their frames, all hosts, all limits, every iteration order", "why_tests_cant": "history dependent, unbounded", "anchors": ["compressor/delta/spdy4_codec_impl.py: Spdy4CoDe", "compressor/delta/__init__.py: Processor"]}
{"id": "C64", "title": "delta: sessions decode", "statement": "If compress does not raise, decompressing does not raise and compare_headers reports no difference exactly if no cookie contains a NUL. compress does not raise if the names of all headers in the session and the longest value fit into max_byte_size and max_entries is at most 65470.", "quantifier": "for every session whose messages have at most 128 pieces, all hosts, limits and iteration orders", "why_tests_cant": "history dependent, unbounded; eviction in the middle of a message", "anchors": ["compressor/delta/spdy4_codec_impl.py: MakeOperations, DecompressorExecuteOps", "compressor/delta/__init__.py: Processor", "lib/processors.py: compare_headers"]}
{"id": "C65", "title": "delta: the number of entries is limited", "statement": "There are never more stored entries than max_entries, or one.", "quantifier": "for every session, limit and iteration order", "why_tests_cant": "history dependent", "anchors": ["compressor/delta/spdy4_codec_impl.py: Storage.MakeSpace, InsertVal"]}
{"id": "C66", "title": "delta: max_byte_size limits the stored bytes", "statement": "The stored keys and values are never longer than max_byte_size. The code violates this: values are not added to state_size, only subtracted. The counter itself stays within the limit, and instead of evicting, MakeSpace raises NameError when a single header is too long.", "quantifier": "the counter for every session; NameError for every too long header", "why_tests_cant": "history dependent; needs small limits", "anchors": ["compressor/delta/spdy4_codec_impl.py: Storage.MakeSpace, InsertVal, RemoveVal"]}
{"id": "C67", "title": "delta: the table of common headers is not usable", "statement": "The constructor stores 65 entries with a leaked loop variable instead of the default headers, so the first message is sent in full, without any reference; a header whose name is that variable (an opcode name) makes compress raise AttributeError.", "quantifier": "for every first message, host and order", "why_tests_cant": "quantifies over all messages", "anchors": ["compressor/delta/spdy4_codec_impl.py: Storage.__init__ (664-671), MakeOperations"]}
{"id": "C68", "title": "delta: Huffman code of the first delta compressor", "statement": "The constructor succeeds for every table of counts; the code is prefix-free and complete and no prefix-free code is shorter for these counts; strings of bytes survive packing between other bytes.", "quantifier": "for every table of counts of at least two symbols, every string", "why_tests_cant": "quantifies over all tables, codes and strings", "anchors": ["compressor/delta/huffman.py: Huffman", "compressor/delta/spdy4_codec_impl.py: PackStr, UnpackStr"]}
{"id": "C69", "title": "delta: the linked list is a queue", "statement": "After any appends of new nodes and removals of members the linked list holds the members in order of their last append.", "quantifier": "for every sequence of calls", "why_tests_cant": "unbounded sequences of pointer updates", "anchors": ["compressor/delta/spdy4_codec_impl.py: LRU (578-611)"]}
{"id": "C70", "title": "delta: the group of a host holds the headers last sent to it", "statement": "After a message the header group of its host holds the stored headers of the message. The code violates this: RenumberVELruIdx reuses the name group_id as a loop variable, so a header that was in other groups ends in the last of these only. No index is in two groups.", "quantifier": "single membership for every session; a witness for the violation", "why_tests_cant": "history dependent, needs several hosts", "anchors": ["compressor/delta/spdy4_codec_impl.py: RenumberVELruIdx (891-902), AdjustHeaderGroupEntries"]}
{"id": "C71", "title": "bohe: frames can be read", "statement": "The names, encoded values and flags of a message can be read from its frame. The code violates this: StoreBits22 drops the two lowest bits of a value's length, and binary values have no end mark. It holds for binary values of a length divisible by four and names of the table or of at most 127 characters. compress raises struct.error for names outside the table of more than 255 characters and else only if an encoder raises.", "quantifier": "for every message of byte strings whose values and codes are shorter than 2^32, and every Huffman coder", "why_tests_cant": "unbounded messages; ambiguity is about pairs of messages", "anchors": ["compressor/bohe/__init__.py: compress", "compressor/bohe/bit_bucket.py: StoreBits22"]}
{"id": "C72", "title": "bohe: dates", "statement": "A date header never raises and is sent as a varint: seconds since 1990 for a date, else the number it contains, else 0; everything before 1990 and everything that is neither date nor number becomes the same byte 0.", "quantifier": "for every value and every behaviour of strptime and int", "why_tests_cant": "all strings and both fallbacks", "anchors": ["compressor/bohe/bohe.py: enc_date"]}
{"id": "C73", "title": "bohe: cookies can be read", "statement": "The encoding of Cookie determines the list of names and decoded values in order; it raises iff attempt_decode raises for one of the values.", "quantifier": "for every value and every result of parse_dict_header", "why_tests_cant": "unbounded lists of cookies", "anchors": ["compressor/bohe/bohe.py: enc_cookie"]}
{"id": "C74", "title": "bohe: Set-Cookie can be read", "statement": "The encoding of Set-Cookie determines all cookies in order with name, decoded value, path, domain and one number; whether the number is an age or a date is not sent, so a session cookie looks like one with max-age=0.", "quantifier": "for every value and every result of BaseCookie without NUL in max-age", "why_tests_cant": "unbounded lists of cookies", "anchors": ["compressor/bohe/bohe.py: enc_setcookie"]}
{"id": "C75", "title": "bohe: only three directives of Cache-Control are sent", "statement": "The encoding succeeds iff the arguments of max-age, max-stale and min-fresh are numbers and consists of these three, each 1 if it occurs without argument and else taken from its last occurrence; nothing else in the header matters, also for responses, since the encoder is always called with the default type.", "quantifier": "for every header value", "why_tests_cant": "all header values", "anchors": ["compressor/bohe/bohe.py: enc_cachecontrol, _parse_cache_control, encode"]}
{"id": "C76", "title": "bohe: methods can be told apart", "statement": "Different methods are sent as different strings. The code violates this for methods of one byte only; methods in upper case are never abbreviated.", "quantifier": "for every pair of methods", "why_tests_cant": "all pairs of strings", "anchors": ["compressor/bohe/bohe.py: enc_method"]}
{"id": "C77", "title": "bohe: entity tags and preferences", "statement": "Entity tags are sent as their number and the digest of each; Accept headers as the values with positive quality in order of preference, separated by NUL.", "quantifier": "for every value and every behaviour of md5 and the parser", "why_tests_cant": "unbounded lists", "anchors": ["compressor/bohe/bohe.py: enc_etag, enc_accept"]}
{"id": "C78", "title": "bohe: P3P tokens can be read", "statement": "Every token of a compact policy can be read from its byte. The code violates this for the attribute a, which has the code of no attribute; other attributes than a, i, o raise ValueError, and an unknown token drops the whole policy. It holds for tokens of the table with i, o or nothing.", "quantifier": "for every list of tokens", "why_tests_cant": "all token lists", "anchors": ["compressor/bohe/bohe.py: enc_p3p"]}
{"id": "C79", "title": "bohe: values that look encoded are decoded", "statement": "attempt_decode maps the hexadecimal form of every byte string, and its base64 form if that is not hexadecimal, to the string itself, without a mark; it never lengthens a value and raises (TypeError) exactly for an even number of hexadecimal digits followed by a newline.", "quantifier": "for every byte string", "why_tests_cant": "all byte strings", "anchors": ["compressor/bohe/bohe.py: attempt_decode"]}
{"id": "C80", "title": "delta_bohe: the header group is the message", "statement": "After every message the header group of the codec holds exactly the headers of the message: names with the codes of their values, and the codes of the crumbs of cookies. The code violates this: a crumb that occurs twice and is in the table is toggled twice, so it is lost; and a full table drops values the message needs. It holds for sessions with at most 1024 different headers (63 of them initial) and cookies without repeated crumbs.", "quantifier": "for every session, library behaviour, iteration order and number of messages", "why_tests_cant": "state depends on all earlier messages", "anchors": ["compressor/delta_bohe/spdy4_codec_impl.py: MakeOperations, ProcessKV, DiscoverTurnOffs, AdjustHeaderGroupEntries"]}
{"id": "C81", "title": "delta_bohe: a receiver would stay in step", "statement": "A receiver that executes the operations and generates headers never raises and has the same table and the same header group after every message, in every session that is compressed without error (full tables included). The headers it generates are the codes that were sent; the code violates this for cookie codes with NUL bytes, which every cookie without value has. It holds for all other headers.", "quantifier": "for every session and iteration order", "why_tests_cant": "unbounded sessions; the Processor has no decompressor that could be run", "anchors": ["compressor/delta_bohe/spdy4_codec_impl.py: RealOpsToOpAndExecute, ExecuteOp, GenerateAllHeaders"]}
{"id": "C82", "title": "delta_bohe: which sessions are accepted", "statement": "A session with at most 1024 different headers is compressed without error if every value fits into 64 KiB with the names of the session and the indices do not run out. A new value of more than 64872 bytes always ends in NameError.", "quantifier": "for every session", "why_tests_cant": "unbounded sessions", "anchors": ["compressor/delta_bohe/spdy4_codec_impl.py: MakeSpace, InsertVal", "compressor/delta_bohe/__init__.py: compress"]}
{"id": "C83", "title": "delta_bohe: indices run out", "statement": "A message can be repeated any number of times; but after 65472 messages with at least one header each, however few different ones, no message can leave out a header of its predecessor: compress raises.", "quantifier": "for every session of that length", "why_tests_cant": "needs 65473 messages with arbitrary content", "anchors": ["compressor/delta_bohe/spdy4_codec_impl.py: RenumberVELruIdx, GetNextIdx, PackInt"]}
{"id": "C84", "title": "delta_bohe: a full table", "statement": "After any 961 different new paths in messages of their own, a message with another one ends in TypeError. If the next message instead repeats the oldest path, refers to a default header and has one new header, it is sent but the path is dropped from it.", "quantifier": "for every choice of the paths", "why_tests_cant": "table with 1024 entries, all contents", "anchors": ["compressor/delta_bohe/spdy4_codec_impl.py: PopOne, MakeSpace, RemoveVEFromAllHeaderGroups"]}
{"id": "C85", "title": "delta_bohe: the wire format is ambiguous", "statement": "Different messages are sent as different bytes. The code violates this: values under names with an encoder are written without length or end mark. For all strings x, y, z the headers accept: x 0 i y, :method: z and accept: x, :method: y 0 i z (i is the index of :method) of a first message give the same bytes.", "quantifier": "for every order of the initial dictionary and all strings", "why_tests_cant": "family of all strings", "anchors": ["compressor/delta_bohe/spdy4_codec_impl.py: PackStr, SerializeInstructions"]}
{"id": "C86", "title": "delta_bohe: repeated new crumbs are refused", "statement": "A cookie with a crumb that occurs twice and is not in the table makes compress raise.", "quantifier": "for every session before it", "why_tests_cant": "every state of the codec", "anchors": ["compressor/delta_bohe/spdy4_codec_impl.py: ProcessKV, InsertVal"]}
{"id": "C87", "title": "C++ bit bucket: a tape of bits", "statement": "Every sequence of StoreBit, StoreBits, StoreBytes, StoreByteAligned, GetBits, GetBit and Seek in which the bytes passed are as many as the bits need and only written bits are read runs without undefined behaviour and without abort(), delivers what a tape of bits with a read position delivers, keeps NumBits, BitsConsumed and AllConsumed exact and stores the bits packed, most significant bit first. Behind the end GetBit delivers 0. What is stored with StoreBits anywhere comes back from GetBits.", "quantifier": "for every sequence of calls and all arguments", "why_tests_cant": "sequences of calls of any length at every bit offset", "anchors": ["compressor/delta/bit_bucket.h: StoreBit, StoreBits, StoreBytes, StoreByteAligned, GetBits, GetBit, Seek, NumBits, BitsConsumed, AllConsumed", "compressor/delta_bohe/bit_bucket.h"]}
{"id": "C88", "title": "C++ bit bucket: StoreBits8, StoreBits16 and StoreBits32", "statement": "The three methods append the 8, 16 or 32 bits of their argument as StoreBits does. The code violates this on byte boundaries: the bytes are appended but not counted, and the next StoreBit changes the last of them. Between byte boundaries it holds.", "quantifier": "for every state of the bucket and every argument", "why_tests_cant": "every state reachable by any sequence of calls", "anchors": ["compressor/delta/bit_bucket.h: StoreBits8, StoreBits16, StoreBits32, StoreBit"]}
{"id": "C89", "title": "C++ bit bucket: reading past the end is refused", "statement": "GetBits aborts if asked for more bits than are left. The code violates this: the number is compared with the bits ever stored. Asked for more than that it aborts; after all bytes have been read, any further read of up to that number goes outside the vector; inside the last byte bits are delivered that were never stored.", "quantifier": "for every state of the bucket and every number of bits", "why_tests_cant": "every state reachable by any sequence of calls", "anchors": ["compressor/delta/bit_bucket.h: GetBits, NumBits"]}
{"id": "C90", "title": "C++ Huffman coder: the code and its tables for decoding", "statement": "After Init of a new object with a table of counts for the symbols 0 to 256 the code words are free of prefixes and use up all bit strings; each is as long as its symbol is deep in the tree, at most 32 bits. DecodeFromWord, which goes through at most four tables of 256 entries, finds for every word of 32 bits the symbol whose code word the word begins with, and its length, without access outside the tables. Init succeeds on the shipped tables.", "quantifier": "for every table of counts, every arithmetic on the weights and every 32-bit word", "why_tests_cant": "4294967296 words for each of infinitely many tables", "anchors": ["compressor/delta/huffman.h: Init, BuildCodeTree, BuildCanonicalCodeTable, BuildDecodeTable, BuildDecodeHelper, DecodeFromWord", "compressor/delta/header_freq_tables.cc", "compressor/delta_bohe/huffman.h"]}
{"id": "C91", "title": "C++ Huffman coder: Encode and Decode", "statement": "Encode appends the code words of the bytes to a bucket with any content; Decode delivers the text again, limited by the end of string, by the number of bits or by both, at any position and whatever follows, and limited by bits it ends on any content. After Decode the read position is 32 bits behind the beginning of the last symbol and not behind the string, so a second string cannot be read; without an end of string in the bucket the first mode never ends; without any limit Decode aborts, so the empty string cannot be sent without an end of string.", "quantifier": "for every table of counts, text, content and position of the bucket", "why_tests_cant": "all texts at all positions behind all contents", "anchors": ["compressor/delta/huffman.h: Encode, Decode", "compressor/delta/bit_bucket.h: ShiftBitsIntoWord, ConsumeBits"]}
{"id": "C92", "title": "C++ and Python Huffman coders agree", "statement": "From the same counts and weights the C++ program and huffman.py build the same tree and the same code words. The code violates this for what is shipped: the tables of counts differ, and the codes with them.", "quantifier": "for every table of counts and every arithmetic on the weights", "why_tests_cant": "all tables of counts", "anchors": ["compressor/delta/huffman.h: BuildCodeTree, BuildCanonicalCodeTable", "compressor/delta/header_freq_tables.cc", "compressor/delta2/huffman.py: BuildCanonicalCodeTable", "compressor/delta2/header_freq_tables.py", "compressor/delta/header_freq_tables.py"]}
{"id": "C93", "title": "C++ Huffman coder: Init again", "statement": "Init of an object used before makes the code words anew but only appends to the tables for decoding: DecodeFromWord finds the symbols by the first table of counts and takes the number of bits from the second. The object decodes by its own code exactly if both tables of counts lead to the same code words.", "quantifier": "for every two tables of counts and every 32-bit word", "why_tests_cant": "all pairs of tables, all words", "anchors": ["compressor/delta/huffman.h: Init, BuildDecodeTable, DecodeFromWord"]}
{"id": "C94", "title": "C++ sample: HAR translator and parser", "statement": "What harfile_translator.py prints for requests and as many responses, cut into any chunks by the pipe, is read back by ParseHarFiles as the same requests and responses, if no name is empty or has a colon after its first character and no name or value has a newline or a NUL. The code violates this for every input: the responses come back with an empty frame too many.", "quantifier": "for all lists of frames, all orders of the headers and all ways to cut the text into chunks", "why_tests_cant": "unbounded lists of frames, all chunkings", "anchors": ["compressor/delta/harfile_translator.py: FormatIt, main", "compressor/delta/spdy4_headers_sample.cc: ParseHarFiles", "compressor/delta/trivial_http_parse.h: ParseStream"]}
{"id": "C95", "title": "C++ sample: ParseStream on every text", "statement": "ParseStream never leaves its vectors. It returns 0 exactly if some line is neither empty nor of the form name, colon, space, value; otherwise the blocks between empty lines are requests and responses in turn, and only a last request without headers is dropped. With vectors that are not empty it reads nothing, and its caller reports success.", "quantifier": "for all texts", "why_tests_cant": "all texts", "anchors": ["compressor/delta/trivial_http_parse.h: GetHeaderFramePtr, ParseStream", "compressor/delta/spdy4_headers_sample.cc: ParseHarFiles"]}
{"id": "C96", "title": "C++ sample: NUL bytes in the pipe", "statement": "The parser is given what the translator wrote exactly if there is no NUL in it. A header with several values has one: the rest of the chunk is lost, and the result depends on how the pipe cuts the text.", "quantifier": "for all lists of chunks", "why_tests_cant": "all texts and all chunkings", "anchors": ["compressor/delta/spdy4_headers_sample.cc: ParseHarFiles", "lib/harfile.py: process_headers"]}
{"id": "C97", "title": "fork and the sample child process", "statement": "With sample_exec_codec.py as child, compress of fork returns the HTTP/1 message without its last empty line and leaves nothing in the pipes, if no header has a newline and the first line is not blank. It never waits for ever, whatever the headers are. With an empty line inside a value the answers get out of step. When its input ends the child writes newlines without end.", "quantifier": "for all header dictionaries and all states of the pipes", "why_tests_cant": "all headers, all sequences of calls, a process that does not end", "anchors": ["compressor/fork/__init__.py: Processor.compress", "sample_exec_codec.py: main", "compressor/__init__.py: format_http1"]}
{"id": "C98", "title": "C++ encoder: state after any frames", "statement": "In every state of the C++ encoder the accounts of bytes and values are exact, every value is stored under its name, the eviction list has exactly the entries that may be evicted, and the default headers are stored. No frame fails before its operations are written. After a frame its header group shows exactly its lines, with cookies cut into crumbs, both limits are kept unless all that could be evicted are lines of the frame, and other groups gain nothing.", "quantifier": "for all sequences of frames, changes of the limits, header groups, orders of the sets", "why_tests_cant": "all histories of the encoder, with eviction at any point", "anchors": ["compressor/delta/spdy4_headers_codec.cc: Storage, ProcessFrame, ExecuteInstructionsExceptERefs"]}
{"id": "C99", "title": "C++ encoder: when a frame can be written", "statement": "A frame reads freed memory exactly if an entry that its group showed before is evicted while it is processed; every other frame of bytes can be written, if bit 15 of its stream id is clear. So frames with stored lines only, first frames of a group, and frames for which there is room are written. With the limits of the sample program two frames with paths of 501 bytes suffice to read freed memory. Stream ids with bit 15 set abort.", "quantifier": "for all states, frames, stream ids, buckets and codes", "why_tests_cant": "undefined behaviour need not be visible, and depends on eviction", "anchors": ["compressor/delta/spdy4_headers_codec.cc: PreProcessToggles, ToggleOp::idx, WriteControlFrameStreamId, SetMaxVals", "compressor/delta/spdy4_headers_sample.cc: DoSPDY4CoDec"]}
{"id": "C100", "title": "C++ encoder: what is on the wire", "statement": "What a frame writes determines its lines, given the state. It is the boilerplate, then the lines that were not stored, in blocks of at most 255 clones and KVStos.", "quantifier": "for all states, frames, stream ids, buckets and codes", "why_tests_cant": "all pairs of messages", "anchors": ["compressor/delta/spdy4_headers_codec.cc: SerializeInstructions, PreProcessToggles, OutputOps, WriteControlFrameBoilerplate"]}
{"id": "C101", "title": "headerdiff: a Processor does what its parameters say", "statement": "The constructor raises exactly if some buffer= or deflate= has no integer as its value. Otherwise each of buffer, deflate, delta, delta_type and huffman is what the last parameter of that name says, or its default. The delta types are as in the README: nothing for full prefixes, a number for a limit, a quoted set of characters with commas written as \\coma for prefixes that end in one of them.", "quantifier": "for all lists of parameters", "why_tests_cant": "all lists of strings", "anchors": ["compressor/headerdiff/__init__.py: Processor.__init__, parse_bool, parse_delta_type", "compressor/headerdiff/headerDiffCodec.py: __init__", "compressor/headerdiff/README.md"]}
{"id": "C102", "title": "headerdiff with deflate: every session decodes", "statement": "With the parameter deflate=9..15, a session of messages that are all encoded is decoded to the same headers.", "quantifier": "for every zlib library that meets a contract, every window size, dictionary, configuration and session", "why_tests_cant": "state of two zlib streams and two tables", "anchors": ["compressor/headerdiff/headerDiffCodec.py: initCodec, encodeHeaders, decodeHeaders"]}
{"id": "C103", "title": "http1_gzip and http1_huffman: the frames are the HTTP/1 texts", "statement": "A receiver that starts from the dictionary of the constructor inflates the frames of a session to the HTTP/1 texts of its messages, each from its own frame, and parses them to the same headers. The Processors themselves cannot decompress.", "quantifier": "for every zlib library that meets a contract, every session and every dictionary", "why_tests_cant": "history dependent; all sessions", "anchors": ["compressor/http1_gzip/__init__.py: Processor", "compressor/http1_huffman/__init__.py: Processor", "compressor/__init__.py: BaseProcessor.decompress"]}
{"id": "C104", "title": "simple with all its parameters: every session decodes back", "statement": "For every list of parameters (seven, huffman, date, max_entries=n) with which a Processor can be made, and every session of well-formed header dictionaries, the headers arrive unchanged, apart from :version and :status-text; references to headers with dates included. A Processor can be made exactly if int can read max_entries.", "quantifier": "for all lists of parameters, sessions, date libraries and zlib libraries that meet a contract", "why_tests_cant": "history dependent; all sessions and parameters", "anchors": ["compressor/simple/__init__.py: Processor, parse_date, format_date, DATE"]}
{"id": "C105", "title": "delta2_bohe storage: what it holds and what a number or a search gives", "statement": "After any headers of at most 16384 bytes each have been stored, the storage holds the longest part of the history with at most 1024 headers and 16384 bytes; the number of a header in it gives that header; the search finds a header that is in it. A larger header raises IndexError.", "quantifier": "for all sequences of headers, all positions, all names and values", "why_tests_cant": "the numbers wrap around after 65472 headers; all histories", "anchors": ["compressor/delta2_bohe/lrustorage.py: LruStorage", "compressor/delta2_bohe/spdy4_codec_impl.py: Storage"]}
{"id": "C106", "title": "delta2_bohe: a receiver of the operations hears the headers of every message", "statement": "A receiver that executes the operations of every message of a session and generates the headers raises no exception, gets the encoded headers of every message (the crumbs of a cookie in any order) and holds the same storage and groups as the sender.", "quantifier": "for all sessions of header dictionaries that can be encoded, all groups and all dictionary orders", "why_tests_cant": "history dependent; eviction and the copying of entries", "anchors": ["compressor/delta2_bohe/spdy4_codec_impl.py: MakeOperations, ExecuteOps, GenerateAllHeaders, AdjustHeaderGroupEntries"]}
{"id": "C107", "title": "delta2_bohe: the bytes of a session say the headers", "statement": "A session is compressed without exception, and a receiver that deserialises the frames and executes the operations hears the headers of every message.", "quantifier": "for all sessions, Huffman coders made from a frequency table, encodings of values and hosts", "why_tests_cant": "history dependent; all strings and all codes", "anchors": ["compressor/delta2_bohe/__init__.py: Processor.compress", "compressor/delta2_bohe/spdy4_codec_impl.py: SerializeInstructions, DeserializeInstructions, PackStr"]}
{"id": "C108", "title": "delta2_bohe: the same message again and again", "statement": "A message with one header of at most 16 bytes, whose name is not found in the static table, is compressed again and again to the same host: exactly 65536 times, then IndexError is raised.", "quantifier": "for all such headers, encodings, Huffman coders, hosts, dictionary orders and numbers of repetitions", "why_tests_cant": "the exception is raised by message 65537 only", "anchors": ["compressor/delta2_bohe/spdy4_codec_impl.py: AdjustHeaderGroupEntries", "compressor/delta2_bohe/lrustorage.py: Lookup"]}
{"id": "C109", "title": "delta2_bohe: hosts and header groups", "statement": "In a session that is compressed without exception there are at most 255 different normalised hosts, and two messages are put into the same header group exactly if their normalised hosts are equal.", "quantifier": "for all sessions, encodings, Huffman coders and normalising functions", "why_tests_cant": "all sessions; many hosts", "anchors": ["compressor/delta2_bohe/__init__.py: Processor.compress", "compressor/delta2_bohe/common_utils.py: IDStore"]}
{"id": "C110", "title": "delta_bohe: a receiver would hear the bytes", "statement": "A fresh receiver that reads the bytes of a session (RealOpsToOpAndExecute, GenerateAllHeaders) hears the headers of every message. The code violates this for names that bohe encodes, because the receiver takes all strings for Huffman code: a header is lost. It also depends on both ends iterating over the initial dictionary in the same order. It holds for sessions with at most 1024 different headers, none of them under such a name, at most 128 headers in a message and messages of at most 65536 bytes.", "quantifier": "for every session, code table, library behaviour and iteration order", "why_tests_cant": "unbounded sessions; the Processor has no decompressor that could be run", "anchors": ["compressor/delta_bohe/spdy4_codec_impl.py: DeserializeInstructions, RealOpsToOps, RealOpsToOpAndExecute, ExecuteOp, GenerateAllHeaders"]}
{"id": "C111", "title": "Word statistics count exactly", "statement": "Whatever operations are looked at under whatever descriptions and in whatever order, WordFreak and Stats.Process never raise, there are statistics for exactly the descriptions used, and each of them gives exactly how often every character occurs in the keys and values looked at under it, how many strings there were, and how many of each length.", "quantifier": "for every sequence of calls with any operations and descriptions", "why_tests_cant": "unbounded sequences of calls and strings of any length", "anchors": ["compressor/delta2/word_freak.py: WordFreak.LookAt, look", "compressor/delta2/spdy4_codec_impl.py: Stats.Process 422-434"]}
{"id": "C112", "title": "Word statistics can be listed and printed", "statement": "SortedByFreq lists the characters with their counts; the printed table determines all counts and its lines have at most 80 (delta) or 60 (delta2) characters. The code violates the first: SortedByFreq always raises ValueError, because it computes chr(256). The second holds, except that a line with a single pair may be longer.", "quantifier": "for every state of the statistics", "why_tests_cant": "all counts; SortedByFreq is not called by any test", "anchors": ["compressor/delta/word_freak.py: SortedByFreq, __repr__", "compressor/delta2/word_freak.py: SortedByFreq, __repr__"]}
{"id": "C113", "title": "C++ SPDY/3 frames can be read back", "statement": "What DoSPDY3CoDec produces can be read back as SPDY/3 frames with the headers given, and the size it reports is the number of bytes. The code violates the framing: the length field of every frame is 3 too large, so a reader swallows three bytes of the next frame. The contents arrive, in order and once for each iteration, at a reader that gets the frames one by one and does not need the length, and the size is exact.", "quantifier": "for every list of frames, number of iterations and zlib library that keeps its contract", "why_tests_cant": "unbounded frames and headers; nothing in the repository reads these frames", "anchors": ["compressor/delta/spdy4_headers_sample.cc: SPDY3Formatter, DoSPDY3CoDec"]}
{"id": "C114", "title": "C++ bits, buckets and codes are shown as they are", "statement": "FormatAsBits shows exactly the first bits of a vector or integer in groups of eight, and reads outside if and only if there are fewer; ReadableUShort shows different characters differently, in printable characters, and aborts exactly above 257; AsString of a bit bucket shows exactly the bits stored, their number and the number in the last byte; DebugStr marks exactly the bits read; printing a Huffman coder does not fault and determines the code.", "quantifier": "for every vector, integer, number of bits, sequence of operations on a bucket and coder made for 257 symbols", "why_tests_cant": "unbounded vectors, histories and tables", "anchors": ["compressor/delta/utils.h: FormatAsBits", "compressor/delta/utils.cc: ReadableUShort", "compressor/delta/bit_bucket.h: AsString, DebugStr", "compressor/delta/huffman.h: operator<<"]}
{"id": "C115", "title": "The C++ test of the bit bucket tests the bit bucket", "statement": "For every list of tests in which as many bytes are given as their bits need, the test program aborts if and only if a text that it expects is not that of the bits stored so far; otherwise everything read back at every offset is right, and FAILED is printed exactly for the wrong numbers of bytes.", "quantifier": "for every list of legal tests", "why_tests_cant": "the program itself tries two lists", "anchors": ["compressor/delta/bit_bucket_test.cc: TestStoreBits, TestGetBits, TestBytesRequired, RunTests"]}
{"id": "C116", "title": "The C++ test of the Huffman coder passes for every text", "statement": "With any coder made for 257 symbols the test program passes for every string of bytes that is not empty, with and without end of string. For the empty string it aborts, as without an end of string Decode does not accept the length 0.", "quantifier": "for every coder and string", "why_tests_cant": "unbounded strings; all frequency tables", "anchors": ["compressor/delta/huffman_test.cc: TestEncodeDecode, main"]}
{"id": "C117", "title": "Python: bits and strings are shown as they are", "statement": "FormatAsBits shows the bits of all bytes, of the last one as many as the number says, in groups of eight, and raises exactly if it needs a byte and there is none; a bit bucket is shown as exactly the bits stored, whatever was stored and read; MakeReadableString shows different strings differently, five characters for each byte.", "quantifier": "for every list of bytes, number of bits, sequence of operations on a bucket and string", "why_tests_cant": "unbounded lists, histories and strings", "anchors": ["compressor/delta2/common_utils.py: FormatAsBits, MakeReadableString", "compressor/delta2/bit_bucket.py: __repr__"]}
{"id": "C118", "title": "Python: DebugFormat marks the last bit read", "statement": "Below the text of a bucket DebugFormat prints dashes under the bits read and a mark under the last of them. The code violates this exactly when nothing was read or the last bit read is the first one of a byte: then the mark is in the column of the bar.", "quantifier": "for every sequence of operations on a bucket", "why_tests_cant": "all histories; the output is for a human reader", "anchors": ["compressor/delta2/bit_bucket.py: DebugFormat"]}
{"id": "C119", "title": "Python: the test of the bit bucket tests the bit bucket", "statement": "RunTestCase raises if and only if a text that it expects is not that of the bits stored so far, and otherwise exactly the bits of the tests have been stored; ReformatExpectedStr gives the text with bits in front; StoreBitsFromString stores the bits of a text.", "quantifier": "for every list of tests that give as many bytes as their bits need, bucket with any history, and text", "why_tests_cant": "the test programs try a few lists", "anchors": ["compressor/delta2/bit_bucket_test.py: RunTestCase, ReformatExpectedStr, StoreBitsFromString", "compressor/delta/bit_bucket_test.py: RunTestCase"]}
{"id": "C120", "title": "delta: the slow Decode undoes Encode", "statement": "Decode of what Encode gave returns the text, and the test programs of the Huffman coders say that it worked, for every text. The code violates the first for texts encoded with an end of string: Decode then always raises TypeError, since it computes ord of a number. It holds without an end of string, and the test programs of delta and delta2 work for every string.", "quantifier": "for every frequency table, coder and text", "why_tests_cant": "unbounded texts; all tables", "anchors": ["compressor/delta/huffman.py: Encode, Decode", "compressor/delta/huffman_test.py: main", "compressor/delta2/huffman_test.py: main"]}
{"id": "C121", "title": "delta: the printed code table is the code", "statement": "FormatCodeTable does not raise; it has a line for each symbol, in order, with exactly its code word and the length of that; and the text determines the code.", "quantifier": "for every frequency table of two or more symbols", "why_tests_cant": "all tables", "anchors": ["compressor/delta/huffman.py: FormatCodeTable"]}
{"id": "C122", "title": "hyper_hpack: sessions arrive", "statement": "With every hpack package whose encoder and decoder stay in step, every message of every session arrives with the same headers in the same order, and no header is ever marked as sensitive.", "quantifier": "for every session and every package that keeps its contract", "why_tests_cant": "unbounded sessions; the package is external", "anchors": ["compressor/hyper_hpack/__init__.py: Processor.compress, decompress"]}
{"id": "C123", "title": "http2: what a frame can decode to is bounded", "statement": "With a table that respects its limit, a frame decodes to at most one header per payload byte besides the referenced ones, and to at most (payload bytes)*(buffer size+1)+buffer size bytes in all; the order of this bound is reached: after one frame of 4076 bytes, a frame of 8+2n bytes decodes to n headers of 4064 bytes each, for every n.", "quantifier": "for every byte string, every sequence of byte strings before it and every buffer that holds the predefined table", "why_tests_cant": "all byte strings after all histories; a bound over an unbounded set", "anchors": ["compressor/http2/http2Codec.py: decode_headers, append_decoded_header, insert_decoded_header"]}
{"id": "C124", "title": "http2: the size of a frame is bounded by its headers", "statement": "A frame costs 8 bytes, at most one index for each reference that is dropped and, for each header, two indices or one index with both texts and their lengths; with the default buffer that is at most 8 bytes more than the text per header.", "quantifier": "for every reachable encoder, every list of headers", "why_tests_cant": "all histories and headers", "anchors": ["compressor/http2/http2Codec.py: encode_headers, encode_header, write_integer, write_literal_string"]}
{"id": "C125", "title": "http2: repeating a message is free", "statement": "A list of headers without repetitions gives the empty frame exactly if it is the reference set; so a message that fits into the table and has no new :path costs 8 bytes whenever it is repeated, in any order. (A new :path is never stored and is spelt out each time.)", "quantifier": "for every reachable encoder, every message, any number of repetitions in any order", "why_tests_cant": "all histories, all orders", "anchors": ["compressor/http2/http2Codec.py: encode_headers, encode_header, compute_diff"]}
{"id": "C126", "title": "delta2: frames that have been cut off", "statement": "A frame of which less than the 9 header bytes are left makes the deserialiser raise. Any other cut is not noticed: the deserialiser returns the group and exactly those operations that are complete, without an exception, and the receiver executes them; at least the last operation is lost. (So the claim that a cut frame is noticed is false, with a witness at a fresh receiver.)", "quantifier": "for every set of operations of which the payload fits into a frame, every coder, every packing of indices, every length of what is left", "why_tests_cant": "all operations, all cuts", "anchors": ["compressor/delta2/spdy4_codec_impl.py: DeserializeInstructions, RealOpsToOps, UnpackStr, UnpackVarInt, RealOpsToOpAndExecute"]}
{"id": "C127", "title": "delta2: the effort that a frame can cause is not bounded by its size", "statement": "With variable-length indices a frame of at most 12 + log8(storage + 64 + v) bytes makes the receiver build a set of v + 1 indices before it looks any of them up.", "quantifier": "for every v below 2^63, every configuration with variable-length indices, every storage and every coder", "why_tests_cant": "exponential in the size of the frame; all states", "anchors": ["compressor/delta2/spdy4_codec_impl.py: DecompressorExecuteOps (strang, etrang), TranslateOpIdxFromLruToHg, LruIdxToHgIdx"]}
{"id": "C128", "title": "headerdiff: frames that have been cut off", "statement": "With Huffman codes, and for frames without headers, every frame that is cut off makes the decoder raise IndexError. Without Huffman codes the last k bytes of the frame are the end of the last value (the string that is written last): cut before them the decoder raises IndexError, cut within them it accepts the frame, and only the last value is shorter, by the bytes that are missing. (So the claim that every cut is noticed is false: a witness shows a shorter value being accepted and stored, and returned again for the next, complete frame.)", "quantifier": "for every buffer, mode of delta coding, coder, order of the dictionary, session of messages made of bytes, next message that is encoded, and length of what is left", "why_tests_cant": "all sessions, all cuts", "anchors": ["compressor/headerdiff/headerDiffCodec.py: decodeHeaders, readNextByte, readInteger, readLiteralString, encodeHeaders", "compressor/headerdiff/Huffman.py: decode, next_bit"]}
{"id": "C129", "title": "headerdiff: the decoder on any bytes", "statement": "Whatever is put in place of a frame, decoding ends: with IndexError, with the codec's own exception, or with as many headers as the ninth byte says, fewer than the frame has bytes. Every name and value is at most as long as the longest text held before plus eight times the bytes after the ninth, also in the tables afterwards, and the tables grow by at most one entry per header.", "quantifier": "for every state of the decoder, buffer, mode, coder made from a table, and list of numbers", "why_tests_cant": "all inputs, all states; termination", "anchors": ["compressor/headerdiff/headerDiffCodec.py: decodeHeaders, readInteger, readLiteralString", "compressor/headerdiff/Huffman.py: decode"]}
{"id": "C130", "title": "headerdiff: the buffer does not bound what is stored", "statement": "The memory for the tables is not bounded by the buffer size: only the lengths of values count, and names are never removed. Headers without values are always added, on both sides, each with its name in the table of headers and in that of names, while the size counted stays 0.", "quantifier": "for every positive buffer, mode, order of the dictionary, and list of different new names of at most 65000 bytes", "why_tests_cant": "sessions of any length", "anchors": ["compressor/headerdiff/headerDiffCodec.py: determineRepresentation, encodeHeaders (headerSize, headerNamesTable), decodeHeaders"]}
{"id": "C131", "title": "delta: frames that have been cut off", "statement": "However a message that fits into one frame is cut off, the deserialiser raises StandardError. This is false of messages of more than one frame: everything is read from behind the first frame header, so the last 9 bytes can be missing without anything being noticed.", "quantifier": "for every set of at most 256 operations of each kind, every group and every Huffman object, every length of what is left", "why_tests_cant": "all operations, all cuts", "anchors": ["compressor/delta/spdy4_codec_impl.py: DeserializeInstructions, SerializeInstructions, RealOpsToOps, UnpackInt, UnpackStr", "compressor/delta/huffman.py: DecodeFromBB"]}
{"id": "C132", "title": "delta and delta2: the deserialisers on any bytes", "statement": "Whatever bytes arrive, deserialising ends. delta ends with StandardError, KeyError (an unknown opcode), or a group and operations that the serialiser could have been given, at most 256 for each 514 bytes behind the frame header. delta2 ends with StandardError or with a group and such operations, at most 16 for each 9 bytes; an unknown opcode or missing bits within the last frame are not reported. Less than 9 bytes always raise.", "quantifier": "for every sequence of bytes, every Huffman object and every packing of indices", "why_tests_cant": "all byte strings", "anchors": ["compressor/delta/spdy4_codec_impl.py: DeserializeInstructions, RealOpsToOps", "compressor/delta2/spdy4_codec_impl.py: DeserializeInstructions, RealOpsToOps, UnpackStr, UnpackVarInt", "compressor/delta2/bit_bucket.py: GetBits"]}
{"id": "C133", "title": "delta2: a decompressor that is used again after an exception", "statement": "Whatever bytes a decompressor is given, again and again, each string is accepted or raises StandardError, IndexError or OverflowError, and its limits hold. It is accepted exactly if it is a whole frame, its clones are of entries that exist, its ranges fit a C long, and the header group it leads to refers only to existing entries. A refused frame is not without effect: the header group is changed before the entries are looked up, so that one frame that toggles an index beyond the oldest entry makes all later frames of the group fail unless they toggle the same index again.", "quantifier": "for every sequence of byte strings, every Huffman code and configuration of a Processor, every order in which sets are walked", "why_tests_cant": "all sequences of byte strings", "anchors": ["compressor/delta2/spdy4_codec_impl.py: Decompress, ExecuteInstructions, RealOpsToOps, LookupFromIdx", "compressor/delta2/lrustorage.py: Lookup"]}
{"id": "C134", "title": "headerdiff: a decoder that is used again after an exception", "statement": "A refused frame leaves the decoder as if a frame with the same bytes and fewer headers had been accepted, the largest number possible, and possibly with one more name; so it is false that it has no effect, and a frame that is cut off and then sent again makes later frames decode wrongly. The size counted is always that of the values held. Once it exceeds the buffer, every frame with a header is refused and nothing changes any more; a single frame can do that, and only then is the decoder shut.", "quantifier": "for every sequence of byte strings, every buffer size and every Huffman code", "why_tests_cant": "all sequences of byte strings", "anchors": ["compressor/headerdiff/headerDiffCodec.py: decodeHeaders, readLiteralString"]}
{"id": "C135", "title": "http2: sides that are out of step get into step again", "statement": "A refused frame is not without effect, and if it is sent again later messages decode to headers that were not sent. But whatever an encoder has sent and whatever a decoder was given, after two messages of one header larger than the buffer, of which the first may be lost, the second decodes correctly, both tables are empty, and every further message that the encoder gets through decodes to the headers sent. One such message is enough if nothing is referenced and no entry has its name.", "quantifier": "for every state of the encoder, every sequence of byte strings given to the decoder before, every buffer size that holds the predefined table, every further session", "why_tests_cant": "all pairs of states of the two sides and all further sessions", "anchors": ["compressor/http2/http2Codec.py: encode_headers, encode_header, append_encoded_header, decode_headers, append_decoded_header"]}
{"id": "C136", "title": "delta2: when repeating a message is free", "statement": "A message costs 9 bytes, a frame without operations, exactly if the header group of its host has the headers of the message, each once; otherwise at least 11. With hg_adjust and only_etoggles off, as by default, a message whose headers are all in the tables leaves the tables alone, and every repetition that follows is free, in any order. With any parameters the tables never have a :path other than \"/\", so a message with another path is never free.", "quantifier": "for every reachable compressor, every message of bytes, all parameters, all iteration orders, any number of repetitions", "why_tests_cant": "all histories, all orders", "anchors": ["compressor/delta2/spdy4_codec_impl.py: MakeOperations, DecompressorExecuteOps, SerializeInstructions", "compressor/delta2/lrustorage.py: FindKeyValEntries"]}
{"id": "C137", "title": "delta2: what a message does to the table and to the header groups of other hosts", "statement": "A message takes the oldest entries out of the dynamic table and puts new ones behind the rest: the last of those of its headers that are in neither table and are no :path, and all of these unless no old entry is left. If there is room for them nothing is removed, and a message without a :path other than \"/\" is then free from its third sending on. No pair is ever twice in the tables. (All this with hg_adjust off, as by default.) With any parameters, the header group of another host loses exactly the entries that leave the table, and what stays stands for the same name and value, also if an index has been given to a new entry.", "quantifier": "for every reachable compressor, every message of bytes, every other group, all parameters (with the ones named), all iteration orders", "why_tests_cant": "all histories; reuse of an index needs a full turn of the table while another group still has it", "anchors": ["compressor/delta2/spdy4_codec_impl.py: MakeOperations, DecompressorExecuteOps, RemoveVIdx, InsertVal", "compressor/delta2/lrustorage.py: Reserve, Store, PopOne"]}
{"id": "C138", "title": "headerdiff: what headers cost that were sent before", "statement": "A message of at most 255 headers that are all in the receiver's table (at places below 16447) is sent as exactly nine bytes of head and count, and one byte for each of the first 64 places, two for the others; neither table changes. Unless the codec is the one of requests with deltas and a buffer below 10000 (or uses no deltas and there is a :path), a message for whose values there is room puts all its headers into the table, behind what is there, so that all further messages made of its headers cost at most 9 bytes and two for each header. With the codec of requests and a small buffer this fails: two headers of one name whose values begin alike take each other's place for ever, in an almost empty table.", "quantifier": "for every session, every further message, every number of repetitions, every order of the dictionaries, all parameters (with the ones named)", "why_tests_cant": "all sessions and all numbers of repetitions", "anchors": ["compressor/headerdiff/headerDiffCodec.py: encodeHeaders, determineRepresentation, writeInteger, decodeHeaders"]}
{"id": "C139", "title": "delta (first compressor): what a message does to entries and groups, and when it is free", "statement": "If there is room for the headers of a message that have no entry, then after it there are the old entries and one for each of its headers but :path and referer; a header not in the message is in the groups it was in, less that of the host; a header of the message is in a single group, that of the host or one it was in before. A frame has at least 9 bytes, and has 9 exactly if the group of the host has exactly the headers of the message (so :path and referer are never free). With one host the next message is free exactly if its headers are those of the last one, :path and referer excepted. With two hosts this fails: of two messages in a row to hosts with different groups that have a header in common one always costs more than 9 bytes, however often they were sent.", "quantifier": "for every session from a new Processor, every further message, every order of sets and dictionaries, all limits and code tables", "why_tests_cant": "The group an entry ends up in depends on set orders and on everything sent before; that no repetition ever makes both messages free is a statement about all sessions.", "anchors": ["compressor/delta/spdy4_codec_impl.py:891-1020", "compressor/delta/spdy4_codec_impl.py:361-383", "compressor/delta/spdy4_codec_impl.py:457-502", "compressor/delta/__init__.py:46-57"]}
{"id": "C140", "title": "delta (first compressor): the size of a frame lies between bounds given by its headers", "statement": "A frame of at most 64 KiB has at most 19 bytes, plus two for each entry that is in the group of the host but not in the message or the other way round, plus for each header without an entry and each :path and referer the Huffman code of its value and the larger of two bytes and the Huffman code of its name. It has at least 9 bytes plus the Huffman codes of the values of these headers. With the shipped codes a text needs at most 25 bits a character; some printable characters need three bytes each, so that a :path with n of them costs 3n bytes in every message, however often it was sent: compression can treble what it is given.", "quantifier": "for every session from a new Processor, every further message, every order of sets and dictionaries, all limits and code tables", "why_tests_cant": "The bounds are for all histories and all headers; what is sent in full depends on evictions and groups.", "anchors": ["compressor/delta/spdy4_codec_impl.py:935-1020", "compressor/delta/spdy4_codec_impl.py: OutputOps, SerializeInstructions, MutateTogglesToToggleRanges", "compressor/delta/spdy4_codec_impl.py:457-502", "compressor/delta/header_freq_tables.py"]}
{"id": "C141", "title": "delta2: the size of a frame lies between bounds given by its headers", "statement": "Let r be 8, 16 or 28 bits for the index formats int8, int16 and varint. A frame whose payload fits has at most 9 bytes and, rounded up, 8 + r bits for each header of the message that has an entry but is not in the group of the host and for each entry of the group that is not in the message or is there twice, plus for each header without an entry 22 bits, its value's Huffman code and the larger of r and the code of its name with 7 bits of padding. It has at least 9 bytes and the Huffman codes of the values of the headers without an entry. A :path other than / is never in the table, so its code is in every message, however often it was sent.", "quantifier": "for every session from a new Processor with any parameters, every further message, every order of sets and dictionaries and every code table", "why_tests_cant": "The bounds are for all histories and all headers; what is sent in full depends on evictions, groups and the format of the indices.", "anchors": ["compressor/delta2/spdy4_codec_impl.py:959-1027", "compressor/delta2/spdy4_codec_impl.py: SerializeInstructions, FigureOutRanges, PackOps", "compressor/delta2/spdy4_codec_impl.py: Storage.FindEntryIdx"]}
{"id": "C142", "title": "delta2: the group of a host after one of its messages", "statement": "With only_etoggles, hg_adjust and implicit_hg_add off, as by default: after a message the header group of its host has exactly those headers of the message that were in the tables before the message and were not evicted by it, each by one index; in particular a header sent for the first time is not in the group yet, and nothing of an earlier message that is not in this one stays in it. With only_etoggles alone no header group ever has an entry, so every message names all its headers.", "quantifier": "for every session from a new Processor with any other parameters, every further message and every order of sets and dictionaries", "why_tests_cant": "The claim is about the group after every history, whatever was evicted, and is an equivalence over all headers.", "anchors": ["compressor/delta2/spdy4_codec_impl.py:959-1027", "compressor/delta2/spdy4_codec_impl.py:1043-1125", "compressor/delta2/spdy4_codec_impl.py:831-841"]}
{"id": "C143", "title": "headerdiff: the size of a frame lies between bounds given by its headers", "statement": "Every frame has at least 9 bytes and one for each header. If n is at least 39 more than the number of headers sent in the session, it has at most 9 bytes and, for each header, 1 byte, the bytes of n to the base 128, the larger of these and the bytes of its name, and the bytes of its value (with a Huffman coder also those of the length of the value); the bytes of a text are its Huffman code with the end symbol, or its length and itself. Without a coder, while at most 16344 headers were sent and their names and values are below 16384 bytes, a frame is at most 9 bytes and 7 for each header longer than the headers, whatever deltas and references the encoder chooses.", "quantifier": "for every configuration, every order of the dictionary, and every session that is encoded without an exception", "why_tests_cant": "The encoder chooses between references, deltas and literals by what was sent before; the bound is for all histories and headers.", "anchors": ["compressor/headerdiff/headerDiffCodec.py:349-465", "compressor/headerdiff/headerDiffCodec.py:467-561", "compressor/headerdiff/headerDiffCodec.py:565-614"]}
{"id": "C144", "title": "delta2: with implicit_hg_add the group of a host has the headers of its last message", "statement": "With only_etoggles and hg_adjust off, with or without implicit_hg_add, all that the header group of a host has after a message are headers of that message. With implicit_hg_add it has exactly the headers of the message, but for a :path that was in neither table, so that nothing stored by a message has to be turned on by the next one. (The second sentence is false when a header has to be evicted.)", "quantifier": "for all parameters, every history of messages and hosts, every message, and every order of sets and dictionaries", "why_tests_cant": "The group depends on the whole history through the tables, the evictions and the group ids; tests see a few sessions.", "anchors": ["compressor/delta2/spdy4_codec_impl.py:831-841", "compressor/delta2/spdy4_codec_impl.py:1043-1125"]}
{"id": "C145", "title": "delta2: the decode table of huffman.py leads a word to the symbol whose code it begins with", "statement": "BuildDecodeTable (which no code calls) returns for every prefix-free code of at most 32 bits, and the entry for the first eight bits of a word that begins with the code of a symbol is that symbol if the code has at most eight bits, and otherwise names the table in which to go on. (The last part is false: no entry of the first table names another table, and longer codes lead to a wrong symbol.)", "quantifier": "for all prefix-free codes of any number of symbols with at most 32 bits, and all words", "why_tests_cant": "The function is dead code, so no test runs it, and there are too many codes and words to try.", "anchors": ["compressor/delta2/huffman.py:163-177", "compressor/delta2/huffman.py:179-183", "compressor/delta2/huffman.py:185-217", "compressor/delta2/huffman.py:219-237"]}

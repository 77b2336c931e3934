# Formal model of http2/compression-test: design

This directory holds a Lean 4 model of the header codecs and of the comparison harness in `/repo`,
with machine-checked theorems for the properties listed in `properties.jsonl`.
`MANIFEST.json` says which theorems settle which property.  The code was read as text, never run.

## Layout

* `lean/Verif/Py.lean`, `PyLemmas.lean`: Python building blocks (`split`, `strip`, `join`, dictionaries as
  association lists in iteration order, `struct.pack`, exceptions as values) and their algebra.
* `lean/Verif/<Area>/Model.lean` and the other model files named below: the code, function by function and
  branch by branch.  Every definition cites file and lines.
* `lean/Verif/<Area>/Spec.lean`: small specifications that do not use the model's helpers.
* `lean/Verif/<Area>/*Lemmas.lean` and others: proofs.
* `lean/Verif/Props/<Area>.lean`: the property theorems, each followed by an `example` that meets its hypotheses.
* `lean/Verif/Props/Axioms.lean`: `#print axioms` for every theorem named in the manifest, run at each build.
* `seeded/LOG.jsonl`: one line for each deliberately wrong program on which the theorems were tried, in the order of
  the attempts.  A program tried again after a theorem was tightened has a line for each attempt (earlier commits kept
  only the last one, which hid two programs that had survived at first).  A line without failed theorems is a survivor.

## Trusted base

* The Lean 4.33.0 kernel, and Mathlib's definitions.
* Axioms: every theorem in the manifest depends on a subset of `propext`, `Classical.choice` and `Quot.sound`.
  There are no axioms of our own, no `sorry`, no `native_decide` and no `bv_decide`.
  `decide +kernel` is used for finite facts (shipped tables, concrete witnesses); it is checked by the kernel alone.
* That the model says what the Python code does.  Nothing links the two but reading; the citations are there to make
  the comparison easy.
* The contracts of external libraries: zlib (`Zlib/Spec.lean`, met by the library of `Zlib/Stored.lean`) in C102-C104, and
  in C104 that `int(s, 16)` reads what `"%x"` writes.  They are hypotheses of the theorems.
* What is said below about Python itself: string methods on ASCII whitespace, `struct.pack` ranges, list and
  dictionary operations, the iteration order of a CPython 2.7 dictionary with small integer keys (only in
  `Huff/DictOrder.lean`, only for `C19_shipped`, `C20_shipped` and `coder_shipped`).

## Conventions

* A Python string (2.x byte string, or 3.x text in `lib/`) is a `List Nat`.  Where a byte range matters (`< 256`)
  it is a hypothesis.
* Integers are `Int` where they can be negative (sizes, limits, differences of indices), else `Nat`.
* Exceptions are values: `Except PyErr α`.  `struct.error`, `IndexError`, `KeyError`, `NameError`, assertion failures
  and explicit `raise` are all distinguished.  State that has already been changed when an exception is raised is kept
  where a property is about it (C11, C38, C61).
* Objects that are changed in place become values that are returned.  Where aliasing matters, there is an explicit
  heap (`Stream.__add__` in `Lib/Model.lean`, reference counts in `Delta2/Lru.lean`).
* A loop that might not terminate takes fuel.  "Terminates" means that some fuel is enough, "diverges" that none is.
  Running out of fuel is an error value of its own, so no theorem about success can hide it.
* Sets and Python 2 dictionaries are iterated in an arbitrary order: the order is a parameter and the theorems hold
  for every order, or the input is an arbitrary list.
* `http2`, `headerdiff`, `delta*`, `bohe` and `simple` are Python 2 sources, `lib/`, `compare_compressors.py`, `http1`
  and `spdy3` run on Python 3.  Each is modelled with the semantics of its version.

## What is modelled

| Code | Model | Left out |
|------|-------|----------|
| `compressor/http2/http2Codec.py`, `__init__.py` | `Http2/Model.lean` | dead debug output |
| `compressor/delta2/bit_bucket.py`, `bohe/bit_bucket.py` StoreBits22 | `Bits/Model.lean` | `out_byte` (never read), debug output |
| `compressor/delta2/huffman.py`, `header_freq_tables.py` | `Huff/Model.lean`, `Lookup.lean` (BuildDecodeTable, which is never called), `Tables.lean` | PrintDecodeTableAndBranches, code after `return` |
| `compressor/delta2/spdy4_codec_impl.py` | `Delta2/Fields.lean`, `Toggles.lean`, `Wire.lean`, `Lru.lean`, `Codec.lean`, `Left.lean` (the state after an exception) | printing: FormatOp, FormatOps, Stats |
| `compressor/delta2/lrustorage.py`, `common_utils.py` IDStore | `Delta2/Lru.lean`, `Ids.lean` | printing |
| `compressor/delta/spdy4_codec_impl.py`, `huffman.py`, `common_utils.py` IDStore, `header_freq_tables.py`, `__init__.py` | `Delta1/Wire.lean`, `Storage.lean`, `Codec.lean`, `LinkedList.lean`, `Huffman.lean` | word statistics, printing; `bit_bucket.py` has some of the operations of delta2's, with the same code |
| `compressor/headerdiff/headerDiffCodec.py`, `Huffman.py`, `__init__.py` | `HeaderDiff/Model.lean`, `Huffman.lean`, `Tables.lean`, `Processor.lean`, `Params.lean`, `Deflate.lean` | `int` and zlib are parameters |
| `compressor/simple/__init__.py`, `seven.py` | `Text/Simple.lean`, `SimpleProc.lean` | `int`, `parsedate`, `timegm`, `formatdate`, zlib and bitarray are parameters or contracts |
| `compressor/http1_gzip/__init__.py`, `compressor/http1_huffman/__init__.py` | `Text/Gzip.lean` | zlib is a parameter; Python 2 |
| `compressor/__init__.py` `format_http1`, `parse_http1`; `http1` | `Text/Model.lean` | |
| `compressor/spdy3/__init__.py` | `Text/Misc.lean` | zlib is a parameter |
| `compressor/bohe/bohe.py`, `__init__.py` | `Text/Misc.lean` (varints), `Bohe/Model.lean` | `int`, `strptime`, `md5`, werkzeug's parsers and `BaseCookie` are parameters |
| `compressor/delta_bohe/spdy4_codec_impl.py`, `huffman.py`, `__init__.py` | `DeltaBohe/Model.lean` | debug output and word statistics; the deserialiser, which the Processor does not call, is modelled with the operations of delta |
| `compressor/delta2_bohe/lrustorage.py`, `spdy4_codec_impl.py`, `bohe.py`, `__init__.py` | `Delta2Bohe/Model.lean` | `strip_conn_headers` is taken as the identity; the regular expression for hosts and the encoding of values are parameters; `DoneWithId` and `eref`s (never used), word statistics, printing; `bit_bucket.py`, `huffman.py` and `header_freq_tables.py` are as in `delta` |
| `compressor/delta/bit_bucket.h` (C++; the copy in `delta_bohe` is the same) | `Cpp/BitBucket.lean` | debug output; size_t and the byte index are unbounded; asserts are absent; host little-endian |
| `compressor/delta/huffman.h`, `header_freq_tables.cc` (C++; the copies in `delta_bohe` differ in where constants are declared) | `Cpp/Huffman.lean`, `Cpp/Tables.lean` | BuildCodeTableHelper (never called), memory management (trees of rejected divisors leak); the weights are abstract (doubles in the code); the first `word <<= 32` of Decode, undefined in C++, gives 0 or leaves 0 |
| `compressor/delta/trivial_http_parse.h`, `harfile_translator.py`, `spdy4_headers_sample.cc` ParseHarFiles (the copies in the other directories are the same) | `Cpp/Parse.lean` | fork, execvp, errors of read(); ReadHarFile; output of characters outside ASCII |
| `compressor/delta/spdy4_headers_codec.cc`, `spdy4_headers_codec.h` (C++; the copy in `delta_bohe` is the same) | `Cpp/Codec.lean` | the order of a `map` keyed by addresses is a parameter; `frame_count` and the id counters are unbounded; ERefs (never made), FixupFrameBoilerplate (never called), debug output |
| `compressor/delta2/word_freak.py`, `delta/word_freak.py` (the copies in `delta_bohe` and `delta2_bohe` are as in `delta`), `delta2/spdy4_codec_impl.py` Stats.Process | `Stats/WordFreak.lean` | the order of a sort with equal keys is that of a stable sort |
| `compressor/delta/spdy4_headers_sample.cc` SPDY3Formatter, DoSPDY3CoDec | `Cpp/Spdy3.lean` | zlib is a parameter; errors of zlib (they abort) |
| `compressor/delta/utils.h`, `utils.cc`, `bit_bucket.h` AsString and DebugStr, `huffman.h` operator<<, `bit_bucket_test.cc`, `huffman_test.cc` | `Cpp/Utils.lean`, `Cpp/Print.lean` | the texts that the tests print besides FAILED; PrettyPrintTree |
| `compressor/delta2/common_utils.py` FormatAsBits and MakeReadableString, `bit_bucket.py` `__repr__` and DebugFormat, `bit_bucket_test.py` RunTestCase and its helpers | `Bits/Show.lean` | the messages of failing tests; the tests in the class TestBitBucket (each is an instance of C13 or C119) |
| `compressor/delta/huffman.py` Decode and FormatCodeTable, `huffman_test.py` of `delta` and `delta2` | `Delta1/Decode.lean` | the texts printed; `__repr__`, which always raises AttributeError |
| `compressor/hyper_hpack/__init__.py` | `Text/Hyper.lean` | the package `hpack` is a parameter |
| `compressor/fork/__init__.py`, `sample_exec_codec.py` | `Fork/Model.lean` | the parameter `bin`; `strip_conn_headers` is taken as the identity; pipes are unbounded |
| `lib/processors.py`, `lib/stream.py`, `lib/harfile.py`, `lib/streamifiers/*`, `compare_compressors.py` | `Lib/Model.lean`, `Har.lean`, `Proc.lean`, `Run.lean`, `Tsv.lean` | `urlsplit` and the public suffix list are parameters; timing, terminal output and locale formatting |

Not modelled: `pretty_print_tree.h` (never used), `display_tsv.html`, `lrustorage_test.py` (fixed cases of what C25, C26 and C30 say in general).
`fork` and `delta2_bohe` cannot be loaded at all: they
import `strip_conn_headers`, which does not exist.

## Findings

Where the code does not do what the property says, the negation is proved with a witness and the true part is kept.

1. C05 `http2`: the encoder does not return for some inputs (the re-send loop evicts what it needs).
2. C09 `http2`: a frame cut inside the value string at the end of a representation (or between representations) is accepted; all other cuts raise.
3. C10 `http2`: a substitution index computed before eviction can be misplaced.
4. C11 `http2`: a message refused because of its length has already changed the encoder's table; later messages decode wrongly.
5. C12 `http2`: tabs around header values are lost, which the tester reports as a mismatch.
6. C15 `BitsRemaining` is always one too small.
7. C16 `bohe` `StoreBits22` stores the 30 most significant bits of the word, not 22 bits of the value.
8. C18 `PackInt` tests a single bit only; for widths 17 to 24 too large values are accepted and truncated.
9. C19 the canonical Huffman code depends on the iteration order of a dictionary; in other orders the constructor fails.
10. C20 `PackStr` without Huffman coding always raises `NameError`.
11. C21 the retry loop of the Huffman constructor divides all weights by the same number, so the tree never changes; it ends in `OverflowError`.
12. C25, C26 `lrustorage.Storage` with `max_items` 0 ignores its limit.
13. C27 `delta2` characters of keys are never counted: the temporary `KV` objects made while operations are executed leak a reference.
14. C31 `delta2` `end_of_frame` is always true; of a payload above 65527 bytes the rest is not read.
15. C29 `delta2` cookies with NUL come back different.
16. C32 group ids are reused after `max_id` hosts.
17. C34 `headerdiff` the table is keyed by the concatenation of name and value, so `("a","bc")` comes back as `("ab","c")`.
18. C38 `headerdiff` more than 255 headers, or a payload above 65535 bytes, ends in `struct.error`.
19. C61 `headerdiff` after the second of these the encoder's table has already been changed; the decoder drifts.
20. C37 `headerdiff` `MAX_VALUES` has entries for the prefix lengths 0, 4, 5, 6, 8 and 14 only; with a 14-bit prefix indices of 16447 and more cannot be written.
21. C39 `headerdiff` `DELTA_MAX` limits the number of uses of a reference, not its length.
22. C41 `simple` `seven.decode` loses the last character when the length is a positive multiple of 8.
23. C43 `http1` an empty path ends in `IndexError`.
24. C44 `simple` headers named `h`, responses with `:host`, and commas in names come back different.
25. C50 `Stream.__add__` shares lists: computing the totals appends to the message lists of the first session.
26. C54 `har2hdrs` always takes `:host` from the URL; a URL without path becomes the host as a whole.
27. C59 `spdy3` sends the first twelve bytes of the block uncompressed.
28. C102 `headerdiff` with deflate: the decoder decompresses the whole stream, with the frame header that the encoder left uncompressed.
29. `bohe`: the test for several values looks for the four characters `\u00`, since `'\u00'` is not an escape in a Python 2 byte string.  (Modelled as `hasU00`.)
30. C62 `delta` `OutputOps` writes the count 256 for a kind with more operations, and then all of them; the rest is read as something else or dropped. Of a message above 65527 bytes a kind of operations that begins behind the first frame is not read.
31. C66 `delta` the lengths of values are subtracted from `state_size` on removal but never added; `MakeSpace` calls an undefined `PopOne` when there is too little room.
32. C67 `delta` `Storage.__init__` uses the variables `key` and `val` left over from a loop over the opcodes, so none of the default headers can be referred to, and a header named like that opcode ends in AttributeError.
33. C70 `delta` `RenumberVELruIdx` shadows its parameter `group_id`: the entry ends in the last of its old groups, not in that of the message.
34. C71 `bohe` lengths of values are sent without their two lowest bits (finding 7) and binary values have no end mark: frames are ambiguous.  Names of 128 to 255 characters get the length byte of shorter ones.
35. C72 `bohe` all dates before 1990 are sent like 1990.
36. C74 `bohe` a session cookie is sent like one with `max-age=0`.
37. C75 `bohe` `ENCODERS` are called without the message type, so `no-store`, `private`, `s-maxage` and so on are dropped from responses; the branch for their arguments tests `hasattr(…, 'len')`, which is never true.
38. C76 `bohe` `get` is sent like the method `\x01`; methods in upper case are not abbreviated.
39. C78 `bohe` `P3P` tokens with attribute `a` lose it; other attributes than a, i, o end in ValueError.
40. C79 `bohe` whether a cookie value was decoded from hexadecimal or base64 is not sent; three zero bytes in base64 are decoded as hexadecimal.
41. C80 `delta_bohe` crumbs of a cookie are not made distinct: one that is stored and occurs twice is toggled twice and lost; a new one ends in StandardError (C86).
42. C81 `delta_bohe` NUL bytes in the codes of crumbs would be taken for separators.
43. C82 `delta_bohe` `MakeSpace` calls an undefined `PopOne` (NameError) when there is too little room in bytes.
44. C83 `delta_bohe` `lru_idx` values are renewed with every message and never reused, but sent in 16 bits.
45. C84 `delta_bohe` `PopOne` returns nothing and does not spare headers of the message; the callback deletes an item of the group (`del header_group[group_id]`, TypeError) instead of the group.
46. C85 `delta_bohe` binary values have neither length nor end mark.
47. C88 `bit_bucket.h` StoreBits8, StoreBits16 and StoreBits32 return on byte boundaries without counting their bits; the next StoreBit is or-ed into the last of their bytes.
48. C89 `bit_bucket.h` GetBits compares the number of bits with those ever stored, not with those left, and reads outside the vector.
49. C91 `huffman.h` Decode reads 32 bits ahead and does not go back: after it the position is 32 bits behind the beginning of the last symbol, so what follows a string cannot be read.
50. C91 `huffman.h` Decode up to an end of string that is missing never ends: zeros are read for ever, and the output grows. Decode of an empty string without end of string aborts. Limited by bits only, the end of string comes out as NUL.
51. C91 `huffman.h` Decode begins with a shift of a 32-bit word by 32, which C++ leaves undefined (on all usual machines the 0 stays 0).
52. C92 `header_freq_tables.cc` has other counts than the Python tables: what the C++ program writes cannot be read by the Python one.
53. C93 `huffman.h` Init does not clear `branches` and `decode_table`; the indices of tables are stored in 8 bits.
54. C94 `trivial_http_parse.h` reads the end of the text as one more empty line: there is always an empty response too many.  `harfile_translator.py` cannot be loaded at all: it imports `ReadHarFile` from `harfile`, and lib/harfile.py has `read_har_file`.
55. C95 `ParseHarFiles` takes the return value -1 of ParseStream for success; `main` ignores the value it returns itself.
56. C96 `ParseHarFiles` adds each chunk of the pipe as a C string: a header with several values (joined with NUL) loses everything up to the end of the chunk.
57. C97 `sample_exec_codec.py` does not notice the end of its input and writes newlines until the pipe is closed; an empty line inside a value gets `fork` out of step.
58. C98 `spdy4_headers_codec.cc` a known line that occurs twice in a frame is toggled on and off again.
59. C99 `spdy4_headers_codec.cc` entries turned off and evicted in the same frame are dereferenced when the toggles are written. SetMaxVals of the public class sets the size of the state in bytes, so the sample program has 1489 bytes, 681 of them taken by the default headers.
60. C99 `spdy4_headers_codec.cc` WriteControlFrameStreamId tests and sets bit 15, not bit 31, of the stream id.
61. C100 `spdy4_headers_codec.cc` toggles are never written: PreProcessToggles only extends lists that start empty. The length in a frame is always 0. All default headers have the index 0.
62. C104 `simple` with "date": a value of a date header that is no date but a hexadecimal number (`Expires: 0`, `-1`) comes back as a date; dates in the other two forms come back in the first.
63. C104 `simple` with "huffman" calls `flush` on the decompressor after every message and goes on using it, which zlib's documentation advises against.
64. C103 `http1_gzip`, `http1_huffman`: there is no `decompress`, and a receiver needs what the constructor compressed and dropped.
65. C105 `delta2_bohe` the search skips the oldest entry of the storage and the first one of the static table ("date"), and hides older values of a name.
66. C105, C108 `delta2_bohe` lookups are wrong by 64 while old numbers are in the storage together with new ones that started at 65 again; the number 65536 does not fit into 16 bits.
67. C105 `delta2_bohe` a header of more than 16384 bytes raises IndexError after the storage has been emptied for it.
68. C106 `delta2_bohe` a crumb that is twice in a cookie is toggled on and off again; a header that a message needs can be evicted by the new headers of that message and is silently lost; the receiver stores clones before it executes toggles, the sender afterwards.
69. C106 `delta2_bohe` AdjustHeaderGroupEntries copies the entries of a group to the end of the storage, but the group goes on referring to the old copies.
70. C107 `delta2_bohe` values under names that bohe encodes are written without length or end.
71. C109 `delta2_bohe` the 256th host raises struct.error; IDStore misspells `minimum_id` and would raise AttributeError.
72. `delta2_bohe` the epoch of the dates in bohe.py depends on the year in which the program is started.
73. C110 `delta_bohe` the deserialiser takes all strings for Huffman code, also those that were sent without; the initial indices depend on the order in which a dictionary is iterated.
74. C112 `word_freak.py` SortedByFreq always raises ValueError: there are 257 counters and it computes `chr(256)`.
75. C113 `spdy4_headers_sample.cc` the length field of a SPDY/3 frame is 3 more than the number of bytes behind it.
76. C116 `huffman_test.cc` would abort for an empty text: without an end of string Decode does not accept the length 0.
77. `pretty_print_tree.h` PrettyPrintTreeToStream passes `int*` where `unsigned int*` is needed; it would not compile if it were used (the call is commented out).  (Not modelled.)
78. C118 `bit_bucket.py` DebugFormat prints its mark one column too far to the left if the last bit read is the first one of a byte.
79. C119 `delta2/bit_bucket_test.py` RunTestCase uses `self`, which it does not have: a wrong text raises NameError instead of a failure.
80. C120 `delta/huffman.py` Decode with an end of string always raises TypeError.
81. `huffman.py` `__repr__` of a Huffman object always raises AttributeError (`iteritems` of a list).
82. C123 `http2Codec.py` two bytes (index off, index on) can stand for a header of nearly the size of the whole table: a frame of 64 KB decodes to more than 100 MB.
83. C126 `delta2/spdy4_codec_impl.py` a bare `except: break` makes the deserialiser take a frame that has been cut off for a complete one; the message loses headers silently.
84. C127 `delta2/spdy4_codec_impl.py` `strang`/`etrang` toggle every index of the range before any of them is checked: 22 bytes make the receiver build a set of 2^30 indices.
85. C128 `headerDiffCodec.py` readLiteralString slices the stream, which is silently shorter at its end: without Huffman codes a frame cut off within its last value is accepted, and the shorter value is stored and returned again for later references.
86. C130 `headerDiffCodec.py` only the lengths of values count against the buffer, and names are never removed: headers without values grow both tables without bound.
87. C132 `delta2/spdy4_codec_impl.py` DeserializeInstructions: an unknown opcode is swallowed by the bare `except` and drops the rest of the frame silently; in a frame with flags 0 the bytes behind the opcode are then taken for a frame header.
88. C133 `delta2/spdy4_codec_impl.py` ExecuteInstructions (1099) replaces the header group before it looks the entries up: a frame refused because of an index that does not exist leaves that index in the group, and every later frame of the group is refused too. `xrange` raises OverflowError for ranges beyond a C long, which no caller expects.
89. C134 `headerDiffCodec.py` decodeHeaders: headers and names read before an exception stay in the tables, so a frame that is cut off and sent again puts the sides out of step; the size is checked before a header but never after it, so one header larger than the buffer is accepted and shuts the decoder for ever.
90. C135 `http2Codec.py` decode_headers: what was decoded before an exception stays in the table, so a frame that is cut off and sent again puts the sides out of step. They stay so until the encoder happens to send two headers larger than the buffer.
91. C138 `headerDiffCodec.py` determineRepresentation (521-534): with a request codec and a buffer below 10000, a header that shares a prefix with one in the table replaces it even if the table is empty but for it, so two such headers sent with every message are never indexed.
92. C139 `delta/spdy4_codec_impl.py` RenumberVELruIdx (891-903): because an entry is left in one group only (finding of C70), the same two messages sent to two hosts in turn are never both free; in the order CPython uses, the host with the smaller group id finds its group emptied each time.
93. C140 `delta/spdy4_codec_impl.py` with `header_freq_tables.py`: delta has no way to send a text as it is, so printable characters that are rare in the tables (in requests "#<>@\\^`) cost three bytes each; a :path of such characters is trebled in every message.
94. C144 `delta2/spdy4_codec_impl.py` RemoveVIdxFromAllHeaderGroups (831-841) deletes a header group that is or becomes empty, also the one of the message being executed; DecompressorExecuteOps goes on adding to the detached set. With implicit_hg_add (or hg_adjust) the indices added after such an eviction are lost, e.g. those of the first message to a new host when the table is full. Both sides lose the same, so they stay in step (C28).
95. C145 `delta2/huffman.py` BuildDecodeTableHelper (212): where several codes share a place, the entry is left (0,0,0) instead of naming the new table, and the loop at 234-236 then overwrites it with the symbol before. The tables for codes of more than eight bits can thus not be reached. The function is never called.

## Per property

Status `partial` means that the property as worded is false of the code, or that something is missing; the note says which.

| Id | Status | Model and proof | Note |
|----|--------|-----------------|------|
| C01 | proved | `http2Codec.py` as a whole, bytes in and bytes out. Simulation: after each wire item the decoder's table is the encoder's, and the emitted headers are those whose entries are marked; induction over the wire items and the messages. | All sessions the encoder gets through, any buffer size, both tables; header sets compared by membership. |
| C02 | proved | `http2Codec.py` as a whole, bytes in and bytes out. Simulation: after each wire item the decoder's table is the encoder's, and the emitted headers are those whose entries are marked; induction over the wire items and the messages. | At every message boundary. |
| C03 | proved | Same model, also the decoder's substitution mode. Invariant on the table size by induction over the loops, for arbitrary input bytes. | Encoder for all reachable states (also after a refused message), decoder for all byte strings. |
| C04 | proved | Re-sent references form a suffix of the table that is never evicted; hence each entry is emitted once. | Any buffer size. |
| C05 | partial | The re-send loop with fuel. Divergence by an invariant that no step changes; termination measure: kept headers missing from the protected suffix. The bound on the passes: a returning loop sends a list without repetitions, a subset of the kept references, and each pass but the last sends at least one. | The claim is false: two proved witnesses of an encoder that never returns; termination proved outside those situations; for all buffers, an encoder that returns does so within one pass more than there are headers. |
| C06 | proved | `write_integer`, `read_integer`; induction on base-128 digits against an independent HPACK definition. |  |
| C07 | proved | `write_integer`, `read_integer`; induction on base-128 digits against an independent HPACK definition. |  |
| C08 | proved | Every loop of the decoder consumes a byte; all outcomes are classified. |  |
| C09 | partial | A grammar of the representations (`Http2/CutSpec.lean`) independent of the decoder; each reading function is shown to accept exactly the words of its nonterminal and, on a cut word, to raise or (in a final string) to return; then induction over the representations. | The claim is false: exactly which cuts of a frame are accepted is proved, for frames of any session and for any accepted bytes. |
| C10 | partial | Direct calculation on the model, witnesses by evaluation in the kernel. | The claim is false: exact behaviour proved, with a concrete misplaced substitution. |
| C100 | partial | PreProcessToggles only extends its two lists when they are not empty, and both start empty, so its results are always empty (`addIdxs_nil`). The tape of a frame is `putFrame` (`WireSpec.lean`); blocks by induction over the fuel of OutputOps. | The content is proved; that it determines the lines is proved to be false, since toggles are never written. |
| C101 | proved | Induction over the list of parameters from its end; what a parameter says is a relation of its own (`Named`, `Last`, `Says`). | Python's int is a parameter. |
| C102 | partial | zlib is any library that meets the contract of `Zlib/Spec.lean`: what follows a flush is read as a block, and the frame header of a short frame is a stored block whose two lengths do not fit. The payload theorem is the induction of C35 with paired zlib streams. | The claim is false: the decoder decompresses the frame header too. Proved: the payloads are right, and the first frame raises if its payload has fewer than 512 bytes. |
| C103 | proved | Induction over the session with paired zlib streams, and C42. | zlib is a parameter with a contract. |
| C104 | partial | The induction of C44 (`Text/ProcLemmas`), with values that arrive as `normValue` says; the zlib layer is peeled off step by step. What matches DATE contains a space, so it is never a hexadecimal number. `Text/DateSpec` says which texts are dates and which parameter counts; `Text/DateLemmas` shows that the patterns and the dictionary of the model agree with it. | With date, the claim is false for hexadecimal values such as 0 and for dates in another spelling; which values arrive unchanged is proved exactly. Otherwise with the limits of C44. |
| C105 | partial | `Holds` relates the ring to the history of stored headers (`HistLemmas`); `insL` is Reserve and Store together. Lookups by arithmetic on positions; the search by characterising `find?` of the reversed ring (`FindLemmas`). | The content is proved. Numbers give their headers until they start again, after that they are proved to be wrong by 64. What the search finds is proved exactly; that it finds every header is false. |
| C106 | partial | `makeBody_spec` says what a message does to storage and group and which operations it makes; `InStep.lean` and `WireLemmas.lean` execute the operations in the receiver's order. `Same` relates both ends; `Held` is what a message needs. `heard` turns the entries of the group into the headers. Induction over the session. | Proved for sessions in which no message loses a header that it needs and the numbers do not start again, and for all sessions of at most 8192 bytes and 512 headers; in general the claim is false, with three witnesses. |
| C107 | partial | C106 with the serialiser: `payloadW` is the bit string of the operations, read back with the deserialiser of delta (C62). The counterexample has two messages with the same bit string for every Huffman code. | Proved for small sessions without names that bohe encodes; for those names the claim is false for every coder. |
| C108 | proved | The state after t repetitions is described exactly (`After` in `RepeatLemmas.lean`): the storage holds the last 1024 copies, and the group refers to the copy of a multiple of 1024 or has been deleted. Induction over the messages. |  |
| C109 | proved | `Known` relates the dictionary of hosts, the counter and the hosts seen; a message with a group id above 255 cannot be written. | The regular expression is a parameter. |
| C11 | partial | Direct calculation on the model, witnesses by evaluation in the kernel. | Refusal and frame length proved; the part about later messages is false, proved with a witness. |
| C110 | partial | What is written is the bit string `payloadW`; without binary values it is that of delta, so the deserialiser's loop over blocks reads it (C62). Executing the operations read is executing those sent (`hear_eq`), so C81's simulation applies; induction over the messages. | Proved for sessions without names that bohe encodes and of limited size; for such names the claim is false, with a witness, and it is false for every coder if the dictionaries are iterated in different orders. |
| C111 | proved | `Counts111` says what a set of counters must show for a list of strings; it is kept by every call (induction over characters, strings, operations, calls). |  |
| C112 | partial | SortedByFreq reaches index 256 in every state with 257 counters. The table is cut into lines and pairs again (`splitOn_joinWith`), and decimal digits are injective. | SortedByFreq always raises; the printed tables determine the counts. |
| C113 | partial | The frame is computed in closed form (`formatHeaders_eq`); `read113` is a reader of control frames by the length field, `decode113` one that ignores it. Induction over frames and iterations with zlib's contract. | The length field is always 3 too large; the contents arrive at a reader that does not need it. zlib is a parameter with a contract. |
| C114 | proved | The text is `barred114` of the digits; bit by bit induction. The coder's code words come from C90. |  |
| C115 | proved | The bucket holds the bits stored so far (C89's simulation); texts are compared as in C114. |  |
| C116 | proved | C91's round trips for each of the calls of the test. |  |
| C117 | proved | The text is `barred114` of the digits, as in C114; `'{0:08b}'` is checked for the 256 bytes. A bucket holds the bits by C13's simulation. |  |
| C118 | partial | The dashes are `barred114` of a constant list; the mark is compared with the character that would stand there. | Exactly when the mark is in the right column. |
| C119 | proved | Induction over the tests with C13's simulation; the texts are those of C117. |  |
| C12 | proved | C01 with the algebra of split, strip and join. | Exact description of what comes back; the whitespace condition is shown to be needed. |
| C120 | partial | `textWalk` follows the code word of a symbol in the bits of the bytes; induction over the text. The test programs use C20's coding lemmas. | Without an end of string; with one Decode always raises. |
| C121 | proved | Each line is computed (`line121`); splitting at the line ends and cutting off what does not depend on the code gives the code words back. |  |
| C122 | proved | Induction over the messages with the contract `HpackOk`; a package that keeps it is given. | The package hpack is a parameter with a contract. |
| C123 | proved | Each step of the decoder emits at most one header, which is either in the table or spelt out in the frame; induction over the steps. The example of the order is computed for the first frame and by induction for the second. |  |
| C124 | proved | The payload is bounded along the encoder's loops with C03's invariants; an index is below the number of entries, which is at most size/32. | The second for header strings shorter than 128^3 bytes. |
| C125 | proved | A frame without payload drops no reference and names no header; conversely a message whose headers are all referenced is written by no step. After a message that evicts nothing the references are exactly its headers. |  |
| C126 | proved | `Short`: a reader raises if only a part of what it should read is left, up to the end of a byte. The padding of strings is shorter than a byte, so a cut always removes bits of the code, and the walk through the code tree runs out of bits. Lifted through fields, operations, blocks and frames; the position of the cut is compared with the lengths of the frames of the first operations. | For payloads that fit into a frame (C31 is about the others). |
| C127 | proved | The frame of one range is computed; its indices have logarithmically many bits, and the set is the whole interval. | Beyond 2^63 Python's xrange raises OverflowError, which is not modelled. |
| C128 | proved | `CutAt`: a reader that succeeds raises IndexError on every proper beginning of what it reads; shown for bytes, integers and Huffman strings, where cutting is related to cutting the code of the bit decoder, and composed. A plain string cut within its bytes is shorter, and then nothing is left, so whatever is read next raises; only the last string of the last header can be shorter without that. The size check cannot fire first, as a shorter value only lowers the size. |  |
| C129 | proved | Each reader returns no more than eight symbols for each byte it consumes (a code has at least one bit). Induction over the headers with the bound on the texts held. |  |
| C13 | proved | `BitBucket` refined to a tape of bits with a read position, for any sequence of calls. | Any sequence of calls on a new bucket. |
| C130 | proved | A header without a value shares no prefix, so it is never a delta, and its length 0 always fits; induction over the names. | C36_bounded is what holds: the lengths of the values together do not exceed the buffer. |
| C131 | proved | As for C126, but the exception is not caught. Each block has more than two bytes, so a cut between two blocks is noticed when the next one should be read. For larger messages the reader is shown to look at nothing behind the payload. | For at most 256 operations of a kind (C62 is about the others). |
| C132 | proved | `Safe`: a reader at a half byte reads whole half bytes and gives a value that could have been packed, or raises with less than 16 bits left; the code is complete, so any bits begin with a code word or are the beginning of one. The bucket at a caught exception is modelled (`blocksLeft`), since the loop may go on to another frame. Induction over fields, operations, blocks and frames, with the bound on the number of operations. |  |
| C133 | proved | `executeLeft` (`Delta2/Left.lean`) is the state after an exception: what `execOps` stored before the failing operation, or the changed header group if a lookup failed. `execute_any` gives acceptance, the invariants and the group for any operations a deserialiser can return (C132); no entry ever gets a negative index, which gives the rest by induction over the frames. Memory is unbounded: a range is taken to be walked however long it is. |  |
| C134 | proved | `decodeLeft` (`HeaderDiff/Left.lean`) is the decoder after an exception: the only change made before something that can raise is the new name. Induction over the headers of a frame and over the frames. |  |
| C135 | proved | A header larger than the buffer evicts everything and is not stored. The encoder does not notice that it is too large, so it sends a literal for the table; with an empty table there is nothing to remove and the name is spelt out, so the bytes mean the same in every state of the decoder. After that C01 from the empty tables. |  |
| C136 | proved | The loop over the header group splits the group into kept and done indices and the headers into those of the kept indices and the rest; without rest and done there are no instructions, and conversely. Headers that are in the tables are found and toggled, after which the group is the message. A :path is found by its key in the static table, so it is cloned for the message only. |  |
| C137 | proved | An invariant of the loops that store headers: the table is what is kept of the old one and what was added, the added pairs are the last of those seen, and the other groups are the old ones without the indices of the entries that left. Entries that were added and removed again within one message can share an index with an entry of before only if that entry had left too. A header is refused only by an empty table. What the operations store are the headers that are not found. |  |
| C138 | proved | By induction over the headers of a message: a key that is in the table is written as its index and only ages change; if there is no novelty to be required and there is room, every other header is appended and no key is replaced. For the small buffer, the state after a message is a table with one entry, for which the order of the dictionary does not matter, and it is the same after every message. |  |
| C139 | proved | No header has two entries and none is a :path or referer, in every reachable state. With this the toggles of a message are exactly the entries for which being in the group and being in the message differ, and what is stored is exactly what has no entry; the renumbering of the entries of the group leaves each in the last group that its iteration comes to. The frame is empty exactly if all five lists of operations are. |  |
| C14 | proved | `BitBucket` refined to a tape of bits with a read position, for any sequence of calls. | Any bucket reachable by any calls, also calls with too many bytes. |
| C140 | proved | The toggles and ranges together weigh no more than two bytes for each toggled entry, by an invariant of the loop that joins neighbours to ranges; what is stored or referred to is exactly what has no entry (C139), and the bits of a text are the sum of its code words. The lengths of the words of the shipped codes are computed in the kernel. |  |
| C141 | proved | The operations of a message are counted: toggles and ranges (a range stands for at least two toggles), and one operation for each header without an entry. The bits of an operation are bounded field by field, a block has at most one byte more for each operation, and the indices stay below 2^16 when they are translated. C137 and C136 give the reachable states; that no :path but / is in the table is C136. |  |
| C142 | proved | The toggles and ranges of a message are matched with the entries that are in the group or in the message but not both (the list of operations that C141 counts), and executed; then the entries evicted by the message leave the group. That a header has one entry is C137, so an index not gone stands for the same header before and after. With only_etoggles no operation is a toggle or range and the group of the host stays empty; other groups only lose entries (C137). |  |
| C143 | proved | The length of each field is computed from the model of writeInteger and writeLiteralString; an invariant bounds the numbers of entries and names by the number of headers sent. A delta replaces a part of the value by the length of that part, which is never longer without a coder. |  |
| C144 | partial | Storing a header only takes entries out of a group, and those that stay mean what they did; with room it takes none out. The rest follows from the toggles (C142) and the headers stored (C137). The negation is a session of two hosts with a table of one entry, computed by the kernel without the Huffman coder. | the group is as claimed if the new headers of the message fit into the table; when the table is full the claim is false: a group that is empty while an entry is evicted is deleted, and the indices stored after that are lost |
| C145 | partial | The codes are numbers with their lengths, as in canonical_code_table; the fuel covers the depth of the recursion and the turns of the loop, and 33 times one more than the number of symbols is enough. An invariant of the helper says that it writes into its own table only, that a code alone at its place is there, and that places of no code stay free; the loop at the end fills them from below. Codes that share a place share their first bits, so the recursion ends. | it returns, and codes of at most eight bits are found; the claim is false of longer codes: the tables for them are built, but no entry of the first table names one |
| C15 | partial | `BitBucket` refined to a tape of bits with a read position, for any sequence of calls. | The claim is false: always one less; AllConsumed is exact. |
| C16 | partial | `BitBucket` refined to a tape of bits with a read position, for any sequence of calls. | The claim is false: the 30 most significant bits are stored. |
| C17 | proved | Field packing over the tape; the read position is arbitrary, so at any alignment. |  |
| C18 | partial | Field packing over the tape; the read position is arbitrary, so at any alignment. | Values that fit survive; the claim that all others are refused is false for widths 17 to 24 (exact characterisation and witness). |
| C19 | partial | Kraft equality for full trees; canonical codes are partial sums; insertion into the decode trie. Weights are of an arbitrary type with an arbitrary comparison, so Python's floats are covered. | Holds for ascending dictionary order, and whenever the constructor succeeds; for the shipped tables under CPython 2.7's order. The claim is false in general: the order of the dictionary can make the constructor raise ValueError. |
| C20 | proved | Field packing over the tape; the read position is arbitrary, so at any alignment. | Without Huffman coding PackStr always raises NameError. |
| C21 | partial | The tree builder commutes with any monotone rescaling of the weights, so dividing by two changes nothing. | The claim is false: the retry loop never changes the tree; a table with depth 33 ends in OverflowError. |
| C22 | proved | Huffman's exchange argument on exact rational weights. The code adds floats: counts are integers or 1/512, so sums below 2^44 are exact and the float tree is the exact one. | Exact rational weights; the floats of the code are exact for these sums (see DESIGN.md). |
| C23 | proved | Serialiser and deserialiser over the tape, for any Huffman object with a prefix-free code. | For every Huffman object that the constructor can return, every choice of index packing and all operations whose indices fit it. |
| C24 | proved | Invariant of the fold that builds the ranges. | For every multiset of indices, hence for every set. |
| C25 | proved | The ring as a list of entries with sequence numbers; explicit reference counts; invariant `RingOk`. | Any calls and any changes of the reference counts in between. max_items 0 is excluded, with a witness. |
| C26 | proved | The ring as a list of entries with sequence numbers; explicit reference counts; invariant `RingOk`. | max_entries at most max_index - 65, as the constructor of the codec ensures. |
| C27 | partial | A count of the holders of each string cell, kept over all operations of a session. | The claim is false; without refcnt_vals the value characters are bounded. |
| C28 | proved | Both sides execute the same operations on equal states; the operations are shown to encode the header set; `AppendToHeaders` and `compare_headers` on sets. | compressor and decompressor end in the same state after every session, for all parameters and orders; a session is any list, so this holds after each message |
| C29 | proved | Both sides execute the same operations on equal states; the operations are shown to encode the header set; `AppendToHeaders` and `compare_headers` on sets. | the decoded dictionary compares equal exactly if no cookie contains a NUL |
| C30 | proved | The ring as a list of entries with sequence numbers; explicit reference counts; invariant `RingOk`. |  |
| C31 | partial | The framing loop; which blocks of a long payload are read. | False of the code; what arrives of large payloads is characterised: everything if the last block begins in time, else nothing of what begins too late. |
| C32 | partial | Invariant of `IDStore`; witness for the wrap. | The claim is false after max_id requests, for every max_id. |
| C33 | proved | The encoder's dictionary and the decoder's list related by index; induction over the headers of a message and over messages. Ages, reference counts and deltas are included. | Deflate layer (windowSize) not modelled. The no-collision hypothesis is needed (C34). |
| C34 | partial | The encoder's dictionary and the decoder's list related by index; induction over the headers of a message and over messages. Ages, reference counts and deltas are included. | The claim is false: the table is keyed by name+value. Every decoded header equals the sent one after joining name and value, and was sent in the session. |
| C35 | proved | The encoder's dictionary and the decoder's list related by index; induction over the headers of a message and over messages. Ages, reference counts and deltas are included. | With or without collisions. |
| C36 | proved | The encoder's dictionary and the decoder's list related by index; induction over the headers of a message and over messages. Ages, reference counts and deltas are included. |  |
| C37 | proved | Integers, frame header, delta coding and Huffman strings as functions on bytes and bits. |  |
| C38 | partial | Integers, frame header, delta coding and Huffman strings as functions on bytes and bits. | The claim is false; exact condition for success, and a sufficient one in terms of the lengths without Huffman codes. |
| C39 | proved | Integers, frame header, delta coding and Huffman strings as functions on bytes and bits. |  |
| C40 | proved | Integers, frame header, delta coding and Huffman strings as functions on bytes and bits. |  |
| C41 | partial | String algebra; independent readers of the formats. | The claim is false for lengths that are positive multiples of 8; exact result for every ASCII text. |
| C42 | proved | String algebra; independent readers of the formats. | Any notion of whitespace and lower-casing with the usual ASCII behaviour. |
| C43 | partial | String algebra; independent readers of the formats. | The claim is false: IndexError for every request with an empty path. |
| C44 | partial | String algebra; independent readers of the formats. | Holds without headers named h, responses with :host, and commas in names; each exception shown by a witness. With and without the seven parameter. |
| C45 | proved | String algebra; independent readers of the formats. |  |
| C46 | proved | `lib/*` and `compare_compressors.py` as list and dictionary functions; lists shared between streams live in an explicit heap. | For every set iteration order. |
| C47 | proved | `lib/*` and `compare_compressors.py` as list and dictionary functions; lists shared between streams live in an explicit heap. |  |
| C48 | proved | `lib/*` and `compare_compressors.py` as list and dictionary functions; lists shared between streams live in an explicit heap. | streamifyBy covers host and public_suffix (the suffix list is an arbitrary function). |
| C49 | proved | `lib/*` and `compare_compressors.py` as list and dictionary functions; lists shared between streams live in an explicit heap. |  |
| C50 | partial | `lib/*` and `compare_compressors.py` as list and dictionary functions; lists shared between streams live in an explicit heap. | The claim is false: exact effect on message lists and names proved; results are untouched. |
| C51 | proved | `lib/*` and `compare_compressors.py` as list and dictionary functions; lists shared between streams live in an explicit heap. |  |
| C52 | proved | `lib/*` and `compare_compressors.py` as list and dictionary functions; lists shared between streams live in an explicit heap. | Any lower-casing function. |
| C53 | proved | `lib/*` and `compare_compressors.py` as list and dictionary functions; lists shared between streams live in an explicit heap. | urlsplit results are inputs of the model. |
| C54 | partial | `lib/*` and `compare_compressors.py` as list and dictionary functions; lists shared between streams live in an explicit heap. | The claim is false: :host is always taken from the URL; witness; a URL without path becomes the host as a whole. |
| C55 | proved | String algebra; independent readers of the formats. | int() of a string is a parameter. |
| C56 | proved | `lib/*` and `compare_compressors.py` as list and dictionary functions; lists shared between streams live in an explicit heap. |  |
| C57 | proved | `lib/*` and `compare_compressors.py` as list and dictionary functions; lists shared between streams live in an explicit heap. |  |
| C58 | proved | `lib/*` and `compare_compressors.py` as list and dictionary functions; lists shared between streams live in an explicit heap. |  |
| C59 | proved | String algebra; independent readers of the formats. | zlib is a parameter. |
| C60 | proved | C33 composed with `split_from_dict` and the tester's comparison. | Params parsing not modelled; any parameters. |
| C61 | partial | Generic lemmas on the frame header; witness for every long value. The positive part is the induction of C35 with an encoder that goes on after an exception. | The claim is false: witness for every value of more than 65535 bytes. Proved if every message that raises has more than 255 headers or leaves the tables as they were. |
| C62 | partial | As for delta2: bits written, bits read; the tree of the heap is optimal by the exchange argument of `Huff/TreeOpt.lean`. | The claim is false for more than 256 operations of a kind, and for messages of more than one frame unless the last kind of operations begins in the first; both are characterised. |
| C63 | proved | Invariant `Inv` of a codec, kept by every step; both sides execute the same operations. `C64_total` by a bound of the counted bytes by the distinct names. | For messages of at most 128 pieces, none with the name of the static key (C67), as long as compress does not raise (C64_total says when). |
| C64 | proved | Invariant `Inv` of a codec, kept by every step; both sides execute the same operations. `C64_total` by a bound of the counted bytes by the distinct names. |  |
| C65 | proved | Invariant `Inv` of a codec, kept by every step; both sides execute the same operations. `C64_total` by a bound of the counted bytes by the distinct names. |  |
| C66 | partial | The first message is evaluated symbolically; the counter and the number of groups of an entry are invariants of a session; witnesses are sessions that are run. | The claim is false: only the counter is bounded. |
| C67 | proved | The first message is evaluated symbolically; the counter and the number of groups of an entry are invariants of a session; witnesses are sessions that are run. |  |
| C68 | proved | As for delta2: bits written, bits read; the tree of the heap is optimal by the exchange argument of `Huff/TreeOpt.lean`. |  |
| C69 | proved | A heap of nodes with two links each represents a list; all four pointer updates of `remove`. |  |
| C70 | partial | The first message is evaluated symbolically; the counter and the number of groups of an entry are invariants of a session; witnesses are sessions that are run. | The claim is false; no index is in two groups. |
| C71 | partial | What each header writes into the bit bucket; a reader on bits with the prefix code; two messages whose bits agree. | The claim is false: for every value there are two messages with the same frame. Holds for binary values of a length divisible by four and short names. |
| C72 | proved | Reference readers of `Bohe/Spec.lean` are run on what the encoders produce; `int`, `strptime`, `md5`, werkzeug's parsers and `BaseCookie` are arbitrary functions. | strptime and int are parameters. |
| C73 | proved | Reference readers of `Bohe/Spec.lean` are run on what the encoders produce; `int`, `strptime`, `md5`, werkzeug's parsers and `BaseCookie` are arbitrary functions. | parse_dict_header is a parameter. |
| C74 | proved | Reference readers of `Bohe/Spec.lean` are run on what the encoders produce; `int`, `strptime`, `md5`, werkzeug's parsers and `BaseCookie` are arbitrary functions. | BaseCookie is a parameter whose max-age attributes contain no NUL. |
| C75 | proved | Reference readers of `Bohe/Spec.lean` are run on what the encoders produce; `int`, `strptime`, `md5`, werkzeug's parsers and `BaseCookie` are arbitrary functions. | Exact, against a specification of directives; C75_false is a pair of headers sent alike. |
| C76 | partial | Reference readers of `Bohe/Spec.lean` are run on what the encoders produce; `int`, `strptime`, `md5`, werkzeug's parsers and `BaseCookie` are arbitrary functions. | The claim is false for methods of one byte; holds for all others. |
| C77 | proved | Reference readers of `Bohe/Spec.lean` are run on what the encoders produce; `int`, `strptime`, `md5`, werkzeug's parsers and `BaseCookie` are arbitrary functions. | Preferences: for values that are not empty. |
| C78 | partial | Reference readers of `Bohe/Spec.lean` are run on what the encoders produce; `int`, `strptime`, `md5`, werkzeug's parsers and `BaseCookie` are arbitrary functions. | The claim is false for the attribute a; what happens with other tokens is proved too. |
| C79 | proved | Reference readers of `Bohe/Spec.lean` are run on what the encoders produce; `int`, `strptime`, `md5`, werkzeug's parsers and `BaseCookie` are arbitrary functions. | Exact. |
| C80 | partial | Invariant of a codec between messages (`Inv`, `Good`); what MakeOperations does is computed as a function of the list of codes (`make_eq`). The receiver is related to the sender by a simulation (`Sim`) that every step keeps, also when values are dropped. | The claim is false for repeated crumbs (and full tables, C84_lost); holds for at most 1024 different headers. |
| C81 | partial | Invariant of a codec between messages (`Inv`, `Good`); what MakeOperations does is computed as a function of the list of codes (`make_eq`). The receiver is related to the sender by a simulation (`Sim`) that every step keeps, also when values are dropped. | Staying in step is proved for all sessions; the generated headers for sessions as in C80; false for codes of crumbs with NUL. Reading the operations from the wire is C110. |
| C82 | proved | Counters: indices grow by the number of codes and of new values; the counted bytes are the lengths of the distinct names. |  |
| C83 | proved | Counters: indices grow by the number of codes and of new values; the counted bytes are the lengths of the distinct names. |  |
| C84 | proved | The table is filled by induction over the list of paths, with its order; then one message. |  |
| C85 | proved | The first message is evaluated symbolically; storing the same pair twice raises. | The negation is proved for a family of messages. |
| C86 | proved | The first message is evaluated symbolically; storing the same pair twice raises. |  |
| C87 | proved | `HoldsC` relates a bucket to a tape; the writing methods are reduced to the lemmas on Python's bucket, GetBits and GetBit are proved from the bits of a byte. Asserts count as absent (the Makefile sets NDEBUG). |  |
| C88 | partial | `HoldsC` relates a bucket to a tape; the writing methods are reduced to the lemmas on Python's bucket, GetBits and GetBit are proved from the bits of a byte. Asserts count as absent (the Makefile sets NDEBUG). | The claim is false on byte boundaries; between them it is proved. |
| C89 | partial | `HoldsC` relates a bucket to a tape; the writing methods are reduced to the lemmas on Python's bucket, GetBits and GetBit are proved from the bits of a byte. Asserts count as absent (the Makefile sets NDEBUG). | The claim is false: the bits already read are not taken off. |
| C90 | proved | The canonical code is that of `Huff/Canon.lean` (`assign`), computed here with 32-bit arithmetic (`Cpp/Canon.lean`). The codes shifted to the left of a word cut the 32-bit numbers into intervals (`Part`); BuildDecodeHelper is proved by induction over its levels (`LevelOk`): the tables it appends lead every word of the interval to its code (`Look`). Init is proved to succeed only for the shipped tables, with weights without rounding. |  |
| C91 | proved | `Ready`: the word and the bits still to be shifted in are the next 32 bits of the bucket, with zeros behind the last byte. One step consumes one code word; induction over the text, or over the bits left. |  |
| C92 | partial | Both orders of (length, symbol) are sorted permutations of the leaves, hence equal. The lengths of one symbol in the shipped tables are computed in the kernel. | Same counts give the same code; the shipped counts differ. |
| C93 | proved | The tables for decoding are extended (`helper_adds`, `fill_valid`), and lookups in them are stable under extension (`Look.mono`). |  |
| C94 | partial | `IsText` says which lines stand for which blocks. The state of ParseStream is the even and odd elements of the blocks so far (`stOf`); one lemma for each kind of line, then induction. The translator's text is shown to be such a text; two empty blocks remain at its end. | Proved with the additional empty response; the full claim is proved to be false for every input. |
| C95 | proved | `IsText` says which lines stand for which blocks. The state of ParseStream is the even and odd elements of the blocks so far (`stOf`); one lemma for each kind of line, then induction. The translator's text is shown to be such a text; two empty blocks remain at its end. |  |
| C96 | proved | `IsText` says which lines stand for which blocks. The state of ParseStream is the even and odd elements of the blocks so far (`stOf`); one lemma for each kind of line, then induction. The translator's text is shown to be such a text; two empty blocks remain at its end. |  |
| C97 | proved | Texts are lists of lines (`unl`). readBlock is computed up to the first blank line, the child by induction over its blocks. |  |
| C98 | partial | `Inv` relates the name map, the heap of entries, the eviction list, the groups and both counters; each operation is proved to keep it (`CodecInv`, `CodecStep`). Entries behind the pin of the eviction list are safe (`Safe`), `Prog` says what clones and KVStos change. `Staged` and `Done` describe the state before writing and after a frame; induction over `Reach`. | The lines shown are proved for frames without repeated lines; for repeated ones the claim is proved to be false. |
| C99 | proved | Toggles that turn an entry off are made of pointers to entries of the group; the clones and KVStos executed before the writing may evict them. If there is room nothing is evicted (`Grow`). The witness is computed in the kernel up to the writing; the writing itself is covered by the general theorem. |  |

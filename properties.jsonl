{"id": "C01", "title": "Dynamic array behaves as a sequence", "statement": "Starting from zpl_array_init/zpl_array_init_reserve, after any sequence of zpl_array_append, appendv, append_at and appendv_at (index in 0..count), set, pop and remove_at (valid index), fill, clear, resize, reserve, grow and set_capacity calls whose allocations succeed, the elements arr[0..count) are exactly those of the mathematical sequence obtained by the same insertions and deletions; count never exceeds capacity; no call touches memory outside the block; growth never loses or reorders elements.", "quantifier": "every element type, every finite history of operations, every size", "why_tests_cant": "Growth happens at data dependent points (2n+8), so a test sees a handful of histories; the sequence law must hold after every history and every reallocation point.", "anchors": ["code/header/essentials/collections/array.h: zpl_array_init_reserve, zpl__array_set_capacity, zpl__array_grow, zpl__array_append_helper, zpl__array_append_at_helper, zpl__array_appendv, zpl__array_appendv_at, zpl_array_remove_at, zpl_array_pop, zpl_array_resize, zpl_array_reserve, zpl_array_fill"]}
{"id": "C02", "title": "Array operations fail cleanly when memory runs out", "statement": "If an allocation inside zpl_array_append/appendv/append_at/appendv_at/reserve/grow fails, the call returns false and the array still holds exactly the elements, count and capacity it had before; for every pattern of allocation failures over a history, the array equals the sequence obtained by replaying only the calls that returned true.", "quantifier": "every history of operations and every schedule of allocation failures", "why_tests_cant": "An allocation may fail at any of unboundedly many points in a history.", "anchors": ["code/header/essentials/collections/array.h: zpl__array_set_capacity, zpl__array_grow, zpl__array_append_helper, zpl__array_appendv"]}
{"id": "C03", "title": "Hash table behaves as a finite map", "statement": "After any sequence of set, get, remove, clear, grow and rehash calls on a ZPL_TABLE instance, get(k) returns the value of the last set(k,_) not followed by remove(k) or clear, and NULL when there is none, for every key k; every lookup terminates and stays inside the arrays.", "quantifier": "every finite history, every 64-bit key including keys that collide in a bucket, every value type", "why_tests_cant": "Collision chains, rehash points and index renumbering on removal depend on the whole history; tests cover a few keys.", "anchors": ["code/header/essentials/collections/hashtable.h: ZPL_TABLE_DEFINE, get, set, slot, remove, rehash, rehash_fast, grow, clear, _find, _add_entry, _full"]}
{"id": "C04", "title": "Hash table batch removal is repaired by rehash_fast", "statement": "Removing any number of entries with remove_entry and then calling rehash_fast once leaves the same map as calling remove on the corresponding keys; without the rehash_fast call, lookups may be wrong.", "quantifier": "every table reachable by any history and every sequence of entry indices", "why_tests_cant": "The stale state between remove_entry and rehash_fast depends on the collision structure of the particular table.", "anchors": ["code/header/essentials/collections/hashtable.h: remove_entry, rehash_fast, remove"]}
{"id": "C05", "title": "Hash table iteration visits each binding exactly once", "statement": "map and map_mut call the procedure exactly once for every key currently bound, with its current value, and for no other key; map_mut changes exactly the values written by the procedure.", "quantifier": "every reachable table and every visitor", "why_tests_cant": "Depends on the no-duplicate-keys invariant, which must hold after every history.", "anchors": ["code/header/essentials/collections/hashtable.h: map, map_mut, set"]}
{"id": "C06", "title": "Ring buffer is a bounded FIFO that overwrites the oldest item", "statement": "For a ring initialised with max_size n>0, after any sequence of append and get, the items come out in the order appended; at most n items are held; appending to a full ring drops exactly the oldest item; get on an empty ring returns NULL; full and empty report exactly whether n or 0 items are held.", "quantifier": "every capacity, every finite history, including histories that wrap the indices any number of times", "why_tests_cant": "Wrap-around positions depend on the total history modulo the capacity.", "anchors": ["code/header/essentials/collections/ring.h: ZPL_RING_DEFINE, append, get, full, empty"]}
{"id": "C07", "title": "Ring buffer bulk operations", "statement": "append_array(xs) equals appending xs one by one; get_array(m) removes and returns the oldest min(m, size) items in order.", "quantifier": "every reachable ring, every item list and every m", "why_tests_cant": "The off-by-one behaviour depends on m and the fill level.", "anchors": ["code/header/essentials/collections/ring.h: append_array, get_array"]}
{"id": "C08", "title": "Fixed buffer behaves as a bounded sequence", "statement": "After any sequence of zpl_buffer_append, appendv, pop and clear that never exceeds the capacity given to zpl_buffer_init, the buffer holds exactly the appended-minus-popped sequence, never reallocates and never touches memory outside its block; copy_init yields an equal sequence.", "quantifier": "every capacity and every history", "why_tests_cant": "Every history must keep count within capacity.", "anchors": ["code/header/essentials/collections/buffer.h: zpl_buffer_init, zpl_buffer_append, zpl_buffer_appendv, zpl_buffer_pop, zpl_buffer_clear, zpl_buffer_copy_init"]}
{"id": "C09", "title": "Linked list add and remove", "statement": "zpl_list_add(list, item) inserts item directly after list, zpl_list_remove(item) unlinks item: after any history of valid adds and removes, forward traversal from the head visits exactly the linked items in order, and backward links mirror forward links.", "quantifier": "every finite list shape and every history of add/remove", "why_tests_cant": "Pointer shape errors show only in particular orders of removal.", "anchors": ["code/header/essentials/collections/list.h: zpl_list_add, zpl_list_remove, zpl_list_init"]}
{"id": "C10", "title": "memmove and memcopy copy exactly", "statement": "zpl_memmove(dest, src, n) leaves dest[0..n) equal to the bytes src[0..n) had before the call, for overlapping and non-overlapping regions and every relative alignment, changes no other byte and touches no byte outside the two regions; it returns dest.", "quantifier": "every memory content, every pair of addresses, every length", "why_tests_cant": "There are unboundedly many combinations of address, overlap, alignment phase and length.", "anchors": ["code/header/essentials/memory.h: zpl_memmove", "code/source/essentials/memory.c: zpl_memcopy"]}
{"id": "C11", "title": "memset fills exactly", "statement": "zpl_memset(dest, c, n) sets exactly the n bytes at dest to c and changes no other byte.", "quantifier": "every address, every alignment, every length, every byte value", "why_tests_cant": "The implementation has many overlapping unrolled stores whose coverage depends on length and alignment.", "anchors": ["code/header/essentials/memory.h: zpl_memset"]}
{"id": "C12", "title": "memswap exchanges exactly", "statement": "zpl_memswap(i, j, n) for disjoint or identical regions exchanges the n bytes at i with those at j and changes no other byte.", "quantifier": "every memory content, pair of disjoint regions and every length", "why_tests_cant": "Size-class dispatch (4, 8, <8, 256-byte chunks) gives a different path for each length.", "anchors": ["code/source/essentials/memory.c: zpl_memswap"]}
{"id": "C13", "title": "memchr and memrchr find the first and last occurrence", "statement": "zpl_memchr(data, c, n) returns the address of the first byte among the n bytes equal to c, NULL if there is none; zpl_memrchr returns the last; neither reads past the n bytes.", "quantifier": "every content, alignment, length, byte", "why_tests_cant": "The word-at-a-time scan relies on a bit trick that must be right for all 2^64 words.", "anchors": ["code/source/essentials/memory.c: zpl_memchr, zpl_memrchr", "code/header/essentials/memory.h: ZPL__ONES, ZPL__HIGHS, ZPL__HAS_ZERO"]}
{"id": "C14", "title": "memcompare is a lexicographic order", "statement": "zpl_memcompare(a,b,n) returns 0 iff the n bytes are equal, and otherwise its sign is the order of the first differing byte; hence antisymmetric and transitive.", "quantifier": "every pair (and triple) of byte regions and every n", "why_tests_cant": "An order law quantifies over triples of arbitrary regions.", "anchors": ["code/header/essentials/memory.h: zpl_memcompare"]}
{"id": "C15", "title": "Alignment helpers round up minimally", "statement": "For a power of two alignment, zpl_align_forward(p,a) is the least multiple of a that is at least p; zpl_align_forward_i64/u64 likewise for any positive alignment; zpl_is_power_of_two(x) holds iff x is a positive power of two.", "quantifier": "all 64-bit values and alignments for which the result is representable", "why_tests_cant": "Holds over the full 64-bit domain; tests sample.", "anchors": ["code/header/essentials/memory.h: zpl_align_forward, zpl_align_forward_i64, zpl_align_forward_u64, zpl_is_power_of_two"]}
{"id": "C16", "title": "Arena allocations are aligned, in bounds and disjoint", "statement": "Every block an arena hands out is aligned as requested, lies inside the arena's memory and does not overlap any other block handed out since the last free_all; when the request does not fit NULL is returned and nothing changes.", "quantifier": "every arena, every sequence of allocation sizes and alignments", "why_tests_cant": "Overlap depends on the whole sequence of sizes and alignments.", "anchors": ["code/source/essentials/memory_custom.c: zpl_arena_allocator_proc", "code/header/essentials/memory_custom.h: zpl_arena_init_from_memory, zpl_arena_alignment_of, zpl_arena_size_remaining"]}
{"id": "C17", "title": "Arena snapshots restore the allocation state", "statement": "zpl_arena_snapshot_end(zpl_arena_snapshot_begin(arena)) after any allocations in between restores the arena so that later allocations return exactly what they would have returned had the bracketed ones never happened; snapshots nest.", "quantifier": "every sequence of allocations inside and after the bracket", "why_tests_cant": "Quantifies over arbitrary bracketed histories.", "anchors": ["code/header/essentials/memory_custom.h: zpl_arena_snapshot_begin, zpl_arena_snapshot_end"]}
{"id": "C18", "title": "Pool allocator never hands out a block twice", "statement": "For every sequence of alloc, free and free_all on a pool, each live block is one of the pool's blocks, no two live blocks overlap, allocation fails only when all num_blocks are live, and a freed block becomes available again.", "quantifier": "every pool geometry with at least one block and room for a pointer in block size plus alignment, and every history in which frees are of live blocks", "why_tests_cant": "Free-list corruption shows only for particular free/alloc orders.", "anchors": ["code/source/essentials/memory_custom.c: zpl_pool_init_align, zpl_pool_allocator_proc"]}
{"id": "C19", "title": "Stack allocator frees restore the previous top", "statement": "zpl_stack_memory alloc returns aligned, in-bounds, pairwise disjoint blocks, and freeing the most recent block restores the allocator to the state before that allocation; a whole LIFO history returns it to the initial state.", "quantifier": "every LIFO history of sizes and alignments", "why_tests_cant": "Header placement interacts with alignment for every size.", "anchors": ["code/source/essentials/memory_custom.c: zpl_stack_allocator_proc"]}
{"id": "C20", "title": "Scratch allocations are disjoint", "statement": "Every block a scratch allocator hands out lies inside its memory and is disjoint from the blocks still in use.", "quantifier": "every history of scratch alloc and free", "why_tests_cant": "Depends on the history of sizes and on wrap-around.", "anchors": ["code/source/essentials/memory_custom.c: zpl_scratch_allocator_proc, zpl_scratch_memory_init, zpl_scratch_memory_is_in_use"]}
{"id": "C21", "title": "Resize keeps the contents", "statement": "zpl_default_resize_align(a, old, old_size, new_size, align) returns a block whose first min(old_size,new_size) bytes equal the old ones; on allocation failure it returns NULL and the old block is unchanged and still live; new_size 0 frees; NULL old allocates.", "quantifier": "every content, old and new size, allocator outcome", "why_tests_cant": "Every combination of sizes and failures.", "anchors": ["code/header/essentials/memory_custom.h: zpl_default_resize_align"]}
{"id": "C22", "title": "zpl_string operations compute on the text", "statement": "After any sequence of zpl_string_make*, append_length, append, appendc, set, clear, append_rune and trim calls with successful allocations, the string's bytes are those of the same operations on byte sequences, length is the number of bytes, the byte at index length is NUL, length <= capacity, and every access stays in the block.", "quantifier": "every history of operations on one string, arbitrary bytes and lengths", "why_tests_cant": "Capacity growth points and truncation depend on the history.", "anchors": ["code/source/core/stringlib.c: zpl_string_make_reserve, zpl_string_make_length, zpl_string_append_length, zpl_string_set, zpl_string_make_space_for, zpl_string_trim, zpl_string_append_rune"]}
{"id": "C23", "title": "zpl_string equality and join", "statement": "zpl_string_are_equal(a,b) iff the two strings hold the same bytes; zpl_string_join(parts, glue) is the concatenation of parts with glue between consecutive ones.", "quantifier": "all pairs of strings, all lists of parts", "why_tests_cant": "Quantifies over all strings.", "anchors": ["code/source/core/stringlib.c: zpl_string_are_equal, zpl_string_join"]}
{"id": "C24", "title": "Integers survive printing and parsing", "statement": "For every u64 (and every i64 other than the minimum) and every base b in 2..10 or b=16, zpl_str_to_u64(zpl_u64_to_str(x,b), NULL, b) = x and likewise for i64; the text is the standard positional numeral without leading zeros.", "quantifier": "all 64-bit values and bases", "why_tests_cant": "2^64 values times bases.", "anchors": ["code/source/core/string.c: zpl_i64_to_str, zpl_u64_to_str, zpl_str_to_u64, zpl_str_to_i64, zpl__scan_u64, zpl__scan_i64"]}
{"id": "C25", "title": "Integer parsing consumes exactly the numeral", "statement": "zpl_str_to_u64/i64 return the value (mod 2^64) of the longest prefix of valid digits after an optional sign/0x prefix, and set end_ptr just past it.", "quantifier": "every NUL-terminated text and every base 2..10, 16", "why_tests_cant": "Quantifies over all texts.", "anchors": ["code/source/core/string.c: zpl_str_to_u64, zpl_str_to_i64"]}
{"id": "C26", "title": "UTF-8 encode/decode round trip", "statement": "For every Unicode scalar value r, zpl_utf8_encode_rune(r) produces the standard 1-4 byte encoding and zpl_utf8_decode of those bytes (followed by anything) gives back r and the same width.", "quantifier": "all 1,112,064 scalar values and all following bytes", "why_tests_cant": "Whole code space, with arbitrary trailing context.", "anchors": ["code/source/core/string.c: zpl_utf8_encode_rune, zpl_utf8_decode, zpl_utf8_codepoint_size"]}
{"id": "C27", "title": "UTF-8 decode accepts exactly valid encodings and always progresses", "statement": "zpl_utf8_decode never reads past the given length, returns a width between 1 and the length on non-empty input, returns a rune other than the replacement error only if the consumed bytes are the encoding of that scalar value, so overlong forms, surrogates and values above U+10FFFF are rejected.", "quantifier": "every byte string", "why_tests_cant": "All byte strings of up to 4 bytes with arbitrary continuation, and iteration over arbitrary lengths.", "anchors": ["code/source/core/string.c: zpl_utf8_decode, zpl__utf8_first, zpl__utf8_accept_ranges"]}
{"id": "C28", "title": "UTF-8 and UCS-2 conversion round trip", "statement": "For every well-formed UTF-16 text that fits the buffer, zpl_ucs2_to_utf8 followed by zpl_utf8_to_ucs2 gives back the text, and for every well-formed UTF-8 text the converse holds; outputs never exceed the given length and are NUL-terminated.", "quantifier": "all well-formed texts and buffer lengths", "why_tests_cant": "All texts and all buffer boundaries.", "anchors": ["code/source/core/string.c: zpl_utf8_to_ucs2, zpl_ucs2_to_utf8"]}
{"id": "C29", "title": "C-string comparison and search", "statement": "zpl_strcmp is the lexicographic order of unsigned bytes (sign) and 0 iff equal; zpl_strncmp is 0 iff the first n characters agree; zpl_str_has_prefix / has_suffix hold iff the text begins/ends with the given text; first/last occurrence return the least/greatest matching index; none reads past the terminators.", "quantifier": "all NUL-terminated texts and n", "why_tests_cant": "All pairs of texts.", "anchors": ["code/header/core/string.h: zpl_strcmp, zpl_strncmp, zpl_str_has_prefix, zpl_str_has_suffix, zpl_char_first_occurence, zpl_char_last_occurence, zpl_strlen, zpl_strnlen"]}
{"id": "C30", "title": "Bounded string copy stays in bounds", "statement": "zpl_strncpy(dest,src,n) writes exactly n bytes: the source up to its terminator then NULs; zpl_strlcpy(dest,src,n) writes at most n bytes, NUL-terminates when n>0 and holds the longest prefix of src that fits.", "quantifier": "all texts and n", "why_tests_cant": "All text lengths relative to n.", "anchors": ["code/header/core/string.h: zpl_strncpy, zpl_strlcpy"]}
{"id": "C31", "title": "In-place text transforms", "statement": "zpl_strrev reverses the text, zpl_str_to_lower/upper map each character, all in place within the text, keep the length, and reversing twice is the identity.", "quantifier": "all texts", "why_tests_cant": "All texts.", "anchors": ["code/header/core/string.h: zpl_strrev, zpl_str_to_lower, zpl_str_to_upper, zpl_char_to_lower, zpl_char_to_upper"]}
{"id": "C32", "title": "Line splitting", "statement": "zpl_str_split_lines returns, in order, the lines of a text whose every line ends in \\n; joining them with \\n gives back the text; all accesses stay within the text.", "quantifier": "all texts", "why_tests_cant": "All texts, including the last-line boundary.", "anchors": ["code/header/core/string.h: zpl_str_split_lines"]}
{"id": "C33", "title": "Sort produces a sorted permutation", "statement": "For every array and every comparison that is a total preorder, zpl_sort terminates, touches only the array, and leaves a permutation of the original elements in non-decreasing order.", "quantifier": "every length, content, consistent comparison", "why_tests_cant": "All inputs of all lengths; quicksort paths depend on the data.", "anchors": ["code/source/core/sort.c: zpl_sort"]}
{"id": "C34", "title": "Sort uses bounded stack", "statement": "zpl_sort never pushes more than its 32 frames on its fixed internal stack for any array of fewer than 2^32*8 elements, whatever the data.", "quantifier": "every array and comparison", "why_tests_cant": "Worst-case inputs are adversarial and not found by testing.", "anchors": ["code/source/core/sort.c: zpl_sort, ZPL__SORT_STACK_SIZE"]}
{"id": "C35", "title": "Radix sort sorts integers", "statement": "zpl_radix_sort_u16/u32/u64 leave items a sorted permutation of the input for every array; equal items keep their order.", "quantifier": "every array of every length", "why_tests_cant": "All inputs.", "anchors": ["code/source/core/sort.c: ZPL_RADIX_SORT_PROC_GEN"]}
{"id": "C36", "title": "Binary search finds a key iff present", "statement": "On a sorted array zpl_binary_search returns an index holding an element equal to the key if there is one, -1 otherwise, and terminates.", "quantifier": "every sorted array, key and comparison consistent with it", "why_tests_cant": "All arrays and keys.", "anchors": ["code/header/core/sort.h: zpl_binary_search"]}
{"id": "C37", "title": "Shuffle and reverse permute in place", "statement": "zpl_shuffle leaves a permutation of the elements for every random state; zpl_reverse leaves them in reverse order; both touch only the array.", "quantifier": "every array and every random generator state", "why_tests_cant": "The random stream is unbounded.", "anchors": ["code/source/core/sort.c: zpl_shuffle, zpl_reverse"]}
{"id": "C38", "title": "Random range stays in range", "statement": "zpl_random_range_i64/isize(r, lo, hi) with lo<=hi and a representable width returns a value in [lo,hi] for every generator state; every value of the range is produced by some raw draw.", "quantifier": "every generator state and every range", "why_tests_cant": "All generator states and ranges.", "anchors": ["code/source/core/random.c: zpl_random_range_i64, zpl_random_range_isize, zpl_random_gen_u64"]}
{"id": "C39", "title": "Unique generator does not repeat", "statement": "zpl_random_gen_u32_unique never returns the same value twice within its period of 2^32 calls.", "quantifier": "every initial state and every pair of calls", "why_tests_cant": "Quantifies over 2^64 pairs of calls.", "anchors": ["code/source/core/random.c: zpl__permute_qpr, zpl__permute_with_offset, zpl_random_gen_u32_unique"]}
{"id": "C40", "title": "Adler-32 is the standard checksum with no overflow", "statement": "zpl_adler32(data,len) equals (1+sum b_i mod 65521) + 65536*((sum of partial sums) mod 65521) for every byte string: the deferred modulo never overflows 32 bits.", "quantifier": "every byte string of every length", "why_tests_cant": "Overflow needs long high-valued inputs.", "anchors": ["code/source/hashing.c: zpl_adler32"]}
{"id": "C41", "title": "CRC-32 and CRC-64 are the polynomial remainders", "statement": "zpl_crc32/crc64 equal the bitwise reflected CRC with polynomial 0xEDB88320 / the table's 64-bit polynomial, for every byte string; any single changed byte changes the checksum, and CRC of equal-length strings is affine (xor of three strings' CRCs is the CRC of the xor).", "quantifier": "every byte string, every position", "why_tests_cant": "All byte strings; table typos are invisible to a few vectors.", "anchors": ["code/source/hashing.c: zpl__crc32_table, zpl__crc64_table, zpl_crc32, zpl_crc64"]}
{"id": "C42", "title": "FNV hashes never collide on a single-byte change", "statement": "zpl_fnv32/64/32a/64a equal the published FNV recurrences; two strings of equal length differing in one byte always have different hashes.", "quantifier": "all strings, positions and byte values", "why_tests_cant": "All strings.", "anchors": ["code/source/hashing.c: zpl_fnv32, zpl_fnv64, zpl_fnv32a, zpl_fnv64a"]}
{"id": "C43", "title": "Murmur32 depends on every byte", "statement": "zpl_murmur32_seed changes whenever one 4-byte block or one tail byte of the message changes (same length), for every seed, and equals the published MurmurHash3 x86_32.", "quantifier": "all messages, seeds, positions", "why_tests_cant": "All messages.", "anchors": ["code/source/hashing.c: zpl_murmur32_seed"]}
{"id": "C44", "title": "Murmur64 depends on every byte", "statement": "zpl_murmur64_seed changes whenever one 8-byte block or one tail byte of the message changes, for every seed.", "quantifier": "all messages, seeds, positions", "why_tests_cant": "All messages.", "anchors": ["code/source/hashing.c: zpl_murmur64_seed"]}
{"id": "C45", "title": "Base64 round trip", "statement": "For every non-empty byte string, zpl_base64_decode(zpl_base64_encode(x)) = x, the encoding is the RFC 4648 one with padding and has length 4*ceil(n/3).", "quantifier": "all byte strings", "why_tests_cant": "All byte strings, all lengths mod 3.", "anchors": ["code/source/hashing.c: zpl_base64_encode, zpl_base64_decode, zpl__base64_encoded_size, zpl__base64_decoded_size"]}
{"id": "C46", "title": "Base64 decode rejects malformed input safely", "statement": "zpl_base64_decode returns NULL on any text that is not valid padded base64 and never touches memory outside its input and output.", "quantifier": "all texts", "why_tests_cant": "All malformed texts.", "anchors": ["code/source/hashing.c: zpl_base64_decode, zpl__base64_valid_char"]}
{"id": "C47", "title": "Memory stream is a byte file with a cursor", "statement": "After any sequence of write, seek, tell, write_at, read and read_at calls on a writable memory stream, the stream's contents and cursor are those of the same operations on a byte sequence, and every read within the contents returns the bytes last written there.", "quantifier": "every history of stream operations", "why_tests_cant": "Histories of overlapping writes, seeks and growth are unbounded.", "anchors": ["code/source/core/file_stream.c: zpl_file_stream_new, zpl_file_stream_open, zpl__memory_file_seek, zpl__memory_file_read, zpl__memory_file_write", "code/header/core/file.h: zpl_file_read, zpl_file_write, zpl_file_seek, zpl_file_tell"]}
{"id": "C48", "title": "URI text encoding round trip", "statement": "Percent-decoding the percent-encoding of any NUL-free text gives the text back, and the encoding contains only unreserved characters, '+' and %HH escapes.", "quantifier": "all texts", "why_tests_cant": "All texts.", "anchors": ["code/source/parsers/uri.c: zpl__uri_decode_str, zpl__uri_print_str"]}
{"id": "C49", "title": "JSON write/parse round trip", "statement": "Parsing the text written for any JSON document built from objects, arrays, strings, booleans and null gives an equal document.", "quantifier": "all documents of any depth", "why_tests_cant": "All documents.", "anchors": ["code/source/parsers/json.c: zpl_json_parse, zpl_json_write, zpl__json_parse_value, zpl__json_write_value, zpl__json_parse_object, zpl__json_parse_array"]}
{"id": "C50", "title": "CSV write/parse round trip", "statement": "Parsing the text written for any rectangular table of text and number cells gives the same table.", "quantifier": "all rectangular tables, cell texts and numbers", "why_tests_cant": "All tables, all cell contents (quotes, delimiters, newlines).", "anchors": ["code/source/parsers/csv.c: zpl_csv_parse_delimiter, zpl_csv_write_delimiter, zpl__csv_write_record"]}
{"id": "C51", "title": "Regex literal search", "statement": "For a pattern of ordinary characters, zpl_re_compile succeeds and zpl_re_match(text) is true iff the pattern occurs in the text as a substring.", "quantifier": "all literal patterns and all texts", "why_tests_cant": "All patterns and texts.", "anchors": ["code/source/regex.c: zpl_re_compile, zpl_re_match, zpl__re_exec, zpl__re_exec_single, zpl__re_parse, zpl__re_emit_ops_buffer"]}
{"id": "C52", "title": "Tar archive layout round trip", "statement": "zpl_tar_unpack over the output of zpl_tar_pack calls the callback once per packed file, in order, with its name, length and data offset, and a header with any changed byte fails the checksum.", "quantifier": "all lists of files with short names and all contents", "why_tests_cant": "All archives.", "anchors": ["code/source/core/file_tar.c: zpl_tar_pack, zpl_tar_unpack, zpl__tar_checksum"]}
{"id": "C53", "title": "Command-line options parsing", "statement": "zpl_opts_compile assigns to every option exactly the value given for it on the command line, and reports errors for unknown options, missing values and missing positionals.", "quantifier": "all option sets and argument lists", "why_tests_cant": "All argument lists.", "anchors": ["code/source/opts.c: zpl_opts_compile, zpl__opts_set_value, zpl__opts_find, zpl_opts_has_arg"]}
{"id": "C54", "title": "snprintf stays within its buffer", "statement": "zpl_snprintf(text, max_len, fmt, ...) never writes outside text[0..max_len) and returns -1 or the number of bytes written including the NUL.", "quantifier": "all formats, arguments and max_len", "why_tests_cant": "All formats and lengths.", "anchors": ["code/source/core/print.c: zpl_snprintf_va, zpl__print_string, zpl__print_repeated_char"]}
{"id": "C55", "title": "Every enqueued job runs exactly once", "statement": "For every interleaving of the worker threads with the thread calling zpl_jobs_enqueue and zpl_jobs_process, each accepted job is run at most once, with the data it was enqueued with, and every accepted job is either still queued, assigned to one worker or has run exactly once.", "quantifier": "every interleaving, number of workers, queue sizes and job list", "why_tests_cant": "Thread schedules are unbounded.", "anchors": ["code/source/jobs.c: zpl__jobs_entry, zpl_jobs_enqueue_with_priority, zpl_jobs_process"]}
{"id": "C56", "title": "zpl_jobs_done implies all jobs finished", "statement": "When zpl_jobs_done returns true, every job accepted so far has completed.", "quantifier": "every interleaving", "why_tests_cant": "Depends on the schedule of worker status updates.", "anchors": ["code/source/jobs.c: zpl_jobs_done, zpl_jobs_empty, zpl__jobs_entry"]}
{"id": "C57", "title": "Jobs shutdown terminates", "statement": "zpl_jobs_free returns for every schedule: every worker observes termination and exits.", "quantifier": "every schedule", "why_tests_cant": "A lost termination store needs one particular interleaving.", "anchors": ["code/source/jobs.c: zpl_jobs_free, zpl__jobs_entry"]}
{"id": "C58", "title": "Job priorities are starvation free", "statement": "Every non-empty priority queue is eventually served if zpl_jobs_process is called forever with free workers, and the first pick after a pass that found nothing takes the highest non-empty priority.", "quantifier": "every queue state and counter value", "why_tests_cant": "Unbounded runs.", "anchors": ["code/source/jobs.c: zpl_jobs_process, zpl__jobs_chances"]}
{"id": "C59", "title": "Spin locks give mutual exclusion", "statement": "At most one thread at a time is between a successful acquire (zpl_atomic32_spin_lock / try_acquire_lock returning true) and the matching unlock.", "quantifier": "every interleaving, number of threads", "why_tests_cant": "Thread schedules are unbounded.", "anchors": ["code/source/threading/atomic.c: zpl_atomic32_spin_lock, zpl_atomic32_spin_unlock, zpl_atomic32_try_acquire_lock, zpl_atomic64_spin_lock"]}
{"id": "C60", "title": "Sync barrier releases nobody early and everybody eventually", "statement": "With zpl_sync_set_target(s,n), no call of zpl_sync_reach_and_wait returns before n reach calls happened; once all n happened every waiter can return without deadlock; after the last one left, set_target can start the next round.", "quantifier": "every number of threads, mix of reach and reach_and_wait, interleaving", "why_tests_cant": "Thread schedules are unbounded.", "anchors": ["code/source/threading/sync.c: zpl_sync_set_target, zpl_sync_release, zpl_sync_reach, zpl_sync_reach_and_wait"]}
{"id": "C61", "title": "Half-float conversion round trip", "statement": "zpl_float_to_half(zpl_half_to_float(h)) = h for every finite or infinite half h (NaNs stay NaNs), and the float value equals the half's value.", "quantifier": "all 65,536 halves", "why_tests_cant": "A claim about every bit pattern rather than a few.", "anchors": ["code/source/math.c: zpl_half_to_float, zpl_float_to_half"]}
{"id": "C62", "title": "ADT tree edits", "statement": "zpl_adt_append/alloc_at insert a child at the requested index and shift later siblings, remove_node deletes exactly that child, find returns the first child with the name (or, deep, in pre-order), for every tree.", "quantifier": "all trees, indices, names", "why_tests_cant": "All tree shapes and histories.", "anchors": ["code/source/adt.c: zpl_adt_alloc_at, zpl_adt_alloc, zpl_adt_remove_node, zpl_adt_find, zpl_adt_swap_nodes"]}
{"id": "C63", "title": "ADT path queries", "statement": "zpl_adt_query(node, \"a/b/c\") returns the node reached by following the names (or array indices) from node, and NULL iff some step is missing.", "quantifier": "all trees and paths", "why_tests_cant": "All trees and paths.", "anchors": ["code/source/adt.c: zpl_adt_query, zpl__adt_get_field, zpl__adt_get_value"]}
{"id": "C64", "title": "Trimming a virtual memory region keeps the kept part", "statement": "zpl_vm_trim(vm, lead, size) releases exactly the leading lead bytes and the bytes after lead+size; the returned region stays mapped.", "quantifier": "all regions and sizes", "why_tests_cant": "All sizes.", "anchors": ["code/source/core/memory_virtual.c: zpl_vm_trim"]}
{"id": "C65", "title": "Path helpers", "statement": "zpl_path_is_absolute holds iff the path begins with '/', is_relative is its negation, is_root iff the path is \"/\"; base_name is the part after the last '/', extension the part after the last '.'.", "quantifier": "all paths", "why_tests_cant": "All paths.", "anchors": ["code/header/core/file_misc.h: zpl_path_is_absolute, zpl_path_is_relative, zpl_path_is_root, zpl_path_base_name, zpl_path_extension"]}
{"id": "C66", "title": "Number of characters of a UTF-8 text", "statement": "zpl_utf8_strlen returns the number of code points of a text and reads no byte behind its terminator.", "quantifier": "all terminated byte texts", "why_tests_cant": "All texts, including ill-formed ones, and all memory contents behind the terminator.", "anchors": ["code/header/core/string.h: zpl_utf8_strlen"]}
{"id": "C67", "title": "strcpy and strcat copy the text", "statement": "zpl_strcpy(dest, source) makes the text in dest equal to source, and zpl_strcat(dest, source) makes it the concatenation of both, terminator included, when dest is large enough; no byte outside dest is written.", "quantifier": "all texts, buffer sizes and previous contents of the buffer", "why_tests_cant": "All previous contents of the buffer: a test with a zeroed buffer does not notice a missing terminator.", "anchors": ["code/header/core/string.h: zpl_strcpy, zpl_strcat"]}
{"id": "C68", "title": "Concatenation and duplication of texts", "statement": "zpl_str_concat(dest, dest_len, a, a_len, b, b_len) leaves a then b, terminated, in dest; zpl_strdup(a, src, max_len) returns a terminated copy of the first max_len characters of src.", "quantifier": "all texts, lengths and previous contents", "why_tests_cant": "All lengths and previous contents.", "anchors": ["code/header/core/string.h: zpl_str_concat, zpl_strdup"]}
{"id": "C69", "title": "Tokens split a text at the delimiters", "statement": "zpl_strtok copies the characters before the first delimiter, terminated, and returns a pointer just after that delimiter, or to the terminator; calling it again there yields exactly the fields of the text. zpl_strntok does the same without writing more than len bytes.", "quantifier": "all texts, delimiter sets and lengths", "why_tests_cant": "All texts and delimiter sets.", "anchors": ["code/header/core/string.h: zpl_strtok, zpl_strntok"]}
{"id": "C70", "title": "Skipping stops at the first matching character", "statement": "zpl_str_trim skips exactly the leading blanks (stopping at a line end when asked so), zpl_str_skip stops at the first given character or the end, zpl_str_skip_any at the first character of a set, zpl_str_skip_literal at the first given character that does not follow a backslash, zpl_str_control_skip at the first one that is not escaped.", "quantifier": "all texts", "why_tests_cant": "All texts.", "anchors": ["code/header/core/string.h: zpl_str_trim, zpl_str_skip, zpl_str_skip_any, zpl_str_skip_literal, zpl_str_control_skip"]}
{"id": "C71", "title": "Character classes and digit values", "statement": "The predicates zpl_char_is_space, is_digit, is_hex_digit, is_alpha and is_alphanumeric hold exactly for the ASCII characters of their class; zpl_digit_to_int, zpl_hex_digit_to_int and zpl_char_to_hex_digit return the value of the digit.", "quantifier": "all 256 characters", "why_tests_cant": "All characters; a test with one digit per range misses a wrong offset.", "anchors": ["code/header/core/string.h: zpl_char_is_space, zpl_char_is_digit, zpl_char_is_hex_digit, zpl_char_is_alpha, zpl_char_to_hex_digit, zpl_hex_digit_to_int, zpl_digit_to_int"]}
{"id": "C72", "title": "Bounded lengths never read past the bound", "statement": "zpl_strnlen(s, n) is the smaller of n and the length of s and reads no byte beyond the first n; zpl_utf8_strnlen(s, n) is the number of characters that begin within the first n bytes of the text and reads no byte beyond the first n; zpl_utf8_codepoint_size is the length of the sequence at the pointer.", "quantifier": "all texts and bounds", "why_tests_cant": "All bounds and all memory contents behind the text.", "anchors": ["code/header/core/string.h: zpl_strnlen, zpl_utf8_strnlen", "code/source/core/string.c: zpl_utf8_codepoint_size"]}
{"id": "C73", "title": "Recursive directory creation asks for every ancestor", "statement": "zpl_path_mkdir_recursive(path) asks for the creation of every prefix of the path that ends before a separator, outermost first, and then of the path itself; a path too long for its buffer is refused.", "quantifier": "all paths", "why_tests_cant": "All paths.", "anchors": ["code/source/core/file_misc.c: zpl_path_mkdir_recursive"]}
{"id": "C74", "title": "Float to half rounds to nearest", "statement": "zpl_float_to_half keeps the sign, returns the finite half nearest to a finite float (of two equally near ones the larger in magnitude), returns the infinity exactly from 65520 on, and maps infinities to infinities and NaNs to NaNs.", "quantifier": "all 2^32 floats", "why_tests_cant": "Four thousand million inputs, each compared with every half.", "anchors": ["code/source/math.c: zpl_float_to_half"]}
{"id": "C75", "title": "The job limit is respected and refusal means full", "statement": "At most max_jobs jobs of each priority wait in a pool; zpl_jobs_enqueue_with_priority returns false exactly when max_jobs jobs of that priority are waiting, and an accepted job becomes the last of its priority without disturbing other priorities.", "quantifier": "every interleaving, number of workers, limit and list of calls", "why_tests_cant": "All schedules and histories.", "anchors": ["code/source/jobs.c: zpl_jobs_enqueue_with_priority, zpl_jobs_full"]}
{"id": "C76", "title": "Jobs of one priority run in order", "statement": "In a pool with one worker thread the jobs of each priority are run in the order in which they were accepted.", "quantifier": "every interleaving of the worker with the client and every mixture of priorities", "why_tests_cant": "All schedules.", "anchors": ["code/source/jobs.c: zpl_jobs_process, zpl__jobs_entry"]}
{"id": "C77", "title": "JSON layout does not matter", "statement": "Parsing a JSON text gives the document it denotes whatever white space stands between its tokens, whichever of the supported quote, assignment and delimiter characters it uses, and whether or not the root object has its braces; trailing text after the root value is ignored.", "quantifier": "every text of the supported grammar, of any depth and with any white space", "why_tests_cant": "Infinitely many layouts of infinitely many documents.", "anchors": ["code/source/parsers/json.c: zpl_json_parse, zpl__json_parse_object, zpl__json_trim"]}
{"id": "C78", "title": "Moving and swapping tree nodes", "statement": "zpl_adt_swap_nodes exchanges two nodes of a tree; zpl_adt_move_node(_at) takes a node out of its place, puts it (with everything below it) at the requested index of the new parent and returns a pointer to it; the rest of the tree is as before.", "quantifier": "all trees, all pairs of nodes, all new parents and indices", "why_tests_cant": "Trees and positions are unbounded, and the outcome depends on whether arrays are shifted or reallocated during the move.", "anchors": ["code/source/adt.c: zpl_adt_swap_nodes, zpl_adt_move_node, zpl_adt_move_node_at, zpl_adt_remove_node"]}
{"id": "C79", "title": "Queries by value", "statement": "A query part [field=value] leads to the first object of an array (or to the object itself) that has a member of that name whose text is the value; [value] leads to the first element of an array with that text; what follows after a slash is looked up from there; if there is none the result is NULL.", "quantifier": "all trees, field names, values and continuations of the path", "why_tests_cant": "Ranges over all trees and texts; the part is copied and cut in a shared buffer.", "anchors": ["code/source/adt.c: zpl_adt_query, zpl__adt_get_field, zpl__adt_get_value"]}
{"id": "C80", "title": "Malformed JSON is refused", "statement": "A JSON text in which an object is closed by a bracket, an array is not closed, an array ends with the text, a member has no assignment, or a bare word is no constant, makes zpl_json_parse return the error that names the mistake, however deep the mistake lies and whatever right text precedes it or any text follows it; no such text yields a document.", "quantifier": "all texts with such a mistake at any depth and position, all continuations", "why_tests_cant": "Ranges over all nestings, positions, preceding members and following bytes.", "anchors": ["code/source/parsers/json.c: zpl_json_parse, zpl__json_parse_object, zpl__json_parse_array, zpl__json_parse_name, zpl__json_parse_value"]}
{"id": "C81", "title": "Unpacking an archive to a directory", "statement": "zpl_tar_unpack_dir over the output of zpl_tar_pack makes every packed file under the destination with exactly its contents (the last one of equal names wins), makes the directories on the way first, leaves every other file as it was, skips names beginning with '..', and never writes outside the destination or its own buffers.", "quantifier": "all lists of files with short names and all contents, all destinations, all previous contents of the disk", "why_tests_cant": "Ranges over all names, contents, numbers of files and destinations, including the chunked copying of any length and paths of any depth.", "anchors": ["code/source/core/file_tar.c: zpl_tar_unpack, zpl_tar_default_unpack_file", "code/header/core/file_tar.h: zpl_tar_unpack_dir", "code/source/core/file_misc.c: zpl_path_mkdir_recursive"]}
{"id": "C82", "title": "Regex patterns without repetition or alternatives", "statement": "A pattern made of runs of ordinary characters, '.', escapes that are no hexadecimal digits, sets [...] and [^...], ^, $ and nested captures compiles with no error; zpl_re_match is true iff the pattern matches somewhere in the text, the match found is the leftmost one, *offset is its end, capture k holds exactly the part the k-th group (by opening bracket) matched, and no other capture slot is touched.", "quantifier": "all such patterns of any length and nesting (runs up to 127 characters, up to 256 groups), all texts, all numbers of capture slots", "why_tests_cant": "Ranges over all patterns and texts.", "anchors": ["code/source/regex.c: zpl_re_compile, zpl_re_match, zpl_re__parse, zpl_re__parse_group, zpl_re__exec, zpl_re__exec_single"]}
{"id": "C83", "title": "Regex repetition", "statement": "A pattern with c+ or c* matches where the usual meaning of the repetition does: zpl_re_match is true iff some number of repetitions lets the whole pattern match, and the repetition takes as many characters as it can.", "quantifier": "all patterns with repetitions, all texts", "why_tests_cant": "Ranges over all patterns and texts.", "anchors": ["code/source/regex.c: zpl_re__consume, zpl_re__compile_quantifier, zpl_re__exec_single"]}
{"id": "C84", "title": "Compiling a regex is safe for every pattern", "statement": "zpl_re_compile on any sequence of characters, well formed or not, returns: it reads only the pattern, writes only its buffer, comes to an end, and gives its buffer back exactly when it reports an error. zpl_re_compile_from_buffer does the same within the buffer it is given.", "quantifier": "all byte sequences as patterns", "why_tests_cant": "Ranges over all patterns, including every kind of malformed one.", "anchors": ["code/source/regex.c: zpl_re_compile, zpl_re_compile_from_buffer, zpl_re__parse, zpl_re__parse_group, zpl_re__emit_ops, zpl_re__compile_quantifier"]}
{"id": "C85", "title": "Regex alternatives", "statement": "s|t and (s|t) are found in a text iff s or t occurs in it.", "quantifier": "all ordinary non-empty s and t, all texts", "why_tests_cant": "Ranges over all alternatives and texts.", "anchors": ["code/source/regex.c: zpl_re__parse, zpl_re__exec_single"]}
{"id": "C86", "title": "Regex escapes", "statement": "\\e stands for one character of the class named by e (\\d a digit, \\s white space, \\w a word character and so on), and for e itself if it names no class, whatever follows it in the pattern.", "quantifier": "all characters e, all texts, all continuations of the pattern", "why_tests_cant": "Ranges over all characters and texts.", "anchors": ["code/source/regex.c: zpl_re__encode_escape, zpl_re__match_escape, zpl_re__hex", "code/header/regex.h"]}
{"id": "C87", "title": "Integers in documents survive", "statement": "Writing an integer node as a number and parsing the text gives the same node, whatever follows the text; in particular every integer node obtained by parsing survives, with its notation (decimal, hexadecimal, negative zero).", "quantifier": "all 64-bit integers, all texts they may have been read from, all continuations of the text", "why_tests_cant": "Ranges over 2^64 values and all texts.", "anchors": ["code/source/adt.c: zpl_adt_print_number, zpl_adt_parse_number"]}
{"id": "C88", "title": "Numerals are read as what they denote", "statement": "zpl_adt_parse_number reads an optional sign and decimal digits, or 0x/0X and hexadecimal digits, as the integer they denote, sets the hexadecimal mark accordingly and stops at the end of the digits; zpl_adt_parse_number_strict does so for a text that is a number as a whole and refuses texts with other characters.", "quantifier": "all signs, digit strings of any length and continuations", "why_tests_cant": "Ranges over all numerals, of any length.", "anchors": ["code/source/adt.c: zpl_adt_parse_number, zpl_adt_parse_number_strict"]}
{"id": "C89", "title": "Numbers with a fraction survive", "statement": "A number in scientific notation (and a number that begins with a dot) is read as its mantissa scaled by the power of ten, and printed exactly as it was written.", "quantifier": "all mantissas, fractions with any leading zeros, and exponents", "why_tests_cant": "Ranges over all numbers and their spellings.", "anchors": ["code/source/adt.c: zpl_adt_parse_number, zpl_adt_print_number", "code/header/adt.h: zpl_adt_node"]}
{"id": "C90", "title": "Rectangles know their points", "statement": "A rectangle reports that it contains a point exactly when the point lies in it, two rectangles report an intersection exactly when they have a point in common, the intersection holds exactly the common points, and turning a rectangle into a box keeps its points.", "quantifier": "all rectangles, with positive, negative and zero sides, and all points", "why_tests_cant": "Ranges over all coordinates; the sides may be negative.", "anchors": ["code/source/math.c: zpl_rect2_contains, zpl_rect2_contains_vec2, zpl_rect2_intersects, zpl_rect2_intersection_result, zpl_aabb2_rect2, zpl_rect2_aabb2"]}
{"id": "C91", "title": "Cutting a box into strips", "statement": "Cutting strips off the sides of a box puts each point of the box into exactly one of the strips and the remaining box, and no point outside it into any; a strip has the asked size as long as the box is large enough.", "quantifier": "all boxes, all sequences of cuts at any side and of any width", "why_tests_cant": "The sequence of cuts is unbounded and the coordinates are arbitrary.", "anchors": ["code/source/math.c: zpl_aabb2_cut_left, zpl_aabb2_cut_right, zpl_aabb2_cut_top, zpl_aabb2_cut_bottom, zpl_aabb2_get_left, zpl_aabb2_add_left"]}
{"id": "C92", "title": "Growing and shrinking boxes", "statement": "Shrinking a box by an amount leaves the points that far from its edges, growing it adds the points that near to them, and one undoes the other.", "quantifier": "all boxes and amounts", "why_tests_cant": "Depends on where the box lies, which a test picks once.", "anchors": ["code/source/math.c: zpl_aabb2_contract, zpl_aabb2_expand"]}
{"id": "C93", "title": "Lengths, directions and mirrors", "statement": "Normalising gives the vector of length one in the same direction (and the safe variant zero for zero); dot and cross products are those of linear algebra; reflecting on a unit normal keeps the length and undoes itself; refracting obeys the law of refraction.", "quantifier": "all vectors of two, three and four real coordinates, all normals and ratios", "why_tests_cant": "Identities over the reals.", "anchors": ["code/source/math.c: zpl_vec3_norm, zpl_vec3_norm0, zpl_vec3_cross, zpl_vec2_side, zpl_vec3_reflect, zpl_vec3_refract"]}
{"id": "C94", "title": "Matrix products", "statement": "Multiplying matrices gives their product also when the result replaces an argument; the identity, transposition and products with vectors agree with it.", "quantifier": "all matrices of two, three and four rows, all ways the result may overlap the arguments", "why_tests_cant": "Ranges over all entries and all aliasing patterns.", "anchors": ["code/source/math.c: zpl_mat4_mul, zpl_float44_mul, zpl_mat4_mul_vec4, zpl_mat3_mul_vec3, zpl_mat2_mul_vec2, zpl_mat4_transpose, zpl_mat4_identity"]}
{"id": "C95", "title": "Determinants and inverses", "statement": "The determinants are right, and inverting an invertible matrix gives the matrix whose product with it is the identity, also in place.", "quantifier": "all invertible matrices of two, three and four rows", "why_tests_cant": "Ranges over all entries; a test uses symmetric or diagonal examples.", "anchors": ["code/source/math.c: zpl_mat2_determinate, zpl_mat3_determinate, zpl_mat2_inverse, zpl_mat3_inverse, zpl_mat4_inverse"]}
{"id": "C96", "title": "Quaternion arithmetic", "statement": "Sum, product, conjugate, inverse and quotient of quaternions are those of the division ring of quaternions; normalising gives length one in the same direction.", "quantifier": "all quaternions (the inverse: all but zero)", "why_tests_cant": "Identities over the reals.", "anchors": ["code/source/math.c: zpl_quat_mul, zpl_quat_div, zpl_quat_conj, zpl_quat_inverse, zpl_quat_norm, zpl_quat_dot"]}
{"id": "C97", "title": "Quaternions rotate", "statement": "Rotating a vector by a quaternion of length one keeps lengths, angles and handedness; the product of quaternions composes rotations and the conjugate undoes them; the matrix made of a quaternion does the same and gives the quaternion back, up to its sign.", "quantifier": "all quaternions of length one (for the matrix: all but zero), all vectors", "why_tests_cant": "Identities over the reals; the way back has four branches.", "anchors": ["code/source/math.c: zpl_quat_rotate_vec3, zpl_mat4_from_quat, zpl_quat_from_mat4"]}
{"id": "C98", "title": "Turning round an axis", "statement": "The quaternion and the matrix of an axis and an angle turn every point round the axis by the angle, and both can be read back; translation, rotation and scaling matrices do what they say, and applying one to a matrix puts it before the others.", "quantifier": "all axes but zero, all angles, all points", "why_tests_cant": "Identities over the reals.", "anchors": ["code/source/math.c: zpl_quat_axis_angle, zpl_mat4_axis_angle, zpl_quat_axis, zpl_quat_angle, zpl_mat4_to_translate, zpl_mat4_to_scale, zpl_mat4_translate, zpl_mat4_rotate"]}
{"id": "C99", "title": "Three angles", "statement": "The quaternion of pitch, yaw and roll turns by roll round z, pitch round x and yaw round y, and the three angles can be read back from it.", "quantifier": "all angles", "why_tests_cant": "Identities over the reals.", "anchors": ["code/source/math.c: zpl_quat_euler_angles, zpl_quat_roll, zpl_quat_pitch, zpl_quat_yaw"]}
{"id": "C100", "title": "Projections show what is in view", "statement": "A parallel projection maps its box to the cube; a perspective projection draws within the unit square and depth range just the points in its cone and between its planes, in both depth conventions.", "quantifier": "all planes, opening angles, aspect ratios and points before the camera", "why_tests_cant": "Ranges over all parameters and points.", "anchors": ["code/source/math.c: zpl_mat4_ortho2d, zpl_mat4_ortho3d, zpl_mat4_perspective, zpl_mat4_infinite_perspective, zpl_mat4_ortho3d_dx, zpl_mat4_perspective_dx, zpl_mat4_infinite_perspective_dx"]}
{"id": "C101", "title": "Looking at a point", "statement": "The view matrix is rigid, puts the eye at the origin, the looked-at point straight ahead at its distance, and the up direction upwards, in both conventions.", "quantifier": "all eyes, centres and up directions that are not degenerate", "why_tests_cant": "Ranges over all positions.", "anchors": ["code/source/math.c: zpl_mat4_look_at, zpl_mat4_look_at_lh"]}
{"id": "C102", "title": "Nothing in view is left out", "statement": "The frustum of a camera holds just the points it sees; a point is reported inside exactly when it is; a sphere or box reported outside holds no point inside.", "quantifier": "all frustums, cameras, points, spheres and boxes", "why_tests_cant": "Ranges over all geometry; the failing boxes are those that surround the view.", "anchors": ["code/source/math.c: zpl_frustum_create, zpl_frustum_sphere_inside, zpl_frustum_point_inside, zpl_frustum_box_inside, zpl_plane_distance"]}
{"id": "C103", "title": "Going from one value to another", "statement": "Linear interpolation meets its ends, stays between them and can be inverted; smooth steps lead from 0 to 1 without going back; the cubic curve meets its ends with the given speeds and the derivative function gives its speed.", "quantifier": "all ends, speeds and shares of the way", "why_tests_cant": "Identities, inequalities and derivatives over the reals.", "anchors": ["code/source/math.c: zpl_lerp, zpl_unlerp, zpl_smooth_step, zpl_smoother_step, zpl_vec3_lerp, zpl_vec3_cslerp, zpl_vec3_dcslerp"]}
{"id": "C104", "title": "Rotations in between", "statement": "Spherical interpolation of two rotations has length one and divides the angle between them in proportion; it and the cheaper variants start and end at the given rotations.", "quantifier": "all pairs of quaternions of length one and all shares", "why_tests_cant": "Identities over the reals, with exceptional pairs.", "anchors": ["code/source/math.c: zpl_quat_slerp, zpl_quat_nlerp, zpl_quat_slerp_approx, zpl_quat_nquad, zpl_quat_squad_approx"]}
{"id": "C105", "title": "Rounding", "statement": "Rounding down, up and to the nearest give the greatest whole number not above, the least not below and the nearest one, halves away from zero.", "quantifier": "all numbers in the range of int", "why_tests_cant": "Ranges over all numbers; the failing ones are whole.", "anchors": ["code/source/math.c: zpl_floor, zpl_ceil, zpl_round"]}
{"id": "C106", "title": "Remainders and differences of angles", "statement": "The remainder of a division has the sign of the dividend and is smaller than the divisor; the remainder of the nearest quotient is at most half the divisor; the difference of two angles leads from the first to the second the short way round.", "quantifier": "all dividends and divisors whose quotient fits an int; all pairs of angles less than half a turn apart", "why_tests_cant": "Ranges over all numbers.", "anchors": ["code/source/math.c: zpl_remainder, zpl_mod, zpl_mod64, zpl_angle_diff"]}
{"id": "C107", "title": "Signs, units, constants and fast exponentials", "statement": "Copying a sign takes just the sign bit; signs times sizes give the number; degrees and radians convert back and forth; the constants are right; the fast exponential is within 0.0017 on the documented range; powers and logarithms of two undo each other.", "quantifier": "all bit patterns, all numbers, all arguments from -1 to 1", "why_tests_cant": "Ranges over all numbers; error bounds need analysis.", "anchors": ["code/source/math.c: zpl_copy_sign, zpl_copy_sign64, zpl_to_radians, zpl_to_degrees, zpl_fast_exp, zpl_fast_exp2, zpl_exp2, zpl_log2", "code/header/math.h: ZPL_PI, ZPL_ONE_OVER_PI, zpl_sign, zpl_sign0"]}
{"id": "C108", "title": "The fast reciprocal square root", "statement": "The fast reciprocal square root is within five millionths of the exact one, and not above it.", "quantifier": "all positive normal floats", "why_tests_cant": "Two thousand million inputs; the bit trick has three cases.", "anchors": ["code/source/math.c: zpl_quake_rsqrt"]}
{"id": "C109", "title": "Angles and powers without a mathematics library", "statement": "Where the library computes angles and powers itself, the direction of a point, the arc sine and cosine and powers are those of the mathematical functions.", "quantifier": "all points but the origin, all arguments from -1 to 1, all bases and exponents", "why_tests_cant": "Ranges over all numbers; whole octants fail.", "anchors": ["code/source/math.c: zpl_arctan2, zpl_arcsin, zpl_arccos, zpl_sin, zpl_pow (ZPL_NO_MATH_H, _MSC_VER)"]}
{"id": "C110", "title": "Ranges, steps, masks, copies", "statement": "Least, greatest, clamping and range tests agree with the order; a step is the multiple towards zero; masks set just their bits; copying a matrix gives the matrix; the aspect ratio times the height is the width.", "quantifier": "all values of a linear order, all ints, all bit patterns, all matrices", "why_tests_cant": "Ranges over all values.", "anchors": ["code/header/essentials/helpers.h: zpl_min3, zpl_max3, zpl_clamp, zpl_is_between, zpl_step, zpl_abs, ZPL_MASK_SET", "code/source/math.c: zpl_mat2_copy, zpl_mat3_copy, zpl_mat4_copy, zpl_vec2_aspect_ratio"]}
{"id": "C111", "title": "The heap and its statistics", "statement": "Whatever a program allocates, frees and resizes through the heap allocator, and whatever addresses the operating system hands out, the blocks it owns never overlap, have the size and alignment asked for, are zeroed when asked, keep the bytes stored in them until freed, and are all given back to the operating system; an allocation that is refused returns NULL. With allocation analysis the statistics always say how many blocks and bytes are owned, and the leak check passes exactly when there are none.", "quantifier": "all sequences of actions of a program that depends on what it was given, all choices of the operating system", "why_tests_cant": "Ranges over all histories and all behaviours of the operating system allocator, with the bookkeeping record hidden beside each block.", "anchors": ["code/source/essentials/memory_custom.c: zpl_heap_allocator_proc, zpl_heap_stats_init, zpl_heap_stats_used_memory, zpl_heap_stats_alloc_count, zpl_heap_stats_check"]}
{"id": "C112", "title": "Bytes and bits of words", "statement": "Swapping the byte order reverses the bytes; the next power of two is the least one not below; setting, resetting and reading a bit concern that bit only; counting gives the number of bits set.", "quantifier": "all words, all bit positions", "why_tests_cant": "Ranges over all words and positions; reading fails on bits tests rarely try.", "anchors": ["code/header/core/misc.h: zpl_endian_swap16, zpl_endian_swap32, zpl_endian_swap64, zpl_next_pow2, zpl_bit_set, zpl_bit_get, zpl_bit_reset, zpl_count_set_bits"]}
{"id": "C113", "title": "URIs survive writing and reading", "statement": "A URI built from an origin and parameters (texts, flags, integers) is written as the origin, a question mark and encoded fields separated by ampersands; reading that text back, whatever blanks stand before it, gives the same origin and the same parameters in the same order.", "quantifier": "all URIs, all texts, all integers", "why_tests_cant": "Ranges over all texts and numbers of parameters; decoding is done in place, and values are guessed to be numbers.", "anchors": ["code/source/parsers/uri.c: zpl_uri_parse, zpl_uri_write, zpl__uri_decode_str, zpl__uri_print_str", "code/source/adt.c: zpl_adt_str_to_number_strict"]}
{"id": "C114", "title": "An open file is a sequence of bytes with a cursor", "statement": "Reading, writing, reading and writing at an offset, seeking, skipping, telling, asking for the size and truncating, in any order and number, give the results that a sequence of bytes with one cursor gives: a read returns the bytes at the cursor and moves it, a write replaces or extends them, everything else stays; no call touches another file, another descriptor or a name.", "quantifier": "all histories of calls, all contents, all offsets and sizes", "why_tests_cant": "Every history of operations on every contents.", "anchors": ["code/source/core/file.c: zpl__posix_file_seek, zpl__posix_file_read, zpl__posix_file_write, zpl_file_read_at_check, zpl_file_write_at_check, zpl_file_seek, zpl_file_skip, zpl_file_tell, zpl_file_size, zpl_file_truncate"]}
{"id": "C115", "title": "Opening and closing files", "statement": "Each mode gives the promised access: a missing file is created by the writing and appending modes and is an error for the reading ones, writing modes empty the file and the others keep it, appended data always goes to the end; a failed call leaves no descriptor and no memory behind, and closing gives back exactly what opening took.", "quantifier": "all modes, names and states of the file system", "why_tests_cant": "All mode words, all states of the descriptor table and the file system.", "anchors": ["code/source/core/file.c: zpl__posix_file_open, zpl_file_open_mode, zpl_file_new, zpl_file_create, zpl_file_open, zpl_file_close, zpl_file_temp", "code/header/core/file.h: zpl_file_mode_flag"]}
{"id": "C116", "title": "Writing and reading whole files", "statement": "Writing contents to a name makes exactly those bytes the contents of that file and changes no other; reading a file returns a fresh block with exactly its bytes, followed by a zero if asked; reading what was written gives it back; neither leaves a descriptor open or a name allocated, whatever fails.", "quantifier": "all contents, names and file systems, all patterns of failure", "why_tests_cant": "All contents and all points of failure.", "anchors": ["code/source/core/file.c: zpl_file_read_contents", "code/header/core/file.h: zpl_file_write_contents"]}
{"id": "C117", "title": "The lines of a file", "statement": "Reading the lines of a file gives its text cut at the line breaks, in order, and frees nothing it should not; a missing file gives no lines.", "quantifier": "all contents", "why_tests_cant": "All texts, through the block that holds them.", "anchors": ["code/source/core/file.c: zpl_file_read_lines", "code/header/core/string.h: zpl_str_split_lines"]}
{"id": "C118", "title": "Moving, copying and removing files", "statement": "Moving gives the contents the new name and takes the old one away, never replaces an existing file, and at every point where the process may be killed the contents are still reachable; copying gives the target the contents of the original, honours fail_if_exists and leaves everything else alone; removing takes away one name only.", "quantifier": "all file systems, names and contents, all crash points and refusals", "why_tests_cant": "Every crash point and every refusal of the system.", "anchors": ["code/source/core/file_misc.c: zpl_fs_move, zpl_fs_copy, zpl_fs_remove"]}
{"id": "C119", "title": "Noticing that a file has changed", "statement": "Asking whether a file has changed answers yes exactly when its time of last change differs from the one at the previous look.", "quantifier": "all files, all histories of changes and looks", "why_tests_cant": "All histories of changes.", "anchors": ["code/source/core/file.c: zpl_file_has_changed", "code/source/core/file_misc.c: zpl_fs_last_write_time"]}
{"id": "C120", "title": "The life of a thread object", "statement": "Starting a thread runs the given procedure exactly once; when join returns the procedure has returned, its return value is in the object and the thread is not running; start in the waiting mode returns only once the thread runs; the object can be started again after a join; destroying it joins what still runs; and none of this deadlocks.", "quantifier": "all procedures, all well-formed sequences of start, poll, join and destroy, all schedules", "why_tests_cant": "Every interleaving of the parent with the threads.", "anchors": ["code/source/threading/thread.c: zpl_thread_init, zpl_thread_init_nowait, zpl_thread_start, zpl_thread_start_with_stack, zpl_thread_join, zpl_thread_destroy, zpl_thread_is_running, zpl__thread_run, zpl__unix_thread_proc"]}
{"id": "C121", "title": "Listing folders", "statement": "The listing of a folder has one line for every entry in it other than . and .., with the path of the entry; a recursive one has the entries of the folders below too, a folder before what is in it and links not followed; nothing appears twice; what was opened for the listing is closed.", "quantifier": "all folder trees, in any order of entries", "why_tests_cant": "Trees of every shape and depth.", "anchors": ["code/source/core/file_misc.c: zpl__file_direntry, zpl_path_dirlist"]}
{"id": "C122", "title": "Descriptions of folders", "statement": "The description of a folder holds its path as a text and one entry for every entry of the folder, with its path and its kind; stepping into a file describes the folder the file is in.", "quantifier": "all folders, paths, names and modes, all sequences of steps", "why_tests_cant": "All names and all earlier uses.", "anchors": ["code/source/core/file_misc.c: zpl_dirinfo_init, zpl_dirinfo_step, zpl_fs_get_type"]}
{"id": "C123", "title": "All matches of a regular expression", "statement": "Matching all: the text is searched from its start, each search beginning where the last match ended, and the captures of the matches are appended in order; it answers whether every search found something, and it always comes to an answer.", "quantifier": "all patterns, texts and numbers of captures asked for", "why_tests_cant": "Any number of matches in texts of every length.", "anchors": ["code/source/regex.c: zpl_re_match_all"]}
{"id": "C124", "title": "The help screen, the error report and the release of options", "statement": "The help screen shows the application, the positional options in the order in which the command line expects them, and one line for every registered option; the error report has one line for every error; releasing the options releases every string that was parsed.", "quantifier": "all sets of registered options, applications, errors and command lines", "why_tests_cant": "Any number of options, with any texts.", "anchors": ["code/source/opts.c: zpl_opts_print_help", "code/source/opts.c: zpl_opts_print_errors", "code/source/opts.c: zpl_opts_free"]}
{"id": "C125", "title": "Documents written to strings", "statement": "Writing a document to a string gives exactly the bytes that writing it to a file would, or says that it failed.", "quantifier": "all documents of JSON, CSV and URI, and all outcomes of the allocations", "why_tests_cant": "Any number of growths, any of which may fail.", "anchors": ["code/source/parsers/json.c: zpl_json_write_string", "code/source/parsers/csv.c: zpl_csv_write_string", "code/source/parsers/uri.c: zpl_uri_write_string", "code/source/print.c: zpl_fprintf_va"]}
{"id": "C126", "title": "Text printed into memory and strings", "statement": "Printing into a new block, a new string or the end of a string gives exactly the text of the format and its arguments, and leaves what earlier calls returned alone; printing into the shared buffer leaves the text of the last call in it.", "quantifier": "all sequences of calls with all formats, arguments and buffers", "why_tests_cant": "Formats, arguments and histories are unbounded.", "anchors": ["code/source/core/print.c: zpl_bprintf", "code/source/core/print.c: zpl_asprintf", "code/source/core/stringlib.c: zpl_string_sprintf_buf", "code/source/core/stringlib.c: zpl_string_sprintf", "code/source/core/stringlib.c: zpl_string_append_fmt", "code/source/essentials/memory_custom.c: zpl_alloc_str"]}
{"id": "C127", "title": "Printing real numbers", "statement": "`%f` and its relatives print the sign, the whole part and as many decimals as asked for, filled up to the width, between the literal texts and other conversions of any format, and touch nothing behind the terminator.", "quantifier": "all formats that mix real and other conversions, all double precision numbers below 2^64, up to 14 decimals, all buffers the text fits into", "why_tests_cant": "2^64 numbers, any format; the decimals are computed with rounding errors that add up.", "anchors": ["code/source/core/print.c: zpl__print_f64", "code/source/core/print.c: zpl_snprintf_va"]}
{"id": "C128", "title": "Reading real numbers", "statement": "Reading a real number from a text skips spaces, takes the sign, the digits, the digits behind the point and the exponent, stops at the first character that does not belong to the number, and gives the number that is written there up to a bound on the rounding error; what was printed with p decimals reads back within 10^-p and the error of the arithmetic, whole numbers below 2^53 exactly.", "quantifier": "all texts; all numbers in any notation with a whole part below 2^53, up to 22 digits behind the point and an exponent up to 22", "why_tests_cant": "Unbounded texts and notations; each digit behind the point is added with a rounding error of its own.", "anchors": ["code/source/core/string.c: zpl_str_to_f64"]}
{"id": "C129", "title": "Real numbers in documents", "statement": "A number with a fraction in a document is read as the double it stands for, up to a bound on the rounding error; a real number in a tree is written with six decimals, the rest dropped, and what is written reads back as a real number within a millionth and the error of the arithmetic; whole real numbers come back unchanged.", "quantifier": "all signs, whole parts below 2^53 and up to 18 digits behind the point; all doubles below 2^53 of which the printed text is known", "why_tests_cant": "Unbounded spellings and 2^64 doubles; every step of reading and printing rounds.", "anchors": ["code/source/adt.c: zpl_adt_parse_number, zpl_adt_print_number", "code/source/core/string.c: zpl_str_to_f64", "code/source/core/print.c: zpl__print_f64"]}
{"id": "C130", "title": "Clocks and sleeping", "statement": "The clock in milliseconds never runs ahead of the time of the system by more than a rounding nor behind it by a millisecond, and does not go back; the time since the first question counts from zero and never decreases; conversions between the epochs of Windows and Unix are inverse and off by the right number of days; sleeping asks for exactly the given number of milliseconds.", "quantifier": "all readings of the clock up to the year 2248, all histories of questions, all numbers of milliseconds", "why_tests_cant": "The results depend on rounding of every possible reading and on the first question asked in a process.", "anchors": ["code/source/core/time.c: zpl_time_rel_ms, zpl_time_utc_ms, zpl_time_tz_ms, zpl_sleep_ms, zpl__win32_to_unix_epoch"]}
{"id": "C131", "title": "Sockets", "statement": "Creating a socket gives a socket with the settings that were asked for or changes nothing; the list of addresses is always given back and closing gives the socket back; waiting looks at exactly the sockets in question, for the time that was asked for; the address of a socket and of the sender of data can be asked for.", "quantifier": "all answers of the system, all flags and modes, all sets of open sockets, all lists of sockets, all times that are doubles", "why_tests_cant": "Failures of single system calls and the exhaustion of sockets over a long run cannot be provoked in a unit test.", "anchors": ["code/source/socket.c: zpl_socket_create, zpl_socket_close, zpl_socket_get_address, zpl_socket_receive_from, zpl_socket_select, zpl_socket_multi_select"]}
{"id": "C132", "title": "Child processes", "statement": "Creating a process gives streams for its input, output and errors and a handle; waiting for it returns its result; destroying or ending it gives back everything that creating it has taken; the child gets the arguments and the variables it was given; its output can be read to the end.", "quantifier": "all answers of the system, all sets of open handles and streams, all arguments and variables", "why_tests_cant": "Needs every failure of the calls of the system and every list of arguments; handles that are lost show only after many processes.", "anchors": ["code/source/process.c: zpl_pr_create, zpl_pr_join, zpl_pr_destroy, zpl_pr_terminate, zpl__pr_open_handle"]}
{"id": "C133", "title": "Environment variables and commands", "statement": "A variable has the value of the last change to it, told as a copy of its own; a command gives what it prints, cut to the buffer, and nothing outside of the buffer changes.", "quantifier": "all environments, all histories of changes, all outputs of commands and buffers", "why_tests_cant": "Unbounded histories and outputs.", "anchors": ["code/source/core/misc.c: zpl_get_env, zpl_get_env_buf, zpl_get_env_str, zpl_set_env, zpl_unset_env, zpl_system_command, zpl_system_command_str"]}
{"id": "C134", "title": "Atomic operations", "statement": "Operations on an atomic variable by any number of threads work as if each happened at one moment between its call and its return: none is lost, none is done twice, each returns the value before it; and they do not hold each other up for ever.", "quantifier": "all programs of any number of threads, all schedules, all values and widths", "why_tests_cant": "Needs every interleaving of the steps inside the operations; a lost update shows only in rare schedules.", "anchors": ["code/source/threading/atomic.c: zpl_atomic32_fetch_and, zpl_atomic32_fetch_or, zpl_atomic64_exchange, zpl_atomic64_fetch_add, zpl_atomic64_fetch_and, zpl_atomic64_fetch_or, zpl_atomic64_compare_exchange, zpl_atomic_ptr_fetch_add"]}
{"id": "C135", "title": "Processors", "statement": "Whatever the system tells, the description of the processors is sound: at least one core, each with a thread, and the counts agree; it says whether it is accurate; a thread can be put on each processor of a core, different threads on different processors.", "quantifier": "all answers of the system, all cores and threads", "why_tests_cant": "The machines of the tests have one layout; the loop over the bits of a mask must end for all of them.", "anchors": ["code/source/threading/affinity.c: zpl_affinity_init, zpl_affinity_set, zpl_affinity_thread_count_for_core"]}
{"id": "C136", "title": "Parsing any JSON text", "statement": "Whatever text it is given, the JSON parser comes to an end, does not read behind the end of the text, and either gives a document or an error.", "quantifier": "all texts, whether or not they are JSON", "why_tests_cant": "A malformed text can be wrong in any place at any depth; fuzzing reaches only some of them.", "anchors": ["code/source/parsers/json.c: zpl_json_parse, zpl__json_parse_value, zpl__json_parse_object, zpl__json_parse_array, zpl__json_parse_name, zpl__json_trim", "code/source/adt.c: zpl_adt_parse_number"]}
{"id": "C137", "title": "Parsing any text as a table", "statement": "Whatever text it is given, the CSV parser comes to an end and stays inside the text; it gives a table in which every column has a cell for every row, or an error.", "quantifier": "all texts, whether or not they are tables; all delimiters", "why_tests_cant": "A malformed table can be wrong in any row; quotes, delimiters and ends of lines combine in unboundedly many ways.", "anchors": ["code/source/parsers/csv_parser.c: zpl_csv_parse_delimiter", "code/source/adt.c: zpl_adt_parse_number"]}
{"id": "C138", "title": "Reading URIs written elsewhere", "statement": "A URI is read as what it says whichever of the possible spellings its names and values have: escapes with small or capital letters, escapes for characters that need none, plain characters, plus signs for blanks, and `&` or `?` between the fields. Reading comes to an end whatever the text.", "quantifier": "all origins, lists of parameters and spellings; all texts for termination", "why_tests_cant": "Other programs choose other spellings for the same text, and there are exponentially many of them.", "anchors": ["code/source/parsers/uri.c: zpl_uri_parse, zpl__uri_decode_str", "code/source/adt.c: zpl_adt_str_to_number_strict"]}
{"id": "C139", "title": "Archives of folders", "statement": "Packing a folder and unpacking the archive at another place gives all the files of the folder there, with their contents, and changes no other file.", "quantifier": "all folders, file contents, places to unpack to and states of the disk", "why_tests_cant": "Folders have any number of files with any contents; a test packs a few.", "anchors": ["code/source/core/file_tar.c: zpl_tar_pack_dir, zpl_tar_pack, zpl_tar_unpack, zpl_tar_default_unpack_file", "code/header/core/file_tar.h: zpl_tar_unpack_dir", "code/source/core/file_misc.c: zpl_path_dirlist"]}
{"id": "C140", "title": "Arenas on other allocators", "statement": "An arena made on a block of another arena hands out blocks inside that block only, so that requests to the two arenas in any order never give overlapping blocks or change each other's blocks; if the parent has no room, the arena hands out nothing. Freeing an arena gives its memory back to the allocator it came from exactly once, and the check for snapshots passes exactly when every snapshot has been ended.", "quantifier": "all parents and their histories, sizes, interleavings of requests to both arenas, and allocators", "why_tests_cant": "Interleavings of requests to two arenas and their sizes are unbounded.", "anchors": ["code/header/essentials/memory_custom.h: zpl_arena_init_from_allocator, zpl_arena_init_sub, zpl_arena_free, zpl_arena_check", "code/source/essentials/memory_custom.c: zpl_arena_allocator_proc"]}
{"id": "C141", "title": "Destroying a node tree frees all its memory", "statement": "Whatever was done to a node tree before - nodes added, filled in, overwritten, moved, swapped and removed, with an allocator that may refuse at any point - destroying it frees every array that was allocated for it, each exactly once.", "quantifier": "all histories of calls on a tree and all patterns of allocation failure", "why_tests_cant": "Leaks and double frees depend on the history; tests run a few histories and rarely look at the heap.", "anchors": ["code/source/adt.c: zpl_adt_destroy_branch, zpl_adt_make_branch, zpl_adt_alloc_at, zpl_adt_set_obj, zpl_adt_set_arr, zpl_adt_set_flt, zpl_adt_set_int, zpl_adt_append_obj, zpl_adt_append_flt, zpl_adt_append_int, zpl_adt_remove_node", "code/header/essentials/collections/array.h: zpl_array_free, zpl__array_set_capacity", "code/source/parsers/json.c: zpl_json_free", "code/source/parsers/csv.c: zpl_csv_free", "code/source/parsers/uri.c: zpl_uri_free"]}
{"id": "C142", "title": "Random real numbers stay between their limits", "statement": "zpl_random_range_f64 returns a finite number that is at least the lower and at most the upper limit, for every state of the generator and all finite limits in order.", "quantifier": "all generator states and all pairs of doubles lo <= hi", "why_tests_cant": "Whether rounding steps over a limit depends on the limits and on rare draws; a test would have to meet both.", "anchors": ["code/source/core/random.c: zpl_random_range_f64, zpl_random_gen_u64"]}
{"id": "C143", "title": "Folder information is freed completely", "statement": "After zpl_dirinfo_init and any number of zpl_dirinfo_step calls on any of the entries, again and again, zpl_dirinfo_free frees every block allocated on the way, each exactly once, and no other. Likewise zpl_file_close after any zpl_file_dirinfo_refresh calls.", "quantifier": "all histories of steps and refreshes, all folder sizes", "why_tests_cant": "Leaks and double frees depend on which entries were stepped into and how often; a test tries a few orders.", "anchors": ["code/source/core/file_misc.c: zpl_dirinfo_init, zpl__dirinfo_free_entry, zpl_dirinfo_free, zpl_dirinfo_step, zpl_file_dirinfo_refresh", "code/source/core/file.c: zpl_file_close"]}
{"id": "C144", "title": "Full names of files", "statement": "zpl_path_get_full_name returns, in memory of the given allocator, the full name of a path that exists and a copy of one that does not, and leaves nothing else allocated.", "quantifier": "all paths and all allocators", "why_tests_cant": "Tests call it with the heap allocator; what happens with others shows only later, in other code.", "anchors": ["code/source/core/file_misc.c: zpl_path_get_full_name", "code/source/essentials/memory_custom.c: zpl_arena_allocator_proc, zpl_pool_allocator_proc, zpl_heap_allocator_proc"]}
{"id": "C145", "title": "Interpolation in floating point", "statement": "zpl_lerp returns its first value at 0 and its second at 1 exactly, and in between a value between them that does not go back; zpl_unlerp and the smooth steps run from 0 to 1. The vector variants start and end where they should. All in float arithmetic with rounding and overflow.", "quantifier": "all finite float values and all shares of the way", "why_tests_cant": "Rounding errors show at rare values; a test compares a few of them with a tolerance.", "anchors": ["code/header/math.h: zpl_lerp, zpl_unlerp, zpl_smooth_step, zpl_smoother_step", "code/source/math.c: zpl_vec2_lerp, zpl_vec3_lerp, zpl_vec4_lerp"]}
{"id": "C146", "title": "Whole numbers near a float", "statement": "zpl_floor, zpl_ceil and zpl_round return the largest whole number not above, the least not below, and the nearest whole number to every float in range; zpl_floor64, zpl_ceil64 and zpl_round64 likewise for double.", "quantifier": "all finite numbers of the types in the range of the integer type", "why_tests_cant": "The functions add and subtract before they convert; whether that rounds to the wrong side depends on the last bits of the number.", "anchors": ["code/source/math.c: zpl_floor, zpl_ceil, zpl_round, zpl_floor64, zpl_ceil64, zpl_round64"]}
{"id": "C147", "title": "Lengths and directions in floating point", "statement": "The length of a vector is right to the precision of float, and normalising gives a vector of length one in the same direction, to that precision; the safe variants give zero for the zero vector only.", "quantifier": "all vectors of finite floats of two, three and four coordinates", "why_tests_cant": "Squares overflow and underflow long before the vector does; tests use vectors of moderate size.", "anchors": ["code/source/math.c: zpl_sqrt, zpl_rsqrt, zpl_vec2_mag, zpl_vec3_mag, zpl_vec4_mag, zpl_vec2_norm, zpl_vec3_norm, zpl_vec4_norm, zpl_vec2_norm0, zpl_vec3_norm0, zpl_vec4_norm0"]}
{"id": "C148", "title": "Memory of parsed JSON documents", "statement": "zpl_json_free of what zpl_json_parse has filled frees every array of nodes that parsing has allocated, each exactly once, and never touches memory that is not allocated, whether the text was accepted or refused and even if an allocation failed on the way.", "quantifier": "all texts, and every pattern of failing allocations", "why_tests_cant": "Errors can occur at any depth, with any number of arrays open and any of them moved; tests parse a few broken texts and rarely count the memory.", "anchors": ["code/source/parsers/json.c: zpl_json_parse, zpl_json_free, zpl__json_parse_object, zpl__json_parse_array, zpl__json_parse_value, zpl__json_append_node", "code/source/adt.c: zpl_adt_destroy_branch"]}
{"id": "C149", "title": "Removing nodes of a parsed JSON document", "statement": "zpl_adt_remove_node removes any node of a document that zpl_json_parse has filled, other than the root: exactly that node and what is below it disappear.", "quantifier": "all accepted texts and all nodes of their documents", "why_tests_cant": "A node records where its parent lies; whether that is still so depends on how many nodes were read after the parent, at any depth.", "anchors": ["code/source/parsers/json.c: zpl__json_append_node, zpl__json_parse_array, zpl__json_parse_object", "code/source/adt.c: zpl_adt_remove_node", "code/header/essentials/collections/array.h: zpl__array_set_capacity"]}
{"id": "C150", "title": "Memory of parsed tables and URIs", "statement": "zpl_csv_free and zpl_uri_free of what zpl_csv_parse and zpl_uri_parse have filled free every array of nodes that parsing has allocated, each exactly once, whether the text was accepted or refused, and whichever requests for memory have failed.", "quantifier": "all texts, delimiters and headers, and every pattern of failing allocations that lets parsing return", "why_tests_cant": "The arrays grow and move with the number of columns, rows and parameters, and a text can be refused at any place; tests parse a few texts and rarely count the memory.", "anchors": ["code/source/parsers/csv.c: zpl_csv_parse_delimiter, zpl_csv_free", "code/source/parsers/uri.c: zpl_uri_parse, zpl_uri_free", "code/source/adt.c: zpl_adt_append_arr, zpl_adt_destroy_branch", "code/header/essentials/collections/array.h: zpl__array_set_capacity"]}
{"id": "C151", "title": "Parsers that run out of memory", "statement": "If memory runs out while zpl_json_parse, zpl_csv_parse or zpl_uri_parse reads a text, this is reported as an error: no document is accepted with parts missing, and no memory is accessed that was not allocated.", "quantifier": "all texts and every pattern of failing allocations", "why_tests_cant": "Any of the requests can be the one that fails; tests hardly ever make allocation fail, and then at one place.", "anchors": ["code/source/parsers/json.c: zpl_json_parse, zpl__json_append_node", "code/source/parsers/csv.c: zpl_csv_parse_delimiter", "code/source/parsers/uri.c: zpl_uri_parse", "code/source/adt.c: zpl_adt_alloc_at, zpl_adt_append_arr, zpl_adt_append_str, zpl_adt_append_flt"]}
{"id": "C152", "title": "Pools and stacks give their memory back to the heap", "statement": "A pool made by zpl_pool_init and a stack allocator made by zpl_stack_memory_init on the heap lie in a heap block of their own; using them changes no byte of any other heap block; and zpl_pool_free and zpl_stack_memory_free give the memory back completely: the heap is as before, its statistics included. If the memory cannot be had, this is noticed.", "quantifier": "all heap histories before, all pool geometries and stack sizes, all histories of allocations, frees and writes through the pool or stack, all operating systems that keep the contract of aligned_alloc, with and without the heap analysis", "why_tests_cant": "The list of free blocks and the saved offsets live in the same memory as the data, so a single wrong address damages the heap; tests run a few histories on one heap.", "anchors": ["code/header/essentials/memory_custom.h: zpl_pool_init, zpl_pool_free, zpl_stack_memory_init, zpl_stack_memory_free", "code/source/essentials/memory_custom.c: zpl_pool_init_align, zpl_pool_allocator_proc, zpl_stack_allocator_proc, zpl_heap_allocator_proc"]}
{"id": "C153", "title": "Which addresses a stack allocator says are in use", "statement": "zpl_stack_memory_is_in_use says yes for an address exactly if it belongs to a block that is held.", "quantifier": "all histories of a stack allocator and all addresses", "why_tests_cant": "The answer depends on the whole history of allocations and frees; tests ask for a few addresses.", "anchors": ["code/header/essentials/memory_custom.h: zpl_stack_memory_is_in_use", "code/source/essentials/memory_custom.c: zpl_stack_allocator_proc"]}
{"id": "C154", "title": "Copies made by zpl_alloc_copy", "statement": "zpl_alloc_copy and zpl_alloc_copy_align on the heap return a new block that holds the bytes of the source and overlaps nothing, and leave all other blocks as they are; if there is no memory they return NULL and change nothing.", "quantifier": "all heap histories, all sources inside a block owned, all sizes and alignments, all operating systems that keep the contract of aligned_alloc", "why_tests_cant": "The new block may lie anywhere, next to the source or at the end of memory; tests copy a few blocks.", "anchors": ["code/header/essentials/memory_custom.h: zpl_alloc_copy, zpl_alloc_copy_align", "code/source/essentials/memory.c: zpl_memcopy", "code/source/essentials/memory_custom.c: zpl_heap_allocator_proc"]}
{"id": "C155", "title": "Products of matrices, vectors and quaternions keep close to the exact ones in single precision", "statement": "Multiplying matrices, a matrix and a vector, or quaternions, dot and cross products, and turning a vector by a quaternion give results within a stated small multiple of the unit of single precision of the exact results (relative to the sizes of the terms), as long as the sum of the sizes of the terms does not exceed 2^126; also when the product replaces one of its factors. Products of whole numbers are exact while the terms add up to less than 2^24, multiplying by the identity changes nothing, and the transpose of a product is the product of the transposes in the opposite order, to the bit.", "quantifier": "all matrices, vectors and quaternions of single precision numbers, every entry, every choice of which matrix is replaced", "why_tests_cant": "The results depend on the rounding of every product and sum; tests compare a few matrices with a tolerance.", "anchors": ["code/source/math.c: zpl_float22_mul, zpl_float33_mul, zpl_float44_mul, zpl_float44_mul_vec4, zpl_vec4_dot, zpl_vec3_dot, zpl_vec3_cross, zpl_quat_mul, zpl_quat_rotate_vec3, zpl_mat2_determinate"]}
{"id": "C156", "title": "Rectangles and boxes in single precision", "statement": "Cutting strips off a box in single precision, any number of them and whatever is rounded or overflows, puts each point of the box into exactly one of the strips and the rest. zpl_rect2_contains says yes exactly for the points between the edges, the far one rounded; rectangles put side by side, each beginning at the computed end of the one before, neither overlap nor leave a gap; two rectangles are said to intersect exactly if some point is in both; the intersection returned holds the points that are in both; and boxes and rectangles turn into each other without loss.", "quantifier": "all finite boxes, rectangles and points of single precision, all lists of cuts", "why_tests_cant": "Whether a point falls between two pieces depends on the rounding of each edge; tests use small whole numbers, for which nothing is rounded.", "anchors": ["code/source/math.c: zpl_aabb2_cut_left, zpl_aabb2_cut_right, zpl_aabb2_cut_top, zpl_aabb2_cut_bottom, zpl_rect2_contains, zpl_rect2_intersects, zpl_rect2_intersection_result, zpl_aabb2_rect2, zpl_rect2_aabb2"]}
{"id": "C157", "title": "Mutexes and semaphores", "statement": "Threads that use a mutex are never inside two at a time, and a free mutex is granted to whoever asks; zpl_mutex_try_lock says whether the mutex was taken, in the same way on every system. A semaphore has been taken from exactly as often as it was put into, less what is left, whatever the schedule and whatever signals arrive; zpl_semaphore_post with a count puts in so many, one by one; a signal does not end a wait, and nobody waits while there is something to take.", "quantifier": "all schedules of any number of threads calling zpl_mutex_lock, zpl_mutex_try_lock, zpl_mutex_unlock, or zpl_semaphore_post, zpl_semaphore_wait, zpl_semaphore_trywait with any counts, all arrivals of signals", "why_tests_cant": "The outcome depends on the interleaving and on when signals arrive; a test sees a few interleavings of one system.", "anchors": ["code/source/threading/mutex.c: zpl_mutex_init, zpl_mutex_lock, zpl_mutex_try_lock, zpl_mutex_unlock", "code/source/threading/sem.c: zpl_semaphore_init, zpl_semaphore_post, zpl_semaphore_release, zpl_semaphore_wait, zpl_semaphore_trywait"]}
{"id": "C158", "title": "Turning again and again", "statement": "An orientation that is turned again and again with zpl_quat_muleq, each product rounded and the next beginning with the rounded one, stays near the exact product: after n turns by quaternions of length at most L it is off by at most L^n((1 + 41·2^-24)^n − 1), so by at most 100·n·2^-24 for up to a hundred thousand turns whose length exceeds one by at most 2^-22, and it is finite.", "quantifier": "all orientations of length at most one, all sequences of turns, of any length as long as nothing overflows", "why_tests_cant": "The error is that of a whole history of rounded products, each beginning with the error of those before; a test follows one history.", "anchors": ["code/source/math.c: zpl_quat_mul, zpl_quat_muleq"]}
{"id": "C159", "title": "Sorting and searching by a field", "statement": "The function zpl_i32_cmp(offset) returns, and those for the other types, compares the numbers in the fields at that offset, signed where the type is, and reads nothing else; zpl_sort with it puts the records in the order of that field and zpl_binary_search with it finds a record with the field of the key or says that there is none; zpl_str_cmp(offset) does so for the texts that pointers point to, in dictionary order. Asking for one comparison function does not change another.", "quantifier": "all types with a comparison function, all offsets, all arrays of records of any size and content, all sequences of requests for comparison functions", "why_tests_cant": "It depends on the content of all records and on which comparison functions were asked for before; tests sort a few records by one field.", "anchors": ["code/source/core/sort.c: ZPL__COMPARE_PROC, zpl__str_cmp, zpl_str_cmp, zpl_sort", "code/header/core/sort.h: zpl_i16_cmp, zpl_u8_cmp, zpl_i32_cmp, zpl_i64_cmp, zpl_isize_cmp, zpl_f32_cmp, zpl_f64_cmp, zpl_binary_search"]}
{"id": "C160", "title": "Order of memory accesses between threads", "statement": "What a thread writes before it sets a flag with zpl_atomic32_store is seen by every thread that has read the flag with zpl_atomic32_load; the stores of one thread are seen in their order by all. Of two threads that each set a flag, call zpl_mfence and then read the flag of the other, at least one sees that the other has set its flag. zpl_atomic64_store happens at one moment.", "quantifier": "all programs of any number of threads, all schedules and all moments at which stores reach the memory, all systems the fences are written for on x86", "why_tests_cant": "It depends on when the processors give their buffered stores to the memory, which no test controls.", "anchors": ["code/source/threading/fence.c: zpl_mfence, zpl_sfence, zpl_lfence", "code/source/threading/atomic.c: zpl_atomic32_load, zpl_atomic32_store, zpl_atomic32_compare_exchange, zpl_atomic32_exchange, zpl_atomic32_fetch_add, zpl_atomic64_store"]}
{"id": "C161", "title": "Environment variables on Windows", "statement": "On Windows zpl_get_env_buf returns the value of the variable as UTF-8, NULL when there is none; what zpl_set_env set is what is then returned, and variables with other names are left alone; zpl_unset_env removes the variable. zpl_utf8_to_ucs2_buf and zpl_ucs2_to_utf8_buf return the converted text, or NULL when it does not fit their buffer, whatever earlier calls left there.", "quantifier": "all environments, names, values, code pages of one-byte characters, contents of the static buffers", "why_tests_cant": "The static buffers carry what earlier calls left, and the result depends on the code page of the machine.", "anchors": ["code/source/core/misc.c: zpl_get_env_buf, zpl_set_env, zpl_unset_env", "code/source/core/string.c: zpl_utf8_to_ucs2_buf, zpl_ucs2_to_utf8_buf"]}
{"id": "C162", "title": "Documents saved to files", "statement": "A document written to a new file with zpl_json_write or zpl_csv_write_delimiter and read from it again with zpl_file_read_contents and the parser is the same document, however the writer divides its output; the file then holds just the text, whatever it held before, and other files are untouched. If the text does not get into the file, the program is told.", "quantifier": "all documents C49 and C50 cover, all file names and file systems, all divisions of the text into print calls, all points at which the disk is full", "why_tests_cant": "It composes writer, file system and parser for every document and every earlier state of the disk.", "anchors": ["code/header/core/file.h: zpl_file_write, zpl_file_close", "code/source/core/file.c: zpl_file_create, zpl_file_read_contents", "code/source/parsers/json.c: zpl_json_write, zpl_json_parse", "code/source/parsers/csv.c: zpl_csv_write_delimiter, zpl_csv_parse_delimiter"]}
{"id": "C163", "title": "Files on Windows", "statement": "On Windows a file opened with zpl_file_open_mode is, under any history of seeks, reads and writes, a sequence of bytes with a cursor, as on the other systems; opening reports why it failed (not there, exists, no permission, invalid); a file that is open for writing is open only once, so that while a file is open its contents change through that file only; a file can be cut; appending never overwrites; accesses at an offset leave the cursor alone.", "quantifier": "all histories of calls on an open file, all names, modes and states of the system, all programs that open, use and close any number of files", "why_tests_cant": "It ranges over all histories and over all interleavings of uses of several files, on a system the tests do not run on.", "anchors": ["code/source/core/file.c: zpl__win32_file_seek, zpl__win32_file_read, zpl__win32_file_write, zpl__win32_file_open, zpl__alloc_utf8_to_ucs2, zpl_file_truncate, zpl_file_size, zpl_file_close", "code/header/core/file.h: zpl_file_read, zpl_file_write, zpl_file_read_at, zpl_file_write_at, zpl_file_seek"]}
{"id": "C164", "title": "Folders and full names on Windows", "statement": "On Windows the listing of a folder has one line for every entry in it other than . and .., with backslashes and a folder before what is in it, and closes what it opened; the full name of a path is what the system gives, in a block of its own; copying, moving, removing and asking for the time of the last change pass the names meant to the system and its answer back; nothing allocated on the way is lost; fixing the slashes of a path changes nothing but slashes.", "quantifier": "all folder trees, all names and all answers of the system", "why_tests_cant": "It ranges over all trees and names, on a system the tests do not run on; what is written behind a block is not visible to a test.", "anchors": ["code/source/core/file_misc.c: zpl__file_direntry, zpl_path_dirlist, zpl_path_get_full_name, zpl_fs_copy, zpl_fs_move, zpl_fs_remove, zpl_fs_last_write_time, zpl_path_fix_slashes", "code/source/core/file.c: zpl__alloc_utf8_to_ucs2"]}
{"id": "C165", "title": "Making and removing folders", "statement": "Making a folder makes it where there was nothing, or tells why not, and changes nothing else; removing one removes it if it is empty and tells otherwise; making a folder and removing it leaves the disk as it was; making a folder with all those above it makes exactly the missing ones, also if an earlier attempt was interrupted, and tells if it could not.", "quantifier": "all disks, all current folders, all paths, all modes, and all points at which an earlier attempt was interrupted", "why_tests_cant": "It ranges over all disks, paths and points of interruption.", "anchors": ["code/source/core/file_misc.c: zpl_path_mkdir, zpl_path_rmdir, zpl_path_mkdir_recursive"]}
{"id": "C166", "title": "Making random generators", "statement": "zpl_random_init always returns, and all generators made in one program, by any threads and in any order, start in different states.", "quantifier": "all clocks, all thread numbers, all orders of the calls, up to 2^32 generators", "why_tests_cant": "It ranges over all clocks and schedules; that the program stops for ever when a second passes between two readings is a matter of chance in a test.", "anchors": ["code/source/core/random.c: zpl_random_init, zpl__get_noise_from_time, zpl__permute_with_offset"]}
{"id": "C167", "title": "Adler-32 notices a changed byte and two exchanged bytes", "statement": "Two byte strings that differ in exactly one byte never have the same Adler-32 sum, and neither do two strings that differ by exchanging two different bytes fewer than 65521 places apart. Appending the same bytes to two strings neither hides nor creates a difference between their sums. Other damage can pass unnoticed: raising a byte by one, lowering the next by two and raising the third by one leaves the sum unchanged.", "quantifier": "all byte strings of any length, all positions, all byte values, all distances below 65521", "why_tests_cant": "A test compares the sums of a few damaged strings; that no single change in a string of any length is missed is a statement about every position, value and length, with the 32-bit accumulators reduced only every 5552 bytes.", "anchors": ["code/source/hashing.c: zpl_adler32"]}
{"id": "C168", "title": "Virtual memory in pages, on POSIX systems and on Windows", "statement": "A block of zpl_vm_alloc can be used as a whole, holds zeros and changes nothing that is in use; a refusal is a NULL block. zpl_vm_free gives it back, whatever its size, and says whether it did. zpl_vm_trim keeps the named part with its contents and gives the rest back. zpl_vm_purge says whether it succeeded, in the same way on every system.", "quantifier": "all page sizes and granularities, all states of the address space, all sizes and cuts, all answers of the system", "why_tests_cant": "It ranges over all address spaces, sizes and answers of two systems; a test runs on one system, mostly with sizes that are multiples of the page, and a block that is never given back is not seen.", "anchors": ["code/source/core/memory_virtual.c: zpl_vm_alloc, zpl_vm_free, zpl_vm_trim, zpl_vm_purge (both branches)"]}
{"id": "C169", "title": "Optional characters in regular expressions", "statement": "A pattern c?p matches where p matches with or without one character of c in front of it: zpl_re_match is true iff there is such a place, reads nothing outside of the text, and reports the end of the match.", "quantifier": "all classes c, all patterns p, all texts", "why_tests_cant": "The matcher marks failure by the offset -1 and tests for success with offset <= length; whether that ever goes wrong depends on every combination of pattern and text.", "anchors": ["code/source/regex.c: zpl_re__exec_single (ZPL_RE_OP_ZERO_OR_ONE), zpl_re__parse, zpl_re__compile_quantifier, zpl_re_match"]}
{"id": "C170", "title": "Shortest repetitions in regular expressions", "statement": "A pattern c+?p (or c*?p) matches where some number of characters of c, at least one for c+?, is followed by a match of p, and takes as few of them as it can; zpl_re_match is true iff there is such a place.", "quantifier": "all classes c, all patterns p, all texts, with and without ^ in front", "why_tests_cant": "It is about every number of repetitions, and about what the matcher does when its first try fails.", "anchors": ["code/source/regex.c: zpl_re__exec_single (ZPL_RE_OP_ONE_OR_MORE_SHORTEST), zpl_re__consume, zpl_re__parse"]}
{"id": "C171", "title": "Malformed regex patterns are refused", "statement": "zpl_re_compile reports an error for a pattern whose round brackets do not pair, for a repetition mark with nothing in front of it to repeat (at the beginning of the pattern or of a group, or behind an anchor there), and for a set that is not closed; a pattern it accepts has its brackets paired.", "quantifier": "all patterns", "why_tests_cant": "the malformed patterns are infinitely many; tests try a few, and the accepted ones among them look like successes", "anchors": ["code/source/regex.c: zpl_re_compile, zpl_re__parse, zpl_re__parse_group"]}
{"id": "C172", "title": "Time since the first question on Windows and macOS", "statement": "On Windows and macOS, as on Linux, zpl_time_rel_ms tells the milliseconds that have passed since its first call, up to one millisecond, and never less than a call before.", "quantifier": "all speeds of the counter of the system, all histories of calls, all values of a counter that does not go back", "why_tests_cant": "the error grows with the time the process has run, and depends on the hardware: tests run for seconds on one machine", "anchors": ["code/source/core/time.c: zpl_time_rel_ms"]}
{"id": "C173", "title": "The number of captures", "statement": "After zpl_re_compile has accepted a pattern, zpl_re_capture_count is the number of groups opened in it, however they are nested, repeated or divided by alternatives.", "quantifier": "all patterns that are accepted and whose sets have at most 256 characters", "why_tests_cant": "callers make room for so many captures; the patterns are infinitely many and nest without limit", "anchors": ["code/source/regex.c: zpl_re_capture_count, zpl_re_compile, zpl_re__parse"]}

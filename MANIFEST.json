{
 "claims": [
  {
   "property": "C01",
   "status": "proved",
   "theorems": [
    "Zpl.Arr.C01_array_is_sequence",
    "Zpl.Arr.C01_capacity",
    "Zpl.Arr.C01_copy_init",
    "Zpl.Arr.C01_back_front",
    "Zpl.Arr.C01_append_at_past_end"
   ],
   "note": "Refinement to a list over every history of successful calls; append_at beyond the end is a recorded deviation."
  },
  {
   "property": "C02",
   "status": "partial",
   "theorems": [
    "Zpl.Arr.C02_failed_calls_change_nothing_partial",
    "Zpl.Arr.C02_single_call",
    "Zpl.Arr.C02_set_capacity_failure_truncates"
   ],
   "note": "set_capacity below count truncates before a failing allocation; proved for all other calls."
  },
  {
   "property": "C03",
   "status": "proved",
   "theorems": [
    "Zpl.Table.C03_table_is_map",
    "Zpl.Table.C03_outputs"
   ],
   "note": "Every history of set/get/slot/remove/clear/grow/rehash/rehash_fast; allocation assumed to succeed."
  },
  {
   "property": "C04",
   "status": "proved",
   "theorems": [
    "Zpl.Table.C04_remove_entry_rehash_fast",
    "Zpl.Table.C04_without_rehash_lookup_wrong"
   ],
   "note": ""
  },
  {
   "property": "C05",
   "status": "proved",
   "theorems": [
    "Zpl.Table.C05_map_visits",
    "Zpl.Table.C05_map_mut"
   ],
   "note": ""
  },
  {
   "property": "C06",
   "status": "proved",
   "theorems": [
    "Zpl.Ring.C06_ring_is_bounded_fifo",
    "Zpl.Ring.C06_append_drops_oldest"
   ],
   "note": ""
  },
  {
   "property": "C07",
   "status": "partial",
   "theorems": [
    "Zpl.Ring.C07_append_array",
    "Zpl.Ring.C07_get_array_partial",
    "Zpl.Ring.C07_get_array_short",
    "Zpl.Ring.C07_get_array_zero_drains"
   ],
   "note": "get_array with max_size 0 drains one or all elements: see DESIGN deviations."
  },
  {
   "property": "C08",
   "status": "proved",
   "theorems": [
    "Zpl.Buf.C08_buffer_is_bounded_sequence",
    "Zpl.Buf.C08_misuse_faults",
    "Zpl.Buf.C08_copy_init"
   ],
   "note": ""
  },
  {
   "property": "C09",
   "status": "partial",
   "theorems": [
    "Zpl.LList.C09_forward_traversal_partial",
    "Zpl.LList.C09_add_inserts_after",
    "Zpl.LList.C09_remove_erases",
    "Zpl.LList.C09_remove_after_remove_fails",
    "Zpl.LList.C09_prev_links_not_maintained"
   ],
   "note": "The code does not maintain prev links of the successor; removal is proved for nodes whose predecessor has not changed."
  },
  {
   "property": "C10",
   "status": "proved",
   "theorems": [
    "Zpl.Mem.C10_memmove",
    "Zpl.Mem.C10_memcopy",
    "Zpl.Mem.C10_copied_bytes"
   ],
   "note": ""
  },
  {
   "property": "C11",
   "status": "proved",
   "theorems": [
    "Zpl.Mem.C11_memset"
   ],
   "note": ""
  },
  {
   "property": "C12",
   "status": "proved",
   "theorems": [
    "Zpl.Mem.C12_memswap",
    "Zpl.Mem.C12_swapped_bytes"
   ],
   "note": ""
  },
  {
   "property": "C13",
   "status": "proved",
   "theorems": [
    "Zpl.Mem.C13_memchr",
    "Zpl.Mem.C13_memrchr"
   ],
   "note": ""
  },
  {
   "property": "C14",
   "status": "proved",
   "theorems": [
    "Zpl.Mem.C14_memcompare",
    "Zpl.Mem.C14_antisymmetric",
    "Zpl.Mem.C14_transitive"
   ],
   "note": ""
  },
  {
   "property": "C15",
   "status": "partial",
   "theorems": [
    "Zpl.Align.C15_is_power_of_two",
    "Zpl.Align.C15_align_forward",
    "Zpl.Align.C15_align_forward_asserts",
    "Zpl.Align.C15_align_forward_u64",
    "Zpl.Align.C15_align_forward_i64_partial",
    "Zpl.Align.C15_i64_overflow"
   ],
   "note": "Only gap: align_forward_i64 of a negative value with an alignment above 2^62 overflows (proved)."
  },
  {
   "property": "C16",
   "status": "partial",
   "theorems": [
    "Zpl.Arena.C16_alloc_partial",
    "Zpl.Arena.C16_history_partial",
    "Zpl.Arena.C16_descending_partial",
    "Zpl.Arena.C16_size_remaining_partial",
    "Zpl.Arena.C16_mixed_alignments_overlap",
    "Zpl.Arena.C16_mixed_alignments_out_of_bounds"
   ],
   "note": "False of the code when alignments increase (proved): proved for uniform and for non-increasing alignments."
  },
  {
   "property": "C17",
   "status": "proved",
   "theorems": [
    "Zpl.Arena.C17_snapshot_restores",
    "Zpl.Arena.C17_later_requests"
   ],
   "note": ""
  },
  {
   "property": "C18",
   "status": "proved",
   "theorems": [
    "Zpl.Pool.C18_init",
    "Zpl.Pool.C18_live_blocks",
    "Zpl.Pool.C18_alloc",
    "Zpl.Pool.C18_free_makes_available",
    "Zpl.Pool.C18_free_all",
    "Zpl.Pool.C18_contents",
    "Zpl.Pool.C18_aligned",
    "Zpl.Pool.C18_no_blocks",
    "Zpl.Pool.C18_misaligned_block"
   ],
   "note": "Geometry: at least one block and block_size + block_align >= 8 (a free-list pointer must fit); without blocks init writes out of bounds (C18_no_blocks)."
  },
  {
   "property": "C19",
   "status": "partial",
   "theorems": [
    "Zpl.Stack.C19_blocks_partial",
    "Zpl.Stack.C19_alloc_partial",
    "Zpl.Stack.C19_free_restores",
    "Zpl.Stack.C19_lifo_returns_to_initial",
    "Zpl.Stack.C19_never_aligned_above_8",
    "Zpl.Stack.C19_growth_size"
   ],
   "note": "False of the code for alignments above 8 (proved); growth through a backing allocator records a wrong size (proved)."
  },
  {
   "property": "C20",
   "status": "partial",
   "theorems": [
    "Zpl.Scratch.C20_first_block_partial",
    "Zpl.Scratch.C20_free_first_block_partial",
    "Zpl.Scratch.C20_free_all",
    "Zpl.Scratch.C20_blocks_overlap",
    "Zpl.Scratch.C20_out_of_bounds"
   ],
   "note": "False of the code: later blocks overlap earlier ones and blocks run past the end (proved)."
  },
  {
   "property": "C21",
   "status": "proved",
   "theorems": [
    "Zpl.Resize.C21_grow",
    "Zpl.Resize.C21_failure_keeps_old",
    "Zpl.Resize.C21_shrink",
    "Zpl.Resize.C21_zero_frees",
    "Zpl.Resize.C21_null_allocates",
    "Zpl.Resize.arena_resize_eq"
   ],
   "note": "For every allocator meeting the stated contract on the calls made; the arena is shown to."
  },
  {
   "property": "C22",
   "status": "proved",
   "theorems": [
    "Zpl.ZString.C22_history",
    "Zpl.ZString.C22_strip",
    "Zpl.ZString.C22_duplicate"
   ],
   "note": "trim also cuts NUL bytes, since zpl_char_first_occurence finds the terminator of the cut set; the specification says so."
  },
  {
   "property": "C23",
   "status": "proved",
   "theorems": [
    "Zpl.ZString.C23_are_equal",
    "Zpl.ZString.C23_join"
   ],
   "note": ""
  },
  {
   "property": "C24",
   "status": "proved",
   "theorems": [
    "Zpl.Num.C24_u64_text",
    "Zpl.Num.C24_i64_text",
    "Zpl.Num.C24_u64_round_trip",
    "Zpl.Num.C24_i64_round_trip",
    "Zpl.Num.C24_minimum_undefined"
   ],
   "note": "The most negative value is outside the claim; the last theorem shows that the code negates it, which is undefined in C."
  },
  {
   "property": "C25",
   "status": "partial",
   "theorems": [
    "Zpl.Num.C25_u64_partial",
    "Zpl.Num.C25_i64_partial",
    "Zpl.Num.C25_base_detection",
    "Zpl.Num.C25_digits_below_base",
    "Zpl.Num.C25_digit_beyond_base"
   ],
   "note": "The code violates the property: in a base below ten the scanner takes every decimal digit, so a digit that is not one of the base is added to the value instead of ending the number (C25_digit_beyond_base). Proved for the bases and texts where this does not happen."
  },
  {
   "property": "C26",
   "status": "proved",
   "theorems": [
    "Zpl.Utf8.C26_encode",
    "Zpl.Utf8.C26_encode_invalid",
    "Zpl.Utf8.C26_decode"
   ],
   "note": ""
  },
  {
   "property": "C27",
   "status": "proved",
   "theorems": [
    "Zpl.Utf8.C27_decode",
    "Zpl.Utf8.C27_decode_empty"
   ],
   "note": ""
  },
  {
   "property": "C28",
   "status": "proved",
   "theorems": [
    "Zpl.Ucs2.C28_utf8_to_ucs2",
    "Zpl.Ucs2.C28_ucs2_to_utf8",
    "Zpl.Ucs2.C28_round_trip_utf16",
    "Zpl.Ucs2.C28_round_trip_utf8",
    "Zpl.Ucs2.C28_unpaired_surrogate"
   ],
   "note": "The claim is about well-formed texts. zpl_utf8_to_ucs2 is also characterised on every ill-formed text; C28_unpaired_surrogate shows that an ill-formed UTF-16 text makes zpl_ucs2_to_utf8 read past its terminator."
  },
  {
   "property": "C29",
   "status": "proved",
   "theorems": [
    "Zpl.Str.C29_strcmp",
    "Zpl.Str.C29_strncmp",
    "Zpl.Str.C29_strncmp_sign_is_address_order",
    "Zpl.Str.C29_prefix_suffix",
    "Zpl.Str.C29_occurrence"
   ],
   "note": ""
  },
  {
   "property": "C30",
   "status": "partial",
   "theorems": [
    "Zpl.Str.C30_strncpy",
    "Zpl.Str.C30_strlcpy_partial",
    "Zpl.Str.C30_strlcpy_not_terminated"
   ],
   "note": "The code violates the property: zpl_strlcpy does not terminate a text that is exactly as long as the buffer or longer."
  },
  {
   "property": "C31",
   "status": "proved",
   "theorems": [
    "Zpl.Str.C31_case_of_letters",
    "Zpl.Str.C31_transforms",
    "Zpl.Str.C31_reverse_twice"
   ],
   "note": ""
  },
  {
   "property": "C32",
   "status": "partial",
   "theorems": [
    "Zpl.Str.C32_split_lines_partial",
    "Zpl.Str.C32_join_partial",
    "Zpl.Str.C32_leading_newline",
    "Zpl.Str.C32_unterminated_line"
   ],
   "note": "The code violates the property: a newline at the start reads the byte before the text, and a last line without newline runs past the terminator."
  },
  {
   "property": "C33",
   "status": "proved",
   "theorems": [
    "Zpl.Sort.C33_sort"
   ],
   "note": "Arrays of up to 2^35 elements (the size for which the internal stack suffices)."
  },
  {
   "property": "C34",
   "status": "proved",
   "theorems": [
    "Zpl.Sort.C34_stack_bound"
   ],
   "note": "Holds for every comparison function, consistent or not."
  },
  {
   "property": "C35",
   "status": "proved",
   "theorems": [
    "Zpl.Radix.C35_radix_sort",
    "Zpl.Radix.C35_u8_result_in_temp"
   ],
   "note": "Equal items are identical integers, so a sorted permutation is unique. zpl_radix_sort_u8 (not part of the claim) leaves its result in temp."
  },
  {
   "property": "C36",
   "status": "proved",
   "theorems": [
    "Zpl.Search.C36_binary_search",
    "Zpl.Search.C36_binary_search_by"
   ],
   "note": ""
  },
  {
   "property": "C37",
   "status": "partial",
   "theorems": [
    "Zpl.Search.C37_reverse_partial",
    "Zpl.Search.C37_reverse_out_of_bounds",
    "Zpl.Random.C37_shuffle_partial",
    "Zpl.Random.C37_shuffle_can_leave_array"
   ],
   "note": "The code violates the property: zpl_reverse leaves the array for every array of two or more elements, zpl_shuffle does so when a draw is negative."
  },
  {
   "property": "C38",
   "status": "proved",
   "theorems": [
    "Zpl.Random.C38_range",
    "Zpl.Random.C38_range_residue",
    "Zpl.Random.C38_full_range_overflows"
   ],
   "note": ""
  },
  {
   "property": "C39",
   "status": "partial",
   "theorems": [
    "Zpl.Random.C39_unique_partial",
    "Zpl.Random.C39_repeats"
   ],
   "note": "The code violates the property: the squaring step truncates to 32 bits before the remainder, calls 0 and 65536 always agree."
  },
  {
   "property": "C40",
   "status": "proved",
   "theorems": [
    "Zpl.Adler.C40_adler32"
   ],
   "note": ""
  },
  {
   "property": "C41",
   "status": "proved",
   "theorems": [
    "Zpl.Crc.C41_crc32_is_polynomial_remainder",
    "Zpl.Crc.C41_crc64_is_polynomial_remainder",
    "Zpl.Crc.C41_crc32_detects_bursts",
    "Zpl.Crc.C41_crc64_detects_bursts",
    "Zpl.Crc.C41_single_byte",
    "Zpl.Crc.C41_affine"
   ],
   "note": ""
  },
  {
   "property": "C42",
   "status": "proved",
   "theorems": [
    "Zpl.Fnv.C42_published_recurrence",
    "Zpl.Fnv.C42_single_byte_changes_hash"
   ],
   "note": ""
  },
  {
   "property": "C43",
   "status": "proved",
   "theorems": [
    "Zpl.Murmur.C43_murmur32_is_murmur3",
    "Zpl.Murmur.C43_block_change",
    "Zpl.Murmur.C43_tail_change"
   ],
   "note": ""
  },
  {
   "property": "C44",
   "status": "partial",
   "theorems": [
    "Zpl.Murmur.C44_block_change_partial",
    "Zpl.Murmur.C44_short_message_partial",
    "Zpl.Murmur.C44_tail_ignored"
   ],
   "note": "False of the code for messages of 8 bytes or more with a tail: the tail bytes are ignored (proved); proved for the rest."
  },
  {
   "property": "C45",
   "status": "proved",
   "theorems": [
    "Zpl.Base64.C45_encode",
    "Zpl.Base64.C45_round_trip"
   ],
   "note": ""
  },
  {
   "property": "C46",
   "status": "partial",
   "theorems": [
    "Zpl.Base64.C46_well_formed_partial",
    "Zpl.Base64.C46_invalid_character_partial",
    "Zpl.Base64.C46_length_not_multiple_of_4",
    "Zpl.Base64.C46_bad_padding"
   ],
   "note": "False of the code: texts whose length is not a multiple of four, and \"====\", access memory out of bounds (proved)."
  },
  {
   "property": "C47",
   "status": "partial",
   "theorems": [
    "Zpl.Stream.C47_open",
    "Zpl.Stream.C47_history_partial",
    "Zpl.Stream.C47_new_history_partial",
    "Zpl.Stream.C47_bytes_written",
    "Zpl.Stream.C47_write_past_end",
    "Zpl.Stream.C47_read_past_end",
    "Zpl.Stream.C47_failed_write_moves"
   ],
   "note": "The code violates the property outside the histories covered: a write that begins past the end and a read that ends past it leave the block, and a failed growth moves the position (proved)."
  },
  {
   "property": "C48",
   "status": "partial",
   "theorems": [
    "Zpl.Uri.C48_round_trip_partial",
    "Zpl.Uri.C48_long_text_overflows",
    "Zpl.Uri.C48_cut_escape"
   ],
   "note": "Round trip proved for every text of fewer than 65536 bytes, and the encoded form has only unreserved characters, plus signs and escapes. Missing: longer texts, where the decoder overruns its fixed array (proved); a percent sign at the end of the input is read past the terminator (proved)."
  },
  {
   "property": "C49",
   "status": "partial",
   "theorems": [
    "Zpl.Json.C49_round_trip_partial",
    "Zpl.Json.C49_config_partial",
    "Zpl.Json.C49_member_style",
    "Zpl.Json.C49_quote_comes_back_escaped",
    "Zpl.Json.C49_final_backslash_reads_outside",
    "Zpl.Json.C49_config_at_zero_fails"
   ],
   "note": "Proved for every document of any depth of objects, arrays, strings, constants and printable numbers, with any analysis styles, at every indentation from 0 up and compactly, and for configuration-mode roots at indentation 4 and more. Missing: strings with the quote they are written in or a final backslash do not survive (proved); configuration-mode roots at indentation 0 (proved to fail). Numbers are a parameter with a read-back hypothesis; C88 and C129 show what satisfies it."
  },
  {
   "property": "C50",
   "status": "partial",
   "theorems": [
    "Zpl.Csv.C50_round_trip_partial",
    "Zpl.Csv.C50_integers_partial",
    "Zpl.Csv.C50_reals_partial",
    "Zpl.Csv.C50_two_empty_cells",
    "Zpl.Csv.C50_silent_change",
    "Zpl.Csv.C50_blank_delimiter",
    "Zpl.Csv.C50_number_as_name",
    "Zpl.Csv.C50_words_become_zero",
    "Zpl.Csv.C50_long_number_overruns"
   ],
   "note": "Proved for rectangular tables of any size with or without names, quoted cells of any text below 65535 bytes and fit unquoted cells, and any delimiter that is no blank and no quote, if no empty cell precedes an empty cell or one with a quote. Missing: those tables are damaged (proved, with and without an error), and so are tables written with a blank (tab) delimiter (proved). Number cells: proved for integers and for reals in scientific notation within the limits of C87 and C89, with the reader and printer of the library; other reals are missing. Texts that look like numbers do not survive without quotes (proved)."
  },
  {
   "property": "C51",
   "status": "partial",
   "theorems": [
    "Zpl.Regex.C51_literal_search_partial",
    "Zpl.Regex.C51_empty_pattern",
    "Zpl.Regex.C51_too_long",
    "Zpl.Regex.C51_long_literal_fault"
   ],
   "note": "Proved for every pattern of 1 to 127 ordinary characters, every text and every capture array: found iff it occurs, at its first occurrence, with the end as offset. Missing, and false: longer runs (128 to 253 read outside the operations, more than 256 are refused; proved)."
  },
  {
   "property": "C52",
   "status": "partial",
   "theorems": [
    "Zpl.Tar.C52_round_trip_partial",
    "Zpl.Tar.C52_long_name_lost",
    "Zpl.Tar.C52_changed_byte",
    "Zpl.Tar.C52_changed_checksum",
    "Zpl.Tar.C52_zeroed_checksum_ends",
    "Zpl.Tar.C52_behind_checksum_unnoticed",
    "Zpl.Tar.C52_size_modulo",
    "Zpl.Tar.C52_unterminated_repeats",
    "Zpl.Tar.C52_negative_size_diverges"
   ],
   "note": "Proved for every list of files with names of at most 12 characters, less than 2 GiB each and times before 2038, every previous contents of the archive, and every callback. Missing: longer names are stored as the empty name (proved); sizes are stored modulo 4 GiB (proved); zeroing the first checksum byte ends the archive silently and bytes behind the checksum terminator are not covered (proved). Reading and writing the archive is assumed not to fail."
  },
  {
   "property": "C53",
   "status": "partial",
   "theorems": [
    "Zpl.Opts.C53_compile_partial",
    "Zpl.Opts.C53_get",
    "Zpl.Opts.C53_get_unknown",
    "Zpl.Opts.C53_filled",
    "Zpl.Opts.C53_register",
    "Zpl.Opts.C53_positional",
    "Zpl.Opts.C53_result",
    "Zpl.Opts.C53_backslash_faults",
    "Zpl.Opts.C53_empty_value_faults",
    "Zpl.Opts.C53_no_long_name_faults",
    "Zpl.Opts.C53_dangling_positional",
    "Zpl.Opts.C53_stray_value_unnamed"
   ],
   "note": "Proved for every table of options with distinct non-empty names and every argument list made of flags, options with attached or separate values, positional values and wrong items. Missing: values ending in a backslash, empty separate values, options without a long name while a positional is pending, and options registered after positionals fault (proved); missing positionals are reported by positionals_filled only, not by compile. The conversion of reals is a parameter; C128 has it."
  },
  {
   "property": "C54",
   "status": "partial",
   "theorems": [
    "Zpl.Print.C54_fits_partial",
    "Zpl.Print.C54_exact_text_overflows",
    "Zpl.Print.C54_long_text_dropped",
    "Zpl.Print.C54_literal_overflows",
    "Zpl.Print.C54_zero_writes",
    "Zpl.Print.C54_zero_diverges",
    "Zpl.Print.C54_case_runs_on",
    "Zpl.Print.C54_null",
    "Zpl.Print.C54_null_read"
   ],
   "note": "Proved for every format built from literals and the conversions d i u o x X p c s r % with flags, widths, precisions, lengths and * arguments: when the printed text fits, it is written in full and terminated, the result is the count (or -1 for an exact fit) and nothing from text[max_len] on changes. Missing: the bound is false when the text does not fit (proved: exact-length %s writes text[max_len]; literals ignore max_len; max_len 0 writes or never returns; %x runs on to the next NUL). Floating-point conversions are a parameter of this model; C127 has them."
  },
  {
   "property": "C55",
   "status": "proved",
   "theorems": [
    "Zpl.Jobs.C55_at_most_once",
    "Zpl.Jobs.C55_every_job_in_one_place",
    "Zpl.Jobs.C55_worker_never_stuck"
   ],
   "note": "One client thread makes all calls; sequentially consistent memory."
  },
  {
   "property": "C56",
   "status": "proved",
   "theorems": [
    "Zpl.Jobs.C56_done"
   ],
   "note": ""
  },
  {
   "property": "C57",
   "status": "partial",
   "theorems": [
    "Zpl.Jobs.C57_shutdown_partial",
    "Zpl.Jobs.C57_after_done",
    "Zpl.Jobs.C57_shutdown_can_hang"
   ],
   "note": "The code violates the property: a worker between reading READY and storing BUSY overwrites TERM and zpl_jobs_free never returns (proved). Proved when no worker is READY at the call."
  },
  {
   "property": "C58",
   "status": "partial",
   "theorems": [
    "Zpl.Jobs.C58_choice",
    "Zpl.Jobs.C58_sole_queue_partial",
    "Zpl.Jobs.C58_highest_priority_starves",
    "Zpl.Jobs.C58_two_empty_passes"
   ],
   "note": "The code violates the property: with the two highest priorities non-empty the highest one is never served after the first pass (proved for any number of passes)."
  },
  {
   "property": "C59",
   "status": "partial",
   "theorems": [
    "Zpl.Spin.C59_single_thread_partial",
    "Zpl.Spin.C59_no_mutual_exclusion",
    "Zpl.Spin.C59_two_inside",
    "Zpl.Spin.C59_with_swapped_arguments"
   ],
   "note": "The code violates the property: the arguments of compare_exchange are swapped, so any number of threads hold the lock at once (proved for every number of threads). C59_with_swapped_arguments shows that the statement would hold of the intended code."
  },
  {
   "property": "C60",
   "status": "proved",
   "theorems": [
    "Zpl.Sync.C60_no_early_return",
    "Zpl.Sync.C60_reach_number",
    "Zpl.Sync.C60_no_assertion",
    "Zpl.Sync.C60_everybody_leaves",
    "Zpl.Sync.C60_next_round",
    "Zpl.Sync.C60_rounds_do_not_overlap",
    "Zpl.Sync.C60_zero_target"
   ],
   "note": "Targets are positive (C60_zero_target shows why). The code unlocks the start mutex from another thread than the one that locked it, which POSIX leaves undefined; the model takes it as a lock any thread may release."
  },
  {
   "property": "C61",
   "status": "proved",
   "theorems": [
    "Zpl.Half.C61_half_float_half"
   ],
   "note": "IEEE binary32 layout is trusted for the union. The shift of the sign bit into bit 31 of a signed int is taken as the sign bit."
  },
  {
   "property": "C62",
   "status": "partial",
   "theorems": [
    "Zpl.Adt.C62_alloc_at",
    "Zpl.Adt.C62_alloc_at_refused",
    "Zpl.Adt.C62_set_leaf",
    "Zpl.Adt.C62_set_branch",
    "Zpl.Adt.C62_append_leaf",
    "Zpl.Adt.C62_append_branch",
    "Zpl.Adt.C62_append_branch_refused",
    "Zpl.Adt.C62_set_leaf_links",
    "Zpl.Adt.C62_set_branch_links",
    "Zpl.Adt.C62_remove_partial",
    "Zpl.Adt.C62_remove_linked",
    "Zpl.Adt.C62_links_kept",
    "Zpl.Adt.C62_find",
    "Zpl.Adt.C62_find_deep_partial",
    "Zpl.Adt.C62_stale_parent",
    "Zpl.Adt.C62_find_not_preorder"
   ],
   "note": "Insertion, appending, setting and shallow search proved for every tree. Removal proved for every node that records its parent rightly. Missing: recorded parents go wrong when an ancestor moves, and removal is then undefined (proved, C62_stale_parent); deep search goes level by level within each object, not in pre-order (proved)."
  },
  {
   "property": "C63",
   "status": "partial",
   "theorems": [
    "Zpl.Adt.C63_query_partial",
    "Zpl.Adt.C63_text_is_index_zero",
    "Zpl.Adt.C63_empty_part"
   ],
   "note": "Proved for all trees and paths of non-empty parts below 65535 bytes that do not begin with a bracket, with decimal parts at arrays. Missing: other parts at arrays are read as index 0 (proved), doubled slashes collapse (proved)."
  },
  {
   "property": "C64",
   "status": "partial",
   "theorems": [
    "Zpl.Vm.C64_trim_lead_partial",
    "Zpl.Vm.C64_trim_unmaps_kept",
    "Zpl.Vm.C64_trim_too_large"
   ],
   "note": "The code violates the property: a cut at the end unmaps the start of the kept part (proved)."
  },
  {
   "property": "C65",
   "status": "proved",
   "theorems": [
    "Zpl.Path.C65_kind",
    "Zpl.Path.C65_base_name",
    "Zpl.Path.C65_extension"
   ],
   "note": "Posix build."
  },
  {
   "property": "C66",
   "status": "partial",
   "theorems": [
    "Zpl.Utf8.C66_utf8_strlen_partial",
    "Zpl.Utf8.C66_truncated_text"
   ],
   "note": "The code violates the property: a text cut inside a character makes it step over the terminator."
  },
  {
   "property": "C67",
   "status": "partial",
   "theorems": [
    "Zpl.Copy.C67_strcpy_partial",
    "Zpl.Copy.C67_strcpy_not_terminated",
    "Zpl.Copy.C67_strcat_partial",
    "Zpl.Copy.C67_strcat_not_terminated",
    "Zpl.Copy.C67_unbounded"
   ],
   "note": "The code violates the property: neither function writes the terminator (proved)."
  },
  {
   "property": "C68",
   "status": "partial",
   "theorems": [
    "Zpl.Copy.C68_concat",
    "Zpl.Copy.C68_concat_texts",
    "Zpl.Copy.C68_strdup_partial",
    "Zpl.Copy.C68_strdup_short"
   ],
   "note": "zpl_str_concat is proved; zpl_strdup does not cut: with max_len below the length it runs out of bounds (proved)."
  },
  {
   "property": "C69",
   "status": "partial",
   "theorems": [
    "Zpl.Token.C69_strtok",
    "Zpl.Token.C69_fields",
    "Zpl.Token.C69_fields_exist",
    "Zpl.Token.C69_strntok_partial",
    "Zpl.Token.C69_strntok_long"
   ],
   "note": "zpl_strtok is proved; zpl_strntok leaves a token of len or more characters unterminated and loses a character (proved)."
  },
  {
   "property": "C70",
   "status": "proved",
   "theorems": [
    "Zpl.Token.C70_trim",
    "Zpl.Token.C70_skip",
    "Zpl.Token.C70_skip_any",
    "Zpl.Token.C70_skip_literal",
    "Zpl.Token.C70_control_skip"
   ],
   "note": "For searched characters other than NUL."
  },
  {
   "property": "C71",
   "status": "partial",
   "theorems": [
    "Zpl.Chars.C71_classes",
    "Zpl.Chars.C71_digit_values",
    "Zpl.Chars.C71_char_to_hex_digit_partial",
    "Zpl.Chars.C71_hex_letters_wrong"
   ],
   "note": "The code violates the property: zpl_char_to_hex_digit is too small by ten for letters (proved)."
  },
  {
   "property": "C72",
   "status": "partial",
   "theorems": [
    "Zpl.Chars.C72_strnlen",
    "Zpl.Chars.C72_utf8_strnlen_partial",
    "Zpl.Chars.C72_strnlen_reads_past",
    "Zpl.Chars.C72_codepoint_size_partial",
    "Zpl.Chars.C72_codepoint_size_wrong"
   ],
   "note": "zpl_strnlen is proved; zpl_utf8_strnlen reads one byte past the bound and zpl_utf8_codepoint_size is always 1 (proved)."
  },
  {
   "property": "C73",
   "status": "proved",
   "theorems": [
    "Zpl.Path.C73_mkdir_recursive"
   ],
   "note": "The directory requests are the observable effect; the file system itself is not modelled."
  },
  {
   "property": "C74",
   "status": "proved",
   "theorems": [
    "Zpl.Half.C74_nearest",
    "Zpl.Half.C74_special"
   ],
   "note": ""
  },
  {
   "property": "C75",
   "status": "proved",
   "theorems": [
    "Zpl.Jobs.C75_limit",
    "Zpl.Jobs.C75_refused_iff_full"
   ],
   "note": "Over all schedules from an initialised pool."
  },
  {
   "property": "C76",
   "status": "proved",
   "theorems": [
    "Zpl.Jobs.C76_fifo"
   ],
   "note": "Over all schedules of a pool with one worker; the priority of a job is a function of the job."
  },
  {
   "property": "C77",
   "status": "partial",
   "theorems": [
    "Zpl.Json.C77_layout_partial",
    "Zpl.Json.C77_config_partial",
    "Zpl.Json.C77_layouts_misread",
    "Zpl.Json.C77_cut_off_string_reads_outside"
   ],
   "note": "Proved for every text of the grammar Spell, which has any white space, all quote, assignment and delimiter styles and brace-less roots. Missing: comments, and a newline before a comma in an object, which are misread (proved)."
  },
  {
   "property": "C78",
   "status": "partial",
   "theorems": [
    "Zpl.Adt.C78_swap",
    "Zpl.Adt.C78_move_partial",
    "Zpl.Adt.C78_move_last_partial",
    "Zpl.Adt.C78_within_earlier",
    "Zpl.Adt.C78_within_later",
    "Zpl.Adt.C78_within_full",
    "Zpl.Adt.C78_moved_children_lost",
    "Zpl.Adt.C78_move_up_partial",
    "Zpl.Adt.C78_up_before",
    "Zpl.Adt.C78_up_full"
   ],
   "note": "Swap in full for nodes that record their parents rightly and of which none contains the other. Moves to a parent with which the node has nothing to do, to one above the grandparent, and to the grandparent behind the parent if there is room; the other moves up, and all moves within one parent, are wrong (shown): the code moves the wrong node, returns a wrong pointer or uses freed memory. Moving a node into itself makes a cycle, which the model does not have. Allocation succeeds."
  },
  {
   "property": "C79",
   "status": "proved",
   "theorems": [
    "Zpl.Adt.C79_array_field",
    "Zpl.Adt.C79_object_field",
    "Zpl.Adt.C79_array_value",
    "Zpl.Adt.C79_unclosed",
    "Zpl.Adt.C79_object_value"
   ],
   "note": "Member names are texts (a NULL name is dereferenced); parts shorter than the 64 KiB buffer; how numbers print is a parameter. Malformed parts fail an assertion."
  },
  {
   "property": "C80",
   "status": "partial",
   "theorems": [
    "Zpl.Json.C80_refused",
    "Zpl.Json.C80_unclosed_object_accepted"
   ],
   "note": "Proved for every text with a mistake of the named kinds at any depth after any number of right parts. Missing: an object whose closing brace is missing is accepted (proved)."
  },
  {
   "property": "C81",
   "status": "partial",
   "theorems": [
    "Zpl.Tar.C81_unpack_dir_partial",
    "Zpl.Tar.C81_empty_name_undefined",
    "Zpl.Tar.C81_path_overrun",
    "Zpl.Tar.C81_escapes"
   ],
   "note": "Proved for every list of files as in C52 with non-empty names not ending in a separator, whose joined path fits in ZPL_MAX_PATH. Missing: names that leave the directory by .. in the middle are not refused, empty names write through an uninitialised file, paths one or two bytes too long overrun the buffer (proved)."
  },
  {
   "property": "C82",
   "status": "proved",
   "theorems": [
    "Zpl.Regex.C82_straight_patterns",
    "Zpl.Regex.C82_match_unique",
    "Zpl.Regex.C82_fails_no_match",
    "Zpl.Regex.C82_end_alone"
   ],
   "note": "For every pattern of the shape described, with attempts beginning at the characters of the text (a pattern that could match only at the very end of the text, such as $ alone, is not found: proved as C82_end_alone). The text is followed by at least one readable byte."
  },
  {
   "property": "C83",
   "status": "partial",
   "theorems": [
    "Zpl.Regex.C83_repeat_partial",
    "Zpl.Regex.C83_greedy_is_enough",
    "Zpl.Regex.C83_repeat_nothing",
    "Zpl.Regex.C83_last_takes_one",
    "Zpl.Regex.C83_repeat_possessive"
   ],
   "note": "Proved for c+ followed by something that cannot begin with a character of c, when every attempt before the match ends without an empty repetition; for these greedy equals any repetition. Missing, and false: an empty repetition at the first attempt reads outside the operations, a final c+ takes one character, no backtracking (all proved)."
  },
  {
   "property": "C84",
   "status": "partial",
   "theorems": [
    "Zpl.Regex.C84_compile_partial",
    "Zpl.Regex.C84_bracket_diverges",
    "Zpl.Regex.C84_quantifier_overflow",
    "Zpl.Regex.C84_from_buffer"
   ],
   "note": "Proved for all byte sequences of at most 42 characters, and of any length without quantifiers: no access outside, buffer given back exactly on error, and an end unless there is a ] in the pattern. Missing, and false: a stray ] loops for ever, many quantifiers overflow, zpl_re_compile_from_buffer refuses everything (proved)."
  },
  {
   "property": "C85",
   "status": "partial",
   "theorems": [
    "Zpl.Regex.C85_alternatives_partial",
    "Zpl.Regex.C85_top_level_joins",
    "Zpl.Regex.C85_group_first_only"
   ],
   "note": "Never found when neither alternative occurs. Missing, and false: s|t is found iff s followed by t occurs, (s|t) iff s occurs (proved for all ordinary s and t)."
  },
  {
   "property": "C86",
   "status": "partial",
   "theorems": [
    "Zpl.Regex.C86_escape_partial",
    "Zpl.Regex.C86_hex_swallows"
   ],
   "note": "Proved for every escape of a character that is no hexadecimal digit. Missing, and false: for a hexadecimal digit followed by any character, among them \\d, \\D, \\a and \\f (proved)."
  },
  {
   "property": "C87",
   "status": "partial",
   "theorems": [
    "Zpl.Number.C87_decimal_partial",
    "Zpl.Number.C87_hex_partial",
    "Zpl.Number.C87_negative_zero",
    "Zpl.Number.C87_reread",
    "Zpl.Number.C87_json",
    "Zpl.Number.C87_negative_hex_fails",
    "Zpl.Number.C87_least_fails"
   ],
   "note": "Proved for every integer above the minimum in decimal, every non-negative one in hexadecimal, both negative zeros, and every integer that was read from any text; with it C49 covers documents with integers. Missing, and false: negative hexadecimal numbers and the least integer (proved)."
  },
  {
   "property": "C88",
   "status": "partial",
   "theorems": [
    "Zpl.Number.C88_decimal_partial",
    "Zpl.Number.C88_hex_partial",
    "Zpl.Number.C88_strict_partial",
    "Zpl.Number.C88_strict_refuses",
    "Zpl.Number.C88_long_number_overruns",
    "Zpl.Number.C88_large_number_undefined",
    "Zpl.Number.C88_exponent_ignored",
    "Zpl.Number.C88_negative_hex_lost",
    "Zpl.Number.C88_capital_x_lost",
    "Zpl.Number.C88_words_are_zero"
   ],
   "note": "Proved for decimal numbers up to 46 digits and below 2^63, and for 0x without minus sign. Missing, and false: longer and larger numbers, -0x, 0X, exponents without a dot, and words (each proved)."
  },
  {
   "property": "C89",
   "status": "partial",
   "theorems": [
    "Zpl.Number.C89_exponent_partial",
    "Zpl.Number.C89_dot_partial",
    "Zpl.Number.C89_json_partial",
    "Zpl.Number.C89_large_exponent_changes",
    "Zpl.Number.C89_large_fraction_changes",
    "Zpl.Number.C89_many_zeros_lost",
    "Zpl.Number.C89_zero_fraction_grows"
   ],
   "note": "Proved for exponents -8..7, digits below 2^31 before and after the dot, at most 15 leading zeros and a fraction that is not zero, for any floating-point arithmetic. Missing, and false: beyond these limits (each proved). Numbers with digits before the dot and no exponent are printed by %f, see C129."
  },
  {
   "property": "C90",
   "status": "partial",
   "theorems": [
    "Zpl.Math.C90_contains",
    "Zpl.Math.C90_intersects",
    "Zpl.Math.C90_intersects_comm",
    "Zpl.Math.C90_intersection",
    "Zpl.Math.C90_box_and_rectangle",
    "Zpl.Math.C90_same_points_partial",
    "Zpl.Math.C90_negative_sides_lost"
   ],
   "note": "Containment and the intersection test are proved for any ordering and any addition (rounded or exact); the intersection and the conversions in exact arithmetic. Missing, and false: a rectangle with a negative side loses its points when turned into a box (proved)."
  },
  {
   "property": "C91",
   "status": "proved",
   "theorems": [
    "Zpl.Math.C91_cut",
    "Zpl.Math.C91_partition",
    "Zpl.Math.C91_get",
    "Zpl.Math.C91_inside",
    "Zpl.Math.C91_size",
    "Zpl.Math.C91_grow",
    "Zpl.Math.C91_negative_grows"
   ],
   "note": "The partition holds for any list of cuts and of rounded arithmetic too (only monotonicity is used); sizes in exact arithmetic."
  },
  {
   "property": "C92",
   "status": "partial",
   "theorems": [
    "Zpl.Math.C92_contract_partial",
    "Zpl.Math.C92_expand_partial",
    "Zpl.Math.C92_round_trip_partial",
    "Zpl.Math.C92_expand_loses",
    "Zpl.Math.C92_contract_loses"
   ],
   "note": "Proved in exact arithmetic for boxes whose centre has no negative coordinate. Missing, and false: boxes with a centre on the negative side vanish (proved for all of them)."
  },
  {
   "property": "C93",
   "status": "partial",
   "theorems": [
    "Zpl.Math.C93_norm",
    "Zpl.Math.C93_norm0",
    "Zpl.Math.C93_dot_cross",
    "Zpl.Math.C93_cross",
    "Zpl.Math.C93_side",
    "Zpl.Math.C93_reflect",
    "Zpl.Math.C93_reflect2",
    "Zpl.Math.C93_max",
    "Zpl.Math.C93_refract_partial",
    "Zpl.Math.C93_refract_straight_lost",
    "Zpl.Math.C93_refract_same_material_bends"
   ],
   "note": "Proved in exact arithmetic. Missing, and false: refraction (only the part along the surface is right; both failures proved for all normals)."
  },
  {
   "property": "C94",
   "status": "partial",
   "theorems": [
    "Zpl.Math.C94_mul2",
    "Zpl.Math.C94_mul3",
    "Zpl.Math.C94_mul4",
    "Zpl.Math.C94_transpose",
    "Zpl.Math.C94_identity",
    "Zpl.Math.C94_vec4",
    "Zpl.Math.C94_vec4_product",
    "Zpl.Math.C94_vec_transposed",
    "Zpl.Math.C94_vec_reversed",
    "Zpl.Math.C94_vec2_partial"
   ],
   "note": "Proved over every field, with any overlap. Missing, and false: vectors of two and three coordinates are multiplied by the transposed matrix (proved)."
  },
  {
   "property": "C95",
   "status": "partial",
   "theorems": [
    "Zpl.Math.C95_det",
    "Zpl.Math.C95_inverse2_partial",
    "Zpl.Math.C95_inverse2_in_place",
    "Zpl.Math.C95_inverse3_transposed",
    "Zpl.Math.C95_inverse3_partial",
    "Zpl.Math.C95_inverse3_wrong",
    "Zpl.Math.C95_inverse4_partial",
    "Zpl.Math.C95_inverse4_frame",
    "Zpl.Math.C95_inverse4_in_place_fails"
   ],
   "note": "Proved over every field for two and four rows when the result is another matrix, and for symmetric matrices of three rows. Missing, and false: in place, and three rows in general (proved)."
  },
  {
   "property": "C96",
   "status": "proved",
   "theorems": [
    "Zpl.Math.C96_algebra",
    "Zpl.Math.C96_dot",
    "Zpl.Math.C96_inverse",
    "Zpl.Math.C96_cancel",
    "Zpl.Math.C96_norm"
   ],
   "note": "Exact arithmetic."
  },
  {
   "property": "C97",
   "status": "proved",
   "theorems": [
    "Zpl.Math.C97_rotate",
    "Zpl.Math.C97_compose",
    "Zpl.Math.C97_undo",
    "Zpl.Math.C97_rigid",
    "Zpl.Math.C97_matrix",
    "Zpl.Math.C97_matrix_product",
    "Zpl.Math.C97_round_trip",
    "Zpl.Math.C97_opposite"
   ],
   "note": "Exact arithmetic."
  },
  {
   "property": "C98",
   "status": "partial",
   "theorems": [
    "Zpl.Math.C98_unit",
    "Zpl.Math.C98_quat_turns",
    "Zpl.Math.C98_matrix_turns",
    "Zpl.Math.C98_turned",
    "Zpl.Math.C98_translate_scale",
    "Zpl.Math.C98_step_first",
    "Zpl.Math.C98_read_back",
    "Zpl.Math.C98_axis_of_scaled"
   ],
   "note": "Exact arithmetic. Missing, and false: the axis of a quaternion that does not have length one (proved)."
  },
  {
   "property": "C99",
   "status": "partial",
   "theorems": [
    "Zpl.Math.C99_angles",
    "Zpl.Math.C99_yaw_partial",
    "Zpl.Math.C99_yaw_mixed",
    "Zpl.Math.C99_roll_wrong",
    "Zpl.Math.C99_pitch_wrong"
   ],
   "note": "The composition is proved for all angles, reading back only for the yaw without roll. Missing, and false: reading roll and pitch (proved wrong for every angle whose tangent is not zero), and yaw with roll."
  },
  {
   "property": "C100",
   "status": "partial",
   "theorems": [
    "Zpl.Math.C100_ortho",
    "Zpl.Math.C100_perspective",
    "Zpl.Math.C100_infinite",
    "Zpl.Math.C100_perspective_dx_partial",
    "Zpl.Math.C100_perspective_dx_depth_wrong"
   ],
   "note": "Exact arithmetic. Missing, and false: the depth of zpl_mat4_perspective_dx (proved wrong for every far plane but 1)."
  },
  {
   "property": "C101",
   "status": "proved",
   "theorems": [
    "Zpl.Math.C101_look_at",
    "Zpl.Math.C101_look_at_lh"
   ],
   "note": "Exact arithmetic."
  },
  {
   "property": "C102",
   "status": "partial",
   "theorems": [
    "Zpl.Math.C102_point",
    "Zpl.Math.C102_sphere",
    "Zpl.Math.C102_unit",
    "Zpl.Math.C102_box_partial",
    "Zpl.Math.C102_box_around_lost",
    "Zpl.Math.C102_camera_partial",
    "Zpl.Math.C102_depth_wrong",
    "Zpl.Math.C102_position_ignored",
    "Zpl.Math.C102_planes",
    "Zpl.Math.C102_turned",
    "Zpl.Math.C102_turned_wrong"
   ],
   "note": "Points and spheres are proved for every frustum with unit normals; boxes are reported by their corners only. Missing, and false: boxes, and the planes made from a camera (only the cone of a camera at the origin is right), each proved."
  },
  {
   "property": "C103",
   "status": "proved",
   "theorems": [
    "Zpl.Math.C103_lerp",
    "Zpl.Math.C103_vectors",
    "Zpl.Math.C103_lerp_order",
    "Zpl.Math.C103_smooth",
    "Zpl.Math.C103_curve"
   ],
   "note": "Exact arithmetic."
  },
  {
   "property": "C104",
   "status": "partial",
   "theorems": [
    "Zpl.Math.C104_slerp_partial",
    "Zpl.Math.C104_slerp_same_fails",
    "Zpl.Math.C104_cheap"
   ],
   "note": "Exact arithmetic, for pairs that are neither equal nor opposite. Missing, and false: equal rotations (proved)."
  },
  {
   "property": "C105",
   "status": "partial",
   "theorems": [
    "Zpl.Math.C105_floor_partial",
    "Zpl.Math.C105_floor_whole_negative",
    "Zpl.Math.C105_ceil_partial",
    "Zpl.Math.C105_ceil_whole",
    "Zpl.Math.C105_round",
    "Zpl.Math.C105_out_of_range"
   ],
   "note": "Rounding to the nearest is proved in full over exact numbers (in floating point see C146). Missing, and false: floor of negative and ceiling of non-negative whole numbers (proved for all of them)."
  },
  {
   "property": "C106",
   "status": "partial",
   "theorems": [
    "Zpl.Math.C106_remainder",
    "Zpl.Math.C106_mod_wrong",
    "Zpl.Math.C106_mod_multiple",
    "Zpl.Math.C106_mod64_partial",
    "Zpl.Math.C106_mod64_wrong",
    "Zpl.Math.C106_angle_diff_same",
    "Zpl.Math.C106_angle_diff_ahead",
    "Zpl.Math.C106_angle_diff_behind"
   ],
   "note": "zpl_remainder is proved. Missing, and false: zpl_mod (wrong for every dividend but the halfway ones), zpl_mod64 (right exactly when the remainder is at least half the divisor), zpl_angle_diff (wrong for every pair of different angles less than half a turn apart)."
  },
  {
   "property": "C107",
   "status": "partial",
   "theorems": [
    "Zpl.Math.C107_copy_sign",
    "Zpl.Math.C107_sign",
    "Zpl.Math.C107_degrees",
    "Zpl.Math.C107_constants",
    "Zpl.Math.C107_one_over_wrong",
    "Zpl.Math.C107_fast_exp",
    "Zpl.Math.C107_exp2"
   ],
   "note": "Missing, and false: the two reciprocal constants (proved)."
  },
  {
   "property": "C108",
   "status": "proved",
   "theorems": [
    "Zpl.Math.C108_quake",
    "Zpl.Math.C108_quake_below"
   ],
   "note": "The Newton steps are computed without rounding."
  },
  {
   "property": "C109",
   "status": "partial",
   "theorems": [
    "Zpl.Math.Fallback.C109_arctan2_partial",
    "Zpl.Math.Fallback.C109_arctan2_mirrored",
    "Zpl.Math.Fallback.C109_arctan2_left",
    "Zpl.Math.Fallback.C109_arcsin",
    "Zpl.Math.Fallback.C109_arccos_partial",
    "Zpl.Math.Fallback.C109_arccos_mirrored",
    "Zpl.Math.Fallback.C109_arccos_minus_one",
    "Zpl.Math.Fallback.C109_sin_negative",
    "Zpl.Math.Fallback.C109_pow_partial",
    "Zpl.Math.Fallback.C109_pow_wrong"
   ],
   "note": "Missing, and false: two octants of the direction, the arc cosine of small negative arguments and -1, powers with exponents that are not whole (each proved for all of them)."
  },
  {
   "property": "C110",
   "status": "partial",
   "theorems": [
    "Zpl.Macro.C110_min_max",
    "Zpl.Macro.C110_clamp",
    "Zpl.Macro.C110_between",
    "Zpl.Macro.C110_clamp01",
    "Zpl.Macro.C110_step",
    "Zpl.Macro.C110_abs",
    "Zpl.Macro.C110_abs_least",
    "Zpl.Macro.C110_mask_set",
    "Zpl.Macro.C110_copy_partial",
    "Zpl.Macro.C110_mat2_copy_overrun",
    "Zpl.Macro.C110_aspect"
   ],
   "note": "Missing, and false: copying a 2 by 2 matrix."
  },
  {
   "property": "C111",
   "status": "partial",
   "theorems": [
    "Zpl.Heap.C111_heap",
    "Zpl.Heap.C111_statistics",
    "Zpl.Heap.C111_uninitialised",
    "Zpl.Heap.C111_plain_alignment",
    "Zpl.Heap.C111_analysis_misaligned",
    "Zpl.Heap.C111_analysis_failure_crashes"
   ],
   "note": "Missing, and false (each proved for all cases): with the analysis, alignments of 64 and more, and reporting a refused allocation. Linux variant of the code only."
  },
  {
   "property": "C112",
   "status": "partial",
   "theorems": [
    "Zpl.Bits.C112_endian_swap",
    "Zpl.Bits.C112_swap_twice",
    "Zpl.Bits.C112_next_pow2",
    "Zpl.Bits.C112_next_pow2_rest",
    "Zpl.Bits.C112_bit_set_reset",
    "Zpl.Bits.C112_bit_get_partial",
    "Zpl.Bits.C112_bit_get_wrong",
    "Zpl.Bits.C112_count_set_bits"
   ],
   "note": "Missing, and false: reading bits 8 to 30 (proved for all words)."
  },
  {
   "property": "C113",
   "status": "partial",
   "theorems": [
    "Zpl.UriDoc.C113_round_trip_partial",
    "Zpl.UriDoc.C113_syntax",
    "Zpl.UriDoc.C113_dates_cut",
    "Zpl.UriDoc.C113_words_become_zero",
    "Zpl.UriDoc.C113_long_digits_overrun",
    "Zpl.UriDoc.C113_origin_is_a_format",
    "Zpl.UriDoc.C113_hex_becomes_text",
    "Zpl.UriDoc.C113_empty_flag_lost",
    "Zpl.UriDoc.C113_cut_escape"
   ],
   "note": "Missing, and false: texts that look like numbers, origins with percent signs, hexadecimal numbers, an empty flag at the end. Real-valued parameters are not covered."
  },
  {
   "property": "C114",
   "status": "partial",
   "theorems": [
    "Zpl.File.C114_history_partial",
    "Zpl.File.C114_nothing_else",
    "Zpl.File.C114_refused",
    "Zpl.File.C114_read_past_end",
    "Zpl.File.C114_write_at_moves_cursor",
    "Zpl.File.C114_failed_seek",
    "Zpl.File.C114_short_write"
   ],
   "note": "The history theorem is for a system that completes every transfer, with the cursor rules of the code. Missing, and false: that reads stop the cursor at the end, that writing at an offset leaves it, and that short transfers are told."
  },
  {
   "property": "C115",
   "status": "proved",
   "theorems": [
    "Zpl.File.C115_open",
    "Zpl.File.C115_bad_mode",
    "Zpl.File.C115_open_fails",
    "Zpl.File.C115_close",
    "Zpl.File.C115_append_only",
    "Zpl.File.C115_temp",
    "Zpl.File.C115_close_twice",
    "Zpl.File.C115_append_cursor"
   ],
   "note": "The FILE object that tmpfile returns is not modelled; the code never closes it."
  },
  {
   "property": "C116",
   "status": "partial",
   "theorems": [
    "Zpl.File.C116_write_contents",
    "Zpl.File.C116_read_contents",
    "Zpl.File.C116_round_trip",
    "Zpl.File.C116_read_no_leak",
    "Zpl.File.C116_write_no_leak",
    "Zpl.File.C116_nothing_to_read",
    "Zpl.File.C116_failed_write_loses_file",
    "Zpl.File.C116_short_write_is_success",
    "Zpl.File.C116_short_read_is_success"
   ],
   "note": "The exact-contents theorems are for systems that complete transfers; absence of leaks is for all. Missing, and false: that incomplete transfers are reported."
  },
  {
   "property": "C117",
   "status": "partial",
   "theorems": [
    "Zpl.File.C117_read_lines_partial",
    "Zpl.File.C117_missing_file"
   ],
   "note": "Inherits what is missing in the splitting of lines."
  },
  {
   "property": "C118",
   "status": "partial",
   "theorems": [
    "Zpl.File.C118_move",
    "Zpl.File.C118_move_crash",
    "Zpl.File.C118_move_keeps_target",
    "Zpl.File.C118_remove",
    "Zpl.File.C118_copy_partial",
    "Zpl.File.C118_failed_move_leaves_both",
    "Zpl.File.C118_copy_leaves_tail",
    "Zpl.File.C118_copy_missing_creates"
   ],
   "note": "Missing, and false: that a copy equals its original when the target existed, that fail_if_exists is honoured."
  },
  {
   "property": "C119",
   "status": "partial",
   "theorems": [
    "Zpl.File.C119_no_false_alarm_partial",
    "Zpl.File.C119_change_never_reported"
   ],
   "note": "Missing, and false: that a change is reported."
  },
  {
   "property": "C120",
   "status": "proved",
   "theorems": [
    "Zpl.Thread.C120_safe",
    "Zpl.Thread.C120_join",
    "Zpl.Thread.C120_start_waits",
    "Zpl.Thread.C120_destroy",
    "Zpl.Thread.C120_terminates",
    "Zpl.Thread.C120_nowait_lost",
    "Zpl.Thread.C120_failed_start",
    "Zpl.Thread.C120_join_twice",
    "Zpl.Thread.C120_poll_races"
   ],
   "note": "For programs that follow the life of the object and a system that grants threads; the deviations say what happens otherwise. Sequentially consistent memory."
  },
  {
   "property": "C121",
   "status": "partial",
   "theorems": [
    "Zpl.Dir.C121_listing_partial",
    "Zpl.Dir.C121_complete",
    "Zpl.Dir.C121_once",
    "Zpl.Dir.C121_lines",
    "Zpl.Dir.C121_dotted_names_missing",
    "Zpl.Dir.C121_handles_leak"
   ],
   "note": "Missing, and false: entries whose names begin with two dots, and closing. The tree does not change during the listing."
  },
  {
   "property": "C122",
   "status": "partial",
   "theorems": [
    "Zpl.Dir.C122_entries_partial",
    "Zpl.Dir.C122_type_partial",
    "Zpl.Dir.C122_step_partial",
    "Zpl.Dir.C122_fullpath_not_terminated",
    "Zpl.Dir.C122_step_stale",
    "Zpl.Dir.C122_step_no_separator",
    "Zpl.Dir.C122_step_overrun",
    "Zpl.Dir.C122_socket_is_folder"
   ],
   "note": "Missing, and false: the path of the folder, kinds of sockets and block devices, steps after the first."
  },
  {
   "property": "C123",
   "status": "partial",
   "theorems": [
    "Zpl.Regex.C123_match_all_partial",
    "Zpl.Regex.C123_always_answers",
    "Zpl.Regex.C123_empty_match_diverges",
    "Zpl.Regex.C123_trailing_text",
    "Zpl.Regex.C123_copies"
   ],
   "note": "For patterns without quantifiers and alternatives, as in C82. Missing, and false: an answer for patterns that match the empty text."
  },
  {
   "property": "C124",
   "status": "partial",
   "theorems": [
    "Zpl.OptsPrint.C124_help_partial",
    "Zpl.OptsPrint.C124_errors",
    "Zpl.OptsPrint.C124_free_partial",
    "Zpl.OptsPrint.C124_help_reads_outside",
    "Zpl.OptsPrint.C124_help_shows_junk",
    "Zpl.OptsPrint.C124_usage_reversed",
    "Zpl.OptsPrint.C124_free_leaks"
   ],
   "note": "Missing, and false: a help screen without the entry behind the last, positionals in order, and the release of strings of options given more than once."
  },
  {
   "property": "C125",
   "status": "partial",
   "theorems": [
    "Zpl.WriteString.C125_text",
    "Zpl.WriteString.C125_json_partial",
    "Zpl.WriteString.C125_csv_partial",
    "Zpl.WriteString.C125_uri_partial",
    "Zpl.WriteString.C125_json_reports",
    "Zpl.WriteString.C125_lost_piece"
   ],
   "note": "Missing, and false: an answer that tells when CSV or URI text was lost."
  },
  {
   "property": "C126",
   "status": "partial",
   "theorems": [
    "Zpl.Sprint.C126_bprintf",
    "Zpl.Sprint.C126_asprintf",
    "Zpl.Sprint.C126_sprintf_buf",
    "Zpl.Sprint.C126_sprintf",
    "Zpl.Sprint.C126_append_fmt_partial",
    "Zpl.Sprint.C126_append_fmt_drops",
    "Zpl.Sprint.C126_alloc_str",
    "Zpl.Sprint.prints_text"
   ],
   "note": "For formats without real numbers (C54; for those see C127). Missing, and false: appending a text of 65534 characters."
  },
  {
   "property": "C127",
   "status": "partial",
   "theorems": [
    "Zpl.PrintReal.C127_fits_partial",
    "Zpl.PrintReal.C127_near",
    "Zpl.PrintReal.C127_quarter",
    "Zpl.PrintReal.C127_ten",
    "Zpl.PrintReal.C127_undefined",
    "Zpl.PrintReal.C127_many_decimals",
    "Zpl.PrintReal.C127_overruns"
   ],
   "note": "C127_fits_partial: exact text for whole numbers and numbers not within 2^-46 of one with so many decimals; C127_near: error bound for all. Missing, and false: rounding, numbers close to a decimal, large numbers, many decimals."
  },
  {
   "property": "C128",
   "status": "partial",
   "theorems": [
    "Zpl.ReadReal.C128_reads",
    "Zpl.ReadReal.C128_exact",
    "Zpl.ReadReal.C128_total",
    "Zpl.ReadReal.C128_no_number",
    "Zpl.ReadReal.C128_print_read",
    "Zpl.ReadReal.C128_print_read_whole",
    "Zpl.ReadReal.C128_round_trip_partial",
    "Zpl.ReadReal.C128_exponent_wraps",
    "Zpl.ReadReal.C128_exponent_308",
    "Zpl.ReadReal.C128_not_nearest"
   ],
   "note": "Error bounds instead of correct rounding, which is false; larger whole parts and exponents only for termination and the exponent rule. C128_round_trip_partial: only numbers of which C127 has the text."
  },
  {
   "property": "C129",
   "status": "partial",
   "theorems": [
    "Zpl.Number.C129_read",
    "Zpl.Number.C129_write_partial",
    "Zpl.Number.C129_write_read_partial",
    "Zpl.Number.C129_json_whole",
    "Zpl.Number.C129_zero_becomes_integer",
    "Zpl.Number.C129_quarter",
    "Zpl.Number.C129_drifts",
    "Zpl.Number.C129_minus_doubled",
    "Zpl.Number.C129_negative_exponent",
    "Zpl.Number.C129_positive_exponent"
   ],
   "note": "The written text is proved for the numbers of C127 (whole numbers and those whose decimals come out exactly); the deviations are theorems."
  },
  {
   "property": "C130",
   "status": "partial",
   "theorems": [
    "Zpl.Time.C130_epoch",
    "Zpl.Time.C130_clock",
    "Zpl.Time.C130_clock_order",
    "Zpl.Time.C130_relative_partial",
    "Zpl.Time.C130_restarts",
    "Zpl.Time.C130_utc",
    "Zpl.Time.C130_utc_order",
    "Zpl.Time.C130_utc_early",
    "Zpl.Time.C130_sleep",
    "Zpl.Time.C130_local",
    "Zpl.Time.C130_seconds",
    "Zpl.Time.C130_windows_tenfold"
   ],
   "note": "Missing, and false: that the time never goes back when the first question is asked in the first millisecond of the clock (proved). The system clock itself is an argument."
  },
  {
   "property": "C131",
   "status": "partial",
   "theorems": [
    "Zpl.Socket.C131_create",
    "Zpl.Socket.C131_created",
    "Zpl.Socket.C131_addresses_freed",
    "Zpl.Socket.C131_close",
    "Zpl.Socket.C131_refused_partial",
    "Zpl.Socket.C131_failure_leaks",
    "Zpl.Socket.C131_exhausts",
    "Zpl.Socket.C131_first_address_only",
    "Zpl.Socket.C131_no_address",
    "Zpl.Socket.C131_receive_from_loses",
    "Zpl.Socket.C131_select",
    "Zpl.Socket.C131_multi_select",
    "Zpl.Socket.C131_select_overruns",
    "Zpl.Socket.C131_multi_select_overruns"
   ],
   "note": "Missing, and false: that a failed creation changes nothing after the socket was made, the addresses, and sockets from 1024 on (each proved). `listen`, `accept`, `send` and `recv` are plain calls of the system."
  },
  {
   "property": "C132",
   "status": "partial",
   "theorems": [
    "Zpl.Process.C132_created",
    "Zpl.Process.C132_destroy_partial",
    "Zpl.Process.C132_terminate_partial",
    "Zpl.Process.C132_join_partial",
    "Zpl.Process.C132_join_closes_twice",
    "Zpl.Process.C132_output_never_ends",
    "Zpl.Process.C132_files_unusable",
    "Zpl.Process.C132_failed_create_leaks",
    "Zpl.Process.C132_no_pipe_asserts",
    "Zpl.Process.C132_arguments_partial",
    "Zpl.Process.C132_environment_merged",
    "Zpl.Process.C132_environment_unterminated"
   ],
   "note": "Missing, and false: joining with the input open, giving back the ends of the pipes, blanks in arguments, given environments (each proved). Only Windows has an implementation; quotes in arguments are not covered by the specification."
  },
  {
   "property": "C133",
   "status": "proved",
   "theorems": [
    "Zpl.Command.C133_get",
    "Zpl.Command.C133_get_str",
    "Zpl.Command.C133_bad_name_ignored",
    "Zpl.Command.C133_command",
    "Zpl.Command.C133_command_unterminated",
    "Zpl.Command.C133_command_cut",
    "Zpl.Command.C133_command_str",
    "Zpl.Command.C133_command_str_exact"
   ],
   "note": "The Unix variant; the C library functions are modelled by their documented behaviour."
  },
  {
   "property": "C134",
   "status": "partial",
   "theorems": [
    "Zpl.Atomic.C134_atomic",
    "Zpl.Atomic.C134_program_order",
    "Zpl.Atomic.C134_lock_free",
    "Zpl.Atomic.C134_counter",
    "Zpl.Atomic.C134_returns_flag"
   ],
   "note": "Missing, and false: the value returned by compare-and-exchange on other machines (proved). Sequentially consistent memory; 64-bit reads on 32-bit machines are one step; the unlocked 64-bit store of 32-bit machines is not modelled."
  },
  {
   "property": "C135",
   "status": "partial",
   "theorems": [
    "Zpl.Affinity.C135_windows_init",
    "Zpl.Affinity.C135_windows_set_partial",
    "Zpl.Affinity.C135_windows_distinct",
    "Zpl.Affinity.C135_windows_negative",
    "Zpl.Affinity.C135_mac",
    "Zpl.Affinity.C135_mac_negative",
    "Zpl.Affinity.C135_linux_init",
    "Zpl.Affinity.C135_linux_set_ignored",
    "Zpl.Affinity.C135_mac_default",
    "Zpl.Affinity.C135_thread_count"
   ],
   "note": "Missing, and false: setting the affinity on Linux, and negative numbers (each proved)."
  },
  {
   "property": "C136",
   "status": "partial",
   "theorems": [
    "Zpl.Json.C136_ends_partial",
    "Zpl.Json.C136_parse_ends",
    "Zpl.Json.C136_cut_reads_outside",
    "Zpl.Json.C136_comment_to_the_end",
    "Zpl.Json.C136_missing_value_accepted"
   ],
   "note": "Proved: it comes to an end, for every text. Missing, and false: staying inside the text (proved for all documents that are cut off) and refusing what is no document."
  },
  {
   "property": "C137",
   "status": "partial",
   "theorems": [
    "Zpl.Csv.C137_any_text",
    "Zpl.Csv.C137_header_partial",
    "Zpl.Csv.C137_ends",
    "Zpl.Csv.C137_growing_rows"
   ],
   "note": "Proved: for every text it comes to an end, and any failure is one of the number reader or a number used as a header. Missing, and false: equal numbers of cells in all columns."
  },
  {
   "property": "C138",
   "status": "partial",
   "theorems": [
    "Zpl.UriDoc.C138_any_spelling_partial",
    "Zpl.UriDoc.C138_parse_ends",
    "Zpl.UriDoc.C138_ends",
    "Zpl.UriDoc.C138_nul_kept",
    "Zpl.UriDoc.C113_cut_escape"
   ],
   "note": "Proved for the parameters that C113 calls Ok (texts not taken for numbers, integers, flags). Missing, and false: an escaped NUL, and texts that end within an escape."
  },
  {
   "property": "C139",
   "status": "partial",
   "theorems": [
    "Zpl.Tar.C139_folder_partial",
    "Zpl.Tar.C139_subfolder_fails"
   ],
   "note": "Proved for folders that hold only files, with paths of at most 12 characters (C52). Missing, and false: folders in the folder, longer paths."
  },
  {
   "property": "C140",
   "status": "partial",
   "theorems": [
    "Zpl.Arena.C140_nested_partial",
    "Zpl.Arena.C140_contents_partial",
    "Zpl.Arena.C140_check",
    "Zpl.Arena.C140_free",
    "Zpl.Arena.C140_no_room"
   ],
   "note": "Proved when the parent has room, for one alignment of at most 16 in the child and the default alignment in the parent. Missing, and false: mixed alignments (C16) and a parent without room."
  },
  {
   "property": "C141",
   "status": "partial",
   "theorems": [
    "Zpl.Adt.C141_all_freed_partial",
    "Zpl.Adt.C141_removed_lost",
    "Zpl.Adt.C141_overwritten_lost",
    "Zpl.Adt.C141_once"
   ],
   "note": "Proved for histories in which nodes with children are neither removed nor overwritten; for the others it is false. Moves and swaps are part of the histories, except those of a node into itself or with a node inside it, which make a cycle."
  },
  {
   "property": "C142",
   "status": "partial",
   "theorems": [
    "Zpl.Random.C142_range_partial",
    "Zpl.Random.C142_lower_partial",
    "Zpl.Random.C142_above",
    "Zpl.Random.C142_overflow"
   ],
   "note": "Proved for limits whose distance is a double; the lower limit, and a bound on the excess, for every distance in range. The rest is false of the code."
  },
  {
   "property": "C143",
   "status": "proved",
   "theorems": [
    "Zpl.DirFree.C143_all_freed",
    "Zpl.DirFree.C143_step",
    "Zpl.DirFree.C143_close",
    "Zpl.DirFree.C143_refresh",
    "Zpl.DirFree.C143_once"
   ],
   "note": "Allocation is assumed to succeed."
  },
  {
   "property": "C144",
   "status": "partial",
   "theorems": [
    "Zpl.FullName.C144_missing",
    "Zpl.FullName.C144_heap_partial",
    "Zpl.FullName.C144_arena_leak",
    "Zpl.FullName.C144_pool_mixed"
   ],
   "note": "For paths that exist, proved for the heap allocator without analysis; for arenas and pools it is false. The Windows branch is C164."
  },
  {
   "property": "C145",
   "status": "partial",
   "theorems": [
    "Zpl.MathF.C145_ends",
    "Zpl.MathF.C145_error",
    "Zpl.MathF.C145_order",
    "Zpl.MathF.C145_not_between",
    "Zpl.MathF.C145_goes_back",
    "Zpl.MathF.C145_unlerp",
    "Zpl.MathF.C145_smooth",
    "Zpl.MathF.C145_smooth_course",
    "Zpl.MathF.C145_smooth_goes_back",
    "Zpl.MathF.C145_smoother_course",
    "Zpl.MathF.C145_smoother_over",
    "Zpl.MathF.C145_unlerp_overflow",
    "Zpl.MathF.C145_vec_start",
    "Zpl.MathF.C145_vec_nan",
    "Zpl.MathF.C145_vec_end_partial",
    "Zpl.MathF.C145_vec_miss",
    "Zpl.MathF.C145_vec_error"
   ],
   "note": "Ends of zpl_lerp, error bounds and the course of zpl_unlerp are proved. That values stay between the ends, that they never go back and that vectors reach their end are false, as proved. The smooth steps are proved at their ends and within error bounds on the whole way, zpl_smooth_step also between 0 and 1; that zpl_smoother_step stays there and that they never go back is false, as proved. The operations are assumed to round to float each (FLT_EVAL_METHOD 0)."
  },
  {
   "property": "C146",
   "status": "partial",
   "theorems": [
    "Zpl.RoundF.C146_floor",
    "Zpl.RoundF.C146_floor_negative_partial",
    "Zpl.RoundF.C146_floor_off_by_one",
    "Zpl.RoundF.C146_floor_whole",
    "Zpl.RoundF.C146_floor_misses",
    "Zpl.RoundF.C146_ceil_partial",
    "Zpl.RoundF.C146_ceil_whole",
    "Zpl.RoundF.C146_round_partial",
    "Zpl.RoundF.C146_round_misses",
    "Zpl.RoundF.C146_floor64_whole",
    "Zpl.RoundF.C146_ceil64_whole",
    "Zpl.RoundD.C146_floor64",
    "Zpl.RoundD.C146_floor64_negative_partial",
    "Zpl.RoundD.C146_floor64_large",
    "Zpl.RoundD.C146_floor64_tiny",
    "Zpl.RoundD.C146_ceil64_partial",
    "Zpl.RoundD.C146_round64_partial",
    "Zpl.RoundD.C146_round64_misses",
    "Zpl.RoundD.C146_floor64_band",
    "Zpl.RoundD.C146_ceil64_band",
    "Zpl.RoundD.C146_ceil64_last",
    "Zpl.RoundD.C146_ceil64_large"
   ],
   "note": "zpl_round is settled for all numbers up to 2^30 and zpl_round64 up to 2^62; zpl_floor of non-negative numbers and zpl_ceil in full; zpl_floor of negative numbers is at most one too low. zpl_floor64 and zpl_ceil64 are settled for every number of their range."
  },
  {
   "property": "C147",
   "status": "partial",
   "theorems": [
    "Zpl.LengthF.C147_mag",
    "Zpl.LengthF.C147_norm_partial",
    "Zpl.LengthF.C147_norm0_partial",
    "Zpl.LengthF.C147_too_large",
    "Zpl.LengthF.C147_too_small"
   ],
   "note": "Between the limits of the theorems and those of the counterexamples (2^62 to 2^64, 2^-75 to 2^-60) nothing is proved."
  },
  {
   "property": "C148",
   "status": "partial",
   "theorems": [
    "Zpl.JsonMem.C148_same_document",
    "Zpl.JsonMem.C148_accepted_freed",
    "Zpl.JsonMem.C148_refused_safe",
    "Zpl.JsonMem.C148_refused_leaks"
   ],
   "note": "Proved for accepted texts, with any pattern of failing allocations; for refused texts freeing is safe but incomplete, as proved."
  },
  {
   "property": "C149",
   "status": "partial",
   "theorems": [
    "Zpl.JsonMem.C149_remove_partial",
    "Zpl.JsonMem.C149_top_nodes",
    "Zpl.JsonMem.C149_dangling_parent"
   ],
   "note": "The three theorems settle every node: it can be removed unless it lies directly below the root or its parent was moved."
  },
  {
   "property": "C150",
   "status": "proved",
   "theorems": [
    "Zpl.ParserMem.C150_table_freed",
    "Zpl.ParserMem.C150_same_table",
    "Zpl.ParserMem.C150_uri_freed",
    "Zpl.ParserMem.C150_same_uri",
    "Zpl.ParserMem.C150_table_room",
    "Zpl.ParserMem.C150_uri_room"
   ],
   "note": ""
  },
  {
   "property": "C151",
   "status": "partial",
   "theorems": [
    "Zpl.ParserMem.C151_json_partial",
    "Zpl.ParserMem.C151_csv_crash",
    "Zpl.ParserMem.C151_csv_cells_lost",
    "Zpl.ParserMem.C151_uri"
   ],
   "note": "Proved for JSON; for CSV and URIs it is false, as proved."
  },
  {
   "property": "C152",
   "status": "partial",
   "theorems": [
    "Zpl.Backed.C152_pool",
    "Zpl.Backed.C152_pool_made",
    "Zpl.Backed.C152_pool_refused",
    "Zpl.Backed.C152_stack",
    "Zpl.Backed.C152_stack_refused",
    "Zpl.Backed.C152_rel"
   ],
   "note": "Proved while there is memory; that a refusal is noticed is false, as proved. Stacks that outgrow their memory are not covered (C19_growth_size)."
  },
  {
   "property": "C153",
   "status": "partial",
   "theorems": [
    "Zpl.Backed.C153_in_use",
    "Zpl.Backed.C153_held_partial",
    "Zpl.Backed.C153_free_bytes"
   ],
   "note": "Held blocks are in use and nothing is when none is held or outside; that free bytes are not in use is false, as proved."
  },
  {
   "property": "C154",
   "status": "partial",
   "theorems": [
    "Zpl.Backed.C154_copy"
   ],
   "note": "Proved except for a refused allocation with the heap analysis, where it is false (the third case of the theorem)."
  },
  {
   "property": "C155",
   "status": "proved",
   "theorems": [
    "Zpl.MatF.C155_mul4",
    "Zpl.MatF.C155_mul3",
    "Zpl.MatF.C155_mul2",
    "Zpl.MatF.C155_vec4",
    "Zpl.MatF.C155_dot4",
    "Zpl.MatF.C155_dot3",
    "Zpl.MatF.C155_cross",
    "Zpl.MatF.C155_quat",
    "Zpl.MatF.C155_rotate",
    "Zpl.MatF.C155_whole",
    "Zpl.MatF.C155_identity",
    "Zpl.MatF.C155_transpose",
    "Zpl.MatF.C155_not_associative",
    "Zpl.MatF.C155_determinant",
    "Zpl.MatF.C155_too_large"
   ],
   "note": "The exact results are those of Mathlib matrices and quaternions. The compiler is assumed not to fuse products and sums. What single precision does not give is proved too: products of three matrices depend on the order, and determinants can vanish."
  },
  {
   "property": "C156",
   "status": "partial",
   "theorems": [
    "Zpl.RectF.C156_partition",
    "Zpl.RectF.C156_contains",
    "Zpl.RectF.C156_intersects",
    "Zpl.RectF.C156_tiles",
    "Zpl.RectF.C156_intersection_partial",
    "Zpl.RectF.C156_round_trip_partial",
    "Zpl.RectF.C156_intersection_lost",
    "Zpl.RectF.C156_box_lost",
    "Zpl.RectF.C156_empty_strip"
   ],
   "note": "Proved for all finite numbers (rectangles: up to 2^126) except for the intersection returned and for the conversions, which are false in single precision, as proved, and proved for whole numbers below 2^22 and 2^23."
  },
  {
   "property": "C157",
   "status": "partial",
   "theorems": [
    "Zpl.Sem.C157_exclusive_partial",
    "Zpl.Sem.C157_granted",
    "Zpl.Sem.C157_semaphore",
    "Zpl.Sem.C157_post",
    "Zpl.Sem.C157_wait",
    "Zpl.Sem.C157_no_common_reading",
    "Zpl.Sem.C157_posix_two_inside",
    "Zpl.Sem.C157_posix_lost",
    "Zpl.Sem.C157_init_result",
    "Zpl.Sem.C157_post_lost",
    "Zpl.Sem.C157_post_least",
    "Zpl.SemOther.C157_windows_semaphore",
    "Zpl.SemOther.C157_other_wait",
    "Zpl.SemOther.C157_windows_post_lost",
    "Zpl.SemOther.C157_mac_post",
    "Zpl.SemOther.C157_mac_wait_aborted"
   ],
   "note": "Proved for all schedules if the result of zpl_mutex_try_lock is read as each system means it; that one reading serves both systems is false, as proved. Semaphores of Windows: the balance holds while all that is put in stays below 2^31; macOS: false when a wait is aborted."
  },
  {
   "property": "C158",
   "status": "proved",
   "theorems": [
    "Zpl.Drift.C158_drift",
    "Zpl.Drift.C158_linear",
    "Zpl.Drift.C158_units"
   ],
   "note": "C158_units says why lengths other than one are allowed: of the quaternions of single precision only 24 have length one exactly."
  },
  {
   "property": "C159",
   "status": "partial",
   "theorems": [
    "Zpl.Compare.C159_compare",
    "Zpl.Compare.C159_sort_partial",
    "Zpl.Compare.C159_search",
    "Zpl.Compare.C159_kinds",
    "Zpl.Compare.C159_texts",
    "Zpl.Compare.C159_kept",
    "Zpl.Compare.C159_nan"
   ],
   "note": "Proved for records without NaN and comparison functions used before the next one of the same type is asked for; the rest is false, as proved. Lengths up to 2^35 (as in C33)."
  },
  {
   "property": "C160",
   "status": "partial",
   "theorems": [
    "Zpl.Tso.C160_order",
    "Zpl.Tso.C160_own",
    "Zpl.Tso.C160_message",
    "Zpl.Tso.C160_fence_partial",
    "Zpl.Tso.C160_nobody_seen",
    "Zpl.Tso.C160_store64"
   ],
   "note": "Order and handing over are proved for all systems on x86, the fence for GCC-compatible compilers on Linux and macOS; on Windows it is false, as proved, and so is the store of 64 bits on 32-bit machines. The compiler is assumed to keep the order of the accesses; processors other than x86 (where zpl_mfence is empty on Linux) are not modelled."
  },
  {
   "property": "C161",
   "status": "partial",
   "theorems": [
    "Zpl.EnvWin.C161_to_ucs2",
    "Zpl.EnvWin.C161_to_utf8",
    "Zpl.EnvWin.C161_overwritten",
    "Zpl.EnvWin.C161_get_partial",
    "Zpl.EnvWin.C161_missing",
    "Zpl.EnvWin.C161_get_long",
    "Zpl.EnvWin.C161_empty",
    "Zpl.EnvWin.C161_set_get_partial",
    "Zpl.EnvWin.C161_unset",
    "Zpl.EnvWin.C161_set_get_differs"
   ],
   "note": "Reading is proved for all variables that are not empty and need at most 32766 bytes of UTF-8, setting and reading for plain ASCII; outside these the property is false of the code, as proved."
  },
  {
   "property": "C162",
   "status": "partial",
   "theorems": [
    "Zpl.SaveLoad.C162_save",
    "Zpl.SaveLoad.C162_load",
    "Zpl.SaveLoad.C162_json_partial",
    "Zpl.SaveLoad.C162_csv_partial",
    "Zpl.SaveLoad.C162_full_disk",
    "Zpl.SaveLoad.C162_refused",
    "Zpl.SaveLoad.C162_error_reported",
    "Zpl.SaveLoad.C162_error_unnoticed"
   ],
   "note": "Proved for the documents C49 and C50 cover; on a full disk the program is not told, as proved."
  },
  {
   "property": "C163",
   "status": "partial",
   "theorems": [
    "Zpl.FileWin.C163_history",
    "Zpl.FileWin.C163_same_as_posix",
    "Zpl.FileWin.C163_open",
    "Zpl.FileWin.C163_open_shared",
    "Zpl.FileWin.C163_open_fails",
    "Zpl.FileWin.C163_single_writer",
    "Zpl.FileWin.C163_no_interference",
    "Zpl.FileWin.C163_big_write",
    "Zpl.FileWin.C163_big_read",
    "Zpl.FileWin.C163_write_before_start",
    "Zpl.FileWin.C163_never_truncated",
    "Zpl.FileWin.C163_append_overwrites",
    "Zpl.FileWin.C163_close_failed",
    "Zpl.FileWin.C163_close"
   ],
   "note": "The history, opening and exclusion are proved; cutting never works, accesses at an offset move the cursor, large transfers are cut and appending can overwrite, as proved."
  },
  {
   "property": "C164",
   "status": "partial",
   "theorems": [
    "Zpl.WinPath.C164_listing_partial",
    "Zpl.WinPath.C164_alloc_ucs2",
    "Zpl.WinPath.C164_files",
    "Zpl.WinPath.C164_fix_slashes",
    "Zpl.WinPath.C164_listing_overrun",
    "Zpl.WinPath.C164_full_name_overrun",
    "Zpl.WinPath.C164_full_name_leak"
   ],
   "note": "Listing is proved for names that fit in 259 bytes and do not begin with two dots; the full name is refuted: it is always written over the end of its block."
  },
  {
   "property": "C165",
   "status": "partial",
   "theorems": [
    "Zpl.MkDir.C165_mkdir",
    "Zpl.MkDir.C165_mkdir_only",
    "Zpl.MkDir.C165_rmdir",
    "Zpl.MkDir.C165_mkdir_rmdir",
    "Zpl.MkDir.C165_recursive_partial",
    "Zpl.MkDir.C165_recursive_resumed",
    "Zpl.MkDir.C165_mkdir_no_parent",
    "Zpl.MkDir.C165_recursive_silent",
    "Zpl.MkDir.C165_recursive_long"
   ],
   "note": "Single calls for paths without `..` whose folders can be reached; the recursive function when nothing is in the way. That a failure of it is told is false, as proved."
  },
  {
   "property": "C166",
   "status": "partial",
   "theorems": [
    "Zpl.Seed.C166_differ",
    "Zpl.Seed.C166_made_partial",
    "Zpl.Seed.C166_noise",
    "Zpl.Seed.C166_noise_hangs",
    "Zpl.Seed.C166_hangs"
   ],
   "note": "Differing states for all clocks and orders; that it returns is proved if the clock passes no whole second between the two readings of a measurement, and refuted if it does. Clocks below 2^40 ms; the Linux variant."
  },
  {
   "property": "C167",
   "status": "proved",
   "theorems": [
    "Zpl.Adler.C167_one_byte",
    "Zpl.Adler.C167_swap",
    "Zpl.Adler.C167_same_rest",
    "Zpl.Adler.C167_unnoticed"
   ],
   "note": "Full statement, about the model of zpl_adler32 of C40."
  },
  {
   "property": "C168",
   "status": "partial",
   "theorems": [
    "Zpl.VmPages.C168_alloc_free",
    "Zpl.VmPages.C168_refused",
    "Zpl.VmPages.C168_trim_iff",
    "Zpl.VmPages.C168_purge",
    "Zpl.VmPages.C168_win_alloc",
    "Zpl.VmPages.C168_win_free_partial",
    "Zpl.VmPages.C168_win_free_refused",
    "Zpl.VmPages.C168_win_trim_partial",
    "Zpl.VmPages.C168_win_trim_lost",
    "Zpl.VmPages.C168_win_trim_moved",
    "Zpl.VmPages.C168_win_trim_null",
    "Zpl.VmPages.C168_purge_opposite"
   ],
   "note": "Allocation is proved for both systems, release for all blocks on POSIX and for blocks of whole pages on Windows; trimming on POSIX is settled by an equivalence. The rest is false of the code, as proved. The calls of the systems are modelled from their documentation."
  },
  {
   "property": "C169",
   "status": "partial",
   "theorems": [
    "Zpl.Regex.C169_optional_partial",
    "Zpl.Regex.C169_optional_absent",
    "Zpl.Regex.C169_optional_any",
    "Zpl.Regex.C169_optional_kept",
    "Zpl.Regex.C169_optional_alone",
    "Zpl.Regex.C169_optional_usual",
    "Zpl.Regex.C169_any_takes_one"
   ],
   "note": "Proved where the character is there and p follows it. False in the code elsewhere: failure is the offset -1, which passes the test for success."
  },
  {
   "property": "C170",
   "status": "partial",
   "theorems": [
    "Zpl.Regex.C170_lazy_partial",
    "Zpl.Regex.C170_lazy_takes_one",
    "Zpl.Regex.C170_lazy_nothing",
    "Zpl.Regex.C170_star_is_plus",
    "Zpl.Regex.C170_lazy_usual"
   ],
   "note": "Proved for one repetition. False in the code for none or more."
  },
  {
   "property": "C171",
   "status": "partial",
   "theorems": [
    "Zpl.Regex.C171_pairing_partial",
    "Zpl.Regex.C171_brackets_partial",
    "Zpl.Regex.C171_unclosed_accepted",
    "Zpl.Regex.C171_nothing_to_repeat",
    "Zpl.Regex.C171_group_refused",
    "Zpl.Regex.C171_set_unclosed",
    "Zpl.Regex.C171_group_not_repeated",
    "Zpl.Regex.C171_repeated_anchor",
    "Zpl.Regex.C171_long_set",
    "Zpl.Regex.C171_no_stray"
   ],
   "note": "The pairing of brackets for all patterns whose sets have at most 256 characters. False in full: an unclosed bracket is accepted when the pattern ends with ), and an unclosed set always."
  },
  {
   "property": "C172",
   "status": "partial",
   "theorems": [
    "Zpl.TimeOther.C172_windows_partial",
    "Zpl.TimeOther.C172_windows_overflow",
    "Zpl.TimeOther.C172_mac_partial",
    "Zpl.TimeOther.C172_mac_slow",
    "Zpl.TimeOther.C172_mac_stopped"
   ],
   "note": "Windows: while a thousand times the ticks fit in 63 bits. macOS: where a tick is a whole number of nanoseconds, for 104 days. False beyond."
  },
  {
   "property": "C173",
   "status": "partial",
   "theorems": [
    "Zpl.Regex.C173_count_partial",
    "Zpl.Regex.C173_short",
    "Zpl.Regex.C173_plain",
    "Zpl.Regex.C173_escaped",
    "Zpl.Regex.C173_wraps",
    "Zpl.Regex.C173_too_many",
    "Zpl.Regex.C173_long_set"
   ],
   "note": "All accepted patterns whose sets have at most 256 characters, so all of up to 258 characters (C173_short). False for longer sets: they are taken as if their [ did not stand there (C173_long_set). C173_wraps and C173_too_many: the numbers are kept in a byte, 257 groups are accepted and the 257th writes to the capture of the first."
  }
 ]
}
{
 "claims": [
  {
   "property": "C01",
   "status": "proved",
   "theorems": [
    "Verif.CBitset.bitset_history",
    "Verif.CBitset.bsiter_next",
    "Verif.CBitset.iterate_members",
    "Verif.CBitset.bscount_card",
    "Verif.CBitset.bseq_iff",
    "Verif.CBitset.bsisempty_iff",
    "Verif.CBitset.bsissubset_iff"
   ],
   "note": "All operations of util/bitset.c; a history theorem over an arbitrary bank of set variables plus observers. size_t overflow of chunk counts not modelled."
  },
  {
   "property": "C02",
   "status": "partial",
   "theorems": [
    "Verif.CHtab.htab_history_partial",
    "Verif.CHtab.htab_no_delete_partial",
    "Verif.CHtab.htab_total",
    "Verif.CHtab.htab_history_violated",
    "Verif.CHtab.htab_stale_value"
   ],
   "note": "The full claim is false (htab_history_violated, htab_stale_value: put stops at the first tombstone, duplicating a live key). Proved: full refinement for histories whose puts after the first delete are of absent keys, in particular all delete-free histories; safety and termination for all histories."
  },
  {
   "property": "C03",
   "status": "partial",
   "theorems": [
    "Verif.StdHtab.htab_history_partial",
    "Verif.StdHtab.htab_no_delete_partial",
    "Verif.StdHtab.htab_total",
    "Verif.StdHtab.htab_history_violated",
    "Verif.StdHtab.htab_count_violated"
   ],
   "note": "The full claim is false (htab_history_violated, htab_count_violated). Proved: full refinement for histories whose puts after the first delete are of absent keys; safety and termination for all histories."
  },
  {
   "property": "C04",
   "status": "partial",
   "theorems": [
    "Verif.StdBitset.bitset_history_partial",
    "Verif.StdBitset.bsintersect_exact",
    "Verif.StdBitset.bsintersect_violated",
    "Verif.StdBitset.changed_flags",
    "Verif.StdBitset.del_flag",
    "Verif.StdBitset.iterate_members",
    "Verif.StdBitset.bseq_iff",
    "Verif.StdBitset.bsissubset_iff",
    "Verif.StdBitset.bshash_congr"
   ],
   "note": "False for bsintersect when the left operand has more words than the right (witness {0,100} ∩ {0}); everything else proved for all histories, and bsintersect characterised exactly."
  },
  {
   "property": "C05",
   "status": "proved",
   "theorems": [
    "Verif.Utf.encode_utf8",
    "Verif.Utf.charstep_utf8",
    "Verif.Utf.encode_decode",
    "Verif.Utf.utf8_prefix_free"
   ],
   "note": "For all code points, buffers and trailing bytes; specification utf8 is the RFC 3629 table."
  },
  {
   "property": "C06",
   "status": "partial",
   "theorems": [
    "Verif.Utf.bychar_enc",
    "Verif.Utf.bycharoff_enc_partial",
    "Verif.Utf.bycharoff_violated"
   ],
   "note": "bychar proved; bycharoff reports where each character ends, not where it starts (refuted with the string \"a\", and characterised exactly)."
  },
  {
   "property": "C07",
   "status": "partial",
   "theorems": [
    "Verif.Str.strsplit_spec",
    "Verif.Str.strjoin_spec",
    "Verif.Str.split_join",
    "Verif.Str.bstrsplit_spec",
    "Verif.Str.cut_unique",
    "Verif.Str.bysplit_partial",
    "Verif.Str.bysplit_violated",
    "Verif.Str.strsplit_empty_delim"
   ],
   "note": "strsplit/strjoin/bstrsplit proved in full for non-empty delimiters; bysplit drops a final empty piece (refuted), proved equal to strsplit otherwise; an empty delimiter makes strsplit loop for ever (proved)"
  },
  {
   "property": "C08",
   "status": "proved",
   "theorems": [
    "Verif.Str.strfind_spec",
    "Verif.Str.strrfind_spec",
    "Verif.Str.strhas_iff"
   ],
   "note": "first/last occurrence and containment, all byte strings incl. empty ones"
  },
  {
   "property": "C09",
   "status": "proved",
   "theorems": [
    "Verif.Sort.sort_total",
    "Verif.Sort.sort_spec",
    "Verif.Sort.numcmp_preorder"
   ],
   "note": "any total preorder; sort_total: no abort for any comparison function"
  },
  {
   "property": "C10",
   "status": "proved",
   "theorems": [
    "Verif.Sort.lsearch_spec",
    "Verif.Sort.bsearch_total",
    "Verif.Sort.bsearch_spec",
    "Verif.Sort.sortedFor_numcmp"
   ],
   "note": ""
  },
  {
   "property": "C100",
   "status": "partial",
   "theorems": [
    "Verif.Round.scale2_up_partial",
    "Verif.Round.scale2_down_partial",
    "Verif.Round.scale2_violated",
    "Verif.Round.carry_violated",
    "Verif.Round.infinity_violated",
    "Verif.Round.wrap_violated"
   ],
   "note": "violated for denormal numbers divided by 2^64 and more, for quotients that round up to the least normal number, for infinities that are divided, and for exponents whose sum wraps. Proved for m in [0, 2^(w-2)) without other restrictions, and for negative m outside of the violations"
  },
  {
   "property": "C101",
   "status": "partial",
   "theorems": [
    "Verif.Conv.widen_exact",
    "Verif.Conv.widen_nan_partial",
    "Verif.Conv.narrow_partial",
    "Verif.Conv.widen_infinity_violated",
    "Verif.Conv.narrow_large_violated",
    "Verif.Conv.narrow_nan_violated"
   ],
   "note": "widening of finite numbers is proved exact and NaNs stay NaNs; narrowing is proved to round correctly for all numbers less than 2^1023. Violated: infinities are widened to NaNs, numbers from 2^1023 are narrowed to NaNs, NaNs are narrowed to infinities"
  },
  {
   "property": "C102",
   "status": "partial",
   "theorems": [
    "Verif.Fma.fma_partial",
    "Verif.Fma.fms_partial",
    "Verif.Fma.fma_large_partial",
    "Verif.Fma.fma_violated",
    "Verif.Fma.sticky_lost",
    "Verif.Fma.difference_of_equals_violated"
   ],
   "note": "proved for normal numbers: the exact sum, rounded once to 53 bits with ties to even, where product and addend have one sign, and the addend is at most as large as the product without bits below it, or at least twice as large with the product's bits at most 64 places below; and the exact difference where the signs differ and the addend is at most half of the product. Violated: bits of the addend below those of the product are dropped, which turns ties the wrong way; the difference of a product of a denormal number and its own value is not zero. Missing: differences with cancellation, larger addends of the other sign, denormal operands and results"
  },
  {
   "property": "C11",
   "status": "partial",
   "theorems": [
    "Verif.IntFmt.numeral_unique",
    "Verif.IntFmt.fmt_unsigned",
    "Verif.IntFmt.fmt_signed_partial",
    "Verif.IntFmt.hasprefix_iff",
    "Verif.IntFmt.charval_spec",
    "Verif.IntFmt.intparsebase_spec",
    "Verif.IntFmt.roundtrip_unsigned",
    "Verif.IntFmt.roundtrip_signed_partial",
    "Verif.IntFmt.roundtrip_min64",
    "Verif.IntFmt.fmt_min_violated",
    "Verif.IntFmt.fmt_base_violated",
    "Verif.IntFmt.intparse_decimal"
   ],
   "note": "bases 2-16; the least int64 is printed in decimal whatever the base and padding, and bases above 16 abort (both refuted)"
  },
  {
   "property": "C12",
   "status": "partial",
   "theorems": [
    "Verif.Endian.putbe_spec",
    "Verif.Endian.putle_spec",
    "Verif.Endian.puthost_spec",
    "Verif.Endian.getbe64_spec",
    "Verif.Endian.getle64_spec",
    "Verif.Endian.getbe32_spec",
    "Verif.Endian.getle32_spec",
    "Verif.Endian.getbe16_spec",
    "Verif.Endian.getle16_spec",
    "Verif.Endian.get8_spec",
    "Verif.Endian.gethost_spec",
    "Verif.Endian.gethost16_violated",
    "Verif.Endian.roundtrip64",
    "Verif.Endian.roundtrip32",
    "Verif.Endian.roundtrip16",
    "Verif.Endian.roundtripHost",
    "Verif.Endian.hosttonet_bit",
    "Verif.Endian.net_host"
   ],
   "note": "everything but gethost16, which copies four bytes into a two byte variable (refuted)"
  },
  {
   "property": "C13",
   "status": "partial",
   "theorems": [
    "Verif.Bigint.bigadd_exact",
    "Verif.Bigint.bigsub_exact",
    "Verif.Bigint.bigmul_exact_partial",
    "Verif.Bigint.bigmul_violated"
   ],
   "note": "sums and differences proved for all integers. Products refuted: (2^4064+1)*(5*2^2016+1) is wrong (untrimmed half in kmul); proved when an operand has fewer than 64 digits, or for one level of Karatsuba with tight halves"
  },
  {
   "property": "C14",
   "status": "partial",
   "theorems": [
    "Verif.Bigint.bigdivmod_partial",
    "Verif.Bigint.bigdivmod_zero",
    "Verif.Bigint.bigdivmod_violated"
   ],
   "note": "refuted: -7 / 2 leaves remainder 1 (divisor of one digit). Proved: the quotient for all integers; the identity for non-negative dividends, divisors of two digits or more, exact divisions; zero divisor aborts"
  },
  {
   "property": "C15",
   "status": "partial",
   "theorems": [
    "Verif.Bigint.mkbigint_unsigned",
    "Verif.Bigint.mkbigint_signed_partial",
    "Verif.Bigint.mkbigint_signed_violated",
    "Verif.Bigint.machine_operands",
    "Verif.Bigint.bigaddi_exact",
    "Verif.Bigint.bigmuli_exact",
    "Verif.Bigint.bigdivi_exact",
    "Verif.Bigint.bigfrombytes_partial",
    "Verif.Bigint.bigfrombytes_violated",
    "Verif.Bigint.bigcmp_order",
    "Verif.Bigint.bigeq_iff",
    "Verif.Bigint.bigshli_exact",
    "Verif.Bigint.bigshri_exact",
    "Verif.Bigint.bigshl_exact",
    "Verif.Bigint.bigbfmt_text",
    "Verif.Bigint.fmt_buffer",
    "Verif.Bigint.bigparse_prefix",
    "Verif.Bigint.bigparse_decimal",
    "Verif.Bigint.bigparse_text",
    "Verif.Bigint.bigparse_text_prefix"
   ],
   "note": "refuted: mkbigint of the least int8/int16/int32; bigfrombytes of four bytes or more. Proved: all the rest for all integers, shifts, texts and bases"
  },
  {
   "property": "C16",
   "status": "proved",
   "theorems": [
    "Verif.Sip.siphash24_spec"
   ],
   "note": ""
  },
  {
   "property": "C17",
   "status": "partial",
   "theorems": [
    "Verif.Alloc.sound_partial",
    "Verif.Alloc.alloc_total_partial",
    "Verif.Alloc.free_total",
    "Verif.Alloc.contents_kept",
    "Verif.Alloc.zeroed",
    "Verif.Alloc.sound_violated"
   ],
   "note": "refuted when the system has no memory: a large request returns the negated error number as an address. Proved for all histories in which the system has the memory asked for: live blocks disjoint, aligned, mapped, contents kept; requests and frees never fail"
  },
  {
   "property": "C18",
   "status": "proved",
   "theorems": [
    "Verif.Alloc.size_classes",
    "Verif.Alloc.large_classes"
   ],
   "note": ""
  },
  {
   "property": "C19",
   "status": "proved",
   "theorems": [
    "Verif.Thread.Mutex.mutex_exclusion",
    "Verif.Thread.Mutex.mutex_right_use_lives",
    "Verif.Thread.Mutex.mutex_wrong_use_caught",
    "Verif.Thread.Spin.Mutex.spin_mutex_exclusion",
    "Verif.Thread.Spin.Mutex.spin_mutex_takes"
   ],
   "note": "futex mutex (also through condition variables and spurious wake-ups, wrong unlocks kill the process) and spin mutex (precondition: unlock by the holder); sequentially consistent memory"
  },
  {
   "property": "C20",
   "status": "proved",
   "theorems": [
    "Verif.Thread.Mutex.mutex_no_lost_wakeup",
    "Verif.Thread.Mutex.mutex_no_deadlock",
    "Verif.Thread.Mutex.can_go"
   ],
   "note": "any number of threads and schedules; also with condition variables and requeued waiters"
  },
  {
   "property": "C21",
   "status": "proved",
   "theorems": [
    "Verif.Thread.Rwlock.rw_exclusion",
    "Verif.Thread.Rwlock.rw_free_again",
    "Verif.Thread.Rwlock.rw_can_go",
    "Verif.Thread.Rwlock.rw_dies_only",
    "Verif.Thread.Rwlock.rw_wrong_use_caught",
    "Verif.Thread.SpinRw.spin_rw_exclusion",
    "Verif.Thread.SpinRw.spin_rw_free_again",
    "Verif.Thread.SpinRw.spin_rw_reader_enters"
   ],
   "note": "futex and generic locks; precondition: rdunlock only with a read lock (generic lock: also wrunlock only with the write lock, less than 2^32 readers)"
  },
  {
   "property": "C22",
   "status": "proved",
   "theorems": [
    "Verif.Thread.Sem.sem_bounded",
    "Verif.Thread.Sem.sem_conserved",
    "Verif.Thread.Sem.sem_no_lost_wakeup",
    "Verif.Thread.Spin.Sem.spin_sem_bounded",
    "Verif.Thread.Spin.Sem.spin_sem_conserved"
   ],
   "note": "futex and generic semaphores; conservation as long as no post passes the maximum (then the process dies)"
  },
  {
   "property": "C23",
   "status": "proved",
   "theorems": [
    "Verif.Thread.Queue.queue_memory_safe",
    "Verif.Thread.Queue.queue_fifo",
    "Verif.Thread.Queue.queue_returns",
    "Verif.Thread.Queue.queue_no_lost_wakeup",
    "Verif.Thread.Queue.queue_no_deadlock"
   ],
   "note": "any number of producers and consumers; mutex abstract (C19, C20), condition variable in full; wake-ups for less than 2^32 puts"
  },
  {
   "property": "C24",
   "status": "proved",
   "theorems": [
    "Verif.Thread.Waitgrp.wg_releases_after",
    "Verif.Thread.Waitgrp.wg_no_lost_wakeup",
    "Verif.Thread.Waitgrp.wg_dies_only"
   ],
   "note": "both variants, any number of threads"
  },
  {
   "property": "C25",
   "status": "partial",
   "theorems": [
    "Verif.Json.parse_total",
    "Verif.Json.parse_depth",
    "Verif.Json.parse_reads_partial",
    "Verif.Json.rejects_partial",
    "Verif.Json.format_round_partial",
    "Verif.Json.reads_violated",
    "Verif.Json.readsPlain_violated",
    "Verif.Json.rejects_violated",
    "Verif.Json.roundtrip_violated"
   ],
   "note": "violated: \\u escapes, empty siblings counted as depth, trailing comma in objects, quotes not escaped; the partial theorems hold for texts without them, numbers being abstract"
  },
  {
   "property": "C26",
   "status": "partial",
   "theorems": [
    "Verif.Ini.puts_by_hash",
    "Verif.Ini.puts_get_partial",
    "Verif.Ini.map_violated",
    "Verif.Ini.diagonal_violated",
    "Verif.Ini.load_by_hash",
    "Verif.Ini.load_partial",
    "Verif.Ini.load_violated",
    "Verif.Ini.round_trip_partial",
    "Verif.Ini.round_trip_violated",
    "Verif.Ini.write_reported_violated"
   ],
   "note": "violated for every hash of strings: get(\"b\",\"a\") finds what was put for (\"a\",\"b\"), a valid file is rejected with Dupkey, values with a semicolon are cut, a failed last flush is not reported; the partial theorems hold for pairs whose hashes differ and strings that fit the format"
  },
  {
   "property": "C27",
   "status": "proved",
   "theorems": [
    "Verif.Flate.window_refines",
    "Verif.Flate.copyBack_means"
   ],
   "note": "from the initial window, after any literals and references; distances before the start of the output are errors"
  },
  {
   "property": "C28",
   "status": "proved",
   "theorems": [
    "Verif.Flate.huffman_decodes",
    "Verif.Flate.huffman_sound"
   ],
   "note": "for all lengths up to 15 that satisfy Kraft's inequality, complete or not; and conversely a symbol is read only where its code stands"
  },
  {
   "property": "C29",
   "status": "partial",
   "theorems": [
    "Verif.Date.instant_date_partial",
    "Verif.Date.instant_roundtrip_partial",
    "Verif.Date.fields_roundtrip_partial",
    "Verif.Date.isleap_leap",
    "Verif.Date.wday_violated",
    "Verif.Date.bce_violated",
    "Verif.Date.bce_collision",
    "Verif.Date.bce_abort"
   ],
   "note": "proved from 1 January of year 1 to the year 287562; refuted before year 1 (truncating division, no year 0, a bounds check stops the program) and for weekdays before 28 December 1969"
  },
  {
   "property": "C30",
   "status": "proved",
   "theorems": [
    "Verif.Esc.shfmt_word",
    "Verif.Esc.shfmt_glue",
    "Verif.Esc.shfmt_line"
   ],
   "note": "specification: a reader of POSIX shell words; any following text that ends the word; whole command lines"
  },
  {
   "property": "C31",
   "status": "partial",
   "theorems": [
    "Verif.Esc.htmlfmt_round",
    "Verif.Esc.htmlfmt_safe",
    "Verif.Esc.urlfmt_round",
    "Verif.Regex.re_escapes_violated",
    "Verif.Regex.re_escapes_partial"
   ],
   "note": "HTML text: round trip for valid UTF-8, no < > / for any bytes; quotes are not escaped, so attribute values are not covered; URLs: proved for all bytes; regular expressions: refuted (backslash becomes a pattern for a dot; escaped | [ ] ( do not compile), proved for texts without | [ ] ( \\ and characters from U+10000 on"
  },
  {
   "property": "C32",
   "status": "proved",
   "theorems": [
    "Verif.Path.pathnorm_spec",
    "Verif.Path.denote_render",
    "Verif.Path.pathnorm_same",
    "Verif.Path.pathnorm_eq_iff",
    "Verif.Path.pathnorm_idem",
    "Verif.Path.pathnorm_shape",
    "Verif.Path.pathjoin_spec",
    "Verif.Path.pathabs_spec"
   ],
   "note": "pathabs: for an absolute result of getcwd"
  },
  {
   "property": "C33",
   "status": "partial",
   "theorems": [
    "Verif.Iter.byperm_partial",
    "Verif.Iter.byperm_violated",
    "Verif.Iter.step_spec"
   ],
   "note": "all non-empty slices under any total order; the empty slice aborts (refuted)"
  },
  {
   "property": "C34",
   "status": "partial",
   "theorems": [
    "Verif.Match.first_match_violated",
    "Verif.Match.first_match_const_violated",
    "Verif.Match.first_match_capture_violated",
    "Verif.Match.first_match_partial"
   ],
   "note": "refuted: alternatives inside an aggregate lose what follows them; path clash between constants and tuples; variables of or-patterns may not be assigned. Proved for all well-typed patterns in which only gaps follow alternatives in an aggregate and constants are strings or unions"
  },
  {
   "property": "C35",
   "status": "partial",
   "theorems": [
    "Verif.Match.exhaustive_violated",
    "Verif.Match.exhaustive_partial",
    "Verif.Match.linear_match_partial",
    "Verif.Match.wild_exhaustive"
   ],
   "note": "refuted: (true,_), (_,true) is accepted. Proved for patterns without tuples/arrays/structs/strings/constants, and trivially with a catch-all arm"
  },
  {
   "property": "C36",
   "status": "partial",
   "theorems": [
    "Verif.Fold.fold_drops_call_violated",
    "Verif.Fold.fold_div_violated",
    "Verif.Fold.fold_shr_violated",
    "Verif.Fold.fold_cast_violated",
    "Verif.Fold.fold_overflow_violated",
    "Verif.Fold.fold_div_min_violated",
    "Verif.Fold.fold_shl_violated",
    "Verif.Fold.fold_retypes_constant_violated",
    "Verif.Fold.fold_array_violated",
    "Verif.Fold.fold_preserves_partial",
    "Verif.Fold.fold_constant_partial",
    "Verif.Fold.fold_const_preserves_partial",
    "Verif.Fold.fold_array_partial"
   ],
   "note": "integer expressions of all widths. Refuted: `0 * f()` drops the call; folded division, right shift and casts work on 64-bit values out of the range of the type; compiler overflow; folding a cast retypes a named constant. Proved for expressions which fit (no 64-bit overflow, operands of / % >> and casts in range, shift amounts below the width, dropped operands without calls); missing: casts of named constants, one constant in two array elements, floats, tags and tuples"
  },
  {
   "property": "C37",
   "status": "proved",
   "theorems": [
    "Verif.Layout.size_dvd",
    "Verif.Layout.struct_layout",
    "Verif.Layout.tuple_layout",
    "Verif.Layout.union_layout",
    "Verif.Layout.array_layout",
    "Verif.Layout.static_size",
    "Verif.Layout.static_tuple",
    "Verif.Layout.static_struct",
    "Verif.Layout.static_union",
    "Verif.Layout.align64_eq"
   ],
   "note": "static array initialisers nested in aggregates are required to give their last element (see C38)"
  },
  {
   "property": "C38",
   "status": "partial",
   "theorems": [
    "Verif.Layout.array_init_violated",
    "Verif.Layout.array_init_partial"
   ],
   "note": "refuted: trailing elements left out are not emitted and a gap of exactly one element is not padded; proved when the last element is given and no gap is one element long"
  },
  {
   "property": "C39",
   "status": "partial",
   "theorems": [
    "Verif.Ra.liveness_violated",
    "Verif.Ra.liveness_partial"
   ],
   "note": "refuted: a function whose body is an endless loop with a test that reads no register loses live registers, since the loop only watches the live-out sets; proved exact when a block which reads a register first is entered by a forward edge, and the loop always ends"
  },
  {
   "property": "C40",
   "status": "partial",
   "theorems": [
    "Verif.Flow.reaching_violated",
    "Verif.Flow.reaching_exact_partial",
    "Verif.Flow.reaching_sound",
    "Verif.Flow.reaching_ends"
   ],
   "note": "refuted for declaration 0: an assignment to something that is not a variable counts as an assignment to declaration 0; proved exact for all other declarations, on every graph mkcfg builds; the loop ends"
  },
  {
   "property": "C41",
   "status": "partial",
   "theorems": [
    "Verif.Flow.undef_increment_violated",
    "Verif.Flow.undef_store_violated",
    "Verif.Flow.undef_rejected_partial",
    "Verif.Flow.reject_reason",
    "Verif.Flow.check_total"
   ],
   "note": "refuted: `var x; x = x + 1` and `var p; p# = 1` are accepted; proved: a read of an undefined variable outside the assigned place, in a statement which does not itself assign the variable, is rejected; every rejection names an undefined use on a path of the graph"
  },
  {
   "property": "C42",
   "status": "proved",
   "theorems": [
    "Verif.Flow.no_fall_off",
    "Verif.Flow.check_total"
   ],
   "note": "preconditions: labels are unique and the body has a return statement (a function without one is of type void, parse/infer.c:1926-1928)"
  },
  {
   "property": "C43",
   "status": "partial",
   "theorems": [
    "Verif.Ra.colour_violated",
    "Verif.Ra.colour_partial"
   ],
   "note": "refuted: values copied to %eax and from %ah may interfere and are still merged with both; proved when the high byte registers take part only with the rest of their family. Missing: that the allocator ends without failed assertions; the rewriting after a spill"
  },
  {
   "property": "C44",
   "status": "partial",
   "theorems": [
    "Verif.Use.pack_roundtrip_partial",
    "Verif.Use.pack_violated",
    "Verif.Use.int_readback"
   ],
   "note": "integers outside the signed 32-bit range are truncated; strings must not contain zero bytes and be shorter than 2^31"
  },
  {
   "property": "C45",
   "status": "proved",
   "theorems": [
    "Verif.Tydesc.packed_roundtrip",
    "Verif.Tydesc.packed_prefix_free",
    "Verif.Tydesc.packed_length",
    "Verif.Tydesc.packed_size",
    "Verif.Tydesc.packed_size_dies",
    "Verif.Tydesc.getipacked_spins"
   ],
   "note": "numbers from 2^49 are packed correctly but make the size computation stop the compiler"
  },
  {
   "property": "C46",
   "status": "partial",
   "theorems": [
    "Verif.Rand.rngrand_unsigned",
    "Verif.Rand.rngrand_signed",
    "Verif.Rand.rngrandbytes_exact",
    "Verif.Rand.rngrandbytes_violated",
    "Verif.Rand.rngrandbytes_zeros",
    "Verif.Rand.rngrandbytes_partial"
   ],
   "note": "ranges proved for all types; buffers: only a prefix is filled (refuted beyond)"
  },
  {
   "property": "C47",
   "status": "partial",
   "theorems": [
    "Verif.Slice.strbuf_grow_partial",
    "Verif.Slice.strbuf_fixed_partial",
    "Verif.Slice.sbtrim_violated"
   ],
   "note": "all histories except those that trim more from the end than there is, where the length goes negative (refuted)"
  },
  {
   "property": "C48",
   "status": "partial",
   "theorems": [
    "Verif.Bio.reads_partial",
    "Verif.Bio.reads_accounted_partial",
    "Verif.Bio.getc_text",
    "Verif.Bio.stream_violated",
    "Verif.Bio.errors_violated",
    "Verif.Bio.int_round_trip"
   ],
   "note": "violated: readln swallows one byte too many after \\r followed by an overlong newline, and readto/readln lose what they had collected when the source fails; partial theorems for streams without that sequence, and an account of every byte for failing sources"
  },
  {
   "property": "C49",
   "status": "partial",
   "theorems": [
    "Verif.Bio.writes_partial",
    "Verif.Bio.writes_reported_partial",
    "Verif.Bio.reported_violated",
    "Verif.Bio.retry_duplicates",
    "Verif.Bio.int_round_trip"
   ],
   "note": "violated: a large write ignores the failure of the flush it starts with; exact for sinks that never fail, and reported for histories in which a write fits or follows a flush"
  },
  {
   "property": "C50",
   "status": "partial",
   "theorems": [
    "Verif.Regex.exec_ends_violated",
    "Verif.Regex.exec_ends_partial"
   ],
   "note": "refuted: (a*b*)* on the empty string never ends; proved, for every byte string, for patterns in which nothing that can match the empty string is repeated (no word boundaries, at most 15 groups, characters below U+10000)"
  },
  {
   "property": "C51",
   "status": "partial",
   "theorems": [
    "Verif.Regex.class_matches_violated",
    "Verif.Regex.class_matches_partial"
   ],
   "note": "refuted: [a-zb] does not match c; proved for ASCII items none of which lies strictly inside another one and characters below U+10000"
  },
  {
   "property": "C52",
   "status": "partial",
   "theorems": [
    "Verif.Crypto.chunks_violated",
    "Verif.Crypto.big_aborts",
    "Verif.Crypto.big_same",
    "Verif.Crypto.hash_chunks_partial",
    "Verif.Crypto.keccak_chunks"
   ],
   "note": "violated for MD5, SHA-1 and SHA-2: a piece of 2 GiB aborts, and all messages of 4 GiB in one piece have the same SHA-256; hash_chunks_partial: pieces of fewer than 2^31 bytes, no bound on the message; Keccak: all pieces, while the length fits the signed counter"
  },
  {
   "property": "C53",
   "status": "proved",
   "theorems": [
    "Verif.Flt.explode_denotes",
    "Verif.Flt.assem_explode",
    "Verif.Flt.explode_assem",
    "Verif.Flt.isnan_iff"
   ],
   "note": "flt64 and flt32; bit reinterpretation itself is trusted"
  },
  {
   "property": "C54",
   "status": "proved",
   "theorems": [
    "Verif.Slice.slgrow_spec",
    "Verif.Slice.slzgrow_spec",
    "Verif.Slice.slput_spec",
    "Verif.Slice.slput_abort",
    "Verif.Slice.sldel_spec",
    "Verif.Slice.slpush_spec",
    "Verif.Slice.slpop_spec",
    "Verif.Slice.sljoin_spec",
    "Verif.Slice.slfill_spec",
    "Verif.Slice.sleq_spec",
    "Verif.Mem.memblit_spec"
   ],
   "note": "the allocator is any function giving at least the asked size; overlap behaviour of slcp is memblit's (C62); precondition of sljoin: src not inside dst"
  },
  {
   "property": "C55",
   "status": "partial",
   "theorems": [
    "Verif.Ip.ip4_partial",
    "Verif.Ip.ip4_accepts",
    "Verif.Ip.ip4_violated",
    "Verif.Ip.ip6_full",
    "Verif.Ip.ip6_mid",
    "Verif.Ip.ip6_lead_partial",
    "Verif.Ip.ip6_accepts_partial",
    "Verif.Ip.ip6_violated",
    "Verif.Ip.ip6_accepts_too_much",
    "Verif.Ip.ipparse_spec"
   ],
   "note": "dotted quads accepted with their value, other dotted decimal texts rejected; well-formed IPv6 texts accepted except ::+7 groups; acceptance of ill-formed texts refuted"
  },
  {
   "property": "C56",
   "status": "partial",
   "theorems": [
    "Verif.Chartype.isnum_iff",
    "Verif.Chartype.isblank_iff",
    "Verif.Chartype.isspace_iff",
    "Verif.Chartype.cellwidth_spec",
    "Verif.Chartype.islower_partial",
    "Verif.Chartype.isupper_partial",
    "Verif.Chartype.isalpha_partial",
    "Verif.Chartype.islower_violated",
    "Verif.Chartype.isupper_violated",
    "Verif.Chartype.tolower_partial",
    "Verif.Chartype.toupper_partial",
    "Verif.Chartype.tolower_violated",
    "Verif.Chartype.tolower_idem",
    "Verif.Chartype.toupper_idem",
    "Verif.Chartype.totitle_spec"
   ],
   "note": "range-table predicates proved for all characters; the single-character tables are unreachable (elif), refuted by U+0101/U+0100"
  },
  {
   "property": "C57",
   "status": "proved",
   "theorems": [
    "Verif.Sort.strcmp_spec",
    "Verif.Sort.lex_equal",
    "Verif.Sort.lex_flip",
    "Verif.Sort.lex_trans",
    "Verif.Sort.strcmp_total_order",
    "Verif.Sort.numcmp_preorder",
    "Verif.Sort.strncmp_spec",
    "Verif.Sort.strcasecmp_spec"
   ],
   "note": "numcmp on integers (floating point NaN not modelled); strncmp for n >= 0"
  },
  {
   "property": "C58",
   "status": "proved",
   "theorems": [
    "Verif.CHtab.htab_total",
    "Verif.StdHtab.htab_total"
   ],
   "note": "Both tables; counters unbounded, allocation succeeds."
  },
  {
   "property": "C59",
   "status": "proved",
   "theorems": [
    "Verif.Utf.bychar_total",
    "Verif.Utf.bycharoff_total",
    "Verif.Utf.bygrapheme_total"
   ],
   "note": ""
  },
  {
   "property": "C60",
   "status": "partial",
   "theorems": [
    "Verif.Str.bytok_words",
    "Verif.Str.strtok_words_partial",
    "Verif.Str.strtok_violated",
    "Verif.Str.strfstrip_enc",
    "Verif.Str.strfstrip_total",
    "Verif.Str.strrstrip_enc",
    "Verif.Str.hassuffix_iff",
    "Verif.Str.isspaceB_eq",
    "Verif.Str.isblankB_eq"
   ],
   "note": "all proved except strtok with multi-byte white space, where the code is wrong (refuted with U+2003)"
  },
  {
   "property": "C61",
   "status": "proved",
   "theorems": [
    "Verif.Str.strreplace_spec",
    "Verif.Str.cut_unique"
   ],
   "note": "needle non-empty (else the code asserts)"
  },
  {
   "property": "C62",
   "status": "partial",
   "theorems": [
    "Verif.Mem.memblit_spec",
    "Verif.Mem.memblitMyr_spec",
    "Verif.Mem.memblitPlan9_partial",
    "Verif.Mem.memblitPlan9_violated",
    "Verif.Mem.memfill_spec",
    "Verif.Mem.memeq_iff"
   ],
   "note": "proved for the POSIX assembly and the portable version; the Plan 9 memblit tests an unloaded register (refuted, with a partial theorem)"
  },
  {
   "property": "C63",
   "status": "partial",
   "theorems": [
    "Verif.Slice.fslurp_spec",
    "Verif.Slice.readall_spec",
    "Verif.Slice.writeall_spec",
    "Verif.Slice.fblat_spec",
    "Verif.Slice.blat_partial",
    "Verif.Slice.blat_violated",
    "Verif.Slice.cstrconv_spec"
   ],
   "note": "all proved except blat over a longer existing file: not truncated (refuted)"
  },
  {
   "property": "C64",
   "status": "partial",
   "theorems": [
    "Verif.Flt.assem_round_violated",
    "Verif.Flt.assem_exact_partial"
   ],
   "note": "rounding is refuted: the tested bits are off by one; exact when the cut bits and the last kept bit are clear"
  },
  {
   "property": "C65",
   "status": "partial",
   "theorems": [
    "Verif.Rand.next_injective",
    "Verif.Rand.next_nonzero",
    "Verif.Rand.mksrng_violated",
    "Verif.Rand.mksrng_zeros",
    "Verif.Rand.mksrng_partial"
   ],
   "note": "state update proved injective; seeds: the high half is ignored and multiples of 65536 give zeros for ever (refuted)"
  },
  {
   "property": "C66",
   "status": "proved",
   "theorems": [
    "Verif.Iter.bychunk_spec",
    "Verif.Iter.byenum_spec",
    "Verif.Iter.byref_spec",
    "Verif.Iter.byreverse_spec",
    "Verif.Iter.byzip_spec"
   ],
   "note": ""
  },
  {
   "property": "C67",
   "status": "partial",
   "theorems": [
    "Verif.Use.tree_roundtrip_partial",
    "Verif.Use.sym_roundtrip_partial",
    "Verif.Use.type_roundtrip_partial",
    "Verif.Use.literal_imported",
    "Verif.Use.tree_violated"
   ],
   "note": "refuted for integer literals that do not fit in 32 bits (they are truncated and sign-extended); otherwise proved; type-id fix-up and hash-table insertion are not modelled"
  },
  {
   "property": "C68",
   "status": "partial",
   "theorems": [
    "Verif.Tydesc.descriptor_shows",
    "Verif.Tydesc.typeinfo_partial",
    "Verif.Tydesc.typeinfo_violated",
    "Verif.Tydesc.typeinfo_func"
   ],
   "note": "kinds, members, names: proved for all types; sizes: refuted for bool (0 instead of 1) and functions (8 instead of 16), proved for the rest"
  },
  {
   "property": "C69",
   "status": "partial",
   "theorems": [
    "Verif.Date.add_duration",
    "Verif.Date.addperiod_fixed_partial",
    "Verif.Date.addperiod_calendar_partial",
    "Verif.Date.subperiod_neg",
    "Verif.Date.addperiod_month_violated",
    "Verif.Date.addperiod_zone_violated"
   ],
   "note": "durations proved; periods proved in UTC; refuted in other zones (offset applied twice) and for months that leave the year"
  },
  {
   "property": "C70",
   "status": "partial",
   "theorems": [
    "Verif.Regex.exec_decides_violated",
    "Verif.Regex.exec_decides_partial",
    "Verif.Regex.groups_ok",
    "Verif.Regex.exec_strings"
   ],
   "note": "refuted: a literal above U+FFFF stops the compiler; proved from the pattern text to the answer for patterns of the documented syntax without word boundaries, \\p and \\u, without repeated empty matches, at most 15 groups, characters below U+10000"
  },
  {
   "property": "C71",
   "status": "partial",
   "theorems": [
    "Verif.Regex.search_finds_violated",
    "Verif.Regex.search_finds_partial"
   ],
   "note": "refuted: isearch counts positions from the start of the match, and matches at the end of the text are missed; proved for the strings reported by search, patterns without ^, positions before the end; limits as C70"
  },
  {
   "property": "C72",
   "status": "partial",
   "theorems": [
    "Verif.Regex.sub_replaces_violated",
    "Verif.Regex.sub_reusable_violated",
    "Verif.Regex.suball_ends_violated",
    "Verif.Regex.sub_replaces_partial",
    "Verif.Regex.suball_replaces_partial"
   ],
   "note": "refuted: nested groups give a slice of negative length, sub leaves the thread count wrong so that the next exec hangs, suball hangs on empty matches; proved for patterns without groups in groups or repetitions, for suball also without empty matches; limits as C70"
  },
  {
   "property": "C73",
   "status": "partial",
   "theorems": [
    "Verif.Regex.compile_answers_violated",
    "Verif.Regex.compile_answers_partial"
   ],
   "note": "refuted: [ reads behind the end of the pattern; proved: compiling ends for every byte string (no bound), and gives a program for the documented syntax with the limits of C70"
  },
  {
   "property": "C74",
   "status": "partial",
   "theorems": [
    "Verif.Thread.Mutex.cond_broadcast_partial",
    "Verif.Thread.Mutex.cond_signal_partial",
    "Verif.Thread.Mutex.cond_signal_violated"
   ],
   "note": "refuted: 2^32 signals between releasing the mutex and sleeping wrap the sequence number and the waiter sleeps on; proved for less than 2^32 signals in all"
  },
  {
   "property": "C75",
   "status": "proved",
   "theorems": [
    "Verif.Thread.Future.future_memory_safe",
    "Verif.Thread.Future.future_returns",
    "Verif.Thread.Future.future_wakes"
   ],
   "note": "precondition: one futput and one futget per future"
  },
  {
   "property": "C76",
   "status": "proved",
   "theorems": [
    "Verif.Ra.build_spec"
   ],
   "note": "preconditions: operands named by the opcode tables exist; %esp and %ebp do not occur as 32-bit operands; a machine register must not be read under another name by a copy in the block"
  },
  {
   "property": "C77",
   "status": "partial",
   "theorems": [
    "Verif.Ra.allocation_partial",
    "Verif.Ra.liveness_violated",
    "Verif.Ra.colour_violated"
   ],
   "note": "proved from liveness to paint for functions without spills; Shape and the forward edge condition exclude the counterexamples of C39 and C43. Missing: functions with spilled registers"
  },
  {
   "property": "C78",
   "status": "partial",
   "theorems": [
    "Verif.Match.compile_crash_violated",
    "Verif.Match.compile_const_violated",
    "Verif.Match.compile_or_violated",
    "Verif.Match.compile_ends",
    "Verif.Match.compile_no_crash_partial",
    "Verif.Match.redundant_sound_partial"
   ],
   "note": "refuted: null dereference in dtreusable, two failing assertions. Proved: compiling ends for every pattern list; no crash for patterns without alternatives and constants when there is a catch-all arm; redundancy reports are right without alternatives"
  },
  {
   "property": "C79",
   "status": "partial",
   "theorems": [
    "Verif.Bigint.bigbitcount_exact",
    "Verif.Bigint.bigand_partial",
    "Verif.Bigint.bigand_violated",
    "Verif.Bigint.bigandi_partial",
    "Verif.Bigint.bigandi_violated",
    "Verif.Bigint.bigor_partial",
    "Verif.Bigint.bigor_violated",
    "Verif.Bigint.bigmodpow_partial",
    "Verif.Bigint.bigmodpow_violated"
   ],
   "note": "refuted: bigand leaves its second operand with leading zeros, bigandi grows a slice on the stack, 0|x has sign 0, x^0 mod 1 is 1 and bigmodpow zeroes the exponent. Proved elsewhere (powers up to 2048 bits)"
  },
  {
   "property": "C80",
   "status": "proved",
   "theorems": [
    "Verif.Alloc.slalloc_fresh",
    "Verif.Alloc.slzalloc_fresh",
    "Verif.Alloc.slfree_frees",
    "Verif.Alloc.held_kept",
    "Verif.Alloc.held_write",
    "Verif.Alloc.slgrow_keeps",
    "Verif.Alloc.slzgrow_keeps"
   ],
   "note": "for histories in which the system has the memory asked for (otherwise see C17)"
  },
  {
   "property": "C81",
   "status": "proved",
   "theorems": [
    "Verif.Flate.decode_stream",
    "Verif.Flate.decode_deflate",
    "Verif.Flate.deflates_unique"
   ],
   "note": "with respect to a specification of RFC 1951 as relations; files are byte lists (C48, C49)"
  },
  {
   "property": "C82",
   "status": "partial",
   "theorems": [
    "Verif.Flate.abort_violated",
    "Verif.Flate.accept_violated",
    "Verif.Flate.decode_partial"
   ],
   "note": "violated: two bytes stop the program (length symbol 286 of the fixed code), and a stream with over-subscribed code lengths is accepted; the partial theorem: decoding always ends, what is accepted follows the format but for the code lengths, and only blocks with fixed codes can stop the program"
  },
  {
   "property": "C83",
   "status": "partial",
   "theorems": [
    "Verif.Crypto.digest_violated",
    "Verif.Crypto.md5_digest_partial",
    "Verif.Crypto.sha1_digest_partial",
    "Verif.Crypto.sha256_digest_partial",
    "Verif.Crypto.sha224_digest_partial",
    "Verif.Crypto.sha512_digest_partial",
    "Verif.Crypto.sha384_digest_partial",
    "Verif.Crypto.keccak224_digest",
    "Verif.Crypto.keccak256_digest",
    "Verif.Crypto.keccak384_digest",
    "Verif.Crypto.keccak512_digest"
   ],
   "note": "violated for MD5, SHA-1 and SHA-2 by pieces of 2 GiB (see C52); the partial theorems: pieces of fewer than 2^31 bytes; against separate specifications of the standards (SHA-2 constants from the roots of primes, Keccak constants from the shift register); SHA-512 and SHA-384 below 2^61 bytes, Keccak below 2^63 bytes with pieces of any size"
  },
  {
   "property": "C84",
   "status": "partial",
   "theorems": [
    "Verif.Crypto.hmac_violated",
    "Verif.Crypto.hmac_partial"
   ],
   "note": "violated: hmacfin hashes the whole destination, so one longer than a digest gets a wrong MAC; the partial theorem: RFC 2104 for destinations of exactly the size of a digest, keys and pieces below 2^31 bytes, messages below 2^60 bytes"
  },
  {
   "property": "C85",
   "status": "partial",
   "theorems": [
    "Verif.Chacha.setup_means",
    "Verif.Chacha.encrypt_violated",
    "Verif.Chacha.counter_violated",
    "Verif.Chacha.big_aborts",
    "Verif.Chacha.encrypt_partial",
    "Verif.Chacha.encrypt_whole",
    "Verif.Chacha.encrypt_pieces",
    "Verif.Chacha.decrypt_encrypt"
   ],
   "note": "violated: the last length % 64 bytes of a message are never written to the destination, an empty message skips a block of keystream, and messages of 2 GiB abort; encrypt_partial says exactly what is written for every length below 2^31; on whole blocks the claim holds (encrypt_whole, encrypt_pieces, decrypt_encrypt)"
  },
  {
   "property": "C86",
   "status": "partial",
   "theorems": [
    "Verif.Ct.eq_means",
    "Verif.Ct.ne_means",
    "Verif.Ct.gt_means",
    "Verif.Ct.le_means",
    "Verif.Ct.not_means",
    "Verif.Ct.mux_means",
    "Verif.Ct.lt_violated",
    "Verif.Ct.lt_partial",
    "Verif.Ct.min_max_partial",
    "Verif.Ct.bufeq_violated",
    "Verif.Ct.bufeq_partial"
   ],
   "note": "violated: lt (and with it ge, min, max) is wrong for exactly the pairs of Wraps, e.g. 128 < 1 in bytes; bufeq compares only the common prefix when the first buffer is longer, and mostly stops the program when the second is"
  },
  {
   "property": "C87",
   "status": "partial",
   "theorems": [
    "Verif.Ctbig.arith_means",
    "Verif.Ctbig.compare_means",
    "Verif.Ctbig.from_bytes",
    "Verif.Ctbig.iszero_violated",
    "Verif.Ctbig.iszero_partial",
    "Verif.Ctbig.bytes_violated",
    "Verif.Ctbig.bytes_partial",
    "Verif.Ctbig.make_violated",
    "Verif.Ctbig.make_partial"
   ],
   "note": "arithmetic, comparisons and reading bytes proved for every size; violated: ctiszero looks at the lowest bit of each digit only; writing bytes is right exactly when the size is a multiple of four bytes (else stops the program or leaves bytes unwritten); mkctbign leaves digits after the second unset"
  },
  {
   "property": "C88",
   "status": "partial",
   "theorems": [
    "Verif.Ctbig.modpow_violated",
    "Verif.Ctbig.grow_violated",
    "Verif.Ctbig.grow_partial",
    "Verif.Ctbig.modpow_partial"
   ],
   "note": "violated: (2^63)^1 mod (2^63+1) comes out as 0; right (modpow_partial) whenever no number that the conversion goes through has the top digit of m or the top digit 2^31; one step is characterised by grow_partial"
  },
  {
   "property": "C89",
   "status": "partial",
   "theorems": [
    "Verif.Ctbig.rsa_violated",
    "Verif.Ctbig.rsa_refuses",
    "Verif.Ctbig.rsa_long",
    "Verif.Ctbig.rsa_partial"
   ],
   "note": "violated: every modulus whose first bit is clear or whose length is no multiple of four bytes stops the program (rsa_refuses), so does a message of exactly k-11 bytes (rsa_long); otherwise proved under the condition of modpow_partial. The drawing of random padding bytes is not modelled, the padding is a parameter"
  },
  {
   "property": "C90",
   "status": "partial",
   "theorems": [
    "Verif.Call.handover_partial",
    "Verif.Call.handover_lone_partial",
    "Verif.Call.handover_violated",
    "Verif.Call.empty_dies",
    "Verif.Call.lone_float_ub",
    "Verif.Call.void_variadic",
    "Verif.Call.table_overrun"
   ],
   "note": "violated: the compiler dies for struct{int32; std.option(int32)} and for empty aggregates; a struct of one float as ninth floating point argument is looked up outside the table of registers; a void parameter before ... moves the type description. Proved for every other list of types"
  },
  {
   "property": "C91",
   "status": "partial",
   "theorems": [
    "Verif.Call.vanext_partial",
    "Verif.Call.typeinfo_align",
    "Verif.Call.vatypes_partial",
    "Verif.Call.vatypes_violated",
    "Verif.Call.vabytes_violated",
    "Verif.Call.vabytes_partial",
    "Verif.Call.vabytes_bool"
   ],
   "note": "vanext proved for the function types of C90; violated: calls through a function of a named function type describe the wrong types; vabytes does not align its pointer and does not advance over a bool"
  },
  {
   "property": "C92",
   "status": "partial",
   "theorems": [
    "Verif.Call.locals_apart",
    "Verif.Call.local_aligned",
    "Verif.Call.ret_covers",
    "Verif.Call.ret_violated",
    "Verif.Call.ret_clobbers",
    "Verif.Call.ret_overrun",
    "Verif.Call.ret_partial"
   ],
   "note": "violated: values of 3, 5, 6, 7, 11, 13, 14 and 15 bytes are stored with eight-byte moves past their end (ret_overrun, ret_clobbers); the other sizes are proved"
  },
  {
   "property": "C93",
   "status": "partial",
   "theorems": [
    "Verif.Aes.keysched_sizes",
    "Verif.Aes.encrypt_partial",
    "Verif.Aes.decrypt_partial",
    "Verif.Aes.encrypt_low",
    "Verif.Aes.decrypt_low",
    "Verif.Aes.encrypt_violated",
    "Verif.Aes.lengths_refused",
    "Verif.Aes.decrypt_encrypt"
   ],
   "note": "proved for all keys and all messages below 4 GiB; violated beyond: lengths are taken modulo 2^32, a message of 4 GiB is left as it is"
  },
  {
   "property": "C94",
   "status": "partial",
   "theorems": [
    "Verif.Optparse.total",
    "Verif.Optparse.no_name",
    "Verif.Optparse.optparse_partial",
    "Verif.Optparse.dash_violated",
    "Verif.Optparse.optional_violated",
    "Verif.Optparse.operand_violated"
   ],
   "note": "proved for all command lines without lone dashes and without arguments left out; violated by a lone dash, by an optional argument left out at the end, and by operands that begin with an overlong encoding of a dash"
  },
  {
   "property": "C95",
   "status": "partial",
   "theorems": [
    "Verif.Flatten.flatten_preserves_partial",
    "Verif.Flatten.flatten_labels",
    "Verif.Flatten.flatten_preserves_violated",
    "Verif.Flatten.flatten_late_read",
    "Verif.Flatten.flatten_lazy_increment",
    "Verif.Flatten.flatten_loop_decrement",
    "Verif.Flatten.flatten_left_first"
   ],
   "note": "proved, in both directions and with endless runs, for bodies in which no left operand reads what a right one changes, and post-increments are in no part evaluated only sometimes; violated by x + (x = 1), by y && x++, by while x--, and by f()# = x"
  },
  {
   "property": "C96",
   "status": "partial",
   "theorems": [
    "Verif.Zone.load_encode",
    "Verif.Zone.load_short",
    "Verif.Zone.load_empty",
    "Verif.Zone.lookup_exact",
    "Verif.Zone.findtzoff_partial",
    "Verif.Zone.findtzoff_violated",
    "Verif.Zone.lookup_violated",
    "Verif.Zone.before_violated",
    "Verif.Zone.fixed_violated",
    "Verif.Zone.round_violated"
   ],
   "note": "reading files proved in full; the lookup always takes the first transition (lookup_exact), so it is right only between the first two transitions; violated after the second transition, before the first (the program stops), for zones without transitions, and just before 1970"
  },
  {
   "property": "C97",
   "status": "partial",
   "theorems": [
    "Verif.Dfmt.written_dates_read_back_partial",
    "Verif.Dfmt.written_instants_read_back_partial",
    "Verif.Dfmt.written_dates_violated",
    "Verif.Dfmt.full_date_unread",
    "Verif.Dfmt.weekday_misread",
    "Verif.Dfmt.month_misread",
    "Verif.Dfmt.day_unread",
    "Verif.Dfmt.percent_unread",
    "Verif.Dfmt.blanks_unread",
    "Verif.Dfmt.zone_misread",
    "Verif.Dfmt.west_misread",
    "Verif.Dfmt.afternoon_misread",
    "Verif.Dfmt.clock_fatal"
   ],
   "note": "proved for Y m b B d H k M S z, no two blanks in a row, and with %z zones of whole hours; violated by %F, %a, %A, %h, %e, %p, %% at the end, two blanks, and zones with minutes"
  },
  {
   "property": "C98",
   "status": "proved",
   "theorems": [
    "Verif.Round.floor_value",
    "Verif.Round.ceil_value",
    "Verif.Round.trunc_value",
    "Verif.Round.infinite_kept"
   ],
   "note": "the Myrddin versions, of both widths; negation of a number is modelled as a change of its sign bit, so ceil and trunc are not stated for NaNs"
  },
  {
   "property": "C99",
   "status": "proved",
   "theorems": [
    "Verif.Round.rn_nearest",
    "Verif.Round.rn_large",
    "Verif.Round.nearest_unique",
    "Verif.Round.needRoundAway_spec"
   ],
   "note": "both widths; the versions in assembly are not modelled"
  }
 ]
}

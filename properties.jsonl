{"id": "C01", "title": "Compiler bit sets behave as finite sets of naturals", "statement": "After any sequence of bsput/bsdel/bsunion/bsintersect/bsdiff/bsclear/bsdup on bit sets, bshas answers exactly membership in the mathematical set obtained by the same sequence of set operations; bsiter enumerates exactly the members in increasing order, bscount is the cardinality, bseq decides equality, and bsissubset(a,b) decides a subset of b.", "quantifier": "all operation histories, all element values, all pairs of sets of different capacity", "why_tests_cant": "capacities grow lazily in 64-bit chunks; element values and histories are unbounded and binary operations depend on the relative capacity of both operands", "anchors": ["util/bitset.c: mkbs bsdup bsclear bscount bsiter bsput bsdel bsunion bsintersect bsdiff bseq bsissubset bsisempty bshas"]}
{"id": "C02", "title": "Compiler hash table is a finite map", "statement": "For any sequence of htput/htdel/htget/hthas on a table whose comparison function is an equivalence compatible with its hash function, htget(k) returns the value of the last htput of a key equal to k not followed by htdel of it, and hthas is true exactly for such keys; growth never changes the answers.", "quantifier": "all operation histories, all hash functions, all key sets", "why_tests_cant": "depends on collision patterns, tombstone placement and the moment of growth, which no finite set of runs covers", "anchors": ["util/htab.c: mkht grow htput htget hthas htidx htdel htkeys"]}
{"id": "C03", "title": "std.htab is a finite map", "statement": "For any history of std.htput/std.htdel/std.htget/std.hthas, std.htget returns the most recently put value for the key if it has not been deleted since, and None otherwise; std.htcount is the number of live keys and std.htkeys lists each live key once.", "quantifier": "all histories of operations, all hash functions and equalities that agree", "why_tests_cant": "the answer depends on collisions, tombstones and rehash points over unbounded histories", "anchors": ["lib/std/htab.myr: mkht idx resize htput htdel htget htgetv hthas htkeys"]}
{"id": "C04", "title": "std.bitset is a finite set of naturals", "statement": "std.bsput/bsdel/bsunion/bsdiff/bsintersect/bshas/bseq/bsissubset/bscount/bsmax implement the corresponding operations on finite sets for operands of any relative capacity, and equal sets have equal hashes.", "quantifier": "all histories, all pairs of operands", "why_tests_cant": "the operands' capacities are history-dependent, unbounded in number", "anchors": ["lib/std/bitset.myr: mkbs bsput bsdel bshas bsunion bsintersect bsdiff bseq bsissubset bscount bsmax"]}
{"id": "C05", "title": "UTF-8 encode/decode round trip", "statement": "For every code point c below 0x110000 std.encode writes exactly std.charlen(c) bytes, std.decode of those bytes followed by arbitrary data returns c, std.charstep splits the string right after those bytes, and the encoding agrees with the UTF-8 standard; encodings of different characters are never prefixes of each other.", "quantifier": "all code points and all trailing byte strings", "why_tests_cant": "arbitrary suffixes give an infinite input space; uniqueness is a statement over all pairs", "anchors": ["lib/std/utf.myr: charlen encode decode charstep"]}
{"id": "C06", "title": "Iterating characters covers the string", "statement": "std.bychar over a string s obtained by encoding a sequence of characters yields exactly that sequence, and std.bycharoff pairs each character with the byte offset at which it starts.", "quantifier": "all strings of characters", "why_tests_cant": "strings are unbounded; offsets accumulate over every prefix", "anchors": ["lib/std/striter.myr: bychar bycharoff", "lib/std/utf.myr: decode charlen"]}
{"id": "C07", "title": "Splitting and joining strings are inverse", "statement": "For every string s and non-empty delimiter d, std.strjoin(std.strsplit(s,d),d) = s, and no returned piece contains d; std.bysplit yields the same pieces as std.strsplit.", "quantifier": "all byte strings s and all non-empty delimiters d (including self-overlapping ones)", "why_tests_cant": "needs every overlap structure of delimiter and text", "anchors": ["lib/std/strsplit.myr: strsplit bstrsplit", "lib/std/strjoin.myr: strjoin", "lib/std/striter.myr: bysplit"]}
{"id": "C08", "title": "Substring search finds the first and last occurrence", "statement": "std.strfind(h,n) returns the least index at which n occurs in h or None exactly if it does not occur; std.strrfind returns the greatest; std.strhas agrees.", "quantifier": "all haystacks and needles", "why_tests_cant": "completeness (no missed occurrence) quantifies over all positions of unbounded strings", "anchors": ["lib/std/strfind.myr: strfind strrfind strhas"]}
{"id": "C09", "title": "std.sort sorts", "statement": "For every slice and every comparison function that is a total preorder, std.sort leaves a permutation of the input in nondecreasing order and never indexes outside of the slice.", "quantifier": "all slices of all lengths, all total preorders", "why_tests_cant": "heap shape depends on length; permutation and order claims over all inputs cannot be enumerated", "anchors": ["lib/std/sort.myr: sort heapify sift"]}
{"id": "C10", "title": "Binary search is exact on sorted slices", "statement": "On a slice sorted by the comparison function std.bsearch returns an index of an element comparing equal to the target if there is one and None exactly otherwise, reading only inside the slice.", "quantifier": "all sorted slices, all targets", "why_tests_cant": "off-by-one errors depend on the length and position, unbounded", "anchors": ["lib/std/search.myr: bsearch lsearch"]}
{"id": "C100", "title": "Scaling by a power of two rounds once and overflows to infinity", "statement": "Multiplying a finite number of 32 or 64 bits by 2^m keeps the sign. For m not negative the product is exact if it is a number and an infinity otherwise. For m negative the quotient is the nearest number, the even one of two. Infinities are kept.", "quantifier": "for all bit patterns of finite numbers and all exponents m of both widths", "why_tests_cant": "The cases depend on the exponent, the exponent of the number and the position of the highest bit of denormal numbers; the pairs are 2^128.", "anchors": ["lib/math/scale2-impl.myr: scale2gen", "lib/math/scale2-impl.myr: scale264", "lib/math/scale2-impl.myr: scale232", "lib/math/util.myr: find_first1_64"]}
{"id": "C101", "title": "Converting between widths is exact up and rounds once down", "statement": "Converting a finite number of 32 bits to 64 bits keeps its value; converting a finite number of 64 bits to 32 bits gives the nearest number, of two equally near ones the even one, also among denormal numbers, and an infinity if that is too large. Signs and infinities are kept, and NaNs stay NaNs.", "quantifier": "for all bit patterns of both widths", "why_tests_cant": "There are 2^64 numbers; rounding may carry from denormal to normal numbers and from the largest number to infinity, at single bit patterns.", "anchors": ["lib/math/util.myr: flt64fromflt32", "lib/math/util.myr: flt32fromflt64", "lib/math/util.myr: need_round_away"]}
{"id": "C102", "title": "Multiplying and adding rounds once", "statement": "The fused operation on three finite numbers gives a number that is nearest to the exact product plus the exact addend: the product is not rounded before the addition.", "quantifier": "for all triples of 64 bit numbers", "why_tests_cant": "There are 2^192 triples; a lost bit changes the result only when the exact sum is next to the middle of two numbers.", "anchors": ["lib/math/fma-impl.myr: fma64", "lib/math/fma-impl.myr: add_shifted", "lib/math/fma-impl.myr: sub_shifted", "lib/math/fma-impl.myr: compare_hl_z", "lib/math/util.myr: need_round_away"]}
{"id": "C11", "title": "Integer formatting and parsing round trip", "statement": "Formatting any signed or unsigned integer of any width with std.fmt in base b and parsing it back with std.intparsebase in base b yields the same integer; the digits printed are the canonical base-b representation.", "quantifier": "all 2^8..2^64 values of every integer type, all bases 2..36, both signs", "why_tests_cant": "2^64 values times bases are beyond enumeration; minimum integers and base interactions are edge cases", "anchors": ["lib/std/intfmt.myr: intfmt", "lib/std/intparse.myr: intparse intparsebase"]}
{"id": "C12", "title": "Fixed-width integer serialisation round trips", "statement": "std.getle64(std.putle64(v)) and the be/le 16/32/64 variants return v and put* writes the base-256 digits of v in the documented order; std.hosttonet/nettohost are inverse to each other.", "quantifier": "all values of each width", "why_tests_cant": "2^64 values", "anchors": ["lib/std/getint.myr", "lib/std/putint.myr", "lib/std/endian.myr"]}
{"id": "C13", "title": "Big integer addition, subtraction and multiplication are exact", "statement": "For normalised big integers, std.bigadd, std.bigsub and std.bigmul compute the exact integer sum, difference and product, results are normalised (no leading zero digit, zero has sign 0) and operands that are not the destination keep their value.", "quantifier": "all integers of any size and sign", "why_tests_cant": "carry chains and the Karatsuba recursion threshold depend on operand length and digit values without bound", "anchors": ["lib/std/bigint.myr: bigadd bigsub uadd usub bigmul umul smallmul kmul trim"]}
{"id": "C14", "title": "Big integer division satisfies the division identity", "statement": "For b != 0, std.bigdivmod(a,b)=(q,r) satisfies a = q*b + r with |r| < |b| and r zero or of the sign of a.", "quantifier": "all integers a and all non-zero b", "why_tests_cant": "the quotient digit correction steps of Knuth's algorithm are taken on a vanishing fraction of inputs", "anchors": ["lib/std/bigint.myr: bigdivmod bigdiv bigmod nlz"]}
{"id": "C15", "title": "Big integer construction, comparison and shifts", "statement": "std.mkbigint(v) represents v for every value of every integer type; std.bigcmp orders as the integers do; std.bigshli multiplies by 2^s and std.bigshri divides the magnitude by 2^s; bigparse/bigbfmt round trip; std.bigfrombytes reads little endian magnitudes.", "quantifier": "all integers and shift amounts", "why_tests_cant": "unbounded operand size; extreme values of each width", "anchors": ["lib/std/bigint.myr: mkbigint bigfrombytes bigcmp bigcmpabs bigshli bigshri bigparse bigbfmt bigbitcount bigmodpow"]}
{"id": "C16", "title": "SipHash conforms to its specification", "statement": "std.siphash24(data,seed) equals SipHash-2-4 as published for every key and every message of any length.", "quantifier": "all keys and all messages", "why_tests_cant": "vectors cover finitely many lengths; the tail handling must be right for each length mod 8", "anchors": ["lib/std/hashfuncs.myr: siphash24 sipround"]}
{"id": "C17", "title": "Live heap allocations never overlap", "statement": "At every point of every history of std.bytealloc/std.bytefree (and zalloc), the byte ranges of all live allocations are pairwise disjoint, each is at least as long as requested, suitably aligned and inside memory obtained from the system.", "quantifier": "all allocation histories and size sequences", "why_tests_cant": "overlap depends on slab state accumulated over unbounded histories", "anchors": ["lib/std/bytealloc.myr: bytealloc bytefree bktalloc bktfree mkslab bktnum allocsz bigalloc bigfree"]}
{"id": "C18", "title": "Allocation size classes are tight", "statement": "The bucket chosen for a request of n bytes (1 <= n <= 128KiB) is the smallest power-of-two size class of at least n bytes.", "quantifier": "all request sizes up to the bucket maximum", "why_tests_cant": "a de Bruijn table lookup whose correctness must hold for all sizes at once", "anchors": ["lib/std/bytealloc.myr: bktnum allocsz"]}
{"id": "C19", "title": "The mutex gives mutual exclusion under every schedule", "statement": "With any number of threads calling thread.mtxlock/mtxtrylock/mtxunlock correctly (unlock by the holder), at most one thread is between a successful lock and its unlock, for every interleaving of the atomic steps and any spurious futex wake-ups.", "quantifier": "all thread counts, all interleavings, all spurious wake-ups", "why_tests_cant": "a race window is hit with vanishing probability by tests; the set of schedules is infinite", "anchors": ["lib/thread/mutex+futex.myr: mtxlock mtxtrylock mtxunlock lock", "lib/thread/mutex.myr"]}
{"id": "C20", "title": "No wake-up of the mutex is lost", "statement": "If the mutex is free and some thread is parked in mtxlock then a wake-up for a parked thread is pending or some thread is about to acquire: it never happens that all threads sleep on a free mutex.", "quantifier": "all thread counts and interleavings", "why_tests_cant": "lost wake-ups are schedule-dependent and rare", "anchors": ["lib/thread/mutex+futex.myr: mtxlock mtxunlock"]}
{"id": "C21", "title": "The read/write lock excludes writers from readers", "statement": "Under every schedule of thread.rdlock/wrlock/rdunlock/wrunlock (and try variants), whenever a thread holds the write lock no other thread holds the lock for reading or writing.", "quantifier": "all thread counts and interleavings (reader count below its maximum)", "why_tests_cant": "schedule dependent", "anchors": ["lib/thread/rwlock+futex.myr: rdlock wrlock tryrdlock trywrlock rdunlock wrunlock", "lib/thread/rwlock.myr: rdlock wrlock tryrdlock trywrlock rdunlock wrunlock"]}
{"id": "C22", "title": "Semaphore permits are conserved", "statement": "For every schedule of sempost/semwait/semtrywait, the number of completed waits never exceeds the initial count plus the number of started posts, and the value stays equal to initial + posts - waits.", "quantifier": "all thread counts and interleavings", "why_tests_cant": "schedule dependent; the packed value/waiter word is updated by racing compare-and-swap operations", "anchors": ["lib/thread/sem+futex.myr: mksem semwait semtrywait sempost", "lib/thread/sem.myr: mksem semwait semtrywait sempost"]}
{"id": "C23", "title": "The thread queue is a FIFO channel", "statement": "For every schedule of qput/qget calls on thread.queue each value put is returned at most once, values are taken in the order in which their qput took effect, nothing is returned that was not put, no node is used after it was freed, and no thread sleeps in qget while a value is in the queue and nobody is about to take it.", "quantifier": "all schedules, all numbers of producers and consumers", "why_tests_cant": "linearizability quantifies over all interleavings", "anchors": ["lib/thread/queue.myr: qinit qput qget", "lib/thread/condvar+linux.myr: condwait condsignal"]}
{"id": "C24", "title": "Wait groups release only after all work is done", "statement": "thread.wgwait returns only when as many wgpost calls as the initial count have started, under every schedule.", "quantifier": "all schedules", "why_tests_cant": "schedule dependent", "anchors": ["lib/thread/waitgrp+futex.myr: mkwg wgwait wgpost", "lib/thread/waitgrp.myr: mkwg wgwait wgpost"]}
{"id": "C25", "title": "JSON parsing decodes what was encoded", "statement": "Parsing the formatted text of any JSON value returns the same value; \\uXXXX escapes denote code point 0xXXXX; nesting at most the documented depth is accepted whatever the number of siblings, and malformed text is rejected.", "quantifier": "all JSON values and texts", "why_tests_cant": "unbounded value trees and all strings including quotes and control characters", "anchors": ["lib/json/parse.myr", "lib/json/fmt.myr: fmt jstrfmt jsfmt"]}
{"id": "C26", "title": "INI files are maps keyed by section and key", "statement": "inifile.get(ini,sect,key) returns the value last put (or parsed) for exactly that (section,key) pair, and writing then loading an ini file preserves all pairs.", "quantifier": "all histories of put/get/del and all (section,key) pairs", "why_tests_cant": "collisions between different pairs depend on the pairs chosen", "anchors": ["lib/inifile/access.myr", "lib/inifile/parse.myr", "lib/inifile/write.myr", "lib/inifile/types.myr"]}
{"id": "C27", "title": "DEFLATE back-references reproduce the history", "statement": "Decoding a length/distance pair (l,d) with d at most the output produced so far and at most 32768 appends, for each i < l, the byte d positions back, for overlapping copies too, whatever flushing of the window takes place in between.", "quantifier": "all sequences of literals and copies", "why_tests_cant": "window wrap-around and overlap combinations are unbounded", "anchors": ["lib/flate/flate.myr: outb window handling, decompress"]}
{"id": "C28", "title": "Canonical Huffman decoding", "statement": "For every complete code-length assignment the decoding tables built by the inflater decode the bit string of each symbol's canonical code (RFC 1951 3.2.2) to that symbol and consume exactly its bits.", "quantifier": "all code length assignments and all following bits", "why_tests_cant": "exponentially many length assignments", "anchors": ["lib/flate/flate.myr: mkhufc readcode"]}
{"id": "C29", "title": "Calendar conversions round trip", "statement": "For every instant the date fields produced by the date library denote that instant: converting fields to seconds and back is the identity, the calendar is proleptic Gregorian and weekdays follow a 7-day cycle.", "quantifier": "all instants (all years, months, days, seconds)", "why_tests_cant": "unbounded range of dates incl. leap year centuries and dates before 1970", "anchors": ["lib/date/date.myr: mkinstantoff recalc isleap add sub addperiod duration", "lib/date/types.myr"]}
{"id": "C30", "title": "Shell quoting is safe", "statement": "For every byte string s without NUL, the text produced by escfmt.sh quoting is read back by a POSIX shell as the single word s.", "quantifier": "all byte strings", "why_tests_cant": "quote placement combinations are unbounded; a single bad string is an injection", "anchors": ["lib/escfmt/escsh.myr"]}
{"id": "C31", "title": "Escaping for HTML, regex and URLs is invertible", "statement": "HTML-escaped text contains no markup-significant character and un-escapes to the original; regex-escaped text, read as a regular expression, matches exactly the original string; URL-escaped text percent-decodes to the original.", "quantifier": "all strings", "why_tests_cant": "unbounded strings", "anchors": ["lib/escfmt/eschtml.myr", "lib/escfmt/escre.myr", "lib/escfmt/escurl.myr"]}
{"id": "C32", "title": "Path normalisation", "statement": "std.pathnorm is idempotent, its result has no empty or '.' component, no '..' after a named component, is absolute exactly when the input was, and denotes the same location (resolving '..' lexically).", "quantifier": "all path strings", "why_tests_cant": "unbounded component sequences", "anchors": ["lib/std/pathjoin.myr: pathnorm pathjoin"]}
{"id": "C33", "title": "Permutation iteration enumerates every permutation once", "statement": "iter.byperm over a slice yields each distinct arrangement of its elements exactly once, in lexicographic order, beginning with the sorted one and then stops.", "quantifier": "all slices incl. duplicates and empty ones", "why_tests_cant": "n! results for every n", "anchors": ["lib/iter/perm.myr"]}
{"id": "C34", "title": "Compiled match statements implement first-match semantics", "statement": "For every match statement and every scrutinee value, the generated decision tree reaches the arm of the first pattern (top to bottom) that matches the value, and binds captures to the matching sub-values.", "quantifier": "all pattern lists (incl. or-patterns, nested unions, tuples, structs, strings) and all values", "why_tests_cant": "pattern sets and values are infinite; sharing of tree nodes only arises in particular combinations", "anchors": ["mi/match.c: addrec genfrontier project compile dtreusable gendtree genmatchcode"]}
{"id": "C35", "title": "Accepted match statements are exhaustive", "statement": "If the compiler accepts a match statement without 'nonexhaustive pattern set' error then every value of the scrutinee's type is matched by some pattern.", "quantifier": "all pattern lists and all values of the type", "why_tests_cant": "a missing case must be looked for in all combinations of constructors", "anchors": ["mi/match.c: verifymatch nconstructors gendtree"]}
{"id": "C36", "title": "Constant folding preserves evaluation", "statement": "The value of an expression folded at compile time equals the value the same expression has when evaluated at run time in its type (wrap-around at the type's width, signed or unsigned division and shifts), and folding drops no side effects.", "quantifier": "all expressions over literals and variables of all integer types", "why_tests_cant": "expression trees and 64-bit values are unbounded", "anchors": ["parse/fold.c: fold foldcast getintlit issmallconst"]}
{"id": "C37", "title": "Aggregate layout is well-formed", "statement": "For every struct or tuple type each member's offset is a multiple of its alignment, members do not overlap, all lie inside the aggregate's size, and the size is a multiple of the alignment, so arrays of it keep elements aligned; offsets computed for access agree with those used to place static data.", "quantifier": "all types", "why_tests_cant": "types nest without bound", "anchors": ["6/typeinfo.c: tysize tyalign tyoffset", "6/blob.c: blobstruct blobrec"]}
{"id": "C38", "title": "Static array initialisers are placed at their index", "statement": "In the data emitted for a constant array each initialised element is at byte offset index*elementsize, all other bytes are zero and the total length is that of the type.", "quantifier": "all sets of initialised indices and element types", "why_tests_cant": "index gap patterns are unbounded", "anchors": ["6/blob.c: blobrec (Oarr)", "parse/fold.c: idxcmp fold(Oarr)"]}
{"id": "C39", "title": "Liveness analysis is sound", "statement": "When the register allocator's liveness loop stops, every register that may be read on some path before being written is in the live-out set of the block the path leaves from, and the loop always stops.", "quantifier": "all control flow graphs and all paths", "why_tests_cant": "paths are unbounded; loops need the fixpoint", "anchors": ["6/ra.c: udcalc liveness uses defs"]}
{"id": "C40", "title": "Reaching definitions are sound", "statement": "When the reaching-definitions loop stops, each definition that can reach a block along some path without being overwritten is in the block's in set; the loop always stops.", "quantifier": "all control flow graphs and all paths", "why_tests_cant": "paths are unbounded", "anchors": ["mi/reaching.c: assignee collectdefs genkill reaching"]}
{"id": "C41", "title": "Use of undefined variables is rejected", "statement": "Every function in which some path reads a local scalar variable before any assignment to it on that path is rejected with 'used before definition'.", "quantifier": "all functions and paths", "why_tests_cant": "paths and programs are unbounded", "anchors": ["mi/dfcheck.c: checkundef checkreach", "mi/reaching.c"]}
{"id": "C42", "title": "Functions with a result do not fall off the end", "statement": "If the return check accepts a non-void function then no path reaches the function's end block without executing a return (or a call that does not return).", "quantifier": "all control flow graphs", "why_tests_cant": "all paths in all graphs", "anchors": ["mi/dfcheck.c: checkpredret checkret", "mi/cfg.c: mkcfg trim trimdead delete"]}
{"id": "C43", "title": "Register colouring respects interference", "statement": "After colouring, two registers joined by an interference edge never get aliasing machine registers; a register that gets none is reported as spilled.", "quantifier": "all interference graphs and selection orders", "why_tests_cant": "graph structures are unbounded", "anchors": ["6/ra.c: addedge build paint colourmap regmap getmappedalias"]}
{"id": "C44", "title": "Interface files round trip", "statement": "Each primitive value written into a usefile (ints, longs, bools, strings, length-prefixed strings, floats) is read back unchanged and consumes exactly the bytes written, so sequences of writes are recovered by the same sequence of reads.", "quantifier": "all values and all sequences", "why_tests_cant": "2^64 values, arbitrary strings", "anchors": ["util/pack.c: be64 host64 be32 host32 wrbyte rdbyte wrbuf rdbuf wrint rdint wrstr rdstr wrlenstr rdlenstr wrflt rdflt wrbool rdbool"]}
{"id": "C45", "title": "Type descriptors decode to the encoded type", "statement": "The packed-length encoding used for type descriptors emitted by the compiler is decoded by the run-time introspection code to the same numbers, for all sizes below 2^56, consuming exactly the encoded bytes.", "quantifier": "all integers < 2^56 and all following bytes", "why_tests_cant": "2^56 values", "anchors": ["6/typeinfo.c: blobsz", "6/gengas.c: Btimin output", "lib/std/introspect.myr: getipacked"]}
{"id": "C46", "title": "Random number helpers stay in range and fill buffers", "statement": "std.rngrand(rng,lo,hi) returns a value in [lo,hi) for all lo<hi, and std.rngrandbytes fills every byte of the buffer from the generator.", "quantifier": "all ranges and buffer lengths and generator states", "why_tests_cant": "buffer length and state combinations are unbounded", "anchors": ["lib/std/rand.myr: rngrand rngrandbytes rngrand64"]}
{"id": "C47", "title": "String buffers accumulate", "statement": "The bytes in a std.strbuf equal the concatenation of everything put into it (for fixed buffers: the longest prefix of whole pieces that fits, as documented), after any sequence of sbputs/sbputb/sbputc/sbtrim.", "quantifier": "all operation sequences", "why_tests_cant": "unbounded sequences with growth at unpredictable points", "anchors": ["lib/std/strbuf.myr"]}
{"id": "C48", "title": "Buffered reading is transparent", "statement": "Whatever way the underlying source splits its data into short reads, the sequence of bytes returned by any mix of bio read/getb/peekb/readto/readln calls is the source's byte stream with nothing lost, duplicated or reordered.", "quantifier": "all sources, all short-read patterns, all call sequences", "why_tests_cant": "the interaction of buffer refill with call sizes is unbounded", "anchors": ["lib/bio/bio.myr: read getb peekb ensureread fill readdelim readln readinto"]}
{"id": "C49", "title": "Buffered writing is transparent", "statement": "After flush, the bytes handed to the underlying sink are exactly the bytes written in order, for any mix of write/putb/putc calls and any short-write behaviour of the sink; a write error is reported by some call.", "quantifier": "all call sequences, all short-write patterns, all error points", "why_tests_cant": "unbounded combinations", "anchors": ["lib/bio/bio.myr: write putb putc ensurewrite flush writebuf close"]}
{"id": "C50", "title": "Regular expression matching terminates", "statement": "regex.exec terminates for every compiled pattern and every input.", "quantifier": "all patterns and inputs", "why_tests_cant": "non-termination cannot be observed by tests and only some pattern shapes trigger it", "anchors": ["lib/regex/interp.myr: run step mkthread", "lib/regex/compile.myr: gen genstar genalt"]}
{"id": "C51", "title": "Character classes match the listed characters", "statement": "A bracket expression matches exactly the characters in the union of its listed ranges (or in the complement if negated).", "quantifier": "all lists of ranges and all characters", "why_tests_cant": "range overlap patterns and the code point space are large; multi-byte ranges interact with UTF-8 structure", "anchors": ["lib/regex/compile.myr: chrclass rangematch merge negate genranges rtinsert rangegen"]}
{"id": "C52", "title": "Streaming hashes do not depend on chunking", "statement": "Feeding data to the crypto hash functions in any number of add calls gives the same digest as a single call with the concatenation.", "quantifier": "all messages and all ways of splitting them", "why_tests_cant": "splits of unbounded messages", "anchors": ["lib/crypto/sha256.myr", "lib/crypto/sha1.myr", "lib/crypto/md5.myr", "lib/crypto/sha512.myr"]}
{"id": "C53", "title": "Float decomposition round trips", "statement": "std.flt64assem(std.flt64explode(x)) = x bit for bit for every finite x, and the exploded triple denotes the value of x.", "quantifier": "all 2^64 bit patterns", "why_tests_cant": "2^64 bit patterns", "anchors": ["lib/std/fltbits.myr: flt64explode flt64assem flt32explode flt32assem"]}
{"id": "C54", "title": "Slice utilities", "statement": "std.slput(sl,i,v) inserts v at i, std.sldel(sl,i) removes index i, std.slpush/slpop work at the end, std.sljoin concatenates, std.sldup copies, std.slcp copies equal-length slices even when they overlap as documented; slices are otherwise unchanged.", "quantifier": "all slices and indices", "why_tests_cant": "unbounded lengths, boundary indices", "anchors": ["lib/std/slput.myr", "lib/std/slpush.myr", "lib/std/slpop.myr", "lib/std/sljoin.myr", "lib/std/sldup.myr", "lib/std/slcp.myr", "lib/std/alloc.myr: slgrow"]}
{"id": "C55", "title": "IP address parsing", "statement": "std.ip4parse accepts exactly dotted quads with each part 0..255 and returns those parts; std.ip6parse accepts only groups of at most four hex digits and expands '::' correctly.", "quantifier": "all strings", "why_tests_cant": "unbounded strings", "anchors": ["lib/std/ipparse.myr: ipparse ip4parse ip6parse"]}
{"id": "C56", "title": "Character classification follows its tables", "statement": "std.isalpha/islower/isupper/isspace and std.tolower/toupper decide membership in (map by) the union of the listed ranges and single code points, for every code point.", "quantifier": "all code points", "why_tests_cant": "binary search over large tables; every code point matters", "anchors": ["lib/std/chartype.myr: findc isalpha islower isupper tolower toupper"]}
{"id": "C57", "title": "Comparison functions are total orders", "statement": "std.strcmp and std.numcmp are total orders; strcmp is the lexicographic byte order with prefixes first; strncmp and strcasecmp are compatible with it.", "quantifier": "all triples of strings", "why_tests_cant": "transitivity over all triples", "anchors": ["lib/std/cmp.myr: numcmp strcmp strncmp strcasecmp"]}
{"id": "C58", "title": "Hash tables never crash or hang", "statement": "For every history of puts and deletes and for every client hash function compatible with the key equality, every call on either hash table (compiler and std) returns: no out-of-bounds access, no assertion failure, no endless probe loop, and htkeys returns exactly as many keys as the table counts.", "quantifier": "all histories of operations, all hash functions (including constant ones)", "why_tests_cant": "an endless probe needs a table with no never-used slot left, i.e. a particular long interleaving of deletes and puts under particular collisions", "anchors": ["util/htab.c: htput htidx htdel htkeys grow", "lib/std/htab.myr: htput idx htdel htkeys resize"]}
{"id": "C59", "title": "Character iteration is total on arbitrary bytes", "statement": "For every byte string, valid UTF-8 or not, loops over std.bychar, std.bycharoff and std.bygrapheme end without an out-of-bounds abort; bycharoff's offsets increase up to the length of the string; bygrapheme's pieces are non-empty and concatenate to the string.", "quantifier": "all byte strings (and any cell width table)", "why_tests_cant": "invalid, truncated and overlong sequences in every position; termination cannot be observed by a test", "anchors": ["lib/std/utf.myr: charstep decode charlen graphemestep", "lib/std/striter.myr: bychar bycharoff bygrapheme"]}
{"id": "C60", "title": "Tokens and stripped strings are the words of the text", "statement": "std.bytok and std.strtok yield exactly the maximal runs of non-white-space characters of a valid UTF-8 text, in order; strfstrip removes exactly the leading blanks, strrstrip exactly the trailing white space; hassuffix decides the suffix relation.", "quantifier": "all texts (sequences of code points), all white space characters", "why_tests_cant": "white space characters of several bytes at every alignment; all lengths", "anchors": ["lib/std/striter.myr: bytok", "lib/std/strsplit.myr: strtok dostrtok", "lib/std/strstrip.myr: strfstrip strrstrip", "lib/std/hassuffix.myr: hassuffix"]}
{"id": "C61", "title": "strreplace replaces exactly the leftmost non-overlapping occurrences", "statement": "For a non-empty needle std.strreplace returns the text cut at the leftmost non-overlapping occurrences of the needle with the replacement put at each cut; it always ends, even if the replacement contains the needle.", "quantifier": "all texts, needles and replacements", "why_tests_cant": "overlapping occurrences, replacements containing the needle", "anchors": ["lib/std/strreplace.myr: strreplace"]}
{"id": "C62", "title": "Memory primitives", "statement": "std.memblit copies a region as if through a temporary, for every overlap of source and destination, and changes nothing else; memfill sets exactly the region; memeq decides equality of two regions.", "quantifier": "all addresses, all overlaps, all lengths, on each platform's implementation", "why_tests_cant": "direction bugs show only for particular overlaps and lengths modulo the word size", "anchors": ["lib/std/memops-impl+posixy-x64.s", "lib/std/memops-impl+plan9-x64.s", "lib/std/memops-impl.myr"]}
{"id": "C63", "title": "Whole-file reading and writing", "statement": "std.fslurp returns the complete content of a file under every schedule of short reads, and an error only if a read failed; readall fills the buffer or stops at end of file; writeall and fblat report success exactly when everything has been written in order; after a successful blat the file holds exactly the given bytes; cstrconv cuts at the first NUL.", "quantifier": "all contents and all schedules of short reads/writes and errors", "why_tests_cant": "the operating system's schedule of short reads cannot be forced in a test", "anchors": ["lib/std/slurp.myr: fslurp", "lib/std/readall.myr: readall", "lib/std/writeall.myr: writeall", "lib/std/blat.myr: blat fblat", "lib/std/cstrconv.myr: cstrconv"]}
{"id": "C64", "title": "Assembling subnormal floats rounds to nearest", "statement": "std.flt64assem and std.flt32assem, given a full-width mantissa and an exponent below the normal range, yield the representable number nearest to mant * 2^(exp-m), ties to even; exactly representable values are exact.", "quantifier": "all mantissas and all exponents just below the normal range", "why_tests_cant": "rounding errors affect one unit in the last place of subnormal numbers for particular bit patterns", "anchors": ["lib/std/fltbits.myr: flt64assem flt32assem"]}
{"id": "C65", "title": "Seeded generators differ and never degenerate", "statement": "std.mksrng gives different generators for different seeds; the state update merges no two states, so no sequence collapses into another and a generator that is not constant zero never becomes it.", "quantifier": "all seeds, all states, all numbers of steps", "why_tests_cant": "2^128 states", "anchors": ["lib/std/rand.myr: mksrng rngrandnum"]}
{"id": "C66", "title": "Slice iterators see every element once, in order", "statement": "Loops over iter.bychunk, byenum, byref, byreverse and byzip end and see exactly: consecutive pieces whose concatenation is the slice (all full but the last); indexed elements; one reference per element; the elements in reverse; pairs up to the shorter slice.", "quantifier": "all slices and chunk sizes (also 0 and negative)", "why_tests_cant": "boundary behaviour depends on length modulo chunk size", "anchors": ["lib/iter/chunk.myr", "lib/iter/enum.myr", "lib/iter/ref.myr", "lib/iter/reverse.myr", "lib/iter/zip.myr"]}
{"id": "C67", "title": "Interface files give back what was exported", "statement": "Syntax trees, declarations and type descriptions written to an interface file by the compiler are read back by an importing compilation with the same structure: same operators, names, literals, flags and type references, consuming exactly the bytes written.", "quantifier": "every tree, declaration and type, of any depth and size, and whatever follows it in the file", "why_tests_cant": "tests import a few library modules; the property is about every tree and about exact byte consumption in the presence of arbitrary following data", "anchors": ["parse/use.c: pickle, unpickle, wrsym, rdsym, wrstab, rdstab, wrtype, rdtype, typickle, tyunpickle", "util/pack.c"]}
{"id": "C68", "title": "Type descriptors tell a running program the type", "statement": "From the descriptor the compiler emits for a type, the run-time introspection functions recover its kind, its element types, the names and types of members and constructors in declaration order, the name of a named type, and the size and alignment the compiler uses for it.", "quantifier": "all types: any nesting, any number of members, any names, any descriptor placement in memory", "why_tests_cant": "descriptors nest to any depth and carry variable-length numbers; tests print a handful of types", "anchors": ["6/typeinfo.c: tydescsub, tydescblob, namedesc, structmemb, unionmemb, encodetypeinfo", "6/gengas.c: writeblob", "lib/std/introspect.myr: typedesc, typeinfo, ncnext, ncpeek"]}
{"id": "C69", "title": "Date arithmetic", "statement": "Adding a duration to an instant and taking the difference gives the duration, and subtracting it again restores the instant; adding days, hours, minutes or seconds moves the instant by exactly that much in any zone; adding months or years keeps the day of the month when it exists in the target month.", "quantifier": "all instants, zones, durations and periods", "why_tests_cant": "calendar arithmetic has special cases at month, leap year and zone boundaries; tests sample a few dates", "anchors": ["lib/date/date.myr: add sub addperiod subperiod duration mkdatetime recalc", "lib/date/types.myr: period"]}
{"id": "C70", "title": "Regular expressions decide their language", "statement": "regex.exec accepts a text if and only if the whole text is in the language of the pattern, and then reports the positions of the groups of one such match, each a part of the text; the regex can be used again afterwards.", "quantifier": "all patterns and texts", "why_tests_cant": "both patterns and texts are unbounded; a thread lost or merged wrongly shows only for particular combinations", "anchors": ["lib/regex/compile.myr: compile regexparse gen", "lib/regex/interp.myr: exec iexec run step"]}
{"id": "C71", "title": "Regular expression search finds the leftmost longest match", "statement": "regex.search reports a match if there is one anywhere in the text, and then the leftmost and among those the longest one; isearch reports its position in the text.", "quantifier": "all patterns and texts", "why_tests_cant": "unbounded texts and patterns", "anchors": ["lib/regex/interp.myr: search isearch"]}
{"id": "C72", "title": "Regular expression substitution", "statement": "regex.sub replaces the part of each group of a whole match, suball does so for every match from left to right and keeps the other bytes; both end without undefined behaviour and leave the regex usable.", "quantifier": "all patterns, texts and replacements", "why_tests_cant": "group positions depend on the match; wrong orders or empty matches occur for few inputs", "anchors": ["lib/regex/interp.myr: sub suball sbsub sbsuball dosubst cleanup"]}
{"id": "C73", "title": "Compiling a regular expression always answers", "statement": "regex.compile returns a regex or an error for every byte string: it ends, and does not stop the program or read outside the pattern.", "quantifier": "all byte strings", "why_tests_cant": "patterns come from users; only malformed ones reach the bad paths", "anchors": ["lib/regex/compile.myr: compile regexparse altexpr catexpr repexpr baseexpr chrclass escaped gen genchar genranges"]}
{"id": "C74", "title": "Condition variables lose no signal", "statement": "A thread which has begun to wait on a condition variable before a condbroadcast is woken by it; a condsignal wakes one of the threads which wait, if there is one; both also for waiters which have released the mutex but are not yet asleep.", "quantifier": "all thread counts, schedules, spurious wake-ups", "why_tests_cant": "the window between releasing the mutex and falling asleep is hit by chance only", "anchors": ["lib/thread/condvar+linux.myr: condwait condsignal condbroadcast", "lib/thread/mutex+futex.myr: mtxcontended"]}
{"id": "C75", "title": "A future hands over its value and its memory", "statement": "futget returns the value given to futput, not before futput was called, and does not sleep for good after it; no thread touches the future after futget has freed it.", "quantifier": "all schedules of one futput and one futget, all spurious wake-ups", "why_tests_cant": "the free may come between any two steps of the putting thread", "anchors": ["lib/thread/future.myr: mkfut futput futget", "lib/thread/sem+futex.myr: semwait sempost"]}
{"id": "C76", "title": "The interference graph joins exactly the registers that may not share", "statement": "For every function in which the live-out sets are right, two registers are joined when some instruction writes one of them while the other is still needed behind it, or writes both of them. The source of a copy is not joined to its target by that copy. Nothing else is joined, and every virtual register and every copy of the function is recorded for the colouring.", "quantifier": "every function (any blocks, any edges, any instructions with any operands and implicit registers), every instruction in it and every pair of registers", "why_tests_cant": "whether an edge is missing depends on the whole live set at one instruction, kept in a sparse set whose arrays carry over from block to block; a missing edge shows only if the colouring happens to use the freedom", "anchors": ["6/ra.c: build uses defs ismove"]}
{"id": "C77", "title": "Register allocation never overwrites a value that is still needed", "statement": "For every function whose instructions use the high byte registers in the allowed ways and whose colouring spills nothing: an instruction never writes a machine register which overlaps the machine register of another value needed later. Only the source and the target of a copy may share one.", "quantifier": "every function, every instruction, every value live behind it, every order in which the allocator merges, freezes and removes registers", "why_tests_cant": "two values may only collide at one point of one path; the allocator makes thousands of dependent choices per function, and tests cover few combinations of merged and interfering registers", "anchors": ["6/ra.c: regalloc liveness build coalesce combine paint"]}
{"id": "C78", "title": "Compiling match statements is safe and redundancy reports are right", "statement": "For every list of well-typed patterns the compiler ends without a crash, with code or an error message; a pattern reported as matched by an earlier case is never the first pattern matching any value.", "quantifier": "all non-empty pattern lists, all values", "why_tests_cant": "which rows get merged, dropped or compared with a null default depends on combinations of patterns no finite test set covers", "anchors": ["mi/match.c: compile dtreusable project gendtree verifymatch genmatchcode"]}
{"id": "C79", "title": "Bit operations, powers and bit counts of big integers", "statement": "std.bigand and std.bigor of natural numbers are the bitwise operations, std.bigbitcount is the least r with |a| < 2^r, std.bigmodpow(b,e,m) is b^e mod m for m > 0; operands other than the destination keep their value.", "quantifier": "all natural numbers and moduli", "why_tests_cant": "the number of digits of the operands is unbounded and the cases differ by which operand is longer or zero", "anchors": ["lib/std/bigint.myr: bigand bigor bigandi bigbitcount bigmodpow bigdigit"]}
{"id": "C80", "title": "Slices on the heap keep their elements when grown", "statement": "std.slalloc gives a slice of the length asked for in memory no other live allocation uses; std.slgrow gives the length asked for and keeps the elements present in both lengths, whether or not the slice moves; slzalloc and slzgrow zero the new elements; slfree returns exactly the memory; contents of other live blocks never change.", "quantifier": "all histories of the heap, element sizes, old and new lengths", "why_tests_cant": "whether a slice moves depends on the size class, the header before the elements and the mark after them are shared with the heap's bookkeeping, and histories are unbounded", "anchors": ["lib/std/alloc.myr: slalloc slzalloc slfree slgrow slzgrow slcap inithdr checkhdr", "lib/std/bytealloc.myr: bytealloc bytefree allocsz"]}
{"id": "C81", "title": "DEFLATE streams are decoded", "statement": "For every byte string that starts with a DEFLATE stream in the sense of RFC 1951 (any number of stored, fixed and dynamic blocks, any prefix codes, any references within the output), flate.decode succeeds, writes exactly the bytes the stream stands for, and consumes no bit beyond the stream except up to the byte boundary.", "quantifier": "all byte strings, all sequences of blocks, all code-length assignments satisfying Kraft's inequality", "why_tests_cant": "Streams are unbounded and the space of dynamic codes is astronomically large; tests cover the output of a few encoders only.", "anchors": ["lib/flate/flate.myr: decode", "lib/flate/flate.myr: decomp", "lib/flate/flate.myr: dynamic", "lib/flate/flate.myr: nocomp", "lib/flate/flate.myr: bits"]}
{"id": "C82", "title": "Bytes that are no DEFLATE stream are reported", "statement": "For every byte string that does not start with a DEFLATE stream, flate.decode returns an error; no input stops the program, runs forever or is accepted although it stands for nothing.", "quantifier": "all byte strings", "why_tests_cant": "Malformed inputs are all byte strings but a thin set; the fatal ones are specific codes that no encoder emits.", "anchors": ["lib/flate/flate.myr: decomp tables extral/extrad", "lib/flate/flate.myr: mkhufc", "lib/flate/flate.myr: decode"]}
{"id": "C83", "title": "Digests are those of the standards", "statement": "For every message, in however many pieces it is added, md5, sha1, sha224, sha256, sha384, sha512 and the four keccak functions give the digest RFC 1321, FIPS 180-4 and the Keccak specification define (SHA-384/512 for messages of fewer than 2^61 bytes, Keccak for lengths that fit std.size), write no byte of the destination beyond it, and never abort.", "quantifier": "all messages, all splits, all earlier contents of the state and destination", "why_tests_cant": "Test vectors cover a few messages; a wrong register in one of several hundred unrolled lines, or a padding case for one residue of the length, can hide behind them, and equality with the standard is a statement about all messages.", "anchors": ["lib/crypto/md5.myr: step", "lib/crypto/sha1.myr: step", "lib/crypto/sha256.myr: step", "lib/crypto/sha512.myr: step", "lib/crypto/sha3.myr: keccakf", "lib/crypto/sha256.myr: tail"]}
{"id": "C84", "title": "HMAC is that of RFC 2104", "statement": "For every key and message, however cut into pieces, hmacinit, hmacadd and hmacfin over any of the hashes of the trait give the MAC of RFC 2104 in the first bytes of a destination at least as long as a digest and leave the rest of it alone.", "quantifier": "all keys (shorter than, as long as and longer than a block), all messages, all splits, all destinations long enough", "why_tests_cant": "Keys and messages are unbounded; callers choose the destination.", "anchors": ["lib/crypto/hmac.myr: hmacinit", "lib/crypto/hmac.myr: hmacfin"]}
{"id": "C85", "title": "ChaCha20 encrypts", "statement": "After chacha20keysetup and chacha20ivsetup with a key of 16 or 32 bytes and a nonce of 8, chacha20encrypt writes to the destination the message xored with the ChaCha20 keystream, for messages of any length, in place or between separate buffers, changes no other byte, and moves on in the stream by the blocks used, so that a message encrypted in pieces of whole blocks is the message encrypted at once and encrypting again gives it back. Keys of other sizes are refused.", "quantifier": "all keys, nonces, positions in the stream (the counter passing 2^32 included), message lengths, contents of memory and placements of the two buffers", "why_tests_cant": "Test vectors use whole blocks from position zero; lengths that are not multiples of 64, the carry of the counter and the bytes around the destination are not seen by them.", "anchors": ["lib/crypto/chacha20.myr: chacha20keysetup", "lib/crypto/chacha20.myr: chacha20ivsetup", "lib/crypto/chacha20.myr: chacha20encrypt"]}
{"id": "C86", "title": "Constant-time comparisons decide", "statement": "The branch-free operations of the crypto library compute what they are named for on unsigned numbers of every width: eq, ne, lt, le, gt and ge give 1 or 0 as the comparison holds, not exchanges 1 and 0, mux chooses by a 1 or 0, min and max give the lesser and the greater; and bufeq tells whether two buffers are equal, for any two buffers.", "quantifier": "all pairs of values of all widths; all pairs of buffers", "why_tests_cant": "Wrong answers appear only for pairs of large and small numbers, or of buffers whose lengths differ; there are far too many pairs to try, and library tests compare buffers of one length.", "anchors": ["lib/crypto/ct.myr: eq", "lib/crypto/ct.myr: gt", "lib/crypto/ct.myr: lt", "lib/crypto/ct.myr: mux", "lib/crypto/ct.myr: min", "lib/crypto/ct.myr: bufeq"]}
{"id": "C87", "title": "Fixed-size numbers compute modulo their size", "statement": "A ctbig of n bits behaves as a number modulo 2^n: sums, differences and products are those of the numbers modulo 2^n, comparisons compare the numbers and leave them as they were, ctiszero tells zero, numbers made of an integer or of little- or big-endian bytes are those numbers modulo 2^n (too many bytes stop the program), and writing a number as bytes gives its (n+7)/8 bytes in either order.", "quantifier": "all sizes n (not only multiples of the digit size), all values, all byte strings, all contents of fresh memory", "why_tests_cant": "Carries and borrows between digits, partly filled top digits and uninitialised memory depend on values and sizes; the tests use a handful of constants and whole digits.", "anchors": ["lib/crypto/ctbig.myr: ctadd", "lib/crypto/ctbig.myr: ctsub", "lib/crypto/ctbig.myr: ctmul", "lib/crypto/ctbig.myr: cteq", "lib/crypto/ctbig.myr: ctlt", "lib/crypto/ctbig.myr: ctiszero", "lib/crypto/ctbig.myr: mkctbigle", "lib/crypto/ctbig.myr: mkctbigbe", "lib/crypto/ctbig.myr: mkctbign", "lib/crypto/ctbig.myr: ctbytesle", "lib/crypto/ctbig.myr: ctbytesbe"]}
{"id": "C88", "title": "Modular powers", "statement": "ctmodpow(r, a, e, m) sets r to a^e mod m for every a < m, every exponent and every odd modulus m that fills its digits (the others are refused).", "quantifier": "all operands of all sizes from 64 bits on, all exponents", "why_tests_cant": "The quotient of the conversion to Montgomery form is estimated from the top digits; the estimate goes wrong for rare pairs that random tests practically never hit.", "anchors": ["lib/crypto/ctbig.myr: ctmodpow", "lib/crypto/ctbig.myr: growmod", "lib/crypto/ctbig.myr: tomonty", "lib/crypto/ctbig.myr: montymul", "lib/crypto/ctbig.myr: ninv32"]}
{"id": "C89", "title": "RSA encryption is that of PKCS #1", "statement": "For an odd modulus of k bytes, a message of at most k-11 bytes and a padding of nonzero bytes, rsapub_pkcs15 gives the k bytes of (00 02 padding 00 message)^e mod n, first byte first.", "quantifier": "all moduli of all lengths, exponents, messages and paddings", "why_tests_cant": "The tests encrypt one message with one 2048-bit key; lengths of modulus and message at the boundaries are not tried.", "anchors": ["lib/crypto/rsa.myr: rsapub_pkcs15", "lib/crypto/rsa.myr: rsapubseed_pkcs15", "lib/crypto/rsa.myr: pad", "lib/crypto/rsa.myr: bitcount"]}
{"id": "C90", "title": "Arguments arrive where the function looks for them", "statement": "For every function type and every call of it, the caller puts each argument into the registers or the stack bytes where the called function looks for that parameter; different arguments never share a register or a byte, arguments on the stack are aligned as their types need and lie within the space that the caller reserves, and compiling the call neither fails nor depends on memory outside the compiler's tables.", "quantifier": "all lists of parameter and result types (numbers, structs, unions, arrays, slices, nested in any way), any number of them, with and without variadic arguments", "why_tests_cant": "Caller and function are compiled by two different pieces of code, often in different files; they must agree for every combination of types and for every number of registers already used, of which tests contain a few.", "anchors": ["6/typeinfo.c: classify", "6/typeinfo.c: classify_recursive", "6/isel.c: placearg", "6/isel.c: gencall", "6/isel.c: countargs", "6/isel.c: retrievearg", "6/isel.c: addarglocs", "6/simp.c: simpcall"]}
{"id": "C91", "title": "Variadic arguments are read back", "statement": "A variadic function that walks over its arguments with vanext, asking for the types that were passed, reads exactly the values that the caller wrote, in order, whatever their types; the type description handed along describes exactly the variadic arguments; and vabytes gives the bytes of the next argument.", "quantifier": "all lists of fixed and variadic argument types", "why_tests_cant": "Every argument moves the position of the later ones by its size and alignment; the tests format a few combinations.", "anchors": ["lib/std/varargs.myr: vastart", "lib/std/varargs.myr: vanext", "lib/std/varargs.myr: vabytes", "6/simp.c: vatypeinfo", "6/isel.c: gencall"]}
{"id": "C92", "title": "A returned value stays in its variable", "statement": "Local variables never overlap and are aligned; and storing the value that a call returned into the variable for it writes all bytes of the variable and no others.", "quantifier": "all lists of local variables, all types of returned values", "why_tests_cant": "An overrun shows only when a live variable happens to lie directly above in the frame.", "anchors": ["6/isel.c: gencall", "6/isel.c: tymodepart", "6/simp.c: forcelocal"]}
{"id": "C93", "title": "AES is AES", "statement": "After the key schedule has been set up from a key of 16, 24 or 32 bytes, encrypting a message of whole blocks puts every block through the cipher of FIPS 197 and decrypting through its inverse, in place or from one buffer to another, and changes no other byte of memory; decrypting gives back what was encrypted; keys and messages of other lengths are refused before anything is written. Earlier contents of the context and of the stack do not matter.", "quantifier": "all keys, all messages of any length, all placements of the buffers that are the same or apart, all contents of uninitialised memory", "why_tests_cant": "The implementation works on single bits of interleaved blocks; 115 gates and tens of masks have to be right for each of 2^128 blocks and up to 2^256 keys, and the test vectors touch a handful.", "anchors": ["lib/crypto/aes.myr: aeskeysched", "lib/crypto/aes.myr: aesencrypt", "lib/crypto/aes.myr: aesdecrypt", "lib/crypto/aes.myr: sbox", "lib/crypto/aes.myr: expand", "lib/crypto/aes.myr: ortho"]}
{"id": "C94", "title": "Command lines are read the usual way", "statement": "Parsing a command line gives the options, each with its argument (from the rest of the word or from the next word), in the order given, and all other words in order as operands; flags may be joined in one word; after a word '--' all words are operands; a lone '-' is an operand; arguments are stored in the variables given for their options; unknown options, missing arguments and wrong numbers of operands end the program with status 1, an undefined -h or -? with status 0.", "quantifier": "for all option descriptions with code points as letters, all lists of words of characters; termination and absence of crashes for all lists of byte strings", "why_tests_cant": "Where a word belongs depends on all words before it and on the descriptions; the test tries a few fixed command lines.", "anchors": ["lib/std/optparse.myr: optparse", "lib/std/optparse.myr: optnext", "lib/std/optparse.myr: next", "lib/std/optparse.myr: optinfo"]}
{"id": "C95", "title": "Lowering statements to jumps keeps their meaning", "statement": "A compiled function body ends exactly when the body as written does, with the same returned value and the same memory: operands are evaluated left to right, assignments right to left, '&&', '||' and '?:' evaluate only what is needed, post-increments are done once after the whole expression, and if, loops, break, continue and return go where the manual says.", "quantifier": "for all bodies of such statements and expressions, of any size and nesting, all initial memories and contents of temporaries, all meanings of operators and functions (which may change any memory), ending or not", "why_tests_cant": "The lowered code depends on how effects, choices and increments are nested, and its runs on all values; tests compile a few programs.", "anchors": ["mi/flatten.c: flatten", "mi/flatten.c: flattenloop", "mi/flatten.c: flattenif", "mi/flatten.c: flattencond", "mi/flatten.c: flattenlazy", "mi/flatten.c: visit", "mi/flatten.c: assign", "mi/flatten.c: draininc"]}
{"id": "C96", "title": "Time zones give the offset in force", "statement": "For every well-formed time zone file (TZif, RFC 8536) and every time, the offset used is that of the last transition at or before the time, and that of the first local time type before all transitions; reading a file gives back its transitions, types, names and leap seconds.", "quantifier": "for all files that can be written, with any header version and any bytes after the data, all times in microseconds", "why_tests_cant": "Zone files have hundreds of transitions and differ between systems; no test compares all times of all possible zones.", "anchors": ["lib/date/zoneinfo+posixy.myr: findtzoff", "lib/date/zoneinfo+posixy.myr: load", "lib/date/zoneinfo+posixy.myr: fetchttinfo"]}
{"id": "C97", "title": "Dates written with a format are read back", "statement": "For every format of letters that say something exactly (year, month, day, hour, minute, second, weekday, zone), each at most once, and every valid date: writing the date with the format and reading the text with the same format gives a date that agrees in everything the format says, and whose instant is that of its fields.", "quantifier": "for all formats built of the known letters and any other characters, all dates with years of four digits and zones of whole minutes", "why_tests_cant": "Formats are free text; tests use a handful of formats, mostly with dates whose days have two digits and with zones of whole hours.", "anchors": ["lib/date/fmt.myr: datefmt", "lib/date/fmt.myr: timezone", "lib/date/parse.myr: filldate", "lib/date/parse.myr: tzoffset", "lib/date/parse.myr: intval"]}
{"id": "C98", "title": "Rounding down, up and towards zero is exact", "statement": "For every finite number of 32 or 64 bits, floor gives the greatest whole number not above it, ceil the least not below it, and trunc the number without its fraction; the result is finite and has the sign of the number (so rounding -0.5 up gives -0). Infinities are kept.", "quantifier": "for all bit patterns of finite numbers, normal and denormal, of both widths", "why_tests_cant": "There are 2^64 numbers; the interesting ones are those where the rounding carries into the exponent, the denormal ones and the largest with a fraction.", "anchors": ["lib/math/trunc-impl.myr: floor64", "lib/math/trunc-impl.myr: floor32", "lib/math/trunc-impl.myr: trunc64", "lib/math/trunc-impl.myr: ceil64"]}
{"id": "C99", "title": "Rounding to an integer gives the nearest one, the even one of two", "statement": "For every finite number of 32 or 64 bits that is less than the range of the integers of that width, rounding to an integer gives the integer nearest to it; of two equally near ones it gives the even one. For numbers outside of the range, infinities and NaNs it gives the least integer.", "quantifier": "for all bit patterns of both widths", "why_tests_cant": "There are 2^64 numbers; ties and carries lie at particular bits of each exponent, and the shift counts change from right to left in between.", "anchors": ["lib/math/round-impl.myr: rn64", "lib/math/round-impl.myr: rn32", "lib/math/util.myr: need_round_away"]}

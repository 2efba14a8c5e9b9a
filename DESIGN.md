# Design: a Lean 4 model of the Myrddin toolchain (oridb/mc)

## 1. What is being verified

`/repo` holds the Myrddin compiler (C: `util/`, `parse/`, `mi/`, `6/`) and its
libraries (Myrddin: `lib/*`).  We cannot run it; we transcribe functions into
Lean, one Lean definition per C/Myrddin function (or per loop of a function),
each with a comment citing file and lines, and prove properties of the
transcription for all inputs.

`properties.jsonl` lists the claims C01.. in terms of the public API.
`MANIFEST.json` maps each claim to theorem names.  Files:

* `lean/Verif/Prelude.lean` – outcome type and small shared facts.
* `lean/Verif/<Area>/Model.lean` (or `<Area>.lean`) – transcriptions.
* `lean/Verif/<Area>/Lemmas.lean` – helper lemmas.
* `lean/Verif/<Area>/Props.lean` – specification definitions and the property
  theorems, each with a concrete `example` of a non-trivial case next to it.

## 2. Conventions of the model

* Outcomes.  `Res α = ok a | abort | ub | spin`.  `abort` is a *defined* crash
  (Myrddin slice bounds check, `std.die`, `assert`, `fatal`), `ub` is C
  undefined behaviour or an unchecked out-of-bounds access, `spin` is an endless loop.  A theorem about a
  successful result also states that the outcome is `ok`.
* Integers.  `BitVec n`/`UIntN` with wrap-around where the code computes at a
  fixed width and the wrap matters; `Nat`/`Int` where the property needs the
  mathematical value, with the no-overflow precondition stated in the theorem
  or the comment.  Lengths (`std.size`, `size_t`) are unbounded `Nat`s unless
  said otherwise: memory exhaustion and 2^63-byte objects are not modelled.
  Where nothing else fixes its type, a length or an index of a Myrddin program is
  an `int` of 32 bits (parse/infer.c:2232-2238, 6/simp.c:321-336), so statements about
  such code speak of slices of fewer than 2^31 elements; C52, C83, C84, C85 and C93
  model the cut lengths and say what happens beyond.
* Heap.  Mutable arrays are Lean `List`/`Array`/functions passed explicitly.
  Allocation always succeeds.  Aliasing is modelled only where an API allows
  aliased arguments and we say so.
* Loops become structural or well-founded recursive functions; where the C
  loop may fail to terminate (e.g. probing a full table) the model uses an
  explicit fuel and returns `spin` on exhaustion, and a theorem shows the
  fuel suffices (that is the termination claim) or that no fuel suffices (a
  non-termination finding).
* Concurrency.  Interleaving semantics: one transition per atomic memory
  operation (`x*` intrinsics), futex syscalls modelled as: wait atomically
  compares and parks, wake moves parked threads to runnable; spurious wake-ups
  allowed.  Sequentially consistent memory (x86 lock-prefixed instructions);
  plain racing loads are single atomic loads.
* Specifications are stated with plain Lean/Mathlib notions (`Int`, `List`,
  `Finset`, `Nat.digits`-like small functions) that do not mention the model's
  helpers.
* When the code does not satisfy a claim, the file contains (a) a theorem
  refuting the full claim with a concrete witness and (b) a `_partial` theorem
  with the strongest version we could prove; section 5 lists these findings.

## 3. Per-property plan

| Id | Modelled code | Method |
|----|---------------|--------|
| C01 | util/bitset.c, chunks as list of 64-bit words | refinement to `Nat → Prop`; per-op lemmas on `testBit`, `bsiter` by induction on remaining bits |
| C02 | util/htab.c, open addressing arrays | representation invariant (probe-chain) ⇒ map refinement over histories without deletes; concrete refutation with deletes |
| C03 | lib/std/htab.myr | same invariant; refutation with deletes |
| C04 | lib/std/bitset.myr | like C01; refutation for bsintersect |
| C05, C06 | lib/std/utf.myr, striter.myr | case split on length classes, bit arithmetic; induction over the string |
| C07, C08 | strsplit/strjoin/strfind | loop invariants by functional induction |
| C09 | sort.myr heapsort over arrays | heap invariant, permutation by swaps |
| C10 | search.myr | interval invariant |
| C11 | intfmt/intparse | digit-list lemmas, value round trip |
| C12 | getint/putint/endian | bit-level case split |
| C16 | siphash24 | refinement to a reference written from the paper |
| C19–C24 | lib/thread | inductive invariants over interleaving transition systems, any number of threads |
| C29 | lib/date | arithmetic (omega) on Algorithm 199; round trip |
| C30, C31 | lib/escfmt | small shell/HTML/URL reader as spec; round trip by induction |
| C32 | pathjoin.myr | component-list refinement, idempotence |
| C33 | iter/perm.myr | next-permutation is the lexicographic successor |
| C36 | parse/fold.c | evaluation-preservation for 64-bit signed wrap-around; refutations for narrow/unsigned types |
| C37, C38 | 6/typeinfo.c, 6/blob.c | structural induction on types; refutation for gap-one arrays |
| C39–C42 | 6/ra.c, mi/reaching.c, mi/dfcheck.c, mi/cfg.c | fixpoint iteration: monotone + bounded ⇒ terminates; path soundness by induction over paths; refutation for C41 |
| C43 | 6/ra.c paint | invariant over the selection stack |
| C44 | util/pack.c | round trip of codecs |
| C45 | typeinfo/introspect | round trip of packed ints |
| C46 | rand.myr | range by modular arithmetic; refutation for rngrandbytes |
| C47 | strbuf.myr | invariant over operations |
| C50, C51 | lib/regex | non-termination witness as a reachable cycle; merge/range refutations, positive cases |
| C53 | fltbits.myr | bit-vector reasoning by splitting fields |
| C58 | util/htab.c, lib/std/htab.myr | the invariant of C02/C03 without uniqueness: load bound ⇒ probes end |
| C59 | lib/std/utf.myr, striter.myr | each step consumes at least one byte and at least charlen of the decoded character |
| C60, C61 | striter.myr bytok, strsplit.myr strtok, strstrip.myr, strreplace.myr | refinement to words / leftmost cut over lists of code points |
| C62 | memops-impl (POSIX and Plan 9 assembly, portable) | memory as a function, string instructions as loops; pointwise description of the final memory |
| C63 | slurp, readall, writeall, blat, cstrconv | the schedule of system call results is an arbitrary function; loop invariants |
| C64 | fltbits.myr (denormal part) | field arithmetic; refutation of rounding |
| C65 | rand.myr (state, seeding) | bit-level injectivity |
| C66 | iter/*.myr | iteration protocol as `collect`; induction |
| C16 | hashfuncs.myr:54-108 | refinement to the published algorithm, all messages and keys |
| C55 | ipparse.myr | loop invariants over the groups; refutations by evaluation |
| C37, C38 | 6/typeinfo.c:240-391, 6/blob.c:108-340, util/util.c:77-102 | structural induction over types and initialisers against "member at its aligned offset" specifications; C38 refuted |
| C44, C67 | util/pack.c, parse/use.c:70-121, 164-215, 225-480, 489-748 | reader/writer round trip `r (w ++ rest) = ok (v, rest)`, induction over trees with fuel for recursion depth |
| C45, C68 | 6/typeinfo.c:23-229, 6/gengas.c:258-327, introspect.myr:140-390 | round trip of packed numbers (first byte by a complete table, the tail by induction); descriptors by induction over types; a cursor lists the members in order |
| C30, C31 | lib/escfmt/escsh.myr, eschtml.myr, escurl.myr (escre.myr: see regular expressions) | a reader of shell words, HTML references and percent triplets as specification; reading back by induction over the text, single bytes by complete tables |
| C29, C69 | lib/date/date.myr:30-236 (zone files and names are not modelled: the offset is a parameter) | specification: the calendar obtained by turning pages from 1 January of year 1; the day number grows by one per page (case analysis on months and leap years), the code inverts it (linear arithmetic) |
| C31 (regex), C50, C51, C70–C73 | lib/regex/compile.myr:25-117, 119-815 (parser, class ranges, range trie, code generator, encoding), lib/regex/interp.myr:31-174, 183-502 (virtual machine, search, substitution), lib/regex/types.myr:66-112; the Unicode tables of ranges.myr are a parameter; debug output and freeing of threads are left out; `states` is the set of C04; every loop takes a number of rounds | specification: the language and groups of a syntax tree (`Parse`), and the syntax itself (`Gr`), both written without the code. Parser: for every expression of the grammar, induction on the derivation. Generator: the code of a tree simulates `Parse`, by induction on the tree; ranges by a trie invariant. Machine: an invariant says that the queues hold exactly the threads reachable after each byte, up to threads merged by `states`; a thread visits an instruction at most once per position because nothing empty is repeated, which gives the end. Search and substitution by induction over positions. `run_mono`: more rounds never change an answer |
| C19–C24, C74, C75 | lib/thread/mutex+futex.myr:22-117, condvar+linux.myr:21-56, rwlock+futex.myr:30-158, sem+futex.myr:22-71, waitgrp+futex.myr:16-36, waitgrp.myr:15-50, mutex.myr:16-62, sem.myr:16-66, rwlock.myr:25-78, queue.myr:25-65, future.myr:16-32; futex+linux.myr:16-65 as the two atomic actions \"compare and sleep\" and \"wake one sleeper if there is one\", with wake-ups for no reason. Sequentially consistent memory; every atomic operation is one step; `nanosleep` left out; other systems' futexes and the Plan 9 files not modelled; `queue` over an abstract mutex, `future` for one putter and one getter | a state holds one program counter per thread (`Fin n`, any `n`); a schedule is a list of events; invariants by induction over the schedule (`run_inv`), with counts and sums over all threads (`cnt`, `tot`). Lost wake-ups: the number of permits (values in the queue) is at most the number of threads about to wake or to look, whenever a thread sleeps. Queue: ghost list of nodes, ownership of nodes by threads, histories |
| C36 | `parse/fold.c:18-277` on integer expressions: literals, variables with constant declarations, + - * / % << >> \| & ^, negation, casts, calls; array literals with indices. Typed expressions; a literal remembers the declaration it was taken from, since the compiler shares the node | Specification: evaluation in the width of the type with the list of calls made (`eval`). Seven counterexamples. `fold_preserves_partial`: same type, same value, same calls, same traps; `fold_constant_partial`: a constant expression becomes a literal; `fold_const_preserves_partial`: with named constants; `fold_array_partial`: elements sorted by index |
| C40–C42 | `mi/cfg.c:18-278` (mkcfg, trim), `mi/reaching.c:17-169`, `mi/dfcheck.c:17-141` on the statement list of a function; expressions keep variables, addresses, calls and other operators; void calls to functions which do not return | Specification: steps and runs over the statement list itself (`Runs`), definitions which reach a place without another assignment between (`Flows`), places a variable is undefined at (`Undefined`); it does not mention blocks. `Flow/Lemmas` shows that each run is a path of the trimmed graph; `Flow/Reach` that the loop ends in the least solution. `no_fall_off`, `reaching_exact_partial`, `undef_rejected_partial`, `reject_reason`, `check_total`; counterexamples `reaching_violated`, `undef_increment_violated`, `undef_store_violated` |
| C39, C43, C76, C77 | `6/ra.c:27-1112` (uses, defs, udcalc, liveness, build, addedge, mkworklist, decdegree, simp, coalesce, combine, freeze, selspill, paint, getalias) with the register tables; instructions are their operands and the rows of the use and def tables; rewriting after a spill (`6/ra.c:1114-1370`) is not modelled | Specification: `LiveAt` (some path reads before it writes), `Overlap` on register families, `Joined`, `Copies`; none mentions the allocator. `Ra/Live`: the rounds end in the least solution. `Ra/Build`: the sparse set holds the live registers. `Ra/Colour`, `Ra/Loop`: an invariant of the state under every step of the work list loop (edges reach the representatives of merged registers, merged registers have one width, the stack holds each representative). `Ra/Paint`: colours given so far are apart. `liveness_partial`, `build_spec`, `colour_partial`, `allocation_partial`; counterexamples `liveness_violated`, `colour_violated` |
| C34, C35, C78 | `mi/match.c:90-178` (loads, captures), 193-263 (loadeq, dtreusable), 418-570 (rows), 576-846 (project, compile, verifymatch), 924-1128 (gendtree, genmatchcode, genmatch). Patterns: gap, variable, literal, string, constant, pointer, union, tuple/array/struct, alternatives. Floats are compared by their bits, while the machine compares them as numbers; the C heap, `ncons` of recursive types and messages are not modelled | Specification: `Pat.bind` and `first` (the first pattern which matches, with its bindings), `Pat.HasTy`, `HasVal`; no rows, paths or nodes. `compile_ok`: a value walks the graph to the first row it satisfies (invariant `Inv`: rows are the originals without tested slots); `gencode_ok`, `walk_runs`: the emitted jumps follow the graph. `compile_total`: no crash; `compile_exh`: no value gets stuck. Theorems: `first_match_partial`, `exhaustive_partial`, `linear_match_partial`, `wild_exhaustive`, `compile_ends`, `compile_no_crash_partial`, `redundant_sound_partial`; counterexamples: `first_match_violated`, `first_match_const_violated`, `first_match_capture_violated`, `exhaustive_violated`, `compile_crash_violated`, `compile_const_violated`, `compile_or_violated` |
| C13–C15, C79 | `lib/std/bigint.myr:98-142` (mkbigint, bigfrombytes), 182-310 (bigbfmt, bigparse, bigeq), 392-649 (comparison, addition, subtraction, multiplication with Karatsuba), 651-845 (division, and/or, bigmodpow, nlz), 849-1041 (shifts, machine operands, trim, bigbitcount). Digits are natural numbers below 2^32, 64-bit arithmetic is taken modulo 2^64 where it could wrap. Allocation, freeing and aliasing of the operands are not modelled; Karatsuba and the loops take fuel (`spin`). `bigrand`, `bigisneg`, `bigiszero` not modelled | Specification: `Rep x z` (the digits of Mathlib's `Nat.digits`, and the sign), `text` (positional notation), `IntFmt.readNum`. Values by `Nat.ofDigits`; carry invariants for the loops; Knuth's algorithm D with the two-digit estimate (`fixq_spec`), multiply-and-subtract and add-back (`divstep_spec`, `bigdivmod_exact`). Counterexamples: `bigmul_violated`, `bigdivmod_violated`, `mkbigint_signed_violated`, `bigfrombytes_violated`, `bigand_violated`, `bigandi_violated`, `bigor_violated`, `bigmodpow_violated` |
| C17, C18 | `lib/std/bytealloc.myr:33-462`: bytealloc (126-143), bytefree (146-166), zbytealloc (89-95), bigalloc (168-207), bigfree (209-257), mkslab (269-313), bktalloc (320-344), bktfree (352-395), bktnum (405-417), allocsz (423-438), align/nextchunk/mtrunc (444-462); getmem/freemem (`syswrap+posixy.myr:134-138`). Memory is a function from addresses to bytes with the set of mapped addresses; access to an unmapped address is `ub`. Addresses and sizes are natural numbers (the system gives memory below 2^47, so sums do not wrap). Each operation is one step, under `memlck` (49-87); tracing is off. A block is freed with the size it was asked for. The answers of the system are a parameter of each request | Specification: histories `Reach` of requests, frees and arbitrary writes into live blocks; `Sound` (pairwise disjoint, aligned, mapped). Proof: ghost state with the slabs, their free chunks, and the lists of slabs per bucket (`Inv`); counting shows that a slab is retired only when all but the chunk being freed are free; regions of large blocks, slabs and cached blocks stay separate (`Sep`). Counterexample `sound_violated` |
| C80 | `lib/std/alloc.myr:45-187`: slalloc, slzalloc, inithdr, checkhdr, slfree, slgrow, slzgrow, slcap; memblit (`memops-impl.myr:10-30`) as one copy of mapped memory (its loops are C62). The element size is a parameter; sizes do not wrap. `alloc`, `free`, `mk` (13-43) are `bytealloc` of one element and not modelled again | Specification: `Held1` (header, mark, capacity, in a block which is live in a history of C17), `Kept` (bytes unchanged). On top of the theorems of C17: header writes and copies are writes into the slice's own block. The growth loop ends (`growLoop_ge`) and overshoots by at most a quarter (`growLoop_le`) |
| C25 | `lib/json/parse.myr:20-404` (all of the parser; positions are the text still to be read; line and column of errors and freeing are left out) and `fmt.myr:14-86`. Numbers are of an arbitrary type, `std.flt64parse` and the formatting of a `flt64` are parameters. Recursion is by fuel, which `parse_total` shows to suffice | Specification: the grammar of RFC 8259 over code points, relating texts to values (`Doc`; pairs of surrogates left out). `parse_total` and `parse_depth`: for all bytes, a value nested at most 1024 deep or an error. `parse_reads_partial` and `rejects_partial`: both directions between the grammar and the parser, for texts without `\u` and `,}`, empty arrays and objects counted as nesting. `format_round_partial`: values whose strings have no quotes and no control characters but the four which are escaped. Four refutations with witnesses |
| C48 | `lib/bio/bio.myr`: `fill`, `ensureread`, `read`, `getb`, `peekb`, `getc`, `peekc`, `readto`, `readterm`, `skipto`, `skipspace`, `readln`, and `geti.myr`: `getle`, `getbe`. The source is the bytes it will deliver and a plan of answers: at most `k` bytes, or an error. A buffer of any size above 8 (16384 in the code). Not modelled: `seek`, the assertions on the mode, allocation failure | Specification: each call as a function on the byte stream (`spec`). `reads_partial`: for every stream, every plan of short reads and every history of calls, the answers are those of the specification and what is left is the rest. `reads_accounted_partial`: for every plan, errors included, nothing stops or hangs, and the bytes gone are those the calls show. `getc_text`: `getc` reads any text character by character. `stream_violated`, `errors_violated`: witnesses |
| C49 | `lib/bio/bio.myr`: `writebuf`, `flush`, `ensurewrite`, `write`, `putb`, `putc`, and `puti.myr`: `putle`, `putbe`. The sink is what it has received and a plan of answers. Not modelled: `put`/`putv` (formatting), the lock-step of a file open for both reading and writing | `writes_partial`: sinks that take at least a byte per call receive exactly the bytes written. `writes_reported_partial`: for every sink, if every call of the history reports success, the sink has received exactly the bytes written, provided that a `write` larger than the room left follows a `flush`. `reported_violated`: without that, not. `int_round_trip`: what `putle`/`putbe` write, `getle`/`getbe` read |
| C26 | `lib/inifile/types.myr:10-37`, `access.myr:27-47`, `parse.myr:41-140`, `write.myr:23-61`, on top of the models of `htab.myr` (C03), `bio` (C48, C49), `strfind`, `strstrip` and `sort`; the hash of strings is a parameter. Freeing and copying are left out | Specification: association lists, and the meaning of lines of text over code points. `puts_by_hash` and `load_by_hash` say exactly what the code does for every hash: pairs with equal hashes are one pair (the hash table is shown to work with an equality that is always true, `Table.lean`). `puts_get_partial`, `load_partial`: the specified map and meaning if the hashes of the pairs in use differ. `round_trip_partial`: for every hash, writing and loading preserves every `get` when the strings fit the format, however the source and the sink cut the data. Refutations hold for every hash, except that of the unreported flush, which has a witness |
| C27, C28, C81, C82 | `lib/flate/flate.myr:62-396`, all of it: `outb`, `bits` (in 32 bits), `nocomp`, `mkhufc`, `readcode`, `decomp`, `dynamic`, `decode` and the fixed codes of `__init__`. The input is the list of bytes to come and the output the list of bytes written (C48, C49); failures of the files other than the end of the input are left out. Arrays that are not initialised hold unknown numbers (`Junk`) | Specification of RFC 1951 over lists of bits, as relations (`Spec.lean`): canonical codes, tables made by the rule of the RFC, overlapping copies, code lengths with runs, the three kinds of blocks. `huffman_decodes`, `huffman_sound`: reading symbols, both ways. `window_refines`: the ring buffer against the whole output. `decode_stream`: every stream is decoded, by induction over its derivation; `decode_partial`: every result has a derivation, by induction over the rounds of the loops, with the number of bits left as measure. Both violations have concrete bytes |
| C52, C83, C84 | `lib/crypto/md5.myr`, `sha1.myr`, `sha256.myr`, `sha512.myr`, `sha3.myr`, `hmac.myr`, `hash.myr`: the streaming, the padding, the compression functions and the stores of the digest. The unrolled lines of the compression functions are tables, a row a source line (variables, constants and shift counts as written), with one definition that executes a row. Not modelled: the wrappers that put a digest into a fresh array | Specifications from the standards (`Spec.lean`): RFC 1321, FIPS 180-4 with the constants computed from roots of primes, FIPS 202 with the constants from the shift register and the offsets from the walk, RFC 2104. Streaming: invariant "the chaining value is the iteration over the whole blocks so far and the buffer holds the rest" over any sequence of `hadd` calls; padding by cases on the room left. Compression: each table is shown equal to the one a rule gives (kernel evaluation over the whole table), then induction over the rounds with the register of role `j` at round `t` being `j - t`; Keccak by the positions of the lanes. The violations of C52 and C83 are a piece of 2^31 bytes, of which the 32-bit length is negative, and one of 2^32 bytes, of which it is 0; that of C84 has concrete bytes |
| C85 | `lib/crypto/chacha20.myr`, all of it. Message and ciphertext are slices of one memory, so encrypting in place is modelled; the scratch array is a separate object with arbitrary first content. The 64 lines of a double round are a table, a row a line | ChaCha20 as in RFC 8439, 2.1-2.4, with the original's 64-bit counter and nonce (`Spec.lean`: quarter rounds on a state, blocks, keystream). The table is the flattening of eight quarter rounds (`decide +kernel` on the table), the rest by induction on the number of blocks with a frame lemma for memory. `encrypt_violated` compares two runs with different old contents of the destination |
| C86 | `lib/crypto/ct.myr`, all of it, for every width and either signedness | Comparison of numbers. Top bits of sums and differences as statements about numbers; `bufeq` by induction over the loop. `lt_partial` and `bufeq_partial` say exactly when the answers are wrong |
| C87 | `lib/crypto/ctbig.myr`: all but `ctfree`, `ctdup`, `ctbigdup`, `ct2big`, `big2ct`, `ctfmt` and the modular functions of C88. Fresh memory that the code does not clear is a parameter | `Is x n v`: the digits of `x` are those of `v < 2^n`. Schoolbook arithmetic by induction over the digits with the carry in the statement; the mask of the top digit by bits |
| C88 | `growmod`, `tomonty`, `ccopy`, `montymul`, `ninv32`, `ctmodpow` (ctbig.myr:313-492) | `a^e % m`. Knuth's bound on the estimated quotient (`Grow.lean`), the correction after it, Newton's iteration for the inverse, Montgomery reduction as an invariant of the rows, square-and-multiply as an invariant of the bits |
| C89 | `lib/crypto/rsa.myr`, all but the drawing of random padding | RSAES-PKCS1-v1_5 (RFC 8017, 7.2.1) on top of C87 and C88 |
| C90 | `6/typeinfo.c` classification of types for passing; `6/isel.c` `placearg`, `gencall` (places only), `countargs`, `retrievearg`, `addarglocs`; `6/simp.c` `simpcall` (arguments only). Reads past the compiler's tables give `ub` or, where the value does not matter, an arbitrary value. Not modelled: the moves themselves, the environment pointer, `handlesmallstructargs`, plan 9 | `HandsOver` (`Spec.lean`): places of caller and function are the same up to the frame, pairwise apart, within the reserved space, aligned. Classification as an invariant of the walk over the type; caller and function by simultaneous induction over the arguments with the register counters equal |
| C91 | `lib/std/varargs.myr` `vastart`, `vanext`, `vabytes`; `vatypeinfo` (simp.c:918-960). Not modelled: `vaenter` and `vaenterunion` | Addresses read are those of C90; on top of the type descriptors of C68 |
| C92 | `forcelocal` (simp.c:168-179), `tymodepart` and the stores after a call (isel.c:90-108, 799-837) | Intervals of bytes; case analysis over the classes of C90 |
| C93 | `lib/crypto/aes.myr` whole. The arrays of eight words are structures (they are indexed with constants only); the gates of `sbox` are a list of 115 gates that an interpreter runs; uninitialised arrays are parameters; lengths are the low 32 bits of those of the slices, as in the code | `Spec.lean`: the cipher of FIPS 197 byte by byte, with the field and its inverses. Gates: a table of 256 bytes for one bit position, lifted to words by naturality of the interpreter; masks and shifts bit by bit (`Swap.lean`); each round step as a refinement (`Rep`: which bit of which word holds which byte); key schedule by induction; `Inverse.lean`: the inverse cipher of the standard is an inverse |
| C94 | `lib/std/optparse.myr` `optparse`, `optinit`, `optnext`, `optdone`, `optinfo`, `next`, on the UTF-8 decoder of C06; `exit` is an outcome. Not modelled: what is printed (`put`, `optusage`), words of 2 GiB | `Spec.lean`: structural recursion over words of characters (POSIX guidelines 3 to 10, with options after operands). Partial correctness by induction on the rounds of the loop with an invariant (inside a word, or at the end), termination for all bytes by a measure (bytes left) |
| C95 | `mi/flatten.c` `rval`, `lval`, `visit`, `assign`, `flattencond`, `flattenlazy`, the ternary operator, `preinc`/`postinc` and `draininc`, `flattenif`, `flattenloop`, return, break, continue. Simplified: no types, void values, `auto`, tuples, matches, iteration; all places in one memory; two arguments per call; assignments with an operator as statements only | `Spec.lean`: an evaluator after doc/lang.txt, with operators and functions as parameters and a bound on rounds of loops (the claim speaks of all bounds). Forward simulation by induction on expressions (values and conditions together), statements and rounds; backward by determinism, as a body that makes `n` rounds makes the code make `n` steps |
| C96 | `lib/date/zoneinfo+posixy.myr` `load`, `fetchbe32`, `fetchbe8`, `fetchttinfo`, `findtzoff` from the loaded file on. Not modelled: where the file is looked for, the cache, memory that runs out | `Spec.lean`: the file format of RFC 8536 as an encoder, the offset by counting the transitions passed. Round trip by one lemma for all filling loops; exact result of the search by induction |
| C97 | `lib/date/fmt.myr` `datefmt`, `timezone`; `lib/date/parse.myr` `strparse`, `filldate`, `intval`, `indexof`, `tzoffset`, `matchstr`, `matchampm`, `eatspace`; `lib/date/names.myr`. Not modelled: names of zones (`%Z`), blanks outside ASCII, memory that runs out | `Spec.lean`: formats as lists of letters and characters, and what each letter says. The text of every letter ends where its reader stops; induction over the format. The instant itself comes back by C29 |
| C98 | `lib/math/trunc-impl.myr` `floor`, `trunc`, `ceil` of both widths, on top of the model of `fltbits.myr`. Negation of a number is a change of its sign bit. Not modelled: the versions in assembly for machines with SSE4, the floating point state | values as integers in units of the least positive number; floor by integer division there. Case split on the exponent; masks by arithmetic modulo powers of two |
| C99 | `lib/math/round-impl.myr` `rn64`, `rn32`; `lib/math/util.myr` `need_round_away` with its low word in use. Not modelled: the versions in assembly | `Nearest`: twice the distance is at most one unit, and the integer is even if it is exactly one unit; at most one integer satisfies it. The bits looked at by `need_round_away` are the remainder compared with one half |
| C100 | `lib/math/scale2-impl.myr` `scale2gen`, `scale264`, `scale232`; `lib/math/util.myr` `find_first1_64` | values as integers in units of the least positive number; case split as in the code; shifts and rounding by C99's lemma, the assembly of the fields by lemmas for normal and denormal numbers |
| C101 | `lib/math/util.myr` `flt64fromflt32`, `flt32fromflt64`, on top of the models of `fltbits.myr` and of C99. Not modelled: the conversions the compiler emits | `Rounded`: the nearest multiple of the spacing of 24 bits at the value (its binary logarithm), ties to even, infinite from `2^128` on. Values as integers in units of the least positive number of 64 bits; case split on the exponent |
| C102 | `lib/math/fma-impl.myr` `fma64` with `add_shifted`, `sub_shifted` and `compare_hl_z`, on top of the models of C99 and C101. The machine's `x * y + z`, used for zeros, infinities and NaNs, is a parameter | Values are integers in units of `2^-2148`; the product in two words is exact (`product_exact`), so are sums and differences (`addShifted_exact`, `subShifted_exact`, `addBelow_exact`), and `finish_spec` or `finish_large` rounds them once. Samples of the refutations hold for every machine operation |
| C54–C57 | slices, ipparse, chartype, cmp | induction; refutations |

## 4. Trusted base

* Lean 4.33.0 kernel; axioms `propext`, `Classical.choice`, `Quot.sound` only
  (checked with `#print axioms` for every theorem named in the manifest).
* The correspondence between the cited source lines and the Lean definitions
  (done by hand; simplifications are stated in each definition's comment).
* The semantics of C and Myrddin as described in section 2.

Not modelled at all: the lexer/parser (`parse/tok.c`, `parse/gram.y`), type
inference, code emission text, the operating system, floating point printing,
network code.

## 5. Findings (code disagrees with the claim)

* **C02/C03** (util/htab.c, lib/std/htab.myr): `htput` stops at the first
  tombstone it meets (`htab_history_violated`): after deleting a colliding
  key, re-inserting a key that still lives further down the probe chain
  creates a second entry; a later delete uncovers the stale value, and (std)
  the count is wrong.  Histories without deletes are proved (`_partial`).
* **C04** (lib/std/bitset.myr): `bsintersect(a, b)` leaves the words of `a`
  beyond `b`'s length untouched: {0,100} ∩ {0} = {0,100}.
* **C06** (lib/std/striter.myr:120-122): `bycharoff` adds the character's length
  before storing the offset, so ("a") yields ('a', 1) instead of ('a', 0).
* **C07** (lib/std/striter.myr:138-161): `bysplit` drops a final empty piece: "a,"
  yields only "a" (`bysplit_violated`); `strsplit` with an empty delimiter never
  ends (`strsplit_empty_delim`).
* **C56** (lib/std/chartype.myr): the single-character tables are looked at only if
  the range-table search finds no start below the character, so U+0101 is not
  lower case, U+0100 not upper case and not converted.
* **C60** (lib/std/strsplit.myr:87-93): `strtok` steps bytewise; after a multi-byte
  white space character the next token starts with its last bytes.
* **C47** (lib/std/strbuf.myr:90-97): `sbtrim(sb, -k)` with k larger than the length
  makes the length negative; `sbpeek` then aborts (`sbtrim_violated`).
* **C62** (lib/std/memops-impl+plan9-x64.s): the overlap test compares CX before the
  length is loaded, so the copy direction depends on the caller's register.
* **C63** (lib/std/blat.myr:9-18): the file is opened without `Otrunc`: a longer old
  file keeps its tail (`blat_violated`).
* **C11** (lib/std/intfmt.myr:33-37): the least int64 is written in decimal without
  padding whatever base and width were asked (`fmt_min_violated`); the digit table has 16
  entries, so bases 17-36 abort (`fmt_base_violated`).
* **C12** (lib/std/getint.myr:69-74): `gethost16` copies four bytes into an `int16`
  (`gethost16_violated`).
* **C33** (lib/iter/perm.myr:45-51): the iterator aborts on its second call for an
  empty slice (`byperm_violated`).
* **C46** (lib/std/rand.myr:74): `i + 8 < buf.len/8` leaves most of a buffer to one last
  word, i.e. zero (`rngrandbytes_violated`, `rngrandbytes_exact`).
* **C64** (lib/std/fltbits.myr:68-70, 94-96): the rounding bits are taken one position too
  high; exactly representable subnormal values are changed (`assem_round_violated`).
* **C65** (lib/std/rand.myr:44): `seed&0xffff0000>>16` is `seed & 0xffff`
  (`mksrng_violated`, `mksrng_zeros`).
* **C55** (lib/std/ipparse.myr:74, 87, 128-149): `ip4parse` accepts empty parts, `-0`,
  underscores and values modulo 2^32 (`ip4_violated`); `ip6parse` accepts `10000` (the
  bound 65536 is inclusive), a trailing `:` and `:::`, and rejects `::` followed by seven
  groups (`ip6_violated`, `ip6_accepts_too_much`).
* **C38** (6/blob.c:322-329): the test `idx != last + 1` is off by one, and nothing pads after
  the last element: `[.[1] = 7]` of type `byte[2]` is emitted as the single byte 7
  (`array_init_violated`).
* **C44** (util/pack.c:115-129): `wrint` takes a `long` and writes its low 32 bits; the reader
  sign-extends (`pack_violated`, `int_readback`).
* **C67** (parse/use.c:531, 654): integer literals in exported generics go through
  `wrint`/`rdint`: `0x80000000` comes back as `0xffffffff80000000` (`tree_violated`).
  Not modelled in parse/use.c: `fixtypemappings`, hash-table insertion, `loaduse`, `traitpickle`.
* **C45** (6/typeinfo.c:40-43): `blobsz` stops the compiler for numbers in [2^49, 2^56) which
  `encodemin` and `getipacked` handle (`packed_size_dies`); `getipacked` never returns on 0xff
  (`getipacked_spins`).
* **C68** (introspect.myr:271, 292): `std.typeinfo` gives size 0 for `bool` and 8 for functions
  (`typeinfo_violated`, `typeinfo_func`).
* **C31** (eschtml.myr:23-29): `"` and `'` are not escaped, so the result is safe as element text but
  not inside an attribute value. Invalid UTF-8 input is replaced by the byte 0xff (`htmlfmt_safe` covers
  it, `htmlfmt_round` does not). escurl.myr leaves spaces, controls, `"`, `<`, `>` as they are; decoding is
  still exact.
* **C29** (date.myr:107): weekdays before 28 December 1969 are negative (`wday_violated`).
  (date.myr:121-151): before 1 March of year 0 the truncating divisions give wrong dates; 29 February and
  1 March of year 0 collide (`bce_collision`); years up to 0 are shifted by one and `recalc` does not undo
  it (`bce_violated`); on some days `Mdays[-1]` is read and the program stops (`bce_abort`).
* **C69** (date.myr:191, 203, 51-62): `addperiod`, `subperiod`, `mkdate`, `mkdatetime` take the local fields
  for UTC and add the zone offset again (`addperiod_zone_violated`); a month number from 15 on gives
  367 days per year (`addperiod_month_violated`).
* **C50** (interp.myr:217-280): `(a*b*)*` on the empty string never ends; only a jump back to the instruction
  at which the thread was started is caught (`exec_ends_violated`).
* **C51** (compile.myr `merge`): a range that lies inside an earlier one cuts that one off: `[a-zb]` matches
  only a and b (`class_matches_violated`).
* **C70** (compile.myr `genchar`): a character above U+FFFF in a pattern fails an assertion
  (`exec_decides_violated`); `.` matches none of them (example). Unset groups are returned by `exec` as
  memory that was never written (interp.myr:151-157, example).
* **C71** (interp.myr:51-61): `isearch` reports positions relative to the match; neither `search` nor `isearch`
  tries the end of the text, so `a*` finds nothing in the empty text; `^` matches at every position
  (`search_finds_violated`, examples).
* **C72** (interp.myr:113-119): nested groups, or groups set out of order, slice with a start after the end
  (`sub_replaces_violated`). `sub` does not call `cleanup`, so `re.nthr` stays positive when a thread is left, and
  the next `exec` loops forever (`sub_reusable_violated`). `suball` does not advance over an empty match
  (`suball_ends_violated`).
* **C73** (compile.myr:775-815): `[` reads one past the pattern (`compile_answers_violated`). A pattern with 16
  groups compiles and every use of it is stopped (example). `\>` stops the program on the empty text (example).
* **C31** (escre.myr:33): a backslash is escaped as `\.` (`re_escapes_violated`); the escapes of `|`, `[`, `]`, `(`
  are rejected by the compiler (example).
* **C74** (condvar+linux.myr:27-30): the sequence number has 32 bits; if exactly 2^32 signals fall between
  releasing the mutex and going to sleep, the waiter sleeps although it was signalled
  (`cond_signal_violated`).
* **C21** (rwlock+futex.myr): the waits have a timeout of 0, so waiting readers and writers spin instead of
  sleeping; `rw_can_go` shows that therefore no wake-up can be lost.
* **C36** (fold.c:183-196): `0 * f()` is folded to `0` and the call is lost (`fold_drops_call_violated`).
  (fold.c:18-56, 167-243): all arithmetic is done in 64 bits and the result is not reduced to the type: `(200 + 100) / 2`
  of type `uint8` folds to 150, at run time it is 22; `-1 >> 1` of type `uint32` folds to 0xffffffff; the `uint8` 300 cast
  to `int` folds to 300 (`fold_div_violated`, `fold_shr_violated`, `fold_cast_violated`). `0x7fffffffffffffff + 1`,
  the least number divided by -1 and shifts by 64 are undefined behaviour of the compiler itself (`fold_overflow_violated`,
  `fold_div_min_violated`, `fold_shl_violated`). (fold.c:73-108): a cast of a named constant changes the type of the
  constant's initialiser in place (`fold_retypes_constant_violated`). (fold.c:255-258, 270-271): in `[c, c]` both elements are the
  same node and get the last index (`fold_array_violated`); the emitter then pads by a negative size (6/blob.c:325-328).
* **C40** (reaching.c:81, dfcheck.c:92): the declaration id of an assigned place which is not a variable is read as 0, so a
  store through a pointer kills the definitions of declaration 0 (`reaching_violated`). Declaration 0 is a top-level one,
  which keeps this harmless for locals.
* **C41** (dfcheck.c:90-94): the definitions an assignment kills are removed before its right side is looked at, so
  `var x; x = x + 1` is accepted (`undef_increment_violated`). (dfcheck.c:45-48): the left side is not looked at, so
  `var p; p# = 1` is accepted (`undef_store_violated`).
* **C42** (dfcheck.c:103-121): a body without any node between entry and exit passes the check; only the rule that a
  function without `-> ` is void (parse/infer.c:1926-1928) keeps such functions from falling off their end.
* **C39** (6/ra.c:315-335): `changed` is set only when a live-out set grows, but the first round may change only live-in sets
  of blocks whose predecessors come later in the order. `x = f(); while true; g(x);;` then leaves `x` out of all live-out sets
  (`liveness_violated`).
* **C43** (6/ra.c:927-939, 6/isel.c:944-956): `constrained` looks at the row of `regmap`, which has no high byte registers. A
  value copied from `%ah` may be merged with it while the interfering value is merged with `%eax` (`colour_violated`).
* **C43** (6/ra.c:958-962): for a move between merged registers `wladd` is called twice on the same register, which may then be
  on the work list and on the stack twice; harmless, the second painting is as safe as the first (`Pt`).
* **C76** (6/ra.c:233): the test for the index register of an address looks at the base; an index without base reads a null
  pointer. (6/ra.c:89-124): `colourmap` maps `%rsp` to the row of `%xmm0`, so `mov %rsp,…` takes `%xmm0` off the live set; no
  virtual register is written where this matters, and `Quiet` excludes it.
* **C34** (mi/match.c:464-472): the frontier of the second alternative is a copy made before the rest of the aggregate is
  looked at, so `(1 || 2, 3)` matches `(2, 99)` (`first_match_violated`). (484): a constant adds a 0 to the path, which clashes
  with the paths of members (`first_match_const_violated`). (1038-1039, 1069-1073): captures of alternatives are assigned on
  edges only; reached through a default edge or as the root, the variables are not assigned (`first_match_capture_violated`).
* **C35** (mi/match.c:830-846): what is behind the default edge is not verified, so `(true, _)`, `(_, true)` is accepted; the
  value `(false, false)` then falls through into the code of the first arm (`exhaustive_violated`). (370-394): `nconstructors`
  of `char` is 0x10ffff, one less than there are characters; of 64-bit integers and floats 2^64-1.
* **C78** (mi/match.c:256-259): `dtreusable` compares the ids of `any` where one of the two is null (`compile_crash_violated`).
  (583): `project` asserts that each row has slots, which fails with alternatives or constants of union type
  (`compile_or_violated`, `compile_const_violated`). (172): a variable twice in a pattern fails an assertion.
* **C13** (lib/std/bigint.myr:601-606): `kmul` subtracts `y1 - y0` without trimming `y0`; if `y0` is longer than `y1` and has
  leading zeros the comparison by length picks the wrong order and the product is wrong (`bigmul_violated`).
* **C14** (lib/std/bigint.myr:708): for a divisor of one digit the remainder is `mkbigint(carry)`, never negative, so
  `-7 = -3*2 + 1` fails (`bigdivmod_violated`). `bigbfmt` depends on this for negative numbers.
* **C15** (lib/std/bigint.myr:104-110): `mkbigint` negates at the type of its argument, so the least int8 becomes
  -(2^64 - 128) (`mkbigint_signed_violated`). (130-133): the bytes are shifted as bytes, so 1 2 3 4 gives 1; (138): the rest is
  taken from the front (`bigfrombytes_violated`). `bigbfmt` lets base 1 through and then never ends.
* **C79** (lib/std/bigint.myr:778-780): `bigand` grows its second operand, which is then not equal to itself before
  (`bigand_violated`); from `bigandi` that operand is on the stack (`bigandi_violated`). (790-796): `bigor` keeps the sign 0
  (`bigor_violated`). (803-812): `bigmodpow` shifts the exponent of the caller down to 0 and does not reduce `r = 1`
  (`bigmodpow_violated`).
* **C17** (lib/std/bytealloc.myr:202-205, 290-293): failure is recognised by comparison with `Failmem = -1`, but `sys.mmap`
  returns the negated error number (sys+linux-x64.myr:1732-1734), so a failed large request returns an address such as
  0xfffffffffffffff4 (`sound_violated`), and a failed slab is written to. (365-390): when a slab is retired the chunk being freed is
  not put back into it, so a slab which is kept in the cache has lost one chunk for good; safe, since the slab is then never
  retired again.
* **C80** (lib/std/alloc.myr:160-162): `slgrow` frees the old block only if the old length is not 0, so the block of a slice which was
  shrunk to nothing is leaked when it is grown past its capacity; not unsafe, and not excluded by the claim. (71-73): `slalloc` rounds up to a
  size class and then adds 8 for the mark, so every slice takes a chunk of the next class.
* **C25** (lib/json/parse.myr:338): `c += n*16` sums the four digits times 16, so `"\u0041"` is read as `P`: `reads_violated`. (103-106, 175-178):
  an empty object or array returns without `exit`, so the depth never goes down again and an array of 1024 empty arrays is rejected as too
  deep: `readsPlain_violated`. (107): after a comma, a `}` ends the loop without being taken, so `{"a":1,}` is rejected for the wrong reason and
  `{"a":{"b":null,}` is accepted with one brace too few: `rejects_violated`. lib/json/fmt.myr:35-44: quotes and most control characters
  are written as they are: `roundtrip_violated`. The parser also accepts what is not UTF-8 inside strings, since `std.charstep` does not look at
  the continuation bytes (C05); the theorems of reading and rejecting are about UTF-8 text.
* **C48** (lib/bio/bio.myr:381-385): after `\r`, `readln` compares the decoded character with a newline and then skips one byte; the decoder accepts
  overlong forms (C05), so after `\r`, 0xc0, 0x8a the byte 0xc0 is dropped and 0x8a starts the next line: `stream_violated`. (373, 428-430): when the
  source fails, `readln` and `readto` return the error and drop what they had already taken from the buffer: `errors_violated`.
  Not violations but worth knowing: `read` ignores an error of `fill` (164) and returns what there is; `getc` answers end of file when the last
  character is cut short, and the bytes stay in the buffer; a delimiter of 16384 bytes or more aborts.
* **C49** (lib/bio/bio.myr:130): `write` ignores the result of `flush`: bytes waiting in the buffer are lost when the sink fails there, though every
  call, the last `flush` included, reports success: `reported_violated`. (500-505): after a failure in the middle of the buffer, `ensurewrite` keeps the
  whole buffer, so the bytes already accepted are sent again by the next successful call: `retry_duplicates`.
* **C26** (lib/inifile/types.myr:28-37): the `eq` of pairs takes both sides from `a`, so the table compares hashes only, and the hash is the
  exclusive or of the hashes of section and key (19-26). Hence ("a","b") and ("b","a") are the same pair and so are all ("x","x"):
  `map_violated`, `diagonal_violated`; a file with both is rejected with `Dupkey`: `load_violated`. lib/inifile/write.myr:38-58 writes
  values as they are, so `;`, `#`, line breaks and spaces at the ends do not survive: `round_trip_violated`. write.myr:28: the result of
  `bio.close`, which flushes, is dropped: `write_reported_violated`; so is the result of writing a header (49).
* **C82** (lib/flate/flate.myr:243-254): the fixed codes have the length symbols 286 and 287 and the distance symbols 30 and 31, for which
  the tables `extral`, `basel`, `extrad`, `based` have no entry: the bytes 1b 03 stop the program with an index out of bounds
  (`abort_violated`). flate.myr:179 (TODO): `mkhufc` does not check that the lengths are those of a prefix code, so a stream with
  over-subscribed lengths is accepted (`accept_violated`).
* **C84** (lib/crypto/hmac.myr:71-75): `hmacfin` adds all of `dst` to the outer hash after `hfin` has written the first digest-size bytes
  of it; `hfin` itself accepts a longer destination. With 33 bytes for SHA-256 the MAC is wrong (`hmac_violated`). The callers in the
  library pass arrays of the exact size (`hmac_partial`).
* **C83** (lib/crypto/sha512.myr:202-209): only the low 64 bits of the 128-bit length are stored, so the digest of messages of 2^61 bytes
  and more is not that of FIPS 180-4; the theorems are stated below that length.
* **C85** (lib/crypto/chacha20.myr:74-79 and 226-229): for a last piece of less than 64 bytes `m` is replaced by `tmp[:]`, whose length is
  64, so the later test `m.len < 64` that guards the copy to `ctarget` is never true: the ciphertext of the last `len % 64` bytes is lost
  and the destination keeps what it held (`encrypt_violated`). An empty message goes the same way and uses up a block
  (`counter_violated`).
* **C86** (lib/crypto/ct.myr:44-48): `lt` has `(b ^ a) & (b ^ a)` where `gt` has `(a ^ b) & (a ^ z)`: the term for the overflow of the
  difference is wrong and so are `lt`, `ge`, `min` and `max` for the pairs of `Wraps` (`lt_violated`: 128 < 1 in bytes). `bufeq` (78-87)
  does not compare the lengths: `bufeq("x", "")` is true (`bufeq_violated`), and a shorter first buffer mostly stops the program, as the
  `min` that it uses is wrong too (`bufeq_partial`).
* **C87** (lib/crypto/ctbig.myr:494-503): `ctiszero` passes a digit to `mux` as its condition, which looks at the lowest bit only: 2 is
  zero (`iszero_violated`). `ctbytesle` (178-184) stops the program unless the size is a multiple of four bytes; `ctbytesbe` (203)
  has `n & 0x3 + 1`, that is `n & 4`, and leaves bytes unwritten or stops the program (`bytes_violated`, `bytes_partial`). `mkctbign`
  (71-87) allocates with `slalloc` and writes two digits at most (`make_violated`).
* **C88** (lib/crypto/ctbig.myr:342-358 and 389): `growmod` compares the top digit of the number, already shifted left by 32, with the unshifted top digit of the
  modulus, so that the case of equal digits is never noticed; its last comparison uses the wrong `lt` of C86 (`grow_violated`). Powers
  of numbers that meet one of the cases are wrong (`modpow_violated`).
* **C89** (lib/crypto/rsa.myr:61 and 87-107): `msg.len < nbytes - 11` refuses the longest message that the standard allows; leading zero
  bytes of the modulus are skipped two at a time and not subtracted (`nbit -= 0`); the size must then be a multiple of 32 and the
  top bit set, or `growmod` stops the program (`rsa_refuses`, `rsa_long`). A DER-encoded modulus, which begins with a zero byte, is
  therefore never accepted.
* **C90** (6/typeinfo.c:569-587, with the join of classes above it): an empty aggregate has no class and the compiler dies, also as a
  result (`empty_dies`). Unions with values mark only their first eight bytes, and an integer overrides that mark: the compiler dies
  on a parameter `struct a : int32; b : std.option(int32) ;;` (`handover_violated`). 6/isel.c:614-625: `needed` has no entries for the
  last class, so that it is read past its end (`table_overrun`; harmless whatever is read), and none for structs of one float, so that
  the ninth is put into a register from beyond the table (`lone_float_ub`). A void parameter before `...` counts for the function
  but is dropped by the caller (`void_variadic`).
* **C91** (6/simp.c:928-940): `vatypeinfo` does not look through named types, and describes the function itself and the fixed arguments
  (`vatypes_violated`). lib/std/varargs.myr:109: `vabytes` takes the bytes from the unaligned pointer (`vabytes_violated`); it does not
  advance over a `bool`, whose size in its table is 0 (`vabytes_bool`).
* **C92** (6/isel.c:90-108 and 815-835): for parts of 3, 5, 6 or 7 bytes the move has eight bytes, and the end of it is written over whatever is
  above the variable (`ret_violated`, `ret_overrun`; `ret_clobbers` shows two variables).
* **C93** (lib/crypto/aes.myr:109-113 and 140-144): the lengths are compared as `int`s of 32 bits; of a message of 4 GiB or more only as many
  bytes are encrypted as the low 32 bits of its length say, and the rest of the destination is left as it was (`encrypt_low`,
  `encrypt_violated`).
* **C52, C83** (lib/crypto/md5.myr:74, sha1.myr:76, sha256.myr:105 and 165, sha512.myr:113 and 167): `while data.len >= 64`
  compares an `int` of 32 bits, as nothing else fixes the type of that `.len`. A piece of 2 GiB counts as negative, so no
  block is processed, and copying it to the buffer aborts. A piece of 4 GiB counts as empty: `slcp`, which compares lengths
  the same way, lets it pass, and every 4 GiB message gets the same digest (`big_same`).
* **C85** (lib/crypto/chacha20.myr:74-75): the same comparison; messages of 2 GiB abort.
* **C94** (lib/std/optparse.myr:169-184 and 109-119): a lone `-` counts as a word of options without any; the next option is then read from an
  empty string, so the program ends with "Unexpected argument" (`dash_violated`).
* **C94** (lib/std/optparse.myr:122-140): an option with an argument that can be left out, as the last word: an uninitialised value is stored in
  its variable, `next` is not called, and the program ends as for the lone dash (`optional_violated`).
* **C94** (lib/std/optparse.myr:169, utf.myr `charstep`): a word is taken for options if its first *decoded* character is a dash; the decoder
  accepts overlong encodings, so a file name that begins with the bytes C0 AD is (`operand_violated`).
* **C95** (mi/flatten.c:184-205): operands that are variables stay in the tree, and are read after the right side was evaluated: `x + (x = 1)`
  and `x + f()`, where `f` changes `x`, use the new `x`; doc/lang.txt:1143-1146 promises the old one (`flatten_late_read`).
* **C95** (mi/flatten.c flattenlazy, draininc): in `y && x++` the increment is queued and done at the end of the statement whether or not
  it was evaluated (`flatten_lazy_increment`).
* **C95** (mi/flatten.c:770-775): the increments of a loop condition are done on the way into the body; the queue is then empty, so
  the second `draininc` at the exit does nothing: after `while x-- != 0` `x` is 0 and not -1 (`flatten_loop_decrement`).
* **C95** (mi/flatten.c:454-459): the left side of an assignment is evaluated before the right one, against doc/lang.txt:1143-1146
  (`flatten_left_first`).
* **C96** (lib/date/zoneinfo+posixy.myr:80-83): the search goes on while the time is *before* the transition, and so stops at the first one for
  every later time: offsets are those of the first transition in the file, mostly local mean time of the 19th century (`lookup_violated`,
  `lookup_exact`).
* **C96** (same lines): for times before the first transition the index is one past the end and the program stops (`before_violated`).
* **C96** (lib/date/zoneinfo+posixy.myr:77-79): zones without transitions, like `Etc/GMT+3`, are reported as not existing, and `mkinstant` ends the
  program (`fixed_violated`).
* **C96** (lib/date/zoneinfo+posixy.myr:76): the division to seconds rounds towards zero, so the last second before 1970 belongs to 1970
  (`round_violated`); times from 2038 on are cut to 32 bits.
* **C96** (lib/date/zoneinfo+posixy.myr:99, 105): a file shorter than 4 bytes stops the program, one with fewer than 20 is read beyond its end
  (`load_empty`, `load_short`).
* **C97** (lib/date/fmt.myr, lib/date/parse.myr:85-131): `%F` writes a year of four digits and is read as `%y-%m-%d` (`full_date_unread`); `%a`, `%A`
  and `%h` are read into the day of the month (`weekday_misread`, `month_misread`); `%e` pads with a blank, which is not read (`day_unread`); `%T` is
  written, but ends the program when read (`clock_fatal`).
* **C97** (lib/date/fmt.myr `timezone`): the minutes of a zone are the seconds left over, so `+0530` is written `+051800` (`zone_misread`).
* **C97** (lib/date/parse.myr:197): the sign is applied to the hours only; `-0330` is read as two and a half hours west (`west_misread`).
* **C97** (lib/date/parse.myr:143-157): the instant is computed before `%p` corrects the hour, so afternoons give the instant of the morning
  (`afternoon_misread`).
* **C97** (lib/date/parse.myr:219-225): `%%` and `%n` need text after them (`percent_unread`).
* **C97** (lib/date/parse.myr:132-138): one blank of the format takes all blanks of the text, and the next finds none (`blanks_unread`).
* **C100** (lib/math/scale2-impl.myr:39): a denormal number is shifted right by `-m` without a bound; the machine takes the count modulo the width, so
  5 units divided by `2^64` are 5 units (`denormal_unscaled`, `scale2_violated`).
* **C100** (lib/math/scale2-impl.myr:48-52): a quotient that rounds up to the least normal number has its highest bit set while its exponent is that of
  denormal numbers; the assembly shifts it again, and the result is half of it (`carry_misscaled`, `carry_violated`).
* **C100** (lib/math/scale2-impl.myr:54): infinities and NaNs have no case of their own; half of an infinity is `2^1023` (`infinity_violated`).
* **C100** (lib/math/scale2-impl.myr:71): `e + m` wraps for `m` near the end of its range; 2 times `2^(2^63-1)` is not an infinity (`wrap_violated`).
* **C101** (lib/math/util.myr:52): the mantissa of an infinity has the implicit bit when it is taken apart (fltbits.myr:53-55); that bit is an explicit
  one in the result, so infinities are widened to NaNs (`widen_infinity_violated`).
* **C101** (lib/math/util.myr:79): NaNs are looked for at the exponent 1023 in place of 1024: numbers from `2^1023` are narrowed to NaNs
  (`narrow_large_violated`) and NaNs to infinities (`narrow_nan_violated`).
* **C102** (lib/math/fma-impl.myr:374-382): bits of the addend below the last bit of the product are shifted out and do not count for rounding:
  `(1 + 2^-26) * (1 + 2^-27) + 2^-1000` is rounded to the lower number, though it is above the middle (`sticky_lost`, `fma_violated`).
* **C102** (lib/math/fma-impl.myr:439): the product of a denormal number may fit into the lower word; its comparison with the addend starts at bit 63 all the
  same, so `x * y - z` with `z = x * y` is not zero (`difference_of_equals_violated`).

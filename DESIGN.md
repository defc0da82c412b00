# A Lean 4 model of zpl-c/zpl and what is proved about it

## 1. Shape of the development

All Lean sources are under `lean/Verif/`. For each area there are up to three kinds of file:

* `Verif/<Area>/Model.lean` - the model: definitions that follow the C code function by function; every definition
  cites the file and lines it models and says where it simplifies.
* `Verif/<Area>/Lemmas.lean` - helper lemmas and invariants (no property is stated here).
* `Verif/<Area>/Props.lean` - the small independent specification (lists, finite maps, byte functions, ...) and the property
  theorems, each followed by an `example` that a concrete non-trivial case meets its hypotheses.

Small areas put the three parts in one file, in that order.

### Conventions

* C undefined behaviour, failed assertions and faults are values: functions that touch memory return
  `Except Fault a` (`Verif/Basic.lean`). A theorem "the call returns `.ok r`" therefore contains "no out-of-bounds access, no failed
  assertion, no division by zero".
* `zpl_isize`/`zpl_usize` counters are unbounded `Nat`/`Int` except where the property is about wrap-around; then `BitVec n`,
  `UInt32`, `UInt64` are used. The bound this leaves out (no array of 2^63 bytes exists) is part of the trusted base.
* Memory: data structures use a block of cells `List a` whose length is the allocated capacity; byte routines use
  a byte-addressed memory; a heap allocation that may fail is a Boolean (or an oracle stream) parameter.
* Concurrency: small-step transition systems; one step is one atomic action of one thread, sequentially consistent.

## 2. Trusted base

* Lean 4.33.0's kernel, and the axioms `propext`, `Classical.choice`, `Quot.sound`. No axioms are added; no `sorry`, `native_decide`,
  `bv_decide`, `implemented_by` or `unsafe`.
* The reading of the C code: the models were written by hand from /repo, as text. Nothing was compiled or run.
* Build configuration assumed: 64-bit, little-endian, `char` signed, `ZPL_ASSERT` enabled unless said otherwise, default macros.
* Mathlib (its definitions of matrices, determinants, quaternions, the real numbers and their functions) as specification of `Math.*`; the proofs about
  them are checked by the kernel like all others.
* Floating point: the laws of vectors, matrices and quaternions use exact arithmetic (a field, an ordered field or the real numbers). `Math.Single` and
  `Math.Double` are IEEE 754 single and double precision with rounding to nearest, ties to even (infinities and NaN included, the two zeros as one), and
  the modules `Math.*Float`, `Math.RoundDouble`, `Math.RoundEdge`, `Math.Drift`, `Sort.RandomReal`, `Sys.Time` and those that print and read numbers are
  about them; `Math.Half` is about bits. That the compiler evaluates each operation so (`FLT_EVAL_METHOD` 0, no fused operations) is trusted.
* The operating systems: their calls are modelled from their documentation, as state or as an oracle that may answer anything the documentation allows.
* The memory model: interleavings of sequentially consistent steps, except `Conc.Tso` (store buffers of x86). Compilers are assumed to keep the order of
  the accesses the models have; see section 5.

## 3. Properties: what is modelled and how it is proved

| id | model | proof |
|----|-------|-------|
| C01 | `zpl_array` block of cells + count + capacity; every array.h operation | refinement to `List`, induction over op list |
| C02 | same with an allocation-success Boolean per call | refinement that replays only successful calls; `set_capacity` shrinking below count truncates before the allocation, so partial |
| C03 | hashes/entries lists, chain walking with fuel-free well-founded measure | chain invariant, refinement to `key -> Option value` |
| C04 | remove_entry, rehash_fast | rehash_fast rebuilds the invariant from any entries with distinct keys; counterexample without it |
| C05 | map, map_mut | distinct-keys invariant |
| C06 | ring head/tail/capacity, cells | refinement to bounded queue |
| C07 | append_array, get_array loop | loop induction; `get_array` returns at most m-1: negation + partial |
| C08 | buffer | refinement to `List` |
| C09 | store of nodes with next/prev | forward list refinement; prev links negation |
| C10-C14 | byte memory, loops as in memory.h/memory.c | loop invariants; bit trick over all 64-bit words |
| C15 | BitVec 64 | bit-vector reasoning through Nat |
| C16-C17 | arena start/total_size/total_allocated | invariant (same alignment): partial; overlap counterexample |
| C18 | pool memory with embedded free list | free-list invariant |
| C19 | stack allocator with stored previous offset | LIFO induction |
| C20 | scratch headers | negation; partial |
| C21 | abstract heap | case analysis |
| C22-C23 | header{length,capacity} + bytes | refinement to byte lists |
| C24-C25 | digit loops over UInt64 | induction on digits |
| C26-C28 | table driven decoder over bytes | table facts over finite domains, arithmetic |
| C29-C32 | NUL-terminated byte lists | induction |
| C33-C34 | quicksort with explicit stack and insertion sort, on an array of elements | loop invariants; measure; larger-part-pushed bound |
| C35 | byte-wise counting sort passes | LSD radix induction |
| C36 | loop | invariant |
| C37 | shuffle/reverse | negation; partial |
| C38-C39 | UInt64/UInt32 generator | arithmetic; negation |
| C40 | UInt32 loops | no-overflow bound |
| C41 | tables and byte loop | table = bitwise step on all 256 entries, xor-linearity |
| C42-C44 | UInt32/64 loops | injectivity of odd multiplication, rotations, xorshift |
| C45-C46 | encoder/decoder loops | group-of-3 induction |
| C47 | memory_fd | refinement to byte list + cursor |
| C48 | encode/decode loops | induction on text |
| C49 | writer over the formatted printer, parser over the bytes still to read (names, comments, delimiters, configuration mode); numbers are a parameter | a grammar of texts: the writer writes in it (mutual induction on the tree), the parser reads it (induction on the grammar) |
| C50 | writer over the formatted printer, parser over the bytes still to read (with its in-place edits) | cells, rows, then the fold of rows into columns, for any reader and printer of numbers, and then with the library's own (C87, C89); negations for empty cells, blank delimiters, words that look like numbers, long numbers |
| C51 | compiler to op buffer, matcher | induction over pattern/text |
| C52 | the archive as a file (bytes, position), header fields through the modelled printf, the unpacking loop for any callback | header computed field by field, induction over the list of files; single-byte changes of the header by the sum; negations for the exceptions |
| C53 | option table, positional list and error list as in the code, arguments as blocks of bytes | refinement of the command line (a list of items) to an assignment: induction on the items; negations for arguments that are read beyond their end |
| C54 | format interpreter and output loops; floating-point conversions abstract | specification of formats as data (`render`); induction over directives; negations |
| C55-C58 | worker status machine + ring queues, all interleavings | invariant over transitions |
| C59 | compare-exchange lock | negation |
| C60 | mutex/semaphore transition system | inductive invariant, progress |
| C61 | bits as naturals, magnitudes as integers | field arithmetic; the denormals by kernel evaluation of all 2048 |
| C62 | node trees with array identities; pointers are (array, index); recorded parents | edit at a pointer = edit at a path (unique owners); negation for stale parents |
| C63 | path queries on bytes, over the formatted printer and number scanner | induction over the parts of the path against a relational specification |
| C64 | page intervals | negation + partial |
| C65 | text functions | induction |
| C66 | length loop over the UTF-8 classification table | induction over well-formed texts; negation for cut texts |
| C67-C68 | copy loops into a block of bytes | induction on the source; negation (no terminator) |
| C69 | token loops, repeated calls | induction; relation `Fields` as specification |
| C70 | scanning loops | induction; first index with a property |
| C71 | character functions | all 256 characters in the kernel |
| C72 | bounded scanning loops | memory model with unmapped bytes; induction |
| C73 | list of requested directories | induction on the path |
| C74 | as C61 | each float lies in the rounding interval of its result; the halves in order are strictly increasing |
| C75 | as C55 | what a step does to one queue; invariant over schedules |
| C76 | as C55, one worker | invariant: accepted = run ++ assigned ++ waiting, per priority |
| C77 | as C49 | induction on the grammar of texts; negations for newline before comma, comments, cut-off strings |
| C78 | the tree model of C62, pointers as (array, index) | the states between copy and removal hold an array twice: lemmas for arrays that occur at most once; negations for moves within one parent and moves to the grandparent that disturb the parent |
| C79 | as C63 | cutting lemmas for the shared buffer, first-match specification |
| C80 | as C49 | a grammar of broken texts (`Broken`), induction over it; negation for unclosed objects |
| C81 | the default callback over a disk of files and directories, path joining in a buffer of `ZPL_MAX_PATH` bytes | induction over the records of C52; C73 for the directories; negations for names that leave the directory, empty names and long paths |
| C82 | the regex compiler and matcher of C51; patterns as trees with a spelling | refinement: the operations compiled from a pattern run as the pattern's instructions; soundness and completeness by induction over them |
| C83 | as C82, with `c+` and `c*` | the greedy loop takes the longest run; for patterns where the next thing cannot begin with a character of `c`, longest and any are the same (`C83_greedy_is_enough`); negations for the rest |
| C84 | as C82, arbitrary bytes | invariant over the rounds of the compiler: at most four bytes of operations per character; negations for a stray `]`, many quantifiers, a buffer of the caller's |
| C85 | as C82, branch operations | exact meaning of both spellings, which is not the one of the property; soundness part |
| C86 | as C82, escapes | C82 for one escape; negation for hexadecimal digits |
| C87 | `zpl_adt_parse_number`, `zpl_adt_print_number` (Parse/Number); floating-point numbers are a parameter with arbitrary operations | print via C54/C58, read via C25; every integer read from any text is put in one of three classes by inverting the reader; each class survives |
| C88 | as C87 | the run of digits is read by induction, its value by C25; negations for long, large, negative hexadecimal, `0X` and word-like texts |
| C89 | as C87; `zpl_str_to_f64` and the multiplications are parameters (`Reals`) | the mantissa, its zeros and the exponent are read by induction and printed via C54; negations for each of the bit fields |
| C90 | `Math.Rect`: rectangles, boxes and their functions over an open number type | containment and intersection over any linear order and any addition (so also rounded arithmetic); the point sets over an ordered field |
| C91 | `Math.Rect`: the four cuts, looks and additions | induction on the list of cuts, over any linear order whose addition and subtraction are monotone (`Mono`, which rounded arithmetic satisfies); sizes over an ordered field |
| C92 | `Math.Rect`: `contract`, `expand` with the comparison of squared lengths | exact arithmetic; the comparison is resolved by the sign of the centre |
| C93 | `Math.Vec`, `Math.VecReal`: exact arithmetic, the square root of the real numbers | algebra; Mathlib's `dotProduct` and `crossProduct` as specification |
| C94 | `Math.Mat`: matrices at addresses, loops that write entry by entry, so that overlapping is visible | the loops by unfolding; Mathlib's `Matrix` as specification |
| C95 | `Math.Mat`: as C94, assignments in the order of the code | Mathlib's determinant, adjugate and inverse |
| C96 | `Math.Quat`: exact arithmetic | Mathlib's `Quaternion` as specification |
| C97 | `Math.Quat` | conjugation in Mathlib's quaternions; case analysis on the biggest component for the way back |
| C98 | `Math.Turn`: exact arithmetic, the trigonometric functions of the real numbers | half-angle identities; the turned point is specified by its parts along and across the axis |
| C99 | `Math.Turn`; `zpl_arctan2` is the argument of a complex number | composition by C97; the values read are computed |
| C100 | `Math.Project`: exact arithmetic | the image divided by its last coordinate; order arithmetic |
| C101 | `Math.Project` | orthonormal frames; rows orthonormal give columns orthonormal by Mathlib |
| C102 | `Math.Frustum`: exact arithmetic | Cauchy-Schwarz for spheres; the planes of a perspective camera computed |
| C103 | `Math.Interp`: exact arithmetic | algebra, sums of non-negative terms, Mathlib's derivative |
| C104 | `Math.Interp`: division by zero is an outcome of its own | addition theorems |
| C105 | `Math.Round`: exact arithmetic, the conversion to `int` can be undefined | Mathlib's floor and ceiling; nearest is specified by comparison with every whole number |
| C106 | `Math.Round`: exact arithmetic | the remainder is specified as the one number in range that differs by a multiple |
| C107 | `Math.Round`: bits for the sign, exact arithmetic otherwise | bit by bit; Mathlib's bounds on pi, e, log 2 and the exponential series |
| C108 | `Math.Rsqrt`: bits for the guess, exact arithmetic for the two Newton steps | the guess is a cubic in the fraction in each of three cases; the steps square the error |
| C109 | `Math.Fallback`: exact arithmetic, the approximations of arc tangent and exponential stand for the functions | polar coordinates; induction on the exponent |
| C110 | `Math.Helpers` | order and integer arithmetic |
| C111 | `Mem.Heap`: memory as a partial map of addresses, the operating system as an oracle that keeps the contract of aligned_alloc | refinement: the history is one of an abstract heap, by induction on the number of actions |
| C112 | `Sys.Bits`: bit vectors of the widths of the C types, signed overflow and bad shifts are faults | bit by bit; the smear loop sets all bits below the highest one; induction on the bits to count |
| C113 | `Parse.UriDoc`: the text as a block changed in place, nodes with offsets into it; writing as appending | induction on the parameters: the part of the text already read stays as it is |
| C114 | `Sys.File`: the POSIX branch over an abstract system (names, contents, descriptors, an oracle that may cut short or refuse every transfer) | simulation of every call by the specification of bytes and cursor, then induction on the history |
| C115 | `Sys.File`, `Sys.Fs`: the table from modes to flags, descriptors with lowest free number, allocated names counted | case analysis of the modes; equality of the descriptor table before opening and after closing |
| C116 | `Sys.File`: both functions over the modelled calls | composition of the lemmas of C114 and C115 |
| C117 | `Sys.File` over `Str.Lines` | composition of C116 with the theorem on splitting lines |
| C118 | `Sys.Fs`: link, unlink, remove and sendfile over the system of `Sys.File`; the states after each system call of a move | case analysis; membership in the trace of states |
| C119 | `Sys.Fs`: the time of last change with the test as it is written | unfolding; the answer does not depend on the time |
| C120 | `Conc.Thread`: parent and threads as step functions under an arbitrary schedule, sequentially consistent memory, the start semaphore as a counter | invariant by induction on the schedule; a measure that falls along every fair schedule |
| C121 | `Sys.Dir`: the recursion over an inductive tree of folders as readdir gives them, with the number of open folders | mutual induction on the tree; membership in the list against an inductive reachability relation |
| C122 | `Sys.Dir`: blocks with their exact sizes, the static buffer as it passes from call to call | composition of C121 with the theorems on copying and splitting; bit-vector identities for modes |
| C123 | `Parse.RegexAll`: the loop over the modelled matcher, with the buffer of captures as it is left by each round | induction on the walk from match to match, on the theorem for one match (C82) |
| C124 | `Sys.OptsPrint`: the loops over entries and positionals, printing to a stream through the modelled zpl_fprintf | the general effect of a format with several `%s`, then induction over the options |
| C125 | `Parse.WriteString`: the print calls of a writer on a memory stream, whose growths may fail | induction over the calls, on the memory stream (C47) and the writers of each format |
| C126 | `Str.Sprint`: the functions on the modelled zpl_snprintf, with the buffer they share as a state | induction over the calls, on what is printed (C54) and on strings |
| C127 | `Math.Double` (double precision arithmetic on exact rationals, round to nearest even) and `Str.PrintReal` (`zpl__print_f64`) | error bound of the decimals by induction, exactness of the whole part; then induction over the format as in C54 |
| C128 | `Str.ReadReal` (`zpl_str_to_f64`) with the arithmetic of `Math.Double` | the loops as folds over the digits; error bound by induction over the digits behind the point; powers of ten up to 10^22 are exact; composition with C127 |
| C129 | `Parse.NumberDouble`: the parameter `Reals` of `Parse.Number` instantiated with `Math.Double`, `Str.ReadReal` and `Str.PrintReal` | composition of C127, C128 and C88/C89; concrete runs of the arithmetic by kernel evaluation for the deviations |
| C130 | `Sys.Time`: the conversions in the double arithmetic of `Math.Double`, readings of the system clock as arguments | monotonicity of rounding; error bounds; induction over histories |
| C131 | `Sys.Socket`: the calls of the system with an oracle for their success, the open sockets and the allocated address lists as state | case distinction over all outcomes; induction over the list of sockets and over histories; exactness of the fraction of a double |
| C132 | `Sys.Process`: the Windows variant, with handles, streams and children as state and an oracle for the success of calls; command line and environment with the strings of `Str.ZString` | evaluation of the calls on any state with fresh numbers; induction over arguments |
| C133 | `Sys.Command`: the environment as a list of names and values, a command as the bytes it prints | induction over histories and outputs |
| C134 | `Conc.Atomic`: threads with programs, a locked instruction is a step, a round of a loop is a read and a compare-and-exchange; four variants of compiler and machine | the operation happens at its last step: induction over the schedule; progress by a measure that falls with each step that returns nothing |
| C135 | `Conc.Affinity`: the three systems, with the answers of the system as parameters | invariant over the list of processor relations; induction over the bits of a mask |
| C136 | `Parse.Json` and `Parse.Number` as they are, with any text | each function returns a suffix of its text, a measure on texts and calls bounds the rounds; the converse part by induction over the texts that break off |
| C137 | `Parse.Csv` and `Parse.Number` as they are, with any text | each function returns a suffix of its text; an invariant on the columns says none is empty; the failures left are those of the number reader |
| C138 | `Parse.Uri` and `Parse.UriDoc` as they are | a relation between spellings and texts; induction over the fields with the written and the unread part of the text; length of the text and progress for termination |
| C139 | `Sys.TarDir`: the listing of `Sys.Dir`, its lines, and the archive of `Sys.Tar`; a folder can be opened but not read | composition of C121, C32, C52 and C81; the converse by induction over the list of paths |
| C140 | `Mem.SubArena`: two arenas of `Mem.Arena` on one memory, the second made by an allocation from the first; freeing through any allocator | product invariant by induction over the interleaving, with a frame lemma for each request |
| C141 | `Parse.AdtFree`: the tree operations of `Parse.Adt` with the list of allocated arrays; freeing or reading one not on the list is `ub` | invariant: the allocated arrays are a permutation of those of the tree; destruction by structural induction |
| C142 | `Sort.RandomReal`: the four rounded operations on the doubles of `Math.Double`, after the generator of `Sort.Random` | the fraction is between 0 and 1 because rounding is monotone; then each further operation stays between two doubles |
| C143 | `Sys.DirFree`: the tree of entries with the blocks they own, and the list of allocated blocks | invariant: the allocated blocks are a permutation of those of the tree and those there were before |
| C144 | `Sys.FullName`: the copy, over any allocator, beside the heap of the C library | case of each allocator; the copy by the theorem on memmove (C10) |
| C145 | `Math.InterpFloat` over `Math.Single`: IEEE single precision as exact rationals rounded after each operation | error bounds of one operation added up; monotonicity of rounding; exactness of differences within a factor of two |
| C146 | `Math.RoundFloat`, `Math.RoundDouble`, `Math.RoundEdge` over `Math.Single` and `Math.Double` | the rounded sum lies between the same whole numbers as the exact one, but for the numbers named |
| C147 | `Math.LengthFloat` over `Math.Single`; the square root is the correctly rounded one of IEEE 754 | error bounds of the operations added up, for coordinates up to 2^62 and a sum of squares of at least 2^-120 |
| C148 | `Parse.JsonMem`: the parser of `Parse.Json` with the arrays it allocates and frees and the parents it records | induction over the calls: the allocated arrays are those of the node, of its surroundings and those lost; a simulation shows that the document is that of `Parse.Json` |
| C149 | `Parse.JsonMem` with `zpl_adt_remove_node` of `Parse.Adt` | invariant: which parent the children of a node record depends on the capacity of the array the node is in |
| C150 | `Parse.ParserMem`: the parsers of `Parse.Csv` and `Parse.UriDoc` with the arrays they allocate and free | invariant: the allocated arrays are those of the table or object; a simulation shows that the contents are those of `Parse.Csv` and `Parse.UriDoc` |
| C151 | `Parse.JsonMem` and `Parse.ParserMem` | induction over the calls: the result is the one with enough memory or the error; for tables and URIs theorems about the texts for which it goes wrong |
| C152 | `Mem.Backed`: the pool and the stack of `Mem.Pool` and `Mem.Stack` in memory from the heap of `Mem.Heap` | a frame property for every pool and stack request, by cases and induction over the history; then the invariant of C111 for the heap with the block of the pool |
| C153 | `Mem.Backed` (stackInUse) on the histories of `Mem.Stack` | the invariant of C19: nothing is allocated exactly if no block is held |
| C154 | `Mem.Backed` (allocCopyAlign) on the heap of `Mem.Heap` | the invariant of C111 for an allocation, then C10 for the copy |
| C155 | Math/MatFloat: the functions of Math/Vec, Math/Mat and Math/Quat with the numbers of single precision (Math/Single), each operation rounding; no fused operations. | One lemma for a rounded sum of two, three and four rounded terms, with their signs; the exact product of Mathlib matrices and quaternions is the specification. Whole numbers below 2^24 are representable, so nothing is rounded. |
| C156 | Math/RectFloat: the functions of Math/Rect with the numbers of single precision (Math/Single). | Rounding is monotone, so C91 applies to the finite numbers with sums that stop at the largest; cutting never shows the difference. Whole numbers below 2^22 are not rounded, so C90 applies to them. |
| C157 | Conc/Sem: mutexes of POSIX systems and of Windows, with the clients' reading of what try_lock returns as a parameter; semaphores of Unix with posting one by one, interrupted waits and the limit of the counter. The operating system keeps its contract. | Invariants over all schedules: the owner is the thread inside; the counter is what was put in less what was taken; what a thread has put in and has still to put in is what it asked for. |
| C158 | Math/Drift: the product of Math/Quat with the numbers of single precision, repeated over a list of turns. | Induction over the turns: lengths of quaternions multiply, so the error before a turn is multiplied by its length, and C155 bounds what the turn adds. |
| C159 | Sort/Compare: the comparison functions on records of bytes with their global offsets, used with the sort and the search of Sort/Sort and Sort/Search. | The comparison is the sign of the comparison of the numbers (with infinities), a total preorder on records without NaN, so C33 and C36 apply. |
| C160 | Conc/Tso: processors with store buffers (x86-TSO), the plain atomic loads and stores, locked instructions and the fences of each system. | The stores of a thread are those in memory followed by those in its buffer (invariant over all moves); behind a fence that is an instruction the flag is in memory. |
| C161 | Sys/EnvWin: the Windows branches with their static buffers, over a model of the environment Windows keeps. | From the conversions of C28 for every content of the buffers; lookup laws of the environment by induction. |
| C162 | Parse/SaveLoad: the program that saves (create, print calls, close) and loads (read contents, parse) over the file system of C114. | The file holds what was printed so far (induction over the print calls, each by C114); composed with C49, C50 and C116. |
| C163 | Sys/FileWin: the Windows branch over a model of SetFilePointerEx, ReadFile, WriteFile, CreateFileW with its rules of sharing; the specification of C114 is used again. | Refinement to a list of bytes and a cursor; comparison with the specification of C114; an invariant of all programs that no two handles on a file can coexist if one may write, from which non-interference follows by induction. |
| C164 | Sys/WinPath: the Windows branches, with the buffer of MAX_PATH bytes and the blocks; the system is given by functions and by the tree of C121. | Induction over the tree; the text of the listing is compared with the paths of the tree; blocks are counted. |
| C165 | Sys/MkDir: a disk is a map from places to files and folders with permissions; mkdir and rmdir of POSIX on it with their errors; the three functions with their tables of errors. | Resolution of a path is compared with an independent reading of it (the cleaned list of its parts below the origin); induction over the prefixes that are made. |
| C166 | Sort/Seed: the answers of the clock are a sequence; the arithmetic of the noise in double precision; the calls in the order in which they raise the shared counter. | Each pass over the offsets can be undone, so different counters give different states; bounds of the rounding errors place the end of the measurement next to the next whole second. |
| C167 | The model of zpl_adler32 from C40 (both loops with their 32-bit accumulators and deferred reductions). | C40 gives the sums modulo 65521; the second sum is rewritten as a weighted sum, so that the two strings differ by d*(a-b), which the prime 65521 does not divide. The unnoticed change is a ring identity. |
| C168 | Sys/VmPages: both branches over models of mmap, munmap, madvise and of VirtualAlloc, VirtualQuery, VirtualFree, with pages, granularity, contents and the reservations of the process. | Arithmetic of rounding to pages; reservations stay apart, so that a query finds the one of the block; case analysis of the calls for all answers of the system. |
| C169 | `c?p` for the patterns of C82 as `p`, through the compiler and the matcher of `Parse.Regex` | the operations `c?p` is compiled to; one step of the matcher with and without the character; the usual meaning is a small separate predicate (`MatchesOpt`); negations for texts without the character, `.` behind it, and characters that would have to be given back |
| C170 | `c+?p` and `c*?p` for the patterns of C82 as `p` | the operations they are compiled to, which are the same; one step of the matcher; the usual meaning is the predicate `MatchesLazy`; negations for more than one repetition and for none |
| C171 | the compiler of C82-C84 on arbitrary bytes; open brackets counted by a separate function, which passes over escapes and closed sets (`Parse.RegexPaired`); likewise the `]` that close nothing (`Parse.RegexStray`) | induction over the rounds of the compiler: accepted means no bracket closed that was not opened, and none left open unless the pattern ends with `)`; negations for `((q)` and `[s` |
| C172 | `Sys.TimeOther`: the static variables as state, the values of the counter as arguments, signed 64 bit arithmetic on Windows and double arithmetic on macOS | induction over the calls; error bounds of rounding; negations for an overflowing product on Windows and for a fractional length of a tick on macOS |
| C173 | `Parse.RegexCount`: the compiler of C82-C84 on arbitrary bytes; the groups of a pattern counted by a separate function, as its opening brackets that belong neither to an escape nor to a set | induction over the rounds of the compiler: the counter grows by the brackets passed |

## 4. Where the code disagrees with a property

Each entry was found while proving; the theorem that shows it is named. The property keeps its full statement and its claim is `partial`
(or `proved` if the disagreement lies outside its statement).

| id | what the code does | theorem |
|----|--------------------|---------|
| C02 | `zpl_array_set_capacity` below the count truncates before the allocation that may fail | `Arr.C02_set_capacity_failure_truncates` |
| C07 | `zpl_ring_get_array(m)` returns at most m-1 elements, and drains the ring when m is 0 | `Ring.C07_get_array_short`, `Ring.C07_get_array_zero_drains` |
| C09 | list insertion and removal do not maintain the successor's `prev` | `LList.C09_prev_links_not_maintained`, `LList.C09_remove_after_remove_fails` |
| C15 | `zpl_align_forward_i64` overflows for a negative value and an alignment above 2^62 | `Align.C15_i64_overflow` |
| C16 | arena blocks overlap, or leave the region, when alignments increase | `Arena.C16_mixed_alignments_overlap`, `Arena.C16_mixed_alignments_out_of_bounds` |
| C19 | stack allocator never aligns above 8; growth through a backing allocator records a wrong size | `Stack.C19_never_aligned_above_8`, `Stack.C19_growth_size` |
| C20 | scratch blocks overlap and run past the end | `Scratch.C20_blocks_overlap`, `Scratch.C20_out_of_bounds` |
| C25 | a digit beyond the base is added instead of ending the number | `Num.C25_digit_beyond_base` |
| C28 | an unpaired surrogate makes `zpl_ucs2_to_utf8` read past the terminator (ill-formed text, outside the statement) | `Ucs2.C28_unpaired_surrogate` |
| C30 | `zpl_strlcpy` leaves a text that fills the buffer unterminated | `Str.C30_strlcpy_not_terminated` |
| C32 | a leading newline reads the byte before the text; a last line without newline runs past the terminator | `Str.C32_leading_newline`, `Str.C32_unterminated_line` |
| C35 | `zpl_radix_sort_u8` leaves its result in `temp` (the statement is about the other sizes) | `Radix.C35_u8_result_in_temp` |
| C37 | `zpl_reverse` leaves the array for two or more elements; `zpl_shuffle` does so on a negative draw | `Search.C37_reverse_out_of_bounds`, `Random.C37_shuffle_can_leave_array` |
| C39 | the "unique" generator repeats: calls 0 and 65536 agree | `Random.C39_repeats` |
| C44 | murmur64 ignores the tail bytes of messages of 8 or more bytes | `Murmur.C44_tail_ignored` |
| C46 | base64 decoding accesses memory out of bounds on malformed lengths and on `====` | `Base64.C46_length_not_multiple_of_4`, `Base64.C46_bad_padding` |
| C47 | memory streams: transfers past the end leave the block; a failed growth moves the position | `Stream.C47_write_past_end`, `Stream.C47_read_past_end`, `Stream.C47_failed_write_moves` |
| C57 | a worker between reading READY and storing BUSY overwrites TERM; `zpl_jobs_free` then never returns | `Jobs.C57_shutdown_can_hang` |
| C48 | the decoder writes into a 65536-byte array without a bound, so a text of 65536 bytes or more overruns it; a `%` at the end of the input is read past the terminator | `Uri.C48_long_text_overflows`, `Uri.C48_cut_escape` |
| C54 | a text of exactly `max_len` characters is followed by a NUL at `text[max_len]`; literals are not bounded at all; with `max_len` 0 the call writes a NUL or never returns; the change of case after `%x` runs on to the next NUL in the buffer; an exact fit gives -1 | `Print.C54_exact_text_overflows`, `Print.C54_literal_overflows`, `Print.C54_zero_writes`, `Print.C54_zero_diverges`, `Print.C54_case_runs_on` |
| C54 | a NULL argument of `%s` is printed as `(null)` only if six bytes of room are left (width and precision are ignored); with less, NULL is read | `Print.C54_null_read` |
| C58 | with the two highest priorities non-empty the counter stays odd and the highest is never served again | `Jobs.C58_highest_priority_starves`, `Jobs.C58_two_empty_passes` |
| C59 | the spin lock exchanges 1 for 0, so any number of threads hold it | `Spin.C59_no_mutual_exclusion` |
| C60 | `start` is unlocked by another thread than the one that locked it (undefined for a default POSIX mutex; modelled as allowed); a target of 0 blocks for ever | `Sync.C60_zero_target` |
| C49 | a string with a double quote comes back with a backslash in front of it; a string that ends with a backslash hides the closing quote and the parser reads behind the text; a root in configuration mode written at indentation 0 puts a newline between `}` and `,`, which cannot be read | `Json.C49_quote_comes_back_escaped`, `Json.C49_final_backslash_reads_outside`, `Json.C49_config_at_zero_fails` |
| C77 | inside objects a newline before a comma turns the next name into a nameless string; a `//` comment at the end of the text dereferences NULL; a block comment swallows the character after it; a text cut off within a string is read behind its end | `Json.C77_layouts_misread`, `Json.C77_cut_off_string_reads_outside` |
| C50 | after an empty quoted cell the unescaping loop steps over the terminator and goes on through the rest of the input; a blank delimiter is trimmed away; with a header, an unquoted numeric header cell leaves the column's name pointing at the bytes of the number; an unquoted word of the letters `a` to `f` is read as the number zero; a cell of 48 digits or more overruns an array | `Csv.C50_two_empty_cells`, `Csv.C50_silent_change`, `Csv.C50_blank_delimiter`, `Csv.C50_number_as_name`, `Csv.C50_words_become_zero`, `Csv.C50_long_number_overruns` |
| C62 | a node records its parent by address; inserting before (or growing the array of) an ancestor makes the record wrong and `zpl_adt_remove_node` undefined; deep search is not pre-order | `Adt.C62_stale_parent`, `Adt.C62_find_not_preorder` |
| C63 | at an array a part that is no number means index 0; `a//b` is `a/b` | `Adt.C63_text_is_index_zero`, `Adt.C63_empty_part` |
| C78 | moving a node within its own parent: to an earlier place moves the left neighbour instead; to a later place returns a pointer to another node, or to none; in a full array reads freed memory | `Adt.C78_within_earlier`, `Adt.C78_within_later`, `Adt.C78_within_full` |
| C78 | moving a node out of its parent to the grandparent: to a place at or before the parent, or if the grandparent's array is full, the parent recorded in the node is another node, or freed memory, when it is used | `Adt.C78_up_before`, `Adt.C78_up_full` |
| C78 | the children of a moved object or array keep recording its old place; removing one of them is undefined | `Adt.C78_moved_children_lost` |
| C53 | `--name=value\` (a value ending in a backslash) reads behind the argument; an empty separate value reads the byte before it; giving a value to an option without a long name while a positional is pending compares a null pointer | `Opts.C53_backslash_faults`, `Opts.C53_empty_value_faults`, `Opts.C53_no_long_name_faults` |
| C53 | registering an option after a positional when the table is full leaves the positional dangling; the error for a stray value after a flag has an empty text; a missing positional is not reported by `zpl_opts_compile` (only by `zpl_opts_positionals_filled`); a separate value cannot begin with `-` | `Opts.C53_dangling_positional`, `Opts.C53_stray_value_unnamed` |
| C80 | an object whose closing brace is missing at the end of the text is accepted | `Json.C80_unclosed_object_accepted` |
| C52 | names of more than 12 characters are packed as the empty name (`zpl_snprintf` with 12 for a field of 100 bytes) | `Tar.C52_long_name_lost` |
| C52 | zeroing the first byte of a checksum ends the archive silently; bytes behind the checksum's terminator are not covered | `Tar.C52_zeroed_checksum_ends`, `Tar.C52_behind_checksum_unnoticed` |
| C52 | sizes are stored modulo 4 GiB (`%o` takes an `int`) | `Tar.C52_size_modulo` |
| C52 | an archive without the zero blocks at its end: the callback gets the last record over and over | `Tar.C52_unterminated_repeats` |
| C52 | a header with the size -512 is read for ever | `Tar.C52_negative_size_diverges` |
| C81 | names such as `a/../../x` are unpacked outside the destination | `Tar.C81_escapes` |
| C81 | an empty name (any packed name of more than 12 characters) is unpacked through an uninitialised file | `Tar.C81_empty_name_undefined` |
| C81 | a path one or two bytes too long passes the assertion and overruns the buffer | `Tar.C81_path_overrun` |
| C51 | a run of 128 to 253 ordinary characters compiles, but matching reads before the operations (its length is a signed `char`); 254 makes `zpl_re_match` loop for ever, 255 never matches, 256 is stored as length 0; longer runs are refused | `Regex.C51_long_literal_fault`, `Regex.C51_too_long` |
| C82 | `$` alone is found in no text, not even where it could match at the end (attempts begin only at characters); escapes look at the character behind the text | `Regex.C82_end_alone`; the block of a text has a byte behind it in the statement |
| C83 | a `c+` or `c*` at the start of the pattern, tried where no `c` stands, makes the matcher go on at operation -1 | `Regex.C83_repeat_nothing` |
| C83 | `c+` at the end of a pattern takes one character; `c+c` is never found (what `c+` takes is not given back) | `Regex.C83_last_takes_one`, `Regex.C83_repeat_possessive` |
| C84 | a `]` that closes no set: compiling never ends and eats memory; `a+` 64 times writes behind the buffer; `zpl_re_compile_from_buffer` takes the capacity from the wrong field and refuses every pattern | `Regex.C84_bracket_diverges`, `Regex.C84_quantifier_overflow`, `Regex.C84_from_buffer` |
| C85 | `s|t` means `s` followed by `t`; `(s|t)` means `(s)` (a failed alternative has offset -1, which passes for a match) | `Regex.C85_top_level_joins`, `Regex.C85_group_first_only` |
| C86 | `\d`, `\D`, `\a`, `\f` and every other escape of a hexadecimal digit swallow the next character: `\dx` is the single character number 0xDX by the code's (wrong) hexadecimal values | `Regex.C86_hex_swallows` |
| C87 | a negative integer marked hexadecimal is written as `0xffff…`, and reading that overflows; the least integer cannot be written (undefined) | `Number.C87_negative_hex_fails`, `Number.C87_least_fails` |
| C88 | 48 characters and more overrun the array `buf` (out-of-bounds write); magnitudes of `2^63` and more overflow; `12e5` is read as 12 (the `e` counts as a hexadecimal digit); `-0x10` and `0X10` are read as 0; words of the letters a-f, such as `bad`, are read as 0 (so CSV cells and URI arguments such as `face` become numbers) | `Number.C88_long_number_overruns`, `C88_large_number_undefined`, `C88_exponent_ignored`, `C88_negative_hex_lost`, `C88_capital_x_lost`, `C88_words_are_zero` |
| C89 | the exponent is kept in a signed 4-bit field: `1.5e8` is written as `1.5e-8`; a fraction of 2147483648 and more is written with a minus sign after the dot; 16 leading zeros of a fraction get lost; a zero fraction grows by a zero each time | `Number.C89_large_exponent_changes`, `C89_large_fraction_changes`, `C89_many_zeros_lost`, `C89_zero_fraction_grows` |
| C54 | `%s` with a text longer than the room writes nothing of it | `Print.C54_long_text_dropped` |
| C64 | `zpl_vm_trim` unmaps the start of the kept part instead of the end of the region | `Vm.C64_trim_unmaps_kept` |
| C66 | a UTF-8 text cut inside a character makes `zpl_utf8_strlen` step over the terminator | `Utf8.C66_truncated_text` |
| C67 | `zpl_strcpy`, `zpl_strcat` never write a terminator | `Copy.C67_strcpy_not_terminated`, `Copy.C67_strcat_not_terminated` |
| C68 | `zpl_strdup` with `max_len` below the length clears memory outside the block | `Copy.C68_strdup_short` |
| C69 | `zpl_strntok` leaves a long token unterminated and loses a character | `Token.C69_strntok_long` |
| C71 | `zpl_char_to_hex_digit` is too small by ten for letters | `Chars.C71_hex_letters_wrong` |
| C72 | `zpl_utf8_strnlen` reads one byte past the bound; `zpl_utf8_codepoint_size` is always 1 | `Chars.C72_strnlen_reads_past`, `Chars.C72_codepoint_size_wrong` |
| C90 | a rectangle with a negative side has points, the box made of it has none | `Math.C90_negative_sides_lost` |
| C91 | a negative width makes the box grow beyond its edge (caller error, not checked) | `Math.C91_negative_grows` |
| C92 | `contract` and `expand` compare the squared lengths of the corners: a box whose centre has negative coordinates loses all its points | `Math.C92_expand_loses`, `C92_contract_loses` |
| C93 | `vec2_refract`/`vec3_refract` multiply by the root where they should add it: a ray along the normal becomes zero, a ray that stays in its material is bent | `Math.C93_refract_straight_lost`, `C93_refract_same_material_bends` |
| C94 | `mat2_mul_vec2` and `mat3_mul_vec3` multiply by the transposed matrix (`mat4_mul_vec4` does not), so products apply in the opposite order | `Math.C94_vec_transposed`, `C94_vec_reversed` |
| C95 | `mat3_inverse` gives the transpose of the inverse; `mat2_inverse` and `mat4_inverse` in place read entries they have overwritten | `Math.C95_inverse3_transposed`, `C95_inverse3_wrong`, `C95_inverse2_in_place`, `C95_inverse4_in_place_fails` |
| C98 | `zpl_quat_axis` normalises the quaternion but takes the angle from the one that is not normalised | `Math.C98_axis_of_scaled` |
| C99 | `zpl_quat_roll` and `zpl_quat_pitch` lack parentheses (`2xy + zw` for `2(xy + zw)`): a pure roll or pitch gives the angle with half the tangent; `zpl_quat_yaw` does not fit the order of `zpl_quat_euler_angles` when there is a roll | `Math.C99_roll_wrong`, `C99_pitch_wrong`, `C99_yaw_mixed` |
| C100 | `zpl_mat4_perspective_dx` lacks a factor: near and far planes are not drawn at depths 0 and 1 unless the far plane is at 1 | `Math.C100_perspective_dx_depth_wrong` |
| C102 | `zpl_frustum_box_inside` only looks at the corners: a box that surrounds all that can be seen is reported outside | `Math.C102_box_around_lost` |
| C102 | `zpl_frustum_create` mixes rows and columns: near and far planes are wrong and the position of the camera is not looked at | `Math.C102_depth_wrong`, `C102_position_ignored` |
| C102 | for the same reason a camera turned around its viewing axis sees what one turned the other way should see | `Math.C102_turned`, `C102_turned_wrong` |
| C104 | `zpl_quat_slerp` of equal rotations divides by zero; the linear result it computes when the product is above 1 is overwritten (a `return` is missing) | `Math.C104_slerp_same_fails` |
| C105 | `zpl_floor` of every negative whole number is one less, because `0.9999999999999999f` is the number 1 | `Math.C105_floor_whole_negative` |
| C105 | `zpl_ceil` of every whole number that is not negative is one more | `Math.C105_ceil_whole` |
| C106 | `zpl_mod` corrects the wrong half: it is the remainder only exactly halfway between two multiples; of a multiple it returns the divisor | `Math.C106_mod_wrong`, `C106_mod_multiple` |
| C106 | `zpl_mod64` always adds the divisor and is wrong below half of it | `Math.C106_mod64_wrong` |
| C106 | `zpl_angle_diff` has the wrong sign for a second angle ahead, and goes the long way for one behind | `Math.C106_angle_diff_ahead`, `C106_angle_diff_behind` |
| C107 | `ZPL_ONE_OVER_TAU` is four times and `ZPL_ONE_OVER_PI` half of what the names say | `Math.C107_one_over_wrong` |
| C109 | `zpl_arctan2` mirrors the two octants left of the second axis; on the negative first axis it gives minus half a turn | `Math.Fallback.C109_arctan2_mirrored`, `C109_arctan2_left` |
| C109 | so does `zpl_arccos` for small negative arguments and -1 | `Math.Fallback.C109_arccos_mirrored`, `C109_arccos_minus_one` |
| C109 | `zpl_pow` raises e, not the base, to the fraction of the exponent | `Math.Fallback.C109_pow_wrong` |
| C109 | the polynomial of `zpl_sin` is not odd | `Math.Fallback.C109_sin_negative` |
| C110 | `zpl_mat2_copy` copies the size of a 3 by 3 matrix: it reads and writes out of bounds | `Macro.C110_mat2_copy_overrun` |
| C110 | `zpl_abs` of the least int overflows | `Macro.C110_abs_least` |
| C111 | with `ZPL_HEAP_ANALYSIS` every block asked for with an alignment of 64 or more is misaligned: it starts 32 bytes past a multiple | `Heap.C111_analysis_misaligned` |
| C111 | with `ZPL_HEAP_ANALYSIS` an allocation that the operating system refuses is written through the null pointer | `Heap.C111_analysis_failure_crashes` |
| C112 | `zpl_bit_get` returns a signed byte: of bits 8 to 30 it always says they are not set | `Bits.C112_bit_get_wrong` |
| C112 | `zpl_next_pow2` overflows above 2^30 | `Bits.C112_next_pow2_rest` |
| C113 | values that begin with a number and go on with signs or dots, such as dates, are cut to the number | `UriDoc.C113_dates_cut` |
| C113 | words of the letters a to f come back as zero | `UriDoc.C113_words_become_zero` |
| C113 | 48 digits or more overrun an array on the stack | `UriDoc.C113_long_digits_overrun` |
| C113 | the origin is used as a format: escapes like `%c3` are undefined | `UriDoc.C113_origin_is_a_format` |
| C113 | hexadecimal numbers come back as texts | `UriDoc.C113_hex_becomes_text` |
| C113 | a flag without a name at the end is lost | `UriDoc.C113_empty_flag_lost` |
| C113 | `%` at the end of the text reads out of bounds | `UriDoc.C113_cut_escape` |
| C114 | reading past the end moves the cursor by the size asked for, and a later write leaves a gap of zeros | `File.C114_read_past_end` |
| C114 | writing at an offset moves the cursor, where reading at an offset does not | `File.C114_write_at_moves_cursor` |
| C114 | a failed seek answers 0 | `File.C114_failed_seek` |
| C114 | a write cut short is reported as a success | `File.C114_short_write` |
| C115 | closing twice frees the name twice | `File.C115_close_twice` |
| C115 | in append mode the cursor is not where the data goes | `File.C115_append_cursor` |
| C116 | for an empty or missing file no block is returned, and the two cannot be told apart | `File.C116_nothing_to_read` |
| C116 | a failed write has already emptied the file | `File.C116_failed_write_loses_file` |
| C116 | a write cut short is reported as success | `File.C116_short_write_is_success` |
| C116 | a read cut short is reported as success, the rest of the block is uninitialised | `File.C116_short_read_is_success` |
| C118 | copying over a longer file leaves its tail, whatever fail_if_exists says | `File.C118_copy_leaves_tail` |
| C118 | copying a missing file creates the target | `File.C118_copy_missing_creates` |
| C118 | a move that cannot take the old name away reports failure with both names there | `File.C118_failed_move_leaves_both` |
| C119 | the result of stat is tested the wrong way round: the time of an existing file is always 0, and no change is ever reported | `File.C119_change_never_reported` |
| C120 | in the mode without waiting a thread may not run yet when start returns, and a second start then runs the second procedure twice and the first never | `Thread.C120_nowait_lost` |
| C120 | a failed start returns the error number and not 0; joining or destroying then is undefined | `Thread.C120_failed_start` |
| C120 | a second join is undefined | `Thread.C120_join_twice` |
| C120 | asking whether a thread runs is a race | `Thread.C120_poll_races` |
| C121 | entries whose names begin with two dots are passed over with all that is below them | `Dir.C121_dotted_names_missing` |
| C121 | no folder that is opened is ever closed | `Dir.C121_handles_leak` |
| C122 | the path of the folder is never terminated | `Dir.C122_fullpath_not_terminated` |
| C122 | after a folder with a longer name, the end of that name stays behind the next one | `Dir.C122_step_stale` |
| C122 | a path without separator is undefined | `Dir.C122_step_no_separator` |
| C122 | a folder name of more than 128 bytes is written over the end of a buffer | `Dir.C122_step_overrun` |
| C122 | sockets and block devices are reported as folders | `Dir.C122_socket_is_folder` |
| C123 | a match that ends where its search began is found again for ever | `Regex.C123_empty_match_diverges` |
| C123 | captures that the pattern does not have are appended uninitialised | `Regex.C123_copies` |
| C123 | with something behind the last match the answer is false | `Regex.C123_trailing_text` |
| C124 | with 8, 24, 56, … options registered the loop of the help screen reads behind the table | `OptsPrint.C124_help_reads_outside` |
| C124 | the help screen shows the entry behind the last as if it were an option | `OptsPrint.C124_help_shows_junk` |
| C124 | the usage line lists the positionals in the reverse of the order in which they are expected | `OptsPrint.C124_usage_reversed` |
| C124 | an option with a string that is given twice leaks the first string | `OptsPrint.C124_free_leaks` |
| C125 | a growth that fails drops a piece of the text of a CSV or URI document, and nothing tells | `WriteString.C125_lost_piece` |
| C125 | when a JSON document cannot be written the stream is not closed | `WriteString.C125_json_reports` |
| C126 | a text of 65534 characters is not appended at all, and nothing tells | `Sprint.C126_append_fmt_drops` |
| C126 | the count of a text of 65535 characters is -1 although it is printed whole | `Sprint.C126_asprintf` |
| C127 | `%f` of a number with the fraction 1/4 prints the decimals 249999 | `PrintReal.C127_quarter` |
| C127 | `%f` of 0.09999999999999999 prints `0.0100000`: a decimal comes out as `10` | `PrintReal.C127_ten` |
| C127 | numbers from 2^64 on, infinities and NaN are undefined behaviour | `PrintReal.C127_undefined` |
| C127 | 18 or more decimals overflow a signed integer, whatever the number is | `PrintReal.C127_many_decimals` |
| C127 | if there is room for the whole part and the point, all decimals and the terminator are written, also behind the room given | `PrintReal.C127_overruns` |
| C127 | decimals are cut off, not rounded; zero has no decimals; `-` prints a plus sign and does not put the number to the left; `%g` and `%a` are `%f` | `PrintReal.C127_fits_partial` (specification `realField`) and the examples beside it |
| C128 | `0.15` is not read as the double nearest to 0.15 | `ReadReal.C128_not_nearest` |
| C128 | exponents above 308 count as 308 (`1e309` is `1e308`), and exponents are taken modulo 2^32 (`1e4294967296` is 1) | `ReadReal.C128_exponent_308`, `ReadReal.C128_exponent_wraps` |
| C128 | a text without a number reads as 0, and the end pointer is behind the spaces and the sign, not at the start as with `strtod` | `ReadReal.C128_no_number` |
| C129 | a number with the fraction 1/4 is written with the decimals `249999`, and reads back smaller | `Number.C129_quarter` |
| C129 | a document that is read and written again can lose a millionth each time: `1.20`, `1.199999`, `1.199998` | `Number.C129_drifts` |
| C129 | the real number 0 is written `0` and read back as an integer | `Number.C129_zero_becomes_integer` |
| C129 | a number between -1 and 0 that was read from a document is written with two minus signs and cannot be read again | `Number.C129_minus_doubled` |
| C129 | a negative exponent is applied with the single precision number 0.1f, so the number is too large by more than one part in 10^9 | `Number.C129_negative_exponent` |
| C130 | when the first question falls into the first millisecond of the clock, the time since then starts again at the second question and so goes back | `Time.C130_restarts` |
| C130 | in the last moments of every millisecond the following millisecond is reported as the date | `Time.C130_utc_early` |
| C130 | the date on Windows is ten times too large | `Time.C130_windows_tenfold` |
| C131 | when binding, setting the mode or connecting fails the new socket stays open and its number is lost | `Socket.C131_failure_leaks` |
| C131 | so repeated failures use up all sockets of the system, and then no call can succeed | `Socket.C131_exhausts` |
| C131 | only the first address of a host is tried | `Socket.C131_first_address_only` |
| C131 | `zpl_socket_get_address` gives the system the number 128 for an address, and never succeeds | `Socket.C131_no_address` |
| C131 | `zpl_socket_receive_from` does the same: the data is taken and lost | `Socket.C131_receive_from_loses` |
| C131 | waiting for a socket with a number from 1024 on writes outside the set on the stack | `Socket.C131_select_overruns`, `Socket.C131_multi_select_overruns` |
| C132 | `zpl_pr_join` closes the input stream twice, for every process | `Process.C132_join_closes_twice` |
| C132 | the ends of the pipes for the child stay open in the parent | `Process.C132_destroy_partial`, `Process.C132_terminate_partial` |
| C132 | so that the output of a child never ends | `Process.C132_output_never_ends` |
| C132 | the files `in`, `out` and `err` hold C streams where system handles are expected | `Process.C132_files_unusable` |
| C132 | when the program cannot be started all pipes stay open | `Process.C132_failed_create_leaks` |
| C132 | when a pipe cannot be made an assertion fails after the child was started | `Process.C132_no_pipe_asserts` |
| C132 | arguments with blanks and empty arguments are not quoted | `Process.C132_arguments_partial` |
| C132 | the variables of a given environment are run together, since the separator begins with a NUL | `Process.C132_environment_merged` |
| C132 | and the end of the environment is not marked | `Process.C132_environment_unterminated` |
| C133 | a buffer filled by a command has no NUL behind the text | `Command.C133_command_unterminated` |
| C133 | a text that was cut off is told as complete | `Command.C133_command_cut` |
| C133 | NUL bytes are missing from the string with the output | `Command.C133_command_str_exact` |
| C133 | changes with an impossible name are passed over silently | `Command.C133_bad_name_ignored` |
| C134 | on machines other than x86, without the compiler of Microsoft, compare-and-exchange returns whether it has exchanged, not the old value | `Atomic.C134_returns_flag` |
| C135 | on Linux nothing is asked of the system and success is told, for any core | `Affinity.C135_linux_set_ignored` |
| C135 | on Windows the search for a negative thread never ends | `Affinity.C135_windows_negative` |
| C135 | on macOS a negative thread stands for the processor of another core | `Affinity.C135_mac_negative` |
| C136 | a document that is cut off, at any depth (within a string or a name, behind a name, where a value should be, behind the members of an inner object), makes the parser read behind the end of the text | `Json.C136_cut_reads_outside` |
| C136 | a line comment that runs to the end of the text makes it follow NULL | `Json.C136_comment_to_the_end` |
| C136 | a name with an assignment character and no value is accepted | `Json.C136_missing_value_accepted` |
| C137 | rows that grow are accepted: the cells behind the first row go to the first row of their column, and writing the table reads outside the column | `Csv.C137_growing_rows` |
| C137 | a number in the header is used as a name; numbers longer than the buffer overrun it (C50) | `Csv.C50_number_as_name`, `Csv.C50_long_number_overruns` |
| C138 | an escaped NUL is not decoded: the text from there on stays as it is written, cut to the length it would have | `UriDoc.C138_nul_kept` |
| C138 | a `%` at the end of a text reads behind it (C113) | `UriDoc.C113_cut_escape` |
| C139 | a folder with a folder in it, at any depth, cannot be packed: the inner folder is on the list of files and reading from it fails | `Tar.C139_subfolder_fails` |
| C140 | an arena made on a parent without room is not empty: its memory is taken to be at address NULL with the full size, and the first request writes there | `Arena.C140_no_room` |
| C141 | removing a node that has children loses their arrays: nothing frees them later | `Adt.C141_removed_lost` |
| C141 | giving a node that has children another value loses their arrays | `Adt.C141_overwritten_lost` |
| C141 | destroying a tree twice frees its array twice, as the root keeps the pointer | `Adt.C141_once` |
| C142 | the distance of the limits can be rounded up, and then the result can be above the upper limit: 2^-52 for -1 and 2^-53 + 2^-60 | `Random.C142_above` |
| C142 | if the distance of the limits is out of range, no draw gives a finite number | `Random.C142_overflow` |
| C143 | freeing folder information a second time frees its blocks a second time: the pointers stay | `DirFree.C143_once` |
| C144 | the block that realpath has allocated is freed through the allocator of the client: with an arena it is never freed | `FullName.C144_arena_leak` |
| C144 | with a pool it becomes a block of the pool, which hands it out although it belongs to the C library | `FullName.C144_pool_mixed` |
| C145 | between two equal numbers zpl_lerp may leave them | `MathF.C145_not_between` |
| C145 | a larger share of the way may lead less far | `MathF.C145_goes_back` |
| C145 | zpl_unlerp and the smooth steps give no number if the distance of the ends is too large for the type | `MathF.C145_unlerp_overflow` |
| C145 | so do vectors, even at their start | `MathF.C145_vec_nan` |
| C145 | a vector coordinate that goes to a much smaller number ends at zero instead | `MathF.C145_vec_miss` |
| C145 | zpl_smooth_step goes back on the way from 0 to 1 | `MathF.C145_smooth_goes_back` |
| C145 | zpl_smoother_step goes over 1 on the way from 0 to 1 | `MathF.C145_smoother_over` |
| C146 | zpl_floor of every negative whole number is one too low, and of the number next to each power of two | `RoundF.C146_floor_whole`, `RoundF.C146_floor_misses` |
| C146 | zpl_ceil of every whole number that is not negative is one too high | `RoundF.C146_ceil_whole` |
| C146 | zpl_round of the number before a half is 1, and of the odd whole numbers from 2^23 to 2^24 it is another whole number | `RoundF.C146_round_misses` |
| C146 | zpl_floor64 of every negative whole number is one too low: the constant meant to prevent it is lost in rounding | `RoundF.C146_floor64_whole` |
| C146 | zpl_ceil64 of every whole number that is not negative is one too high | `RoundF.C146_ceil64_whole` |
| C146 | zpl_floor64 of the negative numbers above -2^-54 is 0 | `RoundD.C146_floor64_tiny` |
| C146 | zpl_ceil64 of the even numbers from 2^53 to 2^54 that are not multiples of four is two too high | `RoundD.C146_ceil64_band` |
| C146 | zpl_round64 of the number before a half is 1, and of the odd whole numbers from 2^52 to 2^53 it is another whole number | `RoundD.C146_round64_misses` |
| C147 | if a coordinate is 2^64 or more the length is infinite and the normalised vector is zero | `LengthF.C147_too_large` |
| C147 | if all are below 2^-75 the length is zero, the safe variants give zero, the others infinity or no number | `LengthF.C147_too_small` |
| C148 | if an object or array within an array is wrong, its array of nodes is lost: the root does not lead to it | `JsonMem.C148_refused_leaks` |
| C149 | nodes directly below the root record no parent: removing one violates an assertion | `JsonMem.C149_top_nodes` |
| C149 | a node whose parent lies among the first 8 (24, 56, ...) entries of an array with more entries records a parent in freed memory, which is read when it is removed | `JsonMem.C149_dangling_parent` |
| C151 | without memory for one of its first two arrays zpl_csv_parse of an acceptable text accesses memory it does not have | `ParserMem.C151_csv_crash` |
| C151 | if an array of cells cannot grow, the cells are left out of the table and no error is reported: with memory for two arrays a table of one column has its first 8 cells only | `ParserMem.C151_csv_cells_lost` |
| C151 | without memory zpl_uri_parse reports success for a URI without parameters, the origin of which is missing, and ends the program for any other | `ParserMem.C151_uri` |
| C152 | if the operating system has no memory, zpl_pool_init writes the list of free blocks to the null pointer | `Backed.C152_pool_refused` |
| C152 | if the operating system has no memory, zpl_stack_memory_init makes a stack on the null pointer, and the first allocation writes there | `Backed.C152_stack_refused` |
| C153 | as long as one block is held, all bytes of the stack's memory but the first are said to be in use, the free ones too | `Backed.C153_free_bytes` |
| C154 | with the heap analysis a refused allocation ends in a write through the null pointer | `Heap.C111_analysis_failure_crashes` |
| C155 | in single precision multiplying a vector by a product of matrices is not multiplying it twice, a matrix of determinant 1 can have determinant 0, and products that are too large make perpendicular vectors have a dot product that is not a number. | C155_not_associative, C155_determinant, C155_too_large |
| C156 | in single precision the intersection of rectangles can lack points that are in both (even of a rectangle with itself), a box can lose its last points when it is turned into a rectangle and back, and a strip cut off can be empty although its width is not zero. | C156_intersection_lost, C156_box_lost, C156_empty_strip |
| C157 | zpl_mutex_try_lock returns 0 for success on POSIX systems and nonzero for success on Windows; no reading is right on both. Read as a truth value, as its type says, it lets a second thread in on POSIX, or takes a free mutex for good. zpl_mutex_init has the same flaw. zpl_semaphore_post loses what goes beyond the limit of the counter, and overflows for the least count. | C157_no_common_reading, C157_posix_two_inside, C157_posix_lost, C157_init_result, C157_post_lost, C157_post_least |
| C157 | on Windows a `zpl_semaphore_post` beyond 2^31 - 1 puts in nothing at all, and says nothing | `SemOther.C157_windows_post_lost` |
| C157 | on macOS a wait that is aborted returns as if it had taken one | `SemOther.C157_mac_wait_aborted` |
| C159 | a comparison function asked for earlier compares the field asked for last, since the offset is global; with a NaN among the numbers the others may stay in the wrong order. | C159_kept, C159_nan |
| C160 | on Windows, and with the tiny compiler, zpl_mfence does not wait for the stores: any number of threads can miss each other. | C160_nobody_seen |
| C160 | on 32-bit machines zpl_atomic64_store uses cmpxchg8b without lock and can undo an addition of another thread before it stores. | C160_store64 |
| C161 | on Windows zpl_set_env takes text of the code page and zpl_get_env_buf returns UTF-8: a value with a byte from 0x80 on never comes back as it was set. | C161_set_get_differs |
| C161 | on Windows a variable with an empty value is reported as missing. | C161_empty |
| C161 | on Windows a value that needs more than 32766 bytes of UTF-8 is returned as another text, because the failure of the conversion is not looked at. | C161_get_long |
| C161 | the texts returned by zpl_utf8_to_ucs2_buf are overwritten by the next call. | C161_overwritten |
| C162 | when the disk is full, saving a document reports success although the file holds only a part of it. | C162_full_disk |
| C162 | the writer of CSV does not notice that writing fails: it reports success, and the file is empty (the writer of JSON reports it) | C162_error_unnoticed |
| C163 | zpl_file_truncate gives SetEndOfFile the address of the zpl_file instead of its handle, so a file can never be cut or extended. | C163_never_truncated |
| C163 | zpl_file_read_at and zpl_file_write_at move the cursor behind what they touched. | C163_history |
| C163 | reads and writes of more than 2147483647 bytes move only so many, report success and move the cursor over all of them. | C163_big_write, C163_big_read |
| C163 | a write at a negative offset succeeds and goes to the cursor. | C163_write_before_start |
| C163 | a file opened for appending is overwritten after seeking back. | C163_append_overwrites |
| C163 | closing a file whose opening failed reports no error. | C163_close_failed |
| C164 | whenever there is a full name on Windows, its terminator is written behind its block. | C164_full_name_overrun |
| C164 | if there is none, the converted path is never freed. | C164_full_name_leak |
| C164 | the name of a listed folder is copied into 260 bytes without a check; an empty name reads before the buffer. | C164_listing_overrun |
| C165 | if the folder to make a folder in is missing, the error is an unknown one. | C165_mkdir_no_parent |
| C165 | if a file is in the way, the recursive function does not make the folder and its result is that of success. | C165_recursive_silent |
| C166 | if the clock passes a whole second between the first two readings, zpl_random_init never returns (the loop runs while the time is past the end). | C166_noise_hangs, C166_hangs |
| C166 | otherwise the noise is the number of whole seconds since the start, the same for all generators made in that second. | C166_noise |
| C167 | Three neighbouring bytes changed by +1, -2, +1 leave the sum unchanged, so the sum is no guard against changes of more than one byte (a limit of the algorithm, not of this code) | Adler.C167_unnoticed |
| C168 | on POSIX systems a refused zpl_vm_alloc returns the pointer -1, and zpl_vm_free of it reports success. | C168_refused |
| C168 | on POSIX systems zpl_vm_trim keeps the named part exactly if whole pages are cut at the front and nothing at the end. | C168_trim_iff |
| C168 | on POSIX systems zpl_vm_purge returns false for success and true for failure, on Windows always true. | C168_purge, C168_purge_opposite |
| C168 | on Windows zpl_vm_free refuses every block whose size is not a number of whole pages; it stays reserved for ever. | C168_win_free_refused |
| C168 | on Windows zpl_vm_trim always loses the contents; a cut that is not a number of whole granules gives a block at another address that can never be given back; a block not of whole pages gives NULL and stays reserved. | C168_win_trim_lost, C168_win_trim_moved, C168_win_trim_null |
| C169 | `c?p`, tried where no `c` stands, goes on one character in front of the text: it reads there, or takes a match of `q` in `c?.q` for one of the whole pattern | C169_optional_absent C169_optional_any |
| C169 | `c?s` is not found in the text `s` if `s` is made of characters of `c`; `c?` alone is not found in a text without `c` | C169_optional_kept C169_optional_alone |
| C170 | `c*?` is compiled as `c+?` | C170_star_is_plus |
| C170 | `c+?` takes exactly one character: `^x+?y` is not found in `xxy` | C170_lazy_takes_one |
| C170 | `c+?p` and `c*?p`, tried where no `c` stands, read in front of the buffer of operations | C170_lazy_nothing |
| C171 | `((q)`, with one bracket too few, is accepted: at the end of the pattern the compiler looks only whether the last character is a `)` | Regex.C171_unclosed_accepted |
| C171 | a set that is not closed is no error: its `[` is dropped and the rest taken as it stands | Regex.C171_set_unclosed |
| C173 | a set with more than 256 characters is no error: its `[` is dropped and the rest taken as it stands, so that a round bracket in it opens a group | Regex.C173_long_set |
| C173 | a pattern with 257 groups is accepted, and its last group is compiled with the number 0: it writes to the capture of the first group. The test in regex.c line 377 lets 256 through, which does not fit the byte it is stored in; 258 groups are refused | Regex.C173_wraps, Regex.C173_too_many |
| C171 | a pattern with a set of more than 256 characters that begins with `)` is refused as one whose brackets do not pair | Regex.C171_long_set |
| C171 | a repetition mark behind `$` is put on what stands in front of it: `ab$*` is accepted, and compiled to operations that mean no pattern | Regex.C171_repeated_anchor |
| C172 | on Windows the product of the ticks with 1000 overflows, at a counter of 3 GHz after 36 days | TimeOther.C172_windows_overflow |
| C172 | on macOS the nanoseconds per tick are rounded down: on Apple processors (125/3 ns) the time falls behind by 16 ms every second | TimeOther.C172_mac_slow |
| C172 | on macOS the time stays at zero if a tick is shorter than a nanosecond | TimeOther.C172_mac_stopped |

## 5. What is and is not modelled

Every definition of the model cites the lines of /repo it models. The table lists, for each file of /repo, how many of its functions are modelled,
in which modules, and which functions are not. Macros that stand for functions (the tables, the ring, the arrays) are modelled in `Array.*` and `Coll.*`.

| file | functions modelled | modules | not modelled |
|---|---|---|---|
| header/adt.h | 1 of 7 | `Parse.Adt`, `Parse.Json`, `Parse.Number` | `adt_str_to_flt` `adt_inset_obj` `adt_inset_arr` `adt_inset_str` `adt_inset_flt` `adt_inset_int` |
| header/core/file.h | 10 of 10 | `Sys.File`, `Sys.FileWin`, `Sys.Stream`, `Sys.Tar` | - |
| header/core/file_misc.h | 5 of 5 | `Sys.Path` | - |
| header/core/file_tar.h | 1 of 1 | `Sys.TarDir` | - |
| header/core/memory_virtual.h | see the modules | `Sys.Vm`, `Sys.VmPages` | - |
| header/core/misc.h | 8 of 8 | `Sys.Bits` | - |
| header/core/print.h | see the modules | `Str.Fprintf` | - |
| header/core/random.h | see the modules | `Sort.Random` | - |
| header/core/sort.h | 1 of 1 | `Sort.Search` | - |
| header/core/string.h | 41 of 42 | `Hash.Base64`, `Str.CStr`, `Str.Chars`, `Str.Copy`, `Str.Lines`, `Str.Num`, `Str.Print`, `Str.Token`, `Str.Utf8`, `Sys.Opts` | `str_to_f32` |
| header/core/stringlib.h | 11 of 11 | `Str.ZString` | - |
| header/core/time.h | 2 of 5 | `Sys.Time` | `sleep` `time_now` `utc_time_now` |
| header/essentials/collections/array.h | 10 of 10 | `Array.Model`, `Parse.AdtFree`, `Parse.JsonMem`, `Parse.ParserMem` | - |
| header/essentials/collections/buffer.h | see the modules | `Coll.Buffer` | - |
| header/essentials/collections/hashtable.h | see the modules | `Coll.HashTable` | - |
| header/essentials/collections/list.h | 3 of 3 | `Coll.LinkedList` | - |
| header/essentials/collections/ring.h | see the modules | `Coll.Ring` | - |
| header/essentials/debug.h | see the modules | `Basic` | - |
| header/essentials/helpers.h | see the modules | `Math.Helpers`, `Math.Rect`, `Math.Vec`, `Mem.Raw`, `Sys.FullName`, `Sys.Stream` | - |
| header/essentials/memory.h | 13 of 13 | `Mem.Align`, `Mem.Arena`, `Mem.Raw`, `Mem.Scratch` | - |
| header/essentials/memory_custom.h | 29 of 31 | `Mem.Arena`, `Mem.Backed`, `Mem.Heap`, `Mem.Resize`, `Mem.Scratch`, `Mem.Stack`, `Mem.SubArena`, `Str.Sprint` | `free_all` `resize_align` |
| header/essentials/types.h | see the modules | `Sys.Bits` | - |
| header/hashing.h | 0 of 2 |  | `murmur32` `murmur64` |
| header/jobs.h | see the modules | `Conc.Jobs` | - |
| header/math.h | see the modules | `Math.Rect`, `Math.Round`, `Math.Vec` | - |
| header/opts.h | see the modules | `Sys.Opts` | - |
| header/parsers/csv.h | 1 of 3 | `Parse.Csv` | `csv_write` `csv_write_string` |
| header/parsers/json.h | see the modules | `Parse.Json`, `Parse.JsonMem` | - |
| header/process.h | see the modules | `Sys.Process` | - |
| header/regex.h | see the modules | `Parse.Regex` | - |
| header/threading/affinity.h | see the modules | `Conc.Affinity` | - |
| source/adt.c | 23 of 29 | `Parse.Adt`, `Parse.AdtFree`, `Parse.AdtMove`, `Parse.AdtText`, `Parse.AdtValue`, `Parse.Csv`, `Parse.Json`, `Parse.Number`, `Parse.ParserMem` | `adt_set_arr` `adt_set_flt` `adt_set_int` `adt_append_flt` `adt_append_int` `adt_str_to_number_strict` |
| source/core/file.c | 24 of 27 | `Sys.DirFree`, `Sys.File`, `Sys.FileWin`, `Sys.Fs`, `Sys.Process` | `file_free_contents` `_win32_file_close` `_posix_file_close` |
| source/core/file_misc.c | 13 of 13 | `Sys.Dir`, `Sys.DirFree`, `Sys.File`, `Sys.FullName`, `Sys.MkDir`, `Sys.Path`, `Sys.WinPath` | - |
| source/core/file_stream.c | 6 of 9 | `Sys.Stream` | `_file_stream_fd_make` `_file_stream_from_fd` `_memory_file_close` |
| source/core/file_tar.c | 6 of 7 | `Sys.Tar`, `Sys.TarDir` | `tar_default_list_file` |
| source/core/memory_virtual.c | 1 of 1 | `Sys.Vm`, `Sys.VmPages` | - |
| source/core/misc.c | 7 of 8 | `Sys.Command`, `Sys.EnvWin` | `yield` |
| source/core/print.c | 15 of 18 | `Parse.Adt`, `Str.Fprintf`, `Str.Print`, `Str.PrintReal`, `Str.Sprint` | `printf_va` `printf_err_va` `printf_err` |
| source/core/random.c | 10 of 12 | `Sort.Random`, `Sort.RandomReal`, `Sort.Seed` | `random_gen_isize` `_random_copy_sign64` |
| source/core/sort.c | 4 of 4 | `Sort.Compare`, `Sort.Random`, `Sort.Search`, `Sort.Sort` | - |
| source/core/string.c | 14 of 14 | `Parse.Number`, `Str.Chars`, `Str.Num`, `Str.ReadReal`, `Str.Ucs2`, `Str.Utf8`, `Sys.EnvWin` | - |
| source/core/stringlib.c | 14 of 14 | `Str.Sprint`, `Str.ZString` | - |
| source/core/time.c | 3 of 3 | `Sys.Time` | - |
| source/essentials/debug.c | 0 of 2 |  | `assert_handler` `assert_crash` |
| source/essentials/memory.c | 4 of 4 | `Mem.Raw` | - |
| source/essentials/memory_custom.c | 14 of 14 | `Mem.Arena`, `Mem.Backed`, `Mem.Heap`, `Mem.Pool`, `Mem.Scratch`, `Str.Sprint` | - |
| source/hashing.c | 15 of 15 | `Hash.Adler`, `Hash.AdlerDamage`, `Hash.Base64`, `Hash.Crc`, `Hash.Fnv`, `Hash.Murmur` | - |
| source/jobs.c | 7 of 12 | `Conc.Jobs` | `jobs_init` `jobs_enqueue` `jobs_empty` `jobs_full` `jobs_full_all` |
| source/math.c | 187 of 229 | `Math.Drift`, `Math.Frustum`, `Math.Half`, `Math.Helpers`, `Math.Interp`, `Math.InterpFloat`, `Math.LengthFloat`, `Math.Mat`, `Math.Project`, `Math.Quat` | `remainder64` `abs64` `vec2f` `vec2fv` `vec3f` `vec3fv` `vec4f` `vec4fv` `mat2_transpose` `mat2_identity` `mat2_mul_vec2` `mat2_v` `mat2_f` `float22_m` `float22_v` `float22_4` `mat3_transpose` `mat3_identity` `mat3_mul_vec3` `mat3_v` `mat3_f` `float33_m` `float33_v` `float33_9` `mat4_transpose` `mat4_identity` `mat4_v` `mat4_f` `float44_m` `float44_v` `float44_16` `quatf` `quatfv` `quat_addeq` `quat_subeq` `quat_diveq` `quat_muleqf` `quat_diveqf` `quat_squad` `rect2f` `rect3f` `aabb3f` |
| source/opts.c | 12 of 15 | `Sys.Opts`, `Sys.OptsPrint` | `opts_string` `opts_real` `opts_integer` |
| source/parsers/csv.c | 6 of 6 | `Parse.Csv`, `Parse.ParserMem`, `Parse.SaveLoad`, `Parse.WriteString` | - |
| source/parsers/json.c | 15 of 15 | `Parse.Json`, `Parse.JsonMem`, `Parse.ParserMem`, `Parse.SaveLoad`, `Parse.WriteString` | - |
| source/parsers/uri.c | 7 of 7 | `Parse.ParserMem`, `Parse.Uri`, `Parse.UriDoc`, `Parse.WriteString` | - |
| source/process.c | 6 of 7 | `Sys.Process` | `_pr_close_file_handle` |
| source/regex.c | 18 of 19 | `Parse.Regex`, `Parse.RegexAll`, `Parse.RegexBad`, `Parse.RegexCount`, `Parse.RegexSafe` | `re__ctx_internal_failure` |
| source/socket.c | 6 of 14 | `Sys.Socket` | `socket_init` `socket_terminate` `socket_listen` `socket_accept` `socket_get_address_info` `socket_send` `socket_receive` `socket_send_to` |
| source/threading/affinity.c | see the modules | `Conc.Affinity` | - |
| source/threading/atomic.c | 3 of 6 | `Conc.Spin` | `atomic64_spin_lock` `atomic64_spin_unlock` `atomic64_try_acquire_lock` |
| source/threading/fence.c | 3 of 4 | `Conc.Tso` | `yield_thread` |
| source/threading/mutex.c | 4 of 5 | `Conc.Sem` | `mutex_destroy` |
| source/threading/sem.c | 1 of 1 | `Conc.Sem`, `Conc.SemOther` | - |
| source/threading/sync.c | 5 of 6 | `Conc.Sync` | `sync_destroy` |
| source/threading/thread.c | 8 of 11 | `Conc.Thread` | `thread_start_with_stack` `thread_current_id` `thread_set_name` |

In all 597 of 703 functions. The functions in the last column are mostly wrappers around modelled functions (constructors, default arguments,
calls that pass their arguments on); their bodies were not modelled.

Not modelled at all:

* the Windows branches, except in `Sys.Process`, `Sys.EnvWin`, `Sys.FileWin`, `Sys.WinPath`, `Sys.VmPages`, `Conc.Affinity`, `Conc.Sem` and `Conc.Tso`; macOS, except in `Conc.Affinity`;
* weak memory, except the store buffers of x86 in `Conc.Tso`: elsewhere all interleavings are sequentially consistent and fences and yields have no effect;
* rounding, overflow and NaN of `float` in code/source/math.c (exact arithmetic there), except in `Math.Half`, `Math.Rsqrt`, `Math.Round` (bits of a `float`) and `Math.Single`, `Math.InterpFloat`, `Math.RoundFloat`, `Math.RoundDouble`, `Math.RoundEdge`, `Math.LengthFloat`, `Math.MatFloat`, `Math.RectFloat`, `Math.Drift` (rounding);
  `double` is modelled with rounding in `Math.Double`, used for printing and reading numbers (`Str.PrintReal`, `Str.ReadReal`, `Parse.NumberDouble`);
* code/source/dll.c, the timer, the debugger traps, the platform headers and macros for compilers.

Simplifications made throughout:

* allocation succeeds unless a module says otherwise (C02, C21, C76 - C78 and others take failure into account);
* the contents of fresh memory are arbitrary (`junk`) or absent (`none`), never assumed to be zero unless the allocator clears them;
* the operating system is a parameter: a policy or an oracle that may answer anything its documentation allows (`Mem.Heap`, `Sys.File`, `Sys.Socket`, `Sys.Process`, `Sys.Command`, `Sys.Time`, `Conc.Affinity`),
  and folder trees do not change while they are listed (`Sys.Dir`);
* what is printed to a file is text without NUL where `Fprintf.Out.Ok` is assumed;
* numbers in documents are a parameter (`Reals`) in `Parse.*`, with the instance `doubles` in `Parse.NumberDouble`.

What each module says of itself:

* `Array.Model`: `zpl_array` (code/header/essentials/collections/array.h) The array is a pointer just past a header `{elem_size, count, capacity, allocator}`. The model keeps `count` and the block of element cells behind the header; the number of cells is the allocated capacity (array.h:91-92, 119-120). Element bytes are abstracted to one cell per element. Moves of whole elements by `zpl_memmove`/`zpl_memcopy` are `moveCells`/`putCells`; the byte level behaviour of those two functions is modelled and proved separately (`Verif/Mem`). `elem_size` and the `allocator` field never change and are left out. Allocation goes through a user supplied allocator, so its outcome is a Boolean argument `ok` of every call that may allocate. `zpl_alloc` passes `ZPL_DEFAULT_ALLOCATOR_FLAGS` = clear to zero, so fresh cells hold the zero element `z`.
* `Array.Props`: C01, C02: the dynamic array is a sequence
* `Basic`: Common vocabulary of the model Faults are the ways a modelled C function can leave defined behaviour. A model function that touches memory returns `Except Fault r`; a theorem saying that it returns `.ok r` therefore says that none of these happened.
* `Coll.Buffer`: `zpl_buffer` (code/header/essentials/collections/buffer.h) - C08
* `Coll.HashTable`: `ZPL_TABLE` (code/header/essentials/collections/hashtable.h) - C03, C04, C05
* `Coll.HashTableProps`: Properties of `ZPL_TABLE`: C03, C04, C05
* `Coll.LinkedList`: `zpl_list` (code/header/essentials/collections/list.h) - C09
* `Coll.Ring`: `ZPL_RING` (code/header/essentials/collections/ring.h) - C06, C07
* `Conc.Affinity`: Processors (code/source/threading/affinity.c) - C135 The answers of the system are parameters: on Windows the list of processor relations, on macOS the two counts, on Linux the number of processors.
* `Conc.Atomic`: Atomic operations (code/source/threading/atomic.c) - C134 Threads work on one atomic variable of `w` bits. A locked instruction is one step; the loops around `cmpxchg` are two steps for each round, one that reads and one that compares and exchanges. Memory is sequentially consistent. The unlocked `cmpxchg8b` of `zpl_atomic64_store` on 32-bit machines is not modelled.
* `Conc.Jobs`: Thread pool (code/source/jobs.c) - C55, C56, C57, C58
* `Conc.Sem`: Mutexes and semaphores (code/source/threading/mutex.c, code/source/threading/sem.c) - C157
* `Conc.SemOther`: Semaphores on Windows and macOS (code/source/threading/sem.c:8-22) - C157
* `Conc.Spin`: Spin locks (code/source/threading/atomic.c:144-152, 348-350, 402-448) - C59
* `Conc.Sync`: Thread merge barrier (code/source/threading/sync.c) - C60
* `Conc.Thread`: Threads: start, join, destroy (code/source/threading/thread.c, sem.c) - C120 One `zpl_thread` object, used by one parent thread, and the threads that `zpl_thread_start` makes from it, under every interleaving. Simplifications: memory is sequentially consistent (the accesses to `is_running` are plain in the code; `C120_poll_races` says where they race); the semaphore is a counter (trusted: `sem_post`, `sem_wait`); a procedure together with its data is a number, takes `len` steps and returns `val`; `pthread_create` makes a thread or fails with an error number; `pthread_join` waits until the thread has ended. The stack size and the name of a thread are not modelled.
* `Conc.Tso`: Order of memory accesses between threads (code/source/threading/fence.c, atomic.c) - C160 Threads run on processors of the x86 family: each has a buffer of the stores it has made, from which they reach the memory in order at any later moment, and it reads its own stores from the buffer (x86-TSO). `zpl_atomic32_store` is a plain store and `zpl_atomic32_load` a plain load there. A locked instruction waits until the buffer is empty. It is assumed that the compiler keeps the order of the accesses.
* `Hash.Adler`: `zpl_adler32` (code/source/hashing.c:11-40) - C40
* `Hash.AdlerDamage`: What `zpl_adler32` notices `zpl_adler32` (code/source/hashing.c:11-40) is modelled in `Verif.Hash.Adler`; here its result for two byte strings is compared. A user stores the sum next to the data and calls the function again later: the question is which damage changes the sum.
* `Hash.Base64`: Base64 (code/source/hashing.c:176-324) - C45, C46
* `Hash.Crc`: `zpl_crc32`, `zpl_crc64` (code/source/hashing.c:42-134) - C41
* `Hash.CrcTables`: The CRC tables of code/source/hashing.c, copied number by number
* `Hash.Fnv`: FNV hashes (code/source/hashing.c:136-174) - C42
* `Hash.Murmur`: Murmur hashes (code/source/hashing.c:326-408) - C43, C44
* `Math.Double`: Double precision numbers The arithmetic of `double` as IEEE 754 has it, rounding to nearest with ties to even, which is what the compilers use for `zpl_f64` on the modelled platform (no fused operations, no extended precision). A number that is not NaN or infinite is the rational number it stands for. Simplification: the two zeros are one. No theorem depends on this file but those about printing and reading real numbers (C127, C128) and about real numbers in documents (C129).
* `Math.Drift`: Turning again and again (code/source/math.c:1182-1200) - C158 A game turns an object a little in every frame: `zpl_quat_muleq(&orientation, turn)`. Each product is rounded, and the next begins with the rounded one.
* `Math.Fallback`: The functions used without a C mathematics library (code/source/math.c:95-209) - C109
* `Math.Frustum`: What the camera sees (code/source/math.c:1353-1512) - C102
* `Math.Half`: Half-precision conversion (code/source/math.c:262-353) - C61, C74
* `Math.Helpers`: Ranges, steps, bit masks; copying matrices; the aspect ratio (code/header/essentials/helpers.h:96-144, code/source/math.c:575-592, 655-657, 748-750) - C110
* `Math.Interp`: Going from one value to another (code/source/math.c:1514-1654) - C103, C104
* `Math.InterpFloat`: Going from one value to another in single precision (code/source/math.c:1513-1534) - C145 `Math/Interp` has the same functions over exact numbers (C103).
* `Math.LengthFloat`: Lengths and directions in single precision (code/source/math.c:231-232, 484-486, 495-537) - C147 `Math/VecReal` has the same functions over the real numbers (C93).
* `Math.Mat`: Matrices (code/source/math.c:577-886) - C94, C95
* `Math.MatFloat`: Products of vectors, matrices and quaternions in single precision (code/source/math.c) - C155 The functions are those of `Math/Vec`, `Math/Mat` and `Math/Quat`, which are written for any numbers with sums and products; here the numbers are those of single precision, each operation rounding its result. The compiler does not fuse a product with a sum.
* `Math.Project`: Projections and views (code/source/math.c:964-1134) - C100, C101
* `Math.Quat`: Quaternions (code/source/math.c:1136-1350) - C96, C97
* `Math.Rect`: Rectangles and boxes (code/source/math.c:1656-1828) - C90, C91, C92
* `Math.RectFloat`: Rectangles and boxes in single precision (code/source/math.c:1656-1828) - C156 The functions are those of `Math/Rect`, which are written for any numbers; here the numbers are those of single precision.
* `Math.Round`: Rounding, remainders, signs and angles (code/source/math.c:15-76, 247-261) - C105, C106, C107
* `Math.RoundDouble`: Rounding to whole numbers in double precision (code/source/math.c:63-65) - C146
* `Math.RoundEdge`: `zpl_floor64` and `zpl_ceil64` of large whole numbers - C146 The functions (code/source/math.c:63-64) are modelled in `Verif.Math.RoundFloat`. Here the cases that `C146_floor64_whole` and `C146_ceil64_whole` leave open are settled: from `2 ^ 52` on every double is whole.
* `Math.RoundFloat`: Rounding to whole numbers in single and double precision (code/source/math.c:63-65, 259-261) - C146 `Math/Round` has the same functions over exact numbers (C105). Here the additions and subtractions inside them are rounded as `float` and `double` are.
* `Math.Rsqrt`: The fast reciprocal square root (code/source/math.c:78-94) - C108
* `Math.Single`: Single precision numbers The arithmetic of `float` as IEEE 754 has it, rounding to nearest with ties to even, which is what the compilers use for `zpl_f32` on the modelled platform (no fused operations, no extended precision). A number that is not NaN or infinite is the rational number it stands for. Simplification: the two zeros are one. Only the theorems about rounding in math.c (C145, C146, C147) depend on this file.
* `Math.SmoothFloat`: The course of the smooth steps in single precision (code/source/math.c:1516-1523) - C145 The functions are modelled in `Math.InterpFloat`.
* `Math.Turn`: Turning by an angle (code/source/math.c:888-962, 1153-1172, 1226-1245) - C98, C99
* `Math.Vec`: Vectors (code/source/math.c:355-615, code/header/math.h)
* `Math.VecReal`: Lengths and directions (code/source/math.c:499-575) - C93
* `Mem.Align`: Alignment helpers — header/essentials/memory.h Pointers, `zpl_uintptr`, `zpl_usize` and `zpl_u64` are 64-bit words (`BitVec 64`, wrapping); `zpl_isize` and `zpl_i64` are integers that fault when a result leaves the 64-bit signed range (undefined behaviour in C).
* `Mem.Arena`: Arena allocator — header/essentials/memory_custom.h:329-396, source/essentials/memory_custom.c:166-201 Addresses and sizes are natural numbers; the 64-bit address space is assumed not to be exhausted (no wraparound), and negative sizes are not modelled. `alignPtr_eq` ties the address arithmetic to the 64-bit model of `zpl_align_forward`.
* `Mem.Backed`: Pools and stacks on the heap, and copies made on the heap — header/essentials/memory_custom.h:267-282, 402-408, 437-463, source/essentials/memory_custom.c:207-237 `Verif.Mem.Pool` and `Verif.Mem.Stack` take the memory they work in as given. Here it comes from the heap of `Verif.Mem.Heap`, and goes back to it. Not modelled: a stack that outgrows its memory and asks the backing allocator for more (`C19_growth_size` says what is wrong with it); the histories below are those that fit.
* `Mem.Base`: Byte memory A memory maps an address to the byte stored there, or to nothing if the address does not belong to any object. Touching an unmapped address is a fault, so a theorem "the call returns `.ok`" for every memory in which only the given regions are mapped says that no byte outside those regions is touched.
* `Mem.Heap`: The heap allocator — source/essentials/memory_custom.c:32-160 `zpl_heap_allocator_proc` on Linux (`aligned_alloc` and `free`), with and without `ZPL_HEAP_ANALYSIS`, and the heap statistics. The operating system's allocator is a parameter: a policy that answers every request, as it likes, from the number of the request, the blocks alive, the size and the alignment. What is assumed of it is `Policy.Ok`: an answer is a non-NULL multiple of the alignment, above the null page, whose bytes overlap no block alive. Fresh memory holds arbitrary bytes.
* `Mem.Pool`: Pool allocator — source/essentials/memory_custom.c:207-297 The free list is stored inside the free blocks, in byte memory. The memory obtained from the backing allocator is a parameter (the code does not check for NULL). Addresses are natural numbers below `2^64`.
* `Mem.Raw`: Raw memory routines (code/header/essentials/memory.h:150-260, code/source/essentials/memory.c) - C10, C11, C12, C13, C14
* `Mem.Resize`: `zpl_default_resize_align` — header/essentials/memory_custom.h:292-312 The allocator is arbitrary: a state and two procedures. What the theorems need of it is stated as hypotheses about the calls made (an allocator contract), which the arena satisfies.
* `Mem.Scratch`: Scratch allocator — source/essentials/memory_custom.c:304-391, header/essentials/memory_custom.h:417-428
* `Mem.Stack`: Stack allocator — header/essentials/memory_custom.h:437-470, source/essentials/memory_custom.c:396-451
* `Mem.SubArena`: Arenas on other allocators — header/essentials/memory_custom.h:338-355, 374 An arena whose memory comes from another allocator, in particular from another arena. Addresses and sizes as in `Mem.Arena`.
* `Mem.Words`: 64-bit words in byte memory Loads and stores of `zpl_uintptr`, `zpl_u64` and `zpl_isize` words by the allocators, little-endian. Misaligned word accesses, which C leaves undefined, behave as on x86 here: this only matters for pools and stacks whose geometry is not a multiple of 8.
* `Parse.Adt`: Node trees (code/header/adt.h, code/source/adt.c:10-350) - C62, C63
* `Parse.AdtFree`: Who frees the arrays of a tree (code/source/adt.c:25-33, parsers/json.c:49-51, csv.c:144-146, uri.c:182-184) - C141 The functions of `Parse/Adt` together with the allocator's view: the list of arrays that have been allocated and not yet freed. Freeing an array that is not on the list, or reading one, is `ub`.
* `Parse.AdtMove`: Moving and swapping nodes of a tree; appending when memory runs out (code/source/adt.c:250-330) - C62, C78 The functions are modelled in `Parse/Adt`.
* `Parse.AdtText`: Specification
* `Parse.AdtUp`: Moving a node up the tree, and the memory of moved and swapped nodes (code/source/adt.c:272-304) - C78, C141 `Parse/AdtMove` treats moves to a parent with which the node has nothing to do and moves within one parent. What is left is a new parent further up: one of the nodes the moved node lies in. A move of a node into itself, or to a place below it, makes a cycle of pointers in C; the model has no such states.
* `Parse.AdtValue`: Queries by value (C79) `zpl_adt_query` (adt.c:114-217) with parts `[field=value]` and `[value]`, modelled in `Verif/Parse/Adt.lean`. How the numbers of the tree are printed is a parameter (`num`): it gives the 4096 bytes the number was printed to.
* `Parse.Csv`: Comma separated tables (code/source/parsers/csv.c:13-213) - C50 A table is a list of columns. A text under the parser is the list of bytes from the current position on: the parser never goes back before it, and only writes behind it, so that a cell is given by its text instead of by an address into the buffer. All allocations succeed. Reading and printing the number in a cell is a parameter here; C87 and C88 (Parse/Number, Parse/NumberPrint) are about what the library puts in its place.
* `Parse.CsvAny`: Parsing any text as a table (code/source/parsers/csv.c:13-143) - C137 The model is that of `Parse/Csv`: here nothing is assumed of the text, but that it is terminated.
* `Parse.Json`: JSON texts (code/source/parsers/json.c:32-520) - C49 The analysis fields of the nodes (naming, assignment and delimiter style) are modelled, as in the default build. A text under the parser is the list of bytes from the current position on; what is before it is never looked at again, so that names and texts of nodes are given as texts. Allocations succeed. Parent pointers are not modelled (they are in `Parse/Adt`). Numbers are read by `zpl_adt_parse_number` and printed by `zpl_adt_print_number`: these two are parameters.
* `Parse.JsonEnds`: Parsing any JSON text (code/source/parsers/json.c) - C136 The model is that of `Parse/Json`: here nothing is assumed of the text.
* `Parse.JsonErrors`: Malformed JSON texts (code/source/parsers/json.c:32-350) - C80 The model is that of `Parse/Json`.
* `Parse.JsonMem`: JSON documents in memory (code/source/parsers/json.c:32-51, 70-80, 107-280) - C148, C149 The parser of `Parse/Json` again, together with what it does to memory: which arrays it allocates and frees, in which of them the nodes are and which parent they record. The nodes are those of `Parse/Adt`.
* `Parse.Number`: Numbers in documents (code/source/adt.c:353-564, 593-618) - C87, C88
* `Parse.NumberDouble`: Real numbers in documents (code/source/adt.c:353-564) - C129 The parameter `Reals` of Parse/Number with the arithmetic of Math/Double, `zpl_str_to_f64` of Str/ReadReal and `%f` of Str/PrintReal.
* `Parse.NumberPrint`: Numbers in documents: what is written is read again - C87 Model and specification are in `Verif/Parse/Number.lean`.
* `Parse.NumberReal`: Numbers in documents: numbers with a fraction - C89 Model and specification are in `Verif/Parse/Number.lean`.
* `Parse.ParserMem`: Memory of parsed tables and URIs, and running out of memory (code/source/parsers/csv.c:13-146, uri.c:43-116, json.c) - C150, C151 The parsers of `Parse/Csv` and `Parse/UriDoc` again, with the arrays of nodes they allocate and free. `mem` says which requests for memory succeed; every request has a number, whether it succeeds or not.
* `Parse.ParserRoom`: The arrays of parsed tables and URIs hold what is in them (code/source/parsers/csv_parse.c, uri.c, code/header/core/array.h:115-162) - C150 About the model of `Verif.Parse.ParserMem`: no array is written over its end, however often memory runs out.
* `Parse.Regex`: Regular expressions (code/source/regex.c) The compiler writes a buffer of operations, the matcher walks over it. Properties C51, C82 and C83. Simplifications, everywhere below: only the bytes below `buf_len` of the buffer are kept, so reading one at or above `buf_len` is a fault here (in C it is whatever the allocator left there); allocations succeed; offsets and operation numbers are unbounded integers (`zpl_isize` is 64 bits wide and they never exceed the lengths of the pattern and the text); captures hold offsets from the start of the text instead of addresses.
* `Parse.RegexAll`: All matches of a pattern (code/source/regex.c:735-763) - C123 The captures that are appended to the caller's array are cells of a buffer that is made without being filled: `junk` is what it holds.
* `Parse.RegexAlt`: Regular expressions: alternatives and escapes C85 and C86, about the model of code/source/regex.c in `Verif.Parse.Regex`.
* `Parse.RegexBad`: Malformed regular expressions (code/source/regex.c) Which patterns `zpl_re_compile` refuses: brackets that do not pair, repetition marks with nothing to repeat, sets that are not closed. The model is that of `Verif.Parse.Regex`. Property C171.
* `Parse.RegexCount`: The number of groups in a regular expression (code/source/regex.c) `zpl_re_capture_count` after `zpl_re_compile`: how many captures a caller has to make room for. The model is that of `Verif.Parse.Regex`. Property C173.
* `Parse.RegexLazy`: Shortest repetitions in regular expressions (code/source/regex.c) `c+?` and `c*?` are both compiled to the operation 12 (`ZPL_RE_OP_ONE_OR_MORE_SHORTEST`, regex.c:604-624) in front of what `c` is compiled to; it is run at regex.c:298-307. The model is that of `Verif.Parse.Regex`. Property C170.
* `Parse.RegexOpt`: Optional characters in regular expressions (code/source/regex.c) `c?` is compiled to the operation 13 (`ZPL_RE_OP_ZERO_OR_ONE`, regex.c:309-331 and 626-636) in front of what `c` is compiled to. The model is that of `Verif.Parse.Regex`. Property C169.
* `Parse.RegexPaired`: The brackets of a regular expression with sets and escapes (code/source/regex.c) `Verif.Parse.RegexBad` shows for patterns without sets and escapes that the brackets of an accepted pattern pair; here they may have both. The model is that of `Verif.Parse.Regex`. Property C171.
* `Parse.RegexSafe`: Regular expressions: compiling any pattern C84, about the model of `zpl_re_compile` in `Verif.Parse.Regex`.
* `Parse.RegexStray`: Square brackets that close nothing (code/source/regex.c) `Regex.C84_bracket_diverges`: at a `]` that closes no set the compiler goes on for ever. Here: so it does not come to an end with such a pattern, whatever else the pattern holds. The model is that of `Verif.Parse.Regex`. Property C171.
* `Parse.SaveLoad`: Documents saved to files (zpl_file_create, zpl_json_write or zpl_csv_write_delimiter, zpl_file_close; zpl_file_read_contents, zpl_json_parse or zpl_csv_parse_delimiter) - C162 The writers are modelled in Json and Csv with an output to which every print call appends; here the output is a file of Sys/File, and the division of the text into print calls is arbitrary.
* `Parse.Uri`: URI text encoding (code/source/parsers/uri.c:5-31, 114-138) - C48
* `Parse.UriAny`: URIs from elsewhere (code/source/parsers/uri.c:5-31, 43-112) - C138 C113 is about the URIs this library writes. Here are those others write, where letters may be escaped that need not be, escapes have small letters, and fields are separated by `?`; and texts that are no URIs at all. The model is that of `Parse.Uri` and `Parse.UriDoc`.
* `Parse.UriDoc`: Whole URIs: an origin and parameters (code/source/parsers/uri.c:33-112, 140-180) - C113
* `Parse.WriteString`: Documents written to a string (json.c:53-64, csv.c:215-224, uri.c:186-195) - C125 The three functions open a new memory stream, let the writer print into it, and make a string of what the stream holds. The writers are modelled in Json, Csv and UriDoc with an output to which every print call appends; here the output is the memory stream of Sys/Stream, and the division of the text into print calls is arbitrary.
* `Sort.Compare`: The comparison functions of the library (code/source/core/sort.c:6-36) - C159
* `Sort.Radix`: Radix sort (code/source/core/sort.c:117-150) - C35
* `Sort.Random`: Random numbers and shuffle (code/source/core/random.c, code/source/core/sort.c:152-164) - C37, C38, C39
* `Sort.RandomReal`: Random real numbers (code/source/core/random.c:159-166) - C142 Doubles are those of `Math/Double`: exact rational numbers rounded to 53 places.
* `Sort.Search`: Binary search and reverse (code/header/core/sort.h:75-92, code/source/core/sort.c:166-169) - C36, C37
* `Sort.Seed`: Making random generators (code/source/core/random.c:12-77) - C166 The Linux variant. What the clocks say is an argument: `clock i` is the i-th answer of `zpl_time_rel_ms`.
* `Sort.Sort`: `zpl_sort` (code/source/core/sort.c:58-112) - C33, C34
* `Str.CStr`: C strings (code/header/core/string.h:104-453) - C29, C30, C31
* `Str.Chars`: Character classes, digit values and bounded lengths (code/header/core/string.h:104-156, 181-228, code/source/core/string.c:406-412) - C71, C72
* `Str.Copy`: Unbounded copies, concatenation and duplication (code/header/core/string.h:235-252, 409-417, 425-433) - C67, C68
* `Str.Fprintf`: Printing to a file (code/source/core/print.c:14-19)
* `Str.Lines`: Splitting a text into lines in place (code/header/core/string.h:435-453) - C32
* `Str.Num`: Integers as text (code/source/core/string.c:11-148) - C24, C25
* `Str.Print`: Formatted printing (code/source/core/print.c:81-202, 282-454) - C54
* `Str.PrintNull`: Printing NULL (code/source/core/print.c:125-133) - C54 `%s` with a NULL argument. `Verif.Str.Print` has the model; `render` there leaves NULL out.
* `Str.PrintReal`: Printing real numbers (code/source/core/print.c:204-280) - C127 `zpl__print_f64`, with the arithmetic of double precision numbers of Math/Double, as the `FloatPrinter` that Str/Print leaves open.
* `Str.PrintRealOver`: Printing real numbers into too little room (code/source/core/print.c:204-280) - C127 Digit after digit is printed by a call that gets at least one byte of room, so the decimals are written however little room there is.
* `Str.ReadReal`: Reading real numbers (code/source/core/string.c:150-206) - C128 `zpl_str_to_f64`, with the arithmetic of Math/Double.
* `Str.Sprint`: Printing into memory (print.c:21-35, 65-84; stringlib.c:48-65, 194-202; memory_custom.c:28-30, memory_custom.h:284-290) - C126 The functions differ in where the text goes: `zpl_bprintf` returns a buffer shared by all its calls of a thread, `zpl_asprintf` and the functions of strings make a copy. All allocations succeed; `junk` is what fresh memory holds.
* `Str.Token`: Tokens and skipping (code/header/core/string.h:312-345, 379-407) - C69, C70
* `Str.Ucs2`: Conversion between UTF-8 and UTF-16 (code/source/core/string.c:221-304) - C28
* `Str.Utf8`: UTF-8 (code/source/core/string.c:316-449) - C26, C27; counting code points (code/header/core/string.h:187-228) - C66
* `Str.ZString`: `zpl_string` (code/header/core/stringlib.h, code/source/core/stringlib.c) - C22, C23
* `Sys.Bits`: Bits and bytes of integers — header/core/misc.h:34-72 `zpl_endian_swap16`/`32`/`64`, `zpl_next_pow2`, `zpl_bit_set`/`get`/`reset` and `zpl_count_set_bits`.
* `Sys.Command`: Environment variables and commands (code/source/core/misc.c) - C133 The Unix variant. The environment is the list of names and values that the C library keeps; a command is the bytes it prints, or nothing when it cannot be started.
* `Sys.Dir`: Listing folders (code/source/core/file_misc.c:274-297, 346-375, 424-445) - C121, C122 The Linux branches. A folder is the list of what `readdir` gives for it, which includes `.` and `..`, in whatever order. Simplifications: the listing is made at one moment (nothing changes meanwhile); strings that grow are lists of bytes (C19 - C23 are about `zpl_string`) and allocation succeeds; a folder that is reached through a link is not listed itself.
* `Sys.DirFree`: The memory of folder information (code/source/core/file_misc.c:352-394, 425-465, code/source/core/file.c:254-281) - C143 What is listed is the business of C121 and C122. Here an entry is only whether it was stepped into, and every call is given the number of entries the system would list. Strings and arrays are one block each: that they grow by changing their block is C01 - C05 and C19 - C23, and the strings that are made and freed inside one call are left out. Allocation succeeds.
* `Sys.EnvWin`: Environment variables on Windows (code/source/core/misc.c:28-74) and the converters with their own buffer (string.c:306-314) - C161 The Windows branches. The environment is kept by Windows as names and values of 16-bit units; names are compared without regard to case. `SetEnvironmentVariableA` takes bytes of the system's code page, `GetEnvironmentVariableW` units. Code pages with two-byte characters are not modelled.
* `Sys.File`: Files (code/header/core/file.h, code/source/core/file.c) - C114 to C117 The POSIX branch is modelled. The operating system underneath is modelled by the state `Os` and by the system calls of the section *system calls*: they are what POSIX says, are trusted, and are not part of the code. * File names are opaque byte strings; a name denotes nothing, a folder, or a file (an inode number); several names may denote one file (hard links). * Every call that can fail or move fewer bytes than asked for asks `grant`: the answer to the `t`-th such request for `n` bytes is `none` (the call fails: no permission, no descriptor left, I/O error) or `some g` (at most `g` bytes are moved). The theorems either hold for every `grant`, or say what they need of it. * Offsets are 64 bit and signed. Simplifications: the table of operations (`zpl_file_operations`) of a file is always the default one (a zeroed one is replaced by it before use: file.h:338 etc.; memory streams are in `Verif.Sys.Stream`); sizes are not negative; memory is not exhausted; the inode of a removed file is not reused.
* `Sys.FileWin`: Files on Windows (code/source/core/file.c:25-157, 339-346, code/header/core/file.h) - C163 The Windows branch of the files. The system underneath is modelled by the state `Win` and by the calls of the section *system calls*: they are what the documentation of Windows says, are trusted, and are not part of the code. What the calls on an open file should mean is the specification of the POSIX branch (`Verif.Sys.File`). * File names are opaque byte strings; a name denotes nothing, a folder, or a file. Simplification: letters in different case are different names. * Every call that can fail or move fewer bytes than asked for asks `grant`, as in the POSIX branch; an opening that fails for a reason of its own gives the error code `codes`. * Simplifications: the table of operations of a file is the default one; sizes are not negative; memory is not exhausted; a handle that was closed is not given out again (the model refuses every use of a closed file); the standard and the temporary files are not modelled.
* `Sys.Fs`: Moving, copying and removing files, and noticing changes (code/source/core/file_misc.c:89-147, file.c:294-304, 400-424) - C118, C119 Over the system of `Verif.Sys.File`. Simplification: what a system call has done is on the disk; write caches of the system are not modelled.
* `Sys.FullName`: Full names of files (code/source/core/file_misc.c:191-208) - C144 The branch for systems other than Windows. `realpath` of the C library returns a block of the C library's own heap (the heap of `Mem.Heap`), or NULL.
* `Sys.MkDir`: Making and removing folders (code/source/core/file_misc.c:212-272) - C165 `zpl_path_mkdir`, `zpl_path_mkdir_recursive` and `zpl_path_rmdir` over a disk with files and folders (POSIX). Simplifications: no links; the rights of one user, who owns what they make; the `umask` takes no right from the owner.
* `Sys.Opts`: Command line options (code/source/opts.c, code/header/opts.h) - C53 A block of memory holding a C string is a list of bytes; a pointer into it is the list of bytes from there on. The name pointers of an entry are given by the texts they point to. Reading a real number (`zpl_str_to_f64`) is a parameter of the model. All allocations succeed. `desc`, `appname` and the printing functions are left out.
* `Sys.OptsPrint`: The help screen and the error report of the command line options (code/source/opts.c:22-33, 124-163) - C124 The table of options is that of Sys/Opts; the application name and the descriptions, which that model leaves out, are arguments here: `ds` has the description of each option. Standard output is an `Fprintf.Out`.
* `Sys.Path`: Paths (code/header/core/file_misc.h:104-141, code/source/core/file_misc.c:232-251, 467-478) - C65, C73
* `Sys.Process`: Processes (code/source/process.c) - C132 The Windows variant; on other systems every function panics. The system is an oracle that decides which calls succeed; its state is the open handles, the open streams of the C library and the children that run.
* `Sys.Socket`: Sockets (code/source/socket.c) - C131 The Unix variant. The system is an oracle that decides which of its calls succeed; its state is the list of open sockets with their settings, and the number of address lists that `getaddrinfo` has allocated.
* `Sys.Stream`: Memory streams (code/source/core/file_stream.c, code/header/core/file.h:336-395) - C47
* `Sys.Tar`: Tar archives (code/source/core/file_tar.c, POSIX files)
* `Sys.TarDir`: Archives of folders (code/source/core/file_tar.c:100-107, code/header/core/file_tar.h:95-97) - C139 The listing is that of `Sys.Dir` (C121), the archive that of `Sys.Tar` (C52, C81).
* `Sys.Time`: Clocks and sleeping (code/source/core/time.c:121-233, code/header/core/time.h:56-66) - C130 The Linux variant. The clock of the system is the pair of seconds and nanoseconds that `clock_gettime` stores.
* `Sys.TimeOther`: The time since the first question on Windows and macOS (code/source/core/time.c:99-117, 160-178) - C172 Both keep what they learnt at the first call in static variables. The counter of the system is what `QueryPerformanceCounter` or `mach_absolute_time` says at each of the two places where a call may ask it.
* `Sys.Vm`: Trimming virtual memory (code/source/core/memory_virtual.c:11-16, 83-100, POSIX branch) - C64
* `Sys.VmPages`: Virtual memory in pages (code/source/core/memory_virtual.c:11-112) - C168 Both branches, for Windows and for the other systems. `Sys.Vm` (C64) has the trimming of the second branch without pages. The systems underneath are modelled from their documentation and are trusted: `mmap`, `munmap` and `madvise` on whole pages; `VirtualAlloc`, `VirtualQuery` and `VirtualFree` on reservations that begin at multiples of the granularity and that are committed as a whole (nothing else in the program reserves or changes parts of them). Addresses and sizes are natural numbers: no address goes beyond the end of the address space. Where the system may choose or refuse, its answer is an argument.
* `Sys.WinPath`: Folders and full names on Windows (code/source/core/file.c:27-53, file_misc.c:27-84, 151-191, 298-341, 467-478) - C164 The Windows branches of `zpl_fs_copy`, `zpl_fs_move`, `zpl_fs_remove`, `zpl_fs_last_write_time`, `zpl_path_get_full_name`, `zpl_path_dirlist` and `zpl_path_fix_slashes`. What the system does - converting between UTF-8 and UTF-16, completing a path, finding the entries of a folder - is given by functions and by the tree of `Verif.Sys.Dir`. Simplifications: names are given as the UTF-8 text the code makes of them (that conversion is C28 and C161); the listing is made at one moment; allocation succeeds.

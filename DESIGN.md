# Formal model of fair-acc/gnuradio4 (Lean 4)

The code under study is C++ in `/repo` (read as text, never built or run).
The model is executable Lean 4 in `lean/Verif/`. For an area `X` there are up to four files:

| file | content |
|------|---------|
| `Verif/X/Model.lean`  | the model: small total functions, each definition citing the file and lines it models |
| `Verif/X/Spec.lean`   | where needed, the independent specification the theorems refer to (kept short enough to read alone) |
| `Verif/X/Lemmas.lean` | helper lemmas and invariants |
| `Verif/X/Props.lean`  | the property theorems, each with an `example` meeting its hypotheses |

## Trusted base

* Lean 4.33.0 kernel; axioms at most `propext`, `Classical.choice`, `Quot.sound`. No `sorry`, `admit`, own axioms, `native_decide`, `bv_decide`.
* The reading of the C++ code: every model definition cites the lines it models and lists its simplifications.
* Concurrency is modelled as interleaving of atomic steps (sequential consistency). Where the C++ code uses
  acquire/release orderings, the theorems do not speak about executions only weak memory can exhibit.
* Cursor values are unbounded `Nat` unless the property is about wrap-around (then explicit `mod 2^64`); a 64-bit
  sample counter does not wrap in practice.
* Not modelled anywhere: the C++ compiler and library, templates and meta-programming, allocation failure, real time, OS threads, floating point rounding, SIMD instruction semantics
  (SIMD code is modelled lane by lane), mmap.

## Plan per property (written before the proofs)

Shapes: RT = round trip law, INV = invariant by induction over operations, REF = refinement of an abstract spec, DEC = decision logic, ALG = algebraic law.

| id | model | proof |
|----|-------|-------|
| C01 | writer/reader state machine of the buffer over a storage array, interleaved per atomic step | REF to an append-only log; every reader's received samples are a prefix of the log |
| C02 | same machine | INV published + reserved - min(reader) <= size; slot disjointness by modular arithmetic |
| C03 | per-producer program counters, CAS steps as single transitions, slot array | INV claims disjoint, cursor only passes published slots |
| C04 | two-copy storage array with the mirror copy loops of the writer span destructor | INV storage[i] = storage[i+size] on every published slot |
| C05 | writer span with the three release policies | DEC + REF on cursors |
| C06 | reader span consume logic (strict and non-strict) | DEC/INV; the non-strict variant is a candidate counterexample |
| C07 | remaining-capacity function with `mod 2^64` and reader removal | INV with at least one reader; counterexample without readers |
| C08 | HistoryBuffer with its array, write position and mask | REF to bounded list |
| C09 | the lazily synchronised mirror | INV: non-dirty slots agree with their mirror |
| C10, C11 | `isValidTransition` and `changeStateTo` with hook outcomes | INV over request lists; DEC over the finite table |
| C12 | table-driven, slice-by-8 and 16-byte SIMD variants over `BitVec` | equivalence to the bitwise definition by linearity over GF(2) |
| C13 | same | ALG: fold over append |
| C14 | same | ALG: injectivity of the CRC step, linearity |
| C15, C16, C17 | byte-list writer and reader of WireStream with fuel-free recursion | RT, INV, prefix lemma; corruption by C14 |
| C18 | header and annotation codecs over byte lists | RT, DEC |
| C19 | encoder (match finder, lazy tokeniser, Huffman construction, code-length RLE, block selection, containers) and decoder | RT, in layers: bits, prefix codes, tokens, blocks, containers |
| C20 | same encoder | size inequality by induction |
| C21 | decoder on arbitrary bits, output capacity, explicit out-of-bounds outcome | INV/totality |
| C22 | the decoder with counting and span outputs; container trailers | REF between outputs; DEC |
| C23 | Adler-32 with runs and `mod 2^32` | equality with definition, no overflow |
| C24 | resumable decoder state machine | REF to one-shot decoder |
| C25 | ChunkPool operations and counters | INV |
| C26 | ChunkBuffer chunk list with reader positions | INV |
| C27 | word array with fetch_or / fetch_and per word | DEC + INV over interleavings |
| C28 | lock word with CAS steps per thread | INV |
| C29 | expression parser and matcher over strings | DEC against a separate rule table; counterexamples where code deviates |
| C30 | `computeResampling` | DEC |
| C31 | stride counters over sequences of work calls | INV over availability lists |
| C32 | `computeSampleLimits` | DEC |
| C33 | SIMD main loop plus halving epilogue over lists | equality with `map` |
| C34 | status functions | DEC |
| C35 | tag forwarding with de-duplication table | INV over tags |
| C36, C37, C40 | stored parameter vectors per context | REF/INV/counterexamples |
| C38, C39 | staged, active and auto-update maps | INV/REF |
| C41 | BFS labelling | REF to reachability closure |
| C42 | DFS with colours | equivalence with existence of a cycle |
| C43 | edit operations on block and edge lists | INV |
| C44 | `parsePort` over character lists | RT/DEC |
| C45 | priming size calculation | DEC |
| C46 | job list construction | permutation + balance |
| C47 | BFS/DFS order construction | reachability; counterexample for source-less graphs |
| C48 | Dekker style flag and counter, per-worker program counters | INV over interleavings |
| C49 | traversal fold | DEC |
| C50 | worker-local lists, adoption and removal lists | INV over interleavings |
| C51 | `changeStateTo` split into its load, hook and store steps, several callers | counterexample; INV when requests do not overlap |
| C53, C54 | `removeContext`, `activateContext` | INV/DEC |
| C55 | `StreamCompressor` with its window, chains, pending output and half-filled byte | INV over all call histories: what was handed out or queued is a header and blocks of the first bytes taken; then the block lemmas of C19 |
| C56 | `ValueMap`: rows, pool of bytes with checked access, free list, reallocation, every overload of the store operations, accessors | refinement: INV (live and free regions disjoint, free list a chain inside the pool, every row's bytes decode to the dictionary's value) |
| C57 | `ValueMap::merge`: reserve, copying of rows, keys and records without padding, compaction of the source | invariant of the loop weaker than INV (live regions tight, nothing about the free list); INV itself where no record is padded; witnesses of what goes wrong otherwise |
| C58 | `blob`, `from_blob`, `_validateBlob`, `_validateTensorSubBlob`, copying: header and rows as bytes, every check with checked reads | safety: induction over the depth; round trip: fields of the bytes read back, INV gives every check; accepted bytes: from the checks, row by row; witnesses of what the checks miss |
| C59–C61 | `BasicThreadPool`: workers and submitting threads in atomic steps, counters, queue, condition variable, growth, shrinking, shutdown | INV over interleavings (every task in exactly one place, counters count program positions); progress: a continuation is constructed from every reachable state; witnesses by concrete schedules |
| C62, C63 | `distributeThreadAffinityAcrossCores`, `computeDefaultThreadSplit` | DEC by counting residues; arithmetic |
| C64 | `StreamToDataSet::processBulkDataSet`: trigger detection per call, accumulation state machine, history with tags, publication | INV: each pending data set is that of its range up to the samples seen (independent of the calls); the matcher enters through a rule it follows, shown for the standard one |
| C65 | `StreamFilter`: `processBulkStream` with back-pressure | INV over all calls and output spaces: the output is the concatenation of the ranges' windows |
| C66 | `YamlPmt.hpp` writer and parser, character by character, over a type of floating point numbers with given printing and reading | RT: text as lines; mutual induction over the value, positions in lines |
| C67 | the same parser with every read of the table of lines checked | induction over the fuel with the measure text left; fuel shown to suffice |
| C68 | `Block::processMessages` with the twelve standard property callbacks over abstract settings and lifecycle; inbox, output with an oracle for free space | INV over histories: output = answers of the messages handled so far |
| C69 | subscription table and `notifyListeners` | INV: table = what the last relevant message of each client says |
| C70 | distribution of messages by a scheduler to its blocks: pending list, message bus to the blocks with one read position each, bus back, forwarding | INV over interleavings of sender, scheduler, blocks |
| C71 | FFT in exact arithmetic over the complex numbers: size dispatch, bit reversal by swaps, stages with their kernels, twiddle tables, chirp tables and convolution of the Bluestein path, unpacking of real transforms | induction on the stages (each block holds the DFT of a subsequence); convolution by orthogonality of roots of unity; the vectorised backend is a parameter assumed to be a DFT |
| C72 | FIR and IIR filter blocks and the filter class with cascaded sections, in exact arithmetic over any commutative ring, on top of the history buffer model: reads beyond the number of samples pushed, capacity changes | invariant: the ring holds the last values, zeros before the first; exchange of sums for the forms with an intermediate signal |
| C73 | saving a graph as nested maps and text, loading it, sub-graphs and exported ports included; a block's settings behind an interface of the calls made on it | induction over blocks, contexts and connections; the map of created blocks gives the last block of a name; composed with C66 for the text |
| C74 | the calls loading makes on the settings model: parameters, stored contexts, activation, initialisation, with any clock readings | invariants over the calls: one set for the default context, its record of explicit parameters kept; C36 for the later look-ups |
| C75 | the merge types as a tree of parts with `processOne` of each type, index arithmetic included; the shown graph | the specification is a set of equations between signals, one per node and wire of the flattened network; induction on the tree: every solution has the outputs of the block, and a solution exists (glued from those of the parts) |
| C76 | the loops over full vectors, shorter vectors and single samples, the vector forms of `processOne` of merges, the choice of the loop | part blocks are assumed to treat each lane as a single call; induction on the tree for one vector call, then on the loops; the last loop covers the rest because the width is a power of two |
| C77 | `convert_safely` and `convertParameter` over bool, the eight integer types, float, double, complex and text; floating-point numbers as whole multiples of 2^-1074, rounding to nearest-even | digit-count lemmas for the rounding, modular arithmetic for the casts, then case by case over the pairs of types |
| C78 | Tensor with dynamic extents: rank, the two arrays of eight numbers, the element vector with its capacity; every modifying operation, exceptions and reads outside as outcomes | invariant of the state (elements as many as the shape has indices, strides those of the shape), preserved by every sound operation; row-major numbering of indices by induction on the shape |
| C79 | TensorView as memory, offset, extents, strides; slice, transpose, iteration, reshape, comparison, copying into a tensor | every chain of slices and transpositions keeps the fact that an index leads to the element it stands for, by induction on the chain |
| C80 | `convertTo`, `assignTo`, `convertTo_or` for arrays of one type and of values, all policies, five kinds of target; the casts of C++ on the values of C77 | lemmas about the casts (a number the target has is kept; wider types keep all), about the loop that stops at the first refused element, then case by case over targets |
| C81 | `processBulk` of the synchronising block for any number of ports, with the views of the input ports and the effect of consuming and publishing; a run is any sequence of calls with any portions | invariant of each pair of ports (position = published + reported + not yet reported; samples and tags by index), kept by both kinds of step |
| C82 | the same model; synchronisation tags, times in common and nearness stated on the tags | the search for the time gives the least common one; what each branch does, then alignment from the least number of samples before the tags; the flag of the block is shown to mean "aligned and nothing lost since" |
| C83 | Selector.hpp: the two maps, `settingsChanged`, both branches of `processBulk` with the numbers of samples, the loop that evens them out, and the writing of samples and tags; accesses outside of the buffers are an outcome; runs over ports with streams | the maps hold the pairs; the loop ends and gives inputs tied together the same number; writing appends samples of known origin, which adds up over the calls of a run |
| C84 | the same model; what arrives at the select input and the monitor output | the number of samples monitored is that consumed, by case on whether the input is routed |
| C85 | DataSink.hpp: streaming callbacks as a loop over each chunk; streaming pollers with sample ring and tag ring, the steps of the sink's and the user's thread in any order | induction over chunks for callbacks; an invariant over all steps that relates what was given, what is in the rings and what arrived |
| C86 | trigger listeners with their open captures, the history of the sink and the list of listeners | captures are the open triggers with what there is of their windows; completed ones are a prefix as triggers are in order |
| C87 | multiplexed listeners with the data set being filled | the sections of the verdicts so far are those published followed by the one being filled |
| C88 | snapshot listeners with what they wait for | as C86 |
| C89 | data set pollers with their ring, both threads in any order; listeners of the data set sink | an invariant over all steps |
| C90 | the registry's list and map, the name and flag of each sink, `settingsChanged` and `stop`; an exception out of `noexcept` is an outcome | the registry agrees with the names in use after every operation |
| C91 | The worker of a reader as functions on a state with the messages published; the streaming decoder is that of C24; the moment of cancellation is a parameter. | Invariant on pending bytes, offset and decoder session through every push; gzip by the agreement of streaming and one-shot decoders. |
| C92 | `readAsync` on bytes, with the queue filled before it returns. | From C91, with a count of messages; witnesses for calls that block. |
| C93 | `poll` on the queue. | Induction over the polls. |
| C94 | `BasicFileSource::processBulk` over the messages of its readers. | Invariant: published bytes are the parts of the files opened plus a whole number of samples of the current one; a measure for the end. |
| C95 | `BasicFileSink::processBulk` on a list of files. | Invariant on the files and the bytes consumed; composition with C94. |
| C96 | Worker, bounded queue and reader as interleaved steps. | Invariant, absence of deadlock and a decreasing measure; a stuck state for the dropped reader. |
| C97 | The parser of headers on bytes; `WavSource::processBulk` over the messages of the readers of C91. | Parser equal to a grammar of chunks; invariant on the bytes played, the bytes at hand and those to come; a second invariant for arbitrary bytes; a measure for the end. |
| C98 | Decoding of a sample; numbers of type double as exact ratios, floats by their bits. | Arithmetic on whole numbers. |
| C99 | `WavSink` on a list of files of bytes. | Invariant: closed files and the open one hold the samples taken. |
| C100 | The two together. | Composition of C97, C98, C99 and C91. |
| C101 | `processOne` for the four methods, on integers, crossings as fractions, the Savitzky-Golay locator as a parameter. | Invariant: the stored output is that of the comparator; for the regression methods also that the zone was entered from its side. |
| C102 | `processBulk` of the block over a stream, tags per position, any sequence of calls. | Invariant on samples and tags put out. |
| C103 | The same with the clock of the block. | Invariant without interpolation; witnesses otherwise. |
| C104 | Constructor arguments, `settingsChanged`, period. | Case distinction, C103; witnesses. |
| C105 | `gemm` with both kernels on flat memory with bounds, loops as they stand, elements of a commutative ring, register width a parameter. | Invariant per loop: how many products each row has received. |
| C106 | The same with the view that `transpose()` gives. | What is computed is proved for all inputs; witnesses show it is not the product. |
| C107 | `gemv` with its three kernels, views with strides. | Invariants: the accumulators together hold the dot product so far. |
| C108 | `GeneralRegistry` as a map from names to handlers; a type is its type name. | The entry for a name after a sequence of registrations is that of the last claim; induction. |
| C109 | `instantiate` with its three sources, recursion through definitions with a bound on the depth. | Equivalence with an inductive set of blocks that can be made; monotone in the bound; ranks for termination, closed sets for divergence. |
| C110 | Loading split into start and completion, the counter of `loadPluginsAsync`; completions in any order. | Invariant over the files asked for; induction over reports. |
| C111 | One cache file with content and time; writing ends fully, not at all, short, or in a crash. | Invariant: the cached content is what the source had when it was written. |
| C112 | The state machine of `BurstTaper` over any commutative ring; reading outside a ramp is its own outcome. | Grammar of envelopes as a pair of inductive predicates; invariant of the state; a measure that falls with each sample. |
| C113 | `applyTaper` block by block, with its loop over ramps. | A block equals its samples one by one after a step that settles a finished ramp. |
| C114 | `generateEdge` and the polynomial shapes in exact arithmetic. | Index arithmetic; closed form of the sum by induction. |
| C115 | `processBulk` of `ClockSource` with 32-bit counters; the number of samples the clock asks for is an argument. | Induction over calls. |
| C116 | Both kinds of tags; the conversion of a time to a sample is any function. | Invariant: the next tag of each kind is not passed; repetitions as quotient and remainder. |
| C117 | `computeWallClockSamples` with time in ticks of the clock and exact rates. | The time accounted for lies between that of the samples and a tick less per call. |
| C118 | The two flags of the timer, the thread that starts and stops, and tasks of the pool, in atomic steps. | Inductive invariant over interleavings; a measure for the end. |
| C119 | The busy flag, the slots, the indices of the store and the program counters of any number of threads, in atomic steps; events recorded in the order of their effect. | Inductive invariant over interleavings: the slots hold the newest accepted records. A measure for the end of a call. |
| C120 | The drop counters of the same model. | From the events allowed by a sequential store; witness for drained records. |
| C121 | The ring with claimed and committed slots, the flush and console flags, in atomic steps. | Inductive invariant over interleavings; witnesses. |
| C122 | Text functions on lists of characters with fixed capacities. | Lengths of all parts add up to less than the capacity. |
| C123 | `do_allocate` with `std::align`; addresses are natural numbers. | Invariant over sequences of calls. |
| C124 | Counters modulo 2^64; `migrate` with an element at which copying throws. | Induction over calls and over the copy loop. |
| C125 | Scope objects that remember the previous value, for one variable, one per thread, or one shared. | Induction over nesting; projection to a thread. |
| C126 | Writing to a node of a file system with a device capacity and a stream buffer; the compressor and the reader of the other areas. | Composition with the round trips of C19 ff. and C91; witnesses for failures. |
| C127 | The flags and the counter of writer and reader with the program counters of any number of threads, in atomic steps; blocking on a counter value. | Inductive invariants over interleavings; a schedule after which a thread sleeps for ever. |
| C128 | The checksum test and the splitting of a line on lists of characters. | Exclusive-or cancels, so one changed character changes the sum; characterisation of the accepted lines. |
| C129 | The parsing functions with rational numbers, days counted as `sys_days` counts them. | The day after has the next number, from 1 January 1970 on; evaluation of decimal digits by induction. |
| C130 | The parser as a state machine over lines. | An invariant relating the pending fix to the lines of the current second, by induction over the lines. |
| C131 | The generator on 64-bit vectors. | Inverses of the shift, rotation and multiplication steps; pigeonhole for the period. |
| C132 | The samplers with the square root and logarithm as a parameter and a bound on rejections. | Chunk loops equal repeated samples by induction; a seed for which two chunks differ from one. |
| C133 | The generator over any commutative ring with the functions it calls as a parameter. | The interleaved phasors are the phasor turned once and twice; unit length makes normalising the identity; induction over calls. |
| C134 | The same model over the rationals and the reals. | Floor arithmetic for the shapes; addition theorems for the phasor. |
| C135 | The core that chooses between tone and noise, and integer conversion. | A relation between generators that gives equal samples; witnesses for changes. |
| C136 | Sample by sample dispatch with stopping, 32 bit counters, and publishing and consuming of each work call. | Induction over the calls: what has been written is the prefix of the stream up to the count. |
| C137 | The loop over the inputs with partial operations; integer operations with promotion and undefined overflow. | Induction over inputs and samples; conversion is a homomorphism modulo two to the number of bits. |
| C138 | Integer types given by signedness and width; conversion, scaling for one value and for a lane, absolute value; interleaving of lists. | Balanced and ordinary remainders; induction over lists; witnesses for what differs. |
| C139 | Calls with clock readings as arguments. | Induction over calls. |
| C140 | The phase over the rationals, the full turn as a parameter; settings as optional values. | Induction over samples; witnesses for the settings. |
| C141 | The estimator over the rationals, time stamps as integers. | Induction over observations; witnesses. |
| C142 | Frames as lists, accumulated drift over the rationals. | Invariant of the accumulated drift over all calls; witnesses. |
| C143 | Resampling positions and the cubic over the rationals. | Bounds on positions; polynomial identities; witnesses. |
| C144 | The shapes over the rationals, division by zero as no value. | Polynomial identities and inequalities; induction over samples. |
| C145 | The generator with the settings a change brings. | Case analysis of the change; induction over the samples after it. |
| C146 | Uncertain values over the real numbers. | Derivatives from Mathlib as the specification; witnesses for the exceptions. |
| C147 | Windows as parts of lists, `nth_element` by insertion sort. | The window equals the filtered list of neighbours; sums, extremes and ranks by induction. |
| C148 | Axis and values as lists of rationals, `lower_bound` as the first place not below. | Case analysis at points, between them and outside. |
| C149 | Data sets as lists and counts, "not a number" as no value. | Place by place equality of lists; arithmetic on the layout; witness. |
| C150 | Signals and coefficient rows as lists of rationals, index functions on integers. | Closed form of the index functions; scalar product of a row of moments with a polynomial by induction over its coefficients; reversal of sums. |
| C151 | History as a list of the last samples, oldest first. | Induction over the samples: the history is a window of the continued signal; comparison with the batch filter place by place; witnesses. |
| C152 | The averages of one sample over the real numbers, filters as arbitrary state machines. | Cauchy-Schwarz for weighted sums by the discriminant; induction over the sample loop; witness. |
| C153 | Power factor and unbalance over the real numbers. | Both ways of taking the maximum meet the same specification; case analysis. |
| C154 | Values as rationals or "not finite"; the loops of the estimators on lists. | Induction over the loops with the place of the best value so far; witness for the place of the minimum. |
| C155 | Trapezoids as a sum over places, moments as folds. | Sums over split ranges; telescoping for straight lines; bounds by induction. |
| C156 | The two scans from the peak, the edge automaton and the search for a crossing as recursive functions. | Nearest places by induction; specification of edges as a list; invariant period = count times spacing; interpolation in an ordered field; witnesses. |
| C157 | Step start and settling time composed of the estimators of C154 and C156. | The crossing is strictly after the sample before it, so the binary search finds the crossing sample; first window by induction; witnesses. |
| C158 | Refinement over the real numbers with logarithms. | Logarithms of the three samples; bounds for two non-negative differences. |
| C159 | Texts as lists of characters, the map of providers as an association list. | Splitting lemmas for colons; digits as for C129; induction over the registrations. |
| C160 | Values over the reals, not-a-number as `none`; the Bessel series as the loop with its stopping rule. | Symmetry of the cosine, polynomials in the cosine; the number of passes of the loop grows with the argument, so the series is monotone. |
| C161 | Limits over any number type given by its comparisons, the conversion to the type of the limits as a partial function. | Cases; induction over the staged values; concrete witnesses for the exceptions. |
| C162 | A port as a record, a tag as a list of keys and values, keys as lists of characters. | One lemma for an entry that names a member, one for an entry that does not; induction over the tag. |
| C163 | Bins as pairs of rationals, the transform and hypot, log10, atan2 as parameters; spectra as lists. | Rotation read as an index modulo the size; the loops of unwrapping need at most floor(d / 2 pi) + 1 passes; minimum and maximum by induction. |
| C164 | A pair of real numbers with the operators of the type; atan2 as a parameter with the property the standard gives it. | Refinement: each operator is the one of the field of complex numbers in Mathlib; induction over expressions. |
| C165 | The registry as a list of devices, a history of registrations as a list; types as numbers, with a cast to the wrong type as an outcome of its own. | Induction over the history. |
| C166 | The loop as a fold over events that carry the answers of the kernel. | Invariant: all published times lie at or before every later reading of the clock. |
| C167 | The counters of the source, the room of each call as a list of sizes, tags with the sample they are published at. | Invariant: the tags before the counter lie before the next sample, the others do not; a call never goes past the next tag. |
| C168 | Logs and counter; a stream with numbered tags is cut into calls with places relative to the call. | Induction over the cuts; the tags of neighbouring ranges of a sorted list join. |
| C169 | A map is address, memory and entries; values compare by a parameter. | Lists without repetition and of one length: inclusion of keys one way gives the other; induction over the lists of tags. |
| C170 | Iterators as what is left of each range; results of the deduplication with the newest first. | Invariant of the choice over the prefix of ranges looked at; induction over the elements left; invariant between kept and seen elements. |
| C171 | Strings as lists of characters; kinds of URIs and the local path. | Induction to the first separator; cases on host and scheme. |
| C172 | Queue of messages and published values; a sink with what each call finds of its request as input. | Induction over the events; induction over the calls; negation by a witness. |
| C173 | The two loops on exact numbers; the prefix as a place in its table. | The number times a power of 1000 is an invariant of both loops; ranges by induction. |
| C52 | `groupBlocks` / `ungroupBlocks` with export names as strings | RT up to order; injectivity of the suffix loop |

## What is modelled and what is not

| directory | code | left out |
|-----------|------|----------|
| LifeCycle | LifeCycle.hpp state table, `changeStateTo`, hook selection, callers in steps | notification of waiting threads |
| Crc | Crc32.hpp: table, slice-by-8, 16-byte folding variant lane by lane | CPU instructions, big-endian hosts |
| Wire | WireStream/WireFormat header, frame and annotation codecs, reader | IO |
| History | HistoryBuffer with fixed and dynamic extent | element types with throwing copies |
| Bitset, RwLock | AtomicBitset, AtomicRWLock per atomic access | weak memory |
| Chunk | ChunkPool, ChunkBuffer | allocator internals |
| Ring, RingMp | CircularBuffer, claim strategies, spans and policies, reader attachment | weak memory, wait strategies |
| Work | Block.hpp sample accounting, stride, limits, SIMD dispatch, tags | message ports, settings (see Settings) |
| Sched | Scheduler.hpp job lists, traversal, quiescence flag, run-time adoption/removal, zombies | thread pool, watchdog, profiler |
| Graph | components, feedback loops, priming, port strings, edits, group/ungroup | buffer connection, plug-in loading |
| Settings | CtxSettings: stored sets, lookup, expiry, staging, activation, removal, tags, defaults, apply | value conversion and validation (parameters), init, property serialisation; the matching predicate's retry loop is assumed to end |
| Deflate | Compression.hpp: Adler-32, bit writer and reader, hash chains and lazy matching, Huffman construction with length limit, code-length coding, block selection, containers, decoder with counting and span output, one-shot API, streaming decompressor, streaming compressor | failing allocations, compile-time resources |
| VMap | ValueMap.hpp: owning maps and fixed buffers (emplace, insert_or_assign, erase, clear, reserve, shrink_to_fit, find, iteration, merge, blob, from_blob, copies), free list, growth, record layout; Value.hpp accessors | debug guards, tensors with variable-size elements, iterators held across operations |
| Pool | thread_pool.hpp: `BasicThreadPool` (execute, worker, thread creation, bounds, shutdown), `TaskQueue`, affinity distribution, default sizes | weak memory, task functions, futures, names, scheduling policy, pool registry |
| Sel | StreamToDataSet.hpp: both blocks, any matcher and the standard one | names, units, meta information of data sets, merged auto-forward tag, settings changed during a run |
| Yaml | YamlPmt.hpp: `serialize<Auto>`, `deserialize` with all of the parser, assertions on and off | shapes of tensors, digits of floating point numbers (parameter), stack depth, `formatAsLines`, other tag modes |
| Msg | Block.hpp: `processMessages`, `processScheduledMessages`, property callbacks, subscriptions, `notifyListeners`; Scheduler.hpp: distribution of messages to blocks and of answers | settings and lifecycle (parameters), profiling, time stamps, RBAC, protocol strings (copied only) |
| Fft | algorithm/fourier/fft.hpp: `compute`, `transformRadix2`, `transformBluestein`, the tables, R2C unpacking; SimdFFT.hpp: `canProcessSize` | rounding (exact complex numbers), the vectorised transform itself (a parameter), alignment and copies between buffers, C2R |
| Filter | blocks/filter/time_domain_filter.hpp: `fir_filter`, `iir_filter` (four forms), `Decimator`; algorithm/filter/FilterTool.hpp: `computeFilter`, `Section`, `Filter` | rounding, order of summation, design of coefficients, uncertainty propagation |
| Grc | Graph_yaml_importer.hpp: all but `instantiateBlockFromYamlDefinition`; core/src/BlockModel.cpp: `serializeBlock`, `serializeBlockImpl`, `serializeBlockSettings`; Graph.hpp: `connect`, `exportedPortsFor`, `exportPort(true, ..)`; Settings.hpp: `loadParametersFromPropertyMap`, `init`; Block.hpp: `init` | resources, constraints for user interfaces, texts of errors; list elements other than integers as port indices are an error |
| Merge | BlockMerging.hpp: `processOne` (vector forms too), port lists, `graphWithPortMaps` and `stateChanged` of all merge types; Block.hpp:37-52, 1699-1761, 1890-1904: the loops around `processOne` | port types (one value type), settings forwarding, message ports; `Compiles` states by hand which types compile |
| Conv | PmtTypeHelpers.hpp:137-370 `convert_safely`, Settings.hpp:256-306 `convertParameter` for single values | enumerations, vectors, arrays and tensors as members; sign of zero, payload of NaN; the text parsers (not reachable for stored values) |
| Tensor | Tensor.hpp:165-1010, 1146-2040 `Tensor` with dynamic extents and `TensorView`, PmtCollections.hpp:43-620 the vector below it | static extents, memory resources, moved-from objects, wrapping of the strides of tensors without elements, comparison with other containers |
| Conv (policies) | ValueHelper.hpp:20-96, 139-731, 760-935 | `Value` as type of the target's elements, the overloads for rvalues, memory resources, `ValueVisitor`, `memory_usage` |
| Sync | SyncBlock.hpp:127-380, Port.hpp:596-604, 665-678, 727 | change of the number of ports, other settings, tags refused for lack of room, end of the streams |
| Selector | Selector.hpp:82-254, Port.hpp:596-632, 654-678, 721-745, Block.hpp:1342 | tags refused for lack of room or because an output is not connected, the abort on tags out of order in debug builds, limits of the numbers of ports, end of the streams |
| Sink | DataSink.hpp:64-148, 163-365, 389-416, 506-660, 690-1035, 1073-1190, HistoryBuffer.hpp push_front | expired listeners, metadata in detail (a list), the data set's units, ranges and names, delay times sample rate in floating point (a parameter), the debug check that tags are at the first sample, mutexes (steps are atomic where one is held) |
| FileIo | FileIo.hpp 119-593 and 597-749 (without dialogs, browser and failing requests), 1018-1063, 1073-1252 and 1302-1343; BasicFileIo.hpp 64-382; Verif/FileIo | HTTP uploads, gzip in the sink, failures of the operating system, long polling, texts of errors |
| Wav | WavBlocks.hpp 36-782; Verif/Wav | names of files and directories but for their order, failing to open files, times in tags, rounding of a ratio to float |
| Schmitt | SchmittTrigger.hpp, Trigger.hpp; Verif/Schmitt | rounding of floating point, NaN, uncertainties, the Savitzky-Golay fit, synchronisation of the clock by trigger tags, thresholds that overflow the sample type |
| Gemm | math/gemm_simd.hpp, math/gemv_simd.hpp, gemm/gemv of TensorMath.hpp; Verif/Gemm | rounding of floating point, signed overflow, operands that share memory, other functions of TensorMath.hpp |
| Plug | BlockRegistry.hpp, PluginLoader.hpp, PluginLoader.cpp (directories), instantiateBlockFromYamlDefinition; Verif/Plug | schedulers of plugins, dynamic linking, version check of embedded blocks (only a warning), parsing of index and definitions, reading errors of the cache file, hash of cache file names, callbacks from several threads |
| Taper | BurstTaper.hpp; Verif/Taper | rounding of float and double, shapes with cosine, power and exponential other than as any function, SIMD-free loops of `std::transform` taken as element by element, fixed-length variant (same code) |
| Clock | ClockSource.hpp, BlockingSync.hpp; Verif/Clock | rounding of float and double, `lround` of a time (any function), trigger times, contents of tags, the timer while paused, start and stop from several threads, memory orders weaker than sequential consistency |
| Log | Logger.hpp, Logger.cpp; Verif/Log | memory orders weaker than sequential consistency, formatting of messages, the sink switch, that the console backend ignores whether the history kept a record |
| Mem | MemoryAllocators.hpp; Verif/Mem | logging allocators, wrap-around of addresses, allocation failure inside `migrate` |
| Nmea | NMEAParser.hpp; Verif/Nmea | rounding of doubles, the reader of serial devices |
| Rng | Xoshiro256pp.hpp, GaussianNoise.hpp, NoiseGenerator.hpp; Verif/Rng | rounding of the samples, the distribution of normal samples, non-termination of the rejection loop beyond a bound |
| Tone | ToneGenerator.hpp, SignalGeneratorCore.hpp, `start` and `settingsChanged` of SignalGenerator.hpp; Verif/Tone | rounding and drift, the clock input and free running of the block |
| Basic | NullSources.hpp (except `SimCompute`), Delay.hpp, Math.hpp, Rotator.hpp, ConverterBlocks.hpp (except magnitude, argument and degrees), `invokeProcessOneNonConst` and `finaliseIO` of Block.hpp; Verif/Basic | floating point conversion and rounding, tags |
| Drift | SampleRateEstimator.hpp; Verif/Drift | floating point rounding |
| Func | FunctionGenerator.hpp: all signal types for real samples, settings and triggers; Verif/Func | floating point rounding, conversion to the output type, complex samples, publishing by clock (Verif/Clock) |
| Uncert | UncertainValue.hpp: all operations for real types, `+` and `*` for complex ones; Verif/Uncert | rounding, infinities, complex quotients and powers, comparison |
| DSet | DataSetMath.hpp (except `addNoise`, `applyFilter` and logarithms), DataSetHelper.hpp (except `getDistance` and `getSubArrayCopy`), layout of DataSet.hpp; Verif/DSet | rounding, names and units |
| Savgol | SavitzkyGolay.hpp except the singular value decomposition; Verif/Savgol | rounding, the numerical pseudo-inverse |
| Power | PowerEstimators.hpp: the three `processBulk`; Verif/Power | rounding, filter design (see Filter), uncertain values |
| DEst | DataSetEstimators.hpp: range check, extremes, mean, median, spread, integral, centre, widths, duty cycle, frequency, crossing, step start, settling time, Gaussian refinement; Verif/DEst | rounding, timing events and meta information added to the data set, `analyzeStepPulseResponse` |
| Domain | ComputeDomain.hpp; Verif/Domain | tag and user payload, the mutex |
| Window | window.hpp; Verif/Window | rounding, shape parameters that are not a number |
| Annot | Limits and validate_and_set of annotated.hpp, the end of applyStagedImpl in Settings.hpp; Verif/Annot | plain assignment and construction, which check nothing; texts |
| Meta | PortMetaInfo of Port.hpp, settingsKey of Tag.hpp; Verif/Meta | the text of the errors, the constructor that ends the program on an error |
| Spectrum | computeMagnitudeSpectrum, computePhaseSpectrum, unwrapPhase of fft_common.hpp, processBulk and createDataset of the FFT block; Verif/Spectrum | rounding, the transform itself (see Fft), names and units of the signals |
| Cplx | Complex.hpp; Verif/Cplx | rounding, NaN and infinity but for one theorem on overflow, the tuple protocol |
| Devices | DeviceRegistry.hpp; Verif/Devices | the devices themselves, the order of static initialisation |
| Pps | PpsSource.hpp; Verif/Pps | texts and meta-information in the tags, the kernel discipline but for two fields, the wrap of 64 bits, settings changed while running |
| TagSrc | TagSource of TagMonitors.hpp; Verif/TagSrc | the callback, the message for tags out of order, the wrap of the 32-bit counter |
| TagSink | TagSink and TagMonitor of TagMonitors.hpp; Verif/TagSink | printing, several tags at one sample merged by processOne |
| MapEq | operator== of ValueMap.hpp, equal_tag_lists of TagMonitors.hpp; Verif/MapEq | the comparison of single values, reports of differences, overflow of indices as signed numbers |
| Ranges | MergeView and PairDeduplicateView of meta/RangesHelper.hpp; Verif/Ranges | comparison of iterators, views over ranges that change while they are read |
| Uri | classifyUri, toLocalPath, stripDownloadUri of FileIoHelpers.hpp; Verif/Uri | texts of errors, locales other than C, the directory for downloads |
| Http | processBulk of HttpSource and HttpSink of HttpBlock.hpp; Verif/Http | the requests, changes of settings while running, stop, headers and compression |
| Si | to_si_prefix of PerformanceMonitor.hpp; Verif/Si | rounding of long double and of the text, NaN and infinity |
| Trigger | TriggerMatcher.hpp: parser, stored state, one- and two-sided matching | conversion of the state to and from `property_map` values |

## Findings (places where code and natural property disagree)

Each is a proved theorem about the model (named in brackets) with a concrete witness.

* Life cycle: the arrow REQUESTED_PAUSE → REQUESTED_STOP of the documented diagram is rejected [`diagram_arrow_stop_while_pausing_is_rejected`]; the stop hook runs without start [`stop_hook_runs_without_start`]; a re-entrant init starts an uninitialised block [`reentrant_init_starts_uninitialised_block`]; concurrent requests leave the diagram [`concurrent_requests_can_leave_diagram`].
* Wire stream: a payload of 2^32 bytes or more is lost silently [`oversized_payload_is_silently_lost`]; a flipped header bit switches the checksum off [`header_flip_disables_crc`].
* HistoryBuffer: writing through an index leaves the view stale [`write_through_index_leaves_stale_view`]; a span starting past the end leaves the storage [`span_past_end_leaves_storage`]; shrinking keeps the oldest elements [`shrinking_keeps_oldest`].
* Read/write lock: several writers at once [`two_writers_at_once`] (documented, but not what the name says).
* Chunks: an oversized request is refused while idle chunks fill the pool [`oversized_refused_while_idle`]; storing blobs out of order frees a readable one [`out_of_order_store_frees_readable_blob`].
* Ring buffer: `available()` exceeds the size once the last reader is gone [`available_exceeds_size_without_reader`]; a buffer nobody reads fills up [`unread_buffer_fills_up`]; a second reservation exposes unpublished slots [`second_reserve_exposes_unpublished`]; assigned spans never publish or consume [`assigned_span_never_publishes`, `assigned_span_never_consumes`]; a second writer object rewinds the cursor [`fresh_writer_rewinds`]; unchecked consume passes the published position [`unchecked_consume_passes_published`]; readers attached while the writer runs are overrun [`new_reader_overrun`, `existing_reader_overrun`].
* Multi-producer ring: a partly published claim blocks all readers for good [`partial_publish_blocks_readers`, `gap_is_permanent`]; a non-blocking claim is refused on an empty buffer [`try_claim_refused_on_empty_buffer`].
* Work: [`insufficient_output_reported_as_input`, `requested_work_can_be_exceeded`, `minimum_drops_tag_limit`, `tag_in_gap_breaks_stride`, `stride_of_single_samples_depends_on_availability`, `done_hides_progress`, `error_still_consumes`, `consume_beyond_chunk`, `idle_ok`, `stopping_publishes_without_consuming`].
* Tags: [`ninth_tag_duplicated`, `tag_repeated_when_nothing_consumed`, `tag_lost_when_nothing_published`, `backward_policy_repeats_tag`, `inner_tag_moves_to_next_chunk`].
* Scheduler: [`bfs_dfs_skip_isolated`, `bfs_dfs_skip_sourceless_loop`, `simple_empty_graph_no_worker`, `overlapping_guards_broken`, `stale_moved_entry_loses_block`, `adopted_by_ended_worker_lost`, `adopt_lost_without_lists`, `replacement_never_scheduled`].
* Graph: not every cycle is reported [`second_cycle_not_reported`]; text after `#` that is not a number is accepted [`parsePort_accepts_garbage`]; 32-bit overflow in the priming ratio [`priming_overflow`]; the priming does not start a loop behind a decimator [`priming_insufficient_behind_decimator`]; edges to foreign blocks and duplicate edges [`pointer_edge_dangles`, `connection_listed_twice`, `same_port_by_name_and_index`]; `replaceBlock` uses an invalidated iterator in a graph of exactly 100 blocks [`replace_block_ub`, `replace_block_ub_reachable`]; a failing `groupBlocks` loses the blocks [`failed_grouping_loses_blocks`]; grouping drops the compute domain of an edge [`grouping_drops_edge_domain`].
* Settings: storing twice under the same past time stamp loses the newer set [`duplicate_time_newest_lost`]; WebAssembly variants [`wasm_lookup_sees_later`, `wasm_duplicate_remains`]; a rejected value is still forwarded downstream [`rejected_value_forwarded`]; `set` followed by `applyStagedParameters` has no effect (as in SchedulerModel.hpp:86-87) [`set_alone_not_applied`]; the reset/store-default tags are dead code [`reset_tag_is_dead`]; a context switch does not replace values staged before [`context_switch_keeps_staged`]; tags overwrite explicitly set parameters between `set` and `activateContext`, or when sets arrive out of order [`tag_overwrites_before_activation`, `tag_overwrites_out_of_order`]; a throwing `set` consumes auto-update slots [`throwing_set_disables_updates`]; an expiry time empties a context, wraps around, and erases records of other contexts [`expiry_empties_context`, `expiry_wraps`, `expiry_erases_foreign_record`]; removal with the default time is refused [`remove_default_time_refused`].
* Trigger expressions: one-sided expressions test containment of contexts the wrong way round [`one_sided_wrong_way`]; `^` is ignored there and when both sides are equal [`caret_ignored`]; `[]` matches every tag [`empty_brackets_match_all`]; an invalid expression is rejected only by the first call [`rejected_once`] and may then act as another one [`rejected_acts_as_single`].
* Compression: the size query, documented as validating, accepts wrong checksums [`decompressedSize_skips_checksum`]; the allocating decompressor refuses results beyond its limit, by default 256 MiB, which the compressor knows nothing of [`decompress_limit`]; errors of the streaming decompressor are documented as sticky, but a call after an error can succeed and produce output [`stream_errors_not_sticky`]; streaming and one-shot decoder accept the same streams but may name different errors for a bad one; the streaming compressor reports `needInput` when the end of the stream exactly fills the output buffer, although it was told to finish and has handed out everything [`encode_needInput_after_finish`].
* Property maps: a string is cut off at its first zero byte when read [`embedded_zero`]; assigning an empty `Value` reports success and keeps the old value [`assign_empty_value`]; emplacing a value of the map itself under a new key reads memory that was given back, when the rows are full [`own_value`]; the 65536th entry empties the map and reports success [`entry_65536`]; every growth multiplies the row array and the pool by one and a half, whichever is full, so that the 32-bit size wraps although a third of the address space is free [`growth_wraps`].
* Merging property maps: a record is copied without the padding to 16 bytes behind it, a long key without the room it was given, but overwriting and erasing count on both: after merging a map with one string into an empty map, storing a shorter string under the same key writes outside the allocation [`merge_then_assign`], as does a store after erasing it [`merge_then_erase`]; with an entry under a long key behind it, the key is overwritten and the entry lost [`merge_then_assign_loses_key`].
* Property maps as bytes: a nested map begins 8 bytes behind a record that is aligned to 16 bytes, but `from_blob` refuses nested maps that are not aligned to 16 bytes, so a map with a nested map cannot be read back from its own bytes [`nested_map_refused`, `accepted_nested_offset`]; nor can one with a tensor of more than 2^24 elements [`large_tensor_refused`]. The checks accept bytes whose reading leaves the memory: the size of a record is rounded up to 16 bytes but only its exact length is checked (a string without end in the last record); the type in the record is not compared with the flags of the row or with the type in the tensor; 16 bytes are enough for a `complex<double>` [`accepted_read_outside`]. The list of free bytes may overlap entries, so that storing one key changes another [`accepted_shared_bytes`]; the number of bytes in use is not checked [`accepted_wrong_used`]. A capacity of rows larger than the space for rows is accepted as well (not modelled: rows and payload are separate in the model).
* Thread pool: an idle last thread (minimum 0, the default on WebAssembly) clears the queue together with a task that has just been submitted [`idle_last_thread_drops_task`]; the waiting condition is not protected by a common mutex, so a wake-up can be lost and a task wait for the 10 s time-out [`lost_wake_up`], and idle workers wait on one condition variable with different mutexes, which is undefined [`idle_workers_wait_with_different_mutexes`]; a worker woken for a task can leave instead because its time is over, leaving the task to threads that are busy although the pool could grow [`expired_worker_abandons_task`]; destroying a pool after `requestShutdown` joins its threads twice, which throws in the destructor [`destroying_after_shutdown_throws`]; the maximum number of threads can be exceeded [`maximum_exceeded`], a failing thread start can undercut the minimum [`failed_start_leaves_no_thread`]; priorities from 2^31 on are the lowest [`huge_priority_is_lowest`]; the affinity mask is applied to the calling thread instead of the pool's threads [`affinity_not_applied`, `affinity_moves_caller`], threads beyond the minimum get no core [`surplus_thread_has_no_core`] and setting a mask then throws [`affinity_throws_on_grown_pool`]; `std::clamp` with wrong bounds where the number of cores is unknown [`wasm_unknown_cores_undefined`].
* StreamToDataSet: a tag that meets both sides of the expression closes the range it has just opened, so that `[A/p1, A]` gives empty data sets [`start_tag_closes_range`]; with an opening side with `^` nothing is ever published, as each call asks a fresh matcher state [`caret_start_never`]; a closing side with `^` misses its tag when another one precedes it at the same sample [`caret_stop_missed`]; a data set cut by `n_max` is published only by a later call, hence lost at the end of the stream [`limit_keeps_back`].
* StreamFilter: a call without output space has already looked at its tag and the next call does so again, so that the selection can depend on the output space [`selection_depends_on_space`]; single triggers without samples after them lose their tags [`single_trigger_tag_lost`]; a range that begins among the samples after the last stop is lost as a whole [`range_after_stop_lost`].
* YAML: a key that starts with a dash or a quote or holds a comment sign makes the saved text unloadable [`key_makes_text_unloadable`]; keys with spaces around them, in quotes or starting with a brace change, are lost or hide the other entries [`key_changed`, `key_lost`]; strings of several lines lose lines of spaces, have `\x` and `\0` resolved although the writer does not escape backslashes there, and are unloadable with `\u` [`multi_line_changed`]; tensors of strings come back as lists of whatever their text looks like [`strings_retyped`]; malformed text such as `a: b: c` is accepted with a surprising meaning [`invalid_text_accepted`]; with assertions compiled in, an unfinished `{...}` or `[...]` reads behind the table of lines [`unfinished_flow_reads_outside`]. Floating point numbers are printed with six significant digits and the shapes of tensors are not written, so neither comes back in general.
* Messages: a request for a property the block does not have is dropped without an answer [`unknown_property_silent`]; when the output of answers is full, the exception makes the block handle the whole batch again, so requests are carried out and answered twice [`full_output_repeats`]; a write with one unknown setting is answered with an error, but the other settings are staged [`error_but_staged`]; an answer fed back to a block is answered as if it were a request [`answer_is_answered`].
* Subscriptions (by inspection of the call sites, not a theorem): `notifyListeners` is called for the heartbeat, for settings and staged settings (Block.hpp:920, 1319, 1321, 1432) and by schedulers for their lifecycle state (Scheduler.hpp:483). Subscriptions to the lifecycle state of an ordinary block, to its meta information and to its UI constraints are accepted, but nothing ever notifies them. A subscription without a client name is accepted and ignored.
* Messages through a scheduler: a request about the lifecycle of one block is dropped without an answer [`lifecycle_request_unanswered`]; a scheduler stopped before its initialisation and reset afterwards never connects the message ports of its blocks [`uninitialised_delivers_nothing`]; without a reader of its answers those of the blocks are never taken out of the buffer — once it is full the blocks throw —, and one error among them makes every further call throw [`unheard_answers_stay`, `unheard_error_thrown_again`].
* FFT: at sizes that are neither a power of two nor of the form which the vectorised transform takes (e.g. 3, 100, 1000), `FFT::compute` returns wrong values. `transformBluestein` labels its second transform of the convolution "inverse", but the object it uses only does forward transforms; with the sign of the chirp chosen this leaves out every term with i + k ≥ N (and for sizes close to the half of a power of two adds others). `fallback_result` gives the exact values returned, `fallback_wrong` shows for each such size an input with a wrong component. Only the constant component is always right.
* Filters: a section of the filter class keeps the intermediate signal of direct form II (the default) in the history made for the numerator. If the denominator has more than one coefficient more than this holds, values further back are read from the wrong place: with b = [1], a = [1, 0, 1] the impulse response starts 1, -1 instead of 1, 0, -1 [`short_numerator_wrong`]; with longer a the constructor already reads out of range [`short_numerator_reads_out_of_range`]. Changing an FIR block to more coefficients than its history holds, or setting 32 or more coefficients of an IIR block, even the same ones, forgets the past [`fir_growth_forgets`, `iir_same_coefficients_forget`]. An empty list of feedback coefficients and a decimation by 0 are undefined behaviour [`iir_empty_coefficients`, `decimate_zero`].
* Saved graphs: a graph that contains a sub-graph cannot be loaded from its own saved text, because the loader requires `parameters.name`, which saving does not write for sub-graphs [`saved_subgraph_never_loads`]; nor could its exported ports be, saved with three elements and the unique name but loaded with four and the user's name [`saved_exports_never_load`]. Connections are saved by the blocks' names: with equal names they come back at the last block of the name [`same_name_rewired`], without a name not at all [`unnamed_not_connectable`]. Buffer sizes are cut to 32 bits [`large_size_lost`]; weights and names of edges are not saved [`weight_lost`].
* Saved settings: a block is saved with the parameters that are active and with the stored sets of all contexts but the default one; loading files the active parameters under the default context, so its own stored values are lost when another context was active [`default_context_is_active`, `default_context_lost`]; a stored set that leaves members out takes them from the set loaded before it [`loaded_set_gains_members`].
- C75: the graph shown for a `SplitMergeCombine` does not carry the output signs, and connects all paths to input 0 of the
  node standing for the sum (`graph_forgets_signs`, `graph_shares_input`). The output port list of `FeedbackMergeWithTap` in
  `graphWithPortMaps` lacks `splitOut`, so `graph()` of a merge that connects `splitOut` reads past the end of a vector
  (`tap_graph_undefined`). The stored value of a feedback loop is not cleared when the block is stopped or reset, and the monitor is
  not told about state changes (`restart_keeps_feedback`). A left block with three or more outputs cannot be merged with a right block
  with two or more: the branch for it (BlockMerging.hpp:269) has the pack expansion inside `std::move(...)` and names a type that does not exist
  (`Compiles`). The picture in the comment at 731-747 has the monitor behind the feedback block; the code puts it before (674-678).
- C76: every form of `processOne` of a merged block is `const`, so the loop that looks for a requested stop is never chosen for it;
  a part that calls `requestStop` changes its own state only and goes on being called (`merged_ignores_stop`). Parts that accept
  vectors can only be merged behind a left block with one output (static assertion at BlockMerging.hpp:230).
- C77: the range check for a narrowing integer conversion casts to `int64_t` first, so a `uint64_t` of 2^63 or more is compared as a negative
  number and 2^64 - 1 arrives in a signed member as -1 (`large_unsigned_wraps`). The limits for a conversion from floating point are themselves
  converted to floating point and round up, so 2^63 as a double passes the check for `int64_t` and the cast is undefined
  (`limit_undefined`; 2^31 as a float for `int32_t` likewise). A `uint64_t` zero is refused for float and double, because the test for the least
  value, meant for signed types, is made for unsigned ones too (`unsigned_zero_refused`). Complex numbers never convert: their parts are handed
  on inside a `std::variant`, which no branch takes (`complex_refused`). Infinities and NaN of float are refused for double (`not_finite_refused`).
- C78: `push_back(T&&)` and `emplace_back` on a new tensor set the extent but not the stride, so every element reads as the first one in
  the view (`moved_elements_not_shown`, `emplaced_elements_not_shown`); `assign` leaves out the shape altogether
  (`assigned_elements_not_shown`). `clear` keeps the old extents and strides in the arrays behind the rank, and after filling again the view reads behind the
  elements (`refilled_view_undefined`). `pop_back` on two dimensions leaves a shape n x 0 (`pop_breaks_shape`). `resize_dim` of an inner
  dimension keeps the elements in a line, so they move to other indices (`inner_resize_moves`). A `resize` that throws has changed the rank
  (`failed_resize_changes`), and a `resize_dim` that throws the extent (`failed_resize_dim_changes`). A ninth dimension is written past the arrays by `resize` (`ninth_dimension_undefined`). The constructor from a value
  drops the value (`value_lost`), and an element appended to a tensor without dimensions but one element is not shown (`scalar_append_loses`).
  `at()` with no index does not check for elements (`no_index_undefined`). Overflow of the number of elements is checked left to right, so
  {0, 2^40, 2^40} is accepted and {2^40, 2^40, 0} is not (`empty_shape_order`). `push_back` of a reference to one of the tensor's own elements reads
  freed storage when it has to grow (`own_element_undefined`). The static `identity()` indexes a tensor of one dimension with two indices.
- C79: `reshape` of a view ignores its strides (`transposed_reshape_changes`). A single index on a view of several dimensions, or of one
  dimension with a stride, counts in memory and not along the view (`single_index_differs`, `strided_index_differs`), so it can leave the slice. `owned` of a view without
  elements forgets the shape (`owned_forgets_shape`).
- C80: `Widening` takes 32-bit integers to float and 64-bit integers to double and rounds them (`widening_rounds`). The table for arrays of values is
  not the rule for typed arrays: uint8 to float (Widening) and int64 to int8 (Narrowing) are accepted from a typed array only (`values_refused`). `Strict` checks
  only rank and number of elements for an array of values into a tensor of static extents (`strict_ignores_extents`). `Flatten` does nothing for tensors of dynamic rank and
  makes those of given rank throw (`flatten_ignored`). The element of an array without dimensions is lost or written to no storage (`scalar_lost`, `assign_differs`),
  and an empty array loses its shape when the type is the same (`empty_shape_lost`). `Narrowing` does not look at the value; a floating-point number beyond the integer
  type is undefined behaviour (`narrowing_unchecked`).
- C81: the number of dropped samples is reported as `gr::Size_t`, 32 bits (SyncBlock.hpp:237); `drop_count_wraps` has 2^32 samples missing and a tag that says 0.
- C82: `synchronize` (SyncBlock.hpp:260-262) takes the first tag with a near time whether or not it is a synchronisation tag: a tag of another name (or without one), or without a time if the synchronisation time is less than the tolerance, takes its place (`other_tag_misaligns`).
- C82: the tolerance is exclusive, so with tolerance 0 equal times do not match (`zero_tolerance`).
- C82: scenario 3b of the documentation shows the sample of an unmatched tag in the output. It is dropped from all outputs, although they are aligned (`unmatched_tag_drops`), because samples before the alignment are counted from after the first earlier synchronisation tag (SyncBlock.hpp:304-312). It is the first such tag, not the last before the alignment, so samples with later unmatched tags do come out.
- C82: the largest 64-bit time stands for "no time" and is never aligned on (SyncBlock.hpp:253, 301).
- C83: the loop that writes an output with several inputs in step runs to `nSamplesToConsume[0]`, the number of input 0, whichever inputs feed the output (Selector.hpp:210). If input 0 has no route this number is the largest `size_t` and the loop leaves the buffers (`combined_outside`); if input 0 feeds another output with fewer samples, samples of the others are consumed and lost (`combined_lost`). All tests have input 0 among the combined inputs.
- C83: `settingsChanged` puts a pair into the maps before checking it (Selector.hpp:124-136) and throws with the pair left in, so the next call of `processBulk` uses it (`refused_map_used`); a pair listed twice is refused and its samples are sent twice (`repeated_pair_used`). A change of `n_inputs` or `n_outputs` alone leaves the maps as they are (Selector.hpp:103-109, `fewer_ports_used`).
- C83: without a route the samples are consumed but `consumeTags` is not called (Selector.hpp:143-146), so that only the tags of the first sample go. The rest is published by the first call after a mapping was set, with an index before the first sample of the output (`stale_tag`): at the start of the output's stream the index wraps to almost 2^64.
- C83: with `sync_combined_ports = false` the room of a shared output is given to the input with the lowest index first, so another may never get any (`starves`).
- C83: the documentation counts ports from 1, the code from 0 (Selector.hpp:29-46, 131).
- C84: `_selectedSrc` is reset in every call without a value at the select input (Selector.hpp:151-153), so the monitor shows only what is consumed in the calls at which a value arrives (`selection_lapses`); the documentation does not say so. Without a route the select input is not read (`monitor_needs_route`).
- C85: a poller that holds the sink back reserves room for all tags of a chunk at once; if these are more than the tag ring holds (1024) the sink waits for ever (`too_many_tags`).
- C85: the number of dropped tags does not include tags of dropped samples that were not written because the samples did not fit (`lost_tag_uncounted`), and metadata that could not be sent is counted as a dropped tag but sent later (`metadata_counted`).
- C85: a poll with a function that takes no tags consumes all tags in the ring, also those of samples not read yet (`mixed_polls`).
- C86: `ensureHistorySize` copies the old history newest first with `push_front` (DataSink.hpp:647-650), which makes the oldest sample the newest; the windows of all trigger listeners then have the samples before the trigger in the wrong order until the history is full of new samples (`history_reversed`, `window_reversed`). No test adds a listener that looks back further while the sink runs.
- C86: the position of a trigger's tag within the chunk is ignored (DataSink.hpp:866-878); only debug builds check that it is 0 (`window_at_chunk`).
- C88: a snapshot waiting while the sample rate changes keeps its number of samples (`snapshot_overtaken`).
- C89: `getMultiplexedPoller` and `getSnapshotPoller` do not set `finished` from `_listeners_finished` as the other two do (DataSink.hpp:565-579, `late_pollers`): a loop that polls until finished never ends. `_listeners_finished` is not reset when a sink starts again, so that new pollers of a running sink may say they are finished. `DataSetSink` never removes expired listeners (1116-1122). Both not modelled further.
- C90: `unregisterSink` uses the throwing `std::any_cast<TSink*>(v)` on all registered sinks (DataSink.hpp:189-192), and is called from `stop() noexcept`: with sinks of two types registered (say `DataSink<float>` and `DataSetSink<float>`) stopping one ends the program (`stop_terminates`). The code checks the result against null, which is what the other form of `any_cast` gives.
- C90: `unregisterSink` erases the name of the sink from the map whether or not the sink is registered (DataSink.hpp:193), so a sink refused or stopped before takes the name of another away (`refused_takes_name`, `stopped_again_takes_name`). After a refused rename the old name stays in the map and leads to a sink that may be gone (`refused_rename_stays`). A sink that is destroyed without having been stopped also stays in the map.
- C90: after a stop or a refusal a sink is not registered again by a new name (DataSink.hpp:531-536, `not_registered_again`), nor by starting it again.
- C91: `config.offset` is used for files, bytes in memory and gzip sources only (FileIo.hpp:230, 577, 622): a plain HTTP source is delivered from its start (`http_offset_ignored`).
- C91: a gzip source read with `chunkBytes` above the largest size of a vector (but not the value for "all") makes `codecBuffer.resize` throw on the pool's thread, where the exception is swallowed (thread_pool.hpp:485, 556): no final message is ever published and `get` and `wait` block for ever (`gzip_huge_chunk`).
- C92: `requiredMemoryReadSlots` (FileIo.hpp:1018-1027) counts neither that pieces are rounded down to the alignment, nor the last piece shorter than it, nor the shorter first piece of a gzip source with an offset; the call then blocks for ever instead of returning an error (`memory_blocks_align`, `memory_blocks_tail`, `memory_blocks_gzip`).
- C94: `out.max_buffer_size()` is the port's `max_samples`, by default the largest number, so the size of pieces is 2^64 - sizeof(T): a file is a single message. If it holds more samples than the output buffer, `processBulk` returns INSUFFICIENT_OUTPUT_ITEMS for ever (`source_too_large`); a compressed file of samples of more than one byte is never read at all (`source_gzip_waits`). Tests read 1024 samples, uncompressed.
- C95: with `max_bytes_per_file` no multiple of the sample size, the sink writes the beginning of a sample at the end of a file and the whole sample again in the next (`sink_partial_sample`); with a bound below the sample size it consumes nothing and makes a new file in every call (`sink_never`).
- C95: in mode `append` the bound has no effect (`sink_append_bound`), in mode `overwrite` it makes the sink overwrite its own output (`sink_overwrite_bound`), and changing any setting of a running sink truncates it (`sink_settings_lose`).
- C95: the counter in the names of files is not padded, and the source sorts names as strings: files 10 and 2 of the same millisecond are read in the wrong order (`names_out_of_order`). `getSortedFilesContaining` looks for the name in the whole path, so a directory whose name contains it makes all its files match. (not modelled)
- C96: `publishMessage` waits for a slot without looking at the flag, and `BasicFileSource` drops a reader right after cancelling it: with more than 1024 pieces left its worker blocks for ever and a thread of the I/O pool is lost (`cancel_no_final`), against "A final message will always be published" (FileIo.hpp:262).
- C97: `out.max_buffer_size()` is the largest number by default, so a local file is one message, and `kMaxHeaderBytes` is compared with all bytes received (WavBlocks.hpp:309): every WAV file larger than 1 MB is refused as one with too large a header (`large_file_refused`).
- C97: the offset is taken from the bytes that came with the header only (WavBlocks.hpp:338-343); if the offset reaches further, the next pieces are played from their start, and as many samples are missing at the end (`offset_lost`); what is left of it is dropped later from the middle of the data when the output is full.
- C97: in mode `multi` without a matching file `processBulk` returns OK without output for ever (`no_files_waits`); with `repeat` and an offset beyond the data, too.
- C99: with `max_bytes_per_file` no multiple of the sample size `remaining` is 0 while the file is not full (WavBlocks.hpp:668, 687): the sink takes nothing and returns OK for ever (`sink_stuck`). Sizes are written on `stop` only: a file of a process that ends before has size 0 and is read as empty. A sink without a call leaves an empty file (`sink_no_call`).
- C100: the bound of a file is not rounded to frames (`frame_cut_refused`); channels and frame size wrap at 16 bits (`channels_refused`); the counter in names is not padded (`file_order`); float samples beyond full scale are cut by the source only.
- C101: the regression methods need a sample at or below the lower threshold before a rising edge (SchmittTrigger.hpp:177, 236); the history is filled with zeros, so with the default thresholds the first edge of a signal that starts at 0 is not reported (`not_zone_edges`), while the other methods report it.
- C101: `lastEdgeIdx` is an `int32_t` that is decremented with every sample after an edge: signed overflow after 2^31 quiet samples (`not_always_defined`). The regression line through the accumulated samples can be level, and the resulting infinity is cast to `int32_t` (`level_regression`).
- C103: an interpolated edge may lie before the sample that completes it. If that place is before the samples of the call, the edge is dropped (Trigger.hpp:146) although 32 samples are held back for look-ahead (`not_calls_do_not_matter`); if it is not, only the samples up to it are consumed, so the detector sees the following ones twice, and the clock advances twice (`counted_twice`).
- C103: `_now - static_cast<uint64_t>(relOffset)` casts the negative distance of the edge (`time_undefined`); on common hardware the time moves the wrong way.
- C104: the block's member is `_trigger{0, 1}`, but the parameters of the constructor are `(threshold, offset)`; `settingsChanged` repairs this only if one of the two settings was given by the user (`not_default_thresholds`).
- C104: `_period = 1e6 / sample_rate` counts microseconds, `_now` and `trigger_time` are nanoseconds (`not_nanoseconds`); above 1 MHz the period is 0 (`clock_stands`).
- C105, C107: `gemm` and `gemv` return at once if an operand is empty (TensorMath.hpp:1010, 1044), so with an inner extent of 0 the result is not scaled by beta (with beta = 0 it keeps its old content), and shapes that do not fit go unnoticed (`gemm_empty_wrong`, `gemm_empty_unchecked`, `gemv_empty_wrong`).
- C106: the contiguity check of `gemm` (gemm_simd.hpp:222) looks at A and B before they are transposed. The kernels take `&B[k, 0]` of the transposed view and read the row from there one element after the other, while its elements are `stride` apart: A Bᵀ is wrong unless B has one row or one column (`gemm_transB_wrong`). The tests only look at shapes and finiteness.
- C106: `ConjTrans` is treated as `Trans` (gemm_simd.hpp:229-234; `conj_wrong`).
- C107: `gemv` does not ask whether A is contiguous; `gemv(y, A.transpose(), x)` gives wrong numbers (`gemv_strided_wrong`).
- Not modelled: the scalar branch of `helper::gemv::fma` (gemv_simd.hpp:34) calls itself for floating-point types; no kernel uses it with scalars.
- C108: `insert` creates the alias entry with `operator[]` before it asks `insert_or_assign` whether it is new (BlockRegistry.hpp:98-100), so a new alias is never reported (`new_alias_not_reported`). One alias for two types makes the saved name of the first create the second (`saved_name_clash`); `merge` keeps the entry that is there and can cause this too.
- C109: `isBlockAvailable` (PluginLoader.hpp:699) does not look at definitions although `instantiate` and `availableBlocks` do (`defined_not_available`). A definition that contains itself, or a circle of them, recurses without end in a `noexcept` function (`self_definition_endless`).
- C110: a file is noted as loaded before it is opened (PluginLoader.hpp:466), so asking again for one that failed reports success (`failed_then_success`). Not modelled: `loadNext` of the sequential variant holds a `shared_ptr` to itself (PluginLoader.hpp:538) and is never freed.
- C111: the cache file is written in place without a check of the result (PluginLoader.hpp:201-203); after a crash or on a full disk the rest of it counts as up to date, for its time is recent (`crash_truncates`, `full_disk_truncates`). Times in the index are whole seconds, file times are finer (`rounded_time_stale`).
- C112/C113: a forced turn at position 0 of a ramp puts the position at the end of the opposite one. `processOne` then gives a sample of the wrong level before it goes on, 1, 0, 1 in the middle of a burst (`forced_jump`), while `applyTaper` goes on at once (`block_differs`).
- C114: with a ramp of one sample the rise is the shape at 0 and the fall the shape at 1 (`edge_single`), so the burst is a sample late at both ends and fall is not the reverse of rise. Not modelled: `Tukey` with a parameter above 2 does not reach 1 at the end of the edge.
- C115: with `do_zero_order_hold` and no `tag_values` the last of an empty vector is read (ClockSource.hpp:146; `nothing_to_hold`).
- C116: the distance to the next tag is an unsigned difference (ClockSource.hpp:132). A tag that is passed, because two are at sample 0, three are at one sample, or one by time is at the same sample, is never published and blocks all later ones (`passed_blocks`). The sequence repeats for `repeat_period >= last tag_time` where the documentation says greater (line 120), so the default of 0 with a tag at time 0 publishes it at every sample (`zero_period_repeats`); the period is cut to microseconds (line 121).
- C117: the time of a chunk is cut to clock ticks (BlockingSync.hpp:174-175), so the rate is slightly high: 16 ppm at 48 kHz with chunks of one sample (`rate_drifts`). With `dropIfBehind` the time since the last sample is dropped even when nothing is late (line 172; `drop_starves`); no block in the repository uses it. The default clock is `system_clock`, which can go back; the negative number of samples is then converted to `size_t` (line 166; `clock_back`).
- C118: the timer ends by itself when the block is not active or the rate is 0, and leaves `timerRunning` set, so after an error and reset start does not launch it again (`not_started_again`). Not modelled: the timer writes `_blockingSync_lastUpdateTime` (line 287) while `processBulk` may read it, a data race.
- C120: `droppedBefore` counts every record that has left the store, also those a drain has already handed out (`drained_counts_as_lost`).
- C121: a record put into the ring while another thread is about to finish its flush stays there until some later call (`publish_may_strand`). A flush that finds the console busy skips the record and still consumes it, so it is never written (`console_may_lose`).
- C122: `failure` is more severe than `error` in the order of the enumeration but is written to stdout (`line_stream`).
- C123: a request for no bytes gets the next free address without alignment (MemoryAllocators.hpp:387-389; `arena_empty_unaligned`).
- C124: `CountingResource` counts before the upstream allocates, so a refused request is counted as live (lines 348-350). `Aligned::allocate` multiplies without an overflow check (line 48; `aligned_request_overflows`). `migrate` returns a null pointer for a count of 0 and does not free the block (lines 207-209; `migrate_leaks_empty`).
- C125: `ScopedDefaultResource` swaps a variable shared by all threads; scopes of two threads that overlap leave the resource of the one that began first in force (lines 330-331; `default_scope_may_stick`).
- C126: `runWriteLocalFile` does not look at the stream after `close()`, so bytes still in its buffer can be lost while success is reported (FileIo.hpp:1341-1342; `done_not_written`). Overwriting truncates before the data are written (`failed_overwrite_loses`). A cancellation seen after the write turns success into "cancelled by user" (1175-1177; `cancelled_write`). With automatic compression a `.gz` name is decoded on reading but not encoded on writing, as the comment at line 157 says; data written and read back with one configuration then fail to decode (`gz_name_one_way`).
- C127: `Writer::wait` tests `done` (FileIo.hpp:1235) before it loads the counter (1238). If `setResult` runs in between, the thread waits for a change that never comes (`wait_may_hang`), and so does the blocking `write()`. `Reader::wait` loads the counter first and has no such gap (`reader_wait_ends`).
- C128: a line without a star is taken as valid (NMEAParser.hpp:125-127), so damage to the star disables the test (`wrong_star_accepted`). `from_chars` may stop after one digit and its end is not looked at (line 133; `half_checksum_accepted`).
- C129: `parseNmeaCoord` returns 0 for a value without a decimal point (lines 64-67) while the fix is marked as having a position (`coord_without_point`). The century is always 20 (line 94), also for the date 191194 in the header's own example.
- C130: a valid RMC line without a date goes into the year 2000 (lines 94, 238), although the parser keeps the last date (`dateless_fix`). Only the seconds field separates fixes (lines 203-211), so lines one minute apart are merged into one fix (`minute_gap_merges`).
- C132: `GaussianNoise::fill` starts without the leftover of the chunk before and overwrites it (GaussianNoise.hpp:59, 82-83), so `fill` of one sample twice is not `fill` of two (`odd_chunks_differ`); with `fillComplex` the leftover is dropped too (`leftover_differs`).
- C134, C135: `settingsChanged` of the signal generator calls `configure` only (SignalGenerator.hpp:66). `configure` sets the phasor back but keeps the time (ToneGenerator.hpp:41-52), so FastSin and Sin, documented as the same function of t, differ after any change of a setting (`change_separates`, `change_resets_fast_tone`). Noise is seeded anew (SignalGeneratorCore.hpp:86), so the same numbers come again after a change of, say, the chunk size (`change_restarts_noise`).
- C136: when a block asks to stop from `processOne`, `finaliseIO` publishes the samples but sets `processedIn` to zero (Block.hpp:1997-2002), so what a head block passes in its last call stays in the input and is passed again after a reset and restart (`head_passes_twice`). A counting source is documented to start from the default value and starts one above (NullSources.hpp:99, 114-120). A counting sink adds in 32 bits (NullSources.hpp:223), so near the end of the range the limit is missed (`sink_overshoots`); a limit lowered below the count underflows in 224 and the whole chunk is discarded (`sink_lowered_limit`).
- C137: samples of type `uint16_t` are multiplied as `int`; products above its range are undefined (`mul_u16_undefined`). The number of inputs is 0 until set, and `ins[0]` is then undefined (Math.hpp:90, 102).
- C138: `Abs` of an unsigned type converts to the signed type first (ConverterBlocks.hpp:75-76), so 200 becomes 56 (`abs_unsigned_high`). `ScalingConvert` multiplies in the input type in its vector form and in `int` in its scalar form (54, 56), with different results (`scale_differs`).
- C140: `settingsChanged` recomputes the increment only when the frequency shift is set (Rotator.hpp:41-48). A new sample rate alone, for example from a tag, leaves it stale (`rotator_rate_stale`). Only one turn is taken off per sample (54-58), so the phase grows without bound for larger increments (`rotator_grows`). Any change of settings restarts the phase (`rotator_set_restarts`).
- C141: chunks which arrive with no time since the last one drop their samples from the estimate, so that pairs of chunks halve it (`burst_halves_rate`); `ppm_initial` does not show until there are two observations (`initial_ppm_not_shown`).
- C142: the inserted frame, interpolated between the last two, is appended after the last one, so that a rising signal falls there (SampleRateEstimator.hpp:165-169, `insertion_out_of_order`); drift beyond two frames per call is lost (`large_drift_lost`).
- C143: at a source which is too fast the linear and cubic modes insert a frame while adaptive resampling removes one (line 287, `modes_disagree`); adaptive resampling rounds in each call and never uses `resamplerPhase`, so small drifts are never corrected (`adaptive_drifts_away`).
- C144: the default round-off time of 0 makes every sample of a rounded ramp no number, and so does one of half the duration for the second half (`parabolic_undefined`); so is the first sample of a ramp of no duration (`no_duration`).
- C145: a wrong trigger sets a running tone back to its phase, as `configureGeneratorsFromSettings` is called in any case (FunctionGenerator.hpp:222, `wrong_trigger_restarts_tone`); it also keeps a new sample rate (`wrong_trigger`). A change of type without a trigger name is taken although a trigger is required, without starting at its beginning (`missing_trigger`).
- C146: an uncertain value times a negative plain number has a negative uncertainty (UncertainValue.hpp:205-208), unlike the quotient, which takes the magnitude (`negative_factor`); unary plus takes the absolute value (`plus_is_abs`); powers of zero lose their uncertainty, even the first, and negative powers of zero are zero (`pow_of_zero`); the product of complex values combines real parts with real parts only, so the uncertainty is in the wrong part (`cmul_wrong_part`).
- C147: `applyMedian` takes windows of even width, whose windows have one value more than the buffer they are copied to (DataSetMath.hpp:216, 223), so it writes past the end (`median_even_undefined`).
- C148: `getValue` reads past the end of the values if the axis has more points (`interp_short`).
- C149: `mathFunction` of two data sets keeps meta data and events of all signals of the first while the result has one, so it fails `checkConsistency` (`combine_two_inconsistent`); `IDENTITY` with a second data set adds it (`identity_adds`), and the root of zero is no number.
- C150: the batch filter never uses the configured value: with the default policy it replicates the ends (SavitzkyGolay.hpp:84, `default_value_ignored`), while the streaming filter starts with that value, so the two disagree (`default_disagrees`).
- C151: for windows of even length `delay()` is one sample too short (SavitzkyGolay.hpp:251): the polynomial is evaluated at sample (W-1)/2 of the window counted from the oldest, which is W/2 samples ago (`delay_even_short`).
- C152: the settings `high_pass` and `low_pass` are not in `GR_MAKE_REFLECTABLE` (PowerEstimators.hpp:51), so they cannot be set by their names; averages of squares may fall below zero with a filter that rings, and their roots are no numbers, which `std::max(…, 0)` passes on (`ringing_filter`, `negative_average`).
- C154: `getMinimum` sets the place for every finite sample, not only for a smaller one (DataSetEstimators.hpp:138-141): the place reported is that of the last finite sample (`minimum_place_wrong`). `getRms` is the standard deviation, not the root of the mean square (`rms_is_deviation`). Values equal to the least number of the type are not found by `getMaximum` (`maximum_of_lowest`).
- C155: two ranges that touch lose the trapezoid between them (`integral_halves_lose`); the sign for reversed ranges is dead code, since reversed ranges are refused before (DataSetEstimators.hpp:237-240).
- C156: the scan to the left of a peak has no lower end (DataSetEstimators.hpp:68-70): if no sample left of the peak is down to half, the counter wraps and the read is outside the data (`fwhm_no_left`). `getZeroCrossing` judges the side at the start by sample 0 instead of the begin of the range (line 435, `crossing_wrong_side`), and without a crossing returns the value of the last sample where a place is expected (line 466, `crossing_absent_value`).
- C157: `detectStepStart` calls every step rising whose first sample is not the greatest (DataSetEstimators.hpp:516): with one noisy sample a falling step is reported as a rise at that sample (`step_falling_noise`). The loop of `getSettingTime` that should enlarge the window (lines 585-591) compares the first window with itself and always stops at once, so the level is that of the first window (`window_never_grows`). Any quiet window counts as settled, even before the step (`settled_before_step`).
- C159: what follows the device number is ignored, so "gpu:cuda:1x" and "gpu:cuda:1:2" are device 1 (`parse_device`); `bind()` hands out host memory without notice if nobody provides for the backend, but lets the exception of a provider through (`bind_spec`).
- C160: `HannExp` is sin² of the full angle 2πi/(n-1), so it has two humps and is 0 in the middle (`middle`), where a Hann window written as a squared sine has half that angle; the exponential window rises from 1 towards e^(1/3) instead of falling off (`exponential_rises`); the flat top window is not scaled to 1 (`middle`); a window of one sample is not a number for every kind made of cosines (`numbers`), while Kaiser refuses it; the comment for Hamming says 0.54 and 0.46, the code has 0.53836 and 0.46164.
- C161: `validate_and_set` converts the value to the type of the limits, checks the result and stores the value itself: the sample rate of SettingsChangeRecorder (a float with limits of type int64) takes -0.5 as not negative, and not-a-number or values from 2^63 on are undefined behaviour (`checked_after_conversion`). Limits with equal ends check nothing (`pinned_not_pinned`). Default values are not checked either: `n_inputs` in Math.hpp:90 and `n_ports` in SyncBlock.hpp:127 start at 0 with limits 1 to 32.
- C162: `PortMetaInfo::update` is not atomic: entries of the right type stay although an error is returned, and only the last error is reported; `get()` lists `data_type` and `name`, which `update` ignores as they are not among the default tags, so a port made from `get()` loses both (`findings`). If a tag has a name with and without the prefix, the order of the map decides (`update_read`).
- C163: for complex input of odd size the magnitudes and phases are one bin off the axis: the list is turned by n/2 rounded down, where frequency 0 would need n/2 rounded up (`complex_magnitude`, `findings`). The real and imaginary parts of complex input are in the order of the transform although the axis starts at minus half the rate (`complex_parts`). For real input they are those of the last n/2 bins, the negative frequencies, with the Nyquist bin at 0 Hz, while magnitude and phase come from the first n/2 (`real_parts`). Phases are unwrapped before they are moved, so a step of more than half a turn may remain at the join (`findings`). The factor 2/N is applied to frequency 0 and to complex input as well, which doubles them (`constant_doubled`). One real sample leaves half a spectrum of no bins, whose minimum is then read (`findings`).
- C164: `abs` and `operator/` of `gr::complex` form the plain sum of squares, which is infinite (or 0) for numbers beyond the root of the greatest (or smallest) value of the type: `abs` is then infinite and a quotient 0 or NaN although the true result is finite, unlike `std::complex` (`overflow`).
- C163: the unit of the phase is given as "rad" also when the values are in degrees (fft.hpp:199; not part of the model).
- C165: `findAs` casts without a check; two types with the same `kId` make it yield an object of the wrong type (`findAs_unsafe`), as its comment says.
- C166: a pulse for which the output has no room is dropped without a trace, as the number only grows with published pulses (`lost`). A hardware pulse that arrives just before a full second of the system clock is given the second before, with an offset of nearly one second, as the time is rounded down (`findings`). On TAI two pulses have the same UTC time when the offset grows (`findings`). In clock mode a rate that is not a whole number is rounded down (`findings`).
- C167: tags 1, 3, 5 with `repeat_tags` come at 1, 3, 5, 7, 9, 11, while the comment of the setting says 1, 3, 5, 6, 8, 10. With `mark_tag` a bulk call writes its first sample only; the others keep what the buffer had. Without it bulk calls count from 0 and single samples from 1 (`findings`).
- C168: `start` of `TagSink` and `TagMonitor` empties the logs but keeps the counter of samples: after a restart tags are logged under numbers that go on from the run before, and a sink with `n_samples_expected` is done after its first call (`findings`). With `log_tags` off, the callback of a monitor is called in bulk processing only and that of a sink never (`findings`).
- C169: a map with a value that is not equal to itself (NaN) is equal to itself and to maps that share its memory, but not to a copy with the same content (`copy_unequal`).
- C171: a path with a drive (`C:/data`) and a local path with `:/` in it are not supported. `file:a.bin` is taken for a local path with the scheme in its name. `file://LOCALHOST/…` is refused, as the host is compared in small letters. Encoded characters (`%20`) of a file URI stay encoded (all in `findings`).
- C172: `HttpSink::processBulk` returns `OK` without consuming while its request is under way. The framework consumes all input then, as no number was asked for (Block.hpp:1037-1058): those bytes are lost without a report (`busy_lost`, `not_all_sent`). The test of the block looks at the first request only.
- C173: the loop for large numbers runs while `exponent < si_prefixes.size()`, one step too far: for numbers from 10^33 on `si_prefixes[21]` is read, outside of the table (`large_outside`). A negative number is below 1 in every step and gets the smallest prefix: -5 is shown as -5000000000000000000000000000000 q (`negative_smallest`).

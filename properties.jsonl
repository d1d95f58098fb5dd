{"id": "C01", "title": "Single-producer stream buffer delivers every sample once and in order", "statement": "Every sample a single producer publishes into a CircularBuffer is seen by every attached reader exactly once, in publication order and unmodified, however the producer's reserve/publish steps interleave with the readers' get/consume steps.", "quantifier": "all buffer sizes >= 1, all numbers of readers, all payloads, all interleavings of writer steps and reader steps, all reserve/publish/get/consume amounts", "why_tests_cant": "interleavings, sizes and wrap-around positions are unbounded; a test only samples a few schedules", "anchors": ["core/include/gnuradio-4.0/CircularBuffer.hpp: Writer::tryReserve, WriterSpan::publish, Reader::get, ReaderSpan::consume", "core/include/gnuradio-4.0/ClaimStrategy.hpp: SingleProducerStrategy"]}
{"id": "C02", "title": "The writer never overwrites data a reader has not released", "statement": "At no time does the set of slots reserved by the writer overlap a slot that holds a published sample some attached reader has not consumed yet; in particular published-but-unread plus reserved samples never exceed the buffer size.", "quantifier": "all sizes, all reader sets attached from the start, all operation histories", "why_tests_cant": "needs an invariant over every history; overlap shows up only at particular wrap-around positions", "anchors": ["core/include/gnuradio-4.0/ClaimStrategy.hpp: SingleProducerStrategy::tryNext/next/getRemainingCapacity/getMinReaderCursor", "core/include/gnuradio-4.0/CircularBuffer.hpp: Writer::available"]}
{"id": "C03", "title": "Multi-producer claims are disjoint and become visible without gaps", "statement": "With several concurrent producers no two producers are ever handed overlapping slots, and the position readers may read up to only advances over slots whose producers have completed publishing; when all claims are published everything claimed is visible.", "quantifier": "all numbers of producers, all claim sizes, all interleavings of the atomic steps of claim and publish", "why_tests_cant": "the number of interleavings of compare-and-swap loops is unbounded", "anchors": ["core/include/gnuradio-4.0/ClaimStrategy.hpp: MultiProducerStrategy::tryNext/next/publish"]}
{"id": "C04", "title": "Contiguous views across the wrap-around point agree with the ring", "statement": "A span handed out by the non-mmap buffer (which keeps a second copy of the storage) reads, at every offset, the sample last published for that logical position, also when the span crosses the end of the storage.", "quantifier": "all sizes, all start indices, all span lengths up to the size, all write histories", "why_tests_cant": "the mirrored copies are maintained by index arithmetic whose corner cases are at arbitrary sizes and offsets", "anchors": ["core/include/gnuradio-4.0/CircularBuffer.hpp: WriterSpan::~WriterSpan (mirror copy), Reader::get, Writer::tryReserve"]}
{"id": "C05", "title": "Unpublished reservations are returned without leaving a gap", "statement": "When a producer reserves n samples and publishes k <= n of them, exactly the first k become visible to readers and the other n-k slots are free for the next reservation; with policy ProcessAll all n are published and with ProcessNone none.", "quantifier": "all n, k, all span release policies, all histories", "why_tests_cant": "requires reasoning about cursor arithmetic for every n, k and every position", "anchors": ["core/include/gnuradio-4.0/CircularBuffer.hpp: WriterSpan::publish, ~WriterSpan", "core/include/gnuradio-4.0/ClaimStrategy.hpp: SingleProducerStrategy::publish"]}
{"id": "C06", "title": "A reader can never run past published data", "statement": "Consuming through a reader span moves the reader by exactly the requested amount, at most to the producer's published position, at most once per span; any other request is rejected and has no effect.", "quantifier": "all readers, all consume requests, all histories of get/consume/publish", "why_tests_cant": "a violation needs a particular combination of nested spans, partial consumes and publishes", "anchors": ["core/include/gnuradio-4.0/CircularBuffer.hpp: ReaderSpan::consume/tryConsume/performConsume, ~ReaderSpan"]}
{"id": "C07", "title": "Free-space reports of the buffer are truthful", "statement": "Writer::available() never exceeds the buffer size and, whenever it reports at least n, a tryReserve(n) by the single producer succeeds; this holds in every history including readers being created and destroyed.", "quantifier": "all sizes, all histories including reader creation and destruction", "why_tests_cant": "depends on the history of reader positions, which unit tests keep short", "anchors": ["core/include/gnuradio-4.0/ClaimStrategy.hpp: getRemainingCapacity, getMinReaderCursor", "core/include/gnuradio-4.0/Sequence.hpp: getMinimumSequence, addSequences, removeSequence"]}
{"id": "C08", "title": "HistoryBuffer keeps exactly the most recent samples", "statement": "After any sequence of push_front/push_back/pop_front/pop_back/resize/reset calls, element i of a HistoryBuffer is the element i of the plain list obtained by performing the same operations on a list bounded by the capacity; size and capacity agree as well.", "quantifier": "all element types, capacities, fixed and dynamic variants, all operation sequences", "why_tests_cant": "index masking and wrap-around make the behaviour depend on the whole history", "anchors": ["core/include/gnuradio-4.0/HistoryBuffer.hpp: HistoryBuffer"]}
{"id": "C09", "title": "HistoryBuffer's contiguous view equals its indexed view", "statement": "The contiguous span and the iterator range of a HistoryBuffer always show the same elements in the same order as operator[], after any operation sequence performed through the modifying member functions.", "quantifier": "all capacities and operation sequences", "why_tests_cant": "the second half of the storage is refreshed lazily, a stale slot is only visible for particular histories", "anchors": ["core/include/gnuradio-4.0/HistoryBuffer.hpp: get_span, begin/end, syncMirror, map_index"]}
{"id": "C10", "title": "Blocks only ever make documented life-cycle transitions", "statement": "Whatever sequence of state-change requests is issued and whichever user hooks throw, a block's observable state only changes along the documented transition graph or to ERROR after a throwing hook; a rejected request changes neither the state nor runs a hook.", "quantifier": "all request sequences, all hook outcomes", "why_tests_cant": "sequences are unbounded and hooks can fail at any point", "anchors": ["core/include/gnuradio-4.0/LifeCycle.hpp: isValidTransition, StateMachine::changeStateTo, invokeLifecycleMethod"]}
{"id": "C11", "title": "A block is initialised before every start and stopped at most once per start", "statement": "In every history the start hook runs only after the init or reset hook has succeeded since the block was last idle or stopped, and pause/resume/stop hooks run only on a block that has been started.", "quantifier": "all request sequences, all hook outcomes", "why_tests_cant": "ordering over unbounded request sequences", "anchors": ["core/include/gnuradio-4.0/LifeCycle.hpp: StateMachine::changeStateTo"]}
{"id": "C12", "title": "Every CRC code path computes the defining polynomial CRC", "statement": "For each supported flavour the scalar table path, the slice-by-eight path and the SIMD path return the same value as the bit-by-bit polynomial definition with that flavour's initial value and final xor.", "quantifier": "all byte sequences of every length, all three flavours", "why_tests_cant": "input space is unbounded; table and slicing errors can hide at particular lengths", "anchors": ["core/include/gnuradio-4.0/CRC.hpp: computeTables, step, advance8, updateScalar, updateSimd, compute, computeScalar"]}
{"id": "C13", "title": "CRC can be computed incrementally over any chunking", "statement": "Feeding the data in arbitrary consecutive chunks through the update function yields the same CRC as one call on the whole data.", "quantifier": "all byte sequences and all ways of splitting them", "why_tests_cant": "unbounded number of splits, interacts with the 8-byte fast path", "anchors": ["core/include/gnuradio-4.0/CRC.hpp: updateScalar, updateSimd"]}
{"id": "C14", "title": "CRC detects every short corruption burst", "statement": "Changing a message only within a window of at most 4 consecutive bytes (2 for the 16-bit flavour) always changes its CRC.", "quantifier": "all messages, all positions, all non-trivial changes of up to 32 (16) bits", "why_tests_cant": "cannot be enumerated; it is an algebraic property", "anchors": ["core/include/gnuradio-4.0/CRC.hpp: compute"]}
{"id": "C15", "title": "Wire stream round trip", "statement": "Writing any list of payloads (each shorter than 2^32 bytes) with WireStreamWriter and reading the bytes back yields the same payloads in the same order and then a clean end of stream.", "quantifier": "all lists of payloads", "why_tests_cant": "unbounded number and size of payloads", "anchors": ["core/include/gnuradio-4.0/WireStream.hpp: writeFrame, WireStreamReader::begin/next"]}
{"id": "C16", "title": "Reading an arbitrary byte string as a wire stream is safe", "statement": "Reading any byte string terminates, never reads outside the string, and every frame returned passed the sequence and checksum checks.", "quantifier": "all byte strings", "why_tests_cant": "fuzzing samples; the claim is about every byte string", "anchors": ["core/include/gnuradio-4.0/WireStream.hpp: WireStreamReader::next"]}
{"id": "C17", "title": "Damaged wire streams are detected, never silently altered", "statement": "If a stream is cut short, the reader returns a prefix of the written payloads and then reports truncation (or the end when cut at a frame boundary); if at most 4 consecutive payload bytes of a frame are altered that frame is reported as corrupt.", "quantifier": "all streams, all cut points, all corruption positions", "why_tests_cant": "all crash points and all corruptions", "anchors": ["core/include/gnuradio-4.0/WireStream.hpp: WireStreamReader::next, writeFrame", "core/include/gnuradio-4.0/CRC.hpp"]}
{"id": "C18", "title": "Value header and annotation encodings round-trip and reject malformed input", "statement": "The 8-byte wire header and the quantity/unit/description annotation read back exactly what was written, over-long annotations are refused rather than truncated, and decoding arbitrary bytes never reads out of bounds.", "quantifier": "all field values and strings, all byte strings for decoding", "why_tests_cant": "boundary lengths (255/256, 65535/65536) and arbitrary bytes", "anchors": ["core/include/gnuradio-4.0/WireFormat.hpp: writeHeaderSized, writeAnnotation, readAnnotation"]}
{"id": "C19", "title": "Compression round trip", "statement": "Decompressing the result of compressing any byte string yields that byte string, for every container format and every compression level.", "quantifier": "all byte strings, all formats (raw deflate, zlib, gzip), all levels", "why_tests_cant": "input space unbounded; Huffman length limiting, lazy matching and run-length coding have data-dependent corner cases", "anchors": ["core/include/gnuradio-4.0/Compression.hpp: compress, decompress, tokenize, makeCodeLengths, makeCanonicalCodes, encodeCodeLengths, decodeDeflate"]}
{"id": "C20", "title": "Compression never exceeds its announced bound", "statement": "The compressed size never exceeds compressBound() of the input size and format, so compressing into a buffer of that size never fails for lack of space.", "quantifier": "all byte strings, formats and levels", "why_tests_cant": "worst-case inputs cannot be enumerated", "anchors": ["core/include/gnuradio-4.0/Compression.hpp: compressBound, selectEncoding, emitWrapped"]}
{"id": "C21", "title": "Decompressing arbitrary bytes is safe and respects the output limit", "statement": "On any byte string and any output capacity the decompressor terminates, writes at most the given capacity, never copies from before the start of its output and reports an error otherwise.", "quantifier": "all byte strings, formats and output capacities", "why_tests_cant": "hostile inputs are unbounded", "anchors": ["core/include/gnuradio-4.0/Compression.hpp: decompress, decodeCompressedBlock, decodeDynamicBlock, SpanOutput"]}
{"id": "C22", "title": "Size query, checksum and output agree", "statement": "When decompression into a buffer succeeds, decompressedSize() of the same input succeeds with the same size; output accepted from a zlib or gzip container has the Adler-32 or CRC-32 and length recorded in the container.", "quantifier": "all byte strings, formats, capacities", "why_tests_cant": "must hold for every accepted input", "anchors": ["core/include/gnuradio-4.0/Compression.hpp: decompressedSize, decodeZlib, decodeGzip, CountingOutput, SpanOutput"]}
{"id": "C23", "title": "Adler-32 with deferred reduction equals its definition", "statement": "The checksum computed with reductions deferred over runs equals the RFC 1950 definition without any 32-bit overflow, for every input and every chunking.", "quantifier": "all byte sequences, all chunkings", "why_tests_cant": "overflow would only appear on long inputs with particular bytes", "anchors": ["core/include/gnuradio-4.0/Compression.hpp: updateAdler, adler32"]}
{"id": "C24", "title": "Streaming decompression is independent of how input and output are chunked", "statement": "Feeding a compressed stream in arbitrary pieces and draining into arbitrary output pieces produces the same bytes as one call with everything.", "quantifier": "all streams, all chunkings of input and output", "why_tests_cant": "unbounded number of chunkings", "anchors": ["core/include/gnuradio-4.0/Compression.hpp: StreamDecompressor::process, StreamInflate::process, StreamBitReader, StreamOutput"]}
{"id": "C25", "title": "Chunk pool accounting", "statement": "A ChunkPool never has more than the configured number of chunks resident, never hands out a chunk that is already in use, and every chunk is at any time either in use, free in the pool or returned upstream.", "quantifier": "all histories of acquire/release/oversized/reclaim operations", "why_tests_cant": "histories are unbounded", "anchors": ["core/include/gnuradio-4.0/ChunkPool.hpp: ChunkPool"]}
{"id": "C26", "title": "Serialised tags are not freed while a reader can still see them", "statement": "A chunk of a ChunkBuffer is returned to the pool only after every reader has consumed all items stored in it.", "quantifier": "all histories of writes, reads and house-keeping", "why_tests_cant": "use-after-free depends on the history of chunk switches and reader progress", "anchors": ["core/include/gnuradio-4.0/ChunkBuffer.hpp: sealHead, serialiseBlob, houseKeeping"]}
{"id": "C27", "title": "Atomic bitset range updates change exactly the requested bits", "statement": "Setting or clearing a range [begin, end) changes exactly the bits in the range and no others, for any word alignment, and concurrent updates of disjoint ranges do not lose each other's effect.", "quantifier": "all bitset sizes, all ranges, all interleavings of concurrent updates", "why_tests_cant": "alignment corner cases and interleavings", "anchors": ["core/include/gnuradio-4.0/AtomicBitset.hpp: AtomicBitset::set, test"]}
{"id": "C28", "title": "Reader/writer lock never admits readers and writers together", "statement": "At no time does one thread hold the lock for reading while another holds it for writing.", "quantifier": "all numbers of threads, all interleavings of lock/tryLock/unlock steps", "why_tests_cant": "interleavings", "anchors": ["core/include/gnuradio-4.0/reader_writer_lock.hpp: ReaderWriterLock"]}
{"id": "C29", "title": "Trigger filter decisions follow the documented rules", "statement": "For every trigger expression and every tag sequence the matcher reports Start/Stop/Ignore exactly according to the documented name and context matching rules, including inverted and range expressions.", "quantifier": "all filter expressions, all tag sequences", "why_tests_cant": "decision table over strings and state", "anchors": ["core/include/gnuradio-4.0/TriggerMatcher.hpp: BasicTriggerNameCtxMatcher parse, filter"]}
{"id": "C30", "title": "Resampling keeps the exact chunk ratio and the port limits", "statement": "Each work call consumes and produces k*input_chunk_size and k*output_chunk_size samples for one k, never more than available on any synchronous input or free on any synchronous output, and never fewer than the ports' minimum unless it reports insufficient input or output and processes nothing.", "quantifier": "all chunk sizes, port limits, availabilities and requested work sizes", "why_tests_cant": "five-dimensional integer decision logic with clamps", "anchors": ["core/include/gnuradio-4.0/Block.hpp: Block::computeResampling, getPortLimits"]}
{"id": "C31", "title": "Strided processing starts chunks exactly every stride samples", "statement": "With a stride configured, the k-th processed chunk starts exactly at input sample k*stride, whatever number of samples is available at each work call.", "quantifier": "all strides and chunk sizes, all availability sequences", "why_tests_cant": "the skip counter is carried across calls; histories unbounded", "anchors": ["core/include/gnuradio-4.0/Block.hpp: inputSamplesToSkipBeforeNextChunk, inputSamplesToConsumeAdjustedWithStride, computeSampleLimits"]}
{"id": "C32", "title": "A processed chunk never crosses a tag or the end of stream", "statement": "Unless the port minimum or the chunk size forces it, the samples processed in one work call contain no tag except on the first sample and never extend past an end-of-stream marker.", "quantifier": "all tag positions, limits and availabilities", "why_tests_cant": "integer decision logic over many parameters", "anchors": ["core/include/gnuradio-4.0/Block.hpp: computeSampleLimits, getNextTagAndEosPosition"]}
{"id": "C33", "title": "Vectorised and sample-by-sample processing agree", "statement": "For a stateless per-sample function the SIMD dispatch writes exactly the same outputs as applying the function sample by sample, for every number of samples and SIMD width.", "quantifier": "all sample counts, all widths, all functions", "why_tests_cant": "remainder handling depends on count modulo width", "anchors": ["core/include/gnuradio-4.0/Block.hpp: invokeProcessOneSimd, simd_epilogue, invokeProcessOnePure"]}
{"id": "C34", "title": "Work status and performed-work reports are consistent", "statement": "A work result never reports progress when nothing was consumed or produced, never reports OK for a failed call, and the reported amount is the processed sample count.", "quantifier": "all statuses and counts", "why_tests_cant": "decision table", "anchors": ["core/include/gnuradio-4.0/WorkStatus.hpp: sanitiseProcessStatus, computePerformedWork"]}
{"id": "C35", "title": "Every input tag is forwarded exactly once", "statement": "A tag on a synchronous input appears on every output exactly once per work call at its relative sample position, and identical tags arriving at the same position on several inputs are merged into one.", "quantifier": "all tag sets on all ports", "why_tests_cant": "de-duplication table has a fixed capacity, behaviour depends on the number of tags", "anchors": ["core/include/gnuradio-4.0/Block.hpp: forwardInputTags"]}
{"id": "C36", "title": "Stored settings are looked up by the latest time not after the request", "statement": "Looking up stored settings for a context and time returns the parameters stored with the greatest time stamp not later than the requested time, or nothing if all are later.", "quantifier": "all histories of set/remove calls, all contexts and times", "why_tests_cant": "histories of time stamps unbounded", "anchors": ["core/src/Settings.cpp: findBestMatchSettingsCtx, getBestMatchStoredParameters, addStoredParameters"]}
{"id": "C37", "title": "Duplicate time stamps are disambiguated", "statement": "Storing settings with a time stamp that already exists in the same context results in distinct, ordered entries, the newest of which wins.", "quantifier": "all histories of set calls", "why_tests_cant": "collision patterns unbounded", "anchors": ["core/src/Settings.cpp: resolveDuplicateTimestamp, addStoredParameters"]}
{"id": "C38", "title": "Staged settings are applied completely and exactly once", "statement": "applyStagedParameters applies every staged parameter that passes validation, leaves all others unchanged, empties the staging area, and afterwards the reported active parameters equal the block's fields.", "quantifier": "all staged maps, validators and block states", "why_tests_cant": "maps and validators arbitrary", "anchors": ["core/include/gnuradio-4.0/Settings.hpp: applyStagedParameters, doSetStagedImpl"]}
{"id": "C39", "title": "Tags only update parameters the user has not pinned", "statement": "A tag arriving on an input changes only parameters that have never been set explicitly for the active context; explicitly set parameters are never overwritten by tags.", "quantifier": "all histories of set, activate and tag arrivals", "why_tests_cant": "depends on the history of contexts", "anchors": ["core/include/gnuradio-4.0/Settings.hpp: autoUpdate, set", "core/src/Settings.cpp: activateContext"]}
{"id": "C40", "title": "Expired settings never leave a context without parameters", "statement": "Expiring old stored settings always keeps the set that is in effect now for every context, and never removes a set scheduled for the future.", "quantifier": "all histories, expiry times and clock values", "why_tests_cant": "clock and history dependent", "anchors": ["core/src/Settings.cpp: removeExpiredStoredParameters"]}
{"id": "C41", "title": "Weakly connected components are an exact partition", "statement": "Splitting a graph into components puts every block in exactly one component; two blocks are in the same component exactly when they are connected by edges regardless of direction, every edge ends up in exactly one component, and components come ordered by decreasing size.", "quantifier": "all finite graphs", "why_tests_cant": "graphs unbounded", "anchors": ["core/include/gnuradio-4.0/Graph.hpp: weaklyConnectedComponents"]}
{"id": "C42", "title": "Feedback loops are found exactly when they exist", "statement": "Loop detection reports at least one loop if and only if the graph has a directed cycle, and every reported loop is a closed chain of edges of the graph visiting no block twice.", "quantifier": "all finite graphs", "why_tests_cant": "graphs unbounded", "anchors": ["core/include/gnuradio-4.0/Graph.hpp: detectFeedbackLoops"]}
{"id": "C43", "title": "Graph edits keep edges consistent", "statement": "After any sequence of adding blocks, adding edges, removing blocks and removing edges, no edge refers to a block that is not in the graph and no edge occurs twice.", "quantifier": "all edit sequences", "why_tests_cant": "sequences unbounded", "anchors": ["core/include/gnuradio-4.0/Graph.hpp: addEdge, removeEdge, removeBlockByName, emplaceEdge"]}
{"id": "C44", "title": "Port strings are parsed consistently", "statement": "A port reference name#index resolves to that name and index, a reference without # resolves to the name alone, for every name and index.", "quantifier": "all strings and indices", "why_tests_cant": "strings unbounded", "anchors": ["core/include/gnuradio-4.0/Graph.hpp: detail::parsePort"]}
{"id": "C45", "title": "Loop priming is sufficient and only for rate-stable loops", "statement": "The priming size is computed only for loops whose net resampling ratio is one, and is at least every member's minimum input, chunk size and stride.", "quantifier": "all loops with all ratios, strides and minimum requirements", "why_tests_cant": "unbounded loops", "anchors": ["core/include/gnuradio-4.0/Graph.hpp: calculateLoopPrimingSize"]}
{"id": "C46", "title": "Every block is assigned to exactly one worker", "statement": "Distributing blocks over worker threads assigns every block to exactly one worker and the sizes of the work lists differ by at most one.", "quantifier": "all block counts and worker counts", "why_tests_cant": "unbounded sizes", "anchors": ["core/include/gnuradio-4.0/Scheduler.hpp: Simple::customInit, detail::batchBlocks"]}
{"id": "C47", "title": "Breadth-first and depth-first schedules contain every block exactly once", "statement": "The execution order computed by the breadth-first and depth-first schedulers contains every block of the flattened graph exactly once.", "quantifier": "all finite graphs", "why_tests_cant": "graphs unbounded", "anchors": ["core/include/gnuradio-4.0/Scheduler.hpp: BreadthFirst::customInit, DepthFirst::customInit", "core/include/gnuradio-4.0/Graph.hpp: findSourceBlocks, computeAdjacencyList"]}
{"id": "C48", "title": "No block works while the graph topology is being changed", "statement": "While a work-quiescence guard is held no worker is executing block work or touching ports, and workers resume after it is released.", "quantifier": "all numbers of workers, all interleavings of the atomic steps", "why_tests_cant": "interleavings unbounded", "anchors": ["core/include/gnuradio-4.0/Scheduler.hpp: requestWorkQuiescence, releaseWorkQuiescence, WorkGuard"]}
{"id": "C49", "title": "A traversal of the work list reports done only when all blocks are done", "statement": "One scheduler pass reports DONE exactly when every block reported DONE, reports ERROR as soon as a block reports ERROR, and the amount of performed work is the sum over the blocks that ran.", "quantifier": "all block lists and block results", "why_tests_cant": "unbounded lists", "anchors": ["core/include/gnuradio-4.0/Scheduler.hpp: traverseBlockListOnce"]}
{"id": "C50", "title": "Blocks added or removed at run time are processed by at most one worker", "statement": "Through any sequence of adoptions, removals and zombie clean-ups interleaved with worker cycles, a block is in at most one worker's list at most once, a removed block is never worked on after the removal, and an adopted block is eventually worked on by exactly one worker.", "quantifier": "all numbers of workers, all interleavings", "why_tests_cant": "interleavings unbounded", "anchors": ["core/include/gnuradio-4.0/Scheduler.hpp: adoptBlock, adoptBlocks, removeBlocksWhileRunning, cleanupRemovedBlocks, cleanupZombieBlocks, makeZombie"]}
{"id": "C51", "title": "Concurrent state-change requests stay within the life-cycle diagram", "statement": "Also when several threads request state changes of the same block at the same time, every change of the observable state is a documented transition.", "quantifier": "all numbers of threads, all interleavings of the load and store steps", "why_tests_cant": "needs particular interleavings", "anchors": ["core/include/gnuradio-4.0/LifeCycle.hpp: StateMachine::changeStateTo, setAndNotifyState"]}
{"id": "C52", "title": "Grouping blocks into a sub-graph and dissolving it again restores the topology", "statement": "Grouping a set of blocks into a sub-graph and then ungrouping it gives back the same blocks and the same connections between the same ports with the same buffer size, weight and name; ports of different blocks exported under the same base name never share an exported name.", "quantifier": "all graphs, all selections of blocks, all block and port names", "why_tests_cant": "graphs and selections unbounded", "anchors": ["core/src/Graph.cpp: groupBlocks, ungroupBlocks, definedPortName", "core/include/gnuradio-4.0/Graph.hpp: GraphWrapper::exportPort"]}
{"id": "C53", "title": "Removing stored settings erases exactly the named set", "statement": "Removing a context and time erases exactly one stored set with that name and time and nothing else; the default context cannot be removed, and a refused removal changes nothing.", "quantifier": "all sequences of settings calls, all names and times", "why_tests_cant": "histories unbounded", "anchors": ["core/src/Settings.cpp: removeContext"]}
{"id": "C54", "title": "Activating a context gives the block the stored values", "statement": "After activating a context and applying, the block's members have the values of the stored set that a lookup for the same request returns; when only the time changes, parameters that follow tags keep their value.", "quantifier": "all sequences of settings calls, all requests", "why_tests_cant": "histories unbounded", "anchors": ["core/src/Settings.cpp: activateContext", "core/include/gnuradio-4.0/Settings.hpp: applyStagedParameters"]}
{"id": "C55", "title": "Streaming compression loses nothing, however input and output are cut", "statement": "A streaming compressor that is fed data in pieces of any sizes, with output buffers of any sizes, and then asked to finish, hands out a stream that decompresses to exactly the data it took, with the one-shot and the streaming decompressor; the finishing loop ends, and no call fails except one that offers input to a finished compressor.", "quantifier": "all data of any size, formats, levels, block sizes, all histories of calls with any input and output sizes", "why_tests_cant": "chunkings and histories unbounded; matches reach across blocks and calls", "anchors": ["core/include/gnuradio-4.0/Compression.hpp: StreamCompressor::process, queueDeflateBlock, slideWindow, queueTrailer, drain"]}
{"id": "C56", "title": "A property map is a dictionary in insertion order", "statement": "After any history of emplace, insert_or_assign, erase, clear, reserve and shrink_to_fit, a property map (the packed map of tags, settings and messages) iterates over exactly the entries a dictionary in insertion order would hold, every key looks up to the last value stored for it, a store that reports failure changes nothing and happens only in a fixed buffer, and no access leaves the map's memory.", "quantifier": "all histories of operations with numbers, strings, nested maps, tensors and values of any size, keys of any length, maps with own memory and in fixed buffers", "why_tests_cant": "memory is reused through a free list and moved when it grows: histories unbounded", "anchors": ["core/include/gnuradio-4.0/ValueMap.hpp: emplace, insert_or_assign, erase, clear, reserve, shrink_to_fit, find, _insertNew, _assignValueAt, _grow, _appendValueRecord, _appendPayload, _freeListPush, _freeListPopFit", "core/include/gnuradio-4.0/Value.hpp: accessors"]}
{"id": "C57", "title": "Merging property maps moves exactly the entries that are not there", "statement": "Merging a property map into another moves the entries whose keys the target lacks, in order and with their values, leaves the others in the source, touches no memory outside the maps, and stops early only when the target is a full fixed buffer, which says so; both maps can be used as dictionaries afterwards.", "quantifier": "all pairs of maps that histories of operations leave behind, all further histories", "why_tests_cant": "pairs of histories unbounded; defects show only in what a later operation does", "anchors": ["core/include/gnuradio-4.0/ValueMap.hpp: merge, reserve, _appendPayloadSafe, _ensureEntrySlot"]}
{"id": "C58", "title": "Property maps survive being sent as bytes, and received bytes are never trusted", "statement": "The bytes of any property map, received at an aligned address, become a map with the same entries in the same order that can be used like the original; copies of a map have the same entries; checking received bytes never reads outside them, whatever they are; and a map made of accepted bytes can be read without leaving its memory.", "quantifier": "all maps that histories of operations leave behind; all byte strings and addresses", "why_tests_cant": "histories and byte strings unbounded", "anchors": ["core/include/gnuradio-4.0/ValueMap.hpp: blob, from_blob, _validateBlob, _validateTensorSubBlob, _copyBlobFrom"]}
{"id": "C59", "title": "Every task given to a thread pool runs exactly once", "statement": "A task handed to a thread pool with at least one permanent thread is never called twice and never lost: until a shutdown it is waiting, taken or called, the pool can always get on to call it, and no worker goes to sleep while it waits; after a shutdown every task was either run to its end or not called at all.", "quantifier": "all numbers of submitting threads and workers, all thread bounds, all interleavings including growth, shrinking, time-outs and shutdown", "why_tests_cant": "interleavings unbounded; losing a task needs a rare race", "anchors": ["core/include/gnuradio-4.0/thread/thread_pool.hpp: BasicThreadPool::execute, worker, popTask, createWorkerThread, requestShutdown, TaskQueue"]}
{"id": "C60", "title": "The number of threads of a pool stays within its bounds", "statement": "The number of threads of a pool is at least the minimum and at most the maximum it was given, and is reported correctly.", "quantifier": "all numbers of submitting threads and workers, all interleavings", "why_tests_cant": "interleavings unbounded", "anchors": ["core/include/gnuradio-4.0/thread/thread_pool.hpp: BasicThreadPool::execute, worker, createWorkerThread, numThreads"]}
{"id": "C61", "title": "A thread pool runs the most urgent task first", "statement": "Whenever a worker takes a task, no waiting task has a higher priority, and no waiting task with the same priority was submitted earlier.", "quantifier": "all submissions, priorities and interleavings", "why_tests_cant": "histories unbounded", "anchors": ["core/include/gnuradio-4.0/thread/thread_pool.hpp: TaskQueue::push, TaskQueue::pop, Task"]}
{"id": "C62", "title": "The threads of a CPU-bound pool are spread evenly over the allowed cores", "statement": "With an affinity mask, every allowed core belongs to exactly one of the pool's threads, no other core to any, the numbers of cores of two threads differ by at most one, and the threads of the pool run on their cores.", "quantifier": "all masks, minimum thread numbers and thread numbers", "why_tests_cant": "masks unbounded", "anchors": ["core/include/gnuradio-4.0/thread/thread_pool.hpp: distributeThreadAffinityAcrossCores, updateThreadConstraints, setAffinityMask", "core/include/gnuradio-4.0/thread/thread_affinity.hpp: setThreadAffinity"]}
{"id": "C63", "title": "The default thread pools fit into the thread limit", "statement": "Whatever the number of cores and the thread limit of the system, both default pools get at least one thread and together stay below the limit.", "quantifier": "all core counts and thread limits", "why_tests_cant": "ranges unbounded", "anchors": ["core/include/gnuradio-4.0/thread/thread_pool.hpp: computeDefaultThreadSplit, Manager"]}
{"id": "C64", "title": "The data sets cut out of a stream are those of its triggers", "statement": "The data sets that StreamToDataSet publishes are, in order, those of the ranges between a start trigger and its stop trigger: up to n_pre samples before the start, all samples of the range, n_post samples after it, at most n_max in all, with time zero at the start trigger and every tag at its sample; they do not depend on how the stream is split over calls or on the free space of the output; and they are published as soon as they are complete and there is space.", "quantifier": "all streams with tags, all filter expressions, settings, splittings over calls and output spaces", "why_tests_cant": "streams and splittings unbounded", "anchors": ["blocks/basic/include/gnuradio-4.0/basic/StreamToDataSet.hpp: StreamFilterImpl::processBulkDataSet, AccumulationState, updateHistory, findFirstTriggerTag"]}
{"id": "C65", "title": "A stream filter lets exactly the selected ranges through", "statement": "StreamFilter publishes, for each range between a start and a stop trigger in turn, up to n_pre samples before it, its samples and n_post samples after it, nothing else, with every tag at the first copy of its sample; this does not depend on how the stream is split over calls or on the free space of the output, a call never publishes more than fits, and it always gets on when there is space for more than n_pre samples.", "quantifier": "all streams with tags, filter expressions, settings, splittings over calls and output spaces", "why_tests_cant": "streams, splittings and stalls unbounded", "anchors": ["blocks/basic/include/gnuradio-4.0/basic/StreamToDataSet.hpp: StreamFilterImpl::processBulkStream, AccumulationState, updateHistory, findFirstTriggerTag"]}
{"id": "C66", "title": "A property map saved as YAML loads to itself", "statement": "Loading the YAML text a property map was saved as gives a map equal to it: the same keys, and under each the same value of the same type, for maps, lists and typed lists nested to any depth.", "quantifier": "all property maps: all keys, strings, numbers, lists, sizes and nesting depths", "why_tests_cant": "maps, strings and depths unbounded", "anchors": ["core/include/gnuradio-4.0/YamlPmt.hpp: pmt::yaml::serialize, deserialize, escapeString, serializeString, parseMap, parseList, parseScalar, parseKey, parseTag"]}
{"id": "C67", "title": "Loading YAML text is safe whatever the text is", "statement": "For every text, loading ends, reads nothing outside the text, and gives a map with numbers in the range of their types and every key once, or an error whose position lies in the text.", "quantifier": "all texts", "why_tests_cant": "texts unbounded", "anchors": ["core/include/gnuradio-4.0/YamlPmt.hpp: pmt::yaml::deserialize, ParseContext, parseFlow, parseMap, parseList, parseScalar, peekToFindValueType"]}
{"id": "C68", "title": "A message to a block is answered exactly once", "statement": "A request for a block and one of its standard properties gets exactly one answer, to its sender and with its request number, or none if it is a quiet request that succeeded; the answer to a read carries the value after the requests sent before it; answers come in the order of the requests; messages for other blocks get no answer and have no effect, and only write requests change a block; no answer is lost when the reader of the answers is slow.", "quantifier": "all histories of messages and processing calls, all blocks with any settings and additional properties, all times at which the output is full", "why_tests_cant": "histories unbounded, effect of full buffers at any point", "anchors": ["core/include/gnuradio-4.0/Block.hpp: Block::processMessages, processScheduledMessages, propertyCallback*", "core/include/gnuradio-4.0/Message.hpp: Message, Command"]}
{"id": "C69", "title": "Exactly the subscribers of a property are notified", "statement": "When a property is announced, one notification goes to each client that has subscribed to it and has not cancelled since, however often it subscribed, and none to any other client.", "quantifier": "all histories of messages, processing calls and announcements", "why_tests_cant": "histories unbounded", "anchors": ["core/include/gnuradio-4.0/Block.hpp: Block::notifyListeners, emitMessage, propertySubscriptions, propertyCallback*, processScheduledMessages"]}
{"id": "C70", "title": "A scheduler passes messages to its blocks and their answers back, each exactly once and in order", "statement": "Whatever the interleaving of senders, scheduler and blocks, and however long before the start a message was sent: each block gets the messages for blocks sent to the scheduler in order and once, the scheduler publishes what the blocks publish in order and once, so that a request to a block gets exactly one answer from it; messages for the scheduler itself reach no block; a block added at run time gets what is sent from then on.", "quantifier": "all histories and interleavings of sending, processing by the scheduler and by each block, initialisation, additions of blocks, and readers coming and going", "why_tests_cant": "interleavings and histories unbounded", "anchors": ["core/include/gnuradio-4.0/Scheduler.hpp: SchedulerBase::connectBlockMessagePorts, processMessages, processScheduledMessages, init, adoptBlock"]}
{"id": "C71", "title": "An FFT returns the discrete Fourier transform of its input", "statement": "For every input and every supported size, complex or real, with the vectorised transform switched on or off, the k-th value returned is the sum over i of x_i exp(-2 pi j i k / N) (up to rounding).", "quantifier": "all sizes, all inputs, all frequency numbers", "why_tests_cant": "tests use a few sizes that are powers of two and a few signals; sizes and inputs unbounded", "anchors": ["algorithm/include/gnuradio-4.0/algorithm/fourier/fft.hpp: FFT::compute, transformRadix2, transformBluestein, trySimdFFT_R2C", "algorithm/include/gnuradio-4.0/algorithm/fourier/SimdFFT.hpp: SimdFFT::canProcessSize"]}
{"id": "C72", "title": "A filter returns the solution of its difference equation", "statement": "For every input and every list of coefficients, the FIR and IIR filter blocks and the filter class (also with several sections, also followed by decimation) return y[n] = sum b[k] x[n-k] - sum a[k] y[n-k] with a zero past (up to rounding); the four forms of implementation give the same result; splitting the input over calls makes no difference; a change of coefficients keeps the past inputs; no memory outside the histories is read.", "quantifier": "all inputs, all numbers and values of coefficients, all four forms, all splits into calls", "why_tests_cant": "tests use a few low-order filters and signals; inputs, orders and splits unbounded", "anchors": ["blocks/filter/include/gnuradio-4.0/filter/time_domain_filter.hpp: fir_filter, iir_filter, BasicDecimatingFilter, Decimator", "algorithm/include/gnuradio-4.0/algorithm/filter/FilterTool.hpp: Filter, Section, computeFilter"]}
{"id": "C73", "title": "A saved graph loads to the same graph", "statement": "For every graph, saving it as text and loading the text gives a graph with the same blocks in the same order, each with its parameters and stored settings loaded, and the same connections with the same minimum buffer sizes; and for every text that loads, no block and no connection is left out and every connection leads to blocks of its own graph.", "quantifier": "all graphs (any number of blocks, connections, contexts), all texts, all nestings of sub-graphs", "why_tests_cant": "tests load and save a handful of fixed graphs and compare counts and names; saving and loading are separate code that must agree on every name, port and nesting", "anchors": ["core/include/gnuradio-4.0/Graph_yaml_importer.hpp: loadGrc, saveGrc, loadGraphFromMap, saveGraphToMap", "core/src/BlockModel.cpp: serializeBlock", "core/include/gnuradio-4.0/Graph.hpp: connect, exportPort"]}
{"id": "C74", "title": "The settings of a block survive saving and loading", "statement": "For every block, after saving its graph and loading it again every writable member has the value it was saved with, and look-ups of the settings stored for a context, at any time from then on, find what they found before.", "quantifier": "all blocks with any members, values and stored settings; all histories of the block before saving; all clock readings", "why_tests_cant": "histories, contexts and times unbounded", "anchors": ["core/include/gnuradio-4.0/Graph_yaml_importer.hpp: loadGraphFromMap, saveGraphToMap", "core/include/gnuradio-4.0/Settings.hpp: CtxSettings::loadParametersFromPropertyMap, init, activateContext, applyStagedParameters", "core/include/gnuradio-4.0/Block.hpp: Block::init", "core/src/BlockModel.cpp: serializeBlockSettings"]}
{"id": "C75", "title": "A merged block computes what the connected graph of its parts computes", "statement": "For every block put together with the compile-time merge types (chains, fan-out with weights, feedback loops with or without monitor and tap, nested in any way), the samples it puts out are those of the network of its parts with the documented connections, for every input; it has exactly the free ports of that network, the shown graph is that network, the samples may arrive in any portions, and after a reset it behaves as newly built.", "quantifier": "all merged types that compile, all part blocks with any state, all input signals of any length", "why_tests_cant": "nesting, part blocks and inputs unbounded; tests cover a few fixed types", "anchors": ["core/include/gnuradio-4.0/BlockMerging.hpp: MergeByIndex, SplitMergeCombine, FeedbackMergeByIndex, FeedbackMergeWithTapByIndex, graphWithPortMaps, stateChanged"]}
{"id": "C76", "title": "Processing with vectors gives the samples of processing one by one", "statement": "For every merged block, every vector width and every number of samples, the samples put out and the state left behind are those of one call per sample: the full vectors, the shorter ones at the end and the single calls together cover every sample exactly once and in order. A block that asks to stop is not called again, alone or as part of a merged block.", "quantifier": "all merged types that compile, all part blocks, all widths that are powers of two, all numbers of samples", "why_tests_cant": "width depends on the target machine, lengths and types unbounded; tests run on one machine with a few lengths", "anchors": ["core/include/gnuradio-4.0/Block.hpp: invokeProcessOneSimd, simd_epilogue, invokeProcessOnePure, invokeProcessOneNonConst", "core/include/gnuradio-4.0/BlockMerging.hpp: MergeByIndex::processOne"]}
{"id": "C77", "title": "A value set for a member of another number type arrives unchanged or is refused", "statement": "Setting a member to a value of another type either stores a value of the member's type that is the same number, or is refused with an error; the only rounding is from double to float, to the nearest float. Every whole number is accepted by every integer type whose range holds it, every integer of no more digits than the target by the floating-point types, and a value of the member's own type always.", "quantifier": "all values of all number types, all member types", "why_tests_cant": "2^64 integers and doubles per pair of types; tests try a handful of values", "anchors": ["core/include/gnuradio-4.0/PmtTypeHelpers.hpp: convert_safely", "core/include/gnuradio-4.0/Settings.hpp: convertParameter"]}
{"id": "C78", "title": "A tensor behaves as an array of its shape under every program of operations", "statement": "After every sequence of filling, resizing, reshaping, assigning, appending, removing and clearing, a tensor has the shape and the elements that a plain array would have after the same sequence; every index within the shape has its own element, an index outside it throws, an operation that throws changes nothing, and writing to one index changes no other.", "quantifier": "all programs of operations, all shapes and element types", "why_tests_cant": "programs and shapes unbounded; tests run short fixed sequences", "anchors": ["core/include/gnuradio-4.0/Tensor.hpp: Tensor, at, resize, reshape, push_back, emplace_back, pop_back, assign", "core/include/gnuradio-4.0/PmtCollections.hpp"]}
{"id": "C79", "title": "A view shows the elements of the tensor it was taken from", "statement": "For a view obtained by slicing and transposing a tensor any number of times, every index gives the element of the tensor it stands for, different indices different elements; going through the view gives them in order; nothing outside the tensor is read; a tensor made from the view has the same shape and elements, and views compare equal exactly when their shapes and elements do.", "quantifier": "all tensors reached by sound programs, all chains of slices and transpositions, all indices", "why_tests_cant": "chains, ranks and shapes unbounded; tests try a few small views", "anchors": ["core/include/gnuradio-4.0/Tensor.hpp: TensorView, slice, transpose, reshape, iterator, owned, operator=="]}
{"id": "C80", "title": "Converting a stored array keeps its elements as the policy promises", "statement": "Converting a stored array to a vector, array, tensor or map gives as many elements in the same order and of the asked type, every number the type has unchanged. Safe accepts only the same type; Widening changes no number; what a policy accepts a less strict one accepts with the same result; elements of the asked type are accepted by all. With Strict the shape is kept. An error names the first element that does not convert, and assigning leaves the destination as it was on an error.", "quantifier": "all stored arrays of all shapes and element types, all policies, all targets", "why_tests_cant": "types, policies, targets and shapes multiply; tests try a few combinations with small numbers", "anchors": ["core/include/gnuradio-4.0/ValueHelper.hpp: convertTo, convertTo_or, assignTo, conversion_allowed_v, tryConvertElement"]}
{"id": "C81", "title": "The synchronising block keeps its outputs in step and accounts for every sample", "statement": "At all times all outputs of the synchronising block have the same number of samples. Every sample of an output is a sample of its input, in order, and the dropped-samples tags on the output add up to exactly the number of samples missing before it. Every tag of a published sample is on that sample, in order, and no other tags of the input come out.", "quantifier": "all streams and tags, all numbers of ports, all portions in which samples arrive and in which outputs have room", "why_tests_cant": "streams, tags and portions unbounded; tests run five fixed cases with one scheduler", "anchors": ["blocks/basic/include/gnuradio-4.0/basic/SyncBlock.hpp: SyncBlock::processBulk, publishDroppedSamplesTagIfNotZero, publishInputTags", "core/include/gnuradio-4.0/Port.hpp: InputSpan::rawTags, consumeTags, OutputSpan::publishTag"]}
{"id": "C82", "title": "The synchronising block aligns its inputs by the synchronisation tags", "statement": "Whenever all inputs have a synchronisation tag of a common time, within the tolerance, the samples with these tags come out at the same place of all outputs, the earliest such time first, and no more samples are dropped than the alignment needs. Until then nothing is published and of every input the last samples are kept, as many as the history holds; once aligned, samples are passed on without loss up to the next synchronisation tag.", "quantifier": "all streams and tags, filters, tolerances and history sizes, all portions in which samples arrive", "why_tests_cant": "which tags are visible together depends on the portions; tests run five fixed cases with one scheduler", "anchors": ["blocks/basic/include/gnuradio-4.0/basic/SyncBlock.hpp: SyncBlock::processBulk, synchronize, findSyncTime, getAvailablePreSamples, getAvailablePostSamples, getNSamplesBeforeSyncTag, isSyncTag"]}
{"id": "C83", "title": "The routing block takes every sample of a routed input to all the outputs it is routed to", "statement": "With a mapping it took, the block never accesses anything outside of its buffers, and after any number of calls each output carries exactly the samples consumed of the inputs routed to it, each once, those of one input in order and with their tags at their samples. Inputs that share an output are consumed at the same pace and come out in turn if they are to be kept in step, and one after another in the order of their indices within a call otherwise. Inputs without a route wait or are dropped as the back pressure setting says. A call consumes as much as inputs and outputs allow. A mapping is taken if and only if its pairs are different and name existing ports, and one that is not taken is not used.", "quantifier": "all mappings, numbers of ports, streams and tags, all portions in which samples arrive and in which outputs have room", "why_tests_cant": "mappings, streams and portions unbounded; the tests run eleven mappings on streams of five samples, all starting with input 0", "anchors": ["blocks/basic/include/gnuradio-4.0/basic/Selector.hpp: Selector::settingsChanged, processBulk", "core/include/gnuradio-4.0/Port.hpp: InputSpan::tags, consumeTags, OutputSpan::publishTag"]}
{"id": "C84", "title": "The monitor of the routing block shows the selected input", "statement": "From the moment a value arrives at the select input the monitor output carries what is consumed of the input it names, sample by sample with the tags, until another value arrives. Selecting an input does not change what the outputs carry, only how much is consumed at a time, and an input without a route that is selected is consumed as far as the monitor has room.", "quantifier": "all mappings, streams, tags and selections, all portions in which samples, selections and room arrive", "why_tests_cant": "the order of selections and samples is a matter of timing; tests feed the selections from a source that never runs out", "anchors": ["blocks/basic/include/gnuradio-4.0/basic/Selector.hpp: Selector::processBulk"]}
{"id": "C85", "title": "Streaming listeners of a data sink are given the stream", "statement": "A streaming callback is given every sample once and in order, in pieces of the size asked for, and, if it takes tags, every tag at its sample and new metadata with the next sample. A streaming poller that may hold the sink back is given the same; one that may not is given whole chunks without their gaps being filled, and the number of samples and tags it lost is counted. Each poll gives a number of samples within the limits asked for, and only a poller that may hold the sink back makes it wait.", "quantifier": "all streams, tags, metadata changes and sizes of chunks, all interleavings of the sink's and the user's thread", "why_tests_cant": "streams and interleavings unbounded; tests poll a few thousand samples with one timing", "anchors": ["blocks/basic/include/gnuradio-4.0/basic/DataSink.hpp: StreamingPoller::process, ContinuousListener::process, stop"]}
{"id": "C86", "title": "Trigger listeners of a data sink are given the samples around every trigger", "statement": "For every tag the matcher takes, a trigger listener is given one data set with the samples before the tag's sample, as many as asked for if there are so many, and those from the sample on, in the order of the stream, with the tag at its sample; overlapping windows are all complete, data sets come in the order of the triggers, and stopping the sink gives what there is of the last ones. What a listener is given does not depend on other listeners.", "quantifier": "all streams, matchers with state, numbers of samples before and after, sizes of chunks and sets of listeners", "why_tests_cant": "positions of triggers relative to chunks and windows unbounded; tests use a few regular patterns", "anchors": ["blocks/basic/include/gnuradio-4.0/basic/DataSink.hpp: TriggerListener, DataSink::processBulk, ensureHistorySize, registerTriggerCallback"]}
{"id": "C87", "title": "Multiplexed listeners of a data sink are given the samples between tags", "statement": "For every tag that starts a section a multiplexed listener is given one data set with the samples up to the next start or stop, at most as many as asked for, with the tag of the start and, unless the data set was full before, the tag of the end. Data sets come in order, each at its end or when it is full, and stopping the sink gives what there is of the last one.", "quantifier": "all streams, matchers with state, limits and sizes of chunks", "why_tests_cant": "sequences of starts and stops unbounded; tests use one alternating pattern per matcher", "anchors": ["blocks/basic/include/gnuradio-4.0/basic/DataSink.hpp: MultiplexedListener, DataSink::stop"]}
{"id": "C88", "title": "Snapshot listeners of a data sink are given the sample after each trigger", "statement": "For every tag the matcher takes, a snapshot listener is given one data set with the one sample that follows the tag's sample after the delay asked for, and the position of the tag relative to it, in the order of the triggers, unless the stream ends before.", "quantifier": "all streams, matchers with state, delays, sample rates and sizes of chunks", "why_tests_cant": "delays over several chunks with further triggers in between are a matter of timing; tests use two", "anchors": ["blocks/basic/include/gnuradio-4.0/basic/DataSink.hpp: SnapshotListener"]}
{"id": "C89", "title": "Data set pollers lose nothing or count what they lose", "statement": "A data set poller that may hold the sink back is given every data set published, once and in order; any other is given them in order without repetitions, a data set is lost only if the ring was full when it was published, and the number lost is counted. Each poll gives a number of data sets within the limits asked for. A poller that says it is finished and has nothing left was given everything there was. The data set sink publishes to each listener what its matcher takes.", "quantifier": "all sequences of data sets and polls in any interleaving, all capacities and limits", "why_tests_cant": "interleavings of two threads unbounded; tests poll until an expected number has arrived", "anchors": ["blocks/basic/include/gnuradio-4.0/basic/DataSink.hpp: DataSetPoller::process, DataSetBaseListener::publishDataSet, DataSetSink::Listener"]}
{"id": "C90", "title": "The registry finds a data sink by its signal name", "statement": "A query by signal name finds exactly the sink of the type asked for that has this name and is in use, that is, got a name and was not stopped since; a query by the name of the block finds a sink in use with this name. A name that is taken is refused without effect on the sink that has it. Stopping a sink removes it and no other.", "quantifier": "all sequences of naming, renaming and stopping sinks of any types", "why_tests_cant": "histories of several sinks unbounded; tests have one sink type at a time and stop each sink once", "anchors": ["blocks/basic/include/gnuradio-4.0/basic/DataSink.hpp: DataSinkRegistry, DataSink::settingsChanged, stop"]}
{"id": "C91", "title": "Reading a file gives its bytes", "statement": "A reader of a file or of the body of a request gives the bytes of the source from the offset on (decompressed first if it is a gzip source), once and in order, in pieces that are not empty, not larger than asked for and, but for the last, multiples of the alignment, and then one final message. After a cancellation it gives a first part of them and the final message. A source that cannot be read or decoded gives an error before the final message, and get() returns the bytes or the error.", "quantifier": "all contents, sizes of pieces, alignments, offsets, ways the body of a request arrives, and moments of cancellation", "why_tests_cant": "the boundaries of pieces, of reads and of compressed blocks meet in unboundedly many ways; tests use a few files with default sizes", "anchors": ["algorithm/include/gnuradio-4.0/algorithm/fileio/FileIo.hpp: Reader::get, runReadLocalFile, runHttpGetNative, pushSourceData, pushData, pushFinal, normalizeReaderConfig"]}
{"id": "C92", "title": "Reading bytes in memory gives them, or is refused, and never waits", "statement": "A reader of bytes in memory holds all of its messages when it is returned: the bytes from the offset on, in pieces as asked for, and the final message, or the error of the decoder. If the messages do not fit into its queue the call returns an error; it never blocks.", "quantifier": "all bytes, sizes of pieces, alignments, offsets and numbers of slots", "why_tests_cant": "the number of messages depends on all sizes together; tests use one size with alignment 1", "anchors": ["algorithm/include/gnuradio-4.0/algorithm/fileio/FileIo.hpp: readAsync(std::span), requiredMemoryReadSlots, runReadMemorySource"]}
{"id": "C93", "title": "Polling a reader gives its messages in order and loses none", "statement": "Whatever sizes are asked for, polling gives the messages of the queue in their order, each once; a message larger than the size asked for stays and its size is told.", "quantifier": "all queues and sequences of polls", "why_tests_cant": "sequences of polls unbounded", "anchors": ["algorithm/include/gnuradio-4.0/algorithm/fileio/FileIo.hpp: Reader::poll"]}
{"id": "C94", "title": "A file source publishes the samples of its files", "statement": "A file source publishes the whole samples of its files from the offset on, at most as many of each as asked for, file after file (round again if asked for), with one start tag at the first sample of each, whatever room its calls find, and says that it is done when all were published.", "quantifier": "all lists of files, plain or compressed, sample sizes, offsets, lengths, and all sequences of calls with any room", "why_tests_cant": "room per call and sizes of files meet in unboundedly many ways; tests read 1024 samples at once", "anchors": ["blocks/fileio/include/gnuradio-4.0/fileio/BasicFileIo.hpp: BasicFileSource::start, processBulk, openNextFile, finishCurrentFile"]}
{"id": "C95", "title": "A file sink writes the samples it consumes", "statement": "The files a sink has written hold the samples it consumed, once and in order, in whole samples and not larger than asked for; appending keeps what was there, and a file source that reads the files publishes the same samples. A call with samples at hand consumes some.", "quantifier": "all streams, sample sizes, bounds and sequences of calls", "why_tests_cant": "where files end relative to samples and calls is unbounded; tests use sizes that divide", "anchors": ["blocks/fileio/include/gnuradio-4.0/fileio/BasicFileIo.hpp: BasicFileSink::start, processBulk, openNextFile, settingsChanged"]}
{"id": "C96", "title": "The final message of a reader arrives", "statement": "While the reader is polled, the worker and the reader never wait for each other for ever, also after a cancellation, and every run ends with the final message. A final message is published after every cancellation. The queue is never overrun.", "quantifier": "all interleavings of worker, reader and cancellation, numbers of slots and messages", "why_tests_cant": "interleavings; tests cancel at one moment and then poll", "anchors": ["algorithm/include/gnuradio-4.0/algorithm/fileio/FileIo.hpp: publishMessage, Reader::cancel, Reader::wait, pushFinal", "blocks/fileio/include/gnuradio-4.0/fileio/BasicFileIo.hpp: BasicFileSource::closeFile"]}
{"id": "C97", "title": "A WAV source plays the data of its files", "statement": "A header is taken exactly if it is one (chunks in any order, extensible formats, whole frames of data), and an incomplete one is waited for. The samples put out are those of the data of the files in order, from the offset, at most as many of each as asked for, with a tag of rate and channels at the first sample of each, whatever the pieces the bytes arrive in and the room of the calls; when the source says that it is done, all were put out. Of bytes that are no WAV file nothing is put out, and a file that is too short is not reported as done.", "quantifier": "all byte sequences, ways they arrive, settings, and sequences of calls with any room", "why_tests_cant": "a sample, the header and the pieces of the file meet in unboundedly many ways; tests use small files in one piece", "anchors": ["blocks/fileio/include/gnuradio-4.0/fileio/WavBlocks.hpp: WavSource::processBulk, tryParseHeader, decodeChunk, finishCurrentFile, parseWavFmtChunk"]}
{"id": "C98", "title": "WAV samples are converted to the nearest value", "statement": "Whole numbers of 8, 24 and 32 bits become the nearest 16 bit number to their share of full scale, and the smallest becomes -32768; 16 bits stay as they are; as float they are their share of full scale. Floats from -1 to 1 stay as they are, larger ones become 1 or -1. Order is kept and nothing overflows.", "quantifier": "all samples of all formats", "why_tests_cant": "2^32 samples per format; tests use a handful", "anchors": ["blocks/fileio/include/gnuradio-4.0/fileio/WavBlocks.hpp: decodeWavSample, convertNormalisedSample"]}
{"id": "C99", "title": "A WAV sink writes WAV files with what it was given", "statement": "After stop, the files of a sink are WAV files whose format and sizes are right and whose samples, file after file, are those it took, once and in order, none larger than asked for, and all but the last full. All samples are taken.", "quantifier": "all streams in any pieces, channels, rates and bounds", "why_tests_cant": "where a file is full relative to the calls is unbounded", "anchors": ["blocks/fileio/include/gnuradio-4.0/fileio/WavBlocks.hpp: WavSink::processBulk, writeHeader, patchHeaderSizes, openNextFile, closeFile"]}
{"id": "C100", "title": "What a WAV sink writes, a WAV source gets back", "statement": "A source of the same type put on the file of a sink puts out the samples the sink was given, with its rate and channels, and gets to its end; floats are cut to the numbers from -1 to 1.", "quantifier": "all streams of whole frames in any pieces and all calls of the source", "why_tests_cant": "as for the two blocks, together", "anchors": ["blocks/fileio/include/gnuradio-4.0/fileio/WavBlocks.hpp: WavSink, WavSource"]}
{"id": "C101", "title": "A Schmitt trigger reports exactly the changes of a comparator with hysteresis", "statement": "For every signal the reported rising and falling edges are exactly the changes of an output that is high when the most recent sample not strictly between the thresholds was at or above the upper one. Edges alternate, beginning with a rising one, the distance to the last edge is right, and no signal makes the computation undefined.", "quantifier": "all signals of any length, offsets, positive thresholds and interpolation methods", "why_tests_cant": "edges depend on the whole history; tests use sine waves that start below the lower threshold", "anchors": ["algorithm/include/gnuradio-4.0/algorithm/SchmittTrigger.hpp: SchmittTrigger::processOne, reset"]}
{"id": "C102", "title": "The trigger block passes samples and tags through", "statement": "However the block is called, what it puts out is the consumed part of its input, and each tag of the input at a consumed sample is forwarded once, in order and at its position. Once the end of the stream is in sight everything comes out; until then the last 32 samples are held back.", "quantifier": "all signals, tags, methods and sequences of calls with any number of samples and any room", "why_tests_cant": "an edge ends a call early, so each signal cuts itself into calls differently", "anchors": ["blocks/basic/include/gnuradio-4.0/basic/Trigger.hpp: SchmittTrigger::processBulk"]}
{"id": "C103", "title": "The trigger block publishes a tag at every edge, with its time", "statement": "Each edge of the signal whose name is not empty gets one tag with that name at its place, after the tags of the input there, with the time of its sample. What is published does not depend on how the input was cut into calls.", "quantifier": "all signals, tags, methods and sequences of calls", "why_tests_cant": "whether an edge falls on the border of two calls depends on buffer sizes and scheduling", "anchors": ["blocks/basic/include/gnuradio-4.0/basic/Trigger.hpp: SchmittTrigger::processBulk, publishEdge"]}
{"id": "C104", "title": "Thresholds and trigger times follow the settings", "statement": "The block works with the thresholds offset + threshold and offset - threshold of its settings, defaults included, and the times of two edges are apart by the nanoseconds that the samples between them take at the sample rate.", "quantifier": "all settings, signals and sequences of calls", "why_tests_cant": "the defaults and the unit of the time are not observable in a test that sets everything and ignores the time", "anchors": ["blocks/basic/include/gnuradio-4.0/basic/Trigger.hpp: SchmittTrigger::settingsChanged, reset, _trigger, _period"]}
{"id": "C105", "title": "A matrix product is exact", "statement": "gemm replaces C by alpha op(A) B + beta C, each product counted once, for every shape, alpha and beta, whichever kernel is chosen and however wide the vector registers are; shapes that do not fit are refused, and nothing outside the matrices is touched.", "quantifier": "all matrices and shapes, all elements of a commutative ring, all register widths, all alpha and beta", "why_tests_cant": "blocking, unrolling and remainders depend on sizes near multiples of 4 registers, 64, 128 and 256; tests compare a few shapes", "anchors": ["core/include/gnuradio-4.0/math/gemm_simd.hpp: gemm, SmallGemm, CacheOptimizedGemm", "core/include/gnuradio-4.0/TensorMath.hpp: gemm"]}
{"id": "C106", "title": "A matrix product with a transposed second factor is exact", "statement": "gemm<TransA, Trans> and gemm with ConjTrans replace C by alpha op(A) op(B) + beta C where op is the transpose, or the conjugated transpose.", "quantifier": "all matrices and shapes, all element values", "why_tests_cant": "the tests of transposed factors check shapes and that results are finite", "anchors": ["core/include/gnuradio-4.0/math/gemm_simd.hpp: gemm, apply_transpose", "core/include/gnuradio-4.0/TensorMath.hpp: TransposeOp"]}
{"id": "C107", "title": "A matrix times a vector is exact", "statement": "gemv replaces y by alpha op(A) x + beta y for every shape and every view of a matrix, alpha and beta, whichever kernel is chosen and however wide the vector registers are; shapes that do not fit are refused, and nothing outside the operands is touched.", "quantifier": "all matrices, views, vectors, shapes, register widths, all alpha and beta", "why_tests_cant": "remainders depend on sizes near multiples of 4 registers, 32 and 64, and tests use owned matrices", "anchors": ["core/include/gnuradio-4.0/math/gemv_simd.hpp: gemv, SimpleGemv, GemvNoTrans, GemvTrans", "core/include/gnuradio-4.0/TensorMath.hpp: gemv"]}
{"id": "C108", "title": "A registered block can be created by its names, and the name saved for a block creates its type", "statement": "After any sequence of registrations, creating by a name gives the type of the last registration that claims it as type name or alias; the names listed are those claimed, each once; the name reported for a block creates a block of the same type; merging keeps what is known and adds the rest.", "quantifier": "all sequences of registrations with any aliases, all merges, all names", "why_tests_cant": "clashes depend on which types and plugins are registered, and in what order", "anchors": ["core/include/gnuradio-4.0/BlockRegistry.hpp: GeneralRegistry::insert, create, keys, contains, typeName, merge"]}
{"id": "C109", "title": "The loader makes exactly the blocks it lists", "statement": "A request ends with a block exactly if the name is built in, comes from a plugin, or has a definition of which all parts can be made, in this order of precedence; availableBlocks lists each such name once in order, and isBlockAvailable says yes for those that can be made; every request ends.", "quantifier": "all registries, plugins and sets of definitions that refer to each other, all names", "why_tests_cant": "definitions are files from anywhere and can refer to each other in any way, also in circles", "anchors": ["core/include/gnuradio-4.0/PluginLoader.hpp: instantiate, availableBlocks, isBlockAvailable", "core/include/gnuradio-4.0/Graph_yaml_importer.hpp: instantiateBlockFromYamlDefinition, loadGraphFromMap"]}
{"id": "C110", "title": "Every plugin file is loaded once and completion is reported once", "statement": "However often files are asked for, each is opened once, the broken ones are listed with their status, and the blocks of the others can be made, from the first file that brings them; loading a list calls the completion callback exactly once, after the last file, with the first error if any failed; success means that the plugin is there.", "quantifier": "all sequences of files with repetitions, all outcomes of opening, all orders of completion", "why_tests_cant": "the order in which asynchronous openings end is not under a test's control", "anchors": ["core/include/gnuradio-4.0/PluginLoader.hpp: loadPluginAsync, loadPluginsAsync, registerHandler", "core/src/PluginLoader.cpp: globalPluginLoader"]}
{"id": "C111", "title": "The cache of block definitions gives what the source has", "statement": "Whatever the history of loads, changes of the source and crashes, a definition that is loaded is what its source has at that time, as long as the times in the index are right.", "quantifier": "all histories of loads, changes of the source, all ways in which writing the cache file can end", "why_tests_cant": "needs crashes at any byte of a write and changes of the source between runs", "anchors": ["core/include/gnuradio-4.0/PluginLoader.hpp: YamlDefinitionsLoader::loadBlockDefinitions, parseTimestamp"]}
{"id": "C112", "title": "Switching a burst on and off plays whole ramps and ends where it was asked to", "statement": "Requests that are not forced never cut a ramp short: the envelope is zeros, a whole rise, ones, a whole fall, and so on. Whatever was called before, after twice the length of a ramp the envelope is where the last request wants it. A forced turn walks the values back in reverse from where the ramp is. No call reads outside the ramp.", "quantifier": "all ramps of equal length, all histories of requests, samples, blocks, resets and configurations", "why_tests_cant": "requests arrive at any sample of a ramp, in any order and number", "anchors": ["algorithm/include/gnuradio-4.0/algorithm/BurstTaper.hpp: setTarget, processOne, reset, configure"]}
{"id": "C113", "title": "The envelope does not depend on how samples are cut into blocks", "statement": "Applying the envelope to a stream gives the same however it is cut into blocks, and the same as multiplying each sample with the value for one sample.", "quantifier": "all states reached by any history, all ways to cut a stream", "why_tests_cant": "block boundaries are set by the scheduler and can fall anywhere in a ramp", "anchors": ["algorithm/include/gnuradio-4.0/algorithm/BurstTaper.hpp: applyTaper, processOne"]}
{"id": "C114", "title": "Generated edges have the shape, length and symmetry documented", "statement": "An edge has the length asked for, begins and ends where the shape does, and the falling edge is the rising one in reverse; a taper is rise, flat part and fall in this order; a linear edge is monotone; the mushroom shape has integral zero.", "quantifier": "all lengths, all shapes", "why_tests_cant": "must hold for every length, including one sample", "anchors": ["algorithm/include/gnuradio-4.0/algorithm/BurstTaper.hpp: generateEdge, generateTaper, computeRise"]}
{"id": "C115", "title": "A clock source publishes exactly the samples asked for", "statement": "However the clock asks, a source with a maximum publishes exactly that many samples and then says DONE; a call publishes at least one sample if any are asked for and never more than asked for; without a maximum it goes on for ever; no call is undefined.", "quantifier": "all maxima, tags, times and schedules of calls", "why_tests_cant": "the numbers asked for depend on wall-clock time and scheduling", "anchors": ["blocks/basic/include/gnuradio-4.0/basic/ClockSource.hpp: processBulk"]}
{"id": "C116", "title": "Every tag of a clock source is published once at its sample", "statement": "Tags given by sample index and tags given by time, repeated with the period, are each published exactly once, with their text, at the sample they are for, however the clock asks.", "quantifier": "all lists of tags, times and texts, all periods, all schedules of calls", "why_tests_cant": "needs every way in which calls cut the stream around the tags", "anchors": ["blocks/basic/include/gnuradio-4.0/basic/ClockSource.hpp: processBulk, tags, tag_times, repeat_period"]}
{"id": "C117", "title": "Wall-clock timing keeps the average sample rate", "statement": "The samples given out never run ahead of the time passed, and after a call that is not limited less than a sample is missing; with late samples dropped the rest keeps the rate; with a clock input as many come out as went in.", "quantifier": "all rates, clock resolutions and sequences of call times", "why_tests_cant": "depends on wall-clock times of calls over long runs", "anchors": ["core/include/gnuradio-4.0/BlockingSync.hpp: computeWallClockSamples, syncSamples"]}
{"id": "C118", "title": "The timer thread is gone when stop returns", "statement": "There is at most one timer per block; when stop returns the timer does not use the block any more; stop always ends; start makes the timer run.", "quantifier": "all interleavings of the timer with the thread that starts and stops", "why_tests_cant": "needs every interleaving of two threads", "anchors": ["core/include/gnuradio-4.0/BlockingSync.hpp: startTimer, stopTimer"]}
{"id": "C119", "title": "The log record store behaves as if its calls came one after the other, and never waits", "statement": "Whatever threads publish, read or clear, a snapshot shows the newest twenty accepted records in order, drains hand out accepted records in order and none twice, and all of them if a drain comes before twenty-one new records; a publish that finds the store busy is refused instead of waiting; every call ends after a bounded number of its own steps.", "quantifier": "all interleavings of any number of threads and calls", "why_tests_cant": "needs every interleaving of the atomic steps", "anchors": ["core/src/Logger.cpp: HistoryLoggerBackend", "core/include/gnuradio-4.0/Logger.hpp: HistoryLoggerBackend"]}
{"id": "C120", "title": "A log record says how many records were lost before it", "statement": "The droppedBefore of a stored record is the number of records lost to the readers of the store: those refused since the last clear and those overwritten before they could be read; a number given by the caller is never lowered.", "quantifier": "all histories of publishing, reading and clearing by any threads", "why_tests_cant": "needs every interleaving and every order of drains", "anchors": ["core/src/Logger.cpp: HistoryLoggerBackend::publish"]}
{"id": "C121", "title": "Published log records reach the console once and in order", "statement": "Whatever threads publish and flush, one thread at a time writes; lines that went through the ring are in the order of the ring, none twice; a record that did not fit is written directly with its drop count; when publish returns the record is on the console.", "quantifier": "all interleavings of any number of threads, all ring capacities", "why_tests_cant": "needs every interleaving of the atomic steps", "anchors": ["core/src/Logger.cpp: FixedRecordBackend"]}
{"id": "C122", "title": "A console line shows the whole record", "statement": "A record keeps the text up to its capacity and the file name without directories; its console line is the time, the level, the location, the text and the drop count, complete for every record that can be made, and goes to stderr for the severe levels.", "quantifier": "all messages, paths, line numbers, times and levels", "why_tests_cant": "ranges over all texts and lengths around the fixed capacities", "anchors": ["core/src/Logger.cpp: makeRecordAt, filename, writeConsole"]}
{"id": "C123", "title": "An arena hands out aligned blocks that never overlap", "statement": "However a static arena is used, the blocks handed out since the last reset lie in the storage, are aligned as asked and share no byte; a request fails only if no aligned place is left; giving back frees nothing and a failed request changes nothing.", "quantifier": "all storage sizes and addresses, all sequences of requests, sizes and alignments", "why_tests_cant": "ranges over all sequences of sizes and alignments", "anchors": ["core/include/gnuradio-4.0/MemoryAllocators.hpp: StaticArenaResource"]}
{"id": "C124", "title": "Memory is accounted for and moved without loss", "statement": "The counting resource reports the bytes outstanding; the aligned allocator asks for the bytes of all its elements; moving a block to another resource either moves all elements and frees the old block, or fails and leaves the old block as it was and nothing else allocated.", "quantifier": "all sequences of calls, all counts, every element at which copying may throw", "why_tests_cant": "needs every failure point and sizes near the limits", "anchors": ["core/include/gnuradio-4.0/MemoryAllocators.hpp: CountingResource, Aligned::allocate, pmr::migrate"]}
{"id": "C125", "title": "Resource scopes restore what was in force before", "statement": "When nested scopes have ended, the resource in force is the one from before, for each thread whatever the others do; inside a scope its own resource is in force.", "quantifier": "all nestings, all interleavings of threads", "why_tests_cant": "needs every interleaving of scopes of different threads", "anchors": ["core/include/gnuradio-4.0/MemoryAllocators.hpp: ResourceProfileScope, ScopedDefaultResource"]}
{"id": "C126", "title": "A file write leaves exactly the written bytes, and its result says so", "statement": "A successful write leaves the data in the file, after the old contents when appending; compressed writes, also several appended ones, are read back as the data; a result of success means that all bytes are in the file; a failed or cancelled write leaves the old contents.", "quantifier": "all data, compression levels, modes, prior contents, disk capacities and moments of cancelling", "why_tests_cant": "needs every disk state and every moment of a failure", "anchors": ["algorithm/include/gnuradio-4.0/algorithm/fileio/FileIo.hpp: write, writeAsync, runPreparedWrite, runWriteLocalFile"]}
{"id": "C127", "title": "Waiting for a writer or a reader ends when there is something to be told", "statement": "wait() of a writer returns only when its result is there, the result is true and final, and the wait ends once the write has ended; wait() of a reader ends once there is a message, the final message or a cancellation.", "quantifier": "all interleavings of any number of waiting, publishing and cancelling threads", "why_tests_cant": "a lost wake-up needs one particular interleaving", "anchors": ["algorithm/include/gnuradio-4.0/algorithm/fileio/FileIo.hpp: Writer::wait, WriterState::setResult, Reader::wait, Reader::cancel"]}
{"id": "C128", "title": "Damaged satellite receiver lines are not used", "statement": "A line as the receiver sent it is accepted; a line in which one character before the star differs is ignored and leaves the parser as it was; the fields of an accepted line are exactly the pieces between its commas.", "quantifier": "all sentences and all single-character errors", "why_tests_cant": "there are too many lines and errors to try", "anchors": ["blocks/timing/include/gnuradio-4.0/NMEAParser.hpp: validateChecksum, NMEAParser::parseLine, splitFields"]}
{"id": "C129", "title": "Times and places in receiver lines are read exactly", "statement": "Date and time give the nanoseconds since 1970 of the calendar, leap years included, with fractions of seconds cut off at a nanosecond; a coordinate gives degrees plus minutes over sixty with the sign of the hemisphere.", "quantifier": "all dates, times, fractions and coordinates", "why_tests_cant": "tests look at single dates and places", "anchors": ["blocks/timing/include/gnuradio-4.0/NMEAParser.hpp: nmeaToUtcNs, parseNmeaCoord"]}
{"id": "C130", "title": "A stream of receiver lines gives one fix per second with what was last said in that second", "statement": "A fix is given out exactly when the first line of a new second comes; each of its values is the last one said in the lines of the finished second; its time is that of the last valid recommended-minimum line.", "quantifier": "all sequences of lines, valid or not", "why_tests_cant": "needs every order of sentence kinds", "anchors": ["blocks/timing/include/gnuradio-4.0/NMEAParser.hpp: NMEAParser::parseLine, checkEpochBoundary, parseRMC, parseGGA, parseVTG, parseGSA"]}
{"id": "C131", "title": "The random number generator is seeded well and stays in range", "statement": "Different seeds give different states; no seed leads to the all-zero state, ever; each step can be undone, so every sequence of states is purely periodic; uniform numbers lie in [0,1) or [-1,1), triangular ones in [-1,1), and every step of the grid of uniform numbers is hit by equally many raw numbers.", "quantifier": "all seeds, numbers of steps and raw numbers", "why_tests_cant": "2^64 seeds and 2^256 states", "anchors": ["algorithm/include/gnuradio-4.0/algorithm/rng/Xoshiro256pp.hpp: Xoshiro256pp"]}
{"id": "C132", "title": "Noise does not depend on the sizes of the chunks it is asked for in", "statement": "A chunk of noise holds the samples that would have come one by one; cutting the output into chunks differently does not change it; bounded noise stays within the amplitude around the offset; the seed alone decides what comes.", "quantifier": "all chunk sizes, seeds, settings and noise types", "why_tests_cant": "a scheduler may choose any chunk sizes", "anchors": ["algorithm/include/gnuradio-4.0/algorithm/signal/NoiseGenerator.hpp: NoiseGenerator", "algorithm/include/gnuradio-4.0/algorithm/rng/GaussianNoise.hpp: GaussianNoise::fill, fillComplex, complexSample"]}
{"id": "C133", "title": "Tones do not depend on how they are asked for", "statement": "A chunk of a tone holds the samples that would have come one by one, for real and complex signals, and leaves the generator in the same state; the real part of the complex signal is the real signal; a frequency that is not positive gives a constant.", "quantifier": "all sequences of configuring, resetting, sampling and filling, all chunk sizes", "why_tests_cant": "the fast tones compute chunks two samples at a time and normalise at other moments than single samples do", "anchors": ["algorithm/include/gnuradio-4.0/algorithm/signal/ToneGenerator.hpp: ToneGenerator"]}
{"id": "C134", "title": "Tones have the documented shapes", "statement": "After a reset, sample i is A w(2 pi f i/r + P) + O with w the sine, cosine, square, saw or triangle, each of period one cycle and within [-1,1]; FastSin and FastCos give the same values as Sin and Cos.", "quantifier": "all frequencies, rates, phases, amplitudes, offsets and sample numbers", "why_tests_cant": "tests compare some samples", "anchors": ["algorithm/include/gnuradio-4.0/algorithm/signal/ToneGenerator.hpp: computeSample, advanceState", "blocks/basic/include/gnuradio-4.0/SignalGenerator.hpp: SignalGenerator"]}
{"id": "C135", "title": "The settings of a signal generator decide its output", "statement": "After start, the samples depend on the settings alone; a change of amplitude or offset changes amplitude and offset of what follows and nothing else; integer samples are the real ones cut to integers and limited to the type.", "quantifier": "all histories, settings and integer types", "why_tests_cant": "needs every moment of a change", "anchors": ["algorithm/include/gnuradio-4.0/algorithm/signal/SignalGeneratorCore.hpp: SignalGeneratorCore, clampToInt", "blocks/basic/include/gnuradio-4.0/SignalGenerator.hpp: start, settingsChanged"]}
{"id": "C136", "title": "Blocks with a sample limit pass exactly that many samples", "statement": "A head block with limit N passes the first N samples of its input and stops there; constant and counting sources emit N samples, the latter default+1 to default+N; a counting sink consumes N samples; limit 0 means no limit.", "quantifier": "all limits, streams and ways of cutting the stream into work calls", "why_tests_cant": "the limit may fall anywhere in a chunk", "anchors": ["blocks/testing/include/gnuradio-4.0/testing/NullSources.hpp: HeadBlock, ConstantSource, CountingSource, CountingSinkImpl", "core/include/gnuradio-4.0/Block.hpp: invokeProcessOneNonConst, finaliseIO"]}
{"id": "C137", "title": "Arithmetic blocks combine their inputs sample by sample", "statement": "Each output sample is the first input's sample combined with the same sample of the other inputs from left to right; integer sums and differences are exact modulo two to the number of bits, so the order of an adding block's ports does not matter; undefined operations are exactly known.", "quantifier": "all numbers of inputs, samples and integer types", "why_tests_cant": "needs all values and port counts", "anchors": ["blocks/math/include/gnuradio-4.0/math/Math.hpp: MathOpMultiPortImpl, MathOpImpl"]}
{"id": "C138", "title": "Type conversion blocks keep what the target can hold", "statement": "Conversion keeps every value the target type holds and is otherwise modulo two to its number of bits; scaling gives the product whether or not vectors are used; absolute values are right; interleaving and its inverse undo each other.", "quantifier": "all integer types and values, all streams", "why_tests_cant": "all values of all type pairs", "anchors": ["blocks/basic/include/gnuradio-4.0/basic/ConverterBlocks.hpp: Convert, ScalingConvert, Abs, ComplexToInterleaved, InterleavedToComplex"]}
{"id": "C139", "title": "Waiting blocks keep order and distance", "statement": "A delay block passes nothing before its time is up and then everything, in order and without loss; samples of a slow source are more than the delay apart.", "quantifier": "all sequences of calls, clock readings and buffer sizes", "why_tests_cant": "depends on clock readings", "anchors": ["blocks/testing/include/gnuradio-4.0/testing/Delay.hpp: Delay", "blocks/testing/include/gnuradio-4.0/testing/NullSources.hpp: SlowSource"]}
{"id": "C140", "title": "A rotator turns sample i by the initial phase plus i+1 increments", "statement": "Up to full turns, and however the stream is cut; the phase stays within a turn; frequency shift, sample rate and increment agree after each change of settings.", "quantifier": "all increments, initial phases, streams and settings", "why_tests_cant": "phase accumulates over the whole stream", "anchors": ["blocks/math/include/gnuradio-4.0/math/Rotator.hpp: Rotator"]}
{"id": "C141", "title": "The sample rate estimate follows the clock", "statement": "The estimated sample rate equals the nominal one until there are observations, is exact when chunks arrive on time, and is not disturbed by the gap of a retune that is announced by a phase reset.", "quantifier": "all sequences of chunks, time stamps and settings", "why_tests_cant": "depends on the history of time stamps", "anchors": ["algorithm/include/gnuradio-4.0/algorithm/SampleRateEstimator.hpp: SampleRateEstimator::update, reset, resetPhase, estimatedRate"]}
{"id": "C142", "title": "Drift compensation inserts and removes frames as the drift demands", "statement": "In the inserting modes every frame is passed unchanged except for the ones inserted or removed, at most one per call, and over a long run the number of frames written follows the accumulated drift.", "quantifier": "all chunk sizes, channel counts, drifts and numbers of calls", "why_tests_cant": "needs an accumulated history over many calls", "anchors": ["algorithm/include/gnuradio-4.0/algorithm/SampleRateEstimator.hpp: DriftCompensator::compensateSource, compensateSink, interpolateAtSplice"]}
{"id": "C143", "title": "Resampling passes through the samples and keeps to the rate", "statement": "Adaptive resampling reads only frames of the chunk, starts and ends on its first and last frames, and interpolates with a cubic which meets the samples; over many calls its output follows the drift.", "quantifier": "all chunk sizes, ratios and samples", "why_tests_cant": "small drifts show only after many calls", "anchors": ["algorithm/include/gnuradio-4.0/algorithm/SampleRateEstimator.hpp: DriftCompensator::resampleInPlace, resampleSink, cubicHermite"]}
{"id": "C144", "title": "Generated ramps start, end and bend as configured", "statement": "Sample i of a generated shape is its value at i over the sample rate; linear, cubic and rounded ramps start at the start value, end and stay at the final value; linear and cubic ones do not turn back; rounded ramps are two mirrored parabolas joined by a straight line without a jump or kink; impulses last exactly their length; tones end in their offset.", "quantifier": "all start and final values, durations, round-off times and sample times", "why_tests_cant": "continuous range of parameters and times", "anchors": ["blocks/basic/include/gnuradio-4.0/basic/FunctionGenerator.hpp: generateSample, calculateParabolicRamp"]}
{"id": "C145", "title": "A function generator changes its signal only on the right trigger", "statement": "A new signal type takes effect from the beginning of its course when no trigger is required or the named trigger arrives; with a wrong trigger the running signal goes on as before.", "quantifier": "all settings, triggers and moments of change", "why_tests_cant": "depends on the moment and combination of settings", "anchors": ["blocks/basic/include/gnuradio-4.0/basic/FunctionGenerator.hpp: settingsChanged, configureGeneratorsFromSettings"]}
{"id": "C146", "title": "Uncertainties propagate through calculations", "statement": "The result of an operation on uncertain values is that of the operation on the values, and its uncertainty is to first order that of uncorrelated arguments: the squares of each partial derivative times the argument's uncertainty add up. A plain number counts as a value without uncertainty. Sums and products do not depend on the order.", "quantifier": "all values and uncertainties within the domain of the operation", "why_tests_cant": "a continuous range of values; the formulas are easy to get wrong in one branch", "anchors": ["meta/include/gnuradio-4.0/meta/UncertainValue.hpp: operator+, operator-, operator*, operator/, pow, sqrt, sin, cos, exp, log, log10, abs"]}
{"id": "C147", "title": "Sliding filters of data sets see exactly the neighbours", "statement": "Moving average, spread, peak-to-peak and median at each place are those of the values at most half a window away, cut off at the ends of the signal.", "quantifier": "all signals and window widths", "why_tests_cant": "needs all lengths, widths and places", "anchors": ["algorithm/include/gnuradio-4.0/algorithm/dataset/DataSetMath.hpp: applyMovingAverage, applyMedian, applyRms, applyPeakToPeak"]}
{"id": "C148", "title": "Look-up in a data set follows the straight line between its points", "statement": "At a point of the axis the value there, between two points the straight line, outside of the axis the first or last value.", "quantifier": "all rising axes, values and places", "why_tests_cant": "needs all places, also those that fall on points and ends", "anchors": ["algorithm/include/gnuradio-4.0/algorithm/dataset/DataSetHelper.hpp: getValue, getIndexValue"]}
{"id": "C149", "title": "Data set arithmetic works place by place on consistent data sets", "statement": "An operation of two data sets works place by place, looking the second one up at the points of the first if their axes differ; an operation with a number works place by place; the result is consistent; signals of a consistent data set do not overlap.", "quantifier": "all data sets and operations", "why_tests_cant": "needs all layouts and values", "anchors": ["algorithm/include/gnuradio-4.0/algorithm/dataset/DataSetMath.hpp: mathFunction, computeDerivative", "algorithm/include/gnuradio-4.0/algorithm/dataset/DataSetHelper.hpp: checkConsistency", "core/include/gnuradio-4.0/DataSet.hpp: DataSet"]}
{"id": "C150", "title": "Savitzky-Golay filters reproduce polynomials and their derivatives", "statement": "Filtering a signal with the coefficients of a chosen polynomial order and derivative gives, wherever the window lies inside the signal and the signal is there a polynomial of at most that order, exactly the value or derivative of that polynomial. The filter is linear, keeps constants up to the ends, continues the signal at its ends as the chosen policy says, and the forward-backward filter does not distinguish past from future.", "quantifier": "all signals, lengths, windows, orders, policies and polynomials", "why_tests_cant": "a continuous range of signals; ends and even window lengths are corner cases for every length", "anchors": ["algorithm/include/gnuradio-4.0/algorithm/filter/SavitzkyGolay.hpp: computeCoefficients, apply, applyZeroPhase, reflectIndex, replicateIndex, boundaryIndex"]}
{"id": "C151", "title": "The streaming Savitzky-Golay filter gives the values of the batch filter, later", "statement": "Fed sample by sample, the filter gives the values of the batch filter, at once with the causal alignment and after the reported delay with the centred one, and the configured value stands in for the samples before the first one if the default policy is chosen. After a reset or new parameters it behaves like a new filter.", "quantifier": "all signals, windows, coefficients and histories before a reset", "why_tests_cant": "needs all signals and start-up phases", "anchors": ["algorithm/include/gnuradio-4.0/algorithm/filter/SavitzkyGolay.hpp: SavitzkyGolayFilter::processOne, reset, setParameters, delay"]}
{"id": "C152", "title": "Active, reactive and apparent power form a right triangle", "statement": "For every group of samples the effective voltage and current are the roots of the averaged squares, apparent power is their product, active power never exceeds it, and the squares of active and reactive power add up to that of the apparent power. One set of values is given for each group of samples, however the stream is cut into calls.", "quantifier": "all voltages, currents, averaging filters and chunkings", "why_tests_cant": "the inequality must hold for every signal, and the values must not depend on the scheduler's chunks", "anchors": ["blocks/electrical/include/gnuradio-4.0/electrical/PowerEstimators.hpp: PowerMetrics::processBulk"]}
{"id": "C153", "title": "Power factor and unbalance of phases are what their names say", "statement": "The power factor is active over apparent power, between -1 and 1, 0 without apparent power, and the cosine of the reported angle. The unbalance of voltages and currents is the greatest distance of a phase from the mean of all phases in percent of that mean: never negative, 0 exactly if all phases are equal, and independent of the unit. Total power is the sum over the phases.", "quantifier": "all powers and numbers of phases", "why_tests_cant": "two different computations for voltages and currents must agree for all values", "anchors": ["blocks/electrical/include/gnuradio-4.0/electrical/PowerEstimators.hpp: PowerFactor::processBulk, SystemUnbalance::processBulk"]}
{"id": "C154", "title": "Extremes, mean, median and spread of a data set are those of the samples in the range", "statement": "The maximum and minimum of a range of a data set are its greatest and least finite values together with a place where they stand, the mean is the sum of the finite values over their number, the median splits them in halves and the spread is the root of the mean squared distance from the mean. A range outside the data is refused.", "quantifier": "all data sets, ranges and positions of values that are not finite", "why_tests_cant": "the position of the extreme within the data and the pattern of missing values are arbitrary", "anchors": ["algorithm/include/gnuradio-4.0/algorithm/dataset/DataSetEstimators.hpp: getMaximum, getMinimum, getMean, getMedian, getRms, checkIndexRange"]}
{"id": "C155", "title": "The area below a data set adds up over ranges and its centre lies between its ends", "statement": "The integral over a range is that of the straight lines between neighbouring samples: exact for straight lines with any spacing, and additive for ranges that share a sample. The centre of mass is the first moment over the total, and lies between the ends of the axis if no value is negative.", "quantifier": "all axes, spacings, values and ranges", "why_tests_cant": "additivity and exactness are statements about all partitions and spacings", "anchors": ["algorithm/include/gnuradio-4.0/algorithm/dataset/DataSetEstimators.hpp: getIntegral, computeCentreOfMass"]}
{"id": "C156", "title": "Widths, duty cycle, frequency and crossings of a data set are where the signal says", "statement": "The full width at half maximum is the distance of the nearest places left and right of the peak where the signal is down to half, interpolated on the straight line between neighbours if asked for. The duty cycle is the share of high samples. The frequency of a signal with evenly spaced edges is one over their distance, without regard to values between the thresholds. A crossing of a threshold lies between the first two neighbours on different sides, on the straight line through them.", "quantifier": "all signals, peaks, thresholds and ranges", "why_tests_cant": "peaks near the ends, flat signals and signals without a crossing are corner cases for every length", "anchors": ["algorithm/include/gnuradio-4.0/algorithm/dataset/DataSetEstimators.hpp: computeFWHM, computeInterpolatedFWHM, getDutyCycle, getFrequencyEstimate, getZeroCrossing"]}
{"id": "C157", "title": "Steps are found where the signal has gone the wanted share of the way, and settling where it has become quiet", "statement": "The start of a step is the first sample that has gone the given share of the way from the first value to the greatest (rising) or least (falling) one; a signal that never changes has no step. The settling time is half a window after the begin of the first window whose spread is within the tolerance, with the mean of that window as level, and two percent of the range as the tolerance if none is given.", "quantifier": "all signals, axes, shares, windows and tolerances", "why_tests_cant": "noise before and after the step takes any form", "anchors": ["algorithm/include/gnuradio-4.0/algorithm/dataset/DataSetEstimators.hpp: detectStepStart, getSettingTime"]}
{"id": "C158", "title": "The place of a peak refined by a Gaussian is exact for Gaussians", "statement": "Refining the place of the greatest sample with its two neighbours gives the exact centre of a Gaussian of any height, width and position, in the unit of an evenly spaced axis; for any other signal the refined place stays within half a sample of the greatest one, and at the ends or next to values that are not positive it is that sample itself.", "quantifier": "all Gaussians, all signals and places", "why_tests_cant": "a continuous range of shapes", "anchors": ["algorithm/include/gnuradio-4.0/algorithm/dataset/DataSetEstimators.hpp: interpolateGaussian, getLocationMaximumGaussInterpolated"]}
{"id": "C159", "title": "Compute domains are read as written and get the memory of their latest provider", "statement": "A text of the form kind, kind:backend or kind:backend:device with a known kind of device is read as exactly these parts, with the usual backend and the default device for parts left out; every other text means the host. Memory for a domain comes from the provider registered last for its backend; the host always has the default memory, and a domain nobody provides for is an error.", "quantifier": "all texts, all sequences of registrations, all domains", "why_tests_cant": "texts are unbounded and registrations come in any order", "anchors": ["core/include/gnuradio-4.0/ComputeDomain.hpp: ComputeDomain::parse, ComputeRegistry::register_provider, resolve, tryResolve, bind"]}
{"id": "C160", "title": "Window functions are symmetric, between 0 and 1 and 1 in the middle", "statement": "Asking for a window of n samples gives n values; only a Kaiser window with a negative shape parameter or one sample is refused. From two samples on every value is a number; every window but the exponential reads the same from both ends; every window but the exponential and the flat top stays between 0 and 1; with an odd number of samples the middle is 1, except for the flat top (4.64), HannExp (0) and the exponential window, which rises from 1. The series for the Kaiser window always comes to an end.", "quantifier": "all kinds of window, all lengths, all shape parameters and precisions", "why_tests_cant": "lengths and shape parameters are unbounded, the values are real functions of them", "anchors": ["algorithm/include/gnuradio-4.0/algorithm/fourier/window.hpp: create, bessel_i0"]}
{"id": "C161", "title": "A setting with limits never takes a value outside them", "statement": "A setting with limits takes over a value that lies between the limits and that its validator accepts, and refuses every other, also if the validator throws; a refused value leaves the setting and the record of applied values as they were. After any sequence of values the setting holds the last allowed one, and if it started within its limits it stays within them.", "quantifier": "all limits, validators, values and sequences of values", "why_tests_cant": "values, validators and histories are unbounded", "anchors": ["core/include/gnuradio-4.0/annotated.hpp: Limits::validate, Annotated::validate_and_set", "core/include/gnuradio-4.0/Settings.hpp: applyStagedImpl"]}
{"id": "C162", "title": "The meta-information of a port follows the tags it receives", "statement": "After a tag the sample rate, signal name, quantity, unit, minimum and maximum of a port are each the last value of the right type the tag has for it, with or without the prefix, or what they were before; no other key has an effect, and the type of the data and the name of the port never change. An error is reported exactly if the tag has a value of the wrong type for one of the six. What a port says about itself can be read into another port without an error.", "quantifier": "all ports, all tags with any number of entries in any order", "why_tests_cant": "tags are unbounded maps with arbitrary keys and types", "anchors": ["core/include/gnuradio-4.0/Port.hpp: PortMetaInfo::update, PortMetaInfo::get", "core/include/gnuradio-4.0/Tag.hpp: settingsKey, kDefaultTags"]}
{"id": "C163", "title": "Every value of a spectrum stands at its frequency", "statement": "In the data set of an FFT block the frequencies rise in steps of the sample rate divided by the size, from 0 for real and from minus half the rate for complex input, and magnitude, phase, real part and imaginary part at each place are those of the bin of the frequency there. Magnitudes are 20 log10 in decibels; unwrapping keeps the first phase, changes the others by whole turns and leaves no step of more than half a turn; the ranges are the least and greatest values. There is a data set for every input of two samples or more.", "quantifier": "all sizes, transforms, settings and inputs", "why_tests_cant": "the order of the bins depends on the parity of the size and the kind of input, unwrapping on all phases before", "anchors": ["algorithm/include/gnuradio-4.0/algorithm/fourier/fft_common.hpp: computeMagnitudeSpectrum, computePhaseSpectrum, unwrapPhase", "blocks/fourier/include/gnuradio-4.0/fourier/fft.hpp: FFT::processBulk, FFT::createDataset"]}
{"id": "C164", "title": "The complex type for devices computes with complex numbers", "statement": "Every expression of sums, differences, products, quotients, multiples and conjugates of gr::complex values in which nothing is divided by zero has the value it has for complex numbers, up to rounding; abs, norm, arg and polar are absolute value, its square, argument and polar form; the operators that change a variable agree with those that do not, also for z *= z.", "quantifier": "all expressions of any depth, all values", "why_tests_cant": "expressions and values are unbounded; tests compare a few products", "anchors": ["core/include/gnuradio-4.0/Complex.hpp: complex, abs, norm, arg, conj, polar"]}
{"id": "C165", "title": "Each id of the device registry belongs to the first device registered under it", "statement": "After any registrations a search for an id gives the first device registered under it, or nothing if there was none; later devices with the same id are ignored. If every id is used by one type only, a search with a type gives an object of that type or nothing. Permission is asked for exactly the registered devices that have their interface and no permission yet.", "quantifier": "all histories of registrations, all ids", "why_tests_cant": "registrations come from any number of static objects in any order", "anchors": ["blocks/common/include/gnuradio-4.0/common/DeviceRegistry.hpp: DeviceRegistry::add, find, findAs, requestAllPermissions, isGranted, grantedCount"]}
{"id": "C166", "title": "Pulses are published once for each second, with the time of the second", "statement": "On a clock that does not go back, the pulses of a PPS source have strictly increasing times, each the first full second after the wait for it began (less the offset of TAI), with the delay of the wake-up as the offset, whatever waits are interrupted or fail; no second is left out if each wait begins within the second after the pulse before. Pulses are numbered 0, 1, 2, ...; a pulse of the hardware has the full second and the distance to it. The mode is the one asked for, or NTP if its device cannot be used.", "quantifier": "all histories of clock readings, interrupted and failed calls, all modes", "why_tests_cant": "the kernel's answers and the delays are arbitrary and endless", "anchors": ["blocks/timing/include/gnuradio-4.0/PpsSource.hpp: PpsSource::ioLoop, waitForClockPps, waitForHwPps, publishPpsTick, resolveClockMode"]}
{"id": "C167", "title": "Every tag of a test source is at its sample", "statement": "A TagSource with tags in order of their indices publishes each tag at the sample with its index, several of one index in order, whatever room each call has for samples and whether it works in bulk or on single samples; with repetition the tags come again, counted from the sample after the last tag. A finite source produces its number of samples and ends; with values the samples are these over and over.", "quantifier": "all lists of tags, settings and sequences of call sizes", "why_tests_cant": "the chunks in which a source is called are the scheduler's choice", "anchors": ["blocks/testing/include/gnuradio-4.0/testing/TagMonitors.hpp: TagSource::processOne, TagSource::processBulk, TagSource::generateTag"]}
{"id": "C168", "title": "The test sink and monitor log a stream as it is, however it is cut", "statement": "A TagSink or TagMonitor that was given a whole stream, in calls of any sizes, has logged every tag under the number of its sample and every sample, in order, and has called back once for each tag; a monitor passes on its input unchanged; a sink is done exactly if it expects a number of samples and has had them.", "quantifier": "all streams, all cuts into calls", "why_tests_cant": "the chunks in which a sink is called are the scheduler's choice", "anchors": ["blocks/testing/include/gnuradio-4.0/testing/TagMonitors.hpp: TagSink, TagMonitor"]}
{"id": "C169", "title": "Maps and lists of tags compare equal exactly if their content is", "statement": "Two maps that do not share their memory are equal exactly if they have the same keys with equal values, in any order. The comparison of lists of tags for tests is true exactly if the lists have the same length and, at each place, the indices differ by the tolerance at most and the maps agree on all keys that are not ignored.", "quantifier": "all maps without a repeated key, all lists of tags, ignored keys and tolerances that are not negative", "why_tests_cant": "the order of entries depends on the history of each map, and a key missing on one side only is easily missed by a one-sided loop", "anchors": ["core/include/gnuradio-4.0/ValueMap.hpp: ValueMap::operator==", "blocks/testing/include/gnuradio-4.0/testing/TagMonitors.hpp: equal_tag_lists"]}
{"id": "C170", "title": "Merging sorted ranges loses nothing and sorts; thinning out drops only duplicates", "statement": "The merge of any number of ranges has all their elements and no others, each range in its own order; if the ranges are sorted so is the merge, with equal elements in the order of the ranges they are from. Deduplication drops an element exactly if an earlier element of its run of the same group is equal to it, and keeps the rest in order.", "quantifier": "all numbers and contents of ranges, all strict weak orders, all groupings that are equivalences", "why_tests_cant": "the choice among equal elements and the search back over the results of earlier groups depend on the whole input", "anchors": ["meta/include/gnuradio-4.0/meta/RangesHelper.hpp: MergeView, PairDeduplicateView"]}
{"id": "C171", "title": "Names of files and URIs are told apart, and a file URI gives the path it names", "statement": "A name is a local path exactly if it has no ':/' in it, and is used as it is. A name with a scheme of letters is of the kind of its scheme in small or capital letters, all others are not supported. A file URI with no host or localhost gives the absolute path it names, one with another host is refused; every absolute path written as a file URI gives itself. The name of a download is all that is after its scheme.", "quantifier": "all strings", "why_tests_cant": "names come from users and may have the separators anywhere, any number of times", "anchors": ["algorithm/include/gnuradio-4.0/algorithm/fileio/FileIoHelpers.hpp: classifyUri, toLocalPath, stripDownloadUri"]}
{"id": "C172", "title": "An HTTP source publishes every answer once, an HTTP sink sends what it is given", "statement": "However answers arrive and the source is called, it has published the content of the first answers, each once and in order; it is done at the final message, fails at an error, and until then the others wait. A sink sends the bytes of a call whole as one request or not at all, in order and none twice, one request at a time, and reports a failed request at the next call; every byte it consumes is sent.", "quantifier": "all orders of arrivals and calls, all durations and results of requests", "why_tests_cant": "how long a request takes against how often the block is called depends on the network and the scheduler", "anchors": ["blocks/http/include/gnuradio-4.0/http/HttpBlock.hpp: HttpSource, HttpSink"]}
{"id": "C173", "title": "A number shown with a prefix stands for the number given", "statement": "The number shown times its prefix is the number given; from 10^-30 up to 10^33 the number shown is from 1 to below 1000 and there is a prefix for it. Numbers with a prefix for large numbers show three digits if no number of digits is asked for, and if two or more digits are asked for the number of digits shown does not depend on the size.", "quantifier": "all numbers, all numbers of digits", "why_tests_cant": "the ends of the table are reached only by numbers far outside those of tests", "anchors": ["blocks/testing/include/gnuradio-4.0/testing/PerformanceMonitor.hpp: details::to_si_prefix"]}

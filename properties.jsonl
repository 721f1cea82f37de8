{"id": "C01", "title": "A failed update changes nothing", "statement": "If update_with_code returns an error (syntax error, unknown sample, unknown reference), the music that was playing continues: the program in force, the chain table, every live audio node with its state and buffers, every connection and the engine settings are exactly what they were before the call, so every later next_block produces the same output as if the call had never been made.", "quantifier": "for every engine state reachable by any history of API calls that has not panicked, every program text, every node implementation and every HashMap iteration order", "why_tests_cant": "A test fixes one old program and one bad program; the roll-back has to be right for every combination of removed, kept and added nodes and for each of the places where the update can fail.", "anchors": ["rs/main/src/lib.rs: Engine::update_with_code", "rs/main/src/lib.rs: Engine::clean_up", "rs/main/src/util.rs: makenode"]}
{"id": "C02", "title": "The chain table mirrors the program", "statement": "After a successful update, for every chain of the program the engine's chain table lists exactly one live node per component, in program order, the i-th node having been created from a component equal to the i-th component of the chain.", "quantifier": "for every consistent engine state, every old and new program and every HashMap iteration order", "why_tests_cant": "The diff is driven by component equality and by positions that shift while nodes are removed and inserted; only a proof over all pairs of chains covers every edit script (and it is the edit scripts with repeated or re-ordered components that break it).", "anchors": ["rs/main/src/lib.rs: Engine::update_with_code (diff, removal and insertion phases)", "rs/parser/src/nodes.rs: Component (PartialEq)"]}
{"id": "C03", "title": "Unchanged components keep their node and its state", "statement": "Across a successful update, a component that occurs both in the old and in the new version of a chain keeps the very same audio node, so its internal state (phase, envelope, delay line) and output buffers are not restarted by editing other parts of the program.", "quantifier": "for every consistent engine state and every pair of old and new program", "why_tests_cant": "Continuity must survive every possible edit around the kept component, in the same chain or in others.", "anchors": ["rs/main/src/lib.rs: Engine::update_with_code"]}
{"id": "C04", "title": "No leaked and no dangling nodes", "statement": "After any history of calls, the set of live nodes in the audio graph is exactly: the destination, the context input, and the nodes listed in the chain table; no node is listed twice and every listed node is live.", "quantifier": "for every finite history of update_with_code (successful or not), send_msg, set_bpm, set_sr, set_seed, add_sample, next_block and reset that does not panic", "why_tests_cant": "It is an invariant over unbounded histories; a leak only shows after particular sequences of failing and succeeding updates.", "anchors": ["rs/main/src/lib.rs: Engine", "rs/main/src/lib.rs: Engine::update_with_code", "rs/main/src/lib.rs: Engine::clean_up", "rs/main/src/lib.rs: Engine::reset"]}
{"id": "C05", "title": "update_with_code does not panic on consistent engines", "statement": "Calling update_with_code on an engine whose chain table mirrors its program never hits an out-of-bounds index, an out-of-range insertion or a missing table entry.", "quantifier": "for every engine reachable by successful and failed updates and every new program", "why_tests_cant": "The panics need a particular sequence of two or three edits; testing single edits cannot exclude them.", "anchors": ["rs/main/src/lib.rs: Engine::update_with_code (lines 284-297, 321, 508-529)"]}
{"id": "C06", "title": "The connections after an update are exactly those the program describes", "statement": "After a successful update the edges of the audio graph are exactly: one edge between each pair of neighbouring components of every chain, one edge from the last node of each chain whose name has no tilde to the destination, and one edge from the last node of each referenced chain to the referring node; nothing from the previous program remains.", "quantifier": "for every consistent engine state, every program and every HashMap iteration order", "why_tests_cant": "Edges are rebuilt from lists collected during the diff; only a proof covers every combination of kept and new referring nodes.", "anchors": ["rs/main/src/lib.rs: Engine::update_with_code (lines 501-548)", "rs/synth/src/context.rs: AudioContext::connect, connect_with_order"]}
{"id": "C07", "title": "Unresolved references are always rejected, and only those", "statement": "An update whose program parses and whose samples exist succeeds if and only if every reference occurring in it names a chain of the new program or the built-in ~input chain (for loose references 'x..': at least one chain name starts with x); otherwise it returns NonExistReference carrying the name of an unresolved reference. In particular deleting a chain that is still referenced is rejected.", "quantifier": "for every consistent engine state, every program and every HashMap iteration order", "why_tests_cant": "The check uses lists assembled by the diff, the new program and the already modified chain table; a stale entry in any of them would only show for particular pairs of programs.", "anchors": ["rs/main/src/lib.rs: handle_ref_check", "rs/parser/src/nodes.rs: Component::all_references", "rs/main/src/util.rs: makenode"]}
{"id": "C08", "title": "Reference chains are silent unless used, other chains are audible", "statement": "After a successful update a node has an edge to the destination exactly if it is the last node of a chain whose name does not contain '~'.", "quantifier": "for every consistent engine state and every program", "why_tests_cant": "Universally quantified over programs and over update histories (stale output edges would make removed chains audible).", "anchors": ["rs/main/src/lib.rs: Engine::update_with_code (lines 501, 534-548)"]}
{"id": "C09", "title": "One block processes every needed node exactly once, sources first", "statement": "In one next_block every node from which the destination can be reached is processed exactly once, no other node is processed, and when the part of the graph that reaches the destination has no cycle every node is processed after all nodes that feed it, so that a block contains no stale data.", "quantifier": "for every audio graph (any number of nodes, any edges including parallel edges, any slot numbering)", "why_tests_cant": "Depth-first post-order with an explicit stack is correct only by an invariant over all graphs; tests try a handful of shapes.", "anchors": ["rs/synth/src/graph.rs: process", "rs/synth/src/graph.rs: Processor"]}
{"id": "C10", "title": "Feedback never hangs the audio thread", "statement": "Processing a block terminates for every graph, including graphs with cycles and self references, and processes each node at most once.", "quantifier": "for every audio graph", "why_tests_cant": "Termination on all cyclic graphs cannot be tested exhaustively.", "anchors": ["rs/synth/src/graph.rs: process"]}
{"id": "C11", "title": "Nodes that do not feed the output are frozen", "statement": "A node from which the destination cannot be reached keeps its state and its buffers unchanged while blocks are rendered, and cannot influence the rendered output.", "quantifier": "for every graph, every node implementation and every number of blocks", "why_tests_cant": "Non-interference over all graphs and node behaviours.", "anchors": ["rs/synth/src/graph.rs: process"]}
{"id": "C12", "title": "reset returns the engine to its initial state", "statement": "After reset() the engine behaves like a newly created engine with the same sample rate: same chain table (including the built-in ~input chain), same live nodes, no program.", "quantifier": "for every engine state", "why_tests_cant": "reset must restore every field from every reachable state.", "anchors": ["rs/main/src/lib.rs: Engine::reset", "rs/main/src/lib.rs: Engine::new", "rs/synth/src/context.rs: AudioContext::reset"]}
{"id": "C13", "title": "External input can always be supplied", "statement": "next_block with two input slices of block length never panics because of the input copy and places them in the buffers of the built-in ~input node, in every state reachable from a new engine.", "quantifier": "for every history of API calls", "why_tests_cant": "Requires the built-in chain to survive every update and reset.", "anchors": ["rs/main/src/lib.rs: Engine::next_block", "rs/main/src/lib.rs: Engine::new", "rs/main/src/lib.rs: Engine::reset"]}
{"id": "C14", "title": "send_msg reaches exactly the addressed node and ignores malformed commands", "statement": "For every message text send_msg delivers each well-formed command 'chain,position,parameter,value' to the node at that position of that chain and to no other node, leaves connections, chain table and program untouched, and skips commands with fewer than four fields or with an unknown chain name.", "quantifier": "for every engine state and every message string", "why_tests_cant": "All strings, all engine states.", "anchors": ["rs/main/src/lib.rs: Engine::send_msg"]}
{"id": "C15", "title": "Tempo changes reach every tempo-dependent node", "statement": "After set_bpm(b) every tempo-dependent node already in the graph uses the same tempo as a node created afterwards from the same component.", "quantifier": "for every engine state, every tempo and every component", "why_tests_cant": "Quantifies over every component kind and every graph.", "anchors": ["rs/main/src/lib.rs: Engine::set_bpm", "rs/synth/src/context.rs: AudioContext::send_msg_to_all", "rs/synth/src/node/sequencer/seq.rs: Sequencer::send_msg", "rs/synth/src/node/sequencer/arrange.rs: Arrange::send_msg"]}
{"id": "C16", "title": "Re-evaluating the same program is a no-op", "statement": "Sending the program that is already in force again succeeds, creates and removes no node, and leaves every connection and the input each reference of a node is read from unchanged.", "quantifier": "for every consistent engine state and every program", "why_tests_cant": "Idempotence over all programs; the failing ones have repeated references.", "anchors": ["rs/main/src/lib.rs: Engine::update_with_code", "rs/main/src/util.rs: makenode (Seq arm)", "rs/parser/src/nodes.rs: Component::all_references"]}
{"id": "C17", "title": "The result of an update does not depend on hash iteration order", "statement": "Whether an update succeeds, which chains exist, the nodes kept, and the set of connections (up to the numbering of freshly created nodes) are the same for every iteration order of the hash maps involved.", "quantifier": "for every engine state, every program and every pair of iteration orders", "why_tests_cant": "hashbrown's iteration order is not controllable from a test.", "anchors": ["rs/main/src/lib.rs: Engine::update_with_code", "rs/parser/src/lib.rs: get_ast"]}
{"id": "C18", "title": "delayn n delays by exactly n samples", "statement": "The output of delayn n at sample t is its input at sample t-n, and 0 before, for any partition of the stream into blocks.", "quantifier": "for every n >= 1, every input stream, every block size and every number of blocks", "why_tests_cant": "Unbounded streams; wrap-around of the ring buffer relative to block boundaries.", "anchors": ["rs/synth/src/node/delay/delayn.rs: DelayN::process"]}
{"id": "C19", "title": "delayms delays by the configured time", "statement": "With a fixed delay of d milliseconds both channels of the output are the input delayed by max(1, floor(d/1000*sr)) samples, a mono input being heard on both channels; a delay set to 0 passes both channels of the input through.", "quantifier": "for every delay time, sample rate, input stream and block size", "why_tests_cant": "Unbounded streams and all parameters.", "anchors": ["rs/synth/src/node/delay/delayms.rs: DelayMs"]}
{"id": "C20", "title": "imp fires exactly once per period", "statement": "imp f outputs 1.0 exactly at the sample positions that are multiples of floor(sr/f) and 0.0 at all others, for ever and independently of the block size; it never panics.", "quantifier": "for every frequency, sample rate, block size and number of blocks", "why_tests_cant": "Unbounded time, all frequencies (the frequencies above the sample rate panic).", "anchors": ["rs/synth/src/node/signal/imp.rs: Impulse"]}
{"id": "C21", "title": "seq divides the bar among all its notes and plays each once per bar", "statement": "Every note written in a seq pattern triggers exactly once in every bar, at its position in the bar (the bar being divided among the space-separated groups and each group among its elements).", "quantifier": "for every pattern, tempo, sample rate and bar number", "why_tests_cant": "All patterns and unbounded time.", "anchors": ["rs/parser/src/nodes.rs: Seq::parse_from_iter", "rs/synth/src/node/sequencer/seq.rs: Sequencer::process"]}
{"id": "C22", "title": "envperc is bounded and falls silent", "statement": "The output of envperc always lies between 0 and the last trigger amplitude, and is 0 once more than attack+decay has passed since the last trigger; without a trigger it is silent.", "quantifier": "for every attack, decay, trigger sequence and block size", "why_tests_cant": "All trigger sequences.", "anchors": ["rs/synth/src/node/envelope/envperc.rs: EnvPerc"]}
{"id": "C23", "title": "adsr stays within [0,1] and follows its stages", "statement": "For a sustain level in [0,1] the adsr output lies in [0,1], is 0 before the first trigger and after release, reaches 1 at the end of the attack and holds the sustain level while the gate is held.", "quantifier": "for every parameter setting and every gate sequence", "why_tests_cant": "All gate sequences.", "anchors": ["rs/synth/src/node/envelope/adsr.rs: Adsr"]}
{"id": "C24", "title": "Oscillators stay within [-1,1]", "statement": "The outputs of saw, squ, tri and sin always lie in [-1,1] and their phase stays in [0,1], under f32 rounding.", "quantifier": "for every frequency in [0, sr], sample rate, modulation input, block size and number of samples", "why_tests_cant": "Floating-point accumulation over unbounded time.", "anchors": ["rs/synth/src/node/oscillator/mod.rs: process_oscillation", "rs/synth/src/node/oscillator/saw_osc.rs", "rs/synth/src/node/oscillator/squ_osc.rs", "rs/synth/src/node/oscillator/tri_osc.rs", "rs/synth/src/node/oscillator/sin_osc.rs"]}
{"id": "C25", "title": "choose always outputs an element of its list", "statement": "Each value choose emits on a trigger is one of the listed numbers; the index computation never goes out of bounds.", "quantifier": "for every non-empty list, seed and number of triggers, under f32/f64 rounding", "why_tests_cant": "The index comes from a floating-point product; all random values and list lengths.", "anchors": ["rs/synth/src/node/sequencer/choose.rs: Choose::process"]}
{"id": "C26", "title": "A breakpoint envelope interpolates and then holds its last value", "statement": "A non-looping points node outputs the linear interpolation between the two neighbouring breakpoints and, after the last breakpoint, its value for ever.", "quantifier": "for every list of breakpoints and every time", "why_tests_cant": "All breakpoint lists and times.", "anchors": ["rs/synth/src/node/signal/points.rs: Points::process"]}
{"id": "C27", "title": "Sample playback never reads outside the sample", "statement": "For every trigger pattern and pitch the sampler reads only valid indices of the sample data and does not panic.", "quantifier": "for every sample content, channel count, trigger stream, sample rates", "why_tests_cant": "Indices come from rounded floating-point positions.", "anchors": ["rs/synth/src/node/sampling/sampler.rs: Sampler::process", "rs/synth/src/node/sampling/psampler.rs: PSampler::process"]}
{"id": "C28", "title": "mix outputs the sum of all the chains it lists", "statement": "The output of mix (and of the destination) is, per channel, the sum of the outputs of all listed chains, mono inputs being sent to both channels.", "quantifier": "for every number of inputs, every channel layout and every buffer content", "why_tests_cant": "All numbers of inputs and repeated references.", "anchors": ["rs/synth/src/node/sum.rs: Sum2", "rs/synth/src/graph.rs: process"]}
{"id": "C29", "title": "The wasm error buffer is always well-formed", "statement": "update() always returns exactly 256 bytes: byte 0 is 0 on success and the error class 1, 2 or 3 otherwise, byte 1 is 0, and the rest is the error message cut to 254 bytes and padded with zeros.", "quantifier": "for every program text and every message length", "why_tests_cant": "All message lengths, including those around the buffer limit.", "anchors": ["rs/wasm/src/lib.rs: update, write_err_to_buf"]}
{"id": "C30", "title": "The wasm process buffer carries left then right channel", "statement": "process(out, size) fills the first half of out with the left channel and the second half with the right channel and never panics.", "quantifier": "for every buffer size", "why_tests_cant": "All sizes (only even sizes up to twice the block length work).", "anchors": ["rs/wasm/src/lib.rs: process"]}
{"id": "C31", "title": "The parser never panics", "statement": "get_ast returns Ok or Err for every input string.", "quantifier": "for every input string", "why_tests_cant": "All strings.", "anchors": ["rs/parser/src/lib.rs: get_ast", "rs/parser/src/nodes.rs: CodeBlock::parse_from_iter", "rs/parser/src/glicol.pest"]}
{"id": "C32", "title": "Printing and re-parsing a program gives it back", "statement": "For every program built from the listed component kinds, the text obtained by writing its chains in Glicol syntax parses to exactly that program.", "quantifier": "for every list of distinct chain names and every list of components in the covered fragment", "why_tests_cant": "Unbounded programs; PEG ordered choice and the negative lookahead on node names make this fragile.", "anchors": ["rs/parser/src/glicol.pest", "rs/parser/src/lib.rs: get_ast", "rs/parser/src/nodes.rs"]}
{"id": "C33", "title": "Accepted programs are well-formed", "statement": "Every program accepted by the parser consists of chains with non-empty names and at least one component each, with no duplicate chain name, the last definition of a name being the one in force.", "quantifier": "for every input string", "why_tests_cant": "All strings.", "anchors": ["rs/parser/src/lib.rs: get_ast", "rs/parser/src/glicol.pest"]}
{"id": "C34", "title": "Rendering is independent of the block size", "statement": "A component that treats its inputs sample by sample turns the same input streams into the same output stream in whatever blocks it is rendered. So the same text, sent to engines with different block sizes, sounds the same, sample for sample, if nothing in it feeds back.", "quantifier": "for every two block sizes, every component covered, every text made of them, every input stream, every number of blocks, all iteration orders and node numbers in either engine", "why_tests_cant": "All pairs of block sizes, all programs and all streams; a test compares one text at one or two block sizes.", "anchors": ["rs/synth/src/graph.rs: Processor::process", "rs/main/src/lib.rs: Engine::next_block", "rs/synth/src/node/oscillator/saw_osc.rs", "rs/synth/src/node/delay/delayn.rs", "rs/synth/src/node/signal/imp.rs", "rs/synth/src/node/filter/onepole.rs", "rs/synth/src/node/sequencer/choose.rs", "rs/synth/src/node/filter/rhpf.rs", "rs/synth/src/node/dynamic/eval.rs", "rs/synth/src/node/dynamic/meta.rs"]}
{"id": "C35", "title": "The code/parameter ring buffer is a linearizable FIFO", "statement": "Under every interleaving of one producer and one consumer, the bytes popped so far are a prefix of the bytes pushed so far, in order, none lost or duplicated, and a push never overwrites unread bytes.", "quantifier": "for every interleaving, every capacity and every sequence of push and pop sizes", "why_tests_cant": "Schedules cannot be enumerated by tests.", "anchors": ["js/npm/ringbuf.js: RingBuffer.push, RingBuffer.pop"]}
{"id": "C36", "title": "mul and add with a number apply it to every sample of every channel", "statement": "mul v outputs exactly its input times v on each sample of each channel, and mul ~ref multiplies sample by sample with the referenced signal (the main signal being the left neighbour in the chain); likewise add.", "quantifier": "for every buffer content, channel layout and block size", "why_tests_cant": "All buffers.", "anchors": ["rs/synth/src/node/operator/mod.rs: apply_op", "rs/synth/src/node/operator/mul.rs", "rs/synth/src/node/operator/add.rs"]}
{"id": "C37", "title": "Playing an accepted program never panics", "statement": "After a successful update, next_block never panics.", "quantifier": "for every accepted program and every number of blocks", "why_tests_cant": "All programs; several single-component programs violate it.", "anchors": ["rs/main/src/lib.rs: Engine::next_block", "rs/synth/src/node/effect/pan.rs: Pan::process", "rs/synth/src/node/delay/delayms.rs: DelayMs::process", "rs/synth/src/node/signal/imp.rs: Impulse::process"]}
{"id": "C38", "title": "The voices of the message synth are independent of each other", "statement": "In msgsynth the list of sounding notes and the list of their oscillator phases always stay in step: a sample removes exactly the notes that started more than attack+decay ago, from both lists, without an index out of bounds. For notes asked for before any blocks, the output at each time is the sum, over the notes then sounding, of one sawtooth per note that depends only on the pitch of the note and the time since its start; a note sounds from its start for attack+decay.", "quantifier": "for every state of the voices; for every sequence of blocks and every sequence of note messages before each of them, every attack and decay with sum from 0 to 2^30 s, every sample rate up to 2^24", "why_tests_cant": "All message sequences and interleavings with blocks; any number of simultaneous notes.", "anchors": ["rs/synth/src/node/synth/msgsynth.rs: MsgSynth", "rs/synth/src/node/synth/pattern_synth.rs: PatternSynth"]}
{"id": "C39", "title": "The status queries of the ring buffer tell the truth", "statement": "Between calls, empty() is true exactly if nothing is queued, full() exactly if no further element can be queued, available_read() is the number of queued elements and available_write() the number of elements that can still be queued.", "quantifier": "for every capacity and every history of push and pop calls under every interleaving", "why_tests_cant": "Pointer wrap-around makes the answer depend on the whole history; the wrong answers only show in the empty and the full state.", "anchors": ["js/npm/ringbuf.js: RingBuffer.empty, full, available_read, available_write"]}
{"id": "C40", "title": "Setting a parameter by message is the same as writing it", "statement": "Sending a number for the i-th parameter of a node before it plays has the same audible effect, for all later inputs and messages, as having written that number in the program.", "quantifier": "for every node kind, every parameter, every number sent, every later message sequence and every input stream", "why_tests_cant": "All numbers, all later inputs; the exceptional values (0, out of range) are exactly those nobody tests.", "anchors": ["rs/synth/src/node: Node::send_msg of every node", "rs/main/src/lib.rs: Engine::send_msg", "rs/main/src/util.rs: makenode"]}
{"id": "C41", "title": "Oscillators stay within [-1,1] under any frequency modulation", "statement": "The outputs of saw, squ and tri lie in [-1,1] whatever finite signal, including a negative one, modulates their frequency.", "quantifier": "for every modulation signal and every number of samples", "why_tests_cant": "The deviation grows without bound over time and only for signals that go below zero.", "anchors": ["rs/synth/src/node/oscillator/mod.rs: process_oscillation", "rs/synth/src/node/oscillator/saw_osc.rs", "rs/synth/src/node/oscillator/squ_osc.rs", "rs/synth/src/node/oscillator/tri_osc.rs", "rs/synth/src/node/oscillator/sin_osc.rs"]}
{"id": "C42", "title": "The output does not depend on the iteration order of hash maps", "statement": "The sum of the inputs of mix and of the destination is the same in whatever order the hash map of the inputs is iterated.", "quantifier": "for every number of inputs, every buffer content and every iteration order", "why_tests_cant": "The iteration order is an implementation detail a test run cannot vary; the differences are rounding differences.", "anchors": ["rs/synth/src/node/sum.rs: Sum2::process", "rs/synth/src/graph.rs: process"]}
{"id": "C43", "title": "Looping breakpoints repeat every bar and interpolate between neighbours", "statement": "A points node with loop set plays a signal that repeats exactly with the length of the span, and between two neighbouring breakpoints its value lies between their values, on the straight line through them.", "quantifier": "for every list of breakpoints, every tempo, sample rate, block size and every time", "why_tests_cant": "Infinitely many breakpoint lists and an unbounded running time; the wrong neighbour is audible only for some shapes.", "anchors": ["rs/synth/src/node/signal/points.rs: Points::process", "rs/parser/src/nodes.rs: Rule::points", "rs/main/src/util.rs: makenode"]}
{"id": "C44", "title": "The sounds of several triggers of a sample add up", "statement": "The output of a sampler for a stream of triggers is, at every time, the sum (in order of the triggers) of what each trigger alone would have produced, on both channels.", "quantifier": "for every sample, every trigger stream (including NaN and infinities), every block size and every time", "why_tests_cant": "Unboundedly many overlapping voices; depends on voices being removed neither too early nor too late.", "anchors": ["rs/synth/src/node/sampling/sampler.rs: Sampler::process"]}
{"id": "C45", "title": "A sample played at its original speed is unchanged", "statement": "A sample whose sample rate is that of the engine, triggered with 1, is put out value by value and followed by silence.", "quantifier": "for every sample content and sample rate", "why_tests_cant": "All sample contents and lengths; a test with a constant or very smooth sample does not notice.", "anchors": ["rs/synth/src/node/sampling/sampler.rs: Sampler::process"]}
{"id": "C46", "title": "A sample pattern sounds like its samples triggered at their times", "statement": "The output of psampler is, on both channels, the sum of the sounds of its samples (as sp would play them when triggered with 1), each started whenever its time within the bar comes.", "quantifier": "for every pattern, every set of samples, every tempo, sample rate, block size and time", "why_tests_cant": "All patterns and mixtures of mono and stereo samples, unbounded time.", "anchors": ["rs/synth/src/node/sampling/psampler.rs: PSampler::process", "rs/main/src/util.rs: makenode"]}
{"id": "C47", "title": "Inputs are wired in the written order", "statement": "After a successful update, the list of inputs that a node keeps for telling its inputs apart starts with the node to its left in the chain, followed by the sources of the references of its component in the order they are written; a node with references keeps nothing else, in particular no index left over from earlier programs.", "quantifier": "for every history of calls and every program, every chain, every position in it, every hash iteration order", "why_tests_cant": "All histories of programs, including those that insert, remove or replace neighbours and reference targets.", "anchors": ["rs/main/src/lib.rs: Engine::update_with_code (connection part)", "rs/synth/src/context.rs: AudioContext::connect, connect_with_order"]}
{"id": "C48", "title": "A block computes the program in force", "statement": "Each block, every component from which a signal leads to the output runs exactly once, on exactly the signals of its left neighbour and of the chains its references mean (for base.. all chains whose name begins with base), as computed in the same block; what is returned is what the node of the output makes of the last components of the chains without ~. Only in a feedback loop may a component hear the previous block of a source. The components keep their nodes, and a node starts from the state and buffers it ended the previous block with, except that the external input is put into the node of ~input.", "quantifier": "for every history of calls, every program in force, every component in it, every block size, every external input, every hash iteration order", "why_tests_cant": "It relates the whole signal graph after every history of edits to the text in force; tests can only sample programs and histories.", "anchors": ["rs/main/src/lib.rs: Engine::next_block, update_with_code", "rs/synth/src/context.rs: AudioContext::next_block", "rs/synth/src/graph.rs: process"]}
{"id": "C49", "title": "What is heard is the program's components, each run as its own processor, one after another", "statement": "After an accepted update, over any number of blocks, every component from which a signal leads to the output produces exactly what a freshly made processor of that component produces when it is fed, block after block, the signals of its left neighbour and of the chains it refers to; a component kept from the previous program goes on from where it was. The output is, sample by sample, the sum of the last components of the chains without ~, a single channel sounding on both sides. A generator at the head of a chain sounds as it does alone, and an effect without references sounds as it does on the signal to its left.", "quantifier": "for every history, every accepted program, every number of blocks, every block size, every external input, every hash iteration order in each block", "why_tests_cant": "It says that whole programs are compositions of single processors over unbounded time; tests can only compare finitely many blocks of finitely many programs.", "anchors": ["rs/main/src/lib.rs: Engine::update_with_code, next_block", "rs/main/src/util.rs: makenode", "rs/synth/src/context.rs: AudioContext::next_block", "rs/synth/src/graph.rs: process", "rs/synth/src/node/sum.rs: Sum2", "rs/synth/src/node/pass.rs: Pass"]}
{"id": "C50", "title": "`x >> mul ~a` and `x >> add ~a` combine two signals sample by sample in any program", "statement": "While a program is in force, a component mul ~a (add ~a) plays, in every block, on each side and at each sample, the product (sum) of the samples its left neighbour and the last component of ~a play at the same moment, a single channel being taken on both sides, in whatever order the engine visits the inputs; where ~a depends on the component itself, ~a's block may be the one before.", "quantifier": "for every program, every history of edits leading to it, every place of the component in it, every kind of signal on either side, every number of blocks, every hash iteration order", "why_tests_cant": "The order in which the two inputs are visited depends on hash iteration and on the edges made by earlier edits, and the samples range over all signals.", "anchors": ["rs/synth/src/node/operator/mul.rs: Mul::process", "rs/synth/src/node/operator/add.rs: Add::process", "rs/main/src/lib.rs: Engine::update_with_code, update, next_block"]}
{"id": "C51", "title": "Noise runs through its generator without skipping or repeating", "statement": "Sample t of `noise s` is value t of the generator with seed s, whatever the block length and whatever is connected: no value is skipped, repeated or drawn again at a block boundary, so two noise components with the same seed started together are equal sample by sample.", "quantifier": "for every seed, every block size, every number of blocks, every input", "why_tests_cant": "Repetition or skipping may show only at block boundaries far into a stream; the claim is about every sample of an unbounded stream.", "anchors": ["rs/synth/src/node/signal/noise.rs: Noise::new, Noise::process"]}
{"id": "C52", "title": "`balance ~a ~b` puts the first signal on the left and the second on the right", "statement": "`balance ~a ~b` plays the samples of ~a on the left and those of ~b on the right, unchanged and at the same time, in whatever order the engine happens to visit the two chains in each block, in any program and after any edits; where ~a or ~b depends on the balance itself, its block may be the one before.", "quantifier": "for every program, every history of edits leading to it, every pair of signals, every block size, every number of blocks, every visiting order in each block", "why_tests_cant": "Which input comes first depends on hash iteration, which may change from block to block.", "anchors": ["rs/synth/src/node/effect/balance.rs: Balance::process", "rs/main/src/util.rs: makenode"]}
{"id": "C53", "title": "`arrange` plays each chain for its number of bars, then starts over", "statement": "In `arrange ~a 2 ~b 1 ...` chain j sounds from the end of the chains before it for its written number of bars (up to a sample and rounding), nothing else sounds meanwhile, and after the last chain the arrangement starts again; each chain is heard at its own current time.", "quantifier": "for every list of parts and durations, every tempo and sample rate in range, every signal, every block size and number of blocks", "why_tests_cant": "Boundaries are computed in rounded f32 arithmetic from a sample counter; whether a boundary is missed or shifted depends on tempo, rate, durations and time.", "anchors": ["rs/synth/src/node/sequencer/arrange.rs: Arrange::process", "rs/main/src/util.rs: makenode"]}
{"id": "C54", "title": "A sequencer plays the current value of the chain each reference names, at the bar rate its speed gives", "statement": "In `seq 60 ~a _ ~b` each note sounds at its place in the bar, and where a reference stands the value its own chain has at that moment is played as a note (0 is silence); everything else is silent. `speed v >>` in front divides the length of the bar by v and does not change which chain a reference means. Repeated references mean the same chain.", "quantifier": "for every pattern, every assignment of signals to its references, every speed, tempo and sample rate in range, every block size (2 or more) and number of blocks, every visiting order", "why_tests_cant": "Which input belongs to which reference is a matter of indices shifted by the presence of a speed input and by repeated references; the values range over all signals.", "anchors": ["rs/synth/src/node/sequencer/seq.rs: Sequencer::process", "rs/synth/src/node/sequencer/speed.rs: Speed::process", "rs/main/src/util.rs: makenode", "rs/parser/src/nodes.rs: Seq::parse_from_iter"]}
{"id": "C55", "title": "Synth notes start where the pattern says, rise during the attack and die away during the decay", "statement": "psynth starts each event of the pattern in force once in every cycle of two seconds, at the part of the cycle the event names; each note is a sawtooth whose amplitude rises from 0 in proportion to time during the attack and falls in proportion to the time left during the decay, to 0 at its end; notes add up and do not affect each other; replacing the pattern affects only notes that have not started. The notes of msgsynth have the same shape.", "quantifier": "for every pattern text of events, every sequence of replacements before any blocks, every number of blocks, every sample rate from 1000 to 2^23", "why_tests_cant": "All patterns, all times, all replacement sequences; rounding at every sample.", "anchors": ["rs/synth/src/node/synth/pattern_synth.rs: PatternSynth", "rs/synth/src/node/synth/msgsynth.rs: MsgSynth", "rs/main/src/util.rs: makenode (PatternSynth)"]}
{"id": "C56", "title": "Filters follow their difference equations", "statement": "The output of a filter is the solution of its difference equation from silence, over all blocks: onepole follows y[t] = (1-b)x[t] + b y[t-1] with b = exp(-2 pi rate); lpf and rhpf follow the resonant second-order equation y[t] = a0 x[t] + a1 x[t-1] + a2 x[t-2] - b1 y[t-1] - b2 y[t-2] with the low-pass and high-pass coefficients of the cutoff, the resonance and the sample rate of the engine; apfmsgain follows y[t] = -g x[t] + x[t-d] + g y[t-d]. With a pattern the cutoff of lpf is that of the latest event of the endlessly repeated bar; with a reference the cutoff, or the rate, is that of the referenced chain. A signal between -1 and 1 stays so under onepole.", "quantifier": "For every platform (sin, cos, exp arbitrary), sample rate, block size, parameter, pattern, reference and input stream of any length.", "why_tests_cant": "The equation is recursive: an output sample depends on all earlier input, so tests on a few samples or blocks cannot show that no state is lost at a block boundary, and the equation has to hold for all signals, cutoffs and sample rates.", "anchors": ["rs/synth/src/node/filter/onepole.rs: OnePole", "rs/synth/src/node/filter/rlpf.rs: ResonantLowPassFilter", "rs/synth/src/node/filter/rhpf.rs: ResonantHighPassFilter", "rs/synth/src/node/filter/apfmsgain.rs: AllPassFilterGain"]}
{"id": "C57", "title": "Drums and synths are the programs they stand for", "statement": "bd, hh and sn sound like the little programs that they abbreviate (a sine swept by an envelope, noise through a high-pass filter, both mixed), under an envelope that every positive sample at their input starts again; sawsynth, squsynth and trisynth sound like an oscillator at middle c times the input, under such an envelope. The sound is the same on both channels, at every block and sample rate, and nothing is heard without exactly one input.", "quantifier": "For every platform (sin, cos, noise arbitrary), sample rate, block size, decay and attack, and input stream of any length, mono or stereo.", "why_tests_cant": "The nodes are graphs of other nodes that are edited, connected and scheduled inside; whether the parts are connected to the right places, are run in the right order and keep their state between blocks shows only over whole streams, and tests would compare with the same graph again.", "anchors": ["rs/synth/src/node/compound/bd.rs: Bd", "rs/synth/src/node/compound/hh.rs: Hh", "rs/synth/src/node/compound/sn.rs: Sn", "rs/synth/src/node/compound/sawsynth.rs: SawSynth", "rs/synth/src/node/compound/squsynth.rs: SquSynth", "rs/synth/src/node/compound/trisynth.rs: TriSynth", "rs/synth/src/node/compound/mod.rs: process_compound"]}
{"id": "C58", "title": "A program sent from the page reaches the engine as sent", "statement": "Every program handed to run() on the page is handed to the engine by the audio worklet: whole, unchanged, once, and in the order of the calls.", "quantifier": "For every sequence of calls of run() and of process(), every text, and every interleaving of the single steps of page and worklet on the shared memory.", "why_tests_cant": "Page and worklet are two threads that share memory without a lock; a test sees one interleaving, and the lost or joined programs need calls that fall between two audio blocks.", "anchors": ["js/npm/index.js: run, play", "js/npm/glicol-engine.js: process", "js/npm/ringbuf.js: RingBuffer.push, RingBuffer.pop, AudioReader.dequeue, AudioWriter.enqueue"]}
{"id": "C59", "title": "Parameter messages act one by one", "statement": "The messages handed to sendMsg() on the page act on the engine like the same messages given to the engine one at a time, in the same order, even if the worklet receives several of them at once; none is lost or changed.", "quantifier": "For every sequence of messages, engine, and interleaving of the steps of page and worklet.", "why_tests_cant": "How the messages are grouped depends on the timing between the two threads; a fader that sends hundreds of messages in one block is needed to lose a digit.", "anchors": ["js/npm/index.js: sendMsg", "js/npm/glicol-engine.js: process", "js/npm/ringbuf.js: RingBuffer", "rs/main/src/lib.rs: Engine::send_msg"]}
{"id": "C60", "title": "stop() silences the engine", "statement": "After stop(), once the worklet has run again, every block consists of zeros until the next program, whatever was playing before and whatever else is called.", "quantifier": "For every engine state reachable by calls of the API, every schedule, and any number of later calls other than update.", "why_tests_cant": "That nothing can sound any more is a statement on all states and all later calls; and whether the empty text arrives at all depends on the transport, which a test of the engine bypasses.", "anchors": ["js/npm/index.js: stop, run", "js/npm/glicol-engine.js: process", "rs/main/src/lib.rs: Engine::update, Engine::next_block"]}
{"id": "C61", "title": "The JavaScript chain builder says what is meant", "statement": "play({name: sin(440).mul(0.5), …}) with the functions and methods of the package sends a text that the engine reads as exactly the chains built: one component for each call, in order, with the values given.", "quantifier": "For every object of chains with distinct names, every sequence of builder calls, and every number, reference, pattern or sample name as an argument.", "why_tests_cant": "The builder pastes texts together, and what JavaScript makes of a value must be what the grammar of another program accepts; a test tries one value for each function, and no exponents.", "anchors": ["js/npm/nodechain.js: NodeChain, sin, saw, tri, squ, imp, noise, speed, seq, psynth, psampler, sig, mix", "js/npm/index.js: play", "rs/parser/src/glicol.pest", "rs/parser/src/lib.rs: get_ast"]}
{"id": "C62", "title": "A graph put together by hand is the graph that was described", "statement": "With the AudioContext of glicol_synth, the handle a node is given when it is added names that node until reset(); connect, connect_with_order, chain, chain_boxed, add_node_chain, send_msg and send_msg_to_all have their effect on the nodes named and on no others, and never panic on handles that were handed out; next_block renders exactly the graph described; nodes prepared on the side are not heard; reset() is a fresh start.", "quantifier": "For every kind of node, every sequence of calls with blocks in between, every number of channels and block size, and every iteration order of the inputs.", "why_tests_cant": "Handles are plain numbers of slots in a graph, messages are sent behind the user's back when wires are laid, and the order of processing is found anew in each block; tests build a few fixed graphs.", "anchors": ["rs/synth/src/context.rs: AudioContext (new, reset, add_mono_node, add_stereo_node, add_multi_chan_node, connect, connect_with_order, chain, chain_boxed, add_node_chain, next_block, send_msg, send_msg_to_all, tags)", "rs/synth/src/graph.rs: process, NodeData"]}
{"id": "C63", "title": "Unknown samples are always rejected, and only those", "statement": "A program that names a sample which has not been registered is never accepted, and the program in force only ever names registered samples. When an update is rejected with NonExistSample, the name in the error is one that the program really uses and that is really not registered.", "quantifier": "For every sequence of calls on the engine (programs, messages, samples, blocks, resets), every program text the parser accepts, every order of iteration over the program.", "why_tests_cant": "Components equal to those of the previous program are kept without being built again, so no check of the sample is made for them; that they still have their sample depends on the whole history of calls.", "anchors": ["rs/main/src/lib.rs: Engine::update_with_code, Engine::add_sample", "rs/main/src/util.rs: makenode", "rs/synth/src/node/sampling/sampler.rs: Sampler", "rs/synth/src/node/sampling/psampler.rs: PSampler"]}
{"id": "C64", "title": "A stereo sample keeps its two sides", "statement": "What is heard on the left of a stereo sample depends only on its left side and what is heard on the right only on its right side; both sides are read at the same places, so that they start together, end together, and a sample with equal sides sounds equal on both sides.", "quantifier": "For every stereo sample with at least two frames, every stream of triggers, every block size, every sample rate of sample and engine.", "why_tests_cant": "The two sides lie behind each other in one array and are reached by index arithmetic with rounding; whether an index slips into the other side depends on length, speed and time.", "anchors": ["rs/synth/src/node/sampling/sampler.rs: Sampler::process"]}
{"id": "C65", "title": "A sample loaded on the page can be played by its name", "statement": "A sample that the page lists is known to the engine under the name in the list, with the sound of the file, and stays known whatever is run, set, played or stopped; a program that plays it is accepted. A picked file is played by its name with small letters and underscores, the files of a folder by the name of the folder and a number.", "quantifier": "For every history of loading files, folders, urls and built-in samples, running programs, changing tempo and volume, playing blocks and stopping; every file name of letters, digits, blanks, dashes, underscores and sharps; every number of folders and files; any order in which files finish decoding.", "why_tests_cant": "Names are rewritten in four places of the page by chains of replacements, decoding ends in any order, and stopping sends all samples again to a new engine; tests load one file once.", "anchors": ["js/src/utils.js: addSampleFolder, addSampleFiles, loadSamples, stop", "js/src/glicol.js: the loop over window.sampleBuffers", "js/src/glicol-engine.js: onmessage loadsample", "rs/wasm/src/lib.rs: add_sample"]}
{"id": "C66", "title": "The report of an error points at its place", "statement": "When a program cannot be parsed, the page (and the package in the browser) shows the number of the line and the line itself with a mark exactly where parsing failed, and the rules that were expected there; when a sample or a reference is missing it shows its name.", "quantifier": "For every program text, every place of the failure, every list of expected and unexpected rules, and every missing name.", "why_tests_cant": "The message goes through a fixed buffer of 256 bytes and is taken apart again by splitting at words; place, line and column have three different units (bytes, characters, code units). Tests look at one error in one line.", "anchors": ["rs/wasm/src/lib.rs: write_err_to_buf, update", "js/src/glicol.js: handling of messages of type e", "js/npm/index.js: run, play, handling of messages of type e"]}
{"id": "C67", "title": "JavaScript inside a program is replaced by its value and all else is sent as written", "statement": "window.run replaces each `##...#` by the value of what stands between, and sends every other character of the text unchanged.", "quantifier": "For every text with any number of such pieces and every result of the JavaScript.", "why_tests_cant": "Which parts of a text are taken for JavaScript depends on a lazy regular expression, on splitting with a captured group and on a second test for `#`; tests try single pieces.", "anchors": ["js/src/glicol.js: window.run"]}
{"id": "C68", "title": "The plate reverb plays its network of lines", "statement": "`plate mix` is the network of delay lines, all-pass filters and dampers that its source describes, fed with the left channel of its input: every line fulfils its equation at every sample, the reflections are mixed to the left and to the right from the lines named there with weight mix, and the input with weight 1 - mix. So silence stays silence; before the first reflection only the dry signal is heard; and the sound does not depend on the size of the blocks.", "quantifier": "For every platform with sine between -1 and 1 (and, for the times of the reflections, exponentials of negative numbers between 0 and 1), every mix, every block size, every order in which maps are iterated, and every input stream of any length.", "why_tests_cant": "The network has 45 lines with feedback over 20000 samples and a slowly moving all-pass; tests hear a second of it at one block size. Which line is one block late depends on a depth-first search through a graph with a cycle.", "anchors": ["rs/synth/src/node/effect/plate.rs: Plate::new, Plate::process", "rs/synth/src/graph.rs: Processor::process", "rs/synth/src/node/delay/delayn.rs", "rs/synth/src/node/filter/apfmsgain.rs"]}
{"id": "C69", "title": "eval computes its formula sample by sample", "statement": "`eval` with assignments separated by semicolons and a last expression plays, at every sample, the value of the last expression after the assignments were done in the order written. `in` is the sample of the input, `phase` the number of samples played before, `sr` the sample rate; x, y and z start at 0; and a variable keeps its value from one sample to the next. The sound does not depend on the size of the blocks. Text that is no formula is reported as an error. New code sent by message is played like code that was written.", "quantifier": "For every expression language in place of fasteval, every text of assignments with blanks around the names, every block size, every input stream of any length, with and without an input.", "why_tests_cant": "The state is an arbitrary map of variables that lives over blocks; a test sees a few formulas. Which texts make the audio thread panic depends on the whole text.", "anchors": ["rs/synth/src/node/dynamic/eval.rs: Eval::apply_code, Eval::process, Eval::send_msg", "rs/main/src/util.rs: makenode"]}
{"id": "C70", "title": "meta plays what its script returns", "statement": "`meta` evaluates its script once for every block, with the variables the script left behind and with the first channel of its input in the array input, and plays the numbers of the array it returns. A script that computes a block of numbers from its input is a function of blocks. A script that fails does not stop the sound of the others; it is silent until it succeeds. Code that does not compile is reported.", "quantifier": "For every script language in place of rhai, every script, every block size, every input stream of any length, with and without an input.", "why_tests_cant": "A script may return anything at any time, and the block that it does not fill is whatever was left in the buffer; a test has one script and a few blocks.", "anchors": ["rs/synth/src/node/dynamic/meta.rs: Meta::code, Meta::process", "rs/main/src/util.rs: makenode"]}
{"id": "C71", "title": "A setting changed while playing takes effect from the next block on, and the sound goes on", "statement": "When a setting of a node is changed by a message between two blocks, the blocks after it are played with the value that was set last, and everything else goes on as if nothing had happened: oscillators keep their phase, so that there is no jump; filters keep their memory; an envelope keeps its position; a delay line keeps what it has received; formulas and scripts keep their variables; and an impulse train clicks again one new period after its last click.", "quantifier": "For every node of these kinds, every sequence of messages (several per block, also for parameters the node does not have) and of blocks of any size, every sample rate and input stream.", "why_tests_cant": "Tests change one setting once and look at one block; the claim is about every history of changes, and whether a phase jumps is only seen by comparing with the whole stream before.", "anchors": ["rs/synth/src/node/oscillator/saw_osc.rs: send_msg (also squ_osc.rs, tri_osc.rs, sin_osc.rs)", "rs/synth/src/node/signal/imp.rs: send_msg", "rs/synth/src/node/signal/constsig.rs: send_msg", "rs/synth/src/node/operator/mul.rs: send_msg (also add.rs)", "rs/synth/src/node/filter/onepole.rs: send_msg (also rlpf.rs, rhpf.rs)", "rs/synth/src/node/envelope/envperc.rs: send_msg", "rs/synth/src/node/delay/delayn.rs: send_msg"]}
{"id": "C72", "title": "Panning places a signal between the two sides and keeps its power", "statement": "`pan p` with a position from -1 (left) to 1 (right) plays the signal with the factors sqrt((1-p)/2) on the left and sqrt((1+p)/2) on the right: at -1 it is only heard on the left and unchanged, at 1 only on the right, at 0 both sides are equal, and at every position the power of the two sides together is that of the signal. The position may be a number, a reference (a value per sample) or be changed while playing.", "quantifier": "For every position from -1 to 1 (per sample, for references), every finite input stream in blocks of any size, whichever order the engine stores the inputs in, and every square root with an error of about one unit in the last place.", "why_tests_cant": "Tests look at a few positions and compare with the same floating point expressions; constant power is an inequality with rounding over all positions and signals.", "anchors": ["rs/synth/src/node/effect/pan.rs: Pan, process, send_msg"]}
{"id": "C73", "title": "Chains that an edit does not touch play on undisturbed", "statement": "When a new program is accepted, a chain whose text is unchanged, and which refers only to chains whose text is unchanged, produces from then on, block for block, exactly the signal it would have produced without the edit, whatever happens to the other chains.", "quantifier": "For every history of programs, messages, settings and blocks before the edit, every edit, every set of unchanged chains closed under references, every number of blocks after it, every iteration order of the maps and every external input before and after.", "why_tests_cant": "A test compares one edit after one history; the claim relates two engines with different graphs over all histories and all later blocks, and depends on which nodes survive, which inputs they are wired to again, and what they remember.", "anchors": ["rs/main/src/lib.rs: Engine::update_with_code, Engine::next_block", "rs/main/src/util.rs: makenode", "rs/synth/src/node/: send_msg (Message::ResetOrder, Index, IndexOrder)"]}
{"id": "C74", "title": "What is asked of an engine of the npm package is carried out, in order, once it has started", "statement": "Every call of `run`, `sendMsg`, `setBPM` and of the methods that add samples, made at any time after `new Engine(..)` and returning normally, is carried out by the wasm module once it is loaded, in the order in which the calls were made; when `onLoaded` is called the engine is ready, including the samples asked for with the option `loadSamples`.", "quantifier": "For every schedule of page, worklet and browser (arrival of the files, compilation, handling of messages, calls of `process`), every sequence of calls, with and without shared memory.", "why_tests_cant": "The loading steps complete at times that a test can neither choose nor enumerate; on the developer's machine the files come from the cache.", "anchors": ["js/npm/index.js: Engine constructor, run, sendMsg, setBPM, addSampleFiles, addSampleFromDataArray, loadSamples", "js/npm/glicol-engine.js: port.onmessage, process"]}
{"id": "C75", "title": "An oscillator runs at the frequency it is given", "statement": "`sin f`, `saw f`, `squ f` and `tri f` go through `f` periods of their wave per second, starting at the start of the period, and when the frequency comes from a reference or is changed by messages, through `f / sr` of a period per sample at the current `f`: sample `t` is the value of the wave after the sum of the frequencies so far divided by the sample rate, with no more than the rounding of f32 numbers in between (the drift is bounded per sample, not only on average).", "quantifier": "For every wave, every fixed frequency and every modulating signal with values from 0 to the sample rate, every sample rate up to 2^24, every block size and every number of blocks.", "why_tests_cant": "A test can listen to a few frequencies for a short time; a drift or a rule that applies to rare values (a modulation that passes through 0) only shows on some signals or after a long time.", "anchors": ["rs/synth/src/node/oscillator/mod.rs: process_oscillation", "rs/synth/src/node/oscillator/sin_osc.rs: process", "rs/synth/src/node/oscillator/saw_osc.rs", "rs/synth/src/node/oscillator/squ_osc.rs", "rs/synth/src/node/oscillator/tri_osc.rs"]}
{"id": "C76", "title": "The page goes on playing, whatever is sent", "statement": "Every message the page posts (`load`, `loadsample`, `run`, `bpm`, `amp`) reaches the engine, once and in the order posted; a program that the engine rejects is answered with exactly one report of its error, an accepted one with none, and after a rejected one the sound goes on exactly as if it had not been sent; every 128 samples the worklet plays are the engine's next block, left and right.", "quantifier": "For every schedule of posted messages, messages taken by the worklet and blocks asked for by the browser; for every program text, with any iteration order of the hash tables.", "why_tests_cant": "The README promises that the music continues after an error. A test can try a few wrong programs; which texts make the engine panic instead of reporting, and what the page does from then on, depends on all texts and all later messages.", "anchors": ["js/src/glicol-engine.js: port.onmessage, update, process", "js/src/glicol.js: window.node.port.postMessage", "rs/wasm/src/lib.rs: process, update, get_engine", "rs/main/src/lib.rs: Engine::update_with_code, Engine::next_block"]}
{"id": "C77", "title": "trackAmp sets the volume of the tracks", "statement": "After `trackAmp(a)` (`set_track_amp`) each track is heard with the amplitude `a` times its own.", "quantifier": "For every amplitude, every program and every history of calls.", "why_tests_cant": "The call is answered with a message saying that the amplitude is set; a test of the call sees the stored value. That nothing ever reads it shows only over all other calls.", "anchors": ["js/src/utils.js: window.trackAmp", "rs/wasm/src/lib.rs: set_track_amp", "rs/main/src/lib.rs: Engine::set_track_amp, Engine.track_amp"]}
{"id": "C78", "title": "What is handed to the compiled program arrives whole", "statement": "A text given to `send_msg` or as the name of a sample to `add_sample` arrives in the program as the UTF-8 encoding of the text, with exactly its length; the values of a sample and the bytes of a program arrive as they are; the result of `update` and `process` is what the program returned; no other block of the program's memory is changed, nothing stays allocated after `update` and `process`, and the stack pointer is put back even if the program traps.", "quantifier": "For every string of UTF-16 units, also with unpaired surrogates; every sample; every allocator which keeps its promises, also one which enlarges the memory (and so detaches every view the glue has cached) at each request; every state of the caches.", "why_tests_cant": "Whether memory is enlarged in the middle of a call depends on all that was allocated before; a test with a fresh engine never sees a detached view. The room reserved for a text with characters of three and four bytes has to suffice for all texts.", "anchors": ["js/src/glicol_wasm.js: passStringToWasm0, encodeString, passArray8ToWasm0, passArrayF32ToWasm0, getUint8Memory0, getInt32Memory0, getFloat32Memory0, add_sample, send_msg, update, process"]}
{"id": "C79", "title": "An object which the program holds stays the same object", "statement": "A number which the glue returns for a JavaScript object stands for this object until the program gives it up; two numbers held at the same time are different, even if they stand for the same object; the numbers of `undefined`, `null`, `true` and `false` never change; the table grows with the number of objects held at once, not with the number of calls.", "quantifier": "For every sequence of putting in, copying and giving up objects in which only numbers that are held are given up or copied.", "why_tests_cant": "The free places form a linked list inside the table; whether it stays intact depends on the order in which numbers are given up, of which there are unboundedly many.", "anchors": ["js/src/glicol_wasm.js: heap, heap_next, addHeapObject, dropObject, takeObject, getObject, __wbg_get_imports"]}
{"id": "C80", "title": "A setting touches only what uses it, and only when it is built", "statement": "Setting the seed, setting the sample rate or loading a sample changes nothing in what the caller gets from then on, answers to programs as well as blocks, as long as no program sent later has a component that uses the setting: `choose` the seed, `sp` and `psampler` the samples they name, components with a time or a frequency the rate. What is playing is never affected, not even when the sample it plays is replaced; a program that is sent again brings no new setting into force.", "quantifier": "For every engine whatever was done with it before, every sequence of calls of the API, every set of seeds, rates and sample names, the real parser and all components.", "why_tests_cant": "Tests set the seed, the rate and the samples before the first program. Whether loading a sample in the middle of a performance disturbs a node elsewhere in the graph depends on all calls before and after.", "anchors": ["rs/main/src/lib.rs: Engine::set_seed, set_sr, add_sample, update_with_code, next_block, reset", "rs/main/src/util.rs: makenode"]}
{"id": "C81", "title": "What is given as input is what `~input` plays", "statement": "The signals given to `next_block` are what `~input`, and every chain that begins with it, plays in that very block: the first on the left and the second on the right, whatever was played, sent or rejected before; and a block for which nothing is given finds `~input` silent.", "quantifier": "For every engine and every history of calls without `reset` and without programs that define `~input` or repeat or re-order components, every program in which `~input` is used, every order of the tables, every input.", "why_tests_cant": "There is one example program for the input and no test. Whether the input node stays connected depends on all programs sent before, and whether a stale signal is heard depends on the blocks before.", "anchors": ["rs/main/src/lib.rs: Engine::next_block, new", "rs/synth/src/node/pass.rs", "rs/main/examples/input.rs"]}
{"id": "C82", "title": "The tempo touches only what counts in bars", "statement": "As long as no program that is sent has a component that counts in bars (`seq`, `arrange`, `psampler`, breakpoints, a pattern of cutoff frequencies), setting the tempo, at whatever moments and to whatever values, makes no difference to any block or answer; and when the tempo is set twice in a row only the second counts, whatever plays.", "quantifier": "For every history of calls from a new engine (programs accepted or rejected, samples, seeds, rates, blocks with any input, resets), every order of the tables, every tempo; the second part for every engine.", "why_tests_cant": "The tempo is sent to every node of the graph as a message, and each kind of node decides for itself what it does with it; whether one of them confuses it with another message shows only in particular programs at particular moments.", "anchors": ["rs/main/src/lib.rs: Engine::set_bpm", "rs/synth/src/context.rs: send_msg_to_all", "rs/synth/src/node/sequencer/seq.rs", "rs/synth/src/node/signal/constsig.rs", "rs/synth/src/node/signal/points.rs"]}
{"id": "C83", "title": "Names of chains do not matter", "statement": "Renaming the chains of all programs of a session (consistently, keeping the mark `~`, leaving `~input` alone) and the chains that messages address changes nothing that is heard and no answer, except that an unknown chain is reported by its new name. This holds as long as no reference stands for several chains (`~a..`): those go by the beginnings of names, and the condition cannot be dropped.", "quantifier": "For every injective renaming that keeps `~` and `..`, every history of calls from a new engine (programs accepted or rejected, messages, samples, seeds, rates, tempos, blocks with any input, resets), every iteration order of the tables and the corresponding one after renaming (each order has one, in both directions).", "why_tests_cant": "Names are keys of four tables, are looked up by the code generator, by messages and by the diff, and are tested for `~` and `..` as texts; a user picks names from an infinite set, and a rule that goes by more of a name than that would show only for certain names.", "anchors": ["rs/main/src/lib.rs: update_with_code, send_msg, next_block", "rs/main/src/util.rs: makenode", "rs/synth/src/node/sequencer/seq.rs", "rs/parser/src/lib.rs: get_ast"]}
{"id": "C84", "title": "What was played before does not matter", "statement": "A program whose components are all new sounds the same whatever the engine played before: two engines with the same settings and any past, to which the same text is sent, play the same blocks. In particular an engine that is emptied (by an empty program) plays any text as one that never had a program.", "quantifier": "For every two histories of calls whose programs do not repeat a component within a chain, every text without feedback and without references to several chains at once, all iteration orders of the maps in both engines, every number of blocks and every input.", "why_tests_cant": "What is left of the past is spread over the free list of the graph, node numbers, tables, buffers that are reused and the order of edges; a trace of it would show only after particular sequences of programs.", "anchors": ["rs/main/src/lib.rs: update_with_code, next_block", "rs/synth/src/context.rs: add_mono_node, add_stereo_node, connect", "rs/synth/src/graph.rs: process"]}
{"id": "C85", "title": "Naming a part of a chain does not change the sound", "statement": "The beginning of a chain can be moved into a chain of its own and referred to by its name: `~r: xs` with `o: ~r >> ys` plays the same blocks as `o: xs >> ys`, and everything that refers to `o` hears the same.", "quantifier": "For every program without feedback and without references to several chains at once, every chain and every division of it, every new name, any past of either engine that does not contain the components, all iteration orders of the maps, every number of blocks and every input. Except that a delay must not hear a part of one channel (false, see the counterexample).", "why_tests_cant": "A reference is a node of its own with two channels that copies a signal of one channel, and it moves every number and every place in the graph; a test compares single programs, with components that happen to ignore the second channel.", "anchors": ["rs/main/src/lib.rs: update_with_code", "rs/main/src/util.rs: makenode", "rs/synth/src/node/pass.rs: Pass", "rs/synth/src/node/delay/delayn.rs: DelayN", "rs/synth/src/graph.rs: process"]}
{"id": "C86", "title": "Chains nobody hears can be added and removed", "statement": "Chains whose names contain a `~` and that no audible chain refers to do not change the sound: a text with them plays the same blocks as the text without them, whatever the chains contain, even if they hear the audible chains or feed back into themselves.", "quantifier": "For every program whose audible part has no feedback and no references to several chains at once, every set of further chains with `~` names to which it does not refer, any past of either engine that does not contain its components, all iteration orders of the maps, every number of blocks and every input.", "why_tests_cant": "Further chains change the numbers of all nodes, the order in which the graph is walked and in which edges and buffers are found; a test compares one program with one extension of it.", "anchors": ["rs/main/src/lib.rs: update_with_code, next_block", "rs/synth/src/graph.rs: process", "rs/synth/src/context.rs: add_mono_node, add_stereo_node, connect"]}
{"id": "C87", "title": "A chain written twice can be written once", "statement": "When two chains with `~` names are the same, one of them can be dropped and every reference to it replaced by a reference to the other: the text plays the same blocks.", "quantifier": "For every program without feedback and without references to several chains at once, every pair of equal chains in it of which no component refers to both, any past of either engine that does not contain the components, all iteration orders of the maps, every number of blocks and every input.", "why_tests_cant": "One buffer and one state then serve listeners that had their own; the numbers of the nodes, the order of the walk and the order of edges all change. A test compares one pair of texts.", "anchors": ["rs/main/src/lib.rs: update_with_code, next_block, handle_ref_check", "rs/synth/src/graph.rs: process", "rs/synth/src/context.rs: connect", "rs/synth/src/node/sum.rs: process", "rs/synth/src/node/effect/balance.rs: process"]}
{"id": "C88", "title": "Tracks sound together as they sound alone", "statement": "What a program plays is the sum, sample by sample and on each side, of what its tracks (the chains without `~`) play when each is sent alone with the chains it needs. Muting a track takes away its sound and nothing else.", "quantifier": "For every program without feedback and without references to several chains at once, any number of tracks, which may share chains, any past of each of the engines that does not contain the components, all iteration orders of the maps, every number of blocks and every input. The sum is taken in f32 in some order of the tracks; of two tracks the order does not matter.", "why_tests_cant": "The tracks share the numbers of nodes, the walk over the graph, the node that sums the output and the chains they refer to; a test compares one program with its parts.", "anchors": ["rs/main/src/lib.rs: update_with_code, next_block, handle_ref_check", "rs/synth/src/graph.rs: process", "rs/synth/src/context.rs: next_block", "rs/synth/src/node/sum.rs: process"]}
{"id": "C89", "title": "An effect at the end of a track is applied to what the track plays", "statement": "Putting an effect at the end of a track changes what is heard to what the effect makes of it, and nothing before it: the track plays the same samples into the effect that it played into the output. With `mul g` every sample of both sides is multiplied by g, with `add g` g is added, and `mul 1` changes nothing. With `delayn n` it is heard n samples later, and with a filter both sides play the solution of the equation of the filter for what was heard; `pan p` places what was heard between the sides with the same power.", "quantifier": "For every program with one track, without feedback and without references to several chains at once, in which nobody refers to the track, every effect without references, any past of each of the engines that does not contain the components, all iteration orders of the maps, every number of blocks and every input.", "why_tests_cant": "The effect is a further node with its own number, connected by the order of a hash map, between the track and the node that sums the output; a test compares a few programs.", "anchors": ["rs/main/src/lib.rs: update_with_code, next_block, handle_ref_check", "rs/synth/src/node/operator/mul.rs: process", "rs/synth/src/node/operator/add.rs: process", "rs/synth/src/node/operator/mod.rs: apply_op", "rs/synth/src/node/sum.rs: process", "rs/synth/src/node/delay/delayn.rs: process", "rs/synth/src/node/effect/pan.rs: process", "rs/synth/src/node/filter/onepole.rs: process", "rs/synth/src/node/filter/rlpf.rs: process", "rs/synth/src/node/filter/rhpf.rs: process"]}
{"id": "C90", "title": "What is combined is what the chains play on their own", "statement": "A track with `mul ~m` or `add ~m` at its end plays, sample by sample and side by side, the product or sum of what the track plays without it and what `~m` plays when it is heard by itself. A track `balance ~a ~b` plays on the left the left side of what `~a` plays by itself, and on the right the left side of what `~b` plays by itself. A track `mix ~a ~b ...` plays the sum of what the chains play by themselves, each once, also those that a reference such as `~a..` means.", "quantifier": "For every program with one track, without feedback and without references to several chains at once, in which nobody refers to the track, any past of each of the three engines that does not contain the components, all iteration orders of the maps, every number of blocks and every input.", "why_tests_cant": "Three engines render three programs with different node numbers, connected in the order of hash maps; a test compares a few programs.", "anchors": ["rs/main/src/lib.rs: update_with_code, next_block, handle_ref_check", "rs/synth/src/node/operator/mul.rs: process", "rs/synth/src/node/operator/add.rs: process", "rs/synth/src/node/operator/mod.rs: apply_op", "rs/synth/src/node/effect/balance.rs: process", "rs/synth/src/node/pass.rs: process", "rs/synth/src/node/sum.rs: process"]}
{"id": "C91", "title": "A component hears of a chain what this chain plays on its own", "statement": "A component that names chains, such as `sin ~m`, `lpf ~m 0.5` or `seq ~a ~b`, plays what it plays alone when it is fed what these chains play by themselves, each once and told in the order in which they are named; an effect at the end of a track hears besides what the track plays without it. So the frequency of `sin ~m`, `saw ~m`, `squ ~m` and `tri ~m` is, at every sample, what `~m` plays, and the cutoff of `lpf ~m 1` and `rhpf ~m 1` is in every block what `~m` plays first in it; the position of `pan ~m` is at every sample what `~m` plays.", "quantifier": "For every program with one track, every component that takes note of its inputs and every number of chains it names, without feedback and without references to several chains at once, any past of the engines that does not contain the components, all iteration orders of the maps, every number of blocks and every input; for the oscillators, every frequency from 0 to the sample rate, and for `sin` every platform with a sine of the stated accuracy.", "why_tests_cant": "The engines render different programs with different node numbers, connected in the order of hash maps, and the order of the inputs of a node is that of its edges; a test compares a few programs.", "anchors": ["rs/main/src/lib.rs: update_with_code, next_block, handle_ref_check", "rs/main/src/util.rs: makenode", "rs/synth/src/node/oscillator/sin_osc.rs: process", "rs/synth/src/node/pass.rs: process", "rs/synth/src/node/sum.rs: process", "rs/synth/src/node/effect/pan.rs: process", "rs/synth/src/node/oscillator/saw_osc.rs: process", "rs/synth/src/node/oscillator/squ_osc.rs: process", "rs/synth/src/node/oscillator/tri_osc.rs: process", "rs/synth/src/node/filter/rlpf.rs: process", "rs/synth/src/node/filter/rhpf.rs: process"]}
{"id": "C92", "title": "A program written as text is accepted, plays and is heard as written", "statement": "A program that can be played (settings in range, every component gets inputs it can take, references resolve, samples are registered), written as a text in any layout, is accepted by `update_with_code`; after that every block renders without panic, with or without an external input, and what `next_block` returns is what the program says: every component plays as if it were alone on exactly the signals that the program sends to it. For instance any text of `o: sin 440` makes a new engine play a sine of 440 Hz on both sides.", "quantifier": "For every such program, every text of it (layout, comments, spellings of numbers), every engine after a past of such calls, all iteration orders of the maps, every number of blocks and every block size; for the sine, every frequency from 0 to 44100 and every platform with a sine of the stated accuracy.", "why_tests_cant": "The claim joins the parser, the comparison of programs, the graph and the nodes for all programs at once; a test sends a few texts and renders a few blocks.", "anchors": ["rs/main/src/lib.rs: update_with_code, next_block, handle_ref_check", "rs/main/src/util.rs: makenode", "rs/parser/src/lib.rs: get_ast", "rs/parser/src/glicol.pest", "rs/synth/src/node/oscillator/sin_osc.rs: process"]}
{"id": "C93", "title": "A session of good texts never fails", "statement": "A player who sends texts, asks for blocks (with or without an external input), sets the tempo, the sample rate, the seed and the volume, registers samples, sets single components by messages and resets the engine, in any order, gets every text accepted and every block rendered, as long as each text writes a program that fits by itself (and asks only for samples registered so far) and keeps the order of the components it takes over from the program before. Texts that cannot be read or refer to a chain or a sample that is not there may come in between; they are refused and have no effect. The blocks asked for directly after a text are those that this text calls for, whatever was played before.", "quantifier": "For every session of any length, all texts of such programs, all iteration orders of the maps at every step, all tempos up to 960, all sample rates from 4096 to 2^24 and all samples with data.", "why_tests_cant": "What can go wrong in a session depends on the sequence of programs and the state they leave behind; sequences are unbounded and a test tries a few.", "anchors": ["rs/main/src/lib.rs: update_with_code, next_block, set_bpm, set_sr, set_seed, set_track_amp, send_msg, add_sample, reset", "rs/main/src/util.rs: makenode", "rs/parser/src/lib.rs: get_ast"]}

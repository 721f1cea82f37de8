# Design of the Glicol verification

Subject: `chaosprint/glicol` as checked out in `/repo` (never built, never modified). The Lean 4.33 project is in
`lean/`; every file below `lean/Verif` is imported from `lean/Verif.lean`. Property texts are in `properties.jsonl`,
the theorems of each property and their status in `MANIFEST.json`, mutation experiments in `seeded/LOG.jsonl`.

## 1. Trusted base

* **The Lean 4 kernel.** Every theorem listed in `MANIFEST.json` depends on no axioms other than `propext`,
  `Classical.choice` and `Quot.sound` (`#print axioms`). No own axioms, no `sorry`, no `native_decide`, no
  `bv_decide`. `kernel_rfl` (`Verif/Lemmas/KernelRfl.lean`) only builds the term `Eq.refl a` and leaves it to the
  kernel to compare both sides; `decide +kernel` likewise.
* **The reading of the Rust source that the model records.** Every model definition cites the file and lines it
  follows. The repository is not executed, so nothing checks this reading mechanically.
* **Behaviour of external crates**, modelled from their documentation because their sources are not in `/repo`:
  * petgraph `StableGraph` (slots, last-in-first-out free list, edge lists most recent first, parallel edges allowed,
    `remove_node` drops the incident edges) and `DfsPostOrder` (explicit stack, discovered and finished sets);
  * dasp_ring_buffer `Fixed` (`push` replaces the oldest element and advances, `get i` is relative to the oldest
    element, constructing from an empty vector panics);
  * hashbrown `HashMap`: iteration order is an arbitrary permutation. A map is a list of key/value pairs without
    duplicate keys; theorems quantify over the orders (`HashOrder` for the inputs of a node, `TableOrder` for the chain
    table, list order for the program);
  * dasp `noise`: an arbitrary function `Libm.noise` of seed and sample number;
  * pest: ordered choice, greedy repetition without backtracking, atomic rules, tokens of silent and quiet rules as
    documented (`Verif/Parser/Peg.lean`); `f32`/`usize`/`u32` `from_str` of std; `fasteval::ez_eval` for the factor of
    breakpoints is an arbitrary function `fe : Name → Option Fl`;
  * fasteval and rhai (`eval`, `meta`): arbitrary languages, the structures `FastEval` and `Rhai` in `Verif/Script.lean`. Most theorems
    hold for any nodes in the place of `eval` and `meta`, the structure `Ext`;
  * Rust `as` conversions saturate; indexing out of bounds, `unwrap` on `None`, integer division by zero panic. A panic
    is the explicit value `Except.error` of type `Panic`; the half-updated engine a panic leaves behind is not
    represented.
* **Simplifications**, each repeated at the definition it concerns:
  * `usize` counters are unbounded naturals. On 64-bit targets an overflow needs 2^64 samples; on wasm32 sample
    counters wrap after 2^32 samples (about 27 hours at 44.1 kHz), which is outside the model;
  * f32 and f64 are rationals with correct IEEE-754 rounding (round to nearest even, overflow to infinity), signed
    infinities, a negative zero and one NaN (`Verif/Fl.lean`); subnormals are included. NaN payloads are not;
  * `sin`, `cos`, `exp`, `powf`, `sqrt` are arbitrary functions (`Libm`); a theorem that needs more (such as
    `|sin x| ≤ 1`) has it as a hypothesis;
  * integer overflow and underflow is a panic (debug build); for `points`, where this matters in ordinary use,
    `Libm.checked` selects between debug (panic) and release (wrap around);
  * memory exhaustion is not modelled (except that the allocator of C78 may refuse).

### What is modelled

| code | model |
| --- | --- |
| `rs/main/src/lib.rs` (whole `Engine`: `new`, `update_with_code`, `clean_up`, `reset`, `send_msg`, `set_*`, `add_sample`, `next_block`) | `Verif/Engine.lean` |
| `rs/main/src/util.rs` (`makenode`), `rs/parser/src/nodes.rs` (components, `PartialEq`, `all_references`) | `Verif/Ast.lean`, `Verif/Make.lean` |
| `rs/synth/src/context.rs`, `graph.rs`, `buffer.rs` (connect, process, input collection) | `Verif/Graph.lean` |
| `rs/synth/src/node/**` except the files below | `Verif/Nodes/*.lean` |
| `rs/synth/src/node/dynamic/eval.rs`, `meta.rs` | `Verif/Script.lean` |
| `rs/parser/src/nodes.rs` number and pattern conversion (`seq`, `points` times) | `Verif/ParseNum.lean`, `Verif/ParseSeq.lean` |
| `rs/parser/src/glicol.pest`, `rs/parser/src/lib.rs` (`get_ast`), `rs/parser/src/nodes.rs` (`parse_from_iter` of every component) | `Verif/Parser/Peg.lean`, `Grammar.lean`, `Nodes.lean` |
| `rs/wasm/src/lib.rs` | `Verif/Wasm.lean` |
| `js/npm/ringbuf.js` | `Verif/RingBuf.lean` |
| `js/npm/index.js`: `run`, `sendMsg`, `stop`; `js/npm/glicol-engine.js`: the two queues in `process` | `Verif/Worklet.lean` |
| `js/src/glicol-engine.js` (the page's worklet), the messages of `js/src/glicol.js` and `js/src/utils.js` | `Verif/PagePlay.lean` |
| `js/src/glicol_wasm.js` (same as `js/npm/glicol_wasm.js`): texts, arrays and results (115-271) | `Verif/Glue.lean` |
| `js/src/glicol_wasm.js`: the object table (1-30) | `Verif/Handles.lean` |
| `js/npm/index.js`: constructor and methods until loaded; `js/npm/glicol-engine.js`: `port.onmessage`, queues in `process` | `Verif/Startup.lean` |
| `rs/synth/src/context.rs` as used from outside (`AudioContext`) | `Verif/Context.lean` |
| `js/npm/nodechain.js`, `play` in `js/npm/index.js` | `Verif/NodeChain.lean` |
| `rs/wasm/src/lib.rs`: message of a syntax error; `js/src/glicol.js`, `js/npm/index.js`: report of errors | `Verif/Report.lean` |
| `js/src/glicol.js`: `window.run` | `Verif/Inline.lean` |
| `js/src/utils.js`: loading of samples, `stop`; `js/src/glicol.js`: samples sent to a new engine; `js/src/glicol-engine.js`: `loadsample` | `Verif/Page.lean` |

Not modelled: `reverb`, `expr` and `adc` (their components make `makenode` return an error or panic, which is modelled;
the nodes themselves are not), `phasor` (never built by the engine), `node_update_list` (never filled in this version), `NodeData` variants for `Rc`/`Box` (`boxed.rs`), the
JavaScript front end apart from the functions above (such as the editor), the `bela` and other feature variants.

## 2. Layout

| module | content |
| --- | --- |
| `Verif/Fl.lean` | binary floating point with rounding |
| `Verif/Graph.lean` | stable graph, depth-first post-order, block processing |
| `Verif/Engine.lean` | engine state, diff/update, clean-up, reset, messages, next_block; generic in `structure Lang` |
| `Verif/Ast.lean`, `Verif/Make.lean` | components, references, component-to-node translation; `glicol P N parse : Lang` is the real language on platform `P = (Libm, hash order inside compound nodes, Ext)` with block size `N` and parser `parse` |
| `Verif/Nodes/*.lean`, `Verif/Script.lean` | one state machine per audio node kind |
| `Verif/ParseNum.lean`, `Verif/ParseSeq.lean` | number and pattern parts of the parser |
| `Verif/Parser/*.lean` | PEG combinators, the grammar rule by rule, conversion of parse trees to components |
| `Verif/Wasm.lean`, `Verif/RingBuf.lean`, `Verif/Worklet.lean`, `Verif/Startup.lean`, `Verif/Glue.lean`, `Verif/Handles.lean`, `Verif/PagePlay.lean`, `Verif/NodeChain.lean`, `Verif/Page.lean`, `Verif/Report.lean`, `Verif/Inline.lean` | browser glue |
| `Verif/Context.lean` | the audio context as used from outside |
| `Verif/Spec/*.lean` | specifications, written without the model's helper functions; `Toy` (a small example language) and `Demo` (example programs of the real language) |
| `Verif/Lemmas/*.lean` | supporting lemmas |
| `Verif/Props/*.lean` | property theorems with an `example` beside each |

The engine theorems are proved for every `Lang` satisfying stated laws (`ParserWf`: programs have distinct names and
non-empty chains; `EqLaws`: component equality is symmetric and transitive; `RefLaws`: equal components and their nodes
mention the same references; `WiringTotal`; `Shape`; `OrderLaws`; `PlayLaws`). The laws are discharged for the real
nodes in `Lemmas/Concrete`, `Lemmas/CompEq`, `Lemmas/Wire`, `Lemmas/Shape` and `Lemmas/SafeG`, and for the modelled parser
(`glicol_parserWf`).

## 3. Properties: what is modelled and how it is proved

* **C01** whole of `update_with_code` as one function; an error result implies equality of everything observable
  (phase by phase), for every reachable engine; second theorem: all later blocks are the same (the free list, which may
  differ, is not read by rendering).
* **C02, C03** list-level lemmas on removal at descending and insertion at ascending positions (`Lemmas/Chain`,
  `Lemmas/Staged`), invariant "the table mirrors the program" over all histories.
* **C04** invariant over all histories (`Lemmas/History`).
* **C05** totality of each phase under the mirroring invariant (`Lemmas/Total`); for texts also totality of the parser
  (C31) and of `makenode` on the components described in `Spec/Build`.
* **C06, C08** characterisation of the edge list built by the connection phase against the inductive specification
  `Wanted`.
* **C07** both directions of the reference check against `Resolves`.
* **C09, C10, C11** depth-first invariant (white paths) on arbitrary finite graphs, termination by a measure;
  non-interference by comparing two graphs that agree on the part reaching the destination.
* **C12, C13** fields of the reset engine compared with a new one; shape invariant for the input buffers.
* **C14** the message text is split by a declarative specification (`Splits`, `Runs`); refinement.
* **C15** a node's life is a list of blocks and messages (`Spec/Life`); simulation between the node built at the old and
  the one built at the new tempo, and bisimulation after the message.
* **C16** the diff of a program with itself is empty; invariant "references of the program in force resolve and the
  edges are those wanted" over all histories (`Lemmas/InForce`).
* **C17** a relation `Corresponds` between engines that differ in node numbers and table orders (`Spec/Places`), preserved
  by updates for any two iteration orders; acceptance characterised independently of the order.
* **C18, C19** ring buffer as a list; output stream = shifted input stream for every partition into blocks.
* **C20** counter invariant; period related to `sr/freq` by rounding bounds.
* **C21** exact positions of the notes of a pattern as computed by the parser, the bar counter, rounding bounds on the
  comparison in f64.
* **C22, C23** envelopes as functions of the number of samples since the trigger, monotone rounding for the bounds.
* **C24, C41** phase invariant in [0,1] under rounding.
* **C25** the index computation stays below the length for every value of the noise function in [-1,1].
* **C26, C43** interpolation with explicit rounding error; looping positions modulo the span.
* **C27, C44, C45, C46** play heads as a list of voices; the output is the fold of the voices of each trigger.
* **C28, C42** fold over the inputs; permutation of two inputs by commutativity of rounded addition; counterexample for
  three.
* **C29, C30** list functions with explicit panics.
* **C31, C33** soundness of every grammar rule (`Lemmas/Peg`, `Lemmas/Tokens`): which tokens each rule leaves and what
  their texts look like, by composition of the combinators; the conversion never fails on such tokens
  (`Lemmas/ParseTree`). The last definition in force: every rule but `line` consumes text whose colons lie in code or
  comments (`Lemmas/Colon`), so the text can be cut at its definitions (`Lemmas/Written`).
* **C32** a declarative relation between programs and texts (`Spec/Write`), shown to be read back by induction over the
  relation, with the ordered choice and the lookaheads of the grammar (`Lemmas/ReadNum` … `ReadProg`). Every finite
  `f32` has an exact decimal numeral (`Lemmas/Print`). The relation has comments, lists of points with fractions,
  offsets, factors and `!`, exponents, escapes, and references with and without a sign. The factor of a list of points
  is what an arbitrary function `fe` in place of `fasteval` gives.
* **C35, C39** two-thread small-step model with the store/load order of the JavaScript code; invariant over all
  interleavings.
* **C36** refinement to pointwise multiplication/addition, for every block.
* **C37** invariant per node (`Lemmas/SafeNodes`, `SafeCompound`, `SafePlate`, `SafeG`) plus invariant "every node has the
  inputs it needs" over all histories (`Lemmas/Play`); a decidable condition `Safe` on programs. For `plate` the 51 nodes
  of a new reverb are checked by evaluation, then the invariant bounds the sine that moves two of its delays. Messages to
  single nodes are covered (`SafeMsg`): per kind of node, which numbers it can be set to is part of the invariant. The two
  scripted nodes are covered with arbitrary languages (`Lemmas/SafeScript`): a formula may use a variable only when it has a
  value, which for `in` depends on the number of inputs.
* **C40** the state after the message equals the state built from the number, up to fields that later calls cannot
  distinguish.
* **C47** trace of the messages each node receives during reconnection.
* **C48** places (chain, position) against nodes: edges of the graph are the flow read off the program (`Spec/Flow`), then
  C09/C10 on the graph. `Props/Glicol` shows that the hypotheses about the parser (`ParserWf`, references written as
  names) hold for the model of the real parser, so that the generic theorems apply to texts.
* **C49** induction over the blocks: the block theorem of C48 gives, per block, one `process` call per place; unrolled in time
  these are the calls of one processor (`Spec/Compose`). `Lemmas/SetOrder` shows that the wiring messages of an update
  amount to one `Index` message per input, so a new node is the one that `play` (Spec/Nodes) starts from; `Lemmas/Channels`
  shows that all signals keep 1 or 2 channels of N samples, so that `Sum2` of the output is a plain sum (C28).
  `c49_source` and `c49_effect` turn any theorem about one node (C18-C36 and others) into one about programs.
* **C50** C49 at a component with one reference; both orders of the two inputs are considered. `c50_any_time_partial` says the
  same of one block rendered at any time: the node's inputs are those of the program (`order_reach`), the node still carries
  the operator it was made with and the order of inputs it was sent (`opTag_kept`, Lemmas/OpNode), and the block it reads of
  each input is that of the same moment or, under feedback, the one before (`block_at`, Props/AnyTime; `Holds`, `HeardOf` in
  Spec/AnyTime).
* **C51** the loop over the samples as a counter (`runM_count`); blocks joined by `blocks_source`.
* **C52** `Sends N ins n xs` (Spec/Inputs) says that node `n` sends stream `xs` wherever it stands in the map of inputs; the
  output blocks are joined by `channel_of_blocks`.
  `c52_any_time_partial` says it of a block rendered at any time in any program, by the means of C50.
* **C53** `blocks_items` reduces a node that reads several inputs to one step per sample (`arrange_heard`); the positions
  `step / bar` computed in f32 grow with the step, so each part ends at the first step that reaches its sum of durations
  (`boundary_any`); the rounded sums and positions are within a relative error of the exact ones (`arrCount_rel`, `arrPos_rel`).
* **C54** as C21, for an arbitrary value function (`seq_core`); the references in order of first occurrence (Spec/SeqRef) are
  related to the index table of `makenode`, the shift by the speed input to the order of the messages.
* **C38** `Nodes/Voices` is the loop over the two lists as written; `c38_lists` relates it to the list of voices used by
  `Nodes/Synth`. The voices before each sample are given in closed form (`voicesBefore`) from the starts of all notes;
  `voices_step` is the induction step, `perform` (Spec/Voices) interleaves messages and blocks.
* **C55** `voices_step` of C38 with the starts given by the pattern in force; the places, the cycle and the envelope are
  compared with exact numbers by `Rel` (relative error of a chain of f32 operations, `rel_quotient` for divisors that are
  themselves rounded); the text of a pattern is described by `PatternText` (Spec/PatText), apart from the splitting code.
* **C34** every component of `BlockFree` is shown to be a machine that consumes one frame of its inputs at a time
  (`Lemmas/Stream*`): a relation between the node states of two runs, with different node numbers and block sizes, is kept
  sample by sample. `Lemmas/Single*`: all samples that reach a node are f32 numbers (needed because some nodes convert).
  Drums and synths: the signals of C57 are closed under composition and pointwise operations of such machines
  (`Lemmas/StreamCompound`). Programs: induction along the order in which chains refer to each other
  (`Props/BlockSize.places_agree`), on top of C49. Formulas: what is asked of scripted components is `ExtStream` (a run over a
  block is a walk over its samples, `Steps`); it is proved of the model of eval.rs (`Lemmas/StreamEval`, `scripts_stream`).
* **C56** the equations are written down in Spec/Filter over whole streams (`before xs t k` is the sample k earlier). The memory of
  a section before sample t is shown to be the last two inputs and outputs (`biquad_eq`, for coefficients that change with t), the
  ring of `apfmsgain` to be the window of the last d samples; `inForce` states the pattern of cutoffs without counters. Bars and
  places are compared with exact numbers by `Rel` (`c56_pattern_times`, which also applies to C46). The bound of `onepole` needs
  that fl(1-b) + b ≤ 1 + 2^-24 rounds to at most 1. `Spec/AllPass.lean` has the all-pass filter with a gain or a delay that changes;
  `lines_run` (`Props/AllPass.lean`) shows that two lines hold the last inputs and outputs whatever is read from them, `reach_range`
  follows the place of reading through three roundings.
* **C57** Spec/Compound gives each program as components that play alone (`Alone`) and are combined sample by sample, with no
  graph in sight. `compound_parts` (Lemmas/Patch) takes a graph without a cycle apart: from the schedule (C09) every inner node is
  run once in each block on the buffers of this block, so that it plays by itself what it would play alone. The six graphs are then
  walked along their connections. `compound_plays` shows that they do play.
* **C58–C60** Verif/Worklet is a machine of two threads, page and worklet, on top of the step-by-step ring buffer of C35; the
  scheduler picks each step. The spec (Spec/Worklet) only looks at the events "asked" and "given". Lemmas/Queue adds to the invariant
  of C35 which calls a `pop` sees (`groups`: what is received are the accepted texts, joined in groups, in order), Lemmas/Worklet
  lifts it to the machine and shows that calls come to their end (`push_ends`, `pop_ends`). C59 then needs that `send_msg` of two
  joined texts is `send_msg` twice (`sendMsg_append`). C60 proves that an update with the empty text leaves no edge in the graph
  (`update_empty`), that no other call adds one (`edges_apply`), and that the output node without input writes zeros.
* **C61** Spec/NodeChain says which component each call means, and how JavaScript writes numbers. The text that the builder makes
  is shown to be one that writes (C32) these components, so that C32 gives what the parser makes of it. Which strings JavaScript
  takes for numbers is an arbitrary function.
* **C62** Spec/Context is a sheet on which the user notes nodes, wires and messages. The context is shown to agree with the sheet
  after every sequence of calls (invariant), and blocks are those of C09 on the sheet. That nodes on the side are not heard is a
  simulation between the graph with and without them, through the traversal of each block.
* **C63** Spec/Samples lists the names a component asks for, read off the syntax tree only. Invariant over the history of calls:
  the program in force asks only for registered samples. A component of an accepted program was built (so its samples were found)
  or is equal to one of the program before (so the invariant gives them). For the error, the component whose construction failed is
  traced back to the program. A number in a `psampler` pattern asks for the empty name.
* **C64** On the closed form of the player proved for C44: for two samples that share a side, every voice adds the same value on
  that side, because the rounded indices stay below the length of the side (left) or at or above it (right). The ends are those of
  C45, with both sides.
* **C65** The page (`Verif/Page.lean`) holds the list of decoded files, the counters of the folder dialogs and the engine. Invariant over
  all histories: every listed file of one or two channels is registered in the engine under a backslash and its listed name, with
  the channels one after the other. Steps that do not load leave the samples alone (proved for all calls of the engine, with C01 for
  failed updates); the loop after `stop()` registers every listed sample because the names are distinct and without dashes.
  Acceptance follows from the parsing theorem C32 and from C05 and C07 for the text `o: imp 1 >> sp \name`. The names of picked
  files and of folders are computed from the replacements for all names, with the number of earlier files of the folder.
* **C66** `Verif/Report.lean` models the message, pest's line and column, and the page's taking apart of the text, on code units. The
  main lemma says what `split` finds when the separator ends in a bracket that occurs nowhere else; with it the four parts of the
  message are found for all numbers and lists. The line found by `split("\n")` is compared with line and column by induction over the lines.
  With C29 this gives the report for every failed update. pest's choice of the place and of the rules is a parameter. The
  report of the package is the same function of the code it keeps.
* **C67** `Verif/Inline.lean` models the regular expression by its leftmost-shortest match. Induction over the pieces.
* **C68** `Spec/Plate.lean` states the network as one equation per line on streams without blocks (one-pole, all-pass, delay, sum in
  any order, moving all-pass with the code's interpolation). `Lemmas/PlateParts.lean` runs the 51 inner nodes in the order of the search
  and gives, for each node, what it turns its inputs into over all blocks; the one edge that points backwards in this order gets the
  outputs of its source one block later. `Lemmas/PlateStream.lean` turns each kind of node into its equation; `Lemmas/PlateNet.lean`
  collects them. Dry start, silence, first reflections and the dependence on the block size follow from the equations alone
  (`Lemmas/PlateQuiet.lean`), with induction over time for the feedback. Messages between the blocks only reach the four nodes
  that mix (`plate_msgs`), whose factors therefore depend on the block (`ScalesBlocks`, `ScaledBy`); all other lines stay as they are.
* **C69, C70** `Verif/Script.lean` models the two scripted nodes around arbitrary languages (`FastEval`: parse and evaluate with a map of
  variables; `Rhai`: compile and evaluate with a scope) and gives the `Ext` called `scripts` that fills the place left open in `Plat`.
  `scripts_shape` (`Lemmas/Script.lean`) and `scripts_behave` (`Lemmas/SafeScript.lean`) show that the hypotheses which other theorems
  have about `Ext` hold for it. `Computes` in `Spec/Script.lean` says what a formula is by relations between the variables before and after each
  sample, without folds or blocks; `FormulaText` is the text, from the user's side. Induction over statements and over samples gives
  an equivalence. For `meta` the block before is part of the state.
* **C71** (also C69, C70) `playChanged` in `Spec/Live.lean` builds a node and then in turn sends it messages and lets it process a block. `setting p first changes k` is the value of
  parameter `p` in block `k`: the last one set before it. The statements are the equations of the unchanged nodes (C20, C22, C56 ...) with coefficients that depend on
  the time; for oscillators `Oscillates`, a phase that advances by the frequency in force. `live_general` (`Lemmas/Live.lean`) is the induction over blocks once and for all:
  what a node plays is one loop over the whole stream, in which every sample comes with the parameters in force.
  Nodes that start anew at a message (`delayn`, `delayms`, `noise`) are compared with a node that is built at that moment (`live_restart` in `Props/LiveRestart.lean`).
  Drums and synths are the sounds of C57 with an envelope that is changed while it plays (`Spec/LiveCompound.lean`): `live_parts` (`Lemmas/LiveCompound.lean`) takes the compound
  node apart with the messages that arrive at the envelope.
* **C72** `Panned` in `Spec/Pan.lean` bounds the squares of the factors and the power, without square roots. `SqrtClose` is what is assumed of `f32::sqrt`, an uninterpreted
  function otherwise; `demoRoot_close` shows a function with it. The proof is rounding analysis of `(p + 1) / 2`, `1 - norm` and the products.
* **C73** `Spec/Untouched.lean`: unchanged chains as a list in which each refers only to later ones (`Untouched`), the signal of a place over blocks (`PlaceSignal`). The engine with the
  edit and the engine without it are compared block by block: the nodes of unchanged chains keep their numbers (C02), are told their inputs again, and differ afterwards at
  most in the list of inputs behind its first entry, which such nodes do not read (`procG_head`; for scripts that is `ExtFirst`, proved in `Lemmas/ScriptFirst`); the inputs come in another order, which modulated nodes do not notice
  (`procG_perm`). What nodes remember before the edit comes from an invariant of all histories (`Lemmas/PlaceInv.lean`); each block is described by C48.
* **C74** `Verif/Startup.lean` is a machine of page, worklet and browser: the steps of loading, a port that is taken message by
  message, two queues emptied by `process`. Calls are numbered, so that order and loss can be stated on the events alone
  (`Spec/Startup.lean`). Each theorem is an invariant of all schedules (`runs_inv`): numbers on the port grow (`Inv`), nothing on the
  port is lost once the module is there (`Late`), everything before the message `load` is (`Gone`), texts that fit stay whole (`Whole`).
* **C75** The specification (`Spec/Freq.lean`) knows only the exact waves over one period, the sum of the frequencies and `Real.sin`.
  Proof: each step moves the phase by `f / sr` up to `2^-23`, or by that and a whole period (`advance_step`); induction over the samples
  (`phase_run`); for the sine its period and that it is 1-Lipschitz, and π to 20 digits from Mathlib. Assumed of the platform's sine:
  within `δ` of the sine on [0, 7] (`SinClose`).
* **C76** `Verif/PagePlay.lean` is the page's worklet as a machine: messages are posted, taken, and blocks are asked for, in any order. The
  specification `Follows` (`Spec/PagePlay.lean`) reads the visible events against the engine's public calls; the theorem is an induction
  over schedules, using C29 for the report, C01 for rejected programs and the shape of blocks (C30). Order: posted = handed over ++ waiting.
  A schedule that hands over only messages within the conditions of C31, C05 and C37 keeps the engine reachable by safe calls.
  Trusted: a panic in a wasm module built with `panic = 'abort'` leaves the `Mutex` locked and every later call traps; an exception in
  `process` makes the browser play silence.
* **C77** the engine's field is never read: each call commutes with a change of it (`Blind`), so it can be left out of any history (`gets`).
* **C78** `Verif/Glue.lean` models linear memory as JavaScript sees it: typed arrays are views on one `ArrayBuffer`, which is replaced when
  the memory grows; writes through a detached view are lost. The allocator is a parameter with laws (`Sound`); the examples use one that
  grows at every request. `Reads` says which text a UTF-16 string is; the bytes are those of Lean's `String.utf8EncodeChar`.
  Trusted: `TextEncoder` as described by the WHATWG Encoding standard, the laws of the allocator, and that an exported function leaves
  address and length of its result where `wasm-bindgen` says (`Gives`).
* **C79** `Verif/Handles.lean` is the object table; the invariant says that the free places are linked, each once, and are exactly the
  places which are not held.
* **C80** `Uses` (Spec/Settings) lists which component uses which setting, from the documentation and without `makenode`; the proof shows
  that `makenode` gives the same node for settings that agree on what is used, and that every other call of the API passes the settings
  on unread. `constsig` is counted among those that use the rate, because its node stores it.
* **C81** by the theorem on what a block computes (C48): the node of `~input` stays the pass-through node it is built as, in all histories,
  it has no sources, so it hands on what was copied into its buffers; a chain that begins with `~input` has it as its only source.
* **C82** by a simulation: `Lemmas/Sim` shows that two engines that agree up to a relation between their nodes give the same answers and
  blocks for ever, if the relation is kept by messages and by processing. The relation used here lets constants differ in the tempo they
  store and never use; all other nodes of components that do not count in bars are equal and stay so. Two tempos in a row: every kind of
  node stores the last.
* **C83** by a simulation between an engine and the engine with renamed tables (`Lemmas/Rename`): graph, clock and settings are equal,
  the four tables and the programs are mapped by the renaming, and nodes are equal up to the names that `seq` and `arrange`
  keep. Every step of an update (diff, removal, insertion, connection, roll-back) is shown to keep this. The spec renames
  references in programs, not in texts: a text of the renamed program is any text that the parser reads as it. Iteration orders of the
  tables correspond (what the order itself can change is C17 and C42).
* **C84** from C49 and a comparison of two runs along the flow, which allows two engines with different node numbers, edges and map
  orders: for components that treat their inputs sample by sample it is that of C34 (with blocks of the same size equal streams are equal
  blocks); the others find their inputs only by the order they were told (`ByRole`), so that other numbers for the same signals make no
  difference (`Lemmas/Renumber`). That the output is a sum of f32 numbers, which can be added in either order, needs that every node,
  also those inside drums, synths and the reverb, plays f32 numbers (`Lemmas/Single`, `Lemmas/SingleCompound`). After an empty program
  no component is old.
* **C85** places of the whole program are mapped to places of the parted one, once as what is heard (the end of the part becomes the
  reference) and once as what plays (the end of the part moves with it). Signals are compared along the flow as in C34; that a node other
  than a delay hears a signal of one channel as the same signal on two is shown node by node (`Lemmas/Double`).
* **C86** the comparison of two runs of C84, for two programs in which the same flows into every place that leads to the output
  (`unheard_flow`). Nothing is needed about the other places.
* **C87** the comparison of two runs of C84 once more, now with renamed components (`component_part_to`): where the dropped chain was
  heard, the other is. The same flows out of both by induction over the order of the references (`shared_programs`).
* **C88** each track alone is a part of the program in which the same flows into every place but the output (`part_flow`); the
  comparison of two runs of C84 shows that the end of the track plays the same in both (`solo_plays`). The output adds the track to 0,
  which can change only the sign of a zero, and this is not heard in a sum that begins with 0 (`flSum_again`).
* **C89** the same flows into every place of the dry program in the wet one (`end_flow`), so that by the comparison of two runs of C84
  the track plays the same (`end_same`); the effect hears nothing else (`into`, `end_plays`). That the output adds 0 to a signal is not
  heard behind a gain (`gain_again`). `c89_delay_partial`, `c89_filter_partial` and `c89_pan_partial` put C18, C56 and C72 on top: these play what they play
  for the left side of their input (`delayn_left`, `blocks_left`).
* **C90** places of one program which are places of another, with the same components and sources, play the same there (`sub_same`). It is used
  twice: for the track without the reference (`AtTheEnd`) and for the chain heard by itself (`HeardAs`, `heard_same`, where `get` may
  double a mono signal). What the last component does with the two is C50 and, for `balance`, `balance_sounds`.
  For `mix` the sources are listed by `flow_into`, also those of patterns, and each is compared with what it plays on its own
  (`PlaysOnItsOwn`); the order of the sum is that of the connections.
* **C91** what a component hears is read off `Sounds.component`: with plain references the sources are the left neighbour and the ends of the
  chains named, each once (`component_hears`), and each is what it plays on its own (`own_signal`). `c91_sine_partial` puts C75 on top; it
  speaks of samples of the two outputs and of `Real.sin` only. `c91_wave_partial` does the same for `saw`, `squ` and `tri`, and `c91_filter_partial`
  puts C56 on top for the cutoffs, `c91_pan_partial` C72 for the position.
* **C92** joins C32 (the text is read as written), C05 and C07 (accepted if everything resolves and can be built; `make_err`: building
  reports nothing but missing samples), C37 (every block renders) and C49 (`Sounds`). `c92_sine_partial` puts C91 and C75 on top for a single
  sine and speaks of the text, the samples returned and `Real.sin` only.
* **C93** is by induction on the session (`Gig.runs`): after each act the engine is again one reached by `SafeCall`, with the last program in
  force, the same sample rate, a usual tempo and good samples, and `~input` in place if there is an input. Refused texts use C01, C07 and C63. That messages
  do not fail is Lemmas/SetNumber (nearly every node takes any number and any text; drums, synths and the reverb pass them on to parts that
  are there), with `Kept.reach` for the nodes at the places addressed. After a reset there is no input (C12), which the sessions keep track of. `GoodSession` (Spec/Session) speaks about the programs only.
* Scripted components in **C84–C91**: the theorems ask of the scripted nodes that they look at nothing but the first buffer of the
  component connected first, and make f32 numbers of f32 numbers (`ExtFirst`, `Spec/Stream`). For the model of `eval` and `meta` this
  is proved (`Lemmas/ScriptFirst`), whatever the languages do, as long as the floats of rhai are f32 (`Rhai32`), which the feature
  `f32_float` in `rs/Cargo.toml` says.

## 4. Disagreements between code and properties

Each item is proved in Lean as a theorem with a concrete witness (name in brackets), on the model of the real nodes.

* **C02** re-ordering components of a chain leaves the nodes in the old order: `constsig 3 >> add 1 >> mul 2` sent after
  `constsig 3 >> mul 2 >> add 1` still plays 7 instead of 8 [`c02_reorder_counterexample`]; adding or removing a
  repetition of a component has no effect [`c02_repeated_component_counterexample`].
* **C05** sending `constsig 3 >> mul 2 >> mul 2 >> add 1` after `constsig 3 >> mul 2` panics
  [`c05_repeated_component_panics`]; `o: []`, `o: reverb ..`, `o: sin 440 >> apfmsgain 0.001 0.5` panic by themselves
  [`c05_text_panics_counterexample`].
* **C06, C16** re-sending `~a: constsig 3`, `o: constsig 1 >> mul ~a >> mul ~a` unchanged silences it
  [`c06_repeated_component_counterexample`, `c06_repeated_component_edges`].
* **C12, C13** `reset` drops the chain `~input`; the next block with external input panics [`c12_reset_drops_input`,
  `c13_input_after_reset_panics`]; so does one after a program defining `~input` [`c13_redefined_input_panics`].
* **C15** `arrange`, `psampler` and filter patterns ignore a change of tempo, breakpoints keep the places computed for the
  old one [`c15_arrange_counterexample`, `c15_psampler_counterexample`, `c15_lpf_counterexample`,
  `c15_points_counterexample`].
* **C16** re-sending `seq ~a ~a ~b` plays `~a ~a ~a` [`c16_seq_sources_counterexample`].
* **C17** which of several errors is reported depends on the hash order [`c17_error_counterexample`].
* **C18** `delayn` drops the right channel of a stereo input [`c18_stereo_counterexample`].
* **C19** the number of samples is off by rounding, mono inputs are silent on the right, a delay set to 0 stays silent
  [`c19_rounding_counterexample`, `c19_mono_counterexample`, `c19_set_zero_counterexample`].
* **C20** the period is `sr/freq` rounded in f32 [`c20_rounding_counterexample`]; above the sample rate `imp` panics
  [`c20_panics`].
* **C21** notes in the second and later space-separated groups of a `seq` pattern never sound
  [`c21_later_groups_silent`, `c21_later_groups_counterexample`].
* **C22** `envperc` plays an envelope at creation without a trigger [`c22_creation_counterexample`].
* **C23** retriggering `adsr` during its release does not reach 1 [`c23_retrigger_counterexample`].
* **C26** `points` starts with its last value and extrapolates the first segment after its last point
  [`c26_ends_counterexample`]; debug builds panic at the first sample [`c26_start_panics`].
* **C27** a stereo sample of one frame and a sample without channels panic [`c27_short_stereo_counterexample`,
  `c27_empty_counterexample`]; `psampler` with a bar shorter than a sample panics
  [`c27_short_pattern_counterexample`].
* **C30** `process` panics for odd sizes and for more than two blocks [`c30_other_sizes_panic`].
* **C31** ``o: eval `` ``, ``o: eval `x` `` and, if the evaluator rejects `1*,2`, `o: [0=>1]*,2` make the parser panic
  [`c31_parser_panics_counterexample`].
* **C32** ``eval `x+y` `` is read as `eval` of `+`: the first and the last character of the code are dropped
  [`c32_eval_counterexample`].
* **C37** accepted programs that panic when played: `o: pan 0.5`, `o: plate 0.1`, `o: delayms 100`, `o: imp 50000`,
  `~a: imp 1` with `o: seq ~a`, `speed 1000000 >> seq 60`, `~a: pan ~a` [`c37_*_panics`].
  A message can do the same to a program that plays: `o,0,0,50000` after `o: imp 1` [`c37_message_impulse_panics`].
* **C39** `full()` is inverted, `available_read()` of an empty buffer is the storage size
  [`c39_full_is_inverted`, `c39_available_read_when_empty`].
* **C40** `delayn` set to 0 panics, `delayms` set to 0 is dead for ever, `pan` is clamped only by messages, the delay of
  `apfmsgain` set by message only rotates its buffer [`c40_delayn_panics`, `c40_set_zero_counterexample`,
  `c40_pan_counterexample`, `c40_apf_counterexample`].
* **C41** negative frequencies leave [-1,1] [`c41_negative_frequency_counterexample`].
* **C42** the sum of three inputs depends on the hash order [`c42_order_counterexample`].
* **C43** looping `points` do not interpolate between neighbours [`c43_interpolation_counterexample`].
* **C45** samples are interpolated with swapped weights at stretched positions
  [`c45_original_speed_counterexample`].
* **C46** in `psampler` a mono sample after a stereo one overwrites the right channel
  [`c46_pattern_mix_counterexample`].
* **C47** a drum (`bd`, `sn`, `hh`) with a reference keeps indices of earlier programs and panics after the reference is
  redefined [`c47_drum_reference_counterexample`].
* **C52** `balance ~a ~a` is silent [`c52_same_source_counterexample`].
* **C53** `arrange ~a 0 ~b 1`: a first part of no bars is heard for one sample at each repetition, though not at the start
  [`c53_empty_first_counterexample`].
* **C54** a first source whose block starts with a positive sample followed by 0 is taken for a speed; `seq ~a` then panics
  [`c54_speed_counterexample`].
* **C55** `msgsynth` compares the position with the attack the wrong way round: the decay stage is played first and the attack
  stage last, growing to (attack+decay)/attack at the end [`c55_msgsynth_counterexample`].
* **C34** where a block ends can be heard: feedback between chains arrives one block later, `choose` draws once per block,
  `meta` evaluates its script once per block, filters with a reference take the cutoff from the first sample of a block
  [`c34_feedback_counterexample`, `c34_choose_counterexample`, `c34_meta_counterexample`, `c34_rhpf_counterexample`]; `speed` with blocks of one sample panics; the reverb is later by the
  size of a block [`c68_block_counterexample`].
* **C56** `lpf` and `rhpf` multiply a0 with a memory `x0` that is never written, so the current sample is missing
  [`c56_rhpf_counterexample`, `c56_lpf_counterexample`]; `rhpf` computes with 44100 at every sample rate
  [`c56_rhpf_rate_counterexample`]; `onepole ~r` takes the signal for the rate and filters the reference
  [`c56_onepole_mod_counterexample`]; `apfmsgain` panics below one sample of delay [`c56_apfmsgain_counterexample`] and writes the
  left channel only; with a reference it exchanges the weights of the two samples between which the delay ends
  [`c56_apfmsgain_weights_counterexample`].
* **C57** the nodes inside drums and synths always assume 44100 samples in a second, so at 48000 they are too fast and too high
  [`c57_rate_counterexample`]. hh.rs announces `noiz 42 >> mul ~env >> hpf 15000 1.0 >> mul 0.8` with an attack of 0.001 s, but the
  envelope comes after the filter, has 0.003 s and nothing softens it [`c57_hat_as_written_counterexample`]; sn.rs announces
  `mul 60` and a final `hpf 5000 1.0` where there are `mul 55` and no filter; the synths announce 261.626 Hz and play 261.63 Hz.
  (The announced programs, typed in, would be silent on the right, since `envperc` writes the left channel only, C22.)
* **C58** the queue has no borders between texts: two programs sent between two blocks become one [`c58_joined_counterexample`],
  and what does not fit into 2048 bytes is dropped without an error [`c58_long_texts_never_arrive`, `c58_joined_and_cut`].
* **C59** a message that does not fit is cut, and its beginning is executed: `o,0,0,440;` sets 44 [`c59_cut_counterexample`].
* **C60** `stop()` is `run("")`, and the worklet only looks at texts of size ≠ 0, so where shared memory is used `stop()` does
  nothing [`c60_stop_never_arrives`, `c60_stop_counterexample`].
* **C61** `psynth(str, span)` writes an opening backtick and no closing one [`c61_psynth_counterexample`]; `1e-7` is refused by the
  grammar, which wants a point before an exponent [`c61_exponent_counterexample`]; `mul("_b")` is dropped without an error
  [`c61_underscore_counterexample`].
* **C62** `add_node_chain` lays the wires of a chain without sending `Index` to their targets, unlike `chain` and `chain_boxed`; a
  node that looks up its inputs by their order then panics [`c62_add_node_chain_counterexample`]. `reset` clears the graph but keeps
  `tags`, which then name nodes that are gone [`c62_tags_counterexample`].
* **C64** Between its ends the right side of a stereo sample is read at `left + len + 1`, one value further on than the left side, and
  both only up to `len - 2`: a sample with equal sides does not sound equal on both sides [`c64_sides_alike_counterexample`].
* **C65** `addSampleFiles("a-b", url)` registers `\a-b`, but when the page is stopped the loop in js/src/glicol.js registers `\a_b` with
  the new engine: the program that played is rejected [`c65_dash_counterexample`]. A file with three channels is listed before the
  exception is thrown, is not known to the engine, and ends the loop after `stop()`, so that all samples listed after it are lost
  [`c65_surround_counterexample`]. The counters of folders are kept by the name with capitals and the names without, so that files of
  `Kick` and `kick` overwrite each other [`c65_case_counterexample`]. `a.b.wav` is listed as `a.b`, which is not a symbol of the language
  [`c65_dot_counterexample`].
* **C66** If the message up to `negatives[` is longer than 254 bytes, `info.split("negatives[")[1]` is `undefined` and the page throws: the
  user sees the raw, cut message only [`c66_long_lists`, for all such failures]. Columns are characters for pest and code units for the
  page [`c66_wide_counterexample`]. The package (`js/npm/index.js`) keeps the code in `play` only: after `run` its report throws before it
  shows the line [`c66_npm_run`, for all failures], or shows the line of the program last played [`c66_npm_stale`].
* **C67** `str.includes("#")` is also true for pieces that are not matches of the regular expression: with a `#` in a comment the whole
  program is evaluated as JavaScript, fails, and the empty text is sent, which stops the music [`c67_comment_counterexample`].
* **C68** The search through the reverb's graph, which has a cycle, closes the cycle not at the feedback `fb2 -> wet7` but at `aa -> ab`:
  the line `ab` of 2800 samples delays by 2800 samples and a block, and so does all that follows. The reverb sounds different at
  different block sizes [`c68_block_counterexample`, for all pairs of block sizes]. The moving all-passes interpolate between two
  samples with the weights exchanged (`between` in `Spec/Plate.lean`), as samples do (C45). The right channel of the input is not used.
* **C69** Text that fasteval rejects is not reported: `apply_code` unwraps, so the engine panics in `update_with_code`
  [`c69_unreadable`]. A semicolon after the last expression is enough [`c69_last_semicolon`]. A statement without `:=` before the last
  panics at the first sample, on the audio thread [`c69_nameless`]. `x:=x+1` alone does not set `x` [`c69_last_name_counterexample`].
* **C70** A script that fails repeats the block before it for ever, a buzz [`c70_failing_counterexample`]; a short array leaves the old
  samples behind its end [`c70_short_counterexample`]; code that does not compile is accepted and silent [`c70_bad_code`].
* **C71** The clock of `imp` counts from the start, not from the last click, so that a change of the frequency gives a distance that is neither the old nor the new
  period [`c71_imp_counterexample`; what it does: `c71_imp_partial`]. A message to `delayn` empties the line, even when the delay stays the same
  [`c71_delayn_counterexample`].
  `delayms` set to 0 while playing plays its input for as long as it stays 0, but once it is set to another value it repeats its last block for ever
  [`c71_delayms_zero_counterexample`].
* **C72** `pan` reads the left channel of its input only: what is on the right is lost, also for `pan 0` [`c72_right_counterexample`]. A position outside -1 to 1 is only
  limited when it comes by a message; written or referenced it gives NaN on one side [`c72_outside_counterexample`].
* **C73** an edit of any other chain makes `seq ~a ~a ~b _` play `~a ~a ~a` from then on [`c73_seq_counterexample`]; the same cause as in C16.
* **C74** calls that go over the port before the wasm file has arrived reach a handler that uses the missing module, throws inside an
  asynchronous function and loses the call [`c74_early_calls_are_lost`]; `loadSamples` starts its `fetch`es without waiting for them, so
  `onLoaded` is called before any sample is there [`c74_no_file_when_loaded`]; the handler of `ready` names `encoder` instead of
  `this.encoder` when there are samples already, so `onLoaded` is never called [`c74_early_file_prevents_onLoaded`]; `process` empties
  the queue of programs before that of messages, whichever was sent first [`c74_message_overtaken`, `c74_order_counterexample`].
* **C75** `saw`, `squ` and `tri` with a modulated frequency take 0 as "no new value" and run on at the last frequency, while `sin` stops
  [`c75_zero_counterexample`; `c75_modulated_partial` says what they do instead].
* **C76** texts on which the engine panics stop the page for ever, without a report: `o: []` while it is built
  [`c76_page_silenced_counterexample`], `o: pan 0.5` at the next block [`c76_accepted_text_silences_counterexample`]. The README promises
  that the previous music continues after an error.
* **C77** `trackAmp` has no effect at all [`c77_track_amp_ignored`, `c77_track_amp_counterexample`].
* **C78** where a worklet has no `TextEncoder` (the glue provides for this case), names and messages with a character outside ASCII are
  not handed over: the call throws [`c78_ascii_only_without_encoder`, `c78_no_encoder_counterexample`].
* **C81** a block for which no input is given plays the input of the block before once more, and the right side does so when only one
  signal is given, because the buffers of `~input` are not emptied [`c81_no_input_counterexample`, `c81_side_not_given`].
* **C85** `~p: constsig 1` with `o: ~p >> delayn 1` plays nothing on the right; `o: constsig 1 >> delayn 1` plays on both sides
  [`c85_delay_counterexample`].
* **C87** two equal chains cannot be merged when one component refers to both: the engine connects two nodes at most once, so `mix ~a ~b`
  plays 4 where `mix ~a ~a` plays 2, and `balance ~a ~a` finds no second input and is silent (`c87_both_counterexample`).
* **C34, C84** The sum of more than two chains depends on the order in which they were connected, which is the order of a hash map:
  the same text can give 0 or 1 [`c84_order_counterexample`].

## 5. Properties without a theorem yet

None.

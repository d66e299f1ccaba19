# Formal model of pabo99/quark in Lean 4 — design

The properties are in `properties.jsonl`; their status and the exact theorem
names are in `MANIFEST.json`; seeded-bug experiments are in
`seeded/LOG.jsonl`. The Lean project is in `lean/`.

## Layout

Every area has its own directory `lean/Verif/<Area>/`:

* `Model.lean` – the executable model; every definition cites the file and
  lines of /repo it models and says where it simplifies;
* `Spec.lean` (where the property needs vocabulary of its own) – the small
  specification used in the property statements, independent of the model;
* `Lemmas.lean` – helper lemmas;
* `Props.lean` – the property theorems, each with an `example` showing that a
  concrete non-trivial case meets the hypotheses, and for claims that are
  false of the code, the negation with a concrete witness.

## Modelling conventions

* Go functions are total Lean functions; a Go panic is an explicit outcome, an
  `error` is an explicit value, `nil` an explicit case.
* Goroutines and channels are a state machine; an execution is a list of steps
  chosen by an arbitrary scheduler; properties are invariants over every
  execution (`Reachable`), by induction over the step list.
* A crash is: the program stops after an arbitrary prefix of its file-system
  effects, the last of which may be torn (a prefix of the data is written).
* `math/big.Rat` is `Rat` (exact). `float64` is a concrete binary64 rounding
  model over `Rat` (round-to-nearest-even), only used for C06/C07.
* Byte strings are `List UInt8`; where only equality of names matters, `String`
  or `List Char`.
* External code (Go runtime and standard library, go-base, the sandbox, the
  database, git2go) enters as parameters or as the contracts listed below.

## Per-property plan

| Id | Modelled | Proof |
|----|----------|-------|
| C01 | `runner/tokenizer.go` split function, `bufio.Scanner.Scan` loop with buffer growth, `utf8.DecodeRune` on bytes; reads are an arbitrary list of chunk sizes | invariant: buffer window ++ unread bytes = remaining stream; result equals a chunk-free reference tokenizer for every chunking |
| C02 | same | reference tokenizer = maximal runs of the decoded rune sequence (induction on the stream) |
| C03–C05, C08 | `runner/validator.go` `CalculateScore` over token streams | induction over the two token lists |
| C06, C07 | `tokenNumericEquals` over a concrete binary64 model (rounding of rationals to nearest even, gradual underflow, overflow) | rounding is monotone, odd, and exact on representables; case analysis |
| C09, C10 | `runner/sandbox.go` `parseMetaFile` on lists of lines | fold over lines, decision-table case split |
| C11 | `worseVerdict`, `VerdictList` | finite order, then fold/permutation lemmas |
| C12–C16 | case loop and validation loop of `runner.Grade` over `Rat` | induction over groups and cases |
| C17 | interactive result collection of `Grade` | permutation invariance of the fold; witness for memory |
| C18, C19 | compile loop, execution loop with overall wall-time limit | induction over the loops, executed-case log |
| C20–C23 | `grader/queue.go` `enqueueBlocking`, `enqueue`, `GetRun` as atomic channel operations, any number of threads | inductive invariants over all interleavings |
| C24–C29 | run lifecycle: queue, inflight monitor, `/run/` handlers, timeouts, `Requeue`, `Close` | inductive invariants over histories; witnesses for the false parts |
| C30 | watchdog goroutine of `InflightMonitor.Add` | trace induction; witness for the blocked drain |
| C31–C33 | `EphemeralRunManager.add/Get` | induction over add sequences |
| C34 | `InputManager.Add` state machine | invariant over histories |
| C35–C37 | file-system effect lists of `Persist`, crash at any prefix with torn last write, then `Verify` | case split over crash points; for C36 over archive members |
| C38 | `HashReader` | induction over reads |
| C39 | path check of `getStoredHashes`, `path.Join` on unpacking | lexical path model; witnesses for the false parts |
| C40, C41 | `broadcaster/filter.go` | decision logic; parser round trip |
| C42–C45 | `Broadcaster.Run` loop | refinement to a per-subscriber message log |
| C46 | `updateScoreboardLoop` | trace induction with time |
| C47 | SSE and WebSocket transports' close channels | schedule invariant; witness for SSE |
| C48–C51 | `cmd/omegaup-grader/ci.go` | JSON codec of the enum; folds; crash points |
| C52–C54 | `NewLiteralInputFactory` | sorting lemmas, sums over `Rat` |
| C55 | `validateRequest`, default limits | min lemmas; witness |
| C56 | `channelBuffer` | invariant over step lists: sent = received ++ buffered |
| C57 | `gradeDir`, resource filename check | injectivity of formatting; path lemma |
| C58 | back-off loop | invariant |
| C59 | `RunPostProcessor.run` loop | refinement to per-listener logs |
| C60 | `QueueManager` | map lemma; witness for replacement |
| C61 | `parseOutputOnlyFile` and the cat branch of `Grade` | induction over archive members |
| C62 | `common/tracing.go` | round trip; witness for the panic |
| C63 | `noop_sandbox.go` fix-up | induction over groups |
| C64 | `ScoreRange.UnmarshalJSON` | decision logic |
| C65 | `newRunContext` / enqueue call sites | decision logic |
| C66 | same model as C24–C29; a nil dereference is an outcome | invariant without races; witness execution that crashes |
| C67 | same | invariant over all interleavings: every open run is queued, carried by a goroutine that cannot vanish, or watched by an unsignalled watchdog; attempt ownership shows that Remove signals only the remover's run |
| C68, C69 | places where a number, hash or uploaded name becomes a path | lexical path lemmas; witness for raw names |
| C70 | `/input/` handler with its shared `err`, handlers interleaved | sequential case by induction; two witness executions; the exact answer of every request in every interleaving, from the last lookup before it |
| C71 | broadcaster loop with the subscribe/unsubscribe channels | trace induction; witnesses for the leak (`C71_leak`, `C71_dropped`) and `C71_causes`: there is no other cause |
| C72, C73 | `NewLiteralInputFactory`, `createTar` | canonical form is a fixed point; witness for names |
| C74 | `/run/new/`, `/run/grade/`, start-up scan interleaved | invariant over histories; witnesses |
| C75 | `noop_sandbox.go` | sums over `Rat`, exact condition |
| C76 | `ScoreRange` printing and parsing | monotone printers |
| C77–C81 | `/run/<attempt>/results/` handler (`processRun`), `Requeue`, `Close`, sequential per run | induction over histories of uploads and time-outs |
| C82, C83 | JSON codecs of `Run`, `RunResult` and parts; string literals byte by byte | round trip by structural induction; exact characterisation of what changes |
| C84–C94 | set-up, command lines, file system effects of `Grade` and `OmegajailSandbox` | list and path lemmas; a file system with hard links; invariants over the operation list |
| C95–C98 | `updateDatabase`, `broadcastRun`, `runPostProcessor`; filters of area Filter | induction over the finished runs; witnesses for withheld scores |
| C99, C100 | restarts: `getPendingRuns`, the loop at start-up, over the handlers of area Requests | invariant over all histories with kills; two witness executions |
| C101 | `createCIRunConfigFromGit` on a tree given as a function from paths to blobs, decoders as parameters | exact classification of the result; `Forall₂` between declared and built tests |
| C102 | the same, composed with area Literal | false: exact conditions for groups, weights and limits to be the problem's, what the validator keeps, a witness |
| C103 | `processCIRequest` and `addRun`, nil dereferences as crashes | false: exactly when it crashes, two witnesses |
| C104 | the loop over the tests with its shared, mutated input | invariant over the loop (the shared input always gives what it gave at first), every map order |
| C105 | the copy program's two loops, sizes of system calls arbitrary | false: exact output, equality exactly when each piece repeats its start; holds for full writes |
| C106 | `CreateArchiveFromGit` as a walk over an arbitrary tree, unpacking on a file system of directories and files, tar/gzip as a lawful codec | mutual induction over trees: exact result with everything after the first unreadable subtree dropped; witness; exact condition for acceptance |
| C107 | sizes on both sides and in `Verify` | the same induction; paths of members are distinct |
| C108 | effects of unpacking outside the directory | the same induction; witness with an entry `..` |
| C109 | `GetProblemInformation` | the settings file is never cut without being noticed |
| C110 | `channelBuffer`, `gradeAndUploadResults`, its goroutine and the HTTP transport as a transition system | invariant, a step exists in every reachable non-final state, decreasing measure |
| C111 | as C110, with the bytes on the wire | invariant: wire, chunk in hand and chunks to come make up the body |
| C112 | `gradeRun`, `gradeAndUploadResults` composed with the grader's `processRun` and `Requeue` (area Upload) | exact list of parts; case analysis; induction over the parts that arrive |
| C113 | `queueEventsProcessor` on top of Lifecycle's executions and Hub's delivery | the exact value of the gauge (runs now minus runs at registration) from C28 and C59; witness of -1 |
| C114 | `GetRunData`, `GetQueueInfo`, the status handler over Lifecycle's executions | invariant (attempts registered and not dropped), counting; witness that it is not a snapshot |
| C115 | `PreloadInputs`, both `CachedInputFactory`s, `Verify`, `Delete`, `Add` over directories with names, any evictions | invariant over the walk (what is cached verifies, what has been visited is cached or gone, what verifies is untouched) |
| C116 | the same, with `Persist`'s interrupted disks | corollary for the runner's directories; general theorems that the rest stays |
| C117 | preloading goroutine, users of inputs, evictions, the lock, as interleaved steps | invariant for the runner and for calm executions of the grader; witness; persistence of the broken state |
| C118 | JSON values of any shape printed as tokens by `json.Marshal`, `strings.Contains` on the bytes, `broadcastRun`'s announcement | an occurrence of the pattern is cut along the tokens (quoted text has no plain quote), induction on values; witnesses for inner members and odd keys; the message's UTF-8 validity for the transport |
| C119 | `Close`'s send, the post-processor's goroutine, `runPostProcessor`, the broadcaster's handler, `contestChan`, the scoreboard loop as one interleaved system | invariant that splits the runs over the stages; second invariant from a moment on |
| C120 | same | false, by a full pipeline that only an answer of the frontend frees; bound on what can still be closed (attained); progress and a decreasing weight if requests end |
| C121 | `Config`: `encoding/json` decoding into a tree of structs and options, `defaultConfig` as such a tree | mutual induction over documents: each option is its default with the values given at its path applied in order; the table of all options and defaults is pinned and shown complete; rejection as an equivalence |
| C122 | `Session`: the handler of the events port with `AcceptsMimeType` | exact criterion for the type; complete table of answers; counterexamples to both halves |
| C123 | same; `url.QueryEscape` byte by byte | a form decoder as specification, round trip by induction over bytes; composition with C40 |
| C124 | same, `/deauthenticate/` | exact for names without a slash, false otherwise |
| C125 | `/run/grade/` with the error variable all its requests share | invariant over all histories; witnesses for both wrong answers |
| C126 | Grade: `time`, `wallTime`, `memory` of `grade`; `details` of each case | induction over the cases; standard error bound of rounded sums |
| C127 | Grade: `collect`, `individualOf` (with the custom validator's entry) | folds over arrival order; memory is not the sum (witness for every n), partial |
| C128 | Grade: `collect` (chosen metadata) | first failing process; order dependence witnessed, partial |
| C129 | Literal: `newLiteralInput`, `validatorStep`, `interactiveStep`, `validInterface`, language tables | equivalence with an independent table and character-code specification (Literal/Exact) |
| C130 | MetaFile: `parseMetaFile`, `applyField`, `atoi`; Float: `parseFloat` | fold over the lines, last mention wins; digit induction; correct rounding (MetaFile/Fields) |
| C131 | Settings: JSON codec of `ProblemSettings` and its parts | round trip through the codec, independent `reweigh`/`Writable` specification |
| C132 | Settings + Literal + Grade | perturbation bound for shares, composed with C53 and the runner's normalisation |
| C133 | Settings: `decCase`, `decLiteral`, `weightFactor` | induction over the members of the JSON object |
| C134 | Grade: `grade` on two related problems | relational induction over the two executions |
| C135 | Grade: `grade` on two submissions | closed formula for the score from weights and case scores, monotone in each case |
| C136 | CI/Progress: the reports passed to `Write` by `ServeHTTP`, `processCIRequest`, `addRun` | induction over the tests; pairwise relation on any subsequence; the stay-settled part is false when saving the request fails (witness) |
| C137 | Sandbox: `setupOps` | invariant over the list of steps, composed per interface |
| C138 | Wire/Tolerant: `decRun`, `decResult` on arbitrary member lists | characterisation by induction over the members; members of distinct names commute, hence invariance under permutation |
| C139 | EndToEnd joins Settings, Wire, Grade and Publish: settings and run are sent, graded, the result sent back, received and recorded | error bounds composed from `share_error`, the C83 trip and rounding; exact for accepted runs; order preserved by monotonicity. |
| C140 | `WriterEventCollector.Add` as goroutines with a lock, writes that fail after any number of bytes, and `Close` | invariant: the file is a list of beginnings of lines, one for each call that got to write; uniqueness of lines; witnesses for torn lines and the second header |
| C141 | `AppendLogSection` over any history of log lines and uploads | words without borders are found where they are; injectivity of the log; forgery witness |
| C142 | The three goroutines of a runner as lists of lock, work, unlock instructions under every interleaving; pieces of work have a beginning and an end | Simulation by a serial order of jobs (invariant: closed jobs ++ prefix of the holder's job); no deadlock and a decreasing measure |
| C143 | The queue model of C20-C23; runs handed out after the moment a run is pushed | Step-wise accounting of higher, same and lower channels; the channel is not empty while the run waits, so no scan passes it; example attaining the bound |
| C144 | `ReadLine` with its 4096-byte buffer (parts of long lines, carriage returns), `strings.Contains`, appending of the sandbox's messages, then the meta file model of C09 | Induction on the file; false for a text across the end of the buffer (witness), so partial; exact for lines of at most 4096 bytes |
| C145 | Files left by the compiler as optional texts, the Java class check, the choice of file | Case analysis against a separate description of the text |
| C146 | the references to inputs as tasks (runs with their own input, runs of a problem, two kinds of runner requests) that add, hold, forget and give back, over a counting cache | `held` counts the tasks with a reference; invariant: cache count = `held` over all histories; the input of an accepted run is present, cannot be evicted and is found by every request; released once over all continuations; false of the code for giving back: a run that gets no directory keeps its input for ever (`C146_false_directory`), otherwise evictable (`C146_given_back_partial`) |
| C147 | events of the model of `Grade` (compile, exec, compare) | the whole event list of a run equals compilations, then executions only, then comparisons of the cases reported AC/PA/WA, by induction over groups and cases |
| C148 | the model of the broadcaster (C42-C45) with its own actions singled out | bounds by induction over histories; an explicit measure that every own action lowers; an own action exists until all is done; hence draining without subscribers (`C148_drains`) |
| C149 | `main` of cmd/validator over the model of `CalculateScore`; `%.2f` as exact rounding of the float64 | exit status and output characterized for all arguments; token validators print 1.00/0.00; the printed line read back as the output of a custom validator gives the built-in score (assumes only that `ParseRational` reads d.dd); rounding bound from the float lemmas |
| C150 | The closure variables of splitFunc through the scanner loop | false for cut reads (witnesses); exact for streams of at most 4096 bytes that arrive in one read; for all reads the line is between that of the token before and the true one |
| C151 | Decoding of ProblemSettings and its parts | equivalence of the sequential reading with a look-up specification for every struct, by induction on the members; null and unknown members |
| C152 | runOneshotRun, main around it, oneshotInput; path.Ext and filepath.Walk of the Go library | equivalence with a specification of the asked run; mutual induction on trees; witness that it never ends when the run directory has named pipes (interactive problems) |
| C153 | `encodeState.string` of encoding/json (Wire/Text) | induction on the bytes; every piece is a way of writing the character by an independent grammar of RFC 8259, and has only harmless bytes |
| C154 | the maps of gauges, counters and summaries, `GaugeAdd`, `CounterAdd`, `SummaryObserve` and all their call sites | induction on the history; theorem that six of the metrics are always 0, whatever happens |
| C155 | `RunHostBenchmark`, the loop around it and `gaugesUpdate` | case analysis and induction on the cases, trace of acquisitions and releases; induction on the benchmarks |
| C156 | `addAndWaitForRun` step by step beside runner, `Close` and disconnection | invariant per program point; reverse induction over executions for the files; ranking function for the end; simulation for hanging up |
| C157 | the last steps of the same machine | invariant for executions without failures; two witnesses against the full claim |
| C158 | the front of the handler with the literal input factory of C52–C54, C129 | case analysis with C129; invariant; witness |
| C159 | `Stop`: the end of `main` of grader and broadcaster, parts stopped in order with a shared deadline | lost signals as counterexample; from every state past the deadline `main` alone ends, and nothing hinders it |
| C160 | same, requests numbered | inductive invariant: what was shut down before the deadline is empty; counterexamples for both daemons |
| C161 | same, the CI handlers, the channel and its worker | inductive invariant (sent = started ++ channel ++ waiting) and a progress argument |
| C162 | same | counterexample; invariant for runs that were started |
| C163 | Sse: `written`, `updateText`; spec: the reader of the HTML Standard | induction over the turns with the reader's state; size argument for texts with line ends (`C163_iff_partial`); partial, false for texts with line ends |
| C164 | CompileAll: `compileAll`, `grade`, `sent` on top of ErrorFile's `compile` | first failure of a list; exact characterisations of CE, JE and OK; permutation argument; partial (witnesses) |
| C165 | `http.ServeMux` of Go 1.13 (cleaning, redirections, longest pattern) over the registered patterns of all ports | tidy paths (stated with infixes) are the fixed points of cleaning, via the elements of a path; sorted insertion keeps the longest first; offers of the specification are the table (finite check), then generic in the path |
| C166 | `RunServer`'s choice of TLS with client certificates, `peerName` | case analysis over flags, ports and connections; the TLS handshake is its contract |
| C167 | the regular expression for results as a leftmost search, `ParseUint` with its error ignored, the lookup by attempt id | induction on the path for the search; decimal digits stand for their number; witnesses for what is false |
| C168 | the regular expression for inputs, the URL the runner makes | as C167; elements of a path exclude other places |
| C169 | the directory of one commit with its requests, the worker, kills and restarts (CI/Model) | invariants over all actions for states in which nobody is about to write; witnesses for what is false; the general loss of skipped reports from C51_scan_outcome |
| C170 | the same | invariant: the unfinished request holds the stamp, and a removal that will take the stamp began without one; witnesses |
| C171 | Grade's error next to its result, joined with what the runner sends | `C171_result`, `C171_judge_error`, `C171_case`, `C171_innocent`, `C171_compile_error`: exact characterisation of the delivered verdict; the last sentence is false of the code (`C171_accepted_lost_partial`): if the output files cannot be packed after grading, an AC is delivered as JE without points |
| C172 | the Lifecycle model, infinite executions `Forever`, fairness `Fair` to one run | `C172_bounded`: a rank decreasing with every operation on the run and never increasing bounds their number; `C172_never_stuck`: an operation that is no race is possible while the run is not over; `C172_ends`: fair executions reach and keep the end. With races the statement fails (C24, C66) |
| C173 | the grading model, weights of any sign; `share`: the part of the maximum score a weight stands for | `C173_maximum_scores`, `C173_group_scores`, `C173_run_score_partial` give every score exactly; three witnesses |
| C174 | `Verif/ClockSync`: the counter, the handlers of `/run/request/` step by step, header and JSON transport of the id, traces and files of runs, all interleaved | invariant by induction over executions; `C174_unique`, `C174_trace`, `C174_matched`, `C174_file_partial`; witness `C174_missing` |
| C175 | `Verif/Phases`: the events of a run, with the goroutines of each case interleaved step by step | invariant over executions of a case, induction over cases; `C175_nested`, `C175_executed`, `C175_compile_error`, `C175_no_input`, `C175_no_stragglers`, `C175_never_stuck` |
| C176 | `Verif/HashReader`: reads, draining, sum and length of a hash reader over a stream given by its answers | induction on the answers; `C176_sum`, `C176_length_partial`, `C176_accepts_iff`, `C176_embedded`; witness `C176_length_false` |
| C177 | the events with durations of queue.go: QueueRemoved, ManagerRemoved, QueueTime, over the interleavings of Lifecycle with a clock | invariant by induction over executions: one report per attempt that left, its value the time since the first queueing; false as named: witnesses with any grading time, a retry, an unset time |
| C178 | The hash as in its publication, the names and numbers of the processes, the metadata events that a trace begins with, a runner's trace and its merging into the grader's | Every trace a runner makes, and every trace of a run in the grader whatever was merged into it, says of every event whose it is, before it (induction over the merges). The step of the hash is injective in both arguments because the multiplier is odd, hence the number of host and role collides exactly if that of the host does, and never for hosts that differ in a byte; the parity of the hash separates grader and runner of one host. False in general: two host names of containers collide |
| C179 | Broadcast/Metrics: the counters and observations, as a function of the steps of Broadcast/Model | balance equations between counters, queues, the history of the broadcaster and the calls made, by induction over the execution |
| C180 | Live: Broadcast/Model, Filter/Model and Sse/Model as one process, the browser as in Sse/Spec | the turns of a subscriber's loop are what it took (induction over executions), then the invariant of C42, C163 and C98 |
| C181 | Sent: Literal/Model's archive through Archive/Model's fetch | induction over the members: the files so far and the directories above them are what is there; then C52; false of names with slashes: witness |
| C182 | Fds: Grade/Model where files may fail to open for lack of descriptors | induction over groups and cases: with two descriptors for each case and one more it holds; exact for an accepted submission and a fixed limit; false otherwise, for every limit: descriptors are kept until Grade returns |
| C183 | Sandbox/Life: the gradings of Sandbox/Model one after the other, with the removal in the end | induction over the history: no links are left, so C92 applies to each run; Sandbox/First: grading cannot tell disks apart that differ in the numbering of files only (a relation kept by all operations), so each run is graded as the first; Sandbox/Killed: the same relation on the names of a run shows that grading depends on its directory and input only, so leftovers of killed runs do not matter to others (any history with kills); false of a killed runner: witness with every later history |

The rows for properties from C66 on were added when the property was. What was
proved and what was not (statuses, exact theorem names and the missing parts) is
in `MANIFEST.json`. For a property that is false of the code the theorem with
the suffix `_partial` has the strongest true statement found, and further
theorems named in the manifest prove that the full statement fails, with a
concrete witness.

## Trusted base

* Lean 4.33.0's kernel and, for the theorems, at most the axioms `propext`,
  `Classical.choice`, `Quot.sound` (checked by `vcheck`). No `native_decide`,
  no `bv_decide`, no axioms of our own. Concrete examples and witnesses are
  evaluated by the kernel (`decide +kernel` or `rfl`).
* The reading of the Go source into the models: the code is not run here, and
  nothing machine-checked links the Go text to the Lean definitions. Each
  definition cites the lines it was read from.
* The contracts of external code, each recorded at the definition that uses it
  and listed per area below.

## What is modelled, area by area

| Area | Modelled code | Left out, simplified or assumed |
|------|---------------|---------------------------------|
| Tokenizer | `runner/tokenizer.go` whole; the loop of `bufio.Scanner`; UTF-8 decoding | line and column numbers are modelled only to show that they depend on reads; more than 100 empty reads |
| Float | `tokenNumericEquals` (`validator.go` 103-121) in binary64 | the text of a number enters as its decimal value; the two zeros are one |
| Validator | `CalculateScore`, `tokenEquals…`, `validator.go` 16-131 | `unicode.SimpleFold` and `base.ParseRational` are parameters |
| MetaFile | `parseMetaFile`, `isJavaMLE` as a parameter, `worseVerdict`, `VerdictList` | bytes are characters; opening and reading the file |
| Grade | `Grade` (`runner.go` 443-1257): compile loop, case loop, interactive results, overall time limit, validation, scores | the answers of the sandbox and file system are parameters; metrics, logs, events |
| OutputOnly | `parseOutputOnlyFile` and its use in `Grade` | the zip and data-URL libraries are parameters |
| Noop | `NoopSandboxFixupResult` | the no-op sandbox's own calls |
| Sandbox | the files and programs of `Grade`, `copyFile`, `createZipFile`, `OmegajailSandbox.Run/Compile` up to starting omegajail; one run after the other | omegajail itself, the preloader, directories, int64 overflow |
| Wire | JSON of `Run`, `RunMetadata`, `CaseResult`, `GroupResult`, `RunResult` | parser inverts printer on trees and on numbers; `base.RationalToFloat/FloatToRational` |
| Settings | JSON of `ProblemSettings`, `GroupSettings`, `CaseSettings`, `ValidatorSettings`, `LimitsSettings`, `LiteralCaseSettings`; the runner's weight factor | as for Wire; `base.Duration`, `base.Byte` and `InteractiveSettings` are codecs that read back what they wrote; settings are read into a zero value |
| EndToEnd | the joints: `Grade` is called with what arrived, `details.json` from the result, `processRun` setting `JudgedBy`, the fields `updateDatabase` uses | as for the stages; `CompileError`/`CompileMeta` are free; memory converted to int64 when sent |
| TraceFile | `WriterEventCollector` (`Add`, `Close`) under all interleavings, the header written by `NewContext`; writes that fail midway | encoding of events (given bytes; that strings have no newline is proved of Wire.quote), rotation by base.NewRotatingFile |
| IoLock | `gradeRun`, `RunHostBenchmark`, `PreloadInputs` and the main loop of a runner as users of `ioLock` | panics; what the work itself does (other areas); commits of the input manager outside the lock |
| ErrorFile | `isJavaMLE`, `appendFile`, `invokeOmegajail` (files only), end of `Run` and `Compile`, `getCompileError`, choice of file in `Grade` | read errors of files that exist, the sandbox process itself |
| Pins | who holds a reference to which input: handlers of runs and of `/input/`, `Close`, eviction | what loading an input does (Inputs), contents and sizes of the cache; that the LRU cache of go-base drops only entries without references is assumed |
| Tool | `main` of cmd/validator | parsing of the command line, the log on standard error |
| Oneshot | `runOneshotRun`, the temporary directory of `main`, `oneshotInput`, `path.Ext`, `filepath.Walk` | `runner.Grade` (an arbitrary function here; see Grade and Sandbox), decoding of the request and of settings (see Wire and Settings), `-oneshot=benchmark`, symbolic links, errors of the standard output |
| Benchmark | `RunHostBenchmark`, the benchmark loop, the benchmark's gauges | the embedded archives and programs, `Grade`, the readings of the operating system; a scrape between two of the nine updates |
| Conversation | `POST /ephemeral/run/new/` (`ephemeral.go` 87-258) with the runner's uploads, `RunContext.Close`, disconnection and disk failures | the contents of request.json.gz, uploads under names with path separators, the bytes of the multipart encoding, caps (C55) |
| Stop | the end of `main` of the grader (163-303) and of the broadcaster (198-386), `RunServer`, the CI worker with its channel and `Shutdown` (ci.go 594-601, 834, 941-1019) | what handlers do, listening failures (a panic), durations (the deadline is an event), requests on connections idle at `Shutdown`; assumes `signal.Notify`, `http.Server.Shutdown` and channel order as documented |
| Sse | `SSETransport.Send`/`Ping`/`Close`, the loop of `Subscriber.Run`, the text `broadcastRun` makes | flushing, HTTP chunking, TLS; assumes encoding/json's escaping as documented; the browser is the HTML Standard's reader without `retry` |
| Live | `Broadcaster.Run`, the filters, `Subscriber.Run` and `SSETransport` as one process, the browser at the other end | WebSockets; what is left out of Broadcast, Filter and Sse; the connection may be closed at any time |
| CompileAll | `Grade` from its beginning to the end of compiling (runner.go 443-795) as to which programs are compiled and what is recorded, the replacement of the result in `gradeAndUploadResults` | setting up directories and sources (Sandbox), the noop sandbox (Noop); the order of the map of interfaces is any |
| Access | the patterns registered on all ports, `RunServer`, `peerName`, the regular expressions of the runners' port, the URLs a runner makes | `http.ServeMux` (Go 1.13) and the TLS handshake are modelled from their source and documentation; a chain of certificates is simplified to its first link; host names, `TimeoutHandler`; a grader URL with another path than / |
| ClockSync | `NewSyncID`, the hand-out handler around it, header, receiver event, trace and file of a run | all other trace events (Tracing, TraceFile, Phases) |
| Phases | order of the events collected by `gradeRun` and `Grade`, the goroutines and channel of a case | arguments, times and durations of events (Tracing), panics of the runner |
| HashReader | `HashReader`, the comparison of hashes of an input, `runnerTarInput.Persist` | the archive formats (Archive), errors of opening files |
| Delays | grader/queue.go:340-356, 376-382, 565-578, 735-747 and main.go:141-154, over Verif/Lifecycle: QueueTime, CreationTime, the durations reported | the clock itself, conversion to float seconds, the quantiles of a summary; priorities are constant per run |
| Pid | hash and names of processes and threads, `Register`, the traces of runner and grader | the events' other fields (Tracing), the process' own trace file (TraceFile) |
| Sent | `createTar`'s archive of a request, as `Input.Persist`/`persistFromTarStream` unpack it on a runner | tar and gzip beyond being a codec; names with NULs; what is left out of Literal and Archive |
| Fds | the files that `Grade`, `uploadFiles` and `createZipFile` open and when they are closed | custom validators and the sandbox's processes, which need descriptors of their own; errors of writing the archive |
| Logs | `AppendLogSection`, `LogBuffer`, uploads of `logs.txt` | what the log handler writes (given), use by several goroutines at once |
| RunnerLoop | `channelBuffer`, back-off and the main loop of `omegaup-runner` | HTTP, TLS, signals |
| Queue | `Queue` and its channels (`queue.go` 507-594) | capacity zero |
| Lifecycle | `RunContext`, in-flight monitor, upload handler (`queue.go` 289-505, 596-759; `runner_handler.go` 189-224), one shared access per step | order within the queue (area Queue), the clock, wrap-around of attempt ids |
| Watchdog | goroutine of `InflightMonitor.Add` | durations |
| Upload | `processRun`, `Requeue`, `Close` as far as they decide what is recorded | races (area Lifecycle), names that escape (area Files) |
| Hub | `RunPostProcessor`, `QueueManager` and their listeners | listeners of capacity zero |
| Ephemeral | `EphemeralRunManager` and its callers | int64 overflow, sizes on disk are parameters |
| Requests | frontend `/run/new/`, `/run/grade/`, pending runs, ephemeral and CI requests, `validateRequest` | SQL, git, request parsing |
| Publish | `updateDatabase`, `broadcastRun`, `runPostProcessor`, `getPendingRuns` and the loop at start-up, with kills | column types and SQL itself; `rows.Err` (the query for pending runs returns them all); the reply of the broadcaster |
| CIConfig | `createCIRunConfigFromGit`, `processCIRequest`, `addRun`, `CopyStdinToStdoutSource` | git (a tree is a function from paths to blobs), JSON decoding, templates of interactive problems, report files (area CI) |
| CI | `ci.go` states, outcome, report directory through kills and restarts | running the tests (area Requests/Lifecycle), zip parsing |
| Literal | `NewLiteralInputFactory`, `createTar`, helpers | JSON, tar, gzip, SHA-1, libinteractive as deterministic functions |
| Persist | grader, runner and literal `Persist`, `Verify`, `Delete` with kills and torn writes | power loss (no fsync is modelled), git |
| Archive | `CreateArchiveFromGit`, `GetProblemInformation`, the grader's and the runner's `Persist` seen from end to end | libgit2's walk (its contract is stated), tar and gzip (a codec with two laws), file modes, symbolic links on the runner's disk |
| Delivery | `channelBuffer`, `processRun` (from grading on), `gradeAndUploadResults`, `gradeRun` of the runner; the error that `Grade` returns (Blame); what becomes of the upload in the grader | the HTTP transport is a state machine with every behaviour `net/http` documents (no connection, partial writes, errors, early answers, `Close` of the body); multipart encoding; panics |
| Status | `queueEventsProcessor`, `GetRunData`, `GetQueueInfo`, the handler of `/grader/status/` | the values of delays, names of runners, the JSON of the answer, queues other than the default one |
| Preload | `PreloadInputs`, `CachedInputFactory.NewInput`/`GetInputHash` of runner and grader, `Verify`, `Delete`, `Add` with inputs that cannot be made, the use of the I/O lock | the LRU cache's policy (any eviction is allowed), errors of removals, nested directories, lines of `.sha1` files about other directories (C39), the grain of `Add` (one step in Race) |
| Trigger | the condition of `/broadcast/` on the message's text; `json.Marshal` of any value; the grader's announcement | JSON printed by other programs; `json.Marshal` of numbers (any digits, signs, points and exponents) |
| Pipeline | the path from `RunContext.Close` to `PostForm` over both programs | deadlines of windows (C46), the work of the database (C95), the broadcaster's own queue (C42; here it accepts or refuses freely), the listener's registration (C59) |
| Config | `NewConfig` over `defaultConfig`: matching of names, repeated and unknown members, `null`, ranges of integers, errors | the decoders of `base.Duration` and `base.Byte` (go-base is not available; a parameter); JSON syntax (documents are trees); `NewContext` |
| Session | handler of the events port, `AcceptsMimeType`, the question to the frontend, `/deauthenticate/` | how `net/http` parses the client's request and cookies; gorilla's `Upgrade`; the decoding of the frontend's JSON; a status below 100 |
| Inputs | `InputManager.Add`, `HashReader`, `/input/` handler | the LRU cache library is a contract |
| Files, Path | every place where an outside name becomes a path; `path.Clean/Join/Base/Dir`, `filepath.Rel` | symbolic links, Windows |
| Filter | `broadcaster/filter.go`, `NewSubscriber`, `Subscriber.Matches` | strings that are not valid UTF-8; the frontend's answer is a parameter |
| Broadcast | `Broadcaster.Run` with subscribe, unsubscribe, deauth, broadcast and readers | unbuffered channels |
| Transport | SSE and WebSocket close channels | the bytes sent |
| Scoreboard | `updateScoreboardLoop` | the heap library is a contract |
| Tracing | `common/tracing.go` | JSON text, argument values of other types |
| ScoreRange | `ScoreRange` | JSON |

Not modelled at all: configuration loading and logging set-up (`common/context.go`
beyond defaults), TLS and signal handling in the `main` functions, the SQL
statements, `base` (go-base), git2go, omegajail, the Prometheus metrics apart
from the gauges of C28 and C45.

## Findings

Places where the code does not do what a user would expect, each backed by a
theorem (witness) unless it says otherwise.

* Lifecycle: an upload that ends while its attempt times out can crash the
  grader (nil monitor read twice), exceed the retry bound, revive an attempt
  identifier, or leave a closed run in the queue (C24, C25, C29, C66); an
  abandoned run never reaches the post-processor (C27); the watchdog goroutine
  of every timed-out attempt blocks for ever (C30).
* Upload: the result of a rejected upload stays and is recorded when the run is
  finally abandoned; result and files can be of different attempts (C77).
* Queue listeners: registering after `Close` blocks, registering a channel twice
  crashes `Close`, one slow listener blocks all (C59); `QueueManager.Add`
  silently replaces a queue (C60).
* Requests: all `/run/grade/` requests assign the same captured `err`, so an
  overlapping rejudge can be answered with 200 though nothing was queued, or with
  500 though everything was (C125; same mistake as in `/input/`, C70).
* Requests: a truncated upload of a source is graded, a rejudge during an upload
* Grade: the memory of an interactive case is accumulated as `total += max(total, m)`, so n processes of m bytes are reported as 2^(n-1) m bytes (`C127_memory_doubles`); with several failing processes, exit status and signal are those of the first to finish while the verdict is the worst one (`C128_not_the_verdicts`).
  reads half a source, a failure after the file was made makes every retry a
  conflict (C74); ephemeral requests without limits and CI runs are not capped
  (C55).
* Inputs: concurrent `/input/` requests share `err`, so one can be answered with
  the other's outcome or panic (C70); `HashReader.Length` counts drained bytes
  twice (C38); the literal input's `Persist` swallows write errors (C37);
  archives with `..` members are unpacked outside, and verification accepts a
  sibling directory (C39); literal case names may contain `..` (C73).
* Archives: `CreateArchiveFromGit` drops the error of `Walk`, so an unreadable subtree
  after `settings.json` silently truncates the problem (C106), and those of the three
  `Close` calls, so that an archive without its end is stored as good (the runner
  then rejects it, `C106_exact`); entries named `..` are passed on and overwrite
  other inputs (C108).
* Ephemeral: `Initialize` races with handlers (C33).
* Broadcaster: anonymous `/user/` subscribers get every private message without a
  user (C40); the filter `/problemset` panics (C41); an unsubscription can
  overtake its subscription and is lost (C71); the SSE transport closes a channel
  twice, which ends the process (C47).
* CI: an unfinished report can survive a restart in four ways (C51).
* Grading: an output file that cannot be opened counts as accepted (C14, C15);
  an unknown validator accepts empty outputs (C08); a status that is not a number
  counts as success (C09); time and memory of interactive cases depend on the
  order in which processes finish (C17).
* Sandbox: the extra second of Java is 1000 ns (C84); `Compile` accepts sources of
  a sibling directory (C86); `data.out` of an earlier case is visible to the
  validator when a case has none (C87); a case called `compile`, or an interface
  called `validator`, collides with other files (C88, C85); hard links make
  grading write into the cached input when names clash or a directory is left
  over (C92); the name of the parent's program depends on the contestant's
  language (C94).
* No-op runner: group points are multiplied twice (C75).
* Wire: sources and messages that are not valid UTF-8 are changed (C82, C83); a
  `details.json` of `null` is accepted and makes `Close` panic (C83).
* Tracing: attempt ids lose precision, and some plain events crash the decoder
  (C62).
* `ScoreRange` is printed with six decimals (C76).
* Publishing: with `partial_score = 1` the contest score is compared with 1, not with
  the problem's points, so full marks of any other problem are recorded as 0 (C96);
  the announcement carries the score that was withheld from the database (C97), and
  the running time in seconds while the penalty is in milliseconds;
  `RunInfo.PartialScore` is declared `bool` (`grader/queue.go` 282) and used as an
  integer, so the pinned commit does not type-check.
* Restart: a `/run/new/` that races with the loop over pending runs queues the run
  twice; a kill during an upload leaves part of a source, which is graded, and the
  front end's retry is a conflict (C100); `getPendingRuns` ignores `rows.Err`.
* CI set-up: limits of the problem are cut to those of ephemeral runs, the limits of a
  custom validator are dropped, groups are rebuilt from the names of the cases and
  weights normalised, so solutions may be judged differently than by the grader (C102);
  a custom validator without language and a `null` case take the grader down, and so
  does a repository deleted after the request came (C103); the copy program does not
  advance its pointer after a short write (C105); the IDL is looked up under the
  "file extension" of the module's name; a kill during a request leaves its stamp (C51).
* Delivery: the runner ignores the status of the answer to an upload, and an answer that
  comes before the body was sent counts as a success (`C111_gap_afterwards`); the
  grader's handler for uploads is wrapped in a `TimeoutHandler` of 5 minutes whose clock
  starts when grading starts, as the request is opened before grading; an error of
  `uploadFiles` discards the graded result and reports JE.
* Metrics: the listener that keeps the gauge is registered after the servers for ephemeral
  runs and runners were started, so runs added in between make it too low for ever (C113);
  the "queue delay" summaries are fed when an attempt leaves the flight, so they include
  grading, and `QueueTime` is set after the run can already be taken and not at all when
  it is requeued. `grader_runs_retry` and `grader_runs_abandoned` are always 0 (they are
  counters, but updated with `GaugeAdd`, which ignores their names), and so are the gauges of the
  lengths of the four queues, which nothing updates (C154); the events behind the first two are
  sent for time-outs only, not for failed uploads. The gauges of load, memory and disk of the grader are set once,
  at the start: the goroutine that updates them has no loop.
* Preloading: on the grader the lock it is given is private, so `os.RemoveAll` after a
  failed preload can delete an archive that a request has just generated; the input stays
  cached without a file, and every request for it fails, until it is evicted (C117). The
  grader's `.tmp`, `.sha1` and `.len` files of an interrupted `Persist` and the runner's
  `.sha1` files are never reclaimed (C116).
* `/broadcast/` recognises announcements of runs by searching their text. No text a user
  can write passes for one (C118), but an inner object with the same member does, and
  announcements printed with `\/` (as PHP does by default) are not recognised.
* Neither the grader's nor the broadcaster's HTTP client has a time limit. A frontend that
  does not answer one request to refresh a scoreboard therefore stops the broadcaster's
  loop, its handlers, the grader's post-processor and, after five more runs, every
  `RunContext.Close`: runners get their answers only when the 5 minutes of the
  `TimeoutHandler` are over, and finished runs are not written to the database (C120).
- The events port answers 200 with an empty body if a filter is not understood, the frontend cannot be reached, or its error
  is not JSON (an HTML page of a proxy, say); `Accept: text/event-stream;q=0.9` is taken for a WebSocket (C122).
- `/deauthenticate/` with an empty name removes all subscribers that are not logged in (C124).
- `NewConfig` decodes one JSON value and ignores what follows it in the file, and unknown (misspelt) options are
  ignored: such mistakes go unnoticed (C121). The runner's `loadContext` drops the error of `NewConfig` and dereferences
  a nil pointer.
- Trace file (C140): the header `[` is written at every start, whatever is in the file (`isEmpty` is ignored), so that after
  a restart the file is not one list; a write that fails midway makes the next event's line unreadable as well.
- Logs (C141): a runner's logs are put into the log of the run without escaping, and the buffer is not protected
  against the log handler writing at the same time.
- Java (C144): `isJavaMLE` reads lines in parts of 4096 bytes, so the text of the virtual machine is missed if it lies
  across the end of a part, and the verdict is RTE instead of MLE; a program within its limit gets MLE by writing the
  text and failing.
- Compile errors (C145): for Pascal and C# what the sandbox says (for example that the compiler ran out of time) is
  not shown, since it goes to the file that is not shown.
- Leaked input (C146): when `SetEphemeral` fails, the ephemeral handler (ephemeral.go:142-147) and `addRun` of CI (ci.go:637-641) return without releasing the input they have just added; it stays in the cache until the grader is restarted.
- `EphemeralRunManager.rand` is a `math/rand` source that is not safe for concurrent use; concurrent `SetEphemeral` calls use it without the lock (grader/queue.go:174-190). Not modelled: tokens are arbitrary in the model.
- The ephemeral handler opens the result files it sends and never closes them (ephemeral.go:204-219).
- Rounding (C149): the stand-alone validator prints the score with two decimals, so a `literal` score of 0.996 comes out as 1.00, full score.
- One-shot mode (C152): with `-results` on an interactive problem the program prints its result and then never ends: the
  walk over the run directory opens the named pipes `pipes/in` and `pipes/out`, that nobody writes to. Files that come
  after them are not copied and the temporary directory is not removed. Errors are only logged: the exit status is 0
  also if nothing was graded. A source called `sol.` has the empty language.
- Benchmark (C155): the verdicts of the benchmark programs are ignored, so a host where they do not compile is reported as
  "Benchmark successful" with times of 0 (`C155_verdict_ignored`).
- Ephemeral answers (C156-C158): the token is given out before the run is queued, but if saving `request.json.gz` fails after all files were sent the directory is removed, and if `Commit` fails the error is ignored and the directory stays on disk unknown to the manager until a restart. A run whose results cannot be written when it is closed leaves its client waiting for ever. `{}` or a `null` case as request makes the handler panic on a nil pointer (`validateRequest` line 68, the weights line 100). "running" may be left out although a runner had the run. A second upload that begins after the run was closed empties its directory (`processRun` lines 32-34): the answer ends properly and the token works, but neither holds any results (`late_upload_loses_results`).
- Stopping (C159, C160): a SIGTERM that arrives while the grader or the broadcaster is starting is dropped (the channel
  given to `signal.Notify` has no buffer) and the daemon runs on. The parts are stopped in order with one deadline of five seconds
  for all; a CI run, a runner's long poll or a subscriber uses it up, and requests at the other servers are dropped.
- CI queue (C161, C162): the worker may stop with accepted requests still in its channel; the 129th waiting client gets its
  first answer only when there is room, and never if the worker has stopped.
- Compiling (C164): a problem's own validator or parent that cannot be compiled is reported as the contestant's CE; when the sandbox leaves no readable report, the compile error that `Grade` recorded is dropped and JE is sent.
- Server-Sent Events (C163): the text of a message is put into the stream as it is, so that a message with a line end arrives cut, with another event type, or as several events; only messages made by `json.Marshal` (such as run updates) are safe.
- Results (C167): the expression for `/run/N/results` is not anchored and `ParseUint`'s error is ignored; and nothing
  checks that results come from the runner that was given the run: any holder of a certificate can judge any run in
  flight. `/debug/vars` on the frontend port shows the configuration with the database's password (to holders of a
  certificate, or to anybody with -insecure).
- Blame (C171): failing to pack or send the output files turns any verdict, AC included, into JE without points.
- CI (C136, C169, C170): reports of skipped commits are kept in memory only and lost on restart; a kill between creating the directory and
  its stamp leaves a directory that is cached and may be evicted while it is tested; a test seen as passed can become an
  error when saving its request fails; the log of an evicted entry is never set, so a failing `RemoveAll` there is a nil dereference.
- Settings (C133): a `null` case in settings.json has no weight and `Grade` panics on it; a missing weight counts 1 in
  literal inputs and 0 in settings.json. Names of literal interfaces may not be one letter long nor contain underscores after the first character.
- Grading: a case whose files cannot be opened stays OK and the run can be AC (C15); all files compared stay open until `Grade`
  ends; an interactive problem without an interface of its language panics; `copyFile` swallows errors of opening and creating.
- `/run/grade/` that fails midway leaves the runs before the failing one queued; a GUID shorter than two characters panics the reader of sources.
- A misspelt `-oneshot` value starts the daemon; the runner's back-off is cut to whole seconds; `/broadcast/` sets its Content-Type after the header is sent.
- Weights in settings.json are not checked: with a negative weight a run can score more than the maximum or less than nothing;
  with all weights 0 an accepted run gets everything and any other nothing (C173).
- The grader records its clock-sync event after the run was sent; a run closed before that has a trace file without it (C174).
- Hash reader (C176): `Length` counts the bytes that `Sum` reads twice, so the size that the benchmark passes on is twice that of its archives (nothing uses it), and
  their hash is only ever compared with itself.
- Queue delays (C177): the value reported for an attempt is the time since the run was first queued until the attempt ended, so it includes grading and, after a retry, all earlier attempts; `QueueTime` is not updated by `enqueue`, and it is set only after the run has been put into the queue.
- Trace identities (C178): processes are told apart in a trace by a 32-bit hash of host name and role; two hosts (3a54cd and 26a12f) share a number for every role, and all hosts whose name is unknown are one process called main. Grader and runner of one host never collide.
- Host metrics: `gaugesUpdate` (cmd/omegaup-grader/metrics.go) has no loop, so the gauges of load, memory and disk of the host keep the values they had when the grader started (not modelled).
- Case names of ephemeral requests are used as paths: two cases `a/b` and `a//b` are accepted and share the same files
  on the runner, so one of them is judged with the other's data (C181).
- The files of each case are kept open until the whole run has been graded, and those of the archive until it is made: an
  accepted submission with half as many cases as the process may have files open is reported as a judge error, and if
  descriptors are short only for a while, a wrong answer that could not be opened then counts as right (C182).
- A runner that is killed while it grades leaves the directory of the run, with the contestant's source, for ever: nothing
  looks at `grade` when it is started again (C183).
- Retries (C24): for every `MaxGradeRetries` of 2 or more, failed uploads for the same attempt that run at the same
  time can hand a run out any number of times; the limit holds under all races only when it is 1.

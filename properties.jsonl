{"id": "C01", "title": "Tokenization does not depend on how the reader chunks the stream", "statement": "For the scan functions used by the validators, the sequence of token texts returned by Scan/Token and the final Err (nil or token-too-long) depend only on the bytes of the stream, never on how many bytes each Read returned.", "quantifier": "all byte streams, all ways of splitting them into reads (including splits inside a UTF-8 sequence), every token-length limit", "why_tests_cant": "there are exponentially many chunkings of each stream; tests use one in-memory reader", "anchors": ["runner/tokenizer.go:Tokenizer.splitFunc", "runner/tokenizer.go:NewTokenizer", "runner/tokenizer.go:Tokenizer.Scan"]}
{"id": "C02", "title": "Tokens are exactly the maximal runs of token characters", "statement": "If no token is too long, the texts produced by scanning a stream to the end are exactly the maximal runs of consecutive token characters of the UTF-8 decoded stream, in order; none is empty, dropped, merged or split.", "quantifier": "all byte streams, both scan functions (non-whitespace, numeric)", "why_tests_cant": "unbounded streams and arbitrary, possibly invalid, UTF-8", "anchors": ["runner/tokenizer.go:Tokenizer.splitFunc", "runner/tokenizer.go:IsNonWhitespace", "runner/tokenizer.go:IsNumeric"]}
{"id": "C03", "title": "A case score is always within [0,1]", "statement": "CalculateScore returns a score s with 0 <= s <= 1 for every validator and every pair of outputs, including on error; the token validators only return 0 or 1, and any error return carries score 0.", "quantifier": "all validator settings, all expected and contestant outputs", "why_tests_cant": "infinite input space, includes arbitrary rationals printed by custom validators", "anchors": ["runner/validator.go:CalculateScore", "runner/validator.go:ratClamp"]}
{"id": "C04", "title": "Token validators accept exactly pairwise-equal token sequences", "statement": "With validator token / token-caseless / token-numeric and readable streams, the score is 1 iff the expected and contestant token sequences have the same length and agree position by position under the validator's comparison; otherwise the score is 0 and the reported mismatch is the first differing position (with a nil side when one stream ended early).", "quantifier": "all pairs of outputs, all tolerances", "why_tests_cant": "quantifies over all pairs of streams and the position of the first difference", "anchors": ["runner/validator.go:CalculateScore", "runner/tokenizer.go:TokenMismatch"]}
{"id": "C05", "title": "Whitespace layout never changes the score; comparison is fair in both directions", "statement": "Outputs with the same token sequence get the same score against any expected output; an output always scores 1 against itself, and swapping expected and contestant outputs never changes the score of a token validator.", "quantifier": "all outputs without over-long tokens, the three token validators", "why_tests_cant": "relational (2-run) property over all pairs of outputs", "anchors": ["runner/validator.go:CalculateScore", "runner/validator.go:tokenEquals", "runner/validator.go:tokenCaselessEquals"]}
{"id": "C06", "title": "Numeric token comparison is symmetric, reflexive and monotone in the tolerance", "statement": "Under IEEE binary64 rounding, comparing two numeric tokens gives the same answer in either order, accepts identical tokens, and a pair accepted under a tolerance stays accepted under every larger tolerance.", "quantifier": "all numeric tokens (any number of digits), all finite tolerances", "why_tests_cant": "uncountably many float triples; rounding in every operation", "anchors": ["runner/validator.go:tokenNumericEquals"]}
{"id": "C07", "title": "Numeric token comparison honours its error budget", "statement": "A pair of parseable numeric tokens whose parsed values differ is accepted iff the rounded difference is at most the rounded 1.5*tolerance, or both are non-zero with the rounded relative error at most the tolerance; in particular with a non-negative tolerance every pair within absolute error tolerance is accepted, and unparseable tokens only match unparseable tokens.", "quantifier": "all numeric tokens, all tolerances", "why_tests_cant": "float boundary behaviour for all values", "anchors": ["runner/validator.go:tokenNumericEquals"]}
{"id": "C08", "title": "An unknown validator name is reported as an error", "statement": "CalculateScore with a validator name that is not one of the five known ones returns an error and score 0. (Holds only if both outputs contain a token: two empty outputs score 1 with no error.)", "quantifier": "all names, all outputs", "why_tests_cant": "the exception needs both streams to be token-free", "anchors": ["runner/validator.go:CalculateScore"]}
{"id": "C09", "title": "Sandbox metadata always yields a known verdict, by a fixed decision table", "statement": "Parsing a sandbox meta file returns a verdict that is in the verdict list; it is OK exactly when no signal was reported, the exit status is zero (or the language is exempt), the Karel instruction limit was not hit and memory stayed within the limit; malformed lines give JE plus an error.", "quantifier": "all meta files (any lines in any order, repeated keys), all languages and limits", "why_tests_cant": "arbitrary line sequences with repeated and unknown keys", "anchors": ["runner/sandbox.go:parseMetaFile"]}
{"id": "C10", "title": "Memory limit verdict dominates and reported memory never exceeds the limit", "statement": "With a positive memory limit, a successfully parsed meta file never reports memory above the limit, and any execution above it has verdict MLE whatever its signal or exit status.", "quantifier": "all meta files, limits and languages", "why_tests_cant": "interaction of every key order with the limit", "anchors": ["runner/sandbox.go:parseMetaFile"]}
{"id": "C11", "title": "The run verdict is the worst case verdict", "statement": "Combining verdicts is commutative, associative and idempotent, never fails on verdicts the runner produces, and the verdict after running all cases equals the minimum, in the documented worst-to-best order, over all cases, independent of case order.", "quantifier": "all lists of verdicts in any order", "why_tests_cant": "all permutations of unbounded lists", "anchors": ["runner/runner.go:worseVerdict", "common/problemsettings.go:VerdictList", "runner/runner.go:Grade"]}
{"id": "C12", "title": "Scores and contest scores stay within bounds", "statement": "For every graded run with non-negative case weights and non-negative maximum score: 0 <= Score <= 1 and 0 <= ContestScore <= MaxScore, ContestScore = MaxScore*Score, and every case and group contest score is between 0 and its own MaxScore.", "quantifier": "all problem settings, all sandbox outcomes, all validator scores", "why_tests_cant": "sums over unboundedly many cases with rational weights", "anchors": ["runner/runner.go:Grade"]}
{"id": "C13", "title": "Maximum scores are a partition of the run's maximum score", "statement": "If the total weight is positive, the MaxScore of the cases of a group add up to the group's MaxScore and the groups' MaxScore add up to the run's MaxScore, exactly.", "quantifier": "all problem settings", "why_tests_cant": "exact rational arithmetic over unbounded lists", "anchors": ["runner/runner.go:Grade", "common/problemsettings.go:GroupSettings.Weight"]}
{"id": "C14", "title": "Groups are all-or-nothing", "statement": "A group in which any case did not execute cleanly or got score 0 contributes exactly 0 to the run; otherwise it contributes the weighted sum of its case scores.", "quantifier": "all groups and outcomes", "why_tests_cant": "all subsets of failing cases", "anchors": ["runner/runner.go:Grade"]}
{"id": "C15", "title": "AC means every case is AC", "statement": "A run's verdict is AC iff every case's verdict is AC, and then its score is exactly 1. (The code violates this when an output file cannot be opened: that case is skipped and the run is still AC with score 1; proved for runs whose output files can all be opened.)", "quantifier": "all graded runs", "why_tests_cant": "quantifies over all case outcomes, including file errors", "anchors": ["runner/runner.go:Grade"]}
{"id": "C16", "title": "Run score equals the sum of group scores", "statement": "The run's Score is the sum of its groups' Scores and the run's ContestScore the sum of the groups' ContestScores, for every run with positive total weight whose output files can be opened.", "quantifier": "all graded runs", "why_tests_cant": "exact sums over unbounded lists", "anchors": ["runner/runner.go:Grade"]}
{"id": "C17", "title": "Interactive case verdict does not depend on which process finishes first", "statement": "For interactive problems the case verdict, total time and wall time do not depend on the order in which the processes' results arrive, and the verdict is the worst one among the contestant processes, or what the parent's failure means if none of them failed. (Reported memory does depend on the order, and so does the last bit of the total time with three or more processes, since it is a floating point sum.)", "quantifier": "all result multisets, all arrival orders", "why_tests_cant": "all permutations / schedules", "anchors": ["runner/runner.go:Grade"]}
{"id": "C18", "title": "Overall wall-time limit cuts off execution", "statement": "Once the accumulated wall time exceeds the overall wall-time limit, no later case is executed and every later case has verdict TLE; no case before that point is cut.", "quantifier": "all problem settings and execution times", "why_tests_cant": "all prefixes of unbounded case lists", "anchors": ["runner/runner.go:Grade"]}
{"id": "C19", "title": "Compilation failure means CE, zero score and no execution", "statement": "If any binary fails to compile the result is CE with score 0, no test case is executed, and the remaining binaries are not compiled; otherwise verdict CE cannot result from case execution.", "quantifier": "all lists of binaries and compile outcomes", "why_tests_cant": "position of the failing binary is unbounded", "anchors": ["runner/runner.go:Grade"]}
{"id": "C20", "title": "GetRun never fails to find a run it was promised", "statement": "Under every interleaving of concurrent producers and consumers, a consumer that got past the ready signal always finds a run in one of the priority channels: the 'unreachable' panic is unreachable.", "quantifier": "all numbers of concurrent AddRun/Requeue/GetRun calls, all interleavings of their individual channel operations", "why_tests_cant": "requires exploring all schedules", "anchors": ["grader/queue.go:Queue.GetRun", "grader/queue.go:Queue.enqueue", "grader/queue.go:Queue.enqueueBlocking"]}
{"id": "C21", "title": "Signalling readiness never blocks", "statement": "After a run was placed into a priority channel, the subsequent send to the ready channel can always proceed immediately, so Requeue never blocks.", "quantifier": "all interleavings and channel lengths", "why_tests_cant": "requires all schedules at full capacity", "anchors": ["grader/queue.go:Queue.enqueue", "grader/queue.go:QueueManager.Add"]}
{"id": "C22", "title": "The queue neither loses nor duplicates runs and is FIFO per priority", "statement": "In every interleaving the runs handed out for a priority, followed by those still queued, are exactly the runs enqueued at that priority, in enqueue order.", "quantifier": "all interleavings, all priorities", "why_tests_cant": "unbounded histories", "anchors": ["grader/queue.go:Queue"]}
{"id": "C23", "title": "Higher-priority runs are served first", "statement": "A GetRun executed without interference returns the oldest run of the highest non-empty priority; under interference, a run of priority j is only returned by a consumer that saw each higher priority empty after it was admitted.", "quantifier": "all queue contents and interleavings", "why_tests_cant": "all queue states/schedules", "anchors": ["grader/queue.go:Queue.GetRun"]}
{"id": "C24", "title": "Retries are bounded", "statement": "A run is handed to runners at most max(1, MaxGradeRetries) times in its lifetime, and after a runner reported a JE verdict at most once more, under every sequence of timeouts, uploads and failures.", "quantifier": "all histories of the grader", "why_tests_cant": "unbounded histories with timeouts and stale uploads", "anchors": ["grader/queue.go:RunContext.Requeue", "grader/queue.go:NewEmptyRunContext", "cmd/omegaup-grader/runner_handler.go"]}
{"id": "C25", "title": "Attempt IDs identify at most one live attempt; stale uploads are rejected", "statement": "Two in-flight runs never share an attempt ID, the monitor resolves an attempt ID only to the run currently executing under it, and once an attempt was timed out, requeued or closed its ID never resolves again.", "quantifier": "all histories (below 2^64 attempts)", "why_tests_cant": "unbounded histories", "anchors": ["grader/queue.go:InflightMonitor", "common/run.go:NewAttemptID"]}
{"id": "C26", "title": "A run is finalized at most once", "statement": "Under every history, including racing timeouts and uploads, a run's Ready channel is closed at most once, it is handed to the post-processor at most once and its input reference is released at most once.", "quantifier": "all histories", "why_tests_cant": "races between timeout goroutine and upload handlers", "anchors": ["grader/queue.go:RunContext.Close"]}
{"id": "C27", "title": "Every finished run reaches the post-processor", "statement": "Every run that is closed is handed to the post-processor. (False: a run abandoned after exhausting its retries, or refused by a full queue, is closed after being removed from the monitor and is never post-processed; proved for runs closed while in flight.)", "quantifier": "all histories", "why_tests_cant": "needs the retry-exhaustion path", "anchors": ["grader/queue.go:RunContext.Close", "grader/queue.go:RunContext.Requeue"]}
{"id": "C28", "title": "The open-runs gauge equals the number of open runs", "statement": "Runs added minus runs removed, as reported by queue events, always equals the number of runs added and not yet closed.", "quantifier": "all histories", "why_tests_cant": "unbounded histories", "anchors": ["grader/queue.go:Queue.AddRun", "grader/queue.go:RunContext.Close", "cmd/omegaup-grader/main.go:queueEventsProcessor"]}
{"id": "C29", "title": "A run is never in two places", "statement": "At every moment an added run is in exactly one of: one queue slot, in flight under one attempt, closed. (False when an upload handler outlives its attempt's timeout: a closed run may still be queued; proved for histories in which handlers act only while their attempt is live.)", "quantifier": "all histories", "why_tests_cant": "race between timeout and late handler", "anchors": ["grader/queue.go:RunContext.Requeue", "grader/queue.go:RunContext.Close"]}
{"id": "C30", "title": "The inflight watchdog terminates and reports timeouts exactly when they happen", "statement": "For each attempt the watchdog delivers a timeout notification iff the connect or ready deadline expires first, requeues at most once, and terminates closing the timeout channel. (Termination is false after a timeout: the deferred timer drain blocks forever.)", "quantifier": "all orderings of connect, ready and timer events", "why_tests_cant": "all schedules", "anchors": ["grader/queue.go:InflightMonitor.Add"]}
{"id": "C31", "title": "Ephemeral cache accounting and size bound", "statement": "The tracked total size is always the sum of the cached entries' sizes, and after every successful add it is within the limit unless the cache holds just the one new entry.", "quantifier": "all sequences of adds, all sizes, all removal failures", "why_tests_cant": "unbounded sequences", "anchors": ["grader/queue.go:EphemeralRunManager.add"]}
{"id": "C32", "title": "Ephemeral eviction is oldest-first and minimal", "statement": "When adds succeed, the cached entries are always a suffix (the most recent ones) of the entries ever added, and an add evicts no more entries than needed to fit.", "quantifier": "all sequences of adds", "why_tests_cant": "unbounded sequences", "anchors": ["grader/queue.go:EphemeralRunManager.add"]}
{"id": "C33", "title": "Ephemeral lookup returns exactly cached runs", "statement": "Get(token) succeeds iff the run directory with that token is currently cached, for any token string; after eviction it never succeeds again (unless re-added). Requires distinct directories: committing a directory twice breaks it.", "quantifier": "all histories, all token strings", "why_tests_cant": "unbounded histories and adversarial tokens", "anchors": ["grader/queue.go:EphemeralRunManager.Get", "grader/queue.go:EphemeralRunManager.add"]}
{"id": "C34", "title": "InputManager only hands out verified or freshly persisted inputs", "statement": "Add succeeds only if the input was already cached, already committed, passed Verify, or was persisted successfully after its stale files were deleted; a failed Persist is never cached.", "quantifier": "all factories, all verify/persist outcomes, all histories", "why_tests_cant": "all failure combinations", "anchors": ["common/inputmanager.go:InputManager.Add"]}
{"id": "C35", "title": "Grader input persistence is crash-safe", "statement": "If the grader is killed at any point while persisting an input, then after restart verification either fails or accepts exactly the complete archive with its own hash and length.", "quantifier": "all crash points (including torn writes), all archives", "why_tests_cant": "all crash points", "anchors": ["grader/input.go:Input.Persist", "grader/input.go:graderBaseInput.Verify"]}
{"id": "C36", "title": "Runner input persistence is crash-safe", "statement": "If the runner is killed at any point while unpacking an input, then after restart verification either fails or the directory contains every file of the archive with its exact contents.", "quantifier": "all crash points, all archives", "why_tests_cant": "all crash points", "anchors": ["runner/input.go:runnerBaseInput.persistFromTarStream", "runner/input.go:runnerBaseInput.Verify"]}
{"id": "C37", "title": "Literal input persistence is crash-safe and reports failures", "statement": "If the grader is killed while persisting a literal input, a restart accepts only the complete archive; if Persist reports success all three files are on disk. (The second half is false: write errors are swallowed.)", "quantifier": "all crash and failure points", "why_tests_cant": "all crash/failure points", "anchors": ["common/literalinput.go:inMemoryInput.Persist"]}
{"id": "C38", "title": "HashReader hashes exactly the stream", "statement": "After any pattern of partial reads, Sum equals the hash of the complete underlying stream, and Length equals the number of bytes hashed. (Length is false after Sum had to drain data: drained bytes are counted twice.)", "quantifier": "all streams, all read patterns", "why_tests_cant": "all chunkings", "anchors": ["common/inputmanager.go:HashReader"]}
{"id": "C39", "title": "Stored input paths stay inside the input directory", "statement": "Every file consulted while verifying a runner input, or written while unpacking it, lies inside that input's directory. (False twice: the prefix check admits siblings sharing the prefix, and archive member names containing .. escape on unpacking.)", "quantifier": "all sha1 files and archive member names", "why_tests_cant": "adversarial path strings", "anchors": ["runner/input.go:runnerBaseInput.getStoredHashes", "runner/input.go:runnerBaseInput.persistFromTarStream"]}
{"id": "C40", "title": "Subscribers only receive messages they are entitled to", "statement": "A subscriber receives a message only if it is an administrator, or the message is public, or its own, or it administers the message's problem, contest or problemset. (False for anonymous subscribers with a user filter: they receive private messages that carry no user.)", "quantifier": "all messages, subscribers and filter lists", "why_tests_cant": "all combinations", "anchors": ["broadcaster/filter.go", "broadcaster/subscriber.go:Subscriber.Matches"]}
{"id": "C41", "title": "Filter strings parse totally and round-trip", "statement": "NewFilter accepts exactly the documented forms, and formatting an accepted filter and re-parsing it, after a slash, gives the same filter. Parsing never panics \u2014 except on the string /problemset, which does.", "quantifier": "all filter strings", "why_tests_cant": "all strings", "anchors": ["broadcaster/filter.go:NewFilter"]}
{"id": "C42", "title": "Subscribers see a gap-free, ordered message stream", "statement": "The messages a subscriber's connection received, followed by those queued for it, are exactly the matching messages broadcast between its subscription and its removal, in order: overflow disconnects, it never silently skips.", "quantifier": "all histories of broadcasts, subscriptions and reads", "why_tests_cant": "unbounded histories", "anchors": ["broadcaster/subscriber.go:Broadcaster.Run"]}
{"id": "C43", "title": "Broadcaster never sends on or re-closes a closed channel", "statement": "If each subscriber object is subscribed once, no history makes the broadcaster send to or close an already closed subscriber channel, and a removed subscriber never gets another message.", "quantifier": "all histories", "why_tests_cant": "unbounded histories", "anchors": ["broadcaster/subscriber.go:Broadcaster.remove", "broadcaster/subscriber.go:Broadcaster.Run"]}
{"id": "C44", "title": "Deauthentication takes effect", "statement": "Right after a deauthentication for a user is processed no subscriber of that user remains, and other users' subscribers are untouched. (Requests are processed in arbitrary order across channels, so a subscription requested before it may be installed after it.)", "quantifier": "all histories", "why_tests_cant": "unbounded histories and select choices", "anchors": ["broadcaster/subscriber.go:Broadcaster.Deauthenticate", "broadcaster/subscriber.go:Broadcaster.Run"]}
{"id": "C45", "title": "Connection gauges equal the number of live subscribers", "statement": "The WebSocket and SSE gauges always equal the number of currently registered subscribers with that transport, and are never negative.", "quantifier": "all histories with distinct subscribers", "why_tests_cant": "unbounded histories", "anchors": ["broadcaster/subscriber.go:Broadcaster.Run"]}
{"id": "C46", "title": "Scoreboard refreshes are never lost and are rate-limited", "statement": "After every run update for a contest, a scoreboard refresh for it is issued either immediately or when its pending window expires; a contest has at most one pending window and at most one refresh is issued per window besides the one opening it.", "quantifier": "all arrival sequences and timer firings", "why_tests_cant": "unbounded histories", "anchors": ["cmd/omegaup-broadcaster/main.go:updateScoreboardLoop"]}
{"id": "C47", "title": "Closing a connection never closes its channel twice", "statement": "For WebSocket subscribers the close channel is closed at most once under every schedule. (False for SSE: a server-side close racing with the client's disconnect closes it twice and panics.)", "quantifier": "all schedules of client disconnect, server close and writes", "why_tests_cant": "all schedules", "anchors": ["broadcaster/transport.go:SSETransport", "broadcaster/transport.go:WebSocketTransport"]}
{"id": "C48", "title": "CI states survive serialization", "statement": "Decoding the JSON encoding of any CI state returns the same state, and distinct states have distinct encodings.", "quantifier": "all states, all JSON strings", "why_tests_cant": "totality over all decoder inputs", "anchors": ["cmd/omegaup-grader/ci.go:CIState"]}
{"id": "C49", "title": "A CI run's outcome is determined by its tests", "statement": "The final state is error if any test errored, else failed if any test failed, else passed, irrespective of the order of tests.", "quantifier": "all lists of test outcomes", "why_tests_cant": "unbounded lists", "anchors": ["cmd/omegaup-grader/ci.go:ciHandler.processCIRequest"]}
{"id": "C50", "title": "A CI test passes iff it meets its declared expectations", "statement": "A solution test passes iff its verdict equals the declared one (when declared) and its score lies in the declared range (when declared); an input-validator test passes iff the verdict is AC.", "quantifier": "all settings and results", "why_tests_cant": "all rationals/verdicts", "anchors": ["cmd/omegaup-grader/ci.go:ciHandler.addRun"]}
{"id": "C51", "title": "Unfinished CI reports never survive a restart", "statement": "If the grader is killed at any point while processing a CI request, then after the restart scan the report for that commit either is absent or is the final report.", "quantifier": "all crash points, all report contents", "why_tests_cant": "all crash points", "anchors": ["cmd/omegaup-grader/ci.go:ciHandler.ServeHTTP", "cmd/omegaup-grader/ci.go:ciHandler.processCIRequest", "cmd/omegaup-grader/ci.go:ciHandler.run"]}
{"id": "C52", "title": "Literal inputs are canonical", "statement": "The settings and archive contents (hence the hash) derived from a literal input do not depend on map iteration order.", "quantifier": "all literal inputs, all iteration orders", "why_tests_cant": "all permutations", "anchors": ["common/literalinput.go:NewLiteralInputFactory", "common/literalinput.go:createTar"]}
{"id": "C53", "title": "Literal inputs keep every case and normalize weights", "statement": "An accepted literal input yields exactly its cases, each in the group named by the text before the first dot, groups and cases sorted by name, with non-negative weights proportional to the given ones adding up to 1; it is rejected if empty, if any weight is negative or all are zero.", "quantifier": "all literal inputs", "why_tests_cant": "unbounded maps of rational weights", "anchors": ["common/literalinput.go:NewLiteralInputFactory"]}
{"id": "C54", "title": "Literal input limits are clamped", "statement": "Every limit in the settings of an accepted literal input is at most the default literal limit, and equals the requested one when that is smaller.", "quantifier": "all limits", "why_tests_cant": "all values", "anchors": ["common/literalinput.go:NewLiteralInputFactory"]}
{"id": "C55", "title": "Ephemeral runs respect the configured caps", "statement": "No ephemeral run is graded with time, wall-time or memory limits above the configured caps. (False when the request omits limits: defaults are used uncapped; proved when limits are given.)", "quantifier": "all requests and configurations", "why_tests_cant": "all values", "anchors": ["cmd/omegaup-grader/ephemeral.go:ephemeralRunHandler.validateRequest"]}
{"id": "C56", "title": "Result upload buffer preserves the byte stream", "statement": "Through Read or WriteTo, the consumer of the upload buffer receives exactly the bytes written, in order, for every split into writes and reads and every short write; at end-of-stream nothing is missing.", "quantifier": "all write/read size sequences", "why_tests_cant": "all chunkings", "anchors": ["cmd/omegaup-runner/main.go:channelBuffer"]}
{"id": "C57", "title": "Grade directories are unique and resources are confined", "statement": "Distinct run IDs have distinct grade directories, and a resource request accepted by the filename check resolves to a file directly inside the run's grade directory.", "quantifier": "all run IDs, all filenames", "why_tests_cant": "all strings", "anchors": ["cmd/omegaup-grader/frontend_handler.go:gradeDir", "cmd/omegaup-grader/frontend_handler.go:registerFrontendHandlers"]}
{"id": "C58", "title": "Runner back-off is bounded", "statement": "The runner's back-off ceiling is always between 1 and 64 seconds, at least doubles up to 64 on consecutive errors, and is 1 right after a success or timeout.", "quantifier": "all histories of outcomes", "why_tests_cant": "unbounded histories", "anchors": ["cmd/omegaup-runner/main.go:main"]}
{"id": "C59", "title": "Listeners receive every later event, in order", "statement": "Each listener of the run post-processor (and of queue events) receives exactly the events processed after its registration, in order, and is closed exactly once after the last one.", "quantifier": "all histories of registrations and events", "why_tests_cant": "unbounded histories", "anchors": ["grader/queue.go:RunPostProcessor", "grader/queue.go:QueueManager.run"]}
{"id": "C60", "title": "Looking up a queue returns the queue created under that name", "statement": "Get(name) succeeds iff Add(name) was called and returns the queue Add returned. (Adding an existing name is documented to fetch it; it silently replaces it, orphaning its queued runs.)", "quantifier": "all histories of Add/Get", "why_tests_cant": "unbounded histories", "anchors": ["grader/queue.go:QueueManager.Add", "grader/queue.go:QueueManager.Get"]}
{"id": "C61", "title": "Output-only submissions only contribute expected files", "statement": "From an output-only archive only files named after a case of the problem are used, directories are ignored, a file above the output limit yields OLE and never its contents, and a missing file yields RTE.", "quantifier": "all archives and settings", "why_tests_cant": "unbounded archives with duplicate and nested names", "anchors": ["runner/runner.go:parseOutputOnlyFile", "runner/runner.go:Grade"]}
{"id": "C62", "title": "Trace events are collected in order and survive transmission", "statement": "Collected events are kept in the order added and finalized exactly once; decoding a trace encoded by the runner gives back the same events. (Decoding is not total: a complete event without duration panics.)", "quantifier": "all event sequences", "why_tests_cant": "unbounded sequences", "anchors": ["common/tracing.go:MemoryEventCollector"]}
{"id": "C63", "title": "The no-op runner reports a full-score AC", "statement": "After the no-op fix-up the run is AC with score 1 and contest score equal to its maximum, and every case is AC.", "quantifier": "all results", "why_tests_cant": "unbounded groups/cases", "anchors": ["runner/noop_sandbox.go:NoopSandboxFixupResult"]}
{"id": "C64", "title": "Declared score ranges are valid intervals", "statement": "A score range is accepted iff it has exactly two numbers with 0 <= min <= max <= 1.", "quantifier": "all lists of numbers", "why_tests_cant": "all values", "anchors": ["common/problemsettings.go:ScoreRange.UnmarshalJSON"]}
{"id": "C65", "title": "Slow problems never leave the low-priority queue on submission", "statement": "A new or rejudged run of a slow problem is enqueued with low priority; a run of any other problem with the requested priority; ephemeral and CI runs with ephemeral priority.", "quantifier": "all requests", "why_tests_cant": "all combinations", "anchors": ["cmd/omegaup-grader/frontend_handler.go:newRunContext", "cmd/omegaup-grader/frontend_handler.go:injectRuns"]}
{"id": "C66", "title": "Racing timeouts and uploads do not take the grader down", "statement": "No schedule of timeouts and uploads makes the grader process crash. (False: when the watchdog of an attempt fires while an upload handler is requeuing the same run, the watchdog goroutine dereferences a nil monitor and the process dies; proved for executions in which every timeout and every finished upload finds its attempt registered and nobody else requeuing or closing the run.)", "quantifier": "all interleavings of watchdog goroutines and upload handlers", "why_tests_cant": "needs a particular interleaving of two goroutines", "anchors": ["grader/queue.go:RunContext.Requeue", "grader/queue.go:RunContext.Close", "grader/queue.go:InflightMonitor.Remove"]}
{"id": "C67", "title": "No open run is forgotten", "statement": "While the grader is up, at every moment a run that is not closed is in the queue, or being moved by a goroutine, or in flight with a watchdog still waiting for its runner; and something can always be done about it without a further request: it can be taken, its watchdog can time out, or the goroutine that holds it can go on. This holds under every interleaving of timeouts, uploads, requests and failures.", "quantifier": "all histories, all runs", "why_tests_cant": "unbounded histories and interleavings", "anchors": ["grader/queue.go:InflightMonitor.Add", "grader/queue.go:InflightMonitor.Remove", "grader/queue.go:RunContext.Requeue"]}
{"id": "C68", "title": "Files named after identifiers are confined and distinct", "statement": "A submission source, a cached input archive, an unpacked runner input and a CI report each live at a fixed place below the runtime path determined by their identifier, whatever accepted URL was sent, and different identifiers never share a file or nest.", "quantifier": "all URLs, GUIDs, hashes, problem aliases and commits", "why_tests_cant": "ranges over all request strings, including hostile ones", "anchors": ["cmd/omegaup-grader/frontend_handler.go:/submission/source/", "grader/input.go:InputFactory.NewInput", "runner/input.go:InputFactory.NewInput", "cmd/omegaup-grader/ci.go:ciHandler.ServeHTTP"]}
{"id": "C69", "title": "Uploaded result files stay inside the run's grade directory", "statement": "Every file a runner uploads with its results is written directly inside the grade directory of that run. (False for the Go release named in go.mod, where the sender's file name is used unchanged; true for names reduced to their last element.)", "quantifier": "all uploaded file names", "why_tests_cant": "ranges over all names a client may send", "anchors": ["cmd/omegaup-grader/runner_handler.go:processRun"]}
{"id": "C70", "title": "Each input request is answered by its own lookup", "statement": "A runner asking for an input gets the archive (and the reference taken is released afterwards) exactly when looking up that input succeeded, and a 404 exactly when it failed. (True of requests answered one after another; false of overlapping ones, because the handlers share one error variable.)", "quantifier": "all interleavings of any number of concurrent requests", "why_tests_cant": "ranges over all interleavings of handlers", "anchors": ["cmd/omegaup-grader/runner_handler.go:registerRunnerHandlers /input/"]}
{"id": "C71", "title": "Subscribers of closed connections are unregistered", "statement": "Once a connection's handler has ended and all requests have been processed, its subscriber is no longer registered. (False: an unsubscription can be processed before the subscription, or be dropped when its queue is full; true whenever the unsubscription is processed after the subscription.)", "quantifier": "all histories and select choices", "why_tests_cant": "unbounded histories and select choices", "anchors": ["broadcaster/subscriber.go:Broadcaster.Unsubscribe", "broadcaster/subscriber.go:Broadcaster.Run"]}
{"id": "C72", "title": "Reusing a literal input gives the same problem", "statement": "Although building an input factory changes the literal input it is given (it fills in validator limits and replaces the interactive language by its file extension), building another factory from the same literal input succeeds with the same settings, archive and hash, and changes it no further.", "quantifier": "all accepted literal inputs, all iteration orders of both calls", "why_tests_cant": "all inputs; a CI run builds one factory per test from the same literal input", "anchors": ["common/literalinput.go:NewLiteralInputFactory", "common/literalinput.go:LanguageFileExtension"]}
{"id": "C73", "title": "Archives of literal inputs stay inside their directory", "statement": "No member of the archive of an accepted literal input has a '..' path component, so unpacking it never leaves the input's directory. (False: case names and the custom validator's language are used unchecked; proved when they contain no slash.)", "quantifier": "all accepted literal inputs", "why_tests_cant": "all names", "anchors": ["common/literalinput.go:NewLiteralInputFactory"]}
{"id": "C74", "title": "A new submission is enqueued once, with the source that was sent", "statement": "Of all requests to /run/new/ for one submission at most one enqueues a run, and it is answered with 200 exactly when it did; the run enqueued for a submission always carries the complete body of the request that created it. (The second half is false: a body cut short by a broken connection is graded anyway, and a rejudge arriving during the upload reads what is there so far.)", "quantifier": "all histories and interleavings of requests and failures", "why_tests_cant": "Depends on the interleaving of concurrent handlers on the submissions directory and on where the connection or file system fails.", "anchors": ["cmd/omegaup-grader/frontend_handler.go:/run/new/ handler", "cmd/omegaup-grader/frontend_handler.go:injectRuns", "cmd/omegaup-grader/frontend_handler.go:readSource"]}
{"id": "C75", "title": "No-op reports add up", "statement": "In a report of the no-op runner the points of the groups add up to the points of the run. (False unless the run is worth exactly one point or none: the maxima of the groups are already in points, and are multiplied by the run's points once more.)", "quantifier": "all problems and runs", "why_tests_cant": "Only runs worth one point are used in tests; the claim ranges over all maximum scores and weightings.", "anchors": ["runner/noop_sandbox.go:NoopSandboxFixupResult", "runner/runner.go:Grade"]}
{"id": "C76", "title": "Score ranges survive being reported", "statement": "A score range that was accepted and is printed in a CI report is accepted again when read back and denotes the same range. (The second half only holds up to a millionth, so a score on the boundary may no longer be in the reported range.)", "quantifier": "all accepted score ranges and all roundings of the printer", "why_tests_cant": "Ranges over all rationals and roundings.", "anchors": ["common/problemsettings.go:ScoreRange.MarshalJSON", "common/problemsettings.go:ScoreRange.UnmarshalJSON"]}
{"id": "C77", "title": "A recorded result comes from an accepted upload", "statement": "The result recorded for a finished run is the one in the upload that finished it; an upload the grader answered with an error contributes nothing to the result. (False: a details.json is recorded as soon as it is decoded, even if the upload is then rejected and the run retried, so a run can be closed as AC although every upload was rejected, or with the result of one attempt and the files of another. Proved: the recorded result is always the last details.json received in any attempt, JE with score 0 if there is none, and the finishing upload's if it has one.)", "quantifier": "every sequence of time-outs and uploads with any parts, cut anywhere, for every number of retries", "why_tests_cant": "needs every combination of attempts and points at which an upload is cut", "anchors": ["cmd/omegaup-grader/runner_handler.go:processRun", "grader/queue.go:Requeue", "grader/queue.go:NewEmptyRunContext"]}
{"id": "C78", "title": "The files kept for a run are those of its last upload", "statement": "If the grade directory can be emptied, then after any history it holds exactly the files of the last upload handled (the last of each name) plus, once the run is closed, the details.json, logs.txt.gz and tracing.json.gz written by the grader from the recorded result, logs and trace; nothing is left from earlier attempts or from an earlier grading.", "quantifier": "every sequence of time-outs and uploads, every set of file names and contents, files stored or not", "why_tests_cant": "any number of earlier attempts with any files", "anchors": ["cmd/omegaup-grader/runner_handler.go:processRun", "grader/queue.go:Close"]}
{"id": "C79", "title": "The judge named in a result is the authenticated sender", "statement": "The judged_by recorded with a result is the authenticated name of the runner whose upload carried that result, never a name written in the upload, and verdict, score and contents are exactly those of a details.json that this runner sent.", "quantifier": "every history and every uploaded contents", "why_tests_cant": "any history, any claimed name", "anchors": ["cmd/omegaup-grader/runner_handler.go:processRun", "cmd/omegaup-grader/main.go:peerName"]}
{"id": "C80", "title": "Logs and traces of every attempt are kept", "statement": "The logs and the trace of a run contain, once each and in order, every log and every trace event received in any of its uploads, including rejected ones, each log under the name of its sender.", "quantifier": "every history of uploads and time-outs", "why_tests_cant": "any number of attempts, cut anywhere", "anchors": ["cmd/omegaup-grader/runner_handler.go:processRun", "grader/queue.go:AppendRunnerLogs", "common/context.go:AppendLogSection"]}
{"id": "C81", "title": "The response to an upload says what becomes of the run", "statement": "An upload for an attempt not in flight is answered 404 and changes nothing; otherwise the answer is 200 exactly if the upload was received in full, 500 exactly if the directory or a file could not be created, none exactly if its trace makes the decoder panic, 400 otherwise. After 500 the run is closed; after 400 it is retried under a new attempt with one try less, or closed when out of tries or room; after 200 it is closed unless the verdict is JE and tries are left, when it is retried exactly once more; after a panic it stays in flight.", "quantifier": "every state of the run and every upload", "why_tests_cant": "every mixture of parts and failures", "anchors": ["cmd/omegaup-grader/runner_handler.go:processRun", "cmd/omegaup-grader/runner_handler.go:registerRunnerHandlers", "grader/queue.go:Requeue"]}
{"id": "C82", "title": "The runner gets the run that was queued", "statement": "The run a runner decodes from the response to its request has the attempt id, source, language, problem, input hash and debug flag of the run that was queued, and its maximum score up to rounding. (False for a source that is not valid UTF-8: each offending byte is silently replaced by U+FFFD, so a different program is graded. Proved: exactly what arrives for every run; all texts arrive unchanged if and only if they are valid UTF-8; a run can be sent exactly if it has a maximum score that does not overflow a float64.)", "quantifier": "every run, every byte string as source", "why_tests_cant": "every source text", "anchors": ["common/run.go:MarshalJSON", "common/run.go:UnmarshalJSON", "cmd/omegaup-grader/runner_handler.go:registerRunnerHandlers", "cmd/omegaup-runner/main.go:processRun"]}
{"id": "C83", "title": "The grader gets the result that was computed", "statement": "Decoding an encoded result gives back every verdict, compile message, time, memory, exit status, signal, group and case in order, with every score within 1e-6 of the one sent up to one float64 rounding. (False for texts that are not valid UTF-8 and for an empty non-nil map of individual results, which arrives as nil; a details.json consisting of null is accepted as a result which cannot be encoded again, so that closing the run panics. Proved: exactly what arrives for every result, equality when the texts are valid UTF-8, and exactly which results can be encoded at all.)", "quantifier": "every result with any number of groups, cases and binaries", "why_tests_cant": "any nesting, any texts, any scores", "anchors": ["runner/runner.go:RunResult", "runner/runner.go:GroupResult", "runner/runner.go:CaseResult", "runner/sandbox.go:RunMetadata", "cmd/omegaup-grader/runner_handler.go:processRun"]}
{"id": "C84", "title": "The contestant's program runs under the problem's limits", "statement": "For every submission and case, omegajail is told exactly once of each limit of the contestant's program: the time limit, extra wall time and output limit of the problem, and its memory limit or 640 MiB, whichever is less, with the language of the submission; Java programs get one second more. (The last part is false: the extra time is 1000 ns, which vanishes in whole milliseconds. Proved: the rest for every job, and that Java programs get the same limit as others.)", "quantifier": "every job (interactive or not), program, case and limits", "why_tests_cant": "any values of limits, any set of interfaces", "anchors": ["runner/sandbox.go:Run", "runner/runner.go:Grade"]}
{"id": "C85", "title": "A contestant's program sees nothing of the input", "statement": "For every submission and case, the only directories of the machine mounted for a contestant's program are its own binary directory and its pipes; its standard input is the input of the case (an empty file if interactive); no file of the input is linked or copied into a directory it sees, neither for the case nor while setting up. (False for an interactive problem with an interface called validator and a custom validator, where the validator's source is placed in the directory of the contestant's program.)", "quantifier": "every job, program, case, set of interfaces and paths", "why_tests_cant": "any names and paths", "anchors": ["runner/sandbox.go:Run", "runner/runner.go:Grade", "runner/runner.go:copyFile"]}
{"id": "C86", "title": "Only files of the program's directory are compiled", "statement": "For every job, whatever the requisites of the problem's interfaces say, each source the compiler is told of lies in the directory of the program, and is one of its sources; Compile refuses exactly the calls with a source whose name does not start with the directory's or which cannot be made relative. (Compile on its own accepts a source in a sibling directory whose name starts with that of the directory.)", "quantifier": "every job, program, requisite and directory", "why_tests_cant": "any path, including .. and absolute ones", "anchors": ["runner/sandbox.go:Compile", "runner/runner.go:normalizedSourceFiles"]}
{"id": "C87", "title": "The validator sees the files of the case it judges", "statement": "Each time the custom validator is called, data.in, data.out and meta.in next to it are the input and the expected output of that case and the metadata of the contestant's run on it, or absent, never those of another case. (False: for a case without an expected output data.out is that of the last earlier case with one. Proved: everything else for every history of validated cases, and exactly which output a case without one sees.)", "quantifier": "every job, sequence of validated cases, and outcome of every link, copy and write before", "why_tests_cant": "any number of cases and any pattern of failures", "anchors": ["runner/runner.go:Grade", "runner/sandbox.go:Run", "runner/runner.go:copyFile"]}
{"id": "C88", "title": "No two outputs share a file", "statement": "The standard output, error and metadata of every compilation, every program on every case and every validation of a run are written to files of their own, including those written at the same time. (False for a case called compile, whose outputs of an interface or of the validator overwrite those of its compilation, and for an interface called validator; proved otherwise.)", "quantifier": "every job, programs, cases and names", "why_tests_cant": "any number of programs and cases, any names", "anchors": ["runner/runner.go:Grade"]}
{"id": "C89", "title": "The archive sent back holds the outputs of the run", "statement": "The archive of generated files has exactly the outputs of compiling, running and validating that exist, with the contents they have in the end and named by their path in the run's directory, and no other file; no name occurs twice (under the conditions of C88).", "quantifier": "every job, set of cases that ran, order in which programs finish and contents of files", "why_tests_cant": "any subset of files and any order of completion", "anchors": ["runner/runner.go:createZipFile", "runner/runner.go:Grade"]}
{"id": "C90", "title": "The programs of an interactive problem are built from the right sources", "statement": "After setting up, the directory of every interface but Main has the contestant's source as its module and the files of that interface; Main's directory has the problem's Main from the input and nothing from the contestant, for distinct interfaces with plain, non-clashing names.", "quantifier": "every interactive job, set of interfaces and files, in every order", "why_tests_cant": "any number and order of interfaces and files", "anchors": ["runner/runner.go:Grade"]}
{"id": "C91", "title": "The limits of the problem's own programs and of debug runs", "statement": "The custom validator and the parent of an interactive problem run with the validator's limits if given, otherwise with 256 MiB, 10 KiB of output, no extra wall time and the time limit of the contestant's program; they are told the case and the contestant's language. C and C++ programs in a debug run have no memory limit, twice the time and a second more, 16 KiB more output, and the address sanitizer; no other program does.", "quantifier": "every job, limits, case and language", "why_tests_cant": "any values of limits", "anchors": ["runner/runner.go:validatorLimits", "runner/runner.go:Grade", "runner/sandbox.go:Run"]}
{"id": "C92", "title": "Grading a run leaves the cached input as it is", "statement": "Setting up, compiling, running and validating a run change no file outside of the directory of the run, hence none of the cached input that other runs share, although files of the input are linked rather than copied into it. (False if the directory is left from an earlier run, if an interface Main has a file with the name of the problem's Main, or if a placed file cannot be removed; proved for a fresh directory without such a clash, for every outcome of links and copies.)", "quantifier": "every job, every outcome of every step, every sequence of writes to other names and every sequence of validations", "why_tests_cant": "any interleaving of links, failed links and writes", "anchors": ["runner/runner.go:copyFile", "runner/sandbox.go:Run", "runner/runner.go:Grade"]}
{"id": "C93", "title": "Both ends of an interactive problem's pipes are the same pipes", "statement": "For every interactive problem whose main is called Main, every other interface has exactly its own program's directory and its own directory of pipes in sight, the problem's program sees its own directory and the pipes of all other interfaces, each at the same place inside, and nothing else; setting up makes each directory before the two pipes in it and the places where they are mounted for both programs; different interfaces have different pipes.", "quantifier": "all interactive problems, interfaces, languages, cases and submissions", "why_tests_cant": "any number of interfaces with any names; a test sees one problem", "anchors": ["runner/runner.go:375-398 generateParentMountpoints, generateMountpoint", "runner/runner.go:576-637 Grade", "runner/sandbox.go:250-349 Run"]}
{"id": "C94", "title": "The program that is run is the one that was compiled", "statement": "For every job and program (contestant's, problem's parent, custom validator) the directory, target and language omegajail is told to compile are those it is later told to run (a C++ validator is compiled as C++11 and run as C++), compilation sees only the program's directory, writable, with the configured time and output limits, and leaves its messages in three files of the program's own; only sanitized debug runs and C/C++ parents get extra flags.", "quantifier": "all jobs, programs and cases", "why_tests_cant": "holds for every combination of language, interfaces, validator and debug flag", "anchors": ["runner/runner.go:267-279,485-548,664-764 Grade", "runner/sandbox.go:159-249 Compile", "runner/sandbox.go:250-349 Run"]}
{"id": "C95", "title": "A finished run's row is its last recorded result", "statement": "For every sequence of finished runs and every pattern of failing statements, the database row of a run is in the end the result of the last finished attempt with that identifier whose statement succeeded (ready, verdict, running time in milliseconds, memory, score, judge), its penalty is the running time of the last such attempt of a contest whose penalty type is runtime and otherwise unchanged; rows of other runs are untouched, no row is created, and who submitted it never changes.", "quantifier": "all sequences of finished runs, configurations, databases and statement failures", "why_tests_cant": "the order of results and failures is unbounded; a test sees one update", "anchors": ["cmd/omegaup-grader/frontend_handler.go:63-114 updateDatabase", "cmd/omegaup-grader/frontend_handler.go:212-230 runPostProcessor"]}
{"id": "C96", "title": "Full marks are recorded in full", "statement": "A run that earned all the points of its problem is recorded with all those points, whatever the contest's partial-score setting.", "quantifier": "all contests, problem points and results", "why_tests_cant": "holds for all point values and settings", "anchors": ["cmd/omegaup-grader/frontend_handler.go:63-71 updateDatabase", "grader/queue.go:270-286 RunInfo"]}
{"id": "C97", "title": "What is announced agrees with what is recorded", "statement": "With every finished run at most one message is sent to the broadcaster, after the database was updated, exactly one if the run can be announced; the announcement agrees with the recorded row in verdict, running time, penalty, memory, score and contest score.", "quantifier": "all sequences of finished runs and databases", "why_tests_cant": "any history of results; rounding and withheld scores only differ for some values", "anchors": ["cmd/omegaup-grader/frontend_handler.go:116-210 broadcastRun", "cmd/omegaup-grader/frontend_handler.go:212-230 runPostProcessor"]}
{"id": "C98", "title": "Announcements of runs reach only those entitled to them, and their submitter", "statement": "No subscriber that is not an administrator (of the site, the contest or problemset, or the problem) and is not the submitter can be sent the announcement of a finished run, and the submitter's subscription to their own events always gets it.", "quantifier": "all runs, subscribers, filters and credentials", "why_tests_cant": "ranges over all filters and credentials", "anchors": ["cmd/omegaup-grader/frontend_handler.go:116-210 broadcastRun", "broadcaster/broadcaster.go Filters"]}
{"id": "C99", "title": "No run is lost when the grader is killed", "statement": "Whatever was ever given to the queue, by this process or by an earlier one killed at any point, has its result recorded, or is in this process's queue, or will be put there by the loop at start-up, unless a lookup or an operation of that loop failed; once the loop is done without failure every such run without a result was queued again.", "quantifier": "all interleavings of submissions, requests, results and crashes", "why_tests_cant": "every crash point and interleaving", "anchors": ["cmd/omegaup-grader/frontend_handler.go:232-254 getPendingRuns", "cmd/omegaup-grader/frontend_handler.go:286-433", "cmd/omegaup-grader/frontend_handler.go:435-470 registerFrontendHandlers"]}
{"id": "C100", "title": "A recovered run is queued once and with its whole source", "statement": "After a restart every pending run is given to the queue exactly once, and with the complete source that was submitted.", "quantifier": "all interleavings of submissions, requests, results and crashes", "why_tests_cant": "depends on races with requests and on the crash point", "anchors": ["cmd/omegaup-grader/frontend_handler.go:378-470", "cmd/omegaup-grader/frontend_handler.go:539-612 /run/new/"]}
{"id": "C101", "title": "A CI run tests exactly what the commit declares", "statement": "The tests of a CI run are one per solution declared in tests/tests.json, in order, with the program of that name in the commit, the declared language or the one of its extension, and the declared expectations, followed by one for the declared inputs validator; nothing is tested unless both settings files can be read and every file they refer to is in the commit, and each run queued has its test's program and language.", "quantifier": "all commits, settings and decoders", "why_tests_cant": "all trees and settings files", "anchors": ["cmd/omegaup-grader/ci.go:297-562 createCIRunConfigFromGit"]}
{"id": "C102", "title": "A CI run grades solutions with the problem's settings", "statement": "Every solution tested by a CI run is graded on the cases of the commit, with the groups, weights, limits and validator its settings.json declares.", "quantifier": "all commits and settings", "why_tests_cant": "all settings; the differences only show for some", "anchors": ["cmd/omegaup-grader/ci.go:369-472", "common/literalinput.go:217-416"]}
{"id": "C103", "title": "No commit takes the grader down", "statement": "Whatever a commit contains, a CI request for it ends with a report; the grader does not crash.", "quantifier": "all repositories, commits, settings and outcomes of the runs", "why_tests_cant": "all trees and settings", "anchors": ["cmd/omegaup-grader/ci.go:297-562", "cmd/omegaup-grader/ci.go:603-711 addRun", "cmd/omegaup-grader/ci.go:837-906 processCIRequest"]}
{"id": "C104", "title": "All solutions of a CI run are graded against the same input", "statement": "Within one CI run every solution that is queued has the same input (settings, archive and hash) and maximum score, whatever happened to the tests before it, although building an input changes the shared request; the inputs validator is run on the same cases with the same weights.", "quantifier": "all commits, map iteration orders, failures and results", "why_tests_cant": "aliasing through a shared, mutated request; map orders", "anchors": ["cmd/omegaup-grader/ci.go:603-711 addRun", "cmd/omegaup-grader/ci.go:871-882", "common/literalinput.go:217-416"]}
{"id": "C105", "title": "The inputs validator sees the inputs", "statement": "The program whose output an inputs validator judges writes exactly the case's input, however much each read and write transfers.", "quantifier": "all inputs and all sizes of reads and writes", "why_tests_cant": "short writes are up to the system", "anchors": ["cmd/omegaup-grader/ci.go:31-57 CopyStdinToStdoutSource"]}
{"id": "C106", "title": "The runner judges with the files of the problem's commit", "statement": "If the grader makes an archive of a problem's tree, stores and sends it, and a runner unpacks it, all without an error, then the input's directory on the runner holds exactly the tree: at every path the same file contents or a directory, and nothing else. (False: when a subtree of the repository cannot be read the walk ends early and its error is dropped; if settings.json came before it in git's order, everything from there on is silently missing, such as a validator.)", "quantifier": "all repository trees (any depth), unreadable objects, disk errors, truncated stores, damaged transmissions, initial disks and paths", "why_tests_cant": "trees of any shape; failures at any object", "anchors": ["grader/input.go:78-191 CreateArchiveFromGit", "grader/input.go:275-353 Transmit, Persist", "runner/input.go:177-316 persistFromTarStream, Persist"]}
{"id": "C107", "title": "Grader and runner agree on the size of an input", "statement": "The uncompressed size that the grader announces is the size that the runner accounts for when it unpacks the input, and also the size it finds when it verifies the input after a restart; for an intact repository it is the number of bytes in the tree's blobs.", "quantifier": "all trees, failures and disks", "why_tests_cant": "sums over arbitrary trees", "anchors": ["grader/input.go:119,153,190", "runner/input.go:89-127,213-257,280"]}
{"id": "C108", "title": "A problem only affects its own input on the runner", "statement": "Unpacking the input made from a problem's repository changes nothing on the runner's disk outside of the input's directory, other than making the directories above it. (False for trees with entries named `..`, which libgit2 reads: they replace files of other inputs.)", "quantifier": "all repository trees and disks", "why_tests_cant": "adversarial names at any depth", "anchors": ["grader/input.go:120-178", "runner/input.go:213-244"]}
{"id": "C109", "title": "Grader and runner use the same settings", "statement": "When the grader read a problem's settings from a tree and a runner unpacked the input of that tree, the runner's settings are the same.", "quantifier": "all trees, settings, failures and disks", "why_tests_cant": "two different readers of arbitrary repositories", "anchors": ["grader/input.go:30-74 GetProblemInformation", "runner/input.go:267-274"]}
{"id": "C110", "title": "Delivering a result never deadlocks", "statement": "While a runner grades a run and at the same time streams the upload, no failure of the network, early answer of the grader or failure of grading can make grading, the uploading goroutine and the HTTP transport wait for each other forever: as long as network operations end in one way or another, all three finish in a bounded number of steps, exactly one report of how the request ended is made, and processing the run returns that report, or the error of grading if there is one.", "quantifier": "all bodies split into any writes, all interleavings of the three parties, all failures and early answers", "why_tests_cant": "a property of all schedules of three concurrent parties", "anchors": ["cmd/omegaup-runner/main.go:383-457 channelBuffer", "cmd/omegaup-runner/main.go:459-610 processRun, gradeAndUploadResults"]}
{"id": "C111", "title": "The upload carries the body that was written", "statement": "The bytes of the upload that are on the wire when the request is answered or given up are a beginning of the concatenation of what was written to the body, and all of it if the end of the request was sent.", "quantifier": "all bodies split into any writes, all schedules, partial writes, failures and early answers", "why_tests_cant": "all interleavings of the writer, two readers of the same channel and the network", "anchors": ["cmd/omegaup-runner/main.go:383-457 channelBuffer"]}
{"id": "C112", "title": "What a runner sends is what the grader records", "statement": "A runner sends files.zip exactly if the input was available, exactly one details.json with the result of grading (a judge error if grading failed), then its logs and trace. When that arrives whole, the grader records that result under the runner's name and its logs and events, answers 200, and closes the run unless the verdict is JE, which is tried once more at most. When only a beginning arrives, cut anywhere, the grader answers 400, one try is used up and the run is queued again or closed; it is never lost.", "quantifier": "all gradings, results, logs, traces, cuts of the body, runs and numbers of tries left", "why_tests_cant": "all combinations of the two programs' states and of cuts of the body", "anchors": ["cmd/omegaup-runner/main.go:530-641 gradeAndUploadResults, gradeRun", "cmd/omegaup-grader/runner_handler.go:22-147 processRun", "grader/queue.go:471-495 Requeue"]}
{"id": "C113", "title": "The queue-length metric counts the runs in the grader", "statement": "At any time when the events announced so far have been processed, the gauge grader_queue_total_length equals the number of runs that were added and are not finally closed; in particular it is never negative.", "quantifier": "all interleavings of submissions, hand-outs, uploads, time-outs and closings, all schedules of the event goroutine, all times at which the listener is registered", "why_tests_cant": "all interleavings and all moments of registration", "anchors": ["cmd/omegaup-grader/main.go:129-161 queueEventsProcessor", "cmd/omegaup-grader/main.go:229-266 main", "grader/queue.go:549-566 AddRun", "grader/queue.go:371-382 Close", "grader/queue.go:957-999"]}
{"id": "C114", "title": "The status page lists what is in flight", "statement": "The answer to /grader/status/ lists exactly one entry for every attempt that has been handed to a runner and has not been finished, requeued or timed out since, with the run it was handed out for; the queue length is the number of runs put into the queue and not taken out; both refer to one moment.", "quantifier": "all interleavings of everything the grader does, all iteration orders of the map", "why_tests_cant": "all interleavings", "anchors": ["grader/queue.go:762-784 GetRunData", "grader/queue.go:932-949 GetQueueInfo", "cmd/omegaup-grader/frontend_handler.go:511-540"]}
{"id": "C115", "title": "Preloading keeps exactly the inputs that verify", "statement": "After a restart, preloading the cache directory (nothing else running) ends with an in-memory cache that holds exactly the inputs that are then on disk, all of which verify; every input that verified and was not evicted for lack of space is among them with all its files untouched; every other entry that stands for an input has been removed with its companions, and nothing else on disk has changed.", "quantifier": "all contents of the cache directory, all listing orders, all evictions, for the runner and for the grader", "why_tests_cant": "all directory contents and all evictions", "anchors": ["common/inputmanager.go:322-364 PreloadInputs", "common/inputmanager.go:277-315 Add", "runner/input.go:322-359 CachedInputFactory", "grader/input.go:402-457 CachedInputFactory", "runner/input.go:131-139", "grader/input.go:261-270"]}
{"id": "C116", "title": "Preloading reclaims what interrupted downloads left behind", "statement": "After a restart and preloading, nothing is left of inputs whose storing was interrupted. (True of the runner's directories; false of the runner's lists of hashes and of everything the grader had written.)", "quantifier": "all crash points of storing an input, all other contents of the cache directory", "why_tests_cant": "all crash points and directory contents", "anchors": ["common/inputmanager.go:322-364 PreloadInputs", "grader/input.go:299-353 Input.Persist", "runner/input.go:177-283 persistFromTarStream"]}
{"id": "C117", "title": "Preloading never takes away an input that is in use", "statement": "While inputs are preloaded in the background, every input that a run being graded or a request refers to, and every input in the cache, has its complete files on disk. (True of the runner, which shares its I/O lock with preloading; false of the grader, where removing an entry that could not be preloaded may hit the archive a request has just generated, after which the input stays unusable until it is evicted.)", "quantifier": "all interleavings of preloading, any number of users of inputs, and evictions", "why_tests_cant": "all interleavings", "anchors": ["common/inputmanager.go:345-357", "cmd/omegaup-runner/main.go:286-290", "cmd/omegaup-runner/main.go:613-640", "cmd/omegaup-grader/main.go:191-196", "cmd/omegaup-grader/runner_handler.go:226-259"]}
{"id": "C118", "title": "Which messages refresh a scoreboard", "statement": "A message printed as JSON by Go refreshes the scoreboard of its contest exactly if it is for a contest and it is the announcement of a run: every announcement the grader sends for a contest's run does, and text that users can write into a message (names, clarifications) never does. (An inner object with the member message, or a member whose name ends in a quote and message, counts too; JSON printed with blanks or escaped slashes does not count.)", "quantifier": "all JSON messages of any shape and depth, all strings in them, all contests", "why_tests_cant": "all strings and all nestings: the code searches the text of the JSON", "anchors": ["cmd/omegaup-broadcaster/main.go:243-273", "cmd/omegaup-grader/frontend_handler.go:116-209 broadcastRun"]}
{"id": "C119", "title": "No finished run is lost on its way to the scoreboard", "statement": "Runs that are closed are processed for the database and the announcement exactly once each, in the order in which they were handed over; the contests of runs whose announcement was answered with success reach the scoreboard loop exactly once each, in that order; and after each of them the frontend is asked to refresh the contest, or the request is still to come because the contest is in the channel or its window is marked.", "quantifier": "all interleavings of closing runs, goroutines of both programs, other senders, timers and answers", "why_tests_cant": "interleavings over two programs and four channels", "anchors": ["grader/queue.go:828-853 RunPostProcessor", "cmd/omegaup-grader/frontend_handler.go:211-230 runPostProcessor", "cmd/omegaup-broadcaster/main.go:139-199 updateScoreboardLoop", "cmd/omegaup-broadcaster/main.go:243-273"]}
{"id": "C120", "title": "Closing a run does not wait for the web frontend", "statement": "Closing a run, and with it the answer to the runner that sent the result, does not depend on the frontend answering requests to refresh scoreboards. (False: there is no time limit anywhere on the way, so one unanswered request stops all closing of runs after at most five more. If requests end in one way or another everything goes on, within a bounded number of steps.)", "quantifier": "all interleavings, any number of runs", "why_tests_cant": "a liveness property over all schedules", "anchors": ["cmd/omegaup-broadcaster/main.go:106-137 updateScoreboardForContest", "cmd/omegaup-broadcaster/main.go:220-222", "cmd/omegaup-grader/frontend_handler.go:407-433 broadcast", "grader/queue.go:456-459"]}
{"id": "C121", "title": "A configuration file changes the options it mentions and no others", "statement": "A configuration read from a file has exactly the documented options. Those the file does not mention keep their documented defaults; a boolean, number or string is the last value of it that is not null, with section and option names compared up to case and repeated sections merged. The file is rejected if and only if an option is given a value outside its type or a section something that is neither an object nor null. Only the first JSON value in the file counts.", "quantifier": "all JSON documents, whatever go-base's Duration and Byte decoders do", "why_tests_cant": "ranges over all documents, with any nesting, repetition and spelling of the names", "anchors": ["common/context.go:119-204 defaultConfig", "common/context.go:230-241 NewConfig"]}
{"id": "C122", "title": "Event stream clients get an event stream or are told why not", "statement": "A request to the events port that accepts text/event-stream is answered as an event stream, and status 200 means that there is a subscription. (False: a type with parameters, a wildcard or upper case is not recognised and the request is taken for a broken WebSocket handshake; and a filter that is not understood, an unreachable frontend, or a frontend error that is not JSON is answered with status 200 and nothing. The type is recognised exactly if it is one of the comma-separated elements up to white space, and every answer is listed exactly.)", "quantifier": "all Accept headers, filter values, frontend answers", "why_tests_cant": "ranges over all header texts and all answers of another program", "anchors": ["common/server.go:65-74 AcceptsMimeType", "cmd/omegaup-broadcaster/main.go:275-328", "broadcaster/subscriber.go:281-298"]}
{"id": "C123", "title": "The frontend judges exactly the filters and the token that the broadcaster uses", "statement": "Whoever is subscribed through the events port has the filters in the request's filter parameters, in their order, and the permissions of an answer with status 200 to a question whose only parameter decodes to exactly those filters joined with commas and whose cookie is exactly the request's token. Messages reach the subscriber exactly as these filters and permissions say.", "quantifier": "all requests (any Unicode text in filters and tokens), all answers", "why_tests_cant": "a mismatch between what is validated and what is used is an injection that needs one unusual byte", "anchors": ["cmd/omegaup-broadcaster/main.go:300-310", "broadcaster/subscriber.go:224-317 NewSubscriber"]}
{"id": "C124", "title": "Deauthenticating a user concerns that user", "statement": "A request to /deauthenticate/ with a user's name concerns the subscribers of that user. (False for names with a slash, however they are encoded: the part before it is taken. With an empty name it concerns everybody who is not logged in. It is exact for all other names.)", "quantifier": "all user names", "why_tests_cant": "ranges over all names", "anchors": ["cmd/omegaup-broadcaster/main.go:235-243"]}
{"id": "C125", "title": "The answer to a rejudge request tells whether its runs were queued", "statement": "A request to /run/grade/ is answered with 200 exactly if all the runs it names were given to the queue. (False of overlapping requests: the handlers share one error variable, so a request whose runs were not queued can be answered with 200 and one whose runs all were with 500. True when no other rejudge request is served between storing the result and looking at it; a wrong answer is always another rejudge request's.)", "quantifier": "all histories and interleavings of requests", "why_tests_cant": "ranges over all interleavings of concurrent handlers", "anchors": ["cmd/omegaup-grader/frontend_handler.go:436", "cmd/omegaup-grader/frontend_handler.go:609-649"]}
{"id": "C126", "title": "Totals of a run", "statement": "The time and wall time of a run are the sums of those of its cases up to one rounding per case, no case took longer than the run, its memory is the largest of its cases', and a submission that does not compile has used nothing.", "quantifier": "all graded runs", "why_tests_cant": "sums of rounded numbers over unbounded lists", "anchors": ["runner/runner.go:Grade"]}
{"id": "C127", "title": "Resources of a case with several processes", "statement": "The time of a case is the sum of its contestant processes' times (up to one rounding each), its wall time the largest of theirs, its memory the sum of theirs; with more than one process the result lists every process's own metadata exactly once, and the custom validator's is listed, under the name 'validator', exactly when the case ran OK. (Memory is in fact up to 2^(n-1) times the largest, and at least the sum.)", "quantifier": "all problems, cases, numbers of processes and arrival orders", "why_tests_cant": "unbounded number of processes and orders", "anchors": ["runner/runner.go:Grade"]}
{"id": "C128", "title": "How a case failed", "statement": "Exit status, signal, system call and system time of a case are those of the contestant process that failed, and blank if none failed. (If several failed, they are those of the one that finished first, which need not be the one whose verdict is reported.)", "quantifier": "all process results and arrival orders", "why_tests_cant": "all schedules", "anchors": ["runner/runner.go:Grade"]}
{"id": "C129", "title": "Which literal inputs are accepted", "statement": "A literal problem sent with an ephemeral request is accepted exactly if it has at least one case, every case is present with a weight that is not negative and some weight is positive, its validator is absent, one of the four known ones or a given custom one, and its interactive part is absent or names a known language and a well-formed interface that libinteractive accepts; the comparison used, its tolerance, the limits filled in and the name of the main file are the documented ones.", "quantifier": "all literal inputs and all behaviours of the external tool", "why_tests_cant": "unbounded set of inputs; both directions of the equivalence", "anchors": ["common/literalinput.go:NewLiteralInputFactory", "common/literalinput.go:validateInterface", "common/literalinput.go:validateLanguage", "common/language.go:LanguageFileExtension"]}
{"id": "C130", "title": "Every figure of a meta file", "statement": "Exit status, CPU, system and wall time, signal, system call and memory of a sandboxed process are those of the last line of the meta file that mentions them; whole numbers are read exactly or saturate at 64 bits, anything else is read as 0; times in microseconds are read as the correctly rounded number of seconds.", "quantifier": "all meta files", "why_tests_cant": "all texts, duplicate keys, numbers of any length", "anchors": ["runner/sandbox.go:parseMetaFile"]}
{"id": "C131", "title": "Problem settings arrive at the runner", "statement": "The settings that the grader writes for a literal problem are read by the runner as the same groups, cases, names, order, limits, validator and interactive part; only the weights may differ by a float64 rounding and base.FloatToRational. Exactly the settings with a weight in range for every case and a finite tolerance can be written.", "quantifier": "all problem settings", "why_tests_cant": "unbounded nesting and all texts and numbers", "anchors": ["common/problemsettings.go:CaseSettings.MarshalJSON", "common/problemsettings.go:CaseSettings.UnmarshalJSON", "common/literalinput.go:NewLiteralInputFactory", "runner/input.go"]}
{"id": "C132", "title": "Each case is worth its share", "statement": "From the weights of an ephemeral request (or settings.json) to the runner's result, every case is worth its share of the total weight, up to a stated small error that accounts for JSON and for the number of cases.", "quantifier": "all literal inputs, all numbers of cases and weights, all behaviours of base.FloatToRational within its contract", "why_tests_cant": "error accumulation over unboundedly many cases", "anchors": ["common/literalinput.go:NewLiteralInputFactory", "common/problemsettings.go:CaseSettings", "runner/runner.go:Grade"]}
{"id": "C133", "title": "Missing weights", "statement": "A case without a weight weighs 1 in a literal input and 0 in settings.json; Grade crashes on settings exactly if some case was written as null, and never on settings that the grader wrote; otherwise the normalised weights add up to exactly 1 if the total is positive.", "quantifier": "all settings and literal inputs", "why_tests_cant": "all JSON values; both directions", "anchors": ["common/problemsettings.go:CaseSettings.UnmarshalJSON", "common/literalinput.go:LiteralCaseSettings.UnmarshalJSON", "runner/runner.go:Grade"]}
{"id": "C134", "title": "Only ratios of weights matter; the maximum score is a unit", "statement": "Multiplying all weights of a problem by a positive number changes nothing in the result of grading; multiplying the maximum score multiplies exactly the contest scores and maximum scores and changes nothing else.", "quantifier": "all problems, submissions and positive factors", "why_tests_cant": "relates two executions for every input", "anchors": ["runner/runner.go:Grade"]}
{"id": "C135", "title": "Doing better on a case never costs points", "statement": "Of two submissions to the same problem, the one that scores at least as much on every case gets at least as many points overall.", "quantifier": "all problems with non-negative weights of positive total, all pairs of submissions whose output files can be opened", "why_tests_cant": "relates two executions for every input", "anchors": ["runner/runner.go:Grade"]}
{"id": "C136", "title": "A CI report only moves forward", "statement": "A client that polls the report of a CI run sees the run go from waiting to running to a final state, with a finish time exactly at the end; the tests run one at a time in order, each listed with the token, time and result its state calls for; a test seen settled stays as it was; the last report carries the outcome of the run.", "quantifier": "all numbers of tests, all outcomes of each, all choices of report writes that fail, all moments of polling", "why_tests_cant": "unboundedly many tests and all subsequences of the written reports", "anchors": ["cmd/omegaup-grader/ci.go:addRun", "cmd/omegaup-grader/ci.go:processCIRequest", "cmd/omegaup-grader/ci.go:CIReport.Write"]}
{"id": "C137", "title": "Directories are made before files are put in them", "statement": "Setting up a run puts sources, interface files and pipes only into directories that it has made in an earlier step, and every program that will be compiled and run has its directory.", "quantifier": "all problems (interactive or not, with or without custom validator), any number of interfaces and files, all submissions", "why_tests_cant": "any number of interfaces and files, any names and languages", "anchors": ["runner/runner.go:Grade"]}
{"id": "C138", "title": "Runs and results written by another version are understood", "statement": "Reading a run, members the runner does not know, members that are null, and the order of the members make no difference, and a missing member is zero, empty or false; names are compared without regard to case. The run is refused exactly if some known member holds a value of the wrong kind, such as an attempt id that is negative or does not fit 64 bits. Texts are understood however they are written in JSON: characters as they are, with letters, or as UTF-16 codes. The same holds for the results a grader reads.", "quantifier": "every JSON object, with any members in any order", "why_tests_cant": "all member lists, all values", "anchors": ["common/run.go:UnmarshalJSON", "runner/runner.go:UnmarshalJSON", "cmd/omegaup-runner/main.go:processRun"]}
{"id": "C139", "title": "What is recorded for a submission is what its cases earned", "statement": "If the last result recorded for a submission is that of an attempt graded with a problem's settings, then its database row is ready and carries exactly the verdict and memory that grading found, the running time in milliseconds and the runner's name; its score is the fraction of the total weight (as written in the settings) that its cases earned, a group counting nothing if one of its cases scored nothing, up to a stated rounding error (33/10^7 * n/S + 11/10^7 for n cases of total weight S); the contest score, unless the contest has partial_score = 1 (see C96), is the points of the problem times that fraction, up to that error times the points and 4/10^6. A row says AC exactly if every case was accepted, and then score and points are exact. Of two attempts at the same problem, the one that scored at least as much on every case never has the lower score or contest score in the database.", "quantifier": "all problem settings, runs, behaviours of the submission, sandbox and files of an attempt that compiles, all interleavings of recorded results, all FloatToRational meeting its contract", "why_tests_cant": "the error is the composition of five conversions between rationals, binary64 and JSON over every possible settings file and outcome; tests fix a few weights", "anchors": ["cmd/omegaup-grader/runner_handler.go:processRun", "cmd/omegaup-grader/frontend_handler.go:updateDatabase", "runner/runner.go:Grade", "common/problemsettings.go:CaseSettings", "common/run.go:Run"]}
{"id": "C140", "title": "The trace file has one whole line per event, whatever the schedule", "statement": "While no write to the trace file fails, and when nobody is in the middle of Add, a trace file that was empty when the process opened it consists of the line `[` and one line for each event whose Add returned nil, made of the event's encoding and a comma, each event once, in the order in which the events were added; what was written is never changed. (A write that fails tears the next event's line too, and a file that was not empty gets a second `[` in the middle.)", "quantifier": "every number of goroutines calling Add, every interleaving, every event encoding without a raw newline, every point at which a write fails or Close is called", "why_tests_cant": "interleavings of unboundedly many writers", "anchors": ["common/tracing.go:WriterEventCollector", "common/context.go:NewContext"]}
{"id": "C141", "title": "The logs of every runner that tried a run are kept and can be told apart", "statement": "Each log uploaded by a runner is in the log of the run whole, between a first and a last line with the runner's name, after everything logged before and before everything logged after; and as long as no text in it could be taken for such a line, the log determines which runners uploaded logs, in which order, and what they were. (Nothing is escaped: without the condition, one runner's logs can pass for those of several.)", "quantifier": "every sequence of log lines and uploads, with any names and contents", "why_tests_cant": "unbounded texts and sequences; the claim is that no two histories give the same log", "anchors": ["common/context.go:AppendLogSection", "common/context.go:LogBuffer", "grader/queue.go:AppendRunnerLogs"]}
{"id": "C142", "title": "The jobs of a runner are serial", "statement": "On a runner, grading a run (with fetching and releasing its input), the periodic benchmark and the preloading of the cache are jobs of which at most one is under way: whatever the interleaving of the goroutines, inputs that cannot be fetched and runs that cannot be graded, what happens is a sequence of whole jobs one after another, each goroutine's in its own order; no piece of work begins before the one before it has ended; and no goroutine waits for ever: when nothing can move, every job has been done.", "quantifier": "every number of cached inputs, benchmark rounds and runs, every outcome of each, every interleaving", "why_tests_cant": "the number of interleavings is unbounded and a missing lock or unlock on one error path shows only in a rare schedule", "anchors": ["cmd/omegaup-runner/main.go:ioLock,gradeRun,main", "runner/benchmark.go:RunHostBenchmark", "common/inputmanager.go:PreloadInputs"]}
{"id": "C143", "title": "A run in the queue waits for a bounded number of others", "statement": "From the moment a run is in the queue with priority p, it is handed out at the latest after: the runs that were already waiting with priority p or higher, the runs of higher priority that arrive meanwhile, and one run for each GetRun that was already under way and had found its channel empty. A run of the same priority that arrives later is never handed out before it, and with no such GetRun under way no run of lower priority is.", "quantifier": "every history of the queue, every interleaving of any number of producers and consumers, every priority and channel length", "why_tests_cant": "overtaking depends on where concurrent consumers are in their scan when the run arrives", "anchors": ["grader/queue.go:Queue.GetRun,AddRun,enqueue,enqueueBlocking"]}
{"id": "C144", "title": "A Java program that runs out of memory gets MLE", "statement": "Under a positive memory limit, a Java program that ends with a non-zero status and whose standard error has java.lang.OutOfMemoryError gets MLE and the limit as its memory, whatever else the program or the sandbox writes; a Java program within its limit gets MLE only if its own standard error or the sandbox's has the text; in other languages the error file does not matter.", "quantifier": "every content of the error file, of the sandbox's messages and of the meta file, every limit", "why_tests_cant": "error files have any length; what decides is where a text falls with respect to a 4096-byte buffer and to line ends", "anchors": ["runner/sandbox.go:isJavaMLE,invokeOmegajail,appendFile,OmegajailSandbox.Run,parseMetaFile"]}
{"id": "C145", "title": "What the compiler said is shown", "statement": "The result of grading has a compile error exactly if a program was not compiled (no readable meta file, the compiler failed, or a Java class is missing); it is the name of the program followed by all of the compiler's standard error, what the sandbox said and the hint about the class, in this order; for Pascal and C# it is the compiler's standard output and nothing else.", "quantifier": "every language, every content of the files the sandbox leaves", "why_tests_cant": "the texts are arbitrary and any of the files may be missing", "anchors": ["runner/sandbox.go:OmegajailSandbox.Compile,invokeOmegajail,appendFile", "runner/runner.go:Grade,getCompileError"]}
{"id": "C146", "title": "An input that a run needs stays in the grader's cache until the run is over", "statement": "From the moment a submission, an ephemeral run or a CI run is accepted until its result is final, its input stays in the grader's input cache: the cache cannot drop it, and a runner that asks for it gets it, also when the input exists nowhere else. Each run gives its hold on the input back exactly once, however often it is closed, and when every run and request of an input is over the cache can drop it.", "quantifier": "every history of submissions, runner requests, failing loads, failing directories, concurrent closes and attempts of the cache to drop entries", "why_tests_cant": "A lost reference shows only when the cache is full at the wrong moment, and a leaked one only after weeks; a test runs a handful of submissions with a cache that never fills.", "anchors": ["cmd/omegaup-grader/ephemeral.go: ephemeralRunHandler.ServeHTTP", "cmd/omegaup-grader/ci.go: ciHandler.addRun", "cmd/omegaup-grader/frontend_handler.go: injectRuns", "cmd/omegaup-grader/runner_handler.go: /input/", "grader/queue.go: AddRunContext, RunContext.Close", "common/inputmanager.go: InputManager.Add, InputRef.Release"]}
{"id": "C147", "title": "A run compiles everything, then executes, then compares, and compares exactly what it reports as compared", "statement": "A submission whose programs all compile is graded in three phases: first every program is compiled once, in order; then only processes are executed; then only outputs are compared. The outputs that are compared are exactly those of the cases reported as AC, PA or WA, each once and in the order of the report: no output is looked at before all cases have run, and no case that failed in the sandbox is ever compared.", "quantifier": "every problem, case list, process outcome, wall-time cut and validator", "why_tests_cant": "Tests look at the verdicts of a few runs; an output compared twice, too early or for a failed case changes no verdict there.", "anchors": ["runner/runner.go: Grade"]}
{"id": "C148", "title": "Slow or dead subscribers never hold up the broadcaster", "statement": "What waits inside the broadcaster is bounded: five requests of each kind, ChannelLength messages, and ChannelLength messages for each subscriber. While anything waits the broadcaster can go on by itself, and without any subscriber reading a single message it gets through all it has accepted after a bounded number of steps: every accepted message has then been given to, or has overflowed, each subscriber.", "quantifier": "every history of connections, disconnections, deauthentications and messages, every iteration order and every order of taking from the channels, with subscribers that never read", "why_tests_cant": "A blocked loop needs a particular set of full buffers; a test has a few subscribers that all read.", "anchors": ["broadcaster/subscriber.go: Broadcaster.Run, Broadcast, Subscribe, Unsubscribe, Deauthenticate"]}
{"id": "C149", "title": "The stand-alone validator prints the score of the runner", "statement": "The command-line validator ends with status 0 exactly when it is given a validator name and two readable files and the score calculation of the runner gives no error; then it prints one line, the score within half a hundredth, and otherwise it prints nothing. With a token validator the line is 1.00 if the tokens agree and 0.00 if not, so a custom validator that wraps the tool gives every output exactly the score of the built-in validator, also for outputs the comparison fails on.", "quantifier": "all validator names, tolerances, file contents, unreadable files and ways of reading them", "why_tests_cant": "Tests of the tool would compare a few pairs of files; that it agrees with the runner on every pair is a statement about both programs.", "anchors": ["cmd/validator/main.go: main", "runner/validator.go: CalculateScore"]}
{"id": "C150", "title": "Token positions", "statement": "Every token is reported with the line and column (in characters) of its first character.", "quantifier": "all byte streams, both scan functions, all ways of splitting the stream into reads", "why_tests_cant": "unboundedly many chunkings; the code is only right for some of them", "anchors": ["runner/tokenizer.go:Tokenizer.splitFunc", "runner/tokenizer.go:Tokenizer.Token", "runner/validator.go:TokenMismatch"]}
{"id": "C151", "title": "Settings written by hand", "statement": "A settings.json (and a case of a literal input) is read member by member: every field is what the member of that name says, whatever the order of the members, the case of the letters of their names and further members of other names; a missing or null member leaves the zero value (weight 1 for literal cases), and the settings are refused exactly if some known member cannot be read.", "quantifier": "all JSON objects without repeated names, at every level of the settings", "why_tests_cant": "all objects, orders and spellings; both directions", "anchors": ["common/problemsettings.go:ProblemSettings", "common/problemsettings.go:CaseSettings.UnmarshalJSON", "common/literalinput.go:LiteralCaseSettings.UnmarshalJSON", "runner/input.go", "cmd/omegaup-runner/oneshot_input.go:oneshotInput.Persist"]}
{"id": "C152", "title": "Grading one run from the command line", "statement": "omegaup-runner -oneshot=run prints a result exactly if an input directory was named, a request or a source with an extension was given and can be read (a request has priority), the settings can be read and the run can be graded, and then it is the result of grading that run with 100 points and the extension as language; with -results, all the files of the run end up below that directory with their contents and nothing else is written there; when the program ends, nothing else of the run remains unless preserving was asked for; and the program ends.", "quantifier": "all command lines, contents of the files named by them, outcomes of the grading, trees of files and failures of copies", "why_tests_cant": "every tree and every point of failure, both directions of the printing", "anchors": ["cmd/omegaup-runner/main.go:runOneshotRun", "cmd/omegaup-runner/main.go:main", "cmd/omegaup-runner/oneshot_input.go", "runner/runner.go:Grade"]}
{"id": "C153", "title": "Texts are written as harmless JSON", "statement": "Whatever bytes a source, a compile error, a syscall name or a message has, what is written for it in JSON is a sequence of characters of RFC 8259 that stands for exactly that text (ill-formed bytes standing for U+FFFD), and has no control character (so an event of the broadcaster and a line of a log stay one line), no <, > or & and no separator U+2028/U+2029.", "quantifier": "all byte strings", "why_tests_cant": "all byte strings, ill-formed ones included", "anchors": ["common/run.go:Run.MarshalJSON", "runner/runner.go:RunResult.MarshalJSON", "broadcaster/transport.go:SSETransport", "cmd/omegaup-runner/main.go"]}
{"id": "C154", "title": "The grader's counters count what they are named after", "statement": "After any history, grader_runs_total, grader_runs_je, grader_ephemeral_runs_total and grader_ci_jobs_total are the numbers of runs whose source was read, of finished runs with verdict JE, of ephemeral requests and CI tests, and of CI jobs; grader_runs_retry and grader_runs_abandoned are the numbers of retried and abandoned runs; each summary of delays has one value per run that left; and the gauges of the queues' lengths are their lengths.", "quantifier": "all histories of reports", "why_tests_cant": "unbounded histories; every metric in every state", "anchors": ["cmd/omegaup-grader/metrics.go", "cmd/omegaup-grader/main.go:queueEventsProcessor", "cmd/omegaup-grader/frontend_handler.go:runPostProcessor", "cmd/omegaup-grader/frontend_handler.go:injectRuns", "cmd/omegaup-grader/ephemeral.go:addAndWaitForRun", "cmd/omegaup-grader/ci.go"]}
{"id": "C155", "title": "The benchmark of a runner", "statement": "A benchmark yields results exactly if its three programs could be loaded and graded, and then exactly theirs; after a failure no further program is graded; the lock of the runner is held from the first to the last step and every input that was acquired is released exactly once, whatever fails; and after any sequence of benchmarks the nine gauges are the measurements of the last one that worked.", "quantifier": "all outcomes of loading and grading, all sequences of benchmarks", "why_tests_cant": "every failure at every step and unbounded sequences", "anchors": ["runner/benchmark.go:RunHostBenchmark", "cmd/omegaup-runner/metrics.go:gaugesUpdate", "cmd/omegaup-runner/main.go:main"]}
{"id": "C156", "title": "What the client of an ephemeral run is told", "statement": "Whatever the runner, the disk and the client do, the answer to an accepted ephemeral run consists of the parts waiting, queueing, perhaps running, and then at most one each of logs.txt.gz, files.zip and details.json, in this order and none twice; queueing is said only when the run is in the queue, running only when a runner has been given it, files are sent only when the run is over, each with what it held in the run's directory then or, if reading fails, the beginning of it, and details.json is what the run was closed with; once the run is over the answer ends within nine steps of the handler and not before, so if the results cannot be written it never ends; a client that hangs up changes nothing but what reaches it; and if nothing fails and no upload of the same run begins after it was closed, the whole verdict and the logs are sent.", "quantifier": "every request, problem, schedule of handler, runner and grader, disk failure and time at which the client hangs up", "why_tests_cant": "interleavings of handler, runner uploads, closing of the run and disconnection cannot be enumerated by tests", "anchors": ["cmd/omegaup-grader/ephemeral.go:addAndWaitForRun", "grader/queue.go:Close", "grader/queue.go:Running", "grader/queue.go:Ready"]}
{"id": "C157", "title": "The token of an ephemeral run works once the answer has ended", "statement": "A token that was given out in the header of the answer can be used for fetching the files of the run once the answer has ended: its directory is there and known, holds the request, and the verdict in it is the one that was sent. (False: when the request cannot be saved the directory is removed although everything was sent, and when adding it to the cache fails the error is ignored and the directory is left behind unknown; proved when nothing fails on the disk and no upload begins after the run was closed.)", "quantifier": "every execution of the handler", "why_tests_cant": "the failures happen after everything has been sent, at points tests cannot provoke", "anchors": ["cmd/omegaup-grader/ephemeral.go:addAndWaitForRun", "cmd/omegaup-grader/ephemeral.go:saveEphemeralRunRequest", "grader/queue.go:Commit"]}
{"id": "C158", "title": "What becomes of an ephemeral request that is not accepted", "statement": "A request with another method gets 405, one that is not JSON of the right shape 400; one whose problem is not acceptable gets 200 with one part details.json: verdict CE, no points out of the sum of the weights, and the reason as compile error; none of them leaves a queued run, a directory or a working token behind; every request gets an answer. (The last is false: a request without a problem or with a null case makes the handler panic; proved for all others.)", "quantifier": "every request and execution", "why_tests_cant": "the set of requests is unbounded", "anchors": ["cmd/omegaup-grader/ephemeral.go:ServeHTTP", "cmd/omegaup-grader/ephemeral.go:addAndWaitForRun", "common/literalinput.go:NewLiteralInputFactory"]}
{"id": "C159", "title": "A termination signal stops the daemon", "statement": "A grader or broadcaster that is told to stop with SIGINT or SIGTERM stops, at the latest when the five seconds of grace are over, whatever its requests and CI runs do. (False while it is starting: the signal is dropped, because nobody receives from the unbuffered channel yet, and the daemon runs on; signals after the first are ignored too. True of every signal that arrives when the daemon is ready.)", "quantifier": "all states, moments of the signal and schedules", "why_tests_cant": "all interleavings of the signal with the start and the requests", "anchors": ["cmd/omegaup-grader/main.go:163-303 main", "cmd/omegaup-broadcaster/main.go:198-386 main", "common/server.go:RunServer"]}
{"id": "C160", "title": "Requests being handled when the daemon stops are answered", "statement": "A daemon that stops answers all the requests it has accepted before it ends. (False: the parts are stopped one after another with one deadline for all, so a CI run, a runner's long poll or one subscriber uses it up and the requests of the other servers are dropped. True if the deadline is not reached; and a server accepts requests exactly until its own turn comes.)", "quantifier": "all schedules, numbers of requests and moments of the signal", "why_tests_cant": "all interleavings", "anchors": ["cmd/omegaup-grader/main.go:286-303", "cmd/omegaup-broadcaster/main.go:371-385", "cmd/omegaup-grader/ci.go:992-1001 Shutdown"]}
{"id": "C161", "title": "CI requests are run one at a time, in order", "statement": "CI runs follow one another, in the order in which their requests were handed over, each at most once; at most 128 wait, and then the next client waits for its answer until there is room; unless the grader is told to stop, every request handed over is run to the end.", "quantifier": "all schedules and numbers of requests", "why_tests_cant": "unbounded histories; all interleavings of handlers and worker", "anchors": ["cmd/omegaup-grader/ci.go:834", "cmd/omegaup-grader/ci.go:941-1019 run, Shutdown, registerCIHandlers"]}
{"id": "C162", "title": "Stopping the grader loses no CI request", "statement": "A CI request whose client was told that it is waiting is run before the grader ends, and a run that was started is finished. (The first is false: told to stop, the worker may choose to stop with requests waiting; handlers waiting for room then wait for ever. The second holds unless the deadline is reached, and a stopped worker does nothing more.)", "quantifier": "all schedules and moments of the signal", "why_tests_cant": "a race between two channels", "anchors": ["cmd/omegaup-grader/ci.go:941-1001 run, Shutdown"]}
{"id": "C163", "title": "Messages arrive intact over Server-Sent Events", "statement": "A browser that listens with Server-Sent Events gets every message it was sent as one event whose data is exactly the message, in the order sent, wherever the connection is cut and however many pings come in between; a message is there as soon as its last byte is. (False for messages with line ends, which the grader's relay and the frontend may send: such a message never arrives as it was, and can be made to arrive as any two events; true exactly for messages without, among them all run updates of the grader itself.)", "quantifier": "all sequences of messages, pings and failed writes, all texts, all points where the stream ends", "why_tests_cant": "unbounded texts and cut points; the reader is the HTML Standard's, not the server's", "anchors": ["broadcaster/transport.go:SSETransport", "broadcaster/subscriber.go:Subscriber.Run", "cmd/omegaup-grader/frontend_handler.go:broadcastRun"]}
{"id": "C164", "title": "A compile error is the contestant's", "statement": "A submission gets CE exactly if the contestant's program cannot be compiled (or its language is not supported, or its archive of outputs is refused), and then the result names the program and shows what the compiler said; the cases are run exactly if every program is compiled; the result lists the programs that were compiled, up to the first failure, each with its own metadata; none of this depends on the order in which the interfaces are visited. (False in three ways: a custom validator or parent that cannot be compiled gives the contestant CE; when the sandbox leaves no readable report the runner sends JE and drops what Grade had recorded; and with one interface failing each way the order decides between CE and JE.)", "quantifier": "all submissions (interactive with any interfaces, output-only, single), validators, outcomes of the compiler and orders", "why_tests_cant": "any number of programs, each with arbitrary outcomes, in any order", "anchors": ["runner/runner.go:Grade", "runner/sandbox.go:OmegajailSandbox.Compile", "cmd/omegaup-runner/main.go:gradeAndUploadResults"]}
{"id": "C165", "title": "Each port runs only its own pages", "statement": "On every port of the grader, the runner and the broadcaster, a request is handled by the page with the longest registered text for its path, exactly if the path has no empty element, no . and no .. (for the method CONNECT paths are taken as they are) and is not a directory's name without its slash; otherwise it is answered with one redirection to the same place, or with 404 if no page has the path. So the public port of the grader runs only the pages for ephemeral runs and CI, /run/request/ is never mistaken for a result, and every page but metrics and the debugging pages is on one port only.", "quantifier": "all ports, all paths and methods", "why_tests_cant": "all paths, with any number of elements", "anchors": ["cmd/omegaup-grader/main.go:main", "cmd/omegaup-grader/runner_handler.go:registerRunnerHandlers", "cmd/omegaup-grader/frontend_handler.go:registerFrontendHandlers", "cmd/omegaup-grader/ephemeral.go:registerEphemeralHandlers", "cmd/omegaup-grader/ci.go:registerCIHandlers", "cmd/omegaup-broadcaster/main.go:main"]}
{"id": "C166", "title": "Only programs with a certificate reach the internal ports", "statement": "Unless started with -insecure, the grader answers requests on the ports for runners and the frontend, and the broadcaster those on its API port, only of clients that show a certificate issued by the configured one; the same holds for the public ports unless they are marked as proxied. The configuration with its passwords is shown on the frontend port and the API port only. The name recorded for a runner is the one in the certificate that was checked, and there always is one.", "quantifier": "all flags, all clients and certificates, all requests", "why_tests_cant": "all clients and requests", "anchors": ["common/server.go:RunServer", "cmd/omegaup-grader/main.go:peerName", "cmd/omegaup-grader/main.go:main", "cmd/omegaup-broadcaster/main.go:main", "common/context.go:Config.String"]}
{"id": "C167", "title": "Results are filed under the attempt they were sent for", "statement": "Results are accepted under exactly the path a runner makes from the attempt id of its run, for that attempt, from the runner the run was given to. (False: anything may stand before /run/N/results and after it, a number that does not fit 64 bits means the greatest attempt, and no sender is refused. Proved: the path a runner makes means its attempt for every attempt id; which attempt any path means, exactly; that only the path decides.)", "quantifier": "all paths, all attempt ids, all senders", "why_tests_cant": "all paths and 64-bit numbers", "anchors": ["cmd/omegaup-grader/runner_handler.go:registerRunnerHandlers /run/", "cmd/omegaup-runner/main.go:processRun"]}
{"id": "C168", "title": "An input is looked up as it was asked for", "statement": "The request a runner makes for an input of a problem whose name has only letters, digits, _ and - (or of no problem) reaches the page for inputs and is looked up as exactly that problem and input. Whatever path is sent, an input is only looked up by 40 hexadecimal digits and in a problem with such a name, both taken from the path. For a problem with another name the answer is 404, except that a name beginning with 40 hexadecimal digits is looked up as an input.", "quantifier": "all problem names and hashes, all paths", "why_tests_cant": "all names and paths", "anchors": ["cmd/omegaup-grader/runner_handler.go:registerRunnerHandlers /input/", "runner/input.go:InputFactory.NewInput"]}
{"id": "C169", "title": "A finished CI report stays", "statement": "Once the report of a commit is final it is never replaced by another one, it is still served after the grader was killed and started again, and it goes away only when the cache evicts or refuses it. (False: a second request that looked for the report before it was first written starts the run over when the first is finished; the report of a commit that cannot be tested, skipped or with unreadable settings, is removed by the next restart, as its stamp is never removed. Proved: a report that no request or worker is about to write stays through every sequence of requests, steps, kills and restarts until a removal of the directory; the one of a run that was carried through survives every number of restarts unless it is evicted or refused.)", "quantifier": "all sequences of requests, worker steps, evictions, kills and restarts", "why_tests_cant": "depends on the interleaving of requests with the worker and on where the process is killed", "anchors": ["cmd/omegaup-grader/ci.go: ServeHTTP, processCIRequest, run, addRunToCache"]}
{"id": "C170", "title": "A commit is tested once at a time", "statement": "At no time are two requests for the same commit accepted and unfinished. (False: a request before the start-up scan reaches its directory loses its stamp to the scan; a directory left without stamp and report by a kill is taken into the cache and may be evicted while the commit is tested; in both cases a second request is accepted. Proved: it holds for every history in which no removal of the directory begins while an accepted request is unfinished, the stamp being there as long as there is one; and every such removal does let a second one in.)", "quantifier": "all sequences of requests, worker steps, evictions, kills and restarts", "why_tests_cant": "depends on the interleaving of requests with the worker and the start-up scan", "anchors": ["cmd/omegaup-grader/ci.go: ServeHTTP, processCIRequest, run"]}
{"id": "C171", "title": "A judge error is the judge's, a compile error the submission's", "statement": "A runner reports a submission as a judge error exactly if the judge could not do its work (the input cannot be had, the sandbox is not supported, preparing the files failed, the compiler could not be run) or one of its cases ended as a judge error, which takes a judge error of the sandbox or a failure of the problem setter's own process while the submission's did not fail; it reports a compile error exactly if the judge did its work and the files were refused or the first program that does not compile was really compiled. A verdict found by grading is delivered as it was found.", "quantifier": "all problems, submissions, answers of the sandbox and failures of the judge", "why_tests_cant": "ranges over all failures of the sandbox and the file system at every stage, combined with all results of grading", "anchors": ["runner/runner.go:443-1257 Grade", "cmd/omegaup-runner/main.go:509-591 gradeAndUploadResults", "cmd/omegaup-runner/main.go:593-641 gradeRun"]}
{"id": "C172", "title": "Every run comes to an end unless an upload and a timeout race", "statement": "As long as no upload or timeout concerns an attempt that is no longer registered or a run that is being requeued or closed at that moment, at most 22 + 14\u00b7MaxGradeRetries operations are ever done on a submitted run; as long as it is not over, one more is possible (a runner can take it from the queue, its timer can fire, or a goroutine holding it can go on); and if such operations are not put off for ever, the run comes to its end and stays there: closed, in no queue, in nobody's hands, reported as removed exactly once, its Ready channel closed unless its files could not be written, and post-processed if results were uploaded, with the same exception.", "quantifier": "all infinite executions without races, all numbers of runs, runners and uploads, all failures of uploads, disks and queues", "why_tests_cant": "a liveness property of all infinite interleavings: no finite test can show that a run does not circulate for ever", "anchors": ["grader/queue.go:340-495 RunContext.Close, Requeue", "grader/queue.go:545-760 Queue.AddRun, InflightMonitor.Add, Get, Remove", "cmd/omegaup-grader/runner_handler.go:197-222"]}
{"id": "C173", "title": "Scores stay in range whatever the weights", "statement": "Whatever weights the settings of a problem give to its cases, the score of a run is between 0 and 1 and its points are the sum of those of its groups. (False: the settings are decoded without looking at the weights. With weights 3 and -5 a partly wrong submission gets three times the maximum score, with -1 and 2 less than nothing, and with weights 0 an accepted submission gets the maximum although its groups are worth nothing. Proved: the exact maximum scores, group scores and run score for weights of any sign.)", "quantifier": "all problems with any rational weights, all submissions", "why_tests_cant": "the values of weights, outputs and validator scores are unbounded", "anchors": ["runner/runner.go:471-482, 1050-1221 Grade", "common/problemsettings.go:77-94 CaseSettings.UnmarshalJSON"]}
{"id": "C174", "title": "The clocks in the trace of a run can be matched", "statement": "Whenever a run is handed out, the grader's clock-sync event and the one that comes back in the runner's trace carry the same id, no two hand-outs share one, and the trace file of the run has the grader's event for each one of a runner. (False in the last part: the grader records its event after it has sent the run, so if the results come back and the run is closed before, the file lacks it. Proved: ids are distinct, arrive unchanged through header and JSON, appear once each and only in the trace of their run; exactly which events the file has.)", "quantifier": "all interleavings of any number of handlers, runners, uploads and closings, any seed of the counter, up to 2^53 - 2^32 hand-outs", "why_tests_cant": "an interleaving of the handler with the upload decides; no test enumerates them", "anchors": ["common/tracing.go:39-52, 97-117, 231-240, 350-364 NewSyncID, NewIssuerClockSyncEvent, NewReceiverClockSyncEvent", "cmd/omegaup-grader/runner_handler.go:178-194", "cmd/omegaup-runner/main.go:478-482", "grader/queue.go:436-455 RunContext.Close"]}
{"id": "C175", "title": "The phases in a runner's trace are well nested", "statement": "The trace that a runner sends back for a run has, whatever fails and however the programs of a case overlap, an end for every phase that begins, properly nested; if all programs compile, it has in the run phase, for each executed case in order, exactly one event per program that ran and after them one for the case, and no event of a program is ever collected later. If a program does not compile the trace ends there, and nothing waits for ever on the results of the programs.", "quantifier": "all submissions, outcomes of fetching, set-up and compilation, lists of cases and programs, and interleavings of the goroutines that run the programs of a case", "why_tests_cant": "the order in which concurrent programs end varies; no test enumerates it", "anchors": ["runner/runner.go:737-794, 880-1001, 1072-1075, 1222, 1243-1244 Grade", "cmd/omegaup-runner/main.go:477-482, 593-641 gradeRun", "common/tracing.go:379-397"]}
{"id": "C176", "title": "The hash of a download covers all of it, and its length is its length", "statement": "A reader that hashes what passes through it gives as sum the hash of the whole stream and as length the number of its bytes, however the stream is split into reads and wherever reading stopped; so an input that arrives at a runner is accepted exactly if the hash of everything that arrived, including what comes after the end of the archive, is the one announced. (False of the length: bytes that the sum itself had to read count twice. Proved: the sum, the exact length, the acceptance; and that the embedded archives of the benchmark are compared only with themselves.)", "quantifier": "all streams, splits into reads and points where reading stops", "why_tests_cant": "all splits and stopping points, of streams of any size", "anchors": ["common/inputmanager.go:378-427 HashReader", "runner/input.go:189, 257-263, 426-448 persistFromTarStream, runnerTarInput.Persist"]}
{"id": "C177", "title": "The delay summaries report how long runs wait", "statement": "Each value of grader_queue_<priority>_delay_seconds is the time a run waited in the queue of that priority, with one value for each time it was handed out; grader_queue_delay_seconds has one value per finished run, the time from its creation to its end. (True of the number of values and of the total; false of the values: they run from the first time the run was queued to the end of the attempt, so they contain the time runners took, and after a retry all of the earlier attempts; and they are 292 years if the attempt ends before the time was noted.)", "quantifier": "all interleavings of submissions, hand-outs, uploads, time-outs, retries and closings, all passages of time between any two operations", "why_tests_cant": "a test observes a few schedules with short times", "anchors": ["grader/queue.go:InflightMonitor.Remove", "grader/queue.go:Queue.enqueueBlocking", "grader/queue.go:RunContext.Close", "cmd/omegaup-grader/main.go:queueEventsProcessor"]}
{"id": "C178", "title": "The processes in a trace can be told apart", "statement": "In the trace of a run every event comes after events that name its process and its thread, by the names its numbers were made of; processes with different names (host and role) never have the same number. (The number is a 32-bit hash: grader and runner of one host never collide, nor do hosts whose names differ in one byte; other hosts can.)", "quantifier": "all host names, roles, events, uploaded traces and points where they were cut off", "why_tests_cant": "Tests cannot go through all host names: that grader and runner never collide, and that hosts can, is a fact about the hash.", "anchors": ["common/tracing.go:NewEventFactory,Register", "common/context.go:NewContext,DebugContext", "cmd/omegaup-grader/runner_handler.go:processRun"]}
{"id": "C179", "title": "The broadcaster's counters count what they say", "statement": "messages_total is the number of accepted messages that were taken from the queue, each once; channel_drop_total is the number of writes to a channel that failed (a message, a subscription or a departure that was refused, or a subscriber whose buffer was full); process_latency_seconds has exactly one observation for every message that was sent to the broadcaster, accepted or not, but for those still waiting or being given to the subscribers; dispatch_latency_seconds has one for every message given to a connection.", "quantifier": "all interleavings of handlers, the broadcaster's loop and the subscribers' goroutines; all queue lengths, subscribers and messages", "why_tests_cant": "The counters are written by many goroutines; whether each event is counted once and none twice is a fact about all interleavings.", "anchors": ["broadcaster/subscriber.go:Broadcaster.Run,Broadcast,Subscribe,Unsubscribe", "broadcaster/transport.go:Send", "cmd/omegaup-broadcaster/metrics.go"]}
{"id": "C180", "title": "A browser sees exactly the broadcasts meant for it", "statement": "Whatever the broadcaster, the other subscribers and the network do, what the browser of a subscriber that uses Server-Sent Events has dispatched are the first so many of the messages that its filters accept among those processed since it joined and until it was removed, in order and unchanged, provided no message has line ends (those of the grader have none); all of them when nothing is pending and its connection works. Every event it dispatches was said to the broadcaster and is accepted by its filters; if it announces a finished run, the subscriber is an administrator or the submitter.", "quantifier": "all executions of the broadcaster with any subscribers, filters and messages; all failed writes, pings and points where connections are cut", "why_tests_cant": "Composes the loops of the broadcaster and of each subscriber with the reader in the browser: unbounded interleavings, and every cut point.", "anchors": ["broadcaster/subscriber.go:Broadcaster.Run,Subscriber.Run,Matches", "broadcaster/transport.go:SSETransport", "broadcaster/filter.go", "cmd/omegaup-grader/frontend_handler.go:broadcastRun"]}
{"id": "C181", "title": "An ephemeral run is judged with the files of its request", "statement": "When a literal input is accepted and a runner fetches the archive that the grader made of it, maybe damaged on the way, and reports no error, then the directory it judges from holds exactly the files of the request: the input and the output of every case under the case's name, the validator's source, the interactive part's main file and interface, and the settings, and nothing else; the settings are the ones the grader made, the size is the announced one, and nothing else on the runner's disk changes. An intact archive of an accepted request is always unpacked.", "quantifier": "all literal inputs, orders in which maps are visited, contents, damaged answers, and disks of the runner on which nothing is left of an earlier attempt", "why_tests_cant": "Composes the grader's builder with the runner's unpacking for an unbounded number of cases with arbitrary names; collisions only show for particular names.", "anchors": ["common/literalinput.go:NewLiteralInputFactory,createTar,Transmit", "runner/input.go:Input.Persist,persistFromTarStream"]}
{"id": "C182", "title": "A runner grades a submission the same however many cases it has", "statement": "The result of a submission depends on its answers, not on the number of files that the runner's process may have open: as long as there are descriptors for the files that are compared and sent one at a time, a problem with any number of cases gets the result that grading without a limit gives, and the generated files that are there are all sent.", "quantifier": "all problems with any number of groups and cases, results of their processes and contents of files, and all histories of the number of descriptors that the rest of the process leaves", "why_tests_cant": "It takes a problem with more cases than the limit allows, or other runs that hold descriptors at the time; the dependence on the number of cases has no bound that a test could exhaust.", "anchors": ["runner/runner.go:Grade,uploadFiles,createZipFile", "cmd/omegaup-runner/main.go:gradeAndUploadResults"]}
{"id": "C183", "title": "Nothing of a run stays on the runner", "statement": "However many runs a runner grades one after the other, and whatever the programs, the steps of setting up and the validations do: every run finds its directory empty and the cached inputs as they were, nothing outside of its directory changes while it is graded, and when it is over all files are as they were before, so nothing of a submission can be found by a later one and each is graded as if it were the first. This is also so if the runner is killed and started again.", "quantifier": "all sequences of jobs, outcomes of all their steps, writes and validations, and kills", "why_tests_cant": "It is a statement about the whole history of a runner, with hard links into the shared inputs in every run; tests grade one run in a new directory.", "anchors": ["runner/runner.go:Grade", "cmd/omegaup-runner/main.go:main,processRun"]}

{"id": "C01", "title": "Transaction de-duplication window is exact", "statement": "CheckTransactions counts a transaction as already seen if and only if it was last recorded as new no more than the cache duration before the current call (or earlier in the same call); being seen again does not extend the window.", "quantifier": "every sequence of CheckTransactions/CheckBlock calls with arbitrary transaction lists (including repeats inside a call), every cache duration, every non-decreasing clock", "why_tests_cant": "Depends on the whole history of calls and on exact time differences; tests sample a few ids and sleep a few seconds.", "anchors": ["internal/p2p/transaction_cache.go: CheckTransactions, CheckBlock, pruneTransactions, addTransactionItem"]}
{"id": "C02", "title": "Transaction cache never panics and never keeps expired or duplicate entries", "statement": "With a clock that never goes backwards CheckTransactions never panics, and after every call the cache holds exactly one record per remembered transaction and no record older than the cache duration.", "quantifier": "every sequence of calls with a non-decreasing clock", "why_tests_cant": "The panic guard and the prefix-pruning shortcut are only correct because of a sortedness invariant over the whole history.", "anchors": ["internal/p2p/transaction_cache.go: addTransactionItem, pruneTransactions"]}
{"id": "C03", "title": "A transaction is submitted to the chain at most once per cache window", "statement": "Two submissions of the same transaction id to the chain through ApplyTransaction are always more than the cache duration apart, and a transaction contained in an accepted block is not submitted within the cache duration after the block broadcast was processed. (Refuted as stated: a worker can pause between consulting the cache and submitting, and a hit does not renew the record, so a transaction seen before the block may be let through soon after it. Proved: the decisions to submit are more than the cache duration apart, the number of submissions is bounded by elapsed time over the cache duration plus one, and after a block the wait holds unless the id was already in the cache.)", "quantifier": "every interleaving of ApplyTransaction callers, worker jobs, chain replies and block broadcasts", "why_tests_cant": "Needs every schedule of the worker pool; a race would show only under particular interleavings.", "anchors": ["internal/p2p/applicator.go: ApplyTransaction, handleApplyTransaction, handleBlockBroadcast, Start", "internal/p2p/transaction_cache.go: CheckTransactions"]}
{"id": "C04", "title": "ApplyTransaction succeeds only for transactions the chain accepted", "statement": "If ApplyTransaction returns no error then the chain accepted that transaction. (Refuted: a repeated transaction is reported as success even if its first submission was rejected; what holds is that a success means the chain accepted it or the id was already in the cache.)", "quantifier": "every interleaving of callers, workers and chain verdicts", "why_tests_cant": "Requires all histories in which a rejected transaction is gossiped again.", "anchors": ["internal/p2p/applicator.go: ApplyTransaction, handleApplyTransaction"]}
{"id": "C05", "title": "Fork-bomb detection threshold is exact", "statement": "Adding a block is refused as a fork bomb if and only if, counting this block, more than three distinct block ids with the same height, signer and parent have been added since that height was last purged; repeats of the same id never count twice and other heights/signers/parents never matter.", "quantifier": "every sequence of Add and Purge operations", "why_tests_cant": "The verdict depends on the entire history and on distinctness of ids.", "anchors": ["internal/p2p/fork_watchdog.go: Add, Purge"]}
{"id": "C06", "title": "Purging forgets exactly the heights at or below irreversibility", "statement": "After Purge(lib) the detector behaves as if no block at height <= lib had ever been added, and its verdicts for heights above lib are unchanged, whatever order the heights were inserted in.", "quantifier": "every history before the purge and every history after it", "why_tests_cant": "Sort-and-break loop over a map with arbitrary iteration order; requires all histories.", "anchors": ["internal/p2p/fork_watchdog.go: Purge"]}
{"id": "C07", "title": "Fork-bomb detector memory", "statement": "The number of block ids remembered never exceeds the number of distinct blocks added above the last purge height plus those added since; (refuted as a constant bound: between irreversibility updates it grows without limit with distinct blocks, even from one signer, and flagged blocks are still remembered).", "quantifier": "every history of Add and Purge", "why_tests_cant": "A growth bound is a statement about all history lengths.", "anchors": ["internal/p2p/fork_watchdog.go: Add, Purge"]}
{"id": "C08", "title": "Every block application request is answered at most once and never lost", "statement": "Every ApplyBlock request is at every moment in exactly one of three situations: still queued, held by exactly one waiting block, or answered exactly once. No request is dropped and no request receives two answers (so no send on a closed channel and the answer never blocks).", "quantifier": "every interleaving of callers, the main loop, the worker pool, delays, chain verdicts, block broadcasts and irreversibility updates", "why_tests_cant": "Exactly-once delivery must hold for all schedules.", "anchors": ["internal/p2p/applicator.go: ApplyBlock, handleNewBlock, addBlockEntry, removeBlockEntry, handleBlockStatus, handleForkHeads"]}
{"id": "C09", "title": "A block id is never submitted to the chain twice concurrently", "statement": "At no time are two chain submissions for the same block id in progress simultaneously.", "quantifier": "every interleaving of requests, retries (forced or not), duplicate blocks and worker jobs", "why_tests_cant": "A duplicate submission would need a rare interleaving.", "anchors": ["internal/p2p/applicator.go: handleTryBlockApplication, handleBlockStatus"]}
{"id": "C10", "title": "Irreversible heights are never submitted", "statement": "Whenever a block is submitted to the chain its height is above the last irreversible height the applicator knew at that moment. (Refuted: the height is compared first and the chain is called afterwards; an irreversibility update handled in between makes the node submit a block it knows to be irreversible. Proved: before every submission, once for each, the height was found to be above the irreversible height then known, and only updates handled between that comparison and the call can have changed that; a block found irreversible is never submitted.)", "quantifier": "every schedule in which irreversibility advances while blocks are queued", "why_tests_cant": "The check races with the update of the irreversible height.", "anchors": ["internal/p2p/applicator.go: handleApplyBlock, handleForkHeads"]}
{"id": "C11", "title": "Irreversibility updates evict exactly the outdated waiting blocks", "statement": "After an irreversibility update to height L no waiting block has height <= L, every request on an evicted block is answered with the irreversibility error, and blocks above L keep waiting with all their requests. Between updates no waiting block is ever at or below the irreversible height.", "quantifier": "every reachable state and every update (including updates that move backwards)", "why_tests_cant": "The code only scans heights between the old and the new value, which is right only because of an invariant over all histories.", "anchors": ["internal/p2p/applicator.go: handleForkHeads, handleNewBlock, removeBlockEntry"]}
{"id": "C12", "title": "The number of waiting blocks is bounded", "statement": "The number of distinct blocks waiting for application never exceeds MaxPendingBlocks.", "quantifier": "every history of requests and events, every configured limit", "why_tests_cant": "A bound over all histories.", "anchors": ["internal/p2p/applicator.go: handleNewBlock", "internal/options/applicator_options.go: MaxPendingBlocks"]}
{"id": "C13", "title": "Admission decision for new blocks is exact", "statement": "A new block is refused with the max-height error iff its height exceeds the highest known height plus the allowed delta; otherwise with the too-many-pending error iff the limit is reached; otherwise with the irreversibility error iff its height is not above the irreversible height; otherwise it is admitted and no error is sent.", "quantifier": "every state and block, including 64-bit boundary heights", "why_tests_cant": "Priority between the three errors and boundary values over 2^64 heights.", "anchors": ["internal/p2p/applicator.go: handleNewBlock"]}
{"id": "C14", "title": "ApplyBlock succeeds only if the chain accepted the block id", "statement": "If ApplyBlock returns no error then the chain accepted a block with that id. (Refuted: a block too far in the future is reported as success when its waiting time-out expires, although it was never submitted. Proved under the hypothesis that no such time-out fired for that id.)", "quantifier": "every interleaving and every timestamp", "why_tests_cant": "Needs the schedule in which the delay time-out fires first.", "anchors": ["internal/p2p/applicator.go: handleTryBlockApplication, handleBlockStatus"]}
{"id": "C15", "title": "A caller's verdict concerns the block that caller submitted", "statement": "The error returned to an ApplyBlock caller is determined by the block contents the caller passed. (Refuted: blocks are keyed by their unverified id, so a different block carrying the same id can make an honest caller's valid block fail, or a forged one succeed. Proved: when all requests with the same id carry identical contents the verdict comes from a submission of exactly those contents.)", "quantifier": "every set of concurrent callers, including malicious ones that reuse ids", "why_tests_cant": "Attack schedules are not covered by unit tests.", "anchors": ["internal/p2p/applicator.go: addBlockEntry, tryBlockApplication, handleBlockStatus"]}
{"id": "C16", "title": "Blocks are not submitted prematurely", "statement": "A block is scheduled for submission only if, at scheduling time, its height is at most one above the highest known block and its parent is not being applied, or its parent was just reported applied, broadcast as accepted or listed as a fork head, or it is a retry of an earlier scheduled submission.", "quantifier": "every interleaving", "why_tests_cant": "Provenance of every submission over all histories.", "anchors": ["internal/p2p/applicator.go: addBlockEntry, checkBlockChildren, handleTryBlockApplication, handleBlockStatus"]}
{"id": "C17", "title": "An accepted block wakes all its waiting children", "statement": "When a block is applied successfully, broadcast as accepted, or reported as fork head, every block waiting on it as parent is scheduled for application in that same step, and no non-child is.", "quantifier": "every reachable state", "why_tests_cant": "Relies on the consistency of three indexes over all histories.", "anchors": ["internal/p2p/applicator.go: checkBlockChildren, handleBlockStatus, handleBlockBroadcast, handleForkHeads"]}
{"id": "C18", "title": "No lost wake-up", "statement": "If a block's parent is accepted while the block waits, the block is submitted again after that moment. (Refuted for blocks older than the force threshold: the wake-up is dropped if the block is itself being applied. Proved for recent blocks: the forced wake-up survives until the block is submitted or removed.)", "quantifier": "every interleaving of the child's own submission and its parent's acceptance", "why_tests_cant": "A lost wake-up needs a precise interleaving.", "anchors": ["internal/p2p/applicator.go: handleTryBlockApplication, checkBlockChildren"]}
{"id": "C19", "title": "Future-dated blocks are held back", "statement": "A block is not submitted to the chain while its timestamp is more than DelayThreshold in the future. (Refuted by less than one second because the millisecond part of the timestamp is interpreted as nanoseconds; proved with one second of slack, and exactly for whole-second timestamps.)", "quantifier": "every timestamp, clock and schedule", "why_tests_cant": "All 64-bit timestamps and all delays.", "anchors": ["internal/p2p/applicator.go: handleTryBlockApplication", "internal/options/applicator_options.go: DelayThreshold, DelayTimeout"]}
{"id": "C20", "title": "Verdict handling", "statement": "On a chain verdict: block-state errors reschedule the block and keep its requests; unknown-previous errors keep the block waiting; every other verdict answers all requests on that id with that verdict and forgets the block; success additionally schedules the children.", "quantifier": "every reachable state and every (possibly wrapped) error", "why_tests_cant": "All states and error shapes.", "anchors": ["internal/p2p/applicator.go: handleBlockStatus"]}
{"id": "C21", "title": "No waiting block is silently abandoned", "statement": "Every waiting block is scheduled for submission, or being applied, or was deferred on arrival because its height was too high or its parent was being applied, or the chain's last verdict on it was unknown-previous-block.", "quantifier": "every reachable state", "why_tests_cant": "A stuck block is visible only in particular schedules.", "anchors": ["internal/p2p/applicator.go: addBlockEntry, handleTryBlockApplication, handleBlockStatus"]}
{"id": "C22", "title": "Bookkeeping does not leak", "statement": "Every piece of bookkeeping kept about blocks belongs to a block that is currently waiting: when no block is waiting no lookup table keeps any record, and every lookup table agrees with the set of waiting blocks.", "quantifier": "every reachable state", "why_tests_cant": "Leak freedom over unbounded histories.", "anchors": ["internal/p2p/applicator.go: addBlockEntry, removeBlockEntry"]}
{"id": "C23", "title": "Error scores are kept per network address", "statement": "Errors and queries concerning one IP address never change the error score, connect permission or disconnect decision of another; all peers and ports behind one address share one score.", "quantifier": "every history of errors and queries, every decay function", "why_tests_cant": "Non-interference is a statement about pairs of histories.", "anchors": ["internal/p2p/error_handler.go: handleError, handleCanConnect, handleGetPeerErrorScore"]}
{"id": "C24", "title": "A peer is disconnected exactly when its score reaches the threshold", "statement": "Processing a peer error requests disconnection of that peer iff the decayed previous score of its address plus the score of this error is at least ErrorScoreThreshold.", "quantifier": "every history, error and option set", "why_tests_cant": "All score histories and option values.", "anchors": ["internal/p2p/error_handler.go: handleError, getScoreForError"]}
{"id": "C25", "title": "Connection permission", "statement": "A connection to an address is allowed iff that address has no recorded error or its decayed score is below the reconnect threshold; without further errors, once allowed it stays allowed.", "quantifier": "every history of errors and queries", "why_tests_cant": "All histories.", "anchors": ["internal/p2p/error_handler.go: CanConnect, CanConnectAddr, InterceptPeerDial, InterceptAddrDial, InterceptAccept, InterceptSecured, InterceptUpgraded"]}
{"id": "C26", "title": "Severe errors ban at once, for exactly two half-lives", "statement": "With default options one chain-id mismatch, disconnected chain, checkpoint mismatch, fork bomb or protocol mismatch disconnects the peer whatever the history, and a fresh offender is refused at every later instant up to and including two half-lives and admitted at the first query after that.", "quantifier": "every history, every elapsed time", "why_tests_cant": "Continuous time and all histories.", "anchors": ["internal/p2p/error_handler.go: decayErrorScore, getScoreForError", "internal/options/error_handler_options.go: NewPeerErrorHandlerOptions"]}
{"id": "C27", "title": "Score decay is a half-life law independent of how often it is read", "statement": "The score after elapsed time t is the recorded score halved every half-life. (Refuted exactly: every read truncates, so reading or knocking often removes at least one point per read and lifts a ban early. Proved: after n reads the score is at most the ideal value and more than the ideal value minus n.)", "quantifier": "every sequence of read times", "why_tests_cant": "All interleavings of reads and times.", "anchors": ["internal/p2p/error_handler.go: decayErrorScore, handleCanConnect, handleGetPeerErrorScore"]}
{"id": "C28", "title": "Error scores do not wrap around", "statement": "An address's score never exceeds the sum of the scores of the errors reported for it, and no wrap-around of the 64-bit score occurs as long as that sum is below 2^64. (Wrap-around beyond is shown to grant an offender a low score.)", "quantifier": "every history whose total score is below 2^64", "why_tests_cant": "2^64 boundary.", "anchors": ["internal/p2p/error_handler.go: handleError"]}
{"id": "C29", "title": "Error classification", "statement": "Every error receives exactly one score: the option associated with the sentinel it wraps, the unknown-error score if it wraps none with an associated option; wrapping adds context but never changes the score.", "quantifier": "every error value, every wrapping depth, every option set", "why_tests_cant": "Unbounded wrapping.", "anchors": ["internal/p2p/error_handler.go: getScoreForError", "internal/p2perrors/errors.go"]}
{"id": "C30", "title": "Every misbehaving peer is held to account", "statement": "Every error reported for a peer raises the score of its address. (Refuted: an error is ignored if the peer has no tracked connection when it is processed; proved for peers with a known address.)", "quantifier": "every history", "why_tests_cant": "Races between disconnection and error processing.", "anchors": ["internal/p2p/error_handler.go: handleError", "internal/p2p/connection_manager.go: handleGetPeerAddress"]}
{"id": "C31", "title": "Gossip scoring is consistent with connection gating", "statement": "With default options a peer is ignored by gossip (below the gray-list threshold) iff its error score exceeds the reconnect threshold by more than one, hence any gossip-ignored peer is also refused new connections; peer exchange is accepted iff the score is at most reconnect threshold minus 5000.", "quantifier": "every error score", "why_tests_cant": "All 64-bit scores.", "anchors": ["internal/node/node.go: NewKoinosP2PNode AppSpecificScore, PeerScoreThresholds"]}
{"id": "C32", "title": "Gossip toggle decision", "statement": "After every periodic check gossip is enabled iff there is at least one connection and the head block time is at most 45 seconds behind the wall clock.", "quantifier": "every sequence of head updates, connection counts and clock readings (timestamps below the 64-bit nanosecond limit)", "why_tests_cant": "All histories.", "anchors": ["internal/p2p/gossip_toggle.go: Start, UpdateHeadTime, IsEnabled"]}
{"id": "C33", "title": "Gossip toggle drives the gossip service consistently", "statement": "Enable and disable commands strictly alternate starting with enable, IsEnabled always equals the last command, always-enable issues exactly one enable and wins over always-disable, always-disable issues none.", "quantifier": "every history and option setting", "why_tests_cant": "All histories.", "anchors": ["internal/p2p/gossip_toggle.go: Start, IsEnabled", "cmd/koinos-p2p/main.go: main"]}
{"id": "C34", "title": "Connection queries reflect the real connections", "statement": "IsConnected, GetNumConnections and GetPeerAddress agree with the set of peers that have an open connection. (Refuted when a peer has two connections and one closes: the peer is forgotten while connected. Proved when no peer has two simultaneous connections.)", "quantifier": "every sequence of connect/disconnect notifications and queries", "why_tests_cant": "All notification orders.", "anchors": ["internal/p2p/connection_manager.go: handleConnected, handleDisconnected, handleGetNumConnections, handleIsConnected, handleGetPeerAddress"]}
{"id": "C35", "title": "One sync session per connected peer", "statement": "At any time each tracked peer has exactly one uncancelled sync session, untracked peers have none, and sessions are never revived after cancellation.", "quantifier": "every sequence of notifications", "why_tests_cant": "All notification orders.", "anchors": ["internal/p2p/connection_manager.go: handleConnected, handleDisconnected, managerLoop"]}
{"id": "C36", "title": "The connection manager starts serving", "statement": "After Start the connection manager eventually serves notifications and queries. (Refuted: if any peer is already connected when Start runs, no schedule ever reaches the serving loop. Proved when no peer is connected.)", "quantifier": "every schedule of the start-up goroutine and notifications", "why_tests_cant": "Deadlock freedom over all schedules.", "anchors": ["internal/p2p/connection_manager.go: Start, managerLoop, Connected"]}
{"id": "C37", "title": "Handshake admits exactly matching peers", "statement": "The handshake succeeds iff the protocol version is readable (or missing), both chain ids are available and equal, the peer reports its head and every configured checkpoint block is an ancestor of that head at its height; each failure is reported with its documented error.", "quantifier": "every combination of replies and every checkpoint list", "why_tests_cant": "Unbounded checkpoint lists and reply combinations.", "anchors": ["internal/p2p/peer_connection.go: handshake"]}
{"id": "C38", "title": "Protocol version reading", "statement": "The version lookup is decided by the first conclusive value: a non-text value, wrong prefix or unparsable version is a mismatch, a parsable one is returned, and if no conclusive value appears before the time-out the version is reported missing; a node's own advertised string is accepted.", "quantifier": "every sequence of values observed before the time-out and every string", "why_tests_cant": "Unbounded retry sequences.", "anchors": ["internal/p2p/connection_manager.go: GetProtocolVersion, readProtocolVersion", "internal/p2p/protocol_version.go"]}
{"id": "C39", "title": "Sync requests stay in the right window", "statement": "Blocks are requested from a peer only if its head is above our irreversible block, its head is unknown to us and (above genesis) our irreversible block is an ancestor of its head; the request starts right after our irreversible block and asks for min(head - lib, batch size) blocks (taken modulo 2^32 on the wire, hence exactly the minimum for batch sizes below 2^32).", "quantifier": "every combination of heights, replies and options", "why_tests_cant": "All 64-bit heights.", "anchors": ["internal/p2p/peer_connection.go: requestSyncBlocks", "internal/options/peer_connection_options.go"]}
{"id": "C40", "title": "Synced blocks are applied in order, stopping at the first real failure", "statement": "Blocks returned by a peer are handed over in the order received; already irreversible ones are skipped, the first other failure stops the batch and is reported with its class; without such a failure all are handed over.", "quantifier": "every batch length and every sequence of outcomes", "why_tests_cant": "Unbounded batches.", "anchors": ["internal/p2p/peer_connection.go: requestSyncBlocks"]}
{"id": "C41", "title": "A malicious peer cannot crash the sync loop", "statement": "Whatever a peer returns, a sync round terminates with a result. (Refuted: a block without header crashes the process. Proved: no crash if all blocks carry a header and the batch size is positive and fits 32 bits.)", "quantifier": "every peer reply", "why_tests_cant": "Adversarial replies.", "anchors": ["internal/p2p/peer_connection.go: requestSyncBlocks", "internal/p2p/fork_watchdog.go: Add", "internal/rpc/peer_rpc.go: GetBlocks"]}
{"id": "C42", "title": "Synced status", "statement": "After a successful batch the session is considered synced iff the last received block is within SyncedBlockDelta of the peer's head, with 64-bit wrap-around if the peer reports a last block above its head; after 'nothing to do' rounds it is synced; after failed rounds the status is unchanged. A new session is not synced, and nothing but its rounds changes that.", "quantifier": "every reply and option value", "why_tests_cant": "Wrap-around boundary.", "anchors": ["internal/p2p/peer_connection.go: requestSyncBlocks, connectionLoop"]}
{"id": "C43", "title": "Session life-cycle", "statement": "A session never syncs before a successful handshake, performs no further handshake afterwards, reports exactly one peer error per failed attempt, and does nothing after cancellation. (Refuted in the last part: when the sync timer and the cancellation are ready at the same moment one more round can start. Proved: everything else, and nothing at all after the session has ended; the session can always end once cancelled.)", "quantifier": "every schedule of outcomes and cancellation", "why_tests_cant": "All traces.", "anchors": ["internal/p2p/peer_connection.go: Start, connectionLoop"]}
{"id": "C44", "title": "Block transfer between peers is faithful", "statement": "GetBlocks against an honest service returns exactly the requested blocks in order, and returns an error if the number of blocks differs (modulo 2^32) from the number requested or any block does not decode.", "quantifier": "every block list and request size", "why_tests_cant": "Unbounded lists.", "anchors": ["internal/rpc/peer_rpc.go: GetBlocks", "internal/rpc/peer_rpc_service.go: GetBlocks"]}
{"id": "C45", "title": "Peer RPC failures are classified", "statement": "A peer RPC call that fails is reported as peer-RPC-timeout iff the deadline was exceeded, else as peer-RPC error, and never as any other class.", "quantifier": "every failure value", "why_tests_cant": "All error shapes.", "anchors": ["internal/rpc/peer_rpc.go"]}
{"id": "C46", "title": "Chain verdicts are classified faithfully", "statement": "Submitting a block succeeds iff the chain answered with the block-submission response; otherwise the error is the one associated with the first recognised error code in the reply, else a local-RPC error; time-outs, transport, encoding failures have their own classes.", "quantifier": "every reply and list of error details", "why_tests_cant": "Unbounded detail lists.", "anchors": ["internal/rpc/koinos_rpc.go: ApplyBlock, ApplyTransaction, blockErrorMap, transactionErrorMap"]}
{"id": "C47", "title": "Local RPC calls return a response or an error", "statement": "Every local RPC returns without error iff the request encodes, its size is legal, transport and decoding succeed and the reply is of the requested kind (the two connection probes accept any decodable reply); every error wraps the documented class. (Refuted for requests above 512 MiB, whose error belongs to no class; proved for all other failures.)", "quantifier": "every reply", "why_tests_cant": "All reply shapes.", "anchors": ["internal/rpc/koinos_rpc.go"]}
{"id": "C48", "title": "Gossiped block validation", "statement": "A gossiped block is accepted for relay iff it decodes and either originates from this node or has id, header and previous, is not below the irreversible height and is applied without error; blocks from this node are never re-applied; malformed blocks never crash the node.", "quantifier": "every message and applicator outcome", "why_tests_cant": "All message shapes.", "anchors": ["internal/p2p/gossip.go: validateBlock, applyBlock"]}
{"id": "C49", "title": "Fork bombs received by gossip are punished as fork bombs and blamed on the author", "statement": "When a gossiped block is refused as a fork bomb the message's author receives the fork-bomb score. (Refuted: the error class is lost by re-wrapping, so the relaying peer receives the ordinary block-application score; the refutation holds for every message.)", "quantifier": "every message", "why_tests_cant": "The unit tests never combine gossip, applicator and scoring.", "anchors": ["internal/p2p/gossip.go: validateBlock, applyBlock", "internal/p2p/error_handler.go: getScoreForError"]}
{"id": "C50", "title": "Irreversible gossip is not punished", "statement": "A peer relaying a block that is already irreversible is not penalised. (Refuted at height equal to the irreversible height and when irreversibility advances during processing; proved for heights strictly below.)", "quantifier": "every height pair", "why_tests_cant": "Boundary and race.", "anchors": ["internal/p2p/gossip.go: validateBlock, applyBlock"]}
{"id": "C51", "title": "Gossiped transaction validation", "statement": "A gossiped transaction is accepted for relay iff it decodes and either originates from this node or carries an id and its application returns no error; failures are blamed on the relaying peer as invalid-nonce or transaction-application errors.", "quantifier": "every message and outcome", "why_tests_cant": "All message shapes.", "anchors": ["internal/p2p/gossip.go: validateTransaction, applyTransaction"]}
{"id": "C52", "title": "Nothing is published while gossip is off", "statement": "After gossip has been disabled and before it is enabled again no block or transaction is published. (Refuted: disabling right after enabling leaves a topic enabled when the start-up goroutine runs late. Proved when starts have completed before the stop.)", "quantifier": "every interleaving of start goroutines, stops and publishes", "why_tests_cant": "Race.", "anchors": ["internal/p2p/gossip.go: StartGossip, StopGossip, PublishBlock, PublishTransaction, EnableGossip"]}
{"id": "C53", "title": "Switching gossip off never crashes the node", "statement": "Disabling gossip never causes a panic. (Refuted: the message reader can send on the channel closed by the listener goroutine, at once or with a message buffered before the stop. Proved: no panic while gossip has never been stopped, and none when each reader ends before the listener of its topic. The cancel function tested and used in StopGossip is never cleared in between, unless the node is being closed, C113.)", "quantifier": "every interleaving of reader, listener and stop", "why_tests_cant": "Race.", "anchors": ["internal/p2p/gossip.go: readMessages, startBlockGossip, startTransactionGossip, Stop"]}
{"id": "C54", "title": "The status RPC always answers", "statement": "Every RPC request gets a response: the gossip status (equal to IsEnabled) for a status request and an error response for malformed, empty and unknown requests.", "quantifier": "every request", "why_tests_cant": "All requests.", "anchors": ["internal/node/node.go: handleRPC, handleRequest"]}
{"id": "C55", "title": "Gossip message identity depends only on the payload", "statement": "For block and transaction topics two messages have the same id iff the SHA-256 digests of their payloads are equal; sender, topic and signature do not matter. The id is the standard base64 encoding of the digest without padding.", "quantifier": "every pair of messages", "why_tests_cant": "Injectivity of the encoding over all digests.", "anchors": ["internal/node/node.go: generateMessageID"]}
{"id": "C56", "title": "Node identity is a function of the seed", "statement": "Starting with the same non-empty seed always yields the same key; the derived number depends only on the first eight digest bytes.", "quantifier": "every seed", "why_tests_cant": "All seeds.", "anchors": ["internal/node/node.go: generatePrivateKey, seedStringToInt64"]}
{"id": "C57", "title": "Irreversibility as seen by sync and by the applicator agree", "statement": "Once all updates are processed the applicator's irreversible height equals the node's. (Refuted: updates are forwarded by independent goroutines and may be applied in the wrong order. Proved when updates are processed in order.)", "quantifier": "every interleaving of updates", "why_tests_cant": "Race.", "anchors": ["internal/node/node.go: handleForkUpdate, GetLastIrreversibleBlock", "internal/p2p/applicator.go: HandleForkHeads, handleForkHeads"]}
{"id": "C58", "title": "Checkpoint options mean what they say", "statement": "A well-formed height:hex option yields exactly that checkpoint. (Refuted for malformed options: a bad height or id is logged and silently turned into a different checkpoint, and a missing colon crashes.)", "quantifier": "every option string", "why_tests_cant": "All strings.", "anchors": ["cmd/koinos-p2p/main.go: main"]}
{"id": "C59", "title": "Irreversibility updates terminate", "statement": "Processing an irreversibility update terminates and examines exactly the heights from the old value plus one to the new value, for every pair of 64-bit values except the new value 2^64-1, for which it never terminates.", "quantifier": "every pair of 64-bit heights", "why_tests_cant": "2^64 boundary.", "anchors": ["internal/p2p/applicator.go: handleForkHeads"]}
{"id": "C60", "title": "Seed peers are redialled", "statement": "In every round each of the initial peers is asked about once and exactly those that are not connected are dialled; failures do not stop the round. Until the node's context ends a round begins ten seconds or more after the one before has ended, and as long as questions are answered and dialling ends every initial peer is looked at again and again, for ever.", "quantifier": "every set of initial peers, every order of the map, all answers and outcomes; all fair infinite executions", "why_tests_cant": "All sets, orders and outcomes; endless repetition is a liveness property.", "anchors": ["internal/p2p/connection_manager.go: connectInitialPeers"]}
{"id": "C61", "title": "An abandoned query does not stop the connection manager", "statement": "If the caller of an address, count or connectedness query gives up, the connection manager goes on serving notifications and other queries. (Refuted: a caller that gives up after its query was accepted blocks the manager for ever; proved while no caller gives up in that window.)", "quantifier": "every interleaving of notifications, queries, replies and abandonments", "why_tests_cant": "The window between acceptance and reply is only hit by rare schedules.", "anchors": ["internal/p2p/connection_manager.go: GetPeerAddress, GetNumConnections, IsConnected, handleGetPeerAddress, handleGetNumConnections, handleIsConnected, managerLoop"]}
{"id": "C62", "title": "Redialling ends with the node", "statement": "When the node's context ends, the loop that redials the seed peers ends. (Refuted: with no seed peers it spins without sleeping, with seed peers it blocks for ever in its next query.)", "quantifier": "every execution after cancellation", "why_tests_cant": "Non-termination cannot be observed by a finite test.", "anchors": ["internal/p2p/connection_manager.go: connectInitialPeers, managerLoop"]}
{"id": "C63", "title": "Blocks deferred behind their parent are scheduled when the parent's application ends", "statement": "A block that is deferred because its parent is being applied is scheduled for application when that application ends and the chain has accepted the parent. (Refuted: if the chain's acceptance broadcast is handled before the child arrives and the RPC then times out, the child waits with nothing scheduled. Proved when the application ends without error.)", "quantifier": "every interleaving of arrivals, broadcasts and chain replies", "why_tests_cant": "Needs a broadcast, an arrival and a time-out in one particular order.", "anchors": ["internal/p2p/applicator.go: addBlockEntry, handleBlockStatus, handleBlockBroadcast"]}
{"id": "C64", "title": "Requests for outdated blocks are released", "statement": "Once the irreversible height has reached the height of a requested block, the request is no longer held: it is answered, refused, or not yet looked at. (Refuted for blocks sharing an id with a forged block of larger height; proved when all requests for an id carry the same height.)", "quantifier": "every reachable state", "why_tests_cant": "Resource release over all histories, including malicious ones.", "anchors": ["internal/p2p/applicator.go: handleForkHeads, addBlockEntry"]}
{"id": "C65", "title": "Every ApplyTransaction call is answered once, with the chain's own verdict", "statement": "Each call of ApplyTransaction is at every moment exactly once queued, with a worker, or answered; the answer of a call whose transaction was submitted is the chain's verdict on that transaction, and a call whose transaction was not submitted is answered without error.", "quantifier": "every interleaving of callers, workers, chain replies and block broadcasts", "why_tests_cant": "Lost or crossed answers depend on the schedule of the worker pool and on callers that give up.", "anchors": ["internal/p2p/applicator.go: ApplyTransaction, handleApplyTransaction, Start"]}
{"id": "C66", "title": "Transient handshake failures are not punished as a wrong chain or fork", "statement": "If the handshake reports a chain id or checkpoint mismatch, then the peer answered and its answer really differs. (Refuted: a failed or timed-out chain id query is reported as a chain id mismatch; ancestor queries likewise. Proved when every question is answered.)", "quantifier": "every combination of replies, failures and time-outs", "why_tests_cant": "Needs the failure point and failure kind to be quantified over every question of every checkpoint list.", "anchors": ["internal/p2p/peer_connection.go: handshake", "internal/p2p/errors.go"]}
{"id": "C67", "title": "A peer's request cannot make the node serve more than a bounded number of blocks", "statement": "There is a number N such that no request of a peer makes the node fetch or return more than N blocks. (Refuted: the requested count is passed to the block store unchanged. Proved: the reply is exactly what the block store returns for the request.)", "quantifier": "every request and block store", "why_tests_cant": "Needs all request sizes.", "anchors": ["internal/rpc/peer_rpc_service.go: GetBlocks"]}
{"id": "C68", "title": "Peers are not punished for failures of this node itself", "statement": "A peer that relays a valid block is not penalised when applying the block fails for reasons of this node alone (time-out, full queue, own chain not reachable). (Refuted: every application failure is charged to the relaying peer as a block-application error. Proved: blocks that are not handed to the applicator at all are not charged.)", "quantifier": "every message and every failure of the applicator", "why_tests_cant": "Needs the whole set of failure classes of the applicator and the scoring table.", "anchors": ["internal/p2p/gossip.go: validateBlock", "internal/p2p/error_handler.go: getScoreForError"]}
{"id": "C69", "title": "Different seeds give independent node keys from a large key space", "statement": "The node key of a seed is drawn from a space large enough that it cannot be enumerated. (Refuted: whatever the seed and the digest, the key is determined by a number between 1 and 2^31-2, because the key generator reads from a random source that reduces its seed. Proved: numbers in that range are kept apart.)", "quantifier": "every seed and digest function", "why_tests_cant": "A statement about the image of a function on all strings.", "anchors": ["internal/node/node.go: seedStringToInt64, generatePrivateKey"]}
{"id": "C70", "title": "Malformed peer options do not stop the node", "statement": "A peer option that is no valid address is skipped. (Refuted: it crashes the program at start-up. Proved: valid options give exactly their addresses, in order.)", "quantifier": "every list of options and every address parser", "why_tests_cant": "Quantifies over all option lists.", "anchors": ["cmd/koinos-p2p/main.go: main"]}
{"id": "C71", "title": "Malformed local broadcasts do not crash the node", "statement": "A block, transaction or fork broadcast of the message queue is either ignored or has its documented effects, but never crashes. (Refuted: a decodable broadcast with a missing block, header or irreversible block panics; the empty message is one; and so does one with a missing transaction while gossip is on, if the library function that prints transactions follows the nil pointer. Proved: undecodable broadcasts are ignored, complete ones have exactly the documented effects.)", "quantifier": "every message and decoder", "why_tests_cant": "Quantifies over all messages.", "anchors": ["internal/node/node.go: handleBlockBroadcast, handleForkUpdate", "internal/p2p/applicator.go: handleForkHeads, handleBlockBroadcast", "internal/p2p/gossip.go: PublishTransaction"]}
{"id": "C72", "title": "What the default penalties mean", "statement": "With default options: every error has the price of the published tariff; failures of this node itself and invalid nonces cost nothing, so an address with only such errors is never disconnected or refused; n errors of one kind in a row disconnect iff n times the price reaches 100000; one severe error of a fresh address is held against it for exactly one hour.", "quantifier": "every error, every history, every n", "why_tests_cant": "Quantifies over all errors including wrapped ones, and over all histories and instants.", "anchors": ["internal/options/error_handler_options.go", "internal/p2p/error_handler.go"]}
{"id": "C73", "title": "Fork bombs are refused at the door and have no effect", "statement": "A request to apply a block is refused at once with the fork-bomb error exactly if, counting this request, more than three different blocks with the same height, producer and parent have been requested since that height was last reported irreversible; every other request is queued. Every block submitted to the chain was requested by a call that was not refused.", "quantifier": "every interleaving of requests, irreversibility reports and internal steps", "why_tests_cant": "The verdict depends on the whole history of concurrent requests and fork updates.", "anchors": ["internal/p2p/applicator.go: ApplyBlock, handleForkHeads", "internal/p2p/fork_watchdog.go"]}
{"id": "C74", "title": "Arriving blocks are measured against the highest reported block", "statement": "A request is answered with the too-high error iff the block is more than MaxHeightDelta above the head height at start-up and above every height broadcast as accepted since (heights never go back), barring 64-bit overflow.", "quantifier": "every execution", "why_tests_cant": "Quantifies over all orders of broadcasts and requests.", "anchors": ["internal/p2p/applicator.go: handleNewBlock, handleBlockBroadcast"]}
{"id": "C75", "title": "Blocks are not held back without reason", "statement": "A block whose timestamp is at most DelayThreshold ahead goes to the workers at once; a block held back can proceed as soon as its timestamp is no more than DelayThreshold ahead; no block is held back for longer than DelayTimeout.", "quantifier": "every execution, timestamp and clock", "why_tests_cant": "All 64-bit timestamps, all instants.", "anchors": ["internal/p2p/applicator.go: handleTryBlockApplication"]}
{"id": "C76", "title": "The default resource limits", "statement": "With default options: at most 2500 blocks wait, and the waiting list counts as full at exactly 2500; blocks more than 60 above the highest known are refused; a block is held back at most a minute and not at all if at most four seconds ahead; a sync round asks for between 1 and 500 blocks; a session is synced after a fetch iff the last block is less than five below the peer's head.", "quantifier": "every execution, every peer", "why_tests_cant": "Quantifies over all executions and replies.", "anchors": ["internal/options/applicator_options.go", "internal/options/peer_connection_options.go", "internal/p2p/applicator.go", "internal/p2p/peer_connection.go"]}
{"id": "C77", "title": "The service repeats what the local store says", "statement": "The ancestor service returns an id iff the local block store returned exactly one block at that height, with that id, and an error otherwise; the chain-id service repeats the chain's answer or error; the head service returns id and height iff the chain returned a topology, fails with the chain's error, and panics iff the chain returned no topology; the block service returns exactly the local blocks in order, encoded.", "quantifier": "every request and every answer of the local services", "why_tests_cant": "All answers, well-formed or not, of the services behind it.", "anchors": ["internal/rpc/peer_rpc_service.go", "internal/rpc/koinos_rpc.go"]}
{"id": "C78", "title": "Honest nodes of one network accept each other and exchange blocks", "statement": "A node that is answered by the peer service of another node completes the handshake iff both report the same chain id, the other has a head and its blocks at the checkpoints are the configured ones; two nodes with the same chain id, heads and no checkpoints admit each other; a sync round against an honest peer applies exactly that peer's blocks of the window, in order.", "quantifier": "every pair of nodes, options and stores", "why_tests_cant": "The composition of client and service over all stores.", "anchors": ["internal/p2p/peer_connection.go", "internal/rpc/peer_rpc.go", "internal/rpc/peer_rpc_service.go"]}
{"id": "C79", "title": "Syncing makes progress", "statement": "Whenever the peer's head is above the own head, the blocks asked for include the one above the own head. (Refuted: the request starts at the last irreversible block, whatever the own head; once the own head is a batch or more above it, only known blocks are asked for, in every round. Proved: the next block is asked for while the own head is less than a batch above irreversibility; with irreversibility at most K < batch behind, the peer's head is reached after head/(batch-K)+1 rounds.)", "quantifier": "every irreversible height, head and batch size", "why_tests_cant": "All combinations of heights over all rounds.", "anchors": ["internal/p2p/peer_connection.go: requestSyncBlocks", "internal/options/peer_connection_options.go"]}
{"id": "C80", "title": "A score is the sum of the decayed penalties", "statement": "The reported error score of an address differs from the sum of its penalties, each halved per half-life since it was incurred, by at most one point per recorded event, and by the compounded relative rounding error of the decay factor.", "quantifier": "every history of errors and queries, every instant, every decay function within a relative error", "why_tests_cant": "All histories, continuous time, all rounding behaviours within the bound.", "anchors": ["internal/p2p/error_handler.go"]}
{"id": "C81", "title": "Persistent offenders are disconnected, occasional ones are not", "statement": "If the penalties within one half-life add up to twice the threshold, up to rounding, the next error disconnects; if in no window of one half-life they reach half the threshold (default: 50000 in half an hour), no error ever disconnects.", "quantifier": "every history and instant", "why_tests_cant": "All histories over unbounded time.", "anchors": ["internal/p2p/error_handler.go", "internal/options/error_handler_options.go"]}
{"id": "C82", "title": "A session is paced", "statement": "Between two consecutive rounds or handshakes of a session at least the configured pause passes: the synced sleep time after a round iff the session is synced, else the unsynced one, and the retry time after a failed handshake; hence with defaults at most n+1 rounds in n seconds; when the pause is over, the session can go on; while it waits it can still be ended and hand over its reports.", "quantifier": "every execution of a session, every timing", "why_tests_cant": "Real-time bounds over unbounded executions.", "anchors": ["internal/p2p/peer_connection.go: connectionLoop, handshakeLoop", "internal/options/peer_connection_options.go"]}
{"id": "C83", "title": "Unanswered submissions do not stop the node", "statement": "A submission to the chain that is never answered does not keep other blocks from being submitted. (Refuted for every number of workers: calls have no deadline, so ApplicationJobs unanswered calls stop all application of blocks and transactions for good. Proved: never more calls than that are outstanding; while one worker is free, the first waiting block can be taken up.)", "quantifier": "every number of workers, every execution", "why_tests_cant": "Unbounded executions without replies.", "anchors": ["internal/p2p/applicator.go: Start, handleApplyBlock", "internal/options/applicator_options.go"]}
{"id": "C84", "title": "Blocks go before transactions", "statement": "While some block waits for a worker, at most ApplicationJobs transactions are taken up, one per worker, however long that lasts; a worker that returns from a call while a block waits takes a block.", "quantifier": "every number of workers, every execution", "why_tests_cant": "All interleavings of workers and senders.", "anchors": ["internal/p2p/applicator.go: Start"]}
{"id": "C85", "title": "Transactions get their turn", "statement": "There is a bound on the number of blocks taken up while a transaction waits. (Refuted for every bound and every number of workers; proved: when no block waits, a free worker can take the first waiting transaction.)", "quantifier": "every number of workers, bound and execution", "why_tests_cant": "Unbounded executions.", "anchors": ["internal/p2p/applicator.go: Start"]}
{"id": "C86", "title": "The connection gate answers", "statement": "While the error handler and the connection manager both run, every question whether a peer or address may connect (or what its error score is) is answered and every reported error is handled, in whatever order the two take their steps: they come to rest after a bounded number of steps and then nothing is left unanswered.", "quantifier": "every reachable state, every number of pending questions and errors, every interleaving", "why_tests_cant": "A deadlock between two loops that query each other shows only in some interleavings.", "anchors": ["internal/p2p/error_handler.go: Start, CanConnect, GetPeerErrorScore, handleError", "internal/p2p/connection_manager.go: GetPeerAddress, managerLoop"]}
{"id": "C87", "title": "The gate does not depend on the connection manager", "statement": "Once the error handler runs, a question whether an address may connect is answered even if the connection manager does not serve. (Refuted: one reported error while the manager does not serve silences the gate for good; proved while no error is being handled.) A question about a peer whose address the manager does not know is answered without the error handler.", "quantifier": "every reachable state and every continuation", "why_tests_cant": "The claim is about all continuations.", "anchors": ["internal/p2p/error_handler.go: handleError", "internal/p2p/connection_manager.go: Start"]}
{"id": "C88", "title": "No connection before the start", "statement": "Until the error handler is started, no question whether an address may connect is answered, and without the connection manager no question about a peer either: no connection is admitted or dialled. Starting the error handler of a constructed node lets the waiting questions be answered.", "quantifier": "every execution before the start", "why_tests_cant": "All executions of the set-up phase.", "anchors": ["internal/node/node.go: NewKoinosP2PNode, Start", "internal/p2p/error_handler.go: CanConnectAddr"]}
{"id": "C89", "title": "Questions during construction are safe", "statement": "No question about a peer crashes the node. (Refuted for the interval between the creation of the libp2p host and the registration of the address provider; proved for every execution after construction.)", "quantifier": "every reachable state", "why_tests_cant": "All interleavings of construction with callbacks of the network library.", "anchors": ["internal/node/node.go: NewKoinosP2PNode", "internal/p2p/error_handler.go: CanConnect, GetPeerErrorScore, SetPeerAddressProvider"]}
{"id": "C90", "title": "The applicator comes to rest", "statement": "If no further blocks are submitted and the chain announces nothing new and never answers with the block-state error, then in every fair execution the applicator comes to rest: nothing is queued, scheduled or being applied, every call has returned, was refused, or belongs to a block that waits because its parent is missing, and no caller is left with an answer it did not fetch.", "quantifier": "every reachable state, every infinite fair execution from it", "why_tests_cant": "Liveness over infinite executions cannot be tested.", "anchors": ["internal/p2p/applicator.go: Start, handleNewBlock, handleTryBlockApplication, handleBlockStatus, checkBlockChildren, ApplyBlock"]}
{"id": "C91", "title": "Retries are paced", "statement": "There is a bound on how often a block is submitted to the chain for one call while no time passes. (Refuted: as long as the chain answers with the block-state error the block is resubmitted at once, without pause or limit; proved: without that error, and without new input, submissions end.)", "quantifier": "every execution", "why_tests_cant": "No finite test shows the absence of a bound.", "anchors": ["internal/p2p/applicator.go: handleBlockStatus"]}
{"id": "C92", "title": "The score table stays bounded", "statement": "The number of error score records kept is bounded. (Refuted for all options and every decay; proved: there is exactly one record per address ever charged, and none for addresses only asked about.)", "quantifier": "every history of errors and questions", "why_tests_cant": "Unbounded histories.", "anchors": ["internal/p2p/error_handler.go: handleError, handleCanConnect, handleGetPeerErrorScore"]}
{"id": "C93", "title": "The irreversible height never goes back", "statement": "The irreversible height the node reports never decreases. (Refuted: the reply fetched at start may overwrite a newer announcement, with any gap, and the node stays there until irreversibility advances again; proved: the next advance repairs it, and if the reply is stored in order the node is up to date whenever no announcement is under way.)", "quantifier": "every interleaving of start, announcements and deliveries", "why_tests_cant": "A race between start-up and announcements.", "anchors": ["internal/node/node.go: Start, handleForkUpdate, GetLastIrreversibleBlock", "cmd/koinos-p2p/main.go: main"]}
{"id": "C94", "title": "The irreversible height is known when asked", "statement": "Gossip and peer sessions never ask for the irreversible height before it is known (which would crash the node).", "quantifier": "every interleaving of start, announcements and questions", "why_tests_cant": "All interleavings.", "anchors": ["internal/node/node.go: Start, GetLastIrreversibleBlock"]}
{"id": "C95", "title": "Every block gets a worker", "statement": "If at least one worker of the applicator is not held up for ever, then every block that waits for a worker is taken up by one, and blocks are taken up in the order in which they were queued, no matter what else arrives.", "quantifier": "every state, every infinite execution in which one worker is served fairly", "why_tests_cant": "Liveness over infinite executions cannot be tested.", "anchors": ["internal/p2p/applicator.go: Start"]}
{"id": "C96", "title": "Every ApplyTransaction call returns", "statement": "Every call of ApplyTransaction returns, however many further calls and broadcasts arrive, provided each call in flight is served fairly (its worker and the chain answer in the end).", "quantifier": "every reachable state, every infinite execution that is weakly fair to each call", "why_tests_cant": "Liveness over infinite executions cannot be tested.", "anchors": ["internal/p2p/applicator.go: ApplyTransaction, handleApplyTransaction"]}
{"id": "C97", "title": "A banned address has no connections", "statement": "When the error score of an address has reached the limit for disconnection and everything pending is done, no connection from the address is left, and none is established until the score has decayed below the limit for reconnection. (Refuted: other peers at the same address stay connected for as long as no error of their own is reported, and a connection that had already passed the last question when the peer was disconnected is established afterwards and stays; proved: after the offending peer has been disconnected all its connections are ones established later, which were being established at that moment or were allowed anew, and for the time given by the decay, reduced by one point per question, no connection from the address is allowed.)", "quantifier": "every execution of error handler, connection manager and node together, any number of peers and addresses", "why_tests_cant": "Interleavings of many peers, and a bound on time under arbitrarily many questions.", "anchors": ["internal/p2p/error_handler.go: handleError, handleCanConnect, InterceptAddrDial, InterceptAccept, InterceptSecured", "internal/p2p/connection_manager.go: handleConnected, handleDisconnected, handleGetPeerAddress", "internal/node/node.go: Start"]}
{"id": "C98", "title": "Errors are charged to the address they came from", "statement": "The error of a peer is charged to the address of the connection over which it was made. (Refuted: a peer that returns from another host before the report is taken up has the other host charged; proved: the address charged is always one of the same peer, and the right one if the peer was only ever connected from one host; the amount is that of the error.)", "quantifier": "every execution", "why_tests_cant": "A race between reports and connection notifications.", "anchors": ["internal/p2p/error_handler.go: handleError, handleCanConnect, InterceptAddrDial, InterceptAccept, InterceptSecured", "internal/p2p/connection_manager.go: handleConnected, handleDisconnected, handleGetPeerAddress"]}
{"id": "C99", "title": "Only offenders are disconnected", "statement": "A peer is disconnected by the node only because of weighty errors of its own. (Refuted: an error of weight zero, even one caused by this node, suffices if a neighbour has brought the score of the address to the limit; proved: some error of the peer was charged before and found or brought the score at the limit.) Each such error leads to one request to disconnect, carried out at most once.", "quantifier": "every execution", "why_tests_cant": "All interleavings of peers sharing an address.", "anchors": ["internal/p2p/error_handler.go: handleError, handleCanConnect, InterceptAddrDial, InterceptAccept, InterceptSecured", "internal/node/node.go: Start"]}
{"id": "C100", "title": "Every reported error counts", "statement": "Every error reported of a connected peer is charged. (Refuted: a peer that makes two connections and ends one is connected but not tracked, and from then on all its errors are ignored, in every execution in which it makes no new connection; proved: an error taken up while the peer is tracked is charged, and leads to a request to disconnect if the score is at the limit.)", "quantifier": "every execution", "why_tests_cant": "Holds for all continuations of unbounded length.", "anchors": ["internal/p2p/error_handler.go: handleError, handleCanConnect, InterceptAddrDial, InterceptAccept, InterceptSecured", "internal/p2p/connection_manager.go: handleConnected, handleDisconnected, handleGetPeerAddress"]}
{"id": "C101", "title": "Enforcement happens", "statement": "Every reported error is dealt with in the end, and a peer whose charged error leaves the score of the address at or above the limit is disconnected in the end, provided the error handler and the node neglect no report and no request for ever. No report is lost, and none is dealt with twice.", "quantifier": "every infinite fair execution", "why_tests_cant": "Liveness over infinite executions cannot be tested.", "anchors": ["internal/p2p/error_handler.go: handleError, handleCanConnect, InterceptAddrDial, InterceptAccept, InterceptSecured", "internal/node/node.go: Start"]}
{"id": "C102", "title": "Only the permitted are let in, and nobody else is refused", "statement": "Every connection that is established comes from an address that at that instant has no score or one below the limit for reconnection; every connection refused had a score at or above it; only established connections are tracked or reported; and every connection that is tried is decided upon at most once. (The first claim is refuted: between the last question about a connection and its establishment the address may be banned; proved: the last question was asked before, and at that instant the score was below the limit.)", "quantifier": "every execution", "why_tests_cant": "All interleavings of questions, errors and passing time.", "anchors": ["internal/p2p/error_handler.go: handleError, handleCanConnect, InterceptAddrDial, InterceptAccept, InterceptSecured", "internal/p2p/connection_manager.go: handleConnected, handleDisconnected, handleGetPeerAddress"]}
{"id": "C103", "title": "The table of connected peers has no ghosts", "statement": "The established connections are exactly those that were once established and have not ended. When all connection notifications have been handled, every peer the connection manager tracks is connected, by the very connection it is tracked with; and a peer that made only one connection, and still has it, is tracked by it. When connections neither come nor go any more, all notifications are handled in the end.", "quantifier": "every execution (the last claim: every execution in which the manager does not leave notifications alone for ever)", "why_tests_cant": "All orders of notifications of any number of connections.", "anchors": ["internal/p2p/connection_manager.go: Connected, Disconnected, handleConnected, handleDisconnected", "internal/p2p/error_handler.go: InterceptSecured"]}
{"id": "C104", "title": "Forced retries are paced", "statement": "A forced request to apply a block that is being applied already is repeated only after the configured delay: while no new block, announcement or verdict reaches the applicator, in any span of time shorter than the delay it takes up at most the requests that were waiting or scheduled at the beginning of the span.", "quantifier": "every state, every execution without news, every value of the delay", "why_tests_cant": "A bound over all interleavings and all numbers of requests.", "anchors": ["internal/p2p/applicator.go: handleTryBlockApplication"]}
{"id": "C105", "title": "One subscription at a time", "statement": "However often gossip is started and stopped, each topic has at most one reader that was not told to stop; there is one only while gossip is switched on; and stopping gossip reaches it.", "quantifier": "every sequence of starts, stops and messages", "why_tests_cant": "All interleavings of goroutines of any number of starts.", "anchors": ["internal/p2p/gossip.go: GossipManager.Start, GossipManager.Stop"]}
{"id": "C106", "title": "Calls end with their contexts", "statement": "A call that hands a request to another loop (ApplyBlock, ApplyTransaction, CanConnectAddr, GetPeerErrorScore, the applying goroutine) can return as soon as its context has ended, whatever that loop does. (Refuted for every channel size: handing over the request ignores the context, so with the channel full a further call is held; if the loop has ended or is stuck, it is held for ever, only as many further calls return as the channel had room left, and questions without a deadline, as those of libp2p to the connection gate, never return. Proved: with room in the channel every such call can return; a held call is one still handing over its request to a full channel; while the loop goes on receiving every call whose context has ended returns, however many others there are.)", "quantifier": "every channel size, every reachable state, every continuation, every infinite fair execution", "why_tests_cant": "Needs a full channel and all continuations.", "anchors": ["internal/p2p/applicator.go: ApplyBlock, ApplyTransaction, handleTryBlockApplication, Start", "internal/p2p/error_handler.go: CanConnectAddr, GetPeerErrorScore, InterceptAccept, Start"]}
{"id": "C107", "title": "Honest peers are never accused", "statement": "In a session with a peer that runs the service honestly over a node of our network, whose chain contains our irreversible blocks and checkpoints (and may otherwise grow and change from round to round), while our own node answers and refuses none of its blocks: every handshake and every round succeeds, no error is ever reported of the peer, and the session does not crash, however long it lasts. (Batch sizes between 1 and 2^32-1.)", "quantifier": "every honest chain per round, every length of session, every schedule, all such batch sizes", "why_tests_cant": "All lengths and all honest chains.", "anchors": ["internal/p2p/peer_connection.go: Start, connectionLoop, handshake, requestSyncBlocks", "internal/rpc/peer_rpc.go", "internal/rpc/peer_rpc_service.go"]}
{"id": "C108", "title": "Strangers are kept outside", "statement": "Of a peer that does not name our network nothing but its version and its network is ever asked, in any number of attempts: every handshake fails, no synchronisation round is started and no block of it is applied.", "quantifier": "every sequence of attempts, replies and timers", "why_tests_cant": "All lengths of sessions and all replies.", "anchors": ["internal/p2p/peer_connection.go: Start, handshake, connectionLoop"]}
{"id": "C109", "title": "A cancelled session ends soon", "statement": "When the context of a session is cancelled (the peer has disconnected), at most one more handshake and at most one more round take place, then the session is over: its goroutine returns, and so do the goroutines that report its failed handshakes, provided they are not held up for ever in a call. (Assuming a goroutine gets from starting a timer to waiting for it before the timer fires.)", "quantifier": "every state, every execution, every schedule of replies, timers and cancellation", "why_tests_cant": "All interleavings of cancellation with the rest, and liveness.", "anchors": ["internal/p2p/peer_connection.go: Start, connectionLoop"]}
{"id": "C110", "title": "Nothing of gossip runs on after it is switched off", "statement": "After gossip is stopped every goroutine it started comes to its end, whatever messages still arrive. (Refuted in general: StartGossip called twice forgets the first context, and its listeners stay for ever. Proved: when starts and stops alternate, as those of the gossip toggle do (for the toggle itself see C112), a stop cancels everything started so far, and under fairness all readers and listeners return, or the process crashes as in C53.)", "quantifier": "every infinite fair execution, any number of starts and stops", "why_tests_cant": "Liveness over infinite executions, all interleavings.", "anchors": ["internal/p2p/gossip.go: StartGossip, StopGossip, startBlockGossip, startTransactionGossip, readMessages"]}
{"id": "C111", "title": "With an honest chain no block is forgotten", "statement": "When everything has settled, a block still waits only if the chain has not accepted its parent (at a height that fits the block): whatever the order of calls, verdicts, acceptances and announcements, no waiting block is left behind with its parent accepted. And things do settle once nothing comes in. (Refuted in three cases: the reply on the parent is lost or late although the chain accepted it, and the child was put aside meanwhile; a block is handed over again while a left-over application of it is still running; the block is older than the force threshold and its parent is reported after an attempt came too early and before that was dealt with. Proved for all other executions.)", "quantifier": "every execution of the applicator together with a chain that tells the truth, any number of blocks, calls and forks", "why_tests_cant": "All interleavings of two systems and their messages, any number of blocks; liveness over infinite executions.", "anchors": ["internal/p2p/applicator.go: addBlockEntry, handleTryBlockApplication, handleBlockStatus, checkBlockChildren, handleBlockBroadcast", "internal/node/node.go: handleBlockBroadcast", "internal/rpc/koinos_rpc.go: ApplyBlock"]}
{"id": "C112", "title": "What the node says about its gossip is what it does", "statement": "While the node runs, whenever the toggle is between two checks: the answer of the status RPC equals the last gossip status broadcast (off before the first); if it is \"off\", every context made for gossip has ended; and both topics are on exactly if it is \"on\". The status and the statuses broadcast are the decisions of the toggle (C32, C33), in order; every switch comes to an end; and the toggle goes on checking until the node's context ends, unless gossip is forced on or off. (Refuted for the topics when a start-up goroutine runs after the following stop: the topics are then on although the node says off. Proved when start-up goroutines run before the next check.)", "quantifier": "every interleaving of toggle, start-up goroutines, readers, listeners, publishers and statistics, any number of switches", "why_tests_cant": "All interleavings of any number of goroutines; liveness over infinite executions.", "anchors": ["internal/p2p/gossip.go: EnableGossip, StartGossip, StopGossip, GossipManager.Start, GossipManager.Stop", "internal/p2p/gossip_toggle.go: Start, IsEnabled", "internal/node/node.go: handleRequest"]}
{"id": "C113", "title": "A closed node does not gossip", "statement": "Once Close has returned both topics are off and stay off, nothing is published any more, \"off\" was the last status broadcast, the status RPC says off, and closing does not panic. The end of the node's context ends every context made for gossip, also those made later. (Refuted as the node is closed in main.go, with its context alive: the next check of the toggle may switch gossip on again; with gossip forced on the status RPC says \"on\" for ever; toggle and Close may both be stopping gossip, and then one calls the cancel function the other has just cleared, a nil dereference. Proved, but for the status RPC, when the toggle has returned and the start-up goroutines have run before Close is called.)", "quantifier": "every interleaving of Close with toggle, start-up goroutines, readers, listeners and publishers", "why_tests_cant": "Races between several goroutines; all interleavings.", "anchors": ["internal/p2p/gossip.go: EnableGossip, StartGossip, StopGossip, GossipManager.Start, GossipManager.Stop", "internal/p2p/gossip_toggle.go: Start, IsEnabled", "internal/node/node.go: Close", "cmd/koinos-p2p/main.go: main"]}
{"id": "C114", "title": "Gossip statistics add up", "statement": "The numbers of blocks (transactions) reported in the log, taken for the next report and still in the counter add up to the number of blocks (transactions) published: nothing is counted twice or lost, however publishing, reporting, stopping and starting interleave, as long as fewer than 2^32 are published, and up to multiples of 2^32 after that. No report is empty. Every start of gossip has its reporter, which stays as long as its context and then ends; while one of these contexts lives, everything published is reported after a while.", "quantifier": "every interleaving, any number of messages and of calls of StartGossip", "why_tests_cant": "All interleavings of unboundedly many publications.", "anchors": ["internal/p2p/gossip.go: StartGossip, PublishBlock, PublishTransaction"]}
{"id": "C115", "title": "Close returns", "statement": "A call of Close returns, whatever connections there are, are being made and are going; every notification of the host about a connection is taken; and when Close has returned every connection there has been is closed and was reported as such to the connection manager. (Refuted when the node's context has ended before, when a caller has given up waiting for an answer of the connection manager (C61), and when a connection was there before the manager was started (C36): the host waits for the manager, and with a connection left Close can never return. Proved otherwise.)", "quantifier": "every interleaving of connections, queries and Close, any number of connections", "why_tests_cant": "Liveness over infinite executions; that no continuation returns cannot be observed.", "anchors": ["internal/node/node.go: Close, Start", "internal/p2p/connection_manager.go: Connected, Disconnected, managerLoop, Start, GetPeerAddress, GetNumConnections, IsConnected"]}
{"id": "C116", "title": "Errors concern the host they come from", "statement": "Two remote addresses share an error score exactly if they lead to the same host, whatever the ports, transports and peer ids; errors of one host change neither the score of another nor the permission to connect to it. (Refuted for relayed connections: their errors are charged to the relay, which with the configured relays is a seed peer, and a severe one makes the node refuse the relay. Refuted for link-local IPv6 addresses: all hosts on a link share one score. Proved for addresses that begin with a network address or a name and lead through no relay.)", "quantifier": "every pair of addresses, every history, every relay", "why_tests_cant": "All pairs of addresses; tests use plain addresses.", "anchors": ["internal/p2p/error_handler.go: handleError, handleCanConnect, handleGetPeerErrorScore", "internal/node/node.go: NewKoinosP2PNode"]}
{"id": "C117", "title": "The connection log tells how many connections there are", "statement": "Each report names the node's address and lists its connections, or twelve of them and the number of the others, so that the numbers add up; making a report does not panic. (Refuted: with twelve or more connections the report always accounts for one more than there are, twelve connections are followed by \"and 1 more\"; the number may be negative; a host without address makes the process panic. The list itself is proved correct.)", "quantifier": "every list of connections and addresses", "why_tests_cant": "All numbers of connections.", "anchors": ["internal/node/node.go: logConnectionsLoop, GetAddress"]}
{"id": "C118", "title": "An accepted block is not submitted again", "statement": "Once the chain has accepted a block and everybody who asked for it has been answered, the block is not submitted again unless somebody hands it over again. (Refuted: reports that the parent is accepted, arriving while the block is being applied, are kept as forced retries, and each submits the block again after it was accepted: three submissions in the ordinary course, and with one call and an honest chain any number. Proved: never more submissions than calls, block-state verdicts and reports about the parent; at most one per call if the parent is not reported.)", "quantifier": "every interleaving, any number of reports", "why_tests_cant": "Needs reports that arrive during an application; the number is unbounded.", "anchors": ["internal/p2p/applicator.go: handleTryBlockApplication, checkBlockChildren, handleBlockStatus"]}
{"id": "C119", "title": "Junk blocks do not keep out good ones", "statement": "Blocks that nobody can apply do not stop the node from taking blocks that it could apply: it answers that too many blocks are waiting only if that many blocks are waiting that lead to something the chain has. (Refuted for all options: as many made-up blocks with unknown parents as may wait, a little above the head, fill the table; from then on every block handed over is sent away and nothing at all is submitted, until the chain, by other means, makes those heights irreversible. Proved: a block of acceptable height is taken in whenever there is room, and irreversibility makes room.)", "quantifier": "all options, all executions, any number of blocks", "why_tests_cant": "The table has 2500 places by default, and what follows is a statement about all continuations.", "anchors": ["internal/p2p/applicator.go: handleNewBlock, addBlockEntry, handleForkHeads"]}
{"id": "C120", "title": "A made-up transaction does not suppress the genuine one", "statement": "A call with a transaction is answered with success only if this transaction, not merely one that bears its id, was submitted to the chain or was in a block. (Refuted: transactions are remembered by an id that nobody has checked, before they are submitted; with one made-up transaction per window the genuine one is reported as success and never submitted, for ever, although the chain rejects every made-up one. Proved if all transactions with the id are the same.)", "quantifier": "all executions, any number of rounds", "why_tests_cant": "Needs two transactions with one id, and a statement about all later calls.", "anchors": ["internal/p2p/applicator.go: handleApplyTransaction, handleBlockBroadcast", "internal/p2p/transaction_cache.go: CheckTransactions"]}
{"id": "C121", "title": "Nobody pays for blocks that others make up", "statement": "A block is refused as one of too many only if its producer has made too many, and a peer that hands over only genuine blocks is not punished as a fork bomber. (Refuted: the producer is read from the header and not verified; three made-up blocks for a slot shut out the genuine one until its height is irreversible, and the honest peer that serves it is disconnected and kept out for an hour, while the forger is not even disconnected for three refused blocks. Proved when only genuine blocks of the slot were handed over.)", "quantifier": "all executions, whatever makes a block genuine", "why_tests_cant": "Needs made-up blocks before the genuine one, and a statement about all continuations.", "anchors": ["internal/p2p/fork_watchdog.go: Add", "internal/p2p/applicator.go: ApplyBlock", "internal/p2p/peer_connection.go: requestSyncBlocks", "internal/p2p/error_handler.go: handleError"]}
{"id": "C122", "title": "The program comes up in spite of failures of its services", "statement": "However often the block store and the chain fail to answer before and during the start, the node comes up when they answer in the end, keeps nothing of the failed attempts, and connects to nobody before both have answered and the chain has told its head and its fork heads. (Refuted: the head is asked for once, and if the chain fails to answer then the program panics; each probe leaves a context behind until the program ends, without bound. Proved: failed probes and failed questions for the fork heads change nothing else; the program panics in no other case but when its host cannot be made; it comes up otherwise; nobody is connected to before.)", "quantifier": "all executions, any number of failures", "why_tests_cant": "Any number of failures at any point of the start, and liveness.", "anchors": ["cmd/koinos-p2p/main.go: main", "internal/node/node.go: NewKoinosP2PNode, Start", "internal/p2p/applicator.go: NewApplicator"]}
{"id": "C123", "title": "A signal ends the program in order", "statement": "SIGINT or SIGTERM makes the program close the node and end; it does not end otherwise, and when it ends every connection has been closed and its end has been dealt with. (Refuted: before Start has returned a signal kills the program, with connections open; and if a peer was connected when the connection manager started, the first signal makes the program wait for ever and all further signals are ignored. Proved in all other cases, whatever connections there are and are being made.)", "quantifier": "all fair executions, any number of connections and signals", "why_tests_cant": "Depends on when the signal comes relative to many goroutines; liveness.", "anchors": ["cmd/koinos-p2p/main.go: main", "internal/node/node.go: Start, Close", "internal/p2p/connection_manager.go: Start, managerLoop"]}
{"id": "C124", "title": "A connection made while the node starts does no harm", "statement": "Once the node is up the connection manager takes notice of every connection, including those made while the node was starting. (Refuted: the gate opens before the manager starts; a peer that gets in between stops the manager for good, in every continuation. Proved if no peer is connected at the moment when the starting manager asks for the peers.)", "quantifier": "all fair executions, any number of connections", "why_tests_cant": "A window between two statements of the start; the consequence is a statement about all continuations.", "anchors": ["internal/node/node.go: Start", "internal/p2p/connection_manager.go: Start, Connected", "internal/p2p/error_handler.go: Start, InterceptAccept"]}
{"id": "C125", "title": "Blocks handed over in whatever order are all accepted in the end", "statement": "Branches of valid blocks that start at blocks the chain has, handed over once each in whatever order and by whatever number of callers, are all accepted by the chain when everything has settled, and every call for them has returned with success (or had given up waiting before), whatever other blocks are handed over and whatever becomes of these. (Refuted: a block older than the force threshold whose attempt came too early, and whose parent is reported just before that is dealt with, stays behind. Proved when blocks in that situation are recent, as long as none of the blocks is turned away at a limit, and the chain finds nothing wrong with them and answers.)", "quantifier": "every execution of the applicator together with a truthful chain; any set of blocks, any number of calls, any interleaving", "why_tests_cant": "All orders of any number of blocks, all interleavings with verdicts and announcements; the result is about the whole set at the end of infinite executions.", "anchors": ["internal/p2p/applicator.go: ApplyBlock, addBlockEntry, removeBlockEntry, handleNewBlock, handleTryBlockApplication, handleBlockStatus, handleBlockBroadcast, checkBlockChildren", "internal/node/node.go: handleBlockBroadcast"]}
{"id": "C126", "title": "Gossip messages pass through", "statement": "Of the messages a topic's reader is given, each is taken out on the other side once, or is on its way (the channel never holds more than its capacity), or was dropped because gossip was being switched off. While gossip goes on the reader never gets stuck: whatever it holds is handed on, and whatever is on its way is taken, so that it always comes back for the next message, however fast messages come.", "quantifier": "all executions, any number of starts, stops and messages; all fair infinite executions; every channel capacity above zero", "why_tests_cant": "All interleavings of readers, listeners, starts and stops; progress is a liveness property.", "anchors": ["internal/p2p/gossip.go: readMessages, startBlockGossip, startTransactionGossip"]}
{"id": "C127", "title": "The protocol version is waited for, but not for ever", "statement": "Asking for a peer's protocol version returns within the configured time-out, or at once when the caller cancels, and can always return. The peer store is looked at no more often than once per retry time. The answer is the verdict on the first conclusive value seen, given at once; 'missing' is answered only after the time-out or a cancellation. A version announced at least one retry time before the time-out is never called missing.", "quantifier": "all configured times, all sequences of look-ups, cancellations and scheduling delays up to a lag", "why_tests_cant": "Depends on the real-time interleaving of timers, look-ups and cancellation.", "anchors": ["internal/p2p/connection_manager.go: GetProtocolVersion, readProtocolVersion", "internal/options/connection_manager_options.go"]}
{"id": "C128", "title": "Handshakes and rounds end in time", "statement": "If calls return when their contexts end, a handshake takes no longer than the time-outs of the version look-up, one local call, two calls to the peer and one more per checkpoint; a silent peer costs at most one call to it; a synchronisation round takes no longer than two calls to the peer, one local call, one block request and one application per block asked for (23 and 6168 seconds with the default options). The session then turns to the peer again after the pause due: it is never held up by a peer for longer. With the default options a call for the version is given 5 seconds, other calls 6, a request for blocks 150 and an application 12.", "quantifier": "all replies, all option values, all executions in which no step is late", "why_tests_cant": "Worst-case durations cannot be found by running; they need all replies and all delays at once.", "anchors": ["internal/p2p/peer_connection.go: handshake, requestSyncBlocks, connectionLoop, Start", "internal/options/peer_connection_options.go", "internal/rpc/peer_rpc.go: GetBlocks"]}
{"id": "C129", "title": "No data races", "statement": "Two accesses to the same memory from different goroutines, at least one of which writes and not both of which are atomic, are always ordered by happens-before (goroutine starts, mutexes, channels): the node has no data race, however many peers, messages, broadcasts and blocks are in progress and however their goroutines interleave.", "quantifier": "all interleavings of any number of goroutines of every kind the node starts or is called by", "why_tests_cant": "The race detector sees only the interleavings that happen to run.", "anchors": ["internal/p2p/*.go", "internal/node/node.go", "cmd/koinos-p2p/main.go"]}
{"id": "C130", "title": "Mutexes are held briefly and one at a time", "statement": "No goroutine holds two of the node's mutexes, or waits for a mutex or one of the node's channels while it holds one. Whoever holds the mutex of the fork watchdog, the transaction cache or the gossip toggle releases it after a bounded number of memory accesses, waiting for nothing: these mutexes take part in no deadlock.", "quantifier": "all interleavings of any number of goroutines, all mutexes", "why_tests_cant": "A deadlock shows only in the interleaving that has it.", "anchors": ["internal/p2p/fork_watchdog.go", "internal/p2p/transaction_cache.go", "internal/p2p/gossip_toggle.go", "internal/p2p/gossip.go: GossipManager"]}
{"id": "C131", "title": "What the local services announce is taken up", "statement": "When a service of the node (chain, mempool) announces a block or a transaction, or the gossip toggle switches gossip on or off, the call that deals with it is finished, and what was handed to gossip is sent to the other nodes, whatever other goroutines are doing: the error handler, the connection manager, the computation of peer scores by the gossip library.", "quantifier": "all reachable states of gossip calls, mutexes, the message loop of the gossip library with a channel of any size, the error handler and the connection manager; all orders of their steps; with and without the option that gossip is always on", "why_tests_cant": "The wait goes through five goroutines and a channel with room for many messages; it shows only after that many announcements while the manager is not serving.", "anchors": ["internal/p2p/gossip.go: Start, Stop, PublishMessage, PublishBlock, PublishTransaction", "internal/node/node.go: AppSpecificScore, handleBlockBroadcast, handleTransactionBroadcast", "internal/p2p/error_handler.go: GetPeerErrorScore", "internal/p2p/connection_manager.go: GetPeerAddress"]}
{"id": "C132", "title": "Synchronising puts the blocks of an honest peer on our chain", "statement": "When a round of synchronisation ends well, every block handed over in it is on our chain (or was reported as irreversible already). With an honest peer on a chain that contains our irreversible blocks, a number of rounds that depends only on the height of the peer's head, the batch size and the lag of irreversibility suffices for our chain to have all its blocks, if our chain is willing to take them and answers in time. And if the session runs next to the applicator, the chain and all other callers, each going on whenever it can, and again and again there is a round that gets answers, then the session never gets stuck in a call and in the end our chain has all blocks the peer had when it began.", "quantifier": "all executions of applicator and chain service between the rounds, with any other calls going on at the same time; all chains, heads, batch sizes above the lag; all replies of a round with any peer for the first sentence; for the last sentence all infinite fair executions, step by step", "why_tests_cant": "The claim joins the rounds, the service of the other node, the applicator's bookkeeping and the chain behind it, over many rounds in which blocks are handed over twice and other goroutines apply blocks too.", "anchors": ["internal/p2p/peer_connection.go: requestSyncBlocks", "internal/rpc/peer_rpc_service.go", "internal/p2p/applicator.go: ApplyBlock, handleApplyBlock, handleBlockStatus", "internal/rpc/koinos_rpc.go: ApplyBlock"]}
{"id": "C133", "title": "Honest peers are neither disconnected nor refused", "statement": "A peer that runs an honest node on our chain, and whose exchanges with us all succeed, has nothing to fear from the error scores: no error of it is ever reported or charged, we never end a connection with it, and if no other peer comes from its hosts it is never refused, whatever other peers do and in whatever order sessions, connection manager, error handler and the network take their turns.", "quantifier": "all executions of any number of sessions with the connection manager, the error handler, the disconnecting goroutine and the network callbacks, with any number of peers and connections, any honest chains, any clocks and decay laws that do not increase scores, batch sizes from 1 to 2^32-1", "why_tests_cant": "A test drives one session against one handler in one order; here sessions die and are restarted, reports are delivered late, connections overlap and other peers misbehave, in all orders.", "anchors": ["internal/p2p/peer_connection.go:34-247", "internal/p2p/connection_manager.go:228-268", "internal/p2p/error_handler.go:58-209", "internal/node/node.go:421-440"]}
{"id": "C134", "title": "Failures that are not the peer's do not get it banned", "statement": "If an exchange with an honest peer fails because the connection breaks, a time-out fires or a service of our own node does not answer, then the peer is neither disconnected nor refused for it, or at least not for few of them: with the default scores ten such failures are needed for a refusal and twenty for a disconnection.", "quantifier": "all executions as in C133 in which any exchange with the honest peer may be interrupted at any call by any error of the transport or of our own services", "why_tests_cant": "The error of an interrupted call depends on which call it was; only the question for the chain and the checkpoints turn a transport failure into one of the errors for which peers are banned, and tests use mocks that answer.", "anchors": ["internal/p2p/peer_connection.go:34-247", "internal/p2p/error_handler.go:120-201", "internal/rpc/peer_rpc.go:28-106"]}
{"id": "C135", "title": "Errors are charged to the peer that caused them, and once", "statement": "What the error handler hears of a connection is exactly what the sessions over that connection and the gossip messages received over it produced: no error is attributed to another connection, none is invented, and no error is charged more often than exchanges over the connection ended with it or gossip found it.", "quantifier": "all executions of any number of sessions with the connection manager, the error handler and the network callbacks; all connections and errors; reports delayed arbitrarily, sessions ending before their reports are delivered", "why_tests_cant": "A misattribution needs reports of one session to be delivered while others come and go; the count is a statement about whole executions.", "anchors": ["internal/p2p/peer_connection.go:193-247", "internal/p2p/connection_manager.go:228-268", "internal/p2p/error_handler.go:120-146", "internal/p2p/error_handler.go:236-256"]}
{"id": "C136", "title": "One session for each connected peer", "statement": "With a peer that the connection manager tracks there is exactly one session that has not been told to end, with any other peer none. Such a session is over the connection by which the manager tracks the peer, which was established and, once all notifications are handled, is still open; a peer that made one connection and still has it is served by a session over it; and a session that was told to end is never taken up again. What a session can do, it can do whatever the other sessions are doing.", "quantifier": "all executions of sessions, connection manager, error handler and network callbacks with any number of peers and connections, notifications delivered late and in any order that libp2p allows", "why_tests_cant": "Duplicate or orphaned sessions need connections that overlap with delayed notifications and disconnections by the error handler.", "anchors": ["internal/p2p/connection_manager.go:228-268", "internal/p2p/peer_connection.go:193-247", "internal/node/node.go:421-440"]}
{"id": "C137", "title": "Passing on genuine messages does not get a peer banned", "statement": "A peer that is honest in its exchanges with this node and passes on genuine gossip (complete blocks of others that the chain would take, transactions) is neither disconnected nor refused on account of what it passes on; whatever it passes on, a single message never counts as much as an attack, another chain or another protocol.", "quantifier": "for all runs of sessions, connection manager, error handler and gossip with any number of peers, all messages, all answers of the chain service, all decay laws that do not increase scores", "why_tests_cant": "The ban depends on the sum of what validators, sessions and decay contribute over arbitrarily long runs and on failures of the own chain service at those moments; tests check single scores.", "anchors": ["internal/p2p/gossip.go:310-377", "internal/p2p/gossip.go:403-447", "internal/p2p/error_handler.go:120-201"]}
{"id": "C138", "title": "Peers of another network do not stay", "statement": "When a handshake or synchronisation round with a connected peer ends with an error whose score reaches the limit by itself (by default exactly: another chain id, a chain that does not contain our irreversible block, a checkpoint mismatch, another protocol, a fork bomb), then sooner or later there is no connection with this peer, unless its session is told to end first; this happens only after a connection with the peer has ended, so a peer that made one connection only does not stay in any case. A peer that names another chain id is such a peer.", "quantifier": "for all fair infinite executions of sessions, connection manager, error handler and node with any number of peers, all replies, all options, all decay laws that do not increase scores, without overflow of 64-bit scores", "why_tests_cant": "It is a liveness property of four cooperating goroutines per peer under all interleavings; a test can only wait for one schedule.", "anchors": ["internal/p2p/peer_connection.go:34-90", "internal/p2p/peer_connection.go:193-245", "internal/p2p/error_handler.go:120-146", "internal/p2p/connection_manager.go:228-268", "internal/node/node.go:423-433"]}
{"id": "C139", "title": "A published block reaches the network", "statement": "A complete block that a node publishes by gossip is sooner or later handed to the applicator of (or was published by) every node that can be reached from it along nodes running this code, if every such node finds it not below its irreversible height and its applicator accepts it, if no such node is validating as many messages as gossip allows when it arrives, if the encoding of the block decodes to it, no other contents has its digest, and no message is under way or being validated for ever.", "quantifier": "for all networks, all fair infinite executions, all orders of arrival and of the ends of validations, everything that other nodes send in their own name or pass on, whatever nodes forget that they have seen, all encodings and digests", "why_tests_cant": "It is a liveness property of a whole network of nodes with hostile members and arbitrary delays; a test can run a few nodes in a few schedules.", "anchors": ["internal/p2p/gossip.go:112-122", "internal/p2p/gossip.go:267-284", "internal/p2p/gossip.go:310-377", "internal/node/node.go:223-248", "internal/node/node.go:476-490"]}
{"id": "C140", "title": "A block passes over each link once", "statement": "A node sends the same block to the same neighbour at most once by gossip, however often and from whomever it receives it, and whatever it publishes, and never back to the one it accepted it from nor to the one who published it.", "quantifier": "for all networks, all runs, all messages of other nodes, own or passed on, whatever nodes forget that they have seen, all encodings", "why_tests_cant": "The number of arrivals, neighbours and encodings is unbounded, and other nodes may send what they like.", "anchors": ["internal/node/node.go:476-490", "internal/p2p/gossip.go:267-284", "internal/p2p/gossip.go:310-377"]}
{"id": "C141", "title": "Honest nodes do not accuse each other by gossip", "statement": "A node never reports a neighbour that runs this code for a block received from it by gossip, whatever other nodes put into circulation.", "quantifier": "for all networks, all runs, all messages of other nodes, own or passed on, whatever nodes forget that they have seen, all verdicts of the chains", "why_tests_cant": "Blame could arise from any interleaving of publishing, passing on and judging in a network of any size, with hostile members.", "anchors": ["internal/p2p/gossip.go:310-377", "internal/node/node.go:223-248"]}
{"id": "C142", "title": "Whole chains spread", "statement": "Blocks that form a chain, each published by some node, all get to every node that all publishers are connected to along nodes running this code, in whatever order they arrive there, although the validation of a block comes to an end only when its parent is on the chain of the validating node; provided that no node is validating as many messages as gossip allows when one of the blocks arrives.", "quantifier": "for all networks, all fair infinite executions, all lengths of chains, all orders of arrival, everything that other nodes send in their own name or pass on, whatever nodes forget that they have seen", "why_tests_cant": "Every node may receive the blocks in a different order, and every order leads to different waiting; liveness of a network cannot be tested.", "anchors": ["internal/p2p/gossip.go:310-377", "internal/node/node.go:223-248", "internal/node/node.go:476-490"]}
{"id": "C143", "title": "A block that came too early is passed on later", "statement": "When a node has refused a block received by gossip, because its parent was not there in time for instance, and has it on its chain later, it still passes the block on to its neighbours.", "quantifier": "for all networks, all runs, all messages of other nodes, own or passed on, whatever nodes forget that they have seen", "why_tests_cant": "It concerns what a node does at any time later, whatever it receives and publishes.", "anchors": ["internal/p2p/gossip.go:310-377", "internal/p2p/gossip.go:112-122", "internal/node/node.go:223-248", "internal/node/node.go:476-490"]}
{"id": "C144", "title": "A published block ends up on every chain", "statement": "Blocks that form a chain, each published by a node whose chain has accepted it, are in the end on the chains of all nodes that are connected to the publishers along nodes running this code: every node validates what it receives by handing it to its own applicator, passes on what its own chain accepts, and the order in which messages, attempts, answers of the chain and announcements happen does not matter; provided that no node is validating as many messages as gossip allows when one of the blocks arrives.", "quantifier": "for all networks, all chains of blocks, all fair executions in which finitely much comes in", "why_tests_cant": "It concerns infinitely long executions of any number of nodes, each with several goroutines, with hostile messages in between.", "anchors": ["internal/p2p/gossip.go:310-377", "internal/p2p/applicator.go:100-115", "internal/p2p/applicator.go:177-345", "internal/node/node.go:223-248", "internal/node/node.go:476-490"]}
{"id": "C145", "title": "Nodes spread only what their chain has accepted", "statement": "A block that a node sends to its neighbours by gossip, be it published or passed on, is one that the chain of this node was asked about, if it did not produce it itself, and has accepted.", "quantifier": "for all networks, all runs, all messages of other nodes, own or passed on, whatever nodes forget that they have seen", "why_tests_cant": "Violations need particular interleavings of several messages, attempts and time-outs; that there are no others cannot be seen from runs.", "anchors": ["internal/p2p/gossip.go:310-377", "internal/p2p/applicator.go:100-115", "internal/p2p/applicator.go:240-296", "internal/node/node.go:223-248"]}
{"id": "C146", "title": "Peers are reported only for blocks that were judged", "statement": "A node reports the peer that a block came from by gossip only if the block could not be read, or if its own chain or applicator has refused this very block, or could not judge it in time; what others send does not make it report the honest sender of a good block.", "quantifier": "for all networks, all runs, all messages of other nodes, own or passed on, whatever nodes forget that they have seen", "why_tests_cant": "Violations need two blocks of the same id from different senders in a particular order; that there are no other ways cannot be seen from runs.", "anchors": ["internal/p2p/gossip.go:310-377", "internal/p2p/applicator.go:142-187", "internal/p2p/error_handler.go:120-201"]}
{"id": "C147", "title": "Synchronisation spreads a chain over a network", "statement": "If the chain of some node has the blocks of a chain up to some height, then in the end so has the chain of every node to which there is a way along connections, each node on the way synchronising with the one before it: by synchronisation alone, whatever else goes on at these nodes, in whatever order rounds, applications of blocks and announcements happen, and though the nodes on the way are behind at first themselves.", "quantifier": "for all networks, all lengths of ways, all chains, all infinite fair executions", "why_tests_cant": "It concerns infinitely long executions of any number of nodes, each with several sessions on one applicator; tests have two nodes and one order of events.", "anchors": ["internal/p2p/peer_connection.go:92-220", "internal/p2p/connection_manager.go:228-255", "internal/p2p/applicator.go:100-115", "internal/p2p/applicator.go:177-345", "internal/rpc/peer_rpc_service.go"]}
{"id": "C148", "title": "A published transaction gets to the chain of every node", "statement": "If a node publishes a transaction that no chain refuses, then in the end the chain of every node that is connected to it by way of nodes that run this code has been given the transaction and has accepted it, or has announced a block with it, whatever other messages are sent and in whatever encodings.", "quantifier": "for all networks, all infinite fair executions, all messages of other nodes, own or passed on, whatever nodes forget that they have seen, all orders of events", "why_tests_cant": "It concerns infinitely long executions of any number of nodes, each with its transaction cache, and what hostile nodes send in between.", "anchors": ["internal/p2p/gossip.go:248-265", "internal/p2p/gossip.go:403-447", "internal/p2p/applicator.go:118-131", "internal/p2p/applicator.go:381-389", "internal/p2p/transaction_cache.go:30-90", "internal/node/node.go:250-265"]}
{"id": "C149", "title": "Nodes spread only transactions that their chain has accepted", "statement": "A transaction that a node sends to its neighbours by gossip is one that it published itself, having been told of it by its own chain, or one that its own chain was asked about and has accepted.", "quantifier": "for all networks, all runs, all messages of other nodes, own or passed on, whatever nodes forget that they have seen", "why_tests_cant": "Violations need several messages with the same transaction within the window of the cache; that there are no others cannot be seen from runs.", "anchors": ["internal/p2p/gossip.go:403-447", "internal/p2p/applicator.go:118-131", "internal/p2p/applicator.go:381-389", "internal/p2p/transaction_cache.go:30-90"]}
{"id": "C150", "title": "Honest nodes are not reported over transactions", "statement": "If all chains judge transactions alike, no node that runs this code is reported by another one over a transaction that it published or passed on, whatever other nodes send.", "quantifier": "for all networks, all runs, all messages of other nodes, own or passed on, whatever nodes forget that they have seen", "why_tests_cant": "It needs a network of at least three nodes and particular messages from a fourth; that there are no other ways cannot be seen from runs.", "anchors": ["internal/p2p/gossip.go:403-447", "internal/p2p/applicator.go:118-131", "internal/p2p/applicator.go:381-389", "internal/p2p/error_handler.go:120-201"]}
{"id": "C151", "title": "Messages are not displaced by junk", "statement": "A block or transaction that a neighbour sends to a node by gossip for the first time is validated by the node, however many other messages it has received and is still validating.", "quantifier": "for all networks, all numbers of validations that may go on at a time, all runs and their continuations", "why_tests_cant": "It takes more than a thousand validations that go on at the same time, and then the absence of any later effect.", "anchors": ["internal/p2p/gossip.go:63-84", "internal/p2p/gossip.go:310-336", "internal/p2p/gossip.go:403-416", "internal/node/node.go:160-180", "internal/node/node.go:476-490"]}
{"id": "C152", "title": "Early blocks are not held against those who pass them on", "statement": "A peer that passes on by gossip a block which the chain accepts is not charged, and the block is passed on, although the block is dated ahead of the clock of this node.", "quantifier": "every execution of the applicator, every block, every option", "why_tests_cant": "That a call cannot succeed in time in any schedule is a statement about all runs; it also takes clocks that differ by seconds.", "anchors": ["internal/p2p/gossip.go:310-377", "internal/p2p/applicator.go:98-116", "internal/p2p/applicator.go:240-265", "internal/options/gossip_options.go", "internal/options/applicator_options.go"]}
{"id": "C153", "title": "A topic that cannot be joined or subscribed to does no harm", "statement": "Joining a gossip topic, subscribing to it, registering its validator and publishing on it may fail at any call of the library. Whatever fails, and however switching on, switching off and publishing are interleaved, no nil pointer is used and no call gets stuck. Gossip on a topic counts as on exactly while there is one subscription, with its reader; a failed subscription changes nothing and can be tried again; on a topic that was not joined nothing is ever sent and every publication is answered with 'no'. When the node has said that it does not gossip, it has no subscription. In full one would also expect: when the node has said that it gossips, both topics are subscribed to; a topic is subscribed to only with a validator in place; a publication answered with 'yes' was taken by the library. These three hold if the library does not fail, and are refuted otherwise, because the errors are discarded.", "quantifier": "for every outcome of every call of the library, every sequence and interleaving of starting, stopping, registering and publishing, every sequence of switching on and off", "why_tests_cant": "the library hardly ever fails in a test, and the failures are only logged", "anchors": ["internal/p2p/gossip.go:36-122", "internal/p2p/gossip.go:197-247", "internal/p2p/gossip.go:287-292", "internal/p2p/gossip.go:380-385"]}

{"id": "C01", "title": "MVCC key encoding round-trips", "statement": "Encoding a user key (and timestamp) for storage and decoding it again returns exactly the same key and timestamp; hence two different (key, timestamp) pairs never share a stored key.", "quantifier": "every byte string of every length and every timestamp in [0, 2^63)", "why_tests_cant": "Keys are arbitrary byte strings; tests sample a handful of lengths and contents around group boundaries.", "anchors": ["src/mvcc/codec.cc: Codec::EncodeBytes, Codec::DecodeBytes, Codec::EncodeKey, Codec::DecodeKey", "src/common/serial_helper.cc: WriteLongWithNegation, ReadLongWithNegation"]}
{"id": "C02", "title": "Stored key order equals (key ascending, timestamp descending)", "statement": "The byte order of stored keys is the lexicographic order on user keys, and for one user key newer timestamps sort strictly before older ones; no stored key of one user key falls between two stored keys of another user key.", "quantifier": "every pair of byte strings and every pair of timestamps in [0, 2^63)", "why_tests_cant": "Order preservation is a statement about all pairs, including keys that are prefixes of each other, contain 0x00/0xFF runs or straddle group boundaries.", "anchors": ["src/mvcc/codec.cc: Codec::EncodeBytes, Codec::EncodeKey"]}
{"id": "C03", "title": "Encoded ranges contain exactly the versions of the user keys in the range", "statement": "For a user range [start,end), a stored version (key,ts) lies in the encoded range iff start <= key < end.", "quantifier": "all ranges, all keys and timestamps", "why_tests_cant": "Boundary behaviour at each byte string cannot be enumerated.", "anchors": ["src/mvcc/codec.cc: Codec::EncodeRange, Codec::DecodeRange", "src/common/helper.cc: Helper::PrefixNext"]}
{"id": "C04", "title": "A value written is read back unchanged, with its TTL and without crashing", "statement": "Packaging a value (plain, with TTL, or a deletion mark) and unpacking it returns the same kind, value and TTL, and reading any stored value never aborts the server.", "quantifier": "every value byte string, every TTL and every value kind", "why_tests_cant": "The empty value and values colliding with flag bytes are corner cases of an infinite space.", "anchors": ["src/mvcc/codec.cc: Codec::PackageValue, Codec::UnPackageValue, Codec::GetValueFlag, Codec::GetValueTTL"]}
{"id": "C05", "title": "The key decoder accepts only keys the encoder produces", "statement": "If decoding a stored key succeeds with user key k then the stored key is the encoding of k (decoder is strict), and decoding never reads out of bounds.", "quantifier": "every byte string given to the decoder", "why_tests_cant": "The accepted set is infinite; malformed inputs are not enumerated by tests.", "anchors": ["src/mvcc/codec.cc: Codec::DecodeBytes, DecodeBytesImpl"]}
{"id": "C06", "title": "Raw KV point read returns the newest live version", "statement": "A KvGet at timestamp ts returns the value of the write with the greatest timestamp <= ts to exactly that key if that write is a put that has not expired, and 'not found' otherwise.", "quantifier": "every store content, key, read timestamp and clock reading", "why_tests_cant": "Depends on the interleaving of versions, deletes and TTLs of neighbouring keys in the whole store.", "anchors": ["src/mvcc/iterator.cc: Iterator::NextVisibleKey, Iterator::Seek", "src/mvcc/reader.cc: KvReader::KvGet"]}
{"id": "C07", "title": "Raw KV scan, count, min and max agree with point reads", "statement": "A scan of [start,end) at ts returns, in strictly ascending key order and without duplicates, exactly the pairs (k,v) with start<=k<end for which KvGet(k,ts) returns v; count is their number, and min/max key are the first/last of them; a backward traversal visits the same pairs in reverse.", "quantifier": "every store content, range, read timestamp and clock reading", "why_tests_cant": "Completeness and absence of duplicates quantifies over every multi-version store content.", "anchors": ["src/mvcc/iterator.cc: NextVisibleKey, PrevVisibleKey, Next, Prev, SeekForPrev", "src/mvcc/reader.cc: KvScan, KvCount, KvMinKey, KvMaxKey"]}
{"id": "C08", "title": "Raw KV reads at a timestamp are stable under later writes and see the last write", "statement": "After any history of raw puts, TTL puts and deletes, a read at ts is unaffected by any write with a larger timestamp, and a read at or above the last write's timestamp to the key sees that write.", "quantifier": "every finite history of operations", "why_tests_cant": "Histories are unbounded.", "anchors": ["src/mvcc/reader.cc", "src/mvcc/codec.cc", "src/handler/raft_apply_handler.cc: PutHandler, DeleteBatchHandler"]}
{"id": "C09", "title": "Transactional point read returns the committed snapshot or reports a lock", "statement": "A snapshot-isolation TxnGet at start_ts either reports a conflicting lock, or returns for each key the value of the committed put with the greatest commit_ts <= start_ts provided no committed delete lies between, and 'absent' otherwise. Rollback and lock records are never visible.", "quantifier": "every state reachable by transactional operations, every key list and timestamp", "why_tests_cant": "Depends on arbitrary interleavings of records of many transactions.", "anchors": ["src/engine/txn_engine_helper.cc: TxnEngineHelper::BatchGet, TxnReader::GetWriteInfo, TxnReader::GetDataValue, CheckLockConflict"]}
{"id": "C10", "title": "Transactional scan agrees with point reads", "statement": "A snapshot-isolation TxnScan over a range returns, ascending and without duplicates, exactly the keys for which a TxnGet at the same timestamp returns a value, up to the limit, or reports a conflicting lock in the range.", "quantifier": "every reachable state, range, limit and timestamp", "why_tests_cant": "The merge of write and lock iterators over arbitrary contents is not enumerable.", "anchors": ["src/engine/txn_engine_helper.cc: TxnIterator::InnerNext, GotoNextUserKeyInWriteIter, GetCurrentValue; TxnEngineHelper::Scan"]}
{"id": "C11", "title": "Repeatable reads", "statement": "If a snapshot read of a key at ts succeeds, then repeating the read after any sequence of later transactional operations whose commit timestamps exceed ts returns the same answer or reports a lock, never a different value.", "quantifier": "every reachable state, read timestamp and finite sequence of subsequent operations", "why_tests_cant": "Quantifies over all later histories.", "anchors": ["src/engine/txn_engine_helper.cc: BatchGet, Commit, DoRollback, Prewrite"]}
{"id": "C12", "title": "Outcome of a transaction on a key is final and single-valued", "statement": "Once a transaction is recorded as committed on a key, no later operation makes it rolled back there or changes its commit timestamp, and once recorded rolled back it can never become committed there.", "quantifier": "every history of transactional operations with distinct transaction timestamps", "why_tests_cant": "Quantifies over all histories including arbitrary retries and races between commit, rollback and resolve.", "anchors": ["src/engine/txn_engine_helper.cc: Commit, BatchRollback, DoRollback, CheckTxnStatus, ResolveLock, PessimisticRollback, TxnCheckSecondaryLocks"]}
{"id": "C13", "title": "No lost updates (write-write conflict detection)", "statement": "If two transactions both commit a write on the same key, their intervals [start_ts, commit_ts] do not overlap: one's commit_ts is below the other's start_ts (optimistic) .", "quantifier": "every history of optimistic transactional operations with distinct timestamps", "why_tests_cant": "Quantifies over all interleavings of prewrites, commits and rollbacks of any number of transactions.", "anchors": ["src/engine/txn_engine_helper.cc: Prewrite, Commit"]}
{"id": "C14", "title": "Retries are idempotent", "statement": "Repeating a Prewrite, Commit, BatchRollback, PessimisticLock, HeartBeat or ResolveLock request immediately, or after it already took effect, succeeds (or reports the same outcome) and leaves the stored state unchanged.", "quantifier": "every reachable state and every request", "why_tests_cant": "Retries may come in any state.", "anchors": ["src/engine/txn_engine_helper.cc: Prewrite, Commit, BatchRollback, PessimisticLock, HeartBeat, ResolveLock"]}
{"id": "C15", "title": "Locks are exclusive and never stolen", "statement": "At any time a key carries at most one lock; a lock is removed or replaced only by an operation issued for the lock's own transaction, and no other transaction can write a lock or a commit record on the key while it is held.", "quantifier": "every history of transactional operations", "why_tests_cant": "Quantifies over all interleavings.", "anchors": ["src/engine/txn_engine_helper.cc: Prewrite, PessimisticLock, Commit, ResolveLock, PessimisticRollback, DoRollback"]}
{"id": "C16", "title": "A rolled-back transaction stays rolled back", "statement": "After BatchRollback (or CheckTxnStatus/CheckSecondaryLocks rolling it back) reports success for a key, every later Prewrite or Commit of that transaction on that key fails, until garbage collection removes the marker.", "quantifier": "every history of operations after the rollback", "why_tests_cant": "Late-arriving requests may come at any time.", "anchors": ["src/engine/txn_engine_helper.cc: BatchRollback, DoRollback, Prewrite, Commit, TxnReader::GetRollbackInfo"]}
{"id": "C17", "title": "A commit applies exactly the prewritten values", "statement": "When a transaction prewrites values on keys and Commit(commit_ts) succeeds, then reads at or above commit_ts (and below any newer commit) return exactly the prewritten value, reads below commit_ts are unaffected, and all its keys of the request become visible together.", "quantifier": "every reachable state, mutation list and timestamps", "why_tests_cant": "Depends on arbitrary surrounding versions and value sizes (short values are inlined).", "anchors": ["src/engine/txn_engine_helper.cc: Prewrite, DoTxnCommit, OnePCommit"]}
{"id": "C18", "title": "Pessimistic locks prevent stale locking", "statement": "A PessimisticLock at for_update_ts succeeds only if no other transaction holds a lock on the key and no commit on the key is newer than for_update_ts.", "quantifier": "every reachable state and request", "why_tests_cant": "All interleavings.", "anchors": ["src/engine/txn_engine_helper.cc: PessimisticLock"]}
{"id": "C19", "title": "Async-commit and one-phase commits never land below a served read", "statement": "A commit timestamp chosen by the store for an async-commit or one-phase transaction is greater than the timestamp of every snapshot read of the key that was served without seeing the transaction.", "quantifier": "every interleaving of the steps of concurrent reads and prewrites, and leader changes", "why_tests_cant": "A race between two threads with several atomic steps each; and leadership can move at any time.", "anchors": ["src/engine/txn_engine_helper.cc: GenFinalMinCommitTs", "src/engine/concurrency_manager.cc", "src/meta/store_meta_manager.h: SetTxnAccessMaxTs", "src/server/store_service.cc: DoTxnGet, DoTxnPrewrite"]}
{"id": "C20", "title": "Heartbeat only extends a lock's life", "statement": "HeartBeat never shortens a lock's TTL, changes nothing else, and fails if the transaction holds no lock.", "quantifier": "every state and request", "why_tests_cant": "All states.", "anchors": ["src/engine/txn_engine_helper.cc: HeartBeat"]}
{"id": "C21", "title": "CheckTxnStatus reports the true outcome and is safe", "statement": "CheckTxnStatus on a committed transaction returns its commit timestamp, on a rolled-back one reports rollback; it rolls back a live lock only if its TTL expired; pushing forward a live lock guarantees the transaction cannot later commit at or below the caller's timestamp.", "quantifier": "every reachable state and request", "why_tests_cant": "All states and timings.", "anchors": ["src/engine/txn_engine_helper.cc: CheckTxnStatus"]}
{"id": "C22", "title": "Resolving locks applies the primary's decision exactly", "statement": "ResolveLock with commit_ts>0 turns each named lock of that transaction into a commit at commit_ts, and with commit_ts=0 into a rollback; locks of other transactions are untouched.", "quantifier": "every reachable state, key list and timestamps", "why_tests_cant": "All states.", "anchors": ["src/engine/txn_engine_helper.cc: ResolveLock, BatchResolveLock"]}
{"id": "C23", "title": "Garbage collection preserves every read at or above the safe point", "statement": "Running transactional GC with safe point sp changes no snapshot read at any timestamp ts >= sp.", "quantifier": "every store content, safe point and read timestamp", "why_tests_cant": "Quantifies over all version histories.", "anchors": ["src/engine/txn_engine_helper.cc: TxnEngineHelper::DoGcCoreTxn, DoFinalWorkForTxnGc"]}
{"id": "C24", "title": "Interrupted garbage collection never resurrects deleted data", "statement": "If GC is stopped or the process crashes between any two of its write batches, reads at timestamps >= safe point are unchanged.", "quantifier": "every store content, safe point, batch size and interruption point", "why_tests_cant": "Crash points inside a multi-batch job.", "anchors": ["src/engine/txn_engine_helper.cc: DoGcCoreTxn, DoGcCoreNonTxn"]}
{"id": "C25", "title": "Raw (non-transactional) GC preserves every read at or above the safe point", "statement": "Running raw GC with safe point sp changes no KvGet at any ts >= sp.", "quantifier": "every store content, safe point, clock and read timestamp", "why_tests_cant": "All version histories.", "anchors": ["src/engine/txn_engine_helper.cc: DoGcCoreNonTxn"]}
{"id": "C26", "title": "Timestamps from one oracle leader are unique and increasing", "statement": "Within one leadership term, the timestamp ranges handed out by the oracle are disjoint and each later one is larger than all earlier ones, for every interleaving with clock updates, however the wall clock moves.", "quantifier": "every finite sequence of requests, timer ticks and wall-clock readings", "why_tests_cant": "Wall clock can jump arbitrarily.", "anchors": ["src/coordinator/tso_control.cc: GenTso, UpdateTimestamp, UpdateTso"]}
{"id": "C27", "title": "Timestamps are unique and increasing across leader changes and restarts", "statement": "No timestamp handed out by a new oracle leader equals or precedes one handed out by an earlier leader.", "quantifier": "every history of leader changes, crashes, replays and requests", "why_tests_cant": "Crash points and leadership changes are unbounded.", "anchors": ["src/coordinator/tso_control.cc: OnLeaderStart, SyncTimestamp, UpdateTso, LoadMetaFromSnapshotFile", "src/raft/meta_state_machine.cc: on_leader_start"]}
{"id": "C28", "title": "Store-local timestamp allocation is unique", "statement": "Timestamps obtained from the store's cached timestamp provider are pairwise distinct, lie in ranges obtained from the oracle, and exceed the caller's lower bound; a call that starts after another has returned gets a larger timestamp; a call that starts after the store's minimum timestamp was raised gets one above that minimum.", "quantifier": "every interleaving of concurrent callers and refills", "why_tests_cant": "Lock-free concurrency.", "anchors": ["src/mvcc/ts_provider.cc: BatchTs, BatchTsList, TsProvider::GetTs", "src/mvcc/ts_provider.h: BatchTsList::SetMinValidTs"]}
{"id": "C29", "title": "Auto-increment ranges never overlap", "statement": "The id ranges generated for a table are pairwise disjoint and increasing; with increment i and offset o every id handed out is congruent to o modulo i.", "quantifier": "every sequence of generate requests with any counts, increments and offsets, across leader changes", "why_tests_cant": "Unbounded histories and arithmetic ranges.", "anchors": ["src/coordinator/auto_increment_control.cc: ApplyMetaIncrement, GetGenerateEndId, GetRealStartId"]}
{"id": "C30", "title": "A non-forced auto-increment update never moves the counter backwards", "statement": "UpdateAutoIncrement without force either fails or leaves the counter larger than before, so ids are never reissued.", "quantifier": "every interleaving of concurrent update and generate requests", "why_tests_cant": "Races between validation and apply.", "anchors": ["src/coordinator/auto_increment_control.cc: UpdateAutoIncrement, ApplyMetaIncrement"]}
{"id": "C31", "title": "Coordinator KV store behaves as a versioned map", "statement": "After any history of puts and deletes, a range read returns exactly the current keys with the value of the last put, create revision = first put since the last delete, mod revision = last put, version = number of puts since creation.", "quantifier": "every history of put/delete/compact operations", "why_tests_cant": "Unbounded histories.", "anchors": ["src/coordinator/kv_control_kv.cc: KvPutApply, KvDeleteApply, KvRange, RangeRawKvIndex"]}
{"id": "C32", "title": "Compaction does not change current reads", "statement": "Compacting any keys at any revision leaves every current read unchanged.", "quantifier": "every reachable state, key list and revision", "why_tests_cant": "All histories.", "anchors": ["src/coordinator/kv_control_kv.cc: KvCompactApply, CompactionTask"]}
{"id": "C33", "title": "Range count equals number of keys", "statement": "A count-only range request returns the number of live keys in the range.", "quantifier": "every state and range", "why_tests_cant": "All states.", "anchors": ["src/coordinator/kv_control_kv.cc: KvRange"]}
{"id": "C34", "title": "Lease expiry deletes exactly the attached keys", "statement": "When a lease is revoked or expires, exactly the keys whose current value is attached to the lease are deleted.", "quantifier": "every history of puts, deletes, grants and revokes", "why_tests_cant": "Unbounded histories.", "anchors": ["src/coordinator/kv_control_lease.cc: LeaseRevoke, LeaseAddKeys, LeaseRemoveMultiLeaseKeys, BuildLeaseToKeyMap", "src/coordinator/kv_control_kv.cc: KvPut, KvDeleteRange"]}
{"id": "C35", "title": "A one-time watch never misses an event", "statement": "A watch registered on a key from a revision is answered by any later put (delete) of the key, and is answered at most once.", "quantifier": "every interleaving of watch registration and key updates", "why_tests_cant": "Race between threads.", "anchors": ["src/coordinator/kv_control_watch.cc: OneTimeWatch, TriggerOneWatch", "src/coordinator/kv_control_kv.cc: KvPutApply"]}
{"id": "C36", "title": "Replaying the log after a crash gives the same coordinator KV state", "statement": "If the coordinator crashes at any point while applying a log entry and replays, the resulting KV state equals the state of an uninterrupted apply.", "quantifier": "every log, crash point and replay", "why_tests_cant": "Crash points.", "anchors": ["src/coordinator/kv_control_fsm.cc: ApplyMetaIncrement"]}
{"id": "C37", "title": "Latches give mutual exclusion", "statement": "Two requests whose key sets intersect never hold their latches simultaneously; waiters are granted in arrival order.", "quantifier": "every interleaving of acquire and release of any number of requests", "why_tests_cant": "Concurrency.", "anchors": ["src/common/latch.cc: Latches::Acquire, Latches::Release, Latch::PopFront, MaybeShrink"]}
{"id": "C38", "title": "Latch acquisition cannot deadlock", "statement": "If some request is waiting for latches, some request holds all of its latches or can make progress; every waiter is eventually woken when all holders release.", "quantifier": "every reachable latch state", "why_tests_cant": "Concurrency.", "anchors": ["src/common/latch.cc: Lock::Lock, Latches::Acquire, Release"]}
{"id": "C39", "title": "Splitting a region keeps the key space partitioned", "statement": "Applying a split yields two non-empty adjacent disjoint ranges whose union is the old range, with increased epoch, and a stale-epoch split has no effect.", "quantifier": "every region set and split request", "why_tests_cant": "All ranges and histories.", "anchors": ["src/handler/raft_apply_handler.cc: HandlePreCreateRegionSplit, HandlePostCreateRegionSplit"]}
{"id": "C40", "title": "Merging adjacent regions keeps the key space partitioned", "statement": "Applying a merge of adjacent regions yields a target range that is the union; no key becomes unserved or served twice.", "quantifier": "every adjacent pair, epochs", "why_tests_cant": "All ranges.", "anchors": ["src/handler/raft_apply_handler.cc: CommitMergeHandler::Handle, PrepareMergeHandler::Handle"]}
{"id": "C41", "title": "Requests outside the region are rejected", "statement": "A key or range request accepted by a region concerns only keys in the region's range.", "quantifier": "every region range and request range", "why_tests_cant": "All byte strings.", "anchors": ["src/server/service_helper.cc: ValidateKeyInRange, ValidateRangeInRange, ValidateRegionEpoch"]}
{"id": "C42", "title": "Prefix upper bound is exact", "statement": "PrefixNext(p) is the least byte string greater than every string with prefix p.", "quantifier": "every byte string", "why_tests_cant": "All byte strings.", "anchors": ["src/common/helper.cc: Helper::PrefixNext"]}
{"id": "C43", "title": "Vector/document keys round-trip and sort by partition and id", "statement": "Encoding (partition, id) of a vector or document and decoding returns them; keys of one partition are contiguous and sorted by id; ids decoded from a region range bound exactly the ids whose keys are in the region.", "quantifier": "every prefix byte, partition id > 0, id >= 0, timestamp", "why_tests_cant": "All values.", "anchors": ["src/vector/codec.cc", "src/document/codec.cc"]}
{"id": "C44", "title": "GC safe points never regress, follow what clients ask for, and are obeyed by stores", "statement": "A GC safe point or resolve-lock safe point that UpdateGCSafePoint has made durable on a coordinator never decreases there, through lower requests, crashes, snapshot installs and changes of leader, for the default tenant and for every tenant that is not created or dropped meanwhile. A request answered with success is followed: every coordinator that has applied its entry holds at least the point asked for, and so does any later leader. Every point a coordinator serves, a store holds or a garbage collection uses was asked for by a client for that tenant. A store holds exactly what the last answer to its poll said, and after an answer with the stop flag it starts no garbage collection for the tenants of that answer until the next one.", "quantifier": "every number of coordinators and stores, every history of safe-point and tenant requests, every interleaving of their evaluation, proposal, commit and apply with crashes, snapshots, elections, polls and garbage collections", "why_tests_cant": "The points live in three places (temporary map, applied map, tenant map) updated by different threads, and go back or get lost only under particular schedules of concurrent requests and elections.", "anchors": ["src/coordinator/coordinator_control_coor.cc UpdateGCSafePoint, GetGCSafePoint", "src/coordinator/coordinator_control_fsm.cc ApplyMetaIncrement, OnLeaderStart, LoadMetaFromSnapshotFile", "src/coordinator/coordinator_meta_storage.h UpdatePresentId", "src/coordinator/coordinator_control_meta.cc CreateTenant, DropTenant, UpdateTenant", "src/server/coordinator_service.cc DoUpdateGCSafePoint", "src/engine/gc_safe_point.cc GCSafePointManager", "src/engine/txn_engine_helper.cc RegularUpdateSafePointTsHandler, RegularDoGcHandler"]}
{"id": "C45", "title": "Log term lookup is exact", "statement": "After any sequence of appends, truncations of either end, resets and restarts, the term a raft node gets for any index of its log is the term the entry was appended with, whether or not the term cache is on.", "quantifier": "every history of calls, every index", "why_tests_cant": "The cache stores only the index where each term starts and is cut at both ends in any order; every history must keep it exact.", "anchors": ["src/log/index_term_map.cc: Append, TruncatePrefix, TruncateSuffix, GetTerm", "src/log/rocks_log_storage.cc: get_term, append_entries, RegisterIdTermToMap"]}
{"id": "C46", "title": "Put-if-absent writes exactly the absent keys", "statement": "KvPutIfAbsent reports success for exactly the keys that had no live value and stores exactly those pairs; with the atomic flag it stores all pairs if every key was absent and otherwise nothing; at most one write per key ever succeeds.", "quantifier": "every store content, batch, timestamp, TTL and clock reading", "why_tests_cant": "Depends on every combination of present, deleted and expired keys in a batch.", "anchors": ["src/engine/raft_store_engine.cc: RaftStoreEngine::Writer::KvPutIfAbsent", "src/mvcc/reader.cc: KvReader::KvGet"]}
{"id": "C47", "title": "Compare-and-set swaps exactly the matching keys", "statement": "KvCompareAndSet reports success for exactly the keys whose current value equals the expectation (an empty expectation also matches an absent key) and changes exactly those keys; with the atomic flag any mismatch leaves everything unchanged.", "quantifier": "every store content, batch, expectations, timestamp and clock reading", "why_tests_cant": "Depends on every combination of matching and non-matching keys.", "anchors": ["src/engine/raft_store_engine.cc: RaftStoreEngine::Writer::KvCompareAndSet"]}
{"id": "C49", "title": "CheckSecondaryLocks tells the truth", "statement": "TxnCheckSecondaryLocks returns only locks really held by the transaction on the listed keys; when it reports a commit timestamp some listed key was committed by that transaction at that timestamp; otherwise either the lock of every listed key is returned, or the transaction is durably rolled back on one of the listed keys, so it can no longer be prewritten there.", "quantifier": "every reachable store state, every start timestamp and key list", "why_tests_cant": "Recovery of async-commit transactions trusts the answer in every interleaving of prewrites, commits and rollbacks.", "anchors": ["src/engine/txn_engine_helper.cc: TxnEngineHelper::TxnCheckSecondaryLocks"]}
{"id": "C50", "title": "Pessimistic prewrite needs the expected lock", "statement": "A TxnPrewrite that names the for_update_ts under which it locked a key has no effect, and does not report success, when the key's lock belongs to another transaction or carries another for_update_ts, or when the lock is gone.", "quantifier": "every history of requests, every prewrite request and every key in it", "why_tests_cant": "The lock can be lost or replaced by any interleaving of rollbacks, resolutions and re-locks between the lock and the prewrite.", "anchors": ["src/engine/txn_engine_helper.cc: TxnEngineHelper::Prewrite"]}
{"id": "C51", "title": "PessimisticRollback gives up exactly the right locks", "statement": "TxnPessimisticRollback succeeds exactly when every listed key is unlocked or holds the transaction's own pessimistic lock with for_update_ts not above the given one; it then removes exactly these locks. Otherwise it returns the offending locks and changes nothing. Committed data is never touched.", "quantifier": "every history of requests, every start_ts, for_update_ts and key list", "why_tests_cant": "Ranges over every mix of own, foreign, newer and prewritten locks.", "anchors": ["src/engine/txn_engine_helper.cc: TxnEngineHelper::PessimisticRollback"]}
{"id": "C52", "title": "TxnScanLock reports exactly the locks of a range", "statement": "TxnScanLock over a range returns, ascending and without repetition, exactly the locks of transactions that started before max_ts; over the pages of one stream each lock is returned once and the stream comes to an end.", "quantifier": "every reachable state, range, max_ts, page limit and number of pages", "why_tests_cant": "Tests look at one page of a few locks; the claim is about every split of every set of locks into pages.", "anchors": ["src/engine/txn_engine_helper.cc: TxnEngineHelper::ScanLockInfo, TxnScanLockStreamState", "src/engine/storage.cc: Storage::TxnScanLock", "src/common/stream.cc: Stream::Check", "src/server/store_service.cc: DoTxnScanLock"]}
{"id": "C53", "title": "Garbage collection keeps the outcome of transactions that still hold locks", "statement": "After GC with safe point sp, a transaction that had committed or rolled back before and still has a lock left on some key is still reported by CheckTxnStatus with the outcome it had; so the lock is resolved as its transaction was.", "quantifier": "every reachable state, safe point, batch size, and history of requests during the job", "why_tests_cant": "Needs every placement of a GC job between the commit of a primary and of its secondaries.", "anchors": ["src/engine/txn_engine_helper.cc: TxnEngineHelper::DoGcCoreTxn, DoFinalWorkForTxnGc, CheckTxnStatus, ResolveLock"]}
{"id": "C54", "title": "An elected timestamp-oracle leader serves requests", "statement": "A leader of the timestamp oracle whose clock update has been applied eventually answers a request for any admissible number of timestamps.", "quantifier": "every history of elections, lost leaderships, crashes and clock readings", "why_tests_cant": "It depends on the history of earlier leaderships of the same process.", "anchors": ["src/coordinator/tso_control.cc: OnLeaderStart, SyncTimestamp, GenTso, ResetTso"]}
{"id": "C55", "title": "The raft log of a region is served exactly", "statement": "Once an append of a raft node has returned, every entry of it reads back byte for byte with its term, whatever other regions, other log clients, batching, restarts and machine stops do, until the node itself truncates, resets or destroys that part; an index after the end reads as absent; reads never abort the process.", "quantifier": "every set of regions and clients, every history of calls, every composition of batches, every restart and stop", "why_tests_cant": "Regions share one key space and one write queue; the claim is about all interleavings and all stop points.", "anchors": ["src/log/rocks_log_storage.cc: append_entries, GetEntry, GetTerm, ExecuteRoutine, TruncatePrefix, TruncateSuffix, ResetLog, DestroyRegionLog, InitIndexMeta"]}
{"id": "C56", "title": "Log entries are kept until every client released them", "statement": "An acknowledged log entry that its node did not cut off at the end stays readable until every registered client of the log (the raft node, the vector index) has released it.", "quantifier": "every history, every subset of clients", "why_tests_cant": "It depends on the order of the clients' truncations, on restarts and on pending batches.", "anchors": ["src/log/rocks_log_storage.cc: TruncatePrefix, RegisterRegion", "src/handler/raft_vote_handler.cc", "src/vector/vector_index_snapshot_manager.cc"]}
{"id": "C57", "title": "The reported log window is what can be read", "statement": "The entries between the first and the last index the log storage reports for a region are exactly the entries it can return.", "quantifier": "every history of calls, batches and restarts", "why_tests_cant": "The window is kept in memory apart from the stored entries and rebuilt from them at a restart.", "anchors": ["src/log/rocks_log_storage.cc: AdjustIndexMeta, GetFirstLogIndex, GetLastLogIndex, InitIndexMeta"]}
{"id": "C58", "title": "Range reads of the raft log are exact", "statement": "Reading a range of a region's raft log returns exactly the entries stored for that region in the range, in index order; the data-only and configuration-only reads return exactly those of that type.", "quantifier": "every history, every region, every range", "why_tests_cant": "Regions share one ordered key space; every boundary of region id and index must be encoded in order.", "anchors": ["src/log/rocks_log_storage.cc: GetEntries, GetDataEntries, GetConfigurations, EncodeLogKey"]}
{"id": "C59", "title": "A coordinator replica that starts from a snapshot answers as the others", "statement": "A coordinator replica that installs a snapshot of the key-value store and then applies the rest of the log answers every range read, with values, revisions, versions and leases, as a replica that applied the whole log.", "quantifier": "every log, every position of the snapshot, every read", "why_tests_cant": "Any position of the snapshot in any log; counters that were never written are not part of the snapshot.", "anchors": ["src/coordinator/kv_control_fsm.cc: LoadMetaFromSnapshotFile", "src/coordinator/kv_control.cc: InitIds, Recover"]}
{"id": "C60", "title": "Puts and deletes of the coordinator's key-value store do what they answer", "statement": "A put that is answered with success gives the key the value (or keeps it, if asked) and the lease (or keeps it, if asked), at a new revision, changes no other key, and returns the value it replaced. A delete removes exactly the existing keys of its range and answers how many and which. A refused request changes nothing.", "quantifier": "every history of puts, deletes, leases, compactions and leaders, every request and combination of options", "why_tests_cant": "All combinations of options with all states of key and lease, and every schedule of concurrent requests.", "anchors": ["src/coordinator/kv_control_kv.cc: KvPut, KvDeleteRange", "src/server/version_service.cc: DoKvPut, DoKvDeleteRange"]}
{"id": "C61", "title": "A lease lives as long as it was granted for", "statement": "A lease is granted under an unused id with the time to live asked for, limited to the configured bounds. A renewal starts the time again and changes nothing else. A granted lease exists until it is revoked or a check of the leader finds that its time has run out, whatever else is executed and however leaders change.", "quantifier": "every history of requests and leaders, every clock", "why_tests_cant": "Unbounded histories, changes of leaders at any point.", "anchors": ["src/coordinator/kv_control_lease.cc: LeaseGrant, LeaseRenew, LeaseRevoke, LeaseTask, BuildLeaseToKeyMap"]}
{"id": "C62", "title": "A read is refused for a prewrite only while that prewrite is under way", "statement": "A snapshot read that is refused because a concurrent prewrite holds one of its keys in memory was refused for a transaction that had begun to prewrite that very key below the read's timestamp. Once every prewrite of a key has ended, successfully or not, no read of it is refused for one; and a read that waits for a prewrite gets past as soon as that prewrite has picked its timestamp or ended.", "quantifier": "every interleaving of the steps of reads and prewrites, every way a prewrite can end, leader changes", "why_tests_cant": "A lock left behind in memory shows only after a particular interleaving or failure, and then for ever.", "anchors": ["src/engine/concurrency_manager.cc: LockKey, UnlockKeys, CheckKeys, CheckRange", "src/server/store_service.cc: DoTxnPrewrite, DoTxnGet", "src/server/index_service.cc: DoTxnPrewriteVector", "src/server/document_service.cc: DoTxnPrewriteDocument"]}
{"id": "C63", "title": "Concurrent requests do not overwrite each other's locks", "statement": "Whatever prewrites, pessimistic locks, commits and rollbacks run concurrently, a lock that is on disk is removed or changed only by a request of the transaction it belongs to.", "quantifier": "every interleaving of the steps of concurrent requests, at any distance between reading the lock and writing it", "why_tests_cant": "Requests read the lock, go through the log and write it later: the property must hold for every schedule between the two.", "anchors": ["src/server/store_service.cc: DoTxnPrewrite, DoTxnPessimisticLock, DoTxnCommit", "src/server/index_service.cc: DoTxnPrewriteVector", "src/server/document_service.cc: DoTxnPrewriteDocument", "src/common/latch.cc", "src/engine/txn_engine_helper.cc: Prewrite, DoPreWrite"]}
{"id": "C64", "title": "A vector index holds exactly the vectors of its region's data", "statement": "For every region with a vector index, once an index is in place, it holds for every id that no unapplied write names exactly the vector the region's data holds for it: the last one written, or none if it was deleted or never written. This is so however often the index is rebuilt, loaded from a file, caught up from the log, switched or saved while writes go on, and after any crash and restart. The data itself always holds the last applied write of every id.", "quantifier": "every log of vector adds, deletes, batches, transactional writes and rebuild commands, refused entries included; every interleaving of the apply thread with build, load, catch-up, switch and save tasks; crashes at every step", "why_tests_cant": "A vector missing from the index is only missed in search results; whether one is lost depends on where a switch, a save or a crash falls between the steps of applying one log entry.", "anchors": ["src/handler/raft_apply_handler.cc: VectorAddHandler, VectorDeleteHandler, VectorBatchAddHandler, RebuildVectorIndexHandler", "src/handler/raft_apply_handler_txn.cc: HandleMultiCfPutAndDeleteRequest", "src/vector/vector_index_manager.cc: ReplayWalToVectorIndex, BuildVectorIndex, CatchUpLogToVectorIndex", "src/vector/vector_index.cc: UpdateVectorIndex, Add, Upsert, Delete, SaveMeta, LoadMeta", "src/vector/vector_index_snapshot_manager.cc: SaveVectorIndexSnapshot, LoadVectorIndexSnapshot", "src/log/rocks_log_storage.cc: GetEntries", "src/raft/store_state_machine.cc: on_apply"]}
{"id": "C65", "title": "Adding and deleting vectors changes exactly the ids named", "statement": "After a successful add of vectors an index holds for each id given the vector given and nothing else under that id; after a successful delete it holds nothing under the ids named; the other ids keep what they had, whatever the outcome, whatever the kind of index, the batch size and the order in which batches are worked off. An index never holds a vector it was not given under that id, and never two under one id.", "quantifier": "every kind of index (flat, inverted file, HNSW), all contents, all lists of vectors and ids, all batch sizes, all orders of batches, all sequences of calls", "why_tests_cant": "The result depends on repeated ids, ids not present, and how a list falls into batches that run in parallel.", "anchors": ["src/vector/vector_index_flat.cc: AddOrUpsert, Delete", "src/vector/vector_index_ivf_flat.cc: AddOrUpsert, Delete", "src/vector/vector_index_hnsw.cc: AddOrUpsert, Delete, ParallelFor", "src/vector/vector_index.cc: SplitVectorWithId, ParallelRun, AddByParallel, UpsertByParallel, DeleteByParallel, VectorIndexWrapper::Add, VectorIndexWrapper::Upsert"]}
{"id": "C66", "title": "A commit timestamp the store picks is one for the whole request and within its bounds", "statement": "When a prewrite request commits in one phase, every key it is to change gets exactly one record, no other key does, and all records carry one commit timestamp, which lies above the request's start timestamp, is not below the min_commit_ts asked for and not above the max_commit_ts allowed. The min_commit_ts put into async-commit locks is not above max_commit_ts either; a request that cannot stay below falls back to an ordinary prewrite.", "quantifier": "every interleaving of reads, prewrites, commits, rollbacks, pessimistic locks, pushes of locks by readers, changes of leader, splits and merges, and every request", "why_tests_cant": "The timestamp depends on what was read, locked and pushed at the same time and on the keys' order in the request.", "anchors": ["src/engine/txn_engine_helper.cc: GenFinalMinCommitTs, GenPrewriteDataAndLock, OnePCommit, Prewrite, CheckTxnStatus", "src/server/store_service.cc: DoTxnPrewrite, DoTxnCheckTxnStatus"]}
{"id": "C48", "title": "Replicas that have applied the same log hold the same data", "statement": "A replica of a region that has applied all of the region's log holds, for every key of the region, exactly what the log says, and so agrees with every other such replica, whatever crashes, restarts, snapshots and splits came before. A replica that was down can catch up. Applying the log changes no key outside the region, and a split leaves the child with the data of its range.", "quantifier": "every interleaving of requests, replication, applies, writes of the applied index, snapshots, trims of the log, crashes, restarts, splits, and replicas added later", "why_tests_cant": "The applied index is written only now and then, so entries are applied again after a crash over data that are already ahead; what they do depends on where the crash falls between writes, splits and snapshots.", "anchors": ["src/raft/store_state_machine.cc: StoreStateMachine::on_apply, on_snapshot_save", "src/handler/raft_apply_handler.cc: PutHandler, DeleteRangeHandler, DeleteBatchHandler, HandlePreCreateRegionSplit", "src/handler/raft_apply_handler_txn.cc: HandleMultiCfPutAndDeleteRequest, HandleTxnDeleteRangeRequest", "src/coordinator/coordinator_control_coor.cc: ChangePeerRegionWithJob", "src/store/region_controller.cc: CreateRegionTask::CreateRegion"]}
{"id": "C67", "title": "A snapshot sent to a replica leaves it with the region's data, and other regions alone", "statement": "A replica that is sent a snapshot ends up with the data, the range and the version the region had when the snapshot was made, or with what the log entries after the snapshot make of them, also if it crashes at any point and is started again. The data of other regions of its store stay as they are.", "quantifier": "every interleaving of writes, applies, snapshots opened and installed, steps of a load, crashes and restarts, and writes of other regions on the same stores", "why_tests_cant": "A load removes the old data, reads files in one by one, removes the files and writes the applied index; a crash may fall between any two of these, and the snapshot is read while the sender goes on applying.", "anchors": ["src/raft/store_state_machine.cc: StoreStateMachine::on_snapshot_load, MakeSnapshotContext", "src/handler/raft_snapshot_handler.cc: RaftSnapshot::LoadSnapshotDingo, HandleRaftSnapshotRegionMeta, SaveSnapshotByDingo", "src/raft/dingo_filesystem_adaptor.cc: DingoDataReaderAdaptor::read, OpenReaderAdaptor"]}
{"id": "C68", "title": "A paged scan returns one consistent listing", "statement": "A client that opens a scan session and keeps asking for more receives, over all pages in order, exactly what one scan of the range returned at the moment Begin was answered: every pair once, in ascending order, with the values and timestamp of that moment, whatever is written, deleted, split or collected in between and whatever page sizes it asks for. It has received everything once a page is empty or says there is no more. No page exceeds the number of pairs asked for or the server's limits.", "quantifier": "every content of the store, every range and timestamp, every sequence of page sizes, every interleaving with writes, other sessions, concurrent Continue requests and the cleaner", "why_tests_cant": "Pages are cut by three limits and taken by several threads from an iterator on changing data; the claim is about all cuts and all interleavings.", "anchors": ["src/scan/scan.cc: ScanHandler::ScanBegin, ScanContinue, ScanContext::GetKeyValue", "src/scan/scan_filter.cc: ScanFilter::UptoLimit", "src/mvcc/iterator.cc: Iterator::Seek, Next, NextVisibleKey", "src/engine/storage.cc: Storage::KvScanBegin, KvScanContinue", "src/server/store_service.cc: KvScanBegin, KvScanContinue, KvScanBeginV2, KvScanContinueV2"]}
{"id": "C69", "title": "A scan session lives until it is released or idle, and sessions do not disturb each other", "statement": "A session whose Begin was answered can be continued until the client releases it or leaves it idle for the timeout; requests of other sessions do not end it or get its pairs. After Release it hands out nothing more and, unless the client asked otherwise, its id is free at once. A session left idle for the timeout is removed by the next cleaning. An id in use is refused to another Begin.", "quantifier": "every interleaving of Begin, Continue and Release requests, their steps inside the server, runs of the cleaner and clock readings", "why_tests_cant": "A request finds the session, uses it and deletes it under different locks; whether a session dies by mistake depends on how these steps interleave with other requests naming the same id.", "anchors": ["src/scan/scan_manager.cc: ScanManager::CreateScan, FindScan, DeleteScan, TryDeleteScan, RegularCleaningHandler, ScanManagerV2", "src/scan/scan.cc: ScanContext::Open, IsRecyclable, ScanHandler::ScanRelease", "src/engine/storage.cc: Storage::KvScanBegin, KvScanContinue, KvScanRelease"]}
{"id": "C70", "title": "Ids handed out by the coordinator are unique", "statement": "No two answers of CreateTableId, CreateTableIds, CreateIndexId and GenerateTableIds contain the same id, and no two answers of CreateSchema the same schema id, whatever clients ask at the same time and however often the leader changes. The ids of a request begun after other ids were answered are larger than those. A request gets as many ids as it asked for, in one ascending run, and is answered at most once.", "quantifier": "every interleaving of requests, applied entries, failures, changes of the leader and restarts, every number of ids", "why_tests_cant": "The next id lives in memory of the leader only and is rebuilt by a new one; whether an id is given twice depends on how requests interleave with the change of the leader.", "anchors": ["src/coordinator/coordinator_control.cc:GetNextIds", "src/coordinator/coordinator_meta_storage.h:GetNextId", "src/coordinator/coordinator_control_fsm.cc:BuildTempMaps", "src/server/meta_service.cc:DoCreateTableId", "src/coordinator/coordinator_control_meta.cc:CreateSchema"]}
{"id": "C71", "title": "Names of schemas, tables and indexes are unique", "statement": "Within a schema no two tables and no two indexes have the same name, and within a tenant no two schemas. A creation under a name in use is refused; a name is free again once what had it is dropped, and a request that is refused has changed nothing.", "quantifier": "every interleaving of creations and drops by any number of clients, failures of the log, changes of the leader and restarts", "why_tests_cant": "Names are reserved in maps that only the leader has, before the entry is written; two creations race with each other, with drops, failures and a new leader.", "anchors": ["src/coordinator/coordinator_control_meta.cc:CreateTable", "src/coordinator/coordinator_control_meta.cc:CreateIndex", "src/coordinator/coordinator_control_meta.cc:CreateSchema", "src/coordinator/coordinator_control_meta.cc:DropTableIndexes", "src/server/meta_service.cc:DoCreateTables"]}
{"id": "C72", "title": "Metadata requests cannot bring the coordinators down", "statement": "No sequence of metadata requests, whatever clients send at the same time, makes applying an entry end the coordinators; every request that was taken and whose leader stays is answered.", "quantifier": "every interleaving of requests for tenants, schemas, tables and indexes with applied entries", "why_tests_cant": "An entry is checked against the metadata of the moment and applied to that of a later moment; the abort is reached only by particular interleavings.", "anchors": ["src/coordinator/coordinator_control_fsm.cc:ApplyMetaIncrement", "src/coordinator/coordinator_control_meta.cc:DropSchema", "src/raft/meta_state_machine.cc:on_apply"]}
{"id": "C73", "title": "Metadata listed is what was created and not dropped", "statement": "A table or index whose creation was acknowledged exists until it is dropped; what exists was created, in the schema it is in. GetTables and GetIndexes list everything in the schema once and nothing else, GetTablesCount counts it, and everything listed is found by id and by name.", "quantifier": "every history of requests, applied entries, failures, changes of the leader and restarts", "why_tests_cant": "Objects, the lists of schemas and the name maps are changed by different writes and requests; that they agree must hold after every history.", "anchors": ["src/coordinator/coordinator_control_fsm.cc:ApplyMetaIncrement", "src/coordinator/coordinator_control_meta.cc:GetTables", "src/coordinator/coordinator_control_meta.cc:GetIndexes", "src/coordinator/coordinator_control_meta.cc:GetTableByName", "src/coordinator/coordinator_control_meta.cc:GetTable"]}
{"id": "C74", "title": "Dropping tables drops exactly what was named", "statement": "DropTables is accepted exactly if every table and index named exists where it is said to be; when it is answered the tables and indexes named, and the indexes of the tables, are gone, and everything else is as before. Every table can be dropped.", "quantifier": "every history of metadata requests and every list of tables and indexes", "why_tests_cant": "A drop is checked against the metadata of the moment and applied later, among entries of other requests; that nothing else is lost must hold for every list and history.", "anchors": ["src/server/meta_service.cc:DoDropTables", "src/server/meta_service.cc:DoDropTable", "src/coordinator/coordinator_control_meta.cc:DropTable", "src/coordinator/coordinator_control_meta.cc:DropTableIndexes"]}
{"id": "C75", "title": "A crash of a coordinator while metadata changes leaves the metadata as without it", "statement": "If a coordinator ends at any point while it applies an entry and starts again, it ends up with the metadata of one that did not: the same tenants, schemas, tables, indexes, lists and next ids.", "quantifier": "every log of metadata changes, every write at which the process may end, any number of times", "why_tests_cant": "The writes of an entry are durable one by one; every crash point of every kind of entry has to be tried.", "anchors": ["src/coordinator/coordinator_control_fsm.cc:ApplyMetaIncrement", "src/coordinator/coordinator_meta_storage.h:Put", "src/raft/meta_state_machine.cc:on_apply"]}
{"id": "C76", "title": "Tenants and schemas are dropped only when empty, and stay dropped", "statement": "A tenant with schemas, or a schema with tables or indexes in it, cannot be dropped; every schema is in a tenant that exists and every table and index in a schema that exists; the id of a dropped schema is not used again.", "quantifier": "every interleaving of requests, applied entries, failures and changes of the leader", "why_tests_cant": "What is empty when the drop is checked need not be when it is applied; creations race with drops.", "anchors": ["src/coordinator/coordinator_control_meta.cc:DropSchema", "src/coordinator/coordinator_control_meta.cc:DropTenant", "src/coordinator/coordinator_control_meta.cc:CreateTenant", "src/coordinator/coordinator_control_meta.cc:CreateSchema"]}
{"id": "C77", "title": "An index belongs to a table that lists it", "statement": "The table of an index exists, is in the same schema and lists the index; GetTableIndexes returns a table and exactly its indexes; a table with its indexes can be dropped.", "quantifier": "every interleaving of creating and dropping tables and indexes, adding indexes to tables and dropping them from tables", "why_tests_cant": "The list of a table and its indexes are changed by different requests and by different writes of an entry.", "anchors": ["src/coordinator/coordinator_control_meta.cc:AddIndexOnTable", "src/coordinator/coordinator_control_meta.cc:DropIndexOnTable", "src/coordinator/coordinator_control_meta.cc:GetTableIndexes", "src/coordinator/coordinator_control_meta.cc:RemoveTableIndex"]}
{"id": "C78", "title": "Reading vectors by id returns exactly the vectors there are", "statement": "VectorBatchQuery answers with one entry for each id asked for, in that order: the vector with the data asked for, as written by the newest write up to the timestamp, if it has not been deleted and has not expired, and an empty entry otherwise. It always answers. VectorDelete tells for each id whether there was such a vector. A read at a timestamp is not changed by later writes.", "quantifier": "every history of adds and deletes with any timestamps and times of expiry, every query, and every interleaving of the reads of a query with writes", "why_tests_cant": "A vector is kept as rows of four column families and many versions; every combination of versions, tombstones, expiry and reading time has to agree.", "anchors": ["src/vector/vector_reader.cc:VectorReader::VectorBatchQuery", "src/vector/vector_reader.cc:VectorReader::QueryVectorWithId", "src/handler/raft_apply_handler.cc:VectorAddHandler", "src/mvcc/reader.cc:KvReader::KvGet", "src/server/index_service.cc:DoVectorDelete"]}
{"id": "C79", "title": "Scanning the vectors of a region returns exactly those asked for", "statement": "VectorScanQuery returns the first vectors, as many as the limit, of those in the range of ids that exist at the timestamp and match the filter, in ascending order, or descending if asked for; pages put together are one scan. VectorGetBorderId returns the smallest or greatest id and VectorCount the number of vectors. They always answer.", "quantifier": "every history, every range, direction, limit, filter and timestamp, and every interleaving of a scan with writes", "why_tests_cant": "Forward and backward iteration over versions is a small state machine that has to be right for every arrangement of versions, tombstones and expired values.", "anchors": ["src/vector/vector_reader.cc:VectorReader::VectorScanQuery", "src/vector/vector_reader.cc:VectorReader::ScanVectorId", "src/vector/vector_reader.cc:VectorReader::GetBorderId", "src/vector/vector_reader.cc:VectorReader::VectorCount", "src/mvcc/iterator.cc:Iterator"]}
{"id": "C80", "title": "A filter on scalar data accepts exactly the vectors that have it", "statement": "The vectors a search with a scalar pre-filter is restricted to are those of the region that have all the fields asked for with the values asked for, whether whole scalar data is read or only fields with rows of their own.", "quantifier": "every schema, history, region and filter", "why_tests_cant": "Two different readings of two column families have to give the same answer for every history and schema.", "anchors": ["src/vector/vector_reader.cc:VectorReader::DoVectorSearchForScalarPreFilter", "src/vector/vector_reader.cc:VectorReader::InternalVectorSearchForScalarPreFilterWithScalarCF", "src/vector/vector_reader.cc:VectorReader::InternalVectorSearchForScalarPreFilterWithScalarKeySpeedUpCF", "src/common/helper.cc:Helper::IsEqualVectorScalarValue"]}
{"id": "C81", "title": "A vector search finds the nearest of the vectors searched", "statement": "A vector search with an exact index answers every query with the k nearest of the vectors of the region that the filters let pass, with their distances, nearest first, none twice and none nearer missed, or with all within the radius for a range search; with one index or two put together after regions were merged, and by brute force over the data, in batches of any size. A filter by ids lets pass exactly the ids listed, or the others.", "quantifier": "every index content, history of writes, region, metric, list of filters, number of results, list of queries, size of batches and order in which parallel tasks end", "why_tests_cant": "The answer is put together from parallel tasks, batches, heaps and merges of sorted lists; whether something nearer is lost on the way depends on every combination of distances, ties and batch borders.", "anchors": ["src/vector/vector_index.cc:VectorIndex::SearchByParallel", "src/vector/vector_index.cc:MergeSearchResult", "src/vector/vector_index.cc:VectorIndexWrapper::Search", "src/vector/vector_index_flat.cc:VectorIndexFlat::Search", "src/vector/vector_index_utils.cc:VectorIndexUtils::FillSearchResult", "src/vector/vector_index.h:VectorIndex::SortFilterFunctor", "src/vector/vector_reader.cc:VectorReader::BruteForceSearch"]}
{"id": "C82", "title": "A vector search finds the nearest of the vectors written", "statement": "VectorSearch answers every query with the top_n nearest of the vectors that exist in the region according to the writes acknowledged, restricted to the ids or the scalar data asked for, and what it says of each is what was written.", "quantifier": "every history of writes with any timestamps and times of expiry, every request and kind of filter", "why_tests_cant": "The index, the vectors and their scalar data are kept in separate places that follow the writes by different orders (log, timestamp, clock); agreement is a statement about all histories.", "anchors": ["src/vector/vector_reader.cc:VectorReader::SearchVector", "src/vector/vector_reader.cc:VectorReader::CompareVectorScalarData", "src/vector/vector_reader.cc:VectorReader::DoVectorSearchForScalarPreFilter", "src/vector/vector_reader.cc:VectorReader::DoVectorSearchForVectorIdPreFilter", "src/engine/storage.cc:Storage::VectorAdd"]}
{"id": "C83", "title": "The coordinator finds the regions by their keys", "statement": "ScanRegions answers with exactly the regions that have a key of the range asked for, in key order (with a limit, the first so many), and with the one region that has a single key asked for, after every history of creations, drops, splits, merges and reports of stores, whatever order the reports come in, and after every change of coordinator leader.", "quantifier": "every history of increments and changes of leader, every order of reports, every range, key and limit", "why_tests_cant": "The map from start keys to regions is changed by each increment separately from the regions themselves; whether an entry is lost depends on the order in which the records of two regions that exchange keys are learned.", "anchors": ["src/coordinator/coordinator_control_coor.cc:CoordinatorControl::ScanRegions", "src/coordinator/coordinator_control_fsm.cc:CoordinatorControl::ApplyMetaIncrement", "src/coordinator/coordinator_control_fsm.cc:CoordinatorControl::OnLeaderStart", "src/common/safe_map.h:DingoSafeStdMap"]}
{"id": "C84", "title": "Reports of stores never take a region's record back", "statement": "Through all heartbeats, in whatever order and however old, the version of a region the coordinator knows never decreases and a dropped region never comes back; a newer record reported by the region's leader is taken, regions not reported stay as they are, and reports that say nothing new write nothing.", "quantifier": "every state of the coordinator, every report and every order of reports", "why_tests_cant": "Reports of several replicas, full and partial, are handled in parallel and cross each other; a stale one may come after any newer one.", "anchors": ["src/coordinator/coordinator_control_coor.cc:CoordinatorControl::UpdateRegionMapAndStoreOperation", "src/coordinator/coordinator_control_coor.cc:CoordinatorControl::UpdateStoreMetrics", "src/coordinator/coordinator_control_fsm.cc:CoordinatorControl::ApplyMetaIncrement", "src/store/heartbeat.cc:HeartbeatTask::SendStoreHeartbeat"]}
{"id": "C85", "title": "Regions that are created do not overlap", "statement": "A region is created exactly if its range has the form the coordinator asks for, no region has a key of it and the id is free; after every history of creations (of regions and of tables with many partitions) and drops, no two regions have a key in common and every region is found by its keys.", "quantifier": "every history of requests and changes of leader, every number of partitions", "why_tests_cant": "The check is made against the regions at one moment, with an index that must itself be right after every history.", "anchors": ["src/coordinator/coordinator_control_coor.cc:CoordinatorControl::CreateRegionFinal", "src/coordinator/coordinator_control_coor.cc:CoordinatorControl::CheckRegionPrefix", "src/coordinator/coordinator_control_coor.cc:CoordinatorControl::DropRegionFinal", "src/coordinator/coordinator_control_meta.cc:CoordinatorControl::CreateTable"]}
{"id": "C86", "title": "Jobs are carried out step by step", "statement": "A command of a job is sent to a store only when every condition of its step holds of what the coordinator then knows, every earlier step had its conditions met, and every command of the earlier steps was accepted by its store; a job said to have succeeded, and that nobody asked to clean, did all its steps; and a job whose conditions hold and whose commands are accepted goes on to the next step. This holds through lost and late entries, changes of a region's leader, failures that stores report later, and commands sent again.", "quantifier": "every history of requests, passes over the jobs, reports, cleanings, applied and lost entries; every answer of the stores; every number of jobs, steps and peers", "why_tests_cant": "The coordinator writes whole jobs and single statuses in entries prepared from an older state; any of them can be applied after any other.", "anchors": ["src/coordinator/coordinator_control_coor.cc:CoordinatorControl::ProcessJobList", "src/coordinator/coordinator_control_coor.cc:CoordinatorControl::ProcessJob", "src/coordinator/coordinator_control_coor.cc:CoordinatorControl::UpdateJobProcess", "src/coordinator/coordinator_control_coor.cc:CoordinatorControl::SendStoreOperation", "src/coordinator/coordinator_control_fsm.cc:CoordinatorControl::ApplyMetaIncrement"]}
{"id": "C87", "title": "A region is in one change at a time", "statement": "A split, a merge or a change of peers is granted exactly if the regions are known, normal, healthy and led, the request makes sense for them and no job has a command that names them; so of two commands sent at the same time for two such changes no region is named by both.", "quantifier": "every state of the jobs, every request, and every history of requests in which the entries of earlier jobs are applied before the next change is asked for", "why_tests_cant": "Whether two changes meet depends on the order in which requests, passes over the jobs and the applying of their entries come.", "anchors": ["src/coordinator/coordinator_control_coor.cc:CoordinatorControl::ValidateJobConflict", "src/coordinator/coordinator_control_coor.cc:CoordinatorControl::SplitRegionWithJob", "src/coordinator/coordinator_control_coor.cc:CoordinatorControl::MergeRegionWithJob", "src/coordinator/coordinator_control_coor.cc:CoordinatorControl::ChangePeerRegionWithJob", "src/server/coordinator_service.cc:DoDropRegion"]}
{"id": "C88", "title": "Replicas are deleted, split, merged and moved only when it is safe", "statement": "A store is told to delete its replica only if the region was dropped, or if the region is normal and healthy without it and the change of peers was accepted; a region is dropped only on request or after its merge was accepted and every replica is gone; a region is told to split only when the new region waits on every store and the region is normal on every store; the index of a vector region is ready on every store before a split or merge; the peers of a region change one at a time, a new one only after its store has created the replica and reported it.", "quantifier": "every history of requests, passes, reports, cleanings, applied and lost entries; every answer of the stores; every number of peers", "why_tests_cant": "What is known at the time of a command depends on the whole history of answers and reports, some of them late or lost.", "anchors": ["src/coordinator/coordinator_control_coor.cc:CoordinatorControl::ChangePeerRegionWithJob", "src/coordinator/coordinator_control_coor.cc:CoordinatorControl::ChangePairPeerRegionWithJob", "src/coordinator/coordinator_control_coor.cc:CoordinatorControl::MergeRegionWithJob", "src/coordinator/coordinator_control_coor.cc:CoordinatorControl::SplitRegionWithJob", "src/coordinator/coordinator_control_coor.cc:CoordinatorControl::AddCoordinatorOperation", "src/coordinator/coordinator_control_coor.cc:CoordinatorControl::DoTaskPreCheck"]}
{"id": "C89", "title": "Aggregates computed by the store are those of the rows", "statement": "A scan that groups rows and aggregates columns returns, over its pages, exactly one result for each group there is among the rows that satisfy the expression, in the order of the encoded group keys: the group's columns, and then for each operator the sum, count, count with nulls, largest or smallest value of its column over all rows of the group, with nulls left out. What has been returned so far is the beginning of that list; once a page is empty it is the whole of it. If the result schema fits and the rows can be read, every page is answered.", "quantifier": "every request, every list of rows of any length, every number of groups and operators, every sequence of page limits", "why_tests_cant": "The result depends on every row, on how the rows fall into groups and on how the pages cut the list; tests take a few rows of a few types.", "anchors": ["src/coprocessor/coprocessor.cc:Coprocessor::Open", "src/coprocessor/coprocessor.cc:Coprocessor::Execute", "src/coprocessor/coprocessor.cc:Coprocessor::DoExecute", "src/coprocessor/coprocessor.cc:Coprocessor::GetKeyValueFromAggregation", "src/coprocessor/aggregation_manager.cc:AggregationManager::Execute", "src/coprocessor/aggregation.cc:Aggregation::Execute"]}
{"id": "C90", "title": "Filters and projections computed by the store lose no row", "statement": "A scan with an expression and selected columns returns, over its pages, the selected columns of exactly the rows that satisfy the expression, in key order and each once; the limit of a page counts what is returned, not what is read, and an empty page means the end. If every row can be read, every page is answered.", "quantifier": "every request without aggregates, every list of rows, every sequence of page limits", "why_tests_cant": "How the filter and the limits cut the list into pages differs for every list of rows and every sequence of limits.", "anchors": ["src/coprocessor/coprocessor.cc:Coprocessor::Open", "src/coprocessor/coprocessor.cc:Coprocessor::Execute", "src/coprocessor/coprocessor.cc:Coprocessor::DoExecute"]}
{"id": "C91", "title": "A request to compute does not bring the store down", "statement": "A request with a schema, selected columns, group-by columns, operators and a result schema is either accepted, if it makes sense, or refused with an error; it never ends the process, neither when it is opened nor when rows are read.", "quantifier": "every request and every list of rows", "why_tests_cant": "The requests that matter are the ones nobody thought of: indices out of range, types the code cannot copy, combinations of missing parts, sums that overflow.", "anchors": ["src/coprocessor/coprocessor.cc:Coprocessor::Open", "src/coprocessor/coprocessor.cc:Coprocessor::CompareSerialSchema", "src/coprocessor/utils.cc:Utils::CloneSerialSchema", "src/coprocessor/utils.cc:Utils::CreateSerialSchema", "src/coprocessor/aggregation_manager.cc:AggregationManager::Open", "src/coprocessor/aggregation.cc:Aggregation::Open"]}
{"id": "C92", "title": "Automatic splits are asked for when needed, and where they help", "statement": "A store asks for a region it leads to be split only if the region is larger than the threshold of its policy (HALF, SIZE, KEYS), was not changed while it was measured, is in a normal state and nothing else speaks against it; and a region that stays as it is and is that large is asked to be split. The key lies in the region's range and is a key the region has, versions of one key stay together, and the parts are as large as the policy says: with SIZE the first part is below the asked size and reaches it with the versions of the split key, with HALF both parts have about half of the samples. The check never ends the process. Both parts get something, so the split takes place and large regions do not stay large.", "quantifier": "every content of the column families (any number of keys, versions and sizes), every policy and setting, every state the region is in after it was measured", "why_tests_cant": "The key depends on the sizes of all entries and on how several column families interleave; the cases that go wrong need a key with very many versions or a column family whose keys are not rows.", "anchors": ["src/split/split_checker.cc:MergedIterator", "src/split/split_checker.cc:HalfSplitChecker::SplitKey", "src/split/split_checker.cc:SizeSplitChecker::SplitKey", "src/split/split_checker.cc:KeysSplitChecker::SplitKey", "src/split/split_checker.cc:SplitCheckTask::SplitCheck"]}
{"id": "C93", "title": "Automatic merges join only small neighbours, and splits do not undo them", "statement": "A store asks to merge two regions only if they are neighbours with the same partition, engines and stores, both in a normal state, the first one led by the store, both small together, and neither split within the configured interval; no region is in two pairs of one pass. Two such neighbours are asked to be merged, unless the first of them is taken with the region before it. A region made this way is not large enough to be split again.", "quantifier": "every list of regions, in either direction, every setting, every set of regions already being checked", "why_tests_cant": "The pairs depend on the whole list of regions and on the direction of the pass; what is wrong shows at the end of the list.", "anchors": ["src/merge/merge_checker.cc:PreMergeCheckTask::PreMergeCheck", "src/merge/merge_checker.cc:NeedMerge", "src/merge/merge_checker.cc:MergeCheckTask::MergeCheck", "src/common/helper.cc:Helper::IsDifferencePeers"]}
{"id": "C94", "title": "Every region is checked again", "statement": "While a region is being checked for a split or a merge no second check of it is started, and once its check has ended it can be checked again: no region stays marked as being checked without a check that runs.", "quantifier": "every number of regions and every interleaving of passes with the ends of checks", "why_tests_cant": "The order in which a pass and a worker thread change the set of marked regions decides; a test sees one order.", "anchors": ["src/split/split_checker.cc:PreSplitCheckTask::PreSplitCheck", "src/split/split_checker.cc:SplitCheckWorkers::AddRegionChecking", "src/split/split_checker.cc:SplitCheckWorkers::DeleteRegionChecking", "src/merge/merge_checker.cc:PreMergeCheckTask::PreMergeCheck"]}
{"id": "C95", "title": "Failed commands are sent again, and a job is given up only after six failures", "statement": "When a store fails to do what a job of the coordinator asks, the failure is counted and the job goes back to that step, with all else about it and all other jobs as they were; it is given up, and archived as failed, exactly if the operation has failed more than five times before and the job has not gone past a step that created a region. A store that is not the leader and says which one is: the command goes to that store from then on, and no command is lost or doubled. A region that is dropped gets a deletion for every one of its replicas. A job that is given up leaves nothing behind.", "quantifier": "every job, step, operation and table of jobs", "why_tests_cant": "Whether a failure is counted, and against which step and operation, depends on the whole history of a job; tests with failing stores cover a few of the steps once.", "anchors": ["src/coordinator/coordinator_control_coor.cc:CoordinatorControl::UpdateJobProcess", "src/coordinator/coordinator_control_coor.cc:CoordinatorControl::NeedAutoCleanJob", "src/coordinator/coordinator_control_coor.cc:CoordinatorControl::MoveRegionCmdInStoreOperation", "src/coordinator/coordinator_control_coor.cc:CoordinatorControl::DropRegionFinal", "src/coordinator/coordinator_control_coor.cc:CoordinatorControl::SendStoreOperation"]}
{"id": "C96", "title": "A region command a store has accepted is carried out once", "statement": "A command to create, delete or otherwise change a region that a store answers with success is with a worker and written to the table of commands; it stays there until it ends, also when the store restarts, and a worker that goes on ends it. It ends once, its outcome is in the table and does not change; the same command sent again changes nothing. A command that is refused changes nothing. A region that is up has a worker, and no command is left without one.", "quantifier": "every history of commands, restarts at any point, and interleaving of the workers of all regions and of the shared worker", "why_tests_cant": "What becomes of a command depends on where the store stops and on how the workers of different regions and the shared worker interleave; tests run one worker without restarts.", "anchors": ["src/server/push_service.cc:PushServiceImpl::PushStoreOperation", "src/store/region_controller.cc:RegionController::DispatchRegionControlCommand", "src/store/region_controller.cc:RegionController::DispatchRegionControlCommandImpl", "src/store/region_controller.cc:RegionController::Recover", "src/store/region_controller.cc:RegionCommandManager::AddCommand", "src/store/region_controller.cc:RegionCommandManager::UpdateCommandStatus", "src/store/region_controller.cc:DestroyRegionExecutorTask::DestroyRegionExecutor", "src/store/region_controller.cc:ControlExecutor::Execute"]}
{"id": "C97", "title": "The regions of a store do not overlap, and a created region is usable", "statement": "A command to create a region is refused exactly if the store has a region with its id or one whose range shares keys with it. No key is ever in the ranges of two regions of a store. A creation that is reported as successful has made a region with a running raft node and a record that survives restarts; one that is reported as failed has left nothing behind, and one that is interrupted by a restart is taken up again.", "quantifier": "every history of creations, deletions, purges, splits, merges, restarts at any point and every interleaving of the workers", "why_tests_cant": "Overlaps arise when two creations pass their checks before either has entered its region; half-made regions when the store stops between two steps.", "anchors": ["src/store/region_controller.cc:CreateRegionTask::ValidateCreateRegion", "src/store/region_controller.cc:CreateRegionTask::CreateRegion", "src/meta/store_meta_manager.cc:StoreRegionMeta::AddRegion", "src/meta/store_meta_manager.cc:StoreRegionMeta::UpdateState"]}
{"id": "C98", "title": "Deleting a region removes its data, only its data, and all of it", "statement": "A key leaves a store only when the region it belongs to is being deleted and is down; no key of another region is lost. A region leaves the table only when its raft node, its raft record and all keys of its range are gone. A region that is created starts empty, whatever was in its range before. A deletion that is interrupted by a restart is finished, and a deletion that was carried out is not carried out again.", "quantifier": "every history of creations, deletions, writes, splits, merges, restarts at any point and every interleaving of the workers", "why_tests_cant": "The steps of a deletion can be cut off anywhere by a restart and run beside the workers of all other regions; tests delete one region without interruption.", "anchors": ["src/store/region_controller.cc:DeleteRegionTask::PreValidateDeleteRegion", "src/store/region_controller.cc:DeleteRegionTask::ValidateDeleteRegion", "src/store/region_controller.cc:DeleteRegionTask::DeleteRegion", "src/store/region_controller.cc:PurgeRegionTask::PurgeRegion", "src/server/server.cc:Server::Recover", "src/engine/raft_store_engine.cc:RaftStoreEngine::Recover"]}
{"id": "C99", "title": "Balancing leaders comes to rest, with the leaders spread", "statement": "A pass that balances the leaders comes to an end and asks for no more transfers than it may. Each is of a region that is in order and has no other job, from the store that leads it to another replica with a vote, on a store in a normal state with room for it; no region is transferred twice in a pass. Each transfer brings the leaders closer to being spread by the weights of the stores, so after finitely many transfers they stay where they are; and if a pass asks for nothing no transfer would help.", "quantifier": "every set of regions, replicas, stores, weights, metrics and random choices, and every number of passes with changes of health and room in between", "why_tests_cant": "That leaders do not go round for ever is a statement on unboundedly many passes; what a pass asks for depends on random choices and on all stores at once.", "anchors": ["src/coordinator/balance_leader.cc:BalanceLeaderScheduler::Schedule", "src/coordinator/balance_leader.cc:BalanceLeaderScheduler::GenerateTransferOutLeaderTask", "src/coordinator/balance_leader.cc:BalanceLeaderScheduler::GenerateTransferInLeaderTask", "src/coordinator/balance_leader.cc:BalanceLeaderScheduler::LaunchBalanceLeader", "src/coordinator/balance_leader.cc:RegionHealthFilter::Check", "src/coordinator/balance_leader.cc:ResourceFilter::Check", "src/coordinator/balance_leader.cc:TaskFilter::Check", "src/coordinator/balance_leader.cc:StoreEntry::LeaderScore"]}
{"id": "C100", "title": "Balancing regions moves replicas only where they belong, and comes to rest", "statement": "A pass that balances the regions asks for at most one move: of a replica that is not the leader, of a region that is in order, from a store to another that is emptier by more than the limit, has no replica of the region and has room for it. The region has as many replicas as before, on different stores. If no store is fuller than another by more than the limit nothing is moved; if one is, and a replica can be moved, one is; and passes come to rest. A pass never brings the coordinator down.", "quantifier": "every set of regions, replicas, sizes, stores, capacities and reports of stores, and every number of passes", "why_tests_cant": "What is moved depends on all stores, replicas and reports at once, and coming to rest is a statement on unboundedly many passes.", "anchors": ["src/coordinator/balance_region.cc:BalanceRegionScheduler::Schedule", "src/coordinator/balance_region.cc:BalanceRegionScheduler::GenerateChangeRegionTask", "src/coordinator/balance_region.cc:BalanceRegionScheduler::FilterRegion", "src/coordinator/balance_region.cc:RegionStateFilter::Check", "src/coordinator/balance_region.cc:RegionPlacementSafeguard::Check", "src/coordinator/balance_region.cc:ResourceFilter::Check", "src/coordinator/balance_region.cc:StoreEntry::Score", "src/coordinator/coordinator_control_coor.cc:CoordinatorControl::ChangePairPeerRegionWithJob", "src/coordinator/coordinator_control_coor.cc:CoordinatorControl::GetStoreMetrics"]}
{"id": "C101", "title": "A request the store has taken is run, once", "statement": "A task that a queue has taken is run once, by one thread; when no thread can do anything more every task taken has been run, and threads come to rest after finitely many steps, whatever their order: no wake-up is lost. A task is refused only if there is a limit and more tasks than it are unfinished. No more tasks are run at once than there are workers, a caller's tasks are begun in the order it gives them, the tasks unfinished do not exceed the limit, and what was taken is still run when the queue is shut down.", "quantifier": "every number of callers, workers and tasks, every limit, and every interleaving of the threads' steps", "why_tests_cant": "A lost wake-up, a task run twice or a counter out of step shows only in some interleavings of unboundedly many threads.", "anchors": ["src/common/runnable.cc:SimpleWorkerSet::Init", "src/common/runnable.cc:SimpleWorkerSet::Destroy", "src/common/runnable.cc:SimpleWorkerSet::Execute", "src/common/runnable.h:WorkerSet", "src/server/main.cc:FLAGS_apply_worker_num"]}
{"id": "C102", "title": "The entries of a region's log are applied in order, whatever other regions do", "statement": "The entries of a region's log are applied in order, each once and no two at a time, though all regions of a store share the threads that apply them. Every region applies its whole log after finitely many steps. That many regions have entries to apply, or that regions are merged, does not stop the store.", "quantifier": "every number of regions, every log, every number of workers and every limit, and every interleaving", "why_tests_cant": "Order and progress depend on how the threads of all regions interleave; the limits are reached only with very many regions at once.", "anchors": ["src/raft/store_state_machine.cc:StoreStateMachine::on_apply", "src/raft/store_state_machine.cc:StoreStateMachine::CatchUpApplyLog", "src/common/runnable.cc:SimpleWorkerSet::Execute", "src/handler/raft_apply_handler.cc:CommitMergeHandler::Handle"]}
{"id": "C103", "title": "A backup of a region holds what a read at its time would see", "statement": "A backup of a range at a timestamp holds, for every key of the range, the newest version committed at or below the timestamp, with its value, and nothing else. A region into which it is restored answers every read at or above the timestamp as the original answers one at the timestamp. Repeated later, the backup at the same timestamp is the same. The backup does not tear a transaction apart.", "quantifier": "every reachable state of a region, every timestamp and range, every later history and every split of the restore into requests", "why_tests_cant": "Ranges over all histories of transactions, over all timestamps relative to their records, and over what clients do after the backup.", "anchors": ["src/engine/txn_engine_helper.cc:DoBackupDataCoreTxn", "src/engine/txn_engine_helper.cc:DoWriteDataAndCheckForTxn", "src/engine/txn_engine_helper.cc:DoWriteSstFile", "src/server/store_service.cc:BackupData"]}
{"id": "C104", "title": "A restore puts back the whole backup, or says that it did not", "statement": "A restore of a backup that is answered with success has put every record of the backup into the region, and for regions with an index every value into the index; it puts in nothing else, and no request is larger than the limits allow. A restore that is stopped has put back an initial part in which no version is without its value. A restore that failed is answered with an error.", "quantifier": "every backup, every kind of region, every limit on requests and every outcome of every write", "why_tests_cant": "Ranges over all contents, all places where requests are cut and all patterns of failing writes.", "anchors": ["src/engine/txn_engine_helper.cc:RestoreTxn", "src/engine/txn_engine_helper.cc:GetDataValue", "src/engine/txn_engine_helper.cc:DoReadSstFileForTxn", "src/engine/txn_engine_helper.cc:RestoreData", "src/server/store_service.cc:RestoreData"]}
{"id": "C105", "title": "Backup and restore of regions without transactions", "statement": "A backup of a range of a region without transactions at a timestamp never fails on what was written through the API; it holds, in order, the newest version at or below the timestamp of every key of the range and nothing else. A region into which it is restored answers every point read, scan and count at or above the timestamp as the original answers one at the timestamp, expiry included. A restore that is stopped has put back an initial part; no restore puts in anything else; in document regions the document index is given exactly the documents that are put back. A backup taken again at the same timestamp is the same, and a restore that failed is answered with an error.", "quantifier": "every history of puts and deletes, every timestamp, clock and range, every limit on requests and every outcome of every write", "why_tests_cant": "Ranges over all contents with many versions per key, over all timestamps and clocks, over all places where requests are cut and all patterns of failing writes.", "anchors": ["src/engine/txn_engine_helper.cc:DoBackupDataCoreNonTxn", "src/engine/txn_engine_helper.cc:RestoreNonTxnStore", "src/engine/txn_engine_helper.cc:RestoreNonTxnDocument", "src/engine/txn_engine_helper.cc:RestoreData", "src/server/store_service.cc:BackupData", "src/server/store_service.cc:RestoreData"]}
{"id": "C106", "title": "Backup and restore of vector regions without transactions", "statement": "A backup of a vector region at a timestamp never fails on what was written through the API; it holds the newest version at or below the timestamp of every vector of the range, and with each version its scalar data, table data and every scalar field kept apart for filtering, and nothing else. A restore whose writes succeed does not abort, whatever the number of those fields; it writes every record once and gives the vector index exactly the vectors that are not deleted at the timestamp, each with its own scalar and table data. Reads of the copy are answered as by the original, and the other data of every version are those of the original. At no time does the index have a vector that the region does not hold, nor the region a vector without its data.", "quantifier": "every history of adds and deletes of vectors, every set of fields, every timestamp and range, every limit on requests and every outcome of every write", "why_tests_cant": "Ranges over all contents and sets of fields; which of two ways of matching records is taken depends on counts that coincide only for some contents.", "anchors": ["src/engine/txn_engine_helper.cc:DoBackupDataCoreNonTxn", "src/engine/txn_engine_helper.cc:GenScalarSpeedUpKeys", "src/engine/txn_engine_helper.cc:OptimizePreProcessVectorIndex", "src/engine/txn_engine_helper.cc:PreProcessVectorIndex", "src/engine/txn_engine_helper.cc:RestoreNonTxnIndex", "src/handler/raft_apply_handler.cc:VectorAddHandler"]}
{"id": "C107", "title": "Searching documents", "statement": "A search of a document region gives the best documents of the region that match the query and are among the ids asked for, as many as asked for and best first, each with the document stored; a document that is gone or has expired is not among them and does not disturb the others. A search for all in pages gives, page by page, each matching document once, says 'no more' exactly at the end, and comes to an end. Documents added are found and replace their former version, documents deleted are not found, and a write that is refused changes nothing. While a region is split or merged, searches are answered from the indexes of before, each region with the documents of its own range.", "quantifier": "every set of documents, query, ids and number, every way of splitting or merging, every limit on pages and every failure of the full-text library", "why_tests_cant": "Ranges over all contents, scores and ways in which two ranked lists interleave, and over failures between the writes of two indexes and documents that expire between write and search.", "anchors": ["src/document/document_index.cc:DocumentIndexWrapper::Search", "src/document/document_index.cc:MergeSearchResult", "src/document/document_index.cc:DocumentIndexWrapper::Upsert", "src/document/document_index.cc:DocumentIndexWrapper::Delete", "src/document/document_index.cc:SetShareDocumentIndex", "src/document/document_index.cc:SetSiblingDocumentIndex", "src/document/document_reader.cc:SearchDocument", "src/document/document_reader.cc:DocumentSearchAllStreamState::Batch", "src/engine/storage.cc:DocumentSearch", "src/engine/storage.cc:DocumentSearchAll"]}
{"id": "C108", "title": "Streams of scans and searches", "statement": "A client that is given a stream by a scan, a scan of locks or a search for all, and goes on with it at least once a minute, is answered page after page as if nobody else used the store, with the limit each request asks for, until it is told that there is no more, closes the stream or is given an error; after that, or after it has been idle for longer than a minute, going on is refused. A cleaning up removes exactly the streams that have been idle for longer. No request aborts the store.", "quantifier": "every interleaving of requests of all clients and kinds with cleaning up, every time, limit and behaviour of the engine", "why_tests_cant": "Ranges over all interleavings of sessions of several clients with the periodic cleaning up.", "anchors": ["src/common/stream.cc:StreamManager::GetOrNew", "src/common/stream.cc:RecycleExpireStream", "src/common/stream.h:Stream", "src/engine/storage.cc:TxnScan", "src/engine/storage.cc:TxnScanLock", "src/engine/storage.cc:DocumentSearchAll"]}
{"id": "C109", "title": "A backup or restore that ends with success is complete", "statement": "When the tool for backup ends with success, every region of the tables it was told to back up has been backed up; when a request for a region failed, it ends with an error; it ends with an error only if a request failed; it ends. When the tool for restore ends with success, every region has been restored and none failed, however many threads it uses; it ends with an error only if a region failed or a thread could not be started.", "quantifier": "every number of regions of each kind, every number of threads, every interleaving of their steps and every outcome of requests", "why_tests_cant": "Ranges over all interleavings of threads that share a flag and a status, with failures at any point.", "anchors": ["src/br/backup_data_base.cc:BackupDataBase::DoBackupRegionInternal", "src/br/backup_sdk_data.cc:BackupSdkData::Run", "src/br/backup_sql_data.cc:BackupSqlData::Run", "src/br/restore_region_data_manager.cc:RestoreRegionDataManager::Run", "src/br/restore_region_data_manager.cc:DoRestoreRegionDataInternal"]}
{"id": "C110", "title": "Searches and writes of one index are kept apart and none waits for nothing", "statement": "Two requests that use one vector index, document index or raft log at the same time are both readers. A request is given access at once if nobody has it or waits for it; if some wait and nobody has access, one of them is awake and is given it; no request begins to read while one waits to write. Every request is given access sooner or later if all give it back.", "quantifier": "every number of requests, every interleaving of asking, waking (also without cause) and giving back", "why_tests_cant": "Ranges over all interleavings of any number of readers and writers; a lost wake-up shows in few of them.", "anchors": ["src/common/synchronization.cc:RWLock::LockRead", "src/common/synchronization.cc:RWLock::LockWrite", "src/common/synchronization.cc:RWLock::UnlockRead", "src/common/synchronization.cc:RWLock::UnlockWrite", "src/vector/vector_index_hnsw.cc", "src/document/document_index.cc", "src/log/rocks_log_storage.cc"]}
{"id": "C111", "title": "Balancing runs only in the configured hours", "statement": "With periods written as the configuration says, a pass of balancing leaders or regions that is not forced begins at an hour exactly if the hour is in one of the periods, ends included, also if a period goes over midnight. A mistake in one period does not change the others. A forced pass begins at any hour.", "quantifier": "every text, every list of periods and every hour", "why_tests_cant": "Ranges over all texts of the configuration and all hours.", "anchors": ["src/coordinator/balance_leader.cc:ParseTimePeriod", "src/coordinator/balance_leader.cc:ShouldRun", "src/coordinator/balance_leader.cc:LaunchBalanceLeader", "src/coordinator/balance_region.cc:ParseTimePeriod", "src/coordinator/balance_region.cc:ShouldRun"]}
{"id": "C112", "title": "A cluster short of disk or memory takes no more data", "statement": "When a store has said that it is short of disk or memory, every store that hears from the coordinator afterwards refuses requests that add data, as long as the first store stays short and in the cluster; reads and removals go on. When no store is short any more, the next check lets writes go on, and nothing but a new shortage stops them. What the administrator forbids is refused by every store that hears from the coordinator afterwards.", "quantifier": "every history of heartbeats, lost answers, checks, stores going offline, orders of the administrator and changes of leader, and every kind of request", "why_tests_cant": "Depends on every interleaving of heartbeats of many stores with checks and changes of leader.", "anchors": ["src/server/coordinator_service.cc:DoStoreHeartbeat", "src/coordinator/coordinator_control_coor.cc:UpdateClusterReadOnlyFromStoreMetrics", "src/coordinator/coordinator_control_coor.cc:UpdateForceReadOnly", "src/store/heartbeat.cc:HandleStoreHeartbeatResponse", "src/server/service_helper.cc:ValidateClusterReadOnly", "src/server/store_service.cc:ValidateKvCompareAndSetRequest"]}
{"id": "C113", "title": "The pieces of searches and writes of vector indexes are carried out, once", "statement": "Every piece of work that the pool of threads for vector indexes takes is carried out exactly once and its caller comes back: no wake-up is lost, whatever the order of calls, notices and wake-ups without reason, while threads are added and taken away. Pieces of higher priority go first. Making the pool smaller or destroying it comes to an end and loses no piece.", "quantifier": "every number of threads, every list of tasks and every interleaving of the steps of callers and threads, of resizing and of destroying the pool", "why_tests_cant": "Lost wake-ups need particular interleavings between the test of a condition and going to sleep.", "anchors": ["src/common/threadpool.cc:ThreadPool::BootstrapThread", "src/common/threadpool.cc:ThreadPool::ExecuteTask", "src/common/threadpool.cc:ThreadPool::ShrinkThreadPool", "src/common/threadpool.cc:ThreadPool::Destroy", "src/vector/vector_index_hnsw.cc:ParallelFor", "src/server/debug_service.cc:AdjustThreadPoolSize"]}
{"id": "C114", "title": "Periodic work of servers is done periodically", "statement": "Every periodic work of a server is begun again and again while the server is up, at times at least its interval apart, the first an interval after the start, no more often than its limit; it is not begun while it goes on, and ending the server misuses no memory. Every server does the work its role needs: heartbeats, metrics, garbage collection, snapshots, and the scrubbing of its vector or document indexes.", "quantifier": "every interval and limit, every history of timers that are late by any time, runs of any length, starts, pauses and the end of the server, and every role", "why_tests_cant": "Depends on every timing of timers, runs and the end of the server.", "anchors": ["src/crontab/crontab.cc:CrontabManager::Run", "src/crontab/crontab.cc:CrontabManager::StartCrontab", "src/crontab/crontab.cc:CrontabManager::Destroy", "src/server/server.cc:InitCrontabManager", "src/engine/txn_engine_helper.cc:RegularDoGcHandler", "src/common/synchronization.h:AtomicGuard"]}
{"id": "C115", "title": "A watcher of metadata changes gets every change once, in order", "statement": "A client that watches types of metadata changes and polls gets exactly the changes of these types since the watch was created, or since the revision it asked for, each once and in order, until it is told that the watch is cancelled; a poll that waits is answered by the next change; a start revision is refused only if its changes are no longer kept.", "quantifier": "every record of earlier changes, every set of types, start revision, and every history of changes, polls, cancels, recycling and trimming, interleaved in any way with the creation of the watch", "why_tests_cant": "Depends on every interleaving of changes with the creation, the polls and the cancelling of the watch.", "anchors": ["src/coordinator/coordinator_control_watch.cc:MetaWatchCreate", "src/coordinator/coordinator_control_watch.cc:MetaWatchProgress", "src/coordinator/coordinator_control_watch.cc:MetaWatchCancel", "src/coordinator/coordinator_control_watch.cc:AddEventList", "src/coordinator/coordinator_control_watch.cc:RecycledMetaWatcherByTime", "src/coordinator/coordinator_control_watch.cc:TrimMetaWatchEventList", "src/common/safe_map.h:GetRangeKeyValues"]}
{"id": "C116", "title": "The newest snapshot of a vector index is kept and can be loaded", "statement": "A vector index that was saved, or got from another replica, can be loaded after any restart, from this snapshot or a newer one, with the log still going back to it; a restart keeps the newest readable snapshot and removes the others; a replica that is far behind its peers takes their snapshot, one that is not does not.", "quantifier": "every history of saves and downloads with any log ids, interleaved in any way, and every point at which the server stops", "why_tests_cant": "Depends on every crash point and every interleaving of saves with downloads.", "anchors": ["src/vector/vector_index_snapshot_manager.cc:SaveVectorIndexSnapshot", "src/vector/vector_index_snapshot_manager.cc:DownloadSnapshotFile", "src/vector/vector_index_snapshot_manager.cc:LoadVectorIndexSnapshot", "src/vector/vector_index_snapshot_manager.cc:PullLastSnapshotFromPeers", "src/vector/vector_index_snapshot.cc:SnapshotMetaSet::AddSnapshot", "src/vector/vector_index.cc:VectorIndexWrapper::Recover"]}
{"id": "C117", "title": "A request of a server to the coordinators finds their leader", "statement": "A request that a store sends to the coordinators reaches their leader whichever server it turns to first and whichever others are down; it is carried out at most once; its status and its response are what the server that acted on it answered.", "quantifier": "every number of coordinators, every sequence of answers, failures and lost replies, every address taken for the leader's before, every number of requests before and beside it", "why_tests_cant": "Depends on every combination of servers that are down, changes of leader and lost replies over the life of a store, and on how requests made at the same time change the address they share.", "anchors": ["src/coordinator/coordinator_interaction.h:SendRequestByList", "src/coordinator/coordinator_interaction.h:SendRequestByService", "src/coordinator/coordinator_interaction.cc:NextLeader", "src/coordinator/coordinator_interaction.cc:SetLeaderAddress"]}
{"id": "C118", "title": "A request of backup or restore that succeeds was carried out, by every server if sent to all", "statement": "A request that the backup and restore tool sends ends whatever the servers answer; it is reported as done exactly if a server carried it out, and is acted on at most once; a request sent to all coordinators, such as the registration of a backup, is reported as done only if each of them carried it out.", "quantifier": "every list of servers, every sequence of answers, redirections and failures, all limits of retries and of waiting", "why_tests_cant": "Depends on every sequence of redirections, of servers that are down and of elections during a backup or a restore, and on the limits of time.", "anchors": ["src/br/interation.h:ServerInteraction::SendRequest", "src/br/interation.h:ServerInteraction::AllSendRequest", "src/br/interation.cc:ServerInteraction::NextLeader", "src/br/interation.cc:ServerInteraction::AddAddr"]}

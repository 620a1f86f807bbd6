# Formal model of dingo-store: design

## 1. What this is

`/verif/lean` is a Lean 4 model of parts of dingo-store, written function by
function from the C++ text in `/repo`, with machine-checked theorems about it.
`properties.jsonl` lists the properties in API terms, `MANIFEST.json` maps each
property to theorem names and a status, `seeded/LOG.jsonl` records the
deliberate-bug experiments.

Layout: for every area `Foo` there is a model file `Verif/Foo/Model.lean`
(definitions only, each citing `file:lines` in /repo), lemma files, and a
property file `Verif/Foo/Props.lean` that holds only the specification
vocabulary, the theorems and the `example`s showing their hypotheses are met.

## 2. Trusted base

* Lean 4.33.0 kernel and the three standard axioms `propext`,
  `Classical.choice`, `Quot.sound`. No other axiom, no `sorry`, no
  `native_decide`, no `bv_decide`.
* The translation by hand from C++ to Lean. Each definition cites its source
  lines and states its simplifications.
* Not modelled, assumed: RocksDB (an ordered map per column family with atomic
  write batches and snapshots), braft (a log applied in order on every replica,
  a write is acknowledged only after it was applied, the committed log of a
  region is the same on every store, a second node of the same group on one
  store is refused), protobuf
  serialisation (a message parses back to itself), brpc, logging, metrics,
  memory exhaustion, disk errors.

Conventions: bytes are `UInt8`, `std::string` is a `List UInt8` compared
lexicographically (`memcmp` then length, as RocksDB's default comparator and
`std::string::compare` do); `int64_t` timestamps are `Int`, with the bound
`maxVer = 2^63 - 1` explicit where overflow matters; `CHECK` failure,
`DINGO_LOG(FATAL)`, out-of-range `at()` and undefined behaviour are distinct
outcomes (`Out.fatal`, `none`, crash constructors), never totalised away.

### Parts of the code that are modelled

Every definition cites its lines; this is the overview. Paths are under `/repo/src`.

| area | modelled (files) | left out in the same files |
|---|---|---|
| `Codec` | `mvcc/codec.cc`, `vector/codec.cc`, `document/codec.cc`, `common/serial_helper.cc`, `common/helper.cc` (key ranges) | hashes, printing |
| `Mvcc` | `mvcc/reader.cc`, `mvcc/iterator.cc`, raw writes of `handler/raft_apply_handler.cc`, compaction filter | iterator options |
| `Txn` | transactional part of `engine/txn_engine_helper.cc`, checks of `server/store_service.cc`, `handler/raft_apply_handler_txn.cc` | vector and document prewrites |
| `MemLock`, `Latch` | `engine/concurrency_manager.*`, `common/latch.cc`, `common/synchronization.cc`, their callers | timeouts of the scheduler |
| `Tso`, `TsCache`, `AutoInc` | `coordinator/tso_control.*`, `mvcc/ts_provider.*`, `coordinator/auto_increment_control.*` | brpc retries |
| `SafePoint` | `engine/gc_safe_point.cc`, GC of `engine/txn_engine_helper.cc`, safe points in the coordinator | metrics |
| `CoorKv` | `coordinator/kv_control_{kv,lease,watch}.cc`, `server/version_service.cc` | |
| `Meta` | tenants, schemas, tables, indexes of `coordinator/coordinator_control_meta.cc`, `server/meta_service.cc`, `raft/meta_state_machine.cc` | region placement, watches on tables |
| `LogStore` | `log/rocks_log_storage.cc`, `log/index_term_map.cc` | braft |
| `Replica` | `raft/store_state_machine.cc`, `handler/raft_snapshot_handler.cc`, `raft/dingo_filesystem_adaptor.cc` | the network |
| `Region` | split, merge and epochs: `handler/raft_apply_handler.cc`, `store/region_controller.cc`, `meta/store_meta_manager.cc` | split and merge checkers |
| `Scan` | `scan/scan.cc`, `scan/scan_manager.cc`, `scan/scan_filter.cc` | coprocessors (see `Coproc`) |
| `VecIndex` | `vector/vector_index.cc`, `vector/vector_index_manager.cc`, contents of flat, IVF and HNSW indexes | numbers, training, DiskANN, PQ |
| `VecQuery` | `vector/vector_reader.cc`, filters, merging and flat search of `vector/vector_index*.cc`, `vector/vector_index.h` | coprocessors, table filters, DiskANN |
| `RegMap` | regions of the coordinator: lookup, creation, drop, heartbeats, increments in `coordinator/coordinator_control_coor.cc`, `coordinator/coordinator_control_fsm.cc` | placement on stores, metrics |
| `Job` | jobs of the coordinator: the requests that make them, `ProcessJobList` and what it calls, commands sent to stores and their answers, increments of jobs, in `coordinator/coordinator_control_coor.cc`, `coordinator/coordinator_control_fsm.cc` | what stores do with a command (it is accepted or not), checks of store engines and types and of index parameters in requests, forced transfers of leaders, the older list of store operations |
| `Coproc` | `coprocessor/coprocessor.cc`, `coprocessor/aggregation.cc`, `coprocessor/aggregation_manager.cc`, `coprocessor/utils.cc` | the record codec, `libexpr/` and floating point arithmetic (parameters), `coprocessor_v2.cc`, `coprocessor_scalar.cc` |
| `AutoSplit` | `split/split_checker.cc`, `merge/merge_checker.cc` | floating point ratios (parameters), how metrics are measured |
| `Ctl` | `store/region_controller.cc` (queues, workers, table of commands; creation, deletion, purge, removal of workers), `server/push_service.cc`, `server/server.cc:923-940`, the region table of `meta/store_meta_manager.cc` | the other commands (`other`: they end and change nothing here), indexes of vector and document regions, mono and BDB engines, the raft log |
| `Balance` | `coordinator/balance_leader.cc` | when a pass is due, single precision of scores (compared exactly), changes during a pass |
| `BalRegion` | `coordinator/balance_region.cc`, the replicas in `ChangePairPeerRegionWithJob` | when a pass is due, single precision of scores, scores of stores with a capacity of 0 other than "no number" |
| `Pool` | `SimpleWorkerSet` of `common/runnable.cc`, `on_apply` and `CatchUpApplyLog` of `raft/store_state_machine.cc` as users of it | `PriorWorkerSet` (used nowhere), `ExecqWorkerSet`, counters for printing, entries delivered in batches |
| `Backup` | `DoBackupDataCoreTxn`, `DoWriteDataAndCheckForTxn`, `GetDataValue`, `RestoreTxn` and the answer of `RestoreData` in `engine/txn_engine_helper.cc` | SST files, their names and checksums (a file is the list of its records); sizes and the reading of an index value are parameters |
| `RawBackup` | `DoBackupDataCoreNonTxn`, `RestoreNonTxnStore`, `RestoreNonTxnDocument`, `GenScalarSpeedUpKeys`, `OptimizePreProcessVectorIndex`, `PreProcessVectorIndex`, `RestoreNonTxnIndex` and the answer of `RestoreData` in `engine/txn_engine_helper.cc`; what `VectorAddHandler` and `VectorDeleteHandler` write to the store | the document index of scalar data (`WITH_VECTOR_INDEX_USE_DOCUMENT_SPEEDUP`); SST files; the document index itself (what it is given is modelled) |
| `DocSearch` | `DocumentIndex` and `DocumentIndexWrapper` (reads and writes, share and sibling) of `document/document_index.cc`, `SearchDocument`, `DocumentSearch`, `DocumentSearchAll` and `Batch` of `document/document_reader.cc`, their callers in `engine/storage.cc`, the lines on document indexes in split and merge of `handler/raft_apply_handler.cc` | the full-text library (a parameter: it ranks the documents it holds and obeys the filters), building, loading and saving of indexes (`document/document_index_manager.cc`), choice of fields, expiry of streams (C108), single precision of scores, two regions' pointers to one index after the split |
| `Stream` | `common/stream.cc`, `common/stream.h`, the use of streams in `TxnScan`, `TxnScanLock` and `DocumentSearchAll` of `engine/storage.cc` | what the engine does (a parameter, see C10, C52, C107), two requests of one stream at the same time |
| `BrTool` | `br/backup_sdk_data.cc` (`Run`), `br/backup_data_base.cc` (`DoBackupRegionInternal`), `br/restore_region_data_manager.cc` | files, parameters, versions and checks of the tool; what a request does (C104 to C106); a region id that is missing from the map |
| `RwLock` | `RWLock` and its guards in `common/synchronization.{h,cc}` | `Release` of the guards (not used), the mutex and condition of bthread (assumed to work) |
| `Balance/Hours` | `ParseTimePeriod`, `ShouldRun` of `coordinator/balance_leader.cc` and `coordinator/balance_region.cc` | `butil::SplitString` and `strtol` are modelled from their documentation |
| `ReadOnly` | the read-only parts of `DoStoreHeartbeat`, `UpdateClusterReadOnlyFromStoreMetrics`, `UpdateForceReadOnly`, the store's handling of the answer, `ValidateClusterReadOnly` and which requests call it | whether a store is short is an input; a heartbeat makes its store normal at once; reasons are left out; the other checks of requests are not part of this model |
| `Threads` | `ThreadPool` of `common/threadpool.{h,cc}` | binding to cores, counters for printing; what tasks do and their exceptions (see C65); the mutex and condition of C++ (assumed to work) |
| `Cron` | `crontab/crontab.cc`, the table of `server/server.cc:507-842`, the guards at the head of `RegularDoGcHandler` and `RegularUpdateSafePointTsHandler` | exceptions of works (caught), `DeleteCrontab` (as `Destroy`), overflow of intervals, what the works do |
| `MetaWatch` | `coordinator/coordinator_control_watch.cc`, `GetRangeKeyValues` of `common/safe_map.h` | contents of events, times of recycling, limits on the number of watches, a used watch id, `ListWatch`, trimming between taking revisions and looking them up |
| `VecSnap` | `vector/vector_index_snapshot.cc`, the ends of save and download, `GetSnapshotList`, the checks of load and the choice of pulling in `vector/vector_index_snapshot_manager.cc`, `Recover` of `vector/vector_index.cc` | writing of temporary directories, the child process of a save (without `fork` the server itself would exit, lines 584-666), transfer of files, versions of regions at load, losses by the file system |
| `FindLeader` | `coordinator/coordinator_interaction.h`, `NextLeader` and `SetLeaderAddress` of `coordinator_interaction.cc` | lookup of services and methods, lengths of timeouts, several requests at once but for `NextLeader` |
| `FindLeader/Br` | `br/interation.h`, both `NextLeader` and `AddAddr` of `br/interation.cc` | lookup of methods, parsing of addresses, latencies, requests at the same time |

Not modelled at all: the rest of `br/`, `client/`, `client_v2/`, `config/`, `diskann/`,
the rest of `document/`, `event/`, `libexpr/`, `metrics/`, `report/`, `simd/`.

## 3. Properties and plan

| id | plan |
|----|------|
| C01 | Byte-level model of `EncodeBytes`/`DecodeBytes`/`EncodeKey`/`DecodeKey`; round trip by induction on 8-byte groups. |
| C02 | Order embedding: `lt (encodeKey k t) (encodeKey k' t')` iff `k < k'` or `k = k'` and `t' < t`. Proved by induction on groups, plus big-endian order lemma. |
| C03 | Corollary of C02 with `EncodeRange`; includes `PrefixNext` use in point reads. |
| C04 | Model of `PackageValue`, `GetValueFlag`, `GetValueTTL`, `UnPackageValue` with `none` for CHECK failure. The no-abort claim is false for an empty value with a TTL: proved as a negation; the rest `_partial`. |
| C05 | False (trailing groups ignored, throw on bad marker, UB on empty input): negation by witness; `_partial` for canonical-length inputs. |
| C06–C08 | `mvcc::Iterator` and `KvReader` over a sorted list of encoded entries; refinement to "latest version <= ts" spec over (key, ts). |
| C09–C22 | Percolator engine: state = lock map, write records keyed (key, commit_ts), data records keyed (key, start_ts). Each RPC = one step (justified by latches, C37, and atomic raft apply). Invariants by induction over operation histories; timestamp hypotheses (distinctness of start/commit timestamps, as given by the oracle) explicit. |
| C23–C25 | `DoGcCoreTxn`/`DoGcCoreNonTxn` as a fold over the iterator producing batches. C23–C25 as stated are false of the code; negations by witness, and exact characterisation of which reads are preserved as `_partial`. |
| C26–C27, C54 | `Tso/`: cluster of oracle replicas over a raft log (`step` over elections, lost leaderships, commits, applies, timer ticks with arbitrary clocks, snapshots, restarts, requests and their retries). Invariant over all histories. C26 for histories without negative counts and client updates; C27 for leaders that have completed their first clock update; C54 for healthy leaders. Negations by concrete histories. |
| C28 | `TsCache/`: `BatchTsList` at the level of single atomic operations, any number of calling threads and one refilling worker, spurious failures of the weak exchanges included. Invariant over all interleavings (shape of the live and dead lists, what each thread's local copies still mean), then over the finished calls. Not modelled: freeing of dead batches (`CleanDead`), weak memory order, the waiting loop of `TsProvider::GetTs`. |
| C29–C30 | `AutoInc/`: replicas over a raft log (`step` over requests checked on any replica, commits in any order, lost proposals, applies, snapshots, restarts); signed overflow is a distinct outcome; 32-bit product modelled. Invariant over all histories. False where the check and the apply race: negations + partials. |
| C31, C32, C33 | `CoorKv/Model.lean`: one replica of the coordinator's key-value store, with the index of generations, the records by revision, leases and counters, and every single disk write of an entry. `CoorKv/Spec.lean`: the versioned map it stands for. Refinement by induction over every log (`CoorKv/Lemmas.lean`), range reads against the map; reads racing with entries as reads of later records. |
| C36, C59 | The same model with crashes after any number of an entry's disk writes, the log being applied again from any earlier entry after the restart; refinement of the same map by an invariant on half-applied entries (`CoorKv/CrashLemmas.lean`). Snapshot installation. |
| C34, C60, C61 | `CoorKv/Lease.lean`: the leader's map from leases to keys beside the replica; a request is evaluated against the applied state and proposed, entries are proposed and applied later and in any order the threads allow, leaders change and rebuild the map. No key outlives its lease: invariant over every interleaving in which no put under a lease is in flight when the lease goes (`CoorKv/LeaseInv.lean`), negations for the rest. What a request does exactly: for requests executed one at a time by any leaders (`CoorKv/LeaseSeq.lean`). Not modelled: the error paths of RocksDB, the text of errors. |
| C19, C62, C63, C66 | `MemLock/Model.lean`: one region as a transition system with one event per atomic step: readers (raise the region's maximum, find the memory locks, look at each, read the engine), prewrites (latch, check the lock on disk, make the memory lock, read the maximum and pick the timestamp, propose, apply, unlock, return), commits, rollbacks, pessimistic locks, pushes, changes of leader, splits and merges (`copy`, `move`). Invariants over every run (`Inv.lean`, `Step.lean`, `Own.lean`, `Seen.lean`, `Cover.lean`), theorems in `Props.lean`. Not modelled: values, isolation levels other than snapshot, raft (an entry is applied once or lost), overflow of timestamps, heartbeats of async-commit locks beyond `push`. |
| C35 | `CoorKv/Watch.lean`: the apply thread and watch requests as interleaved steps, one per access to shared memory, over the replica of C31; the log of changes is kept beside it. Invariant over every schedule (`CoorKv/WatchInv.lean`, `CoorKv/WatchStep.lean`): registered watches and closures match, answers are justified by the log, nothing a waiting request asks for has been settled. The last part only for schedules without the race between the unlocked test for watches and a registration: negation + partial. Not modelled: crashes (they end the connections), the timer that removes cancelled watches is an arbitrary removal. |
| C37–C38 | `Latch/`: the latches of a region, their condition variables and any number of requests, one step per critical section, arbitrary schedule and hash function. Invariant: the requests that asked for a hash form a line, its first one owns the hash, every blocked request that is first in line has exactly one wake-up on its way. Deadlock freedom by following the owners (the hash waited for grows), termination by a step bound per request. False for a key whose hash is 0 because `MaybeShrink` drops such entries: negation + partial. Not modelled: failures of `bthread_cond_wait`, `keep_latches_for_next_cmd` (no caller passes it). |
| C39 | `Region/Model.lean`: one store applies the entries of all its regions' logs in any order. A split is its ten single-field updates (so that a crash can fall between any two). Effect of one split, and by induction over every sequence of writes and splits: the serving regions partition the same keys. Crash points: exact for those outside the child's own update, negations for the rest. |
| C40 | `Region/Model.lean`, `Region/Cluster.lean`: prepare, the proposing loop, commit with catch-up; several stores with common logs. Effect of one prepare and one commit, also on a store that lags; by induction over every sequence of splits and merges each key is held by exactly one region, given that commits find the source as described. Negations on three stores: a merge that never ends, replicas that differ, refused writes that are applied. |
| C41 | Request validation. Range validation accepts ranges outside the region: negation + partial. |
| C42 | `PrefixNext` exactness. |
| C43 | `Codec/Vector*.lean`: all pack/unpack/encode/decode functions of the vector and document codecs (equal function by function) with their aborts, and the id check of requests. Round trips, byte order = (partition, id, field, newest first), valid split keys = keys that do not abort, accepted ids = ids whose key is in the range (for ranges that begin and end at ids or partitions), and preservation of that by a split at an id. |
| C44 | `SafePoint/Model.lean`: any number of coordinators and stores, one step per access to shared state: evaluation of safe-point and tenant requests task by task, propose, commit, apply in parts, elections, crashes, snapshots, polls, garbage collections. Invariant over every schedule (`SafePoint/Inv.lean`, `SafePoint/Step.lean`): each coordinator is a replay of a prefix of the log, plus part of the next entry; applying a tenant increment twice is harmless; every request in progress is followed by its increment. Not modelled: revisions and times, which regions a collection covers, what it deletes (C23-C25, C53). |
| C64 | `VecIndex/Model.lean`: one replica of one region: the log, the data, the indexes in memory, the newest file; the apply thread in steps (write the data, decide, wait for a switch, take the pointer, call, mark, done) interleaved with tasks that build, load, replay, switch and save, and with crashes. Invariant `Inv` (`VecIndex/Inv.lean`): the region's index agrees with the data up to the position of the apply thread, a task's index and the file up to their own log id. It needs each excluded step of `okEv` (`VecIndex/Spec.lean`); each exclusion is shown to be needed by a run in which it is the only one broken. Without exclusions (`VecIndex/Free.lean`): the data, no invented vectors, progress of the apply thread and of a switch. Not modelled: shared and sibling indexes in this state, log truncation, the search itself, several files (the newest is the last one saved), the early end of a save when a file of the same log id exists. |
| C65 | `VecIndex/Kind.lean`: contents of flat, inverted-file and HNSW indexes as lists of pairs, one function per call, with batches. By induction over lists and batches (`VecIndex/KindLemmas.lean`, `VecIndex/PropsKind.lean`). Not modelled: training, numbers, DiskANN, brute force, IVF-PQ. |
| C48, C67 | `Replica/Spec.lean`: the region's version, range and data after a log, a fold. `Replica/Model.lean`: several replicas with data, persisted applied index, log window, own and installed snapshots, loads step by step; events for requests, replication, applies, crashes, restarts, opened and installed snapshots, other regions' writes, added replicas. Invariant (`Replica/Inv.lean`): a replica at position p holds what the region held after some n ≥ p entries, except for keys that entries in between will set again; loads by phase. braft (not in the repository) is assumed to deliver one log, the last snapshot at a start, and newer snapshots only; how long leaders keep the log is left open. |
| C68, C69 | `Scan/Model.lean`: the scan manager's map, session objects with their state, iterator (a position in a frozen copy of the data, since the engine's iterator reads a snapshot) and clock, one thread per request taking the steps between which locks are dropped (FindScan, handler, DeleteScan, TryDeleteScan), the cleaner. `Scan/Spec.lean`: the pairs handed out per session. The listing is an invariant (`Scan/Step.lean`: pairs handed out followed by what the iterator has ahead is the scan of the data at Begin), survival is a phase argument (`Scan/Own.lean`, `Scan/Life.lean`: which threads may name the id or hold the object), idle time in `Scan/Hist.lean`. Not modelled: the coprocessor in a scan, the limits of the request worker, memory limits. |
| C70 | coordinators as events (a request is checked on the leader, writes its entry, fails; an entry is applied; leader steps down, is elected, rebuilds its maps; restart), `Meta/Model.lean`. The checks of a request are one step; one copy of the metadata stands for that of all coordinators; the numbers of the fixed ids are assumed (the protos are not vendored); regions, auto-increment counters, revisions, limits, deleted tables, `UpdateIndex`, import and restore of backups are not modelled. Ids answered and ids still owed are pairwise different and not above the counter of the leader (`Meta/Ids`) |
| C71 | claims to names: what exists and is not being dropped, and what is being created; invariant: a name is held by one claim and the map of the leader has it (`Meta/Claim`, `Meta/Inv`); each request moves claims one at a time |
| C72 | the entries on their way are applicable in any order; invariant `Cond`; progress of a taken request |
| C73 | objects as the fold of the applied entries, for every run; lists of schemas agree with the objects |
| C74 | the entry of `DropTables` computed from the list and the metadata (`Meta/Parts`); acceptance as an iff over every state; the effect of applying it in every run |
| C75 | the writes of an entry one by one, cut anywhere, then the whole entry again (`Meta/PropsCrash`); each write keeps, sets or changes what is seen, and the last change wins, so writing twice shows the same as writing once |
| C76 | tenants as the fold of applied entries; acceptance iffs; invariants over the metadata and the entries on their way (`Meta/Pend`) |
| C77 | invariant `Owned` (`Meta/Owned`): lists of tables and indexes agree, now and after any entries on their way |
| C78 | the four column families of a region as rows (key, version), `add`/`del` as the apply handlers write them (`VecQuery/Model`); a query as reads each of which may see another state and clock (`Worlds`); the rows after any history determined by the newest write (`VecQuery/Hist`) |
| C79 | the forward and backward steps of the mvcc iterator over rows (`VecQuery/Iter`), scan, border and count loops on top; a strictly sorted list with given members is unique |
| C80 | both pre-filter routes (whole scalar data; rows of single fields, grouped by id) against the same specification (`VecQuery/Fast`) |
| C81 | filters, parallel tasks, flat index, merge of two indexes and brute force as functions (`VecQuery/Search`); the numerical library is a parameter with laws `Faiss.Good` (any kind of index) and `Faiss.Exact` (flat), met by a library that sorts (`sorting_exact`); `TopK.widen`: the k nearest of a set given by its own k nearest, for merges and heaps (`VecQuery/TopK`) |
| C82 | the index as the fold of the log, the data as rows by timestamp; they agree for plain histories (`ixRun_shows`), so that the results of C80 and C81 give what a request finds (`VecQuery/Find`) |
| C83 | the coordinator's regions by id and by start key, increments and changes of leader as functions (`RegMap/Model`); invariant `Found O`: every live region is at its start key, or one that takes over from it (`O`) is; splits and merges in every order of the two reports (`RegMap/Handover`) |
| C84 | what a heartbeat makes of each region (`reportIncs`) and what the state machine takes of it; induction over increments for the version, case analysis for a single report |
| C85 | the acceptance check as an iff through C83; `Exact` and `Disjoint` kept by each request, by induction over requests (`RegMap/PropsCreate`) |
| C86 | jobs, the increments of jobs, a pass over the jobs and entries not yet applied as functions (`Job/Model`); what was sent, accepted and looked at as a history (`Job/Spec`); invariant over the table and the entries under way: every job is like one that was made, and each of its past steps is done in the history (`Job/Inv`, `Job/Pass`); progress of a single pass (`Job/Advance`) |
| C87 | the acceptance of each request as an iff (`C87_granted`); for histories, an invariant over the jobs in the table and in entries under way (`calm_apart`) |
| C88 | the shape of each kind of job (`Job/Shape`), with C86 for the steps before |
| C89 | the coprocessor of raw scans as functions over cells of any type, with the record codec, the expression and floating point arithmetic as parameters (`Coproc/Model`); groups and aggregates as relations on lists of rows (`Coproc/Spec`); folding a column is its aggregate (`Coproc/Fold`), invariant over the rows read: the table of groups is that of the rows so far (`Coproc/Group`), the pages drain it (`Coproc/Pages`); answers under `Fits` and `Readable` (`Coproc/Progress`) |
| C90 | the same model; induction over pages (`Coproc/Select`). Rows whose encoding fails are left out: `_partial`, negation |
| C91 | acceptance on opening as an iff for well-formed requests (`Coproc/Schema`, `Coproc/PropsReq`); a crash is an outcome of its own; witnesses for the requests that crash |
| C92 | the merged iterator, the three loops and the checks before asking as functions (`AutoSplit/Model`); content, versions and size of a range as filters and sums (`AutoSplit/Spec`); what is listed is the content in order (`AutoSplit/Scan`), invariants of the loops (`AutoSplit/Loop`). Asked iff large and free; a region whose first key has most of it is never split: `_partial`, negation against the coordinator's check in `Job/Model` |
| C93 | one pass as a recursive function on the list of regions; membership and order of pairs by induction on it. The last two regions of a pass are never looked at: `_partial`, negation for every store |
| C94 | the set of marked regions and the tasks as a transition system; invariant for schedules in which a region is marked before its check ends; for the others the negation, for every continuation |
| C95 | the model of jobs (`Job/Model`); one increment at a time, from any table of jobs (`Job/PropsFail`). That nothing is left behind is false: negation by a run |
| C96 | a store as a state of regions, raft nodes, commands and workers with one event for each step of a worker, command, write, split, merge and restart (`Ctl/Model`); an invariant of the table of commands and of what the workers have (`Ctl/Once`); answers, ends and restarts (`Ctl/PropsCmd`). That every region that is up has a worker, and that every command without an outcome is with a worker after a restart, is false: negations by runs |
| C97 | the same model; invariant: no two regions share a key (`Ctl/Inv`), for histories in which no two regions with a common key are entered at the same time (`Calm`); acceptance as an iff, success of creations (`Ctl/PropsCreate`). Without that condition false, as are the claims on failed and interrupted creations: negations (`Ctl/WitnessCreate`) |
| C98 | the same invariant; every key that is in the store is covered by a region (`Ctl/Cover`), in histories without purges (`Plain`); `Ctl/PropsDelete`. An interrupted deletion is never finished (`Ctl/PropsStuck`, for every continuation), and a finished one may be carried out again on a new region (`Ctl/WitnessDelete`) |
| C99 | a pass as a loop over the stores sorted by score, with the random choices as a parameter (`Balance/Model`); invariant: the scores are those after the tasks so far, and every task lowers the weighted sum of the squares of the numbers of leaders (`Balance/Inv`, `Balance/Pass`); so the number of transfers in any sequence of passes is bounded (`Balance/Props`). That jobs and room are respected, and that an idle pass means that nothing helps, is false: negations (`Balance/Witness`) |
| C100 | a pass as a walk over the stores sorted by score, with "no number" and a null pointer as outcomes (`BalRegion/Model`), and the part of the job that says what replicas the region gets; sortedness gives what is moved, when, and that nothing crashes (`BalRegion/Props`). That passes come to rest, that the limit and the state of regions are respected, and that no store gets two replicas is false: negations (`BalRegion/Witness`) |
| C101 | callers and workers as threads that take steps in any order: one under the lock, one access to the counter, one run of a task (`Pool/Model`); invariant: where each task is, what the counter counts, and a worker awake or a caller about to wake one for each task in the queue (`Pool/Inv`); order of one caller's tasks (`Pool/Order`). That no more tasks run than there are workers, that order, limit and shutdown hold when tasks are run in place or threads race, is false: negations (`Pool/Witness`) |
| C102 | a thread per region that gives the next entry to the queue and waits for it, on top of C101 (`Pool/Model`, `Pool/Apply`); a measure for the whole of the logs (`Pool/PropsApply`). That load and merges do not stop the store is false: negations for every limit, and with a bound on the regions for which it holds (`Pool/Witness`) |
| C103 | the loop over the write records that picks one version of each key (`Backup/Model`), on the states of the transaction engine (`Txn`); characterised as the records a specification calls newest (`Backup/Spec`, `Backup/BackupLemmas`); restored into an empty region and read by `TxnGet` (`C103_restored`); repeated after any disciplined history (`C103_repeat_partial`). That transactions are not torn apart and that a backup closes the past is false: negations (`Backup/Witness`) |
| C104 | the loops that gather records into requests and write them, with an outcome given for every write (`Backup/Model`); an invariant on what has been gathered and written, a simulation between a run that is stopped and one that is not (`Backup/RestoreLemmas`). That failures are answered as such is false for every input: negation; `_partial` for writes that succeed |
| C105 | the loop over the stored versions that picks one of each key, the cutting into requests and the writes with an outcome given for each (`RawBackup/Model`), on the stored bytes of `Mvcc`; the picks are the versions that the specification of reads calls newest, and a copy that holds just these is read as the original (`RawBackup/Lemmas`, `RawBackup/Props`). That later backups are the same is `_partial` (writes above the timestamp), its negation otherwise and that of failures being answered in `RawBackup/Witness` |
| C106 | the four column families of a vector region, the handlers that write them, what a backup gathers from them, both ways in which a restore matches the records (by place and by key) and the order of its writes (`RawBackup/Vector`); invariant over histories that every version has its data in the other families (`RawBackup/VectorLemmas`), from it the contents, the vectors given to the index and the copy (`RawBackup/PropsVector`); what a stopped restore leaves in `RawBackup/WitnessVector` |
| C107 | one index, the wrapper with own, shared and sibling index, its writes, searches and merge of results, what split and merge do to it, the reading of documents and the pages of an answer (`DocSearch/Model`), the full-text library being a parameter of which is asked that it ranks what it holds (`Ranks`); "the best n of a pool" as specification (`Best`), by induction over the merge (`DocSearch/Lemmas`); then searches, documents, pages and writes (`DocSearch/Props`); what does not hold also in `DocSearch/Witness` |
| C108 | the manager of streams and the three requests that use it, the engine being a parameter (`Stream/Model`); the answers a client would have alone as specification (`alone`), by induction over histories with other clients and cleaning up (`Stream/Props`); what does not hold also in `Stream/Witness` |
| C109 | the threads of a backup and of a restore, their shared flag and status, and the main thread that waits for them (`BrTool/Model`); invariants over all interleavings (`BrTool/Props`); what does not hold also in `BrTool/Witness` |
| C110 | the readers-writer lock with its counts and sleeping requests (`RwLock/Model`); counts agree with what requests do and no one sleeps whose condition holds, as an invariant over all interleavings (`RwLock/Props`); starving and nested use in `RwLock/Witness` |
| C111 | parsing of the periods and the check of the hour (`Balance/Hours`); texts as the configuration describes them as specification (`Writes`), by induction over texts (`Balance/HoursProps`) |
| C112 | the leading coordinator's flag, metrics and states of stores, the two halves of the check, the flags of stores and the table of requests that ask them (`ReadOnly/Model`); by an invariant over histories (`ReadOnly/Props`) |
| C113 | threads, queue, notices and the flag of stopping, cut at the lock (`Threads/Model`); an invariant that counts threads and notices against tasks, conservation of tasks by counting, a measure for coming to rest (`Threads/Lemmas`, `Threads/Props`), witnesses (`Threads/Witness`) |
| C114 | a periodic work with its chains of timers and runs, the guard of garbage collection, the table of works and roles (`Cron/Model`); by an invariant over histories (`Cron/Props`) |
| C115 | the record of changes and one watch, a step per critical section (`MetaWatch/Model`, specification `MetaWatch/Spec`); by an invariant over histories: sent, kept back and in hand together are the changes (`MetaWatch/Lemmas`, with trimming `MetaWatch/Trim`, `MetaWatch/Props`) |
| C116 | snapshot directories, the set in memory, the first log entry kept and the jobs, a step per access (`VecSnap/Model`); recovery by induction over the directories, the rest by an invariant over histories with stops anywhere (`VecSnap/Props`) |
| C117 | the two loops that send a request, over any answers of the servers (`FindLeader/Model`); by induction over the attempts, and over the requests for what goes on for ever (`FindLeader/Props`) |
| C118 | the loop of one request and that of a request to all, over any answers (`FindLeader/Br`); by induction over the calls, with a measure of what is left for the end (`FindLeader/BrProps`) |
| C45, C55–C58 | `LogStore/`: `RocksLogStorage` with its execution queue (any pending mutations of any regions executed as one batch, in any order), its index metas, the clients' truncation marks, the term cache (`IndexTermMap` with its binary search), restarts and machine stops; keys and values are the encoded bytes. Specification: the log of one region computed from the calls of its raft node alone. One invariant per region, preserved by every event; frame by the byte order of the keys. Not modelled: the pipelined queue's threads (a batch is one step), disk errors, `GetFirstLogIndex`'s failure paths, fields of an entry other than type, term and data. |
| C46–C47 | `KvPutIfAbsent` and `KvCompareAndSet` on the MVCC store model; batches with duplicate keys behave differently from the claim: negation + partial. |
| C49 | `TxnCheckSecondaryLocks` on the transaction engine model. |
| C50 | Lock checks of a pessimistic prewrite, on the transaction engine model. |
| C51 | `PessimisticRollback` on the transaction engine model. |
| C52 | `ScanLockInfo` and its stream on the transaction engine model: exact result of one page; loss-free paging; negation for repetition and for pages of one lock. |
| C53 | GC jobs interleaved with requests (`GcRun`): records above the safe point survive; negation for an outstanding lock at or below it. |

### Reachable states of the transaction engine

`Reachable D st`: some history of valid, disciplined requests leads to `st` (the
discipline `D` says who owns a timestamp: one transaction per start timestamp,
distinct commit timestamps, as the oracle gives them). `GcReachable D st`: the
same, with GC jobs running among the requests, each writing its batches one at a
time, any of them lost, the job stopping anywhere. `ValidReachable st`: valid
requests without any discipline, and arbitrary records removed by GC. The C09–C22
and C49–C52 theorems are about one of the latter two.

GC (`Txn/Gc.lean`) models `DoGcCoreTxn` and `DoFinalWorkForTxnGc` for a plain
store region: the write-record loop, its per-key flags, batches, the stop flag,
and the deletion of data records. Not modelled: the index-region data and scalar
column families, the speed-up and safe-point task list, metrics. `Mvcc/Gc.lean`
models `DoGcCoreNonTxn` the same way.

## 4. Disagreements between properties and code

Each entry is a theorem of the form "the claim fails for this concrete
execution of the model"; the quoted `_partial` theorem is what does hold.

| claim | what the code does | theorems |
|-------|--------------------|----------|
| C04 | a value with a TTL that is empty aborts the reader | `Codec.C04_*` |
| C05 | the decoder accepts non-canonical input and can throw on a bad marker | `Codec.C05_*` |
| C09 | `BatchGet` drops the rest of the keys silently when the answer is too large | `C09_limit_false` |
| C12 | a rollback record can replace another transaction's commit record with the same timestamp; a pessimistic prewrite delivered after the commit writes the data again | `C12_false`, `C12_false_late_prewrite` |
| C13 | a pessimistic one-phase commit may commit below an existing newer version | `C13_pessimistic_false` |
| C14 | a retried `BatchRollback` is refused once another transaction has locked the key; a retried `PessimisticLock` with `return_values` returns other values; a retried asynchronous prewrite answers `min_commit_ts` 0; a retried pessimistic one-phase commit commits twice | `C14_batchRollback_later_false`, `C14_pessimisticLock_false`, `C14_async_false`, `C14_onePc_false` |
| C16 | `BatchRollback` of a committed transaction reports success | `C16_false` |
| C18 | `for_update_ts < start_ts` is accepted; a repeated lock with `return_values` returns old values | `C18_false`, `C18_values_false` |
| C21 | a rolled back transaction can take a pessimistic lock again and is then reported live; pushes are lost with the lock; the push stops at `caller_start_ts` | `C21_rolledBack_false`, `C21_push_false`, `C21_push_equal` |
| C23 | GC deletes the version a snapshot at `T >= sp` reads when the next commit is above `T` | `C23_false` |
| C24 | tombstones are deleted in an earlier batch than the versions under them: an interrupted job resurrects the value | `C24_false` |
| C25 | the same two defects in raw GC; also an empty value with a TTL aborts the job | `C25_false`, `C25_interrupted_false`, `C25_abort_false` |
| C53 | GC only logs an outstanding lock at or below the safe point and deletes the commit record of its transaction: the status check then reports a rollback | `C53_false` |
| C42 | `PrefixNext` of an all-0xff prefix | `Codec.C42_*` |
| C50 | a pessimistic prewrite whose lock is gone goes through without a conflict check | `C50_lost_lock_false` |
| C52 | a page of `TxnScanLock` ends before the iterator is moved on: the next page repeats its last lock, and pages of one lock never advance | `C52_stream_false` |
| C46, C47 | duplicate keys in one batch are each reported as written | `C46_duplicate_false`, `C47_duplicate_false` |
| C26 | `GenTso` rejects only `count == 0`: a negative count moves the logical counter back; `UpdateTso` accepts a client's request with the current physical time and logical 0 | `Tso.C26_negative_false`, `Tso.C26_update_false` |
| C27 | a new leader serves before its first clock update is applied, with the physical time it applied as follower (old, after a snapshot) and logical 0; `GenTso` checks the leadership only before its retry loop, so a request waiting across a leader change is served by a follower | `Tso.C27_window_false`, `Tso.C27_backwards_false`, `Tso.C27_stale_false` |
| C54 | `is_healty_` becomes false when the first update of a new leader fails, and true only by `ResetTso` | `Tso.C54_stuck`, `Tso.C54_false` |
| C28 | `SetMinValidTs` loads the bound, compares and stores: of two concurrent calls the lower may be stored last | `TsCache.C28_min_false` |
| C29 | `CREATE` and `UPDATE_ONLY` entries are applied unconditionally although they were checked before replication; `count * increment` is a 32-bit product; an update to the largest id makes the next generate overflow | `AutoInc.C29_create_false`, `AutoInc.C29_wrap_false`, `AutoInc.C29_overflow_false` |
| C30 | the same race for an update that is not forced (`ApplyMetaIncrement` only logs that the source differs) | `AutoInc.C30_false` |
| C45 | for an index after the last one the term cache answers with the last term (the log answers 0) | `LogStore.C45_false` |
| C55 | with `raft_sync` off an acknowledged append is lost when the machine stops; an entry with empty data is accepted and aborts every later read; a region's log is destroyed before its vector index stops truncating it, which aborts the process | `LogStore.C55_sync_false`, `LogStore.C55_empty_false`, `LogStore.C55_destroy_false` |
| C56 | marks only grow: after a vector index released the whole log (`INT64_MAX`) its later hold (`0`) is ignored | `LogStore.C56_false` |
| C57 | a prefix truncation beyond the end of the log (after a snapshot) is not applied while another client holds the log, and the next append leaves a hole; the first index of an empty log is lost in a restart | `LogStore.C57_hole_false`, `LogStore.C57_empty_false` |
| C37 | `MaybeShrink` drops every entry with hash 0 from a slot, owners included; `DecreaseSignal` signals after unlocking, when the waiter and its condition variable may be gone | `Latch.C37_zero_hash_false`, `Latch.C37_zero_hash_abort_false`, `Latch.C37_dangling_signal_false` |
| C43 | a region split at the key of a scalar field: the id is accepted by the right half only, its key lies in the left half; a range that ends inside another partition refuses ids it holds | `Codec.C43_scalar_split_false`, `Codec.C43_cross_partition_false` |
| C41 | a transactional range delete with ends shorter than the region's (or behind an all-0xff region end) is accepted and not clipped: it removes keys of neighbouring regions; a scan validated before a split and clipped after it silently leaves out the other half | `Region.C41_delete_range_false`, `Region.C41_delete_range_ff_false`, `Region.C41_scan_race_false` |
| C39 | a split is applied in several separately saved updates and applied again after a crash: between the child's version update and the end, the child's version is raised twice on that replica only, or the child stays in STANDBY for ever; with post-creation the second application aborts the process each time it starts | `Region.C39_crash_ahead_false`, `Region.C39_crash_lost_false`, `Region.C39_crash_post_false` |
| C40 | the target of a merge is marked busy only on the store that leads the source; a split of the target accepted elsewhere makes every commit stale, and the loop gives up because the target has seen a newer job: the source stays in MERGING; a store that applied the split before the prepare ignores the prepare and accepts writes the others abandon | `Region.C40_stuck_false`, `Region.C40_replicas_false` |
| C40 | `CatchUpApplyLog` applies entries without comparing epochs, so a write that the source's own log refuses after a split is applied by a store that catches up; it also does not call `SetRawAppliedMaxTs` | `Region.C40_catch_up_false`, `Region.C40_timestamps_false` |
| C31 | a range read without an end stops before the key of the maximal length with all bytes 0xff; `KvRange` reads indexes and then records without a lock, and a compaction in between removes a record, which is then read as a message with no field set | `CoorKv.C31_last_key_false`, `CoorKv.C31_read_race_false` |
| C33 | a count-only range request counts the keys it would return, which are none | `CoorKv.C33_count_only_false` |
| C36 | `KvPutApply` writes record and index before the applied index, and appends its revision to the index again when it is applied again: the version is one too high; a later compaction finds the revision twice and deletes the record in use | `CoorKv.C36_version_false`, `CoorKv.C36_lost_false` |
| C59 | `LoadMetaFromSnapshotFile` clears the counters and does not call `InitIds`: after a snapshot taken before the first put the replica numbers revisions from 1001 instead of 10001 | `CoorKv.C59_install_false` |
| C34 | puts and revocations are evaluated without a common lock: a put that waits for its entry while its lease is revoked leaves a key whose lease does not exist and that never expires; the same with a map left over from an earlier term, and with two entries proposed in the other order; a renewal applied after the revocation brings the lease back, unknown to the map | `CoorKv.C34_orphan_false`, `CoorKv.C34_stale_map_false`, `CoorKv.C34_order_false`, `CoorKv.C34_zombie_false` |
| C34 | `KvDeleteRange` of several keys of one lease takes only one of them out of the lease's set (`LeaseRemoveMultiLeaseKeys` looks up the lease of each key once): a key put again without a lease is deleted when the old lease expires | `CoorKv.C34_exact_false` |
| C60 | `KvPut` with `ignore_value` stores an empty value; the previous value returned is that of the evaluation, not the one replaced | `CoorKv.C60_ignore_value_false`, `CoorKv.C60_prev_false` |
| C35 | `KvPutApply` and `KvDeleteApply` test `one_time_watch_map_.empty()` without the mutex: a put between the read and the registration of a request is never announced to it | `CoorKv.Watch.C35_lost_wakeup_false` |
| C35 | `OneTimeWatch` answers at once only if the key is past the start revision (`>`), `TriggerOneWatch` from it on (`>=`); a key deleted since the start revision is waited for; the filter for puts is not applied to the immediate answer; `prev_kv` has its version read after the increment; a delete of a deleted key fires; a request that passed the leader check before `OnLeaderStop` is dropped unanswered by `OnLeaderStart`; a request with both filters is answered with an error only when it is cancelled or the leader stops | `CoorKv.Watch.C35_equal_false`, `C35_deleted_false`, `C35_noput_false`, `C35_prev_version_false`, `C35_spurious_delete_false`, `C35_leader_start_false` |
| C44 | `UpdateGCSafePoint` raises the temporary map, which is what `GetGCSafePoint` answers from, before the increment is committed: a second request that finds it raised is answered with success without writing anything, and both are forgotten when the leader loses the first; a store may collect garbage at a point that is never committed, and is told a lower one by the next leader | `SafePoint.C44_acked_false`, `SafePoint.C44_store_regress_false` |
| C44 | the increment of a tenant carries the whole tenant as read: with a resolve-lock point raised meanwhile the apply ignores it, GC point included, though the request succeeds; it also puts back the name a rename has just changed; two creations evaluated side by side both succeed and the second sets the points back to 0 | `SafePoint.C44_acked_tenant_false`, `SafePoint.C44_rename_false`, `SafePoint.C44_tenant_reset_false` |
| C44 | `RegularDoGcHandler` clears the stop flag of the tenants it picked, also one set since; `DoUpdateGCSafePoint` sets `new_safe_point` twice, the second time to the resolve-lock point | `SafePoint.C44_stop_false`, `SafePoint.C44_response_false` |
| C19 | the maximum read timestamp of a region lives in memory and a new leader starts from 0: a one-phase commit under the new leader lands below a read the old one served | `MemLock.C19_leader_false` |
| C19 | a split copies the maximum to the child before the epochs change, and reads validated before go on: one that raises the parent's maximum after the copy is not known to the child; a merge updates the target's range and epoch before its maximum, so that a prewrite between the two picks a timestamp below reads the source served | `MemLock.C19_split_false`, `C19_merge_false` |
| C19 | a prewrite of a pessimistic lock that comes without its `for_update_ts` check picks its timestamp without the `for_update_ts` of the lock, while readers below that one pass the lock: the commit can land below a read that was served | `MemLock.C19_for_update_false` |
| C19, C62, C63 | prewrites in vector and document regions latch the decimal id of the vector or document instead of the key, and never unlock the memory locks: two transactions prewrite the same key side by side, the second overwrites the lock of the first, and reads above are refused for the memory lock for ever after | `MemLock.C19_index_false`, `C62_index_false`, `C63_index_false` |
| C64 | the catch-up replays the log up to but not including the last applied entry, also in the last round under the switch flag: that entry is in neither the replay nor, if it was applied before the switch, the new index | `VecIndex.C64_catch_up_false`, `VecIndex.C64_index_exact_partial` |
| C64 | the switch flag is only looked at before the pointer is taken: an entry that has taken it writes to the old index; an entry that found no index ready before the first switch is not replayed | `VecIndex.C64_switch_false`, `VecIndex.C64_first_switch_false` |
| C64 | the replay passes over transactional and batch writes, and replays entries that the state machine refused for their epoch | `VecIndex.C64_txn_replay_false`, `VecIndex.C64_epoch_false` |
| C64 | the delete part of a transactional write is passed `INT64_MAX` for its log id, so it is made again after a restart on an index that is ahead | `VecIndex.C64_txn_delete_false` |
| C64 | a switch stores the wrapper's log id without a file of the new index: after a crash an older file is loaded under the newer id and the entries between are left out; a file saved between the two calls of an entry, or of an index that has been replaced meanwhile, is given the wrapper's current id | `VecIndex.C64_restart_false`, `VecIndex.C64_save_between_false`, `VecIndex.C64_save_old_false`, `VecIndex.C64_file_partial` |
| C64 | a replay gathers writes of several entries into one call, and ignores its status: a flat index refuses one that names an id twice, an HNSW index ends a delete at the first id it does not hold | `VecIndex.C64_replay_duplicates_false`, `VecIndex.C64_replay_delete_false`, `VecIndex.C64_apply_delete_false` |
| C65 | an inverted-file index keeps an old vector beside a new one; duplicates in one batch are refused by a flat index while other batches of the call go in, and accepted across batches; an HNSW delete stops at the first id not held and reports success; a region with a sibling HNSW index refuses writes that name ids of one range only, and takes back more than it added | `VecIndex.C65_readd_false`, `VecIndex.C65_twice_false`, `VecIndex.C65_flat_batches_false`, `VecIndex.C65_hnsw_delete_false`, `VecIndex.C65_sibling_false` |
| C66 | what is compared with `max_commit_ts` leaves out the `min_commit_ts` a pessimistic lock was pushed to: after a change of leader, whose maximum does not know of the push, a request is committed above its `max_commit_ts` | `MemLock.C66_max_false` |
| C48 | `HandleTxnDeleteRangeRequest` dereferences the response of the request's closure, which only the replica that took the request has: the others end, also at each restart | `Replica.C48_delete_range_kills`, `Replica.C48_delete_range_false` |
| C48 | a replica added after a split is created with the region's current version; sent the log from its start it skips entries of earlier versions (the guard on the snapshot's version is disabled, heartbeats report `INT64_MAX`) | `Replica.C48_new_peer_false` |
| C67 | after a load the applied index is set to `last_included_index`, but the check before a load compares with the larger `log_index`: after a restart the snapshot is loaded again, its files are gone, and the region's data are removed for nothing; likewise after a crash between the removal of the files and the write of the applied index | `Replica.C67_restart_false`, `Replica.C67_crash_false` |
| C67 | the iterators of a snapshot are made without an upper bound: it holds all the store has from the start of the range on, and overwrites other regions' data on the receiver | `Replica.C67_others_false` |
| C67 | a replica that is sent a snapshot from after a split never applies the split entry, so the child stays in state STANDBY on its store | `Replica.C67_child_false` |
| C67 | a sender that was restarted before its applied index was written gives a snapshot a `log_index` below `last_included_index`, and the receiver neither loads it nor gets the entries; a snapshot of a lower version than the replica's is dropped but counted as applied, which leaves a new replica empty | `Replica.C67_stale_false`, `Replica.C67_old_false` |
| C68 | `GetKeyValue` passes `std::min(max_fetch_cnt, max_fetch_cnt_by_server_)` to a `size_t` parameter: a negative `max_fetch_cnt`, which the checks let through, switches the server's limit off | `Scan.C68_cap_false` |
| C68 | `has_more` is set when a limit is reached without looking for another pair, so it may be true although everything was handed out; Begin and the first version of Continue do not return it | `Scan.C68_more_false` |
| C69 | a request that fails deletes whatever session is registered under its id: a Continue that comes between `CreateScan` and `Open` ends a session whose Begin is then answered OK; a Continue left over from a released session ends a new session with the same id (possible for `KvScanBeginV2`, where the client picks the id) | `Scan.C69_early_false`, `Scan.C69_reuse_false` |
| C70 | a new leader takes requests before it has rebuilt its maps (`SetLeaderTerm` before `OnLeaderStart`), and an entry carries no expected term: an id is given twice after a change of the leader | `Meta.C70_window_false`, `Meta.C70_stale_false` |
| C70 | `CreateSchema` uses `new_schema_id` as a wish, and the service passes it uninitialised: whatever is in memory becomes the id of the schema, possibly that of an existing one | `Meta.C70_junk_false` |
| C71 | `DropTables` frees names before it has checked all its members, and a drop whose entry is not written does not take the names back: a second object with the name is made | `Meta.C71_drop_tables_false`, `Meta.C71_failed_drop_false` |
| C71 | `DropSchema` frees the name under the tenant of the request, not under that of the schema | `Meta.C71_drop_schema_false` |
| C71 | two drops of one index both pass; the second frees the name of a new index made in between | `Meta.C71_two_drops_false` |
| C71 | names are not unique after a change of the leader, for the reasons given for C70 | `Meta.C71_window_false`, `Meta.C71_stale_false` |
| C71 | a failed `CreateTable` keeps the name reserved until the leader changes | `Meta.C71_name_lost_false` |
| C72 | `DropSchema` races with the creation of a table in the schema, or with the drop of an index in it: both are taken and applying the second is `DINGO_LOG(FATAL)` on every coordinator, again after each restart | `Meta.C72_create_drop_false`, `Meta.C72_drop_drop_false` |
| C73 | `GetTable` and `GetIndex` do not look at the schema of the object | `Meta.C73_wrong_schema_false` |
| C73 | two creations with the same id at the same time are both acknowledged; one object replaces the other and is listed twice | `Meta.C73_same_id_false` |
| C74 | `DropTable` never succeeds: it refuses tables with indexes and counts the table itself among them; a table made by `CreateTable` has no list of indexes and `DropTables` refuses it, so it cannot be dropped at all | `Meta.C74_drop_table_never`, `Meta.C74_undroppable`, `Meta.C74_create_table_false` |
| C75 | the id of a new table or index is appended to the list of its schema by a write of its own: after a crash before the applied index is written it is in the list twice, `GetTables` returns it twice and `GetTablesCount` counts it twice | `Meta.C75_twice_false` |
| C76 | `DropSchema` looks at the tables of the schema, not at its indexes: the indexes stay in a schema that does not exist and can be neither read nor dropped | `Meta.C76_drop_schema_false` |
| C76 | `DropTenant` races with `CreateSchema` | `Meta.C76_race_false` |
| C77 | `DropTables` for an index of a table leaves the id in the list of the table: the indexes of the table cannot be read, and the table cannot be dropped any more | `Meta.C77_drop_index_false` |
| C77 | `AddIndexOnTable` races with `DropTables`: the index stays without its table | `Meta.C77_race_false` |
| C78 | a vector added with a time of expiry and without scalar (or table) data: reading this data aborts the process (`GetValueTTL` checks that a value with a time of expiry has bytes besides it, `mvcc/codec.cc:379-387`) | `VecQuery.C78_abort_iff`, `VecQuery.C78_abort_false` |
| C78 | a query at the newest state reads vector, scalar and table data at different moments: an entry may mix two versions | `VecQuery.C78_torn_false`, what holds: `VecQuery.C78_any`, `VecQuery.C78_stable` |
| C79 | the service accepts a scan from a negative id and the process aborts | `VecQuery.C79_negative_false` |
| C79 | a scan with a filter fails as a whole, and one without answers with an empty entry, when a vector is deleted meanwhile; with a filter it aborts at a vector that expires and has no scalar data | `VecQuery.C79_race_false`, `VecQuery.C79_hole_false`, `VecQuery.C79_abort_false` |
| C80 | a `DATETIME`, which schemas may use, equals nothing; one vector that expires and has no scalar data makes every search of the region with a scalar pre-filter abort | `VecQuery.C80_datetime_false`, `VecQuery.C80_abort_false` |
| C81 | a list of ids that the client says is sorted is searched by bisection whether it is or not: ids are missed | `VecQuery.C81_sorted_false`, what holds: `VecQuery.C81_filter_sorted_partial` |
| C81 | if tasks take more than one query each (`vector_read_batch_size_per_task`, default 1), the results are put at the number of the task, not of its first query: answers are overwritten and left empty (`vector/vector_index.cc:263-265`) | `VecQuery.C81_parallel_false` |
| C81 | brute force over a region without vectors answers with no result at all, not with an empty one for each query | `VecQuery.C81_empty_false` |
| C81 | a range search by brute force stops at its limit (1024) without saying so, and keeps the first by id, not the nearest | `VecQuery.C81_cap_false` |
| C82 | the index keeps vectors that have expired: a search finds them, in place of others, and says nothing but their id; a filter after the search makes the whole search fail with `EKEY_NOT_FOUND` | `VecQuery.C82_expired_false`, `VecQuery.C82_post_expired_false` |
| C82 | `Storage::VectorAdd` takes the timestamp before the write is logged: two writes of one vector may be logged in the other order, and then the index holds the one and the data shows the other | `VecQuery.C82_order_false` |
| C82 | a filter on scalar data after the search looks at ten times `top_n` candidates only; the scalar data of the first query is the filter of all | `VecQuery.C82_post_false`, `VecQuery.C82_first_filter_false`, what holds: `VecQuery.C82_post_partial` |
| C83 | a merge reported as a source that only became `TOMBSTONE` first and then both regions: the entry of the target is erased with that of the source, and since nothing about the target changes afterwards it is not found by key until the coordinator's leader changes | `RegMap.C83_lost_false`, what holds: `RegMap.C83_merge`, `RegMap.C83_leader` |
| C83 | a source of a merge dropped before its new range was reported takes the entry of the target with it | `RegMap.C83_drop_false` |
| C83 | a region created with its end key before its start key (nothing checks this) lies in the middle of another; after a change of leader lookups miss that one | `RegMap.C83_reversed_false` |
| C84 | two heartbeats handled at the same time, one of them with states only: the second writes back the peers and the conf version from before the first, until the next full report | `RegMap.C84_conf_false`, what holds: `RegMap.C84_version`, `RegMap.C84_taken`, `RegMap.C84_conf_partial` |
| C85 | two requests handled at the same time are each checked before the other is applied: two regions with the same keys | `RegMap.C85_race_false` |
| C85 | the partitions of a table are not checked against each other: a table with overlapping partitions is accepted | `RegMap.C85_table_false`, what holds: `RegMap.C85_apart` |
| C86 | a failure a store reports while a pass is under way is forgotten: the entry of the pass puts back the job as it was before; the job goes on as if the command had been carried out | `Job.C86_lost_failure_false` |
| C86 | that an operation succeeded is never taken back: after a reported failure the commands are sent again, but one acceptance by any store is enough to go on | `Job.C86_retry_false` |
| C86 | cleaning jobs archives them with the status "success", also those of which nothing was sent | `Job.C86_cleaned_false`, what holds: `Job.C86_success_partial` |
| C86 | a job cleaned while a pass is under way is put back by the entry of the pass | `Job.C86_back_false` |
| C86 | cleaning a job twice at about the same time (or cleaning it while a pass archives it) ends the process of every coordinator that applies the second entry | `Job.C86_abort_false` |
| C86 | a coordinator that ends between erasing a job and writing the applied index ends again whenever it is started | `Job.C86_replay_false` |
| C86 | commands are done when they are accepted; a store that answers for another id (`server/push_service.cc:58-63`) answers without results, which counts as acceptance of all; the commands of `SplitRegion` with a given new region all have id 0, so that from the second on a store answers that it was sent before, which counts as acceptance | not stated as theorems: both are in what `took` means |
| C87 | two changes of the same region asked for at about the same time are both granted, e.g. the removal of two of three peers | `Job.C87_together_false`, what holds: `Job.C87_exclusive_partial`, `Job.C87_refused` |
| C87 | a change asked for after an earlier job was cleaned, while a pass is under way that puts the earlier one back | `Job.C87_stale_false` |
| C87 | a transfer of the leader is granted to any peer at any time, also to the one that is being removed | `Job.C87_transfer_false` |
| C88 | the removal of the only peer of a region is granted if the leader the coordinator knows is another store; the list of remaining peers is empty then, and an empty list is not checked | stated as a case of `Job.C88_delete` |
| C89 | an aggregate over no rows returns no result, where one expects a count of zero | `Coproc.C89_no_rows` |
| C89 | the sum of a column of truth values is their disjunction | in the meaning of `sum` for that type (`Coproc/Spec`) |
| C90 | a row that satisfies the expression and cannot be encoded is left out of a successful answer | `Coproc.C90_dropped_false`, what holds: `Coproc.C90_rows_partial` |
| C91 | a schema index or a selected column out of range, a decimal in the result schema or among the grouped columns: the process ends when the request is opened | `Coproc.C91_open_false`, what holds: `Coproc.C91_open_partial` |
| C91 | group-by columns without aggregates (`SELECT DISTINCT`) are accepted, and the first row ends the process | `Coproc.C91_distinct_false` |
| C91 | the types of aggregates and of the result schema are compared at the first row only, so whether the request is refused depends on there being rows | `Coproc.C91_types_false` |
| C91 | sums overflow in signed arithmetic | `Coproc.C91_overflow_false`, what holds under a bound on the magnitudes: `Coproc.C89_answers` |
| C92 | a region whose first key has as many bytes of versions as the asked size is asked to be split at its start key, which the coordinator refuses, again and again: it is never split | `AutoSplit.C92_stuck_false`, what holds: `AutoSplit.C92_inside_partial` |
| C92 | the policy KEYS counts versions, although described as counting keys: a region with a single key is asked to be split | `AutoSplit.C92_versions_false` |
| C92 | a region with a vector index may be asked to be split at the key of a scalar field, between a vector and its scalar data | `AutoSplit.C92_vector_false` |
| C93 | the last two regions of a pass are never compared; two regions alone on a store are never merged | `AutoSplit.C93_last_false`, what holds: `AutoSplit.C93_asks_partial` |
| C93 | ranges, sizes and the time of the last split are not looked at again when the task runs | `AutoSplit.C93_task_false`, `AutoSplit.C93_task_recent_false` |
| C94 | a check for a split is started before its region is marked; if it ends first, the region stays marked and is never checked again | `AutoSplit.C94_split_false`, what holds: `AutoSplit.C94_split_partial` |
| C94 | the region merged into is not looked up among the marked ones, so two checks may name the same region and the end of one removes the mark of the other | `AutoSplit.C94_merge_false`, what holds: `AutoSplit.C94_merge` |
| C95 | a creation of a region on several stores is given up when one of them fails often enough; the replicas the others have created stay | `Job.C95_leftover_false` |
| C96 | a region that is created again before the shared worker has handled its earlier deletion loses its worker: commands are answered with an error but stay in the table, are answered as repeated (which the coordinator takes for accepted) when sent again, and are carried out at the next restart | `Ctl.C96_worker_false` |
| C96 | a deletion that has marked its region as deleted when the store stops is never carried on: the region has no worker after a restart | `Ctl.C96_restart_false`, what holds: `Ctl.C96_restart` |
| C96 | a command marked as a retry is queued although the first one still is; it ends twice, and its recorded outcome changes from done to failed | `Ctl.C96_retry_false`, what holds: `Ctl.C96_once` |
| C97 | creations of different regions with a common range pass their checks before either is entered; both end well, and the deletion of one removes the keys of the other | `Ctl.C97_false`, what holds: `Ctl.C97_apart_partial` |
| C97 | a creation that is interrupted after entering its region fails after the restart; the region stays in state NEW without a raft node and cannot be created again | `Ctl.C97_half_false` |
| C97 | a creation that is interrupted before its outcome is recorded is recorded as failed although the region is up | `Ctl.C97_failed_false` |
| C98 | a deletion interrupted after the region is marked is never finished: the region stays in the table, and commands to delete or to create it are refused | `Ctl.C98_stuck`, `Ctl.C98_interrupted` |
| C98 | a deletion that was carried out but not recorded is carried out again at the next restart that finds a region with that id, though it was created since | `Ctl.C98_stale_false` |
| C98 | a purge leaves the keys of the region behind, and one that was accepted twice takes a region that is up out of the table | `Ctl.C98_purge_false`, `Ctl.C98_purge_live_false` |
| C99 | `TaskFilter::Check` is true for every region, and the filter at the end asks the region filters again: a region with a job that is not finished gets a transfer as well | `Balance.C99_busy_false` |
| C99 | where a store with few leaders looks for one, the answer about room is taken the wrong way round (795): leaders go to stores without memory for their index, to replicas without a vote, and never to a store with room | `Balance.C99_room_false`, `C99_learner_false`, `C99_in_false`, what holds: `C99_voter_partial` |
| C99 | of each store one region is picked by chance; if it cannot be transferred no other is tried, and the pass asks for nothing | `Balance.C99_idle_false`, what holds: `C99_idle`, `C99_balanced_partial` |
| C99 | whether a pass is running is read and set in two steps, so two may run | `Balance.C99_running_false` |
| C100 | a region that is large for the difference of two stores goes to and fro for ever | `BalRegion.C100_settles_false` |
| C100 | the filter for the state of regions answers for a store and a region and is asked for a region, so it keeps all: a region for which the job is refused is chosen in every pass and blocks all others | `BalRegion.C100_health_false`, `C100_stuck` |
| C100 | the second attempt of a round, with the next source, does not ask for the limit | `BalRegion.C100_limit_false`, what holds: `C100_limit_partial` |
| C100 | after a change of the coordinator's leader a store that has not reported its regions yet counts as having none: a region is moved to a store that has a replica, and the job, which compares lists with repetitions, is made | `BalRegion.C100_twice_false`, what holds: `C100_replicas_partial` |
| C100 | stores that have not reported their capacity have no score; the second attempt goes through a null pointer | `BalRegion.C100_crash_false`, what holds: `C100_no_crash` |
| C101 | a caller that finds the counter below the number of workers runs the task itself: more tasks run at once than there are workers, and a caller's later task overtakes an earlier one that is in the queue | `Pool.C101_inplace_false`, `C101_overtake_false`, what holds: `C101_order`, `C101_order_partial` |
| C101 | the counter is read and raised in two steps, so the limit is exceeded by as many tasks as there are callers | `Pool.C101_limit_false`, what holds: `C101_bound` |
| C101 | `Execute` does not look whether the queue is shut down: a task taken after the workers have ended is never run and its caller, if it waits, waits for ever | `Pool.C101_stop_false`, what holds: `C101_stop_partial` |
| C102 | an entry that the queue refuses ends the process: with two regions more than the limit (1024 by default), and an entry each, the store goes down, and again when it replays its log | `Pool.C102_alive_false`, what holds: `C102_alive_partial` |
| C102 | the entry that commits a merge waits in a worker for the entry of the merged region, which may be behind it in the queue: nothing more is applied | `Pool.C102_merge_false`, what holds: `C102_all_partial` |
| C103 | locks of transactions other than those backed up are not looked at: the backup may hold a transaction on one key and not on another (the `br` tool asks for resolved locks first, the store does not) | `Backup.C103_torn_false`, what holds: `C103_backup`, `C103_refused` |
| C103 | a backup does not raise the largest read timestamp of the region: a one-phase commit may afterwards be given a timestamp below that of the backup | `Backup.C103_onepc_false`, what holds: `C103_repeat_partial` |
| C104 | after `RestoreTxn`, `DoReadSstFileForTxn` looks at the status of opening the last file, not at that of the restore: no restore is answered with an error, also if nothing was written | `Backup.C104_answer_false`, `C104_nothing_false` |
| C104 | a failed write other than EPERM is logged and the restore goes on: a version may be there without its value and reads as absent | `Backup.C104_lost_false`, what holds: `C104_all_partial`, `C104_stopped`, `C104_cut` |
| C104 | a deletion in the backup of an index or document region has no value to build the index from, and ends the restore before any record is written; success is answered | `Backup.C104_index_false`, `C104_refused` |
| C105 | a put takes its timestamp before it is applied, and a backup holds nothing back: a version at or below the timestamp may come in after the backup and is not in it | `RawBackup.C105_late_false`, what holds: `C105_repeat_partial` |
| C105 | as with transactions, the status of the restore is not looked at, and a failed write other than EPERM is forgotten by the next one | `RawBackup.C105_answer_false`, `C105_nothing_false`, `C105_lost_false`, what holds: `C105_restored`, `C105_stopped`, `C105_only` |
| C106 | a restore gives the vectors to the index before it writes any record, and the families one after the other: if leadership is lost in between, the index has vectors the region does not hold, or the region vectors without scalar data (and success is answered, C105) | `RawBackup.C106_stopped_false`, `C106_half_false`, what holds: `C106_restored`, `C106_copy` |
| C107 | in the default build `SetShareDocumentIndex` and `SetSiblingDocumentIndex` mark the index as destroyed, where the build with `WITH_VECTOR_INDEX_USE_DOCUMENT_SPEEDUP` keeps it for searches: after a split neither region answers a search or takes a document into its index, after a merge the target does not answer, until the index is built anew | `DocSearch.C107_split_false`, `C107_split_write_false`, `C107_merge_false`, what holds with the speed-up: `C107_split_partial`, `C107_both` |
| C107 | a document that expires stays in the index; when it is among the hits the search succeeds but it and all hits after it come without documents; a search for all in pages succeeds with no hit at all and "no more" | `DocSearch.C107_expired_false`, `C107_all_false`, what holds: `C107_documents_partial`, `C107_pages_partial` |
| C107 | with two indexes, a write that fails in the second is undone in the first by deleting the documents, so that their former versions are found no more | `DocSearch.C107_undo_false`, what holds: `C107_write_both` |
| C108 | the state of a stream is cast to the class of the request that goes on with it and used without a check: a request of another kind with the stream's id uses a null pointer | `Stream.C108_kind_false`, `C108_crash_false`, what holds: `C108_calm`, `C108_alone` |
| C108 | the limit (and range, timestamp and resolved locks) of a request that goes on with a stream is ignored | `Stream.C108_limit_false` |
| C108 | a search for all that is answered "not found" says that there is no more and leaves its stream; going on with it is not refused but begins again | `Stream.C108_left_false` |
| C109 | a thread of a backup writes its status over that of the others when it ends: if one fails and another ends later without error, the backup ends with success and lacks regions | `BrTool.C109_lost_false`, what holds: `C109_complete_partial`, `C109_reported_partial` |
| C109 | a thread of a backup says that it has ended before it notes its error: the main thread can end with success in between | `BrTool.C109_race_false` |
| C109 | regions of a kind for which there is no node are counted but never handled: the backup never ends (the time limit of the loop is computed from a time that is never read again) | `BrTool.C109_hang_false` |
| C110 | a reader waits while any writer waits: writers that come again and again keep it out for ever | `RwLock.C110_starve_false`, what holds: `C110_no_lost_wakeup`, `C110_writer_first` |
| C110 | a thread that reads and asks to read again while another waits to write waits for ever (no such use was found in the code) | `RwLock.C110_nested_false` |
| C111 | a period over midnight ("22,3") contains no hour: balancing never runs | `Balance.C111_midnight_false`, what holds: `C111_hours` |
| C112 | compare-and-set requests write values and are accepted when the cluster is read-only | `ReadOnly.C112_swap_false` |
| C112 | a check that had computed before a store said that it is short takes the flag away afterwards | `ReadOnly.C112_race_false` |
| C112 | a new leader does not know the shortages and tells stores that they may write | `ReadOnly.C112_leader_false` |
| C112 | commits, rollbacks and the resolving of locks are refused, so that locks stay and block reads | `ReadOnly.C112_finish_false` |
| C112 | backups, which only read, are refused | `ReadOnly.C112_backup_false` |
| C113 | a thread told to stop between its test and its sleep misses the notice: who makes the pool smaller waits for ever | `Threads.C113_shrink_false` |
| C113 | a pool made as small as nothing takes tasks and never runs them | `Threads.C113_empty_false` |
| C113 | a task given while the pool is destroyed is taken and never run | `Threads.C113_destroy_false` |
| C113 | tasks of one priority need not be run in the order given | `Threads.C113_order_false` |
| C114 | a server that ends while a periodic work runs uses memory that was freed | `Cron.C114_destroy_false`, what holds: `C114_destroy_partial` |
| C114 | a work paused and started again while it runs is run twice at a time | `Cron.C114_restart_false` |
| C114 | all works run in the background and may overlap with themselves | `Cron.C114_async_false` |
| C114 | the guard of garbage collection tests and sets in two steps: two collections may go on side by side | `Cron.C114_guard_false`, what holds: `C114_guard_partial` |
| C114 | document indexes are never scrubbed: the entry is for index nodes and calls the scrubbing of vector indexes | `Cron.C114_scrub_false` |
| C115 | a watch from a revision leaves out the last change recorded when it is created: the upper bound of the range read is excluded | `MetaWatch.C115_last_false`, what holds: `C115_history_partial` |
| C115 | a watch from the revision after the last one misses the change at exactly that revision unless a poll waits (`start_revision < meta_revision`) | `MetaWatch.C115_next_false` |
| C115 | a change during the creation of a watch from a revision is sent twice | `MetaWatch.C115_twice_false` |
| C115 | a start revision that is not itself recorded (a raft entry that changes no metadata) is refused as too old | `MetaWatch.C115_gap_false` |
| C115 | a poll that has found its watch when the watch is cancelled is never answered | `MetaWatch.C115_cancel_false` |
| C116 | a download that passed its check before a save was over removes the newer snapshot of the save, for which the log was truncated | `VecSnap.C116_race_false`, what holds: `C116_kept_partial`, `C116_saved_partial`, `C116_same_partial` |
| C116 | a broken download takes the name of the snapshot a save has just made and is removed: the snapshot is lost | `VecSnap.C116_over_false` |
| C116 | the comparison of freshness is turned around: a replica far behind its peers does not pull, one that is as new does | `VecSnap.C116_pull_false`, what holds: `C116_pull_partial` |
| C117 | by a list, a call that fails ends the request and leaves the index: while that server is down every request fails, whoever leads | `FindLeader.C117_list_down_false`, what holds: `C117_list_finds_partial` |
| C117 | by a list, five servers are asked: with six or more the leader may not be among them | `FindLeader.C117_list_six_false` |
| C117 | by the name of a service, a request whose reply was lost is sent again and carried out twice | `FindLeader.C117_service_twice_false`, what holds by a list: `C117_list` |
| C117 | by the name of a service, the response of a request that gave up carries `OK` | `FindLeader.C117_service_response_false`, what holds by a list: `C117_list_response` |
| C117 | by the name of a service, an address to which no channel can be made is never given up | `FindLeader.C117_service_stuck_false`, what holds: `C117_service_finds_partial` |
| C118 | a request that gave up after redirections returns the default status, `OK`; only the response tells | `FindLeader.Br.C118_status_false`, what holds: `C118_sent_partial`, `C118_ends` |
| C118 | a request to all servers passes over one that is down or redirects, and another is asked in its place; the status is `OK` | `FindLeader.Br.C118_all_false`, what holds: `C118_all_partial` |
| C118 | in a request to all servers one that gave up counts as done and its response is overwritten; the next server is passed over | `FindLeader.Br.C118_all_lost_false` |

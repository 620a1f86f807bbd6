{
 "claims": [
  {
   "property": "C01",
   "status": "proved",
   "theorems": [
    "Verif.Codec.C01_key_roundtrip",
    "Verif.Codec.C01_bytes_roundtrip",
    "Verif.Codec.C01_key_injective",
    "Verif.Codec.C01_truncate"
   ],
   "note": "All keys of all lengths, all timestamps in [0,2^63)."
  },
  {
   "property": "C02",
   "status": "proved",
   "theorems": [
    "Verif.Codec.C02_order",
    "Verif.Codec.C02_contiguous",
    "Verif.Codec.C02_bytes_order"
   ],
   "note": ""
  },
  {
   "property": "C03",
   "status": "proved",
   "theorems": [
    "Verif.Codec.C03_range",
    "Verif.Codec.C03_point"
   ],
   "note": "Range and point-read bounds."
  },
  {
   "property": "C04",
   "status": "partial",
   "theorems": [
    "Verif.Codec.C04_value_roundtrip",
    "Verif.Codec.C04_ttl_partial",
    "Verif.Codec.C04_ttl_abort",
    "Verif.Codec.C04_no_abort_false"
   ],
   "note": "Round trip proved for all values. The no-abort half is false of the code: an empty value with TTL aborts (GetValueTTL CHECKs size>9); proved for non-empty values, negation proved."
  },
  {
   "property": "C05",
   "status": "partial",
   "theorems": [
    "Verif.Codec.C05_strict_partial",
    "Verif.Codec.C05_exact_length_partial",
    "Verif.Codec.C05_no_crash_partial",
    "Verif.Codec.C05_strict_false",
    "Verif.Codec.C05_can_throw"
   ],
   "note": "Strictness is false of the code (trailing groups ignored, throws on markers < 247, UB on empty input): negations proved; proved up to trailing groups for sane markers."
  },
  {
   "property": "C06",
   "status": "partial",
   "theorems": [
    "Verif.Mvcc.C06_kvGet_exact",
    "Verif.Mvcc.C06_kvGet_partial",
    "Verif.Mvcc.C06_false"
   ],
   "note": "Exact characterisation for every store content, including the abort; the claim itself fails for an empty value stored with a TTL (reader aborts), negation proved."
  },
  {
   "property": "C07",
   "status": "partial",
   "theorems": [
    "Verif.Mvcc.C07_scan",
    "Verif.Mvcc.C07_backward_partial",
    "Verif.Mvcc.C07_backward_false"
   ],
   "note": "Scan, count and min key proved for all stores. Max key / backward traversal proved when no empty TTL value is stored; false otherwise (aborts on a superseded empty TTL value)."
  },
  {
   "property": "C08",
   "status": "proved",
   "theorems": [
    "Verif.Mvcc.C08_history",
    "Verif.Mvcc.C08_stable",
    "Verif.Mvcc.C08_read_your_put",
    "Verif.Mvcc.C08_read_your_delete",
    "Verif.Mvcc.C08_delete_states",
    "Verif.Mvcc.C08_other_keys",
    "Verif.Mvcc.C08_delete_range"
   ],
   "note": "All finite histories of puts, TTL puts, deletes and range deletes; stability is for puts and deletes (a range delete is not versioned). Read-back of a put excludes the empty-value-with-TTL abort of C04."
  },
  {
   "property": "C09",
   "status": "partial",
   "theorems": [
    "Verif.Txn.C09_txnGet",
    "Verif.Txn.C09_snapshot_unique",
    "Verif.Txn.C09_limit_partial",
    "Verif.Txn.C09_limit_false"
   ],
   "note": "All disciplined histories; the answer is the unique snapshot value or a really conflicting lock. The memory limit of BatchGet silently drops keys (negation proved), hence partial."
  },
  {
   "property": "C10",
   "status": "proved",
   "theorems": [
    "Verif.Txn.C10_scan",
    "Verif.Txn.C10_agrees_with_get"
   ],
   "note": "Streams of any number of pages, page limits and intervening disciplined histories; both isolation levels; without coprocessor."
  },
  {
   "property": "C100",
   "status": "partial",
   "theorems": [
    "Verif.BalRegion.C100_no_crash",
    "Verif.BalRegion.C100_task",
    "Verif.BalRegion.C100_limit_partial",
    "Verif.BalRegion.C100_close",
    "Verif.BalRegion.C100_moves",
    "Verif.BalRegion.C100_replicas_partial",
    "Verif.BalRegion.C100_job",
    "Verif.BalRegion.C100_stuck",
    "Verif.BalRegion.C100_settles_false",
    "Verif.BalRegion.C100_health_false",
    "Verif.BalRegion.C100_limit_false",
    "Verif.BalRegion.C100_twice_false",
    "Verif.BalRegion.C100_crash_false"
   ],
   "note": "Every world. The limit is proved for some store no less full than the source; the replicas if the target has none. That passes come to rest, that the state of regions is looked at, that stores with replicas are left out and that a pass cannot crash without capacities is false (negations proved)."
  },
  {
   "property": "C101",
   "status": "partial",
   "theorems": [
    "Verif.Pool.C101_once",
    "Verif.Pool.C101_ends",
    "Verif.Pool.C101_run",
    "Verif.Pool.C101_refused",
    "Verif.Pool.C101_bound",
    "Verif.Pool.C101_order",
    "Verif.Pool.C101_order_partial",
    "Verif.Pool.C101_stop_partial",
    "Verif.Pool.C101_inplace_false",
    "Verif.Pool.C101_overtake_false",
    "Verif.Pool.C101_limit_false",
    "Verif.Pool.C101_stop_false"
   ],
   "note": "Every interleaving of any number of callers and workers. Order of one caller is proved without tasks run in place, the limit up to one task per caller; that as many tasks run as there are workers, and that tasks taken after shutdown are run, is false (negations proved)."
  },
  {
   "property": "C102",
   "status": "partial",
   "theorems": [
    "Verif.Pool.C102_order",
    "Verif.Pool.C102_all_partial",
    "Verif.Pool.C102_ends",
    "Verif.Pool.C102_alive_partial",
    "Verif.Pool.C102_alive_false",
    "Verif.Pool.C102_merge_false"
   ],
   "note": "Order for every store; that whole logs are applied for logs without merges (negation proved with one); that load does not end the store if regions and workers are at most one more than the limit (negation proved for two regions more than any limit)."
  },
  {
   "property": "C103",
   "status": "partial",
   "theorems": [
    "Verif.Backup.C103_backup",
    "Verif.Backup.C103_refused",
    "Verif.Backup.C103_restored",
    "Verif.Backup.C103_repeat_partial",
    "Verif.Backup.C103_torn_false",
    "Verif.Backup.C103_onepc_false"
   ],
   "note": "Contents of the backup and reads of the restored region for every reachable state; repetition if the region has served a read at or above the timestamp and clients commit above it. Negations proved: a transaction committed on only some of its keys is torn apart, and one-phase commits may later go below the backup."
  },
  {
   "property": "C104",
   "status": "partial",
   "theorems": [
    "Verif.Backup.C104_all_partial",
    "Verif.Backup.C104_stopped",
    "Verif.Backup.C104_cut",
    "Verif.Backup.C104_refused",
    "Verif.Backup.C104_only",
    "Verif.Backup.C104_size",
    "Verif.Backup.C104_answer_false",
    "Verif.Backup.C104_nothing_false",
    "Verif.Backup.C104_lost_false",
    "Verif.Backup.C104_index_false"
   ],
   "note": "Whole contents if no write fails (and, with an index, every record has a value that parses); initial parts for restores that are stopped. Failures are never answered as such (negation proved for every input)."
  },
  {
   "property": "C105",
   "status": "partial",
   "theorems": [
    "Verif.RawBackup.C105_backup",
    "Verif.RawBackup.C105_restored",
    "Verif.RawBackup.C105_stopped",
    "Verif.RawBackup.C105_only",
    "Verif.RawBackup.C105_document",
    "Verif.RawBackup.C105_repeat_partial",
    "Verif.RawBackup.C105_late_false",
    "Verif.RawBackup.C105_answer_false",
    "Verif.RawBackup.C105_nothing_false",
    "Verif.RawBackup.C105_lost_false"
   ],
   "note": "Contents, reads of the copy and restores for every store and outcome of writes; repetition if later writes are above the timestamp (negation proved otherwise). Failures are never answered as such (negation proved for every input). Vector regions: C106."
  },
  {
   "property": "C106",
   "status": "partial",
   "theorems": [
    "Verif.RawBackup.C106_backup",
    "Verif.RawBackup.C106_restored",
    "Verif.RawBackup.C106_copy",
    "Verif.RawBackup.C106_stopped_false",
    "Verif.RawBackup.C106_half_false"
   ],
   "note": "Contents, what the index is given and the copy, for every history and set of fields, if all writes succeed; that index and region agree when a restore is stopped is false (negation proved)."
  },
  {
   "property": "C107",
   "status": "partial",
   "theorems": [
    "Verif.DocSearch.C107_answered",
    "Verif.DocSearch.C107_search",
    "Verif.DocSearch.C107_both",
    "Verif.DocSearch.C107_both_all",
    "Verif.DocSearch.C107_split_partial",
    "Verif.DocSearch.C107_split_false",
    "Verif.DocSearch.C107_split_write_false",
    "Verif.DocSearch.C107_merge_false",
    "Verif.DocSearch.C107_documents",
    "Verif.DocSearch.C107_documents_partial",
    "Verif.DocSearch.C107_pages_partial",
    "Verif.DocSearch.C107_write",
    "Verif.DocSearch.C107_delete",
    "Verif.DocSearch.C107_write_both",
    "Verif.DocSearch.C107_delete_both",
    "Verif.DocSearch.C107_accepted",
    "Verif.DocSearch.C107_in_range",
    "Verif.DocSearch.C107_expired_false",
    "Verif.DocSearch.C107_all_false",
    "Verif.DocSearch.C107_undo_false"
   ],
   "note": "Searches, merges of results, pages and successful writes for every index, query and library that ranks; false (negations proved): answers after a split or merge in the default build, hits that have expired, undoing of failed writes. Expiry of streams: C108."
  },
  {
   "property": "C108",
   "status": "partial",
   "theorems": [
    "Verif.Stream.C108_alone",
    "Verif.Stream.C108_begin",
    "Verif.Stream.C108_no_empty",
    "Verif.Stream.C108_calm",
    "Verif.Stream.C108_recycle",
    "Verif.Stream.C108_kind_false",
    "Verif.Stream.C108_limit_false",
    "Verif.Stream.C108_crash_false",
    "Verif.Stream.C108_left_false"
   ],
   "note": "Answers as if alone for every interleaving and engine, refusal afterwards, and cleaning up; that no request aborts the store, that later limits count, and that a stream ends with \"no more\" are false (negations proved). Simultaneous requests of one stream are not modelled."
  },
  {
   "property": "C109",
   "status": "partial",
   "theorems": [
    "Verif.BrTool.C109_complete_partial",
    "Verif.BrTool.C109_told",
    "Verif.BrTool.C109_reported_partial",
    "Verif.BrTool.C109_hang_false",
    "Verif.BrTool.C109_restore",
    "Verif.BrTool.C109_restore_told",
    "Verif.BrTool.C109_lost_false",
    "Verif.BrTool.C109_race_false"
   ],
   "note": "Restores: as stated, unless the main thread gives up waiting. Backups: complete if no request failed, errors only after a failure, errors told if every started thread had one; in general a failure can be lost and a backup can go on for ever (negations proved)."
  },
  {
   "property": "C11",
   "status": "proved",
   "theorems": [
    "Verif.Txn.C11_repeatable_read"
   ],
   "note": "All disciplined histories; commit timestamps sent by clients above ts, those chosen by the store are shown to be above it."
  },
  {
   "property": "C110",
   "status": "partial",
   "theorems": [
    "Verif.RwLock.C110_exclusive",
    "Verif.RwLock.C110_no_lost_wakeup",
    "Verif.RwLock.C110_free",
    "Verif.RwLock.C110_writer_first",
    "Verif.RwLock.C110_nested_false",
    "Verif.RwLock.C110_starve_false"
   ],
   "note": "Exclusion, no lost wake-ups and writers first are proved for all interleavings; that every request is served sooner or later is false for readers (negation proved). The mutex and condition of bthread are assumed to work."
  },
  {
   "property": "C111",
   "status": "partial",
   "theorems": [
    "Verif.Balance.C111_hours",
    "Verif.Balance.C111_forced",
    "Verif.Balance.C111_apart",
    "Verif.Balance.C111_midnight_false"
   ],
   "note": "As stated for periods that do not go over midnight; those that do never let a pass begin (negation proved). SplitString of brpc and strtol are modelled from their documentation."
  },
  {
   "property": "C112",
   "status": "partial",
   "theorems": [
    "Verif.ReadOnly.C112_stops_partial",
    "Verif.ReadOnly.C112_self",
    "Verif.ReadOnly.C112_forced",
    "Verif.ReadOnly.C112_clears",
    "Verif.ReadOnly.C112_stays_clear",
    "Verif.ReadOnly.C112_resumes",
    "Verif.ReadOnly.C112_reads",
    "Verif.ReadOnly.C112_untold",
    "Verif.ReadOnly.C112_swap_false",
    "Verif.ReadOnly.C112_race_false",
    "Verif.ReadOnly.C112_leader_false",
    "Verif.ReadOnly.C112_finish_false",
    "Verif.ReadOnly.C112_backup_false"
   ],
   "note": "Holds but for compare-and-set requests, checks begun before, and changes of leader (negations proved). Commits, resolving of locks and backups are refused too."
  },
  {
   "property": "C113",
   "status": "partial",
   "theorems": [
    "Verif.Threads.C113_once",
    "Verif.Threads.C113_wake",
    "Verif.Threads.C113_quiet_partial",
    "Verif.Threads.C113_rest",
    "Verif.Threads.C113_priority",
    "Verif.Threads.C113_exit",
    "Verif.Threads.C113_shrink_false",
    "Verif.Threads.C113_empty_false",
    "Verif.Threads.C113_destroy_false",
    "Verif.Threads.C113_order_false"
   ],
   "note": "Holds as long as a thread is left that was not told to stop; making the pool smaller may not end, and tasks given to an empty or destroyed pool wait for ever (negations proved)."
  },
  {
   "property": "C114",
   "status": "partial",
   "theorems": [
    "Verif.Cron.C114_single",
    "Verif.Cron.C114_apart",
    "Verif.Cron.C114_limit",
    "Verif.Cron.C114_called",
    "Verif.Cron.C114_destroy_partial",
    "Verif.Cron.C114_guard_partial",
    "Verif.Cron.C114_table",
    "Verif.Cron.C114_destroy_false",
    "Verif.Cron.C114_restart_false",
    "Verif.Cron.C114_async_false",
    "Verif.Cron.C114_guard_false",
    "Verif.Cron.C114_scrub_false"
   ],
   "note": "Calls are periodic, apart and do not overlap while the server is up; background work may overlap, ending a server during a run misuses memory, and document indexes are never scrubbed (negations proved)."
  },
  {
   "property": "C115",
   "status": "partial",
   "theorems": [
    "Verif.MetaWatch.C115_from_now",
    "Verif.MetaWatch.C115_prefix",
    "Verif.MetaWatch.C115_answered",
    "Verif.MetaWatch.C115_history_partial",
    "Verif.MetaWatch.C115_trimmed",
    "Verif.MetaWatch.C115_ordered",
    "Verif.MetaWatch.C115_too_old",
    "Verif.MetaWatch.C115_recent",
    "Verif.MetaWatch.C115_last_false",
    "Verif.MetaWatch.C115_next_false",
    "Verif.MetaWatch.C115_twice_false",
    "Verif.MetaWatch.C115_gap_false",
    "Verif.MetaWatch.C115_cancel_false"
   ],
   "note": "Watches from now get every change once and in order; watches from a revision may miss the last or the next change or get changes twice, revisions without a record are refused, and a poll beside a cancel is never answered (negations proved)."
  },
  {
   "property": "C116",
   "status": "partial",
   "theorems": [
    "Verif.VecSnap.C116_recover",
    "Verif.VecSnap.C116_kept_partial",
    "Verif.VecSnap.C116_saved_partial",
    "Verif.VecSnap.C116_same_partial",
    "Verif.VecSnap.C116_pull_partial",
    "Verif.VecSnap.C116_race_false",
    "Verif.VecSnap.C116_over_false",
    "Verif.VecSnap.C116_pull_false"
   ],
   "note": "With jobs one after the other the newest snapshot is kept and loadable through any stops; jobs side by side may lose it, and the choice of pulling is turned around (negations proved)."
  },
  {
   "property": "C117",
   "status": "partial",
   "theorems": [
    "Verif.FindLeader.C117_list",
    "Verif.FindLeader.C117_list_finds_partial",
    "Verif.FindLeader.C117_list_race",
    "Verif.FindLeader.C117_list_response",
    "Verif.FindLeader.C117_list_down_false",
    "Verif.FindLeader.C117_list_six_false",
    "Verif.FindLeader.C117_service",
    "Verif.FindLeader.C117_service_finds_partial",
    "Verif.FindLeader.C117_service_twice_false",
    "Verif.FindLeader.C117_service_response_false",
    "Verif.FindLeader.C117_service_stuck_false"
   ],
   "note": "The status is that of the server that acted; the leader is found among at most five servers that answer, or by name through servers that are down; a server that is down blocks a list for ever, and a request by name may be carried out twice (negations proved)."
  },
  {
   "property": "C118",
   "status": "partial",
   "theorems": [
    "Verif.FindLeader.Br.C118_ends",
    "Verif.FindLeader.Br.C118_sent_partial",
    "Verif.FindLeader.Br.C118_status",
    "Verif.FindLeader.Br.C118_status_false",
    "Verif.FindLeader.Br.C118_all_partial",
    "Verif.FindLeader.Br.C118_all_failed",
    "Verif.FindLeader.Br.C118_all_false",
    "Verif.FindLeader.Br.C118_all_lost_false"
   ],
   "note": "A request ends, and status and response together are OK exactly if a server carried it out; the status alone is OK after giving up, and a request to all passes over servers (negations proved)."
  },
  {
   "property": "C12",
   "status": "partial",
   "theorems": [
    "Verif.Txn.C12_outcome_final_partial",
    "Verif.Txn.C12_false",
    "Verif.Txn.C12_false_late_prewrite"
   ],
   "note": "Proved under the discipline of Txn/Spec.lean (start and commit timestamps of a key do not coincide; no pessimistic prewrite delivered after the commit). Without it the claim is false of the code: two negations proved."
  },
  {
   "property": "C13",
   "status": "proved",
   "theorems": [
    "Verif.Txn.C13_no_lost_update",
    "Verif.Txn.C13_pessimistic_false"
   ],
   "note": "All histories of valid requests of optimistic transactions. The analogue for pessimistic one-phase commits is false (negation proved)."
  },
  {
   "property": "C14",
   "status": "partial",
   "theorems": [
    "Verif.Txn.C14_commit",
    "Verif.Txn.C14_commit_later",
    "Verif.Txn.C14_batchRollback",
    "Verif.Txn.C14_batchRollback_later_partial",
    "Verif.Txn.C14_batchRollback_later_false",
    "Verif.Txn.C14_heartBeat",
    "Verif.Txn.C14_pessimisticLock_partial",
    "Verif.Txn.C14_pessimisticLock_false",
    "Verif.Txn.C14_pessimisticRollback",
    "Verif.Txn.C14_resolveLock",
    "Verif.Txn.C14_batchResolve",
    "Verif.Txn.C14_prewrite_partial",
    "Verif.Txn.C14_prewrite_plain",
    "Verif.Txn.C14_prewrite_committed_partial",
    "Verif.Txn.C14_onePc_partial",
    "Verif.Txn.C14_async_false",
    "Verif.Txn.C14_onePc_false"
   ],
   "note": "Four negations proved: later BatchRollback retry is refused by a foreign lock, PessimisticLock with return_values, async prewrite loses min_commit_ts, pessimistic one-phase commit commits twice. CheckTxnStatus and CheckSecondaryLocks retries are not covered."
  },
  {
   "property": "C15",
   "status": "proved",
   "theorems": [
    "Verif.Txn.C15_one_lock",
    "Verif.Txn.C15_lock_exclusive"
   ],
   "note": "All histories of valid requests; requests are atomic steps (latches)."
  },
  {
   "property": "C16",
   "status": "partial",
   "theorems": [
    "Verif.Txn.C16_commit_fails",
    "Verif.Txn.C16_prewrite_fails_partial",
    "Verif.Txn.C16_batchRollback_partial",
    "Verif.Txn.C16_false"
   ],
   "note": "BatchRollback of a committed transaction reports success (negation proved)."
  },
  {
   "property": "C17",
   "status": "proved",
   "theorems": [
    "Verif.Txn.C17_prewrite",
    "Verif.Txn.C17_commit",
    "Verif.Txn.C17_onePc_below"
   ],
   "note": "Two-phase and one-phase commits, all disciplined histories between prewrite and commit."
  },
  {
   "property": "C18",
   "status": "partial",
   "theorems": [
    "Verif.Txn.C18_grant",
    "Verif.Txn.C18_refused",
    "Verif.Txn.C18_no_newer_commit_partial",
    "Verif.Txn.C18_false",
    "Verif.Txn.C18_values_partial",
    "Verif.Txn.C18_values_false"
   ],
   "note": "Two negations proved: for_update_ts below start_ts is accepted, and return_values of a repeated lock returns the snapshot at start_ts. The partial theorems assume for_update_ts >= start_ts and a first lock."
  },
  {
   "property": "C19",
   "status": "partial",
   "theorems": [
    "Verif.MemLock.C19_commit_above_reads_partial",
    "Verif.MemLock.C19_repeat_partial",
    "Verif.MemLock.C19_lock_above_reads_partial",
    "Verif.MemLock.C19_leader_false",
    "Verif.MemLock.C19_split_false",
    "Verif.MemLock.C19_merge_false",
    "Verif.MemLock.C19_for_update_false",
    "Verif.MemLock.C19_index_false"
   ],
   "note": "Every interleaving of reads, prewrites and other requests of the store service, in which new leaders and regions have been given a maximum as late as the reads served, and pessimistic mutations carry the for_update_ts of their lock. Negations proved for each condition dropped."
  },
  {
   "property": "C20",
   "status": "proved",
   "theorems": [
    "Verif.Txn.C20_heartBeat"
   ],
   "note": "All histories of valid requests."
  },
  {
   "property": "C21",
   "status": "partial",
   "theorems": [
    "Verif.Txn.C21_committed",
    "Verif.Txn.C21_rolledBack_partial",
    "Verif.Txn.C21_rolledBack_false",
    "Verif.Txn.C21_effect",
    "Verif.Txn.C21_push_partial",
    "Verif.Txn.C21_push_false",
    "Verif.Txn.C21_push_equal"
   ],
   "note": "Three negations proved: a rolled back transaction can lock again and is reported live; a push is lost when a pessimistic lock is given up and retaken; the push goes to caller_start_ts and not above it."
  },
  {
   "property": "C22",
   "status": "proved",
   "theorems": [
    "Verif.Txn.C22_resolveLock",
    "Verif.Txn.C22_resolve_value",
    "Verif.Txn.C22_batchResolve"
   ],
   "note": "All disciplined histories."
  },
  {
   "property": "C23",
   "status": "partial",
   "theorems": [
    "Verif.Txn.C23_partial",
    "Verif.Txn.C23_get_partial",
    "Verif.Txn.C23_false"
   ],
   "note": "Complete jobs of any batch size, on states in which earlier GC jobs may have run. Negation proved for every key whose next commit after the safe point is above the read timestamp."
  },
  {
   "property": "C24",
   "status": "partial",
   "theorems": [
    "Verif.Txn.C24_partial",
    "Verif.Txn.C24_false"
   ],
   "note": "Job interleaved with disciplined requests, batches written, lost or not reached. Negation proved for every tombstone separated from the version under it."
  },
  {
   "property": "C25",
   "status": "partial",
   "theorems": [
    "Verif.Mvcc.C25_exact_partial",
    "Verif.Mvcc.C25_partial",
    "Verif.Mvcc.C25_false",
    "Verif.Mvcc.C25_interrupted_partial",
    "Verif.Mvcc.C25_interrupted_false",
    "Verif.Mvcc.C25_abort_false"
   ],
   "note": "Exact effect of a complete job; reads preserved for keys without a version above the read timestamp following the safe point. Negations proved for the rest, for interrupted jobs and for empty TTL values. Store and document regions; the job runs alone."
  },
  {
   "property": "C26",
   "status": "partial",
   "theorems": [
    "Verif.Tso.C26_partial",
    "Verif.Tso.C26_clock_partial",
    "Verif.Tso.C26_negative_false",
    "Verif.Tso.C26_update_false"
   ],
   "note": "Every history of elections, clocks, crashes, snapshots and requests with positive counts. Negations proved for negative counts and for update requests sent by clients."
  },
  {
   "property": "C27",
   "status": "partial",
   "theorems": [
    "Verif.Tso.C27_partial",
    "Verif.Tso.C27_unique_partial",
    "Verif.Tso.C27_window_false",
    "Verif.Tso.C27_stale_false",
    "Verif.Tso.C27_backwards_false"
   ],
   "note": "Holds for leaders that have completed their first clock update. Negations proved: a new leader before that update, and a request waiting on a former leader."
  },
  {
   "property": "C28",
   "status": "partial",
   "theorems": [
    "Verif.TsCache.C28_unique",
    "Verif.TsCache.C28_order",
    "Verif.TsCache.C28_min_partial",
    "Verif.TsCache.C28_min_false"
   ],
   "note": "All interleavings of atomic operations of any number of threads. The raised minimum holds while one thread at a time raises it; negation proved for two threads."
  },
  {
   "property": "C29",
   "status": "partial",
   "theorems": [
    "Verif.AutoInc.C29_partial",
    "Verif.AutoInc.C29_count_partial",
    "Verif.AutoInc.C29_create_false",
    "Verif.AutoInc.C29_wrap_false",
    "Verif.AutoInc.C29_overflow_false"
   ],
   "note": "Every history in which the requests that set the counter do not race and it is not deleted or forced. Negations proved: racing creates, 32-bit product, overflow."
  },
  {
   "property": "C30",
   "status": "partial",
   "theorems": [
    "Verif.AutoInc.C30_partial",
    "Verif.AutoInc.C30_false"
   ],
   "note": "Holds for an update checked on the state it is applied to; negation proved for an update racing with a generate request."
  },
  {
   "property": "C31",
   "status": "partial",
   "theorems": [
    "Verif.CoorKv.C31_range",
    "Verif.CoorKv.C31_revision",
    "Verif.CoorKv.C31_last_key_false",
    "Verif.CoorKv.C31_read_race_partial",
    "Verif.CoorKv.C31_read_race_false"
   ],
   "note": "Every log of puts, deletes, compactions and leases refines a versioned map, and a range read is a snapshot of it even when entries without compactions are applied meanwhile. Negations proved: the greatest key is missed by a read without an end; a read that races with a compaction gives an entry with an empty key."
  },
  {
   "property": "C32",
   "status": "proved",
   "theorems": [
    "Verif.CoorKv.C32_compaction"
   ],
   "note": "Every log, any keys and revisions, every range read."
  },
  {
   "property": "C33",
   "status": "partial",
   "theorems": [
    "Verif.CoorKv.C33_count_partial",
    "Verif.CoorKv.C33_count_only_false"
   ],
   "note": "Counts of ordinary and keys-only requests; a count-only request always answers 0, negation proved."
  },
  {
   "property": "C34",
   "status": "partial",
   "theorems": [
    "Verif.CoorKv.C34_no_orphan_partial",
    "Verif.CoorKv.C34_revoke_partial",
    "Verif.CoorKv.C34_expiry_partial",
    "Verif.CoorKv.C34_orphan_false",
    "Verif.CoorKv.C34_stale_map_false",
    "Verif.CoorKv.C34_order_false",
    "Verif.CoorKv.C34_zombie_false",
    "Verif.CoorKv.C34_exact_false"
   ],
   "note": "Every interleaving of evaluations, proposals, applies and elections in which no put under a lease is in flight when the lease goes and the map belongs to the term: no key outlives its lease. Exactly the attached keys go: requests executed one at a time, no delete of several keys of one lease. Negations proved for each condition dropped."
  },
  {
   "property": "C35",
   "status": "partial",
   "theorems": [
    "Verif.CoorKv.Watch.C35_log",
    "Verif.CoorKv.Watch.C35_at_most_once",
    "Verif.CoorKv.Watch.C35_right",
    "Verif.CoorKv.Watch.C35_no_miss_partial",
    "Verif.CoorKv.Watch.C35_first_partial",
    "Verif.CoorKv.Watch.C35_empty",
    "Verif.CoorKv.Watch.C35_progress",
    "Verif.CoorKv.Watch.C35_lost_wakeup_false",
    "Verif.CoorKv.Watch.C35_equal_false",
    "Verif.CoorKv.Watch.C35_deleted_false",
    "Verif.CoorKv.Watch.C35_noput_false",
    "Verif.CoorKv.Watch.C35_prev_version_false",
    "Verif.CoorKv.Watch.C35_spurious_delete_false",
    "Verif.CoorKv.Watch.C35_leader_start_false"
   ],
   "note": "Every interleaving of the apply thread, watch requests, cancellations and changes of leadership: at most one answer each, every answer right. Nothing missed since the request read its key: every schedule in which the apply thread does not look at the empty map while a request is about to enter it (negation proved without). Changes before the request, the put filter, the previous version: negations."
  },
  {
   "property": "C36",
   "status": "partial",
   "theorems": [
    "Verif.CoorKv.C36_replay_partial",
    "Verif.CoorKv.C36_once_partial",
    "Verif.CoorKv.C36_version_false",
    "Verif.CoorKv.C36_lost_false"
   ],
   "note": "Any number of crashes after any disk write of any entry, also during replay, with any part of the log replayed: exact, except for a crash between the index write of a put and the counter. There only the version differs as long as nothing is compacted; negations proved for the version and for the record a compaction then removes."
  },
  {
   "property": "C37",
   "status": "partial",
   "theorems": [
    "Verif.Latch.C37_exclusion_partial",
    "Verif.Latch.C37_never_aborts_partial",
    "Verif.Latch.C37_arrival_order_partial",
    "Verif.Latch.C37_slot_exists",
    "Verif.Latch.C37_zero_hash_false",
    "Verif.Latch.C37_zero_hash_abort_false",
    "Verif.Latch.C37_dangling_signal_false"
   ],
   "note": "Every hash function, number of slots, set of requests and schedule, for keys whose hash is not 0. Negations proved: two requests with a key of hash 0 run at the same time; a signal to a destroyed condition variable."
  },
  {
   "property": "C38",
   "status": "partial",
   "theorems": [
    "Verif.Latch.C38_no_deadlock_partial",
    "Verif.Latch.C38_bounded_partial",
    "Verif.Latch.C38_woken_partial"
   ],
   "note": "No deadlock and at most 6n+4 steps per request under every schedule, for keys whose hash is not 0."
  },
  {
   "property": "C39",
   "status": "partial",
   "theorems": [
    "Verif.Region.C39_split",
    "Verif.Region.C39_history",
    "Verif.Region.C39_stale",
    "Verif.Region.C39_bad_key",
    "Verif.Region.C39_versions",
    "Verif.Region.C39_write_in_range",
    "Verif.Region.C39_crash_partial",
    "Verif.Region.C39_crash_ahead_false",
    "Verif.Region.C39_crash_lost_false",
    "Verif.Region.C39_crash_post_false"
   ],
   "note": "Every store, split and history of writes and splits. A split interrupted by a crash is exact unless the crash falls inside the update of the child; negations proved for those points."
  },
  {
   "property": "C40",
   "status": "partial",
   "theorems": [
    "Verif.Region.C40_commit",
    "Verif.Region.C40_commit_lagging",
    "Verif.Region.C40_prepare",
    "Verif.Region.C40_history_partial",
    "Verif.Region.C40_catch_up_partial",
    "Verif.Region.C40_stuck_false",
    "Verif.Region.C40_replicas_false",
    "Verif.Region.C40_catch_up_false",
    "Verif.Region.C40_timestamps_false"
   ],
   "note": "Exact effect of prepare and commit, and every history of splits and merges whose commits find the source as described. Negations proved on three stores: a key that is never served again, replicas that differ, refused writes applied during catch-up."
  },
  {
   "property": "C41",
   "status": "partial",
   "theorems": [
    "Verif.Region.C41_keys",
    "Verif.Region.C41_scan",
    "Verif.Region.C41_options_partial",
    "Verif.Region.C41_accepts_inside",
    "Verif.Region.C41_range_partial",
    "Verif.Region.C41_delete_range_partial",
    "Verif.Region.C41_scan_race_false",
    "Verif.Region.C41_delete_range_false",
    "Verif.Region.C41_delete_range_ff_false"
   ],
   "note": "Point requests and clipped range requests for all inputs. Unclipped range requests (transactional range delete) only when the ends of the request are at least as long as those of the region; negations proved otherwise, and for the completeness of a scan that races with a split."
  },
  {
   "property": "C42",
   "status": "partial",
   "theorems": [
    "Verif.Codec.C42_least_partial",
    "Verif.Codec.C42_range_partial",
    "Verif.Codec.C42_exact_false"
   ],
   "note": "Exact when the last byte is not 0xff (every encoded key), and among strings at least as long as the prefix; false otherwise, negation proved."
  },
  {
   "property": "C43",
   "status": "partial",
   "theorems": [
    "Verif.Codec.C43_plain_roundtrip",
    "Verif.Codec.C43_encoded_roundtrip",
    "Verif.Codec.C43_encoded_ts_roundtrip",
    "Verif.Codec.C43_order",
    "Verif.Codec.C43_order_ts",
    "Verif.Codec.C43_valid_key",
    "Verif.Codec.C43_ids_partial",
    "Verif.Codec.C43_split_partial",
    "Verif.Codec.C43_scalar_split_false",
    "Verif.Codec.C43_cross_partition_false"
   ],
   "note": "Round trips and order for all values. The id range of a region is exact for ranges that begin and end at ids or whole partitions; negations proved for a cut at a scalar field key and for an end inside another partition."
  },
  {
   "property": "C44",
   "status": "partial",
   "theorems": [
    "Verif.SafePoint.C44_applied",
    "Verif.SafePoint.C44_applied_tenant",
    "Verif.SafePoint.C44_replicas",
    "Verif.SafePoint.C44_term",
    "Verif.SafePoint.C44_acked_partial",
    "Verif.SafePoint.C44_acked_tenant_partial",
    "Verif.SafePoint.C44_origin",
    "Verif.SafePoint.C44_gc_committed_partial",
    "Verif.SafePoint.C44_store_follows",
    "Verif.SafePoint.C44_stop_partial",
    "Verif.SafePoint.C44_acked_false",
    "Verif.SafePoint.C44_store_regress_false",
    "Verif.SafePoint.C44_acked_tenant_false",
    "Verif.SafePoint.C44_tenant_reset_false",
    "Verif.SafePoint.C44_rename_false",
    "Verif.SafePoint.C44_stop_false",
    "Verif.SafePoint.C44_response_false"
   ],
   "note": "Every number of coordinators and stores and every interleaving: applied points never decrease (tenants: while nobody creates or drops the tenant), replicas agree, every point was asked for, stores hold what they were told. A successful request is followed if it found a lower point (and, for a tenant, if nobody asks for resolve-lock points of it); served points do not decrease within a term; a stop is obeyed unless it falls between picking and clearing. Negations proved for each condition dropped."
  },
  {
   "property": "C45",
   "status": "partial",
   "theorems": [
    "Verif.LogStore.C45_cached_term_exact",
    "Verif.LogStore.C45_false"
   ],
   "note": "Exact for every index of the window of the node, all histories; false for an index after the last one, negation proved."
  },
  {
   "property": "C46",
   "status": "partial",
   "theorems": [
    "Verif.Mvcc.C46_put_if_absent",
    "Verif.Mvcc.C46_put_if_absent_atomic",
    "Verif.Mvcc.C46_duplicate_false"
   ],
   "note": "Per-key decision and effect proved; \"at most one success per key\" is false for a batch naming a key twice, negation proved."
  },
  {
   "property": "C47",
   "status": "partial",
   "theorems": [
    "Verif.Mvcc.C47_compare_and_set",
    "Verif.Mvcc.C47_atomic_all_or_nothing",
    "Verif.Mvcc.C47_duplicate_false"
   ],
   "note": "Proved for batches without duplicate keys; false for duplicates, negation proved."
  },
  {
   "property": "C48",
   "status": "partial",
   "theorems": [
    "Verif.Replica.C48_same_data_partial",
    "Verif.Replica.C48_agree_partial",
    "Verif.Replica.C48_between_partial",
    "Verif.Replica.C48_catch_up_partial",
    "Verif.Replica.C48_inside_partial",
    "Verif.Replica.C48_child_partial",
    "Verif.Replica.C48_delete_range_kills",
    "Verif.Replica.C48_delete_range_false",
    "Verif.Replica.C48_new_peer_false"
   ],
   "note": "Every interleaving of requests, replication, crashes, restarts, snapshots, splits and added replicas, except the cases named in okEv; for those the negation is proved. Merges are not in this model, and braft is assumed to deliver one log."
  },
  {
   "property": "C49",
   "status": "proved",
   "theorems": [
    "Verif.Txn.C49_checkSecondary"
   ],
   "note": "All histories of valid requests."
  },
  {
   "property": "C50",
   "status": "partial",
   "theorems": [
    "Verif.Txn.C50_lock_changed",
    "Verif.Txn.C50_foreign_lock",
    "Verif.Txn.C50_lost_lock_false"
   ],
   "note": "Proved for every lock that is present; negation proved for a lock that is gone: the prewrite then goes through without any conflict check."
  },
  {
   "property": "C51",
   "status": "proved",
   "theorems": [
    "Verif.Txn.C51_pessimisticRollback"
   ],
   "note": "All histories of valid requests."
  },
  {
   "property": "C52",
   "status": "partial",
   "theorems": [
    "Verif.Txn.C52_page",
    "Verif.Txn.C52_stream_partial",
    "Verif.Txn.C52_stream_false"
   ],
   "note": "One page exact; over a stream no lock is lost. Negation proved: the last lock of a page is repeated and pages of one lock never end."
  },
  {
   "property": "C53",
   "status": "partial",
   "theorems": [
    "Verif.Txn.C53_partial",
    "Verif.Txn.C53_false"
   ],
   "note": "Outcomes above the safe point survive; negation proved for a lock left at or below it."
  },
  {
   "property": "C54",
   "status": "partial",
   "theorems": [
    "Verif.Tso.C54_partial",
    "Verif.Tso.C54_stuck",
    "Verif.Tso.C54_false"
   ],
   "note": "A healthy leader serves after one clock update; a replica whose first update as leader failed refuses requests for good."
  },
  {
   "property": "C55",
   "status": "partial",
   "theorems": [
    "Verif.LogStore.C55_never_aborts",
    "Verif.LogStore.C55_reads_exact",
    "Verif.LogStore.C55_acknowledged",
    "Verif.LogStore.C55_sync_false",
    "Verif.LogStore.C55_empty_false",
    "Verif.LogStore.C55_destroy_false"
   ],
   "note": "All histories that keep to the callers discipline (one call of a node at a time, entries continue the log and are not empty, no truncation of a destroyed log, raft_sync on for machine stops). Negations proved for each excluded case."
  },
  {
   "property": "C56",
   "status": "partial",
   "theorems": [
    "Verif.LogStore.C56_retained",
    "Verif.LogStore.C56_false"
   ],
   "note": "All histories, any client that never released the entry. A hold after a release is ignored: negation proved."
  },
  {
   "property": "C57",
   "status": "partial",
   "theorems": [
    "Verif.LogStore.C57_window_partial",
    "Verif.LogStore.C57_hole_false",
    "Verif.LogStore.C57_empty_false"
   ],
   "note": "Proved when appends continue the last index the storage reports; negations proved for a snapshot beyond the end while another client holds the log, and for the first index of an empty log after a restart."
  },
  {
   "property": "C58",
   "status": "proved",
   "theorems": [
    "Verif.LogStore.C58_ranges"
   ],
   "note": "All histories, all regions, all ranges."
  },
  {
   "property": "C59",
   "status": "partial",
   "theorems": [
    "Verif.CoorKv.C59_install_partial",
    "Verif.CoorKv.C59_install_false"
   ],
   "note": "Every log and every snapshot taken after the first put or delete; negation proved for an earlier one."
  },
  {
   "property": "C60",
   "status": "partial",
   "theorems": [
    "Verif.CoorKv.C60_put_partial",
    "Verif.CoorKv.C60_accepts",
    "Verif.CoorKv.C60_refused",
    "Verif.CoorKv.C60_delete_partial",
    "Verif.CoorKv.C60_ignore_value_false",
    "Verif.CoorKv.C60_prev_false"
   ],
   "note": "Every history of requests executed one at a time under any leaders, all options but ignore_value (negation proved); negation for the returned previous value with concurrent puts."
  },
  {
   "property": "C61",
   "status": "partial",
   "theorems": [
    "Verif.CoorKv.C61_grant",
    "Verif.CoorKv.C61_grant_accepts",
    "Verif.CoorKv.C61_renew",
    "Verif.CoorKv.C61_life_partial"
   ],
   "note": "Every history of requests executed one at a time under any leaders, any clock readings; concurrent evaluation is not covered (see C34_zombie_false)."
  },
  {
   "property": "C62",
   "status": "partial",
   "theorems": [
    "Verif.MemLock.C62_no_stale_partial",
    "Verif.MemLock.C62_wait_partial",
    "Verif.MemLock.C62_refused_partial",
    "Verif.MemLock.C62_index_false"
   ],
   "note": "Every interleaving of requests of the store service; negation proved for vector and document regions."
  },
  {
   "property": "C63",
   "status": "partial",
   "theorems": [
    "Verif.MemLock.C63_lock_kept_partial",
    "Verif.MemLock.C63_index_false"
   ],
   "note": "Every interleaving of requests of the store service (ResolveLock without keys, which takes no latches, is not in the model); negation proved for vector and document regions."
  },
  {
   "property": "C64",
   "status": "partial",
   "theorems": [
    "Verif.VecIndex.C64_data",
    "Verif.VecIndex.C64_no_invention",
    "Verif.VecIndex.C64_apply_goes_on",
    "Verif.VecIndex.C64_switch_ends",
    "Verif.VecIndex.C64_index_agrees_partial",
    "Verif.VecIndex.C64_index_exact_partial",
    "Verif.VecIndex.C64_file_partial",
    "Verif.VecIndex.C64_catch_up_false",
    "Verif.VecIndex.C64_switch_false",
    "Verif.VecIndex.C64_first_switch_false",
    "Verif.VecIndex.C64_txn_replay_false",
    "Verif.VecIndex.C64_epoch_false",
    "Verif.VecIndex.C64_txn_delete_false",
    "Verif.VecIndex.C64_restart_false",
    "Verif.VecIndex.C64_save_between_false",
    "Verif.VecIndex.C64_save_old_false",
    "Verif.VecIndex.C64_replay_duplicates_false",
    "Verif.VecIndex.C64_replay_delete_false",
    "Verif.VecIndex.C64_apply_delete_false"
   ],
   "note": "Every log and interleaving, crashes included: the data, that nothing is invented, and that neither the apply thread nor a switch gets stuck. That index and file agree with the data, for runs without the steps excluded by okRun; for each exclusion a negation is proved with a run in which it is the only one broken."
  },
  {
   "property": "C65",
   "status": "partial",
   "theorems": [
    "Verif.VecIndex.C65_add_partial",
    "Verif.VecIndex.C65_batches",
    "Verif.VecIndex.C65_delete_partial",
    "Verif.VecIndex.C65_delete_status",
    "Verif.VecIndex.C65_others",
    "Verif.VecIndex.C65_one_vector",
    "Verif.VecIndex.C65_no_invention",
    "Verif.VecIndex.C65_flat_refuses",
    "Verif.VecIndex.C65_sibling_partial",
    "Verif.VecIndex.C65_readd_false",
    "Verif.VecIndex.C65_twice_false",
    "Verif.VecIndex.C65_flat_batches_false",
    "Verif.VecIndex.C65_hnsw_delete_false",
    "Verif.VecIndex.C65_sibling_false"
   ],
   "note": "All kinds, contents, lists, batch sizes and orders of batches; exactness for calls without repeated ids (and for HNSW deletes of ids held). Negations proved for the rest."
  },
  {
   "property": "C66",
   "status": "partial",
   "theorems": [
    "Verif.MemLock.C66_one_timestamp",
    "Verif.MemLock.C66_max_partial",
    "Verif.MemLock.C66_max_false"
   ],
   "note": "Every interleaving: one record per key, one timestamp, above start_ts and not below min_commit_ts. The bound max_commit_ts is proved where nodes that take over have seen timestamps as late as locks were pushed to; negation proved otherwise."
  },
  {
   "property": "C67",
   "status": "partial",
   "theorems": [
    "Verif.Replica.C67_load_partial",
    "Verif.Replica.C67_others_partial",
    "Verif.Replica.C67_restart_false",
    "Verif.Replica.C67_crash_false",
    "Verif.Replica.C67_others_false",
    "Verif.Replica.C67_child_false",
    "Verif.Replica.C67_stale_false",
    "Verif.Replica.C67_old_false"
   ],
   "note": "A load ends and leaves the region with its data unless the replica crashes when the files of its snapshot are gone; keys before the range are left alone, keys after it are not (negation proved)."
  },
  {
   "property": "C68",
   "status": "partial",
   "theorems": [
    "Verif.Scan.C68_listing",
    "Verif.Scan.C68_sound",
    "Verif.Scan.C68_page_partial",
    "Verif.Scan.C68_first_page",
    "Verif.Scan.C68_no_crash",
    "Verif.Scan.C68_begin",
    "Verif.Scan.C68_begin_refused",
    "Verif.Scan.C68_cap_false",
    "Verif.Scan.C68_more_false"
   ],
   "note": "The listing is proved in full for every interleaving. The page limit is false of the code for a negative number of pairs (negation proved), and a page may say more although nothing is left (proved); both responses of Begin and the first version of Continue do not carry has_more."
  },
  {
   "property": "C69",
   "status": "partial",
   "theorems": [
    "Verif.Scan.C69_survives_partial",
    "Verif.Scan.C69_release_partial",
    "Verif.Scan.C69_released",
    "Verif.Scan.C69_one_id",
    "Verif.Scan.C69_begun_first",
    "Verif.Scan.C69_registry",
    "Verif.Scan.C69_clean_exact",
    "Verif.Scan.C69_idle_ends",
    "Verif.Scan.C69_use_refreshes",
    "Verif.Scan.C69_early_false",
    "Verif.Scan.C69_reuse_false"
   ],
   "note": "Survival is proved for clients that do not name the id before Begin was answered and have no older request naming it in flight; negations proved for both. The cleaner is exact. Region and leader of a session are not checked by Continue and Release in the code, so nothing is claimed about them."
  },
  {
   "property": "C70",
   "status": "partial",
   "theorems": [
    "Verif.Meta.C70_ids_partial",
    "Verif.Meta.C70_schema_ids_partial",
    "Verif.Meta.C70_grow_partial",
    "Verif.Meta.C70_range_partial",
    "Verif.Meta.C70_answers",
    "Verif.Meta.C70_once",
    "Verif.Meta.C70_taken",
    "Verif.Meta.C70_window_false",
    "Verif.Meta.C70_stale_false",
    "Verif.Meta.C70_junk_false"
   ],
   "note": "Every interleaving in which no request is taken by a leader that has not rebuilt its maps and no entry is written in a later term than it was checked in; negations proved for both, and for the schema id that is read from an uninitialised variable."
  },
  {
   "property": "C71",
   "status": "partial",
   "theorems": [
    "Verif.Meta.C71_unique_partial",
    "Verif.Meta.C71_listed_partial",
    "Verif.Meta.C71_refused_partial",
    "Verif.Meta.C71_taken",
    "Verif.Meta.C71_refusal_clean",
    "Verif.Meta.C71_drop_tables_false",
    "Verif.Meta.C71_drop_schema_false",
    "Verif.Meta.C71_failed_drop_false",
    "Verif.Meta.C71_two_drops_false",
    "Verif.Meta.C71_window_false",
    "Verif.Meta.C71_stale_false",
    "Verif.Meta.C71_name_lost_false"
   ],
   "note": "Every orderly interleaving (okEv lists what is left out); for each condition the negation without it is proved. When a request is taken is proved for every state."
  },
  {
   "property": "C72",
   "status": "partial",
   "theorems": [
    "Verif.Meta.C72_up_partial",
    "Verif.Meta.C72_served_partial",
    "Verif.Meta.C72_create_drop_false",
    "Verif.Meta.C72_drop_drop_false"
   ],
   "note": "Every orderly interleaving; negations proved for a creation or a drop of an index in a schema that is being dropped."
  },
  {
   "property": "C73",
   "status": "partial",
   "theorems": [
    "Verif.Meta.C73_history",
    "Verif.Meta.C73_schema_history",
    "Verif.Meta.C73_acknowledged",
    "Verif.Meta.C73_created",
    "Verif.Meta.C73_only_created",
    "Verif.Meta.C73_list_partial",
    "Verif.Meta.C73_found_partial",
    "Verif.Meta.C73_wrong_schema_false",
    "Verif.Meta.C73_same_id_false"
   ],
   "note": "History, acknowledgement and existence for every run; lists and lookups for every orderly run. Negations proved for lookups under another schema and for two creations with the same id."
  },
  {
   "property": "C74",
   "status": "partial",
   "theorems": [
    "Verif.Meta.C74_taken",
    "Verif.Meta.C74_dropped",
    "Verif.Meta.C74_drop_table_never",
    "Verif.Meta.C74_undroppable",
    "Verif.Meta.C74_create_table_false"
   ],
   "note": "Acceptance for every state, effect for every run. That every table can be dropped is false of the code (negation proved: tables made by CreateTable); for the others see C77."
  },
  {
   "property": "C75",
   "status": "partial",
   "theorems": [
    "Verif.Meta.C75_crash_partial",
    "Verif.Meta.C75_history_partial",
    "Verif.Meta.C75_reads",
    "Verif.Meta.C75_twice_false"
   ],
   "note": "Every run, every log and every number of crashes at any write: the same metadata, but for ids that are in the list of a schema more than once (negation proved for the exact claim). Regions and the other parts of an entry are not modelled."
  },
  {
   "property": "C76",
   "status": "partial",
   "theorems": [
    "Verif.Meta.C76_tenant_history",
    "Verif.Meta.C76_taken",
    "Verif.Meta.C76_home_partial",
    "Verif.Meta.C76_tenant_partial",
    "Verif.Meta.C76_gone_partial",
    "Verif.Meta.C76_drop_schema_false",
    "Verif.Meta.C76_race_false"
   ],
   "note": "History of tenants for every run, acceptance for every state; tables, tenants and ids for every orderly run (no tenant dropped while a schema is created in it). Indexes are left behind by DropSchema (negation proved)."
  },
  {
   "property": "C77",
   "status": "partial",
   "theorems": [
    "Verif.Meta.C77_owner_partial",
    "Verif.Meta.C77_indexes_partial",
    "Verif.Meta.C77_droppable_partial",
    "Verif.Meta.C77_drop_index_false",
    "Verif.Meta.C77_race_false"
   ],
   "note": "Every orderly run in which indexes of tables are dropped with DropIndexOnTable or with the table and no table is dropped while its indexes change; negations proved otherwise. Tables made by CreateTable have no list."
  },
  {
   "property": "C78",
   "status": "partial",
   "theorems": [
    "Verif.VecQuery.C78_query_partial",
    "Verif.VecQuery.C78_abort_iff",
    "Verif.VecQuery.C78_abort_false",
    "Verif.VecQuery.C78_any",
    "Verif.VecQuery.C78_stable",
    "Verif.VecQuery.C78_torn_false",
    "Verif.VecQuery.C78_delete_states"
   ],
   "note": "Every accepted history, query and interleaving. That a query always answers is false of the code (it aborts exactly in the cases of C78_abort_iff), and entries at the newest state may mix two versions (negations proved)."
  },
  {
   "property": "C79",
   "status": "partial",
   "theorems": [
    "Verif.VecQuery.C79_scan_partial",
    "Verif.VecQuery.C79_pages",
    "Verif.VecQuery.C79_stable",
    "Verif.VecQuery.C79_border",
    "Verif.VecQuery.C79_count",
    "Verif.VecQuery.C79_negative_false",
    "Verif.VecQuery.C79_race_false",
    "Verif.VecQuery.C79_hole_false",
    "Verif.VecQuery.C79_abort_false"
   ],
   "note": "Every accepted history, range, direction, limit, filter and timestamp when nothing changes meanwhile, or at a timestamp whatever is written later. Negative first ids and vectors that expire without the data that is read abort; races proved as negations. Coprocessor filters are not modelled."
  },
  {
   "property": "C80",
   "status": "partial",
   "theorems": [
    "Verif.VecQuery.C80_prefilter_partial",
    "Verif.VecQuery.C80_accepted",
    "Verif.VecQuery.C80_datetime_false",
    "Verif.VecQuery.C80_abort_false"
   ],
   "note": "Every schema, history, region and filter without DATETIME; negations proved for DATETIME and for vectors that expire without scalar data. Coprocessor filters are not modelled."
  },
  {
   "property": "C81",
   "status": "partial",
   "theorems": [
    "Verif.VecQuery.C81_filter",
    "Verif.VecQuery.C81_filter_sorted_partial",
    "Verif.VecQuery.C81_sorted_false",
    "Verif.VecQuery.C81_index_partial",
    "Verif.VecQuery.C81_sound_partial",
    "Verif.VecQuery.C81_index_range_partial",
    "Verif.VecQuery.C81_parallel_false",
    "Verif.VecQuery.C81_brute_partial",
    "Verif.VecQuery.C81_brute_range_partial",
    "Verif.VecQuery.C81_empty_false",
    "Verif.VecQuery.C81_cap_false"
   ],
   "note": "Every content, metric, filter, query and order of tasks, one query per task (the default). The numerical library is a parameter with stated laws; the indexes of a region are assumed to fit together (Wrap.Fits). Negations proved for unsorted lists said to be sorted, more queries per task, regions without vectors and cut range searches. DiskANN and coprocessor filters are not modelled."
  },
  {
   "property": "C82",
   "status": "partial",
   "theorems": [
    "Verif.VecQuery.C82_search_partial",
    "Verif.VecQuery.C82_range_partial",
    "Verif.VecQuery.C82_post_partial",
    "Verif.VecQuery.C82_answer_partial",
    "Verif.VecQuery.C82_expired_false",
    "Verif.VecQuery.C82_post_expired_false",
    "Verif.VecQuery.C82_order_false",
    "Verif.VecQuery.C82_post_false",
    "Verif.VecQuery.C82_first_filter_false"
   ],
   "note": "Every accepted history and request; the index must follow the log (C64), writes must be logged in the order of their timestamps and vectors not expire, unless brute force is used. Negations proved where one of these fails, and for filters after the search."
  },
  {
   "property": "C83",
   "status": "partial",
   "theorems": [
    "Verif.RegMap.C83_range",
    "Verif.RegMap.C83_key",
    "Verif.RegMap.C83_empty_range",
    "Verif.RegMap.C83_never_aborts",
    "Verif.RegMap.C83_history_partial",
    "Verif.RegMap.C83_leader",
    "Verif.RegMap.C83_handover",
    "Verif.RegMap.C83_split",
    "Verif.RegMap.C83_merge",
    "Verif.RegMap.C83_lost_false",
    "Verif.RegMap.C83_drop_false",
    "Verif.RegMap.C83_reversed_false"
   ],
   "note": "Every range, key and limit, over states that find the regions; these are all states of histories of clean increments (Clean says which), of splits and merges with both reports in any order, and of new leaders. Negations proved for a source of a merge that is reported or dropped before its new range, and for regions created with a reversed range."
  },
  {
   "property": "C84",
   "status": "partial",
   "theorems": [
    "Verif.RegMap.C84_version",
    "Verif.RegMap.C84_dropped",
    "Verif.RegMap.C84_taken",
    "Verif.RegMap.C84_others",
    "Verif.RegMap.C84_only_reported",
    "Verif.RegMap.C84_conf_partial",
    "Verif.RegMap.C84_quiet",
    "Verif.RegMap.C84_state",
    "Verif.RegMap.C84_conf_false"
   ],
   "note": "Every history and every report. Conf versions are kept for reports handled one after the other (negation proved otherwise)."
  },
  {
   "property": "C85",
   "status": "partial",
   "theorems": [
    "Verif.RegMap.C85_accept",
    "Verif.RegMap.C85_apart",
    "Verif.RegMap.C85_history_partial",
    "Verif.RegMap.C85_begin",
    "Verif.RegMap.C85_race_false",
    "Verif.RegMap.C85_table_false"
   ],
   "note": "Every state without overlaps and every history of requests handled one after the other whose own partitions are apart and not empty; negations proved for requests handled at the same time and for overlapping partitions."
  },
  {
   "property": "C86",
   "status": "partial",
   "theorems": [
    "Verif.Job.C86_order",
    "Verif.Job.C86_looked",
    "Verif.Job.C86_success_partial",
    "Verif.Job.C86_advances",
    "Verif.Job.C86_sent",
    "Verif.Job.C86_lost_failure_false",
    "Verif.Job.C86_retry_false",
    "Verif.Job.C86_cleaned_false",
    "Verif.Job.C86_back_false",
    "Verif.Job.C86_abort_false",
    "Verif.Job.C86_replay_false"
   ],
   "note": "Order of steps for every history; success for jobs nobody asked to clean. Negations proved: reported failures may be forgotten, cleaned jobs count as successful and may come back, some entries end the process."
  },
  {
   "property": "C87",
   "status": "partial",
   "theorems": [
    "Verif.Job.C87_granted",
    "Verif.Job.C87_exclusive_partial",
    "Verif.Job.C87_refused",
    "Verif.Job.C87_together_false",
    "Verif.Job.C87_stale_false",
    "Verif.Job.C87_transfer_false"
   ],
   "note": "Acceptance of every request as an iff; exclusion for histories in which the entries of earlier jobs are applied before the next change is asked for. Negations proved for requests at about the same time, stale entries, and transfers of leaders."
  },
  {
   "property": "C88",
   "status": "partial",
   "theorems": [
    "Verif.Job.C88_delete",
    "Verif.Job.C88_dropped",
    "Verif.Job.C88_split",
    "Verif.Job.C88_merge",
    "Verif.Job.C88_change",
    "Verif.Job.C88_effect_partial"
   ],
   "note": "Every history. The conditions are on what the coordinator knows and what stores accepted, not on what stores did with it; for creations, drops, given splits and transfers success is only that the command was accepted."
  },
  {
   "property": "C89",
   "status": "proved",
   "theorems": [
    "Verif.Coproc.C89_groups",
    "Verif.Coproc.C89_no_rows",
    "Verif.Coproc.C89_answers"
   ],
   "note": "For every codec of group keys that reads back what it wrote; the record codec, the expression and floating point arithmetic are parameters. Answers if no sum can overflow."
  },
  {
   "property": "C90",
   "status": "partial",
   "theorems": [
    "Verif.Coproc.C90_rows_partial",
    "Verif.Coproc.C90_rows",
    "Verif.Coproc.C90_answers",
    "Verif.Coproc.C90_dropped_false"
   ],
   "note": "Every request, rows and limits; full statement for encoders that always succeed; rows that cannot be encoded are left out (negation proved)."
  },
  {
   "property": "C91",
   "status": "partial",
   "theorems": [
    "Verif.Coproc.C91_open_partial",
    "Verif.Coproc.C91_open_false",
    "Verif.Coproc.C91_distinct_false",
    "Verif.Coproc.C91_types_false",
    "Verif.Coproc.C91_overflow_false"
   ],
   "note": "Well-formed requests never end the process when opened, and are accepted iff they make sense; negations proved for ill-formed requests, groups without aggregates, and overflow."
  },
  {
   "property": "C92",
   "status": "partial",
   "theorems": [
    "Verif.AutoSplit.C92_key",
    "Verif.AutoSplit.C92_no_abort",
    "Verif.AutoSplit.C92_asks",
    "Verif.AutoSplit.C92_cut",
    "Verif.AutoSplit.C92_size",
    "Verif.AutoSplit.C92_half",
    "Verif.AutoSplit.C92_inside_partial",
    "Verif.AutoSplit.C92_stuck_false",
    "Verif.AutoSplit.C92_versions_false",
    "Verif.AutoSplit.C92_vector_false"
   ],
   "note": "Every content, policy and setting. That both parts get something is proved if no key has so many versions that they reach the cut by themselves; otherwise the negation. KEYS counts versions (negation proved), and vector regions may be cut between a vector and its scalar data (negation proved)."
  },
  {
   "property": "C93",
   "status": "partial",
   "theorems": [
    "Verif.AutoSplit.C93_fit",
    "Verif.AutoSplit.C93_once",
    "Verif.AutoSplit.C93_asks_partial",
    "Verif.AutoSplit.C93_after_split",
    "Verif.AutoSplit.C93_calm",
    "Verif.AutoSplit.C93_task",
    "Verif.AutoSplit.C93_last_false",
    "Verif.AutoSplit.C93_task_false",
    "Verif.AutoSplit.C93_task_recent_false"
   ],
   "note": "Every list of regions and setting. The last two regions of a pass are never compared (negation proved); what changed between the pass and the task is only partly looked at again (negations proved)."
  },
  {
   "property": "C94",
   "status": "partial",
   "theorems": [
    "Verif.AutoSplit.C94_split_partial",
    "Verif.AutoSplit.C94_merge",
    "Verif.AutoSplit.C94_split_false",
    "Verif.AutoSplit.C94_merge_false"
   ],
   "note": "Merges in every schedule; splits in schedules in which no check ends before its region is marked (negation proved for the others, for every continuation). Two merge checks may name one region (negation proved)."
  },
  {
   "property": "C95",
   "status": "partial",
   "theorems": [
    "Verif.Job.C95_failure",
    "Verif.Job.C95_fresh",
    "Verif.Job.C95_redirected",
    "Verif.Job.C95_unmoved",
    "Verif.Job.C95_moved",
    "Verif.Job.C95_limit",
    "Verif.Job.C95_drop_all",
    "Verif.Job.C95_leftover_false"
   ],
   "note": "Every table of jobs and every job; what a job that is given up has created stays behind (negation proved)."
  },
  {
   "property": "C96",
   "status": "partial",
   "theorems": [
    "Verif.Ctl.C96_refused",
    "Verif.Ctl.C96_repeated",
    "Verif.Ctl.C96_accepted",
    "Verif.Ctl.C96_kept",
    "Verif.Ctl.C96_restart",
    "Verif.Ctl.C96_ended",
    "Verif.Ctl.C96_once",
    "Verif.Ctl.C96_recorded",
    "Verif.Ctl.C96_ends",
    "Verif.Ctl.C96_worker_false",
    "Verif.Ctl.C96_restart_false",
    "Verif.Ctl.C96_retry_false"
   ],
   "note": "Every history and interleaving of commands that are not marked as retries (negation proved for retries). A region that is up may be without a worker, and an interrupted deletion is with none after a restart (negations proved)."
  },
  {
   "property": "C97",
   "status": "partial",
   "theorems": [
    "Verif.Ctl.C97_checked",
    "Verif.Ctl.C97_apart_partial",
    "Verif.Ctl.C97_done",
    "Verif.Ctl.C97_false",
    "Verif.Ctl.C97_half_false",
    "Verif.Ctl.C97_failed_false"
   ],
   "note": "Acceptance for every state; ranges for every history in which no two regions with a common key are entered at the same time (negation proved otherwise); success of creations without purges. Failed and interrupted creations leave regions behind (negations proved)."
  },
  {
   "property": "C98",
   "status": "partial",
   "theorems": [
    "Verif.Ctl.C98_checked",
    "Verif.Ctl.C98_written",
    "Verif.Ctl.C98_erased",
    "Verif.Ctl.C98_removed",
    "Verif.Ctl.C98_empty",
    "Verif.Ctl.C98_runs",
    "Verif.Ctl.C98_stuck",
    "Verif.Ctl.C98_interrupted",
    "Verif.Ctl.C98_stale_false",
    "Verif.Ctl.C98_purge_false",
    "Verif.Ctl.C98_purge_live_false"
   ],
   "note": "Every history in which no two regions with a common key are entered at the same time; that regions start empty, for those without purges (negation proved otherwise). Interrupted deletions are never finished (proved for every continuation); finished ones may be repeated on a new region (negation proved)."
  },
  {
   "property": "C99",
   "status": "partial",
   "theorems": [
    "Verif.Balance.C99_ends",
    "Verif.Balance.C99_batch",
    "Verif.Balance.C99_moves",
    "Verif.Balance.C99_voter_partial",
    "Verif.Balance.C99_helps",
    "Verif.Balance.C99_closer",
    "Verif.Balance.C99_converges",
    "Verif.Balance.C99_idle",
    "Verif.Balance.C99_balanced_partial",
    "Verif.Balance.C99_busy_false",
    "Verif.Balance.C99_idle_false",
    "Verif.Balance.C99_room_false",
    "Verif.Balance.C99_learner_false",
    "Verif.Balance.C99_in_false",
    "Verif.Balance.C99_running_false"
   ],
   "note": "Every world, random choice and sequence of passes. That regions with jobs are left alone, that targets have room and a vote, and that an idle pass means that no transfer helps, is false (negations proved); the last is proved if all regions are in order and have voters with room on all stores."
  }
 ]
}
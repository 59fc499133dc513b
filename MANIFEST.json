{
 "claims": [
  {
   "property": "C01",
   "status": "proved",
   "theorems": [
    "Verif.Varint.c01_write_read",
    "Verif.Varint.c01_write_in_bounds",
    "Verif.Varint.c01_truncated",
    "Verif.Varint.c01_read_total",
    "Verif.Varint.c01_injective",
    "Verif.Varint.c01_zigzag64_documented",
    "Verif.Varint.c01_zigzag64_roundtrip",
    "Verif.Varint.c01_zigzag64_surjective",
    "Verif.Varint.c01_zigzag32_documented",
    "Verif.Varint.c01_zigzag32_roundtrip",
    "Verif.Varint.c01_signed_roundtrip"
   ],
   "note": "Round trip, framing, bounds and truncation for all 64-bit values; zig-zag is the documented bijection."
  },
  {
   "property": "C02",
   "status": "partial",
   "theorems": [
    "Verif.Encode.c02_base64_format",
    "Verif.Encode.c02_base64url_format",
    "Verif.Encode.c02_base64_size",
    "Verif.Encode.c02_base64url_size",
    "Verif.Encode.c02_base64_roundtrip",
    "Verif.Encode.c02_base64_decode_total_partial",
    "Verif.Encode.c02_base64_signed_char_ub",
    "Verif.Encode.c02_base64url_injective",
    "Verif.Encode.c02_hex_format",
    "Verif.Encode.c02_hex_size",
    "Verif.Encode.c02_hex_roundtrip",
    "Verif.Encode.c02_hex_decode_total_partial",
    "Verif.Encode.c02_hex_signed_char_ub",
    "Verif.Encode.c02_hex_decode_value",
    "Verif.Encode.c02_base64_decode_value",
    "Verif.Encode.c02_base64_noncanonical"
   ],
   "note": "Round trips and formats hold for all inputs. Rejection of non-ASCII characters is false where char is signed (table indexed with a negative number): witnesses c02_*_signed_char_ub; the total decode theorems assume ASCII there."
  },
  {
   "property": "C03",
   "status": "proved",
   "theorems": [
    "Verif.StringId.c03_roundtrip",
    "Verif.StringId.c03_seq_roundtrip",
    "Verif.StringId.c03_injective",
    "Verif.StringId.c03_accepted",
    "Verif.StringId.c03_seq_accepted"
   ],
   "note": "The ASSERTs of the high sequence branch are modelled as errors (they are checked in debug builds only)."
  },
  {
   "property": "C04",
   "status": "proved",
   "theorems": [
    "Verif.Wal.c04_next",
    "Verif.Wal.c04_range",
    "Verif.Wal.c04_lsn_segment",
    "Verif.Wal.c04_lsn_range",
    "Verif.Wal.c04_name_order",
    "Verif.Wal.c04_name_injective",
    "Verif.Wal.c04_name_valid",
    "Verif.Wal.c04_lsn_text_roundtrip",
    "Verif.Wal.c04_regexp_accepts_non_hex",
    "Verif.Wal.c04_lsn_text_wraps"
   ],
   "note": "For every segment size that divides 4GB (2 bytes to 4GB; PostgreSQL uses 1MB to 1GB) and every segment inside the 64-bit address space. The last two theorems record oddities of name recognition and position parsing."
  },
  {
   "property": "C05",
   "status": "partial",
   "theorems": [
    "Verif.Time.c05_date_valid",
    "Verif.Time.c05_calendar",
    "Verif.Time.c05_calendar_order",
    "Verif.Time.c05_epoch",
    "Verif.Time.c05_epoch_rejected",
    "Verif.Time.c05_zone_partial",
    "Verif.Time.c05_zone_sign_lost",
    "Verif.Time.c05_zone_minutes_unbounded",
    "Verif.Time.c05_text_partial",
    "Verif.Time.c05_text_local",
    "Verif.Time.c05_text_sound"
   ],
   "note": "Proved with the exact domain: the conversion is right up to 2038-01-19 03:14:07 UTC and undefined (32-bit overflow) after it; zones less than an hour west of UTC lose their sign (c05_zone_sign_lost)."
  },
  {
   "property": "C06",
   "status": "proved",
   "theorems": [
    "Verif.Expire.c06_full_retention",
    "Verif.Expire.c06_not_met"
   ],
   "note": "Exact characterisation of count based full retention for every well formed list and retention."
  },
  {
   "property": "C07",
   "status": "proved",
   "theorems": [
    "Verif.Expire.c07_diff_retention",
    "Verif.Expire.c07_not_set"
   ],
   "note": "Exact characterisation of differential retention."
  },
  {
   "property": "C08",
   "status": "proved",
   "theorems": [
    "Verif.Expire.c08_time_retention",
    "Verif.Expire.c08_window"
   ],
   "note": "Exact characterisation of time based retention, with the derived archive retention."
  },
  {
   "property": "C09",
   "status": "proved",
   "theorems": [
    "Verif.Expire.c09_command",
    "Verif.Expire.c09_oldest",
    "Verif.Expire.c09_closed",
    "Verif.Expire.c09_abort",
    "Verif.Expire.c09_add",
    "Verif.Expire.c09_adhoc"
   ],
   "note": "Closure for every way to expire, for the whole command, for every interruption point, for ad-hoc expiration and when a backup is added. Well formedness (WF) is preserved by every operation, so it holds along any sequence of backups and expirations."
  },
  {
   "property": "C10",
   "status": "proved",
   "theorems": [
    "Verif.Expire.c10_exact",
    "Verif.Expire.c10_not_met",
    "Verif.Expire.c10_no_backup",
    "Verif.Expire.c10_consistent",
    "Verif.Expire.c10_pitr",
    "Verif.Expire.c10_newest",
    "Verif.Expire.c10_before",
    "Verif.Expire.c10_history",
    "Verif.Expire.c10_order_needed"
   ],
   "note": "Exact set of removed segments; safety for consistency and recovery under the hypothesis that backups of a database start in label order; c10_order_needed shows that the hypothesis is needed."
  },
  {
   "property": "C11",
   "status": "proved",
   "theorems": [
    "Verif.Expire.c11_removed"
   ],
   "note": "Exact set of removed directories."
  },
  {
   "property": "C12",
   "status": "proved",
   "theorems": [
    "Verif.Label.c12_valid",
    "Verif.Label.c12_after",
    "Verif.Label.c12_unique",
    "Verif.Label.c12_last",
    "Verif.Label.c12_clock",
    "Verif.Label.c12_history_reused",
    "Verif.Label.c12_same_time"
   ],
   "note": "Unique against every name in the backup path and against the newest history year; after every label of the set (all labels for full, or when the prior is in the newest set). Exact error condition. Witnesses: a label in an older history year can be reused, timestamps (not labels) can coincide. Formatting of local time is a parameter."
  },
  {
   "property": "C13",
   "status": "proved",
   "theorems": [
    "Verif.Incr.c13_uncopied",
    "Verif.Incr.c13_delta",
    "Verif.Incr.c13_delta_file",
    "Verif.Incr.c13_references",
    "Verif.Incr.c13_prior",
    "Verif.Incr.c13_change",
    "Verif.Incr.c13_full",
    "Verif.Incr.c13_generations",
    "Verif.Incr.c13_same_second"
   ],
   "note": "Exact copy decision, exact delta conditions, references name the holder (location and checksum included) through any chain of backups, and changes are never missed over any number of online backups with a monotone clock (a file read is atomic in the model; checksums identify data). Witness: the one-second wait is needed."
  },
  {
   "property": "C14",
   "status": "proved",
   "theorems": [
    "Verif.Block.c14_roundtrip",
    "Verif.Block.c14_injective",
    "Verif.Block.c14_version",
    "Verif.Block.c14_truncated_accepted",
    "Verif.Block.c14_block_total",
    "Verif.Block.c14_empty_unreadable"
   ],
   "note": "all maps that the block incremental filter makes (MapOk); a version other than 0 is rejected; a truncated map is accepted and an empty map is not readable (both proved as they differ from what is expected)"
  },
  {
   "property": "C15",
   "status": "proved",
   "theorems": [
    "Verif.Block.c15_restore",
    "Verif.Block.c15_restore_new",
    "Verif.Block.c15_checked",
    "Verif.Block.c15_prior_map",
    "Verif.Block.c15_unchanged",
    "Verif.Block.c15_needed",
    "Verif.Block.c15_collision_detected"
   ],
   "note": "any history of full and incremental backups, any existing file; block hash, file hash, compression and encryption are parameters (inverse of each other, no collision between the blocks compared); the filter is modelled for the whole file, not for each buffer"
  },
  {
   "property": "C16",
   "status": "proved",
   "theorems": [
    "Verif.Block.c16_list",
    "Verif.Block.c16_split",
    "Verif.Block.c16_restore"
   ],
   "note": "any split of the file"
  },
  {
   "property": "C17",
   "status": "proved",
   "theorems": [
    "Verif.Archive.c17_append_only",
    "Verif.Archive.c17_different",
    "Verif.Archive.c17_success",
    "Verif.Archive.c17_complete",
    "Verif.Archive.c17_independent",
    "Verif.Archive.c17_retry",
    "Verif.Archive.c17_content",
    "Verif.Archive.c17_other_file",
    "Verif.Archive.c17_history_replaced",
    "Verif.Archive.c17_concurrent"
   ],
   "note": "Any number of repositories, any failure of list, open, write, close and of the source. Storage with atomic visibility at close (C46)."
  },
  {
   "property": "C18",
   "status": "proved",
   "theorems": [
    "Verif.Archive.c18_success",
    "Verif.Archive.c18_error",
    "Verif.Archive.c18_wait",
    "Verif.Archive.c18_other",
    "Verif.Archive.c18_ok_written",
    "Verif.Archive.c18_error_written",
    "Verif.Archive.c18_push_success",
    "Verif.Archive.c18_push_no_stale_error",
    "Verif.Archive.c18_push_reports",
    "Verif.Archive.c18_empty_warning",
    "Verif.Archive.c18_unreadable"
   ],
   "note": "status directory as a file map; success, precedence, waiting and write/report agreement over all directories"
  },
  {
   "property": "C19",
   "status": "proved",
   "theorems": [
    "Verif.Archive.c19_only_ready",
    "Verif.Archive.c19_omitted",
    "Verif.Archive.c19_partition",
    "Verif.Archive.c19_spool",
    "Verif.Archive.c19_exact",
    "Verif.Archive.c19_batch",
    "Verif.Archive.c19_order"
   ],
   "note": "all ready and spool lists; witness that the sort with extensions matters in c19_order"
  },
  {
   "property": "C20",
   "status": "proved",
   "theorems": [
    "Verif.Archive.c20_need",
    "Verif.Archive.c20_left",
    "Verif.Archive.c20_complete",
    "Verif.Archive.c20_missing_cleared",
    "Verif.Archive.c20_stale_ok",
    "Verif.Archive.c20_second",
    "Verif.Archive.c20_stale_kept"
   ],
   "note": "exact characterisation of both results of queueNeed for all directories; c20_stale_ok gives exactly when a stale ok file is left (divergence in DESIGN)"
  },
  {
   "property": "C21",
   "status": "proved",
   "theorems": [
    "Verif.Archive.c21_delivered",
    "Verif.Archive.c21_first",
    "Verif.Archive.c21_missing",
    "Verif.Archive.c21_no_repository",
    "Verif.Archive.c21_duplicate_iff",
    "Verif.Archive.c21_duplicate",
    "Verif.Archive.c21_no_false_duplicate",
    "Verif.Archive.c21_many",
    "Verif.Archive.c21_ids",
    "Verif.Archive.c21_checksum_part",
    "Verif.Archive.c21_false_duplicate",
    "Verif.Archive.c21_missing_unread"
   ],
   "note": "all repositories, histories, listings and read failures; the compared part of the checksum is exact (c21_duplicate_iff)"
  },
  {
   "property": "C22",
   "status": "proved",
   "theorems": [
    "Verif.Restore.c22_databases",
    "Verif.Restore.c22_success",
    "Verif.Restore.c22_zeroed",
    "Verif.Restore.c22_no_request",
    "Verif.Restore.c22_one_database",
    "Verif.Restore.c22_kept"
   ],
   "note": "Manifest with distinct database ids and names; a database named as the id of another is excluded by hypothesis."
  },
  {
   "property": "C23",
   "status": "proved",
   "theorems": [
    "Verif.Restore.c23_target",
    "Verif.Restore.c23_target_none",
    "Verif.Restore.c23_time_found",
    "Verif.Restore.c23_latest",
    "Verif.Restore.c23_set",
    "Verif.Restore.c23_set_unlisted"
   ],
   "note": "Starts from the parsed target."
  },
  {
   "property": "C24",
   "status": "proved",
   "theorems": [
    "Verif.Restore.c24_history",
    "Verif.Restore.c24_latest",
    "Verif.Restore.c24_target_number",
    "Verif.Restore.c24_verify",
    "Verif.Restore.c24_sound",
    "Verif.Restore.c24_current",
    "Verif.Restore.c24_latest_unanchored"
   ],
   "note": "Start position of the backup as in the code; see DESIGN.md for what that allows."
  },
  {
   "property": "C25",
   "status": "proved",
   "theorems": [
    "Verif.Lst.c25_step",
    "Verif.Lst.c25_run",
    "Verif.Lst.c25_memory",
    "Verif.Lst.c25_clear_after_front"
   ],
   "note": "For programs that do not call lstClear after removing the first item; with it the negation is c25_clear_after_front. qsort is a parameter."
  },
  {
   "property": "C26",
   "status": "proved",
   "theorems": [
    "Verif.StrLst.c26_difference",
    "Verif.StrLst.c26_any",
    "Verif.StrLst.c26_repeated",
    "Verif.StrLst.c26_symmetric"
   ],
   "note": "first list without repeated elements for equality; general bounds in c26_any"
  },
  {
   "property": "C27",
   "status": "partial",
   "theorems": [
    "Verif.Lock.c27_race",
    "Verif.Lock.c27_stop_force",
    "Verif.Lock.c27_orphan",
    "Verif.Lock.c27_stale",
    "Verif.Lock.c27_inode_partial",
    "Verif.Lock.c27_available",
    "Verif.Lock.c27_descriptor_partial",
    "Verif.Lock.c27_exclusive_partial"
   ],
   "note": "Mutual exclusion is false in general: c27_race (open/flock race with a release), c27_stop_force, c27_orphan and c27_stale are proved counterexamples. Proved: exclusion per inode in every run; exclusion in every run in which no removal happens between another process's open and flock and processes do not share an exec id; availability after crashes."
  },
  {
   "property": "C28",
   "status": "partial",
   "theorems": [
    "Verif.Lock.c28_ignored",
    "Verif.Lock.c28_left",
    "Verif.Lock.c28_error_left",
    "Verif.Lock.c28_exact",
    "Verif.Lock.c28_all_partial",
    "Verif.Lock.c28_single_partial",
    "Verif.Lock.c28_release",
    "Verif.Lock.c28_name_inj",
    "Verif.Lock.c28_list_nodup",
    "Verif.Lock.c28_covers"
   ],
   "note": "False for several lock files: c28_ignored, c28_left, c28_error_left. Proved: exact behaviour, all locks without returnOnNoLock, the full property for one lock file, release, distinct lock file names, coverage of lock type all."
  },
  {
   "property": "C29",
   "status": "proved",
   "theorems": [
    "Verif.Parallel.c29_once",
    "Verif.Parallel.c29_single",
    "Verif.Parallel.c29_final",
    "Verif.Parallel.c29_replay",
    "Verif.Parallel.c29_done",
    "Verif.Parallel.c29_results",
    "Verif.Parallel.c29_terminates"
   ],
   "note": "Total correctness of the users' loop (c29_terminates) assumes a callback with finitely many jobs and that some running client becomes ready."
  },
  {
   "property": "C30",
   "status": "proved",
   "theorems": [
    "Verif.Backup.c30_order",
    "Verif.Backup.c30_cover",
    "Verif.Backup.c30_shape",
    "Verif.Backup.c30_ids",
    "Verif.Backup.c30_limit",
    "Verif.Backup.c30_visible",
    "Verif.Backup.c30_none",
    "Verif.Backup.c30_queue",
    "Verif.Backup.c30_final",
    "Verif.Backup.c30_backup"
   ],
   "note": "For any queues, bundle settings and any sequence of requesting clients; c30_backup composes the callback with the parallel executor (C29) for every fair schedule. lstSort enters as any function that permutes (and, for c30_limit, sorts)."
  },
  {
   "property": "C31",
   "status": "proved",
   "theorems": [
    "Verif.Restore.Job.c31_order",
    "Verif.Restore.Job.c31_cover",
    "Verif.Restore.Job.c31_path",
    "Verif.Restore.Job.c31_same",
    "Verif.Restore.Job.c31_offsets",
    "Verif.Restore.Job.c31_none",
    "Verif.Restore.Job.c31_queue",
    "Verif.Restore.Job.c31_restore"
   ],
   "note": "For any queues and any sequence of requesting clients; c31_restore composes the callback with the parallel executor (C29) for every fair schedule. lstSort enters as any function that permutes (and, for c31_offsets, sorts); c31_order shows the comparator is a total order except for equal offsets of one bundle, where the code asserts. Offsets increase among files with content, since files of size zero are sorted last and are not read."
  },
  {
   "property": "C32",
   "status": "proved",
   "theorems": [
    "Verif.Backup.Page.c32_expand",
    "Verif.Backup.Page.c32_compact",
    "Verif.Backup.Page.c32_none",
    "Verif.Backup.Page.c32_file"
   ],
   "note": "For every error list; c32_file composes the list in the manifest with the filter of C33. Block numbers are natural numbers (below 2^32 - 1)."
  },
  {
   "property": "C33",
   "status": "proved",
   "theorems": [
    "Verif.Backup.Page.c33_columns",
    "Verif.Backup.Page.c33_nonzero",
    "Verif.Backup.Page.c33_stored",
    "Verif.Backup.Page.c33_block",
    "Verif.Backup.Page.c33_filter",
    "Verif.Backup.Page.c33_torn",
    "Verif.Backup.Page.c33_short",
    "Verif.Backup.Page.c33_misaligned"
   ],
   "note": "c33_filter for any page-aligned buffers; c33_torn, c33_short and c33_misaligned describe what happens otherwise. The re-read of a page is an arbitrary function of its offset in the file. c33_columns gives the checksum as 32 independent column sums. c33_block: equal contents in blocks with numbers that agree above 16 bits are told apart except when all lower 16 bits differ."
  },
  {
   "property": "C34",
   "status": "proved",
   "theorems": [
    "Verif.Backup.Resume.c34_kept",
    "Verif.Backup.Resume.c34_manifest",
    "Verif.Backup.Resume.c34_lookup",
    "Verif.Backup.Resume.c34_compress",
    "Verif.Backup.Resume.c34_lookup_block",
    "Verif.Backup.Resume.c34_lookup_file",
    "Verif.Backup.Resume.c34_name",
    "Verif.Backup.Resume.c34_find",
    "Verif.Backup.Resume.c34_found",
    "Verif.Backup.Resume.c34_remove",
    "Verif.Backup.Resume.c34_last"
   ],
   "note": "Proved for every directory tree, every pair of manifests and every setting: exactly the copy of the manifest, directories of the new manifest and reusable files are left (c34_kept); files of the manifest are marked as resumed exactly when a file for them is left (c34_manifest); names and extensions correspond (c34_lookup*, c34_compress, c34_name); only the last, not completed, full backup is resumed and no completed backup is removed (c34_find, c34_found, c34_remove, c34_last). Not modelled: the order of concurrent changes of the repository, logging."
  },
  {
   "property": "C35",
   "status": "proved",
   "theorems": [
    "Verif.Backup.Complete.c35_crash",
    "Verif.Backup.Complete.c35_done",
    "Verif.Backup.Complete.c35_others",
    "Verif.Backup.Complete.c35_archive"
   ],
   "note": "backupComplete as system calls on a model of a posix file system with crashes; parsing of the information file is abstract."
  },
  {
   "property": "C36",
   "status": "proved",
   "theorems": [
    "Verif.Manifest.c36_history",
    "Verif.Manifest.c36_defaults",
    "Verif.Manifest.c36_minus_one"
   ],
   "note": "Memory as name, data bytes and position of the error list string; all flags and sizes as machine words. c36_defaults covers the placeholder that is used while a manifest is loaded. c36_minus_one shows the one excluded case, a first file with modification time -1."
  },
  {
   "property": "C37",
   "status": "proved",
   "theorems": [
    "Verif.Manifest.c37_defaults",
    "Verif.Manifest.c37_roundtrip",
    "Verif.Manifest.c37_negative",
    "Verif.Manifest.c37_at"
   ],
   "note": "c37_roundtrip: whole manifest through text, checksum and packed store. c37_negative: a time before 1970 makes the saved manifest unreadable, for all manifests. c37_defaults: exact result for owners and modes that are used as placeholders; c37_at is a witness. Names with an equals sign and the scalar values of the sections backup, backup:db, backup:option and metadata are left out."
  },
  {
   "property": "C38",
   "status": "partial",
   "theorems": [
    "Verif.Manifest.c38_error",
    "Verif.Manifest.c38_data",
    "Verif.Manifest.c38_directories",
    "Verif.Manifest.c38_file_directory",
    "Verif.Manifest.c38_files_partial",
    "Verif.Manifest.c38_accepts",
    "Verif.Manifest.c38_relative",
    "Verif.Manifest.c38_contains",
    "Verif.Manifest.c38_same_file",
    "Verif.Manifest.c38_dots",
    "Verif.Manifest.c38_file_below"
   ],
   "note": "A linked directory is never in another one or in the data directory, and a linked file never directly in a linked directory; links that do not overlap are accepted. The rest is false for the code: c38_contains, c38_same_file, c38_dots and c38_file_below are links that overlap and are accepted."
  },
  {
   "property": "C39",
   "status": "partial",
   "theorems": [
    "Verif.Manifest.c39_exact",
    "Verif.Manifest.c39_partial",
    "Verif.Manifest.c39_only",
    "Verif.Manifest.c39_init",
    "Verif.Manifest.c39_buffer",
    "Verif.Manifest.c39_logged",
    "Verif.Manifest.c39_unlogged"
   ],
   "note": "The relations with an initialization fork in the same directory are left out, and nothing else, unless a relation comes right after one with the same identifier in another directory (c39_exact is the exact condition). The full statement is false for the code: c39_logged is a logged relation that is left out and c39_unlogged an unlogged one that is kept."
  },
  {
   "property": "C40",
   "status": "proved",
   "theorems": [
    "Verif.Info.c40_roundtrip",
    "Verif.Info.c40_checksum",
    "Verif.Info.c40_tamper",
    "Verif.Info.c40_line",
    "Verif.Info.c40_number",
    "Verif.Info.c40_misparse",
    "Verif.Info.c40_section"
   ],
   "note": "Round trip of Writable values, injectivity of the checksum input, tampering gives equal values or a collision; the cases outside are shown to fail by c40_number, c40_misparse, c40_section and c40_line. The statement was refined accordingly."
  },
  {
   "property": "C41",
   "status": "proved",
   "theorems": [
    "Verif.Info.Load.c41_ends",
    "Verif.Info.Load.c41_main",
    "Verif.Info.Load.c41_copy",
    "Verif.Info.Load.c41_error",
    "Verif.Info.Load.c41_crash",
    "Verif.Info.Load.c41_crash_first",
    "Verif.Info.Load.c41_saved"
   ],
   "note": "Proved: which file is used and which error is raised for all outcomes (c41_main, c41_copy, c41_error, c41_ends), and for every crash point of saving on the file system model of C46, whatever the files were before: the earlier or the new content is loaded (c41_crash, c41_crash_first), and the new content when saving is done even if one file is damaged later (c41_saved). Parsing and decryption are a parameter."
  },
  {
   "property": "C42",
   "status": "proved",
   "theorems": [
    "Verif.Info.Pg.c42_reload",
    "Verif.Info.Pg.c42_history",
    "Verif.Info.Pg.c42_grow",
    "Verif.Info.Pg.c42_archive",
    "Verif.Info.Pg.c42_odd",
    "Verif.Info.Pg.c42_wrap"
   ],
   "note": "History of any run of set and save/load operations from a new file. Ids are shown to be 1, 2, 3 and so on while there are less than 2^32 of them. c42_odd shows that a file that was not written by pgBackRest may lead to duplicate ids, c42_wrap what happens after the greatest id."
  },
  {
   "property": "C43",
   "status": "proved",
   "theorems": [
    "Verif.Json.c43_str",
    "Verif.Json.c43_tree",
    "Verif.Json.c43_validate",
    "Verif.Json.c43_number",
    "Verif.Json.c43_keys",
    "Verif.Json.c43_prefix",
    "Verif.Json.c43_skip_unicode",
    "Verif.Json.c43_overrun",
    "Verif.Json.c43_long_key"
   ],
   "note": "Strings, numbers, trees and key lookups proved for all inputs. Without the condition on prefixes the lookup is wrong: c43_prefix is a proof of the negation. c43_skip_unicode, c43_overrun and c43_long_key record inputs that are not handled."
  },
  {
   "property": "C44",
   "status": "proved",
   "theorems": [
    "Verif.Restore.Crash.c44_global_divergence",
    "Verif.Restore.Crash.c44_control",
    "Verif.Restore.Crash.c44_view",
    "Verif.Restore.Crash.c44_absent",
    "Verif.Restore.Crash.c44_complete"
   ],
   "note": "File system model with the least that POSIX promises. c44_absent: no pg_control from the clean phase until the rename, also after a crash. c44_control/c44_view: when pg_control is found, nothing else was changed or all files are restored. c44_complete: all is stable at the end. c44_global_divergence: a crash between the rename and the sync of global. What is decided per file and how files are put into jobs is an assumption here (proved for C47 and C31)."
  },
  {
   "property": "C45",
   "status": "proved",
   "theorems": [
    "Verif.Restore.Clean.c45_kept",
    "Verif.Restore.Clean.c45_outside",
    "Verif.Restore.Clean.c45_new",
    "Verif.Restore.Clean.c45_listed",
    "Verif.Restore.Clean.c45_exact",
    "Verif.Restore.Clean.c45_no_delta",
    "Verif.Restore.Clean.c45_not_empty",
    "Verif.Restore.Clean.c45_file_exists",
    "Verif.Restore.Clean.c45_access",
    "Verif.Restore.Clean.c45_ignored",
    "Verif.Restore.Clean.c45_skipped",
    "Verif.Restore.Clean.c45_overlap"
   ],
   "note": "all directory trees, manifests and lists of targets, with any outcome; owners and modes only as a test that may fail; system calls succeed; targets are reached without links on the way. c45_overlap shows that entries listed for one target are lost where another target contains them"
  },
  {
   "property": "C46",
   "status": "proved",
   "theorems": [
    "Verif.Fs.c46_atomic",
    "Verif.Fs.c46_others",
    "Verif.Fs.c46_durable",
    "Verif.Fs.c46_view",
    "Verif.Fs.c46_new_directory"
   ],
   "note": "Proved for every file system state, all buffers, every crash point between and inside system calls, and every choice of what unsynced data and entries are lost: c46_atomic (old or new content), c46_view (the same for other processes), c46_others (other files), c46_durable (durable when done, if the directory was durable before). c46_new_directory proves that the last hypothesis is needed: the original statement without it is false. Not modelled: other processes writing the same temporary file."
  },
  {
   "property": "C47",
   "status": "proved",
   "theorems": [
    "Verif.Restore.File.c47_results",
    "Verif.Restore.File.c47_preserve",
    "Verif.Restore.File.c47_preserve_force",
    "Verif.Restore.File.c47_zero",
    "Verif.Restore.File.c47_copy",
    "Verif.Restore.File.c47_content",
    "Verif.Restore.File.c47_frame",
    "Verif.Restore.File.c47_complete",
    "Verif.Restore.File.c47_order",
    "Verif.Restore.File.c47_block"
   ],
   "note": "For every data directory, list of files with distinct names and whatever the filters, blocks and repository deliver: the result of each file is exactly as specified, preserved files have the size and checksum (or, with force, size and time), copied files the checksum of the manifest, nothing else is touched, and a repository that holds the files in order is restored without error (also from any sequence of block incremental backups of the model of C15). Mode and owner are not modelled."
  },
  {
   "property": "C48",
   "status": "proved",
   "theorems": [
    "Verif.Backup.File.c48_length",
    "Verif.Backup.File.c48_report",
    "Verif.Backup.File.c48_resumed",
    "Verif.Backup.File.c48_bundle",
    "Verif.Backup.File.c48_restorable",
    "Verif.Backup.File.c48_block",
    "Verif.Backup.File.c48_empty_map",
    "Verif.Backup.File.c48_unchanged",
    "Verif.Backup.File.c48_unchanged_small",
    "Verif.Backup.File.c48_resume_kept",
    "Verif.Backup.File.c48_complete"
   ],
   "note": "c48_report: every report is true for arbitrary contents at the check and at the copy; c48_resumed/c48_resume_kept: resumed files; c48_bundle: files of a bundle are stored one after the other without gaps; c48_restorable and c48_block: what is stored is restored (with C47 and C15); c48_unchanged/c48_unchanged_small: no copy without reason; c48_complete: no failure when all is available. c48_empty_map is divergence F28. Page checksums are in C17."
  },
  {
   "property": "C49",
   "status": "proved",
   "theorems": [
    "Verif.Restore.Remap.c49_ok",
    "Verif.Restore.Remap.c49_error",
    "Verif.Restore.Remap.c49_targets",
    "Verif.Restore.Remap.c49_links",
    "Verif.Restore.Remap.c49_names",
    "Verif.Restore.Remap.c49_one",
    "Verif.Restore.Remap.c49_tablespace",
    "Verif.Restore.Remap.c49_two"
   ],
   "note": "restoreManifestMap succeeds exactly if every entry names something and entries for name and id agree, targets and links afterwards are exactly the wanted ones, one use of each tablespace entry together with the check of links that follows."
  },
  {
   "property": "C50",
   "status": "proved",
   "theorems": [
    "Verif.Archive.c50_find",
    "Verif.Archive.c50_missing",
    "Verif.Archive.c50_match",
    "Verif.Archive.c50_match_partial",
    "Verif.Archive.c50_match_other",
    "Verif.Archive.c50_cached",
    "Verif.Archive.c50_retry_fresh",
    "Verif.Archive.c50_partial_point",
    "Verif.Archive.c50_shared_hides_duplicate",
    "Verif.Archive.c50_descending_missed"
   ],
   "note": "Single and shared lookups; files by the expression. With a shared list the equivalence needs ascending order and clean directories: witnesses show both are needed."
  },
  {
   "property": "C51",
   "status": "proved",
   "theorems": [
    "Verif.Num.c51_numeral",
    "Verif.Num.c51_uint_roundtrip",
    "Verif.Num.c51_int_roundtrip",
    "Verif.Num.c51_uint_sound",
    "Verif.Num.c51_uint32_bound"
   ],
   "note": "strtoull()/strtoll() are modelled after the C standard."
  },
  {
   "property": "C52",
   "status": "proved",
   "theorems": [
    "Verif.Expire.c52_reconstruct"
   ],
   "note": "Exact characterisation for repositories whose manifests describe backups that were made."
  },
  {
   "property": "C53",
   "status": "partial",
   "theorems": [
    "Verif.Expire.c53_period",
    "Verif.Expire.c53_expired",
    "Verif.Expire.c53_dependents",
    "Verif.Expire.c53_listed_partial",
    "Verif.Expire.c53_listed_removed",
    "Verif.Expire.c53_other_repo_not_expired"
   ],
   "note": "The documentation says that unexpired backups are always kept in the history: false for years before the start of the period (c53_listed_removed). For a repository other than the default one the listing of the default repository is used (c53_other_repo_not_expired)."
  },
  {
   "property": "C54",
   "status": "proved",
   "theorems": [
    "Verif.Archive.c54_acknowledged",
    "Verif.Archive.c54_no_loss"
   ],
   "note": "transition system over Sys with arbitrary event lists; pushes are pushFile of C17, list is processList of C19, status is asyncStatus of C18. Segments only; files are identified by name and checksum (content in C17)"
  },
  {
   "property": "C55",
   "status": "proved",
   "theorems": [
    "Verif.Archive.c55_content",
    "Verif.Archive.c55_missing",
    "Verif.Archive.c55_no_foreign_wait",
    "Verif.Archive.c55_found",
    "Verif.Archive.c55_stale_missing"
   ],
   "note": "all spools and passes; the delivered content is relative to what other processes write"
  },
  {
   "property": "C56",
   "status": "proved",
   "theorems": [
    "Verif.Control.c56_stanza",
    "Verif.Control.c56_all",
    "Verif.Control.c56_others",
    "Verif.Control.c56_start",
    "Verif.Control.c56_undo",
    "Verif.Control.c56_all_clash"
   ],
   "note": "A stanza called all is the one exception (c56_all_clash), so c56_others excludes that name."
  },
  {
   "property": "C57",
   "status": "partial",
   "theorems": [
    "Verif.Control.c57_signals",
    "Verif.Control.c57_only_partial",
    "Verif.Control.c57_other_stanza",
    "Verif.Control.c57_shorter_stanza",
    "Verif.Control.c57_already"
   ],
   "note": "Signals to all holders, each once, proved for a first stop --force. False in general: stanza names with dashes (c57_other_stanza, c57_shorter_stanza) and a stanza already stopped (c57_already)."
  },
  {
   "property": "C58",
   "status": "partial",
   "theorems": [
    "Verif.Backup.Durable.c58_durable_partial",
    "Verif.Backup.Durable.c58_bundle_lost"
   ],
   "note": "Proved for files in directories of the manifest. For bundles the property is false: c58_bundle_lost gives a completed, listed backup whose bundle is missing after a crash, because the bundle directory is never synced."
  },
  {
   "property": "C59",
   "status": "proved",
   "theorems": [
    "Verif.Stanza.c59_ahead",
    "Verif.Stanza.c59_rerun",
    "Verif.Stanza.c59_upgrade",
    "Verif.Stanza.c59_create",
    "Verif.Stanza.c59_refuse",
    "Verif.Stanza.c59_stuck",
    "Verif.Stanza.c59_other",
    "Verif.Stanza.c59_stale"
   ],
   "note": "One repository, files as the history that is saved in them (C41 and C42 cover the text and the atomicity). c59_stuck, c59_other and c59_stale show what an interruption leaves that running the command again does not repair."
  },
  {
   "property": "C60",
   "status": "proved",
   "theorems": [
    "Verif.Storage.c60_data",
    "Verif.Storage.c60_end",
    "Verif.Storage.c60_accepts",
    "Verif.Storage.c60_rejects",
    "Verif.Storage.c60_queue"
   ],
   "note": "the default driver; offsets are natural numbers (no overflow); a read delivers until the buffer is full or the data ends"
  },
  {
   "property": "C61",
   "status": "proved",
   "theorems": [
    "Verif.Manifest.Build.c61_exclude_divergence",
    "Verif.Manifest.Build.c61_init_divergence",
    "Verif.Manifest.Build.c61_entries",
    "Verif.Manifest.Build.c61_success",
    "Verif.Manifest.Build.c61_names"
   ],
   "note": "Exactly what is in the manifest (c61_entries), when it can be built (c61_success), names are unique (c61_names). Divergences proved: exclusions in tablespaces have no effect, an expression is not anchored. manifestLinkCheckOne is a parameter (C38); the removal of unlogged relations is C39."
  },
  {
   "property": "C62",
   "status": "proved",
   "theorems": [
    "Verif.Config.c62_wrap_divergence",
    "Verif.Config.c62_prefix_divergence",
    "Verif.Config.c62_names",
    "Verif.Config.c62_unknown",
    "Verif.Config.c62_error",
    "Verif.Config.c62_table",
    "Verif.Config.c62_prefix_only"
   ],
   "note": "The specification reads names with inductive relations (Reads, Body, Picks, Denotes) that do not use the model. The tables of the program are in the model and proved well-formed. Two divergences are proved: the wrap-around of the key and abbreviations that pick a deprecated name although several options start with them."
  },
  {
   "property": "C63",
   "status": "proved",
   "theorems": [
    "Verif.Verify.c63_no_failure",
    "Verif.Verify.c63_ranges",
    "Verif.Verify.c63_jobs",
    "Verif.Verify.c63_results"
   ],
   "note": "Schedules are arbitrary lists of events (a client asks for a job, a job in flight ends). The repository does not change meanwhile. That each job is done once is C29."
  },
  {
   "property": "C64",
   "status": "proved",
   "theorems": [
    "Verif.Verify.c64_causes",
    "Verif.Verify.c64_checked",
    "Verif.Verify.c64_every_file",
    "Verif.Verify.c64_no_errors",
    "Verif.Verify.c64_file",
    "Verif.Verify.c64_stored",
    "Verif.Verify.c64_missing_manifest_no_error"
   ],
   "note": "For files of other backups it is assumed that the manifests agree about them (RefsMatch), which C13 is about, and that the other manifest is usable if that backup is verified. c64_missing_manifest_no_error is a divergence: a backup without any manifest counts no error."
  },
  {
   "property": "C65",
   "status": "partial",
   "theorems": [
    "Verif.Verify.c65_backup_partial",
    "Verif.Verify.c65_reference_last_file",
    "Verif.Verify.c65_reference_bundle",
    "Verif.Verify.c65_reference_block"
   ],
   "note": "Missing: files taken from another backup that is verified as well. For these the property is false, and the three c65_reference theorems prove it with concrete repositories: the last file of the full backup, a file in a bundle and a file stored as a block incremental map are counted as valid in the dependent backup although they are corrupt."
  },
  {
   "property": "C66",
   "status": "proved",
   "theorems": [
    "Verif.Io.c66_chain",
    "Verif.Io.c66_call",
    "Verif.Io.c66_flush_ends",
    "Verif.Io.c66_again_ends",
    "Verif.Io.c66_buffer",
    "Verif.Io.c66_sink",
    "Verif.Io.c66_size"
   ],
   "note": "What is assumed of a filter is stated as Contract in Verif/Io/GroupInv.lean; it is proved for ioBuffer, ioSink and ioSize and for a filter that keeps everything until the end."
  },
  {
   "property": "C67",
   "status": "proved",
   "theorems": [
    "Verif.Io.c67_stream",
    "Verif.Io.c67_seek",
    "Verif.Io.c67_blocks",
    "Verif.Io.c67_seek_back"
   ],
   "note": "The condition on seeks is needed: c67_seek_back proves that a seek back to where the data since the last seek started is ignored. The restore does not do that."
  },
  {
   "property": "C68",
   "status": "proved",
   "theorems": [
    "Verif.Io.c68_stream",
    "Verif.Io.c68_copy",
    "Verif.Io.c68_quiet",
    "Verif.Io.c68_buffer",
    "Verif.Io.c68_buffer_eof",
    "Verif.Io.c68_line_again",
    "Verif.Io.c68_flush_misses",
    "Verif.Io.c68_small_short"
   ],
   "note": "Steps/Step are the specification: reading from a string. c68_small_short, c68_line_again and c68_flush_misses are concrete witnesses of divergences. ioReadReady and descriptors are not modelled."
  },
  {
   "property": "C69",
   "status": "proved",
   "theorems": [
    "Verif.Pack.c69_read_back",
    "Verif.Pack.c69_truncated",
    "Verif.Pack.c69_ascending",
    "Verif.Pack.c69_end_kind",
    "Verif.Pack.c69_example_bytes",
    "Verif.Pack.c69_skip_container",
    "Verif.Pack.c69_missing_container",
    "Verif.Pack.c69_unclosed",
    "Verif.Pack.c69_list_null"
   ],
   "note": "docOf and specReads are the specification: fields with numbers, without bytes. Nothing is claimed (specReads gives none) where a container is passed over or begun though it is missing; c69_skip_container, c69_missing_container, c69_unclosed and c69_list_null are concrete witnesses of what happens there. pckReadPtr/pckWritePtr, pckReadSize and pckToLog are not modelled."
  },
  {
   "property": "C70",
   "status": "partial",
   "theorems": [
    "Verif.Protocol.c70_answers_partial",
    "Verif.Protocol.c70_server_partial",
    "Verif.Protocol.c70_client_free_partial",
    "Verif.Protocol.c70_fatal_partial",
    "Verif.Protocol.c70_example",
    "Verif.Protocol.c70_cancel_stored",
    "Verif.Protocol.c70_cancel_broken",
    "Verif.Protocol.c70_free_error",
    "Verif.Protocol.c70_open_twice"
   ],
   "note": "Missing, because the code does not have it: giving up (cancel, free) a session that is open when its prefetched answer was already read by another session, or when its unread answer is an error. c70_cancel_stored, c70_cancel_broken, c70_free_error and c70_open_twice are concrete witnesses. Spec.run is the specification: no connection, no list, no stored responses. The greeting, errors of the connection itself and keep-alive on other connections are not modelled."
  },
  {
   "property": "C71",
   "status": "proved",
   "theorems": [
    "Verif.Protocol.c71_sessions",
    "Verif.Protocol.c71_defined",
    "Verif.Protocol.c71_isolated",
    "Verif.Protocol.c71_cancel",
    "Verif.Protocol.c71_retry",
    "Verif.Protocol.c71_no_leak",
    "Verif.Protocol.c71_example",
    "Verif.Protocol.c71_retry_changes",
    "Verif.Protocol.c71_close_other"
   ],
   "note": "Spec.serve is the specification: sessions by number, no list. c71_close_other is a concrete witness that the condition on handlers is needed. c71_no_leak is for the histories that Spec.run allows (see C70). Freeing session data is assumed not to throw."
  },
  {
   "property": "C72",
   "status": "proved",
   "theorems": [
    "Verif.Storage.c72_complete",
    "Verif.Storage.c72_ascending",
    "Verif.Storage.c72_descending",
    "Verif.Storage.c72_reverse",
    "Verif.Storage.c72_more_again",
    "Verif.Storage.c72_missing",
    "Verif.Storage.c72_not_by_name"
   ],
   "note": "Spec.There, Spec.Match, Spec.parts and Spec.ltParts are the specification: no stack and no position. c72_complete is for every order; the order theorems need names without slashes and without repetition (Spec.Clean). The driver is a function that does not change during the iteration and that applies no filter of its own (see C73 for the object stores)."
  },
  {
   "property": "C73",
   "status": "proved",
   "theorems": [
    "Verif.Storage.c73_prefix",
    "Verif.Storage.c73_alternatives",
    "Verif.Storage.c73_no_anchor",
    "Verif.Storage.c73_names",
    "Verif.Storage.c73_list",
    "Verif.Storage.c73_nothing_lost",
    "Verif.Storage.c73_segment",
    "Verif.Storage.c73_left_out",
    "Verif.Storage.c73_alternative_lost",
    "Verif.Storage.c73_slash",
    "Verif.Storage.c73_recurse"
   ],
   "note": "Spec.Ere, Spec.Match3 and Spec.Found say what an expression means. c73_left_out, c73_alternative_lost, c73_slash and c73_recurse are concrete witnesses that each condition is needed; the code does not check them. Pages and versions of the stores are in C74."
  },
  {
   "property": "C74",
   "status": "proved",
   "theorems": [
    "Verif.Storage.c74_s3",
    "Verif.Storage.c74_azure_gcs",
    "Verif.Storage.c74_plain",
    "Verif.Storage.c74_wrong_time"
   ],
   "note": "Spec.CurrentAt and Spec.ShowsAll are the specification and determine the list. For S3 the history of a key is answered newest first, for Azure and GCS oldest first, as the services say. c74_wrong_time is a concrete witness that the time is not that of the version returned. Azure and GCS are for histories without delete markers, as in the comments in the code."
  },
  {
   "property": "C75",
   "status": "proved",
   "theorems": [
    "Verif.Http.c75_response",
    "Verif.Http.c75_content",
    "Verif.Http.c75_truncated",
    "Verif.Http.c75_head",
    "Verif.Http.c75_unframed_body_left",
    "Verif.Http.c75_zero_length_close",
    "Verif.Http.c75_chunk_overrun",
    "Verif.Http.c75_two_lengths"
   ],
   "note": "Spec.Msg.wire says what a server may send and Spec.Framed how the fields delimit the body. The connection does what C68 proves of a reader. Lines have to fit in the buffer (ioBufferSize), as the code requires. The last four theorems are concrete witnesses of responses that are outside of the specification and are read anyway."
  },
  {
   "property": "C76",
   "status": "proved",
   "theorems": [
    "Verif.Http.c76_request",
    "Verif.Http.c76_response",
    "Verif.Http.c76_refused",
    "Verif.Http.c76_head_never_ends",
    "Verif.Http.c76_cut_not_seen"
   ],
   "note": "Spec.multi says what a multipart message is. Fields of the outer and of the embedded head are in one store, as in the code, and Spec.Part.field says so. The last two theorems are witnesses: a head whose last line has no line end is read forever, and a message that was cut between parts is not told from a complete one."
  },
  {
   "property": "C77",
   "status": "proved",
   "theorems": [
    "Verif.Batch.c77_removed",
    "Verif.Batch.c77_only",
    "Verif.Batch.c77_batches",
    "Verif.Batch.c77_done",
    "Verif.Batch.c77_missing_parts",
    "Verif.Batch.c77_missing_parts_gcs",
    "Verif.Batch.c77_s3_any_key"
   ],
   "note": "Spec.Honest and Spec.Working say what a service is. The last three theorems are witnesses of what the code does with services that are not honest. The listing and the requests themselves are C73 to C76."
  },
  {
   "property": "C78",
   "status": "proved",
   "theorems": [
    "Verif.Http.Query.c78_encode",
    "Verif.Http.Query.c78_decode",
    "Verif.Http.Query.c78_roundtrip",
    "Verif.Http.Query.c78_decode_cut",
    "Verif.Http.Query.c78_query",
    "Verif.Http.Query.c78_parse",
    "Verif.Http.Query.c78_parse_format",
    "Verif.Http.Query.c78_add",
    "Verif.Http.Query.c78_put",
    "Verif.Http.Query.c78_merge",
    "Verif.Http.Query.c78_nodup",
    "Verif.Http.Query.c78_decode_sign",
    "Verif.Http.Query.c78_order_not_encoded"
   ],
   "note": "Spec.Enc and Spec.Canon say what an encoding and the normal form are. The last two theorems are witnesses: numbers with a sign are decoded, and the order is that of the keys before they are encoded."
  },
  {
   "property": "C79",
   "status": "proved",
   "theorems": [
    "Verif.Http.Query.c79_log",
    "Verif.Http.Query.c79_error",
    "Verif.Http.Query.c79_shown",
    "Verif.Http.Query.c79_log_shown",
    "Verif.Http.Query.c79_error_shown",
    "Verif.Http.Query.c79_dup",
    "Verif.Http.Query.c79_empty_query",
    "Verif.Http.Query.c79_merge_shows"
   ],
   "note": "Non-interference: Alike says that two queries differ only in what is redacted. Headers and queries are the same structure here. The last two theorems are witnesses: a query without keys, which no caller makes, and merging."
  },
  {
   "property": "C80",
   "status": "proved",
   "theorems": [
    "Verif.Wait.c80_tries",
    "Verif.Wait.c80_not_before",
    "Verif.Wait.c80_final",
    "Verif.Wait.c80_sleep",
    "Verif.Wait.c80_ends",
    "Verif.Wait.c80_minute",
    "Verif.Wait.c80_errors",
    "Verif.Wait.c80_message",
    "Verif.Wait.c80_short",
    "Verif.Wait.c80_clock_back",
    "Verif.Wait.c80_merged"
   ],
   "note": "Steady says what a clock that is not set back is. The last three theorems are about what is outside of the hypotheses, or is lost in the message. The text of errRetryMessage is a list of lines and not formatted."
  },
  {
   "property": "C81",
   "status": "proved",
   "theorems": [
    "Verif.Http.Process.c81_new",
    "Verif.Http.Process.c81_response",
    "Verif.Http.Process.c81_ends",
    "Verif.Http.Process.c81_sent_twice"
   ],
   "note": "traced keeps what happens on the network, and Fresh says that sessions are used only right after they were opened or written. c81_ends has the bound of C80 and a clock that is not set back as hypotheses. The last theorem shows what the retries mean for the service."
  }
 ]
}
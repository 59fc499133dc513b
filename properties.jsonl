{"id": "C01", "title": "Variable-length integer encoding is lossless", "statement": "Writing any unsigned 64-bit integer with the varint-128 writer and reading it back yields the same integer and consumes exactly the bytes written, whatever bytes follow; the encoding never exceeds 10 bytes; a buffer that ends before the terminating byte is reported as an error and never read past its end. Zig-zag coding of every signed 64-bit integer is inverted exactly.", "quantifier": "every uint64 value, every int64 value, every trailing byte sequence, every truncated buffer", "why_tests_cant": "2^64 values and unbounded suffixes; unit tests sample a few boundary values only", "anchors": ["src/common/type/convert.c: cvtUInt64ToVarInt128, cvtUInt64FromVarInt128", "src/common/type/convert.h: cvtInt64ToZigZag, cvtInt64FromZigZag"]}
{"id": "C02", "title": "Base64 and hex encodings are lossless and the decoder accepts exactly the encoded language", "statement": "For every byte string, encoding to base64, base64url or hex produces a string whose length is the one announced by the size function, and decoding base64 and hex gives back the byte string. A string the validator rejects is never decoded to data, and decoding never reads outside the look-up table or outside the string.", "quantifier": "every byte string of any length; every candidate source string (every char value 1..255)", "why_tests_cant": "strings of every length and every character in every position; tests use a handful of strings", "anchors": ["src/common/encode.c: encodeToStr, decodeToBin, encodeToStrSize, decodeToBinSize, decodeToBinValidate"]}
{"id": "C03", "title": "String identifiers are lossless and collision free", "statement": "Every string that can be encoded as a string id decodes to the same string, so two different strings never share an id; strings that cannot be encoded are rejected by both encodings rather than silently altered; ids keep the encoding tag that selects how they are decoded.", "quantifier": "every string over the 5-bit and 6-bit alphabets up to the size limit, and every other string", "why_tests_cant": "tens of millions of billions of identifiers; ids are compared as integers everywhere so one collision would conflate two options or commands", "anchors": ["src/common/type/stringId.c: strIdBitFromZN, strIdToZN, strIdFromZN", "src/common/type/stringId.h"]}
{"id": "C04", "title": "WAL segment successor follows the WAL address order", "statement": "The segment name returned as next for a segment is the name of the segment that starts exactly one WAL-segment-size later on the same timeline (for every PostgreSQL version and segment size supported), and a range of n segments is the n consecutive segments starting at the first, each a valid segment name.", "quantifier": "every timeline, major and minor number, every power-of-two WAL segment size, every range length", "why_tests_cant": "wrap-arounds at each segment size and at 32-bit boundaries; tests cover one or two sizes", "anchors": ["src/command/archive/common.c: walSegmentNext, walSegmentRange"]}
{"id": "C05", "title": "Civil date and time conversion agrees with the calendar", "statement": "A date/time accepted by the parts validators converts to the number of seconds between 1970-01-01 00:00:00 UTC and that instant in the proleptic Gregorian calendar, the conversion is strictly increasing in the date/time, invalid dates (e.g. Feb 29 in a non leap year) are rejected, and a time zone offset is converted with its sign.", "quantifier": "every valid year/month/day/hour/minute/second and every zone offset accepted", "why_tests_cant": "billions of instants, leap-year and century rules; tests check single dates", "anchors": ["src/common/time.c: epochFromParts, datePartsValid, timePartsValid, tzPartsValid, tzOffsetSeconds, yearIsLeap, dayOfYear"]}
{"id": "C06", "title": "Full-backup count retention keeps exactly the newest N full backups and their dependents", "statement": "When count-based full retention is N, after expiration the remaining full backups are exactly the min(N,total) newest ones; a differential or incremental backup remains only if the full backup it is based on remains; nothing is expired when no more than N full backups exist.", "quantifier": "every list of backups in the repository information and every N >= 1", "why_tests_cant": "unbounded number of backups and interleavings of full/diff/incr chains", "anchors": ["src/command/expire/expire.c: expireFullBackup, expireBackup", "src/info/infoBackup.c: infoBackupDataDependentList"]}
{"id": "C07", "title": "Differential retention keeps the newest N full-or-differential backups and what they need", "statement": "When differential retention is N, a differential (and everything depending on it) is expired only if at least N newer full or differential backups remain; the newest N are never expired, and full backups are never expired by this rule.", "quantifier": "every list of backups and every N >= 1", "why_tests_cant": "unbounded number of backups and interleavings", "anchors": ["src/command/expire/expire.c: expireDiffBackup"]}
{"id": "C08", "title": "Time-based retention never breaks the recovery window", "statement": "With time-based full retention of D days, a full backup is expired only if some newer full backup that is retained already stopped at or before the start of the retention window (now - D days); so as long as such a backup exists at all one is retained, and the newest full backup is never expired.", "quantifier": "every list of backups with arbitrary stop times, every now and D", "why_tests_cant": "all possible stop-time orders; tests use a couple of fixed lists", "anchors": ["src/command/expire/expire.c: expireTimeBasedBackup"]}
{"id": "C09", "title": "Expiration is closed under dependencies", "statement": "After any expire operation (count, differential, time-based or ad hoc of one set), every backup still listed has every backup it references still listed: no retained differential or incremental loses its prior or its full backup.", "quantifier": "every well-formed backup list and every expired label", "why_tests_cant": "arbitrary dependency chains; an unlisted prior makes the retained backup unrestorable", "anchors": ["src/command/expire/expire.c: expireBackup, expireAdhocBackup", "src/info/infoBackup.c: infoBackupDataDependentList, infoBackupDataDelete"]}
{"id": "C10", "title": "Archive expiration never removes WAL needed by a retained backup", "statement": "For every archive id, WAL segments between the archive start and stop of any retained online backup are never removed, and all WAL from the archive start of the oldest backup selected by archive retention onwards is never removed; removed segments lie strictly before the retained ranges. Timeline numbers are ignored exactly as documented.", "quantifier": "every set of retained backups, every set of archived segments, every archive retention setting", "why_tests_cant": "combinations of overlapping backup ranges, timelines and retention settings are unbounded", "anchors": ["src/command/expire/expire.c: removeExpiredArchive, expireArchiveId"]}
{"id": "C11", "title": "Deletion from the repository only touches expired backups", "statement": "The expire command deletes a backup directory only if it is not listed in the backup information, and never deletes the newest directory while it is a resumable/in-progress backup; dry-run deletes nothing.", "quantifier": "every directory listing and every backup information content", "why_tests_cant": "arbitrary combinations of listed, unlisted and partial directories", "anchors": ["src/command/expire/expire.c: removeExpiredBackup"]}
{"id": "C12", "title": "New backup labels are unique and increasing", "statement": "A newly generated backup label differs from every label listed in the repository, and sorts after the newest label known at the time, for every clock reading; if the clock is not past the newest label an error is raised rather than a duplicate label.", "quantifier": "every set of existing labels, every clock value, every backup type and prior", "why_tests_cant": "clock skew and histories are unbounded", "anchors": ["src/command/backup/label.c.inc: backupLabelCreate", "src/command/backup/common.c: backupLabelFormat"]}
{"id": "C13", "title": "Incremental manifest references are sound", "statement": "A file of an incremental or differential backup is left uncopied only if the prior backup has the same file with equal size and, unless delta is enabled, equal modification time (or both are empty); its reference always names the backup that physically holds the data, never an intermediate one; and a file changed after the prior backup was copied is always copied provided the file system clock is monotone.", "quantifier": "every pair of manifests, every delta setting, every modification history", "why_tests_cant": "arbitrary file histories; a wrong reference silently restores stale data", "anchors": ["src/info/manifest/manifest.c: manifestBuildIncr, manifestDeltaCheck"]}
{"id": "C14", "title": "Block map serialization is lossless", "statement": "Writing a block map and reading it back yields the same sequence of blocks (reference, super block offset and size, bundle id and offset, block number, checksum), for every map the block incremental writer can produce.", "quantifier": "every well-formed block map of any length, any number of references and super blocks", "why_tests_cant": "delta/continuation flags create exponentially many encodings paths", "anchors": ["src/command/backup/blockMap.c: blockMapWrite, blockMapNewRead"]}
{"id": "C15", "title": "Block incremental backup and restore reproduces the file", "statement": "Restoring a file from its block map (any number of incremental generations) over any existing file content reproduces exactly the bytes backed up, provided block checksums do not collide; blocks skipped by the restore delta are exactly blocks already equal on disk.", "quantifier": "every file content, every history of modifications and backups, every block size and super block size, every prior on-disk content", "why_tests_cant": "unbounded histories and contents", "anchors": ["src/command/backup/blockIncr.c: blockIncrProcess", "src/command/restore/blockDelta.c: blockDeltaNew, blockDeltaNext", "src/command/restore/file.c.inc: restoreFile"]}
{"id": "C16", "title": "Block checksum list does not depend on how the file is read", "statement": "The list of block checksums computed for a file is the list of checksums of its consecutive blocks (last one possibly short), whatever the sizes of the buffers in which the file is delivered to the filter.", "quantifier": "every file content, every split of the content in buffers", "why_tests_cant": "exponentially many splits", "anchors": ["src/command/restore/blockChecksum.c: blockChecksumProcess, blockChecksumResult"]}
{"id": "C17", "title": "Archive push never replaces an archived segment with different content", "statement": "Pushing a WAL segment whose name already exists in a repository archive never changes or adds to that repository: equal checksum is accepted as a success with a warning, different checksum is an error; after a successful push the segment is present with the pushed content in every repository not reported as failed.", "quantifier": "every repository state (any number of repositories), every segment content", "why_tests_cant": "combinations of repository states; pushes are retried after crashes", "anchors": ["src/command/archive/push/file.c: archivePushFile, archivePushFileIo"]}
{"id": "C18", "title": "Asynchronous archive status is reported faithfully", "statement": "For every content of the status directory, the foreground process reports success for a segment only if an ok status for it exists; an ok status has precedence over error statuses; an error status of the segment is reported before the global one and only when errors are to be reported; an unreadable status file is an error; otherwise the process keeps waiting. What the asynchronous process writes is what the foreground process reports, and an error left by an earlier run is never reported by a later one.", "quantifier": "every status directory content, every segment name", "why_tests_cant": "all combinations of stale, global, ok and error files", "anchors": ["src/command/archive/common.c: archiveAsyncStatus, archiveAsyncStatusOkWrite, archiveAsyncStatusErrorWrite"]}
{"id": "C19", "title": "The list of segments to push omits only acknowledged segments", "statement": "The asynchronous push process list contains only segments that PostgreSQL marked ready, and omits a ready segment only when an ok status exists for it after the list is made; when the names are in the order in which the lists are compared, the ok files removed are exactly those with no ready segment.", "quantifier": "every content of the archive_status and spool directories", "why_tests_cant": "all set combinations; an omitted segment is lost from the archive", "anchors": ["src/command/archive/push/push.c: archivePushReadyList, archivePushProcessList", "src/common/type/stringList.c: strLstMergeAnti"]}
{"id": "C20", "title": "Archive get queue maintenance keeps exactly the useful prefetched segments", "statement": "When the prefetch queue is rebuilt for a requested segment, what is asked for is exactly the wanted segments (from the requested one, or the next when it was found, as many as fit, at least two) that are not in the queue, ascending; of the queue exactly the wanted segments are kept, with ok files of segments that were in the queue; an ok file that says that a segment is missing is always removed.", "quantifier": "every spool directory content, queue size, segment size, PostgreSQL version", "why_tests_cant": "all directory states reachable by prior runs and crashes", "anchors": ["src/command/archive/get/get.c: queueNeed"]}
{"id": "C21", "title": "Archive get never delivers the wrong segment", "statement": "archive-get delivers only the content of a file of the requested name from an archive id of the cluster (system id and version); files in earlier repositories were found unreadable and are reported; when files of a segment differ in the compared part of the checksum within an archive id an error is raised instead of delivering either; the file is reported as missing only when at least one repository answered and none that could be searched has it.", "quantifier": "every combination of repositories, archive ids and duplicates", "why_tests_cant": "combinations of damaged and duplicate files over several repositories", "anchors": ["src/command/archive/get/get.c: archiveGetFind, archiveGetCheck"]}
{"id": "C22", "title": "Selective restore zeroes exactly the excluded databases", "statement": "With database include/exclude options, every file of a user database not included (or excluded) in the default or any tablespace is zeroed and no other file is; system databases are zeroed only if explicitly excluded; unknown names, or including and excluding the same database is an error; PG_VERSION files are never zeroed.", "quantifier": "every set of databases, tablespaces, include and exclude lists", "why_tests_cant": "unbounded combinations; a wrongly zeroed file is silent data loss", "anchors": ["src/command/restore/select.c.inc: restoreSelectiveExpression", "src/command/restore/process.c.inc: restoreFileZeroed"]}
{"id": "C23", "title": "Restore set selection picks the newest backup usable for the target", "statement": "For a time or LSN target the selected backup is the newest listed backup that stopped strictly before (time) / at or before (lsn) the target, looking at repositories in order; without such a backup the documented default/error applies; an explicitly requested set is used only if it is listed.", "quantifier": "every list of backups over every list of repositories and every target", "why_tests_cant": "unbounded histories; choosing a too-new backup makes the target unreachable", "anchors": ["src/command/restore/restore set selection (restoreBackupSet, restoreBackupSet helpers)"]}
{"id": "C24", "title": "Timeline verification accepts exactly reachable targets", "statement": "A restore to a requested timeline is accepted only if the backup's timeline is that timeline or an ancestor on its history whose switch point is not before the backup's start LSN.", "quantifier": "every history file content, backup timeline, LSN and target timeline", "why_tests_cant": "history files of any length with arbitrary switch points", "anchors": ["src/command/restore/timeline.c: timelineVerify"]}
{"id": "C25", "title": "Growable list behaves as a sequence", "statement": "Any sequence of add, insert, remove (front, middle, end), get, sort and find operations on the list container returns what the same operations return on a mathematical sequence; find after sort locates an element iff it is present; memory accesses stay in the allocated block. Clearing the list is included unless a first item was removed before (that frees a pointer that was not allocated).", "quantifier": "every sequence of operations of any length", "why_tests_cant": "the representation has capacity growth, a moving start pointer and a sorted flag, whose interactions only appear in long histories", "anchors": ["src/common/type/list.c: lstInsert, lstRemoveIdx, lstRemoveLast, lstGet, lstFind, lstFindIdx, lstClear, lstSort"]}
{"id": "C26", "title": "Anti-merge of sorted lists is set difference", "statement": "The anti-merge of two ascending string lists, the first without repeated elements, is the ascending list of the elements of the first that do not occur in the second; for any ascending first list its result contains only elements of the first list and contains every element that does not occur in the second.", "quantifier": "every pair of ascending lists", "why_tests_cant": "unbounded lists with duplicates and prefixes", "anchors": ["src/common/type/stringList.c: strLstMergeAnti"]}
{"id": "C27", "title": "Command locks give mutual exclusion", "statement": "At most one process at a time believes it holds a given lock file, for every interleaving of processes acquiring and releasing it, including crashes (which release the kernel lock).", "quantifier": "every number of processes and every interleaving of their system calls and crashes", "why_tests_cant": "races between open, flock, unlink and close; not schedulable by unit tests", "anchors": ["src/common/lock.c: lockAcquire, lockRelease, lockReadFile", "src/command/lock.c: cmdLockAcquire"]}
{"id": "C28", "title": "A command that needs several locks never proceeds with only some of them", "statement": "When a command needs several lock files, acquisition reports success only if all of them are held; when it reports failure none of them stays held.", "quantifier": "every number of lock files and every pattern of busy locks", "why_tests_cant": "patterns of partial availability; tests use one repository", "anchors": ["src/command/lock.c: cmdLockAcquire, cmdLockList"]}
{"id": "C29", "title": "The parallel executor runs every job exactly once", "statement": "With any number of clients, any number of jobs and any order in which results become available, every job handed out by the callback is started exactly once, its result is delivered exactly once, and the executor is done only when the callback has no more jobs and no job is outstanding.", "quantifier": "every schedule of client readiness, number of clients and jobs", "why_tests_cant": "interleavings of worker completion", "anchors": ["src/protocol/parallel.c: protocolParallelProcess, protocolParallelResult, protocolParallelDone"]}
{"id": "C30", "title": "Backup job allocation covers every file exactly once", "statement": "Successive calls of the backup job callback from any clients hand out each queued file in exactly one job; a job contains either one unbundled file or a bundle of files whose total size only exceeds the bundle size because of its last file; bundle ids are never reused; files that must be copied from the primary are only given to primary clients.", "quantifier": "every set of queues, every sequence of requesting clients, every bundle setting", "why_tests_cant": "request interleavings are unbounded", "anchors": ["src/command/backup/process.c.inc: backupJobCallback, backupJobQueueNext, backupProcessQueue"]}
{"id": "C31", "title": "Restore job allocation covers every file exactly once and never mixes bundles", "statement": "Successive calls of the restore job callback hand out each file of the manifest in exactly one job; all files in one job come from the same bundle of the same backup (or the job has a single unbundled file), and consecutive offsets in a job increase.", "quantifier": "every manifest, every number of clients, every request sequence", "why_tests_cant": "request interleavings are unbounded", "anchors": ["src/command/restore/process.c.inc: restoreProcessQueue, restoreJobCallback, restoreProcessQueueComparator, restoreJobQueueNext"]}
{"id": "C32", "title": "Page checksum error ranges describe exactly the bad pages", "statement": "The list of pages and page ranges recorded in the manifest for a file expands to exactly the ascending list of bad page numbers.", "quantifier": "every ascending list of bad pages", "why_tests_cant": "unbounded lists of adjacent and isolated pages", "anchors": ["src/command/backup/process.c.inc: backupJobResultPageChecksum"]}
{"id": "C33", "title": "Page checksum validation does not depend on buffering", "statement": "For a relation file whose size is a multiple of the page size, the set of pages reported invalid is exactly the set of pages that are not all zero and whose stored checksum does not match their content and block number in the relation (or, when the header is checked, that claim to be new), and that did not change on re-read, for any page-aligned split of the file in buffers; the computed checksum is never zero and does not depend on the stored checksum.", "quantifier": "every file content, every page-aligned split, every segment number", "why_tests_cant": "exponentially many splits and contents", "anchors": ["src/command/backup/pageChecksum.c: pageChecksumProcess, pageChecksumResult", "src/postgres/interface/page.c: pgPageChecksum"]}
{"id": "C34", "title": "Resuming a backup reuses only files that still match", "statement": "When an aborted backup is resumed, a file already in the repository is reused only if the file it is named after (without the extensions for compression and block incremental) is in the new manifest and the earlier one, has a recorded checksum, has equal size, which is not zero, and (unless delta verifies content) equal modification time, and it is block incremental or has the compression of this backup; every other file in the resumed directory, except the copy of the manifest, is deleted and will be copied again. Only the last backup is resumed, and a completed backup is never removed.", "quantifier": "every pair of manifests and every repository directory tree", "why_tests_cant": "arbitrary trees left by a crash at any point", "anchors": ["src/command/backup/resume.c.inc: backupResumeClean, backupResumeFind"]}
{"id": "C35", "title": "Backup completion is crash consistent", "statement": "If the backup command is interrupted at any point while completing, the repository information lists a backup only when its manifest (main or copy) is complete, and every earlier listed backup is still listed.", "quantifier": "every crash point in the sequence of repository writes", "why_tests_cant": "crash points between writes cannot be enumerated by unit tests", "anchors": ["src/command/backup/complete.c.inc: backupComplete", "src/info/infoBackup.c: infoBackupSaveFile"]}
{"id": "C36", "title": "Manifest file entries survive packing", "statement": "Storing a file entry in the manifest's packed representation and reading it back gives the same entry (size, times, checksums, reference, bundle, block incremental data, owner, mode, flags).", "quantifier": "every sequence of adding, updating and removing file entries that satisfy the writer's invariants, the first one not having modification time -1", "why_tests_cant": "2^16 flag combinations times unbounded values", "anchors": ["src/info/manifest/store.c.inc: manifestFilePack, manifestFileUnpack"]}
{"id": "C37", "title": "Manifest file entries survive saving and loading", "statement": "Saving a manifest and loading it back gives the same label, references, targets, databases, links, paths and file entries, including entries whose owner or mode equals the default, whatever the order of the entries and with or without a passphrase. The exceptions are exact: a manifest with a file whose modification time is before 1970 is saved but cannot be loaded again (format error), a file without data gets the checksum of no data, and a file whose owner is named @ gets the owner of the data directory.", "quantifier": "every manifest with valid entries, every default, every list of page errors, every passphrase, signed and unsigned char", "why_tests_cant": "default elision and conditional keys give unboundedly many shapes", "anchors": ["src/info/manifest/serialize.c.inc: manifestLoadCallback, manifestSaveCallback"]}
{"id": "C38", "title": "Link validation rejects overlapping links", "statement": "After link validation succeeds, no linked directory is inside another one, no linked directory contains or is contained in the data directory, and no two file links point to the same file.", "quantifier": "every set of links and data directory", "why_tests_cant": "arbitrary path sets; overlap makes restore clobber data", "anchors": ["src/info/manifest/link.c.inc: manifestLinkCheck, manifestLinkCheckOne"]}
{"id": "C39", "title": "Unlogged relations, and only those, are left out of the backup", "statement": "When unlogged relations are skipped, a relation file is removed from the backup iff the same directory contains the init fork of the same relation (init forks themselves are kept).", "quantifier": "every sorted list of relation files over any number of database directories", "why_tests_cant": "directory layouts are unbounded; a logged relation wrongly removed is silent data loss", "anchors": ["src/info/manifest/manifest.c: manifestNewBuild (unlogged removal)"]}
{"id": "C40", "title": "Information files are parsed back exactly and tampering is detected", "statement": "Saving an information file and loading it gives the same sections, keys and values (keys may contain '=' when no string in the value ends with a comma and blanks and the line has no run of 19 digits; lines must fit in the reader's buffer), and the stored checksum is computed on a string that, for sections without quotes, determines the section/key/value sequence uniquely, so two loadable files with the same checksum have the same values or are a hash collision.", "quantifier": "every sequence of sections, keys (without newline) and JSON values", "why_tests_cant": "unbounded key/value content including separators and quotes", "anchors": ["src/info/info.c: infoSave, infoNewLoad, infoSaveValue", "src/common/ini.c: iniValueNext"]}
{"id": "C41", "title": "Loading an information file falls back to the copy only when safe", "statement": "Loading uses the main file when it is valid, otherwise the copy when it is valid; if neither is valid an error is raised, which is 'missing' only when both are missing; a valid copy is never masked by a damaged main file.", "quantifier": "every combination of outcomes for both files and every version of writing order interrupted at any point", "why_tests_cant": "all combinations of error types and crash points", "anchors": ["src/info/info.c: infoLoad", "src/info/infoBackup.c: infoBackupSaveFile", "src/info/infoArchive.c: infoArchiveSaveFile"]}
{"id": "C42", "title": "Stanza history ids are unique and only grow", "statement": "Every database history entry gets an id greater than every earlier id, saving and loading history preserves order and ids, and the current entry is the last one added, for any number of upgrades.", "quantifier": "every sequence of stanza create/upgrade/save/load operations", "why_tests_cant": "unbounded upgrade histories; ids name the archive directories", "anchors": ["src/info/infoPg.c: infoPgSet, infoPgAdd, infoPgNewLoad, infoPgSave, infoPgArchiveId"]}
{"id": "C43", "title": "JSON strings and values survive writing and reading", "statement": "Any string written as a JSON string is read back identically and is skipped as exactly one value; any value tree of booleans, 64-bit integers, strings, arrays and objects whose keys are distinct, at most 66 bytes long and free of characters that need an escape is written without an error, is valid and reads back as the same tree; every number is read back by the function for its type or rejected when out of range; asking for keys of an object in ascending order finds each one, with its value, iff it is present, provided that keys of the object that are proper prefixes of a requested key are requested too (without that, an absent key is reported as found).", "quantifier": "every byte string without NUL and every value tree", "why_tests_cant": "escape sequences in arbitrary positions, nesting of any depth", "anchors": ["src/common/type/json.c: jsonWriteStr, jsonReadStr, jsonReadSkipStr, jsonWriteVar, jsonReadVar, jsonReadKeyExpect"]}
{"id": "C44", "title": "A partially restored cluster cannot be started", "statement": "At every point at which a restore (with any number of local processes and any interleaving) can be stopped, pg_control is not in the data directory, unless nothing but pg_control itself was changed or every file of the backup has its content and its directory. This also holds for what is found after a crash of the host, except that new files of global can be lost until global was synced. When the restore is done all files and pg_control survive a crash.", "quantifier": "every configuration without files or links in the place of pg_control, every state in which all files were synced, every point at which the processes are stopped, every order of the system calls of the processes, every crash", "why_tests_cant": "crash points and worker schedules cannot be enumerated by tests", "anchors": ["src/command/restore/restore.c: cmdRestore", "src/command/restore/clean.c.inc: restoreCleanBuild", "src/command/restore/process.c.inc: restoreFilePgPath"]}
{"id": "C45", "title": "Restore cleaning leaves exactly what the manifest lists", "statement": "After the clean phase of a delta restore the directories of the targets contain only entries listed in the manifest with the listed kind (plus backup.manifest, preserved recovery files and created target directories); every listed entry that existed is kept, except pg_control, when no other target contains it; nothing outside the targets is removed; without delta/force nothing is removed, a non-empty target or an existing destination of a file link is an error, and then nothing is changed.", "quantifier": "every directory tree and every manifest", "why_tests_cant": "arbitrary trees", "anchors": ["src/command/restore/clean.c.inc: restoreCleanBuildRecurse, restoreCleanBuild"]}
{"id": "C46", "title": "Atomic posix writes are all or nothing", "statement": "After a crash at any point of an atomic file write, the destination has either its old content or the complete new content, and never a partial one; other files are not changed; once the write returned and paths are synced, the new content is found after any crash, provided that the directory of the file was durable before the write.", "quantifier": "every crash point and every sequence of buffers", "why_tests_cant": "crash points between system calls, and loss of unsynced data", "anchors": ["src/storage/posix/write.c: storageWritePosixOpen, storageWritePosix, storageWritePosixClose"]}
{"id": "C47", "title": "Delta restore decides correctly which files to keep", "statement": "A file is preserved by delta restore only if its bytes already equal the backed up bytes (size and checksum equal, collision free; after truncation of an extended file), or with force if size and time are equal and older than the backup start; otherwise the file ends with exactly the backed up content or an error is raised.", "quantifier": "every on-disk file and every manifest entry", "why_tests_cant": "arbitrary contents", "anchors": ["src/command/restore/file.c.inc: restoreFile"]}
{"id": "C48", "title": "Copy decisions in the backup worker are sound", "statement": "Whenever the backup worker reports a file as not copied, the cluster file had the size and checksum that the manifest has for the prior or resumed copy, and a resumed copy in the repository was verified; whenever it reports a copy, the reported size and checksum are those of the bytes read and the stored bytes are at the reported bundle offset, with the reported size and checksum, so that a restore gets the bytes back; a file that is truncated or grows during the backup is recorded with the size that was read.", "quantifier": "every file content on disk, prior repository content and option combination", "why_tests_cant": "contents and options are unbounded", "anchors": ["src/command/backup/file.c.inc: backupFile"]}
{"id": "C49", "title": "Tablespace and link remapping honours every option or fails", "statement": "With tablespace and link maps, every map entry is applied to exactly one existing tablespace/link/file/path or the restore fails; name and id entries for the same tablespace must agree; tablespaces never change through a link map; links not mapped and without link-all are restored in place.", "quantifier": "every manifest and every map", "why_tests_cant": "unbounded combinations of options", "anchors": ["src/command/restore/remap.c.inc: restoreManifestMap"]}
{"id": "C50", "title": "Finding a WAL segment reports it iff it is archived, once", "statement": "Looking up a segment in an archive directory listing returns its full name iff exactly one file with that segment's name, checksum and optional compression extension is present, fails with an error on duplicates and with a timeout error when required but absent, and keeps looking in fresh listings while it waits; a sequence of lookups in ascending order that share a cached listing gives the same results as fresh listings when the directories hold only archived segments.", "quantifier": "every directory listing, every sequence of lookups", "why_tests_cant": "unbounded listings and lookup sequences", "anchors": ["src/command/archive/find.c: walSegmentFind, walSegmentFindOne"]}
{"id": "C51", "title": "Numbers survive the trip through text and out of range text is rejected", "statement": "Every 64-bit unsigned or signed number written as text is read back unchanged; text is accepted as a number only if it is an optional plus sign, an optional 0x in base 16 and digits, and then the result is exactly the number the digits denote; a number that does not fit the type is an error, never a wrapped value; negative text is never accepted for an unsigned number.", "quantifier": "every number of the type, every text, bases up to 36", "why_tests_cant": "all 2^64 values and all strings; wrap-around and whitespace acceptance of the C library are easy to miss", "anchors": ["src/common/type/convert.c: cvtZToUInt64Base, cvtZToUIntBase, cvtZToInt64Base, cvtUInt64ToZ, cvtInt64ToZ, cvtZToIntValid"]}
{"id": "C52", "title": "The backup list is reconstructed to exactly the usable backups", "statement": "After loading the backup information for expire, the list is reconciled with the repository: it contains exactly the backups whose directory has a manifest, whose database is in the history (or that were already listed), and for which the same holds for every backup they are based on. The list stays ordered and closed under dependencies.", "quantifier": "every backup list, every repository content made of manifests of backups that were taken", "why_tests_cant": "which manifests are missing or extra and how chains depend on them is unbounded", "anchors": ["src/info/infoBackup.c: infoBackupLoadFileReconstruct, infoBackupSetExists, infoBackupDataAdd"]}
{"id": "C53", "title": "Backup history retention", "statement": "Expiring the backup history removes exactly the manifests before the retained period that belong to backups that are no longer listed; manifests of unexpired backups are always kept; if the manifest of a full backup is removed then so are those of the backups based on it.", "quantifier": "every backup list, every history content, every retention period and repository", "why_tests_cant": "the interaction between calendar years, listed backups and several repositories is unbounded", "anchors": ["src/command/expire/expire.c: removeExpiredHistory", "doc/xml/reference.xml: repo-retention-history"]}
{"id": "C54", "title": "PostgreSQL is told that a segment is archived only when it is", "statement": "In every run of asynchronous archive push, with the foreground process, the asynchronous process and its jobs interleaved in any way and anything failing or being killed at any point, a WAL segment for which archive-push returns success is in every repository with the checksum of its content, unless it was dropped because of archive-push-queue-max or an administrator made its ok file; and no ready segment is forgotten by the asynchronous process.", "quantifier": "every run, every failure, every initial state without ok files", "why_tests_cant": "unbounded interleavings of processes and crashes", "anchors": ["src/command/archive/push/push.c: cmdArchivePush, cmdArchivePushAsync", "src/command/archive/push/file.c: archivePushFile", "src/command/archive/common.c: archiveAsyncStatus"]}
{"id": "C55", "title": "Asynchronous archive-get reports a segment as missing only on fresh evidence", "statement": "For every behaviour of the other processes during every pass of the waiting loop: with archive-missing-retry a segment is reported as missing only if an ok file for it was made after the first pass; what is delivered from the queue is what other processes put there; a segment in the queue is delivered at once; after the first pass the process never waits for an asynchronous process that is not its own.", "quantifier": "every spool content, every change by other processes, every number of passes", "why_tests_cant": "unbounded interleavings with processes of earlier recoveries", "anchors": ["src/command/archive/get/get.c: cmdArchiveGet, queueNeed", "src/command/archive/common.c: archiveAsyncStatus"]}
{"id": "C56", "title": "Stop and start control which stanzas may run", "statement": "After stop for a stanza (or for all stanzas) every command that honours stop files refuses to run on the stanza (on any stanza); stop for one stanza not called all does not affect other stanzas; start undoes stop.", "quantifier": "every set of existing stop files, every stanza name, with and without --force", "why_tests_cant": "combinations of stop files and stanza names; tests use one stanza", "anchors": ["src/command/control/stop.c: cmdStop", "src/command/control/start.c: cmdStart", "src/command/control/common.c: lockStopTest, lockStopFileName"]}
{"id": "C57", "title": "Forced stop signals the processes of the stanza and no others", "statement": "stop --force sends one termination signal to every process that holds a lock of the stanza, and to no process that works only on other stanzas.", "quantifier": "every set of lock files, holders and stanza names", "why_tests_cant": "collisions between stanza names and lock file names; tests use one stanza without siblings", "anchors": ["src/command/control/stop.c: cmdStop", "src/command/lock.c: cmdLockFileName"]}
{"id": "C58", "title": "Files of a completed backup survive a crash", "statement": "When a repository on a posix file system lists a backup after a crash of the host, every file the backup wrote is in the repository with its full content.", "quantifier": "every set of files, paths, contents and crash points after the files were written", "why_tests_cant": "unit tests never crash a file system, and a lost directory entry cannot be provoked", "anchors": ["src/command/backup/process.c.inc: backupProcess", "src/command/backup/file.c.inc: backupFile", "src/command/backup/complete.c.inc: backupComplete"]}
{"id": "C59", "title": "An interrupted stanza command can be completed", "statement": "When stanza-upgrade is interrupted after any of the files it writes, running it again for the same database completes it: archive.info and backup.info then have the same history with the database as the current entry, and nothing is left to do. At any time archive.info has the history of backup.info or one entry more. stanza-create is completed by running it again when it was interrupted after backup.info was written, and is refused for a database that is not the current one. Not covered: an interruption between archive.info and backup.info in stanza-create (neither command accepts the stanza then), and an upgrade to a third version after an interrupted one (refused); both are proved.", "quantifier": "every sequence of stanza-create and stanza-upgrade, each interrupted after any number of files", "why_tests_cant": "interruption points and histories are unbounded; the files are not written atomically together", "anchors": ["src/command/stanza/create.c: cmdStanzaCreate", "src/command/stanza/upgrade.c: cmdStanzaUpgrade", "src/command/check/common.c: checkStanzaInfo, checkStanzaInfoPg", "src/info/infoPg.c: infoPgSet"]}
{"id": "C60", "title": "Parts of several files are read in the requested order and nothing else", "statement": "Reading a StorageReadMulti to its end gives the concatenation of the requested parts of the files in the order they were added, for every buffer size, prefetch depth, gap that is read over and time at which the ends of files are noticed; requests for one file that overlap or go back and requests without limit next to others are errors; a missing file is never read as empty; no more reads are open than allowed and the end is reached.", "quantifier": "every list of requests, file contents, readOver, prefetch and sequence of buffer sizes", "why_tests_cant": "requests, gaps and buffer sizes combine without bound", "anchors": ["src/storage/readMulti.c: storageReadMultiDefaultAdd, storageReadMultiDefaultQueue, storageReadMultiDefault"]}
{"id": "C61", "title": "A backup contains the cluster and nothing else", "statement": "When the manifest of a backup is built from a data directory, it has exactly: the data directory; every directory, file and link that is reached from it (links and tablespaces followed), except names that start with pgsql_tmp, what the exclude option names outside tablespaces, the contents of pg_dynshmem, pg_notify, pg_replslot, pg_serial, pg_snapshots, pg_stat_tmp and pg_subtrans, for an online backup the WAL and the contents of archive_status, other versions in a tablespace, recovery, backup label, backup manifest and postmaster files of the data directory, special files, and pg_internal.init and temporary relations in database directories. Page checksums are verified for exactly the files in database directories other than pg_filenode.map, PG_VERSION and global/pg_control. The build fails exactly when pg_tblspc has something that is not a link, a link leads to a link or to nothing, or a tablespace has no number, no name or no directory of this version, or when a link is rejected. No two files have the same name.", "quantifier": "All trees of a data directory with names that are not empty and without a slash, all options", "why_tests_cant": "Trees are of any depth; a rule for one directory can hit a name of another one, and tests have a few trees.", "anchors": ["src/info/manifest/build.c.inc:97-508", "src/info/manifest/manifest.c:77-227"]}
{"id": "C62", "title": "The name of an option means one option and one key", "statement": "A name given on the command line, in the environment or in a configuration file is accepted as an option exactly if it has at most 64 bytes and is an optional no- or reset-, the name of an option and, in front of its first dash, a key where the option has one. The name of the option is the exact name of an option, or on the command line a prefix of exactly one option, or else in the same way a deprecated name; the key is the number modulo 2^32 and must be between 1 and 256, and it is 1 where a deprecated name has none. The result is this option, this key and whether the option is negated or reset, which the option must allow. A name that can be read but picks nothing is unknown, every other name is refused with OptionInvalidError. In the tables of the program the abbreviations that several options start with and that are accepted nevertheless are exactly the twelve that pick one deprecated name.", "quantifier": "all tables without duplicate names (the tables of the program are shown to be such), all names, with and without prefix matching and missing index tolerance", "why_tests_cant": "there are unboundedly many names and the tests try a few names of each error branch; none tries keys beyond 2^32 or all abbreviations", "anchors": ["src/config/parse.c:571 cfgParseOption", "src/config/parse.auto.c.inc:870 parseRuleOption", "src/config/parse.auto.c.inc:11744 parseRuleOptionDeprecate"]}
{"id": "C63", "title": "Verify checks every WAL file that has no duplicate and reports the runs of consecutive segments", "statement": "For every schedule of the processes the verify command ends without failing in its own logic, hands out one job for each WAL file whose segment is listed once, with the checksum of its name and the size of the segments, and reports for each archive id the number of files listed, the number that are valid, the maximal runs of consecutive segments in order, and with each run exactly the files in it that are not valid.", "quantifier": "all repositories with well-formed WAL names, all segment sizes of PostgreSQL, all numbers of processes and orders of results, with and without the range of a backup set", "why_tests_cant": "the tests verify a few repositories with one or two processes; a segment at the end of a directory, a timeline switch and a duplicate can be combined in unboundedly many ways", "anchors": ["src/command/verify/verify.c:532 verifyCreateArchiveIdRange", "src/command/verify/verify.c:699 verifyArchive", "src/command/verify/verify.c:1270 verifyAddInvalidWalFile", "src/command/verify/verify.c:1176 verifyJobCallback"]}
{"id": "C64", "title": "Verify reports no error only if everything it can check is intact", "statement": "An error is counted exactly for a duplicate segment, archive ids that are not in the history, a backup whose manifest cannot be used, a manifest without files and a file that is not valid, except for a WAL file that is missing. If no error is counted then every WAL file listed has no duplicate and is valid or has disappeared, and every file with content of every usable manifest is valid where it is stored, also if it belongs to another backup. A file is valid exactly if the bytes stored for it have the checksum and the size of the manifest.", "quantifier": "all repositories, all schedules, all outcomes of file checks", "why_tests_cant": "the exit status depends on all combinations of what can be wrong and on the order in which the results arrive", "anchors": ["src/command/verify/verify.c:367 verifyManifestFile", "src/command/verify/verify.c:901 verifyBackup", "src/command/verify/verify.c:1614 verifyProcess", "src/command/verify/file.c:18 verifyFile"]}
{"id": "C65", "title": "The result of a backup lists what is not valid in it", "statement": "When verify ends there is one result for each backup, in order. If the manifest is usable and has files, the totals of the result are the number of files, the valid and the listed files add up to it, the status is valid exactly if no file is listed, every file that is not valid and is not taken from another verified backup is listed, and everything listed is a file of a verified backup that is not valid. Otherwise the status says why.", "quantifier": "all repositories, all schedules, all outcomes of file checks", "why_tests_cant": "a file of a dependent backup is decided by the state of the results at the time its manifest is processed, which depends on the schedule", "anchors": ["src/command/verify/verify.c:901 verifyBackup", "src/command/verify/verify.c:1030 prior backup lookup", "src/command/verify/verify.c:1795 result of a backup file"]}
{"id": "C66", "title": "A filter group passes exactly the output of each filter to the next", "statement": "Whatever filters a group has, however they split, delay or expand the data, and whatever the sizes of the buffers: when the group is done, the end of the input was given, and each filter was given exactly the bytes the filter before it gave out, whole, once and in order, and the buffers of the caller got exactly the output of the last filter. Every call ends, fails only with an error that a filter may throw (no check in the code fails), does not overrun the output buffer and asks for the same input only if that buffer is full. The group neither asks for the same input forever nor stays unfinished forever after the end of the input.", "quantifier": "all lists of filters that keep the contract of a filter, all inputs, all splits of the input, all sizes of buffers", "why_tests_cant": "tests run a few chains of filters with a few buffer sizes; the positions at which the buffers fill up and filters ask for the same input again are unbounded", "anchors": ["src/common/io/filter/group.c:229 ioFilterGroupProcess", "src/common/io/filter/group.c:166 ioFilterGroupOpen", "src/common/io/filter/filter.c:61 ioFilterProcessIn", "src/common/io/filter/filter.c:84 ioFilterProcessInOut", "src/common/io/filter/buffer.c:46 ioBufferProcess", "src/common/io/filter/sink.c:32 ioSinkProcess", "src/common/io/filter/size.c:43 ioSizeProcess"]}
{"id": "C67", "title": "What is written reaches the driver, through the filters and at the right place", "statement": "Writing any buffers through any filters and closing ends, fails only with an error that a filter may throw, and gives the driver exactly the output of the last filter in writes that are not empty, not larger than a buffer and, except for the last, of a full buffer. Without filters, any sequence of writes, seeks and flushes puts the bytes where they belong provided no seek goes to where data was written since the seek before; so blocks that do not overlap end up at their offsets in any order and nothing else of the file changes.", "quantifier": "all lists of filters that keep the contract, all lists of buffers, all sizes of the buffer, all lists of operations, all files", "why_tests_cant": "whether a write goes to the right place depends on the positions of all writes before relative to the size of the buffer", "anchors": ["src/common/io/write.c:90 ioWrite", "src/common/io/write.c:215 ioWriteFlush", "src/common/io/write.c:236 ioWriteSeek", "src/common/io/write.c:264 ioWriteClose", "src/command/restore/file.c.inc:302 blocks of a file"]}
{"id": "C68", "title": "Reading through filters delivers every byte once and in order", "statement": "However a reader is read - ioRead with any room, ioReadSmall, ioReadLineParam, ioReadVarIntU64, ioReadFlush, in any order - and however the driver splits its content, there is one string, the output of the filters on the whole content of the driver, such that each call returns the next bytes, line or number of that string and the final ioReadBuf returns the rest. ioCopy writes that string, or its first bytes up to the limit. All calls end and fail only with an error of a filter or of the driver, or as specified (line too long, unexpected end, unterminated number).", "quantifier": "for all filters and drivers that keep their contracts, all contents, all buffer sizes, all sequences of calls", "why_tests_cant": "The interplay of driver reads, filters that hold data, the internal buffer and the end of file has unboundedly many interleavings; tests see a few of them with fixed sizes.", "anchors": ["src/common/io/read.c", "src/common/io/io.c", "src/common/io/bufferRead.c"]}
{"id": "C69", "title": "What is written to a pack is what is read from it", "statement": "A sequence of pckWrite* calls that is right (ascending numbers, containers ended as they were begun) succeeds and gives the same bytes in memory and through a stream. Reading these bytes with pckRead* calls - by number or in turn, with fields left out, nested arrays and objects, defaults, string lists - gives the values that were written, the default for those that were not, and an error for a number that was passed, for another type and for a container ended as another kind. Reading to the end takes exactly the bytes of the pack whatever follows. A pack that was cut off is never read to its end. Numbers that do not ascend and wrong ends are errors when written.", "quantifier": "for all sequences of writing calls, all sequences of reading calls that pass over no container, all values, all buffer sizes of the two streams, all bytes after the pack, all points where it is cut", "why_tests_cant": "The tag packs type, number and value in bits that depend on the size of each, values cross buffer borders, and reading may skip any fields; tests write and read a few fixed sequences.", "anchors": ["src/common/type/pack.c: pckWrite*, pckRead*, pckReadTag, pckReadTagNext, pckWriteTag, pckWriteBuffer, pckReadBuffer", "src/common/type/pack.h"]}
{"id": "C70", "title": "Every protocol answer goes to the session that asked", "statement": "Over one connection, every history of client calls (sessions opened, requests with and without a session, async requests, responses asked for in any order, closing, cancelling, freeing, noop) gives exactly what it would give if every request were answered at once and the answer were kept with the session that asked: no answer is lost, delivered twice or delivered to another session, an error that the server reports is thrown by the session whose request caused it, no call waits for ever and no freed session is used. The server ends in the same state. A fatal error of the server is thrown by the session whose request caused it. Freeing the client sends the exit request last.", "quantifier": "for all servers that answer in order, all histories of calls that the interface allows, any number of sessions", "why_tests_cant": "Which answer is read by which call depends on the interleaving of all sessions on the connection; tests fix a few orders with two sessions.", "anchors": ["src/protocol/client.c: protocolClientRequestInternal, protocolClientResponseInternal, protocolClientSessionFindIdx, protocolClientSessionFreeResource, protocolClientSessionNew, protocolClientSessionOpen, protocolClientSessionRequest, protocolClientSessionRequestAsync, protocolClientSessionResponse, protocolClientSessionClose, protocolClientSessionCancel, protocolClientFreeResource", "src/storage/remote/read.c:111 prefetch", "src/protocol/server.c:484 fatal errors"]}
{"id": "C71", "title": "The protocol server keeps the sessions apart and gives them up", "statement": "The server answers every request that a client may make as a server that has at most one session under each number: a request changes no session but its own, a session is gone when the answer says it was closed, and a cancel always succeeds and closes. A handler is called again only after it failed and at most as often as retries are configured; the answer is the data of the try that succeeded, or the first error followed by all others in order. Client and server together leak no session: after any history of client calls, every session on the server belongs to a client session that was neither closed, cancelled nor freed and that the client takes for open.", "quantifier": "for all handlers (that do not say close without a session), all numbers of retries, all requests a client may make, all histories of client calls for which C70 holds", "why_tests_cant": "Handlers may fail at any try after changing the session data, sessions open and close in any order, and the index found in the list is used after the handler ran; tests cover a few fixed sequences.", "anchors": ["src/protocol/server.c:195 protocolServerProcess", "src/protocol/server.c:92 protocolServerResponse", "src/common/error/retry.c", "src/protocol/client.c: protocolClientSessionFreeResource"]}
{"id": "C72", "title": "Listing a path returns what is there, once and in order", "statement": "Iterating over a storage path returns exactly the entries that are there and match the expression: those of the path itself and, with recursion, those of every path below it, also of paths that do not match or are empty or went away. In ascending order a path comes before what is in it and entries are ordered by the parts of their names; in descending order the list is exactly the reverse, so that what is in a path comes before the path. No entry comes twice. Iteration ends. Asking whether there is more changes nothing. A missing root gives an error, no iterator, or an empty list, as asked for.", "quantifier": "for all trees of finite depth, all drivers that list each name of a path once and without a slash, all expressions, all sort orders, with and without recursion", "why_tests_cant": "The position is kept in a stack of lists with a flag for a path that was postponed; which branch is taken depends on the order, on the expression and on whether the last entry of a list is a path with content. Tests list a few small trees.", "anchors": ["src/storage/iterator.c: storageItrPathAdd, storageItrNew, storageItrMore, storageItrNext", "src/storage/storage.c: storageNewItr, storageList"]}
{"id": "C73", "title": "The prefix that object stores take from an expression loses nothing", "statement": "An object store lists a path as the entries that its keys say: files, and paths for the keys that go on. With an expression it asks only for names that begin with the prefix of the expression and returns exactly those entries of the path. For an expression that begins with ^, has no alternative at the top and does not say that the last character of the prefix may be left out, every name that matches begins with the prefix, so that a listing that is not recursive and is filtered by the expression returns the same with and without the prefix. There is no prefix when the expression does not begin with ^ or when all alternatives begin with it. The expressions that archive-get makes from a segment are of that kind.", "quantifier": "for all sets of keys, all paths, all expressions written from a syntax tree of extended regular expressions with these conditions and no slash in the prefix, all names", "why_tests_cant": "The prefix is found by looking at characters, what matches is given by the syntax of the expression; tests compare the prefix of ten expressions with what was expected, among them one (^ABC*) where the expected prefix is wrong.", "anchors": ["src/common/regExp.c: regExpPrefix", "src/storage/s3/storage.c: storageS3ListInternal", "src/storage/azure/storage.c: storageAzureListInternal", "src/storage/gcs/storage.c: storageGcsListInternal", "src/command/archive/get/get.c:162"]}
{"id": "C74", "title": "Listing an object store in pages and by time returns the versions that were current", "statement": "Without a target time, listing a path of S3, Azure or GCS returns every file and every path that the store answers once, each file with its own size and time, however the answer is cut into pages. With a target time, every key that had a version at that time is returned once, in order, with the size and version id of the version that was current then; a key whose current version was a delete marker (S3) or that had no version yet is not returned. The time returned is that of the version that comes last in the answer.", "quantifier": "for all stores with any histories of versions, all target times, all ways to cut the answer into pages", "why_tests_cant": "The last file is carried over from file to file and from page to page, and versions before, at and after the time mix with delete markers; tests use one answer of two pages.", "anchors": ["src/storage/s3/storage.c: storageS3ListInternal", "src/storage/azure/storage.c: storageAzureListInternal", "src/storage/gcs/storage.c: storageGcsListInternal"]}
{"id": "C75", "title": "An HTTP response is read as it was sent, and a cut one is never complete", "statement": "A response that a server sends with a body delimited by a length, by chunks (with any extensions and trailers) or by the end of the connection is read as it was sent: status code, reason, fields (names in any case, repeated fields joined by a comma) and, with buffers of any sizes, the data, each buffer filled as far as there is data. When all was read, what is left on the connection is exactly what the server sends next, and the session is given back for the next request, or closed if the server closes it. If the connection ends inside a response that is delimited by a length or by chunks, then reading ends with an error and the response never says that it is complete. A response to HEAD has no body whatever its fields say.", "quantifier": "for all responses (any fields, case, white space, chunks, extensions, trailers), all bytes after the response, all sequences of buffer sizes, all places where the connection may end", "why_tests_cant": "Boundaries of chunks, of buffers and of the connection fall anywhere; tests use a few responses with buffers larger than the chunks.", "anchors": ["src/common/io/http/response.c: httpResponseNew", "src/common/io/http/response.c: httpResponseStatusRead", "src/common/io/http/response.c: httpResponseHeaderRead", "src/common/io/http/response.c: httpResponseRead", "src/common/io/http/response.c: httpResponseContent", "src/common/io/http/response.c: httpResponseDone", "src/common/io/http/header.c: httpHeaderAdd"]}
{"id": "C76", "title": "The parts of a multipart request or response are read as they were written", "statement": "Whatever the parts of a batch request are, the request is a multipart message of exactly these parts with a boundary that occurs in none of them, is at most 70 letters and digits, and is the one the header names; a reader that goes by the header finds these parts, in order, and no others. A part is refused only if it has all 68 bytes of the longest boundary. Of a multipart response every part is read in order with the code, reason, fields and data it has, whether the boundary is quoted or not, whatever is before the first or after the last delimiter, and whether or not a blank line ends the head of the embedded response. A response of another type, or without its boundary, is an error.", "quantifier": "for all lists of parts (any bytes, including ones with boundaries of other lengths), all boundaries without a carriage return, all preambles of whole lines without the boundary, all epilogues, all fields of parts", "why_tests_cant": "Whether a boundary is in some part, in an earlier part or over the end of a part depends on the bytes of all parts; tests use a few short parts.", "anchors": ["src/common/io/http/request.c: httpRequestMultiAdd", "src/common/io/http/request.c: httpRequestMultiContent", "src/common/io/http/request.c: httpRequestMultiHeaderAdd", "src/common/io/http/response.c: httpResponseMultiNew", "src/common/io/http/response.c: httpResponseMultiNext", "src/common/type/buffer.c: bufFind"]}
{"id": "C77", "title": "Removing a path on an object store removes all its files and nothing else", "statement": "If a recursive path remove on Azure, GCS or S3 ends without error then none of the files listed below the path is on the store, whatever requests of the batches the service refused. Whether or not it ends with an error, nothing is removed but files listed below the path. Batches are not empty and not larger than the limit, and together they are the listed files, each once and in order. If the service answers as it should then the removal ends without error.", "quantifier": "for all services that say what they did not remove (any state, any pattern of refusals), all listings, all batch limits, all paths", "why_tests_cant": "Which file an answer is matched with depends on the sizes of the batches, on the order of parts, on which of them were refused and on the one batch that is still being answered when the next is sent; tests have one or two batches with one refusal.", "anchors": ["src/storage/azure/storage.c: storageAzurePathRemove", "src/storage/azure/storage.c: storageAzurePathRemoveInternal", "src/storage/azure/storage.c: storageAzurePathRemoveCallback", "src/storage/gcs/storage.c: storageGcsPathRemove", "src/storage/gcs/storage.c: storageGcsPathRemoveInternal", "src/storage/s3/storage.c: storageS3PathRemove", "src/storage/s3/storage.c: storageS3PathRemoveInternal"]}
{"id": "C78", "title": "What is encoded for a URI is decoded to the same, and a query is parsed as it was rendered", "statement": "httpUriEncode gives the one normal form of any string: unreserved characters (and in paths the slash) as they are, all other bytes as a percent sign and two digits in upper case. httpUriDecode gives the string back, and decodes any encoding of it; a cut escape is an error. A query with keys is rendered so that parsing it gives the same keys and values, in order of the keys, with or without a question mark in front; a query that others wrote is parsed to its keys and values however these were encoded; a pair without exactly one equals sign is an error. Adding a key that is there is an error, putting it replaces the value, and merging gives all keys of both or is an error if they have one in common.", "quantifier": "for all byte strings, all queries, all encodings", "why_tests_cant": "Keys and values can have any bytes, including the separators of the query and of the encoding; tests use a few.", "anchors": ["src/common/io/http/common.c: httpUriEncode", "src/common/io/http/common.c: httpUriDecode", "src/common/io/http/query.c: httpQueryNewStr", "src/common/io/http/query.c: httpQueryAdd", "src/common/io/http/query.c: httpQueryPut", "src/common/io/http/query.c: httpQueryMerge", "src/common/io/http/query.c: httpQueryRender"]}
{"id": "C79", "title": "What is redacted is neither in the log nor in errors", "statement": "What is logged of a query or of headers, and what an error shows of a request, does not depend on the values that are redacted: two requests that differ only in these give the same text. All that is not redacted is shown: in the log, in the rendered query and in errors, with the headers and the content of the response. A copy of a query redacts what it was told to, or what the query redacts.", "quantifier": "for all queries, headers and lists of what to redact, all responses", "why_tests_cant": "That a secret is not shown is a statement about two runs with different secrets, for all secrets; tests look for the one they use.", "anchors": ["src/common/io/http/query.c: httpQueryRedact", "src/common/io/http/query.c: httpQueryRender", "src/common/io/http/query.c: httpQueryToLog", "src/common/io/http/query.c: httpQueryDup", "src/common/io/http/header.c: httpHeaderRedact", "src/common/io/http/header.c: httpHeaderToLog", "src/common/io/http/request.c: httpRequestError"]}
{"id": "C80", "title": "Waiting ends in time but not before, with at least two retries, and every error of a retry is reported", "statement": "With a timeout of at least 10 ms waitMore allows at least two retries, however long attempts last and whatever the clock does. It never gives up before the timeout is over, and once it gave up it never allows a retry. If the clock is not set back then sleep times are Fibonacci multiples of a tenth of a second (or of a tenth of a timeout below a second), cut so that no sleep that begins before the end of the timeout ends after it, and the number of retries has a bound that depends on the timeout only (12 for a minute). errRetry reports the type and message of the first error, and each message of a later error exactly once, with the number of errors, the first and the last time, and the type of the first error with this message.", "quantifier": "for all timeouts, all sequences of clock readings (where stated: that are not set back), all sequences of errors", "why_tests_cant": "Tests of waiting have to wait, so they use one or two timeouts and a clock that behaves; sequences of slow attempts, of clock changes and of mixed errors are not tried.", "anchors": ["src/common/wait.c: waitNew", "src/common/wait.c: waitRemains", "src/common/wait.c: waitMore", "src/common/error/retry.c: errRetryNew", "src/common/error/retry.c: errRetryAdd", "src/common/error/retry.c: errRetryMessage"]}
{"id": "C81", "title": "The response of a request is to this request, which was sent as a whole, and failures are retried", "statement": "If httpRequestNew returns then the request was written as a whole to a session that was opened for it, and the answer will be read from this session. The response that httpRequestResponse returns was read from the session to which the request was written just before, the saved one or one that was opened to send it again, and is not a server error, request timeout or too many requests. A session on which something failed is never used again. An error is thrown only if a session could not be opened, or after at least three failures (with a timeout of at least 10 ms), and then is the first of them. If the clock is not set back then there is a result after a number of attempts that depends on the timeout only.", "quantifier": "for all networks (any pattern of failures of opening, writing and reading, any response codes, any clock; for the number of attempts one that is not set back), all timeouts", "why_tests_cant": "Failures can be at any of several points of any number of attempts and in any combination, and depend on the time they take.", "anchors": ["src/common/io/http/request.c: httpRequestProcess", "src/common/io/http/request.c: httpRequestNew", "src/common/io/http/request.c: httpRequestResponse", "src/common/io/http/response.c: httpResponseCodeRetry"]}

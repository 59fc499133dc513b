# Formal model of pgBackRest (2.60.0dev) in Lean 4

## Trusted base

* Lean 4.33.0 kernel. Theorems depend only on `propext`, `Classical.choice`, `Quot.sound`
  (see "Axioms" below). No own axioms, no `sorry`, no `native_decide`, no `bv_decide`.
* The hand translation from C to Lean. Every definition cites the file and lines it models and says
  what it simplifies. Nothing was compiled or run against the C code.
* What is outside the model: memory allocation and memory contexts, logging, the operating system
  (other than the explicit file system / flock models), hashing and encryption primitives (abstract
  functions; where a property needs it, collision freedom is an explicit hypothesis), network
  protocols, regular expression engine (regexes are modelled by hand written matchers, each citing the
  regex), threads (the program is single threaded; concurrency is between processes).

## Conventions

* `Verif/<Area>/Model.lean` – transcription of the code, function by function.
* `Verif/<Area>/Lemmas.lean` – helper lemmas (where needed).
* `Verif/<Area>/Props.lean` – specification vocabulary independent of the model, and the property
  theorems, with `example`s showing that hypotheses are met by concrete non trivial cases.
* C errors are `Except Err α`; undefined behaviour is a distinct outcome (`ub`).
* If the code does not satisfy a property in general, a theorem with a concrete witness proves the
  failure, the strongest true version is proved with suffix `_partial`, and the divergence is listed
  under "Divergences found".

## Plan per property

| id | model | proof method |
|----|-------|--------------|
| C01 | varint writer/reader loops, zig-zag on 64-bit words | induction on value / loop count; bit lemmas |
| C02 | encode/decode tables and loops over bytes; table look-up with signed char index → `ub` | 3-byte group induction, whole-table facts by `decide` lifted by lemma |
| C03 | 5/6-bit packing into a 64-bit word with tag bits | induction over characters, arithmetic |
| C04 | walSegmentNext/Range with 32-bit wrap | arithmetic relative to segment start address |
| C05 | date validators, leap years, day count, epoch | comparison with an independent recursive day counter |
| C06 | expireFullBackup over list of backup records | induction over list; filter characterisation |
| C07 | expireDiffBackup | same |
| C08 | expireTimeBasedBackup | same |
| C09 | dependent list + delete | invariant "references of retained are retained" |
| C10 | archive range computation and per-segment removal decision | order reasoning on segment names |
| C11 | removeExpiredBackup | case analysis over listing |
| C12 | backupLabelCreate with clock oracle | lexicographic order lemmas; witness for label reuse |
| C13 | manifestBuildIncr over file lists; mtime history model | case analysis + history argument |
| C14 | blockMapWrite/NewRead on byte lists using C01's codec | induction with coupled writer/reader state |
| C15 | blockIncr map construction, blockDelta, restore | invariant: map describes file content in repo store |
| C16 | blockChecksum filter state machine | chunk-invariance by induction on chunks |
| C17 | archivePushFile over repository states | case analysis, induction on repo list |
| C18 | archiveAsyncStatus over directory list | case analysis |
| C19 | ready list / process list / strLstMergeAnti for arbitrary (unsorted) lists | loop invariant |
| C20 | queueNeed over directory content | list induction |
| C21 | archiveGetFind over repo × archive id × files | list induction |
| C22 | selective expression as a predicate on manifest names | list induction, matcher equivalence |
| C23 | restoreBackupSet selection loops | list induction |
| C24 | history parsing result → verification | list induction |
| C25 | concrete array representation (alloc, offset, size, sorted flag) refining List | simulation |
| C26 | strLstMergeAnti | merge induction with sortedness |
| C27 | process/inode/flock transition system | invariant induction; race witness trace |
| C28 | cmdLockAcquire loop | list induction; witness |
| C29 | executor transition system | invariant over all schedules |
| C30 | backupJobCallback over queues | multiset invariant over request sequences |
| C31 | restoreJobCallback over queues | multiset invariant |
| C32 | range compaction | induction |
| C33 | pageChecksum filter | chunk invariance; FNV round model |
| C34 | resume tree walk decisions | case analysis + tree induction |
| C35 | sequence of repository writes, crash prefixes | invariant over prefixes |
| C36 | pack/unpack on byte lists using C01's codec | field-by-field codec composition |
| C37 | save/load of key lists with defaults | field-wise; witness for negative time |
| C38 | link check | invariant over checked links |
| C39 | unlogged removal loop with its one-entry cache | loop invariant; witness |
| C40 | info save string / ini strict split / checksum string | injectivity, JSON quote-parity lemma |
| C41 | infoLoad and save order | case analysis over outcomes, crash prefixes |
| C42 | infoPg history operations | invariant over op sequences |
| C43 | JSON writer/reader over characters | induction on trees/strings |
| C44 | restore as system calls of several processes with crashes (`CrashModel`) | invariants per process, evaluation of one file, frame lemmas |
| C45 | clean recursion over file trees | tree induction |
| C46 | posix write system-call trace over a crash file system | invariant over prefixes |
| C47 | restoreFile decision on byte contents | case analysis |
| C48 | backupFile: check, resume, prior maps, copy, bundle offsets (Verif.Backup.File) | the reports against what the files had when they were checked and copied, composed with the restore of files (C47) and block incremental (C15) |
| C49 | Restore.Remap: restoreManifestMap with the updates, additions and removals of targets and links in the manifest | list induction; the options become sets of entries, the result is compared with inductive sets WantT and WantL; linkCheck (C38) for two uses of one entry |
| C50 | walSegmentFind with prefix cache | list induction, cache invariant |
| C51 | cvt* and number regular expressions on bytes | digit induction; bounds |
| C52 | infoBackupLoadFileReconstruct over directories with optional manifests | loop invariant against an inductive "usable" predicate |
| C54 | system of asynchronous push: PostgreSQL, foreground, asynchronous process, crashes | invariant over runs |
| C55 | loop of asynchronous archive get in the foreground | induction over passes |
| C53 | removeExpiredHistory over (year, label) entries of two repositories | case analysis; witnesses |
| C56 | cmdStop, cmdStart, lockStopTest over a directory of stop files | membership lemmas |
| C57 | the loop of stop --force | induction over lock files; cuts at dashes |
| C30 | Backup/JobModel | setAt/flatten permutation lemmas; the scan of queues by a cyclic offset; induction over the calls; composition with C29 |
| C31 | Restore/JobModel | lemmas of C30 for the scan of queues; induction over the calls; composition with C29 |
| C32, C33 | Backup/PageModel | append lemmas for pages and blocks; induction over buffers and over the error list; xor/shift lemmas of core |
| C34 | Backup/ResumeModel: directory tree, manifests as functions, backupResumeClean, backupResumeFind | induction over the tree with the manifest after the files resumed so far |
| C46 | Fs/Model: entries with what a crash may leave, files with a sync flag, system calls, writes as sequences of system calls | invariant of all states against the state at the start, transfer of crashes |
| C41 | Info/LoadModel: infoLoad, callbacks, saving as two atomic writes on Fs/Model | case analysis; theorems of C46 for each write |
| C35 | Verif/Backup/CompleteModel.lean on Verif/Fs | frame lemmas for programs (Verif/Fs/Frame.lean), then one case per part of backupComplete |
| C58 | Verif/Backup/DurableModel.lean on Verif/Fs | invariant for files written without a temporary file (Verif/Fs/Direct.lean); witness for bundles |
| C43 | Verif/Json/{Model,Text,Props}.lean: reader, writer, skip, validate, key lookup of json.c | compositional text of a value; mutual induction over trees for reader, skipper and writer |
| C40 | Info/IniModel (infoSave, infoNewLoad, iniValueNext strict, ioReadLineParam), Json/Scan, Json/Extend | automaton that separates strings from the rest, for every text; accepted texts are not extended by a comma or a brace; induction over values |
| C42 | Info/PgModel: InfoPg, infoPgSet, save and load callbacks, version strings | invariant over runs of operations; round trip through the text of C40 and the typed JSON reads of Json/Typed |
| C59 | Stanza/Model: loops of cmdStanzaCreate and cmdStanzaUpgrade as lists of files written | invariant over interrupted commands |
| C36 | Manifest/PackModel: manifestFilePack, manifestFileUnpack, add/update/remove | writer and reader of each part as a codec, invariant over operations |
| C37 | Manifest/Save{Model,Text,Props,Lines,Fold,Thms} | fields as optional keys of an ordered object; round trip of Info (C40) and of the packed store (C36); fold over sections |
| C38 | Manifest/LinkModel: manifestLinkCheck, manifestTargetPath, strPathAbsolute | Invariant of the sorted list: only neighbours need to be compared because everything between a path and one it is a prefix of begins with it |
| C45 | Restore/CleanModel: whole tree, restoreCleanBuildRecurse, steps 1 and 2 of restoreCleanBuild | induction over trees for each operation, then over the list of targets |
| C60 | Storage/MultiModel: storageReadMultiDefaultAdd, Queue, Open and Read | invariants for adding and for reading, with a measure for the end |
| C47 | Restore.FileModel: restoreFile with the two loops over a data directory (names to bytes and times); filters, checksum and blocks are parameters | Locality of the first loop, frame of the second; completeness through c60_accepts; block incremental through C15 |
| C61 | Manifest/BuildModel.lean: manifestBuildInfo for trees with links, manifestNewBuild before the removal of unlogged relations | Manifest/BuildProps.lean, BuildMain.lean: entries of the manifest characterised by lists of names, by induction on the tree |
| C62 | Verif/Config/{NameModel,Table}.lean: cfgParseOption and the names of the option tables | characterisation (iff) against inductive relations; the list of ambiguous abbreviations by kernel computation over all prefixes of the deprecated names |
| C63 | Verify/Model: verify.c and file.c; archive ids, directories, ranges, jobs, results, with an event list for the executor | RangeProps: the loop equals a fold over the files without duplicates; ArchProps, RunProps: invariant of the callback; SysProps: invariant of a run |
| C64 | Verify/Model | BackProps: invariant over manifests and files; Props: causes by membership, the case without errors from it |
| C65 | Verify/Model | BackProps and SysProps: totals and lists of each result as invariant; Examples: counterexamples by evaluation |
| C66 | Io/GroupModel, state machines for filters | GroupInv: invariant that relates what each filter was given and gave out; GroupPass: one pass over the filters; GroupLoop: passes until there is nothing to do, with a lexicographic measure; GroupProps; GroupFilters: filters of the library, examples |
| C67 | Io/WriteModel on Io/GroupModel | WriteProps: loops by the measure of the filter group; SeekProps: file as a function of positions, relation of `position`, the position of the driver and the position that is meant |
| C68 | Io/ReadModel.lean: Drv, Reader, readInternal, ioRead, ioReadSmall, ioReadLine, ioReadVarInt, ioReadFlush, ioReadBuf, ioCopy, bufferDrv | invariant over the group invariant of C66, well-founded induction on reads left, then filters, then buffered bytes; then a refinement of reading from a string |
| C69 | Pack/Model.lean: reader and writer of packs with streams and memory (tag bits, stack of containers, buffers) | Pack/Spec.lean: fields with numbers; the writer refines adding a field, the reader refines a cursor in the fields (Rel, WRel), tags by cases on the bits; cut packs: reading is local (Loc), so a success would leave bytes over |
| C70 | Protocol/Model.lean: client sessions (list, queued and stored responses, open flag, callbacks, memory) over a connection with any server; request loop of the server | Protocol/Spec.lean: requests answered at once, answers kept per session; RelX ties the answers in flight to the pending answers in order (ClientLemmas), one simulation per call (ClientSim) |
| C71 | Protocol/Model.lean: `serve` (list of sessions, handler, retry loop, built-in commands) | Protocol/ServerSpec.lean: sessions as a function of the number; SRelS ties the list to it, per try and per retry loop (ServerLemmas); Owned: invariant over client histories of C70 (ServerProps) |
| C72 | Storage/ItrModel.lean: `step`, `visit`, `pathAdd`, `itrNew` (stack of lists, one pass at a time); relations `Search`, `More`, `Lists` for the loops | Storage/ItrSpec.lean: entries that are there, order of the parts of a name; frame_runs: a list on any stack is worked off and leaves the stack below; the order follows by the depth of the tree, the reverse by uniqueness of an ordered list |
| C73 | Storage/PrefixModel.lean: `regExpPrefix`, `queryPrefix`, `answer` of the store, `objList` | Storage/PrefixSpec.lean: syntax tree of expressions, how it is written, what it matches; run_render: what the prefix takes of the text; run_match: by induction on the match; the listing key by key |
| C74 | Storage/ObjModel.lean: `s3File`, `azureFile`, `gcsFile`, `page`, `listPages` | Storage/ObjSpec.lean: the version of a history that was current; pages_one: pages are as good as one; one key at a time (s3_search, azure_search), then all keys |
| C75 | Http/RespModel.lean: `statusParse`, `headerParse`, `headerRead`, `respNew`, `chunkHead`, `chunkData`, `chunkTail`, `readLoop`, `respRead`, `content` | Http/RespSpec.lean: what a message is on the wire; places in the body (BodyAt), each turn of the loop goes from place to place, with all of the message there or cut; induction on the bytes left |
| C76 | Http/MultiModel.lean: `find`, `boundaryFor`, `reqAdd`, `reqContent`, `boundaryOf`, `multiNew`, `multiPart`, `partRead`, `multiAll` | Http/MultiSpec.lean: `Occurs`, `multi`, `Part`; a delimiter has a carriage return only at its start, so no match is over the end of a part; boundaries are prefixes of one string, so a longer one is in no part in which a shorter one is not; induction on parts |
| C77 | Storage/BatchModel.lean: `azureParts`, `gcsParts`, `s3Errors`, `answer`, `send`, `removeInternal`, `wireName`, `callback`, `pathRemove` | Storage/BatchSpec.lean: `Honest`, `Working`, `logged`; invariant: each file seen is gone, or in the list, or in the batch that is being answered; a log of batches for their sizes |
| C78 | Http/UriModel.lean: `verbatim`, `hexChr`; Http/QueryModel.lean: `encode`, `decode`, `add`, `put`, `merge`, `split`, `parse`, `sort`, `render` | Http/QuerySpec.lean: `Unreserved`, `Enc`, `Canon`; all bytes by evaluation; encoded strings have no separators, so splitting undoes joining; induction on keys |
| C79 | Http/QueryModel.lean: `redacted`, `render`, `toLog`, `errorQuery`, `errorText`, `dup` | Http/QueryProps.lean: `Alike`; induction on keys; infixes of the text |
| C80 | Wait/Model.lean: `waitNew`, `waitRemains`, `waitMore`, `errRetryAdd`, `errRetryMessage` | Wait/Props.lean: `Steady`, `errors`; invariants after n calls: retries left are 2 - n, sleep times are Fibonacci numbers or the timeout is over with the next call; induction from the end on errors |
| C81 | Http/ProcessModel.lean: `codeRetry`, `exchange`, `attempt`, `loop`, `process`, `requestNew`, `requestResponse` | Http/ProcessProps.lean: `Ev`, `traced`, `Again`, `Fresh`; log of an attempt, then induction on attempts with the invariant of C80 |

## Divergences found

Each is proved with a concrete witness in Lean (theorem name given) unless marked "by reading".

* C02 – `decodeToBinBase64`: the decode table is indexed with a signed `char`, so a byte >= 0x80 reads before the table.
* C04 – `pgLsnFromStr` wraps silently; the WAL expression `[0-F]` also matches `:;<=>?@`.
* C05 – a time zone of "-00:30" loses its sign (`c05_zone_sign_lost`), minutes above 59 are accepted in a time zone
  (`c05_zone_minutes_unbounded`), `epochFromParts` computes in 32 bits (exact domain in `c05_epoch`).
* C10 – the WAL of a retained backup is only protected when backups of a database start in label order
  (`c10_order_needed`): a newer backup that starts at an earlier WAL name loses its WAL.
* C12 – only the newest history year is examined, so the label of an expired dependent backup of an older full backup can
  be reused (`c12_history_reused`); labels are compared rather than timestamps, so two backups can have the same
  timestamp (`c12_same_time`).
* C13 – the wait for the end of the second is only done in online backups; without it a change in the second of the read
  is missed (`c13_same_second`).
* C17 – the check for an archived segment and the copy are not atomic, so two pushes at the same time can both succeed
  with different contents (`c17_concurrent`); a history file is replaced without a check (`c17_history_replaced`).
* C18 – an empty warning is written as a file that cannot be read back (`c18_empty_warning`); an unreadable status file is
  thrown even while errors are not to be thrown (`c18_unreadable`).
* C19 – the lists are sorted with their extensions and compared without, so for names of which one is the beginning of
  another (a segment and its partial or backup file) an ok file is kept although its ready file is gone, or removed
  and its file pushed again (`c19_order`). No ready file is lost in this way (`c19_omitted`).
* C20 – the warning (ok file) of a queued segment that is removed is kept, because the list of the files before the removal
  is searched (`c20_stale_ok`, exactly when; `c20_stale_kept`). It then says that the segment is missing: with
  archive-missing-retry=n PostgreSQL is told so (`c55_stale_missing`). With retry this cannot happen (`c55_missing`).
* C21 – the check for duplicates compares characters 25 to 64 of the path with archive id and directory, not of the name:
  checksums that differ only after the first 22 - length(archive id) characters are not told apart
  (`c21_checksum_part`), and one file in two archive ids of different length is a duplicate (`c21_false_duplicate`).
  A segment is reported as missing when the repository that has it cannot be listed but another answers
  (`c21_missing_unread`).
* C22 – by reading: the expression for `PG_VERSION` files is not anchored at its end and the `.` in `PG_9.6_…` is a wildcard;
  naming the same database twice in `db-include` is a "does not exist" error. The theorems assume manifests where this is no issue.
* C24 – the expression for history files is not anchored, so the temporary file of an unfinished push of a history file becomes
  the latest timeline and the restore fails for a missing file (`c24_latest_unanchored`). By reading: the position compared
  with the switch is the start of the backup (restore.c:71-76), so a switch between start and stop of the backup is accepted
  although recovery cannot become consistent on that timeline.
* C25 – `lstClear` frees `pub.list`, which is not the start of the allocation once a first item was removed (also by
  `lstRemoveLast` of the only item): undefined behaviour (`c25_clear_after_front`). The one caller does not do this today.
* C26 – an element repeated in the first list is only removed once (`c26_repeated`).
* C50 – `walSegmentFind` with a shared list: a file that is not an archived segment hides a duplicate it sorts between
  (`c50_shared_hides_duplicate`), and a segment looked up after a later one is missed (`c50_descending_missed`). The
  point of `.partial` is not escaped in the expression (`c50_partial_point`).
* C53 – `removeExpiredHistory` removes a whole history year although unexpired backups in it "are always kept"
  according to the documentation (`c53_listed_removed`); it lists the default repository but removes from the one being
  expired (`c53_other_repo_not_expired`).
* C14 – a map that is cut at its end within a checksum is read without an error and has a wrong checksum
  (`c14_truncated_accepted`). The map of a file truncated to nothing (possible when the file is not in a bundle) is one byte
  that the next backup cannot read (`c14_empty_unreadable`).
* C15 – when a changed block has the checksum of the block before, the change is not stored (`c15_collision_detected`); the
  checksum of the whole file makes the restore fail (`c15_checked`).
* C27 – `lockAcquire` does not check after `flock` that the inode it locked is still the one at the path: a process that
  opened the file before the holder removed it locks the removed inode while another process creates and locks a new file
  (`c27_race`). `stop --force` removes lock files that are held (`c27_stop_force`). A process that shares a lock by exec id
  keeps it when the process that has it ends (`c27_orphan`), and the exec id in a stale lock file can be mistaken for that of
  the new holder before it writes its own (`c27_stale`).
* C28 – `cmdLockAcquire` keeps only the result for the last lock file: with several repositories, archive-push and archive-get
  in asynchronous mode take a busy first lock for success (`c28_ignored`), and after a busy last lock the next attempt of the
  waiting loop is an assertion error because the first lock is held (`c28_left`). An error leaves earlier lock files behind
  (`c28_error_left`).
* C56 – `stop` for a stanza called "all" stops every stanza (`c56_all_clash`).
* C57 – `stop --force` selects lock files by the prefix "<stanza>-": it also ends processes of other stanzas when names have
  dashes (`c57_other_stanza`, `c57_shorter_stanza`). When the stop file exists already it sends no signal (`c57_already`).
* C33: the filter relies on buffers of complete pages, but the buffer size may be smaller than a page. Pages of 32KiB are
  supported and `buffer-size` allows 16KiB. Then every buffer is misaligned and the second buffer of a relation raises
  AssertError, so such a backup with page checksums fails (`c33_misaligned` and the example after it).
* C33: when a file ends with less than 512 bytes of a page, the complete pages in its last buffer are not verified, so the
  reported pages depend on the buffer size (example in PageProps.lean). The file is reported as not valid in either case
  (`c33_short`).
* C34: a repository file is taken for the file it is named after without the extension for block incremental, so the file for
  a removed `x.pgbi` (`x.pgbi.gz`) is kept when `x` can be resumed, and two repository files (`x.gz` and `x.pgbi`) can be kept
  for one file of the manifest (resume.c.inc 72-81). The files that are not wanted stay in the backup directory; no wrong
  content is restored from them unless the manifest says so. An example in ResumeProps.lean shows it. The statement of C34
  says which name a kept file has.
* C46: a write that has to create the directory of the file does not sync the directory above it (write.c 102-110, storage.c
  396-434), so the new directory, and the file with it, may be lost by a crash although the write was reported as done. This
  is the case for the first WAL segment of each directory of an archive (`archive/STANZA/ID/0000000100000000/`), where
  archive-push reports success and PostgreSQL may recycle the segment. c46_new_directory proves it for every such write (in a
  file system model that promises no more than POSIX); c46_durable requires that the directory was durable before.
* C58: `backupFile` writes repository files with `noSyncPath` and `backupProcess` then syncs only the paths of the manifest
  (process.c.inc 981-993). The directory `LABEL/bundle` is not one of them, so with `repo-bundle` the entries of bundle files
  are never synced. `c58_bundle_lost` is a completed and listed backup that lost its bundle after a crash.
* C43: jsonReadKeyExpect (src/common/type/json.c:636) compares only the bytes of the key that is present, so a present key
  that is a proper prefix of the requested key is taken for it (c43_prefix). jsonReadSkipStr (json.c:826-843) skips five bytes
  after \\u, so a \\u escape just before the closing quote loses the quote, and it accepts decimal digits only
  (c43_skip_unicode). A text that ends in a backslash within a skipped string, or in \\u00 within a read string, makes the
  reader run past the terminator (c43_overrun). Writers never produce such text.
* (C40) src/common/ini.c 157-176 tries the next '=' only after a JsonFormatError. A number out of range is a FormatError
  (src/common/type/json.c jsonReadNumber), so a key with '=' followed by 20 digits that are out of range gives a file that is
  saved but cannot be loaded (c40_number).
* (C40) The JSON validator accepts a comma in place of the opening quote of a string at the begin of a container, so a line
  with '=' in the key can be divided at the wrong '='; the file that was saved then fails with a ChecksumError (c40_misparse).
* (C40) The input of the checksum has section names without escapes, so a section name with quotes can stand for several
  sections (c40_section).
* (C40) Saving does not limit the length of a line but loading does (src/common/io/read.c 333-335), so a line that does not
  fit in the buffer makes the file unloadable (c40_line).
* C42: the id of a new history entry is the id of the *current* entry plus one and not the greatest id plus one (infoPg.c
  245-247), and the current entry is looked up by id without stopping at the first match (196-201). For files that pgBackRest
  writes the current entry is always the newest; for an edited file two entries with the same id are possible (`c42_odd`).
* C59: stanza-create that is interrupted after archive.info and before backup.info leaves a stanza that neither stanza-create
  nor stanza-upgrade accepts (`c59_stuck`, create.c 94, 136-147).
* C59: stanza-upgrade that is interrupted after archive.info and before backup.info makes every upgrade to another version
  fail, also after PostgreSQL was upgraded again or downgraded (`c59_other`, upgrade.c 76-80). Only the upgrade to the version
  of the interrupted one is accepted.
* C59: when stanza-upgrade is interrupted between archive.info and archive.info.copy, running it again does not write the
  copy, as archive.info is up to date (upgrade.c 63-67, 83). The copy keeps the history from before the upgrade (`c59_stale`).
  stanza-create does not repair it either, as it only looks for missing files.
* C36: `manifestPackBaseTime` uses -1 both as mark for 'not set' and as a time (store.c.inc 69-70, 172). If the first file
  that is packed has the modification time -1 (one second before 1970), its time changes when the second file is packed
  (`c36_minus_one`).
* C37 (F15): manifestSaveCallback writes the modification time as uint64 (serialize.c.inc 906) but manifestLoadCallback reads
  it as int64 (269). A backup of a file with a time before 1970 completes, but its manifest can never be loaded
  (`c37_negative`).
* C37: an owner named @ is the placeholder of manifestNewLoad (manifest.c 694-698), so a file of such an owner is loaded with
  the owner of the data directory (`c37_at`). The comment in the code says so and expects no such owner.
* C38 / F11: manifestLinkCheck accepts a link to a directory that contains the data directory: link.c.inc 58-70 only tests
  whether the destination is in the data directory. Witness `c38_contains`.
* C38 / F12: link.c.inc 76-92 compares a file link only with the first link to the same directory, and does not add it to the
  list. A third link to the same file as the second is accepted. Witness `c38_same_file`.
* C38: absolute destinations are compared as they are, so dots in them hide an overlap (`c38_dots`); links to files below a
  linked directory are accepted (`c38_file_below`).
* C39 / F13: the answer kept from the last relation (manifest.c 271-282) is used for any relation with the same number,
  without regard to the directory. A logged relation that comes right after an unlogged one with the same number in another
  database is left out of the backup. Witness `c39_logged`; the other way round `c39_unlogged`.
* C39 / F14: the buffer for the number of the relation has 21 bytes (manifest.c 235, 255) and the expression does not limit
  the digits, so a file name with more than 20 digits in a database directory overruns it. Theorem `c39_buffer`.
* C45 / F11: cleaning a linked directory that contains the data directory removes the data directory, because its name is not
  in the manifest below the link (clean.c.inc 333-337), and the clean phase ends without an error (`c45_overlap`). Kept
  entries are therefore claimed only where no other target contains them.
* F28 (C48, c48_empty_map): a file that is stored block incremental without a bundle, has a prior map and is truncated to zero
  length while an incremental backup runs gets an empty map (src/command/backup/blockIncr.c 236-253; the assertion in
  blockMap.c 280 is only in debug builds). The manifest has it with size 0 and a map size that is not 0. When the file has
  grown again, the next incremental backup uses this map as prior map (src/info/manifest.c 505, 531) and fails to read it,
  since reading a map starts with a reference that is not there.
* C49: restoreManifestMap uses an entry of tablespace-map for every tablespace that has the key as name or as id. A tablespace
  with the name `200` and another one with the id 200 both get the path of the entry `200` (c49_two). The manifestLinkCheck
  that follows then fails with LinkDestinationError since both have the same path, so with it an entry is used for one
  tablespace only (c49_one). A link-map destination for a file that ends with a slash is accepted and gives a target with an
  empty file name. Links inside tablespaces have names that are not below pg_data, so they cannot be mapped; the key for them
  at remap.c.inc 231 is the name without its first eight bytes. Manifests with such links are not covered by Wf.
* C44: `global` is synced only after pg_control was renamed (restore.c 215-217, 254-259). A host crash between the two can
  show pg_control while other new files of global are lost under the least that POSIX promises (`c44_global_divergence`).
  Directories made for targets (clean.c.inc 558) are never synced in their parent. Files that delta keeps are never synced, so
  the theorem assumes that they were synced before. If an earlier restore was stopped between the removal of pg_control and
  the sync of global (clean.c.inc 505-511), the next restore does not sync, so pg_control can come back; the theorem assumes
  that this is not so. If the manifest has a link at global/pg_control, or global is mapped to a directory with an old
  pg_control, that one is kept during the restore; `Good` excludes this.
* **C61 (exclusions in tablespaces).** The exclude option is documented as relative to the data directory, but the names it is
  compared with start with pg_data, and names in a tablespace start with pg_tblspc. An exclusion like
  pg_tblspc/16400/PG_15_2/5/77, and the contents form pg_tblspc/16400/, have no effect (`c61_exclude_divergence`); only the
  link itself can be excluded.
* **C61 (pg_internal.init).** The expression for the temporary files of pg_internal.init is not anchored (build.c.inc 256), so
  any file in a database directory that starts with pg_internal.init and has a dot before a digit later is left out
  (`c61_init_divergence`).
* **C61 (tablespace_map).** A file tablespace_map in the data directory is kept in the manifest (see the example), although
  backup_label is left out; the tablespace map of an online backup is added under the same name at the end
  (src/command/backup/db.c.inc 312).
* C62: `cfgParseOption` adds up the key in an `unsigned int` without an overflow check (parse.c 626-634), so
  `repo4294967297-path` is accepted as `repo1-path` (`c62_wrap_divergence`).
* C62: an abbreviation on the command line that several options start with is accepted when exactly one deprecated name starts
  with it (parse.c 689-722), e.g. `--archive=1GB` sets `archive-push-queue-max` and `--repo-t` sets `repo1-type`
  (`c62_prefix_divergence`; `c62_prefix_only` lists all twelve).
* C64: a backup directory whose two manifests are missing is reported as "manifest missing" but `jobErrorTotal` is not incremented (verify.c 478-483), so the command ends with status "ok" (`c64_missing_manifest_no_error`).
* C65: `fileVerifyComplete` of a backup is set as soon as all its files have been *handed out* and one result arrives (verify.c 1838-1842), not when all results have arrived. A dependent backup processed then counts a file as valid that is found corrupt later; already with one process the last file of the full backup is affected (`c65_reference_last_file`).
* C65: a file of a prior backup is looked up in its list of invalid files as `reference/name` plus the extension of the compress type (verify.c 1046-1049), but files in a bundle are listed as `label/bundle/id` and block incremental files with `.pgbi`, so that a dependent backup is reported valid although files it needs are corrupt (`c65_reference_bundle`, `c65_reference_block`).
* C67: `ioWriteSeek` compares with `position` (write.c 250), which is not advanced by data that is only in the buffer nor by `ioWriteFlush`, so that a seek back to where the data since the last seek started does nothing and the next write goes to the wrong place (`c67_seek_back`). The restore is not affected since it writes each block once (`c67_blocks`).
* `ioReadLineParam` with `allowEof` returns the last line without an end but does not take it from the internal buffer, so that it is returned by the next call and read by `ioRead` again (`c68_line_again`). Callers stop at the end of file, so that this has no effect today.
* `ioReadFlush` looks only at `ioReadEof` and misses bytes that are left in the internal buffer, so that `errorOnBytes` raises no error (`c68_flush_misses`).
* `ioReadSmall` may return fewer bytes than asked for although there are more, when a filter asks for the same input at the end: `eofAll` is then set while the internal buffer holds data (`c68_small_short`). `c68_quiet` says when that cannot happen.
* C69: a container that is passed over by a search for a later number is not skipped (`pckReadTag` consumes only the bytes of its tag), so the fields in it are taken as fields of the container around it and wrong values are read without an error (`c69_skip_container`). The format keeps no size of a container, so that skipping it would need a loop. The callers read or consume containers in order.
* C69: `pckReadObjBegin` and `pckReadArrayBegin` give no error for a container that is missing (`c69_missing_container`); the callers check with `pckReadNull` first.
* C69: `pckWriteEnd` does not check that all containers were ended (`c69_unclosed`). A string list with a NULL is cut at the NULL when it is read (`c69_list_null`).
* C69 (by reading): the comment at the top of pack.c has tags in its examples (type 5 for an i64, b for a u64, 8 for a string) that are not those of `packTypeMapData`.
* C70: `protocolClientSessionFreeResource` (client.c 467-503) frees a stored response but leaves the session marked as stored and queued. When the session is also open, the cancel request that follows takes the freed response as its answer (`c70_cancel_stored`, undefined), or, when the response had no data, leaves the answer to the cancel on the connection and all later requests fail (`c70_cancel_broken`). It needs an async session that is given up while its prefetched response was read by another session on the same connection, which the remote storage makes possible: storage/remote/read.c prefetches (111-117) and cancels on close before the end (277).
* C70: when the response that is read in `protocolClientSessionFreeResource` is an error, the error is thrown before the session is removed from the list, and the memory of the session is freed: later calls and `protocolClientFreeResource` use it (`c70_free_error`).
* C70: a session that is not async is put into the list by each open; opened again after the server closed it, it is in the list twice and removed once (`c70_open_twice`). The callers open once.
* C70/C71 (by reading): on the server, an error thrown while the data of a session is freed comes after the response was sent (server.c 285-291, 366-374, 400-407), so that a second response would be sent for one request. The model assumes that freeing does not throw.
* C71: a `processSession` handler that asks to close while the request was made without a session removes the first session of the list, whichever it is (`c71_close_other`, server.c 366-374 with `sessionListIdx` 0). The handlers in the code do not do that.
* C72: the ascending order of a recursive listing is that of the parts of the names, not of the names as strings (`c72_not_by_name`: `a/b` comes before `a-`). A caller that merged it with a list sorted by full names would go wrong; none does.
* C73: `regExpPrefix` takes the last character before a quantifier into the prefix although `*`, `?` and `{0,n}` allow to leave it out: on object stores `^ab*` does not find `a` (`c73_left_out`). The unit test expects `ABC` for `^ABC*`.
* C73: an alternative at the top that has no `^` is ignored: `^ab|cd` finds only names that begin with `ab` (`c73_alternative_lost`). Both can be reached with `repo-ls --filter`; the expressions in the code are not of that kind.
* C73: with recursion the prefix is applied to the names in every path, but the expression to the names below the root, so that `repo-ls --recurse --filter=^ab` on an object store does not find `ab/cd`, which it finds on the other storages (`c73_recurse`, command/repo/ls.c 138-140).
* C73: a slash in the prefix returns entries of a path further down from a listing that is not recursive (`c73_slash`).
* C74: when listing by time, `infoLast.timeModified` is set before it is known whether the version counts (s3/storage.c 918-926, azure/storage.c 618-626, gcs/storage.c 803-810), so that the time returned for a file is that of another version: of the oldest on S3, of the newest on Azure and GCS, even when that is after the target time (`c74_wrong_time`). `repo-ls` with `--repo-target-time` shows it.
* C75: a response of an HTTP/1.1 server that has neither a length nor chunks and that does not say `connection: close` is ended by the end of the connection (RFC 9112, 6.3). `httpResponseNew` takes it to have no content and gives the session back with the body on it, which is then read as the status of the next response (`c75_unframed_body_left`).
* C75: with `connection: close` or HTTP/1.0 a `content-length: 0` is not told from no length (`contentSize == 0`, `contentSizeSet` is not looked at), so that the connection is read to its end (`c75_zero_length_close`).
* C75: the line after the data of a chunk is not looked at, so that a chunk with more data than it says is accepted and the rest of the line is lost (`c75_chunk_overrun`). Of two `content-length` fields that differ the last is taken (`c75_two_lengths`).
* C76: the end of a part ends its head (`allowEof`), but `ioReadLineParam` does not consume what it returns at the end. If the last line of the head has no line end of its own (`x: y` and then the delimiter) then `httpResponseHeaderRead` gets this line again and again and never ends (`c76_head_never_ends`).
* C76: `httpResponseMultiNext` does not look for the `--` of the last delimiter, so that a message that ends after any delimiter, or inside a part, gives the parts before and no error (`c76_cut_not_seen`).
* C77: on Azure and GCS the number of parts of an answer is not compared with the number of requests. If there are fewer (C76: a cut answer is not detected) then files are left and there is no error (`c77_missing_parts`, `c77_missing_parts_gcs`).
* C77: on S3 a key in the errors of an answer is not compared with the keys of the request; it is removed, whatever it is (`c77_s3_any_key`).
* C78: `httpUriDecode` decodes two characters with `cvtZSubNToUIntBase`, which accepts a sign: `%+5` is decoded as `%05` (`c78_decode_sign`).
* C78: `httpQueryRender` sorts keys before they are encoded. Services that compute a signature from encoded names in order (S3) would have another order for keys such as `{` and `z` (`c78_order_not_encoded`); no key that is used now has such characters.
* C79: `httpRequestError` uses `strZ` of the rendered query, which is a null pointer if the query has no keys (`c79_empty_query`); no caller makes such a query.
* C79: `httpQueryMerge` does not merge what is to be redacted: values that are redacted in the query that is merged are shown in the result (`c79_merge_shows`).
* C80: a timeout below 10 ms gives a first sleep time of zero, which also means that the wait is over: there is no retry at all (`c80_short`).
* C80: `timeMSec` is the time of day. If it is set back to before the beginning of a wait then the elapsed time wraps around and the wait is over, after at most two retries (`c80_clock_back`).
* C80: errors of different types with the same message are reported with the type of the first, and errors in the same millisecond are reported as one (`c80_merged`).
* C81: a request is retried as a whole whatever its verb, so that a service may get a request twice, the first with effect (`c81_sent_twice`). The drivers rely on requests that can be repeated.

## Axioms

`#print axioms` on every theorem named in MANIFEST.json shows a subset of `propext`, `Classical.choice`, `Quot.sound`.

# Design

A machine-checked Lean 4 model of parfu at the pinned commit: the 0.6 program (`parfu_0_6_test`), the
0.5.1 program (`parfu_0_5_1`, called "legacy" here) and the tar header writer both share.
Model, specification, lemmas and theorems are kept apart:

| kind | modules (lean/Verif) |
|---|---|
| model of the code, every definition citing file and lines | Base, Tar, Serialize, Scan, Plan, March, Move, Protocol, Wire (the protocol call by call), Faults (failing memory, reads and writes), Main, Catalog, LegacyList, LegacyFree (the memory of the lists), LegacySplit, LegacyCatalog, LegacyScan, LegacyMove, LegacyProgram, Objects, Behavior, WriteBench |
| specification, written without looking at the code's helpers | TarSpec (a pax/ustar reader), ScanSpec (what is in a tree), PlanSpec, MoveSpec, ProtocolSpec, WireSpec, FaultsSpec, MainSpec, LegacySplitSpec, LegacyScanSpec, LegacyRunSpec, LegacyProgramSpec (all ranks end, a rank never ends), ExtractSpec (what `tar x` does) |
| lemmas | \*Lemmas, Num, TarRead, TarRecover, ScanPrune, PlanBundles, MoveObjects, MoveRun, MoveArchive, ProtocolInv, ProtocolStep, ProtocolBoss, WireProgress, LegacyMoveLayout, LegacyMoveRun, LegacyArchive\*, LegacyRun\*, LegacyProgramCreate |
| property theorems, with a concrete example beside each | Props\* |
| further concrete cases: examples that apply the theorems they name | CasesPlan, CasesRun |

## Trusted base

* Lean 4.33.0's kernel (theorems are accepted by the kernel; concrete witnesses use `decide` or
  `decide +kernel`, never compiled evaluation).
* The axioms `propext`, `Quot.sound`, `Classical.choice` and no others; the list per theorem is at the
  end of this file (made by `tools/axioms.py` from `#print axioms`).
* That the model is what the code does. The reading is by hand, function by function; what was left
  out or simplified is listed below.
* The specifications (the modules above), which say what the English property means.

## What is modelled

**parfu 0.6** (Makefile target `parfu_0_6_test`)

| source | modelled | not modelled |
|---|---|---|
| tarentry.cc/.hh | everything: constructor, `serialize`, `deserialize`, `make_tar_header`, `make_ustar_header_block`, `record_length`, `get_paxsize`, `hdr_size`, `size`, `compute_hdr_size`, `round_to_block` | the object's copy/destroy functions (trivial) |
| parfu_file_system_classes.cc/.hh | `spider_directory`, `Parfu_target_collection` constructor, `order_files`, `set_offsets`, `parfu_next_block_boundary`, `create_transfer_orders`, `print_marching_order(_raw)`, `type_char`, catalog lines, `next_available_after_me`, `header_size` | `dump*` (print only), the empty constructor `Parfu_target_file(string)`, `Parfu_container_file*` members that no function uses |
| parfu_2021_legacy.cc | `parfu_what_is_path`, including its unterminated link buffer | |
| parfu_rank_move_data.cc/.hh | order parser, `move_data_Create`, `parfu_make_tar_header_at`, `total_size` as used there | |
| parfu_boss_functions.cc | both send functions, `parfu_push_out_all_orders` | progress output |
| parfu_worker_node.cc | the whole receive loop and its mode machine | progress output |
| parfu_parse_args.cc, parfu_main_0_6_test.cc | arguments, every exit path, the complete rank 0 program | the text of messages |
| parfu_main_0_6.cc | — | a stub that prints and exits |

**parfu 0.5.1** (Makefile target `parfu_0_5_1`)

| source | modelled | not modelled |
|---|---|---|
| parfu_primary.h | constants, entry and list structures | prototypes |
| parfu_file_list_utils.cc | list creation, the four `add` functions, free, `what_is_path`, scan, comparator and sort, `parfu_set_offsets_and_split_ffel`, rank call list | code inside `/* */` (exponent functions 520-630, the old splitter), `dump`, `check_offsets` (prints) |
| parfu_buffer_utils.c | catalog writer and reader, both pseudo-entry tar headers, `parfu_ffel_from_file`, `parfu_ffel_fill_rel_filenames` | error texts |
| parfu_data_transfer.cc | `parfu_wtar_archive_*` (three functions) | `parfu_archive_1file_singFP`, `parfu_extract_1file_singFP` (commented out) |
| parfu_0_5_1_main_versA.c | all modes, all ranks, the collective operations of `main` and of the transfer functions | timers, messages |

**parfu_write_test.c** (Makefile target `parfu_write_test`, an MPI program of its own): everything after
the arguments are read (`WriteBench.lean`); not modelled: timing and messages, failing opens.

**Not compiled into either program**: parfu_\*test\*.c, parfu_bench_\* (test and
benchmark drivers, which call functions that no longer exist); not modelled. parfu_behavior_control.c is not linked, but is declared in the public header.

## Simplifications

* *Numbers.* C integers are `Nat`/`Int`; where a narrow type or wrap-around can be reached it is
  modelled (32-bit `stoi` in the order parser, `bucket_size - header_size` modulo 2^64, octal fields
  that truncate, `unsigned` bucket rounding). Archive offsets are assumed below 2^63.
  `round_to_block` is written as a division; C60 proves it equal to the bit-mask of the source.
* *Undefined behaviour* is an outcome of its own (`Err.ub`), distinct from `exit`, exceptions and
  error returns. Reading an uninitialised byte is modelled by an unspecified argument (memory
  contents) the theorem quantifies over, or by `ub` when it decides control flow.
* *File system.* A tree of nodes (`FNode`) with names, metadata, contents; it does not change during a
  run; each directory's entries come in an arbitrary order (the order of the list). Reads are
  complete unless a theorem speaks about short reads (PropsShort).
* *User and group names* (`getpwuid`, `getgrgid`) are an environment argument `Env`.
* *MPI.* Point-to-point messages are ordered per pair; a send may complete at once (eager) or wait for
  the receive (synchronous), quantified over; a broadcast is a collective every rank enters in program
  order; `MPI_File_write_at` is atomic on its range and collective open either succeeds everywhere or
  fails everywhere. MPI itself does not fail.
* *Sorting.* `std::sort`/`qsort` are any function giving a sorted permutation.
* *Assertions* are on (`NDEBUG` unset, as in the Makefile).
* *malloc* succeeds; sizes are those the code computes and accesses outside are `ub`.

## Where the code does not do what its users would rely on

Each is a theorem (a negation, universally quantified or a kernel-checked witness) next to the
`_partial` theorem that says what does hold.

| property | finding | theorem |
|---|---|---|
| C04 | size 8 GiB-1 is recorded as 0; ids of 2^21 and more and mtimes outside the field are cut | `C04_size_8GiB_minus_1_lost`, `C04_large_uid_lost`, `C04_odd_mtime_lost`, `C04_readable_iff` |
| C05 | a directory path of exactly 100 bytes is planned with 512 bytes of header and written with 1536; likewise 502, 1013, 1525, 2037, 2549, 3061, 3573 and 4085 bytes | `C05_dir_100_mismatch`, `C05_planned_iff` |
| C07 | `readlink` result is not terminated: the link target length is luck | `C07_link_reading_is_luck` |
| C14 | the same stale bucket position closes a bundle although the next order fits | `C14_cut_early` |
| C67 | write benchmark: with ranks not evenly divided among files, iterations overwrite each other and the end of the first file is never written | `C67_apart_iff`, `C67_end_never_written` |
| C69 | 0.5.1: a file that fits its bucket, sorted after a smaller one that does not (longer name), is copied past the end of the transfer buffer | `C69_two_files`, `C69_tree_overruns` |
| C68 | write benchmark: bad numbers only print a message, then undefined behaviour | `C68_runs_iff` |
| C13 | bucket position not reset after a large file: a bundle can overrun the staging buffer | `C13_overflow`, `C13_tree_overflows` |
| C17 | archive positions of 2^31 and more end the worker; a TAB in a name injects orders | `C17_over_2GiB_aborts`, `C17_tab_in_name_injects` |
| C18 | a line with too few fields is accepted or never ends | `C18_short_line_accepted`, `C18_short_line_hangs`, `C18_boundary_cut_silent`, `C18_cut_in_name_accepted`, `C18_accepted_iff`, `C18_cut_iff` |
| C20 | padding between members is whatever was in memory | `C20_padding_is_memory`, `C20_archives_differ` |
| C21 | no end-of-archive blocks | `C21_never_terminated` |
| C25 | with one rank the program never ends | `C25_no_worker_hangs` |
| C27 | several exits leave the workers waiting; a bucket below 100000 crashes, one of 2^31 and more kills every worker; bad numbers throw | `C27_workers_left_waiting`, `C27_small_bucket_crashes`, `C27_bad_number_throws`, `C27_big_bucket_hangs`, `C27_ends_iff` |
| C29 | negative bucket sizes wrap | `C29_negative_accepted` |
| C30, C38, C44 | lists of one entry are written outside their allocation | `C38_one_entry`, `C44_one_entry`, `C30_one_entry` |
| C31 | the catalog in a legacy archive is never readable | `C31_null` |
| C32 | dot-names skipped; one unreadable directory fails the scan | `C32_hidden_never_listed`, `C32_unreadable_fails` |
| C34, C35, C37 | a bucket can be overrun; slots of two files can overlap; fragments beyond end of file; a bucket can be skipped | `C34_overruns_bucket`, `C34_slots_overlap`, `C35_beyond_the_end`, `C37_skips_a_bucket` |
| C39 | catalog lines are ambiguous with TABs and lack the position | `C39_tabs_confuse`, `C39_position_missing` |
| C43 | freeing a grown list reads uninitialised pointers | `C43_grown_is_undefined` |
| C50–C52 | an unopened handle is closed; a lone zero block can hide all members; an existing file keeps its tail | `C50_unset_handle`, `C51_unreadable`, `C52_old_tail_stays` |
| C55 | an interrupted run into a new file can leave a terminated archive that holds nothing | `C55_looks_complete`, `C55_hole`, `C55_large_file`, `big_looks_complete` |
| C56 | a failing rank leaves the others waiting for ever (the model has no launcher that kills them) | `C56_rank0_fails`, `C56_bucket_fails`, `C56_unreadable_directory`, `C56_no_directory` |
| C57 | option parser: writes past its allocations | `C57_*` |
| C58, C59, C61 | copies, an index one past the end, opening through NULL | `C58_*`, `C59_one_past_the_end`, `C61_open_undefined` |
| C46 | parfu 0.5.1: an empty directory whose path has exactly 100 bytes: the run succeeds, the filler overwrites the data of the directory's extended header, the archive cannot be read | `C46_dir_100_unreadable` |
| C63 | status 0 although nothing after a directory with a path of exactly 100 bytes can be read ; with 502 bytes the archive reads without complaint, but the next file has taken the name of the directory | `C63_success_unreadable`, `C63_file_takes_name` |
| C64 | a file that grows over a block boundary between scan and copy hides the members after it | `C64_grown_file_hides_others` |
| C64 | a file that loses two blocks or more between scan and copy leaves 1024 zero bytes (fresh memory) in its slot: readers stop there, all later members are missing, status 0 | `C64_shrunk_file_hides_others`, `C64_never_noticed` |
| C77 | parfu 0.5.1: a file that grows by the room of the next member between listing and copying hides it; one that loses two blocks or more leaves 1024 zero bytes in its slot, where readers stop: later members are missing; all ranks report success | `C77_grown_file_hides_others`, `C77_shrunk_file_hides_others` |
| C78 | parfu 0.5.1 broadcasts a `long` as MPI_LONG_INT, the pair of a `long` and an `int`: on every rank the four bytes behind the variable are overwritten | `C78_only_the_variable_iff`, `C78_every_rank_is_rank_0` |
| C79 | parfu 0.5.1: the name of a pad is allocated once and pointed to by the entry of the list given and by every fragment in the list returned; freeing both lists, or the list returned when a split file has a pad before it, frees it twice | `C79_returned_iff`, `C79_both_iff`, `C79_split_pad_undefined` |
| C65 | an interrupted run leaves an archive that reads as complete: the objects so far, or nothing, or all with zeros in the data of a large file | `C65_reads_as_complete`, `C65_every_run_passes`, `C65_reads_as_empty`, `C65_hole_in_file`; exactly when and as what: `C65_reads_iff`, `C65_read_as` |
| C44 | a readable tree with 8191 directories and a link with a target of more than 100 bytes cannot be archived by 0.5.1: rank 0 gives up, the others hang | `C44_tree_fails`, `C44_tree_hangs` |
| C62 | modes X and T do nothing and report success; an unknown mode hangs | `C62_extract_and_list_do_nothing`, `C62_unknown_mode` |
| C71 | status 0 although memory, reads or writes failed: nothing but a message on stderr; the archive can even be empty (parfu_rank_move_data.cc:122-125, 191-200, 213-220, parfu_worker_node.cc:226-234) | `C71_unnoticed`, `C71_any_failures`, `C71_nothing_written_status_0`, `C71_lost_bundle_status_0` |
| C72 | directories are never closed (parfu_file_system_classes.cc:304): with as many directories as rank 0 may open files the archive cannot be opened | `C72_too_many_directories`, `C72_every_limit_is_reached` |
| C73 | files opened by workers are never closed (parfu_rank_move_data.cc:186-203): past the limit on open files the pieces are not read, the worker's memory is archived in their place, and the status is 0 | `C73_too_many_files`, `C73_reported_as_success` |
| C75 | parfu 0.5.1 and 0.6 disagree on a tree exactly if it has a name beginning with a dot | `C75_same_members_partial`, `C75_same_extraction_partial` |
| C81 | the order of directories, of links and of files of the same size in an archive of 0.6 is that of the directory listings (sort by size only, parfu_file_system_classes.cc:595-602): the same tree on another file system gives another archive | `C81_order_follows_listing` |
| C82 | 0.5.1 opens the archive without `MPI_MODE_EXCL`: two runs into one file both report success, and the members of the first are lost | C82_legacy_last_wins, C82_legacy_member_lost |

## Plan per property

- **C01** Header length: `Tar.makeTarHeader`, `hdrSize`. Direct, from record lengths.
- **C02** Record length: `recordLength` with its iteration counter; case analysis on the number of digits.
- **C03** Checksums: `ustarBlock` as 512 bytes; spec `TarSpec.checksumOk`; the field reads back as the sum.
- **C04** Pax reader: spec `TarSpec.readHeader`; decode∘encode, with exact ranges; negations outside.
- **C05** Planned header size: `computeHdrSize` against `makeTarHeader` of the lstat'ed object.
- **C06** Serialization: round trip on bytes, then list induction for streams.
- **C07, C08** Scan: FS trees, `spider`, `collect`; spec = the paths of a tree; tree induction and permutation.
- **C09** Order: any sorted permutation; comparator is a strict weak order.
- **C10** Offsets: `setOffsets`, list induction.
- **C11–C15** Orders: `createTransferOrders`; loop invariant; coverage stated byte by byte; C13 needs a hypothesis, else witness.
- **C16** Refusals: decision table.
- **C17, C18** Messages: `printOrder`, `parseOrders` with 32-bit `stoi`; round trip with an exact acceptance condition.
- **C19–C21, C41** Whole archive: composition of scan, plan, messages, protocol, mover and tar reader over every schedule and memory content.
- **C22–C26, C40** Protocol: labelled transition system; invariants by induction over steps; decreasing measure.
- **C27, C29** Main program: `bossMain`, `parseArgs`; specification `MainSpec`.
- **C28** Existing archive: exclusive open in the transition system.
- **C30, C31** Legacy catalog: printer and parser on bytes; round trip by induction over the lines.
- **C32, C45** Legacy scan: queue loop over trees, against `LegacyScanSpec`.
- **C33** Legacy comparator: case analysis; uniqueness of sorted permutations.
- **C34, C35, C37, C44** Legacy layout: `splitList`; spec `LegacySplitSpec`; loop invariant.
- **C36** Buckets to ranks: arithmetic of the strided loop.
- **C38, C43** Legacy list memory: slots as explicit memory cells.
- **C39, C42** 0.6 catalog lines and the next-free-byte helper.
- **C46–C49, C51** Legacy run: composition as for C19; all ranks, any order of writes. C49 also exactly, byte by byte (LegacyPadding: the transfer buffer as a function of the rank count).
- **C50** Handles: `Platform` says what closing an unset handle does; a strict platform makes every run undefined.
- **C52** Old contents: writes into an arbitrary old file.
- **C53, C54** Extraction: specification `ExtractSpec` of a tar program; extracting the members yields the tree.
- **C55, C56, C62** Legacy program on all ranks: `LegacyProgram` (each rank a list of writes and collective operations and a way to stop; steps of the ranks interleaved, a collective passed when all have come, or for a broadcast the root has); invariants by induction over the steps; a waiting rank is stuck because another has stopped short of the same collective.  A beginning of the finished file that ends before the end mark is not terminated (`LegacyPrefix`), because it can be continued by two archives with different last members; one rank writes in the order of the places in the file, so what it leaves is such a beginning (`PropsLegacyOrder`).
- **C63** Status 0: the composition of C19–C21 with the exit status of every rank; witness family for the 100-byte directory path. Exactly (`PropsComplete`, with `TarRoom`): a lower bound on the bytes any reader needs for a member (the records of the code are the shortest possible) against the end of the plan; a directory of one of the nine lengths makes the plan one block too short, so some member is missing.
- **C64** Changing trees: plan made from one tree, data moved from another (`SameShape`); the composition of C21 redone with two file systems.
- **C65** Interrupted runs: the file at any reachable state (`moment`: done bundles are there, the rest is zero or absent), read by `TarSpec.readArchive`; iff for one worker; for any number of workers an iff in terms of the first header not yet written (Verif/PropsHoleExact.lean), and what is read.
- **C66** Stalled workers: the protocol's invariant at a state where only steps of the stalled workers are left; bounded runs give existence.
- **C67, C68** Write benchmark: `benchRank`, the program of one rank; places are products, compared as slots of one buffer; exact conditions.
- **C69** Whole legacy runs: success from the layout theorems with hypotheses about the tree only; for the violation, all checks are shown to pass, so that a rank either succeeds (then the layout is good, which it is not) or has undefined behaviour. Exact (`C69_succeeds_iff`): success from and to the layout (`run_layout`, `layout_inside`, `run_core`), so that it does not depend on the number of ranks (`C69_any_ranks`).
- **C70** A second transition system in which every order is two messages (Verif/Wire.lean), and a simulation of it by that of C22-C28: an order counts as sent when its length is, as received when its bytes are. The invariant is that what is on its way to a worker is a sequence of (length, bytes) pairs. Progress is carried back step by step; the number of steps is counted by the lengths received without their bytes.
- **C71** Failing memory, reads and writes: the mover with failures as parameters (Verif/Faults.lean), the transition system with them, and a two-way correspondence, event for event, with that of C22-C28 in which only the contents of the archive differ; with C65 this gives every violation, with C19 the positive part.
- **C72** Descriptors of rank 0: the scan with the number of free descriptors as state (Verif/Descriptors.lean, in the code's two loops); shown equal to the unlimited scan of the tree cut off at that number of directories; then the theorems about the main program apply to the cut tree.
- **C73** Descriptors of the workers (Verif/OpenFiles.lean): the step relation with the number of files each worker can still open; a bundle's reads past that number bring nothing. Every such run is a run with failures (Verif/Faults.lean) in which only reads fail; `C71_unread_data_is_memory` says what the archive then is; the sum over the workers of what they tried to open is the number of pieces, so a pigeonhole argument gives the lost piece.
- **C74** Failing writes in 0.5.1 (Verif/LegacyFaults.lean): a rank's program cut at the failing write, with `main` returning 243; it then has come to at most twelve collective operations, and a rank that returns 0 has to pass the thirteenth, so `LReach.stuck` applies.
- **C75** The members of both programs' archives of one tree (Verif/PropsBoth.lean): C19_every_successful_run and C46 describe both by `memberOf`; the difference is decided on the path text (a name begins with a dot exactly if `/.` occurs behind the base).
- **C76** Archive, extract, archive (Verif/PropsAgain.lean): `memberOf` only depends on what extraction restores (`memberOf_congr`), so C53 and C19 for both runs give the same set of members, each once.
- **C80** The same for archives of 0.5.1 (Verif/PropsLegacyAgain.lean): by C54 what is extracted is the visible tree (`settled_iff`), in which nothing is hidden (`settled_visible`), so C46 or C19 for the second run give the same set of members, each once.
- **C81** The order of directory listings (Verif/ListingSpec.lean, LegacyListing.lean, PropsListing.lean): two trees with the same reachable objects. 0.5.1: both scans fail or find the same entries in some order (`scan_same`, from C32), names are distinct, so `qsort` gives one list (C33), and the writer uses the file system only through `lstat` and contents (`legacyRun_files`). 0.6: members as a set by `members_iff`, their order by following the plan (`archive_in_order`); the violation is a directory with two files listed in two orders.
- **C82** Runs that create the same archive at the same time: `Many` (ManyRuns) is any number of the systems of Protocol with one shared file; invariant `ManyInv` (at most one run has the archive and goes on as if alone; every other has not yet opened it, or could not), then the theorems about one run (C19, C25, C28) carry over. 0.5.1 violates it (C46 with the other run's writes as the old contents).
- **C83** An interrupted run can be started again: the first run is any prefix of a run (`CreateRun`, `LReach`), plus any parts of its remaining writes (`LeftBehind`); 0.6 by C28/C19, 0.5.1 because writes that do not meet (C47) put the same bytes over whatever parts of the same writes are there, and no byte elsewhere is touched by either run.
- **C84** The archive of a directory inside a tree: both archives are characterised by C19/C46 (members = objects seen); the objects seen from the inner directory are those seen from the outer one below it (`seen_append`), their names in the archive are the same (`memberOf_part`), and a name that begins with the directory's name and a slash is that of an object below it (`prefix_of_flat`).
- **C85** Unchanged objects stay in place (0.6): trees of the same shape have the same scan and so the same plan (`scan_shape`); each archive holds header and contents of every object at its planned offset (`archive_holds`), the header is a function of the object (`entry_header`), and reading the archive from that offset gives the member. Two successful runs are compared directly; nothing is assumed of schedules or memory. Bytes that differ are traced back to the order that wrote them (`byte_planned`). For 0.5.1 the scan of both trees gives the same list (`legacyScan_shape`), and the catalog is a function of it.
- **C77** Files that change under 0.5.1 (Verif/LegacyChange.lean, LegacyThree.lean, PropsLegacyChange.lean): the layout of a run depends on the listing only (`main_run` for every `L'`), so the run on the changed files is the run of the same list with other headers and data (`now_run`, `now_file`); an entry whose block count did not change is read back by `readsTo_entry_now`, one with another count is followed for a directory of two files, byte by byte (`three_file`). `C77_success_means_present` needs no such assumption: it follows from `moveFrag` having succeeded for every fragment.
- **C78** Memory of a rank as bytes with the variable at any place; one broadcast moves twelve bytes (`LegacyBcast.lean`). Byte-wise comparison of memory before and after.
- **C79** Memory as a set of allocated addresses, lists with the pointers of their entries, and what creating, adding, the layout and freeing do to it (`LegacyFree.lean`). Invariant: all allocated memory is, without overlap, a list's own, the pads' names, and the rest.
- **C57** Option parser of the benchmark: `Behavior`; the option list as data, loop induction; witnesses for the overflows.
- **C58, C61** Objects: `Objects`; element-wise copies into vectors of explicit length; opening through the stored pointer.
- **C59** Order-set queries: `Objects.orderNFilename`, `totalSize`; agreement with `moveData`.
- **C60** Rounding: 64-bit vectors; mask = shift; least multiple.

## Axioms per theorem

- **no axioms**: `C37_empty`, `C38_one_entry`, `C38_refused`, `C58_new_directory`, `C61_open_undefined`, `C61_open_state`, `C61_open_through_pointer`
- **propext**: `C01_look`, `C18_short_line_accepted`, `C40_unknown_bcast_ignored`, `C40_unknown_send_ignored`, `C40_only_X_ends`, `C40_settings_change_only_as_told`, `C58_copied_directory_has_no_type`, `C58_file_copy`
- **Quot.sound, propext**: `C01_header_length`, `C01_header_made`, `C01_member_size`, `C01_refused_iff`, `C01_entry`, `C02_record_length`, `C02_prefix_reads_back`, `C03_checksums`, `C04_size_8GiB_minus_1_lost`, `C04_large_uid_lost`, `C04_odd_mtime_lost`, `C05_planned_size_partial`, `C05_planned_dir_partial`, `C05_planned_long_dir_iff`, `C06_roundtrip`, `C06_stream`, `C06_stale_link`, `C06_truncated_is_ub`, `C07_scan_exact`, `C07_scan_complete`, `C07_link_reading_is_luck`, `C07_success_exact`, `C08_parents_first`, `C13_uniform_headers_ok`, `C16_refused_iff`, `C18_cut_in_name_accepted`, `C27_no_arguments`, `C27_workers_left_waiting`, `C27_small_bucket_crashes`, `C27_bad_number_throws`, `C31_never_read`, `C31_short_file`, `C32_unreadable_fails`, `C32_refuses`, `C34_slots_overlap`, `C34_outside_refused`, `C34_overruns_bucket`, `C37_skips_a_bucket`, `C38_add_partial`, `C38_any_number_partial`, `C38_modified_copy_partial`, `C38_copy_partial`, `C38_named_partial`, `C39_tabs_confuse`, `C39_position_missing`, `C44_one_entry`, `C57_new`, `C57_never_grows`, `C58_copies_undefined`, `C58_assigned_keeps_type`, `C58_copy_iff`, `C58_assign_dir_iff`, `C59_order_name_partial`, `C62_usage`, `C67_contents`, `C70_refines`, `C70_lengths_match`, `C70_received_iff`, `C71_failed_worker_stops`, `C72_scan_keeps_directories_open`, `C72_enough_descriptors_partial`, `C79_violated`, `C85_legacy_same_catalog`
- **Classical.choice, Quot.sound, propext**: `C01_single_block_iff`, `C01_extended_block`, `C04_header_readable_partial`, `C04_readable_iff`, `C05_dir_100_mismatch`, `C05_planned_iff`, `C07_succeeds_iff`, `C08_order_keeps_parents`, `C09_order_files`, `C09_links_first`, `C10_offsets`, `C11_every_byte_once`, `C12_bytes_in_place`, `C13_worker_outcome`, `C13_success_iff`, `C13_overflow_never_succeeds`, `C13_overflow_kills`, `C13_tree_overflows`, `C13_bundle_fits_partial`, `C13_single_orders_fit`, `C13_overflow`, `C14_cut_early`, `C14_limit`, `C14_greedy_partial`, `C15_any_order`, `C15_bundles_contiguous`, `C17_roundtrip_partial`, `C17_accepts_iff`, `C17_over_2GiB_aborts`, `C17_tab_in_name_injects`, `C18_cut_line_rejected_partial`, `C18_cut_order_rejected`, `C18_bad_number_rejected_partial`, `C18_short_line_hangs`, `C18_boundary_cut_silent`, `C18_accepted_iff`, `C18_otherwise`, `C18_every_message`, `C18_cut_iff`, `C19_whole_program`, `C19_no_worker_fails`, `C19_archive_is_tar_partial`, `C19_every_successful_run`, `C19_runs_succeed`, `C19_short_paths`, `C20_determined_partial`, `C20_padding_is_memory`, `C20_archives_differ`, `C20_determined_iff`, `C20_any_two_runs_partial`, `C21_never_terminated`, `C21_no_run_terminates_archive`, `C22_dispatch_in_order`, `C22_exactly_once`, `C23_one_in_hand`, `C23_buffer_not_shared`, `C24_shutdown_after_work`, `C24_failure_blocks`, `C25_only_failure_stops`, `C25_no_deadlock`, `C25_bounded`, `C25_reaches_end`, `C25_outcome`, `C25_no_worker_hangs`, `C26_configured_before_work`, `C26_everyone_told_to_stop`, `C27_bad_option_releases`, `C27_released_partial`, `C27_big_bucket_hangs`, `C27_ends_iff`, `C28_existing_archive_untouched`, `C28_refused`, `C28_new_archive_is_the_writes`, `C29_accepted_iff`, `C29_refused_iff`, `C29_outcome`, `C29_order_of_different_options`, `C29_negative_accepted`, `C30_round_trip_partial`, `C30_same_list_partial`, `C30_length`, `C30_write_safe`, `C30_write_succeeds`, `C30_one_entry`, `C30_refused`, `C30_tab`, `C30_format`, `C30_accepted`, `C30_read_write_read`, `C30_same_list_iff`, `C30_written_iff`, `C31_null`, `C31_bare_catalog_partial`, `C31_bare_catalog_iff`, `C32_scan_exact_partial`, `C32_scan_complete_partial`, `C32_hidden_never_listed`, `C33_total`, `C33_sorted`, `C33_groups`, `C33_unique`, `C34_slots_partial`, `C34_in_order_partial`, `C34_sorted_small_first`, `C35_covers_iff`, `C35_fragments_partial`, `C35_beyond_the_end`, `C36_each_bucket_once`, `C37_check_iff`, `C37_partition`, `C37_numbering`, `C37_check_passes_partial`, `C39_format`, `C39_full_catalog_partial`, `C39_archive_catalog_partial`, `C41_partial_archive_is_right`, `C41_done_bytes_stay`, `C42_next_available`, `C43_released_iff`, `C43_free_iff`, `C43_not_grown_partial`, `C43_grown_is_undefined`, `C44_tree_fails`, `C44_tree_hangs`, `C44_fails_iff`, `C44_one_bucket`, `C44_succeeds_partial`, `C44_long_target_fails`, `C45_directories_first`, `C46_dir_100_unreadable`, `C46_archive_partial`, `C47_writes_apart`, `C48_long_links`, `C48_run_succeeds`, `C48_long_names`, `C49_bytes`, `C49_enough_ranks`, `C49_two_files`, `C49_archives_differ`, `C49_ranks_partial`, `C50_unset_handle`, `C51_unreadable`, `C51_lone_zero_block`, `C52_old_tail_stays`, `C52_new_file_partial`, `C53_extract_round_trip`, `C54_legacy_extract_partial`, `C55_written_stays`, `C55_catalog_first`, `C55_looks_complete`, `C55_looks_complete_happens`, `C55_large_file`, `C55_hole`, `C55_in_order`, `C55_one_rank`, `C56_one_rank`, `C56_ends_iff`, `C56_hangs_always`, `C56_statuses`, `C56_shell_status`, `C56_rank0_fails`, `C56_unreadable_directory`, `C56_no_directory`, `C56_bucket_fails`, `C56_open_fails`, `C56_success_partial`, `C56_status_zero`, `C56_status_zero_archive_partial`, `C57_parse_partial`, `C57_numbers`, `C57_directory_overflows`, `C57_clearing_iff`, `C57_add`, `C57_eleventh_value`, `C57_names_unterminated`, `C57_parse_iff`, `C58_assign_partial`, `C58_assign_simple_partial`, `C59_one_past_the_end`, `C59_reported_size`, `C60_least_multiple`, `C60_same_function`, `C62_extract_and_list_do_nothing`, `C62_unknown_mode`, `C63_complete_iff`, `C63_file_takes_name`, `C63_success_unreadable`, `C63_success_means_archive_partial`, `C64_same_shape_partial`, `C64_success_means_present`, `C64_same_blocks_partial`, `C64_grown_file_hides_others`, `C64_never_noticed`, `C64_shrunk_file_hides_others`, `C65_hole_in_file`, `C65_any_one_missing`, `C65_first_missing`, `C65_reads_iff`, `C65_read_as`, `C65_reads_as_complete`, `C65_cut_in_file_noticed_partial`, `C65_one_worker_iff`, `C65_every_run_passes`, `C65_reads_as_empty`, `C66_only_own_bundles_missing`, `C66_others_go_on`, `C66_one_bundle_missing`, `C66_every_bundle_can_be_missing`, `C67_size`, `C67_inside`, `C67_apart_iff`, `C67_end_never_written`, `C68_runs_iff`, `C68_too_few_ranks`, `C68_stops`, `C68_no_iterations`, `C69_succeeds_iff`, `C69_any_ranks`, `C69_defined_long_links_partial`, `C69_defined_partial`, `C69_two_files`, `C69_tree_overruns`, `C70_in_order`, `C70_exactly_once`, `C70_no_deadlock`, `C70_bounded`, `C70_reaches_end`, `C70_every_successful_run`, `C70_runs_succeed`, `C70_whole_program`, `C71_unnoticed`, `C71_any_failures`, `C71_interruption_reported_as_success`, `C71_nothing_written_status_0`, `C71_lost_bundle_status_0`, `C71_damage_is_local`, `C71_when_nothing_fails_partial`, `C71_unread_data_is_memory`, `C72_too_many_directories`, `C72_status_0_saw_everything`, `C72_every_limit_is_reached`, `C73_enough_partial`, `C73_enough_each_partial`, `C73_too_many_files`, `C73_reported_as_success`, `C73_pieces_at_least_files`, `C74_no_success`, `C74_failing_rank`, `C74_status_zero`, `C74_status_zero_written`, `C75_same_members_partial`, `C75_same_extraction_partial`, `C76_archive_extract_archive`, `C77_same_blocks_partial`, `C77_grown_file_hides_others`, `C77_shrunk_file_hides_others`, `C77_success_means_present`, `C77_same_shape_partial`, `C78_value_arrives`, `C78_only_the_variable_iff`, `C78_neighbour_lost`, `C78_every_rank_is_rank_0`, `C79_returned_iff`, `C79_given_iff`, `C79_both_iff`, `C79_split_pad_undefined`, `C80_legacy_again_partial`, `C80_from_legacy_partial`, `C81_legacy_same_archive`, `C81_member_order`, `C81_same_members_partial`, `C81_order_follows_listing`, `C82_one_creates`, `C82_success_means_own_archive`, `C82_at_most_one`, `C82_all_end`, `C82_legacy_last_wins`, `C82_legacy_member_lost`, `C83_legacy_repeat`, `C83_legacy_repeat_changed`, `C83_repeat`, `C84_part`, `C84_legacy_part`, `C85_same_places`

{
 "C01": {
  "status": "proved",
  "note": "Length, block multiple and single-block condition of every header; production fails only for unsupported types or unknown owners. C01_refused_iff: exactly when a header is made, else exit status 1; C01_look and C01_entry: exactly when looking at the object is undefined and what entry comes out; C01_extended_block: what the block before an extended header says."
 },
 "C02": {
  "status": "proved",
  "note": "All keywords and values; loop limit never reached."
 },
 "C03": {
  "status": "proved",
  "note": "Every block produced, including the extended-header block."
 },
 "C04": {
  "status": "partial",
  "note": "Exact: C04_readable_iff says for which entries everything is recovered (uid/gid < 2^21, 0 <= mtime < 2^33, owner names of at most 31 bytes, not a file of 8 GiB-1 bytes); the property is false for exactly the others."
 },
 "C05": {
  "status": "partial",
  "note": "Exact: C05_planned_iff says planned and written header sizes differ for exactly the directories whose path (without trailing slash) has 100, 502, 1013, 1525, 2037, 2549, 3061, 3573 or 4085 bytes."
 },
 "C06": {
  "status": "proved",
  "note": "Round trip into a fresh entry; re-use of an entry keeps a stale link name and a truncated buffer is undefined behaviour (extra theorems)."
 },
 "C07": {
  "status": "proved",
  "note": "C07_success_exact: exact set of entries of every scan that completes, whatever the memory held; C07_succeeds_iff: exactly when it completes; C07_scan_complete: nothing is missed when every directory can be opened."
 },
 "C08": {
  "status": "proved",
  "note": ""
 },
 "C09": {
  "status": "proved",
  "note": "For every conforming std::sort; the comparator is proved a strict weak ordering."
 },
 "C10": {
  "status": "proved",
  "note": ""
 },
 "C11": {
  "status": "proved",
  "note": ""
 },
 "C12": {
  "status": "proved",
  "note": ""
 },
 "C13": {
  "status": "partial",
  "note": "False in general (C13_overflow, for every bucket size; C13_tree_overflows: a concrete tree and command line for which no run ever ends with success). Exact: C13_worker_outcome tells the three outcomes of a worker apart (exception, undefined behaviour, everything written), and C13_success_iff says a job can succeed exactly if all its bundles fit and all its numbers are below 2^31. The bundles fit when no small file that would still fit follows a large one, for single orders, and for uniform header sizes. Cause: position_in_bucket is not reset after a large file."
 },
 "C14": {
  "status": "partial",
  "note": "Limit and non-emptiness proved in full (C14_limit). That bundles are cut only when needed is false in general: C14_cut_early gives a tree for which a bundle is closed although the next one would fit; C14_greedy_partial proves it when no fitting file follows a big one."
 },
 "C15": {
  "status": "proved",
  "note": "Ranges disjoint and contiguous for every plan; C15_any_order: any order of the writes leaves the same file."
 },
 "C16": {
  "status": "proved",
  "note": ""
 },
 "C17": {
  "status": "partial",
  "note": "Exact acceptance condition proved: names without TAB, all numbers below 2^31. False beyond: archives of 2 GiB and more abort; a TAB in a name injects orders."
 },
 "C18": {
  "status": "partial",
  "note": "False in general, exact conditions proved. C18_cut_iff: a cut bundle (names without TAB and newline) is accepted exactly if the cut is at the end of an order, then silently shortened; every other cut throws. C18_accepted_iff: any message beginning with one-line records is accepted exactly if it consists of records that all mean an order; C18_otherwise: anything else throws or loops for ever. C18_every_message: every message is records and a rest. Negations: short lines accepted or looping for ever, a cut behind a newline in a name accepted as a made-up order (C18_cut_in_name_accepted)."
 },
 "C19": {
  "status": "partial",
  "note": "Full composition scan-sort-offsets-orders-messages-workers-writes-tar reader, every schedule, any memory contents, for jobs within the stated limits (C19_short_paths: all trees with short paths under 2 GiB are such jobs). Outside the limits the program misbehaves (C05, C13, C17). Exact: C63_complete_iff together with C13_success_iff."
 },
 "C20": {
  "status": "partial",
  "note": "Violated: padding between members of a bundle is uninitialised memory (C20_padding_is_memory, C20_archives_differ). Exact: a byte of the archive is the same for every content of that memory exactly if it is not such padding (C20_determined_iff)."
 },
 "C21": {
  "status": "partial",
  "note": "Violated: negation proved for every job (C21_never_terminated): the two zero blocks are never written."
 },
 "C22": {
  "status": "proved",
  "note": "Every run, any number of ranks and bundles, any interleaving, eager or synchronous sends."
 },
 "C23": {
  "status": "proved",
  "note": ""
 },
 "C24": {
  "status": "proved",
  "note": "Also: a worker failure prevents any shutdown (C24_failure_blocks)."
 },
 "C25": {
  "status": "proved",
  "note": "For at least one worker and workable bundles; with no worker the program hangs (C25_no_worker_hangs). C25_only_failure_stops: for any bundles at all, a run that stops short has a failed worker."
 },
 "C26": {
  "status": "proved",
  "note": ""
 },
 "C27": {
  "status": "partial",
  "note": "Exact: C27_ends_iff says which starts end in all processes: no arguments, an unknown option, or one target and an archive name with a bucket size from 100000 to below 2^31, link targets followed by a zero byte and no failing worker. In all other cases processes are left waiting or have failed (exits 5/3/4, small and big buckets, unreadable numbers, each its own theorem)."
 },
 "C28": {
  "status": "proved",
  "note": "0.6 tool: exclusive open, an existing archive is never changed."
 },
 "C29": {
  "status": "proved",
  "note": "All argument lists of arguments shorter than 4 GiB; negative bucket sizes are accepted and wrap (C29_negative_accepted)."
 },
 "C30": {
  "status": "partial",
  "note": "Round trip for lists of two or more entries with TAB-free names; entries without padding name come back with the C library's text for NULL. Length prefix, memory safety of writing and success below 500 MB proved in full. Violated for one entry and for TABs (C30_one_entry, C30_tab). The text is given byte for byte (C30_format), and what is accepted is characterised (C30_accepted). When it is written at all: C30_written_iff. Exactly when the reader gives the same list back: C30_same_list_iff."
 },
 "C31": {
  "status": "partial",
  "note": "Violated for every archive: reading returns NULL (C31_null, C31_never_read), because parsing starts at the tar header. Exactly: a catalog without its tar header is read back if and only if at least 512 bytes follow (C31_bare_catalog_iff)."
 },
 "C32": {
  "status": "partial",
  "note": "Violated: names beginning with a dot are skipped with everything below them (C32_hidden_never_listed), and one unreadable directory fails the scan (C32_unreadable_fails). Proved: what is listed is exactly every supported object no dot-name leads to (C32_scan_exact_partial)."
 },
 "C33": {
  "status": "proved",
  "note": "For every conforming qsort; uniqueness for distinct names."
 },
 "C34": {
  "status": "partial",
  "note": "Proved for lists with large entries last, which all sorted lists with headers of one size are (C34_sorted_small_first); violated by a sorted list with headers of different sizes (C34_overruns_bucket). The slots of two files of a sorted list can even overlap (C34_slots_overlap). The move step refuses every blit that leaves its buffer (C34_outside_refused)."
 },
 "C35": {
  "status": "partial",
  "note": "Violated. Exact, for lists in any order: a split entry is covered consecutively, once and up to its end exactly unless it fills whole buckets when rounded up to blocks and does not end at a block (C35_covers_iff); then the last fragment reaches beyond the end (C35_beyond_the_end, for every such file)."
 },
 "C36": {
  "status": "proved",
  "note": ""
 },
 "C37": {
  "status": "partial",
  "note": "The rank call list partitions every fragment list that is in bucket order. C37_check_iff is exact: for lists in the sorted order the numbering check passes if and only if every large entry but the last leaves room behind its end; it fails for a witness with long names (C37_skips_a_bucket)."
 },
 "C38": {
  "status": "partial",
  "note": "Any number of additions to a list created for two or more entries; creating a list for one entry writes outside the allocation (C38_one_entry)."
 },
 "C39": {
  "status": "partial",
  "note": "Paths, types, link targets and sizes (and header sizes, archive catalog) can be recovered from the text of any catalog whose names hold no TAB. With TABs two different links have the same line (C39_tabs_confuse), and the position in the archive is never written (C39_position_missing). C39_format gives the exact text of the lines."
 },
 "C40": {
  "status": "proved",
  "note": ""
 },
 "C41": {
  "status": "proved",
  "note": "For every moment of every run of a Job."
 },
 "C42": {
  "status": "proved",
  "note": "For every cursor position in the padding before an entry and every following entry."
 },
 "C43": {
  "status": "partial",
  "note": "Violated: exactly the lists that never grew, or are completely full, are freed without reading uninitialised pointers (C43_free_iff), and then exactly the memory allocated for them is released (C43_released_iff; lists of entries without pads, for those of a layout see C79)."
 },
 "C44": {
  "status": "partial",
  "note": "Succeeds for two or more entries with link targets of at most 100 bytes; undefined for one entry, and fails for links with longer targets at the end of a bucket (C44_long_target_fails). On whole trees: with 8191 directories and links with targets of more than 100 bytes no archive is ever made (C44_tree_fails), rank 0 stops and all other ranks wait for ever (C44_tree_hangs). C44_fails_iff is exact for the sorted lists a scan gives: no layout if and only if some directory or link finds no room in what is left of a bucket and neither does the filler with the link's target; C44_one_bucket: never if the headers of directories and links fit one bucket together."
 },
 "C45": {
  "status": "proved",
  "note": "For every legal tree whose visible directories can be opened; qsort is any conforming sort."
 },
 "C46": {
  "status": "partial",
  "note": "Proved for every archivable tree (LegArchivable: paths up to PATH_MAX, no directory path of one of the nine lengths of C05, no TAB or NUL in names, readable directories, files under 8 GiB-1, ...), any rank count, write order and old content. Missing: names beginning with a dot are skipped (C32), catalog ending 512 bytes before a bucket end (C51), closing an unset handle assumed harmless (C50). The exclusion of those nine lengths is needed: C46_dir_100_unreadable, a directory with one empty directory whose path has 100 bytes, for which the run succeeds with any number of ranks, any sort, any write order and any old content, and the archive cannot be read."
 },
 "C47": {
  "status": "proved",
  "note": "For every archivable tree and rank count."
 },
 "C48": {
  "status": "proved",
  "note": "With explicit limits: paths and link targets up to 100 bytes, at most 500000 = buckets + 2 per object (C48_run_succeeds); or paths of any length, if every file size modulo the bucket size is at most 4150000 and the count is at most 50000 (C48_long_names). C48_long_links: link targets of any length, if the headers of directories and links fit one bucket together."
 },
 "C49": {
  "status": "partial",
  "note": "C49_ranks_partial: members, their order, success and the front part do not depend on the rank count. C49_bytes is exact: every byte of the data part for any number of ranks; those that belong to no member are what the same rank left there with an earlier bucket, or zero. So the whole file is the same for all rank counts of at least one per 4 MiB (C49_enough_ranks), but violated otherwise: C49_two_files, C49_archives_differ (with one rank a byte of the first file stands behind the second)."
 },
 "C50": {
  "status": "partial",
  "note": "Violated: every run that otherwise succeeds closes a handle never opened."
 },
 "C51": {
  "status": "partial",
  "note": "Violated for catalogs ending 512 bytes before a bucket end, with a concrete family of trees (127067 empty files); otherwise C46."
 },
 "C52": {
  "status": "partial",
  "note": "Violated: an existing longer file keeps its tail; proved for new or shorter files."
 },
 "C53": {
  "status": "proved",
  "note": "For every job that could be planned (Job, see C19) and every run that ends with status 0. Extraction is a specification (ExtractSpec): a member needs its directory and a free name."
 },
 "C54": {
  "status": "partial",
  "note": "For every run that succeeds, except with a catalog whose length is 1024 below a multiple of the bucket (C51 shows that case is unreadable), and with a directory not itself named like one of parfu's own members."
 },
 "C55": {
  "status": "partial",
  "note": "Proved: what is written stays and is part of the finished archive; the catalog is first. Exact for writes made in the order of their places, as one rank always does (C55_in_order, C55_one_rank): a new file is a properly terminated archive iff every write has been made. Violated: with a file of at least two buckets and at least two ranks a run into a new file can be interrupted so that the file is a properly terminated archive with nothing of the tree in it (C55_looks_complete, C55_large_file; big_looks_complete is a concrete one). With any number of ranks: as soon as the first missing write of data has something behind it, the file reads as the finished archive cut there and ended (C55_hole)."
 },
 "C56": {
  "status": "partial",
  "note": "Exact: C56_ends_iff says all ranks end exactly if rank 0 does not stop before the layout is sent and either no rank or every rank fails at its buckets; otherwise some rank waits for ever in every schedule (C56_hangs_always). Proved: a run whose parts all succeed ends on all ranks with status 0, status 0 at any rank means the whole archive has been written, statuses are 0, 243 and 333 and none but 0 looks like 0 to a shell, one rank always ends. Violated: a failing scan, catalog or layout on rank 0, or a failing bucket on some ranks, leaves other ranks waiting for ever."
 },
 "C57": {
  "status": "partial",
  "note": "Violated: -d and -L write one byte past their allocation, an eleventh value is undefined behaviour, archive names are stored without terminator. Exact, for every option list: C57_parse_iff says when the parser delivers a structure (and that it holds what was given), when it returns NULL and when its behaviour is undefined. The constants the file needs are commented out in parfu_primary.h, so the file does not compile at this commit; they are taken from those comments. C57_add: what the adding functions accept, for structures of any length. C57_clearing_iff: when clearing the new pointers stays inside the memory."
 },
 "C58": {
  "status": "partial",
  "note": "Proved for single files (all but the \"locations are set\" mark) and for assignment between collections of equal size. Violated: copying a non-empty collection or a directory with entries is undefined behaviour; a copied directory has no type; assigning a smaller collection keeps the old tail. Exactly which copies are defined: C58_copy_iff; exactly when assigning a directory gives the same entries: C58_assign_dir_iff."
 },
 "C59": {
  "status": "partial",
  "note": "Violated for the index one past the end, which throws (C59_one_past_the_end); proved for all others and for the reported size."
 },
 "C60": {
  "status": "proved",
  "note": "On 64-bit vectors, as the code computes; also connects the Nat definitions of the rest of the model with the machine arithmetic."
 },
 "C61": {
  "status": "partial",
  "note": "Violated for every object: the handle is stored through a NULL pointer (C61_open_undefined)."
 },
 "C62": {
  "status": "partial",
  "note": "Violated: X and T end with status 0 having done nothing; an unknown mode ends rank 0 with -2 and leaves all other ranks in MPI_Finalize for ever. Proved: too few arguments end all ranks with -1."
 },
 "C63": {
  "status": "partial",
  "note": "Exact (C63_complete_iff): for every run that ends with status 0 - any tree, any file sizes, any schedule - the archive holds the member of every object if and only if no directory below the target has a path of one of the nine lengths of C05; proved by counting: a reader needs at least the bytes the code writes for a member, and the file ends where the plan ends. C63_success_means_archive_partial: then there is no other member either. Violated: a directory whose path has exactly 100 bytes gives status 0 and an archive no reader can read past it, for every number of ranks (C63_success_unreadable). Worse, a directory with a path of 502 bytes gives status 0 and an archive that reads without complaint in which the next file stands under the name of the directory (C63_file_takes_name)."
 },
 "C64": {
  "status": "partial",
  "note": "Proved: if each file still takes the same number of 512-byte blocks (and its header the same room) the archive is exactly that of the later tree; status 0 means all entries are still there; changes of length are never noticed (C64_never_noticed: every run ends with status 0), and the members stored before the first file with another number of blocks are right. Violated: a file that grows over a block boundary makes the archive header announce more than its slot, and the members after it are not found (C64_grown_file_hides_others); a file that loses two blocks or more leaves, in zeroed memory, an end-of-archive mark in its slot, and every object behind it is missing (C64_shrunk_file_hides_others)."
 },
 "C65": {
  "status": "partial",
  "note": "Violated: at every moment at which a prefix of the bundles is done and the next begins with a header, the file reads as a complete archive of the objects so far (C65_reads_as_complete); every run with one worker passes such a moment before each such bundle (C65_every_run_passes), every run at all passes one at which it reads as an archive of nothing (C65_reads_as_empty), and when only middle pieces of large files are missing the archive reads as complete with zeros in the data (C65_hole_in_file, C65_any_one_missing). Proved: a cut inside the data of a file is noticed (C65_cut_in_file_noticed_partial); with one worker the exact condition (C65_one_worker_iff); for any number of workers and every moment the exact condition (C65_reads_iff, with C65_first_missing: the position it speaks of exists) and exactly what is then read, object by object and byte by byte (C65_read_as)."
 },
 "C66": {
  "status": "proved",
  "note": "For every subset Q of the workers that stops, as long as one worker does not. (That the program then never ends is C23/C25.)"
 },
 "C67": {
  "status": "partial",
  "note": "C67_contents, C67_size and C67_inside hold in full. The places are apart exactly when the ranks divide evenly among the files or there is one iteration (C67_apart_iff); otherwise the end of the first file is never written (C67_end_never_written)."
 },
 "C68": {
  "status": "partial",
  "note": "C68_runs_iff gives exactly the numbers with which a rank gets through; with all others it fails, mostly with undefined behaviour (no file, more than ten, data larger than the buffer) instead of a refusal: the only check just prints. C68_stops: exactly when it stops with which status; C68_no_iterations: with none it writes nothing."
 },
 "C69": {
  "status": "partial",
  "note": "Violated: C69_two_files gives a whole class of two-file directories for which every run has undefined behaviour (the second file is copied past the end of the transfer buffer), C69_tree_overruns one of them. Proved: C69_defined_partial (links of at most 100 bytes) and C69_defined_long_links_partial (links of any length, if the headers of directories and links fit one bucket), success if no file that fits a bucket has at least as much data as one that does not, and files over a bucket leave room for a header at their end. Exact: C69_succeeds_iff gives, for every archivable tree, the condition on rank 0's plan under which the run succeeds for every number of ranks (all data of files that fit a bucket end inside it), and undefined behaviour when they begin but do not end inside; C69_any_ranks: success does not depend on the number of ranks."
 },
 "C70": {
  "status": "proved",
  "note": "Call-by-call model (Verif/Wire.lean) with a refinement to the protocol of C22-C28 (C70_refines), framing (C70_lengths_match), order (C70_in_order), exactly once, no deadlock with synchronous sends, finite runs, and the whole program (C70_whole_program). The limit is exact: orders of 2 GiB and more are not received (C70_received_iff); jobs made from trees never have any (C19_short_paths)."
 },
 "C71": {
  "status": "partial",
  "note": "The code violates the property: failures are only printed. C71_unnoticed and C71_any_failures show exactly that no process's state depends on any failure (runs with and without failures correspond event for event); C71_nothing_written_status_0, C71_interruption_reported_as_success and C71_lost_bundle_status_0 are the consequences for every job. Proved positively: C71_when_nothing_fails_partial (if nothing fails status 0 means the complete archive) and C71_damage_is_local (a failure damages only the range of its own bundle). Missing because false: the converse, that status 0 excludes failures. C71_unread_data_is_memory: if only reads fall short, the archive reads as complete and each unread byte is what was in the worker's memory."
 },
 "C72": {
  "status": "partial",
  "note": "The code violates the property: spider_directory never closes a directory. Exactly: C72_scan_keeps_directories_open (what a limited scan finds and leaves), C72_enough_descriptors_partial (fewer directories than free descriptors: the runs are exactly those without a limit), C72_too_many_directories (as many or more: no archive, status 1), C72_status_0_saw_everything, C72_every_limit_is_reached. Missing because false: trees with as many directories as rank 0 can open files."
 },
 "C73": {
  "status": "partial",
  "note": "The code violates the property: no file opened by a worker is ever closed, and a failed open or read is only printed. Exactly: C73_enough_partial and C73_enough_each_partial (a worker that need not open more files than it can: the archive is complete), C73_too_many_files (the workers together can open fewer files than there are pieces: every run with status 0 has left a stretch of some file unread, in its place is the worker's memory, and the archive reads as complete), C73_reported_as_success (such runs exist, with any byte in the stretch), C73_pieces_at_least_files (there are at least as many pieces as non-empty files). Missing because false: more pieces than can be opened. A failed MPI_File_open is taken to leave MPI_FILE_NULL; MPI does not say so, otherwise the read is undefined."
 },
 "C74": {
  "status": "proved",
  "note": "C74_no_success, C74_failing_rank, C74_status_zero, C74_status_zero_written. The price is C56: the ranks without a failure wait for ever. Assumed: a failure is an error return of MPI_File_write_at or MPI_File_read_at (a short count with MPI_SUCCESS is not looked at by the code and not modelled), and a rank that calls MPI_Finalize after a failure takes part in none of the other ranks' barriers and broadcasts."
 },
 "C75": {
  "status": "partial",
  "note": "Violated by names beginning with a dot, which only 0.6 stores. Exact for all runs within the limits of C19 and C46: 0.5.1 stores precisely those members of the archive of 0.6 in whose path no name begins with a dot, and the two hold the same members if and only if the tree has no such name (C75_same_members_partial); extraction gives the same objects at all other paths (C75_same_extraction_partial)."
 },
 "C76": {
  "status": "proved",
  "note": "C76_archive_extract_archive, from C19_every_successful_run and C53. The limits of C19 apply to both runs; extraction is the specification ExtractSpec of a tar program, run by root (owners and times are set)."
 },
 "C77": {
  "status": "partial",
  "note": "Proved: success means every listed object was still there (C77_success_means_present); files that still take as many blocks are stored as they are now and hurt no other member (C77_same_blocks_partial). Violated by the code otherwise: the header has the size of the file as it is when copied, the place and the amount of data are those of the listing, so a file that has grown by the room of the next member hides it (C77_grown_file_hides_others) and one that lost two blocks or more leaves an end mark in the middle of the archive (C77_shrunk_file_hides_others); all ranks report success. C77_same_shape_partial: if only contents of equal length, permissions, owners and times change, the archive is that of the tree at the time of the copying."
 },
 "C78": {
  "status": "partial",
  "note": "The value arrives (C78_value_arrives). Violated otherwise: MPI_LONG_INT is the pair type of a long and an int, so the four bytes behind the variable are overwritten as well. Exact: C78_only_the_variable_iff. C78_neighbour_lost: an int there gets rank 0's value; C78_every_rank_is_rank_0: if it is the rank number, every rank does rank 0's buckets and no one the others. Which variable is there depends on the compiler, so the other theorems about 0.5.1 assume the neighbour is not used."
 },
 "C79": {
  "status": "partial",
  "note": "Violated: the name of a pad is one piece of memory that the entry of the list given and all fragments in the list returned point to. Exact: C79_returned_iff (the list returned alone), C79_given_iff (the list given alone), C79_both_iff (both, with what is released); C79_split_pad_undefined: a file split over several buckets with a pad before it makes freeing the list returned undefined. parfu_free_ffel is called nowhere in the repository."
 },
 "C80": {
  "status": "partial",
  "note": "Proved for both programs as the second one. Missing: what is missing in C46 and C54 (trees outside LegArchivable, the catalog that ends 512 bytes before a bucket, C51; a directory named like one of parfu's own files)."
 },
 "C81": {
  "status": "partial",
  "note": "Proved in full for 0.5.1: byte-identical writes, including how a run fails, for every legal tree (C81_legacy_same_archive). For 0.6 the same members are proved, at every position with the same type and size (C81_same_members_partial, C81_member_order); the same order is false, because std::sort compares sizes only: C81_order_follows_listing gives two listings of the same directory whose archives differ."
 },
 "C82": {
  "status": "partial",
  "note": "Proved in full for parfu 0.6 (C82_one_creates, C82_success_means_own_archive, C82_at_most_one, C82_all_end), which opens the archive with MPI_MODE_EXCL. False for 0.5.1, which opens it with MPI_MODE_CREATE only: C82_legacy_last_wins and C82_legacy_member_lost. Assumption: opening with EXCL is atomic in the file system, and the archive is in none of the trees."
 },
 "C83": {
  "status": "proved",
  "note": "0.6: C83_repeat, for every Job. 0.5.1: C83_legacy_repeat for every GoodRun (same bytes); C83_legacy_repeat_changed covers a tree or a number of ranks that has changed since (then the archive is that of the tree as it is now; the catalog gap of C51 excepted). Note that 0.6 does not complete the archive by itself: the old file has to be removed first."
 },
 "C84": {
  "status": "proved",
  "note": "For two successful runs within the limits of C19 (C84_part) and of C46 (C84_legacy_part)."
 },
 "C85": {
  "status": "proved",
  "note": "Proved for the whole of each run that ends with status 0: 0.6 within the limits of C19, 0.5.1 (C85_legacy_same_catalog, the catalog and the positions of what is in front of the data) for every run that succeeds. (The padding between members may differ: C20.)"
 }
}
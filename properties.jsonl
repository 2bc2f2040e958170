{"id": "C01", "title": "Header length is exactly the advertised length", "statement": "For every entry the tar header that is produced is exactly as long as the header size the tool reports for that entry, and that length is a positive multiple of 512 bytes (512 when no extended header is needed).", "quantifier": "every entry: any name, link target, stat values, user and group names", "why_tests_cant": "lengths of names are unbounded and the length of the extended header depends on them in a self-referential way", "anchors": ["tarentry.cc:make_tar_header", "tarentry.cc:hdr_size", "tarentry.cc:get_paxsize", "tarentry.hh:round_to_block"]}
{"id": "C02", "title": "Extended-record length is self-consistent", "statement": "Computing the length prefix of an extended (pax) record never trips its iteration limit, and the number returned equals the number of bytes of the record that carries that number as its decimal prefix.", "quantifier": "every keyword and value length", "why_tests_cant": "the length of a record includes its own decimal length; the corner cases are at every power of ten", "anchors": ["tarentry.cc:record_length"]}
{"id": "C03", "title": "Every header block carries a valid checksum", "statement": "Every 512-byte ustar block produced (entry headers and extended-header blocks) contains in its checksum field the octal sum of its bytes with the checksum field taken as blanks, so any tar reader accepts it.", "quantifier": "every entry and every extended header", "why_tests_cant": "sums over arbitrary bytes; the checksum field is only partly overwritten, depending on the number of digits", "anchors": ["tarentry.cc:make_ustar_header_block"]}
{"id": "C04", "title": "A pax reader recovers what was archived from the header", "statement": "An independent POSIX pax reader applied to the header of a regular file, symbolic link or directory recovers its full path, link target, type, permission bits, size, modification time, owner ids and owner names.", "quantifier": "every entry of the three kinds, any path length and link-target length, any size, any ids", "why_tests_cant": "names of unbounded length, sizes up to 2^63, every combination of extended records", "anchors": ["tarentry.cc:make_tar_header", "tarentry.cc:make_ustar_header_block", "tarentry.cc:get_paxsize"]}
{"id": "C05", "title": "Planned header size equals written header size", "statement": "The header size computed when the archive is planned from a path, link target and size equals the length of the header that is written for that path when the data are moved.", "quantifier": "every path, link target and size of the three kinds of entry", "why_tests_cant": "the plan and the write compute the header from different strings, so they agree except at particular lengths", "anchors": ["tarentry.cc:compute_hdr_size", "parfu_file_system_classes.cc:Parfu_storage_entry::header_size", "tarentry.cc:tarentry::tarentry"]}
{"id": "C06", "title": "Entry serialization round-trips", "statement": "Deserializing the serialized form of an entry, at the front of any longer buffer, into a fresh entry reproduces the entry and reports how many bytes were consumed, so that a stream of serialized entries is read back exactly.", "quantifier": "every entry, every trailing bytes, every list of entries", "why_tests_cant": "arbitrary names and binary stat contents, arbitrary concatenations", "anchors": ["tarentry.cc:serialize", "tarentry.cc:deserialize"]}
{"id": "C07", "title": "Scan finds every supported object exactly once", "statement": "Every scan of a target directory that completes lists every directory, regular file and symbolic link at any depth that can be reached through directories that can be opened (hidden names included) exactly once with its path relative to the target, type, size and link target, and lists nothing else; other file types are left out and links are never followed. It completes exactly if the byte of fresh memory behind the target of every link it reads is zero (otherwise its behaviour is undefined).", "quantifier": "every finite directory tree of any depth and width, every content of the memory the link targets are read into", "why_tests_cant": "trees are unbounded in depth, width and naming", "anchors": ["parfu_file_system_classes.cc:Parfu_directory::spider_directory", "parfu_file_system_classes.cc:Parfu_target_collection::Parfu_target_collection(Parfu_directory*)"]}
{"id": "C08", "title": "Directories are listed before what they contain", "statement": "In the list that is archived, the target directory comes first, every directory comes before each of its sub-directories, and all directories come before all files and links, so extraction can create parents first.", "quantifier": "every finite directory tree", "why_tests_cant": "depends on breadth-first queue order for every tree shape", "anchors": ["parfu_file_system_classes.cc:Parfu_target_collection::Parfu_target_collection(Parfu_directory*)"]}
{"id": "C09", "title": "Ordering is a rearrangement by size", "statement": "Sorting the collection keeps every directory and file exactly once, leaves the files in non-decreasing size with all symbolic links first, and touches no entry.", "quantifier": "every collection and every correct sorting algorithm (ties in any order)", "why_tests_cant": "the sort is unstable: any tie order must be fine", "anchors": ["parfu_file_system_classes.cc:order_files"]}
{"id": "C10", "title": "Planned slots are aligned, disjoint and gap-free", "statement": "After offsets are assigned, the first entry starts at archive offset 0, each entry starts at a multiple of 512, immediately after the previous entry's header and data rounded up to 512; hence slots never overlap and never leave a whole spare block.", "quantifier": "every collection of entries", "why_tests_cant": "arbitrary numbers and sizes of entries", "anchors": ["parfu_file_system_classes.cc:set_offsets", "parfu_file_system_classes.cc:parfu_next_block_boundary"]}
{"id": "C11", "title": "Transfer orders move every byte exactly once", "statement": "The union of all transfer orders asks for the header of each entry exactly once and for every byte of every regular file exactly once, and no order asks for bytes beyond the end of its file.", "quantifier": "every collection, every accepted bucket size, every per-bucket order limit", "why_tests_cant": "splitting arithmetic on arbitrary sizes, bucket sizes and limits", "anchors": ["parfu_file_system_classes.cc:create_transfer_orders"]}
{"id": "C12", "title": "Transfer orders put every byte at its planned place", "statement": "The archive position in each transfer order is the planned offset of its entry plus the header size (for later fragments) plus the fragment's position in the file.", "quantifier": "every collection, bucket size and order limit", "why_tests_cant": "two separately written loops (planning and splitting) must agree for all sizes", "anchors": ["parfu_file_system_classes.cc:create_transfer_orders", "parfu_file_system_classes.cc:set_offsets"]}
{"id": "C13", "title": "A bundle never exceeds the staging buffer", "statement": "All data and headers of one bundle of orders, including padding to the block size, span at most one bucket, so the worker's staging buffer (one bucket) is never overrun.", "quantifier": "every collection, bucket size and order limit", "why_tests_cant": "depends on running totals carried over between small and large files", "anchors": ["parfu_file_system_classes.cc:create_transfer_orders", "parfu_rank_move_data.cc:move_data_Create"]}
{"id": "C14", "title": "The per-bucket order limit is honoured", "statement": "When a limit on orders per bundle is given, no bundle holds more orders than the limit; without a limit (0) bundles are only cut by size; no bundle is empty.", "quantifier": "every collection, bucket size and limit", "why_tests_cant": "arbitrary sequences of entries", "anchors": ["parfu_file_system_classes.cc:create_transfer_orders"]}
{"id": "C15", "title": "Bundles occupy disjoint, contiguous, increasing archive ranges", "statement": "The archive byte ranges written for different bundles (including padding) never overlap, so writes commute and any interleaving of workers gives the same file.", "quantifier": "every collection, every bucket size that is a multiple of 512 (the command line gives no other), every limit; for the bytes of the file, every job within the limits of C19 and every order of execution", "why_tests_cant": "all schedules of all bundles", "anchors": ["parfu_file_system_classes.cc:create_transfer_orders", "parfu_rank_move_data.cc:move_data_Create"]}
{"id": "C16", "title": "Unusable requests are refused", "statement": "Planning with a bucket below 100000 bytes or with no entries returns no plan, and every other request returns a plan.", "quantifier": "every collection and bucket size", "why_tests_cant": "boundary over all values", "anchors": ["parfu_file_system_classes.cc:create_transfer_orders"]}
{"id": "C17", "title": "Orders survive the trip to the worker", "statement": "Printing a bundle of orders and parsing it on the worker gives back the same paths, types, link targets, sizes, header sizes and positions in the same order.", "quantifier": "every bundle", "why_tests_cant": "arbitrary names and 64-bit numbers; separators may occur in names; numbers may exceed the parser's range", "anchors": ["parfu_file_system_classes.cc:print_marching_order", "parfu_rank_move_data.cc:Parfu_rank_order_set::Parfu_rank_order_set"]}
{"id": "C18", "title": "Malformed order messages are rejected", "statement": "A message whose last line is cut off, or whose numeric fields do not start with a number in range, raises an error and moves no data; it is never silently shortened.", "quantifier": "every prefix of every order message", "why_tests_cant": "every truncation point", "anchors": ["parfu_rank_move_data.cc:Parfu_rank_order_set::Parfu_rank_order_set"]}
{"id": "C19", "title": "The finished archive is a tar of the tree", "statement": "When all bundles have been carried out, an independent tar reader reading the archive from offset 0 finds exactly the scanned entries, in planned order, each with its full path, type, link target, permissions and, for regular files, exactly the file's bytes.", "quantifier": "every tree, bucket size, limit, and every execution order of the bundles", "why_tests_cant": "composition of scan, sort, planning, splitting, message passing and writing for arbitrary inputs", "anchors": ["parfu_main_0_6_test.cc:main", "parfu_rank_move_data.cc:move_data_Create", "parfu_file_system_classes.cc:create_transfer_orders"]}
{"id": "C20", "title": "Archive content is a function of the input", "statement": "Every byte of the archive is determined by the archived tree: no byte depends on the previous contents of memory.", "quantifier": "every tree and every initial memory contents", "why_tests_cant": "uninitialised memory is usually zero in tests", "anchors": ["parfu_rank_move_data.cc:move_data_Create"]}
{"id": "C21", "title": "The archive is terminated", "statement": "The archive ends with the two zero blocks POSIX requires after the last entry.", "quantifier": "every tree", "why_tests_cant": "structural property of every output", "anchors": ["parfu_rank_move_data.cc:move_data_Create", "parfu_main_0_6_test.cc:main"]}
{"id": "C22", "title": "Every bundle is dispatched to exactly one worker exactly once", "statement": "Whatever the order in which workers finish, each bundle is sent once, to one worker, and none is lost or repeated.", "quantifier": "every number of bundles and ranks and every completion schedule", "why_tests_cant": "schedules are unbounded", "anchors": ["parfu_boss_functions.cc:push_out_all_orders"]}
{"id": "C23", "title": "A worker has at most one bundle in hand", "statement": "At no time has the boss an unanswered bundle out to a worker to which it sends another, so the worker's single staging buffer is never shared by two bundles.", "quantifier": "every reachable state under every schedule", "why_tests_cant": "schedules are unbounded", "anchors": ["parfu_boss_functions.cc:push_out_all_orders", "parfu_worker_node.cc:parfu_worker_node"]}
{"id": "C24", "title": "Shutdown follows completion", "statement": "The boss leaves the dispatch phase only after every bundle has been acknowledged, so the exit instruction can never overtake work.", "quantifier": "every reachable state under every schedule", "why_tests_cant": "schedules are unbounded", "anchors": ["parfu_boss_functions.cc:push_out_all_orders", "parfu_main_0_6_test.cc:main"]}
{"id": "C25", "title": "Dispatch never deadlocks and always finishes", "statement": "With at least one worker rank, from every reachable state in which no worker has failed some step is possible until the run is complete, and every run, failing or not, finishes in a bounded number of steps.", "quantifier": "every reachable state, every schedule, every number of workers and bundles", "why_tests_cant": "deadlock depends on schedules and on rank counts", "anchors": ["parfu_boss_functions.cc:push_out_all_orders", "parfu_worker_node.cc:parfu_worker_node"]}
{"id": "C26", "title": "Workers are configured before they work", "statement": "In a normal create run every worker has been told the bucket size, has taken part in opening the archive, and knows the base path before it receives its first bundle, and every worker receives the exit instruction and stops.", "quantifier": "every schedule of message deliveries", "why_tests_cant": "message interleavings", "anchors": ["parfu_main_0_6_test.cc:main", "parfu_worker_node.cc:parfu_worker_node"]}
{"id": "C27", "title": "Every exit path releases the workers", "statement": "Whenever the boss stops (including on bad arguments or when the archive cannot be created), every worker is told to exit rather than left waiting.", "quantifier": "every argument vector", "why_tests_cant": "each early exit must be considered", "anchors": ["parfu_main_0_6_test.cc:main"]}
{"id": "C28", "title": "An existing archive is never overwritten", "statement": "If a file with the archive's name exists, create fails and the existing bytes are unchanged; in no run is an existing file modified before that check.", "quantifier": "every file system state and run", "why_tests_cant": "must hold for all prior contents and all runs", "anchors": ["parfu_worker_node.cc:parfu_worker_node", "parfu_main_0_6_test.cc:main", "parfu_data_transfer.cc:parfu_wtar_archive_list_to_singeFP"]}
{"id": "C29", "title": "Argument parsing is exact", "statement": "Each argument is either a target (no '='), one of the three known options, or makes parsing fail; the result does not depend on the order of arguments setting different options; a non-negative bucket size given by the user is rounded up to the next multiple of 512 and never down.", "quantifier": "every argument list", "why_tests_cant": "all argument lists", "anchors": ["parfu_parse_args.cc:parfu_parse_args"]}
{"id": "C30", "title": "Legacy catalog round-trips", "statement": "Reading back a full legacy (v04) catalog buffer yields the same list of entries and the stored length prefix equals the buffer's length.", "quantifier": "every file list", "why_tests_cant": "names and counts are unbounded; the buffer grows by doubling while being written", "anchors": ["parfu_buffer_utils.c:parfu_fragment_list_to_buffer", "parfu_buffer_utils.c:parfu_buffer_to_file_fragment_list"]}
{"id": "C31", "title": "Legacy catalog written to an archive can be read back", "statement": "The catalog stored at the front of a legacy archive can be read back from the archive file.", "quantifier": "every legacy archive", "why_tests_cant": "must hold for all archives", "anchors": ["parfu_buffer_utils.c:parfu_ffel_from_file", "parfu_buffer_utils.c:parfu_fragment_list_to_buffer"]}
{"id": "C32", "title": "Legacy scan finds everything", "statement": "The legacy scan lists every directory, regular file and link under the target, including names beginning with a dot.", "quantifier": "every directory tree", "why_tests_cant": "all trees and names", "anchors": ["parfu_file_list_utils.cc:parfu_build_file_list_from_directory"]}
{"id": "C33", "title": "Legacy sort order is a total order", "statement": "The comparison used to sort a legacy list is antisymmetric, transitive and total, groups directories before links before files by size, and breaks ties by name, so the sorted list is unique when names are distinct.", "quantifier": "every pair and triple of entries", "why_tests_cant": "qsort is undefined for inconsistent comparators", "anchors": ["parfu_file_list_utils.cc:parfu_compare_fragment_entry_by_size"]}
{"id": "C34", "title": "Legacy layout never splits or overlaps wrongly", "statement": "In the legacy layout, entries' slots (header plus data rounded to the block size) do not overlap, each small entry lies within a single bucket and each large file starts a bucket.", "quantifier": "every list, block size and bucket size", "why_tests_cant": "running positions across arbitrary lists", "anchors": ["parfu_file_list_utils.cc:parfu_set_offsets_and_split_ffel"]}
{"id": "C35", "title": "Legacy fragments of a file cover it exactly", "statement": "The fragments a large file is split into are consecutive, together cover each byte of the file exactly once and never reach beyond its end.", "quantifier": "every large file size, header size and bucket size", "why_tests_cant": "split arithmetic at exact multiples of the bucket size", "anchors": ["parfu_file_list_utils.cc:parfu_set_offsets_and_split_ffel"]}
{"id": "C36", "title": "Legacy buckets are each done by exactly one rank", "statement": "With n ranks each bucket index is processed by exactly one rank exactly once, and each rank's buckets are increasing.", "quantifier": "every number of ranks and buckets", "why_tests_cant": "all n and bucket counts", "anchors": ["parfu_data_transfer.cc:parfu_wtar_archive_allbuckets_singFP"]}
{"id": "C37", "title": "Legacy rank call list partitions the fragment list", "statement": "The rank call list names the first fragment of each bucket, in order, so that consecutive entries delimit all and only the fragments of one bucket.", "quantifier": "every fragment list", "why_tests_cant": "arbitrary lists", "anchors": ["parfu_file_list_utils.cc:parfu_rank_call_list_from_ffel"]}
{"id": "C38", "title": "Legacy list growth loses nothing", "statement": "Adding an entry to a list keeps all earlier entries unchanged, in order, and stores the new one last, whatever the current capacity; memory outside the list is never touched.", "quantifier": "every list and capacity and every sequence of additions", "why_tests_cant": "growth by doubling at every size", "anchors": ["parfu_file_list_utils.cc:parfu_add_entry_to_ffel_raw", "parfu_file_list_utils.cc:create_parfu_file_fragment_entry_list"]}
{"id": "C39", "title": "0.6 catalog line carries the entry", "statement": "From a catalog line of a stored entry (path, type, link target, sizes, header size, position) the entry's fields can be recovered uniquely.", "quantifier": "every entry", "why_tests_cant": "arbitrary names", "anchors": ["parfu_file_system_classes.cc:generate_full_catalog_line", "parfu_file_system_classes.cc:generate_archive_catalog_line"]}
{"id": "C40", "title": "Worker survives unknown instructions", "statement": "A worker that receives an instruction letter it does not know for its current mode ignores it: its mode, bucket size, archive and base path are unchanged and it keeps serving; only 'X' ends it normally.", "quantifier": "every sequence of instructions", "why_tests_cant": "all histories", "anchors": ["parfu_worker_node.cc:parfu_worker_node"]}
{"id": "C41", "title": "An interrupted run leaves only correct data", "statement": "At whatever point a create run is interrupted, every bundle that has been carried out is completely in the archive file, at its final place, with exactly the bytes (padding between members excepted) that any finished archive of the same tree has there; no later step of the run changes a byte of it.", "quantifier": "every tree a job can be planned for (the limits of C19), every schedule, every crash point, every number of workers, all previous buffer contents", "why_tests_cant": "crash points and schedules cannot be enumerated", "anchors": ["parfu_rank_move_data.cc:move_data_Create", "parfu_boss_functions.cc:push_out_all_orders", "parfu_worker_node.cc:parfu_worker_node"]}
{"id": "C42", "title": "The next-free-byte helper agrees with the layout", "statement": "Asking an entry for the next available byte, from any position in the padding before its place, gives the end of the entry's data; rounding that up to the next 512 bytes is where set_offsets puts the following entry.", "quantifier": "every position, every entry size and header size, every following entry", "why_tests_cant": "sizes and alignments are unbounded", "anchors": ["parfu_file_system_classes.cc:Parfu_storage_entry::next_available_after_me", "parfu_file_system_classes.cc:Parfu_container_file_collection::set_offsets"]}
{"id": "C43", "title": "Freeing a legacy list is safe", "statement": "Freeing a legacy file list touches only memory the list initialised itself, however many entries were added to it.", "quantifier": "every initial capacity and every number of additions", "why_tests_cant": "growth at every size; reading uninitialised memory may go unnoticed in a test", "anchors": ["parfu_file_list_utils.cc:parfu_free_ffel", "parfu_file_list_utils.cc:parfu_add_entry_to_ffel_raw"]}
{"id": "C44", "title": "The legacy layout succeeds", "statement": "For every list a scan can produce, the legacy layout function returns a layout (rather than NULL).", "quantifier": "every list of entries with positive header sizes", "why_tests_cant": "failure depends on running positions and on link target lengths", "anchors": ["parfu_file_list_utils.cc:parfu_set_offsets_and_split_ffel"]}
{"id": "C45", "title": "Legacy archive order lists directories before their contents", "statement": "In the list parfu 0.5.1 archives (the scan's list after sorting), every directory stands before everything inside it, at any depth, whichever sorting algorithm qsort uses.", "quantifier": "every directory tree whose visible directories can be opened, every conforming qsort", "why_tests_cant": "all trees and all sort implementations", "anchors": ["parfu_file_list_utils.cc:parfu_build_file_list_from_directory", "parfu_file_list_utils.cc:parfu_qsort_entry_list", "parfu_file_list_utils.cc:parfu_compare_fragment_entry_by_size"]}
{"id": "C46", "title": "A legacy run's archive is a tar of the directory", "statement": "After parfu 0.5.1 in mode C has run successfully on a directory, a tar reader reads the archive to its end and finds, besides parfu's own catalog and filler members, exactly the supported objects of the directory tree, each once, with path, type, owner, time, link target and contents; every directory comes before what it contains.", "quantifier": "every tree, every number of ranks, every order in which the ranks' writes reach the file, every previous content of the file", "why_tests_cant": "whole-program property over all trees, sizes, rank counts and schedules", "anchors": ["parfu_0_5_1_main_versA.c:main", "parfu_data_transfer.cc:parfu_wtar_archive_list_to_singeFP", "parfu_data_transfer.cc:parfu_wtar_archive_allbuckets_singFP", "parfu_data_transfer.cc:parfu_wtar_archive_one_bucket_singFP"]}
{"id": "C47", "title": "Legacy ranks never write to the same place", "statement": "The writes of all ranks of a legacy run, including rank 0's catalog and the end mark, are disjoint, so the archive's bytes do not depend on which rank writes first; the end mark is 1024 zero bytes at a bucket boundary after everything else.", "quantifier": "every tree within the limits of C46, rank count and order of writes", "why_tests_cant": "all schedules", "anchors": ["parfu_data_transfer.cc:parfu_wtar_archive_list_to_singeFP", "parfu_data_transfer.cc:parfu_wtar_archive_one_bucket_singFP"]}
{"id": "C48", "title": "A legacy run succeeds", "statement": "A legacy run on a directory whose names fit and which is not too large succeeds, whatever the number of ranks (more ranks than buckets included).", "quantifier": "every tree within the stated limits, every rank count", "why_tests_cant": "every tree and rank count; failures depend on sums of sizes", "anchors": ["parfu_0_5_1_main_versA.c:main", "parfu_data_transfer.cc:parfu_wtar_archive_list_to_singeFP", "parfu_file_list_utils.cc:parfu_set_offsets_and_split_ffel"]}
{"id": "C49", "title": "A legacy archive does not depend on the number of ranks", "statement": "Running parfu 0.5.1 on the same directory with another number of ranks succeeds as well and gives an archive with the same members in the same order.", "quantifier": "every pair of rank counts, every tree", "why_tests_cant": "all rank counts", "anchors": ["parfu_data_transfer.cc:parfu_wtar_archive_allbuckets_singFP"]}
{"id": "C50", "title": "A legacy run only closes files it has opened", "statement": "Every file handle a legacy run closes is one it has opened before.", "quantifier": "every run", "why_tests_cant": "closing an unset handle may go unnoticed with one MPI library", "anchors": ["parfu_data_transfer.cc:parfu_wtar_archive_one_bucket_singFP"]}
{"id": "C51", "title": "The space after a legacy catalog can be skipped", "statement": "The space between the catalog at the front of a legacy archive and the first member is filled so that a tar reader gets across it.", "quantifier": "every length the catalog can have", "why_tests_cant": "fails for one catalog length in 4 MiB only", "anchors": ["parfu_data_transfer.cc:parfu_wtar_archive_list_to_singeFP", "parfu_buffer_utils.c:parfu_construct_tar_header_for_space"]}
{"id": "C52", "title": "A legacy run leaves only the new archive in the file", "statement": "After a legacy run, the archive file holds the new archive and nothing of what it held before.", "quantifier": "every previous content of the file", "why_tests_cant": "all previous contents and archive sizes", "anchors": ["parfu_data_transfer.cc:parfu_wtar_archive_list_to_singeFP"]}
{"id": "C53", "title": "Extracting the archive gives the tree back", "statement": "When a create run ends with success, extracting the archive with a tar program, member after member, into a place where nothing is in the way succeeds and produces exactly the reachable part of the archived tree: every object at its place, with its type, contents or link target, permissions, numeric owner, group and time, and nothing else.", "quantifier": "every tree a job can be planned for, every schedule, number of workers, buffer contents", "why_tests_cant": "all trees and all schedules; the archive is written piecewise by concurrent workers", "anchors": ["parfu_main_0_6_test.cc", "parfu_rank_move_data.cc", "parfu_worker_node.cc", "tarentry.cc"]}
{"id": "C54", "title": "Extracting a legacy archive gives the visible tree back", "statement": "When a legacy run succeeds, extracting the archive with a tar program gives back every object of the tree whose path has no dot-name, at its place and with its attributes, and besides them only the files .parfu_catalog and '.parfu_spacer '.", "quantifier": "every tree the legacy program can archive, number of ranks, order of writes, previous contents of the file", "why_tests_cant": "all trees, rank counts and write orders", "anchors": ["parfu_0_5_1_main_versA.c", "parfu_data_transfer.cc:parfu_wtar_archive_list_to_singeFP"]}
{"id": "C55", "title": "An interrupted legacy archive run is recognisable", "statement": "If parfu 0.5.1 is interrupted while making an archive, at whatever point, every byte written so far is where the finished archive has it, the catalog is complete before any data of the tree is in the file, and the file is not mistaken for a finished archive.", "quantifier": "every tree, every number of ranks, every interleaving of the ranks, every point of interruption, every old contents of the file", "why_tests_cant": "all interleavings and all points of interruption", "anchors": ["parfu_data_transfer.cc:parfu_wtar_archive_list_to_singeFP", "parfu_data_transfer.cc:parfu_wtar_archive_allbuckets_singFP"]}
{"id": "C56", "title": "All ranks of a legacy archive run end, and status 0 means an archive", "statement": "Every rank of a create run of parfu 0.5.1 ends, whatever happens; if a rank ends with status 0 the archive is complete when it does, in every interleaving.", "quantifier": "every tree, every number of ranks, every interleaving, every failure of the scan, the catalog, the layout, a bucket, or the opening of the archive", "why_tests_cant": "all interleavings and all failures", "anchors": ["parfu_0_5_1_main_versA.c:main", "parfu_data_transfer.cc:parfu_wtar_archive_list_to_singeFP", "parfu_data_transfer.cc:parfu_wtar_archive_allbuckets_singFP"]}
{"id": "C57", "title": "The benchmark option parser keeps what it is given", "statement": "The option parser of the benchmark returns NULL exactly for command lines that make no sense (an unknown option, two modes, two iteration counts, a number out of range), and otherwise a structure that holds exactly the given values, in their order.", "quantifier": "every list of options and arguments", "why_tests_cant": "all option lists, of any length", "anchors": ["parfu_behavior_control.c:parfu_init_behavior_control", "parfu_behavior_control.c:parfu_parse_arguments"]}
{"id": "C58", "title": "Copies of the tool's objects are copies", "statement": "Copying or assigning a collection of targets, slices or container files, or a file or directory object, gives an object equal to the original.", "quantifier": "every object that can be built, and every pair of objects for assignment", "why_tests_cant": "all contents of both sides", "anchors": ["parfu_file_system_classes.hh", "parfu_file_system_classes.cc"]}
{"id": "C59", "title": "Queries of a set of orders", "statement": "The name of order i is that order's name, and the empty string for an index outside the set; the total size a worker reports for a set of orders is the number of bytes it then writes.", "quantifier": "every set of orders, every index, every file system", "why_tests_cant": "all indices, including negative ones and the one past the end", "anchors": ["parfu_rank_move_data.cc"]}
{"id": "C60", "title": "Rounding up to the tar block", "statement": "Rounding a 64-bit size or position up to the tar block size, by either of the two functions of the code, gives the least multiple of 512 that is not smaller; the two always agree.", "quantifier": "every 64-bit value up to 2^64-512; beyond, both give 0", "why_tests_cant": "all 2^64 values", "anchors": ["tarentry.cc:round_to_block", "parfu_file_system_classes.cc:parfu_next_block_boundary"]}
{"id": "C61", "title": "A container file can be opened", "statement": "Opening a container file object for writing gives it a handle to the file.", "quantifier": "every container file object a program can make", "why_tests_cant": "all ways to make, copy and assign such objects", "anchors": ["parfu_file_system_classes.hh:Parfu_container_file"]}
{"id": "C62", "title": "Modes of the legacy program", "statement": "parfu_0_5_1 X extracts the archive, T lists it, and any other call ends on all ranks with an error status.", "quantifier": "every command line, every number of ranks, every interleaving, every archive", "why_tests_cant": "all command lines and all interleavings", "anchors": ["parfu_0_5_1_main_versA.c:main"]}
{"id": "C63", "title": "Status 0 means the archive is there", "statement": "If parfu 0.6 ends with status 0, the archive file holds every directory, file and link of the trees it was given.", "quantifier": "every tree, every number of ranks, every schedule, every content of memory", "why_tests_cant": "all trees, all schedules, all memory contents", "anchors": ["parfu_main_0_6_test.cc:main", "parfu_file_system_classes.cc:Parfu_target_collection", "tarentry.cc:compute_hdr_size"]}
{"id": "C64", "title": "A file that changes while it is being archived does not damage the others", "statement": "parfu 0.6 looks at a file twice: when it scans the tree and when it copies the file. If contents, times, sizes change in between, every other member is still stored as it is on disk and can be read back.", "quantifier": "every pair of trees of the same shape, every number of ranks, every schedule", "why_tests_cant": "all ways in which a tree can change during a run", "anchors": ["parfu_file_system_classes.cc:spider_directory", "parfu_rank_move_data.cc:move_data_Create", "parfu_rank_move_data.cc:parfu_make_tar_header_at"]}
{"id": "C65", "title": "An interrupted archive can be told from a finished one", "statement": "If a create run of parfu 0.6 is interrupted (killed, node lost, quota), a tar reader applied to the file it leaves reports an error unless all objects are in it with their data.", "quantifier": "every tree, every number of workers, every schedule, every moment of the run after the archive was created", "why_tests_cant": "all crash points of all schedules", "anchors": ["parfu_worker_node.cc:parfu_worker_node", "parfu_rank_move_data.cc:move_data_Create", "parfu_boss_functions.cc:push_out_all_orders"]}
{"id": "C66", "title": "A worker that stops costs only its own bundle", "statement": "If some, but not all, workers of a create run stall for ever or fail while carrying out a bundle, all bundles are still handed out and all except the ones these workers hold are carried out.", "quantifier": "every number of workers and bundles, every set of stalled workers, every schedule", "why_tests_cant": "all schedules and all sets of stalled workers", "anchors": ["parfu_boss_functions.cc:push_out_all_orders", "parfu_worker_node.cc:parfu_worker_node"]}
{"id": "C67", "title": "The write benchmark writes every rank and iteration to its own place", "statement": "In the write benchmark every rank writes, in every iteration, the same known numbers to a place of its own inside the file it was assigned, so that the files in the end hold all the data the reported transfer rate counts.", "quantifier": "every number of ranks, files and iterations, every buffer and data size, whatever the memory held", "why_tests_cant": "Depends on the arithmetic relation between ranks, files and iterations; tests run one or two layouts, usually evenly divided ones.", "anchors": ["parfu_write_test.c:main"]}
{"id": "C68", "title": "The write benchmark refuses numbers it cannot work with", "statement": "The write benchmark runs for every combination of numbers it accepts on the command line and refuses the others before touching memory or files.", "quantifier": "every combination of the four numbers, every number of ranks", "why_tests_cant": "A test tries a few combinations; undefined behaviour often looks like success.", "anchors": ["parfu_write_test.c:main"]}
{"id": "C69", "title": "The 0.5.1 create mode handles every mixture of file sizes and name lengths", "statement": "For every directory of readable regular files, directories and links that is not larger than the stated limits, the create mode of parfu 0.5.1 archives it or refuses; it never writes outside its transfer buffer.", "quantifier": "every tree (names, sizes, contents), every number of ranks, every sorting function", "why_tests_cant": "Needs a file whose longer header pushes it over the bucket size next to a slightly larger file that still fits; tests do not hit that window by chance, and the overrun may go unnoticed.", "anchors": ["parfu_file_list_utils.cc:parfu_set_offsets_and_split_ffel", "parfu_data_transfer.cc:parfu_wtar_archive_one_bucket_singFP", "parfu_0_5_1_main_versA.c:main"]}
{"id": "C70", "title": "Announced lengths and orders never get out of step", "statement": "Rank 0 sends every order as two MPI messages, the length and then the bytes, and workers receive them with two calls. In every run, whatever is buffered and whatever waits, each worker receives the orders sent to it, in the order sent, each with its own length; no receive call meets a message of another kind or size; the calls never block each other for ever; and the results (each bundle carried out exactly once, the archive) are those of a protocol with whole orders.", "quantifier": "every schedule of single MPI calls, every mixture of buffered and synchronous sends, any number of ranks and bundles, any order texts below 2 GiB", "why_tests_cant": "the order in which single sends and receives of many processes happen cannot be controlled or enumerated by tests", "anchors": ["parfu_boss_functions.cc: parfu_broadcast_order, parfu_send_order_to_rank, push_out_all_orders", "parfu_worker_node.cc: parfu_worker_node"]}
{"id": "C71", "title": "Status 0 means that everything was written", "statement": "When all processes of a 0.6 create run end with status 0, the staging memory was obtained and all reads and writes of the workers succeeded, so the archive holds every member; a run in which a read or write falls short is reported.", "quantifier": "every run of the boss/worker program, every choice of failing allocations, reads and writes (also partial ones), any number of ranks and bundles, any schedule, any tree", "why_tests_cant": "disk-full, quota and I/O errors at arbitrary bundles in arbitrary schedules cannot be produced systematically by tests", "anchors": ["parfu_rank_move_data.cc: Parfu_rank_order_set::move_data_Create", "parfu_worker_node.cc: parfu_worker_node", "parfu_boss_functions.cc: push_out_all_orders"]}
{"id": "C72", "title": "A readable tree with any number of directories can be archived", "statement": "A create run of the 0.6 program on a readable directory tree does not depend on how many directories the tree has: each directory is closed after it has been read, so that the limit on open files does not matter.", "quantifier": "every tree, every limit on the number of open files of rank 0, every command line, number of ranks and schedule", "why_tests_cant": "the limit and the size of the tree are both unbounded, and the failure appears only after the whole scan, at another call", "anchors": ["parfu_file_system_classes.cc: Parfu_directory::spider_directory", "parfu_main_0_6_test.cc: main"]}
{"id": "C73", "title": "A tree with any number of files can be archived", "statement": "A create run of the 0.6 program that ends with status 0 has put the data of every file into the archive, however many files there are: each file is closed after its piece has been read, so that the limit on open files does not matter.", "quantifier": "every archivable tree and plan, every limit on the number of files each worker can open, every schedule, every contents of the workers' memory", "why_tests_cant": "needs more files than the limit of the process, and the loss shows neither in the status nor in the structure of the archive; which file is lost depends on the schedule", "anchors": ["parfu_rank_move_data.cc: Parfu_rank_order_set::move_data_Create", "parfu_file_system_classes.cc: Parfu_target_collection::create_transfer_orders"]}
{"id": "C74", "title": "A failed write never goes with success in 0.5.1", "statement": "If writing to the archive fails on any rank of a create run of parfu 0.5.1 (or a file cannot be opened or read while a bucket is made), then no rank of that run ends with status 0; a rank that ends with status 0 means that every write of every rank was made.", "quantifier": "every call of the program, every tree and file system, every number of ranks, every set of failing writes on every rank with any part of the data stored, every schedule, both behaviours of a broadcast's root", "why_tests_cant": "which write fails, on which rank and at what moment relative to the other ranks is not in the hands of a test; the claim is about all of them at once", "anchors": ["parfu_data_transfer.cc: parfu_wtar_archive_one_bucket_singFP", "parfu_data_transfer.cc: parfu_wtar_archive_list_to_singeFP", "parfu_0_5_1_main_versA.c: main"]}
{"id": "C75", "title": "Both programs archive the same members", "statement": "Archiving the same directory with parfu 0.6 and with parfu 0.5.1 gives archives with the same members (paths, types, owners, times, link targets, contents), apart from the catalog and filler members 0.5.1 adds for itself; extracting them gives the same files.", "quantifier": "every directory tree, every pair of successful runs with any number of processes, schedules, bucket sizes, orders of writes and old contents of the archive file", "why_tests_cant": "two different programs, each with its own scan, layout and distribution of work over processes, have to agree for all trees", "anchors": ["parfu_file_system_classes.cc: spider_directory", "parfu_file_list_utils.cc: parfu_build_file_list_from_directory", "parfu_main_0_6.cc: main", "parfu_0_5_1_main_versA.c: main"]}
{"id": "C76", "title": "Archive, extract, archive again", "statement": "Extracting an archive made by parfu 0.6 into an empty place and archiving the extracted directory again (from the same place, by the same owners' database) gives an archive with exactly the same members.", "quantifier": "every archivable tree, every pair of successful runs with any numbers of processes, schedules, bucket and bundle sizes, every extracted tree in any listing order", "why_tests_cant": "composition of two whole parallel runs and an extraction, over all trees and schedules", "anchors": ["parfu_main_0_6.cc: main", "parfu_file_system_classes.cc: spider_directory", "tarentry.cc: Tarentry::make_tar_header"]}
{"id": "C77", "title": "Files that change while parfu 0.5.1 is archiving them", "statement": "If files change between the moment parfu 0.5.1 lists the tree and the moment it copies them, success on all ranks still means that every listed object was there when copied, and a change of one file does not damage or hide the members of the others.", "quantifier": "every archivable tree as listed, every state of the file system at the time of copying, every number of ranks, order of writes and old contents of the archive", "why_tests_cant": "the change can happen to any file at any moment, to any size, and what is lost is a different file; tests run on quiet trees", "anchors": ["parfu_data_transfer.cc: parfu_wtar_archive_one_bucket_singFP", "parfu_file_list_utils.cc: parfu_set_offsets_and_split_ffel", "tarentry.cc: Tarentry::Tarentry", "parfu_0_5_1_main_versA.c: main"]}
{"id": "C78", "title": "A broadcast changes only the variable it is for (parfu 0.5.1)", "statement": "When rank 0 tells the other ranks where the data begins and how long the catalog is, each of them has that value afterwards and every other variable of theirs is as before.", "quantifier": "every content of the memory of rank 0 and of the receiving rank, every position of the variables in it, every number of ranks and buckets", "why_tests_cant": "what lies behind the variable is up to the compiler; a test sees one layout", "anchors": ["parfu_data_transfer.cc: parfu_wtar_archive_list_to_singeFP", "parfu_data_transfer.cc: parfu_wtar_archive_allbuckets_singFP"]}
{"id": "C79", "title": "Both lists of a layout can be freed (parfu 0.5.1)", "statement": "After a layout the list given and the list returned can each be freed once, in either order; that releases the memory of both, nothing else, and nothing twice.", "quantifier": "every list of entries, every capacity it was created with, every bucket and block size, every other memory the program holds, both orders of freeing", "why_tests_cant": "a double free is undefined and depends on the sizes of all files; a test sees some sizes and one allocator", "anchors": ["parfu_file_list_utils.cc: parfu_free_ffel", "parfu_file_list_utils.cc: parfu_set_offsets_and_split_ffel", "parfu_file_list_utils.cc: parfu_add_entry_to_ffel_raw"]}
{"id": "C80", "title": "A legacy archive can be extracted and archived again", "statement": "Extracting an archive made by parfu 0.5.1 in an empty place and archiving what was extracted again, with parfu 0.5.1 or with parfu 0.6, gives an archive with exactly the same members, except for the catalog and fillers that parfu 0.5.1 adds for itself.", "quantifier": "every tree, every number of ranks and processes, every order of the writes, every schedule, every bucket size of 0.6, every old contents of the files", "why_tests_cant": "a relation between two runs of two programs and an extraction, over all trees and schedules", "anchors": ["parfu_data_transfer.cc: parfu_wtar_archive_list_to_singeFP", "tarentry.cc: Tarentry::make_tar_header"]}
{"id": "C81", "title": "The archive does not depend on the order in which directories list their entries", "statement": "Two file systems that hold the same objects under the same paths, with the same attributes and contents, give the same archive, whatever order their directories list the entries in: parfu 0.5.1 writes exactly the same bytes, and parfu 0.6 archives the same members in the same order.", "quantifier": "every pair of trees with the same objects, every order of the directory listings, every conforming sorting algorithm, every number of ranks, every schedule", "why_tests_cant": "a relation between two runs over all trees and all listing orders; a test runs on one file system with one listing order", "anchors": ["parfu_file_list_utils.cc: parfu_build_file_list_from_directory", "parfu_file_list_utils.cc: parfu_qsort_entry_list", "parfu_file_system_classes.cc: order_files", "parfu_file_system_classes.cc: spider_directory"]}
{"id": "C82", "title": "Runs that create the same archive at the same time do not mix", "statement": "When several runs create the same archive at the same time, at most one of them succeeds, and then the archive is exactly that run's archive: no other run has written a byte into it or reports success; all the others end with an error, and no run keeps another from ending.", "quantifier": "every number of runs, every number of ranks of each, every tree of each, every interleaving of the steps of all processes of all runs, whether or not the archive was there before", "why_tests_cant": "the interleavings of several parallel programs are too many to try, and a test starts one run at a time", "anchors": ["parfu_main_0_6_test.cc: main", "parfu_data_transfer.cc: parfu_archive_1file_singFP"]}
{"id": "C83", "title": "An interrupted run can be started again", "statement": "If a run is interrupted at any point, even in the middle of a write, and started again with the same arguments, then the second run never reports success over an incomplete archive: parfu 0.6 refuses with an error and leaves the file as it is (or makes the whole archive, if the first run had not made the file yet), and parfu 0.5.1 makes, byte for byte, the file that an undisturbed run makes, on all ranks with status 0.", "quantifier": "every tree within the limits of C19 and C46, every number of ranks, every point of interruption, every part of the unfinished writes that is left behind, every schedule of the second run", "why_tests_cant": "the points at which a run can be interrupted, and what is then in the file, are too many to try", "anchors": ["parfu_main_0_6_test.cc: main", "parfu_data_transfer.cc: parfu_archive_1file_singFP"]}
{"id": "C84", "title": "The archive of a directory is the part of the archive of the tree around it", "statement": "If a tree is archived, and a directory somewhere inside it is archived too (given by its full name), the second archive holds exactly those members of the first that are at or below the directory, with the same names, attributes and contents; in 0.5.1, for a directory that is not hidden or inside a hidden one, and leaving out the members parfu adds of its own.", "quantifier": "every tree, every directory inside it, every number of ranks, bucket size and schedule of both runs", "why_tests_cant": "a relation between two runs over all trees and all directories inside them", "anchors": ["parfu_file_system_classes.cc: spider_directory", "parfu_file_list_utils.cc: parfu_build_file_list_from_directory"]}
{"id": "C85", "title": "Objects that have not changed stay where they were", "statement": "Two parfu 0.6 archives of a tree, made at two times with nothing added, removed, renamed, resized or relinked in between (contents, permissions, owners and times may have changed), have the same length and the same member names in the same order; every object is at the same position in both; one that has not changed has the same header and contents there, byte for byte; and the archives differ nowhere but inside members of objects that have changed, and in padding. The catalog that parfu 0.5.1 puts in front of an archive is the same, byte for byte, for both trees.", "quantifier": "every pair of trees of the same shape, every pair of successful runs on them, with any numbers of processes, schedules and previous contents of memory, of each program", "why_tests_cant": "A test compares the archives of a few pairs of trees from a few runs; that a change of one object never moves or alters another needs all trees and all schedules.", "anchors": ["parfu_main_0_6.cc: main", "parfu_file_system_classes.cc: Parfu_target_collection::set_offsets, create_transfer_orders", "parfu_file_list_utils.cc: parfu_build_file_list_from_directory, parfu_file_list_to_buffer"]}

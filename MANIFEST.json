{
 "claims": [
  {
   "property": "C01",
   "status": "proved",
   "theorems": [
    "Casync.Chunker.C01_cuts_independent_of_buffering",
    "Casync.Chunker.C01_scan_split",
    "Casync.Chunker.writeAll_refines_spec"
   ],
   "note": ""
  },
  {
   "property": "C02",
   "status": "proved",
   "theorems": [
    "Casync.Chunker.C02_lossless"
   ],
   "note": ""
  },
  {
   "property": "C03",
   "status": "proved",
   "theorems": [
    "Casync.Chunker.C03_sizes",
    "Casync.Chunker.C03_sizes_usual",
    "Casync.Chunker.C03_max_below_window_violated"
   ],
   "note": "exact bound max(max,48) proved; the plain upper bound max is false of the code when max < 48 and not fixed size (negation proved)"
  },
  {
   "property": "C04",
   "status": "proved",
   "theorems": [
    "Casync.Chunker.C04_rolling_hash",
    "Casync.Chunker.C04_cut_depends_on_window"
   ],
   "note": ""
  },
  {
   "property": "C05",
   "status": "proved",
   "theorems": [
    "Casync.Chunker.C05_resync"
   ],
   "note": ""
  },
  {
   "property": "C06",
   "status": "partial",
   "theorems": [
    "Casync.Chunker.C06_set_size_ok",
    "Casync.Chunker.C06_set_size_accepts_iff",
    "Casync.Chunker.C06_busy",
    "Casync.Chunker.C06_reconfigure_with_data_violated",
    "Casync.Chunker.C06_discriminator_undefined"
   ],
   "note": "the clause \"a chunker that already holds data refuses reconfiguration\" is false of the code for data in the unscanned part of a chunk (negation proved)"
  },
  {
   "property": "C07",
   "status": "proved",
   "theorems": [
    "Casync.Index.C07_writer_accepts_iff",
    "Casync.Index.C07_round_trip"
   ],
   "note": ""
  },
  {
   "property": "C08",
   "status": "proved",
   "theorems": [
    "Casync.Index.C08_accepts_only_canonical",
    "Casync.Index.C08_accepts_iff",
    "Casync.Index.C08_total",
    "Casync.Index.C08_truncated",
    "Casync.Index.C08_trailing_garbage",
    "Casync.Index.C08_unique"
   ],
   "note": "For files below 40*2^37 bytes (5.5 TB): only then can no end offset collide with the UINT64_MAX sentinel."
  },
  {
   "property": "C09",
   "status": "proved",
   "theorems": [
    "Casync.Index.C09_seek",
    "Casync.Index.C09_beyond_end",
    "Casync.Index.C09_position_independent",
    "Casync.Index.C09_terminates",
    "Casync.Index.C09_short_first_chunk_violated"
   ],
   "note": "Needs the first chunk to be at least the announced minimum size; without it the negation is proved."
  },
  {
   "property": "C10",
   "status": "partial",
   "theorems": [
    "Casync.Index.C10_incremental_partial",
    "Casync.Index.C10_no_needless_wait_partial",
    "Casync.Index.C10_early_read_violated"
   ],
   "note": "Reads while 41..63 bytes have arrived are excluded; for those the claim is false (negation proved)."
  },
  {
   "property": "C11",
   "status": "proved",
   "theorems": [
    "Casync.ChunkId.C11_format_denotes",
    "Casync.ChunkId.C11_round_trip",
    "Casync.ChunkId.C11_parse_iff",
    "Casync.ChunkId.C11_parse_total",
    "Casync.ChunkId.C11_path_injective",
    "Casync.ChunkId.C11_path_shape"
   ],
   "note": ""
  },
  {
   "property": "C12",
   "status": "partial",
   "theorems": [
    "Casync.ChunkId.C12_is_null_first_eight_partial",
    "Casync.ChunkId.C12_zero_is_null_partial",
    "Casync.ChunkId.C12_violated",
    "Casync.ChunkId.C12_misjudged_iff",
    "Casync.ChunkId.C12_equal_iff"
   ],
   "note": "The property is false of the code: ca_chunk_id_is_null only looks at the first 8 bytes. The negation and the exact set of misjudged ids are proved."
  },
  {
   "property": "C13",
   "status": "proved",
   "theorems": [
    "Casync.Store.C13_get_verified",
    "Casync.Store.C13_get_verified_exec"
   ],
   "note": "All answers of the file system and of the decompressor are arbitrary."
  },
  {
   "property": "C14",
   "status": "proved",
   "theorems": [
    "Casync.Store.C14_no_overwrite",
    "Casync.Store.C14_others_untouched",
    "Casync.Store.C14_round_trip",
    "Casync.Store.C14_has_iff",
    "Casync.Store.C14_put_succeeds",
    "Casync.Store.C14_path_fixed"
   ],
   "note": ""
  },
  {
   "property": "C15",
   "status": "proved",
   "theorems": [
    "Casync.ChunkFile.C15_chunk_crash",
    "Casync.ChunkFile.C15_chunk_concurrent",
    "Casync.Install.C15_install_crash",
    "Casync.Install.C15_install_success",
    "Casync.Install.C15_index_readable",
    "Casync.Install.C15_install_concurrent"
   ],
   "note": "Crash of processes at any system call, any failures and partial writes, any interleaving of writers. Power loss (missing fsync in the code) is outside the model."
  },
  {
   "property": "C16",
   "status": "partial",
   "theorems": [
    "Casync.Gc.C16_calls",
    "Casync.Gc.C16_removes_only_unreferenced_partial",
    "Casync.Gc.C16_referenced_kept",
    "Casync.Gc.C16_uncompressed_kept",
    "Casync.Gc.C16_dry_run",
    "Casync.Gc.C16_bad_index",
    "Casync.Gc.C16_removes_all_unreferenced",
    "Casync.Gc.C16_second_run",
    "Casync.Gc.C16_outside_violated",
    "Casync.Gc.C16_other_file_violated"
   ],
   "note": "Proved: unreferenced compressed chunks are removed, referenced ones never, dry run, second run. The clause that no other file is removed is false: files <id>.x.cacnk, and files in the directory that contains the store (the iterator visits '.' and '..'), shown by the two _violated theorems."
  },
  {
   "property": "C17",
   "status": "proved",
   "theorems": [
    "Casync.Flags.C17_succeeds_iff",
    "Casync.Flags.C17_areNormalized_iff",
    "Casync.Flags.C17_result_is_normalized",
    "Casync.Flags.C17_fixed_points",
    "Casync.Flags.C17_idempotent",
    "Casync.Flags.C17_unambiguous",
    "Casync.Flags.C17_keeps_granularity",
    "Casync.Flags.C17_keeps_other_bits",
    "Casync.Flags.C17_granularity_iff",
    "Casync.Flags.C17_mask_least",
    "Casync.Flags.C17_mask_everything",
    "Casync.Flags.C17_mask_idempotent"
   ],
   "note": "All 2^64 flag words."
  },
  {
   "property": "C18",
   "status": "proved",
   "theorems": [
    "Casync.Location.C18_roundtrip",
    "Casync.Location.C18_roundtrip_with",
    "Casync.Location.C18_format_injective",
    "Casync.Location.C18_new_wf",
    "Casync.Location.C18_parse_wf",
    "Casync.Location.C18_advance_wf",
    "Casync.Location.C18_merge_wf",
    "Casync.Location.C18_cache_coherent"
   ],
   "note": ""
  },
  {
   "property": "C19",
   "status": "proved",
   "theorems": [
    "Casync.Origin.C19_put",
    "Casync.Origin.C19_put_unknown",
    "Casync.Origin.C19_concat",
    "Casync.Origin.C19_extract",
    "Casync.Origin.C19_advance_items",
    "Casync.Origin.C19_advance_bytes",
    "Casync.Origin.C19_put_void",
    "Casync.Origin.C19_history"
   ],
   "note": "Up to 2^64-2 bytes per origin."
  },
  {
   "property": "C20",
   "status": "proved",
   "theorems": [
    "Casync.Match.C20_line",
    "Casync.Match.C20_strings",
    "Casync.Match.C20_file",
    "Casync.Match.C20_test",
    "Casync.Match.C20_walk",
    "Casync.Match.C20_exclude_files",
    "Casync.Match.C20_normalize_same",
    "Casync.Match.C20_order_independent",
    "Casync.Match.C20_idempotent",
    "Casync.Match.C20_negative_wins"
   ],
   "note": "Full camatch.c: parsing (including exclude files line by line), normalization with an arbitrary correct qsort(), merging and testing, and the encoder's walk with exclude files in every directory. fnmatch() is an arbitrary function; its errors and read errors are left out."
  },
  {
   "property": "C21",
   "status": "proved",
   "theorems": [
    "Casync.Goodbye.C21_lookup",
    "Casync.Goodbye.C21_tree_order",
    "Casync.Goodbye.C21_hostile_bounds",
    "Casync.Goodbye.C21_hostile_total"
   ],
   "note": "qsort(3) is a parameter constrained only to sort."
  },
  {
   "property": "C22",
   "status": "proved",
   "theorems": [
    "Casync.Buffer.C22_refines",
    "Casync.Buffer.C22_from_empty",
    "Casync.Buffer.C22_steal",
    "Casync.Buffer.C22_memchr"
   ],
   "note": "malloc does not fail; realloc_buffer_printf and the write side are not modelled."
  },
  {
   "property": "C23",
   "status": "proved",
   "theorems": [
    "Casync.Holes.C23_same_content",
    "Casync.Holes.C23_equals_plain_write",
    "Casync.Holes.C23_succeeds"
   ],
   "note": ""
  },
  {
   "property": "C24",
   "status": "proved",
   "theorems": [
    "Casync.SipHash.C24_split_independent",
    "Casync.SipHash.C24_single_call"
   ],
   "note": "Specification is SipHash-2-4 of the paper; the reference vector is checked in an example."
  },
  {
   "property": "C25",
   "status": "proved",
   "theorems": [
    "Casync.Archive.C25_round_trip",
    "Casync.Archive.C25_tree_determined",
    "Casync.Archive.C25_session_exists",
    "Casync.Archive.C25_blob_encode",
    "Casync.Archive.C25_blob_decode"
   ],
   "note": "All directory trees within the nesting limit whose metadata is representable (Spec/Archive.lean Storable), all read sizes, all ways to cut the archive; single files as root. Digests and block devices as root are not modelled."
  },
  {
   "property": "C26",
   "status": "proved",
   "theorems": [
    "Casync.Archive.C26_feeding_independent",
    "Casync.Archive.C26_session_exists"
   ],
   "note": "Sessions are the driver loop of casync.c (step; put next piece or signal the end on request); payload wanted. Feature-flag mask and expectation arbitrary."
  },
  {
   "property": "C27",
   "status": "proved",
   "theorems": [
    "Casync.Archive.C27_names_safe",
    "Casync.Archive.C27_below_destination"
   ],
   "note": "For every byte string and every split: component names are safe and the path string resolves lexically below any destination."
  },
  {
   "property": "C28",
   "status": "proved",
   "theorems": [
    "Casync.Delete.C28_only_unlisted",
    "Casync.Delete.C28_listed_kept",
    "Casync.Delete.C28_success",
    "Casync.Delete.C28_exact",
    "Casync.Delete.C28_disabled",
    "Casync.Delete.C28_names",
    "Casync.Delete.C28_archive",
    "Casync.Delete.C28_session",
    "Casync.Delete.C28_unsorted_violated",
    "Casync.Delete.C28_mount_point_emptied",
    "Casync.Delete.C28_undo_immutable",
    "Casync.Delete.C28_undo_immutable_gone",
    "Casync.Delete.C28_immutable_directory_violated"
   ],
   "note": "Proved for archives that list the names of a directory in ascending order (what the encoder writes), for every target directory, every pattern of failing system calls and every way the archive arrives. The decoder accepts unsorted names; for those the property is false (C28_unsorted_violated). An unlisted mount point is emptied (C28_mount_point_emptied). With --undo-immutable=yes immutable files are removed, immutable directories that have entries are not (C28_undo_immutable is exact, C28_immutable_directory_violated)."
  },
  {
   "property": "C29",
   "status": "proved",
   "theorems": [
    "Casync.Meta.C29_round_trip",
    "Casync.Meta.C29_stored",
    "Casync.Meta.C29_extracted"
   ],
   "note": "Ids below the shift and reserved ids are refused (C29_stored, C29_extracted), ids above the range are wrapped. The whole-object round trip is C47_restored (owner). Ids looked up by name in the local user database are not shifted by the code and not covered by C29_extracted."
  },
  {
   "property": "C30",
   "status": "partial",
   "theorems": [
    "Casync.Meta.C30_fields_partial",
    "Casync.Meta.C30_time",
    "Casync.Meta.C30_names",
    "Casync.Meta.C30_cache_transparent",
    "Casync.Meta.C30_archive_partial",
    "Casync.Meta.C30_usec_violated",
    "Casync.Meta.C30_dotted_name_violated",
    "Casync.Meta.C30_root_name_violated",
    "Casync.Meta.C30_number_as_name_violated",
    "Casync.Meta.C30_last_ns_of_1969_violated",
    "Casync.Meta.C30_before_1970_violated",
    "Casync.Meta.C30_range_violated"
   ],
   "note": "Holds for every object and flag set outside the cases listed in Spec/Meta.lean Fits and NamesOK; for each excluded case a theorem shows the code violates the property (encoder stores, decoder refuses)."
  },
  {
   "property": "C31",
   "status": "proved",
   "theorems": [
    "Casync.Seed.C31_verified",
    "Casync.Seed.C31_complete",
    "Casync.Seed.C31_large_directory_violated",
    "Casync.Seed.C31_stale"
   ],
   "note": "C31_verified: for every encoder machine whatever (the tree may change arbitrarily) a delivered chunk has the requested digest, is not empty, within the limit and the origin covers it. C31_complete: for an unchanged tree every chunk of its archive is found. C31_large_directory_violated documents that entries above 1 MiB are written but give E2BIG (an error, not wrong data)."
  },
  {
   "property": "C32",
   "status": "proved",
   "theorems": [
    "Casync.Remote.Props.C32_stream",
    "Casync.Remote.Props.C32_same_frames",
    "Casync.Remote.Props.C32_not_before_complete",
    "Casync.Remote.Props.C32_sizes",
    "Casync.Remote.Props.C32_next",
    "Casync.Remote.Props.C32_receive_only",
    "Casync.Remote.Props.C32_progress",
    "Casync.Remote.Props.C32_bounded",
    "Casync.Remote.Props.C32_step_is_history"
   ],
   "note": "For every history of calls on a connected object; starting the peer process (ca_remote_start 945-1075) is not modelled."
  },
  {
   "property": "C33",
   "status": "proved",
   "theorems": [
    "Casync.Remote.C33_refines",
    "Casync.Remote.C33_once",
    "Casync.Remote.C33_all_handed_out",
    "Casync.Remote.C33_pending",
    "Casync.Remote.C33_forget_unasked_violated"
   ],
   "note": "The symlink farm refines two first-come-first-served lists; cache directory private to the process, no I/O errors. Counterexample for forgetting a chunk that was never asked for."
  },
  {
   "property": "C34",
   "status": "proved",
   "theorems": [
    "Casync.Remote.Props.C34_request_verified",
    "Casync.Remote.Props.C34_next_chunk_verified",
    "Casync.Remote.Props.C34_not_replaced",
    "Casync.Remote.Props.C34_delivered"
   ],
   "note": "Every outcome of the request and next-chunk calls with arbitrary directory contents, failures and interference; the cache directory over arbitrary histories of the protocol engine on the operating system model."
  },
  {
   "property": "C35",
   "status": "proved",
   "theorems": [
    "Casync.Cache.C35_delivered",
    "Casync.Cache.C35_found",
    "Casync.Cache.C35_put_get",
    "Casync.Cache.C35_others_untouched",
    "Casync.Cache.C35_kept",
    "Casync.Cache.C35_removed",
    "Casync.Cache.C35_keys_distinct",
    "Casync.Cache.C35_race_violated",
    "Casync.Cache.C35_long_violated"
   ],
   "note": "Lookup: exactly what the entry says, only if every location has size and mtime and the first is the one asked for. 'Storing never replaces an existing entry' is proved as C35_kept without interference and for links that fit; it is false of the code otherwise, see the two _violated theorems."
  },
  {
   "property": "C36",
   "status": "proved",
   "theorems": [
    "Casync.NameTable.C36_roundtrip",
    "Casync.NameTable.C36_format_injective",
    "Casync.NameTable.C36_charset",
    "Casync.NameTable.C36_parse_total"
   ],
   "note": ""
  },
  {
   "property": "C37",
   "status": "partial",
   "theorems": [
    "Casync.Archive.C37_truncated_never_success_partial",
    "Casync.Archive.C37_waits_for_ever_violated"
   ],
   "note": "A proper prefix never ends in success and reports only a prefix of the tree; but the decoder only notices the end inside file content, elsewhere it asks for data for ever, so the property is false as stated: shown for every tree."
  },
  {
   "property": "C38",
   "status": "proved",
   "theorems": [
    "Casync.Make.C38_round_trip",
    "Casync.Make.C38_no_other_bytes",
    "Casync.Make.C38_make_succeeds",
    "Casync.Make.C38_store_verified",
    "Casync.Make.C38_temp_collision_violated"
   ],
   "note": "Streams in any blocks, any failures during the make, any later puts, any source chain on the reading side. Assumes no digest collision among the chunks of the stream, sizes below the store limits, free temporary names (C38_temp_collision_violated shows what happens otherwise). The chunk cache is off (Model/Cache.lean has it separately)."
  },
  {
   "property": "C39",
   "status": "proved",
   "theorems": [
    "Casync.Sync.C39_random_access",
    "Casync.Sync.C39_random_access_remote",
    "Casync.Sync.C39_progress",
    "Casync.Sync.C39_progress_remote",
    "Casync.Sync.C39_prefetch",
    "Casync.Sync.C39_prefetch_remote"
   ],
   "note": "any history of requests, seeks, skips, prefetch passes and arriving index parts; chunk answers are arbitrary from moment to moment as long as the data answered for an id of the blob is that piece (verification + no collision among the pieces)"
  },
  {
   "property": "C40",
   "status": "proved",
   "theorems": [
    "Casync.Locator.C40_classify",
    "Casync.Locator.C40_local",
    "Casync.Locator.C40_suffix_path",
    "Casync.Locator.C40_suffix_url",
    "Casync.Locator.C40_file_url",
    "Casync.Locator.C40_not_file_url",
    "Casync.Locator.C40_remote_ssh",
    "Casync.Locator.C40_remote_url",
    "Casync.Locator.C40_patch_ssh",
    "Casync.Locator.C40_patch_url",
    "Casync.Locator.C40_url_runs_ssh_violated",
    "Casync.Locator.C40_ssh_option_violated",
    "Casync.Locator.xattr_store_iff"
   ],
   "note": "Full cautil.c, plus the remote's own parsing. Findings, proved as *_violated: a URL whose host is followed by ? or ; is handed to ssh; an SSH target starting with a dash becomes an option of ssh."
  },
  {
   "property": "C41",
   "status": "partial",
   "theorems": [
    "Casync.Resume.C41_resume_partial",
    "Casync.Resume.C41_archive",
    "Casync.Resume.C41_location",
    "Casync.Resume.C41_seek_partial",
    "Casync.Resume.C41_restart_partial",
    "Casync.Resume.C41_rules_violated",
    "Casync.Resume.C41_twice_violated",
    "Casync.Resume.C41_filename_violated",
    "Casync.Resume.C41_text_violated",
    "Casync.Resume.C41_behind_violated"
   ],
   "note": "For every tree and every history of steps, reads and seeks to reported places, the rest of the session delivers exactly the rest of the archive, a seek succeeds, every byte has a location and the text of the location leads to the same place. False of the code, hence partial: trees where exclusion rules reach into subdirectories, a second seek right after one to the beginning of an open directory, and a seek to the name of an open directory (counterexamples proved)."
  },
  {
   "property": "C42",
   "status": "proved",
   "theorems": [
    "Casync.Archive.C42_seek_path",
    "Casync.Archive.C42_seek_path_offset",
    "Casync.Archive.C42_seek_next_sibling",
    "Casync.Archive.C42_at_once",
    "Casync.Archive.C42_new_decoder_accepts",
    "Casync.Archive.C42_sessions_end_well",
    "Casync.Archive.C42_without_seek",
    "Casync.Archive.C42_sessions_terminate",
    "Casync.Archive.C42_seek_new",
    "Casync.Archive.C42_after_first_step_violated"
   ],
   "note": "For archives of trees with distinct names per directory. Seeks can be refused in some histories (C42_after_first_step_violated: ENODATA after the first step of a new decoder); what an accepted seek leads to is proved for all histories."
  },
  {
   "property": "C43",
   "status": "partial",
   "theorems": [
    "Casync.Store.C43_below_limit_partial",
    "Casync.Store.C43_limit_violated",
    "Casync.Remote.Props.C43_transfer",
    "Casync.Remote.Props.C43_transfer_violated"
   ],
   "note": "The property is false at exactly 128 MiB: such a chunk is saved but cannot be read back. Below the limit it is proved. Chunks whose frame exceeds 16 MiB cannot be transferred (C43_transfer_violated), all others can."
  },
  {
   "property": "C44",
   "status": "partial",
   "theorems": [
    "Casync.Number.C44_number_roundtrip",
    "Casync.Number.C44_number_range",
    "Casync.Number.C44_size_exact_partial",
    "Casync.Number.C44_size_unit",
    "Casync.Number.C44_number_wrap_violated",
    "Casync.Number.C44_size_wrap_violated",
    "Casync.Number.C44_size_minus_violated",
    "Casync.Number.C44_number_exact_partial"
   ],
   "note": "Exactness is proved for sizes without a fraction and without vertical tab/form feed; for the rest the property is false of the code, shown by the _violated theorems."
  },
  {
   "property": "C45",
   "status": "proved",
   "theorems": [
    "Casync.Archive.C45_no_abort",
    "Casync.Archive.C26_session_exists"
   ],
   "note": "Outcome of every session is finished, error or starved; sessions always end."
  },
  {
   "property": "C46",
   "status": "proved",
   "theorems": [
    "Casync.Archive.C46_sizes_do_not_matter"
   ],
   "note": ""
  },
  {
   "property": "C47",
   "status": "partial",
   "theorems": [
    "Casync.Meta.C47_restored",
    "Casync.Meta.C47_projid_partial",
    "Casync.Meta.C47_projid_zero_violated",
    "Casync.Meta.C47_read_only_violated",
    "Casync.Meta.C47_links_not_followed"
   ],
   "note": "Proved for everything but project ids (0 is not restored, nor is the root directory's) and the permissions under WITH_READ_ONLY, for which the code is wrong: negations proved. Objects whose archive the decoder refuses (C30) are excluded by Fits."
  },
  {
   "property": "C48",
   "status": "proved",
   "theorems": [
    "Casync.Remote.Props.C48_understood",
    "Casync.Remote.Props.C48_injective",
    "Casync.Remote.Props.C48_permitted",
    "Casync.Remote.Props.C48_hello",
    "Casync.Remote.Props.C48_agreed",
    "Casync.Remote.Props.C48_sent",
    "Casync.Remote.Props.C48_end_to_end",
    "Casync.Remote.Props.C48_requests",
    "Casync.Remote.Props.C48_told",
    "Casync.Remote.Props.C48_hello_once",
    "Casync.Remote.Props.C48_not_before",
    "Casync.Remote.Props.C48_bye_once",
    "Casync.Remote.Props.C48_finished"
   ],
   "note": "Arguments of put_chunk/put_missing are 32 byte ids and abort messages are printable and short (Sensible)."
  },
  {
   "property": "C49",
   "status": "proved",
   "theorems": [
    "Casync.Remote.Props.C49_final",
    "Casync.Remote.Props.C49_end_to_end",
    "Casync.Remote.Props.C49_step_orderly",
    "Casync.Remote.Props.C49_read_end",
    "Casync.Remote.Props.C49_fresh"
   ],
   "note": "Histories in which the caller stops at a refused frame and the file is open when frames are processed (Orderly; C49_step_orderly shows ca_remote_step does this when a path is set). The file system is abstracted by Laws."
  },
  {
   "property": "C50",
   "status": "partial",
   "theorems": [
    "Casync.CacheMake.C50_index_partial",
    "Casync.CacheMake.C50_entries_partial",
    "Casync.CacheMake.C50_prefix_partial",
    "Casync.CacheMake.C50_progress_partial",
    "Casync.CacheMake.C50_kept",
    "Casync.CacheMake.C50_filling",
    "Casync.CacheMake.C50_goodbye_violated",
    "Casync.CacheMake.C50_again_violated",
    "Casync.CacheMake.C50_sessions_partial",
    "Casync.CacheMake.C50_unchanged_partial",
    "Casync.CacheMake.C50_place",
    "Casync.EndToEnd.C51_cached_partial"
   ],
   "note": "Proved for every session over every honest cache, without seeks to the name of an open directory and two seeks in a row (C41), and as long as no record is emitted twice. Both exceptions are faults of the code: C50_again_violated. With a cache filled before a file was rewritten in place the index is wrong: C50_goodbye_violated. For many sessions over one unchanged tree, with a cache that only these sessions filled, nothing is assumed of the cache: C50_unchanged_partial."
  },
  {
   "property": "C51",
   "status": "proved",
   "theorems": [
    "Casync.EndToEnd.C51_nothing_else",
    "Casync.EndToEnd.C51_round_trip"
   ],
   "note": "Up to what the decoder reports (what extraction does with it: C27, C28, C47). For indexes that were made with the chunk cache: C51_cached_partial, listed with C50."
  },
  {
   "property": "C52",
   "status": "proved",
   "theorems": [
    "Casync.Hashmap.C52_map",
    "Casync.Hashmap.C52_set_put",
    "Casync.Hashmap.C52_gc",
    "Casync.Hashmap.C52_shift_violated",
    "Casync.Hashmap.C52_removing_violated"
   ],
   "note": "All plain tables and sets, with arbitrary hash functions and allocation failures; tables that keep the order of insertion (not used by casync) and merging, moving and copying of tables are not modelled. The size limit in C52_map is sharp (C52_shift_violated). C52_removing_violated is a finding about iterating while removing, which casync does not do."
  },
  {
   "property": "C53",
   "status": "proved",
   "theorems": [
    "Casync.Nbd.C53_served",
    "Casync.Nbd.C53_served_remote",
    "Casync.Nbd.C53_served_plain",
    "Casync.Nbd.C53_answers",
    "Casync.Nbd.C53_answers_remote",
    "Casync.Nbd.C53_answers_plain",
    "Casync.Nbd.C53_attaches",
    "Casync.Nbd.C53_attaches_plain",
    "Casync.Nbd.C53_empty_refused",
    "Casync.Nbd.C53_put_checked",
    "Casync.Nbd.C53_refused_request_violated"
   ],
   "note": "Assumes that a source answering for the id of a chunk of the image delivers that chunk, and that a plain file does not change. ca_sync_step is over-approximated: the environment chooses which of its parts runs. The search for a free /dev/nbd, the fork that waits for the device and udev are not modelled. C53_refused_request_violated: the object by itself hands out a request it refused."
  },
  {
   "property": "C54",
   "status": "partial",
   "theorems": [
    "Casync.Fuse.C54_right_or_error",
    "Casync.Fuse.C54_calls_end",
    "Casync.Fuse.C54_mounts",
    "Casync.Fuse.C54_first_piece_violated"
   ],
   "note": "Proved: nothing wrong is shown, calls end, mounting ends. Partial because the error of a refused seek is admitted after any history: the code does refuse seeks for ever in some states (C54_first_piece_violated: if the first piece has only the ENTRY record of the root, mounting succeeds and every call fails with ENODATA for ever). casync_statfs, casync_ioctl, seeds while mounting and how the bytes of the archive are found (C39, C53) are not modelled."
  },
  {
   "property": "C55",
   "status": "partial",
   "theorems": [
    "Casync.Reflink.C55_content_kept",
    "Casync.Reflink.C55_unchanged_seeds_partial",
    "Casync.Reflink.C55_whole_file",
    "Casync.Reflink.C55_stale_seed_violated",
    "Casync.Reflink.C55_changed_seed_violated"
   ],
   "note": "Proved in full: the content is kept in every case, the count, complete sharing. 'Never makes an extraction fail' is proved for unchanged or removed seeds (but for clone errors that do not mean unsupported) and is false of the code otherwise, proved as C55_stale_seed_violated (ESTALE ends the extraction) and C55_changed_seed_violated (an assertion)."
  },
  {
   "property": "C56",
   "status": "proved",
   "theorems": [
    "Casync.FeatureNames.C56_printed_names_parse",
    "Casync.FeatureNames.C56_unknown_refused",
    "Casync.FeatureNames.C56_selection",
    "Casync.FeatureNames.C56_options_refused",
    "Casync.FeatureNames.C56_asks_for_known"
   ],
   "note": ""
  },
  {
   "property": "C57",
   "status": "proved",
   "theorems": [
    "Casync.Archive.C57_decoder_session_exists",
    "Casync.Archive.C57_encoder_session_exists",
    "Casync.Archive.C57_encoder_archive",
    "Casync.Archive.C57_decoder_archive",
    "Casync.Archive.C57_archive_digests",
    "Casync.Archive.C57_encoder_answers",
    "Casync.Archive.C57_decoder_answers",
    "Casync.Archive.C57_digests_agree",
    "Casync.Archive.C57_skipped_content_violated"
   ],
   "note": "for archives of directories, without seeks; the hash function is a parameter; the limit (payload or its digest wanted) is needed: without it a decoder skips content that the other digests should cover (C57_skipped_content_violated)"
  },
  {
   "property": "C58",
   "status": "proved",
   "theorems": [
    "Casync.Hardlink.C58_linked",
    "Casync.Hardlink.C58_covered_determines",
    "Casync.Hardlink.C58_target",
    "Casync.Hardlink.C58_checked",
    "Casync.Hardlink.C58_not_linked",
    "Casync.Hardlink.C58_failure",
    "Casync.Hardlink.C58_known",
    "Casync.Hardlink.C58_unchanged_linked",
    "Casync.Hardlink.C58_stale_violated",
    "Casync.Hardlink.C58_shift_violated",
    "Casync.Hardlink.C58_leftover_violated",
    "Casync.Hardlink.C58_long_path_violated",
    "Casync.Hardlink.C58_skipped"
   ],
   "note": "Violations outside the statement are proved: a seed file rewritten with the same length and time is linked; with --uid-shift the link keeps the unshifted owner; when the name is already a link to the seed file, a temporary name is left behind; a seed with a path of more than about 4080 bytes cannot be read."
  },
  {
   "property": "C59",
   "status": "proved",
   "theorems": [
    "Casync.Listing.C59_escape_back",
    "Casync.Listing.C59_escape_plain",
    "Casync.Listing.C59_mtree",
    "Casync.Listing.C59_line_plain",
    "Casync.Listing.C59_records",
    "Casync.Listing.C59_ls_mode",
    "Casync.Listing.C59_list",
    "Casync.Listing.C59_flags",
    "Casync.Listing.C59_flags_violated",
    "Casync.Listing.C59_sticky_violated"
   ],
   "note": "Outside the statement, and proved: mtree shows every flag of the archive as set for objects that are neither files nor directories (the getters fail and the initial -1 is shown), and list does not show the sticky bit of those that are not directories. Not modelled: the output of casync stat."
  },
  {
   "property": "C60",
   "status": "proved",
   "theorems": [
    "Casync.Http.Props.C60_talk",
    "Casync.Http.Props.C60_client",
    "Casync.Http.Props.C60_answers",
    "Casync.Http.Props.C60_url",
    "Casync.Http.Props.C60_url_injective",
    "Casync.Http.Props.C60_other_stores_violated",
    "Casync.Http.Props.C60_big_index_violated",
    "Casync.Http.Props.C60_error_page_violated",
    "Casync.Http.Props.C60_offers"
   ],
   "note": "libcurl is an arbitrary function; it is assumed not to deliver empty pieces of an archive, and that addresses are printable and at most 1 MiB. At most once: for fewer than 2^64 queue operations, as in C33. Outside the statement, and proved: only the first store is ever asked, an index of more than 16 MiB cannot be fetched, and an error page is sent as a beginning of the archive before the abort (a client with a file never installs it)."
  },
  {
   "property": "C61",
   "status": "proved",
   "theorems": [
    "Casync.Stream.C61_detect",
    "Casync.Stream.C61_load",
    "Casync.Stream.C61_load_all",
    "Casync.Stream.C61_decompress",
    "Casync.Stream.C61_decompress_all",
    "Casync.Stream.C61_save",
    "Casync.Stream.C61_compress",
    "Casync.Stream.C61_load_compress",
    "Casync.Stream.C61_round_trip",
    "Casync.Stream.C61_truncated_violated",
    "Casync.Stream.Toy.C61_short_read_violated"
   ],
   "note": "The libraries are a parameter with a contract (Spec/Compressor), met by a toy library. Refused with an error holds for files; data in memory that is cut short stops the program on an assertion instead (C61_truncated_violated: every library, every such data), so it is not accepted there either. Load and compress: for reads that are short only at the end of the file (C61_short_read_violated otherwise)."
  },
  {
   "property": "C62",
   "status": "partial",
   "theorems": [
    "Casync.Raw.C62_size",
    "Casync.Raw.C62_size_only",
    "Casync.Raw.C62_device",
    "Casync.Raw.C62_file",
    "Casync.Raw.C62_file_any",
    "Casync.Raw.C62_device_any",
    "Casync.Raw.C62_no_crash",
    "Casync.Raw.C62_squashfs_wrap_violated",
    "Casync.Raw.C62_ext_wrap_violated",
    "Casync.Raw.C62_retry_violated"
   ],
   "note": "Proved for every file, and for every device whose file system is shorter than 2^64 bytes according to its superblock (or has none). Missing because the code violates it: a superblock that claims nearly 2^64 bytes (squashfs) or as many as that (ext) wraps around to a small size, and the image is cut short or empty although the call succeeds (C62_squashfs_wrap_violated, C62_ext_wrap_violated)."
  },
  {
   "property": "C63",
   "status": "partial",
   "theorems": [
    "Casync.ChunkOptions.C63_accepted",
    "Casync.ChunkOptions.C63_used",
    "Casync.ChunkOptions.C63_text",
    "Casync.ChunkOptions.C63_large_violated"
   ],
   "note": "Proved for every text, and that accepted sizes are used for every average below 9324557 bytes. Missing because the code violates it: for larger averages, which are accepted, the conversion of the discriminator is undefined (C63_large_violated)."
  },
  {
   "property": "C64",
   "status": "partial",
   "theorems": [
    "Casync.TempName.C64_accepted",
    "Casync.TempName.C64_same_directory",
    "Casync.TempName.C64_distinct",
    "Casync.TempName.C64_suffix",
    "Casync.TempName.C64_no_chunk",
    "Casync.TempName.C64_fits_partial",
    "Casync.TempName.C64_long_violated"
   ],
   "note": "All but the last sentence proved for every path and number. Missing because the code violates it: names of 238 to 255 bytes have a temporary name that is too long (C64_long_violated); up to 237 bytes it fits (C64_fits_partial)."
  },
  {
   "property": "C65",
   "status": "partial",
   "theorems": [
    "Casync.Archive.C65_listing",
    "Casync.ArchiveFile.C65_file",
    "Casync.ArchiveFile.C65_ends",
    "Casync.ArchiveFile.C65_position",
    "Casync.ArchiveFile.C65_loops_violated",
    "Casync.ArchiveFile.C65_pipe_violated"
   ],
   "note": "The same objects and the same end: proved for every archive that a full decode does not find too short, with data that is put (C65_listing) and with a file that is read and positioned (C65_file); the offsets (C65_position) for every archive. Missing because the code violates it: the end of the listing of every archive (C65_loops_violated: a size near 2^64 moves the position in the file backwards; otherwise it ends, C65_ends), and archives that are not regular files (C65_pipe_violated)."
  },
  {
   "property": "C66",
   "status": "proved",
   "theorems": [
    "Casync.ReadLink.C66_whole",
    "Casync.ReadLink.C66_error",
    "Casync.ReadLink.C66_read",
    "Casync.ReadLink.C66_ends"
   ],
   "note": "For every sequence of answers of the kernel. Allocation failure is not modelled."
  },
  {
   "property": "C67",
   "status": "proved",
   "theorems": [
    "Casync.TmpDir.C67_chosen",
    "Casync.TmpDir.C67_fails",
    "Casync.TmpDir.C67_safe",
    "Casync.TmpDir.C67_var",
    "Casync.TmpDir.C67_small"
   ],
   "note": "For every value of the variables and every file system; the directory may change after the check."
  },
  {
   "property": "C68",
   "status": "proved",
   "theorems": [
    "Casync.Remote.Props.C68_woken",
    "Casync.Remote.Props.C68_no_deadlock",
    "Casync.Remote.Props.C68_together",
    "Casync.Remote.Props.C68_not_idle"
   ],
   "note": "The descriptors are connected; the timeout and the signal mask of ppoll() are not modelled. That a side which is not waiting goes on to wait or ends is C32_progress and the callers' affair."
  }
 ]
}
{
 "claims": [
  {
   "property": "C01",
   "status": "proved",
   "theorems": [
    "Casync.Chunker.C01_cuts_independent_of_buffering",
    "Casync.Chunker.C01_scan_split",
    "Casync.Chunker.writeAll_refines_spec"
   ],
   "note": ""
  },
  {
   "property": "C02",
   "status": "proved",
   "theorems": [
    "Casync.Chunker.C02_lossless"
   ],
   "note": ""
  },
  {
   "property": "C03",
   "status": "proved",
   "theorems": [
    "Casync.Chunker.C03_sizes",
    "Casync.Chunker.C03_sizes_usual",
    "Casync.Chunker.C03_max_below_window_violated"
   ],
   "note": "exact bound max(max,48) proved; the plain upper bound max is false of the code when max < 48 and not fixed size (negation proved)"
  },
  {
   "property": "C04",
   "status": "proved",
   "theorems": [
    "Casync.Chunker.C04_rolling_hash",
    "Casync.Chunker.C04_cut_depends_on_window"
   ],
   "note": ""
  },
  {
   "property": "C05",
   "status": "proved",
   "theorems": [
    "Casync.Chunker.C05_resync"
   ],
   "note": ""
  },
  {
   "property": "C06",
   "status": "partial",
   "theorems": [
    "Casync.Chunker.C06_set_size_ok",
    "Casync.Chunker.C06_set_size_accepts_iff",
    "Casync.Chunker.C06_busy",
    "Casync.Chunker.C06_reconfigure_with_data_violated",
    "Casync.Chunker.C06_discriminator_undefined"
   ],
   "note": "the clause \"a chunker that already holds data refuses reconfiguration\" is false of the code for data in the unscanned part of a chunk (negation proved)"
  },
  {
   "property": "C07",
   "status": "proved",
   "theorems": [
    "Casync.Index.C07_writer_accepts_iff",
    "Casync.Index.C07_round_trip"
   ],
   "note": ""
  },
  {
   "property": "C08",
   "status": "proved",
   "theorems": [
    "Casync.Index.C08_accepts_only_canonical",
    "Casync.Index.C08_accepts_iff",
    "Casync.Index.C08_total",
    "Casync.Index.C08_truncated",
    "Casync.Index.C08_trailing_garbage",
    "Casync.Index.C08_unique"
   ],
   "note": "For files below 40*2^37 bytes (5.5 TB): only then can no end offset collide with the UINT64_MAX sentinel."
  },
  {
   "property": "C09",
   "status": "proved",
   "theorems": [
    "Casync.Index.C09_seek",
    "Casync.Index.C09_beyond_end",
    "Casync.Index.C09_position_independent",
    "Casync.Index.C09_terminates",
    "Casync.Index.C09_short_first_chunk_violated"
   ],
   "note": "Needs the first chunk to be at least the announced minimum size; without it the negation is proved."
  },
  {
   "property": "C10",
   "status": "partial",
   "theorems": [
    "Casync.Index.C10_incremental_partial",
    "Casync.Index.C10_no_needless_wait_partial",
    "Casync.Index.C10_early_read_violated"
   ],
   "note": "Reads while 41..63 bytes have arrived are excluded; for those the claim is false (negation proved)."
  },
  {
   "property": "C11",
   "status": "proved",
   "theorems": [
    "Casync.ChunkId.C11_format_denotes",
    "Casync.ChunkId.C11_round_trip",
    "Casync.ChunkId.C11_parse_iff",
    "Casync.ChunkId.C11_parse_total",
    "Casync.ChunkId.C11_path_injective",
    "Casync.ChunkId.C11_path_shape"
   ],
   "note": ""
  },
  {
   "property": "C12",
   "status": "partial",
   "theorems": [
    "Casync.ChunkId.C12_is_null_first_eight_partial",
    "Casync.ChunkId.C12_zero_is_null_partial",
    "Casync.ChunkId.C12_violated",
    "Casync.ChunkId.C12_misjudged_iff",
    "Casync.ChunkId.C12_equal_iff"
   ],
   "note": "The property is false of the code: ca_chunk_id_is_null only looks at the first 8 bytes. The negation and the exact set of misjudged ids are proved."
  },
  {
   "property": "C13",
   "status": "proved",
   "theorems": [
    "Casync.Store.C13_get_verified",
    "Casync.Store.C13_get_verified_exec"
   ],
   "note": "All answers of the file system and of the decompressor are arbitrary."
  },
  {
   "property": "C14",
   "status": "proved",
   "theorems": [
    "Casync.Store.C14_no_overwrite",
    "Casync.Store.C14_others_untouched",
    "Casync.Store.C14_round_trip",
    "Casync.Store.C14_has_iff",
    "Casync.Store.C14_put_succeeds",
    "Casync.Store.C14_path_fixed"
   ],
   "note": ""
  },
  {
   "property": "C15",
   "status": "proved",
   "theorems": [
    "Casync.ChunkFile.C15_chunk_crash",
    "Casync.ChunkFile.C15_chunk_concurrent",
    "Casync.Install.C15_install_crash",
    "Casync.Install.C15_install_success",
    "Casync.Install.C15_index_readable",
    "Casync.Install.C15_install_concurrent"
   ],
   "note": "Crash of processes at any system call, any failures and partial writes, any interleaving of writers. Power loss (missing fsync in the code) is outside the model."
  },
  {
   "property": "C16",
   "status": "partial",
   "theorems": [
    "Casync.Gc.C16_calls",
    "Casync.Gc.C16_removes_only_unreferenced_partial",
    "Casync.Gc.C16_referenced_kept",
    "Casync.Gc.C16_uncompressed_kept",
    "Casync.Gc.C16_dry_run",
    "Casync.Gc.C16_bad_index",
    "Casync.Gc.C16_removes_all_unreferenced",
    "Casync.Gc.C16_second_run",
    "Casync.Gc.C16_outside_violated",
    "Casync.Gc.C16_other_file_violated"
   ],
   "note": "Proved: unreferenced compressed chunks are removed, referenced ones never, dry run, second run. The clause that no other file is removed is false: files <id>.x.cacnk, and files in the directory that contains the store (the iterator visits '.' and '..'), shown by the two _violated theorems."
  },
  {
   "property": "C17",
   "status": "proved",
   "theorems": [
    "Casync.Flags.C17_succeeds_iff",
    "Casync.Flags.C17_areNormalized_iff",
    "Casync.Flags.C17_result_is_normalized",
    "Casync.Flags.C17_fixed_points",
    "Casync.Flags.C17_idempotent",
    "Casync.Flags.C17_unambiguous",
    "Casync.Flags.C17_keeps_granularity",
    "Casync.Flags.C17_keeps_other_bits",
    "Casync.Flags.C17_granularity_iff",
    "Casync.Flags.C17_mask_least",
    "Casync.Flags.C17_mask_everything",
    "Casync.Flags.C17_mask_idempotent"
   ],
   "note": "All 2^64 flag words."
  },
  {
   "property": "C18",
   "status": "proved",
   "theorems": [
    "Casync.Location.C18_roundtrip",
    "Casync.Location.C18_roundtrip_with",
    "Casync.Location.C18_format_injective",
    "Casync.Location.C18_new_wf",
    "Casync.Location.C18_parse_wf",
    "Casync.Location.C18_advance_wf",
    "Casync.Location.C18_merge_wf",
    "Casync.Location.C18_cache_coherent"
   ],
   "note": ""
  },
  {
   "property": "C19",
   "status": "proved",
   "theorems": [
    "Casync.Origin.C19_put",
    "Casync.Origin.C19_put_unknown",
    "Casync.Origin.C19_concat",
    "Casync.Origin.C19_extract",
    "Casync.Origin.C19_advance_items",
    "Casync.Origin.C19_advance_bytes",
    "Casync.Origin.C19_put_void",
    "Casync.Origin.C19_history"
   ],
   "note": "Up to 2^64-2 bytes per origin."
  },
  {
   "property": "C20",
   "status": "proved",
   "theorems": [
    "Casync.Match.C20_line",
    "Casync.Match.C20_strings",
    "Casync.Match.C20_file",
    "Casync.Match.C20_test",
    "Casync.Match.C20_walk",
    "Casync.Match.C20_exclude_files",
    "Casync.Match.C20_normalize_same",
    "Casync.Match.C20_order_independent",
    "Casync.Match.C20_idempotent",
    "Casync.Match.C20_negative_wins"
   ],
   "note": "Full camatch.c: parsing (including exclude files line by line), normalization with an arbitrary correct qsort(), merging and testing, and the encoder's walk with exclude files in every directory. fnmatch() is an arbitrary function; its errors and read errors are left out."
  },
  {
   "property": "C21",
   "status": "proved",
   "theorems": [
    "Casync.Goodbye.C21_lookup",
    "Casync.Goodbye.C21_tree_order",
    "Casync.Goodbye.C21_hostile_bounds",
    "Casync.Goodbye.C21_hostile_total"
   ],
   "note": "qsort(3) is a parameter constrained only to sort."
  },
  {
   "property": "C22",
   "status": "proved",
   "theorems": [
    "Casync.Buffer.C22_refines",
    "Casync.Buffer.C22_from_empty",
    "Casync.Buffer.C22_steal",
    "Casync.Buffer.C22_memchr"
   ],
   "note": "malloc does not fail; realloc_buffer_printf and the write side are not modelled."
  },
  {
   "property": "C23",
   "status": "proved",
   "theorems": [
    "Casync.Holes.C23_same_content",
    "Casync.Holes.C23_equals_plain_write",
    "Casync.Holes.C23_succeeds"
   ],
   "note": ""
  },
  {
   "property": "C24",
   "status": "proved",
   "theorems": [
    "Casync.SipHash.C24_split_independent",
    "Casync.SipHash.C24_single_call"
   ],
   "note": "Specification is SipHash-2-4 of the paper; the reference vector is checked in an example."
  },
  {
   "property": "C25",
   "status": "proved",
   "theorems": [
    "Casync.Archive.C25_round_trip",
    "Casync.Archive.C25_tree_determined",
    "Casync.Archive.C25_session_exists",
    "Casync.Archive.C25_blob_encode",
    "Casync.Archive.C25_blob_decode"
   ],
   "note": "All directory trees within the nesting limit whose metadata is representable (Spec/Archive.lean Storable), all read sizes, all ways to cut the archive; single files as root. Digests and block devices as root are not modelled."
  },
  {
   "property": "C26",
   "status": "proved",
   "theorems": [
    "Casync.Archive.C26_feeding_independent",
    "Casync.Archive.C26_session_exists"
   ],
   "note": "Sessions are the driver loop of casync.c (step; put next piece or signal the end on request); payload wanted. Feature-flag mask and expectation arbitrary."
  },
  {
   "property": "C27",
   "status": "proved",
   "theorems": [
    "Casync.Archive.C27_names_safe",
    "Casync.Archive.C27_below_destination"
   ],
   "note": "For every byte string and every split: component names are safe and the path string resolves lexically below any destination."
  },
  {
   "property": "C29",
   "status": "proved",
   "theorems": [
    "Casync.Meta.C29_round_trip",
    "Casync.Meta.C29_stored",
    "Casync.Meta.C29_extracted"
   ],
   "note": "Ids below the shift and reserved ids are refused (C29_stored, C29_extracted), ids above the range are wrapped. The whole-object round trip is C47_restored (owner). Ids looked up by name in the local user database are not shifted by the code and not covered by C29_extracted."
  },
  {
   "property": "C30",
   "status": "partial",
   "theorems": [
    "Casync.Meta.C30_fields_partial",
    "Casync.Meta.C30_time",
    "Casync.Meta.C30_names",
    "Casync.Meta.C30_cache_transparent",
    "Casync.Meta.C30_archive_partial",
    "Casync.Meta.C30_usec_violated",
    "Casync.Meta.C30_dotted_name_violated",
    "Casync.Meta.C30_root_name_violated",
    "Casync.Meta.C30_number_as_name_violated",
    "Casync.Meta.C30_last_ns_of_1969_violated",
    "Casync.Meta.C30_before_1970_violated",
    "Casync.Meta.C30_range_violated"
   ],
   "note": "Holds for every object and flag set outside the cases listed in Spec/Meta.lean Fits and NamesOK; for each excluded case a theorem shows the code violates the property (encoder stores, decoder refuses)."
  },
  {
   "property": "C32",
   "status": "proved",
   "theorems": [
    "Casync.Remote.Props.C32_stream",
    "Casync.Remote.Props.C32_same_frames",
    "Casync.Remote.Props.C32_not_before_complete",
    "Casync.Remote.Props.C32_sizes",
    "Casync.Remote.Props.C32_next",
    "Casync.Remote.Props.C32_receive_only",
    "Casync.Remote.Props.C32_progress",
    "Casync.Remote.Props.C32_bounded",
    "Casync.Remote.Props.C32_step_is_history"
   ],
   "note": "For every history of calls on a connected object; starting the peer process (ca_remote_start 945-1075) is not modelled."
  },
  {
   "property": "C33",
   "status": "proved",
   "theorems": [
    "Casync.Remote.C33_refines",
    "Casync.Remote.C33_once",
    "Casync.Remote.C33_all_handed_out",
    "Casync.Remote.C33_pending",
    "Casync.Remote.C33_forget_unasked_violated"
   ],
   "note": "The symlink farm refines two first-come-first-served lists; cache directory private to the process, no I/O errors. Counterexample for forgetting a chunk that was never asked for."
  },
  {
   "property": "C34",
   "status": "proved",
   "theorems": [
    "Casync.Remote.Props.C34_request_verified",
    "Casync.Remote.Props.C34_next_chunk_verified",
    "Casync.Remote.Props.C34_not_replaced",
    "Casync.Remote.Props.C34_delivered"
   ],
   "note": "Every outcome of the request and next-chunk calls with arbitrary directory contents, failures and interference; the cache directory over arbitrary histories of the protocol engine on the operating system model."
  },
  {
   "property": "C36",
   "status": "proved",
   "theorems": [
    "Casync.NameTable.C36_roundtrip",
    "Casync.NameTable.C36_format_injective",
    "Casync.NameTable.C36_charset",
    "Casync.NameTable.C36_parse_total"
   ],
   "note": ""
  },
  {
   "property": "C37",
   "status": "partial",
   "theorems": [
    "Casync.Archive.C37_truncated_never_success_partial",
    "Casync.Archive.C37_waits_for_ever_violated"
   ],
   "note": "A proper prefix never ends in success and reports only a prefix of the tree; but the decoder only notices the end inside file content, elsewhere it asks for data for ever, so the property is false as stated: shown for every tree."
  },
  {
   "property": "C40",
   "status": "proved",
   "theorems": [
    "Casync.Locator.C40_classify",
    "Casync.Locator.C40_local",
    "Casync.Locator.C40_suffix_path",
    "Casync.Locator.C40_suffix_url",
    "Casync.Locator.C40_file_url",
    "Casync.Locator.C40_not_file_url",
    "Casync.Locator.C40_remote_ssh",
    "Casync.Locator.C40_remote_url",
    "Casync.Locator.C40_patch_ssh",
    "Casync.Locator.C40_patch_url",
    "Casync.Locator.C40_url_runs_ssh_violated",
    "Casync.Locator.C40_ssh_option_violated",
    "Casync.Locator.xattr_store_iff"
   ],
   "note": "Full cautil.c, plus the remote's own parsing. Findings, proved as *_violated: a URL whose host is followed by ? or ; is handed to ssh; an SSH target starting with a dash becomes an option of ssh."
  },
  {
   "property": "C43",
   "status": "partial",
   "theorems": [
    "Casync.Store.C43_below_limit_partial",
    "Casync.Store.C43_limit_violated",
    "Casync.Remote.Props.C43_transfer",
    "Casync.Remote.Props.C43_transfer_violated"
   ],
   "note": "The property is false at exactly 128 MiB: such a chunk is saved but cannot be read back. Below the limit it is proved. Chunks whose frame exceeds 16 MiB cannot be transferred (C43_transfer_violated), all others can."
  },
  {
   "property": "C44",
   "status": "partial",
   "theorems": [
    "Casync.Number.C44_number_roundtrip",
    "Casync.Number.C44_number_range",
    "Casync.Number.C44_size_exact_partial",
    "Casync.Number.C44_size_unit",
    "Casync.Number.C44_number_wrap_violated",
    "Casync.Number.C44_size_wrap_violated",
    "Casync.Number.C44_size_minus_violated",
    "Casync.Number.C44_number_exact_partial"
   ],
   "note": "Exactness is proved for sizes without a fraction and without vertical tab/form feed; for the rest the property is false of the code, shown by the _violated theorems."
  },
  {
   "property": "C45",
   "status": "proved",
   "theorems": [
    "Casync.Archive.C45_no_abort",
    "Casync.Archive.C26_session_exists"
   ],
   "note": "Outcome of every session is finished, error or starved; sessions always end."
  },
  {
   "property": "C46",
   "status": "proved",
   "theorems": [
    "Casync.Archive.C46_sizes_do_not_matter"
   ],
   "note": ""
  },
  {
   "property": "C47",
   "status": "partial",
   "theorems": [
    "Casync.Meta.C47_restored",
    "Casync.Meta.C47_projid_partial",
    "Casync.Meta.C47_projid_zero_violated",
    "Casync.Meta.C47_read_only_violated",
    "Casync.Meta.C47_links_not_followed"
   ],
   "note": "Proved for everything but project ids (0 is not restored, nor is the root directory's) and the permissions under WITH_READ_ONLY, for which the code is wrong: negations proved. Objects whose archive the decoder refuses (C30) are excluded by Fits."
  },
  {
   "property": "C48",
   "status": "proved",
   "theorems": [
    "Casync.Remote.Props.C48_understood",
    "Casync.Remote.Props.C48_injective",
    "Casync.Remote.Props.C48_permitted",
    "Casync.Remote.Props.C48_hello",
    "Casync.Remote.Props.C48_agreed",
    "Casync.Remote.Props.C48_sent",
    "Casync.Remote.Props.C48_end_to_end",
    "Casync.Remote.Props.C48_requests"
   ],
   "note": "Arguments of put_chunk/put_missing are 32 byte ids and abort messages are printable and short (Sensible)."
  },
  {
   "property": "C49",
   "status": "proved",
   "theorems": [
    "Casync.Remote.Props.C49_final",
    "Casync.Remote.Props.C49_end_to_end",
    "Casync.Remote.Props.C49_step_orderly"
   ],
   "note": "Histories in which the caller stops at a refused frame and the file is open when frames are processed (Orderly; C49_step_orderly shows ca_remote_step does this when a path is set). The file system is abstracted by Laws."
  }
 ]
}
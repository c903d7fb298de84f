{"id": "C01", "title": "Chunk boundaries do not depend on how the stream is buffered", "statement": "Feeding a byte stream to the chunker in any sequence of scan calls, whatever the buffer sizes, yields the same list of cut positions as feeding it in a single buffer (the caller re-presents the bytes after a cut, as ca_sync_write_chunks does).", "quantifier": "every byte stream, every way to split it into consecutive buffers, every accepted (min, avg, max) chunk size setting", "why_tests_cant": "The buffer splits that occur depend on file sizes, read sizes and cache hits; there are exponentially many per stream, and one bad window-fill/skip interaction at a buffer edge silently destroys deduplication.", "anchors": ["src/cachunker.c: ca_chunker_scan, ca_chunker_start, ca_chunker_roll, shall_break", "src/casync.c: ca_sync_write_chunks"]}
{"id": "C02", "title": "Chunking is lossless", "statement": "The chunks written for a stream, in order, followed by the final chunk, concatenate to exactly the stream; no chunk is empty.", "quantifier": "every byte stream, every buffering of it, every chunker setting", "why_tests_cant": "Losing or duplicating bytes at a boundary only shows up for streams whose content puts a cut on a particular buffer edge.", "anchors": ["src/casync.c: ca_sync_write_chunks, ca_sync_write_final_chunk", "src/cachunker.c: ca_chunker_scan"]}
{"id": "C03", "title": "Chunk sizes respect the configured bounds", "statement": "Every chunk but the last has a size between the configured minimum and maximum, the last one is not larger than the maximum (with the exact bound when the sizes are below the 48 byte hash window); with min = avg = max every chunk but the last has exactly that size.", "quantifier": "every byte stream, every accepted (min, avg, max), every buffering", "why_tests_cant": "The index reader rejects indexes with a chunk above the maximum, so one stream that violates the bound makes a backup unreadable; content that avoids every hash break for max bytes is not found by sampling.", "anchors": ["src/cachunker.c: ca_chunker_scan, ca_chunker_set_size", "src/cachunker.h: CA_CHUNKER_WINDOW_SIZE"]}
{"id": "C04", "title": "The cut decision depends only on the last 48 bytes and the position since the last cut", "statement": "The rolling hash the chunker maintains incrementally always equals the hash computed from scratch over the 48 most recent bytes, so the cut decision is a function of these bytes and of the number of bytes since the previous cut only.", "quantifier": "every byte stream, every position, every chunker setting", "why_tests_cant": "An error in the rolling update accumulates over unbounded history; tests only compare finitely many histories.", "anchors": ["src/cachunker.c: ca_chunker_roll, ca_chunker_start, buzhash_table", "src/util.h: rol32"]}
{"id": "C05", "title": "Chunking resynchronises after a common boundary", "statement": "If two streams have the same remaining content after a cut of each, then all later chunks of the two are the same: nothing before a cut influences what comes after it.", "quantifier": "every pair of streams with a common suffix following a cut, every setting", "why_tests_cant": "Deduplication across versions relies on this for arbitrary edits.", "anchors": ["src/cachunker.c: ca_chunker_scan (state reset on cut)"]}
{"id": "C06", "title": "Chunker size configuration is validated", "statement": "A successful configuration call leaves 1 <= min <= avg <= max <= 128 MiB, a discriminator between min and max, and honours the sizes explicitly given; an inconsistent request is rejected and leaves the chunker unchanged, and a chunker that already holds data refuses reconfiguration.", "quantifier": "every combination of min, avg and max (zero meaning default) and every chunker state", "why_tests_cant": "There are 2^192 size combinations; a division by a zero discriminator or a min above max would be a crash or an endless loop on some of them.", "anchors": ["src/cachunker.c: ca_chunker_set_size", "src/cachunk.h: CA_CHUNK_SIZE_LIMIT_MIN, CA_CHUNK_SIZE_LIMIT_MAX"]}
{"id": "C07", "title": "An index file read back gives the chunks that were written", "statement": "Writing any list of chunks (id, size) with ca_index_write_chunk and ending it with ca_index_write_eof produces a file from which ca_index_read_chunk delivers exactly these ids, end offsets and sizes in order and then end of file, with the feature flags and chunk sizes that were set.", "quantifier": "every chunk list whose sizes are accepted, every header setting", "why_tests_cant": "Round trip over lists of any length and any 256 bit ids, including ids that look like the table tail.", "anchors": ["src/caindex.c: ca_index_write_chunk, ca_index_write_eof, ca_index_read_chunk, ca_index_open"]}
{"id": "C08", "title": "Malformed index files are never silently accepted", "statement": "If a file is read as an index up to end of file without an error, then the file is byte for byte the canonical encoding of the header and chunk list that was delivered: offsets strictly increase, no chunk exceeds the maximum, the tail is present with matching sizes and nothing follows it.", "quantifier": "every byte string presented as an index file", "why_tests_cant": "The input space is all byte strings; fuzzing samples it.", "anchors": ["src/caindex.c: ca_index_read_chunk, ca_index_read_head, ca_index_open"]}
{"id": "C09", "title": "Seeking in an index finds the chunk that contains the offset", "statement": "For an index of the chunks of a blob, seeking to a byte offset within the blob positions on the chunk that contains this byte and reports the distance from the start of this chunk; an offset at or beyond the end is refused; the search terminates.", "quantifier": "every index file and every 64 bit offset", "why_tests_cant": "Binary search corner cases depend on the number of chunks and their sizes; FUSE/NBD reads from arbitrary offsets.", "anchors": ["src/caindex.c: ca_index_seek, ca_index_bisect"]}
{"id": "C10", "title": "Reading an index while it is still being downloaded", "statement": "While an index is received piecewise, reading a chunk either says 'try again' or delivers what the complete file would have delivered; once enough bytes have arrived nothing is withheld, and a premature end is an error.", "quantifier": "every index file, every sequence of pieces it arrives in, every interleaving of reads", "why_tests_cant": "Interleavings of network pieces and reads are unbounded.", "anchors": ["src/caindex.c: ca_index_incremental_write, ca_index_incremental_eof, ca_index_read_chunk, ca_index_get_available_chunks"]}
{"id": "C11", "title": "Chunk ids have one textual form and one path", "statement": "Formatting a chunk id and parsing the text gives the id back; parsing succeeds only on the 64 lower case hex digits that formatting produces; different ids, and different suffixes, have different store paths.", "quantifier": "all 2^256 ids and all strings", "why_tests_cant": "Two ids sharing a path would corrupt the store; the domain is not enumerable.", "anchors": ["src/cachunkid.c: ca_chunk_id_parse, ca_chunk_id_format, ca_chunk_id_format_path"]}
{"id": "C12", "title": "A chunk id counts as null exactly if all its bytes are zero", "statement": "ca_chunk_id_is_null reports true for the all-zero id and for no other id.", "quantifier": "all 2^256 ids", "why_tests_cant": "Only ids with a special prefix reveal a difference.", "anchors": ["src/cachunkid.h: ca_chunk_id_is_null"]}
{"id": "C13", "title": "A store never returns data that does not match the requested id", "statement": "If getting a chunk from a local store succeeds, then the digest of the (decompressed) data returned equals the requested id, under the configured digest algorithm, or under one of the supported ones if none is configured, whatever is on disk.", "quantifier": "every directory content, every id, every digest configuration, every compression", "why_tests_cant": "Corruption on disk is arbitrary.", "anchors": ["src/castore.c: ca_store_get", "src/cachunk.c: ca_chunk_file_load"]}
{"id": "C14", "title": "Chunks put into a store can be read back and are never overwritten", "statement": "After a successful put of a chunk, a get for its id returns the same data; putting an id that is present (compressed or not) fails with EEXIST and leaves every chunk unchanged; other ids are not affected.", "quantifier": "every store content, every id and data, every sequence of puts", "why_tests_cant": "Histories of store operations are unbounded, and so are sizes.", "anchors": ["src/castore.c: ca_store_put, ca_store_get, ca_store_has", "src/cachunk.c: ca_chunk_file_save, ca_chunk_file_load, ca_chunk_file_test"]}
{"id": "C15", "title": "A crash never leaves a partial file under its final name", "statement": "Chunk files, index files and received files are written under a temporary name and renamed when complete: if the process dies after any system call of the operation, the final name holds either what it held before or the complete new content.", "quantifier": "every crash point of every save, every previous directory content, every data", "why_tests_cant": "Crash points cannot be enumerated by unit tests.", "anchors": ["src/cachunk.c: ca_chunk_file_save", "src/caindex.c: ca_index_open, ca_index_install", "src/util.c: rename_noreplace", "src/caremote.c: ca_remote_file_install"]}
{"id": "C16", "title": "Garbage collection removes exactly the unreferenced chunks", "statement": "Collecting the ids of a set of indexes and cleaning up a store removes every compressed chunk file whose id is in none of the indexes, and never removes a referenced chunk or a file that is not a chunk file; a dry run removes nothing; a second run removes nothing more.", "quantifier": "every store content, every set of indexes", "why_tests_cant": "Deleting one referenced chunk destroys backups; stores and index sets are unbounded.", "anchors": ["src/gc.c: ca_chunk_collection_add_index, ca_gc_cleanup_unused"]}
{"id": "C17", "title": "Feature flags have one normal form", "statement": "Normalising a feature flag word succeeds exactly for words of known flags, is idempotent, yields a word recognised as normalised, and leaves normalised words alone; the time and uid flags that remain are unambiguous.", "quantifier": "all 2^64 flag words", "why_tests_cant": "The interactions of ~40 flags are not covered by a test matrix; archives with non-normal flags are rejected by the decoder.", "anchors": ["src/caformat-util.c: ca_feature_flags_normalize, ca_feature_flags_are_normalized, ca_feature_flags_normalize_mask"]}
{"id": "C18", "title": "Cache locations survive formatting and parsing", "statement": "Formatting a location and parsing the text yields an equal location (path, designator, offset, size, inode, mtime, generation, feature flags, archive offset and name table).", "quantifier": "every location, including paths that contain the separator characters", "why_tests_cant": "Paths are arbitrary strings and may contain + : @ % # $.", "anchors": ["src/calocation.c: ca_location_format_full, ca_location_parse"]}
{"id": "C19", "title": "Origins track the provenance of every byte", "statement": "An origin behaves as a sequence of byte provenances: putting a location appends its bytes, concatenating, extracting and advancing by n bytes act as append, take and drop, and the reported byte count is the length, so every byte of a chunk is attributed to the file position it came from.", "quantifier": "every sequence of operations, every location and size", "why_tests_cant": "Merging of adjacent locations and partial advances interact over unbounded histories; reflinks and cache entries are made from this.", "anchors": ["src/caorigin.c: ca_origin_put, ca_origin_concat, ca_origin_advance_bytes, ca_origin_extract_bytes", "src/calocation.c: ca_location_merge, ca_location_advance"]}
{"id": "C20", "title": "Exclusion rules do not depend on their order or on how often they are listed", "statement": "Normalising a rule set does not change which names it excludes, at the directory and in every subtree; the result is the same for every order of the rule lines and with lines repeated; a negated rule wins over positive ones.", "quantifier": "every rule set, every path, every order of rules", "why_tests_cant": "Sorting and merging of rule trees interact with matching at every depth.", "anchors": ["src/camatch.c: ca_match_normalize, ca_match_test, ca_match_merge, ca_match_add_child"]}
{"id": "C21", "title": "Every directory entry is found through the GOODBYE table", "statement": "The table written at the end of a directory is a complete binary search tree: a lookup of a name's hash, with the index counting up from 0, delivers every entry with this hash exactly once and then none; entries of other hashes are never delivered.", "quantifier": "every list of directory entries, every hash assignment including collisions, every hash looked up", "why_tests_cant": "Tree shapes depend on the number of entries, collisions are rare; a missed entry makes a file unreachable for random access.", "anchors": ["src/camakebst.c: ca_make_bst", "src/canametable.c: ca_name_table_make_bst", "src/cadecoder.c: format_goodbye_search_inner", "src/caencoder.c: ca_encoder_get_goodbye_data"]}
{"id": "C22", "title": "The growable buffer behaves like a byte string", "statement": "Append, extend, advance, shorten, truncate, acquire and empty act on the contents as the corresponding list operations, out of range requests are refused and change nothing, and the start/end/allocated bookkeeping never goes out of range.", "quantifier": "every sequence of buffer operations with every size", "why_tests_cant": "The move-to-front optimisation depends on the history of advances.", "anchors": ["src/realloc-buffer.c: realloc_buffer_append, realloc_buffer_advance, realloc_buffer_shorten, realloc_buffer_acquire"]}
{"id": "C23", "title": "Writing with holes writes the same file content", "statement": "loop_write_with_holes leaves the file with exactly the same content as a plain write of the same data at the same position, followed by the final truncate that extends it, and the number of bytes it reports as punched is the number of bytes not written.", "quantifier": "every data, every previous file position", "why_tests_cant": "Zero runs straddling the 4K threshold, at the start, middle and end in every combination.", "anchors": ["src/util.c: loop_write_with_holes, write_zeroes / skip handling, memeqzero"]}
{"id": "C24", "title": "SipHash is independent of how its input is split", "statement": "Hashing data in any number of compress calls of any sizes gives the same value as hashing the concatenation in a single call.", "quantifier": "every key, every data, every split", "why_tests_cant": "Residual byte handling has 8 phases times all lengths.", "anchors": ["src/siphash24.c: siphash24_init, siphash24_compress, siphash24_finalize"]}
{"id": "C25", "title": "An archive decodes to the tree it was encoded from", "statement": "For every directory tree whose metadata is representable under the selected feature flags, decoding the archive the encoder emits reproduces the tree: same names, order, types, metadata and file contents.", "quantifier": "every finite tree (any depth up to the nesting limit, any fan-out, any file contents), every normalised flag set", "why_tests_cant": "Trees and contents are unbounded; this is the core promise of the tool.", "anchors": ["src/caencoder.c: ca_encoder_step_node, ca_encoder_get_entry_data, ca_encoder_get_goodbye_data", "src/cadecoder.c: ca_decoder_step_node, ca_decoder_parse_entry, ca_decoder_parse_filename"]}
{"id": "C26", "title": "Decoding does not depend on how the archive arrives", "statement": "The events, metadata and payload bytes the decoder reports are the same for every way the archive is cut into pieces and whenever these are put, up to how payload is split.", "quantifier": "every archive byte string, every split into pieces", "why_tests_cant": "Chunks cut the archive at arbitrary content-defined places, including inside headers.", "anchors": ["src/cadecoder.c: ca_decoder_put_data, ca_decoder_step, ca_decoder_parse_entry, ca_decoder_parse_filename"]}
{"id": "C27", "title": "Extracting an archive never leaves the destination directory", "statement": "Every name the decoder accepts for a directory entry is non-empty, is not '.' or '..', and contains neither '/' nor NUL, so the path of every object extracted is a descendant of the extraction root.", "quantifier": "every byte string presented as an archive", "why_tests_cant": "Hostile archives are arbitrary byte strings.", "anchors": ["src/cadecoder.c: validate_filename, ca_decoder_parse_filename, ca_decoder_current_path"]}
{"id": "C28", "title": "Extraction with delete removes exactly what the archive does not list", "statement": "When a directory is finalised with deletion enabled, exactly the entries of the target directory that the archive does not list are removed.", "quantifier": "every target directory content, every archive directory", "why_tests_cant": "Uses binary search over the names in archive order; archives are arbitrary.", "anchors": ["src/cadecoder.c: ca_decoder_node_delete, ca_decoder_parse_filename"]}
{"id": "C29", "title": "UID/GID shifting is undone by the opposite shift", "statement": "For every id inside the shifted range, storing with a uid shift and range and extracting with the same ones gives the id back; ids outside the range, and the two reserved values, are refused or wrapped into the range, and the result of an extraction is always inside [shift, shift + range).", "quantifier": "all 2^32 ids, shifts and ranges", "why_tests_cant": "32 bit wrap-around corner cases.", "anchors": ["src/caencoder.c: ca_encoder_shift_uid", "src/cadecoder.c: ca_decoder_shift_uid, validate_uid_gid"]}
{"id": "C30", "title": "What the encoder stores the decoder accepts", "statement": "The mtime, mode, uid, gid, entry flags, user and group names that the encoder emits under a normalised flag set pass the decoder's validation under the same flag set, and the mtime stored differs from the real one by less than the selected granularity.", "quantifier": "every stat() result, every normalised flag set", "why_tests_cant": "Each flag combination has its own rounding and masking.", "anchors": ["src/caencoder.c: ca_encoder_fixup_mtime, ca_encoder_fixup_mode, uid_to_name", "src/cadecoder.c: validate_nsec, validate_mode, validate_uid_gid, validate_entry_flags, validate_user_group_name"]}
{"id": "C31", "title": "Seeds only supply chunks whose content still matches", "statement": "If a seed delivers a chunk then its digest equals the requested id and its size is within the limit, even if the seed's files changed after they were indexed; otherwise the seed reports ESTALE or another error.", "quantifier": "every seed index, every state of the seed's files at the time of the request", "why_tests_cant": "Concurrent modification of the seed tree.", "anchors": ["src/caseed.c: ca_seed_get"]}
{"id": "C32", "title": "Remote protocol framing is independent of read boundaries", "statement": "The sequence of messages a peer processes depends only on the bytes received, not on how reads cut them; a frame is never interpreted before it is complete; frames with sizes below 16 bytes or above 16 MiB are refused.", "quantifier": "every byte stream from the peer, every sequence of read sizes", "why_tests_cant": "Network reads cut the stream arbitrarily.", "anchors": ["src/caremote.c: ca_remote_read, ca_remote_process_message"]}
{"id": "C33", "title": "Requested chunks are requested from the peer once, high priority first", "statement": "Each chunk id that is enqueued is eventually dequeued; high priority requests are dequeued before low priority ones and each class in order of arrival; requesting an id that is already queued at the same or at a higher priority does not queue it again.", "quantifier": "every sequence of enqueue and dequeue operations", "why_tests_cant": "Schedules of prefetching, explicit requests and sends are unbounded.", "anchors": ["src/caremote.c: ca_remote_enqueue_request, ca_remote_dequeue_request"]}
{"id": "C34", "title": "Chunks from a remote peer are verified before they are used", "statement": "If a chunk request to a remote succeeds then the digest of the decompressed data equals the requested id, whatever the peer sent; a peer can neither replace a chunk that is in the cache directory nor make it be returned under another id.", "quantifier": "every byte sequence sent by the peer, every id", "why_tests_cant": "The peer is untrusted.", "anchors": ["src/caremote.c: ca_remote_request, ca_remote_validate_chunk, ca_remote_process_chunk"]}
{"id": "C35", "title": "A cached chunk is reused only if all its locations are unchanged", "statement": "A cache lookup delivers the id and origin stored for exactly the location asked for; an entry is delivered only if every location has a size and an mtime and the first equals the one asked for; storing never replaces an existing entry.", "quantifier": "every cache content, every location", "why_tests_cant": "Stale or truncated entries on disk are arbitrary.", "anchors": ["src/cacache.c: ca_cache_get, ca_cache_put"]}
{"id": "C36", "title": "Name tables survive formatting and parsing", "statement": "Formatting a name table with all its parents and parsing the text yields an equal table.", "quantifier": "every name table chain", "why_tests_cant": "Unbounded numbers of entries and nesting levels.", "anchors": ["src/canametable.c: ca_name_table_format, ca_name_table_parse"]}
{"id": "C37", "title": "A truncated archive is reported as an error", "statement": "If the archive ends before the end of the tree, extraction reports an error instead of success or waiting for ever.", "quantifier": "every proper prefix of every archive", "why_tests_cant": "There is a crash/truncation point per byte of each archive.", "anchors": ["src/cadecoder.c: ca_decoder_step_node, ca_decoder_put_eof", "src/casync.c: ca_sync_process_decoder_request, ca_sync_step_decode"]}
{"id": "C38", "title": "Making an index and extracting it gives the original bytes", "statement": "Chunking a stream into a store and an index and reassembling the stream from the index and any store that contains these chunks gives back exactly the stream; if a chunk is missing or damaged the extraction fails instead of delivering other bytes.", "quantifier": "every stream, every buffering, every chunker setting, every later state of the store", "why_tests_cant": "End to end composition of chunker, store and index for unbounded inputs.", "anchors": ["src/casync.c: ca_sync_write_chunks, ca_sync_write_one_chunk, ca_sync_write_final_chunk, ca_sync_process_decoder_request, ca_sync_get", "src/caindex.c", "src/castore.c"]}
{"id": "C39", "title": "Random access through an index delivers the right bytes", "statement": "After a seek to an offset, or a skip over a number of bytes, the data delivered to the decoder starts exactly at the requested byte of the blob.", "quantifier": "every blob, every chunk list, every offset and skip size", "why_tests_cant": "Offsets fall into chunks at arbitrary places; chunk_skip spans several chunks.", "anchors": ["src/casync.c: ca_sync_process_decoder_seek, ca_sync_process_decoder_skip, ca_sync_process_decoder_request", "src/caindex.c: ca_index_seek"]}
{"id": "C40", "title": "Locators are classified consistently", "statement": "Every locator string is classified as exactly one of path, URL, SSH or invalid; strings starting with '/' or './' are always paths; a URL has a protocol, '://' and a non-empty rest; file suffix based classification never depends on anything but the end of the string.", "quantifier": "every string", "why_tests_cant": "User input is arbitrary; misclassifying a path as SSH target would execute ssh.", "anchors": ["src/cautil.c: ca_classify_locator, ca_is_definitely_path, ca_is_url, ca_is_ssh_path"]}
{"id": "C41", "title": "Encoding can be resumed at any reported location", "statement": "Seeking the encoder to the location it reported at some point, and continuing, emits exactly the bytes that followed this point in the original archive (tree unchanged).", "quantifier": "every tree, every position in its archive", "why_tests_cant": "Cache invalidation and seed reads seek to arbitrary record positions with arbitrary offsets into records.", "anchors": ["src/caencoder.c: ca_encoder_current_location, ca_encoder_seek_location, ca_encoder_get_data"]}
{"id": "C42", "title": "Path lookup in an archive finds the named object", "statement": "A new decoder for a seekable archive (size and base mode known) accepts every seek to a path. After every seek the decoder accepts, whatever was done with it before, the session ends: at the object with this path and all below it, and nothing else, if the path exists in the tree, and with 'not found' otherwise, also with hash collisions between sibling names. Seeks into the content of a file and to the next sibling show the rest of the content or the next entry.", "quantifier": "every archived tree, every path string, every history of steps, puts and earlier seeks, every way to cut the data", "why_tests_cant": "Offset arithmetic backwards from the end of the archive for arbitrary trees.", "anchors": ["src/cadecoder.c: ca_decoder_seek_path, ca_decoder_do_seek, ca_decoder_parse_goodbye_tail, format_goodbye_search"]}
{"id": "C43", "title": "A chunk accepted by the save path is accepted by the load path", "statement": "Every chunk of a size that the chunker, the index and the store accept can be loaded again and can be transferred to a peer.", "quantifier": "every chunk size between 1 byte and 128 MiB", "why_tests_cant": "Only chunks at the very limit make a difference.", "anchors": ["src/cachunk.c: ca_chunk_file_save, ca_load_fd, ca_load_and_decompress_fd", "src/caremote.c: ca_remote_put_chunk", "src/caprotocol.h: CA_PROTOCOL_SIZE_MAX"]}
{"id": "C44", "title": "Numbers and sizes given as text are parsed exactly or refused", "statement": "Parsing a size delivers the exact number of bytes the text denotes with its unit or an error, never a wrapped value; formatting and parsing of 64 bit numbers round-trips.", "quantifier": "every string, every 64 bit number", "why_tests_cant": "Overflow happens only at extreme combinations of digits and units.", "anchors": ["src/parse-util.c: parse_size", "src/util.c: safe_atou64, hexchar, unhexchar"]}
{"id": "C45", "title": "No archive makes the decoder abort or loop", "statement": "For every byte string presented as an archive, in any pieces, decoding ends after finitely many calls, and never with a failed assertion: the end of the tree is reached, a call fails with an error code, or the decoder asks for data after it was told that there is none.", "quantifier": "every byte string, every split into pieces, every decoder setting", "why_tests_cant": "Hostile archives are arbitrary byte strings; termination and absence of assertion failures are universal claims.", "anchors": ["src/cadecoder.c: ca_decoder_step, ca_decoder_step_node, ca_decoder_parse_entry, ca_decoder_parse_filename"]}
{"id": "C46", "title": "The bytes of an archive do not depend on how they are read", "statement": "The archive the encoder emits for a tree is the same whatever sizes the caller suggests when it asks for data.", "quantifier": "every tree, every sequence of suggested sizes", "why_tests_cant": "There is one run per sequence of read sizes; a chunk boundary may fall anywhere.", "anchors": ["src/caencoder.c: ca_encoder_get_data, ca_encoder_step, ca_encoder_get_payload_data"]}
{"id": "C47", "title": "Extracted objects have the metadata that was stored", "statement": "If an object is stored with some feature flags, uid shift and range, and the records are then put on an object of the same type with the same settings without an error, then owner, group, permissions, ACLs, extended attributes, file capabilities, SELinux label, modification time (to the granularity stored), chattr and FAT flags, subvolume flags and project id of the result are those of the original, as far as the feature flags name them, whatever metadata the object had before. No mode is ever set through a symbolic link.", "quantifier": "all metadata Linux allows, all feature flag sets, shifts, ranges, user databases, previous metadata of the target, file system capabilities", "why_tests_cant": "The combinations of about thirty feature flags with all metadata values, target states and file system capabilities cannot be enumerated.", "anchors": ["src/cadecoder.c: ca_decoder_finalize_child, ca_decoder_realize_child, name_to_uid, ca_decoder_shift_uid, ca_decoder_child_to_acl", "src/caencoder.c: ca_encoder_get_entry_data", "src/chattr.c: mask_attr_fd"]}
{"id": "C48", "title": "Protocol messages are understood exactly as they were meant", "statement": "Everything a peer sends is a sequence of well-formed frames of at most 16 MiB that carry exactly what the calls were given; a received frame is accepted as a message exactly if it is the encoding of that message and the message is permitted in the state of the connection and by the operations both sides agreed on, otherwise it is refused without effect; the messages a peer takes are a beginning of those the other peer sent.", "quantifier": "every history of calls on both sides, every cut of the byte stream, every byte sequence as a frame", "why_tests_cant": "Interleavings of two peers and hostile frames are unbounded.", "anchors": ["src/caremote.c: ca_remote_process_message, validate_*, ca_remote_process_hello, ca_remote_send_*, ca_remote_put_*", "src/caprotocol.h"]}
{"id": "C49", "title": "An index or archive that is transferred appears under its final name only when it is complete and identical", "statement": "While an index or archive is received from a peer, the file under the final name is either what was there before or exactly the bytes the sender put, all of them; nothing appears before the end of the file was announced.", "quantifier": "every history of calls on both sides, every cut of the byte stream, every interleaving with chunk traffic, every moment", "why_tests_cant": "Interleavings and crash points are unbounded.", "anchors": ["src/caremote.c: ca_remote_file_process, ca_remote_file_process_eof, ca_remote_file_install, ca_remote_process_goodbye, ca_remote_goodbye, ca_remote_send_file, ca_remote_put_index, ca_remote_put_archive"]}
{"id": "C50", "title": "An index made with the chunk cache describes the archive of the tree", "statement": "When an index is made with a chunk cache whose entries are true, the chunks the index lists, with the ids and sizes it lists, are the archive of the tree one after another; each of them was put into the store or was delivered by the cache; what is put into the cache is true, and stays true for a tree in which the places it names have the same bytes.", "quantifier": "every tree, every digest, every chunk size, every answer of the cache at every step (entries may appear and disappear), every history of hits, misses and entries that turn out to be out of date halfway", "why_tests_cant": "The cache's answers at every step are independent choices; which records a cached chunk begins and ends in ranges over all alignments.", "anchors": ["src/casync.c: ca_sync_step_encode, ca_sync_write_chunks, ca_sync_write_one_chunk, ca_sync_write_final_chunk, ca_sync_cache_get, ca_sync_write_one_cached_chunk", "src/caencoder.c: ca_encoder_get_data, ca_encoder_seek_location", "src/caorigin.c: ca_origin_advance_bytes, ca_origin_extract_bytes", "src/cacache.c: ca_cache_get"]}
{"id": "C51", "title": "A tree that was made into an index is extracted as the same tree or not at all", "statement": "If casync make of a directory succeeded with an index and a store, then a later extraction of this index reports exactly the objects, metadata and contents of the directory, in order, and reports success only after all of it; with a damaged, incomplete or hostile store it reports a beginning of that and does not finish. With an intact store it does finish.", "quantifier": "every directory tree the format can store, every split of the archive into reads, every chunker configuration, every state of the disk before, every interleaving of failures during the make, every behaviour of stores, seeds and remotes that verify digests, every way the chunks are handed to the decoder", "why_tests_cant": "a test makes and extracts a few trees with a store that works; the claim is about all trees and all things that can happen to the store in between", "anchors": ["src/casync.c:ca_sync_step_encode", "src/casync.c:ca_sync_write_chunks", "src/casync.c:ca_sync_process_decoder_request", "src/caencoder.c:ca_encoder_step", "src/cadecoder.c:ca_decoder_step", "src/castore.c:ca_store_get"]}
{"id": "C52", "title": "A hash table is a finite map for every sequence of operations", "statement": "Whatever operations are applied to a new hash table or set, whatever the hash function and whichever allocations fail, no operation fails an assertion, loops forever or touches memory outside the table, each returns what it returns for the finite map that the operations before have built, and it reports lack of memory only if an allocation failed. In particular the set of chunk ids that garbage collection builds contains exactly the ids in the indexes.", "quantifier": "every sequence of operations (bounded only by the 32-bit size arithmetic), every key, value, hash function and hash key, every pattern of failed allocations, every pattern of collisions", "why_tests_cant": "which entries collide, displace each other, wrap around and are moved again while rehashing depends on a random hash key; tests see a few layouts.", "anchors": ["src/hashmap.c: hashmap_put_robin_hood, base_remove_entry, base_bucket_scan, resize_buckets, hashmap_base_put_boldly, hashmap_put, set_put, hashmap_replace, hashmap_update, internal_hashmap_get, internal_hashmap_remove, hashmap_remove_and_put, hashmap_remove_and_replace, hashmap_iterate_in_internal_order, internal_hashmap_reserve", "src/gc.c: gc_add_chunk_id, ca_gc_cleanup_unused"]}
{"id": "C53", "title": "The block device made by mkdev serves the image", "statement": "For casync mkdev on a chunk index (local or arriving from a remote side in pieces) or on a plain file: every reply written to the kernel carries the handle of the request before it and exactly the bytes of the image at the requested place, filled with zeroes past the end of the image; nothing else is written to the socket (a failed write cuts a reply short and ends the tool); the size announced is the size of the image rounded up to 512 bytes; no assertion fails and nothing is read out of bounds. A read request beginning at or before the end of the image is answered after a bounded number of rounds once the sources have the pieces, and an index or regular file that is not empty makes the device appear.", "quantifier": "every image and chunking of it, every sequence of messages from the kernel (also malformed ones), every order in which chunks, index parts, prefetching and short reads happen, every error at any time", "why_tests_cant": "requests of any place and size interleave with chunk arrival, seeks in the decoder, end of file and prefetching; tests read a device once or twice from the start.", "anchors": ["src/canbd.c: ca_block_device_set_size, ca_block_device_open, ca_block_device_step, ca_block_device_get_request_offset, ca_block_device_get_request_size, ca_block_device_put_data", "src/casync-tool.c: verb_mkdev", "src/casync.c: ca_sync_seek_offset, ca_sync_acquire_archive_size, ca_sync_step_decode, ca_sync_process_decoder_seek, ca_sync_process_decoder_request", "src/cadecoder.c: ca_decoder_seek_offset, ca_decoder_step, ca_decoder_step_node, ca_decoder_advance_buffer, ca_decoder_get_payload"]}
{"id": "C54", "title": "The mounted file system shows the archived tree", "statement": "After casync mount of an archive: getattr, readlink, readdir, open, read, getxattr and listxattr answer with exactly what the archived tree has at the path (type, mode, owner, group, time, size, device number, target, the entries of a directory with their attributes in the order of the archive, the content from the offset on, extended attributes), and ENOENT if there is nothing at the path; otherwise with an error that was met outside during this very call (source of the archive, interruption) or with the error of a refused seek. Nothing wrong is ever shown and nothing crashes, also after failed or interrupted calls; and every call comes to an end if the source delivers.", "quantifier": "every archive of every tree, every history of calls before with any failures in it, every path, offset, size and buffer, every way in which the archive arrives in pieces, every event in between, every error at any time", "why_tests_cant": "each call seeks in a decoder whose state (open directories, half-read records, buffered data) is left over from all the calls before, including those that failed half-way; tests mount a small tree and walk it once.", "anchors": ["src/cafuse.c: casync_getattr, casync_readlink, casync_readdir, casync_open, casync_read, casync_getxattr, casync_listxattr, fill_stat, iterate_until_file, seek_to_path, feature_flags_warning", "src/casync.c: ca_sync_seek_path, ca_sync_seek_path_offset, ca_sync_seek_next_sibling, ca_sync_acquire_archive_size, ca_sync_step_decode, ca_sync_process_decoder_request, ca_sync_process_decoder_seek, ca_sync_process_decoder_skip", "src/cadecoder.c: ca_decoder_seek_path_internal, ca_decoder_do_seek, ca_decoder_step, ca_decoder_current_mode, ca_decoder_current_size, ca_decoder_current_target"]}
{"id": "C55", "title": "Sharing data with seeds by reflinks does not change what is extracted", "statement": "When reflinks are on, cloning the ranges of an extracted file from the files its content came from leaves the file exactly as it was extracted, whatever has become of those files and whatever the kernel answers, also if cloning fails half-way; the number of bytes reported as cloned never exceeds the file. A file that is the whole of an unchanged seed file is shared completely. Reflinks are an optimisation: they do not make an extraction fail that would succeed without them.", "quantifier": "every list of origins of every file (any offsets and sizes, aligned or not, at the end of the file or not), every state of every source file at that time (changed, grown, truncated, replaced, removed), every failure of stat, read and clone", "why_tests_cant": "depends on alignment and end-of-file arithmetic of two files, on seeds that change while an extraction runs and on file systems with and without reflinks; tests usually run on a file system without.", "anchors": ["src/reflink.c: reflink_fd, validate, pread_try_harder", "src/cadecoder.c: ca_decoder_node_reflink", "src/calocation.c: ca_location_open", "src/util.h: ERRNO_IS_UNSUPPORTED"]}
{"id": "C56", "title": "Features selected by name are the features that were named", "statement": "The --with= and --without= options select exactly the features that some --with= names (all of the default if there is none) and that no --without= names, in whatever order and however often they are given; an unknown name is refused and nothing else is; what is asked for is always a valid set of flags. The names printed for a set of feature flags are accepted by the options and together stand for exactly these flags; flags that are not known are refused, and the formatting never aborts.", "quantifier": "every list of options, every default, every 64-bit word of flags", "why_tests_cant": "there are 2^33 sets of features and unboundedly many option lists; tests try a few flags.", "anchors": ["src/caformat-util.c: with_feature_map, ca_with_feature_flags_parse_one, ca_with_feature_flags_format", "src/casync-tool.c: parse_argv (ARG_WITH, ARG_WITHOUT), combined_with_flags, load_feature_flags", "src/caformat.h"]}
{"id": "C57", "title": "The digests reported on the way are those of the data", "statement": "The digest of an archive that an encoder and a decoder report at the end is that of exactly the bytes of the archive, however the data is cut into pieces and whatever follows. The digest of the content reported at the end of an object covers exactly the content of this object, the digest for hard links its metadata records and its content; for a directory there is none, for an object without content none of the content. Encoder and decoder report the same digests for the same object, also for those of malformed archives as far as they are read. This holds as long as the payload or its digest is asked for.", "quantifier": "every tree, every sequence of bytes as archive, every cut into pieces, every sizes of reads, every hash function, every subset of digests asked for", "why_tests_cant": "depends on where the pieces end inside records and content, and on every state in which a digest is reset or fed; tests compare a few digests of a few trees.", "anchors": ["src/cadecoder.c: ca_decoder_write_digest, ca_decoder_step_node, ca_decoder_get_archive_digest, ca_decoder_get_payload_digest, ca_decoder_get_hardlink_digest", "src/caencoder.c: ca_encoder_get_data, ca_encoder_step_node, ca_encoder_get_archive_digest, ca_encoder_get_payload_digest, ca_encoder_get_hardlink_digest", "src/cadigest.c"]}
{"id": "C58", "title": "A hard link to a seed file is the archived file", "statement": "When a file is extracted with --hardlink=yes and is replaced by a hard link to a file of a seed, the linked file has the archived content and all the metadata that the archive records for it, provided that the files of the seeds have not been changed since they were read, that they were read with the settings of the archive, and that the digest tells them from the archived file. Entries that a seed has for chunks are never taken for files. Even if the seed has been changed, only a regular file of the right length is linked whose permissions, owner and time agree with the archive as far as it records them. If no seed has the file, or hard links are not possible there, nothing is done; if an attempt fails, the extracted file is still there. Apart from the name, the temporary name of the extracted file and temporary names of links, no name and no file is touched. An unchanged file is linked if nothing fails.", "quantifier": "every seed tree and every history of its cache, every archived file and configuration, every content of the directory, any number of seeds, and every failure of each system call", "why_tests_cant": "it ranges over all seeds, caches, digests and failures; tests link one unchanged file in a fresh directory", "anchors": ["src/caseed.c: ca_seed_cache_hardlink, ca_seed_get_hardlink_target", "src/casync.c: ca_sync_try_hardlink", "src/cadecoder.c: ca_decoder_try_hardlink, ca_decoder_install_file, ca_decoder_mode_mask"]}
{"id": "C59", "title": "Listings show what the archive records", "statement": "The output of casync mtree determines what it lists: two listings of objects that are printed alike are of the same paths, types, permissions, sizes, symlink targets, device numbers, owners, group and user names, flags, times and content digests, in the same order; no name, target or owner, whatever bytes are in it, can forge a field, a line or an object, for all of them are printed as printable ASCII without blanks, # and bare backslashes, and are read back exactly. For objects of archives with the same features, equal lines mean that all the recorded metadata is equal. casync list determines paths, types and permissions (but for the sticky bit of objects that are not directories). For regular files and directories a flag is shown if the archive has it, and as set exactly if it is set for that object.", "quantifier": "every sequence of objects, every byte string as name, target and owner, every mode, number, time, set of flags and digest", "why_tests_cant": "it ranges over all pairs of listings of unbounded length with arbitrary names; tests print a few trees with harmless names", "anchors": ["src/casync-tool.c: mtree_escape_full, list_one_file, verb_list", "src/util.c: ls_format_mode, octchar", "src/cadecoder.c: ca_decoder_current_mode and the other getters"]}
{"id": "C60", "title": "The HTTP, FTP and SFTP helper passes on exactly what the server delivered", "statement": "Whatever the server delivers and in whatever pieces, whatever the client sends, however the connection cuts the bytes and wherever it ends: a client behind casync-http has its archive or index file as it was before, or exactly the bytes the server delivered for that address with a success; a chunk it is sent is what the server delivered with a success for that chunk's address, one it is told to be missing the server did not deliver with a success; the answers are to the client's own requests, in the order of the request queue, each chunk at most once and only if it was asked for, and no request taken from the queue is left out (but maybe the last one before the helper ends). The address of a chunk is that of the store without arguments and trailing slashes, followed by a slash, four digits, a slash, all digits and .cacnk; different chunks have different addresses.", "quantifier": "every server (any function from transfers and addresses to pieces, status and failures), every client, every schedule of the loop, every cut of the byte streams, every point at which it ends, every store address and id", "why_tests_cant": "it ranges over all interleavings of transfers, protocol messages and partial writes of unbounded length with hostile servers and clients; tests fetch a few files from a working server", "anchors": ["src/casync-http.c: run, acquire_file, process_remote, write_archive, write_index, write_archive_eof, write_index_eof, write_chunk, write_buffer, chunk_url, robust_curl_easy_perform, flush", "src/caremote.c: ca_remote_put_archive, ca_remote_put_index, ca_remote_put_chunk, ca_remote_put_missing, ca_remote_abort, ca_remote_next_request, ca_remote_step"]}
{"id": "C61", "title": "Compressed chunks are decompressed whole or not at all", "statement": "The algorithm of compressed data is recognised by its first bytes alone. Loading a compressed chunk file or decompressing a chunk in memory or into a file succeeds exactly when the data is one complete stream of that algorithm with nothing behind it and data and content are within the size limits, and delivers exactly the content, however the reads cut the file up and however the library divides its work; a file that ends too soon or goes on after the stream is refused with an error. Compressing succeeds only with one complete stream whose content is the data, and what was compressed is decompressed to what it was. All of this comes to an end.", "quantifier": "every compression library that keeps its contract (any internal state, any division of input and output over calls), every file and buffer, every cut of reads, read and write errors at any point, every content up to the limits", "why_tests_cant": "how a library divides a stream over calls depends on the data, the version and the block boundaries; tests compress one buffer and read it back", "anchors": ["src/compressor.c: detect_compression, compressor_input, compressor_decode, compressor_encode", "src/cachunk.c: ca_load_and_decompress_fd, ca_load_and_compress_fd, ca_save_and_compress_fd, ca_save_and_decompress_fd, ca_compress, ca_decompress"]}
{"id": "C62", "title": "The image of a file or device is its content", "statement": "The archive of a single file holds exactly the bytes of the file, and that of a block device exactly the first bytes of it: as many as the file system on it occupies, which is taken from the superblock of squashfs, an Android boot image, FAT or ext, or all of them when there is none or when it should be longer than the device. A payload is complete only with exactly the number of bytes that was announced for it; when the file became shorter meanwhile or a read fails, that is an error. All of this whatever sizes the caller asks for and however the file changes while it is read.", "quantifier": "every content of a file or device, every superblock, every sequence of suggested sizes, every sequence of answers of the kernel (short reads, errors, contents that change)", "why_tests_cant": "needs block devices with every kind of superblock and every field value, and files that change between two reads", "anchors": ["src/fssize.c: read_file_system_size", "src/caencoder.c: ca_encoder_node_read_device_size, ca_encoder_node_get_payload_size, ca_encoder_get_payload_data, ca_encoder_advance_buffer", "src/util.h: ALIGN_TO, IS_POWER_OF_TWO"]}
{"id": "C63", "title": "The chunk sizes given on the command line are the ones used", "statement": "--chunk-size= accepts exactly: auto, one average size between 1 byte and 128 MiB, or minimum, average and maximum in ascending order within these limits; everything else is refused. What is accepted is then used: the chunker has exactly these sizes, and a quarter of and four times the average for what was not given, although the three are set one after the other and each time checked against the others.", "quantifier": "every text, every three sizes in every unit", "why_tests_cant": "the set of texts is unbounded, and whether setting the sizes one by one can fail depends on all three", "anchors": ["src/casync-tool.c: parse_chunk_sizes, load_chunk_size", "src/casync.c: ca_sync_set_chunk_size_min, ca_sync_set_chunk_size_avg, ca_sync_set_chunk_size_max", "src/cachunker.c: ca_chunker_set_size"]}
{"id": "C64", "title": "Temporary files do not get in the way", "statement": "An output that is not finished has a temporary name: in the directory of the final one, different from it, shared with no other output and no other attempt that drew another random number, and never one that is taken for a finished chunk, index or archive. Whatever name the system accepts for the output has a temporary name the system accepts.", "quantifier": "every path, every random number", "why_tests_cant": "distinctness ranges over all pairs of paths and random numbers, and the length limit is met by names no test uses", "anchors": ["src/util.c: tempfn_random, filename_is_valid, hexchar", "src/util.h: dot_or_dot_dot", "src/cadecoder.c: ca_decoder_realize_child", "src/cacache.c, src/caindex.c, src/caremote.c, src/caseed.c, src/casync.c: callers of tempfn_random"]}
{"id": "C65", "title": "Listing an archive without reading the content of its files", "statement": "Listing an archive (a .catar file), where the content of the files is passed over rather than read, shows the same objects with the same metadata in the same order, and ends in the same way, as reading all of it does, however the reads are cut; what is read next is always at the offset in the archive that the decoder asks for; and every listing ends.", "quantifier": "every archive, every sequence of lengths of reads, every cut of the archive into pieces", "why_tests_cant": "where content is in the buffer already and where it is passed over depends on the lengths of all the reads; the sizes come from the archive and can be any 64-bit number", "anchors": ["src/casync.c: ca_sync_process_decoder_request, ca_sync_process_decoder_skip, ca_sync_step_decode", "src/util.c: skip_bytes_fd", "src/cadecoder.c: ca_decoder_step_node, ca_decoder_get_request_offset, ca_decoder_get_skip_size, ca_decoder_set_want_payload"]}
{"id": "C66", "title": "Targets of symlinks are read whole", "statement": "The target of a symlink that goes into an archive, or that a cache link is read from, is all of a target the symlink had during the call, however long it is and even if it is replaced meanwhile; reading it needs a bounded number of calls.", "quantifier": "every target, every sequence of replacements during the call", "why_tests_cant": "the kernel cuts a long target off without notice; the lengths that matter are unbounded and the symlink may change between any two calls", "anchors": ["src/util.c: readlinkat_malloc, readlink_malloc", "src/caencoder.c: ca_encoder_node_read_symlink", "src/cacache.c, src/caremote.c, src/caseed.c: callers of readlinkat_malloc"]}
{"id": "C67", "title": "Where temporary files go", "statement": "Temporary stores, seeds and caches go to the first of TMPDIR, TEMP and TMP that is an absolute path, without .. as a part, to an existing directory; if there is none, to the default directory if it exists; it fails only if that does not exist either.", "quantifier": "every value of the variables, every state of the file system", "why_tests_cant": "ranges over all values of three variables; which paths contain .. as a part is decided with prefix, suffix and substring searches", "anchors": ["src/util.c: getenv_tmp_dir, tmp_dir_internal, var_tmp_dir, tmp_dir, path_is_safe, is_dir", "src/util.h: startswith, path_is_absolute, dot_or_dot_dot", "src/castore.c, src/caseed.c, src/caindex.c, src/caremote.c: callers of var_tmp_dir"]}
{"id": "C68", "title": "Waiting for the other side never blocks when there is something to do", "statement": "When a process waits for the other side of a connection, any byte that arrives wakes it, and so does room for what it has to send; and it does not wait when there is something to read or write. Two sides that both wait, with nobody woken, have nothing left: no bytes are on the way, none wait to be sent, and each has taken all the messages of the other. With several connections, each is waited for.", "quantifier": "every history of calls on both sides, every way the bytes were cut, every capacity of the transport, any number of connections", "why_tests_cant": "a deadlock needs a particular interleaving and buffers that are full at the same time; the claim is about all schedules", "anchors": ["src/caremote.c: ca_remote_poll, ca_remote_get_io_events, ca_remote_get_read_size, ca_remote_step", "src/casync.c: ca_sync_poll, ca_sync_add_pollfd"]}

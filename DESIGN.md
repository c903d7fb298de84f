# Formal model of casync in Lean 4

Source: `/repo` (systemd/casync, pinned commit, read as text, never built or run).
Model: `lean/Verif/`. Build: `cd lean && lake build`.

## Layout

| directory | content |
|---|---|
| `lean/Verif/Base` | byte/number helpers (little endian, C strings), results with errno and "undefined" |
| `lean/Verif/Model` | the model of the code, function by function; every definition cites file and lines |
| `lean/Verif/Spec` | the specifications the theorems are stated with: small, independent of the model's helpers |
| `lean/Verif/Lemmas` | auxiliary lemmas, nothing a reader has to trust |
| `lean/Verif/Props` | the property theorems (`Cnn_...`), and `example`s or concrete theorems showing that their hypotheses are met |
| `seeded/LOG.jsonl` | wrong programs the theorems were tested against |

Theorem names: `Cnn_*` belong to property Cnn; `*_violated` are negations or counterexamples, proved about the model of the code as it is
(they document defects); `*_partial` are weaker forms of the property (the comment or MANIFEST.json says what is missing).

## Conventions

* Bytes are `UInt8`; byte strings are `List UInt8`. `uint64_t`/`size_t` values are `Nat`; wherever
  the C code can wrap, the model either reduces modulo 2^64 explicitly or carries the C overflow
  check. 64 bit `size_t` is assumed.
* Negative errno returns are an `Errno` value in an `Except`. Undefined behaviour and failed
  `assert`s are distinct outcomes, never defaults, where they are reachable.
* `malloc` never fails; other system call failures are modelled where a property speaks about them.
* Cryptographic digests are arbitrary functions `digest : type -> bytes -> 32 bytes`
  (nothing is assumed about collisions in general; where an end-to-end statement needs it, the theorem has the explicit hypothesis that the
  chunks *of the stream at hand* do not collide).
  Compression is an arbitrary pair `compress`/`decompress` with `decompress (compress x) = some x`
  as an explicit hypothesis where (and only where) it is needed.
* File systems are finite maps from names to contents, with atomic `rename`, `link`, `unlink`;
  crash = stop after any prefix of the system calls (process crash; not power loss with
  unsynced pages, since the code never calls fsync).

## Properties: what is modelled, how it is proved

| id | modelled | proof |
|---|---|---|
| C01-C06 | `Model/Chunker` (cachunker.c: set_size, scan, start, roll, window, skip; caller loop of casync.c) | per-byte automaton, simulation of the multi-buffer run, GF(2) linearity of buzhash |
| C07-C10 | `Model/Index`, `Model/IndexIncremental` (caindex.c: write, read, seek, incremental download) | round trip and inversion of the parser; bisection invariant; monotonicity in the available prefix |
| C11, C12 | `Model/ChunkId` (cachunkid.c) | codec round trip; C12 false of the code, exact set of misjudged ids |
| C13, C14, C43 | `Model/Os` (operating system: directories, files, links, failures, interference), `Model/ChunkFile` (chunk files, compression), `Model/Store` (castore.c, verification) | rely/guarantee logic over programs with arbitrary answers (`Lemmas/Exec`, `Lemmas/Exist`), induction over histories |
| C15 | `Model/Install` (install of index and chunk files as system calls) | invariant over all interleavings, crash = any prefix |
| C16 | `Model/Gc` (gc.c, chunk iterator) | set reasoning over directory trees |
| C17 | `Model/Flags` (caformat-util.c flag normalisation) | bit level, all 2^64 words |
| C18, C19, C36 | `Model/Location`, `Model/Origin`, `Model/NameTable` | codec round trip; refinement to byte provenance lists |
| C20 | `Model/Match` (camatch.c complete) | semantics of rule trees, independence of order |
| C21 | `Model/Goodbye` (camakebst.c, goodbye table and search) | induction over the implicit tree |
| C22-C24 | `Model/Buffer`, `Model/Holes`, `Model/SipHash` | refinement |
| C25-C27, C37, C45, C46 | `Model/Format` (records), `Model/Encoder`, `Model/Decoder` (state machines of caencoder.c and cadecoder.c) | the archive of a tree is an explicit function (`Spec/Archive` `encTree`); encoder runs produce it for all read sizes; decoder runs are simulated for all cuts; induction over trees |
| C28 | `Model/Delete` (delete pass, rm_rf), `Spec/DeleteNames` | induction over directory contents and archives |
| C29, C30, C47 | `Model/Meta` (gathering metadata, validators), `Model/Restore` (finalize_child, uid/gid shift) | case analysis per field; file system object before/after |
| C31 | `Model/Seed` (caseed.c) over an abstract encoder machine | invariants over arbitrary machines; completeness for an unchanged tree |
| C32, C48, C49 | `Model/Remote` (caremote.c: framing, hello, dispatch, file transfer) | refinement of byte streams to frames, invariants over call histories |
| C50 | `Model/CacheMake` (casync.c: encoding with store, index and cache) on top of `Model/Resume`, `Origin`, `Chunker` | an invariant over all sessions: what was emitted is a prefix of the archive, the buffer, the cache entry in use and the encoder continue it |
| C51 | encoder, chunker, store, index, reading side and decoder together | composition of C25, C37, C38, C39 and C50 |
| C52 | the hash tables of hashmap.c and set.h: scanning, Robin Hood insertion, removal with backward shift, growing and rehashing in place, iteration | an invariant on the distances of settled entries, preserved by every loop; abstraction to a list of entries without double keys |
| C53 | mkdev: the NBD object of canbd.c, the decoder of a naked file with seeking, the synchronizer around an index or a plain file, the loop of the tool | an invariant tying the decoder, the source and the reply collected so far to the image; a measure for progress |
| C54 | cafuse.c: the calls of the mounted file system with their loops over ca_sync_step, fill_stat, the synchronizer around the seekable decoder of C42; what happens outside is a list of choices | the invariants of C42 carried through every loop and over every history of calls; payload switched off or on makes no difference before content is reached; termination by the measure of C42 |
| C55 | reflink_fd with both validations, ca_location_open, the loop of ca_decoder_node_reflink; the kernel may clone any prefix before it fails | case analysis of the alignment arithmetic: what is cloned equals what is there; induction over the origins |
| C56 | the table of names, parsing, formatting, the options and combined_with_flags/load_feature_flags of the tool | bit-wise invariants of the formatting loop for any table, with finite facts about the table (names distinct, a name for each single bit) checked by the kernel; induction over the options |
| C57 | the digests of the encoder and of the decoder beside the model of C25/C26: what is fed to them, when they are reset, and the three getters | the archive digest by simulation with the whole archive in the buffer; the answers by invariants of encoder and decoder (what the context holds is what has been reported of the current object); the agreement by a run with marks for heads, bytes and ends, and by the list of objects an encoder still has to leave |
| C58 | `Model/Hardlink`: what a seed stores per regular file, the loop over the seeds, the checks and the system calls of the decoder, each of which may fail; the files as numbered inodes, the directory as names of inodes | invariant of the cache over every history (links for files and for chunks), the digest determines records and content by the C02 parser lemmas; case analysis of the calls with a frame predicate; completeness from the metadata model of C46 |
| C59 | `Model/Listing`: escaping, `ls_format_mode`, the getters of the decoder with the initial values of `list_one_file`, and the lines of `casync mtree` and `casync list` byte by byte | an explicit reader of escaped text; unique cutting of the output at separators no field contains, field by field and line by line; injectivity of decimal, octal and padded numbers and of the flags |
| C60 | `Model/Http`: `process_remote`, `write_*`, `chunk_url`, `acquire_file`, `flush` and `run` of casync-http.c over the full model of caremote.c; libcurl is an arbitrary function | every run is a history of the calls of `Model/Remote` (each `ca_remote_step` is a prefix of its parts), with an invariant that ties what is said, what was received and the request queue together; composed with C49 for the client, with C33 for the queue, with C11 for addresses |
| C61 | `Model/Compressor`: compressor.c (signatures, one call of decoder and encoder, with the assertions) and the compression loops of cachunk.c; liblzma, zlib, libzstd are an arbitrary state machine with a contract (bounds, progress, end exactly at the end of a stream) | one lemma per call under the contract (`decode_cases`, `decode_whole`, `encode_true`, `encode_false`), then induction over the rounds with the measure input left + room below the limit |
| C62 | `Model/RawImage`: fssize.c field by field with the 32 and 64 bit arithmetic, the device size and the loop of caencoder.c that reads a payload, with an arbitrary kernel in every turn | branch by branch for the superblocks (`alignTo_round`, `isPow2_iff`), induction over the turns of the loop with the invariant: delivered = the first `off` bytes |
| C63 | `Model/ChunkOptions`: parsing of `--chunk-size=` on `Model/Number`, handing the sizes over on `Model/Chunker` | both directions of the acceptance by cases over the colons; `setSize_sizes` three times |
| C64 | `Model/TempName`: `tempfn_random`, `filename_is_valid`; the random number is a parameter | the digits determine the number by induction, the part before them the path |
| C65 | `Model/ArchiveFile`: `ca_sync_step_decode`, `ca_sync_process_decoder_request/skip` for an archive that is a file, `skip_bytes_fd`; `Model/Decoder` as for C26 | simulation of the decoder that skips by the one that reads, by induction on the session; termination by a measure; the position by an invariant |
| C66 | `Model/ReadLink`: `readlinkat_malloc`; the kernel is a sequence of answers | induction on the number of calls |
| C67 | `Model/TmpDir`: `tmp_dir`, `var_tmp_dir`, `getenv_tmp_dir`, `path_is_safe`; `stat()` is a parameter | the searches for prefix, suffix and substring characterised by appends; induction on the list of variables |
| C68 | `Model/RemotePoll`: `ca_remote_poll`, `ca_sync_poll`, what they ask `ppoll()`; `Model/Remote`: `ca_remote_step` | invariant of an object whose step said poll, from C32_progress; the streams of both sides from C48_sent and C32_stream |
| C33 | `Model/RemoteQueue` (symlink queue) | refinement to two FIFO lists |
| C34 | `Model/RemoteChunks` (chunks in the cache directory of a remote) | C13 machinery over histories of the protocol engine |
| C35 | `Model/Cache` (cacache.c) | operating system model with interference |
| C38, C39 | `Model/Make` (write_chunks pipeline), `Model/SyncRead` (reading side of casync.c: fetch, prefetch, seek, skip) | composition of chunker, store and index theorems; invariants over request histories |
| C40, C44 | `Model/Locator` (cautil.c, remote locator parsing), `Model/Number` (parse-util.c, util.c) | case analysis/induction over strings |
| C42 | `Model/Seek` (seek_path, seek_path_offset, seek_next_sibling and all states of seeks) | invariant over all histories of a seekable decoder on the archive of a tree, lexicographic termination measure |
| C41 | `Model/Resume` (caencoder.c with open nodes below, inherited rules, current_location, seek_location) | invariant over all histories of steps, reads and seeks; simulation by the encoder without seeks (`Model/Encoder`) |

Not modelled at all: libcurl and the kernel's sides of FUSE and NBD (arbitrary inputs and answers), ssh/exec plumbing (`ca_remote_start`), logging, argument parsing of the
tool, OpenSSL/zstd/xz/zlib internals (arbitrary functions), real-time rate limiting and progress reports, block devices as archive roots, the
encoder's own file system walk races (an encoder works on a given tree; `Model/Meta` and `Model/Match` model what it reads and which entries it
takes), quota/ACL/xattr/SELinux kernel behaviour (restored metadata are fields of an abstract object).

## Trusted base

1. Lean's kernel (4.33.0). No `native_decide`, `bv_decide`, no added axioms, no unfinished proofs. The theorems depend on no axioms other than
   `propext`, `Quot.sound` and `Classical.choice` (table at the end). No Mathlib module is imported by the property files.
2. The faithfulness of the definitions in `Verif/Model` to the cited C lines. They are transcriptions by hand; simplifications are stated in the
   comment of each definition. General ones: `malloc` does not fail; `size_t` is 64 bit; machine integers are `Nat` with explicit wrap or explicit
   overflow checks where the C code can overflow; failed `assert` and undefined behaviour are the outcome `ub`.
3. The meaning of the specifications in `Verif/Spec` (they are short and use only lists, sets and the record formats).
4. Parameters of the model that stand for code outside of the repository: `qsort`, `bsearch` (arbitrary function that sorts), digests (arbitrary
   function), compressors (arbitrary, with `decompress (compress x) = some x` as a hypothesis where needed), `fnmatch` (arbitrary), the user
   database (arbitrary), the kernel (`Model/Os`: every call may fail with any error at any time, other processes may interfere as far as the
   theorem's hypotheses allow).

## Findings

Places where the code does not do what the property (or its own documentation) says. Those marked with a theorem are proved about the model.

* **Chunker**: with a maximum below 48 bytes, chunks of 48 bytes exceed the maximum (C03); `ca_chunker_set_size` is accepted while unscanned data is
  held, a later scan then hits an assertion (C06); the discriminator formula is undefined for averages of 9324557 and more.
* **Index**: the seek shortcut is wrong if the first chunk is smaller than the announced minimum (C09; the driver's skip loop compensates, C39);
  an index of which 41..63 bytes have arrived is reported as corrupt (C10); an end offset of UINT64_MAX is taken as "not known"; seeking in a remote
  index that is not complete fails with EAGAIN.
* **Chunk ids**: `ca_chunk_id_is_null` looks at 8 of 32 bytes (C12).
* **Install**: no fsync before rename; unref of an index or remote unlinks the temporary path even if its O_EXCL open failed with EEXIST.
* **Make** (`C38_temp_collision_violated`): EEXIST of the temporary file is taken as "chunk already in the store".
* **GC** (`C16_outside_violated`, `C16_other_file_violated`): the iterator visits "." and "..", so chunk-named files in the parent of the store are
  removed; `<id>.foo.cacnk` is removed; a corrupt index leads to an assertion; a plain file in the store's root aborts with ENOTDIR; uncompressed
  chunks are never collected.
* **Numbers** (`C44_*_violated`): "\v-5" is read as 2^64-5; the size "18446744073709551615.5K" wraps.
* **Locations/name tables**: `make_bst` drops the parent when there are several rows; advancing by the whole size gives a location of size 0;
  caencoder.c:296 sets `generation_valid` on free; merging ignores feature flags.
* **Match**: "dir/" is anchored although the comment in camatch.h says a trailing slash does not anchor; the limit of `read_line` is off by one, and
  a read error after partial data is taken as the end of the file.
* **Locators** (`C40_url_runs_ssh_violated`, `C40_ssh_option_violated`): a URL whose host is followed by ? or ; goes to ssh; an SSH target that
  starts with a dash becomes an option of ssh; `%00` in a file URL truncates the path.
* **Decoder**: the end of the archive is only noticed inside of file content, elsewhere it asks for data for ever (`C37_waits_for_ever_violated`);
  FILENAME and GOODBYE records have no size limit; the order of names is not checked although the format demands it; no limit of 255 bytes for names.
* **What the encoder stores and the decoder refuses** (`C30_*_violated`): time granularity of the USEC flag; names-only flags with uid 0; numeric
  fallback names; user names with "." or "$"; ACL entries that collide after the uid range was applied; times before 1970 wrap.
* **Restoring** (`C47_*_violated`): `new_mode &= ~0444` in the READ_ONLY branch makes read-only files mode 0000; the project id is not reset to 0 and
  not restored for the root directory; `errno != -ENODATA` in the xattr path.
* **Delete pass**: an unsorted archive is accepted and then files just extracted are removed (`C28_unsorted_violated`); an unlisted mount point is
  emptied before EBUSY (`C28_mount_point_emptied`).
* **Seeks in archives**: after its first step a new decoder refuses seeks with ENODATA (`C42_after_first_step_violated`); after an archive was read to
  its end a seek below the root fails with EUNATCH, because the table of the root is known but not its offset; the same for a seek below an object
  that was just found; `seek_path_offset` reports no FOUND, sets no boundary, and fails with EUNATCH for what is not a regular file; a failed seek
  leaves `node_idx` changed with the old state, so a following step can hit an assertion; `do_seek` leaks the component name on some paths.
* **Remote**: chunks whose frame exceeds 16 MiB cannot be sent though 128 MiB are legal (`C43_transfer_violated`); `ca_remote_set_archive_fd` sets the
  fd of the *index*; `ca_remote_forget_chunk` frees an uninitialised pointer if the chunk was never asked for, which a push client can trigger
  (`C33_forget_unasked_violated`); queue links left over by a crash block an id for ever; `ca_remote_add_local_feature_flags` before set leaves
  UINT64_MAX; a bad chunk sent under a wanted id stays in the cache and every later request fails.
* **Store/chunk files**: a chunk of exactly 128 MiB is saved but cannot be read (C43); truncated compressed data leads to an assertion;
  `ca_load_and_compress_fd` takes a short read as the end.
* **skip_bytes_fd** (util.c:1206): `errno != -ESPIPE`, so skipping in a piped archive always fails.
* **Seed** (`C31_large_directory_violated`): entries above 1 MiB are written but cannot be looked up, and extraction aborts instead of using the store;
  other seek errors after the seed changed also abort; a stale cache entry is never replaced; use after free of `target` in a log message.
* **Cache** (`C35_race_violated`, `C35_long_violated`): rename replaces an entry added at the same time; a single long location is replaced because
  ENAMETOOLONG comes before EEXIST; no separators in the key digest; origins with void locations are stored but never readable.
* **Seeks of the encoder** (`C41_*_violated`): a seek forgets the exclusion rules inherited from directories above, so a resumed archive stores files
  the original leaves out; after a seek to the beginning of an open directory and another one to a file in it, the child that was open before is used
  (content of another file); a seek to the name of an open directory leads to `assert(!n->name_table)`; a location `+n0` without a path leads to
  `assert(path)`; a seek behind the end of a record succeeds, the data is refused, but the whole record stays in the buffer.
* **Making an index with a cache** (`C50_goodbye_violated`, `C50_again_violated`): the table at the end of a directory is compared by the time stamps
  of the directory only (casync.c:1962, 2155, cacache.c:278; the name table of the location is left out), so after a file below it was rewritten in place
  the old table is taken from the cache and the index describes no valid archive; `extra_offset = sz` (casync.c:2225) is not cumulative, so bytes are emitted
  twice when two entries end in one record; the chunker is not reset after a hit that began with data in the buffer, so later cut points differ from
  those without a cache; hits are not checked against the store, after a gc the index refers to chunks that are missing; an error of the cache
  other than ENOENT ends the session; a failed verification seeks back, with the problems of C41.
* **Hash tables** (`C52_shift_violated`, `C52_removing_violated`): a table that needs more than 2 GiB of storage (`hashmap_reserve` of 101058055 or
  `set_reserve` of 190887436 entries on a new table) computes `1U << 32` in `resize_buckets` (hashmap.c:1067-1075) instead of failing with ENOMEM; and
  although the code says that removing the current entry while iterating is allowed (hashmap.c:626-631, hashmap.h:345), the backward shift can
  move an entry from the first bucket to the last, so that the loop meets it twice. casync reserves no such tables and removes nothing while iterating.
* **mkdev** (C53): a request that `ca_block_device_step` refuses stays stored and the next call hands it out as a request (`C53_refused_request_violated`; the tool
  ends at the first error); a request that comes in two reads is refused with EBADMSG; an end of file from the kernel gives EBADMSG too, and
  `CA_BLOCK_DEVICE_CLOSED` is never returned; a request that begins beyond the end of the image (possible inside the last block, which is rounded up to
  512 bytes) ends the tool with ENOENT instead of answering zeroes; an empty image is refused with EINVAL.
* **mount** (C54): `feature_flags_warning` (cafuse.c:598-643) stops as soon as the flags are known; if the first piece of the archive has the ENTRY record of the
  root but not the records that follow, the root has no mode at this time and every call fails with ENODATA for ever (`C54_first_piece_violated`; small pieces come
  from remotes, or if the metadata of the root is larger than the buffer). A source that fails while an ENTRY record is read again leaves the node without
  mode in the same way: for the root for ever, below a directory until another path has been visited (EUNATCH). After an empty directory was listed, a lookup in it
  gives EUNATCH instead of ENOENT (for an empty root for ever). `casync_read` does not stop at the end of the file: what follows is read and copied if
  the kernel asks beyond it (the kernel cuts it off, but small files make the tool read on through the archive); an offset beyond the end gives ENOENT
  instead of 0 bytes. A chunk that is missing makes `ca_sync_get` fail with ENOENT, which is handed on: an existing file is reported as not existing.
  Symlinks have `st_size` 0.
* **reflinks** (C55): a seed file that is written to after its content was used makes `ca_location_open` return ESTALE, which `ca_decoder_node_reflink` returns: the
  extraction of a complete file fails because of an optimisation (`C55_stale_seed_violated`). If the content differs and time and inode do not tell, or the
  locations carry no time, `validate()` stops the program by an assertion (`C55_changed_seed_violated`). The extracted file is open for writing only, so `validate()` always
  reads it through `/proc/self/fd`: without `/proc` reflinking stops the program too.
* **deletion of immutable objects** (`C28_immutable_directory_violated`): with `--undo-immutable=yes` the entries of an unlisted directory are removed before the flag of
  the directory is cleared, so that a directory that is immutable and not empty stays with
  EPERM (its flag is cleared by the attempt, so that a second run succeeds). An error of `readdir` replaces the first error of `rm_rf_children`.
* **digests** (`C57_skipped_content_violated`): a decoder skips content if neither the payload nor its digest is wanted (cadecoder.c:4179), also if the digest for hard
  links or that of the archive is wanted: these then do not cover the content, or only the part that happened to be in the buffer. The tool always asks for the
  payload digest with the others. `ca_digest_read` finishes the context; a getter called twice without a reset in between returns something else the second time.
* **hard links to seeds** (`C58_stale_violated`, `C58_shift_violated`, `C58_leftover_violated`, `C58_long_path_violated`): with `--hardlink=yes` a seed file that was
  rewritten with the same length, mode, owner and time is linked although its content is another (the content is not compared); with `--uid-shift` seeds are read
  without the shift and linked files keep the unshifted owner, because nothing is set on hardlinked nodes (cadecoder.c:3518); if the name is already a link to the
  seed file, `rename()` of two names of one file does nothing and the temporary name stays (cadecoder.c:5585-5602); a seed with a regular file whose path does
  not fit into a symbolic link target cannot be read (caseed.c:456).
* **listings** (`C59_flags_violated`, `C59_sticky_violated`): `casync mtree` shows every flag the archive records as *set* for symlinks, devices, fifos and sockets,
  because the getters fail for them and the initial `(unsigned) -1` of the tool is used (casync-tool.c:1834-1938); `casync list` does not show the sticky bit
  of anything but directories (util.c:672).
* **casync-http** (`C60_other_stores_violated`): only the first store is ever asked; the rotation through the stores is commented out (casync-http.c:578), so a chunk that
  is only in another store is reported as missing.
* **casync-http** (`C60_error_page_violated`): the body of an error response to the request for the archive is sent as archive data, because `write_archive` runs before the status
  is known; the abort follows it. A client that writes the archive to a file never installs it, one that decodes on the fly sees it.
* **casync-http** (`C60_big_index_violated`): an index of more than 16 MiB - 56 bytes (about 400000 chunks) cannot be fetched: `write_buffer` has the size limit of
  protocol messages, and the whole index is put as one message.
* **casync-http** (read in the code, `check` of `Model/Http`): the condition of `PROCESS_UNTIL_WRITTEN` is inverted (casync-http.c:131-143): it returns while there *is* unwritten
  data; harmless, because the next wait writes it. An empty chunk file with status 200 ends the helper (`ca_remote_put_chunk` says `EINVAL`).
* **cachunk.c** (`C61_truncated_violated`): `ca_decompress` and `ca_save_and_decompress_fd` call the decoder again with nothing to give it when the data ends before the
  stream does, which fails `assert(avail_in > 0)`: a `.cacnk` file that was cut short, or a truncated compressed chunk sent by a server, stops the program (for every library
  and every such data) where `ca_load_and_decompress_fd` reports EPIPE.
* **cachunk.c** (`C61_short_read_violated`): `ca_load_and_compress_fd` takes a read that delivers less than 64K for the end of the file: on a file system with short reads it
  reports success for a compressed beginning of the chunk.
* **fssize.c** (`C62_squashfs_wrap_violated`, `C62_ext_wrap_violated`): the size is rounded up (squashfs) and multiplied (ext: `blocks << shift`, `10 + s_log_block_size` in 32 bits)
  without a check for overflow: a superblock that claims more than the device makes the image *shorter*, for instance empty, and casync succeeds.
* **caencoder.c** (`C62_retry_violated`): `device_size` is set before the superblock is read and stays when that read fails: the error is reported once and later calls take the size of the whole device.
* **casync-tool.c, cachunker.h** (`C63_large_violated`): `--chunk-size=9M` up to `128M` is accepted, though the discriminator for such an average is a negative or infinite
  number whose conversion to `size_t` is undefined.
* **util.c, cadecoder.c** (`C64_long_violated`): a temporary name is 18 bytes longer than the final one, and `filename_is_valid` compares with `FILENAME_MAX` (4096) rather than
  `NAME_MAX` (255): a tree with a file, symlink, fifo, device or socket whose name has 238 to 255 bytes can be archived but not extracted (ENAMETOOLONG).
* **util.c, casync.c** (`C65_loops_violated`): `casync list` of a crafted `.catar` of 162 bytes never ends: the size in a PAYLOAD header, almost 2^64, becomes a negative `off_t` in
  `skip_bytes_fd` (`lseek(fd, bytes, SEEK_CUR)`), the file is read again from the FILENAME record on, and the same entry is listed for ever.
* **util.c** (`C65_pipe_violated`): `skip_bytes_fd` compares `errno` with `-ESPIPE`, so its loop over `read()` is dead code and listing an archive from a pipe fails with ESPIPE
  at the first content that is not in the buffer.
## Axioms of the theorems

Output of `#print axioms` (P = propext, Q = Quot.sound, C = Classical.choice).

| property | status | theorems (axioms) |
|---|---|---|
| C01 | proved | `Chunker.C01_cuts_independent_of_buffering` (PCQ), `Chunker.C01_scan_split` (PCQ), `Chunker.writeAll_refines_spec` (PCQ) |
| C02 | proved | `Chunker.C02_lossless` (PCQ) |
| C03 | proved | `Chunker.C03_sizes` (PCQ), `Chunker.C03_sizes_usual` (PCQ), `Chunker.C03_max_below_window_violated` (PQ) |
| C04 | proved | `Chunker.C04_rolling_hash` (PCQ), `Chunker.C04_cut_depends_on_window` (PCQ) |
| C05 | proved | `Chunker.C05_resync` (PCQ) |
| C06 | partial | `Chunker.C06_set_size_ok` (PCQ), `Chunker.C06_set_size_accepts_iff` (PCQ), `Chunker.C06_busy` (P), `Chunker.C06_reconfigure_with_data_violated` (PQ), `Chunker.C06_discriminator_undefined` (PQ) |
| C07 | proved | `Index.C07_writer_accepts_iff` (PCQ), `Index.C07_round_trip` (PCQ) |
| C08 | proved | `Index.C08_accepts_only_canonical` (PCQ), `Index.C08_accepts_iff` (PCQ), `Index.C08_total` (PCQ), `Index.C08_truncated` (PCQ), `Index.C08_trailing_garbage` (PCQ), `Index.C08_unique` (PCQ) |
| C09 | proved | `Index.C09_seek` (PCQ), `Index.C09_beyond_end` (PCQ), `Index.C09_position_independent` (PCQ), `Index.C09_terminates` (PCQ), `Index.C09_short_first_chunk_violated` (PCQ) |
| C10 | partial | `Index.C10_incremental_partial` (PCQ), `Index.C10_no_needless_wait_partial` (PCQ), `Index.C10_early_read_violated` (PCQ) |
| C11 | proved | `ChunkId.C11_format_denotes` (PQ), `ChunkId.C11_round_trip` (PCQ), `ChunkId.C11_parse_iff` (PCQ), `ChunkId.C11_parse_total` (PQ), `ChunkId.C11_path_injective` (PQ), `ChunkId.C11_path_shape` (PQ) |
| C12 | partial | `ChunkId.C12_is_null_first_eight_partial` (PCQ), `ChunkId.C12_zero_is_null_partial` (PCQ), `ChunkId.C12_violated` (P), `ChunkId.C12_misjudged_iff` (PCQ), `ChunkId.C12_equal_iff` (P) |
| C13 | proved | `Store.C13_get_verified` (PQ), `Store.C13_get_verified_exec` (PCQ) |
| C14 | proved | `Store.C14_no_overwrite` (PCQ), `Store.C14_others_untouched` (PCQ), `Store.C14_round_trip` (PCQ), `Store.C14_has_iff` (PCQ), `Store.C14_put_succeeds` (PCQ), `Store.C14_path_fixed` (PQ) |
| C15 | proved | `ChunkFile.C15_chunk_crash` (PCQ), `ChunkFile.C15_chunk_concurrent` (PCQ), `Install.C15_install_crash` (PCQ), `Install.C15_install_success` (PCQ), `Install.C15_index_readable` (PCQ), `Install.C15_install_concurrent` (PCQ) |
| C16 | partial | `Gc.C16_calls` (PCQ), `Gc.C16_removes_only_unreferenced_partial` (PCQ), `Gc.C16_referenced_kept` (PCQ), `Gc.C16_uncompressed_kept` (PCQ), `Gc.C16_dry_run` (PCQ), `Gc.C16_bad_index` (PCQ), `Gc.C16_removes_all_unreferenced` (PCQ), `Gc.C16_second_run` (PCQ), `Gc.C16_outside_violated` (PCQ), `Gc.C16_other_file_violated` (PCQ) |
| C17 | proved | `Flags.C17_succeeds_iff` (PCQ), `Flags.C17_areNormalized_iff` (PCQ), `Flags.C17_result_is_normalized` (PCQ), `Flags.C17_fixed_points` (PCQ), `Flags.C17_idempotent` (PCQ), `Flags.C17_unambiguous` (PCQ), `Flags.C17_keeps_granularity` (PCQ), `Flags.C17_keeps_other_bits` (PCQ), `Flags.C17_granularity_iff` (PCQ), `Flags.C17_mask_least` (PCQ), `Flags.C17_mask_everything` (PQ), `Flags.C17_mask_idempotent` (PCQ) |
| C18 | proved | `Location.C18_roundtrip` (PCQ), `Location.C18_roundtrip_with` (PCQ), `Location.C18_format_injective` (PCQ), `Location.C18_new_wf` (PCQ), `Location.C18_parse_wf` (PCQ), `Location.C18_advance_wf` (PCQ), `Location.C18_merge_wf` (PCQ), `Location.C18_cache_coherent` (PQ) |
| C19 | proved | `Origin.C19_put` (PCQ), `Origin.C19_put_unknown` (P), `Origin.C19_concat` (PCQ), `Origin.C19_extract` (PCQ), `Origin.C19_advance_items` (PQ), `Origin.C19_advance_bytes` (PCQ), `Origin.C19_put_void` (PCQ), `Origin.C19_history` (PCQ) |
| C20 | proved | `Match.C20_line` (PQ), `Match.C20_strings` (PQ), `Match.C20_file` (PCQ), `Match.C20_test` (PCQ), `Match.C20_walk` (PCQ), `Match.C20_exclude_files` (PCQ), `Match.C20_normalize_same` (PCQ), `Match.C20_order_independent` (PCQ), `Match.C20_idempotent` (PCQ), `Match.C20_negative_wins` (PCQ) |
| C21 | proved | `Goodbye.C21_lookup` (PCQ), `Goodbye.C21_tree_order` (PCQ), `Goodbye.C21_hostile_bounds` (PQ), `Goodbye.C21_hostile_total` (PQ) |
| C22 | proved | `Buffer.C22_refines` (PCQ), `Buffer.C22_from_empty` (PCQ), `Buffer.C22_steal` (PQ), `Buffer.C22_memchr` (PCQ) |
| C23 | proved | `Holes.C23_same_content` (PCQ), `Holes.C23_equals_plain_write` (PCQ), `Holes.C23_succeeds` (PCQ) |
| C24 | proved | `SipHash.C24_split_independent` (PCQ), `SipHash.C24_single_call` (PCQ) |
| C25 | proved | `Archive.C25_round_trip` (PCQ), `Archive.C25_tree_determined` (PQ), `Archive.C25_session_exists` (PCQ), `Archive.C25_blob_encode` (PQ), `Archive.C25_blob_decode` (PCQ) |
| C26 | proved | `Archive.C26_feeding_independent` (PCQ), `Archive.C26_session_exists` (PCQ) |
| C27 | proved | `Archive.C27_names_safe` (PCQ), `Archive.C27_below_destination` (PCQ) |
| C28 | proved | `Delete.C28_only_unlisted` (PQ), `Delete.C28_listed_kept` (PQ), `Delete.C28_success` (PQ), `Delete.C28_exact` (PQ), `Delete.C28_disabled` (P), `Delete.C28_names` (PCQ), `Delete.C28_archive` (PCQ), `Delete.C28_session` (PCQ), `Delete.C28_unsorted_violated` (P), `Delete.C28_mount_point_emptied` (PCQ), `Delete.C28_undo_immutable` (PCQ), `Delete.C28_undo_immutable_gone` (PCQ), `Delete.C28_immutable_directory_violated` (PQ) |
| C29 | proved | `Meta.C29_round_trip` (PQ), `Meta.C29_stored` (PQ), `Meta.C29_extracted` (PQ) |
| C30 | partial | `Meta.C30_fields_partial` (PCQ), `Meta.C30_time` (PCQ), `Meta.C30_names` (PQ), `Meta.C30_cache_transparent` (PQ), `Meta.C30_archive_partial` (PCQ), `Meta.C30_usec_violated` (PQ), `Meta.C30_dotted_name_violated` (PQ), `Meta.C30_root_name_violated` (PQ), `Meta.C30_number_as_name_violated` (PQ), `Meta.C30_last_ns_of_1969_violated` (PQ), `Meta.C30_before_1970_violated` (PQ), `Meta.C30_range_violated` (PQ) |
| C31 | proved | `Seed.C31_verified` (PCQ), `Seed.C31_complete` (PCQ), `Seed.C31_large_directory_violated` (PQ), `Seed.C31_stale` (PQ) |
| C32 | proved | `Remote.Props.C32_stream` (PCQ), `Remote.Props.C32_same_frames` (PCQ), `Remote.Props.C32_not_before_complete` (PQ), `Remote.Props.C32_sizes` (PQ), `Remote.Props.C32_next` (PCQ), `Remote.Props.C32_receive_only` (PCQ), `Remote.Props.C32_progress` (PCQ), `Remote.Props.C32_bounded` (PCQ), `Remote.Props.C32_step_is_history` (PQ) |
| C33 | proved | `Remote.C33_refines` (PCQ), `Remote.C33_once` (PCQ), `Remote.C33_all_handed_out` (PCQ), `Remote.C33_pending` (PCQ), `Remote.C33_forget_unasked_violated` (PCQ) |
| C34 | proved | `Remote.Props.C34_request_verified` (PQ), `Remote.Props.C34_next_chunk_verified` (PQ), `Remote.Props.C34_not_replaced` (PCQ), `Remote.Props.C34_delivered` (PCQ) |
| C35 | proved | `Cache.C35_delivered` (PCQ), `Cache.C35_found` (PCQ), `Cache.C35_put_get` (PCQ), `Cache.C35_others_untouched` (PQ), `Cache.C35_kept` (PQ), `Cache.C35_removed` (PQ), `Cache.C35_keys_distinct` (PCQ), `Cache.C35_race_violated` (PQ), `Cache.C35_long_violated` (PQ) |
| C36 | proved | `NameTable.C36_roundtrip` (PCQ), `NameTable.C36_format_injective` (PCQ), `NameTable.C36_charset` (PQ), `NameTable.C36_parse_total` (PCQ) |
| C37 | partial | `Archive.C37_truncated_never_success_partial` (PCQ), `Archive.C37_waits_for_ever_violated` (PCQ) |
| C38 | proved | `Make.C38_round_trip` (PCQ), `Make.C38_no_other_bytes` (PCQ), `Make.C38_make_succeeds` (PCQ), `Make.C38_store_verified` (PCQ), `Make.C38_temp_collision_violated` (PCQ) |
| C39 | proved | `Sync.C39_random_access` (PCQ), `Sync.C39_random_access_remote` (PCQ), `Sync.C39_progress` (PCQ), `Sync.C39_progress_remote` (PCQ), `Sync.C39_prefetch` (PCQ), `Sync.C39_prefetch_remote` (PCQ) |
| C40 | proved | `Locator.C40_classify` (PCQ), `Locator.C40_local` (P), `Locator.C40_suffix_path` (PCQ), `Locator.C40_suffix_url` (PCQ), `Locator.C40_file_url` (PCQ), `Locator.C40_not_file_url` (P), `Locator.C40_remote_ssh` (PCQ), `Locator.C40_remote_url` (PQ), `Locator.C40_patch_ssh` (PQ), `Locator.C40_patch_url` (PCQ), `Locator.C40_url_runs_ssh_violated` (P), `Locator.C40_ssh_option_violated` (P), `Locator.xattr_store_iff` (PQ) |
| C41 | partial | `Resume.C41_resume_partial` (PCQ), `Resume.C41_archive` (PCQ), `Resume.C41_location` (PCQ), `Resume.C41_seek_partial` (PCQ), `Resume.C41_restart_partial` (PCQ), `Resume.C41_rules_violated` (PQ), `Resume.C41_twice_violated` (PQ), `Resume.C41_filename_violated` (PQ), `Resume.C41_text_violated` (PCQ), `Resume.C41_behind_violated` (PQ) |
| C42 | proved | `Archive.C42_seek_path` (PCQ), `Archive.C42_seek_path_offset` (PCQ), `Archive.C42_seek_next_sibling` (PCQ), `Archive.C42_at_once` (PCQ), `Archive.C42_new_decoder_accepts` (PCQ), `Archive.C42_sessions_end_well` (PCQ), `Archive.C42_without_seek` (PCQ), `Archive.C42_sessions_terminate` (PCQ), `Archive.C42_seek_new` (PCQ), `Archive.C42_after_first_step_violated` (PQ) |
| C43 | partial | `Store.C43_below_limit_partial` (PCQ), `Store.C43_limit_violated` (PCQ), `Remote.Props.C43_transfer` (PQ), `Remote.Props.C43_transfer_violated` (PQ) |
| C44 | partial | `Number.C44_number_roundtrip` (PCQ), `Number.C44_number_range` (PQ), `Number.C44_size_exact_partial` (PQ), `Number.C44_size_unit` (PCQ), `Number.C44_number_wrap_violated` (P), `Number.C44_size_wrap_violated` (PCQ), `Number.C44_size_minus_violated` (P), `Number.C44_number_exact_partial` (PCQ) |
| C45 | proved | `Archive.C45_no_abort` (PCQ), `Archive.C26_session_exists` (PCQ) |
| C46 | proved | `Archive.C46_sizes_do_not_matter` (PCQ) |
| C47 | partial | `Meta.C47_restored` (PCQ), `Meta.C47_projid_partial` (PCQ), `Meta.C47_projid_zero_violated` (PQ), `Meta.C47_read_only_violated` (PQ), `Meta.C47_links_not_followed` (PCQ) |
| C48 | proved | `Remote.Props.C48_understood` (PCQ), `Remote.Props.C48_injective` (PCQ), `Remote.Props.C48_permitted` (PCQ), `Remote.Props.C48_hello` (PQ), `Remote.Props.C48_agreed` (PCQ), `Remote.Props.C48_sent` (PCQ), `Remote.Props.C48_end_to_end` (PCQ), `Remote.Props.C48_requests` (PCQ), `Remote.Props.C48_told` (PQ), `Remote.Props.C48_hello_once` (PQ), `Remote.Props.C48_not_before` (PQ), `Remote.Props.C48_bye_once` (PQ), `Remote.Props.C48_finished` (PCQ) |
| C49 | proved | `Remote.Props.C49_final` (PCQ), `Remote.Props.C49_end_to_end` (PCQ), `Remote.Props.C49_step_orderly` (PQ), `Remote.Props.C49_read_end` (PQ), `Remote.Props.C49_fresh` (PCQ) |
| C50 | partial | `CacheMake.C50_index_partial` (PCQ), `CacheMake.C50_entries_partial` (PCQ), `CacheMake.C50_prefix_partial` (PCQ), `CacheMake.C50_progress_partial` (PCQ), `CacheMake.C50_kept` (PCQ), `CacheMake.C50_filling` (PCQ), `CacheMake.C50_goodbye_violated` (PQ), `CacheMake.C50_again_violated` (PQ), `CacheMake.C50_sessions_partial` (PCQ), `CacheMake.C50_unchanged_partial` (PCQ), `CacheMake.C50_place` (PCQ), `EndToEnd.C51_cached_partial` (PCQ) |
| C51 | proved | `EndToEnd.C51_nothing_else` (PCQ), `EndToEnd.C51_round_trip` (PCQ) |
| C52 | proved | `Hashmap.C52_map` (PCQ), `Hashmap.C52_set_put` (PCQ), `Hashmap.C52_gc` (PCQ), `Hashmap.C52_shift_violated` (PCQ), `Hashmap.C52_removing_violated` (none) |
| C53 | proved | `Nbd.C53_served` (PCQ), `Nbd.C53_served_remote` (PCQ), `Nbd.C53_served_plain` (PCQ), `Nbd.C53_answers` (PCQ), `Nbd.C53_answers_remote` (PCQ), `Nbd.C53_answers_plain` (PCQ), `Nbd.C53_attaches` (PCQ), `Nbd.C53_attaches_plain` (PQ), `Nbd.C53_empty_refused` (PQ), `Nbd.C53_put_checked` (P), `Nbd.C53_refused_request_violated` (PCQ) |
| C54 | partial | `Fuse.C54_right_or_error` (PCQ), `Fuse.C54_calls_end` (PCQ), `Fuse.C54_mounts` (PCQ), `Fuse.C54_first_piece_violated` (PCQ) |
| C55 | partial | `Reflink.C55_content_kept` (PCQ), `Reflink.C55_unchanged_seeds_partial` (PCQ), `Reflink.C55_whole_file` (PCQ), `Reflink.C55_stale_seed_violated` (P), `Reflink.C55_changed_seed_violated` (P) |
| C56 | proved | `FeatureNames.C56_printed_names_parse` (PCQ), `FeatureNames.C56_unknown_refused` (PQ), `FeatureNames.C56_selection` (PCQ), `FeatureNames.C56_options_refused` (PQ), `FeatureNames.C56_asks_for_known` (PCQ) |
| C57 | proved | `Archive.C57_decoder_session_exists` (PCQ), `Archive.C57_encoder_session_exists` (PCQ), `Archive.C57_encoder_archive` (PQ), `Archive.C57_decoder_archive` (PCQ), `Archive.C57_archive_digests` (PCQ), `Archive.C57_encoder_answers` (PCQ), `Archive.C57_decoder_answers` (PCQ), `Archive.C57_digests_agree` (PCQ), `Archive.C57_skipped_content_violated` (PQ) |
| C58 | proved | `Hardlink.C58_linked` (PCQ), `Hardlink.C58_covered_determines` (PCQ), `Hardlink.C58_target` (PCQ), `Hardlink.C58_checked` (PCQ), `Hardlink.C58_not_linked` (PQ), `Hardlink.C58_failure` (PQ), `Hardlink.C58_known` (PCQ), `Hardlink.C58_unchanged_linked` (PCQ), `Hardlink.C58_stale_violated` (PCQ), `Hardlink.C58_shift_violated` (PCQ), `Hardlink.C58_leftover_violated` (PCQ), `Hardlink.C58_long_path_violated` (PQ), `Hardlink.C58_skipped` (PQ) |
| C59 | proved | `Listing.C59_escape_back` (PQ), `Listing.C59_escape_plain` (PQ), `Listing.C59_mtree` (PCQ), `Listing.C59_line_plain` (PQ), `Listing.C59_records` (PCQ), `Listing.C59_ls_mode` (PQ), `Listing.C59_list` (PQ), `Listing.C59_flags` (PQ), `Listing.C59_flags_violated` (PQ), `Listing.C59_sticky_violated` (PQ) |
| C60 | proved | `Http.Props.C60_talk` (PCQ), `Http.Props.C60_client` (PCQ), `Http.Props.C60_answers` (PCQ), `Http.Props.C60_url` (PCQ), `Http.Props.C60_url_injective` (PCQ), `Http.Props.C60_other_stores_violated` (PQ), `Http.Props.C60_big_index_violated` (PQ), `Http.Props.C60_error_page_violated` (PQ), `Http.Props.C60_offers` (PQ) |
| C61 | proved | `Stream.C61_detect` (PQ), `Stream.C61_load` (PCQ), `Stream.C61_load_all` (PCQ), `Stream.C61_decompress` (PCQ), `Stream.C61_decompress_all` (PQ), `Stream.C61_save` (PQ), `Stream.C61_compress` (PCQ), `Stream.C61_load_compress` (PCQ), `Stream.C61_round_trip` (PCQ), `Stream.C61_truncated_violated` (PQ), `Stream.Toy.C61_short_read_violated` (P) |
| C62 | partial | `Raw.C62_size` (PCQ), `Raw.C62_size_only` (PCQ), `Raw.C62_device` (PCQ), `Raw.C62_file` (PCQ), `Raw.C62_file_any` (PQ), `Raw.C62_device_any` (PQ), `Raw.C62_no_crash` (P), `Raw.C62_squashfs_wrap_violated` (PCQ), `Raw.C62_ext_wrap_violated` (PCQ), `Raw.C62_retry_violated` (P) |
| C63 | partial | `ChunkOptions.C63_accepted` (PQ), `ChunkOptions.C63_used` (PCQ), `ChunkOptions.C63_text` (PCQ), `ChunkOptions.C63_large_violated` (PCQ) |
| C64 | partial | `TempName.C64_accepted` (PQ), `TempName.C64_same_directory` (PCQ), `TempName.C64_distinct` (PQ), `TempName.C64_suffix` (PQ), `TempName.C64_no_chunk` (PQ), `TempName.C64_fits_partial` (PCQ), `TempName.C64_long_violated` (PCQ) |
| C65 | partial | `Archive.C65_listing` (PCQ), `ArchiveFile.C65_file` (PCQ), `ArchiveFile.C65_ends` (PCQ), `ArchiveFile.C65_position` (PCQ), `ArchiveFile.C65_loops_violated` (PQ), `ArchiveFile.C65_pipe_violated` (P) |
| C66 | proved | `ReadLink.C66_whole` (PQ), `ReadLink.C66_error` (PQ), `ReadLink.C66_read` (PQ), `ReadLink.C66_ends` (PQ) |
| C67 | proved | `TmpDir.C67_chosen` (PQ), `TmpDir.C67_fails` (PQ), `TmpDir.C67_safe` (PQ), `TmpDir.C67_var` (PQ), `TmpDir.C67_small` (PQ) |
| C68 | proved | `Remote.Props.C68_woken` (PCQ), `Remote.Props.C68_no_deadlock` (PCQ), `Remote.Props.C68_together` (PQ), `Remote.Props.C68_not_idle` (PCQ) |

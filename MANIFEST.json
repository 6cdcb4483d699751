{
 "claims": [
  {
   "property": "C01",
   "status": "partial",
   "theorems": [
    "RustBit.C01_decode_valid_partial",
    "RustBit.C01_exact",
    "RustBit.C01_refuted",
    "RustBit.C01_refuted_negative"
   ],
   "note": "Refuted by l0:e and i-5e. Proved exactly: a valid document (distinct keys) is read as its value, with what follows left over, just if its integers are unsigned 64-bit, its keys UTF-8 and its strings (other than keys) not empty."
  },
  {
   "property": "C02",
   "status": "partial",
   "theorems": [
    "RustBit.C02_encode_canonical_partial",
    "RustBit.C02_refuted",
    "RustBit.C02_refuted_none",
    "RustBit.C02_exact",
    "RustBit.C02_refuted_smuggled"
   ],
   "note": "Refuted for text that is not ASCII and for absent values. Proved exactly: the encoding is a canonical document of the value iff all text in it is ASCII and no value is absent."
  },
  {
   "property": "C03",
   "status": "partial",
   "theorems": [
    "RustBit.C03_roundtrip_partial",
    "RustBit.C03_refuted",
    "RustBit.C03_refuted_text",
    "RustBit.C03_refuted_smuggled",
    "RustBit.C03_exact"
   ],
   "note": "Refuted for text that is not ASCII, for empty strings and for numbers that do not fit. Exact (C03_exact): a value is read back as itself, whatever order its maps have, just if its text is ASCII, nothing in it is absent other than in lists, its strings other than keys are not empty and its numbers fit in 64 bits; no other value survives by luck."
  },
  {
   "property": "C04",
   "status": "proved",
   "theorems": [
    "RustBit.C04_order_independent",
    "RustBit.C04_ascending"
   ],
   "note": ""
  },
  {
   "property": "C05",
   "status": "partial",
   "theorems": [
    "RustBit.C05_refuted_panic",
    "RustBit.C05_refuted_hang",
    "RustBit.C05_hangs_exactly_partial",
    "RustBit.C05_panics_exactly_partial",
    "RustBit.C05_returns_exactly_partial",
    "RustBit.C05_terminates_without_lists_partial",
    "RustBit.C05_returns_on_documents_partial",
    "RustBit.C05_valid_partial"
   ],
   "note": "Refuted: panics on truncated input, never returns on l0:e. Proved: the exact sets of inputs on which it panics, on which it never returns, and on which it returns. A valid document never makes the decoder panic, whatever follows it."
  },
  {
   "property": "C06",
   "status": "proved",
   "theorems": [
    "RustBit.C06_position_in_bounds",
    "RustBit.C06_consumed_le"
   ],
   "note": ""
  },
  {
   "property": "C07",
   "status": "proved",
   "theorems": [
    "RustBit.C07_prefix_determined"
   ],
   "note": ""
  },
  {
   "property": "C08",
   "status": "proved",
   "theorems": [
    "RustBit.C08_integer_exact",
    "RustBit.C08_ints_fit"
   ],
   "note": ""
  },
  {
   "property": "C09",
   "status": "proved",
   "theorems": [
    "RustBit.C09_keys_unique",
    "RustBit.C09_last_wins"
   ],
   "note": ""
  },
  {
   "property": "C10",
   "status": "partial",
   "theorems": [
    "RustBit.C10_format_prefix_free",
    "RustBit.C10_encoder_prefix_free_partial",
    "RustBit.C10_refuted",
    "RustBit.C10_refuted_equal",
    "RustBit.C10_same_type_partial",
    "RustBit.C10_refuted_none"
   ],
   "note": "Proved for two values of the same type, with any text, provided no optional value is absent, and for any types when all text is ASCII. Refuted: equal encodings of values of different types, and of maps with absent values."
  },
  {
   "property": "C11",
   "status": "partial",
   "theorems": [
    "RustBit.C11_refuted_terminator",
    "RustBit.C11_refuted_separator",
    "RustBit.C11_refuted_missing_value",
    "RustBit.C11_accepts_lenient_partial",
    "RustBit.C11_accepts_exactly_partial",
    "RustBit.C11_nothing_exactly_partial"
   ],
   "note": "Refuted (i12x, 3xabc, d1:ae accepted). Proved: exactly the inputs that start with a document of an explicit lenient grammar are accepted, with that value and length."
  },
  {
   "property": "C12",
   "status": "partial",
   "theorems": [
    "RustBit.C12_info_roundtrip_partial",
    "RustBit.C12_refuted",
    "RustBit.C12_refuted_empty",
    "RustBit.C12_accepts_exactly",
    "RustBit.C12_exact"
   ],
   "note": "Refuted for non-ASCII or empty text. Exact (C12_exact): metadata survives just if its text is ASCII and name, hashes and parts of paths are not empty. Exactly which bytes are accepted as which metadata: C12_accepts_exactly."
  },
  {
   "property": "C13",
   "status": "partial",
   "theorems": [
    "RustBit.C13_hash_of_received_partial",
    "RustBit.C13_refuted",
    "RustBit.C13_exact"
   ],
   "note": "Refuted for metadata with e.g. a private key. Exact for all accepted bytes (C13_exact): what is hashed is what was received just if that is the document with only the known keys, in ASCII; so the hash is right just then, or there is a collision."
  },
  {
   "property": "C14",
   "status": "partial",
   "theorems": [
    "RustBit.C14_refuted",
    "RustBit.C14_handshake_only_partial"
   ],
   "note": "Refuted: two different metadata documents are accepted for the same info hash. Proved: the peer presented the hash in its handshake and the result is from_bytes of all data received."
  },
  {
   "property": "C15",
   "status": "proved",
   "theorems": [
    "RustBit.C15_verify_piece"
   ],
   "note": "SHA-1 is an arbitrary function."
  },
  {
   "property": "C16",
   "status": "partial",
   "theorems": [
    "RustBit.C16_total_length_partial",
    "RustBit.C16_overflow_panics_debug",
    "RustBit.C16_exact",
    "RustBit.C16_refuted_wrap",
    "RustBit.C16_refuted_no_length"
   ],
   "note": "Refuted for sums of 2^64 or more and for metadata without any length. Exact: the total is the sum just if it fits in 64 bits; otherwise a debug build panics and a release build answers the sum modulo 2^64."
  },
  {
   "property": "C17",
   "status": "partial",
   "theorems": [
    "RustBit.C17_refuted",
    "RustBit.C17_wellformed_kept_partial",
    "RustBit.C17_exact"
   ],
   "note": "Refuted: malformed entries are dropped. Proved, both directions: which decoded values are accepted, as which metadata (C17_exact); well-formed lists are kept entirely."
  },
  {
   "property": "C18",
   "status": "partial",
   "theorems": [
    "RustBit.C18_hex_magnet_partial",
    "RustBit.C18_refuted",
    "RustBit.C18_exact",
    "RustBit.C18_refuted_order",
    "RustBit.C18_refuted_not_hex",
    "RustBit.C18_reads"
   ],
   "note": "Proved for every hash, letter case and trailing parameters introduced by &; refuted (panic) when nothing follows the hash, and for other orders of the parameters (accepted with a wrong hash). Exact: read rightly just if & follows the digits. C18_reads: for all texts, exactly which are taken for magnet links and which bytes they are taken to name (Loose: what any characters in the place of the digits count as)."
  },
  {
   "property": "C19",
   "status": "partial",
   "theorems": [
    "RustBit.C19_hash_length_partial",
    "RustBit.C19_refuted",
    "RustBit.C19_exact"
   ],
   "note": "Refuted for base32 magnets (32 bytes). Exact: 20 bytes just if byte 60 is &, 32 otherwise."
  },
  {
   "property": "C20",
   "status": "partial",
   "theorems": [
    "RustBit.C20_refuted",
    "RustBit.C20_refuted_underflow",
    "RustBit.C20_no_panic_partial",
    "RustBit.C20_exact"
   ],
   "note": "Refuted (60-byte input; debug underflow). Exact set of inputs that panic, in both builds."
  },
  {
   "property": "C21",
   "status": "proved",
   "theorems": [
    "RustBit.C21_interested",
    "RustBit.C21_request",
    "RustBit.C21_metadata",
    "RustBit.C21_extension_handshake",
    "RustBit.C21_handshake"
   ],
   "note": ""
  },
  {
   "property": "C22",
   "status": "proved",
   "theorems": [
    "RustBit.C22_request_wire",
    "RustBit.C22_wire_unambiguous",
    "RustBit.C22_request_roundtrip"
   ],
   "note": ""
  },
  {
   "property": "C23",
   "status": "proved",
   "theorems": [
    "RustBit.C23_handshake_layout",
    "RustBit.C23_handshake_roundtrip",
    "RustBit.C23_hash_position"
   ],
   "note": ""
  },
  {
   "property": "C24",
   "status": "partial",
   "theorems": [
    "RustBit.C24_proper_partial",
    "RustBit.C24_panics_exactly",
    "RustBit.C24_hangs_exactly",
    "RustBit.C24_new_raw_returns_partial",
    "RustBit.C24_other_ids_ok",
    "RustBit.C24_refuted_short_block",
    "RustBit.C24_refuted_extension_panics",
    "RustBit.C24_refuted_extension_hangs"
   ],
   "note": "Refuted (short block, empty or truncated extension message panic; a list with an empty string hangs). Proved: exact characterisation of the messages that are handled, that panic and that hang. No message that follows the protocol makes the program panic."
  },
  {
   "property": "C25",
   "status": "proved",
   "theorems": [
    "RustBit.C25_bitfield"
   ],
   "note": ""
  },
  {
   "property": "C26",
   "status": "proved",
   "theorems": [
    "RustBit.C26_metadata_request",
    "RustBit.C26_metadata_request_roundtrip"
   ],
   "note": "For indices below 2^64 (usize)."
  },
  {
   "property": "C27",
   "status": "partial",
   "theorems": [
    "RustBit.C27_read",
    "RustBit.C27_exact",
    "RustBit.C27_extension_payload_partial",
    "RustBit.C27_refuted"
   ],
   "note": "Refuted for negative integers and empty strings inside lists. Proved: fields, extension ids and data for all supported dictionaries; for all inputs exactly which are accepted, refused, panic or hang, and what is read."
  },
  {
   "property": "C28",
   "status": "partial",
   "theorems": [
    "RustBit.C28_exact",
    "RustBit.C28_message_partial",
    "RustBit.C28_handshake",
    "RustBit.C28_sequence_partial",
    "RustBit.C28_refuted_huge"
   ],
   "note": "Proved for all messages whose length prefix does not begin with 0x13 (less than 318767104 bytes) and for handshakes; refuted for larger ones, which are taken for handshakes. C28_exact: a whole buffered message is returned just if it is shorter than 318767104 bytes or has 335544320 or more; every other one is taken for a handshake."
  },
  {
   "property": "C29",
   "status": "partial",
   "theorems": [
    "RustBit.C29_refuted_swallows",
    "RustBit.C29_refuted_choked",
    "RustBit.C29_isolated_partial",
    "RustBit.C29_exact",
    "RustBit.C29_ignored_iff"
   ],
   "note": "Refuted: a keep-alive swallows the first byte of the next message and chokes the peer. Proved for an isolated keep-alive. Exact (C29_exact, C29_ignored_iff): for every schedule, what a read makes of a keep-alive; it is ignored just if nothing is behind it when the last call of the read times out, or that call fails."
  },
  {
   "property": "C30",
   "status": "partial",
   "theorems": [
    "RustBit.C30_exact",
    "RustBit.C30_out_of_step",
    "RustBit.C30_late",
    "RustBit.C30_handshake_exact",
    "RustBit.C30_segmentation_partial",
    "RustBit.C30_refuted_split_header",
    "RustBit.C30_refuted_split_handshake"
   ],
   "note": "Refuted when the 5 header bytes (or the handshake) are split. Exact (C30_exact, C30_handshake_exact): without failures a message is read as what it is just if something of it is there by the second system call of a read, its length by the fourth, its id by the fifth and all of it by the 44th (a handshake: all by the third). Otherwise, for all schedules, a read takes nothing or a proper part of the message, and the connection is out of step (C30_out_of_step, C30_late)."
  },
  {
   "property": "C31",
   "status": "proved",
   "theorems": [
    "RustBit.C31_ready",
    "RustBit.C31_no_request"
   ],
   "note": ""
  },
  {
   "property": "C32",
   "status": "proved",
   "theorems": [
    "RustBit.C32_unchoked",
    "RustBit.C32_choke_ends"
   ],
   "note": ""
  },
  {
   "property": "C33",
   "status": "partial",
   "theorems": [
    "RustBit.C33_next_block_partial",
    "RustBit.C33_in_order_partial",
    "RustBit.C33_refuted",
    "RustBit.C33_exact",
    "RustBit.C33_in_order_iff",
    "RustBit.C33_exact_metadata",
    "RustBit.C33_in_order_iff_metadata"
   ],
   "note": "Proved for peers that do not send a block before the first request; for all peers at most one request is outstanding and it is for the first missing block. Refuted: an unsolicited first block makes block 0 skipped and block 1 requested twice. Exact for every peer (C33_exact): with an unasked first block the requests are for 1, ..., j, j, j+1, ...; in order from 0 just if the peer does not begin with a block (C33_in_order_iff). The same for metadata (C33_exact_metadata, C33_in_order_iff_metadata)."
  },
  {
   "property": "C34",
   "status": "partial",
   "theorems": [
    "RustBit.C34_tiling_partial",
    "RustBit.C34_refuted_overrun",
    "RustBit.C34_refuted_beyond_end",
    "RustBit.C34_refuted_beyond_end_release",
    "RustBit.C34_request_debug",
    "RustBit.C34_request_release",
    "RustBit.C34_count_debug",
    "RustBit.C34_panics_debug",
    "RustBit.C34_count_release"
   ],
   "note": "Proved for piece lengths that are a multiple of 16384 and for last pieces; refuted for all other pieces (the last block overruns the piece). Requests and numbers of blocks are given exactly for all sizes and both builds, overflow included."
  },
  {
   "property": "C35",
   "status": "partial",
   "theorems": [
    "RustBit.C35_exact",
    "RustBit.C35_served_partial",
    "RustBit.C35_honest_download_partial",
    "RustBit.C35_piece_partial",
    "RustBit.C35_metadata_partial",
    "RustBit.C35_refuted_keepalive",
    "RustBit.C35_refuted_split",
    "RustBit.C35_refuted_slow",
    "RustBit.C35_refuted_pause"
   ],
   "note": "Proved, from the first byte of the connection to the verified piece, for all segmentations of the stream in which the five bytes of length and id are not split, a message is complete 42 system calls after it began, something arrives every 20 calls, and no keep-alives; refuted with a keep-alive between blocks. For whatever is served under these conditions, the outcome is the piece exactly if its hash is the listed one, and otherwise the error for a wrong piece. Exact for all peers in terms of the messages that were read (C35_exact): blocks are put together in the order in which they come, whatever place they state. Each of the conditions on the arrival is needed: C35_refuted_split, C35_refuted_slow, C35_refuted_pause, the last two with the exact number of system calls."
  },
  {
   "property": "C36",
   "status": "proved",
   "theorems": [
    "RustBit.C36_bounded",
    "RustBit.C36_buffer_always"
   ],
   "note": ""
  },
  {
   "property": "C37",
   "status": "partial",
   "theorems": [
    "RustBit.C37_refuted_metadata",
    "RustBit.C37_refuted_piece",
    "RustBit.C37_refuted_livelock",
    "RustBit.C37_finite_input_partial"
   ],
   "note": "Refuted: a peer that keeps sending unchoke messages keeps the loop running for ever, for pieces and for metadata, in every world. Proved for every peer that sends finitely many bytes (hang then only inside the decoder, see C24)."
  },
  {
   "property": "C38",
   "status": "proved",
   "theorems": [
    "RustBit.C38_verified"
   ],
   "note": "SHA-1 is an arbitrary function."
  },
  {
   "property": "C39",
   "status": "proved",
   "theorems": [
    "RustBit.C39_fifo"
   ],
   "note": ""
  },
  {
   "property": "C40",
   "status": "partial",
   "theorems": [
    "RustBit.C40_exact",
    "RustBit.C40_one_place_partial",
    "RustBit.C40_before",
    "RustBit.C40_refuted"
   ],
   "note": "Proved for every interleaving with a fifth place: lost with a worker that panicked, and exactly, totals that wrap around 2^64 included (the pieces are then those of the wrapped total). Refuted without the fifth place: a peer can make a worker panic, in every world and for all metadata."
  },
  {
   "property": "C41",
   "status": "proved",
   "theorems": [
    "RustBit.C41_at_most_five"
   ],
   "note": "For every interleaving."
  },
  {
   "property": "C42",
   "status": "partial",
   "theorems": [
    "RustBit.C42_in_flight_partial",
    "RustBit.C42_progress_partial",
    "RustBit.C42_refuted",
    "RustBit.C42_completable_partial"
   ],
   "note": "Refuted: a worker that panics loses its piece. Proved for every interleaving: as long as a piece is neither handed over nor lost and fewer than five workers died, a piece is in flight and an event makes progress; and from every state of a started torrent with fewer than five dead workers there is an execution that hands over every piece not lost."
  },
  {
   "property": "C43",
   "status": "partial",
   "theorems": [
    "RustBit.C43_all_handed_partial",
    "RustBit.C43_refuted"
   ],
   "note": "Refuted when workers died; proved for every interleaving otherwise."
  },
  {
   "property": "C44",
   "status": "partial",
   "theorems": [
    "RustBit.C44_refuted",
    "RustBit.C44_refuted_last_peer",
    "RustBit.C44_starts_partial"
   ],
   "note": "Refuted: nothing is requested before eleven peers have been found, nor when the last one supplied the metadata. Proved: requests are issued when a peer is found with metadata known and ten peers before."
  },
  {
   "property": "C45",
   "status": "partial",
   "theorems": [
    "RustBit.C45_fixed",
    "RustBit.C45_exact",
    "RustBit.C45_created_partial",
    "RustBit.C45_refuted_wrap"
   ],
   "note": "Metadata and pool fixed: proved in full. Count: exactly the pieces of the total reckoned modulo 2^64; so it is right unless the total wraps around in a release build (refuted there)."
  },
  {
   "property": "C46",
   "status": "proved",
   "theorems": [
    "RustBit.C46_choice"
   ],
   "note": ""
  },
  {
   "property": "C47",
   "status": "proved",
   "theorems": [
    "RustBit.C47_counters"
   ],
   "note": "Counters are unbounded numbers in the model."
  },
  {
   "property": "C48",
   "status": "partial",
   "theorems": [
    "RustBit.C48_only_metadata_partial",
    "RustBit.C48_refuted",
    "RustBit.C48_refuted_metadata",
    "RustBit.C48_refuted_cached",
    "RustBit.C48_exactly"
   ],
   "note": "Refuted: getting the metadata panics on hostile peers; metadata with piece length zero or without length panics, on every restart. Proved: no other panics, none once metadata is known. Exact (C48_exactly): in every reachable state the next step can be a panic of the actor just if it has no metadata, its next message is a new peer, and getting the metadata can be fatal (Fatal: `downloads` is a file, the cached document is poisoned, or the attempt with the peer panics or gives metadata that cannot be used or cached)."
  },
  {
   "property": "C49",
   "status": "partial",
   "theorems": [
    "RustBit.C49_refuted",
    "RustBit.C49_error_retried_partial"
   ],
   "note": "Refuted for all runs: a piece whose worker panicked never comes back. Proved: downloads ending with an error are retried."
  },
  {
   "property": "C50",
   "status": "partial",
   "theorems": [
    "RustBit.C50_split_partial",
    "RustBit.C50_refuted_overflow",
    "RustBit.C50_exact",
    "RustBit.C50_refuted_release"
   ],
   "note": "Exact: a debug build splits a piece rightly just if it lies behind the last file or its end and the ends of all files that begin before it ends are below 2^64, and panics otherwise; a release build agrees in the first case. Refuted in the second: a release build drops or misplaces data in silence."
  },
  {
   "property": "C51",
   "status": "partial",
   "theorems": [
    "RustBit.C51_exactly",
    "RustBit.C51_any_order_partial",
    "RustBit.C51_exact",
    "RustBit.C51_refuted_longer_file",
    "RustBit.C51_refuted_same_path"
   ],
   "note": "For separate paths made of ordinary names exact: whatever files are there before, each non-empty file ends as its content followed by what was there beyond its length, so all are right if and only if no longer file was there. Refuted for a longer existing file and for a path listed twice. Exact for any paths whatever, slashes in components, `..`, absolute ones, several for one place (C51_exactly): when writing succeeds, the files are right in the end just if files in one place have the same content and no longer file was there."
  },
  {
   "property": "C52",
   "status": "partial",
   "theorems": [
    "RustBit.C52_exactly",
    "RustBit.C52_again_partial",
    "RustBit.C52_intact_partial",
    "RustBit.C52_torn_partial",
    "RustBit.C52_rewrite_partial",
    "RustBit.C52_refuted_same_path"
   ],
   "note": "Proved for separate paths made of ordinary names, whatever files are there before, for crashes between and inside writes, and for rewriting; refuted for a path listed twice. Exact for any paths (C52_exactly): written pieces stay intact at every moment just if files in one place agree as far as both go; C52_again_partial: then writing again changes nothing."
  },
  {
   "property": "C53",
   "status": "partial",
   "theorems": [
    "RustBit.C53_exactly",
    "RustBit.C53_exists_partial",
    "RustBit.C53_exact",
    "RustBit.C53_refuted"
   ],
   "note": "Refuted for empty files at a piece boundary or at the end. Exact, for separate paths made of ordinary names: which files exist in the end, if none did at first. Exact for any paths (C53_exactly): which of the listed files exist in the end."
  },
  {
   "property": "C54",
   "status": "partial",
   "theorems": [
    "RustBit.C54_refuted_program",
    "RustBit.C54_confined_partial",
    "RustBit.C54_exact",
    "RustBit.C54_refuted"
   ],
   "note": "Refuted: metadata with .. or an absolute path is accepted and written outside. Proved for all paths that do not escape (detours over .. included), whatever the outcome of the write; exact: for a torrent of one file these are the paths that are harmless for every working directory and disk. C54_refuted_program: in the whole program, from every running state, for every location outside of `downloads` and every content, the content can end up there."
  },
  {
   "property": "C55",
   "status": "partial",
   "theorems": [
    "RustBit.C55_whole",
    "RustBit.C55_offsets",
    "RustBit.C55_offsets_partial",
    "RustBit.C55_refuted_offsets",
    "RustBit.C55_offsets_or",
    "RustBit.C55_refuted_run",
    "RustBit.C55_no_panic_partial",
    "RustBit.C55_exact",
    "RustBit.C55_exact_single",
    "RustBit.C55_refuted"
   ],
   "note": "Refuted: an empty path is accepted and panics. Proved for ordinary separate paths, any piece and files of any length there before; exact: writing panics at the first part whose path cannot be served (Writable) in the state of the disk by then. Exact for whole downloads with any paths (C55_whole): writing all pieces, in any order, succeeds just if paths and disk are Receptive, and panics otherwise. Far offsets (C55_offsets, C55_offsets_partial, C55_refuted_offsets): the system refuses offsets of 2^63 and more, so a verified last piece of an oversized file makes the writer panic; files below 2^63 bytes are safe. C55_offsets_or: writing succeeds or panics, nothing else. C55_refuted_run is a run of the program, in any world, in which the writer dies although every peer has sent what was asked for."
  },
  {
   "property": "C56",
   "status": "proved",
   "theorems": [
    "RustBit.C56_compact_peers",
    "RustBit.C56_every_string"
   ],
   "note": ""
  },
  {
   "property": "C57",
   "status": "proved",
   "theorems": [
    "RustBit.C57_endpoint_parses",
    "RustBit.C57_connect_no_panic",
    "RustBit.C57_unparsable",
    "RustBit.C57_address_exact"
   ],
   "note": "str::parse::<SocketAddr> is modelled for the IPv4 form. C57_unparsable: what would happen to an endpoint that does not parse."
  },
  {
   "property": "C58",
   "status": "proved",
   "theorems": [
    "RustBit.C58_connect_request",
    "RustBit.C58_announce_request",
    "RustBit.C58_run"
   ],
   "note": "For 20-byte hashes and peer ids, 4-byte transaction ids and 8-byte connection ids."
  },
  {
   "property": "C59",
   "status": "partial",
   "theorems": [
    "RustBit.C59_first_663",
    "RustBit.C59_all_peers_partial",
    "RustBit.C59_exact",
    "RustBit.C59_refuted"
   ],
   "note": "Refuted for one peer (26 bytes is rejected). Exact: all peers are found just if there are 2 to 663; of more, the first 663."
  },
  {
   "property": "C60",
   "status": "partial",
   "theorems": [
    "RustBit.C60_refuted_announce",
    "RustBit.C60_refuted_connect",
    "RustBit.C60_refuted_blind",
    "RustBit.C60_exact",
    "RustBit.C60_short_answer_partial",
    "RustBit.C60_refuted_predictable"
   ],
   "note": "Refuted for every answer: the header of the announce answer and the connect answer have no influence on the peers found, and the transaction number is a constant. Exact: a datagram is read as peers just if it has more than 26 bytes."
  },
  {
   "property": "C61",
   "status": "proved",
   "theorems": [
    "RustBit.C61_at_most_four",
    "RustBit.C61_succeeds",
    "RustBit.C61_gives_up",
    "RustBit.C61_silent_tracker_hangs"
   ],
   "note": "The receive has no timeout: C61_silent_tracker_hangs shows that a silent tracker is never given up on (the statement counts requests and does not ask for a return)."
  },
  {
   "property": "C62",
   "status": "proved",
   "theorems": [
    "RustBit.C62_decodes",
    "RustBit.C62_injective",
    "RustBit.C62_normal",
    "RustBit.C62_safe"
   ],
   "note": "Decodes back, injective, safe in a path and a URL, and exactly the RFC 3986 normal form of the hash."
  },
  {
   "property": "C63",
   "status": "proved",
   "theorems": [
    "RustBit.C63_round_trip"
   ],
   "note": "For every Info (texts any valid UTF-8, numbers any 64-bit), path and file system: a completed save is read back equal. serde_json's writer and parser are modelled in full (escapes, numbers, white space, unknown and duplicate keys)."
  },
  {
   "property": "C64",
   "status": "partial",
   "theorems": [
    "RustBit.C64_after_crash",
    "RustBit.C64_refuted",
    "RustBit.C64_harmless_partial"
   ],
   "note": "Refuted for every Info: a stop with any proper prefix of the document on disk (an empty file included), unless inside a multi-byte character, makes every later start panic, forever. Exact outcome proved for every crash point; harmless only after the last byte or inside a character."
  },
  {
   "property": "C65",
   "status": "proved",
   "theorems": [
    "RustBit.C65_dispatch",
    "RustBit.C65_forward",
    "RustBit.C65_builtin"
   ],
   "note": ""
  },
  {
   "property": "C66",
   "status": "partial",
   "theorems": [
    "RustBit.C66_exactly",
    "RustBit.C66_from_start_partial",
    "RustBit.C66_can_end_partial",
    "RustBit.C66_always_partial",
    "RustBit.C66_over_partial",
    "RustBit.C66_end_to_end_partial",
    "RustBit.C66_at_rest_partial",
    "RustBit.C66_exact_partial",
    "RustBit.C66_can_finish_partial",
    "RustBit.C66_refuted_longer",
    "RustBit.C66_refuted_same_path"
   ],
   "note": "Proved for every interleaving and all peers, or a collision is exhibited, if on the initial disk the listed paths are plain, distinct, none is inside another and none begins with `downloads`: in the end the files are right if and only if no longer file was in the place of a non-empty one. Refuted, by a complete run in every world, for a longer file, and for metadata that lists a path twice. From every state of a started torrent without a dead worker the download can be completed. Exact for any paths and any disk (C66_exactly, C66_from_start_partial): when all pieces were handed over and the writer is idle or dead, whether the writer survived and whether the files are right, by paths and disk alone (or a collision). C66_can_end_partial: every started torrent without dead workers can get there."
  },
  {
   "property": "C67",
   "status": "partial",
   "theorems": [
    "RustBit.C67_info_hash_exactly_partial",
    "RustBit.C67_announce_url_partial",
    "RustBit.C67_refuted_query",
    "RustBit.C67_only",
    "RustBit.C67_answer_partial",
    "RustBit.C67_refuted_answer"
   ],
   "note": "Refuted for tracker URLs with a query and for answers the decoder does not support (hang or error). Proved for all others. Exact for URLs without a parameter info_hash of their own: the tracker is told the hash just if the URL has neither query nor fragment. Peers come only from a body read to its end that decodes to a dictionary with a string for peers."
  },
  {
   "property": "C68",
   "status": "partial",
   "theorems": [
    "RustBit.C68_refuted",
    "RustBit.C68_pieces_partial",
    "RustBit.C68_save",
    "RustBit.C68_program_partial",
    "RustBit.C68_used_partial"
   ],
   "note": "Refuted for every victim hash and every metadata: a torrent listing ./downloads/<victim> among its files replaces the victim's metadata, which is used unchecked. Proved: caching another torrent's metadata, and writing pieces of layouts that do not list the file, leave it unchanged. For the whole program (C68_program_partial, C68_used_partial): complete cached metadata stays byte for byte, through all steps, crashes and restarts, and all torrents with the hash use it; missing are torrents whose files lie in downloads or leave the working directory, which refute it."
  },
  {
   "property": "C69",
   "status": "partial",
   "theorems": [
    "RustBit.C69_survives_partial",
    "RustBit.C69_anywhere_partial",
    "RustBit.C69_anywhere_exactly_partial",
    "RustBit.C69_pieces_partial",
    "RustBit.C69_over_partial",
    "RustBit.C69_exactly_partial",
    "RustBit.C69_files_partial",
    "RustBit.C69_refuted"
   ],
   "note": "Refuted: the log file test.log is emptied at every start, so a torrent listing a file of this name is damaged. Proved, or a collision is exhibited, for every interleaving of any number of torrents, all crash points (torn writes included) and all restarts, if the paths meet the conditions of C66, do not begin with `test.log`, and the other torrents have the same metadata or only files that are elsewhere. Files of any length may have been in the way: each file is then the published one followed by what was beyond its listed length before the first start, so right exactly if none was longer. For files with any paths whatever, at single bytes: C69_anywhere_partial (pieces), C69_anywhere_exactly_partial (files: right from then on just if files in one place are the same and no longer file was there before the first start). Directories in the way no longer matter. Missing there: files in the places of the log or of metadata, other torrents with files in the same places. C69_survives_partial: with paths of any kind, if paths and disk are receptive before the first start, they stay so and the writer never dies, through any number of restarts, unless another torrent blocks a place."
  },
  {
   "property": "C70",
   "status": "partial",
   "theorems": [
    "RustBit.C70_refuted",
    "RustBit.C70_apart_partial"
   ],
   "note": "Refuted: torrents that list the same path overwrite each other (multi-file torrents get no directory of their own). Proved for torrents whose files are apart. Files in the way are allowed: right exactly if none was longer."
  },
  {
   "property": "C71",
   "status": "partial",
   "theorems": [
    "RustBit.C71_hex_partial",
    "RustBit.C71_started_iff_ok",
    "RustBit.C71_exact",
    "RustBit.C71_refuted",
    "RustBit.C71_served_exact",
    "RustBit.C71_served",
    "RustBit.C71_served_plain",
    "RustBit.C71_plain_suffices"
   ],
   "note": "Refuted: a magnet link without further parameters, and any text that is not a magnet link, is not answered. Proved: links with a further parameter are answered and start the torrent named; exact set of unanswered requests in both builds. For the server with its routes, charsets and compression: C71_served, C71_served_exact (exactly which requests are never answered); C71_plain_suffices: plain requests start all that any requests start."
  },
  {
   "property": "C72",
   "status": "proved",
   "theorems": [
    "RustBit.C72_keys_are_text",
    "RustBit.C72_bad_key_refused",
    "RustBit.C72_string_values",
    "RustBit.C72_names_are_text",
    "RustBit.C72_text_encoding"
   ],
   "note": "UTF-8 is specified from RFC 3629 as the bytes of scalar values."
  },
  {
   "property": "C73",
   "status": "partial",
   "theorems": [
    "RustBit.C73_right_torrent",
    "RustBit.C73_messages_are_peers",
    "RustBit.C73_at_most_once",
    "RustBit.C73_all_trackers_partial",
    "RustBit.C73_sixteen_partial",
    "RustBit.C73_refuted_crash",
    "RustBit.C73_refuted_shared",
    "RustBit.C73_refuted_retry",
    "RustBit.C73_refuted_full",
    "RustBit.C73_trackers"
   ],
   "note": "Refuted: a lookup that panics (no socket, no route to the tracker) ends this tracker for all torrents, a failed lookup is never repeated, a torrent added while sixteen are waiting is forgotten. Proved for all interleavings: peers are told to the torrent they were asked for and only if reachable; every torrent is looked up at most once per addition; exactly once at every running tracker while no mailbox is full, in particular for up to sixteen torrents. The eighteen trackers are listed as in the source (C73_trackers)."
  },
  {
   "property": "C74",
   "status": "partial",
   "theorems": [
    "RustBit.C74_steps",
    "RustBit.C74_steps_before",
    "RustBit.C74_no_endless_run",
    "RustBit.C74_ends_over_partial",
    "RustBit.C74_ends_complete_partial"
   ],
   "note": "The bound on steps, with equality at rest, and the absence of endless runs without endless reports or failures are proved for all interleavings and all peers. That the files are complete when nothing more can happen is proved if no worker died (C42) and the paths meet the conditions of C66; a download that never returns (C37) is a worker that takes no step. With files in the way: complete, followed by what was beyond the listed length."
  },
  {
   "property": "C75",
   "status": "partial",
   "theorems": [
    "RustBit.C75_anywhere_partial",
    "RustBit.C75_kept_partial",
    "RustBit.C75_refuted"
   ],
   "note": "Refuted: whatever is on the disk, a torrent that comes to rest has downloaded every piece in this session. Proved: what is right on the disk stays right, under the conditions of C69. Files of any length may be there. C75_anywhere_partial: for any paths."
  },
  {
   "property": "C76",
   "status": "partial",
   "theorems": [
    "RustBit.C76_opens_partial",
    "RustBit.C76_refuted_busy",
    "RustBit.C76_refuted_plain"
   ],
   "note": "Refuted for a peer that sends nine `have` messages before it unchokes, and for a peer without metadata extension. Proved if the two messages are among the first ten, with a trade-off between messages and empty polls, for the segmentations of C35."
  },
  {
   "property": "C77",
   "status": "partial",
   "theorems": [
    "RustBit.C77_exact",
    "RustBit.C77_bytes_partial",
    "RustBit.C77_metadata_partial",
    "RustBit.C77_refuted"
   ],
   "note": "Refuted: valid metadata with an integer outside 64 bits or a list is refused or makes the attempt hang. Proved: whatever bytes are served, other extension messages in between, what comes out is what the decoder of metadata makes of them; so the published metadata within the conditions of C13, for the arrival conditions of C35. Exact for all peers in terms of the messages that were read (C77_exact): blocks are put together in the order in which they come, whatever they say they are."
  },
  {
   "property": "C78",
   "status": "partial",
   "theorems": [
    "RustBit.C78_over_partial",
    "RustBit.C78_can_finish_partial",
    "RustBit.C78_refuted"
   ],
   "note": "Refuted: one peer can end the torrent actor for good. Proved from every reachable state in which the torrent is alive, has not accepted other metadata and no worker died, for metadata within the conditions of C13 and paths within those of C66, or a collision is exhibited. With files in the way: complete, followed by what was beyond the listed length."
  },
  {
   "property": "C79",
   "status": "partial",
   "theorems": [
    "RustBit.C79_panics_exactly_partial",
    "RustBit.C79_contacts",
    "RustBit.C79_refuted"
   ],
   "note": "Refuted: a cut-off answer of an HTTP tracker, or a socket that cannot be bound or connected. The set of crashes is exact; no datagram causes one. Contacts are proved without restriction."
  },
  {
   "property": "C80",
   "status": "proved",
   "theorems": [
    "RustBit.C80_hears",
    "RustBit.C80_dials",
    "RustBit.C80_delivery"
   ],
   "note": "Holds. For all runs of the whole program."
  },
  {
   "property": "C81",
   "status": "partial",
   "theorems": [
    "RustBit.C81_anywhere_exactly_partial",
    "RustBit.C81_anywhere_kept_partial",
    "RustBit.C81_refines",
    "RustBit.C81_files_partial",
    "RustBit.C81_exactly_partial",
    "RustBit.C81_kept_partial"
   ],
   "note": "The refinement is proved for all runs. The statements about files carry the conditions of C69: paths, no collision, other torrents are the same or have files elsewhere. With files in the way: right exactly if none was longer. C81_anywhere_exactly_partial, C81_anywhere_kept_partial: for any paths."
  },
  {
   "property": "C82",
   "status": "partial",
   "theorems": [
    "RustBit.C82_anywhere_partial",
    "RustBit.C82_needs_tracker",
    "RustBit.C82_refuted",
    "RustBit.C82_over_partial",
    "RustBit.C82_can_finish_partial",
    "RustBit.C82_cached_over_partial",
    "RustBit.C82_cached_partial"
   ],
   "note": "Refuted: a request while no socket can be had ends every tracker, and from then on no torrent of this process hears of a peer; C82_needs_tracker: so for every state with all trackers ended. Proved for every reachable state in which one tracker and one thread are left, for metadata within the conditions of C13 and paths within those of C66. With files in the way: complete, and right exactly if none was longer. The program does not have to be stopped on the way. C82_anywhere_partial: the same for files with any paths whatever, as far as the writer survives them."
  },
  {
   "property": "C83",
   "status": "partial",
   "theorems": [
    "RustBit.C83_stuck_thread",
    "RustBit.C83_all_stuck",
    "RustBit.C83_refuted",
    "RustBit.C83_refuted_neighbour",
    "RustBit.C83_free_partial"
   ],
   "note": "Refuted: as many endless peers as there are threads stop the program for good, and one stops every torrent on its thread. Proved: torrents on other threads can do all they could do alone, if their writer does not crash."
  },
  {
   "property": "C84",
   "status": "partial",
   "theorems": [
    "RustBit.C84_anywhere_partial",
    "RustBit.C84_among",
    "RustBit.C84_one_place_partial",
    "RustBit.C84_exact",
    "RustBit.C84_in_flight",
    "RustBit.C84_counters",
    "RustBit.C84_exactly_partial",
    "RustBit.C84_files_partial",
    "RustBit.C84_refuted_longer"
   ],
   "note": "That every torrent of the program is in a state it can reach by its own steps under arbitrary changes of the disk is proved for all runs, as are the bounds and counters. Pieces in one place: including those lost with workers; exactly, also for totals that wrap around. Files: under the conditions of C81. With files in the way: right exactly if none was longer; refuted for longer ones in every world. C84_anywhere_partial: for any paths."
  },
  {
   "property": "C85",
   "status": "proved",
   "theorems": [
    "RustBit.C85_encoding",
    "RustBit.C85_identity",
    "RustBit.C85_same_torrent"
   ],
   "note": "SHA-1 is an arbitrary function; a collision is an explicit pair of different documents."
  },
  {
   "property": "C86",
   "status": "partial",
   "theorems": [
    "RustBit.C86_exact",
    "RustBit.C86_documents",
    "RustBit.C86_bounded_partial",
    "RustBit.C86_attained",
    "RustBit.C86_refuted",
    "RustBit.C86_refuted_peer"
   ],
   "note": "Refuted: for every limit there is a short valid document, and a message of a peer, that nests deeper. Proved: the depth is exactly the nesting of the input, which is at most its length."
  },
  {
   "property": "C87",
   "status": "partial",
   "theorems": [
    "RustBit.C87_bytes_partial",
    "RustBit.C87_anywhere_partial",
    "RustBit.C87_relied",
    "RustBit.C87_reported_partial",
    "RustBit.C87_sound",
    "RustBit.C87_intact_partial",
    "RustBit.C87_exactly_partial",
    "RustBit.C87_files_partial",
    "RustBit.C87_refuted",
    "RustBit.C87_exact"
   ],
   "note": "Refuted: a short write goes unnoticed. Proved, whatever is listed and on disk, when the disk takes all it is given or reports an error: a piece reported as written is as the sound disk leaves it; a sound disk behaves as in C50-C55, panics included. Earlier pieces stay intact on every disk. Exact for one file. All pieces reported on a disk that is never short: files right exactly if no longer one was in the way. For files with any paths whatever: C87_bytes_partial, C87_anywhere_partial (a disk that takes all or reports an error), and exactly (C87_relied): what was written stays right on every such disk just if files in one place agree."
  },
  {
   "property": "C88",
   "status": "partial",
   "theorems": [
    "RustBit.C88_exact",
    "RustBit.C88_shape",
    "RustBit.C88_uniform",
    "RustBit.C88_attainable",
    "RustBit.C88_sent_partial",
    "RustBit.C88_refuted"
   ],
   "note": "Refuted: a new id is drawn for every lookup and every connection. Proved for every random stream: ids are exactly the letters of the words drawn, twenty letters and digits, each equally likely, every id possible; what carries them is well formed. Drawing ends exactly if the stream yields twenty usable words."
  },
  {
   "property": "C89",
   "status": "partial",
   "theorems": [
    "RustBit.C89_read",
    "RustBit.C89_first_wait",
    "RustBit.C89_attempt_partial",
    "RustBit.C89_attempt_parts",
    "RustBit.C89_read_attained",
    "RustBit.C89_open",
    "RustBit.C89_refused",
    "RustBit.C89_open_attained",
    "RustBit.C89_refuted"
   ],
   "note": "Refuted for a whole attempt: with five bytes every 0.3 s a peer keeps a worker for any time. Proved with tight bounds: a read waits at most 8 s, opening at most 87.805 s; an attempt at most 3.2 s and 8.705 s for every byte the peer sends. Only waiting is counted, not computing; writing does not wait. C89_refused: a peer that is refused after its first message costs exactly one read, at most eight seconds. C89_first_wait: a read takes no longer than the first wait of the socket, and 100 ms at most, unless it consumes bytes."
  },
  {
   "property": "C90",
   "status": "partial",
   "theorems": [
    "RustBit.C90_bounded_partial",
    "RustBit.C90_exact",
    "RustBit.C90_value",
    "RustBit.C90_value_held",
    "RustBit.C90_overwritten",
    "RustBit.C90_key",
    "RustBit.C90_attained",
    "RustBit.C90_refuted",
    "RustBit.C90_refuted_peer"
   ],
   "note": "Refuted: l0:e, which is valid, makes a loop hold ever more. Proved: what is held is bounded exactly for the inputs on which the decoder ends or fails (C05), by the length of the input (at least 1); the value takes no more than the bytes it was read from. Counted in units; what allocators reserve beyond is not modelled. C90_key: exactly what is held when a key is refused."
  },
  {
   "property": "C91",
   "status": "partial",
   "theorems": [
    "RustBit.C91_kept_partial",
    "RustBit.C91_reserved",
    "RustBit.C91_buffer_exact",
    "RustBit.C91_refuted",
    "RustBit.C91_refuted_block",
    "RustBit.C91_block_kept",
    "RustBit.C91_attained"
   ],
   "note": "Refuted: a buffer of any size up to 4294967294 is reserved on five bytes, and a block may be larger than what was asked for. Proved for all networks and states: what is kept is at most 8 units for every byte sent (attained by bitfields), a result no longer than what was sent. The decoding of extension messages is counted in C90. C91_block_kept: each block adds exactly its bytes and those of the copy."
  },
  {
   "property": "C92",
   "status": "partial",
   "theorems": [
    "RustBit.C92_exact",
    "RustBit.C92_unique",
    "RustBit.C92_file",
    "RustBit.C92_typed",
    "RustBit.C92_panics_exactly",
    "RustBit.C92_errors_partial",
    "RustBit.C92_start",
    "RustBit.C92_refuted"
   ],
   "note": "Refuted: text that is no document of metadata is no error but a panic (and ends the start of the torrent). Proved, both directions, for all byte strings: what is read is exactly the RFC 8259 documents of metadata, as what they stand for; panics and errors characterised exactly; what is read is a value of its type. serde_json is modelled, not verified."
  },
  {
   "property": "C93",
   "status": "partial",
   "theorems": [
    "RustBit.C93_alone",
    "RustBit.C93_agree_partial",
    "RustBit.C93_refuted_crash",
    "RustBit.C93_mixed",
    "RustBit.C93_refuted_mixed",
    "RustBit.C93_refuted_third"
   ],
   "note": "Refuted three ways: an actor that looks while another writes dies (for any metadata); peers serving documents of different lengths can leave a file that is no document, after which every start panics; two actors can leave metadata nobody served (concrete). Proved for peers that agree, any number of actors and any interleaving: nobody ends with, or ever reads, other metadata, and once nobody is writing and no write failed the file is complete and reading does not crash. A read is one atomic step."
  },
  {
   "property": "C94",
   "status": "partial",
   "theorems": [
    "RustBit.C94_log_partial",
    "RustBit.C94_refuted_restart",
    "RustBit.C94_refuted_torrent"
   ],
   "note": "Proved, for every run and every stop, restart and interleaving: the log file is exactly what has been logged since the last start, if the metadata lists no path at, below or outside the place of the log file. Refuted: everything logged before is lost when the program is started again; a torrent whose file is called test.log is written over the log."
  },
  {
   "property": "C95",
   "status": "partial",
   "theorems": [
    "RustBit.C95_noticed_partial",
    "RustBit.C95_refuted_handshake",
    "RustBit.C95_refuted_interested",
    "RustBit.C95_refuted_request",
    "RustBit.C95_refuted"
   ],
   "note": "Refuted: whether the handshake, `interested` or a request could be sent makes no difference to anything (for all schedules), and a piece can be downloaded from a peer that got none of the three. Exact for the only message whose failure is looked at, the extension handshake."
  },
  {
   "property": "C96",
   "status": "partial",
   "theorems": [
    "RustBit.C96_piece_partial",
    "RustBit.C96_metadata_partial",
    "RustBit.C96_refuted",
    "RustBit.C96_volume_partial"
   ],
   "note": "Proved in full apart from the size of the metadata: everything said to a peer, whatever it does and wherever the attempt is cut off, is the three opening messages and then at most one request per block. Refuted: the extension handshake states 28282 bytes of metadata whatever the torrent is. Per attempt at most 137 bytes and 17 per block are sent (attained)."
  },
  {
   "property": "C97",
   "status": "partial",
   "theorems": [
    "RustBit.C97_never_ends_partial",
    "RustBit.C97_refuted",
    "RustBit.C97_tried",
    "RustBit.C97_tried_attained"
   ],
   "note": "Refuted: a tracker that does not answer is waited for without limit. Exact: a lookup never ends just if a datagram that is waited for never comes, or the decoder never ends on an HTTP answer (C05). Proved: the peers of a UDP answer are tried within 33.15 seconds, and this can be needed."
  },
  {
   "property": "C98",
   "status": "partial",
   "theorems": [
    "RustBit.C98_announced_partial",
    "RustBit.C98_refuted_left",
    "RustBit.C98_refuted_port",
    "RustBit.C98_refuted_http"
   ],
   "note": "Proved for every datagram of every lookup: it is a connect request, or an announce of this torrent and peer identifier with 0 downloaded, 0 left, 0 uploaded (which is true) and port 8000. Refuted: nothing is left for any torrent; the program does not listen on the port; an HTTP tracker is told none of it."
  },
  {
   "property": "C99",
   "status": "partial",
   "theorems": [
    "RustBit.C99_answer_partial",
    "RustBit.C99_failure",
    "RustBit.C99_unreadable",
    "RustBit.C99_refuted_coding",
    "RustBit.C99_refuted_brotli",
    "RustBit.C99_refuted_host"
   ],
   "note": "Proved: an answer without coding or with gzip, status below 400, is understood (documents as in C67); every other status is an error of the lookup. Refuted: deflate and br are said to be accepted but are not undone; the host named is 192.168.1.2 for every tracker. What ureq does is modelled, not verified. A body that cannot be unpacked is an error of the lookup."
  },
  {
   "property": "C100",
   "status": "partial",
   "theorems": [
    "RustBit.C100_others",
    "RustBit.C100_says",
    "RustBit.C100_read",
    "RustBit.C100_log_read",
    "RustBit.C100_errors",
    "RustBit.C100_place",
    "RustBit.C100_attempts",
    "RustBit.C100_one_line",
    "RustBit.C100_quoted",
    "RustBit.C100_values",
    "RustBit.C100_log_partial",
    "RustBit.C100_refuted_name"
   ],
   "note": "Proved for every record of the program: one line each, texts quoted so that they can be read back, values printed unambiguously, and the lines of the log file are those of the records (where C94 holds). Refuted: interested messages are logged as BITFIELD and bitfields as ??. Records of libraries are not modelled. A line, and the whole log, tell which records they are of (C100_says, C100_read, C100_log_read), up to the two places that say No Message; what is logged in an attempt is always readable so (C100_attempts); exactly the faults are logged as errors (C100_errors). The same holds for the records of lookups, the cache and the writer (C100_others)."
  },
  {
   "property": "C101",
   "status": "partial",
   "theorems": [
    "RustBit.C101_metadata_partial",
    "RustBit.C101_piece_partial",
    "RustBit.C101_refuted"
   ],
   "note": "Proved: an attempt adds at most 4000 bytes and 2001 for every byte the peer sends. Refuted in total: a peer that keeps sending messages makes the log as long as it likes. Records of libraries are not modelled."
  },
  {
   "property": "C102",
   "status": "partial",
   "theorems": [
    "RustBit.C102_metadata_partial",
    "RustBit.C102_piece_partial",
    "RustBit.C102_refuted",
    "RustBit.C102_refuted_silent",
    "RustBit.C102_extension"
   ],
   "note": "Refuted: the log says that a download was completed although the piece is wrong (for every hash function), and does not name messages such as have. Proved: exactly the messages with ids 0, 1, 2, 5, 19, 20 are named, exactly the interested messages are shown, failures to send are real and none is reported on a connection that never fails, started exactly if the connection was prepared, completed exactly if everything came. C102_extension: what the log says of an extension message, read by read: the error if its dictionary cannot be decoded, the values that are no numbers otherwise."
  },
  {
   "property": "C103",
   "status": "partial",
   "theorems": [
    "RustBit.C103_requests",
    "RustBit.C103_refuted_started",
    "RustBit.C103_refuted"
   ],
   "note": "C103_requests is exact: while the program runs the list of its torrents changes only by accepted requests, each of which appends one, whatever torrents there are. Refuted (C103_refuted_started, C103_refuted): a torrent that has been downloaded completely can be added again and downloaded completely again, for every torrent whose metadata is cached."
  },
  {
   "property": "C104",
   "status": "partial",
   "theorems": [
    "RustBit.C104_exact",
    "RustBit.C104_requests",
    "RustBit.C104_total_partial",
    "RustBit.C104_refuted",
    "RustBit.C104_refuted_total"
   ],
   "note": "C104_exact and C104_requests are exact with failures counted since a peer was named last; C104_total_partial is the property when no peer is named twice. Refuted (C104_refuted, C104_refuted_total): a peer that is named again is as good as new, so one that never answers may get all requests, however often it failed, while another was never tried."
  },
  {
   "property": "C105",
   "status": "partial",
   "theorems": [
    "RustBit.C105_anywhere_partial",
    "RustBit.C105_udp",
    "RustBit.C105_http",
    "RustBit.C105_found",
    "RustBit.C105_refuted_lookup",
    "RustBit.C105_cache",
    "RustBit.C105_refuted_cache",
    "RustBit.C105_written_partial",
    "RustBit.C105_refuted_short"
   ],
   "note": "C105_udp, C105_http and C105_found say exactly what a lookup leaves in the log, C105_cache what looking for metadata leaves about the cache, for all networks, peers and file systems; C105_written_partial is the property for pieces on disks that take all they are given or report an error. Refuted: a failed lookup need not leave anything (C105_refuted_lookup), any text is logged as metadata that were found before the program panics (C105_refuted_cache), and a piece that was cut off is logged as completely written (C105_refuted_short). C105_anywhere_partial: the records against the bytes on disk, for any paths."
  },
  {
   "property": "C106",
   "status": "partial",
   "theorems": [
    "RustBit.C106_bounded_partial",
    "RustBit.C106_exact",
    "RustBit.C106_value",
    "RustBit.C106_steps",
    "RustBit.C106_failing",
    "RustBit.C106_attained",
    "RustBit.C106_refuted",
    "RustBit.C106_refuted_peer"
   ],
   "note": "Refuted: l0:e, which is valid, keeps the decoder busy for ever, and a peer can send it in ten bytes. Proved: the steps are bounded exactly for the inputs on which the decoder ends or fails (C05), by 4 * length + 2; a value read from n bytes takes between n and 4n - 1 steps; a dictionary takes four for every byte of its key. Steps are counted in the model; growing a vector and inserting into a map count as constant. For documents that can be read the steps are counted exactly, by what the document stands for; also for numbers that are too large or cut off."
  },
  {
   "property": "C107",
   "status": "partial",
   "theorems": [
    "RustBit.C107_opening",
    "RustBit.C107_metadata",
    "RustBit.C107_piece",
    "RustBit.C107_connection",
    "RustBit.C107_decoder",
    "RustBit.C107_four",
    "RustBit.C107_accessors",
    "RustBit.C107_file",
    "RustBit.C107_info",
    "RustBit.C107_bytes",
    "RustBit.C107_length",
    "RustBit.C107_udp",
    "RustBit.C107_http",
    "RustBit.C107_refuted_size",
    "RustBit.C107_refuted_save",
    "RustBit.C107_cache_partial",
    "RustBit.C107_refuted_file"
   ],
   "note": "Refuted: a tracker's answer of exactly 26 bytes, as for one peer, is reported as less than 26 bytes; a cache file that cannot be written or that is not text is reported as not found. Proved: the errors of the decoder, of the accessors, of file entries, of metadata, of the calls to UDP and HTTP trackers, and of attempts with peers (connecting, opening, transferring blocks, checking what they hold; for whatever the peer sends and whenever) are characterised exactly by independent descriptions of what is wrong; every input is accepted, cut, faulty or stuck, just one of them; BadNumberFromString and NoStringFound never occur. What cannot be read as a message counts as nothing in the descriptions of attempts, as it does for the program."
  },
  {
   "property": "C108",
   "status": "partial",
   "theorems": [
    "RustBit.C108_whole_partial",
    "RustBit.C108_causes",
    "RustBit.C108_lethal",
    "RustBit.C108_lengthless",
    "RustBit.C108_info_causes",
    "RustBit.C108_info_partial",
    "RustBit.C108_refuted_split",
    "RustBit.C108_refuted_keepalive",
    "RustBit.C108_refuted_metadata"
   ],
   "note": "Refuted: a message of 5, 6, 18 or 19 bytes whose first three bytes arrive before the rest, or that follows four keep-alives, crashes the attempt; a peer that tells the size of the metadata but no id for asking crashes the attempt to get it. Proved: no panic for peers whose messages arrive whole (piece), and for metadata only if what they sent is cut short; for all peers and schedules, the only causes of a panic are messages too short for their kind, documents cut short, and metadata sizes without an id. Conversely, whenever such a message is next during the exchange of blocks the attempt does panic. C108_lengthless: metadata without any length makes every attempt panic."
  },
  {
   "property": "C109",
   "status": "partial",
   "theorems": [
    "RustBit.C109_once",
    "RustBit.C109_none",
    "RustBit.C109_bytes_partial",
    "RustBit.C109_refuted",
    "RustBit.C109_refuted_any",
    "RustBit.C109_requests",
    "RustBit.C109_peers",
    "RustBit.C109_program_partial",
    "RustBit.C109_peers_attained"
   ],
   "note": "Refuted: if the disk is slow, every torrent gets into memory as a whole before its first byte is written, so for every bound there is a torrent that exceeds it. Proved, in every reachable state of the program: a torrent keeps at most 18 * 663 peers and five requests, no piece is in memory twice, and the pieces in memory have together no more bytes than the torrent (or a collision is exhibited). The blocks of a piece that is being downloaded are the subject of C36. The bound on peers is attained (C109_peers_attained)."
  },
  {
   "property": "C110",
   "status": "partial",
   "theorems": [
    "RustBit.C110_fair",
    "RustBit.C110_share",
    "RustBit.C110_even_partial",
    "RustBit.C110_refuted"
   ],
   "note": "Proved exactly: the share of the outcomes in which an address is chosen is its share of the entries of the best class, for all peer lists; the shuffle reaches each order in just one way. So peers named once are asked equally often; refuted for peers named several times, who are asked as many times as often. That the numbers drawn are uniform and independent is assumed."
  },
  {
   "property": "C111",
   "status": "partial",
   "theorems": [
    "RustBit.C111_either_partial",
    "RustBit.C111_anywhere_partial",
    "RustBit.C111_rest",
    "RustBit.C111_complete_partial",
    "RustBit.C111_files_partial",
    "RustBit.C111_fair_runs",
    "RustBit.C111_served_runs",
    "RustBit.C111_refuted_workers",
    "RustBit.C111_refuted",
    "RustBit.C111_refuted_writer"
   ],
   "note": "Refuted if workers may die: in every state in which no piece has been reported to a torrent there is a fair run without failures in which nothing is ever handed to the writer. Proved: every fair run with finitely many failures comes to rest; every piece has then been handed to the writer or was lost with a worker (unless all five died); without losses the files are complete and stay so, under the conditions of C81, or a collision is exhibited; and fair runs exist from every state, without failures and losses if the torrent is as described. A download that never ends (C37) and a thread that gets stuck (C83) are excluded by the conditions. C111_either_partial and C111_anywhere_partial: the same for files with paths of any kind (going up, absolute, several in one place), with the exact condition for right files. Refuted also by paths: C111_refuted_writer is, in any world, a fair run without failures and losses in which the writer dies over a file without a name."
  },
  {
   "property": "C112",
   "status": "partial",
   "theorems": [
    "RustBit.C112_anywhere_partial",
    "RustBit.C112_named_anywhere_partial",
    "RustBit.C112_handles",
    "RustBit.C112_heard",
    "RustBit.C112_started",
    "RustBit.C112_starts",
    "RustBit.C112_complete_partial",
    "RustBit.C112_delivered",
    "RustBit.C112_asked",
    "RustBit.C112_named_partial",
    "RustBit.C112_runs",
    "RustBit.C112_any_peer",
    "RustBit.C112_refuted_last"
   ],
   "note": "Refuted: whatever the torrent, if the metadata comes from the last peer named there is a fair run, without failures, in which nothing is ever requested, however many peers there are. Exact instead (C112_starts): in every fair run a torrent with metadata starts just if it is told of more than ten peers in all and of one after that from which it got the metadata; then its files are complete in the end under the conditions of C111. Every tracker whose actor survives is asked about every torrent if not more than sixteen are added (beyond that requests can be dropped, C73). Such runs exist from every state of a torrent with metadata, and after a request whichever peer serves the metadata. C112_anywhere_partial and C112_named_anywhere_partial: the same for files with paths of any kind."
  },
  {
   "property": "C113",
   "status": "proved",
   "theorems": [
    "RustBit.C113_busy",
    "RustBit.C113_rate",
    "RustBit.C113_time",
    "RustBit.C113_least"
   ],
   "note": "For every run and clock: C113_busy (every reachable state), C113_rate, C113_time (upper bound, pieces lost with workers included) and C113_least (lower bound, from the number of workers alone). Without failures both agree: R pieces take ceil(R/W) times one download. Times are hypotheses of the run; how long an attempt can take is C89. The time of the writer is not included."
  },
  {
   "property": "C114",
   "status": "proved",
   "theorems": [
    "RustBit.C114_history",
    "RustBit.C114_answers",
    "RustBit.C114_time",
    "RustBit.C114_attempt",
    "RustBit.C114_read",
    "RustBit.C114_exact",
    "RustBit.C114_program"
   ],
   "note": "C114_history ties the times to the history and the clock of C89; C114_answers, C114_time and C114_attempt give the lower bounds for all schedules, C114_exact the time of a peer in step. Only waiting takes time in the model; the hypothesis Latency excludes blocks sent before they are asked for (C33). C114_program: for all runs of the whole program in which every download that ends well takes at least as long as such an attempt."
  },
  {
   "property": "C115",
   "status": "partial",
   "theorems": [
    "RustBit.C115_ignored",
    "RustBit.C115_wire",
    "RustBit.C115_refuted"
   ],
   "note": "Refuted by C115_refuted: a peer whose bitfield is all zeroes is asked for piece 0. C115_ignored and C115_wire say exactly how much the bitfield matters: not at all, for all pairs of connections that differ in nothing else, for results and for everything written. What is missing: the property itself, which the code does not have."
  },
  {
   "property": "C116",
   "status": "partial",
   "theorems": [
    "RustBit.C116_final",
    "RustBit.C116_forgotten",
    "RustBit.C116_fair_partial",
    "RustBit.C116_runs",
    "RustBit.C116_refuted",
    "RustBit.C116_dropped",
    "RustBit.C116_piles_up",
    "RustBit.C116_threads"
   ],
   "note": "Refuted by C116_refuted (a complete torrent keeps its threads for ever in a fair run with one silent tracker) and C116_piles_up (any number of torrents do). True with lookups that end, in all fair runs (C116_fair_partial, C116_forgotten; C116_runs: such runs exist from every state). The half about afterwards holds without conditions: C116_final. C116_dropped: a torrent that is dropped because the interface is full gives back its threads at once. Missing: the property itself without the condition on lookups, which the code does not have. C116_threads: the threads left, exactly."
  },
  {
   "property": "C117",
   "status": "partial",
   "theorems": [
    "RustBit.C117_queue",
    "RustBit.C117_count",
    "RustBit.C117_refuted_count",
    "RustBit.C117_connection",
    "RustBit.C117_messages",
    "RustBit.C117_messages_pushed",
    "RustBit.C117_refuted",
    "RustBit.C117_in_time_partial",
    "RustBit.C117_nothing",
    "RustBit.C117_sent",
    "RustBit.C117_failing"
   ],
   "note": "Refuted for connections in general (C117_refuted: an unchoke delivered in two portions is read as a choke). Proved: the mock stream is a pair of queues (C117_queue) and gives, for any sequence of uses, what a connection gives whose peer sends the pushed bytes as they are pushed and closes (C117_connection); messages are read alike on both (C117_messages, C117_messages_pushed); a connection in general gives what the mock gives just when the message is there in time (C117_in_time_partial). C117_refuted_count: peek_bytes_to_read counts bytes already read. Also the stream that is nothing, writing, and the stream that fails. C117_count: exactly which number peek_bytes_to_read gives."
  },
  {
   "property": "C118",
   "status": "partial",
   "theorems": [
    "RustBit.C118_refuted_files",
    "RustBit.C118_refuted",
    "RustBit.C118_refuted_all",
    "RustBit.C118_refuted_program",
    "RustBit.C118_blind",
    "RustBit.C118_links_partial",
    "RustBit.C118_exact"
   ],
   "note": "Refuted: for every torrent and every web site there is a request that a page of the site can have a browser send without asking, and it starts the torrent (C118_refuted; at every moment of a run with a free thread C118_refuted_program; every torrent the user can start at all, C118_refuted_all). Why: the server looks at nothing but method, path, body, type and encoding (C118_blind). What holds: requests other than POST to that path start nothing (C118_links_partial). Exactly which requests of pages start what: C118_exact. C118_refuted_files: with peers of its own, a page can so have any content written to any place on the disk outside of `downloads`, from every state of the running program."
  },
  {
   "property": "C119",
   "status": "partial",
   "theorems": [
    "RustBit.C119_each",
    "RustBit.C119_sum",
    "RustBit.C119_total_partial",
    "RustBit.C119_closed_partial",
    "RustBit.C119_refuted",
    "RustBit.C119_attained"
   ],
   "note": "Refuted (C119_refuted): from every state in which the program runs and a thread is free, N requests make N sockets per tracker that is up, for ever, in a run in which nothing is left lying about, if the trackers are silent (call waits for recv without a time-out). With no descriptors left bind panics, which ends a tracker's actor (cf. C73_refuted_crash). Holds per torrent: at most 18 lookups and 22 sockets (C119_each); the total is the sum over torrents and one per stuck thread (C119_sum), at most 22 per torrent and one per thread (C119_total_partial); in a fair run a torrent whose lookups end closes all of them (C119_closed_partial). Not counted: the socket that a thread may have during a step, and those of the HTTP server. C119_attained: the 22 are attained."
  },
  {
   "property": "C120",
   "status": "partial",
   "theorems": [
    "RustBit.C120_failing",
    "RustBit.C120_failures",
    "RustBit.C120_six",
    "RustBit.C120_finitely",
    "RustBit.C120_rest",
    "RustBit.C120_complete_partial",
    "RustBit.C120_named_anywhere_partial",
    "RustBit.C120_good",
    "RustBit.C120_refuted",
    "RustBit.C120_attained"
   ],
   "note": "Refuted (C120_refuted): if workers die, no peer need fail and nothing is got. Proved: as long as there is a peer with fewer than two failures since it was named last whenever somebody is asked, no peer fails more than six times since it was named last (C120_six, from before the start; C120_failures from any state), downloads fail at most six times per peer and five (so finitely often, C120_finitely), every fair run comes to rest (C120_rest), and with no dead workers the files are completed (C120_complete_partial, C120_named_anywhere_partial from the trackers on and for any paths). C120_good: a peer that has been named and failed less than twice is one. Missing in the partial theorems: dead workers, a thread that gets stuck, the conditions of C81/C112. C120_failing: without a good peer there are fair runs from every state before the first piece in which no worker dies, downloads fail more often than any number, and nothing is got. C120_attained: six failures of a peer are attained, with ten other peers named once that never fail."
  },
  {
   "property": "C121",
   "status": "partial",
   "theorems": [
    "RustBit.C121_words",
    "RustBit.C121_words_metadata",
    "RustBit.C121_tried_partial",
    "RustBit.C121_at_once",
    "RustBit.C121_refuted"
   ],
   "note": "Refuted (C121_refuted): one answer of a tracker that names one address eleven times makes the client try it for ever, if nobody answers there: there is no pause between attempts and no limit on failures when no other peer is known. Proved: whoever does not greet the client with the info hash hears the handshake of 68 bytes and nothing else, whether asked for a piece (C121_words) or for the metadata (C121_words_metadata); while there is a peer with fewer than two failures whenever somebody is asked, an address is tried in vain at most six times for each time it was named (C121_tried_partial; attained, C120_attained); at most five connections for pieces at a time (C121_at_once). Missing in the partial theorem: runs without a good peer. Metadata is asked for at most once for each naming (C122_metadata)."
  },
  {
   "property": "C122",
   "status": "partial",
   "theorems": [
    "RustBit.C122_account",
    "RustBit.C122_failures",
    "RustBit.C122_attempts_partial",
    "RustBit.C122_none",
    "RustBit.C122_asked",
    "RustBit.C122_metadata",
    "RustBit.C122_traffic_partial",
    "RustBit.C122_time_partial",
    "RustBit.C122_refuted"
   ],
   "note": "Refuted (C122_refuted): without a good peer there are fair runs, with no dead worker and nobody named after the beginning, in which the number of attempts for a torrent of three bytes exceeds every number. Proved: every attempt is accounted for, exactly (C122_account): the pieces downloaded, the failures, those under way, those that took the worker with them; so attempts beyond one per piece are failures (C122_failures); none before the start (C122_none); each is for a piece of the torrent, from a peer that has been named (C122_asked). With a good peer: the bounds on attempts (C122_attempts_partial), on bytes sent, for all peers (C122_traffic_partial), and on time with C113 (C122_time_partial). C122_metadata: metadata is asked for at most once for each naming. Missing in the partial theorems: runs without a good peer; for time, dead workers; for bytes, metadata with numbers out of range."
  },
  {
   "property": "C123",
   "status": "proved",
   "theorems": [
    "RustBit.C123_udp",
    "RustBit.C123_udp_heard",
    "RustBit.C123_piece",
    "RustBit.C123_metadata",
    "RustBit.C123_listener",
    "RustBit.C123_causal",
    "RustBit.C123_causal_metadata",
    "RustBit.C123_written"
   ],
   "note": "Both attempts are interaction trees (Dialogue) that learn only what came of the calls made; equal to the model functions for every schedule, result, number of calls and bytes written; listeners that react to what they hear bring about exactly the outcomes of schedules. It justifies modelling peers as schedules. C123_udp and C123_udp_heard: the same for lookups at UDP trackers. HTTP trackers answer one request, as a function of its URL."
  },
  {
   "property": "C124",
   "status": "partial",
   "theorems": [
    "RustBit.C124_blind_partial",
    "RustBit.C124_blind_piece_partial",
    "RustBit.C124_exact",
    "RustBit.C124_refuted_echo"
   ],
   "note": "Proved for whoever does not listen: one schedule is told more than the handshake for one info hash at most, for metadata and for pieces. Refuted for an echo: it is taken for a peer of every torrent (the peer id in the handshake, here the own one, is not looked at), and the attempt then ends with PeerNotReady, as nobody unchokes. Missing: nothing beyond what is refuted. C124_exact: somebody is told more just if their first message is a handshake with the info hash of the torrent."
  },
  {
   "property": "C125",
   "status": "partial",
   "theorems": [
    "RustBit.C125_data_partial",
    "RustBit.C125_piece_partial",
    "RustBit.C125_beyond",
    "RustBit.C125_metadata_partial",
    "RustBit.C125_refuted",
    "RustBit.C125_refuted_beyond"
   ],
   "note": "Refuted: for somebody who answers a request twice (C125_refuted), and for pieces whose length is no multiple of 16384 and that are not the last one, where the request goes beyond the piece (C125_refuted_beyond; always so, or a collision of the hash is exhibited: C125_beyond). Proved for those who answer every request at most once, in order, whatever else they send and whatever the timing: what is got are the bytes of the torrent from the beginning of the piece, in whole blocks (C125_data_partial), so the piece, never the error for a wrong piece, if pieces consist of whole blocks or the piece is the last one (C125_piece_partial); for metadata, the outcome of reading the metadata themselves (C125_metadata_partial). In terms of the history of the attempt, so no collision is needed."
  },
  {
   "property": "C126",
   "status": "partial",
   "theorems": [
    "RustBit.C126_file_partial",
    "RustBit.C126_room_partial",
    "RustBit.C126_refuted",
    "RustBit.C126_refuted_run"
   ],
   "note": "Proved for all runs of the whole program, any metadata and any peers: per file (C126_file_partial) and for all files together (C126_room_partial), unconditionally in a debug build and in a release build for torrents of which the listed lengths together, plus the length of the piece, are at most 2^64. Refuted at the writer beyond that (C126_refuted): in a release build a piece of 8 bytes is written to a file of 2. The log and the saved metadata are not counted. C126_refuted_run is a run of a torrent (metadata in the cache, peers, workers, writer) in which a file of 2 bytes gets 72: it needs 2^58 pieces; with fewer pieces the computed length of the last one wraps around too, and more messages are needed."
  },
  {
   "property": "C127",
   "status": "partial",
   "theorems": [
    "RustBit.C127_refuted_run",
    "RustBit.C127_nothing_removed",
    "RustBit.C127_bytes_partial",
    "RustBit.C127_others",
    "RustBit.C127_unlisted",
    "RustBit.C127_refuted"
   ],
   "note": "Proved for all runs of the whole program, any metadata and any peers: nothing is removed or shortened (C127_nothing_removed) and nothing is written where no torrent lists a file (C127_others, C127_unlisted), in every build; bytes beyond listed lengths stay as they are (C127_bytes_partial) in a debug build, and in a release build for torrents as in C126. Refuted at the writer beyond that (C127_refuted). The log and the saved metadata (files directly in `downloads` whose names stand for 20 or 32 bytes) are not counted. C127_refuted_run is a run of a torrent in which the third byte of a file changes of which two are listed."
  },
  {
   "property": "C128",
   "status": "proved",
   "theorems": [
    "RustBit.C128_queue",
    "RustBit.C128_turn",
    "RustBit.C128_ascending",
    "RustBit.C128_described",
    "RustBit.C128_before",
    "RustBit.C128_bound",
    "RustBit.C128_all",
    "RustBit.C128_answered"
   ],
   "note": "C128_queue is the exact equation between what waited, what failed, what was asked for and what waits, over any stretch of any run; C128_turn and C128_ascending follow from it; C128_described gives the number of pieces from the torrent. Whether a piece is asked for at all depends on the workers being done with others (C111, C120). C128_before is the same from before the metadata is known; C128_bound: as many requests as there are pieces reach every piece that waited; C128_all: in fair runs with finitely many failures and no dead workers exactly these requests are made in the end. C128_answered: every request is answered exactly once, or is on its way, or was lost with its worker."
  },
  {
   "property": "C129",
   "status": "proved",
   "theorems": [
    "RustBit.C129_order",
    "RustBit.C129_written",
    "RustBit.C129_once",
    "RustBit.C129_program",
    "RustBit.C129_dead"
   ],
   "note": "C129_order for one torrent among others, C129_program in the whole program; C129_written: what is written is a first part of what was got; C129_once: no piece is got twice. That mailboxes are queues is part of the trusted base. C129_dead: a dead writer stays dead, and what is got from then on is kept waiting for it."
  }
 ]
}
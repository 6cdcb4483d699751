# Formal model of rustBit in Lean 4 — design

The Rust sources are in `/repo` (read as text, never built). The Lean project is
`/verif/lean`. Everything below `Verif/Model` models Rust code function by function
(each definition cites file:lines), `Verif/Spec` holds small specifications that do not
mention the model (BEP grammars, layouts, reference semantics), `Verif/Proofs` holds helper
lemmas, and `Verif/Props` holds the property theorems plus, beside each, an `example`
showing that a concrete non-trivial case satisfies its hypotheses.

`properties.jsonl` lists the properties, `MANIFEST.json` the theorems that settle each one.
A property that the code violates has a theorem `Cnn_refuted…` (the negation, with a witness) and
theorems `Cnn_…_partial` that hold for all inputs meeting an explicit condition.

## Modelling conventions

* Bytes are `UInt8`, byte strings `List UInt8` (`Bytes`). A Rust `String` is the list of its
  UTF-8 bytes; `str::from_utf8` is the validity automaton `validUtf8`;
  `chars().count()` counts non-continuation bytes.
* `usize` is a natural number; the target is assumed 64-bit. Where Rust arithmetic can
  overflow the model calls `uadd/usub/umul` with a `Build` parameter:
  `debug` panics, `release` wraps mod 2^64 — theorems quantify over both unless they say otherwise.
* A function that can fail returns `Res ε α`: `ok`, `err e` (Rust `Err`), `panic`, or `hang`
  (fuel ran out). Loops that Rust does not bound take fuel; the theorems either show
  that a stated amount of fuel suffices or that no amount does.
* `HashMap` is an association list without duplicate keys whose order carries no meaning;
  every place where Rust iterates a map is quantified over all orders (permutations).
* SHA-1 is an arbitrary function parameter `sha : Bytes → Bytes`; no assumption on it is made
  except where a theorem states one. Conclusions that need collision resistance have the form
  "… or an explicit collision exists".
* The network is an arbitrary infinite schedule `Nat → NetEv` (bytes arriving, open/eof/error; that peers which react to what they hear are covered is C123) that
  is consulted at every socket call; randomness (shuffle, peer id) is a universally quantified input; for peer ids the words of the generator are (C88), for shuffles the numbers drawn (C110).
* The actor system is a labelled transition system; a run is any list of labels, so all
  mailbox interleavings are covered.

## What is modelled

| Rust | model | how |
|------|-------|-----|
| `bencode/decode.rs`, `encode.rs`, `metainfo.rs` | `Model/Bencode` | in full |
| `torrent/info.rs`, `file.rs` | `Model/Info` (bencode side), `Model/Json` (serde side) | in full; serde_json's writer and reader are modelled (escapes, numbers, white space, derived field handling); the reader checks syntax before types, so only the kind of error can differ |
| `torrent/magnet.rs` | `Model/Magnet` | in full |
| `torrent/writer.rs`, `actors/writer.rs` | `Model/Writer`, `Model/FileSystem` | in full over a tree of directories and files |
| `messages/*` | `Model/Messages` | in full |
| `peer/stream.rs`, `buffer.rs` | `Model/Stream` | in full over a network schedule |
| `peer/mod.rs`, `manager.rs`, `piece_pool.rs`, `download/*` | `Model/Peer` | in full |
| `tracker/*` | `Model/Tracker` | request and answer bytes, retry loop, response decoding; `ureq` and the `url` crate are records handed in |
| metadata cache (`actors/torrent.rs:156-171`, `torrent/info.rs:60-90`) | `Model/Cache` | in full, crashes inside the write included |
| `actors/torrent.rs`, `connection.rs`, `writer.rs` | `Model/Actors` | transition system, one torrent |
| `actors/tracker.rs`, `trackers_interface.rs` | `Model/Trackers` | transition system over all eighteen trackers |
| `collect_info` run by several actors at once | `Model/Race` | transition system; looks, `File::create` and single writes interleave |
| `main.rs`, many torrents, restarts | `Model/Process` | transition system; writes of different torrents interleave write by write |
| `main.rs` with trackers and threads | `Model/App` | transition system: process, trackers, messages between them, and the threads of the HTTP server on which torrent actors run |
| sockets held between steps (`tracker/udp_tracker.rs:26-28`, `peer/manager.rs:30-31, 57-83`) | `Model/Sockets` | counted on the states of `Model/App` |
| time-outs and pauses (`peer/stream.rs:55-66, 101-103, 139-145`) | `Model/Clock` | milliseconds waited, on top of `Model/Stream` and `Model/Peer` |
| `common/generator.rs` | `Model/PeerId.lean` | with `Alphanumeric` of rand 0.8.5; the stream of words is arbitrary |
| the HTTP server around `add_magnet` (`main.rs:25-40, 70-73`) | `Model/Server` | routing and the `String` extractor of actix-web; decoders of charsets and decompressors are arbitrary functions handed in |
| `common/mock_stream.rs`, the kinds of `StreamInterface` | `Model/Mock` | in full; `read_stream` is modelled once more over all kinds of stream, and shown to be that of `Model/Stream` on a TCP stream |
| `#[cfg(test)]` modules | — | not modelled |

## Properties and how each is proved

| id | model | proof plan |
|----|-------|-----------|
| C01 | decoder (fuel recursion on positions) | induction on the BEP 3 grammar; full claim is false (empty strings, negative ints): `_partial` plus refutation |
| C02 | deep embedding of all `Encode` instances | structural induction; false for non-ASCII text (char count used as length): `_partial` plus refutation |
| C03 | both | C01 ∘ C02 |
| C04 | map encoding with merge sort on keys | permutation invariance of sorting with a total antisymmetric order |
| C05 | decoder | refuted; inductive predicates for the inputs that end too early and those that get stuck, shown equivalent to panic and to no result |
| C06, C07, C08, C09 | decoder | induction on fuel |
| C10 | encoder | unambiguity of the grammar, by mutual induction |
| C11 | decoder | refuted; lenient grammar shown equivalent to acceptance |
| C12, C13 | Info/File encode + from_metainfo | from C01/C02; C13 refuted for documents with extra keys |
| C14 | get_info over arbitrary peer | refuted by concrete peer transcript |
| C15, C16 | Info accessors | direct; arithmetic with wrap-around made explicit |
| C17 | from_metainfo | refuted (flat_map drops entries), `_partial` for all-valid lists |
| C18–C20 | magnet parser | lists; C19/C20 refuted (base32, length 60), exact panic set as `_partial` |
| C21–C27 | message encoders/decoders | list algebra; C24 refuted with exact crash set |
| C28–C30 | read_stream over arbitrary schedules | case analysis, induction over message lists; C29, C30 refuted; exact times by which a message must be there (`Spec/Arrival`), otherwise the connection is out of step |
| C31–C38 | init_peer / execute / download | invariants by induction on loop fuel |
| C39 | pool | refinement to queue |
| C40–C49 | transition system of TorrentActor + workers + writer | invariants by induction over label lists |
| C50–C55 | FileParser/get_file_writers + file-system model | refinement to the global byte order; C53–C55 refuted in part; exact conditions for any paths by the places they lead to (`Props/Anywhere`) |
| C56–C61, C65, C67 | tracker code | list algebra, loop unrolling |
| C62 | urlencoding::encode_binary | list algebra |
| C63, C64 | serde_json of Info (writer and reader) | round trip by induction; crash = strict prefix of the file |
| C66 | everything composed | C38 + C40 + C51; exact for any paths: the disk of a run is that of its writes in order (`Props/AnywhereRun`) |
| C68 | cache, writer and the whole program | two torrents on one disk; witness; invariant of the process over all steps and restarts |
| C69, C70 | process: any number of torrents, restarts, crashes | invariant by induction over steps: each slot owns its files and cache entry; simulation of a single-torrent run inside the process for the witnesses; for any paths, the same invariant at single bytes (every right byte stays right, what is beyond the listed lengths stays) |
| C71 | request handler | case analysis over the exact answers of the magnet parser |
| C72 | decoder, accessors, encoder | equivalence of the validation automaton with RFC 3629 |
| C73 | tracker actors | invariants by induction over steps; histories related as sublists and permutations |
| C74 | transition system of the torrent | a count of the steps still possible, conserved exactly along every step |
| C75 | process and torrent | invariant of C69 at single bytes; refuted from C43 on any initial disk |
| C76, C77 | init_peer, get_info over streams cut in any segments | induction over polls: each reads a message or waits, the number of empty polls bounded by arrivals |
| C78 | everything composed, from the info hash | constructive run from any reachable state: invariant "alive without metadata ⇒ nothing cached", then C77, C44, C66 |
| C79 | get_peers_by_tracker | exact crash set, by cases over the exact outcomes of the decoder (C05) |
| C80, C81 | whole program | invariant over steps: what a torrent heard is what was delivered of what the trackers sent; forward simulation to process and trackers |
| C82 | whole program | constructive run from any reachable state; refuted by an invariant "no tracker left" of all continuations |
| C83 | whole program with threads | refuted by induction over the threads, with the endless peer of C37; invariants of all continuations |
| C84 | whole program | every torrent simulated by one whose disk may change at any time (`Among`), for which C40 to C49 are proved |
| C85 | encoder, metadata, piece download | encodings of one type are prefix-free although lengths count characters: valid UTF-8 splits uniquely |
| C86 | decoder (call depth) | refuted: no bound; the depth is exactly the nesting of the input, by induction on fuel one way and on the grammar the other |
| C87 | writer on a disk that fails | refuted: short writes are not noticed; proved when the disk takes all or reports an error (refinement of the sound disk); earlier pieces intact on every disk; for any paths at single bytes |
| C88 | peer ids | refuted: a new one for every lookup and connection; shape, uniformity, exact set of streams that give one: proved |
| C89 | `Model/Clock`: waiting of every call, delays chosen by the network | bounds for a read and for opening, attained; potential argument over bytes left for an attempt; refuted for endless peers |
| C90 | decoder (`Model/Memory`: what is held) | held memory bounded by the input exactly for inputs that are not stuck (C05), by induction on fuel; refuted for `l0:e` |
| C91 | `Model/Buffers`: buffers and state of an attempt | potential argument: every byte kept was taken off the connection; refuted for the buffer of a message |
| C92 | `Model/Json`, `Info::from_file` | the parser against an inductive RFC 8259 grammar (`Spec/Json`): soundness by induction on fuel, completeness by mutual induction on derivations; typed reading field by field |
| C93 | `Model/Race`: any number of actors inside `collect_info` on one file, interleaved at the level of looks, `File::create` and single writes | invariant over all reachable states (content is the document except for gaps and the end; some writer is in front or the file is complete); explicit runs for the refutations |
| C94 | `Model/Process`, with a history of the lines logged | invariant: the file is the history and the position is its length, as long as no torrent has a file there; explicit runs for the refutations |
| C95 | `initPeer`, `execStep` | exact for the one message whose failure is looked at; for the others: two schedules that differ in the outcome of that call give the same run (locality of everything that reads) |
| C96 | `downloadRun`, `getInfoRun` | history of the log: every write is the n-th opening message or a request caused by the loop; number of requests bounded by the queue; an invariant ties the peer's extension map to the messages heard |
| C97 | `getPeersByTracker`, `tryMillis` | case analysis on the first receive that does not fail; time bounded by 50 ms per endpoint and 663 endpoints per datagram |
| C98 | `getPeersByTracker`, `announceUrl`, `listening` | the datagrams of an exchange are connect requests and at most one announce; the fields from C58, the parameters from C67 |
| C99 | `trackerHeaders`, `ureqGet`, `tcpCall` | the header fields are constants; the answer is reduced to the body that C67 is about |
| C100 | `LogRec.line`, `debugStr`, `Metainfo.debug`, `Peer.applyLog` | lines, string literals and message names are defined in `Spec/LogText.lean`; which characters beyond ASCII count as printable is left open; library records are not modelled |
| C101 | `initPeerLog`, `execRunLog`, `getInfoLog`, `downloadRunLog` | what is logged follows the model of the attempt call by call; positions and texts of errors are parameters (texts of at most 200 bytes) |
| C102 | `initPeerLog`, `execRunLog`, `getInfoLog`, `downloadRunLog` | as C101; what came and was sent is the history kept by the model of the peer |
| C103 | the whole program | which requests add torrents; refuted by composing two runs of C82 |
| C104 | the torrent actor | the list of peers as a function of the history (C47), failures since a peer was named last; refuted by a cycle of naming and failing |
| C105 | `lookupLog`, `collectInfoLog`, `writePieceLog` | the records against the result and the datagrams of the lookup, what is in the place of the cache file before and after, and the bytes on disk; refuted for failed lookups, texts that are no metadata, and short writes |
| C106 | decoder (`Model/DecodeTime`: steps taken) | steps against the length of the input, by induction on fuel; bounded exactly for inputs that are not stuck (C05), the factor attained; refuted for `l0:e` |
| C107 | every function returning an error | faults of an input as an inductive relation (`Spec/Errors`), equivalent to the decoder's errors by induction on the fault and on fuel; accessors, entries, metadata, tracker calls by cases; attempts with peers by a relational description of openings and transfers (`Spec/Attempt`), deterministic and equivalent to the run; refuted for answers of 26 bytes and for the cache |
| C108 | reading, opening, and downloading from a peer | messages and connections of whole messages (`Spec/Crash`); a valid document never panics the decoder, by induction on fuel with the positions a misread dictionary can be in (`Proofs/Valid`); an invariant of the peer kept by every step, once for whole messages and once for any connection; refuted for a frame split after three bytes, for four keep-alives, and for a size of metadata without an id |
| C109 | the torrent actor, its workers, its writer, the trackers | what is in the mailboxes is a part of the pieces, each of which is in one place (C40); peers by the answers a tracker gives (C59) and the lookups made (C73); refuted by a run without the writer for every torrent |
| C110 | `find_suitable_peer`, `shuffle` (`Model/Shuffle`) | all ways to draw as a list (`Spec/Shuffle`); each order is reached once, by induction on the loop; exchanging two peers maps orders onto orders, so shares are equal; refuted for a peer named twice |
| C111 | the whole program | runs without end and fairness (`Spec/Fair`); what is left to do gets less with every step of the torrent (C74), so from some point on nothing changes, and fairness leaves nothing to do; fair runs exist from every state (a path to rest, followed by log lines), also with workers that die, which refutes it without that condition |
| C112 | the whole program | runs in which nothing is left lying about between requests, trackers and torrents (`Spec/Prompt`); mailboxes are first in, first out, so everything in them is handled; a torrent can only be told of so many peers (C109), so there is a time after which it has looked at all; when a torrent starts is an invariant of the number of peers; runs are made by draining all mailboxes, after a request in which all peers but one refuse |
| C113 | the whole program with a clock | a clock is put beside a run (`Spec/Timed`): each state has the time it is entered at, and the three places a piece on its way can be in (mailbox of the workers, worker, mailbox of the torrent) have a longest stay; a piece that does not get to its end moves on from place to place, so its stay is bounded by the sum; as there are at most as many pieces on their way as workers, a request never has to wait for one; the number of ended attempts grows by the number under way in every such stretch |
| C114 | the loop of a download with a clock | the history of the connection gets the time of each entry (`Model/Pace`), the time an iteration ends at in `Model/Clock`; as a request is written only after as many answers as requests before it (C33), requests and answers alternate and each pair takes at least the delay; for a peer in step the calls of every iteration are counted out and only the first peek of each waits |
| C115 | attempts with a peer, twice | two connections are compared move by move (`Spec/Claims`: reads give the same but for bitfields and `have`, writes fail on both or neither); the two peers stay equal but for the bitfield, which nothing reads; on the wire the comparison is of whole messages per call |
| C116 | the whole program, with who has the address of a torrent's actor | an actor ends when nobody has its address and it has no message (`Model/Lifetime`); the transition system leaves this out, and C116_final shows that a torrent whose threads have ended takes no step any more; for fair runs the messages that carry the address are followed through the mailboxes until the last lookup ends |
| C117 | mock stream (`Model/Mock`) and `read_stream` over any kind of stream | simulation by two queues, induction over the uses; bisimulation with a TCP stream whose peer has closed; refuted for connections in general, exact with the arrival times of C30 |
| C118 | HTTP server (`Model/Server`), requests of web pages (`Spec/Server`) | refuted, for every torrent and every site, up to any file in any place (with C82 for any paths); the exact condition; independence of all other headers |
| C119 | the whole program, with the sockets it holds | lookups and connections are counted per torrent: one lookup per tracker, and five connections only after one of them is answered (C109); sums over torrents; fair runs close them (C116); refuted by requests at silent trackers |
| C120 | fair runs of the whole program | for every endpoint, failures since it was named plus requests in flight to it stay within six, because only peers with fewer than two failures are chosen while there is one and five requests are in flight at most; what is left of six for each entry gets less with every failure; then C111, C112; refuted by workers that die |
| C121 | fair runs of the whole program, one attempt for what is said | the first thing read is the handshake, and nothing more is written before it; failures plus six stay within six for each naming plus the failures since the last one, by induction over the run; refuted by one address named eleven times |
| C122 | runs of the whole program | begun attempts are counted where a worker takes a request; the number of reports, downloads under way and lost workers changes by the same; what was handed over is what was reported as a success; the rest from C40, C96, C109, C113 and C120; refuted by the run of C120_failing |
| C123 | schedules and listeners | every function on a connection is built from single calls by composition of interaction trees; runs of a tree depend on the calls made only; a listener and the schedule of its answers give the same run |
| C124 | somebody who does not listen; an echo | the first message read is a function of the schedule alone, and more is written only if it is a handshake with the info hash; the echo of the opening is read back message by message |
| C125 | somebody who answers requests at most once, in order; somebody who answers twice; requests beyond the piece | induction over the history: answer `k` is right for write `3 + k`, which is the request for block `k` (C33); the blocks are put together in this order |
| C126 | no file longer than listed; the room of all files; the end of a piece beyond 2^64 | invariant of the loop over the files (a part begins no earlier than its file, and ends no later than its end as computed) for any metadata; refuted by a run in which every other piece fails once, so that the last one is asked for; then an invariant of the program: parts about to be written are within listed files; a count of distinct places |
| C127 | nothing removed; bytes outside of listed lengths; places that no torrent lists | a relation between disks, kept by every step, that says which bytes may have changed; for places it needs the paths of the parts only, for bytes also that they are within their files (C126) |
| C128 | queue of the pieces over a run; turn of a piece; order from the start | one equation between what waits, what fails and what is asked for, kept by every step of a torrent; summed over a run |
| C129 | order of what the writer gets; no piece got twice | an equation between what was given to the writer and the reports handled, kept by every step; C40 for the second part |

## Assumptions of the model

* File system: a tree; no symbolic links, permissions, name-length limits or full disk. A `write_at`
  happens as a whole except in the theorems about crashes, which allow every prefix. Offsets of 2^63
  and more (EINVAL) are only told apart in `Model/Limits` (C55_offsets).
* Sockets: the receive buffer is unbounded; `SocketAddr` parsing is modelled for IPv4, the only form
  the program produces.
* actix: mailboxes are FIFO; a panic in a worker ends the worker's thread and loses its message, a panic in
  the torrent actor ends the actor, and a panic in a tracker lookup ends the tracker actor with all its lookups. `try_send` fails only
  on an ended actor or with sixteen or more messages waiting. A download or metadata fetch that never returns
  simply takes no step any more. An actor stops when its last address is dropped and its mailbox is empty (C116); the moment between
  actix's look at the mailbox and at the addresses is not modelled.
* actix-web: `POST /add/magnet` alone reaches the handler; the argument is decompressed and decoded as the headers say, at most 256 kB of it. In the transition
  systems all requests are plain; C71_plain_suffices shows that no run is lost by this.
* Counters of the torrent actor are unbounded numbers.
* Process: `get_info` with its cache access is one step; two instances of the same torrent
  sharing a half-written cache file are covered by `Model/Race` (C93) only, where reading the file is one step.

## Trusted base

* Lean 4.33.0 kernel; no own axioms, no `sorry`, no `native_decide`/`bv_decide`, no Mathlib.
* The reading of the Rust code: the model is a manual transcription, the only link is the
  cited lines. `seeded/LOG.jsonl` records deliberate changes of the model and which theorems notice them.
* Behaviour of dependencies and std as stated in the comments of the definitions that model them.
* Axioms each theorem of the manifest depends on (from `#print axioms`):

  * none (4 theorems): C16_refuted_wrap, C50_refuted_overflow, C117_refuted_count, C117_nothing
  * `propext` (41 theorems): C03_refuted, C03_refuted_text, C03_refuted_smuggled, C05_refuted_panic, C10_format_prefix_free, C10_refuted, C10_refuted_equal, C10_refuted_none, C11_refuted_terminator, C11_refuted_separator, C12_refuted, C12_refuted_empty, C16_refuted_no_length, C17_refuted, C21_handshake, C23_handshake_layout, C24_refuted_short_block, C24_refuted_extension_panics, C27_refuted, C30_refuted_split_header, C30_refuted_split_handshake, C39_fifo, C51_refuted_longer_file, C51_refuted_same_path, C52_refuted_same_path, C53_refuted, C54_refuted, C55_refuted, C58_announce_request, C87_refuted, C88_refuted, C99_refuted_brotli, C99_refuted_host, C100_errors, C100_place, C100_refuted_name, C107_length, C110_refuted, C123_written, C126_refuted, C127_refuted
  * `Quot.sound`, `propext` (132 theorems): C14_refuted, C16_total_length_partial, C18_hex_magnet_partial, C18_refuted, C18_exact, C18_refuted_not_hex, C19_hash_length_partial, C19_refuted, C19_exact, C20_refuted, C20_refuted_underflow, C20_no_panic_partial, C21_interested, C21_request, C21_extension_handshake, C22_request_wire, C22_request_roundtrip, C23_handshake_roundtrip, C23_hash_position, C24_other_ids_ok, C25_bitfield, C28_message_partial, C28_handshake, C28_sequence_partial, C28_refuted_huge, C29_refuted_swallows, C29_refuted_choked, C29_isolated_partial, C29_exact, C29_ignored_iff, C30_segmentation_partial, C31_ready, C31_no_request, C33_refuted, C34_tiling_partial, C34_refuted_overrun, C34_refuted_beyond_end, C34_refuted_beyond_end_release, C34_request_debug, C34_request_release, C34_count_debug, C34_count_release, C35_refuted_keepalive, C35_refuted_split, C35_refuted_slow, C35_refuted_pause, C38_verified, C48_refuted, C48_refuted_metadata, C50_refuted_release, C55_offsets, C55_offsets_or, C56_every_string, C57_unparsable, C58_connect_request, C60_refuted_announce, C60_refuted_predictable, C61_at_most_four, C61_succeeds, C61_gives_up, C62_decodes, C62_injective, C62_normal, C65_dispatch, C65_builtin, C66_refuted_same_path, C67_refuted_query, C67_only, C71_hex_partial, C71_started_iff_ok, C71_refuted, C71_served_plain, C73_all_trackers_partial, C73_refuted_crash, C73_refuted_shared, C73_refuted_full, C73_trackers, C76_refuted_busy, C76_refuted_plain, C83_all_stuck, C87_reported_partial, C87_sound, C87_exact, C89_attempt_parts, C89_read_attained, C89_open_attained, C90_value_held, C90_attained, C91_reserved, C91_buffer_exact, C91_refuted, C91_block_kept, C91_attained, C95_noticed_partial, C95_refuted_handshake, C95_refuted_interested, C95_refuted_request, C95_refuted, C97_refuted, C97_tried, C99_failure, C99_unreadable, C99_refuted_coding, C102_metadata_partial, C102_refuted_silent, C102_extension, C103_refuted_started, C105_udp, C105_http, C105_found, C105_refuted_short, C107_refuted_save, C108_lengthless, C108_refuted_metadata, C114_read, C115_ignored, C115_wire, C115_refuted, C117_queue, C117_connection, C117_messages, C117_messages_pushed, C117_refuted, C117_sent, C117_failing, C118_links_partial, C120_good, C123_udp, C123_udp_heard, C123_listener, C125_refuted, C125_refuted_beyond
  * `Classical.choice`, `Quot.sound`, `propext` (486 theorems): C01_decode_valid_partial, C01_exact, C01_refuted, C01_refuted_negative, C02_encode_canonical_partial, C02_refuted, C02_refuted_none, C02_exact, C02_refuted_smuggled, C03_roundtrip_partial, C03_exact, C04_order_independent, C04_ascending, C05_refuted_hang, C05_hangs_exactly_partial, C05_panics_exactly_partial, C05_returns_exactly_partial, C05_terminates_without_lists_partial, C05_returns_on_documents_partial, C05_valid_partial, C06_position_in_bounds, C06_consumed_le, C07_prefix_determined, C08_integer_exact, C08_ints_fit, C09_keys_unique, C09_last_wins, C10_encoder_prefix_free_partial, C10_same_type_partial, C11_refuted_missing_value, C11_accepts_lenient_partial, C11_accepts_exactly_partial, C11_nothing_exactly_partial, C12_info_roundtrip_partial, C12_accepts_exactly, C12_exact, C13_hash_of_received_partial, C13_refuted, C13_exact, C14_handshake_only_partial, C15_verify_piece, C16_overflow_panics_debug, C16_exact, C17_wellformed_kept_partial, C17_exact, C18_refuted_order, C18_reads, C20_exact, C21_metadata, C22_wire_unambiguous, C24_proper_partial, C24_panics_exactly, C24_hangs_exactly, C24_new_raw_returns_partial, C24_refuted_extension_hangs, C26_metadata_request, C26_metadata_request_roundtrip, C27_read, C27_exact, C27_extension_payload_partial, C28_exact, C30_exact, C30_out_of_step, C30_late, C30_handshake_exact, C32_unchoked, C32_choke_ends, C33_next_block_partial, C33_in_order_partial, C33_exact, C33_in_order_iff, C33_exact_metadata, C33_in_order_iff_metadata, C34_panics_debug, C35_exact, C35_served_partial, C35_honest_download_partial, C35_piece_partial, C35_metadata_partial, C36_bounded, C36_buffer_always, C37_refuted_metadata, C37_refuted_piece, C37_refuted_livelock, C37_finite_input_partial, C40_exact, C40_one_place_partial, C40_before, C40_refuted, C41_at_most_five, C42_in_flight_partial, C42_progress_partial, C42_refuted, C42_completable_partial, C43_all_handed_partial, C43_refuted, C44_refuted, C44_refuted_last_peer, C44_starts_partial, C45_fixed, C45_exact, C45_created_partial, C45_refuted_wrap, C46_choice, C47_counters, C48_only_metadata_partial, C48_refuted_cached, C48_exactly, C49_refuted, C49_error_retried_partial, C50_split_partial, C50_exact, C51_exactly, C51_any_order_partial, C51_exact, C52_exactly, C52_again_partial, C52_intact_partial, C52_torn_partial, C52_rewrite_partial, C53_exactly, C53_exists_partial, C53_exact, C54_refuted_program, C54_confined_partial, C54_exact, C55_whole, C55_offsets_partial, C55_refuted_offsets, C55_refuted_run, C55_no_panic_partial, C55_exact, C55_exact_single, C56_compact_peers, C57_endpoint_parses, C57_connect_no_panic, C57_address_exact, C58_run, C59_first_663, C59_all_peers_partial, C59_exact, C59_refuted, C60_refuted_connect, C60_refuted_blind, C60_exact, C60_short_answer_partial, C61_silent_tracker_hangs, C62_safe, C63_round_trip, C64_after_crash, C64_refuted, C64_harmless_partial, C65_forward, C66_exactly, C66_from_start_partial, C66_can_end_partial, C66_always_partial, C66_over_partial, C66_end_to_end_partial, C66_at_rest_partial, C66_exact_partial, C66_can_finish_partial, C66_refuted_longer, C67_info_hash_exactly_partial, C67_announce_url_partial, C67_answer_partial, C67_refuted_answer, C68_refuted, C68_pieces_partial, C68_save, C68_program_partial, C68_used_partial, C69_survives_partial, C69_anywhere_partial, C69_anywhere_exactly_partial, C69_pieces_partial, C69_over_partial, C69_exactly_partial, C69_files_partial, C69_refuted, C70_refuted, C70_apart_partial, C71_exact, C71_served_exact, C71_served, C71_plain_suffices, C72_keys_are_text, C72_bad_key_refused, C72_string_values, C72_names_are_text, C72_text_encoding, C73_right_torrent, C73_messages_are_peers, C73_at_most_once, C73_sixteen_partial, C73_refuted_retry, C74_steps, C74_steps_before, C74_no_endless_run, C74_ends_over_partial, C74_ends_complete_partial, C75_anywhere_partial, C75_kept_partial, C75_refuted, C76_opens_partial, C77_exact, C77_bytes_partial, C77_metadata_partial, C77_refuted, C78_over_partial, C78_can_finish_partial, C78_refuted, C79_panics_exactly_partial, C79_contacts, C79_refuted, C80_hears, C80_dials, C80_delivery, C81_anywhere_exactly_partial, C81_anywhere_kept_partial, C81_refines, C81_files_partial, C81_exactly_partial, C81_kept_partial, C82_anywhere_partial, C82_needs_tracker, C82_refuted, C82_over_partial, C82_can_finish_partial, C82_cached_over_partial, C82_cached_partial, C83_stuck_thread, C83_refuted, C83_refuted_neighbour, C83_free_partial, C84_anywhere_partial, C84_among, C84_one_place_partial, C84_exact, C84_in_flight, C84_counters, C84_exactly_partial, C84_files_partial, C84_refuted_longer, C85_encoding, C85_identity, C85_same_torrent, C86_exact, C86_documents, C86_bounded_partial, C86_attained, C86_refuted, C86_refuted_peer, C87_bytes_partial, C87_anywhere_partial, C87_relied, C87_intact_partial, C87_exactly_partial, C87_files_partial, C88_exact, C88_shape, C88_uniform, C88_attainable, C88_sent_partial, C89_read, C89_first_wait, C89_attempt_partial, C89_open, C89_refused, C89_refuted, C90_bounded_partial, C90_exact, C90_value, C90_overwritten, C90_key, C90_refuted, C90_refuted_peer, C91_kept_partial, C91_refuted_block, C92_exact, C92_unique, C92_file, C92_typed, C92_panics_exactly, C92_errors_partial, C92_start, C92_refuted, C93_alone, C93_agree_partial, C93_refuted_crash, C93_mixed, C93_refuted_mixed, C93_refuted_third, C94_log_partial, C94_refuted_restart, C94_refuted_torrent, C96_piece_partial, C96_metadata_partial, C96_refuted, C96_volume_partial, C97_never_ends_partial, C97_tried_attained, C98_announced_partial, C98_refuted_left, C98_refuted_port, C98_refuted_http, C99_answer_partial, C100_others, C100_says, C100_read, C100_log_read, C100_attempts, C100_one_line, C100_quoted, C100_values, C100_log_partial, C101_metadata_partial, C101_piece_partial, C101_refuted, C102_piece_partial, C102_refuted, C103_requests, C103_refuted, C104_exact, C104_requests, C104_total_partial, C104_refuted, C104_refuted_total, C105_anywhere_partial, C105_refuted_lookup, C105_cache, C105_refuted_cache, C105_written_partial, C106_bounded_partial, C106_exact, C106_value, C106_steps, C106_failing, C106_attained, C106_refuted, C106_refuted_peer, C107_opening, C107_metadata, C107_piece, C107_connection, C107_decoder, C107_four, C107_accessors, C107_file, C107_info, C107_bytes, C107_udp, C107_http, C107_refuted_size, C107_cache_partial, C107_refuted_file, C108_whole_partial, C108_causes, C108_lethal, C108_info_causes, C108_info_partial, C108_refuted_split, C108_refuted_keepalive, C109_once, C109_none, C109_bytes_partial, C109_refuted, C109_refuted_any, C109_requests, C109_peers, C109_program_partial, C109_peers_attained, C110_fair, C110_share, C110_even_partial, C111_either_partial, C111_anywhere_partial, C111_rest, C111_complete_partial, C111_files_partial, C111_fair_runs, C111_served_runs, C111_refuted_workers, C111_refuted, C111_refuted_writer, C112_anywhere_partial, C112_named_anywhere_partial, C112_handles, C112_heard, C112_started, C112_starts, C112_complete_partial, C112_delivered, C112_asked, C112_named_partial, C112_runs, C112_any_peer, C112_refuted_last, C113_busy, C113_rate, C113_time, C113_least, C114_history, C114_answers, C114_time, C114_attempt, C114_exact, C114_program, C116_final, C116_forgotten, C116_fair_partial, C116_runs, C116_refuted, C116_dropped, C116_piles_up, C116_threads, C117_count, C117_in_time_partial, C118_refuted_files, C118_refuted, C118_refuted_all, C118_refuted_program, C118_blind, C118_exact, C119_each, C119_sum, C119_total_partial, C119_closed_partial, C119_refuted, C119_attained, C120_failing, C120_failures, C120_six, C120_finitely, C120_rest, C120_complete_partial, C120_named_anywhere_partial, C120_refuted, C120_attained, C121_words, C121_words_metadata, C121_tried_partial, C121_at_once, C121_refuted, C122_account, C122_failures, C122_attempts_partial, C122_none, C122_asked, C122_metadata, C122_traffic_partial, C122_time_partial, C122_refuted, C123_piece, C123_metadata, C123_causal, C123_causal_metadata, C124_blind_partial, C124_blind_piece_partial, C124_exact, C124_refuted_echo, C125_data_partial, C125_piece_partial, C125_beyond, C125_metadata_partial, C126_file_partial, C126_room_partial, C126_refuted_run, C127_refuted_run, C127_nothing_removed, C127_bytes_partial, C127_others, C127_unlisted, C128_queue, C128_turn, C128_ascending, C128_described, C128_before, C128_bound, C128_all, C128_answered, C129_order, C129_written, C129_once, C129_program, C129_dead

## Not modelled

Records logged by the libraries (the records of the program itself: C100, C101), the HTTP server apart from its one handler, thread scheduling below the actor message
level, what happens when memory runs out (how much the decoder and a peer make the client hold: C90, C91; of the stack only the depth of the decoder, C86), wall-clock time except waiting for peers (C89),
DNS, and permissions and disk-full errors other than while a piece is written (C87).

## What the code gets wrong (each with a theorem)

* Decoder: deep nesting overflows the stack (C86); `l0:e` never ends and takes ever more memory (C90), truncated input panics, negative integers are rejected, trailing and missing
  delimiters are accepted (C01, C05, C11). Encoder: lengths in characters (C02).
* Metadata is never checked against the info hash (C14); malformed file entries are dropped (C17); paths
  with `..` or absolute paths are written (C54); a torrent can replace the cached metadata of another (C68).
* Streams: keep-alives desynchronise the connection (C29), split headers too (C30), large messages
  are taken for handshakes (C28).
* Downloads: piece lengths that are no multiple of 16384 request beyond the piece (C34); a peer that keeps
  sending unchoke keeps a worker for ever (C37), with 17 bytes a second (C89); five bytes reserve 4 GiB (C91).
* Actors: a panic in a worker loses its piece for good (C40, C42, C49); nothing starts before eleven
  peers are known (C44); metadata that cannot be used panics at every restart (C48); a crash while the
  cache is written has the same effect (C64).
* Writer: short writes are not noticed (C87); a longer existing file keeps its tail (C51); empty files are not created (C53); torrents with equal
  names overwrite each other (C70); `test.log` is emptied at each start (C69); nothing is resumed, every
  session downloads everything (C75).
* Trackers: error answers are read as peers (C60), one-peer answers are rejected (C59), a silent tracker
  blocks for ever (C61); a lookup that panics (no socket, no route) ends the tracker for all torrents, a failed one is not repeated,
  and a seventeenth waiting torrent is forgotten (C73).
* Threads: torrent actors block the threads of the HTTP server; endless peers stop it (C83). Without trackers nothing recovers (C82).
* Requests: text that is no magnet link, and links without parameters, are never answered (C71). Any web page open in a browser on the same machine can
  add torrents: where a request comes from is not looked at (C118).

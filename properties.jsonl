{"id": "C01", "title": "Decoder reads every valid bencode document correctly", "statement": "Given any valid bencoded value (nested to any depth) followed by arbitrary bytes, Decoder::init(..).decode() returns Ok with exactly that value and get_total_parsed_bytes() is exactly the length of the document.", "quantifier": "all bencode values of any size and nesting depth, all trailing bytes", "why_tests_cant": "The value space is infinite and recursive; a test only samples shapes, lengths and nestings.", "anchors": ["src/bencode/decode.rs: Decoder::decode, parse_integer, parse_string, parse_list, parse_dictionary, get_total_parsed_bytes"]}
{"id": "C02", "title": "Encoder output is valid canonical bencode", "statement": "For every value built from String/&str/usize/Vec<u8>/Vec/HashMap/Option instances, encode() yields a valid bencode document whose declared string lengths are the byte lengths and whose dictionary keys are in ascending byte order.", "quantifier": "all encodable values of any nesting, including any text content", "why_tests_cant": "Tests use a handful of ASCII literals; the claim is about every string, including non-ASCII ones.", "anchors": ["src/bencode/encode.rs: Encode for String, &str, usize, Vec<u8>, Vec<T>, HashMap<String,T>, Option<T>", "src/bencode/encode.rs: encode_dict_entry"]}
{"id": "C03", "title": "Bencode round trip", "statement": "Decoding the encoding of any encodable value, with any bytes after it, gives back the same value and consumes exactly the encoding.", "quantifier": "all encodable values, all suffixes", "why_tests_cant": "Round trip must hold for an infinite recursive domain.", "anchors": ["src/bencode/encode.rs: Encode", "src/bencode/decode.rs: Decoder::decode"]}
{"id": "C04", "title": "Dictionary encoding does not depend on map iteration order", "statement": "Encoding a HashMap gives the same bytes whatever order the map yields its entries, and entries appear in strictly ascending key order.", "quantifier": "all maps with any entries, all iteration orders (HashMap order is randomised per process)", "why_tests_cant": "The iteration order is random per run; a passing run says nothing about other hash seeds.", "anchors": ["src/bencode/encode.rs: Encode for HashMap<String,T>"]}
{"id": "C05", "title": "Decoder always terminates with Ok or Err", "statement": "On every byte string Decoder::decode() returns Ok or Err: it neither panics nor loops forever.", "quantifier": "all byte strings", "why_tests_cant": "Only finitely many malformed inputs can be tried, and non-termination cannot be observed by a test at all.", "anchors": ["src/bencode/decode.rs: Decoder::decode, parse_list, parse_dictionary, get_current_byte, get_consecutive_digits"]}
{"id": "C06", "title": "Decoder never reads past its input and never moves backwards", "statement": "Whenever decode() returns Ok, the position has not decreased and get_total_parsed_bytes() is at most the input length, so slicing the input at that position is always safe.", "quantifier": "all byte strings, all start positions, any number of successive decode() calls", "why_tests_cant": "An off-by-one appears only on particular truncations.", "anchors": ["src/bencode/decode.rs: Decoder::advance, get_total_parsed_bytes", "src/messages/extension.rs: ExtensionMessage::from_bytes"]}
{"id": "C07", "title": "Decoding is determined by the bytes it consumes", "statement": "If decode() returns Ok after consuming n>0 bytes, replacing everything after those n bytes by any other bytes gives the same value and the same n.", "quantifier": "all inputs, all replacement suffixes", "why_tests_cant": "Quantifies over all pairs of suffixes.", "anchors": ["src/bencode/decode.rs: Decoder::decode"]}
{"id": "C08", "title": "Decoded integers never wrap", "statement": "Every integer in a decoded value is the exact decimal number written in the input and is below 2^64; a larger number gives an error, never a truncated value.", "quantifier": "all digit strings of any length", "why_tests_cant": "Unbounded digit strings.", "anchors": ["src/bencode/decode.rs: Decoder::get_consecutive_digits, parse_integer"]}
{"id": "C09", "title": "Dictionary decoding keeps one entry per key, the last one", "statement": "A decoded dictionary has at most one value per key and, if the input repeats a key, the value is the last one given.", "quantifier": "all dictionaries with any number of (possibly repeated) keys", "why_tests_cant": "Any number and placement of duplicates.", "anchors": ["src/bencode/decode.rs: Decoder::parse_dictionary"]}
{"id": "C10", "title": "Bencode encoding is injective and prefix-free", "statement": "Two different values never have the same encoding, and no encoding is a proper prefix of another one, so concatenated documents can be split unambiguously.", "quantifier": "all pairs of values", "why_tests_cant": "Quantifies over all pairs.", "anchors": ["src/bencode/encode.rs: Encode", "src/bencode/decode.rs: Decoder::decode"]}
{"id": "C11", "title": "Decoder rejects malformed documents", "statement": "decode() returns Ok only if the consumed bytes are a valid bencode document for the returned value (integers closed by 'e', string lengths followed by ':', every dictionary key followed by a value).", "quantifier": "all byte strings", "why_tests_cant": "Cannot enumerate malformed inputs.", "anchors": ["src/bencode/decode.rs: Decoder::parse_integer, parse_string, parse_dictionary, decode"]}
{"id": "C12", "title": "Torrent metadata survives bencode round trip", "statement": "Info::from_bytes(info.encode()) gives back an equal Info for every Info (single and multi file).", "quantifier": "all Info values: any names, file lists, path components, lengths, hashes", "why_tests_cant": "Unbounded file lists and strings.", "anchors": ["src/torrent/info.rs: Info::from_bytes, Info::from_metainfo, Encode for Info", "src/torrent/file.rs: File::from_metainfo, Encode for File"]}
{"id": "C13", "title": "The computed info hash is the hash of the metadata that was received", "statement": "If Info::from_bytes(b) = Ok(info) then info.compute_info_hash() is the SHA-1 of b (so the handshake uses the hash under which the swarm knows the torrent).", "quantifier": "all metadata documents b", "why_tests_cant": "Depends on re-encoding being the identity on every received document.", "anchors": ["src/torrent/info.rs: Info::from_bytes, compute_info_hash, Encode for Info"]}
{"id": "C14", "title": "Metadata accepted from a peer matches the requested info hash", "statement": "If get_info(info_hash, peer) returns Ok(info) then the SHA-1 of the metadata equals info_hash, whatever the peer sends.", "quantifier": "all peer behaviours", "why_tests_cant": "Adversarial peers cannot be enumerated.", "anchors": ["src/peer/manager.rs: get_info", "src/actors/torrent.rs: collect_info"]}
{"id": "C15", "title": "Piece verification accepts exactly the data with the listed hash", "statement": "verify_piece(data, i) is true iff SHA-1(data) equals bytes 20i..20i+20 of the metadata's pieces string; it is defined for exactly the indices below len(pieces)/20.", "quantifier": "all pieces strings, indices and data", "why_tests_cant": "All data values.", "anchors": ["src/torrent/info.rs: get_piece, verify_piece"]}
{"id": "C16", "title": "Total length equals the sum of the files to write", "statement": "get_total_length() equals the sum of the lengths of get_files(), for single- and multi-file torrents, without wrap-around.", "quantifier": "all Info values", "why_tests_cant": "Unbounded file lists; overflow only for extreme values.", "anchors": ["src/torrent/info.rs: get_total_length, get_files"]}
{"id": "C17", "title": "Metadata with a malformed file entry is rejected", "statement": "from_metainfo returns Err if some entry of the files list is not a valid file description; no listed file is silently dropped (dropping one shifts the offset of every later file).", "quantifier": "all metadata values", "why_tests_cant": "Any position, any malformation.", "anchors": ["src/torrent/info.rs: Info::from_metainfo", "src/torrent/file.rs: File::from_metainfo"]}
{"id": "C18", "title": "Hex magnets yield the named info hash", "statement": "parse_magnet on magnet:?xt=urn:btih: followed by the 40 hex digits of a 20-byte hash (any letter case) and any further parameters returns exactly those 20 bytes.", "quantifier": "all 2^160 hashes, all letter-case choices, all trailing parameters", "why_tests_cant": "Space of hashes and suffixes.", "anchors": ["src/torrent/magnet.rs: parse_magnet, parse_info_hash, hex_decode, byte_to_hex"]}
{"id": "C19", "title": "A parsed magnet always carries a 20-byte info hash", "statement": "Whenever parse_magnet returns Ok the info hash has 20 bytes (what handshakes and trackers require), for hex and base32 magnets.", "quantifier": "all input strings", "why_tests_cant": "All inputs.", "anchors": ["src/torrent/magnet.rs: parse_info_hash", "src/messages/handshake.rs: HandshakeMessage::new", "src/tracker/udp_tracker.rs: make_announce_message"]}
{"id": "C20", "title": "Magnet parsing never panics", "statement": "parse_magnet returns Ok or Err on every byte string, in debug and release builds.", "quantifier": "all byte strings, both overflow modes", "why_tests_cant": "All inputs.", "anchors": ["src/torrent/magnet.rs: parse_magnet, byte_to_hex", "src/main.rs: add_magnet"]}
{"id": "C21", "title": "Every outgoing message is correctly framed", "statement": "For interested, request, metadata-request and the extension handshake, the 4-byte big-endian length prefix equals the number of bytes that follow; the handshake is exactly 68 bytes for a 20-byte hash and peer id.", "quantifier": "all piece indices, offsets, lengths, extension ids, hashes, peer ids", "why_tests_cant": "All argument values incl. every decimal width of the index.", "anchors": ["src/messages/mod.rs: Message::as_bytes, new_interested, new_request, new_metadata, new_handshake", "src/peer/stream.rs: send_metadata_handshake_request"]}
{"id": "C22", "title": "Block requests carry the asked-for piece, offset and length", "statement": "The bytes of new_request(p,o,l) decode, per the wire format, to id 6 and exactly p, o, l, for all 32-bit values; RequestMessage::from_bytes inverts as_bytes.", "quantifier": "all 32-bit triples and block payloads", "why_tests_cant": "2^96 triples.", "anchors": ["src/messages/mod.rs: new_request", "src/messages/request.rs: RequestMessage"]}
{"id": "C23", "title": "Handshake round trip", "statement": "HandshakeMessage::from_bytes(new(h, id).as_bytes()) returns the same 20-byte info hash h and peer id, with the BEP 3 field layout.", "quantifier": "all hashes and peer ids", "why_tests_cant": "All values.", "anchors": ["src/messages/handshake.rs: HandshakeMessage"]}
{"id": "C24", "title": "No peer message can crash the client", "statement": "Message::new_raw returns Ok or Err for every id and body a peer may send.", "quantifier": "all ids and all bodies", "why_tests_cant": "Adversarial inputs.", "anchors": ["src/messages/mod.rs: Message::new_raw", "src/messages/request.rs, handshake.rs, extension.rs: from_bytes"]}
{"id": "C25", "title": "Bitfield bits are read in wire order", "statement": "get_bitfield_as_bit_vector returns 8 booleans per byte and entry i is bit 7-(i mod 8) of byte i/8.", "quantifier": "all bitfields of any length", "why_tests_cant": "Any length.", "anchors": ["src/messages/bitfield.rs: get_bitfield_as_bit_vector"]}
{"id": "C26", "title": "Metadata requests name the right metadata piece", "statement": "new_metadata(ext, i) is an extension message (id 20, extended id ext) whose payload is the bencoded dictionary {msg_type:0, piece:i}, for every index.", "quantifier": "all extension ids and all indices", "why_tests_cant": "All indices.", "anchors": ["src/messages/mod.rs: new_metadata", "src/messages/extension.rs: as_bytes, from_bytes"]}
{"id": "C27", "title": "Extension payload is exactly the bytes after the header dictionary", "statement": "Parsing extension-id ++ dictionary ++ data gives back exactly that data, and msg_type/piece/metadata_size as in the dictionary.", "quantifier": "all dictionaries, all payloads", "why_tests_cant": "Infinite domain.", "anchors": ["src/messages/extension.rs: ExtensionMessage::from_bytes, build_extensions_map"]}
{"id": "C28", "title": "Reading a complete message returns it and consumes nothing else", "statement": "If the bytes of a non-keepalive message are available on the connection, read_stream returns its id and body and leaves exactly the following bytes unread; hence a sequence of messages is read back in order.", "quantifier": "all message sequences, all following bytes", "why_tests_cant": "All sequences.", "anchors": ["src/peer/stream.rs: read_stream, peek_and_read, has_messages"]}
{"id": "C29", "title": "Keep-alive messages are ignored", "statement": "A keep-alive (four zero bytes) has no effect and does not disturb the messages after it.", "quantifier": "all message histories containing keep-alives", "why_tests_cant": "Any placement in the stream.", "anchors": ["src/peer/stream.rs: read_stream", "src/peer/mod.rs: apply_message"]}
{"id": "C30", "title": "Message reading does not depend on TCP segmentation", "statement": "However the network splits and delays the bytes of a message, read_stream returns that message (or nothing yet) and never a different one.", "quantifier": "all arrival schedules", "why_tests_cant": "Schedules cannot be enumerated.", "anchors": ["src/peer/stream.rs: read_stream, peek_and_read"]}
{"id": "C31", "title": "A peer is used only after a matching handshake, unchoke and metadata size", "statement": "If initialising a peer succeeds then the peer presented the requested info hash, is currently not choking us, and announced a non-zero metadata size; before that no request is sent.", "quantifier": "all peer behaviours and schedules", "why_tests_cant": "Adversarial peer.", "anchors": ["src/peer/manager.rs: init_peer", "src/peer/mod.rs: apply_message, is_active, is_ready"]}
{"id": "C32", "title": "No request is sent to a choking peer", "statement": "During a download, whenever a request is written to the connection the last choke/unchoke message processed was not a choke; after a choke the download ends with an error.", "quantifier": "all peer behaviours and schedules", "why_tests_cant": "All message orders.", "anchors": ["src/peer/download/mod.rs: execute", "src/peer/mod.rs: is_choked"]}
{"id": "C33", "title": "Blocks are requested in order, once each", "statement": "During a download the block indices requested are 0,1,2,... in order without repetition or gap, at most one outstanding at a time.", "quantifier": "all peer behaviours and schedules", "why_tests_cant": "All message orders.", "anchors": ["src/peer/buffer.rs: request_next_message, push_message", "src/peer/download/mod.rs: execute"]}
{"id": "C34", "title": "Requested blocks tile the piece exactly", "statement": "For every valid piece the requested (offset,length) ranges are consecutive, inside the piece, non-empty, at most 16384 bytes and add up to the real piece length; no arithmetic underflow occurs.", "quantifier": "all piece lengths, indices and total lengths", "why_tests_cant": "All sizes; the last piece and odd sizes are corner cases.", "anchors": ["src/peer/download/mod.rs: real_piece_length, Downloadable::download", "src/peer/download/block.rs: next_block, get_block_size"]}
{"id": "C35", "title": "An honest peer's blocks are assembled into the piece", "statement": "If the peer answers the requests in order with the right blocks (with any other non-choke messages and short pauses in between), the download returns exactly the concatenation, i.e. the piece (or the metadata).", "quantifier": "all piece contents, all interleavings with unrelated messages, all pauses of fewer than 10 polls", "why_tests_cant": "All interleavings.", "anchors": ["src/peer/download/mod.rs: execute, Downloadable::download", "src/peer/buffer.rs: assemble_content"]}
{"id": "C36", "title": "The download buffer is bounded", "statement": "The number of buffered data messages never exceeds the number of blocks of the piece, and Ok is returned only with exactly that many.", "quantifier": "all peer behaviours", "why_tests_cant": "All histories.", "anchors": ["src/peer/buffer.rs: push_message, is_full"]}
{"id": "C37", "title": "A download attempt always ends", "statement": "For every peer behaviour the download loop returns after finitely many iterations.", "quantifier": "all peer behaviours, including endless ones", "why_tests_cant": "Termination cannot be tested.", "anchors": ["src/peer/download/mod.rs: execute"]}
{"id": "C38", "title": "Only verified pieces are returned", "statement": "If download(endpoint, info, i) returns Ok(piece) then SHA-1(piece) is the hash listed for piece i, whatever the peer sent.", "quantifier": "all peer behaviours, schedules and metadata", "why_tests_cant": "Adversarial peer.", "anchors": ["src/peer/manager.rs: download", "src/torrent/info.rs: verify_piece"]}
{"id": "C39", "title": "Piece pool is a FIFO queue", "statement": "PiecePool::new(n) followed by any sequence of pop and insert behaves as the FIFO queue initially holding 0..n-1.", "quantifier": "all operation sequences", "why_tests_cant": "All histories.", "anchors": ["src/peer/piece_pool.rs: PiecePool::new, pop, insert"]}
{"id": "C40", "title": "No piece is lost or assigned twice", "statement": "At every moment each piece index is in exactly one place: waiting in the pool, being downloaded, reported and awaiting handling, or handed to the writer.", "quantifier": "all interleavings of peers found, successes, failures and writes", "why_tests_cant": "All schedules.", "anchors": ["src/actors/torrent.rs: handlers", "src/actors/connection.rs", "src/peer/piece_pool.rs"]}
{"id": "C41", "title": "At most five pieces are in flight", "statement": "The number of outstanding piece requests of a torrent never exceeds five.", "quantifier": "all interleavings", "why_tests_cant": "All schedules.", "anchors": ["src/actors/torrent.rs: Handler<PeerFound>, Handler<PieceDownloadSuccessfull>, Handler<PieceDownloadFailed>"]}
{"id": "C42", "title": "Once started, a download does not stall", "statement": "After the first request and as long as some piece has not been handed to the writer, some piece is in flight (there is always an event that makes progress).", "quantifier": "all interleavings", "why_tests_cant": "All schedules.", "anchors": ["src/actors/torrent.rs: handlers"]}
{"id": "C43", "title": "When nothing is in flight every piece has been written exactly once", "statement": "If a started torrent has no outstanding work, the pieces handed to the writer are exactly 0..count-1, each once.", "quantifier": "all interleavings", "why_tests_cant": "All schedules.", "anchors": ["src/actors/torrent.rs: handlers", "src/actors/writer.rs"]}
{"id": "C44", "title": "A download starts as soon as a usable peer is known", "statement": "If metadata is known and at least one peer has been found, piece requests are issued.", "quantifier": "all sequences of peers found", "why_tests_cant": "All histories.", "anchors": ["src/actors/torrent.rs: Handler<PeerFound>"]}
{"id": "C45", "title": "Metadata and piece pool are fixed once obtained", "statement": "After metadata has been accepted it never changes, and the piece pool is created exactly once with ceil(total/piece_length) pieces.", "quantifier": "all event histories", "why_tests_cant": "All histories.", "anchors": ["src/actors/torrent.rs: Handler<PeerFound>"]}
{"id": "C46", "title": "Peer selection prefers reliable peers", "statement": "The peer chosen for a retry is a known peer; it has fewer than 2 failures if any peer has, otherwise fewer than 4 if any peer has; with a non-empty peer list a peer is always found.", "quantifier": "all peer lists, all random shuffles", "why_tests_cant": "Random order.", "anchors": ["src/actors/torrent.rs: Peer::find_suitable_peer"]}
{"id": "C47", "title": "Failure and success counters count exactly", "statement": "After any history, a peer's failure (success) counter is the number of failed (successful) downloads reported for its endpoint since it was found.", "quantifier": "all event histories", "why_tests_cant": "All histories.", "anchors": ["src/actors/torrent.rs: Peer::update_failed, update_sucess"]}
{"id": "C48", "title": "Torrent handlers never panic", "statement": "No reachable sequence of messages makes a TorrentActor handler panic.", "quantifier": "all event histories and all metadata obtained", "why_tests_cant": "All histories, adversarial metadata.", "anchors": ["src/actors/torrent.rs: handlers", "src/torrent/info.rs: get_total_length, get_files"]}
{"id": "C49", "title": "A crashing download worker does not lose its piece", "statement": "If a download ends abnormally (panic in the worker) the piece is retried.", "quantifier": "all crash points", "why_tests_cant": "Crash points.", "anchors": ["src/actors/connection.rs: Handler<PieceRequested>"]}
{"id": "C50", "title": "A piece is split over files exactly", "statement": "get_file_writers splits piece i into parts that concatenate to the piece (clipped at the torrent's end); each part goes to the file and offset that the torrent's global byte order dictates, inside that file's length; no arithmetic underflow occurs.", "quantifier": "all file lists (any number, any lengths incl. 0), piece lengths, indices, data", "why_tests_cant": "All layouts.", "anchors": ["src/torrent/writer.rs: get_file_writers, FileParser"]}
{"id": "C51", "title": "Writing all pieces in any order reconstructs every file", "statement": "After write() has been called for every piece once or more, in any order, each listed non-empty file holds exactly its slice of the concatenated pieces.", "quantifier": "all file layouts, all permutations and repetitions of pieces", "why_tests_cant": "n! orders.", "anchors": ["src/torrent/writer.rs: write, FileWriter::write_to_filesystem"]}
{"id": "C52", "title": "Writes never damage data already written", "statement": "At every moment (after any prefix of writes, e.g. at a crash) the bytes of every piece already written are intact on disk, and rewriting a piece changes nothing.", "quantifier": "all write histories and crash points", "why_tests_cant": "Crash points and histories.", "anchors": ["src/torrent/writer.rs: write_to_filesystem, get_file_writers"]}
{"id": "C53", "title": "Every listed file exists after the download", "statement": "After all pieces are written every file of the torrent exists, including empty ones.", "quantifier": "all file layouts", "why_tests_cant": "Layout corner cases.", "anchors": ["src/torrent/writer.rs: get_file_writers"]}
{"id": "C54", "title": "Files are only written inside the download directory", "statement": "Whatever paths the metadata contains, every file written lies under the working directory.", "quantifier": "all metadata paths", "why_tests_cant": "Adversarial metadata.", "anchors": ["src/torrent/writer.rs: write_to_filesystem", "src/torrent/file.rs: File::from_metainfo"]}
{"id": "C55", "title": "Writing never panics", "statement": "write() does not panic for any metadata accepted by Info::from_metainfo and any verified piece, assuming the file system accepts the operations.", "quantifier": "all metadata", "why_tests_cant": "Adversarial metadata.", "anchors": ["src/torrent/writer.rs: write_to_filesystem (Path::parent().unwrap())"]}
{"id": "C56", "title": "Compact peer lists are decoded exactly", "statement": "from_bytes returns one endpoint per complete 6-byte group, in order, with the dotted-quad address and big-endian port of that group; leftover bytes are ignored.", "quantifier": "all byte strings", "why_tests_cant": "All inputs.", "anchors": ["src/tracker/peer_endpoint.rs: PeerEndpoint::from_bytes"]}
{"id": "C57", "title": "Every endpoint produced is a valid socket address", "statement": "endpoint() of every PeerEndpoint obtained from a tracker parses as an IPv4 socket address with the same address and port, so connecting never hits the parse panic.", "quantifier": "all tracker responses", "why_tests_cant": "All inputs.", "anchors": ["src/tracker/peer_endpoint.rs: endpoint, is_reachable", "src/peer/stream.rs: StreamInterface::connect"]}
{"id": "C58", "title": "UDP tracker requests follow BEP 15", "statement": "The connect request is 16 bytes and the announce request is 98 bytes with every field at its BEP 15 offset and the connection id echoed from the tracker.", "quantifier": "all connection ids, info hashes, peer ids", "why_tests_cant": "All values.", "anchors": ["src/tracker/udp_tracker.rs: make_connection_message, make_announce_message, connect_to_tracker"]}
{"id": "C59", "title": "UDP announce responses yield all their peers", "statement": "An announce response carrying n>=1 peers yields exactly these n peers.", "quantifier": "all n>=1 up to the datagram buffer, all peers", "why_tests_cant": "Boundary n.", "anchors": ["src/tracker/udp_tracker.rs: call", "src/tracker/peer_endpoint.rs: from_bytes"]}
{"id": "C60", "title": "UDP tracker answers are validated", "statement": "A datagram that is not the answer to our request (wrong transaction id, error action, too short connect answer) is not interpreted as peers or as a connection id.", "quantifier": "all datagrams", "why_tests_cant": "Adversarial datagrams.", "anchors": ["src/tracker/udp_tracker.rs: call, connect_to_tracker"]}
{"id": "C61", "title": "UDP connect gives up after four attempts", "statement": "connect_to_tracker sends at most four connect requests and succeeds as soon as one datagram is received.", "quantifier": "all patterns of send/receive failures", "why_tests_cant": "All failure patterns.", "anchors": ["src/tracker/udp_tracker.rs: connect_to_tracker"]}
{"id": "C62", "title": "Info hash percent-encoding is reversible and file-name safe", "statement": "The percent-encoding used in tracker URLs and in the cache file name decodes back to the hash, is injective, and contains no '/' or other separator.", "quantifier": "all hashes", "why_tests_cant": "2^160 values.", "anchors": ["src/tracker/tcp_tracker.rs: call", "src/actors/torrent.rs: collect_info"]}
{"id": "C63", "title": "Cached metadata is read back unchanged", "statement": "After info.save(path) completes, Info::from_file(path) returns an equal Info, for every Info.", "quantifier": "all Info values incl. any text", "why_tests_cant": "All strings incl. escapes.", "anchors": ["src/torrent/info.rs: save, from_file"]}
{"id": "C64", "title": "A crash while caching metadata is harmless", "statement": "If the process stops at any point during save(), a later start either re-reads the complete metadata or fetches it again.", "quantifier": "all crash points during the write", "why_tests_cant": "Crash points.", "anchors": ["src/torrent/info.rs: save, from_file", "src/actors/torrent.rs: collect_info"]}
{"id": "C65", "title": "Tracker scheme dispatch", "statement": "Only http and udp trackers are contacted; every other scheme yields ProtocolNotSupported; peers are forwarded to the torrent exactly when reachable, in order.", "quantifier": "all schemes, all responses, all reachability outcomes", "why_tests_cant": "All inputs.", "anchors": ["src/tracker/mod.rs: get_peers_by_tracker", "src/actors/tracker.rs: Handler<TorrentRegistered>"]}
{"id": "C66", "title": "End to end: what is on disk is what was published", "statement": "For metadata describing published content, after any run in which every piece was handed to the writer, every listed non-empty file on disk equals the published file, or a SHA-1 collision has been exhibited.", "quantifier": "all contents, file layouts, adversarial peers, schedules", "why_tests_cant": "Adversarial peers and schedules.", "anchors": ["src/actors/*.rs", "src/peer/manager.rs: download", "src/torrent/writer.rs: write"]}
{"id": "C67", "title": "HTTP tracker announce and answer", "statement": "The announce URL carries the percent-encoded info hash and peer id, and the compact peer string of a valid answer dictionary is returned unchanged, whatever other keys the answer has.", "quantifier": "all info hashes, peer ids, answer dictionaries", "why_tests_cant": "All values.", "anchors": ["src/tracker/tcp_tracker.rs: call"]}
{"id": "C68", "title": "The cached metadata of a torrent is its own", "statement": "Downloading or caching one torrent does not change the cached metadata another torrent is started from.", "quantifier": "all pairs of torrents, all file layouts, all metadata", "why_tests_cant": "Needs an adversarial layout.", "anchors": ["src/actors/torrent.rs: collect_info", "src/torrent/writer.rs: write_to_filesystem", "src/torrent/info.rs: from_file"]}
{"id": "C69", "title": "Finished pieces and files survive restarts and other torrents", "statement": "Once a piece of a torrent has been written its bytes on disk stay as published, and once all pieces have been written the files stay as published, however often the process is then stopped (also while it is writing) and started again, and whatever other torrents it runs.", "quantifier": "all torrents, all interleavings of any number of torrents, all moments of stopping", "why_tests_cant": "Unbounded interleavings and crash points.", "anchors": ["src/main.rs: main", "src/actors/torrent.rs: TorrentActor", "src/torrent/writer.rs: write"]}
{"id": "C70", "title": "Torrents do not damage each other's files", "statement": "Two torrents downloaded by one process both end with their published files.", "quantifier": "all pairs of torrents, all interleavings, all layouts", "why_tests_cant": "Unbounded interleavings; needs particular layouts.", "anchors": ["src/torrent/writer.rs: get_file_writers, write_to_filesystem", "src/main.rs: add_magnet"]}
{"id": "C71", "title": "Every request is answered", "statement": "Every POST /add/magnet request gets an answer; it is 200 exactly when the body is a valid magnet link, and then the torrent with the named info hash is started.", "quantifier": "all request bodies", "why_tests_cant": "All inputs.", "anchors": ["src/main.rs: add_magnet", "src/torrent/magnet.rs: parse_magnet"]}
{"id": "C72", "title": "Text is exactly UTF-8", "statement": "A byte string is taken as text (dictionary keys, names, path components) exactly when it is the UTF-8 form of a sequence of Unicode scalar values; anything else is refused with an error. Every key of a decoded value and every name in accepted metadata is such text, and text is encoded with the number of its characters as length.", "quantifier": "all byte strings, all decoded values at any depth, all metadata", "why_tests_cant": "All byte sequences, in particular surrogates, overlong forms and values beyond the last code point at any depth.", "anchors": ["src/bencode/decode.rs: parse_dictionary", "src/bencode/metainfo.rs: get_string_content", "src/bencode/encode.rs: Encode for String", "src/torrent/file.rs: from_metainfo"]}
{"id": "C73", "title": "Every torrent is looked up at every tracker, and only its own peers are told to it", "statement": "Every torrent that is added is looked up at each of the built-in trackers, again if that fails, independently of the fate of other torrents; the torrent is told exactly the reachable peers of the answers to its own lookups, and no peers of other torrents.", "quantifier": "all interleavings of any number of torrents, interface and tracker actors, all tracker answers, failures and reachability of peers", "why_tests_cant": "Unboundedly many interleavings of eighteen tracker actors, their pending lookups and mailboxes.", "anchors": ["src/actors/tracker.rs: Handler<TorrentRegistered>", "src/actors/trackers_interface.rs: TrackersInterfaceActor::new, Handler<TorrentRegistered>", "src/main.rs: add_magnet"]}
{"id": "C74", "title": "A download ends", "statement": "If trackers report finitely many peers and finitely many downloads fail, a torrent takes finitely many steps: at most two per reported peer, four per piece and three per failed download. When nothing more can happen except reports of further peers and failing downloads, every piece has been handed to the writer and written, and the files are right.", "quantifier": "all interleavings, all metadata, all peers, all piece counts, all initial disks; all infinite runs", "why_tests_cant": "Absence of infinite runs, over all interleavings, is not observable in finite time.", "anchors": ["src/actors/torrent.rs: Handler<PeerFound>, Handler<PieceDownloadSuccessful>, Handler<PieceDownloadFailed>", "src/actors/connection.rs: Handler<PieceRequested>", "src/actors/writer.rs: Handler<PieceReady>"]}
{"id": "C75", "title": "A torrent that is added again is resumed", "statement": "When a torrent is added whose content is (partly) on the disk, what is right on the disk stays right at every moment, and pieces that are complete on the disk are not downloaded again.", "quantifier": "all initial disks, all process histories, all peers, all metadata", "why_tests_cant": "All initial disk contents times all interleavings and crash points.", "anchors": ["src/actors/torrent.rs: Handler<PeerFound>, Handler<PieceDownloadSuccessful>", "src/actors/writer.rs: Handler<PieceReady>", "src/torrent/writer.rs: get_file_writers, write_to_filesystem"]}
{"id": "C76", "title": "A peer that greets us is accepted", "statement": "When a peer answers the handshake with one for the same torrent and then sends, among any other valid messages, an extension handshake announcing the metadata and an unchoke, opening the connection succeeds, and what is then known of the metadata is what the peer announced.", "quantifier": "all peers: all message streams, all segmentations and arrival times of their bytes", "why_tests_cant": "All streams of messages times all ways the network can cut and delay them.", "anchors": ["src/peer/manager.rs: init_peer", "src/peer/mod.rs: apply_message, is_ready, read_message", "src/peer/stream.rs: StreamInterface::read_message"]}
{"id": "C77", "title": "Metadata served by a peer is received", "statement": "When a peer that opens announces the size of the metadata and serves its blocks, fetching the metadata returns exactly the metadata that the published bytes encode, whatever the number of blocks.", "quantifier": "all metadata, all sizes, all message streams with the blocks in order, all segmentations and arrival times", "why_tests_cant": "All metadata of all sizes times all ways the network can cut and delay the messages.", "anchors": ["src/peer/manager.rs: get_info", "src/peer/download/mod.rs: Downloadable::download", "src/messages/extension.rs: ExtensionMessage", "src/torrent/info.rs: Info::from_bytes"]}
{"id": "C78", "title": "A magnet link is enough", "statement": "A torrent that is added by its info hash alone, with nothing in the cache, can be downloaded: in every state it can get into there is a continuation (peers that have metadata and content turn up) in which the metadata is fetched, the download starts, every piece is fetched and written, and the files are right.", "quantifier": "all reachable states after any behaviour of peers, trackers and scheduler; all metadata, contents, initial disks", "why_tests_cant": "Existence of a continuation from each of infinitely many reachable states.", "anchors": ["src/actors/torrent.rs: Handler<PeerFound>, collect_info", "src/peer/manager.rs: get_info, download", "src/actors/connection.rs: Handler<PieceRequested>", "src/actors/writer.rs: Handler<PieceReady>"]}
{"id": "C79", "title": "A lookup at a tracker never crashes and only contacts the tracker", "statement": "Looking up the peers of a torrent at a tracker never panics, whatever the tracker answers and the network does; datagrams are sent only over a socket connected to the host and port of the tracker's URL, the first being a connect request.", "quantifier": "all tracker URLs, all answers, all network failures", "why_tests_cant": "All byte strings a tracker can answer, all failures.", "anchors": ["src/tracker/mod.rs: get_peers_by_tracker", "src/tracker/udp_tracker.rs: call, connect_to_tracker, read_upd_packet", "src/tracker/tcp_tracker.rs: call"]}
{"id": "C80", "title": "A torrent only hears of peers that were named for it", "statement": "In the whole program, with any number of torrents and trackers at work, every peer a torrent hears of, and every address it may connect to for metadata or pieces, was in an answer of a tracker to a query about the info hash of this torrent and accepted a connection; messages are neither lost nor swapped nor reordered on the way from the trackers to the torrent.", "quantifier": "all runs of the program: all requests, tracker answers, schedules, restarts", "why_tests_cant": "All interleavings of any number of actors over unboundedly long runs.", "anchors": ["src/main.rs: add_magnet", "src/actors/trackers_interface.rs: Handler<RegisterTorrent>", "src/actors/tracker.rs: get_peers", "src/actors/torrent.rs: Handler<PeerFound>, Handler<PieceDownloadSuccessfull>"]}
{"id": "C81", "title": "The properties of the parts hold in the whole program", "statement": "Every run of the whole program is, seen from the disk, a run of the process of C69 and, seen from the trackers, a run of the trackers of C73; once every piece of a torrent is written its files are right and stay right, and bytes that were right before are never made wrong, whatever peers, trackers, other torrents and restarts do.", "quantifier": "all runs of the program, all contents, layouts, disks", "why_tests_cant": "Refinement over all interleavings and restarts.", "anchors": ["src/main.rs: main, add_magnet", "src/actors/torrent.rs", "src/actors/tracker.rs", "src/actors/writer.rs"]}
{"id": "C82", "title": "A request is enough", "statement": "As long as the program runs, whatever happened before, a request with a magnet link can be followed by a run at whose end all files of the torrent are on the disk.", "quantifier": "all reachable states of the program, all links, metadata, contents and disks", "why_tests_cant": "Existence of a continuation from each of infinitely many reachable states; the refutation is about all continuations.", "anchors": ["src/main.rs: add_magnet", "src/actors/trackers_interface.rs", "src/actors/tracker.rs", "src/actors/torrent.rs", "src/peer/manager.rs"]}
{"id": "C83", "title": "A peer can only hold up its own torrent", "statement": "Whatever a peer sends that is asked for the metadata of one torrent, requests are still answered and the other torrents still make progress.", "quantifier": "all states, all peers, any number of threads", "why_tests_cant": "Peers that send for ever and all continuations afterwards.", "anchors": ["src/main.rs: main, add_magnet", "src/actors/torrent.rs: Handler<PeerFound>, collect_info", "src/peer/manager.rs: get_info"]}
{"id": "C84", "title": "What holds of one torrent holds of each of many", "statement": "In the whole program, with any number of torrents that share the disk, the threads and the trackers, in every reachable state and for every torrent: each piece is in exactly one place, at most five are in flight, the peer counters are exact, and a torrent that has started, lost nothing and has nothing to do has its files on the disk as published.", "quantifier": "all runs of the program, all torrents, all interference between them on the disk", "why_tests_cant": "Compositionality over any number of torrents and all interleavings.", "anchors": ["src/actors/torrent.rs", "src/actors/connection.rs", "src/actors/writer.rs", "src/main.rs: add_magnet"]}
{"id": "C85", "title": "Different metadata have different info hashes", "statement": "Two metadata documents received from anywhere for which the program computes the same info hash denote equal metadata, or a SHA-1 collision has been exhibited; so every piece is loaded from a peer that presented the hash of just the metadata it is loaded for.", "quantifier": "all byte strings accepted as metadata, all hash functions, all peers", "why_tests_cant": "Injectivity of the encoding over all metadata, including text whose encoding has a wrong length prefix.", "anchors": ["src/common/bencode.rs: encode", "src/torrent/info.rs: compute_info_hash, Encode for Info, Info::from_bytes", "src/peer/manager.rs: get_piece"]}
{"id": "C86", "title": "Decoding needs a bounded stack", "statement": "There is a number such that, whatever a peer, a tracker or a file supplies, decoding it never has more than that many calls of the decoder open at a time (a stack overflow kills the process and cannot be caught).", "quantifier": "all byte strings, all nesting depths, all messages of peers", "why_tests_cant": "A test uses documents of some fixed depth; the question is about unbounded nesting.", "anchors": ["src/bencode/decode.rs: decode, parse_list, parse_dictionary", "src/messages/extension.rs: from_bytes"]}
{"id": "C87", "title": "A piece reported as written is on disk, whatever the disk does", "statement": "Whatever the operating system does when directories are made, files are opened and bytes are written (errors, fewer bytes taken than given), a piece that is reported as written is on disk in full, and pieces written before stay intact.", "quantifier": "all disks (all results of all system calls), all pieces, file lists, orders and initial file systems", "why_tests_cant": "Tests run on a disk with room; the results of system calls are chosen by the environment, for every call anew.", "anchors": ["src/torrent/writer.rs: write_to_filesystem, write, get_file_writers"]}
{"id": "C88", "title": "The client has one well-formed identity", "statement": "Every peer id the client sends, to peers and to trackers, is twenty letters and digits (so that handshakes have 68 bytes, UDP announces 98, and it stands in a URL as it is), every such id is possible and equally likely, and all ids sent by one run of the program are the same, so that a tracker knows the client by the id it presents to peers.", "quantifier": "all streams of random words, all positions in the stream, all info hashes, peers and trackers", "why_tests_cant": "The existing use is random: a test sees some ids out of 62^20, never the rejected draws, and ids are compared across two modules only in the whole program.", "anchors": ["src/common/generator.rs: generate_peer_id", "src/tracker/mod.rs: get_peers_by_tracker", "src/peer/mod.rs: Peer::new"]}
{"id": "C89", "title": "Waiting for a peer is bounded", "statement": "Whatever a peer sends and whenever it does, the client waits for it only for a bounded time: a read takes at most 8 seconds, opening the connection at most 88 more, and an attempt to get metadata or a piece ends within a bound that does not depend on the peer.", "quantifier": "all peers (all bytes, segmentations and delays at every system call), all kinds of attempts, builds, hashes and ids", "why_tests_cant": "The mock stream answers at once; time is spent only with a real, slow and hostile peer, and the worst case is a particular schedule of single bytes.", "anchors": ["src/peer/stream.rs: read_stream, peek_and_read", "src/peer/manager.rs: init_peer", "src/peer/download/mod.rs: execute"]}
{"id": "C90", "title": "Decoding needs memory in proportion to its input", "statement": "While bencoded bytes are being decoded, the decoder holds at most as many units of memory (one for every value and key and for every byte of a string or key) as the input has bytes, and so does the value it returns.", "quantifier": "all byte strings, all moments of the decoding", "why_tests_cant": "All inputs of all lengths, and every moment inside the run; inputs that make a loop grow without end only show as a process that is killed.", "anchors": ["src/bencode/decode.rs: Decoder::decode, parse_list, parse_dictionary", "src/bencode/metainfo.rs: Metainfo"]}
{"id": "C91", "title": "A peer only makes the client hold memory it has paid for", "statement": "At every moment of an attempt with a peer, the memory the client holds for it (state of the peer, messages of the download, buffer of the message being read, result) is at most a constant times the number of bytes the peer has sent.", "quantifier": "all behaviours of peers and network, all states of all attempts, all torrents", "why_tests_cant": "All message streams of any length and all states an attempt passes through.", "anchors": ["src/peer/stream.rs: read_stream", "src/peer/mod.rs: Peer, apply_content", "src/peer/buffer.rs: MessageBuffer", "src/peer/download/mod.rs: execute"]}
{"id": "C92", "title": "Cached metadata is read exactly if the file is a JSON text of it", "statement": "Reading the cached metadata of a torrent succeeds exactly if the file holds a JSON text (RFC 8259) that stands for metadata, gives the metadata it stands for, and reports an error for everything else.", "quantifier": "all byte strings as contents of the cache file, all paths and file systems", "why_tests_cant": "All documents: white space, order and number of members, escapes, surrogate pairs, number formats, nesting of ignored values; the grammar is infinite and both directions are claimed.", "anchors": ["src/torrent/info.rs: Info::from_file", "src/torrent/file.rs: File", "src/actors/torrent.rs: collect_info"]}
{"id": "C93", "title": "Adding a torrent several times at once leaves good cached metadata", "statement": "When several requests for the same torrent run at once, every one of them ends up with metadata a peer has delivered, and the cache file ends up holding one of these, complete; reading it at any moment gives one of these or finds nothing, and never crashes.", "quantifier": "any number of torrent actors, all interleavings of their looks at the file, downloads and writes of any size, all metadata", "why_tests_cant": "All schedules of any number of writers and readers of one file; the windows are microseconds long.", "anchors": ["src/actors/torrent.rs: collect_info", "src/torrent/info.rs: Info::save, Info::from_file", "src/main.rs: torrent creation"]}
{"id": "C94", "title": "The log tells what happened", "statement": "At any time, also after a crash, the log file contains every line that has been logged since the program was first started, complete and in order, and nothing else.", "quantifier": "all runs of the process with any torrents, peers and interleavings, stopped and started again any number of times", "why_tests_cant": "Any interleaving of log lines with the writes of any number of torrents, and a stop at any moment.", "anchors": ["src/main.rs: main (env_logger target ./test.log)", "src/torrent/writer.rs: write_to_filesystem"]}
{"id": "C95", "title": "Failures to send are noticed", "statement": "If a message cannot be sent to a peer, the attempt with this peer ends with an error.", "quantifier": "all peers and network schedules, all messages", "why_tests_cant": "A failure of any one system call among arbitrarily many, under any behaviour of the network.", "anchors": ["src/peer/stream.rs: write_stream, send_metadata_handshake_request", "src/peer/mod.rs: send_message", "src/peer/manager.rs: init_peer", "src/peer/buffer.rs: request_next_message"]}
{"id": "C96", "title": "What the client says to a peer", "statement": "Everything the client sends to a peer in one attempt is a handshake, interested, an extension handshake that states the true size of the metadata, and then requests only: at most one for every block of the piece (or of the metadata) that is wanted, each for a block of it, metadata requests with the number the peer has last given to the extension.", "quantifier": "all torrents, pieces, peers and network schedules, wherever the attempt is cut off", "why_tests_cant": "The peer may send any messages in any order, fragmented and interleaved with requests in any way, and cut the attempt off anywhere.", "anchors": ["src/peer/manager.rs: init_peer, get_info, download", "src/peer/stream.rs: send_metadata_handshake_request", "src/peer/buffer.rs: request_next_message", "src/peer/mod.rs: send_message"]}
{"id": "C97", "title": "A lookup at a tracker ends", "statement": "Asking one tracker for peers, and trying the peers it names, ends, and within a time that does not depend on the tracker.", "quantifier": "all trackers, networks and answers", "why_tests_cant": "The tracker can send any datagrams or none, at any time, and any document over HTTP.", "anchors": ["src/tracker/mod.rs: get_peers_by_tracker", "src/tracker/udp_tracker.rs: call, connect_to_tracker, read_announce", "src/tracker/tcp_tracker.rs: call", "src/actors/tracker.rs: handle", "src/tracker/peer_endpoint.rs: is_reachable"]}
{"id": "C98", "title": "What a tracker is told is true", "statement": "An announce states truthfully how much has been downloaded and uploaded, how much is left, and a port on which the client accepts connections.", "quantifier": "all torrents, trackers and networks, every datagram and URL of every lookup", "why_tests_cant": "Ranges over all torrents and over every answer of the tracker in the exchange before the announce.", "anchors": ["src/tracker/udp_tracker.rs: make_announce_message, announce_to_tracker", "src/tracker/tcp_tracker.rs: build_url", "src/main.rs: main"]}
{"id": "C99", "title": "HTTP trackers are asked correctly and their answers understood", "statement": "The request to an HTTP tracker names the host of the tracker, and an answer in any of the codings which the request says are accepted is understood.", "quantifier": "all tracker URLs and all answers of the server, with any decompressor", "why_tests_cant": "Ranges over all hosts and all compressed answers; the tests use a local server that ignores the host and never compresses.", "anchors": ["src/tracker/tcp_tracker.rs: call, call_tracker_for_peers"]}
{"id": "C100", "title": "The log cannot be forged", "statement": "Every record the program logs is exactly one line of the log file, whatever peers, trackers and the operating system send to be printed; a quoted text can be told from what surrounds it, two values are never printed alike, and the record says which message came.", "quantifier": "all records, all texts and values from outside, all executions", "why_tests_cant": "Ranges over all byte strings a peer can have printed; the tests do not look at the log.", "anchors": ["src/main.rs: main (logger)", "src/peer/mod.rs: apply_message, apply_content", "src/messages/extension.rs: from_bytes, build_extensions_map", "src/bencode/decode.rs: get_consecutive_digits"]}
{"id": "C101", "title": "A peer cannot fill the log", "statement": "What an attempt with a peer adds to the log is bounded: in proportion to what the peer sends, and in total.", "quantifier": "all peers (schedules of the network), all points at which the attempt is cut off, all torrents", "why_tests_cant": "Ranges over all conversations of any length.", "anchors": ["src/peer/manager.rs: get_info, download, init_peer, track_progress", "src/peer/mod.rs: apply_message", "src/peer/stream.rs: write_stream", "src/peer/download/mod.rs: execute"]}
{"id": "C102", "title": "The log of an attempt tells what happened in it", "statement": "The log of an attempt with a peer names exactly the messages that came, in order, and the writes that failed; it says that the download of a piece was started exactly if it was, and that it was completed exactly if the piece came and is the right one.", "quantifier": "all peers (schedules of the network), all points at which the attempt is cut off, all torrents and pieces", "why_tests_cant": "Ranges over all conversations; the tests do not look at the log.", "anchors": ["src/peer/mod.rs: apply_message, apply_content", "src/peer/stream.rs: write_stream", "src/peer/manager.rs: init_peer, download, track_progress", "src/peer/download/mod.rs: execute"]}
{"id": "C103", "title": "A torrent that is added twice is downloaded once", "statement": "While the program runs, a request for a torrent it already has (running or complete) does not start another download of it; torrents are started by accepted requests and by nothing else.", "quantifier": "all executions of the whole program, all magnet links, all torrents", "why_tests_cant": "Ranges over all histories of the program before the second request; the tests start no torrent twice.", "anchors": ["src/main.rs: add_magnet", "src/actors/torrent.rs: TorrentActor, Handler<PeerFound>"]}
{"id": "C104", "title": "A peer that keeps failing is avoided", "statement": "When a torrent chooses a peer for a piece, it chooses one that failed less than twice; only if there is none, one that failed less than four times; only if there is none, any. Requests go to peers chosen in this way or to the peer that has just delivered a piece. This stays so when a peer is named again.", "quantifier": "all reachable states of a torrent among others, all shuffles of its peers, all histories of names, successes and failures", "why_tests_cant": "Ranges over all histories and shuffles; the tests contain no torrent with more than one peer.", "anchors": ["src/actors/torrent.rs: Peer::find_suitable_peer, update_failed, Handler<PieceDownloadFailed>, Handler<PeerFound>, Handler<PieceDownloadSuccessfull>"]}
{"id": "C105", "title": "The log tells what came of lookups, the cache and writes", "statement": "The log of a lookup says how many peers the tracker named exactly if the lookup succeeds, and which tries of the connection request could not be sent; that of looking for metadata says that the cache file was found exactly if there is anything in its place, that it could not be read exactly if that is no text, and that the metadata could not be saved exactly if they were fetched from a peer and are not what the file contains afterwards. A piece that is said to be completely written is, and a lookup that fails is recorded.", "quantifier": "all trackers and networks (schedules), all file systems, info hashes, peers and points at which writing is cut off, all disks, torrents and pieces", "why_tests_cant": "Ranges over all networks and file systems; the tests do not look at the log.", "anchors": ["src/tracker/mod.rs: get_peers_by_tracker", "src/tracker/udp_tracker.rs: connect_to_tracker", "src/torrent/info.rs: Info::from_file, Info::save", "src/actors/torrent.rs: collect_info", "src/torrent/writer.rs: write"]}
{"id": "C106", "title": "Decoding takes time in proportion to its input", "statement": "Decoding bencoded bytes takes at most four steps for every byte of the input, and two (a step is a call, a round of a loop, or a byte that is looked at, checked, copied or hashed), and a value that was read from n bytes took at least n steps and less than 4n, whatever follows it.", "quantifier": "all byte strings", "why_tests_cant": "All inputs of all lengths; a test that measures time sees a few inputs, and one that never ends only as a timeout.", "anchors": ["src/bencode/decode.rs: Decoder::decode, get_consecutive_digits, parse_string, parse_list, parse_dictionary"]}
{"id": "C107", "title": "An error tells what was wrong", "statement": "An error is returned by the decoder, the lookups in a decoded value, the reading of metadata and of file entries, and the calls to trackers exactly when something is wrong with what they were given, and it names the first thing that is: the digits that are no number, the position of the key that is no text, the key that is missing, the type wanted and the type found, what was missing in a tracker's URL, the step of the exchange with the tracker that failed; a file reported as missing is missing, and an answer reported as too short is shorter than it says.", "quantifier": "all byte strings, decoded values, keys, metadata, tracker URLs, behaviours of sockets and of HTTP servers, and contents of the cache", "why_tests_cant": "All inputs, at any depth; a test checks the error for some broken inputs, not that there is no error for the others nor that it is the first fault that is reported.", "anchors": ["src/bencode/decode.rs: DecoderError", "src/bencode/metainfo.rs: MetainfoError, get_*_from_dict", "src/torrent/file.rs: File::from_metainfo", "src/torrent/info.rs: InfoError, from_bytes, from_metainfo, from_file, save, get_files", "src/tracker/udp_tracker.rs: UdpTrackerError, call", "src/tracker/tcp_tracker.rs: TcpTrackerError, call"]}
{"id": "C108", "title": "A peer that follows the protocol cannot crash an attempt", "statement": "An attempt to download a piece, or to get the metadata, from a peer whose messages follow the protocol (requests and blocks with piece and offset, whole handshakes, extension messages that begin with a bencoded document) does not panic, however the messages are segmented and delayed and with keep-alives in between.", "quantifier": "all message sequences of such peers, all schedules of the network, all metadata and existing pieces, both builds", "why_tests_cant": "All messages, in all segmentations: the crash needs a frame of a certain length to be split at a certain byte.", "anchors": ["src/peer/stream.rs: read_stream", "src/messages/mod.rs: new_raw", "src/peer/manager.rs: init_peer, download, get_info", "src/peer/download/mod.rs: execute", "src/bencode/decode.rs: Decoder::decode"]}
{"id": "C109", "title": "What a torrent keeps in memory is bounded", "statement": "A torrent keeps a bounded number of peers, requests and downloaded pieces in memory, whatever peers and trackers send and however slow the disk is; the bound does not depend on the torrent.", "quantifier": "all reachable states of the program, all torrents, all answers of trackers and peers, all relative speeds of disk and network", "why_tests_cant": "Needs all interleavings of the downloads with the writer, and all answers of all trackers.", "anchors": ["src/actors/torrent.rs: handle (PeerFound, PieceDownloadSuccessfull)", "src/actors/writer.rs: handle", "src/actors/tracker.rs: handle", "src/tracker/udp_tracker.rs: read_announce", "src/actors/trackers_interface.rs: new"]}
{"id": "C110", "title": "Equally reliable peers are asked equally often", "statement": "When a torrent draws a peer at random, every known peer of the best class (failed less than twice; else less than four times; else any) is chosen with the same probability, and no other is.", "quantifier": "all peer lists, all outcomes of the random draws", "why_tests_cant": "A statement about the number of outcomes among all n! of them, for every n.", "anchors": ["src/actors/torrent.rs: Peer::find_suitable_peer, handle (PeerFound)"]}
{"id": "C111", "title": "Every fair run completes a download that has started", "statement": "In every run of the program in which no actor of the torrent that has something to do is left waiting for ever, downloads fail finitely often, no worker of the torrent dies and its thread does not get stuck, a torrent that has its metadata and starts comes to rest with its files complete on disk, and they stay so.", "quantifier": "all fair runs without end, whatever other torrents, trackers and peers do", "why_tests_cant": "A statement about infinite executions and every order in which the actors may take their turns.", "anchors": ["src/actors/torrent.rs: TorrentActor (all handlers)", "src/actors/connection.rs: ConnectionActor", "src/actors/writer.rs: WriterActor", "src/main.rs: add_magnet"]}
{"id": "C112", "title": "From the request to the files, in every fair run", "statement": "In every run of the program in which nothing that has been sent is left lying about and no actor that has something to do is left waiting for ever: every tracker whose actor survives is asked about every torrent requested; what trackers name for a torrent gets to it, and it looks at every peer; once it has its metadata and more than ten peers it starts, and completes its files.", "quantifier": "all fair runs without end, whatever other torrents, trackers and peers do", "why_tests_cant": "A statement about infinite executions and every order in which the actors may take their turns; that a torrent never starts cannot be seen in a test.", "anchors": ["src/actors/torrent.rs: Handler<PeerFound>", "src/actors/trackers_interface.rs: Handler<TorrentRegistered>", "src/actors/tracker.rs: Handler<TorrentRegistered>", "src/main.rs: add_magnet"]}
{"id": "C113", "title": "How long a download takes", "statement": "While pieces of a started torrent are waiting, just as many pieces are on their way as workers are left, so no worker is idle except while a request or a report is under way. If a request waits at most a for an idle worker, a download takes at most d and a report waits at most b, then a torrent with R unfinished pieces, F failed downloads on the way and W workers left in the end has all its pieces handed to the writer (or lost with workers) after (ceil((R+F)/W)+F)*(a+d+b). It is never faster than the workers allow, however many peers are known: if a download takes at least d, at most m*W pieces are downloaded within m*d.", "quantifier": "all runs of the program without end, all clocks, whatever other torrents, trackers and peers do", "why_tests_cant": "A statement about all schedules of the workers and all durations of downloads; a test sees one schedule.", "anchors": ["src/actors/torrent.rs: Handler<PieceDownloadSuccessfull>, Handler<PieceDownloadFailed>, Handler<PeerFound>", "src/actors/torrent.rs: TorrentActor::new (SyncArbiter::start(5))", "src/actors/connection.rs: ConnectionActor"]}
{"id": "C114", "title": "One block per round trip", "statement": "At most one request is outstanding, so the loop gets at most one block per round trip: if every answer comes at least δ ms after the request with the same number, then the k-th answer (from 0) is there after (k+1)*δ ms at the earliest, n answers take at least n*δ ms, and a download of B blocks (16384 bytes each) takes at least B*δ ms, however fast the link is. With a peer that answers each request with one whole message after its delay, the piece is downloaded in exactly the sum of the delays and one more poll (100 ms if the peer says nothing unasked), as the loop polls before it writes its first request. So a torrent with five workers gets at most five blocks per round trip, whatever the number of peers: at most 5*m pieces of B blocks or more within m*B*δ.", "quantifier": "all schedules of the network, all waiting times, pieces and metadata, all numbers of blocks", "why_tests_cant": "A bound on the time of every run for every delay; a test measures one run on one link.", "anchors": ["src/peer/download/mod.rs: execute", "src/peer/buffer.rs: request_next_message, is_len_as_expected", "src/peer/stream.rs: read_stream", "src/actors/torrent.rs: TorrentActor::new (SyncArbiter::start(5))"]}
{"id": "C115", "title": "A piece is only asked of a peer that says it has it", "statement": "The client asks a peer for blocks of a piece only after the peer has said, in its bitfield or in a `have` message, that it has the piece. (False: the bitfield is kept and never used. What a peer says it has makes no difference at all: of two peers that send the same but for their bitfields and `have` messages, the same is asked, and the outcome is the same.)", "quantifier": "all schedules of the network, all peers, metadata and pieces, all contents of bitfields and `have` messages", "why_tests_cant": "Independence of a part of the input is a statement about all pairs of runs; a test compares two of them.", "anchors": ["src/peer/mod.rs: apply_content, get_bitfield", "src/peer/manager.rs: init_peer, download", "src/peer/download/mod.rs: execute", "src/messages/bitfield.rs"]}
{"id": "C116", "title": "A torrent that has nothing more to do gives back its threads", "statement": "Every torrent has six threads of its own (five workers and a writer). Once a torrent has nothing more to do, its threads end, and nothing happens to it after that. (The first half is false: the threads end only when nobody has the address of the torrent's actor any more, and a lookup at a silent UDP tracker, which never ends, has it. So a complete torrent can keep its threads for ever, and nothing bounds how many do. True if all lookups for the torrent end.)", "quantifier": "all runs of the whole program, all torrents, disks, networks and schedules", "why_tests_cant": "That threads end at all is a liveness statement about infinite runs, that nothing happens afterwards one about all continuations; a test waits for a while in one of them.", "anchors": ["src/actors/torrent.rs: TorrentActor::new", "src/actors/messages.rs", "src/actors/tracker.rs: handle", "src/main.rs", "src/tracker/udp.rs"]}
{"id": "C117", "title": "The mock connection of the tests stands for a real one", "statement": "Whatever is done to the mock stream the tests run on, in whatever order, it behaves like a connection whose peer sends the pushed bytes and closes; and what read_stream gives on a mock stream holding some bytes, it gives on every connection that delivers those bytes.", "quantifier": "all sequences of reads, peeks, writes, time-outs, pushes and pops; all bytes; all schedules of the network", "why_tests_cant": "The tests assume it: they run on the mock stream, so they cannot say for which real connections their results hold.", "anchors": ["src/common/mock_stream.rs: MockStream, FailingMockStream", "src/peer/stream.rs: StreamInterface, read_stream, write_stream"]}
{"id": "C118", "title": "Only its user can make the client download", "statement": "A request that a page of some web site has the user's browser send starts no torrent. (False: the server does not look at where a request comes from, and every torrent can be started by a request that browsers send without asking. True of requests that are not POST.)", "quantifier": "all requests, all web sites, all torrents, all states of the program", "why_tests_cant": "It is about all requests browsers may send, and about the headers the code ignores.", "anchors": ["src/main.rs: add_magnet, main", "src/torrent/magnet.rs: parse_magnet"]}
{"id": "C119", "title": "The client keeps few sockets open", "statement": "However many torrents are requested and whatever trackers and peers do, the number of sockets the program has open stays below a fixed bound, and a torrent with nothing left to do has closed its own. (False: lookups at silent trackers never end, and each keeps a socket. True per torrent: at most 22; and a torrent whose lookups end closes all of them in fair runs.)", "quantifier": "all executions of the program, all torrents, all behaviours of trackers and peers, all schedules", "why_tests_cant": "It is about the number of sockets in every state of every execution of any length, with any number of torrents.", "anchors": ["src/tracker/udp_tracker.rs: call", "src/actors/tracker.rs: TrackerActor::handle", "src/peer/manager.rs: get_info, download", "src/actors/torrent.rs: Torrent"]}
{"id": "C120", "title": "One good peer is enough", "statement": "If, whenever a torrent asks a peer for a piece, it knows some peer that has failed less than twice since it was named, then peers that always fail cannot keep it busy: no peer fails more than six times since it was named, only finitely many downloads fail, and in every fair run the torrent comes to rest with its files complete on disk.", "quantifier": "all fair runs without end, all numbers of peers that fail, every order of the actors and every shuffle of the peers", "why_tests_cant": "A bound on failures over infinite executions and all random choices of find_suitable_peer; tests show some choices of some runs.", "anchors": ["src/actors/torrent.rs: find_suitable_peer", "src/actors/torrent.rs: update_failed", "src/actors/torrent.rs: Handler<PieceDownloadFailed>", "src/actors/torrent.rs: Handler<PeerFound>"]}
{"id": "C121", "title": "An address that somebody names is not flooded", "statement": "Trackers are not trusted, and may name any address as a peer. Whoever is there hears no more than one handshake of 68 bytes per attempt unless it greets the client with the info hash of the torrent; the number of attempts that fail is bounded by a constant times the number of times the address was named; and no more than five connections for pieces of a torrent go there at a time.", "quantifier": "all networks and behaviours at the address, all runs of the whole program, all answers of trackers", "why_tests_cant": "A bound over infinite executions and everything a stranger may send; tests show some attempts at some addresses.", "anchors": ["src/peer/manager.rs: init_peer", "src/actors/torrent.rs: Handler<PieceDownloadFailed>", "src/actors/torrent.rs: find_suitable_peer", "src/actors/tracker.rs"]}
{"id": "C122", "title": "What a torrent takes altogether is bounded", "statement": "While there is a peer that has not failed twice whenever somebody is asked, a torrent begins at most one attempt for each piece, six for each peer it has been told of, and five; all of them together send at most 137 bytes and 17 for each block of a piece per attempt, whatever the peers do; and if waiting, downloading and reporting take bounded time, every piece has been handed to the writer after a time bounded by these numbers. An address is asked for the metadata at most once for each time it is named.", "quantifier": "all runs of the whole program, all networks and behaviours of peers, all torrents, all clocks", "why_tests_cant": "A total over unbounded executions with peers that fail in any way; tests show single attempts.", "anchors": ["src/actors/torrent.rs: Handler<PieceDownloadFailed>, Handler<PieceDownloadSuccessfull>, Handler<PeerFound>", "src/actors/connection.rs: Handler<PieceRequested>", "src/peer/manager.rs"]}
{"id": "C123", "title": "An attempt knows nothing of what is to come, and peers may do whatever they like upon what they hear", "statement": "An attempt to get a piece or the metadata is a program that makes one call at its socket after the other and learns of each call only what came of it: for every schedule of the network it gives the same result, after the same number of calls, with the same bytes written. So what happens after its last call changes nothing, what it has written before a call is determined by the calls before it, and peers that choose what they do from all that they have heard bring about just those results that fixed schedules bring about: what is proved for all schedules holds for all peers that answer. The same holds of lookups at UDP trackers.", "quantifier": "all schedules of the network, all strategies of peers, all torrents, pieces and lengths of time", "why_tests_cant": "That the schedules of the model stand for all peers is about every strategy a peer may have; tests have a few scripted peers.", "anchors": ["src/peer/stream.rs: read_stream, write_stream", "src/peer/mod.rs", "src/peer/download/mod.rs: execute", "src/peer/manager.rs: get_info, download", "src/tracker/udp_tracker.rs: call, connect_to_tracker"]}
{"id": "C124", "title": "More than the handshake is told only to those who know the torrent", "statement": "Whoever is at an address is told more than the handshake only if they know the info hash of the torrent: somebody who does not listen is taken for a peer of one torrent at most, whatever they send. Somebody who sends back what they are sent, and so knows nothing, is taken for a peer of every torrent: their handshake is accepted although it carries the client's own peer id, they are told that the client is interested and what extensions it has, and the client takes over the size of the metadata that it has itself made up; the attempt then ends because nobody has unchoked it.", "quantifier": "all schedules of the network, all info hashes and peer ids, all torrents and pieces", "why_tests_cant": "That nobody who does not listen can stand for two torrents is about all schedules and all pairs of torrents; tests use scripted peers that know the torrent.", "anchors": ["src/peer/manager.rs: init_peer", "src/peer/mod.rs: apply_message, apply_content", "src/messages/handshake.rs", "src/peer/stream.rs: send_metadata_handshake_request"]}
{"id": "C125", "title": "Who sends what is asked for is not found to have sent something else", "statement": "If every answer of a peer holds what the torrent (or its metadata) holds at a place the client asked for before, an attempt never ends with the error for a wrong piece (or for metadata that cannot be read), and what is got is the piece (or the metadata). (False: a peer that answers a request twice is taken to have sent a wrong block, as the place that an answer states is not looked at; and if the piece length is no multiple of 16384, the last request for a piece goes beyond it, so whoever answers it as it is made is always rejected. True if every request is answered at most once, in order, and pieces consist of whole blocks or the piece is the last one.)", "quantifier": "all contents, pieces, schedules of the network and peers, whatever else they send, however long they take and wherever they stop", "why_tests_cant": "It is about every conversation with an honest peer, of any length and timing; tests have a few scripted ones.", "anchors": ["src/peer/buffer.rs: push_message, assemble_content", "src/peer/download/block.rs: get_block_size, filter", "src/peer/download/mod.rs: execute", "src/peer/manager.rs: download, get_info", "src/messages/request.rs"]}
{"id": "C126", "title": "Torrents take no more room on disk than they list", "statement": "Whatever metadata, trackers, peers and users say and do, no file apart from the log and the saved metadata ever becomes longer than it was before the program was started for the first time, unless it is in the place of a file of a torrent of which a piece has been written, and then it is no longer than listed there; so all files together take no more room than before and what these torrents list together. (False in a release build for torrents that list almost 2^64 bytes: the position of the end of an over-long piece wraps around, and all of it is written. True in a debug build, and for torrents of which no piece can reach beyond 2^64.)", "quantifier": "all runs of the program, all metadata (any paths, lengths, piece lengths and numbers of hashes, also if they contradict each other), all pieces with the right hash, whatever their length, all builds, all disks, all moments, also if the program is stopped while writing", "why_tests_cant": "A test writes pieces of the length it expects at places it computes; that nothing is ever written beyond the end of a file depends on arithmetic on lengths chosen by the author of the torrent, all interleavings of writers and all places where writing may be stopped.", "anchors": ["src/torrent/writer.rs: write, write_to_filesystem, get_file_writers, FileParser", "src/actors/writer.rs: PieceReady handler", "src/actors/torrent.rs: PeerFound and PieceDownloadSuccessfull handlers"]}
{"id": "C127", "title": "What is on disk and belongs to no torrent is left alone", "statement": "Whatever metadata, trackers, peers and users say and do: apart from the log and the saved metadata (files directly in `downloads` whose names stand for 20 or 32 bytes), every directory and every file that is there when the program is started for the first time is there ever after; no file becomes shorter; a byte of a file only changes if it is within the listed length of a file in the same place of a torrent of which a piece has been written; and where no torrent lists a file nothing is written at all. (The statement about bytes is false in a release build for torrents that list almost 2^64 bytes, as for C126; the others are true in every build.)", "quantifier": "all runs of the program, all metadata, all peers, all disks, all locations, all moments, also if the program is stopped while writing", "why_tests_cant": "A test can look at the files next to those it has downloaded; that no other file anywhere is ever touched, whatever the paths and lengths in the metadata, is a statement about all locations and all runs.", "anchors": ["src/torrent/writer.rs: write, write_to_filesystem, get_file_writers, FileParser", "src/actors/writer.rs: PieceReady handler", "src/actors/torrent.rs: collect_info", "src/main.rs: main"]}
{"id": "C128", "title": "Pieces are asked for in turn", "statement": "Once a torrent has its metadata, the pieces that it asks its workers for are, in order, those that wait now followed by those whose download fails, in the order in which the torrent learns of the failures. So from the start on all pieces are asked for once, in the order of their numbers, before any is asked for again; and a piece that waits is asked for after exactly those that wait before it, each of them once: no piece is overtaken, however often others fail.", "quantifier": "all runs of the program, all metadata, all peers and trackers, all orders of messages, every moment at which a torrent has its metadata, every later moment", "why_tests_cant": "The order depends on how the reports of five workers and the announcements of peers interleave, and on which downloads fail; a test runs some interleavings, the claim is that none lets a piece be overtaken.", "anchors": ["src/actors/torrent.rs: PieceDownloadSuccessfull handler, PieceDownloadFailed handler, PeerFound handler", "src/peer/piece_pool.rs: new, pop, insert"]}
{"id": "C129", "title": "Pieces are written in the order in which they were got, just as they were got", "statement": "At any time what the writer of a torrent has taken, followed by what waits for it, is what the torrent has been told of as got: the same bytes with the same numbers, in the same order, nothing left out, nothing twice. So what has been written is always the first part of what was got, and no piece is got a second time.", "quantifier": "all states of all runs of the program, all metadata, all peers, all orders of messages, whatever others do to the disk, also if the writer dies", "why_tests_cant": "Five workers report at any time while the writer works at its own pace; a test sees some interleavings, the claim is that in none is a piece dropped, swapped or doubled on its way to the writer.", "anchors": ["src/actors/torrent.rs: PieceDownloadSuccessfull handler", "src/actors/writer.rs: PieceReady handler", "src/actors/messages.rs: PieceDownloadSuccessfull, PieceReady"]}

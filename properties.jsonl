{"id": "C01", "title": "Block round trip through a stream", "statement": "Writing any value of any #[block] struct with write_all and reading it back with the generated stream reader yields a value equal to the original, consumes exactly StaticSize::ssize() bytes, and leaves whatever follows in the stream untouched.", "quantifier": "every block schema (any list of supported field types), every field value, every trailing byte string", "why_tests_cant": "the schemas and values are unbounded; tests sample a few structs", "anchors": ["brec_macros/src/codegen/read/block.rs: ReadBlockFrom", "brec_macros/src/codegen/write/block.rs: WriteTo", "brec_macros/src/tokenized/block/*"]}
{"id": "C02", "title": "Zero-copy block view agrees with the owned block", "statement": "For every block value, read_from_slice on the written bytes (followed by anything) returns a referred block that converts (.into()) to exactly the value the stream reader returns.", "quantifier": "every schema, value and suffix", "why_tests_cant": "two independent decoders have to agree on an unbounded value domain", "anchors": ["brec_macros/src/codegen/read/block.rs: ReadBlockFromSlice", "brec_macros/src/codegen/base/block.rs"]}
{"id": "C03", "title": "Block binary layout", "statement": "write, write_all and the concatenation of slices() of a block are the same bytes: 4 signature bytes, each field at its documented fixed width in little-endian in declaration order, 4 bytes CRC32 of the field bytes (zeros under no_crc); the length is exactly 4 + sum of field widths + 4.", "quantifier": "every schema and value", "why_tests_cant": "layout must hold for every combination of field types, including the grouping of blobs into separate io slices", "anchors": ["brec_macros/src/codegen/write/block.rs", "brec_macros/src/codegen/props/block.rs", "brec_macros/src/entities/ty/*", "site/docs/specification.md"]}
{"id": "C04", "title": "Block corruption is never read as different data", "statement": "If at most four consecutive bytes anywhere in the field/CRC region of a written block are changed, then every block reader (stream and slice) either fails or returns the original value; a changed signature is never accepted.", "quantifier": "every schema with CRC, every value, every corruption position and content of up to 4 consecutive bytes", "why_tests_cant": "256^4 corruptions per position and value cannot be enumerated", "anchors": ["brec_macros/src/codegen/read/block.rs", "brec_macros/src/codegen/props/block.rs"]}
{"id": "C05", "title": "try_read of a block never loses bytes on shortage", "statement": "If a seekable source holds only a proper prefix of a block, try_read reports NotEnoughData with the exact number of missing bytes and leaves the position where it was.", "quantifier": "every schema, value and cut point", "why_tests_cant": "every cut point of every block", "anchors": ["brec_macros/src/codegen/read/block.rs: TryReadFrom", "site/docs/parts/blocks.md"]}
{"id": "C06", "title": "Block enum dispatch is order independent", "statement": "With pairwise distinct signatures the generated Block/BlockReferred readers return the variant that was written whatever order the generator enumerates the variants in.", "quantifier": "every set of schemas with distinct signatures, every enumeration order, every value", "why_tests_cant": "the generator iterates a HashMap: order changes between builds and tests see only one", "anchors": ["brec_macros/src/collector/blocks/read.rs", "brec_macros/src/collector/mod.rs"]}
{"id": "C07", "title": "ByteBlock accepts exactly the documented capacities", "statement": "Converting a byte vector to a ByteBlock succeeds iff its length is 4, 8, 16, 32, 64 or 128, and then as_vec/size return the same bytes and length.", "quantifier": "every byte vector", "why_tests_cant": "all lengths", "anchors": ["brec/src/traits/props/byte_block.rs"]}
{"id": "C08", "title": "Payload header round trip through all three readers", "statement": "PayloadHeader::as_vec read back by ReadFrom, TryReadFrom or TryReadFromBuffered gives the same signature, CRC and body length, with size() equal to the number of encoded bytes.", "quantifier": "every signature and CRC block of any legal capacity, every u32 length, any suffix", "why_tests_cant": "36 capacity pairs times unbounded contents and three readers", "anchors": ["brec/src/payload/header/mod.rs", "brec/src/payload/header/read.rs", "brec/src/payload/header/sreader.rs"]}
{"id": "C09", "title": "Incomplete payload header is recognised and not consumed", "statement": "On every proper prefix of an encoded payload header TryReadFrom/TryReadFromBuffered return NotEnoughData(n) with 0 < n <= the number of bytes actually missing and leave the source position unchanged, so a caller that waits for n more bytes always makes progress and never over-waits.", "quantifier": "every header, every cut point", "why_tests_cant": "every cut point of every header", "anchors": ["brec/src/payload/header/read.rs", "brec/src/payload/header/sreader.rs"]}
{"id": "C10", "title": "Packet header round trip", "statement": "A packet header written for any blocks/payload sizes is exactly 29 bytes and is read back identically by the stream, slice and seekable readers with the remainder of the source untouched.", "quantifier": "all u64 sizes, both flag values, any suffix", "why_tests_cant": "2^129 headers", "anchors": ["brec/src/packet/header/mod.rs", "brec/src/packet/header/read.rs", "brec/src/packet/header/write.rs"]}
{"id": "C11", "title": "Packet header corruption is never accepted", "statement": "Changing at most four consecutive bytes of a written packet header makes every header reader fail or return a header with the same size, blocks length and payload flag.", "quantifier": "every header, corruption position and content", "why_tests_cant": "unbounded", "anchors": ["brec/src/packet/header/read.rs", "brec/src/packet/header/mod.rs: crc"]}
{"id": "C12", "title": "Signature search finds the first packet signature", "statement": "PacketHeader::get_pos returns the offset of the first occurrence of the packet signature in the buffer, and None only if there is none.", "quantifier": "every byte buffer", "why_tests_cant": "all buffers", "anchors": ["brec/src/packet/header/mod.rs: get_pos"]}
{"id": "C13", "title": "Payload round trip with header", "statement": "Writing a payload with its header and reading header then payload returns an equal payload, for every payload type whose decode inverts encode; the String and Vec<u8> defaults satisfy this for every value.", "quantifier": "every payload value, any suffix", "why_tests_cant": "unbounded values", "anchors": ["brec/src/traits/write/mod.rs", "brec/src/traits/read/mod.rs", "brec/src/payload/defaults/*"]}
{"id": "C14", "title": "Payload corruption is detected", "statement": "If at most four consecutive bytes of the body of a CRC-protected payload with canonical encoding (Vec<u8>, …) are changed, extraction fails; a body that is not the canonical encoding of the decoded value under its CRC is never returned.", "quantifier": "every body and corruption", "why_tests_cant": "unbounded", "anchors": ["brec/src/traits/read/mod.rs: ReadPayloadFrom", "brec/src/traits/props/mod.rs: PayloadCrc"]}
{"id": "C15", "title": "Packet round trip", "statement": "A packet written with write_all and read with ReadFrom returns the same blocks in the same order and the same payload and consumes exactly 29 + header.size bytes.", "quantifier": "every packet with 0..=255 blocks and optional payload, any suffix", "why_tests_cant": "unbounded packets", "anchors": ["brec/src/packet/write.rs", "brec/src/packet/read.rs"]}
{"id": "C16", "title": "All packet reading paths agree", "statement": "ReadFrom, TryReadFrom, TryReadFromBuffered, Packet::filtered and PacketBufReader return the same packet for the same complete packet bytes.", "quantifier": "every packet with 0..=255 blocks, any suffix", "why_tests_cant": "five independent decoders over an unbounded domain", "anchors": ["brec/src/packet/read.rs", "brec/src/packet/mod.rs", "brec/src/packet/reader.rs"]}
{"id": "C17", "title": "Block count limit is uniform", "statement": "Every reading path accepts packets of up to 255 blocks and rejects longer ones.", "quantifier": "every block count, every reading path", "why_tests_cant": "limits need to hold for every count and path", "anchors": ["brec/src/packet/read.rs", "brec/src/packet/mod.rs: filtered", "brec/src/packet/reader.rs", "brec/src/lib.rs: MAX_BLOCKS_COUNT"]}
{"id": "C18", "title": "TryReadFrom on an incomplete packet leaves the source unchanged", "statement": "On every proper prefix of a serialized packet, TryReadFrom and TryReadFromBuffered return NotEnoughData and leave the source position unchanged (as documented), so that the caller may retry after more data arrived.", "quantifier": "every packet, every cut point, every position", "why_tests_cant": "every cut point", "anchors": ["brec/src/packet/read.rs", "site/docs/parts/packets.md"]}
{"id": "C19", "title": "Packet write forms agree and headers are honest", "statement": "write_all, write to an unlimited sink and the concatenation of slices() produce the same bytes; the header's size field is the number of bytes after the 29 byte header and blocks_len the number of block bytes.", "quantifier": "every packet", "why_tests_cant": "unbounded", "anchors": ["brec/src/packet/write.rs", "brec/src/packet/header/mod.rs: new"]}
{"id": "C20", "title": "Partial writes are reported honestly", "statement": "Packet::write to a sink that accepts an arbitrary amount per call returns exactly the number of bytes the sink took, and those bytes are a prefix of the full serialization.", "quantifier": "every packet, every schedule of partial writes", "why_tests_cant": "schedules are unbounded", "anchors": ["brec/src/packet/write.rs: write", "brec/src/traits/write/mod.rs"]}
{"id": "C21", "title": "Vectored write delivers everything exactly once", "statement": "write_vectored_all returning Ok means the sink received exactly the concatenation of the slices, in order, once, for any schedule of partial vectored writes; if the sink stalls it returns WriteZero and what was delivered is a prefix.", "quantifier": "every slice list, every schedule", "why_tests_cant": "schedules are unbounded", "anchors": ["brec/src/traits/write/slices.rs"]}
{"id": "C22", "title": "PacketBufReader recovers a pure packet stream under any chunking", "statement": "Reading a stream that consists of serialized packets yields exactly those packets in order, then NoData, with no error and nothing reported as ignored, however the source splits the bytes into reads.", "quantifier": "every list of packets of at most 255 blocks (the limit is C17), every chunking of the byte stream", "why_tests_cant": "chunkings are exponential in stream length", "anchors": ["brec/src/packet/reader.rs: PacketBufReaderDef::read"]}
{"id": "C23", "title": "PacketBufReader separates packets from litter", "statement": "In a mixed stream whose foreign bytes do not form the packet signature, every packet is returned in order and the Ignored callback receives exactly the foreign bytes, in order, each once.", "quantifier": "every interleaving of packets and litter, every chunking", "why_tests_cant": "unbounded", "anchors": ["brec/src/packet/reader.rs", "site/docs/tools/buffer.md"]}
{"id": "C24", "title": "PacketBufReader filtering only removes rejected packets", "statement": "With any rules, the stream of results over a packet stream is the packet sequence with Found for packets all rules accept and Skipped for the others; a skipped packet never affects its neighbours.", "quantifier": "every rule set (arbitrary predicates), list of packets of at most 255 blocks (the limit is C17), chunking", "why_tests_cant": "arbitrary predicates", "anchors": ["brec/src/packet/reader.rs", "brec/src/packet/rules.rs"]}
{"id": "C25", "title": "PacketBufReader terminates on every finite source", "statement": "On any finite source repeated read() calls eventually return NoData (or the documented loop ends).", "quantifier": "every byte string, every chunking", "why_tests_cant": "livelocks show only on specific inputs and chunk boundaries", "anchors": ["brec/src/packet/reader.rs"]}
{"id": "C26", "title": "PacketBufReader never panics on foreign input", "statement": "read() on arbitrary bytes returns a status or an error, never panics.", "quantifier": "every byte string, every chunking", "why_tests_cant": "all inputs", "anchors": ["brec/src/packet/reader.rs"]}
{"id": "C27", "title": "Rule set discipline", "statement": "At most one rule of each kind is ever active; adding a duplicate fails and changes nothing; removing a kind removes exactly that kind and allows adding it again.", "quantifier": "every sequence of add_rule/remove_rule", "why_tests_cant": "unbounded histories", "anchors": ["brec/src/packet/rules.rs"]}
{"id": "C28", "title": "Packet::filtered decides by the rules and never touches neighbours", "statement": "filtered returns Accepted exactly for packets all three filters accept, Denied otherwise, and in both cases leaves the source exactly at the end of the packet.", "quantifier": "every rule set, packet and suffix", "why_tests_cant": "arbitrary predicates", "anchors": ["brec/src/packet/mod.rs: filtered"]}
{"id": "C29", "title": "Storage is an append-only indexed log", "statement": "After any sequence of inserts, count() is the number of inserts, nth(i) is the i-th inserted packet for i < count and None afterwards, and iter() yields all packets in insertion order.", "quantifier": "every insert history (any number of slots), every packet", "why_tests_cant": "slot boundary behaviour at every multiple of 500 and any packet sizes", "anchors": ["brec/src/storage/writer/mod.rs", "brec/src/storage/reader/mod.rs", "brec/src/storage/reader/iters.rs", "brec/src/storage/locator.rs", "brec/src/storage/slot/mod.rs"]}
{"id": "C30", "title": "Reopening preserves the storage", "statement": "Closing and reopening the storage at any point of a history of inserts changes nothing: earlier packets stay and later inserts append.", "quantifier": "every interleaving of inserts and reopens", "why_tests_cant": "unbounded histories", "anchors": ["brec/src/storage/writer/mod.rs: load, insert", "brec/src/storage/locator.rs: setup"]}
{"id": "C31", "title": "Insert never overwrites stored packets", "statement": "An insert changes no byte of any stored packet; only the slot table in use and the end of the file change.", "quantifier": "every history", "why_tests_cant": "unbounded", "anchors": ["brec/src/storage/writer/mod.rs: insert"]}
{"id": "C32", "title": "Ranges, seek and filtered iteration agree with the log", "statement": "range(from,len) yields packets from..from+len of the log, seek(n) iterates the log from n, filtered() yields exactly the accepted packets in order, range_filtered(from,len) the first len accepted packets at or after from.", "quantifier": "every history, rule set, from, len", "why_tests_cant": "unbounded", "anchors": ["brec/src/storage/reader/mod.rs", "brec/src/storage/reader/iters.rs"]}
{"id": "C33", "title": "Slot table round trip and corruption detection", "statement": "A slot table written and read back is identical; changing up to four consecutive bytes of its signature/capacity/lengths/CRC makes opening fail with DamagedSlot (or reports missing data) and never yields different lengths.", "quantifier": "every slot table, every corruption", "why_tests_cant": "unbounded", "anchors": ["brec/src/storage/slot/*"]}
{"id": "C34", "title": "Truncated slot table is reported, not crashed on", "statement": "Slot::try_read on a source cut inside the slot returns NotEnoughData(missing) and restores the position.", "quantifier": "every slot, cut point", "why_tests_cant": "every cut point", "anchors": ["brec/src/storage/slot/read.rs"]}
{"id": "C35", "title": "Crash during insert loses at most the packet being inserted", "statement": "If the process dies at any point of an insert (any prefix of its file writes applied), reopening succeeds and all previously inserted packets are readable.", "quantifier": "every history, every crash point including torn writes", "why_tests_cant": "all crash points", "anchors": ["brec/src/storage/writer/mod.rs: insert, load"]}
{"id": "C36", "title": "Failed insert leaves the storage usable", "statement": "If an insert returns an I/O error, the writer stays consistent with the file: a later successful insert is readable at the next index.", "quantifier": "every history and failure point", "why_tests_cant": "all failure points", "anchors": ["brec/src/storage/writer/mod.rs: insert"]}
{"id": "C37", "title": "Reader::reload observes all new packets", "statement": "After other packets were appended through a writer, reload() makes count/nth/iter reflect all of them and returns the number of newly visible packets.", "quantifier": "every split of a history into loaded part and appended part", "why_tests_cant": "slot boundary cases", "anchors": ["brec/src/storage/reader/mod.rs: reload"]}
{"id": "C38", "title": "Packets can be recovered from a storage file by scanning", "statement": "Running PacketBufReader over the storage file, ignoring slot metadata, returns all stored packets in order.", "quantifier": "every history, every chunking", "why_tests_cant": "unbounded", "anchors": ["site/docs/tools/storage.md", "brec/src/packet/reader.rs", "brec/src/storage/*"]}
{"id": "C39", "title": "BufferedReader is a faithful view of the inner reader", "statement": "For every sequence of refill/fill_buf/consume/read calls the bytes obtained are exactly the inner stream, and consumed() is their number.", "quantifier": "every call sequence and chunking", "why_tests_cant": "histories", "anchors": ["brec/src/traits/read/reader.rs"]}
{"id": "C40", "title": "Sensor never loses file growth", "statement": "Whenever the file is larger than the length reported processed and a notification arrives, a wake is pending in the channel or being handled, for every interleaving of notify callbacks and processed() calls; at most one wake is outstanding at a time.", "quantifier": "every interleaving", "why_tests_cant": "interleavings", "anchors": ["brec/src/storage/observer/sensor/mod.rs"]}
{"id": "C41", "title": "Locked storage is exclusive and honours its timeout", "statement": "Two FileStorage instances for the same path never hold the lock together; without a timeout a locked file fails immediately, with a timeout the error is reported no earlier than the timeout, and the lock is obtained if released in time.", "quantifier": "every schedule of lock attempts/releases and clock readings", "why_tests_cant": "schedules", "anchors": ["brec/src/storage/writer/locker.rs"]}
{"id": "C42", "title": "Payload hooks run around encode/decode", "statement": "before_encode is invoked before a payload is written and after_decode after it is read.", "quantifier": "every payload written or read", "why_tests_cant": "must hold on every path", "anchors": ["brec/src/payload/mod.rs: PayloadHooks", "brec/src/traits/write/mod.rs", "brec/src/traits/read/mod.rs"]}
{"id": "C43", "title": "Bool fields decode the same on every path", "statement": "The stream reader and the slice reader accept the same byte strings for a block and return the same value.", "quantifier": "every schema, every byte string (also not produced by the writer)", "why_tests_cant": "all inputs", "anchors": ["brec_macros/src/tokenized/block/from_bytes/ty", "brec_macros/src/tokenized/block/read_exact/field"]}
{"id": "C44", "title": "skip_sig reading", "statement": "Reading a block with skip_sig = true from the bytes after the signature returns the same value as reading with the signature.", "quantifier": "every schema and value, both stream and slice readers", "why_tests_cant": "unbounded", "anchors": ["brec_macros/src/codegen/read/block.rs"]}
{"id": "C45", "title": "CRC of a custom width payload does not break packets", "statement": "A packet whose payload uses a CRC of any legal width (4..128 bytes) round-trips.", "quantifier": "every legal CRC width", "why_tests_cant": "widths x payloads", "anchors": ["brec_macros/src/collector/payloads/props.rs", "brec/src/payload/header/mod.rs: ssize", "brec/src/packet/header/mod.rs: payload_size"]}
{"id": "C46", "title": "A damaged block is never read as another block type", "statement": "If at most four consecutive bytes of a written CRC-protected block are changed, the Block enum's readers fail or return the original block, never a block of another variant.", "quantifier": "every set of schemas with distinct signatures, every value, every corruption of up to 4 consecutive bytes, signature included", "why_tests_cant": "ranges over all schema sets, values and corruption positions; a test would have to hit the one corruption that maps one signature to another", "anchors": ["brec_macros/src/codegen/props/block.rs: Crc", "brec_macros/src/codegen/read/block.rs: ReadBlockFromSlice", "brec_macros/src/collector/blocks/read.rs"]}
{"id": "C47", "title": "A damaged String payload is never returned as another string", "statement": "If at most four consecutive bytes of a written String payload body are changed, extracting it fails or returns the original string.", "quantifier": "every string, every corruption position and content of up to 4 consecutive bytes", "why_tests_cant": "the accepted corruptions are CRC collisions of the text after U+FFFD replacement; random tests do not hit them", "anchors": ["brec/src/payload/defaults/string.rs: PayloadDecode", "brec/src/traits/read/mod.rs: ReadPayloadFrom::read"]}
{"id": "C48", "title": "Damage anywhere in a written payload is detected", "statement": "If at most four consecutive bytes of a written payload (its header included) are changed, reading header and payload fails or returns the original payload.", "quantifier": "every payload value with canonical encoding, every corruption position and content", "why_tests_cant": "needs a body whose truncation has the same CRC: found by proof, not by sampling", "anchors": ["brec/src/payload/header/mod.rs: PayloadHeader::as_vec", "brec/src/traits/read/mod.rs: ReadPayloadFrom::read"]}
{"id": "C49", "title": "Packet readers never panic on arbitrary bytes", "statement": "ReadFrom, TryReadFrom, TryReadFromBuffered and Packet::filtered return a value or an error on arbitrary bytes and never panic, whatever block and payload types are declared and whatever the rules say.", "quantifier": "every byte string, every set of block and payload types, every rule set", "why_tests_cant": "A panic depends on the exact combination of announced sizes, lengths and offsets in hostile input; fuzzing samples only a few of 2^64 header sizes with a valid CRC.", "anchors": ["brec/src/packet/read.rs: read, try_read", "brec/src/packet/mod.rs: PacketDef::filtered", "brec_macros/src/codegen/read/block.rs"]}
{"id": "C50", "title": "PacketBufReader loses nothing to failing reads", "statement": "When a read of the underlying source fails (WouldBlock, Interrupted, timeout) and the caller calls read() again, the packets are the same as without the failure.", "quantifier": "every packet list, every source mixing successful and failing reads", "why_tests_cant": "failures can strike between any two bytes and in any internal state", "anchors": ["brec/src/packet/reader.rs: PacketBufReaderDef::read, resolve_header_ready, resolve_header_refill"]}
{"id": "C51", "title": "The checksum is the standard CRC-32", "statement": "The checksum in blocks, payload headers, packet headers and slots is CRC-32 as zlib and PNG define it: the inverted remainder of the inverted, zero-extended bit-reflected message divided by 0x04C11DB7, so any other implementation of CRC-32 can verify brec data.", "quantifier": "all byte strings of any length", "why_tests_cant": "A test compares a handful of messages with known values; a wrong table entry or a length-dependent fold shows only on some messages.", "anchors": ["brec_macros/src/codegen/props/block.rs: CrcU32", "brec/src/traits/props/mod.rs: PayloadCrc::crc", "brec/src/packet/header/mod.rs: CrcU32", "brec/src/storage/slot/mod.rs: CrcU32"]}
{"id": "C52", "title": "A packet on the wire has the documented layout", "statement": "write_all of a packet of a generated protocol emits exactly: 29 bytes of header (signature, size, blocks length, payload flag, CRC-32 of these), the blocks in order (signature, little-endian fields, CRC-32 of the fields), then, if there is a payload, its header (signature length, signature, CRC length, CRC, body length) and its encoded body. Size is the sum of what follows the header and blocks length the sum of the blocks.", "quantifier": "all lists of declared block types with distinct signatures, all field values, all payload types with consistent codecs, any number of blocks", "why_tests_cant": "Tests write and read with the same code, so a layout error in both directions cancels out; no test compares with bytes computed from the specification for arbitrary declarations.", "anchors": ["brec/src/packet/write.rs", "brec/src/packet/mod.rs", "brec_macros/src/codegen/write/*", "brec/src/payload/header/mod.rs", "site/docs/specification.md"]}
{"id": "C53", "title": "A storage file has the documented layout", "statement": "After any sequence of inserts, over any number of writer sessions, the file is exactly a sequence of slots: each is a table (signature, capacity, one length per place, zero for free places, CRC-32 of capacity and lengths) followed by its packets; every slot but the last is full and no byte belongs to anything else.", "quantifier": "all packet sequences, all capacities > 0, all interleavings of inserts and reopens", "why_tests_cant": "Tests read the file back with the same library; gaps, stale tables or wrong order that the reader tolerates stay unnoticed.", "anchors": ["brec/src/storage/writer/mod.rs: WriterDef::insert", "brec/src/storage/slot/mod.rs", "brec/src/storage/locator.rs"]}
{"id": "C54", "title": "Every block type has its own signature", "statement": "The signature of a block is computed from its name, its module path and its fields (docs: unique signature, path taken into account), so two different block declarations of a crate never share one; data written as one type is never read as another, and changing a field changes the signature.", "quantifier": "all pairs of block declarations: any identifiers, paths, field lists and field types", "why_tests_cant": "A test compares the signatures of a few chosen declarations; it cannot show that no two declarations collide, nor which edits are guaranteed to change the signature.", "anchors": ["brec_macros/src/entities/block/mod.rs: Block::sig", "brec_macros/src/entities/ty/mod.rs: Display for Ty", "brec_macros/src/entities/payload/mod.rs: Payload::sig", "brec_macros/src/parsing/block/mod.rs", "site/docs/specification.md", "site/docs/getting_started.md"]}
{"id": "C55", "title": "Every declaration becomes a variant", "statement": "Every #[block] (#[payload]) declared in a crate becomes exactly one variant of the generated Block (Payload) enum, variant names are distinct, and two builds of the same crate read the same bytes the same way although the variants come out of a hash map in any order.", "quantifier": "all lists of declarations in any order of expansion, all orders of the hash map, all input bytes", "why_tests_cant": "The order of the hash map changes from build to build and collisions of names depend on the module layout of the user's crate; a test fixes both.", "anchors": ["brec_macros/src/collector/mod.rs: Collector::add_block, add_payload, write", "brec_macros/src/entities/block/attr/mod.rs: fullname", "brec_macros/src/entities/payload/attr/mod.rs: fullname"]}
{"id": "C56", "title": "Attributes of #[block] are honoured or rejected", "statement": "Each item in #[block(...)] has its documented effect - path = a::b or a bare path names the module, no_crc switches the checksum off - or the macro reports an error; none is ignored.", "quantifier": "all lists of attribute items", "why_tests_cant": "Tests cover well-formed attributes; silently ignored ones show no error to test for.", "anchors": ["brec_macros/src/parsing/block/attr/mod.rs: Parse for BlockAttrs", "brec_macros/src/entities/block/attr/mod.rs", "site/docs/parts/blocks.md"]}
{"id": "C57", "title": "Opening any file ends in Ok or an error", "statement": "ReaderDef::open and WriterDef::open on any file whatever - foreign, truncated, damaged or hostile - return Ok or Err: no panic and no endless loop, in debug and release builds; afterwards nth returns Ok or Err.", "quantifier": "all byte sequences as file content, both overflow-check modes", "why_tests_cant": "The inputs are all files; the failing ones need sizes near 2^61 or lengths near 2^64 with a matching CRC.", "anchors": ["brec/src/storage/reader/mod.rs: ReaderDef::new, nth", "brec/src/storage/writer/mod.rs: WriterDef::new", "brec/src/storage/slot/read.rs: TryReadFrom for Slot"]}
{"id": "C58", "title": "Damage to packets stays with these packets", "statement": "If the bytes of some stored packets are overwritten by anything, the storage opens as before, count() is unchanged, and every other packet is still found, by nth and by iterating.", "quantifier": "all storages, all sets of damaged packets, any replacement bytes", "why_tests_cant": "Any subset of packets and any replacement bytes; which bytes lead the iterator astray cannot be enumerated.", "anchors": ["brec/src/storage/reader/mod.rs: nth", "brec/src/storage/reader/iters.rs: ReaderIterator::next"]}
{"id": "C59", "title": "A damaged slot table is reported on opening", "statement": "If up to four consecutive bytes of any slot table of a storage are changed, opening it fails with DamagedSlot; it never opens with other packets than were stored.", "quantifier": "all storages, all slots, all damages of at most four consecutive bytes of the table", "why_tests_cant": "All positions and values of damage in all tables of all storages; a test tries a few.", "anchors": ["brec/src/storage/reader/mod.rs: ReaderDef::new", "brec/src/storage/slot/read.rs", "brec/src/storage/slot/mod.rs: CrcU32 for Slot"]}
{"id": "C60", "title": "A reader following a live writer never sees half a packet", "statement": "While another process inserts a packet, a reader that calls reload at any moment gets Ok and afterwards shows either the packets before or those and the new one, by count, nth and iter.", "quantifier": "all storages, all packets, every moment of the insert, any number of reloads", "why_tests_cant": "The interleaving of byte-wise file growth with reload, nth and iter has unboundedly many schedules; a test observes a few it cannot control.", "anchors": ["brec/src/storage/reader/mod.rs: ReaderDef::reload, nth, iter", "brec/src/storage/reader/iters.rs: ReaderIterator::next", "brec/src/storage/writer/mod.rs: WriterDef::insert"]}
{"id": "C61", "title": "no_crc switches the CRC off", "statement": "A block or payload declared with no_crc is written with a zero CRC field, and when it is read the CRC field is not looked at: data from a peer that computes the CRC is accepted.", "quantifier": "all block layouts, field values, payload types, bodies, CRC fields and all readers", "why_tests_cant": "The attribute changes generated code on both the write and the read side; a roundtrip test sees zeros on both sides and passes whether the field is skipped or compared with zero.", "anchors": ["brec_macros/src/codegen/props/block.rs: Crc", "brec_macros/src/codegen/props/payload.rs: PayloadCrc", "brec_macros/src/codegen/read/block.rs: ReadFrom, ReadBlockFromSlice, TryReadFrom", "brec_macros/src/lib.rs: documentation of no_crc"]}
{"id": "C62", "title": "A payload that decodes what it encodes can be read back", "statement": "Writing a payload whose decoder inverts its encoder up to the user's notion of equality, and reading the bytes, gives an equal value; also if the encoding of equal values differs (HashMap, HashSet).", "quantifier": "all payload types, encoders, decoders, values and readers", "why_tests_cant": "Whether the encoding of a decoded value repeats the bytes read depends on hidden state such as hash seeds; a test passes or fails by luck.", "anchors": ["brec/src/traits/read/mod.rs: ReadPayloadFrom", "brec/src/traits/props/mod.rs: PayloadCrc", "brec_macros/src/codegen/props/payload.rs: PayloadCrc", "brec_macros/src/lib.rs: documentation of payload CRC"]}
{"id": "C63", "title": "A damaged packet does not cost the packets behind it", "statement": "In a stream of packets where the bytes behind some packet headers are replaced by arbitrary bytes of the same length, PacketBufReader::read reports one result per damaged packet and returns every intact packet, then NoData.", "quantifier": "all packet streams, all damaged packets, all damages that keep the headers, all cuttings into reads, all rules", "why_tests_cant": "Damage position, damage content and buffer boundaries combine without bound; whether the reader moves on depends on which error path is taken and on whether the packet lies whole in one buffer.", "anchors": ["brec/src/packet/reader.rs: PacketBufReaderDef::read, drop_and_consume"]}
{"id": "C64", "title": "PacketBufReader keeps a bounded number of bytes", "statement": "After any number of read calls on any source the reader keeps (besides the BufReader's own buffer) at most the size announced by the largest packet header in the data, and at most 57 bytes in data without packet headers.", "quantifier": "all sources, all reads, all failures of the source, all rules, any number of calls", "why_tests_cant": "A leak would show only for particular sequences of partial headers, partial bodies, errors and litter; the set of sequences is infinite.", "anchors": ["brec/src/packet/reader.rs: PacketBufReaderDef::read, resolve_header_ready, resolve_header_refill"]}
{"id": "C65", "title": "The attributes of #[payload] decide who implements what", "statement": "For each combination of the attributes bincode, no_crc, no_auto_crc, hooks, no_default_sig and path, the macro implements a definite set of traits and the user implements the rest; the documented lists (six traits without bincode, none with bincode, PayloadCrc under no_auto_crc) are what a crate needs to compile, no_crc switches the checksum off, and an unknown word is an error.", "quantifier": "all lists of attribute items in any order and number, all lists of traits implemented by hand, all values for the checksum", "why_tests_cant": "Macro tests compile a few attribute combinations; they cannot show that for every combination exactly one list of hand-written traits works, and an ignored attribute gives no error to test for.", "anchors": ["brec_macros/src/parsing/payload/attr/mod.rs: Parse for PayloadAttrs", "brec_macros/src/codegen/base/payload.rs", "brec_macros/src/codegen/props/payload.rs", "brec_macros/src/codegen/read/payload.rs", "brec_macros/src/codegen/write/payload.rs", "brec_macros/src/lib.rs: payload", "site/docs/parts/payloads.md"]}
{"id": "C66", "title": "generate! makes a payload enum that compiles", "statement": "For any declared payloads with distinct names and any parameters, generate! makes an enum Payload with the declared variants and the two built-in ones (none of the two with no_default_payload), deriving what all payloads derive and what payloads_derive asks for; anything else between the parentheses is an error.", "quantifier": "all lists of declarations with any derives, all parameter lists, any spelling of the derive list", "why_tests_cant": "Which derives are shared and which names clash depends on the user's crate; the repository's own tests fix one set of payloads.", "anchors": ["brec_macros/src/generate/config.rs", "brec_macros/src/generate/parser.rs: Parse for Config", "brec_macros/src/entities/derives/mod.rs: Derives::common", "brec_macros/src/collector/payloads/enums.rs: gen", "brec_macros/src/collector/mod.rs: Collector::write", "brec_macros/src/lib.rs: generate"]}
{"id": "C67", "title": "Looping over a storage ends", "statement": "On a reader of a storage, a loop over iter(), seek(), filtered(), range() or range_filtered() reaches None after a bounded number of items (at most one per byte, per requested packet, per place of a slot), and each single call ends however many packets it skips. It does so without a panic, whatever has become of the file.", "quantifier": "all slot tables a reader can hold, all file contents (also damaged or changed since opening), all rules, starting points and lengths", "why_tests_cant": "The lengths come from the file and the buffer is consumed by readers that can fail at any byte; tests only iterate over files written by the crate.", "anchors": ["brec/src/storage/reader/iters.rs: PacketsLocatorIterator, ReaderIterator, ReaderFilteredIterator, ReaderRangeIterator, ReaderRangeFilteredIterator", "brec/src/storage/reader/mod.rs: load, iter, seek, filtered, range, range_filtered"]}
{"id": "C68", "title": "Whatever was read can be passed on", "statement": "A packet returned by ReadFrom, TryReadFrom, TryReadFromBuffered or PacketBufReader, from whatever bytes (damaged, padded, hostile), can be written again; what is written is in the documented layout and reads back as the same packet; and the packets a PacketBufReader finds in any stream can be inserted in a new storage, which then has exactly them, in order. What filtered accepts can be written and is accepted by filtered again.", "quantifier": "all protocols whose payload codecs give back what they decoded, all byte inputs below 1 GiB (for streams: any length and schedule of chunks and errors, no header announcing 1 GiB), all rules", "why_tests_cant": "A reader can accept many encodings of a value the writer never makes (other flag bytes, padding, lossy text, bool bytes); round trip tests start from values made by the writer.", "anchors": ["brec/src/packet/read.rs: ReadFrom, TryReadFrom, TryReadFromBuffered for PacketDef", "brec/src/packet/mod.rs: filtered", "brec/src/packet/reader.rs: PacketBufReaderDef::read", "brec/src/packet/write.rs", "brec/src/storage/writer/mod.rs: insert"]}
{"id": "C69", "title": "Passing a packet on reproduces its bytes", "statement": "A packet that is read and written again gives, byte for byte, what it was read from.", "quantifier": "all protocols, all packets, all byte inputs (the claim is false in full; what is proved is that it holds whenever the packet was not padded, its flag byte is 0 or 1 and no field or payload type has several encodings of a value, and that each of these conditions is needed)", "why_tests_cant": "Round trip tests start from a value and end with the value; what happens to bytes the writer would not have made (padding, other flag bytes, text that is not UTF-8, bool bytes) is a statement about all inputs.", "anchors": ["brec/src/packet/read.rs: ReadFrom for PacketDef", "brec/src/packet/header/read.rs: ReadFrom for PacketHeader", "brec/src/packet/write.rs", "brec/src/payload/defaults/string.rs"]}
{"id": "C70", "title": "All readers accept the same language", "statement": "ReadFrom, TryReadFrom, TryReadFromBuffered, filtered and PacketBufReader take the same bytes for the same packets and stop at the same byte.", "quantifier": "all protocols with distinct 4-byte signatures, all byte inputs, all packets (for each reader the exact set of inputs it accepts is proved; the claim itself is false, and what agreement there is is proved)", "why_tests_cant": "Agreement of five parsers is a statement about all byte strings; a test shows them agreeing on a sample, typically one made by the writer. The differences allow a packet to be seen by one reader and hidden from another.", "anchors": ["brec/src/packet/read.rs: ReadFrom, TryReadFrom, TryReadFromBuffered for PacketDef", "brec/src/packet/mod.rs: filtered", "brec/src/packet/reader.rs: PacketBufReaderDef::read", "brec_macros/src/codegen/read/block.rs"]}
{"id": "C71", "title": "Rules do not change what is reached", "statement": "Rules added to or removed from a PacketBufReader, also between calls and in view of what was read, only decide between Found and Skipped: every other result, the state of the reader, the bytes taken from the source and the bytes given to the Ignored callback are as without rules.", "quantifier": "all protocols, all rules, all strategies of changing rules, all byte streams and ways of cutting them into reads (false in full: where reading without rules fails, rules may turn the error into Skipped and so reach packets that are not reached without; proved whenever reading without rules meets no error, and for all streams of packets)", "why_tests_cant": "Rules are user code; that whatever they return does not disturb framing is a statement about all functions, all streams and all positions of the cuts.", "anchors": ["brec/src/packet/reader.rs: PacketBufReaderDef::read, add_rule, remove_rule", "brec/src/packet/rules.rs: RulesDef, RuleDef", "brec/src/packet/mod.rs: filtered"]}
{"id": "C72", "title": "A packet is delivered as soon as its last byte has arrived", "statement": "When a source has given some whole packets and nothing or a part of the next one, PacketBufReader::read returns all of the whole packets without reading from the source again; and if the source ends inside a packet, every whole packet is returned and after that only NoData or NotEnoughData.", "quantifier": "all protocols, packets, rules, ways of cutting the bytes into reads, and continuations of the source (false for a packet without blocks and payload at the very end, whose last byte comes with a read that began inside its header: it is returned only after one more read of the source, and lost if that read fails; proved in all other cases)", "why_tests_cant": "On a live connection reading once more means waiting for the peer; that no cut makes the reader wait with a complete packet in hand is a statement about all streams and all cuts.", "anchors": ["brec/src/packet/reader.rs: PacketBufReaderDef::read"]}
{"id": "C73", "title": "What was sent before the connection broke is received, and nothing else", "statement": "Packets are sent one after the other, each with write_all or write_vectored_all, until the first error. PacketBufReader on the other end returns exactly the packets whose sending returned Ok, in order, each Found or Skipped as the rules say; no error, nothing else, however often it is called.", "quantifier": "all protocols, packets, mixes of the two ways of sending, connections (portions taken, interruptions, a failure at any byte), portions given to the reader, and rules (a sender that goes on over the same connection after an error is not covered: there a packet whose sending returned Ok may never be received)", "why_tests_cant": "Joins the writers, partial writes and the resynchronising reader: the break may be at any byte of any packet and the cuts on both sides are independent.", "anchors": ["brec/src/packet/mod.rs: WriteTo", "brec/src/traits/write/mod.rs: WriteTo::write_all, write_vectored_all", "brec/src/traits/write/slices.rs: IoSlices::write_vectored_all", "brec/src/packet/reader.rs: PacketBufReaderDef::read"]}
{"id": "C74", "title": "The signature alone decides as which payload bytes are read", "statement": "Each reader of the generated Payload enum (extract_from, try_extract_from, try_extract_from_buffered) does with an input what the reader of the one type whose signature the header carries does with it: the same value or error, the same bytes taken. If no type has the signature the result is SignatureDismatch and nothing is taken (the seekable reader first asks for the missing bytes of the payload). The order of the variants, which comes from a HashMap, does not matter.", "quantifier": "all lists of payload types (user types with arbitrary behaviour), headers, inputs, positions and cuts; for the order: types with distinct signatures", "why_tests_cant": "The enum tries the variants one after another and the order changes from build to build; tests exercise one order with one or two types.", "anchors": ["brec_macros/src/collector/payloads/read.rs: extract_from, try_extract_from, try_extract_from_buffered", "brec/src/traits/read/mod.rs: ReadPayloadFrom, TryReadPayloadFrom, TryReadPayloadFromBuffered"]}
{"id": "C75", "title": "Programs with different protocol versions can talk to each other", "statement": "A program reads packets written by another program that has other block or payload types in its protocol (types both have are declared the same). A packet all of whose types the reading program has is read by every reader as the same packet, whatever other types either program has. A packet with a block or payload of a type it does not have gives SignatureDismatch, and costs no other packet: with Packet::read (ReadFrom) the whole packet has been taken and the next one can be read, and PacketBufReader gives one result for each packet up to the end of the stream.", "quantifier": "all protocols of both programs, all packets, streams of them and cuttings into reads (false for PacketBufReader and unknown payloads: a packet with an unknown payload that lies whole in the buffer of the source is never passed, every call returns SignatureDismatch and nothing behind it is reached; proved for ReadFrom, and for PacketBufReader for known types and unknown blocks)", "why_tests_cant": "Both sides of a test are built from one protocol; compatibility quantifies over all pairs of protocols, and being stuck shows only if more packets follow in the same read.", "anchors": ["brec/src/packet/read.rs: ReadFrom, TryReadFrom, TryReadFromBuffered for PacketDef", "brec/src/packet/reader.rs: PacketBufReader::read", "brec_macros/src/collector/blocks/read.rs: gen", "brec_macros/src/collector/payloads/read.rs: gen"]}
{"id": "C76", "title": "The names of a block's fields do not matter", "statement": "If the readers generated for a block compile, they read back what was written and do not depend on how the fields are named: ReadBlockFrom::read and ReadBlockFromSlice::read_from_slice, whose local variables have the names of the fields, behave like readers that know the fields by position only.", "quantifier": "all block declarations, values and inputs (false for a field named crc: it compiles if the field is a [u8; 4], and the field is then read as the stored checksum, so the block cannot be read back, or comes back changed without an error if it is declared with no_crc; proved for all other names, with an exact account of which names compile)", "why_tests_cant": "The generated code mixes the user's names with its own; which names collide, and whether silently, depends on scoping in the generated text, which no test of a few structs shows.", "anchors": ["brec_macros/src/codegen/read/block.rs: Read::gen, ReadFromSlice::gen", "brec_macros/src/tokenized/block/read_exact/field/mod.rs: ReadExact", "brec_macros/src/tokenized/block/from_bytes/field/mod.rs: FromBytes", "brec_macros/src/entities/field/mod.rs: Field::is_reserved_name"]}
{"id": "C77", "title": "A storage file can be read by a program with another protocol version", "statement": "A program opens a storage file written by another program that has other block or payload types in its protocol (types both have are declared the same), by any history of inserts and reopens. The file opens and count() is the number of packets in it. There is one result for each packet: the same packet if the reading program has all its types, SignatureDismatch if it has not. nth(i) gives the result of packet i, iter() yields the results of all packets in order and then ends, range() a part of them. The filtered readers leave out what the rules deny, report packets of unknown types as SignatureDismatch (unless the rules deny their blocks or their payload bytes before they would have to be read), and lose no other packet.", "quantifier": "all protocols of both programs, all packets, histories, slot capacities, rules, indices and ranges", "why_tests_cant": "A file written and read by one build of the protocol cannot show what other builds make of it; that no packet hides another quantifies over all mixtures of known and unknown packets, across slot boundaries.", "anchors": ["brec/src/storage/reader/mod.rs: ReaderDef::{new, count, nth, nth_filtered, iter, range}", "brec/src/storage/reader/iters.rs: ReaderIterator, ReaderFilteredIterator, ReaderRangeIterator, ReaderRangeFilteredIterator", "brec/src/packet/read.rs: ReadFrom, TryReadFrom for PacketDef", "brec/src/packet/mod.rs: PacketDef::filtered", "brec_macros/src/collector/blocks/read.rs: gen", "brec_macros/src/collector/payloads/read.rs: gen"]}
{"id": "C78", "title": "Giving the module path of a block or payload is enough for generate!", "statement": "If a block or payload type cannot be imported where generate!() is called, giving its module path with #[block(path = a::b)] or #[payload(path = a::b)] is enough for the generated code to find it, and types of the same name in different modules can be part of one protocol. What is generated for a block, Block::X and BlockReferred::X, refers to the type so named and to the view of that same type.", "quantifier": "all declarations and paths, all scopes at the place of generate!() (any assignment of items to paths), with and without the feature locked_storage", "why_tests_cant": "Tests of the macro compile a handful of fixed crates; which scopes make the generated names resolve, and to what, is a statement about every arrangement of modules and imports.", "anchors": ["brec_macros/src/collector/blocks/enums.rs: gen, gen_referred", "brec_macros/src/collector/blocks/read.rs: read_from_slice", "brec_macros/src/collector/blocks/props.rs: referred_into", "brec_macros/src/collector/payloads/enums.rs: gen", "brec_macros/src/collector/packet.rs: gen", "brec_macros/src/entities/block/mod.rs: Block::{fullpath, referred_name}", "site/docs/parts/blocks.md", "site/docs/getting_started.md"]}
{"id": "C79", "title": "Bytes determine what was written", "statement": "In a protocol with distinct block signatures, different packets never have the same bytes, and the bytes of a packet are never the beginning of the bytes of another one followed by anything. So a stream of packets determines the packets, and a stream that begins with another stream begins with its packets. A storage file determines the packets inserted and their order, and depends on nothing else: not on how they were spread over sessions.", "quantifier": "all protocols, packets (with any number of blocks), streams, histories of inserts and reopens, slot capacities", "why_tests_cant": "Two particular packets with different bytes say nothing about all the others; injectivity is a statement about all pairs.", "anchors": ["brec/src/packet/write.rs: WriteMutTo for PacketDef", "brec/src/packet/header/write.rs: WriteTo for PacketHeader", "brec/src/storage/writer/mod.rs: WriterDef::insert", "brec_macros/src/codegen/write/block.rs: Write for Block"]}
{"id": "C80", "title": "Programs with different protocol versions can share a storage file", "statement": "Programs built with different lists of block and payload types can append to the same storage file, one after the other, in any order. Each of them can open the file and insert its packets, whatever the others have written. Any program that opens the file afterwards counts all packets and gets one result for each, by nth(), iter(), range() and their filtered versions: the packet as it was written if it has the types of the packet, SignatureDismatch if it does not.", "quantifier": "all protocols of all writing programs and of the reading program, all sequences of sessions, all packets, rules, indices and ranges, all slot capacities", "why_tests_cant": "Tests use one protocol per file; a rolling upgrade interleaves sessions of any number of versions.", "anchors": ["brec/src/storage/writer/mod.rs: WriterDef::{new, insert}", "brec/src/storage/reader/mod.rs: ReaderDef::{new, nth, nth_filtered, iter, range}", "brec/src/storage/reader/iters.rs", "brec/src/storage/slot/mod.rs"]}
{"id": "C81", "title": "A zero-copy view cannot be used after its bytes are gone", "statement": "Whatever safe code does with the zero-copy view of a block (BlockReferred, or the view of a single block), it never reads memory that was freed or changed: a view that can still be used shows exactly the block that was read, and converting it into a block gives that block. This is true while the buffer is borrowed, and for all blocks without blobs, but not in general: read_from_slice<'b>(buf: &'b [u8], _) -> Self where Self: 'b lets the caller choose a lifetime longer than that of the buffer, 'static for instance, and the transmute in the generated code grants it.", "quantifier": "all block declarations, all values, all buffers, all sequences of memory states, all lifetimes", "why_tests_cant": "Undefined behaviour need not show in a test, and no test can quantify over lifetimes a caller may choose.", "anchors": ["brec_macros/src/codegen/read/block.rs: read_from_slice", "brec_macros/src/codegen/base/block.rs: referred struct", "brec/src/traits/read/mod.rs: ReadBlockFromSlice", "brec_macros/src/collector/blocks/read.rs", "brec_macros/src/collector/packet.rs: aliases with 'a"]}
{"id": "C82", "title": "The unsafe copies of the generated block writers stay in bounds", "statement": "For every block declaration and every value, each raw copy (copy_nonoverlapping) in the generated write and write_all reads no more bytes than its source has and writes only inside the buffer; together with the checked copies they write each byte of the buffer exactly once, and the buffer handed to the writer is the documented form of the block. Nothing here depends on code supplied by the user.", "quantifier": "all block declarations, all values", "why_tests_cant": "A copy out of bounds is undefined behaviour and need not show in a test; the sizes depend on the declaration, which tests can only sample.", "anchors": ["brec_macros/src/codegen/write/block.rs: Write::gen", "brec_macros/src/entities/ty/mod.rs: Ty::size", "brec_macros/src/entities/block/mod.rs: Block::size"]}
{"id": "C83", "title": "Writers that use the lock never disturb each other", "statement": "Any number of programs, with any protocols, open any number of storage files with FileWriter (FileStorageOptions), insert packets and close them again, all at the same time. Whatever the order in which their steps happen, down to the single writes of an insert, at every moment each file into which nobody is just inserting holds exactly the packets whose insert() returned Ok, once each and in the order of the returns, and every program can open and read it. Nobody's open or insert fails because of what another program does. (Not covered: a process that dies during an insert, C35, a failing disk, C36, and two paths to one file, C41.) Without the lock this is false: two Writers on one file overwrite each other's packets and both report success.", "quantifier": "all numbers of programs, all protocols, all files, all interleavings of all steps, all slot capacities", "why_tests_cant": "The number of interleavings is unbounded, and a lost update shows in few of them.", "anchors": ["brec/src/storage/writer/locker.rs: FileWriterDef::{new, insert}", "brec/src/storage/writer/mod.rs: WriterDef::{new, insert}", "brec/src/storage/locator.rs", "brec/src/storage/slot/mod.rs"]}
{"id": "C84", "title": "reload never takes away packets the reader had", "statement": "A reader has been opened on a storage and reloaded any number of times, and shows n packets. Then any packets are appended and reload() is called. Whatever it returns, count() is at least n afterwards and nth(i) still returns packet i for every i < n. (False when the slot in use has been filled since and a further slot has been begun: reload puts the table of the last slot in the place of the one that was in use and reports success, so a reader that showed 499 packets can show one.)", "quantifier": "all histories, all packets, all slot capacities, both overflow modes", "why_tests_cant": "The packets disappear only if a slot boundary is crossed between two reloads; tests reload after every few packets in one slot.", "anchors": ["brec/src/storage/reader/mod.rs: ReaderDef::{reload, count, nth}"]}
{"id": "C85", "title": "The functions exported to JavaScript invert each other", "statement": "In the WebAssembly example, decode_x(encode_x(v)) = v for every block, payload and packet v, also when further bytes follow; and a proper beginning of what encode_x returned is an error. (Holds for payloads, for packets of up to 256 blocks, and for the block type generate! lists first. False of every other block type: decode_block returns an error or, if the bytes carried by the block look like it, a block of another type.)", "quantifier": "all protocols, values, trailing bytes and cut positions", "why_tests_cant": "A test checks one value per type; which block type works depends on the order of the declarations, and the wrong block appears only for particular contents.", "anchors": ["examples/wasmjs/src/lib.rs: encode_block, decode_block, encode_payload, decode_payload, encode_packet, decode_packet", "brec_macros/src/collector/blocks/read.rs: read_block_from"]}
{"id": "C86", "title": "Blocks declared in one module do not get in each other's way", "statement": "If several #[block] structs with different names each compile on their own, they compile together in one module. (False: the signature constant is the name in capital letters, so Foo and FOo clash; the view of Foo is FooReferred, which may be the name of another block; and a field of any block of the module may be named like such a constant. It holds for names that differ in more than capital letters, do not end in Referred, and field names with a small letter.)", "quantifier": "all lists of declarations", "why_tests_cant": "Tests declare a fixed set of blocks with conventional names.", "anchors": ["brec_macros/src/entities/block/mod.rs: Block::{const_sig_name, referred_name}", "brec_macros/src/codegen/base/block.rs", "brec_macros/src/tokenized/block/read_exact/field/mod.rs"]}
{"id": "C87", "title": "A reader that keeps reloading catches up", "statement": "A storage reader that calls reload() again and again, while nothing is inserted, shows all packets in the end. (False: after a reload that ran over a slot boundary, the reader may look for the next slot in the middle of a packet, and then every reload reports a damaged slot and changes nothing, also after further inserts. It holds for packets of one size, where three calls are enough.)", "quantifier": "all histories of inserts, reopens and reloads, all packets, debug and release", "why_tests_cant": "Needs more than one slot (500 packets), packets of different sizes, and a reload at just the wrong moment; the tests reload after fixed numbers of packets.", "anchors": ["brec/src/storage/reader/mod.rs: ReaderDef::reload", "brec/src/storage/slot/mod.rs: Slot::{get_free_slot_index, size, width}"]}
{"id": "C88", "title": "A reader reloaded while packets are being inserted is right once the insert is done", "statement": "A storage reader that calls reload() after every insert, and any number of times in the middle of inserts (where it may fail), shows all packets after each insert: count() is their number, nth() and iter() give them. (False without overflow checks: a reload that fails with an I/O error keeps the table it has read but does not move the locator, and the reload after the insert returns Ok(0) early without moving it either; after two such inserts at a slot boundary count() is 1000 for 501 packets. nth() and iter() are right, and it holds with overflow checks.)", "quantifier": "all histories of inserts, reopens and reloads at any byte of any insert, all packets below 4 GiB, debug and release", "why_tests_cant": "Needs a reload between the write of a table and the write of a packet, twice, at a slot boundary; tests reload after inserts only.", "anchors": ["brec/src/storage/reader/mod.rs: ReaderDef::{reload, count, nth, iter}", "brec/src/storage/writer/mod.rs: WriterDef::insert", "brec/src/storage/locator.rs: FreeSlotLocator::{setup, current}"]}
{"id": "C89", "title": "Readers ask for no more memory than there are bytes", "statement": "Whatever the bytes, no reader of packets, payloads or slots asks the allocator for a buffer longer than the input it was given. (False: 29 bytes make ReadFrom ask for any size below 2^63, 43 bytes make every reader but TryReadFrom ask for any payload size below 2^32, and one changed byte in a packet that was written correctly is enough for almost 4 GiB; PacketBufReader reserves u32::MAX bytes when it is created. It holds of TryReadFrom for packets and slots, of iterators over storages, and of packets as they were written.)", "quantifier": "all byte strings, cursors, chunkings of a buffered reader, rules; all packets; all files of a storage", "why_tests_cant": "Tests read what was written, where announced sizes are right; a wrong size shows only as memory use or an abort.", "anchors": ["brec/src/packet/read.rs:27: ReadFrom for PacketDef", "brec/src/packet/mod.rs:129: PacketDef::filtered", "brec/src/traits/read/mod.rs:75: ExtractPayloadFrom::extract", "brec/src/packet/reader.rs:260: PacketBufReader::new", "brec/src/storage/slot/read.rs:24,79: ReadFrom and TryReadFrom for Slot", "brec/src/storage/reader/iters.rs: ReaderIterator, ReaderRangeIterator"]}
{"id": "C90", "title": "A reader that joins a stream in the middle of a packet gets the packets behind it", "statement": "A PacketBufReader connected in the middle of a packet skips the rest of it (giving it to an Ignored rule) and delivers all packets behind it and nothing else, however the bytes are cut into reads. (False: if a payload carries the bytes of a packet, the reader delivers this packet, which was never sent; if it carries a bare packet signature, or ends in half of one, read() returns the same error forever. It holds if the rest neither contains the signature nor ends in its first half.)", "quantifier": "all protocols, packets, places to join at, following packets, rules, cuttings into reads of at least 29 bytes", "why_tests_cant": "Needs payloads that contain signatures or packets, and readers that start late; tests start at the beginning of a stream.", "anchors": ["brec/src/packet/reader.rs: PacketBufReader::read, read_header", "brec/src/packet/header/mod.rs: PacketHeader::get_pos", "brec/src/packet/header/read.rs"]}
{"id": "C91", "title": "generate! brings the code for this crate into this crate", "statement": "Whatever targets of a package are compiled at the same time, the code that generate! brings into each of them is the code for exactly the blocks and payloads declared in it. (False: all targets of a package share OUT_DIR/brec.rs, so a target can include what another has written so far, nothing or a half; and declarations behind generate! are not taken in. It holds if no other compiler writes the file between generate! and its include!, and generate! comes last.)", "quantifier": "all declarations, all numbers of compilers, all interleavings of their steps, all ways in which writes are split", "why_tests_cant": "Needs two compilers in the same few milliseconds; the tests of the project are crates with one target each.", "anchors": ["brec_macros/src/collector/mod.rs: Collector::write, add_block, add_payload", "brec_macros/src/generate/mod.rs: generate", "brec/src/build/mod.rs: build_setup"]}
{"id": "C92", "title": "A program that waits for as many bytes as try_read asks for gets every packet", "statement": "A program that calls try_read of a packet on what has arrived, waits for n more bytes when told NotEnoughData(n), and calls again, gets every packet sent, and never waits for a byte that belongs to the next packet. (False: TryReadFrom leaves the source behind the header when the rest is missing, and TryReadFromBuffered fails with an I/O error inside a block. It holds for TryReadFrom if the program itself goes back to where it was, and takes Error::NotEnoughData for a shortage, too.)", "quantifier": "all protocols, lists of packets, cuts at the end, and numbers of bytes that arrive at a time", "why_tests_cant": "Every way in which the bytes can arrive; a wrong count only shows if the sender stops exactly at the end of a packet.", "anchors": ["brec/src/packet/read.rs: TryReadFrom::try_read, TryReadFromBuffered::try_read", "brec_macros/src/codegen/read/block.rs: TryReadFrom, TryReadFromBuffered", "brec/src/payload/header/read.rs"]}
{"id": "C93", "title": "Rules added or removed between reads decide about exactly the packets read afterwards", "statement": "While a PacketBufReader reads a stream of packets, calls of read, add_rule and remove_rule may come in any order. Each packet is Found or Skipped by exactly the rules in force at the moment of the read that reports it; add_rule fails exactly if a rule of the kind is in force, and changes nothing then; removing an absent rule does nothing. Every packet is reported once and in order, then NoData; no call panics or fails, and nothing is reported as ignored.", "quantifier": "all protocols, lists of packets, ways to cut the stream into reads, and sequences of calls with any rules", "why_tests_cant": "The calls can interleave with a header read half or a packet buffered in part; no list of tests covers all interleavings.", "anchors": ["brec/src/packet/reader.rs: PacketBufReaderDef::add_rule, remove_rule, read", "brec/src/packet/rules.rs: RulesDef"]}
{"id": "C94", "title": "A storage can be copied through its own interface", "statement": "A storage written by any sequence of inserts and reopenings is read with iter(), filtered(), range() or range_filtered(), and each packet is inserted into another storage, itself with any history. No call fails, and the target file is byte for byte the file that inserting all these packets into one empty storage makes; into an empty target, iter() gives a copy equal byte for byte to the source.", "quantifier": "all protocols, histories of both storages, rules, ranges and capacities", "why_tests_cant": "Whether bytes survive decoding, re-encoding and re-grouping into slots depends on every block and payload type and on where both storages stand in their slots.", "anchors": ["brec/src/storage/reader/mod.rs: ReaderDef::iter, filtered, range, range_filtered", "brec/src/storage/writer/mod.rs: WriterDef::insert"]}
{"id": "C95", "title": "A storage file appended to another is a storage with the packets of both", "statement": "Appending the bytes of one storage file to another (cat a b > c) gives a file that opens; count, nth and iter show the packets of the first and then of the second.", "quantifier": "all protocols, histories of both storages and capacities", "why_tests_cant": "Depends on the relation of the number of packets to the slot capacity and on where the free place of the first file lies.", "anchors": ["brec/src/storage/reader/mod.rs: ReaderDef::new, load, count, nth, iter", "brec/src/storage/locator.rs: FreeSlotLocator", "brec/src/storage/writer/mod.rs: WriterDef::new, insert"]}
{"id": "C96", "title": "Building a program again does not change what it reads", "statement": "The order of the variants of the generated enums comes from a HashMap and changes from build to build. Whatever the order, every reader (read, try_read, filtered, PacketBufReader with any rules, nth, nth_filtered and the iterators of a storage) gives, on every input, the same packet or the same error, takes the same bytes and is left in the same state; and a packet is written to the same bytes.", "quantifier": "all sets of blocks and payloads, all orders of them, all inputs, rules and states", "why_tests_cant": "The order is fixed within one build, so no test of that build sees another; the number of orders is factorial and the inputs are unbounded.", "anchors": ["brec_macros/src/collector/mod.rs: Collector", "brec_macros/src/collector/blocks/read.rs: try_read_from, try_read_from_buffered, read_from_slice", "brec_macros/src/collector/payloads/read.rs: extract_from, try_extract_from, try_extract_from_buffered", "brec/src/packet/read.rs: PacketDef", "brec/src/packet/reader.rs: PacketBufReaderDef::read", "brec/src/storage/reader/mod.rs: ReaderDef::nth"]}
{"id": "C97", "title": "What a rule refuses is stepped over, whatever its payload is", "statement": "A packet that is refused by FilterByBlocks, or by FilterByPayload on the raw bytes of its payload, is never decoded further: its payload may be damaged, of a type the program does not know, or no payload at all. PacketBufReader reports it as skipped and then every packet behind it as if it had been whole, without an error and whatever the reads; Packet::filtered denies it and leaves the source behind it; filtered() and nth_filtered of a storage give exactly the accepted packets among the others.", "quantifier": "all blocks, all payload bytes, all rules, all streams of such packets among whole ones, all ways to cut a stream into reads, all storages and all replacements of payloads", "why_tests_cant": "Needs every possible payload, valid or not, at every place in a stream and for every cutting of it; tests use payloads that decode.", "anchors": ["brec/src/packet/reader.rs: PacketBufReaderDef::read", "brec/src/packet/mod.rs: PacketDef::filtered", "brec/src/packet/rules.rs: RulesDef::filter_by_blocks, RulesDef::filter_by_payload", "brec/src/storage/reader/mod.rs: ReaderDef::nth_filtered", "brec/src/storage/reader/iters.rs: ReaderFilteredIterator"]}
{"id": "C98", "title": "Following a storage shows every packet once", "statement": "A program keeps the number of packets it has shown; from time to time it calls reload and reads on from that number, with seek and a loop over the iterator or with range. Every round shows exactly the packets inserted since the last one, in their order, and reload returns how many these are.", "quantifier": "all storages, all histories of inserts and reopens before the reader is opened, all sequences of batches of inserts and reloads, both ways of reading on", "why_tests_cant": "The outcome depends on where in the slots every batch begins and ends and on the CRCs of the slot tables; the test of the repository follows one sequence of checkpoints, chosen so that no batch runs from one slot into another.", "anchors": ["brec/src/storage/reader/mod.rs: ReaderDef::reload, ReaderDef::seek, ReaderDef::range, ReaderDef::count", "brec/src/storage/reader/iters.rs: ReaderIterator, ReaderRangeIterator, PacketsLocatorIterator", "tests/observer/src/test.rs: storage_write_read_filter"]}
{"id": "C99", "title": "Text payloads: every body is read as one text", "statement": "Whatever the bytes of the body of a String payload are, they are read as exactly one sequence of Unicode characters: well-formed UTF-8 as the characters it encodes, and every longest piece that can only be the beginning of a character, or a byte that cannot begin one, as U+FFFD. That text is returned if its own bytes have the checksum in the header, otherwise CrcDismatch; nothing else can happen, on all three reading paths. Every text comes back as it was written; a text read without U+FFFD is the text whose bytes are there; damage to up to four adjacent bytes that is not noticed shows as U+FFFD.", "quantifier": "all byte strings as bodies, all payload headers with the signature of String, all sequences of Unicode scalar values of less than 4 GiB, everything that follows the body, plain, seekable and buffered sources", "why_tests_cant": "There are 2^(8n) bodies of n bytes and the boundary cases of UTF-8 (overlong forms, surrogates, values above 10FFFF, sequences cut short and followed by others) combine freely; a test tries a few.", "anchors": ["brec/src/payload/defaults/string.rs: PayloadDecode for String, PayloadEncode for String, PayloadEncodeReferred for String", "brec/src/traits/read/mod.rs: ReadPayloadFrom::read, TryReadPayloadFrom::try_read, TryReadPayloadFromBuffered::try_read", "brec/src/traits/props/mod.rs: PayloadCrc::crc"]}
{"id": "C100", "title": "A stream that goes on behind a torn packet", "statement": "A writer breaks off inside a packet, and then whole packets follow on the same stream (a log opened for appending after a crash, a sender that ignores an error). A loop of PacketBufReader::read receives all packets before and behind; the torn one costs itself, and at most one result.", "quantifier": "all packets before and behind, every length of the part that was written, all rules, all ways of cutting the bytes into reads of at least 29 bytes", "why_tests_cant": "The outcome depends on how many bytes were written, how far the missing bytes reach into the packets behind, what is left of those, and how the source buffers; tests feed whole packets.", "anchors": ["brec/src/packet/reader.rs: PacketBufReaderDef::read, read_header, drop_and_consume", "brec/src/packet/header/mod.rs: PacketHeader::get_pos, PacketHeader::is_not_enought", "brec/src/packet/header/read.rs: ReadFrom/TryReadFromBuffered for PacketHeader"]}
{"id": "C101", "title": "A storage sent over a connection arrives as the same file", "statement": "One program loops over a storage and sends what comes, another receives packets with PacketBufReader and inserts them into a storage. If the sending loop ends without an error, so does the receiving loop, and the file on the other side is byte for byte the one that the packets it had and the sent ones (but for those its rules refuse) make: the same file, if it was empty and there are no rules. If the connection breaks, it is the file of the packets whose sending returned Ok, and never holds half a packet.", "quantifier": "all storages with any history of inserts and reopens on both sides, both ways to send, all portions in which the connection takes and gives bytes, all places where it breaks, all rules of the receiver", "why_tests_cant": "It composes the reader of slots, both packet writers, the stream reader and the writer of slots; the portions of the connection and the histories of the two storages are unbounded, and the limits of the four differ (a packet with 256 blocks can be stored but not received).", "anchors": ["brec/src/storage/reader/mod.rs: iter", "brec/src/storage/writer/mod.rs: insert", "brec/src/packet/reader.rs: PacketBufReaderDef::read", "brec/src/packet/write.rs: WriteMutTo for PacketDef", "brec/src/traits/write/slices.rs: IoSlices::write_vectored_all"]}
{"id": "C102", "title": "A storage file that was cut short still gives what is left of it", "statement": "Of a storage file of which only a first part is left (a copy that was broken off, a disk that was full), the packets that lie wholly in this part can still be read, and the storage can be written again.", "quantifier": "all storages with any history of inserts and reopens, all places where the file may be cut, builds with and without overflow checks", "why_tests_cant": "A test cuts a file of a few packets at a few places; whether the file opens depends on where in a slot the cut falls, down to the byte, and on the build, and what is seen then on everything before it.", "anchors": ["brec/src/storage/reader/mod.rs: new, load, reload, count, nth, iter, filtered, nth_filtered, range, range_filtered", "brec/src/storage/writer/mod.rs: new, insert", "brec/src/storage/slot/mod.rs: TryReadFrom for Slot"]}
{"id": "C103", "title": "Packets are received whatever follows them", "statement": "Packets that stand one behind the other at the beginning of a stream are returned by PacketBufReader, all of them, in order and each as the rules say, whatever bytes follow them (damage, a foreign protocol, a torn packet, a false signature). After the last of them the reader returns, and reports as ignored, exactly what a new reader on the rest would.", "quantifier": "all lists of packets, all bytes behind them, all ways the source cuts the stream, all rules; with litter between the packets too if the reads are long enough", "why_tests_cant": "The bytes that follow are arbitrary and share read buffers with the packets before them; that they never change what was returned before is a claim about every suffix and every place where the buffers end.", "anchors": ["brec/src/packet/reader.rs: PacketBufReaderDef::read, resolve_header_ready, resolve_header_refill, drop_and_consume"]}
{"id": "C104", "title": "What is left of a storage file can be put into a new one", "statement": "Of a storage file only a first part is left. A program scans it with PacketBufReader and inserts every packet it finds into a new storage. The new storage opens and shows exactly the packets that lie wholly in what was left (and pass the rules of the scan); if the packets that were lost are inserted again, the new file is the old one, byte for byte.", "quantifier": "all storages with any history of inserts and reopens, all places where the file may be cut, all ways the reads portion it, all rules, any number of calls behind the end", "why_tests_cant": "A test repairs a few small files; that no cut makes the scan lose, double or invent a packet, and that nothing of the old slot tables gets into the new file, is a claim about every history and every byte position.", "anchors": ["brec/src/packet/reader.rs: PacketBufReaderDef::read", "brec/src/storage/writer/mod.rs: new, insert", "brec/src/storage/reader/mod.rs: new, count, nth, iter, filtered", "brec/src/storage/slot/mod.rs: Slot"]}
{"id": "C105", "title": "Filters that remember are asked once about each packet, in order", "statement": "The filter callbacks of a PacketBufReader may have a state (a counter, a table of what was seen). Over a stream they are asked once about each packet, in the order of the packets: about the blocks, then about the body of the payload, then about the packet, and nothing more about a packet once one has said no. What the reader reports and what the callbacks remember at the end do not depend on how the source portions its bytes, and calls behind the end ask nothing.", "quantifier": "all sequences of packets, all callbacks with any state, all ways the reads portion the bytes, other bytes between the packets, any number of calls behind the end", "why_tests_cant": "A test uses one counter and a few portions; that no portioning makes the reader ask twice about a packet that came in pieces, or ask in another order, is a claim about every portioning and every callback.", "anchors": ["brec/src/packet/rules.rs: RuleFnDef::Dynamic, RulesDef::filter_by_blocks, filter_by_payload, filter", "brec/src/packet/reader.rs: PacketBufReaderDef::read"]}
{"id": "C106", "title": "Filters that remember, over a storage", "statement": "The filter callbacks of a storage reader may have a state. One pass of filtered() asks them once about each packet, in the order in which the packets were inserted, and yields the packets they take; the callbacks remember at the end what they remember after being asked about the packets in turn. range_filtered(from, len) asks about the packets from `from` on until len of them are taken, and about no packet behind these. So a counter is right after a pass, and a rule that takes every other packet yields every other packet.", "quantifier": "all histories of inserts and reopens, all callbacks with any state and any state at the start, all ranges", "why_tests_cant": "A test counts the calls over a few packets in one slot; that no packet at a border of slots is asked about twice or left out, and that the range stops asking in time, is a claim about every history and every callback.", "anchors": ["brec/src/storage/reader/iters.rs: ReaderFilteredIterator::next, ReaderRangeFilteredIterator::next", "brec/src/storage/reader/mod.rs: filtered, range_filtered, nth_filtered", "brec/src/packet/mod.rs: PacketDef::filtered", "brec/src/packet/rules.rs: RuleFnDef::Dynamic, RulesDef"]}
{"id": "C107", "title": "The order of all callbacks", "statement": "The Ignored callback may have a state, and share it with the filter callbacks. Reading a stream of packets with other bytes between them calls Ignored with the bytes in front of a packet, in one or more pieces, none empty, before the filters are asked about that packet, and with the bytes behind it after; so a log kept by the callbacks together is the stream, byte by byte and in its order. The record of ignored bytes in the other properties is what a callback that writes down its calls has at the end.", "quantifier": "all callbacks with any shared state, all streams of packets and other bytes without the signature between them, all cuts into reads of 29 bytes or more but the last, both build profiles", "why_tests_cant": "A test with a log looks at one stream in one or two portions; which bytes the reader holds back and reports later depends on where the reads end, and the order must hold for each of them.", "anchors": ["brec/src/packet/reader.rs: PacketBufReaderDef::read, resolve_header_refill", "brec/src/packet/rules.rs: IgnoredCallback, RulesDef::ignore"]}
{"id": "C108", "title": "Inserting into a damaged storage does no further harm", "statement": "Bytes of a stored file were changed. If a writer opens the file, packets inserted through it take no packet from the file whose bytes had not been touched: the old ones stay where they were, and the new ones can be read.", "quantifier": "all histories, all changes of bytes that keep the length, all later inserts and reopens, both build profiles", "why_tests_cant": "A test damages one file in one place; where the writer puts the next packet follows from the tables it read, and the damage can be anywhere in them.", "anchors": ["brec/src/storage/writer/mod.rs: WriterDef::new, load, insert", "brec/src/storage/locator.rs: FreeSlotLocator::setup, next", "brec/src/storage/slot/read.rs: Slot::try_read"]}
{"id": "C109", "title": "Damage inside packets does not disturb reloading", "statement": "A reader is open on a storage file, packets are appended, and bytes of packets, old or new, are changed. `reload` returns what it would have returned without the damage and leaves the same reader. Where `reload` would have found all new packets, it does so here, and each packet that was not damaged can be read.", "quantifier": "all histories, all packets appended, all changes of bytes inside packets that keep the length, readers just opened or reloaded calmly (in the sense of C37) any number of times, both build profiles", "why_tests_cant": "A test damages a few packets in one file; that no byte of any packet has an influence on the reloaded slots concerns all files and all damage.", "anchors": ["brec/src/storage/reader/mod.rs: ReaderDef::reload, nth, count", "brec/src/storage/slot/read.rs: TryReadFrom for Slot"]}
{"id": "C110", "title": "A damaged slot table is reported when reloading", "statement": "A reader is open on a storage file and packets are appended. If up to four consecutive bytes are changed in the table of the slot the reader stopped at, or of a slot behind it, `reload` reports a damaged slot.", "quantifier": "all histories, all packets appended, all such changes, readers just opened or reloaded calmly (in the sense of C37) any number of times, both build profiles", "why_tests_cant": "A test changes one byte of one table; which tables are looked at depends on how many packets there were before and how many came.", "anchors": ["brec/src/storage/reader/mod.rs: ReaderDef::reload", "brec/src/storage/slot/read.rs: TryReadFrom for Slot"]}
{"id": "C111", "title": "Reloading reports a file that has become shorter", "statement": "A reader has loaded all packets of a storage file. If the file is then cut short at any place, `reload` returns an error instead of saying that nothing has changed.", "quantifier": "all histories, all cuts, readers just opened or reloaded calmly (in the sense of C37) any number of times, both build profiles", "why_tests_cant": "A test truncates a file at one place; what reload does depends on where the cut lies relative to the slot the reader stopped at.", "anchors": ["brec/src/storage/reader/mod.rs: ReaderDef::reload, count", "brec/src/storage/slot/read.rs: TryReadFrom for Slot", "brec/src/storage/slot/header.rs: SlotHeader::try_read"]}
{"id": "C112", "title": "A reader of a file that was cut short gives the packets that are left, and no others", "statement": "A reader has loaded all packets of a storage file, and the file is then cut short at any place. nth(i) still returns packet i if all its bytes are left. If its end is missing, nth(i) returns NotEnoughData; if nothing of it is left, an I/O error (a panic in a debug build). It never returns another packet, and None only for indices out of range. A loop over iter() yields the packets of all slots in front of the one with the cut, in order, and then panics. A loop over range() gives for each index what nth gives for it.", "quantifier": "all histories, all cuts, all indices and ranges, readers just opened or reloaded calmly (in the sense of C37) any number of times, both build profiles", "why_tests_cant": "A test truncates a file at one place; here the cut can lie at each byte of each packet or table.", "anchors": ["brec/src/storage/reader/mod.rs: ReaderDef::nth", "brec/src/storage/reader/iters.rs: ReaderIterator::next, ReaderRangeIterator::next", "brec/src/packet/read.rs: TryReadFrom for PacketDef"]}
{"id": "C113", "title": "A reader reloaded while its file was shorter is right again once the file is back", "statement": "A reader has loaded all packets of a storage file. reload() is called any number of times while only a part of the file is there (it is being copied again, say), each time another part, and returns whatever it returns. Once the file is back, the reader shows all packets with count(), nth() and iter() without another reload; and if packets have been added calmly (in the sense of C37), the next reload() succeeds and the reader shows all of them.", "quantifier": "all histories, any number of reloads on any proper prefixes of the file, both build profiles, slot capacities of at least 2", "why_tests_cant": "A test truncates a file once; here the reader passes through any sequence of failed and successful reloads on prefixes of any length.", "anchors": ["brec/src/storage/reader/mod.rs: ReaderDef::reload, count, nth, iter", "brec/src/storage/slot/read.rs: TryReadFrom for Slot"]}
{"id": "C114", "title": "Inserting into a file that was cut short keeps what is left", "statement": "The file of an open storage writer is cut short at any place behind its back. The next insert succeeds, and a reader then opens the file, counts all packets including the lost ones, and finds those that were left whole and the new one. Asked for a packet of which nothing was left, it returns an error. So it is after any further inserts and reopenings.", "quantifier": "all histories, all cuts, all later histories, both build profiles", "why_tests_cant": "A test truncates a file at one place; the result depends on which tables are lost, and on whether the insert writes the lost table again.", "anchors": ["brec/src/storage/writer/mod.rs: WriterDef::insert", "brec/src/storage/locator.rs: FreeSlotLocator", "brec/src/storage/reader/mod.rs: ReaderDef::new, nth, count"]}
{"id": "C115", "title": "A reader follows a file that was cut short and written to again", "statement": "A storage reader has loaded all packets of a file whose writer is open. The file is cut short behind both; the cut leaves the slot tables other than the one the next insert writes again. The reader may be reloaded in between, on any part of the file and with any result. Then packets are inserted, which begin a new slot or fit into the one in use and change its CRC. The next reload succeeds; the reader counts all packets, finds those that were left whole and the new ones, and returns an error for a packet of which nothing was left. Before that reload it does the same for the packets it had, and knows nothing of the new ones.", "quantifier": "all histories, all readers, all cuts that leave those tables, all reloads in between, all later histories as described, both build profiles", "why_tests_cant": "A test truncates a file at one place; here the cut, the failed reloads before it is written to, and the way the packets fall into slots combine.", "anchors": ["brec/src/storage/reader/mod.rs: ReaderDef::reload, nth, count", "brec/src/storage/writer/mod.rs: WriterDef::insert", "brec/src/storage/locator.rs: FreeSlotLocator"]}
{"id": "C116", "title": "Filtered reading from a file that was cut short", "statement": "A storage reader has loaded all packets of a file, which is then cut short at any place. nth_filtered answers as before for a packet that is still whole (the packet if the rules accept it), returns an I/O error for any other packet that was there, and None behind the last; it does not panic. A loop over range_filtered gives the accepted whole packets and an error for each packet that is not whole, in their order, up to as many packets as were asked for, and ends. A loop over filtered() gives the accepted packets of the slots in front of the cut and panics at the slot with the cut.", "quantifier": "all histories, all readers, all rules, all cuts, all ranges, both build profiles", "why_tests_cant": "A test truncates a file at one place with one rule; here the cut may fall anywhere in a table, header or body, and denied packets may stand on either side of it.", "anchors": ["brec/src/storage/reader/mod.rs: ReaderDef::nth_filtered, range_filtered, filtered", "brec/src/storage/reader/iters.rs: ReaderRangeFilteredIterator, ReaderFilteredIterator", "brec/src/packet/mod.rs: PacketDef::filtered"]}
{"id": "C117", "title": "Following a storage whose file is at times not all there", "statement": "A program keeps the number of packets it has shown, calls reload now and then, and reads on from there with seek or with range. In some rounds only the beginning of the file is there (any number of bytes), and the program goes on whatever reload returns. It shows nothing in those rounds, and in each round with all of the file exactly the packets inserted since; none is shown twice and none is lost.", "quantifier": "all histories, all readers, all sequences of batches and interruptions, all lengths of the part that is there, both build profiles", "why_tests_cant": "A test interrupts one storage at one place and once; here interruptions of any length may come in any number and order between inserts and reopenings of the writer.", "anchors": ["brec/src/storage/reader/mod.rs: ReaderDef::reload, count, seek, range", "brec/src/storage/reader/iters.rs: ReaderIterator::seek, ReaderRangeIterator"]}
{"id": "C118", "title": "Following a storage with a filter", "statement": "A program keeps the number of packets it knows of, calls reload now and then, and reads on from there with range_filtered(known, count() - known). In each round with all of the file it is shown exactly those packets inserted since that the rules accept, however many are refused, and nothing in rounds with only a part of the file; reload returns the number of all packets inserted.", "quantifier": "all histories, all readers, all rules, all sequences of batches and interruptions, both build profiles", "why_tests_cant": "range_filtered counts accepted packets, not packets read; whether count() - known is enough, and not too much, depends on how many packets of a batch are refused and where.", "anchors": ["brec/src/storage/reader/mod.rs: ReaderDef::reload, count, range_filtered, nth_filtered", "brec/src/storage/reader/iters.rs: ReaderRangeFilteredIterator"]}
{"id": "C119", "title": "Following a storage without trusting the number that reload returns", "statement": "A program opens a storage, and then, after any batches of inserts, calls reload, ignores what it returns, and reads with range from the number of packets the reader knew before to the number it knows now. As long as the writer stays, between two calls, within the slot in which the packets known to the reader end (or that slot was full), all that the program has shown is at any time exactly the beginning of the log up to count(): no packet twice, none left out, none out of order, even if reload returns a wrong number or fails to notice packets because two slot tables have the same checksum. reload does not fail, and after any call that finds the slot full or its checksum changed everything is shown. With range_filtered in place of range the same holds of the accepted packets.", "quantifier": "all histories, all readers, all sequences of batches, both build profiles", "why_tests_cant": "Slots that are filled exactly, and tables with equal checksums, are cases a test meets only on purpose; and what is shown depends on the whole sequence of rounds.", "anchors": ["brec/src/storage/reader/mod.rs: ReaderDef::reload, count, range", "brec/src/storage/reader/iters.rs: ReaderRangeIterator"]}
{"id": "C120", "title": "Following a storage by opening it anew", "statement": "A program opens the storage anew in each round, and reads with range or range_filtered from the number of packets there were to the number there are. In each round it is shown exactly the packets (with a filter: the accepted packets) inserted since the last one, whatever the batches are: also where reload would lose packets, get stuck, or count wrongly.", "quantifier": "all histories, all sequences of batches, all rules, both build profiles", "why_tests_cant": "The cases in which reload and opening differ depend on where batches begin and end within slots and on checksums of slot tables; a test covers a few.", "anchors": ["brec/src/storage/reader/mod.rs: ReaderDef::new, count, range, range_filtered", "brec/src/storage/reader/iters.rs: ReaderRangeIterator, ReaderRangeFilteredIterator"]}
{"id": "C121", "title": "Following a storage by opening whatever is there of it", "statement": "A program opens in each round the part of the storage file that is there (any number of its first bytes, such as from a copy under way, with packets it has shown and packets it has not), waits if opening fails, and otherwise reads with range from the number of packets it has shown to count(). All that it has shown is at any time exactly the beginning of the log: no packet twice, none left out, none out of order, and no error. In a round with all of the file opening succeeds and everything is shown. With range_filtered the same holds of the packets that the rules accept.", "quantifier": "all histories, all sequences of batches, all lengths of the part that is there in each round, all rules, both build profiles", "why_tests_cant": "A copy may stop at any byte of a slot table, header or packet in each of any number of rounds; a test stops it at a few.", "anchors": ["brec/src/storage/reader/mod.rs: ReaderDef::new, count, range, nth", "brec/src/storage/reader/iters.rs: ReaderRangeIterator", "brec/src/storage/slot/mod.rs: Slot"]}

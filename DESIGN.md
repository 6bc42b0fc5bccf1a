# Formal model of `brec`: design

The source under study is the pinned checkout in `/repo` (Rust; nothing is built or run here).
The model is written in Lean 4 (`lean/Verif/**`), by reading the Rust text function by function.
Every definition of the model cites the file and lines it was read from.

## Trusted base

* Lean 4.33.0's kernel, and the Mathlib modules imported (one at a time, only tactics/lemmas).
* Axioms: at most `propext`, `Classical.choice`, `Quot.sound` (checked with `#print axioms`); none added.
* The reading of the Rust source: the theorems are about the model.
* The following behaviour of libraries is *assumed*, written as definitions in the model:
  * `std::io`: `read_exact`, `Seek`, `BufRead`, `Cursor`, `Write::{write,write_all,write_vectored}` on
    (a) an in-memory/file byte store, (b) a source delivering arbitrary non-empty chunks, (c) a sink taking an
    arbitrary prefix per call. After a *failed* `read_exact` std leaves the position unspecified; the
    model moves it to the end (what `Cursor` and the default implementation do).
  * `crc32fast`: the reflected CRC-32 (0xEDB88320), modelled bit by bit, not assumed abstractly.
  * `fs4`/flock: an advisory exclusive lock is held by at most one handle.
  * `crossbeam::bounded(1)` and atomics: sequentially consistent atomic steps.
  * user supplied code (`LinkedToU8` conversions, payload encode/decode, filter callbacks) is a parameter;
    what is assumed about it is a visible hypothesis.

## What is modelled

| Model module | Rust source |
|---|---|
| `Utf8` | `String::from_utf8_lossy` of std |
| `TextLemmas` | text as Lean's characters, and that `Utf8` agrees with it |
| `Bytes`, `Crc32` | `to_le_bytes`/`from_le_bytes`, `crc32fast` |
| `Io` | `std::io` traits as used by the crate |
| `PacketHeader` | `brec/src/packet/header/*` |
| `ByteBlock`, `PayloadHeader` | `brec/src/traits/props/byte_block.rs`, `brec/src/payload/header/*` |
| `Block` | what `brec_macros` generates for a `#[block]` struct and for the `Block` enum |
| `SlotRobust` | what `Slot::try_read` does on arbitrary bytes |
| `Macro`, `MacroLemmas` | declarations: `brec_macros/src/{entities,parsing,collector/mod.rs}` (names, attributes, signatures, the collector) |
| `Payload` | default payloads, payload read/write traits, generated `Payload` enum |
| `Packet` | `brec/src/packet/{mod,read,write}.rs` |
| `ReaderLemmas`, `ReaderRun`, `ReaderSane`, `ReaderSafe` | lemmas for C22–C26: streams, invariant of `read`, absence of the underflow, progress, panics |
| `NoPanic` | lemmas for C49, no new model |
| `Sink` | `std::io::Write` as a schedule of responses, `brec/src/traits/write/slices.rs` |
| `Rules`, `Reader` | `brec/src/packet/{rules,reader}.rs` |
| `Stateful` | `brec/src/packet/{rules,reader,mod}.rs` and `brec/src/storage/reader/*.rs` with filter callbacks that have a state |
| `Listening` | `brec/src/packet/{rules,reader}.rs` with an `Ignored` callback that shares the state of the filters |
| `Buffered` | `brec/src/traits/read/reader.rs` |
| `Slot`, `Storage` | `brec/src/storage/{slot,locator,writer,reader}` |
| `SlotLemmas`, `StorageLemmas`, `StorageWrite`, `StorageRead` | lemmas: slot codec, file of a log (`fileOf`), writer invariant (`Inv`), reader invariant (`View`, `Before`) |
| `StorageCrash` | lemmas: torn writes of an insert (C35, C36), no new model |
| `StorageReload` | lemmas: `reload` over the file of a log, no new model |
| `RuleSpec` | specification of what a set of rules says (C23, C24, C28, C32, C71), with lemmas that the model agrees |
| `Asks` | the sizes of the buffers that readers allocate with a size read from the bytes, in order (C89); follows the readers of `Packet`, `Reader`, `Slot`, `Storage`; allocations that grow with what was read are not listed |
| `Build` | compilers of several targets at work: the collector of each, the shared file of `generate!`, written piece by piece (C91); that cargo gives all targets of a package one `OUT_DIR` is taken from its documentation |
| `StorageFollow` | lemmas: `reload` while an insert is under way (C60), no new model |
| `Wasm` | the six functions `examples/wasmjs` exports to JavaScript, without the conversion to `JsValue` (C85) |
| `StorageSkip` | lemmas: `reload` past the end of the slot in use (C84), no new model |
| `MacroPayload` | `#[payload(…)]`: attributes, traits implemented by the macro, their bounds; `generate!(…)`: parameters, common derives, variants and arms of `enum Payload` |
| `Inversion` | lemmas: from what a reader returned back to the bytes it took (C68–C70), no new model |
| `Grammar` | lemmas, the converse of `Inversion`: what each reader does with bytes that stand for a packet (C69, C70), no new model |
| `Names` | `codegen/read/block.rs` and `tokenized/block/{read_exact,from_bytes}` once more, with the names of the local variables: scopes, what compiles, what the struct literal picks up (C76) |
| `Site` | `collector/blocks`, `collector/payloads`, `collector/packet.rs` once more: the paths the generated file mentions, looked up in an arbitrary scope, and what it needs them to be (C78) |
| `View` | `codegen/read/block.rs`, `codegen/base/block.rs`, `collector/blocks/{enums,props,read}.rs` once more: views as pointers into a memory that changes, and the lifetimes of `read_from_slice` (C81) |
| `Raw` | `codegen/write/block.rs` once more: checked copies and `unsafe` copies told apart, with undefined behaviour as an outcome of its own (C82) |
| `Writers` | `writer/locker.rs` and `writer/mod.rs` together: programs with writers of their own on shared files, each write of an insert in pieces, any interleaving (C83) |
| `ReaderFrames` | lemmas: `PacketBufReader` on frames, headers with arbitrary bodies (C63), no new model |
| `Sensor`, `Locker` | `brec/src/storage/observer/sensor`, `brec/src/storage/writer/locker.rs` |

Not modelled: tokenisation by `syn`, code generation as text (the *generated* functions are modelled,
for an arbitrary field list), visibility, bincode itself (a
payload with arbitrary encode/decode is a parameter), OS file system (files are byte arrays; crash
model: any prefix of the sequence of byte writes reaches the disk).

Conventions: bytes are `BitVec 8`; `u64`/`usize` are `Nat` with explicit range hypotheses, arithmetic
that can overflow or underflow in Rust is modelled as such (a panic with overflow checks, a wrap
without; a parameter `chk` covers both builds). A panic is an explicit result, never a default value.

## Per property plan

| Id | Model and proof |
|---|---|
| C01 | schema = list of field types, value = list of field values; read∘write by induction on the schema |
| C02 | slice reader as offset arithmetic; same induction; equality with the stream result |
| C03 | independent layout spec (concatenation of per-field encodings); slices grouping proved to flatten to it |
| C04 | CRC-32 burst theorem (≤32 bit bursts change the CRC, incl. bursts across data/CRC) applied to codec |
| C05 | *false* after the signature has been consumed (position stays +4): counterexample; `_partial` for what holds |
| C06 | dispatch as a fold over variants; any permutation of variants gives the same result |
| C07 | direct |
| C08 | round trip for each reader |
| C09 | case analysis over the five cut regions |
| C10 | round trip for the three readers |
| C11 | CRC burst theorem + fixed signature |
| C12 | *false* for a signature in the last 8 bytes: counterexample; `_partial` with the exact characterisation |
| C13 | parametric in a lawful payload; instances for `Vec<u8>` and `String` |
| C14 | CRC burst theorem; canonical encodings |
| C15–C19 | packet codec over an abstract lawful block/payload codec, instantiated by C01/C13 |
| C17, C18 | *false*: counterexamples (256 blocks; position after a short read); `_partial` |
| C20 | sink as an arbitrary oracle of accepted lengths; prefix invariant |
| C21 | loop over an arbitrary schedule; invariant "delivered = take written (flatten)" |
| C22, C24 | state machine of `PacketBufReader` with explicit state; invariant relating (state, buffer, remaining chunks) to the remaining logical stream |
| C23 | *false* (underflow after short reads in litter; header-only packet after litter): counterexamples; `_partial` for long reads, and for any reads that do not panic |
| C25, C26 | *false*: counterexamples (truncated trailing packet / bad header CRC loops; `blocks_len > size` panics); `_partial` |
| C27 | invariant over operation lists |
| C28 | evaluation of `Packet::filtered` against the rule semantics |
| C29–C31 | file as byte list; invariant file = encoding of log; refinement to a list of packets; slot capacity a variable |
| C32 | same; *false* for `seek` (offset of the next slot): counterexample with capacity 500, `_partial` for the last slot, and what is shown instead for any number of slots (`C32_seek_shifted_partial`) |
| C33 | CRC burst theorem on slots; *false* when the damage changes the capacity field (read as a shorter table): counterexample; `_partial` |
| C34 | *false* (subtraction underflow): counterexample; `_partial` |
| C35, C36, C37 | *false*: concrete counterexamples; `_partial` theorems for the crash points / histories that are safe |
| C38 | instance of C23 (slot tables are litter) under the hypothesis that they contain no signature |
| C39 | *false*: counterexample; `_partial` for the safe usage discipline |
| C40 | small-step transition system of threads over atomics and a bounded(1) channel; invariant |
| C41 | small-step lock model; loop over an arbitrary clock/lock-outcome sequence |
| C42 | *false* (hooks are never called): the model shows write/read independent of hooks; `_partial` |
| C43, C44, C45 | counterexamples and `_partial` |
| C46 | *false*: two variants with equal field layout; `_partial` when the signature bytes are intact (CRC burst theorem) |
| C47 | *false*: concrete string/CRC collision after U+FFFD replacement; `_partial` for damage that stays valid UTF-8 |
| C48 | *false*: the payload length is unprotected (concrete witness); `_partial` when the length field is intact |
| C49 | no-panic predicate closed under bind; block loop invariant `read ≤ len`; *false* for sizes ≥ 2^63 |
| C50 | *false* (state taken out before the fallible read): counterexample; `_partial` for failures at packet boundaries |
| C51 | `specCrc`: long division of polynomials over GF(2); the register holds the remainder of the prefix read so far |
| C52 | `IsWire`: the documented layout from `specHeader`, `specBlock`, `specPayloadHeader`; the packet theorems instantiated with the generated enums (`Props/Generated`) |
| C53 | `specFile`: the list of packets cut into slots; equality with the file of the writer invariant |
| C54 | `declText`: text of a declaration, unique decodability by cutting at separators; CRC burst theorem on texts; collision found by search and checked by evaluation |
| C55 | map as association list; induction over the declarations; any permutation of the values |
| C56 | `meanings`: documented meaning item by item; counterexample |
| C57 | `Visited`: the positions at which tables are sought; progress of at least 20 bytes per table; counterexamples by evaluation |
| C58 | `patches`: replacing bytes of packets; the slot tables depend on the lengths only; a packet with its header takes its own bytes from the buffer of its slot, a packet without it costs at most the rest of this buffer (`C58_iter_partial`, `C58_filtered_partial`); ranges go by index and keep every other packet (`C58_range`); `iter` evaluated on one damaged storage; `range_filtered()`: `upto`, the answers from the start up to as many packets as asked for (`C58_range_filtered`) |
| C59 | C33 for the table, `loadLoop_skip` for the slots before; damage of the capacity for all values that reach behind the end |
| C60 | `midFile`: the file after k bytes of an insert; `Midway.reload_view`: exact result of `reload` on it; `Polled`: any sequence of reloads. Each `reload`, `nth` and `iter` sees one snapshot of the file |
| C61 | `Props/Unchecked`; CRC field arbitrary, value arbitrary; `specFields`, `specCrc`, `zero4` are the spec; `bincodeTy … noCrc` is the generated payload impl |
| C62 | `Props/Unchecked`; encoder, decoder and size function arbitrary; `ReadsBack`: all readers |
| C63 | `Frames`: the run theorem for streams of headers with arbitrary bodies; `hit p d`: the packet `p` with body `d`; `Reported`: one result per packet, the right one for intact packets |
| C64 | `kept`: bytes in `buffered` and in `Refill`; `Announces N`: no header anywhere in the data announces more than `N`; sources with errors and ends in between |
| C65 | `byHand`: the traits left to the user, by the words given; `Accepted`: each trait once, all bounds met; 32 cases after reducing the lists to five switches |
| C66 | `Requests`: the derives in the string between commas and blanks; `Shared`: derived by all payloads; `EnumCode.Compiles`: five rules of rustc; `isPath` (the path parser of syn) arbitrary |
| C67 | `Loops`: the items up to `None` or a panic; any slots, any file; `Announced`: a valid packet header with this size somewhere in the file; `extent` of the slots against the length of the file |
| C68 | inversion of every reader (`Inversion`: which bytes were taken for which value), hence what is read is `Declared`; then C15, C52 and C29 apply |
| C69 | spec: `s = w ++ s'`, the bytes taken are the bytes written; from C70's description of what `ReadFrom` takes, with `Rigid` field types and `Canonical` payload types |
| C70 | spec: `Stands`, a grammar of packets stated without any reader; each reader accepts exactly the inputs that begin with a word of the grammar (and, for `ReadFrom` and `filtered`, filler up to the size announced) |
| C71 | spec: `Chosen` relates the result of a call with rules to the result of the same call without; `session` calls `read` with rules chosen in view of all earlier results |
| C72 | spec: the results are the same for every continuation of the source, and the continuation is untouched; results as in C24 |
| C73 | spec: `sendAll` counts the calls that returned `Ok`; the reader's news (results other than `NoData`, `NotEnoughData`, `NotFound`) are the verdicts of exactly those packets |
| C74 | spec: `look f`, what can be observed of a payload value whatever its variant; compared with the reader of the single type alone |
| C75 | spec: `Same` (the same blocks, payloads of the same type with the same value), `Knows`, `Strange`, `Foreign` (types compared by signature), `Each` (one result for each packet); sender and receiver have independent lists of types |
| C76 | spec: the readers by position (`BlockTy.read`, `readSlice`), and `hidden`, the block with the checksum in the place of the field `crc`; the readers with names have a scope, in which a later `let` hides an earlier one |
| C77 | spec: those of C75, `answer` (what `nth` should say, given the results), `Sifted` (what the filtered readers should give for one packet), `sift` (a filtered range: errors do not count); writer and reader of the file have independent lists of types |
| C78 | spec: `StandsFor`, what a path stands for at the place of `generate!`; the scope is an arbitrary function from paths to items, `C78_exact` reduces compiling to two lookups per block and one per payload |
| C79 | stated without any reader: equal bytes, equal packets; `Begins` is the prefix relation |
| C80 | C77 for a file to which programs with different protocols have appended in turn (`Session`, `runSessions`); each packet carries the types of its writer (`Entry`), and the reader's result for it is that of C77 |
| C81 | partial (false of the code). A signature is a relation between the lifetime of the view and that of the buffer; `Sound R` says that what can be seen of a view never changes while it can be used. True of the relation `Eq` (`C81_repaired`), false of the one in the code (`C81_not`), and `C81_exact` says of which relations it is true. Trusted: that `where Self: 'b` on `X<'a>` means `'a: 'b` and that nothing else limits the caller's choice of `'a` |
| C82 | a writer is a list of copies (`Copy`), run on a buffer; a raw copy out of bounds on either side is `ub`. Sizes are those computed from the declared types, sources have the length of the field. `Tiles` is the specification that each byte is written exactly once |
| C83 | transition system (`Writers.Step`) over programs and files; ghost log of confirmed inserts, ghost list of files in which a program died during an insert. Invariant `Order`: a lock has one holder, and carrying out what the holder has left to write makes the file that of the log plus its packet. The same system with the lock switched off loses packets (`C83_unlocked`). Trusted: the lock of the operating system as in C41, files have one path, `write` in order |
| C84 | `Beyond`: a further slot has been begun since the last reload; `Unlike`: no table written since has the CRC the slot in use had. `Further.reload`: the reader after `reload` is a `View` of the full slots before and the *last* slot. The sample chooses one of three last packets so that no CRC has to be computed |
| C85 | `Lands`: the first variant whose signature stands four times its own index into the input. `Whole`: a reader that succeeds on `s ++ t` succeeds the same on `s`, or `s` is too short; it gives the claims on cut input. |
| C86 | `Together`: conditions on the names of the declarations, pair by pair; `capital` and `isSmall` by tables of letters. |
| C87 | `again` (calls of `reload`, whatever they return), `Shows`; `resumeAt` in terms of the sizes of the packets' serialisations; `OneSize`. |
| C88 | `Polls` and `Following` (reloads at any byte of any insert, and after each), `Shows`. |
| C89 | lists of requested sizes compared with the length of what the reader was given; hostile bytes, one changed byte of a written packet, written packets, all files of a storage |
| C90 | `joined`: the bytes a reader gets that missed the first `k` bytes of a stream; `Receives`; the packet that is delivered wrongly or blocks the reader exists in every protocol |
| C91 | `blocksOf`, `payloadsOf`: what a crate declares, read off the steps of the compilers; `Undisturbed`; `includes` counts |
| C92 | `Serves`: a program that waits for `n` bytes and calls again, over any source; `Begun`: the beginning of a packet |
| C93 | `Force`: at most one rule of each kind, in terms of options instead of a list; `Tells`: what each call must return; `Overheard`: what the callback is told |
| C94 | `Copies`: the loop of a program from an iterator into a writer, as a relation; `FileOf`: the file these packets make in an empty storage |
| C95 | `FileOf` for the joined file; `places`: how many packets the slots of the first file can hold |
| C96 | `SameVal`: no observation of variant and content tells the values apart; `Both…`: both succeed with the same packet or fail alike; `RuleText`: a rule as written, apart from the enum |
| C97 | `packed`: a header, blocks and any bytes; `Shut`: what the rules refuse by blocks or by payload bytes; `Sent`: whole packets among such. The rules are read by `passBlocks`, `passPayload` of `RuleSpec` |
| C98 | `Follows`: rounds of inserts, `reload` and reading on, as in the test of the repository; `batchNews`: the packets of each batch. `AllOf` says of each batch what it needs |
| C99 | `utf8` (Lean's `String.utf8EncodeChar`), `text`, `Starts`, `Decodes`: the longest piece with which a character can start becomes U+FFFD (Unicode 3.9); nothing of `Verif.Utf8` |
| C100 | `torn`: the bytes on the stream; `GetsPast`, `Halts`: the results of a loop of `read`; `filled`, `left`: the bytes that come to stand behind the header, and what is left of the packets they came from |
| C101 | `Pours`, `Fetches`, `Copies`: the loops of the two programs; `FileOf`: the file that inserting packets into an empty storage makes |
| C102 | `slotAt`, `endOf`: where slots begin and packets end, from the lengths of the packets alone; `Presents`: opens for reading and writing, and count, nth, iter, filtered and nth_filtered all show a given list |
| C103 | `Unhindered`: first the verdicts on the packets, then the results (and reports) of a new reader on the rest, for some way of cutting it |
| C104 | `Left`: how many packets end before the cut, from `endOf`; the new file: `FileOf`, `Presents`; the packets found: `foundIn` |
| C105 | `judge`: the callbacks asked in turn about one packet of the list; `judgeAll`: one packet after the other |
| C106 | `takeAll`, `takeFew`: the callbacks asked in turn about the packets of the log, to the end or until enough are taken; `Collects`: what an iterator gives until it ends and the state it ends in |
| C107 | `InOrder`: pieces of the bytes in front of a packet given to `Ignored`, then `judge` about the packet, then the rest; `transcript`: what callbacks that write down all they are told have written |
| C108 | `C108_full`: a packet whose bytes were in the damaged file is at the same place in the file after the inserts; `patches`, `Hits` as in C58 |
| C109 | equality of `reloadReader` on the damaged and on the undamaged file; then the log itself, by index; `patches`, `Hits` as in C58, `Watching`, `Calm` as in C37 |
| C110 | `C110_full`: `Burst4` on the bytes of a table gives `DamagedSlot`, as in C59; the slots meant are those from number (packets loaded) / capacity on |
| C111 | `C111_full`: every `data.take k` shorter than the file gives an error; `shrunk` lists the result by the place of the cut, with `slotAt` of C102 |
| C112 | `startOf`, `endOf`: bytes of the tables and packets in front, against the length `k` that is left; `Loops` of C67, with `slotAt` of C102 for the slot that has the cut; `itemCut` and `untilPanic` for ranges |
| C113 | `Shaken`: any number of reloads on proper prefixes of the file; `Shows` and `Calm` of C37 |
| C114 | `C114_full`; `TablesLeft`: the cut leaves all tables but the one that is written again, with `slotAt` of C102; `endOf` for the packets that are whole, `startOf` for those of which nothing is left |
| C115 | `TablesLeft` and `startOf`/`endOf` of C114, `Calm` of C37, `Shaken` of C113: the reloads in between |
| C116 | `shownCut`: what is shown for a packet, from `endOf` and `accepted` of C32; `upto` of C58 for ranges; `Loops` of C67 for loops that may panic |
| C117 | `Round`, `Through`: the program of C98 with rounds in which only `k` bytes of the file are there; `roundNews`: what it is to show |
| C118 | `Through` of C117 with `byRangeFiltered`; `newsOf` with the packets of each batch that are `accepted` (C32) |
| C119 | `Steady`: all rounds of the program, with all that has been shown; compared with a prefix of the log |
| C120 | `Anew`: as `Follows` of C98 with opening in place of `reload`; the packets of each batch |
| C121 | `Careful` and `CarefulFiltered`: all rounds of the program, with the length of the part that is there in each; compared with a prefix of the log |

## Known disagreements between documentation/property and code

Collected while modelling; each is backed by a theorem (see the MANIFEST notes).

* **C05** `try_read` of a block with the signature present but the body incomplete leaves the source four
  bytes further (`codegen/read/block.rs`, `TryReadFrom`), so a retry sees the body as a signature
  (`C05_moves_past_signature`). With fewer than four bytes it reports only `4 - len`, not the whole shortage.
* **C06** the plain stream reader of the `Block` enum consumes four bytes for every variant that does not match;
  only the first variant can be read (`C06_stream_reader_false`).
* **C12** `PacketHeader::get_pos` misses a signature in exactly the last eight bytes (`C12_get_pos_misses_last`).
* `TryReadFromBuffered for PacketHeader` consumes the header twice (`header_buffered_double_consume`).
* **C43** a `bool` byte other than 0/1 is `true` for the stream reader and `false` for the slice reader
  (`C43_bool_disagree`).
* **C44** the slice reader with `skip_sig = true` still counts the signature in its offsets and never succeeds on
  the bytes after the signature (`C44_slice_skip_never_ok`).
* **C46** the block CRC does not cover the signature: damage of the signature alone can turn a block into
  another variant with the same field layout (`C46_signature_confusion`).
* **C42** `PayloadHooks` are never invoked by any reading or writing code (`C42_hooks_not_called`).
* **C47** `String::decode` replaces invalid UTF-8 by U+FFFD and the CRC is computed over the *replaced* text: damage of
  four bytes of `"e2o*("` is accepted as a different string (`C47_string_corruption_accepted`).
* **C48** the payload header's length field is covered by no CRC; a body `9D 0A D9 6D` with the length damaged to 0 is read
  as an empty payload (`C48_length_not_protected`).
* **C17** `ReadFrom`, `TryReadFrom` and `TryReadFromBuffered` test `iterations > MAX_BLOCKS_COUNT` after reading and accept 256
  blocks; `Packet::filtered` has no limit at all (`C17_not_uniform`, `C17_limit_partial`).
* **C18** `TryReadFrom` compares `header.size` with the bytes available *including* the header; when it is not enough the position
  stays behind the header (`C18_not`); a cut in the payload header is an error; the buffered reader has consumed the header by then
  (`C18_tryBuf_consumes`).
* **C45** the generated `Payload` enum does not forward `crc_size`: packets with a wider CRC are written with a header size that
  is too small and cannot be read back (`C45_wide_crc_breaks`).
* **C49** `ReadFrom` and `filtered` allocate `header.size` bytes up front: 2^63 or more panics (`C49_huge_size_panics`).
* **C23** after `NotFound` the reader keeps 29 bytes and asks for 29 more. If the signature of a packet lies in the last eight of
  the kept bytes (where `get_pos` does not see it) and the next read gives fewer than 29 bytes, the buffer may come to contain a whole
  header before the reader looks again, and `sgmt.end() - buffered` underflows: a panic in debug builds, a lost packet in release
  (`C23_short_reads`, `C23_underflow_panics`, `C23_release_waits`). A header-only packet (no blocks, no payload) behind litter
  can be reported as litter even without short reads (`C23_empty_packet_lost`).
* **C17** `PacketBufReader` rejects more than 255 blocks and, having consumed nothing, repeats the error forever
  (`C17_reader_stuck`).
* **C25** a source that ends inside a packet makes `read` answer `NotEnoughData` forever, so the documented loop never ends
  (`C25_truncated`, `C25_not`); a signature followed by a header that does not check is never consumed (`C25_bad_header`).
* **C26** `blocks_len > size` (`C26_blocks_past_end`), a size near 2^64 (`C26_size_overflow`) and the underflow of C23
  (`C26_underflow`) panic.
* **C50** `read` takes the pending state out of `self.recent` before `fill_buf()?`; a failing read loses it
  (`C50_error_loses_packet`).
* **C32** `PacketsLocatorIterator::from` returns the span of the target slot without advancing `offset` past it; after `seek(n)` the
  iteration over the following slots reads from wrong places, e.g. yields packet 0 after packet 499 (`C32_seek_wrong`, `C32_seek_not`). For packets of one length it begins
  again at the first packet of the slot sought and never reaches the last ones (`C32_seek_shifted_partial`).
* **C33** the capacity field of a slot decides where its CRC is looked for; damage there can be accepted (`C33_capacity_not_protected`).
* **C34** `Slot::try_read` computes `PacketHeader::ssize() - needed` (29 minus the missing bytes of the table): with more than 29 bytes missing this
  underflows, a panic in debug builds (`C34_panics`, `C34_not`).
* **C35** an insert writes the new slot table first and the packet second. If the process dies after the new length differs in the file and before
  the packet is complete, the table CRC is wrong or the table announces bytes that are not there, and the storage cannot be opened any more
  (`C35_exact_partial`, `C35_not`); dying inside the table of a new slot is fatal from byte 16 on in debug builds (the underflow of C34) (`C35_exact_new_partial`).
* **C36** `insert` updates the slot in memory before the fallible writes and does not undo it: after an I/O error the next insert leaves a hole, read as
  `SignatureDismatch` (`C36_gap`), or, at the end of a slot, a file nobody can open (`C36_unopenable`).
* **C37** `reload` tests `self.slots.len() == count` to recognise the slot that was in use; this stays true after that slot has been replaced, so each following
  slot replaces it again and none is appended: the reader shows fewer packets than there are, and no error (`C37_beyond`, `C37_not`). If the table CRC has not changed
  it reports 0 new packets, e.g. when packets of 34151 and 27895 bytes are appended (`C37_same_crc`, `C37_crc_collision`). The number returned is 500 too small if
  the new packets begin and end at a slot boundary (`C37_reload_partial`).
* **C84** The same test makes the reader lose packets it had: after 499 packets read and two more inserted, `reload` returns `Ok(0)` and `count()` goes from 499 to 1
  (`C84_loses`, `C84_not`). A second `reload` returns 0 again, and a third shows everything (`C84_third`), if nothing is inserted meanwhile and one slot only was begun.
* **C38** A slot table contains arbitrary CRC bytes. If they begin with the first four bytes of the packet signature, the eight bytes in the right place complete
  one, and the scanner reports `CrcDismatch` without moving on, for ever (`C38_crc_signature`: packets of 102, 94, 188 and 399 bytes, 4803 bytes in all).
* **C39** `BufferedReader::refill` replaces the preloaded bytes instead of adding to them (`C39_refill_twice`), `read` forgets them if the inner read fails
  (`C39_failed_read`), and `consume` across the end of the preload counts only what is beyond it (`C39_undercount`).
* **C40** `processed` called without having taken a wake unlocks although one is still in the channel: two wakes (`C40_two_wakes`). A failing
  `metadata` in the notify callback drops the notification (`C40_metadata_error`). After a normal cycle there may be a wake for nothing (`C40_stale_wake`).
* **C41** The lock file is named after the stem: `data.bin` and `data.brec` exclude each other, and a storage `data.lock` is its own lock (`C41_shared_lock`).
  Two names of the same file do not (`C41_alias`). The loop looks at the clock after the attempt, so a lock released in between is missed (`C41_missed`); the sleep is
  not cut to the time left, so a timeout of 10 ms with an interval of 1 s takes 1 s (`C41_overshoot`).
* **C54** The block signature does not contain the module path (`C54_path_ignored`; `specification.md` and `getting_started.md` say it does). Signatures are not checked for
  uniqueness: `PushLoan { value: u32 }` and `PoolLine { value: f32 }` have the same one (`C54_not`), and whichever comes first in the hash map takes the other's
  data with a valid CRC (`C54_first_takes_all`, `C54_confused`).
* **C55** Variant names are the capitalised path segments run together, `foo::BarBaz` and `foo::bar::Baz` are both `FooBarBaz`; `or_insert` drops the later
  declaration without a word (`C55_not`).
* **C56** `#[block(blocks)]` (a bare path of one segment) and `#[block(nocrc)]` are ignored (`C56_not`), and so is a second path (`C56_second_path`).
* **C57** A 20-byte file (slot signature, capacity 2^61) makes `open` panic in debug and release builds (`C57_panics`); on a 28-byte file with a matching CRC a release build
  never returns from `open` (`C57_hangs`). A debug build can panic in `nth` after a successful `open` (`C57_nth_panics`).
* **C58** `iter()` goes on where the failed read stopped, so a damaged packet header makes it miss intact packets behind it in the slot (`C58_iter_not`); `nth` finds them. Nothing else is missed: packets of other slots, and packets behind one that keeps its header, come up (`C58_iter_partial`).
* **C59** The capacity is read before the CRC can be checked. One changed byte of it makes a release build open a storage as empty, without an error (`C59_one_byte`,
  `C59_capacity`); a debug build panics.
* **C60** `insert` writes the table before the packet. A `reload` while the table is being written returns `DamagedSlot` (or, in the first 20 bytes of a new one, an
  I/O error or panic as in C57); when the table is written and the packet is not, it reports one new packet, `nth` of it fails and `iter` panics (`C60_torn`,
  `C60_not`). The notification is not repeated: the `reload` after the insert returns 0 (`C60_settles`).
* **C61** The documentation (brec_macros/src/lib.rs:119-121, :190-192; README.md:345, 446, 454) says that with `no_crc` the CRC is not checked. The code writes
  zeros and compares the field with zeros when reading (codegen/props/block.rs, codegen/props/payload.rs:9-27), so anything else is `CrcDismatch`
  (`C61_block_partial`, `C61_not`, `C61_payload_peer`). `#[payload(no_crc)]` without `bincode` generates no `PayloadCrc` at all, so there it has no effect.
* **C62** The payload CRC is computed by encoding the decoded value again. If that gives other bytes (hash maps), what was written is refused with `CrcDismatch`
  (`C62_exact`, `C62_not`). The documentation (brec_macros/src/lib.rs:206-208) warns about this.
* **C63** When the payload of a packet cannot be extracted (wrong CRC, wrong signature, undecodable) the error leaves `read` through `?` (reader.rs:407) without
  `drop_and_consume`. If the packet lies whole in the buffer of the source nothing is consumed: every further call returns the same error, and the packets behind are
  unreachable (`C63_payload_stuck`, `C63_not`). If it was spread over several reads its bytes are already consumed and the reader goes on.
* **C65** without `bincode` the documented six traits never compile: the macro already implements the two signature traits, and nobody implements `PayloadCrc` (`C65_documented_not`);
  `#[payload(no_crc)]`, the documented way to skip the CRC, does nothing without `bincode` (`C65_no_crc_alone`); under `bincode, no_auto_crc, no_crc` a manual `PayloadCrc` clashes; unknown words are ignored (`C65_word_ignored`).
* **C66** a crate all of whose payloads derive `Default` (or `Copy`) does not compile, because the enum derives it too (`C66_shared_default`); nor does one with `no_default_payload` and a payload of its own
  (`C66_no_default_payload`), one that asks for a derive all payloads have, one with a payload called `String` or `Bytes`, or a derive list ending with a comma (`C66_others`); a second `payloads_derive` is ignored.
* **C67** `iter()` panics (`read_exact(..).unwrap()`) if the file has become shorter since it was opened, by a single byte (`C67_shortened`, `C67_not`), or if a stored header announces 2^63 bytes (`C67_huge`).
  `PacketsLocatorIterator` is documented to skip empty slots; it ends at one, and called again it looks for the next packet in the wrong place (`C67_empty_slot`).
* **C68** `filtered` has no limit on the number of blocks, so it returns packets that no other reader takes back once they are written (`C68_filtered_not`).
* **C69** writing a packet that was read does not always give its bytes back: padding is dropped (`C69_padding`), a flag byte other than 0 and 1 becomes 0 (`C69_flag_byte`), and text that is not UTF-8 is replaced, which the checksum does not notice
  because it is computed over the replacement (`C69_text`).
* **C70** the readers accept different bytes. `ReadFrom` takes the size in the header for the end of the packet, `TryReadFrom` and `TryReadFromBuffered` take the end of the payload: a packet in the padding of another one is seen by the latter only
  (`C70_hidden`); with 0 for a size they still return the packet (`C70_understated`); they compare the size with the bytes there are including the header, so up to 29 bytes may be missing (`C70_missing`). A `bool` byte other than 0 and 1 is `true` for
  `ReadFrom` and `false` for the zero-copy readers, so a packet with such a byte is accepted by one kind only (`C70_bool_byte`).
* **C71** rules change what is reached. A blocks rule is asked before the payload is decoded, and a packet it denies is consumed; without the rule a damaged payload is an error, consumes nothing, and the reader never gets past it (`C71_gets_past`, `C71_not`).
* **C72** a packet without blocks and payload waits for one more read. `NotEnoughData(0)` is returned when its header has been completed by a refill; only the next call, which reads from the source first, returns the packet, and if that read fails the packet is lost (`C72_header_only`, `C72_not`). The documentation of `PacketBufReaderDef::read` also says that it does not invoke `read` on the source; `fill_buf` does.
* **C73** a packet that is sent again over the same connection after an error is lost although the second call returns `Ok`: the reader takes its beginning for the rest of the first copy; a break inside the header leaves the reader failing for ever (`C73_again`, `C73_not`).
* **C76**: a field named `crc` of type `[u8; 4]` is accepted and compiles, but the generated readers have a variable of this name for the stored checksum: the struct literal picks up the checksum instead of the field. The block cannot be read back (`CrcDismatch`), or, with `no_crc`, comes back with zeros in the field and no error (`C76_not`, `C76_crc_field`). Only `__sig` and `__crc` are reserved. (A `crc` of another type, a field `buf`, or one named like the block in capital letters does not compile; nothing in the documentation says so.)
* C75: `PacketBufReader` never passes a packet with a payload of a type it does not know, when the packet lies whole in the buffer of the source: `read` returns
  `SignatureDismatch` and takes nothing (`C75_stuck`). `Packet::read` skips the packet. A packet with an unknown *block* is skipped by both.
* **C78**: `site/docs/parts/blocks.md` and the documentation of `#[block]` say that `path` is enough for a block that cannot be imported where `generate!` stands. `BlockReferred` and its reader name the view `XReferred` without the path, so it never is (`C78_path_useless`); with an import of the view it is. `getting_started.md` says that name conflicts within a crate are eliminated because the module path is taken into account; two blocks of the same name in different modules can never be compiled into one protocol (`C78_same_name`, `C78_not`; their signatures do not contain the path either, C54). For payloads both statements hold (`C78_payload_path`). A block called `Block` cannot be compiled under any path.
* C81: `read_from_slice<'b>(buf: &'b [u8], _) -> Self where Self: 'b` with a `transmute` to `Self` (`codegen/read/block.rs:88-120`) is unsound: safe code can ask for `XReferred<'static>` from a buffer on the stack, and a `FilterByBlocks` rule of `Rules<'static>` can keep the views it is given after the packet buffer is gone. Blobs are then dangling references (`C81_dangling`). Blocks without blobs are not affected as far as their fields go, but `__crc` is a reference too.
* **C85** `decode_block` of the WebAssembly example reads the block enum from a stream, which works for the first variant only (C06): what `encode_block` returned for any
  other variant is never decoded as that variant (`C85_block_never`), and a block that carries the bytes of another one is decoded as that other one (`C85_confused`).
* **C86** Two blocks of one module clash if their names differ in capital letters only, if one is named like the view of the other (`FooReferred`), or if a field of one is
  the name of the other in capital letters (`C86_exact`, `C86_not`); the compiler then reports names the user has not written.
* **C87** Calling `reload` again does not help in general: if the slots written since are full and one of them takes another number of bytes than the slot the reader had
  begun, the next `reload` begins to read in the middle of a packet, reports a damaged slot and changes nothing, also after further inserts (`C87_stuck`, `C87_not`: the
  reader keeps 500 of 1000 packets of an undamaged file). If all packets have one size, three calls are enough (`C87_oneSize_partial`).
* **C88** Without overflow checks, a `reload` that fails with an I/O error because the packet is not complete yet keeps the table it has read and leaves the locator where
  it was. The `reload` after the insert finds nothing new, returns `Ok(0)` and leaves the locator too. When that happens for the packet that fills a slot and for the
  one that begins the next, `count()` is 1000 for 501 packets, on a file nobody is writing (`C88_overcounts`, `C88_not`), until something else is inserted. `nth` and `iter`
  are right (`C88_partial`); with overflow checks, and as long as nothing panics, `count` is too (`C88_checked`).
* **C89** Readers allocate zeroed buffers of the size that the bytes announce, before they know whether the bytes are there. 29 bytes make `ReadFrom` for packets and
  `PacketBufDef::filtered` ask for any `n < 2^63` (`C89_announced`), 43 bytes make every reader except `TryReadFrom` ask for any `n < 2^32` as payload (`C89_payload`; the payload length is
  compared neither with the packet's nor with what is available), 16 bytes do it for `Slot::read` (`C89_slot`). One changed byte in a written packet is enough for almost 4 GiB
  (`C89_one_byte`). `PacketBufReader::new` reserves `u32::MAX` bytes before it reads anything (`Rd.newAsks`). `TryReadFrom` for packets and slots never asks for more than there is
  (`C89_tryRead_partial`, `C89_slot_tryRead_partial`), nor does a storage iterator for its packet buffers (`C89_iter_partial`).
* **C90** A `PacketBufReader` that joins a stream in the middle of a packet skips the rest of it only if the rest does not contain the packet signature and does not end in its first half
  (the signature is `EC 25 5E 88` twice; `C90_joins_partial`). A payload may contain a whole packet, which is then delivered although it was never sent (`C90_smuggled`), also when
  the header of the outer packet is damaged (`C90_damaged`); or a bare signature, behind which the reader returns the same error forever (`C90_stuck`, `C90_half`). In every protocol, as `Vec<u8>` is
  a payload of every protocol.
* **C91** `generate!` writes to `OUT_DIR/brec.rs` and leaves an `include!` of it. `OUT_DIR` is the same for all targets of a package, and cargo compiles several of them at the same time
  (`cargo test` compiles a library twice): a target may include what another one has written so far, down to nothing (`C91_torn`, `C91_not`). Declarations that are expanded after `generate!`
  are left out without a word (`C91_late`).
* **C92** Waiting for the `n` of `NotEnoughData(n)` and calling `try_read` again does not work with either reader: `TryReadFrom` has left the source behind the header (`C92_seeking_not`),
  `TryReadFromBuffered` fails with an I/O error inside a block, even if the program keeps the bytes itself (`C92_buffered_not`, `C92_bufferedBack_not`). With `TryReadFrom` it works if the program goes
  back itself; the counts are never too large (`C92_back_partial`).
* **C95** `cat a b > c` opens, and `iter()`/`filtered()` show the packets of both, but unless `a` ends with a full slot `count()` ignores `b`, `nth(i)` finds the packets of `b` only behind the free
  places of `a` (`C95_exact`, `C95_not`), and a writer puts the next packet over the first slot of `b` (`C95_insert`), after which the file may be unopenable (`C95_unopenable`).
* **C96** Two blocks or payloads with one signature are not refused by the macros (C54, C78); which of them is read then depends on the order of a `HashMap`, that is, on the build (`C96_not`, `C96_payloads_not`).
* **C98** A program that reloads and reads on with `seek` is shown the first packets of a slot again in place of those of the next one if a batch ran into a further slot (`C98_seek_wrong`, `C98_seek_not`). With `range` it gets the packets, but `reload` returns 0 if exactly one slot has been filled (`C98_range_not`).
* C100. A packet of which only the beginning was written, with whole packets behind it: if its header was written, the missing bytes are taken from the packets behind, so at least one
  of those is lost too, and if the result lies whole in the buffer and is not passed, all of them (`C100_swallows_partial`, `C100_not`). If 4 bytes or a part of the header were written, every call
  returns the same error from then on (`C100_header`, `C100_half`).
* C101. A storage takes and gives back packets with 256 blocks; `PacketBufReader` refuses them, and does not get past them (`C101_blocked`, `C101_not`).
* C102. A storage file that has lost only its last byte cannot be opened any more: with overflow checks opening panics, without them it fails with an io error
  (`C102_last_byte`, `C102_not`). It opens exactly if the cut is less than 16 bytes into a slot, or anywhere in a slot table in a build without overflow checks (`C102_exact`).
  `PacketBufReader` finds the packets in what is left, and nothing else (`C102_scan_partial`, `C102_scan_cut_partial`).
* C104. Scanning what is left of a storage file and inserting what is found repairs it, unless the CRC of a slot table begins like the packet signature: then the scan stops there for ever
  (`C104_not`, the file of `C38_crc_signature`).
* C105: a packet whose payload is damaged stays in the buffer of the source, and every further `read` asks the callbacks about it again (`C105_not`); a counter then counts calls, not packets.
* C107 (`C107_not`): with reads shorter than 29 bytes the order of the callbacks cannot be relied upon, since the reader may lose a packet (C23).
* C108: in a release build one changed byte in the capacity of a slot makes the writer take this slot for the end of the file. It opens without an error, and the next insert writes a new
  table over the damaged one and the new packet over the first packet of the slot (`C108_destroys`, `C108_not`). Damage inside packets does no further harm (`C108_packets_partial`).
* C110: one changed byte in the capacity of a slot makes `reload` return `Ok(0)` though a packet has arrived (release build), or panic (debug build) (`C110_one_byte`, `C110_not`). Other damage of up to four
  consecutive bytes in a table `reload` looks at is reported (`C110_damaged_table_partial`).
* C111: when a file has been cut short, `reload` returns `Ok(0)` if the cut lies among the packets of the slot the reader stopped at, or in the first 16 bytes of that slot; the reader still
  counts all packets (`C111_exact`, `C111_unnoticed`, `C111_not`). Other cuts give an error in a release build, and a panic in a debug build.
* C112: when a file has been cut short, `nth` gives each packet that is left, but a loop over `iter()` panics at the slot with the cut, though packets of this slot may be left (`C112_iter`). In a
  debug build `nth` panics for a packet of which nothing is left (`C112_nth`). `filtered()` panics like `iter()` (`C116_iter`); `nth_filtered` returns an error where `nth` panics (`C116_nth`).
* C114: a writer does not look at its file before an insert. If the file was cut short behind its back so that a table of a full slot is lost, the insert returns `Ok` and leaves zeros in place of what
  was lost; the file cannot be opened any more (`C114_lost`, `C114_not`). A cut that loses only packets, or the table of the slot with room, does no further harm (`C114_insert_partial`).
* **C117, C118** What is false of C98 is false of following with interruptions and with a filter (`C117_seek_not`, `C117_range_not`, `C118_not`). Interruptions add nothing to it: a `reload` that
  finds only a part of the file never changes what is shown later.
* **C119** The bound on the writer is needed: if a slot is begun behind one that the reader knows in part, the program shows a packet twice (`C119_unbounded_not`). Opening anew in place of
  `reload` needs no bound (C120).
* Not a theorem: the documentation of `ReaderRangeIterator` says it ends at the first error; the code goes on (`C32`, `C58`). The documentation of `TryReadFromBuffered` for blocks
  speaks of a reference representation; the owned block is returned. `Iterator for ReaderIterator` asks for `S: Read + Write + Seek`, so `iter()` on a read-only source cannot be looped over.
* Not a theorem: `PacketBufReader::new` reserves 2^32 - 1 bytes for each reader (reader.rs:260), although at most the size of one packet is ever kept (C64).

{"claims": [
{"property": "C01", "status": "proved", "theorems": ["Brec.Props.C01_block_roundtrip"], "note": "all schemas (supported field kinds), values, suffixes"},
{"property": "C02", "status": "proved", "theorems": ["Brec.Props.C02_block_slice"], "note": ""},
{"property": "C03", "status": "proved", "theorems": ["Brec.Props.C03_block_layout"], "note": "layout compared with an independent byte-by-byte spec; buffer (write/write_all) and slices()"},
{"property": "C04", "status": "proved", "theorems": ["Brec.Props.C04_block_corruption"], "note": "all four readers; burst of up to 4 consecutive bytes anywhere in the block, signature included"},
{"property": "C05", "status": "partial", "theorems": ["Brec.Props.C05_block_short_partial", "Brec.Props.C05_moves_past_signature"], "note": "false as stated: after a matched signature a short try_read leaves the source 4 bytes further; below 4 bytes only the missing signature bytes are reported. Exact behaviour proved."},
{"property": "C06", "status": "partial", "theorems": ["Brec.Props.C06_enum_dispatch_partial", "Brec.Props.C06_stream_reader_false", "Brec.Props.C06_stream_first"], "note": "proved for slice, seekable and buffered readers; false for the plain stream reader (each failed variant consumes 4 bytes)"},
{"property": "C07", "status": "proved", "theorems": ["Brec.Props.C07_byteblock_capacity"], "note": ""},
{"property": "C08", "status": "proved", "theorems": ["Brec.Props.C08_payload_header_roundtrip", "Brec.Props.C08_size"], "note": "the documented length range 14..262 is exact"},
{"property": "C09", "status": "proved", "theorems": ["Brec.Props.C09_payload_header_incomplete", "Brec.Props.C09_progress"], "note": ""},
{"property": "C10", "status": "proved", "theorems": ["Brec.Props.C10_header_roundtrip"], "note": ""},
{"property": "C100", "status": "partial", "theorems": ["Brec.Props.C100_swallows_partial", "Brec.Props.C100_small_reads_partial", "Brec.Props.C100_signature_partial", "Brec.Props.C100_header", "Brec.Props.C100_half", "Brec.Props.C100_not"], "note": "false of the code: the missing bytes are taken from the packets behind, so at least one whole packet is lost, and a part of a header stops the reader for good; what is received is stated for every length of the part that was written"},
{"property": "C101", "status": "partial", "theorems": ["Brec.Props.C101_mirror_partial", "Brec.Props.C101_same_partial", "Brec.Props.C101_broken_partial", "Brec.Props.C101_blocked", "Brec.Props.C101_not"], "note": "false of the code for packets with 256 blocks, which a storage takes and gives back and PacketBufReader does not; proved for packets with up to 255 blocks"},
{"property": "C102", "status": "partial", "theorems": ["Brec.Props.C102_opens_partial", "Brec.Props.C102_ranges_partial", "Brec.Props.C102_lost", "Brec.Props.C102_cases", "Brec.Props.C102_exact", "Brec.Props.C102_last_byte", "Brec.Props.C102_insert", "Brec.Props.C102_scan_partial", "Brec.Props.C102_which", "Brec.Props.C102_scan_cut_partial", "Brec.Props.C102_not"], "note": "false of the code: a file that lost its last byte cannot be opened at all (panic with overflow checks, an io error without); proved exactly which cuts leave a file that opens, and that such a file shows exactly the packets of the whole slots before the cut and can be written again; PacketBufReader finds all packets that lie wholly before any cut or damage, and of a cut file exactly these, under the conditions of C38_scan_partial"},
{"property": "C103", "status": "proved", "theorems": ["Brec.Props.C103_whatever_follows", "Brec.Props.C103_litter", "Brec.Props.C103_cut"], "note": "proved for packets one behind the other; with litter between them (C103_litter, C103_cut) under the conditions of C23_long_reads_partial"},
{"property": "C104", "status": "partial", "theorems": ["Brec.Props.C104_repair_partial", "Brec.Props.C104_resume_partial", "Brec.Props.C104_not"], "note": "false as stated: a slot table whose CRC begins like the packet signature stops the scan for ever, cut or not (C104_not); proved for all histories and all cuts under the conditions of C38_scan_partial"},
{"property": "C105", "status": "partial", "theorems": ["Brec.Props.C105_stream_partial", "Brec.Props.C105_litter_partial", "Brec.Props.C105_forgetful", "Brec.Props.C105_not"], "note": "proved for streams of packets in any portions and, with other bytes between, under the conditions of C23_long_reads_partial; false when a payload is damaged: each call asks about the same packet again (C105_not)"},
{"property": "C106", "status": "proved", "theorems": ["Brec.Props.C106_filtered", "Brec.Props.C106_range_filtered", "Brec.Props.C106_counts", "Brec.Props.C106_forgetful"], "note": "for every history of inserts and reopens, every state and every callback; the end state is part of the statement"},
{"property": "C107", "status": "partial", "theorems": ["Brec.Props.C107_order_partial", "Brec.Props.C107_any_reads_partial", "Brec.Props.C107_stream", "Brec.Props.C107_transcript_partial", "Brec.Props.C107_record", "Brec.Props.C107_forgetful", "Brec.Props.C107_not"], "note": "proved for reads of 29 bytes or more but the last, for packets without other bytes between them in any reads, and for any reads with overflow checks unless a call panics; false for shorter reads without the checks, where the packet can be lost (C107_not)"},
{"property": "C108", "status": "partial", "theorems": ["Brec.Props.C108_packets_partial", "Brec.Props.C108_opens", "Brec.Props.C108_destroys", "Brec.Props.C108_not"], "note": "proved for damage inside packets, with the resulting file given exactly; false when the capacity of a slot is damaged in a release build: the writer takes the slot for the end of the file and writes over its packets (C108_destroys, C108_not)"},
{"property": "C109", "status": "proved", "theorems": ["Brec.Props.C109_reload", "Brec.Props.C109_shows"], "note": "for readers that were just opened or were reloaded calmly; after a reload that is not calm (C37) a reader may stand inside a slot, and nothing is claimed"},
{"property": "C11", "status": "proved", "theorems": ["Brec.Props.C11_header_corruption"], "note": ""},
{"property": "C110", "status": "partial", "theorems": ["Brec.Props.C110_damaged_table_partial", "Brec.Props.C110_rest", "Brec.Props.C110_one_byte", "Brec.Props.C110_not"], "note": "proved, with the error returned, when the capacity is not hit and no slot before the damaged one has the CRC the reader remembers; the reader is unchanged if the damaged slot is the first one looked at, and a reader whose slots were full has all packets in front of the damage and catches up once it is undone (C110_rest); false when the capacity is hit: reload says there is nothing new in a release build and panics in a debug build (C110_one_byte, C110_not)"},
{"property": "C111", "status": "partial", "theorems": ["Brec.Props.C111_exact", "Brec.Props.C111_reported_partial", "Brec.Props.C111_unnoticed", "Brec.Props.C111_not"], "note": "C111_exact gives the result for every cut; an error in a release build when the cut is in front of the slot the reader stopped at (always if the packets fill their slots), a panic in a debug build; false otherwise: the loss of the last byte of a slot that is not full is not noticed (C111_unnoticed, C111_not)"},
{"property": "C112", "status": "proved", "theorems": ["Brec.Props.C112_nth", "Brec.Props.C112_honest", "Brec.Props.C112_iter", "Brec.Props.C112_range"], "note": "exact results of nth for every cut; iter() on a cut file panics (see C67)"},
{"property": "C113", "status": "proved", "theorems": ["Brec.Props.C113_back"], "note": "with C37 for the reload after the file has grown"},
{"property": "C114", "status": "partial", "theorems": ["Brec.Props.C114_insert_partial", "Brec.Props.C114_lost", "Brec.Props.C114_not"], "note": "proved when the cut leaves the tables that the insert does not write again (TablesLeft); false otherwise: if all slots are full and the file is emptied, the insert succeeds and the file cannot be opened (C114_lost, C114_not)"},
{"property": "C115", "status": "proved", "theorems": ["Brec.Props.C115_follow", "Brec.Props.C115_before"], "note": "the conditions on the cut (TablesLeft) and on the inserts (Calm) are those of C114 and C37; both are needed (C114_not, C37_beyond)"},
{"property": "C116", "status": "proved", "theorems": ["Brec.Props.C116_nth", "Brec.Props.C116_range", "Brec.Props.C116_iter"], "note": "exact results, including the panic of filtered() at the slot with the cut; iter() does the same (C112_iter)"},
{"property": "C117", "status": "partial", "theorems": ["Brec.Props.C117_range_partial", "Brec.Props.C117_seek_partial", "Brec.Props.C117_each_partial", "Brec.Props.C117_seek_not", "Brec.Props.C117_range_not"], "note": "interruptions never change what is shown: it holds for all batches for which C98 holds (in particular with a reload of the whole file between any two inserts, packets below 4 GiB); false for the batches for which C98 is false"},
{"property": "C118", "status": "partial", "theorems": ["Brec.Props.C118_filtered_partial", "Brec.Props.C118_each_partial", "Brec.Props.C118_not"], "note": "holds for all batches for which C98 holds with range, whatever the rules; false for batches that begin and end with a slot, which reload counts wrongly"},
{"property": "C119", "status": "proved", "theorems": ["Brec.Props.C119_shown", "Brec.Props.C119_filtered", "Brec.Props.C119_next", "Brec.Props.C119_next_filtered", "Brec.Props.C119_unbounded_not"], "note": "the bound on the writer is part of the property: without it reload may take packets away (C84_loses) or get stuck (C87_stuck), and packets may be shown twice (C119_unbounded_not, in a storage with slots of three packets)"},
{"property": "C12", "status": "partial", "theorems": ["Brec.Props.C12_get_pos_partial", "Brec.Props.C12_get_pos_misses_last"], "note": "false as stated: a signature in exactly the last 8 bytes is missed; exact characterisation proved"},
{"property": "C120", "status": "proved", "theorems": ["Brec.Props.C120_range", "Brec.Props.C120_filtered"], "note": "without any condition on the batches, unlike C98"},
{"property": "C121", "status": "proved", "theorems": ["Brec.Props.C121_shown", "Brec.Props.C121_whole", "Brec.Props.C121_filtered", "Brec.Props.C121_filtered_whole"], "note": "without any condition on the batches or on the parts; slots of at least two packets. A part that ends in the packets of a slot does not open (C102_lost), so nothing of that slot is shown until it is complete"},
{"property": "C13", "status": "proved", "theorems": ["Brec.Props.C13_payload_roundtrip", "Brec.Props.C13_defaults", "Brec.Props.C13_wire", "Brec.Props.C13_too_long", "Brec.Props.C13_enum_roundtrip"], "note": "parametric in a payload type with consistent traits; Vec<u8> and String instances; enum dispatch"},
{"property": "C14", "status": "proved", "theorems": ["Brec.Props.C14_payload_corruption"], "note": "canonical encodings (Vec<u8>); see C47 for String and C48 for the header"},
{"property": "C15", "status": "proved", "theorems": ["Brec.Props.C15_packet_roundtrip", "Brec.Props.C15_generated"], "note": "parametric in lawful block and payload enums, instantiated with the generated codecs"},
{"property": "C16", "status": "proved", "theorems": ["Brec.Props.C16_tryRead", "Brec.Props.C16_tryBuf", "Brec.Props.C16_filtered", "Brec.Props.C16_reader", "Brec.Props.C16_generated"], "note": "ReadFrom, TryReadFrom, TryReadFromBuffered, filtered and PacketBufReader return the same packet and take the same bytes"},
{"property": "C17", "status": "partial", "theorems": ["Brec.Props.C17_limit_partial", "Brec.Props.C17_not_uniform", "Brec.Props.C17_reader_stuck"], "note": "false as stated: three readers accept 256 blocks and filtered has no limit; exact limits proved; PacketBufReader rejects more than 255 and never gets past such a packet"},
{"property": "C18", "status": "partial", "theorems": ["Brec.Props.C18_tryRead_partial", "Brec.Props.C18_generated_partial", "Brec.Props.C18_tryBuf_partial", "Brec.Props.C18_not", "Brec.Props.C18_tryBuf_consumes"], "note": "false as stated: after the header the position may stay advanced; every cut point of the seekable reader characterised"},
{"property": "C19", "status": "proved", "theorems": ["Brec.Props.C19_write_forms", "Brec.Props.C19_write_all_any_sink", "Brec.Props.C19_generated"], "note": "write, write_all and slices against one serialization; any sink for write_all"},
{"property": "C20", "status": "proved", "theorems": ["Brec.Props.C20_partial_write", "Brec.Props.C20_generated"], "note": "sinks with arbitrary response schedules"},
{"property": "C21", "status": "proved", "theorems": ["Brec.Props.C21_vectored_write", "Brec.Props.C21_stall", "Brec.Props.C21_progress"], "note": "arbitrary schedules of partial vectored writes"},
{"property": "C22", "status": "proved", "theorems": ["Brec.Props.C22_pure_stream", "Brec.Props.C24_generated"], "note": "any chunking, overflow checks on or off"},
{"property": "C23", "status": "partial", "theorems": ["Brec.Props.C23_long_reads_partial", "Brec.Props.C23_any_reads_partial", "Brec.Props.C23_short_reads", "Brec.Props.C23_underflow_panics", "Brec.Props.C23_release_waits", "Brec.Props.C23_empty_packet_lost"], "note": "false as stated: a short read inside litter panics (debug) or loses the packet (release), and a header-only packet after litter can be lost; proved for reads of at least 29 bytes and packets with a body, and for any chunking that does not panic"},
{"property": "C24", "status": "proved", "theorems": ["Brec.Props.C24_rules", "Brec.Props.C24_generated"], "note": "any rules, any chunking"},
{"property": "C25", "status": "partial", "theorems": ["Brec.Props.C25_progress_partial", "Brec.Props.C25_truncated", "Brec.Props.C25_not", "Brec.Props.C25_bad_header"], "note": "false as stated: a source that ends inside a packet gives NotEnoughData forever, and after a header CRC error nothing is consumed; proved that in every other case the loop ends, with a bound on the number of calls, for arbitrary sources"},
{"property": "C26", "status": "partial", "theorems": ["Brec.Props.C26_no_panic_partial", "Brec.Props.C26_blocks_past_end", "Brec.Props.C26_size_overflow", "Brec.Props.C26_underflow", "Brec.Props.C26_generated_partial"], "note": "false as stated: three concrete panics; proved for arbitrary sources whose well-formed headers have consistent sizes, with reads of 29 bytes or more in debug builds"},
{"property": "C27", "status": "proved", "theorems": ["Brec.Props.C27_at_most_one", "Brec.Props.C27_add", "Brec.Props.C27_remove", "Brec.Props.C27_filters"], "note": "all histories of add/remove"},
{"property": "C28", "status": "proved", "theorems": ["Brec.Props.C28_filtered", "Brec.Props.C28_generated"], "note": "filtered against the rule semantics"},
{"property": "C29", "status": "proved", "theorems": ["Brec.Props.C29_log", "Brec.Props.C30_generated"], "note": "any capacity > 0 (the crate: 500), packets of at most 256 blocks, files below 2^63 bytes"},
{"property": "C30", "status": "proved", "theorems": ["Brec.Props.C30_reopen", "Brec.Props.C30_no_trace", "Brec.Props.C30_generated"], "note": "any interleaving of inserts and reopens"},
{"property": "C31", "status": "proved", "theorems": ["Brec.Props.C31_no_overwrite"], "note": ""},
{"property": "C32", "status": "partial", "theorems": ["Brec.Props.C32_range", "Brec.Props.C32_filtered", "Brec.Props.C32_range_filtered", "Brec.Props.C32_seek_partial", "Brec.Props.C32_seek_shifted_partial", "Brec.Props.C32_seek_out_of_bounds", "Brec.Props.C32_seek_wrong", "Brec.Props.C32_seek_not"], "note": "range, filtered and range_filtered proved; false for seek: past the end of the slot sought the iterator reads from a wrong offset; proved for the last slot, for indices past the end, and exactly what is shown for any number of slots if each packet is as long as the one a slot earlier (C32_seek_shifted_partial)"},
{"property": "C33", "status": "partial", "theorems": ["Brec.Props.C33_slot_roundtrip", "Brec.Props.C33_corruption_partial", "Brec.Props.C33_capacity_not_protected"], "note": "false as stated: a damaged capacity field can be accepted; proved for all other damage"},
{"property": "C34", "status": "partial", "theorems": ["Brec.Props.C34_truncated_partial", "Brec.Props.C34_panics", "Brec.Props.C34_not"], "note": "false as stated: 29 minus the missing bytes underflows; the answer at each cut proved"},
{"property": "C35", "status": "partial", "theorems": ["Brec.Props.C35_exact_partial", "Brec.Props.C35_exact_new_partial", "Brec.Props.C35_range_partial", "Brec.Props.C35_range_new_partial", "Brec.Props.C35_not"], "note": "false as stated: a process that dies in the middle of an insert can leave a file nobody can open; proved exactly which crash points are survived, in a slot in use and in a new slot"},
{"property": "C36", "status": "partial", "theorems": ["Brec.Props.C36_serialize_partial", "Brec.Props.C36_flush_partial", "Brec.Props.C36_gap", "Brec.Props.C36_unopenable", "Brec.Props.C36_not"], "note": "false as stated: after a failed write the table in memory is ahead of the file; the next insert leaves an unreadable index or a file nobody can open; proved for failing serialization and for a failing flush"},
{"property": "C37", "status": "partial", "theorems": ["Brec.Props.C37_reload_partial", "Brec.Props.C37_single", "Brec.Props.C37_beyond", "Brec.Props.C37_same_crc", "Brec.Props.C37_crc_collision", "Brec.Props.C37_not"], "note": "false as stated: packets beyond the slot in use are never shown, and packets that leave the table CRC unchanged are not noticed; all cases proved: right when loaded up to a slot boundary or when the new packets stay in the slot and change its CRC (always so for one packet), with the exact number returned"},
{"property": "C38", "status": "partial", "theorems": ["Brec.Props.C38_scan_partial", "Brec.Props.C38_crc_signature", "Brec.Props.C38_not"], "note": "false as stated: a slot table whose CRC begins with the packet signature makes the scan fail forever; proved for all histories whose slot tables do not, with reads of at least 29 bytes"},
{"property": "C39", "status": "partial", "theorems": ["Brec.Props.C39_bytes_partial", "Brec.Props.C39_consumed_partial", "Brec.Props.C39_complete", "Brec.Props.C39_refill_loses", "Brec.Props.C39_refill_twice", "Brec.Props.C39_undercount", "Brec.Props.C39_failed_read", "Brec.Props.C39_lengths", "Brec.Props.C39_not"], "note": "false as stated: refill drops what was preloaded, a failing read loses it, and consume across the border undercounts; proved for every call sequence without these"},
{"property": "C40", "status": "partial", "theorems": ["Brec.Props.C40_no_loss_partial", "Brec.Props.C40_delivered_partial", "Brec.Props.C40_one_wake_partial", "Brec.Props.C40_processed", "Brec.Props.C40_wake_size", "Brec.Props.C40_stale_wake", "Brec.Props.C40_two_wakes", "Brec.Props.C40_metadata_error", "Brec.Props.C40_not"], "note": "false as stated: processed() called before the wake is taken allows two wakes, and a failing metadata call loses growth; proved for every interleaving otherwise"},
{"property": "C41", "status": "partial", "theorems": ["Brec.Props.C41_exclusive", "Brec.Props.C41_exclusive_path", "Brec.Props.C41_lock_name", "Brec.Props.C41_lock_file", "Brec.Props.C41_shared_lock", "Brec.Props.C41_alias", "Brec.Props.C41_no_timeout", "Brec.Props.C41_not_before", "Brec.Props.C41_error_kind", "Brec.Props.C41_in_time_partial", "Brec.Props.C41_not_much_later", "Brec.Props.C41_missed", "Brec.Props.C41_overshoot", "Brec.Props.C41_not"], "note": "exclusion, immediate failure and not-before proved; false that a lock released within the timeout is always obtained (released after the last attempt); proved when released long enough before"},
{"property": "C42", "status": "partial", "theorems": ["Brec.Props.C42_hooks_ignored_partial", "Brec.Props.C42_hooks_not_called"], "note": "false of the code: hooks are never invoked; proved that results do not depend on hooks"},
{"property": "C43", "status": "partial", "theorems": ["Brec.Props.C43_readers_agree_partial", "Brec.Props.C43_bool_disagree"], "note": "false as stated: bool byte 2 is true for the stream reader and false for the slice reader; proved when bool bytes are 0/1"},
{"property": "C44", "status": "partial", "theorems": ["Brec.Props.C44_skip_sig_partial", "Brec.Props.C44_slice_skip_false", "Brec.Props.C44_slice_skip_never_ok", "Brec.Props.C44_slice_skip_panics"], "note": "stream reader proved; the slice reader never succeeds on bytes without signature"},
{"property": "C45", "status": "partial", "theorems": ["Brec.Props.C45_four_byte_crc_partial", "Brec.Props.C45_wide_crc_breaks"], "note": "false as stated: the generated enum assumes a CRC of four bytes; proved for that width"},
{"property": "C46", "status": "partial", "theorems": ["Brec.Props.C46_enum_corruption_partial", "Brec.Props.C46_signature_confusion"], "note": "false as stated: the block CRC does not cover the signature; proved for the slice, seekable and buffered readers except for signatures changed into another declared one"},
{"property": "C47", "status": "partial", "theorems": ["Brec.Props.C47_string_corruption_partial", "Brec.Props.C47_string_corruption_accepted"], "note": "false as stated: invalid UTF-8 is replaced before the CRC is computed, a concrete 4-byte damage is accepted as another string; proved for damage that stays valid UTF-8"},
{"property": "C48", "status": "partial", "theorems": ["Brec.Props.C48_payload_damage_partial", "Brec.Props.C48_length_not_protected"], "note": "false as stated: the payload length is not covered by any CRC; proved when the length field is intact"},
{"property": "C49", "status": "partial", "theorems": ["Brec.Props.C49_read_partial", "Brec.Props.C49_filtered_partial", "Brec.Props.C49_tryRead", "Brec.Props.C49_tryBuf", "Brec.Props.C49_huge_size_panics", "Brec.Props.C49_generated_partial"], "note": "false as stated: a header announcing 2^63 bytes panics ReadFrom and filtered; everything else proved"},
{"property": "C50", "status": "partial", "theorems": ["Brec.Props.C50_boundary_partial", "Brec.Props.C50_error_loses_packet"], "note": "false as stated: a failing read inside a packet loses it; proved for failures between packets"},
{"property": "C51", "status": "proved", "theorems": ["Brec.Props.C51_crc32"], "note": "the register of crc32fast's definition equals the remainder of polynomial division, for every message"},
{"property": "C52", "status": "proved", "theorems": ["Brec.Props.C52_packet_layout"], "note": "every packet of a generated protocol whose payload CRC has four bytes; the bytes are described without the model's writers"},
{"property": "C53", "status": "proved", "theorems": ["Brec.Props.C53_file_layout", "Brec.Props.C53_size", "Brec.Props.C53_default"], "note": "any capacity > 0, any sequence of inserts and reopens, files below 2^63 bytes"},
{"property": "C54", "status": "partial", "theorems": ["Brec.Props.C54_signature", "Brec.Props.C54_text", "Brec.Props.C54_burst", "Brec.Props.C54_retyped", "Brec.Props.C54_payload_signature", "Brec.Props.C54_path_ignored", "Brec.Props.C54_not", "Brec.Props.C54_first_takes_all", "Brec.Props.C54_confused"], "note": "the signature is the CRC-32 of a text that determines name and fields; edits within four bytes always change it; false in general: the path is ignored and PushLoan{value:u32}/PoolLine{value:f32} collide, so one is read as the other"},
{"property": "C55", "status": "partial", "theorems": ["Brec.Props.C55_names", "Brec.Props.C55_variants_partial", "Brec.Props.C55_complete", "Brec.Props.C55_no_path", "Brec.Props.C55_rebuild", "Brec.Props.C55_not"], "note": "exactly the first declaration of each variant name is kept; false in general: foo::BarBaz and foo::bar::Baz share the name and one is dropped silently"},
{"property": "C56", "status": "partial", "theorems": ["Brec.Props.C56_declaration", "Brec.Props.C56_fields", "Brec.Props.C56_second_path", "Brec.Props.C56_attrs_partial", "Brec.Props.C56_not"], "note": "false: a bare single identifier other than no_crc is ignored"},
{"property": "C57", "status": "partial", "theorems": ["Brec.Props.C57_opens_partial", "Brec.Props.C57_debug_ends", "Brec.Props.C57_panics", "Brec.Props.C57_hangs", "Brec.Props.C57_nth_panics"], "note": "holds if the announced sizes are in reach (debug) or below 2^64 (release), CRC and content arbitrary; debug builds always end; false in general: a 20-byte file panics in both builds, a 28-byte file never ends in release, nth can panic behind a hole"},
{"property": "C58", "status": "partial", "theorems": ["Brec.Props.C58_confined_partial", "Brec.Props.C58_iter_partial", "Brec.Props.C58_filtered_partial", "Brec.Props.C58_range", "Brec.Props.C58_range_filtered", "Brec.Props.C58_iter_not"], "note": "open, count, nth and range: any number of damaged packets, any bytes; iter() is false: it loses the packets behind a damaged header in the slot, and proved that it loses no others; the same for filtered(); range_filtered() shows the answers of the packets one by one, whatever happened to the others"},
{"property": "C59", "status": "partial", "theorems": ["Brec.Props.C59_damaged_table_partial", "Brec.Props.C59_capacity", "Brec.Props.C59_one_byte", "Brec.Props.C59_not"], "note": "all damages that leave the capacity alone; false for the capacity: one changed byte makes a release build open the storage as empty, and a debug build panics"},
{"property": "C60", "status": "partial", "theorems": ["Brec.Props.C60_undisturbed", "Brec.Props.C60_nth_partial", "Brec.Props.C60_settles", "Brec.Props.C60_reload_partial", "Brec.Props.C60_torn", "Brec.Props.C60_not"], "note": "a reader that does not reload is undisturbed, old packets stay readable by nth whatever reload returned, one reload after the insert repairs everything; false: a reload during the insert can fail, panic, or count a packet that is not there"},
{"property": "C61", "status": "partial", "theorems": ["Brec.Props.C61_block_partial", "Brec.Props.C61_block_crc", "Brec.Props.C61_payload_partial", "Brec.Props.C61_not", "Brec.Props.C61_payload_peer"], "note": "contents are not checked under no_crc, for all readers; false for the field itself: it is compared with zeros, so data from a peer that computes the CRC is refused unless the CRC is 0"},
{"property": "C62", "status": "partial", "theorems": ["Brec.Props.C62_exact", "Brec.Props.C62_ways_out_partial", "Brec.Props.C62_not"], "note": "exact condition: read back iff the CRC of the re-encoding is the CRC of the body; holds for stable encodings, with no_crc, and with a manual CRC that respects equality; false for an unstable encoding"},
{"property": "C63", "status": "partial", "theorems": ["Brec.Props.C63_dichotomy", "Brec.Props.C63_small_reads_partial", "Brec.Props.C63_blocks_partial", "Brec.Props.C63_generated_partial", "Brec.Props.C63_payload_stuck", "Brec.Props.C63_not"], "note": "holds for any damage confined to the blocks and for any damage if no read is as long as the damaged packet; in general everything is reported or the reader returns one error forever; false: a damaged payload that lies whole in the buffer stops the reader for good"},
{"property": "C64", "status": "proved", "theorems": ["Brec.Props.C64_memory", "Brec.Props.C64_reached"], "note": "bound and that it is reached up to one byte; capacity reserved in advance (2^32-1 bytes in new) is not modelled"},
{"property": "C65", "status": "partial", "theorems": ["Brec.Props.C65_by_hand", "Brec.Props.C65_documented_partial", "Brec.Props.C65_documented_not", "Brec.Props.C65_not", "Brec.Props.C65_no_crc_alone", "Brec.Props.C65_checksum", "Brec.Props.C65_signature", "Brec.Props.C65_refused", "Brec.Props.C65_word_ignored", "Brec.Props.C65_words_not"], "note": "exactly one list of hand-written traits works for each attribute list; the documentation is right with bincode except for no_auto_crc together with no_crc; false without bincode, and unknown words are ignored"},
{"property": "C66", "status": "partial", "theorems": ["Brec.Props.C66_plain_partial", "Brec.Props.C66_refused", "Brec.Props.C66_shared_default", "Brec.Props.C66_no_default_payload", "Brec.Props.C66_others", "Brec.Props.C66_not"], "note": "holds for crates without shared Default/Copy, without name clashes and repeated derives, and without no_default_payload; false otherwise"},
{"property": "C67", "status": "partial", "theorems": ["Brec.Props.C67_iter", "Brec.Props.C67_filtered", "Brec.Props.C67_range", "Brec.Props.C67_range_filtered", "Brec.Props.C67_no_panic_partial", "Brec.Props.C67_shortened", "Brec.Props.C67_huge", "Brec.Props.C67_not", "Brec.Props.C67_empty_slot"], "note": "every loop ends, on any slots and any file; no panic on the file as it was opened unless a packet header announces 2^63 bytes; false of a file that has lost its last byte since (unwrap)"},
{"property": "C68", "status": "proved", "theorems": ["Brec.Props.C68_passes_on", "Brec.Props.C68_record", "Brec.Props.C68_filtered", "Brec.Props.C68_filtered_not"], "note": "payload types of the user are assumed faithful (what was decoded can be encoded and decodes to the same); shown for the built-in ones; C68_filtered_not: filtered returns packets of more than 256 blocks, which the other readers refuse"},
{"property": "C69", "status": "partial", "theorems": ["Brec.Props.C69_same_bytes_partial", "Brec.Props.C69_padding", "Brec.Props.C69_flag_byte", "Brec.Props.C69_text", "Brec.Props.C69_not"], "note": "false in full: padding, flag bytes other than 0 and 1, bool bytes (C70_bool_byte) and text that is not UTF-8 are not reproduced; true otherwise"},
{"property": "C70", "status": "partial", "theorems": ["Brec.Props.C70_read", "Brec.Props.C70_filtered", "Brec.Props.C70_tryRead", "Brec.Props.C70_tryBuf", "Brec.Props.C70_reader", "Brec.Props.C70_agree_partial", "Brec.Props.C70_no_bool_partial", "Brec.Props.C70_hidden", "Brec.Props.C70_understated", "Brec.Props.C70_missing", "Brec.Props.C70_bool_byte", "Brec.Props.C70_not"], "note": "the exact language of each reader is proved; they are not the same: padding (C70_hidden), the size in the header (C70_understated, C70_missing), bool bytes (C70_bool_byte)"},
{"property": "C71", "status": "partial", "theorems": ["Brec.Props.C71_one_call", "Brec.Props.C71_ignored", "Brec.Props.C71_session_partial", "Brec.Props.C71_stream", "Brec.Props.C71_gets_past", "Brec.Props.C71_not"], "note": "full statement fails on a damaged payload: without rules the reader is stuck on it, a rule that denies its blocks gets past it (C71_gets_past, C71_not); otherwise proved, for one call without condition, for any number of calls if reading without rules meets no error, and for every stream of packets"},
{"property": "C72", "status": "partial", "theorems": ["Brec.Props.C72_prompt_partial", "Brec.Props.C72_cut_off", "Brec.Props.C72_header_only", "Brec.Props.C72_not"], "note": "full statement fails for a packet without blocks and payload at the very end of what has arrived, cut inside its header: it needs one more read of the source (C72_header_only, C72_not); proved for all other streams, packets, rules and cuts"},
{"property": "C73", "status": "proved", "theorems": ["Brec.Props.C73_send_receive", "Brec.Props.C73_again", "Brec.Props.C73_not"], "note": "for senders that stop at the first error, as stated; C73_not shows that it does not extend to a sender that sends again over the same connection"},
{"property": "C74", "status": "proved", "theorems": ["Brec.Props.C74_known", "Brec.Props.C74_unknown", "Brec.Props.C74_order"], "note": ""},
{"property": "C75", "status": "partial", "theorems": ["Brec.Props.C75_known", "Brec.Props.C75_unknown", "Brec.Props.C75_reads", "Brec.Props.C75_stream_partial", "Brec.Props.C75_stuck", "Brec.Props.C75_not"], "note": "full statement fails for PacketBufReader and packets with unknown payloads (C75_stuck, C75_not); proved in full for ReadFrom (C75_reads), and for PacketBufReader for known types and unknown blocks"},
{"property": "C76", "status": "partial", "theorems": ["Brec.Props.C76_compiles", "Brec.Props.C76_names_partial", "Brec.Props.C76_crc_field", "Brec.Props.C76_not"], "note": "full statement fails for a field named crc, which the macro accepts (C76_not); C76_crc_field says exactly what happens then; proved for all other names"},
{"property": "C77", "status": "proved", "theorems": ["Brec.Props.C77_storage"], "note": ""},
{"property": "C78", "status": "partial", "theorems": ["Brec.Props.C78_exact", "Brec.Props.C78_views", "Brec.Props.C78_visible_partial", "Brec.Props.C78_path_useless", "Brec.Props.C78_same_name", "Brec.Props.C78_generated_names", "Brec.Props.C78_payload_path", "Brec.Props.C78_not"], "note": "full statement fails for blocks: the generated code names the view without the path, so path alone never suffices (C78_path_useless) and blocks of the same name cannot coexist (C78_same_name, C78_not); C78_exact says when it compiles; proved for payloads (C78_payload_path) and for blocks whose view is in scope (C78_visible_partial, C78_views)"},
{"property": "C79", "status": "proved", "theorems": ["Brec.Props.C79_packet", "Brec.Props.C79_stream", "Brec.Props.C79_stream_eq", "Brec.Props.C79_file", "Brec.Props.C79_twins"], "note": ""},
{"property": "C80", "status": "proved", "theorems": ["Brec.Props.C80_shared"], "note": ""},
{"property": "C81", "status": "partial", "theorems": ["Brec.Props.C81_borrowed_partial", "Brec.Props.C81_copied_partial", "Brec.Props.C81_enum_partial", "Brec.Props.C81_exact", "Brec.Props.C81_repaired", "Brec.Props.C81_dangling", "Brec.Props.C81_not"], "note": "False of the code: a view of lifetime 'static can be read from a buffer that is freed later (C81_not, C81_dangling). Proved: safe while the buffer is borrowed, safe for blocks without blobs, exactly which signatures would be safe, and that giving the view the lifetime of the slice would be one."},
{"property": "C82", "status": "proved", "theorems": ["Brec.Props.C82_bounds", "Brec.Props.C82_fill", "Brec.Props.C82_buffer"], "note": ""},
{"property": "C83", "status": "proved", "theorems": ["Brec.Props.C83_order", "Brec.Props.C83_progress", "Brec.Props.C83_unlocked"], "note": ""},
{"property": "C84", "status": "partial", "theorems": ["Brec.Props.C84_keeps_partial", "Brec.Props.C84_exact", "Brec.Props.C84_loses", "Brec.Props.C84_third", "Brec.Props.C84_not"], "note": "full statement fails when a further slot has been begun since the last reload: C84_exact says what the reader has then, C84_loses when it is less than before, C84_third that two more reloads repair it if only one slot, not full, has been begun; otherwise proved (C84_keeps_partial)"},
{"property": "C85", "status": "partial", "theorems": ["Brec.Props.C85_payload", "Brec.Props.C85_packet", "Brec.Props.C85_block_partial", "Brec.Props.C85_block_exact", "Brec.Props.C85_block_never", "Brec.Props.C85_not", "Brec.Props.C85_confused"], "note": "full statement fails for blocks of every type but the first (C85_block_never, C85_confused); proved for payloads, packets and the first block type, with an exact account of decode_block (C85_block_exact)"},
{"property": "C86", "status": "partial", "theorems": ["Brec.Props.C86_exact", "Brec.Props.C86_usual_partial", "Brec.Props.C86_not"], "note": "full statement is false (C86_not); C86_exact says which lists of declarations compile together, C86_usual_partial that conventional names always do"},
{"property": "C87", "status": "partial", "theorems": ["Brec.Props.C87_stuck", "Brec.Props.C87_oneSize_partial", "Brec.Props.C87_not"], "note": "full statement is false (C87_not); C87_stuck gives the condition under which the reader never catches up, C87_oneSize_partial that three calls suffice for packets of one size"},
{"property": "C88", "status": "partial", "theorems": ["Brec.Props.C88_settles", "Brec.Props.C88_partial", "Brec.Props.C88_checked", "Brec.Props.C88_overcounts", "Brec.Props.C88_not"], "note": "full statement is false without overflow checks (C88_not) and true with them (C88_checked); C88_partial says exactly how count() can be wrong and that nth() and iter() are right"},
{"property": "C89", "status": "partial", "theorems": ["Brec.Props.C89_announced", "Brec.Props.C89_payload", "Brec.Props.C89_new", "Brec.Props.C89_slot", "Brec.Props.C89_damaged", "Brec.Props.C89_one_byte", "Brec.Props.C89_not", "Brec.Props.C89_tryRead_partial", "Brec.Props.C89_slot_tryRead_partial", "Brec.Props.C89_buffered_partial", "Brec.Props.C89_written_partial", "Brec.Props.C89_iter_partial"], "note": "full statement is false (C89_not, C89_one_byte); the _partial theorems say for which readers and inputs it holds"},
{"property": "C90", "status": "partial", "theorems": ["Brec.Props.C90_joins_partial", "Brec.Props.C90_smuggled", "Brec.Props.C90_stuck", "Brec.Props.C90_half", "Brec.Props.C90_damaged", "Brec.Props.C90_not"], "note": "full statement is false in every protocol (C90_not, C90_smuggled, C90_stuck); C90_joins_partial says when it holds"},
{"property": "C91", "status": "partial", "theorems": ["Brec.Props.C91_alone_partial", "Brec.Props.C91_torn", "Brec.Props.C91_late", "Brec.Props.C91_not"], "note": "full statement is false (C91_not, C91_torn, C91_late); C91_alone_partial says when it holds"},
{"property": "C92", "status": "partial", "theorems": ["Brec.Props.C92_back_partial", "Brec.Props.C92_seeking_not", "Brec.Props.C92_buffered_not", "Brec.Props.C92_bufferedBack_not", "Brec.Props.C92_not"], "note": "full statement is false for both readers; C92_back_partial: it holds for TryReadFrom if the program puts the source back itself"},
{"property": "C93", "status": "proved", "theorems": ["Brec.Props.C93_session", "Brec.Props.C93_litter"], "note": "C93_litter: the same with litter between the packets, under the conditions of C23"},
{"property": "C94", "status": "proved", "theorems": ["Brec.Props.C94_copy", "Brec.Props.C94_same"], "note": ""},
{"property": "C95", "status": "partial", "theorems": ["Brec.Props.C95_joins_partial", "Brec.Props.C95_exact", "Brec.Props.C95_insert", "Brec.Props.C95_unopenable", "Brec.Props.C95_not"], "note": "true if the number of packets of the first is a multiple of the capacity: then the joined file is byte for byte the file of both; otherwise iter() shows all, count() only the first, nth() counts free places, and a writer overwrites the second file"},
{"property": "C96", "status": "partial", "theorems": ["Brec.Props.C96_blocks_partial", "Brec.Props.C96_packets_partial", "Brec.Props.C96_stream_partial", "Brec.Props.C96_storage_partial", "Brec.Props.C96_written", "Brec.Props.C96_not", "Brec.Props.C96_payloads_not"], "note": "true if all signatures are distinct; false if two blocks or two payloads share one (which the macros do not refuse): then the order decides as what bytes are read"},
{"property": "C97", "status": "proved", "theorems": ["Brec.Props.C97_filtered", "Brec.Props.C97_stream", "Brec.Props.C97_storage"], "note": ""},
{"property": "C98", "status": "partial", "theorems": ["Brec.Props.C98_range_partial", "Brec.Props.C98_seek_partial", "Brec.Props.C98_each_partial", "Brec.Props.C98_seek_wrong", "Brec.Props.C98_seek_not", "Brec.Props.C98_range_not"], "note": "holds if reload is called between any two inserts (packets below 4 GiB), and in general for batches reload notices that do not fill whole slots (with seek: that stay in one slot); false otherwise: seek shows the first packets of a slot again in place of those of the next one, and reload returns too small a number for whole slots"},
{"property": "C99", "status": "proved", "theorems": ["Brec.Props.C99_strings", "Brec.Props.C99_one_way", "Brec.Props.C99_read", "Brec.Props.C99_roundtrip", "Brec.Props.C99_plain", "Brec.Props.C99_damage_shows"], "note": "the text is specified with the characters of Lean (String.utf8EncodeChar), apart from the model of from_utf8_lossy"}
]}

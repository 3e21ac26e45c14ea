{
 "claims": [
  {
   "property": "C01",
   "status": "proved",
   "theorems": [
    "Strigi.Props.C01_isStream",
    "Strigi.Props.C01_read_exact"
   ],
   "note": "all call sequences, all arguments"
  },
  {
   "property": "C02",
   "status": "proved",
   "theorems": [
    "Strigi.Props.C02_read_limits",
    "Strigi.Props.C02_max_below_min"
   ],
   "note": "plus the documented-but-violated case max<min as a witness"
  },
  {
   "property": "C03",
   "status": "proved",
   "theorems": [
    "Strigi.Props.C03_reset"
   ],
   "note": "for an empty stream and negative argument the code sets Ok (excluded by the hypothesis c≠[] or 0≤q)"
  },
  {
   "property": "C04",
   "status": "proved",
   "theorems": [
    "Strigi.Props.C04_skip",
    "Strigi.Props.C04_skip_narrow"
   ],
   "note": "narrowing from 2^31 on shown by a universally quantified counterexample family"
  },
  {
   "property": "C05",
   "status": "proved",
   "theorems": [
    "Strigi.Props.C05_base_skip",
    "Strigi.Props.C05_step_limit"
   ],
   "note": "any contract-respecting stream"
  },
  {
   "property": "C06",
   "status": "proved",
   "theorems": [
    "Strigi.Props.C06_isStream",
    "Strigi.Props.C06_read_all",
    "Strigi.Props.C06_read_exact"
   ],
   "note": "any producer that satisfies the fillBuffer documentation"
  },
  {
   "property": "C07",
   "status": "proved",
   "theorems": [
    "Strigi.Props.C07_read_limits"
   ],
   "note": ""
  },
  {
   "property": "C08",
   "status": "proved",
   "theorems": [
    "Strigi.Props.C08_rewind"
   ],
   "note": ""
  },
  {
   "property": "C09",
   "status": "proved",
   "theorems": [
    "Strigi.Props.C09_no_fault",
    "Strigi.Props.C09_makeSpace"
   ],
   "note": "int32 overflow of 2*size: see C142"
  },
  {
   "property": "C10",
   "status": "proved",
   "theorems": [
    "Strigi.Props.C10_declared_size",
    "Strigi.Props.C10_longer_is_error"
   ],
   "note": "a declared size of 0 is not checked by the code, hence 0<sz"
  },
  {
   "property": "C11",
   "status": "proved",
   "theorems": [
    "Strigi.Props.C11_size_at_eof",
    "Strigi.Props.C11_size_constant"
   ],
   "note": ""
  },
  {
   "property": "C12",
   "status": "proved",
   "theorems": [
    "Strigi.Props.C12_error_sticky"
   ],
   "note": ""
  },
  {
   "property": "C13",
   "status": "proved",
   "theorems": [
    "Strigi.Props.C13_skip"
   ],
   "note": ""
  },
  {
   "property": "C14",
   "status": "proved",
   "theorems": [
    "Strigi.Props.C14_window",
    "Strigi.Props.C14_position",
    "Strigi.Props.C14_rest"
   ],
   "note": "any contract-respecting parent; sizes below 2^31"
  },
  {
   "property": "C15",
   "status": "proved",
   "theorems": [
    "Strigi.Props.C15_no_short_success",
    "Strigi.Props.C15_short_parent"
   ],
   "note": ""
  },
  {
   "property": "C16",
   "status": "proved",
   "theorems": [
    "Strigi.Props.C16_reset_past_end"
   ],
   "note": "the violation is proved with a witness"
  },
  {
   "property": "C17",
   "status": "proved",
   "theorems": [
    "Strigi.Props.C17_nested"
   ],
   "note": ""
  },
  {
   "property": "C61",
   "status": "proved",
   "theorems": [
    "Strigi.Props.C61_sub_size_unknown_at_eof",
    "Strigi.Props.C61_terminated_size_unknown_at_eof"
   ],
   "note": "witnesses that the documented claim is false"
  },
  {
   "property": "C62",
   "status": "proved",
   "theorems": [
    "Strigi.Props.C62_skip_empty_substream"
   ],
   "note": "witness"
  },
  {
   "property": "C32",
   "status": "proved",
   "theorems": [
    "Strigi.Props.C32_mmap_isStream",
    "Strigi.Props.C32_mmap_reset_skip"
   ],
   "note": ""
  },
  {
   "property": "C33",
   "status": "proved",
   "theorems": [
    "Strigi.Props.C33_skippingfile_isStream",
    "Strigi.Props.C33_end_is_zero",
    "Strigi.Props.C33_unknown_size_overshoot"
   ],
   "note": "full contract for files with a known size; with unknown size a witness that skip leaves the file"
  },
  {
   "property": "C34",
   "status": "proved",
   "theorems": [
    "Strigi.Props.C34_wrong_bytes_after_skip",
    "Strigi.Props.C34_forward_reset_fails",
    "Strigi.Props.C34_reads_only"
   ],
   "note": "the defect is exhibited; reads alone are correct"
  },
  {
   "property": "C63",
   "status": "proved",
   "theorems": [
    "Strigi.Props.C63_file_isStream"
   ],
   "note": ""
  },
  {
   "property": "C18",
   "status": "proved",
   "theorems": [
    "Strigi.Props.C18_sound",
    "Strigi.Props.C18_first",
    "Strigi.Props.C18_slips",
    "Strigi.Props.C18_exact",
    "Strigi.Props.C18_short",
    "Strigi.Props.C18_no_slip",
    "Strigi.Props.C18_borders",
    "Strigi.Props.C18_missed_occurrence",
    "Strigi.Props.C18_full_statement_false"
   ],
   "note": "that every query is found is false of the code (C18_full_statement_false); the queries that can be missed are described exactly (C18_exact)"
  },
  {
   "property": "C19",
   "status": "proved",
   "theorems": [
    "Strigi.Props.C19_no_fault",
    "Strigi.Props.C19_empty_query"
   ],
   "note": ""
  },
  {
   "property": "C20",
   "status": "proved",
   "theorems": [
    "Strigi.Props.C20_isStream",
    "Strigi.Props.C20_read_all"
   ],
   "note": "for terminators that KmpSearcher handles (see C18), parents that do not fail while reading and contents below 2^31 bytes (see C64)"
  },
  {
   "property": "C21",
   "status": "proved",
   "theorems": [
    "Strigi.Props.C21_parent_after_terminator",
    "Strigi.Props.C21_reset_at_end"
   ],
   "note": "same hypotheses as C20; a reset to the end afterwards moves the parent back (witness)"
  },
  {
   "property": "C22",
   "status": "proved",
   "theorems": [
    "Strigi.Props.C22_default_arguments",
    "Strigi.Props.C22_witness"
   ],
   "note": ""
  },
  {
   "property": "C64",
   "status": "proved",
   "theorems": [
    "Strigi.Props.C64_large_offset",
    "Strigi.Props.C64_witness"
   ],
   "note": ""
  },
  {
   "property": "C23",
   "status": "proved",
   "theorems": [
    "Strigi.Props.C23_events_contract",
    "Strigi.Props.C23_events",
    "Strigi.Props.C23_transparent"
   ],
   "note": "contents below 2^31 bytes; C23_events_contract covers inputs that fail"
  },
  {
   "property": "C24",
   "status": "proved",
   "theorems": [
    "Strigi.Props.C24_handleEnd",
    "Strigi.Props.C24_end_is_reported",
    "Strigi.Props.C24_not_called_after_fast_skip"
   ],
   "note": ""
  },
  {
   "property": "C25",
   "status": "proved",
   "theorems": [
    "Strigi.Props.C25_decodes",
    "Strigi.Props.C25_read_all"
   ],
   "note": ""
  },
  {
   "property": "C26",
   "status": "proved",
   "theorems": [
    "Strigi.Props.C26_isStream",
    "Strigi.Props.C26_witness_truncated"
   ],
   "note": ""
  },
  {
   "property": "C27",
   "status": "proved",
   "theorems": [
    "Strigi.Props.C27_decode",
    "Strigi.Props.C27_decode_encode",
    "Strigi.Props.C27_witness_empty"
   ],
   "note": ""
  },
  {
   "property": "C28",
   "status": "proved",
   "theorems": [
    "Strigi.Props.C28_characterised",
    "Strigi.Props.C28_accepts_xml",
    "Strigi.Props.C28_what_else",
    "Strigi.Props.C28_not_a_validator"
   ],
   "note": ""
  },
  {
   "property": "C29",
   "status": "proved",
   "theorems": [
    "Strigi.Props.C29_agrees",
    "Strigi.Props.C29_error",
    "Strigi.Props.C29_incomplete"
   ],
   "note": ""
  },
  {
   "property": "C30",
   "status": "proved",
   "theorems": [
    "Strigi.Props.C30_only_line_breaks",
    "Strigi.Props.C30_valid_text",
    "Strigi.Props.C30_witness_invalid"
   ],
   "note": ""
  },
  {
   "property": "C31",
   "status": "proved",
   "theorems": [
    "Strigi.Props.C31_16",
    "Strigi.Props.C31_32",
    "Strigi.Props.C31_64",
    "Strigi.Props.C31_unsigned_char_overloads",
    "Strigi.Props.C31_witness_overload"
   ],
   "note": "little-endian machine; the defect of two overloads is exhibited"
  },
  {
   "property": "C42",
   "status": "proved",
   "theorems": [
    "Strigi.Props.C42_dos_fields",
    "Strigi.Props.C42_before_16",
    "Strigi.Props.C42_after_16"
   ],
   "note": "up to mktime; the wrong hour mask is exhibited"
  },
  {
   "property": "C38",
   "status": "proved",
   "theorems": [
    "Strigi.Props.C38_roundtrip",
    "Strigi.Props.C38_no_trailer"
   ],
   "note": "inputs that do not fail; sizes and times below 2^31"
  },
  {
   "property": "C39",
   "status": "proved",
   "theorems": [
    "Strigi.Props.C39_hex",
    "Strigi.Props.C39_hex_negative"
   ],
   "note": ""
  },
  {
   "property": "C40",
   "status": "proved",
   "theorems": [
    "Strigi.Props.C40_overrun",
    "Strigi.Props.C40_safe"
   ],
   "note": "the over-read is exhibited for every header of the described kind; all other name fields are safe"
  },
  {
   "property": "C65",
   "status": "proved",
   "theorems": [
    "Strigi.Props.C65_cpio_negative_size"
   ],
   "note": "witness"
  },
  {
   "property": "C66",
   "status": "proved",
   "theorems": [
    "Strigi.Props.C66_zero_terminated"
   ],
   "note": ""
  },
  {
   "property": "C35",
   "status": "proved",
   "theorems": [
    "Strigi.Props.C36_roundtrip"
   ],
   "note": "Presents ranges over everything the client may do with each entry stream; well-formed archives (plain and GNU long names) on inputs that do not fail"
  },
  {
   "property": "C36",
   "status": "proved",
   "theorems": [
    "Strigi.Props.C36_roundtrip"
   ],
   "note": "sizes and times below 2^31"
  },
  {
   "property": "C37",
   "status": "proved",
   "theorems": [
    "Strigi.Props.C37_roundtrip",
    "Strigi.Props.C37_not_an_archive"
   ],
   "note": "GNU name tables included; the archive starts at an even position"
  },
  {
   "property": "C67",
   "status": "proved",
   "theorems": [
    "Strigi.Props.C67_two_blocks",
    "Strigi.Props.C67_stringStream"
   ],
   "note": ""
  },
  {
   "property": "C68",
   "status": "proved",
   "theorems": [
    "Strigi.Props.C68_long_name"
   ],
   "note": ""
  },
  {
   "property": "C55",
   "status": "proved",
   "theorems": [
    "Strigi.Props.C55_gzip",
    "Strigi.Props.C55_gzip_file",
    "Strigi.Props.C55_gzip_wrong_magic",
    "Strigi.Props.C55_bz2",
    "Strigi.Props.C55_bz2_wrong_magic",
    "Strigi.Props.C55_truncated"
   ],
   "note": "zlib and libbz2 are abstract: any decompressor satisfying Unpacks"
  },
  {
   "property": "C43",
   "status": "proved",
   "theorems": [
    "Strigi.Props.C43_decode_encode",
    "Strigi.Props.C43_any_text"
   ],
   "note": ""
  },
  {
   "property": "C44",
   "status": "proved",
   "theorems": [
    "Strigi.Props.C44_checkHeader",
    "Strigi.Props.C44_prefix_closed",
    "Strigi.Props.C44_ascii"
   ],
   "note": ""
  },
  {
   "property": "C57",
   "status": "proved",
   "theorems": [
    "Strigi.Props.C57_transparent",
    "Strigi.Props.C57_isStream"
   ],
   "note": "a new signature stream starts at 0 whatever the position of its input: C69"
  },
  {
   "property": "C59",
   "status": "proved",
   "theorems": [
    "Strigi.Props.C59_zip",
    "Strigi.Props.C59_ar",
    "Strigi.Props.C59_cpio",
    "Strigi.Props.C59_rpm",
    "Strigi.Props.C59_ole",
    "Strigi.Props.C59_gzip",
    "Strigi.Props.C59_bz2",
    "Strigi.Props.C59_lzma",
    "Strigi.Props.C59_tar"
   ],
   "note": ""
  },
  {
   "property": "C69",
   "status": "proved",
   "theorems": [
    "Strigi.Props.C69_position"
   ],
   "note": "proved as a negative result: the positions differ"
  },
  {
   "property": "C70",
   "status": "proved",
   "theorems": [
    "Strigi.Props.C70_header_value",
    "Strigi.Props.C70_total",
    "Strigi.Props.C70_base64_word"
   ],
   "note": "iconv is an arbitrary function conv"
  },
  {
   "property": "C71",
   "status": "proved",
   "theorems": [
    "Strigi.Props.C71_fold_loses_character"
   ],
   "note": "proved as a negative result"
  },
  {
   "property": "C72",
   "status": "proved",
   "theorems": [
    "Strigi.Props.C72_reads_beyond"
   ],
   "note": "proved as a negative result"
  },
  {
   "property": "C50",
   "status": "proved",
   "theorems": [
    "Strigi.Props.C50_skip80Line",
    "Strigi.Props.C50_checkHeader"
   ],
   "note": ""
  },
  {
   "property": "C51",
   "status": "proved",
   "theorems": [
    "Strigi.Props.C51_entries",
    "Strigi.Props.C51_mol",
    "Strigi.Props.C51_stringStream"
   ],
   "note": "the lost character of every further record is part of the statement; inputs that hand out each record and its delimiter in one piece (Whole), and all in-memory streams; see C74 for other inputs"
  },
  {
   "property": "C58",
   "status": "proved",
   "theorems": [
    "Strigi.Props.C58_sniff",
    "Strigi.Props.C58_empty"
   ],
   "note": "inputs with at least four bytes left or none; see C73 for the others"
  },
  {
   "property": "C73",
   "status": "proved",
   "theorems": [
    "Strigi.Props.C73_short_input"
   ],
   "note": "proved as a negative result"
  },
  {
   "property": "C74",
   "status": "proved",
   "theorems": [
    "Strigi.Props.C74_chunks"
   ],
   "note": "proved as a negative result"
  },
  {
   "property": "C41",
   "status": "proved",
   "theorems": [
    "Strigi.Props.C41_roundtrip"
   ],
   "note": "inflate() is assumed to be a correct decompressor (Unpacks); hours from 16 on as in C42"
  },
  {
   "property": "C75",
   "status": "proved",
   "theorems": [
    "Strigi.Props.C75_short"
   ],
   "note": "proved as a negative result"
  },
  {
   "property": "C76",
   "status": "proved",
   "theorems": [
    "Strigi.Props.C76_unknown_method"
   ],
   "note": "proved as a negative result"
  },
  {
   "property": "C77",
   "status": "proved",
   "theorems": [
    "Strigi.Props.C77_empty_name"
   ],
   "note": "proved as a negative result (out-of-bounds access)"
  },
  {
   "property": "C78",
   "status": "proved",
   "theorems": [
    "Strigi.Props.C78_truncated"
   ],
   "note": ""
  },
  {
   "property": "C60",
   "status": "proved",
   "theorems": [
    "Strigi.Props.C60_line",
    "Strigi.Props.C60_last_line",
    "Strigi.Props.C60_unique",
    "Strigi.Props.C60_first"
   ],
   "note": "lines of less than 2^20 bytes; what counts as a line break is spelled out in MimeSpec.Ends"
  },
  {
   "property": "C79",
   "status": "proved",
   "theorems": [
    "Strigi.Props.C79_multipart"
   ],
   "note": "lines below 2^20 bytes, boundaries that the search handles (C18)"
  },
  {
   "property": "C80",
   "status": "proved",
   "theorems": [
    "Strigi.Props.C80_fields",
    "Strigi.Props.C80_short_field"
   ],
   "note": ""
  },
  {
   "property": "C81",
   "status": "proved",
   "theorems": [
    "Strigi.Props.C81_body"
   ],
   "note": ""
  },
  {
   "property": "C82",
   "status": "proved",
   "theorems": [
    "Strigi.Props.C82_headless"
   ],
   "note": ""
  },
  {
   "property": "C83",
   "status": "proved",
   "theorems": [
    "Strigi.Props.C83_written"
   ],
   "note": ""
  },
  {
   "property": "C84",
   "status": "proved",
   "theorems": [
    "Strigi.Props.C84_lost_line"
   ],
   "note": "proved as a negative result"
  },
  {
   "property": "C85",
   "status": "proved",
   "theorems": [
    "Strigi.Props.C85_quoted",
    "Strigi.Props.C85_blank"
   ],
   "note": "the second one is a negative result"
  },
  {
   "property": "C86",
   "status": "proved",
   "theorems": [
    "Strigi.Props.C86_last_part"
   ],
   "note": "proved as a negative result"
  },
  {
   "property": "C56",
   "status": "proved",
   "theorems": [
    "Strigi.Props.C56_text",
    "Strigi.Props.C56_converted",
    "Strigi.Props.C56_read_all",
    "Strigi.Props.C56_broken",
    "Strigi.Props.C56_broken_never_ends",
    "Strigi.Props.C56_either",
    "Strigi.Props.C56_witness_long",
    "Strigi.Props.utf8_lawful",
    "Strigi.Props.utf8_single",
    "Strigi.Props.latin1_lawful",
    "Strigi.Props.utf16_lawful"
   ],
   "note": "iconv() is abstract; refuted for conversions of one character to several items (C56_witness_long)"
  },
  {
   "property": "C45",
   "status": "proved",
   "theorems": [
    "Strigi.Props.C45_lookup",
    "Strigi.Props.C45_last",
    "Strigi.Props.C45_parents",
    "Strigi.Props.C45_none",
    "Strigi.Props.C45_witness_lost"
   ],
   "note": "as stated in the list it is refuted where an entry is added at a directory above an earlier one (C45_witness_lost); C45_lookup is the exact result"
  },
  {
   "property": "C46",
   "status": "proved",
   "theorems": [
    "Strigi.Props.C46_root",
    "Strigi.Props.C46_find"
   ],
   "note": ""
  },
  {
   "property": "C47",
   "status": "proved",
   "theorems": [
    "Strigi.Props.C47_lister",
    "Strigi.Props.C47_root",
    "Strigi.Props.C47_static",
    "Strigi.Props.C47_witness_stale"
   ],
   "note": "archives nested at most nine deep (deeper ones: C54); the entries of a directory that the archive mentions late are refuted by C47_witness_stale"
  },
  {
   "property": "C54",
   "status": "proved",
   "theorems": [
    "Strigi.Props.C54_safe",
    "Strigi.Props.C54_overrun"
   ],
   "note": "proved as a negative result for depth 10 and more"
  },
  {
   "property": "C87",
   "status": "proved",
   "theorems": [
    "Strigi.Props.C87_complete"
   ],
   "note": ""
  },
  {
   "property": "C53",
   "status": "proved",
   "theorems": [
    "Strigi.Props.C53_isArchive",
    "Strigi.Props.C53_witness"
   ],
   "note": "proved as a negative result; for a reader without cached listings, one StreamOpener"
  },
  {
   "property": "C88",
   "status": "proved",
   "theorems": [
    "Strigi.Props.C88_open",
    "Strigi.Props.C88_missing",
    "Strigi.Props.C88_no_file",
    "Strigi.Props.C88_witness_wrong_entry",
    "Strigi.Props.C88_witness_not_opened"
   ],
   "note": "one StreamOpener; which bytes are an archive is abstracted (Contents); refuted where an earlier name is a prefix of the path"
  },
  {
   "property": "C89",
   "status": "proved",
   "theorems": [
    "Strigi.Props.C89_canHandle"
   ],
   "note": "for a reader without cached listings"
  },
  {
   "property": "C90",
   "status": "proved",
   "theorems": [
    "Strigi.Props.C90_dangling",
    "Strigi.Props.C90_removed"
   ],
   "note": "proved as a negative result"
  },
  {
   "property": "C91",
   "status": "proved",
   "theorems": [
    "Strigi.Props.C91_stat"
   ],
   "note": "orderly directories (see C47_witness_stale for others)"
  },
  {
   "property": "C92",
   "status": "proved",
   "theorems": [
    "Strigi.Props.C92_counted",
    "Strigi.Props.C92_copy"
   ],
   "note": "refuted for copies"
  },
  {
   "property": "C93",
   "status": "proved",
   "theorems": [
    "Strigi.Props.C93_witness"
   ],
   "note": "proved as a negative result"
  },
  {
   "property": "C48",
   "status": "proved",
   "theorems": [
    "Strigi.Props.C48_terminates"
   ],
   "note": "input of known size, shorter than 2^31 bytes"
  },
  {
   "property": "C49",
   "status": "proved",
   "theorems": [
    "Strigi.Props.C49_memory_safe"
   ],
   "note": "input of known size, shorter than 2^31 bytes; what remains is signed overflow (C99)"
  },
  {
   "property": "C94",
   "status": "proved",
   "theorems": [
    "Strigi.Props.C94_ole",
    "Strigi.Props.C94_ole_all",
    "Strigi.Props.big_shown"
   ],
   "note": "at most 1000 blocks of the small table and 16000 of the ministream (limits of the code); the last block is not one of the extension (C96)"
  },
  {
   "property": "C95",
   "status": "proved",
   "theorems": [
    "Strigi.Props.C95_skipped",
    "Strigi.Props.C94_ole"
   ],
   "note": "proved as a negative result; C94_ole says exactly which streams are presented"
  },
  {
   "property": "C96",
   "status": "proved",
   "theorems": [
    "Strigi.Props.C96_last_block_rejected"
   ],
   "note": "proved as a negative result"
  },
  {
   "property": "C97",
   "status": "proved",
   "theorems": [
    "Strigi.Props.C97_error_lost"
   ],
   "note": "proved as a negative result"
  },
  {
   "property": "C98",
   "status": "proved",
   "theorems": [
    "Strigi.Props.C98_double_delete"
   ],
   "note": "proved as a negative result"
  },
  {
   "property": "C99",
   "status": "proved",
   "theorems": [
    "Strigi.Props.C99_overflow"
   ],
   "note": "proved as a negative result"
  },
  {
   "property": "C100",
   "status": "proved",
   "theorems": [
    "Strigi.Props.C100_unknown_size"
   ],
   "note": "proved as a negative result, for every correct buffered stream that delivers the file"
  },
  {
   "property": "C52",
   "status": "proved",
   "theorems": [
    "Strigi.Props.C52_received",
    "Strigi.Props.C52_answers",
    "Strigi.Props.C52_lost",
    "Strigi.Props.C52_complete",
    "Strigi.Props.C52_memory"
   ],
   "note": "the child and the pipes are arbitrary machines that answer the system calls; writes take all bytes (short ones: C101); proved as a negative result"
  },
  {
   "property": "C101",
   "status": "proved",
   "theorems": [
    "Strigi.Props.C101_short_write"
   ],
   "note": "proved as a negative result"
  },
  {
   "property": "C102",
   "status": "proved",
   "theorems": [
    "Strigi.Props.C102_deadlock"
   ],
   "note": "proved as a negative result"
  },
  {
   "property": "C103",
   "status": "proved",
   "theorems": [
    "Strigi.Props.C103_output"
   ],
   "note": ""
  },
  {
   "property": "C104",
   "status": "proved",
   "theorems": [
    "Strigi.Props.C104_not_killed"
   ],
   "note": "proved as a negative result"
  },
  {
   "property": "C105",
   "status": "proved",
   "theorems": [
    "Strigi.Props.C105_failures",
    "Strigi.Props.C105_input_fails",
    "Strigi.Props.C105_closed_once"
   ],
   "note": ""
  },
  {
   "property": "C106",
   "status": "proved",
   "theorems": [
    "Strigi.Props.C106_marked",
    "Strigi.Props.C106_sized",
    "Strigi.Props.C106_truncated"
   ],
   "note": "for every decoder that meets LzmaSpec"
  },
  {
   "property": "C107",
   "status": "proved",
   "theorems": [
    "Strigi.Props.C107_wrong_header"
   ],
   "note": ""
  },
  {
   "property": "C108",
   "status": "proved",
   "theorems": [
    "Strigi.Props.C108_pending_lost",
    "Strigi.Props.repeat_sized",
    "Strigi.Props.C108_early_mark"
   ],
   "note": "proved as a negative result"
  },
  {
   "property": "C109",
   "status": "proved",
   "theorems": [
    "Strigi.Props.C109_roundtrip"
   ],
   "note": ""
  },
  {
   "property": "C110",
   "status": "proved",
   "theorems": [
    "Strigi.Props.C110_overflow",
    "Strigi.Props.C110_outside",
    "Strigi.Props.C110_empty_signature"
   ],
   "note": "proved as a negative result"
  },
  {
   "property": "C111",
   "status": "proved",
   "theorems": [
    "Strigi.Props.C111_total"
   ],
   "note": ""
  },
  {
   "property": "C112",
   "status": "proved",
   "theorems": [
    "Strigi.Props.C112_stream",
    "Strigi.Props.stored_packs"
   ],
   "note": "deflate is abstract: any compressor with Packs (CompressSpec.lean)"
  },
  {
   "property": "C113",
   "status": "proved",
   "theorems": [
    "Strigi.Props.C113_roundtrip",
    "Strigi.Props.C113_not_gzip"
   ],
   "note": "the second theorem is a negative result"
  },
  {
   "property": "C114",
   "status": "proved",
   "theorems": [
    "Strigi.Props.C114_marked",
    "Strigi.Props.C114_truncated"
   ],
   "note": "Model of LzmaDec.c function by function; specification LzmaFormat.lean; the input stream never fails; malloc failure not modelled."
  },
  {
   "property": "C115",
   "status": "proved",
   "theorems": [
    "Strigi.Props.C115_sized",
    "Strigi.Props.C115_truncated",
    "Strigi.Props.C115_pending_lost"
   ],
   "note": "C115_pending_lost shows with a concrete valid file that the condition on the input going on cannot be dropped."
  },
  {
   "property": "C116",
   "status": "proved",
   "theorems": [
    "Strigi.Props.C116_decoder"
   ],
   "note": "LzmaCalls quantifies over all histories of calls."
  },
  {
   "property": "C117",
   "status": "proved",
   "theorems": [
    "Strigi.Props.C117_props",
    "Strigi.Props.header_props"
   ],
   "note": ""
  },
  {
   "property": "C118",
   "status": "proved",
   "theorems": [
    "Strigi.Props.C118_unmarked",
    "Strigi.Props.C118_whole"
   ],
   "note": ""
  },
  {
   "property": "C119",
   "status": "proved",
   "theorems": [
    "Strigi.Props.C119_sized"
   ],
   "note": ""
  },
  {
   "property": "C120",
   "status": "proved",
   "theorems": [
    "Strigi.Props.C120_none",
    "Strigi.Props.C120_open",
    "Strigi.Props.C120_some",
    "Strigi.Props.C120_stat_fails",
    "Strigi.Props.C120_stat",
    "Strigi.Props.C120_trailing_slash"
   ],
   "note": "the operating system is a function of the path; PathOf and LastComponent are the specification"
  },
  {
   "property": "C121",
   "status": "proved",
   "theorems": [
    "Strigi.Props.C121_broken",
    "Strigi.Props.C121_reported",
    "Strigi.Props.C121_hidden",
    "Strigi.Props.C121_shrunk",
    "Strigi.Props.C121_grown"
   ],
   "note": "IsStream over the readable bytes followed by anything: the end is never reported"
  },
  {
   "property": "C122",
   "status": "proved",
   "theorems": [
    "Strigi.Props.C122_error_code",
    "Strigi.Props.C122_error_forgotten",
    "Strigi.Props.C122_grown_fault"
   ],
   "note": "defects, shown for all contents"
  },
  {
   "property": "C123",
   "status": "proved",
   "theorems": [
    "Strigi.Props.C123_strcasecmp",
    "Strigi.Props.C123_strncasecmp",
    "Strigi.Props.C123_strncasecmp_zero",
    "Strigi.Props.C123_order_refuted"
   ],
   "note": "tolower of the C locale"
  },
  {
   "property": "C124",
   "status": "proved",
   "theorems": [
    "Strigi.Props.C124_strcasestr",
    "Strigi.Props.C124_case_sensitive",
    "Strigi.Props.C124_base64_missed",
    "Strigi.Props.C124_isblank"
   ],
   "note": ""
  },
  {
   "property": "C125",
   "status": "proved",
   "theorems": [
    "Strigi.Props.C125_ar"
   ],
   "note": "Robust and Visits are in SafetySpec.lean"
  },
  {
   "property": "C126",
   "status": "proved",
   "theorems": [
    "Strigi.Props.C126_tar",
    "Strigi.Props.C126_longlink_digits",
    "Strigi.Props.C126_longlink_empty"
   ],
   "note": "files without LongLink; the other two theorems show why"
  },
  {
   "property": "C127",
   "status": "proved",
   "theorems": [
    "Strigi.Props.C127_cpio",
    "Strigi.Props.C127_negative_name",
    "Strigi.Props.C127_endless"
   ],
   "note": "condition Sane (CpioSpec.lean); the other two theorems (and C40, C65) show why"
  },
  {
   "property": "C128",
   "status": "proved",
   "theorems": [
    "Strigi.Props.C128_streams",
    "Strigi.Props.C128_mmap_negative"
   ],
   "note": "the exception is a negative result"
  },
  {
   "property": "C129",
   "status": "proved",
   "theorems": [
    "Strigi.Props.C129_gzip",
    "Strigi.Props.C129_bz2"
   ],
   "note": "for decompressors whose output is bounded in terms of the input (Tidy); the bound on memory is that of the theorem"
  },
  {
   "property": "C130",
   "status": "proved",
   "theorems": [
    "Strigi.Props.C130_zip"
   ],
   "note": "condition on the bytes: ZipSpec.Sane; an empty name is the defect C77"
  },
  {
   "property": "C131",
   "status": "proved",
   "theorems": [
    "Strigi.Props.C131_sdf"
   ],
   "note": ""
  },
  {
   "property": "C132",
   "status": "proved",
   "theorems": [
    "Strigi.Props.C132_mail",
    "Strigi.Props.C132_streams"
   ],
   "note": "Generic over inputs that are Robust, never fail and keep their last read (Rewinds); C132_streams shows that the in-memory, mapped, seekable and buffered files are such inputs. Size below 2 GB because the code narrows differences of positions to 32 bits."
  },
  {
   "property": "C133",
   "status": "proved",
   "theorems": [
    "Strigi.Props.C133_no_limit",
    "Strigi.Props.C133_string_limit",
    "Strigi.Props.C133_terminated_limit",
    "Strigi.Props.C133_terminated_negative"
   ],
   "note": "The positive part holds for every reachable state; the exceptions are proved as theorems (a defect)."
  },
  {
   "property": "C134",
   "status": "proved",
   "theorems": [
    "Strigi.Props.C134_nested",
    "Strigi.Props.C134_empty_table",
    "Strigi.Props.C134_reset_ahead"
   ],
   "note": "The requirement of the SD file reader (no refused reset) is sufficient; whether it is necessary is open. Mail, OLE, RPM and LZMA readers are not part of the nesting."
  },
  {
   "property": "C135",
   "status": "proved",
   "theorems": [
    "Strigi.Props.C135_stored"
   ],
   "note": ""
  },
  {
   "property": "C136",
   "status": "proved",
   "theorems": [
    "Strigi.Props.C136_parts",
    "Strigi.Props.C136_zip",
    "Strigi.Props.C136_buffered"
   ],
   "note": "Each theorem turns a Presents statement (C36-C38, C41, C51, OLE, RPM on inputs that tolerate resets to any position) into PresentsNested. The readers that may be opened inside are those of C134, on contents that meet their requirements. Mails are not covered (their Presents statements do not allow arbitrary resets)."
  },
  {
   "property": "C137",
   "status": "proved",
   "theorems": [
    "Strigi.Props.C137_cpio",
    "Strigi.Props.C137_cpio_any",
    "Strigi.Props.C137_prompt_needed"
   ],
   "note": "Inputs must be Prompt; prompt_stringStream, prompt_buffered and prompt_mmap show that the streams of the library are."
  },
  {
   "property": "C138",
   "status": "proved",
   "theorems": [
    "Strigi.Props.C138_rest",
    "Strigi.Props.C138_nothing",
    "Strigi.Props.C138_zeros",
    "Strigi.Props.C138_content",
    "Strigi.Props.C138_complete",
    "Strigi.Props.C138_lost",
    "Strigi.Props.C138_long_name",
    "Strigi.Props.C138_second_header",
    "Strigi.Props.C138_any"
   ],
   "note": "C138_any covers every cut; the others say precisely what happens at each kind of position."
  },
  {
   "property": "C139",
   "status": "proved",
   "theorems": [
    "Strigi.Props.C139_header",
    "Strigi.Props.C139_boundary",
    "Strigi.Props.C139_content",
    "Strigi.Props.C139_symbols",
    "Strigi.Props.C139_names",
    "Strigi.Props.C139_any"
   ],
   "note": "C139_any covers every cut; the others say precisely what happens at each kind of position."
  },
  {
   "property": "C140",
   "status": "proved",
   "theorems": [
    "Strigi.Props.C140_tar",
    "Strigi.Props.C140_cpio",
    "Strigi.Props.C140_ar",
    "Strigi.Props.C140_sdf",
    "Strigi.Props.C140_zip",
    "Strigi.Props.C140_inputs",
    "Strigi.Props.C140_mail_masked",
    "Strigi.Props.C140_mail_new_masked"
   ],
   "note": "Conditional on calls that return (see C125-C132 for that). The mail reader's behaviour is a proved defect."
  },
  {
   "property": "C141",
   "status": "proved",
   "theorems": [
    "Strigi.Props.C141_same",
    "Strigi.Props.C141_unopened",
    "Strigi.Props.C141_skip_hides",
    "Strigi.Props.C141_unmapped",
    "Strigi.Props.C141_null"
   ],
   "note": "A negative result: skip() forgets that the file could not be opened or mapped."
  },
  {
   "property": "C142",
   "status": "proved",
   "theorems": [
    "Strigi.Props.C142_bound",
    "Strigi.Props.C142_new",
    "Strigi.Props.C142_32",
    "Strigi.Props.C142_overflow"
   ],
   "note": "The last theorem is a negative result: the bound 2^30 is sharp."
  },
  {
   "property": "C143",
   "status": "proved",
   "theorems": [
    "Strigi.Props.C143_lzma",
    "Strigi.Props.C143_most",
    "Strigi.Props.C143_nested"
   ],
   "note": "With the model of the bundled decoder. malloc does not fail."
  },
  {
   "property": "C144",
   "status": "proved",
   "theorems": [
    "Strigi.Props.C144_rpm",
    "Strigi.Props.C144_nested"
   ],
   "note": "With the model of the bundled lzma decoder; zlib and libbz2 are assumed to behave as `Tidy` says."
  },
  {
   "property": "C145",
   "status": "proved",
   "theorems": [
    "Strigi.Props.C145_header",
    "Strigi.Props.C145_directory",
    "Strigi.Props.C145_swallowed",
    "Strigi.Props.C145_boundary",
    "Strigi.Props.C145_stored",
    "Strigi.Props.C145_streamed",
    "Strigi.Props.C145_deflated"
   ],
   "note": "C145_swallowed and C145_deflated are negative results (defects). A cut inside a data descriptor is C78. Data of which not a single byte is there (cut directly behind the header) is not covered."
  },
  {
   "property": "C146",
   "status": "proved",
   "theorems": [
    "Strigi.Props.C146_inherited",
    "Strigi.Props.C146_string",
    "Strigi.Props.C146_buffered",
    "Strigi.Props.C146_mmap",
    "Strigi.Props.C146_file",
    "Strigi.Props.C146_entry",
    "Strigi.Props.C146_entry_after"
   ],
   "note": "Mostly negative results (defects)."
  },
  {
   "property": "C147",
   "status": "proved",
   "theorems": [
    "Strigi.Props.C147_lost",
    "Strigi.Props.C147_dropped",
    "Strigi.Props.C147_overflow",
    "Strigi.Props.vowels_holds"
   ],
   "note": "Negative results. iconv() is abstract: that glibc works as `HoldsBack` says is an assumption about it."
  },
  {
   "property": "C148",
   "status": "proved",
   "theorems": [
    "Strigi.Props.C148_text",
    "Strigi.Props.C148_unchanged",
    "Strigi.Props.C148_stateless",
    "Strigi.Props.C148_proper",
    "Strigi.Props.C148_carried",
    "Strigi.Props.jis_lawful"
   ],
   "note": "C148_carried is a negative result. iconv() is abstract."
  },
  {
   "property": "C149",
   "status": "proved",
   "theorems": [
    "Strigi.Props.C149_gzip",
    "Strigi.Props.C149_gzip_same",
    "Strigi.Props.C149_bz2",
    "Strigi.Props.C149_bz2_same",
    "Strigi.Props.C149_bz2_wrong_magic",
    "Strigi.Props.C149_no_memory",
    "Strigi.Props.C149_lzma",
    "Strigi.Props.C149_lzma_same",
    "Strigi.Props.C149_compress",
    "Strigi.Props.C149_compress_same",
    "Strigi.Props.C149_compress_no_memory"
   ],
   "note": "C149_bz2_wrong_magic, C149_no_memory and C149_compress_no_memory are negative results (defects). That `…Init` leaves the pointer alone without memory, and `…End` sets it to null, are assumptions about zlib and libbz2."
  },
  {
   "property": "C150",
   "status": "proved",
   "theorems": [
    "Strigi.Props.C150_gzip",
    "Strigi.Props.C150_compress",
    "Strigi.Props.C150_base64",
    "Strigi.Props.C150_encoding",
    "Strigi.Props.C150_part",
    "Strigi.Props.C150_bz2_lzma",
    "Strigi.Props.C150_cut",
    "Strigi.Props.C150_cut_lzma",
    "Strigi.Props.C150_texts_only"
   ],
   "note": "C150_cut (bz2) and C150_cut_lzma are negative results (defects). Texts that contain numbers or strerror() are reduced to their constant part. Constructors that fail because of the library (no memory, unknown encoding) are not part of these theorems."
  },
  {
   "property": "C151",
   "status": "proved",
   "theorems": [
    "Strigi.Props.C151_history",
    "Strigi.Props.C151_witness_unstarted",
    "Strigi.Props.C151_witness_stale_listing",
    "Strigi.Props.C151_witness_stale_cache",
    "Strigi.Props.C151_witness_deleted_tree"
   ],
   "note": "The witnesses are negative results (defects). Destruction of DirListers, open streams and several openers are not part of these histories."
  },
  {
   "property": "C152",
   "status": "proved",
   "theorems": [
    "Strigi.Props.C152_walk",
    "Strigi.Props.C152_nested",
    "Strigi.Props.C152_listing",
    "Strigi.Props.C152_kind",
    "Strigi.Props.C152_none",
    "Strigi.Props.C152_text",
    "Strigi.Props.C152_empty",
    "Strigi.Props.C152_tar",
    "Strigi.Props.C152_ar",
    "Strigi.Props.C152_zip",
    "Strigi.Props.C152_example",
    "Strigi.Props.C152_colon",
    "Strigi.Props.C152_untold",
    "Strigi.Props.C152_lzma"
   ],
   "note": "C152_colon, C152_untold and C152_lzma are negative results (defects). That the layers of compression are gzip and bz2 only, that the archives are tar, cpio, ar, sdf and zip files, and that a file is not taken for two formats, are hypotheses (Holds); mails and rpm files in archives are not described by Holds."
  },
  {
   "property": "C153",
   "status": "partial",
   "theorems": [
    "Strigi.Props.C153_partial",
    "Strigi.Props.C153_checks",
    "Strigi.Props.C153_unpack",
    "Strigi.Props.C153_stored",
    "Strigi.Props.C153_ends",
    "Strigi.Props.C153_empty_table"
   ],
   "note": "Missing: the readers of mails and RPM packages; that the listing ends if archives contain compressed data (C153_unpack and C153_ends: it ends for layers of compression only, and for archives with stored entries only). C153_empty_table is a negative result (defect)."
  },
  {
   "property": "C154",
   "status": "proved",
   "theorems": [
    "Strigi.Props.C154_streams_are_deleted_once",
    "Strigi.Props.C154_closed_streams_leave_nothing"
   ],
   "note": "What is found in the files is an arbitrary script, so all files and openers are covered; of a provider its entry stream is modelled (for the streams behind it see C155). DirListers and the cache are not part of it (C92, C93, C151)."
  },
  {
   "property": "C155",
   "status": "proved",
   "theorems": [
    "Strigi.Props.C155_tar_ar",
    "Strigi.Props.C155_zip",
    "Strigi.Props.C155_mail",
    "Strigi.Props.C155_sdf",
    "Strigi.Props.C155_rpm",
    "Strigi.Props.C155_ole_ended",
    "Strigi.Props.C155_ole_at_an_entry"
   ],
   "note": "C155_ole_at_an_entry is a negative result (defect): a double deletion."
  },
  {
   "property": "C156",
   "status": "proved",
   "theorems": [
    "Strigi.Props.C156_several",
    "Strigi.Props.C156_history",
    "Strigi.Props.C156_openStream_file",
    "Strigi.Props.C156_openStream",
    "Strigi.Props.C156_isArchive",
    "Strigi.Props.C156_canHandle",
    "Strigi.Props.C156_order",
    "Strigi.Props.C156_exists",
    "Strigi.Props.C156_witness_unreadable",
    "Strigi.Props.C156_witness_canHandle"
   ],
   "note": "C156_witness_unreadable and C156_witness_canHandle are negative results (defect). isArchive and canHandle are stated for a new reader; in a history they do to the reader what localStat does."
  },
  {
   "property": "C157",
   "status": "proved",
   "theorems": [
    "Strigi.Props.C157_run",
    "Strigi.Props.C157_copied",
    "Strigi.Props.C157_shared",
    "Strigi.Props.C157_no_length",
    "Strigi.Props.C157_copy",
    "Strigi.Props.C157_share",
    "Strigi.Props.C157_witness_too_long",
    "Strigi.Props.C157_witness_endless"
   ],
   "note": "C157_witness_too_long and C157_witness_endless are negative results (signed overflow near 2^31)."
  },
  {
   "property": "C158",
   "status": "proved",
   "theorems": [
    "Strigi.Props.C158_buffered",
    "Strigi.Props.C158_subInputStream",
    "Strigi.Props.C158_signature",
    "Strigi.Props.C158_stringTerminated",
    "Strigi.Props.C158_dataEvent"
   ],
   "note": "That the resets succeed is not part of it (for the BufferedStream see the properties about reset). For the DataEventInputStream it is shown for resets backwards only: a reset forwards calls skip. Of the BufferedStream the pointer is an index into the memory of its buffer."
  }
 ]
}
c("C61","proved","C61_sub_size_unknown_at_eof C61_terminated_size_unknown_at_eof","witnesses that the documented claim is false")
c("C62","proved","C62_skip_empty_substream","witness")

c("C32","proved","C32_mmap_isStream C32_mmap_reset_skip","")
c("C33","proved","C33_skippingfile_isStream C33_end_is_zero C33_unknown_size_overshoot","full contract for files with a known size; with unknown size a witness that skip leaves the file")
c("C34","proved","C34_wrong_bytes_after_skip C34_forward_reset_fails C34_reads_only","the defect is exhibited; reads alone are correct")
c("C63","proved","C63_file_isStream","")

c("C18","proved","C18_sound C18_first C18_slips C18_exact C18_short C18_no_slip C18_borders C18_missed_occurrence C18_full_statement_false","that every query is found is false of the code (C18_full_statement_false); the queries that can be missed are described exactly (C18_exact)")
c("C19","proved","C19_no_fault C19_empty_query","")

c("C20","proved","C20_isStream C20_read_all","for terminators that KmpSearcher handles (see C18), parents that do not fail while reading and contents below 2^31 bytes (see C64)")
c("C21","proved","C21_parent_after_terminator C21_reset_at_end","same hypotheses as C20; a reset to the end afterwards moves the parent back (witness)")
c("C22","proved","C22_default_arguments C22_witness","")
c("C64","proved","C64_large_offset C64_witness","")

c("C23","proved","C23_events_contract C23_events C23_transparent","contents below 2^31 bytes; C23_events_contract covers inputs that fail")
c("C24","proved","C24_handleEnd C24_end_is_reported C24_not_called_after_fast_skip","")

c("C25","proved","C25_decodes C25_read_all","")
c("C26","proved","C26_isStream C26_witness_truncated","")
c("C27","proved","C27_decode C27_decode_encode C27_witness_empty","")

c("C28","proved","C28_characterised C28_accepts_xml C28_what_else C28_not_a_validator","")
c("C29","proved","C29_agrees C29_error C29_incomplete","")
c("C30","proved","C30_only_line_breaks C30_valid_text C30_witness_invalid","")
c("C31","proved","C31_16 C31_32 C31_64 C31_unsigned_char_overloads C31_witness_overload","little-endian machine; the defect of two overloads is exhibited")
c("C42","proved","C42_dos_fields C42_before_16 C42_after_16","up to mktime; the wrong hour mask is exhibited")

c("C38","proved","C38_roundtrip C38_no_trailer","inputs that do not fail; sizes and times below 2^31")
c("C39","proved","C39_hex C39_hex_negative","")
c("C40","proved","C40_overrun C40_safe","the over-read is exhibited for every header of the described kind; all other name fields are safe")
c("C65","proved","C65_cpio_negative_size","witness")
c("C66","proved","C66_zero_terminated","")
c("C35","proved","C36_roundtrip","Presents ranges over everything the client may do with each entry stream; well-formed archives (plain and GNU long names) on inputs that do not fail")
c("C36","proved","C36_roundtrip","sizes and times below 2^31")
c("C37","proved","C37_roundtrip C37_not_an_archive","GNU name tables included; the archive starts at an even position")
c("C67","proved","C67_two_blocks C67_stringStream","")
c("C68","proved","C68_long_name","")
c("C55","proved","C55_gzip C55_gzip_file C55_gzip_wrong_magic C55_bz2 C55_bz2_wrong_magic C55_truncated","zlib and libbz2 are abstract: any decompressor satisfying Unpacks")
c("C43","proved","C43_decode_encode C43_any_text","")
c("C44","proved","C44_checkHeader C44_prefix_closed C44_ascii","")
c("C57","proved","C57_transparent C57_isStream","a new signature stream starts at 0 whatever the position of its input: C69")
c("C59","proved","C59_zip C59_ar C59_cpio C59_rpm C59_ole C59_gzip C59_bz2 C59_lzma C59_tar","")
c("C69","proved","C69_position","proved as a negative result: the positions differ")
c("C70","proved","C70_header_value C70_total C70_base64_word","iconv is an arbitrary function conv")
c("C71","proved","C71_fold_loses_character","proved as a negative result")
c("C72","proved","C72_reads_beyond","proved as a negative result")
c("C50","proved","C50_skip80Line C50_checkHeader","")
c("C51","proved","C51_entries C51_mol C51_stringStream","the lost character of every further record is part of the statement; inputs that hand out each record and its delimiter in one piece (Whole), and all in-memory streams; see C74 for other inputs")
c("C58","proved","C58_sniff C58_empty","inputs with at least four bytes left or none; see C73 for the others")
c("C73","proved","C73_short_input","proved as a negative result")
c("C74","proved","C74_chunks","proved as a negative result")
c("C41","proved","C41_roundtrip","inflate() is assumed to be a correct decompressor (Unpacks); hours from 16 on as in C42")
c("C75","proved","C75_short","proved as a negative result")
c("C76","proved","C76_unknown_method","proved as a negative result")
c("C77","proved","C77_empty_name","proved as a negative result (out-of-bounds access)")
c("C78","proved","C78_truncated","")
c("C60","proved","C60_line C60_last_line C60_unique C60_first","lines of less than 2^20 bytes; what counts as a line break is spelled out in MimeSpec.Ends")
c("C79","proved","C79_multipart","lines below 2^20 bytes, boundaries that the search handles (C18)")
c("C80","proved","C80_fields C80_short_field","")
c("C81","proved","C81_body","")
c("C82","proved","C82_headless","")
c("C83","proved","C83_written","")
c("C84","proved","C84_lost_line","proved as a negative result")
c("C85","proved","C85_quoted C85_blank","the second one is a negative result")
c("C86","proved","C86_last_part","proved as a negative result")
c("C56","proved","C56_text C56_converted C56_read_all C56_broken C56_broken_never_ends C56_either C56_witness_long utf8_lawful utf8_single latin1_lawful utf16_lawful","iconv() is abstract; refuted for conversions of one character to several items (C56_witness_long)")
c("C45","proved","C45_lookup C45_last C45_parents C45_none C45_witness_lost","as stated in the list it is refuted where an entry is added at a directory above an earlier one (C45_witness_lost); C45_lookup is the exact result")
c("C46","proved","C46_root C46_find","")
c("C47","proved","C47_lister C47_root C47_static C47_witness_stale","archives nested at most nine deep (deeper ones: C54); the entries of a directory that the archive mentions late are refuted by C47_witness_stale")
c("C54","proved","C54_safe C54_overrun","proved as a negative result for depth 10 and more")
c("C87","proved","C87_complete","")
c("C53","proved","C53_isArchive C53_witness","proved as a negative result; for a reader without cached listings, one StreamOpener")
c("C88","proved","C88_open C88_missing C88_no_file C88_witness_wrong_entry C88_witness_not_opened","one StreamOpener; which bytes are an archive is abstracted (Contents); refuted where an earlier name is a prefix of the path")
c("C89","proved","C89_canHandle","for a reader without cached listings")
c("C90","proved","C90_dangling C90_removed","proved as a negative result")
c("C91","proved","C91_stat","orderly directories (see C47_witness_stale for others)")
c("C92","proved","C92_counted C92_copy","refuted for copies")
c("C93","proved","C93_witness","proved as a negative result")
c("C48","proved","C48_terminates","input of known size, shorter than 2^31 bytes")
c("C49","proved","C49_memory_safe","input of known size, shorter than 2^31 bytes; what remains is signed overflow (C99)")
c("C94","proved","C94_ole C94_ole_all big_shown","at most 1000 blocks of the small table and 16000 of the ministream (limits of the code); the last block is not one of the extension (C96)")
c("C95","proved","C95_skipped C94_ole","proved as a negative result; C94_ole says exactly which streams are presented")
c("C96","proved","C96_last_block_rejected","proved as a negative result")
c("C97","proved","C97_error_lost","proved as a negative result")
c("C98","proved","C98_double_delete","proved as a negative result")
c("C99","proved","C99_overflow","proved as a negative result")
c("C100","proved","C100_unknown_size","proved as a negative result, for every correct buffered stream that delivers the file")
c("C52","proved","C52_received C52_answers C52_lost C52_complete C52_memory","the child and the pipes are arbitrary machines that answer the system calls; writes take all bytes (short ones: C101); proved as a negative result")
c("C101","proved","C101_short_write","proved as a negative result")
c("C102","proved","C102_deadlock","proved as a negative result")
c("C103","proved","C103_output","")
c("C104","proved","C104_not_killed","proved as a negative result")
c("C105","proved","C105_failures C105_input_fails C105_closed_once","")
c("C106","proved","C106_marked C106_sized C106_truncated","for every decoder that meets LzmaSpec")
c("C107","proved","C107_wrong_header","")
c("C108","proved","C108_pending_lost repeat_sized C108_early_mark","proved as a negative result")
c("C109","proved","C109_roundtrip","")
c("C110","proved","C110_overflow C110_outside C110_empty_signature","proved as a negative result")
c("C111","proved","C111_total","")
c("C112","proved","C112_stream stored_packs","deflate is abstract: any compressor with Packs (CompressSpec.lean)")
c("C113","proved","C113_roundtrip C113_not_gzip","the second theorem is a negative result")
c("C114","proved","C114_marked C114_truncated","Model of LzmaDec.c function by function; specification LzmaFormat.lean; the input stream never fails; malloc failure not modelled.")
c("C115","proved","C115_sized C115_truncated C115_pending_lost","C115_pending_lost shows with a concrete valid file that the condition on the input going on cannot be dropped.")
c("C116","proved","C116_decoder","LzmaCalls quantifies over all histories of calls.")
c("C117","proved","C117_props header_props","")
c("C118","proved","C118_unmarked C118_whole","")
c("C119","proved","C119_sized","")
c("C120","proved","C120_none C120_open C120_some C120_stat_fails C120_stat C120_trailing_slash","the operating system is a function of the path; PathOf and LastComponent are the specification")
c("C121","proved","C121_broken C121_reported C121_hidden C121_shrunk C121_grown","IsStream over the readable bytes followed by anything: the end is never reported")
c("C122","proved","C122_error_code C122_error_forgotten C122_grown_fault","defects, shown for all contents")
c("C123","proved","C123_strcasecmp C123_strncasecmp C123_strncasecmp_zero C123_order_refuted","tolower of the C locale")
c("C124","proved","C124_strcasestr C124_case_sensitive C124_base64_missed C124_isblank","")
c("C125","proved","C125_ar","Robust and Visits are in SafetySpec.lean")
c("C126","proved","C126_tar C126_longlink_digits C126_longlink_empty","files without LongLink; the other two theorems show why")
c("C127","proved","C127_cpio C127_negative_name C127_endless","condition Sane (CpioSpec.lean); the other two theorems (and C40, C65) show why")
c("C128","proved","C128_streams C128_mmap_negative","the exception is a negative result")
c("C129","proved","C129_gzip C129_bz2","for decompressors whose output is bounded in terms of the input (Tidy); the bound on memory is that of the theorem")
c("C130","proved","C130_zip","condition on the bytes: ZipSpec.Sane; an empty name is the defect C77")
c("C131","proved","C131_sdf","")
c("C132","proved","C132_mail C132_streams","Generic over inputs that are Robust, never fail and keep their last read (Rewinds); C132_streams shows that the in-memory, mapped, seekable and buffered files are such inputs. Size below 2 GB because the code narrows differences of positions to 32 bits.")
c("C133","proved","C133_no_limit C133_string_limit C133_terminated_limit C133_terminated_negative","The positive part holds for every reachable state; the exceptions are proved as theorems (a defect).")
c("C134","proved","C134_nested C134_empty_table C134_reset_ahead","The requirement of the SD file reader (no refused reset) is sufficient; whether it is necessary is open. Mail, OLE, RPM and LZMA readers are not part of the nesting.")
c("C135","proved","C135_stored","")
c("C136","proved","C136_parts C136_zip C136_buffered","Each theorem turns a Presents statement (C36-C38, C41, C51, OLE, RPM on inputs that tolerate resets to any position) into PresentsNested. The readers that may be opened inside are those of C134, on contents that meet their requirements. Mails are not covered (their Presents statements do not allow arbitrary resets).")
c("C137","proved","C137_cpio C137_cpio_any C137_prompt_needed","Inputs must be Prompt; prompt_stringStream, prompt_buffered and prompt_mmap show that the streams of the library are.")
c("C138","proved","C138_rest C138_nothing C138_zeros C138_content C138_complete C138_lost C138_long_name C138_second_header C138_any","C138_any covers every cut; the others say precisely what happens at each kind of position.")
c("C139","proved","C139_header C139_boundary C139_content C139_symbols C139_names C139_any","C139_any covers every cut; the others say precisely what happens at each kind of position.")
c("C140","proved","C140_tar C140_cpio C140_ar C140_sdf C140_zip C140_inputs C140_mail_masked C140_mail_new_masked","Conditional on calls that return (see C125-C132 for that). The mail reader's behaviour is a proved defect.")
c("C141","proved","C141_same C141_unopened C141_skip_hides C141_unmapped C141_null","A negative result: skip() forgets that the file could not be opened or mapped.")
c("C142","proved","C142_bound C142_new C142_32 C142_overflow","The last theorem is a negative result: the bound 2^30 is sharp.")
c("C143","proved","C143_lzma C143_most C143_nested","With the model of the bundled decoder. malloc does not fail.")
c("C144","proved","C144_rpm C144_nested","With the model of the bundled lzma decoder; zlib and libbz2 are assumed to behave as `Tidy` says.")
c("C145","proved","C145_header C145_directory C145_swallowed C145_boundary C145_stored C145_streamed C145_deflated","C145_swallowed and C145_deflated are negative results (defects). A cut inside a data descriptor is C78. Data of which not a single byte is there (cut directly behind the header) is not covered.")
c("C146","proved","C146_inherited C146_string C146_buffered C146_mmap C146_file C146_entry C146_entry_after","Mostly negative results (defects).")
c("C147","proved","C147_lost C147_dropped C147_overflow vowels_holds","Negative results. iconv() is abstract: that glibc works as `HoldsBack` says is an assumption about it.")
c("C148","proved","C148_text C148_unchanged C148_stateless C148_proper C148_carried jis_lawful","C148_carried is a negative result. iconv() is abstract.")
c("C149","proved","C149_gzip C149_gzip_same C149_bz2 C149_bz2_same C149_bz2_wrong_magic C149_no_memory C149_lzma C149_lzma_same C149_compress C149_compress_same C149_compress_no_memory","C149_bz2_wrong_magic, C149_no_memory and C149_compress_no_memory are negative results (defects). That `…Init` leaves the pointer alone without memory, and `…End` sets it to null, are assumptions about zlib and libbz2.")
c("C150","proved","C150_gzip C150_compress C150_base64 C150_encoding C150_part C150_bz2_lzma C150_cut C150_cut_lzma C150_texts_only","C150_cut (bz2) and C150_cut_lzma are negative results (defects). Texts that contain numbers or strerror() are reduced to their constant part. Constructors that fail because of the library (no memory, unknown encoding) are not part of these theorems.")
c("C151","proved","C151_history C151_witness_unstarted C151_witness_stale_listing C151_witness_stale_cache C151_witness_deleted_tree","The witnesses are negative results (defects). Destruction of DirListers, open streams and several openers are not part of these histories.")
c("C152","proved","C152_walk C152_nested C152_listing C152_kind C152_none C152_text C152_empty C152_tar C152_ar C152_zip C152_example C152_colon C152_untold C152_lzma","C152_colon, C152_untold and C152_lzma are negative results (defects). That the layers of compression are gzip and bz2 only, that the archives are tar, cpio, ar, sdf and zip files, and that a file is not taken for two formats, are hypotheses (Holds); mails and rpm files in archives are not described by Holds.")
c("C153","partial","C153_partial C153_checks C153_unpack C153_stored C153_ends C153_empty_table","Missing: the readers of mails and RPM packages; that the listing ends if archives contain compressed data (C153_unpack and C153_ends: it ends for layers of compression only, and for archives with stored entries only). C153_empty_table is a negative result (defect).")
c("C154","proved","C154_streams_are_deleted_once C154_closed_streams_leave_nothing","What is found in the files is an arbitrary script, so all files and openers are covered; of a provider its entry stream is modelled (for the streams behind it see C155). DirListers and the cache are not part of it (C92, C93, C151).")
c("C155","proved","C155_tar_ar C155_zip C155_mail C155_sdf C155_rpm C155_ole_ended C155_ole_at_an_entry","C155_ole_at_an_entry is a negative result (defect): a double deletion.")
c("C156","proved","C156_several C156_history C156_openStream_file C156_openStream C156_isArchive C156_canHandle C156_order C156_exists C156_witness_unreadable C156_witness_canHandle","C156_witness_unreadable and C156_witness_canHandle are negative results (defect). isArchive and canHandle are stated for a new reader; in a history they do to the reader what localStat does.")
c("C157","proved","C157_run C157_copied C157_shared C157_no_length C157_copy C157_share C157_witness_too_long C157_witness_endless","C157_witness_too_long and C157_witness_endless are negative results (signed overflow near 2^31).")
c("C158","proved","C158_buffered C158_subInputStream C158_signature C158_stringTerminated C158_dataEvent","That the resets succeed is not part of it (for the BufferedStream see the properties about reset). For the DataEventInputStream it is shown for resets backwards only: a reset forwards calls skip. Of the BufferedStream the pointer is an index into the memory of its buffer.")

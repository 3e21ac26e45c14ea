# Axioms of the theorems in MANIFEST.json

Generated with `#print axioms` (tools/axioms.sh).

* `C01_isStream`: [propext, Classical.choice, Quot.sound]
* `C01_read_exact`: [propext, Quot.sound]
* `C02_read_limits`: [propext, Classical.choice, Quot.sound]
* `C02_max_below_min`: none
* `C03_reset`: [propext, Quot.sound]
* `C04_skip`: [propext, Classical.choice, Quot.sound]
* `C04_skip_narrow`: [propext, Quot.sound]
* `C05_base_skip`: [propext, Classical.choice, Quot.sound]
* `C05_step_limit`: [propext, Classical.choice, Quot.sound]
* `C06_isStream`: [propext, Classical.choice, Quot.sound]
* `C06_read_all`: [propext, Classical.choice, Quot.sound]
* `C06_read_exact`: [propext, Classical.choice, Quot.sound]
* `C07_read_limits`: [propext, Classical.choice, Quot.sound]
* `C08_rewind`: [propext, Classical.choice, Quot.sound]
* `C09_no_fault`: [propext, Classical.choice, Quot.sound]
* `C09_makeSpace`: [propext, Classical.choice, Quot.sound]
* `C10_declared_size`: [propext, Classical.choice, Quot.sound]
* `C10_longer_is_error`: [propext, Classical.choice, Quot.sound]
* `C11_size_at_eof`: [propext, Classical.choice, Quot.sound]
* `C11_size_constant`: [propext, Classical.choice, Quot.sound]
* `C12_error_sticky`: [propext, Quot.sound]
* `C13_skip`: [propext, Classical.choice, Quot.sound]
* `C14_window`: [propext, Classical.choice, Quot.sound]
* `C14_position`: [propext, Classical.choice, Quot.sound]
* `C14_rest`: [propext, Classical.choice, Quot.sound]
* `C15_no_short_success`: [propext, Quot.sound]
* `C15_short_parent`: [propext, Classical.choice, Quot.sound]
* `C16_reset_past_end`: none
* `C17_nested`: [propext, Classical.choice, Quot.sound]
* `C61_sub_size_unknown_at_eof`: none
* `C61_terminated_size_unknown_at_eof`: [propext]
* `C62_skip_empty_substream`: none
* `C32_mmap_isStream`: [propext, Classical.choice, Quot.sound]
* `C32_mmap_reset_skip`: [propext, Classical.choice, Quot.sound]
* `C33_skippingfile_isStream`: [propext, Classical.choice, Quot.sound]
* `C33_end_is_zero`: [propext, Classical.choice, Quot.sound]
* `C33_unknown_size_overshoot`: [propext, Quot.sound]
* `C34_wrong_bytes_after_skip`: none
* `C34_forward_reset_fails`: none
* `C34_reads_only`: [propext, Classical.choice, Quot.sound]
* `C63_file_isStream`: [propext, Classical.choice, Quot.sound]
* `C18_sound`: [propext, Classical.choice, Quot.sound]
* `C18_first`: [propext, Classical.choice, Quot.sound]
* `C18_slips`: [propext, Classical.choice, Quot.sound]
* `C18_exact`: [propext, Classical.choice, Quot.sound]
* `C18_short`: [propext, Classical.choice, Quot.sound]
* `C18_no_slip`: [propext, Quot.sound]
* `C18_borders`: [propext, Classical.choice, Quot.sound]
* `C18_missed_occurrence`: [propext]
* `C18_full_statement_false`: [propext]
* `C19_no_fault`: [propext, Classical.choice, Quot.sound]
* `C19_empty_query`: [propext]
* `C20_isStream`: [propext, Classical.choice, Quot.sound]
* `C20_read_all`: [propext, Classical.choice, Quot.sound]
* `C21_parent_after_terminator`: [propext, Classical.choice, Quot.sound]
* `C21_reset_at_end`: [propext]
* `C22_default_arguments`: [propext, Quot.sound]
* `C22_witness`: [propext]
* `C64_large_offset`: [propext, Quot.sound]
* `C64_witness`: [propext, Quot.sound]
* `C23_events_contract`: [propext, Classical.choice, Quot.sound]
* `C23_events`: [propext, Classical.choice, Quot.sound]
* `C23_transparent`: [propext, Classical.choice, Quot.sound]
* `C24_handleEnd`: [propext, Classical.choice, Quot.sound]
* `C24_end_is_reported`: [propext, Classical.choice, Quot.sound]
* `C24_not_called_after_fast_skip`: none
* `C25_decodes`: [propext, Classical.choice, Quot.sound]
* `C25_read_all`: [propext, Classical.choice, Quot.sound]
* `C26_isStream`: [propext, Classical.choice, Quot.sound]
* `C26_witness_truncated`: [propext]
* `C27_decode`: [propext, Quot.sound]
* `C27_decode_encode`: [propext, Quot.sound]
* `C27_witness_empty`: [propext]
* `C28_characterised`: [propext, Classical.choice, Quot.sound]
* `C28_accepts_xml`: [propext, Classical.choice, Quot.sound]
* `C28_what_else`: [propext, Classical.choice, Quot.sound]
* `C28_not_a_validator`: [propext, Quot.sound]
* `C29_agrees`: [propext, Classical.choice, Quot.sound]
* `C29_error`: [propext, Classical.choice, Quot.sound]
* `C29_incomplete`: [propext, Classical.choice, Quot.sound]
* `C30_only_line_breaks`: [propext, Classical.choice, Quot.sound]
* `C30_valid_text`: [propext, Classical.choice, Quot.sound]
* `C30_witness_invalid`: [propext, Quot.sound]
* `C31_16`: [propext, Classical.choice, Quot.sound]
* `C31_32`: [propext, Classical.choice, Quot.sound]
* `C31_64`: [propext, Classical.choice, Quot.sound]
* `C31_unsigned_char_overloads`: [propext, Classical.choice, Quot.sound]
* `C31_witness_overload`: [propext, Quot.sound]
* `C42_dos_fields`: [propext, Classical.choice, Quot.sound]
* `C42_before_16`: [propext, Classical.choice, Quot.sound]
* `C42_after_16`: [propext, Classical.choice, Quot.sound]
* `C38_roundtrip`: [propext, Classical.choice, Quot.sound]
* `C38_no_trailer`: [propext, Classical.choice, Quot.sound]
* `C39_hex`: [propext, Quot.sound]
* `C39_hex_negative`: [propext]
* `C40_overrun`: [propext, Classical.choice, Quot.sound]
* `C40_safe`: [propext, Classical.choice, Quot.sound]
* `C65_cpio_negative_size`: [propext]
* `C66_zero_terminated`: [propext, Classical.choice, Quot.sound]
* `C36_roundtrip`: [propext, Classical.choice, Quot.sound]
* `C37_roundtrip`: [propext, Classical.choice, Quot.sound]
* `C37_not_an_archive`: [propext, Classical.choice, Quot.sound]
* `C67_two_blocks`: [propext, Classical.choice, Quot.sound]
* `C67_stringStream`: [propext, Classical.choice, Quot.sound]
* `C68_long_name`: [propext, Classical.choice, Quot.sound]
* `C55_gzip`: [propext, Classical.choice, Quot.sound]
* `C55_gzip_file`: [propext, Classical.choice, Quot.sound]
* `C55_gzip_wrong_magic`: [propext, Classical.choice, Quot.sound]
* `C55_bz2`: [propext, Classical.choice, Quot.sound]
* `C55_bz2_wrong_magic`: [propext, Classical.choice, Quot.sound]
* `C55_truncated`: [propext, Classical.choice, Quot.sound]
* `C43_decode_encode`: [propext, Quot.sound]
* `C43_any_text`: [propext, Classical.choice, Quot.sound]
* `C44_checkHeader`: [propext, Classical.choice, Quot.sound]
* `C44_prefix_closed`: [propext, Classical.choice, Quot.sound]
* `C44_ascii`: [propext, Classical.choice, Quot.sound]
* `C57_transparent`: [propext]
* `C57_isStream`: [propext, Classical.choice, Quot.sound]
* `C59_zip`: [propext, Quot.sound]
* `C59_ar`: [propext, Quot.sound]
* `C59_cpio`: [propext, Quot.sound]
* `C59_rpm`: [propext, Quot.sound]
* `C59_ole`: [propext, Quot.sound]
* `C59_gzip`: [propext, Quot.sound]
* `C59_bz2`: [propext, Classical.choice, Quot.sound]
* `C59_lzma`: [propext, Classical.choice, Quot.sound]
* `C59_tar`: [propext, Classical.choice, Quot.sound]
* `C69_position`: [propext, Classical.choice, Quot.sound]
* `C70_header_value`: [propext, Classical.choice, Quot.sound]
* `C70_total`: [propext, Classical.choice, Quot.sound]
* `C70_base64_word`: [propext, Classical.choice, Quot.sound]
* `C71_fold_loses_character`: [propext, Classical.choice, Quot.sound]
* `C72_reads_beyond`: [propext, Classical.choice, Quot.sound]
* `C50_skip80Line`: [propext, Classical.choice, Quot.sound]
* `C50_checkHeader`: [propext, Classical.choice, Quot.sound]
* `C51_entries`: [propext, Classical.choice, Quot.sound]
* `C51_mol`: [propext, Classical.choice, Quot.sound]
* `C51_stringStream`: [propext, Classical.choice, Quot.sound]
* `C58_sniff`: [propext, Classical.choice, Quot.sound]
* `C58_empty`: [propext, Classical.choice, Quot.sound]
* `C73_short_input`: [propext, Classical.choice, Quot.sound]
* `C74_chunks`: [propext, Classical.choice, Quot.sound]
* `C41_roundtrip`: [propext, Classical.choice, Quot.sound]
* `C75_short`: [propext, Classical.choice, Quot.sound]
* `C76_unknown_method`: [propext, Classical.choice, Quot.sound]
* `C77_empty_name`: [propext, Classical.choice, Quot.sound]
* `C78_truncated`: [propext, Classical.choice, Quot.sound]
* `C60_line`: [propext, Classical.choice, Quot.sound]
* `C60_last_line`: [propext, Classical.choice, Quot.sound]
* `C60_unique`: [propext, Classical.choice, Quot.sound]
* `C60_first`: [propext, Classical.choice, Quot.sound]
* `C79_multipart`: [propext, Classical.choice, Quot.sound]
* `C80_fields`: [propext, Classical.choice, Quot.sound]
* `C80_short_field`: [propext, Classical.choice, Quot.sound]
* `C81_body`: [propext, Classical.choice, Quot.sound]
* `C82_headless`: [propext, Classical.choice, Quot.sound]
* `C83_written`: [propext, Classical.choice, Quot.sound]
* `C84_lost_line`: [propext, Classical.choice, Quot.sound]
* `C85_quoted`: [propext, Classical.choice, Quot.sound]
* `C85_blank`: [propext, Classical.choice, Quot.sound]
* `C86_last_part`: [propext, Classical.choice, Quot.sound]
* `C56_text`: [propext, Classical.choice, Quot.sound]
* `C56_converted`: [propext, Classical.choice, Quot.sound]
* `C56_read_all`: [propext, Classical.choice, Quot.sound]
* `C56_broken`: [propext, Classical.choice, Quot.sound]
* `C56_broken_never_ends`: [propext, Classical.choice, Quot.sound]
* `C56_either`: [propext, Quot.sound]
* `C56_witness_long`: [propext, Classical.choice, Quot.sound]
* `utf8_lawful`: [propext, Quot.sound]
* `utf8_single`: [propext, Quot.sound]
* `latin1_lawful`: [propext, Quot.sound]
* `utf16_lawful`: [propext, Quot.sound]
* `C45_lookup`: [propext, Classical.choice, Quot.sound]
* `C45_last`: [propext, Classical.choice, Quot.sound]
* `C45_parents`: [propext, Classical.choice, Quot.sound]
* `C45_none`: [propext, Classical.choice, Quot.sound]
* `C45_witness_lost`: [propext, Classical.choice, Quot.sound]
* `C46_root`: [propext, Classical.choice, Quot.sound]
* `C46_find`: [propext, Classical.choice, Quot.sound]
* `C47_lister`: [propext, Classical.choice, Quot.sound]
* `C47_root`: [propext, Classical.choice, Quot.sound]
* `C47_static`: [propext, Quot.sound]
* `C47_witness_stale`: [propext, Quot.sound]
* `C54_safe`: [propext, Classical.choice, Quot.sound]
* `C54_overrun`: [propext, Classical.choice, Quot.sound]
* `C87_complete`: [propext, Classical.choice, Quot.sound]
* `C53_isArchive`: [propext]
* `C53_witness`: none
* `C88_open`: [propext, Classical.choice, Quot.sound]
* `C88_missing`: [propext, Classical.choice, Quot.sound]
* `C88_no_file`: [propext, Classical.choice, Quot.sound]
* `C88_witness_wrong_entry`: [propext]
* `C88_witness_not_opened`: [propext]
* `C89_canHandle`: [propext, Classical.choice, Quot.sound]
* `C90_dangling`: [propext, Quot.sound]
* `C90_removed`: [propext, Quot.sound]
* `C91_stat`: [propext, Classical.choice, Quot.sound]
* `C92_counted`: [propext, Quot.sound]
* `C92_copy`: [propext, Quot.sound]
* `C93_witness`: [propext, Quot.sound]
* `C48_terminates`: [propext, Classical.choice, Quot.sound]
* `C49_memory_safe`: [propext, Classical.choice, Quot.sound]
* `C94_ole`: [propext, Classical.choice, Quot.sound]
* `C94_ole_all`: [propext, Classical.choice, Quot.sound]
* `big_shown`: [propext, Quot.sound]
* `C95_skipped`: [propext, Classical.choice, Quot.sound]
* `C96_last_block_rejected`: [propext, Classical.choice, Quot.sound]
* `C97_error_lost`: [propext, Quot.sound]
* `C98_double_delete`: [propext, Classical.choice, Quot.sound]
* `C99_overflow`: [propext, Classical.choice, Quot.sound]
* `C100_unknown_size`: [propext, Classical.choice, Quot.sound]
* `C52_received`: [propext, Quot.sound]
* `C52_answers`: [propext, Classical.choice, Quot.sound]
* `C52_lost`: [propext, Quot.sound]
* `C52_complete`: [propext, Quot.sound]
* `C52_memory`: [propext, Quot.sound]
* `C101_short_write`: [propext, Classical.choice, Quot.sound]
* `C102_deadlock`: [propext, Classical.choice, Quot.sound]
* `C103_output`: [propext, Classical.choice, Quot.sound]
* `C104_not_killed`: [propext, Quot.sound]
* `C105_failures`: [propext, Classical.choice, Quot.sound]
* `C105_input_fails`: [propext, Quot.sound]
* `C105_closed_once`: [propext, Quot.sound]
* `C106_marked`: [propext, Classical.choice, Quot.sound]
* `C106_sized`: [propext, Classical.choice, Quot.sound]
* `C106_truncated`: [propext, Classical.choice, Quot.sound]
* `C107_wrong_header`: [propext, Classical.choice, Quot.sound]
* `C108_pending_lost`: [propext, Quot.sound]
* `repeat_sized`: [propext, Classical.choice, Quot.sound]
* `C108_early_mark`: [propext, Quot.sound]
* `C109_roundtrip`: [propext, Classical.choice, Quot.sound]
* `C110_overflow`: [propext, Classical.choice, Quot.sound]
* `C110_outside`: [propext, Classical.choice, Quot.sound]
* `C110_empty_signature`: [propext, Classical.choice, Quot.sound]
* `C111_total`: [propext, Classical.choice, Quot.sound]
* `C112_stream`: [propext, Classical.choice, Quot.sound]
* `stored_packs`: [propext, Quot.sound]
* `C113_roundtrip`: [propext, Classical.choice, Quot.sound]
* `C113_not_gzip`: [propext, Classical.choice, Quot.sound]
* `C114_marked`: [propext, Classical.choice, Quot.sound]
* `C114_truncated`: [propext, Classical.choice, Quot.sound]
* `C115_sized`: [propext, Classical.choice, Quot.sound]
* `C115_truncated`: [propext, Classical.choice, Quot.sound]
* `C115_pending_lost`: [propext, Quot.sound]
* `C116_decoder`: [propext, Classical.choice, Quot.sound]
* `C117_props`: [propext, Classical.choice, Quot.sound]
* `header_props`: [propext, Classical.choice, Quot.sound]
* `C118_unmarked`: [propext, Classical.choice, Quot.sound]
* `C118_whole`: [propext, Classical.choice, Quot.sound]
* `C119_sized`: [propext, Classical.choice, Quot.sound]
* `C120_none`: [propext, Quot.sound]
* `C120_open`: [propext, Classical.choice, Quot.sound]
* `C120_some`: [propext, Classical.choice, Quot.sound]
* `C120_stat_fails`: [propext, Quot.sound]
* `C120_stat`: [propext, Classical.choice, Quot.sound]
* `C120_trailing_slash`: [propext, Classical.choice, Quot.sound]
* `C121_broken`: [propext, Classical.choice, Quot.sound]
* `C121_reported`: [propext, Classical.choice, Quot.sound]
* `C121_hidden`: [propext, Classical.choice, Quot.sound]
* `C121_shrunk`: [propext, Classical.choice, Quot.sound]
* `C121_grown`: [propext, Classical.choice, Quot.sound]
* `C122_error_code`: [propext, Classical.choice, Quot.sound]
* `C122_error_forgotten`: [propext, Quot.sound]
* `C122_grown_fault`: [propext, Classical.choice, Quot.sound]
* `C123_strcasecmp`: [propext, Quot.sound]
* `C123_strncasecmp`: [propext, Classical.choice, Quot.sound]
* `C123_strncasecmp_zero`: [propext]
* `C123_order_refuted`: [propext]
* `C124_strcasestr`: [propext, Quot.sound]
* `C124_case_sensitive`: [propext, Quot.sound]
* `C124_base64_missed`: none
* `C124_isblank`: [propext]
* `C125_ar`: [propext, Classical.choice, Quot.sound]
* `C126_tar`: [propext, Classical.choice, Quot.sound]
* `C126_longlink_digits`: [propext]
* `C126_longlink_empty`: [propext]
* `C127_cpio`: [propext, Classical.choice, Quot.sound]
* `C127_negative_name`: [propext]
* `C127_endless`: [propext]
* `C128_streams`: [propext, Classical.choice, Quot.sound]
* `C128_mmap_negative`: none
* `C129_gzip`: [propext, Classical.choice, Quot.sound]
* `C129_bz2`: [propext, Classical.choice, Quot.sound]
* `C130_zip`: [propext, Classical.choice, Quot.sound]
* `C131_sdf`: [propext, Classical.choice, Quot.sound]
* `C132_mail`: [propext, Classical.choice, Quot.sound]
* `C132_streams`: [propext, Classical.choice, Quot.sound]
* `C133_no_limit`: [propext, Classical.choice, Quot.sound]
* `C133_string_limit`: [propext, Quot.sound]
* `C133_terminated_limit`: [propext, Classical.choice, Quot.sound]
* `C133_terminated_negative`: [propext]
* `C134_nested`: [propext, Classical.choice, Quot.sound]
* `C134_empty_table`: [propext]
* `C134_reset_ahead`: [propext]
* `C135_stored`: [propext, Classical.choice, Quot.sound]
* `C136_parts`: [propext, Classical.choice, Quot.sound]
* `C136_zip`: [propext, Classical.choice, Quot.sound]
* `C136_buffered`: [propext, Classical.choice, Quot.sound]
* `C137_cpio`: [propext, Classical.choice, Quot.sound]
* `C137_cpio_any`: [propext, Classical.choice, Quot.sound]
* `C137_prompt_needed`: [propext]
* `C138_rest`: [propext, Classical.choice, Quot.sound]
* `C138_nothing`: [propext, Classical.choice, Quot.sound]
* `C138_zeros`: [propext, Classical.choice, Quot.sound]
* `C138_content`: [propext, Classical.choice, Quot.sound]
* `C138_complete`: [propext, Classical.choice, Quot.sound]
* `C138_lost`: [propext, Classical.choice, Quot.sound]
* `C138_long_name`: [propext, Classical.choice, Quot.sound]
* `C138_second_header`: [propext, Classical.choice, Quot.sound]
* `C138_any`: [propext, Classical.choice, Quot.sound]
* `C139_header`: [propext, Classical.choice, Quot.sound]
* `C139_boundary`: [propext, Classical.choice, Quot.sound]
* `C139_content`: [propext, Classical.choice, Quot.sound]
* `C139_symbols`: [propext, Classical.choice, Quot.sound]
* `C139_names`: [propext, Classical.choice, Quot.sound]
* `C139_any`: [propext, Classical.choice, Quot.sound]
* `C140_tar`: [propext, Classical.choice, Quot.sound]
* `C140_cpio`: [propext, Classical.choice, Quot.sound]
* `C140_ar`: [propext, Classical.choice, Quot.sound]
* `C140_sdf`: [propext]
* `C140_zip`: [propext, Classical.choice, Quot.sound]
* `C140_inputs`: [propext, Quot.sound]
* `C140_mail_masked`: [propext, Quot.sound]
* `C140_mail_new_masked`: [propext, Quot.sound]
* `C141_same`: [propext, Quot.sound]
* `C141_unopened`: [propext, Quot.sound]
* `C141_skip_hides`: [propext, Quot.sound]
* `C141_unmapped`: [propext, Quot.sound]
* `C141_null`: [propext, Quot.sound]
* `C142_bound`: [propext, Classical.choice, Quot.sound]
* `C142_new`: [propext, Classical.choice, Quot.sound]
* `C142_32`: [propext, Classical.choice, Quot.sound]
* `C142_overflow`: [propext, Classical.choice, Quot.sound]
* `C143_lzma`: [propext, Classical.choice, Quot.sound]
* `C143_most`: [propext, Classical.choice, Quot.sound]
* `C143_nested`: [propext, Classical.choice, Quot.sound]
* `C144_rpm`: [propext, Classical.choice, Quot.sound]
* `C144_nested`: [propext, Classical.choice, Quot.sound]
* `C145_header`: [propext, Classical.choice, Quot.sound]
* `C145_directory`: [propext, Classical.choice, Quot.sound]
* `C145_swallowed`: [propext, Classical.choice, Quot.sound]
* `C145_boundary`: [propext, Classical.choice, Quot.sound]
* `C145_stored`: [propext, Classical.choice, Quot.sound]
* `C145_streamed`: [propext, Classical.choice, Quot.sound]
* `C145_deflated`: [propext, Classical.choice, Quot.sound]
* `C146_inherited`: [propext, Quot.sound]
* `C146_string`: [propext, Quot.sound]
* `C146_buffered`: [propext, Classical.choice, Quot.sound]
* `C146_mmap`: [propext, Quot.sound]
* `C146_file`: [propext, Quot.sound]
* `C146_entry`: [propext, Quot.sound]
* `C146_entry_after`: [propext, Quot.sound]
* `C147_lost`: [propext, Classical.choice, Quot.sound]
* `C147_dropped`: [propext, Classical.choice, Quot.sound]
* `C147_overflow`: [propext, Classical.choice, Quot.sound]
* `vowels_holds`: none
* `C148_text`: [propext, Quot.sound]
* `C148_unchanged`: [propext, Quot.sound]
* `C148_stateless`: [propext, Quot.sound]
* `C148_proper`: [propext, Quot.sound]
* `C148_carried`: [propext, Quot.sound]
* `jis_lawful`: [propext, Classical.choice, Quot.sound]
* `C149_gzip`: [propext, Classical.choice, Quot.sound]
* `C149_gzip_same`: [propext, Classical.choice, Quot.sound]
* `C149_bz2`: [propext, Classical.choice, Quot.sound]
* `C149_bz2_same`: [propext, Classical.choice, Quot.sound]
* `C149_bz2_wrong_magic`: [propext, Classical.choice, Quot.sound]
* `C149_no_memory`: [propext, Quot.sound]
* `C149_lzma`: [propext, Quot.sound]
* `C149_lzma_same`: [propext, Classical.choice, Quot.sound]
* `C149_compress`: [propext, Quot.sound]
* `C149_compress_same`: [propext, Quot.sound]
* `C149_compress_no_memory`: [propext, Quot.sound]
* `C150_gzip`: [propext, Classical.choice, Quot.sound]
* `C150_compress`: [propext, Quot.sound]
* `C150_base64`: [propext, Quot.sound]
* `C150_encoding`: [propext, Quot.sound]
* `C150_part`: [propext, Classical.choice, Quot.sound]
* `C150_bz2_lzma`: [propext, Classical.choice, Quot.sound]
* `C150_cut`: [propext, Classical.choice, Quot.sound]
* `C150_cut_lzma`: [propext, Classical.choice, Quot.sound]
* `C150_texts_only`: [propext, Quot.sound]
* `C151_history`: [propext, Classical.choice, Quot.sound]
* `C151_witness_unstarted`: [propext, Quot.sound]
* `C151_witness_stale_listing`: [propext, Quot.sound]
* `C151_witness_stale_cache`: [propext, Quot.sound]
* `C151_witness_deleted_tree`: [propext, Quot.sound]
* `C152_walk`: [propext, Classical.choice, Quot.sound]
* `C152_nested`: [propext, Classical.choice, Quot.sound]
* `C152_listing`: [propext, Classical.choice, Quot.sound]
* `C152_kind`: [propext, Classical.choice, Quot.sound]
* `C152_none`: [propext, Classical.choice, Quot.sound]
* `C152_text`: [propext, Classical.choice, Quot.sound]
* `C152_empty`: [propext, Classical.choice, Quot.sound]
* `C152_tar`: [propext, Classical.choice, Quot.sound]
* `C152_ar`: [propext, Classical.choice, Quot.sound]
* `C152_zip`: [propext, Classical.choice, Quot.sound]
* `C152_example`: [propext, Classical.choice, Quot.sound]
* `C152_colon`: [propext, Classical.choice, Quot.sound]
* `C152_untold`: [propext, Quot.sound]
* `C152_lzma`: [propext, Quot.sound]
* `C153_partial`: [propext, Classical.choice, Quot.sound]
* `C153_checks`: [propext, Classical.choice, Quot.sound]
* `C153_unpack`: [propext, Classical.choice, Quot.sound]
* `C153_stored`: [propext, Classical.choice, Quot.sound]
* `C153_ends`: [propext, Classical.choice, Quot.sound]
* `C153_empty_table`: [propext, Quot.sound]
* `C154_streams_are_deleted_once`: [propext, Classical.choice, Quot.sound]
* `C154_closed_streams_leave_nothing`: [propext, Classical.choice, Quot.sound]
* `C155_tar_ar`: [propext, Quot.sound]
* `C155_zip`: [propext, Quot.sound]
* `C155_mail`: [propext, Classical.choice, Quot.sound]
* `C155_sdf`: [propext, Classical.choice, Quot.sound]
* `C155_rpm`: [propext, Quot.sound]
* `C155_ole_ended`: [propext, Quot.sound]
* `C155_ole_at_an_entry`: [propext, Quot.sound]
* `C156_several`: [propext, Quot.sound]
* `C156_history`: [propext, Classical.choice, Quot.sound]
* `C156_openStream_file`: [propext, Quot.sound]
* `C156_openStream`: [propext, Quot.sound]
* `C156_isArchive`: [propext, Quot.sound]
* `C156_canHandle`: [propext, Classical.choice, Quot.sound]
* `C156_order`: [propext, Quot.sound]
* `C156_exists`: [propext, Quot.sound]
* `C156_witness_unreadable`: [propext, Quot.sound]
* `C156_witness_canHandle`: [propext]
* `C157_run`: [propext, Classical.choice, Quot.sound]
* `C157_copied`: [propext, Classical.choice, Quot.sound]
* `C157_shared`: [propext, Quot.sound]
* `C157_no_length`: [propext, Classical.choice, Quot.sound]
* `C157_copy`: [propext, Classical.choice, Quot.sound]
* `C157_share`: [propext, Classical.choice, Quot.sound]
* `C157_witness_too_long`: [propext, Quot.sound]
* `C157_witness_endless`: [propext, Classical.choice, Quot.sound]
* `C158_buffered`: [propext, Classical.choice, Quot.sound]
* `C158_subInputStream`: [propext, Classical.choice, Quot.sound]
* `C158_signature`: none
* `C158_stringTerminated`: [propext, Classical.choice, Quot.sound]
* `C158_dataEvent`: [propext, Classical.choice, Quot.sound]

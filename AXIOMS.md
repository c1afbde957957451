# Axioms of the property theorems

Output of `#print axioms` for every theorem named in `MANIFEST.json`, grouped by the set of axioms.

## propext

`C93_z_refuted`, `C96_refuted`, `C191_two`

## Quot.sound, propext

`C04_base_refuted`, `C05_read_out_of_range`, `C06_write_out_of_range_partial`, `C06_native_refuted`, `C06_ascending_refuted`, `C06_logic_wide_partial`, `C13_refuted`, `C16_refuted`, `C21_one_bit_refuted`, `C24_refuted`, `C25_one_bit_refuted`, `C25_refuted`, `C27_wide_refuted`, `C30_wide_refuted`, `C31_wide_refuted`, `C33_wide_refuted`, `C34_refuted`, `C37_wide_refuted`, `C38_refuted`, `C39_eq_wide_native`, `C39_refuted`, `C39_wide_refuted`, `C40_refuted`, `C40_mixed_storage`, `C42_refuted`, `C43_wide_refuted`, `C44_refuted`, `C45_refuted`, `C46_refuted`, `C47_refuted`, `C49_65_bits`, `C56_update_rt`, `C56_update_swap`, `C60_bits`, `C60_one_bit`, `C60_wide`, `C62_refuted`, `C63_one_bit_refuted`, `C75_refuted`, `C75_empty_refuted`, `C80_refuted`, `C87_refuted`, `C89_refuted`, `C92_one_bit`, `C93_refuted`, `C94_refuted`, `C95_ascending_refuted`, `C97_refuted`, `C104_refuted`, `C105_refuted`, `C106_refuted`, `C108_dirty`, `C109_str_len_partial`, `C109_str_len_refuted`, `C109_copy_refuted`, `C109_reverse_tuple`, `C110_mul_one_limb`, `C112_dirty`, `C125_refuted`, `C128_refuted`, `C129_refuted`, `C130_base_mod`, `C149_symm_wide_native`, `C161_one_bit_refuted`, `C162_others`, `Big.C168_get`, `Big.C168_set`, `Big.C168_negative`, `Big.C168_slice`, `Big.C168_slice_rt`, `Big.C168_extend`, `Big.C168_concat`, `Big.C168_mask_off`, `Big.C168_not`, `Big.C168_and`, `Big.C168_xor`, `Big.C168_or`, `Big.C168_r_xor`, `Big.C168_shr`, `Big.C168_shl`, `Big.C168_shift_amount`, `Big.C168_shr_big`, `Big.C168_shl_big`, `Big.C168_mask`, `Big.C168_ashr`, `Big.C168_ashr_big`, `Big.C168_eq_num`, `Big.C168_gt_mag`, `Big.C168_add`, `Big.C168_negate`, `Big.C168_sub`, `Big.C168_gt`, `Big.C168_all_set`, `Big.C168_is_one`, `Big.C168_fit`, `Big.C168_mul`, `Big.C168_highest_bit`, `Big.C168_to_uint64`, `Big.C168_mul_one_limb`, `C174_one_bit_refuted`, `C187_get`, `C187_top_refuted`, `C191_to_num`, `C191_slice`, `C191_slice_down`, `C191_update_refuted`, `C191_get`, `C195_max_wide_refuted`, `C203_one_bit_refuted`, `C204_u16_refuted`, `C223_refuted`, `C224_x_spreads`, `C227_refuted`, `C230_bool_wide`, `C232_signed_order`, `C234_plain`

## Classical.choice, Quot.sound, propext

`C01_read`, `C01_write_read`, `C01_history`, `C02_read_exact`, `C02_read_ok`, `C02_write_read_partial`, `C02_read_refuted`, `C03_ascending_bit`, `C03_ascending_logic_partial`, `C03_logic_refuted`, `C04_base_bit_partial`, `C04_base_logic_partial`, `C04_base_refuted_all`, `C04_base_iff`, `C04_logic_iff`, `C06_native_exact`, `C06_native_iff`, `C06_one_bit`, `C06_logic_native_exact`, `C07_default_partial`, `C07_refuted`, `C08_xor_table`, `C09_not_table`, `C10_and_table_partial`, `C10_and_table_refuted`, `C11_or_table_partial`, `C11_or_table_refuted`, `C12_xor_mixed_partial`, `C12_disjoint_partial`, `C12_refuted`, `C13_mixed_partial`, `C13_known`, `C13_x_asymmetric`, `C14_bitwise`, `C15_refuted_all`, `C15_bitwise`, `C15_shift`, `C15_arith_partial`, `C15_compare`, `C15_refuted`, `C16_mul_wide_iff`, `C16_across_widths_partial`, `C16_reached_iff`, `C16_reached_logic_iff`, `C16_across_widths_logic_partial`, `C16_signed_bitwise`, `C16_signed_arith`, `C16_signed_sum_iff`, `C16_wide_iff`, `C16_wide_cancel`, `C16_full_widths`, `C16_histories_partial`, `C16_histories_logic_partial`, `C16_add_iff`, `C16_sub_iff`, `C16_not_iff`, `C16_shl_iff`, `C16_expr_iff`, `C16_refuted_all`, `C17_and_partial`, `C17_and_known`, `C17_refuted`, `C17_ascending_refuted`, `C18_or_partial`, `C18_or_known`, `C18_refuted`, `C18_ascending_refuted`, `C19_xor_partial`, `C19_xor_even`, `C19_refuted`, `C20_complement`, `C21_and_partial`, `C21_signed_refuted`, `C21_wide_refuted`, `C22_bool_native`, `C22_bool_partial`, `C22_refuted`, `C23_not_native`, `C23_not_partial`, `C23_refuted`, `C24_shr_partial`, `C24_native_shift_ge`, `C24_shr_logic_partial`, `C24_native_iff`, `C24_refuted_all`, `C25_shl_partial`, `C25_native_shift_ge`, `C25_shl_logic_partial`, `C25_native_exact`, `C25_wrap_refuted`, `C25_one_bit_exact`, `C26_ashr_partial`, `C26_wide_signed_exact`, `C26_wide_refuted`, `C26_native_exact`, `C27_unseen_exact`, `C27_wide_refuted_all`, `C27_shift_x_partial`, `C27_shift_x_native`, `C28_add_partial`, `C28_signed_overflow`, `C28_one_bit`, `C28_refuted`, `C28_add_logic_partial`, `C28_add_iff`, `C29_sub_partial`, `C29_signed_overflow`, `C29_refuted`, `C29_sub_logic_partial`, `C29_sub_iff`, `C30_mul_partial`, `C30_u16_overflow`, `C30_wide_oob`, `C30_refuted`, `C30_mul_logic_partial`, `C30_wide_exact`, `C30_wide_refuted_all`, `C30_signed_overflow`, `C30_wide_negative_oob`, `C31_div_partial`, `C31_div_logic_partial`, `C31_wide_exact`, `C31_wide_refuted_all`, `C32_div_zero_logic`, `C32_div_zero_wide`, `C32_div_zero_native`, `C33_arith_x_partial`, `C33_arith_x_native`, `C33_arith_x_iff`, `C33_unseen_exact`, `C33_wide_refuted_all`, `C34_div_partial`, `C34_div_logic_partial`, `C34_min_overflow`, `C34_div_iff`, `C35_neg_partial`, `C35_add_neg_partial`, `C35_min_overflow`, `C35_refuted`, `C35_neg_logic_partial`, `C35_neg_iff`, `C36_inc_partial`, `C36_dec`, `C36_one_bit`, `C36_inc_dec_logic_partial`, `C36_inc_iff`, `C37_add_sub_mixed`, `C37_mul_mixed_partial`, `C37_mixed_logic`, `C37_mul_wide_exact`, `C37_wide_refuted_all`, `C37_mul_logic`, `C38_eq_partial`, `C38_eq_same_sign`, `C38_refuted_all`, `C39_eq_native_partial`, `C39_eq_native_exact`, `C39_eq_wide_partial`, `C39_wide_exact`, `C39_wide_refuted_all`, `C40_gt_lt`, `C40_ge_le_partial`, `C40_ge_le_exact`, `C40_refuted_all`, `C41_signed_order`, `C42_signed_wide_partial`, `C42_least`, `C43_rel_x_iff`, `C43_wide_refuted_all`, `C43_rel_known`, `C43_rel_x_partial`, `C43_rel_x_native`, `C44_match_partial`, `C44_refuted_all`, `C45_bit_logic_partial`, `C45_mixed_exact`, `C45_refuted_all`, `C46_trichotomy_partial`, `C46_mixed`, `C46_iff`, `C47_zero_extend_partial`, `C47_zero_extend_logic_partial`, `C47_iff`, `C47_refuted_all`, `C48_sign_extend_partial`, `C48_wide_exact`, `C48_refuted`, `C49_slice`, `C49_slice_logic`, `C50_slice_wide`, `C50_slice_partial`, `C50_one_bit`, `C50_refuted`, `C51_slice_partial`, `C51_slice_logic_partial`, `C51_base_partial`, `C51_refuted`, `C51_canonical_iff`, `C52_concat_exact`, `C52_concat_partial`, `C52_concat_logic_partial`, `C52_refuted`, `C52_truncated_exact`, `C52_truncated_refuted`, `C53_unpack_partial`, `C53_refuted`, `C53_signed_refuted`, `C53_signed_exact`, `C53_excess`, `C53_no_bits`, `C54_unpack_concat`, `C54_concat_unpack`, `C55_update_range_partial`, `C55_update_partial`, `C55_fault`, `C55_refuted`, `C55_exact`, `C55_direction_refuted`, `C56_update_rt_bits`, `C57_update_rt_partial`, `C57_update_exact`, `C57_update_partial`, `C57_refuted`, `C57_direction_exact`, `C57_rt_native_exact`, `C57_native_exact`, `C57_native_refuted`, `C58_bits`, `C58_bits_logic`, `C58_round_trip`, `C58_signed_partial`, `C58_refuted`, `C59_num`, `C59_uint64`, `C59_logic_partial`, `C59_logic_native`, `C59_refuted`, `C59_logic_exact`, `C60_clean_iff`, `C60_congr_partial`, `C60_refuted`, `C61_binary_iff`, `C61_binary_exact`, `C61_binary_partial`, `C61_refuted`, `C62_hex_exact`, `C62_hex_partial`, `C62_underscore_refuted`, `C62_lower_exact`, `C63_octal_exact`, `C63_octal_partial`, `C63_octal_64`, `C64_decimal`, `C64_decimal_one`, `C64_wide_exact`, `C64_wide_partial`, `C64_refuted`, `C65_raw_partial`, `C65_one_bit`, `C65_one_bit_refuted`, `C65_raw_wide`, `C66_prefix`, `C66_size`, `C67_wide_partial`, `C67_refuted`, `C68_octal_exact`, `C68_octal_partial`, `C68_refuted`, `C69_exact`, `C69_xz_partial`, `C69_short_partial`, `C69_refuted`, `C69_underscore_refuted`, `C70_native`, `C70_native_2state`, `C70_wide_exact`, `C70_wide_partial`, `C70_refuted`, `C70_2state_exact`, `C70_2state_refuted`, `C71_exact`, `C71_digits_partial`, `C71_refuted`, `C72_exact`, `C72_single_partial`, `C72_refuted`, `C73_decimal_partial`, `C73_refuted`, `C74_digits`, `C75_exact`, `C75_padding_partial`, `C75_huge_refuted`, `C75_2state_exact`, `C75_padding_2state_partial`, `C75_bounds_partial`, `C75_wide_2state_refuted`, `C76_hex_exact`, `C76_hex_partial`, `C76_hex_refuted`, `C76_octal_partial`, `C76_octal_oob_refuted`, `C76_octal_refuted`, `C76_decimal_exact`, `C76_decimal_partial`, `C76_decimal_refuted`, `C77_round_trip_partial`, `C77_refuted`, `C77_native_exact`, `C78_read_partial`, `C78_update_exact`, `C78_update_partial`, `C78_one_bit`, `C78_refuted`, `C79_out_of_range_partial`, `C79_high_base`, `C79_refuted`, `C79_native_exact`, `C79_write_wide_exact`, `C79_write_native_exact`, `C80_slice_partial`, `C80_update_partial`, `C80_refuted_all`, `C81_get`, `C81_update_exact`, `C81_update_partial`, `C81_history_partial`, `C81_refuted`, `C82_history_partial`, `C82_fields_partial`, `C82_refuted`, `C82_2state_exact`, `C82_2state_union_partial`, `C82_refuted_all`, `C83_order_independent`, `C83_tests`, `C84_tests_partial`, `C84_visible_partial`, `C84_refuted`, `C85_bit`, `C85_logic`, `C86_all_set_partial`, `C86_refuted`, `C87_mixed_partial`, `C87_mixed_exact`, `C87_refuted_all`, `C88_or_partial`, `C88_xor_wide`, `C88_refuted`, `C89_wide_exact`, `C89_refuted_all`, `C89_slice_partial`, `C90_bit_static`, `C90_logic_static_partial`, `C90_refuted`, `C90_set_descending`, `C91_narrow`, `C92_assign_int_partial`, `C92_refuted`, `C92_clean_iff`, `C93_assign_partial`, `C93_assign_logic_partial`, `C93_one_bit`, `C93_clean_iff`, `C93_narrow_refuted`, `C93_assign_logic_exact`, `C93_z_refuted_all`, `C94_concat_bits_partial`, `C94_concat_logic_partial`, `C94_fault`, `C94_truncated_refuted`, `C94_signed_refuted`, `C95_ascending_exact`, `C95_ascending_refuted_all`, `C95_bit_vector_index_partial`, `C95_logic_vector_index_partial`, `C95_logic_refuted`, `C96_highest_bit_partial`, `C96_negative`, `C96_zero`, `C97_negate_const_partial`, `C97_negate_partial`, `C97_wide_clean_iff`, `C97_native_clean_iff`, `C98_popcount_exact`, `C98_popcount_partial`, `C98_refuted`, `C99_exact`, `C99_decimal_partial`, `C99_refuted`, `C99_wide_exact`, `C99_wide_refuted`, `C100_native`, `C100_wide_exact`, `C100_round_trip_partial`, `C100_wide_refuted`, `C100_2state_refuted`, `C101_decimal`, `C101_octal`, `C101_hex_partial`, `C101_refuted`, `C101_hex_iff`, `C102_object`, `C102_exact`, `C102_partial`, `C102_refuted`, `C103_read_partial`, `C103_update_exact`, `C103_update_partial`, `C103_update_out`, `C103_refuted`, `C103_native_exact`, `C103_write_wide_exact`, `C103_write_native_exact`, `C104_of_big_partial`, `C104_one_bit`, `C104_clean_iff`, `C105_x_iff`, `C105_compare_partial`, `C105_compare_x_partial`, `C105_match_partial`, `C105_arith_partial`, `C105_arith_x_partial`, `C105_div_zero`, `C106_native_exact`, `C106_refuted_all`, `C106_shift_assign_partial`, `C106_shift_assign_logic_partial`, `C107_plus_exact`, `C107_plus_partial`, `C107_plus_native`, `C107_refuted`, `C108_native_exact`, `C108_dirty_all`, `C108_bool_partial`, `C108_refuted`, `C109_copy_partial`, `C110_bitwise_add_partial`, `C110_mul_partial`, `C110_div_partial`, `C110_signed`, `C110_mul_exact`, `C110_div_exact`, `C110_div_signed`, `C110_bitwise_add_exact`, `C111_native_exact`, `C111_part_select_partial`, `C111_part_select_logic_partial`, `C111_read_back`, `C111_refuted`, `C112_concat`, `C113_assign_partial`, `C113_refuted`, `C113_assign_exact`, `C114_expr`, `C115_expr4`, `C116_program`, `C116_multiply`, `C117_program4`, `C117_reverse`, `C118_wide_zero`, `C118_native_zero_partial`, `C118_native_fault_refuted`, `C118_signed_refuted`, `C119_eq_signed_partial`, `C119_native_exact`, `C119_wide_native_exact`, `C119_wide_exact`, `C119_wide_native_refuted`, `C119_wide_refuted`, `C120_div_mixed_partial`, `C120_wide_exact`, `C120_wide_refuted`, `C120_div_zero`, `C120_div_logic`, `C121_mixed_x_iff`, `C121_div_x_partial`, `C121_wide_refuted`, `C122_add_sub_partial`, `C122_wide_exact`, `C122_wide_refuted`, `C122_overflow`, `C122_mul_partial`, `C122_mul_overflow`, `C122_mul_wide_refuted`, `C122_div_partial`, `C123_add_sub_iff`, `C123_add_sub_iff_right`, `C123_div_exact`, `C123_div_partial`, `C123_div_refuted`, `C123_order_exact`, `C123_order_refuted`, `C123_wide_div_exact`, `C123_wide_div_refuted`, `C123_wide_div_logic`, `C124_runtime_exact`, `C124_runtime_partial`, `C124_runtime_iff`, `C124_runtime_refuted`, `C124_constant_exact`, `C124_logic_exact`, `C124_logic_partial`, `C124_logic_refuted`, `C125_expr_partial`, `C126_program_partial`, `C126_euclid`, `C126_refuted`, `C127_native_exact`, `C127_wide_exact`, `C127_slice_partial`, `C127_logic_refuted`, `C127_refuted`, `C128_expr_partial`, `C129_program_partial`, `C129_euclid`, `C130_native_exact`, `C130_wide_exact`, `C130_select_partial`, `C130_refuted`, `C131_history_exact`, `C131_history_partial`, `C131_refuted`, `C132_big`, `C132_bit`, `C132_bool_exact`, `C132_refuted`, `C132_array`, `C133_expr_partial`, `C133_program_partial`, `C133_refuted_native`, `C133_refuted_wide`, `C134_native_exact`, `C134_wide_exact`, `C134_iff_partial`, `C134_refuted_all`, `C135_native_iff_partial`, `C135_wide_iff_partial`, `C135_refuted_all`, `C136_wide_bit`, `C136_native_bit_exact`, `C136_wide_logic_partial`, `C136_native_logic_exact`, `C136_native_refuted_all`, `C136_base_refuted_all`, `C137_gt_exact`, `C137_order_partial`, `C137_refuted_same`, `C137_refuted_chunks`, `C138_wide_exact`, `C138_known_partial`, `C138_refuted`, `C138_2state_exact`, `C139_native_exact`, `C139_wide_exact`, `C139_known_partial`, `C139_refuted`, `C139_signed_exact`, `C139_signed_refuted`, `C140_octal_exact`, `C140_known_partial`, `C140_refuted`, `C140_signed_exact`, `C140_signed_refuted`, `C141_decimal_exact`, `C141_known_partial`, `C141_refuted`, `C142_rewritten`, `C142_xor_not`, `C142_and_iff`, `C142_or_iff`, `C142_native`, `C142_native_shift`, `C142_reductions`, `C142_structure`, `C142_expr_partial`, `C142_program_partial`, `C142_refuted_bitwise`, `C142_refuted_wide`, `C142_refuted`, `C143_native_partial`, `C143_bits`, `C143_refuted`, `C143_iff`, `C143_wide_exact`, `C143_wide_refuted`, `C144_slice_slice_partial`, `C144_slice_slice_bit_partial`, `C144_slice_const`, `C144_bitwise_partial`, `C144_refuted`, `C144_not_refuted`, `C145_put_get_partial`, `C145_get_put_partial`, `C145_put_put_partial`, `C145_commute_partial`, `C145_refuted`, `C146_extend_extend`, `C146_slice_extend`, `C146_extend_bitwise`, `C147_shr_partial`, `C147_shl_partial`, `C147_back_partial`, `C147_slice_shr_partial`, `C147_refuted`, `C148_assoc_partial`, `C148_parts_partial`, `C148_split_partial`, `C148_refuted`, `C149_refl`, `C149_symm_iff`, `C149_symm_one_refuted`, `C149_symm_wide`, `C149_trans_partial`, `C149_trans_iff`, `C149_trans_wide_iff`, `C150_trans_iff`, `C150_trans_wide`, `C150_le_refuted`, `C150_trans_wide_signed`, `C151_ripple`, `C151_add_iff_partial`, `C151_reverse`, `C151_count`, `C151_gray`, `C152_exact`, `C152_known_partial`, `C152_refuted`, `C153_runs_exact`, `C153_last_partial`, `C153_last_iff`, `C153_refuted`, `C153_2state_exact`, `C154_fill_up`, `C154_fill_down_exact`, `C154_refuted`, `C154_copy_partial`, `C155_count_partial`, `C155_back`, `C155_period_iff`, `C155_wrap_iff`, `C155_one_bit`, `C155_logic`, `C156_unsigned`, `C156_ends_iff`, `C156_refuted`, `C156_signed_native`, `C156_signed_wide_partial`, `C156_wide_refuted`, `C156_least_refuted`, `C156_logic`, `C156_unknown_partial`, `C157_multiply`, `C158_gcd_partial`, `C158_terminates`, `C158_refuted`, `C159_rotate_partial`, `C159_zero_refuted`, `C159_wide_zero`, `C160_ones_exact`, `C160_ones_partial`, `C160_refuted`, `C161_xor`, `C161_add_partial`, `C162_proxies_partial`, `C162_last_partial`, `C162_constant_refuted`, `C162_self_refuted`, `C163_chunks_partial`, `C163_twice_partial`, `C163_refuted`, `C164_binary_exact`, `C164_binary_iff`, `C164_digits_partial`, `C164_hex_wide_partial`, `C164_hex_wide_refuted`, `C164_decimal_partial`, `C164_unknown_refuted`, `C165_native_iff`, `C165_wide_iff`, `C165_refuted`, `C165_partial`, `C166_sort_partial`, `C166_signed_wide_exact`, `C166_refuted`, `C167_in_range_partial`, `C167_written_partial`, `C167_outside_refuted`, `C167_low_refuted`, `Big.C168_eq`, `Big.C168_ge`, `Big.C168_div_mod_unsigned`, `Big.C168_div_mod`, `Big.C168_mul_iff`, `Big.C168_refuted`, `C169_crc_partial`, `C169_check`, `C169_burst`, `C169_one_bit_refuted`, `C170_code`, `C170_decode`, `C170_neighbours`, `C171_long_division`, `C171_operator_differs`, `C172_case`, `C172_signed_exact`, `C172_signed_refuted`, `C172_unknown_exact`, `C172_unknown_refuted`, `C172_unbased_exact`, `C172_unbased_refuted`, `C172_size_refuted`, `C173_sqrt`, `C174_return_iff`, `C174_nonzero`, `C174_periodic`, `C174_maximal`, `C175_carry_exact`, `C175_carry_partial`, `C175_carry_refuted`, `C175_borrow`, `C175_saturate_exact`, `C176_mid`, `C176_sum_exact`, `C177_lowest`, `C177_pow2_exact`, `C177_pow2_partial`, `C177_pow2_refuted`, `C178_expr`, `C178_program`, `C179_expr`, `C179_program`, `C180_two`, `C180_bus`, `C181_exact`, `C181_sound`, `C182_power_partial`, `C182_refuted`, `C182_wide_refuted`, `C183_digits_partial`, `C183_round_trip`, `C183_refuted`, `C184_shift`, `C185_highest_bit_iff`, `C185_encode`, `C185_highest_bit_partial`, `C185_round_trip`, `C186_parity`, `C187_set`, `C187_in_range`, `C187_slice`, `C187_update`, `C187_update_logic`, `C187_unpacked`, `C188_contained`, `C188_refuted`, `C188_meaning_partial`, `C189_outcome`, `C189_fields`, `C189_bits`, `C190_sizeof`, `C190_places`, `C190_bytes`, `C190_bytes_refuted`, `C190_packed`, `C190_packed_refuted`, `C191_holder`, `C191_slice_refuted`, `C191_extend`, `C191_operator`, `C191_operator_refuted`, `C191_update`, `C191_match_endian`, `C192_places`, `C192_read_partial`, `C192_second_index`, `C192_refuted`, `C192_write_exact`, `C193_native_exact`, `C193_native_partial`, `C193_partial`, `C193_refuted`, `C193_iff`, `C193_wide_and`, `C193_logic_partial`, `C193_logic_refuted`, `C194_logic_partial`, `C194_ascending_refuted`, `C194_native_iff`, `C194_signed_iff`, `C194_one_bit_refuted`, `C194_wide_refuted`, `C194_wide_iff`, `C195_abs_partial`, `C195_abs_least`, `C195_abs_refuted`, `C195_min_max`, `C195_min_max_wide_partial`, `C195_max_least`, `C195_clamp`, `C196_run`, `C196_iff`, `C196_linear_partial`, `C196_known_partial`, `C196_refuted`, `C196_laws`, `C196_comm_iff`, `C196_no_z`, `C197_add_sub_mul`, `C197_add_sub`, `C197_mul_types`, `C197_div_mod`, `C197_neg`, `C197_logic_partial`, `C197_wide`, `C197_logic_wide`, `C197_logic_refuted`, `C198_match`, `C198_statement`, `C198_library`, `C198_sound`, `C198_wild`, `C199_encode`, `C199_correct`, `C199_detect`, `C199_bit0`, `C200_queue_partial`, `C200_full_refuted`, `C201_digits`, `C202_count`, `C203_sum_partial`, `C204_inverse_partial`, `C204_wide_refuted`, `C205_enable_partial`, `C205_enable_refuted`, `C206_text_partial`, `C206_text_refuted`, `C207_shift_partial`, `C207_shift_refuted`, `C207_select_partial`, `C207_select_known`, `C207_select_refuted`, `C208_vote_partial`, `C208_vote_refuted`, `C208_rewritten`, `C209_sum`, `C210_flags_partial`, `C210_unset_refuted`, `C211_add_partial`, `C211_refuted_all`, `C212_sum_partial`, `C212_order_partial`, `C212_verify_partial`, `C212_refuted_all`, `C213_sub`, `C213_less`, `C214_add`, `C214_sub`, `C214_less`, `C215_exact`, `C215_agree`, `C215_finer`, `C216_step`, `C216_safe`, `C216_fair`, `C217_run_partial`, `C217_refuted`, `C218_booth`, `C218_product_partial`, `C218_product_refuted`, `C219_horner`, `C219_round_trip`, `C220_product_partial`, `C220_all_moduli`, `C220_refuted`, `C221_gcd`, `C222_high`, `C223_power_partial`, `C223_all_moduli`, `C223_fermat`, `C224_inverse`, `C224_onto`, `C224_unknown`, `C224_known`, `C225_settled_partial`, `C225_synchronized_partial`, `C225_refuted`, `C225_pessimism`, `C226_native_partial`, `C226_wide_exact`, `C226_refuted`, `C226_without_ashr`, `C227_quotient_partial`, `C227_constant_partial`, `C228_xtime`, `C228_product`, `C228_mod`, `C228_laws`, `C229_power`, `C229_inverse`, `C230_log2`, `C230_bool`, `C231_field`, `C231_shift`, `C232_less`, `C233_tables`, `C233_repair`, `C233_laws`, `C233_needs_or`, `C233_settled`, `C234_mux`, `C234_hazard`, `C234_tree`, `C235_add`, `C236_and_iff`, `C236_or_iff`

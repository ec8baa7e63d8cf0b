'Verif.c01_refines' depends on axioms: [propext, Classical.choice, Quot.sound]
'Verif.c01_noninterference' depends on axioms: [propext, Classical.choice, Quot.sound]
'Verif.c02_set_ok' depends on axioms: [propext, Quot.sound]
'Verif.c02_set_err' depends on axioms: [propext, Quot.sound]
'Verif.c02_set_partial' depends on axioms: [propext, Quot.sound]
'Verif.c02_del_ok' depends on axioms: [propext, Classical.choice, Quot.sound]
'Verif.c02_del_err' depends on axioms: [propext, Classical.choice, Quot.sound]
'Verif.c02_del_partial' depends on axioms: [propext, Classical.choice, Quot.sound]
'Verif.c02_refuted' depends on axioms: [propext, Classical.choice, Quot.sound]
'Verif.c02_refuted_factory' depends on axioms: [propext, Classical.choice, Quot.sound]
'Verif.c03_reads_change_nothing' depends on axioms: [propext, Classical.choice, Quot.sound]
'Verif.c03_histories' depends on axioms: [propext, Classical.choice, Quot.sound]
'Verif.c03_factories_write' depends on axioms: [propext, Classical.choice, Quot.sound]
'Verif.c04_prefix' depends on axioms: [propext, Classical.choice, Quot.sound]
'Verif.c04_contents_partial' depends on axioms: [propext, Classical.choice, Quot.sound]
'Verif.c04_held_partial' depends on axioms: [propext, Classical.choice, Quot.sound]
'Verif.c04_refuted' depends on axioms: [propext, Classical.choice, Quot.sound]
'Verif.c05_children' depends on axioms: [propext, Classical.choice, Quot.sound]
'Verif.c05_no_effect' depends on axioms: [propext, Quot.sound]
'Verif.c05_refused' depends on axioms: [propext]
'Verif.c06_adopted' depends on axioms: [propext, Quot.sound]
'Verif.c06_any_stack' depends on axioms: [propext, Quot.sound]
'Verif.c06_data' depends on axioms: [propext, Quot.sound]
'Verif.c07_handled_partial' depends on axioms: [propext, Quot.sound]
'Verif.c07_concrete_partial' depends on axioms: [propext, Quot.sound]
'Verif.c07_refuted' depends on axioms: [propext, Classical.choice, Quot.sound]
'Verif.c08_located_partial' depends on axioms: [propext, Classical.choice, Quot.sound]
'Verif.c08_one_place_partial' depends on axioms: [propext, Classical.choice, Quot.sound]
'Verif.c08_factory_partial' depends on axioms: [propext, Classical.choice, Quot.sound]
'Verif.c08_refuted' depends on axioms: [propext, Classical.choice, Quot.sound]
'Verif.c09_path' depends on axioms: [propext, Classical.choice, Quot.sound]
'Verif.c09_lookup' depends on axioms: [propext, Classical.choice, Quot.sound]
'Verif.c09_string' depends on axioms: [propext, Classical.choice, Quot.sound]
'Verif.c09_path_partial' depends on axioms: [propext, Classical.choice, Quot.sound]
'Verif.c09_lookup_partial' depends on axioms: [propext, Classical.choice, Quot.sound]
'Verif.c09_string_partial' depends on axioms: [propext, Classical.choice, Quot.sound]
'Verif.c09_cached_partial' depends on axioms: [propext, Classical.choice, Quot.sound]
'Verif.c10_refuted' depends on axioms: [propext, Classical.choice, Quot.sound]
'Verif.c10_identify' depends on axioms: [propext, Classical.choice, Quot.sound]
'Verif.c10_identify_partial' depends on axioms: [propext, Classical.choice, Quot.sound]
'Verif.c10_stale' depends on axioms: [propext, Classical.choice, Quot.sound]
'Verif.c11_nearest_partial' depends on axioms: [propext, Classical.choice, Quot.sound]
'Verif.c11_none_partial' depends on axioms: [propext, Classical.choice, Quot.sound]
'Verif.c11_not_self_partial' depends on axioms: [propext, Classical.choice, Quot.sound]
'Verif.c11_first' depends on axioms: [propext, Classical.choice, Quot.sound]
'Verif.c11_end' depends on axioms: [propext, Classical.choice, Quot.sound]
'Verif.c11_endless' depends on axioms: [propext, Classical.choice, Quot.sound]
'Verif.c11_refuted' depends on axioms: [propext, Classical.choice, Quot.sound]
'Verif.c12_finite' depends on axioms: [propext, Classical.choice, Quot.sound]
'Verif.c12_irreflexive' depends on axioms: [propext, Classical.choice, Quot.sound]
'Verif.c12_path' depends on axioms: [propext, Classical.choice, Quot.sound]
'Verif.c12_root' depends on axioms: [propext, Classical.choice, Quot.sound]
'Verif.c12_cycle' depends on axioms: [propext, Classical.choice, Quot.sound]
'Verif.c13_removes' depends on axioms: [propext, Classical.choice, Quot.sound]
'Verif.c13_returns' depends on axioms: [propext, Classical.choice, Quot.sound]
'Verif.c13_missing' depends on axioms: [propext, Classical.choice, Quot.sound]
'Verif.c13_succeeds' depends on axioms: [propext, Classical.choice, Quot.sound]
'Verif.c13_refuted' depends on axioms: [propext, Classical.choice, Quot.sound]
'Verif.c14_filtered' depends on axioms: [propext, Classical.choice, Quot.sound]
'Verif.c14_mem' depends on axioms: [propext, Classical.choice, Quot.sound]
'Verif.c14_of_values' depends on axioms: [propext, Classical.choice, Quot.sound]
'Verif.c15_exact' depends on axioms: [propext, Classical.choice, Quot.sound]
'Verif.c15_index' depends on axioms: [propext, Classical.choice, Quot.sound]
'Verif.c15_steps' depends on axioms: [propext, Classical.choice, Quot.sound]
'Verif.c15_cached' depends on axioms: [propext, Classical.choice, Quot.sound]
'Verif.c16_partial' depends on axioms: [propext, Quot.sound]
'Verif.c16_grown_partial' depends on axioms: [propext, Classical.choice, Quot.sound]
'Verif.c16_refuted' depends on axioms: [propext, Classical.choice, Quot.sound]
'Verif.c16_cached_partial' depends on axioms: [propext, Classical.choice, Quot.sound]
'Verif.c17_split' depends on axioms: [propext, Classical.choice, Quot.sound]
'Verif.c17_cached' depends on axioms: [propext, Classical.choice, Quot.sound]
'Verif.c18_refused' depends on axioms: [propext, Classical.choice, Quot.sound]
'Verif.c18_set_partial' depends on axioms: [propext, Quot.sound]
'Verif.c18_grown' depends on axioms: [propext, Classical.choice, Quot.sound]
'Verif.c18_refuted' depends on axioms: [propext, Classical.choice, Quot.sound]
'Verif.c19_partial' depends on axioms: [propext, Classical.choice, Quot.sound]
'Verif.c19_refuted' depends on axioms: [propext, Classical.choice, Quot.sound]
'Verif.c19_cached_partial' depends on axioms: [propext, Classical.choice, Quot.sound]
'Verif.c20_detach_partial' depends on axioms: [propext, Classical.choice, Quot.sound]
'Verif.c20_detach_subtree_partial' depends on axioms: [propext, Classical.choice, Quot.sound]
'Verif.c20_leaf_lost' depends on axioms: [propext, Classical.choice, Quot.sound]
'Verif.c20_subtree_refused' depends on axioms: [propext, Classical.choice, Quot.sound]
'Verif.c20_refuted' depends on axioms: [propext, Classical.choice, Quot.sound]
'Verif.c20_cached_partial' depends on axioms: [propext, Classical.choice, Quot.sound]
'Verif.c20_cached_leaf_lost' depends on axioms: [propext, Classical.choice, Quot.sound]
'Verif.c20_cached_subtree_refused' depends on axioms: [propext, Classical.choice, Quot.sound]
'Verif.c21_placed_partial' depends on axioms: [propext, Classical.choice, Quot.sound]
'Verif.c21_adopted_partial' depends on axioms: [propext, Classical.choice, Quot.sound]
'Verif.c21_succeeds' depends on axioms: [propext, Classical.choice, Quot.sound]
'Verif.c21_refuted' depends on axioms: [propext, Classical.choice, Quot.sound]
'Verif.c21_reference_succeeds' depends on axioms: [propext, Classical.choice, Quot.sound]
'Verif.c22_ends_partial' depends on axioms: [propext, Classical.choice, Quot.sound]
'Verif.c22_refuted' depends on axioms: [propext, Classical.choice, Quot.sound]
'Verif.c23_swap' depends on axioms: [propext, Classical.choice, Quot.sound]
'Verif.c23_involutive' depends on axioms: [propext, Classical.choice, Quot.sound]
'Verif.c23_succeeds' depends on axioms: [propext, Classical.choice, Quot.sound]
'Verif.c24_failed_partial' depends on axioms: [propext, Classical.choice, Quot.sound]
'Verif.c24_cause' depends on axioms: [propext, Classical.choice, Quot.sound]
'Verif.c24_refuted' depends on axioms: [propext, Classical.choice, Quot.sound]
'Verif.c24_refuted_reference' depends on axioms: [propext, Classical.choice, Quot.sound]
'Verif.c25_reserved' depends on axioms: [propext, Classical.choice, Quot.sound]
'Verif.c25_other' depends on axioms: [propext, Classical.choice, Quot.sound]
'Verif.c25_alias' depends on axioms: [propext, Classical.choice, Quot.sound]
'Verif.c25_children' depends on axioms: [propext, Classical.choice, Quot.sound]
'Verif.c25_read' depends on axioms: [propext, Classical.choice, Quot.sound]
'Verif.c25_children_overwritten' depends on axioms: [propext, Classical.choice, Quot.sound]
'Verif.c26_create' depends on axioms: [propext, Classical.choice, Quot.sound]
'Verif.c26_again' depends on axioms: [propext, Quot.sound]
'Verif.c26_stable' depends on axioms: [propext, Classical.choice, Quot.sound]
'Verif.c26_keys' depends on axioms: [propext, Quot.sound]
'Verif.c26_keys_partial' depends on axioms: [propext, Classical.choice, Quot.sound]
'Verif.c26_write' depends on axioms: [propext, Classical.choice, Quot.sound]
'Verif.c26_refuted' depends on axioms: [propext, Classical.choice, Quot.sound]
'Verif.c26_without' depends on axioms: [propext]
'Verif.c27_inverse_partial' depends on axioms: [propext, Quot.sound]
'Verif.c27_total' depends on axioms: [propext]
'Verif.c27_dict_total' depends on axioms: [propext, Quot.sound]
'Verif.c27_dict' depends on axioms: [propext, Quot.sound]
'Verif.c27_refuted_suffix' depends on axioms: [propext, Quot.sound]
'Verif.c27_refuted_dict' depends on axioms: [propext]
'Verif.c28_get' depends on axioms: [propext, Classical.choice, Quot.sound]
'Verif.c28_set' depends on axioms: [propext, Quot.sound]
'Verif.c28_del' depends on axioms: [propext, Classical.choice, Quot.sound]
'Verif.c28_keys' depends on axioms: [propext, Quot.sound]
'Verif.c28_readback' depends on axioms: [propext, Classical.choice, Quot.sound]
'Verif.c28_lawful' depends on axioms: [propext, Quot.sound]
'Verif.c28_any_get' depends on axioms: [propext, Classical.choice, Quot.sound]
'Verif.c28_any_set' depends on axioms: [propext, Quot.sound]
'Verif.c28_any_del' depends on axioms: [propext, Classical.choice, Quot.sound]
'Verif.c28_any_keys' depends on axioms: [propext, Quot.sound]
'Verif.c28_any_readback' depends on axioms: [propext, Classical.choice, Quot.sound]
'Verif.c28_refuted' depends on axioms: [propext, Classical.choice, Quot.sound]
'Verif.c29_get_partial' depends on axioms: [propext, Classical.choice, Quot.sound]
'Verif.c29_set_partial' depends on axioms: [propext, Quot.sound]
'Verif.c29_del_partial' depends on axioms: [propext, Classical.choice, Quot.sound]
'Verif.c29_keys_partial' depends on axioms: [propext, Quot.sound]
'Verif.c29_shown_partial' depends on axioms: [propext, Quot.sound]
'Verif.c29_refuted' depends on axioms: [propext, Classical.choice, Quot.sound]
'Verif.c30_get' depends on axioms: [propext, Classical.choice, Quot.sound]
'Verif.c30_del' depends on axioms: [propext, Classical.choice, Quot.sound]
'Verif.c30_missing' depends on axioms: [propext, Classical.choice, Quot.sound]
'Verif.c31_all_partial' depends on axioms: [propext, Classical.choice, Quot.sound]
'Verif.c31_transparent_partial' depends on axioms: [propext, Classical.choice, Quot.sound]
'Verif.c31_refuted' depends on axioms: [propext, Classical.choice, Quot.sound]
'Verif.c31_refuted_reference' depends on axioms: [propext, Classical.choice, Quot.sound]
'Verif.c31_refuted_alias' depends on axioms: [propext, Classical.choice, Quot.sound]
'Verif.c31_refuted_fallback' depends on axioms: [propext, Classical.choice, Quot.sound]
'Verif.c31_refuted_factory' depends on axioms: [propext, Classical.choice, Quot.sound]
'Verif.c31_agrees' depends on axioms: [propext, Classical.choice, Quot.sound]
'Verif.c31_agrees_keys' depends on axioms: [propext, Classical.choice, Quot.sound]
'Verif.c32_empty_partial' depends on axioms: [propext, Classical.choice, Quot.sound]
'Verif.c32_cached' depends on axioms: [propext, Classical.choice, Quot.sound]
'Verif.c32_refuted' depends on axioms: [propext, Classical.choice, Quot.sound]
'Verif.c32_invalidate_partial' depends on axioms: [propext, Classical.choice, Quot.sound]
'Verif.c33_key_partial' depends on axioms: [propext, Classical.choice, Quot.sound]
'Verif.c33_delete_partial' depends on axioms: [propext, Classical.choice, Quot.sound]
'Verif.c33_refuted' depends on axioms: [propext, Classical.choice, Quot.sound]
'Verif.c33_refuted_alias' depends on axioms: [propext, Classical.choice, Quot.sound]
'Verif.c34_set' depends on axioms: [propext, Quot.sound]
'Verif.c34_set_plain' depends on axioms: [propext, Quot.sound]
'Verif.c34_del' depends on axioms: [propext, Classical.choice, Quot.sound]
'Verif.c34_del_plain' depends on axioms: [propext, Classical.choice, Quot.sound]
'Verif.c34_replay' depends on axioms: [propext, Classical.choice, Quot.sound]
'Verif.c34_factory' depends on axioms: [propext, Classical.choice, Quot.sound]
'Verif.c35_detach' depends on axioms: [propext, Classical.choice, Quot.sound]
'Verif.c35_raise' depends on axioms: [propext, Classical.choice, Quot.sound]
'Verif.c35_partial' depends on axioms: [propext, Classical.choice, Quot.sound]
'Verif.c35_refuted' depends on axioms: [propext, Classical.choice, Quot.sound]
'Verif.c36_set' depends on axioms: [propext, Quot.sound]
'Verif.c36_del' depends on axioms: [propext, Classical.choice, Quot.sound]
'Verif.c36_owner_set' depends on axioms: [propext, Quot.sound]
'Verif.c36_owner_del' depends on axioms: [propext, Classical.choice, Quot.sound]
'Verif.c36_raises_after_write' depends on axioms: [propext, Classical.choice, Quot.sound]
'Verif.Events.c37_ordered_set' depends on axioms: [propext, Classical.choice, Quot.sound]
'Verif.Events.c37_unknown' depends on axioms: [propext, Quot.sound]
'Verif.Events.c38_append_partial' depends on axioms: [propext, Classical.choice, Quot.sound]
'Verif.Events.c38_once_partial' depends on axioms: [propext, Classical.choice, Quot.sound]
'Verif.Events.c38_all_partial' depends on axioms: [propext, Quot.sound]
'Verif.Events.c38_scripted_partial' depends on axioms: [propext, Classical.choice, Quot.sound]
'Verif.Events.c38_nobody' depends on axioms: [propext, Quot.sound]
'Verif.Events.c38_refuted' depends on axioms: [propext, Quot.sound]
'Verif.Events.c38_refuted_other' depends on axioms: [propext, Quot.sound]
'Verif.Events.c38_unbinding_partial' depends on axioms: [propext, Quot.sound]
'Verif.Events.c38_shrink_partial' depends on axioms: [propext, Quot.sound]
'Verif.Events.c38_prefix_partial' depends on axioms: [propext, Quot.sound]
'Verif.Events.c39_nesting' depends on axioms: [propext, Classical.choice, Quot.sound]
'Verif.Events.c39_subscribers' depends on axioms: [propext, Classical.choice, Quot.sound]
'Verif.Events.c39_restored' depends on axioms: [propext, Classical.choice, Quot.sound]
'Verif.Events.c39_count' depends on axioms: [propext]
'Verif.Events.c39_start' does not depend on any axioms
'Verif.Events.c39_unentered' depends on axioms: [propext]
'Verif.Events.c39_reused' depends on axioms: [propext]
'Verif.Events.c40_stored_first' depends on axioms: [propext, Quot.sound]
'Verif.Events.c40_same' depends on axioms: [propext]
'Verif.Events.c40_assign_partial' depends on axioms: [propext, Quot.sound]
'Verif.Events.c40_delete_partial' depends on axioms: [propext, Quot.sound]
'Verif.Events.c40_history_partial' depends on axioms: [propext, Quot.sound]
'Verif.Events.c40_refuted' depends on axioms: [propext, Quot.sound]
'Verif.Events.c41_refuted' depends on axioms: [propext, Quot.sound]
'Verif.Events.c41_dispatch_partial' depends on axioms: [propext, Quot.sound]
'Verif.Events.c41_block_partial' depends on axioms: [propext, Quot.sound]
'Verif.Events.c41_foreign_partial' depends on axioms: [propext, Quot.sound]
'Verif.Events.c41_assign_partial' depends on axioms: [propext, Quot.sound]
'Verif.c41_fallback_partial' depends on axioms: [propext, Classical.choice, Quot.sound]
'Verif.c41_present_partial' depends on axioms: [propext, Classical.choice, Quot.sound]
'Verif.c41_fallback_forever_partial' depends on axioms: [propext, Classical.choice, Quot.sound]
'Verif.c41_refuted_fallback' depends on axioms: [propext, Classical.choice, Quot.sound]
'Verif.Events.c42_refuted' depends on axioms: [propext, Classical.choice, Quot.sound]
'Verif.Events.c42_rule_partial' depends on axioms: [propext, Quot.sound]
'Verif.Events.c42_home' depends on axioms: [propext]
'Verif.Events.c42_roots_partial' depends on axioms: [propext, Quot.sound]
'Verif.c43_any' depends on axioms: [propext, Classical.choice, Quot.sound]
'Verif.c43_local' depends on axioms: [propext, Classical.choice, Quot.sound]
'Verif.c43_cached' depends on axioms: [propext, Classical.choice, Quot.sound]
'Verif.c44_refuted' depends on axioms: [propext, Classical.choice, Quot.sound]
'Verif.c44_outcome' depends on axioms: [propext, Classical.choice, Quot.sound]
'Verif.c44_terminates' depends on axioms: [propext, Classical.choice, Quot.sound]
'Verif.c44_pure' depends on axioms: [propext, Classical.choice, Quot.sound]
'Verif.c44_complete' depends on axioms: [propext, Classical.choice, Quot.sound]
'Verif.c44_nearest' depends on axioms: [propext, Classical.choice, Quot.sound]
'Verif.c44_missing_fallback' depends on axioms: [propext, Classical.choice, Quot.sound]
'Verif.c44_cached_outcome' depends on axioms: [propext, Classical.choice, Quot.sound]
'Verif.c44_cached_terminates' depends on axioms: [propext, Classical.choice, Quot.sound]
'Verif.c44_cached_pure' depends on axioms: [propext, Classical.choice, Quot.sound]
'Verif.c44_cached_complete' depends on axioms: [propext, Classical.choice, Quot.sound]
'Verif.c44_cached_nearest' depends on axioms: [propext, Classical.choice, Quot.sound]
'Verif.c44_asked' depends on axioms: [propext, Classical.choice, Quot.sound]
'Verif.c45_balanced' depends on axioms: [propext, Classical.choice, Quot.sound]
'Verif.c45_history' depends on axioms: [propext, Classical.choice, Quot.sound]
'Verif.c45_reachable' depends on axioms: [propext, Classical.choice, Quot.sound]
'Verif.Ser.c46_roundtrip_partial' depends on axioms: [propext, Classical.choice, Quot.sound]
'Verif.Ser.c46_frame' depends on axioms: [propext, Classical.choice, Quot.sound]
'Verif.Ser.c46_shape' depends on axioms: [propext, Quot.sound]
'Verif.Ser.c46_refuted_bytes' depends on axioms: [propext, Classical.choice, Quot.sound]
'Verif.Ser.c46_refuted_class' depends on axioms: [propext, Classical.choice, Quot.sound]
'Verif.Ser.c46_refuted_access' depends on axioms: [propext, Classical.choice, Quot.sound]
'Verif.Ser.c46_cached_partial' depends on axioms: [propext, Classical.choice, Quot.sound]
'Verif.Ser.c47_iff_partial' depends on axioms: [propext, Classical.choice, Quot.sound]
'Verif.Ser.c47_pure' depends on axioms: [propext, Classical.choice, Quot.sound]
'Verif.Ser.c47_refuted' depends on axioms: [propext, Classical.choice, Quot.sound]
'Verif.Ser.c48_written_partial' depends on axioms: [propext, Classical.choice, Quot.sound]
'Verif.Ser.c48_exactly' depends on axioms: [propext, Classical.choice, Quot.sound]
'Verif.Ser.c48_refuted' depends on axioms: [propext, Classical.choice, Quot.sound]
'Verif.Ser.c46_refuted_access' depends on axioms: [propext, Classical.choice, Quot.sound]
'Verif.Ser.c48_cached_partial' depends on axioms: [propext, Classical.choice, Quot.sound]
'Verif.Ser.c49_below_partial' depends on axioms: [propext, Classical.choice, Quot.sound]
'Verif.Ser.c49_one_partial' depends on axioms: [propext, Classical.choice, Quot.sound]
'Verif.Ser.c49_roundtrip_partial' depends on axioms: [propext, Classical.choice, Quot.sound]
'Verif.Ser.c49_refuted' depends on axioms: [propext, Classical.choice, Quot.sound]
'Verif.Ser.c49_cached_partial' depends on axioms: [propext, Classical.choice, Quot.sound]
'Verif.Locking.c50_refuted' depends on axioms: [propext, Quot.sound]
'Verif.Locking.c50_same_lock' depends on axioms: [propext, Classical.choice, Quot.sound]
'Verif.Locking.c50_settled' depends on axioms: [propext, Classical.choice, Quot.sound]
'Verif.Locking.c50_partial' depends on axioms: [propext, Classical.choice, Quot.sound]
'Verif.Locking.c50_first' depends on axioms: [propext]
'Verif.Locking.c50_case' depends on axioms: [propext, Classical.choice, Quot.sound]
'Verif.Locking.c51_refuted' depends on axioms: [propext, Quot.sound]
'Verif.Locking.c51_count' depends on axioms: [propext, Classical.choice, Quot.sound]
'Verif.Locking.c51_balanced' depends on axioms: [propext, Classical.choice, Quot.sound]
'Verif.Locking.c51_finished' depends on axioms: [propext, Classical.choice, Quot.sound]
'Verif.Locking.c51_release' depends on axioms: [propext, Classical.choice, Quot.sound]
'Verif.Locking.c51_reenter_partial' depends on axioms: [propext, Classical.choice, Quot.sound]
'Verif.Locking.c51_progress' depends on axioms: [propext, Classical.choice, Quot.sound]
'Verif.Locking.c51_two_trees' depends on axioms: [propext, Quot.sound]
'Verif.Locking.c51_case' depends on axioms: [propext, Classical.choice, Quot.sound]
'Verif.Locking.c51_raise_case' depends on axioms: [propext]
'Verif.Utils.c52_decode_encode' depends on axioms: [propext, Quot.sound]
'Verif.Utils.c52_encode_idem' depends on axioms: [propext, Quot.sound]
'Verif.Utils.c52_decode_idem' depends on axioms: [propext, Quot.sound]
'Verif.Utils.c52_encode_decode' depends on axioms: [propext, Quot.sound]
'Verif.Utils.c52_text' depends on axioms: [propext, Quot.sound]
'Verif.Utils.c52_encodes' depends on axioms: [propext, Quot.sound]
'Verif.Utils.c52_soft' depends on axioms: [propext, Classical.choice, Quot.sound]
'Verif.Utils.c52_strict' depends on axioms: [propext, Classical.choice, Quot.sound]
'Verif.Utils.c52_undecodable' depends on axioms: [propext]
'Verif.Utils.utf8_lawful' depends on axioms: [propext, Classical.choice, Quot.sound]
'Verif.Utils.c52_decode_proper' depends on axioms: [propext, Quot.sound]
'Verif.Utils.c52_encode_proper' depends on axioms: [propext, Quot.sound]
'Verif.Utils.c53_getitem' depends on axioms: [propext, Quot.sound]
'Verif.Utils.c53_missing' depends on axioms: [propext, Quot.sound]
'Verif.Utils.c53_get' depends on axioms: [propext, Quot.sound]
'Verif.Utils.c53_contains' does not depend on any axioms
'Verif.Utils.c53_views' depends on axioms: [propext, Quot.sound]
'Verif.c54_get_partial' depends on axioms: [propext, Classical.choice, Quot.sound]
'Verif.c54_set_partial' depends on axioms: [propext, Classical.choice, Quot.sound]
'Verif.c54_accepts_partial' depends on axioms: [propext, Quot.sound]
'Verif.c54_other_errors' depends on axioms: [propext, Classical.choice, Quot.sound]
'Verif.c54_refuted' depends on axioms: [propext, Classical.choice, Quot.sound]
'Verif.InstProp.c55_never_again' depends on axioms: [propext, Quot.sound]
'Verif.InstProp.c55_same' depends on axioms: [propext, Quot.sound]
'Verif.InstProp.c55_once_partial' depends on axioms: [propext, Quot.sound]
'Verif.InstProp.c55_refuted' does not depend on any axioms
'Verif.InstProp.c55_refuted_reentrant' does not depend on any axioms
'Verif.c56_keys' depends on axioms: [propext]
'Verif.c56_first_partial' depends on axioms: [propext, Classical.choice, Quot.sound]
'Verif.c56_later_partial' depends on axioms: [propext, Classical.choice, Quot.sound]
'Verif.c56_reads_partial' depends on axioms: [propext, Classical.choice, Quot.sound]
'Verif.c56_deleted_partial' depends on axioms: [propext, Classical.choice, Quot.sound]
'Verif.c56_invalidated_partial' depends on axioms: [propext, Classical.choice, Quot.sound]
'Verif.c56_refuted_invalidate' depends on axioms: [propext, Classical.choice, Quot.sound]
'Verif.c56_refuted_keys' depends on axioms: [propext, Classical.choice, Quot.sound]
'Verif.c56_hidden' depends on axioms: [propext, Classical.choice, Quot.sound]
'Verif.c56_cached_keys' depends on axioms: [propext, Classical.choice, Quot.sound]
'Verif.c56_cached_reads_partial' depends on axioms: [propext, Classical.choice, Quot.sound]
'Verif.c56_cached_deleted_partial' depends on axioms: [propext, Classical.choice, Quot.sound]
'Verif.c56_cached_invalidated_partial' depends on axioms: [propext, Classical.choice, Quot.sound]
'Verif.c57_made' depends on axioms: [propext, Classical.choice, Quot.sound]
'Verif.c57_kept' depends on axioms: [propext, Classical.choice, Quot.sound]
'Verif.c57_read' depends on axioms: [propext, Classical.choice, Quot.sound]
'Verif.c57_keys' depends on axioms: [propext]
'Verif.c57_refused' depends on axioms: [propext, Classical.choice, Quot.sound]
'Verif.c58_copy_raises' depends on axioms: [propext, Classical.choice, Quot.sound]
'Verif.c58_fresh_partial' depends on axioms: [propext, Classical.choice, Quot.sound]
'Verif.c58_returns_partial' depends on axioms: [propext, Classical.choice, Quot.sound]
'Verif.c58_original' depends on axioms: [propext, Classical.choice, Quot.sound]
'Verif.c58_root_only' depends on axioms: [propext, Classical.choice, Quot.sound]
'Verif.c58_refuted_values' depends on axioms: [propext, Classical.choice, Quot.sound]
'Verif.c58_refuted_attrs' depends on axioms: [propext, Classical.choice, Quot.sound]
'Verif.c58_refuted_parents' depends on axioms: [propext, Classical.choice, Quot.sound]
'Verif.c59_refuted' depends on axioms: [propext, Classical.choice, Quot.sound]
'Verif.c59_refuted_attrs' depends on axioms: [propext, Classical.choice, Quot.sound]
'Verif.c59_copied' depends on axioms: [propext, Classical.choice, Quot.sound]
'Verif.c59_independent_partial' depends on axioms: [propext, Classical.choice, Quot.sound]
'Verif.c59_shared' depends on axioms: [propext, Classical.choice, Quot.sound]
'Verif.c59_no_nodify' depends on axioms: [propext, Classical.choice, Quot.sound]
'Verif.c60_isomorphic_partial' depends on axioms: [propext, Classical.choice, Quot.sound]
'Verif.c60_shape_partial' depends on axioms: [propext, Classical.choice, Quot.sound]
'Verif.c60_raised' depends on axioms: [propext, Classical.choice, Quot.sound]
'Verif.c60_original_unchanged' depends on axioms: [propext, Classical.choice, Quot.sound]
'Verif.c60_copy_in_hand' depends on axioms: [propext, Classical.choice, Quot.sound]
'Verif.c60_copy_unchanged' depends on axioms: [propext, Classical.choice, Quot.sound]
'Verif.c60_refuted_getattr' depends on axioms: [propext, Classical.choice, Quot.sound]
'Verif.c60_parents_copied' depends on axioms: [propext, Classical.choice, Quot.sound]
'Verif.c60_no_nodify' depends on axioms: [propext, Classical.choice, Quot.sound]
'Verif.Ser.c60_shape_uuid_partial' depends on axioms: [propext, Classical.choice, Quot.sound]
'Verif.c61_text' depends on axioms: [propext, Classical.choice, Quot.sound]
'Verif.c61_places' depends on axioms: [propext, Classical.choice, Quot.sound]
'Verif.c61_below' depends on axioms: [propext, Classical.choice, Quot.sound]
'Verif.c61_nodes' depends on axioms: [propext, Classical.choice, Quot.sound]
'Verif.c61_order_partial' depends on axioms: [propext, Classical.choice, Quot.sound]
'Verif.c61_case' depends on axioms: [propext, Classical.choice, Quot.sound]
'Verif.c61_refuted' depends on axioms: [propext, Classical.choice, Quot.sound]
'Verif.Tester.c62_report_partial' depends on axioms: [propext, Classical.choice, Quot.sound]
'Verif.Tester.c62_order_partial' depends on axioms: [propext, Classical.choice, Quot.sound]
'Verif.Tester.c62_missing' depends on axioms: [propext, Quot.sound]
'Verif.Tester.c62_direct' depends on axioms: [propext, Quot.sound]
'Verif.Tester.c62_failures_go_on' depends on axioms: [propext]
'Verif.Tester.c62_refuted' depends on axioms: [propext]
'Verif.c63_unnamed' depends on axioms: [propext]
'Verif.c63_contained' depends on axioms: [propext, Quot.sound]
'Verif.c63_grown' depends on axioms: [propext, Classical.choice, Quot.sound]
'Verif.c63_not_child_partial' depends on axioms: [propext, Classical.choice, Quot.sound]
'Verif.c63_refuted' depends on axioms: [propext, Classical.choice, Quot.sound]
'Verif.c63_no_uuid' depends on axioms: [propext]
'Verif.Ser.c64_again_partial' depends on axioms: [propext, Classical.choice, Quot.sound]
'Verif.Ser.c64_roundtrip_partial' depends on axioms: [propext, Classical.choice, Quot.sound]
'Verif.Ser.c64_deepcopy_partial' depends on axioms: [propext, Classical.choice, Quot.sound]
'Verif.Ser.c64_refuted' depends on axioms: [propext, Classical.choice, Quot.sound]
'Verif.Ser.c64_cached_partial' depends on axioms: [propext, Classical.choice, Quot.sound]
'Verif.Ser.c64_uuid_partial' depends on axioms: [propext, Classical.choice, Quot.sound]
'Verif.c65_refines_partial' depends on axioms: [propext, Classical.choice, Quot.sound]
'Verif.c65_refused_partial' depends on axioms: [propext]
'Verif.c65_refuted' depends on axioms: [propext, Classical.choice, Quot.sound]
'Verif.c65_cached_partial' depends on axioms: [propext, Classical.choice, Quot.sound]
'Verif.c66_readers_partial' depends on axioms: [propext, Classical.choice, Quot.sound]
'Verif.c66_fallback_partial' depends on axioms: [propext, Classical.choice, Quot.sound]
'Verif.c66_alias_partial' depends on axioms: [propext, Classical.choice, Quot.sound]
'Verif.c66_refuted' depends on axioms: [propext, Classical.choice, Quot.sound]
'Verif.c66_cached_partial' depends on axioms: [propext, Classical.choice, Quot.sound]
'Verif.FullMapping.c67_accepts_partial' depends on axioms: [propext, Classical.choice, Quot.sound]
'Verif.FullMapping.c67_reference_partial' depends on axioms: [propext, Classical.choice, Quot.sound]
'Verif.FullMapping.c67_refuted' depends on axioms: [propext, Classical.choice, Quot.sound]
'Verif.FullMapping.c67_cached_partial' depends on axioms: [propext, Classical.choice, Quot.sound]
'Verif.FullMapping.c67_cached_reference_partial' depends on axioms: [propext, Classical.choice, Quot.sound]
'Verif.c68_inverse_partial' depends on axioms: [propext, Quot.sound]
'Verif.c68_apart_partial' depends on axioms: [propext, Quot.sound]
'Verif.c68_text' depends on axioms: [propext, Quot.sound]
'Verif.c68_foreign_partial' depends on axioms: [propext, Classical.choice, Quot.sound]
'Verif.c68_other_partial' depends on axioms: [propext, Classical.choice, Quot.sound]
'Verif.c68_refuted' depends on axioms: [propext, Classical.choice, Quot.sound]
'Verif.c68_refuted_type' depends on axioms: [propext]
'Verif.c68_refuted_contains' depends on axioms: [propext, Classical.choice, Quot.sound]
'Verif.Ser.c69_refuted' depends on axioms: [propext, Classical.choice, Quot.sound]
'Verif.Ser.c69_existing' depends on axioms: [propext, Classical.choice, Quot.sound]
'Verif.Ser.c69_root' depends on axioms: [propext, Classical.choice, Quot.sound]
'Verif.Ser.c69_new' depends on axioms: [propext, Classical.choice, Quot.sound]
'Verif.Ser.c69_plain' depends on axioms: [propext, Classical.choice, Quot.sound]
'Verif.Ser.c69_no_class' depends on axioms: [propext, Classical.choice, Quot.sound]
'Verif.Ser.c69_unknown_class' depends on axioms: [propext, Classical.choice, Quot.sound]
'Verif.Ser.c69_bad_class' depends on axioms: [propext, Classical.choice, Quot.sound]
'Verif.Ser.c69_no_name' depends on axioms: [propext, Classical.choice, Quot.sound]
'Verif.Ser.c69_no_record' depends on axioms: [propext, Classical.choice, Quot.sound]
'Verif.Ser.c69_kw_no_object' depends on axioms: [propext, Classical.choice, Quot.sound]
'Verif.Ser.c69_kw_unknown' depends on axioms: [propext, Classical.choice, Quot.sound]
'Verif.Ser.c69_object' depends on axioms: [propext, Classical.choice, Quot.sound]
'Verif.Ser.c69_no_object' depends on axioms: [propext, Classical.choice, Quot.sound]
'Verif.c70_isolated' depends on axioms: [propext, Classical.choice, Quot.sound]
'Verif.c70_existing' depends on axioms: [propext, Classical.choice, Quot.sound]
'Verif.c70_disjoint' depends on axioms: [propext, Classical.choice, Quot.sound]
'Verif.c70_local' depends on axioms: [propext, Classical.choice, Quot.sound]
'Verif.c71_rest_partial' depends on axioms: [propext, Classical.choice, Quot.sound]
'Verif.c71_fills_partial' depends on axioms: [propext, Classical.choice, Quot.sound]
'Verif.c71_override_partial' depends on axioms: [propext, Classical.choice, Quot.sound]
'Verif.c71_returns_partial' depends on axioms: [propext, Classical.choice, Quot.sound]
'Verif.c71_again_partial' depends on axioms: [propext, Classical.choice, Quot.sound]
'Verif.c71_one' depends on axioms: [propext, Classical.choice, Quot.sound]
'Verif.c71_refuted_values' depends on axioms: [propext, Classical.choice, Quot.sound]
'Verif.c71_refuted_none' depends on axioms: [propext, Classical.choice, Quot.sound]
'Verif.c71_index' depends on axioms: [propext, Classical.choice, Quot.sound]
'Verif.c72_new' depends on axioms: [propext, Classical.choice, Quot.sound]
'Verif.c72_kept' depends on axioms: [propext, Classical.choice, Quot.sound]
'Verif.c72_unique' depends on axioms: [propext, Classical.choice, Quot.sound]
'Verif.c72_identity' depends on axioms: [propext, Classical.choice, Quot.sound]
'Verif.c72_refuted_assign' depends on axioms: [propext, Classical.choice, Quot.sound]
'Verif.c72_refuted_copy' depends on axioms: [propext, Classical.choice, Quot.sound]
'Verif.c73_located_partial' depends on axioms: [propext, Classical.choice, Quot.sound]
'Verif.c73_fixed_partial' depends on axioms: [propext, Classical.choice, Quot.sound]
'Verif.c73_refuses' depends on axioms: [propext, Classical.choice, Quot.sound]
'Verif.c73_refuted_init' depends on axioms: [propext, Classical.choice, Quot.sound]
'Verif.c73_refuted_events' depends on axioms: [propext, Classical.choice, Quot.sound]
'Verif.c74_swap_partial' depends on axioms: [propext, Classical.choice, Quot.sound]
'Verif.c74_unordered' depends on axioms: [propext, Quot.sound]
'Verif.c74_swap_unordered' depends on axioms: [propext, Quot.sound]
'Verif.c74_ends_nameless_partial' depends on axioms: [propext, Classical.choice, Quot.sound]
'Verif.c74_ends_present_partial' depends on axioms: [propext, Classical.choice, Quot.sound]
'Verif.c74_refuted_nameless' depends on axioms: [propext, Classical.choice, Quot.sound]
'Verif.c74_refuted_error' depends on axioms: [propext, Classical.choice, Quot.sound]
'Verif.c74_refuted_present' depends on axioms: [propext, Classical.choice, Quot.sound]
'Verif.c74_refuted_stranger' depends on axioms: [propext, Classical.choice, Quot.sound]
'Verif.c74_refuted_swap' depends on axioms: [propext, Classical.choice, Quot.sound]
'Verif.c75_refuted' depends on axioms: [propext, Classical.choice, Quot.sound]
'Verif.c75_bytes_kept' depends on axioms: [propext, Quot.sound]
'Verif.c75_set' depends on axioms: [propext, Quot.sound]
'Verif.c75_get' depends on axioms: [propext, Quot.sound]
'Verif.c75_del' depends on axioms: [propext, Classical.choice, Quot.sound]
'Verif.c76_move_partial' depends on axioms: [propext, Classical.choice, Quot.sound]
'Verif.c76_leaf' depends on axioms: [propext, Classical.choice, Quot.sound]
'Verif.c76_refuted' depends on axioms: [propext, Classical.choice, Quot.sound]
'Verif.c76_cached_partial' depends on axioms: [propext, Classical.choice, Quot.sound]
'Verif.c76_cached_leaf' depends on axioms: [propext, Classical.choice, Quot.sound]
'Verif.Ser.c77_alike' depends on axioms: [propext, Classical.choice, Quot.sound]
'Verif.Ser.c77_extra' depends on axioms: [propext, Classical.choice, Quot.sound]
'Verif.Ser.c77_order' depends on axioms: [propext, Classical.choice, Quot.sound]
'Verif.Ser.c78_registry' depends on axioms: [propext, Classical.choice, Quot.sound]
'Verif.Ser.c78_calls' depends on axioms: [propext]
'Verif.Ser.c78_unprovided' depends on axioms: [propext, Classical.choice, Quot.sound]
'Verif.Ser.c78_added' depends on axioms: [propext, Classical.choice, Quot.sound]
'Verif.Ser.shipped_default' depends on axioms: [propext, Classical.choice, Quot.sound]
'Verif.Ser.shipped_decode' depends on axioms: [propext, Classical.choice, Quot.sound]
'Verif.Ser.c78_attrs' depends on axioms: [propext, Classical.choice, Quot.sound]
'Verif.Tester.c79_origin_partial' depends on axioms: [propext, Classical.choice, Quot.sound]
'Verif.Tester.c79_lines' depends on axioms: [propext, Classical.choice, Quot.sound]
'Verif.Tester.c79_combined' depends on axioms: [propext, Classical.choice, Quot.sound]
'Verif.Tester.c79_refuted' depends on axioms: [propext]
'Verif.c80_set_partial' depends on axioms: [propext, Quot.sound]
'Verif.c80_attrs_set_partial' depends on axioms: [propext, Quot.sound]
'Verif.c80_del_partial' depends on axioms: [propext, Classical.choice, Quot.sound]
'Verif.c80_attrs_del_partial' depends on axioms: [propext, Classical.choice, Quot.sound]
'Verif.c80_detach_partial' depends on axioms: [propext, Classical.choice, Quot.sound]
'Verif.c80_new_partial' depends on axioms: [propext, Quot.sound]
'Verif.c80_raise_partial' depends on axioms: [propext, Quot.sound]
'Verif.c80_nobody' depends on axioms: [propext, Classical.choice, Quot.sound]
'Verif.c80_refuted' depends on axioms: [propext, Classical.choice, Quot.sound]
'Verif.c81_results' depends on axioms: [propext, Classical.choice, Quot.sound]
'Verif.c81_mapping' depends on axioms: [propext, Classical.choice, Quot.sound]
'Verif.c81_finite' depends on axioms: [propext, Classical.choice, Quot.sound]
'Verif.c81_rename' depends on axioms: [propext, Classical.choice, Quot.sound]
'Verif.c81_elsewhere' depends on axioms: [propext, Classical.choice, Quot.sound]
'Verif.c81_move' depends on axioms: [propext, Classical.choice, Quot.sound]
'Verif.c81_cut' depends on axioms: [propext, Classical.choice, Quot.sound]
'Verif.c81_endless' depends on axioms: [propext, Quot.sound]
'Verif.c82_get' depends on axioms: [propext, Classical.choice, Quot.sound]
'Verif.c82_stable' depends on axioms: [propext, Classical.choice, Quot.sound]
'Verif.c82_default' depends on axioms: [propext, Classical.choice, Quot.sound]
'Verif.c82_contains' depends on axioms: [propext, Classical.choice, Quot.sound]
'Verif.c82_again' depends on axioms: [propext, Classical.choice, Quot.sound]
'Verif.c83_shown' depends on axioms: [propext, Quot.sound]
'Verif.c83_read' depends on axioms: [propext, Classical.choice, Quot.sound]
'Verif.c83_others' depends on axioms: [propext, Quot.sound]
'Verif.c83_keys' depends on axioms: [propext, Quot.sound]
'Verif.c83_alike' depends on axioms: [propext, Classical.choice, Quot.sound]
'Verif.c84_refuted' depends on axioms: [propext, Classical.choice, Quot.sound]
'Verif.c84_gone_partial' depends on axioms: [propext, Classical.choice, Quot.sound]
'Verif.c84_read_partial' depends on axioms: [propext, Classical.choice, Quot.sound]
'Verif.c84_absent' depends on axioms: [propext, Classical.choice, Quot.sound]
'Verif.c84_others_partial' depends on axioms: [propext, Classical.choice, Quot.sound]
'Verif.c84_keys_partial' depends on axioms: [propext, Classical.choice, Quot.sound]
'Verif.c84_again' depends on axioms: [propext, Classical.choice, Quot.sound]
'Verif.c85_refuted' depends on axioms: [propext, Classical.choice, Quot.sound]
'Verif.c85_pop_refuted' depends on axioms: [propext, Classical.choice, Quot.sound]
'Verif.c85_pop_partial' depends on axioms: [propext, Classical.choice, Quot.sound]
'Verif.c85_pop_found_partial' depends on axioms: [propext, Classical.choice, Quot.sound]
'Verif.c85_pop_absent_partial' depends on axioms: [propext, Classical.choice, Quot.sound]
'Verif.c85_pop_frame_partial' depends on axioms: [propext, Classical.choice, Quot.sound]
'Verif.c85_popitem_partial' depends on axioms: [propext, Classical.choice, Quot.sound]
'Verif.c85_setdefault_there' depends on axioms: [propext, Classical.choice, Quot.sound]
'Verif.c85_setdefault_absent' depends on axioms: [propext, Classical.choice, Quot.sound]
'Verif.c85_update' depends on axioms: [propext, Classical.choice, Quot.sound]
'Verif.c85_update_frame' depends on axioms: [propext, Quot.sound]
'Verif.c85_clear_partial' depends on axioms: [propext, Classical.choice, Quot.sound]
'Verif.c85_clear_empty_partial' depends on axioms: [propext, Classical.choice, Quot.sound]
'Verif.c85_clear_alias_partial' depends on axioms: [propext, Classical.choice, Quot.sound]
'Verif.c86_refuted' depends on axioms: [propext, Classical.choice, Quot.sound]
'Verif.c86_logs_partial' depends on axioms: [propext, Classical.choice, Quot.sound]
'Verif.c86_same_partial' depends on axioms: [propext, Classical.choice, Quot.sound]
'Verif.c86_appends' depends on axioms: [propext, Classical.choice, Quot.sound]
'Verif.c86_unprintable' depends on axioms: [propext, Classical.choice, Quot.sound]
'Verif.c87_tree' depends on axioms: [propext, Classical.choice, Quot.sound]
'Verif.c87_returns_partial' depends on axioms: [propext, Classical.choice, Quot.sound]
'Verif.c87_refuted' depends on axioms: [propext, Classical.choice, Quot.sound]
'Verif.c87_reference' depends on axioms: [propext, Classical.choice, Quot.sound]
'Verif.c88_written' depends on axioms: [propext, Classical.choice, Quot.sound]
'Verif.c88_shadowed' depends on axioms: [propext, Classical.choice, Quot.sound]
'Verif.c88_sound' depends on axioms: [propext, Classical.choice, Quot.sound]
'Verif.c88_absent_partial' depends on axioms: [propext, Classical.choice, Quot.sound]
'Verif.c88_deleted_partial' depends on axioms: [propext, Classical.choice, Quot.sound]
'Verif.c88_never_no_partial' depends on axioms: [propext, Classical.choice, Quot.sound]
'Verif.c88_lock' depends on axioms: [propext, Classical.choice, Quot.sound]
'Verif.c88_lock_child' depends on axioms: [propext, Classical.choice, Quot.sound]
'Verif.c88_lock_created' depends on axioms: [propext, Classical.choice, Quot.sound]
'Verif.c88_order' depends on axioms: [propext, Classical.choice, Quot.sound]
'Verif.c88_refuted' depends on axioms: [propext, Classical.choice, Quot.sound]
'Verif.c89_others_partial' depends on axioms: [propext, Classical.choice, Quot.sound]
'Verif.c89_keys_partial' depends on axioms: [propext, Classical.choice, Quot.sound]
'Verif.c89_shown_partial' depends on axioms: [propext, Classical.choice, Quot.sound]
'Verif.c89_refuted' depends on axioms: [propext, Classical.choice, Quot.sound]
'Verif.c90_location' depends on axioms: [propext, Classical.choice, Quot.sound]
'Verif.c90_path' depends on axioms: [propext, Classical.choice, Quot.sound]
'Verif.c91_loaded_partial' depends on axioms: [propext, Classical.choice, Quot.sound]
'Verif.c91_below_partial' depends on axioms: [propext, Classical.choice, Quot.sound]
'Verif.c91_found_partial' depends on axioms: [propext, Classical.choice, Quot.sound]
'Verif.c91_refuted' depends on axioms: [propext, Classical.choice, Quot.sound]
'Verif.c92_asked' depends on axioms: [propext, Classical.choice, Quot.sound]
'Verif.c92_original' depends on axioms: [propext, Classical.choice, Quot.sound]
'Verif.c92_grown' depends on axioms: [propext, Classical.choice, Quot.sound]
'Verif.c92_same' depends on axioms: [propext, Classical.choice, Quot.sound]
'Verif.c93_drain' depends on axioms: [propext, Classical.choice, Quot.sound]
'Verif.c93_refill' depends on axioms: [propext, Classical.choice, Quot.sound]
'Verif.c93_reference' depends on axioms: [propext, Classical.choice, Quot.sound]
'Verif.c94_alone' depends on axioms: [propext, Classical.choice, Quot.sound]
'Verif.c94_interleave' depends on axioms: [propext, Classical.choice, Quot.sound]
'Verif.c95_arguments' depends on axioms: [propext, Classical.choice, Quot.sound]
'Verif.c95_update' depends on axioms: [propext, Classical.choice, Quot.sound]
'Verif.c95_values' depends on axioms: [propext, Classical.choice, Quot.sound]
'Verif.c95_merge' depends on axioms: [propext, Classical.choice, Quot.sound]
'Verif.c96_sort' depends on axioms: [propext, Classical.choice, Quot.sound]
'Verif.c96_only_order' depends on axioms: [propext, Classical.choice, Quot.sound]
'Verif.c97_relative' depends on axioms: [propext, Classical.choice, Quot.sound]
'Verif.c97_ancestor' depends on axioms: [propext, Classical.choice, Quot.sound]
'Verif.c97_compose' depends on axioms: [propext, Classical.choice, Quot.sound]
'Verif.c97_compose_string' depends on axioms: [propext, Classical.choice, Quot.sound]
'Verif.c97_relative_any' depends on axioms: [propext, Classical.choice, Quot.sound]
'Verif.c97_ancestor_any' depends on axioms: [propext, Classical.choice, Quot.sound]
'Verif.c98_alone' depends on axioms: [propext, Classical.choice, Quot.sound]
'Verif.c98_interleave' depends on axioms: [propext, Classical.choice, Quot.sound]
'Verif.Locking.c99_serial_partial' depends on axioms: [propext, Classical.choice, Quot.sound]
'Verif.Locking.c99_settled' depends on axioms: [propext, Classical.choice, Quot.sound]
'Verif.Locking.c99_refuted' depends on axioms: [propext, Quot.sound]
'Verif.Ser.c100_identify_partial' depends on axioms: [propext, Classical.choice, Quot.sound]
'Verif.Ser.c100_nodes_partial' depends on axioms: [propext, Classical.choice, Quot.sound]
'Verif.Ser.c100_refuted' depends on axioms: [propext, Classical.choice, Quot.sound]
'Verif.Ser.c100_every_partial' depends on axioms: [propext, Classical.choice, Quot.sound]
'Verif.Ser.c101_alike_partial' depends on axioms: [propext, Classical.choice, Quot.sound]
'Verif.Ser.c101_deepcopy_partial' depends on axioms: [propext, Classical.choice, Quot.sound]
'Verif.Ser.c101_roundtrip_partial' depends on axioms: [propext, Classical.choice, Quot.sound]
'Verif.Ser.c101_data_partial' depends on axioms: [propext, Classical.choice, Quot.sound]
'Verif.Ser.c101_refuted' depends on axioms: [propext, Classical.choice, Quot.sound]
'Verif.c102_set_partial' depends on axioms: [propext, Classical.choice, Quot.sound]
'Verif.c102_insert_partial' depends on axioms: [propext, Classical.choice, Quot.sound]
'Verif.c102_end_partial' depends on axioms: [propext, Classical.choice, Quot.sound]
'Verif.c102_back_partial' depends on axioms: [propext, Classical.choice, Quot.sound]
'Verif.c102_succeeds' depends on axioms: [propext, Classical.choice, Quot.sound]
'Verif.c102_refuted' depends on axioms: [propext, Classical.choice, Quot.sound]
'Verif.c102_detach_partial' depends on axioms: [propext, Classical.choice, Quot.sound]
'Verif.c103_idle' depends on axioms: [propext, Classical.choice, Quot.sound]
'Verif.c103_later' depends on axioms: [propext, Classical.choice, Quot.sound]
'Verif.c104_shown' depends on axioms: [propext, Classical.choice, Quot.sound]
'Verif.c104_heap' depends on axioms: [propext, Classical.choice, Quot.sound]
'Verif.c105_order' depends on axioms: [propext, Classical.choice, Quot.sound]
'Verif.c106_opaque' depends on axioms: [propext, Classical.choice, Quot.sound]

# Axioms of each theorem in MANIFEST.json

As printed by `#print axioms`; written by `tools/axioms.py`.

## none

* `Verif.Props.memBuf_lawful`
* `Verif.Props.person_line_changed`
* `Verif.Props.typed_optional`
* `Verif.Props.typed_optional_fields`

## propext

* `Verif.Props.again_garbage`
* `Verif.Props.asm_node_refused`
* `Verif.Props.asm_refused`
* `Verif.Props.blob_as_other`
* `Verif.Props.build_commit_own`
* `Verif.Props.commit_cut_encoding`
* `Verif.Props.compressed_noticed`
* `Verif.Props.compressed_parse`
* `Verif.Props.conforming_is_node`
* `Verif.Props.copy_typed`
* `Verif.Props.decode_parse`
* `Verif.Props.decode_scalar`
* `Verif.Props.decoded_link_missing`
* `Verif.Props.dishonest_writer_undetected`
* `Verif.Props.encode_ambiguous`
* `Verif.Props.encode_writer_panic`
* `Verif.Props.endsFull_cr`
* `Verif.Props.gitString_personText`
* `Verif.Props.inMemory_greedy`
* `Verif.Props.iter_entries`
* `Verif.Props.iter_length`
* `Verif.Props.iter_nodup`
* `Verif.Props.iter_repr`
* `Verif.Props.iter_reprLength`
* `Verif.Props.iter_typed`
* `Verif.Props.key_asm_refused`
* `Verif.Props.lapse_brink`
* `Verif.Props.link_targets`
* `Verif.Props.list_lookup_node`
* `Verif.Props.list_node_changes`
* `Verif.Props.list_node_grows`
* `Verif.Props.list_not_unchanging`
* `Verif.Props.list_overread`
* `Verif.Props.lookups_refused`
* `Verif.Props.merged_signed`
* `Verif.Props.prototypes`
* `Verif.Props.prototypes_from`
* `Verif.Props.readme_commit_panics`
* `Verif.Props.reencode_panics`
* `Verif.Props.refused_by_kind`
* `Verif.Props.repeated_name_not_conforming`
* `Verif.Props.settle_exceptions`
* `Verif.Props.sha_to_link`
* `Verif.Props.sha_to_link_injective`
* `Verif.Props.sha_to_link_rejects`
* `Verif.Props.stale_slice`
* `Verif.Props.struct_lookup_node`
* `Verif.Props.tag_empty_message_changed`
* `Verif.Props.tag_without_tagger_changed`
* `Verif.Props.transform_top`
* `Verif.Props.treeAgain_garbage`
* `Verif.Props.tree_assign_empty`
* `Verif.Props.tree_assign_map_panics`
* `Verif.Props.tree_changes`
* `Verif.Props.tree_kept_name`
* `Verif.Props.tree_kept_split`
* `Verif.Props.tree_lookup_node_panics`
* `Verif.Props.tree_lookup_node_partial`
* `Verif.Props.tree_truncation_accepted`
* `Verif.Props.type_word_missing`
* `Verif.Props.type_word_unknown`
* `Verif.Props.typed_fields`
* `Verif.Props.typed_list_lookup`
* `Verif.Props.typed_tree_lookup`
* `Verif.Props.valOf_inj`
* `Verif.Props.views_agree`
* `Verif.Props.word_64`
* `Verif.Props.wrong_unique`

## Quot.sound, propext

* `Verif.Props.actsTree_unreset`
* `Verif.Props.acts_unreset`
* `Verif.Props.answers_agree`
* `Verif.Props.assign_any_tree`
* `Verif.Props.bare_content`
* `Verif.Props.blob_buffer`
* `Verif.Props.blob_is_given`
* `Verif.Props.blob_is_slice`
* `Verif.Props.blob_negative`
* `Verif.Props.blob_protocol`
* `Verif.Props.blob_short`
* `Verif.Props.blob_short_err`
* `Verif.Props.blocks_unique`
* `Verif.Props.buffer_size_irrelevant_partial`
* `Verif.Props.bytesLt_order`
* `Verif.Props.child_prototypes`
* `Verif.Props.commit_cut_reference`
* `Verif.Props.commit_parents_encoded`
* `Verif.Props.commit_reading_unique`
* `Verif.Props.compressed_checked`
* `Verif.Props.copy_type`
* `Verif.Props.decode_any`
* `Verif.Props.decode_builder`
* `Verif.Props.encode_dispatch`
* `Verif.Props.encode_foreign_commit_panics`
* `Verif.Props.encode_list_panics`
* `Verif.Props.encode_room`
* `Verif.Props.encode_work_least`
* `Verif.Props.encode_work_long_link`
* `Verif.Props.encode_work_result`
* `Verif.Props.encode_writer`
* `Verif.Props.endsFull_short`
* `Verif.Props.first_error_partial`
* `Verif.Props.flaky_failsFirst`
* `Verif.Props.flaky_failsOnce`
* `Verif.Props.fleeting_error_lost`
* `Verif.Props.fold_unique`
* `Verif.Props.fsck_person`
* `Verif.Props.git_tree_unique`
* `Verif.Props.head_unique`
* `Verif.Props.inMemory_delivers`
* `Verif.Props.iteration_matches_lookup`
* `Verif.Props.iteration_matches_lookup_repr`
* `Verif.Props.lapse_covers`
* `Verif.Props.lengthLt_order`
* `Verif.Props.merge_ambiguous`
* `Verif.Props.never_shown`
* `Verif.Props.node_conforms`
* `Verif.Props.node_keeps`
* `Verif.Props.other_kinds_refused`
* `Verif.Props.other_outcome`
* `Verif.Props.person_accepts`
* `Verif.Props.person_git_line`
* `Verif.Props.person_injective`
* `Verif.Props.person_line_preserved`
* `Verif.Props.person_no_panic`
* `Verif.Props.person_parsed_stable`
* `Verif.Props.person_rejects`
* `Verif.Props.person_roundtrip`
* `Verif.Props.read_failure_any`
* `Verif.Props.reads_feeds`
* `Verif.Props.refused_in_every_state`
* `Verif.Props.reset_as_new`
* `Verif.Props.reset_lets_go`
* `Verif.Props.reset_tree_as_new`
* `Verif.Props.reset_tree_lets_go`
* `Verif.Props.rest_parse`
* `Verif.Props.scalars_answer`
* `Verif.Props.script_delivers`
* `Verif.Props.second_assign`
* `Verif.Props.select_object`
* `Verif.Props.select_shows`
* `Verif.Props.shape_by_kind`
* `Verif.Props.singles_delivers`
* `Verif.Props.singles_prompt`
* `Verif.Props.size_header`
* `Verif.Props.size_header_objects`
* `Verif.Props.size_header_rejects`
* `Verif.Props.size_unshown`
* `Verif.Props.sizes_exact`
* `Verif.Props.sizes_pages`
* `Verif.Props.slices_valid`
* `Verif.Props.slices_valid_decode`
* `Verif.Props.stack_overflow`
* `Verif.Props.tagSigned_unique`
* `Verif.Props.tag_message_verbatim`
* `Verif.Props.treeAgain_first`
* `Verif.Props.treeTail_iff`
* `Verif.Props.tree_duplicate`
* `Verif.Props.tree_memory_matches`
* `Verif.Props.tree_names_distinct_iff`
* `Verif.Props.tree_truncated_header`
* `Verif.Props.tree_truncated_partial`
* `Verif.Props.type_word`
* `Verif.Props.typed_list_maybe_panics`
* `Verif.Props.typed_list_range`
* `Verif.Props.typed_tree_iteration`
* `Verif.Props.values_have_value_prototype`
* `Verif.Props.verify_any_made`
* `Verif.Props.verify_made`
* `Verif.Props.verify_unique`
* `Verif.Props.wide_tag`
* `Verif.Props.wide_tree_written`
* `Verif.Props.work_needs_buffer`
* `Verif.Props.work_result`

## Classical.choice, Quot.sound, propext

* `Verif.Props.accepted_or_wrong`
* `Verif.Props.again_first`
* `Verif.Props.again_named`
* `Verif.Props.again_other`
* `Verif.Props.again_rival`
* `Verif.Props.again_second`
* `Verif.Props.again_total`
* `Verif.Props.again_twice`
* `Verif.Props.again_unbuilt`
* `Verif.Props.again_value`
* `Verif.Props.any_encode`
* `Verif.Props.armour_tagSig`
* `Verif.Props.assign_any`
* `Verif.Props.assign_commit_panics`
* `Verif.Props.assign_panics_only`
* `Verif.Props.assign_tree`
* `Verif.Props.behind_blob`
* `Verif.Props.behind_closed`
* `Verif.Props.behind_commit`
* `Verif.Props.behind_lost`
* `Verif.Props.behind_tag`
* `Verif.Props.behind_tree`
* `Verif.Props.blob_accepts`
* `Verif.Props.blob_canonical`
* `Verif.Props.blob_changes`
* `Verif.Props.blob_content`
* `Verif.Props.blob_else`
* `Verif.Props.blob_memory`
* `Verif.Props.blob_memory_stream`
* `Verif.Props.blob_overread`
* `Verif.Props.blob_roundtrip`
* `Verif.Props.blob_survives`
* `Verif.Props.blob_takes_buffer`
* `Verif.Props.blobs_in_a_row`
* `Verif.Props.blobs_in_a_row_any`
* `Verif.Props.block_cidv1`
* `Verif.Props.block_exact`
* `Verif.Props.block_hash_unchecked`
* `Verif.Props.block_no_panic`
* `Verif.Props.bufferGrow_grows`
* `Verif.Props.buffer_size_message`
* `Verif.Props.build_commit_iff`
* `Verif.Props.build_commit_sound`
* `Verif.Props.build_person`
* `Verif.Props.build_repr`
* `Verif.Props.build_repr_commit`
* `Verif.Props.build_repr_commit_panics`
* `Verif.Props.build_tag`
* `Verif.Props.build_treeEntry`
* `Verif.Props.builder_complete`
* `Verif.Props.builder_sound`
* `Verif.Props.built_complete`
* `Verif.Props.built_fsck`
* `Verif.Props.built_lasts`
* `Verif.Props.built_message`
* `Verif.Props.built_persons`
* `Verif.Props.built_refs`
* `Verif.Props.built_refuses`
* `Verif.Props.built_stays`
* `Verif.Props.built_tag`
* `Verif.Props.built_tree`
* `Verif.Props.calls_build_commit`
* `Verif.Props.calls_build_person`
* `Verif.Props.calls_build_tag`
* `Verif.Props.calls_build_tree`
* `Verif.Props.calls_build_treeEntry`
* `Verif.Props.calls_match_assign`
* `Verif.Props.calls_match_assign_commit`
* `Verif.Props.calls_never_panic`
* `Verif.Props.calls_tree_distinct`
* `Verif.Props.calls_tree_error`
* `Verif.Props.calls_tree_lookup`
* `Verif.Props.calls_tree_never_panic`
* `Verif.Props.chunks_irrelevant_partial`
* `Verif.Props.commit_accepts`
* `Verif.Props.commit_author_changes`
* `Verif.Props.commit_bad_reference`
* `Verif.Props.commit_bytes_exact`
* `Verif.Props.commit_bytes_partial`
* `Verif.Props.commit_copy`
* `Verif.Props.commit_copy_absent`
* `Verif.Props.commit_cut_item`
* `Verif.Props.commit_form_refused`
* `Verif.Props.commit_git_order_changed`
* `Verif.Props.commit_header_order`
* `Verif.Props.commit_map_outcome`
* `Verif.Props.commit_merge_tags`
* `Verif.Props.commit_mergetag_swallows`
* `Verif.Props.commit_message_any`
* `Verif.Props.commit_message_verbatim`
* `Verif.Props.commit_other_headers`
* `Verif.Props.commit_parents`
* `Verif.Props.commit_reencode`
* `Verif.Props.commit_roundtrip`
* `Verif.Props.commit_signature`
* `Verif.Props.commit_signature_opening_lost`
* `Verif.Props.commit_signature_rejected`
* `Verif.Props.commit_survives`
* `Verif.Props.commit_survives_exact`
* `Verif.Props.commit_truncated_mergetag`
* `Verif.Props.commit_truncation_accepted`
* `Verif.Props.commit_truncation_exact`
* `Verif.Props.commit_truncation_headers_accepted`
* `Verif.Props.commit_unterminated_signature`
* `Verif.Props.compressed_intact`
* `Verif.Props.compressed_sound`
* `Verif.Props.compressed_unchecked`
* `Verif.Props.conforming_builds`
* `Verif.Props.copy_equal`
* `Verif.Props.copy_repr`
* `Verif.Props.crlf_line_ends_header`
* `Verif.Props.current_handles`
* `Verif.Props.dagjson_tree`
* `Verif.Props.decode_into`
* `Verif.Props.decode_into_partial`
* `Verif.Props.decode_into_tree_panics`
* `Verif.Props.decode_map`
* `Verif.Props.decode_no_panic`
* `Verif.Props.decode_terminates`
* `Verif.Props.decoded_commit_ok`
* `Verif.Props.decoded_conforms`
* `Verif.Props.decoded_from_stream`
* `Verif.Props.decoded_links`
* `Verif.Props.decoded_merge`
* `Verif.Props.decoded_private`
* `Verif.Props.decoded_tag_ok`
* `Verif.Props.deep_equal_alike`
* `Verif.Props.deep_equal_comm`
* `Verif.Props.deep_equal_encode`
* `Verif.Props.deep_equal_objects`
* `Verif.Props.deep_equal_reads`
* `Verif.Props.deep_equal_same`
* `Verif.Props.deep_equal_views`
* `Verif.Props.delivery_any`
* `Verif.Props.delivery_decode`
* `Verif.Props.delivery_eof`
* `Verif.Props.delivery_eof_decode`
* `Verif.Props.delivery_error`
* `Verif.Props.delivery_irrelevant`
* `Verif.Props.delivery_matters`
* `Verif.Props.delivery_parse`
* `Verif.Props.delivery_prompt`
* `Verif.Props.delivery_two`
* `Verif.Props.eager_cr_differs`
* `Verif.Props.eager_error_differs`
* `Verif.Props.encode_foreign`
* `Verif.Props.encode_foreign_tag`
* `Verif.Props.encode_foreign_tag_exact`
* `Verif.Props.encode_foreign_tag_message_first`
* `Verif.Props.encode_injective`
* `Verif.Props.encode_panic_cause`
* `Verif.Props.encode_representation_commit`
* `Verif.Props.encode_representation_differs`
* `Verif.Props.encode_representation_iff`
* `Verif.Props.encode_representation_partial`
* `Verif.Props.encode_size`
* `Verif.Props.encode_size_blob`
* `Verif.Props.encode_size_written`
* `Verif.Props.encode_type`
* `Verif.Props.encode_typed`
* `Verif.Props.encode_work_decoded`
* `Verif.Props.encode_work_linear`
* `Verif.Props.entries_delivery`
* `Verif.Props.entries_exact`
* `Verif.Props.entries_total`
* `Verif.Props.entries_tree`
* `Verif.Props.entry_call`
* `Verif.Props.eof_means`
* `Verif.Props.eof_not_end`
* `Verif.Props.errors_have_details`
* `Verif.Props.errors_truthful`
* `Verif.Props.finish_names_missing`
* `Verif.Props.fleeting_error_lost_tag`
* `Verif.Props.fold_commit`
* `Verif.Props.fold_commit_short_message`
* `Verif.Props.fold_exists`
* `Verif.Props.fold_short`
* `Verif.Props.fold_tag`
* `Verif.Props.follow_exact`
* `Verif.Props.fsck_commit`
* `Verif.Props.fsck_commit_exact`
* `Verif.Props.fsck_tag`
* `Verif.Props.git_message`
* `Verif.Props.git_order_bytes`
* `Verif.Props.git_refs`
* `Verif.Props.git_refs_exact`
* `Verif.Props.git_refuses`
* `Verif.Props.git_tag`
* `Verif.Props.git_tree`
* `Verif.Props.given_commit`
* `Verif.Props.given_exact`
* `Verif.Props.given_lines`
* `Verif.Props.given_tag`
* `Verif.Props.given_tree_changes`
* `Verif.Props.given_tree_shared`
* `Verif.Props.goGrow_grows`
* `Verif.Props.graph_panics`
* `Verif.Props.graph_path`
* `Verif.Props.graph_path_exact`
* `Verif.Props.grown_accepted`
* `Verif.Props.grown_encoded`
* `Verif.Props.growth_sharp`
* `Verif.Props.kept_handles`
* `Verif.Props.lapse_between_lines`
* `Verif.Props.lapse_commit`
* `Verif.Props.lapse_commit_any`
* `Verif.Props.lapse_in_header`
* `Verif.Props.lapse_tag`
* `Verif.Props.lapse_tag_any`
* `Verif.Props.list_index_range`
* `Verif.Props.list_iteration`
* `Verif.Props.list_iteration_elems`
* `Verif.Props.list_nodes_unchanging_partial`
* `Verif.Props.long_line_forges_parent`
* `Verif.Props.long_line_splits`
* `Verif.Props.loops_bounded`
* `Verif.Props.made_merges`
* `Verif.Props.makes_unique`
* `Verif.Props.many_inputs`
* `Verif.Props.memory_matches_any_showing`
* `Verif.Props.memory_matches_values`
* `Verif.Props.merge_in`
* `Verif.Props.merge_out`
* `Verif.Props.merged_verify`
* `Verif.Props.multi_exact`
* `Verif.Props.multi_kept`
* `Verif.Props.next_decode`
* `Verif.Props.object_roundtrip`
* `Verif.Props.other_as_itself`
* `Verif.Props.parse_no_panic`
* `Verif.Props.path_lookup`
* `Verif.Props.path_lookup_decoded`
* `Verif.Props.path_negative_panics`
* `Verif.Props.path_no_panic_partial`
* `Verif.Props.path_panics`
* `Verif.Props.people_nodes_unchanging_partial`
* `Verif.Props.people_not_unchanging`
* `Verif.Props.read_failure`
* `Verif.Props.readme_blob`
* `Verif.Props.readme_commit_missing`
* `Verif.Props.readme_tag_fails`
* `Verif.Props.readme_tree_builds`
* `Verif.Props.readme_tree_fails`
* `Verif.Props.reads_linear`
* `Verif.Props.reads_linear_decode`
* `Verif.Props.rebuild`
* `Verif.Props.rebuild_tree`
* `Verif.Props.reencode_double`
* `Verif.Props.reencode_growth`
* `Verif.Props.reencode_partial`
* `Verif.Props.ref_iff`
* `Verif.Props.refused_because`
* `Verif.Props.refused_reader`
* `Verif.Props.rest_iff`
* `Verif.Props.same_blob`
* `Verif.Props.same_commit`
* `Verif.Props.same_tag`
* `Verif.Props.same_tree`
* `Verif.Props.select_missing_commit`
* `Verif.Props.select_missing_never`
* `Verif.Props.select_missing_tag`
* `Verif.Props.settle_exact`
* `Verif.Props.settle_fits`
* `Verif.Props.settle_partial`
* `Verif.Props.settled_steps`
* `Verif.Props.settled_whole`
* `Verif.Props.shuffled_commit`
* `Verif.Props.shuffled_tag`
* `Verif.Props.shuffled_tree`
* `Verif.Props.sign_built`
* `Verif.Props.sign_pgp_only`
* `Verif.Props.sign_tag`
* `Verif.Props.signed_exact`
* `Verif.Props.signed_other_format`
* `Verif.Props.signed_payload`
* `Verif.Props.signed_refused`
* `Verif.Props.signed_unclosed`
* `Verif.Props.slices_buffer`
* `Verif.Props.slices_no_leak`
* `Verif.Props.slices_stream`
* `Verif.Props.sorted_tree`
* `Verif.Props.stack_enough`
* `Verif.Props.stack_sharp`
* `Verif.Props.stack_tags`
* `Verif.Props.stale_repr_overwrites`
* `Verif.Props.stale_repr_refused`
* `Verif.Props.stale_typed_harmless`
* `Verif.Props.stdout_accepted`
* `Verif.Props.stdout_delivery`
* `Verif.Props.stdout_exact`
* `Verif.Props.store_block`
* `Verif.Props.store_block_exact`
* `Verif.Props.store_grows`
* `Verif.Props.store_loaded`
* `Verif.Props.store_then_load`
* `Verif.Props.store_then_load_any`
* `Verif.Props.tag_accepts`
* `Verif.Props.tag_bad_reference`
* `Verif.Props.tag_bytes_exact`
* `Verif.Props.tag_bytes_partial`
* `Verif.Props.tag_copy`
* `Verif.Props.tag_form_refused`
* `Verif.Props.tag_header_order`
* `Verif.Props.tag_map_fails`
* `Verif.Props.tag_map_panics`
* `Verif.Props.tag_message_any`
* `Verif.Props.tag_roundtrip`
* `Verif.Props.tag_survives`
* `Verif.Props.tag_survives_exact`
* `Verif.Props.tag_truncation_accepted`
* `Verif.Props.tag_truncation_exact`
* `Verif.Props.tag_unknown_header_lost`
* `Verif.Props.tag_verify_exact`
* `Verif.Props.tag_verify_kept`
* `Verif.Props.tag_verify_made`
* `Verif.Props.tag_verify_size`
* `Verif.Props.tower_accepted`
* `Verif.Props.transform_commit`
* `Verif.Props.transform_commit_message`
* `Verif.Props.transform_commit_missing`
* `Verif.Props.transform_commit_repr`
* `Verif.Props.transform_commit_repr_panics`
* `Verif.Props.transform_same`
* `Verif.Props.transform_tag_message`
* `Verif.Props.transform_tree`
* `Verif.Props.transform_tree_lookup`
* `Verif.Props.transform_tree_missing`
* `Verif.Props.transform_tree_new`
* `Verif.Props.transform_tree_row`
* `Verif.Props.transform_value`
* `Verif.Props.treeAgain_all`
* `Verif.Props.treeAgain_last`
* `Verif.Props.treeAgain_then`
* `Verif.Props.treeAgain_total`
* `Verif.Props.tree_accepts`
* `Verif.Props.tree_add_refines`
* `Verif.Props.tree_build`
* `Verif.Props.tree_bytes`
* `Verif.Props.tree_complete`
* `Verif.Props.tree_copy`
* `Verif.Props.tree_current_handles`
* `Verif.Props.tree_decoded`
* `Verif.Props.tree_errors_truthful`
* `Verif.Props.tree_lasts`
* `Verif.Props.tree_lookup_finished`
* `Verif.Props.tree_lookup_iteration`
* `Verif.Props.tree_lookup_last_row`
* `Verif.Props.tree_names_distinct_partial`
* `Verif.Props.tree_names_not_distinct`
* `Verif.Props.tree_nodes_unchanging_partial`
* `Verif.Props.tree_not_unchanging`
* `Verif.Props.tree_refuses`
* `Verif.Props.tree_roundtrip`
* `Verif.Props.tree_settled`
* `Verif.Props.tree_sound`
* `Verif.Props.tree_source_changes`
* `Verif.Props.tree_survives`
* `Verif.Props.tree_unique`
* `Verif.Props.tree_unsafe`
* `Verif.Props.typed_list_iteration`
* `Verif.Props.typed_list_nil_loop`
* `Verif.Props.value_outcome`
* `Verif.Props.verify_again`
* `Verif.Props.verify_any`
* `Verif.Props.verify_exact`
* `Verif.Props.view_outcome`
* `Verif.Props.wide_commit`
* `Verif.Props.wide_tree`
* `Verif.Props.word_32`
* `Verif.Props.word_commit`
* `Verif.Props.word_commit_tag`
* `Verif.Props.word_same`
* `Verif.Props.word_signed_tag`
* `Verif.Props.word_tag`
* `Verif.Props.word_tag_commit`
* `Verif.Props.word_tree`
* `Verif.Props.word_wide`
* `Verif.Props.word_written`
* `Verif.Props.work_blob`
* `Verif.Props.work_linear`
* `Verif.Props.work_lines`
* `Verif.Props.work_merge_message`
* `Verif.Props.work_signature`
* `Verif.Props.work_tree`
* `Verif.Props.written_commit`
* `Verif.Props.written_plain`
* `Verif.Props.written_tag`
* `Verif.Props.wrong_one`

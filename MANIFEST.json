{
 "claims": [
  {
   "property": "C01",
   "status": "proved",
   "theorems": [
    "Isar.Wic.layout_no_overlap",
    "Isar.Wic.create_matches_layout"
   ],
   "note": "All .wks lists and table formats."
  },
  {
   "property": "C02",
   "status": "proved",
   "theorems": [
    "Isar.Wic.layout_fits_image",
    "Isar.Wic.layout_image_tight"
   ],
   "note": ""
  },
  {
   "property": "C03",
   "status": "proved",
   "theorems": [
    "Isar.Wic.align_honoured",
    "Isar.Wic.unaligned_is_adjacent"
   ],
   "note": ""
  },
  {
   "property": "C04",
   "status": "proved",
   "theorems": [
    "Isar.Wic.offset_honoured",
    "Isar.Wic.bad_offset_rejected",
    "Isar.Wic.occupied_offset_rejected",
    "Isar.Wic.layout_total"
   ],
   "note": ""
  },
  {
   "property": "C05",
   "status": "partial",
   "theorems": [
    "Isar.Wic.numbers_distinct",
    "Isar.Wic.numbers_agree_gpt",
    "Isar.Wic.numbers_agree_partial",
    "Isar.Wic.numbers_disagree_logical"
   ],
   "note": "Distinctness and gpt hold in full. On msdos the agreement is false with explicit --type logical (numbers_disagree_logical); proved for all other lists."
  },
  {
   "property": "C06",
   "status": "partial",
   "theorems": [
    "Isar.Wic.msdos_slots",
    "Isar.Wic.extended_once",
    "Isar.Wic.no_extended_without_logical",
    "Isar.Wic.extended_contains_logical_partial",
    "Isar.Wic.extended_too_small_offset",
    "Isar.Wic.extended_too_small_noTable",
    "Isar.Wic.extended_misplaced_primary"
   ],
   "note": "Exactly one extended partition, at the right start, in all cases. Its end is wrong for three kinds of .wks files (witnesses proved); exact containment is proved for the others."
  },
  {
   "property": "C07",
   "status": "proved",
   "theorems": [
    "Isar.Wic.Filemap.sparse_copy_faithful",
    "Isar.Wic.Filemap.sparse_copy_new",
    "Isar.Wic.Filemap.seek_map_valid",
    "Isar.Wic.Filemap.fiemap_map_valid",
    "Isar.Wic.Filemap.nobmap_map_valid"
   ],
   "note": "For any map that is valid for the source; the three mapping methods are shown to give valid maps."
  },
  {
   "property": "C08",
   "status": "proved",
   "theorems": [
    "Isar.Wic.Filemap.sparse_copy_bytes",
    "Isar.Wic.Filemap.sparse_copy_faithful"
   ],
   "note": "Determines every byte of the destination."
  },
  {
   "property": "C09",
   "status": "partial",
   "theorems": [
    "Isar.Wic.Filemap.seek_ranges_exact",
    "Isar.Wic.Filemap.nobmap_ranges_exact",
    "Isar.Wic.Filemap.fiemap_ranges_exact_partial",
    "Isar.Wic.Filemap.fiemap_unmapped_fails"
   ],
   "note": "Holds in full for SEEK_DATA/SEEK_HOLE. For FIEMAP it holds when at least one block is mapped; for an area without mapped blocks the generator raises (RuntimeError from StopIteration), which is proved."
  },
  {
   "property": "C15",
   "status": "proved",
   "theorems": [
    "Isar.Wic.fstab_updated",
    "Isar.Wic.fstab_fields",
    "Isar.Wic.fat_uuid_device",
    "Isar.Wic.fstab_device_node"
   ],
   "note": ""
  },
  {
   "property": "C41",
   "status": "proved",
   "theorems": [
    "Isar.Wic.assembled_image",
    "Isar.Wic.assemble_spec"
   ],
   "note": ""
  },
  {
   "property": "C42",
   "status": "proved",
   "theorems": [
    "Isar.Wic.msdos_uuids_distinct"
   ],
   "note": ""
  },
  {
   "property": "C43",
   "status": "partial",
   "theorems": [
    "Isar.Wic.rootdev_spec",
    "Isar.Wic.fstab_device_node",
    "Isar.Wic.rootdev_label_partial",
    "Isar.Wic.rootdev_wrong_label"
   ],
   "note": "With --label and --part-name on gpt, root=PARTLABEL names the label although the partition is named by --part-name (rootdev_wrong_label); the rest is proved."
  },
  {
   "property": "C44",
   "status": "partial",
   "theorems": [
    "Isar.Wic.hybrid_mbr_spec",
    "Isar.Wic.hybrid_mbr_disjoint_partial",
    "Isar.Wic.hybrid_mbr_overlap"
   ],
   "note": "Limit and contents hold. The protective entry covers sectors 1-34 and overlaps a partition that starts at sector 34 (hybrid_mbr_overlap); disjoint otherwise."
  },
  {
   "property": "C45",
   "status": "proved",
   "theorems": [
    "Isar.Wic.numbers_match_table"
   ],
   "note": ""
  },
  {
   "property": "C46",
   "status": "proved",
   "theorems": [
    "Isar.Wic.unsupported_rejected"
   ],
   "note": ""
  },
  {
   "property": "C10",
   "status": "proved",
   "theorems": [
    "Isar.Wic.Ks.size_units",
    "Isar.Wic.Ks.size_accepted",
    "Isar.Wic.Ks.int_literal",
    "Isar.Wic.Ks.negative_size_accepted"
   ],
   "note": "Negative literals are accepted by the code (negative_size_accepted)."
  },
  {
   "property": "C11",
   "status": "proved",
   "theorems": [
    "Isar.Wic.Ks.contradictions_rejected",
    "Isar.Wic.Ks.size_conflict"
   ],
   "note": ""
  },
  {
   "property": "C12",
   "status": "partial",
   "theorems": [
    "Isar.Wic.Ks.explicit_honoured_partial",
    "Isar.Wic.Ks.explicit_ignored"
   ],
   "note": "False for --option=value and for abbreviations (explicit_ignored); proved for options written as a word of their own and for absent options."
  },
  {
   "property": "C13",
   "status": "proved",
   "theorems": [
    "Isar.Wic.Ks.expand_sound",
    "Isar.Wic.Ks.expand_terminates",
    "Isar.Wic.Ks.expand_pieces",
    "Isar.Wic.Ks.expand_diverges"
   ],
   "note": "Termination for values without $; expand_diverges shows that the assumption is needed."
  },
  {
   "property": "C14",
   "status": "proved",
   "theorems": [
    "Isar.Wic.Ks.rootfs_size_enough",
    "Isar.Wic.Ks.rootfs_size_exact",
    "Isar.Wic.Ks.rootfs_size_total",
    "Isar.Wic.Ks.disk_size_enough"
   ],
   "note": "Exact rational arithmetic instead of floating point."
  },
  {
   "property": "C47",
   "status": "proved",
   "theorems": [
    "Isar.Wic.Ks.include_textual",
    "Isar.Wic.Ks.partitions_in_order",
    "Isar.Wic.Ks.include_cycle"
   ],
   "note": ""
  },
  {
   "property": "C48",
   "status": "partial",
   "theorems": [
    "Isar.Wic.Ks.line_has_effect_partial",
    "Isar.Wic.Ks.quoted_command_ignored"
   ],
   "note": "A line whose command word is quoted is parsed and then ignored (quoted_command_ignored); proved for lines without quotes and backslashes."
  },
  {
   "property": "C49",
   "status": "proved",
   "theorems": [
    "Isar.Wic.Ks.options_recorded"
   ],
   "note": ""
  },
  {
   "property": "C50",
   "status": "proved",
   "theorems": [
    "Isar.Wic.Ks.system_id_range",
    "Isar.Wic.Ks.hex_value",
    "Isar.Wic.Ks.hexDigitsVal_sound"
   ],
   "note": ""
  },
  {
   "property": "C19",
   "status": "partial",
   "theorems": [
    "Isar.Lists.list_value_exact",
    "Isar.Lists.no_marker_left",
    "Isar.Lists.unrequested_kept",
    "Isar.Lists.requested_removed_partial",
    "Isar.Lists.removal_of_repeated"
   ],
   "note": "No marker is left and unrequested items are kept in order (full). A requested item is removed only if it occurs at most as often as it is requested, counting implied items; removal_of_repeated shows that it stays otherwise."
  },
  {
   "property": "C20",
   "status": "proved",
   "theorems": [
    "Isar.Lists.list_terminates",
    "Isar.Lists.implied_closure",
    "Isar.Lists.list_value_exact",
    "Isar.Lists.list_closure"
   ],
   "note": ""
  },
  {
   "property": "C21",
   "status": "partial",
   "theorems": [
    "Isar.Multiarch.variant_names_exact",
    "Isar.Multiarch.variant_suffix_added_partial",
    "Isar.Multiarch.variant_name_twice"
   ],
   "note": "A name that carries a variant suffix is kept but gets the suffix a second time as well (variant_name_twice). variant_names_exact describes the result for all lists."
  },
  {
   "property": "C22",
   "status": "proved",
   "theorems": [
    "Isar.Multiarch.packages_exact"
   ],
   "note": ""
  },
  {
   "property": "C23",
   "status": "proved",
   "theorems": [
    "Isar.Multiarch.variant_provided_once"
   ],
   "note": "For names without variant suffix; PROVIDES written without ${PN}."
  },
  {
   "property": "C51",
   "status": "proved",
   "theorems": [
    "Isar.Multiarch.native_depends"
   ],
   "note": ""
  },
  {
   "property": "C24",
   "status": "proved",
   "theorems": [
    "Isar.Apt.sources_complete",
    "Isar.Apt.missing_source_fatal"
   ],
   "note": "For entries in the form of AptSpec.Wf (at most two options)."
  },
  {
   "property": "C25",
   "status": "proved",
   "theorems": [
    "Isar.Apt.first_mirror_wins",
    "Isar.Apt.mirror_precedence"
   ],
   "note": "Regular expression search and substitution are parameters."
  },
  {
   "property": "C52",
   "status": "partial",
   "theorems": [
    "Isar.Apt.entry_read_exact_partial",
    "Isar.Apt.entry_misread",
    "Isar.Apt.no_entry",
    "Isar.Apt.primary_is_first_deb"
   ],
   "note": "Proved for at most two options; with three options the location is misread and single-word lines raise (entry_misread)."
  },
  {
   "property": "C53",
   "status": "partial",
   "theorems": [
    "Isar.Apt.options_kept_partial",
    "Isar.Apt.snapshot_drops_options"
   ],
   "note": "With snapshots the options are replaced (snapshot_drops_options)."
  },
  {
   "property": "C26",
   "status": "proved",
   "theorems": [
    "Isar.ImageTypes.base_type_defined",
    "Isar.ImageTypes.base_type_terminates",
    "Isar.ImageTypes.base_type_fixed",
    "Isar.ImageTypes.base_type_unique"
   ],
   "note": "Uniqueness for conversion names without dots."
  },
  {
   "property": "C27",
   "status": "proved",
   "theorems": [
    "Isar.ImageTypes.needed_types_built",
    "Isar.ImageTypes.needed_types_terminates",
    "Isar.ImageTypes.needed_types_cycle"
   ],
   "note": "For conversion names without dots. Termination for acyclic dependencies; needed_types_cycle shows that the assumption is needed."
  },
  {
   "property": "C28",
   "status": "partial",
   "theorems": [
    "Isar.ImageTypes.requested_images_kept_partial",
    "Isar.ImageTypes.requested_image_deleted"
   ],
   "note": "False if a base type is not needed itself and has two needed conversions (requested_image_deleted: ext4.gz ext4.xz); proved for all others."
  },
  {
   "property": "C29",
   "status": "proved",
   "theorems": [
    "Isar.ImageTypes.conversions_in_order"
   ],
   "note": "For conversion names without dots."
  },
  {
   "property": "C54",
   "status": "proved",
   "theorems": [
    "Isar.ImageTypes.tasks_after_dependencies"
   ],
   "note": ""
  },
  {
   "property": "C55",
   "status": "partial",
   "theorems": [
    "Isar.ImageTypes.basetypes_exact_partial",
    "Isar.ImageTypes.basetypes_incomplete"
   ],
   "note": "False for dependencies declared for converted types (basetypes_incomplete)."
  },
  {
   "property": "C56",
   "status": "partial",
   "theorems": [
    "Isar.ImageTypes.task_names_distinct_partial",
    "Isar.ImageTypes.task_names_collide"
   ],
   "note": "False for names that differ only in - . _ (task_names_collide)."
  },
  {
   "property": "C16",
   "status": "proved",
   "theorems": [
    "Isar.Sstate.upload_complete",
    "Isar.Sstate.upload_changes_nothing_else",
    "Isar.Sstate.upload_selection"
   ],
   "note": "Filesystem target; user expressions are predicates."
  },
  {
   "property": "C17",
   "status": "partial",
   "theorems": [
    "Isar.Sstate.clean_exact",
    "Isar.Sstate.clean_removes_old",
    "Isar.Sstate.clean_keeps_others",
    "Isar.Sstate.clean_keeps_young_partial",
    "Isar.Sstate.clean_deletes_young_signature"
   ],
   "note": "False for signatures: they are deleted together with their archives whatever --max-sig-age says (clean_deletes_young_signature). clean_exact describes the result in all cases."
  },
  {
   "property": "C18",
   "status": "proved",
   "theorems": [
    "Isar.Sstate.delete_exact",
    "Isar.Sstate.delete_wf",
    "Isar.Sstate.deletions_exact"
   ],
   "note": "Filesystem target."
  },
  {
   "property": "C57",
   "status": "partial",
   "theorems": [
    "Isar.Sstate.age_exact_partial",
    "Isar.Sstate.age_rejected",
    "Isar.Sstate.age_trailing_ignored"
   ],
   "note": "Text after the number and unit is ignored (age_trailing_ignored)."
  },
  {
   "property": "C58",
   "status": "partial",
   "theorems": [
    "Isar.Sstate.upload_resumed_partial",
    "Isar.Sstate.upload_interrupted_incomplete"
   ],
   "note": "False for interruptions during a copy (upload_interrupted_incomplete); proved for all interruptions between two files."
  },
  {
   "property": "C59",
   "status": "proved",
   "theorems": [
    "Isar.Sstate.fields_recovered"
   ],
   "note": ""
  },
  {
   "property": "C60",
   "status": "partial",
   "theorems": [
    "Isar.Sstate.lint_finds_all",
    "Isar.Sstate.lint_status_partial",
    "Isar.Sstate.lint_status_wraps"
   ],
   "note": "The count is right in all cases; the exit status is the count modulo 256 (lint_status_wraps)."
  },
  {
   "property": "C61",
   "status": "partial",
   "theorems": [
    "Isar.Sstate.no_temporary_left_partial",
    "Isar.Sstate.downloaded_once",
    "Isar.Sstate.missing_download_leaks"
   ],
   "note": "False for remote files that do not exist (missing_download_leaks)."
  },
  {
   "property": "C30",
   "status": "partial",
   "theorems": [
    "Isar.Rootfs.install_restores",
    "Isar.Rootfs.postprocess_restores_partial",
    "Isar.Rootfs.initramfs_restores_partial",
    "Isar.Rootfs.postprocess_leaves_mounts",
    "Isar.Rootfs.initramfs_leaves_mounts",
    "Isar.Rootfs.postprocess_without_commands"
   ],
   "note": "Full for do_rootfs_install. do_rootfs_postprocess and do_generate_initramfs mount before their try block: if a mount or the qemu copy fails, or there is no command, everything stays mounted (proved)."
  },
  {
   "property": "C31",
   "status": "partial",
   "theorems": [
    "Isar.Rootfs.lock_held_exactly",
    "Isar.Rootfs.lock_free_at_end_partial",
    "Isar.Rootfs.lock_handling_total",
    "Isar.Rootfs.lock_flags",
    "Isar.Rootfs.lock_kept_on_failure"
   ],
   "note": "A command runs under the lock exactly if it should, for all failures. After a failing command the function ends with the lock held (lock_kept_on_failure); only the end of the process frees it."
  },
  {
   "property": "C32",
   "status": "partial",
   "theorems": [
    "Isar.Rootfs.umount_inverse",
    "Isar.Rootfs.other_mounts_kept",
    "Isar.Rootfs.mounts_exact",
    "Isar.Rootfs.placeholders_removed",
    "Isar.Rootfs.mounts_repeated_partial",
    "Isar.Rootfs.mount_twice_stuck"
   ],
   "note": "Full for one run of the mount script with any failure. Repeated runs only without /sys/firmware: with it the second run stacks a second tmpfs and unmounting fails (mount_twice_stuck)."
  },
  {
   "property": "C33",
   "status": "partial",
   "theorems": [
    "Isar.Paths.template_inside_partial",
    "Isar.Paths.template_outside",
    "Isar.Paths.transform_written"
   ],
   "note": "False as stated: the check compares text, so a sibling directory whose name begins with that of WORKDIR is accepted (template_outside). Symbolic links are not modelled."
  },
  {
   "property": "C34",
   "status": "partial",
   "theorems": [
    "Isar.Paths.clean_inside_partial",
    "Isar.Paths.clean_exact",
    "Isar.Paths.cleans_outside",
    "Isar.Paths.mount_not_seen",
    "Isar.Paths.mount_check"
   ],
   "note": "False as stated: prefix siblings of TMPDIR are removed (cleans_outside) and the mount check looks at the path without TMPDIR (mount_not_seen). clean_exact is full for proper lists."
  },
  {
   "property": "C62",
   "status": "partial",
   "theorems": [
    "Isar.Paths.template_result_name",
    "Isar.Paths.template_kept_partial",
    "Isar.Paths.template_overwritten"
   ],
   "note": "A template called .tmpl (only dots before it) is its own result (template_overwritten)."
  },
  {
   "property": "C63",
   "status": "partial",
   "theorems": [
    "Isar.Paths.relative_link_partial",
    "Isar.Paths.relative_link_wrong",
    "Isar.Paths.relative_link_lost"
   ],
   "note": "Full if the first differing component of the link is not a text prefix of that of the target and the target is not the own directory; both exceptions are proved to go wrong."
  },
  {
   "property": "C64",
   "status": "partial",
   "theorems": [
    "Isar.Paths.replaced_link_partial",
    "Isar.Paths.replaced_link_wrong",
    "Isar.Paths.replaced_link_cwd"
   ],
   "note": "Full if the name of the tree does not occur again in the link's path and has no slash at the end; both exceptions are proved to go wrong."
  },
  {
   "property": "C65",
   "status": "proved",
   "theorems": [
    "Isar.Paths.path_parent_exact",
    "Isar.Paths.path_parent_two_slashes"
   ],
   "note": "For paths that do not begin with exactly two slashes (path_parent_two_slashes shows the exception)."
  },
  {
   "property": "C66",
   "status": "proved",
   "theorems": [
    "Isar.Paths.realpath_in_root",
    "Isar.Paths.realpath_refuses"
   ],
   "note": "With use_physdir (the default); lstat of a name with a slash at the end is assumed to follow links."
  },
  {
   "property": "C67",
   "status": "partial",
   "theorems": [
    "Isar.Paths.realpath_resolves_partial",
    "Isar.Paths.realpath_complete_partial",
    "Isar.Paths.realpath_text_wrong",
    "Isar.Paths.realpath_dot_wrong"
   ],
   "note": "Sound and complete for link texts without needless parts; for others realpath can return a different place (proved)."
  },
  {
   "property": "C35",
   "status": "proved",
   "theorems": [
    "Isar.Accounts.accounts_created",
    "Isar.Accounts.accounts_again",
    "Isar.Accounts.accounts_order",
    "Isar.Accounts.home_moved",
    "Isar.Accounts.dash_name_fails"
   ],
   "note": "For names without a colon that do not begin with a dash (dash_name_fails shows the exception); the account programs are specified in AccountsSpec and do not fail for other reasons such as identifiers in use."
  },
  {
   "property": "C36",
   "status": "proved",
   "theorems": [
    "Bb.Version.explode_iff",
    "Bb.Version.vercmpPart_iff",
    "Bb.Version.vercmp_swap",
    "Bb.Version.vercmp_trans",
    "Bb.Version.vercmp_eq",
    "Bb.Version.vercmp_lt"
   ],
   "note": "For versions without line breaks and with ASCII digits only."
  },
  {
   "property": "C68",
   "status": "proved",
   "theorems": [
    "Bb.Version.splitVersion_iff",
    "Bb.Version.splitVersion_fails",
    "Bb.Version.ops_consistent",
    "Bb.Version.op_refused",
    "Bb.Version.second_colon_lost"
   ],
   "note": "int() is a parameter. A second colon cuts the version off, and the operators =< and => that dependency strings may contain are refused (proved)."
  },
  {
   "property": "C69",
   "status": "proved",
   "theorems": [
    "Bb.Version.tilde_before",
    "Bb.Version.longer_later",
    "Bb.Version.number_order",
    "Bb.Version.leading_zeros"
   ],
   "note": ""
  },
  {
   "property": "C37",
   "status": "partial",
   "theorems": [
    "Bb.Deps.explode_deps_exact",
    "Bb.Deps.explode_deps_names",
    "Bb.Deps.explode_versions",
    "Bb.Deps.join_explode",
    "Bb.Deps.explode_join_explode_partial",
    "Bb.Deps.sorted_same",
    "Bb.Deps.sorted_join_sorted_partial",
    "Bb.Deps.bad_operator_refused",
    "Bb.Deps.explode_join_explode_fails",
    "Bb.Deps.many_words_wrong",
    "Bb.Deps.two_groups_wrong",
    "Bb.Deps.comma_kept"
   ],
   "note": "The last clause holds for constraints of an operator and one word; constraints of several words, or two in a row for one name, are misread (proved)."
  },
  {
   "property": "C38",
   "status": "partial",
   "theorems": [
    "Bb.Cow.original_unchanged",
    "Bb.Cow.copy_shows_parent",
    "Bb.Cow.nearest_change_partial",
    "Bb.Cow.set_immutable_shown",
    "Bb.Cow.set_mutable_shown_partial",
    "Bb.Cow.deleted_not_shown",
    "Bb.Cow.read_detaches",
    "Bb.Cow.items_exact",
    "Bb.Cow.mutable_name_leaks",
    "Bb.Cow.set_mutable_lost",
    "Bb.Cow.set_after_delete_lost",
    "Bb.Cow.original_hides_own",
    "Bb.Cow.empty_tuple_missing",
    "Bb.Cow.method_names_are_keys",
    "Bb.Cow.deleted_key_iterated",
    "Bb.Cow.key_iterated_twice"
   ],
   "note": "The first clause holds for all histories with keys that do not end with __mutable__. The second holds if each key has values of one kind; a mutable value set over an immutable one or after a deletion is lost, and an immutable value in the original hides a mutable one of the copy (proved)."
  },
  {
   "property": "C39",
   "status": "partial",
   "theorems": [
    "Bb.Data.operators_compose_partial",
    "Bb.Data.operators_order_partial",
    "Bb.Data.capital_override_no_operator"
   ],
   "note": "For a variable that is new, without overrides of its own and whose name holds no operator; overrides of operators with capital letters are not recognised (proved). The removed words are stated after expansion, spaces around them stay."
  },
  {
   "property": "C40",
   "status": "partial",
   "theorems": [
    "Bb.Data.original_unchanged_partial",
    "Bb.Data.exports_unchanged_partial",
    "Bb.Data.export_leaks",
    "Bb.Data.del_flags_in_copy"
   ],
   "note": "Values and flags never change. The list of exported variables does: the set is shared and changed in place (proved). Renamed variables are shared as well and not modelled."
  },
  {
   "property": "C70",
   "status": "partial",
   "theorems": [
    "Bb.Data.last_override_wins_partial",
    "Bb.Data.depth_enough",
    "Bb.Data.rounds_enough",
    "Bb.Data.repeated_override",
    "Bb.Data.compound_override_lost",
    "Bb.Data.append_makes_override"
   ],
   "note": "For overrides of one part and variables without a colon. A repeated override counts at its first place, an override of several parts that repeats a text is lost, and an append to a variable in small letters makes it an override of a shorter name (proved)."
  },
  {
   "property": "C71",
   "status": "proved",
   "theorems": [
    "Bb.Data.set_get",
    "Bb.Data.del_get",
    "Bb.Data.del_other_flag",
    "Bb.Data.copy_shows_original",
    "Bb.Data.set_forgets_overrides"
   ],
   "note": "Overrides that are not active when a variable is set have no effect later (proved)."
  },
  {
   "property": "C72",
   "status": "proved",
   "theorems": [
    "Bb.Data.removes_carried"
   ],
   "note": "For variables without active appends and prepends, which are added behind and in front of the value."
  },
  {
   "property": "C73",
   "status": "proved",
   "theorems": [
    "Bb.Lock.mutual_exclusion",
    "Bb.Lock.file_present",
    "Bb.Lock.removed_unused",
    "Bb.Lock.free_lock_taken"
   ],
   "note": "A transition system with one step per system call; the assumptions on flock, open and inode numbers are listed in the model. Removal of lock files by others is not modelled."
  },
  {
   "property": "C74",
   "status": "partial",
   "theorems": [
    "Bb.Lock.same_order_no_deadlock_partial",
    "Bb.Lock.one_lock_no_deadlock",
    "Bb.Lock.different_orders_deadlock",
    "Bb.Lock.same_lock_twice_deadlock"
   ],
   "note": "Holds if all tasks take their locks in one order, in particular for the tasks of isar, which have one lock each. The locks of a task are taken in the order of its lockfiles flag, without sorting and without removing repetitions: two tasks with different orders, or one task that names a lock twice, wait for ever (proved)."
  },
  {
   "property": "C75",
   "status": "proved",
   "theorems": [
    "Bb.Rq.circular_found"
   ],
   "note": "Self references are removed before and not counted, as in the code."
  },
  {
   "property": "C76",
   "status": "proved",
   "theorems": [
    "Bb.Rq.needed_exactly",
    "Bb.Rq.runonly_exactly",
    "Bb.Rq.prune_ok"
   ],
   "note": "--runall is not modelled. The dependencies of the tasks are an argument."
  },
  {
   "property": "C77",
   "status": "proved",
   "theorems": [
    "Bb.Rq.weight_exact",
    "Bb.Rq.dependency_heavier",
    "Bb.Rq.speed_perm",
    "Bb.Rq.speed_sorted",
    "Bb.Rq.speed_dependencies_first",
    "Bb.Rq.completion_perm",
    "Bb.Rq.completion_sorted",
    "Bb.Rq.mergedNames_exact"
   ],
   "note": ""
  },
  {
   "property": "C78",
   "status": "proved",
   "theorems": [
    "Bb.Rq.scene_defined",
    "Bb.Rq.cov_exact",
    "Bb.Rq.revdeps_exact",
    "Bb.Rq.scene_deps_exact",
    "Bb.Rq.unskippable_exact"
   ],
   "note": "Without the hard dependencies (sq_harddeps), which are arguments of the model."
  },
  {
   "property": "C79",
   "status": "proved",
   "theorems": [
    "Bb.Rq.start_after_dependencies",
    "Bb.Rq.start_once",
    "Bb.Rq.restored_never_runs"
   ],
   "note": "Hash changes during the build are not modelled (OEBasicHash never sends them). A setscene task that waits for another with the same hash is assumed to have no hard dependencies."
  },
  {
   "property": "C80",
   "status": "partial",
   "theorems": [
    "Bb.Rq.threads_respected_partial",
    "Bb.Rq.names_respected_partial",
    "Bb.Rq.threads_exceeded_with_enforce",
    "Bb.Rq.refused_for_ever"
   ],
   "note": "Holds without BB_SETSCENE_ENFORCE. With it, task_fail lowers the count of active tasks for a task that never was active, so with -k more tasks than BB_NUMBER_THREADS are started, and the refused task fails again in every step (both proved)."
  },
  {
   "property": "C81",
   "status": "proved",
   "theorems": [
    "Bb.Rq.stamps_exclusive"
   ],
   "note": "For the normal runs of tasks. Setscene tasks are recorded under another stamp name."
  },
  {
   "property": "C82",
   "status": "proved",
   "theorems": [
    "Bb.Rq.success_all_finished",
    "Bb.Rq.success_targets_produced"
   ],
   "note": "For a build with at least one task, without --setscene-only."
  },
  {
   "property": "C83",
   "status": "partial",
   "theorems": [
    "Bb.Rq.build_ends_partial",
    "Bb.Rq.fails_only_if_task_failed_partial",
    "Bb.Rq.setscene_only_without_setscene_fails"
   ],
   "note": "Holds without BB_SETSCENE_ENFORCE, and if --setscene-only is not given for a build without setscene tasks: such a build fails although nothing failed (proved)."
  },
  {
   "property": "C84",
   "status": "proved",
   "theorems": [
    "Isar.Features.skipped_iff",
    "Isar.Features.reason_exact",
    "Isar.Features.warned_iff"
   ],
   "note": ""
  },
  {
   "property": "C85",
   "status": "proved",
   "theorems": [
    "Isar.Progress.pieces_irrelevant",
    "Isar.Progress.log_verbatim"
   ],
   "note": ""
  },
  {
   "property": "C86",
   "status": "partial",
   "theorems": [
    "Isar.Progress.reports_exact",
    "Isar.Progress.reports_without_announcement",
    "Isar.Progress.reports_never_back",
    "Isar.Progress.reports_bounded_partial",
    "Isar.Progress.initrd_never_fails",
    "Isar.Progress.bar_never_back_partial",
    "Isar.Progress.nothing_to_install_crashes",
    "Isar.Progress.more_than_all",
    "Isar.Progress.bar_goes_back",
    "Isar.Progress.weights_zero_fails"
   ],
   "note": "Floating point numbers are exact rationals. If more lines than announced packages are counted, the reports exceed 100 % and the bar goes back at the next stage; if apt announces 0 packages and a counted line follows, the task fails with a division by zero (all proved)."
  },
  {
   "property": "C87",
   "status": "partial",
   "theorems": [
    "Isar.Progress.kept_lines_partial",
    "Isar.Progress.unfinished_line_lost",
    "Isar.Progress.pieces_matter"
   ],
   "note": "For output without carriage returns, and only for complete lines: the last line is lost if it has no line feed, and with carriage returns the log depends on how the output is cut (proved). Colour codes are not modelled."
  },
  {
   "property": "C88",
   "status": "partial",
   "theorems": [
    "Bb.Fetch.fetched_right_partial",
    "Bb.Fetch.fetched_one_right_partial",
    "Bb.Fetch.error_swallowed",
    "Bb.Fetch.disk_error_swallowed",
    "Bb.Fetch.same_name",
    "Bb.Fetch.local_sum_ignored",
    "Bb.Fetch.old_file_taken",
    "Bb.Fetch.bracket_unchecked"
   ],
   "note": "For remote URLs fetched with wget, files written by others with a time that is not in the past, names without '[', and a fetch in which the disk does not fail and wget does not report success without a file. Fetch.download swallows an IOError that is not ESTALE, so that such a fetch returns normally without a file (proved). Two URLs of one recipe with the same file name, a file put in place with an old time, and names with '[' also break it (all proved). The checksum of a file:// URL is never looked at (proved)."
  },
  {
   "property": "C89",
   "status": "partial",
   "theorems": [
    "Bb.Fetch.strict_fails_partial",
    "Bb.Fetch.strict_swallowed"
   ],
   "note": "If the disk does not fail in the fetch: an IOError is swallowed and the fetch succeeds without a file (proved)."
  },
  {
   "property": "C90",
   "status": "proved",
   "theorems": [
    "Bb.Fetch.files_whole",
    "Bb.Fetch.right_download_kept"
   ],
   "note": "Files of mirrors on the disk count as files that were there before. The second part is for one URL. wget -c is not modelled: what wget has received is its answer."
  },
  {
   "property": "C91",
   "status": "proved",
   "theorems": [
    "Bb.Fetch.requests_allowed",
    "Bb.Fetch.offline_silent"
   ],
   "note": "For http and file URLs. The decision of trusted_network is a parameter here."
  },
  {
   "property": "C92",
   "status": "proved",
   "theorems": [
    "Bb.Fetch.served_works",
    "Bb.Fetch.second_mirror_unused",
    "Bb.Fetch.offline_order",
    "Bb.Fetch.mirror_emptied"
   ],
   "note": "If wget does not report success without a file. Not so for the mirrors that come after the server: if the first has a wrong file, the second is not tried (proved). Without network the order of premirrors matters, and a wrong file in a mirror on the disk is moved away in the mirror itself (both proved)."
  },
  {
   "property": "C93",
   "status": "partial",
   "theorems": [
    "Bb.Url.decode_encode",
    "Bb.Url.encode_decode_partial",
    "Bb.Url.at_in_host",
    "Bb.Url.colon_user"
   ],
   "note": "Characters outside ASCII in paths are not modelled. The second part does not hold for hosts with '@' (proved), and decodeurl fails with an UnboundLocalError for a user that begins with a colon (proved)."
  },
  {
   "property": "C94",
   "status": "partial",
   "theorems": [
    "Bb.Url.trusted_exact",
    "Bb.Url.trusted_open",
    "Bb.Url.own_list",
    "Bb.Url.contacted_allowed_partial",
    "Bb.Url.host_confused"
   ],
   "note": "The decision is exact for the host that decodeurl finds. That is the host that a client contacts only for URLs without '?', '#' and ';' before the first '/', with no '@' right after '://', and with no address in brackets: http://evil.org?@good.org/x is trusted because of good.org although wget contacts evil.org (proved)."
  },
  {
   "property": "C95",
   "status": "proved",
   "theorems": [
    "Bb.Url.mirrors_exact",
    "Bb.Url.mirror_uris_sound",
    "Bb.Url.mirror_uris_complete",
    "Bb.Url.addUri_fuel"
   ],
   "note": "The replacement of a URL by a line (uri_replace) is a parameter. One tarball per URL."
  },
  {
   "property": "C96",
   "status": "proved",
   "theorems": [
    "Bb.Url.srcrev_most_specific",
    "Bb.Url.srcrev_missing",
    "Bb.Url.srcrev_never_chooses"
   ],
   "note": "The first for sources with a name and a recipe with a name."
  },
  {
   "property": "C97",
   "status": "partial",
   "theorems": [
    "Bb.Sig.basehash_exact",
    "Bb.Sig.basehash_frame",
    "Bb.Sig.unrelated_change",
    "Bb.Sig.one_change_seen",
    "Bb.Sig.basehash_sensitive_partial",
    "Bb.Sig.moved_text"
   ],
   "note": "What the parsers find in texts is an input. Names and values are put together without separators, so that moving text from one variable to another need not change the base hash (proved); the sensitivity is for changes in which no value gets shorter, or only one value changes."
  },
  {
   "property": "C98",
   "status": "proved",
   "theorems": [
    "Bb.Sig.recorded_basehash_right"
   ],
   "note": "Reading and writing the JSON file is not modelled."
  },
  {
   "property": "C99",
   "status": "partial",
   "theorems": [
    "Bb.Sig.references_are_deps_partial",
    "Bb.Sig.ignored_never_needed",
    "Bb.Sig.excluded_no_dep",
    "Bb.Sig.second_remove_unseen"
   ],
   "note": "For at most one removal that calls no functions: handle_remove binds its set anew in the first round, so that what a second removal refers to is lost and a change of it does not change the hash (proved)."
  },
  {
   "property": "C100",
   "status": "partial",
   "theorems": [
    "Bb.Sig.flags_are_deps_partial",
    "Bb.Sig.named_flags_excluded",
    "Bb.Sig.dirs_unseen"
   ],
   "note": "The name is searched in the text of the list, not in its words: with Isar's list the flags dirs and export do not count either (proved)."
  },
  {
   "property": "C101",
   "status": "proved",
   "theorems": [
    "Bb.Sig.tests_exact"
   ],
   "note": "The tests that a text has are what the parsers find."
  },
  {
   "property": "C102",
   "status": "proved",
   "theorems": [
    "Bb.TaskHash.every_task_hashed",
    "Bb.TaskHash.order_irrelevant"
   ],
   "note": "Base hashes, checksums of files, taints and dependencies are inputs. For the handler OEBasicHash, without a hash equivalence server. Which tasks are locked is an input here; that it can depend on the order is C107."
  },
  {
   "property": "C103",
   "status": "proved",
   "theorems": [
    "Bb.TaskHash.hash_frame",
    "Bb.TaskHash.locked_isolates"
   ],
   "note": "Locks to an empty hash are not modelled."
  },
  {
   "property": "C104",
   "status": "proved",
   "theorems": [
    "Bb.TaskHash.change_seen",
    "Bb.TaskHash.file_changes",
    "Bb.TaskHash.nostamp_changes",
    "Bb.TaskHash.forced_changes"
   ],
   "note": "If the graph stays the same, all hashes have one length, and no two different data hashed for the task in the two builds collide. A change of the files is for the same names and checksums of one length; a taint file that is written counts if the task is not nostamp."
  },
  {
   "property": "C105",
   "status": "partial",
   "theorems": [
    "Bb.TaskHash.recorded_taskhash_right_partial",
    "Bb.TaskHash.same_name_mismatch"
   ],
   "note": "If no two dependencies have the same multiconfig, recipe and task name, and the taint file is unchanged and does not contain 'nostamp:'. The record keeps hashes by recipe and task name, so that two versions of one recipe as dependencies give a mismatch (proved of the model; a build that has both is rare)."
  },
  {
   "property": "C106",
   "status": "proved",
   "theorems": [
    "Bb.TaskHash.own_tasks_count",
    "Bb.TaskHash.dropped_for_reason"
   ],
   "note": "What the classes of a recipe are is an input."
  },
  {
   "property": "C107",
   "status": "partial",
   "theorems": [
    "Bb.TaskHash.locked_partial",
    "Bb.TaskHash.part_unlocks",
    "Bb.TaskHash.order_unlocks"
   ],
   "note": "Only for builds without unlocked recipes. The name of an unlocked recipe is searched in the names of dependencies, so that unlocking x unlocks what depends on lib32x; and a task that is visited before another task unlocks its recipe stays locked, so that the order of a set decides (both proved)."
  },
  {
   "property": "C108",
   "status": "proved",
   "theorems": [
    "Meta.SsName.siginfo_beside",
    "Meta.SsName.name_fits",
    "Meta.SsName.names_differ",
    "Meta.SsName.name_exists"
   ],
   "note": "Lengths are counted in characters. Hashes have one length and no colon; specifications end with a colon, as in the configuration."
  },
  {
   "property": "C109",
   "status": "partial",
   "theorems": [
    "Meta.SsName.looked_for_written_partial",
    "Meta.SsName.unpack_not_found"
   ],
   "note": "For all tasks but fetch, unpack, patch and preconfigure: these are looked for under the name without the architecture, under which only populate_lic writes (proved). Isar has no archives of these tasks."
  },
  {
   "property": "C110",
   "status": "proved",
   "theorems": [
    "Meta.SsName.skipped_exact"
   ],
   "note": "For tasks without special rules, which are all the tasks of Isar that have archives. The rules for do_package, do_packagedata and do_populate_sysroot are modelled but not covered by the theorem."
  },
  {
   "property": "C111",
   "status": "proved",
   "theorems": [
    "Meta.SsPkg.always_whole"
   ],
   "note": "ln -f replaces the name in one step, as GNU ln does since 8.30; mktemp gives names of their own; archives of mirrors are whole themselves."
  },
  {
   "property": "C112",
   "status": "partial",
   "theorems": [
    "Meta.SsPkg.finished_available_partial",
    "Meta.SsPkg.failure_hidden",
    "Meta.SsPkg.leftover"
   ],
   "note": "If ln does not fail and nothing is removed. The command is followed by || true, so that where hard links fail the task succeeds without an archive (proved). A task that is killed leaves its temporary file for ever (proved)."
  },
  {
   "property": "C113",
   "status": "partial",
   "theorems": [
    "Meta.SsInst.overlap_stops",
    "Meta.SsInst.others_kept_partial",
    "Meta.SsInst.dirs_kept",
    "Meta.SsInst.installed",
    "Meta.SsInst.dir_replaces_file",
    "Meta.SsInst.link_replaced",
    "Meta.SsInst.prefix_allowed",
    "Meta.SsInst.race_overwrites",
    "Meta.SsInst.replaced_twice"
   ],
   "note": "One task at a time. Not for files where the task has a directory, and not for links: these are replaced (proved). Names in SSTATE_ALLOW_OVERLAP_FILES allow everything that begins with them, and two tasks that check before either copies overwrite each other, because Isar's tasks have no lock (both proved). For trees in whose names the input directory does not occur again; otherwise a file is overwritten unseen (proved)."
  },
  {
   "property": "C114",
   "status": "proved",
   "theorems": [
    "Meta.SsInst.interrupted_cleaned",
    "Meta.SsInst.files_removed",
    "Meta.SsInst.dirs_removed",
    "Meta.SsInst.space_left"
   ],
   "note": "For names without line breaks and without white space at the end; a file whose name ends in a space stays (proved). Directories are removed if the manifest is complete and there is no race (the flag of sstate_clean_manifest)."
  },
  {
   "property": "C115",
   "status": "partial",
   "theorems": [
    "Meta.SsInst.cleaned_keeps_others",
    "Meta.SsInst.interrupted_keeps_partial",
    "Meta.SsInst.truncated_removes"
   ],
   "note": "With a complete manifest for all other paths. If the machine stops while the manifest is written, only for paths with which no path of the task begins: a line that is cut off can name the file of another recipe, which is then removed (proved)."
  },
  {
   "property": "C116",
   "status": "partial",
   "theorems": [
    "Meta.SsPrune.done_present",
    "Meta.SsPrune.isar_separate",
    "Meta.SsPrune.initramfs_lost",
    "Meta.SsPrune.dotted_pruned",
    "Meta.SsPrune.killed_pruning",
    "Meta.SsPrune.old_task_lost",
    "Meta.SsPrune.stale_line"
   ],
   "note": "For histories in which each build parses the recipes of its tasks, with one version of each, and in which parsing is not interrupted; for recipes other than initial RAM disks whose names have no dots, with one task that has a manifest. Each of these is needed: machines share the manifest of an initial RAM disk, and building it for one takes it from the other (proved); the same happens with names with dots, if pruning is killed, with two tasks, and with two versions in one build (all proved)."
  },
  {
   "property": "C117",
   "status": "partial",
   "theorems": [
    "Meta.SsPrune.pruned_exact",
    "Meta.SsPrune.left_reachable",
    "Meta.SsPrune.isar_separate",
    "Meta.SsPrune.image_kept",
    "Meta.SsPrune.preserve_ignored"
   ],
   "note": "Under the conditions of C116. Not for images: their manifests are in a directory that the handler does not read, and are never removed (proved). Stamps in preserve-stamps are removed all the same (proved)."
  },
  {
   "property": "C118",
   "status": "proved",
   "theorems": [
    "Bb.Expand.expand_means",
    "Bb.Expand.getVar_means",
    "Bb.Expand.sample_means"
   ],
   "note": "For histories without reads with noweakdefault (see C121), for enough stack (the interpreter's limit). Without Python expressions and overrides, which are modelled elsewhere."
  },
  {
   "property": "C119",
   "status": "proved",
   "theorems": [
    "Bb.Expand.nothing_left"
   ],
   "note": "For every text, nested properly or not. For histories without reads with noweakdefault (see C121)."
  },
  {
   "property": "C120",
   "status": "partial",
   "theorems": [
    "Bb.Expand.circle_fails",
    "Bb.Expand.expansion_endless",
    "Bb.Expand.expand_means"
   ],
   "note": "Circles are errors, and texts with a meaning are expanded in finitely many passes. It is false for all texts: with one variable whose value has parts of references, a text is expanded for ever (expansion_endless)."
  },
  {
   "property": "C121",
   "status": "partial",
   "theorems": [
    "Bb.Expand.reads_fresh_partial",
    "Bb.Expand.run_sound",
    "Bb.Expand.set_text",
    "Bb.Expand.weak_text",
    "Bb.Expand.del_text",
    "Bb.Expand.noweak_same",
    "Bb.Expand.default_lost"
   ],
   "note": "For histories without reads with noweakdefault: such a read of a variable that has only a weak default puts None in the cache, and the variable has no value until something is written (default_lost). Without overrides."
  },
  {
   "property": "C122",
   "status": "proved",
   "theorems": [
    "Meta.DebSrc.filter_exact",
    "Meta.DebSrc.describes_sample",
    "Meta.DebSrc.size_first"
   ],
   "note": "For descriptions with Package first and Size after Version and Source, as apt-cache and apt-ftparchive print them; if Size came first, the source would be lost (size_first)."
  },
  {
   "property": "C123",
   "status": "partial",
   "theorems": [
    "Meta.DebSrc.sources_there",
    "Meta.DebSrc.download_fails",
    "Meta.DebSrc.mem_pairs",
    "Meta.DebSrc.sources_whole_partial",
    "Meta.DebSrc.stopped_incomplete",
    "Meta.DebSrc.unknown_silent"
   ],
   "note": "Complete only if apt writes the .dsc file after the others; otherwise a download that is stopped leaves an incomplete source that is never completed (stopped_incomplete). Sources that apt does not know are left out without a warning (unknown_silent)."
  },
  {
   "property": "C124",
   "status": "proved",
   "theorems": [
    "Meta.DebCache.cache_kept",
    "Meta.DebCache.downloaded_once",
    "Meta.DebCache.cache_origin",
    "Meta.DebCache.import_exact",
    "Meta.DebCache.import_others",
    "Meta.DebCache.import_replaces",
    "Meta.DebCache.isDeb_iff",
    "Meta.DebCache.others_untouched"
   ],
   "note": "With what the lock encloses as one step."
  },
  {
   "property": "C125",
   "status": "partial",
   "theorems": [
    "Meta.DebCache.local_left_out_partial",
    "Meta.DebCache.name_inside",
    "Meta.DebCache.local_exported",
    "Meta.DebCache.old_local_package"
   ],
   "note": "Proved for the commands as they are meant. It is false of the code: the variable with the list of local packages is not exported to the quoted script, so that every local package is exported (local_exported, old_local_package). Also, a name that occurs in the name of another local package hides it (name_inside)."
  },
  {
   "property": "C126",
   "status": "partial",
   "theorems": [
    "Meta.DebRepo.deployed",
    "Meta.DebRepo.others_kept",
    "Meta.DebRepo.deploy_placed",
    "Meta.DebRepo.stopped_then_deployed",
    "Meta.DebRepo.cleaned",
    "Meta.DebRepo.dropped_stays",
    "Meta.DebRepo.leftover_wins",
    "Meta.DebRepo.all_stays"
   ],
   "note": "For recipes whose work directory has one file for each package, and if there is no newer version for another architecture. Otherwise the old package stays (leftover_wins, all_stays). Packages that a recipe does not build any more stay as well (dropped_stays). What reprepro does is an assumption."
  },
  {
   "property": "C127",
   "status": "partial",
   "theorems": [
    "Meta.DebRepo.cached_partial",
    "Meta.DebRepo.only_newest"
   ],
   "note": "The repository keeps one version for each architecture: an older version that a build has used is not in it (only_newest). Without source packages. What reprepro does is an assumption."
  },
  {
   "property": "C128",
   "status": "partial",
   "theorems": [
    "Bb.Prov.newest_chosen",
    "Bb.Prov.preferred_chosen",
    "Bb.Prov.required_chosen",
    "Bb.Prov.version_variable",
    "Bb.Prov.wildcard_lowest",
    "Bb.Prov.revision_not_found"
   ],
   "note": "All but the last sentence: of several files of one layer that fit a version with % at its end, the one with the lowest DEFAULT_PREFERENCE is used (wildcard_lowest). A version with a revision is never found (revision_not_found)."
  },
  {
   "property": "C129",
   "status": "partial",
   "theorems": [
    "Bb.Prov.one_of_each",
    "Bb.Prov.preferred_first",
    "Bb.Prov.same_name_first",
    "Bb.Prov.order_free",
    "Bb.Prov.required_hides_others"
   ],
   "note": "If all required versions are found. Otherwise recipes that provide the same are not offered either (required_hides_others)."
  },
  {
   "property": "C130",
   "status": "partial",
   "theorems": [
    "Bb.Prov.rprovider_first",
    "Bb.Prov.runtime_same",
    "Bb.Prov.order_free",
    "Bb.Prov.conflict_missed"
   ],
   "note": "It is false that a conflict is always reported: the loop removes elements from the list over which it goes and skips some (conflict_missed)."
  },
  {
   "property": "C131",
   "status": "partial",
   "theorems": [
    "Bb.Resolve.needs_met",
    "Bb.Resolve.requested_met",
    "Bb.Resolve.all_met",
    "Bb.Resolve.task_dependency_lost",
    "Bb.Resolve.error_swallowed"
   ],
   "note": "With -k for DEPENDS and what packages need; without -k if every name has at most one recipe, also for the dependencies of tasks. Otherwise the dependency of a task on something that has failed before is lost (task_dependency_lost), and the error about what was asked for may be lost (error_swallowed)."
  },
  {
   "property": "C132",
   "status": "partial",
   "theorems": [
    "Bb.Resolve.dropped_has_cause",
    "Bb.Resolve.hopeless_dropped",
    "Bb.Resolve.dropped_iff",
    "Bb.Resolve.alternative_lost"
   ],
   "note": "Exact with at most one recipe for each name and no dependencies of single tasks. In general a second recipe for a name may not be used (alternative_lost), so that only one direction holds (hopeless_dropped), and the cause is a chain through some of the alternatives (dropped_has_cause)."
  },
  {
   "property": "C133",
   "status": "proved",
   "theorems": [
    "Bb.Resolve.resolving_ends"
   ],
   "note": "With -k. Without it, an exception may end the loop before."
  },
  {
   "property": "C134",
   "status": "partial",
   "theorems": [
    "Meta.Schroot.own_steps",
    "Meta.Schroot.names_differ",
    "Meta.Schroot.mounts_exact_partial",
    "Meta.Schroot.build_mounts_exact_partial",
    "Meta.Schroot.conf_own",
    "Meta.Schroot.mounts_removed",
    "Meta.Schroot.leftover_mounts"
   ],
   "note": "If earlier runs with the same name have cleaned up. After a run that was stopped, a process with the same number finds its directory, and cp -rf leaves the old fstab in it (leftover_mounts)."
  },
  {
   "property": "C135",
   "status": "partial",
   "theorems": [
    "Meta.Schroot.build_clean_partial",
    "Meta.Schroot.imager_clean_partial",
    "Meta.Schroot.fetch_clean_partial",
    "Meta.Schroot.apt_clean_partial",
    "Meta.Schroot.session_fails_leaves"
   ],
   "note": "For errors after the cleanup has been arranged. If the session cannot be started, or not be ended, the configuration is left (session_fails_leaves)."
  },
  {
   "property": "C136",
   "status": "partial",
   "theorems": [
    "Meta.SbuildConf.exported_reach_partial",
    "Meta.SbuildConf.new_variable_kept",
    "Meta.SbuildConf.dots_byName",
    "Meta.SbuildConf.shorter_value_lost",
    "Meta.SbuildConf.quote_breaks",
    "Meta.SbuildConf.caret_lost"
   ],
   "note": "For values without quotes, backslashes and line breaks, that do not begin with ^. Otherwise the file is broken or the value lost (quote_breaks, caret_lost). A variable that also is in the reference environment is lost if its new value is the beginning of the old one (shorter_value_lost)."
  },
  {
   "property": "C137",
   "status": "proved",
   "theorems": [
    "Meta.LocalApt.snapshot",
    "Meta.LocalApt.index_deployed",
    "Meta.LocalApt.leftovers_stay"
   ],
   "note": "Assumed of reprepro: it makes new files and does not write into those that are there. Files of packages that have been removed stay in the pool of the copy but not in its index (leftovers_stay), since the pattern after rm is quoted."
  },
  {
   "property": "C138",
   "status": "proved",
   "theorems": [
    "Bb.Conf.config_sound",
    "Bb.Conf.config_accepts",
    "Bb.Conf.config_exact",
    "Bb.Conf.one_meaning",
    "Bb.Conf.feeder_spec",
    "Bb.Conf.feeder_other",
    "Bb.Conf.short_flag_stays"
   ],
   "note": "Letters are those of ASCII. The statement unset for a flag needs a flag with two characters or more (short_flag_stays)."
  },
  {
   "property": "C139",
   "status": "partial",
   "theorems": [
    "Bb.Conf.file_statements",
    "Bb.Conf.file_prefix",
    "Bb.Conf.comment_continued",
    "Bb.Conf.comment_in_value",
    "Bb.Conf.comment_unfinished",
    "Bb.Conf.backslash_crashes",
    "Bb.Conf.end_continued"
   ],
   "note": "A file may end within a continued line (end_continued). A comment between continued lines is not rejected in .conf files: it becomes part of the value (comment_in_value). A lone backslash before a blank line is an error without a place (backslash_crashes)."
  },
  {
   "property": "C140",
   "status": "partial",
   "theorems": [
    "Bb.BB.file_exact",
    "Bb.BB.file_read",
    "Bb.BB.keyword_lines",
    "Bb.BB.assignment_line",
    "Bb.BB.unclosed",
    "Bb.BB.unfinished",
    "Bb.BB.comment_inside",
    "Bb.BB.empty_unclosed",
    "Bb.BB.inherit_variable"
   ],
   "note": "A function that is not closed and has no line is not seen while reading (empty_unclosed), but after the evaluation, if nothing was included in between. A variable that is called like a statement, such as inherit, can only be set without a space (inherit_variable)."
  },
  {
   "property": "C141",
   "status": "partial",
   "theorems": [
    "Bb.BB.independent",
    "Bb.BB.closed",
    "Bb.BB.python_leaks"
   ],
   "note": "Unless a file could not be read to its end within a definition in Python: then the next file has that definition (python_leaks)."
  },
  {
   "property": "C142",
   "status": "partial",
   "theorems": [
    "Bb.BB.addtask_line",
    "Bb.BB.names_are_cut",
    "Bb.BB.lists_are_lost"
   ],
   "note": "For names that do not have the words before and after in them; otherwise the names are cut (names_are_cut). Of several lists of the same kind, only the last is taken (lists_are_lost), with a warning."
  },
  {
   "property": "C143",
   "status": "partial",
   "theorems": [
    "Bb.Tasks.task_exact",
    "Bb.Tasks.order_exact_partial",
    "Bb.Tasks.order_kept",
    "Bb.Tasks.tidy_of_adds",
    "Bb.Tasks.deleted_comes_back"
   ],
   "note": "If the tasks that were to run after a deleted task existed when it was deleted. Otherwise the order that was taken back is still there when both are added again (deleted_comes_back)."
  },
  {
   "property": "C144",
   "status": "partial",
   "theorems": [
    "Bb.Eval.class_once",
    "Bb.Eval.inherit_line",
    "Bb.Eval.class_missing",
    "Bb.Eval.evaluation_ends",
    "Bb.Eval.circle_deep",
    "Bb.Eval.unclosed_seen",
    "Bb.Eval.unclosed_lost"
   ],
   "note": "Files that include each other are read until Python gives up (circle_deep); only a file that includes itself is skipped. A function that is not closed and has no line is lost if its file includes another one (unclosed_lost)."
  },
  {
   "property": "C145",
   "status": "partial",
   "theorems": [
    "Bb.Virt.roundtrip",
    "Bb.Virt.roundtrip_path",
    "Bb.Virt.names_differ",
    "Bb.Virt.variant_name",
    "Bb.Virt.colon_lost"
   ],
   "note": "For variants, the path of the file must have no colon (colon_lost)."
  },
  {
   "property": "C146",
   "status": "proved",
   "theorems": [
    "Bb.Save.read_back",
    "Bb.Save.written_once",
    "Bb.Save.left_out"
   ],
   "note": "The messages of one process come in their order; one that is left out makes the next ones unreadable (left_out)."
  },
  {
   "property": "C147",
   "status": "partial",
   "theorems": [
    "Bb.Cache.nothing_old",
    "Bb.Cache.nothing_new",
    "Bb.Cache.valid_iff",
    "Bb.Cache.checksums_exact",
    "Bb.Cache.asked_again",
    "Bb.Cache.old_removed",
    "Bb.Cache.same_second",
    "Bb.Cache.variant_files"
   ],
   "note": "If the times of files tell of every change; they are whole seconds (same_second). Of the files whose checksums count, only those of the recipe itself are checked, not those of its variants (variant_files)."
  },
  {
   "property": "C148",
   "status": "proved",
   "theorems": [
    "Meta.Patch.applied_iff",
    "Meta.Patch.wanted_iff",
    "Meta.Patch.patchName_iff",
    "Meta.Patch.order_kept",
    "Meta.Patch.no_date"
   ],
   "note": "A limit for the date without a date of the sources is an exception (no_date)."
  },
  {
   "property": "C149",
   "status": "partial",
   "theorems": [
    "Meta.Patch.patched_exact",
    "Meta.Patch.tree_order",
    "Meta.Patch.old_stay",
    "Meta.Patch.terminal_left"
   ],
   "note": "If there are patches and no terminal is opened. Without any patch, those of an earlier run stay (old_stay); a patch that does not apply is forgotten if a terminal is opened for it and left (terminal_left)."
  },
  {
   "property": "C150",
   "status": "partial",
   "theorems": [
    "Meta.Patch.repeat_ok_partial",
    "Meta.Patch.ended",
    "Meta.Patch.left_in_series",
    "Meta.Patch.still_tried",
    "Meta.Patch.old_applied"
   ],
   "note": "If a patch was applied when it ended, or none was in the series. Otherwise those that are in the series are applied first, and as many of the new ones are not (left_in_series, still_tried, old_applied)."
  },
  {
   "property": "C151",
   "status": "partial",
   "theorems": [
    "Bb.Event.called_exact_partial",
    "Bb.Event.none_missed",
    "Bb.Event.called_once",
    "Bb.Event.mask_stays",
    "Bb.Event.mask_reread",
    "Bb.Event.name_taken"
   ],
   "note": "If handlers with one name are always for the same events. Otherwise a handler is called for the events of an earlier one, too (mask_stays, mask_reread); the names in configurations may be the same for different handlers (name_taken)."
  },
  {
   "property": "C152",
   "status": "partial",
   "theorems": [
    "Bb.Names.told",
    "Bb.Names.told_variables",
    "Bb.Names.rejected_partial",
    "Bb.Names.accepted_later"
   ],
   "note": "The error comes only the first time that a process asks (accepted_later)."
  },
  {
   "property": "C153",
   "status": "proved",
   "theorems": [
    "Bb.Variant.variant_is",
    "Bb.Variant.plain_class",
    "Bb.Variant.class_argument",
    "Bb.Variant.one_same",
    "Bb.Variant.variants_once",
    "Bb.Variant.argument_lost"
   ],
   "note": "What finalizing and inheriting do to the variables are any functions of them. Of several arguments of a class, the first one counts (argument_lost)."
  },
  {
   "property": "C154",
   "status": "partial",
   "theorems": [
    "Bb.Pipe.delivered_partial",
    "Bb.Pipe.items_partial",
    "Bb.Pipe.items_all_partial",
    "Bb.Pipe.event_opening",
    "Bb.Pipe.event_closing",
    "Bb.Pipe.stopped_task",
    "Bb.Pipe.cooker_stuck",
    "Bb.Pipe.item_cut"
   ],
   "note": "If the text of the tags is not in the data and no task is stopped while it writes an event. An event with the text of a tag in it makes the worker fail (event_opening, event_closing); an item with the text of its closing tag in it is cut there although its length was sent (item_cut); when a task is stopped while it writes, a warning is printed to the pipe of the cooker, which then reads nothing any more (stopped_task)."
  },
  {
   "property": "C155",
   "status": "partial",
   "theorems": [
    "Meta.Changelog.first_right",
    "Meta.Changelog.again_right",
    "Meta.Changelog.stopped_right_partial",
    "Meta.Changelog.entry_taken",
    "Meta.Changelog.mark_stays",
    "Meta.Changelog.newer_sources"
   ],
   "note": "Without interruption it holds always (first_right, again_right). When it was stopped it holds if the sources have a changelog and the recipe does not bring one that begins with the version. Otherwise the entry that was written is taken for the changelog of the sources (entry_taken), or the mark in the version is not replaced (mark_stays). The changelog of newer sources in the same directory is not used (newer_sources)."
  },
  {
   "property": "C156",
   "status": "proved",
   "theorems": [
    "Meta.Changelog.given_items",
    "Meta.Changelog.every_line",
    "Meta.Changelog.beautify_items"
   ],
   "note": ""
  },
  {
   "property": "C157",
   "status": "proved",
   "theorems": [
    "Meta.Events.multiple_iff",
    "Meta.Events.multiple_only",
    "Meta.Events.failed_iff",
    "Meta.Events.silent_counts"
   ],
   "note": "The failure of a task with quieterrors is not counted as one (silent_counts)."
  },
  {
   "property": "C158",
   "status": "partial",
   "theorems": [
    "Meta.Events.unmounted_partial",
    "Meta.Events.left_mounted",
    "Meta.Events.other_mc",
    "Meta.Events.elsewhere_too",
    "Meta.Events.space_stays"
   ],
   "note": "For names without white space and backslashes, when the work directory is named only in places of mounts. Something that is mounted elsewhere is unmounted if its device or its options name the work directory (elsewhere_too); a place with a space in its name stays mounted (space_stays)."
  },
  {
   "property": "C159",
   "status": "partial",
   "theorems": [
    "Meta.Container.imageFile_iff",
    "Meta.Container.imageFile_distinct_partial",
    "Meta.Container.unpacked",
    "Meta.Container.localFile_partial",
    "Meta.Container.same_file",
    "Meta.Container.same_download"
   ],
   "note": "For images from one host with no dots in their paths, and for tags without an underscore. Names that differ only in dots for slashes have the same file (same_file), and so have a_b with tag c and a with tag b_c in DL_DIR (same_download)."
  },
  {
   "property": "C160",
   "status": "proved",
   "theorems": [
    "Meta.Container.all_loaded",
    "Meta.Container.never_lost",
    "Meta.Container.nothing_to_do",
    "Meta.Container.from_recipe",
    "Meta.Container.rest_waits",
    "Meta.Container.clash_lost"
   ],
   "note": "If the files have what the list names, which is shown from SRC_URI for images from one host with no dots in their paths (from_recipe); else one is lost (clash_lost). An image that cannot be loaded keeps those after it from being loaded (rest_waits)."
  },
  {
   "property": "C161",
   "status": "partial",
   "theorems": [
    "Meta.RootfsFiles.added_partial",
    "Meta.RootfsFiles.added_twice",
    "Meta.RootfsFiles.empty_source",
    "Meta.RootfsFiles.later_not_added",
    "Meta.RootfsFiles.host_removed",
    "Meta.RootfsFiles.second_fails",
    "Meta.RootfsFiles.not_emptied"
   ],
   "note": "If all entries have a source that is there, have different destinations, and the host has no file with the name of a destination. Files after an entry without a source are not added (later_not_added); a file of the host with the name of the destination is removed (host_removed), or the function fails (second_fails); a file that is there is not emptied (not_emptied)."
  },
  {
   "property": "C162",
   "status": "proved",
   "theorems": [
    "Meta.RootfsFiles.gen_spec",
    "Meta.RootfsFiles.every_gen",
    "Meta.RootfsFiles.gen_same",
    "Meta.RootfsFiles.kept",
    "Meta.RootfsFiles.kept_only"
   ],
   "note": ""
  },
  {
   "property": "C163",
   "status": "partial",
   "theorems": [
    "Meta.Expand.disk_found_partial",
    "Meta.Expand.partition_found",
    "Meta.Expand.disk_p",
    "Meta.Expand.whole_disk"
   ],
   "note": "For disks whose names do not end with a p; /dev/sdp2 is on /dev/sd for the script (disk_p). A card without partitions is taken for a partition (whole_disk)."
  },
  {
   "property": "C164",
   "status": "partial",
   "theorems": [
    "Meta.Expand.table_partial",
    "Meta.Expand.table_same_partitions",
    "Meta.Expand.sample_usual",
    "Meta.Expand.partition_lost",
    "Meta.Expand.name_changed"
   ],
   "note": "If no name of a partition has last-lba or a text like a size in it; otherwise a partition is removed (partition_lost) or the last one is renamed and does not grow (name_changed)."
  },
  {
   "property": "C165",
   "status": "partial",
   "theorems": [
    "Meta.Expand.first_boot",
    "Meta.Expand.done_stays",
    "Meta.Expand.all_or_nothing_partial",
    "Meta.Expand.growfs_partial",
    "Meta.Expand.monotone",
    "Meta.Expand.sample_new",
    "Meta.Expand.never_grown",
    "Meta.Expand.mbr_lost"
   ],
   "note": "If boots are interrupted only before the table is written, or if systemd grows the file system, in which case partition and file system are grown in the end, whatever was interrupted. Otherwise the next boot finds a full disk and disables the service (never_grown); the first block of a disk with a GPT may be lost for good (mbr_lost)."
  },
  {
   "property": "C166",
   "status": "partial",
   "theorems": [
    "Meta.Installer.live_disk_partial",
    "Meta.Installer.attended_offered",
    "Meta.Installer.disk_sda",
    "Meta.Installer.disk_nvme",
    "Meta.Installer.live_disk_offered"
   ],
   "note": "If the root file system is on the disk, on a partition of it, or on something made directly of these. With LVM on an encrypted partition the disk is offered (live_disk_offered)."
  },
  {
   "property": "C167",
   "status": "partial",
   "theorems": [
    "Meta.Installer.overwrite_partial",
    "Meta.Installer.unattended_checked",
    "Meta.Installer.abort_overwrites"
   ],
   "note": "Any word on the kernel command line that begins with installer.target.overwrite counts as OVERWRITE, even =ABORT (abort_overwrites)."
  },
  {
   "property": "C168",
   "status": "partial",
   "theorems": [
    "Meta.Installer.boot_device_partial",
    "Meta.Installer.boot_device_written"
   ],
   "note": "If devices are only given on the kernel command line and the whole value is not the name of a device. If the boot device is given alone it is written to (boot_device_written)."
  },
  {
   "property": "C169",
   "status": "partial",
   "theorems": [
    "Meta.Installer.success_partial",
    "Meta.Installer.told_success",
    "Meta.Installer.cancel_status"
   ],
   "note": "If no other installer is running; if one is, a success is told whatever it does (told_success). The status is 0 also if the user says no (cancel_status)."
  },
  {
   "property": "C170",
   "status": "partial",
   "theorems": [
    "Meta.Installer.others_partial",
    "Meta.Installer.others_missing",
    "Meta.Installer.nvme_missing"
   ],
   "note": "If the system runs from a partition of a disk like sda, for disks whose names do not begin like that one. With the system on sda neither sdaa nor a card with a number of two digits is offered (others_missing), nor is any NVMe disk if the system is made of a partition of one (nvme_missing)."
  },
  {
   "property": "C171",
   "status": "partial",
   "theorems": [
    "Bb.Emit.script_partial",
    "Bb.Emit.quoted_alter",
    "Bb.Emit.backslash_lost",
    "Bb.Emit.quote_ends",
    "Bb.Emit.expanded",
    "Bb.Emit.not_ended",
    "Bb.Emit.dash"
   ],
   "note": "For values without backquotes, in which no backslash stands before a backslash, a quote, a dollar or the end, and names of letters, digits and underscores. Otherwise the value changes (backslash_lost), parts of it are run (quote_ends, expanded), or it takes in the next variable (not_ended); a variable with a dash is not exported (dash)."
  },
  {
   "property": "C172",
   "status": "proved",
   "theorems": [
    "Bb.Emit.functions",
    "Bb.Emit.functions_once"
   ],
   "note": "What a function calls is a parameter; the parser of shell code is not modelled."
  },
  {
   "property": "C173",
   "status": "partial",
   "theorems": [
    "Bb.TaskRun.all_ran",
    "Bb.TaskRun.zero_means",
    "Bb.TaskRun.order",
    "Bb.TaskRun.success_partial",
    "Bb.TaskRun.failure_partial",
    "Bb.TaskRun.success_told",
    "Bb.TaskRun.failed_with_file",
    "Bb.TaskRun.not_told"
   ],
   "note": "What a success and a file mean holds always. That exactly one of success and failure is told, as the process ends, holds if handlers, files and fakeroot do not fail; otherwise a task may be told to have succeeded and end with 1 (success_told), have its file and end with 1 (failed_with_file), or fail without a word (not_told)."
  },
  {
   "property": "C174",
   "status": "partial",
   "theorems": [
    "Bb.Stamp.one_stamp",
    "Bb.Stamp.scene_removed",
    "Bb.Stamp.other_task",
    "Bb.Stamp.other_dir",
    "Bb.Stamp.extra_stays",
    "Bb.Stamp.out_of_date",
    "Bb.Stamp.counts",
    "Bb.Stamp.same_work_partial",
    "Bb.Stamp.broken_counts",
    "Bb.Stamp.sigdata_path",
    "Bb.Stamp.task_path",
    "Bb.Stamp.scene_keeps"
   ],
   "note": "If no run is broken off, and names are as usual. After a run that was broken off the task counts as run for the hash of the run before (broken_counts), so that going back to it does not run it again. With sigdata in the path no file is removed (sigdata_path); with the name of the task in the path files of the setscene task stay (task_path); a setscene task leaves the file of the task (scene_keeps)."
  },
  {
   "property": "C175",
   "status": "partial",
   "theorems": [
    "Bb.TaskRun.environment",
    "Bb.TaskRun.worker_restored_partial",
    "Bb.TaskRun.setting_cut",
    "Bb.TaskRun.worker_not_restored",
    "Bb.TaskRun.setting_none"
   ],
   "note": "The environment of a task: proved. That of the worker is restored if no name is given twice (worker_not_restored); a setting without = kills the worker (setting_none)."
  },
  {
   "property": "C176",
   "status": "partial",
   "theorems": [
    "Bb.TaskRun.pieces",
    "Bb.TaskRun.pieces_do_not_matter",
    "Bb.TaskRun.texts",
    "Bb.TaskRun.debug_text",
    "Bb.TaskRun.debug_lost"
   ],
   "note": "Unless a message for debugging has no text: it is an exception, and messages after it are lost (debug_lost)."
  },
  {
   "property": "C177",
   "status": "partial",
   "theorems": [
    "Bb.Pr.never_less_partial",
    "Bb.Pr.same_again",
    "Bb.Pr.different_partial",
    "Bb.Pr.unchanged",
    "Bb.Pr.moved",
    "Bb.Pr.imported_same",
    "Bb.Pr.read_only_same"
   ],
   "note": "Revisions never go back through any requests, imports and orderly restarts. Different contents have different ones if nothing is imported: two imports may have the same value (imported_same). A server that is read only gives the same revision to all new contents (read_only_same). Crashes: see C179."
  },
  {
   "property": "C178",
   "status": "partial",
   "theorems": [
    "Bb.Pr.same_contents_partial",
    "Bb.Pr.new_contents"
   ],
   "note": "Proved for servers that are not read only, with orderly restarts. Crashes: see C179."
  },
  {
   "property": "C179",
   "status": "partial",
   "theorems": [
    "Bb.Pr.stop_keeps_partial",
    "Bb.Pr.forgotten",
    "Bb.Pr.nothing_in_file"
   ],
   "note": "False: what is changed is written only at an exception, a stop or a signal (the call that should write it is in the else of a try that returns), so that a killed server forgets all revisions and gives them to other contents (forgotten, nothing_in_file). What survives an orderly stop: proved."
  },
  {
   "property": "C180",
   "status": "partial",
   "theorems": [
    "Bb.Hash.stays",
    "Bb.Hash.answered",
    "Bb.Hash.answer_old",
    "Bb.Hash.report_steps",
    "Bb.Hash.not_kept"
   ],
   "note": "Proved, but for a report of a known output whose task has no entry any more: its answer is not kept with a python for which an ignored row is not new (not_kept)."
  },
  {
   "property": "C181",
   "status": "partial",
   "theorems": [
    "Bb.Hash.same_hash_partial",
    "Bb.Hash.equivalence_partial",
    "Bb.Hash.read_only",
    "Bb.Hash.oldest_taken",
    "Bb.Hash.chain",
    "Bb.Hash.race"
   ],
   "note": "If a task gives the same at all times and requests are served one after the other; that tasks with the same hash give the same holds in any interleaving. A task that gives now this and now that makes two others equivalent that never gave the same (chain). With an upstream server two reports at the same time get different hashes (race)."
  },
  {
   "property": "C182",
   "status": "partial",
   "theorems": [
    "Bb.Hash.marked_kept",
    "Bb.Hash.new_kept",
    "Bb.Hash.unmarked_gone_partial",
    "Bb.Hash.sweep_refused",
    "Bb.Hash.clean_unused",
    "Bb.Hash.young_removed",
    "Bb.Hash.removed_partial",
    "Bb.Hash.not_removed",
    "Bb.Hash.removed_too_much",
    "Bb.Hash.old_mark",
    "Bb.Hash.used_removed"
   ],
   "note": "What is marked or new is kept, and only with the right mark is anything removed. The age is added instead of subtracted, so that all outputs that are not used are removed (young_removed). A condition on a method and an output removes the hashes of all tasks of the method (removed_too_much). With the name of an earlier mark nothing of what was kept then is removed (old_mark); a task that is reported again in between is removed (used_removed)."
  },
  {
   "property": "C183",
   "status": "partial",
   "theorems": [
    "Bb.HashUser.entry_changed",
    "Bb.HashUser.permissions_given",
    "Bb.HashUser.user_changed",
    "Bb.HashUser.tables",
    "Bb.HashUser.session_partial",
    "Bb.HashUser.not_known",
    "Bb.HashUser.anonymous",
    "Bb.HashUser.revoked"
   ],
   "note": "Proved, but a connection goes on with the permissions it had when it was opened, also if the user lost them or was removed (revoked)."
  },
  {
   "property": "C184",
   "status": "partial",
   "theorems": [
    "Bb.Collect.innermost",
    "Bb.Collect.layerOf_none",
    "Bb.Collect.found",
    "Bb.Collect.expand_mem",
    "Bb.Collect.walk_mem",
    "Bb.Collect.sorted_partial",
    "Bb.Collect.glob_order",
    "Bb.Collect.overlay_last",
    "Bb.Collect.overlay_priority_partial",
    "Bb.Collect.longest_not_first",
    "Bb.Collect.walk_order",
    "Bb.Collect.overlay_wrong"
   ],
   "note": "The innermost layer decides if patterns are literal paths; patterns are sorted by their text, so a longer one need not come first (longest_not_first). Files are in order of priorities if each entry of BBFILES has only files of its own priority; an entry for several layers puts the file of a lower layer above (overlay_wrong). The order on disk does not matter but for entries that are directories (walk_order)."
  },
  {
   "property": "C185",
   "status": "partial",
   "theorems": [
    "Bb.Collect.masked_partial",
    "Bb.Collect.kinds",
    "Bb.Collect.lit_alternation",
    "Bb.Collect.bar_masks_all"
   ],
   "note": "Given that a bar joins regular expressions, and unless a word is a single bar: with another mask it masks every file (bar_masks_all)."
  },
  {
   "property": "C186",
   "status": "partial",
   "theorems": [
    "Bb.Collect.applies_exact",
    "Bb.Collect.applies_wild",
    "Bb.Collect.baseOf_eq",
    "Bb.Collect.appends_order",
    "Bb.Collect.appends_priority_partial",
    "Bb.Collect.after_percent"
   ],
   "note": "To which recipes: proved for names without .bb before the %; what is after the % is not looked at (after_percent). The order: as for C184."
  },
  {
   "property": "C187",
   "status": "partial",
   "theorems": [
    "Bb.Collect.warned_partial",
    "Bb.Collect.warned_unused",
    "Bb.Collect.warned_iff",
    "Bb.Collect.warned_though_used"
   ],
   "note": "If no file is in two layers. A layer in another one that has only additions is warned about (warned_though_used)."
  },
  {
   "property": "C188",
   "status": "partial",
   "theorems": [
    "Bb.Chunk.received_partial",
    "Bb.Chunk.all_received_partial",
    "Bb.Chunk.any_cut_partial",
    "Bb.Chunk.cut_off",
    "Bb.Chunk.line_length",
    "Bb.Chunk.space_lost",
    "Bb.Chunk.blank_ends"
   ],
   "note": "Unless there is white space where a long message is cut: a line is read without the white space at its end, so that a space in a long message is lost (space_lost), and a piece of white space only ends the message (blank_ends). Proved with that excluded."
  },
  {
   "property": "C189",
   "status": "partial",
   "theorems": [
    "Bb.DiskMon.ends_partial",
    "Bb.DiskMon.goes_on",
    "Bb.DiskMon.all_entries",
    "Bb.DiskMon.first_warning",
    "Bb.DiskMon.warnings_partial",
    "Bb.DiskMon.inodes_not_watched",
    "Bb.DiskMon.warned_for_ever"
   ],
   "note": "On file systems that always count inodes: one answer of -1 ends the watch over them (inodes_not_watched). Warnings as long as there is some space left: with none the same warning comes at each check (warned_for_ever)."
  },
  {
   "property": "C190",
   "status": "partial",
   "theorems": [
    "Bb.DiskMon.entry",
    "Bb.DiskMon.convert",
    "Bb.DiskMon.convert_wrong",
    "Bb.DiskMon.one_wrong",
    "Bb.DiskMon.parse_mem",
    "Bb.DiskMon.interval",
    "Bb.DiskMon.no_directory"
   ],
   "note": "Proved, but for an entry without a directory, which should be an error: the working directory is watched (no_directory)."
  },
  {
   "property": "C191",
   "status": "partial",
   "theorems": [
    "Bb.Checksum.right_partial",
    "Bb.Checksum.same_second",
    "Bb.Checksum.while_running",
    "Bb.Checksum.older_entry_wins",
    "Bb.Checksum.cut_for_ever"
   ],
   "note": "If a changed file has a new time and does not change while a process counts on it. Times are whole seconds: a change within the same second is never noticed (same_second). A process killed while it writes its table ends the cache for ever, though checksums stay right (cut_for_ever)."
  },
  {
   "property": "C192",
   "status": "partial",
   "theorems": [
    "Bb.Checksum.list_partial",
    "Bb.Checksum.colon_cut"
   ],
   "note": "For paths without a colon: a path with one is cut there (colon_cut)."
  },
  {
   "property": "C193",
   "status": "partial",
   "theorems": [
    "Bb.Checksum.directory",
    "Bb.Checksum.place_partial",
    "Bb.Checksum.place_lost",
    "Bb.Checksum.link_not_counted",
    "Bb.Checksum.plain_file"
   ],
   "note": "If the path of the directory is not found again within it: then what comes after counts no more (place_lost). A directory that is a link does not count (link_not_counted)."
  },
  {
   "property": "C194",
   "status": "partial",
   "theorems": [
    "Isar.Wic.Prep.prepared_excluded_partial",
    "Isar.Wic.Prep.prepared_included",
    "Isar.Wic.Prep.excluded_partial",
    "Isar.Wic.Prep.included",
    "Isar.Wic.Prep.copied",
    "Isar.Wic.Prep.space_stays",
    "Isar.Wic.Prep.link_stays"
   ],
   "note": "Excluded: if there is no white space in the path and no link on the way. A path with white space is cut there, so that what is to be excluded stays (space_stays); of a link what it points to is removed (link_stays)."
  },
  {
   "property": "C195",
   "status": "partial",
   "theorems": [
    "Isar.Wic.Prep.untouched_partial",
    "Isar.Wic.Prep.near_iff",
    "Isar.Wic.Prep.beside",
    "Isar.Wic.Prep.beside_content",
    "Isar.Wic.Prep.space_outside"
   ],
   "note": "A path counts as inside if its text begins with that of the copy: a directory with a longer name beside it, such as the copy of another partition, is changed (beside, beside_content). A path with white space is cut for rm (space_outside). Proved for all else."
  },
  {
   "property": "C196",
   "status": "partial",
   "theorems": [
    "Meta.Wks.env_partial",
    "Meta.Wks.quote_lost",
    "Meta.Wks.second_line",
    "Meta.Wks.answers"
   ],
   "note": "For values of one line without a quote at their ends. A quote at the end is lost (quote_lost); the second line of a value may be read as another variable (second_line). The answers to all histories are proved in full."
  },
  {
   "property": "C197",
   "status": "proved",
   "theorems": [
    "Meta.Wks.relative",
    "Meta.Wks.relative_none",
    "Meta.Wks.absolute",
    "Meta.Wks.looked",
    "Meta.Wks.looked_unique",
    "Meta.Wks.read_is_made"
   ],
   "note": ""
  },
  {
   "property": "C198",
   "status": "partial",
   "theorems": [
    "Meta.Wks.template_partial",
    "Meta.Wks.from_outside",
    "Meta.Wks.not_for_shell",
    "Meta.Wks.without_braces"
   ],
   "note": "For names a shell knows and if no variable without a value is in the environment: then that one is taken (from_outside). A reference with another name stays (not_for_shell); $NAME without braces is replaced too (without_braces)."
  },
  {
   "property": "C199",
   "status": "partial",
   "theorems": [
    "Isar.Wic.Boot.says_partial",
    "Isar.Wic.Boot.variable_for",
    "Isar.Wic.Boot.from_variable_partial",
    "Isar.Wic.Boot.other_character",
    "Isar.Wic.Boot.same_name"
   ],
   "note": "For paths of letters, digits and _-./*: at another character, as in rpi+4.dtb, a name is cut into two (other_character). Files of a pattern with the same name get the same place (same_name)."
  },
  {
   "property": "C200",
   "status": "partial",
   "theorems": [
    "Isar.Wic.Boot.installed_partial",
    "Isar.Wic.Boot.from_variable_partial",
    "Isar.Wic.Boot.absolute_destination",
    "Isar.Wic.Boot.above_destination"
   ],
   "note": "For relative destinations without . and .. of which none is a directory of another one. A destination with a slash at its beginning or with .. leaves the directory, and files of the machine that builds are overwritten (absolute_destination, above_destination)."
  },
  {
   "property": "C201",
   "status": "partial",
   "theorems": [
    "Isar.Wic.Boot.kernel_first",
    "Isar.Wic.Boot.tree_first",
    "Isar.Wic.Boot.config",
    "Isar.Wic.Boot.kernel_in_directory",
    "Isar.Wic.Boot.other_trees"
   ],
   "note": "A kernel in a directory is not found (kernel_in_directory), nor are device trees in another directory than the first one (other_trees). Else proved."
  },
  {
   "property": "C202",
   "status": "partial",
   "theorems": [
    "Bb.Layers.add_partial",
    "Bb.Layers.add_command_partial",
    "Bb.Layers.add_again",
    "Bb.Layers.every_operator",
    "Bb.Layers.never_told",
    "Bb.Layers.not_parsed",
    "Bb.Layers.added_in_vain",
    "Bb.Layers.no_newline",
    "Bb.Layers.tab_not_found",
    "Bb.Layers.other_variable"
   ],
   "note": "For files of which only the first setting is not +=, in which no line but the settings begins with BBLAYERS, and all lines have a newline. A layer is added to the first setting also if a later one sets all anew (added_in_vain); with a last line without a newline the new setting becomes a part of it (no_newline); a tab before the operator is not known (tab_not_found), and BBLAYERSt is taken for BBLAYERS (other_variable). A line with any of BitBake's operators is found (every_operator), but files with ??=, .=, =+ and =. are not among those of the theorem. The command never says that a layer is there already (never_told), and then adds others although the configuration cannot be parsed with them (not_parsed)."
  },
  {
   "property": "C203",
   "status": "partial",
   "theorems": [
    "Bb.Layers.remove_path_partial",
    "Bb.Layers.remove_name_partial",
    "Bb.Layers.listed_twice",
    "Bb.Layers.brackets",
    "Bb.Layers.brackets_other"
   ],
   "note": "For the same files, if no setting has two layers that match, and paths without characters of patterns. A layer listed twice in a setting is removed once (listed_twice); a path with brackets is taken for a pattern (brackets, brackets_other)."
  },
  {
   "property": "C204",
   "status": "partial",
   "theorems": [
    "Bb.Unpack.local_partial",
    "Bb.Unpack.local_succeeds",
    "Bb.Unpack.url_ud",
    "Bb.Unpack.at_sign",
    "Bb.Unpack.at_misplaced",
    "Bb.Unpack.stale_file"
   ],
   "note": "For relative paths of names and places none of which is in another one. A file that is no longer in a directory stays in the work directory (stale_file); a directory with an @ in the name is cut there when a file of it is copied (at_sign, at_misplaced). Links and empty directories are not modelled."
  },
  {
   "property": "C205",
   "status": "partial",
   "theorems": [
    "Bb.Unpack.by_suffix",
    "Bb.Unpack.no_suffix",
    "Bb.Unpack.decompressed_partial",
    "Bb.Unpack.download_lost",
    "Bb.Unpack.subdir_ignored",
    "Bb.Unpack.prebuilt_copied"
   ],
   "note": "For .gz .Z .bz2 .xz .lz without subdir. With .z and .zst the download is emptied before it is read, and nothing is unpacked (download_lost); subdir is not regarded for compressed files (subdir_ignored). What the programs do with the contents is a parameter."
  },
  {
   "property": "C206",
   "status": "partial",
   "theorems": [
    "Bb.Unpack.inside_partial",
    "Bb.Unpack.elsewhere_refused",
    "Bb.Unpack.beside_root",
    "Bb.Unpack.above_root",
    "Bb.Unpack.dotdot_path"
   ],
   "note": "For relative paths and subdirs of names, and other suffixes than .z and .zst; that the programs write only below their directory is assumed. A subdir beside the work directory whose name begins like it is accepted (beside_root), a relative one with .. is not checked (above_root), nor is the path of a local file (dotdot_path)."
  },
  {
   "property": "C207",
   "status": "partial",
   "theorems": [
    "Isar.Epoch.date_of_commit",
    "Isar.Epoch.date_of_files_partial",
    "Isar.Epoch.date_fixed",
    "Isar.Epoch.youngest_file",
    "Isar.Epoch.same_sources_partial",
    "Isar.Epoch.two_repositories",
    "Isar.Epoch.before_1970",
    "Isar.Epoch.other_spelling",
    "Isar.Epoch.known_files_ignored"
   ],
   "note": "If there is one repository only, or one at WORKDIR/git or in S, and no file is from before 1970: with two the date depends on the order in which directories are listed (two_repositories), with negative times also (before_1970). An S that is the work directory in another spelling takes the date of the logs (other_spelling). The documented step with known files does not exist (known_files_ignored). Git is a parameter."
  },
  {
   "property": "C208",
   "status": "proved",
   "theorems": [
    "Isar.Epoch.read_written",
    "Isar.Epoch.read_fallback",
    "Isar.Epoch.interrupted",
    "Isar.Epoch.written_last",
    "Isar.Epoch.read_again",
    "Isar.Epoch.asked_before",
    "Isar.Epoch.provided_ignored"
   ],
   "note": "A process that read the date before it was stored goes on with the fixed one (asked_before). A file that is there before is overwritten, although the documentation says it would be used (provided_ignored)."
  },
  {
   "property": "C209",
   "status": "partial",
   "theorems": [
    "Isar.Epoch.none_younger_partial",
    "Isar.Epoch.clock_put_back"
   ],
   "note": "If the time that date prints is read by find as the same one; in the hour that is there twice when the clock is put back this is not so (clock_put_back)."
  },
  {
   "property": "C210",
   "status": "partial",
   "theorems": [
    "Isar.Outhash.hash_same_partial",
    "Isar.Outhash.link_matters"
   ],
   "note": "Outside of pseudo (which Isar does not use) and for tasks other than package. Not so if a link leads to an existing directory on one machine only: then the lines come in another order (link_matters)."
  },
  {
   "property": "C211",
   "status": "partial",
   "theorems": [
    "Isar.Outhash.text_tells_partial",
    "Isar.Outhash.other_task",
    "Isar.Outhash.text_twice",
    "Isar.Outhash.group_lost",
    "Isar.Outhash.fixme_lost"
   ],
   "note": "For names and targets without line breaks, links without > in their paths and no file called fixmepath, outside of pseudo and for tasks other than package. Else two links can have the same text (text_twice) and a file called fixmepath is not looked at (fixme_lost). Permissions of the group and others are not part of the text (group_lost). That the checksum of texts and contents has no collisions is not assumed: the claim is about texts and checksums."
  },
  {
   "property": "C212",
   "status": "proved",
   "theorems": [
    "Isar.Custom.image_finds_recipe",
    "Isar.Custom.variant_there"
   ],
   "note": "For values of CUSTOMIZATION_VARS that do not refer to IMAGE themselves."
  },
  {
   "property": "C213",
   "status": "partial",
   "theorems": [
    "Isar.Custom.package_named_partial",
    "Isar.Custom.packages_differ_partial",
    "Isar.Custom.image_named_like_distro",
    "Isar.Custom.machine_before"
   ],
   "note": "If the name of the image is not a part of CUSTOMIZATION_VARS_PREFIXED (the test is one for a part of a text). If it is, the Debian package has the name of the image appended once more and the image asks for a package that is not there (image_named_like_distro)."
  },
  {
   "property": "C214",
   "status": "proved",
   "theorems": [
    "Bb.Git.unpacked_is_pinned",
    "Bb.Git.fetched_unpacks",
    "Bb.Git.nothing_to_fetch",
    "Bb.Git.foreign_revision"
   ],
   "note": "no shallow clones, tarballs of clones, large files or subpath; git by its effect on references and commits"
  },
  {
   "property": "C215",
   "status": "partial",
   "theorems": [
    "Bb.Git.stays_fetched_partial",
    "Bb.Git.stays_without_branch",
    "Bb.Git.forced_push",
    "Bb.Git.two_repositories",
    "Bb.Git.collected"
   ],
   "note": "False in general: a replaced branch and the fetch of another recipe make a fetched revision unusable (forced_push), as do two repositories with the same clone (two_repositories); with nobranch, a collection of garbage (collected). Proved if the branches of the server only grow and each clone has one repository; with nobranch without collections."
  },
  {
   "property": "C216",
   "status": "partial",
   "theorems": [
    "Bb.Git.fetch_recovers_partial",
    "Bb.Git.failed_keeps",
    "Bb.Git.renamed_branch",
    "Bb.Git.renamed_case"
   ],
   "note": "False for a clone with a branch in the place of a branch of the server (a, then a/b): no fetch succeeds until the clone is removed (renamed_branch). Proved for all other clones, partial ones and other files in the place."
  },
  {
   "property": "C217",
   "status": "partial",
   "theorems": [
    "Bb.Git.clones_apart_partial",
    "Bb.Git.rebaseable_apart",
    "Bb.Git.same_name",
    "Bb.Git.latest_iff",
    "Bb.Git.latest_none",
    "Bb.Git.full_tag",
    "Bb.Git.branches_len"
   ],
   "note": "False in general: /a.b and /a/b have one clone, as have other servers (same_name). Proved for paths of one server without the characters that are replaced. The full name of a tag gives the checksum of the tag (full_tag)."
  },
  {
   "property": "C218",
   "status": "partial",
   "theorems": [
    "Meta.Sdk.links_lead_partial",
    "Meta.Sdk.through_link",
    "Meta.Sdk.above_root"
   ],
   "note": "False in general: an absolute link that goes up from a link leads elsewhere (through_link), a relative link that goes up from the root leaves the SDK (above_root). Proved for links without these. Names with white space are not modelled: the script does not quote them."
  },
  {
   "property": "C219",
   "status": "partial",
   "theorems": [
    "Meta.Sdk.relocated_partial",
    "Meta.Sdk.relocated_again_partial",
    "Meta.Sdk.other_interpreter",
    "Meta.Sdk.pattern_place"
   ],
   "note": "False for old places with characters of patterns (pattern_place). Proved for all others."
  },
  {
   "property": "C220",
   "status": "partial",
   "theorems": [
    "Meta.OsRelease.one_line_each_partial",
    "Meta.OsRelease.others_stay_partial",
    "Meta.OsRelease.mark_again_partial",
    "Meta.OsRelease.no_line_feed",
    "Meta.OsRelease.empty_keeps"
   ],
   "note": "False for a file without a line feed at its end (no_line_feed); proved for all others. A value that is empty does not remove an old one (empty_keeps)."
  },
  {
   "property": "C221",
   "status": "proved",
   "theorems": [
    "Bb.Parser.complete_all",
    "Bb.Parser.failure_true",
    "Bb.Parser.died_killed",
    "Bb.Parser.chunks_perm"
   ],
   "note": "A transition system with any interleaving of parsing, the buffers of the processes, the pipe, their ends and the collector, and kills at any point. A kill while a process writes to the pipe or holds its lock is not modelled."
  },
  {
   "property": "C222",
   "status": "proved",
   "theorems": [
    "Bb.Parser.parsing_ends",
    "Bb.Parser.parsing_settles"
   ],
   "note": "For unending fair histories; processes that have ended are seen in the end. A kill while the lock of the pipe is held is not modelled."
  },
  {
   "property": "C223",
   "status": "partial",
   "theorems": [
    "Bb.Parser.parsing_settles",
    "Bb.Parser.zero_threads"
   ],
   "note": "False for 0 and negative numbers: there is no process, and parsing ends with an error (zero_threads). Proved for all positive numbers."
  },
  {
   "property": "C224",
   "status": "partial",
   "theorems": [
    "Bb.DiffSig.difference_explained_partial",
    "Bb.DiffSig.difference_not_silent_partial",
    "Bb.DiffSig.base_explained",
    "Bb.DiffSig.directories_ordered",
    "Bb.DiffSig.moved_layers",
    "Bb.DiffSig.own_change_hidden"
   ],
   "note": "False when the same files stand in another order, as their order is that of their paths, which are not recorded (moved_layers); proved for records that keep the order, which those of files in directories do (directories_ordered). With recursion the own changes of a task are dropped when a dependency changed too (own_change_hidden); a line is still printed. The collapsed output is modelled but not claimed."
  },
  {
   "property": "C225",
   "status": "proved",
   "theorems": [
    "Bb.DiffSig.vars_named",
    "Bb.DiffSig.files_explained",
    "Bb.DiffSig.files_silent",
    "Bb.DiffSig.same_says_nothing"
   ],
   "note": "The texts of lines, colours and word diffs are not modelled."
  },
  {
   "property": "C226",
   "status": "partial",
   "theorems": [
    "Bb.DiffSig.place_irrelevant_partial",
    "Bb.DiffSig.moved_layers"
   ],
   "note": "False when the order of the paths changes (moved_layers: two layers that are placed in another order). Proved for places that keep the order."
  },
  {
   "property": "C227",
   "status": "partial",
   "theorems": [
    "Meta.Kernel.fragments_partial",
    "Meta.Kernel.fragments_exact_partial",
    "Meta.Kernel.fragment_iff",
    "Meta.Kernel.c_file_is_fragment"
   ],
   "note": "False: the test of the ending is one for a part of the text .cfg, so names ending in .c, .cf and a dot count too (fragment_iff); a C file among the sources is merged as a fragment (c_file_is_fragment). Proved when no source has such an ending; order, apply=no and completeness are proved for all."
  },
  {
   "property": "C228",
   "status": "partial",
   "theorems": [
    "Meta.Kernel.copied_where_read",
    "Meta.Kernel.in_tree",
    "Meta.Kernel.beside_tree_not_copied"
   ],
   "note": "False for absolute names beside the source tree that begin with its name: one test looks for a slash after it and the other does not, so they are listed and not copied (beside_tree_not_copied). Proved for all relative names and for those in the tree; that cp succeeds is assumed."
  },
  {
   "property": "C229",
   "status": "partial",
   "theorems": [
    "Meta.Kernel.overlays_right_iff",
    "Meta.Kernel.overlays_right_partial",
    "Meta.Kernel.overlay_lost"
   ],
   "note": "False: the directory that is set for a relative overlay is kept for absolute ones after it (overlay_lost). The script is right exactly if no absolute one comes after a relative one. U-Boot variables in overlays are not modelled."
  },
  {
   "property": "C230",
   "status": "proved",
   "theorems": [
    "Meta.Kernel.boot_last"
   ],
   "note": "Commands for addresses, SCRIPT_PREPEND and kernel arguments are not modelled."
  },
  {
   "property": "C231",
   "status": "partial",
   "theorems": [
    "Meta.HardCopy.copied_partial",
    "Meta.HardCopy.others_kept",
    "Meta.HardCopy.complete_iff",
    "Meta.HardCopy.fails_iff",
    "Meta.HardCopy.tiny_lost",
    "Meta.HardCopy.tiny_fails"
   ],
   "note": "False for names of a dot and one character at the top of the source: with hard links their files are left out without an error (tiny_lost), and if there are no other names the copy fails, while it succeeds without hard links (tiny_fails). Proved for all other names; complete_iff and fails_iff say exactly when the copy is complete and when it fails. Clashes of directories with files are taken as failures; owners, modes and times are not modelled."
  },
  {
   "property": "C232",
   "status": "partial",
   "theorems": [
    "Meta.HardCopy.source_kept_partial",
    "Meta.HardCopy.source_kept_unlinked_partial",
    "Meta.HardCopy.write_changes_source"
   ],
   "note": "False with hard links: a program that writes to a file of the copy changes the source (write_changes_source). Proved for all histories that replace and remove files, and for all histories where no links are made."
  },
  {
   "property": "C233",
   "status": "proved",
   "theorems": [
    "Meta.Cross.chroot_right",
    "Meta.Cross.chroot_unique"
   ],
   "note": "That a recipe of a flavor has the flavor in its name and sets SBUILD_FLAVOR is taken from sbuild-chroot.inc:14-15."
  },
  {
   "property": "C234",
   "status": "proved",
   "theorems": [
    "Meta.Cross.compiler_there",
    "Meta.Cross.cross_on_host",
    "Meta.Cross.native_on_target",
    "Meta.Cross.profile_iff",
    "Meta.Cross.compat_disabled"
   ],
   "note": "For the architectures of the target, the host, the compatible one if it is enabled, all, and the reference to BUILD_ARCH. compat_disabled shows that the compatible architecture must be enabled. What the named packages of Debian contain is trusted."
  },
  {
   "property": "C235",
   "status": "partial",
   "theorems": [
    "Meta.Dracut.right_iff",
    "Meta.Dracut.module_iff",
    "Meta.Dracut.second_driver_lost",
    "Meta.Dracut.no_module_fails"
   ],
   "note": "False: the values are not quoted, so that the second of two drivers becomes the name of the file to be written (second_driver_lost), and if modules are to be found in names of packages and there are none, dracut gets an option without a value (no_module_fails). right_iff says exactly when it is right: each value is empty or one word. How dracut reads its arguments is taken from its manual."
  },
  {
   "property": "C236",
   "status": "partial",
   "theorems": [
    "Meta.Dracut.deployed_from",
    "Meta.Dracut.deployed_right_partial",
    "Meta.Dracut.kept_deployed",
    "Meta.Dracut.other_deployed"
   ],
   "note": "False: files whose names begin with that of the ramdisk are taken too (kept_deployed), and with kernels of both kinds of names the ramdisk of another kernel can be deployed (other_deployed). Proved when kernels are given in the order of their versions and no other name begins with that of the ramdisk of the last. deployed_from: something is deployed, and it never is what an earlier run left in the work directory."
  },
  {
   "property": "C237",
   "status": "partial",
   "theorems": [
    "Bb.Server.orderly_partial",
    "Bb.Server.event_comes_partial",
    "Bb.Server.finished_twice",
    "Bb.Server.finished_twice_disorder"
   ],
   "note": "False: if an exception comes while a command that ends at once is being finished, after its event was fired, a second event is fired (finished_twice). Proved for all schedules without such an exception. What commands do is given by the outcome of each call; the heartbeat is not modelled."
  },
  {
   "property": "C238",
   "status": "proved",
   "theorems": [
    "Bb.Server.never_lost",
    "Bb.Server.free_again",
    "Bb.Server.register_next",
    "Bb.Server.never_missing",
    "Bb.Server.busy_only"
   ],
   "note": "All schedules, with exceptions at any place. What is done under the lock is one step; that functions end when called is assumed."
  },
  {
   "property": "C239",
   "status": "proved",
   "theorems": [
    "Bb.Clients.one_at_a_time",
    "Bb.Clients.no_idle_wait"
   ],
   "note": "All sequences of turns of the loop. The server for XMLRPC beside it is not modelled."
  },
  {
   "property": "C240",
   "status": "partial",
   "theorems": [
    "Bb.Clients.in_order_partial",
    "Bb.Clients.last_first",
    "Bb.Clients.starved"
   ],
   "note": "False: the client that came last is served first (last_first), so that one may wait for ever while others are served (starved). Proved as long as no more than one waits."
  },
  {
   "property": "C241",
   "status": "partial",
   "theorems": [
    "Bb.Clients.stays_partial",
    "Bb.Clients.dropped",
    "Bb.Clients.junk_ends",
    "Bb.Clients.served_stays",
    "Bb.Clients.left_at"
   ],
   "note": "False: a client that was accepted and has not yet told where its events go is dropped if the timeout is over, which counts from when the last client left (dropped), and a client that sends something else than descriptors ends the server for all (junk_ends). Proved: there is no other cause, and none of these while a client is served and sends commands."
  },
  {
   "property": "C242",
   "status": "partial",
   "theorems": [
    "Bb.Xmlrpc.observer_partial",
    "Bb.Xmlrpc.observer_reads",
    "Bb.Xmlrpc.others_run",
    "Bb.Xmlrpc.observer_starts",
    "Bb.Xmlrpc.observer_ends",
    "Bb.Xmlrpc.busy_keeps"
   ],
   "note": "False: only synchronous commands are asked whether they change something, so that an observer can start builds (observer_starts), and end the server or remove the client that is there (observer_ends). Proved for synchronous commands. What the commands do is not modelled."
  },
  {
   "property": "C243",
   "status": "partial",
   "theorems": [
    "Bb.Xmlrpc.one_client_partial",
    "Bb.Xmlrpc.let_in_once_partial",
    "Bb.Xmlrpc.token_ignored",
    "Bb.Xmlrpc.never_refused"
   ],
   "note": "False: the check of the token is switched off (`if 0 and`), so that everyone is treated as the client that was let in (token_ignored, never_refused). Proved: while a client is there and nobody removes it, no other is let in."
  },
  {
   "property": "C244",
   "status": "partial",
   "theorems": [
    "Meta.Chroot.clean_partial",
    "Meta.Chroot.prevented_partial",
    "Meta.Chroot.alias_lost",
    "Meta.Chroot.late_lost",
    "Meta.Chroot.policy_lost"
   ],
   "note": "False: with merged directories a package that has /usr/sbin/start-stop-daemon is not diverted, runs the real one and is lost at the cleanup (alias_lost); a start-stop-daemon that comes first with a package is removed (late_lost); a policy that was there before is lost since setup and cleanup use different names (policy_lost). Proved for packages that have the names under /sbin. dpkg-divert is modelled from its documentation."
  },
  {
   "property": "C245",
   "status": "partial",
   "theorems": [
    "Meta.Chroot.finalize_once",
    "Meta.Chroot.finalize_twice",
    "Meta.Chroot.interrupted_partial",
    "Meta.Chroot.interrupted_lost"
   ],
   "note": "False: if it is interrupted after the diversion of start-stop-daemon is removed and before the script is, the second run removes the real start-stop-daemon (interrupted_lost). Proved for all other places."
  },
  {
   "property": "C246",
   "status": "partial",
   "theorems": [
    "Bb.HashClient.right_answers_partial",
    "Bb.HashClient.answered_done",
    "Bb.HashClient.late_shifts",
    "Bb.HashClient.late_wrong",
    "Bb.HashClient.late_lookup_wrong",
    "Bb.HashClient.late_garbage",
    "Bb.HashClient.done_twice"
   ],
   "note": "False: if the answer comes after the time to wait four times in a row, the error is raised but the connection is kept, and its late answer is taken as the one to the next question, and so on (late_shifts); the callers in siggen.py catch the error and go on, so that a task is given the hash of another. A report may be done twice (done_twice). Proved for all failures but late answers."
  },
  {
   "property": "C247",
   "status": "partial",
   "theorems": [
    "Bb.HashClient.request_survives",
    "Bb.HashClient.request_gives_up",
    "Bb.HashClient.lookup_survives",
    "Bb.HashClient.lookups_survive",
    "Bb.HashClient.request_lost",
    "Bb.HashClient.request_lost_reachable"
   ],
   "note": "False: a report that follows a look-up fails if the connection is lost once (request_lost), since END is sent again on the new connection, which the server closes. Proved: look-ups survive two failures after any history, and three in the normal mode as reports do."
  },
  {
   "property": "C248",
   "status": "partial",
   "theorems": [
    "Bb.UiHelper.shown_partial",
    "Bb.UiHelper.nothing_left",
    "Bb.UiHelper.reused_fails",
    "Bb.UiHelper.reused_progress",
    "Bb.UiHelper.observer_fails"
   ],
   "note": "False: if a process number is used again and the end of the first task is told after that of the second, the user interface raises KeyError and stops the build (reused_fails); one that came during the build fails at the next end of a task that was started before (observer_fails). Proved for process numbers that are used again if tasks of the same process end in the order of their starts."
  },
  {
   "property": "C249",
   "status": "proved",
   "theorems": [
    "Bb.UiQueue.in_order",
    "Bb.UiQueue.none_lost",
    "Bb.UiQueue.no_lost_wakeup",
    "Bb.UiQueue.woken_gets",
    "Bb.UiQueue.delivered"
   ],
   "note": "Transition system with single steps under the lock; the lock and the flag of Python's threading module are assumptions."
  },
  {
   "property": "C250",
   "status": "partial",
   "theorems": [
    "Meta.Essential.package_waits",
    "Meta.Essential.listed_free",
    "Meta.Essential.listed",
    "Meta.Essential.meant_partial",
    "Meta.Essential.compat_kept",
    "Meta.Essential.variant_of_variant",
    "Meta.Essential.image_does_not_wait"
   ],
   "note": "False: images do not wait since the class asks for the task do_install_rootfs, which does not exist (image_does_not_wait); names with -compat and -native that cannot be built are kept, with variants of variants (compat_kept, variant_of_variant). Proved for packages, and for lists without such names."
  },
  {
   "property": "C251",
   "status": "partial",
   "theorems": [
    "Meta.Essential.no_circle_partial",
    "Meta.Essential.circle",
    "Meta.Essential.waits_iff"
   ],
   "note": "False: a package on which one of the list depends waits for it unless it is in the list too (circle). Proved if the list is closed."
  },
  {
   "property": "C252",
   "status": "partial",
   "theorems": [
    "Meta.TarImage.same_tree_partial",
    "Meta.TarImage.names",
    "Meta.TarImage.contents",
    "Meta.TarImage.link_changed",
    "Meta.TarImage.link_changed_sdk"
   ],
   "note": "False: tar applies the change of the name to targets of symbolic links too, so that a link with the word rootfs in its target points somewhere else (link_changed). Proved: exactly these are changed. How tar transforms names is from its documentation."
  },
  {
   "property": "C253",
   "status": "partial",
   "theorems": [
    "Bb.ClientPool.pool_bounded",
    "Bb.ClientPool.pool_no_deadlock_partial",
    "Bb.ClientPool.pool_terminates",
    "Bb.ClientPool.pool_dead_forever",
    "Bb.ClientPool.pool_hangs"
   ],
   "note": "False: a connection that cannot be made still counts, so that after as many failures as connections are allowed every later call waits for ever, also if the server is back (pool_hangs, pool_dead_forever). Proved for all interleavings: the bound, one task for each connection, no task lost, termination, and that all tasks end as long as there were fewer such failures."
  },
  {
   "property": "C254",
   "status": "partial",
   "theorems": [
    "Bb.ClientPool.results_right_partial",
    "Bb.ClientPool.results_sound",
    "Bb.ClientPool.results_lost",
    "Bb.ClientPool.unihash_cases"
   ],
   "note": "False: the first failure ends the call, which returns nothing for questions that were not answered yet, without an error, and the hash of the task itself is stored for them (results_lost). Proved: answers are never wrong, and complete if no question fails."
  },
  {
   "property": "C255",
   "status": "partial",
   "theorems": [
    "Meta.DracutMod.replaced_partial",
    "Meta.DracutMod.fatal_iff",
    "Meta.DracutMod.occurs_replaced",
    "Meta.DracutMod.terminator_lost",
    "Meta.DracutMod.continued_line_split",
    "Meta.DracutMod.marker_in_content"
   ],
   "note": "False: the end of a here document is indented too, so that it does not end (terminator_lost); a blank line before the marker is repeated before each line, which breaks continued lines (continued_line_split); a file with a line like another marker gets the other file (marker_in_content). Proved for markers without blank lines next to them. The match of the regular expression is described in terms of lines."
  },
  {
   "property": "C256",
   "status": "partial",
   "theorems": [
    "Meta.DracutMod.add_succeeds_partial",
    "Meta.DracutMod.again_fails",
    "Meta.DracutMod.fatal_iff"
   ],
   "note": "False: whenever one file was put in place, the task fails when it is run again, as the marker is gone (again_fails). Proved for the first run after unpacking."
  },
  {
   "property": "C257",
   "status": "partial",
   "theorems": [
    "Bb.MoveFile.move_keeps",
    "Bb.MoveFile.move_atomic_partial",
    "Bb.MoveFile.move_success",
    "Bb.MoveFile.link_moved",
    "Bb.MoveFile.link_not_atomic",
    "Bb.MoveFile.time_zero",
    "Bb.MoveFile.link_to_itself"
   ],
   "note": "False for a link as destination, which is removed first, so that nothing is there for a while, and for ever if the move fails (link_not_atomic); a link that is moved to itself is lost (link_to_itself); a file with the time 0 is moved but this counts as a failure (time_zero). Proved for regular files: never lost at any point, success means moved, and atomic if the destination is not a link. Owners, modes and special files are not modelled."
  },
  {
   "property": "C258",
   "status": "partial",
   "theorems": [
    "Bb.MoveFile.copy_keeps",
    "Bb.MoveFile.copy_atomic_partial",
    "Bb.MoveFile.copy_success",
    "Bb.MoveFile.link_moved",
    "Bb.MoveFile.link_to_itself"
   ],
   "note": "False for a link as destination and a link copied to itself, as for moves. Proved for all other cases and all points of a crash."
  },
  {
   "property": "C259",
   "status": "partial",
   "theorems": [
    "Wic.RawCopy.raw_right_partial",
    "Wic.RawCopy.dst_inj",
    "Wic.RawCopy.damaged_archive",
    "Wic.RawCopy.same_line"
   ],
   "note": "False: the result of the program that unpacks is not looked at, so that a damaged archive gives a truncated partition without an error (damaged_archive); lines of the same number in a file and in one that it includes share their copy, and the first partition gets the content of the second (same_line). Proved if no program fails, lines with the same file differ in their numbers, and names of unpacked files are not those of copies."
  },
  {
   "property": "C260",
   "status": "proved",
   "theorems": [
    "Bb.Env.env_of_last_client",
    "Bb.Env.sent_value",
    "Bb.Env.kept_started",
    "Bb.Env.parses_iff"
   ],
   "note": "For all sequences of clients. LC_ALL is a locale with UTF-8 by design. Parsing is assumed to succeed."
  },
  {
   "property": "C261",
   "status": "partial",
   "theorems": [
    "Bb.Env.same_as_new_partial",
    "Bb.Env.addition_unseen",
    "Bb.Env.preserve_unseen"
   ],
   "note": "False: a variable that is added to BB_ENV_PASSTHROUGH_ADDITIONS while a server runs makes it parse again, but is not let in (addition_unseen), and the other way round (preserve_unseen). Proved if the variables that decide did not change."
  },
  {
   "property": "C262",
   "status": "partial",
   "theorems": [
    "Meta.Hook.code_installed_partial",
    "Meta.Hook.installed_iff",
    "Meta.Hook.installed_unique",
    "Meta.Hook.panic_lost",
    "Meta.Hook.complete_lost"
   ],
   "note": "False: a script for panic is left out, and a complete script if there is one of the other kind for the same point, without an error (panic_lost, complete_lost). Proved for all other recipes, with what exactly is installed for any recipe."
  },
  {
   "property": "C263",
   "status": "partial",
   "theorems": [
    "Meta.Hook.no_clash_partial",
    "Meta.Hook.hookName_full",
    "Meta.Hook.hookName_plain",
    "Meta.Hook.clash"
   ],
   "note": "False: the words initramfs- and -hook are left out of the name, so that recipes that differ only in them install the same file (clash). Proved for names that have both."
  },
  {
   "property": "C264",
   "status": "partial",
   "theorems": [
    "Bb.Guard.homes_kept_partial",
    "Bb.Guard.guard_iff",
    "Bb.Guard.prunedir_remove",
    "Bb.Guard.two_slashes",
    "Bb.Guard.above_home",
    "Bb.Guard.home_lost",
    "Bb.Guard.refused_for_point"
   ],
   "note": "False: names with two slashes at the beginning are not recognised (two_slashes), directories above a home directory outside of /home are not guarded (above_home), HOME is taken for a regular expression and not normalised (home_lost, refused_for_point). Proved for all other names and homes. Symbolic links are not modelled."
  },
  {
   "property": "C265",
   "status": "partial",
   "theorems": [
    "Meta.Autoload.listed",
    "Meta.Autoload.autoload_listed_partial",
    "Meta.Autoload.listed_twice",
    "Meta.Autoload.line_joined"
   ],
   "note": "False: each upgrade lists the modules once more and removal leaves them (listed_twice); if the last line of the file has no line feed, the first module is appended to it and neither is loaded (line_joined). Proved: how often each module is listed after any history, and that all are listed once the package was configured and the file has complete lines."
  },
  {
   "property": "C266",
   "status": "partial",
   "theorems": [
    "Meta.Autoload.configure_status_partial",
    "Meta.Autoload.failure_hidden"
   ],
   "note": "False for every package with modules in AUTOLOAD: the lines for them are after depmod and there is no set -e (failure_hidden). Proved for all packages without."
  },
  {
   "property": "C267",
   "status": "partial",
   "theorems": [
    "Meta.Autoload.foreign_reported",
    "Meta.Autoload.reported_sound_partial",
    "Meta.Autoload.other_generator"
   ],
   "note": "False: any package with the word in its name is reported, and there is an exception for generators other than these two (other_generator). Proved: all that are foreign by the rule in the comment of the class are reported, and only packages with the word in their names."
  },
  {
   "property": "C268",
   "status": "partial",
   "theorems": [
    "Meta.ContainerImg.content_iff",
    "Meta.ContainerImg.complete_partial",
    "Meta.ContainerImg.hidden_lost",
    "Meta.ContainerImg.no_tmp"
   ],
   "note": "False: names that begin with a point at the top of the root file system are left out (hidden_lost), and without /tmp the task fails (no_tmp). Proved: what exactly is in the image for any root file system. umoci is described by its documentation."
  },
  {
   "property": "C269",
   "status": "partial",
   "theorems": [
    "Meta.ContainerImg.one_image_partial",
    "Meta.ContainerImg.tag_empty"
   ],
   "note": "False for the tag empty, which the task uses and removes (tag_empty). Proved for all other tags."
  },
  {
   "property": "C270",
   "status": "proved",
   "theorems": [
    "Meta.Sbom.uuid_valid",
    "Meta.Sbom.uuid_same_iff",
    "Meta.Sbom.reproducible",
    "Meta.Sbom.random_without_hash",
    "Meta.Sbom.cut_off"
   ],
   "note": "For all hashes with at least 32 digits. That Python reads the digits as a number and writes the same digits is assumed."
  },
  {
   "property": "C271",
   "status": "proved",
   "theorems": [
    "Bb.Search.finds_first",
    "Bb.Search.finds_none",
    "Bb.Search.found_absolute",
    "Bb.Search.unset_is_cwd"
   ],
   "note": "For all search paths. An empty search path is the current directory (unset_is_cwd)."
  },
  {
   "property": "C272",
   "status": "partial",
   "theorems": [
    "Bb.Search.descendant_iff_partial",
    "Bb.Search.root_no_ancestor",
    "Bb.Search.missing_is_error"
   ],
   "note": "False for the root, which is not found to be above anything (root_no_ancestor). Proved for all other ancestors if all directories above the path can be seen; a path that is missing is an error."
  },
  {
   "property": "C273",
   "status": "partial",
   "theorems": [
    "Bb.Search.layer_longest_partial",
    "Bb.Search.layer_of_entry",
    "Bb.Search.inner_layer_lost",
    "Bb.Search.entry_hides_layer"
   ],
   "note": "False: the length of the text of the pattern decides, so an outer layer can win (inner_layer_lost), and recipes are found by the entry of BBFILES and not by their path (entry_hides_layer). Proved: which layer is given for any patterns."
  },
  {
   "property": "C274",
   "status": "proved",
   "theorems": [
    "Bb.Search.inside",
    "Bb.Search.put_back"
   ],
   "note": "For all environments and blocks. A process that is killed in the block is left out."
  },
  {
   "property": "C275",
   "status": "partial",
   "theorems": [
    "Bb.Search.network_off_iff_partial",
    "Bb.Search.directory_user_keeps_network",
    "Bb.Search.local_iff"
   ],
   "note": "False for users that are not in /etc/passwd (directory_user_keeps_network). Proved: exactly when the network is taken away. What disable_network does in the kernel, and that it may fail without an error, is left out."
  },
  {
   "property": "C276",
   "status": "partial",
   "theorems": [
    "Meta.Archive.members",
    "Meta.Archive.roundtrip_iff_partial",
    "Meta.Archive.link_changed"
   ],
   "note": "False: the targets of symbolic links are changed as well (link_changed). Proved: the root file system is got back if and only if no such target has the text rootfs. Rests on the documented behaviour of tar; mounted file systems are left out."
  },
  {
   "property": "C277",
   "status": "partial",
   "theorems": [
    "Meta.Archive.squash_iff",
    "Meta.Archive.mount_points_stay",
    "Meta.Archive.left_out_partial",
    "Meta.Archive.hidden_stays"
   ],
   "note": "False: names that begin with a point stay (hidden_stays). Proved: exactly what is in the image. Rests on the matching of mksquashfs, where an asterisk does not match a leading point."
  },
  {
   "property": "C278",
   "status": "partial",
   "theorems": [
    "Meta.Archive.package_iff_partial",
    "Meta.Archive.blank_fails",
    "Meta.Archive.blank_wrong",
    "Meta.Archive.debian_lost"
   ],
   "note": "False: a directory debian is lost (debian_lost), names with blanks fail or are mixed up (blank_fails, blank_wrong). Proved for all names without blanks and wildcards."
  },
  {
   "property": "C279",
   "status": "proved",
   "theorems": [
    "Bb.Revs.done_once",
    "Bb.Revs.not_done",
    "Bb.Revs.set_get",
    "Bb.Revs.del_get"
   ],
   "note": "For all operations and up to 500 locks in a row; with more the operation fails and has done nothing. SQLite is assumed to do a transaction as a whole."
  },
  {
   "property": "C280",
   "status": "partial",
   "theorems": [
    "Bb.Revs.rows_all_partial",
    "Bb.Revs.rows_not_retried"
   ],
   "note": "False: the exception is taken before the repetition could see it, so one lock makes iterating fail with a TypeError (rows_not_retried). Proved without locks."
  },
  {
   "property": "C281",
   "status": "partial",
   "theorems": [
    "Bb.Revs.one_revision_partial",
    "Bb.Revs.revision_origin",
    "Bb.Revs.same_answer",
    "Bb.Revs.first_stores",
    "Bb.Revs.race"
   ],
   "note": "False for two processes that look before one has stored (race). Proved: in all interleavings every revision is from the table or the server, and once one is in the table all use it."
  },
  {
   "property": "C282",
   "status": "partial",
   "theorems": [
    "Bb.Revs.policies",
    "Bb.Revs.changed_iff",
    "Bb.Revs.locked_at_start",
    "Bb.Revs.locked_at_end"
   ],
   "note": "Proved without locks. With a lock at the start nothing is saved and all revisions count as changed (locked_at_start), with a lock at the end the comparison fails (locked_at_end)."
  },
  {
   "property": "C283",
   "status": "proved",
   "theorems": [
    "Bb.Addr.tcp_roundtrip",
    "Bb.Addr.host_name",
    "Bb.Addr.other_roundtrip",
    "Bb.Addr.bare_ipv6_refused",
    "Bb.Addr.no_port_refused",
    "Bb.Addr.bad_port_refused"
   ],
   "note": "For all hosts and ports. What else Python's int takes for a number (signs, blanks, underscores) is left out."
  },
  {
   "property": "C284",
   "status": "partial",
   "theorems": [
    "Bb.Addr.socket_place_partial",
    "Bb.Addr.plain_name_fails"
   ],
   "note": "False for names without a directory: changing to the empty directory fails (plain_name_fails). Proved for all absolute paths that have a directory other than the root."
  },
  {
   "property": "C285",
   "status": "partial",
   "theorems": [
    "Meta.Types.list_words",
    "Meta.Types.list_separated",
    "Meta.Types.unset_list"
   ],
   "note": "False for variables that are not set and have a separator: they have one empty item (unset_list). Proved for all other values, for separators with one character."
  },
  {
   "property": "C286",
   "status": "partial",
   "theorems": [
    "Meta.Types.boolean_iff",
    "Meta.Types.boolean_unset",
    "Meta.Types.choice_iff",
    "Meta.Types.no_type"
   ],
   "note": "False for a boolean that is not set, which is an error (boolean_unset). Proved: exactly which values are accepted and what they become, for letters of ASCII."
  },
  {
   "property": "C287",
   "status": "proved",
   "theorems": [
    "Bb.RefVars.all_found",
    "Bb.RefVars.ends",
    "Bb.RefVars.by_level"
   ],
   "note": "For all finite graphs of references. What one value refers to directly is a parameter."
  },
  {
   "property": "C288",
   "status": "partial",
   "theorems": [
    "Meta.Ova.archive_partial",
    "Meta.Ova.other_types"
   ],
   "note": "False for image types other than vmdk: the task succeeds, makes no archive and leaves the one of an earlier build (other_types). Proved for vmdk from any state of the directory."
  },
  {
   "property": "C289",
   "status": "partial",
   "theorems": [
    "Meta.Stats.pressure_partial",
    "Meta.Stats.zero_forgotten"
   ],
   "note": "False when a sample is 0: it counts as no sample, the growth after it is not recorded (zero_forgotten). Proved for all sequences of samples other than 0."
  },
  {
   "property": "C290",
   "status": "partial",
   "theorems": [
    "Meta.Stats.shares_partial",
    "Meta.Stats.iowait_back"
   ],
   "note": "False when the counter for waiting goes back, as the kernel allows (iowait_back). Proved for counters that do not go back; quotients are pairs of whole numbers, rounding is left out."
  },
  {
   "property": "C291",
   "status": "partial",
   "theorems": [
    "Meta.Stats.disks_partial",
    "Meta.Stats.more_fields",
    "Meta.Stats.nvme"
   ],
   "note": "False for lines with other than 14 fields, which kernels have had since 4.18 (more_fields), and for NVMe and the 27th SCSI disk (nvme). Proved for lines with 14 fields and the names the code knows, without cciss."
  },
  {
   "property": "C292",
   "status": "partial",
   "theorems": [
    "Meta.Stats.sampling_partial",
    "Meta.Stats.clock_back"
   ],
   "note": "False when the clock is set back (clock_back). Proved for all sequences of calls with a clock that does not go back; times are whole milliseconds."
  },
  {
   "property": "C293",
   "status": "proved",
   "theorems": [
    "Meta.Term.best",
    "Meta.Term.named",
    "Meta.Term.unknown",
    "Meta.Term.named_not",
    "Meta.Term.disabled"
   ],
   "note": "For all sets of terminals. What a terminal needs other than a display is one condition."
  },
  {
   "property": "C294",
   "status": "partial",
   "theorems": [
    "Meta.Term.once_partial",
    "Meta.Term.twice"
   ],
   "note": "False without a display, as the program is started before the display is looked for, and for terminals that end with an error (twice). Proved when every installed terminal works."
  },
  {
   "property": "C295",
   "status": "proved",
   "theorems": [
    "Meta.Launch.limit",
    "Meta.Launch.errors_stop",
    "Meta.Launch.ends",
    "Meta.Launch.no_processes"
   ],
   "note": "For all schedules, the end for schedules in which processes have ended when they are looked at. With 0 threads the loop does not end (no_processes)."
  },
  {
   "property": "C296",
   "status": "partial",
   "theorems": [
    "Meta.Launch.reported_partial",
    "Meta.Launch.lost"
   ],
   "note": "False for processes that are killed and for results that count as false (lost). Proved for all schedules when neither happens."
  },
  {
   "property": "C297",
   "status": "partial",
   "theorems": [
    "Meta.OeUtils.jobs_partial",
    "Meta.OeUtils.no_jobs",
    "Meta.OeUtils.limited",
    "Meta.OeUtils.no_argument",
    "Meta.OeUtils.other_forms"
   ],
   "note": "False for -j without a number and for the long option (other_forms). Proved for the first -j with a number in all lists of options."
  },
  {
   "property": "C298",
   "status": "proved",
   "theorems": [
    "Meta.OeUtils.backfilled"
   ],
   "note": "For all values."
  },
  {
   "property": "C299",
   "status": "proved",
   "theorems": [
    "Meta.OeUtils.trimmed"
   ],
   "note": "For all texts and numbers."
  },
  {
   "property": "C300",
   "status": "partial",
   "theorems": [
    "Scripts.LockRun.held",
    "Scripts.LockRun.last_partial",
    "Scripts.LockRun.earlier_failure"
   ],
   "note": "False for scripts of several commands: only the last one counts (earlier_failure). Proved: order, lock and release for all scripts, and the code for the last command."
  }
 ]
}
{
 "claims": [
  {
   "property": "C01",
   "status": "proved",
   "theorems": [
    "Verif.Props.event_row_roundtrip",
    "Verif.Props.row_accepted_iff",
    "Verif.Props.row_keeps_transaction"
   ],
   "note": "Rows are accepted iff every column is well-formed for the kind; writing then reading is the identity."
  },
  {
   "property": "C02",
   "status": "proved",
   "theorems": [
    "Verif.Props.add_events_journal",
    "Verif.Props.add_events_appends",
    "Verif.Props.add_events_never_partial"
   ],
   "note": "Crash at any statement of the SQLite transaction."
  },
  {
   "property": "C03",
   "status": "proved",
   "theorems": [
    "Verif.Props.txId_text_roundtrip",
    "Verif.Props.make_transaction_id_inherits",
    "Verif.Props.suppressed_transaction_records_nothing",
    "Verif.Props.fresh_transaction_ids",
    "Verif.Props.fresh_transaction_id_not_present",
    "Verif.Props.transaction_message_found"
   ],
   "note": ""
  },
  {
   "property": "C04",
   "status": "proved",
   "theorems": [
    "Verif.Props.api_cursor_valid",
    "Verif.Props.cursor_moves_exactly",
    "Verif.Props.api_cursor_no_panic"
   ],
   "note": ""
  },
  {
   "property": "C05",
   "status": "proved",
   "theorems": [
    "Verif.Props.advance_by_transaction_exact",
    "Verif.Props.boundary_determined",
    "Verif.Props.advance_by_transaction_inverse",
    "Verif.Props.tx_events_before_cursor_exact"
   ],
   "note": ""
  },
  {
   "property": "C06",
   "status": "proved",
   "theorems": [
    "Verif.Props.activity_status_exact",
    "Verif.Props.latest_event_exact",
    "Verif.Props.cursor_oids_exact",
    "Verif.Props.activity_status_now"
   ],
   "note": ""
  },
  {
   "property": "C07",
   "status": "partial",
   "theorems": [
    "Verif.Props.cursor_head_exact",
    "Verif.Props.cursor_branches_exact",
    "Verif.Props.references_snapshot_exact",
    "Verif.Props.main_branch_exact_partial",
    "Verif.Props.main_branch_ignores_deletion"
   ],
   "note": "HEAD and branches are proved in full. The main-branch lookup skips deletions (finding), so the main-branch claim holds only when its last update is not a deletion."
  },
  {
   "property": "C08",
   "status": "proved",
   "theorems": [
    "Verif.Props.internal_refs_have_no_influence"
   ],
   "note": ""
  },
  {
   "property": "C09",
   "status": "proved",
   "theorems": [
    "Verif.Props.clean_log_is_kept",
    "Verif.Props.repair_keeps_positions",
    "Verif.Props.repair_recovers_history"
   ],
   "note": ""
  },
  {
   "property": "C10",
   "status": "proved",
   "theorems": [
    "Verif.Props.find_rewrite_target_terminates",
    "Verif.Props.find_rewrite_target_exact",
    "Verif.Props.find_rewrite_target_none",
    "Verif.Props.find_rewrite_target_ne"
   ],
   "note": ""
  },
  {
   "property": "C11",
   "status": "proved",
   "theorems": [
    "Verif.Props.undo_restores_refs",
    "Verif.Props.undo_declined_changes_nothing",
    "Verif.Props.undo_checkout_target"
   ],
   "note": "The final git checkout is external; its target is characterised."
  },
  {
   "property": "C12",
   "status": "partial",
   "theorems": [
    "Verif.Props.undo_keeps_unmentioned",
    "Verif.Props.undo_hides_created",
    "Verif.Props.undo_shows_hidden",
    "Verif.Props.undo_restores_visibility_partial",
    "Verif.Props.undo_of_redundant_unhide_hides"
   ],
   "note": "Fails for redundant events (finding: undoing an unhide of a visible commit hides it); proved for all commits whose first undone event really changed their visibility."
  },
  {
   "property": "C13",
   "status": "partial",
   "theorems": [
    "Verif.Props.inverse_twice",
    "Verif.Props.redo_restores_status",
    "Verif.Props.redo_restores_refs_partial",
    "Verif.Props.undo_refs_untraced",
    "Verif.Props.undo_cannot_be_undone"
   ],
   "note": "Inverting twice, and the visibility of commits after undoing an undo, for all events. Undoing an undo does not bring the references back: undo does not record how it changes references, so that a second undo undoes the same events again (`undo_cannot_be_undone`). `redo_restores_refs_partial` says that it would if they were recorded."
  },
  {
   "property": "C25",
   "status": "proved",
   "theorems": [
    "Verif.Props.rewritten_list_roundtrip",
    "Verif.Props.rewritten_list_accepted_iff"
   ],
   "note": "Round trip for all lists, and exactly which files are accepted."
  },
  {
   "property": "C26",
   "status": "partial",
   "theorems": [
    "Verif.Props.update_overrides_partial",
    "Verif.Props.update_misses_duplicates"
   ],
   "note": "False for files that mention an old id twice (update_misses_duplicates, concrete witness); proved for files without repeated ids, an invariant which every update preserves."
  },
  {
   "property": "C27",
   "status": "proved",
   "theorems": [
    "Verif.Props.rebase_underway_records_nothing",
    "Verif.Props.hooks_record_exactly_once"
   ],
   "note": "All sequences of commits, amendments, finished and aborted rebases."
  },
  {
   "property": "C28",
   "status": "partial",
   "theorems": [
    "Verif.Props.uncommitted_not_recorded",
    "Verif.Props.committed_recorded_partial",
    "Verif.Props.reports_unique",
    "Verif.Props.unresolvable_target_loses_others",
    "Verif.Props.packing_is_no_change",
    "Verif.Props.unpacked_update_as_given",
    "Verif.Props.packed_refs_read"
   ],
   "note": "Full for inputs whose symbolic targets resolve; an unresolvable one loses the whole transaction (unresolvable_target_loses_others)."
  },
  {
   "property": "C29",
   "status": "proved",
   "theorems": [
    "Verif.Props.gc_exact",
    "Verif.Props.gc_succeeds",
    "Verif.Props.mark_reachable_creates",
    "Verif.Props.mark_reachable_succeeds",
    "Verif.Props.mark_reachable_idempotent",
    "Verif.Props.mark_missing_is_noop",
    "Verif.Props.marked_survives_gc",
    "Verif.Props.keepAliveName_injective"
   ],
   "note": "Reference database and object store arbitrary; failures of a single deletion not modelled."
  },
  {
   "property": "C39",
   "status": "proved",
   "theorems": [
    "Verif.Props.notify_ok_iff",
    "Verif.Props.bisect_never_contradictory",
    "Verif.Props.verdict_stays"
   ],
   "note": ""
  },
  {
   "property": "C40",
   "status": "proved",
   "theorems": [
    "Verif.Props.proposals_exact",
    "Verif.Props.first_proposal",
    "Verif.Props.report_shrinks",
    "Verif.Props.run_bounded",
    "Verif.Props.enumeration_terminates",
    "Verif.Props.enumeration_terminates_finite"
   ],
   "note": "Basic strategies (linear, reverse linear, binary); termination for every strategy with a finite set of midpoints."
  },
  {
   "property": "C41",
   "status": "proved",
   "theorems": [
    "Verif.Props.bisect_finds_boundary"
   ],
   "note": ""
  },
  {
   "property": "C36",
   "status": "partial",
   "theorems": [
    "Verif.Props.status_exact_partial",
    "Verif.Props.unknown_line_is_error",
    "Verif.Props.header_line_hangs",
    "Verif.Props.status_terminates",
    "Verif.Props.ordinary_read_iff",
    "Verif.Props.path_cut",
    "Verif.Props.type_change_not_a_change"
   ],
   "note": "Three findings: the loop hangs on header lines, paths starting like another column are cut (exactly which: ordinary_read_iff), type changes are read as untracked. Exact for everything else."
  },
  {
   "property": "C49",
   "status": "partial",
   "theorems": [
    "Verif.Props.categorize_exact",
    "Verif.Props.render_suffix_injective",
    "Verif.Props.file_mode_text_iff",
    "Verif.Props.file_mode_number_partial",
    "Verif.Props.group_writable_lost",
    "Verif.Props.file_mode_of_number",
    "Verif.Props.file_mode_unsigned"
   ],
   "note": "The numeric form of group-writable files is not read back (group_writable_lost); everything else is exact."
  },
  {
   "property": "C14",
   "status": "proved",
   "theorems": [
    "Verif.Props.visible_exact",
    "Verif.Props.filter_visible_exact",
    "Verif.Props.public_exact",
    "Verif.Props.draft_exact",
    "Verif.Props.public_draft_partition",
    "Verif.Props.clear_obsolete_exact",
    "Verif.Props.hide_removes_only_ancestors",
    "Verif.Props.hide_removes_exactly"
   ],
   "note": "eden_dag's set operations are modelled by their documented meaning on a topologically ordered graph."
  },
  {
   "property": "C15",
   "status": "proved",
   "theorems": [
    "Verif.Props.components_partition",
    "Verif.Props.components_no_edges"
   ],
   "note": "Includes termination of the loops and that the assertions at the end hold."
  },
  {
   "property": "C51",
   "status": "partial",
   "theorems": [
    "Verif.Props.stack_exact",
    "Verif.Props.stack_is_components_partial",
    "Verif.Props.stack_misses_merged_root"
   ],
   "note": "False when a merge joins two draft roots (stack_misses_merged_root); what is computed is stack_exact, and it is the component when no draft commit has two draft parents."
  },
  {
   "property": "C16",
   "status": "partial",
   "theorems": [
    "Verif.Props.cycle_check_terminates",
    "Verif.Props.cycle_check_iff",
    "Verif.Props.cycle_reported_real",
    "Verif.Props.build_terminates",
    "Verif.Props.build_cycle_iff",
    "Verif.Props.subtree_cycle_iff",
    "Verif.Props.cycle_first_is_last_partial",
    "Verif.Props.cycle_report_has_lead"
   ],
   "note": "Refusal exactly for cycles and termination are proved for all requests. What is reported ends in a real cycle, but may have a lead to it (cycle_report_has_lead), so the documented 'first and last are the same' holds only without merges."
  },
  {
   "property": "C17",
   "status": "partial",
   "theorems": [
    "Verif.Props.verify_rewrite_set_iff",
    "Verif.Props.verify_rewrite_set_allows",
    "Verif.Props.illegal_move_no_plan",
    "Verif.Props.public_not_rewritten_partial",
    "Verif.Props.moves_never_rewrite_public",
    "Verif.Props.fixup_rewrites_public"
   ],
   "note": "Proved for everything which is moved. Commits into which others are squashed are not checked by the code (fixup_rewrites_public)."
  },
  {
   "property": "C18",
   "status": "partial",
   "theorems": [
    "Verif.Props.plan_each_once_partial",
    "Verif.Props.subtree_plan_each_once",
    "Verif.Props.linear_plan_each_once",
    "Verif.Props.pick_applies_squashed",
    "Verif.Props.pick_applies_in_order",
    "Verif.Props.merge_dropped",
    "Verif.Props.merge_on_old_parent",
    "Verif.Props.self_fixup_lost",
    "Verif.Props.fixup_into_root_panics"
   ],
   "note": "Proved for regular requests: all requests without merge commits, and subtree moves (with merges inside) of non-merge roots. False in general: merge_dropped, merge_on_old_parent, self_fixup_lost; squashing into a root commit panics."
  },
  {
   "property": "C19",
   "status": "proved",
   "theorems": [
    "Verif.Props.labels_defined",
    "Verif.Props.labels_distinct"
   ],
   "note": "For every plan which the builder returns."
  },
  {
   "property": "C52",
   "status": "partial",
   "theorems": [
    "Verif.Props.skipped_has_twin",
    "Verif.Props.skipped_has_twin_below",
    "Verif.Props.skipped_iff_twin_below_partial",
    "Verif.Props.skipped_iff_twin_subtrees",
    "Verif.Props.skipped_iff_twin_partial",
    "Verif.Props.twin_at_merge_base",
    "Verif.Props.twin_on_other_side"
   ],
   "note": "Soundness for all requests and with merges: the same change is upstream of the place where the root of this very commit goes. Exactness for all requests, for commits with no merge on the way down to their root (skipped_iff_twin_below_partial), in particular for any number of subtrees in a repository without merges (skipped_iff_twin_subtrees). Above a merge which is itself moved the claim is false: only what is upstream of one of the sides counts (twin_on_other_side). The merge base itself is compared too, so a change made again after being undone is dropped (twin_at_merge_base)."
  },
  {
   "property": "C20",
   "status": "partial",
   "theorems": [
    "Verif.Props.subtree_rebase_in_memory",
    "Verif.Props.in_memory_rebase_partial",
    "Verif.Props.squashed_recorded_with_target",
    "Verif.Props.fixup_target_on_dropped",
    "Verif.Props.fixup_target_on_old_base",
    "Verif.Props.empty_squash_not_recorded",
    "Verif.Props.replaced_on_old_parent"
   ],
   "note": "Full for requests which move subtrees (subtree_rebase_in_memory); for requests with fixups, if the plan goes back only to commits already rewritten. False in general: a fixup target can end on a dropped commit or on the old version of its parent (two witnesses); a squash that becomes empty leaves the squashed commits unrecorded."
  },
  {
   "property": "C53",
   "status": "proved",
   "theorems": [
    "Verif.Props.in_memory_stops_only_for_merges"
   ],
   "note": ""
  },
  {
   "property": "C21",
   "status": "proved",
   "theorems": [
    "Verif.Props.declined_changes_nothing",
    "Verif.Props.failed_in_memory_changes_nothing"
   ],
   "note": "New objects may have been written to the object store; references, HEAD, event log and git's rebase state are unchanged."
  },
  {
   "property": "C22",
   "status": "partial",
   "theorems": [
    "Verif.Props.branches_follow",
    "Verif.Props.report_truthful_partial",
    "Verif.Props.report_complete",
    "Verif.Props.report_missing",
    "Verif.Props.moves_succeed",
    "Verif.Props.finished_references",
    "Verif.Props.moves_not_reported",
    "Verif.Props.main_branch_deleted"
   ],
   "note": "The report is exact also when an update fails half-way, except that nothing is reported when the upstream of the main branch cannot be looked up (moves_not_reported)."
  },
  {
   "property": "C23",
   "status": "partial",
   "theorems": [
    "Verif.Props.head_on_branch",
    "Verif.Props.head_detached",
    "Verif.Props.head_unborn",
    "Verif.Props.head_lands",
    "Verif.Props.wrong_branch_checked_out"
   ],
   "note": "Proved for branches whose short name is not itself a full reference name (else wrong_branch_checked_out) and if no branch is named like an object id. git checkout is modelled by its documented behaviour."
  },
  {
   "property": "C24",
   "status": "partial",
   "theorems": [
    "Verif.Props.in_memory_only",
    "Verif.Props.on_disk_only",
    "Verif.Props.conflicts_only_if_requested",
    "Verif.Props.in_memory_if_possible",
    "Verif.Props.both_forced",
    "Verif.Props.on_disk_not_started_partial",
    "Verif.Props.on_disk_starts",
    "Verif.Props.staged_changes_ignored",
    "Verif.Props.on_disk_fixup_panics"
   ],
   "note": "Staged changes do not prevent an on-disk rebase (staged_changes_ignored); everything else is proved. Plans with squashes panic on disk after the state directory was created."
  },
  {
   "property": "C54",
   "status": "proved",
   "theorems": [
    "Verif.Props.rebase_recorded",
    "Verif.Props.failed_move_loses_rewrites"
   ],
   "note": "For names as git allows them. If a branch update fails, the rewrites are not recorded (failed_move_loses_rewrites)."
  },
  {
   "property": "C55",
   "status": "proved",
   "theorems": [
    "Verif.Props.todo_list_means_plan",
    "Verif.Props.replaced_not_applied"
   ],
   "note": "git's reading of the todo list is a small specification (Spec/Todo.lean). Plans with replaced commits, which no command makes on disk, are excluded: the written line replaces nothing (replaced_not_applied)."
  },
  {
   "property": "C33",
   "status": "partial",
   "theorems": [
    "Verif.Props.hydrate_given",
    "Verif.Props.hydrate_unchanged",
    "Verif.Props.hydrate_above",
    "Verif.Props.replacing_file_lost",
    "Verif.Props.file_removed_from_above"
   ],
   "note": "Exactly what is written, at every path, for entries in any order. False if a file is written and something below it removed (replacing_file_lost), or something below a file of the tree (file_removed_from_above): the file disappears."
  },
  {
   "property": "C34",
   "status": "proved",
   "theorems": [
    "Verif.Props.changed_paths_exact",
    "Verif.Props.changed_files_exact",
    "Verif.Props.touched_exact"
   ],
   "note": "Also says that directories with different modes are reported."
  },
  {
   "property": "C35",
   "status": "partial",
   "theorems": [
    "Verif.Props.cherry_pick_fast_partial",
    "Verif.Props.amend_from_index_partial",
    "Verif.Props.amend_from_working_copy_partial",
    "Verif.Props.amend_from_commit_partial",
    "Verif.Props.cherry_pick_loses_new_file",
    "Verif.Props.cherry_pick_misses_conflict",
    "Verif.Props.cherry_pick_loses_file_of_target",
    "Verif.Props.cherry_pick_loses_directory_of_target",
    "Verif.Props.amend_loses_file",
    "Verif.Props.fixup_keeps_deleted_file",
    "Verif.Props.amend_follows_links"
   ],
   "note": "Proved when no file and directory meet at a touched path, and for fixups which delete nothing, and amends without symbolic links; each of these conditions is needed (seven witnesses). libgit2's merge is modelled path by path, without detection of renames."
  },
  {
   "property": "C56",
   "status": "proved",
   "theorems": [
    "Verif.Props.lex_exact",
    "Verif.Props.parse_tokens_exact",
    "Verif.Props.parse_exact",
    "Verif.Props.grammar_unambiguous",
    "Verif.Props.tokens_unambiguous",
    "Verif.Props.display_parses",
    "Verif.Props.display_not_quoted"
   ],
   "note": "The parser generated by LALRPOP is modelled by a recursive-descent parser, proved to accept exactly the grammar; that LALRPOP's parser does so is trusted. Names which need quotes are printed without them (display_not_quoted)."
  },
  {
   "property": "C37",
   "status": "partial",
   "theorems": [
    "Verif.Props.literal_value_partial",
    "Verif.Props.literal_without_backslash",
    "Verif.Props.literal_with_backslash",
    "Verif.Props.writable_partial",
    "Verif.Props.escape_never_ends",
    "Verif.Props.escaped_backslash_does_not_end",
    "Verif.Props.not_every_string_writable"
   ],
   "note": "False: after the first escape all characters are read as escapes (escape_never_ends), an escaped backslash at the end may swallow the closing quote (escaped_backslash_does_not_end), and some strings cannot be written (not_every_string_writable). literal_value_partial says exactly which literals denote what they mean."
  },
  {
   "property": "C38",
   "status": "proved",
   "theorems": [
    "Verif.Props.eval_exact",
    "Verif.Props.value_unique",
    "Verif.Props.calls_return_visible",
    "Verif.Props.eval_stack_independent",
    "Verif.Props.eval_terminates",
    "Verif.Props.resolve_exact",
    "Verif.Props.smartlog_default_exact",
    "Verif.Props.recursive_alias_never_ends",
    "Verif.Props.alias_of_builtin_ignored"
   ],
   "note": "eval_exact gives the set for every function, pattern and alias (rules in Spec/Revset.lean). Evaluation ends if no alias uses itself; otherwise it need not (recursive_alias_never_ends). An alias named like a built-in function is silently ignored (alias_of_builtin_ignored). The matching of globs and regular expressions and the parsing of dates are parameters."
  },
  {
   "property": "C42",
   "status": "proved",
   "theorems": [
    "Verif.Props.hide_records",
    "Verif.Props.hide_status",
    "Verif.Props.hide_deletes_branches",
    "Verif.Props.hide_records_branches",
    "Verif.Props.hide_succeeds",
    "Verif.Props.hidden_disappear",
    "Verif.Props.unhide_records",
    "Verif.Props.unhide_status",
    "Verif.Props.hide_unhide",
    "Verif.Props.unhide_recursive_more",
    "Verif.Props.hide_deletes_main"
   ],
   "note": "For all graphs, logs, references and selections: exactly one hide per selected commit (with recursion the visible descendants), parents first, one transaction; exactly the branches there are deleted and recorded; statuses of all others stay; unhiding the same selection makes them active. Observations: with recursion, unhiding also unhides descendants which had been hidden before (unhide_recursive_more; the exact effect is in hide_unhide), and hiding the commit of the main branch deletes it (hide_deletes_main). The selection is the set of commits for which the arguments stand (C38)."
  },
  {
   "property": "C43",
   "status": "partial",
   "theorems": [
    "Verif.Props.repair_records",
    "Verif.Props.repair_dry_run",
    "Verif.Props.repair_effect",
    "Verif.Props.repair_complete",
    "Verif.Props.repair_again_partial",
    "Verif.Props.repair_repeats",
    "Verif.Props.repair_drops_existing_target",
    "Verif.Props.repair_keeps_missing_target"
   ],
   "note": "Proved: exactly the missing commits are hidden, nothing else changes status; after it no missing commit is active; dry run records nothing; a second run changes no status and no position. The code violates the rest: missing commits are hidden and reported again on each run (repair_repeats); branches are dropped when the reference is gone, not when the target is (repair_drops_existing_target), and a recorded position at a missing commit can stay (repair_keeps_missing_target)."
  },
  {
   "property": "C44",
   "status": "partial",
   "theorems": [
    "Verif.Props.restack_schedule_exact",
    "Verif.Props.restack_refused_iff",
    "Verif.Props.restack_in_memory_partial",
    "Verif.Props.restack_branches_exact",
    "Verif.Props.dropped_parent_never_settles",
    "Verif.Props.merge_child_stays",
    "Verif.Props.restack_settles_partial",
    "Verif.Props.restack_branches_settled",
    "Verif.Props.branches_not_limited"
   ],
   "note": "Proved: the requests made to the planner are exactly the abandoned children of the chosen commits, each onto the newest version of its parent; refused exactly if a public commit would be rewritten; without merge commits, a rebase in memory puts each abandoned child and its visible descendants there; branches end at the newest version of their commit. Violated: children of a dropped commit are rewritten onto the dropped commit itself, again and again (dropped_parent_never_settles); an abandoned merge commit is recreated on its old parents (merge_child_stays)."
  },
  {
   "property": "C45",
   "status": "proved",
   "theorems": [
    "Verif.Props.advance_exact",
    "Verif.Props.advance_terminates",
    "Verif.Props.traverse_lands",
    "Verif.Props.mem_candidateSet"
   ],
   "note": "For all graphs, logs, references, distances and preferences; the preference between several candidates by age is exact where the order of them makes sense (always unless commits of the same second or with clock skew are related, see C57). Rust's sort_by is used through its documented contract (SortContract). git checkout is modelled by its documented behaviour; no branch named like an object id or a full reference name."
  },
  {
   "property": "C57",
   "status": "partial",
   "theorems": [
    "Verif.Props.sorted_commit_set_sorted",
    "Verif.Props.orderly_of_older",
    "Verif.Props.orderly_of_chain",
    "Verif.Props.insertionSortBy_contract",
    "Verif.Props.same_second_cycle",
    "Verif.Props.sorted_child_before_parent"
   ],
   "note": "Each commit appears once; sorted if the order is transitive on the set, in particular if ancestors are older or if the set is a linear stack. False for commits of the same second (or with clock skew): the comparison goes in circles (same_second_cycle), and a child can come before its parent (sorted_child_before_parent)."
  },
  {
   "property": "C48",
   "status": "proved",
   "theorems": [
    "Verif.Props.never_shared",
    "Verif.Props.handle_has_resource",
    "Verif.Props.nothing_lost",
    "Verif.Props.created_at_peak",
    "Verif.Props.pool_progress",
    "Verif.Props.no_panic"
   ],
   "note": "For any number of threads and all interleavings of the steps of try_create and drop, with the mutex, errors and panics of the factory. Rust's ownership (a handle is dropped at most once) is part of the model."
  },
  {
   "property": "C46",
   "status": "partial",
   "theorems": [
    "Verif.Props.edited_text_exact",
    "Verif.Props.new_messages_arrive",
    "Verif.Props.new_message_arrives",
    "Verif.Props.unedited_text",
    "Verif.Props.given_messages",
    "Verif.Props.empty_message_accepted",
    "Verif.Props.own_marker_refused",
    "Verif.Props.words_before_marker_lost",
    "Verif.Props.plus_comment_refused"
   ],
   "note": "edited_text_exact: rewording succeeds exactly if the sections of the edited text name the selected commits, each once; each commit gets the (cleaned-up) text of its section, and no other one does; else what is reported is exact. new_messages_arrive and new_message_arrives: replacing the messages in the text for the editor gives each commit its new message. The short names are assumed to be distinct hexadecimal words. Not as claimed by the program's own words: an empty message for one of several commits is accepted (empty_message_accepted), words before a marker in its line are lost (words_before_marker_lost), a single commit whose message has the marker cannot be reworded (own_marker_refused), and the comment character + makes it impossible to reword several commits (plus_comment_refused). libgit2's clean-up of messages is modelled from its source."
  },
  {
   "property": "C50",
   "status": "proved",
   "theorems": [
    "Verif.Props.smartlog_graph_exact"
   ],
   "note": "For every commit graph, selection and order of the hash maps: building the graph does not panic; its commits are the selected ones and the merge bases; the parents, children (sorted by time), distant ancestors with the number of commits between, distant descendants and the number of omitted descendants of each node are exactly the true ones. Errors of reading commits are not modelled."
  },
  {
   "property": "C58",
   "status": "partial",
   "theorems": [
    "Verif.Props.smartlog_rendered",
    "Verif.Props.smartlog_once_partial",
    "Verif.Props.merge_not_rendered",
    "Verif.Props.merge_rendered_twice"
   ],
   "note": "smartlog_rendered, for all graphs: printing ends without a panic; the lines are true; a commit has a line iff it is reached from a root over first parents and distant ancestors, comes below one of them, and how often it is shown is given exactly; the roots are in order. smartlog_once_partial: without merge commits off the main branch, each commit has exactly one line. False with merge commits: a selected merge commit, even HEAD, can have no line at all (merge_not_rendered) or two lines (merge_rendered_twice)."
  },
  {
   "property": "C30",
   "status": "proved",
   "theorems": [
    "Verif.Props.snapshot_roundtrip",
    "Verif.Props.snapshot_has_markers",
    "Verif.Props.ordinary_commit",
    "Verif.Props.snapshot_by_message_alone"
   ],
   "note": "For all object ids, names of branches, status entries and working copies; commits may be added afterwards. libgit2's reader of trailers is modelled from its source. A commit is taken for a snapshot only if all five markers begin lines of its message; any other commit with the message of a snapshot is taken for one too (snapshot_by_message_alone). Assumed: no two commits of the repository have the same hash; names of references without spaces and control characters."
  },
  {
   "property": "C31",
   "status": "partial",
   "theorems": [
    "Verif.Props.restored_index_partial",
    "Verif.Props.index_restored_iff_partial",
    "Verif.Props.our_side_lost",
    "Verif.Props.deleted_by_them_lost",
    "Verif.Props.restored_index_unborn",
    "Verif.Props.head_restored",
    "Verif.Props.renamed_file_back",
    "Verif.Props.replaced_directory_lost",
    "Verif.Props.directory_in_index"
   ],
   "note": "restored_index_partial gives all entries of all stages after restoring, without renames and without changes between files and directories: paths not in conflict are restored exactly; index_restored_iff_partial says exactly when conflicts are. The code violates the rest: our side of a conflict is lost whenever it is the file of HEAD (our_side_lost), a conflict with a deletion on the other side disappears (deleted_by_them_lost), a staged rename brings the original path back (renamed_file_back), a file which replaces a directory is lost (replaced_directory_lost), a directory which replaces a file gives a command with the mode of a directory (directory_in_index). git's update-index is modelled from its source; git status is used through a contract."
  },
  {
   "property": "C32",
   "status": "partial",
   "theorems": [
    "Verif.Props.changes_type_partial",
    "Verif.Props.hasConflict_iff",
    "Verif.Props.record_action_partial",
    "Verif.Props.type_change_unnoticed"
   ],
   "note": "For all indexes and working copies which git status describes, without renames, links and changes between files and directories: the kind of changes says which of conflicts, staged and unstaged changes there are, and what record does follows it. A changed type (.T) is not a change for the snapshot (type_change_unnoticed). Hashes of the trees in question are assumed to be exact."
  },
  {
   "property": "C59",
   "status": "partial",
   "theorems": [
    "Verif.Props.working_copy_stored_partial",
    "Verif.Props.snapshot_created",
    "Verif.Props.unknown_change_not_stored",
    "Verif.Props.link_target_stored",
    "Verif.Props.original_path_mode"
   ],
   "note": "Without renames, symbolic links, kinds of changes which the program does not know, and changes between files and directories, every tracked file is stored exactly, and creating the snapshot succeeds. Violated: paths with an unknown kind of change keep the file of HEAD (unknown_change_not_stored), for a symbolic link the contents of its target are stored (link_target_stored), the original path of a rename gets the mode of the new one (original_path_mode)."
  },
  {
   "property": "C60",
   "status": "partial",
   "theorems": [
    "Verif.Props.stages_kept_alive",
    "Verif.Props.unstaged_not_kept_alive"
   ],
   "note": "The commits of the stages and HEAD are reachable from the base commit. The commit with the unstaged changes never is (unstaged_not_kept_alive, for all snapshots): it is named only in the message of the base commit, so git's garbage collection may remove it."
  },
  {
   "property": "C47",
   "status": "partial",
   "theorems": [
    "Verif.Props.submit_pushes",
    "Verif.Props.submit_leaves",
    "Verif.Props.submit_pushes_all_partial",
    "Verif.Props.submit_report",
    "Verif.Props.submit_effect",
    "Verif.Props.submit_succeeds",
    "Verif.Props.usual_submit",
    "Verif.Props.create_submit",
    "Verif.Props.shared_commit_ignored",
    "Verif.Props.deleted_upstream_fails",
    "Verif.Props.behind_branch_rewinds",
    "Verif.Props.other_name_replaced",
    "Verif.Props.fork_left_out_of_date",
    "Verif.Props.create_needs_remote",
    "Verif.Props.self_remote_reported"
   ],
   "note": "For all repositories, remotes and flags: which branches are pushed and where, what is reported, what changes at the remotes even after a failure, and when the command succeeds; nobody else changes the remotes meanwhile. Missing: branches which share their commit with another one are never pushed nor mentioned (shared_commit_ignored), and out of date is judged by the upstream branch, which need not be the branch to which it is pushed (fork_left_out_of_date, other_name_replaced). Also: a branch deleted at the remote makes the whole command fail (deleted_upstream_fails), and the lease does not protect commits of others, as it is fetched just before (behind_branch_rewinds)."
  },
  {
   "property": "C61",
   "status": "partial",
   "theorems": [
    "Verif.Props.base_exact",
    "Verif.Props.base_whole_branch",
    "Verif.Props.move_inputs_exact",
    "Verif.Props.move_sources_plan",
    "Verif.Props.move_sources_in_memory_partial",
    "Verif.Props.move_sources_command_partial",
    "Verif.Props.nested_sources_torn_apart",
    "Verif.Props.base_not_from_main"
   ],
   "note": "For all graphs, events, arguments without --exact, --fixup and --insert: which commits and which destination the arguments mean, exactly when the planner refuses, and where every commit is put when the rebase succeeds in memory, for the whole command. Missing: merge commits among those put directly on the destination. The help text is not followed in two cases: a source which is a descendant of another one, but not its child, is put on the destination and not on its parent (nested_sources_torn_apart), and the branch of a base starts where the destination branched off, not at the main branch (base_not_from_main)."
  },
  {
   "property": "C62",
   "status": "partial",
   "theorems": [
    "Verif.Props.move_exact_in_memory_partial",
    "Verif.Props.exact_selection_ok_iff",
    "Verif.Props.move_exact_plan_partial",
    "Verif.Props.move_exact_command_partial",
    "Verif.Props.same_second_refused",
    "Verif.Props.hidden_selected_left"
   ],
   "note": "For all graphs, events and selections without --fixup and --insert: which selections are accepted, when the planner refuses, and where every commit is put when the rebase succeeds in memory, for the whole command. Missing: merge commits among those selected or directly above them, and the dates have to be in the order of the commits, for commits on one line are refused if they were made in the same second (same_second_refused). A hidden commit which is selected together with its parent is not moved (hidden_selected_left)."
  },
  {
   "property": "C63",
   "status": "partial",
   "theorems": [
    "Verif.Props.move_insert_plan_partial",
    "Verif.Props.move_insert_in_memory_partial",
    "Verif.Props.move_insert_command_partial",
    "Verif.Props.move_exact_insert_plan_partial",
    "Verif.Props.move_exact_insert_in_memory_partial",
    "Verif.Props.move_exact_insert_command_partial",
    "Verif.Props.insert_on_hidden",
    "Verif.Props.insert_hidden_heads",
    "Verif.Props.insert_misses_new_child"
   ],
   "note": "For all graphs, events, sources or selections: when it is refused, and where every commit is put when the rebase succeeds in memory, for the whole command. Missing: merge commits. Violated: hidden descendants of a source count as heads, so inserting is refused (insert_hidden_heads), or the children of the destination are put on a hidden commit which stays where it is (insert_on_hidden); what was on top of a selected child of the destination ends up on the destination, not on what is inserted (insert_misses_new_child)."
  },
  {
   "property": "C64",
   "status": "partial",
   "theorems": [
    "Verif.Props.hooks_after",
    "Verif.Props.multi_hooks_after",
    "Verif.Props.hooks_call",
    "Verif.Props.hook_updated",
    "Verif.Props.own_lines_kept",
    "Verif.Props.uninstalled_comments",
    "Verif.Props.unreadable_hook",
    "Verif.Props.unterminated_section_lost",
    "Verif.Props.changed_marker_doubles",
    "Verif.Props.carriage_returns_lost",
    "Verif.Props.uninstall_creates_hooks"
   ],
   "note": "For all hooks with at most one section between marker lines and Unix line endings (with or without a final newline), and all sequences of commands; also for repositories with hooks_multi (multi_hooks_after). For other hooks the lines outside of sections are kept (own_lines_kept). Violated otherwise: without the second marker line the rest of the file is lost (unterminated_section_lost), Windows line endings are lost (carriage_returns_lost), a changed marker line leads to a second section (changed_marker_doubles), and uninstalling creates hooks which were not there (uninstall_creates_hooks). Errors of the file system are not modelled, apart from files which are not UTF-8."
  },
  {
   "property": "C65",
   "status": "partial",
   "theorems": [
    "Verif.Props.reword_command",
    "Verif.Props.reword_public_exact",
    "Verif.Props.reword_refused_unchanged",
    "Verif.Props.reword_no_conflicts",
    "Verif.Props.reword_below_merge",
    "Verif.Props.reword_root_fails",
    "Verif.Props.reword_fixup_exact",
    "Verif.Props.reword_below_merge_fails",
    "Verif.Props.reword_drops_empty"
   ],
   "note": "For all graphs, events, selections and messages, for the whole command: what becomes of each commit, when the planner refuses, and that there are no conflicts if no merge commit which is not selected is above. Assumed: a cherry-pick onto a commit with the same files as the parent gives the files of the original (CleanPicks). Violated: below a merge commit which is not selected nothing can be reworded, it always ends with the message that this is a bug (reword_below_merge, for all repositories; reword_below_merge_fails); commits without changes above are dropped (reword_drops_empty); a commit without parents makes it panic (reword_root_fails, for all repositories)."
  },
  {
   "property": "C66",
   "status": "partial",
   "theorems": [
    "Verif.Props.amend_command_partial",
    "Verif.Props.amend_head_partial",
    "Verif.Props.amend_refused_exact",
    "Verif.Props.amend_reparent_no_conflicts",
    "Verif.Props.amend_nothing",
    "Verif.Props.amend_source",
    "Verif.Props.amend_leaf",
    "Verif.Props.amend_head_succeeds",
    "Verif.Props.amend_tag_of_this_name",
    "Verif.Props.amend_file_of_this_name",
    "Verif.Props.reparent_merge_left"
   ],
   "note": "For all graphs, events, references and changes, for the whole command: what becomes of the commit, its branches, HEAD and the commits above; when it is refused; that --reparent has no conflicts. Violated: git reads the name of the branch otherwise if there is a tag of this name, and the branch is then moved to the commit of the tag (amend_tag_of_this_name); with a file of this name the command fails half way (amend_file_of_this_name); --reparent leaves a merge commit directly above on the original commit (reparent_merge_left)."
  },
  {
   "property": "C67",
   "status": "proved",
   "theorems": [
    "Verif.Props.sync_stacks_in_memory",
    "Verif.Props.sync_command_in_memory",
    "Verif.Props.sync_roots_exact",
    "Verif.Props.sync_roots_cover",
    "Verif.Props.merge_root_not_moved"
   ],
   "note": "For all graphs, events, references and arguments, for the whole command without --pull when rebases are made in memory (what happens to a stack afterwards is by C22-C24). Rebases on disk are carried out by git and not covered; there, a stack whose first commit is a merge commit is reported as synced although the plan makes it again on its old parents (merge_root_not_moved)."
  },
  {
   "property": "C68",
   "status": "partial",
   "theorems": [
    "Verif.Props.sync_main_fast_forward",
    "Verif.Props.sync_main_no_upstream",
    "Verif.Props.sync_main_diverged_partial",
    "Verif.Props.sync_pull_stops",
    "Verif.Props.fast_forward_not_recorded",
    "Verif.Props.main_ahead_rewritten",
    "Verif.Props.main_with_merge_not_synced"
   ],
   "note": "For all graphs, events and branches: what happens in each case, when rebases are made in memory; `git fetch` and `git rebase` are arbitrary. Violated: the fast-forward is not recorded in the event log (fast_forward_not_recorded), local commits which are on top of the upstream commit already are rewritten (main_ahead_rewritten), and if there are several first local commits nothing is done, with exit code 0 (main_with_merge_not_synced)."
  },
  {
   "property": "C69",
   "status": "partial",
   "theorems": [
    "Verif.Props.record_follows_options_partial",
    "Verif.Props.record_without_commit",
    "Verif.Props.record_no_changes",
    "Verif.Props.commit_recorded",
    "Verif.Props.stash_detached_stays",
    "Verif.Props.detach_first_commit",
    "Verif.Props.refused_branch_stays",
    "Verif.Props.merge_commit_stays_on_branch"
   ],
   "note": "For all references, event logs, kinds of changes and options, for the whole command. Violated: with --stash and a detached HEAD, the new commit stays checked out (stash_detached_stays); with --detach, the first commit of a repository is lost from HEAD, which is on a branch that does not exist any more (detach_first_commit); with --create, the branch stays if staged changes are refused (refused_branch_stays). with --detach or --stash while a merge is in progress on a branch, the command ends with an error after the merge commit is made, and the branch is at the merge commit and stays checked out (merge_commit_stays_on_branch)."
  },
  {
   "property": "C70",
   "status": "partial",
   "theorems": [
    "Verif.Props.insert_before_siblings",
    "Verif.Props.record_insert_partial",
    "Verif.Props.record_insert_merge",
    "Verif.Props.stash_insert_moves_siblings",
    "Verif.Props.merge_insert_moves_merged_children"
   ],
   "note": "For all graphs, events and references, for the whole command without --stash: each possible end, when it happens, and what becomes of every commit; for merge commits record_insert_merge, with the siblings in the graph after the commit. Violated: while a merge is in progress, what is above the merged commit is moved too (merge_insert_moves_merged_children); --stash --insert moves the siblings of the commit which was checked out on top of that one, and not the commits above onto the new commit (stash_insert_moves_siblings)."
  },
  {
   "property": "C71",
   "status": "partial",
   "theorems": [
    "Verif.Props.tested_once",
    "Verif.Props.run_is_finite",
    "Verif.Props.never_stuck",
    "Verif.Props.run_completes",
    "Verif.Props.errors_explained",
    "Verif.Props.undisturbed_ok",
    "Verif.Props.reported_ran",
    "Verif.Props.aborted_iff",
    "Verif.Props.all_tested",
    "Verif.Props.report_determined",
    "Verif.Props.exit_code_iff",
    "Verif.Props.search_finds_boundary",
    "Verif.Props.search_graph",
    "Verif.Props.panic_hangs"
   ],
   "note": "For all interleavings, numbers of threads, commits, graphs and results. Violated: if one of several threads panics in the middle of a test, the command hangs (panic_hangs), which is why run_completes is for executions without such a panic. What the command does, and how the result of one commit is made from it, is arbitrary here."
  },
  {
   "property": "C72",
   "status": "partial",
   "theorems": [
    "Verif.Props.cache_sound",
    "Verif.Props.cache_same_command_partial",
    "Verif.Props.cache_wrong_command",
    "Verif.Props.cache_used",
    "Verif.Props.cache_exclusive",
    "Verif.Props.cache_in_progress",
    "Verif.Props.cache_started_iff",
    "Verif.Props.cache_cleaned",
    "Verif.Props.garbled_forever",
    "Verif.Props.results_lost_iff",
    "Verif.Props.results_read",
    "Verif.Props.tests_revsets_partial",
    "Verif.Props.tests_passed_lost",
    "Verif.Props.cache_cleaned_while_running"
   ],
   "note": "For all sequences of operations. Violated: commands which differ only in '/', ' ' and line ends (or in these and '__') share their results (cache_wrong_command); all results of a tree are ignored by tests.passed() and so on if one of its tests was started and did not end, as by git test show for another command (results_lost_iff, tests_passed_lost); a result which was cut off is never replaced (garbled_forever); a test which is being run is skipped elsewhere (cache_in_progress), so git test with several jobs fails for two commits with the same tree. Removing the results while a test is run makes a second one possible (cache_cleaned_while_running)."
  },
  {
   "property": "C73",
   "status": "partial",
   "theorems": [
    "Verif.Props.test_fix",
    "Verif.Props.test_fix_done",
    "Verif.Props.fixed_nothing_dropped",
    "Verif.Props.test_fix_no_conflicts",
    "Verif.Props.test_fix_public_exact",
    "Verif.Props.test_fix_unchanged",
    "Verif.Props.test_fix_root_fails",
    "Verif.Props.test_fix_drops"
   ],
   "note": "For all graphs, logs and results of the tests; complete description of how the command ends. Violated: a commit with the same patch as the commit directly below the rewritten ones is dropped, and its branch is deleted, unless --no-deduplicate-commits is given (test_fix_drops; the code says that this should not happen); without the detection nothing is dropped (fixed_nothing_dropped). If a commit without parents is to be fixed the command ends with an error (test_fix_root_fails)."
  },
  {
   "property": "C74",
   "status": "partial",
   "theorems": [
    "Verif.Props.pr_text",
    "Verif.Props.pr_base_nearest_partial",
    "Verif.Props.pr_base_farthest",
    "Verif.Props.pr_base_below",
    "Verif.Props.pr_base_not_nearest",
    "Verif.Props.main_branch_of_remote"
   ],
   "note": "For all graphs, branches and pull requests. Violated: sets of commits are listed with children first (as dag.rs says of them), and the code turns this order round before looking for the nearest pull request, so that it takes the farthest one (pr_base_farthest, pr_base_not_nearest); with parents first it would be the nearest (pr_base_nearest_partial). If the main branch is configured as origin/main then this is taken as the name of a branch on GitHub, and editing fails (main_branch_of_remote)."
  },
  {
   "property": "C75",
   "status": "partial",
   "theorems": [
    "Verif.Props.pr_status",
    "Verif.Props.pr_status_only",
    "Verif.Props.pr_status_exclusive",
    "Verif.Props.second_pr"
   ],
   "note": "For all repositories in which upstream branches have the same names as the branches. Violated: if there are several branches at a commit then only the last one counts, so that a commit with a pull request is said not to be submitted, and --create makes a second one (second_pr)."
  },
  {
   "property": "C76",
   "status": "partial",
   "theorems": [
    "Verif.Props.submit_updates_prs",
    "Verif.Props.submit_update_commands",
    "Verif.Props.submit_update_report",
    "Verif.Props.submit_prs_again",
    "Verif.Props.submit_prs_dry_run",
    "Verif.Props.submit_success_pushed",
    "Verif.Props.swapped_branches_close"
   ],
   "note": "For all graphs, sets of commits and pull requests, if no new commit is on the old base of its pull request and no base gets the commits of a pull request before this is updated (Undisturbed). Without this a pull request is closed, for instance if two branches change places (swapped_branches_close)."
  },
  {
   "property": "C77",
   "status": "partial",
   "theorems": [
    "Verif.Props.submit_creates_prs",
    "Verif.Props.create_leaves_stale",
    "Verif.Props.summary_slug",
    "Verif.Props.new_branch_name",
    "Verif.Props.new_branch_fails"
   ],
   "note": "For all graphs, branches, pull requests and messages, if the command succeeds. Violated: pull requests which were as they should be before are skipped though the new ones change the number and the list of pull requests in their stack (create_leaves_stale)."
  },
  {
   "property": "C78",
   "status": "partial",
   "theorems": [
    "Verif.Props.file_offered",
    "Verif.Props.files_offered",
    "Verif.Props.record_stages",
    "Verif.Props.record_nothing",
    "Verif.Props.record_everything_partial",
    "Verif.Props.binary_mode_lost",
    "Verif.Props.new_binary_not_staged",
    "Verif.Props.binary_mode_not_staged",
    "Verif.Props.new_file_without_mode_not_staged",
    "Verif.Props.other_encoding_panics",
    "Verif.Props.other_encoding_offered",
    "Verif.Props.record_confirmed"
   ],
   "note": "For all trees, comparisons and choices, given the contracts of libgit2's diff and of scm-record (ComparesTrees, Faithful); files of which no line is left are excluded, since the contract says nothing about them. Violated: binary files do not get their modes, so a new binary file is not committed (binary_mode_lost, new_binary_not_staged); a file which was not UTF-8 makes the command panic (other_encoding_panics)."
  },
  {
   "property": "C79",
   "status": "partial",
   "theorems": [
    "Verif.Props.report_hides",
    "Verif.Props.report_hides_head",
    "Verif.Props.report_names",
    "Verif.Props.shown_names_apart",
    "Verif.Props.shown_names_clash",
    "Verif.Props.redacted_summary",
    "Verif.Props.graph_of_now"
   ],
   "note": "For all repositories: the names and messages are hidden, and the names in a report are told apart unless the main branch has a name like a redacted one (shown_names_clash). Violated: the branch which is checked out is not marked unless it is the main branch (report_hides_head); the graphs of all sections are about the present (graph_of_now). The messages of transactions are shown as they are; they are names of commands. Debug for events is a parameter."
  },
  {
   "property": "C80",
   "status": "partial",
   "theorems": [
    "Verif.Props.smartlog_readable",
    "Verif.Props.branches_readable",
    "Verif.Props.branch_imitated",
    "Verif.Props.relative_time",
    "Verif.Props.future_time",
    "Verif.Props.smartlog_shown_iff",
    "Verif.Props.old_commit_fails",
    "Verif.Props.revision_of_line",
    "Verif.Props.revision_exact",
    "Verif.Props.obsolescence_explained",
    "Verif.Props.dropped_described",
    "Verif.Props.abandoned_exact",
    "Verif.Props.smartlog_at_event",
    "Verif.Props.earlier_explained"
   ],
   "note": "For all repositories and both sets of symbols, without colours; short hashes must differ, and names of references have no spaces. Violated: with --event-id the explanations of obsolete commits are those of the present (earlier_explained); a commit from before 1970 makes the command fail (smartlog_shown_iff, old_commit_fails); a dropped commit is said to be rewritten as 00000000 (dropped_described)."
  },
  {
   "property": "C81",
   "status": "partial",
   "theorems": [
    "Verif.Props.on_disk_same",
    "Verif.Props.subtree_on_disk_same_partial",
    "Verif.Props.on_disk_head_detached",
    "Verif.Props.on_disk_other_committer",
    "Verif.Props.on_disk_failure_unnoticed"
   ],
   "note": "For all repositories and plans for moving subtrees without merge commits or squashed commits, given how git works on a todo list (Model/OnDisk) and that its cherry-picks give the same trees as those in memory (GitPicks). The hook at the end succeeds if references can be written and the working copy has no changes in the way (FinishWorks). Violated: where HEAD is attached (on_disk_head_detached), the committer (on_disk_other_committer); failures of the hook are not noticed (on_disk_failure_unnoticed)."
  },
  {
   "property": "C82",
   "status": "proved",
   "theorems": [
    "Verif.Props.phab_status_exact",
    "Verif.Props.phab_status_known",
    "Verif.Props.phab_one_up_to_date"
   ],
   "note": "For all commits, messages and revisions of Phabricator."
  },
  {
   "property": "C83",
   "status": "partial",
   "theorems": [
    "Verif.Props.dependencies_others",
    "Verif.Props.dependencies_exact",
    "Verif.Props.stack_dependencies_exact",
    "Verif.Props.dependencies_known",
    "Verif.Props.refused_dependency_unnoticed",
    "Verif.Props.part_of_stack_makes_cycle"
   ],
   "note": "For all graphs and former dependencies if the whole stack is submitted, commits come after their parents, and Phabricator refuses only cycles. Violated: a refused change is not noticed (refused_dependency_unnoticed); if only a part of a rearranged stack is submitted, there is a cycle or a refusal (part_of_stack_makes_cycle)."
  },
  {
   "property": "C84",
   "status": "partial",
   "theorems": [
    "Verif.Props.create_plan_exists",
    "Verif.Props.phab_create_exact",
    "Verif.Props.phab_create_dependencies_partial",
    "Verif.Props.phab_create_all_or_none",
    "Verif.Props.phab_create_no_conflicts",
    "Verif.Props.phab_update_exact",
    "Verif.Props.phab_update_failures_exact",
    "Verif.Props.phab_dry_run",
    "Verif.Props.phab_submit_exact",
    "Verif.Props.created_below_submitted_loses_dependency",
    "Verif.Props.created_above_submitted_loses_dependency",
    "Verif.Props.unsubmitted_not_reported"
   ],
   "note": "For all graphs, sets of commits and results of arc (which changes nothing but the message, ArcAmends). Conflicts are excluded if no merge commit is among the descendants. Violated: the dependencies, if a commit with a revision is above or below a new one (created_below_submitted_loses_dependency, created_above_submitted_loses_dependency); which commits are in the report (unsubmitted_not_reported)."
  },
  {
   "property": "C85",
   "status": "partial",
   "theorems": [
    "Verif.Props.test_options_exact",
    "Verif.Props.test_options_accepted_iff",
    "Verif.Props.interactive_single",
    "Verif.Props.several_jobs_worktree_partial",
    "Verif.Props.configured_jobs_in_working_copy",
    "Verif.Props.abbreviated_lines",
    "Verif.Props.shell_escape_read",
    "Verif.Props.shell_escape_partial",
    "Verif.Props.shell_escape_backslash"
   ],
   "note": "For all options and configurations. Violated: jobs which are configured are all run in the working copy if no strategy is (configured_jobs_in_working_copy); a backslash, a dollar sign or a backtick is read otherwise by the shell (shell_escape_read says how, shell_escape_backslash)."
  },
  {
   "property": "C86",
   "status": "partial",
   "theorems": [
    "Verif.Props.one_test_per_directory",
    "Verif.Props.test_sees_commit",
    "Verif.Props.test_undisturbed",
    "Verif.Props.test_directory_exact",
    "Verif.Props.test_of_job",
    "Verif.Props.lock_available",
    "Verif.Props.locks_available_partial",
    "Verif.Props.jobs_fail_in_working_copy",
    "Verif.Props.leftovers_seen"
   ],
   "note": "For all interleavings. Files which are not tracked may be there from earlier tests (leftovers_seen). Violated: several jobs which are configured disturb each other in the working copy, in that they are reported as failures (jobs_fail_in_working_copy)."
  },
  {
   "property": "C87",
   "status": "partial",
   "theorems": [
    "Verif.Props.set_trap_cases",
    "Verif.Props.trap_aborted",
    "Verif.Props.tests_leave_no_trace_partial",
    "Verif.Props.tests_refused",
    "Verif.Props.tests_run",
    "Verif.Props.tests_in_worktrees",
    "Verif.Props.staged_changes_trapped",
    "Verif.Props.interrupted_tests_aborted",
    "Verif.Props.lost_rebase_noticed"
   ],
   "note": "For all repositories and effects of tests on tracked files and the index. Violated if changes are staged: the tests are not run, but HEAD is detached and a rebase is left in progress (staged_changes_trapped)."
  },
  {
   "property": "C88",
   "status": "partial",
   "theorems": [
    "Verif.Props.warning_exact",
    "Verif.Props.warning_iff",
    "Verif.Props.warned_restacked",
    "Verif.Props.dropped_warned_in_vain"
   ],
   "note": "For all graphs, logs, references and rewritten commits. Violated: the children of a dropped commit are warned about, but the recommended restack leaves them (dropped_warned_in_vain)."
  },
  {
   "property": "C89",
   "status": "partial",
   "theorems": [
    "Verif.Props.called_by_name",
    "Verif.Props.called_directly",
    "Verif.Props.called_either_way_partial",
    "Verif.Props.hook_by_name_unknown",
    "Verif.Props.arguments_kept"
   ],
   "note": "For all directories, names and arguments. Violated: the older names of hooks are replaced only after `git-branchless` as a word of its own, unlike what the comment says (hook_by_name_unknown)."
  },
  {
   "property": "C90",
   "status": "proved",
   "theorems": [
    "Verif.Props.disjoint_move_command",
    "Verif.Props.moved_files_merged",
    "Verif.Props.clean_picks_from_trees"
   ],
   "note": "For all repositories, graphs, subtrees and trees. The cherry-picks of the execution are those of the model of trees (FromTrees). Also shows that what C65, C73 and C84 suppose about cherry-picks (CleanPicks) follows from the model of trees."
  },
  {
   "property": "C91",
   "status": "proved",
   "theorems": [
    "Verif.Props.switch_command",
    "Verif.Props.switch_lands",
    "Verif.Props.switch_fails",
    "Verif.Props.switch_refuses",
    "Verif.Props.switch_onto_branch",
    "Verif.Props.switch_named_detaches",
    "Verif.Props.switch_selected_head_detaches",
    "Verif.Props.nowhere_to_go_detaches",
    "Verif.Props.switch_does_not_ask",
    "Verif.Props.switch_counts_ancestor"
   ],
   "note": "For all repositories and options. Names are supposed to be clear to git (NamesClear). Snapshots and the smartlog after the check-out are not modelled. Findings: commits named by object id or revset are checked out detached even with automatic switching and one branch; selecting HEAD, and next or prev --all with nowhere to go, leave the branch; nothing is asked without a target, unlike the help says; an ancestor which is no parent counts as a second head."
  },
  {
   "property": "C92",
   "status": "partial",
   "theorems": [
    "Verif.Props.init_isolated",
    "Verif.Props.init_fresh",
    "Verif.Props.init_user_overrides",
    "Verif.Props.own_entries_kept",
    "Verif.Props.uninstall_restores",
    "Verif.Props.init_again",
    "Verif.Props.main_branch_chosen",
    "Verif.Props.main_branch_missing",
    "Verif.Props.init_succeeds",
    "Verif.Props.init_fails",
    "Verif.Props.git_version_found",
    "Verif.Props.old_git_warned",
    "Verif.Props.repository_alias_replaced",
    "Verif.Props.user_include_lost"
   ],
   "note": "For all configuration files. Where it does not hold, with a witness: an alias in the configuration file of the repository is replaced, unlike one in the user's configuration; a file under .git/branchless which the user includes is not included any more. How libgit2 changes files, and that the last entry of a key counts, is trusted. Man pages (a feature which is off by default) and `config.worktree` are not modelled."
  },
  {
   "property": "C93",
   "status": "partial",
   "theorems": [
    "Verif.Props.selection_sound",
    "Verif.Props.selection_total",
    "Verif.Props.selection_complete",
    "Verif.Props.selection_left",
    "Verif.Props.selection_boundary",
    "Verif.Props.selection_steps",
    "Verif.Props.cursorAfter_unique",
    "Verif.Props.keys_ignore_case",
    "Verif.Props.undo_done",
    "Verif.Props.undo_done_log",
    "Verif.Props.undo_ends",
    "Verif.Props.undo_count",
    "Verif.Props.undo_succeeds",
    "Verif.Props.undo_command",
    "Verif.Props.undo_command_ends",
    "Verif.Props.cursor_not_interactive",
    "Verif.Props.undo_without_main_fails",
    "Verif.Props.undo_refs_untraced",
    "Verif.Props.undo_snapshot_forgets_branch",
    "Verif.Props.undo_cannot_be_undone",
    "Verif.Props.goTo_splits_transaction"
   ],
   "note": "For all logs and repositories whose references changed as the log tells. Where HEAD cannot be brought back, theorems say so: back to a state without the main branch it fails after the references were changed; the snapshot which undo takes forgets the branch; undoing again does not redo; `g` can choose a position in the middle of a transaction. Going back to a branch which had no commit is covered for HEAD and references, but not that it succeeds. Git itself, its hooks and the content of files are outside; drawing is not modelled."
  },
  {
   "property": "C94",
   "status": "partial",
   "theorems": [
    "Verif.Props.snapshot_create_discards",
    "Verif.Props.snapshot_create_error",
    "Verif.Props.snapshot_create_succeeds",
    "Verif.Props.snapshot_restore_brings_back_partial",
    "Verif.Props.snapshot_there_and_back_partial",
    "Verif.Props.ordinary_commit_not_restored",
    "Verif.Props.conflict_file_lost",
    "Verif.Props.file_in_the_way_lost",
    "Verif.Props.merge_forgotten",
    "Verif.Props.blocked_restore_discards",
    "Verif.Props.unborn_create_fails"
   ],
   "note": "For all states without symbolic links, renames, and changes between files and directories among the tracked paths. What is not brought back is proved to be lost: the contents of files in conflict, untracked files in a directory in place of a tracked file, an unfinished merge. Before the first commit creating fails after the snapshot was made. Restoring which is blocked by an untracked file has already discarded the changes of the tracked files. Git itself (reset, checkout, update-index, update-ref, symbolic-ref) is modelled from its documentation; events which its hooks add are not modelled here."
  },
  {
   "property": "C95",
   "status": "proved",
   "theorems": [
    "Verif.Props.run_never_hangs",
    "Verif.Props.hangs_iff",
    "Verif.Props.small_input_never_hangs",
    "Verif.Props.readsFirst_never_hangs",
    "Verif.Props.endless_only_by_program",
    "Verif.Props.run_exited",
    "Verif.Props.run_reported",
    "Verif.Props.run_panicked",
    "Verif.Props.run_brokenPipe",
    "Verif.Props.readsAll_no_brokenPipe",
    "Verif.Props.wellBehaved_run",
    "Verif.Props.chatty_hook_hangs",
    "Verif.Props.idle_hook_race",
    "Verif.Props.daemon_hook_waits",
    "Verif.Props.latin_hook_panics"
   ],
   "note": "For all programs, inputs, capacities and interleavings. The program and the processes it starts are one process with one state; each step moves a byte; failures of the operating system (no memory, no such file) are not modelled. The witnesses show that each exception really happens."
  },
  {
   "property": "C96",
   "status": "proved",
   "theorems": [
    "Verif.Props.family_one_transaction",
    "Verif.Props.member_one_transaction",
    "Verif.Props.suppressed_family",
    "Verif.Props.transaction_of_one_command",
    "Verif.Props.event_has_message",
    "Verif.Props.undo_one_command",
    "Verif.Props.interleaved_commands_split",
    "Verif.Props.other_repository_merged",
    "Verif.Props.other_repository_no_message",
    "Verif.Props.shell_below_merges",
    "Verif.Props.interactive_test_unrecorded"
   ],
   "note": "For all trees of processes and interleavings. Other programs (git, shells, hooks) are taken to hand on their environment. The conditions are needed: concurrent commands split each other's transactions, and in another repository the id means another transaction (witnesses). A shell below a wrapped command joins all its commands, and one in an interactive test records nothing."
  },
  {
   "property": "C97",
   "status": "partial",
   "theorems": [
    "Verif.Props.query_raw_partial",
    "Verif.Props.query_described_partial",
    "Verif.Props.query_described_missing",
    "Verif.Props.query_branches",
    "Verif.Props.query_done",
    "Verif.Props.query_unresolved",
    "Verif.Props.query_unresolved_only",
    "Verif.Props.query_call_visible",
    "Verif.Props.query_hidden_unknown_fails",
    "Verif.Props.hidden_query_fails_once",
    "Verif.Props.named_invisible_lost"
   ],
   "note": "For all queries and repositories. Missing: with --hidden, commits which the query names and which were not known before make the command fail, the first time (finding, proved with a witness and in general); and a commit which does not exist any more ends the output with an error. Whenever the command succeeds, the output is right. That the graph reports an unknown commit when sorting is taken from the library."
  },
  {
   "property": "C98",
   "status": "partial",
   "theorems": [
    "Verif.Props.edit_saved",
    "Verif.Props.edit_failed",
    "Verif.Props.edit_noop",
    "Verif.Props.edit_order",
    "Verif.Props.session_unchanged",
    "Verif.Props.session_new_message",
    "Verif.Props.session_new_messages",
    "Verif.Props.session_editor_failed",
    "Verif.Props.record_edit_saved",
    "Verif.Props.template_read_partial",
    "Verif.Props.exit_code_ignored",
    "Verif.Props.setting_strips_lines",
    "Verif.Props.empty_comment_char",
    "Verif.Props.blank_editor_panics",
    "Verif.Props.editor_not_expanded",
    "Verif.Props.home_template_lost",
    "Verif.Props.auto_loses_line",
    "Verif.Props.abandoned_edit_applied"
   ],
   "note": "For all editors, command lines of plain and quoted words, settings, messages and commits. Missing, with proofs that the code differs: an editor which fails is not noticed; core.commentChar=auto is taken for the character a; an empty comment character or a blank editor is a panic; variables and ~ in the editor are not expanded; a template below ~ is not found."
  },
  {
   "property": "C99",
   "status": "partial",
   "theorems": [
    "Verif.Props.main_data",
    "Verif.Props.worktree_data_partial",
    "Verif.Props.same_database_partial",
    "Verif.Props.worktree_data_right_iff",
    "Verif.Props.bare_worktree_fails",
    "Verif.Props.worktree_uses_other_repo",
    "Verif.Props.submodule_worktree_uses_other",
    "Verif.Props.worktree_working_directory",
    "Verif.Props.main_working_directory",
    "Verif.Props.file_called_gitdir",
    "Verif.Props.hooks_dir_partial",
    "Verif.Props.relative_hooks_misplaced",
    "Verif.Props.main_packed_refs",
    "Verif.Props.worktree_packed_refs_wrong",
    "Verif.Props.main_packing_no_change",
    "Verif.Props.worktree_packing_is_deletion",
    "Verif.Props.bare_worktree_no_data",
    "Verif.Props.submodule_worktree_uses_superproject"
   ],
   "note": "For all worktrees of repositories whose directory of git is .git in the working copy. Missing, with proofs that the code differs: worktrees of bare repositories fail, those of repositories inside another one use the data of the other one; a file called gitdir; a relative core.hooksPath; packed references in a worktree."
  },
  {
   "property": "C100",
   "status": "partial",
   "theorems": [
    "Verif.Props.shown_time",
    "Verif.Props.sinceCleared_total",
    "Verif.Props.running_has_meter",
    "Verif.Props.quiet_no_meters",
    "Verif.Props.running_symbol",
    "Verif.Props.message_shown",
    "Verif.Props.message_unknown",
    "Verif.Props.written_in_order",
    "Verif.Props.whole_lines_arrive_partial",
    "Verif.Props.no_meters_arrive",
    "Verif.Props.right_stream_partial",
    "Verif.Props.suppressed",
    "Verif.Props.unfinished_line_lost",
    "Verif.Props.output_goes_to_stderr",
    "Verif.Props.restarted_keeps_icon",
    "Verif.Props.warning_shown_as_failure"
   ],
   "note": "For all sequences of events and writes. Missing, with proofs that the code differs: while meters are shown, a text without the end of its line is lost and output for stdout goes to stderr; an operation which is started again keeps its old icon; a warning has the icon of a failure."
  },
  {
   "property": "C101",
   "status": "partial",
   "theorems": [
    "Verif.Props.create_request",
    "Verif.Props.created_url",
    "Verif.Props.edit_request",
    "Verif.Props.known_prs",
    "Verif.Props.all_prs_known_partial",
    "Verif.Props.few_prs_status_partial",
    "Verif.Props.old_pr_unknown",
    "Verif.Props.duplicate_refused",
    "Verif.Props.old_pr_created_again",
    "Verif.Props.forge_used",
    "Verif.Props.push_remote_first"
   ],
   "note": "For all pull requests, titles, texts and names. Missing, with a proof that the code differs: with more than 30 open pull requests only the 30 latest are known (known_prs says exactly which); the commit of an older one is said not to be submitted, and submit --create fails (old_pr_unknown, old_pr_created_again). The program gh is modelled as far as it is used; its JSON is not."
  },
  {
   "property": "C102",
   "status": "partial",
   "theorems": [
    "Verif.Props.seen_as_styled",
    "Verif.Props.plain_is_text",
    "Verif.Props.render_fails_iff",
    "Verif.Props.join_seen",
    "Verif.Props.lines_seen",
    "Verif.Props.set_effect_seen",
    "Verif.Props.background_lost",
    "Verif.Props.escapes_reach_terminal"
   ],
   "note": "For all texts without escape characters and all styles, by a model of a terminal. Missing, with proofs that the code differs: escape characters in a text (such as the message of a commit) reach the terminal (escapes_reach_terminal), and backgrounds are not printed (background_lost; no style in the code has one). Printing fails exactly for colours and effects which are not implemented (render_fails_iff)."
  },
  {
   "property": "C103",
   "status": "partial",
   "theorems": [
    "Verif.Props.found_chars_highlighted",
    "Verif.Props.found_bytes_highlighted",
    "Verif.Props.found_bytes_ascii_partial",
    "Verif.Props.found_bytes_wrong",
    "Verif.Props.search_panics",
    "Verif.Props.search_highlights_too_much",
    "Verif.Props.prompt_chosen",
    "Verif.Props.prompt_not_chosen",
    "Verif.Props.preview_shows_message"
   ],
   "note": "For all texts, commits and selections; the searcher is arbitrary. Missing, with proofs that the code differs: if the searcher gives a range of bytes (as for a search for a whole word) and there are characters of several bytes before it, too much is highlighted or the program panics; found_bytes_highlighted says exactly when and what."
  },
  {
   "property": "C104",
   "status": "partial",
   "theorems": [
    "Verif.Props.report_hooks_read_partial",
    "Verif.Props.no_report_iff",
    "Verif.Props.fence_in_hook",
    "Verif.Props.missing_newline_unclear"
   ],
   "note": "For all hooks without a line of three backticks and without a last line <missing newline>. Missing, with witnesses: a line of three backticks ends the code (fence_in_hook), and a file with <missing newline> as its last line looks like one without a line break at its end, as one with <not found> looks like none (missing_newline_unclear)."
  }
 ]
}
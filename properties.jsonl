{"id": "C01", "title": "Stored events are read back unchanged", "statement": "Every event that is not suppressed, once written to the event log, is read back as the identical event (kind, timestamp, transaction, object ids, reference name, message); a row that was not produced by writing an event (unknown kind, missing column, malformed or zero object id where a commit is required) is rejected instead of being silently misread.", "quantifier": "all events of all kinds, all object ids, all reference names and messages; all database rows", "why_tests_cant": "The space of field values and malformed rows is unbounded; tests only sample one event of each kind.", "anchors": ["git-branchless-lib/src/core/eventlog.rs: Event, Row, TryFrom<Event> for Row, try_from_row_helper", "git-branchless-lib/src/git/oid.rs: MaybeZeroOid, NonZeroOid"]}
{"id": "C02", "title": "The event log is an append-only, all-or-nothing journal", "statement": "After any sequence of add_events calls (some cut short by a crash or error before commit), get_events returns exactly the non-suppressed events of the calls that committed, in call order and in list order inside a call; no event is reordered, duplicated, dropped or partially visible.", "quantifier": "all sequences of batches, every crash point inside a batch, all earlier contents", "why_tests_cant": "Crash points and batch sequences are unbounded; tests never crash inside a batch.", "anchors": ["git-branchless-lib/src/core/eventlog.rs: EventLogDb::add_events, get_events"]}
{"id": "C03", "title": "Transaction identifiers are fresh and survive the environment-variable round trip", "statement": "A newly created transaction id differs from every id created before in that log (even after rows were deleted); passing an id through BRANCHLESS_TRANSACTION_ID to a subprocess makes the subprocess record its events under the same id, and the suppressed marker keeps the subprocess from recording anything.", "quantifier": "all histories of transaction creation, all ids, all values of the environment variable", "why_tests_cant": "Needs all histories and all strings.", "anchors": ["git-branchless-lib/src/core/eventlog.rs: EventTransactionId Display/FromStr, make_transaction_id_inner, BRANCHLESS_TRANSACTION_ID_ENV_VAR"]}
{"id": "C04", "title": "Event cursors are always valid and step exactly", "statement": "Every cursor obtainable through the API lies between 0 and the number of events; advancing by n moves by exactly n unless that leaves the log, in which case it stops at the end; no cursor query panics.", "quantifier": "all logs, all integers (including negative and huge), all sequences of cursor operations", "why_tests_cant": "Unbounded sequences of signed moves.", "anchors": ["git-branchless-lib/src/core/eventlog.rs: make_cursor, make_default_cursor, advance_cursor, advance_cursor_by_transaction"]}
{"id": "C05", "title": "Stepping by transaction never splits a transaction", "statement": "Advancing a cursor by transactions always lands on a transaction boundary; moving forward by k and back by k transactions from a boundary returns to it when the log is not exhausted; the events reported as belonging to the transaction before a boundary cursor are exactly that transaction's events.", "quantifier": "all logs (any grouping of events in transactions), all cursors, all signed step counts", "why_tests_cant": "Boundary handling depends on every possible grouping and start position.", "anchors": ["git-branchless-lib/src/core/eventlog.rs: snap_to_transaction_boundary, advance_cursor_by_transaction_helper, advance_cursor_by_transaction, get_tx_events_before_cursor"]}
{"id": "C06", "title": "Commit activity is decided by the last relevant event before the cursor", "statement": "At every cursor a commit is Active iff the last event before the cursor that mentions it made it visible (created, unhidden, or the result of a rewrite), Obsolete iff that event hid it (hidden, or the source of a rewrite to something else), and Inactive iff no such event exists; later events have no influence.", "quantifier": "all histories, all cursors, all commits", "why_tests_cant": "Quantifies over all histories and every time-travel point.", "anchors": ["git-branchless-lib/src/core/eventlog.rs: EventReplayer::process_event, get_cursor_commit_history, get_cursor_commit_activity_status, get_cursor_commit_latest_event, get_cursor_oids"]}
{"id": "C07", "title": "Time-travelled reference positions equal the last recorded update", "statement": "At every cursor, the reported HEAD, branch and main-branch positions equal what replaying the recorded updates up to the cursor gives: a branch is listed at a commit iff its last update before the cursor moved it there.", "quantifier": "all histories of reference updates, all cursors, all reference names", "why_tests_cant": "Needs all interleavings of updates and deletions.", "anchors": ["git-branchless-lib/src/core/eventlog.rs: get_cursor_head_oid, get_cursor_branch_oid, get_cursor_main_branch_oid, get_cursor_branch_oid_to_names, get_references_snapshot"]}
{"id": "C08", "title": "Internal references never influence what users see", "statement": "Updates of internal references (refs/branchless/*, ORIG_HEAD, REBASE_HEAD, CHERRY_PICK_HEAD, AUTO_MERGE, FETCH_HEAD, ...) in the log have no effect on any replayer answer: removing all of them from the history gives the same events, cursors, statuses and reference positions.", "quantifier": "all histories with internal-reference updates at arbitrary positions", "why_tests_cant": "Non-interference over all histories.", "anchors": ["git-branchless-lib/src/core/eventlog.rs: is_gc_ref, should_ignore_ref_updates, process_event"]}
{"id": "C09", "title": "Duplicate branch-deletion repair loses nothing else", "statement": "The repair of the duplicated/zeroed deletion events of Git 2.31 reports each real deletion once with the true old position, and changes nothing in histories without that anomaly.", "quantifier": "all histories, with and without the anomalous pairs", "why_tests_cant": "The repair is a stateful filter; tests cover one shape of log.", "anchors": ["git-branchless-lib/src/core/eventlog.rs: fix_event_git_v2_31, process_event"]}
{"id": "C10", "title": "Following rewrites terminates at the newest live version", "statement": "For every history (also rewrite cycles A->B->A) the rewrite-target query terminates; if it answers with a commit, that commit is reached from the start by successive rewrite events each of which is the latest event of its source, differs from the start, and is itself not further rewritten; it answers 'deleted' only if the last step of such a chain rewrote to nothing; it answers nothing iff the latest event of the start is not a rewrite of it.", "quantifier": "all histories, all cursors, all commits, including cyclic rewrite graphs", "why_tests_cant": "Termination and chain properties over all histories, including cycles.", "anchors": ["git-branchless-lib/src/core/rewrite/evolve.rs: find_rewrite_target", "git-branchless-lib/src/core/eventlog.rs: get_cursor_commit_latest_event"]}
{"id": "C11", "title": "Undo restores every reference", "statement": "If the recorded events since a cursor faithfully describe how references changed, undoing to that cursor brings every non-HEAD reference back to the position (or absence) it had at the cursor.", "quantifier": "all reference states, all sequences of updates (creation, move, deletion, repeated), all cursors", "why_tests_cant": "All sequences and interleavings of updates of many references.", "anchors": ["git-branchless-undo/src/lib.rs: inverse_event, undo_events", "git-branchless-lib/src/core/eventlog.rs: get_events_since_cursor"]}
{"id": "C12", "title": "Undo restores commit visibility", "statement": "Undoing to a cursor makes every commit that was visible at the cursor and touched since visible again, and hides every commit first created since; commits not mentioned by the undone events keep their status.", "quantifier": "all histories and cursors", "why_tests_cant": "Depends on all interleavings of create/hide/rewrite of the same commit.", "anchors": ["git-branchless-undo/src/lib.rs: inverse_event, undo_events", "git-branchless-lib/src/core/eventlog.rs: get_cursor_commit_activity_status"]}
{"id": "C13", "title": "Undo is itself undoable", "statement": "Undoing an undo (redo) re-applies the reference changes: inverting an event twice gives the same reference change and the same commit-visibility effect.", "quantifier": "all events, all reference states", "why_tests_cant": "All events and states.", "anchors": ["git-branchless-undo/src/lib.rs: inverse_event, undo_events"]}
{"id": "C14", "title": "Visible, draft and public commits are computed as documented", "statement": "A commit is visible iff it is an ancestor of HEAD, the main branch, a branch, or an observed non-obsolete commit; public iff an ancestor of the main branch; draft iff visible and not public. Public and draft are disjoint and together are the visible commits; hiding a commit without visible descendants, branch, HEAD or main on it removes exactly it, and those obsolete ancestors that were visible only because of it.", "quantifier": "all commit graphs, all event histories, all HEAD/branch/main positions", "why_tests_cant": "All DAGs.", "anchors": ["git-branchless-lib/src/core/dag.rs: query_visible_heads, query_visible_commits_slow, filter_visible_commits, query_public_commits_slow, query_draft_commits, query_stack_commits, is_public_commit"]}
{"id": "C15", "title": "Connected components partition the selection", "statement": "Splitting a set of commits in connected components yields disjoint, non-empty sets whose union is the input, with no parent/child edge between two different components, each internally connected.", "quantifier": "all finite commit graphs and selections", "why_tests_cant": "All graphs.", "anchors": ["git-branchless-lib/src/core/dag.rs: get_connected_components"]}
{"id": "C16", "title": "A rebase is refused for a cycle exactly when the requested moves are cyclic", "statement": "Building a rebase plan fails with a constraint cycle iff the requested moves (together with the implied descendant moves) contain a cycle; the reported cycle is a real one; the check terminates on every request.", "quantifier": "all commit graphs and all lists of move/fixup requests", "why_tests_cant": "All finite constraint graphs, including cyclic ones.", "anchors": ["git-branchless-lib/src/core/rewrite/plan.rs: ConstraintGraph::check_for_cycles, check_for_cycles_helper, RebasePlanBuilder::build"]}
{"id": "C17", "title": "Public commits are never rewritten without force", "statement": "If force is not given and any commit of the rewrite set or of the resulting constraint graph is public (or outside of the permission set), no plan is produced.", "quantifier": "all graphs, requests, permission sets", "why_tests_cant": "All graphs and requests.", "anchors": ["git-branchless-lib/src/core/rewrite/plan.rs: RebasePlanPermissions::verify_rewrite_set, check_permissions, build"]}
{"id": "C18", "title": "A rebase plan handles every commit to move exactly once, parents first", "statement": "In the plan produced for an acyclic request every commit to be moved is picked (or merged/replaced/fixed up/skipped as duplicate) exactly once, after all its moved parents, and no other commit is touched.", "quantifier": "all acyclic constraint graphs (multiple roots, branching, merges, fixups)", "why_tests_cant": "All finite constraint forests.", "anchors": ["git-branchless-lib/src/core/rewrite/plan.rs: find_roots, make_rebase_plan_for_current_commit, build"]}
{"id": "C19", "title": "Rebase plans never refer to an undefined label", "statement": "Every label a plan resets to or merges with has been registered by an earlier command of the same plan, and no label is registered twice for different commits.", "quantifier": "all acyclic constraint graphs, arbitrary commit names clashing with each other", "why_tests_cant": "Label reuse depends on the full shape of the graph.", "anchors": ["git-branchless-lib/src/core/rewrite/plan.rs: make_label_name_inner, make_rebase_plan_for_current_commit, build"]}
{"id": "C20", "title": "In-memory execution puts every commit on its requested new parent", "statement": "Running a plan in memory without conflicts creates for each picked commit one new commit whose parent is the new version of the requested destination (or the destination itself if it is not moved), records original->new for it, and descendants keep their relative structure.", "quantifier": "all plans produced by the planner, all commit contents, all outcomes of cherry-picks", "why_tests_cant": "All plans and contents.", "anchors": ["git-branchless-lib/src/core/rewrite/execute.rs: in_memory::rebase_in_memory", "git-branchless-lib/src/core/rewrite/plan.rs: RebasePlanBuilder::build"]}
{"id": "C21", "title": "A failed in-memory rebase changes nothing", "statement": "If an in-memory rebase hits a merge conflict or a merge commit, no reference, HEAD or event-log entry has been changed when the result is reported.", "quantifier": "all plans, every failure point", "why_tests_cant": "Every failure point of every plan.", "anchors": ["git-branchless-lib/src/core/rewrite/execute.rs: in_memory::rebase_in_memory, execute_rebase_plan, post_rebase_in_memory"]}
{"id": "C22", "title": "Branches follow their commits after a rewrite, and the report is truthful", "statement": "After a rewrite, every local branch which pointed to a rewritten commit points to its new version (or is deleted/reset as documented when the commit was removed), all other references are unchanged, and the reference-transaction notification lists exactly the updates that were actually performed - also when an update fails half-way.", "quantifier": "all sets of branches and rewrites, every failing update", "why_tests_cant": "All reference states and failure points.", "anchors": ["git-branchless-lib/src/core/rewrite/execute.rs: move_branches"]}
{"id": "C23", "title": "HEAD ends on the rewritten version of the checked-out commit", "statement": "After a rewrite, what is checked out is: the same branch if a branch was checked out and still exists; otherwise the newest version of the previous HEAD commit; if it was dropped, the commit on top of which it would have been; if it was not rewritten it is unchanged.", "quantifier": "all rewrite maps, all HEAD states (detached/on branch/unborn)", "why_tests_cant": "All combinations of rewrite maps and HEAD states.", "anchors": ["git-branchless-lib/src/core/rewrite/execute.rs: check_out_updated_head, rebase_in_memory (new_head_oid)"]}
{"id": "C24", "title": "The in-memory/on-disk choice obeys the user's flags", "statement": "Requesting in-memory only never starts an on-disk rebase, requesting on-disk only never runs in memory, conflicts are handed to the user only when conflict resolution was requested, and an on-disk rebase never starts when another operation is in progress or there are uncommitted changes.", "quantifier": "all flag combinations, all outcomes of the in-memory attempt, all repository states", "why_tests_cant": "All outcomes at each step.", "anchors": ["git-branchless-lib/src/core/rewrite/execute.rs: execute_rebase_plan, rebase_on_disk, write_rebase_state_to_disk"]}
{"id": "C25", "title": "The rewritten-list file round-trips", "statement": "Writing rewritten-commit pairs and reading them back gives the same pairs in the same order, including deletions; malformed lines are rejected.", "quantifier": "all lists of pairs, all object ids", "why_tests_cant": "All lists.", "anchors": ["git-branchless-lib/src/core/rewrite/rewrite_hooks.rs: read_rewritten_list_entries, write_rewritten_list"]}
{"id": "C26", "title": "Updating the rewritten-list overrides earlier entries", "statement": "After recording new pairs in the rewritten-list, looking up any old commit gives its newest recorded value, other entries are unchanged.", "quantifier": "all existing files (also with repeated old ids) and all updates", "why_tests_cant": "All files and updates.", "anchors": ["git-branchless-lib/src/core/rewrite/rewrite_hooks.rs: add_rewritten_list_entries, hook_post_rewrite"]}
{"id": "C27", "title": "Commits made during a rebase are recorded exactly once, when it finishes", "statement": "While a rebase is underway the post-commit and amend-type post-rewrite hooks record no events; when it completes, exactly the deferred commits and the rewrites are recorded, in order, in one transaction; without a rebase a commit is recorded immediately.", "quantifier": "all sequences of hook invocations with and without a rebase in progress", "why_tests_cant": "All schedules of hook invocations.", "anchors": ["git-branchless-lib/src/core/rewrite/rewrite_hooks.rs: hook_post_rewrite, read_deferred_commits", "git-branchless-hook/src/lib.rs: hook_post_commit_common"]}
{"id": "C28", "title": "Reference-transaction hook records exactly the committed user-visible updates", "statement": "Only committed transactions are recorded; each well-formed line about a non-internal reference becomes exactly one event with the given old/new ids (corrected for packed references), in order; malformed lines never prevent the others from being recorded; packing references is not reported as creation or deletion.", "quantifier": "all hook inputs, all packed-refs files", "why_tests_cant": "All texts.", "anchors": ["git-branchless-hook/src/lib.rs: hook_reference_transaction, parse_reference_transaction_line, fix_packed_reference_oid, read_packed_refs_file, parse_packed_refs_line"]}
{"id": "C29", "title": "Garbage collection keeps every commit that is not obsolete", "statement": "gc deletes only keep-alive references of commits that are obsolete at the time, keeps the ones of all active and inactive commits, and never touches any other reference; marking a commit reachable creates a keep-alive for it and is idempotent.", "quantifier": "all reference states, all histories", "why_tests_cant": "All states.", "anchors": ["git-branchless-lib/src/core/gc.rs: find_dangling_references, gc, mark_commit_reachable"]}
{"id": "C30", "title": "Working-copy snapshots carry their metadata losslessly", "statement": "Loading the base commit of a snapshot that was created from given HEAD, branch and stage commits gives these back; an ordinary commit without the markers is never taken for a snapshot.", "quantifier": "all object ids, all branch names, all commit messages", "why_tests_cant": "All messages.", "anchors": ["git-branchless-lib/src/git/snapshot.rs: WorkingCopySnapshot::create, try_from_base_commit, load_commit"]}
{"id": "C31", "title": "Restoring a snapshot reproduces the index", "statement": "After creating a snapshot and restoring it, the index (all stages of all tracked paths) is the same as when it was taken.", "quantifier": "all indexes including merge conflicts, all HEAD trees", "why_tests_cant": "All index states; the conflict combinations are many.", "anchors": ["git-branchless-lib/src/core/check_out.rs: create_snapshot, restore_snapshot", "git-branchless-lib/src/git/snapshot.rs: create_commit_for_stage", "git-branchless-lib/src/git/index.rs: update_index"]}
{"id": "C32", "title": "Change classification of the working copy", "statement": "The change type of a snapshot is Conflicts iff some conflict stage differs from the base, else Staged iff the index differs, else Unstaged iff the working copy differs, else None; record/amend decisions follow it.", "quantifier": "all snapshots", "why_tests_cant": "All combinations of trees.", "anchors": ["git-branchless-lib/src/git/snapshot.rs: get_working_copy_changes_type", "git-branchless-record/src/lib.rs: record"]}
{"id": "C33", "title": "Writing entries to a tree changes exactly those paths", "statement": "hydrate_tree yields a tree in which every given path has the given value (or is absent), every other path not below or above an overwritten path is unchanged, and no empty directory is left at updated places.", "quantifier": "all trees, all finite maps from paths to optional entries", "why_tests_cant": "All trees and path sets (nesting, file/directory changes).", "anchors": ["git-branchless-lib/src/git/tree.rs: hydrate_tree, remove_entry_if_exists, dehydrate_tree"]}
{"id": "C34", "title": "Changed-path computation is exact", "statement": "The set of changed paths between two trees contains a file path iff the file differs (content, mode or existence) between them.", "quantifier": "all pairs of trees", "why_tests_cant": "All pairs of trees.", "anchors": ["git-branchless-lib/src/git/tree.rs: get_changed_paths_between_trees"]}
{"id": "C35", "title": "Fast amend/cherry-pick only touch the patch's paths", "statement": "The fast cherry-pick and amend give the same value as the full operation on every path touched by the patch, and leave each other path of the target commit as is; in particular a fixup applies additions, modifications and deletions.", "quantifier": "all trees, all patches", "why_tests_cant": "All trees and patches.", "anchors": ["git-branchless-lib/src/git/repo.rs: cherry_pick_fast, dehydrate_commit, amend_fast, get_paths_touched_by_commit"]}
{"id": "C36", "title": "Parsing git status output", "statement": "Parsing the NUL-separated status output terminates and returns exactly the entries written by git, including renames, and stops with an error on unknown lines.", "quantifier": "all byte sequences", "why_tests_cant": "All byte sequences; termination.", "anchors": ["git-branchless-lib/src/git/repo.rs: get_status", "git-branchless-lib/src/git/status.rs: StatusEntry TryFrom"]}
{"id": "C37", "title": "Revset string literals denote what is written", "statement": "A quoted string in a revset denotes the string obtained by removing the quotes and replacing each backslash escape; every string can be written as some literal.", "quantifier": "all strings", "why_tests_cant": "All strings with any number of escapes.", "anchors": ["git-branchless-revset/src/grammar.lalrpop: Name"]}
{"id": "C38", "title": "Revset evaluation only returns visible commits and follows set algebra", "statement": "A function-call revset only returns visible commits; union, intersection, difference, only and range follow their set definitions on visible arguments; alias calls evaluate the alias body with arguments substituted simultaneously.", "quantifier": "all expressions, all commit graphs", "why_tests_cant": "All expressions.", "anchors": ["git-branchless-revset/src/eval.rs: eval_inner, eval_fn", "git-branchless-revset/src/ast.rs: replace_names", "git-branchless-revset/src/builtins.rs"]}
{"id": "C39", "title": "Bisection never accepts contradictory results", "statement": "After any sequence of reported results, no commit reported failing is an ancestor of one reported passing; a contradictory or changed report is rejected and leaves the search as it was.", "quantifier": "all graphs, all sequences of reports (consistent or not)", "why_tests_cant": "All sequences of reports.", "anchors": ["scm-bisect/src/search.rs: Search::notify, success_bounds, failure_bounds"]}
{"id": "C40", "title": "Bisection always makes progress and terminates", "statement": "While an undecided untested commit remains, the search proposes one not yet reported; each proposal is distinct; with every report the undecided set shrinks; the strategy never errors with an already searched midpoint; enumerating all speculative proposals terminates.", "quantifier": "all finite graphs, all strategies, all report sequences", "why_tests_cant": "All graphs and reports.", "anchors": ["scm-bisect/src/search.rs: Search::search", "scm-bisect/src/basic.rs: BasicStrategy::midpoint"]}
{"id": "C41", "title": "Bisection finds the true boundary", "statement": "If passing/failing is monotone and all reports are truthful, then when the search ends without indeterminate commits, the commits implied passing/failing by the bounds are exactly the truly passing/failing ones.", "quantifier": "all finite graphs, all monotone predicates", "why_tests_cant": "All graphs and predicates.", "anchors": ["scm-bisect/src/search.rs: Search", "scm-bisect/src/basic.rs: ancestor_heads, descendant_roots, BasicStrategy"]}
{"id": "C42", "title": "Hide and unhide", "statement": "Hiding commits records one hide per selected commit (with recursion: the visible descendants) in one transaction; unhiding the same selection makes all of them active again; other commits keep their status.", "quantifier": "all graphs, selections and histories", "why_tests_cant": "All histories.", "anchors": ["git-branchless/src/commands/hide.rs: hide, unhide"]}
{"id": "C43", "title": "Repair is safe and complete", "statement": "repair only hides commits that no longer exist and only drops branches whose target no longer exists; after it no visible status refers to a missing commit; a dry run records nothing; running it again does nothing.", "quantifier": "all histories, all object stores", "why_tests_cant": "All histories and missing-object sets.", "anchors": ["git-branchless/src/commands/repair.rs: repair"]}
{"id": "C44", "title": "Restack moves abandoned children to the newest version of their parent", "statement": "Every visible non-obsolete child of a rewritten commit is scheduled to move onto the newest version of it; nothing else is scheduled.", "quantifier": "all histories and graphs", "why_tests_cant": "All histories and graphs.", "anchors": ["git-branchless-lib/src/core/rewrite/evolve.rs: find_abandoned_children", "git-branchless/src/commands/restack.rs: restack_commits, restack_branches"]}
{"id": "C45", "title": "next/prev walk along parent-child edges", "statement": "Successful navigation by n ends at a commit reachable by a path of visible child (parent) edges of length at most n, exactly n unless the end is reached; 'all the way' terminates at a commit without candidates; ambiguity is resolved only by the given preference.", "quantifier": "all graphs, all n, all preferences", "why_tests_cant": "All graphs.", "anchors": ["git-branchless-navigation/src/lib.rs: advance"]}
{"id": "C46", "title": "Bulk reword maps each message to its commit", "statement": "Bulk rewording succeeds only if each selected commit has exactly one edited message and no other commit is named; each commit gets the text between its marker and the next.", "quantifier": "all edited texts, all selections", "why_tests_cant": "All texts.", "anchors": ["git-branchless-reword/src/lib.rs: prepare_messages, parse_bulk_edit_message"]}
{"id": "C47", "title": "Submit pushes only what it should", "statement": "Without --create, no branch that is not yet on the remote is pushed; up-to-date branches are never pushed; a dry run pushes nothing; every out-of-date branch is pushed exactly once to its own remote.", "quantifier": "all branch/remote states, flags", "why_tests_cant": "All states.", "anchors": ["git-branchless-submit/src/lib.rs: submit", "git-branchless-submit/src/branch_forge.rs: BranchForge"]}
{"id": "C48", "title": "Pooled resources are never shared", "statement": "At any time, under any interleaving of acquiring and releasing, each pooled resource is held by at most one user, and no more resources are created than the peak number of simultaneous users.", "quantifier": "all interleavings of try_create and drop by any number of threads", "why_tests_cant": "All schedules.", "anchors": ["git-branchless-lib/src/core/task.rs: ResourcePool::try_create, ResourceHandle::drop"]}
{"id": "C49", "title": "Reference names and file modes are parsed and rendered consistently", "statement": "Categorising a reference name and rendering it back gives the same name, its short form plus the category prefix is the full name; file modes round-trip through their textual and numeric forms.", "quantifier": "all strings, all modes", "why_tests_cant": "All strings.", "anchors": ["git-branchless-lib/src/git/reference.rs: CategorizedReferenceName", "git-branchless-lib/src/git/status.rs: FileMode"]}
{"id": "C50", "title": "Smartlog graph is faithful", "statement": "Each requested commit appears in the graph; every parent link shown is a real parent edge between shown commits; every shown non-public commit whose parent is shown is linked to it.", "quantifier": "all commit graphs and selections", "why_tests_cant": "All graphs.", "anchors": ["git-branchless-smartlog/src/lib.rs: build_graph"]}
{"id": "C51", "title": "The stack of a commit is its connected component of draft commits", "statement": "query_stack_commits returns exactly the connected components (by parent/child edges) of the draft commits which intersect the given set, as its documentation says.", "quantifier": "all commit graphs, histories and selections", "why_tests_cant": "All shapes of graphs, including merges of several roots.", "anchors": ["git-branchless-lib/src/core/dag.rs: query_stack_commits"]}
{"id": "C52", "title": "Commits are skipped as already applied exactly when upstream has the same change", "statement": "With duplicate detection on, a moved commit is skipped iff a commit with the same patch id lies between the merge base and the destination; without duplicate detection nothing is skipped.", "quantifier": "all commit graphs, patch ids, moves", "why_tests_cant": "All combinations of graphs and equal changes; a wrongly skipped commit is silently lost.", "anchors": ["git-branchless-lib/src/core/rewrite/plan.rs: get_upstream_patch_ids, filter_path_to_merge_base_commits, should_check_patch_id, make_rebase_plan_for_current_commit"]}
{"id": "C53", "title": "An in-memory rebase stops only for a conflict or a merge commit", "statement": "If the commits named by a plan can be read and objects can be written, running the plan in memory either succeeds or reports a merge failure; the reported conflict (with its paths) or merge commit is real. It never panics, and no command of a plan refers to something that is not there (label, rebased commit).", "quantifier": "all plans produced by the planner, all commit contents, all outcomes of cherry-picks", "why_tests_cant": "Every combination of plan and outcome of each cherry-pick.", "anchors": ["git-branchless-lib/src/core/rewrite/execute.rs: in_memory::rebase_in_memory", "git-branchless-lib/src/core/rewrite/plan.rs: RebasePlanBuilder::build"]}
{"id": "C54", "title": "An in-memory rebase is recorded completely in the event log", "statement": "After a successful in-memory rebase, the event log has gained, in the transaction of the command, exactly one reference update for every local branch whose commit was rewritten (from its old to its actual new target) and exactly one rewrite for every rewritten commit.", "quantifier": "all repositories, rewrite maps, logs and iteration orders", "why_tests_cant": "Undo and the smartlog depend on every event; a lost one shows only later, for particular sets of branches.", "anchors": ["git-branchless-lib/src/core/rewrite/execute.rs: post_rebase_in_memory, move_branches", "git-branchless-hook/src/lib.rs: hook_reference_transaction", "git-branchless-lib/src/core/rewrite/rewrite_hooks.rs: hook_post_rewrite"]}
{"id": "C55", "title": "The todo list handed to git means the plan", "statement": "For every plan without replaced commits, the todo list written for an on-disk rebase is read back by git as exactly the commands of the plan, in order, and every name in it means the commit or label which the plan means.", "quantifier": "all plans produced by the planner", "why_tests_cant": "All shapes of plans, with any number of labels and merges; a line which git reads differently changes history silently.", "anchors": ["git-branchless-lib/src/core/rewrite/plan.rs: RebaseCommand::to_rebase_command, make_label_name", "git-branchless-lib/src/core/rewrite/execute.rs: on_disk::write_rebase_state_to_disk"]}
{"id": "C56", "title": "The revset parser accepts exactly the grammar, which is unambiguous", "statement": "A text is parsed as an expression iff its tokens, cut by the rule of the longest match, can be read as that expression with the rules of the grammar; no text has two readings; a printed expression whose names need no quotes is read back as itself.", "quantifier": "all texts and expressions", "why_tests_cant": "Precedence, associativity and the operators with missing operands interact in unboundedly many ways.", "anchors": ["git-branchless-revset/src/grammar.lalrpop", "git-branchless-revset/src/parser.rs: parse", "git-branchless-revset/src/ast.rs: Display"]}
{"id": "C57", "title": "Sets of commits are sorted with ancestors first", "statement": "sorted_commit_set returns each commit of the set exactly once, every commit after all its ancestors in the set, and commits which are not related in the order of their committer times.", "quantifier": "all commit graphs, times, and sets of commits", "why_tests_cant": "Depends on the sorting algorithm for a comparison that need not be a total order; small samples sort correctly by luck.", "anchors": ["git-branchless-lib/src/core/dag.rs: sorted_commit_set"]}
{"id": "C58", "title": "The smartlog prints each shown commit once", "statement": "Printing the smartlog never fails; every commit of its graph has exactly one line, below the line of its nearest shown ancestor; the lines tell correctly which commits are on the main branch, obsolete, or HEAD; unrelated parts come in topological order.", "quantifier": "all commit graphs, selections, orders of hash maps", "why_tests_cant": "The shapes of graphs are unbounded; merges and omitted commits interact.", "anchors": ["git-branchless-smartlog/src/lib.rs: split_commit_graph_by_roots, get_child_output, get_output, render_graph"]}
{"id": "C59", "title": "A snapshot stores the working copy", "statement": "The unstaged commit of a snapshot has, at every tracked path, exactly the file of the working copy (contents and mode; nothing if it is deleted), and no untracked file; creating the snapshot succeeds.", "quantifier": "all working copies, HEAD trees and indexes", "why_tests_cant": "The combinations of staged and unstaged changes, renames, links and type changes are unbounded; what was not stored is noticed only when it is needed.", "anchors": ["git-branchless-lib/src/git/snapshot.rs: create_commit_for_unstaged_changes", "git-branchless-lib/src/git/repo.rs: create_blob_from_path"]}
{"id": "C60", "title": "Everything in a snapshot is kept alive by its base commit", "statement": "All commits of a snapshot (HEAD, the unstaged changes, the stages) are reachable from the base commit, so git's garbage collection keeps them as long as the base commit is kept.", "quantifier": "all snapshots in all repositories", "why_tests_cant": "Garbage collection happens weeks later.", "anchors": ["git-branchless-lib/src/git/snapshot.rs: WorkingCopySnapshot::create", "git-branchless-lib/src/core/gc.rs"]}
{"id": "C61", "title": "move puts the chosen commits and their descendants on the destination", "statement": "If `move` with --source and --base (or neither) succeeds in memory, every source, and the first commit of the branch of every base, has a new version on top of the destination, their visible descendants have new versions on top of those of their own parents, all with the same message and people and the cherry-picked tree, and no other commit is changed. The command is refused exactly if a commit of the main branch would be rewritten (without the force flag) or the destination would be moved itself.", "quantifier": "all commit graphs, event logs, sets of sources and bases, destinations", "why_tests_cant": "The shapes of graphs and the choice of sources are unbounded; a commit put in a wrong place is a lost change only later.", "anchors": ["git-branchless-move/src/lib.rs: move, resolve_base_commit", "git-branchless-lib/src/core/rewrite/plan.rs: RebasePlanBuilder::build", "git-branchless-lib/src/core/rewrite/execute.rs: execute_rebase_plan"]}
{"id": "C62", "title": "move --exact moves exactly the selected commits", "statement": "If `move --exact` succeeds in memory, the selected commits, and only they, end up above the destination, each on top of its nearest selected ancestor or, if there is none, the destination; visible commits on top of selected ones which are not selected themselves get new versions on top of their nearest ancestors which are not selected, and nothing else is changed. It is refused exactly if a selected commit would rewrite the main branch, has no or several parents, has several possible parents among those moved, or the destination itself would have to be moved.", "quantifier": "all commit graphs, event logs, sets of selected commits, destinations", "why_tests_cant": "Selections can have any number of connected groups in any arrangement; tests have a few on short stacks.", "anchors": ["git-branchless-move/src/lib.rs: move", "git-branchless-lib/src/core/dag.rs: get_connected_components", "git-branchless-lib/src/core/rewrite/plan.rs: RebasePlanBuilder::build"]}
{"id": "C63", "title": "move --insert puts what was on the destination on top of what is moved", "statement": "If `move --insert` succeeds in memory, the sources (or the selected commits) are moved as without `--insert`, and the visible children of the destination which are not moved themselves get new versions on top of the head of what was moved, with their descendants. It is refused exactly if a commit of the main branch would be rewritten, if what is moved does not have exactly one visible head, or if the destination itself would have to be moved.", "quantifier": "all commit graphs, event logs, sources or selections, destinations", "why_tests_cant": "Inserting rewrites three groups of commits at once, in every arrangement of them; tests have short stacks without hidden commits.", "anchors": ["git-branchless-move/src/lib.rs: move", "git-branchless-lib/src/core/rewrite/plan.rs: RebasePlanBuilder::move_children, add_constraints"]}
{"id": "C64", "title": "Installing and uninstalling hooks keeps the user's own hooks", "statement": "However often `git branchless init` and `init --uninstall` are run, every hook consists of exactly the user's own lines and one section between marker lines with the script of the last command; after uninstalling, only comments are left in the section. The hooks are executable, their other permissions are kept, and no other file is changed.", "quantifier": "all existing hooks, all sequences of init and init --uninstall", "why_tests_cant": "The hook files are written by users and other tools; tests have one short hook.", "anchors": ["git-branchless-init/src/lib.rs: update_between_lines, update_hook_contents, install_hooks, uninstall_hooks"]}
{"id": "C65", "title": "reword changes the messages of the selected commits and nothing else", "statement": "If `reword` succeeds, every selected commit has a new version with the new message on top of the new versions of its parents, and every visible descendant a new version on top of that of its own parent; the files, authors and committers are as before, and so are the messages of those not selected. No other commit is changed. It never ends with a merge conflict. It is refused by the planner exactly if a commit of the main branch would be rewritten without force, and a refusal changes nothing. --fixup needs exactly one commit which is an ancestor of all selected ones.", "quantifier": "all commit graphs, event logs, selections, messages", "why_tests_cant": "Any set of commits in any graph can be selected at once; tests have stacks of three commits.", "anchors": ["git-branchless-reword/src/lib.rs: reword", "git-branchless-lib/src/core/rewrite/plan.rs: replace_commit, build", "git-branchless-lib/src/core/rewrite/execute.rs: rebase_in_memory"]}
{"id": "C66", "title": "amend puts the changes into the checked-out commit and keeps everything else attached to it", "statement": "If `amend` succeeds, the new commit has the message, parents and author of the checked-out commit and the tree with the staged changes (or, without any, the unstaged ones); every branch which was at the old commit is at the new one, HEAD is on the same branch as before (or detached at the new commit), and the rewrite is recorded. Every visible commit above gets a new version on top of the new versions of its parents; with --reparent it has the files it had, and there are no conflicts. No other commit is changed. If a commit above conflicts, they all stay. It is refused exactly if there is no HEAD, the index has conflicts, or a commit of the main branch would be rewritten without force; a refusal changes nothing.", "quantifier": "all commit graphs, event logs, references, changes", "why_tests_cant": "The names of branches, tags and files, and the shape of the graph above HEAD, are arbitrary; tests have short stacks, one branch and no tags.", "anchors": ["git-branchless/src/commands/amend.rs: amend", "git-branchless-lib/src/core/check_out.rs: check_out_commit", "git-branchless-lib/src/core/rewrite/plan.rs: replace_commit, move_subtree, build"]}
{"id": "C67", "title": "sync puts every stack on the main branch", "statement": "If `sync` succeeds with rebases in memory, every stack (a visible commit which is not on the main branch while all of its parents are, with all its visible descendants; with arguments, only those whose first commit is an ancestor of one of the given commits, or one of them) is dealt with exactly once: it stays as it is if it is on the commit of the main branch already; otherwise every commit of it has a new version with the same message and people and the cherry-picked tree, the first one on top of the main branch and the others on top of the new versions of their parents; or it is left unchanged, and this only if one of its commits conflicts or is a merge commit. The three lists which are printed are those stacks. No other commit is changed, and the planner never refuses.", "quantifier": "all commit graphs, event logs, references, arguments", "why_tests_cant": "Any number of stacks of any shape, which are planned before and executed after one another; tests have two or three.", "anchors": ["git-branchless/src/commands/sync.rs: sync, get_stack_roots, execute_sync_plans, execute_plans", "git-branchless-lib/src/core/rewrite/plan.rs: RebasePlanBuilder::build", "git-branchless-lib/src/core/rewrite/execute.rs: execute_rebase_plan"]}
{"id": "C68", "title": "sync --pull brings the main branch to its upstream branch", "statement": "If `sync --pull` succeeds, the main branch contains the commit of its upstream branch: it is moved forward if it has no commits of its own, otherwise its own commits are moved on top of the upstream commit, or left unchanged if they conflict. Commits are only rewritten if this is necessary, and `undo` can bring the branch back. If fetching or this step fails, no stack is touched.", "quantifier": "all commit graphs, event logs, local and upstream branches", "why_tests_cant": "Needs every relation between the local and the upstream branch, with merges; tests have a few linear ones.", "anchors": ["git-branchless/src/commands/sync.rs: sync, execute_main_branch_sync_plan, execute_plans"]}
{"id": "C69", "title": "record makes one commit and puts HEAD and the branches where the options say", "statement": "If `record` makes a commit, the new commit is visible, nothing else in the event log changes its meaning, and a reference keeps the commit alive. Without options the checked-out branch (or the detached HEAD) moves to the new commit; with --create a new branch at the new commit is checked out; with --detach no branch moves and the new commit is checked out; with --stash no branch moves and what was checked out before is checked out again. No other reference is changed. If no commit is made (no changes, conflicts, staged changes with --interactive, git fails) nothing is changed.", "quantifier": "all references, event logs, kinds of changes and combinations of options", "why_tests_cant": "The options are combined with any state of HEAD and of the references; tests have a branch and one or two commits.", "anchors": ["git-branchless-record/src/lib.rs: record", "git-branchless-hook/src/lib.rs: hook_post_commit", "git-branchless-lib/src/core/check_out.rs: check_out_commit"]}
{"id": "C70", "title": "record --insert puts what was on top of HEAD on top of the new commit", "statement": "After `record --insert`, every visible commit which was on top of the checked-out commit has a new version with the same message and people and the cherry-picked tree, on top of the new version of its parent, or of the new commit if its parent was the checked-out commit. No other commit is changed, and HEAD stays where it is. Nothing is moved exactly if there is none, one of them is on the main branch, has conflicts or is a merge commit, or the repository does not work.", "quantifier": "all commit graphs, event logs, references", "why_tests_cant": "Any graph on top of HEAD; tests have stacks of three commits.", "anchors": ["git-branchless-record/src/lib.rs: insert_before_siblings", "git-branchless-lib/src/core/rewrite/plan.rs: RebasePlanBuilder::build", "git-branchless-lib/src/core/rewrite/execute.rs: execute_rebase_plan"]}
{"id": "C71", "title": "git test tests each commit once, comes to an end, and reports what does not depend on the threads", "statement": "Whatever the order in which the threads of `git test run` take their steps: no commit is tested twice and nothing else is tested; the run comes to an end; every result reported is that of a test which was run; without a search there is one result for each commit in their order unless the command aborted testing, and the exit code is 0 exactly if the command passed on all of them; with a search and a command that tells good from bad commits, where ancestors of good commits are good, the reported bounds separate the good commits from the bad ones.", "quantifier": "all interleavings of any number of threads, all sets of commits in any graph, all results of the command", "why_tests_cant": "A test sees a few of the possible orders of the threads; errors which depend on the order are not found by running it.", "anchors": ["git-branchless-test/src/worker.rs: WorkQueue, worker", "git-branchless-test/src/lib.rs: run_tests_inner, event_loop, print_summary, SearchGraph", "scm-bisect/src/search.rs: Search"]}
{"id": "C72", "title": "a cached test result is the result of that test", "statement": "Whatever threads and processes do with the cache: a status which git test tells without running the command is the one with which the same command ended on the same tree, since the results of the tree were last removed. A test which ended with an exit code is not run again, and not run twice at the same time. tests.passed(), tests.failed() and tests.fixable() hold of a commit exactly if there was such a test of its tree.", "quantifier": "all sequences of operations by any number of threads and processes, with any trees, commands and outcomes, including tests which are stopped or killed", "why_tests_cant": "Needs arbitrary commands and interleavings of several processes with crashes in between; tests use a few commands in one process.", "anchors": ["git-branchless-test/src/lib.rs: make_test_files, test_commit, subcommand_show, subcommand_clean", "git-branchless-lib/src/git/test.rs: make_test_command_slug, SerializedTestResult, get_test_tree_dir", "git-branchless-revset/src/builtins.rs: read_all_test_results, tests.passed, tests.failed, tests.fixable"]}
{"id": "C73", "title": "git test fix puts the files which the command left into the commits, without conflicts", "statement": "If `git test fix` rewrites commits, every commit on which the command left changed files gets a new version with exactly those files, every visible commit on top of them a new version with its own files, each on the new versions of its parents, with the same message and people; no other commit is rewritten and none is lost; HEAD and the branches follow (C22, C23), and what is reported is true. There are never merge conflicts. Nothing is rewritten if a test did not pass, with --dry-run, if a commit is on the main branch (unless forced), or if the repository does not work.", "quantifier": "all commit graphs including merges, event logs, references, sets of commits and results of the command", "why_tests_cant": "Needs arbitrary graphs with merges on top of the fixed commits and arbitrary trees left by the command; tests have three commits in a row.", "anchors": ["git-branchless-test/src/lib.rs: subcommand_run, apply_fixes", "git-branchless-lib/src/core/rewrite/plan.rs: replace_commit, build", "git-branchless-lib/src/core/rewrite/execute.rs: execute_rebase_plan"]}
{"id": "C74", "title": "a pull request says where its commit is in the stack, and is based on the nearest one below", "statement": "The title which submit wants for the pull request of a commit has the place of the commit among the pull requests of its stack (parents first), the number of them, and the first line of the message; the text lists all of them and has the message. The pull request is based on the branch of the nearest commit below with a pull request, or on the main branch if there is none.", "quantifier": "all commit graphs, branches, pull requests and messages", "why_tests_cant": "Needs arbitrary graphs with pull requests at some of the commits; the tests have stacks of two, for which the nearest and the farthest one are the same.", "anchors": ["git-branchless-submit/src/github.rs: make_updated_pull_request_info", "git-branchless-lib/src/core/dag.rs: query_stack_commits, sort, commit_set_to_vec"]}
{"id": "C75", "title": "each commit is reported as what it is: without, with an out-of-date, or with a current pull request", "statement": "`submit` gives exactly one status to every selected commit: unsubmitted if no branch there has a pull request, needs-update if the pull request of its branch has another commit, base, title or text than it should, up-to-date otherwise.", "quantifier": "all repositories, selected commits, branches and pull requests", "why_tests_cant": "Needs several branches at a commit and arbitrary differences.", "anchors": ["git-branchless-submit/src/github.rs: query_status, fields_to_update"]}
{"id": "C76", "title": "submit updates exactly the pull requests which need it, closes none, and a second time does nothing", "statement": "`submit` pushes and edits exactly the pull requests of selected commits which are not as they should be, parents first, each branch right before its pull request. Afterwards all of them are as they should be, all pull requests are still open, and nothing else has changed; submitting again runs no command. A dry run changes nothing.", "quantifier": "all commit graphs, sets of commits and pull requests, also when commits were reordered or rewritten", "why_tests_cant": "GitHub closes a pull request as soon as its base has its commits, so it depends on the order of pushes and edits for an arbitrary reordering of the stack.", "anchors": ["git-branchless-submit/src/github.rs: update", "git-branchless-submit/src/branch_forge.rs: update", "git-branchless-submit/src/lib.rs: submit"]}
{"id": "C77", "title": "submit --create makes one pull request for each commit without one, and the stack is as it should be", "statement": "If `submit --create` succeeds, every selected commit without pull request has got exactly one, for a branch at that commit which is new or was there; the names of new branches are valid and were not in use; no pull request is closed and no branch is moved; all pull requests of the selected commits are as they should be.", "quantifier": "all commit graphs, branches, pull requests and messages", "why_tests_cant": "Needs arbitrary stacks of which some commits have branches and pull requests and some have not, and arbitrary messages.", "anchors": ["git-branchless-submit/src/github.rs: create, commit_summary_slug", "git-branchless-submit/src/lib.rs: submit"]}
{"id": "C78", "title": "record --interactive offers exactly the changes, and stages what was marked", "statement": "`record --interactive` offers exactly the files which differ, each once, in the order of their paths, and for a text file exactly its changes: with none of them the file is as before, with all of them it is the new file, and with some of them the file with these changes. The index afterwards has for each file what was marked, and nothing else changes: marking nothing leaves it as it is, marking everything gives the files of the working copy.", "quantifier": "all trees, files, comparisons by libgit2, orders of the map, and choices of the user", "why_tests_cant": "Needs arbitrary comparisons (insertions at the beginning, at the end, empty and missing files) and arbitrary choices; the numbers of lines in hunks have special cases for empty ranges.", "anchors": ["git-branchless-lib/src/git/diff.rs: process_diff_for_record", "git-branchless-record/src/lib.rs: record_interactive"]}
{"id": "C79", "title": "a bug report does not tell the names of branches nor the messages of commits, but which are the same", "statement": "The part of a bug report about the repository does not depend on the names of references other than the main branch, nor on the characters of messages other than white space: repositories which differ only in these have the same report. Each reference has one name in the report, of its kind, and different references have different ones. Each section shows the repository as it was after its transaction, and the branch which is checked out is marked.", "quantifier": "all repositories, events, names and messages", "why_tests_cant": "Non-interference: it compares the reports of all pairs of repositories which differ in secrets.", "anchors": ["git-branchless-lib/src/core/node_descriptors.rs: Redactor", "git-branchless/src/commands/bug_report.rs: collect_events, describe_event_cursor, redact_event"]}
{"id": "C80", "title": "the text of the smartlog can be read back", "statement": "If two smartlogs are the same text then they have the same lines with the same commits, symbols and numbers; the branches at a commit and which of them is checked out are read from the text; the age is the largest unit which fits; the revision is that of the first line of the message which gives one; an obsolete commit is described by the newest commit it was rewritten to, or as hidden; the hint counts the commits on top of rewritten ones. With --event-id everything is as it was then.", "quantifier": "all repositories, graphs, names of references, times and messages", "why_tests_cant": "Injectivity for all graphs and names; tests compare a few texts.", "anchors": ["git-branchless-smartlog/src/lib.rs: smartlog, render_graph", "git-branchless-lib/src/core/node_descriptors.rs: describe_node, describe_time_delta, extract_diff_number", "git-branchless-lib/src/core/formatting.rs: Glyphs"]}
{"id": "C81", "title": "an on-disk rebase does the same as one in memory", "statement": "If a rebase in memory succeeds, then git, working on the todo list which is written for the same plan and calling the hooks of git-branchless, gets to the end of it, and the branches and HEAD are afterwards at the same commits as after the rebase in memory, or at versions of them which differ at most in committer and time.", "quantifier": "all repositories, plans for moving subtrees, and results of merges", "why_tests_cant": "Compares two programs (one of them git with callbacks and files in between) on all plans, with dropped, skipped and fast-forwarded commits in any order.", "anchors": ["git-branchless-lib/src/core/rewrite/execute.rs: write_rebase_state_to_disk, rebase_in_memory", "git-branchless-lib/src/core/rewrite/rewrite_hooks.rs: hook_drop_commit_if_empty, hook_skip_upstream_applied_commit, hook_post_rewrite"]}
{"id": "C82", "title": "the status of a commit is what Phabricator has for the revision which its message names", "statement": "For Phabricator, `submit` reports a commit as unsubmitted if its message names no revision (the first line which does counts), as up to date if it is the commit for which Phabricator has that revision, and as to be updated otherwise. Of commits with the same revision at most one is up to date.", "quantifier": "all commits, messages and revisions", "why_tests_cant": "Needs arbitrary messages (several lines which look like a revision) and arbitrary lists of hashes from Phabricator.", "anchors": ["git-branchless-submit/src/phabricator.rs: query_status, query_revisions, get_revision_id"]}
{"id": "C83", "title": "the dependencies of revisions in Phabricator follow the commits", "statement": "After a stack was submitted, the revision of each commit depends on the revisions of its parents and on nothing else, no matter how the stack was arranged before; other revisions and everything else about these revisions stay as they were, and there is no cycle of dependencies.", "quantifier": "all commit graphs, messages, former dependencies, and reasons of Phabricator to refuse cycles", "why_tests_cant": "Dependencies are changed one by one; whether a cycle arises in between depends on the order for an arbitrary rearrangement.", "anchors": ["git-branchless-submit/src/phabricator.rs: update_dependencies, query_remote_dependencies, set_dependencies"]}
{"id": "C84", "title": "submitting to Phabricator puts what arc made in the places of the commits, and nothing else changes", "statement": "`submit --create` runs `arc` for exactly those commits whose message names no revision, and puts the commits which it made in their places, with their visible descendants on top, without conflicts and without changing a file; each is reported with its new revision, which depends on the revisions of the parents. If `arc` fails for a commit, nothing is rewritten. Commits whose revision is about another commit are updated and not rewritten. A dry run changes nothing.", "quantifier": "all commit graphs, sets of commits, messages and results of arc", "why_tests_cant": "Needs stacks of which some commits were submitted before and some not, with branches and merge commits on top; tests replace arc by a stub and have two commits in a row.", "anchors": ["git-branchless-submit/src/phabricator.rs: create, update", "git-branchless-submit/src/lib.rs: submit", "git-branchless-lib/src/core/rewrite/plan.rs: replace_commit, build"]}
{"id": "C85", "title": "the options of `git test` mean what they say", "statement": "The command which is run, where it is run and in how many jobs follow from the options and the configuration: options before configuration, and the configuration before the default. An interactive command is run for one commit at a time, and several jobs are never run in the same directory. Contradicting options are refused. A command which is suggested to the user is read by the shell as it was meant.", "quantifier": "all options, configurations and texts", "why_tests_cant": "The cases for jobs, strategy and interactive multiply; texts for the shell are arbitrary.", "anchors": ["git-branchless-test/src/lib.rs: ResolvedTestOptions::resolve, resolve_test_command_alias, abbreviate_lines, shell_escape"]}
{"id": "C86", "title": "a test runs in a directory with the files of its commit, which nobody else changes meanwhile", "statement": "At each time, for any number of jobs of any number of processes, at most one of them tests in a directory. When a command starts, the index and the tracked files are those of the commit to test, and until it ends only the command itself changes the directory. A job gets its directory unless somebody else uses it.", "quantifier": "all interleavings of the steps of jobs, of processes which are killed, and of commands which change the directory arbitrarily", "why_tests_cant": "Needs interleavings of processes and kills at each point; a race leads to a wrong verdict once in a while.", "anchors": ["git-branchless-test/src/lib.rs: prepare_working_directory, test_commit, make_test_files, run_tests"]}
{"id": "C87", "title": "after tests in the working copy everything is as before", "statement": "`git test` in the working copy leaves HEAD, the branches, the index and the files as they were, whatever the tests do to tracked files and the index. If tests are interrupted, `git rebase --abort` does the same. Tests are refused in a working copy with changes, and then nothing changes.", "quantifier": "all repositories, commits, plans and effects of the tests on index and files", "why_tests_cant": "Needs arbitrary effects of commands and interruptions at each point.", "anchors": ["git-branchless-test/src/lib.rs: set_abort_trap, clear_abort_trap, subcommand_run"]}
{"id": "C88", "title": "the warning after a rewrite names what was abandoned", "statement": "After git rewrote commits, the warning counts exactly the visible children of rewritten commits which are still there, and names exactly the branches at rewritten commits (the main branch apart). There is no warning iff there is nothing to name. What is warned about is handled by the command which the warning recommends.", "quantifier": "all commit graphs, event logs, references and rewritten commits", "why_tests_cant": "Needs histories in which commits were rewritten, hidden and dropped in any order.", "anchors": ["git-branchless-lib/src/core/rewrite/rewrite_hooks.rs: hook_post_rewrite, warn_abandoned"]}
{"id": "C89", "title": "a subcommand may be called in two ways", "statement": "`git-branchless-S` in any directory does the same as `git-branchless S`, for each subcommand S, also for the older names of hooks; the other arguments stay as they are.", "quantifier": "all directories, names of subcommands and arguments", "why_tests_cant": "Names and arguments are arbitrary, also such which are not text.", "anchors": ["git-branchless-opts/src/lib.rs: rewrite_args"]}
{"id": "C90", "title": "commits are moved without conflicts if they change other files than the destination", "statement": "Commits (no merge commits) are moved with `git move --source` onto a destination, and they change only files which are the same at the parent of the first one and at the destination; no path is a file in one of them and a directory in another. Then there is never a conflict, and nothing is left to be done on disk. The new version of each commit has exactly the files of the destination where that differs from the old place, and its own files otherwise. In general, if the files can be merged path by path, the new versions have the merged files. A commit is dropped only if it then has the same files as the commit below.", "quantifier": "all repositories, graphs, stacks and subtrees, trees of any depth, and ways to merge contents", "why_tests_cant": "Needs arbitrary trees, stacks of any height and the interplay of planning, fast cherry-picks of partial trees and dropping.", "anchors": ["git-branchless-lib/src/core/rewrite/execute.rs: rebase_in_memory", "git-branchless-lib/src/git/repo.rs: cherry_pick_fast", "git-branchless-lib/src/git/tree.rs: hydrate_tree, dehydrate_commit", "git-branchless-move/src/lib.rs"]}
{"id": "C91", "title": "git switch goes to the commit which is named, and to nothing else", "statement": "`git switch` runs git exactly once: with a revision if it names a commit; with the only head of a revset; with the selected commit, or the only branch at it if automatic switching is on and HEAD is not there already; and without a target with the only branch at HEAD, if there is one. If it succeeds, HEAD is at that commit: on the branch which was created, on the branch which was named, or detached; no other reference is changed. A revset which has no head or several is refused, and if the command does not succeed, HEAD and all references are as before.", "quantifier": "all repositories, graphs, event logs, revsets, names and combinations of the options", "why_tests_cant": "Needs arbitrary sets of commits, names of branches and revisions, and the combination of six options with the state of HEAD.", "anchors": ["git-branchless-navigation/src/lib.rs: switch", "git-branchless-lib/src/core/check_out.rs: check_out_commit, maybe_get_branch_name", "git-branchless-lib/src/git/repo.rs: revparse_single_commit", "git-branchless-opts/src/lib.rs: SwitchOptions"]}
{"id": "C92", "title": "Installing configures the program, and uninstalling restores the configuration", "statement": "`git branchless init` chooses the main branch: the given one, else `init.defaultBranch` if there is such a branch, else the first existing one of the usual names, else what the user types; it fails if that is blank. If it succeeds, the keys of the program have their values: the main branch, the aliases and two others; all other keys keep theirs, an alias which the user already has is kept, and what the user sets later takes precedence. Running it again changes nothing. However often it is installed and uninstalled, and however these commands end, the user's entries in the configuration file stay as they are, and after uninstalling every key has its value from before. The user is warned exactly if Git is older than 2.29.", "quantifier": "all configuration files, branches, inputs and versions, and all sequences of the two commands", "why_tests_cant": "Configuration files contain arbitrary entries in any order, also several for a key, and include other files.", "anchors": ["git-branchless-init/src/lib.rs: command_init, command_uninstall, set_configs, install_alias, detect_main_branch_name, create_isolated_config, delete_isolated_config", "git-branchless-lib/src/git/config.rs: set_inner, remove_inner, set_multivar_inner, remove_multivar_inner", "git-branchless-lib/src/core/config.rs: get_main_branch_name", "git-branchless-lib/src/git/repo.rs: GitVersion::from_str"]}
{"id": "C93", "title": "git undo brings back the chosen past", "statement": "`git undo` chooses a position of the event log: without interaction the beginning of the last transaction, otherwise the one to which the keys lead which were pressed before `enter`; leaving changes nothing. There is nothing to do exactly if no event follows (other than that HEAD began to exist); otherwise it is done exactly if the user agrees, and nothing changes if not. If it reports success then all references are as they were at this position; HEAD is where the first undone event which tells it says: detached at the commit from which HEAD was moved, or at the branch or commit of the snapshot; otherwise HEAD stays. The log only grows, by events which take back the undone events about commits, the last one first, and by what checking out adds. It works if Git works and the main branch exists at this position, and it never panics.", "quantifier": "all event logs, references, positions of HEAD, snapshots and inputs", "why_tests_cant": "Event logs contain any sequence of events of any transactions, in any number.", "anchors": ["git-branchless-undo/src/lib.rs: select_past_event, undo_events, undo, extract_checkout_target", "git-branchless-lib/src/core/check_out.rs: check_out_commit, create_snapshot, restore_snapshot"]}
{"id": "C94", "title": "Snapshot create and restore bring the working copy back", "statement": "After `git branchless snapshot create` every tracked file and the index are as in HEAD, untracked files which are not in the way are as before, HEAD and the references do not change, the printed commit can be loaded as a snapshot, and exactly one event is added to the log. If it ends with an error, then no file, no entry of the index and not HEAD are changed. `git branchless snapshot restore` brings this state back, whatever happened to the working copy since: each tracked file has its contents and mode, the index has its entries where there was no conflict, and exactly if the conflicts can be stored it has all entries; HEAD is at its branch and commit, and other references do not change. If it is restored at once then it succeeds, and all files, also the untracked ones, are as before. A commit which is no snapshot is not restored, and nothing changes.", "quantifier": "all trees, indexes, working copies, references and event logs; any later state of the repository", "why_tests_cant": "There are unboundedly many combinations of trees, indexes and files, and of what happens between creating and restoring.", "anchors": ["git-branchless/src/commands/snapshot.rs: create, restore", "git-branchless-lib/src/core/check_out.rs: create_snapshot, restore_snapshot"]}
{"id": "C95", "title": "Running git and hooks: no deadlock, all output, the exit code", "statement": "When git-branchless runs git or a hook, with any program in its place, any capacity of the pipes and any order of the steps: running git with its output shown never deadlocks. Running it silently with input, or running a hook with input, can deadlock exactly if the program can fill a pipe with output while it has left unread so much of the input that it fills a pipe too; so it cannot if the input fits into a pipe, or if the program reads its input to the end before it writes. An endless execution is one in which the program takes endlessly many steps. If an exit code is returned then the program and all processes it left behind are gone, the code is that of the program, and the output that arrived is all that was written: byte for byte if silent, and line by line otherwise. An error comes only from a program which did not read all its input, and a panic only from output which is not UTF-8.", "quantifier": "all programs (as processes which read, write, close and exit), all inputs, all capacities of pipes, all interleavings", "why_tests_cant": "There are unboundedly many programs and interleavings; a deadlock shows only for some of them.", "anchors": ["git-branchless-lib/src/git/run.rs: GitRunInfo::{spawn_writer_thread, run_inner, run_silent_inner, run_hook_inner}"]}
{"id": "C96", "title": "A command, git and the hooks share one transaction", "statement": "What a command records in the event log, and what is recorded by git which it runs with its transaction id, by the hooks which git runs, and so on, is in one transaction, whatever is run and in whatever order. If the user has not set the variable and nothing works in other repositories, then each event belongs to exactly one command: all processes which have its transaction id were started below the one which made it; and its message is found. If nobody else records in the repository meanwhile, then stepping back by one transaction, as git undo does, goes to exactly where the log was before the command. Under a test nothing is recorded.", "quantifier": "all trees of processes over any repositories, all interleavings of their steps, all events", "why_tests_cant": "There are unboundedly many trees of processes and interleavings; each is a run of many programs.", "anchors": ["git-branchless-lib/src/core/eventlog.rs: make_transaction_id_inner", "git-branchless-lib/src/git/run.rs: GitRunInfo", "git-branchless/src/commands/wrap.rs: wrap", "git-branchless-test/src/lib.rs: run_tests, test_commit"]}
{"id": "C97", "title": "git query prints exactly what its argument stands for", "statement": "If the argument of git query stands for a set of commits, the command succeeds and prints that set: with --raw the ids, otherwise a line with the abbreviated id and the first line of the message for each commit; each commit once, none before one of its ancestors. With --branches it prints the names of the local branches at these commits: all of them, each once, those of ancestors first and those of one commit in alphabetical order. If the argument does not stand for anything, nothing is printed and the exit code is 1. A successful command has printed everything.", "quantifier": "all queries, graphs of commits, event logs, references and options", "why_tests_cant": "The argument is any expression over any graph, with any aliases; a test has one repository and a few expressions.", "anchors": ["git-branchless-query/src/lib.rs: query", "git-branchless-revset/src/resolve.rs: resolve_commits", "git-branchless-lib/src/core/dag.rs: sort", "git-branchless-lib/src/core/repo_ext.rs: get_branch_oid_to_names"]}
{"id": "C98", "title": "What is saved in the editor is what git reword uses", "statement": "git reword runs the editor which git would run, with the arguments which a shell would give it, on a file with the messages of the commits. If the file is saved unchanged, but for line breaks at its end, nothing is reworded. If the messages in it are replaced, each commit gets its new message, and no other commit does. If the editor cannot be started or leaves no text, nothing is reworded. The comment character and the template are those of git's settings.", "quantifier": "all editors (programs as functions of the text), commands with quotes and arguments, settings, messages and commits", "why_tests_cant": "The editor is any program, the command any command line and the text any text; tests have one scripted editor.", "anchors": ["git-branchless-reword/src/dialoguer_edit.rs: Editor::edit, get_default_editor", "git-branchless-reword/src/lib.rs: edit_message, prepare_messages", "git-branchless-lib/src/core/config.rs: get_editor, get_comment_char, get_commit_template"]}
{"id": "C99", "title": "All worktrees of a repository use the same data", "statement": "In whichever directory of whichever worktree of a repository a command is started, it opens that worktree, runs git and hooks at the top of its working copy, and uses the event log, the settings and the hooks of the repository, which all its worktrees share. The packed references are those of the repository too.", "quantifier": "all disks (which directories are repositories, files .git and gitdir), places of the repository, worktrees, directories in them and settings of core.hooksPath", "why_tests_cant": "The layouts are unbounded (nested repositories, submodules, bare repositories); tests have one worktree next to one repository.", "anchors": ["git-branchless-lib/src/git/repo.rs: from_dir, get_working_copy_path, open_worktree_parent_repo, get_branchless_dir, get_packed_refs_path", "git-branchless-lib/src/git/run.rs: working_directory", "git-branchless-lib/src/core/config.rs: get_default_hooks_dir, get_main_worktree_hooks_dir", "git-branchless-hook/src/lib.rs: hook_reference_transaction"]}
{"id": "C100", "title": "Nothing printed is lost, and the time shown is the time spent", "statement": "Whatever is printed arrives completely and in order, on the stream it was printed to, while meters for progress come and go. The time shown for an operation is the wall-clock time during which at least one run of it was going on since the meters were cleared, however runs overlap or are nested; an operation which is running is shown as running; when nothing is running any more no meter is left.", "quantifier": "all sequences of starts and ends of operations at all places of the hierarchy, times, writes, and states of the meters between them", "why_tests_cant": "Tests run without meters (output goes to a buffer), so that none of this code is run by them.", "anchors": ["git-branchless-lib/src/core/effects.rs: RootOperation, OperationState, Effects::start_operation, Effects::on_drop_progress_handle, WriteProgress::flush, WriteProgress::drop"]}
{"id": "C101", "title": "Every open pull request of the user is known, and requests to GitHub say what is meant", "statement": "Before deciding what to create or update, `submit` knows every open pull request of the user. `gh` understands each request to make or edit a pull request as it is meant, whatever the title, the text and the names of the branches are. Pull requests are used only if asked for, and go to the remote chosen with `gh repo set-default`.", "quantifier": "all numbers of pull requests of the user and of others, titles, texts, names of branches, remotes and configurations", "why_tests_cant": "The tests use a mock in place of the program `gh`, so that none of these requests is ever made by them, and the mock has few pull requests.", "anchors": ["git-branchless-submit/src/github.rs: RealGithubClient, github_push_remote", "git-branchless-submit/src/lib.rs: select_forge"]}
{"id": "C102", "title": "Coloured output is seen in a terminal as it is styled", "statement": "With colours, a terminal shows exactly the text which is printed, each character with the colour and the effects of its style, and what is printed afterwards is not affected. Without colours the output is exactly the text. Texts which are joined or made into lines are seen in order, with only the delimiters added, and setting an effect changes nothing else.", "quantifier": "all texts, styles, effects, numbers of pieces and lists of texts, and whatever is printed afterwards", "why_tests_cant": "Tests run without colours: the escape codes are never printed in them.", "anchors": ["git-branchless-lib/src/core/formatting.rs: Glyphs::render, render_style_as_ansi, StyledStringBuilder, set_effect"]}
{"id": "C103", "title": "The prompt highlights what was searched for, shows each commit, and returns the chosen one", "statement": "In the prompt with which a commit is chosen, exactly the characters which the search found are highlighted and nothing panics, however the searcher says where they are. The commit which is returned is one of those offered, namely the one whose summary was selected; without a selection no commit is returned. The preview shows the id, the author, the date and the whole message of the commit.", "quantifier": "all texts of items, results of a search, attributes, sets of commits, selections and messages", "why_tests_cant": "The few tests which open the prompt choose from commits with ASCII messages and look at which commit is checked out; whether a position is one of a character or of a byte shows only with other characters.", "anchors": ["git-branchless-navigation/src/prompt.rs: CommitSkimItem::display, from_descriptors, prompt_skim", "git-branchless-lib/src/git/object.rs: friendly_preview"]}
{"id": "C104", "title": "A bug report shows the hooks as they are", "statement": "Whoever reads the section of a bug report about hooks as Markdown finds each of the hooks of the program once, with exactly the contents of the file which git runs for it (or that there is none), whether or not the file ends with a line break. There is no such section exactly if one of these files is not text.", "quantifier": "all contents of hooks, with hooks in the directory of hooks or in directories for several hooks", "why_tests_cant": "Tests compare the report for the hooks which the program installs itself, none of which looks like Markdown or lacks the last line break.", "anchors": ["git-branchless/src/commands/bug_report.rs: collect_hooks"]}

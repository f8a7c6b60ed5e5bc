# Formal model of git-branchless: design

The subject is the Rust source in /repo (arxanas/git-branchless at the pinned
commit). It is read as text only; nothing is compiled or run. The Lean 4 project
in `lean/` contains a function-by-function model of the parts listed below and
theorems about that model, for all inputs.

## Layout

* `lean/Verif/Model/*.lean` - the model. Each definition cites the file and lines
  in /repo that it models, and says where it is simplified.
* `lean/Verif/Spec/*.lean` - small independent specifications, in the words of the
  properties. They do not use the algorithms of the model.
* `lean/Verif/Lemmas/*.lean` - helper lemmas, no claims.
* `lean/Verif/Props/*.lean` - the property theorems, each beside an `example` with a
  concrete case satisfying its hypotheses, and witnesses for what the code gets wrong.
* `properties.jsonl` - the properties. `MANIFEST.json` - which theorem settles which
  property, and what is missing for those which are only partly true.
* `seeded/LOG.jsonl` - log of the mutation experiments (the model is edited as a
  realistic bug would, in a scratch copy; the theorems must fail).

## How Rust is modelled

* `&mut self` methods return the new value. Errors are `Option`/`Except`; a panic
  (`unwrap`, `assert!`, indexing) is a separate result, and that it does not happen is
  part of the theorems.
* Strings which are inspected are lists of characters or bytes (`Text`, `Bytes`); paths,
  names and messages which are only passed on are also `Text`.
* A `HashMap`/`HashSet` which is iterated over has its order as a parameter (an arbitrary
  permutation), so theorems hold for each order. Where the order cannot matter the
  comment says why. `BTreeMap`/`BTreeSet` and sorts are sorted lists.
* Loops without an evident bound are either well-founded recursion, or recursion with
  fuel together with a theorem that enough fuel exists (or that it does not: then the
  loop does not end, which is a finding).
* Machine integers are `Nat`/`Int`, except where stated (modes, cursor arithmetic).
* Threads (the pool of resources, C48, and the workers of `git test`, C71) are interleaved
  steps under every schedule.
* Progress bars, tracing, styling of terminal text and telemetry are left out.

## Trusted base

* Lean 4.33.0's kernel, and the axioms `propext`, `Quot.sound`, `Classical.choice` (no
  others; listed for each theorem at the end of this file). No `sorry`, no
  `native_decide`, no `bv_decide`, no axioms of our own.
* The correspondence between the model and the Rust text: established by reading only.
  Every definition cites its lines for review.
* The specifications in `Spec/` and in the theorem statements.
* Components which are not part of the repository, used through the meaning below:

| component | used in | how it appears |
|---|---|---|
| libgit2 object store | all | object ids are numbers between 1 and 2^160 - 1 (zero separately); commits are a finite map or a parameter function; that different objects have different ids is an explicit hypothesis where it is needed (C30-C32), never a global assumption |
| SQLite | C01-C03 | a table of rows in insertion order, atomic transactions, AUTOINCREMENT; a crash may happen before each statement |
| eden_dag | C14-C16, C38, C42-C45, C50-C52 | the documented meaning of its set operations, on a finite graph given in topological order (`Model/Dag.lean`) |
| `git` references | C11, C22, C29, C42 | a finite map from names to ids; updates may fail where the code handles a failure |
| `git commit`, `git branch -f`, `git update-ref -d`, `git checkout -b` | C69, C70 | the references which they change and the hooks which they run; which commit is made is arbitrary |
| `git checkout`, `git reset` | C11, C23, C45, C66, C69, C91 | where HEAD ends, by the documented behaviour for branches, ids and options |
| `git rebase` (todo list) | C55 | a small reader and interpreter of the todo list (`Spec/Todo.lean`) |
| `git rebase --continue` | C81 | how it picks, records rewritten commits, calls hooks and ends (`SeqEnv`, `gitFinish` in `Model/OnDisk.lean`); its cherry-picks give the trees of `cherry_pick_fast` (`GitPicks`) |
| `git status --porcelain=v2` | C31, C32, C36, C59 | as text for the parser (C36), as a contract which relates the entries to HEAD, index and files for snapshots (`Spec/Snapshot.lean`) |
| `git update-index --index-info` | C31 | its effect on the stages of an index, from its source |
| `git fetch`, `git push` | C47 | usual refspecs; a push fails for refused references only; nobody else pushes meanwhile |
| libgit2 tree and index functions | C33-C35 | trees are nested finite maps; merging is path by path, without detection of renames |
| libgit2 `git_message_prettify`, `git_message_trailers` | C30, C46 | modelled from their source (`Model/Reword.lean`, `Model/Trailers.lean`) |
| LALRPOP | C56 | its generated parser is taken to accept exactly the grammar; the model's parser is proved to |
| `sort_by` of Rust | C45, C57 | its contract (`SortContract`): a permutation, sorted if the comparison is a total preorder; for other comparisons any permutation |
| console, cursive; a terminal | C102 | `StyledObject` and `StyledString` from their source; a terminal which knows the codes for colours and effects (`Spec/Styled.lean`) |
| skim, textwrap | C103 | what is found and selected is arbitrary; `override_attrs` and `indent` as documented |
| glob, regex, dates | C38 | parameters |
| threads, `Mutex` | C48, C71 | steps which are atomic, a lock which excludes; ownership (a handle is dropped once) |
| `Condvar`, crossbeam channels and scopes | C71 | waiting is a step which cannot be taken yet; a receiver is told that nothing more comes when every sender is gone; a scope ends when all its threads have ended, with an error if one panicked |
| libgit2 `git_diff_foreach` | C78 | each file which differs once, with the hunks of some comparison of its lines, without context (`ComparesTrees`) |
| Phabricator (Conduit), `arc` | C82-C84 | revisions with hashes and dependencies; queries by number; an edit replaces the dependencies and may be refused (`Conduit`); `arc diff` run for commits is a parameter (`ArcAmends`: the tree and the author stay) |
| `git reset --hard`, `git checkout --force`, `git worktree add` | C86 | tracked files and the index become those of the commit, other files stay |
| processes and their commands | C86 | a killed process kills its command; its locks are dropped (fslock) |
| `git rebase --continue` at a `break`, `git rebase --abort` | C87 | the first stops there with HEAD at the commit, the second goes back to where the rebase began |
| crate scm-record | C78 | a contract (`Faithful`): the user only changes marks; selected contents are what the marks mean; nothing is said about files of which no line is left |
| file locks (fslock), serde_json | C72 | a lock is held by one open file and dropped when the process ends; what was written as a whole is read again |

## What is modelled

| model | code in /repo |
|---|---|
| Basic, Text, Lines | hex and decimal text, lines, association maps |
| EventLog, Reference | core/eventlog.rs (events, rows, database, transactions), git/reference.rs (categories, names) |
| Replay, Evolve | `EventReplayer` in core/eventlog.rs, core/rewrite/evolve.rs |
| Undo, Refs | git-branchless-undo (inverse events, application) |
| RewriteHooks, RefTransaction | core/rewrite/rewrite_hooks.rs, git-branchless-hook |
| Gc | core/gc.rs |
| Dag | core/dag.rs |
| Bisect | scm-bisect (search.rs, basic.rs) |
| Status | git/status.rs |
| Plan | core/rewrite/plan.rs |
| Execute, FinishRebase | core/rewrite/execute.rs (in memory, on disk up to starting git, branches, HEAD) |
| OnDisk | core/rewrite/execute.rs 1036-1141 (files), core/rewrite/rewrite_hooks.rs 184-216, 346-555 (hooks during an on-disk rebase), git's part |
| Tree | git/tree.rs, git/repo.rs (`cherry_pick_fast`, `amend_fast`, ...) |
| RevsetParser, Revset | git-branchless-revset |
| Hide | git-branchless commands hide.rs, repair.rs |
| Restack | git-branchless restack.rs |
| Navigate | git-branchless-navigation (next, prev), `sorted_commit_set` |
| UndoCommand | git-branchless-undo (choosing, confirming, checking out), core/check_out.rs (snapshots when checking out) |
| SnapshotCommand | git-branchless/src/commands/snapshot.rs, core/check_out.rs (create_snapshot, restore_snapshot) on files |
| RunProcess | git/run.rs (spawn_writer_thread, run_inner, run_silent_inner, run_hook_inner): pipes, threads and exit status |
| Transactions | the variable BRANCHLESS_TRANSACTION_ID: core/eventlog.rs (make_transaction_id), git/run.rs, commands/wrap.rs, test lib.rs:2641-2646 |
| Query | git-branchless-query/src/lib.rs; the second `Dag` of resolve.rs:80-88 |
| EditMessage | git-branchless-reword/src/dialoguer_edit.rs; reword/src/lib.rs:61-82; core/config.rs:111-152, 162-197; record/src/lib.rs:295-307 |
| Worktree | git/repo.rs:477-491, 514-522, 526-562, 575-596, 610-622, 659-667; git/run.rs:258-283; core/config.rs:21-62 |
| Progress | core/effects.rs:95-190, 259-434, 600-628, 656-719, 757-838, 875-953 |
| GithubClient | git-branchless-submit/src/github.rs:84-104, 827-1005; lib.rs:519-571; of `gh`: how its arguments are read, and the limit of `pr list` |
| Styled | core/formatting.rs:230-430; of console 0.15: `StyledObject`; of cursive: `StyledString`, `Style` |
| Prompt | navigation/prompt.rs, git/object.rs:222-257; of skim 0.10: `AnsiString::override_attrs`; of textwrap: `indent` |
| ReportHooks | commands/bug_report.rs:251-306 |
| InitConfig | git-branchless-init (configuration, main branch, aliases, version), git/config.rs |
| Switch | git-branchless-navigation (switch), core/check_out.rs with all kinds of targets |
| Pool | core/task.rs |
| Reword, RewordCommand | git-branchless-reword (text for the editor and its reading; the whole command) |
| Amend | git-branchless/src/commands/amend.rs (whole command), `check_out_commit` with `reset` |
| Sync | git-branchless/src/commands/sync.rs (whole command apart from the output) |
| Record | git-branchless-record (whole command apart from the output) |
| RecordDiff | git/diff.rs `process_diff_for_record`, git-branchless-record `record_interactive` (which changes are offered, what is staged) |
| Smartlog | git-branchless-smartlog |
| Describe, SmartlogText | core/node_descriptors.rs, formatting.rs `Glyphs`, the text of git-branchless-smartlog, the part of commands/bug_report.rs about the repository (`collect_events`) |
| Trailers, Snapshot | git/snapshot.rs, git/index.rs |
| Submit, Github | git-branchless-submit (lib.rs, branch_forge.rs, github.rs); of GitHub: the open pull requests, `gh pr list`, `create` and `edit` |
| Phabricator | git-branchless-submit/src/phabricator.rs (whole forge apart from the output) |
| Move | git-branchless-move (arguments, requests to the planner, the whole command) |
| Init | git-branchless-init (hooks) |
| TestRun | git-branchless-test (the threads: worker.rs, `run_tests_inner`, `event_loop`, the exit code of `print_summary`) |
| TestFix | git-branchless-test (`subcommand_run` for `git test fix`, `apply_fixes`) |
| TestCache | git-branchless-test (`make_test_files`, `test_commit`, `subcommand_clean`), git/test.rs, `read_all_test_results` |

| TestOptions | git-branchless-test (`ResolvedTestOptions::resolve`, `abbreviate_lines`, `shell_escape`) |
| TestDir | git-branchless-test (locks and directories: `prepare_working_directory`, the life of a job) |
| AbortTrap | git-branchless-test (`set_abort_trap`, `clear_abort_trap`, where tests are run in between) |
| WarnAbandoned | core/rewrite/rewrite_hooks.rs 239-344 (`warn_abandoned`) |
| Args | git-branchless-opts/src/lib.rs `rewrite_args` |

Not modelled: the rest of
git-branchless-test (output), the terminal user interfaces (undo, scm-record, and skim for choosing commits, apart from the items it is given), man
pages, the rest of bug reports (versions), the wrapper for `git` (apart from its transaction), conversions
between platforms and encodings (paths are text).

## Per-property plan

| id | model | proof |
|----|-------|-------|
| C01 | `Event`, `Row`, hex text of object ids, both conversions | case analysis; hex round trip by induction |
| C02 | event table as row list; `add_events` as a sequence of inserts in a transaction with crash points | induction over operations |
| C03 | transaction table with autoincrement counter; Display/FromStr of ids | decimal round trip by induction; invariant over histories |
| C04 | cursor functions on the replayer | arithmetic; induction over cursor operations |
| C05 | `snap_to_transaction_boundary`, helper recursion, `get_tx_events_before_cursor` | boundary predicate stated on the event list; induction |
| C06 | `process_event` building per-commit history | invariant: history = indexed mentions; spec scans the event list |
| C07 | reverse searches over events; forward fold for branches | equality with the "last update" specification; the main-branch lookup ignores deletions: witness + partial |
| C08 | `process_event` filter | fold over filtered list |
| C09 | `fix_event_git_v2_31` | anomaly-free histories are fixed points; anomalous pair collapses |
| C10 | `find_rewrite_target` with well-founded recursion on event ids | termination is the definition; chain invariant by functional induction |
| C11 | `inverse_event`, application of events to the reference store | induction over the event suffix |
| C12 | the same, status through the replayer | conditional theorem + witness for the failing cases |
| C13 | `inverse_event` twice; the whole command twice | case analysis; a counterexample for references |
| C14 | set-level model of dag.rs over an arbitrary topologically ordered graph | set reasoning with reachability |
| C15 | worklist loop of `get_connected_components` | loop invariant |
| C16 | DFS of `check_for_cycles_helper` over a finite constraint map | soundness/completeness of the DFS, with a measure for termination |
| C17 | permission checks in `build` | decision logic |
| C18, C19, C52 | `find_roots`, `make_rebase_plan_for_current_commit`, detection of commits already applied | induction over the generated command list |
| C20, C53 | interpreter of rebase commands with abstract cherry-pick | simulation invariant between planner state and interpreter state |
| C21, C24 | `execute_rebase_plan` with outcome parameters | case analysis over the complete table |
| C22, C23, C54 | `move_branches` over a reference store with failing updates; `check_out_updated_head` | induction over the rewritten map; decision table |
| C25, C26 | rewritten-list text format and update | round trip on character lists; duplicate keys: witness + partial |
| C27 | state machine of the hooks (deferred file, rebase flag, log) | trace induction |
| C28 | line parser, packed-refs fix, hook | text lemmas, filterMap |
| C29 | `find_dangling_references`, `gc`, `mark_commit_reachable` | set reasoning |
| C30 | trailers text and `load_commit` | parse of printed message, through a model of libgit2's reader |
| C31, C32, C59, C60 | index as map (path, stage) -> entry; status entries; commits of the stages; `update-index --index-info` | path by path, for all indexes which the contract of git status allows; witnesses |
| C33-C35 | git trees as nested finite maps; `hydrate_tree`, diff, `dehydrate_tree`, fast amend/cherry-pick | induction over path entries and over the depth of the tree; witnesses + partial |
| C36 | byte splitter of `get_status` | round trip; non-termination on `#` is exhibited as a loop of the step function |
| C37, C56 | lexer, parser, Display, literal unescaping | grammar as an inductive relation; soundness, completeness, unambiguity |
| C38 | AST, aliases, evaluator over sets | inductive rules; evaluator exact with respect to them |
| C39-C41 | `Search`, `BasicStrategy`, graph with reachability | invariants over report sequences; termination measure |
| C42, C43 | hide/unhide/repair on log and references | via C06, C07 |
| C44 | `find_abandoned_children`, scheduling, moves of branches | via C10, C18, C20 |
| C45, C57 | `advance` loop, sorting of commit sets | induction on n; contract of the sort |
| C46 | text for the editor and its sections | text lemmas |
| C47 | submit status partition, branch forge with git fetch and push | invariants over the pushes |
| C48 | small-step model of pool under interleavings | invariant over all schedules |
| C49 | reference categorisation, file modes | string lemmas; finite table |
| C50, C58 | `build_graph`, `get_output` | set reasoning; induction over the tree which is printed |
| C51 | `query_stack_commits` | via C14, C15 |
| C55 | text of the todo list | printed text read back by the specification |
| C61-C63 | `move` from its arguments to the new commits: sources and bases, exact selections, insert | the requests to the planner, then C14-C20; `Relocated` says what becomes of each commit |
| C64 | `update_between_lines`, files of hooks | text lemmas; induction over sequences of commands |
| C65 | `reword` from its arguments to the new commits | a symbolic run of the plan shows on which version each command works; invariant that trees stay the same |
| C66 | `amend` from its arguments to the new commits and branches | the graph with the amended commit added; the same symbolic run as for C65; resolution of names by git |
| C69 | `record` from its options to the references, with `git commit`, the hooks, `git branch -f` and `git checkout` | each step described by the references which it changes; the event log by the status of each commit |
| C70 | `record --insert` from its options to the new commits | C14-C20 for the siblings; the graph with the new commit added |
| C71 | transition system of the threads of `git test`; executions are all sequences of steps | invariant over all executions (where each job is); a measure which every step decreases; C39-C41 for the search |
| C72 | transition system of the cache of test results, with locks and numbered directories | invariant over all histories (what is in a result, who holds a lock) |
| C67, C68 | `sync` from its arguments to the new commits, with and without `--pull` | C14-C20 for each stack, induction over the plans |
| C73 | `git test fix` as a function of the repository and the results of the tests | the plan moves the affected commits in place (C65); merge base of a commit and its parent; C16, C20 |
| C74 | what a pull request should say as a function of the graph and the pull requests | the loop over the stack as a list (C13); first element of an ordered set |
| C75 | the status of commits | last branch in a fold over the branches |
| C76 | GitHub with open pull requests which are closed as soon as they are merged | invariant over the steps of the loop: after each step the state is a closed form (`forgeState`), and nothing is merged in between |
| C77 | branches and pull requests are created, then updated | three loops; the update is C76 in the world after creating |
| C78 | comparison of two files in pieces; the loop over the hunks; what is staged for the marked sections | closed form of the sections after each hunk; path by path for the index |
| C79 | the redactor as a state which goes through the whole report | simulation: renaming the references commutes with replaying, the cursors and every text; the table only grows |
| C80 | the text of lines and of descriptions | unique readability: cut at the first space or at the first comma with a space |
| C81 | git as a machine over the todo list, with the hooks and their files | simulation: a relation between the states of both executions, kept by each block of commands; induction on how plans are built |
| C82 | the forge for Phabricator: revisions as a finite map, lines of messages | case analysis; the revision of a message from C80 |
| C83 | `update_dependencies` as a loop of edits which may be refused | induction over the commits with an invariant: no cycle, and the revisions which were handled are as they should be |
| C84 | `create` and `update` around the planner and the execution in memory | the replaced commits as in C73, generalised (`ReplaceSetup`); how parents of new commits relate to those of the old ones |
| C85 | `resolve` with the options and the configuration | inversion: each accepted case gives its pieces; a reader of quoted text for the shell |
| C86 | a transition system: directories, locks, jobs of several processes, kills | invariant over all runs: the holder of a directory, and what is in it in each phase of a job |
| C87 | the trap as an on-disk rebase of no commits with a `break` | the outcome of each step; HEAD and the files are those which the rebase has noted |
| C88 | the warning as a function of graph, log and references | exactness of the items; restack as in C44 |
| C89 | arguments as lists | how paths are split; case analysis |
| C90 | the execution of a plan, with the trees of C33 behind the ids | invariant of the execution: each place has the files which merging gives; the case of disjoint changes |
| C91 | `switch` from its options to the command line of git, `check_out_commit` with all kinds of targets | rules for the target as a relation; case analysis; the reader of the command line |
| C92 | `init` and `init --uninstall` as a whole, with configuration files as lists of entries | values as last entries; laws of set and remove; induction on the aliases and the commands |
| C93 | `git undo` as a whole: keys, transactions, references, HEAD with snapshots, log | induction on the messages; C05 for transactions; C11 for references; the first event which tells HEAD |
| C94 | `snapshot create` and `snapshot restore` on files, index, HEAD, references and log | C30, C31, C59 for what is stored; the files of `git reset --hard` and `git checkout` path by path |
| C95 | running programs: deadlock, output, exit code | transition system of process, pipes and threads; invariant tying it to what the program did; a measure for termination |
| C96 | transaction ids in trees of processes | transition system of processes, environment variable and logs; invariant; C03 and C05 for the two ends |
| C97 | `git query` | the meaning of revsets of C38, the sorting of the graph, and the references; both directions |
| C98 | the editor | the command as a shell reads it, the file as any editor leaves it, then C46 |
| C99 | worktrees | paths as components, the search for a repository upwards from any directory, then C28 for packed references |
| C100 | progress and output | sums of times by induction over events, for a tree of operations; a buffer invariant for output |
| C101 | the client for GitHub | refinement: what `gh` makes of the arguments is the operation of the model of C74 to C77 |
| C102 | text with styles | refinement: a model of a terminal reads the output; induction over the pieces |
| C103 | the prompt for choosing a commit and its preview | texts as characters and as bytes: induction over the text; round trip for the preview |
| C104 | the hooks in a bug report | round trip: a reader of Markdown reads the report; induction over lines |

## Disagreements between code and property (findings)

Each of these is proved as a theorem about the model, with a concrete witness (or for
all inputs, if it says so), and stands beside the partial theorem that does hold.

1. Event log. The main branch is looked up ignoring deletions (C07
   `main_branch_ignores_deletion`). Undoing an unhide of a commit which was visible
   hides it (C12 `undo_of_redundant_unhide_hides`).
2. Hooks. With repeated old ids in the existing file only the first is updated, while
   readers keep the last (C26 `update_misses_duplicates`). One symbolic target which
   does not resolve loses the whole transaction (C28 `unresolvable_target_loses_others`).
3. Status. A `#` header line makes the loop spin without consuming input; paths which
   begin like a column are cut; a changed type counts as untracked (C36
   `header_line_hangs`, `path_cut`, `type_change_not_a_change`). The number of
   group-writable mode does not round-trip (C49 `group_writable_lost`).
4. Dag. `stack()` misses a draft root which a merge joins (C51
   `stack_misses_merged_root`).
5. Planner. The reported cycle can have a lead to it (C16 `cycle_report_has_lead`). A
   public commit can be rewritten as the target of a fixup (C17
   `fixup_rewrites_public`). Merge commits can be dropped or recreated on an old parent,
   a fixup into itself is lost, a fixup into a root commit panics (C18 `merge_dropped`,
   `merge_on_old_parent`, `self_fixup_lost`, `fixup_into_root_panics`). A commit equal
   to the merge base counts as already applied (C52 `twin_at_merge_base`).
6. Execution. Fixup targets on dropped or old commits; an empty squash is not recorded
   (C20 `fixup_target_on_dropped`, `fixup_target_on_old_base`,
   `empty_squash_not_recorded`, `replaced_on_old_parent`). Staged changes are ignored
   when rebasing on disk; a fixup on disk panics after the state was written (C24
   `staged_changes_ignored`, `on_disk_fixup_panics`).
7. Branches. Moves which happened are not reported (C22 `moves_not_reported`); the main
   branch can be deleted (`main_branch_deleted`); a branch named like a full reference
   is mixed up (C23 `wrong_branch_checked_out`); a failed move loses the record of the
   rewrites (C54 `failed_move_loses_rewrites`).
8. Trees. A directory replaced by a file, or a file by a directory, loses the file (C33
   `replacing_file_lost`, `file_removed_from_above`; C35 seven witnesses), paths deleted
   by a fixup are kept (`fixup_keeps_deleted_file`), symbolic links are followed
   (`amend_follows_links`).
9. Revsets. The escape flag is never reset, some strings cannot be written (C37
   `escape_never_ends`, `escaped_backslash_does_not_end`, `not_every_string_writable`);
   names are printed without quotes (C56 `display_not_quoted`); an alias which uses itself is
   expanded for ever, an alias named like a function is ignored (C38
   `recursive_alias_never_ends`, `alias_of_builtin_ignored`).
10. Hide and repair. Hiding deletes the main branch (C42 `hide_deletes_main`); recursive
    unhide shows more than was hidden (`unhide_recursive_more`); repair reports the same
    commits each time, drops branches with existing targets and keeps missing ones (C43
    `repair_repeats`, `repair_drops_existing_target`, `repair_keeps_missing_target`).
11. Restack. Children of a dropped commit are rewritten again and again; merge children
    stay; branches are moved outside of the selection (C44
    `dropped_parent_never_settles`, `merge_child_stays`, `branches_not_limited`).
12. Sorting. The comparison of commits of the same second goes in circles, a child can
    come before its parent (C57 `same_second_cycle`, `sorted_child_before_parent`).
13. Reword. An empty message for one of several commits is accepted, words before a
    marker are lost, own markers refused, `+` as comment character cannot work (C46
    `empty_message_accepted`, `words_before_marker_lost`, `own_marker_refused`,
    `plus_comment_refused`).
14. Smartlog. A merge commit can be missing or shown twice (C58 `merge_not_rendered`,
    `merge_rendered_twice`).
15. Snapshots. Our side of a conflict is lost when it is the file of HEAD, a conflict
    with a deletion disappears, renames and directories come back wrongly (C31
    `our_side_lost`, `deleted_by_them_lost`, `renamed_file_back`,
    `replaced_directory_lost`, `directory_in_index`); a changed type is not noticed (C32
    `type_change_unnoticed`); C59 `unknown_change_not_stored`, `link_target_stored`,
    `original_path_mode`; the commit with the unstaged changes is never kept alive (C60
    `unstaged_not_kept_alive`, for all snapshots); any commit with such a message is
    taken for a snapshot (C30 `snapshot_by_message_alone`).
16. Submit. Branches at a shared commit are ignored silently (C47
    `shared_commit_ignored`, for all repositories); one branch which was deleted at the
    remote makes the whole command fail (`deleted_upstream_fails`, for all
    repositories); the lease is refreshed just before the push, so that commits of others
    are overwritten (`behind_branch_rewinds`); the upstream branch is compared although
    another one is pushed (`other_name_replaced`, `fork_left_out_of_date`);
    `create_needs_remote`; `self_remote_reported`.
17. Move. A source above another source is moved away from it (C61
    `nested_sources_torn_apart`); with `--base` only the part after the merge base with
    the destination is moved, not the subtree from the main branch on (`base_not_from_main`). Commits of the same
    second can be refused as an exact selection, hidden selected commits are left
    behind (C62 `same_second_refused`, `hidden_selected_left`). Insert puts
    commits on hidden ones, counts hidden heads, and does not see a child which the move
    itself creates (C63 `insert_on_hidden`, `insert_hidden_heads`,
    `insert_misses_new_child`).
18. Hooks of the user. Without the second marker line the rest of the file is lost;
    changed marker lines lead to a second section; Windows line endings are lost;
    uninstalling creates hooks (C64 `unterminated_section_lost`,
    `changed_marker_doubles`, `carriage_returns_lost`, `uninstall_creates_hooks`).
19. Reword. A merge commit above makes the command fail with a message that this is a
    bug (C65 `reword_below_merge`, for all repositories); commits without changes above
    are dropped (`reword_drops_empty`); a commit without parents makes it panic
    (`reword_root_fails`, for all repositories).
20. Amend. After the commit was amended the branch is given by its short name to
    `git reset`. With a tag of the same name this moves the branch to the commit of
    the tag (C66 `amend_tag_of_this_name`); with a file of the same name git refuses,
    and the commits above stay on the old commit (`amend_file_of_this_name`).
21. Amend. With `--reparent`, a merge commit directly above the amended commit gets a
    new version which is still on top of the original commit (C66
    `reparent_merge_left`).
22. Sync. If the main branch is not checked out, `sync --pull` moves it forward without
    an event in the event log (C68 `fast_forward_not_recorded`). Local commits of the
    main branch which are on top of the upstream commit already are rewritten
    (`main_ahead_rewritten`); with a merge among them nothing is done and nothing is said
    (`main_with_merge_not_synced`).
23. Sync. A stack whose first commit is a merge commit of commits of the main branch is
    planned onto its old parents; on disk it is reported as synced (C67
    `merge_root_not_moved`).
24. Record. `record --stash` with a detached HEAD leaves the new commit checked out (C69
    `stash_detached_stays`). `record --detach` for the first commit of a repository
    deletes the branch on which HEAD is (`detach_first_commit`). `record --create
    --interactive` with staged changes refuses, but has created the branch already
    (`refused_branch_stays`).
25. Record. `record --stash --insert` moves the siblings of the commit which was checked
    out, not the commits on top of it (C70 `stash_insert_moves_siblings`).
26. Test. If one of several threads panics in the middle of a test, `git test` hangs: the
    others wait for jobs, and the main thread waits for the missing result (C71
    `panic_hangs`). The comment in the code relies on the main thread being told.

27. Test. The results of commands which differ only in `/`, spaces and line ends are kept in
    one place, and the command in the result is not looked at: `pytest tests unit` is said
    to have passed on a commit after `pytest tests/unit` did (C72 `cache_wrong_command`).
28. Test. `tests.passed()`, `tests.failed()` and `tests.fixable()` ignore all the results of a
    tree if one of its tests has no result: while one is run, after one was stopped or ended
    by a signal, or after `git test show` for a command which was not run (C72
    `tests_passed_lost`, `results_lost_iff`).
29. Test. A result which was cut off (the process was killed while writing) stays until
    `git test clean`, since the file is not empty (C72 `garbled_forever`); and a commit whose
    tree is being tested elsewhere is skipped, so `git test` with several jobs and two commits
    with the same tree ends with exit code 1 (C72 `cache_in_progress`).
30. Test. `git test fix` drops a commit with the same patch as a commit directly below the
    rewritten ones (for example if the one in between reverts it), and deletes the branch
    which was there: the commits in place are looked for "upstream", which contains the merge
    base itself (C73 `test_fix_drops`; in the report the commit is "(deleted)", for which the
    code says "Shouldn't happen"). It cannot fix a commit without parents
    (`test_fix_root_fails`).
31. Submit. The pull request for a commit is based on the farthest pull request below, not on
    the nearest: the list of commits, which has children first (as the comment in `Dag::sort`
    says), is reversed before the search for `nearest_ancestor_with_pull_request_info`. With
    three commits in a stack, the third pull request shows the changes of the second one, too
    (C74 `pr_base_not_nearest`, `pr_base_farthest`). This rests on the order of the sets of
    the library for graphs, which is a parameter of the model.
32. Submit. After `submit --create` on top of a stack, the pull requests which were up to date
    have the wrong number and list of the stack, and are reported as skipped (C77
    `create_leaves_stale`).
33. Submit. With two branches at a commit, the last one counts: though the other one has a pull
    request, the commit is "unsubmitted", and `--create` makes a second pull request (C75
    `second_pr`).
34. Submit. If two branches with pull requests change places, one of the pull requests is
    closed although the code means to avoid this (C76 `swapped_branches_close`). With
    `branchless.core.mainBranch` set to `origin/main`, `gh pr edit` is told to use this as the
    base branch (C74 `main_branch_of_remote`).
35. Record. `record --interactive` has no section for the mode of a binary file: a new binary file
    which is selected is not committed (its mode is the one of an absent file), and a binary
    file which changes does not get its new mode (C78 `new_binary_not_staged`,
    `binary_mode_not_staged`, `binary_mode_lost` for all such files). A new text file whose lines
    are selected but not its mode is not committed (`new_file_without_mode_not_staged`).
36. Record. If a file which was not UTF-8 becomes UTF-8, `record --interactive` panics (C78
    `other_encoding_panics`, for all such files unless the first change is an insertion at the
    beginning).
37. Bug reports. The branch which is checked out is compared with the redacted names, so that it is
    not marked in a report unless it is the main branch (C79 `report_hides_head`). All five graphs
    in a report are about the present, also below "There are no previous available events"
    (`graph_of_now`, `exReport_before`).
38. Smartlog. `smartlog --event-id` shows the commits of that time but explains them with the events
    of the present: a commit which is shown as visible is "manually hidden" (C80
    `earlier_explained`).
39. Smartlog. A single commit with a time before 1970 makes the smartlog (and a bug report) fail (C80
    `smartlog_shown_iff`, `old_commit_fails`).
40. Smartlog. A commit which was dropped is described as "rewritten as 00000000" (C80
    `dropped_described`).
41. On-disk rebases. git ignores the exit code of the hook which moves the branches and checks out the new `HEAD`. If it
    fails, the exit code is 0 and the command says that it succeeded, while branches stay at the old commits and
    `HEAD` is detached (C81 `on_disk_failure_unnoticed`); in memory this is an error.
42. On-disk rebases. If the branch which was checked out is deleted since nothing is left of its commit, a rebase in
    memory checks out the only branch at the new commit; one on disk leaves `HEAD` detached (C81
    `on_disk_head_detached`), since it is at the right commit already.
43. On-disk rebases. The committer of a rewritten commit stays in memory, and becomes the user on disk (C81
    `on_disk_other_committer`). With `branchless.restack.preserveTimestamps` its date becomes that of the author
    (`cdate_is_adate`), which is not the one that should be preserved.
44. Phabricator. `submit --create` calls `update` with the ids from before `create` has rewritten the commits. If a new
    commit is below one with a revision, the latter is taken to be the bottom of the stack, and its dependency is
    lost (C84 `created_below_submitted_loses_dependency`).
45. Phabricator. For a stack new, submitted, new, the middle one is rewritten by `create`, but its new id is not among the
    commits looked at for dependencies. The upper revision depends on nothing (C84
    `created_above_submitted_loses_dependency`).
46. Phabricator. If it refuses a change of dependencies (exit code 0, with an error message in the answer) nobody looks
    at the answer (C83 `refused_dependency_unnoticed`), though `query_revisions` does for queries.
47. Phabricator. Without `--create` the commits which were not submitted are not in the report, nor those which were
    skipped or updated, since they have no name (C84 `unsubmitted_not_reported`).
48. Phabricator. Submitting part of a rearranged stack makes a cycle of dependencies, or a refused change which is not
    noticed (C83 `part_of_stack_makes_cycle`).
49. `branchless.test.jobs` of two or more, without a strategy: the jobs are all run in the working copy (C85
    `configured_jobs_in_working_copy`), where only one can be; commits of the others are reported as failed (C86
    `jobs_fail_in_working_copy`). With `--jobs` worktrees are used.
50. The suggested command `git test clean "..."`: `shell_escape` makes four backslashes of one, which the shell reads as
    two, and leaves `$` and backticks, which the shell replaces (C85 `shell_escape_read`, `shell_escape_backslash`).
51. `git test` in the working copy with staged changes only: the check is about unstaged changes. The tests are not
    run, since git refuses, but HEAD is detached and a rebase is left in progress (C87 `staged_changes_trapped`).
52. Files which are not tracked, and which a test has left, are seen by the next test in the directory (C86
    `leftovers_seen`).
53. The warning after a rewrite counts children of dropped commits and recommends `git restack`, which leaves them, since
    a dropped commit has no successor (C88 `dropped_warned_in_vain`).
54. `rewrite_args` has a comment that `git-branchless-hook-X` becomes `git-branchless hook X`. It becomes
    `git-branchless hook-X`, which is no subcommand (C89 `hook_by_name_unknown`).
55. With `autoSwitchBranches`, `git switch` to a commit which is given by its object id, by a tag or by a revset checks it out
    detached even if exactly one branch is there, unlike the description of that option (C91 `switch_named_detaches`);
    only a commit which is selected interactively leads to its branch.
56. Selecting the commit of HEAD, and `git next --all` or `git prev --all` where there is nowhere to go, check out the object
    id and so leave the branch which was checked out (C91 `switch_selected_head_detaches`,
    `nowhere_to_go_detaches`).
57. The help of `git switch` says that without a target a commit is selected interactively; none is (C91
    `switch_does_not_ask`). `git switch 'A + C'` with `A` an ancestor of `C` further below is refused, since both count as
    heads (C91 `switch_counts_ancestor`).
58. `git branchless init` keeps an alias of the user's if it is in the user's configuration for all repositories, but
    replaces one in the configuration file of the repository: the isolated file is included at its end (C92
    `repository_alias_replaced`).
59. `init` takes every `include.path` which starts with `branchless/` for its own; other files there which the user
    includes are not included any more, also not after `init --uninstall` (C92 `user_include_lost`).
60. `git undo` moves references without its hooks being run, and does not record that. So undoing an undo does not redo: a
    second `git undo` after one which only moved branches undoes the same transaction again (C13 and C93
    `undo_cannot_be_undone`, `undo_refs_untraced`).
61. The snapshot which `git undo` takes is made after HEAD was detached, and so forgets the branch: undoing the undo leaves
    HEAD detached (C93 `undo_snapshot_forgets_branch`). After undoing a commit on a branch HEAD is detached, too, if
    there is no snapshot among the undone events (`undo_done`, case `moved`).
62. With `autoSwitchBranches`, undoing back to before the main branch was made fails after the references were changed;
    HEAD is left detached (C93 `undo_without_main_fails`).
63. In `git undo --interactive`, `g` can choose a position in the middle of a transaction, so that a part of it is undone
    (C93 `goTo_splits_transaction`).
64. `git branchless snapshot create` runs `git reset --hard`, which deletes untracked files in a directory in place of a
    tracked file; they are in no snapshot (C94 `file_in_the_way_lost`).
65. The contents of files in conflict are not stored in a snapshot; restoring gives them the contents of HEAD (C94
    `conflict_file_lost`). An unfinished merge is forgotten (C94 `merge_forgotten`).
66. Before the first commit, `snapshot create` ends with an error from `git reset --hard HEAD`, after it made the snapshot
    and recorded it (C94 `unborn_create_fails`).
67. `snapshot restore` begins with `git reset --hard`, without making a snapshot of what is there. If the checkout after it
    fails, because of an untracked file, then these changes are lost and nothing is restored (C94
    `blocked_restore_discards`).
68. The message at snapshot.rs:45-53 is never printed: with the default options of `run_silent` a failure of `git reset` is
    an error already.
69. `run_hook` and `run_silent` write all of the input before they read any output. A hook which writes more than a pipe
    holds before it reads its input makes the command hang if the input is longer than a pipe, as the list of rewritten
    commits of a large rebase can be (C95 `hangs_iff`, `chatty_hook_hangs`). The hooks of git-branchless itself read first.
70. A hook which leaves without reading its input, as most one-line scripts do, may or may not make the command fail
    with "Writing hook process stdin", depending on which of the two is faster (C95 `idle_hook_race`). For post-rewrite
    and reference-transaction this is after the commits and branches were moved.
71. A hook, or git, which writes a line that is not UTF-8 makes the command panic, after the program ended (C95
    `latin_hook_panics`).
72. A hook which starts something in the background without redirecting its output keeps the command waiting until that
    ends (C95 `daemon_hook_waits`). In `run_silent` too.
73. The transaction id is a number which means something in one repository only, but it is handed on to everything that is
    run. Hooks which run in another repository (submodules, scripts) record under it: such events join an unrelated
    transaction, which has the wrong message, and which `git undo` undoes as a whole (C96 `other_repository_merged`), or they
    have no message (`other_repository_no_message`).
74. Commands which run at the same time split each other's transactions, since transactions are recognised as runs of
    events: `git undo` undoes a part of a command (C96 `interleaved_commands_split`).
75. A shell opened from a wrapped command, as from the editor of a commit message, makes all commands which are run in it
    one transaction (C96 `shell_below_merges`).
76. In `git test run --interactive` the shell inherits the suppressed id: commits which are made in it are not recorded,
    although the message printed suggests making some (C96 `interactive_test_unrecorded`, `suppressed_family`).
77. `--hidden` opens a second `Dag` for evaluating the query. Commits which the query names and which were not known (fetched
    ones) are added to that one only; sorting the result with the first one fails. Since the graph is stored, the same
    command succeeds when it is repeated (C97 `hidden_query_fails_once`, `query_hidden_unknown_fails`).
78. A commit which is not visible is found if it is the whole query, but is lost in every function, even in a union with
    itself: `git query 'origin/x + b'` does not print `origin/x` (C97 `named_invisible_lost`).
79. The exit code of the editor is not looked at. An editor which ends with an error (vim's `:cq`) makes git abandon the
    edit; `git reword` uses what is in the file (C98 `exit_code_ignored`, `abandoned_edit_applied`).
80. `core.commentChar=auto` is taken for the comment character `a`: every line of the new messages which begins with `a` is
    lost without a word (C98 `setting_strips_lines`, `auto_loses_line`). The source has a comment that `auto` is not
    supported, but does not refuse it. An empty setting is a panic, even with `-m` (C98 `empty_comment_char`).
81. The editor is not run by a shell: `$HOME/bin/ed` or `~/bin/ed` work with git but not here (C98 `editor_not_expanded`), and a
    blank editor is a panic (C98 `blank_editor_panics`).
82. `commit.template = ~/msg.txt` is looked for in a directory called `~` of the working copy, and silently not found (C98
    `home_template_lost`).
83. In a worktree, the repository it belongs to is looked for upwards from the directory ABOVE the directory of git. In a
    worktree of a bare repository every command fails (C99 `bare_worktree_fails`), or, if the bare repository is inside
    another repository, the event log and hooks of that one are used and changed (C99 `worktree_uses_other_repo`); a
    worktree of a submodule uses those of the superproject (C99 `submodule_worktree_uses_other`).
84. The hook for transactions of references looks for `packed-refs` in the directory of the worktree, where git has none.
    `git pack-refs` in a worktree (with git before 2.36, which tells the hook of it) is recorded as the deletion of every
    branch, while in the main working copy it is recorded as no change (C99 `worktree_packing_is_deletion`,
    `main_packing_no_change`).
85. A file called `gitdir` at the top of a worktree is read as if it were git's own file of that name, and the working copy is
    then taken to be where its first line leads (C99 `file_called_gitdir`).
86. A relative `core.hooksPath` is taken relative to the directory in which `init` is started; git takes it relative to the top
    of the working copy (C99 `relative_hooks_misplaced`).
87. While meters are shown, output for stdout is printed on stderr, where the meters are: `git sync > log` has only those lines
    in the file which were printed while no meter was shown (C100 `output_goes_to_stderr`).
88. A text without the end of its line, printed while meters are shown, is lost when the stream is dropped, which is right
    after every `write!` (C100 `unfinished_line_lost`; a comment in the source admits it).
89. The meter for a warning shows the cross of a failure: the style uses `CROSS` in place of `EXCLAMATION`, which is defined and
    unused (C100 `warning_shown_as_failure`).
90. An operation which ended with an icon and is started again keeps the icon, contrary to the comment of `start_operation` (C100
    `restarted_keeps_icon`).
91. `git record --detach` and `--stash` while a merge is in progress on a branch: the merge commit is made, then the command fails
    because "it should only be capable of creating zero- or one-parent commits", and the branch, moved to the merge commit, stays checked out
    (git-branchless-record/src/lib.rs:171-206; C69 `merge_commit_stays_on_branch`).
92. `git record --insert` while a merge is in progress: the commits above the merged commit are also put on top of the merge
    commit, so when a shared commit is merged every other stack on it is moved
    (git-branchless-record/src/lib.rs:444-448; C70 `merge_insert_moves_merged_children`).
93. `gh pr list` is run without `--limit`, so only the 30 latest open pull requests are known. A commit with an older one is said not
    to be submitted, `submit` does not update it, and `submit --create` pushes its branch and fails, since it asks for a second pull
    request for the branch (C101 `old_pr_unknown`, `old_pr_created_again`).
94. Escape characters in the messages of commits are printed as they are, so that a commit which somebody else made can change
    colours and, in general, control the terminal, also if colours are switched off (C102 `escapes_reach_terminal`).
95. In the prompt for choosing a commit, a range of bytes which was found is turned into a range of characters with a number of
    characters in place of a number of bytes. If there is a character outside of ASCII before it (such as the arrow of the
    branch which is checked out), too much is highlighted, or the program panics (C103 `found_bytes_highlighted`,
    `search_panics`, `search_highlights_too_much`).
96. In a bug report, a hook with a line of three backticks is cut there, and a hook whose last line is `<missing newline>` looks
    like one without a line break at the end (C104 `fence_in_hook`, `missing_newline_unclear`).
97. A commit above a merge whose two sides are moved to different places is compared only with what is upstream of the side
    which is rebased last; if the same change is upstream of the other side, the commit is not skipped (C52
    `twin_on_other_side`).

Seen while reading, outside of what is modelled or not proved: `core.commentChar=auto`
is read as `a`, and an empty value panics; `move --fixup -s X` also squashes hidden descendants; the on-disk script
resets to the old id where it goes back to a commit which was not rewritten; the
message of hide says that the main branch is deleted although it is moved; a changed
submodule makes creating a snapshot fail; paths which are not UTF-8 are changed when
they are displayed; a staged rename `a/b -> a` makes creating a snapshot fail.

## Axioms of each theorem

Printed by `#print axioms` for every theorem named in `MANIFEST.json`. No other axiom
occurs anywhere in the project.

### No axioms

* C102: `background_lost`
* C103: `search_panics`, `search_highlights_too_much`
* C49: `file_mode_number_partial`, `group_writable_lost`, `file_mode_unsigned`
* C61: `base_whole_branch`
* C64: `uninstalled_comments`, `unterminated_section_lost`, `changed_marker_doubles`, `carriage_returns_lost`
* C98: `edit_noop`

### `propext`

* C07: `main_branch_ignores_deletion`
* C100: `running_symbol`, `message_unknown`, `suppressed`, `restarted_keeps_icon`, `warning_shown_as_failure`
* C101: `forge_used`
* C102: `plain_is_text`, `escapes_reach_terminal`
* C104: `fence_in_hook`, `missing_newline_unclear`
* C12: `undo_of_redundant_unhide_hides`
* C13: `inverse_twice`
* C16: `cycle_report_has_lead`
* C17: `fixup_rewrites_public`
* C18: `merge_dropped`, `merge_on_old_parent`, `self_fixup_lost`, `fixup_into_root_panics`
* C20: `fixup_target_on_dropped`, `fixup_target_on_old_base`, `empty_squash_not_recorded`, `replaced_on_old_parent`
* C21: `declined_changes_nothing`
* C22: `moves_not_reported`, `main_branch_deleted`
* C23: `wrong_branch_checked_out`
* C24: `conflicts_only_if_requested`, `both_forced`, `staged_changes_ignored`, `on_disk_fixup_panics`
* C28: `uncommitted_not_recorded`, `unresolvable_target_loses_others`
* C29: `mark_missing_is_noop`
* C31: `renamed_file_back`, `replaced_directory_lost`, `directory_in_index`
* C32: `hasConflict_iff`, `type_change_unnoticed`
* C33: `replacing_file_lost`, `file_removed_from_above`
* C35: `cherry_pick_loses_new_file`, `cherry_pick_misses_conflict`, `cherry_pick_loses_file_of_target`, `cherry_pick_loses_directory_of_target`, `amend_loses_file`, `fixup_keeps_deleted_file`, `amend_follows_links`
* C36: `path_cut`
* C37: `literal_without_backslash`, `escape_never_ends`, `escaped_backslash_does_not_end`
* C38: `recursive_alias_never_ends`
* C42: `unhide_recursive_more`, `hide_deletes_main`
* C43: `repair_repeats`, `repair_drops_existing_target`, `repair_keeps_missing_target`
* C44: `dropped_parent_never_settles`, `merge_child_stays`, `branches_not_limited`
* C47: `behind_branch_rewinds`, `other_name_replaced`, `fork_left_out_of_date`, `self_remote_reported`
* C49: `file_mode_text_iff`, `file_mode_of_number`
* C51: `stack_misses_merged_root`
* C52: `twin_at_merge_base`
* C54: `failed_move_loses_rewrites`
* C55: `replaced_not_applied`
* C56: `display_not_quoted`
* C57: `orderly_of_chain`, `sorted_child_before_parent`
* C59: `link_target_stored`, `original_path_mode`
* C61: `nested_sources_torn_apart`
* C62: `hidden_selected_left`
* C63: `insert_on_hidden`, `insert_hidden_heads`, `insert_misses_new_child`
* C64: `uninstall_creates_hooks`
* C66: `amend_tag_of_this_name`, `amend_file_of_this_name`, `reparent_merge_left`
* C67: `merge_root_not_moved`
* C68: `sync_main_no_upstream`, `sync_pull_stops`, `fast_forward_not_recorded`
* C69: `record_without_commit`, `record_no_changes`
* C70: `stash_insert_moves_siblings`
* C71: `panic_hangs`
* C72: `cache_wrong_command`, `tests_passed_lost`, `cache_cleaned_while_running`
* C73: `test_fix_drops`
* C76: `submit_prs_dry_run`
* C78: `new_file_without_mode_not_staged`
* C79: `shown_names_clash`
* C80: `dropped_described`
* C81: `on_disk_head_detached`, `on_disk_other_committer`, `on_disk_failure_unnoticed`
* C83: `part_of_stack_makes_cycle`
* C84: `phab_dry_run`, `unsubmitted_not_reported`
* C85: `configured_jobs_in_working_copy`, `shell_escape_read`, `shell_escape_backslash`
* C86: `jobs_fail_in_working_copy`, `leftovers_seen`
* C87: `tests_in_worktrees`
* C88: `dropped_warned_in_vain`
* C89: `hook_by_name_unknown`
* C93: `selection_boundary`, `keys_ignore_case`
* C94: `snapshot_create_error`
* C95: `idle_hook_race`, `latin_hook_panics`
* C96: `other_repository_no_message`, `interactive_test_unrecorded`
* C98: `template_read_partial`, `home_template_lost`
* C99: `main_data`, `worktree_data_partial`, `same_database_partial`, `worktree_data_right_iff`, `bare_worktree_fails`, `worktree_uses_other_repo`, `file_called_gitdir`, `hooks_dir_partial`, `relative_hooks_misplaced`, `main_packed_refs`, `bare_worktree_no_data`, `submodule_worktree_uses_superproject`

### `propext`, `Quot.sound`

* C03: `txId_text_roundtrip`, `make_transaction_id_inherits`, `suppressed_transaction_records_nothing`, `fresh_transaction_ids`, `fresh_transaction_id_not_present`, `transaction_message_found`
* C04: `cursor_moves_exactly`
* C05: `boundary_determined`
* C07: `cursor_head_exact`, `cursor_branches_exact`, `references_snapshot_exact`, `main_branch_exact_partial`
* C08: `internal_refs_have_no_influence`
* C09: `clean_log_is_kept`, `repair_recovers_history`
* C100: `message_shown`, `written_in_order`, `whole_lines_arrive_partial`, `no_meters_arrive`, `right_stream_partial`, `unfinished_line_lost`, `output_goes_to_stderr`
* C101: `create_request`, `created_url`, `edit_request`, `all_prs_known_partial`, `few_prs_status_partial`, `duplicate_refused`, `old_pr_created_again`, `push_remote_first`
* C102: `join_seen`, `lines_seen`, `set_effect_seen`
* C103: `found_chars_highlighted`, `prompt_not_chosen`, `preview_shows_message`
* C104: `report_hooks_read_partial`
* C11: `undo_declined_changes_nothing`
* C13: `undo_cannot_be_undone`
* C14: `filter_visible_exact`, `public_exact`, `draft_exact`
* C17: `verify_rewrite_set_allows`, `illegal_move_no_plan`
* C19: `labels_defined`, `labels_distinct`
* C21: `failed_in_memory_changes_nothing`
* C24: `in_memory_only`, `on_disk_only`, `in_memory_if_possible`, `on_disk_not_started_partial`, `on_disk_starts`
* C25: `rewritten_list_accepted_iff`
* C29: `gc_succeeds`, `mark_reachable_creates`, `mark_reachable_succeeds`, `mark_reachable_idempotent`
* C30: `snapshot_has_markers`, `ordinary_commit`
* C31: `head_restored`
* C33: `hydrate_given`, `hydrate_unchanged`, `hydrate_above`
* C36: `status_terminates`
* C37: `literal_with_backslash`
* C38: `calls_return_visible`, `eval_stack_independent`, `smartlog_default_exact`, `alias_of_builtin_ignored`
* C46: `unedited_text`, `given_messages`, `empty_message_accepted`, `words_before_marker_lost`
* C48: `never_shared`, `handle_has_resource`, `nothing_lost`, `pool_progress`, `no_panic`
* C49: `categorize_exact`, `render_suffix_injective`
* C51: `stack_exact`, `stack_is_components_partial`
* C57: `insertionSortBy_contract`, `same_second_cycle`
* C58: `merge_not_rendered`, `merge_rendered_twice`
* C59: `snapshot_created`
* C60: `stages_kept_alive`, `unstaged_not_kept_alive`
* C61: `base_not_from_main`
* C62: `same_second_refused`
* C64: `hooks_after`, `multi_hooks_after`, `hooks_call`, `hook_updated`, `own_lines_kept`, `unreadable_hook`
* C65: `reword_root_fails`, `reword_fixup_exact`, `reword_drops_empty`
* C68: `main_ahead_rewritten`, `main_with_merge_not_synced`
* C70: `merge_insert_moves_merged_children`
* C71: `search_graph`
* C72: `cache_sound`, `cache_used`, `cache_exclusive`, `cache_in_progress`, `cache_started_iff`, `cache_cleaned`, `garbled_forever`, `results_lost_iff`, `results_read`, `tests_revsets_partial`
* C74: `pr_base_not_nearest`, `main_branch_of_remote`
* C75: `pr_status_only`, `second_pr`
* C76: `swapped_branches_close`
* C77: `summary_slug`, `new_branch_name`, `new_branch_fails`
* C78: `binary_mode_lost`
* C79: `redacted_summary`
* C80: `relative_time`, `future_time`
* C83: `dependencies_known`
* C84: `phab_create_all_or_none`
* C85: `abbreviated_lines`, `shell_escape_partial`
* C86: `one_test_per_directory`, `test_sees_commit`, `test_undisturbed`, `test_directory_exact`, `test_of_job`, `lock_available`
* C87: `trap_aborted`
* C89: `called_by_name`, `called_directly`, `arguments_kept`
* C90: `clean_picks_from_trees`
* C91: `switch_does_not_ask`, `switch_counts_ancestor`
* C92: `init_user_overrides`, `own_entries_kept`, `uninstall_restores`, `main_branch_chosen`, `main_branch_missing`, `git_version_found`, `repository_alias_replaced`, `user_include_lost`
* C93: `selection_steps`, `cursorAfter_unique`, `undo_cannot_be_undone`, `goTo_splits_transaction`
* C94: `snapshot_create_succeeds`, `ordinary_commit_not_restored`, `merge_forgotten`, `unborn_create_fails`
* C95: `run_exited`, `run_reported`, `run_panicked`, `run_brokenPipe`, `readsAll_no_brokenPipe`, `daemon_hook_waits`
* C96: `interleaved_commands_split`, `other_repository_merged`, `shell_below_merges`
* C98: `edit_saved`, `edit_failed`, `edit_order`, `session_unchanged`, `session_editor_failed`, `record_edit_saved`, `exit_code_ignored`, `setting_strips_lines`, `empty_comment_char`, `blank_editor_panics`, `editor_not_expanded`, `auto_loses_line`, `abandoned_edit_applied`
* C99: `submodule_worktree_uses_other`, `worktree_working_directory`, `main_working_directory`, `worktree_packed_refs_wrong`

### `propext`, `Quot.sound`, `Classical.choice`

* C01: `event_row_roundtrip`, `row_accepted_iff`, `row_keeps_transaction`
* C02: `add_events_journal`, `add_events_appends`, `add_events_never_partial`
* C04: `api_cursor_valid`, `api_cursor_no_panic`
* C05: `advance_by_transaction_exact`, `advance_by_transaction_inverse`, `tx_events_before_cursor_exact`
* C06: `activity_status_exact`, `latest_event_exact`, `cursor_oids_exact`, `activity_status_now`
* C09: `repair_keeps_positions`
* C10: `find_rewrite_target_terminates`, `find_rewrite_target_exact`, `find_rewrite_target_none`, `find_rewrite_target_ne`
* C100: `shown_time`, `sinceCleared_total`, `running_has_meter`, `quiet_no_meters`
* C101: `known_prs`, `old_pr_unknown`
* C102: `seen_as_styled`, `render_fails_iff`
* C103: `found_bytes_highlighted`, `found_bytes_ascii_partial`, `found_bytes_wrong`, `prompt_chosen`
* C104: `no_report_iff`
* C11: `undo_restores_refs`, `undo_checkout_target`
* C12: `undo_keeps_unmentioned`, `undo_hides_created`, `undo_shows_hidden`, `undo_restores_visibility_partial`
* C13: `redo_restores_status`, `redo_restores_refs_partial`, `undo_refs_untraced`
* C14: `visible_exact`, `public_draft_partition`, `clear_obsolete_exact`, `hide_removes_only_ancestors`, `hide_removes_exactly`
* C15: `components_partition`, `components_no_edges`
* C16: `cycle_check_terminates`, `cycle_check_iff`, `cycle_reported_real`, `build_terminates`, `build_cycle_iff`, `subtree_cycle_iff`, `cycle_first_is_last_partial`
* C17: `verify_rewrite_set_iff`, `public_not_rewritten_partial`, `moves_never_rewrite_public`
* C18: `plan_each_once_partial`, `subtree_plan_each_once`, `linear_plan_each_once`, `pick_applies_squashed`, `pick_applies_in_order`
* C20: `subtree_rebase_in_memory`, `in_memory_rebase_partial`, `squashed_recorded_with_target`
* C22: `branches_follow`, `report_truthful_partial`, `report_complete`, `report_missing`, `moves_succeed`, `finished_references`
* C23: `head_on_branch`, `head_detached`, `head_unborn`, `head_lands`
* C25: `rewritten_list_roundtrip`
* C26: `update_overrides_partial`, `update_misses_duplicates`
* C27: `rebase_underway_records_nothing`, `hooks_record_exactly_once`
* C28: `committed_recorded_partial`, `reports_unique`, `packing_is_no_change`, `unpacked_update_as_given`, `packed_refs_read`
* C29: `gc_exact`, `marked_survives_gc`, `keepAliveName_injective`
* C30: `snapshot_roundtrip`, `snapshot_by_message_alone`
* C31: `restored_index_partial`, `index_restored_iff_partial`, `our_side_lost`, `deleted_by_them_lost`, `restored_index_unborn`
* C32: `changes_type_partial`, `record_action_partial`
* C34: `changed_paths_exact`, `changed_files_exact`, `touched_exact`
* C35: `cherry_pick_fast_partial`, `amend_from_index_partial`, `amend_from_working_copy_partial`, `amend_from_commit_partial`
* C36: `status_exact_partial`, `unknown_line_is_error`, `header_line_hangs`, `ordinary_read_iff`, `type_change_not_a_change`
* C37: `literal_value_partial`, `writable_partial`, `not_every_string_writable`
* C38: `eval_exact`, `value_unique`, `eval_terminates`, `resolve_exact`
* C39: `notify_ok_iff`, `bisect_never_contradictory`, `verdict_stays`
* C40: `proposals_exact`, `first_proposal`, `report_shrinks`, `run_bounded`, `enumeration_terminates`, `enumeration_terminates_finite`
* C41: `bisect_finds_boundary`
* C42: `hide_records`, `hide_status`, `hide_deletes_branches`, `hide_records_branches`, `hide_succeeds`, `hidden_disappear`, `unhide_records`, `unhide_status`, `hide_unhide`
* C43: `repair_records`, `repair_dry_run`, `repair_effect`, `repair_complete`, `repair_again_partial`
* C44: `restack_schedule_exact`, `restack_refused_iff`, `restack_in_memory_partial`, `restack_branches_exact`, `restack_settles_partial`, `restack_branches_settled`
* C45: `advance_exact`, `advance_terminates`, `traverse_lands`, `mem_candidateSet`
* C46: `edited_text_exact`, `new_messages_arrive`, `new_message_arrives`, `own_marker_refused`, `plus_comment_refused`
* C47: `submit_pushes`, `submit_leaves`, `submit_pushes_all_partial`, `submit_report`, `submit_effect`, `submit_succeeds`, `usual_submit`, `create_submit`, `shared_commit_ignored`, `deleted_upstream_fails`, `create_needs_remote`
* C48: `created_at_peak`
* C50: `smartlog_graph_exact`
* C52: `skipped_has_twin`, `skipped_has_twin_below`, `skipped_iff_twin_below_partial`, `skipped_iff_twin_subtrees`, `skipped_iff_twin_partial`, `twin_on_other_side`
* C53: `in_memory_stops_only_for_merges`
* C54: `rebase_recorded`
* C55: `todo_list_means_plan`
* C56: `lex_exact`, `parse_tokens_exact`, `parse_exact`, `grammar_unambiguous`, `tokens_unambiguous`, `display_parses`
* C57: `sorted_commit_set_sorted`, `orderly_of_older`
* C58: `smartlog_rendered`, `smartlog_once_partial`
* C59: `working_copy_stored_partial`, `unknown_change_not_stored`
* C61: `base_exact`, `move_inputs_exact`, `move_sources_plan`, `move_sources_in_memory_partial`, `move_sources_command_partial`
* C62: `move_exact_in_memory_partial`, `exact_selection_ok_iff`, `move_exact_plan_partial`, `move_exact_command_partial`
* C63: `move_insert_plan_partial`, `move_insert_in_memory_partial`, `move_insert_command_partial`, `move_exact_insert_plan_partial`, `move_exact_insert_in_memory_partial`, `move_exact_insert_command_partial`
* C65: `reword_command`, `reword_public_exact`, `reword_refused_unchanged`, `reword_no_conflicts`, `reword_below_merge`, `reword_below_merge_fails`
* C66: `amend_command_partial`, `amend_head_partial`, `amend_refused_exact`, `amend_reparent_no_conflicts`, `amend_nothing`, `amend_source`, `amend_leaf`, `amend_head_succeeds`
* C67: `sync_stacks_in_memory`, `sync_command_in_memory`, `sync_roots_exact`, `sync_roots_cover`
* C68: `sync_main_fast_forward`, `sync_main_diverged_partial`
* C69: `record_follows_options_partial`, `commit_recorded`, `stash_detached_stays`, `detach_first_commit`, `refused_branch_stays`, `merge_commit_stays_on_branch`
* C70: `insert_before_siblings`, `record_insert_partial`, `record_insert_merge`
* C71: `tested_once`, `run_is_finite`, `never_stuck`, `run_completes`, `errors_explained`, `undisturbed_ok`, `reported_ran`, `aborted_iff`, `all_tested`, `report_determined`, `exit_code_iff`, `search_finds_boundary`
* C72: `cache_same_command_partial`
* C73: `test_fix`, `test_fix_done`, `fixed_nothing_dropped`, `test_fix_no_conflicts`, `test_fix_public_exact`, `test_fix_unchanged`, `test_fix_root_fails`
* C74: `pr_text`, `pr_base_nearest_partial`, `pr_base_farthest`, `pr_base_below`
* C75: `pr_status`, `pr_status_exclusive`
* C76: `submit_updates_prs`, `submit_update_commands`, `submit_update_report`, `submit_prs_again`, `submit_success_pushed`
* C77: `submit_creates_prs`, `create_leaves_stale`
* C78: `file_offered`, `files_offered`, `record_stages`, `record_nothing`, `record_everything_partial`, `new_binary_not_staged`, `binary_mode_not_staged`, `other_encoding_panics`, `other_encoding_offered`, `record_confirmed`
* C79: `report_hides`, `report_hides_head`, `report_names`, `shown_names_apart`, `graph_of_now`
* C80: `smartlog_readable`, `branches_readable`, `branch_imitated`, `smartlog_shown_iff`, `old_commit_fails`, `revision_of_line`, `revision_exact`, `obsolescence_explained`, `abandoned_exact`, `smartlog_at_event`, `earlier_explained`
* C81: `on_disk_same`, `subtree_on_disk_same_partial`
* C82: `phab_status_exact`, `phab_status_known`, `phab_one_up_to_date`
* C83: `dependencies_others`, `dependencies_exact`, `stack_dependencies_exact`, `refused_dependency_unnoticed`
* C84: `create_plan_exists`, `phab_create_exact`, `phab_create_dependencies_partial`, `phab_create_no_conflicts`, `phab_update_exact`, `phab_update_failures_exact`, `phab_submit_exact`, `created_below_submitted_loses_dependency`, `created_above_submitted_loses_dependency`
* C85: `test_options_exact`, `test_options_accepted_iff`, `interactive_single`, `several_jobs_worktree_partial`
* C86: `locks_available_partial`
* C87: `set_trap_cases`, `tests_leave_no_trace_partial`, `tests_refused`, `tests_run`, `staged_changes_trapped`, `interrupted_tests_aborted`, `lost_rebase_noticed`
* C88: `warning_exact`, `warning_iff`, `warned_restacked`
* C89: `called_either_way_partial`
* C90: `disjoint_move_command`, `moved_files_merged`
* C91: `switch_command`, `switch_lands`, `switch_fails`, `switch_refuses`, `switch_onto_branch`, `switch_named_detaches`, `switch_selected_head_detaches`, `nowhere_to_go_detaches`
* C92: `init_isolated`, `init_fresh`, `init_again`, `init_succeeds`, `init_fails`, `old_git_warned`
* C93: `selection_sound`, `selection_total`, `selection_complete`, `selection_left`, `undo_done`, `undo_done_log`, `undo_ends`, `undo_count`, `undo_succeeds`, `undo_command`, `undo_command_ends`, `cursor_not_interactive`, `undo_without_main_fails`, `undo_refs_untraced`, `undo_snapshot_forgets_branch`
* C94: `snapshot_create_discards`, `snapshot_restore_brings_back_partial`, `snapshot_there_and_back_partial`, `conflict_file_lost`, `file_in_the_way_lost`, `blocked_restore_discards`
* C95: `run_never_hangs`, `hangs_iff`, `small_input_never_hangs`, `readsFirst_never_hangs`, `endless_only_by_program`, `wellBehaved_run`, `chatty_hook_hangs`
* C96: `family_one_transaction`, `member_one_transaction`, `suppressed_family`, `transaction_of_one_command`, `event_has_message`, `undo_one_command`
* C97: `query_raw_partial`, `query_described_partial`, `query_described_missing`, `query_branches`, `query_done`, `query_unresolved`, `query_unresolved_only`, `query_call_visible`, `query_hidden_unknown_fails`, `hidden_query_fails_once`, `named_invisible_lost`
* C98: `session_new_message`, `session_new_messages`
* C99: `main_packing_no_change`, `worktree_packing_is_deletion`

import Verif.Lemmas.Amend
import Verif.Lemmas.Bisect
import Verif.Lemmas.Cursor
import Verif.Lemmas.Dag
import Verif.Lemmas.EditMessage
import Verif.Lemmas.EventLog
import Verif.Lemmas.Evolve
import Verif.Lemmas.Execute
import Verif.Lemmas.ExecuteFault
import Verif.Lemmas.ExecutePlan
import Verif.Lemmas.ExecuteTotal
import Verif.Lemmas.FinishRebase
import Verif.Lemmas.Github
import Verif.Lemmas.GithubCreate
import Verif.Lemmas.GithubCreated
import Verif.Lemmas.GithubStatus
import Verif.Lemmas.GithubSubmit
import Verif.Lemmas.GithubUpdate
import Verif.Lemmas.Grammar
import Verif.Lemmas.Hide
import Verif.Lemmas.InPlace
import Verif.Lemmas.InPlaceRun
import Verif.Lemmas.InitConfig
import Verif.Lemmas.Lexer
import Verif.Lemmas.Lines
import Verif.Lemmas.List
import Verif.Lemmas.Move
import Verif.Lemmas.MoveExact
import Verif.Lemmas.MoveInsert
import Verif.Lemmas.OnDisk
import Verif.Lemmas.OnDiskFinish
import Verif.Lemmas.OnDiskPlan
import Verif.Lemmas.Phabricator
import Verif.Lemmas.PhabricatorCreate
import Verif.Lemmas.Plan
import Verif.Lemmas.PlanBuild
import Verif.Lemmas.PlanDfs
import Verif.Lemmas.PlanLabels
import Verif.Lemmas.PlanRequests
import Verif.Lemmas.Prettify
import Verif.Lemmas.Progress
import Verif.Lemmas.Query
import Verif.Lemmas.RebaseFiles
import Verif.Lemmas.Record
import Verif.Lemmas.RecordDiff
import Verif.Lemmas.RecordInsert
import Verif.Lemmas.Redact
import Verif.Lemmas.RedactReport
import Verif.Lemmas.ReplaceFault
import Verif.Lemmas.Replay
import Verif.Lemmas.Revset
import Verif.Lemmas.RevsetEval
import Verif.Lemmas.Reword
import Verif.Lemmas.RewordCommand
import Verif.Lemmas.RunProcess
import Verif.Lemmas.Smartlog
import Verif.Lemmas.SmartlogRender
import Verif.Lemmas.SmartlogText
import Verif.Lemmas.Snapshot
import Verif.Lemmas.SnapshotCommand
import Verif.Lemmas.Status
import Verif.Lemmas.Submit
import Verif.Lemmas.Sync
import Verif.Lemmas.TestCache
import Verif.Lemmas.TestCacheStarted
import Verif.Lemmas.TestFix
import Verif.Lemmas.TestRun
import Verif.Lemmas.TestRunEnd
import Verif.Lemmas.TestRunExec
import Verif.Lemmas.TestRunInv
import Verif.Lemmas.Text
import Verif.Lemmas.Trailers
import Verif.Lemmas.Transactions
import Verif.Lemmas.Tree
import Verif.Lemmas.TreePick
import Verif.Lemmas.Undo
import Verif.Lemmas.UndoCommand
import Verif.Model.AbortTrap
import Verif.Model.Amend
import Verif.Model.Args
import Verif.Model.Basic
import Verif.Model.Bisect
import Verif.Model.Dag
import Verif.Model.Describe
import Verif.Model.EditMessage
import Verif.Model.EventLog
import Verif.Model.Evolve
import Verif.Model.Execute
import Verif.Model.FinishRebase
import Verif.Model.Gc
import Verif.Model.Github
import Verif.Model.GithubClient
import Verif.Model.Hide
import Verif.Model.Init
import Verif.Model.InitConfig
import Verif.Model.Lines
import Verif.Model.Move
import Verif.Model.Navigate
import Verif.Model.OnDisk
import Verif.Model.Phabricator
import Verif.Model.Plan
import Verif.Model.Pool
import Verif.Model.Progress
import Verif.Model.Prompt
import Verif.Model.Query
import Verif.Model.Record
import Verif.Model.RecordDiff
import Verif.Model.RefTransaction
import Verif.Model.Reference
import Verif.Model.Refs
import Verif.Model.Replay
import Verif.Model.ReportHooks
import Verif.Model.Restack
import Verif.Model.Revset
import Verif.Model.RevsetParser
import Verif.Model.Reword
import Verif.Model.RewordCommand
import Verif.Model.RewriteHooks
import Verif.Model.RunProcess
import Verif.Model.Smartlog
import Verif.Model.SmartlogText
import Verif.Model.Snapshot
import Verif.Model.SnapshotCommand
import Verif.Model.Status
import Verif.Model.Styled
import Verif.Model.Submit
import Verif.Model.Switch
import Verif.Model.Sync
import Verif.Model.TestCache
import Verif.Model.TestDir
import Verif.Model.TestFix
import Verif.Model.TestOptions
import Verif.Model.TestRun
import Verif.Model.Text
import Verif.Model.Trailers
import Verif.Model.Transactions
import Verif.Model.Tree
import Verif.Model.Undo
import Verif.Model.UndoCommand
import Verif.Model.WarnAbandoned
import Verif.Model.Worktree
import Verif.Props.AbortTrap
import Verif.Props.Amend
import Verif.Props.AmendExample
import Verif.Props.Args
import Verif.Props.Bisect
import Verif.Props.BugReport
import Verif.Props.BugReportExample
import Verif.Props.Cursor
import Verif.Props.Dag
import Verif.Props.EditMessage
import Verif.Props.EditMessageExample
import Verif.Props.EventLog
import Verif.Props.Evolve
import Verif.Props.Execute
import Verif.Props.ExecuteChoice
import Verif.Props.FinishRebase
import Verif.Props.Gc
import Verif.Props.Github
import Verif.Props.GithubClient
import Verif.Props.GithubClientExample
import Verif.Props.GithubExample
import Verif.Props.Grammar
import Verif.Props.Hide
import Verif.Props.Init
import Verif.Props.InitConfig
import Verif.Props.InitConfigExample
import Verif.Props.InitVersion
import Verif.Props.Move
import Verif.Props.MoveExact
import Verif.Props.MoveExample
import Verif.Props.MoveInsert
import Verif.Props.Navigate
import Verif.Props.OnDisk
import Verif.Props.Phabricator
import Verif.Props.PhabricatorCreate
import Verif.Props.PhabricatorExample
import Verif.Props.Plan
import Verif.Props.PlanTwin
import Verif.Props.Pool
import Verif.Props.Progress
import Verif.Props.ProgressExample
import Verif.Props.Prompt
import Verif.Props.PromptExample
import Verif.Props.Query
import Verif.Props.QueryExample
import Verif.Props.RebaseFiles
import Verif.Props.RebaseFilesExample
import Verif.Props.Record
import Verif.Props.RecordDiff
import Verif.Props.RecordDiffExample
import Verif.Props.RecordExample
import Verif.Props.RecordInsert
import Verif.Props.RecordInsertMerge
import Verif.Props.RefTransaction
import Verif.Props.Replay
import Verif.Props.ReportHooks
import Verif.Props.Restack
import Verif.Props.RestackSettles
import Verif.Props.Revset
import Verif.Props.Reword
import Verif.Props.RewordCommand
import Verif.Props.RewordExample
import Verif.Props.RewriteHooks
import Verif.Props.RunProcess
import Verif.Props.RunProcessExample
import Verif.Props.Smartlog
import Verif.Props.SmartlogText
import Verif.Props.SmartlogTextExample
import Verif.Props.Snapshot
import Verif.Props.SnapshotCommand
import Verif.Props.SnapshotCommandExample
import Verif.Props.SnapshotExample
import Verif.Props.SnapshotKind
import Verif.Props.SnapshotRestore
import Verif.Props.Status
import Verif.Props.Styled
import Verif.Props.StyledExample
import Verif.Props.Submit
import Verif.Props.SubmitExample
import Verif.Props.Switch
import Verif.Props.SwitchExample
import Verif.Props.Sync
import Verif.Props.SyncExample
import Verif.Props.TestCache
import Verif.Props.TestDir
import Verif.Props.TestFix
import Verif.Props.TestFixExample
import Verif.Props.TestOptions
import Verif.Props.TestRun
import Verif.Props.Todo
import Verif.Props.Transactions
import Verif.Props.TransactionsExample
import Verif.Props.Tree
import Verif.Props.TreePick
import Verif.Props.Undo
import Verif.Props.UndoCommand
import Verif.Props.UndoCommandExample
import Verif.Props.UndoOutcome
import Verif.Props.UndoSelect
import Verif.Props.WarnAbandoned
import Verif.Props.Worktree
import Verif.Props.WorktreeExample
import Verif.Spec.Amend
import Verif.Spec.Bisect
import Verif.Spec.Dag
import Verif.Spec.Describe
import Verif.Spec.EditMessage
import Verif.Spec.Evolve
import Verif.Spec.Execute
import Verif.Spec.FinishRebase
import Verif.Spec.Github
import Verif.Spec.GithubClient
import Verif.Spec.Grammar
import Verif.Spec.Hide
import Verif.Spec.Init
import Verif.Spec.InitConfig
import Verif.Spec.Lexer
import Verif.Spec.Move
import Verif.Spec.Navigate
import Verif.Spec.OnDisk
import Verif.Spec.Phabricator
import Verif.Spec.Plan
import Verif.Spec.Pool
import Verif.Spec.Progress
import Verif.Spec.Prompt
import Verif.Spec.Query
import Verif.Spec.RebaseFiles
import Verif.Spec.Record
import Verif.Spec.RecordDiff
import Verif.Spec.Replay
import Verif.Spec.ReportHooks
import Verif.Spec.Restack
import Verif.Spec.Revset
import Verif.Spec.Reword
import Verif.Spec.RewordCommand
import Verif.Spec.RunProcess
import Verif.Spec.Smartlog
import Verif.Spec.Snapshot
import Verif.Spec.SnapshotCommand
import Verif.Spec.Status
import Verif.Spec.Styled
import Verif.Spec.Submit
import Verif.Spec.Switch
import Verif.Spec.Sync
import Verif.Spec.TestCache
import Verif.Spec.TestDir
import Verif.Spec.TestFix
import Verif.Spec.TestOptions
import Verif.Spec.TestRun
import Verif.Spec.Todo
import Verif.Spec.Transactions
import Verif.Spec.Tree
import Verif.Spec.Undo
import Verif.Spec.UndoCommand
import Verif.Spec.Worktree

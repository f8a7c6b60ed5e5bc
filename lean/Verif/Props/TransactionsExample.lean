import Verif.Props.Transactions

/-!
Concrete cases for C96.
-/

namespace Verif.Props

open Verif Verif.Spec

/-- A commit in the log. -/
def exTxCommit (n : Int) (o : Oid) : Event := .commit 0 (.id n) o

/-- An earlier command (process 0) in repository 0. -/
def exTxEarlier : List TxAction :=
  [.start 0 none, .makeId 0 t!"record", .record 0 [exTxCommit 1 oidA], .start 0 none]

/-- A wrapped command (process 1): it runs git (2), which runs two hooks (3, 4). -/
def exTxCommand : List TxAction :=
  [.spawn 1 0 (.own (.id 2)), .spawn 2 0 .keep, .makeId 3 t!"hook-post-commit", .record 3 [exTxCommit 2 oidB],
   .spawn 2 0 .keep, .makeId 4 t!"reference-transaction", .record 4 [exTxCommit 2 oidA]]

/-- The processes in the end. -/
def exTxProcs : List TxProc :=
  [{ parent := none, repo := 0, var := none, ids := [.id 1] }, { parent := none, repo := 0, var := none, ids := [.id 2] },
   { parent := some 1, repo := 0, var := some t!"2" },
   { parent := some 2, repo := 0, var := some t!"2", ids := [.id 2] },
   { parent := some 2, repo := 0, var := some t!"2", ids := [.id 2] }]

/-- The world in the end. -/
def exTxWorld : TxWorld :=
  (TxWorld.empty.run (exTxEarlier ++ [.makeId 1 t!"commit"] ++ exTxCommand)).getD TxWorld.empty

theorem exTxWorld_run :
    TxWorld.empty.run (exTxEarlier ++ [.makeId 1 t!"commit"] ++ exTxCommand) = some exTxWorld := by
  unfold exTxWorld
  have : (TxWorld.empty.run (exTxEarlier ++ [.makeId 1 t!"commit"] ++ exTxCommand)).isSome = true := by decide +kernel
  obtain ⟨w, hw⟩ := Option.isSome_iff_exists.1 this
  rw [hw]
  rfl

theorem exTxWorld_procs : exTxWorld.procs = exTxProcs := by decide +kernel

theorem exTx_cases {i : Nat} {c : TxProc} (h : exTxWorld.procs[i]? = some c) : i < 5 := by
  rw [exTxWorld_procs] at h
  exact (List.getElem?_eq_some_iff.1 h).1

theorem exTx_home : StaysHome exTxWorld := by
  intro i j c q hc hp hq
  have h1 := exTx_cases hc
  have h2 := exTx_cases hq
  rw [exTxWorld_procs] at hc hq
  have key : ∀ i < 5, ∀ j < 5, ∀ c ∈ exTxProcs[i]?, ∀ q ∈ exTxProcs[j]?, c.repo = q.repo := by decide +kernel
  exact key i h1 j h2 c hc q hq

theorem exTx_unset : VarUnset exTxWorld := by
  intro i c hc hp
  have h1 := exTx_cases hc
  rw [exTxWorld_procs] at hc
  have key : ∀ i < 5, ∀ c ∈ exTxProcs[i]?, c.parent = none → c.var = none := by decide +kernel
  exact key i h1 c hc hp

theorem exTx_small : SmallIds exTxWorld := by
  intro r
  have h0 : (exTxWorld.dbs 0).seq = 2 := by decide +kernel
  by_cases hr : r = 0
  · rw [hr, h0]; decide
  · have : (exTxWorld.dbs r).seq = 0 := by
      match r, hr with
      | r + 1, _ => rfl
    rw [this]
    decide

/-- All events of the command are in its transaction. -/
example : ∃ m, (exTxWorld.dbs 0).getTransactionMessage (.id 2) = some m := by
  have : exTxCommit 2 oidB ∈ exTxWorld.log 0 := by decide +kernel
  exact event_has_message exTxWorld_run exTx_small exTx_home exTx_unset this

example : ∃ o c, exTxWorld.procs[o]? = some c ∧ c.repo = 0 ∧ TxId.id 2 ∈ c.ids ∧
    ∀ (p : Nat) (q : TxProc), exTxWorld.procs[p]? = some q → q.repo = 0 → TxId.id 2 ∈ q.ids →
      TxBelow exTxWorld o p := by
  have : exTxCommit 2 oidB ∈ exTxWorld.log 0 := by decide +kernel
  exact transaction_of_one_command exTxWorld_run exTx_small exTx_home exTx_unset this

/-- `git undo` undoes the whole command. -/
example : (Replayer.fromEvents t!"refs/heads/main" (exTxWorld.log 0)).advanceCursorByTransaction
    (Replayer.fromEvents t!"refs/heads/main" (exTxWorld.log 0)).makeDefaultCursor (-1) = .ok ⟨1⟩ := by
  have hw : (TxWorld.empty.run exTxEarlier).isSome = true := by decide +kernel
  obtain ⟨w, hw⟩ := Option.isSome_iff_exists.1 hw
  have hrun := exTxWorld_run
  rw [run_append, run_append, hw, Option.bind_some] at hrun
  obtain ⟨w1, h1, h2⟩ := Option.bind_eq_some_iff.1 hrun
  have h1' : w.step (.makeId 1 t!"commit") = some w1 := by
    simp only [TxWorld.run, List.foldlM_cons, List.foldlM_nil] at h1
    cases hs : w.step (.makeId 1 t!"commit") with
    | none => rw [hs] at h1; cases h1
    | some v => rw [hs] at h1; exact h1
  have hwp : w.procs[1]? = some { parent := none, repo := 0, var := none } := by
    have : ((TxWorld.empty.run exTxEarlier).map fun w => w.procs[1]?) =
        some (some { parent := none, repo := 0, var := none }) := by decide +kernel
    rw [hw] at this
    exact Option.some.inj this
  have hwl : (Replayer.fromEvents t!"refs/heads/main" (w.log 0)).events.length = 1 := by
    have : ((TxWorld.empty.run exTxEarlier).map fun w =>
        (Replayer.fromEvents t!"refs/heads/main" (w.log 0)).events.length) = some 1 := by decide +kernel
    rw [hw] at this
    exact Option.some.inj this
  have := undo_one_command hw hwp rfl rfl h1' h2 exTx_small exTx_home exTx_unset
    (fun c2 h => by
      rw [exTxWorld_procs] at h
      cases h
      decide)
    (fun p es hm q hq hr => by
      have hmem : ∀ i, i = 3 ∨ i = 4 → TxMember exTxWorld 1 (.id 2) i := by
        intro i hi
        refine .inr ⟨2, { parent := some 1, repo := 0, var := some t!"2" }, by rw [exTxWorld_procs]; rfl, rfl, rfl, ?_⟩
        rcases hi with rfl | rfl
        · exact .child (c := { parent := some 2, repo := 0, var := some t!"2", ids := [.id 2] }) .self
            (by rw [exTxWorld_procs]; rfl) rfl
        · exact .child (c := { parent := some 2, repo := 0, var := some t!"2", ids := [.id 2] }) .self
            (by rw [exTxWorld_procs]; rfl) rfl
      refine ⟨.id 2, { parent := none, repo := 0, var := none, ids := [.id 2] }, by rw [exTxWorld_procs]; rfl,
        List.mem_singleton.2 rfl, hmem p ?_⟩
      simp only [exTxCommand, List.mem_cons, reduceCtorEq, TxAction.record.injEq, List.not_mem_nil, or_false,
        false_or] at hm
      rcases hm with hm | hm
      · exact .inl hm.1
      · exact .inr hm.1)
    t!"refs/heads/main"
  rw [this.2.2 ?_, defaultCursor_eq, hwl]
  · rfl
  · intro heq
    have h3 : (Replayer.fromEvents t!"refs/heads/main" (exTxWorld.log 0)).events.length = 3 := by decide +kernel
    have h4 := congrArg List.length heq
    rw [h3, hwl] at h4
    cases h4

/-- What `git undo` would step back to. -/
def exUndoTo (w : Option TxWorld) (r : Nat) : Option Int :=
  w.bind fun w =>
    let p := Replayer.fromEvents t!"refs/heads/main" (w.log r)
    (p.advanceCursorByTransaction p.makeDefaultCursor (-1)).toOption.map (·.eventId)

/-- **Finding.** If two commands are run at the same time, `git undo` undoes only a part of one of them: the first
command records its second event after the second command recorded one. -/
theorem interleaved_commands_split :
    exUndoTo (TxWorld.empty.run
      [.start 0 none, .makeId 0 t!"move", .start 0 none, .makeId 1 t!"record", .record 0 [exTxCommit 1 oidA],
       .record 1 [exTxCommit 2 oidB], .record 0 [exTxCommit 1 oidB]]) 0 = some 2 := by decide +kernel

/-- **Finding.** A command in repository 0 runs something in repository 1, such as the commands of `git submodule`: what
is recorded there has the id of a transaction of repository 0. If repository 1 has a transaction with this number, it is
taken for a part of it: its message is the wrong one, and `git undo` undoes both. -/
theorem other_repository_merged :
    let w := TxWorld.empty.run
      [.start 1 none, .makeId 0 t!"hide", .record 0 [exTxCommit 1 oidA],
       .start 0 none, .makeId 1 t!"pull", .spawn 1 0 (.own (.id 1)), .spawn 2 1 .keep, .makeId 3 t!"hook-post-checkout",
       .record 3 [exTxCommit 1 oidB]]
    exUndoTo w 1 = some 0 ∧ (w.bind fun w => (w.dbs 1).getTransactionMessage (.id 1)) = some t!"hide" ∧
      (w.map fun w => w.log 1) = some [exTxCommit 1 oidA, exTxCommit 1 oidB] := by decide +kernel

/-- **Finding.** If there is none, the event has no message; the bug report says "<failed to query>". -/
theorem other_repository_no_message :
    let w := TxWorld.empty.run
      [.start 0 none, .makeId 0 t!"pull", .spawn 0 0 (.own (.id 1)), .spawn 1 1 .keep, .makeId 2 t!"hook-post-checkout",
       .record 2 [exTxCommit 1 oidB]]
    (w.map fun w => w.log 1) = some [exTxCommit 1 oidB] ∧
      (w.bind fun w => (w.dbs 1).getTransactionMessage (.id 1)) = none ∧ w.isSome = true := by decide +kernel

/-- **Finding.** A shell which is opened by a wrapped command (1; for instance from the editor for a commit message)
hands the id on to all commands (2, 3) which are run in it: they are one transaction. -/
theorem shell_below_merges :
    exUndoTo (TxWorld.empty.run
      [.start 0 none, .makeId 0 t!"commit", .spawn 0 0 (.own (.id 1)), .spawn 1 0 .keep, .makeId 2 t!"record",
       .record 2 [exTxCommit 1 oidA], .spawn 1 0 .keep, .makeId 3 t!"move", .record 3 [exTxCommit 1 oidB]]) 0 =
      some 0 := by decide +kernel

/-- **Finding.** In the shell of an interactive test, commits are not recorded. -/
theorem interactive_test_unrecorded :
    let w := TxWorld.empty.run
      [.start 0 none, .makeId 0 t!"test run", .spawn 0 0 .suppress, .spawn 1 0 .keep, .makeId 2 t!"hook-post-commit",
       .record 2 [.commit 0 .suppressed oidA]]
    (w.map fun w => w.log 0) = some [] := by decide +kernel

example : ∃ w, TxWorld.empty.run
      [.start 0 none, .makeId 0 t!"test run", .spawn 0 0 .suppress, .spawn 1 0 .keep] = some w ∧
    ∀ events w', w.step (.record 2 events) = some w' → w'.log 0 = w.log 0 := by
  have hs : (TxWorld.empty.run
      [.start 0 none, .makeId 0 t!"test run", .spawn 0 0 .suppress, .spawn 1 0 .keep]).isSome = true := by decide +kernel
  obtain ⟨w, hw⟩ := Option.isSome_iff_exists.1 hs
  refine ⟨w, hw, fun events w' h => ?_⟩
  have hp : ∀ i : Nat, w.procs[i]? = ([{ parent := none, repo := 0, var := none, ids := [.id 1] },
      { parent := some 0, repo := 0, var := some t!"SUPPRESSED" },
      { parent := some 1, repo := 0, var := some t!"SUPPRESSED" }] : List TxProc)[i]? := by
    have : (TxWorld.empty.run
        [.start 0 none, .makeId 0 t!"test run", .spawn 0 0 .suppress, .spawn 1 0 .keep]).map (·.procs) =
        some [{ parent := none, repo := 0, var := none, ids := [.id 1] },
          { parent := some 0, repo := 0, var := some t!"SUPPRESSED" },
          { parent := some 1, repo := 0, var := some t!"SUPPRESSED" }] := by decide +kernel
    rw [hw] at this
    intro i
    have h2 : w.procs = _ := Option.some.inj this
    rw [h2]
  exact suppressed_family hw (a := 1) (hp 1) rfl (.child .self (hp 2) rfl) h 0

example : ∀ x ∈ [TxId.id 2], x = .id 2 ∨ x = .suppressed :=
  family_one_transaction exTxWorld_run (a := 2) (c := { parent := some 1, repo := 0, var := some t!"2" })
    (by rw [exTxWorld_procs]; rfl) (tx := .id 2) (by decide +kernel)
    (.child (c := { parent := some 2, repo := 0, var := some t!"2", ids := [.id 2] }) .self
      (by rw [exTxWorld_procs]; rfl) rfl : TxBelow exTxWorld 2 3)
    (q := { parent := some 2, repo := 0, var := some t!"2", ids := [.id 2] }) (by rw [exTxWorld_procs]; rfl)

end Verif.Props

import Verif.Props.RecordInsert
import Verif.Props.MoveExample

/-! Concrete repositories for the theorems about `record`, and what it does not do well. -/

namespace Verif.Props

open Verif Verif.Spec

/-- For the references of an example. -/
theorem validRefs_of {refs : Refs} (h1 : AMap.WF refs)
    (h2 : ∀ a ∈ refs, ∀ b ∈ refs, pathConflict a.1 b.1 = false) : ValidRefs refs := by
  refine ⟨h1, fun a b ha hb => ?_⟩
  obtain ⟨x, hx⟩ := Option.isSome_iff_exists.1 ha
  obtain ⟨y, hy⟩ := Option.isSome_iff_exists.1 hb
  exact h2 _ (AMap.mem_of_get? hx) _ (AMap.mem_of_get? hy)

theorem forall_refs_of {refs : Refs} {P : Text → Prop} (h : ∀ a ∈ refs, P a.1) (name : Text)
    (hn : (refs.get? name).isSome) : P name := by
  obtain ⟨x, hx⟩ := Option.isSome_iff_exists.1 hn
  exact h _ (AMap.mem_of_get? hx)

/-- A repository with the stack `1`, `2` on the main branch `0`. The new commit is `7`, on top of `parent`. `8`
is the new version of `2` on top of it, if there is no conflict. -/
def exRecordEnv (status : ChangesType) (parents : List Oid) (picks : List ((Oid × Oid) × Nat)) : RecordEnv where
  status := some status
  commit _ := .ok (oidN 7)
  validName _ := true
  repo _ := exMoveEnv (exStackCommits ++ [(oidN 7, exCommit parents 21 7)])
    [(exNew [oidN 7] 22 2, oidN 8), (exNew [oidN 1] 23 3, oidN 9)] picks []
  graph _ := grown exStackGraph (oidN 7) parents

/-- The branch `b` is at `1`, and the branch `c` is at `2`. -/
def exRecordRefs : Refs :=
  [(t!"refs/heads/main", oidN 0), (t!"refs/heads/b", oidN 1), (t!"refs/heads/c", oidN 2)]

def exRecordWorld (head : Head) : RepoWorld :=
  { exWorld exRecordRefs head with
    db := ({} : Db).addEvents exStackEvents }

/-- Non-vacuity: the hypotheses of `record_follows_options_partial` and `record_insert_partial`. -/
theorem exRecord_works (status : ChangesType) (picks : List ((Oid × Oid) × Nat)) (head : Head)
    (h : head = .detached (oidN 1) ∨ head = .symbolic t!"refs/heads/b") :
    RecordWorks (exRecordEnv status [oidN 1] picks) t!"refs/heads/main" (exRecordWorld head).git (oidN 7) [] where
  main_exists := .inl rfl
  mains _ := ⟨rfl, rfl⟩
  accepts _ _ _ := rfl
  works _ := rfl
  refs := validRefs_of (refs := exRecordRefs) (by unfold AMap.WF; decide +kernel) (by decide +kernel)
  keep := forall_refs_of (refs := exRecordRefs) (by decide +kernel)
  head := by
    rcases h with rfl | rfl
    · exact .inl ⟨_, rfl⟩
    · refine .inr ⟨_, ⟨t!"b", rfl⟩, rfl, ?_⟩
      exact forall_refs_of (refs := exRecordRefs) (by decide +kernel)
  commit _ _ := by
    refine ⟨exCommit [oidN 1] 21 7, rfl, ?_⟩
    rcases h with rfl | rfl <;> rfl

example : CanCreateBranch (exRecordEnv .unstaged [oidN 1] []) (exRecordWorld (.symbolic t!"refs/heads/b")).git t!"d" :=
  ⟨rfl, forall_refs_of (refs := exRecordRefs) (by decide +kernel)⟩

example : (exRecordWorld (.symbolic t!"refs/heads/b")).db.pending = none ∧
    (exRecordWorld (.symbolic t!"refs/heads/b")).db.getEvents = some exStackEvents ∧
    ((exRecordWorld (.symbolic t!"refs/heads/b")).db.makeTransactionId none t!"record").1 = .id 1 ∧
    (exRecordWorld (.symbolic t!"refs/heads/b")).git.headInfo.oid = some (oidN 1) ∧
    oidN 1 ∈ exStackGraph.nodes ∧ oidN 7 ∉ exStackGraph.nodes ∧
    t!"refs/heads/main" ≠ t!"refs/branchless/" ++ (oidN 7).toText := by
  decide +kernel

example (picks : List ((Oid × Oid) × Nat)) (w : RepoWorld) :
    let env := exRecordEnv .unstaged [oidN 1] picks
    env.graph w = grown exStackGraph (oidN 7) [oidN 1] ∧
    SetContract (env.repo w) ∧ NoCollisions (env.repo w).exec ∧
    Agrees (grown exStackGraph (oidN 7) [oidN 1]) (env.repo w).exec := by
  refine ⟨rfl, exMoveEnv_set _ _ _ _, exExec_noCollisions
    (commits := exStackCommits ++ [(oidN 7, exCommit [oidN 1] 21 7)])
    (new := [(exNew [oidN 7] 22 2, oidN 8), (exNew [oidN 1] 23 3, oidN 9)]) (picks := picks) (amends := [])
    (by decide) (by decide), ?_⟩
  intro c hc
  have hc : c ∈ [oidN 7, oidN 3, oidN 2, oidN 1, oidN 0] := by
    rw [(onTop exStackGraph_wf (by decide) (by decide)).nodes] at hc
    rcases hc with hc | rfl
    · exact List.mem_cons_of_mem _ hc
    · simp
  simp only [List.mem_cons, List.not_mem_nil, or_false] at hc
  rcases hc with rfl | rfl | rfl | rfl | rfl
  · exact ⟨exCommit [oidN 1] 21 7, rfl, by decide +kernel⟩
  · exact ⟨exCommit [oidN 0] 13 3, rfl, by decide +kernel⟩
  · exact ⟨exCommit [oidN 1] 12 2, rfl, by decide +kernel⟩
  · exact ⟨exCommit [oidN 0] 11 1, rfl, by decide +kernel⟩
  · exact ⟨exCommit [] 10 0, rfl, by decide +kernel⟩

/-- Where `HEAD` and the branches are after `record` with some options. -/
def exRecorded (head : Head) (args : RecordArgs) : RecordOutcome × Head × List (Option Oid) :=
  let (w, outcome) := record (exRecordEnv .unstaged [oidN 1] [((oidN 2, oidN 7), 22)]) t!"refs/heads/main" none args
    (exRecordWorld head)
  (outcome, w.git.head, [t!"b", t!"c", t!"d"].map fun name => w.git.refs.get? (t!"refs/heads/" ++ name))

/-- Non-vacuity: what the options do, on a branch. -/
example : let head : Head := .symbolic t!"refs/heads/b"
    exRecorded head ⟨false, none, false, false, false⟩ = (.done, head, [some (oidN 7), some (oidN 2), none]) ∧
    exRecorded head ⟨false, some t!"d", false, false, false⟩ =
      (.done, .symbolic t!"refs/heads/d", [some (oidN 1), some (oidN 2), some (oidN 7)]) ∧
    exRecorded head ⟨false, none, true, false, false⟩ =
      (.done, .detached (oidN 7), [some (oidN 1), some (oidN 2), none]) ∧
    exRecorded head ⟨false, none, false, false, true⟩ = (.done, head, [some (oidN 1), some (oidN 2), none]) ∧
    exRecorded head ⟨false, none, false, true, false⟩ =
      (.inserted .done, head, [some (oidN 7), some (oidN 8), none]) ∧
    exRecorded head ⟨false, none, true, true, false⟩ =
      (.inserted .done, .detached (oidN 7), [some (oidN 1), some (oidN 8), none]) := by
  decide +kernel

/-- Non-vacuity of `stash_detached_stays`: the new commit stays checked out. -/
example : exRecorded (.detached (oidN 1)) ⟨false, none, false, false, false⟩ =
      (.done, .detached (oidN 7), [some (oidN 1), some (oidN 2), none]) ∧
    exRecorded (.detached (oidN 1)) ⟨false, none, false, false, true⟩ =
      (.done, .detached (oidN 7), [some (oidN 1), some (oidN 2), none]) := by
  decide +kernel

/-- Non-vacuity of `record_insert_partial`: there is a conflict; or the commit above is on the main branch. -/
example : let w := exRecordWorld (.symbolic t!"refs/heads/b")
    let args : RecordArgs := ⟨false, none, false, true, false⟩
    (record (exRecordEnv .unstaged [oidN 1] []) t!"refs/heads/main" none args w).2 =
      .inserted (.declined (.conflict (oidN 2) [])) ∧
    (record (exRecordEnv .unstaged [oidN 1] []) t!"refs/heads/main" none args { w with
      git := { w.git with refs := w.git.refs.insert t!"refs/heads/main" (oidN 2) } }).2 =
      .inserted (.publicCommits [oidN 2]) := by
  decide +kernel

/-- Non-vacuity of `insert_before_siblings`: `7` is a merge commit of `1` and `2`, which is on top of `1`. -/
example : let w := exRecordWorld (.detached (oidN 7))
    let env := exRecordEnv .unstaged [oidN 1, oidN 2] []
    let seen := Seen (env.graph w) t!"refs/heads/main" w.git exStackEvents
    (openRepoDag (env.graph w) t!"refs/heads/main" w).isSome ∧ w.git.headInfo.oid = some (oidN 7) ∧
    (Sibling (env.graph w) seen (oidN 7) (oidN 2) ∧ Anc (env.graph w) (oidN 2) (oidN 7)) ∧
    ∃ l, insertBeforeSiblings (env.repo w) t!"refs/heads/main" (env.graph w) w =
      (w, .refused (.constraintCycle l)) := by
  have h1 : IsParent (grown exStackGraph (oidN 7) [oidN 1, oidN 2]) (oidN 1) (oidN 7) :=
    ⟨[oidN 1, oidN 2], by decide, by decide⟩
  have h2 : IsParent (grown exStackGraph (oidN 7) [oidN 1, oidN 2]) (oidN 2) (oidN 7) :=
    ⟨[oidN 1, oidN 2], by decide, by decide⟩
  have h3 : IsParent (grown exStackGraph (oidN 7) [oidN 1, oidN 2]) (oidN 1) (oidN 2) :=
    ⟨[oidN 1], by decide, by decide⟩
  refine ⟨by decide +kernel, rfl, ⟨⟨⟨by decide, oidN 7, .of_parent h2, .inl rfl⟩, by decide, oidN 1, h1, h3⟩,
    .of_parent h2⟩, _, rfl⟩

/-- Non-vacuity of `record_without_commit`. -/
example : let w := exRecordWorld (.symbolic t!"refs/heads/b")
    let args : RecordArgs := ⟨true, none, false, false, false⟩
    let outcome := fun env => (record env t!"refs/heads/main" none args w).2
    outcome { exRecordEnv .unstaged [oidN 1] [] with status := none } = .error ∧
    outcome (exRecordEnv .none [oidN 1] []) = .nothing ∧
    outcome (exRecordEnv .conflicts [oidN 1] []) = .refused ∧
    outcome (exRecordEnv .staged [oidN 1] []) = .refused ∧
    outcome { exRecordEnv .unstaged [oidN 1] [] with commit := fun _ => .error (some 1) } = .failed 1 := by
  decide +kernel

/-- Non-vacuity of `record_no_changes`: the branch is not created. -/
example :
    let x := record (exRecordEnv .conflicts [oidN 1] []) t!"refs/heads/main" none
      ⟨false, some t!"d", false, false, false⟩ (exRecordWorld (.symbolic t!"refs/heads/b"))
    x.2 = .refused ∧ x.1.git.head = .symbolic t!"refs/heads/b" ∧ x.1.git.refs.get? t!"refs/heads/d" = none := by
  decide +kernel

/-- Non-vacuity of `refused_branch_stays`. -/
example :
    let x := record (exRecordEnv .staged [oidN 1] []) t!"refs/heads/main" none
      ⟨true, some t!"d", false, false, false⟩ (exRecordWorld (.symbolic t!"refs/heads/b"))
    x.2 = .refused ∧ x.1.git.head = .symbolic t!"refs/heads/d" := by
  decide +kernel

/-- Non-vacuity of `detach_first_commit`: there are no commits yet. -/
example :
    let x := record (exRecordEnv .staged [] []) t!"refs/heads/main" none
      ⟨false, none, true, false, false⟩ (exWorld [] (.symbolic t!"refs/heads/main"))
    x.2 = .done ∧ x.1.git.head = .symbolic t!"refs/heads/main" ∧ x.1.git.headInfo.oid = none := by
  decide +kernel

/-- Non-vacuity: the hypotheses of `detach_first_commit`. -/
example : RecordWorks (exRecordEnv .staged [] []) t!"refs/heads/main" ⟨[], .symbolic t!"refs/heads/main"⟩
    (oidN 7) [] where
  main_exists := .inr rfl
  mains _ := ⟨rfl, rfl⟩
  accepts _ _ _ := rfl
  works _ := rfl
  refs := validRefs_of (by unfold AMap.WF; decide) (by decide)
  keep := by simp [AMap.get?]
  head := .inr ⟨_, ⟨t!"main", rfl⟩, rfl, by simp [AMap.get?]⟩
  commit _ _ := ⟨exCommit [] 21 7, rfl, rfl⟩

/-- Non-vacuity: the hypotheses of `merge_commit_stays_on_branch`; `3` is being merged. -/
example : RecordWorks (exRecordEnv .staged [oidN 1, oidN 3] []) t!"refs/heads/main"
    (exRecordWorld (.symbolic t!"refs/heads/b")).git (oidN 7) [oidN 3] where
  main_exists := .inl rfl
  mains _ := ⟨rfl, rfl⟩
  accepts _ _ _ := rfl
  works _ := rfl
  refs := validRefs_of (refs := exRecordRefs) (by unfold AMap.WF; decide +kernel) (by decide +kernel)
  keep := forall_refs_of (refs := exRecordRefs) (by decide +kernel)
  head := .inr ⟨_, ⟨t!"b", rfl⟩, rfl, forall_refs_of (refs := exRecordRefs) (by decide +kernel)⟩
  commit _ _ := ⟨exCommit [oidN 1, oidN 3] 21 7, rfl, rfl⟩

/-- C70 does not hold in general: with `--stash`, the commits on top of the one which was checked out stay
there, and the siblings of that one are moved on top of it. Here `1` was checked out; `2` is on top of it and
stays, and `3` is moved on top of `1`. -/
theorem stash_insert_moves_siblings :
    ∃ w' es', record (exRecordEnv .unstaged [oidN 1] [((oidN 2, oidN 7), 22), ((oidN 3, oidN 1), 23)])
        t!"refs/heads/main" none ⟨false, none, false, true, true⟩
        (exRecordWorld (.symbolic t!"refs/heads/b")) = (w', .inserted .done) ∧
      w'.git.headInfo.oid = some (oidN 1) ∧ w'.db.getEvents = some es' ∧
      findRewriteTarget (Replayer.fromEvents t!"refs/heads/main" es') ⟨es'.length⟩ (oidN 2) = none ∧
      findRewriteTarget (Replayer.fromEvents t!"refs/heads/main" es') ⟨es'.length⟩ (oidN 3) =
        some (.nonZero (oidN 9)) := by
  refine ⟨_, _, rfl, ?_, rfl, ?_⟩ <;> decide +kernel

end Verif.Props

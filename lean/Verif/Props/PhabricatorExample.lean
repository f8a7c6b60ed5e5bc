import Verif.Props.PhabricatorCreate
import Verif.Props.RewordExample

/-! Concrete repositories for the theorems about Phabricator, and what is not done well. -/

namespace Verif.Props

open Verif Verif.Spec Verif.Phabricator Verif.TestRun

/-- A stack: `1`, `2` and `3`, on top of `0`. -/
def exPhabGraph : CommitGraph Oid :=
  ⟨[(oidN 3, [oidN 2]), (oidN 2, [oidN 1]), (oidN 1, [oidN 0]), (oidN 0, [])]⟩

/-- The environment, for examples. -/
def exPhabEnv (commits : List (Oid × CommitData)) (new : List (CommitData × Oid)) : PhabEnv :=
  ⟨fun c => c.val, fun c => c.val, List.dedup, exCleanExec commits new, fun _ => exFinish fun _ => false,
    ⟨none, false, false, fun w => (w, 0)⟩, exAccepts,
    fun _ l => l.dedup.insertionSort fun a b => a.val ≤ b.val⟩

/-- What `arc` does, for examples: the commits which it makes, and the revisions. -/
def exArc (makes : List (Oid × Oid)) (revisions : List (Text × Revision)) (w : PhabWorld) (l : List Oid) :
    PhabWorld × ArcRun :=
  ({ w with revisions := w.revisions ++ revisions },
    .results (l.map fun c => (c, .passed false ⟨AMap.get? makes c, none⟩ false)) false)

/-- A commit as it is recreated. -/
def exPhabNew (parents : List Oid) (id tree : Nat) : CommitData :=
  { exPhabCommit parents id with tree, time := 100 }

def exPhabMade (parents : List Oid) (id tree : Nat) : CommitData := { exPhabCommit parents id with tree }

/-- The repository: `HEAD` is at `3`. -/
def exPhabWorld (revisions : Revisions) : PhabWorld := ⟨exRestackWorld exStackEvents (oidN 3), revisions⟩

/-- `1` and `2` were not submitted. `arc` makes `5` of `1`, and `6` of `2`. -/
def exPhabStack : PhabEnv :=
  exPhabEnv [(oidN 0, exCommit [] 10 0), (oidN 1, exCommit [oidN 0] 11 1), (oidN 2, exCommit [oidN 1] 12 2),
    (oidN 3, exCommit [oidN 2] 13 3), (oidN 5, exPhabMade [oidN 0] 1 11), (oidN 6, exPhabMade [oidN 1] 2 12)]
    [(exPhabNew [oidN 0] 1 11, oidN 7), (exPhabNew [oidN 7] 2 12, oidN 8), (exNew [oidN 8] 13 3, oidN 9)]

/-- The graph, as it is opened. -/
def exPhabDag : Option Dag :=
  (openRepoDag exPhabGraph t!"refs/heads/main" (exRestackWorld exStackEvents (oidN 3))).map (·.2)

theorem exPhabGraph_wf : WFGraph exPhabGraph := by
  show WFGraph (⟨[(oidN 3, [oidN 2]), (oidN 2, [oidN 1]), (oidN 1, [oidN 0]), (oidN 0, [])]⟩ : CommitGraph Oid)
  unfold WFGraph
  repeat (first | exact .nil | refine .cons (by decide) (by decide) ?_)

/-- Non-vacuity: the hypotheses about the repository. -/
theorem exPhabStack_ok : Agrees exPhabGraph exPhabStack.exec ∧ NoCollisions exPhabStack.exec ∧
    CleanPicks exPhabStack.exec := by
  refine ⟨?_, exCleanExec_noCollisions (by decide) (by decide), exCleanExec_clean (by decide) (by decide)⟩
  intro c hc
  have hc : c ∈ [oidN 3, oidN 2, oidN 1, oidN 0] := hc
  simp only [List.mem_cons, List.not_mem_nil, or_false] at hc
  rcases hc with rfl | rfl | rfl | rfl
  · exact ⟨exCommit [oidN 2] 13 3, by decide +kernel, by decide +kernel⟩
  · exact ⟨exCommit [oidN 1] 12 2, by decide +kernel, by decide +kernel⟩
  · exact ⟨exCommit [oidN 0] 11 1, by decide +kernel, by decide +kernel⟩
  · exact ⟨exCommit [] 10 0, by decide +kernel, by decide +kernel⟩

/-- What `arc` makes of `1` and `2`. -/
def exArcStack : PhabWorld → List Oid → PhabWorld × ArcRun :=
  exArc [(oidN 1, oidN 5), (oidN 2, oidN 6)] [(t!"1", ⟨t!"P1", [], []⟩), (t!"2", ⟨t!"P2", [], []⟩)]

/-- Non-vacuity: the hypotheses about `arc`. -/
example : ∀ w' w1 outputs, exArcStack w' [oidN 1, oidN 2] = (w1, .results outputs false) →
    (∀ c, c ∈ [oidN 1, oidN 2] ↔ c ∈ outputs.map Prod.fst) ∧ ArcAmends exPhabStack.exec outputs := by
  intro w' w1 outputs h
  cases h
  refine ⟨by simp, ?_⟩
  rintro c r ⟨a1, a2, a3, h1, rfl⟩
  simp only [List.map_cons, List.map_nil, List.mem_cons, Prod.mk.injEq, TestStatus.passed.injEq,
    List.not_mem_nil, or_false] at h1
  rcases h1 with ⟨rfl, -, rfl, -⟩ | ⟨rfl, -, rfl, -⟩
  · exact ⟨exCommit [oidN 0] 11 1, exPhabMade [oidN 0] 1 11, by decide +kernel, by decide +kernel,
      by decide +kernel, by decide +kernel⟩
  · exact ⟨exCommit [oidN 1] 12 2, exPhabMade [oidN 1] 2 12, by decide +kernel, by decide +kernel,
      by decide +kernel, by decide +kernel⟩

/-- Non-vacuity of `phab_create_exact` and `phab_create_dependencies_partial`: both commits are submitted. The new
versions are `7` and `8`, and `3` becomes `9`. The second revision depends on the first one. -/
example : ∃ d w' es', exPhabDag = some d ∧
    create exPhabStack d none (exPhabWorld []) [oidN 1, oidN 2] exArcStack =
      (w', .ok [⟨oidN 1, oidN 7, t!"D1"⟩, ⟨oidN 2, oidN 8, t!"D2"⟩],
        [(oidN 9, exNew [oidN 8] 13 3), (oidN 8, exPhabNew [oidN 7] 2 12), (oidN 7, exPhabNew [oidN 0] 1 11)]) ∧
    w'.repo.db.getEvents = some es' ∧
    findRewriteTarget (Replayer.fromEvents t!"refs/heads/main" es') ⟨es'.length⟩ (oidN 3) =
      some (.nonZero (oidN 9)) ∧
    w'.revisions = [(t!"1", ⟨t!"P1", [], []⟩), (t!"2", ⟨t!"P2", [], [t!"P1"]⟩)] := by
  refine ⟨_, _, _, rfl, rfl, rfl, ?_⟩
  decide +kernel

/-- Non-vacuity of `phab_create_all_or_none`: `arc` fails for `2`, and `1` is not rewritten. -/
example : ∃ d w', exPhabDag = some d ∧
    create exPhabStack d none (exPhabWorld []) [oidN 1, oidN 2]
      (fun w _ => (w, .results [(oidN 1, .passed false ⟨some (oidN 5), none⟩ false),
        (oidN 2, .failed false 1 false)] false)) = (w', .error (.failedFor (oidN 2)), []) ∧
    w'.repo.git = (exPhabWorld []).repo.git := by
  refine ⟨_, _, rfl, rfl, ?_⟩
  decide +kernel

/-- Non-vacuity of `phab_update_exact`, and of `phab_update_failures_exact`. -/
example : ∃ d, exPhabDag = some d ∧
    (update exPhabStack exPhabFind d none (exPhabWorld exPhabRevisions) [oidN 2, oidN 1] (exArc [] [])).2 = .ok () ∧
    (update exPhabStack exPhabFind d none (exPhabWorld exPhabRevisions) [oidN 2, oidN 1] (fun w l =>
      (w, .results (l.map fun c => (c, .failed false 1 false)) false))).2 =
      .error (.failedFor [oidN 1, oidN 2]) := by
  refine ⟨_, rfl, ?_⟩
  decide +kernel

/-! ### dependencies which are lost -/

/-- `1` was not submitted, but `2` on top of it was, and needs to be updated. `arc` makes `5` of `1`. -/
def exPhabBelow : PhabEnv :=
  exPhabEnv [(oidN 0, exCommit [] 10 0), (oidN 1, exCommit [oidN 0] 11 1), (oidN 2, exPhabMade [oidN 1] 2 12),
    (oidN 3, exCommit [oidN 2] 13 3), (oidN 5, exPhabMade [oidN 0] 1 11)]
    [(exPhabNew [oidN 0] 1 11, oidN 7), (exPhabNew [oidN 7] 2 12, oidN 8), (exNew [oidN 8] 13 3, oidN 9)]

/-- C84: if a new commit was put below a commit with a revision and both are submitted, then the revision of the upper
one is made to depend on nothing, though Phabricator accepts everything: `update` is called with the commits from
before `create` has rewritten them, and the old version of the new commit names no revision. -/
theorem created_below_submitted_loses_dependency :
    ∃ d w' es', exPhabDag = some d ∧
      phabSubmit exPhabBelow d none true false (exPhabWorld [(t!"2", ⟨t!"P2", [], []⟩)]) [oidN 1, oidN 2]
        (exArc [(oidN 1, oidN 5)] [(t!"1", ⟨t!"P1", [], []⟩)]) (exArc [] []) = (w', .done [t!"D1"]) ∧
      w'.repo.db.getEvents = some es' ∧
      findRewriteTarget (Replayer.fromEvents t!"refs/heads/main" es') ⟨es'.length⟩ (oidN 2) =
        some (.nonZero (oidN 8)) ∧
      exPhabBelow.exec.createCommit (exPhabNew [oidN 7] 2 12) = some (oidN 8) ∧
      exPhabBelow.exec.createCommit (exPhabNew [oidN 0] 1 11) = some (oidN 7) ∧
      RevisionOf (exPhabNew [oidN 7] 2 12) t!"2" ∧ RevisionOf (exPhabNew [oidN 0] 1 11) t!"1" ∧
      w'.revisions = [(t!"2", ⟨t!"P2", [], []⟩), (t!"1", ⟨t!"P1", [], []⟩)] := by
  refine ⟨_, _, _, rfl, rfl, rfl, by decide +kernel, by decide +kernel, by decide +kernel,
    (revisionId_iff _ _).1 (by decide +kernel), (revisionId_iff _ _).1 (by decide +kernel), by decide +kernel⟩

/-- `1` and `3` were not submitted, and `2` is up to date. `arc` makes `5` of `1`, and `6` of `3`. -/
def exPhabBetween : PhabEnv :=
  exPhabEnv [(oidN 0, exCommit [] 10 0), (oidN 1, exCommit [oidN 0] 11 1), (oidN 2, exPhabMade [oidN 1] 2 12),
    (oidN 3, exCommit [oidN 2] 13 3), (oidN 5, exPhabMade [oidN 0] 1 11), (oidN 6, exPhabMade [oidN 2] 3 13)]
    [(exPhabNew [oidN 0] 1 11, oidN 7), (exPhabNew [oidN 7] 2 12, oidN 8), (exPhabNew [oidN 8] 3 13, oidN 9)]

/-- C84: if a commit with a revision is between two new ones, then the revision of the uppermost one is made to depend
on nothing: the new version of the commit between is not among those for which revisions are looked for. -/
theorem created_above_submitted_loses_dependency :
    ∃ d w', exPhabDag = some d ∧
      phabSubmit exPhabBetween d none true false
        (exPhabWorld [(t!"2", ⟨t!"P2", [(t!"gtcm", (oidN 2).toText)], []⟩)]) [oidN 1, oidN 2, oidN 3]
        (exArc [(oidN 1, oidN 5), (oidN 3, oidN 6)] [(t!"1", ⟨t!"P1", [], []⟩), (t!"3", ⟨t!"P3", [], []⟩)])
        (exArc [] []) = (w', .done [t!"D1", t!"D3"]) ∧
      exPhabBetween.exec.createCommit (exPhabNew [oidN 8] 3 13) = some (oidN 9) ∧
      exPhabBetween.exec.createCommit (exPhabNew [oidN 7] 2 12) = some (oidN 8) ∧
      RevisionOf (exPhabNew [oidN 8] 3 13) t!"3" ∧ RevisionOf (exPhabNew [oidN 7] 2 12) t!"2" ∧
      w'.revisions = [(t!"2", ⟨t!"P2", [(t!"gtcm", (oidN 2).toText)], []⟩), (t!"1", ⟨t!"P1", [], []⟩),
        (t!"3", ⟨t!"P3", [], []⟩)] := by
  refine ⟨_, _, rfl, rfl, by decide +kernel, by decide +kernel,
    (revisionId_iff _ _).1 (by decide +kernel), (revisionId_iff _ _).1 (by decide +kernel), by decide +kernel⟩

/-- C84: without `--create`, commits without a revision are left out of what is reported, as are those which are
updated: nothing is said to be submitted. -/
theorem unsubmitted_not_reported :
    ∃ d w', exPhabDag = some d ∧
      phabSubmit exPhabBetween d none false false (exPhabWorld [(t!"2", ⟨t!"P2", [], []⟩)])
        [oidN 1, oidN 2, oidN 3] (exArc [] []) (exArc [] []) = (w', .done []) := by
  exact ⟨_, _, rfl, rfl⟩

end Verif.Props

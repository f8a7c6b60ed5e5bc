import Verif.Props.RecordInsert
import Verif.Props.RecordExample

/-!
# C70, for a merge commit: `record --insert` while a merge is in progress
-/

namespace Verif.Props

open Verif Verif.Spec

/-- C70: `record --insert` with any number of merged commits. The commit is recorded as without the option (C69). Then the
siblings of the new commit - the children of ANY of its parents - are put on top of it, with everything above them; or it is not
done, because one of them is on the main branch, or below the new commit, has conflicts, or is a merge commit. `G` is the graph
with the new commit.

For a commit with one parent `record_insert_partial` says the same in terms of what was above the commit which was checked
out. -/
theorem record_insert_merge (env : RecordEnv) (main : Text) (txEnv : Option Text) (args : RecordArgs)
    (w : RepoWorld) (es : List Event) (hp : w.db.pending = none) (he : w.db.getEvents = some es) (n : Int)
    (hn : inIsize n) (htx : (w.db.makeTransactionId txEnv t!"record").1 = .id n) (hrd : w.rebaseDir = none)
    (kind : ChangesType) (hkind : env.status = some kind) (hk : kind = .unstaged ∨ kind = .staged)
    (hi : recordAction args.interactive kind ≠ .refused) (new : Oid)
    (hnew : env.commit (recordAction args.interactive kind) = .ok new)
    (merged : List Oid) (hwk : RecordWorks env main w.git new merged)
    (hcreate : ∀ name, args.create = some name → CanCreateBranch env w.git name ∧
      (w.git.refs.get? main).isSome)
    (hdetach : args.detach = false) (hstash : args.stash = false) (hins : args.insert = true)
    (hmk : main ≠ t!"refs/branchless/" ++ new.toText)
    (G : CommitGraph Oid) (hg : WFGraph G) (hnn : new ∈ G.nodes)
    (hrepo : ∀ w, w.git.headInfo.oid = some new → env.graph w = G ∧
      SetContract (env.repo w) ∧ NoCollisions (env.repo w).exec ∧ Agrees G (env.repo w).exec) :
    ∃ w1 es1, RecordedRefs w.git w1.git new (recordedHead args w.git new).1 (recordedHead args w.git new).2 ∧
      w1.db.getEvents = some es1 ∧ RecordedEvents es es1 new ∧
      let seen := Seen G main w1.git es1
      let fixed := fun c => OnMain G main w1.git c ∧ ∃ s, Sibling G seen new s ∧ Anc G s c
      let moves := OnSibling G seen new
      (((∃ c, fixed c) ∧ ∃ l, (∀ c, c ∈ l ↔ fixed c) ∧
        record env main txEnv args w = (w1, .inserted (.publicCommits l))) ∨
      ((¬ ∃ c, fixed c) ∧ (∃ s, Sibling G seen new s ∧ Anc G s new) ∧
        ∃ l, record env main txEnv args w = (w1, .inserted (.refused (.constraintCycle l)))) ∨
      ((¬ ∃ c, fixed c) ∧ (∀ s, ¬ Sibling G seen new s) ∧ record env main txEnv args w = (w1, .inserted .done)) ∨
      ((¬ ∃ c, fixed c) ∧ (∃ s, Sibling G seen new s) ∧ (∀ s, Sibling G seen new s → ¬ Anc G s new) ∧
        ((∃ w', (∀ p c, moves p c → (G.parentsOf c).length ≤ 1) ∧
          RelocatedInMemory (env.repo w1) G moves w1 w' ∧
          record env main txEnv args w = (w', .inserted .done)) ∨
        (∃ info, (∃ p c, moves p c ∧ Stuck G (env.repo w1).exec c) ∧
          record env main txEnv args w = (w1, .inserted (.declined info))) ∨
        ∃ w', RelocationBroke (env.repo w1) G moves w1 w' ∧
          record env main txEnv args w = (w', .inserted .error)))) := by
  obtain ⟨w1, h1, ⟨_, es1, h2, h3⟩, _, _, h4, h5⟩ := record_steps hp he hn htx hrd hkind hk hi hnew hwk
    (.inr (.inr ⟨hdetach, hstash⟩)) (fun name hc => ⟨(hcreate name hc).1, hdetach, hstash, (hcreate name hc).2⟩)
    (by rw [hdetach]; simp) (by rw [hstash]; simp)
  refine ⟨w1, es1, h1, h2, h3, ?_⟩
  intro seen fixed moves
  have hcase : (recordedHead args w.git new).1 = .detached new ∨ ∃ name,
      (recordedHead args w.git new).1 = .symbolic name ∧ (recordedHead args w.git new).2 = some name := by
    unfold recordedHead
    rw [hstash, hdetach]
    split
    · exact .inr ⟨_, rfl, rfl⟩
    · simp only [Bool.false_eq_true, if_false]
      split
      · exact .inr ⟨_, rfl, rfl⟩
      · exact .inl rfl
  have hhead : w1.git.headInfo.oid = some new := by
    unfold GitState.headInfo
    rw [h1.head]
    rcases hcase with h6 | ⟨name, h6, h7⟩
    · rw [h6]
    · rw [h6]
      simp only
      exact h1.moved name h7
  obtain ⟨r1, r2, r3, r4⟩ := hrepo w1 hhead
  have hmain1 : (w1.git.refs.get? main).isSome := by
    by_cases hm : (recordedHead args w.git new).2 = some main
    · rw [h1.moved main hm]; rfl
    · rw [h1.others main hm hmk]
      rcases hwk.main_exists with h6 | h6
      · exact h6
      · cases hc : args.create with
        | some name => exact (hcreate name hc).2
        | none =>
          exfalso
          apply hm
          unfold recordedHead
          rw [hc, hstash, hdetach, h6]
          rfl
  have hopen : (openRepoDag G main w1).isSome := by
    obtain ⟨m, hm⟩ := Option.isSome_iff_exists.1 hmain1
    unfold openRepoDag GitState.referencesSnapshot
    rw [hm, h2]
    rfl
  obtain ⟨c1, c2, c3⟩ := insert_before_siblings G hg main w1 h4 es1 h2 hopen (env.repo w1) r2 r3 r4 new hhead hnn
  rw [h5, hins, r1]
  simp only [if_true]
  by_cases hf : ∃ c, fixed c
  · obtain ⟨l, k1, k2⟩ := c1 hf
    exact .inl ⟨hf, l, k1, by rw [k2]⟩
  · by_cases hcy : ∃ s, Sibling G seen new s ∧ Anc G s new
    · obtain ⟨l, k⟩ := c2 hf hcy
      exact .inr (.inl ⟨hf, hcy, l, by rw [k]⟩)
    · have hcy' : ∀ s, Sibling G seen new s → ¬ Anc G s new := fun s k1 k2 => hcy ⟨s, k1, k2⟩
      rcases c3 hf hcy' with ⟨k1, k2⟩ | ⟨k1, k2⟩
      · exact .inr (.inr (.inl ⟨hf, k1, by rw [k2]⟩))
      · refine .inr (.inr (.inr ⟨hf, k1, hcy', ?_⟩))
        rcases k2 with ⟨w', k3, k4, k5⟩ | ⟨info, k3, k5⟩ | ⟨w', k3, k4⟩
        · exact .inl ⟨w', k3, k4, by rw [k5]⟩
        · exact .inr (.inl ⟨info, k3, by rw [k5]⟩)
        · exact .inr (.inr ⟨w', k3, by rw [k4]⟩)

/-- What `record` gives when the new commit has the parents `parents`, and where the branches are. -/
def exMergeRecorded (head : Head) (parents : List Oid) (args : RecordArgs) :
    RecordOutcome × Head × List (Option Oid) :=
  let (w, outcome) := record (exRecordEnv .unstaged parents [((oidN 2, oidN 7), 22)]) t!"refs/heads/main" none args
    (exRecordWorld head)
  (outcome, w.git.head, [t!"main", t!"b", t!"c"].map fun name => w.git.refs.get? (t!"refs/heads/" ++ name))

/-- What is above a MERGED commit is moved too, although it is not above the commit which was checked out. With `3` checked out,
`1` is merged with `record --insert`. Nothing is above `3`. The commit `2`, which is on top of `1`, is put on top of the merge
commit, and its branch `c` goes with it. -/
theorem merge_insert_moves_merged_children :
    (∀ s, oidN 3 ∉ exStackGraph.parentsOf s) ∧
    exMergeRecorded (.detached (oidN 3)) [oidN 3, oidN 1] ⟨false, none, false, true, false⟩ =
      (.inserted .done, .detached (oidN 7), [some (oidN 0), some (oidN 1), some (oidN 8)]) := by
  refine ⟨fun s => ?_, by decide +kernel⟩
  by_cases h : s ∈ exStackGraph.nodes
  · have : s ∈ [oidN 3, oidN 2, oidN 1, oidN 0] := h
    simp only [List.mem_cons, List.not_mem_nil, or_false] at this
    rcases this with rfl | rfl | rfl | rfl <;> decide +kernel
  · intro h1
    obtain ⟨ps, h2, _⟩ := (mem_parentsOf exStackGraph_wf).1 h1
    exact h (List.mem_map.2 ⟨_, h2, rfl⟩)

/-- Non-vacuity of `record_insert_merge`: the graph, and what is known of the commits. -/
example (picks : List ((Oid × Oid) × Nat)) (w : RepoWorld) :
    let env := exRecordEnv .unstaged [oidN 3, oidN 1] picks
    let G := grown exStackGraph (oidN 7) [oidN 3, oidN 1]
    WFGraph G ∧ oidN 7 ∈ G.nodes ∧ env.graph w = G ∧ SetContract (env.repo w) ∧
    NoCollisions (env.repo w).exec ∧ Agrees G (env.repo w).exec := by
  refine ⟨.cons (by decide) (by decide) exStackGraph_wf, by decide, rfl, exMoveEnv_set _ _ _ _, exExec_noCollisions
    (commits := exStackCommits ++ [(oidN 7, exCommit [oidN 3, oidN 1] 21 7)])
    (new := [(exNew [oidN 7] 22 2, oidN 8), (exNew [oidN 1] 23 3, oidN 9)]) (picks := picks) (amends := [])
    (by decide) (by decide), ?_⟩
  intro c hc
  have hc : c ∈ [oidN 7, oidN 3, oidN 2, oidN 1, oidN 0] := hc
  simp only [List.mem_cons, List.not_mem_nil, or_false] at hc
  rcases hc with rfl | rfl | rfl | rfl | rfl
  · exact ⟨exCommit [oidN 3, oidN 1] 21 7, rfl, by decide +kernel⟩
  · exact ⟨exCommit [oidN 0] 13 3, rfl, by decide +kernel⟩
  · exact ⟨exCommit [oidN 1] 12 2, rfl, by decide +kernel⟩
  · exact ⟨exCommit [oidN 0] 11 1, rfl, by decide +kernel⟩
  · exact ⟨exCommit [] 10 0, rfl, by decide +kernel⟩

end Verif.Props

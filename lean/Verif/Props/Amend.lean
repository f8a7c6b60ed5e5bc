import Verif.Lemmas.Amend
import Verif.Props.RewordCommand
import Verif.Props.FinishRebase
import Verif.Props.Gc
import Verif.Props.ExecuteChoice

/-! The command `amend`. -/

namespace Verif.Props

open Verif Verif.Spec Verif.RebasePlanBuilder Verif.Constraints

/-! ### the references -/

theorem findSome_own {refs : Refs} {x : Text} {o : Oid} {rest : List Text}
    (hf : ∀ pre ∈ [[], t!"refs/", t!"refs/tags/"], refs.get? (pre ++ x) = none)
    (h : refs.get? (t!"refs/heads/" ++ x) = some o) :
    ([x, t!"refs/" ++ x, t!"refs/tags/" ++ x, t!"refs/heads/" ++ x] ++ rest).findSome? refs.get? = some o := by
  have h1 := hf [] (by simp)
  have h2 := hf t!"refs/" (by simp)
  have h3 := hf t!"refs/tags/" (by simp)
  simp only [List.cons_append, List.findSome?_cons, List.nil_append] at h1 h2 h3 h ⊢
  rw [h1, h2, h3, h]

theorem gitResolve_own {isCommit : Oid → Bool} {g : GitState} {x : Text} {o : Oid} (h1 : x ≠ t!"HEAD")
    (h2 : x.length = 40 → Oid.parse x = none)
    (hf : ∀ pre ∈ [[], t!"refs/", t!"refs/tags/"], g.refs.get? (pre ++ x) = none)
    (h : g.refs.get? (t!"refs/heads/" ++ x) = some o) : gitResolve isCommit g x = some o := by
  unfold gitResolve
  simp only
  rw [if_neg h1]
  have h3 := findSome_own (rest := [t!"refs/remotes/" ++ x, t!"refs/remotes/" ++ x ++ t!"/HEAD"]) hf h
  split
  · rename_i hl
    rw [h2 hl]
    exact h3
  · exact h3

theorem gitResolve_oid {isCommit : Oid → Bool} {g : GitState} {o : Oid} (h : isCommit o = true) :
    gitResolve isCommit g o.toText = some o := by
  unfold gitResolve
  simp only
  rw [if_neg, if_pos (Oid.length_toText o), Oid.parse_toText]
  · simp [h]
  · intro e
    have := Oid.length_toText o
    rw [e] at this
    simp at this

theorem mark_wf {isCommit : Oid → Bool} {refs refs1 : Refs} {new : Oid} (hw : AMap.WF refs)
    (hc : isCommit new = true) (hm : markCommitReachable isCommit refs new = .ok refs1) : AMap.WF refs1 := by
  unfold markCommitReachable at hm
  rw [if_pos hc] at hm
  unfold createReference at hm
  split at hm
  · simp at hm
  · cases hm; exact AMap.wf_insert hw _ _

/-- The references after the branches were moved. -/
structure AmendMoved (git : GitState) (head new : Oid) (moved : MoveResult) : Prop where
  branches : ∀ name, IsBranch name → moved.refs.get? name =
    if git.refs.get? name = some head then some new else git.refs.get? name
  kept : moved.refs.get? (keepAliveName new) = some new
  others : ∀ name, ¬ IsBranch name → name ≠ keepAliveName new → moved.refs.get? name = git.refs.get? name
  wf : AMap.WF moved.refs
  report : ∃ moves, moved.report = some moves ∧ ∀ old target name, (old, target, name) ∈ moves ↔
    IsBranch name ∧ git.refs.get? name = some head ∧ old = head ∧ target = .nonZero new

theorem amendMoved {env : AmendEnv} {git : GitState} (hw : AMap.WF git.refs) {head new : Oid}
    {data : CommitData} (hsh : ∀ l, ((env.finish [(new, data)]).move.shuffle l).Perm l)
    (hc : (env.finish [(new, data)]).move.isCommit new = true) {refs1 : Refs}
    (hm : markCommitReachable (env.finish [(new, data)]).move.isCommit git.refs new = .ok refs1)
    {moved : MoveResult}
    (hmv : moveBranches (env.finish [(new, data)]).move refs1 [(head, .nonZero new)] = moved)
    (hok : moved.ok = true) : AmendMoved git head new moved := by
  obtain ⟨hk, hko⟩ := mark_reachable_creates _ _ _ _ hc hm
  have hw1 := mark_wf hw hc hm
  have hfollow := branches_follow (env.finish [(new, data)]).move refs1 [(head, .nonZero new)] hw1
    (hsh _) (by rw [hmv]; exact hok)
  obtain ⟨moves, hrep, hcomplete⟩ := report_complete (env.finish [(new, data)]).move refs1
    [(head, .nonZero new)] hw1 (hsh _) (by rw [hmv]; exact hok)
  obtain ⟨htr, hall⟩ := report_truthful_partial (env.finish [(new, data)]).move refs1
    [(head, .nonZero new)] hw1 (hsh _) moves hrep
  rw [hmv] at hfollow hrep
  have hget : ∀ o, AMap.get? [(head, MaybeZero.nonZero new)] o = if head = o then some (.nonZero new) else none := by
    intro o
    simp [AMap.get?]
  have hafter : ∀ name o, BranchAfter (env.finish [(new, data)]).move.mainBranch
      (upstreamOf (env.finish [(new, data)]).move) (AMap.get? [(head, MaybeZero.nonZero new)]) name o =
      if head = o then some new else some o := by
    intro name o
    unfold BranchAfter
    rw [hget]
    split <;> simp_all
  have hbr : ∀ name, IsBranch name → refs1.get? name = git.refs.get? name := by
    intro name hn
    refine hko name ?_
    rintro rfl
    exact keepAlive_not_branch _ hn
  have hbranches : ∀ name, IsBranch name → moved.refs.get? name =
      if git.refs.get? name = some head then some new else git.refs.get? name := by
    intro name hn
    rw [(hfollow name).1 hn, hbr name hn]
    cases hr : git.refs.get? name with
    | none => simp
    | some o =>
      simp only [Option.bind_some, hafter, Option.some.injEq, eq_comm]
  have hkept : moved.refs.get? (keepAliveName new) = some new := by
    rw [(hfollow _).2 (keepAlive_not_branch _), hk]
  have hothers : ∀ name, ¬ IsBranch name → name ≠ keepAliveName new →
      moved.refs.get? name = git.refs.get? name := by
    intro name h1 h2
    rw [(hfollow name).2 h1, hko name h2]
  have hwf : AMap.WF moved.refs := by
    rcases moveBranches_cases (env := (env.finish [(new, data)]).move) (rewritten := [(head, .nonZero new)]) hw1
      (hsh _) with ⟨_, h1⟩ | ⟨s, h1, h2, _⟩ | ⟨s, h1, _⟩ | ⟨s, h1, _⟩ <;> rw [hmv] at h1 <;> subst h1
    · simp at hok
    · exact h2.wf
    · simp at hok
    · simp at hok
  have hreport : ∀ old target name, (old, target, name) ∈ moves ↔
      IsBranch name ∧ git.refs.get? name = some head ∧ old = head ∧ target = .nonZero new := by
    have key : ∀ old target name, (old, target, name) ∈ moves →
        IsBranch name ∧ git.refs.get? name = some head ∧ old = head ∧ target = .nonZero new := by
      intro old target name hm'
      obtain ⟨h1, h2, h3⟩ := hall _ _ _ hm'
      obtain ⟨h4, _⟩ := htr.happened _ _ _ hm'
      rw [hget] at h2
      split at h2
      · rename_i e
        subst e
        rw [hafter, if_pos rfl] at h3
        refine ⟨h1, by rw [← hbr name h1]; exact h4, rfl, ?_⟩
        cases target with
        | zero => simp [MaybeZero.toOption] at h3
        | nonZero o =>
          simp only [MaybeZero.toOption, Option.some.injEq] at h3
          rw [h3]
      · simp at h2
    intro old target name
    refine ⟨key old target name, ?_⟩
    rintro ⟨h1, h2, rfl, rfl⟩
    obtain ⟨t, ht⟩ := hcomplete name old h1 (by rw [hbr name h1]; exact h2) (by rw [hget]; simp)
    rw [← (key _ _ _ ht).2.2.2]
    exact ht
  exact ⟨hbranches, hkept, hothers, hwf, moves, hrep, hreport⟩

/-- The name of the branch still means this branch for git. -/
theorem _root_.Verif.Spec.OwnName.free_moved {git : GitState} {head new : Oid}
    {moved : MoveResult} (M : AmendMoved git head new moved)
    {x : Text} (hx : OwnName git.refs x) :
    ∀ pre ∈ [[], t!"refs/", t!"refs/tags/"], moved.refs.get? (pre ++ x) = none := by
  intro pre hpre
  have h1 := hx.free pre hpre
  by_cases h2 : IsBranch (pre ++ x)
  · rw [M.branches _ h2, if_neg (by rw [h1]; simp), h1]
  · rw [M.others _ h2 ?_, h1]
    intro e
    unfold keepAliveName at e
    simp only [List.mem_cons, List.not_mem_nil, or_false] at hpre
    rcases hpre with rfl | rfl | rfl
    · exact hx.not_full.1 ⟨t!"branchless/" ++ new.toText, e.symm⟩
    · exact hx.not_full.2 ⟨new.toText, (List.append_cancel_left (as := t!"refs/") e).symm⟩
    · have := List.append_cancel_left (as := t!"refs/") e
      simp at this

/-- C66: when the commit which is checked out is amended, its branches and `HEAD` go to the new commit. The
rewrite is recorded, and so are the moves of the branches.

Missing for the full claim: a tag (or another reference) which git finds for the name of the branch
(`amend_tag_of_this_name`), or a file with the name of the branch (`amend_file_of_this_name`). -/
theorem amend_head_partial (env : AmendEnv) (tx : TxId) (w w' : RepoWorld) (hw : AMap.WF w.git.refs)
    (head new : Oid) (data : CommitData) (hh : w.git.headInfo.oid = some head)
    (hsh : ∀ l, ((env.finish [(new, data)]).move.shuffle l).Perm l)
    (hc : (env.finish [(new, data)]).move.isCommit new = true)
    (hb : ∀ name, w.git.head = .symbolic name → ∃ x, name = t!"refs/heads/" ++ x ∧ OwnName w.git.refs x)
    (h : amendHead env tx w head new data = (w', none)) :
    AmendedHead w.git w'.git head new ∧ AMap.WF w'.git.refs ∧
    w'.deferred = w.deferred ∧ w'.rebaseDir = w.rebaseDir ∧
    ∃ moves, w'.db = runReferenceTransactionHook (env.finish [(new, data)])
        (w.db.addEvents [.rewrite env.now tx (.nonZero head) (.nonZero new)]) moves ∧
      ∀ old target name, (old, target, name) ∈ moves ↔
        IsBranch name ∧ w.git.refs.get? name = some head ∧ old = head ∧ target = .nonZero new := by
  unfold amendHead at h
  simp only at h
  split at h
  · simp at h
  rename_i refs1 hm
  generalize hmv : moveBranches (env.finish [(new, data)]).move refs1 [(head, .nonZero new)] = moved at h
  split at h
  · simp at h
  rename_i hok
  have hok : moved.ok = true := by simpa using hok
  obtain ⟨hbranches, hkept, hothers, hwf, moves, hrep, hreport⟩ := amendMoved hw hsh hc hm hmv hok
  unfold resetToCommit at h
  simp only [hrep] at h
  cases hhead : w.git.head with
  | missing =>
    unfold GitState.headInfo at hh
    rw [hhead] at hh
    simp at hh
  | detached o =>
    have hinfo : w.git.headInfo.referenceName = none := by
      unfold GitState.headInfo
      rw [hhead]
    rw [hinfo] at h
    simp only at h
    split at h
    · simp at h
    rename_i g hg
    cases h
    split at hg
    · rename_i g1 hg1
      cases hg
      unfold gitReset at hg1
      rw [gitResolve_oid hc] at hg1
      simp only at hg1
      split at hg1
      · simp at hg1
      · rw [hhead] at hg1
        cases hg1
        refine ⟨⟨hbranches, hkept, hothers, fun _ _ => rfl, ?_, rfl⟩, hwf, rfl, rfl, moves, rfl, hreport⟩
        intro name hn
        rw [hhead] at hn
        cases hn
    · simp at hg
  | symbolic name =>
    obtain ⟨x, rfl, hx⟩ := hb name hhead
    have hisb : IsBranch (t!"refs/heads/" ++ x) := ⟨x, rfl⟩
    have hinfo : w.git.headInfo.referenceName = some (t!"refs/heads/" ++ x) := by
      unfold GitState.headInfo
      rw [hhead]
    have hat : w.git.refs.get? (t!"refs/heads/" ++ x) = some head := by
      unfold GitState.headInfo at hh
      rw [hhead] at hh
      exact hh
    have hnew : moved.refs.get? (t!"refs/heads/" ++ x) = some new := by
      rw [hbranches _ hisb, if_pos hat]
    have hsuf : (categorize (t!"refs/heads/" ++ x)).renderSuffix = x :=
      List.append_cancel_left (branch_suffix hisb)
    have hfree := hx.free_moved ⟨hbranches, hkept, hothers, hwf, moves, hrep, hreport⟩
    rw [hinfo] at h
    simp only [hsuf] at h
    split at h
    · simp at h
    rename_i g hg
    cases h
    split at hg
    · rename_i g1 hg1
      cases hg
      unfold gitReset at hg1
      rw [gitResolve_own (g := ⟨moved.refs, w.git.head⟩) hx.not_head hx.not_oid hfree hnew] at hg1
      simp only at hg1
      split at hg1
      · simp at hg1
      · rw [hhead] at hg1
        cases hg1
        have hsame : ∀ n, (moved.refs.insert (t!"refs/heads/" ++ x) new).get? n = moved.refs.get? n := by
          intro n
          rw [AMap.get?_insert]
          split
          · rename_i e; rw [← e, hnew]
          · rfl
        refine ⟨⟨?_, ?_, ?_, ?_, ?_, ?_⟩, AMap.wf_insert hwf _ _, rfl, rfl, moves, rfl, hreport⟩
        · intro n hn; rw [hsame]; exact hbranches n hn
        · rw [hsame]; exact hkept
        · intro n h1 h2; rw [hsame]; exact hothers n h1 h2
        · intro o ho; rw [hhead] at ho; cases ho
        · intro n hn; rw [hhead] at hn; exact hn
        · simp only [GitState.headInfo]
          rw [hsame, hnew]
    · simp at hg

/-- C66: the changes can be put into the commit which is checked out, unless a reference cannot be written, or
git does not find the branch by its name. -/
theorem amend_head_succeeds (env : AmendEnv) (tx : TxId) (w : RepoWorld) (hw : ValidRefs w.git.refs)
    (head new : Oid) (data : CommitData) (hh : w.git.headInfo.oid = some head)
    (hsh : ∀ l, ((env.finish [(new, data)]).move.shuffle l).Perm l)
    (hc : (env.finish [(new, data)]).move.isCommit new = true)
    (hmain : (w.git.refs.get? (env.finish [(new, data)]).move.mainBranch).isSome)
    (hup : ∃ u, (env.finish [(new, data)]).move.upstreamTarget = .ok u)
    (hacc : ∀ name, IsBranch name → (env.finish [(new, data)]).move.refuses name = false)
    (hkeep : ∀ name, (w.git.refs.get? name).isSome →
      pathConflict (t!"refs/branchless/" ++ new.toText) name = false ∧
      pathConflict name (t!"refs/branchless/" ++ new.toText) = false)
    (hb : ∀ name, w.git.head = .symbolic name → ∃ x, name = t!"refs/heads/" ++ x ∧ OwnName w.git.refs x ∧
      env.fileExists x = false)
    (hf : env.fileExists new.toText = false) :
    ∃ w', amendHead env tx w head new data = (w', none) := by
  unfold amendHead
  simp only
  have hmk : markCommitReachable (env.finish [(new, data)]).move.isCommit w.git.refs new =
      .ok (w.git.refs.insert (keepAliveName new) new) := by
    unfold markCommitReachable createReference
    rw [if_pos hc, if_neg]
    simp only [List.any_eq_true, not_exists, not_and, Bool.not_eq_true]
    intro name hn
    exact (hkeep name ((AMap.mem_keys_iff _ _).1 hn)).1
  rw [hmk]
  simp only
  have hval : ValidRefs (w.git.refs.insert (keepAliveName new) new) := by
    refine ⟨AMap.wf_insert hw.wf _ _, ?_⟩
    intro a b ha hb
    rw [AMap.get?_insert] at ha hb
    have hself : pathConflict (keepAliveName new) (keepAliveName new) = false := by
      unfold pathConflict
      simp only [Bool.or_self]
      rw [Bool.eq_false_iff]
      intro h
      have := (List.isPrefixOf_iff_prefix.1 h).length_le
      rw [List.length_append, List.length_singleton] at this
      exact absurd this (Nat.not_succ_le_self _)
    split at ha <;> split at hb
    · rename_i e1 e2; rw [← e1, ← e2]; exact hself
    · rename_i e1 e2; rw [← e1]; exact (hkeep b hb).1
    · rename_i e1 e2; rw [← e2]; exact (hkeep a ha).2
    · exact hw.paths a b ha hb
  obtain ⟨u, hu⟩ := hup
  generalize hmv : moveBranches (env.finish [(new, data)]).move (w.git.refs.insert (keepAliveName new) new)
    [(head, .nonZero new)] = moved
  have hok : moved.ok = true := by
    rw [← hmv]
    refine moves_succeed _ _ _ (hsh _) ?_ ⟨hval, hacc, ?_⟩ u hu
    · rw [AMap.get?_insert]
      split
      · rfl
      · exact hmain
    · intro o n h
      simp only [AMap.get?, List.find?_cons, List.find?_nil] at h
      split at h <;> simp at h
      rw [← h]
      exact hc
  have M := amendMoved (head := head) hw.wf hsh hc hmk hmv hok
  rw [hok]
  simp only [Bool.not_true, Bool.false_eq_true, if_false]
  unfold resetToCommit gitReset
  cases hhead : w.git.head with
  | missing =>
    unfold GitState.headInfo at hh
    rw [hhead] at hh
    simp at hh
  | detached o =>
    have hinfo : w.git.headInfo.referenceName = none := by
      unfold GitState.headInfo
      rw [hhead]
    simp only [hinfo, gitResolve_oid hc, hf, Bool.false_eq_true, if_false]
    exact ⟨_, rfl⟩
  | symbolic name =>
    obtain ⟨x, rfl, hx, hfx⟩ := hb name hhead
    have hisb : IsBranch (t!"refs/heads/" ++ x) := ⟨x, rfl⟩
    have hinfo : w.git.headInfo.referenceName = some (t!"refs/heads/" ++ x) := by
      unfold GitState.headInfo
      rw [hhead]
    have hat : w.git.refs.get? (t!"refs/heads/" ++ x) = some head := by
      unfold GitState.headInfo at hh
      rw [hhead] at hh
      exact hh
    have hnew : moved.refs.get? (t!"refs/heads/" ++ x) = some new := by
      rw [M.branches _ hisb, if_pos hat]
    have hsuf : (categorize (t!"refs/heads/" ++ x)).renderSuffix = x :=
      List.append_cancel_left (branch_suffix hisb)
    simp only [hinfo, hsuf, hfx, Bool.false_eq_true, if_false,
      gitResolve_own (g := ⟨moved.refs, .symbolic (t!"refs/heads/" ++ x)⟩) hx.not_head hx.not_oid
        (hx.free_moved M) hnew]
    exact ⟨_, rfl⟩

/-! ### the commits on top -/

variable {env : AmendEnv} {graph : CommitGraph Oid} {seen : Oid → Prop} {head n : Oid}
  {b : RebasePlanBuilder} {made : List (Oid × CommitData)} {k : Constraints}

theorem amendHead_outcome {tx : TxId} {w w1 : RepoWorld} {data : CommitData} {x : AmendOutcome}
    (h : amendHead env tx w head n data = (w1, some x)) : x = .error ∨ x = .failed 128 := by
  unfold amendHead at h
  simp only at h
  split at h
  · simp only [Prod.mk.injEq, Option.some.injEq] at h; exact .inl h.2.symm
  split at h
  · simp only [Prod.mk.injEq, Option.some.injEq] at h; exact .inl h.2.symm
  split at h
  · rename_i code hr
    unfold resetToCommit at hr
    simp only at hr
    split at hr
    · simp at hr
    · cases hr
      simp only [Prod.mk.injEq, Option.some.injEq] at h
      exact .inr h.2.symm
  · simp at h

/-- The amended commit stays where it is. -/
theorem amended_lands (S : AmendSetup env graph seen head n b made k) {rewritten : AMap Oid MaybeZero} {q : Oid}
    (h : Lands (OnAmended graph seen head n) rewritten n q) : q = n := by
  cases h with
  | stays => rfl
  | new p _ _ hm => exact absurd hm.1 S.new_not_above
  | dropped p _ _ hm => exact absurd hm.1 S.new_not_above

/-- What becomes of the commits on top. -/
theorem relocated_of_amend (S : AmendSetup env graph seen head n b made k) (hr : env.reparent = false)
    {plan : RebasePlan} (h : b.build = .ok (.ok (some plan))) {s : ExecState} {newHead : Option Oid}
    (hx : (withMade env.exec made).rebaseInMemory (some n) plan = .ok (s, newHead)) :
    newHead = some n ∧
    Relocated (withMade env.exec made) (OnAmended graph seen head n)
      (fun c => b.permissions.detectDuplicateCommitsViaPatchId = true ∧
        AppliedUpstream (grown graph n (graph.parentsOf head)) env.patchId (OnAmended graph seen head n) c)
      s (some n) (some n) := by
  have hrep : b.replacementCommits = [] := by
    cases hb : b.replacementCommits with
    | nil => rfl
    | cons x l =>
      have := (S.replaced x.1).1 (by rw [hb]; simp [AMap.get?])
      rw [hr] at this
      simp at this
  have := relocated (by rw [S.graph_eq]; exact S.added.wf) S.graph_ok S.no_fixups S.moves S.regular hrep h S.nc hx
  rw [S.graph_eq, S.patch] at this
  obtain ⟨q, rfl, h2⟩ := this.head n rfl
  rw [amended_lands S h2] at this ⊢
  exact ⟨rfl, this⟩

/-- What becomes of the commits on top with `--reparent`. -/
theorem reparented_of_amend (S : AmendSetup env graph seen head n b made k) (hr : env.reparent = true)
    (hm : ∀ c, Above graph seen head c → IsParent graph head c → (graph.parentsOf c).length ≤ 1)
    {plan : RebasePlan} (h : b.build = .ok (.ok (some plan))) {s : ExecState} {newHead : Option Oid}
    (hx : (withMade env.exec made).rebaseInMemory (some n) plan = .ok (s, newHead)) :
    newHead = some n ∧
    Reparented graph seen head n
      (fun c => b.permissions.detectDuplicateCommitsViaPatchId = true ∧
        AppliedUpstream (grown graph n (graph.parentsOf head)) env.patchId (OnAmended graph seen head n) c)
      env.exec (s.created ++ made) s.rewritten := by
  obtain ⟨-, h2, h3, h4⟩ := replaced_rebase_in_memory b _ k S.graph_ok S.no_fixups S.moves S.regular
    S.replacedOnParents plan h (withMade env.exec made) S.nc _ s newHead hx
  obtain ⟨q, rfl, hq⟩ := h4 n rfl
  refine ⟨by rw [amended_lands S hq], ?_, fun c hc => h3 c fun hp => hc ((S.moved_iff c).1 hp)⟩
  intro c hc
  obtain ⟨p, hp⟩ := (S.moved_iff c).2 hc
  obtain ⟨r, hcr⟩ := Option.isSome_iff_exists.1 ((S.replaced c).2 ⟨hr, hc⟩)
  obtain ⟨d, h6, h7⟩ := S.replacement c r hcr
  rcases h2 p c r hp hcr with ⟨h8, h9⟩ | ⟨n', ps, rep, h8, h9, h10, h11⟩
  · left
    have := skipped_upstream (by rw [S.graph_eq]; exact S.added.wf) S.graph_ok S.no_fixups S.moves h h8
    rw [S.graph_eq, S.patch] at this
    exact ⟨this, h9⟩
  · right
    have hnp : newParents b.env c r = amendedParents head n (graph.parentsOf c) := by
      rw [S.newParents_eq hcr]
      split
      · rename_i hlen
        unfold amendedParents
        rw [List.map_congr_left (g := id), List.map_id]
        intro x hxp
        have hxp := (mem_parentsOf S.wf).1 hxp
        rw [if_neg]
        · rfl
        · rintro rfl
          have := hm c hc hxp
          omega
      · rfl
    rw [hnp] at h8
    unfold amendedParents at h8
    rw [List.forall₂_map_left_iff] at h8
    have hrun := (rebaseInMemory_ok hx).1
    have hrep : rep = { d with parents := amendedParents head n d.parents } := by
      have h12 : (withMade env.exec made).commits r =
          some { d with parents := amendedParents head n d.parents } :=
        find_created S.noCollisions S.made_ok h7
      have hcr : ∀ x ∈ s.created, (withMade env.exec made).createCommit x.2 = some x.1 := by
        obtain ⟨_, _, ⟨new, h13, h14⟩, _⟩ := runs_frame hrun
        intro x hx
        rw [h13] at hx
        exact h14 x (by simpa [ExecEnv.initialState] using hx)
      have := find_original S.nc hcr h12
      rw [this] at h9
      exact (Option.some.inj h9).symm
    subst hrep
    rw [withMade_find] at h11
    exact ⟨d, ps, n', h6, h8, h10, h11⟩

theorem replaceParents_stop {ee : ExecEnv} {s : ExecState} {ps : List OidOrLabel} {e : InMemoryStop}
    (h : ps.mapM (ee.replaceParent s) = .error e) : e = .error := by
  induction ps generalizing e with
  | nil => simp [pure, Except.pure] at h
  | cons p ps ih =>
    rw [List.mapM_cons] at h
    cases hp : ee.replaceParent s p with
    | error e' =>
      rw [hp] at h
      have he : e' = e := by simpa [bind, Except.bind] using h
      subst he
      unfold ExecEnv.replaceParent at hp
      simp only at hp
      split at hp
      · cases hp; rfl
      · split at hp
        · cases hp; rfl
        · simp at hp
    | ok o =>
      rw [hp] at h
      cases hps : ps.mapM (ee.replaceParent s) with
      | error e' =>
        rw [hps] at h
        have he : e' = e := by simpa [bind, Except.bind] using h
        exact he ▸ ih hps
      | ok os =>
        rw [hps] at h
        simp [bind, Except.bind, pure, Except.pure] at h

/-- Without cherry-picks and merges there are no merge conflicts. -/
theorem no_picks_no_conflicts {ee : ExecEnv} {head : Option Oid} {plan : RebasePlan}
    (h1 : ∀ c l, .pick c l ∉ plan.commands) (h2 : ∀ c ps, .merge c ps ∉ plan.commands)
    (info : FailedMergeInfo) : ee.rebaseInMemory head plan ≠ .error (.mergeFailed info) := by
  have key : ∀ (cmds : List RebaseCommand) (e : ExecState), (∀ c l, .pick c l ∉ cmds) →
      (∀ c ps, .merge c ps ∉ cmds) → cmds.foldlM (ee.runCommand head) e ≠ .error (.mergeFailed info) := by
    intro cmds
    induction cmds with
    | nil => intro e _ _ h; simp [pure, Except.pure] at h
    | cons cmd cmds ih =>
      intro e h1 h2 h
      rw [List.foldlM_cons] at h
      cases hc : ee.runCommand head e cmd with
      | ok e' =>
        rw [hc] at h
        exact ih e' (fun c l hm => h1 c l (List.mem_cons_of_mem _ hm))
          (fun c l hm => h2 c l (List.mem_cons_of_mem _ hm)) h
      | error e' =>
        rw [hc] at h
        have he : e' = .mergeFailed info := by simpa [bind, Except.bind] using h
        subst he
        cases cmd with
        | pick c l => exact h1 c l (by simp)
        | merge c ps => exact h2 c ps (by simp)
        | replace c r ps =>
          simp only [ExecEnv.runCommand, ExecEnv.runReplace] at hc
          split at hc
          · split at hc
            · simp at hc
            split at hc
            · rename_i e2 he2
              cases hc
              simpa using replaceParents_stop he2
            · split at hc <;> simp at hc
          · simp at hc
        | reset t =>
          cases t with
          | label l => simp only [ExecEnv.runCommand] at hc; split at hc <;> simp at hc
          | oid o => simp only [ExecEnv.runCommand] at hc; split at hc <;> simp at hc
        | skipUpstreamAppliedCommit c =>
          simp only [ExecEnv.runCommand] at hc
          split at hc <;> simp at hc
        | createLabel l => simp [ExecEnv.runCommand] at hc
        | «break» => simp [ExecEnv.runCommand] at hc
        | registerExtraPostRewriteHook => simp [ExecEnv.runCommand] at hc
        | detectEmptyCommit c => simp [ExecEnv.runCommand] at hc
  intro h
  unfold ExecEnv.rebaseInMemory at h
  have : ExecEnv.findMerge plan.commands = none := by
    unfold ExecEnv.findMerge
    rw [List.findSome?_eq_none_iff]
    intro cmd hcmd
    split
    · rename_i c ps
      exact absurd hcmd (h2 c ps)
    · rfl
  rw [this] at h
  simp only at h
  split at h
  · rename_i e he
    cases h
    exact key _ _ h1 h2 he
  · simp at h

/-- With `--reparent` nothing is cherry-picked. -/
theorem reparent_no_conflicts (S : AmendSetup env graph seen head n b made k) (hr : env.reparent = true)
    {plan : RebasePlan} (h : b.build = .ok (.ok (some plan))) (ee : ExecEnv) (head' : Option Oid)
    (info : FailedMergeInfo) : ee.rebaseInMemory head' plan ≠ .error (.mergeFailed info) := by
  have hone := plan_each_once_partial b k S.graph_ok S.regular plan h
  obtain ⟨h1, h2, _⟩ := plan_kinds b k S.graph_ok plan h
  have hrep : ∀ c ∈ handledCommits plan.commands, AMap.get? b.replacementCommits c ≠ none := by
    intro c hc he
    have := (S.replaced c).2 ⟨hr, S.rewritten.1 (hone.only c hc)⟩
    rw [he] at this
    simp at this
  refine no_picks_no_conflicts ?_ ?_ info
  · intro c l hc
    exact hrep c (List.mem_filterMap.2 ⟨_, hc, rfl⟩) (h1 c l hc)
  · intro c ps hc
    exact hrep c (List.mem_filterMap.2 ⟨_, hc, rfl⟩) (h2 c ps hc).1

/-! ### the plan -/

theorem verified_detect {d : Dag} {force detect : Bool} {cs : List Oid} {p : RebasePlanPermissions}
    (h : verifyRewriteSet d force detect cs = .ok p) : p.detectDuplicateCommitsViaPatchId = detect := by
  unfold verifyRewriteSet at h
  simp only at h
  split at h
  · simp at h
  · cases h; rfl

/-- The commits which may be rewritten before the commit is amended may be rewritten afterwards. -/
theorem amend_verified {d : Dag} (hg : WFGraph d.graph) {ps : List Oid} (hh : head ∈ d.graph.nodes)
    (hs : ∀ o, seen o ↔ o ∈ d.graph.nodes ∧ ∃ x ∈ d.visibleHeads, Anc d.graph o x) (hsh : seen head)
    (A : Added d.graph (d.addCommit n ps).graph head n) {force detect : Bool} {p : RebasePlanPermissions}
    (h : verifyRewriteSet d force detect (d.filterVisibleCommits (d.graph.descendants [head])) = .ok p) :
    ∃ p', verifyRewriteSet (d.addCommit n ps) force detect (amendDescendants (d.addCommit n ps) head) = .ok p' := by
  rw [verify_rewrite_set_iff _ A.wf]
  refine ((verify_rewrite_set_iff d hg _ _ _).1 ⟨p, h⟩).imp id ?_
  intro h1 x hx c hc hxc hpub
  rw [mem_amendDescendants hg hs hh A] at hx
  obtain ⟨m, hm, hcm⟩ := hpub
  have hm' : m ∈ d.mainBranchCommit := by
    unfold Dag.addCommit at hm
    split at hm <;> exact hm
  have hxm : x ∈ d.graph.nodes := ((hs x).1 hx.1).1
  have hhx := (A.anc x hxm head).2 hx.2.2
  have hne : ∀ y, Anc (d.addCommit n ps).graph x y → y ≠ head := by
    rintro y hxy rfl
    exact hx.2.1 (hxy.antisymm A.wf hhx)
  have hcn := A.above_mem hg (hne c hxc) hh (hhx.trans hxc)
  have hmn := A.above_mem hg (hne m (hxc.trans hcm)) hh ((hhx.trans hxc).trans hcm)
  refine h1 head ?_ c hcn (hx.2.2.trans ((A.anc c hcn x).1 hxc)) ⟨m, hm', (A.anc m hmn c).1 hcm⟩
  rw [mem_filterVisible hg, mem_descendants hg]
  exact ⟨⟨hh, head, by simp, .refl⟩, (hs head).1 hsh⟩

/-- There is always a plan if there are commits on top, unless something fails. -/
theorem amend_plan_exists {d : Dag} (hg : WFGraph d.graph) (hh : head ∈ d.graph.nodes)
    (hs : ∀ o, seen o ↔ o ∈ d.graph.nodes ∧ ∃ x ∈ d.visibleHeads, Anc d.graph o x) (hsh : seen head)
    (hag : Agrees d.graph env.exec) (hnc : NoCollisions env.exec) {data : CommitData}
    (hdata : data.parents = d.graph.parentsOf head) (hn : env.exec.createCommit data = some n)
    (hvec : ∀ l x, x ∈ env.toVec l ↔ x ∈ l) {p : RebasePlanPermissions}
    (hv : verifyRewriteSet d env.forceRewritePublicCommits env.detectDuplicateCommitsViaPatchId
      (d.filterVisibleCommits (d.graph.descendants [head])) = .ok p) :
    ((∃ e, amendPlan env (d.addCommit n data.parents) head n data = .error e) ∧
      ∃ c, Above d.graph seen head c) ∨
    ((¬ ∃ c, Above d.graph seen head c) ∧
      ∃ made, amendPlan env (d.addCommit n data.parents) head n data = .ok (.ok none, made)) ∨
    ∃ b made k plan, amendPlan env (d.addCommit n data.parents) head n data = .ok (.ok (some plan), made) ∧
      AmendSetup env d.graph seen head n b made k ∧ b.build = .ok (.ok (some plan)) ∧
      b.permissions.detectDuplicateCommitsViaPatchId = env.detectDuplicateCommitsViaPatchId ∧
      (env.reparent = false → made = [(n, data)]) ∧ ∃ c, Above d.graph seen head c := by
  rw [hdata]
  have A : Added d.graph (d.addCommit n (d.graph.parentsOf head)).graph head n := by
    rw [addCommit_graph]
    refine added hg fun hm => ?_
    obtain ⟨dn, h1, h2⟩ := hag n hm
    rw [← h2, hnc.old _ _ _ hn h1, hdata]
  obtain ⟨p', hp'⟩ := amend_verified hg hh hs hsh A hv
  unfold amendPlan
  simp only
  rw [hp']
  simp only
  split
  · rename_i hx
    refine .inl ⟨⟨_, rfl⟩, ?_⟩
    by_contra hno
    have hempty : env.toVec (amendDescendants (d.addCommit n (d.graph.parentsOf head)) head) = [] := by
      rw [List.eq_nil_iff_forall_not_mem]
      intro c hc
      exact hno ⟨c, (mem_amendDescendants hg hs hh A).1 ((hvec _ _).1 hc)⟩
    rw [hempty] at hx
    cases hx
  rename_i b made hb
  obtain ⟨k, S, hperm, hmade⟩ := amendSetup hg hs hh hag hnc hdata hn hvec hb
  have hall := verify_rewrite_set_allows _ A.wf _ _ _ _ hp'
  obtain ⟨plan, h1, h2⟩ := build_moves S.graph_ok S.no_fixups S.acyclic (by
    intro p c hpc
    rw [S.moves] at hpc
    show c ∈ b.permissions.allowedCommits
    rw [hperm, hall]
    exact ⟨A.nodes c (S.above_mem hpc.1), c, (mem_amendDescendants hg hs hh A).2 hpc.1, .refl⟩)
  have hex : (∃ p c, Moves k p c) ↔ ∃ c, Above d.graph seen head c := by
    constructor
    · rintro ⟨p, c, h⟩; exact ⟨c, ((S.moves p c).1 h).1⟩
    · rintro ⟨c, h⟩
      obtain ⟨p, hp⟩ := (S.moved_iff c).2 h
      exact ⟨p, c, (S.moves p c).2 hp⟩
  rw [h1]
  right
  cases plan with
  | none => exact .inl ⟨by rw [← hex]; exact h2.1 rfl, made, rfl⟩
  | some plan =>
    refine .inr ⟨_, made, k, plan, rfl, S, h1, ?_, hmade, ?_⟩
    · show b.permissions.detectDuplicateCommitsViaPatchId = _
      rw [hperm]
      exact verified_detect hp'
    · rw [← hex]
      by_contra hno
      have := h2.2 hno
      simp at this

/-! ### the command -/

/-- The repository when the commit is amended: the state of the working copy was recorded. -/
def recorded (env : AmendEnv) (tx : Option Text) (w : RepoWorld) (head snapshot : Oid) : RepoWorld :=
  let t := w.db.makeTransactionId tx t!"amend"
  let event := .snapshot env.now t.1 (.nonZero head) snapshot w.git.headInfo.referenceName
  { w with db := t.2.addEvents [event] }

/-- The steps up to the point where something is changed. -/
structure AmendBegun (env : AmendEnv) (main : Text) (graph : CommitGraph Oid) (w : RepoWorld) (r : Replayer)
    (d : Dag) (head : Oid) (hd : CommitData) (p : RebasePlanPermissions) : Prop where
  opened : openRepoDag graph main w = some (r, d)
  checkedOut : w.git.headInfo.oid = some head
  data : env.exec.commits head = some hd
  noConflicts : env.indexConflicts = false
  allowed : verifyRewriteSet d env.forceRewritePublicCommits env.detectDuplicateCommitsViaPatchId
    (d.filterVisibleCommits (d.graph.descendants [head])) = .ok p

theorem amend_steps {main : Text} {tx : Option Text} {w : RepoWorld} :
    amend env main graph tx w = (w, .error) ∨
    (∃ e, amend env main graph tx w = (w, .refused e) ∧
      ((e = .noHead ∧ w.git.headInfo.oid = none) ∨ (e = .conflicts ∧ env.indexConflicts = true) ∨
        ∃ r d head e', e = .planner e' ∧ openRepoDag graph main w = some (r, d) ∧
          w.git.headInfo.oid = some head ∧
          verifyRewriteSet d env.forceRewritePublicCommits env.detectDuplicateCommitsViaPatchId
            (d.filterVisibleCommits (d.graph.descendants [head])) = .error e')) ∨
    ∃ r d head hd p, AmendBegun env main graph w r d head hd p ∧
      ((env.status = none ∧ (amend env main graph tx w).2 = .error) ∨
        ∃ snapshot status, env.status = some (snapshot, status) ∧ amend env main graph tx w =
          amendWith env (w.db.makeTransactionId tx t!"amend").1 (recorded env tx w head snapshot) d head hd
            status) := by
  unfold amend
  split
  · exact .inl rfl
  rename_i r d hd
  split
  · rename_i hh
    exact .inr (.inl ⟨_, rfl, .inl ⟨rfl, hh⟩⟩)
  rename_i head hh
  split
  · exact .inl rfl
  rename_i hdata hc
  split
  · rename_i hi
    exact .inr (.inl ⟨_, rfl, .inr (.inl ⟨rfl, hi⟩)⟩)
  rename_i hi
  split
  · rename_i e he
    exact .inr (.inl ⟨_, rfl, .inr (.inr ⟨r, d, head, e, rfl, hd, hh, he⟩)⟩)
  rename_i p hp
  refine .inr (.inr ⟨r, d, head, hdata, p, ⟨hd, hh, hc, by simpa using hi, hp⟩, ?_⟩)
  simp only
  split
  · rename_i hs
    exact .inl ⟨hs, rfl⟩
  · rename_i snapshot status hs
    exact .inr ⟨snapshot, status, hs, rfl⟩

theorem AmendBegun.seen_head {main : Text} {w : RepoWorld} {r : Replayer} {d : Dag} {hd : CommitData}
    {p : RebasePlanPermissions} (B : AmendBegun env main graph w r d head hd p) (hh : head ∈ graph.nodes)
    (es : List Event) : Seen graph main w.git es head := ⟨hh, head, .refl, .inl B.checkedOut⟩

/-- C66: what `amend` does if it succeeds. The commit which is checked out is not on the main branch, and has no
descendants there, unless this was forced. There is a new commit with the staged changes, or else with those of
the working copy; message, parents and people are those of the original. Branches and `HEAD` go to it (see
`AmendedHead`). The visible descendants are rebased onto the new commit, by cherry-picks or with `--reparent`
without any change of files (see `Relocated`, `Reparented`), and then the references are updated (C22, C23,
C24); if this was declined because of merge conflicts, they are left alone.

Missing for the full claim: the cases which are excluded in `amend_head_partial`; with `--reparent`, merge
commits directly on top of the amended commit, which are left on the original (`reparent_merge_left`). Rebases
on disk are not covered. -/
theorem amend_command_partial (graph : CommitGraph Oid) (hg : WFGraph graph) (main : Text) (w : RepoWorld)
    (hw : AMap.WF w.git.refs) (es : List Event) (he : w.db.getEvents = some es) (env : AmendEnv)
    (hag : Agrees graph env.exec) (hn : NoCollisions env.exec) (hvec : ∀ l x, x ∈ env.toVec l ↔ x ∈ l)
    (ho : InMemoryOnly env.options)
    (hsh : ∀ created l, ((env.finish created).move.shuffle l).Perm l)
    (hc : ∀ n data, env.exec.createCommit data = some n → (env.finish [(n, data)]).move.isCommit n = true)
    (head : Oid) (hh : w.git.headInfo.oid = some head) (hhm : head ∈ graph.nodes)
    (hb : ∀ name, w.git.head = .symbolic name → ∃ x, name = t!"refs/heads/" ++ x ∧ OwnName w.git.refs x)
    (hm : env.reparent = true → ∀ c, Above graph (Seen graph main w.git es) head c → IsParent graph head c →
      (graph.parentsOf c).length ≤ 1)
    (tx : Option Text) (w' : RepoWorld) (declined : Option FailedMergeInfo)
    (h : amend env main graph tx w = (w', .done declined)) :
    (env.forceRewritePublicCommits = true ∨ ∀ c, Anc graph head c → ¬ OnMain graph main w.git c) ∧
    ∃ hd snapshot status tree new w1 moves,
      env.exec.commits head = some hd ∧ env.status = some (snapshot, status) ∧
      env.amendTree (amendSource status) = some tree ∧
      env.exec.createCommit ⟨hd.parents, tree, hd.message,
        if env.exec.preserveTimestamps then hd.author else env.retime hd.author, hd.committer,
        env.exec.newTime hd.time⟩ = some new ∧
      AmendedHead w.git w1.git head new ∧
      w1.db = runReferenceTransactionHook (env.finish [(new, env.amended hd tree)])
        ((recorded env tx w head snapshot).db.addEvents
          [.rewrite env.now (w.db.makeTransactionId tx t!"amend").1 (.nonZero head) (.nonZero new)]) moves ∧
      (∀ old target name, (old, target, name) ∈ moves ↔
        IsBranch name ∧ w.git.refs.get? name = some head ∧ old = head ∧ target = .nonZero new) ∧
      (declined.isSome → w' = w1) ∧
      (declined = none →
        ((¬ ∃ c, Above graph (Seen graph main w.git es) head c) ∧ w' = w1) ∨
        ∃ made s ok, postRebaseInMemory (env.finish (s.created ++ made)) w1 s.rewritten (some new) =
            (w', .ok ok) ∧
          if env.reparent then
            Reparented graph (Seen graph main w.git es) head new
              (fun c => env.detectDuplicateCommitsViaPatchId = true ∧
                AppliedUpstream (grown graph new (graph.parentsOf head)) env.patchId
                  (OnAmended graph (Seen graph main w.git es) head new) c)
              env.exec (s.created ++ made) s.rewritten
          else
            made = [(new, env.amended hd tree)] ∧
            Relocated { env.exec with commits := env.exec.find made }
              (OnAmended graph (Seen graph main w.git es) head new)
              (fun c => env.detectDuplicateCommitsViaPatchId = true ∧
                AppliedUpstream (grown graph new (graph.parentsOf head)) env.patchId
                  (OnAmended graph (Seen graph main w.git es) head new) c)
              s (some new) (some new)) := by
  rcases amend_steps (env := env) (graph := graph) (main := main) (tx := tx) (w := w) with
    h1 | ⟨e, h1, _⟩ | ⟨r, d, head', hd, p, B, h1⟩
  · rw [h1] at h; simp at h
  · rw [h1] at h; simp at h
  have hhe : head' = head := by
    have := B.checkedOut
    rw [hh] at this
    exact (Option.some.inj this).symm
  subst hhe
  obtain ⟨hgr, -⟩ := graph_opened he B.opened
  have hs := seen_opened hg hw he B.opened
  have hpub := public_opened hw he B.opened
  have hsh' := B.seen_head hhm es
  subst hgr
  constructor
  · refine ((verify_rewrite_set_iff d hg _ _ _).1 ⟨p, B.allowed⟩).imp id fun h2 c hxc hc => ?_
    refine h2 head' ?_ c (hxc.mem_up hhm) hxc ((hpub c).2 hc)
    rw [mem_filterVisible hg, mem_descendants hg]
    exact ⟨⟨hhm, head', by simp, .refl⟩, (hs head').1 hsh'⟩
  rcases h1 with ⟨_, h1⟩ | ⟨snapshot, status, hst, h1⟩
  · rw [h] at h1; simp at h1
  rw [h1] at h
  unfold amendWith at h
  split at h
  · simp at h
  split at h
  · simp at h
  rename_i tree htree
  split at h
  · simp at h
  rename_i new hnew
  split at h
  · rename_i w1 outcome ha
    simp only [Prod.mk.injEq] at h
    obtain ⟨rfl, rfl⟩ := h
    rcases amendHead_outcome ha with ha | ha <;> simp at ha
  rename_i w1 ha
  have hgit : (recorded env tx w head' snapshot).git = w.git := rfl
  obtain ⟨h2, h3, h4, h5, moves, h6, h7⟩ := amend_head_partial env _ (recorded env tx w head' snapshot) w1 hw head' new
    _ hh (hsh _) (hc _ _ hnew) hb ha
  have hdp : hd.parents = d.graph.parentsOf head' := by
    obtain ⟨hd', h8, h9⟩ := hag head' hhm
    rw [B.data] at h8
    cases h8
    exact h9
  refine ⟨hd, snapshot, status, tree, new, w1, moves, B.data, hst, htree, hnew, h2, h6, h7, ?_⟩
  rcases amend_plan_exists (data := env.amended hd tree) hg hhm hs hsh' hag hn hdp hnew hvec B.allowed with
    ⟨⟨e, h8⟩, _⟩ | ⟨hno, made, h8⟩ | ⟨b, made, k, plan, h8, S, hbuild, hdet, hmade, _⟩
  · have h8' : amendPlan env (d.addCommit new hd.parents) head' new (env.amended hd tree) = _ := h8
    rw [h8'] at h; simp [executeAmend] at h
  · have h8' : amendPlan env (d.addCommit new hd.parents) head' new (env.amended hd tree) = _ := h8
    rw [h8'] at h
    simp only [executeAmend, Prod.mk.injEq, AmendOutcome.done.injEq] at h
    obtain ⟨rfl, rfl⟩ := h
    exact ⟨fun _ => rfl, fun _ => .inl ⟨hno, rfl⟩⟩
  · have h8' : amendPlan env (d.addCommit new hd.parents) head' new (env.amended hd tree) = _ := h8
    rw [h8'] at h
    simp only [executeAmend] at h
    split at h
    · simp at h
    · rename_i w2 x hx
      simp only [Prod.mk.injEq, AmendOutcome.done.injEq] at h
      obtain ⟨rfl, rfl⟩ := h
      refine ⟨by simp, fun _ => .inr ?_⟩
      obtain ⟨s, newHead, ok, h9, h10⟩ := executeRebasePlan_inMemory ho hx
      rw [h2.head] at h9
      cases hr : env.reparent with
      | true =>
        obtain ⟨rfl, h11⟩ := reparented_of_amend S hr (hm hr) hbuild h9
        rw [hdet] at h11
        exact ⟨made, s, ok, h10, h11⟩
      | false =>
        obtain ⟨rfl, h11⟩ := relocated_of_amend S hr hbuild h9
        rw [hdet] at h11
        exact ⟨made, s, ok, h10, hmade hr, h11⟩
    · rename_i w2 info hx
      simp only [Prod.mk.injEq, AmendOutcome.done.injEq] at h
      obtain ⟨rfl, rfl⟩ := h
      exact ⟨fun _ => (declined_changes_nothing _ _ _ _ _ _ _ _ hx).1, by simp⟩
    · simp at h

/-- C66: when `amend` refuses to do anything: nothing is checked out, or the index has conflicts, or the commit
or one of its descendants is on the main branch and this was not forced. Nothing is changed then. -/
theorem amend_refused_exact (graph : CommitGraph Oid) (hg : WFGraph graph) (main : Text) (w : RepoWorld)
    (hw : AMap.WF w.git.refs) (es : List Event) (he : w.db.getEvents = some es) (r : Replayer) (d : Dag)
    (hd : openRepoDag graph main w = some (r, d)) (env : AmendEnv)
    (hag : Agrees graph env.exec) (hn : NoCollisions env.exec) (hvec : ∀ l x, x ∈ env.toVec l ↔ x ∈ l)
    (hhm : ∀ head, w.git.headInfo.oid = some head → head ∈ graph.nodes) (tx : Option Text) :
    ((∃ e, (amend env main graph tx w).2 = .refused e) ↔
      (w.git.headInfo.oid = none ∨ env.indexConflicts = true ∨ (env.forceRewritePublicCommits = false ∧
        ∃ head c, w.git.headInfo.oid = some head ∧ Anc graph head c ∧ OnMain graph main w.git c))) ∧
    ∀ e, (amend env main graph tx w).2 = .refused e → (amend env main graph tx w).1 = w := by
  obtain ⟨hgr, -⟩ := graph_opened he hd
  have hs := seen_opened hg hw he hd
  have hpub := public_opened hw he hd
  have hon : ∀ head, w.git.headInfo.oid = some head →
      ((∃ p, verifyRewriteSet d env.forceRewritePublicCommits env.detectDuplicateCommitsViaPatchId
        (d.filterVisibleCommits (d.graph.descendants [head])) = .ok p) ↔
      ¬ (env.forceRewritePublicCommits = false ∧ ∃ c, Anc graph head c ∧ OnMain graph main w.git c)) := by
    intro head hh
    rw [verify_rewrite_set_iff d (hgr ▸ hg), not_and_or, Bool.not_eq_false, hgr]
    refine or_congr Iff.rfl ?_
    have hseen : Seen graph main w.git es head := ⟨hhm head hh, head, .refl, .inl hh⟩
    constructor
    · rintro h1 ⟨c, h2, h3⟩
      refine h1 head ?_ c (h2.mem_up (hhm head hh)) h2 ((hpub c).2 h3)
      rw [mem_filterVisible (hgr ▸ hg), hgr, mem_descendants hg]
      exact ⟨⟨hhm head hh, head, by simp, .refl⟩, (hs head).1 hseen⟩
    · intro h1 x hx c _ h2 h3
      rw [mem_filterVisible (hgr ▸ hg), hgr, mem_descendants hg] at hx
      obtain ⟨⟨_, y, hy, hyx⟩, _⟩ := hx
      rw [List.mem_singleton] at hy
      subst hy
      exact h1 ⟨c, hyx.trans h2, (hpub c).1 h3⟩
  rcases amend_steps (env := env) (graph := graph) (main := main) (tx := tx) (w := w) with
    h1 | ⟨e, h1, h2⟩ | ⟨r', d', head, hd', p, B, h1⟩
  · refine ⟨?_, fun e h => by rw [h1] at h; simp at h⟩
    rw [h1]
    simp only [reduceCtorEq, exists_false, false_iff, not_or]
    unfold amend at h1
    rw [hd] at h1
    simp only at h1
    split at h1
    · simp at h1
    rename_i head hh
    split at h1
    · rename_i hc
      obtain ⟨x, hx, _⟩ := hag head (hhm head hh)
      rw [hc] at hx
      simp at hx
    split at h1
    · simp at h1
    rename_i hi
    split at h1
    · simp at h1
    rename_i p hp
    refine ⟨by rw [hh]; simp, hi, ?_⟩
    rintro ⟨h3, head', c, h4, h5⟩
    rw [hh] at h4
    cases h4
    exact (hon head hh).1 ⟨p, hp⟩ ⟨h3, c, h5⟩
  · refine ⟨?_, fun e' h => by rw [h1]⟩
    rw [h1]
    simp only [AmendOutcome.refused.injEq, exists_eq', true_iff]
    rcases h2 with ⟨_, h2⟩ | ⟨_, h2⟩ | ⟨r', d', head, e', _, h2, h3, h4⟩
    · exact .inl h2
    · exact .inr (.inl h2)
    · rw [hd] at h2
      cases h2
      by_contra hcon
      simp only [not_or] at hcon
      obtain ⟨p, hp⟩ := (hon head h3).2 fun h5 => hcon.2.2 ⟨h5.1, head, _, h3, h5.2.choose_spec⟩
      rw [hp] at h4
      simp at h4
  · have hopen := B.opened
    rw [hd] at hopen
    cases hopen
    have hcon : ¬ (w.git.headInfo.oid = none ∨ env.indexConflicts = true ∨
        (env.forceRewritePublicCommits = false ∧
        ∃ head c, w.git.headInfo.oid = some head ∧ Anc graph head c ∧ OnMain graph main w.git c)) := by
      rw [B.checkedOut, B.noConflicts]
      simp only [reduceCtorEq, false_or, Bool.false_eq_true, not_and]
      rintro h3 ⟨head', c, h4, h5⟩
      cases h4
      exact (hon head B.checkedOut).1 ⟨p, B.allowed⟩ ⟨h3, c, h5⟩
    have hno : ∀ e, (amend env main graph tx w).2 ≠ .refused e := by
      intro e h
      rcases h1 with ⟨_, h1⟩ | ⟨snapshot, status, hst, h1⟩
      · rw [h1] at h; simp at h
      rw [h1] at h
      unfold amendWith at h
      split at h
      · simp at h
      split at h
      · simp at h
      rename_i tree htree
      split at h
      · simp at h
      rename_i new hnew
      split at h
      · rename_i w1 outcome ha
        simp only at h
        subst h
        rcases amendHead_outcome ha with ha | ha <;> simp at ha
      have hm := hhm head B.checkedOut
      have hdp : hd'.parents = d.graph.parentsOf head := by
        obtain ⟨x, h8, h9⟩ := hag head hm
        rw [B.data] at h8
        cases h8
        rw [hgr]
        exact h9
      subst hgr
      rcases amend_plan_exists (data := env.amended hd' tree) hg hm hs (B.seen_head hm es) hag hn hdp hnew hvec
        B.allowed with ⟨⟨e', h8⟩, _⟩ | ⟨_, made, h8⟩ | ⟨b, made, k, plan, h8, S, hbuild, hdet, hmade, _⟩
      all_goals
        have h8' : amendPlan env (d.addCommit new hd'.parents) head new (env.amended hd' tree) = _ := h8
        rw [h8'] at h
        simp only [executeAmend] at h
      · simp at h
      · simp at h
      · split at h <;> simp at h
    refine ⟨⟨fun ⟨e, h⟩ => absurd h (hno e), fun h => absurd h hcon⟩, fun e h => absurd h (hno e)⟩

/-- C66: with `--reparent` there are no merge conflicts: if the command ends well then the commits on top were
rebased. -/
theorem amend_reparent_no_conflicts (graph : CommitGraph Oid) (hg : WFGraph graph) (main : Text) (w : RepoWorld)
    (hw : AMap.WF w.git.refs) (es : List Event) (he : w.db.getEvents = some es) (env : AmendEnv)
    (hag : Agrees graph env.exec) (hn : NoCollisions env.exec) (hvec : ∀ l x, x ∈ env.toVec l ↔ x ∈ l)
    (hhm : ∀ head, w.git.headInfo.oid = some head → head ∈ graph.nodes) (hr : env.reparent = true)
    (tx : Option Text) (info : FailedMergeInfo) :
    (amend env main graph tx w).2 ≠ .done (some info) := by
  intro h
  rcases amend_steps (env := env) (graph := graph) (main := main) (tx := tx) (w := w) with
    h1 | ⟨e, h1, _⟩ | ⟨r, d, head, hd, p, B, h1⟩
  · rw [h1] at h; simp at h
  · rw [h1] at h; simp at h
  rcases h1 with ⟨_, h1⟩ | ⟨snapshot, status, hst, h1⟩
  · rw [h1] at h; simp at h
  obtain ⟨hgr, -⟩ := graph_opened he B.opened
  have hs := seen_opened hg hw he B.opened
  have hm := hhm head B.checkedOut
  rw [h1] at h
  unfold amendWith at h
  split at h
  · simp at h
  split at h
  · simp at h
  rename_i tree htree
  split at h
  · simp at h
  rename_i new hnew
  split at h
  · rename_i w1 outcome ha
    simp only at h
    subst h
    rcases amendHead_outcome ha with ha | ha <;> simp at ha
  have hdp : hd.parents = d.graph.parentsOf head := by
    obtain ⟨x, h8, h9⟩ := hag head hm
    rw [B.data] at h8
    cases h8
    rw [hgr]
    exact h9
  subst hgr
  rcases amend_plan_exists (data := env.amended hd tree) hg hm hs (B.seen_head hm es) hag hn hdp hnew hvec
    B.allowed with ⟨⟨e', h8⟩, _⟩ | ⟨_, made, h8⟩ | ⟨b, made, k, plan, h8, S, hbuild, hdet, hmade, _⟩
  all_goals
    have h8' : amendPlan env (d.addCommit new hd.parents) head new (env.amended hd tree) = _ := h8
    rw [h8'] at h
    simp only [executeAmend] at h
  · simp at h
  · simp at h
  · split at h
    · simp at h
    · simp at h
    · rename_i hx
      exact reparent_no_conflicts S hr hbuild _ _ _ (declined_changes_nothing _ _ _ _ _ _ _ _ hx).2
    · simp at h

theorem amendSource_isEmpty {status : List StatusEntry} (hempty : (amendSource status).isEmpty = true) :
    ∀ e ∈ status, e.indexStatus.isChanged = false ∧ e.workingCopyStatus.isChanged = false := by
  unfold amendSource AmendSource.isEmpty at hempty
  simp only at hempty
  split at hempty
  · rename_i paths hs
    split at hs
    · rename_i hne
      cases hs
      simp only [Bool.not_eq_true', List.isEmpty_eq_false_iff_exists_mem] at hne
      obtain ⟨e, he⟩ := hne
      simp only [List.isEmpty_iff, List.flatMap_eq_nil_iff] at hempty
      have := hempty e he
      simp [StatusEntry.paths] at this
    · simp at hs
  · rename_i entries hs
    split at hs
    · simp at hs
    · rename_i hne
      cases hs
      simp only [Bool.not_eq_true', Bool.not_eq_false, List.isEmpty_iff, List.filter_eq_nil_iff] at hne hempty
      intro e he
      exact ⟨by simpa using hne e he, by simpa using hempty e he⟩

/-- C66: if nothing is to be amended then there are no changes, neither in the index nor in the working copy,
and no reference is changed. -/
theorem amend_nothing (env : AmendEnv) (main : Text) (graph : CommitGraph Oid) (tx : Option Text)
    (w w' : RepoWorld) (h : amend env main graph tx w = (w', .nothing)) :
    w'.git = w.git ∧ ∃ snapshot status, env.status = some (snapshot, status) ∧
      ∀ e ∈ status, e.indexStatus.isChanged = false ∧ e.workingCopyStatus.isChanged = false := by
  rcases amend_steps (env := env) (graph := graph) (main := main) (tx := tx) (w := w) with
    h1 | ⟨e, h1, _⟩ | ⟨r, d, head, hd, p, B, h1⟩
  · rw [h1] at h; simp at h
  · rw [h1] at h; simp at h
  rcases h1 with ⟨_, h1⟩ | ⟨snapshot, status, hst, h1⟩
  · rw [h] at h1; simp at h1
  rw [h1] at h
  unfold amendWith at h
  split at h
  · rename_i hempty
    cases h
    exact ⟨rfl, snapshot, status, hst, amendSource_isEmpty hempty⟩
  split at h
  · simp at h
  split at h
  · simp at h
  split at h
  · rename_i w1 outcome ha
    simp only [Prod.mk.injEq] at h
    obtain ⟨rfl, rfl⟩ := h
    rcases amendHead_outcome ha with ha | ha <;> simp at ha
  unfold executeAmend at h
  split at h
  · simp at h
  · simp at h
  · simp at h
  · split at h <;> simp at h

/-- C66: what is amended. If there are staged changes then these are, with both paths of a renamed file; and
otherwise the changes of files which are tracked. -/
theorem amend_source (status : List StatusEntry) :
    ((∃ e ∈ status, e.indexStatus.isChanged = true) → ∃ paths, amendSource status = .index paths ∧
      ∀ p, p ∈ paths ↔ ∃ e ∈ status, e.indexStatus.isChanged = true ∧ (p = e.path ∨ e.origPath = some p)) ∧
    ((¬ ∃ e ∈ status, e.indexStatus.isChanged = true) → ∃ entries, amendSource status = .workingCopy entries ∧
      ∀ e, e ∈ entries ↔ e ∈ status ∧ e.workingCopyStatus.isChanged = true) := by
  unfold amendSource
  simp only
  constructor
  · rintro ⟨e, he, hc⟩
    rw [if_pos]
    · refine ⟨_, rfl, fun p => ?_⟩
      simp only [List.mem_flatMap, List.mem_filter, StatusEntry.paths, List.mem_cons, Option.mem_toList,
        and_assoc]
    · simp only [Bool.not_eq_true', List.isEmpty_eq_false_iff_exists_mem]
      exact ⟨e, by simp [he, hc]⟩
  · intro h
    rw [if_neg]
    · exact ⟨_, rfl, fun e => by simp⟩
    · simp only [Bool.not_eq_true', Bool.not_eq_false, List.isEmpty_iff, List.filter_eq_nil_iff]
      exact fun e he hc => h ⟨e, he, hc⟩

/-- C66: on a commit with nothing visible above, the command succeeds if there is something to amend, the new
commit can be made, and the branch can be moved to it. -/
theorem amend_leaf (graph : CommitGraph Oid) (hg : WFGraph graph) (main : Text) (w : RepoWorld)
    (hw : ValidRefs w.git.refs) (es : List Event) (he : w.db.getEvents = some es) (r : Replayer) (d : Dag)
    (hd : openRepoDag graph main w = some (r, d)) (env : AmendEnv)
    (hag : Agrees graph env.exec) (hn : NoCollisions env.exec) (hvec : ∀ l x, x ∈ env.toVec l ↔ x ∈ l)
    (head : Oid) (hh : w.git.headInfo.oid = some head) (hhm : head ∈ graph.nodes)
    (hi : env.indexConflicts = false) (hpub : ¬ ∃ c, Anc graph head c ∧ OnMain graph main w.git c)
    (snapshot : Oid) (status : List StatusEntry) (hst : env.status = some (snapshot, status))
    (hch : ∃ e ∈ status, e.indexStatus.isChanged = true ∨ e.workingCopyStatus.isChanged = true)
    (tree : Nat) (htree : env.amendTree (amendSource status) = some tree)
    (data : CommitData) (hdata : env.exec.commits head = some data) (new : Oid)
    (hnew : env.exec.createCommit (env.amended data tree) = some new)
    (hsh : ∀ created l, ((env.finish created).move.shuffle l).Perm l)
    (hc : (env.finish [(new, env.amended data tree)]).move.isCommit new = true)
    (hmain : (w.git.refs.get? (env.finish [(new, env.amended data tree)]).move.mainBranch).isSome)
    (hup : ∃ u, (env.finish [(new, env.amended data tree)]).move.upstreamTarget = .ok u)
    (hacc : ∀ name, IsBranch name → (env.finish [(new, env.amended data tree)]).move.refuses name = false)
    (hkeep : ∀ name, (w.git.refs.get? name).isSome →
      pathConflict (t!"refs/branchless/" ++ new.toText) name = false ∧
      pathConflict name (t!"refs/branchless/" ++ new.toText) = false)
    (hb : ∀ name, w.git.head = .symbolic name → ∃ x, name = t!"refs/heads/" ++ x ∧ OwnName w.git.refs x ∧
      env.fileExists x = false)
    (hf : env.fileExists new.toText = false)
    (hleaf : ¬ ∃ c, Above graph (Seen graph main w.git es) head c) (tx : Option Text) :
    (amend env main graph tx w).2 = .done none := by
  have hnot : ∀ e, (amend env main graph tx w).2 ≠ .refused e := by
    intro e h
    have := ((amend_refused_exact graph hg main w hw.wf es he r d hd env hag hn hvec
      (fun x hx => by rw [hh] at hx; cases hx; exact hhm) tx).1).1 ⟨e, h⟩
    rcases this with h | h | ⟨_, x, c, h1, h2, h3⟩
    · rw [hh] at h; simp at h
    · rw [hi] at h; simp at h
    · rw [hh] at h1; cases h1; exact hpub ⟨c, h2, h3⟩
  cases hv : verifyRewriteSet d env.forceRewritePublicCommits env.detectDuplicateCommitsViaPatchId
      (d.filterVisibleCommits (d.graph.descendants [head])) with
  | error e =>
    refine absurd ?_ (hnot (.planner e))
    unfold amend
    simp only [hd, hh, hdata, hi, hv, Bool.false_eq_true, if_false]
  | ok p =>
    have hne : (amendSource status).isEmpty = false := by
      rw [Bool.eq_false_iff]
      intro hempty
      have hno := amendSource_isEmpty hempty
      obtain ⟨e, he, h⟩ := hch
      rw [(hno e he).1, (hno e he).2] at h
      simp at h
    obtain ⟨hgr, -⟩ := graph_opened he hd
    subst hgr
    have hs := seen_opened hg hw.wf he hd
    have hsh' : Seen d.graph main w.git es head := ⟨hhm, head, .refl, .inl hh⟩
    have hdp : data.parents = d.graph.parentsOf head := by
      obtain ⟨x, h8, h9⟩ := hag head hhm
      rw [hdata] at h8
      cases h8
      exact h9
    obtain ⟨w1, hw1⟩ := amend_head_succeeds env (w.db.makeTransactionId tx t!"amend").1
      (recorded env tx w head snapshot) hw head new _ hh (hsh _) hc hmain hup hacc hkeep hb hf
    have hstart : amend env main d.graph tx w = amendWith env (w.db.makeTransactionId tx t!"amend").1
        (recorded env tx w head snapshot) d head data status := by
      unfold amend
      simp only [hd, hh, hdata, hi, hv, Bool.false_eq_true, if_false, hst]
      rfl
    rw [hstart]
    unfold amendWith
    simp only [hne, Bool.false_eq_true, if_false, htree, hnew, hw1]
    rcases amend_plan_exists (data := env.amended data tree) hg hhm hs hsh' hag hn hdp hnew hvec hv with
      ⟨_, hx⟩ | ⟨hno, made, h8⟩ | ⟨b, made, k, plan, h8, S, hbuild, hdet, hmade, hx⟩
    · exact absurd hx hleaf
    · have h8' : amendPlan env (d.addCommit new data.parents) head new (env.amended data tree) = _ := h8
      rw [h8']
      rfl
    · exact absurd hx hleaf

end Verif.Props

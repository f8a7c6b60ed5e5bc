import Verif.Lemmas.FinishRebase
import Verif.Props.Execute
import Verif.Props.Gc
import Verif.Props.RefTransaction
import Verif.Props.RewriteHooks
import Verif.Props.EventLog

/-!
The end of a rebase: branches (C22), `HEAD` (C23), failures (C21), the choice between in-memory and on
disk (C24), and the event log (C54).
-/

namespace Verif.Props

open Verif Verif.Spec

/-! ### C22: branches -/

theorem moveBranches_cases {env : MoveEnv} {refs : Refs} {rewritten : AMap Oid MaybeZero}
    (hw : AMap.WF refs) (hs : (env.shuffle (branchOids refs)).Perm (branchOids refs)) :
    (refs.get? env.mainBranch = none ∧ moveBranches env refs rewritten = ⟨refs, none, false⟩) ∨
    (∃ s, moveBranches env refs rewritten = ⟨s.refs, some s.moves, true⟩ ∧
      MoveInv env refs rewritten s ∧
      ∀ x, x ∈ (s.moves.map fun m => m.2.2) ↔
        (IsBranch x ∧ ∃ o, refs.get? x = some o ∧ (rewritten.get? o).isSome)) ∨
    (∃ s, moveBranches env refs rewritten = ⟨s.refs, some s.moves, false⟩ ∧
      MoveInv env refs rewritten s ∧
      (MoveWorks env refs rewritten → ∃ e, env.upstreamTarget = .error e)) ∨
    (∃ s, moveBranches env refs rewritten = ⟨s.refs, none, false⟩ ∧
      MoveInv env refs rewritten s ∧ ∃ e, env.upstreamTarget = .error e) := by
  unfold moveBranches
  cases hm : refs.get? env.mainBranch with
  | none => exact .inl ⟨rfl, rfl⟩
  | some m =>
    refine .inr ?_
    simp only
    rcases moveLoop (env := env) (rewritten := rewritten) hw (env.shuffle (branchOids refs))
      (hs.nodup_iff.2 (List.nodup_dedup _)) with ⟨s, h1, h2, h3⟩ | ⟨e, h1, h2, h3⟩
    · rw [h1]
      refine .inl ⟨s, rfl, h2, fun x => ?_⟩
      rw [h3]
      constructor
      · rintro ⟨hb, o, _, h⟩
        exact ⟨hb, o, h⟩
      · rintro ⟨hb, o, h, h'⟩
        exact ⟨hb, o, hs.mem_iff.2 ((mem_branchOids hw).2 ⟨x, hb, h⟩), h, h'⟩
    · rw [h1]
      cases e with
      | stopped s => exact .inr (.inl ⟨s, rfl, h2, h3⟩)
      | aborted s => exact .inr (.inr ⟨s, rfl, h2.1, h2.2⟩)

/-- C22: if moving the branches succeeds, then every local branch is where it should be: at the new
version of its commit, or deleted if the commit was dropped (the main branch goes to its upstream if it
has one). All other references are as before. -/
theorem branches_follow (env : MoveEnv) (refs : Refs) (rewritten : AMap Oid MaybeZero)
    (hw : AMap.WF refs) (hs : (env.shuffle (branchOids refs)).Perm (branchOids refs))
    (hok : (moveBranches env refs rewritten).ok = true) (name : Text) :
    (IsBranch name → (moveBranches env refs rewritten).refs.get? name =
      (refs.get? name).bind (BranchAfter env.mainBranch (upstreamOf env) rewritten.get? name)) ∧
    (¬ IsBranch name → (moveBranches env refs rewritten).refs.get? name = refs.get? name) := by
  rcases moveBranches_cases (rewritten := rewritten) hw hs with ⟨_, h⟩ | ⟨s, h, h1, h2⟩ | ⟨s, h, _⟩ |
    ⟨s, h, _⟩
  · rw [h] at hok; simp at hok
  · rw [h]
    simp only
    constructor
    · intro hb
      by_cases hm : name ∈ s.moves.map fun m => m.2.2
      · obtain ⟨m, hm', rfl⟩ := List.mem_map.1 hm
        obtain ⟨h3, h4⟩ := h1.truthful.happened m.1 m.2.1 m.2.2 hm'
        rw [h4, h3, Option.bind_some]
        exact h1.after m hm'
      · rw [h1.truthful.others name hm]
        cases ho : refs.get? name with
        | none => rfl
        | some o =>
          have : rewritten.get? o = none := by
            cases hr : rewritten.get? o with
            | none => rfl
            | some n => exact absurd ((h2 name).2 ⟨hb, o, ho, by rw [hr]; rfl⟩) hm
          simp [BranchAfter, this]
    · intro hb
      apply h1.truthful.others
      intro hm
      exact hb ((h2 name).1 hm).1
  · rw [h] at hok; simp at hok
  · rw [h] at hok; simp at hok

/-- C22: whatever happens, also if an update fails half-way: the moves which are given to the hook are
exactly those which were made, each from the old to the new target, and only of local branches of
rewritten commits, each to the place where the branch should go.

Missing for the full claim: the hook is not run at all if the upstream of the main branch cannot be
looked up, although branches may have been moved before (`moves_not_reported`). -/
theorem report_truthful_partial (env : MoveEnv) (refs : Refs) (rewritten : AMap Oid MaybeZero)
    (hw : AMap.WF refs) (hs : (env.shuffle (branchOids refs)).Perm (branchOids refs))
    (moves : List (Oid × MaybeZero × Text))
    (hr : (moveBranches env refs rewritten).report = some moves) :
    TruthfulMoves refs.get? (moveBranches env refs rewritten).refs.get? moves ∧
    ∀ old new name, (old, new, name) ∈ moves → IsBranch name ∧ (rewritten.get? old).isSome ∧
      new.toOption = BranchAfter env.mainBranch (upstreamOf env) rewritten.get? name old := by
  have key : ∀ s, MoveInv env refs rewritten s → TruthfulMoves refs.get? s.refs.get? s.moves ∧
      ∀ old new name, (old, new, name) ∈ s.moves → IsBranch name ∧ (rewritten.get? old).isSome ∧
        new.toOption = BranchAfter env.mainBranch (upstreamOf env) rewritten.get? name old :=
    fun s h => ⟨h.truthful, fun o n x hx => ⟨h.branch _ hx, h.rewritten _ hx, h.after _ hx⟩⟩
  rcases moveBranches_cases (rewritten := rewritten) hw hs with ⟨_, h⟩ | ⟨s, h, h1, _⟩ | ⟨s, h, h1, _⟩ |
    ⟨s, h, _⟩
  all_goals rw [h] at hr ⊢
  · simp at hr
  · cases hr; exact key s h1
  · cases hr; exact key s h1
  · simp at hr

/-- C22: if moving the branches succeeds, the report has an entry for every local branch whose commit was
rewritten. -/
theorem report_complete (env : MoveEnv) (refs : Refs) (rewritten : AMap Oid MaybeZero)
    (hw : AMap.WF refs) (hs : (env.shuffle (branchOids refs)).Perm (branchOids refs))
    (hok : (moveBranches env refs rewritten).ok = true) :
    ∃ moves, (moveBranches env refs rewritten).report = some moves ∧
      ∀ name old, IsBranch name → refs.get? name = some old → (rewritten.get? old).isSome →
        ∃ new, (old, new, name) ∈ moves := by
  rcases moveBranches_cases (rewritten := rewritten) hw hs with ⟨_, h⟩ | ⟨s, h, h1, h2⟩ | ⟨s, h, _⟩ |
    ⟨s, h, _⟩
  · rw [h] at hok; simp at hok
  · rw [h]
    refine ⟨s.moves, rfl, fun name old hb ho hr => ?_⟩
    obtain ⟨m, hm, rfl⟩ := List.mem_map.1 ((h2 name).2 ⟨hb, old, ho, hr⟩)
    have := (h1.truthful.happened m.1 m.2.1 m.2.2 hm).1
    rw [ho] at this
    injection this with this
    exact ⟨m.2.1, this ▸ hm⟩
  · rw [h] at hok; simp at hok
  · rw [h] at hok; simp at hok

/-- C22: there is no report only if the main branch is missing (then nothing was changed), or if its
upstream could not be looked up. -/
theorem report_missing (env : MoveEnv) (refs : Refs) (rewritten : AMap Oid MaybeZero)
    (hw : AMap.WF refs) (hs : (env.shuffle (branchOids refs)).Perm (branchOids refs))
    (hr : (moveBranches env refs rewritten).report = none) :
    (refs.get? env.mainBranch = none ∧ (moveBranches env refs rewritten).refs = refs) ∨
    ∃ e, env.upstreamTarget = .error e := by
  rcases moveBranches_cases (rewritten := rewritten) hw hs with ⟨h0, h⟩ | ⟨s, h, h1, _⟩ | ⟨s, h, h1, _⟩ |
    ⟨s, h, _, h2⟩
  all_goals rw [h] at hr ⊢
  · exact .inl ⟨h0, rfl⟩
  · simp at hr
  · simp at hr
  · exact .inr h2

/-- C22: moving the branches succeeds if the main branch exists, the upstream can be looked up, the new
commits exist and git accepts the updates. -/
theorem moves_succeed (env : MoveEnv) (refs : Refs) (rewritten : AMap Oid MaybeZero)
    (hs : (env.shuffle (branchOids refs)).Perm (branchOids refs))
    (hmain : (refs.get? env.mainBranch).isSome) (hw : MoveWorks env refs rewritten) (u : Option Oid)
    (hu : env.upstreamTarget = .ok u) : (moveBranches env refs rewritten).ok = true := by
  rcases moveBranches_cases (rewritten := rewritten) hw.valid.wf hs with ⟨h0, h⟩ | ⟨s, h, h1, _⟩ |
    ⟨s, h, _, h1⟩ | ⟨s, h, _, h1⟩
  · rw [h0] at hmain; simp at hmain
  · rw [h]
  · obtain ⟨e, he⟩ := h1 hw; rw [hu] at he; simp at he
  · obtain ⟨e, he⟩ := h1; rw [hu] at he; simp at he

/-- A repository with the main branch `refs/heads/main`. -/
def exMove (upstream : Except Unit (Option Oid)) (refuses : Text → Bool) : MoveEnv :=
  ⟨t!"refs/heads/main", upstream, fun _ => true, refuses, id⟩

/-- Non-vacuity: three branches and a tag; `a` and `b` are moved, `c` is deleted. -/
example : (moveBranches (exMove (.ok none) fun _ => false)
    [(t!"refs/heads/main", oidN 0), (t!"refs/heads/a", oidN 1), (t!"refs/tags/a", oidN 1),
      (t!"refs/heads/b", oidN 1), (t!"refs/heads/c", oidN 2)]
    [(oidN 1, .nonZero (oidN 3)), (oidN 2, .zero)]).ok = true ∧
  (moveBranches (exMove (.ok none) fun _ => false)
    [(t!"refs/heads/main", oidN 0), (t!"refs/heads/a", oidN 1), (t!"refs/tags/a", oidN 1),
      (t!"refs/heads/b", oidN 1), (t!"refs/heads/c", oidN 2)]
    [(oidN 1, .nonZero (oidN 3)), (oidN 2, .zero)]).report =
    some [(oidN 1, .nonZero (oidN 3), t!"refs/heads/a"), (oidN 1, .nonZero (oidN 3), t!"refs/heads/b"),
      (oidN 2, .zero, t!"refs/heads/c")] := by decide +kernel

/-- Non-vacuity: the second update fails. The report has only the first. -/
example : (moveBranches (exMove (.ok none) fun n => n == t!"refs/heads/b")
    [(t!"refs/heads/main", oidN 0), (t!"refs/heads/a", oidN 1), (t!"refs/heads/b", oidN 1)]
    [(oidN 1, .nonZero (oidN 3))]).report =
    some [(oidN 1, .nonZero (oidN 3), t!"refs/heads/a")] ∧
  (moveBranches (exMove (.ok none) fun n => n == t!"refs/heads/b")
    [(t!"refs/heads/main", oidN 0), (t!"refs/heads/a", oidN 1), (t!"refs/heads/b", oidN 1)]
    [(oidN 1, .nonZero (oidN 3))]).ok = false := by decide +kernel

/-- Non-vacuity of `moves_succeed`. -/
example : MoveWorks (exMove (.ok none) fun _ => false)
    [(t!"refs/heads/main", oidN 0), (t!"refs/heads/a", oidN 1)] [(oidN 1, .nonZero (oidN 3))] :=
  ⟨⟨by unfold AMap.WF; decide +kernel, by
    intro a b ha hb
    rw [← AMap.mem_keys_iff] at ha hb
    have : ∀ a ∈ [t!"refs/heads/main", t!"refs/heads/a"], ∀ b ∈ [t!"refs/heads/main", t!"refs/heads/a"],
      pathConflict a b = false := by decide +kernel
    exact this a ha b hb⟩, fun _ _ => rfl, fun _ _ _ => rfl⟩

/-- C22 fails: the upstream of the main branch cannot be looked up. The branch `a` was moved before, but
the hook is not told. -/
theorem moves_not_reported :
    ∃ (env : MoveEnv) (refs : Refs) (rewritten : AMap Oid MaybeZero) (name : Text),
      (moveBranches env refs rewritten).report = none ∧
      refs.get? name = some (oidN 1) ∧
      (moveBranches env refs rewritten).refs.get? name = some (oidN 3) := by
  refine ⟨exMove (.error ()) fun _ => false,
    [(t!"refs/heads/a", oidN 1), (t!"refs/heads/main", oidN 0)],
    [(oidN 1, .nonZero (oidN 3)), (oidN 0, .zero)], t!"refs/heads/a", ?_⟩
  decide +kernel

/-- The main branch is deleted if its commit is dropped and it has no upstream, against the comment
"Never delete the main branch" (execute.rs:84-90). -/
theorem main_branch_deleted :
    ∃ (env : MoveEnv) (refs : Refs) (rewritten : AMap Oid MaybeZero),
      (moveBranches env refs rewritten).ok = true ∧ (refs.get? env.mainBranch).isSome ∧
      (moveBranches env refs rewritten).refs.get? env.mainBranch = none := by
  refine ⟨exMove (.ok none) fun _ => false, [(t!"refs/heads/main", oidN 0)], [(oidN 0, .zero)], ?_⟩
  decide +kernel

/-! ### C23: `HEAD` -/

theorem keepAlive_not_branch (o : Oid) : ¬ IsBranch (keepAliveName o) := by
  rintro ⟨t, ht⟩
  simp [keepAliveName] at ht

/-- Marking the new commits adds only keep-alive references. -/
theorem markAll_spec {isCommit : Oid → Bool} {refs refs' : Refs} {l : List (Oid × MaybeZero)} {ok : Bool}
    (hw : AMap.WF refs) (h : markAllReachable isCommit refs l = (refs', ok)) :
    AMap.WF refs' ∧
    (∀ o, refs.get? (keepAliveName o) = some o → refs'.get? (keepAliveName o) = some o) ∧
    (∀ name, (¬ ∃ c n, (c, MaybeZero.nonZero n) ∈ l ∧ name = keepAliveName n) →
      refs'.get? name = refs.get? name) ∧
    (ok = true → ∀ c n, (c, MaybeZero.nonZero n) ∈ l → isCommit n = true →
      refs'.get? (keepAliveName n) = some n) := by
  induction l generalizing refs with
  | nil =>
    simp only [markAllReachable, Prod.mk.injEq] at h
    obtain ⟨rfl, rfl⟩ := h
    exact ⟨hw, fun _ h => h, fun _ _ => rfl, by simp⟩
  | cons e l ih =>
    obtain ⟨c, m⟩ := e
    cases m with
    | zero =>
      simp only [markAllReachable] at h
      obtain ⟨h1, h2, h3, h4⟩ := ih hw h
      refine ⟨h1, h2, fun name hn => h3 name ?_, fun hok c' n hm => h4 hok c' n ?_⟩
      · rintro ⟨c', n, hm, he⟩
        exact hn ⟨c', n, by simp [hm], he⟩
      · simpa using hm
    | nonZero n =>
      simp only [markAllReachable] at h
      cases hm : markCommitReachable isCommit refs n with
      | error e =>
        rw [hm] at h
        simp only [Prod.mk.injEq] at h
        obtain ⟨rfl, rfl⟩ := h
        exact ⟨hw, fun _ h => h, fun _ _ => rfl, by simp⟩
      | ok refs1 =>
        rw [hm] at h
        simp only at h
        have hstep : AMap.WF refs1 ∧ (∀ name, name ≠ keepAliveName n → refs1.get? name = refs.get? name) ∧
            (isCommit n = true → refs1.get? (keepAliveName n) = some n) ∧
            (refs.get? (keepAliveName n) = some n → refs1.get? (keepAliveName n) = some n) := by
          by_cases hc : isCommit n = true
          · obtain ⟨a, b⟩ := mark_reachable_creates _ _ _ _ hc hm
            refine ⟨?_, b, fun _ => a, fun _ => a⟩
            unfold markCommitReachable createReference at hm
            rw [if_pos hc] at hm
            split at hm
            · simp at hm
            · cases hm; exact AMap.wf_insert hw _ _
          · rw [mark_missing_is_noop _ _ _ (by simpa using hc)] at hm
            cases hm
            exact ⟨hw, fun _ _ => rfl, fun h => absurd h hc, fun h => h⟩
        obtain ⟨s1, s2, s3, s4⟩ := hstep
        obtain ⟨h1, h2, h3, h4⟩ := ih s1 h
        refine ⟨h1, fun o ho => h2 o ?_, fun name hn => ?_, fun hok c' n' hm' hc' => ?_⟩
        · by_cases he : keepAliveName o = keepAliveName n
          · have := keepAliveName_injective he
            subst this
            exact s4 ho
          · rw [s2 _ he]; exact ho
        · rw [h3 name (fun ⟨c', n', hm', he⟩ => hn ⟨c', n', by simp [hm'], he⟩)]
          exact s2 name (fun he => hn ⟨c, n, by simp, he⟩)
        · rcases List.mem_cons.1 hm' with he | he
          · cases he
            exact h2 _ (s3 hc')
          · exact h4 hok c' n' he hc'

theorem checkOut_reference {env : CheckoutEnv} {g g' : GitState} {x : Text}
    (h1 : ¬ IsBranch x) (h2 : ¬ t!"refs/remotes/" <+: x)
    (h3 : (g.refs.get? (t!"refs/heads/" ++ x)).isSome)
    (h : checkOutCommit env g (.reference x) = .ok (g', true)) :
    g' = { g with head := .symbolic (t!"refs/heads/" ++ x) } := by
  have hx : (categorize x).renderSuffix = x := by
    unfold categorize
    rw [if_neg (by rw [List.isPrefixOf_iff_prefix]; exact h1),
      if_neg (by rw [List.isPrefixOf_iff_prefix]; exact h2)]
    unfold RefCategory.renderSuffix
    simp only [RefCategory.pfx, RefCategory.renderFull]
    cases x <;> rfl
  unfold checkOutCommit at h
  simp only [hx] at h
  have ht : ∀ t, (if env.autoSwitch then maybeGetBranchName env g x none else .ok x) = .ok t → t = x := by
    intro t ht
    split at ht
    · unfold maybeGetBranchName at ht
      split at ht
      · simp at ht
      · simp only at ht
        split at ht <;> (cases ht; rfl)
    · cases ht; rfl
  split at h
  · simp at h
  · rename_i t hte
    have := ht t hte
    subst this
    obtain ⟨o, ho⟩ := Option.isSome_iff_exists.1 h3
    unfold gitCheckout at h
    rw [ho] at h
    cases hwk : env.works with
    | false => rw [hwk] at h; simp at h
    | true =>
      rw [hwk] at h
      simp only [Bool.not_true, Bool.false_eq_true, if_false, Except.ok.injEq, Prod.mk.injEq, and_true] at h
      exact h.symm

theorem checkOut_oid {env : CheckoutEnv} {g g' : GitState} {n : Oid} (hw : AMap.WF g.refs)
    (h1 : g.refs.get? (t!"refs/heads/" ++ n.toText) = none)
    (h : checkOutCommit env g (.oid n) = .ok (g', true)) :
    g'.refs = g.refs ∧ g'.headInfo.oid = some n := by
  unfold checkOutCommit at h
  simp only at h
  have hraw : ∀ g', gitCheckout env g n.toText = some g' → g'.refs = g.refs ∧ g'.headInfo.oid = some n := by
    intro g' hg
    unfold gitCheckout at hg
    rw [h1] at hg
    split at hg
    · simp at hg
    simp only at hg
    split at hg
    · rw [Oid.parse_toText] at hg
      simp only at hg
      split at hg
      · cases hg; exact ⟨rfl, rfl⟩
      · simp at hg
    · simp at hg
  have hbr : ∀ name g', namesAt g.refs n = [name] →
      gitCheckout env g (categorize name).renderSuffix = some g' →
      g'.refs = g.refs ∧ g'.headInfo.oid = some n := by
    intro name g' hn hg
    obtain ⟨hb, ho⟩ := (mem_namesAt hw).1 (by rw [hn]; simp : name ∈ namesAt g.refs n)
    unfold gitCheckout at hg
    rw [branch_suffix hb, ho] at hg
    split at hg
    · simp at hg
    · cases hg
      exact ⟨rfl, ho⟩
  have hcases : ∀ x t : Text, (if env.autoSwitch then maybeGetBranchName env g x (some n) else .ok x) =
      .ok t → t = x ∨ ∃ name, namesAt g.refs n = [name] ∧ t = (categorize name).renderSuffix := by
    intro x t ht
    split at ht
    · unfold maybeGetBranchName at ht
      split at ht
      · simp at ht
      · simp only at ht
        split at ht
        · simp only [Except.ok.injEq] at ht; exact .inl ht.symm
        · split at ht
          · rename_i name hn
            simp only [Except.ok.injEq] at ht
            exact .inr ⟨name, hn, ht.symm⟩
          · simp only [Except.ok.injEq] at ht; exact .inl ht.symm
    · simp only [Except.ok.injEq] at ht; exact .inl ht.symm
  split at h
  · simp at h
  · rename_i t hte
    split at h
    · rename_i g1 hg
      simp only [Except.ok.injEq, Prod.mk.injEq, and_true] at h
      subst h
      rcases hcases _ t hte with ht | ⟨name, hn, ht⟩
      · rw [ht] at hg
        exact hraw g1 hg
      · rw [ht] at hg
        exact hbr name g1 hn hg
    · simp at h

theorem gitCheckout_refs {env : CheckoutEnv} {g g' : GitState} {t : Text}
    (h : gitCheckout env g t = some g') : g'.refs = g.refs := by
  unfold gitCheckout at h
  split at h
  · simp at h
  · split at h
    · cases h; rfl
    · split at h
      · split at h
        · split at h
          · cases h; rfl
          · simp at h
        · simp at h
      · simp at h

theorem checkOutUpdatedHead_refs {env : CheckoutEnv} {g g' : GitState} {rewritten : AMap Oid MaybeZero}
    {info : HeadInfo} {skipped : Option Oid} {ok : Bool}
    (h : checkOutUpdatedHead env g rewritten info skipped = .ok (g', ok)) : g'.refs = g.refs := by
  unfold checkOutUpdatedHead at h
  split at h
  · simp only [Except.ok.injEq, Prod.mk.injEq] at h
    rw [← h.1]
  · unfold checkOutCommit at h
    simp only at h
    split at h
    · simp at h
    · split at h
      · rename_i g1 hg
        simp only [Except.ok.injEq, Prod.mk.injEq] at h
        rw [← h.1]
        exact gitCheckout_refs hg
      · simp only [Except.ok.injEq, Prod.mk.injEq] at h
        rw [← h.1]

/-- The steps of a successful end of a rebase. -/
theorem postRebase_ok {env : FinishEnv} {w w' : RepoWorld} {rewritten : AMap Oid MaybeZero}
    {skipped : Option Oid} {ok : Bool}
    (h : postRebaseInMemory env w rewritten skipped = (w', .ok ok)) :
    ∃ refs1, markAllReachable env.move.isCommit w.git.refs rewritten = (refs1, true) ∧
      (moveBranches env.move refs1 rewritten).ok = true ∧
      checkOutUpdatedHead env.checkout
        ⟨(moveBranches env.move refs1 rewritten).refs,
          (GitState.detachHead ⟨refs1, w.git.head⟩ (GitState.headInfo ⟨refs1, w.git.head⟩)).head⟩
        rewritten (GitState.headInfo ⟨refs1, w.git.head⟩) skipped = .ok (w'.git, ok) := by
  unfold postRebaseInMemory at h
  rcases hm : markAllReachable env.move.isCommit w.git.refs rewritten with ⟨refs1, ok1⟩
  rw [hm] at h
  simp only at h
  cases ok1 with
  | false => simp at h
  | true =>
    simp only [Bool.not_true, Bool.false_eq_true, if_false] at h
    have hd : (GitState.detachHead ⟨refs1, w.git.head⟩ (GitState.headInfo ⟨refs1, w.git.head⟩)).refs = refs1 := by
      unfold GitState.detachHead
      split <;> rfl
    rw [hd] at h
    refine ⟨refs1, rfl, ?_⟩
    cases hok : (moveBranches env.move refs1 rewritten).ok with
    | false => rw [hok] at h; simp at h
    | true =>
      rw [hok] at h
      simp only [Bool.not_true, Bool.false_eq_true, if_false] at h
      refine ⟨rfl, ?_⟩
      split at h
      · simp at h
      · rename_i g b hc
        simp only [Prod.mk.injEq, Except.ok.injEq] at h
        obtain ⟨rfl, rfl⟩ := h
        exact hc

/-- C22, at the end of an in-memory rebase: all local branches are where they should be, every new commit
has a reference which keeps it alive, and nothing else changes. -/
theorem finished_references (env : FinishEnv) (w w' : RepoWorld) (rewritten : AMap Oid MaybeZero)
    (skipped : Option Oid) (ok : Bool) (hw : AMap.WF w.git.refs)
    (hs : ∀ l, (env.move.shuffle l).Perm l)
    (h : postRebaseInMemory env w rewritten skipped = (w', .ok ok)) :
    (∀ name, IsBranch name → w'.git.refs.get? name =
      (w.git.refs.get? name).bind
        (BranchAfter env.move.mainBranch (upstreamOf env.move) rewritten.get? name)) ∧
    (∀ c n, (c, MaybeZero.nonZero n) ∈ rewritten → env.move.isCommit n = true →
      w'.git.refs.get? (keepAliveName n) = some n) ∧
    (∀ name, ¬ IsBranch name →
      (¬ ∃ c n, (c, MaybeZero.nonZero n) ∈ rewritten ∧ name = keepAliveName n) →
      w'.git.refs.get? name = w.git.refs.get? name) := by
  obtain ⟨refs1, h1, h2, h3⟩ := postRebase_ok h
  obtain ⟨m1, _, m3, m4⟩ := markAll_spec hw h1
  have hb := branches_follow env.move refs1 rewritten m1 (hs _) h2
  rw [checkOutUpdatedHead_refs h3]
  simp only
  refine ⟨fun name hn => ?_, fun c n hm hc => ?_, fun name hn hk => ?_⟩
  · rw [(hb name).1 hn, m3 name]
    rintro ⟨c, n, _, rfl⟩
    exact keepAlive_not_branch n hn
  · rw [(hb _).2 (keepAlive_not_branch n)]
    exact m4 rfl c n hm hc
  · rw [(hb name).2 hn]
    exact m3 name hk

/-- A branch name which does not look like the full name of a reference after `refs/heads/`. -/
def OrdinaryBranch (b : Text) : Prop :=
  ∃ x, b = t!"refs/heads/" ++ x ∧ ¬ t!"refs/heads/" <+: x ∧ ¬ t!"refs/remotes/" <+: x

theorem postRebase_head {env : FinishEnv} {w w' : RepoWorld} {rewritten : AMap Oid MaybeZero}
    {skipped : Option Oid} (hw : AMap.WF w.git.refs) (hs : ∀ l, (env.move.shuffle l).Perm l)
    (h : postRebaseInMemory env w rewritten skipped = (w', .ok true)) :
    ∃ g : GitState, g.refs = w'.git.refs ∧ AMap.WF g.refs ∧
      (∀ i : HeadInfo, (∀ b, w.git.head = .symbolic b → IsBranch b) → w.git.headInfo = i →
        g.head = (match i.oid with | some o => .detached o | none => w.git.head) ∧
        checkOutUpdatedHead env.checkout g rewritten i skipped = .ok (w'.git, true)) := by
  obtain ⟨refs1, h1, h2, h3⟩ := postRebase_ok h
  obtain ⟨m1, _, m3, m4⟩ := markAll_spec hw h1
  refine ⟨⟨(moveBranches env.move refs1 rewritten).refs,
          (GitState.detachHead ⟨refs1, w.git.head⟩ (GitState.headInfo ⟨refs1, w.git.head⟩)).head⟩,
    (checkOutUpdatedHead_refs h3).symm, ?_, ?_⟩
  · rcases moveBranches_cases (rewritten := rewritten) m1 (hs _) with ⟨_, h⟩ | ⟨s, h, h1, _⟩ |
      ⟨s, h, _⟩ | ⟨s, h, _⟩
    all_goals rw [h] at h2 ⊢
    · simp at h2
    · exact h1.wf
    · simp at h2
    · simp at h2
  · rintro i hb rfl
    have hi : GitState.headInfo ⟨refs1, w.git.head⟩ = w.git.headInfo := by
      unfold GitState.headInfo
      cases hh : w.git.head with
      | missing => rfl
      | detached o => rfl
      | symbolic b =>
        simp only
        rw [m3 b]
        rintro ⟨c, n, _, rfl⟩
        exact keepAlive_not_branch n (hb _ hh)
    rw [hi] at h3 ⊢
    refine ⟨?_, h3⟩
    unfold GitState.detachHead
    cases w.git.headInfo.oid <;> rfl

/-- C23: if a branch was checked out, then it is still checked out after an in-memory rebase, unless it
was deleted because its commit was dropped. In that case the commit is checked out on top of which the
dropped one would have been. -/
theorem head_on_branch (env : FinishEnv) (w w' : RepoWorld) (rewritten : AMap Oid MaybeZero)
    (skipped : Option Oid) (hw : AMap.WF w.git.refs) (hs : ∀ l, (env.move.shuffle l).Perm l)
    (h : postRebaseInMemory env w rewritten skipped = (w', .ok true))
    (b : Text) (hb : OrdinaryBranch b) (hh : w.git.head = .symbolic b)
    (old : Oid) (ho : w.git.refs.get? b = some old) :
    (∀ new, BranchAfter env.move.mainBranch (upstreamOf env.move) rewritten.get? b old = some new →
      w'.git.head = .symbolic b ∧ w'.git.refs.get? b = some new) ∧
    (BranchAfter env.move.mainBranch (upstreamOf env.move) rewritten.get? b old = none →
      w'.git.refs.get? b = none ∧
      ∀ q, skipped = some q → w'.git.refs.get? (t!"refs/heads/" ++ q.toText) = none →
        w'.git.headInfo.oid = some q) := by
  obtain ⟨g, g1, g2, g3⟩ := postRebase_head hw hs h
  obtain ⟨x, rfl, hx1, hx2⟩ := hb
  have hbr : IsBranch (t!"refs/heads/" ++ x) := ⟨x, rfl⟩
  have hi : w.git.headInfo = ⟨some old, some (t!"refs/heads/" ++ x)⟩ := by
    unfold GitState.headInfo
    rw [hh]
    simp only [ho]
  obtain ⟨g4, g5⟩ := g3 _ (by intro b' hb'; rw [hh] at hb'; cases hb'; exact hbr) hi
  have hf := (finished_references env w w' rewritten skipped true hw hs h).1 _ hbr
  rw [ho, Option.bind_some] at hf
  rw [← g1] at hf
  simp only at g4
  have hgi : g.headInfo = ⟨some old, none⟩ := by unfold GitState.headInfo; rw [g4]
  unfold checkOutUpdatedHead at g5
  constructor
  · intro new hn
    rw [hn] at hf
    refine ⟨?_, by rw [← g1, hf]⟩
    have ht : updatedHeadTarget g.refs rewritten ⟨some old, some (t!"refs/heads/" ++ x)⟩ skipped =
        ⟨some new, some (t!"refs/heads/" ++ x)⟩ := by
      unfold updatedHeadTarget
      simp only
      rw [hf]
    have hc : updatedHeadCheckout g ⟨some new, some (t!"refs/heads/" ++ x)⟩ = some (.reference x) := by
      unfold updatedHeadCheckout
      rw [hgi, if_neg (by simp)]
      simp only [headBranchName]
      rw [stripPrefix?_append]
      rfl
    rw [ht, hc] at g5
    simp only at g5
    have := checkOut_reference (g' := w'.git) hx1 hx2 (by rw [hf]; rfl) g5
    rw [this]
  · intro hn
    rw [hn] at hf
    refine ⟨by rw [← g1, hf], ?_⟩
    rintro q rfl hq
    have ht : updatedHeadTarget g.refs rewritten ⟨some old, some (t!"refs/heads/" ++ x)⟩ (some q) =
        ⟨some q, none⟩ := by
      unfold updatedHeadTarget
      simp only
      rw [hf]
    rw [ht] at g5
    by_cases he : old = q
    · have hc : updatedHeadCheckout g ⟨some q, none⟩ = none := by
        unfold updatedHeadCheckout
        rw [hgi, if_pos (by rw [he])]
      rw [hc] at g5
      simp only [Except.ok.injEq, Prod.mk.injEq, and_true] at g5
      rw [← g5, hgi]
      exact congrArg some he
    · have hc : updatedHeadCheckout g ⟨some q, none⟩ = some (.oid q) := by
        unfold updatedHeadCheckout
        rw [hgi, if_neg (by simpa using he)]
      rw [hc] at g5
      exact (checkOut_oid g2 (by rw [g1]; exact hq) g5).2

/-- C23: if a commit was checked out (without a branch), then its new version is checked out after an
in-memory rebase; if it was dropped, the commit on top of which it would have been. If it was not
rewritten, `HEAD` is as before. -/
theorem head_detached (env : FinishEnv) (w w' : RepoWorld) (rewritten : AMap Oid MaybeZero)
    (skipped : Option Oid) (hw : AMap.WF w.git.refs) (hs : ∀ l, (env.move.shuffle l).Perm l)
    (h : postRebaseInMemory env w rewritten skipped = (w', .ok true))
    (old : Oid) (hh : w.git.head = .detached old) :
    (∀ q, NewVersion rewritten.get? skipped old = some q →
      w'.git.refs.get? (t!"refs/heads/" ++ q.toText) = none → w'.git.headInfo.oid = some q) ∧
    (rewritten.get? old = none → w'.git.head = .detached old) := by
  obtain ⟨g, g1, g2, g3⟩ := postRebase_head hw hs h
  have hi : w.git.headInfo = ⟨some old, none⟩ := by
    unfold GitState.headInfo
    rw [hh]
  obtain ⟨g4, g5⟩ := g3 _ (by intro b' hb'; rw [hh] at hb'; cases hb') hi
  simp only at g4
  have hgi : g.headInfo = ⟨some old, none⟩ := by unfold GitState.headInfo; rw [g4]
  unfold checkOutUpdatedHead at g5
  have ht : updatedHeadTarget g.refs rewritten ⟨some old, none⟩ skipped =
      ⟨NewVersion rewritten.get? skipped old, none⟩ := by
    unfold updatedHeadTarget NewVersion
    simp only
    split <;> rename_i he <;> rw [he]
  rw [ht] at g5
  constructor
  · intro q hq hn
    rw [hq] at g5
    by_cases he : old = q
    · have hc : updatedHeadCheckout g ⟨some q, none⟩ = none := by
        unfold updatedHeadCheckout
        rw [hgi, if_pos (by rw [he])]
      rw [hc] at g5
      simp only [Except.ok.injEq, Prod.mk.injEq, and_true] at g5
      rw [← g5, hgi]
      exact congrArg some he
    · have hc : updatedHeadCheckout g ⟨some q, none⟩ = some (.oid q) := by
        unfold updatedHeadCheckout
        rw [hgi, if_neg (by simpa using he)]
      rw [hc] at g5
      exact (checkOut_oid g2 (by rw [g1]; exact hn) g5).2
  · intro hr
    have hq : NewVersion rewritten.get? skipped old = some old := by unfold NewVersion; rw [hr]
    rw [hq] at g5
    have hc : updatedHeadCheckout g ⟨some old, none⟩ = none := by
      unfold updatedHeadCheckout
      rw [hgi, if_pos rfl]
    rw [hc] at g5
    simp only [Except.ok.injEq, Prod.mk.injEq, and_true] at g5
    rw [← g5, g4]

/-- C23: an unborn branch stays checked out. -/
theorem head_unborn (env : FinishEnv) (w w' : RepoWorld) (rewritten : AMap Oid MaybeZero)
    (skipped : Option Oid) (hw : AMap.WF w.git.refs) (hs : ∀ l, (env.move.shuffle l).Perm l)
    (h : postRebaseInMemory env w rewritten skipped = (w', .ok true))
    (b : Text) (hb : IsBranch b) (hh : w.git.head = .symbolic b) (hn : w.git.refs.get? b = none) :
    w'.git.head = .symbolic b ∧ w'.git.refs.get? b = none := by
  obtain ⟨g, g1, g2, g3⟩ := postRebase_head hw hs h
  have hi : w.git.headInfo = ⟨none, some b⟩ := by
    unfold GitState.headInfo
    rw [hh]
    simp only [hn]
  obtain ⟨g4, g5⟩ := g3 _ (by intro b' hb'; rw [hh] at hb'; cases hb'; exact hb) hi
  have hf := (finished_references env w w' rewritten skipped true hw hs h).1 _ hb
  rw [hn] at hf
  simp only [Option.bind_none] at hf
  simp only at g4
  refine ⟨?_, hf⟩
  have hgi : g.headInfo = ⟨none, some b⟩ := by
    unfold GitState.headInfo
    rw [g4, hh]
    simp only
    rw [g1, hf]
  unfold checkOutUpdatedHead updatedHeadTarget updatedHeadCheckout at g5
  simp only at g5
  rw [hgi, if_pos rfl] at g5
  simp only [Except.ok.injEq, Prod.mk.injEq, and_true] at g5
  rw [← g5, g4, hh]

/-- `HEAD` is at the commit which the rebase computed. -/
theorem head_at_new {ee : ExecEnv} {plan : RebasePlan} {w w' : RepoWorld} {s : ExecState}
    {newHead : Option Oid} (hx : ee.rebaseInMemory w.git.headInfo.oid plan = .ok (s, newHead))
    {env : FinishEnv} (hw : AMap.WF w.git.refs) (hs : ∀ l, (env.move.shuffle l).Perm l)
    (hp : postRebaseInMemory env w s.rewritten newHead = (w', .ok true))
    {old : Oid} (hold : w.git.headInfo.oid = some old)
    (hbr : ∀ br, w.git.head = .symbolic br → OrdinaryBranch br ∧
      ¬ (br = env.move.mainBranch ∧ s.rewritten.get? old = some .zero))
    (hhex : ∀ o : Oid, w'.git.refs.get? (t!"refs/heads/" ++ o.toText) = none)
    {q : Oid} (hq : newHead = some q) :
    w'.git.headInfo.oid = some q ∧
      ∀ br, w.git.head = .symbolic br → w'.git.refs.get? br ≠ none → w'.git.head = .symbolic br := by
  have hnew := (rebaseInMemory_ok hx).2
  rw [hold] at hnew
  have hnv : NewVersion s.rewritten.get? newHead old = some q := by
    rw [hq] at hnew
    unfold ExecEnv.newHeadOid at hnew
    unfold NewVersion
    cases hr : AMap.get? s.rewritten old with
    | none =>
      simp only [hr] at hnew
      simp only
      exact hnew.symm
    | some m =>
      cases m with
      | zero => simp only; exact hq
      | nonZero n =>
        simp only [hr] at hnew
        simp only
        exact hnew.symm
  cases hh : w.git.head with
  | missing =>
    unfold GitState.headInfo at hold
    rw [hh] at hold
    simp at hold
  | detached o =>
    have ho : o = old := by
      unfold GitState.headInfo at hold
      rw [hh] at hold
      simpa using hold
    subst ho
    exact ⟨(head_detached env w w' s.rewritten newHead hw hs hp o hh).1 q hnv (hhex q), by simp⟩
  | symbolic br =>
    have ho : w.git.refs.get? br = some old := by
      unfold GitState.headInfo at hold
      rw [hh] at hold
      exact hold
    obtain ⟨hord, hmain⟩ := hbr br hh
    obtain ⟨h4, h5⟩ := head_on_branch env w w' s.rewritten newHead hw hs hp br hord hh old ho
    unfold NewVersion at hnv
    have hsome : BranchAfter env.move.mainBranch (upstreamOf env.move) s.rewritten.get? br old = some q →
        w'.git.headInfo.oid = some q ∧ ∀ br', Head.symbolic br = .symbolic br' →
          w'.git.refs.get? br' ≠ none → w'.git.head = .symbolic br' := by
      intro hba
      obtain ⟨h6, h7⟩ := h4 q hba
      refine ⟨?_, fun br' he _ => by cases he; exact h6⟩
      unfold GitState.headInfo
      rw [h6]
      exact h7
    cases hr : AMap.get? s.rewritten old with
    | none =>
      rw [hr] at hnv
      exact hsome (by unfold BranchAfter; rw [hr]; exact hnv)
    | some m =>
      cases m with
      | nonZero n =>
        rw [hr] at hnv
        exact hsome (by unfold BranchAfter; rw [hr]; exact hnv)
      | zero =>
        have hnone : BranchAfter env.move.mainBranch (upstreamOf env.move) s.rewritten.get? br old = none := by
          unfold BranchAfter
          rw [hr]
          simp only
          rw [if_neg (fun he => hmain ⟨he, hr⟩)]
        obtain ⟨h6, h7⟩ := h5 hnone
        refine ⟨h7 q hq (hhex q), fun br' he hne => ?_⟩
        cases he
        exact absurd h6 hne

/-- C23, with the result of the rebase itself: for requests to move subtrees whose roots are no merge
commits. After a successful in-memory rebase, the new version of the checked-out commit is checked out,
or, if it was dropped, the commit on top of which it would have been (see `Lands`). If a branch was
checked out and still exists, it is checked out. (If the main branch was checked out and its commit was
dropped, it goes to its upstream: `head_on_branch`.) -/
theorem head_lands (b : RebasePlanBuilder) (hg : WFGraph b.env.dag.graph)
    (rs : List (Oid × Oid)) (hb : b.initialConstraints = rs.map fun r => .moveSubtree [r.2] r.1)
    (hm : ∀ r ∈ rs, ¬ IsMerge b.env r.1) (hrep : b.replacementCommits = []) (plan : RebasePlan)
    (h : b.build = .ok (.ok (some plan))) (ee : ExecEnv) (hn : NoCollisions ee) (w w' : RepoWorld)
    (s : ExecState) (newHead : Option Oid)
    (hx : ee.rebaseInMemory w.git.headInfo.oid plan = .ok (s, newHead))
    (env : FinishEnv) (hw : AMap.WF w.git.refs) (hs : ∀ l, (env.move.shuffle l).Perm l)
    (hp : postRebaseInMemory env w s.rewritten newHead = (w', .ok true))
    (old : Oid) (hold : w.git.headInfo.oid = some old)
    (hbr : ∀ br, w.git.head = .symbolic br → OrdinaryBranch br ∧
      ¬ (br = env.move.mainBranch ∧ s.rewritten.get? old = some .zero))
    (hhex : ∀ o : Oid, w'.git.refs.get? (t!"refs/heads/" ++ o.toText) = none) :
    ∃ q, Lands (ShouldMove b.env.dag rs) s.rewritten old q ∧ w'.git.headInfo.oid = some q ∧
      ∀ br, w.git.head = .symbolic br → w'.git.refs.get? br ≠ none → w'.git.head = .symbolic br := by
  obtain ⟨_, _, h3⟩ := subtree_rebase_in_memory b hg rs hb hm hrep plan h ee hn _ s newHead hx
  obtain ⟨q, hq, hl⟩ := h3 old hold
  exact ⟨q, hl, head_at_new hx hw hs hp hold hbr hhex hq⟩

/-- The rest of a repository for examples. -/
def exFinish (refuses : Text → Bool) : FinishEnv :=
  ⟨exMove (.ok none) refuses, ⟨t!"refs/heads/main", true, fun _ => true, true⟩, t!"7", 50, some none,
    fun _ => none, id⟩

/-- A repository for examples. -/
def exWorld (refs : Refs) (head : Head) : RepoWorld := ⟨⟨refs, head⟩, {}, none, none⟩

/-- Non-vacuity: on a branch whose commit was rewritten. -/
example : ∃ w', postRebaseInMemory (exFinish fun _ => false)
      (exWorld [(t!"refs/heads/main", oidN 0), (t!"refs/heads/a", oidN 1)] (.symbolic t!"refs/heads/a"))
      [(oidN 1, .nonZero (oidN 3))] (some (oidN 3)) = (w', .ok true) ∧
    w'.git.head = .symbolic t!"refs/heads/a" ∧ w'.git.headInfo.oid = some (oidN 3) := by
  refine ⟨_, rfl, ?_⟩
  decide +kernel

/-- Non-vacuity: a branch whose commit was dropped, and the other branches: since only one branch is at
the commit below, this one is checked out. -/
example : ∃ w', postRebaseInMemory (exFinish fun _ => false)
      (exWorld [(t!"refs/heads/main", oidN 0), (t!"refs/heads/a", oidN 1)] (.symbolic t!"refs/heads/a"))
      [(oidN 1, .zero)] (some (oidN 0)) = (w', .ok true) ∧
    w'.git.head = .symbolic t!"refs/heads/main" ∧ w'.git.headInfo.oid = some (oidN 0) := by
  refine ⟨_, rfl, ?_⟩
  decide +kernel

/-- Non-vacuity: a detached commit which was rewritten. -/
example : ∃ w', postRebaseInMemory (exFinish fun _ => false)
      (exWorld [(t!"refs/heads/main", oidN 0)] (.detached (oidN 1)))
      [(oidN 1, .nonZero (oidN 3))] (some (oidN 3)) = (w', .ok true) ∧
    w'.git.head = .detached (oidN 3) := by
  refine ⟨_, rfl, ?_⟩
  decide +kernel

example : OrdinaryBranch t!"refs/heads/a" := ⟨t!"a", by decide⟩

/-- C23 fails for a branch whose short name begins with `refs/heads/`: another branch is checked
out. -/
theorem wrong_branch_checked_out :
    ∃ w', postRebaseInMemory (exFinish fun _ => false)
        (exWorld [(t!"refs/heads/main", oidN 0), (t!"refs/heads/x", oidN 0),
          (t!"refs/heads/refs/heads/x", oidN 1)] (.symbolic t!"refs/heads/refs/heads/x"))
        [(oidN 1, .nonZero (oidN 3))] (some (oidN 3)) = (w', .ok true) ∧
      w'.git.refs.get? t!"refs/heads/refs/heads/x" = some (oidN 3) ∧
      w'.git.head = .symbolic t!"refs/heads/x" := by
  refine ⟨_, rfl, ?_⟩
  decide +kernel

/-! ### C54: the event log -/

theorem move_line_parses {old : Oid} {new : MaybeZero} {name : Text} (h : ' ' ∉ name) :
    UpdateLine (old.toText ++ ' ' :: (new.toText ++ ' ' :: name)) name (.direct (.nonZero old))
      (.direct new) :=
  ⟨_, _, rfl, space_not_mem_oid old, space_not_mem_maybeZero new, h,
    .direct (MaybeZero.parse_toText (.nonZero old)), .direct (MaybeZero.parse_toText new)⟩

theorem movesStdin_lines (moves : List (Oid × MaybeZero × Text))
    (h : ∀ m ∈ moves, '\n' ∉ m.2.2 ∧ '\r' ∉ m.2.2 ∧ m.2.2 ≠ []) :
    textLines (movesStdin moves) =
      moves.map fun m => m.1.toText ++ ' ' :: (m.2.1.toText ++ ' ' :: m.2.2) := by
  have hl : movesStdin moves =
      (moves.map fun m => m.1.toText ++ ' ' :: (m.2.1.toText ++ ' ' :: m.2.2)).flatMap
        fun l => l ++ ['\n'] := by
    unfold movesStdin
    rw [List.flatMap_map]
  rw [hl]
  apply textLines_lines
  intro l hm
  obtain ⟨m, hm, hlm⟩ := List.mem_map.1 hm
  rw [← hlm]
  clear hlm hl
  obtain ⟨h1, h2, h3⟩ := h m hm
  generalize m.1 = a, m.2.1 = b, m.2.2 = c at *
  have hnl : ∀ d, d < 16 → hexDigit d ≠ '\n' := by decide
  constructor
  · intro hc
    rcases List.mem_append.1 hc with hc | hc
    · obtain ⟨d, hd, e⟩ := Oid.mem_toText hc
      exact hnl d hd e.symm
    · rcases List.mem_cons.1 hc with hc | hc
      · simp at hc
      · rcases List.mem_append.1 hc with hc | hc
        · obtain ⟨d, hd, e⟩ := MaybeZero.mem_toText hc
          exact hnl d hd e.symm
        · rcases List.mem_cons.1 hc with hc | hc
          · simp at hc
          · exact h1 hc
  · intro hc
    have : (a.toText ++ ' ' :: (b.toText ++ ' ' :: c)).getLast? = c.getLast? := by
      rw [List.getLast?_append, List.getLast?_cons, List.getLast?_append, List.getLast?_cons,
        List.getLast?_eq_some_getLast h3]
      simp
    rw [this] at hc
    exact h2 (List.mem_of_getLast? hc)

/-- What the hook records for reported moves. -/
theorem moves_recorded (env : FinishEnv) (db : Db) (es : List Event) (n : Int) (hn : inIsize n)
    (htx : env.tx = (TxId.id n).toText) (file : Option Text) (hf : env.packedFile = some file)
    (hp : db.pending = none) (he : db.getEvents = some es) (moves : List (Oid × MaybeZero × Text))
    (hb : ∀ m ∈ moves, IsBranch m.2.2)
    (hc : ∀ m ∈ moves, ' ' ∉ m.2.2 ∧ '\n' ∉ m.2.2 ∧ '\r' ∉ m.2.2)
    (hd : ∀ m ∈ moves, m.2.1 = .zero → (readPackedRefs file).get? m.2.2 ≠ some (.nonZero m.1)) :
    (runReferenceTransactionHook env db moves).getEvents = some (es ++ moves.map fun m =>
      .refUpdate env.now (.id n) m.2.2 (.nonZero m.1) m.2.1 none) ∧
    (runReferenceTransactionHook env db moves).pending = none := by
  have hne : ∀ m ∈ moves, m.2.2 ≠ [] := by
    intro m hm hnil
    obtain ⟨t, ht⟩ := hb m hm
    rw [hnil] at ht
    simp at ht
  have hint : ∀ m ∈ moves, ¬ Internal m.2.2 := by
    intro m hm hi
    obtain ⟨t, ht⟩ := hb m hm
    rw [← ht] at hi
    rcases hi with ⟨r, hr⟩ | hi
    · simp at hr
    · simp at hi
  have hlines := movesStdin_lines moves fun m hm => ⟨(hc m hm).2.1, (hc m hm).2.2, hne m hm⟩
  have hrep : ∀ l : List (Oid × MaybeZero × Text), (∀ m ∈ l, m ∈ moves) →
      Reports (readPackedRefs file).get? env.resolve
        ((l.map fun m => m.1.toText ++ ' ' :: (m.2.1.toText ++ ' ' :: m.2.2)).map some)
        (l.map fun m => (m.2.2, .nonZero m.1, m.2.1)) := by
    intro l
    induction l with
    | nil => intro _; exact .nil
    | cons m l ih =>
      intro hl
      have hm := hl m (by simp)
      refine .record (move_line_parses (hc m hm).1) (hint m hm) (.other ?_ ?_) rfl rfl
        (ih fun x hx => hl x (by simp [hx]))
      · rintro ⟨h, _⟩; simp at h
      · rintro ⟨h1, h2⟩
        cases h2 with
        | direct h2 => exact hd m hm (by simpa using h1) h2
  have hres : Resolvable env.resolve
      ((moves.map fun m => m.1.toText ++ ' ' :: (m.2.1.toText ++ ' ' :: m.2.2)).map some) := by
    intro l hl t name o nn ht hu _
    subst ht
    simp only [List.mem_map, Option.some.injEq] at hl
    obtain ⟨_, ⟨m, hm, rfl⟩, rfl⟩ := hl
    have h1 := (parseRefLine_iff _ _ _ _).2 (move_line_parses (old := m.1) (new := m.2.1) (hc m hm).1)
    rw [(parseRefLine_iff _ _ _ _).2 hu] at h1
    simp only [Option.some.injEq, ParsedRefLine.mk.injEq] at h1
    obtain ⟨_, rfl, rfl⟩ := h1
    exact ⟨rfl, rfl⟩
  obtain ⟨r, hr, db', h1, h2⟩ := committed_recorded_partial env.resolve _ hres db es (some env.tx)
    env.now file hp he
  have hru := reports_unique hr (hrep moves fun _ h => h)
  subst hru
  rw [htx] at h1 h2
  rw [make_transaction_id_inherits db (.id n) (by intro m hm; cases hm; exact hn)] at h2
  unfold runReferenceTransactionHook
  rw [hlines, hf, htx]
  rw [h1]
  simp only
  refine ⟨?_, ?_⟩
  · rw [h2]
    congr 2
    unfold storable
    rw [List.filter_eq_self.2]
    · rw [List.map_map]; rfl
    · intro e hm
      simp only [List.map_map, List.mem_map, Function.comp] at hm
      obtain ⟨m, _, rfl⟩ := hm
      simp [Event.txId]
  · unfold hookReferenceTransaction at h1
    rw [if_neg (by simp), make_transaction_id_inherits db (.id n) (by intro m hm; cases hm; exact hn)] at h1
    simp only at h1
    split at h1
    · cases h1; exact hp
    · split at h1
      · simp at h1
      · cases h1
        exact (add_events_appends db es _ hp he).2

/-- C54: a successful in-memory rebase is recorded completely, in the transaction of the command:
exactly one update for every local branch whose commit was rewritten, from its old to its new target,
and exactly one rewrite for every rewritten commit. (Before these, the commits deferred by an unfinished
on-disk rebase, if there is one.) Assumed is what git guarantees about names of branches, and that the
deleted branches are not in the file `packed-refs` any more. -/
theorem rebase_recorded (env : FinishEnv) (w w' : RepoWorld) (rewritten : AMap Oid MaybeZero)
    (skipped : Option Oid) (ok : Bool) (hw : AMap.WF w.git.refs)
    (hs : ∀ l, (env.move.shuffle l).Perm l)
    (n : Int) (hn : inIsize n) (htx : env.tx = (TxId.id n).toText)
    (file : Option Text) (hf : env.packedFile = some file)
    (es : List Event) (hp : w.db.pending = none) (he : w.db.getEvents = some es)
    (oids : List Oid) (hdef : readDeferredCommits w.deferred = some oids)
    (hnames : ∀ name, IsBranch name → (w.git.refs.get? name).isSome →
      ' ' ∉ name ∧ '\n' ∉ name ∧ '\r' ∉ name)
    (hpack : ∀ name old, w.git.refs.get? name = some old → rewritten.get? old = some .zero →
      (readPackedRefs file).get? name ≠ some (.nonZero old))
    (h : postRebaseInMemory env w rewritten skipped = (w', .ok ok)) :
    ∃ moves : List (Oid × MaybeZero × Text),
      (moves.map fun m => m.2.2).Nodup ∧
      (∀ old new name, (old, new, name) ∈ moves ↔ IsBranch name ∧ w.git.refs.get? name = some old ∧
        (rewritten.get? old).isSome ∧ new = .ofOption (w'.git.refs.get? name)) ∧
      w'.db.getEvents = some (es ++
        (moves.map fun m => .refUpdate env.now (.id n) m.2.2 (.nonZero m.1) m.2.1 none) ++
        (oids.map fun o => .commit env.now (.id n) o) ++
        (env.shuffle rewritten).map fun e => .rewrite env.now (.id n) (.nonZero e.1) e.2) := by
  obtain ⟨refs1, h1, h2, h3⟩ := postRebase_ok h
  obtain ⟨m1, _, m3, _⟩ := markAll_spec hw h1
  have hold : ∀ name, IsBranch name → refs1.get? name = w.git.refs.get? name := by
    intro name hb
    rw [m3 name]
    rintro ⟨c, n, _, rfl⟩
    exact keepAlive_not_branch n hb
  obtain ⟨moves, hrep, hcomp⟩ := report_complete env.move refs1 rewritten m1 (hs _) h2
  obtain ⟨htr, hmv⟩ := report_truthful_partial env.move refs1 rewritten m1 (hs _) moves hrep
  have hrefs : w'.git.refs = (moveBranches env.move refs1 rewritten).refs := checkOutUpdatedHead_refs h3
  have hto : ∀ z : MaybeZero, MaybeZero.ofOption z.toOption = z := by intro z; cases z <;> rfl
  refine ⟨moves, htr.once, ?_, ?_⟩
  · intro old new name
    constructor
    · intro hm
      obtain ⟨hb, hr, _⟩ := hmv old new name hm
      obtain ⟨ha, hb'⟩ := htr.happened old new name hm
      refine ⟨hb, by rw [← hold name hb]; exact ha, hr, ?_⟩
      rw [hrefs, hb', hto]
    · rintro ⟨hb, ho, hr, hnew⟩
      obtain ⟨new', hm⟩ := hcomp name old hb (by rw [hold name hb]; exact ho) hr
      have := (htr.happened old new' name hm).2
      rw [hrefs, this, hto] at hnew
      rw [hnew]; exact hm
  · have hmem : ∀ m ∈ moves, IsBranch m.2.2 ∧ w.git.refs.get? m.2.2 = some m.1 ∧
        (m.2.1 = .zero → rewritten.get? m.1 = some .zero) := by
      rintro ⟨o, nw, nm⟩ hm
      obtain ⟨hb, hr, ha⟩ := hmv o nw nm hm
      refine ⟨hb, by rw [← hold nm hb]; exact (htr.happened o nw nm hm).1, ?_⟩
      simp only
      rintro rfl
      unfold BranchAfter at ha
      cases hro : rewritten.get? o with
      | none => rw [hro] at hr; simp at hr
      | some z =>
        rw [hro] at ha
        cases z with
        | zero => rfl
        | nonZero x => simp [MaybeZero.toOption] at ha
    obtain ⟨r1, r2⟩ := moves_recorded env w.db es n hn htx file hf hp he moves
      (fun m hm => (hmem m hm).1)
      (fun m hm => hnames _ (hmem m hm).1 (by rw [(hmem m hm).2.1]; rfl))
      (fun m hm hz => hpack _ _ (hmem m hm).2.1 ((hmem m hm).2.2 hz))
    unfold postRebaseInMemory at h
    rw [h1] at h
    have hd : (GitState.detachHead ⟨refs1, w.git.head⟩ (GitState.headInfo ⟨refs1, w.git.head⟩)).refs = refs1 := by
      unfold GitState.detachHead
      split <;> rfl
    simp only [hd, h2, hrep] at h
    simp only [Bool.not_true, Bool.false_eq_true, if_false] at h
    split at h
    · simp at h
    · simp only [Prod.mk.injEq] at h
      obtain ⟨rfl, _⟩ := h
      simp only
      unfold runPostRewriteHook
      simp only
      obtain ⟨w2, tx, p1, p2, p3, _⟩ := hookPostRewrite_done
        ⟨w.rebaseDir.isSome, w.deferred, runReferenceTransactionHook env w.db moves, []⟩ (some env.tx)
        t!"rebase" env.now (env.shuffle rewritten) oids _ (by simp) hdef r2 r1
      rw [p1]
      simp only
      rw [p3]
      rw [htx, make_transaction_id_inherits _ (.id n) (by intro m hm; cases hm; exact hn)] at p2
      simp only at p2
      subst p2
      unfold storable
      rw [List.filter_eq_self.2, ← List.append_assoc]
      intro e hm
      rcases List.mem_append.1 hm with hm | hm <;> obtain ⟨x, _, rfl⟩ := List.mem_map.1 hm <;>
        simp [Event.txId]

/-- Non-vacuity: one branch is moved, one deleted. -/
example : ∃ w', postRebaseInMemory (exFinish fun _ => false)
      (exWorld [(t!"refs/heads/main", oidN 0), (t!"refs/heads/a", oidN 1), (t!"refs/heads/b", oidN 2)]
        (.detached (oidN 0)))
      [(oidN 1, .nonZero (oidN 3)), (oidN 2, .zero)] (some (oidN 0)) = (w', .ok true) ∧
    w'.db.getEvents = some [
      .refUpdate 50 (.id 7) t!"refs/heads/a" (.nonZero (oidN 1)) (.nonZero (oidN 3)) none,
      .refUpdate 50 (.id 7) t!"refs/heads/b" (.nonZero (oidN 2)) .zero none,
      .rewrite 50 (.id 7) (.nonZero (oidN 1)) (.nonZero (oidN 3)),
      .rewrite 50 (.id 7) (.nonZero (oidN 2)) .zero] := by
  refine ⟨_, rfl, ?_⟩
  decide +kernel

/-- If a branch cannot be moved (for example because it is checked out in another work tree), then
other branches have been moved, but no rewrite is recorded, and `HEAD` is left without its branch. -/
theorem failed_move_loses_rewrites :
    ∃ w', postRebaseInMemory (exFinish fun n => n == t!"refs/heads/b")
        (exWorld [(t!"refs/heads/main", oidN 0), (t!"refs/heads/a", oidN 1), (t!"refs/heads/b", oidN 1)]
          (.symbolic t!"refs/heads/a"))
        [(oidN 1, .nonZero (oidN 3))] (some (oidN 3)) = (w', .error ()) ∧
      w'.git.refs.get? t!"refs/heads/a" = some (oidN 3) ∧
      w'.db.getEvents = some [
        .refUpdate 50 (.id 7) t!"refs/heads/a" (.nonZero (oidN 1)) (.nonZero (oidN 3)) none] ∧
      w'.git.head = .detached (oidN 1) := by
  refine ⟨_, rfl, ?_⟩
  decide +kernel

end Verif.Props

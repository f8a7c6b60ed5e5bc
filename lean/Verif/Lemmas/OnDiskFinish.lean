import Verif.Lemmas.OnDiskPlan
import Verif.Props.FinishRebase

/-! The end of an on-disk rebase. -/

namespace Verif.Spec

open Verif Verif.SeqEnv Verif.Props

theorem keepCreated_spec {isCommit : Oid → Bool} {l : List (Oid × CommitData)} {refs : Refs} (hw : AMap.WF refs) :
    AMap.WF (keepCreated isCommit l refs) ∧
      ∀ name, (∀ o, name ≠ keepAliveName o) → (keepCreated isCommit l refs).get? name = refs.get? name := by
  induction l with
  | nil => exact ⟨hw, fun _ _ => rfl⟩
  | cons e l ih =>
    obtain ⟨o, d⟩ := e
    obtain ⟨h1, h2⟩ := ih
    unfold keepCreated
    simp only
    cases hm : markCommitReachable isCommit (keepCreated isCommit l refs) o with
    | error e => exact ⟨h1, h2⟩
    | ok refs1 =>
      simp only
      by_cases hc : isCommit o = true
      · obtain ⟨a, b⟩ := mark_reachable_creates _ _ _ _ hc hm
        refine ⟨?_, fun name hn => by rw [b name (hn o), h2 name hn]⟩
        unfold markCommitReachable createReference at hm
        rw [if_pos hc] at hm
        split at hm
        · simp at hm
        · cases hm; exact AMap.wf_insert h1 _ _
      · rw [mark_missing_is_noop _ _ _ (by simpa using hc)] at hm
        cases hm
        exact ⟨h1, h2⟩

theorem branch_not_kept {name : Text} (h : IsBranch name) (o : Oid) : name ≠ keepAliveName o := by
  rintro rfl
  exact keepAlive_not_branch o h

theorem head_of_info {g : GitState} {o : Option Oid} {n : Text} (h : g.headInfo = ⟨o, some n⟩) :
    g.head = .symbolic n := by
  unfold GitState.headInfo at h
  cases hg : g.head with
  | missing => rw [hg] at h; simp at h
  | detached _ => rw [hg] at h; simp at h
  | symbolic m =>
    rw [hg] at h
    simp only [HeadInfo.mk.injEq, Option.some.injEq] at h
    rw [h.2]

/-- The commit which should be checked out at the end. -/
def wantedHead (refs : Refs) (rewritten : AMap Oid MaybeZero) (name : Option Text) (old : Oid) (skipped : Option Oid) :
    Option Oid :=
  match name with
  | none => NewVersion rewritten.get? skipped old
  | some n => (refs.get? n).or skipped

theorem checkOut_head {env : CheckoutEnv} {g g' : GitState} {rewritten : AMap Oid MaybeZero} {old : Oid}
    {name : Option Text} {skipped : Option Oid} (hw : AMap.WF g.refs)
    (hhex : ∀ o : Oid, g.refs.get? (t!"refs/heads/" ++ o.toText) = none)
    (hord : ∀ n, name = some n → OrdinaryBranch n)
    (h : checkOutUpdatedHead env g rewritten ⟨some old, name⟩ skipped = .ok (g', true)) :
    g'.refs = g.refs ∧
    (∀ q, wantedHead g.refs rewritten name old skipped = some q → g'.headInfo.oid = some q) ∧
    ∀ n, name = some n → g.refs.get? n ≠ none → g'.head = .symbolic n := by
  refine ⟨checkOutUpdatedHead_refs h, ?_⟩
  unfold checkOutUpdatedHead at h
  have hdet : ∀ q, updatedHeadTarget g.refs rewritten ⟨some old, name⟩ skipped = ⟨some q, none⟩ →
      g'.headInfo.oid = some q := by
    intro q ht
    rw [ht] at h
    by_cases he : g.headInfo = ⟨some q, none⟩
    · have hc : updatedHeadCheckout g ⟨some q, none⟩ = none := by
        unfold updatedHeadCheckout
        rw [if_pos he]
      rw [hc] at h
      simp only [Except.ok.injEq, Prod.mk.injEq, and_true] at h
      rw [← h, he]
    · have hc : updatedHeadCheckout g ⟨some q, none⟩ = some (.oid q) := by
        unfold updatedHeadCheckout
        rw [if_neg he]
      rw [hc] at h
      exact (checkOut_oid hw (hhex q) h).2
  cases name with
  | none =>
    refine ⟨fun q hq => hdet q ?_, by simp⟩
    unfold wantedHead NewVersion at hq
    unfold updatedHeadTarget
    simp only at hq ⊢
    split at hq <;> rename_i he <;> rw [he] <;> simp only [hq]
  | some n =>
    obtain ⟨x, rfl, hx1, hx2⟩ := hord n rfl
    cases hr : g.refs.get? (t!"refs/heads/" ++ x) with
    | none =>
      refine ⟨fun q hq => hdet q ?_, fun n' hn' hne => ?_⟩
      · unfold wantedHead at hq
        simp only at hq
        rw [hr] at hq
        simp only [Option.none_or] at hq
        unfold updatedHeadTarget
        simp only
        rw [hr, hq]
      · cases hn'
        exact absurd hr hne
    | some o =>
      have ht : updatedHeadTarget g.refs rewritten ⟨some old, some (t!"refs/heads/" ++ x)⟩ skipped =
          ⟨some o, some (t!"refs/heads/" ++ x)⟩ := by
        unfold updatedHeadTarget
        simp only
        rw [hr]
      have hg : g'.refs = g.refs := by
        have := checkOutUpdatedHead_refs (env := env) (g := g) (g' := g') (rewritten := rewritten)
          (info := ⟨some old, some (t!"refs/heads/" ++ x)⟩) (skipped := skipped) (ok := true) h
        exact this
      have hhead : g'.head = .symbolic (t!"refs/heads/" ++ x) := by
        rw [ht] at h
        by_cases he : g.headInfo = ⟨some o, some (t!"refs/heads/" ++ x)⟩
        · have hc : updatedHeadCheckout g ⟨some o, some (t!"refs/heads/" ++ x)⟩ = none := by
            unfold updatedHeadCheckout
            rw [if_pos he]
          rw [hc] at h
          simp only [Except.ok.injEq, Prod.mk.injEq, and_true] at h
          rw [← h]
          exact head_of_info he
        · have hc : updatedHeadCheckout g ⟨some o, some (t!"refs/heads/" ++ x)⟩ = some (.reference x) := by
            unfold updatedHeadCheckout
            rw [if_neg he]
            simp only [headBranchName]
            rw [stripPrefix?_append]
            rfl
          rw [hc] at h
          simp only at h
          rw [checkOut_reference (g' := g') hx1 hx2 (by rw [hr]; rfl) h]
      refine ⟨fun q hq => ?_, fun n' hn' _ => by cases hn'; exact hhead⟩
      unfold wantedHead at hq
      simp only at hq
      rw [hr] at hq
      cases hq
      unfold GitState.headInfo
      rw [hhead]
      simp only
      rw [hg, hr]

theorem seqRun_append_ok {env : SeqEnv} {ee : ExecEnv} {a b : List TodoItem} {t t' : SeqState}
    (h : seqRun env ee t (a ++ b) = .ok t') : ∃ t0, seqRun env ee t a = .ok t0 ∧ seqRun env ee t0 b = .ok t' := by
  unfold seqRun at *
  rw [List.foldlM_append] at h
  cases hi : a.foldlM (seqStep env ee) t with
  | error e => rw [hi] at h; cases h
  | ok t0 => rw [hi] at h; exact ⟨t0, rfl, h⟩

/-- The whole todo list. -/
theorem seq_follows {env : SeqEnv} {ee : ExecEnv} {R : Oid → Prop} (hn : NoCollisions ee) (hp : GitPicks env ee R)
    {plan : RebasePlan} (hr : DiskReady ee plan) (hR : ∀ c ∈ handledCommits plan.commands, R c) {head : HeadInfo}
    {old : Oid} (hold : head.oid = some old) {s : ExecState}
    (hx : Runs ee head.oid plan.commands (ExecEnv.initialState plan) s) (at_ : Oid) (orig : Option Text) (todo : Text) :
    seqRun env ee ⟨at_, [], [], initialFiles orig head ee.preserveTimestamps todo⟩
      (plan.commands.filterMap todoMeaning) = .error .unwritable ∨
    ∃ t, seqRun env ee ⟨at_, [], [], initialFiles orig head ee.preserveTimestamps todo⟩
        (plan.commands.filterMap todoMeaning) = .ok t ∧
      DiskRel ee R head.oid (initialFiles orig head ee.preserveTimestamps todo) (handledCommits plan.commands) s t ∧
      t.files.extraPostRewrite = true ∧ t.files.headName = some t!"detached HEAD" := by
  set f0 := initialFiles orig head ee.preserveTimestamps todo with hf0
  have hf : f0.rewrittenList = none ∧ f0.updatedHead = none ∧ f0.origHead = some old.toText ∧
      f0.cdateIsAdate = ee.preserveTimestamps ∧ f0.deferred = none := by
    rw [hf0]
    unfold initialFiles
    rw [hold]
    simp only
    unfold RebaseFiles.saveOriginalHeadInfo
    rw [hold]
    cases head.referenceName <;> exact ⟨rfl, rfl, rfl, rfl, rfl⟩
  obtain ⟨f1, f2, f3, f4, f5⟩ := hf
  have hres := hr.resets
  have htg := hr.targets
  have hstart := hr.start
  have hblocks := hr.blocks
  have hreg := hr.registers
  have honce := hr.once
  have hex := hr.exist
  generalize hcs : plan.commands = cs at *
  cases cs with
  | nil => simp at hstart
  | cons c0 cs =>
    simp only [List.head?_cons, Option.some.injEq] at hstart
    subst hstart
    obtain ⟨s1, h1, h2⟩ := runs_cons.1 hx
    unfold ExecEnv.runCommand ExecEnv.initialState at h1
    simp only [AMap.get?_nil] at h1
    cases h1
    obtain ⟨pd, hpd⟩ := Option.isSome_iff_exists.1 (htg _ (.head _))
    have hfind : ee.find [] plan.firstDestOid = some pd := find_known hn (by simp) hpd
    have hstep : seqStep env ee ⟨at_, [], [], f0⟩ (.reset (.oid plan.firstDestOid)) =
        .ok ⟨plan.firstDestOid, [], [], f0⟩ := by
      unfold seqStep resolve
      simp only
      rw [hfind]
    have hcs' : Blocks cs := by
      cases hblocks
      assumption
    have hrel : DiskRel ee R head.oid f0 [] ⟨plan.firstDestOid, [], [], none, []⟩ ⟨plan.firstDestOid, [], [], f0⟩ := by
      constructor
      · simp
      · simp
      · exact .same _
      · rw [show ee.find _ _ = _ from hfind]; rfl
      · simp
      · refine ⟨[], by rw [f1]; rfl, by simp, ?_, by simp⟩
        intro k _
        simp only [AMap.get?_nil]
        exact .stays
      · simp
      · simp
      · simp
      · simp
      · exact ⟨none, by rw [f2]; rfl, .none, by simp⟩
      · rw [f3, hold]; rfl
      · exact f4
      · exact ⟨[], by rw [f5]; rfl, rfl⟩
      · exact ⟨rfl, rfl⟩
    rw [meaning_cons _ (.reset (.oid plan.firstDestOid)) cs rfl, seqRun_cons hstep]
    have hlast : ∃ init, cs = init ++ [.registerExtraPostRewriteHook] := by
      cases hc : cs with
      | nil => rw [hc] at hreg; simp at hreg
      | cons y ys =>
        rw [hc, List.getLast?_cons_cons] at hreg
        exact ⟨_, (List.dropLast_append_getLast? _ hreg).symm⟩
    rcases blocks_sim hn hp hcs' hrel h2 honce (fun p hp => hres p (.tail _ hp)) (fun p hp => htg p (.tail _ hp))
      (fun c hc => ⟨hR c hc, hex c hc⟩) with hu | ⟨t, ht, hrel'⟩
    · exact .inl hu
    · refine .inr ⟨t, ht, hrel', ?_⟩
      obtain ⟨init, rfl⟩ := hlast
      rw [List.filterMap_append, List.filterMap_cons_some (b := .exec [t!"git", t!"branchless",
        t!"hook-register-extra-post-rewrite-hook"]) (f := todoMeaning) rfl, List.filterMap_nil] at ht
      obtain ⟨t0, _, h0⟩ := seqRun_append_ok ht
      have hstep' : seqStep env ee t0 (.exec [t!"git", t!"branchless", t!"hook-register-extra-post-rewrite-hook"]) =
          .ok (hookRegisterExtraPostRewriteHook t0) := by
        unfold seqStep
        simp only
        rw [seqExec_register]
      rw [seqRun_cons hstep'] at h0
      cases h0
      exact ⟨rfl, rfl⟩

/-! ### the hook at the end -/

theorem writeRewrittenList_ne_nil {es : List (Oid × MaybeZero)} (h : es ≠ []) : writeRewrittenList es ≠ [] := by
  cases es with
  | nil => exact absurd rfl h
  | cons e es => simp [writeRewrittenList]

theorem initialFiles_load {orig : Option Text} {head : HeadInfo} {b : Bool} {todo : Text} {old : Oid}
    (hold : head.oid = some old) {f : RebaseFiles}
    (h1 : f.originalHeadOid = (initialFiles orig head b todo).originalHeadOid)
    (h2 : f.originalHead = (initialFiles orig head b todo).originalHead) : f.loadOriginalHeadInfo = some head := by
  obtain ⟨o, n⟩ := head
  simp only at hold
  subst hold
  have h3 : f.originalHeadOid = some old.toText := by
    rw [h1]; cases n <;> rfl
  have h4 : f.originalHead = n := by
    rw [h2]; cases n <;> rfl
  unfold RebaseFiles.loadOriginalHeadInfo
  rw [h3]
  simp only
  rw [Oid.parse_toText, h4]

theorem pathConflict_comm (a b : Text) : pathConflict a b = pathConflict b a := by
  unfold pathConflict
  exact Bool.or_comm _ _

theorem pathConflict_self (a : Text) : pathConflict a a = false := by
  unfold pathConflict
  simp only [Bool.or_self]
  rw [Bool.eq_false_iff]
  intro h
  have := (List.isPrefixOf_iff_prefix.1 h).length_le
  rw [List.length_append] at this
  exact absurd this (Nat.not_succ_le_self _)

theorem keepCreated_valid {isCommit : Oid → Bool} {l : List (Oid × CommitData)} {refs : Refs} (hv : ValidRefs refs) :
    ValidRefs (keepCreated isCommit l refs) := by
  induction l with
  | nil => exact hv
  | cons e l ih =>
    obtain ⟨o, d⟩ := e
    unfold keepCreated
    simp only
    generalize keepCreated isCommit l refs = refs at *
    cases hm : markCommitReachable isCommit refs o with
    | error e => exact ih
    | ok refs1 =>
      simp only
      unfold markCommitReachable createReference at hm
      split at hm
      · split at hm
        · simp at hm
        · rename_i hno
          cases hm
          simp only [List.any_eq_true, not_exists, not_and, Bool.not_eq_true] at hno
          have hk : ∀ b, (refs.get? b).isSome → pathConflict (keepAliveName o) b = false :=
            fun b hb => hno b ((AMap.mem_keys_iff _ _).2 hb)
          refine ⟨AMap.wf_insert ih.wf _ _, ?_⟩
          intro a b ha hb
          rw [AMap.get?_insert] at ha hb
          split at ha <;> split at hb
          · rename_i e1 e2; rw [← e1, ← e2]; exact pathConflict_self _
          · rename_i e1 e2; rw [← e1]; exact hk b hb
          · rename_i e1 e2; rw [← e2, pathConflict_comm]; exact hk a ha
          · exact ih.paths a b ha hb
      · cases hm; exact ih

/-- `git checkout` works for an existing branch. -/
theorem gitCheckout_branch {env : CheckoutEnv} {g : GitState} {x : Text} (hwk : env.works = true)
    (h : (g.refs.get? (t!"refs/heads/" ++ x)).isSome) : (gitCheckout env g x).isSome := by
  unfold gitCheckout
  rw [hwk]
  obtain ⟨o, ho⟩ := Option.isSome_iff_exists.1 h
  rw [ho]
  rfl

theorem checkOut_oid_works {env : CheckoutEnv} {g : GitState} {n : Oid} (hw : AMap.WF g.refs)
    (hwk : env.works = true) (hmain : (g.refs.get? env.mainBranch).isSome) (hc : env.isCommit n = true) :
    ∃ g', checkOutCommit env g (.oid n) = .ok (g', true) := by
  have hraw : (gitCheckout env g n.toText).isSome := by
    cases hb : g.refs.get? (t!"refs/heads/" ++ n.toText) with
    | some o => exact gitCheckout_branch hwk (by rw [hb]; rfl)
    | none =>
      unfold gitCheckout
      rw [hwk, hb]
      simp only [Bool.not_true, Bool.false_eq_true, if_false, Oid.length_toText, if_true, Oid.parse_toText, hc,
        Option.isSome_some]
  have hcases : ∃ t, (if env.autoSwitch then maybeGetBranchName env g n.toText (some n) else .ok n.toText) = .ok t ∧
      (gitCheckout env g t).isSome := by
    split
    · unfold maybeGetBranchName
      obtain ⟨m, hm⟩ := Option.isSome_iff_exists.1 hmain
      rw [hm]
      simp only
      split
      · exact ⟨_, rfl, hraw⟩
      · split
        · rename_i name hn
          refine ⟨_, rfl, ?_⟩
          obtain ⟨hb, ho⟩ := (mem_namesAt hw).1 (by rw [hn]; simp : name ∈ namesAt g.refs n)
          exact gitCheckout_branch hwk (by rw [branch_suffix hb, ho]; rfl)
        · exact ⟨_, rfl, hraw⟩
    · exact ⟨_, rfl, hraw⟩
  obtain ⟨t, h1, h2⟩ := hcases
  obtain ⟨g', h3⟩ := Option.isSome_iff_exists.1 h2
  refine ⟨g', ?_⟩
  unfold checkOutCommit
  simp only
  rw [h1]
  simp only
  rw [h3]

theorem checkOut_reference_works {env : CheckoutEnv} {g : GitState} {x : Text} (hx1 : ¬ t!"refs/heads/" <+: x)
    (hx2 : ¬ t!"refs/remotes/" <+: x) (hwk : env.works = true) (hmain : (g.refs.get? env.mainBranch).isSome)
    (h : (g.refs.get? (t!"refs/heads/" ++ x)).isSome) :
    ∃ g', checkOutCommit env g (.reference x) = .ok (g', true) := by
  have hx : (categorize x).renderSuffix = x := by
    unfold categorize
    rw [if_neg (by rw [List.isPrefixOf_iff_prefix]; exact hx1),
      if_neg (by rw [List.isPrefixOf_iff_prefix]; exact hx2)]
    unfold RefCategory.renderSuffix
    simp only [RefCategory.pfx, RefCategory.renderFull]
    cases x <;> rfl
  have ht : (if env.autoSwitch then maybeGetBranchName env g x none else .ok x) = .ok x := by
    split
    · unfold maybeGetBranchName
      obtain ⟨m, hm⟩ := Option.isSome_iff_exists.1 hmain
      rw [hm]
      simp only
      split <;> rfl
    · rfl
  obtain ⟨g', h3⟩ := Option.isSome_iff_exists.1 (gitCheckout_branch hwk h)
  refine ⟨g', ?_⟩
  unfold checkOutCommit
  simp only [hx]
  rw [ht]
  simp only
  rw [h3]

/-- Checking out the new `HEAD` works if the commits exist. -/
theorem checkOutUpdatedHead_works {env : CheckoutEnv} {g : GitState} {rewritten : AMap Oid MaybeZero} {old : Oid}
    {name : Option Text} {skipped : Option Oid} (hw : AMap.WF g.refs) (hwk : env.works = true)
    (hmain : (g.refs.get? env.mainBranch).isSome) (hord : ∀ n, name = some n → OrdinaryBranch n)
    (hold : env.isCommit old = true) (hskip : ∀ q, skipped = some q → env.isCommit q = true)
    (hnew : ∀ n, rewritten.get? old = some (.nonZero n) → env.isCommit n = true) :
    ∃ g', checkOutUpdatedHead env g rewritten ⟨some old, name⟩ skipped = .ok (g', true) := by
  unfold checkOutUpdatedHead
  have hdet : ∀ q, (∀ q', q = some q' → env.isCommit q' = true) →
      ∃ g', (match updatedHeadCheckout g ⟨q, none⟩ with
        | none => .ok (g, true)
        | some target => checkOutCommit env g target) = Except.ok (g', true) := by
    intro q hq
    by_cases he : g.headInfo = ⟨q, none⟩
    · have hc : updatedHeadCheckout g ⟨q, none⟩ = none := by
        unfold updatedHeadCheckout
        rw [if_pos he]
      rw [hc]
      exact ⟨g, rfl⟩
    · cases q with
      | none =>
        have hc : updatedHeadCheckout g ⟨none, none⟩ = none := by
          unfold updatedHeadCheckout
          rw [if_neg he]
        rw [hc]
        exact ⟨g, rfl⟩
      | some q =>
        have hc : updatedHeadCheckout g ⟨some q, none⟩ = some (.oid q) := by
          unfold updatedHeadCheckout
          rw [if_neg he]
        rw [hc]
        exact checkOut_oid_works hw hwk hmain (hq q rfl)
  cases name with
  | none =>
    unfold updatedHeadTarget
    simp only
    cases hr : rewritten.get? old with
    | none => exact hdet (some old) (by rintro q ⟨⟩; exact hold)
    | some v =>
      cases v with
      | zero => exact hdet skipped hskip
      | nonZero n => exact hdet (some n) (by rintro q ⟨⟩; exact hnew n hr)
  | some n =>
    obtain ⟨x, rfl, hx1, hx2⟩ := hord n rfl
    unfold updatedHeadTarget
    simp only
    cases hr : g.refs.get? (t!"refs/heads/" ++ x) with
    | none => exact hdet skipped hskip
    | some o =>
      simp only
      by_cases he : g.headInfo = ⟨some o, some (t!"refs/heads/" ++ x)⟩
      · have hc : updatedHeadCheckout g ⟨some o, some (t!"refs/heads/" ++ x)⟩ = none := by
          unfold updatedHeadCheckout
          rw [if_pos he]
        rw [hc]
        exact ⟨g, rfl⟩
      · have hc : updatedHeadCheckout g ⟨some o, some (t!"refs/heads/" ++ x)⟩ = some (.reference x) := by
          unfold updatedHeadCheckout
          rw [if_neg he]
          simp only [headBranchName]
          rw [stripPrefix?_append]
          rfl
        rw [hc]
        exact checkOut_reference_works hx1 hx2 hwk hmain (by rw [hr]; rfl)

/-- How git's own end of the rebase, with the hook, leaves the references and `HEAD`. -/
theorem disk_finish {ee : ExecEnv} {R : Oid → Prop} {head : HeadInfo} {old : Oid} (hold : head.oid = some old)
    {orig : Option Text} {b : Bool} {todo : Text} {done : List Oid} (hdone : ∃ c ∈ done, R c) {s : ExecState}
    {t : SeqState} (hrel : DiskRel ee R head.oid (initialFiles orig head b todo) done s t)
    (hextra : t.files.extraPostRewrite = true) (hname : t.files.headName = some t!"detached HEAD")
    {env : FinishEnv} {w w2 : RepoWorld} {r : ExtraResult} (h : gitFinish env w t = (w2, r))
    (hw : AMap.WF w.git.refs) (hs : ∀ l, (env.move.shuffle l).Perm l)
    (hord : ∀ n, head.referenceName = some n → OrdinaryBranch n)
    (hhex : ∀ o : Oid, w2.git.refs.get? (t!"refs/heads/" ++ o.toText) = none) :
    r ≠ .nothing ∧
    (ValidRefs w.git.refs → FinishWorks ee t.created env → (ee.find t.created old).isSome →
      IsBranch env.move.mainBranch →
      (∀ m : AMap Oid MaybeZero, (∀ k, R k → SameFate ee (AMap.get? s.rewritten k) (AMap.get? m k)) →
        ((w.git.refs.get? env.move.mainBranch).bind
          (BranchAfter env.move.mainBranch (upstreamOf env.move) m.get? env.move.mainBranch)).isSome) →
      r = .done true) ∧
    (r = .done true → ∃ (m : AMap Oid MaybeZero) (u : Option Oid),
      (∀ k, R k → SameFate ee (AMap.get? s.rewritten k) (AMap.get? m k)) ∧
      Option.Rel (SameCommit ee) s.skippedHead u ∧
      (∀ name, IsBranch name → w2.git.refs.get? name =
        (w.git.refs.get? name).bind (BranchAfter env.move.mainBranch (upstreamOf env.move) m.get? name)) ∧
      (∀ q, wantedHead w2.git.refs m head.referenceName old u = some q → w2.git.headInfo.oid = some q) ∧
      ∀ n, head.referenceName = some n → w2.git.refs.get? n ≠ none → w2.git.head = .symbolic n) := by
  obtain ⟨es, he1, he2, he3, he4⟩ := hrel.entries
  obtain ⟨u, hu1, hu2, hu3⟩ := hrel.skipped
  obtain ⟨os, ho1, _⟩ := hrel.deferred
  have hne : es ≠ [] := by
    rintro rfl
    obtain ⟨c, hc, hRc⟩ := hdone
    have h1 := hrel.all c hc
    have h2 := he3 c hRc
    rw [AMap.get?_nil] at h2
    generalize AMap.get? s.rewritten c = x at *
    cases h2
    simp at h1
  have hlist : ∃ l, t.files.rewrittenList = some l ∧ l ≠ [] ∧ l = writeRewrittenList es := by
    have := writeRewrittenList_ne_nil hne
    cases hl : t.files.rewrittenList with
    | none => rw [hl] at he1; exact absurd he1.symm this
    | some l => rw [hl] at he1; exact ⟨l, rfl, by rw [show l = _ from he1]; exact this, he1⟩
  obtain ⟨l, hl1, hl2, hl3⟩ := hlist
  have hload : t.files.loadOriginalHeadInfo = some head := initialFiles_load hold hrel.kept.1 hrel.kept.2
  have hupd : t.files.loadUpdatedHeadOid = some u := by
    unfold RebaseFiles.loadUpdatedHeadOid
    rw [hu1]
    cases u with
    | none => rfl
    | some u =>
      simp only [Option.map_some]
      rw [Oid.parse_toText]
  set refs := keepCreated env.move.isCommit t.created w.git.refs with hrefs
  obtain ⟨hkw, hkb⟩ := keepCreated_spec (isCommit := env.move.isCommit) (l := t.created) hw
  rw [← hrefs] at hkw hkb
  have hhook : ∀ db, ∃ h, hookPostRewrite ⟨true, t.files.deferred, db, []⟩ (some env.tx) t!"rebase" env.now l =
      (.done (AMap.ofList es), h) := by
    intro db
    unfold hookPostRewrite
    rw [if_neg (by simp)]
    simp only
    rw [readDeferred_snoc ho1]
    simp only
    rw [hl3, rewritten_list_roundtrip]
    exact ⟨_, rfl⟩
  have hget : ∀ k, (AMap.ofList es).get? k = AMap.get? es k := fun k => by
    rw [get?_ofList, newestEntry_of_nodup he2]
  unfold gitFinish at h
  rw [hl1, hname] at h
  simp only [Option.getD_some] at h
  rw [if_neg (by decide)] at h
  cases hl : l with
  | nil => exact absurd hl hl2
  | cons x xs =>
    rw [hl] at h
    rw [← hl] at h
    unfold hookPostRewriteExtra at h
    obtain ⟨hh, hhe⟩ := hhook w.db
    simp only at h
    rw [hhe] at h
    simp only [hextra, Bool.not_true, Bool.false_eq_true, if_false, hload, hupd] at h
    rw [← hrefs] at h
    cases hok : (moveBranches env.move refs (AMap.ofList es)).ok with
    | false =>
      rw [hok] at h
      simp only [Bool.not_false, if_true, Prod.mk.injEq] at h
      rw [← h.2]
      refine ⟨by simp, ?_, by simp⟩
      intro hv hfw _ hmb hmain
      have hm0 := hmain (AMap.ofList es) (fun k hk => by rw [hget]; exact he3 k hk)
      have hms : (refs.get? env.move.mainBranch).isSome := by
        rw [hkb _ (branch_not_kept hmb)]
        cases hg : w.git.refs.get? env.move.mainBranch with
        | none => rw [hg] at hm0; simp at hm0
        | some _ => rfl
      obtain ⟨up, hup⟩ := hfw.upstream
      have := moves_succeed env.move refs (AMap.ofList es) (hs _) hms
        ⟨keepCreated_valid hv, hfw.accepts, fun o n hon => (hfw.commits n (he4 o n (by rw [← hget]; exact hon))).1⟩ up hup
      rw [hok] at this
      simp at this
    | true =>
      rw [hok] at h
      simp only [Bool.not_true, Bool.false_eq_true, if_false] at h
      have hwf : AMap.WF (moveBranches env.move refs (AMap.ofList es)).refs := by
        rcases moveBranches_cases (rewritten := AMap.ofList es) hkw (hs _) with ⟨_, h⟩ | ⟨s, h, h1, _⟩ |
          ⟨s, h, _⟩ | ⟨s, h, _⟩
        all_goals rw [h] at hok ⊢
        · simp at hok
        · exact h1.wf
        · simp at hok
        · simp at hok
      have hworks : ValidRefs w.git.refs → FinishWorks ee t.created env → (ee.find t.created old).isSome →
          IsBranch env.move.mainBranch →
          (∀ m : AMap Oid MaybeZero, (∀ k, R k → SameFate ee (AMap.get? s.rewritten k) (AMap.get? m k)) →
            ((w.git.refs.get? env.move.mainBranch).bind
              (BranchAfter env.move.mainBranch (upstreamOf env.move) m.get? env.move.mainBranch)).isSome) →
          ∃ g', checkOutUpdatedHead env.checkout ⟨(moveBranches env.move refs (AMap.ofList es)).refs,
            .detached t.head⟩ (AMap.ofList es) head u = .ok (g', true) := by
        intro _ hfw ho hmb hmain
        have hm0 := hmain (AMap.ofList es) (fun k hk => by rw [hget]; exact he3 k hk)
        have hheadeq : head = ⟨some old, head.referenceName⟩ := by
          rw [← hold]
        rw [hheadeq]
        refine checkOutUpdatedHead_works hwf hfw.checkout ?_ hord (hfw.commits _ ho).2
          (fun q hq => (hfw.commits q (hu3 q hq)).2)
          (fun n hn => (hfw.commits n (he4 old n (by rw [← hget]; exact hn))).2)
        show ((moveBranches env.move refs (AMap.ofList es)).refs.get? env.checkout.mainBranch).isSome
        rw [hfw.main, (branches_follow env.move refs _ hkw (hs _) hok _).1 hmb, hkb _ (branch_not_kept hmb)]
        exact hm0
      cases hco : checkOutUpdatedHead env.checkout ⟨(moveBranches env.move refs (AMap.ofList es)).refs,
          .detached t.head⟩ (AMap.ofList es) head u with
      | error e =>
        rw [hco] at h
        simp only [Prod.mk.injEq] at h
        rw [← h.2]
        refine ⟨by simp, ?_, by simp⟩
        intro a1 a2 a3 a4 a5
        obtain ⟨g', hg'⟩ := hworks a1 a2 a3 a4 a5
        rw [hco] at hg'
        simp at hg'
      | ok x =>
        obtain ⟨git, ok⟩ := x
        rw [hco] at h
        simp only [Prod.mk.injEq] at h
        obtain ⟨h1, h2⟩ := h
        rw [← h2]
        refine ⟨by simp, ?_, fun hdn => ⟨AMap.ofList es, u, ?_, hu2, ?_⟩⟩
        · intro a1 a2 a3 a4 a5
          obtain ⟨g', hg'⟩ := hworks a1 a2 a3 a4 a5
          rw [hco] at hg'
          simp only [Except.ok.injEq, Prod.mk.injEq] at hg'
          rw [hg'.2]
        · intro k hk
          rw [hget]
          exact he3 k hk
        cases hdn
        have hgit : w2.git = git := by rw [← h1]
        have hrefs2 : w2.git.refs = (moveBranches env.move refs (AMap.ofList es)).refs := by
          rw [hgit]; exact checkOutUpdatedHead_refs hco
        have hheadeq : head = ⟨some old, head.referenceName⟩ := by
          rw [← hold]
        rw [hheadeq] at hco
        obtain ⟨c1, c2, c3⟩ := checkOut_head hwf (by rw [← hrefs2]; exact hhex) hord hco
        refine ⟨?_, ?_, ?_⟩
        · intro name hb
          rw [hrefs2, (branches_follow env.move refs _ hkw (hs _) hok name).1 hb,
            hkb name (branch_not_kept hb)]
        · intro q hq
          rw [hrefs2] at hq
          rw [hgit]
          exact c2 q hq
        · intro n hn hne
          rw [hrefs2] at hne
          rw [hgit]
          exact c3 n hn hne

/-- The same for a rebase in memory. -/
theorem mem_finish {env : FinishEnv} {w w1 : RepoWorld} {rewritten : AMap Oid MaybeZero} {skipped : Option Oid}
    (h : postRebaseInMemory env w rewritten skipped = (w1, .ok true)) {old : Oid} (hold : w.git.headInfo.oid = some old)
    (hw : AMap.WF w.git.refs) (hs : ∀ l, (env.move.shuffle l).Perm l)
    (hord : ∀ n, w.git.head = .symbolic n → OrdinaryBranch n)
    (hhex : ∀ o : Oid, w1.git.refs.get? (t!"refs/heads/" ++ o.toText) = none) :
    (∀ name, IsBranch name → w1.git.refs.get? name =
      (w.git.refs.get? name).bind (BranchAfter env.move.mainBranch (upstreamOf env.move) rewritten.get? name)) ∧
    (∀ q, wantedHead w1.git.refs rewritten w.git.headInfo.referenceName old skipped = some q →
      w1.git.headInfo.oid = some q) ∧
    ∀ n, w.git.headInfo.referenceName = some n → w1.git.refs.get? n ≠ none → w1.git.head = .symbolic n := by
  refine ⟨(finished_references env w w1 rewritten skipped true hw hs h).1, ?_⟩
  obtain ⟨g, g1, g2, g3⟩ := postRebase_head hw hs h
  have hname : ∀ n, w.git.headInfo.referenceName = some n → w.git.head = .symbolic n := by
    intro n hn
    exact head_of_info (o := w.git.headInfo.oid) (by rw [← hn])
  obtain ⟨_, g5⟩ := g3 ⟨some old, w.git.headInfo.referenceName⟩
    (fun b hb => by obtain ⟨x, rfl, _⟩ := hord b hb; exact ⟨x, rfl⟩) (by rw [← hold])
  obtain ⟨c1, c2, c3⟩ := checkOut_head g2 (by rw [g1]; exact hhex) (fun n hn => hord n (hname n hn)) g5
  rw [g1] at c2 c3
  exact ⟨c2, c3⟩

end Verif.Spec

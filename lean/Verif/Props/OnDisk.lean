import Verif.Lemmas.OnDiskFinish
import Verif.Props.RecordExample

/-! Theorems about `Verif.Model.OnDisk` (C81): an on-disk rebase does the same as one in memory. -/

namespace Verif.Props

open Verif Verif.Spec Verif.SeqEnv

theorem branchAfter_rel {ee : ExecEnv} {main name : Text} {up : Option Oid} {f g : Oid → Option MaybeZero} {o : Oid}
    (h : SameFate ee (f o) (g o)) :
    Option.Rel (SameCommit ee) (BranchAfter main up f name o) (BranchAfter main up g name o) := by
  unfold BranchAfter
  generalize f o = a at *
  generalize g o = b at *
  cases h with
  | stays => exact .some (.same _)
  | dropped =>
    simp only
    split
    · cases up with
      | none => exact .none
      | some u => exact .some (.same u)
    · exact .none
  | new n n' h => exact .some h

theorem wd_of_write {disk : OnDiskEnv} {plan : RebasePlan} {w wd : RepoWorld}
    (h : writeRebaseStateToDisk disk plan w = (wd, .ok (.ok ()))) : wd.git = w.git.detachHead w.git.headInfo := by
  unfold writeRebaseStateToDisk at h
  split at h
  · simp at h
  · split at h
    · simp at h
    · simp only at h
      split at h
      · simp at h
      · split at h
        · simp at h
        · simp only [Prod.mk.injEq, and_true] at h
          rw [← h]

/-- C81, for plans in general: if the rebase in memory succeeds, then `git rebase` gets to its end (unless an object
cannot be written) and runs the hook which moves the branches. The hook succeeds if references can be written and the
working copy has no changes in the way; then the branches and `HEAD` are at the same commits as after the rebase in
memory. -/
theorem on_disk_same {b : RebasePlanBuilder} {k : Constraints} (hk : b.constraintGraph = .ok k) (hf : k.fixups = [])
    (hreg : Regular b.env k) (hrep : b.replacementCommits = []) {plan : RebasePlan}
    (h : b.build = .ok (.ok (some plan))) {ee : ExecEnv} (hn : NoCollisions ee)
    (hex : ∀ cmd ∈ plan.commands, ∀ o ∈ mentions cmd, ∃ d, ee.commits o = some d)
    {w : RepoWorld} {env : SeqEnv} (hp : GitPicks env ee (Matters w.git plan)) (hw : AMap.WF w.git.refs)
    (hord : ∀ n, w.git.head = .symbolic n → OrdinaryBranch n)
    {s : ExecState} {newHead : Option Oid} (hx : ee.rebaseInMemory w.git.headInfo.oid plan = .ok (s, newHead))
    {fe : FinishEnv} (hs : ∀ l, (fe.move.shuffle l).Perm l) {w1 : RepoWorld}
    (hm : postRebaseInMemory fe w s.rewritten newHead = (w1, .ok true))
    (hhex1 : ∀ o : Oid, w1.git.refs.get? (t!"refs/heads/" ++ o.toText) = none)
    {disk : OnDiskEnv} {wd : RepoWorld} (hdisk : writeRebaseStateToDisk disk plan w = (wd, .ok (.ok ())))
    {finish : List (Oid × CommitData) → FinishEnv}
    (hfin : ∀ cr, (finish cr).move.mainBranch = fe.move.mainBranch ∧
      (finish cr).move.upstreamTarget = fe.move.upstreamTarget ∧ ∀ l, ((finish cr).move.shuffle l).Perm l)
    {orig : Option Text} {w2 : RepoWorld} {out : Except SeqStop (ExtraResult × SeqState)} {old : Oid}
    (hold : w.git.headInfo.oid = some old)
    (hd : gitRebaseContinue env ee finish orig w.git.headInfo wd = (w2, out))
    (hhex2 : ∀ o : Oid, w2.git.refs.get? (t!"refs/heads/" ++ o.toText) = none) :
    out = .error .unwritable ∨ ∃ r t, out = .ok (r, t) ∧ r ≠ .nothing ∧
      (ValidRefs w.git.refs → (ee.commits old).isSome → IsBranch fe.move.mainBranch →
        (w1.git.refs.get? fe.move.mainBranch).isSome → FinishWorks ee t.created (finish t.created) → r = .done true) ∧
      (r = .done true → SameResult ee w.git w1.git w2.git) := by
  obtain ⟨hruns, hnew⟩ := rebaseInMemory_ok hx
  have hready := diskReady_of_build hk hf hreg hrep h hex (fun c ps => runs_no_merge hruns c ps)
  have hnorep : ∀ c r ps, .replace c r ps ∉ plan.commands := by
    intro c r ps hmem
    have := (picks_apply b k hk plan h).2.1 c r ps hmem
    rw [hrep] at this
    simp at this
  obtain ⟨text, ht1, ht2⟩ := todo_list_means_plan b plan h hnorep disk w wd hdisk
  have hgit := wd_of_write hdisk
  have hwd : wd.git = ⟨w.git.refs, .detached old⟩ := by
    rw [hgit]
    unfold GitState.detachHead
    rw [hold]
  unfold gitRebaseContinue at hd
  have hoid : wd.git.headInfo.oid = some old := by rw [hwd]; rfl
  rw [ht1, hoid] at hd
  simp only at hd
  rw [ht2] at hd
  simp only at hd
  rcases seq_follows hn hp hready (fun c hc => .inr (.inr hc)) hold hruns old orig text with hu | ⟨t, h1, h2, h3, h4⟩
  · left
    rw [hu] at hd
    simp only [Prod.mk.injEq] at hd
    exact hd.2.symm
  right
  rw [h1] at hd
  simp only at hd
  cases hg : gitFinish (finish t.created) wd t with
  | mk w3 r =>
  rw [hg] at hd
  simp only [Prod.mk.injEq] at hd
  obtain ⟨rfl, rfl⟩ := hd
  obtain ⟨hf1, hf2, hf3⟩ := hfin t.created
  have hname : ∀ n, w.git.headInfo.referenceName = some n → w.git.head = .symbolic n := by
    intro n hn
    exact head_of_info (o := w.git.headInfo.oid) (by rw [← hn])
  have hdone : ∃ c ∈ handledCommits plan.commands, Matters w.git plan c := by
    obtain ⟨c, cs, hc⟩ := List.exists_cons_of_ne_nil hready.any
    exact ⟨c, by rw [hc]; simp, .inr (.inr (by rw [hc]; simp))⟩
  obtain ⟨hr1, hr3, hr2⟩ := disk_finish hold hdone h2 h3 h4 hg (by rw [hwd]; exact hw) hf3
    (fun n hn => hord n (hname n hn)) hhex2
  have hup : upstreamOf (finish t.created).move = upstreamOf fe.move := by unfold upstreamOf; rw [hf2]
  refine ⟨r, t, rfl, hr1, ?_, fun hdn => ?_⟩
  · intro hv ho hmb hma hfw
    obtain ⟨d, ho⟩ := Option.isSome_iff_exists.1 ho
    refine hr3 (by rw [hwd]; exact hv) hfw (by rw [find_known hn h2.diskCreated ho]; rfl) (by rw [hf1]; exact hmb) ?_
    intro m hsf
    rw [hf1, hup, hwd]
    obtain ⟨b3, _, _⟩ := mem_finish hm hold hw hs hord hhex1
    rw [b3 _ hmb] at hma
    cases hg : w.git.refs.get? fe.move.mainBranch with
    | none => rw [hg] at hma; simp at hma
    | some o =>
      rw [hg] at hma
      simp only [Option.bind_some] at hma ⊢
      have := branchAfter_rel (main := fe.move.mainBranch) (name := fe.move.mainBranch) (up := upstreamOf fe.move)
        (hsf o (.inl ⟨_, hmb, hg⟩))
      cases hx : BranchAfter fe.move.mainBranch (upstreamOf fe.move) s.rewritten.get? fe.move.mainBranch o with
      | none => rw [hx] at hma; simp at hma
      | some v =>
        rw [show BranchAfter _ _ (fun k => AMap.get? s.rewritten k) _ o = _ from hx] at this
        show (BranchAfter _ _ (fun k => AMap.get? m k) _ o).isSome
        generalize BranchAfter _ _ (fun k => AMap.get? m k) _ o = y at *
        cases this
        rfl
  obtain ⟨m, u, a1, a2, a3, a4, a5⟩ := hr2 hdn
  obtain ⟨b3, b4, b5⟩ := mem_finish hm hold hw hs hord hhex1
  rw [hf1, hup] at a3
  have hbr : ∀ name, IsBranch name → Option.Rel (SameCommit ee) (w1.git.refs.get? name) (w3.git.refs.get? name) := by
    intro name hb
    rw [b3 name hb, a3 name hb, hwd]
    cases ho : w.git.refs.get? name with
    | none => simp only [ho, Option.bind_none]; exact .none
    | some o =>
      simp only [ho, Option.bind_some]
      exact branchAfter_rel (a1 o (.inl ⟨name, hb, ho⟩))
  have hfate := a1 old (.inr (.inl hold))
  have hskip : AMap.get? s.rewritten old = some .zero →
      ∃ q q', newHead = some q ∧ u = some q' ∧ SameCommit ee q q' := by
    intro hz
    have hsk := h2.zero old hold hz
    obtain ⟨q, hq⟩ := Option.isSome_iff_exists.1 hsk
    rw [hq] at a2
    cases a2 with
    | some hqq =>
      rename_i q'
      refine ⟨q, q', ?_, rfl, hqq⟩
      rw [hnew, hold]
      unfold ExecEnv.newHeadOid
      simp only
      rw [hz, hq]
      rfl
  refine ⟨hbr, ?_, ?_⟩
  · cases hrn : w.git.headInfo.referenceName with
    | none =>
      rw [hrn] at a4 b4
      unfold wantedHead NewVersion at a4 b4
      simp only at a4 b4
      cases hz : AMap.get? s.rewritten old with
      | none =>
        rw [hz] at hfate b4
        generalize hm' : AMap.get? m old = y at *
        cases hfate
        rw [a4 old rfl, b4 old rfl]
        exact .some (.same old)
      | some v =>
        cases v with
        | zero =>
          obtain ⟨q, q', e1, e2, e3⟩ := hskip hz
          rw [hz] at hfate b4
          generalize hm' : AMap.get? m old = y at *
          cases hfate
          rw [a4 q' e2, b4 q e1]
          exact .some e3
        | nonZero n =>
          rw [hz] at hfate b4
          generalize hm' : AMap.get? m old = y at *
          cases hfate with
          | new _ n' hs =>
            rw [a4 n' rfl, b4 n rfl]
            exact .some hs
    | some n =>
      have hsym := hname n hrn
      have hb : IsBranch n := by obtain ⟨x, rfl, _⟩ := hord n hsym; exact ⟨x, rfl⟩
      have hno : w.git.refs.get? n = some old := by
        rw [← hold]
        unfold GitState.headInfo
        rw [hsym]
      have hrel := hbr n hb
      rw [hrn] at a4 b4
      unfold wantedHead at a4 b4
      simp only at a4 b4
      cases hr1' : w1.git.refs.get? n with
      | some o =>
        rw [hr1'] at hrel b4
        cases hr2' : w3.git.refs.get? n with
        | none => rw [hr2'] at hrel; cases hrel
        | some o' =>
          rw [hr2'] at hrel a4
          cases hrel with
          | some hoo =>
            rw [a4 o' rfl, b4 o rfl]
            exact .some hoo
      | none =>
        rw [hr1'] at hrel b4
        cases hr2' : w3.git.refs.get? n with
        | some o' => rw [hr2'] at hrel; cases hrel
        | none =>
          rw [hr2'] at a4
          have hz : AMap.get? s.rewritten old = some .zero := by
            have := b3 n hb
            rw [hr1', hno, Option.bind_some] at this
            unfold BranchAfter at this
            cases hz : AMap.get? s.rewritten old with
            | none => rw [hz] at this; simp at this
            | some v =>
              cases v with
              | zero => rfl
              | nonZero n => rw [hz] at this; simp at this
          obtain ⟨q, q', e1, e2, e3⟩ := hskip hz
          rw [a4 q' (by rw [e2]; rfl), b4 q (by rw [e1]; rfl)]
          exact .some e3
  · intro n hsym hne
    have hrn : w.git.headInfo.referenceName = some n := by
      unfold GitState.headInfo
      rw [hsym]
    have hb : IsBranch n := by obtain ⟨x, rfl, _⟩ := hord n hsym; exact ⟨x, rfl⟩
    refine ⟨b5 n hrn hne, a5 n hrn ?_⟩
    intro hn2
    have := hbr n hb
    rw [hn2] at this
    generalize hy : w1.git.refs.get? n = y at *
    cases this
    exact hne rfl

/-- C81: commits are moved with their descendants (`git move`, `git restack`). If the rebase in memory succeeds, then so
does the one on disk, with the same branches and the same `HEAD`. Missing: merge commits and squashed commits. -/
theorem subtree_on_disk_same_partial {b : RebasePlanBuilder} (hg : WFGraph b.env.dag.graph) {rs : List (Oid × Oid)}
    (hb : b.initialConstraints = rs.map fun r => .moveSubtree [r.2] r.1) (hmerge : ∀ r ∈ rs, ¬ IsMerge b.env r.1)
    (hrep : b.replacementCommits = []) {plan : RebasePlan} (h : b.build = .ok (.ok (some plan)))
    {ee : ExecEnv} (hn : NoCollisions ee)
    (hex : ∀ cmd ∈ plan.commands, ∀ o ∈ mentions cmd, ∃ d, ee.commits o = some d)
    {w : RepoWorld} {env : SeqEnv} (hp : GitPicks env ee (Matters w.git plan)) (hv : ValidRefs w.git.refs)
    (hord : ∀ n, w.git.head = .symbolic n → OrdinaryBranch n)
    {s : ExecState} {newHead : Option Oid} (hx : ee.rebaseInMemory w.git.headInfo.oid plan = .ok (s, newHead))
    {fe : FinishEnv} (hs : ∀ l, (fe.move.shuffle l).Perm l) {w1 : RepoWorld}
    (hm : postRebaseInMemory fe w s.rewritten newHead = (w1, .ok true))
    (hhex1 : ∀ o : Oid, w1.git.refs.get? (t!"refs/heads/" ++ o.toText) = none)
    {disk : OnDiskEnv} {wd : RepoWorld} (hdisk : writeRebaseStateToDisk disk plan w = (wd, .ok (.ok ())))
    {finish : List (Oid × CommitData) → FinishEnv}
    (hfin : ∀ cr, (finish cr).move.mainBranch = fe.move.mainBranch ∧
      (finish cr).move.upstreamTarget = fe.move.upstreamTarget ∧ ∀ l, ((finish cr).move.shuffle l).Perm l)
    {orig : Option Text} {w2 : RepoWorld} {out : Except SeqStop (ExtraResult × SeqState)} {old : Oid}
    (hold : w.git.headInfo.oid = some old)
    (hd : gitRebaseContinue env ee finish orig w.git.headInfo wd = (w2, out))
    (hhex2 : ∀ o : Oid, w2.git.refs.get? (t!"refs/heads/" ++ o.toText) = none)
    (holdc : (ee.commits old).isSome) (hmb : IsBranch fe.move.mainBranch)
    (hma : (w1.git.refs.get? fe.move.mainBranch).isSome) (hworks : ∀ cr, FinishWorks ee cr (finish cr)) :
    out = .error .unwritable ∨ ∃ t, out = .ok (.done true, t) ∧ SameResult ee w.git w1.git w2.git := by
  obtain ⟨k, hk, hf, hmv⟩ := constraintGraph_subtrees hg hb
  rcases on_disk_same hk hf (regular_subtrees hg hmerge hf hmv) hrep h hn hex hp hv.wf hord hx hs hm hhex1 hdisk hfin
    hold hd hhex2 with hu | ⟨r, t, h1, _, h2, h3⟩
  · exact .inl hu
  · have := h2 hv holdc hmb hma (hworks _)
    subst this
    exact .inr ⟨t, h1, h3 rfl⟩

/-! ### an example -/

/-- The commits 1 and 2, one on top of the other, are moved on top of the commit 3. -/
def exDiskBuilder : RebasePlanBuilder :=
  exBuilder [(oidN 3, [oidN 0]), (oidN 2, [oidN 1]), (oidN 1, [oidN 0]), (oidN 0, [])]
    [.moveSubtree [oidN 3] (oidN 1)]

def exDiskPlan : RebasePlan :=
  ⟨oidN 3, [.reset (.oid (oidN 3)), .pick (oidN 1) [oidN 1], .detectEmptyCommit (oidN 1), .pick (oidN 2) [oidN 2],
    .detectEmptyCommit (oidN 2), .registerExtraPostRewriteHook]⟩

def exDiskCommits : List (Oid × CommitData) :=
  [(oidN 0, exCommit [] 10 0), (oidN 1, exCommit [oidN 0] 11 1), (oidN 2, exCommit [oidN 1] 12 2),
    (oidN 3, exCommit [oidN 0] 13 3)]

/-- What can be made: the first two in memory, the others by git. -/
def exDiskNew : List (CommitData × Oid) :=
  [(exNew [oidN 3] 14 1, oidN 7), (exNew [oidN 7] 14 2, oidN 10), (⟨[oidN 3], 14, some t!"1", 1, 9, 200⟩, oidN 8),
    (⟨[oidN 8], 14, some t!"2", 1, 9, 201⟩, oidN 9)]

def exDiskPicks : List ((Oid × Oid) × Nat) := [((oidN 1, oidN 3), 14), ((oidN 2, oidN 7), 14)]

/-- Nothing is left of the commit 2. -/
def exDiskExec : ExecEnv := exExec exDiskCommits exDiskNew exDiskPicks []

def exSeq : SeqEnv where
  pick c t := match AMap.get? [((oidN 1, 10), 11), ((oidN 2, 11), 12), ((oidN 3, 10), 13), ((oidN 1, 13), 14),
      ((oidN 2, 14), 14)] (c, t) with
    | some t => .ok t
    | none => .error ()
  mergeTree _ := .error ()
  user := 9
  clock n := 200 + n
  authorTime _ := 5
  shuffle := id

def exDiskRefs : Refs :=
  [(t!"refs/heads/main", oidN 0), (t!"refs/heads/a", oidN 2), (t!"refs/heads/b", oidN 1), (t!"refs/heads/c", oidN 3)]

def exDiskWorld : RepoWorld := exWorld exDiskRefs (.symbolic t!"refs/heads/a")

def exDiskKnown : List (Oid × CommitData) := exDiskCommits ++ exDiskNew.map fun x => (x.2, x.1)

theorem exDiskKnown_mem {o : Oid} {d : CommitData} (h : Known exDiskExec o d) : (o, d) ∈ exDiskKnown := by
  rcases h with h | h
  · exact List.mem_append_left _ (AMap.mem_of_get? h)
  · exact List.mem_append_right _ (List.mem_map.2 ⟨_, AMap.mem_of_get? h, rfl⟩)

theorem exDisk_matters {o : Oid} (h : Matters exDiskWorld.git exDiskPlan o) :
    o ∈ [oidN 0, oidN 1, oidN 2, oidN 3] := by
  rcases h with ⟨name, _, h⟩ | h | h
  · have := AMap.mem_of_get? h
    have h2 : ∀ x ∈ exDiskRefs, x.2 ∈ [oidN 0, oidN 1, oidN 2, oidN 3] := by decide +kernel
    exact h2 _ this
  · have : exDiskWorld.git.headInfo.oid = some (oidN 2) := by decide +kernel
    rw [this] at h
    simp only [Option.some.injEq] at h
    rw [← h]
    decide
  · have h2 : ∀ x ∈ handledCommits exDiskPlan.commands, x ∈ [oidN 0, oidN 1, oidN 2, oidN 3] := by decide +kernel
    exact h2 _ h

theorem exDisk_picks : GitPicks exSeq exDiskExec (Matters exDiskWorld.git exDiskPlan) := by
  constructor
  · intro c o d t hd h
    have hd := exDiskKnown_mem hd
    have h1 : ((c, o), t) ∈ exDiskPicks := by
      unfold exDiskExec exExec at h
      simp only at h
      cases hg : AMap.get? exDiskPicks (c, o) with
      | none => rw [hg] at h; simp at h
      | some t' =>
        rw [hg] at h
        simp only [Except.ok.injEq] at h
        rw [← h]
        exact AMap.mem_of_get? hg
    have h2 : ∀ x ∈ exDiskPicks, ∀ y ∈ exDiskKnown, x.1.2 = y.1 → exSeq.pick x.1.1 y.2.tree = .ok x.2 := by
      decide +kernel
    exact h2 _ h1 _ hd rfl
  · intro c d p pd h1 h2 h3
    have h1 : (c, d) ∈ exDiskCommits := AMap.mem_of_get? h1
    have h3 := exDiskKnown_mem h3
    have h4 : ∀ x ∈ exDiskCommits, ∀ y ∈ exDiskKnown, x.2.parents = [y.1] → exSeq.pick x.1 y.2.tree = .ok x.2.tree := by
      decide +kernel
    exact h4 _ h1 _ h3 h2
  · intro c orig d p pd o _ _ _ _ h _ _ _ hm
    have h1 : (d, o) ∈ exDiskNew := AMap.mem_of_get? h
    have h2 : ∀ x ∈ exDiskNew, x.2 ∉ [oidN 0, oidN 1, oidN 2, oidN 3] := by decide +kernel
    exact absurd (exDisk_matters hm) (h2 _ h1)
  · exact fun l => List.Perm.refl _

/-- The end of a rebase in the example: `works` says whether a checkout is possible. -/
def exDiskFinish (works : Bool) (refuses : Text → Bool) : FinishEnv :=
  { exFinish refuses with checkout := ⟨t!"refs/heads/main", true, fun _ => true, works⟩ }

theorem no_hex_branch {refs : Refs} (h : ∀ x ∈ refs, x.1.length ≠ 51) (o : Oid) :
    refs.get? (t!"refs/heads/" ++ o.toText) = none := by
  cases hg : refs.get? (t!"refs/heads/" ++ o.toText) with
  | none => rfl
  | some v =>
    have := h _ (AMap.mem_of_get? hg)
    rw [List.length_append, Oid.length_toText] at this
    exact absurd rfl this

/-- The repository after the rebase of the example in memory. -/
def exDiskInMemory (fe : FinishEnv) : RepoWorld × Except Unit Bool :=
  match exDiskExec.rebaseInMemory exDiskWorld.git.headInfo.oid exDiskPlan with
  | .ok (s, newHead) => postRebaseInMemory fe exDiskWorld s.rewritten newHead
  | .error _ => (exDiskWorld, .error ())

/-- The repository after the rebase of the example on disk. -/
def exDiskByGit (ee : ExecEnv) (fe : FinishEnv) : RepoWorld × Except SeqStop (ExtraResult × SeqState) :=
  gitRebaseContinue exSeq ee (fun _ => fe) none exDiskWorld.git.headInfo
    (writeRebaseStateToDisk (exDisk false) exDiskPlan exDiskWorld).1

/-- Non-vacuity of C81: the example meets all hypotheses, and the hook succeeds. -/
example :
    let fe := exDiskFinish true fun _ => false
    ∃ s newHead w1 wd w2 t,
      WFGraph exDiskBuilder.env.dag.graph ∧ exDiskBuilder.build = .ok (.ok (some exDiskPlan)) ∧
      NoCollisions exDiskExec ∧
      (∀ cmd ∈ exDiskPlan.commands, ∀ o ∈ mentions cmd, ∃ d, exDiskExec.commits o = some d) ∧
      GitPicks exSeq exDiskExec (Matters exDiskWorld.git exDiskPlan) ∧ ValidRefs exDiskWorld.git.refs ∧
      exDiskExec.rebaseInMemory exDiskWorld.git.headInfo.oid exDiskPlan = .ok (s, newHead) ∧
      postRebaseInMemory fe exDiskWorld s.rewritten newHead = (w1, .ok true) ∧
      (∀ o : Oid, w1.git.refs.get? (t!"refs/heads/" ++ o.toText) = none) ∧
      writeRebaseStateToDisk (exDisk false) exDiskPlan exDiskWorld = (wd, .ok (.ok ())) ∧
      gitRebaseContinue exSeq exDiskExec (fun _ => fe) none exDiskWorld.git.headInfo wd = (w2, .ok (.done true, t)) ∧
      (∀ o : Oid, w2.git.refs.get? (t!"refs/heads/" ++ o.toText) = none) ∧
      (exDiskExec.commits (oidN 2)).isSome ∧ IsBranch fe.move.mainBranch ∧
      (w1.git.refs.get? fe.move.mainBranch).isSome ∧ (∀ cr, FinishWorks exDiskExec cr fe) ∧
      w1.git.refs.get? t!"refs/heads/b" = some (oidN 7) ∧ w2.git.refs.get? t!"refs/heads/b" = some (oidN 8) ∧
      w1.git.refs.get? t!"refs/heads/a" = none ∧ w2.git.refs.get? t!"refs/heads/a" = none := by
  refine ⟨_, _, _, _, _, _, ?_, ?_, ?_, ?_, exDisk_picks, ?_, rfl, rfl, no_hex_branch ?_, rfl, rfl, no_hex_branch ?_,
    ?_, ⟨t!"main", rfl⟩, ?_, fun cr => ⟨fun _ _ => rfl, fun _ _ => ⟨rfl, rfl⟩, ⟨_, rfl⟩, rfl, rfl⟩, ?_, ?_, ?_, ?_⟩
  · show WFGraph (⟨[(oidN 3, [oidN 0]), (oidN 2, [oidN 1]), (oidN 1, [oidN 0]), (oidN 0, [])]⟩ : CommitGraph Oid)
    unfold WFGraph
    repeat (first | exact .nil | refine .cons (by decide) (by decide) ?_)
  · decide +kernel
  · exact exExec_noCollisions (by decide) (by decide)
  · have h : ∀ cmd ∈ exDiskPlan.commands, ∀ o ∈ mentions cmd, (exDiskExec.commits o).isSome := by decide +kernel
    exact fun cmd hc o ho => Option.isSome_iff_exists.1 (h cmd hc o ho)
  · exact validRefs_of (refs := exDiskRefs) (by unfold AMap.WF; decide +kernel) (by decide +kernel)
  all_goals decide +kernel

/-- C81 fails for where `HEAD` is attached: if the branch which was checked out is deleted, then after a rebase in
memory the only branch at the commit below is checked out instead; after one on disk, `HEAD` stays detached there. -/
theorem on_disk_head_detached :
    (exDiskInMemory (exDiskFinish true fun _ => false)).1.git.head = .symbolic t!"refs/heads/b" ∧
    (exDiskByGit exDiskExec (exDiskFinish true fun _ => false)).1.git.head = .detached (oidN 8) := by
  decide +kernel

/-- C81 fails for the committer: in memory it stays, on disk it is the user. -/
theorem on_disk_other_committer :
    ∃ o o' d d', (exDiskInMemory (exDiskFinish true fun _ => false)).1.git.refs.get? t!"refs/heads/b" = some o ∧
      (exDiskByGit exDiskExec (exDiskFinish true fun _ => false)).1.git.refs.get? t!"refs/heads/b" = some o' ∧
      exDiskExec.createCommit d = some o ∧ exDiskExec.createCommit d' = some o' ∧
      exDiskExec.commits (oidN 1) = some (exCommit [oidN 0] 11 1) ∧
      d.committer = (exCommit [oidN 0] 11 1).committer ∧ d'.committer = exSeq.user ∧ d.committer ≠ d'.committer :=
  ⟨oidN 7, oidN 8, exNew [oidN 3] 14 1, ⟨[oidN 3], 14, some t!"1", 1, 9, 200⟩, by decide +kernel⟩

/-- C81 fails for failures: if the branches cannot be moved, a rebase in memory is an error; one on disk has the exit
code 0, since git ignores the exit code of the hook. The branch `b` is still at the old commit, and `HEAD` is
detached. -/
theorem on_disk_failure_unnoticed :
    let fe := exDiskFinish true fun _ => true
    let r := rebaseOnDisk (onDiskEnv (exDisk false) exSeq exDiskExec (fun _ => fe) none exDiskWorld.git.headInfo)
      exDiskPlan exDiskWorld
    (exDiskInMemory fe).2 = .error () ∧ r.2 = .ok (.ok 0) ∧
      r.1.git.refs.get? t!"refs/heads/b" = some (oidN 1) ∧ r.1.git.head = .detached (oidN 8) := by
  decide +kernel

end Verif.Props

import Verif.Props.Hide
import Verif.Props.Sync
import Verif.Spec.Record
import Verif.Lemmas.Amend

/-! Lemmas about the command `record`. -/

namespace Verif.Spec

open Verif Verif.RebasePlanBuilder Verif.Constraints Verif.Props

/-! ### the hooks -/

/-- Whatever the hook reads, it only adds updates of references. -/
theorem runHookFor_adds_updates (fe : FinishEnv) {db : Db} {es : List Event} (hp : db.pending = none)
    (he : db.getEvents = some es) (updates : List (MaybeZero × MaybeZero × Text)) :
    ∃ new, (runHookFor fe db updates).getEvents = some (es ++ new) ∧
      (∀ e ∈ new, ∃ ts tx nm old nw m, e = .refUpdate ts tx nm old nw m) ∧
      (runHookFor fe db updates).pending = none := by
  unfold runHookFor hookReferenceTransaction
  obtain ⟨h1, h2⟩ := getEvents_makeTransactionId db (some fe.tx) t!"reference-transaction"
  rw [if_neg (by simp)]
  simp only
  have hnil : ∃ new, (db.makeTransactionId (some fe.tx) t!"reference-transaction").2.getEvents =
      some (es ++ new) ∧ (∀ e ∈ new, ∃ ts tx nm old nw m, e = .refUpdate ts tx nm old nw m) ∧
      (db.makeTransactionId (some fe.tx) t!"reference-transaction").2.pending = none :=
    ⟨[], by simp [h1, he], by simp, h2.trans hp⟩
  split
  · exact hnil
  · split
    · exact hnil
    · split
      · exact hnil
      · rename_i new hm
        have := add_events_appends _ es new (h2.trans hp) (h1.trans he)
        refine ⟨storable new, this.1, ?_, this.2⟩
        intro e hin
        have hin : e ∈ new := List.mem_of_mem_filter hin
        obtain ⟨l, hl⟩ := mem_of_mapM hm hin
        unfold eventOfLine at hl
        simp only [Option.bind_eq_bind, Option.pure_def, Option.bind_eq_some_iff, Option.some.injEq] at hl
        obtain ⟨_, _, _, _, rfl⟩ := hl
        exact ⟨_, _, _, _, _, _, rfl⟩

/-- The events and the statuses of the commits are as given, and no transaction is left open. -/
def Logged (db : Db) (status : Oid → Option Bool) : Prop :=
  db.pending = none ∧ ∃ es, db.getEvents = some es ∧ ∀ o, statusIn es o = status o

theorem Logged.runHookFor {db : Db} {status : Oid → Option Bool} (h : Logged db status) (fe : FinishEnv)
    (updates : List (MaybeZero × MaybeZero × Text)) : Logged (runHookFor fe db updates) status := by
  obtain ⟨hp, es, he, hs⟩ := h
  obtain ⟨new, h1, h2, h3⟩ := runHookFor_adds_updates fe hp he updates
  refine ⟨h3, _, h1, fun o => ?_⟩
  rw [statusIn_append, statusIn_none, Option.none_or, hs]
  intro e hin
  obtain ⟨_, _, _, _, _, _, rfl⟩ := h2 e hin
  rfl

theorem advance_headInfo (git : GitState) (new : Oid) : (git.advance new).headInfo.oid = some new := by
  unfold GitState.advance
  cases h : git.head with
  | missing => rfl
  | detached o => rfl
  | symbolic name =>
    show (AMap.insert git.refs name new).get? name = some new
    rw [AMap.get?_insert, if_pos rfl]

/-- What `git commit` does. -/
theorem gitCommit_spec {fe : FinishEnv} {w : RepoWorld} {new : Oid} {status : Oid → Option Bool}
    (hl : Logged w.db status) {n : Int} (hn : inIsize n) (htx : fe.tx = (TxId.id n).toText)
    (hrd : w.rebaseDir = none) (hmain : ((w.git.advance new).refs.get? fe.move.mainBranch).isSome)
    (hkeep : ∀ name, ((w.git.advance new).refs.get? name).isSome →
      pathConflict (keepAliveName new) name = false) :
    (gitCommit fe w new).git = ⟨(w.git.advance new).refs.insert (keepAliveName new) new,
      (w.git.advance new).head⟩ ∧
    Logged (gitCommit fe w new).db (fun o => if o = new then some true else status o) ∧
    (gitCommit fe w new).rebaseDir = none ∧ (gitCommit fe w new).deferred = w.deferred := by
  unfold gitCommit runPostCommitHook
  simp only [advance_headInfo]
  have hmk : markCommitReachable (fun _ => true) (w.git.advance new).refs new =
      .ok ((w.git.advance new).refs.insert (keepAliveName new) new) := by
    unfold markCommitReachable createReference
    rw [if_pos rfl, if_neg]
    simp only [List.any_eq_true, not_exists, not_and, Bool.not_eq_true]
    intro name hn
    exact hkeep name ((AMap.mem_keys_iff _ _).1 hn)
  rw [hmk]
  simp only
  have hl' := hl.runHookFor fe ((t!"HEAD" :: w.git.headInfo.referenceName.toList).map fun name =>
    (oidOrZero w.git.headInfo.oid, MaybeZero.nonZero new, name))
  obtain ⟨hp, es, he, hs⟩ := hl'
  rw [if_neg]
  · unfold hookPostCommit
    simp only [hrd, Option.isSome_none, Bool.false_eq_true, if_false]
    refine ⟨trivial, ?_, trivial, trivial⟩
    have htx' : ((Verif.runHookFor fe w.db ((t!"HEAD" :: w.git.headInfo.referenceName.toList).map fun name =>
        (oidOrZero w.git.headInfo.oid, MaybeZero.nonZero new, name))).makeTransactionId (some fe.tx)
          t!"post-commit").1 = .id n := by
      unfold Db.makeTransactionId
      rw [htx]
      simp [txId_text_roundtrip (.id n) (by rintro m ⟨⟩; exact hn)]
    obtain ⟨h1, h2⟩ := record_events _ (some fe.tx) t!"post-commit" n htx' hp es
      [.commit fe.now (.id n) new] he (by simp [Event.txId])
    rw [htx']
    refine ⟨h2, _, h1, fun o => ?_⟩
    beta_reduce
    rw [statusIn_append]
    by_cases ho : o = new
    · subst ho
      rw [if_pos rfl]
      simp [statusIn, lastEffect, effectOn]
    · rw [if_neg ho, statusIn_none, Option.none_or, hs]
      intro e hin
      simp only [List.mem_singleton] at hin
      subst hin
      simp [effectOn, Ne.symm ho]
  · simp only [Bool.or_eq_true, not_or, Bool.not_eq_true]
    refine ⟨?_, ?_⟩
    · rw [AMap.get?_insert]
      split
      · rfl
      · simpa using hmain
    · rw [he]; rfl

theorem gitCommit_wf {fe : FinishEnv} {w : RepoWorld} {new : Oid} (h : AMap.WF w.git.refs) :
    AMap.WF (gitCommit fe w new).git.refs := by
  have ha : AMap.WF (w.git.advance new).refs := by
    unfold GitState.advance
    split
    · exact AMap.wf_insert h _ _
    · exact h
  unfold gitCommit runPostCommitHook
  simp only
  split
  · exact ha
  · split
    · exact ha
    · rename_i refs hr
      have : AMap.WF refs := by
        unfold markCommitReachable createReference at hr
        rw [if_pos rfl] at hr
        split at hr
        · simp at hr
        · cases hr
          exact AMap.wf_insert ha _ _
      split <;> exact this

/-! ### branches -/

theorem keepAlive_branch {new : Oid} {name : Text} (h : IsBranch name) :
    pathConflict (keepAliveName new) name = false ∧ name ≠ keepAliveName new := by
  obtain ⟨t, rfl⟩ := h
  constructor
  · rw [Bool.eq_false_iff]
    intro h
    unfold pathConflict keepAliveName at h
    simp at h
  · intro h
    unfold keepAliveName at h
    simp at h

/-- A branch is created. -/
theorem createBranch_spec {env : RecordEnv} {fe : FinishEnv} {w : RepoWorld} {name : Text}
    {status : Oid → Option Bool} (hl : Logged w.db status) (hc : CanCreateBranch env w.git name)
    (hacc : ∀ name, IsBranch name → fe.move.refuses name = false)
    (hmain : (w.git.refs.get? fe.checkout.mainBranch).isSome) :
    ∃ w', createBranch env fe w name = (w', none) ∧ w'.git.head = .symbolic (t!"refs/heads/" ++ name) ∧
      (∀ b, w'.git.refs.get? b = if t!"refs/heads/" ++ name = b then w.git.headInfo.oid
        else w.git.refs.get? b) ∧
      Logged w'.db status ∧ w'.rebaseDir = w.rebaseDir ∧ w'.deferred = w.deferred ∧
      (AMap.WF w.git.refs → AMap.WF w'.git.refs) := by
  have hfree : w.git.refs.get? (t!"refs/heads/" ++ name) = none := by
    cases h : w.git.refs.get? (t!"refs/heads/" ++ name) with
    | none => rfl
    | some o => exact absurd rfl (hc.free _ (by rw [h]; rfl)).1
  unfold createBranch
  simp only
  rw [if_neg (by rw [Option.isNone_eq_false_iff.2 hmain]; simp), if_neg]
  · cases ho : w.git.headInfo.oid with
    | none =>
      refine ⟨_, rfl, rfl, fun b => ?_, hl, rfl, rfl, fun h => h⟩
      split
      · rename_i e; rw [← e]; exact hfree
      · rfl
    | some o =>
      have : createReference w.git.refs (t!"refs/heads/" ++ name) o =
          .ok (w.git.refs.insert (t!"refs/heads/" ++ name) o) := by
        unfold createReference
        rw [if_neg]
        simp only [List.any_eq_true, not_exists, not_and, Bool.not_eq_true]
        intro b hb
        exact (hc.free b ((AMap.mem_keys_iff _ _).1 hb)).2
      simp only
      rw [this]
      refine ⟨_, rfl, rfl, fun b => ?_, hl.runHookFor _ _, rfl, rfl, fun h => AMap.wf_insert h _ _⟩
      exact AMap.get?_insert ..
  · rw [hc.valid, hfree, hacc _ ⟨name, rfl⟩]
    simp

/-- The branch which is checked out goes back to the parent. -/
theorem detachBranch_spec {commits : Oid → Option CommitData} {fe : FinishEnv} {w : RepoWorld}
    {status : Oid → Option Bool} (hl : Logged w.db status) {name : Text} (hb : IsBranch name) {new h : Oid}
    (hhead : w.git.head = .symbolic name) (hnew : w.git.refs.get? name = some new) {d : CommitData}
    (hd : commits new = some d) (hp : d.parents = [h]) (hacc : fe.move.refuses name = false)
    (hpath : ∀ b, (w.git.refs.get? b).isSome → pathConflict name b = false) :
    ∃ w', detachBranch commits fe w = (w', none) ∧ w'.git = ⟨w.git.refs.insert name h, .detached new⟩ ∧
      Logged w'.db status ∧ w'.rebaseDir = w.rebaseDir ∧ w'.deferred = w.deferred := by
  have hi : w.git.headInfo = ⟨some new, some name⟩ := by
    unfold GitState.headInfo
    rw [hhead]
    simp only
    rw [hnew]
  have hsuf := branch_suffix hb
  unfold detachBranch gitBranchForce
  rw [hi]
  simp only [hd, hp, hsuf, hacc, Bool.false_eq_true, if_false]
  have : createReference (w.git.detachHead ⟨some new, some name⟩).refs name h =
      .ok (w.git.refs.insert name h) := by
    unfold createReference
    rw [if_neg]
    · rfl
    · simp only [List.any_eq_true, not_exists, not_and, Bool.not_eq_true]
      intro b hb
      exact hpath b ((AMap.mem_keys_iff _ _).1 hb)
  rw [this]
  exact ⟨_, rfl, rfl, hl.runHookFor _ _, rfl, rfl⟩

/-- A branch is checked out. -/
theorem checkOut_branch {env : CheckoutEnv} {g : GitState} {name : Text} (hb : IsBranch name)
    (hsome : (g.refs.get? name).isSome) (hw : env.works = true)
    (hmain : (g.refs.get? env.mainBranch).isSome) :
    checkOutCommit env g (.reference name) = .ok ({ g with head := .symbolic name }, true) := by
  obtain ⟨m, hm⟩ := Option.isSome_iff_exists.1 hmain
  obtain ⟨o, ho⟩ := Option.isSome_iff_exists.1 hsome
  have hsuf := branch_suffix hb
  have hg : gitCheckout env g (categorize name).renderSuffix = some { g with head := .symbolic name } := by
    unfold gitCheckout
    rw [hsuf, ho, hw]
    rfl
  unfold checkOutCommit
  simp only
  by_cases ha : env.autoSwitch = true
  · rw [if_pos ha]
    have : maybeGetBranchName env g (categorize name).renderSuffix none =
        .ok (categorize name).renderSuffix := by
      unfold maybeGetBranchName
      rw [hm]
      simp only
      split <;> rfl
    rw [this]
    simp only
    rw [hg]
  · rw [if_neg ha]
    simp only
    rw [hg]

end Verif.Spec

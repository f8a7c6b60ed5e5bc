import Mathlib.Tactic.IntervalCases
import Verif.Props.UndoCommand

/-! C93: when `git undo` succeeds, when it does not, and what the whole command does. -/

namespace Verif.Props

open Verif Verif.Spec

/-! ### ways to end -/

theorem undoApply_end (env : UndoEnv) (tx : TxId) (w : RepoWorld) (inverse : List Event) :
    (undoApply env tx w inverse).1 = .error ∨ (undoApply env tx w inverse).1 = .gitFailed ∨
      (undoApply env tx w inverse).1 = .done inverse.length := by
  rw [undoApply_eq]
  simp only
  split
  · exact .inl rfl
  · split
    · exact .inr (.inr rfl)
    · split
      · rename_i he
        rcases checkOutUndone_error he with h | h
        · exact .inl h
        · exact .inr (.inl h)
      · exact .inr (.inr rfl)

/-- C93: there is nothing to do exactly if there are no events, other than that `HEAD` began to exist; otherwise it
is aborted exactly if the user does not agree. Then nothing changes, except that a number for the transaction was
taken. It never panics. -/
theorem undo_ends (env : UndoEnv) (w : RepoWorld) (r : Replayer) {c : Nat} (skip : Bool)
    (hin : c ≤ r.events.length) (hidle : w.db.pending = none) :
    (undoTo env w r ⟨c⟩ skip).1 ≠ .panic ∧ (undoTo env w r ⟨c⟩ skip).1 ≠ .left ∧
    ((undoTo env w r ⟨c⟩ skip).1 = .nothingToDo ↔ ∀ e ∈ r.events.drop c, FirstHead e) ∧
    ((undoTo env w r ⟨c⟩ skip).1 = .aborted ↔
      (¬ ∀ e ∈ r.events.drop c, FirstHead e) ∧ ¬ (skip = true ∨ SaysYes env.answer)) ∧
    ((undoTo env w r ⟨c⟩ skip).1 = .nothingToDo ∨ (undoTo env w r ⟨c⟩ skip).1 = .aborted →
      (undoTo env w r ⟨c⟩ skip).2.git = w.git ∧
      (undoTo env w r ⟨c⟩ skip).2.db.getEvents = w.db.getEvents) := by
  rw [undoTo_eq env w r hin]
  simp only
  have hid := makeTransactionId_idle hidle env.txVar t!"undo"
  have hemp := inverse_empty (r.events.drop c) env.now (w.db.makeTransactionId env.txVar t!"undo").1
  have hconf : ((!(skip || confirms env.answer)) = true) ↔ ¬ (skip = true ∨ SaysYes env.answer) := by
    rw [← confirms_iff]
    cases skip <;> cases confirms env.answer <;> simp
  by_cases h1 : ∀ e ∈ r.events.drop c, FirstHead e
  · rw [if_pos (hemp.2 h1)]
    exact ⟨nofun, nofun, ⟨fun _ => h1, fun _ => rfl⟩, ⟨nofun, fun h => absurd h1 h.1⟩, fun _ => ⟨rfl, hid.2⟩⟩
  · rw [if_neg (mt hemp.1 h1)]
    by_cases h2 : skip = true ∨ SaysYes env.answer
    · rw [if_neg (mt hconf.1 (not_not.2 h2))]
      have hend := undoApply_end env (w.db.makeTransactionId env.txVar t!"undo").1
        { w with db := (w.db.makeTransactionId env.txVar t!"undo").2 }
        (inverseEvents (r.events.drop c) env.now (w.db.makeTransactionId env.txVar t!"undo").1)
      generalize undoApply env (w.db.makeTransactionId env.txVar t!"undo").1
        { w with db := (w.db.makeTransactionId env.txVar t!"undo").2 }
        (inverseEvents (r.events.drop c) env.now (w.db.makeTransactionId env.txVar t!"undo").1) = p at hend ⊢
      rcases hend with h | h | h <;> rw [h] <;>
        exact ⟨nofun, nofun, ⟨nofun, fun h => absurd h h1⟩, ⟨nofun, fun h => absurd h2 h.2⟩, by rintro (h | h) <;> cases h⟩
    · rw [if_pos (hconf.2 h2)]
      exact ⟨nofun, nofun, ⟨nofun, fun h => absurd h h1⟩, ⟨fun _ => ⟨h1, h2⟩, fun _ => rfl⟩, fun _ => ⟨rfl, hid.2⟩⟩

open Classical in
/-- C93: the number of events which is reported. -/
theorem undo_count {env : UndoEnv} {w w' : RepoWorld} {r : Replayer} {c n : Nat} {skip : Bool}
    (hin : c ≤ r.events.length) (h : undoTo env w r ⟨c⟩ skip = (.done n, w')) :
    n = (r.events.drop c).countP fun e => ¬ FirstHead e := by
  have hlen : ∀ (es : List Event) (now : Timestamp) (tx : TxId),
      (inverseEvents es now tx).length = es.countP fun e => ¬ FirstHead e := by
    intro es now tx
    induction es with
    | nil => rfl
    | cons e es ih =>
      rw [inverseEvents_cons, List.length_append, ih, List.countP_cons]
      have h1 := inverse_empty [e] now tx
      rw [inverseEvents_cons] at h1
      cases hi : isInitialHeadUpdate e with
      | true =>
        have : FirstHead e := by simpa [hi, inverseEvents] using h1
        simp [this]
      | false =>
        have : ¬ FirstHead e := by simpa [hi, inverseEvents] using h1
        simp [this]
  rw [undoTo_eq env w r hin] at h
  simp only at h
  split at h
  · cases h
  split at h
  · cases h
  rw [← hlen _ env.now (w.db.makeTransactionId env.txVar t!"undo").1]
  rcases undoApply_end env (w.db.makeTransactionId env.txVar t!"undo").1
        { w with db := (w.db.makeTransactionId env.txVar t!"undo").2 }
        (inverseEvents (r.events.drop c) env.now (w.db.makeTransactionId env.txVar t!"undo").1) with h' | h' | h' <;>
    rw [h] at h' <;> cases h'
  rfl

/-! ### succeeding -/

/-- Git knows the text as the commit. -/
def KnownAs (env : GitCheckoutEnv) (g : GitState) (t : Text) (o : Oid) : Prop :=
  ¬ t!"-" <+: t ∧ (g.refs.get? (t!"refs/heads/" ++ t) = some o ∨
    (g.refs.get? (t!"refs/heads/" ++ t) = none ∧ env.revision g t = some o))

theorem resolve_known {env : GitCheckoutEnv} {g : GitState} {t : Text} {o : Oid} (h : KnownAs env g t o) :
    ∃ b, checkoutResolve env g (some t) = some (b, some o) := by
  have hd : t ≠ t!"-" := by
    rintro rfl
    exact h.1 List.prefix_rfl
  unfold checkoutResolve
  simp only
  rw [if_neg hd]
  simp only
  rcases h.2 with h2 | ⟨h2, h3⟩
  · rw [h2]; exact ⟨_, rfl⟩
  · rw [h2]; simp only; rw [h3]; exact ⟨_, rfl⟩

theorem detach_works {env : GitCheckoutEnv} {g : GitState} {t : Text} {o : Oid} (h : KnownAs env g t o)
    (hw : ∀ o f m, env.works o f m = true) :
    gitCheckoutRun env g [t, t!"--detach"] = some { g with head := .detached o } := by
  obtain ⟨b, hb⟩ := resolve_known h
  unfold gitCheckoutRun
  rw [(read_undo h.1).2.1]
  simp only [Option.isSome_none, Bool.false_and, Bool.or_false, Bool.false_eq_true, if_false, hb, hw, Bool.not_true,
    if_true]

theorem plain_works {env : GitCheckoutEnv} {g : GitState} {t : Text} {o : Oid} (h : KnownAs env g t o)
    (hw : ∀ o f m, env.works o f m = true) : ∃ g', gitCheckoutRun env g [t] = some g' := by
  obtain ⟨b, hb⟩ := resolve_known h
  unfold gitCheckoutRun
  rw [(read_undo h.1).1]
  simp only [Option.isSome_none, Bool.false_and, Bool.or_false, Bool.false_eq_true, if_false, hb, hw, Bool.not_true]
  cases b <;> exact ⟨_, rfl⟩

theorem reset_works {env : GitCheckoutEnv} {g : GitState} {t b : Text} {o : Oid} {refs : Refs} (h : KnownAs env g t o)
    (hw : ∀ o f m, env.works o f m = true) (hv : env.validName b = true)
    (hr : createReference g.refs (t!"refs/heads/" ++ b) o = .ok refs) :
    gitCheckoutRun env g [t, t!"-B", b] = some ⟨refs, .symbolic (t!"refs/heads/" ++ b)⟩ := by
  obtain ⟨x, hx⟩ := resolve_known h
  unfold gitCheckoutRun
  rw [(read_undo h.1).2.2]
  simp only [Option.isSome_none, Bool.false_and, Bool.or_false, Bool.false_eq_true, if_false, hx, hw, Bool.not_true,
    hv, Bool.and_false]
  rw [hr]

theorem oid_known {env : GitCheckoutEnv} {g : GitState} (hc : ClearNames env g.refs.get?) {o : Oid}
    (h : env.revision g o.toText = some o) : KnownAs env g o.toText o := ⟨dash_oid o, .inr ⟨hc.hex o, h⟩⟩

theorem checkOutAny_known {env : AnyCheckoutEnv} {g : GitState} (hw : AMap.WF g.refs)
    (hc : ClearNames env.git g.refs.get?) {o : Oid} (hk : env.git.revision g o.toText = some o)
    (hm : env.autoSwitch = true → g.refs.get? env.mainBranch ≠ none) (extra : List Text) :
    ∃ t, KnownAs env.git g t o ∧ StandsFor env.git g t o ∧
      checkOutAny env g (some (.oid o)) extra = .ok (runCheckout env.git g (t :: extra)) := by
  unfold checkOutAny
  simp only
  cases ha : env.autoSwitch with
  | false =>
    exact ⟨_, oid_known hc hk, oid_stands hc o, rfl⟩
  | true =>
    rw [if_pos rfl]
    rcases branchNameFor_cases hw (env := env) (Option.isSome_iff_ne_none.2 (hm ha)) (some o.toText) (some o) with
        ⟨o', b, h1, h2, ⟨h3, -⟩ | ⟨-, h4, -⟩⟩ | ⟨h1, -⟩
    · cases h3
    · cases h4
      rw [h2]
      have hs := branch_stands hc h1.1
      exact ⟨b, ⟨hs.1, .inl h1.1⟩, hs, rfl⟩
    · rw [h1]
      exact ⟨_, oid_known hc hk, oid_stands hc o, rfl⟩

/-- An existing reference can be moved. -/
theorem create_works {refs : Refs} {s : RefState} (hr : ∀ n, refs.get? n = s n) (hw : AMap.WF refs) (hp : PathOk s)
    {name : Text} (hn : s name ≠ none) (o : Oid) : createReference refs name o = .ok (refs.insert name o) := by
  unfold createReference
  rw [if_neg]
  rw [List.any_eq_true]
  rintro ⟨k, hk, hconf⟩
  have hk' : s k ≠ none := by
    rw [← hr]
    exact Option.isSome_iff_ne_none.1 ((AMap.mem_keys_iff refs k).1 hk)
  rw [hp name k hn hk'] at hconf
  cases hconf

theorem clear_after {env : GitCheckoutEnv} {g : GitState} {s : RefState} {b : Text} {o : Oid}
    (hc : ClearNames env s) (hs : s (t!"refs/heads/" ++ b) ≠ none)
    (h7 : ∀ k, g.refs.get? k = if t!"refs/heads/" ++ b = k then some o else s k) : ClearNames env g.refs.get? := by
  refine ⟨fun o => ?_, fun x hx => ?_, hc.oids⟩
  · rw [h7, if_neg, hc.hex o]
    intro he
    rw [he, hc.hex o] at hs
    exact hs rfl
  · by_cases he : t!"refs/heads/" ++ b = t!"refs/heads/" ++ x
    · rw [he] at hs
      exact hc.dash x hs
    · rw [h7, if_neg he] at hx
      exact hc.dash x hx

theorem restoreSnapshot_works {env : UndoEnv} {tx : TxId} {w : RepoWorld} {s : RefState} {st : StoredSnapshot} {h : Oid}
    (hu : UndoWorks env s) (hc : ClearNames env.checkout.git w.git.refs.get?) (hh : st.head = some h)
    (hn : ∀ name, st.reference = some name → t!"refs/" <+: name ∧
      ∃ refs, createReference w.git.refs name h = .ok refs) :
    ∃ w', restoreSnapshot env tx w st = .ok w' := by
  obtain ⟨g, hg⟩ := plain_works (oid_known hc (hu.knows w.git st.unstaged)) hu.works
  have hgo := run_oid hc hg
  subst hgo
  unfold restoreSnapshot
  simp only [hu.resets, Bool.not_true, Bool.false_eq_true, if_false, hg, hh]
  have hr : ∀ g : GitState, ∀ x, g.head = .detached x → gitResetTo env g h = some { g with head := .detached h } := by
    intro g x hx
    unfold gitResetTo
    simp only [hu.resets, Bool.not_true, Bool.false_eq_true, if_false, hx]
  have hb : ∀ w1 : RepoWorld, w1.git.refs = w.git.refs → ∃ w', restoreBranch env tx w1 st = .ok w' := by
    intro w1 hw1
    unfold restoreBranch
    cases hs : st.reference with
    | none => exact ⟨_, rfl⟩
    | some name =>
      obtain ⟨h1, refs, h2⟩ := hn name hs
      simp only [hh, gitUpdateRef, hw1, h2, gitSymbolicRef]
      rw [if_pos h1]
      exact ⟨_, rfl⟩
  rw [hr _ st.unstaged rfl]
  simp only [hu.index, Bool.not_true, Bool.false_eq_true, if_false]
  exact hb _ rfl

theorem checkOutUndone_works {env : UndoEnv} {tx : TxId} {w : RepoWorld} {t : UndoCheckout} {s : RefState}
    {es : List Event} {now : Timestamp} {tx' : TxId} {former : Head}
    (hw : AMap.WF w.git.refs) (hr : RefsAre w.git s) (hp : PathOk s) (hc : ClearNames env.checkout.git s)
    (hu : UndoWorks env s)
    (hf : HeadWas env.loadSnapshot s es former) (hb : ∀ name, former = .symbolic name → s name ≠ none)
    (ht : (extractCheckoutTarget (inverseEvents es now tx')).1 = some t) :
    ∃ w', checkOutUndone env tx w t = .ok w' := by
  have hc' := clear_of_refs hr hc
  have hrec : ∃ w1 : RepoWorld, (if env.createSnapshots then recordSnapshot env tx w else .ok w) = .ok w1 ∧ w1.git = w.git := by
    cases hs : env.createSnapshots with
    | false => exact ⟨w, rfl, rfl⟩
    | true =>
      obtain ⟨o, ho⟩ := hu.snapshots hs w.git
      rw [if_pos rfl]
      unfold recordSnapshot
      rw [ho]
      exact ⟨_, rfl, rfl⟩
  obtain ⟨w1, h1, h2⟩ := hrec
  obtain ⟨text, h3, h4, h5⟩ := checkOutAny_known hw hc' (hu.knows w.git t.target)
    (fun ha => by rw [hr]; exact hu.main ha) t.args
  have hrun : ∀ g, gitCheckoutRun env.checkout.git w.git (text :: t.args) = some g →
      (∃ w', restoreIfSnapshot env tx (ranGit env tx w1 (t!"checkout" :: text :: t.args) g) = .ok w') →
      ∃ w', checkOutUndone env tx w t = .ok w' := by
    rintro g hg ⟨w', hw'⟩
    unfold checkOutUndone
    rw [h1]
    simp only
    rw [h2, h5]
    have : runCheckout env.checkout.git w.git (text :: t.args) = ⟨g, t!"checkout" :: text :: t.args, true⟩ := by
      unfold runCheckout
      rw [hg]
    simp only [this, Bool.not_true, Bool.false_eq_true, if_false, hw', hu.smartlog, if_true]
    exact ⟨_, rfl⟩
  cases hf with
  | @moved pre post ts tx2 o new m hpre hl =>
    rw [(target_first hpre _ now tx').1] at ht
    cases ht
    refine hrun _ (detach_works h3 hu.works) ?_
    unfold restoreIfSnapshot
    have hh : ∀ ran, (ranGit env tx w1 ran { w.git with head := .detached o }).git.headInfo.oid = some o :=
      fun _ => rfl
    rw [hh]
    simp only [hl]
    exact ⟨_, rfl⟩
  | @detached pre post ts tx2 oid h u hpre hl =>
    rw [(target_first hpre _ now tx').2.1] at ht
    cases ht
    obtain ⟨g, hg⟩ := plain_works h3 hu.works
    refine hrun g hg ?_
    obtain ⟨h6, h7, -⟩ := run_plain h4 hg
    unfold restoreIfSnapshot
    have hh : ∀ ran, (ranGit env tx w1 ran g).git.headInfo.oid = some oid := fun _ => h7
    rw [hh]
    simp only [hl]
    refine restoreSnapshot_works hu ?_ rfl (fun _ => nofun)
    show ClearNames env.checkout.git g.refs.get?
    rw [h6]
    exact hc'
  | @branch pre post ts tx2 oid h b u hpre hl hs =>
    rw [(target_first hpre _ now tx').2.2] at ht
    cases ht
    have hs' : s (t!"refs/heads/" ++ b) ≠ none := by rw [hs]; nofun
    have hcr := create_works (fun n => hr n) hw hp hs' oid
    refine hrun _ (reset_works h3 hu.works (hu.names b hs') hcr) ?_
    unfold restoreIfSnapshot
    have hh : ∀ ran, (ranGit env tx w1 ran ⟨w.git.refs.insert (t!"refs/heads/" ++ b) oid,
        .symbolic (t!"refs/heads/" ++ b)⟩).git.headInfo.oid = some oid := by
      intro ran
      show (GitState.headInfo ⟨w.git.refs.insert (t!"refs/heads/" ++ b) oid, .symbolic (t!"refs/heads/" ++ b)⟩).oid = _
      unfold GitState.headInfo
      simp only
      rw [AMap.get?_insert, if_pos rfl]
    rw [hh]
    simp only [hl]
    have h7 : ∀ k, AMap.get? (w.git.refs.insert (t!"refs/heads/" ++ b) oid) k =
        if t!"refs/heads/" ++ b = k then some oid else s k := by
      intro k
      rw [AMap.get?_insert, hr]
    refine restoreSnapshot_works hu (h := h) (clear_after hc hs' (g := ⟨_, .symbolic (t!"refs/heads/" ++ b)⟩) h7) rfl ?_
    intro name hname
    cases hname
    refine ⟨⟨t!"heads/" ++ b, rfl⟩, (w.git.refs.insert (t!"refs/heads/" ++ b) oid).insert (t!"refs/heads/" ++ b) h, ?_⟩
    refine create_works (s := fun k => if t!"refs/heads/" ++ b = k then some oid else s k) h7
      (AMap.wf_insert hw _ _) ?_ (by simp) h
    intro x y hx hy
    refine hp x y ?_ ?_
    · by_cases he : t!"refs/heads/" ++ b = x
      · rw [← he]; exact hs'
      · simp only [if_neg he] at hx
        exact hx
    · by_cases he : t!"refs/heads/" ++ b = y
      · rw [← he]; exact hs'
      · simp only [if_neg he] at hy
        exact hy
  | @unborn pre post ts tx2 oid b u hpre hl hs =>
    exact absurd hs (hb _ rfl)

/-- C93: undoing works if everything outside works, and if the events tell where `HEAD` was in a state with a commit, or
do not tell it at all. -/
theorem undo_succeeds {env : UndoEnv} {w : RepoWorld} {r : Replayer} {mb : Text} {raw : List Event} {c : Nat}
    {s : RefState} {skip : Bool} (hs : UndoSetting w r mb raw c s) (hc : ClearNames env.checkout.git s)
    (hu : UndoWorks env s) (hn : ¬ ∀ e ∈ r.events.drop c, FirstHead e) (hyes : skip = true ∨ SaysYes env.answer)
    (hh : (∀ e ∈ r.events.drop c, ¬ TellsPastHead e) ∨
      ∃ former, HeadWas env.loadSnapshot s (r.events.drop c) former ∧ ∀ name, former = .symbolic name → s name ≠ none) :
    ∃ n w', undoTo env w r ⟨c⟩ skip = (.done n, w') := by
  obtain ⟨tx, w1, -, h1, h2, -, -, -, -, h4⟩ := undoTo_run hs hn hyes
  rw [h4]
  rcases hh with hh | ⟨former, hf, hb⟩
  · rw [target_none hh]
    exact ⟨_, _, rfl⟩
  · cases ht : (extractCheckoutTarget (inverseEvents (r.events.drop c) env.now tx)).1 with
    | none => exact absurd ht (target_of_was hf _ _)
    | some t =>
      obtain ⟨w', hw'⟩ := checkOutUndone_works h1 h2 hs.possible hc hu hf hb ht (tx := tx)
      simp only [hw']
      exact ⟨_, _, rfl⟩

/-! ### not succeeding -/

/-- C93: with automatic switching to branches, undoing back to a state without the main branch fails after the
references were changed. -/
theorem undo_without_main_fails {env : UndoEnv} {w : RepoWorld} {r : Replayer} {mb : Text} {raw : List Event} {c : Nat}
    {s : RefState} {skip : Bool} (hs : UndoSetting w r mb raw c s)
    (hyes : skip = true ∨ SaysYes env.answer) {former : Head}
    (hf : HeadWas env.loadSnapshot s (r.events.drop c) former)
    (ha : env.checkout.autoSwitch = true) (hm : s env.checkout.mainBranch = none) :
    (undoTo env w r ⟨c⟩ skip).1 = .error ∧ RefsAre (undoTo env w r ⟨c⟩ skip).2.git s ∧
    (undoTo env w r ⟨c⟩ skip).2.git.head = (w.git.detachHead w.git.headInfo).head := by
  have hn : ¬ ∀ e ∈ r.events.drop c, FirstHead e := by
    intro h
    have := target_of_was hf env.now (.id 0)
    rw [List.isEmpty_iff.1 ((inverse_empty _ env.now (.id 0)).2 h)] at this
    exact this rfl
  obtain ⟨tx, w1, -, h1, h2, -, -, -, h3, h4⟩ := undoTo_run hs hn hyes
  rw [h4]
  cases ht : (extractCheckoutTarget (inverseEvents (r.events.drop c) env.now tx)).1 with
  | none => exact absurd ht (target_of_was hf _ _)
  | some t =>
    rw [ht, Option.isSome_some, if_pos rfl] at h3
    simp only
    have hrec : ∀ w2, (if env.createSnapshots then recordSnapshot env tx w1 else .ok w1) = .ok w2 → w2.git = w1.git := by
      intro w2 h
      split at h
      · unfold recordSnapshot at h
        split at h
        · cases h
        · cases h; rfl
      · cases h; rfl
    have hfail : ∃ w2, checkOutUndone env tx w1 t = .error (.error, w2) ∧ w2.git = w1.git := by
      unfold checkOutUndone
      cases hr : (if env.createSnapshots then recordSnapshot env tx w1 else .ok w1) with
      | error e =>
        have : e = (.error, w1) := by
          split at hr
          · unfold recordSnapshot at hr
            split at hr
            · cases hr; rfl
            · cases hr
          · cases hr
        subst this
        exact ⟨_, rfl, rfl⟩
      | ok w2 =>
        have h5 := hrec w2 hr
        have h6 : checkOutAny env.checkout w2.git (some (.oid t.target)) t.args = .error () := by
          unfold checkOutAny
          simp only
          rw [ha, if_pos rfl]
          unfold branchNameFor
          rw [h5, h2, hm]
        simp only [h6]
        exact ⟨_, rfl, h5⟩
    obtain ⟨w2, h5, h6⟩ := hfail
    rw [h5]
    refine ⟨rfl, ?_, ?_⟩
    · show RefsAre w2.git s
      rw [h6]; exact h2
    · show w2.git.head = _
      rw [h6, h3]

/-! ### what is not undone -/

/-- C93: if only references other than `HEAD` were changed then undoing leaves no trace in the log. -/
theorem undo_refs_untraced {env : UndoEnv} {w w' : RepoWorld} {r : Replayer} {mb : Text} {raw : List Event} {c n : Nat}
    {s : RefState} {skip : Bool} (hs : UndoSetting w r mb raw c s) (hc : ClearNames env.checkout.git s)
    (hv : env.txVar = none) (h : undoTo env w r ⟨c⟩ skip = (.done n, w'))
    (hno : ∀ e ∈ r.events.drop c, ¬ TellsPastHead e ∧ AboutCommits e = false) :
    w'.db.getEvents = some raw := by
  obtain ⟨k, new, rest, h1, h2, h3⟩ := undo_done_log hs hc hv h
  rw [h3 fun e he => (hno e he).1] at h2
  have : (r.events.drop c).reverse.filter AboutCommits = [] := by
    rw [List.filter_eq_nil_iff]
    intro e he
    rw [(hno e (by simpa using he)).2]
    nofun
  unfold TakesBack at h1
  rw [this] at h1
  cases h1
  simpa using h2

/-- C93: the snapshot which undo takes does not remember the branch which was checked out. -/
theorem undo_snapshot_forgets_branch {env : UndoEnv} {w w' : RepoWorld} {r : Replayer} {mb : Text} {raw : List Event}
    {c n : Nat} {s : RefState} {skip : Bool} (hs : UndoSetting w r mb raw c s) (hc : ClearNames env.checkout.git s)
    (hv : env.txVar = none) (hcs : env.createSnapshots = true) {name : Text} {o : Oid}
    (hhead : w.git.head = .symbolic name) (ho : w.git.refs.get? name = some o)
    {former : Head} (hf : HeadWas env.loadSnapshot s (r.events.drop c) former)
    (h : undoTo env w r ⟨c⟩ skip = (.done n, w')) :
    ∃ (k : Int) (new rest : List Event) (oid : Oid),
      w'.db.getEvents = some (raw ++ new ++ .snapshot env.now (.id k) (.nonZero o) oid none :: rest) := by
  obtain ⟨hn, hyes⟩ := done_asked hs.inside h
  obtain ⟨tx, w1, h0, h1, h2, h3, -, h5, hh, h4⟩ := undoTo_run hs hn hyes
  obtain ⟨k, rfl⟩ := h0 hv
  obtain ⟨new, h6, h7⟩ := h5 hv
  rw [h] at h4
  cases ht : (extractCheckoutTarget (inverseEvents (r.events.drop c) env.now (.id k))).1 with
  | none => exact absurd ht (target_of_was hf _ _)
  | some t =>
    rw [ht, Option.isSome_some, if_pos rfl] at hh
    have hh' : w1.git.head = .detached o := by
      rw [hh]
      unfold GitState.detachHead GitState.headInfo
      rw [hhead]
      simp only [ho]
    rw [ht] at h4
    simp only at h4
    split at h4
    · rename_i e he
      rcases checkOutUndone_error he with h' | h' <;> rw [← h4] at h' <;> cases h'
    · rename_i w3 hw3
      cases h4
      obtain ⟨w2, text, g, ran, -, -, -, -, h8, h9⟩ := checkOutUndone_ok h1 h2 hc hw3
      rw [if_pos hcs] at h9
      unfold recordSnapshot at h9
      split at h9
      · cases h9
      · rename_i oid hoid
        cases h9
        have hi : w1.git.headInfo = ⟨some o, none⟩ := by
          unfold GitState.headInfo
          rw [hh']
        rw [hi] at h8
        obtain ⟨h10, h11⟩ := add_events_appends w1.db (raw ++ new)
          [.snapshot env.now (.id k) (MaybeZero.ofOption (some o)) oid none] h3 h7
        have hst : storable [Event.snapshot env.now (.id k) (MaybeZero.ofOption (some o)) oid none] =
            [.snapshot env.now (.id k) (.nonZero o) oid none] := by
          simp [storable, Event.txId, MaybeZero.ofOption]
        rw [hst] at h10
        have hg := restoreIfSnapshot_grows h8
        obtain ⟨rest, hrest⟩ := ((LogGrows.add _ _).trans hg _ h11 h10).2
        exact ⟨k, new, rest, oid, by rw [hrest]; simp⟩

/-! ### the command -/

/-- C93: without choosing, it is the last transaction which is undone. -/
theorem cursor_not_interactive (env : UndoEnv) (r : Replayer) :
    ∃ c : Nat, undoCursor env r false = .ok ⟨c⟩ ∧ c ≤ r.events.length ∧
      (r.events ≠ [] → LastTransaction r.events c) := by
  obtain ⟨j, h1, h2, h3, -, h4⟩ := step_cursor r (le_refl r.events.length) (-1)
  refine ⟨j, ?_, h2, fun hne => ?_⟩
  · unfold undoCursor
    rw [default_cursor_eq, length_txs]
    simp only [Bool.false_eq_true, if_false]
    rw [h1]
  · have hpos : 0 < r.events.length := List.length_pos_iff.2 hne
    have hr0 : 0 < txsStartedBefore (r.events.map Event.txId) r.events.length := by
      have := Replayer.rank_lt (r.events.map Event.txId) (i := 0) (j := r.events.length) hpos (.inl rfl)
      omega
    have h4 := h4 rfl
    have hlt : j < r.events.length := by
      rcases Nat.lt_or_ge j r.events.length with h | h
      · exact h
      · have : j = r.events.length := by omega
        rw [this] at h4
        omega
    have hsame : ∀ i, j ≤ i → i < r.events.length →
        (r.events.map Event.txId)[i]? = (r.events.map Event.txId)[j]? := by
      intro i hi
      induction i, hi using Nat.le_induction with
      | base => intro _; rfl
      | succ i hi ih =>
        intro hl
        rw [← ih (by omega)]
        by_contra hb
        have hb' : IsBoundary (r.events.map Event.txId) (i + 1) := .inr (.inr (by simpa using Ne.symm hb))
        have a1 := Replayer.rank_lt _ (show j < i + 1 by omega) h3
        have a2 := Replayer.rank_lt _ hl hb'
        omega
    have hof : ∀ b ∈ r.events.drop j, some b.txId = (r.events.map Event.txId)[j]? := by
      intro b hb
      obtain ⟨i, hi, rfl⟩ := List.mem_iff_getElem.1 hb
      rw [List.length_drop] at hi
      rw [← hsame (j + i) (by omega) (by omega)]
      simp
      rw [List.getElem?_eq_getElem (by omega)]
      exact ⟨_, rfl, rfl⟩
    refine ⟨hlt, fun a ha b hb => ?_, ?_⟩
    · have := (hof a ha).trans (hof b hb).symm
      exact Option.some.inj this
    · intro pre a post he hp b hb hab
      rcases h3 with h | h | h
      · omega
      · rw [length_txs] at h; omega
      · apply h
        rw [← hof b hb, ← hab, he, ← hp]
        simp

/-- How the position was chosen: by the messages before the first `enter`, or it is before the last transaction. -/
def ChosenPast (env : UndoEnv) (es : List Event) (interactive : Bool) (c : Nat) : Prop :=
  c ≤ es.length ∧
  if interactive then
    ∃ ms post, env.messages = ms ++ .select :: post ∧ (∀ m ∈ ms, ¬ EndsSelection m) ∧
      CursorAfter (es.map Event.txId) ms c
  else es ≠ [] → LastTransaction es c

theorem undoCursor_sound {env : UndoEnv} {r : Replayer} {interactive : Bool} {c : Cursor}
    (h : undoCursor env r interactive = .ok c) :
    ∃ i : Nat, c = ⟨i⟩ ∧ ChosenPast env r.events interactive i := by
  cases interactive with
  | false =>
    obtain ⟨i, h1, h2, h3⟩ := cursor_not_interactive env r
    rw [h1] at h
    cases h
    exact ⟨i, rfl, h2, h3⟩
  | true =>
    unfold undoCursor at h
    rw [if_pos rfl] at h
    split at h
    · rename_i c' hsel
      cases h
      obtain ⟨ms, post, i, h1, h2, h3, h4, h5⟩ := selection_sound hsel
      exact ⟨i, h5, h4, by rw [if_pos rfl]; exact ⟨ms, post, h1, h2, h3⟩⟩
    all_goals cases h

/-- C93: the whole command. If it reports success then a position of the log was chosen, the user agreed, and the
references and `HEAD` are as they were before the events from this position on. -/
theorem undo_command {env : UndoEnv} {graph : CommitGraph Oid} {w w' : RepoWorld} {interactive skip : Bool} {n : Nat}
    (hidle : w.db.pending = none) (hwf : AMap.WF w.git.refs)
    (h : undoCommand env graph w interactive skip = (.done n, w')) :
    (skip = true ∨ SaysYes env.answer) ∧
    ∃ (raw es : List Event) (c : Nat), w.db.getEvents = some raw ∧
      es = (Replayer.fromEvents env.checkout.mainBranch raw).events ∧ ChosenPast env es interactive c ∧
      ∀ s, PathOk s → Describes s (es.drop c) w.git.refs.get? → ClearNames env.checkout.git s →
        (∀ former, HeadWas env.loadSnapshot s (es.drop c) former → RefsAre w'.git s ∧ w'.git.head = former) ∧
        ((∀ e ∈ es.drop c, ¬ TellsPastHead e) → RefsAre w'.git s ∧ w'.git.head = w.git.head) := by
  unfold undoCommand openRepoDag at h
  split at h
  · cases h
  · rename_i r d hopen
    split at hopen
    · rename_i refs raw hrefs hraw
      cases hopen
      split at h
      · rename_i e he
        cases h
        exfalso
        unfold undoCursor at he
        split at he
        · split at he <;> cases he
        · split at he <;> cases he
      · rename_i c hc
        obtain ⟨i, rfl, hi⟩ := undoCursor_sound hc
        refine ⟨(done_asked hi.1 h).2, raw, _, i, hraw, rfl, hi, ?_⟩
        intro s hp hd hn
        exact (undo_done ⟨hidle, hraw, rfl, hi.1, hwf, hp, hd⟩ hn h).2
    · cases hopen

/-- C93: the command never panics; leaving the selection changes nothing at all. -/
theorem undo_command_ends (env : UndoEnv) (graph : CommitGraph Oid) (w : RepoWorld) (interactive skip : Bool)
    (hidle : w.db.pending = none) :
    (undoCommand env graph w interactive skip).1 ≠ .panic ∧
    ((undoCommand env graph w interactive skip).1 = .left →
      interactive = true ∧ (undoCommand env graph w interactive skip).2 = w) := by
  unfold undoCommand
  cases openRepoDag graph env.checkout.mainBranch w with
  | none => exact ⟨nofun, nofun⟩
  | some p =>
    obtain ⟨r, d⟩ := p
    simp only
    cases hc : undoCursor env r interactive with
    | error e =>
      simp only
      unfold undoCursor at hc
      split at hc
      · rename_i hi
        split at hc
        · cases hc
        · cases hc; exact ⟨nofun, fun _ => ⟨hi, trivial⟩⟩
        · cases hc; exact ⟨nofun, nofun⟩
        · rename_i hp
          exact absurd hp (selection_total _ _ _).1
      · split at hc
        · cases hc
        · rename_i hp
          obtain ⟨j, h1, -⟩ := step_cursor r (le_refl r.events.length) (-1)
          rw [default_cursor_eq, length_txs, h1] at hp
          cases hp
    | ok c =>
      obtain ⟨i, rfl, hi⟩ := undoCursor_sound hc
      obtain ⟨h1, h2, -⟩ := undo_ends env w r skip hi.1 hidle
      exact ⟨h1, fun h => absurd h h2⟩

/-- C93: the keys do the same with and without shift, and only `enter` selects. -/
theorem keys_ignore_case (c : Char) : messageForKey (.char c.toLower) = messageForKey (.char c) ∧
    messageForKey (.char c) ≠ some .select := by
  refine ⟨?_, ?_⟩
  · unfold Char.toLower
    split
    · rename_i h
      have h1 : 65 ≤ c.toNat := h.1
      have h2 : c.toNat ≤ 90 := h.2
      have hc : c = Char.ofNat c.toNat := (Char.ofNat_toNat c).symm
      generalize c.toNat = n at h1 h2 hc
      subst hc
      interval_cases n <;> rfl
    · rfl
  · unfold messageForKey
    split <;> simp_all

end Verif.Props

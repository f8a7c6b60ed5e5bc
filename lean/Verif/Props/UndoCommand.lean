import Verif.Lemmas.UndoCommand
import Verif.Props.UndoSelect

/-! C93: what `git undo` does to the references, to `HEAD` and to the event log. -/

namespace Verif.Props

open Verif Verif.Spec

/-! ### the target of the final check-out -/

theorem target_skip {e : Event} (he : ¬ TellsPastHead e) (es : List Event) (now : Timestamp) (tx : TxId) :
    (extractCheckoutTarget (inverseEvents (e :: es) now tx)).1 =
      (extractCheckoutTarget (inverseEvents es now tx)).1 := by
  rw [inverseEvents_cons]
  cases e with
  | refUpdate ts tx' n old new m =>
    cases old with
    | zero =>
      by_cases hn : n = t!"HEAD"
      · simp [isInitialHeadUpdate, hn]
      · simp only [isInitialHeadUpdate, beq_iff_eq, hn, if_false, inverseEvent, extract_fst_append]
    | nonZero o =>
      have hn : n ≠ t!"HEAD" := by
        rintro rfl
        exact he (.update ..)
      simp only [isInitialHeadUpdate, Bool.false_eq_true, if_false, inverseEvent, extract_fst_append]
      rw [if_neg hn]
  | snapshot ts tx' hd o nm => exact absurd (.snapshot ..) he
  | _ => simp only [isInitialHeadUpdate, Bool.false_eq_true, if_false, inverseEvent, extract_fst_append]

theorem target_none {es : List Event} (h : ∀ e ∈ es, ¬ TellsPastHead e) (now : Timestamp) (tx : TxId) :
    (extractCheckoutTarget (inverseEvents es now tx)).1 = none := by
  induction es with
  | nil => rfl
  | cons e es ih =>
    rw [target_skip (h e (by simp))]
    exact ih fun e he => h e (by simp [he])

theorem target_first {pre : List Event} (h : ∀ e ∈ pre, ¬ TellsPastHead e) (post : List Event) (now : Timestamp)
    (tx : TxId) :
    (∀ ts tx' o new m, (extractCheckoutTarget (inverseEvents
      (pre ++ .refUpdate ts tx' t!"HEAD" (.nonZero o) new m :: post) now tx)).1 = some ⟨o, [t!"--detach"]⟩) ∧
    (∀ ts tx' hd o, (extractCheckoutTarget (inverseEvents (pre ++ .snapshot ts tx' hd o none :: post) now tx)).1 =
      some ⟨o, []⟩) ∧
    (∀ ts tx' hd o b, (extractCheckoutTarget (inverseEvents
      (pre ++ .snapshot ts tx' hd o (some (t!"refs/heads/" ++ b)) :: post) now tx)).1 = some ⟨o, [t!"-B", b]⟩) := by
  induction pre with
  | nil =>
    refine ⟨fun ts tx' o new m => ?_, fun ts tx' hd o => ?_, fun ts tx' hd o b => ?_⟩
    · rw [List.nil_append, inverseEvents_cons]
      simp only [isInitialHeadUpdate, Bool.false_eq_true, if_false, inverseEvent, extract_fst_append, if_true]
    · rw [List.nil_append, inverseEvents_cons]
      simp only [isInitialHeadUpdate, Bool.false_eq_true, if_false, inverseEvent, extract_fst_append]
    · rw [List.nil_append, inverseEvents_cons]
      simp only [isInitialHeadUpdate, Bool.false_eq_true, if_false, inverseEvent, extract_fst_append,
        suffix_of_branch]
  | cons e pre ih =>
    obtain ⟨h1, h2, h3⟩ := ih fun e he => h e (by simp [he])
    have he := h e (by simp)
    refine ⟨fun ts tx' o new m => ?_, fun ts tx' hd o => ?_, fun ts tx' hd o b => ?_⟩
    · rw [List.cons_append, target_skip he, h1]
    · rw [List.cons_append, target_skip he, h2]
    · rw [List.cons_append, target_skip he, h3]

/-! ### the log grows -/

/-- Events were added at the end of the log. -/
def LogGrows (db db' : Db) : Prop :=
  ∀ es, db.pending = none → db.getEvents = some es →
    db'.pending = none ∧ ∃ X, db'.getEvents = some (es ++ X)

theorem LogGrows.refl (db : Db) : LogGrows db db := fun _ h1 h2 => ⟨h1, [], by simpa using h2⟩

theorem LogGrows.trans {a b c : Db} (h : LogGrows a b) (h' : LogGrows b c) : LogGrows a c := by
  intro es h1 h2
  obtain ⟨h3, X, h4⟩ := h es h1 h2
  obtain ⟨h5, Y, h6⟩ := h' _ h3 h4
  exact ⟨h5, X ++ Y, by rw [h6, List.append_assoc]⟩

theorem LogGrows.add (db : Db) (new : List Event) : LogGrows db (db.addEvents new) := by
  intro es h1 h2
  obtain ⟨h3, h4⟩ := add_events_appends db es new h1 h2
  exact ⟨h4, _, h3⟩

/-! ### restoring a snapshot -/

theorem update_get {g g' : GitState} {name : Text} {h : Option Oid} (hu : gitUpdateRef g name h = some g') :
    g'.head = g.head ∧ g'.refs.get? name = h ∧ ∀ k, k ≠ name → g'.refs.get? k = g.refs.get? k := by
  cases h with
  | none =>
    cases hu
    refine ⟨rfl, by simp [deleteReference, AMap.get?_erase], fun k hk => ?_⟩
    simp only [deleteReference, AMap.get?_erase]
    rw [if_neg (Ne.symm hk)]
  | some o =>
    simp only [gitUpdateRef, createReference] at hu
    split at hu
    · cases hu
    · rename_i refs hr
      cases hu
      split at hr
      · cases hr
      · cases hr
        refine ⟨rfl, by simp [AMap.get?_insert], fun k hk => ?_⟩
        simp only [AMap.get?_insert]
        rw [if_neg (Ne.symm hk)]

/-- What restoring the branch of a snapshot does. -/
theorem restoreBranch_ok {env : UndoEnv} {tx : TxId} {w w' : RepoWorld} {s : StoredSnapshot}
    (h : restoreBranch env tx w s = .ok w') : LogGrows w.db w'.db ∧
      (s.reference = none → w'.git = w.git) ∧
      ∀ name, s.reference = some name → w'.git.head = .symbolic name ∧ w'.git.refs.get? name = s.head ∧
        ∀ k, k ≠ name → w'.git.refs.get? k = w.git.refs.get? k := by
  unfold restoreBranch at h
  split at h
  · rename_i hr
    cases h
    exact ⟨.refl _, fun _ => rfl, fun name hn => absurd (hr.symm.trans hn) nofun⟩
  · rename_i name hr
    split at h
    · cases h
    · rename_i g hu
      simp only at h
      split at h
      · cases h
      · rename_i g' hs
        cases h
        refine ⟨(LogGrows.add _ _).trans (.add _ _), fun hn => absurd (hr.symm.trans hn) nofun, ?_⟩
        intro name' hn
        rw [hr] at hn
        cases hn
        unfold gitSymbolicRef at hs
        split at hs
        · cases hs
          obtain ⟨-, h2, h3⟩ := update_get hu
          exact ⟨rfl, h2, h3⟩
        · cases hs

theorem restoreSnapshot_ok {env : UndoEnv} {tx : TxId} {w w' : RepoWorld} {s : StoredSnapshot}
    (hc : ClearNames env.checkout.git w.git.refs.get?) (h : restoreSnapshot env tx w s = .ok w') :
    LogGrows w.db w'.db ∧
      (s.reference = none → ∀ o, s.head = some o → w'.git = { w.git with head := .detached o }) ∧
      ∀ name, s.reference = some name → w'.git.head = .symbolic name ∧ w'.git.refs.get? name = s.head ∧
        ∀ k, k ≠ name → w'.git.refs.get? k = w.git.refs.get? k := by
  unfold restoreSnapshot at h
  split at h
  · cases h
  · split at h
    · cases h
    · rename_i g hg
      have hgo := run_oid hc hg
      subst hgo
      simp only at h
      cases hh : s.head with
      | none =>
        rw [hh] at h
        simp only at h
        split at h
        · cases h
        · obtain ⟨h1, h2, h3⟩ := restoreBranch_ok h
          refine ⟨(LogGrows.add _ _).trans h1, fun _ => nofun, fun name hn => ?_⟩
          obtain ⟨h4, h5, h6⟩ := h3 name hn
          exact ⟨h4, by rw [h5, hh], h6⟩
      | some o =>
        rw [hh] at h
        simp only at h
        split at h
        · cases h
        · rename_i g' hr
          unfold gitResetTo at hr
          split at hr
          · cases hr
          · cases hr
            split at h
            · cases h
            · obtain ⟨h1, h2, h3⟩ := restoreBranch_ok h
              refine ⟨(LogGrows.add _ _).trans ((LogGrows.add _ _).trans h1), ?_, ?_⟩
              · intro hn o' ho'
                cases ho'
                rw [h2 hn]
                rfl
              · intro name hn
                obtain ⟨h4, h5, h6⟩ := h3 name hn
                exact ⟨h4, by rw [h5, hh], h6⟩

/-! ### checking out -/

/-- The steps of a successful check-out. -/
theorem checkOutUndone_ok {env : UndoEnv} {tx : TxId} {w w' : RepoWorld} {t : UndoCheckout} {s : RefState}
    (hw : AMap.WF w.git.refs) (hr : RefsAre w.git s) (hc : ClearNames env.checkout.git s)
    (h : checkOutUndone env tx w t = .ok w') :
    ∃ (w1 : RepoWorld) (text : Text) (g : GitState) (ran : List Text), w1.git = w.git ∧ LogGrows w.db w1.db ∧
      StandsFor env.checkout.git w.git text t.target ∧
      gitCheckoutRun env.checkout.git w.git (text :: t.args) = some g ∧
      restoreIfSnapshot env tx (ranGit env tx w1 ran g) = .ok w' ∧
      (if env.createSnapshots then recordSnapshot env tx w = .ok w1 else w1 = w) := by
  have hc' := clear_of_refs hr hc
  unfold checkOutUndone at h
  have hrec : ∀ w1, (if env.createSnapshots then recordSnapshot env tx w else .ok w) = .ok w1 →
      w1.git = w.git ∧ LogGrows w.db w1.db ∧ (if env.createSnapshots then recordSnapshot env tx w = .ok w1 else w1 = w) := by
    intro w1 h1
    cases hs : env.createSnapshots with
    | false =>
      rw [hs] at h1
      cases h1
      exact ⟨rfl, .refl _, by simp⟩
    | true =>
      rw [hs, if_pos rfl] at h1
      rw [if_pos rfl]
      refine ⟨?_, ?_, h1⟩ <;>
      · unfold recordSnapshot at h1
        split at h1
        · cases h1
        · cases h1
          first | rfl | exact .add _ _
  split at h
  · cases h
  · rename_i w1 h1
    obtain ⟨h2, h3, h4⟩ := hrec w1 h1
    rw [h2] at h
    split at h
    · cases h
    · rename_i res hres
      obtain ⟨text, h5, rfl⟩ := checkOutAny_stands hw hc' hres
      split at h
      · cases h
      · rename_i hok
        have h6 := runCheckout_ok (by simpa using hok)
        split at h
        · cases h
        · rename_i w2 h7
          split at h
          · cases h
            exact ⟨w1, text, _, _, h2, h3, h5, h6, h7, h4⟩
          · cases h

/-- What checking out does in each case of where `HEAD` was. -/
theorem checkOutUndone_head {env : UndoEnv} {tx : TxId} {w w' : RepoWorld} {t : UndoCheckout} {s : RefState}
    {es : List Event} {now : Timestamp} {tx' : TxId} {former : Head}
    (hw : AMap.WF w.git.refs) (hr : RefsAre w.git s) (hc : ClearNames env.checkout.git s)
    (hf : HeadWas env.loadSnapshot s es former)
    (ht : (extractCheckoutTarget (inverseEvents es now tx')).1 = some t)
    (h : checkOutUndone env tx w t = .ok w') :
    RefsAre w'.git s ∧ w'.git.head = former := by
  obtain ⟨w1, text, g, ran, h1, -, h2, h3, h4, -⟩ := checkOutUndone_ok hw hr hc h
  have hc' := clear_of_refs hr hc
  cases hf with
  | moved hpre hl =>
    rw [(target_first hpre _ now tx').1] at ht
    cases ht
    have := run_detach h2 h3
    subst this
    unfold restoreIfSnapshot at h4
    have hh : ∀ o w1 ran, (ranGit env tx w1 ran { w.git with head := .detached o }).git.headInfo.oid = some o :=
      fun _ _ _ => rfl
    rw [hh] at h4
    simp only [hl] at h4
    cases h4
    exact ⟨hr, rfl⟩
  | detached hpre hl =>
    rw [(target_first hpre _ now tx').2.1] at ht
    cases ht
    obtain ⟨h5, h6, -⟩ := run_plain h2 h3
    unfold restoreIfSnapshot at h4
    have hh : ∀ w1 ran, (ranGit env tx w1 ran g).git.headInfo.oid = g.headInfo.oid := fun _ _ => rfl
    rw [hh, h6] at h4
    simp only [hl] at h4
    obtain ⟨-, h7, -⟩ := restoreSnapshot_ok (by
      show ClearNames env.checkout.git g.refs.get?
      rw [h5]; exact hc') h4
    rw [h7 rfl _ rfl]
    refine ⟨fun name => ?_, rfl⟩
    show g.refs.get? name = s name
    rw [h5]
    exact hr name
  | @branch pre post ts tx2 oid hd b u hpre hl hs =>
    rw [(target_first hpre _ now tx').2.2] at ht
    cases ht
    obtain ⟨h5, h6⟩ := run_reset h2 h3
    have h7 : ∀ k, g.refs.get? k = if t!"refs/heads/" ++ b = k then some oid else w.git.refs.get? k := by
      intro k
      unfold createReference at h5
      split at h5
      · cases h5
      · have := Except.ok.inj h5
        rw [← this, AMap.get?_insert]
    unfold restoreIfSnapshot at h4
    have hh : (ranGit env tx w1 ran g).git.headInfo.oid = some oid := by
      show g.headInfo.oid = _
      unfold GitState.headInfo
      rw [h6]
      simp only
      rw [h7, if_pos rfl]
    rw [hh] at h4
    simp only [hl] at h4
    have hc2 : ClearNames env.checkout.git g.refs.get? := by
      refine ⟨fun o => ?_, fun x hx => ?_, hc'.oids⟩
      · rw [h7, if_neg, hr, hc.hex o]
        intro he
        rw [he, hc.hex o] at hs
        exact absurd hs nofun
      · by_cases he : t!"refs/heads/" ++ b = t!"refs/heads/" ++ x
        · rw [he] at hs
          exact hc.dash x (by rw [hs]; nofun)
        · rw [h7, if_neg he, hr] at hx
          exact hc.dash x hx
    obtain ⟨-, -, h8⟩ := restoreSnapshot_ok hc2 h4
    obtain ⟨h9, h10, h11⟩ := h8 _ rfl
    refine ⟨fun name => ?_, h9⟩
    by_cases he : name = t!"refs/heads/" ++ b
    · rw [he, h10, hs]
    · rw [h11 name he]
      show g.refs.get? name = s name
      rw [h7, if_neg (Ne.symm he), hr]
  | @unborn pre post ts tx2 oid b u hpre hl hs hb =>
    rw [(target_first hpre _ now tx').2.2] at ht
    cases ht
    obtain ⟨h5, h6⟩ := run_reset h2 h3
    have h7 : ∀ k, g.refs.get? k = if t!"refs/heads/" ++ b = k then some oid else w.git.refs.get? k := by
      intro k
      unfold createReference at h5
      split at h5
      · cases h5
      · have := Except.ok.inj h5
        rw [← this, AMap.get?_insert]
    unfold restoreIfSnapshot at h4
    have hh : (ranGit env tx w1 ran g).git.headInfo.oid = some oid := by
      show g.headInfo.oid = _
      unfold GitState.headInfo
      rw [h6]
      simp only
      rw [h7, if_pos rfl]
    rw [hh] at h4
    simp only [hl] at h4
    have hrun : ∀ g', gitCheckoutRun env.checkout.git g [u.toText] = some g' →
        g' = { g with head := .detached u } := by
      intro g' hg'
      have hst : StandsFor env.checkout.git g u.toText u := by
        refine ⟨dash_oid u, fun o' hm => ?_⟩
        generalize hu : u.toText = t at hm
        have hno : g.refs.get? (t!"refs/heads/" ++ u.toText) = none := by
          rw [h7, if_neg, hr, hc.hex u]
          exact fun he => hb u (List.append_cancel_left he)
        cases hm with
        | branch _ h => rw [← hu, hno] at h; cases h
        | revision _ _ h => rw [← hu] at h; exact hc.oids g u o' h
        | previousBranch => exact absurd (hu ▸ List.prefix_rfl) (dash_oid u)
        | previous => exact absurd (hu ▸ List.prefix_rfl) (dash_oid u)
      obtain ⟨a1, -, a2⟩ := run_plain hst hg'
      have a3 : ∀ b, ¬ GitBranch env.checkout.git g u.toText b := by
        rintro x ⟨h, ⟨-, rfl⟩ | ⟨h4, -⟩⟩
        · rw [h7, if_neg (fun he => hb u (List.append_cancel_left he)), hr, hc.hex u] at h
          cases h
        · exact absurd (h4 ▸ List.prefix_rfl) (dash_oid u)
      obtain ⟨refs, head⟩ := g'
      simp only at a1 a2 ⊢
      rw [a1, a2 a3]
    unfold restoreSnapshot at h4
    split at h4
    · cases h4
    · split at h4
      · cases h4
      · rename_i g' hg'
        have := hrun g' hg'
        subst this
        simp only at h4
        split at h4
        · cases h4
        · obtain ⟨-, -, h8⟩ := restoreBranch_ok h4
          obtain ⟨h9, h10, h11⟩ := h8 _ rfl
          refine ⟨fun name => ?_, h9⟩
          by_cases he : name = t!"refs/heads/" ++ b
          · rw [he, h10, hs]
          · rw [h11 name he]
            show g.refs.get? name = s name
            rw [h7, if_neg (Ne.symm he), hr]

/-- Restoring only adds to the log. -/
theorem restoreIfSnapshot_grows {env : UndoEnv} {tx : TxId} {w w' : RepoWorld}
    (h : restoreIfSnapshot env tx w = .ok w') : LogGrows w.db w'.db := by
  have hs : ∀ {w s w'}, restoreSnapshot env tx w s = .ok w' → LogGrows w.db w'.db := by
    intro w s w' h
    unfold restoreSnapshot at h
    split at h
    · cases h
    · split at h
      · cases h
      · simp only at h
        split at h
        · split at h
          · cases h
          · exact (LogGrows.add _ _).trans (restoreBranch_ok h).1
        · split at h
          · cases h
          · split at h
            · cases h
            · exact (LogGrows.add _ _).trans ((LogGrows.add _ _).trans (restoreBranch_ok h).1)
  unfold restoreIfSnapshot at h
  split at h
  · cases h; exact .refl _
  · split at h
    · cases h
    · cases h; exact .refl _
    · exact hs h

/-- Checking out only adds to the log. -/
theorem checkOutUndone_grows {env : UndoEnv} {tx : TxId} {w w' : RepoWorld} {t : UndoCheckout}
    (h : checkOutUndone env tx w t = .ok w') : LogGrows w.db w'.db := by
  unfold checkOutUndone at h
  split at h
  · cases h
  · rename_i w1 h1
    have h2 : LogGrows w.db w1.db := by
      split at h1
      · unfold recordSnapshot at h1
        split at h1
        · cases h1
        · cases h1; exact .add _ _
      · cases h1; exact .refl _
    split at h
    · cases h
    · split at h
      · cases h
      · split at h
        · cases h
        · rename_i h3
          split at h
          · cases h
            exact h2.trans ((LogGrows.add _ _).trans (restoreIfSnapshot_grows h3))
          · cases h

/-- Failing is failing. -/
theorem checkOutUndone_error {env : UndoEnv} {tx : TxId} {w : RepoWorld} {t : UndoCheckout}
    {e : UndoEnd × RepoWorld} (h : checkOutUndone env tx w t = .error e) : e.1 = .error ∨ e.1 = .gitFailed := by
  have hb : ∀ {w s e}, restoreBranch env tx w s = .error e → e.1 = .error ∨ e.1 = .gitFailed := by
    intro w s e h
    unfold restoreBranch at h
    split at h
    · cases h
    · split at h
      · cases h; exact .inr rfl
      · simp only at h
        split at h
        · cases h; exact .inr rfl
        · cases h
  have hs : ∀ {w s e}, restoreSnapshot env tx w s = .error e → e.1 = .error ∨ e.1 = .gitFailed := by
    intro w s e h
    unfold restoreSnapshot at h
    split at h
    · cases h; exact .inr rfl
    · split at h
      · cases h; exact .inr rfl
      · simp only at h
        split at h
        · split at h
          · cases h; exact .inl rfl
          · exact hb h
        · split at h
          · cases h; exact .inr rfl
          · split at h
            · cases h; exact .inl rfl
            · exact hb h
  have hi : ∀ {w e}, restoreIfSnapshot env tx w = .error e → e.1 = .error ∨ e.1 = .gitFailed := by
    intro w e h
    unfold restoreIfSnapshot at h
    split at h
    · cases h
    · split at h
      · cases h; exact .inl rfl
      · cases h
      · exact hs h
  unfold checkOutUndone at h
  split at h
  · rename_i e' he
    cases h
    split at he
    · unfold recordSnapshot at he
      split at he
      · cases he; exact .inl rfl
      · cases he
    · cases he
  · split at h
    · cases h; exact .inl rfl
    · split at h
      · cases h; exact .inr rfl
      · split at h
        · rename_i he
          cases h
          exact hi he
        · split at h
          · cases h
          · cases h; exact .inr rfl

/-! ### undoing to a position -/

theorem undoApply_eq (env : UndoEnv) (tx : TxId) (w : RepoWorld) (inverse : List Event) :
    undoApply env tx w inverse =
      (let git := if (extractCheckoutTarget inverse).1.isSome then w.git.detachHead w.git.headInfo else w.git
       match applyInverses ⟨git.refs, w.db⟩ (inverse.filter fun e => !isCheckoutEvent e) with
       | .error (_, u) => (.error, { w with git := { git with refs := u.refs }, db := u.db })
       | .ok u =>
         let w := { w with git := { git with refs := u.refs }, db := u.db }
         match (extractCheckoutTarget inverse).1 with
         | none => (.done inverse.length, w)
         | some t =>
           match checkOutUndone env tx w t with
           | .error e => e
           | .ok w => (.done inverse.length, w)) := by
  unfold undoApply
  rw [← extractCheckoutTarget_snd]
  rfl

theorem detach_refs (g : GitState) (i : HeadInfo) : (g.detachHead i).refs = g.refs := by
  unfold GitState.detachHead
  split <;> rfl

theorem undoTo_eq (env : UndoEnv) (w : RepoWorld) (r : Replayer) {c : Nat} (hc : c ≤ r.events.length)
    (skip : Bool) :
    undoTo env w r ⟨c⟩ skip =
      (let tx := (w.db.makeTransactionId env.txVar t!"undo").1
       let w := { w with db := (w.db.makeTransactionId env.txVar t!"undo").2 }
       if (inverseEvents (r.events.drop c) env.now tx).isEmpty then (.nothingToDo, w)
       else if !(skip || confirms env.answer) then (.aborted, w)
       else undoApply env tx w (inverseEvents (r.events.drop c) env.now tx)) := by
  unfold undoTo
  rw [eventsSinceCursor_ok r hc]

theorem confirms_iff (answer : Option Text) : confirms answer = true ↔ SaysYes answer := by
  unfold confirms SaysYes
  cases answer with
  | none => simp
  | some line => simp

/-- The state in which the references are as before the undone events, and what is still to check out. -/
theorem undone_refs {w : RepoWorld} {r : Replayer} {mb : Text} {raw : List Event} {c : Nat} {s : RefState}
    (hs : UndoSetting w r mb raw c s) (g : GitState) (hg : g.refs = w.git.refs) (db : Db) (now : Timestamp) (tx : TxId) :
    ∃ u, applyInverses ⟨g.refs, db⟩ ((inverseEvents (r.events.drop c) now tx).filter fun e => !isCheckoutEvent e) =
      .ok u ∧ AMap.WF u.refs ∧ (∀ n, u.refs.get? n = s n) ∧
      u.db = (loggedInverses (r.events.drop c) now tx).foldl (fun db e => db.addEvents [e]) db := by
  obtain ⟨u, h1, h2⟩ := applyInverses_describes hs.describes hs.possible now tx (w := ⟨g.refs, db⟩)
    (fun n => by rw [hg])
  exact ⟨u, h1, applyInverses_wf h1 (by rw [hg]; exact hs.wf), h2, applyInverses_db h1⟩

/-- Nothing to do. -/
theorem inverse_empty (es : List Event) (now : Timestamp) (tx : TxId) :
    (inverseEvents es now tx).isEmpty = true ↔ ∀ e ∈ es, FirstHead e := by
  have h1 : ∀ e, isInitialHeadUpdate e = true ↔ FirstHead e := by
    intro e
    constructor
    · intro h
      cases e with
      | refUpdate ts t n old new m =>
        cases old with
        | zero =>
          have hn : n = t!"HEAD" := by simpa [isInitialHeadUpdate] using h
          exact ⟨ts, t, new, m, by rw [hn]⟩
        | nonZero => cases h
      | _ => cases h
    · rintro ⟨ts, t, new, m, rfl⟩
      rfl
  rw [List.isEmpty_iff]
  unfold inverseEvents
  rw [List.map_eq_nil_iff, List.filter_eq_nil_iff]
  simp only [List.mem_reverse, Bool.not_eq_true, Bool.not_eq_false']
  exact forall₂_congr fun e _ => h1 e

/-- The inverses which are written take back the events. -/
theorem logged_takes_back (es : List Event) (now : Timestamp) (tx : TxId) :
    TakesBack now tx es (loggedInverses es now tx) := by
  unfold TakesBack
  induction es with
  | nil => exact .nil
  | cons e es ih =>
    rw [loggedInverses_cons, List.reverse_cons, List.filter_append]
    refine List.rel_append ih ?_
    cases e <;> simp only [isLogged, AboutCommits, List.filter_cons, List.filter_nil, if_true, Bool.false_eq_true, if_false]
    · exact .cons (.rewritten ..) .nil
    · exact .nil
    · exact .cons (.created ..) .nil
    · exact .cons (.hidden ..) .nil
    · exact .cons (.unhidden ..) .nil
    · exact .nil

theorem storable_logged (es : List Event) (now : Timestamp) (n : Int) :
    storable (loggedInverses es now (.id n)) = loggedInverses es now (.id n) := by
  induction es with
  | nil => rfl
  | cons e es ih =>
    rw [loggedInverses_cons]
    unfold storable at *
    rw [List.filter_append, ih]
    congr 1
    cases e <;> simp [isLogged, inverseEvent, Event.txId]

/-- Undoing, up to checking out: in the world `w1` the references are those of the past. -/
theorem undoTo_run {env : UndoEnv} {w : RepoWorld} {r : Replayer} {mb : Text} {raw : List Event} {c : Nat}
    {s : RefState} {skip : Bool} (hs : UndoSetting w r mb raw c s) (hn : ¬ ∀ e ∈ r.events.drop c, FirstHead e)
    (hyes : skip = true ∨ SaysYes env.answer) :
    ∃ (tx : TxId) (w1 : RepoWorld), (env.txVar = none → ∃ n, tx = .id n) ∧
      AMap.WF w1.git.refs ∧ RefsAre w1.git s ∧ w1.db.pending = none ∧
      (∃ new, w1.db.getEvents = some (raw ++ new)) ∧
      (env.txVar = none → ∃ new, TakesBack env.now tx (r.events.drop c) new ∧ w1.db.getEvents = some (raw ++ new)) ∧
      w1.git.head = (if (extractCheckoutTarget (inverseEvents (r.events.drop c) env.now tx)).1.isSome
        then w.git.detachHead w.git.headInfo else w.git).head ∧
      undoTo env w r ⟨c⟩ skip =
        match (extractCheckoutTarget (inverseEvents (r.events.drop c) env.now tx)).1 with
         | none => (.done (inverseEvents (r.events.drop c) env.now tx).length, w1)
         | some t =>
           match checkOutUndone env tx w1 t with
           | .error e => e
           | .ok w => (.done (inverseEvents (r.events.drop c) env.now tx).length, w) := by
  rw [undoTo_eq env w r hs.inside]
  simp only
  have hid := makeTransactionId_idle hs.idle env.txVar t!"undo"
  have htx : env.txVar = none → ∃ n, (w.db.makeTransactionId env.txVar t!"undo").1 = .id n := by
    intro h
    rw [h]
    exact ⟨_, rfl⟩
  generalize (w.db.makeTransactionId env.txVar t!"undo").1 = tx at htx ⊢
  generalize (w.db.makeTransactionId env.txVar t!"undo").2 = db at hid ⊢
  have hne : ¬ ((inverseEvents (r.events.drop c) env.now tx).isEmpty = true) := by
    rw [inverse_empty]
    exact hn
  rw [if_neg hne]
  have hconf : ¬ ((!(skip || confirms env.answer)) = true) := by
    rcases hyes with h | h
    · simp [h]
    · simp [(confirms_iff _).2 h]
  rw [if_neg hconf, undoApply_eq]
  simp only
  generalize hg : (if (extractCheckoutTarget (inverseEvents (r.events.drop c) env.now tx)).1.isSome = true
    then w.git.detachHead w.git.headInfo else w.git) = g
  have hgr : g.refs = w.git.refs := by
    rw [← hg]
    split
    · exact detach_refs _ _
    · rfl
  obtain ⟨u, h1, h2, h3, h4⟩ := undone_refs hs g hgr db env.now tx
  rw [h1]
  rw [foldl_addEvents_singletons _ hid.1] at h4
  have h5 := add_events_appends _ raw (loggedInverses (r.events.drop c) env.now tx) hid.1
    (by rw [hid.2, hs.log])
  refine ⟨tx, { w with git := { g with refs := u.refs }, db := u.db }, htx, h2, h3, ?_,
    ⟨storable (loggedInverses (r.events.drop c) env.now tx), ?_⟩, ?_, by rw [hg], rfl⟩
  · rw [h4]; exact h5.2
  · rw [h4]; exact h5.1
  · intro h
    obtain ⟨n, rfl⟩ := htx h
    refine ⟨_, logged_takes_back _ _ _, ?_⟩
    rw [storable_logged] at h5
    rw [h4]
    exact h5.1

theorem done_asked {env : UndoEnv} {w w' : RepoWorld} {r : Replayer} {c n : Nat} {skip : Bool}
    (hin : c ≤ r.events.length) (h : undoTo env w r ⟨c⟩ skip = (.done n, w')) :
    (¬ ∀ e ∈ r.events.drop c, FirstHead e) ∧ (skip = true ∨ SaysYes env.answer) := by
  rw [undoTo_eq env w r hin] at h
  simp only at h
  split at h
  · cases h
  split at h
  · cases h
  rename_i h1 h2
  rw [inverse_empty] at h1
  refine ⟨h1, ?_⟩
  rw [← confirms_iff]
  cases hk : skip
  · rw [hk] at h2; simpa using h2
  · exact .inl rfl

theorem target_of_was {load : Oid → Except Unit (Option StoredSnapshot)} {s : RefState} {es : List Event}
    {former : Head} (h : HeadWas load s es former) (now : Timestamp) (tx : TxId) :
    (extractCheckoutTarget (inverseEvents es now tx)).1 ≠ none := by
  cases h with
  | moved hpre => rw [(target_first hpre _ _ _).1]; nofun
  | detached hpre => rw [(target_first hpre _ _ _).2.1]; nofun
  | branch hpre => rw [(target_first hpre _ _ _).2.2]; nofun
  | unborn hpre => rw [(target_first hpre _ _ _).2.2]; nofun

/-- C93: a successful undo restores all references, and `HEAD` as the undone events tell it; `HEAD` stays as it
is if they do not tell. The user agreed. -/
theorem undo_done {env : UndoEnv} {w w' : RepoWorld} {r : Replayer} {mb : Text} {raw : List Event} {c n : Nat}
    {s : RefState} {skip : Bool} (hs : UndoSetting w r mb raw c s) (hc : ClearNames env.checkout.git s)
    (h : undoTo env w r ⟨c⟩ skip = (.done n, w')) :
    (skip = true ∨ SaysYes env.answer) ∧
    (∀ former, HeadWas env.loadSnapshot s (r.events.drop c) former → RefsAre w'.git s ∧ w'.git.head = former) ∧
    ((∀ e ∈ r.events.drop c, ¬ TellsPastHead e) → RefsAre w'.git s ∧ w'.git.head = w.git.head) := by
  obtain ⟨hn, hyes⟩ := done_asked hs.inside h
  refine ⟨hyes, ?_⟩
  obtain ⟨tx, w1, -, h1, h2, -, -, -, h3, h4⟩ := undoTo_run hs hn hyes
  rw [h] at h4
  cases ht : (extractCheckoutTarget (inverseEvents (r.events.drop c) env.now tx)).1 with
  | none =>
    rw [ht] at h3 h4
    simp only [Option.isSome_none, Bool.false_eq_true, if_false] at h3
    cases h4
    exact ⟨fun former hf => absurd ht (target_of_was hf _ _), fun _ => ⟨h2, h3⟩⟩
  | some t =>
    rw [ht] at h4
    simp only at h4
    split at h4
    · rename_i e he
      rcases checkOutUndone_error he with h' | h' <;> rw [← h4] at h' <;> cases h'
    · rename_i w2 hw2
      cases h4
      refine ⟨fun former hf => checkOutUndone_head h1 h2 hc hf ht hw2, fun hno => ?_⟩
      rw [target_none hno] at ht
      cases ht

/-- C93: what undoing writes to the log. The log only grows; what is added first are the events which take back the
undone events about commits; nothing else is added if no event tells where `HEAD` was. -/
theorem undo_done_log {env : UndoEnv} {w w' : RepoWorld} {r : Replayer} {mb : Text} {raw : List Event} {c n : Nat}
    {s : RefState} {skip : Bool} (hs : UndoSetting w r mb raw c s) (hc : ClearNames env.checkout.git s)
    (hv : env.txVar = none) (h : undoTo env w r ⟨c⟩ skip = (.done n, w')) :
    ∃ (k : Int) (new rest : List Event), TakesBack env.now (.id k) (r.events.drop c) new ∧
      w'.db.getEvents = some (raw ++ new ++ rest) ∧
      ((∀ e ∈ r.events.drop c, ¬ TellsPastHead e) → rest = []) := by
  obtain ⟨hn, hyes⟩ := done_asked hs.inside h
  obtain ⟨tx, w1, h0, h1, h2, h3, -, h5, -, h4⟩ := undoTo_run hs hn hyes
  obtain ⟨k, rfl⟩ := h0 hv
  obtain ⟨new, h6, h7⟩ := h5 hv
  rw [h] at h4
  cases ht : (extractCheckoutTarget (inverseEvents (r.events.drop c) env.now (.id k))).1 with
  | none =>
    rw [ht] at h4
    cases h4
    exact ⟨k, new, [], h6, by simpa using h7, fun _ => rfl⟩
  | some t =>
    rw [ht] at h4
    simp only at h4
    split at h4
    · rename_i e he
      rcases checkOutUndone_error he with h' | h' <;> rw [← h4] at h' <;> cases h'
    · rename_i w2 hw2
      cases h4
      obtain ⟨rest, hrest⟩ := (checkOutUndone_grows hw2) _ h3 h7 |>.2
      refine ⟨k, new, rest, h6, hrest, fun hno => ?_⟩
      rw [target_none hno] at ht
      cases ht

end Verif.Props

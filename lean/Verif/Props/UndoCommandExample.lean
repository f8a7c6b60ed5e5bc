import Verif.Props.UndoOutcome
import Verif.Props.Navigate

/-! Concrete cases of C93, and where it does not hold. -/

namespace Verif.Props

open Verif Verif.Spec

def exUndoRepo (raw : List Event) (refs : Refs) (head : Head) : RepoWorld :=
  ⟨⟨refs, head⟩, ({} : Db).addEvents raw, none, none⟩

def exUndoEnv (messages : List UndoMessage) (answer : Option Text) : UndoEnv where
  checkout :=
    { mainBranch := t!"refs/heads/main"
      autoSwitch := true
      git :=
        { revision := fun _ t => Oid.parse t
          previous := none
          validName := fun _ => true
          works := fun _ _ _ => true } }
  now := 9
  txVar := none
  answer := answer
  draw := fun _ => true
  messages := messages
  createSnapshots := true
  newSnapshot := fun _ => .ok (oidN 90)
  loadSnapshot := fun o =>
    if o = oidN 91 then .ok (some ⟨some (oidN 0), some t!"refs/heads/main", oidN 92⟩) else .ok none
  resetWorks := fun _ => true
  indexWorks := true
  hooks := fun _ _ _ _ => []
  smartlogWorks := true

/-- A commit is made on the main branch. -/
def exUndoRaw : List Event :=
  [.refUpdate 1 (.id 1) t!"refs/heads/main" .zero (.nonZero (oidN 0)) none,
   .commit 2 (.id 2) (oidN 1),
   .refUpdate 2 (.id 2) t!"HEAD" (.nonZero (oidN 0)) (.nonZero (oidN 1)) none,
   .refUpdate 2 (.id 2) t!"refs/heads/main" (.nonZero (oidN 0)) (.nonZero (oidN 1)) none]

/-- A snapshot is taken, then the commit is made. -/
def exUndoSnapshotRaw : List Event :=
  [.refUpdate 1 (.id 1) t!"refs/heads/main" .zero (.nonZero (oidN 0)) none,
   .snapshot 2 (.id 2) (.nonZero (oidN 0)) (oidN 91) (some t!"refs/heads/main"),
   .commit 2 (.id 2) (oidN 1),
   .refUpdate 2 (.id 2) t!"HEAD" (.nonZero (oidN 0)) (.nonZero (oidN 1)) none,
   .refUpdate 2 (.id 2) t!"refs/heads/main" (.nonZero (oidN 0)) (.nonZero (oidN 1)) none]

/-- A branch is made, then moved. -/
def exUndoMoveRaw : List Event :=
  [.refUpdate 1 (.id 1) t!"refs/heads/main" .zero (.nonZero (oidN 0)) none,
   .refUpdate 2 (.id 2) t!"refs/heads/b" .zero (.nonZero (oidN 0)) none,
   .refUpdate 3 (.id 3) t!"refs/heads/b" (.nonZero (oidN 0)) (.nonZero (oidN 1)) none]

def exUndoRefs (o : Oid) : Refs := [(t!"refs/heads/main", o)]

def exUndo (raw : List Event) (refs : Refs) (messages : List UndoMessage) (answer : Option Text)
    (interactive skip : Bool) : UndoEnd × RepoWorld :=
  undoCommand (exUndoEnv messages answer) exFork (exUndoRepo raw refs (.symbolic t!"refs/heads/main")) interactive skip

/-- Non-vacuity: the last transaction is undone; chosen by keys and with the user's agreement; both transactions (where
the main branch is gone, so that checking out fails); leaving; back and forth; no agreement; in the middle of a
transaction. -/
example :
    (exUndo exUndoRaw (exUndoRefs (oidN 1)) [] none false true).1 = .done 3 ∧
    (exUndo exUndoRaw (exUndoRefs (oidN 1)) [] none false true).2.git.refs = exUndoRefs (oidN 0) ∧
    (exUndo exUndoRaw (exUndoRefs (oidN 1)) [] none false true).2.git.head = .detached (oidN 0) ∧
    (exUndo exUndoRaw (exUndoRefs (oidN 1)) [] none false true).2.db.getEvents =
      some (exUndoRaw ++ [.obsolete 9 (.id 1) (oidN 1), .snapshot 9 (.id 1) (.nonZero (oidN 1)) (oidN 90) none]) ∧
    (exUndo exUndoRaw (exUndoRefs (oidN 1)) [.previous, .select] (some t!"y\n") true false).1 = .done 3 ∧
    (exUndo exUndoRaw (exUndoRefs (oidN 1)) [.previous, .previous, .select] (some t!"y\n") true false).1 = .error ∧
    (exUndo exUndoRaw (exUndoRefs (oidN 1)) [.previous, .quit, .select] (some t!"y\n") true false).1 = .left ∧
    (exUndo exUndoRaw (exUndoRefs (oidN 1)) [.previous, .next, .select] (some t!"y\n") true false).1 = .nothingToDo ∧
    (exUndo exUndoRaw (exUndoRefs (oidN 1)) [.previous, .select] (some t!"n\n") true false).1 = .aborted ∧
    (exUndo exUndoRaw (exUndoRefs (oidN 1)) [.goTo t!"2", .select] (some t!"y\n") true false).1 = .done 2 := by
  decide +kernel

/-- Non-vacuity: with the snapshot the branch is checked out again. -/
example :
    (exUndo exUndoSnapshotRaw (exUndoRefs (oidN 1)) [] none false true).1 = .done 4 ∧
    (exUndo exUndoSnapshotRaw (exUndoRefs (oidN 1)) [] none false true).2.git =
      ⟨exUndoRefs (oidN 0), .symbolic t!"refs/heads/main"⟩ := by
  decide +kernel

theorem exUndo_key {o : Oid} {k : Text} (h : AMap.get? (exUndoRefs o) k ≠ none) : k = t!"refs/heads/main" := by
  simp only [exUndoRefs, AMap.get?_cons, AMap.get?_nil] at h
  split at h <;> simp_all

theorem exUndo_path (o : Oid) : PathOk (AMap.get? (exUndoRefs o)) := by
  intro a b ha hb
  rw [exUndo_key ha, exUndo_key hb]
  decide

theorem exUndo_step (ts : Timestamp) (tx : TxId) (a b : Oid) (m : Option Text) :
    RefStep (AMap.get? (exUndoRefs a)) (.refUpdate ts tx t!"refs/heads/main" (.nonZero a) (.nonZero b) m)
      (AMap.get? (exUndoRefs b)) := by
  refine .update (by decide) (by simp [exUndoRefs, AMap.get?_cons, MaybeZero.toOption])
    (by simp [exUndoRefs, AMap.get?_cons, MaybeZero.toOption]) ?_ (exUndo_path b)
  intro k hk
  simp [exUndoRefs, AMap.get?_cons, AMap.get?_nil, Ne.symm hk]

/-- Non-vacuity: the settings in which undoing is proved to work, for a moved `HEAD` and for a snapshot. -/
theorem exUndo_setting :
    UndoSetting (exUndoRepo exUndoRaw (exUndoRefs (oidN 1)) (.symbolic t!"refs/heads/main"))
      (Replayer.fromEvents t!"refs/heads/main" exUndoRaw) t!"refs/heads/main" exUndoRaw 1
      (AMap.get? (exUndoRefs (oidN 0))) ∧
    UndoSetting (exUndoRepo exUndoSnapshotRaw (exUndoRefs (oidN 1)) (.symbolic t!"refs/heads/main"))
      (Replayer.fromEvents t!"refs/heads/main" exUndoSnapshotRaw) t!"refs/heads/main" exUndoSnapshotRaw 1
      (AMap.get? (exUndoRefs (oidN 0))) := by
  have hd : ∀ {s : RefState} {pre : List Event}, Describes s pre (AMap.get? (exUndoRefs (oidN 0))) →
      Describes s (((pre ++ [.commit 2 (.id 2) (oidN 1)]) ++
        [.refUpdate 2 (.id 2) t!"HEAD" (.nonZero (oidN 0)) (.nonZero (oidN 1)) none]) ++
        [.refUpdate 2 (.id 2) t!"refs/heads/main" (.nonZero (oidN 0)) (.nonZero (oidN 1)) none])
        (AMap.get? (exUndoRefs (oidN 1))) := fun h =>
    .snoc (.snoc (.snoc h (.other nofun)) .head) (exUndo_step ..)
  refine ⟨⟨rfl, by decide +kernel, rfl, by decide +kernel, by unfold AMap.WF; decide +kernel, exUndo_path _, ?_⟩,
    ⟨rfl, by decide +kernel, rfl, by decide +kernel, by unfold AMap.WF; decide +kernel, exUndo_path _, ?_⟩⟩
  · have h : (Replayer.fromEvents t!"refs/heads/main" exUndoRaw).events.drop 1 = exUndoRaw.drop 1 := by decide +kernel
    rw [h]
    exact hd (pre := []) .nil
  · have h : (Replayer.fromEvents t!"refs/heads/main" exUndoSnapshotRaw).events.drop 1 = exUndoSnapshotRaw.drop 1 := by
      decide +kernel
    rw [h]
    exact hd (pre := [_]) (.snoc (es := []) .nil (.other nofun))

theorem exUndo_clear (messages : List UndoMessage) (answer : Option Text) :
    ClearNames (exUndoEnv messages answer).checkout.git (AMap.get? (exUndoRefs (oidN 0))) := by
  refine ⟨fun o => ?_, fun b hb => ?_, fun g o o' h => ?_⟩
  · by_contra h
    have h1 : o.toText = t!"main" := List.append_cancel_left (as := t!"refs/heads/") (exUndo_key h)
    have h2 := Oid.length_toText o
    rw [h1] at h2
    cases h2
  · have h1 : b = t!"main" := List.append_cancel_left (as := t!"refs/heads/") (exUndo_key hb)
    rw [h1]
    decide
  · simp only [exUndoEnv, Oid.parse_toText, Option.some.injEq] at h
    exact h.symm

theorem exUndo_works (messages : List UndoMessage) (answer : Option Text) :
    UndoWorks (exUndoEnv messages answer) (AMap.get? (exUndoRefs (oidN 0))) := by
  refine ⟨fun _ _ _ => rfl, fun _ o => ?_, fun _ _ => rfl, fun _ _ => ⟨_, rfl⟩, fun _ => rfl, rfl, rfl, fun _ => ?_⟩
  · simp only [exUndoEnv, Oid.parse_toText]
  · simp only [exUndoEnv]
    decide +kernel

/-- Non-vacuity: the events tell where `HEAD` was. -/
example :
    HeadWas (exUndoEnv [] none).loadSnapshot (AMap.get? (exUndoRefs (oidN 0)))
      ((Replayer.fromEvents t!"refs/heads/main" exUndoRaw).events.drop 1) (.detached (oidN 0)) ∧
    HeadWas (exUndoEnv [] none).loadSnapshot (AMap.get? (exUndoRefs (oidN 0)))
      ((Replayer.fromEvents t!"refs/heads/main" exUndoSnapshotRaw).events.drop 1) (.symbolic t!"refs/heads/main") := by
  have h : (Replayer.fromEvents t!"refs/heads/main" exUndoRaw).events.drop 1 = exUndoRaw.drop 1 := by decide +kernel
  have h' : (Replayer.fromEvents t!"refs/heads/main" exUndoSnapshotRaw).events.drop 1 = exUndoSnapshotRaw.drop 1 := by
    decide +kernel
  rw [h, h']
  refine ⟨?_, ?_⟩
  · refine .moved (pre := [_]) ?_ (by simp only [exUndoEnv]; rw [if_neg (by decide +kernel)])
    intro e he
    rw [List.mem_singleton.1 he]
    nofun
  · exact .branch (pre := []) (b := t!"main") (h := oidN 0) (u := oidN 92) (by simp)
      (by simp only [exUndoEnv]; rfl) (by decide +kernel)

/-! ### where it does not hold -/

/-- Undoing an undo brings the references back: C13 for the whole command. The log tells how all references came
about. -/
def UndoCanBeUndone : Prop :=
  ∀ (env : UndoEnv) (graph : CommitGraph Oid) (w w1 w2 : RepoWorld) (raw : List Event) (n m : Nat),
    env.txVar = none →
    UndoSetting w (Replayer.fromEvents env.checkout.mainBranch raw) env.checkout.mainBranch raw 0 (fun _ => none) →
    undoCommand env graph w false true = (.done n, w1) → undoCommand env graph w1 false true = (.done m, w2) →
    ∀ name, w2.git.refs.get? name = w.git.refs.get? name

/-- C13, C93: undoing does not record how it changes references, so undoing again undoes the same events again. -/
theorem undo_cannot_be_undone : ¬ UndoCanBeUndone := by
  intro h
  let refs : Refs := [(t!"refs/heads/main", oidN 0), (t!"refs/heads/b", oidN 1)]
  let w := exUndoRepo exUndoMoveRaw refs (.symbolic t!"refs/heads/main")
  let x1 := undoCommand (exUndoEnv [] none) exFork w false true
  let x2 := undoCommand (exUndoEnv [] none) exFork x1.2 false true
  have hx1 : x1 = (.done 1, x1.2) := Prod.ext (by decide +kernel) rfl
  have hx2 : x2 = (.done 1, x2.2) := Prod.ext (by decide +kernel) rfl
  have hset : UndoSetting w (Replayer.fromEvents t!"refs/heads/main" exUndoMoveRaw) t!"refs/heads/main" exUndoMoveRaw 0
      (fun _ => none) := by
    refine ⟨rfl, by decide +kernel, rfl, by decide +kernel, by unfold AMap.WF; decide +kernel, fun a b ha => absurd rfl ha, ?_⟩
    have he : (Replayer.fromEvents t!"refs/heads/main" exUndoMoveRaw).events.drop 0 = exUndoMoveRaw := by decide +kernel
    rw [he]
    have hkey : ∀ {o : Oid} {k : Text},
        AMap.get? ([(t!"refs/heads/main", oidN 0), (t!"refs/heads/b", o)] : Refs) k ≠ none →
        k = t!"refs/heads/main" ∨ k = t!"refs/heads/b" := by
      intro o k hk
      simp only [AMap.get?_cons, AMap.get?_nil] at hk
      split at hk
      · rename_i h; exact .inl h.symm
      · split at hk
        · rename_i h; exact .inr h.symm
        · exact absurd rfl hk
    have hpath : ∀ o : Oid, PathOk (AMap.get? ([(t!"refs/heads/main", oidN 0), (t!"refs/heads/b", o)] : Refs)) := by
      intro o a b ha hb
      rcases hkey ha with rfl | rfl <;> rcases hkey hb with rfl | rfl <;> decide
    have e1 : RefStep (fun _ => none) (.refUpdate 1 (.id 1) t!"refs/heads/main" .zero (.nonZero (oidN 0)) none)
        (AMap.get? (exUndoRefs (oidN 0))) := by
      refine .update (by decide) rfl (by decide +kernel) ?_ (exUndo_path _)
      intro k hk
      simp [exUndoRefs, AMap.get?_cons, AMap.get?_nil, Ne.symm hk]
    have e2 : RefStep (AMap.get? (exUndoRefs (oidN 0)))
        (.refUpdate 2 (.id 2) t!"refs/heads/b" .zero (.nonZero (oidN 0)) none)
        (AMap.get? ([(t!"refs/heads/main", oidN 0), (t!"refs/heads/b", oidN 0)] : Refs)) := by
      refine .update (by decide) (by decide +kernel) (by decide +kernel) ?_ (hpath _)
      intro k hk
      simp [exUndoRefs, AMap.get?_cons, AMap.get?_nil, Ne.symm hk]
    have e3 : RefStep (AMap.get? ([(t!"refs/heads/main", oidN 0), (t!"refs/heads/b", oidN 0)] : Refs))
        (.refUpdate 3 (.id 3) t!"refs/heads/b" (.nonZero (oidN 0)) (.nonZero (oidN 1)) none)
        (AMap.get? refs) := by
      refine .update (by decide) (by decide +kernel) (by decide +kernel) ?_ (hpath _)
      intro k hk
      simp [refs, AMap.get?_cons, AMap.get?_nil, Ne.symm hk]
    exact .snoc (es := [_, _]) (.snoc (es := [_]) (.snoc (es := []) .nil e1) e2) e3
  have := h (exUndoEnv [] none) exFork w x1.2 x2.2 exUndoMoveRaw 1 1 rfl hset hx1 hx2 t!"refs/heads/b"
  revert this
  decide +kernel

/-- Choosing undoes whole transactions. -/
def UndoesWholeTransactions : Prop :=
  ∀ (draw : Cursor → Bool) (r : Replayer) (messages : List UndoMessage) (i : Nat),
    selectPastEvent draw r messages = .selected ⟨i⟩ → IsBoundary (r.events.map Event.txId) i

/-- C93: a position can be named which is in the middle of a transaction. -/
theorem goTo_splits_transaction : ¬ UndoesWholeTransactions := by
  intro h
  have := h (fun _ => true) (Replayer.fromEvents t!"refs/heads/main" exUndoRaw) [.goTo t!"2", .select] 2 (by decide +kernel)
  revert this
  decide +kernel

end Verif.Props

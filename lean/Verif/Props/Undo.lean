import Verif.Lemmas.Undo
import Verif.Props.Replay

/-! C11-C13: undo. -/

namespace Verif.Props

open Spec

theorem makeTransactionId_idle {db : Db} (h : db.pending = none) (env : Option Text) (m : Text) :
    (db.makeTransactionId env m).2.pending = none ∧
    (db.makeTransactionId env m).2.getEvents = db.getEvents := by
  unfold Db.makeTransactionId
  split
  · exact ⟨h, rfl⟩
  · exact ⟨h, rfl⟩

theorem eventsSinceCursor_ok (r : Replayer) {c : Nat} (h : c ≤ r.events.length) :
    r.eventsSinceCursor ⟨c⟩ = .ok (r.events.drop c) := by
  have : ¬ ((c : Int) < 0) := by omega
  simp [Replayer.eventsSinceCursor, Replayer.toUsize, this, h]

/-- What `undo_events` does when it was confirmed, in terms of the loop over the inverse events. -/
theorem undoEvents_run (w : UndoWorld) (r : Replayer) (c : Nat) (now : Timestamp)
    (env : Option Text) (h : c ≤ r.events.length) :
    let tx := (w.db.makeTransactionId env t!"undo").1
    let w0 : UndoWorld := { w with db := (w.db.makeTransactionId env t!"undo").2 }
    undoEvents w r ⟨c⟩ now env true = .ok
      (if (inverseEvents (r.events.drop c) now tx).isEmpty then (.nothingToDo, w0)
       else match applyInverses w0 ((inverseEvents (r.events.drop c) now tx).filter
            fun e => !isCheckoutEvent e) with
        | .error (err, w') => (.failed err, w')
        | .ok w' => (.applied (extractCheckoutTarget (inverseEvents (r.events.drop c) now tx)).1, w')) := by
  intro tx w0
  unfold undoEvents
  rw [eventsSinceCursor_ok r h]
  simp only [Bool.not_true, Bool.false_eq_true, ite_false]
  change (if (inverseEvents (r.events.drop c) now tx).isEmpty = true then _ else _) = _
  split
  · rfl
  · rw [extractCheckoutTarget_snd]
    split
    · rename_i heq; change applyInverses w0 _ = _ at heq; rw [heq]
    · rename_i heq; change applyInverses w0 _ = _ at heq; rw [heq]

/-- C11: if the events since the cursor describe how the references came from state `s` (the one at
the cursor) to what they are now, then undoing succeeds and brings every reference back to `s`. -/
theorem undo_restores_refs (w : UndoWorld) (r : Replayer) (c : Nat) (now : Timestamp)
    (env : Option Text) (h : c ≤ r.events.length) (s : RefState) (hs : PathOk s)
    (hd : Describes s (r.events.drop c) w.refs.get?) :
    ∃ res w', undoEvents w r ⟨c⟩ now env true = .ok (res, w') ∧
      (res = .nothingToDo ∨ ∃ target, res = .applied target) ∧
      ∀ name, w'.refs.get? name = s name := by
  rw [undoEvents_run w r c now env h]
  obtain ⟨w', h1, h2⟩ := applyInverses_describes hd hs now (w.db.makeTransactionId env t!"undo").1
    (w := { w with db := (w.db.makeTransactionId env t!"undo").2 }) (fun _ => rfl)
  by_cases he : (inverseEvents (r.events.drop c) now (w.db.makeTransactionId env t!"undo").1).isEmpty = true
  · rw [if_pos he]
    refine ⟨_, _, rfl, .inl rfl, ?_⟩
    rw [List.isEmpty_iff.1 he] at h1
    simp only [List.filter_nil, applyInverses, Except.ok.injEq] at h1
    rw [← h1] at h2
    exact h2
  · rw [if_neg he, h1]
    exact ⟨_, _, rfl, .inr ⟨_, rfl⟩, h2⟩

/-- Non-vacuity: a branch is moved and another one deleted. -/
example : ∃ (s : RefState) (w : UndoWorld),
    PathOk s ∧ s t!"refs/heads/a" = some oidA ∧ s t!"refs/heads/a/b" = none ∧
    Describes s [.refUpdate 1 (.id 1) t!"refs/heads/a" (.nonZero oidA) .zero none,
      .refUpdate 2 (.id 1) t!"refs/heads/a/b" .zero (.nonZero oidB) none] w.refs.get? := by
  let s0 : Refs := [(t!"refs/heads/a", oidA)]
  let s2 : Refs := [(t!"refs/heads/a/b", oidB)]
  refine ⟨AMap.get? s0, ⟨s2, {}⟩, ?_, by decide, by decide, ?_⟩
  · intro a b ha hb
    have key : ∀ k, AMap.get? s0 k ≠ none → k = t!"refs/heads/a" := by
      intro k hk; simp only [s0, AMap.get?_cons, AMap.get?_nil] at hk
      split at hk <;> simp_all
    rw [key a ha, key b hb]; decide
  · have e1 : RefStep (AMap.get? s0) (.refUpdate 1 (.id 1) t!"refs/heads/a" (.nonZero oidA) .zero none)
        (AMap.get? ([] : Refs)) := by
      refine .update (by decide) (by decide) (by decide) ?_ ?_
      · intro k hk
        simp [s0, AMap.get?_cons, AMap.get?_nil, Ne.symm hk]
      · intro a b ha; simp [AMap.get?_nil] at ha
    have e2 : RefStep (AMap.get? ([] : Refs)) (.refUpdate 2 (.id 1) t!"refs/heads/a/b" .zero (.nonZero oidB) none)
        (AMap.get? s2) := by
      refine .update (by decide) (by decide) (by decide) ?_ ?_
      · intro k hk
        simp [s2, AMap.get?_cons, AMap.get?_nil, Ne.symm hk]
      · intro a b ha hb
        have key : ∀ k, AMap.get? s2 k ≠ none → k = t!"refs/heads/a/b" := by
          intro k hk; simp only [s2, AMap.get?_cons, AMap.get?_nil] at hk
          split at hk <;> simp_all
        rw [key a ha, key b hb]; decide
    exact .snoc (es := [_]) (.snoc (es := []) .nil e1) e2

/-- C11: declining the confirmation changes no reference and records no event. -/
theorem undo_declined_changes_nothing (w : UndoWorld) (r : Replayer) (c : Nat) (now : Timestamp)
    (env : Option Text) (h : c ≤ r.events.length) :
    ∃ res w', undoEvents w r ⟨c⟩ now env false = .ok (res, w') ∧
      w'.refs = w.refs ∧ w'.db.rows = w.db.rows := by
  unfold undoEvents
  rw [eventsSinceCursor_ok r h]
  have hrows : (w.db.makeTransactionId env t!"undo").2.rows = w.db.rows := by
    unfold Db.makeTransactionId; split <;> rfl
  simp only [Bool.not_false, ite_true]
  split
  · exact ⟨_, _, rfl, rfl, hrows⟩
  · exact ⟨_, _, rfl, rfl, hrows⟩

/-! ### Where `HEAD` goes -/

/-- A former `HEAD` position which an event gives away: the position from which `HEAD` was moved,
or the snapshot taken of it. -/
inductive TellsFormerHead : Event → Oid → Prop
  | update (ts tx o new m) : TellsFormerHead (.refUpdate ts tx t!"HEAD" (.nonZero o) new m) o
  | snapshot (ts tx hd o nm) : TellsFormerHead (.snapshot ts tx hd o nm) o

theorem extract_fst_append (es : List Event) (e : Event) :
    (extractCheckoutTarget (es ++ [e])).1 =
      match e with
      | .refUpdate _ _ name _ (.nonZero o) _ =>
        if name = t!"HEAD" then some ⟨o, [t!"--detach"]⟩ else (extractCheckoutTarget es).1
      | .snapshot _ _ _ oid name =>
        some ⟨oid, match name with
          | some n => [t!"-B", (categorize n).renderSuffix]
          | none => []⟩
      | _ => (extractCheckoutTarget es).1 := by
  unfold extractCheckoutTarget
  rw [List.foldl_append, List.foldl_cons, List.foldl_nil]
  cases e with
  | refUpdate ts tx n old new m =>
    cases new with
    | zero => rfl
    | nonZero o => simp only [extractStep]; split <;> rfl
  | _ => rfl

/-- C11: the commit checked out at the end is the former `HEAD` told by the oldest event since the
cursor which tells one; there is no checkout iff no event tells one. -/
theorem undo_checkout_target (since : List Event) (now : Timestamp) (tx : TxId) (o : Oid) :
    (∃ t, (extractCheckoutTarget (inverseEvents since now tx)).1 = some t ∧ t.target = o) ↔
      ∃ pre e post, since = pre ++ e :: post ∧ TellsFormerHead e o ∧
        ∀ e' ∈ pre, ∀ o', ¬ TellsFormerHead e' o' := by
  induction since with
  | nil => simp [inverseEvents, extractCheckoutTarget]
  | cons e es ih =>
    -- the same decomposition for the tail
    have keep : (∀ o', ¬ TellsFormerHead e o') →
        ((∃ pre x post, e :: es = pre ++ x :: post ∧ TellsFormerHead x o ∧
          ∀ e' ∈ pre, ∀ o', ¬ TellsFormerHead e' o') ↔
        (∃ pre x post, es = pre ++ x :: post ∧ TellsFormerHead x o ∧
          ∀ e' ∈ pre, ∀ o', ¬ TellsFormerHead e' o')) := by
      intro hno
      constructor
      · rintro ⟨pre, x, post, he, hx, hp⟩
        cases pre with
        | nil => simp at he; rw [← he.1] at hx; exact absurd hx (hno o)
        | cons y pre =>
          simp at he
          exact ⟨pre, x, post, he.2, hx, fun e' he' => hp e' (by simp [he'])⟩
      · rintro ⟨pre, x, post, rfl, hx, hp⟩
        refine ⟨e :: pre, x, post, rfl, hx, ?_⟩
        intro e' he'
        rcases List.mem_cons.1 he' with rfl | he'
        · exact hno
        · exact hp e' he'
    have take : ∀ o', TellsFormerHead e o' →
        ((∃ pre x post, e :: es = pre ++ x :: post ∧ TellsFormerHead x o ∧
          ∀ e' ∈ pre, ∀ o', ¬ TellsFormerHead e' o') ↔ o = o') := by
      intro o' ho'
      constructor
      · rintro ⟨pre, x, post, he, hx, hp⟩
        cases pre with
        | nil => simp at he; rw [← he.1] at hx; cases hx <;> cases ho' <;> rfl
        | cons y pre => simp at he; exact absurd ho' (by rw [he.1]; exact hp y (by simp) o')
      · rintro rfl
        exact ⟨[], e, es, rfl, ho', by simp⟩
    rw [inverseEvents_cons]
    cases e with
    | refUpdate ts tx' n old new m =>
      cases old with
      | zero =>
        rw [keep (by intro o' h; cases h), ← ih]
        by_cases hn : n = t!"HEAD"
        · simp [isInitialHeadUpdate, hn]
        · simp only [isInitialHeadUpdate, beq_iff_eq, hn, ite_false, inverseEvent,
            extract_fst_append]
      | nonZero p =>
        simp only [isInitialHeadUpdate, Bool.false_eq_true, ite_false, inverseEvent,
          extract_fst_append]
        by_cases hn : n = t!"HEAD"
        · subst hn
          rw [take p (.update ..)]
          simp [eq_comm]
        · rw [keep (by intro o' h; cases h; exact hn rfl), ← ih]
          simp [hn]
    | snapshot ts tx' hd p nm =>
      rw [take p (.snapshot ..)]
      simp only [isInitialHeadUpdate, Bool.false_eq_true, ite_false, inverseEvent,
          extract_fst_append]
      simp [eq_comm]
    | _ =>
      rw [keep (by intro o' h; cases h), ← ih]
      simp only [isInitialHeadUpdate, Bool.false_eq_true, ite_false, inverseEvent,
          extract_fst_append]

example : ∃ t, (extractCheckoutTarget (inverseEvents
    [.refUpdate 1 (.id 1) t!"HEAD" (.nonZero oidA) (.nonZero oidB) none, .commit 1 (.id 1) oidC,
     .refUpdate 2 (.id 1) t!"HEAD" (.nonZero oidB) (.nonZero oidC) none] 5 (.id 2))).1 = some t
      ∧ t.target = oidA := by decide

/-! ## C12 -/

/-- The log after a confirmed and successful undo: the inverses of the commit events are appended,
the newest first. -/
theorem undo_log (w w' : UndoWorld) (r : Replayer) (c : Nat) (now : Timestamp) (raw : List Event)
    (hidle : w.db.pending = none) (hraw : w.db.getEvents = some raw) (h : c ≤ r.events.length)
    (res : UndoResult) (hok : res = .nothingToDo ∨ ∃ target, res = .applied target)
    (hrun : undoEvents w r ⟨c⟩ now none true = .ok (res, w')) :
    ∃ n, w'.db.getEvents = some (raw ++ loggedInverses (r.events.drop c) now (.id n)) := by
  have hid := makeTransactionId_idle hidle none t!"undo"
  rw [undoEvents_run w r c now none h] at hrun
  have htx : ∃ n, (w.db.makeTransactionId none t!"undo").1 = .id n := ⟨_, rfl⟩
  obtain ⟨n, htx⟩ := htx
  rw [htx] at hrun
  refine ⟨n, ?_⟩
  have hst : storable (loggedInverses (r.events.drop c) now (.id n))
      = loggedInverses (r.events.drop c) now (.id n) := by
    generalize r.events.drop c = es
    induction es with
    | nil => rfl
    | cons e es ih =>
      rw [loggedInverses_cons]
      unfold storable at *
      rw [List.filter_append, ih]
      congr 1
      cases e <;> simp [isLogged, inverseEvent, Event.txId]
  split at hrun
  · rename_i he
    cases hrun
    simp only
    rw [hid.2, hraw]
    unfold loggedInverses
    rw [List.isEmpty_iff.1 he]
    simp
  · split at hrun
    · cases hrun; rcases hok with h | ⟨_, h⟩ <;> cases h
    · rename_i w1 heq
      cases hrun
      rw [applyInverses_db heq, foldl_addEvents_singletons _ hid.1]
      have := add_events_appends _ raw (loggedInverses (r.events.drop c) now (.id n)) hid.1
        (by rw [hid.2, hraw])
      rw [hst] at this
      exact this.1

/-- Status of a commit in the repository with the given log. -/
def statusNow (mb : Text) (es : List Event) (oid : Oid) : ActivityStatus :=
  (Replayer.fromEvents mb es).activityStatus (Replayer.fromEvents mb es).makeDefaultCursor oid

/-- Status of a commit at an earlier cursor. -/
def statusAt (mb : Text) (es : List Event) (c : Nat) (oid : Oid) : ActivityStatus :=
  (Replayer.fromEvents mb es).activityStatus ⟨c⟩ oid

/-- The log `raw'` results from undoing log `raw` to cursor `c`. -/
def UndoneTo (mb : Text) (raw : List Event) (c : Nat) (raw' : List Event) : Prop :=
  ∃ (w w' : UndoWorld) (now : Timestamp) (res : UndoResult),
    w.db.pending = none ∧ w.db.getEvents = some raw ∧
    undoEvents w (Replayer.fromEvents mb raw) ⟨c⟩ now none true = .ok (res, w') ∧
    (res = .nothingToDo ∨ ∃ target, res = .applied target) ∧ w'.db.getEvents = some raw'

theorem undone_lastEffect {mb : Text} {raw raw' : List Event} {c : Nat}
    (h : c ≤ (Replayer.fromEvents mb raw).events.length) (hu : UndoneTo mb raw c raw') (oid : Oid) :
    ∃ now tx, (lastEffect oid raw').map Prod.snd =
      ((firstEvent oid ((Replayer.fromEvents mb raw).events.drop c)).bind fun e =>
        effectOn oid (inverseEvent now tx e)).or
        ((lastEffect oid raw).map Prod.snd) := by
  obtain ⟨w, w', now, res, h1, h2, h3, h4, h5⟩ := hu
  obtain ⟨n, hn⟩ := undo_log w w' _ c now raw h1 h2 h res h4 h3
  rw [hn] at h5
  cases h5
  refine ⟨now, .id n, ?_⟩
  rw [lastEffect_append_list, ← lastEffect_loggedInverses]
  cases lastEffect oid (loggedInverses ((Replayer.fromEvents mb raw).events.drop c) now (.id n)) <;> simp

theorem statusNow_eq (mb : Text) (es : List Event) (oid : Oid) :
    statusNow mb es oid = match (lastEffect oid es).map Prod.snd with
      | some true => .active
      | some false => .obsolete
      | none => .inactive := by
  unfold statusNow
  rw [activity_status_now]
  cases h : lastEffect oid es with
  | none => rfl
  | some x => obtain ⟨e, b⟩ := x; cases b <;> rfl

theorem statusAt_eq (mb : Text) (es : List Event) (c : Nat) (oid : Oid) :
    statusAt mb es c oid =
      match (lastEffect oid ((Replayer.fromEvents mb es).events.take c)).map Prod.snd with
      | some true => .active
      | some false => .obsolete
      | none => .inactive := by
  unfold statusAt
  rw [activity_status_exact]
  cases h : lastEffect oid ((Replayer.fromEvents mb es).events.take c) with
  | none => rfl
  | some x => obtain ⟨e, b⟩ := x; cases b <;> rfl

/-- C12: a commit which no undone event mentions keeps its status. -/
theorem undo_keeps_unmentioned (mb : Text) (raw raw' : List Event) (c : Nat)
    (h : c ≤ (Replayer.fromEvents mb raw).events.length) (hu : UndoneTo mb raw c raw') (oid : Oid)
    (hno : ∀ e ∈ (Replayer.fromEvents mb raw).events.drop c, effectOn oid e = none) :
    statusNow mb raw' oid = statusNow mb raw oid ∧ statusNow mb raw' oid = statusAt mb raw c oid := by
  obtain ⟨now, tx, hl⟩ := undone_lastEffect h hu oid
  have hf : firstEvent oid ((Replayer.fromEvents mb raw).events.drop c) = none := by
    unfold firstEvent
    rw [List.find?_eq_none]
    intro e he; simp [hno e he]
  rw [hf] at hl
  simp only [Option.bind_none, Option.none_or] at hl
  refine ⟨by rw [statusNow_eq, statusNow_eq, hl], ?_⟩
  rw [statusNow_eq, statusAt_eq, hl, ← lastEffect_events mb raw]
  conv => lhs; rw [← List.take_append_drop c (Replayer.fromEvents mb raw).events]
  rw [lastEffect_append_list, (lastEffect_eq_none_iff _ _).2 hf]
  simp

/-- C12: a commit first created since the cursor is hidden by undo. (`e` is the first event since
the cursor which concerns it; a commit "rewritten into itself" does not count as created.) -/
theorem undo_hides_created (mb : Text) (raw raw' : List Event) (c : Nat)
    (h : c ≤ (Replayer.fromEvents mb raw).events.length) (hu : UndoneTo mb raw c raw') (oid : Oid)
    (e : Event) (pre post : List Event)
    (hd : (Replayer.fromEvents mb raw).events.drop c = pre ++ e :: post)
    (hpre : ∀ e' ∈ pre, effectOn oid e' = none) (he : effectOn oid e = some true)
    (hself : ∀ ts tx, e ≠ .rewrite ts tx (.nonZero oid) (.nonZero oid)) :
    statusNow mb raw' oid = .obsolete := by
  obtain ⟨now, tx, hl⟩ := undone_lastEffect h hu oid
  have hf : firstEvent oid ((Replayer.fromEvents mb raw).events.drop c) = some e := by
    unfold firstEvent
    rw [hd, List.find?_append, List.find?_eq_none.2 (by intro x hx; simp [hpre x hx])]
    simp [he]
  rw [hf] at hl
  have hi : effectOn oid (inverseEvent now tx e) = some false := by
    cases e with
    | rewrite ts tx' old new =>
      simp only [effectOn] at he
      split at he
      · rename_i hn
        subst hn
        simp only [inverseEvent, effectOn]
        rw [if_neg]
        · simp
        · rintro rfl; exact hself _ _ rfl
      · split at he <;> simp at he
    | commit ts tx' o => simp only [effectOn] at he; split at he <;> simp_all [inverseEvent, effectOn]
    | unobsolete ts tx' o => simp only [effectOn] at he; split at he <;> simp_all [inverseEvent, effectOn]
    | obsolete ts tx' o => simp only [effectOn] at he; split at he <;> simp_all
    | refUpdate ts tx' n old new m => simp [effectOn] at he
    | snapshot ts tx' hd o n => simp [effectOn] at he
  simp only [Option.bind_some, hi, Option.some_or] at hl
  rw [statusNow_eq, hl]

/-- C12: a commit whose first event since the cursor hid it is made visible again by undo. -/
theorem undo_shows_hidden (mb : Text) (raw raw' : List Event) (c : Nat)
    (h : c ≤ (Replayer.fromEvents mb raw).events.length) (hu : UndoneTo mb raw c raw') (oid : Oid)
    (e : Event) (pre post : List Event)
    (hd : (Replayer.fromEvents mb raw).events.drop c = pre ++ e :: post)
    (hpre : ∀ e' ∈ pre, effectOn oid e' = none) (he : effectOn oid e = some false) :
    statusNow mb raw' oid = .active := by
  obtain ⟨now, tx, hl⟩ := undone_lastEffect h hu oid
  have hf : firstEvent oid ((Replayer.fromEvents mb raw).events.drop c) = some e := by
    unfold firstEvent
    rw [hd, List.find?_append, List.find?_eq_none.2 (by intro x hx; simp [hpre x hx])]
    simp [he]
  rw [hf] at hl
  have hi : effectOn oid (inverseEvent now tx e) = some true := by
    cases e with
    | rewrite ts tx' old new =>
      simp only [effectOn] at he
      split at he
      · simp at he
      · split at he
        · rename_i ho; simp [inverseEvent, effectOn, ho]
        · simp at he
    | commit ts tx' o => simp only [effectOn] at he; split at he <;> simp_all
    | unobsolete ts tx' o => simp only [effectOn] at he; split at he <;> simp_all
    | obsolete ts tx' o =>
      simp only [effectOn] at he; split at he <;> simp_all [inverseEvent, effectOn]
    | refUpdate ts tx' n old new m => simp [effectOn] at he
    | snapshot ts tx' hd o n => simp [effectOn] at he
  simp only [Option.bind_some, hi, Option.some_or] at hl
  rw [statusNow_eq, hl]

/-- What C12 asks: after undo exactly those commits are active which were active at the cursor. -/
def UndoRestoresVisibility : Prop :=
  ∀ mb raw raw' c, c ≤ (Replayer.fromEvents mb raw).events.length → UndoneTo mb raw c raw' →
    ∀ oid, statusNow mb raw' oid = .active ↔ statusAt mb raw c oid = .active

/-- C12, finding: the code does not satisfy `UndoRestoresVisibility`. `git unhide` of a commit which
is not hidden ("this operation had no effect") is recorded; `git undo` of it hides the commit. -/
theorem undo_of_redundant_unhide_hides : ¬ UndoRestoresVisibility := by
  intro h
  let raw : List Event := [.commit 1 (.id 1) oidA, .unobsolete 2 (.id 2) oidA]
  let db : Db := ({} : Db).addEvents raw
  let w : UndoWorld := ⟨[], db⟩
  have hr : (undoEvents w (Replayer.fromEvents t!"refs/heads/main" raw) ⟨1⟩ 3 none true).toOption.map
      (fun x => (x.1, x.2.db.getEvents))
      = some (.applied none, some (raw ++ [.obsolete 3 (.id 1) oidA])) := by decide
  cases hrun : undoEvents w (Replayer.fromEvents t!"refs/heads/main" raw) ⟨1⟩ 3 none true with
  | error p => rw [hrun] at hr; simp [Except.toOption] at hr
  | ok x =>
    obtain ⟨res, w'⟩ := x
    rw [hrun] at hr
    simp only [Except.toOption, Option.map_some, Option.some.injEq, Prod.mk.injEq] at hr
    have := (h t!"refs/heads/main" raw _ 1 (by decide)
      ⟨w, w', 3, res, by decide, by decide, hrun, .inr ⟨_, hr.1⟩, hr.2⟩ oidA).2 (by decide)
    revert this
    decide

/-- C12 (partial): visibility is restored for every commit for which the first event since the
cursor, if any, really changed it - that is, hid it if it was active, showed it if it was not.
(Missing: redundant events, see `undo_of_redundant_unhide_hides`.) -/
theorem undo_restores_visibility_partial (mb : Text) (raw raw' : List Event) (c : Nat)
    (h : c ≤ (Replayer.fromEvents mb raw).events.length) (hu : UndoneTo mb raw c raw') (oid : Oid)
    (hreal : ∀ pre e post b, (Replayer.fromEvents mb raw).events.drop c = pre ++ e :: post →
      (∀ e' ∈ pre, effectOn oid e' = none) → effectOn oid e = some b →
      (b = true ↔ statusAt mb raw c oid ≠ .active) ∧
      ∀ ts tx, e ≠ .rewrite ts tx (.nonZero oid) (.nonZero oid)) :
    statusNow mb raw' oid = .active ↔ statusAt mb raw c oid = .active := by
  by_cases hno : ∀ e ∈ (Replayer.fromEvents mb raw).events.drop c, effectOn oid e = none
  · rw [(undo_keeps_unmentioned mb raw raw' c h hu oid hno).2]
  · have hex : ∃ pre e post, (Replayer.fromEvents mb raw).events.drop c = pre ++ e :: post ∧
        (∀ e' ∈ pre, effectOn oid e' = none) ∧ effectOn oid e ≠ none := by
      generalize (Replayer.fromEvents mb raw).events.drop c = es at hno
      induction es with
      | nil => simp at hno
      | cons x es ih =>
        by_cases hx : effectOn oid x = none
        · obtain ⟨pre, e, post, h1, h2, h3⟩ := ih (by simpa [hx] using hno)
          refine ⟨x :: pre, e, post, by simp [h1], ?_, h3⟩
          intro e' he'
          rcases List.mem_cons.1 he' with rfl | he'
          · exact hx
          · exact h2 e' he'
        · exact ⟨[], x, es, rfl, by simp, hx⟩
    obtain ⟨pre, e, post, hd, hpre, he⟩ := hex
    cases hb : effectOn oid e with
    | none => exact absurd hb he
    | some b =>
      obtain ⟨h1, h2⟩ := hreal pre e post b hd hpre hb
      cases b with
      | true =>
        rw [undo_hides_created mb raw raw' c h hu oid e pre post hd hpre hb h2]
        simpa using h1
      | false =>
        rw [undo_shows_hidden mb raw raw' c h hu oid e pre post hd hpre hb]
        simpa using h1

/-- Non-vacuity: hiding a commit and undoing this. -/
example :
    let raw : List Event := [.commit 1 (.id 1) oidA, .obsolete 2 (.id 2) oidA]
    let db : Db := ({} : Db).addEvents raw
    (undoEvents ⟨[], db⟩ (Replayer.fromEvents t!"refs/heads/main" raw) ⟨1⟩ 3 none true).toOption.map
      (fun x => (x.1, x.2.db.getEvents))
      = some (.applied none, some (raw ++ [.unobsolete 3 (.id 1) oidA])) ∧
    statusNow t!"refs/heads/main" (raw ++ [.unobsolete 3 (.id 1) oidA]) oidA = .active ∧
    statusAt t!"refs/heads/main" raw 1 oidA = .active := by decide

/-! ## C13 -/

/-- C13: inverting twice gives an event with the same effect on every reference and commit. -/
theorem inverse_twice (e : Event) (now now' : Timestamp) (tx tx' : TxId) :
    (∀ name, updateOf name (inverseEvent now' tx' (inverseEvent now tx e)) = updateOf name e) ∧
    (∀ oid, effectOn oid (inverseEvent now' tx' (inverseEvent now tx e)) = effectOn oid e) ∧
    (∀ ts t n old new m, e = .refUpdate ts t n old new m →
      inverseEvent now' tx' (inverseEvent now tx e) = .refUpdate now' tx' n old new none) := by
  cases e <;> exact ⟨fun _ => rfl, fun _ => rfl, by intros; simp_all [inverseEvent]⟩

theorem lastEffect_filterLogged (oid : Oid) (es : List Event) :
    lastEffect oid (es.filter isLogged) = lastEffect oid es := by
  induction es using snocInduction with
  | h0 => rfl
  | h1 es e ih =>
    rw [List.filter_append, Replayer.lastEffect_append]
    cases hl : isLogged e with
    | true => simp [hl, Replayer.lastEffect_append, ih]
    | false => simp [hl, effectOn_not_logged hl, ih]

theorem foldl_processEvent_logged (r : Replayer) (X : List Event) :
    ∃ Y, (X.foldl Replayer.processEvent r).events = r.events ++ Y ∧
      Y.filter isLogged = X.filter isLogged := by
  induction X generalizing r with
  | nil => exact ⟨[], by simp, rfl⟩
  | cons e X ih =>
    obtain ⟨Y, h1, h2⟩ := ih (r.processEvent e)
    rw [List.foldl_cons, h1]
    by_cases h : ∃ ts tx nm old new m, e = .refUpdate ts tx nm old new m
    · obtain ⟨ts, tx, nm, old, new, m, rfl⟩ := h
      rcases processEvent_refUpdate r ts tx nm old new m with h | ⟨old', h⟩
      · rw [h]
        exact ⟨Y, rfl, by simp [h2, isLogged]⟩
      · rw [h, Replayer.record_events]
        exact ⟨.refUpdate ts tx nm old' new m :: Y, by simp, by simp [h2, isLogged, List.filter_cons]⟩
    · rw [processEvent_other _ _ (fun ts tx nm old new m he => h ⟨ts, tx, nm, old, new, m, he⟩),
        Replayer.record_events]
      exact ⟨e :: Y, by simp, by simp [h2, List.filter_cons]⟩

theorem firstEvent_filterLogged (oid : Oid) (es : List Event) :
    firstEvent oid (es.filter isLogged) = firstEvent oid es := by
  unfold firstEvent
  induction es with
  | nil => rfl
  | cons e es ih =>
    rw [List.filter_cons, List.find?_cons]
    cases hl : isLogged e with
    | true => simp only [ite_true, List.find?_cons, ih]
    | false => simp [effectOn_not_logged hl, ih]

theorem firstEvent_loggedInverses (oid : Oid) (es : List Event) (now : Timestamp) (tx : TxId) :
    firstEvent oid (loggedInverses es now tx)
      = (lastEffect oid es).map fun x => inverseEvent now tx x.1 := by
  induction es using snocInduction with
  | h0 => rfl
  | h1 es e ih =>
    have hsnoc : loggedInverses (es ++ [e]) now tx
        = (if isLogged e then [inverseEvent now tx e] else []) ++ loggedInverses es now tx := by
      unfold loggedInverses
      rw [inverseEvents_snoc, List.filter_append, List.filter_append]
      congr 1
      cases e with
      | refUpdate ts tx' n old new m =>
        cases h : isInitialHeadUpdate (.refUpdate ts tx' n old new m) with
        | true => simp [isLogged]
        | false => simp [isLogged, inverseEvent, List.filter_cons]
      | _ => simp [isInitialHeadUpdate, isLogged, inverseEvent, isCheckoutEvent]
    rw [hsnoc, Replayer.lastEffect_append]
    have hinv := effectOn_inverse e oid now tx
    cases hl : isLogged e with
    | false => simpa [effectOn_not_logged hl] using ih
    | true =>
      unfold firstEvent at *
      simp only [ite_true, List.singleton_append, List.find?_cons, hinv]
      cases effectOn oid e with
      | none => simpa using ih
      | some b => rfl

/-- C13: redo. Let `raw` be the log before an undo to cursor `c`. The undo appends `X`: its inverse
events, possibly mixed with events about references recorded by the hooks (`UndoneTo` and
`undo_log` say that `raw ++ X` arises in this way). Undoing the undo - going back to the end of
`raw` - gives every commit the status it had before the first undo, whatever events were undone. -/
theorem redo_restores_status (mb : Text) (raw X raw2 : List Event) (c : Nat) (now : Timestamp)
    (tx : TxId)
    (hX : X.filter isLogged = loggedInverses ((Replayer.fromEvents mb raw).events.drop c) now tx)
    (hu : UndoneTo mb (raw ++ X) (Replayer.fromEvents mb raw).events.length raw2) (oid : Oid) :
    statusNow mb raw2 oid = statusNow mb raw oid := by
  have hfold : Replayer.fromEvents mb (raw ++ X)
      = X.foldl Replayer.processEvent (Replayer.fromEvents mb raw) := by
    simp [Replayer.fromEvents]
  obtain ⟨Y, hY, hY2⟩ := foldl_processEvent_logged (Replayer.fromEvents mb raw) X
  rw [← hfold] at hY
  obtain ⟨now', tx', hl⟩ := undone_lastEffect (by rw [hY]; simp) hu oid
  rw [hY, List.drop_left, ← firstEvent_filterLogged, hY2, hX, firstEvent_loggedInverses] at hl
  rw [statusNow_eq, statusNow_eq, hl]
  have hsplit : lastEffect oid raw
      = (lastEffect oid ((Replayer.fromEvents mb raw).events.drop c)).or
        (lastEffect oid ((Replayer.fromEvents mb raw).events.take c)) := by
    rw [← lastEffect_events mb raw]
    conv => lhs; rw [← List.take_append_drop c (Replayer.fromEvents mb raw).events]
    rw [lastEffect_append_list]
  cases hlast : lastEffect oid ((Replayer.fromEvents mb raw).events.drop c) with
  | some x =>
    obtain ⟨e, b⟩ := x
    have he : effectOn oid e = some b := by
      unfold lastEffect at hlast
      obtain ⟨a, _, ha⟩ := List.exists_of_findSome?_eq_some hlast
      cases hh : effectOn oid a with
      | none => rw [hh] at ha; simp at ha
      | some b' => rw [hh] at ha; simp at ha; rw [← ha.1, ← ha.2, hh]
    rw [hsplit, hlast]
    simp [(inverse_twice e now now' tx tx').2.1, he]
  | none =>
    have hX0 : lastEffect oid X = none := by
      rw [← lastEffect_filterLogged, hX, lastEffect_eq_none_iff, firstEvent_loggedInverses, hlast]
      rfl
    rw [lastEffect_append_list, hX0]
    simp

/-- Non-vacuity: undo and redo of a rewrite. -/
example :
    let raw : List Event := [.commit 1 (.id 1) oidA, .rewrite 2 (.id 2) (.nonZero oidA) (.nonZero oidB)]
    let X : List Event := [.rewrite 3 (.id 3) (.nonZero oidB) (.nonZero oidA),
      .refUpdate 3 (.id 3) t!"refs/heads/x" (.nonZero oidB) (.nonZero oidA) none]
    X.filter isLogged
      = loggedInverses ((Replayer.fromEvents t!"refs/heads/main" raw).events.drop 1) 3 (.id 3) ∧
    (undoEvents ⟨[], ({} : Db).addEvents (raw ++ X)⟩
        (Replayer.fromEvents t!"refs/heads/main" (raw ++ X)) ⟨2⟩ 4 none true).toOption.map (·.1)
      = some (.applied none) := by decide

theorem describes_append {s s' s'' : RefState} {es es' : List Event} (h : Describes s es s')
    (h' : Describes s' es' s'') : Describes s (es ++ es') s'' := by
  induction h' with
  | nil => simpa using h
  | snoc _ hst ih => rw [← List.append_assoc]; exact .snoc ih hst

/-- The inverse events describe the way back. -/
theorem inverse_describes {s s' : RefState} {es : List Event} (h : Describes s es s')
    (hs : PathOk s) (now : Timestamp) (tx : TxId) : Describes s' (inverseEvents es now tx) s := by
  revert hs
  induction h with
  | nil => intro _; exact .nil
  | @snoc s2 s3 es e hd hst ih =>
    intro hs
    rw [inverseEvents_snoc]
    refine describes_append ?_ (ih hs)
    have hp := describes_pathOk hd hs
    cases hi : isInitialHeadUpdate e with
    | true =>
      cases hst with
      | update hn h1 h2 h3 h4 => rename_i ts tx1 n old new m; cases old <;> simp [isInitialHeadUpdate, hn] at hi
      | head => exact .nil
      | other _ => exact .nil
    | false =>
      refine .snoc (es := []) .nil ?_
      cases hst with
      | update hn h1 h2 h3 _ => exact .update hn h2 h1 (fun k hk => (h3 k hk).symm) hp
      | head => exact .head
      | other hno =>
        refine .other ?_
        intro ts tx' n old new m he
        cases e <;> simp [inverseEvent] at he
        exact hno _ _ _ _ _ _ rfl

/-- C13: redo of references, if the undo records how it changes them, which it does not (see
`undo_cannot_be_undone`). The events `orig` led from `s0` to `s1`; an undo brought the references
back to `s0` and its updates were recorded. Undoing this undo brings back `s1`. -/
theorem redo_restores_refs_partial (w : UndoWorld) (r : Replayer) (c : Nat) (now now' : Timestamp)
    (tx : TxId) (env : Option Text) (h : c ≤ r.events.length) (s0 s1 : RefState) (hs : PathOk s0)
    (orig : List Event) (h1 : Describes s0 orig s1)
    (hsince : r.events.drop c = inverseEvents orig now tx) (hw : w.refs.get? = s0) :
    ∃ res w', undoEvents w r ⟨c⟩ now' env true = .ok (res, w') ∧
      (res = .nothingToDo ∨ ∃ target, res = .applied target) ∧
      ∀ name, w'.refs.get? name = s1 name := by
  refine undo_restores_refs w r c now' env h s1 (describes_pathOk h1 hs) ?_
  rw [hsince, hw]
  exact inverse_describes h1 hs now tx

end Verif.Props

import Verif.Model.Undo
import Verif.Spec.Undo
import Verif.Lemmas.Replay
import Verif.Lemmas.EventLog

/-! Helper lemmas for undo. -/

namespace Verif

open Spec

/-- Events which `extract_checkout_target` takes out of the list. -/
def isCheckoutEvent : Event → Bool
  | .refUpdate _ _ name _ (.nonZero _) _ => name == t!"HEAD"
  | .snapshot .. => true
  | _ => false

theorem extractCheckoutTarget_snd (es : List Event) :
    (extractCheckoutTarget es).2 = es.filter fun e => !isCheckoutEvent e := by
  unfold extractCheckoutTarget
  suffices h : ∀ (es : List Event) (x : Option UndoCheckout × List Event),
      (es.foldl extractStep x).2 = x.2 ++ es.filter fun e => !isCheckoutEvent e by
    simpa using h es (none, [])
  intro es
  induction es with
  | nil => simp
  | cons e es ih =>
    intro x
    rw [List.foldl_cons, List.filter_cons, ih]
    cases e with
    | refUpdate ts tx n old new m =>
      cases new with
      | zero => simp [isCheckoutEvent, extractStep]
      | nonZero o => by_cases hn : n = t!"HEAD" <;> simp [isCheckoutEvent, extractStep, hn]
    | _ => simp [isCheckoutEvent, extractStep]

/-- Events of undo which are appended to the log. -/
def isLogged : Event → Bool
  | .refUpdate .. => false
  | .snapshot .. => false
  | _ => true

theorem applyInverses_append (w : UndoWorld) (es es' : List Event) :
    applyInverses w (es ++ es') = match applyInverses w es with
      | .ok w => applyInverses w es'
      | .error e => .error e := by
  induction es generalizing w with
  | nil => rfl
  | cons e es ih =>
    simp only [List.cons_append, applyInverses]
    cases applyInverse w e with
    | error err => rfl
    | ok w => exact ih w

theorem applyInverses_db {w w' : UndoWorld} {es : List Event} (h : applyInverses w es = .ok w') :
    w'.db = (es.filter isLogged).foldl (fun db e => db.addEvents [e]) w.db := by
  induction es generalizing w with
  | nil => simp [applyInverses] at h; simp [h]
  | cons e es ih =>
    simp only [applyInverses] at h
    cases he : applyInverse w e with
    | error err => rw [he] at h; simp at h
    | ok w1 =>
      rw [he] at h
      have := ih h
      rw [this, List.filter_cons]
      cases e with
      | refUpdate ts tx n old new m =>
        have : w1.db = w.db := by
          cases old <;> cases new <;> simp only [applyInverse] at he <;>
            (first | (cases he; rfl) | (split at he <;> cases he <;> rfl))
        simp [isLogged, this]
      | snapshot ts tx hd o n => simp only [applyInverse] at he; cases he; simp [isLogged]
      | _ => simp only [applyInverse] at he; cases he; simp [isLogged]

theorem foldl_addEvents_singletons (db : Db) (h : db.pending = none) (es : List Event) :
    es.foldl (fun db e => db.addEvents [e]) db = db.addEvents es := by
  rw [addEvents_eq db h]
  induction es generalizing db with
  | nil => simp
  | cons e es ih =>
    rw [List.foldl_cons, addEvents_eq db h, ih _ (by exact h)]
    cases he : e.toRow? <;> simp [he]

theorem PathOk.createReference {s : RefState} {refs : Refs} {n : Text} {o : Oid} (hs : PathOk s)
    (hn : s n = some o) (hr : ∀ k, k ≠ n → refs.get? k = s k) :
    createReference refs n o = .ok (refs.insert n o) := by
  unfold Verif.createReference
  rw [if_neg]
  simp only [List.any_eq_true, not_exists, not_and, Bool.not_eq_true]
  intro k hk
  rw [AMap.mem_keys_iff] at hk
  by_cases h : k = n
  · subst h
    exact hs k k (by simp [hn]) (by simp [hn])
  · rw [hr k h] at hk
    exact hs n k (by simp [hn]) (by cases hk' : s k <;> simp_all)

theorem applyInverse_step {s s' : RefState} {e : Event} (h : RefStep s e s') (hs : PathOk s)
    {w : UndoWorld} (hw : ∀ n, w.refs.get? n = s' n) (now : Timestamp) (tx : TxId) :
    ∃ w', applyInverses w (((if isInitialHeadUpdate e then [] else [inverseEvent now tx e])).filter
        fun e => !isCheckoutEvent e) = .ok w' ∧ ∀ n, w'.refs.get? n = s n := by
  cases h with
  | update hn h1 h2 h3 hp =>
    rename_i ts tx' n old new m
    have hi : isInitialHeadUpdate (.refUpdate ts tx' n old new m) = false := by
      cases old <;> simp [isInitialHeadUpdate, hn]
    simp only [hi, Bool.false_eq_true, ite_false, inverseEvent]
    have hc : isCheckoutEvent (.refUpdate now tx n new old none) = false := by
      cases old <;> simp [isCheckoutEvent, hn]
    simp only [List.filter_cons, hc, Bool.not_false, ite_true, List.filter_nil]
    cases old with
    | zero =>
      cases new with
      | zero =>
        refine ⟨w, rfl, fun k => ?_⟩
        by_cases hk : k = n
        · subst hk; rw [hw, h2, h1]
        · rw [hw, h3 k hk]
      | nonZero o =>
        have : w.refs.get? n = some o := by rw [hw, h2]; rfl
        simp only [applyInverses, applyInverse, this]
        refine ⟨_, rfl, fun k => ?_⟩
        simp only [deleteReference, AMap.get?_erase]
        by_cases hk : k = n
        · subst hk; simp [h1]
        · rw [if_neg (fun e => hk e.symm), hw, h3 k hk]
    | nonZero o =>
      have hcr : createReference w.refs n o = .ok (w.refs.insert n o) :=
        PathOk.createReference hs h1 (fun k hk => by rw [hw, h3 k hk])
      have ha : applyInverse w (.refUpdate now tx n new (.nonZero o) none)
          = .ok { w with refs := w.refs.insert n o } := by
        cases new <;> simp [applyInverse, hcr]
      simp only [applyInverses, ha]
      refine ⟨_, rfl, fun k => ?_⟩
      simp only [AMap.get?_insert]
      by_cases hk : n = k
      · subst hk; simp [h1]
      · rw [if_neg hk, hw, h3 k (fun e => hk e.symm)]
  | head =>
    rename_i ts tx' old new m
    refine ⟨w, ?_, hw⟩
    cases old with
    | zero => rfl
    | nonZero o => rfl
  | other hno =>
    cases e with
    | refUpdate ts tx n old new m => exact absurd rfl (hno ts tx n old new m)
    | snapshot ts tx h o n => exact ⟨w, rfl, hw⟩
    | commit ts tx o => exact ⟨_, rfl, hw⟩
    | obsolete ts tx o => exact ⟨_, rfl, hw⟩
    | unobsolete ts tx o => exact ⟨_, rfl, hw⟩
    | rewrite ts tx o n => exact ⟨_, rfl, hw⟩

theorem describes_pathOk {s s' : RefState} {es : List Event} (h : Describes s es s')
    (hs : PathOk s) : PathOk s' := by
  induction h with
  | nil => exact hs
  | snoc _ hst ih =>
    cases hst with
    | update _ _ _ _ hp => exact hp
    | head => exact ih
    | other _ => exact ih

theorem inverseEvents_snoc (es : List Event) (e : Event) (now : Timestamp) (tx : TxId) :
    inverseEvents (es ++ [e]) now tx =
      (if isInitialHeadUpdate e then [] else [inverseEvent now tx e]) ++ inverseEvents es now tx := by
  unfold inverseEvents
  rw [List.reverse_append, List.reverse_singleton, List.singleton_append, List.filter_cons]
  cases isInitialHeadUpdate e <;> simp

theorem applyInverses_describes {s s' : RefState} {es : List Event} (h : Describes s es s')
    (hs : PathOk s) (now : Timestamp) (tx : TxId) {w : UndoWorld}
    (hw : ∀ n, w.refs.get? n = s' n) :
    ∃ w', applyInverses w ((inverseEvents es now tx).filter fun e => !isCheckoutEvent e) = .ok w' ∧
      ∀ n, w'.refs.get? n = s n := by
  revert hs
  induction h generalizing w with
  | nil => exact fun _ => ⟨w, rfl, hw⟩
  | snoc hd hst ih =>
    intro hs
    obtain ⟨w1, h1, h2⟩ := applyInverse_step hst (describes_pathOk hd hs) hw now tx
    rw [inverseEvents_snoc, List.filter_append, applyInverses_append, h1]
    exact ih h2 hs

theorem inverseEvents_cons (e : Event) (es : List Event) (now : Timestamp) (tx : TxId) :
    inverseEvents (e :: es) now tx =
      inverseEvents es now tx ++ (if isInitialHeadUpdate e then [] else [inverseEvent now tx e]) := by
  unfold inverseEvents
  rw [List.reverse_cons, List.filter_append, List.map_append]
  cases h : isInitialHeadUpdate e <;> simp [h]

/-- The events which undo appends to the log. -/
def loggedInverses (since : List Event) (now : Timestamp) (tx : TxId) : List Event :=
  ((inverseEvents since now tx).filter fun e => !isCheckoutEvent e).filter isLogged

theorem loggedInverses_cons (e : Event) (es : List Event) (now : Timestamp) (tx : TxId) :
    loggedInverses (e :: es) now tx =
      loggedInverses es now tx ++ if isLogged e then [inverseEvent now tx e] else [] := by
  unfold loggedInverses
  rw [inverseEvents_cons, List.filter_append, List.filter_append]
  congr 1
  cases e with
  | refUpdate ts tx' n old new m =>
    cases h : isInitialHeadUpdate (.refUpdate ts tx' n old new m) with
    | true => simp [isLogged]
    | false => simp [isLogged, inverseEvent, List.filter_cons]
  | _ => simp [isInitialHeadUpdate, isLogged, inverseEvent, isCheckoutEvent]

theorem effectOn_not_logged {e : Event} (h : isLogged e = false) (oid : Oid) :
    effectOn oid e = none := by
  cases e <;> simp_all [isLogged, effectOn]

theorem effectOn_inverse (e : Event) (oid : Oid) (now : Timestamp) (tx : TxId) :
    (effectOn oid (inverseEvent now tx e)).isSome = (effectOn oid e).isSome := by
  cases e with
  | rewrite ts tx' old new =>
    simp only [inverseEvent, effectOn]
    by_cases h1 : old = .nonZero oid <;> by_cases h2 : new = .nonZero oid <;> simp [h1, h2]
  | commit ts tx' o => simp only [inverseEvent, effectOn]; split <;> rfl
  | obsolete ts tx' o => simp only [inverseEvent, effectOn]; split <;> rfl
  | unobsolete ts tx' o => simp only [inverseEvent, effectOn]; split <;> rfl
  | _ => rfl

/-- The first event of the list which has an effect on the commit. -/
def firstEvent (oid : Oid) (es : List Event) : Option Event :=
  es.find? fun e => (effectOn oid e).isSome

theorem lastEffect_loggedInverses (oid : Oid) (es : List Event) (now : Timestamp) (tx : TxId) :
    (lastEffect oid (loggedInverses es now tx)).map Prod.snd =
      (firstEvent oid es).bind fun e => effectOn oid (inverseEvent now tx e) := by
  induction es with
  | nil => rfl
  | cons e es ih =>
    rw [loggedInverses_cons]
    unfold firstEvent at *
    rw [List.find?_cons]
    cases hl : isLogged e with
    | false =>
      rw [effectOn_not_logged hl]
      simpa using ih
    | true =>
      simp only [ite_true, Replayer.lastEffect_append]
      have := effectOn_inverse e oid now tx
      cases h1 : effectOn oid e with
      | none =>
        rw [h1] at this
        cases h2 : effectOn oid (inverseEvent now tx e) with
        | none => simpa using ih
        | some b => rw [h2] at this; simp at this
      | some b =>
        rw [h1] at this
        cases h2 : effectOn oid (inverseEvent now tx e) with
        | none => rw [h2] at this; simp at this
        | some b' => simp [h2]

theorem lastEffect_append_list (oid : Oid) (es es' : List Event) :
    lastEffect oid (es ++ es') = (lastEffect oid es').or (lastEffect oid es) := by
  unfold lastEffect
  rw [List.reverse_append, List.findSome?_append]

theorem lastEffect_eq_none_iff (oid : Oid) (es : List Event) :
    lastEffect oid es = none ↔ firstEvent oid es = none := by
  unfold lastEffect firstEvent
  simp [List.findSome?_eq_none_iff, List.find?_eq_none]

end Verif

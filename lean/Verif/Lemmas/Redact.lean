import Verif.Spec.Describe
import Verif.Lemmas.RevsetEval

/-!
Lemmas for C79: replaying commutes with other names of references, and so does the redaction.
-/

namespace Verif.Spec

open Verif

/-! ### maps with other keys -/

theorem get?_mapKeys {β : Type} {ρ : Text → Text} (hρ : Function.Injective ρ) (m : AMap Text β) (k : Text) :
    AMap.get? (m.map fun e => (ρ e.1, e.2)) (ρ k) = AMap.get? m k := by
  induction m with
  | nil => rfl
  | cons e m ih =>
    obtain ⟨a, b⟩ := e
    simp only [List.map_cons, AMap.get?_cons, hρ.eq_iff]
    rw [ih]

theorem erase_mapKeys {β : Type} {ρ : Text → Text} (hρ : Function.Injective ρ) (m : AMap Text β) (k : Text) :
    AMap.erase (m.map fun e => (ρ e.1, e.2)) (ρ k) = (AMap.erase m k).map fun e => (ρ e.1, e.2) := by
  unfold AMap.erase
  rw [List.filter_map]
  congr 1
  apply List.filter_congr
  intro e _
  simp [hρ.eq_iff]

theorem insert_mapKeys {β : Type} {ρ : Text → Text} (hρ : Function.Injective ρ) (m : AMap Text β) (k : Text)
    (v : β) :
    AMap.insert (m.map fun e => (ρ e.1, e.2)) (ρ k) v = (AMap.insert m k v).map fun e => (ρ e.1, e.2) := by
  unfold AMap.insert
  rw [erase_mapKeys hρ]
  rfl

theorem get?_mapVals {α β : Type} [DecidableEq α] (f : β → β) (m : AMap α β) (k : α) :
    AMap.get? (m.map fun e => (e.1, f e.2)) k = (AMap.get? m k).map f := by
  induction m with
  | nil => rfl
  | cons e m ih =>
    obtain ⟨a, b⟩ := e
    simp only [List.map_cons, AMap.get?_cons]
    split
    · rfl
    · exact ih

theorem insert_mapVals {α β : Type} [DecidableEq α] (f : β → β) (m : AMap α β) (k : α) (v : β) :
    AMap.insert (m.map fun e => (e.1, f e.2)) k (f v) = (AMap.insert m k v).map fun e => (e.1, f e.2) := by
  unfold AMap.insert AMap.erase
  rw [List.filter_map]
  rfl

/-! ### replaying -/

def renameInfo (ρ : Text → Text) (i : EventInfo) : EventInfo := { i with event := renameEvent ρ i.event }

def renameReplayer (ρ : Text → Text) (r : Replayer) : Replayer where
  idCounter := r.idCounter
  events := r.events.map (renameEvent ρ)
  mainBranch := r.mainBranch
  commitHistory := r.commitHistory.map fun e => (e.1, e.2.map (renameInfo ρ))
  refLocations := r.refLocations.map fun e => (ρ e.1, e.2)

theorem shouldIgnore_rename {main : Text} {ρ : Text → Text} (h : Renaming main ρ) (name : Text) :
    shouldIgnoreRefUpdates (ρ name) = shouldIgnoreRefUpdates name := by
  by_cases hs : Secret main name
  · have hs' := h.secret _ hs
    have hi := h.internal name
    have hne : ∀ {n : Text} (t : Text), '/' ∈ n → '/' ∉ t → (n == t) = false := by
      intro n t h1 h2
      simp only [beq_eq_false_iff_ne, ne_eq]
      rintro rfl
      exact h2 h1
    unfold shouldIgnoreRefUpdates isGcRef
    rw [hne _ hs.2 (by decide : '/' ∉ t!"ORIG_HEAD"), hne _ hs.2 (by decide : '/' ∉ t!"CHERRY_PICK"),
      hne _ hs.2 (by decide : '/' ∉ t!"REBASE_HEAD"), hne _ hs.2 (by decide : '/' ∉ t!"CHERRY_PICK_HEAD"),
      hne _ hs.2 (by decide : '/' ∉ t!"AUTO_MERGE"), hne _ hs.2 (by decide : '/' ∉ t!"FETCH_HEAD"),
      hne _ hs'.2 (by decide : '/' ∉ t!"ORIG_HEAD"), hne _ hs'.2 (by decide : '/' ∉ t!"CHERRY_PICK"),
      hne _ hs'.2 (by decide : '/' ∉ t!"REBASE_HEAD"), hne _ hs'.2 (by decide : '/' ∉ t!"CHERRY_PICK_HEAD"),
      hne _ hs'.2 (by decide : '/' ∉ t!"AUTO_MERGE"), hne _ hs'.2 (by decide : '/' ∉ t!"FETCH_HEAD")]
    simp only [Bool.or_false]
    rw [Bool.eq_iff_iff, List.isPrefixOf_iff_prefix, List.isPrefixOf_iff_prefix]
    exact hi
  · rw [h.known _ hs]

theorem fixOldOid_rename {ρ : Text → Text} (hρ : Function.Injective ρ) (r : Replayer) (e : Event) :
    (renameReplayer ρ r).fixOldOid (renameEvent ρ e) = renameEvent ρ (r.fixOldOid e) := by
  cases e with
  | refUpdate ts tx name old new msg =>
    cases old with
    | zero =>
      cases new with
      | zero =>
        simp only [renameEvent, Replayer.fixOldOid, renameReplayer]
        rw [get?_mapKeys hρ]
      | nonZero o => rfl
    | nonZero o => rfl
  | _ => rfl

theorem fixEvent_rename {ρ : Text → Text} (hρ : Function.Injective ρ) (r : Replayer) (e : Event) :
    (renameReplayer ρ r).fixEvent (renameEvent ρ e) = (r.fixEvent e).map (renameEvent ρ) := by
  unfold Replayer.fixEvent
  rw [fixOldOid_rename hρ]
  have hl : (renameReplayer ρ r).events.getLast? = r.events.getLast?.map (renameEvent ρ) := by
    simp [renameReplayer, List.getLast?_map]
  rw [hl]
  generalize r.fixOldOid e = x
  generalize r.events.getLast? = l
  cases x with
  | refUpdate ts tx name old new msg =>
    cases new with
    | nonZero o => cases l <;> rfl
    | zero =>
      cases l with
      | none => rfl
      | some l =>
        cases l with
        | refUpdate ts' tx' name' old' new' msg' =>
          cases new' with
          | nonZero o => rfl
          | zero =>
            simp only [renameEvent, Option.map_some, hρ.eq_iff]
            split <;> rfl
        | _ => rfl
  | _ => cases l <;> rfl

theorem pushHistory_rename (ρ : Text → Text) (h : AMap Oid (List EventInfo)) (o : Oid) (i : EventInfo) :
    Replayer.pushHistory (h.map fun e => (e.1, e.2.map (renameInfo ρ))) o (renameInfo ρ i) =
      (Replayer.pushHistory h o i).map fun e => (e.1, e.2.map (renameInfo ρ)) := by
  unfold Replayer.pushHistory
  rw [get?_mapVals]
  have : (((AMap.get? h o).map (List.map (renameInfo ρ))).getD [] ++ [renameInfo ρ i]) =
      ((AMap.get? h o).getD [] ++ [i]).map (renameInfo ρ) := by
    cases AMap.get? h o <;> simp
  rw [this, insert_mapVals (List.map (renameInfo ρ))]

theorem record_rename {ρ : Text → Text} (hρ : Function.Injective ρ) (r : Replayer) (e : Event) :
    (renameReplayer ρ r).record (renameEvent ρ e) = renameReplayer ρ (r.record e) := by
  cases e with
  | rewrite ts tx old new =>
    cases old with
    | zero =>
      cases new with
      | zero => simp [renameEvent, Replayer.record, renameReplayer]
      | nonZero n =>
        simp only [renameEvent, Replayer.record, renameReplayer, List.map_append, List.map_cons, List.map_nil]
        rw [← pushHistory_rename]; rfl
    | nonZero o =>
      cases new with
      | zero =>
        simp only [renameEvent, Replayer.record, renameReplayer, List.map_append, List.map_cons, List.map_nil]
        rw [← pushHistory_rename]; rfl
      | nonZero n =>
        simp only [renameEvent, Replayer.record, renameReplayer, List.map_append, List.map_cons, List.map_nil]
        rw [← pushHistory_rename, ← pushHistory_rename]; rfl
  | refUpdate ts tx name old new msg =>
    cases new with
    | zero =>
      simp only [renameEvent, Replayer.record, renameReplayer, List.map_append, List.map_cons, List.map_nil]
      rw [erase_mapKeys hρ]
    | nonZero n =>
      simp only [renameEvent, Replayer.record, renameReplayer, List.map_append, List.map_cons, List.map_nil]
      rw [insert_mapKeys hρ]
  | commit ts tx o =>
    simp only [renameEvent, Replayer.record, renameReplayer, List.map_append, List.map_cons, List.map_nil]
    rw [← pushHistory_rename]; rfl
  | obsolete ts tx o =>
    simp only [renameEvent, Replayer.record, renameReplayer, List.map_append, List.map_cons, List.map_nil]
    rw [← pushHistory_rename]; rfl
  | unobsolete ts tx o =>
    simp only [renameEvent, Replayer.record, renameReplayer, List.map_append, List.map_cons, List.map_nil]
    rw [← pushHistory_rename]; rfl
  | snapshot ts tx head oid name => simp [renameEvent, Replayer.record, renameReplayer]

theorem processEvent_rename {main : Text} {ρ : Text → Text} (h : Renaming main ρ) (r : Replayer) (e : Event) :
    (renameReplayer ρ r).processEvent (renameEvent ρ e) = renameReplayer ρ (r.processEvent e) := by
  have key : ∀ b : Bool, (if b = true then renameReplayer ρ r else
      match (renameReplayer ρ r).fixEvent (renameEvent ρ e) with
      | none => renameReplayer ρ r
      | some e => (renameReplayer ρ r).record e) =
      renameReplayer ρ (if b = true then r else
      match r.fixEvent e with
      | none => r
      | some e => r.record e) := by
    intro b
    cases b with
    | true => rfl
    | false =>
      rw [if_neg (by decide), if_neg (by decide), fixEvent_rename h.injective]
      cases r.fixEvent e with
      | none => rfl
      | some x => exact record_rename h.injective r x
  unfold Replayer.processEvent
  cases e with
  | refUpdate ts tx name old new msg =>
    have := key (shouldIgnoreRefUpdates name)
    simp only [renameEvent, shouldIgnore_rename h] at this ⊢
    exact this
  | _ => exact key false

theorem fromEvents_rename {main : Text} {ρ : Text → Text} (h : Renaming main ρ) (m : Text) (events : List Event) :
    Replayer.fromEvents m (events.map (renameEvent ρ)) = renameReplayer ρ (Replayer.fromEvents m events) := by
  unfold Replayer.fromEvents
  have : ∀ (es : List Event) (r : Replayer), (es.map (renameEvent ρ)).foldl Replayer.processEvent (renameReplayer ρ r) =
      renameReplayer ρ (es.foldl Replayer.processEvent r) := by
    intro es
    induction es with
    | nil => intro r; rfl
    | cons e es ih =>
      intro r
      simp only [List.map_cons, List.foldl_cons]
      rw [processEvent_rename h, ih]
  exact this events (Replayer.new m)

/-! ### what is asked of the replayer -/

theorem renameEvent_txId (ρ : Text → Text) (e : Event) : (renameEvent ρ e).txId = e.txId := by cases e <;> rfl

theorem makeCursor_rename (ρ : Text → Text) (r : Replayer) (i : Int) :
    (renameReplayer ρ r).makeCursor i = r.makeCursor i := by
  simp [Replayer.makeCursor, renameReplayer]

theorem advanceCursor_rename (ρ : Text → Text) (r : Replayer) (c : Cursor) (i : Int) :
    (renameReplayer ρ r).advanceCursor c i = r.advanceCursor c i := makeCursor_rename ρ r _

theorem makeDefaultCursor_rename (ρ : Text → Text) (r : Replayer) :
    (renameReplayer ρ r).makeDefaultCursor = r.makeDefaultCursor := by
  unfold Replayer.makeDefaultCursor
  rw [makeCursor_rename]
  simp [renameReplayer]

theorem txIdBeforeCursor_rename (ρ : Text → Text) (r : Replayer) (c : Cursor) :
    (renameReplayer ρ r).txIdBeforeCursor c = r.txIdBeforeCursor c := by
  unfold Replayer.txIdBeforeCursor Replayer.eventBeforeCursor
  by_cases h0 : c.eventId = 0
  · rw [if_pos h0, if_pos h0]
  · rw [if_neg h0, if_neg h0]
    cases Replayer.toUsize (c.eventId - 1) with
    | error p => rfl
    | ok i =>
      have : (renameReplayer ρ r).events[i]? = (r.events[i]?).map (renameEvent ρ) := by
        simp [renameReplayer]
      simp only [this]
      cases r.events[i]? with
      | none => rfl
      | some e => simp [renameEvent_txId]

theorem snap_rename (ρ : Text → Text) (r : Replayer) (c : Cursor) :
    (renameReplayer ρ r).snapToTransactionBoundary c = r.snapToTransactionBoundary c := by
  fun_induction Replayer.snapToTransactionBoundary r c with
  | case1 c next h =>
    rw [Replayer.snapToTransactionBoundary]
    simp only [advanceCursor_rename]
    rw [dif_pos h]
  | case2 c next h nxt h2 h1 ih =>
    rw [Replayer.snapToTransactionBoundary]
    simp only [advanceCursor_rename, txIdBeforeCursor_rename]
    rw [dif_neg h, h1, h2]
    simp only [if_true]
    exact ih
  | case3 c next h cur nxt h1 h2 hne =>
    rw [Replayer.snapToTransactionBoundary]
    simp only [advanceCursor_rename, txIdBeforeCursor_rename]
    rw [dif_neg h, h1, h2]
    simp only [hne, if_false]
  | case4 c next h hno =>
    rw [Replayer.snapToTransactionBoundary]
    simp only [advanceCursor_rename, txIdBeforeCursor_rename]
    rw [dif_neg h]
    split
    · rename_i h1 h2
      exact absurd h2 (hno _ _ h1)
    · rfl

theorem helper_rename (ρ : Text → Text) (r : Replayer) (c : Cursor) (num : Int) :
    (renameReplayer ρ r).advanceCursorByTransactionHelper c num = r.advanceCursorByTransactionHelper c num := by
  fun_induction Replayer.advanceCursorByTransactionHelper r c num with
  | case1 c =>
    rw [Replayer.advanceCursorByTransactionHelper, if_pos rfl, snap_rename]
  | case2 c num h0 hpos next h =>
    rw [Replayer.advanceCursorByTransactionHelper, if_neg h0, if_pos hpos]
    simp only [advanceCursor_rename]
    rw [dif_pos h]
  | case3 c num h0 hpos next h cur nxt h1 h2 ih =>
    rw [Replayer.advanceCursorByTransactionHelper, if_neg h0, if_pos hpos]
    simp only [advanceCursor_rename, txIdBeforeCursor_rename]
    rw [dif_neg h, h1, h2]
    exact ih
  | case4 c num h0 hpos next h hno =>
    rw [Replayer.advanceCursorByTransactionHelper, if_neg h0, if_pos hpos]
    simp only [advanceCursor_rename, txIdBeforeCursor_rename]
    rw [dif_neg h]
    split
    · rename_i h1 h2
      exact absurd h2 (hno _ _ h1)
    · rfl
  | case5 c num h0 hneg prev h =>
    rw [Replayer.advanceCursorByTransactionHelper, if_neg h0, if_neg hneg]
    simp only [advanceCursor_rename]
    rw [dif_pos h]
  | case6 c num h0 hneg prev h cur nxt h1 h2 ih =>
    rw [Replayer.advanceCursorByTransactionHelper, if_neg h0, if_neg hneg]
    simp only [advanceCursor_rename, txIdBeforeCursor_rename]
    rw [dif_neg h, h1, h2]
    exact ih
  | case7 c num h0 hneg prev h hno =>
    rw [Replayer.advanceCursorByTransactionHelper, if_neg h0, if_neg hneg]
    simp only [advanceCursor_rename, txIdBeforeCursor_rename]
    rw [dif_neg h]
    split
    · rename_i h1 h2
      exact absurd h2 (hno _ _ h1)
    · rfl

theorem advanceByTx_rename (ρ : Text → Text) (r : Replayer) (c : Cursor) (num : Int) :
    (renameReplayer ρ r).advanceCursorByTransaction c num = r.advanceCursorByTransaction c num := by
  unfold Replayer.advanceCursorByTransaction
  rw [snap_rename]
  have : (renameReplayer ρ r).events.isEmpty = r.events.isEmpty := by simp [renameReplayer]
  rw [this]
  simp only [helper_rename]

theorem txEvents_rename (ρ : Text → Text) (r : Replayer) (c : Cursor) :
    (renameReplayer ρ r).txEventsBeforeCursor c =
      (r.txEventsBeforeCursor c).map fun o => o.map fun x => (x.1, x.2.map (renameEvent ρ)) := by
  unfold Replayer.txEventsBeforeCursor
  rw [advanceByTx_rename]
  cases r.advanceCursorByTransaction c (-1) with
  | error p => rfl
  | ok prev =>
    dsimp only
    cases Replayer.toUsize prev.eventId with
    | error p => cases Replayer.toUsize c.eventId <;> rfl
    | ok lo =>
      cases Replayer.toUsize c.eventId with
      | error p => rfl
      | ok hi =>
        dsimp only
        have hlen : (renameReplayer ρ r).events.length = r.events.length := by simp [renameReplayer]
        have htake : ((renameReplayer ρ r).events.take hi).drop lo =
            ((r.events.take hi).drop lo).map (renameEvent ρ) := by
          simp [renameReplayer, List.map_drop, List.map_take]
        rw [hlen, htake]
        split
        · cases (r.events.take hi).drop lo <;> rfl
        · rfl

theorem latestEvent_rename (ρ : Text → Text) (r : Replayer) (c : Cursor) (o : Oid) :
    (renameReplayer ρ r).latestEvent c o = (r.latestEvent c o).map (renameEvent ρ) := by
  unfold Replayer.latestEvent Replayer.cursorCommitHistory
  have : AMap.get? (renameReplayer ρ r).commitHistory o = (AMap.get? r.commitHistory o).map (List.map (renameInfo ρ)) :=
    get?_mapVals _ _ _
  rw [this]
  cases AMap.get? r.commitHistory o with
  | none => rfl
  | some h =>
    simp only [Option.map_some]
    rw [List.filter_map, List.getLast?_map]
    have : ((fun i : EventInfo => decide (i.id < c.eventId)) ∘ renameInfo ρ) = fun i => decide (i.id < c.eventId) := rfl
    rw [this]
    simp [renameInfo, Function.comp_def]

theorem findRewriteTarget_rename (ρ : Text → Text) (r : Replayer) (c : Cursor) (o : Oid) :
    findRewriteTarget (renameReplayer ρ r) c o = findRewriteTarget r c o := by
  have key : ∀ fuel o, findRewriteTargetFuel (renameReplayer ρ r) c fuel o = findRewriteTargetFuel r c fuel o := by
    intro fuel
    induction fuel with
    | zero => intro o; rfl
    | succ fuel ih =>
      intro o
      simp only [findRewriteTargetFuel, latestEvent_rename]
      cases r.latestEvent c o with
      | none => rfl
      | some e =>
        cases e with
        | rewrite ts tx old new =>
          cases old with
          | zero => rfl
          | nonZero old =>
            cases new with
            | zero => rfl
            | nonZero new => simp only [Option.map_some, renameEvent, ih]
        | _ => rfl
  unfold findRewriteTarget
  rw [key]
  simp [renameReplayer]

theorem describeObsolescence_rename (ρ : Text → Text) (r : Replayer) (c : Cursor) (o : Oid) :
    describeObsolescence (renameReplayer ρ r) c o = describeObsolescence r c o := by
  unfold describeObsolescence
  rw [latestEvent_rename, findRewriteTarget_rename]
  cases r.latestEvent c o with
  | none => rfl
  | some e => cases e <;> rfl

end Verif.Spec

import Verif.Lemmas.Cursor
import Verif.Lemmas.List

namespace Verif
open Spec

namespace Replayer

/-- The history entries which one event contributes for a commit. -/
def infos (oid : Oid) (e : Event) (i : Int) : List EventInfo :=
  match e with
  | .rewrite _ _ old new =>
    (if old = .nonZero oid then [⟨i, e, .hide⟩] else []) ++
    (if new = .nonZero oid then [⟨i, e, .show⟩] else [])
  | .commit _ _ o => if o = oid then [⟨i, e, .show⟩] else []
  | .unobsolete _ _ o => if o = oid then [⟨i, e, .show⟩] else []
  | .obsolete _ _ o => if o = oid then [⟨i, e, .hide⟩] else []
  | .refUpdate .. => []
  | .snapshot .. => []

/-- All history entries of a commit. -/
def allInfos (oid : Oid) (es : List Event) : List EventInfo :=
  es.zipIdx.flatMap fun p => infos oid p.1 p.2

@[simp] theorem allInfos_nil (oid : Oid) : allInfos oid [] = [] := rfl

theorem allInfos_append (oid : Oid) (es : List Event) (e : Event) :
    allInfos oid (es ++ [e]) = allInfos oid es ++ infos oid e es.length := by
  simp [allInfos, List.zipIdx_append]

theorem id_of_mem_infos {oid : Oid} {e : Event} {i : Int} {x : EventInfo}
    (h : x ∈ infos oid e i) : x.id = i ∧ x.event = e := by
  unfold infos at h
  split at h
  · simp only [List.mem_append] at h
    rcases h with h | h <;> split at h <;> simp_all
  all_goals (first | (split at h <;> simp_all) | simp at h)

theorem id_of_mem_allInfos {oid : Oid} {es : List Event} {x : EventInfo}
    (h : x ∈ allInfos oid es) : 0 ≤ x.id ∧ x.id < es.length := by
  induction es using snocInduction with
  | h0 => simp at h
  | h1 es e ih =>
    rw [allInfos_append, List.mem_append] at h
    rcases h with h | h
    · have := ih h; simp; omega
    · have := (id_of_mem_infos h).1; simp; omega

theorem filter_allInfos (oid : Oid) (es : List Event) (c : Nat) :
    (allInfos oid es).filter (fun i => decide (i.id < (c : Int))) = allInfos oid (es.take c) := by
  induction es using snocInduction with
  | h0 => simp
  | h1 es e ih =>
    rw [allInfos_append, List.filter_append, ih]
    by_cases hc : es.length < c
    · rw [List.take_of_length_le (l := es ++ [e]) (by simp; omega),
        List.take_of_length_le (l := es) (by omega), allInfos_append]
      congr 1
      rw [List.filter_eq_self]
      intro x hx
      have := (id_of_mem_infos hx).1
      simp; omega
    · rw [List.take_append_of_le_length (by omega)]
      have : (infos oid e ↑es.length).filter (fun i => decide (i.id < (c : Int))) = [] := by
        rw [List.filter_eq_nil_iff]
        intro x hx
        have := (id_of_mem_infos hx).1
        simp; omega
      rw [this, List.append_nil]

theorem lastEffect_append (oid : Oid) (es : List Event) (e : Event) :
    lastEffect oid (es ++ [e]) =
      match effectOn oid e with
      | some b => some (e, b)
      | none => lastEffect oid es := by
  unfold lastEffect
  rw [List.reverse_append, List.reverse_singleton, List.singleton_append, List.findSome?_cons]
  cases effectOn oid e <;> rfl

theorem getLast?_infos (oid : Oid) (e : Event) (i : Int) :
    ((infos oid e i).getLast?).map (fun x => (x.event, x.cls == .show)) =
      (effectOn oid e).map fun b => (e, b) := by
  cases e with
  | rewrite ts tx old new =>
    simp only [infos, effectOn]
    by_cases h1 : new = .nonZero oid
    · simp [h1]
    · by_cases h2 : old = .nonZero oid <;> simp [h1, h2]
  | refUpdate => simp [infos, effectOn]
  | snapshot => simp [infos, effectOn]
  | commit ts tx o => by_cases h : o = oid <;> simp [infos, effectOn, h]
  | obsolete ts tx o => by_cases h : o = oid <;> simp [infos, effectOn, h]
  | unobsolete ts tx o => by_cases h : o = oid <;> simp [infos, effectOn, h]

theorem getLast?_allInfos (oid : Oid) (es : List Event) :
    ((allInfos oid es).getLast?).map (fun x => (x.event, x.cls == .show)) = lastEffect oid es := by
  induction es using snocInduction with
  | h0 => rfl
  | h1 es e ih =>
    rw [allInfos_append, lastEffect_append, List.getLast?_append]
    have := getLast?_infos oid e es.length
    cases h : (infos oid e es.length).getLast? with
    | none =>
      rw [h] at this
      simp only [Option.map_none] at this
      cases he : effectOn oid e with
      | none => simpa using ih
      | some b => simp [he] at this
    | some x =>
      rw [h] at this
      cases he : effectOn oid e with
      | none => simp [he] at this
      | some b => simpa [he] using this

theorem lastPosition_append (name : Text) (es : List Event) (e : Event) :
    lastPosition name (es ++ [e]) =
      match updateOf name e with
      | some p => p
      | none => lastPosition name es := by
  unfold lastPosition
  rw [List.reverse_append, List.reverse_singleton, List.singleton_append, List.findSome?_cons]
  cases updateOf name e <;> rfl

/-- Invariant of the replayer. -/
structure Inv (r : Replayer) : Prop where
  counter : r.idCounter = r.events.length
  history : ∀ oid, (r.commitHistory.get? oid).getD [] = allInfos oid r.events
  refs : ∀ name, r.refLocations.get? name = lastPosition name r.events

theorem inv_new (mb : Text) : Inv (new mb) := by
  constructor <;> simp [new, lastPosition]

theorem getD_pushHistory (h : AMap Oid (List EventInfo)) (o oid : Oid) (x : EventInfo) :
    ((pushHistory h o x).get? oid).getD [] =
      (h.get? oid).getD [] ++ if o = oid then [x] else [] := by
  unfold pushHistory
  rw [AMap.get?_insert]
  by_cases h' : o = oid <;> simp [h']

theorem record_events (r : Replayer) (e : Event) : (r.record e).events = r.events ++ [e] := by
  unfold record
  split <;> (try rfl)
  split <;> rfl

theorem record_mainBranch (r : Replayer) (e : Event) : (r.record e).mainBranch = r.mainBranch := by
  unfold record
  split <;> (try rfl)
  split <;> rfl

theorem inv_record {r : Replayer} (hr : Inv r) (e : Event) : Inv (r.record e) := by
  constructor
  · rw [record_events]
    have : (r.record e).idCounter = r.idCounter + 1 := by
      unfold record
      split <;> (try rfl)
      split <;> rfl
    rw [this, hr.counter]; simp
  · intro oid
    rw [record_events, allInfos_append, ← hr.history oid]
    unfold record
    rw [hr.counter]
    cases e with
    | rewrite ts tx old new =>
      cases old <;> cases new <;> simp [infos, getD_pushHistory]
    | refUpdate ts tx nm old new m => cases new <;> simp [infos]
    | commit ts tx o => simp [infos, getD_pushHistory]
    | obsolete ts tx o => simp [infos, getD_pushHistory]
    | unobsolete ts tx o => simp [infos, getD_pushHistory]
    | snapshot => simp [infos]
  · intro name
    rw [record_events, lastPosition_append, ← hr.refs name]
    unfold record
    cases e with
    | refUpdate ts tx nm old new m =>
      cases new with
      | zero => by_cases h : nm = name <;> simp [updateOf, h]
      | nonZero o => by_cases h : nm = name <;> simp [updateOf, h]
    | _ => simp [updateOf]

theorem inv_processEvent {r : Replayer} (hr : Inv r) (e : Event) : Inv (r.processEvent e) := by
  unfold processEvent
  simp only
  split <;> split <;> (try exact hr) <;> split <;> first | exact hr | exact inv_record hr _

theorem inv_foldl {r : Replayer} (hr : Inv r) (es : List Event) :
    Inv (es.foldl processEvent r) := by
  induction es generalizing r with
  | nil => exact hr
  | cons e es ih => exact ih (inv_processEvent hr e)

theorem inv_fromEvents (mb : Text) (es : List Event) : Inv (fromEvents mb es) :=
  inv_foldl (inv_new mb) es

theorem cursorCommitHistory_eq {r : Replayer} (hr : Inv r) (c : Nat) (oid : Oid) :
    r.cursorCommitHistory ⟨c⟩ oid = allInfos oid (r.events.take c) := by
  rw [← filter_allInfos, ← hr.history oid]
  unfold cursorCommitHistory
  cases r.commitHistory.get? oid <;> simp

end Replayer
end Verif

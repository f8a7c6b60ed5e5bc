import Verif.Lemmas.Cursor
import Verif.Props.EventLog

/-!
Properties C04 (event cursors are always valid) and C05 (stepping by transaction).
-/

namespace Verif.Props

open Verif Spec

/-- The cursors a client can get hold of: `EventCursor` has a private field, so only through the
functions below. -/
inductive ApiCursor (r : Replayer) : Cursor → Prop
  | default : ApiCursor r r.makeDefaultCursor
  | make (i : Int) : ApiCursor r (r.makeCursor i)
  | advance {c : Cursor} (n : Int) : ApiCursor r c → ApiCursor r (r.advanceCursor c n)
  | advanceTx {c c' : Cursor} (n : Int) : ApiCursor r c →
      r.advanceCursorByTransaction c n = .ok c' → ApiCursor r c'

theorem advanceByTransaction_nat (r : Replayer) (i : Nat) (h : i ≤ r.events.length) (k : Int) :
    ∃ e : Nat, r.advanceCursorByTransaction ⟨i⟩ k = .ok ⟨e⟩ ∧ e ≤ r.events.length ∧
      IsBoundary (r.events.map Event.txId) e ∧
      (txsStartedBefore (r.events.map Event.txId) e : Int) =
        max 0 (min (txsStartedBefore (r.events.map Event.txId) i + k)
          (txsStartedBefore (r.events.map Event.txId) r.events.length)) := by
  change ∃ e : Nat, _ ∧ _ ∧ IsBoundary r.txs e ∧ (txsStartedBefore r.txs e : Int) = 
    max 0 (min (txsStartedBefore r.txs i + k) (txsStartedBefore r.txs r.events.length))
  unfold Replayer.advanceCursorByTransaction
  by_cases he : r.events = []
  · simp only [he, List.isEmpty_nil, ite_true]
    have hi : i = 0 := by simpa [he] using h
    subst hi
    exact ⟨0, rfl, by simp, .inl rfl, by simp [txsStartedBefore]; omega⟩
  · have : r.events.isEmpty = false := by simpa using he
    simp only [this, Bool.false_eq_true, ite_false]
    obtain ⟨s, h1, h2, h3, h4, h5, h6⟩ := Replayer.snap_eq r i h
    simp only [h1]
    by_cases hk : 0 ≤ k
    · obtain ⟨e, g1, g2, g3, g4, g5⟩ := Replayer.helper_forward r s k.toNat h3
      have hk' : (k.toNat : Int) = k := by omega
      rw [hk'] at g1
      exact ⟨e, g1, g3, g4, by omega⟩
    · obtain ⟨e, g1, g2, g3, g4⟩ := Replayer.helper_backward r s (-k).toNat h3 (by omega)
      have hk' : -((-k).toNat : Int) = k := by omega
      rw [hk'] at g1
      have := Replayer.rank_mono r.txs h
      exact ⟨e, g1, by omega, g3, by omega⟩

/-- A cursor between 0 and the number of events, as a natural number. -/
theorem valid_cursor_nat {r : Replayer} {c : Cursor}
    (h : 0 ≤ c.eventId ∧ c.eventId ≤ r.events.length) :
    ∃ i : Nat, c = ⟨i⟩ ∧ i ≤ r.events.length := by
  obtain ⟨i⟩ := c
  exact ⟨i.toNat, by simp only [Cursor.mk.injEq]; simp at h; omega, by simp at h; omega⟩

/-- C04: every cursor obtainable through the API is between 0 and the number of events. -/
theorem api_cursor_valid (r : Replayer) (c : Cursor) (h : ApiCursor r c) :
    0 ≤ c.eventId ∧ c.eventId ≤ r.events.length := by
  induction h with
  | default => rw [Replayer.makeDefaultCursor, Replayer.makeCursor_eq]; simp only; omega
  | make i => rw [Replayer.makeCursor_eq]; simp only; omega
  | advance n _ _ => rw [Replayer.advanceCursor, Replayer.makeCursor_eq]; simp only; omega
  | advanceTx n _ heq ih =>
    obtain ⟨i, rfl, hi⟩ := valid_cursor_nat ih
    obtain ⟨e, h1, h2, _, _⟩ := advanceByTransaction_nat r i hi n
    rw [heq] at h1
    cases h1
    simp only; omega

/-- C04: creating and advancing a cursor clamps to the log and is exact inside of it. -/
theorem cursor_moves_exactly (r : Replayer) (c : Cursor) (n : Int) :
    (r.makeCursor n).eventId = max 0 (min n r.events.length) ∧
    (r.advanceCursor c n).eventId = max 0 (min (c.eventId + n) r.events.length) ∧
    r.makeDefaultCursor.eventId = r.events.length := by
  refine ⟨by rw [Replayer.makeCursor_eq], by rw [Replayer.advanceCursor, Replayer.makeCursor_eq], ?_⟩
  rw [Replayer.makeDefaultCursor, Replayer.makeCursor_eq]; simp only; omega

theorem eventsUpTo_ok (r : Replayer) {i : Nat} (h : i ≤ r.events.length) :
    r.eventsUpTo ⟨i⟩ = .ok (r.events.take i) := by
  have : ¬ ((i : Int) < 0) := by omega
  simp [Replayer.eventsUpTo, Replayer.toUsize, this, h]

/-- C04: no query at an obtainable cursor panics. -/
theorem api_cursor_no_panic (r : Replayer) (repo : Replayer.RepoMain) (c : Cursor) (h : ApiCursor r c) (n : Int) :
    (∃ x, r.eventBeforeCursor c = .ok x) ∧
    (∃ x, r.advanceCursorByTransaction c n = .ok x) ∧
    (∃ x, r.txEventsBeforeCursor c = .ok x) ∧
    (∃ x, r.referencesSnapshot repo c = .ok x) ∧
    (∃ x, r.eventsSinceCursor c = .ok x) := by
  obtain ⟨i, rfl, hi⟩ := valid_cursor_nat (api_cursor_valid r c h)
  have hn : ¬ ((i : Int) < 0) := by omega
  refine ⟨?_, ?_, ?_, ?_, ?_⟩
  · have := Replayer.txIdBeforeCursor_eq r hi
    unfold Replayer.txIdBeforeCursor at this
    split at this
    · simp at this
    · rename_i o ho; exact ⟨o, ho⟩
  · obtain ⟨e, h1, _⟩ := advanceByTransaction_nat r i hi n
    exact ⟨_, h1⟩
  · obtain ⟨e, h1, h2, h3, h4⟩ := advanceByTransaction_nat r i hi (-1)
    unfold Replayer.txEventsBeforeCursor
    have he : e ≤ i := by
      rcases Nat.lt_or_ge i e with hl | hl
      · exfalso
        by_cases h0 : i = 0
        · subst h0
          have := Replayer.rank_lt (r.events.map Event.txId) hl (.inl rfl)
          have hz := Replayer.rank_zero (r.events.map Event.txId)
          omega
        · have h5 := Replayer.rank_mono (r.events.map Event.txId) (Nat.le_of_lt hl)
          have h6 := Replayer.rank_lt (r.events.map Event.txId) (i := 0) (j := i) (by omega) (.inl rfl)
          have hz := Replayer.rank_zero (r.events.map Event.txId)
          omega
      · exact hl
    have hen : ¬ ((e : Int) < 0) := by omega
    simp only [h1, Replayer.toUsize, hn, hen, ite_false, Int.toNat_natCast, he, hi, and_self, ite_true]
    split
    · exact ⟨_, rfl⟩
    · exact ⟨_, rfl⟩
  · unfold Replayer.referencesSnapshot Replayer.cursorBranchOidToNames Replayer.cursorMainBranchOid
      Replayer.cursorHeadOid Replayer.cursorBranchOid
    rw [eventsUpTo_ok r hi]
    exact ⟨_, rfl⟩
  · unfold Replayer.eventsSinceCursor
    simp only [Replayer.toUsize, hn, ite_false, Int.toNat_natCast, hi, ite_true]
    exact ⟨_, rfl⟩

/-- A log with two transactions, for the examples. -/
def demoReplayer : Replayer := Replayer.fromEvents t!"refs/heads/master"
  [.commit 1 (.id 1) oidA, .commit 2 (.id 1) oidB, .rewrite 3 (.id 2) (.nonZero oidB) (.nonZero oidC)]

example : ApiCursor demoReplayer (demoReplayer.advanceCursor demoReplayer.makeDefaultCursor (-1)) :=
  .advance (-1) .default
example : demoReplayer.advanceCursorByTransaction ⟨1⟩ 0 = .ok ⟨2⟩ := by
  obtain ⟨e, h1, h2, h3, h4⟩ := advanceByTransaction_nat demoReplayer 1 (by decide) 0
  have : e = 2 := by
    have h2 : e ≤ 3 := h2
    match e with
    | 0 => exact absurd h4 (by decide)
    | 1 => exact absurd h3 (by decide)
    | 2 => rfl
    | 3 => exact absurd h4 (by decide)
  subst this; exact h1

/-- C05: advancing by any number of transactions from any valid cursor stops at the boundary
between two transactions whose number of preceding transactions is the requested one, clamped to
the log. (A cursor inside a transaction counts as after it.) By `boundary_determined` this says
exactly which position it is. -/
theorem advance_by_transaction_exact (r : Replayer) (c : Cursor) (h : ApiCursor r c) (k : Int) :
    ∃ e : Nat, r.advanceCursorByTransaction c k = .ok ⟨e⟩ ∧
      IsBoundary (r.events.map Event.txId) e ∧ e ≤ r.events.length ∧
      (txsStartedBefore (r.events.map Event.txId) e : Int) =
        max 0 (min (txsStartedBefore (r.events.map Event.txId) c.eventId.toNat + k)
          (txsStartedBefore (r.events.map Event.txId) r.events.length)) := by
  obtain ⟨i, rfl, hi⟩ := valid_cursor_nat (api_cursor_valid r c h)
  obtain ⟨e, h1, h2, h3, h4⟩ := advanceByTransaction_nat r i hi k
  exact ⟨e, h1, h3, h2, by simpa using h4⟩

/-- C05: a boundary is determined by the number of transactions before it. -/
theorem boundary_determined (txs : List TxId) (i j : Nat) (hi : IsBoundary txs i)
    (hj : IsBoundary txs j) (h : txsStartedBefore txs i = txsStartedBefore txs j) : i = j :=
  Replayer.boundary_unique txs hi hj h

/-- C05: stepping `k` transactions one way and `k` the other way returns to the same boundary,
if the first step does not run out of the log. -/
theorem advance_by_transaction_inverse (r : Replayer) (i : Nat) (hi : i ≤ r.events.length)
    (hb : IsBoundary (r.events.map Event.txId) i) (k : Int)
    (hlo : 0 ≤ txsStartedBefore (r.events.map Event.txId) i + k)
    (hhi : txsStartedBefore (r.events.map Event.txId) i + k
      ≤ txsStartedBefore (r.events.map Event.txId) r.events.length) :
    ∃ c, r.advanceCursorByTransaction ⟨i⟩ k = .ok c ∧
      r.advanceCursorByTransaction c (-k) = .ok ⟨i⟩ := by
  obtain ⟨e, h1, h2, h3, h4⟩ := advanceByTransaction_nat r i hi k
  obtain ⟨f, g1, g2, g3, g4⟩ := advanceByTransaction_nat r e h2 (-k)
  refine ⟨⟨e⟩, h1, ?_⟩
  have hr := Replayer.rank_mono (r.events.map Event.txId) hi
  have : f = i := boundary_determined _ f i g3 hb (by omega)
  rw [← this]; exact g1

example : IsBoundary (demoReplayer.events.map Event.txId) 2 ∧
    txsStartedBefore (demoReplayer.events.map Event.txId) 2 = 1 ∧
    txsStartedBefore (demoReplayer.events.map Event.txId) demoReplayer.events.length = 2 := by decide

/-- C05: at a boundary, the reported preceding transaction is exactly the maximal run of events
with one transaction id which ends there; nothing is reported only at the beginning of the log. -/
theorem tx_events_before_cursor_exact (r : Replayer) (i : Nat) (hi : i ≤ r.events.length) :
    (i = 0 ∧ r.txEventsBeforeCursor ⟨i⟩ = .ok none) ∨
    ∃ (p : Nat) (es : List Event),
      r.txEventsBeforeCursor ⟨i⟩ = .ok (some ((p : Int) + 1, es)) ∧ p < i ∧
      r.events.take i = r.events.take p ++ es ∧
      (∀ a ∈ es, ∀ b ∈ es, a.txId = b.txId) ∧
      (p ≠ 0 → ∀ a b, (r.events.take p).getLast? = some a → es.head? = some b →
        a.txId ≠ b.txId) := by
  obtain ⟨e, h1, h2, h3, h4⟩ := advanceByTransaction_nat r i hi (-1)
  have hn : ¬ ((i : Int) < 0) := by omega
  have hen : ¬ ((e : Int) < 0) := by omega
  by_cases h0 : i = 0
  · subst h0
    left
    have : e = 0 := by
      have := Replayer.boundary_unique _ h3 (.inl rfl : IsBoundary (r.events.map Event.txId) 0)
        (by have hz := Replayer.rank_zero (r.events.map Event.txId); omega)
      exact this
    subst this
    refine ⟨rfl, ?_⟩
    unfold Replayer.txEventsBeforeCursor
    rw [h1]
    simp [Replayer.toUsize]
  · right
    have h6 := Replayer.rank_lt (r.events.map Event.txId) (i := 0) (j := i) (by omega) (.inl rfl)
    have h7 := Replayer.rank_mono (r.events.map Event.txId) hi
    have hrank : txsStartedBefore (r.events.map Event.txId) e + 1
        = txsStartedBefore (r.events.map Event.txId) i := by
      have hz := Replayer.rank_zero (r.events.map Event.txId); omega
    have hlt : e < i := by
      rcases Nat.lt_or_ge e i with hl | hl
      · exact hl
      · have := Replayer.rank_mono (r.events.map Event.txId) hl; omega
    have hnb : ∀ j, e < j → j < i → ¬ IsBoundary (r.events.map Event.txId) j := by
      intro j hj1 hj2 hb
      have a1 := Replayer.rank_lt _ hj1 h3
      have a2 := Replayer.rank_lt _ hj2 hb
      omega
    refine ⟨e, (r.events.take i).drop e, ?_, hlt, ?_, ?_, ?_⟩
    · unfold Replayer.txEventsBeforeCursor
      simp only [h1, Replayer.toUsize, hn, hen, ite_false, Int.toNat_natCast, Nat.le_of_lt hlt, hi,
        and_self, ite_true]
      split
      · rename_i hnil
        have := congrArg List.length hnil
        simp at this; omega
      · rfl
    · have hte : r.events.take e = (r.events.take i).take e := by
        rw [List.take_take, Nat.min_eq_left (Nat.le_of_lt hlt)]
      rw [hte, List.take_append_drop]
    · -- all ids equal the one at position e
      have hall : ∀ j, e ≤ j → j < i →
          (r.events.map Event.txId)[j]? = (r.events.map Event.txId)[e]? := by
        intro j
        induction j with
        | zero => intro hj _; have : e = 0 := by omega
                  rw [this]
        | succ j ih =>
          intro hj1 hj2
          by_cases hje : e = j + 1
          · rw [hje]
          · rw [← ih (by omega) (by omega)]
            have hb := hnb (j + 1) (by omega) hj2
            unfold IsBoundary at hb
            simp only [Nat.add_sub_cancel, not_or, ne_eq, Classical.not_not] at hb
            exact hb.2.2.symm
      have hmem : ∀ a ∈ (r.events.take i).drop e,
          some a.txId = (r.events.map Event.txId)[e]? := by
        intro a ha
        obtain ⟨m, hm, rfl⟩ := List.mem_iff_getElem.1 ha
        simp only [List.length_drop, List.length_take] at hm
        rw [← hall (e + m) (by omega) (by omega)]
        have : e + m < r.events.length := by omega
        simp [List.getElem?_eq_getElem this]
      intro a ha b hb
      have := (hmem a ha).trans (hmem b hb).symm
      simpa using this
    · intro hp a b ha hb
      have hlt' : e < r.events.length := by omega
      unfold IsBoundary at h3
      rcases h3 with h3 | h3 | h3
      · exact absurd h3 hp
      · simp at h3; omega
      · rw [List.getLast?_eq_getElem?] at ha
        simp only [List.length_take, Nat.min_eq_left (Nat.le_of_lt hlt')] at ha
        rw [List.getElem?_take_of_lt (by omega)] at ha
        rw [List.head?_drop, List.getElem?_take_of_lt hlt] at hb
        simp only [List.getElem?_map, ha, hb, Option.map_some, ne_eq, Option.some.injEq] at h3
        exact h3

example : demoReplayer.events.length = 3 := by decide

end Verif.Props

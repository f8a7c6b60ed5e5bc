import Verif.Model.Replay
import Verif.Spec.Replay

namespace Verif
open Spec

namespace Replayer

/-- Transaction ids of the events. -/
def txs (r : Replayer) : List TxId := r.events.map Event.txId

@[simp] theorem length_txs (r : Replayer) : r.txs.length = r.events.length := by simp [txs]

/-- Transaction id of the event before a position. -/
def txBefore (txs : List TxId) : Nat → Option TxId
  | 0 => none
  | i + 1 => txs[i]?

theorem makeCursor_eq (r : Replayer) (i : Int) :
    r.makeCursor i = ⟨max 0 (min i r.events.length)⟩ := by
  unfold makeCursor
  simp only [Cursor.mk.injEq]
  split <;> split <;> omega

theorem advance_one (r : Replayer) {i : Nat} (h : i < r.events.length) :
    r.advanceCursor ⟨i⟩ 1 = ⟨((i + 1 : Nat) : Int)⟩ := by
  unfold advanceCursor
  rw [makeCursor_eq]
  simp only [Cursor.mk.injEq]; omega

theorem advance_one_end (r : Replayer) :
    r.advanceCursor ⟨r.events.length⟩ 1 = ⟨r.events.length⟩ := by
  unfold advanceCursor
  rw [makeCursor_eq]
  simp only [Cursor.mk.injEq]; omega

theorem advance_neg_one (r : Replayer) {i : Nat} (h : i ≤ r.events.length) :
    r.advanceCursor ⟨i⟩ (-1) = ⟨((i - 1 : Nat) : Int)⟩ := by
  unfold advanceCursor
  rw [makeCursor_eq]
  simp only [Cursor.mk.injEq]; omega

theorem txIdBeforeCursor_eq (r : Replayer) {i : Nat} (h : i ≤ r.events.length) :
    r.txIdBeforeCursor ⟨i⟩ = .ok (txBefore r.txs i) := by
  unfold txIdBeforeCursor eventBeforeCursor
  cases i with
  | zero => simp [txBefore]
  | succ i =>
    have h0 : ¬ (((i + 1 : Nat) : Int) = 0) := by omega
    have h1 : ((i + 1 : Nat) : Int) - 1 = (i : Int) := by omega
    have h2 : ¬ ((i : Int) < 0) := by omega
    simp only [h0, ite_false, h1, toUsize, h2, Int.toNat_natCast]
    have : i < r.events.length := by omega
    simp [txBefore, txs, this]

theorem isBoundary_iff (txs : List TxId) {i : Nat} (h : i < txs.length) :
    IsBoundary txs i ↔ txBefore txs i ≠ txBefore txs (i + 1) := by
  unfold IsBoundary
  cases i with
  | zero =>
    simp only [true_or, txBefore, true_iff]
    rw [List.getElem?_eq_getElem h]; simp
  | succ i =>
    simp only [txBefore, Nat.add_sub_cancel]
    constructor
    · rintro (h' | h' | h')
      · omega
      · omega
      · exact h'
    · intro h'; exact .inr (.inr h')

theorem rank_succ (txs : List TxId) (i : Nat) :
    txsStartedBefore txs (i + 1) = txsStartedBefore txs i + if IsBoundary txs i then 1 else 0 := by
  unfold txsStartedBefore
  rw [List.range_succ, List.countP_append]
  simp [List.countP_cons]

theorem rank_zero (txs : List TxId) : txsStartedBefore txs 0 = 0 := rfl

theorem rank_mono (txs : List TxId) {i j : Nat} (h : i ≤ j) :
    txsStartedBefore txs i ≤ txsStartedBefore txs j := by
  induction j with
  | zero => have : i = 0 := by omega
            simp [this]
  | succ j ih =>
    by_cases hij : i = j + 1
    · simp [hij]
    · rw [rank_succ]; have := ih (by omega); omega

theorem rank_lt (txs : List TxId) {i j : Nat} (h : i < j) (hb : IsBoundary txs i) :
    txsStartedBefore txs i < txsStartedBefore txs j := by
  have h1 := rank_succ txs i
  rw [if_pos hb] at h1
  have h2 := rank_mono txs (i := i + 1) (j := j) h
  omega

/-- A boundary is determined by the number of transactions before it. -/
theorem boundary_unique (txs : List TxId) {i j : Nat} (hi : IsBoundary txs i)
    (hj : IsBoundary txs j) (h : txsStartedBefore txs i = txsStartedBefore txs j) : i = j := by
  rcases Nat.lt_trichotomy i j with hl | he | hl
  · have := rank_lt txs hl hi; omega
  · exact he
  · have := rank_lt txs hl hj; omega

theorem snap_eq (r : Replayer) (i : Nat) (h : i ≤ r.events.length) :
    ∃ e : Nat, r.snapToTransactionBoundary ⟨i⟩ = .ok ⟨e⟩ ∧ i ≤ e ∧ e ≤ r.events.length ∧
      IsBoundary r.txs e ∧ txsStartedBefore r.txs e = txsStartedBefore r.txs i ∧
      ∀ j, i ≤ j → j < e → ¬ IsBoundary r.txs j := by
  generalize hm : r.events.length - i = m
  induction m generalizing i with
  | zero =>
    have hi : i = r.events.length := by omega
    subst hi
    refine ⟨r.events.length, ?_, Nat.le_refl _, Nat.le_refl _, ?_, rfl, fun j h1 h2 => by omega⟩
    · rw [snapToTransactionBoundary]; simp [advance_one_end]
    · simp [IsBoundary]
  | succ m ih =>
    have hlt : i < r.events.length := by omega
    rw [snapToTransactionBoundary]
    simp only [advance_one r hlt, txIdBeforeCursor_eq r h,
      txIdBeforeCursor_eq r (Nat.succ_le_of_lt hlt)]
    have hne : ¬ ((⟨(i : Int)⟩ : Cursor) = ⟨((i + 1 : Nat) : Int)⟩) := by
      simp only [Cursor.mk.injEq]; omega
    simp only [hne, dite_false]
    by_cases hb : IsBoundary r.txs i
    · have := (isBoundary_iff r.txs (by simpa using hlt)).1 hb
      refine ⟨i, by simp [this], Nat.le_refl _, h, hb, rfl, fun j h1 h2 => by omega⟩
    · have heq : txBefore r.txs i = txBefore r.txs (i + 1) := by
        have := mt (isBoundary_iff r.txs (by simpa using hlt)).2 hb
        exact Classical.not_not.1 this
      obtain ⟨e, h1, h2, h3, h4, h5, h6⟩ := ih (i + 1) hlt (by omega)
      refine ⟨e, by simp only [heq, ite_true]; exact h1, by omega, h3, h4, ?_, ?_⟩
      · rw [h5, rank_succ]; simp [hb]
      · intro j hj1 hj2
        by_cases hji : j = i
        · rw [hji]; exact hb
        · exact h6 j (by omega) hj2

theorem helper_forward (r : Replayer) (i k : Nat) (h : i ≤ r.events.length) :
    ∃ e : Nat, r.advanceCursorByTransactionHelper ⟨i⟩ k = .ok ⟨e⟩ ∧ i ≤ e ∧ e ≤ r.events.length ∧
      IsBoundary r.txs e ∧
      txsStartedBefore r.txs e =
        min (txsStartedBefore r.txs i + k) (txsStartedBefore r.txs r.events.length) := by
  generalize hm : r.events.length - i = m
  induction m generalizing i k with
  | zero =>
    have hi : i = r.events.length := by omega
    subst hi
    by_cases hk : k = 0
    · subst hk
      obtain ⟨e, h1, h2, h3, h4, h5, h6⟩ := snap_eq r r.events.length h
      refine ⟨e, ?_, h2, h3, h4, by omega⟩
      rw [advanceCursorByTransactionHelper]; simp [h1]
    · refine ⟨r.events.length, ?_, Nat.le_refl _, h, by simp [IsBoundary], by omega⟩
      rw [advanceCursorByTransactionHelper]
      have : (0 : Int) < (k : Int) := by omega
      simp [advance_one_end, this, hk]
  | succ m ih =>
    have hlt : i < r.events.length := by omega
    by_cases hk : k = 0
    · subst hk
      obtain ⟨e, h1, h2, h3, h4, h5, h6⟩ := snap_eq r i h
      refine ⟨e, ?_, h2, h3, h4, ?_⟩
      · rw [advanceCursorByTransactionHelper]; simp [h1]
      · have := rank_mono r.txs h; omega
    · rw [advanceCursorByTransactionHelper]
      have h0 : ¬ ((k : Int) = 0) := by omega
      have hp : (0 : Int) < (k : Int) := by omega
      simp only [h0, ite_false, hp, ite_true, advance_one r hlt, txIdBeforeCursor_eq r h,
        txIdBeforeCursor_eq r (Nat.succ_le_of_lt hlt)]
      have hne : ¬ ((⟨(i : Int)⟩ : Cursor) = ⟨((i + 1 : Nat) : Int)⟩) := by
        simp only [Cursor.mk.injEq]; omega
      simp only [hne, dite_false]
      have hr := rank_succ r.txs i
      by_cases hb : IsBoundary r.txs i
      · have hd := (isBoundary_iff r.txs (by simpa using hlt)).1 hb
        simp only [hd, ite_false]
        have hk1 : (k : Int) - 1 = ((k - 1 : Nat) : Int) := by omega
        rw [hk1]
        obtain ⟨e, h1, h2, h3, h4, h5⟩ := ih (i + 1) (k - 1) hlt (by omega)
        refine ⟨e, h1, by omega, h3, h4, ?_⟩
        rw [if_pos hb] at hr
        omega
      · have heq : txBefore r.txs i = txBefore r.txs (i + 1) :=
          Classical.not_not.1 (mt (isBoundary_iff r.txs (by simpa using hlt)).2 hb)
        simp only [heq, ite_true]
        obtain ⟨e, h1, h2, h3, h4, h5⟩ := ih (i + 1) k hlt (by omega)
        refine ⟨e, h1, by omega, h3, h4, ?_⟩
        rw [if_neg hb] at hr
        omega

theorem helper_backward (r : Replayer) (i k : Nat) (h : i ≤ r.events.length) (hk : 0 < k) :
    ∃ e : Nat, r.advanceCursorByTransactionHelper ⟨i⟩ (-(k : Int)) = .ok ⟨e⟩ ∧ e ≤ i ∧
      IsBoundary r.txs e ∧
      txsStartedBefore r.txs e = txsStartedBefore r.txs i - k := by
  induction i generalizing k with
  | zero =>
    refine ⟨0, ?_, Nat.le_refl _, .inl rfl, ?_⟩
    · rw [advanceCursorByTransactionHelper]
      have h0 : ¬ (-(k : Int) = 0) := by omega
      have h1 : ¬ ((0 : Int) < -(k : Int)) := by omega
      have := advance_neg_one r (i := 0) h
      simp only [Nat.zero_sub] at this
      simp only [h0, ite_false, h1, this, dite_true]
    · simp [txsStartedBefore]
  | succ i ih =>
    have hlt : i < r.events.length := by omega
    rw [advanceCursorByTransactionHelper]
    have h0 : ¬ (-(k : Int) = 0) := by omega
    have hp : ¬ ((0 : Int) < -(k : Int)) := by omega
    simp only [h0, ite_false, hp, advance_neg_one r h, Nat.add_sub_cancel, txIdBeforeCursor_eq r h,
      txIdBeforeCursor_eq r (Nat.le_of_lt hlt)]
    have hne : ¬ ((⟨((i + 1 : Nat) : Int)⟩ : Cursor) = ⟨(i : Int)⟩) := by
      simp only [Cursor.mk.injEq]; omega
    simp only [hne, dite_false]
    have hr := rank_succ r.txs i
    by_cases hb : IsBoundary r.txs i
    · have hd := (isBoundary_iff r.txs (by simpa using hlt)).1 hb
      simp only [Ne.symm hd, ite_false]
      rw [if_pos hb] at hr
      by_cases hk1 : k = 1
      · subst hk1
        obtain ⟨e, h1, h2, h3, h4, h5, h6⟩ := snap_eq r i (Nat.le_of_lt hlt)
        have hei : e = i := by
          rcases Nat.lt_or_ge i e with hl | hl
          · exact absurd hb (h6 i (Nat.le_refl _) hl)
          · omega
        subst hei
        refine ⟨e, ?_, by omega, h4, by omega⟩
        rw [advanceCursorByTransactionHelper]; simpa using h1
      · have hk2 : -(k : Int) + 1 = -((k - 1 : Nat) : Int) := by omega
        rw [hk2]
        obtain ⟨e, h1, h2, h3, h4⟩ := ih (k - 1) (by omega) (by omega)
        exact ⟨e, h1, by omega, h3, by omega⟩
    · have heq : txBefore r.txs i = txBefore r.txs (i + 1) :=
        Classical.not_not.1 (mt (isBoundary_iff r.txs (by simpa using hlt)).2 hb)
      simp only [heq, ite_true]
      rw [if_neg hb] at hr
      obtain ⟨e, h1, h2, h3, h4⟩ := ih k (by omega) hk
      exact ⟨e, h1, by omega, h3, by omega⟩

end Replayer
end Verif

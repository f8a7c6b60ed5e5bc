import Verif.Spec.UndoCommand
import Verif.Props.Cursor

/-! C93: which past state `git undo` chooses. -/

namespace Verif.Props

open Verif Verif.Spec

/-- The transactions of the log. -/
theorem length_txs (r : Replayer) : (r.events.map Event.txId).length = r.events.length := by simp

theorem step_cursor (r : Replayer) {i : Nat} (hi : i ≤ r.events.length) (k : Int) :
    ∃ j : Nat, r.advanceCursorByTransaction ⟨i⟩ k = .ok ⟨j⟩ ∧ j ≤ r.events.length ∧
      IsBoundary (r.events.map Event.txId) j ∧
      (k = 1 → txsStartedBefore (r.events.map Event.txId) j =
        min (txsStartedBefore (r.events.map Event.txId) i + 1)
          (txsStartedBefore (r.events.map Event.txId) (r.events.map Event.txId).length)) ∧
      (k = -1 → txsStartedBefore (r.events.map Event.txId) j =
        txsStartedBefore (r.events.map Event.txId) i - 1) := by
  obtain ⟨e, h1, h2, h3, h4⟩ := advanceByTransaction_nat r i hi k
  have hm := Replayer.rank_mono (r.events.map Event.txId) hi
  refine ⟨e, h1, h2, h3, ?_, ?_⟩
  · rintro rfl
    rw [length_txs]
    omega
  · rintro rfl
    omega

theorem makeCursor_nat (r : Replayer) (n : Int) :
    r.makeCursor n = ⟨((min n.toNat (r.events.map Event.txId).length : Nat) : Int)⟩ := by
  have := (cursor_moves_exactly r ⟨0⟩ n).1
  generalize hc : r.makeCursor n = c
  rw [hc] at this
  obtain ⟨i⟩ := c
  simp only [length_txs, Cursor.mk.injEq] at this ⊢
  omega

theorem cursorAfter_inside {r : Replayer} {ms : List UndoMessage} {i : Nat}
    (h : CursorAfter (r.events.map Event.txId) ms i) : i ≤ r.events.length := by
  rw [← length_txs]
  induction h with
  | start => omega
  | next _ h => exact h
  | previous _ h => exact h
  | goTo => omega
  | noNumber _ _ ih => exact ih
  | help _ ih => exact ih

/-- What is said about the end of the loop, where `all` are all messages. -/
def LoopFacts (draw : Cursor → Bool) (r : Replayer) (all : List UndoMessage) (res : Selection) : Prop :=
  res ≠ .panic ∧
  (∀ c, res = .selected c → ∃ ms' post j, all = ms' ++ .select :: post ∧
    (∀ m ∈ ms', ¬ EndsSelection m) ∧ CursorAfter (r.events.map Event.txId) ms' j ∧ c = ⟨(j : Nat)⟩) ∧
  (res = .left → (∀ m ∈ all, ¬ EndsSelection m) ∨ ∃ ms' post, all = ms' ++ .quit :: post ∧
    ∀ m ∈ ms', ¬ EndsSelection m) ∧
  (res = .error → ∃ j, j ≤ r.events.length ∧ draw ⟨(j : Nat)⟩ = false)

theorem selectLoop_sound (draw : Cursor → Bool) (r : Replayer) (rest : List UndoMessage) :
    ∀ (ms : List UndoMessage) (i : Nat), (∀ m ∈ ms, ¬ EndsSelection m) →
      CursorAfter (r.events.map Event.txId) ms i → LoopFacts draw r (ms ++ rest) (selectLoop draw r ⟨i⟩ rest) := by
  induction rest with
  | nil => 
    intro ms i hms h
    exact ⟨nofun, nofun, fun _ => .inl (by simpa using hms), nofun⟩
  | cons m rest ih =>
    intro ms i hms h
    have hin := cursorAfter_inside h
    have happ : ∀ m', ¬ EndsSelection m' → ∀ x ∈ ms ++ [m'], ¬ EndsSelection x := by
      intro m' hm' x hx
      rcases List.mem_append.1 hx with hx | hx
      · exact hms x hx
      · rw [List.mem_singleton.1 hx]; exact hm'
    have hno : ∀ m', m' ≠ .quit → m' ≠ .select → ¬ EndsSelection m' := by
      rintro m' h1 h2 (h | h)
      · exact h1 h
      · exact h2 h
    have drawn : ∀ j, j ≤ r.events.length →
        (draw ⟨(j : Nat)⟩ = false → selectLoop draw r ⟨i⟩ (m :: rest) = .error) →
        (draw ⟨(j : Nat)⟩ = true → selectLoop draw r ⟨i⟩ (m :: rest) = selectLoop draw r ⟨j⟩ rest) →
        ¬ EndsSelection m → CursorAfter (r.events.map Event.txId) (ms ++ [m]) j →
        LoopFacts draw r (ms ++ m :: rest) (selectLoop draw r ⟨i⟩ (m :: rest)) := by
      intro j hj h1 h2 hm hc
      cases hd : draw ⟨(j : Nat)⟩ with
      | false =>
        rw [h1 hd]
        exact ⟨nofun, nofun, nofun, fun _ => ⟨j, hj, hd⟩⟩
      | true =>
        rw [h2 hd]
        have := ih (ms ++ [m]) j (happ m hm) hc
        rw [List.append_assoc, List.singleton_append] at this
        exact this
    cases m with
    | next =>
      obtain ⟨j, h1, h2, h3, h4, -⟩ := step_cursor r hin 1
      refine drawn j h2 ?_ ?_ (hno _ nofun nofun) (.next h (by rw [length_txs]; exact h2) h3 (h4 rfl)) <;>
      · intro hd
        rw [selectLoop, h1]
        simp [hd]
    | previous =>
      obtain ⟨j, h1, h2, h3, -, h4⟩ := step_cursor r hin (-1)
      refine drawn j h2 ?_ ?_ (hno _ nofun nofun) (.previous h (by rw [length_txs]; exact h2) h3 (h4 rfl)) <;>
      · intro hd
        rw [selectLoop, h1]
        simp [hd]
    | goTo text =>
      cases hp : parseIsize text with
      | some n =>
        refine drawn _ (by rw [← length_txs]; exact Nat.min_le_right _ _) ?_ ?_ (hno _ nofun nofun) (.goTo h hp) <;>
        · intro hd
          rw [selectLoop, hp]
          simp only [makeCursor_nat]
          rw [hd]
          simp
      | none =>
        have : selectLoop draw r ⟨i⟩ (.goTo text :: rest) = selectLoop draw r ⟨i⟩ rest := by
          rw [selectLoop, hp]
        rw [this]
        have := ih (ms ++ [.goTo text]) i (happ _ (hno _ nofun nofun)) (.noNumber h hp)
        rw [List.append_assoc, List.singleton_append] at this
        exact this
    | help =>
      rw [selectLoop]
      have := ih (ms ++ [.help]) i (happ _ (hno _ nofun nofun)) (.help h)
      rw [List.append_assoc, List.singleton_append] at this
      exact this
    | quit =>
      rw [selectLoop]
      exact ⟨nofun, nofun, fun _ => .inr ⟨ms, rest, rfl, hms⟩, nofun⟩
    | select =>
      rw [selectLoop]
      refine ⟨nofun, ?_, nofun, nofun⟩
      intro c hc
      cases hc
      exact ⟨ms, rest, i, rfl, hms, h, rfl⟩

theorem default_cursor_eq (r : Replayer) : r.makeDefaultCursor = ⟨((r.events.map Event.txId).length : Nat)⟩ := by
  have := (cursor_moves_exactly r ⟨0⟩ 0).2.2
  generalize hc : r.makeDefaultCursor = c
  rw [hc] at this
  obtain ⟨i⟩ := c
  simp only [length_txs, Cursor.mk.injEq] at this ⊢
  exact this

/-- The position after messages is determined. -/
theorem cursorAfter_unique {txs : List TxId} {ms : List UndoMessage} {i j : Nat} (h : CursorAfter txs ms i)
    (h' : CursorAfter txs ms j) : i = j := by
  induction h generalizing j with
  | start =>
    generalize hms : ([] : List UndoMessage) = ms at h'
    cases h' with
    | start => rfl
    | _ => simp at hms
  | @next ms i k _ _ h1 h2 ih =>
    generalize hms : ms ++ [UndoMessage.next] = ms2 at h'
    cases h' with
    | next g1 _ g3 g4 =>
      rw [List.append_cancel_right_eq] at hms
      subst hms
      rw [← ih g1] at g4
      exact boundary_determined txs k j h1 g3 (h2.trans g4.symm)
    | start => simp at hms
    | _ => simp at hms
  | @previous ms i k _ _ h1 h2 ih =>
    generalize hms : ms ++ [UndoMessage.previous] = ms2 at h'
    cases h' with
    | previous g1 _ g3 g4 =>
      rw [List.append_cancel_right_eq] at hms
      subst hms
      rw [← ih g1] at g4
      exact boundary_determined txs k j h1 g3 (h2.trans g4.symm)
    | start => simp at hms
    | _ => simp at hms
  | @goTo ms i text n _ h1 ih =>
    generalize hms : ms ++ [UndoMessage.goTo text] = ms2 at h'
    cases h' with
    | goTo g1 g2 =>
      obtain ⟨rfl, hm2⟩ := List.append_inj' hms rfl
      cases hm2
      rw [h1] at g2
      cases g2
      rfl
    | noNumber g1 g2 =>
      obtain ⟨rfl, hm2⟩ := List.append_inj' hms rfl
      cases hm2
      rw [h1] at g2
      cases g2
    | start => simp at hms
    | _ => simp at hms
  | @noNumber ms i text _ h1 ih =>
    generalize hms : ms ++ [UndoMessage.goTo text] = ms2 at h'
    cases h' with
    | goTo g1 g2 =>
      obtain ⟨rfl, hm2⟩ := List.append_inj' hms rfl
      cases hm2
      rw [h1] at g2
      cases g2
    | noNumber g1 g2 =>
      obtain ⟨rfl, hms⟩ := List.append_inj' hms rfl
      exact ih g1
    | start => simp at hms
    | _ => simp at hms
  | @help ms i _ ih =>
    generalize hms : ms ++ [UndoMessage.help] = ms2 at h'
    cases h' with
    | help g1 =>
      obtain ⟨rfl, hms⟩ := List.append_inj' hms rfl
      exact ih g1
    | start => simp at hms
    | _ => simp at hms

/-- C93: the cursor selected is the one to which the messages before the first `enter` lead, and there was no
quitting before. -/
theorem selection_sound {draw : Cursor → Bool} {r : Replayer} {messages : List UndoMessage} {c : Cursor}
    (h : selectPastEvent draw r messages = .selected c) :
    ∃ ms post i, messages = ms ++ .select :: post ∧ (∀ m ∈ ms, ¬ EndsSelection m) ∧
      CursorAfter (r.events.map Event.txId) ms i ∧ i ≤ r.events.length ∧ c = ⟨i⟩ := by
  unfold selectPastEvent at h
  simp only at h
  split at h
  · rw [default_cursor_eq] at h
    obtain ⟨-, h2, -⟩ := selectLoop_sound draw r messages [] _ (by simp) .start
    obtain ⟨ms, post, i, h3, h4, h5, h6⟩ := h2 c h
    exact ⟨ms, post, i, h3, h4, h5, cursorAfter_inside h5, h6⟩
  · cases h

/-- C93: selecting never panics, and it fails only if a state cannot be drawn. -/
theorem selection_total (draw : Cursor → Bool) (r : Replayer) (messages : List UndoMessage) :
    selectPastEvent draw r messages ≠ .panic ∧
    (selectPastEvent draw r messages = .error → ∃ i : Nat, i ≤ r.events.length ∧ draw ⟨i⟩ = false) := by
  unfold selectPastEvent
  simp only
  split
  · rw [default_cursor_eq]
    obtain ⟨h1, -, -, h2⟩ := selectLoop_sound draw r messages [] _ (by simp) .start
    exact ⟨h1, h2⟩
  · rename_i hd
    refine ⟨nofun, fun _ => ⟨(r.events.map Event.txId).length, by simp, ?_⟩⟩
    rw [default_cursor_eq] at hd
    simpa using hd

/-- C93: with `enter` after messages which do not end the selection, the state to which they lead is selected. -/
theorem selection_complete {draw : Cursor → Bool} {r : Replayer} (hd : ∀ i : Nat, i ≤ r.events.length → draw ⟨i⟩ = true)
    (ms post : List UndoMessage) (hms : ∀ m ∈ ms, ¬ EndsSelection m) :
    ∃ i, CursorAfter (r.events.map Event.txId) ms i ∧
      selectPastEvent draw r (ms ++ .select :: post) = .selected ⟨i⟩ := by
  have split_unique : ∀ {a b x y : List UndoMessage} {m n : UndoMessage}, a ++ m :: x = b ++ n :: y →
      EndsSelection m → EndsSelection n → (∀ m ∈ a, ¬ EndsSelection m) → (∀ m ∈ b, ¬ EndsSelection m) →
      a = b ∧ m = n := by
    intro a
    induction a with
    | nil =>
      intro b x y m n h hm hn _ hb
      cases b with
      | nil => simp at h; exact ⟨rfl, h.1⟩
      | cons z b =>
        simp at h
        exact absurd hm (h.1 ▸ hb z (by simp))
    | cons z a ih =>
      intro b x y m n h hm hn ha hb
      cases b with
      | nil =>
        simp at h
        exact absurd hn (h.1 ▸ ha z (by simp))
      | cons z' b =>
        simp at h
        obtain ⟨h1, h2⟩ := ih h.2 hm hn (fun m hm => ha m (by simp [hm])) (fun m hm => hb m (by simp [hm]))
        exact ⟨by rw [h.1, h1], h2⟩
  obtain ⟨h1, h2, h3, h4⟩ := selectLoop_sound draw r (ms ++ .select :: post) [] _ (by simp) .start
  have heq : selectPastEvent draw r (ms ++ .select :: post) =
      selectLoop draw r ⟨((r.events.map Event.txId).length : Nat)⟩ (ms ++ .select :: post) := by
    unfold selectPastEvent
    simp only
    rw [default_cursor_eq, hd _ (by simp), if_pos rfl]
  rw [heq]
  generalize selectLoop draw r _ (ms ++ .select :: post) = res at h1 h2 h3 h4
  cases res with
  | panic => exact absurd rfl h1
  | error =>
    obtain ⟨j, hj, hf⟩ := h4 rfl
    rw [hd j hj] at hf
    cases hf
  | left =>
    rcases h3 rfl with h | ⟨ms', post', h, hm⟩
    · exact absurd (.inr rfl) (h .select (by simp))
    · have := (split_unique (by simpa using h) (.inr rfl) (.inl rfl) hms hm).2
      cases this
  | selected c =>
    obtain ⟨ms', post', j, h5, h6, h7, rfl⟩ := h2 c rfl
    obtain ⟨rfl, -⟩ := split_unique (by simpa using h5) (.inr rfl) (.inr rfl) hms h6
    exact ⟨j, h7, rfl⟩

/-- C93: leaving by `q`, whatever was done before. -/
theorem selection_left {draw : Cursor → Bool} {r : Replayer} (hd : ∀ i : Nat, i ≤ r.events.length → draw ⟨i⟩ = true)
    (messages : List UndoMessage)
    (h : ∀ ms post, messages = ms ++ .select :: post → .quit ∈ ms) :
    selectPastEvent draw r messages = .left := by
  have ht := selection_total draw r messages
  cases hr : selectPastEvent draw r messages with
  | left => rfl
  | panic => exact absurd hr ht.1
  | error =>
    obtain ⟨i, h1, h2⟩ := ht.2 hr
    rw [hd i h1] at h2
    cases h2
  | selected c =>
    obtain ⟨ms, post, i, h1, h2, -⟩ := selection_sound hr
    exact absurd (.inl rfl) (h2 _ (h ms post h1))

/-- C93: if no event was named by its number then whole transactions are undone. -/
theorem selection_boundary {r : Replayer} {ms : List UndoMessage} {i : Nat}
    (h : CursorAfter (r.events.map Event.txId) ms i) (hg : ∀ text, .goTo text ∉ ms) :
    IsBoundary (r.events.map Event.txId) i := by
  induction h with
  | start => exact .inr (.inl rfl)
  | next _ _ h => exact h
  | previous _ _ h => exact h
  | @goTo ms i text => exact absurd (by simp) (hg text)
  | @noNumber ms i text => exact absurd (by simp) (hg text)
  | help _ ih => exact ih fun text ht => hg text (by simp [ht])

/-- C93: pressing `p` some times goes back by as many transactions. -/
theorem selection_steps {r : Replayer} {k i : Nat}
    (h : CursorAfter (r.events.map Event.txId) (List.replicate k .previous) i) :
    txsStartedBefore (r.events.map Event.txId) i =
      txsStartedBefore (r.events.map Event.txId) r.events.length - k := by
  induction k generalizing i with
  | zero =>
    generalize hms : List.replicate 0 UndoMessage.previous = ms at h
    cases h with
    | start => simp
    | _ => simp at hms
  | succ k ih =>
    rw [List.replicate_succ'] at h
    generalize hms : List.replicate k UndoMessage.previous ++ [.previous] = ms at h
    cases h with
    | start => simp at hms
    | previous g1 _ g3 g4 =>
      obtain ⟨rfl, -⟩ := List.append_inj' hms rfl
      rw [g4, ih g1]
      omega
    | _ => simp at hms

end Verif.Props

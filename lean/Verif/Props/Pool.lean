import Verif.Spec.Pool
import Mathlib.Tactic.Common
import Mathlib.Data.List.Nodup

/-! C48: pooled resources are never shared. -/

namespace Verif.Props

open Verif Verif.Spec

/-- What is true in all states. -/
structure PoolInv (s : PoolState) : Prop where
  /-- Only the thread with the lock is inside. -/
  inside : ∀ t, s.pc t ≠ .idle → s.pc t ≠ .dead → s.lock = some t
  locked : ∀ t, s.lock = some t → s.pc t ≠ .idle ∧ s.pc t ≠ .dead
  /-- The factory is called only if the pool is empty. -/
  empty : ∀ t, s.pc t = .creating → s.resources = []
  whole : ∀ h, (h, none) ∉ s.handles
  pushing : ∀ t, s.pc t ≠ .pushing none
  fresh : ∀ e ∈ s.handles, e.1 < s.nextHandle
  ids : (s.handles.map Prod.fst).Nodup
  pool : s.resources.Nodup
  made : ∀ r, (r ∈ s.resources ∨ ∃ u, Has s u r) → r < s.created
  once : ∀ u u' r, Has s u r → Has s u' r → u = u'
  away : ∀ u r, Has s u r → r ∉ s.resources
  /-- Nothing gets lost. -/
  kept : s.poisoned = false → ∀ r, r < s.created → r ∈ s.resources ∨ ∃ u, Has s u r
  calm : s.poisoned = true → s.lock = none

theorem PoolInv.thread_has {s : PoolState} (h : PoolInv s) {t : ThreadId} {r : ResourceId}
    (hh : Has s (.thread t) r) : s.lock = some t := by
  apply h.inside
  · intro hp; rcases hh with hh | hh <;> simp [hp] at hh
  · intro hp; rcases hh with hh | hh <;> simp [hp] at hh

theorem PoolInv.unique_handle {s : PoolState} (h : PoolInv s) {y : HandleId} {a b : ResourceId}
    (ha : (y, some a) ∈ s.handles) (hb : (y, some b) ∈ s.handles) : a = b := by
  have hi := h.ids
  generalize s.handles = l at ha hb hi
  induction l with
  | nil => simp at ha
  | cons e l ih =>
    rw [List.map_cons, List.nodup_cons] at hi
    rcases List.mem_cons.1 ha with h1 | h1 <;> rcases List.mem_cons.1 hb with h2 | h2
    · rw [← h1] at h2
      simpa using h2.symm
    · exact absurd (List.mem_map.2 ⟨_, h2, rfl⟩) (by rw [← h1] at hi; exact hi.1)
    · exact absurd (List.mem_map.2 ⟨_, h1, rfl⟩) (by rw [← h2] at hi; exact hi.1)
    · exact ih h1 h2 hi.2

theorem PoolInv.has_one {s : PoolState} (h : PoolInv s) {u : PoolUser} {a b : ResourceId}
    (ha : Has s u a) (hb : Has s u b) : a = b := by
  cases u with
  | handle y => exact h.unique_handle ha hb
  | thread t =>
    rcases ha with ha | ha <;> rcases hb with hb | hb <;> rw [ha] at hb <;> simpa using hb

theorem poolInv_new : PoolInv .new := by
  have hno : ∀ u r, ¬ Has .new u r := by
    rintro (h | t) r <;> simp [Has, PoolState.new]
  refine ⟨?_, ?_, ?_, ?_, ?_, ?_, ?_, ?_, ?_, ?_, ?_, ?_, ?_⟩
  · intro t h; simp [PoolState.new] at h
  · intro t h; simp [PoolState.new] at h
  · intro t _; rfl
  · intro h; simp [PoolState.new]
  · intro t; simp [PoolState.new]
  · intro e h; simp [PoolState.new] at h
  · simp [PoolState.new]
  · simp [PoolState.new]
  · rintro r (h | ⟨u, h⟩)
    · simp [PoolState.new] at h
    · exact absurd h (hno u r)
  · intro u u' r h; exact absurd h (hno u r)
  · intro u r h; exact absurd h (hno u r)
  · intro _ r h; simp [PoolState.new] at h
  · intro h; rfl

/-- The next state, when only the place of the thread and the lock change, and the thread has nothing. -/
theorem poolInv_move {s s' : PoolState} (h : PoolInv s) {t : ThreadId} {p : PoolPc}
    (hpc : ∀ t', s'.pc t' = if t' = t then p else s.pc t')
    (hr : s'.resources = s.resources) (hh : s'.handles = s.handles) (hn : s'.nextHandle = s.nextHandle)
    (hc : s'.created = s.created)
    (hp : (∀ r, p ≠ .got r) ∧ (∀ r, p ≠ .pushing r)) (hp2 : p = .creating → s.resources = [])
    (hold : (∀ r, s.pc t ≠ .got r) ∧ (∀ r, s.pc t ≠ .pushing r))
    (hl : (p = .idle ∨ p = .dead) ∧ (s'.lock = none) ∧ (s.lock = none ∨ s.lock = some t) ∨
      (p ≠ .idle ∧ p ≠ .dead) ∧ s'.lock = some t ∧ (s.lock = none ∨ s.lock = some t))
    (hpo : s'.poisoned = false → s.poisoned = false) (hpo2 : s'.poisoned = true → s'.lock = none) :
    PoolInv s' := by
  have hhas : ∀ u r, Has s' u r ↔ Has s u r := by
    intro u r
    cases u with
    | handle x => simp only [Has, hh]
    | thread x =>
      simp only [Has, hpc]
      by_cases hx : x = t
      · subst hx
        simp [hp.1, hp.2, hold.1, hold.2]
      · simp [hx]
  have hlock : s.lock = none ∨ s.lock = some t := by
    rcases hl with ⟨_, _, h⟩ | ⟨_, _, h⟩ <;> exact h
  refine ⟨?_, ?_, ?_, by simpa [hh] using h.whole, ?_, by simpa [hh, hn] using h.fresh, by simpa [hh] using h.ids,
    by simpa [hr] using h.pool, by simpa only [hr, hc, hhas] using h.made, by simpa only [hhas] using h.once,
    by simpa only [hhas, hr] using h.away, ?_, hpo2⟩
  · intro t' h1 h2
    rw [hpc] at h1 h2
    by_cases hx : t' = t
    · subst hx
      rw [if_pos rfl] at h1 h2
      rcases hl with ⟨h3, _⟩ | ⟨_, h3, _⟩
      · exact absurd h3 (by simp [h1, h2])
      · exact h3
    · rw [if_neg hx] at h1 h2
      have := h.inside t' h1 h2
      rcases hlock with h3 | h3 <;> rw [h3] at this
      · simp at this
      · simp only [Option.some.injEq] at this
        exact absurd this.symm hx
  · intro t' h1
    rcases hl with ⟨_, h3, _⟩ | ⟨h2, h3, _⟩
    · rw [h3] at h1; simp at h1
    · rw [h3] at h1
      simp only [Option.some.injEq] at h1
      subst h1
      rw [hpc, if_pos rfl]
      exact h2
  · intro t' h1
    rw [hr]
    rw [hpc] at h1
    split at h1
    · exact hp2 h1
    · exact h.empty t' h1
  · intro t'
    rw [hpc]
    split
    · exact hp.2 none
    · exact h.pushing t'
  · intro h1
    simpa only [hr, hc, hhas] using h.kept (hpo h1)

theorem PoolInv.others {s : PoolState} (h : PoolInv s) {t : ThreadId} (hl : s.lock = some t ∨ s.lock = none)
    {t' : ThreadId} (hne : t' ≠ t) (r : ResourceId) : ¬ Has s (.thread t') r := by
  intro hh
  have := h.thread_has hh
  rcases hl with h1 | h1 <;> rw [h1] at this <;> simp at this
  exact hne this.symm

theorem poolInv_step {s s' : PoolState} {t : ThreadId} {a : PoolAction} (h : PoolInv s)
    (hs : s.step t a = some s') : PoolInv s' := by
  have hin : s.pc t ≠ .idle → s.pc t ≠ .dead → s.lock = some t := h.inside t
  cases a with
  | lockCreate =>
    simp only [PoolState.step] at hs
    split at hs
    · rename_i hc
      split at hs
      · rename_i hp
        simp only [Option.some.injEq] at hs
        subst hs
        refine poolInv_move h (t := t) (p := .dead) (fun _ => rfl) rfl rfl rfl rfl (by simp) (by simp)
          (by simp [hc.1]) (.inl ⟨.inr rfl, hc.2, .inl hc.2⟩) id (fun _ => hc.2)
      · rename_i hp
        simp only [Option.some.injEq] at hs
        subst hs
        exact poolInv_move h (t := t) (p := .popping) (fun _ => rfl) rfl rfl rfl rfl (by simp) (by simp)
          (by simp [hc.1]) (.inr ⟨by simp, rfl, .inl hc.2⟩) id (fun h1 => absurd h1 hp)
    · simp at hs
  | pop =>
    simp only [PoolState.step] at hs
    split at hs
    · rename_i hpc
      have hl := hin (by simp [hpc]) (by simp [hpc])
      have hpo : s.poisoned = false := by
        by_contra h1
        rw [h.calm (by simpa using h1)] at hl
        simp at hl
      split at hs
      · rename_i r rest hr
        simp only [Option.some.injEq] at hs
        subst hs
        have hhas : ∀ u x, Has ({ s with resources := rest }.setPc t (.got r)) u x ↔
            Has s u x ∨ (u = .thread t ∧ x = r) := by
          intro u x
          cases u with
          | handle y => simp [Has, PoolState.setPc]
          | thread y =>
            simp only [Has, PoolState.setPc]
            by_cases hy : y = t
            · subst hy
              simp [hpc, eq_comm]
            · simp [hy]
        have hnd := h.pool
        rw [hr, List.nodup_cons] at hnd
        have hnone : ∀ u, ¬ Has s u r := fun u hu => h.away u r hu (by simp [hr])
        have hself : ∀ x, ¬ Has s (.thread t) x := by
          intro x hx
          simp [Has, hpc] at hx
        refine ⟨?_, ?_, ?_, h.whole, ?_, h.fresh, h.ids, hnd.2, ?_, ?_, ?_, ?_, fun h1 => ?_⟩
        · intro t' h1 h2
          simp only [PoolState.setPc] at h1 h2
          split at h1
          · rename_i hx; subst hx; exact hl
          · rename_i hx; simp only [hx, if_false] at h2; exact h.inside t' h1 h2
        · intro t' h1
          simp only [PoolState.setPc]
          split
          · simp
          · exact h.locked t' h1
        · intro t' h1
          simp only [PoolState.setPc] at h1
          split at h1
          · simp at h1
          · have := h.empty t' h1
            rw [hr] at this
            simp at this
        · intro t' h1
          simp only [PoolState.setPc] at h1
          split at h1
          · simp at h1
          · exact h.pushing t' h1
        · rintro x (h1 | ⟨u, h1⟩)
          · exact h.made x (.inl (by rw [hr]; exact List.mem_cons_of_mem _ h1))
          · rcases (hhas u x).1 h1 with h1 | ⟨_, rfl⟩
            · exact h.made x (.inr ⟨u, h1⟩)
            · exact h.made x (.inl (by simp [hr]))
        · intro u u' x h1 h2
          rcases (hhas u x).1 h1 with g1 | ⟨e1, e2⟩ <;> rcases (hhas u' x).1 h2 with g2 | ⟨e3, e4⟩
          · exact h.once u u' x g1 g2
          · exact absurd (e4 ▸ g1) (hnone u)
          · exact absurd (e2 ▸ g2) (hnone u')
          · rw [e1, e3]
        · intro u x h1 h2
          rcases (hhas u x).1 h1 with h1 | ⟨rfl, rfl⟩
          · exact h.away u x h1 (by rw [hr]; exact List.mem_cons_of_mem _ h2)
          · exact hnd.1 h2
        · intro _ x hx
          rcases h.kept hpo x hx with h1 | ⟨u, h1⟩
          · rw [hr, List.mem_cons] at h1
            rcases h1 with rfl | h1
            · exact .inr ⟨.thread t, (hhas _ _).2 (.inr ⟨rfl, rfl⟩)⟩
            · exact .inl h1
          · exact .inr ⟨u, (hhas _ _).2 (.inl h1)⟩
        · exact absurd h1 (by simp [PoolState.setPc, hpo])
      · rename_i hr
        simp only [Option.some.injEq] at hs
        subst hs
        exact poolInv_move h (t := t) (p := .creating) (fun _ => rfl) rfl rfl rfl rfl (by simp) (fun _ => hr)
          (by simp [hpc]) (.inr ⟨by simp, hl, .inr hl⟩) id (fun h1 => absurd h1 (by simp [PoolState.setPc, hpo]))
    · simp at hs
  | createOk =>
    simp only [PoolState.step] at hs
    split at hs
    · rename_i hpc
      have hl := hin (by simp [hpc]) (by simp [hpc])
      have hpo : s.poisoned = false := by
        by_contra h1
        rw [h.calm (by simpa using h1)] at hl
        simp at hl
      simp only [Option.some.injEq] at hs
      subst hs
      have hr := h.empty t hpc
      have hhas : ∀ u x, Has ({ s with created := s.created + 1 }.setPc t (.got s.created)) u x ↔
          Has s u x ∨ (u = .thread t ∧ x = s.created) := by
        intro u x
        cases u with
        | handle y => simp [Has, PoolState.setPc]
        | thread y =>
          simp only [Has, PoolState.setPc]
          by_cases hy : y = t
          · subst hy
            simp [hpc, eq_comm]
          · simp [hy]
      have hnone : ∀ u, ¬ Has s u s.created := fun u hu => by
        exact Nat.lt_irrefl _ (h.made _ (.inr ⟨u, hu⟩))
      refine ⟨?_, ?_, ?_, h.whole, ?_, h.fresh, h.ids, h.pool, ?_, ?_, ?_, ?_, fun h1 => ?_⟩
      · intro t' h1 h2
        simp only [PoolState.setPc] at h1 h2
        split at h1
        · rename_i hx; subst hx; exact hl
        · rename_i hx; simp only [hx, if_false] at h2; exact h.inside t' h1 h2
      · intro t' h1
        simp only [PoolState.setPc]
        split
        · simp
        · exact h.locked t' h1
      · intro t' h1
        exact hr
      · intro t' h1
        simp only [PoolState.setPc] at h1
        split at h1
        · simp at h1
        · exact h.pushing t' h1
      · rintro x (h1 | ⟨u, h1⟩)
        · exact Nat.lt_succ_of_lt (h.made x (.inl h1))
        · rcases (hhas u x).1 h1 with h1 | ⟨_, rfl⟩
          · exact Nat.lt_succ_of_lt (h.made x (.inr ⟨u, h1⟩))
          · exact Nat.lt_succ_self _
      · intro u u' x h1 h2
        rcases (hhas u x).1 h1 with g1 | ⟨e1, e2⟩ <;> rcases (hhas u' x).1 h2 with g2 | ⟨e3, e4⟩
        · exact h.once u u' x g1 g2
        · exact absurd (e4 ▸ g1) (hnone u)
        · exact absurd (e2 ▸ g2) (hnone u')
        · rw [e1, e3]
      · intro u x h1 h2
        change x ∈ s.resources at h2
        rw [hr] at h2
        simp at h2
      · intro _ x hx
        rcases Nat.lt_succ_iff_lt_or_eq.1 hx with hx | hx
        · rcases h.kept hpo x hx with h1 | ⟨u, h1⟩
          · exact .inl h1
          · exact .inr ⟨u, (hhas _ _).2 (.inl h1)⟩
        · exact .inr ⟨.thread t, (hhas _ _).2 (.inr ⟨rfl, hx⟩)⟩
      · exact absurd h1 (by simp [PoolState.setPc, hpo])
    · simp at hs
  | createError =>
    simp only [PoolState.step] at hs
    split at hs
    · rename_i hpc
      have hl := hin (by simp [hpc]) (by simp [hpc])
      simp only [Option.some.injEq] at hs
      subst hs
      refine poolInv_move h (t := t) (p := .failed) (fun _ => rfl) rfl rfl rfl rfl (by simp) (by simp)
        (by simp [hpc]) (.inr ⟨by simp, hl, .inr hl⟩) id (fun h1 => ?_)
      exact h.calm h1
    · simp at hs
  | createPanic =>
    simp only [PoolState.step] at hs
    split at hs
    · rename_i hpc
      have hl := hin (by simp [hpc]) (by simp [hpc])
      simp only [Option.some.injEq] at hs
      subst hs
      exact poolInv_move h (t := t) (p := .dead) (fun _ => rfl) rfl rfl rfl rfl (by simp) (by simp)
        (by simp [hpc]) (.inl ⟨.inr rfl, rfl, .inr hl⟩) (fun h1 => by simp [PoolState.setPc] at h1) (fun _ => rfl)
    · simp at hs
  | unlock =>
    simp only [PoolState.step] at hs
    have hidle : ∀ s', s' = ({ s with lock := none }.setPc t .idle) → s.lock = some t →
        (∀ r, s.pc t ≠ .got r) → (∀ r, s.pc t ≠ .pushing r) → PoolInv s' := by
      intro s' h1 hl h2 h3
      subst h1
      exact poolInv_move h (t := t) (p := .idle) (fun _ => rfl) rfl rfl rfl rfl (by simp) (by simp)
        ⟨h2, h3⟩ (.inl ⟨.inl rfl, rfl, .inr hl⟩) id (fun _ => rfl)
    cases hpc : s.pc t with
    | got r =>
      have hl := hin (by simp [hpc]) (by simp [hpc])
      have hpo : s.poisoned = false := by
        by_contra h1
        rw [h.calm (by simpa using h1)] at hl
        simp at hl
      simp only [hpc, Option.some.injEq] at hs
      subst hs
      have ht : Has s (.thread t) r := .inl hpc
      have hht : ∀ x, Has s (.thread t) x ↔ x = r := by
        intro x; simp [Has, hpc, eq_comm]
      have hothers : ∀ t' x, t' ≠ t → ¬ Has s (.thread t') x := fun t' x hne => h.others (.inl hl) hne x
      have hfree : ∀ x, ¬ Has s (.handle s.nextHandle) x := by
        intro x hx
        have := h.fresh _ hx
        simp at this
      have hhas : ∀ u x, Has ({ s with
            lock := none, handles := (s.nextHandle, some r) :: s.handles,
            nextHandle := s.nextHandle + 1 }.setPc t .idle) u x ↔
          (Has s u x ∧ u ≠ .thread t) ∨ (u = .handle s.nextHandle ∧ x = r) := by
        intro u x
        cases u with
        | handle y => simp [Has, PoolState.setPc, or_comm]
        | thread y =>
          simp only [Has, PoolState.setPc]
          by_cases hy : y = t
          · subst hy
            simp
          · simp [hy]
      refine ⟨?_, ?_, ?_, ?_, ?_, ?_, ?_, h.pool, ?_, ?_, ?_, ?_, fun _ => rfl⟩
      · intro t' h1 h2
        simp only [PoolState.setPc] at h1 h2
        split at h1
        · simp at h1
        · rename_i hx
          simp only [hx, if_false] at h2
          have := h.inside t' h1 h2
          rw [hl] at this
          simp only [Option.some.injEq] at this
          exact absurd this.symm hx
      · intro t' h1
        simp [PoolState.setPc] at h1
      · intro t' h1
        simp only [PoolState.setPc] at h1
        split at h1
        · simp at h1
        · exact h.empty t' h1
      · intro x hx
        simp only [PoolState.setPc, List.mem_cons, Prod.mk.injEq, reduceCtorEq, and_false, false_or] at hx
        exact h.whole x hx
      · intro t' h1
        simp only [PoolState.setPc] at h1
        split at h1
        · simp at h1
        · exact h.pushing t' h1
      · intro e he
        simp only [PoolState.setPc, List.mem_cons] at he ⊢
        rcases he with rfl | he
        · simp
        · exact Nat.lt_succ_of_lt (h.fresh e he)
      · simp only [PoolState.setPc, List.map_cons, List.nodup_cons]
        refine ⟨fun h1 => ?_, h.ids⟩
        obtain ⟨e, he, h1⟩ := List.mem_map.1 h1
        have h2 := h.fresh e he
        rw [h1] at h2
        exact Nat.lt_irrefl _ h2
      · rintro x (h1 | ⟨u, h1⟩)
        · exact h.made x (.inl h1)
        · rcases (hhas u x).1 h1 with ⟨h1, _⟩ | ⟨_, rfl⟩
          · exact h.made x (.inr ⟨u, h1⟩)
          · exact h.made x (.inr ⟨_, ht⟩)
      · intro u u' x h1 h2
        rcases (hhas u x).1 h1 with ⟨g1, h3⟩ | ⟨e1, e2⟩ <;> rcases (hhas u' x).1 h2 with ⟨g2, h4⟩ | ⟨e3, e4⟩
        · exact h.once u u' x g1 g2
        · exact absurd (h.once u _ r (e4 ▸ g1) ht) h3
        · exact absurd (h.once u' _ r (e2 ▸ g2) ht) h4
        · rw [e1, e3]
      · intro u x h1
        rcases (hhas u x).1 h1 with ⟨h1, _⟩ | ⟨rfl, rfl⟩
        · exact h.away u x h1
        · exact h.away _ _ ht
      · intro _ x hx
        rcases h.kept hpo x hx with h1 | ⟨u, h1⟩
        · exact .inl h1
        · by_cases hu : u = .thread t
          · subst hu
            exact .inr ⟨_, (hhas _ _).2 (.inr ⟨rfl, (hht x).1 h1⟩)⟩
          · exact .inr ⟨u, (hhas _ _).2 (.inl ⟨h1, hu⟩)⟩
    | failed =>
      have hl := hin (by simp [hpc]) (by simp [hpc])
      simp only [hpc, Option.some.injEq] at hs
      exact hidle s' hs.symm hl (by simp [hpc]) (by simp [hpc])
    | pushed =>
      have hl := hin (by simp [hpc]) (by simp [hpc])
      simp only [hpc, Option.some.injEq] at hs
      exact hidle s' hs.symm hl (by simp [hpc]) (by simp [hpc])
    | idle => simp [hpc] at hs
    | popping => simp [hpc] at hs
    | creating => simp [hpc] at hs
    | pushing r => simp [hpc] at hs
    | dead => simp [hpc] at hs
  | lockDrop y =>
    simp only [PoolState.step] at hs
    split at hs
    · rename_i hc
      obtain ⟨hpc, hl⟩ := hc
      cases hf : s.handles.find? (·.1 = y) with
      | none => simp [hf] at hs
      | some e =>
      obtain ⟨y', inner⟩ := e
      have hmem := List.mem_of_find?_eq_some hf
      have hy : y' = y := by simpa using List.find?_some hf
      subst hy
      obtain ⟨r, rfl⟩ : ∃ r, inner = some r := by
        cases inner with
        | none => exact absurd hmem (h.whole y')
        | some r => exact ⟨r, rfl⟩
      simp only [hf] at hs
      have hthreads : ∀ t' x, ¬ Has s (.thread t') x := by
        intro t' x hx
        have := h.thread_has hx
        rw [hl] at this
        simp at this
      have huniq : ∀ x, Has s (.handle y') x → x = r := by
        intro x hx
        exact h.unique_handle hx hmem
      have hhandles : ∀ z x, (z, some x) ∈ s.handles.filter (·.1 ≠ y') ↔ (z, some x) ∈ s.handles ∧ z ≠ y' := by
        intro z x
        simp [List.mem_filter]
      have hold : Has s (.handle y') r := hmem
      split at hs
      · rename_i hp
        simp only [Option.some.injEq] at hs
        subst hs
        have hhas : ∀ u x, Has ({ s with handles := s.handles.filter (·.1 ≠ y') }.setPc t .dead) u x ↔
            Has s u x ∧ u ≠ .handle y' := by
          intro u x
          cases u with
          | handle z => simp [Has, PoolState.setPc, List.mem_filter]
          | thread z =>
            simp only [Has, PoolState.setPc]
            by_cases hz : z = t
            · subst hz; simp [hpc]
            · simp [hz]
        refine ⟨?_, ?_, ?_, ?_, ?_, ?_, ?_, h.pool, ?_, ?_, ?_, ?_, fun _ => hl⟩
        · intro t' h1 h2
          simp only [PoolState.setPc] at h1 h2
          split at h1
          · rename_i hx; simp [hx] at h2
          · rename_i hx; simp only [hx, if_false] at h2; exact h.inside t' h1 h2
        · intro t' h1
          simp [PoolState.setPc, hl] at h1
        · intro t' h1
          simp only [PoolState.setPc] at h1
          split at h1
          · simp at h1
          · exact h.empty t' h1
        · intro x hx
          exact h.whole x (List.mem_filter.1 hx).1
        · intro t' h1
          simp only [PoolState.setPc] at h1
          split at h1
          · simp at h1
          · exact h.pushing t' h1
        · intro e he
          exact h.fresh e (List.mem_filter.1 he).1
        · exact h.ids.sublist (List.Sublist.map _ List.filter_sublist)
        · rintro x (h1 | ⟨u, h1⟩)
          · exact h.made x (.inl h1)
          · exact h.made x (.inr ⟨u, ((hhas u x).1 h1).1⟩)
        · intro u u' x h1 h2
          exact h.once u u' x ((hhas u x).1 h1).1 ((hhas u' x).1 h2).1
        · intro u x h1
          exact h.away u x ((hhas u x).1 h1).1
        · intro h1
          simp [PoolState.setPc, hp] at h1
      · rename_i hp
        simp only [Option.some.injEq] at hs
        subst hs
        have hpo : s.poisoned = false := by simpa using hp
        have hhas : ∀ u x, Has ({ s with handles := s.handles.filter (·.1 ≠ y'), lock := some t }.setPc t
            (.pushing (some r))) u x ↔ (Has s u x ∧ u ≠ .handle y') ∨ (u = .thread t ∧ x = r) := by
          intro u x
          cases u with
          | handle z => simp [Has, PoolState.setPc, List.mem_filter]
          | thread z =>
            simp only [Has, PoolState.setPc]
            by_cases hz : z = t
            · subst hz; simp [hpc, eq_comm]
            · simp [hz]
        refine ⟨?_, ?_, ?_, ?_, ?_, ?_, ?_, h.pool, ?_, ?_, ?_, ?_, fun h1 => ?_⟩
        · intro t' h1 h2
          simp only [PoolState.setPc] at h1 h2
          split at h1
          · rename_i hx; subst hx; rfl
          · rename_i hx
            simp only [hx, if_false] at h2
            have := h.inside t' h1 h2
            rw [hl] at this
            simp at this
        · intro t' h1
          simp only [PoolState.setPc, Option.some.injEq] at h1
          subst h1
          simp [PoolState.setPc]
        · intro t' h1
          simp only [PoolState.setPc] at h1
          split at h1
          · simp at h1
          · exact h.empty t' h1
        · intro x hx
          exact h.whole x (List.mem_filter.1 hx).1
        · intro t' h1
          simp only [PoolState.setPc] at h1
          split at h1
          · simp at h1
          · exact h.pushing t' h1
        · intro e he
          exact h.fresh e (List.mem_filter.1 he).1
        · exact h.ids.sublist (List.Sublist.map _ List.filter_sublist)
        · rintro x (h1 | ⟨u, h1⟩)
          · exact h.made x (.inl h1)
          · rcases (hhas u x).1 h1 with ⟨h1, _⟩ | ⟨_, rfl⟩
            · exact h.made x (.inr ⟨u, h1⟩)
            · exact h.made x (.inr ⟨_, hold⟩)
        · intro u u' x h1 h2
          rcases (hhas u x).1 h1 with ⟨g1, h3⟩ | ⟨e1, e2⟩ <;> rcases (hhas u' x).1 h2 with ⟨g2, h4⟩ | ⟨e3, e4⟩
          · exact h.once u u' x g1 g2
          · exact absurd (h.once u _ r (e4 ▸ g1) hold) h3
          · exact absurd (h.once u' _ r (e2 ▸ g2) hold) h4
          · rw [e1, e3]
        · intro u x h1
          rcases (hhas u x).1 h1 with ⟨h1, _⟩ | ⟨rfl, rfl⟩
          · exact h.away u x h1
          · exact h.away _ _ hold
        · intro _ x hx
          rcases h.kept hpo x hx with h1 | ⟨u, h1⟩
          · exact .inl h1
          · by_cases hu : u = .handle y'
            · subst hu
              exact .inr ⟨_, (hhas _ _).2 (.inr ⟨rfl, huniq x h1⟩)⟩
            · exact .inr ⟨u, (hhas _ _).2 (.inl ⟨h1, hu⟩)⟩
        · exact absurd h1 (by simp [PoolState.setPc, hpo])
    · simp at hs
  | push =>
    simp only [PoolState.step] at hs
    cases hpc : s.pc t with
    | pushing inner =>
      cases inner with
      | none => exact absurd hpc (h.pushing t)
      | some r =>
      have hl := hin (by simp [hpc]) (by simp [hpc])
      have hpo : s.poisoned = false := by
        by_contra h1
        rw [h.calm (by simpa using h1)] at hl
        simp at hl
      simp only [hpc, Option.some.injEq] at hs
      subst hs
      have ht : Has s (.thread t) r := .inr hpc
      have hht : ∀ x, Has s (.thread t) x ↔ x = r := by
        intro x; simp [Has, hpc, eq_comm]
      have hhas : ∀ u x, Has ({ s with resources := r :: s.resources }.setPc t .pushed) u x ↔
          (Has s u x ∧ u ≠ .thread t) := by
        intro u x
        cases u with
        | handle y => simp [Has, PoolState.setPc]
        | thread y =>
          simp only [Has, PoolState.setPc]
          by_cases hy : y = t
          · subst hy
            simp
          · simp [hy]
      refine ⟨?_, ?_, ?_, h.whole, ?_, h.fresh, h.ids, List.nodup_cons.2 ⟨h.away _ _ ht, h.pool⟩, ?_, ?_, ?_, ?_,
        fun h1 => ?_⟩
      · intro t' h1 h2
        simp only [PoolState.setPc] at h1 h2
        split at h1
        · rename_i hx; subst hx; exact hl
        · rename_i hx; simp only [hx, if_false] at h2; exact h.inside t' h1 h2
      · intro t' h1
        simp only [PoolState.setPc]
        split
        · simp
        · exact h.locked t' h1
      · intro t' h1
        simp only [PoolState.setPc] at h1
        split at h1
        · simp at h1
        · rename_i hx
          have := h.inside t' (by simp [h1]) (by simp [h1])
          rw [hl] at this
          simp only [Option.some.injEq] at this
          exact absurd this.symm hx
      · intro t' h1
        simp only [PoolState.setPc] at h1
        split at h1
        · simp at h1
        · exact h.pushing t' h1
      · rintro x (h1 | ⟨u, h1⟩)
        · rcases List.mem_cons.1 h1 with rfl | h1
          · exact h.made _ (.inr ⟨_, ht⟩)
          · exact h.made x (.inl h1)
        · exact h.made x (.inr ⟨u, ((hhas u x).1 h1).1⟩)
      · intro u u' x h1 h2
        exact h.once u u' x ((hhas u x).1 h1).1 ((hhas u' x).1 h2).1
      · intro u x h1 h2
        obtain ⟨g1, h3⟩ := (hhas u x).1 h1
        rcases List.mem_cons.1 h2 with h2 | h2
        · exact h3 (h.once _ _ r (h2 ▸ g1) ht)
        · exact h.away u x g1 h2
      · intro _ x hx
        rcases h.kept hpo x hx with h1 | ⟨u, h1⟩
        · exact .inl (List.mem_cons_of_mem _ h1)
        · by_cases hu : u = .thread t
          · subst hu
            rw [(hht x).1 h1]
            exact .inl List.mem_cons_self
          · exact .inr ⟨u, (hhas _ _).2 ⟨h1, hu⟩⟩
      · exact absurd h1 (by simp [PoolState.setPc, hpo])
    | idle => simp [hpc] at hs
    | popping => simp [hpc] at hs
    | creating => simp [hpc] at hs
    | got r => simp [hpc] at hs
    | failed => simp [hpc] at hs
    | pushed => simp [hpc] at hs
    | dead => simp [hpc] at hs

theorem poolInv_exec {s0 s : PoolState} {states : List PoolState} (h : PoolExec s0 states s) (hi : PoolInv s0) :
    PoolInv s := by
  induction h with
  | nil => exact hi
  | cons h1 h2 ih => exact poolInv_step ih h2

theorem pool_inv {s : PoolState} {states : List PoolState} (h : PoolExec .new states s) : PoolInv s :=
  poolInv_exec h poolInv_new

/-- C48: at any time, under any interleaving, a resource is held by at most one user, it is not in the pool
at the same time, and the pool does not have it twice. -/
theorem never_shared {s : PoolState} {states : List PoolState} (h : PoolExec .new states s) :
    (∀ u u' r, Has s u r → Has s u' r → u = u') ∧ (∀ u r, Has s u r → r ∉ s.resources) ∧ s.resources.Nodup :=
  let i := pool_inv h
  ⟨i.once, i.away, i.pool⟩

/-- C48: a handle always has its resource: using it does not panic, nor does dropping it, unless the factory
panicked. -/
theorem handle_has_resource {s : PoolState} {states : List PoolState} (h : PoolExec .new states s) :
    ∀ x inner, (x, inner) ∈ s.handles → ∃ r, inner = some r := by
  intro x inner hx
  cases inner with
  | none => exact absurd hx ((pool_inv h).whole x)
  | some r => exact ⟨r, rfl⟩

/-- C48: as long as the factory did not panic, every resource which was made is in the pool or in use: nothing
gets lost, and the pool is not reported as poisoned. -/
theorem nothing_lost {s : PoolState} {states : List PoolState} (h : PoolExec .new states s)
    (hp : s.poisoned = false) (r : ResourceId) : r < s.created ↔ r ∈ s.resources ∨ ∃ u, Has s u r :=
  ⟨(pool_inv h).kept hp r, (pool_inv h).made r⟩

/-- Right after a resource was made, each resource has a user of its own. -/
theorem users_of_empty {s : PoolState} (h : PoolInv s) (hp : s.poisoned = false) (he : s.resources = []) :
    ∃ us, Users s us ∧ us.length = s.created := by
  have hall : ∀ r, r < s.created → ∃ u, Has s u r := by
    intro r hr
    rcases h.kept hp r hr with h1 | h1
    · rw [he] at h1; simp at h1
    · exact h1
  classical
  let f : ResourceId → PoolUser := fun r => if hr : r < s.created then (hall r hr).choose else .thread 0
  have hf : ∀ r, r < s.created → Has s (f r) r := by
    intro r hr
    simp only [f, hr, dif_pos]
    exact (hall r hr).choose_spec
  refine ⟨(List.range s.created).map f, ⟨?_, ?_⟩, by simp⟩
  · refine List.Nodup.map_on ?_ List.nodup_range
    intro a ha b hb hab
    have h1 := hf a (List.mem_range.1 ha)
    have h2 := hf b (List.mem_range.1 hb)
    rw [hab] at h1
    exact h.has_one h1 h2
  · intro u
    rw [List.mem_map]
    constructor
    · rintro ⟨r, hr, rfl⟩
      exact ⟨r, hf r (List.mem_range.1 hr)⟩
    · rintro ⟨r, hr⟩
      have hlt := h.made r (.inr ⟨u, hr⟩)
      exact ⟨r, List.mem_range.2 hlt, h.once _ _ _ (hf r hlt) hr⟩

theorem created_step {s s' : PoolState} {t : ThreadId} {a : PoolAction} (h : PoolInv s)
    (hs : s.step t a = some s') : s'.created = s.created ∨ (s'.resources = [] ∧ s'.poisoned = false) := by
  cases a <;> simp only [PoolState.step] at hs
  case createOk =>
    split at hs
    · rename_i hpc
      simp only [Option.some.injEq] at hs
      subst hs
      have hl := h.inside t (by simp [hpc]) (by simp [hpc])
      refine .inr ⟨h.empty t hpc, ?_⟩
      by_contra h1
      rw [h.calm (by simpa [PoolState.setPc] using h1)] at hl
      simp at hl
    · simp at hs
  all_goals
    left
    repeat' split at hs
    all_goals simp only [Option.some.injEq, reduceCtorEq] at hs
    all_goals subst hs; rfl

/-- C48: no more resources are made than were in use at some time. -/
theorem created_at_peak {s : PoolState} {states : List PoolState} (h : PoolExec .new states s) :
    ∃ s' ∈ states, ∃ us, Users s' us ∧ us.length = s.created := by
  have key : ∀ {s0 s : PoolState} {states : List PoolState}, PoolExec s0 states s → s0 = .new →
      ∃ s' ∈ states, ∃ us, Users s' us ∧ us.length = s.created := by
    intro s0 s states h h0
    induction h with
    | nil =>
      subst h0
      refine ⟨_, List.mem_singleton_self _, [], ⟨List.nodup_nil, ?_⟩, rfl⟩
      rintro (h | t) <;> simp [Has, PoolState.new]
    | cons h1 h2 ih =>
      subst h0
      have hi := pool_inv h1
      rcases created_step hi h2 with hc | ⟨h3, h4⟩
      · obtain ⟨s', hs', us, h5, h6⟩ := ih
        exact ⟨s', List.mem_append_left _ hs', us, h5, by rw [h6, hc]⟩
      · exact ⟨_, List.mem_append_right _ (List.mem_singleton_self _),
          users_of_empty (poolInv_step hi h2) h4 h3⟩
  exact key h rfl

/-- C48: no deadlock: the thread which has the lock can always go on, whatever the others do; and if nobody
has it, every thread which wants a resource can start. -/
theorem pool_progress {s : PoolState} {states : List PoolState} (h : PoolExec .new states s) :
    (∀ t, s.lock = some t → ∃ a s', s.step t a = some s') ∧
    (s.lock = none → ∀ t, s.pc t = .idle → ∃ s', s.step t .lockCreate = some s') := by
  have hi := pool_inv h
  constructor
  · intro t hl
    obtain ⟨h1, h2⟩ := hi.locked t hl
    cases hpc : s.pc t with
    | idle => exact absurd hpc h1
    | dead => exact absurd hpc h2
    | popping =>
      refine ⟨.pop, ?_⟩
      simp only [PoolState.step, hpc, if_true]
      split <;> exact ⟨_, rfl⟩
    | creating => exact ⟨.createOk, by simp [PoolState.step, hpc]⟩
    | got r => exact ⟨.unlock, by simp [PoolState.step, hpc]⟩
    | failed => exact ⟨.unlock, by simp [PoolState.step, hpc]⟩
    | pushed => exact ⟨.unlock, by simp [PoolState.step, hpc]⟩
    | pushing inner => cases inner <;> exact ⟨.push, by simp [PoolState.step, hpc]⟩
  · intro hl t ht
    simp only [PoolState.step, ht, hl, and_self, if_true]
    split <;> exact ⟨_, rfl⟩

/-- C48: threads are reported dead only if the factory panicked. -/
theorem no_panic {s s' : PoolState} {states : List PoolState} (h : PoolExec .new states s)
    (hp : s.poisoned = false) {t : ThreadId} {a : PoolAction} (ha : a ≠ .createPanic)
    (hs : s.step t a = some s') : s'.poisoned = false ∧ (s'.pc t = .dead → s.pc t = .dead) := by
  have hi := pool_inv h
  have hpush := hi.pushing t
  cases a <;> simp only [PoolState.step, hp] at hs
  case createPanic => exact absurd rfl ha
  all_goals
    repeat' split at hs
    all_goals simp only [Option.some.injEq, reduceCtorEq] at hs
    all_goals try subst hs
    all_goals simp_all [PoolState.setPc]

/-- Two threads, the steps of which are interleaved: the second waits until the first has made a resource and
makes another one; the first returns its one, and the second takes it. -/
def exSchedule : List (ThreadId × PoolAction) :=
  [(1, .lockCreate), (1, .pop), (1, .createOk), (1, .unlock), (2, .lockCreate), (2, .pop), (2, .createOk),
   (2, .unlock), (1, .lockDrop 0), (1, .push), (1, .unlock), (2, .lockCreate), (2, .pop), (2, .unlock)]

def runSchedule (s : PoolState) : List (ThreadId × PoolAction) → Option PoolState
  | [] => some s
  | (t, a) :: rest => (s.step t a).bind (runSchedule · rest)

theorem exec_of_run {l : List (ThreadId × PoolAction)} {s0 s s' : PoolState} {states : List PoolState}
    (h0 : PoolExec s0 states s) (h : runSchedule s l = some s') : ∃ states', PoolExec s0 states' s' := by
  induction l generalizing s states with
  | nil =>
    simp only [runSchedule, Option.some.injEq] at h
    subst h
    exact ⟨_, h0⟩
  | cons e l ih =>
    obtain ⟨t, a⟩ := e
    simp only [runSchedule, Option.bind_eq_some_iff] at h
    obtain ⟨s1, h1, h2⟩ := h
    exact ih (.cons h0 h1) h2

/-- Non-vacuity. -/
example : ∃ states s, PoolExec .new states s ∧ s.created = 2 ∧ s.poisoned = false ∧ s.resources = [] ∧
    s.handles = [(2, some 0), (1, some 1)] := by
  have h : ∃ s, runSchedule .new exSchedule = some s ∧ s.created = 2 ∧ s.poisoned = false ∧ s.resources = [] ∧
    s.handles = [(2, some 0), (1, some 1)] := ⟨_, rfl, rfl, rfl, rfl, rfl⟩
  obtain ⟨s, h1, h2⟩ := h
  obtain ⟨states, h3⟩ := exec_of_run (.nil _) h1
  exact ⟨states, s, h3, h2⟩

/-- Non-vacuity: the second thread cannot start while the first is inside; and after a panic of the factory
nobody gets a resource. -/
example : runSchedule .new [(1, .lockCreate), (1, .pop), (2, .lockCreate)] = none ∧
    (runSchedule .new [(1, .lockCreate), (1, .pop), (1, .createPanic), (2, .lockCreate)]).map
      (fun s => (s.pc 2, s.poisoned, s.lock)) = some (.dead, true, none) := by
  decide

end Verif.Props

import Verif.Model.Progress
import Verif.Spec.Progress
import Mathlib.Tactic.Common

namespace Verif

open Verif.Spec

@[simp] theorem OpTree.data_node (d : OpData) (cs : List OpTree) : (OpTree.node d cs).data = d := rfl

@[simp] theorem OpTree.fresh_type (k : Text) : (OpTree.fresh k).data.opType = k := rfl

theorem OpTree.modify_type {f : OpData → OpData} (hf : ∀ d, (f d).opType = d.opType) (ks : List Text) (t : OpTree) :
    (t.modify f ks).data.opType = t.data.opType := by
  cases t
  cases ks <;> simp [OpTree.modify, hf]

/-- Finding a child after one was changed. -/
theorem find_modifyFirst {k : Text} {g : OpTree → OpTree} (hg : ∀ t, (g t).data.opType = t.data.opType) (k' : Text)
    (ts : List OpTree) :
    (modifyFirst k g ts).find? (·.data.opType = k') =
      if k = k' then some (g ((ts.find? (·.data.opType = k')).getD (.fresh k))) else ts.find? (·.data.opType = k') := by
  induction ts with
  | nil =>
    by_cases h : k = k' <;> simp [modifyFirst, hg, h]
  | cons t ts ih =>
    simp only [modifyFirst]
    by_cases h1 : t.data.opType = k
    · by_cases h2 : k = k'
      · simp [h1, hg, h2, List.find?_cons]
      · have : t.data.opType ≠ k' := by rw [h1]; exact h2
        simp [h1, hg, h2, List.find?_cons]
    · rw [if_neg h1]
      by_cases h3 : t.data.opType = k'
      · have : k ≠ k' := by rintro rfl; exact h1 h3
        simp [List.find?_cons, h3, this]
      · simp [List.find?_cons, h3, ih]

/-- The start times and the elapsed time of an operation; none if it is not known. -/
def OpTree.time (ks : List Text) (t : OpTree) : List Nat × Nat :=
  ((t.get ks).map fun t => (t.data.starts, t.data.elapsed)).getD ([], 0)

def timeAt (key : List Text) (ts : List OpTree) : List Nat × Nat :=
  ((getChild key ts).map fun t => (t.data.starts, t.data.elapsed)).getD ([], 0)

theorem fresh_time (k : Text) (ks : List Text) : (OpTree.fresh k).time ks = ([], 0) := by
  cases ks <;> rfl

theorem get_cons (k : Text) (ks : List Text) (d : OpData) (cs : List OpTree) :
    (OpTree.node d cs).time (k :: ks) =
      ((cs.find? (·.data.opType = k)).map (·.time ks)).getD ([], 0) := by
  simp only [OpTree.time, OpTree.get]
  cases cs.find? (·.data.opType = k) <;> rfl

theorem timeAt_cons (k : Text) (ks : List Text) (cs : List OpTree) :
    timeAt (k :: ks) cs = ((cs.find? (·.data.opType = k)).map (·.time ks)).getD ([], 0) := by
  simp only [timeAt, OpTree.time, getChild]
  cases cs.find? (·.data.opType = k) <;> rfl

theorem time_modify {f : OpData → OpData} (hf : ∀ d, (f d).opType = d.opType) {T : List Nat × Nat → List Nat × Nat}
    (hT : ∀ d, ((f d).starts, (f d).elapsed) = T (d.starts, d.elapsed)) (ks ks' : List Text) (t : OpTree) :
    (t.modify f ks).time ks' = if ks = ks' then T (t.time ks') else t.time ks' := by
  induction ks generalizing t ks' with
  | nil =>
    cases t with
    | node d cs =>
      cases ks' with
      | nil => simp [OpTree.modify, OpTree.time, OpTree.get, hT]
      | cons k' ks' => simp [OpTree.modify, get_cons]
  | cons k ks ih =>
    cases t with
    | node d cs =>
      cases ks' with
      | nil => simp [OpTree.modify, OpTree.time, OpTree.get]
      | cons k' ks' =>
        simp only [OpTree.modify, get_cons]
        rw [find_modifyFirst (OpTree.modify_type hf ks)]
        by_cases hk : k = k'
        · subst hk
          rw [if_pos rfl]
          simp only [Option.map_some, Option.getD_some, ih, List.cons.injEq, true_and]
          cases hc : cs.find? (·.data.opType = k) with
          | none => simp [fresh_time]
          | some c => simp
        · simp [hk]

theorem timeAt_getOrCreate {f : OpData → OpData} (hf : ∀ d, (f d).opType = d.opType) {T : List Nat × Nat → List Nat × Nat}
    (hT : ∀ d, ((f d).starts, (f d).elapsed) = T (d.starts, d.elapsed)) {key : List Text} (hne : key ≠ [])
    (key' : List Text) (ts : List OpTree) :
    timeAt key' (getOrCreateChild f key ts) = if key = key' then T (timeAt key' ts) else timeAt key' ts := by
  cases key with
  | nil => exact absurd rfl hne
  | cons k ks =>
    cases key' with
    | nil => simp [timeAt, getChild]
    | cons k' ks' =>
      simp only [getOrCreateChild, timeAt_cons]
      rw [find_modifyFirst (OpTree.modify_type hf ks)]
      by_cases hk : k = k'
      · subst hk
        rw [if_pos rfl]
        simp only [Option.map_some, Option.getD_some, time_modify hf hT, List.cons.injEq, true_and]
        cases hc : ts.find? (·.data.opType = k) with
        | none => simp [fresh_time]
        | some c => simp
      · simp [hk]

/-! ### distinct children -/

def TopNodup (ts : List OpTree) : Prop := (ts.map (·.data.opType)).Nodup

theorem mem_modifyFirst_type {k : Text} {g : OpTree → OpTree} (hg : ∀ t, (g t).data.opType = t.data.opType)
    {ts : List OpTree} {x : Text} (h : x ∈ (modifyFirst k g ts).map (·.data.opType)) :
    x = k ∨ x ∈ ts.map (·.data.opType) := by
  induction ts with
  | nil =>
    simp [modifyFirst, hg] at h
    exact .inl h
  | cons t ts ih =>
    simp only [modifyFirst] at h
    split at h
    · simp only [List.map_cons, hg, List.mem_cons] at h ⊢
      tauto
    · simp only [List.map_cons, List.mem_cons] at h ⊢
      rcases h with h | h
      · exact .inr (.inl h)
      · rcases ih h with h | h <;> tauto

theorem modifyFirst_nodup {k : Text} {g : OpTree → OpTree} (hg : ∀ t, (g t).data.opType = t.data.opType)
    {ts : List OpTree} (h : TopNodup ts) : TopNodup (modifyFirst k g ts) := by
  induction ts with
  | nil => simp [TopNodup, modifyFirst]
  | cons t ts ih =>
    simp only [TopNodup, List.map_cons, List.nodup_cons] at h
    simp only [modifyFirst]
    split
    · simp only [TopNodup, List.map_cons, List.nodup_cons, hg]
      exact h
    · rename_i hk
      simp only [TopNodup, List.map_cons, List.nodup_cons]
      refine ⟨fun hm => ?_, ih h.2⟩
      rcases mem_modifyFirst_type hg hm with e | e
      · exact hk e
      · exact h.1 e

theorem getOrCreate_nodup {f : OpData → OpData} (hf : ∀ d, (f d).opType = d.opType) (key : List Text) {ts : List OpTree}
    (h : TopNodup ts) : TopNodup (getOrCreateChild f key ts) := by
  cases key with
  | nil => exact h
  | cons k ks => exact modifyFirst_nodup (OpTree.modify_type hf ks) h

theorem find_of_mem {ts : List OpTree} (h : TopNodup ts) {t : OpTree} (ht : t ∈ ts) :
    ts.find? (·.data.opType = t.data.opType) = some t := by
  induction ts with
  | nil => simp at ht
  | cons u ts ih =>
    simp only [TopNodup, List.map_cons, List.nodup_cons] at h
    rcases List.mem_cons.1 ht with rfl | ht
    · simp
    · have : u.data.opType ≠ t.data.opType := by
        intro e
        exact h.1 (e ▸ List.mem_map_of_mem ht)
      simp [List.find?_cons, this, ih h.2 ht]

theorem all_quiet_iff {ts : List OpTree} (h : TopNodup ts) :
    (ts.all fun t => t.data.starts.isEmpty) = true ↔ ∀ k, (timeAt [k] ts).1 = [] := by
  rw [List.all_eq_true]
  constructor
  · intro ha k
    rw [timeAt_cons]
    cases hf : ts.find? (·.data.opType = k) with
    | none => rfl
    | some t =>
      have := ha t (List.mem_of_find?_eq_some hf)
      simpa [OpTree.time, OpTree.get] using this
  · intro ha t ht
    have := ha t.data.opType
    rw [timeAt_cons, find_of_mem h ht] at this
    simpa [OpTree.time, OpTree.get] using this

/-! ### one operation -/

/-- The state of one operation, without the rest. -/
def stopTime (now : Nat) (s : List Nat × Nat) : List Nat × Nat :=
  match removeMax s.1 with
  | none => s
  | some (start, starts) => (starts, s.2 + if starts.isEmpty then now - start else 0)

theorem removeMax_eq_none {l : List Nat} : removeMax l = none ↔ l = [] := by
  unfold removeMax
  cases h : l.max? with
  | none => simp [List.max?_eq_none_iff.1 h]
  | some m =>
    simp only [reduceCtorEq, false_iff]
    rintro rfl
    simp at h

theorem removeMax_length {l l' : List Nat} {m : Nat} (h : removeMax l = some (m, l')) :
    l.length = l'.length + 1 ∧ m ∈ l ∧ (∀ x ∈ l, x ≤ m) ∧ (∀ x ∈ l, x = m ∨ x ∈ l') ∧ ∀ x ∈ l', x ∈ l := by
  unfold removeMax at h
  split at h
  · simp at h
  · rename_i m' hm
    simp only [Option.some.injEq, Prod.mk.injEq] at h
    obtain ⟨rfl, rfl⟩ := h
    rw [List.max?_eq_some_iff] at hm
    have hmem : m' ∈ l.reverse := List.mem_reverse.2 hm.1
    refine ⟨?_, hm.1, hm.2, ?_, ?_⟩
    · have := List.length_erase_of_mem hmem
      have h0 : 0 < l.length := List.length_pos_of_mem hm.1
      simp only [List.length_reverse] at this ⊢
      omega
    · intro x hx
      by_cases e : x = m'
      · exact .inl e
      · refine .inr ?_
        rw [List.mem_reverse]
        exact (List.mem_erase_of_ne e).2 (List.mem_reverse.2 hx)
    · intro x hx
      exact List.mem_reverse.1 (List.mem_of_mem_erase (List.mem_reverse.1 hx))

def stepTime (key : List Text) (s : List Nat × Nat) (e : Nat × OpEvent) : List Nat × Nat :=
  match e with
  | (t, .start k) => if k = key then (s.1 ++ [t], s.2) else s
  | (t, .stop k) => if k = key then stopTime t s else s

def runTime (key : List Text) (es : List (Nat × OpEvent)) (s : List Nat × Nat) : List Nat × Nat :=
  es.foldl (stepTime key) s

def shownOf (now : Nat) (s : List Nat × Nat) : Nat :=
  match s.1.min? with
  | none => s.2
  | some start => s.2 + (now - start)

theorem stopTime_length (t : Nat) (s : List Nat × Nat) : (stopTime t s).1.length = s.1.length - 1 := by
  unfold stopTime
  cases h : removeMax s.1 with
  | none => simp [removeMax_eq_none.1 h]
  | some p =>
    obtain ⟨m, l'⟩ := p
    have := (removeMax_length h).1
    simp only
    omega

theorem runTime_running (key : List Text) (es : List (Nat × OpEvent)) (s : List Nat × Nat) :
    (runTime key es s).1.length = running key es s.1.length := by
  induction es generalizing s with
  | nil => rfl
  | cons e es ih =>
    obtain ⟨t, k | k⟩ := e
    · simp only [runTime, List.foldl_cons, stepTime, running] at ih ⊢
      by_cases hk : k = key
      · simp only [if_pos hk]
        rw [ih]
        simp
      · simp only [if_neg hk]
        rw [ih]
    · simp only [runTime, List.foldl_cons, stepTime, running] at ih ⊢
      by_cases hk : k = key
      · simp only [if_pos hk]
        rw [ih, stopTime_length]
      · simp only [if_neg hk]
        rw [ih]

theorem min_append_single {l : List Nat} {t : Nat} (h : ∀ x ∈ l, x ≤ t) : (l ++ [t]).min? = some ((l.min?).getD t) := by
  rw [List.min?_eq_some_iff]
  cases hm : l.min? with
  | none => simp [List.min?_eq_none_iff.1 hm]
  | some m =>
    rw [List.min?_eq_some_iff] at hm
    simp only [Option.getD_some, List.mem_append, List.mem_singleton]
    refine ⟨.inl hm.1, ?_⟩
    rintro x (hx | rfl)
    · exact hm.2 x hx
    · exact h m hm.1

/-- Time passes. -/
theorem shownOf_later {s : List Nat × Nat} {last t : Nat} (hs : ∀ x ∈ s.1, x ≤ last) (ht : last ≤ t) :
    shownOf t s = shownOf last s + if s.1.length = 0 then 0 else t - last := by
  unfold shownOf
  cases hm : s.1.min? with
  | none => simp [List.min?_eq_none_iff.1 hm]
  | some m =>
    rw [List.min?_eq_some_iff] at hm
    have h1 := hs m hm.1
    have h2 : s.1.length ≠ 0 := by
      have := List.length_pos_of_mem hm.1
      omega
    simp only [if_neg h2]
    omega

theorem shownOf_start {s : List Nat × Nat} {t : Nat} (hs : ∀ x ∈ s.1, x ≤ t) :
    shownOf t (s.1 ++ [t], s.2) = shownOf t s := by
  unfold shownOf
  simp only [min_append_single hs]
  cases s.1.min? <;> simp

theorem shownOf_stop {s : List Nat × Nat} {t : Nat} : shownOf t (stopTime t s) = shownOf t s := by
  unfold stopTime
  cases h : removeMax s.1 with
  | none => rfl
  | some p =>
    obtain ⟨m, l'⟩ := p
    obtain ⟨h1, h2, h3, h4, h5⟩ := removeMax_length h
    simp only [shownOf]
    cases l' with
    | nil =>
      have hm : s.1.min? = some m := by
        rw [List.min?_eq_some_iff]
        refine ⟨h2, fun x hx => ?_⟩
        rcases h4 x hx with rfl | hx
        · exact Nat.le_refl _
        · simp at hx
      simp [hm]
    | cons a l =>
      cases hm : (a :: l).min? with
      | none => simp at hm
      | some n =>
        have hn : s.1.min? = some n := by
          rw [List.min?_eq_some_iff] at hm ⊢
          refine ⟨h5 n hm.1, fun x hx => ?_⟩
          rcases h4 x hx with rfl | hx
          · exact h3 n (h5 n hm.1)
          · exact hm.2 x hx
        simp [hn]

theorem runTime_shown (key : List Text) (es : List (Nat × OpEvent)) (s : List Nat × Nat) (last now : Nat)
    (hs : ∀ x ∈ s.1, x ≤ last) (ho : TimesInOrder es last now) :
    shownOf now (runTime key es s) = shownOf last s + busyTime key es s.1.length last now := by
  induction es generalizing s last with
  | nil =>
    simp only [runTime, List.foldl_nil, busyTime]
    exact shownOf_later hs ho
  | cons e es ih =>
    obtain ⟨t, k | k⟩ := e
    · obtain ⟨ht, ho⟩ := ho
      have hs' : ∀ x ∈ s.1, x ≤ t := fun x hx => Nat.le_trans (hs x hx) ht
      simp only [runTime, List.foldl_cons, stepTime, busyTime] at ih ⊢
      by_cases hk : k = key
      · simp only [if_pos hk]
        rw [ih (s.1 ++ [t], s.2) t (by
          intro x hx
          rcases List.mem_append.1 hx with hx | hx
          · exact hs' x hx
          · rw [List.mem_singleton.1 hx]; exact Nat.le_refl _) ho, shownOf_start hs', shownOf_later hs ht]
        simp only [List.length_append, List.length_singleton]
        omega
      · simp only [if_neg hk]
        rw [ih s t hs' ho, shownOf_later hs ht]
        omega
    · obtain ⟨ht, ho⟩ := ho
      have hs' : ∀ x ∈ s.1, x ≤ t := fun x hx => Nat.le_trans (hs x hx) ht
      simp only [runTime, List.foldl_cons, stepTime, busyTime] at ih ⊢
      by_cases hk : k = key
      · simp only [if_pos hk]
        rw [ih (stopTime t s) t (by
          intro x hx
          unfold stopTime at hx
          cases h : removeMax s.1 with
          | none => rw [h] at hx; exact hs' x hx
          | some p =>
            rw [h] at hx
            exact hs' x ((removeMax_length h).2.2.2.2 x hx)) ho, shownOf_stop, shownOf_later hs ht, stopTime_length]
        omega
      · simp only [if_neg hk]
        rw [ih s t hs' ho, shownOf_later hs ht]
        omega

end Verif

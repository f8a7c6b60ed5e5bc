import Verif.Model.Gc
import Verif.Props.Undo

/-! C29: garbage collection. -/

namespace Verif.Props

open Verif.Spec

/-- The commit was hidden or rewritten away by the last event about it. -/
def IsObsolete (log : List Event) (oid : Oid) : Prop :=
  (lastEffect oid log).map Prod.snd = some false

instance (log : List Event) (oid : Oid) : Decidable (IsObsolete log oid) := by
  unfold IsObsolete; infer_instance

/-- References which gc may delete: internal, and for a commit which is obsolete. -/
def Collectable (peel : Peel) (log : List Event) (name : Text) (target : Oid) : Prop :=
  (∃ rest, name = t!"refs/branchless/" ++ rest) ∧
    ∃ commit, peel target = .ok (some commit) ∧ IsObsolete log commit

theorem isGcRef_iff (name : Text) : isGcRef name = true ↔ ∃ rest, name = t!"refs/branchless/" ++ rest := by
  unfold isGcRef
  rw [List.isPrefixOf_iff_prefix]
  exact ⟨fun ⟨r, h⟩ => ⟨r, h.symm⟩, fun ⟨r, h⟩ => ⟨r, h.symm⟩⟩

theorem findDangling_spec (peel : Peel) (mb : Text) (log : List Event) (refs : Refs) (names : List Text)
    (h : findDanglingReferences peel (.fromEvents mb log)
      (Replayer.fromEvents mb log).makeDefaultCursor refs = .ok names) (name : Text) :
    name ∈ names ↔ ∃ target, (name, target) ∈ refs ∧ Collectable peel log name target := by
  induction refs generalizing names with
  | nil => simp [findDanglingReferences] at h; subst h; simp
  | cons e refs ih =>
    obtain ⟨nm, tg⟩ := e
    have key : ∀ P : Prop, (P ↔ ∃ target, (name, target) ∈ refs ∧ Collectable peel log name target) →
        ((∃ target, (name, target) ∈ (nm, tg) :: refs ∧ Collectable peel log name target) ↔
          (name = nm ∧ Collectable peel log nm tg) ∨ P) := by
      intro P hP
      rw [hP]
      constructor
      · rintro ⟨t, hm, hc⟩
        rcases List.mem_cons.1 hm with hm | hm
        · cases hm; exact .inl ⟨rfl, hc⟩
        · exact .inr ⟨t, hm, hc⟩
      · rintro (⟨rfl, hc⟩ | ⟨t, hm, hc⟩)
        · exact ⟨tg, by simp, hc⟩
        · exact ⟨t, by simp [hm], hc⟩
    have skip : ∀ names', findDanglingReferences peel (.fromEvents mb log)
        (Replayer.fromEvents mb log).makeDefaultCursor refs = .ok names' →
        ¬ Collectable peel log nm tg →
        (name ∈ names' ↔ ∃ target, (name, target) ∈ (nm, tg) :: refs ∧ Collectable peel log name target) := by
      intro names' hn hc
      rw [key _ (ih names' hn)]
      simp [hc]
    unfold findDanglingReferences at h
    split at h
    · rename_i hg
      apply skip _ h
      rintro ⟨hr, _⟩
      rw [← isGcRef_iff] at hr
      simp [hr] at hg
    · rename_i hg
      have hg' : isGcRef nm = true := by simpa using hg
      cases hp : peel tg with
      | error e => rw [hp] at h; simp at h
      | ok o =>
        cases o with
        | none =>
          rw [hp] at h
          apply skip _ h
          rintro ⟨_, c, hc, _⟩
          rw [hp] at hc; simp at hc
        | some commit =>
          rw [hp] at h
          simp only at h
          have hst : (Replayer.fromEvents mb log).activityStatus
            (Replayer.fromEvents mb log).makeDefaultCursor commit = statusNow mb log commit := rfl
          rw [hst, statusNow_eq] at h
          have hcol : Collectable peel log nm tg ↔ IsObsolete log commit := by
            constructor
            · rintro ⟨_, c, hc, ho⟩
              rw [hp] at hc; cases hc; exact ho
            · intro ho
              exact ⟨(isGcRef_iff _).1 hg', commit, hp, ho⟩
          unfold IsObsolete at hcol
          cases hl : (lastEffect commit log).map Prod.snd with
          | none =>
            rw [hl] at h hcol
            exact skip _ h (by rw [hcol]; simp)
          | some b =>
            rw [hl] at h hcol
            cases b with
            | true => exact skip _ h (by rw [hcol]; simp)
            | false =>
              simp only at h
              split at h
              · simp at h
              · rename_i names' hn
                cases h
                rw [key _ (ih names' hn), List.mem_cons]
                simp [hcol]

theorem get?_foldl_delete (names : List Text) (refs : Refs) (name : Text) :
    (names.foldl deleteReference refs).get? name = if name ∈ names then none else refs.get? name := by
  induction names generalizing refs with
  | nil => simp
  | cons n names ih =>
    rw [List.foldl_cons, ih]
    unfold deleteReference
    rw [AMap.get?_erase]
    by_cases h1 : name ∈ names
    · simp [h1]
    · by_cases h2 : n = name
      · simp [h2]
      · simp [h1, h2, Ne.symm h2]

/-- C29: gc deletes exactly the internal references to obsolete commits. All others - of active and
of inactive (never seen) commits, and all branches, tags and so on - stay as they are. -/
theorem gc_exact (peel : Peel) (mb : Text) (log : List Event) (refs refs' : Refs) (hw : refs.WF)
    (h : gc peel (.fromEvents mb log) refs = .ok refs') (name : Text) :
    refs'.get? name = none ∧ (∃ target, refs.get? name = some target ∧ Collectable peel log name target) ∨
    refs'.get? name = refs.get? name ∧
      ∀ target, refs.get? name = some target → ¬ Collectable peel log name target := by
  unfold gc at h
  split at h
  · simp at h
  · rename_i names hn
    cases h
    have hs := findDangling_spec peel mb log refs names hn name
    rw [get?_foldl_delete]
    by_cases hm : name ∈ names
    · obtain ⟨t, ht, hc⟩ := hs.1 hm
      exact .inl ⟨by simp [hm], t, AMap.get?_of_mem hw ht, hc⟩
    · refine .inr ⟨by simp [hm], fun t ht hc => hm (hs.2 ⟨t, AMap.mem_of_get? ht, hc⟩)⟩

/-- C29: gc only fails if some internal reference cannot be read. -/
theorem gc_succeeds (peel : Peel) (mb : Text) (log : List Event) (refs : Refs)
    (h : ∀ e ∈ refs, isGcRef e.1 = true → ∃ o, peel e.2 = .ok o) :
    ∃ refs', gc peel (.fromEvents mb log) refs = .ok refs' := by
  have : ∃ names, findDanglingReferences peel (.fromEvents mb log)
      (Replayer.fromEvents mb log).makeDefaultCursor refs = .ok names := by
    induction refs with
    | nil => exact ⟨_, rfl⟩
    | cons e refs ih =>
      obtain ⟨nm, tg⟩ := e
      obtain ⟨names, hn⟩ := ih fun e he => h e (by simp [he])
      unfold findDanglingReferences
      split
      · exact ⟨_, hn⟩
      · rename_i hg
        obtain ⟨o, ho⟩ := h (nm, tg) (by simp) (by simpa using hg)
        simp only at ho
        rw [ho]
        cases o with
        | none => exact ⟨_, hn⟩
        | some c =>
          simp only
          split
          · exact ⟨_, hn⟩
          · exact ⟨_, hn⟩
          · rw [hn]; exact ⟨_, rfl⟩
  obtain ⟨names, hn⟩ := this
  unfold gc
  rw [hn]
  exact ⟨_, rfl⟩

/-- C29: marking an existing commit reachable creates a reference to it which gc does not collect
while the commit is not obsolete; nothing else changes. -/
theorem mark_reachable_creates (isCommit : Oid → Bool) (refs refs' : Refs) (oid : Oid)
    (hc : isCommit oid = true) (h : markCommitReachable isCommit refs oid = .ok refs') :
    refs'.get? (keepAliveName oid) = some oid ∧
      ∀ name, name ≠ keepAliveName oid → refs'.get? name = refs.get? name := by
  unfold markCommitReachable at h
  rw [if_pos hc] at h
  unfold createReference at h
  split at h
  · simp at h
  · cases h
    refine ⟨by simp, fun name hn => ?_⟩
    rw [AMap.get?_insert, if_neg (Ne.symm hn)]

/-- C29: different commits have different keep-alive references, all of which are internal. -/
theorem keepAliveName_injective {a b : Oid} (h : keepAliveName a = keepAliveName b) : a = b := by
  have := List.append_cancel_left h
  have ha := Oid.parse_toText a
  rw [this, Oid.parse_toText b] at ha
  exact (Option.some.inj ha).symm

/-- A slash does not occur in the text of an id. -/
theorem slash_not_mem_oid (o : Oid) : '/' ∉ o.toText := by
  intro h
  obtain ⟨d, hd, e⟩ := Oid.mem_toText h
  revert e
  revert d
  decide

/-- References below `refs/branchless/` are all keep-alive references. -/
def OnlyKeepAlive (refs : Refs) : Prop :=
  ∀ name ∈ refs.keys, (t!"refs/branchless/").isPrefixOf name = true → ∃ o, name = keepAliveName o

/-- C29: marking succeeds if git's rules allow the name at all: no reference `refs` or
`refs/branchless` exists, and below `refs/branchless/` there are only keep-alive references.
These conditions are kept. -/
theorem mark_reachable_succeeds (isCommit : Oid → Bool) (refs : Refs) (oid : Oid)
    (h1 : t!"refs" ∉ refs.keys) (h2 : t!"refs/branchless" ∉ refs.keys) (h3 : OnlyKeepAlive refs) :
    ∃ refs', markCommitReachable isCommit refs oid = .ok refs' ∧
      t!"refs" ∉ refs'.keys ∧ t!"refs/branchless" ∉ refs'.keys ∧ OnlyKeepAlive refs' := by
  unfold markCommitReachable
  split
  · have hno : refs.keys.any (pathConflict (keepAliveName oid)) = false := by
      rw [List.any_eq_false]
      intro name hn hc
      unfold pathConflict at hc
      simp only [Bool.or_eq_true, List.isPrefixOf_iff_prefix] at hc
      rcases hc with hc | hc
      · obtain ⟨rest, hr⟩ := hc
        obtain ⟨o, ho⟩ := h3 name hn (by
          rw [List.isPrefixOf_iff_prefix, ← hr]
          exact ⟨oid.toText ++ '/' :: rest, by simp [keepAliveName]⟩)
        rw [ho] at hr
        unfold keepAliveName at hr
        rw [List.append_assoc, List.append_assoc] at hr
        have := List.append_cancel_left hr
        exact slash_not_mem_oid o (by rw [← this]; simp)
      · obtain ⟨rest, hr⟩ := hc
        -- `name` is a proper prefix of `refs/branchless/<oid>`
        unfold keepAliveName at hr
        have hpos : ∀ (a b : Text), a ++ '/' :: b = t!"refs/branchless/" ++ oid.toText →
            a = t!"refs" ∨ a = t!"refs/branchless" := by
          intro a b hab
          by_cases hl : a.length < 16
          · have ha : a = (t!"refs/branchless/").take a.length := by
              have := congrArg (List.take a.length) hab
              rw [List.take_left' rfl] at this
              rw [List.take_append_of_le_length (by simp; omega)] at this
              exact this
            have hsl : (t!"refs/branchless/")[a.length]? = some '/' := by
              have := congrArg (fun l => l[a.length]?) hab
              rw [List.getElem?_append_right (Nat.le_refl _)] at this
              rw [List.getElem?_append_left (by simp; omega)] at this
              simpa using this.symm
            generalize a.length = n at *
            have : n = 4 ∨ n = 15 := by
              have : ∀ n < 16, (t!"refs/branchless/")[n]? = some '/' → n = 4 ∨ n = 15 := by decide
              exact this n hl hsl
            rcases this with rfl | rfl
            · exact .inl ha
            · exact .inr ha
          · exfalso
            have hsl : '/' ∈ oid.toText := by
              have := congrArg (List.drop 16) hab
              rw [List.drop_append_of_le_length (by omega), List.drop_left' (by rfl)] at this
              rw [← this]; simp
            exact slash_not_mem_oid _ hsl
        rcases hpos name rest (by simpa using hr) with h | h
        · exact h1 (h ▸ hn)
        · exact h2 (h ▸ hn)
    have hk : ∀ (nm : Text), nm ∈ (refs.insert (keepAliveName oid) oid).keys →
        nm = keepAliveName oid ∨ nm ∈ refs.keys := by
      intro nm hnm
      rw [AMap.mem_keys_iff] at hnm ⊢
      rw [AMap.get?_insert] at hnm
      by_cases he : keepAliveName oid = nm
      · exact .inl he.symm
      · rw [if_neg he] at hnm; exact .inr hnm
    refine ⟨refs.insert (keepAliveName oid) oid, by simp [createReference, hno], ?_, ?_, ?_⟩
    · intro hm
      rcases hk _ hm with h | h
      · have := congrArg List.length h
        simp [keepAliveName] at this
      · exact h1 h
    · intro hm
      rcases hk _ hm with h | h
      · have := congrArg List.length h
        simp [keepAliveName, Oid.length_toText] at this
      · exact h2 h
    · intro nm hnm hp
      rcases hk _ hnm with h | h
      · exact ⟨oid, h⟩
      · exact h3 nm h hp
  · exact ⟨refs, rfl, h1, h2, h3⟩

/-- C29: marking twice is the same as marking once. -/
theorem mark_reachable_idempotent (isCommit : Oid → Bool) (refs refs1 refs2 : Refs) (oid : Oid)
    (h1 : markCommitReachable isCommit refs oid = .ok refs1)
    (h2 : markCommitReachable isCommit refs1 oid = .ok refs2) (name : Text) :
    refs2.get? name = refs1.get? name := by
  by_cases hc : isCommit oid = true
  · obtain ⟨a1, _⟩ := mark_reachable_creates _ _ _ _ hc h1
    obtain ⟨b1, b2⟩ := mark_reachable_creates _ _ _ _ hc h2
    by_cases hn : name = keepAliveName oid
    · rw [hn, a1, b1]
    · exact b2 name hn
  · unfold markCommitReachable at h2
    rw [if_neg hc] at h2
    cases h2; rfl

/-- C29: a commit that does not exist is left alone. -/
theorem mark_missing_is_noop (isCommit : Oid → Bool) (refs : Refs) (oid : Oid)
    (hc : isCommit oid = false) : markCommitReachable isCommit refs oid = .ok refs := by
  simp [markCommitReachable, hc]

/-- C29: a commit that was marked survives gc, as long as it is not obsolete. -/
theorem marked_survives_gc (isCommit : Oid → Bool) (peel : Peel) (mb : Text) (log : List Event)
    (refs refs1 refs2 : Refs) (oid : Oid) (hw : refs.WF) (hc : isCommit oid = true)
    (hp : peel oid = .ok (some oid)) (ho : ¬ IsObsolete log oid)
    (h1 : markCommitReachable isCommit refs oid = .ok refs1)
    (h2 : gc peel (.fromEvents mb log) refs1 = .ok refs2) :
    refs2.get? (keepAliveName oid) = some oid := by
  obtain ⟨a1, _⟩ := mark_reachable_creates _ _ _ _ hc h1
  have hw1 : refs1.WF := by
    unfold markCommitReachable createReference at h1
    rw [if_pos hc] at h1
    split at h1
    · simp at h1
    · cases h1; exact AMap.wf_insert hw _ _
  rcases gc_exact peel mb log refs1 refs2 hw1 h2 (keepAliveName oid) with ⟨_, t, ht, hcol⟩ | ⟨h, _⟩
  · rw [a1] at ht
    cases ht
    obtain ⟨_, c, hc', hob⟩ := hcol
    rw [hp] at hc'
    cases hc'
    exact absurd hob ho
  · rw [h, a1]

/-- Non-vacuity: two kept commits, one of them hidden since; and a branch on the hidden one. -/
example : gc (fun o => .ok (some o)) (.fromEvents t!"refs/heads/master"
      [.commit 1 (.id 1) oidA, .commit 1 (.id 1) oidB, .obsolete 2 (.id 2) oidB])
      [(keepAliveName oidA, oidA), (keepAliveName oidB, oidB), (t!"refs/heads/b", oidB)]
    = .ok [(keepAliveName oidA, oidA), (t!"refs/heads/b", oidB)] := by decide +kernel

example : OnlyKeepAlive [(keepAliveName oidA, oidA), (t!"refs/heads/b", oidB)] := by
  intro name hn hp
  simp [AMap.keys] at hn
  rcases hn with rfl | rfl
  · exact ⟨oidA, rfl⟩
  · exact absurd hp (by decide)

end Verif.Props

import Verif.Spec.TestCache
import Verif.Lemmas.TestRunInv
import Verif.Lemmas.Snapshot

/-! Lemmas about the cached results of tests. -/

namespace Verif.TestCache

open Verif.TestRun

/-! ### The events -/

theorem TestedSince.append {es t cmd i o st} (h : TestedSince es t cmd i o st) {e : Event}
    (he : e ≠ .cleaned t) : TestedSince (es ++ [e]) t cmd i o st := by
  obtain ⟨b, a, rfl, ha⟩ := h
  exact ⟨b, a ++ [e], by simp, by
    rw [List.mem_append, List.mem_singleton]
    exact fun h => h.elim ha fun h => he h.symm⟩

theorem TestedSince.last (es t cmd i o st) :
    TestedSince (es ++ [.tested t cmd i o st]) t cmd i o st := ⟨es, [], rfl, by simp⟩

theorem TestedSince.mem {es t cmd i o st} (h : TestedSince es t cmd i o st) :
    Event.tested t cmd i o st ∈ es := by
  obtain ⟨b, a, rfl, -⟩ := h
  simp

/-! ### The invariant -/

structure Inv (c : Cache) (es : List Event) : Prop where
  wfRunning : AMap.WF c.running
  wfDirs : AMap.WF c.dirs
  stored : ∀ t s d r, c.dirs.get? (t, s) = some (d, .result r) →
    ∃ cmd i o st, TestedSince es t cmd i o st ∧ slug cmd = s ∧ testCommit cmd i o = (st, some r)
  garbled : ∀ t s d e, c.dirs.get? (t, s) = some (d, .unreadable e) →
    ∃ cmd, slug cmd = s ∧ .garbled t cmd e ∈ es
  fresh : ∀ k d f, c.dirs.get? k = some (d, f) → d < c.nextDir
  freshRunning : ∀ i r, c.running.get? i = some r → r.dir < c.nextDir
  clear : ∀ i r f, c.running.get? i = some r → c.dirs.get? r.key = some (r.dir, f) → f = .empty
  exclusive : ∀ i j r r', c.running.get? i = some r → c.running.get? j = some r' →
    r.key = r'.key → r.dir = r'.dir → i = j
  live : ∀ i r, c.running.get? i = some r → .cleaned r.tree ∉ es →
    ∃ f, c.dirs.get? r.key = some (r.dir, f)
  kept : ∀ t cmd i o st r, .tested t cmd i o st ∈ es → .cleaned t ∉ es →
    (testCommit cmd i o).2 = some r → ∃ d, c.dirs.get? (t, slug cmd) = some (d, .result r)
  honest : ∀ t cmd i o st, .tested t cmd i o st ∈ es → st = (testCommit cmd i o).1
  empties : ∀ t s d, c.dirs.get? (t, s) = some (d, .empty) →
    (∃ i r, c.running.get? i = some r ∧ r.key = (t, s) ∧ r.dir = d) ∨
    ∃ cmd, slug cmd = s ∧ (.abandoned t cmd ∈ es ∨
      ∃ i o st, .tested t cmd i o st ∈ es ∧ (testCommit cmd i o).2 = none)

theorem inv_empty : Inv Cache.empty [] := by
  constructor <;> simp [Cache.empty, AMap.wf_nil]

theorem locked_iff {c : Cache} (hw : AMap.WF c.running) (k : Oid × Text) (d : Nat) :
    c.locked k d = true ↔ ∃ i r, c.running.get? i = some r ∧ r.key = k ∧ r.dir = d := by
  unfold Cache.locked
  simp only [List.any_eq_true, Bool.and_eq_true, decide_eq_true_eq]
  constructor
  · rintro ⟨⟨i, r⟩, hm, h1, h2⟩
    exact ⟨i, r, AMap.get?_of_mem hw hm, h1, h2⟩
  · rintro ⟨i, r, hi, h1, h2⟩
    exact ⟨(i, r), AMap.mem_of_get? hi, h1, h2⟩

/-- An event which says nothing about tests. -/
def Event.Quiet : Event → Prop
  | .tested .. | .cleaned _ => False
  | _ => True

theorem Event.Quiet.ne_cleaned {e : Event} (h : e.Quiet) (t) : e ≠ .cleaned t := by
  rintro rfl; exact h

theorem Event.Quiet.ne_tested {e : Event} (h : e.Quiet) (t cmd i o st) : e ≠ .tested t cmd i o st := by
  rintro rfl; exact h

theorem Inv.quiet {c es} (h : Inv c es) {e : Event} (he : e.Quiet) : Inv c (es ++ [e]) where
  wfRunning := h.wfRunning
  wfDirs := h.wfDirs
  stored t s d r hd := by
    obtain ⟨cmd, i, o, st, h1, h2⟩ := h.stored t s d r hd
    exact ⟨cmd, i, o, st, h1.append (he.ne_cleaned t), h2⟩
  garbled t s d x hd := by
    obtain ⟨cmd, h1, h2⟩ := h.garbled t s d x hd
    exact ⟨cmd, h1, by simp [h2]⟩
  fresh := h.fresh
  freshRunning := h.freshRunning
  clear := h.clear
  exclusive := h.exclusive
  live i r hr hn := h.live i r hr fun hm => hn (by simp [hm])
  kept t cmd i o st r ht hn hr := by
    rw [List.mem_append, List.mem_singleton] at ht
    rcases ht with ht | ht
    · exact h.kept t cmd i o st r ht (fun hm => hn (by simp [hm])) hr
    · exact absurd ht.symm (he.ne_tested _ _ _ _ _)
  honest t cmd i o st ht := by
    rw [List.mem_append, List.mem_singleton] at ht
    rcases ht with ht | ht
    · exact h.honest t cmd i o st ht
    · exact absurd ht.symm (he.ne_tested _ _ _ _ _)
  empties t s d hd := by
    rcases h.empties t s d hd with h1 | ⟨cmd, h1, h2 | ⟨i, o, st, h2, h3⟩⟩
    · exact .inl h1
    · exact .inr ⟨cmd, h1, .inl (by simp [h2])⟩
    · exact .inr ⟨cmd, h1, .inr ⟨i, o, st, by simp [h2], h3⟩⟩

/-! ### Starting a test -/

theorem Inv.start {c es} (h : Inv c es) {id : Nat} {r : Running} (hid : c.running.get? id = none)
    (hd : c.dirs.get? r.key = some (r.dir, .empty))
    (hl : ∀ i r', c.running.get? i = some r' → r'.key = r.key → r'.dir ≠ r.dir) :
    Inv { c with running := c.running.insert id r } es where
  wfRunning := AMap.wf_insert h.wfRunning _ _
  wfDirs := h.wfDirs
  stored := h.stored
  garbled := h.garbled
  fresh := h.fresh
  freshRunning i r' hr := by
    simp only [AMap.get?_insert] at hr
    split at hr
    · cases hr
      exact h.fresh _ _ _ hd
    · exact h.freshRunning i r' hr
  clear i r' f hr hf := by
    simp only [AMap.get?_insert] at hr
    split at hr
    · cases hr
      simp only at hf
      rw [hd] at hf
      simp only [Option.some.injEq, Prod.mk.injEq, true_and] at hf
      exact hf.symm
    · exact h.clear i r' f hr hf
  exclusive i j r1 r2 h1 h2 hk hdir := by
    simp only [AMap.get?_insert] at h1 h2
    split at h1 <;> split at h2
    · next a b => exact a.symm.trans b
    · cases h1; exact absurd hdir.symm (hl j r2 h2 hk.symm)
    · cases h2; exact absurd hdir (hl i r1 h1 hk)
    · exact h.exclusive i j r1 r2 h1 h2 hk hdir
  live i r' hr hn := by
    simp only [AMap.get?_insert] at hr
    split at hr
    · cases hr; exact ⟨_, hd⟩
    · exact h.live i r' hr hn
  kept := h.kept
  honest := h.honest
  empties t s d hds := by
    rcases h.empties t s d hds with ⟨i, r', h1, h2⟩ | h1
    · refine .inl ⟨i, r', ?_, h2⟩
      simp only [AMap.get?_insert]
      rw [if_neg, h1]
      rintro rfl
      rw [hid] at h1; cases h1
    · exact .inr h1

theorem Inv.start_new {c es} (h : Inv c es) {id : Nat} {r : Running} (hid : c.running.get? id = none)
    (hd : c.dirs.get? r.key = none) (hr : r.dir = c.nextDir) :
    Inv { dirs := c.dirs.insert r.key (c.nextDir, .empty)
          running := c.running.insert id r
          nextDir := c.nextDir + 1 } es where
  wfRunning := AMap.wf_insert h.wfRunning _ _
  wfDirs := AMap.wf_insert h.wfDirs _ _
  stored t s d res hds := by
    simp only [AMap.get?_insert] at hds
    split at hds
    · cases hds
    · exact h.stored t s d res hds
  garbled t s d e hds := by
    simp only [AMap.get?_insert] at hds
    split at hds
    · cases hds
    · exact h.garbled t s d e hds
  fresh k d f hds := by
    simp only [AMap.get?_insert] at hds
    split at hds
    · cases hds; exact Nat.lt_succ_self _
    · exact Nat.lt_succ_of_lt (h.fresh k d f hds)
  freshRunning i r' hr' := by
    simp only [AMap.get?_insert] at hr'
    split at hr'
    · cases hr'; simp only [hr]; exact Nat.lt_succ_self _
    · exact Nat.lt_succ_of_lt (h.freshRunning i r' hr')
  clear i r' f hr' hf := by
    simp only [AMap.get?_insert] at hr' hf
    by_cases hk : r.key = r'.key
    · rw [if_pos hk] at hf
      simp only [Option.some.injEq, Prod.mk.injEq] at hf
      exact hf.2.symm
    · rw [if_neg hk] at hf
      split at hr'
      · cases hr'; exact absurd rfl hk
      · exact h.clear i r' f hr' hf
  exclusive i j r1 r2 h1 h2 hk hdir := by
    simp only [AMap.get?_insert] at h1 h2
    split at h1 <;> split at h2
    · next a b => exact a.symm.trans b
    · cases h1
      have := h.freshRunning j r2 h2
      omega
    · cases h2
      have := h.freshRunning i r1 h1
      omega
    · exact h.exclusive i j r1 r2 h1 h2 hk hdir
  live i r' hr' hn := by
    simp only [AMap.get?_insert] at hr' ⊢
    split at hr'
    · cases hr'; rw [if_pos rfl, hr]; exact ⟨_, rfl⟩
    · obtain ⟨f, hf⟩ := h.live i r' hr' hn
      rw [if_neg (by intro he; rw [he, hf] at hd; cases hd)]
      exact ⟨f, hf⟩
  kept t cmd i o st res ht hn hres := by
    obtain ⟨d, h1⟩ := h.kept t cmd i o st res ht hn hres
    refine ⟨d, ?_⟩
    simp only [AMap.get?_insert]
    rw [if_neg (by intro he; rw [he, h1] at hd; cases hd)]
    exact h1
  honest := h.honest
  empties t s d hds := by
    simp only [AMap.get?_insert] at hds
    split at hds
    · next hk =>
      cases hds
      exact .inl ⟨id, r, by simp, hk, hr⟩
    · rcases h.empties t s d hds with ⟨i, r', h1, h2⟩ | h1
      · refine .inl ⟨i, r', ?_, h2⟩
        simp only [AMap.get?_insert]
        rw [if_neg, h1]
        rintro rfl
        rw [hid] at h1; cases h1
      · exact .inr h1

theorem inv_begin {c es} (h : Inv c es) {id : Nat} (hid : c.running.get? id = none) (t cmd i) :
    Inv (c.begin id t cmd i).1 (es ++ [(c.begin id t cmd i).2]) := by
  unfold Cache.begin
  cases hd : c.dirs.get? (t, slug cmd) with
  | none =>
    simp only [hd]
    refine (h.start_new (r := ⟨t, cmd, i, c.nextDir⟩) hid hd rfl).quiet ?_
    trivial
  | some e =>
    obtain ⟨d, f⟩ := e
    simp only [hd]
    by_cases hl : c.locked (t, slug cmd) d = true
    · rw [if_pos hl]
      refine h.quiet ?_
      trivial
    · rw [if_neg hl]
      cases f with
      | result r => refine h.quiet ?_; trivial
      | unreadable e => refine h.quiet ?_; trivial
      | empty =>
        refine (h.start (r := ⟨t, cmd, i, d⟩) hid hd ?_).quiet (e := .started t cmd) ?_
        rotate_left
        · trivial
        intro j r' hj hk hdir
        exact hl ((locked_iff h.wfRunning _ _).2 ⟨j, r', hj, hk, hdir⟩)

/-! ### Ending a test -/

/-- The lock is dropped. -/
def Cache.unlock (c : Cache) (id : Nat) : Cache := { c with running := c.running.erase id }

theorem Inv.unlock {c es} (h : Inv c es) {id : Nat} {r : Running} (hid : c.running.get? id = some r)
    {e : Event} (hc : ∀ t, e ≠ .cleaned t)
    (hr : e = .abandoned r.tree r.command ∨ ∃ o, (testCommit r.command r.interactive o).2 = none ∧
      e = .tested r.tree r.command r.interactive o (testCommit r.command r.interactive o).1) :
    Inv (c.unlock id) (es ++ [e]) where
  wfRunning := AMap.wf_erase h.wfRunning _
  wfDirs := h.wfDirs
  stored t s d res hds := by
    obtain ⟨cmd, i, o, st, h1, h2⟩ := h.stored t s d res hds
    exact ⟨cmd, i, o, st, h1.append (hc t), h2⟩
  garbled t s d x hd := by
    obtain ⟨cmd, h1, h2⟩ := h.garbled t s d x hd
    exact ⟨cmd, h1, by simp [h2]⟩
  fresh := h.fresh
  freshRunning i r' hr' := by
    simp only [Cache.unlock, AMap.get?_erase] at hr'
    split at hr'
    · cases hr'
    · exact h.freshRunning i r' hr'
  clear i r' f hr' hf := by
    simp only [Cache.unlock, AMap.get?_erase] at hr'
    split at hr'
    · cases hr'
    · exact h.clear i r' f hr' hf
  exclusive i j r1 r2 h1 h2 hk hdir := by
    simp only [Cache.unlock, AMap.get?_erase] at h1 h2
    split at h1
    · cases h1
    · split at h2
      · cases h2
      · exact h.exclusive i j r1 r2 h1 h2 hk hdir
  live i r' hr' hn := by
    simp only [Cache.unlock, AMap.get?_erase] at hr'
    split at hr'
    · cases hr'
    · exact h.live i r' hr' fun hm => hn (by simp [hm])
  kept t cmd i o st res ht hn hres := by
    rw [List.mem_append, List.mem_singleton] at ht
    rcases ht with ht | ht
    · exact h.kept t cmd i o st res ht (fun hm => hn (by simp [hm])) hres
    · rcases hr with rfl | ⟨o', h1, rfl⟩
      · cases ht
      · cases ht
        rw [h1] at hres; cases hres
  honest t cmd i o st ht := by
    rw [List.mem_append, List.mem_singleton] at ht
    rcases ht with ht | ht
    · exact h.honest t cmd i o st ht
    · rcases hr with rfl | ⟨o', h1, rfl⟩
      · cases ht
      · cases ht; rfl
  empties t s d hds := by
    rcases h.empties t s d hds with ⟨j, r', h1, h2, h3⟩ | ⟨cmd, h1, h2 | ⟨i, o, st, h2, h3⟩⟩
    · by_cases hj : j = id
      · subst hj
        rw [hid] at h1
        cases h1
        unfold Running.key at h2
        cases h2
        refine .inr ⟨r.command, rfl, ?_⟩
        rcases hr with rfl | ⟨o, h4, rfl⟩
        · exact .inl (by simp)
        · exact .inr ⟨r.interactive, o, (testCommit r.command r.interactive o).1, by simp, h4⟩
      · refine .inl ⟨j, r', ?_, h2, h3⟩
        simp only [Cache.unlock, AMap.get?_erase]
        rw [if_neg (Ne.symm hj), h1]
    · exact .inr ⟨cmd, h1, .inl (by simp [h2])⟩
    · exact .inr ⟨cmd, h1, .inr ⟨i, o, st, by simp [h2], h3⟩⟩

theorem Inv.unlock_write {c es} (h : Inv c es) {id : Nat} {r : Running}
    (hid : c.running.get? id = some r) {e : Event} {f : ResultFile} (hc : ∀ t, e ≠ .cleaned t)
    (hr : (∃ x, f = .unreadable x ∧ e = .garbled r.tree r.command x) ∨
      ∃ o res, f = .result res ∧ (testCommit r.command r.interactive o).2 = some res ∧
        e = .tested r.tree r.command r.interactive o (testCommit r.command r.interactive o).1) :
    Inv ((c.unlock id).write r f) (es ++ [e]) := by
  -- the tests which are running
  have hrun : ((c.unlock id).write r f).running = c.running.erase id := by
    unfold Cache.write
    split
    · split <;> rfl
    · rfl
  have hnext : ((c.unlock id).write r f).nextDir = c.nextDir := by
    unfold Cache.write
    split
    · split <;> rfl
    · rfl
  have hrun' : ∀ i r', ((c.unlock id).write r f).running.get? i = some r' →
      i ≠ id ∧ c.running.get? i = some r' := by
    intro i r' hi
    rw [hrun, AMap.get?_erase] at hi
    split at hi
    · cases hi
    · next hne => exact ⟨fun hh => hne hh.symm, hi⟩
  -- the directories
  have hget : ∀ k, ((c.unlock id).write r f).dirs.get? k =
      if k = r.key ∧ c.dirs.get? k = some (r.dir, .empty) then some (r.dir, f) else c.dirs.get? k := by
    intro k
    unfold Cache.write
    simp only [Cache.unlock]
    cases hd : c.dirs.get? r.key with
    | none =>
      simp only
      rw [if_neg]
      rintro ⟨rfl, h1⟩
      rw [hd] at h1; cases h1
    | some p =>
      obtain ⟨d, g⟩ := p
      simp only
      by_cases hdd : d = r.dir
      · rw [if_pos hdd]
        subst hdd
        have := h.clear id r g hid hd
        subst this
        simp only [AMap.get?_insert]
        by_cases hk : k = r.key
        · subst hk; simp [hd]
        · rw [if_neg (Ne.symm hk), if_neg (fun hh => hk hh.1)]
      · rw [if_neg hdd]
        rw [if_neg]
        rintro ⟨rfl, h1⟩
        rw [hd] at h1
        simp only [Option.some.injEq, Prod.mk.injEq] at h1
        exact hdd h1.1
  have hne : f ≠ .empty := by
    rcases hr with ⟨x, rfl, -⟩ | ⟨o, res, rfl, -⟩ <;> simp
  refine
    { wfRunning := by rw [hrun]; exact AMap.wf_erase h.wfRunning _
      wfDirs := ?_, stored := ?_, garbled := ?_, fresh := ?_, freshRunning := ?_, clear := ?_
      exclusive := ?_, live := ?_, kept := ?_, honest := ?_, empties := ?_ }
  · unfold Cache.write
    split
    · split
      · exact AMap.wf_insert h.wfDirs _ _
      · exact h.wfDirs
    · exact h.wfDirs
  · intro t s d res hds
    rw [hget] at hds
    split at hds
    · next hk =>
      rcases hr with ⟨x, rfl, -⟩ | ⟨o, res', rfl, h1, rfl⟩
      · cases hds
      · cases hds
        have hk' := hk.1
        unfold Running.key at hk'
        cases hk'
        exact ⟨r.command, r.interactive, o, _, TestedSince.last .., rfl, Prod.ext rfl h1⟩
    · obtain ⟨cmd, i, o, st, h1, h2⟩ := h.stored t s d res hds
      exact ⟨cmd, i, o, st, h1.append (hc t), h2⟩
  · intro t s d x hds
    rw [hget] at hds
    split at hds
    · next hk =>
      rcases hr with ⟨x', rfl, rfl⟩ | ⟨o, res', rfl, h1, rfl⟩
      · cases hds
        have hk' := hk.1
        unfold Running.key at hk'
        cases hk'
        exact ⟨r.command, rfl, by simp⟩
      · cases hds
    · obtain ⟨cmd, h1, h2⟩ := h.garbled t s d x hds
      exact ⟨cmd, h1, by simp [h2]⟩
  · intro k d g hds
    rw [hnext]
    rw [hget] at hds
    split at hds
    · next hk => cases hds; exact h.fresh _ _ _ hk.2
    · exact h.fresh _ _ _ hds
  · intro i r' hr'
    rw [hnext]
    exact h.freshRunning i r' (hrun' i r' hr').2
  · intro i r' g hr' hg
    obtain ⟨h1, h2⟩ := hrun' i r' hr'
    rw [hget] at hg
    split at hg
    · next hk =>
      simp only [Option.some.injEq, Prod.mk.injEq] at hg
      exact absurd (h.exclusive i id r' r h2 hid hk.1 hg.1.symm) h1
    · exact h.clear i r' g h2 hg
  · intro i j r1 r2 h1 h2 hk hdir
    exact h.exclusive i j r1 r2 (hrun' i r1 h1).2 (hrun' j r2 h2).2 hk hdir
  · intro i r' hr' hn
    obtain ⟨h1, h2⟩ := hrun' i r' hr'
    obtain ⟨g, hg⟩ := h.live i r' h2 fun hm => hn (by simp [hm])
    rw [hget]
    split
    · next hk =>
      have := hk.2
      rw [hg] at this
      simp only [Option.some.injEq, Prod.mk.injEq] at this
      exact ⟨f, by rw [this.1]⟩
    · exact ⟨g, hg⟩
  · intro t cmd i o st res ht hn hres
    have hn' : Event.cleaned t ∉ es := fun hm => hn (by simp [hm])
    rw [List.mem_append, List.mem_singleton] at ht
    rcases ht with ht | ht
    · obtain ⟨d, hd⟩ := h.kept t cmd i o st res ht hn' hres
      refine ⟨d, ?_⟩
      rw [hget, if_neg, hd]
      rintro ⟨-, h2⟩
      rw [hd] at h2; cases h2
    · rcases hr with ⟨x', rfl, rfl⟩ | ⟨o', res', rfl, h1, rfl⟩
      · cases ht
      · cases ht
        rw [h1] at hres
        cases hres
        obtain ⟨g, hg⟩ := h.live id r hid hn'
        have := h.clear id r g hid hg
        subst this
        refine ⟨r.dir, ?_⟩
        rw [hget, if_pos ⟨rfl, hg⟩]
  · intro t cmd i o st ht
    rw [List.mem_append, List.mem_singleton] at ht
    rcases ht with ht | ht
    · exact h.honest t cmd i o st ht
    · rcases hr with ⟨x', rfl, rfl⟩ | ⟨o', res', rfl, h1, rfl⟩
      · cases ht
      · cases ht; rfl
  · intro t s d hds
    rw [hget] at hds
    split at hds
    · simp only [Option.some.injEq, Prod.mk.injEq] at hds
      exact absurd hds.2 hne
    · next hk =>
      rcases h.empties t s d hds with ⟨j, r', h1, h2, h3⟩ | ⟨cmd, h1, h2 | ⟨i, o, st, h2, h3⟩⟩
      · by_cases hj : j = id
        · subst hj
          rw [hid] at h1
          cases h1
          exact absurd ⟨h2.symm, by rw [hds, h3]⟩ hk
        · refine .inl ⟨j, r', ?_, h2, h3⟩
          rw [hrun, AMap.get?_erase, if_neg (Ne.symm hj), h1]
      · exact .inr ⟨cmd, h1, .inl (by simp [h2])⟩
      · exact .inr ⟨cmd, h1, .inr ⟨i, o, st, by simp [h2], h3⟩⟩

/-! ### Removing results -/

theorem get?_clean (c : Cache) (t : Oid) (k : Oid × Text) :
    AMap.get? (c.dirs.filter fun e => e.1.1 ≠ t) k = if k.1 ≠ t then c.dirs.get? k else none := by
  have := Spec.get?_filter_key c.dirs (fun k => decide (k.1 ≠ t)) k
  rw [this]
  simp

theorem Inv.clean {c es} (h : Inv c es) (t : Oid) :
    Inv { c with dirs := c.dirs.filter fun e => e.1.1 ≠ t } (es ++ [.cleaned t]) where
  wfRunning := h.wfRunning
  wfDirs := AMap.wf_filter h.wfDirs _
  stored t' s d r hd := by
    rw [get?_clean] at hd
    split at hd
    · next hne =>
      obtain ⟨cmd, i, o, st, h1, h2⟩ := h.stored t' s d r hd
      exact ⟨cmd, i, o, st, h1.append (fun hh => by cases hh; exact hne rfl), h2⟩
    · cases hd
  garbled t' s d x hd := by
    rw [get?_clean] at hd
    split at hd
    · obtain ⟨cmd, h1, h2⟩ := h.garbled t' s d x hd
      exact ⟨cmd, h1, by simp [h2]⟩
    · cases hd
  fresh k d f hd := by
    rw [get?_clean] at hd
    split at hd
    · exact h.fresh k d f hd
    · cases hd
  freshRunning := h.freshRunning
  clear i r f hr hd := by
    rw [get?_clean] at hd
    split at hd
    · exact h.clear i r f hr hd
    · cases hd
  exclusive := h.exclusive
  live i r hr hn := by
    obtain ⟨f, hf⟩ := h.live i r hr fun hm => hn (by simp [hm])
    refine ⟨f, ?_⟩
    rw [get?_clean, if_pos, hf]
    intro he
    unfold Running.key at he
    exact hn (by simp at he; simp [he])
  kept t' cmd i o st r ht hn hr := by
    rw [List.mem_append, List.mem_singleton] at ht
    rcases ht with ht | ht
    · obtain ⟨d, hd⟩ := h.kept t' cmd i o st r ht (fun hm => hn (by simp [hm])) hr
      refine ⟨d, ?_⟩
      rw [get?_clean, if_pos, hd]
      intro he
      exact hn (by simp at he; simp [he])
    · cases ht
  honest t' cmd i o st ht := by
    rw [List.mem_append, List.mem_singleton] at ht
    rcases ht with ht | ht
    · exact h.honest t' cmd i o st ht
    · cases ht
  empties t' s d hd := by
    rw [get?_clean] at hd
    split at hd
    · rcases h.empties t' s d hd with h1 | ⟨cmd, h1, h2 | ⟨i, o, st, h2, h3⟩⟩
      · exact .inl h1
      · exact .inr ⟨cmd, h1, .inl (by simp [h2])⟩
      · exact .inr ⟨cmd, h1, .inr ⟨i, o, st, by simp [h2], h3⟩⟩
    · cases hd

theorem inv_history_step {c es} (h : Inv c es) (op : Op) :
    Inv (c.step op).1 (es ++ [(c.step op).2]) := by
  cases op with
  | begin id t cmd i =>
    simp only [Cache.step]
    cases hid : c.running.get? id with
    | some r => refine h.quiet ?_; trivial
    | none => exact inv_begin h hid t cmd i
  | finish id o =>
    simp only [Cache.step]
    cases hid : c.running.get? id with
    | none => refine h.quiet ?_; trivial
    | some r =>
      simp only
      cases hres : (testCommit r.command r.interactive o).2 with
      | none => exact h.unlock hid (by simp) (.inr ⟨o, hres, rfl⟩)
      | some res => exact h.unlock_write hid (by simp) (.inr ⟨o, res, rfl, hres, rfl⟩)
  | abandon id =>
    simp only [Cache.step]
    cases hid : c.running.get? id with
    | none => refine h.quiet ?_; trivial
    | some r => exact h.unlock hid (by simp) (.inl rfl)
  | garble id e =>
    simp only [Cache.step]
    cases hid : c.running.get? id with
    | none => refine h.quiet ?_; trivial
    | some r => exact h.unlock_write hid (by simp) (.inl ⟨e, rfl, rfl⟩)
  | clean t => exact h.clean t

theorem inv_history {ops c es} (h : History ops c es) : Inv c es := by
  induction h with
  | nil => exact inv_empty
  | snoc op _ ih => exact inv_history_step ih op

/-! ### Exit codes -/

theorem testCommit_exited_iff (cmd i o) :
    (∃ r, (testCommit cmd i o).2 = some r) ↔ o.Exited := by
  cases o <;> simp [testCommit, Outcome.Exited]

theorem readStatus_of {cmd i o st r} (h : testCommit cmd i o = (st, some r)) :
    readStatus r = asCached st := by
  cases o with
  | spawnFailed e => simp [testCommit] at h
  | signal => simp [testCommit] at h
  | exited code fix =>
    simp only [testCommit, Prod.mk.injEq, Option.some.injEq] at h
    obtain ⟨rfl, rfl⟩ := h
    simp only [readStatus, testSuccess, testIndeterminate, testAbort]
    by_cases h0 : code = 0
    · simp [h0, asCached]
    · by_cases h1 : code = 125
      · simp [h1, asCached]
      · by_cases h2 : code = 127
        · simp [h2, asCached]
        · simp [h0, h1, h2, asCached]

theorem testCommit_means (cmd i code fix) : Means code (testCommit cmd i (.exited code fix)).1 := by
  unfold Means
  simp only [testCommit, testSuccess, testIndeterminate, testAbort]
  by_cases h0 : code = 0
  · left; exact ⟨h0, by simp [h0, TestStatus.Passed]⟩
  · by_cases h1 : code = 125
    · right; left; exact ⟨h1, by simp [h1]⟩
    · by_cases h2 : code = 127
      · right; right; left; exact ⟨h2, by simp [h2]⟩
      · right; right; right
        exact ⟨h0, h1, h2, by simp [h0, h1, h2, TestStatus.Failed]⟩

theorem testCommit_result {cmd i o r} (h : (testCommit cmd i o).2 = some r) :
    ∃ code fix, o = .exited code fix ∧ r.command = cmd ∧ r.exitCode = code ∧
      r.snapshotTreeOid = if code = 0 then fix.snapshotTreeOid else none := by
  cases o with
  | spawnFailed e => simp [testCommit] at h
  | signal => simp [testCommit] at h
  | exited code fix =>
    simp only [testCommit, Option.some.injEq] at h
    refine ⟨code, fix, rfl, ?_⟩
    subst h
    refine ⟨rfl, rfl, ?_⟩
    simp only [testSuccess, testIndeterminate, testAbort]
    by_cases h0 : code = 0
    · simp [h0]
    · by_cases h1 : code = 125
      · simp [h1]
      · by_cases h2 : code = 127
        · simp [h2]
        · simp [h0, h1, h2]

/-! ### Names of directories -/

theorem slug_plain {cmd : Text} (h : Plain cmd) : slug cmd = cmd := by
  unfold slug
  induction cmd with
  | nil => rfl
  | cons c cmd ih =>
    rw [List.flatMap_cons, ih fun x hx => h x (List.mem_cons_of_mem _ hx)]
    obtain ⟨h1, h2, h3⟩ := h c (by simp)
    simp [h1, h2, h3]

end Verif.TestCache

import Verif.Spec.TestDir
import Verif.Props.TestOptions
import Verif.Props.Plan

/-! C86: tests and the directories in which they are run. -/

namespace Verif.TestDir

open Verif Verif.Spec Verif.TestRun

/-- Who holds a lock, and that a directory is prepared. -/
structure DirInv (env : Env) (w : World) : Prop where
  holder : ∀ o, (w.phase o).holds = true → w.lock (env.dir o) = some o
  held : ∀ i o, w.lock i = some o → (w.phase o).holds = true ∧ env.dir o = i
  clean : ∀ o c, w.phase o = .prepared c → ∃ dir, w.dirs (env.dir o) = some dir ∧ HasTree (env.tree c) dir

theorem hasTree_reset (tree : Text → Option Text) (dir : Dir) : HasTree tree (dir.reset tree) := by
  refine ⟨fun p t h => ?_, fun p => rfl⟩
  simp [Dir.reset, h]

theorem dirInv_init (env : Env) (dirs : DirId → Option Dir) : DirInv env (World.init dirs) :=
  ⟨by simp [World.init, Phase.holds], by simp [World.init], by simp [World.init]⟩

theorem setDir_same (w : World) (i : DirId) : w.setDir i (w.dirs i) = w := by
  unfold World.setDir
  congr
  funext j
  split
  · rename_i h; rw [h]
  · rfl

theorem setPhase_same (w : World) (o : Owner) : w.setPhase o (w.phase o) = w := by
  unfold World.setPhase
  congr
  funext j
  split
  · rename_i h; rw [h]
  · rfl

theorem DirInv.alone {env : Env} {w : World} (hi : DirInv env w) {o x : Owner} (ho : (w.phase o).holds = true)
    (hx : (w.phase x).holds = true) (he : env.dir x = env.dir o) : x = o := by
  have h1 := hi.holder _ hx
  rw [he, hi.holder _ ho] at h1
  exact (Option.some.inj h1).symm

theorem DirInv.wait {env : Env} {w : World} (hi : DirInv env w) {o : Owner} {ph : Phase}
    (ho : (w.phase o).holds = false) (hp : ph.holds = false) : DirInv env (w.setPhase o ph) := by
  refine ⟨fun x hx => ?_, fun i x hx => ?_, fun x c' hx => ?_⟩
  · simp only [World.setPhase] at hx ⊢
    split at hx
    · rw [hp] at hx; cases hx
    · exact hi.holder x hx
  · obtain ⟨h1, h2⟩ := hi.held i x hx
    refine ⟨?_, h2⟩
    simp only [World.setPhase]
    rw [if_neg (by rintro rfl; rw [ho] at h1; cases h1)]
    exact h1
  · simp only [World.setPhase] at hx ⊢
    split at hx
    · rw [hx] at hp; cases hp
    · exact hi.clean x c' hx

theorem DirInv.take {env : Env} {w : World} (hi : DirInv env w) {o : Owner} {c : Oid}
    (ho : (w.phase o).holds = false) (hl : w.lock (env.dir o) = none) :
    DirInv env ((w.setLock (env.dir o) (some o)).setPhase o (.locked c)) := by
  refine ⟨fun x hx => ?_, fun i x hx => ?_, fun x c' hx => ?_⟩
  · simp only [World.setPhase, World.setLock] at hx ⊢
    by_cases hxo : x = o
    · subst hxo; simp
    · rw [if_neg hxo] at hx
      have := hi.holder x hx
      rw [if_neg (fun he => ?_)]
      · exact this
      · rw [he, hl] at this; cases this
  · simp only [World.setPhase, World.setLock] at hx ⊢
    by_cases hio : i = env.dir o
    · rw [if_pos hio] at hx
      cases hx
      simp [Phase.holds, hio]
    · rw [if_neg hio] at hx
      obtain ⟨h1, h2⟩ := hi.held i x hx
      rw [if_neg (by rintro rfl; rw [ho] at h1; cases h1)]
      exact ⟨h1, h2⟩
  · simp only [World.setPhase, World.setLock] at hx ⊢
    split at hx
    · cases hx
    · exact hi.clean x c' hx

theorem DirInv.keep {env : Env} {w : World} (hi : DirInv env w) {o : Owner} {ph : Phase} {d : Option Dir}
    (ho : (w.phase o).holds = true) (hp : ph.holds = true)
    (hc : ∀ c, ph = .prepared c → ∃ dir, d = some dir ∧ HasTree (env.tree c) dir) :
    DirInv env ((w.setDir (env.dir o) d).setPhase o ph) := by
  refine ⟨fun x hx => ?_, fun i x hx => ?_, fun x c' hx => ?_⟩
  · simp only [World.setPhase, World.setDir] at hx ⊢
    split at hx
    · rename_i he; subst he; exact hi.holder x ho
    · exact hi.holder x hx
  · obtain ⟨h1, h2⟩ := hi.held i x hx
    refine ⟨?_, h2⟩
    simp only [World.setPhase]
    split
    · exact hp
    · exact h1
  · simp only [World.setPhase, World.setDir] at hx ⊢
    split at hx
    · rename_i he
      subst he
      rw [if_pos rfl]
      exact hc c' hx
    · rename_i he
      rw [if_neg]
      · exact hi.clean x c' hx
      · intro hd
        exact he (hi.alone ho (by rw [hx]; rfl) hd)

theorem DirInv.release {env : Env} {w : World} (hi : DirInv env w) {o : Owner} {ph : Phase} {d : Option Dir}
    (ho : (w.phase o).holds = true) (hp : ph.holds = false) :
    DirInv env (((w.setDir (env.dir o) d).setLock (env.dir o) none).setPhase o ph) := by
  refine ⟨fun x hx => ?_, fun i x hx => ?_, fun x c' hx => ?_⟩
  · simp only [World.setPhase, World.setDir, World.setLock] at hx ⊢
    split at hx
    · rw [hp] at hx; cases hx
    · rename_i he
      rw [if_neg (fun hd => he (hi.alone ho hx hd))]
      exact hi.holder x hx
  · simp only [World.setPhase, World.setDir, World.setLock] at hx ⊢
    split at hx
    · cases hx
    · rename_i he
      obtain ⟨h1, h2⟩ := hi.held i x hx
      rw [if_neg (by rintro rfl; exact he h2.symm)]
      exact ⟨h1, h2⟩
  · simp only [World.setPhase, World.setDir, World.setLock] at hx ⊢
    split at hx
    · rw [hx] at hp; cases hp
    · rename_i he
      rw [if_neg]
      · exact hi.clean x c' hx
      · intro hd
        exact he (hi.alone ho (by rw [hx]; rfl) hd)

theorem DirInv.step {env : Env} {w w' : World} {l : Label} (hi : DirInv env w)
    (h : TestDir.step env w l = some w') : DirInv env w' := by
  cases l with
  | begin o c =>
    simp only [TestDir.step] at h
    split at h
    · rename_i hf
      cases h
      refine hi.wait ?_ rfl
      cases hp : w.phase o <;> simp_all [Phase.holds, Phase.free]
    · cases h
  | tryLock o =>
    simp only [TestDir.step] at h
    split at h
    · rename_i c hp
      split at h
      · rename_i hl
        cases h
        exact hi.take (by rw [hp]; rfl) hl
      · cases h
        exact hi.wait (by rw [hp]; rfl) rfl
    · cases h
  | noWorkingCopy o =>
    simp only [TestDir.step] at h
    split at h
    · rename_i c hp _ _
      cases h
      have := hi.release (o := o) (ph := .noWorkingCopy c) (d := w.dirs (env.dir o)) (by rw [hp]; rfl) rfl
      rwa [setDir_same] at this
    · cases h
  | addWorktree o ok dir =>
    simp only [TestDir.step] at h
    split at h
    · rename_i c hp _ _
      have hh : (w.phase o).holds = true := by rw [hp]; rfl
      split at h
      · split at h
        · cases h
          have := hi.keep (o := o) (ph := .locked c) (d := dir) hh rfl (by simp)
          rw [← hp] at this
          rwa [show w.phase o = (w.setDir (env.dir o) dir).phase o from rfl, setPhase_same] at this
        · cases h
      · cases h
        exact hi.release hh rfl
    · cases h
  | checkOut o =>
    simp only [TestDir.step] at h
    split at h
    · rename_i c dir hp hd
      cases h
      refine hi.keep (by rw [hp]; rfl) rfl ?_
      rintro c' hc'
      cases hc'
      exact ⟨_, rfl, hasTree_reset _ _⟩
    · cases h
  | checkOutFails o dir =>
    simp only [TestDir.step] at h
    split at h
    · rename_i hp _
      cases h
      exact hi.release (by rw [hp]; rfl) rfl
    · cases h
  | start o =>
    simp only [TestDir.step] at h
    split at h
    · rename_i c hp
      cases h
      have := hi.keep (o := o) (ph := .running c) (d := w.dirs (env.dir o)) (by rw [hp]; rfl) rfl (by simp)
      rwa [setDir_same] at this
    · cases h
  | command o dir =>
    simp only [TestDir.step] at h
    split at h
    · rename_i c hp
      cases h
      have := hi.keep (o := o) (ph := .running c) (d := dir) (by rw [hp]; rfl) rfl (by simp)
      rw [← hp] at this
      rwa [show w.phase o = (w.setDir (env.dir o) dir).phase o from rfl, setPhase_same] at this
    · cases h
  | finish o =>
    simp only [TestDir.step] at h
    split at h
    · rename_i c hp
      cases h
      have := hi.release (o := o) (ph := .ran c) (d := w.dirs (env.dir o)) (by rw [hp]; rfl) rfl
      rwa [setDir_same] at this
    · cases h
  | error o =>
    simp only [TestDir.step] at h
    split at h
    · rename_i hp
      cases h
      have := hi.release (o := o) (ph := .gone) (d := w.dirs (env.dir o)) hp rfl
      rwa [setDir_same] at this
    · rename_i hp
      cases h
      exact hi.wait (by simpa using hp) rfl
  | kill p =>
    simp only [TestDir.step] at h
    cases h
    refine ⟨fun x hx => ?_, fun i x hx => ?_, fun x c' hx => ?_⟩
    · dsimp only at hx ⊢
      split at hx
      · cases hx
      · rename_i he
        rw [hi.holder x hx]
        simp [he]
    · dsimp only at hx ⊢
      rw [Option.filter_eq_some_iff] at hx
      obtain ⟨h1, h2⟩ := hx
      simp only [decide_not, Bool.not_eq_true', decide_eq_false_iff_not] at h2
      rw [if_neg h2]
      exact hi.held i x h1
    · dsimp only at hx ⊢
      split at hx
      · cases hx
      · exact hi.clean x c' hx

theorem DirInv.run {env : Env} {ls : List Label} : ∀ {w w' : World}, DirInv env w → TestDir.run env w ls = some w' →
    DirInv env w' := by
  induction ls with
  | nil => intro w w' hi h; cases h; exact hi
  | cons l ls ih =>
    intro w w' hi h
    rw [TestDir.run] at h
    split at h
    · rename_i w1 h1; exact ih (hi.step h1) h
    · cases h

/-- A step of another worker changes neither the directory nor the state of a worker which has the lock. -/
theorem DirInv.others {env : Env} {w w' : World} {l : Label} (hi : DirInv env w)
    (h : TestDir.step env w l = some w') {o : Owner} (ho : (w.phase o).holds = true) (hl : l.owner ≠ some o)
    (hk : l ≠ .kill o.process) :
    w'.dirs (env.dir o) = w.dirs (env.dir o) ∧ w'.phase o = w.phase o := by
  have hne : ∀ x : Owner, (w.phase x).holds = true → x ≠ o → env.dir o ≠ env.dir x :=
    fun x hx hxo he => hxo (hi.alone ho hx he.symm)
  cases l with
  | kill p =>
    simp only [TestDir.step] at h
    cases h
    refine ⟨rfl, ?_⟩
    dsimp only
    rw [if_neg (by rintro rfl; exact hk rfl)]
  | begin x c =>
    have hxo : x ≠ o := by rintro rfl; exact hl rfl
    simp only [TestDir.step] at h
    split at h
    · cases h; exact ⟨rfl, by simp [World.setPhase, Ne.symm hxo]⟩
    · cases h
  | tryLock x =>
    have hxo : x ≠ o := by rintro rfl; exact hl rfl
    simp only [TestDir.step] at h
    split at h
    · split at h <;> cases h <;> exact ⟨rfl, by simp [World.setPhase, World.setLock, Ne.symm hxo]⟩
    · cases h
  | noWorkingCopy x =>
    have hxo : x ≠ o := by rintro rfl; exact hl rfl
    simp only [TestDir.step] at h
    split at h
    · cases h; exact ⟨rfl, by simp [World.setPhase, World.setLock, Ne.symm hxo]⟩
    · cases h
  | addWorktree x ok dir =>
    have hxo : x ≠ o := by rintro rfl; exact hl rfl
    simp only [TestDir.step] at h
    split at h
    · rename_i c hp _ _
      have hd := hne x (by rw [hp]; rfl) hxo
      split at h
      · split at h <;> cases h
        exact ⟨by simp [World.setDir, hd], rfl⟩
      · cases h
        exact ⟨by simp [World.setDir, World.setPhase, World.setLock, hd],
          by simp [World.setPhase, World.setLock, World.setDir, Ne.symm hxo]⟩
    · cases h
  | checkOut x =>
    have hxo : x ≠ o := by rintro rfl; exact hl rfl
    simp only [TestDir.step] at h
    split at h
    · rename_i c dir hp _
      have hd := hne x (by rw [hp]; rfl) hxo
      cases h
      exact ⟨by simp [World.setDir, World.setPhase, hd], by simp [World.setPhase, World.setDir, Ne.symm hxo]⟩
    · cases h
  | checkOutFails x dir =>
    have hxo : x ≠ o := by rintro rfl; exact hl rfl
    simp only [TestDir.step] at h
    split at h
    · rename_i hp _
      have hd := hne x (by rw [hp]; rfl) hxo
      cases h
      exact ⟨by simp [World.setDir, World.setPhase, World.setLock, hd],
        by simp [World.setPhase, World.setLock, World.setDir, Ne.symm hxo]⟩
    · cases h
  | start x =>
    have hxo : x ≠ o := by rintro rfl; exact hl rfl
    simp only [TestDir.step] at h
    split at h
    · cases h; exact ⟨rfl, by simp [World.setPhase, Ne.symm hxo]⟩
    · cases h
  | command x dir =>
    have hxo : x ≠ o := by rintro rfl; exact hl rfl
    simp only [TestDir.step] at h
    split at h
    · rename_i c hp
      have hd := hne x (by rw [hp]; rfl) hxo
      cases h
      exact ⟨by simp [World.setDir, hd], rfl⟩
    · cases h
  | finish x =>
    have hxo : x ≠ o := by rintro rfl; exact hl rfl
    simp only [TestDir.step] at h
    split at h
    · cases h; exact ⟨rfl, by simp [World.setPhase, World.setLock, Ne.symm hxo]⟩
    · cases h
  | error x =>
    have hxo : x ≠ o := by rintro rfl; exact hl rfl
    simp only [TestDir.step] at h
    split at h <;> cases h <;> exact ⟨rfl, by simp [World.setPhase, World.setLock, Ne.symm hxo]⟩

end Verif.TestDir

namespace Verif.Props

open Verif Verif.Spec Verif.TestRun Verif.TestDir

/-- C86: two workers never use the same directory at the same time, be it of one process or of several. -/
theorem one_test_per_directory (env : Env) (dirs : DirId → Option Dir) (ls : List TestDir.Label) (w : World)
    (h : TestDir.run env (World.init dirs) ls = some w) (o o' : Owner)
    (ho : w.phase o = .running c ∨ w.phase o = .prepared c ∨ w.phase o = .locked c)
    (ho' : w.phase o' = .running c' ∨ w.phase o' = .prepared c' ∨ w.phase o' = .locked c')
    (he : env.dir o = env.dir o') : o = o' := by
  have hi := (dirInv_init env dirs).run h
  refine hi.alone ?_ ?_ he
  · rcases ho' with h | h | h <;> rw [h] <;> rfl
  · rcases ho with h | h | h <;> rw [h] <;> rfl

/-- C86: when the command is started for a commit, this commit is checked out in its directory. -/
theorem test_sees_commit (env : Env) (dirs : DirId → Option Dir) (ls : List TestDir.Label) (w w' : World)
    (h : TestDir.run env (World.init dirs) ls = some w) (o : Owner) (hs : TestDir.step env w (.start o) = some w') :
    ∃ c dir, w'.phase o = .running c ∧ w'.dirs (env.dir o) = some dir ∧ HasTree (env.tree c) dir := by
  have hi := (dirInv_init env dirs).run h
  simp only [TestDir.step] at hs
  split at hs
  · rename_i c hp
    cases hs
    obtain ⟨dir, h1, h2⟩ := hi.clean o c hp
    exact ⟨c, dir, by simp [World.setPhase], h1, h2⟩
  · cases hs

/-- C86: from when its worker has the directory to when the command has ended, nothing in it is changed by other workers,
whatever their commands do, and whichever of them fail or are killed. -/
theorem test_undisturbed (env : Env) (dirs : DirId → Option Dir) (ls ls' : List TestDir.Label) (w w' : World)
    (h : TestDir.run env (World.init dirs) ls = some w) (o : Owner)
    (ho : w.phase o = .running c ∨ w.phase o = .prepared c ∨ w.phase o = .locked c)
    (h' : TestDir.run env w ls' = some w')
    (hl : ∀ l ∈ ls', l.owner ≠ some o ∧ ∀ p, l = .kill p → p ≠ o.process) :
    w'.dirs (env.dir o) = w.dirs (env.dir o) ∧ w'.phase o = w.phase o := by
  have hi := (dirInv_init env dirs).run h
  have hh : (w.phase o).holds = true := by rcases ho with h | h | h <;> rw [h] <;> rfl
  clear h ho
  induction ls' generalizing w with
  | nil => cases h'; exact ⟨rfl, rfl⟩
  | cons l ls' ih =>
    rw [TestDir.run] at h'
    split at h'
    · rename_i w1 h1
      obtain ⟨h2, h3⟩ := hi.others h1 hh (hl l (List.mem_cons_self ..)).1
        (fun he => (hl l (List.mem_cons_self ..)).2 _ he rfl)
      obtain ⟨h4, h5⟩ := ih _ h' (fun l hl' => hl l (List.mem_cons_of_mem _ hl')) (hi.step h1) (by rw [h3]; exact hh)
      exact ⟨h4.trans h2, h5.trans h3⟩
    · cases h'

/-- C86: what the command finds in the directory: the files of the commit; of the others, those which were tracked are
gone, and only those which were not tracked are left from before. -/
theorem test_directory_exact (env : Env) (dirs : DirId → Option Dir) (ls ls' : List TestDir.Label) (w w1 w2 w3 : World)
    (h : TestDir.run env (World.init dirs) ls = some w) (o : Owner)
    (h1 : TestDir.step env w (.checkOut o) = some w1) (h2 : TestDir.run env w1 ls' = some w2)
    (hl : ∀ l ∈ ls', l.owner ≠ some o ∧ ∀ p, l = .kill p → p ≠ o.process)
    (h3 : TestDir.step env w2 (.start o) = some w3) :
    ∃ c before dir, w3.phase o = .running c ∧ w.dirs (env.dir o) = some before ∧ w3.dirs (env.dir o) = some dir ∧
      ∀ p, dir.files p =
        match env.tree c p with
        | some content => some content
        | none => if (before.index p).isSome then none else before.files p := by
  simp only [TestDir.step] at h1
  have hrun : TestDir.run env (World.init dirs) (ls ++ [.checkOut o]) = some w1 := by
    clear h2 h3 hl
    revert h
    generalize World.init dirs = v
    intro h
    induction ls generalizing v with
    | nil =>
      cases h
      simp only [List.nil_append, TestDir.run, TestDir.step, h1]
    | cons l ls ih =>
      rw [TestDir.run] at h
      rw [List.cons_append, TestDir.run]
      split at h
      · exact ih _ h
      · cases h
  split at h1
  · rename_i c before hp hb
    cases h1
    obtain ⟨h4, h5⟩ := test_undisturbed (c := c) env dirs _ ls' _ w2 hrun o (.inr (.inl (by simp [World.setPhase]))) h2 hl
    have hp2 : w2.phase o = .prepared c := by rw [h5]; simp [World.setPhase]
    simp only [TestDir.step, hp2] at h3
    cases h3
    refine ⟨c, before, before.reset (env.tree c), by simp [World.setPhase], hb, ?_, fun p => rfl⟩
    show w2.dirs (env.dir o) = _
    rw [h4]
    simp [World.setPhase, World.setDir]
  · cases h1

theorem run_append {env : Env} {ls : List TestDir.Label} : ∀ {w : World} {ls' : List TestDir.Label},
    TestDir.run env w (ls ++ ls') = (TestDir.run env w ls).bind fun w' => TestDir.run env w' ls' := by
  induction ls with
  | nil => intro w ls'; rfl
  | cons l ls ih =>
    intro w ls'
    rw [List.cons_append, TestDir.run, TestDir.run]
    cases TestDir.step env w l with
    | none => rfl
    | some w1 => exact ih

theorem run_snoc {env : Env} {w w' : World} {ls : List TestDir.Label} {l : TestDir.Label}
    (h : TestDir.run env w (ls ++ [l]) = some w') :
    ∃ w1, TestDir.run env w ls = some w1 ∧ TestDir.step env w1 l = some w' := by
  rw [run_append] at h
  cases h1 : TestDir.run env w ls with
  | none => rw [h1] at h; cases h
  | some w1 =>
    rw [h1, Option.bind_some, TestDir.run] at h
    split at h
    · rename_i w2 h2; cases h; exact ⟨w1, rfl, h2⟩
    · cases h

/-- The commit which a worker is working on, or has worked on. -/
def phaseCommit : Phase → Option Oid
  | .begun c | .locked c | .prepared c | .running c | .ran c | .lockFailed c | .noWorkingCopy c | .checkoutFailed c
  | .createWorktreeFailed c => some c
  | .idle | .gone => none

/-- A step keeps the commit of a worker, unless it gets another job or is gone. -/
theorem phaseCommit_step {env : Env} {w w' : World} {l : TestDir.Label} {o : Owner}
    (h : TestDir.step env w l = some w') :
    (∃ c, l = .begin o c ∧ phaseCommit (w'.phase o) = some c) ∨ w'.phase o = .gone ∨
      (phaseCommit (w'.phase o) = phaseCommit (w.phase o) ∧ ∀ c, l ≠ .begin o c) := by
  have key : ∀ (x : Owner) (ph : Phase) (w1 : World), w1.phase = w.phase →
      phaseCommit ph = phaseCommit (w.phase x) → phaseCommit ((w1.setPhase x ph).phase o) = phaseCommit (w.phase o) := by
    intro x ph w1 h1 h2
    simp only [World.setPhase]
    split
    · rename_i he; rw [he]; exact h2
    · rw [h1]
  cases l with
  | begin x c =>
    simp only [TestDir.step] at h
    split at h
    · cases h
      by_cases hx : x = o
      · subst hx; exact .inl ⟨c, rfl, by simp [World.setPhase, phaseCommit]⟩
      · refine .inr (.inr ⟨by simp [World.setPhase, Ne.symm hx], fun c' he => ?_⟩)
        cases he
        exact hx rfl
    · cases h
  | error x =>
    simp only [TestDir.step] at h
    by_cases hx : x = o
    · subst hx
      right; left
      split at h <;> cases h <;> simp [World.setPhase]
    · right; right
      refine ⟨?_, nofun⟩
      split at h <;> cases h <;> simp [World.setPhase, World.setLock, Ne.symm hx]
  | kill p =>
    simp only [TestDir.step] at h
    cases h
    right
    by_cases hp : o.process = p
    · left; simp [hp]
    · right; exact ⟨by simp [hp], nofun⟩
  | _ =>
    refine .inr (.inr ⟨?_, nofun⟩)
    simp only [TestDir.step] at h
    repeat' split at h
    all_goals first
      | (cases h; done)
      | (cases h; first
          | rfl
          | (refine key _ _ _ rfl ?_; simp_all [phaseCommit]))

theorem job_begun {env : Env} {dirs : DirId → Option Dir} {ls : List TestDir.Label} {w : World}
    (h : TestDir.run env (World.init dirs) ls = some w) {o : Owner} {c : Oid}
    (hc : phaseCommit (w.phase o) = some c) :
    ∃ ls1 ls2, ls = ls1 ++ .begin o c :: ls2 ∧ ∀ c', .begin o c' ∉ ls2 := by
  induction ls using List.reverseRecOn generalizing w with
  | nil => cases h; cases hc
  | append_singleton ls l ih =>
    obtain ⟨w1, h1, h2⟩ := run_snoc h
    rcases phaseCommit_step (o := o) h2 with ⟨c', rfl, h3⟩ | h3 | ⟨h3, h4⟩
    · rw [h3] at hc
      cases hc
      exact ⟨ls, [], rfl, by simp⟩
    · rw [h3] at hc; cases hc
    · obtain ⟨ls1, ls2, rfl, h5⟩ := ih h1 (by rw [← h3]; exact hc)
      refine ⟨ls1, ls2 ++ [l], by simp, fun c' hm => ?_⟩
      simp only [List.mem_append, List.mem_singleton] at hm
      rcases hm with hm | hm
      · exact h5 c' hm
      · exact h4 c' hm.symm

/-- C86: a test is of the commit which its worker was given last. -/
theorem test_of_job (env : Env) (dirs : DirId → Option Dir) (ls : List TestDir.Label) (w : World)
    (h : TestDir.run env (World.init dirs) ls = some w) (o : Owner) (c : Oid)
    (ho : w.phase o = .prepared c ∨ w.phase o = .running c ∨ w.phase o = .ran c) :
    ∃ ls1 ls2, ls = ls1 ++ .begin o c :: ls2 ∧ ∀ c', .begin o c' ∉ ls2 := by
  refine job_begun h ?_
  rcases ho with h | h | h <;> rw [h] <;> rfl

/-- C86: if nobody else uses its directory then a worker always gets the lock. -/
theorem lock_available (env : Env) (dirs : DirId → Option Dir) (ls : List TestDir.Label) (w : World)
    (h : TestDir.run env (World.init dirs) ls = some w) (o : Owner)
    (hl : ∀ o' c, .begin o' c ∈ ls → env.dir o' = env.dir o → o' = o) (c : Oid) :
    w.phase o ≠ .lockFailed c := by
  have hlock : ∀ (ls : List TestDir.Label) (w : World), TestDir.run env (World.init dirs) ls = some w →
      (∀ o' c, .begin o' c ∈ ls → env.dir o' = env.dir o → o' = o) →
      ∀ x, w.lock (env.dir o) = some x → x = o := by
    intro ls
    induction ls using List.reverseRecOn with
    | nil => intro w h _ x hx; cases h; cases hx
    | append_singleton ls l ih =>
      intro w h hl x hx
      obtain ⟨w1, h1, h2⟩ := run_snoc h
      have ih := ih w1 h1 (fun y c hm => hl y c (List.mem_append_left _ hm)) x
      cases l with
      | kill p =>
        simp only [TestDir.step] at h2
        cases h2
        simp only [Option.filter_eq_some_iff] at hx
        exact ih hx.1
      | tryLock y =>
        simp only [TestDir.step] at h2
        split at h2
        · rename_i cb hb
          split at h2
          · cases h2
            simp only [World.setPhase, World.setLock] at hx
            split at hx
            · rename_i he
              have hyx := Option.some.inj hx
              obtain ⟨ls1, ls2, hls, _⟩ := job_begun h1 (o := y) (c := cb) (by rw [hb]; rfl)
              rw [← hyx]
              exact hl y cb (by rw [hls]; simp) he.symm
            · exact ih hx
          · cases h2; exact ih hx
        · cases h2
      | _ =>
        simp only [TestDir.step] at h2
        repeat' split at h2
        all_goals first
          | (cases h2; done)
          | (cases h2; exact ih hx)
          | (cases h2
             simp only [World.setPhase, World.setLock, World.setDir] at hx
             split at hx
             · cases hx
             · exact ih hx)
  intro hp
  induction ls using List.reverseRecOn generalizing w with
  | nil => cases h; cases hp
  | append_singleton ls l ih =>
    obtain ⟨w1, h1, h2⟩ := run_snoc h
    have hl' : ∀ o' c, .begin o' c ∈ ls → env.dir o' = env.dir o → o' = o :=
      fun y c hm => hl y c (List.mem_append_left _ hm)
    have hw1 := hlock ls w1 h1 hl'
    have ih := ih w1 h1 hl'
    have hi := (dirInv_init env dirs).run h1
    cases l with
    | tryLock y =>
      simp only [TestDir.step] at h2
      split at h2
      · rename_i c1 hb
        split at h2
        · cases h2
          simp only [World.setPhase] at hp
          split at hp
          · cases hp
          · exact ih hp
        · rename_i z hz
          cases h2
          simp only [World.setPhase] at hp
          split at hp
          · rename_i he
            subst he
            have := hw1 z hz
            subst this
            have := (hi.held _ _ hz).1
            rw [hb] at this
            cases this
          · exact ih hp
      · cases h2
    | kill p =>
      simp only [TestDir.step] at h2
      cases h2
      dsimp only at hp
      split at hp
      · cases hp
      · exact ih hp
    | _ =>
      simp only [TestDir.step] at h2
      repeat' split at h2
      all_goals first
        | (cases h2; done)
        | (cases h2; exact ih hp)
        | (cases h2
           simp only [World.setPhase, World.setLock, World.setDir] at hp
           split at hp
           · cases hp
           · exact ih hp)

/-- C86: with one process, as its options were read (C85), every test gets its directory. Missing: the options of
`several_jobs_worktree_partial` only, see `jobs_fail_in_working_copy`. -/
theorem locks_available_partial (config : TestConfig) (d : Dag) (commits : List Oid) (raw : RawTestOptions)
    (r : ResolvedTestOptions) (hr : resolveTestOptions config d commits raw = .ok r)
    (hj : config.jobs = some none ∨ raw.jobs.isSome ∨ raw.strategy.isSome)
    (env : Env) (p : Nat) (hs : env.strategy p = r.strategy) (hn : env.jobs p = r.numJobs)
    (dirs : DirId → Option Dir) (ls : List TestDir.Label) (w : World)
    (h : TestDir.run env (World.init dirs) ls = some w)
    (hp : ∀ l ∈ ls, ∀ o, l.owner = some o → o.process = p) (o : Owner) (c : Oid) :
    w.phase o ≠ .lockFailed c := by
  have hbounds : ∀ o' c', .begin o' c' ∈ ls → 1 ≤ o'.worker ∧ o'.worker ≤ r.numJobs ∧ o'.process = p := by
    intro o' c' hm
    have hpr := hp _ hm o' rfl
    obtain ⟨ls1, ls2, rfl⟩ := List.append_of_mem hm
    rw [run_append] at h
    cases h1 : TestDir.run env (World.init dirs) ls1 with
    | none => rw [h1] at h; cases h
    | some w1 =>
      rw [h1, Option.bind_some, TestDir.run] at h
      simp only [TestDir.step] at h
      by_cases hc : (w1.phase o').free = true ∧ 1 ≤ o'.worker ∧ o'.worker ≤ env.jobs o'.process
      · refine ⟨hc.2.1, ?_, hpr⟩
        rw [← hn, ← hpr]
        exact hc.2.2
      · rw [if_neg hc] at h; cases h
  intro hc
  obtain ⟨ls1, ls2, hls, _⟩ := job_begun h (o := o) (c := c) (by rw [hc]; rfl)
  have ho := hbounds o c (by rw [hls]; simp)
  refine lock_available env dirs ls w h o ?_ c hc
  intro o' c' hm he
  have ho' := hbounds o' c' hm
  have hw : o'.worker = o.worker := by
    by_cases h1 : 1 < r.numJobs
    · have := several_jobs_worktree_partial config d commits raw r hr hj h1
      unfold Env.dir at he
      rw [ho.2.2, ho'.2.2, hs, this] at he
      simpa [dirOf] using he
    · omega
  obtain ⟨a, b⟩ := o
  obtain ⟨a', b'⟩ := o'
  simp only at hw ho ho'
  rw [hw, ho.2.2, ho'.2.2]

/-- Two commits, of which the first has a file more. -/
def exTestEnv (strategy : ExecutionStrategy) : Env where
  tree c p := if p = t!"a" then some (natToText c.val) else if c = oidN 1 ∧ p = t!"b" then some t!"b" else none
  strategy _ := strategy
  jobs _ := 2

def exTestDir : Dir := ⟨fun _ => none, fun _ => none⟩

/-- A test in each of two worktrees at the same time. -/
def exTestSteps : List TestDir.Label :=
  [.begin ⟨0, 1⟩ (oidN 1), .begin ⟨0, 2⟩ (oidN 2), .tryLock ⟨0, 1⟩, .tryLock ⟨0, 2⟩, .addWorktree ⟨0, 1⟩ true exTestDir,
    .checkOut ⟨0, 1⟩, .addWorktree ⟨0, 2⟩ true exTestDir, .checkOut ⟨0, 2⟩, .start ⟨0, 1⟩, .start ⟨0, 2⟩]

example : (TestDir.run (exTestEnv .worktree) (World.init fun _ => none) exTestSteps).map
      (fun w => (w.phase ⟨0, 1⟩, w.phase ⟨0, 2⟩, (w.dirs (.worktree 1)).map (·.files t!"b"),
        (w.dirs (.worktree 2)).map (·.files t!"b"))) =
    some (.running (oidN 1), .running (oidN 2), some (some t!"b"), some none) := by
  rfl

/-- C86: two jobs in the working copy, as they may be configured (`configured_jobs_in_working_copy`), are in each other's
way: a commit is reported as failed to be checked out though nothing is wrong with it. -/
theorem jobs_fail_in_working_copy : ∃ w,
    TestDir.run (exTestEnv .workingCopy) (World.init fun _ => some exTestDir)
      [.begin ⟨0, 1⟩ (oidN 1), .begin ⟨0, 2⟩ (oidN 2), .tryLock ⟨0, 1⟩, .tryLock ⟨0, 2⟩] = some w ∧
    w.phase ⟨0, 2⟩ = .lockFailed (oidN 2) := by
  refine ⟨_, rfl, ?_⟩
  decide +kernel

/-- C86: a file which a command has written and which is in no commit is there for the next one. -/
theorem leftovers_seen : ∃ w,
    TestDir.run (exTestEnv .workingCopy) (World.init fun _ => some exTestDir)
      [.begin ⟨0, 1⟩ (oidN 1), .tryLock ⟨0, 1⟩, .checkOut ⟨0, 1⟩, .start ⟨0, 1⟩,
        .command ⟨0, 1⟩ (some ⟨fun p => if p = t!"x" then some t!"left" else none, fun p => if p = t!"b" then some t!"b" else none⟩),
        .finish ⟨0, 1⟩, .begin ⟨0, 1⟩ (oidN 2), .tryLock ⟨0, 1⟩, .checkOut ⟨0, 1⟩, .start ⟨0, 1⟩] = some w ∧
    w.phase ⟨0, 1⟩ = .running (oidN 2) ∧ (w.dirs .workingCopy).map (·.files t!"x") = some (some t!"left") := by
  refine ⟨_, rfl, ?_, ?_⟩ <;> decide +kernel

end Verif.Props

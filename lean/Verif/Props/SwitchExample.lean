import Verif.Props.Switch

/-! Concrete cases of C91. -/

namespace Verif.Props

open Verif Verif.Spec

/-- A repository with the main branch at `0`, a stack which forks, and a branch `b` at `4`. -/
def exSwitchWorld (head : Head) : RepoWorld :=
  { exRestackWorld exForkEvents (oidN 4) with
    git := ⟨(exRestackWorld exForkEvents (oidN 4)).git.refs, head⟩ }

/-- The names which can be resolved: the branches, a tag, and the object id of `4`. -/
def exSwitchNames : AMap Text Oid :=
  [(t!"main", oidN 0), (t!"b", oidN 4), (t!"tag", oidN 1), ((oidN 4).toText, oidN 4), (t!"-", oidN 0)]

def exSwitchEnv (select : Option Oid) (revparse : Text → Option Oid) : SwitchEnv where
  checkout :=
    { mainBranch := t!"refs/heads/main"
      autoSwitch := true
      git :=
        { revision := fun _ t => (revparse t).or (Oid.parse t)
          previous := some t!"main"
          validName := fun _ => true
          works := fun _ _ _ => true } }
  revset := { exRevsetEnv with
    revparse := revparse, headOid := none,
    replayer := Replayer.fromEvents t!"refs/heads/main" exForkEvents }
  fuel := 20
  nav := exForkEnv
  smartlog := .ok [oidN 4, oidN 3, oidN 2, oidN 1, oidN 0]
  select := fun _ _ => .ok select

def exSwitch (head : Head) (select : Option Oid) (options : SwitchOptions) : Switched :=
  switch (exSwitchEnv select exSwitchNames.get?) exFork (exSwitchWorld head) options

/-- Non-vacuity: without a target to the only branch; by name; `-` for the previous branch; the head of a revset, and
the object id of a commit with a branch, are checked out detached; a selected commit with a branch; a new branch; a
branch, detached. -/
example :
    (exSwitch (.detached (oidN 4)) none {}).ran = some [t!"checkout", t!"b"] ∧
    (exSwitch (.detached (oidN 4)) none {}).git.head = .symbolic t!"refs/heads/b" ∧
    (exSwitch (.detached (oidN 2)) none {}).ran = some [t!"checkout"] ∧
    (exSwitch (.detached (oidN 2)) none { target := some t!"b" }).git.head = .symbolic t!"refs/heads/b" ∧
    (exSwitch (.detached (oidN 2)) none { target := some t!"-" }).git.head = .symbolic t!"refs/heads/main" ∧
    (exSwitch (.detached (oidN 2)) none { target := some (oidN 4).toText }).git.head = .detached (oidN 4) ∧
    (exSwitch (.detached (oidN 2)) none { target := some t!"::b" }).git.head = .detached (oidN 4) ∧
    (exSwitch (.detached (oidN 2)) (some (oidN 4)) { interactive := true }).git.head = .symbolic t!"refs/heads/b" ∧
    (exSwitch (.symbolic t!"refs/heads/b") (some (oidN 4)) { interactive := true }).git.head = .detached (oidN 4) ∧
    (exSwitch (.detached (oidN 2)) none { target := some t!"tag", branchName := some t!"new" }).git.head =
      .symbolic t!"refs/heads/new" ∧
    (exSwitch (.detached (oidN 2)) none { target := some t!"tag", branchName := some t!"new" }).git.headInfo.oid =
      some (oidN 1) ∧
    (exSwitch (.detached (oidN 2)) none { target := some t!"b", detach := true }).git.head = .detached (oidN 4) := by
  decide +kernel

/-- Non-vacuity: two heads, no commit, nothing selected, and options which git does not accept together. -/
example :
    (exSwitch (.detached (oidN 2)) none { target := some t!"draft()" }).outcome = .notOneHead 2 ∧
    (exSwitch (.detached (oidN 2)) none { target := some t!"none()" }).outcome = .notOneHead 0 ∧
    (exSwitch (.detached (oidN 2)) none { target := some t!"nothing" }).outcome = .error ∧
    (exSwitch (.detached (oidN 2)) none { interactive := true }).outcome = .cancelled ∧
    (exSwitch (.detached (oidN 2)) none { branchName := some t!"new", detach := true }).outcome = .checkoutFailed := by
  decide +kernel

/-- C91 (finding): two commits of which one is an ancestor, but not a parent, of the other count as two heads. -/
theorem switch_counts_ancestor :
    (exSwitch (.detached (oidN 2)) none { target := some t!"b + tag" }).outcome = .notOneHead 2 ∧
    (exSwitch (.detached (oidN 2)) none { target := some t!"b + tag + b^" }).outcome = .done ∧
    exFork.isAncestor (oidN 1) (oidN 4) = true := by
  decide +kernel

/-- Non-vacuity: the hypotheses of the theorems hold in this repository. -/
theorem exSwitch_setting (head : Head) (select : Option Oid) :
    ∃ r d, SwitchSetting (exSwitchEnv select exSwitchNames.get?) exFork (exSwitchWorld head) exForkEvents r d
      [oidN 4, oidN 3, oidN 2, oidN 1, oidN 0] := by
  refine ⟨_, _, ?_, ?_, ?_, rfl, insertionSortBy_contract.perm, ?_, fun _ _ _ _ _ => rfl, rfl, rfl⟩
  · unfold WFGraph exFork
    repeat (first | exact .nil | refine .cons (by decide) (by decide) ?_)
  · show AMap.WF (exRestackWorld exForkEvents (oidN 4)).git.refs
    unfold AMap.WF
    decide +kernel
  · show (exRestackWorld exForkEvents (oidN 4)).db.getEvents = _
    decide +kernel
  · intro l
    exact ⟨List.nodup_dedup l, fun x => List.mem_dedup⟩

theorem exSwitch_branches {head : Head} {x : Text} {o : Oid}
    (h : (exSwitchWorld head).git.refs.get? (t!"refs/heads/" ++ x) = some o) :
    (x = t!"main" ∧ o = oidN 0) ∨ (x = t!"b" ∧ o = oidN 4) := by
  simp only [exSwitchWorld, exRestackWorld, exWorld, AMap.get?_cons, AMap.get?_nil] at h
  split at h
  · rename_i h1
    exact .inl ⟨List.append_cancel_left (as := t!"refs/heads/") h1.symm, (Option.some.inj h).symm⟩
  · split at h
    · rename_i h1
      exact .inr ⟨List.append_cancel_left (as := t!"refs/heads/") h1.symm, (Option.some.inj h).symm⟩
    · cases h

theorem exSwitchNames_cases {t : Text} {o : Oid} (h : exSwitchNames.get? t = some o) :
    (t = t!"main" ∧ o = oidN 0) ∨ (t = t!"b" ∧ o = oidN 4) ∨ (t = t!"tag" ∧ o = oidN 1) ∨
    (t = (oidN 4).toText ∧ o = oidN 4) ∨ (t = t!"-" ∧ o = oidN 0) := by
  simp only [exSwitchNames, AMap.get?_cons, AMap.get?_nil] at h
  repeat' split at h
  all_goals first
    | (cases h; done)
    | (have h := Option.some.inj h; subst h; simp_all)

/-- Non-vacuity: git understands the names as expected. -/
theorem exSwitch_clear (head : Head) (select : Option Oid) (options : SwitchOptions)
    (ht : ∀ t, options.target = some t → t = t!"-" ∨ ¬ t!"-" <+: t) :
    NamesClear (exSwitchEnv select exSwitchNames.get?) (exSwitchWorld head).git options where
  hex o := by
    cases h : (exSwitchWorld head).git.refs.get? (t!"refs/heads/" ++ o.toText) with
    | none => rfl
    | some x =>
      have hl := Oid.length_toText o
      rcases exSwitch_branches h with ⟨h, -⟩ | ⟨h, -⟩ <;> rw [h] at hl <;> simp at hl
  oids o o' h := by
    simp only [exSwitchEnv] at h
    have hl := Oid.length_toText o
    cases hg : exSwitchNames.get? o.toText with
    | none =>
      rw [hg, Oid.parse_toText, Option.none_or] at h
      exact (Option.some.inj h).symm
    | some c =>
      rw [hg, Option.some_or] at h
      have h := Option.some.inj h
      subst h
      have hlen : ∀ x : Text, x.length ≠ 40 → o.toText ≠ x := fun x hx he => hx (he ▸ hl)
      rcases exSwitchNames_cases hg with h | h | h | h | h
      · exact absurd h.1 (hlen _ (by decide))
      · exact absurd h.1 (hlen _ (by decide))
      · exact absurd h.1 (hlen _ (by decide))
      · rw [h.2, Oid.toText_injective h.1]
      · exact absurd h.1 (hlen _ (by decide))
  revisions t o o' h hm := by
    simp only [exSwitchEnv] at h
    have hrev : ∀ t c, exSwitchNames.get? t = some c →
        (exSwitchEnv select exSwitchNames.get?).checkout.git.revision (exSwitchWorld head).git t = some c := by
      intro t c hc
      simp only [exSwitchEnv]
      rw [hc, Option.some_or]
    have hprev : (exSwitchEnv select exSwitchNames.get?).checkout.git.previous = some t!"main" := rfl
    have hdash : exSwitchNames.get? t!"-" = some (oidN 0) := by decide +kernel
    cases hm with
    | branch _ hb =>
      rcases exSwitch_branches hb with ⟨rfl, rfl⟩ | ⟨rfl, rfl⟩
      · have : exSwitchNames.get? t!"main" = some (oidN 0) := by decide +kernel
        rw [this] at h
        exact Option.some.inj h
      · have : exSwitchNames.get? t!"b" = some (oidN 4) := by decide +kernel
        rw [this] at h
        exact Option.some.inj h
    | revision _ _ hb =>
      rw [hrev t o h] at hb
      exact (Option.some.inj hb).symm
    | previousBranch hp hb =>
      rw [hprev] at hp
      cases hp
      rcases exSwitch_branches hb with ⟨-, rfl⟩ | ⟨h1, -⟩
      · rw [hdash] at h; exact Option.some.inj h
      · exact absurd h1 (by decide)
    | previous hp hb =>
      rw [hprev] at hp
      cases hp
      have : (exSwitchWorld head).git.refs.get? (t!"refs/heads/" ++ t!"main") = some (oidN 0) := by
        show (exRestackWorld exForkEvents (oidN 4)).git.refs.get? _ = _
        decide +kernel
      rw [this] at hb
      cases hb
  branches b h := by
    obtain ⟨o, ho⟩ := Option.isSome_iff_exists.1 h
    rcases exSwitch_branches ho with ⟨rfl, -⟩ | ⟨rfl, -⟩ <;> decide
  target := ht

/-- Non-vacuity: the only branch at `4`; and a revision which is no branch. -/
example : OnlyBranch (exSwitchWorld (.detached (oidN 4))).git (oidN 4) t!"b" ∧
    ∀ b, ¬ GitBranch (exSwitchEnv none exSwitchNames.get?).checkout.git (exSwitchWorld (.detached (oidN 4))).git t!"tag" b := by
  refine ⟨⟨by decide +kernel, ?_⟩, ?_⟩
  · rintro name ⟨x, rfl⟩ h
    rcases exSwitch_branches h with ⟨-, h⟩ | ⟨rfl, -⟩
    · exact absurd h (by decide)
    · rfl
  · rintro b ⟨h1, ⟨-, rfl⟩ | ⟨h, -⟩⟩
    · exact absurd h1 (by decide +kernel)
    · exact absurd h (by decide)

/-- Non-vacuity: at the top of the stack on the branch `b`, `git next --all` leaves the branch. -/
example :
    traverseCommits exForkEnv exForkCheckout exFork (exSwitchWorld (.symbolic t!"refs/heads/b")) .next
      (exOptions none true false false) =
      ({ (exSwitchWorld (.symbolic t!"refs/heads/b")).git with head := .detached (oidN 4) }, .done) ∧
    (exSwitchWorld (.symbolic t!"refs/heads/b")).git.headInfo.oid = some (oidN 4) ∧
    exFork.children [oidN 4] = [] := by
  refine ⟨rfl, ?_⟩
  decide +kernel

end Verif.Props

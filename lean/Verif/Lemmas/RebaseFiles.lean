import Verif.Spec.RebaseFiles
import Verif.Spec.RewordCommand
import Verif.Lemmas.InPlaceRun
import Verif.Lemmas.ExecuteFault
import Verif.Lemmas.Move
import Verif.Props.TreePick

/-! The files of commits which are moved: lemmas. -/

namespace Verif.Spec

open Verif Verif.RebasePlanBuilder Verif.Constraints Verif.Props

theorem samePick_ok {treeOf : Nat → Tree} {t : Tree} {r : Except FastError Nat} (h : SamePick treeOf (.ok t) r) :
    ∃ n, r = .ok n ∧ treeOf n = t := by
  cases r with
  | ok n => exact ⟨n, rfl, h⟩
  | error e => exact h.elim

theorem mapM_one {ee : ExecEnv} {o : Oid} {base : CommitData} (h : ee.commits o = some base) :
    [o].mapM ee.commits = some [base] := by
  simp [List.mapM_cons, h]

/-- A cherry-pick onto a commit with the same tree as the parent gives the tree of the original. -/
theorem FromTrees.clean {content : Option File → File → File → Option File} {treeOf : Nat → Tree} {ee : ExecEnv}
    (h : FromTrees content treeOf ee) : CleanPicks ee := by
  intro c d p dp q b hc hp hdp hq ht
  have := h.picks c d [dp] q b hc (by rw [hp]; exact mapM_one hdp) hq
  unfold Verif.cherryPickFast at this
  rw [if_pos (by simp [ht])] at this
  obtain ⟨n, h1, h2⟩ := samePick_ok this
  rw [h1, h.distinct _ _ h2]

/-- Writing files keeps the modes usual. -/
theorem plain_hydrate {t : Tree} {C : List TreePath} (ht : Plain t) (hn : C.Nodup) (h0 : [] ∉ C)
    (hC : ∀ p q, p ∈ C → q ∈ C → ¬ Below p q) (val : TreePath → Option Node)
    (hv : ∀ p ∈ C, ∀ x, val p = some x → ∃ m o, x = .leaf m o ∧ m ∈ fileModes) :
    Plain (hydrateTree t (C.map fun p => (p, val p))) := by
  have key : ∀ q, q ≠ [] → ∀ x, nodeAt (hydrateTree t (C.map fun p => (p, val p))) q = some x →
      nodeAt t q = some x ∨ (∃ es, x = .dir modeTree es) ∨ ∃ m o, x = .leaf m o ∧ m ∈ fileModes := by
    intro q hq x hx
    by_cases h1 : ∃ p ∈ C, Below q p
    · obtain ⟨es', -, rfl⟩ := hydrate_above _ _ (wf_map C hn _) q hq (by rwa [keys_map]) x hx
      exact .inr (.inl ⟨es', rfl⟩)
    by_cases h2 : ∃ p ∈ C, p <+: q
    · obtain ⟨p, hp, r, rfl⟩ := h2
      rw [hydrate_given _ _ (wf_map C hn _) p (val p) (fun e => h0 (e ▸ hp)) (List.mem_map.2 ⟨p, hp, rfl⟩) r] at hx
      · cases hvp : val p with
        | none => rw [hvp] at hx; cases hx
        | some y =>
          obtain ⟨m, o, rfl, hm⟩ := hv p hp y hvp
          rw [hvp] at hx
          cases r with
          | nil => simp only [Option.bind_some, inside_nil, Option.some.injEq] at hx; exact .inr (.inr ⟨m, o, hx.symm, hm⟩)
          | cons n r => simp at hx
      · intro r' h1 _ h3
        rw [keys_map] at h3
        exact hC _ _ hp h3 (below_of_ne h1)
      · intro q hq h1
        rw [keys_map] at hq
        exact hC _ _ hp hq (below_append h1)
    · left
      rwa [hydrate_unchanged _ _ (wf_map C hn _) q hq] at hx
      · intro p hp _ h; rw [keys_map] at hp; exact h2 ⟨p, hp, h⟩
      · intro p hp hb; rw [keys_map] at hp; exact h1 ⟨p, hp, hb⟩
  constructor
  · intro q m es hx
    by_cases hq : q = []
    · subst hq
      simp only [nodeAt, inside_nil, Option.some.injEq, Node.dir.injEq] at hx
      exact hx.1.symm
    rcases key q hq _ hx with h | ⟨es', h⟩ | ⟨m', o, h, _⟩
    · exact ht.dirs _ _ _ h
    · cases h; rfl
    · cases h
  · intro q m o hx
    by_cases hq : q = []
    · subst hq
      simp [nodeAt] at hx
    rcases key q hq _ hx with h | ⟨es', h⟩ | ⟨m', o', h, hm⟩
    · exact ht.files _ _ _ h
    · cases h
    · cases h; exact hm

theorem fileAt_mode {t : Tree} (ht : Plain t) {p : TreePath} {f : File} (h : fileAt t p = some f) : f.1 ∈ fileModes := by
  unfold fileAt at h
  cases hx : nodeAt t p with
  | none => rw [hx] at h; cases h
  | some x =>
    rw [hx] at h
    cases x with
    | leaf m o => cases h; exact ht.files _ _ _ hx
    | dir m es => cases h

/-- A fast cherry-pick when each file can be merged: it succeeds, with the merged files. -/
theorem pick_files {content : Option File → File → File → Option File} (hcm : KeepsModes content)
    {patch base target : Tree} (hb : Plain base) (hp : Plain patch) (ht : Plain target)
    (ha : Apart (fun p => fileAt base p ≠ fileAt patch p) target) {files : TreePath → Option File}
    (hm : ∀ p, MergesTo content (fileAt base p) (fileAt target p) (fileAt patch p) (files p)) :
    ∃ t, Verif.cherryPickFast content true ⟨patch, [base]⟩ ⟨target, []⟩ = .ok t ∧ Plain t ∧
      ∀ p, fileAt t p = files p := by
  have h := cherry_pick_fast_partial content true ⟨patch, [base]⟩ ⟨target, []⟩ base (by simp) rfl hb hp ht ha
  cases hr : Verif.cherryPickFast content true ⟨patch, [base]⟩ ⟨target, []⟩ with
  | error e =>
    rw [hr] at h
    obtain ⟨ps, -, h1, h2⟩ := h
    cases ps with
    | nil => exact absurd rfl h1
    | cons p ps => exact absurd (hm p) ((h2 p).1 (List.mem_cons_self ..) _)
  | ok t =>
    rw [hr] at h
    have hfiles : ∀ p, fileAt t p = files p := by
      intro p
      have h1 := mergeFile_some.2 (h p)
      have h2 := mergeFile_some.2 (hm p)
      rw [h1] at h2
      exact Option.some.inj h2
    refine ⟨t, rfl, ?_, hfiles⟩
    unfold Verif.cherryPickFast at hr
    split at hr
    · cases hr; exact hp
    · simp only at hr
      have hC := touched_files (c := ⟨patch, [base]⟩) (by simp) hb hp
      have hn := nodup_pathsTouched ⟨patch, [base]⟩
      have h0 := nil_pathsTouched ⟨patch, [base]⟩
      have ha' : Apart (· ∈ (⟨patch, [base]⟩ : TreeCommit).pathsTouched) target := by
        have hC' : ∀ p, p ∈ (⟨patch, [base]⟩ : TreeCommit).pathsTouched ↔ fileAt base p ≠ fileAt patch p := hC
        simpa only [hC'] using ha
      split at hr
      · cases hr
      · rename_i index hidx
        cases hr
        refine plain_hydrate ht hn h0 ha'.paths _ ?_
        intro p hpC x hx
        have hx' := hx
        unfold indexNode at hx
        cases hi : AMap.get? index p with
        | none => rw [hi] at hx; cases hx
        | some f =>
          rw [hi] at hx
          simp only [Option.map_some, Option.some.injEq] at hx
          refine ⟨_, _, hx.symm, ?_⟩
          have hf := hfiles p
          rw [fileAt_hydrate hn h0 ha' (fun p => indexNode index p), if_pos hpC, hx', ← hx] at hf
          · simp only [fileOf] at hf
            have hmp := hm p
            rw [← hf] at hmp
            have hcases : ∀ b o t r, MergesTo content b o t r → ∀ f, r = some f →
                b = some f ∨ o = some f ∨ t = some f ∨ ∃ o' t', o = some o' ∧ t = some t' ∧ content b o' t' = some f := by
              intro b o t r h f hr
              cases h with
              | same => exact .inr (.inl hr)
              | theirs => exact .inr (.inr (.inl hr))
              | ours => exact .inr (.inl hr)
              | both o t r _ _ _ h => cases hr; exact .inr (.inr (.inr ⟨_, _, rfl, rfl, h⟩))
            rcases hcases _ _ _ _ hmp _ rfl with h | h | h | ⟨o', t', h1, h2, h3⟩
            · exact fileAt_mode hb h
            · exact fileAt_mode ht h
            · exact fileAt_mode hp h
            · rcases hcm _ _ _ _ h3 with h4 | h4
              · exact h4 ▸ fileAt_mode ht h1
              · exact h4 ▸ fileAt_mode hp h2
          · intro p' _ n r
            unfold indexNode
            cases AMap.get? index p' <;> simp [fileOf, inside]

/-! ### the execution -/

/-- The object has a tree which is right for the commit. -/
def HasRight (ee : ExecEnv) (R : Oid → Nat → Prop) (created : List (Oid × CommitData)) (o c : Oid) : Prop :=
  ∃ x, ee.find created o = some x ∧ R c x.tree

/-- The execution of a plan, compared with what its trees should be. -/
structure Follows (ee : ExecEnv) (R : Oid → Nat → Prop) (e : ExecState) (y : SymState) : Prop where
  created : ∀ x ∈ e.created, ee.createCommit x.2 = some x.1
  current : HasRight ee R e.created e.current y.current
  labels : ∀ l, (AMap.get? e.labels l = none ∧ AMap.get? y.labels l = none) ∨
    ∃ o c, AMap.get? e.labels l = some o ∧ AMap.get? y.labels l = some c ∧ HasRight ee R e.created o c
  rewritten : ∀ c n, AMap.get? e.rewritten c = some (.nonZero n) → HasRight ee R e.created n c

theorem HasRight.mono {ee : ExecEnv} (hn : NoCollisions ee) {R : Oid → Nat → Prop} {cr new : List (Oid × CommitData)}
    (hcr : ∀ x ∈ cr, ee.createCommit x.2 = some x.1) (hnew : ∀ x ∈ new, ee.createCommit x.2 = some x.1)
    {o c : Oid} (h : HasRight ee R cr o c) : HasRight ee R (new ++ cr) o c := by
  obtain ⟨x, h1, h2⟩ := h
  exact ⟨x, find_mono hn hcr hnew h1, h2⟩

/-- What is needed of a command. -/
def Leads (ee : ExecEnv) (R : Oid → Nat → Prop) (y : SymState) : RebaseCommand → Prop
  | .pick c l => l = [c] ∧ ∃ d, ee.commits c = some d ∧ d.parents.length ≤ 1 ∧
      ∀ q x, (ee.commits q = some x ∨ ee.createCommit x = some q) → R y.current x.tree →
        ∃ t, ee.cherryPickFast c q = .ok t ∧ R c t
  | .merge _ _ | .skipUpstreamAppliedCommit _ | .replace _ _ _ => False
  | .reset (.oid p) => ∃ d, ee.commits p = some d ∧ R p d.tree
  | _ => True

/-- One command. -/
theorem Follows.step {ee : ExecEnv} (hn : NoCollisions ee) {R : Oid → Nat → Prop} {head : Option Oid} {e : ExecState}
    {y : SymState} (h : Follows ee R e y) {cmd : RebaseCommand} (hc : Leads ee R y cmd) :
    (∀ info, ee.runCommand head e cmd ≠ .error (.mergeFailed info)) ∧
    ∀ e', ee.runCommand head e cmd = .ok e' → Follows ee R e' (symStep y cmd) := by
  cases cmd with
  | createLabel l =>
    refine ⟨by simp [ExecEnv.runCommand], ?_⟩
    intro e' he
    simp only [ExecEnv.runCommand, Except.ok.injEq] at he
    subst he
    refine ⟨h.created, h.current, ?_, h.rewritten⟩
    intro l'
    by_cases hl : l = l'
    · subst hl
      exact .inr ⟨e.current, y.current, by simp, by simp [symStep], h.current⟩
    · simp only [symStep, AMap.get?_insert, if_neg hl]
      exact h.labels l'
  | reset t =>
    cases t with
    | label l =>
      constructor
      · intro info he
        simp only [ExecEnv.runCommand] at he
        split at he <;> simp at he
      · intro e' he
        simp only [ExecEnv.runCommand] at he
        split at he
        · rename_i o ho
          cases he
          rcases h.labels l with ⟨h1, _⟩ | ⟨o', c, h1, h2, h3⟩
          · rw [ho] at h1; simp at h1
          · rw [ho] at h1
            cases h1
            refine ⟨h.created, ?_, h.labels, h.rewritten⟩
            simp only [symStep, h2, Option.getD_some]
            exact h3
        · simp at he
    | oid p =>
      obtain ⟨d, hd, hR⟩ := hc
      constructor
      · intro info he
        simp only [ExecEnv.runCommand] at he
        split at he <;> simp at he
      · intro e' he
        simp only [ExecEnv.runCommand] at he
        split at he
        · rename_i o ho
          cases he
          exact ⟨h.created, h.rewritten p o ho, h.labels, h.rewritten⟩
        all_goals
          cases he
          exact ⟨h.created, ⟨d, find_original hn h.created hd, hR⟩, h.labels, h.rewritten⟩
  | pick c l =>
    obtain ⟨rfl, d, hd, hpar, hpick⟩ := hc
    obtain ⟨x, hx, hRx⟩ := h.current
    obtain ⟨t, hp, hRt⟩ := hpick e.current x (by
      rcases find_cases hx with h1 | h1
      · exact .inr (h.created _ h1)
      · exact .inl h1) hRx
    have hfind := find_original hn h.created hd
    constructor
    · intro info he
      simp only [ExecEnv.runCommand] at he
      unfold ExecEnv.runPick at he
      rw [hx, hfind] at he
      simp only at he
      split at he
      · simp at he
      · rename_i msg _
        simp only [List.foldlM_cons, List.foldlM_nil] at he
        unfold ExecEnv.pickOne at he
        simp only [hfind, Nat.not_lt.2 hpar, if_false, hp] at he
        generalize hcr : ee.createCommit _ = res at he
        cases res with
        | none => simp [bind, Except.bind] at he
        | some o =>
          simp only [bind, Except.bind, pure, Except.pure] at he
          split at he <;> simp at he
    · intro e' he
      have hdone := runPick_done he
      obtain ⟨hl, ⟨new, hnew, hnew'⟩, cur, orig, tree, h1, h2, h3, h4⟩ := hdone
      rw [hx] at h1
      cases h1
      rw [hfind] at h2
      cases h2
      have h3 := h3.one
      rw [hp] at h3
      cases h3
      have hcr : ∀ x ∈ e'.created, ee.createCommit x.2 = some x.1 := by
        rw [hnew]
        intro x hx
        rcases List.mem_append.1 hx with hx | hx
        · exact hnew' x hx
        · exact h.created x hx
      have hmono : ∀ {o c}, HasRight ee R e.created o c → HasRight ee R e'.created o c := by
        intro o c hs
        rw [hnew]
        exact hs.mono hn h.created hnew'
      have hlab : ∀ l, (AMap.get? e'.labels l = none ∧ AMap.get? y.labels l = none) ∨
          ∃ o c, AMap.get? e'.labels l = some o ∧ AMap.get? y.labels l = some c ∧
            HasRight ee R e'.created o c := by
        intro l
        rw [hl]
        rcases h.labels l with h | ⟨o, c, h1, h2, h3⟩
        · exact .inl h
        · exact .inr ⟨o, c, h1, h2, hmono h3⟩
      rcases h4 with ⟨h5, h6, h7, _⟩ | ⟨h5, _, h7, h8⟩
      · refine ⟨hcr, ?_, hlab, ?_⟩
        · rw [h6]
          refine ⟨x, ?_, h5 ▸ hRt⟩
          rw [hnew]
          exact find_mono hn h.created hnew' hx
        · intro c' n hc'
          rw [h7, AMap.get?_insert] at hc'
          split at hc'
          · simp at hc'
          · exact hmono (h.rewritten c' n hc')
      · have hself : HasRight ee R e'.created e'.current c :=
          ⟨_, find_created hn hcr h8, hRt⟩
        refine ⟨hcr, hself, hlab, ?_⟩
        intro c' n hc'
        rw [h7] at hc'
        simp only [List.foldl_cons, List.foldl_nil, AMap.get?_insert] at hc'
        by_cases hcc : c = c'
        · subst hcc
          simp only [if_true, Option.some.injEq, MaybeZero.nonZero.injEq] at hc'
          exact hc' ▸ hself
        · simp only [if_neg hcc] at hc'
          exact hmono (h.rewritten c' n hc')
  | merge c ps => exact hc.elim
  | replace c r ps => exact hc.elim
  | skipUpstreamAppliedCommit c => exact hc.elim
  | «break» => simp [ExecEnv.runCommand]
  | registerExtraPostRewriteHook =>
    refine ⟨by simp [ExecEnv.runCommand], ?_⟩
    intro e' he
    simp only [ExecEnv.runCommand, Except.ok.injEq] at he
    exact he ▸ h
  | detectEmptyCommit c =>
    refine ⟨by simp [ExecEnv.runCommand], ?_⟩
    intro e' he
    simp only [ExecEnv.runCommand, Except.ok.injEq] at he
    exact he ▸ h

/-- A list of commands. -/
theorem Follows.run {ee : ExecEnv} (hn : NoCollisions ee) {R : Oid → Nat → Prop} {head : Option Oid}
    {cmds : List RebaseCommand} {e : ExecState} {y : SymState} (h : Follows ee R e y)
    (hc : ∀ pre cmd post, cmds = pre ++ cmd :: post → Leads ee R (symRun y pre) cmd) :
    (∀ info, cmds.foldlM (ee.runCommand head) e ≠ .error (.mergeFailed info)) ∧
    ∀ e', Runs ee head cmds e e' → Follows ee R e' (symRun y cmds) := by
  induction cmds generalizing e y with
  | nil =>
    refine ⟨?_, ?_⟩
    · intro info he
      rw [List.foldlM_nil] at he
      cases he
    · intro e' he
      rw [runs_nil] at he
      subst he
      exact h
  | cons c cmds ih =>
    obtain ⟨h1, h2⟩ := h.step hn (head := head) (hc [] c cmds rfl)
    have hc' : ∀ e1, ee.runCommand head e c = .ok e1 →
        ∀ pre cmd post, cmds = pre ++ cmd :: post → Leads ee R (symRun (symStep y c) pre) cmd := by
      intro e1 _ pre cmd post hs
      exact hc (c :: pre) cmd post (by rw [hs]; rfl)
    constructor
    · intro info he
      rw [List.foldlM_cons] at he
      cases hr : ee.runCommand head e c with
      | error e1 =>
        rw [hr] at he
        have : e1 = .mergeFailed info := by simpa [bind, Except.bind] using he
        exact h1 info (by rw [hr, this])
      | ok e1 =>
        rw [hr] at he
        exact (ih (h2 e1 hr) (hc' e1 hr)).1 info he
    · intro e' he
      obtain ⟨e1, hr, hrun⟩ := runs_cons.1 he
      exact (ih (h2 e1 hr) (hc' e1 hr)).2 e' hrun

/-- Without merge commits, a plan goes back by their ids only to destinations which are not moved themselves. -/
theorem plan_resets_roots {b : RebasePlanBuilder} {k : Constraints} (hk : b.constraintGraph = .ok k)
    (hf : k.fixups = []) (hm : ∀ p c, Moves k p c → ¬ IsMerge b.env c) {plan : RebasePlan}
    (h : b.build = .ok (.ok (some plan))) {p : Oid}
    (hp : .reset (.oid p) ∈ plan.commands) : ∃ c, Moves k p c ∧ ¬ ∃ q, Moves k q p := by
  have hw := kwf_constraintGraph hk
  obtain ⟨k', st, h1, h2, h3, h4, h5, h6⟩ := build_ok h
  rw [hk] at h1
  cases h1
  have hQ := plan_commands hw (Q := fun cmd => ∀ p, cmd = .reset (.oid p) →
    ∃ c, Moves k p c ∧ ¬ ∃ q, Moves k q p) ?_ (by simp) (by simp) ?_ h4
  · rw [h6] at hp
    rcases List.mem_append.1 hp with hp | hp
    · exact hQ _ hp p rfl
    · simp at hp
  · intro up cur st cs _ hcur hcs cmd hcmd p hp
    subst hp
    have hnm : ¬ IsMerge b.env cur := by
      rcases hcur with ⟨q, hq⟩ | ⟨fs, hfs⟩
      · exact hm q cur hq
      · rw [hf] at hfs; simp at hfs
    unfold commandsFor at hcs
    split at hcs
    · cases hcs; simp at hcmd
    split at hcs
    · rename_i hlen
      exact absurd hlen hnm
    split at hcs
    · cases hcs; simp at hcmd
    split at hcs <;> (cases hcs; simp at hcmd)
  · intro r hr p ps c h7 p' hp'
    cases hp'
    rcases mem_findRoots hr with ⟨q, d, rfl, hq, hmq⟩ | ⟨t, rfl, ht⟩
    · simp only [rootEdge, Except.ok.injEq, Prod.mk.injEq, List.cons.injEq] at h7
      obtain ⟨⟨rfl, _⟩, rfl⟩ := h7
      exact ⟨d, hmq, fun hx => ((mem_unconstrainedNodes hw).1 hq).2 (.inl hx)⟩
    · have := ((mem_unconstrainedFixup hw).1 ht).1
      obtain ⟨fs, hfs⟩ := this
      rw [hf] at hfs
      simp at hfs

/-- An execution in memory in which each tree follows from the tree below. -/
theorem right_run {b : RebasePlanBuilder} {k : Constraints} (hk : b.constraintGraph = .ok k)
    (hf : k.fixups = []) (hrep : b.replacementCommits = []) (hm : ∀ p c, Moves k p c → ¬ IsMerge b.env c)
    {plan : RebasePlan} (h : b.build = .ok (.ok (some plan)))
    (hskip : ∀ c, .skipUpstreamAppliedCommit c ∉ plan.commands) {ee : ExecEnv} (hn : NoCollisions ee)
    {R : Oid → Nat → Prop}
    (hstay : ∀ p c, Moves k p c → (¬ ∃ q, Moves k q p) → ∃ d, ee.commits p = some d ∧ R p d.tree)
    (hpick : ∀ p c, Moves k p c → ∃ d, ee.commits c = some d ∧ d.parents.length ≤ 1 ∧
      ∀ q x, (ee.commits q = some x ∨ ee.createCommit x = some q) → R p x.tree →
        ∃ t, ee.cherryPickFast c q = .ok t ∧ R c t) (head : Option Oid) :
    (∀ info, ee.rebaseInMemory head plan ≠ .error (.mergeFailed info)) ∧
    ∀ s newHead, ee.rebaseInMemory head plan = .ok (s, newHead) →
      ∃ y, Follows ee R s y := by
  obtain ⟨hpk, hpr, -⟩ := picks_apply b k hk plan h
  obtain ⟨-, hmerge, -⟩ := plan_kinds b k hk plan h
  have hnomerge : ∀ c ps, .merge c ps ∉ plan.commands := by
    intro c ps hc
    obtain ⟨-, h1⟩ := hmerge c ps hc
    obtain ⟨p, hp⟩ := (commands_moved hk hf h _ hc).2.1 c ps rfl
    exact hm p c hp h1
  have hreset : ∀ p, .reset (.oid p) ∈ plan.commands → ∃ d, ee.commits p = some d ∧ R p d.tree := by
    intro p hp
    obtain ⟨c, h1, h2⟩ := plan_resets_roots hk hf hm h hp
    exact hstay p c h1 h2
  have hinit : Follows ee R (ExecEnv.initialState plan) ⟨plan.firstDestOid, []⟩ := by
    obtain ⟨k', st, h1, h2, h3, h4, h5, h6⟩ := build_ok h
    have hdest := firstDest_reset h4 _ h5
    obtain ⟨d, hd, hR⟩ := hreset plan.firstDestOid (by rw [h6]; exact List.mem_append_left _ hdest)
    refine ⟨by simp [ExecEnv.initialState], ?_, fun l => .inl ⟨rfl, rfl⟩, ?_⟩
    · exact ⟨d, find_original hn (by simp [ExecEnv.initialState]) hd, hR⟩
    · intro c n hc; simp [ExecEnv.initialState] at hc
  have hlead : ∀ pre cmd post, plan.commands = pre ++ cmd :: post →
      Leads ee R (symRun ⟨plan.firstDestOid, []⟩ pre) cmd := by
    intro pre cmd post hs
    have hmem : cmd ∈ plan.commands := by rw [hs]; simp
    cases cmd with
    | pick c l =>
      obtain ⟨h1, h2⟩ := hpk c l hmem
      have hl : l = [c] := by
        rw [h1]; unfold commitsToApply; rw [hf]; rfl
      have hplaced := plan_placed hk hf h ⟨plan.firstDestOid, []⟩ pre c l post hs
      obtain ⟨d, hd, hd1, hd2⟩ := hpick _ _ hplaced
      exact ⟨hl, d, hd, hd1, hd2⟩
    | merge c ps => exact hnomerge c ps hmem
    | skipUpstreamAppliedCommit c => exact hskip c hmem
    | replace c r ps =>
      have := hpr c r ps hmem
      rw [hrep] at this
      simp at this
    | reset t =>
      cases t with
      | label l => trivial
      | oid p => exact hreset p hmem
    | createLabel l => trivial
    | «break» => trivial
    | registerExtraPostRewriteHook => trivial
    | detectEmptyCommit c => trivial
  obtain ⟨h1, h2⟩ := hinit.run hn (head := head) (cmds := plan.commands) hlead
  constructor
  · intro info he
    unfold ExecEnv.rebaseInMemory at he
    have : ExecEnv.findMerge plan.commands = none := by
      unfold ExecEnv.findMerge
      rw [List.findSome?_eq_none_iff]
      intro cmd hcmd
      split
      · rename_i c ps
        exact absurd hcmd (hnomerge c ps)
      · rfl
    rw [this] at he
    simp only at he
    split at he
    · rename_i e he2
      cases he
      exact h1 info he2
    · simp at he
  · intro s newHead hx
    exact ⟨_, h2 s (rebaseInMemory_ok hx).1⟩

theorem Lands.unique {M : Oid → Oid → Prop} {rw : AMap Oid MaybeZero} (hone : ∀ p q c, M p c → M q c → p = q)
    {c q q' : Oid} (h : Lands M rw c q) (h' : Lands M rw c q') : q = q' := by
  induction h with
  | stays c hs =>
    cases h' with
    | stays => rfl
    | new p _ _ hp => exact absurd ⟨p, hp⟩ hs
    | dropped p _ _ hp => exact absurd ⟨p, hp⟩ hs
  | new p c n hp hn =>
    cases h' with
    | stays _ hs => exact absurd ⟨p, hp⟩ hs
    | new _ _ _ _ hn' => rw [hn] at hn'; cases hn'; rfl
    | dropped _ _ _ _ hz => rw [hn] at hz; cases hz
  | dropped p c q hp hz hl ih =>
    cases h' with
    | stays _ hs => exact absurd ⟨p, hp⟩ hs
    | new _ _ _ _ hn => rw [hz] at hn; cases hn
    | dropped p' _ _ hp' _ hl' => exact ih (hone _ _ _ hp hp' ▸ hl')

/-- What the trees are where the commits end, if each tree follows from the tree below. -/
theorem right_lands {ee : ExecEnv} {R : Oid → Nat → Prop} {M : Oid → Oid → Prop} (hn : NoCollisions ee)
    (hone : ∀ p q c, M p c → M q c → p = q)
    {s : ExecState} {y : SymState} (hy : Follows ee R s y) {head newHead : Option Oid}
    (hr : Relocated ee M (fun _ => False) s head newHead)
    (hstay : ∀ p c, M p c → (¬ ∃ q, M q p) → ∃ d, ee.commits p = some d ∧ R p d.tree)
    (hpick : ∀ p c, M p c → ∃ d, ee.commits c = some d ∧ d.parents.length ≤ 1 ∧
      ∀ q x, (ee.commits q = some x ∨ ee.createCommit x = some q) → R p x.tree →
        ∃ t, ee.cherryPickFast c q = .ok t ∧ R c t)
    {c q : Oid} (hl : Lands M s.rewritten c q) (hc : (∃ p, M p c) ∨ ∃ x, M c x) :
    ∃ x, ee.find s.created q = some x ∧ R c x.tree := by
  induction hl with
  | stays c hs =>
    rcases hc with hc | ⟨x, hx⟩
    · exact absurd hc hs
    · obtain ⟨d, hd, hR⟩ := hstay c x hx hs
      exact ⟨d, find_original hn hy.created hd, hR⟩
  | new p c n hpc hc' => exact hy.rewritten c n hc'
  | dropped p c q hpc hz hl ih =>
    obtain ⟨x, hx, hRx⟩ := ih (.inr ⟨c, hpc⟩)
    obtain ⟨q', hq', h1⟩ := hr.moved p c hpc
    have hqq : q = q' := Lands.unique hone hl hq'
    subst hqq
    rcases h1 with ⟨h1, _⟩ | ⟨tree, base, orig, h1, h2, h3, h4⟩
    · exact h1.elim
    · rw [hx] at h2
      cases h2
      obtain ⟨d, hd, -, hd2⟩ := hpick p c hpc
      obtain ⟨t, ht, hRt⟩ := hd2 q x (by
        rcases find_cases hx with h1 | h1
        · exact .inr (hy.created _ h1)
        · exact .inl h1) hRx
      rw [h1] at ht
      cases ht
      split at h4
      · rename_i heq
        exact ⟨x, hx, heq ▸ hRt⟩
      · obtain ⟨n, h5, _⟩ := h4
        rw [hz] at h5
        cases h5

/-- The files of moved commits, for requests which only move commits. -/
theorem moved_files {b : RebasePlanBuilder} (hg : WFGraph b.env.dag.graph) {M : Oid → Oid → Prop}
    {k : Constraints} (hk : b.constraintGraph = .ok k) (hf : k.fixups = [])
    (hmv : ∀ p c, Moves k p c ↔ M p c) (hreg : Regular b.env k) (hrep : b.replacementCommits = [])
    {plan : RebasePlan} (h : b.build = .ok (.ok (some plan))) {ee : ExecEnv} (hn : NoCollisions ee)
    (ha : Agrees b.env.dag.graph ee)
    (hM : ∀ p c, M p c → p ∈ b.env.dag.graph.nodes ∧ ∃ o, b.env.dag.graph.parentsOf c = [o])
    (hnew : ∀ p c, M p c → b.permissions.detectDuplicateCommitsViaPatchId = true →
      ¬ AppliedUpstream b.env.dag.graph b.env.patchId M c)
    {content : Option File → File → File → Option File} (hcm : KeepsModes content) {treeOf : Nat → Tree}
    (ht : FromTrees content treeOf ee) (hplain : ∀ c d, ee.commits c = some d → Plain (treeOf d.tree))
    {files : Oid → TreePath → Option File} (hfiles : FilesMerge content treeOf ee M files) (head : Option Oid) :
    (∀ info, ee.rebaseInMemory head plan ≠ .error (.mergeFailed info)) ∧
    ∀ s newHead, ee.rebaseInMemory head plan = .ok (s, newHead) →
      Relocated ee M (fun _ => False) s head newHead ∧
      ∀ c q, Lands M s.rewritten c q → ((∃ p, M p c) ∨ ∃ x, M c x) →
        ∃ x, ee.find s.created q = some x ∧ ∀ path, fileAt (treeOf x.tree) path = files c path := by
  have hskip : ∀ c, .skipUpstreamAppliedCommit c ∉ plan.commands := by
    intro c hc
    obtain ⟨p, hp⟩ := (commands_moved hk hf h _ hc).2.2 c rfl
    obtain ⟨h1, h2⟩ := skipped_upstream hg hk hf hmv h hc
    exact hnew p c ((hmv p c).1 hp) h1 h2
  have hm : ∀ p c, Moves k p c → ¬ IsMerge b.env c := by
    intro p c hp hmerge
    obtain ⟨-, o, ho⟩ := hM p c ((hmv p c).1 hp)
    have : 1 < (b.env.dag.graph.parentsOf c).length := hmerge
    rw [ho] at this
    simp at this
  let R : Oid → Nat → Prop := fun c t => Plain (treeOf t) ∧ ∀ path, fileAt (treeOf t) path = files c path
  have hstay : ∀ p c, M p c → (¬ ∃ q, M q p) → ∃ d, ee.commits p = some d ∧ R p d.tree := by
    intro p c hp hs
    obtain ⟨d, hd, -⟩ := ha p (hM p c hp).1
    exact ⟨d, hd, hplain p d hd, fun path => (hfiles.stays p c d hp hs hd path).symm⟩
  have hpick : ∀ p c, M p c → ∃ d, ee.commits c = some d ∧ d.parents.length ≤ 1 ∧
      ∀ q x, (ee.commits q = some x ∨ ee.createCommit x = some q) → R p x.tree →
        ∃ t, ee.cherryPickFast c q = .ok t ∧ R c t := by
    intro p c hp
    obtain ⟨-, o, ho⟩ := hM p c hp
    have hpar : IsParent b.env.dag.graph o c := (mem_parentsOf hg).1 (by rw [ho]; simp)
    obtain ⟨d, hd, hdp⟩ := ha c hpar.child_mem
    obtain ⟨base, hbase, -⟩ := ha o (hpar.parent_mem hg)
    rw [ho] at hdp
    refine ⟨d, hd, by rw [hdp]; simp, ?_⟩
    rintro q x hq ⟨hxp, hxf⟩
    have hap := hfiles.apart p c d o base hp hd hdp hbase
    obtain ⟨t, ht1, ht2, ht3⟩ := pick_files hcm (hplain o base hbase) (hplain c d hd) hxp
      (⟨hap.paths, fun a b h1 h2 => by rw [hxf]; exact hap.above a b h1 h2,
        fun a b h1 h2 => by rw [hxf]; exact hap.below a b h1 h2⟩)
      (fun path => by rw [hxf]; exact hfiles.merges p c d o base hp hd hdp hbase path)
    have := ht.picks c d [base] q x hd (by rw [hdp]; exact mapM_one hbase) hq
    simp only [List.map_cons, List.map_nil] at this
    rw [ht1] at this
    obtain ⟨n, h1, h2⟩ := samePick_ok this
    exact ⟨n, h1, h2 ▸ ht2, fun path => by rw [h2]; exact ht3 path⟩
  have hone : ∀ p q c, M p c → M q c → p = q := by
    intro p q c hp hq
    exact hreg.one_parent c p q (hm p c ((hmv p c).2 hp)) ((hmv p c).2 hp) ((hmv q c).2 hq)
  obtain ⟨h1, h2⟩ := right_run hk hf hrep hm h hskip hn (R := R)
    (fun p c hp hs => hstay p c ((hmv p c).1 hp) fun ⟨q, hq⟩ => hs ⟨q, (hmv q p).2 hq⟩)
    (fun p c hp => hpick p c ((hmv p c).1 hp)) head
  refine ⟨h1, ?_⟩
  intro s newHead hx
  obtain ⟨y, hy⟩ := h2 s newHead hx
  have hr : Relocated ee M (fun _ => False) s head newHead := by
    obtain ⟨h3, h4, h5⟩ := moves_rebase_in_memory b M k hk hf hmv hreg hrep plan h ee hn head s newHead hx
    refine ⟨?_, h4, h5⟩
    intro p c hpc
    obtain ⟨q, hq, h6⟩ := h3 p c hpc
    refine ⟨q, hq, ?_⟩
    rcases h6 with ⟨h6, _⟩ | h6
    · exact absurd h6 (hskip c)
    · exact .inr h6
  refine ⟨hr, ?_⟩
  intro c q hl hc
  obtain ⟨x, hx, -, hxf⟩ := right_lands hn hone hy hr hstay hpick hl hc
  exact ⟨x, hx, hxf⟩

/-- Every moved commit ends somewhere. -/
theorem lands_moved {ee : ExecEnv} {M : Oid → Oid → Prop} {s : ExecState} {head newHead : Option Oid}
    (hr : Relocated ee M (fun _ => False) s head newHead) {p c : Oid} (hp : M p c) :
    ∃ q, Lands M s.rewritten c q ∧ (AMap.get? s.rewritten c = some .zero → Lands M s.rewritten p q) := by
  obtain ⟨q, hq, h1⟩ := hr.moved p c hp
  rcases h1 with ⟨h1, _⟩ | ⟨tree, base, orig, h1, h2, h3, h4⟩
  · exact h1.elim
  split at h4
  · exact ⟨q, .dropped p c q hp h4 hq, fun _ => hq⟩
  · obtain ⟨n, h5, _⟩ := h4
    exact ⟨n, .new p c n hp h5, fun hz => by rw [h5] at hz; cases hz⟩

end Verif.Spec

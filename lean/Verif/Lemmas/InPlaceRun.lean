import Verif.Lemmas.InPlace
import Verif.Lemmas.ExecuteTotal

/-! Running plans which make new versions of commits in the places where they are: no files change. -/

namespace Verif.Spec

open Verif Verif.RebasePlanBuilder Verif.Constraints Verif.Props

/-- A plan goes back by their ids only to parents of commits, and to destinations. -/
theorem plan_resets {b : RebasePlanBuilder} {k : Constraints} (hk : b.constraintGraph = .ok k)
    (hf : k.fixups = []) {plan : RebasePlan} (h : b.build = .ok (.ok (some plan))) {p : Oid}
    (hp : .reset (.oid p) ∈ plan.commands) : ∃ c, p ∈ b.env.parentOids c ∨ Moves k p c := by
  have hw := kwf_constraintGraph hk
  obtain ⟨k', st, h1, h2, h3, h4, h5, h6⟩ := build_ok h
  rw [hk] at h1
  cases h1
  have hQ := plan_commands hw (Q := fun cmd => ∀ p, cmd = .reset (.oid p) →
    ∃ c, p ∈ b.env.parentOids c ∨ Moves k p c) ?_ (by simp) (by simp) ?_ h4
  · rw [h6] at hp
    rcases List.mem_append.1 hp with hp | hp
    · exact hQ _ hp p rfl
    · simp at hp
  · intro up cur st cs _ hcur hcs cmd hcmd p hp
    subst hp
    have hfirst : ∀ first rest, commitsToMerge b.env k st.parentLabels cur = some (first :: rest) →
        first = .oid p → ∃ c, p ∈ b.env.parentOids c ∨ Moves k p c := by
      intro first rest hcm hfp
      subst hfp
      have := commitsToMerge_spec hcm
      cases hpo : b.env.parentOids cur with
      | nil => rw [hpo] at this; cases this
      | cons q qs =>
        rw [hpo] at this
        cases this with
        | cons h7 _ =>
          rcases h7 with ⟨_, l, _, h8⟩ | ⟨h7, h8⟩
          · cases h8
          · cases h8
            exact ⟨cur, .inl (by rw [hpo]; simp)⟩
    unfold commandsFor at hcs
    split at hcs
    · cases hcs; simp at hcmd
    split at hcs
    · cases hcm : commitsToMerge b.env k st.parentLabels cur with
      | none => rw [hcm] at hcs; simp at hcs
      | some ps =>
        rw [hcm] at hcs
        simp only at hcs
        split at hcs
        · simp at hcs
        cases ps with
        | nil => simp at hcs
        | cons first rest =>
          simp only at hcs
          split at hcs
          all_goals
            cases hcs
            simp only [List.mem_cons, RebaseCommand.reset.injEq, reduceCtorEq, List.not_mem_nil,
              or_false] at hcmd
            exact hfirst first rest hcm hcmd.symm
    split at hcs
    · cases hcs; simp at hcmd
    split at hcs <;> (cases hcs; simp at hcmd)
  · intro r hr p ps c h7 p' hp'
    cases hp'
    rcases mem_findRoots hr with ⟨q, d, rfl, hq, hmq⟩ | ⟨t, rfl, ht⟩
    · simp only [rootEdge, Except.ok.injEq, Prod.mk.injEq, List.cons.injEq] at h7
      obtain ⟨⟨rfl, _⟩, rfl⟩ := h7
      exact ⟨d, .inr hmq⟩
    · have := ((mem_unconstrainedFixup hw).1 ht).1
      rw [hf] at this
      simp at this

/-- The object has the files of the original commit. -/
def SameFiles (ee : ExecEnv) (created : List (Oid × CommitData)) (o c : Oid) : Prop :=
  ∃ x d, ee.find created o = some x ∧ ee.commits c = some d ∧ x.tree = d.tree

/-- The execution of a plan, compared with its meaning for the original commits. -/
structure Tracks (ee : ExecEnv) (e : ExecState) (y : SymState) : Prop where
  created : ∀ x ∈ e.created, ee.createCommit x.2 = some x.1
  current : SameFiles ee e.created e.current y.current
  labels : ∀ l, (AMap.get? e.labels l = none ∧ AMap.get? y.labels l = none) ∨
    ∃ o c, AMap.get? e.labels l = some o ∧ AMap.get? y.labels l = some c ∧ SameFiles ee e.created o c
  rewritten : ∀ c n, AMap.get? e.rewritten c = some (.nonZero n) → SameFiles ee e.created n c

theorem SameFiles.mono {ee : ExecEnv} (hn : NoCollisions ee) {cr new : List (Oid × CommitData)}
    (hcr : ∀ x ∈ cr, ee.createCommit x.2 = some x.1) (hnew : ∀ x ∈ new, ee.createCommit x.2 = some x.1)
    {o c : Oid} (h : SameFiles ee cr o c) : SameFiles ee (new ++ cr) o c := by
  obtain ⟨x, d, h1, h2, h3⟩ := h
  exact ⟨x, d, find_mono hn hcr hnew h1, h2, h3⟩

theorem find_original {ee : ExecEnv} (hn : NoCollisions ee) {cr : List (Oid × CommitData)}
    (hcr : ∀ x ∈ cr, ee.createCommit x.2 = some x.1) {o : Oid} {d : CommitData}
    (h : ee.commits o = some d) : ee.find cr o = some d := by
  have := find_mono hn (cr := []) (by simp) hcr (o := o) (d := d) h
  rwa [List.append_nil] at this

theorem SameFiles.self {ee : ExecEnv} (hn : NoCollisions ee) {cr : List (Oid × CommitData)}
    (hcr : ∀ x ∈ cr, ee.createCommit x.2 = some x.1) {c : Oid} {d : CommitData}
    (h : ee.commits c = some d) : SameFiles ee cr c c :=
  ⟨d, d, find_original hn hcr h, h, rfl⟩

/-- What is needed of a command. -/
def Harmless (ee : ExecEnv) (y : SymState) : RebaseCommand → Prop
  | .pick c l => l = [c] ∧ ∃ d, ee.commits c = some d ∧ d.parents.length ≤ 1 ∧
      ∀ cr, (∀ x ∈ cr, ee.createCommit x.2 = some x.1) →
        ∀ q, SameFiles ee cr q y.current → ee.cherryPickFast c q = .ok d.tree
  | .merge _ _ | .skipUpstreamAppliedCommit _ => False
  | .replace c r _ => ∃ d rep, ee.commits c = some d ∧ ee.commits r = some rep ∧ rep.tree = d.tree
  | .reset (.oid p) => ∃ d, ee.commits p = some d
  | _ => True

/-- One command: it does not fail because of a merge, and files stay as they were. -/
theorem Tracks.step {ee : ExecEnv} (hn : NoCollisions ee) {head : Option Oid} {e : ExecState} {y : SymState}
    (h : Tracks ee e y) {cmd : RebaseCommand} (hc : Harmless ee y cmd) :
    (∀ info, ee.runCommand head e cmd ≠ .error (.mergeFailed info)) ∧
    ∀ e', ee.runCommand head e cmd = .ok e' → Tracks ee e' (symStep y cmd) := by
  cases cmd with
  | createLabel l =>
    refine ⟨by simp [ExecEnv.runCommand], ?_⟩
    intro e' he
    simp only [ExecEnv.runCommand, Except.ok.injEq] at he
    subst he
    refine ⟨h.created, h.current, ?_, h.rewritten⟩
    intro l'
    by_cases hl : l = l'
    · subst hl
      exact .inr ⟨e.current, y.current, by simp, by simp [symStep], h.current⟩
    · simp only [symStep, AMap.get?_insert, if_neg hl]
      exact h.labels l'
  | reset t =>
    cases t with
    | label l =>
      constructor
      · intro info he
        simp only [ExecEnv.runCommand] at he
        split at he <;> simp at he
      · intro e' he
        simp only [ExecEnv.runCommand] at he
        split at he
        · rename_i o ho
          cases he
          rcases h.labels l with ⟨h1, _⟩ | ⟨o', c, h1, h2, h3⟩
          · rw [ho] at h1; simp at h1
          · rw [ho] at h1
            cases h1
            refine ⟨h.created, ?_, h.labels, h.rewritten⟩
            simp only [symStep, h2, Option.getD_some]
            exact h3
        · simp at he
    | oid p =>
      obtain ⟨d, hd⟩ := hc
      constructor
      · intro info he
        simp only [ExecEnv.runCommand] at he
        split at he <;> simp at he
      · intro e' he
        simp only [ExecEnv.runCommand] at he
        split at he
        · rename_i o ho
          cases he
          exact ⟨h.created, h.rewritten p o ho, h.labels, h.rewritten⟩
        all_goals
          cases he
          exact ⟨h.created, SameFiles.self hn h.created hd, h.labels, h.rewritten⟩
  | pick c l =>
    obtain ⟨rfl, d, hd, hpar, hpick⟩ := hc
    have hp := hpick e.created h.created e.current h.current
    have hfind := find_original hn h.created hd
    obtain ⟨x, dc, hx, hdc, ht⟩ := h.current
    constructor
    · intro info he
      simp only [ExecEnv.runCommand] at he
      unfold ExecEnv.runPick at he
      rw [hx, hfind] at he
      simp only at he
      split at he
      · simp at he
      · rename_i msg _
        simp only [List.foldlM_cons, List.foldlM_nil] at he
        unfold ExecEnv.pickOne at he
        simp only [hfind, Nat.not_lt.2 hpar, if_false, hp] at he
        generalize hcr : ee.createCommit _ = res at he
        cases res with
        | none => simp [bind, Except.bind] at he
        | some o =>
          simp only [bind, Except.bind, pure, Except.pure] at he
          split at he <;> simp at he
    · intro e' he
      have hdone := runPick_done he
      obtain ⟨hl, ⟨new, hnew, hnew'⟩, cur, orig, tree, h1, h2, h3, h4⟩ := hdone
      rw [hx] at h1
      cases h1
      rw [hfind] at h2
      cases h2
      have h3 := h3.one
      rw [hp] at h3
      cases h3
      have hcr : ∀ x ∈ e'.created, ee.createCommit x.2 = some x.1 := by
        rw [hnew]
        intro x hx
        rcases List.mem_append.1 hx with hx | hx
        · exact hnew' x hx
        · exact h.created x hx
      have hmono : ∀ {o c}, SameFiles ee e.created o c → SameFiles ee e'.created o c := by
        intro o c hs
        rw [hnew]
        exact hs.mono hn h.created hnew'
      have hlab : ∀ l, (AMap.get? e'.labels l = none ∧ AMap.get? y.labels l = none) ∨
          ∃ o c, AMap.get? e'.labels l = some o ∧ AMap.get? y.labels l = some c ∧
            SameFiles ee e'.created o c := by
        intro l
        rw [hl]
        rcases h.labels l with h | ⟨o, c, h1, h2, h3⟩
        · exact .inl h
        · exact .inr ⟨o, c, h1, h2, hmono h3⟩
      rcases h4 with ⟨h5, h6, h7, _⟩ | ⟨h5, _, h7, h8⟩
      · refine ⟨hcr, ?_, hlab, ?_⟩
        · rw [h6]
          refine ⟨x, d, ?_, hd, h5.symm⟩
          rw [hnew]
          exact find_mono hn h.created hnew' hx
        · intro c' n hc'
          rw [h7, AMap.get?_insert] at hc'
          split at hc'
          · simp at hc'
          · exact hmono (h.rewritten c' n hc')
      · have hself : SameFiles ee e'.created e'.current c :=
          ⟨_, d, find_created hn hcr h8, hd, rfl⟩
        refine ⟨hcr, hself, hlab, ?_⟩
        intro c' n hc'
        rw [h7] at hc'
        simp only [List.foldl_cons, List.foldl_nil, AMap.get?_insert] at hc'
        by_cases hcc : c = c'
        · subst hcc
          simp only [if_true, Option.some.injEq, MaybeZero.nonZero.injEq] at hc'
          exact hc' ▸ hself
        · simp only [if_neg hcc] at hc'
          exact hmono (h.rewritten c' n hc')
  | merge c ps => exact hc.elim
  | replace c r ps =>
    obtain ⟨d, rep, hd, hrep, ht⟩ := hc
    constructor
    · intro info he
      simp only [ExecEnv.runCommand] at he
      unfold ExecEnv.runReplace at he
      split at he
      · split at he
        · simp at he
        split at he
        · rename_i e1 hm
          have key : ∀ (l : List OidOrLabel) e1, l.mapM (ee.replaceParent e) = .error e1 → e1 = .error := by
            intro l
            induction l with
            | nil => intro e1 h; cases h
            | cons a l ih =>
              intro e1 h
              rw [List.mapM_cons] at h
              cases ha : ee.replaceParent e a with
              | error e2 =>
                rw [ha] at h
                have : e2 = e1 := by simpa [bind, Except.bind] using h
                subst this
                unfold ExecEnv.replaceParent at ha
                simp only at ha
                split at ha
                · simpa using ha.symm
                · split at ha
                  · simpa using ha.symm
                  · simp at ha
              | ok o =>
                rw [ha] at h
                cases hb : l.mapM (ee.replaceParent e) with
                | error e2 =>
                  rw [hb] at h
                  have : e2 = e1 := by simpa [bind, Except.bind] using h
                  exact this ▸ ih e2 hb
                | ok os =>
                  rw [hb] at h
                  simp [bind, Except.bind, pure, Except.pure] at h
          have := key ps e1 hm
          subst this
          simp at he
        · simp only at he
          split at he <;> simp at he
      · simp at he
    · intro e' he
      obtain ⟨os, rep', h1, h2, h3, h4, h5, h6⟩ := runReplace_spec he
      rw [find_original hn h.created hrep] at h2
      cases h2
      obtain ⟨_, _, ⟨new, hnew, hnew'⟩, _, _⟩ := runCommand_frame (cmd := .replace c r ps) (head := head) he
      have hcr : ∀ x ∈ e'.created, ee.createCommit x.2 = some x.1 := by
        rw [hnew]
        intro x hx
        rcases List.mem_append.1 hx with hx | hx
        · exact hnew' x hx
        · exact h.created x hx
      have hmono : ∀ {o c}, SameFiles ee e.created o c → SameFiles ee e'.created o c := by
        intro o c hs
        rw [hnew]
        exact hs.mono hn h.created hnew'
      have hself : SameFiles ee e'.created e'.current c :=
        ⟨_, d, find_created hn hcr h6, hd, ht⟩
      refine ⟨hcr, hself, ?_, ?_⟩
      · intro l
        rw [h5]
        rcases h.labels l with h | ⟨o, c, h1, h2, h3⟩
        · exact .inl h
        · exact .inr ⟨o, c, h1, h2, hmono h3⟩
      · intro c' n hc'
        rw [h3, AMap.get?_insert] at hc'
        split at hc'
        · rename_i hcc
          subst hcc
          simp only [Option.some.injEq, MaybeZero.nonZero.injEq] at hc'
          exact hc' ▸ hself
        · exact hmono (h.rewritten c' n hc')
  | skipUpstreamAppliedCommit c => exact hc.elim
  | «break» => simp [ExecEnv.runCommand]
  | registerExtraPostRewriteHook =>
    refine ⟨by simp [ExecEnv.runCommand], ?_⟩
    intro e' he
    simp only [ExecEnv.runCommand, Except.ok.injEq] at he
    exact he ▸ h
  | detectEmptyCommit c =>
    refine ⟨by simp [ExecEnv.runCommand], ?_⟩
    intro e' he
    simp only [ExecEnv.runCommand, Except.ok.injEq] at he
    exact he ▸ h

/-- A list of commands. -/
theorem Tracks.run {ee : ExecEnv} (hn : NoCollisions ee) {head : Option Oid} {cmds : List RebaseCommand}
    {e : ExecState} {y : SymState} (h : Tracks ee e y)
    (hc : ∀ pre cmd post, cmds = pre ++ cmd :: post → Harmless ee (symRun y pre) cmd) :
    (∀ info, cmds.foldlM (ee.runCommand head) e ≠ .error (.mergeFailed info)) ∧
    ∀ e', Runs ee head cmds e e' → Tracks ee e' (symRun y cmds) := by
  induction cmds generalizing e y with
  | nil =>
    refine ⟨?_, ?_⟩
    · intro info he
      rw [List.foldlM_nil] at he
      cases he
    · intro e' he
      rw [runs_nil] at he
      subst he
      exact h
  | cons c cmds ih =>
    obtain ⟨h1, h2⟩ := h.step hn (head := head) (hc [] c cmds rfl)
    have hc' : ∀ e1, ee.runCommand head e c = .ok e1 →
        ∀ pre cmd post, cmds = pre ++ cmd :: post → Harmless ee (symRun (symStep y c) pre) cmd := by
      intro e1 _ pre cmd post hs
      exact hc (c :: pre) cmd post (by rw [hs]; rfl)
    constructor
    · intro info he
      rw [List.foldlM_cons] at he
      cases hr : ee.runCommand head e c with
      | error e1 =>
        rw [hr] at he
        have : e1 = .mergeFailed info := by simpa [bind, Except.bind] using he
        exact h1 info (by rw [hr, this])
      | ok e1 =>
        rw [hr] at he
        exact (ih (h2 e1 hr) (hc' e1 hr)).1 info he
    · intro e' he
      obtain ⟨e1, hr, hrun⟩ := runs_cons.1 he
      exact (ih (h2 e1 hr) (hc' e1 hr)).2 e' hrun

end Verif.Spec

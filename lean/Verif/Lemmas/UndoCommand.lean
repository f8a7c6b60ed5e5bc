import Verif.Spec.UndoCommand
import Verif.Props.Undo
import Verif.Props.Switch

/-! What the commands of git do which `git undo` runs. -/

namespace Verif.Props

open Verif Verif.Spec

/-- Names are clear for the references of a state. -/
theorem clear_of_refs {env : GitCheckoutEnv} {g : GitState} {s : RefState} (hr : RefsAre g s)
    (h : ClearNames env s) : ClearNames env g.refs.get? := by
  have : g.refs.get? = s := funext hr
  rw [this]
  exact h

/-- How git reads an object id or a branch, followed by the arguments which undo gives. -/
theorem read_undo {t : Text} (ht : ¬ t!"-" <+: t) :
    readCheckoutArgs [t] {} = some { target := some t } ∧
    readCheckoutArgs [t, t!"--detach"] {} = some { target := some t, detach := true } ∧
    ∀ b, readCheckoutArgs [t, t!"-B", b] {} = some { target := some t, resetBranch := some b } := by
  have hne : ∀ y : Text, t!"-" <+: y → t ≠ y := by
    rintro y h rfl
    exact ht h
  have h1 : t ≠ t!"-b" := hne _ (by decide)
  have h1' : t ≠ t!"-B" := hne _ (by decide)
  have h2 : t ≠ t!"--force" := hne _ (by decide)
  have h3 : t ≠ t!"--merge" := hne _ (by decide)
  have h4 : t ≠ t!"--detach" := hne _ (by decide)
  refine ⟨?_, ?_, fun b => ?_⟩
  · simp only [readCheckoutArgs]
    rw [if_neg h2, if_neg h3, if_neg h4, if_neg (fun h => ht h.2), if_neg (by simp)]
  · rw [readCheckoutArgs, if_neg h1, if_neg h1', if_neg h2, if_neg h3, if_neg h4, if_neg (fun h => ht h.2),
      if_neg (by simp), readCheckoutArgs]
    simp
  · rw [readCheckoutArgs, if_neg h1, if_neg h1', if_neg h2, if_neg h3, if_neg h4, if_neg (fun h => ht h.2),
      if_neg (by simp), readCheckoutArgs, if_neg (by decide), if_pos rfl, if_neg (by simp), readCheckoutArgs]

/-- `t` stands for the commit, as far as git is concerned. -/
def StandsFor (env : GitCheckoutEnv) (g : GitState) (t : Text) (o : Oid) : Prop :=
  ¬ t!"-" <+: t ∧ ∀ o', GitMeans env g t o' → o' = o

theorem oid_stands {env : GitCheckoutEnv} {g : GitState} (hc : ClearNames env g.refs.get?) (o : Oid) :
    StandsFor env g o.toText o := by
  refine ⟨dash_oid o, fun o' h => ?_⟩
  generalize ht : o.toText = t at h
  cases h with
  | branch _ h => rw [← ht, hc.hex o] at h; cases h
  | revision _ _ h => rw [← ht] at h; exact hc.oids g o o' h
  | previousBranch => exact absurd (ht ▸ List.prefix_rfl) (dash_oid o)
  | previous => exact absurd (ht ▸ List.prefix_rfl) (dash_oid o)

theorem branch_stands {env : GitCheckoutEnv} {g : GitState} (hc : ClearNames env g.refs.get?) {o : Oid} {b : Text}
    (hb : g.refs.get? (t!"refs/heads/" ++ b) = some o) : StandsFor env g b o := by
  have hd := hc.dash b (by rw [hb]; nofun)
  refine ⟨hd, fun o' h => ?_⟩
  cases h with
  | branch _ h => rw [hb] at h; cases h; rfl
  | revision _ h => rw [hb] at h; cases h
  | previousBranch => exact absurd List.prefix_rfl hd
  | previous => exact absurd List.prefix_rfl hd

theorem resolve_stands {env : GitCheckoutEnv} {g : GitState} {t : Text} {o : Oid} (h : StandsFor env g t o)
    {b : Option Text} {x : Option Oid} (hr : checkoutResolve env g (some t) = some (b, x)) : x = some o := by
  obtain ⟨⟨c, rfl, hm⟩, -⟩ := checkoutResolve_means hr
  rw [h.2 c hm]

theorem run_detach {env : GitCheckoutEnv} {g g' : GitState} {t : Text} {o : Oid} (h : StandsFor env g t o)
    (hr : gitCheckoutRun env g [t, t!"--detach"] = some g') : g' = { g with head := .detached o } := by
  unfold gitCheckoutRun at hr
  rw [(read_undo h.1).2.1] at hr
  simp only [Option.isSome_none, Bool.false_and, Bool.or_false, Bool.false_eq_true, if_false] at hr
  cases hc : checkoutResolve env g (some t) with
  | none => rw [hc] at hr; cases hr
  | some p =>
    obtain ⟨b, x⟩ := p
    rw [hc] at hr
    obtain rfl := resolve_stands h hc
    simp only at hr
    split at hr
    · cases hr
    · simpa using hr.symm

theorem run_plain {env : GitCheckoutEnv} {g g' : GitState} {t : Text} {o : Oid} (h : StandsFor env g t o)
    (hr : gitCheckoutRun env g [t] = some g') : g'.refs = g.refs ∧ g'.headInfo.oid = some o ∧
      ((∀ b, ¬ GitBranch env g t b) → g'.head = .detached o) := by
  unfold gitCheckoutRun at hr
  rw [(read_undo h.1).1] at hr
  simp only [Option.isSome_none, Bool.false_and, Bool.or_false, Bool.false_eq_true, if_false] at hr
  cases hc : checkoutResolve env g (some t) with
  | none => rw [hc] at hr; cases hr
  | some p =>
    obtain ⟨b, x⟩ := p
    rw [hc] at hr
    have hx := resolve_stands h hc
    subst hx
    simp only at hr
    split at hr
    · cases hr
    · obtain ⟨-, hm2, hm3⟩ := checkoutResolve_means hc
      cases b with
      | none =>
        simp only [Option.some.injEq] at hr
        subst hr
        exact ⟨rfl, rfl, fun _ => rfl⟩
      | some name =>
        simp only [Option.some.injEq] at hr
        subst hr
        obtain ⟨x, rfl, hb⟩ := hm2 name rfl
        refine ⟨rfl, ?_, fun h => absurd hb (h x)⟩
        have ho : g.refs.get? (t!"refs/heads/" ++ x) = some o := by
          obtain ⟨h1, ⟨h2, rfl⟩ | ⟨rfl, h3⟩⟩ := hb
          · obtain ⟨y, hy⟩ := Option.isSome_iff_exists.1 h1
            rw [hy, h.2 y (.branch h2 hy)]
          · exact absurd List.prefix_rfl h.1
        exact ho

theorem run_reset {env : GitCheckoutEnv} {g g' : GitState} {t b : Text} {o : Oid} (h : StandsFor env g t o)
    (hr : gitCheckoutRun env g [t, t!"-B", b] = some g') :
    createReference g.refs (t!"refs/heads/" ++ b) o = .ok g'.refs ∧ g'.head = .symbolic (t!"refs/heads/" ++ b) := by
  unfold gitCheckoutRun at hr
  rw [(read_undo h.1).2.2] at hr
  simp only [Option.isSome_none, Bool.false_and, Bool.or_false, Bool.false_eq_true, if_false, Bool.and_false] at hr
  cases hc : checkoutResolve env g (some t) with
  | none => rw [hc] at hr; cases hr
  | some p =>
    obtain ⟨x, y⟩ := p
    rw [hc] at hr
    have hy := resolve_stands h hc
    subst hy
    simp only at hr
    split at hr
    · cases hr
    · split at hr
      · cases hr
      · split at hr
        · cases hr
        · rename_i refs hcr
          cases hr
          exact ⟨hcr, rfl⟩

/-- An object id is checked out detached. -/
theorem run_oid {env : GitCheckoutEnv} {g g' : GitState} {o : Oid} (hc : ClearNames env g.refs.get?)
    (hr : gitCheckoutRun env g [o.toText] = some g') : g' = { g with head := .detached o } := by
  obtain ⟨h1, -, h2⟩ := run_plain (oid_stands hc o) hr
  have h3 : ∀ b, ¬ GitBranch env g o.toText b := by
    rintro b ⟨h, ⟨-, rfl⟩ | ⟨h4, -⟩⟩
    · rw [hc.hex o] at h; cases h
    · exact absurd (h4 ▸ List.prefix_rfl) (dash_oid o)
  obtain ⟨refs, head⟩ := g'
  simp only at h1 h2 ⊢
  rw [h1, h2 h3]

/-- What `check_out_commit` asks git to check out stands for the commit. -/
theorem checkOutAny_stands {env : AnyCheckoutEnv} {g : GitState} (hw : AMap.WF g.refs)
    (hc : ClearNames env.git g.refs.get?) {o : Oid} {extra : List Text} {r : CheckedOut}
    (h : checkOutAny env g (some (.oid o)) extra = .ok r) :
    ∃ t, StandsFor env.git g t o ∧ r = runCheckout env.git g (t :: extra) := by
  unfold checkOutAny at h
  simp only at h
  cases ha : env.autoSwitch with
  | false =>
    rw [ha] at h
    simp only [Bool.false_eq_true, if_false, Option.toList_some, List.singleton_append, Except.ok.injEq] at h
    exact ⟨_, oid_stands hc o, h.symm⟩
  | true =>
    rw [ha, if_pos rfl] at h
    cases hm : g.refs.get? env.mainBranch with
    | none =>
      unfold branchNameFor at h
      rw [hm] at h
      cases h
    | some m =>
      rcases branchNameFor_cases hw (env := env) (by rw [hm]; rfl) (some o.toText) (some o) with
        ⟨o', b, h1, h2, ⟨h3, -⟩ | ⟨-, h4, -⟩⟩ | ⟨h1, -⟩
      · cases h3
      · cases h4
        rw [h2] at h
        simp only [Option.toList_some, List.singleton_append, Except.ok.injEq] at h
        exact ⟨b, branch_stands hc h1.1, h.symm⟩
      · rw [h1] at h
        simp only [Option.toList_some, List.singleton_append, Except.ok.injEq] at h
        exact ⟨_, oid_stands hc o, h.symm⟩

theorem runCheckout_ok {env : GitCheckoutEnv} {g : GitState} {args : List Text}
    (h : (runCheckout env g args).ok = true) : gitCheckoutRun env g args = some (runCheckout env g args).git := by
  unfold runCheckout at h ⊢
  cases hr : gitCheckoutRun env g args with
  | none => rw [hr] at h; cases h
  | some g' => rfl

theorem applyInverses_wf {w w' : UndoWorld} {es : List Event} (h : applyInverses w es = .ok w')
    (hw : AMap.WF w.refs) : AMap.WF w'.refs := by
  induction es generalizing w with
  | nil =>
    cases h
    exact hw
  | cons e es ih =>
    rw [applyInverses] at h
    cases ha : applyInverse w e with
    | error x => rw [ha] at h; cases h
    | ok w1 =>
      rw [ha] at h
      refine ih h ?_
      unfold applyInverse at ha
      split at ha
      · cases ha; exact hw
      · split at ha
        · cases ha; exact AMap.wf_erase hw _
        · cases ha; exact hw
      · unfold createReference at ha
        split at ha
        · cases ha
        · rename_i hcr
          split at hcr
          · cases hcr
          · cases hcr
            cases ha
            exact AMap.wf_insert hw _ _
      · cases ha; exact hw
      · cases ha; exact hw

end Verif.Props

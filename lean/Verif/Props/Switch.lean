import Verif.Spec.Switch
import Verif.Props.Navigate
import Verif.Props.Revset
import Verif.Lemmas.MoveExact

/-! C91: where `git switch` goes, and what it asks git to check out. -/

namespace Verif.Props

open Verif Verif.Spec

/-! ### the only branch -/

theorem namesAt_one {g : GitState} (hw : AMap.WF g.refs) {o : Oid} {name : Text} :
    namesAt g.refs o = [name] ↔
      ∃ b, name = t!"refs/heads/" ++ b ∧ OnlyBranch g o b := by
  have hnd := nodup_namesAt hw o
  have hmem : ∀ x, x ∈ namesAt g.refs o ↔ IsBranch x ∧ g.refs.get? x = some o := fun x => mem_namesAt hw
  constructor
  · intro h
    rw [h] at hmem
    obtain ⟨⟨b, rfl⟩, h2⟩ := (hmem name).1 (by simp)
    refine ⟨b, rfl, h2, fun x hx ho => ?_⟩
    simpa using (hmem x).2 ⟨hx, ho⟩
  · rintro ⟨b, rfl, h1, h2⟩
    have hm : ∀ x, x ∈ namesAt g.refs o ↔ x = t!"refs/heads/" ++ b := by
      intro x
      rw [hmem]
      constructor
      · rintro ⟨a, c⟩; exact h2 x a c
      · rintro rfl; exact ⟨⟨b, rfl⟩, h1⟩
    generalize namesAt g.refs o = l at hm hnd
    match l, hm, hnd with
    | [], hm, _ => simpa using hm (t!"refs/heads/" ++ b)
    | [x], hm, _ => rw [(hm x).1 (by simp)]
    | x :: y :: rest, hm, hnd =>
      rw [(hm x).1 (by simp), (hm y).1 (by simp)] at hnd
      simp at hnd

theorem suffix_of_branch (b : Text) : (categorize (t!"refs/heads/" ++ b)).renderSuffix = b :=
  List.append_cancel_left (branch_suffix ⟨b, rfl⟩)

/-- What becomes of the target, in all cases. -/
theorem branchNameFor_cases {env : AnyCheckoutEnv} {g : GitState} (hw : AMap.WF g.refs)
    (hm : (g.refs.get? env.mainBranch).isSome) (target : Option Text) (oid : Option Oid) :
    (∃ o b, OnlyBranch g o b ∧ branchNameFor env g target oid = .ok (some b) ∧
      ((target = none ∧ g.headInfo.oid = some o) ∨
        (target.isSome ∧ oid = some o ∧ g.headInfo.oid ≠ some o ∧ target ≠ g.headInfo.oid.map Oid.toText))) ∨
    (branchNameFor env g target oid = .ok target ∧
      ((target = none ∧ ∀ o b, g.headInfo.oid = some o → ¬ OnlyBranch g o b) ∨
       (target.isSome ∧ (g.headInfo.oid = oid ∧ oid.isSome ∨ target = g.headInfo.oid.map Oid.toText ∨
          ∀ o b, oid = some o → ¬ OnlyBranch g o b)))) := by
  obtain ⟨m, hm⟩ := Option.isSome_iff_exists.1 hm
  have hone : ∀ o, (∃ b, OnlyBranch g o b ∧ (match namesAt g.refs o with
        | [name] => (.ok (some (categorize name).renderSuffix) : Except Unit (Option Text))
        | _ => .ok target) = .ok (some b)) ∨
      ((∀ b, ¬ OnlyBranch g o b) ∧ (match namesAt g.refs o with
        | [name] => (.ok (some (categorize name).renderSuffix) : Except Unit (Option Text))
        | _ => .ok target) = .ok target) := by
    intro o
    split
    · rename_i name hn
      obtain ⟨b, rfl, hb⟩ := (namesAt_one hw).1 hn
      exact .inl ⟨b, hb, by rw [suffix_of_branch]⟩
    · rename_i hno
      exact .inr ⟨fun b hb => hno _ ((namesAt_one hw).2 ⟨b, rfl, hb⟩), rfl⟩
  unfold branchNameFor
  rw [hm]
  simp only
  cases target with
  | none =>
    rw [if_neg (by simp)]
    cases hh : g.headInfo.oid with
    | none => exact .inr ⟨rfl, .inl ⟨rfl, by simp⟩⟩
    | some o =>
      rcases hone o with ⟨b, h1, h2⟩ | ⟨h1, h2⟩
      · exact .inl ⟨o, b, h1, h2, .inl ⟨rfl, rfl⟩⟩
      · refine .inr ⟨h2, .inl ⟨rfl, ?_⟩⟩
        intro o' b h
        cases h
        exact h1 b
  | some t =>
    by_cases hc : (g.headInfo.oid.isSome ∧ g.headInfo.oid = oid) ∨ some t = g.headInfo.oid.map Oid.toText
    · rw [if_pos ⟨rfl, hc⟩]
      refine .inr ⟨rfl, .inr ⟨rfl, ?_⟩⟩
      rcases hc with ⟨h1, h2⟩ | h
      · exact .inl ⟨h2, h2 ▸ h1⟩
      · exact .inr (.inl h)
    · rw [if_neg (by simpa using hc)]
      cases oid with
      | none => exact .inr ⟨rfl, .inr ⟨rfl, .inr (.inr (by simp))⟩⟩
      | some o =>
        rcases hone o with ⟨b, h1, h2⟩ | ⟨h1, h2⟩
        · refine .inl ⟨o, b, h1, h2, .inr ⟨rfl, rfl, fun h => hc (.inl ⟨by simp [h], h⟩), fun h => hc (.inr h)⟩⟩
        · refine .inr ⟨h2, .inr ⟨rfl, .inr (.inr ?_)⟩⟩
          intro o' b h
          cases h
          exact h1 b

/-! ### the command line -/

theorem read_switchArgs (t : Option Text) (ht : ∀ x, t = some x → x = t!"-" ∨ ¬ t!"-" <+: x)
    (options : SwitchOptions) :
    readCheckoutArgs (t.toList ++ switchArgs options) {} =
      some ⟨t, options.branchName, options.force, options.merge, options.detach, none⟩ := by
  have hopt : ∀ a : CheckoutArgs, a.newBranch = none → a.force = false → a.merge = false → a.detach = false → a.resetBranch = none →
      readCheckoutArgs (switchArgs options) a =
        some ⟨a.target, options.branchName, options.force, options.merge, options.detach, none⟩ := by
    rintro ⟨a1, a2, a3, a4, a5, a6⟩ rfl rfl rfl rfl rfl
    obtain ⟨i, b, f, m, d, tg⟩ := options
    unfold switchArgs
    cases b <;> cases f <;> cases m <;> cases d <;> simp [readCheckoutArgs]
  cases t with
  | none => exact hopt {} rfl rfl rfl rfl rfl
  | some x =>
    have hx := ht x rfl
    have hne : ∀ y : Text, y ≠ t!"-" → t!"-" <+: y → x ≠ y := by
      rintro y h1 h2 rfl
      rcases hx with h | h
      · exact h1 h
      · exact h h2
    have h1 : x ≠ t!"-b" := hne _ (by decide) (by decide)
    have h1' : x ≠ t!"-B" := hne _ (by decide) (by decide)
    have h2 : x ≠ t!"--force" := hne _ (by decide) (by decide)
    have h3 : x ≠ t!"--merge" := hne _ (by decide) (by decide)
    have h4 : x ≠ t!"--detach" := hne _ (by decide) (by decide)
    have h5 : ¬ (x ≠ t!"-" ∧ t!"-" <+: x) := by
      rintro ⟨a, b⟩
      rcases hx with h | h
      · exact a h
      · exact h b
    have key := hopt { target := some x } rfl rfl rfl rfl rfl
    show readCheckoutArgs (x :: switchArgs options) {} = _
    cases hs : switchArgs options with
    | nil =>
      rw [hs] at key
      rw [readCheckoutArgs, if_neg h2, if_neg h3, if_neg h4, if_neg h5, if_neg (by simp)]
      rw [readCheckoutArgs] at key
      exact key
    | cons y rest =>
      rw [hs] at key
      rw [readCheckoutArgs, if_neg h1, if_neg h1', if_neg h2, if_neg h3, if_neg h4, if_neg h5, if_neg (by simp)]
      exact key

theorem switchArgs_flags (options : SwitchOptions) : switchArgs options = switchFlags options := by
  obtain ⟨i, b, f, m, d, t⟩ := options
  cases b <;> cases f <;> cases m <;> cases d <;> rfl

/-! ### the target -/

theorem resolveOne_complete {env : RevsetEnv} {d : Dag} {mb : Text} {log : List Event}
    (hr : env.replayer = Replayer.fromEvents mb log) (hg : WFGraph d.graph) {s : Text} {S : Oid → Prop}
    (h : Resolves env d s S) :
    ∃ N, ∀ fuel, N ≤ fuel → ∃ l, resolveOne env fuel d s = .ok l ∧ S = fun o => o ∈ l := by
  cases h with
  | commit h => exact ⟨0, fun fuel _ => ⟨_, by rw [resolveOne, h], by simp⟩⟩
  | value h h1 h2 h3 =>
    obtain ⟨N, hN⟩ := eval_complete hr h3 hg
    refine ⟨N, fun fuel hf => ?_⟩
    obtain ⟨l, h4, h5⟩ := hN fuel hf
    refine ⟨l, ?_, h5⟩
    rw [resolveOne, h]
    simp only [(parse_exact _ _).2 ⟨_, h1, h2⟩, h4]
    rfl

theorem resolveCommits_one {env : RevsetEnv} {fuel : Nat} {d : Dag} {t : Text} {sets : List (List Oid)} :
    resolveCommits env fuel d false [t] = .ok sets ↔ ∃ l, resolveOne env fuel d t = .ok l ∧ sets = [l] := by
  unfold resolveCommits
  rw [if_neg (by simp), List.mapM_cons]
  cases h : resolveOne env fuel d t with
  | error e => simp [bind, Except.bind]
  | ok l =>
    show Except.ok [l] = Except.ok sets ↔ _
    simp [eq_comm]

section
variable {env : SwitchEnv} {graph : CommitGraph Oid} {w : RepoWorld} {es : List Event} {r : Replayer} {d : Dag}
  {smartlog : List Oid}

theorem _root_.Verif.Spec.SwitchSetting.graph_eq (hs : SwitchSetting env graph w es r d smartlog) : d.graph = graph :=
  (graph_opened hs.he hs.opened).1

theorem _root_.Verif.Spec.SwitchSetting.main (hs : SwitchSetting env graph w es r d smartlog) :
    (w.git.refs.get? env.checkout.mainBranch).isSome := by
  have h := hs.opened
  unfold openRepoDag GitState.referencesSnapshot at h
  cases hm : w.git.refs.get? env.checkout.mainBranch with
  | none => rw [hm] at h; simp at h
  | some m => rfl

/-- The heads which are counted are the heads of the set. -/
theorem switchHeads_mem (hs : SwitchSetting env graph w es r d smartlog) {t : Text} {l : List Oid}
    (hr : Resolves env.revset d t (fun o => o ∈ l)) :
    (switchHeads env d [l]).Nodup ∧ ∀ c, c ∈ switchHeads env d [l] ↔ HeadOf d.graph (fun o => o ∈ l) c := by
  have hg : WFGraph d.graph := hs.graph_eq ▸ hs.hg
  unfold switchHeads sortedCommitSet
  have hp := hs.sorting (commitCompare d env.nav.time)
    ((env.nav.toVec (d.graph.heads [l].flatten)).filter env.nav.existing)
  constructor
  · exact hp.nodup_iff.2 ((hs.toVec _).1.filter _)
  · intro c
    rw [hp.mem_iff, List.mem_filter, (hs.toVec _).2, mem_heads hg]
    simp only [List.flatten_cons, List.flatten_nil, List.append_nil]
    exact ⟨fun h => h.1, fun h => ⟨h, hs.existing t _ hr c h.1⟩⟩

theorem resolves_of_ok (hs : SwitchSetting env graph w es r d smartlog) {t : Text} {l : List Oid} {fuel : Nat}
    (h : resolveOne env.revset fuel d t = .ok l) : Resolves env.revset d t (fun o => o ∈ l) := by
  have := (resolve_exact hs.replayer (hs.graph_eq ▸ hs.hg) false [t] [fun o => o ∈ l]).1
    ⟨fuel, [l], resolveCommits_one.2 ⟨l, h, rfl⟩, rfl⟩
  rw [if_neg (by simp)] at this
  cases this with
  | cons h _ => exact h

/-- What the target means, before looking for branches. -/
inductive Aim (env : SwitchEnv) (d : Dag) (smartlog : List Oid) (options : SwitchOptions) :
    Option AnyTarget → Prop
  | here : options.interactive = false → options.target = none → Aim env d smartlog options none
  | revision {t o} : options.interactive = false → options.target = some t → env.revset.revparse t = some o →
      Aim env d smartlog options (some (.unknown t))
  | revset {t S o} : options.interactive = false → options.target = some t → env.revset.revparse t = none →
      Resolves env.revset d t S → (∀ c, HeadOf d.graph S c ↔ c = o) →
      Aim env d smartlog options (some (.unknown o.toText))
  | selected {o} : options.interactive = true → env.select (options.target.getD []) smartlog = .ok (some o) →
      Aim env d smartlog options (some (.oid o))

theorem nodup_one {l : List Oid} {o : Oid} (hn : l.Nodup) (h : ∀ c, c ∈ l ↔ c = o) : l = [o] := by
  match l, hn, h with
  | [], _, h => exact absurd ((h o).2 rfl) (by simp)
  | [x], _, h => rw [(h x).1 (by simp)]
  | x :: y :: rest, hn, h =>
    rw [(h x).1 (by simp), (h y).1 (by simp)] at hn
    simp at hn

theorem switchTarget_aim (hs : SwitchSetting env graph w es r d smartlog) {options : SwitchOptions}
    {target : Option AnyTarget} (h : switchTarget env d smartlog options = .ok target) :
    Aim env d smartlog options target := by
  unfold switchTarget at h
  cases hi : options.interactive with
  | true =>
    rw [hi, if_pos rfl] at h
    split at h
    · cases h
    · cases h
    · rename_i o ho
      cases h
      exact .selected hi ho
  | false =>
    rw [hi, if_neg (by simp)] at h
    cases ht : options.target with
    | none => rw [ht] at h; cases h; exact .here hi ht
    | some t =>
      rw [ht] at h
      simp only at h
      cases hp : env.revset.revparse t with
      | some o => rw [hp] at h; cases h; exact .revision hi ht hp
      | none =>
        rw [hp] at h
        simp only at h
        cases hr : resolveCommits env.revset env.fuel d false [t] with
        | error e => rw [hr] at h; cases h
        | ok sets =>
          rw [hr] at h
          simp only at h
          obtain ⟨l, hl, rfl⟩ := resolveCommits_one.1 hr
          have hres := resolves_of_ok hs hl
          obtain ⟨-, hm⟩ := switchHeads_mem hs hres
          split at h
          · rename_i o ho
            cases h
            refine .revset hi ht hp hres fun c => ?_
            rw [← hm, ho, List.mem_singleton]
          · cases h

theorem aim_switchTarget (hs : SwitchSetting env graph w es r d smartlog) {options : SwitchOptions}
    {target : Option AnyTarget} (h : Aim env d smartlog options target) :
    ∃ N, ∀ fuel, N ≤ fuel → switchTarget { env with fuel } d smartlog options = .ok target := by
  unfold switchTarget
  cases h with
  | here hi ht => exact ⟨0, fun fuel _ => by rw [hi, if_neg (by simp), ht]⟩
  | revision hi ht hp => exact ⟨0, fun fuel _ => by rw [hi, if_neg (by simp), ht]; simp [hp]⟩
  | selected hi ho => exact ⟨0, fun fuel _ => by rw [hi, if_pos rfl]; simp [ho]⟩
  | @revset t S o hi ht hp hres hone =>
    obtain ⟨N, hN⟩ := resolveOne_complete hs.replayer (hs.graph_eq ▸ hs.hg) hres
    refine ⟨N, fun fuel hf => ?_⟩
    obtain ⟨l, hl, rfl⟩ := hN fuel hf
    obtain ⟨hn, hm⟩ := switchHeads_mem hs hres
    have : switchHeads { env with fuel } d [l] = [o] :=
      nodup_one hn fun c => (hm c).trans (hone c)
    rw [hi, if_neg (by simp), ht]
    simp only [hp, resolveCommits_one.2 ⟨l, hl, rfl⟩, this]

/-- What git is told, for each kind of target. -/
theorem checkOutAny_ran (hs : SwitchSetting env graph w es r d smartlog) {options : SwitchOptions}
    {target : Option AnyTarget} (ha : Aim env d smartlog options target) (extra : List Text) :
    ∃ t dest res, SwitchTo env d w.git smartlog options t dest ∧
      checkOutAny env.checkout w.git target extra = .ok res ∧ res.ran = t!"checkout" :: (t.toList ++ extra) ∧
      (res.ok = true → gitCheckoutRun env.checkout.git w.git (t.toList ++ extra) = some res.git) ∧
      (res.ok = false → gitCheckoutRun env.checkout.git w.git (t.toList ++ extra) = none ∧ res.git = w.git) := by
  have key : ∀ t, ∃ res : CheckedOut,
      (.ok (runCheckout env.checkout.git w.git (t ++ extra)) : Except Unit CheckedOut) = .ok res ∧
      res.ran = t!"checkout" :: (t ++ extra) ∧
      (res.ok = true → gitCheckoutRun env.checkout.git w.git (t ++ extra) = some res.git) ∧
      (res.ok = false → gitCheckoutRun env.checkout.git w.git (t ++ extra) = none ∧ res.git = w.git) := by
    intro t
    refine ⟨_, rfl, ?_⟩
    unfold runCheckout
    cases gitCheckoutRun env.checkout.git w.git (t ++ extra) with
    | none => exact ⟨rfl, nofun, fun _ => ⟨rfl, rfl⟩⟩
    | some g => exact ⟨rfl, fun _ => rfl, nofun⟩
  have hbr := branchNameFor_cases hs.hw hs.main
  unfold checkOutAny
  cases ha with
  | here hi ht =>
    simp only
    cases hauto : env.checkout.autoSwitch with
    | false =>
      obtain ⟨res, h⟩ := key []
      exact ⟨none, _, res, .stay hi ht (.inl hauto), h⟩
    | true =>
      rcases hbr none none with ⟨o, b, h1, h2, h3⟩ | ⟨h1, h2⟩
      · obtain ⟨res, h⟩ := key [b]
        have hh : w.git.headInfo.oid = some o := by
          rcases h3 with h | h
          · exact h.2
          · simp at h
        exact ⟨some b, _, res, .ontoBranch hi ht hauto hh h1, by simpa [h2] using h⟩
      · obtain ⟨res, h⟩ := key []
        have hh : ∀ o b, w.git.headInfo.oid = some o → ¬ OnlyBranch w.git o b := by
          rcases h2 with h | h
          · exact h.2
          · simp at h
        exact ⟨none, _, res, .stay hi ht (.inr hh), by simpa [h1] using h⟩
  | @revision t o hi ht hp =>
    obtain ⟨res, h⟩ := key [t]
    refine ⟨some t, _, res, .revision hi ht hp, ?_⟩
    simp only
    cases hauto : env.checkout.autoSwitch with
    | false => exact h
    | true =>
      rcases hbr (some t) none with ⟨o, b, h1, h2, h3⟩ | ⟨h1, h2⟩
      · simp at h3
      · simpa [h1] using h
  | @revset t S o hi ht hp hres hone =>
    obtain ⟨res, h⟩ := key [o.toText]
    refine ⟨some o.toText, _, res, .revset hi ht hp hres hone, ?_⟩
    simp only
    cases hauto : env.checkout.autoSwitch with
    | false => exact h
    | true =>
      rcases hbr (some o.toText) none with ⟨o', b, h1, h2, h3⟩ | ⟨h1, h2⟩
      · simp at h3
      · simpa [h1] using h
  | @selected o hi ho =>
    simp only
    cases hauto : env.checkout.autoSwitch with
    | false =>
      obtain ⟨res, h⟩ := key [o.toText]
      exact ⟨some o.toText, _, res, .selected hi ho (.inl hauto), h⟩
    | true =>
      rcases hbr (some o.toText) (some o) with ⟨o', b, h1, h2, h3⟩ | ⟨h1, h2⟩
      · obtain ⟨res, h⟩ := key [b]
        have hh : o = o' ∧ w.git.headInfo.oid ≠ some o' := by
          rcases h3 with h | ⟨_, h, h', _⟩
          · simp at h
          · exact ⟨by simpa using h, h'⟩
        obtain ⟨rfl, hh⟩ := hh
        exact ⟨some b, _, res, .selectedBranch hi ho hauto hh h1, by simpa [h2] using h⟩
      · obtain ⟨res, h⟩ := key [o.toText]
        have hh : w.git.headInfo.oid = some o ∨ ∀ b, ¬ OnlyBranch w.git o b := by
          rcases h2 with h | ⟨_, h | h | h⟩
          · simp at h
          · exact .inl h.1
          · cases hhd : w.git.headInfo.oid with
            | none => rw [hhd] at h; simp at h
            | some o' =>
              rw [hhd] at h
              simp only [Option.map_some, Option.some.injEq] at h
              exact .inl (by rw [Oid.toText_injective h])
          · exact .inr fun b => h o b rfl
        exact ⟨some o.toText, _, res, .selected hi ho (.inr hh), by simpa [h1] using h⟩

/-- How the command runs, given what is aimed at. -/
theorem switch_of_aim (hs : SwitchSetting env graph w es r d smartlog) {options : SwitchOptions}
    {target : Option AnyTarget} (ht : switchTarget env d smartlog options = .ok target) :
    ∃ t dest, SwitchTo env d w.git smartlog options t dest ∧
      (switch env graph w options).ran = some (t!"checkout" :: (t.toList ++ switchFlags options)) ∧
      ((∃ g, (switch env graph w options).git = g ∧ (switch env graph w options).outcome = .done ∧
        gitCheckoutRun env.checkout.git w.git (t.toList ++ switchArgs options) = some g) ∨
       ((switch env graph w options).git = w.git ∧ (switch env graph w options).outcome = .checkoutFailed ∧
        gitCheckoutRun env.checkout.git w.git (t.toList ++ switchArgs options) = none)) := by
  obtain ⟨t, dest, res, h1, h2, h3, h4, h5⟩ := checkOutAny_ran hs (switchTarget_aim hs ht) (switchArgs options)
  refine ⟨t, dest, h1, ?_⟩
  have hsw : switch env graph w options =
      ⟨res.git, some res.ran, if res.ok then .done else .checkoutFailed⟩ := by
    unfold switch
    simp only [hs.opened, hs.smartlog, ht, h2]
  rw [hsw]
  refine ⟨by rw [h3, switchArgs_flags], ?_⟩
  cases hok : res.ok with
  | true => exact .inl ⟨_, rfl, rfl, h4 hok⟩
  | false => exact .inr ⟨(h5 hok).2, rfl, (h5 hok).1⟩

/-- The target of git, and the commit, are determined. -/
theorem switchTo_unique (hs : SwitchSetting env graph w es r d smartlog) {options : SwitchOptions}
    {t t' : Option Text} {dest dest' : Option Oid} (h : SwitchTo env d w.git smartlog options t dest)
    (h' : SwitchTo env d w.git smartlog options t' dest') : t = t' ∧ dest = dest' := by
  have hb : ∀ {o b b'}, OnlyBranch w.git o b → OnlyBranch w.git o b' → b = b' := fun h1 h2 =>
    List.append_cancel_left (h2.2 _ ⟨_, rfl⟩ h1.1)
  have hset : ∀ {t S S'}, Resolves env.revset d t S → Resolves env.revset d t S' → S = S' := by
    intro t S S' h1 h2
    obtain ⟨N, h1⟩ := resolveOne_complete hs.replayer (hs.graph_eq ▸ hs.hg) h1
    obtain ⟨M, h2⟩ := resolveOne_complete hs.replayer (hs.graph_eq ▸ hs.hg) h2
    obtain ⟨l, h3, rfl⟩ := h1 (max N M) (by omega)
    obtain ⟨l', h4, rfl⟩ := h2 (max N M) (by omega)
    rw [h3] at h4
    cases h4
    rfl
  cases h with
  | stay i1 i2 i3 =>
    cases h' with
    | stay => exact ⟨rfl, rfl⟩
    | @ontoBranch o b j1 j2 j3 j4 j5 =>
      rcases i3 with h | h
      · rw [j3] at h; cases h
      · exact absurd j5 (h o b j4)
    | revision j1 j2 => rw [i2] at j2; cases j2
    | revset j1 j2 => rw [i2] at j2; cases j2
    | selected j1 => rw [i1] at j1; cases j1
    | selectedBranch j1 => rw [i1] at j1; cases j1
  | @ontoBranch o b i1 i2 i3 i4 i5 =>
    cases h' with
    | stay j1 j2 j3 =>
      rcases j3 with h | h
      · rw [i3] at h; cases h
      · exact absurd i5 (h o b i4)
    | @ontoBranch o' b' j1 j2 j3 j4 j5 =>
      rw [i4] at j4
      cases j4
      exact ⟨by rw [hb i5 j5], rfl⟩
    | revision j1 j2 => rw [i2] at j2; cases j2
    | revset j1 j2 => rw [i2] at j2; cases j2
    | selected j1 => rw [i1] at j1; cases j1
    | selectedBranch j1 => rw [i1] at j1; cases j1
  | revision i1 i2 i3 =>
    cases h' with
    | stay j1 j2 => rw [i2] at j2; cases j2
    | ontoBranch j1 j2 => rw [i2] at j2; cases j2
    | revision j1 j2 j3 =>
      rw [i2] at j2; cases j2
      rw [i3] at j3; cases j3
      exact ⟨rfl, rfl⟩
    | revset j1 j2 j3 =>
      rw [i2] at j2; cases j2
      rw [i3] at j3; cases j3
    | selected j1 => rw [i1] at j1; cases j1
    | selectedBranch j1 => rw [i1] at j1; cases j1
  | @revset t S o i1 i2 i3 i4 i5 =>
    cases h' with
    | stay j1 j2 => rw [i2] at j2; cases j2
    | ontoBranch j1 j2 => rw [i2] at j2; cases j2
    | revision j1 j2 j3 =>
      rw [i2] at j2; cases j2
      rw [i3] at j3; cases j3
    | @revset t' S' o' j1 j2 j3 j4 j5 =>
      rw [i2] at j2; cases j2
      cases hset i4 j4
      have := (j5 o).1 ((i5 o).2 rfl)
      subst this
      exact ⟨rfl, rfl⟩
    | selected j1 => rw [i1] at j1; cases j1
    | selectedBranch j1 => rw [i1] at j1; cases j1
  | @selected o i1 i2 i3 =>
    cases h' with
    | stay j1 => rw [i1] at j1; cases j1
    | ontoBranch j1 => rw [i1] at j1; cases j1
    | revision j1 => rw [i1] at j1; cases j1
    | revset j1 => rw [i1] at j1; cases j1
    | selected j1 j2 =>
      rw [i2] at j2; cases j2
      exact ⟨rfl, rfl⟩
    | @selectedBranch o' b j1 j2 j3 j4 j5 =>
      rw [i2] at j2; cases j2
      rcases i3 with h | h | h
      · rw [j3] at h; cases h
      · exact absurd h j4
      · exact absurd j5 (h b)
  | @selectedBranch o b i1 i2 i3 i4 i5 =>
    cases h' with
    | stay j1 => rw [i1] at j1; cases j1
    | ontoBranch j1 => rw [i1] at j1; cases j1
    | revision j1 => rw [i1] at j1; cases j1
    | revset j1 => rw [i1] at j1; cases j1
    | selected j1 j2 j3 =>
      rw [i2] at j2; cases j2
      rcases j3 with h | h | h
      · rw [i3] at h; cases h
      · exact absurd h i4
      · exact absurd i5 (h b)
    | @selectedBranch o' b' j1 j2 j3 j4 j5 =>
      rw [i2] at j2; cases j2
      exact ⟨by rw [hb i5 j5], rfl⟩

theorem aim_of_switchTo {options : SwitchOptions} {t : Option Text} {dest : Option Oid}
    (h : SwitchTo env d w.git smartlog options t dest) : ∃ target, Aim env d smartlog options target := by
  cases h with
  | stay h1 h2 => exact ⟨_, .here h1 h2⟩
  | ontoBranch h1 h2 => exact ⟨_, .here h1 h2⟩
  | revision h1 h2 h3 => exact ⟨_, .revision h1 h2 h3⟩
  | revset h1 h2 h3 h4 h5 => exact ⟨_, .revset h1 h2 h3 h4 h5⟩
  | selected h1 h2 => exact ⟨_, .selected h1 h2⟩
  | selectedBranch h1 h2 => exact ⟨_, .selected h1 h2⟩

/-- If git is not run, nothing is changed, and there is a reason. -/
theorem switch_not_run (hs : SwitchSetting env graph w es r d smartlog) {options : SwitchOptions}
    {outcome : SwitchOutcome} (ht : switchTarget env d smartlog options = .error outcome) :
    switch env graph w options = ⟨w.git, none, outcome⟩ := by
  unfold switch
  simp only [hs.opened, hs.smartlog, ht]

/-- The setting does not depend on the size of the stack. -/
theorem _root_.Verif.Spec.SwitchSetting.fuel (hs : SwitchSetting env graph w es r d smartlog) (fuel : Nat) :
    SwitchSetting { env with fuel } graph w es r d smartlog :=
  ⟨hs.hg, hs.hw, hs.he, hs.opened, hs.sorting, hs.toVec, hs.existing, hs.smartlog, hs.replayer⟩

theorem switchTo_fuel {options : SwitchOptions} {t : Option Text} {dest : Option Oid} (fuel : Nat) :
    SwitchTo { env with fuel } d w.git smartlog options t dest ↔ SwitchTo env d w.git smartlog options t dest := by
  constructor
  · intro h
    cases h with
    | stay h1 h2 h3 => exact .stay h1 h2 h3
    | ontoBranch h1 h2 h3 h4 h5 => exact .ontoBranch h1 h2 h3 h4 h5
    | revision h1 h2 h3 => exact .revision h1 h2 h3
    | revset h1 h2 h3 h4 h5 => exact .revset h1 h2 h3 h4 h5
    | selected h1 h2 h3 => exact .selected h1 h2 h3
    | selectedBranch h1 h2 h3 h4 h5 => exact .selectedBranch h1 h2 h3 h4 h5
  · intro h
    cases h with
    | stay h1 h2 h3 => exact .stay h1 h2 h3
    | ontoBranch h1 h2 h3 h4 h5 => exact .ontoBranch h1 h2 h3 h4 h5
    | revision h1 h2 h3 => exact .revision h1 h2 h3
    | revset h1 h2 h3 h4 h5 => exact .revset h1 h2 h3 h4 h5
    | selected h1 h2 h3 => exact .selected h1 h2 h3
    | selectedBranch h1 h2 h3 h4 h5 => exact .selectedBranch h1 h2 h3 h4 h5

/-- C91: git is run exactly once, with exactly the target which the rules give, and the options; with a stack which
is large enough to resolve the revset, always if there is a target. -/
theorem switch_command (hs : SwitchSetting env graph w es r d smartlog) (options : SwitchOptions) :
    (∀ args, (switch env graph w options).ran = some args →
      ∃ t dest, SwitchTo env d w.git smartlog options t dest ∧
        args = t!"checkout" :: (t.toList ++ switchFlags options)) ∧
    (∀ t dest, SwitchTo env d w.git smartlog options t dest →
      ∃ N, ∀ fuel, N ≤ fuel → (switch { env with fuel } graph w options).ran =
        some (t!"checkout" :: (t.toList ++ switchFlags options))) := by
  constructor
  · intro args h
    cases ht : switchTarget env d smartlog options with
    | error e => rw [switch_not_run hs ht] at h; cases h
    | ok target =>
      obtain ⟨t, dest, h1, h2, -⟩ := switch_of_aim hs ht
      rw [h2] at h
      cases h
      exact ⟨t, dest, h1, rfl⟩
  · intro t dest h
    obtain ⟨target, ha⟩ := aim_of_switchTo h
    obtain ⟨N, hN⟩ := aim_switchTarget hs ha
    refine ⟨N, fun fuel hf => ?_⟩
    obtain ⟨t', dest', h1, h2, -⟩ := switch_of_aim (hs.fuel fuel) (hN fuel hf)
    rw [h2, (switchTo_unique hs h ((switchTo_fuel fuel).1 h1)).1]

/-! ### where `HEAD` is afterwards -/

theorem checkoutResolve_means {env : GitCheckoutEnv} {g : GitState} {t : Text} {b : Option Text} {o : Option Oid}
    (h : checkoutResolve env g (some t) = some (b, o)) :
    (∃ c, o = some c ∧ GitMeans env g t c) ∧
    (∀ n, b = some n → ∃ x, n = t!"refs/heads/" ++ x ∧ GitBranch env g t x) ∧
    (b = none → ∀ x, ¬ GitBranch env g t x) := by
  unfold checkoutResolve at h
  simp only at h
  by_cases hd : t = t!"-"
  · rw [if_pos hd] at h
    subst hd
    cases hp : env.previous with
    | none => rw [hp] at h; cases h
    | some p =>
      rw [hp] at h
      simp only at h
      cases hr : g.refs.get? (t!"refs/heads/" ++ p) with
      | some c =>
        rw [hr] at h
        cases h
        refine ⟨⟨c, rfl, .previousBranch hp hr⟩, ?_, nofun⟩
        intro n hn
        cases hn
        exact ⟨p, rfl, by rw [hr]; rfl, .inr ⟨rfl, hp⟩⟩
      | none =>
        rw [hr] at h
        simp only at h
        split at h
        · rename_i c hc
          cases h
          refine ⟨⟨c, rfl, .previous hp hr hc⟩, nofun, fun _ => ?_⟩
          rintro x ⟨h1, ⟨h2, -⟩ | ⟨-, h2⟩⟩
          · exact h2 rfl
          · rw [hp] at h2
            cases h2
            rw [hr] at h1
            cases h1
        · cases h
  · rw [if_neg hd] at h
    simp only at h
    cases hr : g.refs.get? (t!"refs/heads/" ++ t) with
    | some c =>
      rw [hr] at h
      cases h
      refine ⟨⟨c, rfl, .branch hd hr⟩, ?_, nofun⟩
      intro n hn
      cases hn
      exact ⟨t, rfl, by rw [hr]; rfl, .inl ⟨hd, rfl⟩⟩
    | none =>
      rw [hr] at h
      simp only at h
      split at h
      · rename_i c hc
        cases h
        refine ⟨⟨c, rfl, .revision hd hr hc⟩, nofun, fun _ => ?_⟩
        rintro x ⟨h1, ⟨-, rfl⟩ | ⟨h2, -⟩⟩
        · rw [hr] at h1; cases h1
        · exact hd h2
      · cases h

theorem gitBranch_unique {env : GitCheckoutEnv} {g : GitState} {t b b' : Text} (h : GitBranch env g t b)
    (h' : GitBranch env g t b') : b = b' := by
  obtain ⟨-, ⟨a, rfl⟩ | ⟨a, c⟩⟩ := h <;> obtain ⟨-, ⟨a', c'⟩ | ⟨a', c'⟩⟩ := h'
  · exact c'
  · exact absurd a' a
  · exact absurd a a'
  · rw [c] at c'; cases c'; rfl

theorem gitBranch_commit {env : GitCheckoutEnv} {g : GitState} {t b : Text} {c : Oid} (h : GitBranch env g t b)
    (hm : GitMeans env g t c) : g.refs.get? (t!"refs/heads/" ++ b) = some c := by
  obtain ⟨h1, h2⟩ := h
  cases hm with
  | branch a b' =>
    rcases h2 with ⟨-, rfl⟩ | ⟨h, -⟩
    · exact b'
    · exact absurd h a
  | revision a b' =>
    rcases h2 with ⟨-, rfl⟩ | ⟨h, -⟩
    · rw [b'] at h1; cases h1
    · exact absurd h a
  | previousBranch a b' =>
    rcases h2 with ⟨h, -⟩ | ⟨-, h⟩
    · exact absurd rfl h
    · rw [a] at h; cases h; exact b'
  | previous a b' =>
    rcases h2 with ⟨h, -⟩ | ⟨-, h⟩
    · exact absurd rfl h
    · rw [a] at h; cases h; rw [b'] at h1; cases h1

/-- What a successful `git checkout` does. -/
theorem gitCheckoutRun_done {env : GitCheckoutEnv} {g g' : GitState} {t : Option Text}
    {options : SwitchOptions} {dest : Option Oid}
    (ht : ∀ x, t = some x → x = t!"-" ∨ ¬ t!"-" <+: x)
    (hd : (t = none → dest = g.headInfo.oid) ∧ ∀ x, t = some x → ∀ o, GitMeans env g x o → dest = some o)
    (h : gitCheckoutRun env g (t.toList ++ switchArgs options) = some g') :
    g'.headInfo.oid = dest ∧ HeadAfter env g options t dest g'.head ∧
    (∀ b, options.branchName = some b → g.refs.get? (t!"refs/heads/" ++ b) = none) ∧
    (∀ name, (∀ b, options.branchName = some b → name ≠ t!"refs/heads/" ++ b) → g'.refs.get? name = g.refs.get? name) := by
  unfold gitCheckoutRun at h
  rw [read_switchArgs t ht options] at h
  simp only [Option.isSome_none, Bool.false_and, Bool.or_false] at h
  by_cases hx : ((options.branchName.isSome && options.detach) || (options.force && options.merge)) = true
  · rw [if_pos hx] at h; cases h
  rw [if_neg hx] at h
  cases hc : checkoutResolve env g t with
  | none => rw [hc] at h; cases h
  | some p =>
  obtain ⟨branch, oid⟩ := p
  rw [hc] at h
  simp only at h
  by_cases hwk : (!env.works oid options.force options.merge) = true
  · rw [if_pos hwk] at h; cases h
  rw [if_neg hwk] at h
  have hoid : oid = dest := by
    cases t with
    | none =>
      cases hc
      exact (hd.1 rfl).symm
    | some x =>
      obtain ⟨⟨c, rfl, hm⟩, -⟩ := checkoutResolve_means hc
      exact (hd.2 x rfl c hm).symm
  subst hoid
  cases hb : options.branchName with
  | some b =>
    have hafter : ∀ hd, hd = Head.symbolic (t!"refs/heads/" ++ b) → HeadAfter env g options t oid hd := by
      intro hd h
      unfold HeadAfter
      rw [hb]
      exact h
    rw [hb] at h
    cases ho : oid with
    | some o =>
      rw [ho] at h
      simp only at h
      by_cases hv : (!env.validName b || (g.refs.get? (t!"refs/heads/" ++ b)).isSome) = true
      · rw [if_pos hv] at h; cases h
      rw [if_neg hv] at h
      have hnone : g.refs.get? (t!"refs/heads/" ++ b) = none := by
        cases hg : g.refs.get? (t!"refs/heads/" ++ b) with
        | none => rfl
        | some x => rw [hg] at hv; simp at hv
      unfold createReference at h
      split at h
      · cases h
      · rename_i refs hr
        cases h
        split at hr
        · cases hr
        · cases hr
          refine ⟨by simp [GitState.headInfo, AMap.get?_insert], ho ▸ hafter _ rfl, ?_, ?_⟩
          · intro b' hb'
            cases hb'
            exact hnone
          · intro name hne
            rw [AMap.get?_insert, if_neg (fun he => hne b rfl he.symm)]
    | none =>
      rw [ho] at h
      simp only at h
      by_cases hv : (!env.validName b || (g.refs.get? (t!"refs/heads/" ++ b)).isSome) = true
      · rw [if_pos hv] at h; cases h
      rw [if_neg hv] at h
      have hnone : g.refs.get? (t!"refs/heads/" ++ b) = none := by
        cases hg : g.refs.get? (t!"refs/heads/" ++ b) with
        | none => rfl
        | some x => rw [hg] at hv; simp at hv
      cases h
      refine ⟨by simpa [GitState.headInfo] using hnone, ho ▸ hafter _ rfl, ?_, fun _ _ => rfl⟩
      intro b' hb'
      cases hb'
      exact hnone
  | none =>
    rw [hb] at h
    have hrefs : ∀ g'' : GitState, g'' = g' → g''.refs = g.refs → (∀ b, (none : Option Text) = some b → g.refs.get? (t!"refs/heads/" ++ b) = none) ∧
        (∀ name, (∀ b, (none : Option Text) = some b → name ≠ t!"refs/heads/" ++ b) → g'.refs.get? name = g.refs.get? name) := by
      rintro _ rfl h
      exact ⟨nofun, fun name _ => by rw [h]⟩
    unfold HeadAfter
    rw [hb]
    simp only
    cases ho : oid with
    | none =>
      rw [ho] at h
      simp only at h
      cases hdt : options.detach with
      | true => rw [hdt] at h; cases h
      | false =>
        rw [hdt, if_neg (by simp)] at h
        cases h
        rw [if_neg (by simp)]
        cases t with
        | none => exact ⟨ho ▸ (hd.1 rfl).symm, rfl, hrefs _ rfl rfl⟩
        | some x =>
          obtain ⟨⟨c, hcc, -⟩, -⟩ := checkoutResolve_means hc
          rw [ho] at hcc
          cases hcc
    | some o =>
      rw [ho] at h
      simp only at h
      cases hdt : options.detach with
      | true =>
        rw [hdt, if_pos rfl] at h
        cases h
        exact ⟨rfl, ⟨o, rfl, rfl⟩, hrefs _ rfl rfl⟩
      | false =>
        rw [hdt, if_neg (by simp)] at h
        rw [if_neg (by simp)]
        cases t with
        | none =>
          have hbn : branch = none := by cases hc; rfl
          rw [hbn] at h
          cases h
          exact ⟨ho ▸ (hd.1 rfl).symm, rfl, hrefs _ rfl rfl⟩
        | some x =>
          obtain ⟨⟨c, hcc, hm⟩, h2, h3⟩ := checkoutResolve_means hc
          rw [ho] at hcc
          cases hcc
          cases branch with
          | some n =>
            cases h
            obtain ⟨y, rfl, hy⟩ := h2 n rfl
            refine ⟨?_, ⟨fun b hb => by rw [gitBranch_unique hb hy], fun hno => absurd hy (hno y)⟩, hrefs _ rfl rfl⟩
            simpa [GitState.headInfo] using gitBranch_commit hy hm
          | none =>
            cases h
            exact ⟨rfl, ⟨fun b hb => absurd hb (h3 rfl b), fun _ => ⟨o, rfl, rfl⟩⟩, hrefs _ rfl rfl⟩

theorem onlyBranch_clear {g : GitState} {options : SwitchOptions} (hn : NamesClear env g options) {o : Oid}
    {b : Text} (h : OnlyBranch g o b) : b ≠ t!"-" ∧ ¬ t!"-" <+: b := by
  have := hn.branches b (by rw [h.1]; rfl)
  exact ⟨fun e => this (e ▸ List.prefix_rfl), this⟩

theorem dash_oid (o : Oid) : ¬ t!"-" <+: o.toText := by
  rintro ⟨s, hs⟩
  obtain ⟨n, hn, he⟩ := Oid.mem_toText (o := o) (c := '-') (by rw [← hs]; simp)
  revert n
  decide

/-- The commit for which git takes the target is the one where the command should go. -/
theorem switchTo_means {options : SwitchOptions} (hn : NamesClear env w.git options) {t : Option Text}
    {dest : Option Oid} (h : SwitchTo env d w.git smartlog options t dest) :
    (∀ x, t = some x → x = t!"-" ∨ ¬ t!"-" <+: x) ∧
    (t = none → dest = w.git.headInfo.oid) ∧
    ∀ x, t = some x → ∀ o, GitMeans env.checkout.git w.git x o → dest = some o := by
  have hoid : ∀ o o' : Oid, GitMeans env.checkout.git w.git o.toText o' → some o = some o' := by
    intro o o' hm
    have hlen : o.toText ≠ t!"-" := fun e => absurd (congrArg List.length e) (by simp)
    generalize ht : o.toText = x at hm hlen
    cases hm with
    | branch _ h => rw [← ht, hn.hex o] at h; cases h
    | revision _ _ h => rw [← ht] at h; rw [hn.oids o o' h]
    | previousBranch => exact absurd rfl hlen
    | previous => exact absurd rfl hlen
  have hbr : ∀ (o o' : Oid) b, OnlyBranch w.git o b → GitMeans env.checkout.git w.git b o' → some o = some o' := by
    intro o o' b hb hm
    obtain ⟨h1, h2⟩ := onlyBranch_clear hn hb
    cases hm with
    | branch _ h => rw [hb.1] at h; exact h
    | revision _ h => rw [hb.1] at h; cases h
    | previousBranch => exact absurd rfl h1
    | previous => exact absurd rfl h1
  cases h with
  | stay h1 h2 h3 => exact ⟨nofun, fun _ => rfl, nofun⟩
  | @ontoBranch o b h1 h2 h3 h4 h5 =>
    refine ⟨fun x hx => ?_, nofun, fun x hx o' hm => ?_⟩ <;> have hx := Option.some.inj hx <;> subst hx
    · exact .inr (onlyBranch_clear hn h5).2
    · exact hbr o o' _ h5 hm
  | @revision t o h1 h2 h3 =>
    refine ⟨fun x hx => ?_, nofun, fun x hx o' hm => ?_⟩ <;> have hx := Option.some.inj hx <;> subst hx
    · exact hn.target t h2
    · rw [hn.revisions t o o' h3 hm]
  | @revset t S o h1 h2 h3 h4 h5 =>
    refine ⟨fun x hx => ?_, nofun, fun x hx o' hm => ?_⟩ <;> have hx := Option.some.inj hx <;> subst hx
    · exact .inr (dash_oid o)
    · exact hoid o o' hm
  | @selected o h1 h2 h3 =>
    refine ⟨fun x hx => ?_, nofun, fun x hx o' hm => ?_⟩ <;> have hx := Option.some.inj hx <;> subst hx
    · exact .inr (dash_oid o)
    · exact hoid o o' hm
  | @selectedBranch o b h1 h2 h3 h4 h5 =>
    refine ⟨fun x hx => ?_, nofun, fun x hx o' hm => ?_⟩ <;> have hx := Option.some.inj hx <;> subst hx
    · exact .inr (onlyBranch_clear hn h5).2
    · exact hbr o o' _ h5 hm

/-- C91: after a successful `git switch`, `HEAD` is at the commit which the rules give: on the new branch, on the
branch which was checked out, or detached. The new branch did not exist before, and no other reference was
changed. -/
theorem switch_lands (hs : SwitchSetting env graph w es r d smartlog) {options : SwitchOptions}
    (hn : NamesClear env w.git options) (h : (switch env graph w options).outcome = .done) :
    ∃ t dest, SwitchTo env d w.git smartlog options t dest ∧
      (switch env graph w options).git.headInfo.oid = dest ∧
      HeadAfter env.checkout.git w.git options t dest (switch env graph w options).git.head ∧
      (∀ b, options.branchName = some b → w.git.refs.get? (t!"refs/heads/" ++ b) = none) ∧
      (∀ name, (∀ b, options.branchName = some b → name ≠ t!"refs/heads/" ++ b) →
        (switch env graph w options).git.refs.get? name = w.git.refs.get? name) := by
  cases ht : switchTarget env d smartlog options with
  | error e =>
    rw [switch_not_run hs ht] at h
    simp only at h
    subst h
    unfold switchTarget at ht
    split at ht
    · split at ht <;> cases ht
    · split at ht
      · cases ht
      · split at ht
        · cases ht
        · split at ht
          · cases ht
          · split at ht <;> cases ht
  | ok target =>
    obtain ⟨t, dest, h1, -, ⟨g, h2, -, h3⟩ | ⟨-, h2, -⟩⟩ := switch_of_aim hs ht
    · obtain ⟨h4, h5⟩ := switchTo_means hn h1
      rw [h2]
      exact ⟨t, dest, h1, gitCheckoutRun_done h4 h5 h3⟩
    · rw [h] at h2; cases h2

/-- C91: if the command does not end successfully, `HEAD` and the references are as before. If git was not run, then
nothing was selected, or there was not exactly one head, or the revset could not be resolved or the selection
failed. -/
theorem switch_fails (hs : SwitchSetting env graph w es r d smartlog) (options : SwitchOptions) :
    ((switch env graph w options).outcome ≠ .done → (switch env graph w options).git = w.git) ∧
    ((switch env graph w options).outcome = .cancelled → options.interactive = true ∧
      env.select (options.target.getD []) smartlog = .ok none ∧ (switch env graph w options).ran = none) ∧
    (∀ n, (switch env graph w options).outcome = .notOneHead n →
      options.interactive = false ∧ (switch env graph w options).ran = none ∧ n ≠ 1 ∧
      ∃ t S, ∃ l : List Oid, options.target = some t ∧ env.revset.revparse t = none ∧ Resolves env.revset d t S ∧
        l.Nodup ∧ (∀ c, c ∈ l ↔ HeadOf d.graph S c) ∧ l.length = n) ∧
    ((switch env graph w options).outcome = .error → (switch env graph w options).ran = none ∧
      ((options.interactive = true ∧ env.select (options.target.getD []) smartlog = .error ()) ∨
       ∃ t e, options.interactive = false ∧ options.target = some t ∧
        resolveOne env.revset env.fuel d t = .error e)) := by
  cases ht : switchTarget env d smartlog options with
  | ok target =>
    obtain ⟨t, dest, h1, -, ⟨g, h2, h3, -⟩ | ⟨h2, h3, -⟩⟩ := switch_of_aim hs ht
    · rw [h3]; exact ⟨nofun, nofun, nofun, nofun⟩
    · rw [h3]; exact ⟨fun _ => h2, nofun, nofun, nofun⟩
  | error e =>
    rw [switch_not_run hs ht]
    refine ⟨fun _ => rfl, ?_⟩
    simp only
    unfold switchTarget at ht
    cases hi : options.interactive with
    | true =>
      rw [hi, if_pos rfl] at ht
      split at ht
      · rename_i u hu
        cases ht
        exact ⟨nofun, nofun, fun _ => ⟨trivial, .inl ⟨rfl, hu⟩⟩⟩
      · rename_i hu
        cases ht
        exact ⟨fun _ => ⟨rfl, hu, trivial⟩, nofun, nofun⟩
      · cases ht
    | false =>
      rw [hi, if_neg (by simp)] at ht
      cases htt : options.target with
      | none => rw [htt] at ht; cases ht
      | some t =>
        rw [htt] at ht
        simp only at ht
        cases hp : env.revset.revparse t with
        | some o => rw [hp] at ht; cases ht
        | none =>
          rw [hp] at ht
          simp only at ht
          cases hr : resolveOne env.revset env.fuel d t with
          | error e' =>
            have : resolveCommits env.revset env.fuel d false [t] = .error e' := by
              unfold resolveCommits
              rw [if_neg (by simp), List.mapM_cons, hr]
              rfl
            rw [this] at ht
            cases ht
            exact ⟨nofun, nofun, fun _ => ⟨trivial, .inr ⟨t, e', rfl, rfl, hr⟩⟩⟩
          | ok l =>
            rw [resolveCommits_one.2 ⟨l, hr, rfl⟩] at ht
            simp only at ht
            have hres := resolves_of_ok hs hr
            obtain ⟨hnd, hm⟩ := switchHeads_mem hs hres
            split at ht
            · cases ht
            · rename_i hne
              cases ht
              refine ⟨nofun, ?_, nofun⟩
              intro n hn
              cases hn
              refine ⟨rfl, trivial, ?_, t, _, _, rfl, hp, hres, hnd, hm, rfl⟩
              intro h1
              obtain ⟨x, hx⟩ := List.length_eq_one_iff.1 h1
              exact hne x hx

/-- C91: a revset which does not have exactly one head is refused, with the number of its heads (if the stack is large
enough to resolve it). -/
theorem switch_refuses (hs : SwitchSetting env graph w es r d smartlog) {options : SwitchOptions} {t : Text}
    {S : Oid → Prop} (hi : options.interactive = false) (ht : options.target = some t)
    (hp : env.revset.revparse t = none) (hres : Resolves env.revset d t S)
    (hno : ¬ ∃ o, ∀ c, HeadOf d.graph S c ↔ c = o) :
    ∃ N n, n ≠ 1 ∧ ∀ fuel, N ≤ fuel →
      switch { env with fuel } graph w options = ⟨w.git, none, .notOneHead n⟩ := by
  obtain ⟨N, hN⟩ := resolveOne_complete hs.replayer (hs.graph_eq ▸ hs.hg) hres
  obtain ⟨l, -, hl⟩ := hN N (Nat.le_refl _)
  obtain ⟨hnd, hm⟩ := switchHeads_mem hs (hl ▸ hres)
  rw [← hl] at hm
  have hlen : (switchHeads env d [l]).length ≠ 1 := by
    intro h1
    obtain ⟨o, ho⟩ := List.length_eq_one_iff.1 h1
    exact hno ⟨o, fun c => by rw [← hm, ho, List.mem_singleton]⟩
  refine ⟨N, _, hlen, fun fuel hf => ?_⟩
  obtain ⟨l', hl', hS⟩ := hN fuel hf
  obtain ⟨hnd', hm'⟩ := switchHeads_mem hs (hS ▸ hres)
  rw [← hS] at hm'
  have hlen' : (switchHeads env d [l']).length = (switchHeads env d [l]).length :=
    ((List.perm_ext_iff_of_nodup hnd' hnd).2 fun c => (hm' c).trans (hm c).symm).length_eq
  refine switch_not_run (hs.fuel fuel) ?_
  unfold switchTarget
  have hl2 : resolveCommits env.revset fuel d false [t] = .ok [l'] := resolveCommits_one.2 ⟨l', hl', rfl⟩
  have heq : switchHeads { env with fuel } d [l'] = switchHeads env d [l'] := rfl
  rw [hi, if_neg (by simp), ht]
  simp only [hp, hl2]
  rw [← hlen', ← heq]
  split
  · rename_i o ho
    rw [heq] at ho
    rw [← hlen', ho] at hlen
    exact absurd rfl hlen
  · rfl

/-! ### branches -/

/-- C91: with automatic switching, and without `--create` and `--detach`: if nothing is given and there is one branch at
the commit of `HEAD`, or a commit other than that of `HEAD` is selected and there is one branch, then the branch is
checked out. -/
theorem switch_onto_branch (hs : SwitchSetting env graph w es r d smartlog) {options : SwitchOptions}
    (hn : NamesClear env w.git options) (hauto : env.checkout.autoSwitch = true)
    (hc : options.branchName = none) (hd : options.detach = false) {o : Oid} {b : Text}
    (hb : OnlyBranch w.git o b)
    (ho : (options.interactive = false ∧ options.target = none ∧ w.git.headInfo.oid = some o) ∨
      (options.interactive = true ∧ env.select (options.target.getD []) smartlog = .ok (some o) ∧
        w.git.headInfo.oid ≠ some o))
    (h : (switch env graph w options).outcome = .done) :
    (switch env graph w options).git = { w.git with head := .symbolic (t!"refs/heads/" ++ b) } := by
  have hto : SwitchTo env d w.git smartlog options (some b) (some o) := by
    rcases ho with ⟨h1, h2, h3⟩ | ⟨h1, h2, h3⟩
    · exact .ontoBranch h1 h2 hauto h3 hb
    · exact .selectedBranch h1 h2 hauto h3 hb
  cases ht : switchTarget env d smartlog options with
  | error e =>
    rw [switch_not_run hs ht] at h
    rcases ho with ⟨h1, h2, h3⟩ | ⟨h1, h2, h3⟩ <;> simp [switchTarget, h1, h2] at ht
  | ok target =>
    obtain ⟨t, dest, h1, -, ⟨g, h2, -, h3⟩ | ⟨-, h2, -⟩⟩ := switch_of_aim hs ht
    · obtain ⟨rfl, rfl⟩ := switchTo_unique hs h1 hto
      obtain ⟨h4, h5⟩ := switchTo_means hn h1
      rw [h2]
      have hclear := onlyBranch_clear hn hb
      unfold gitCheckoutRun at h3
      rw [read_switchArgs (some b) h4 options] at h3
      simp only [hc, hd, Bool.and_false, Option.isSome_none, Bool.false_or] at h3
      split at h3
      · cases h3
      · have : checkoutResolve env.checkout.git w.git (some b) =
            some (some (t!"refs/heads/" ++ b), some o) := by
          unfold checkoutResolve
          simp only [if_neg hclear.1, hb.1]
        rw [this] at h3
        simp only at h3
        split at h3
        · cases h3
        · cases h3; rfl
    · rw [h] at h2; cases h2

/-- C91 (finding): a commit which is named otherwise than by its branch, or as the head of a revset, is checked out
detached, also with automatic switching and if there is exactly one branch. -/
theorem switch_named_detaches (hs : SwitchSetting env graph w es r d smartlog) {options : SwitchOptions}
    (hn : NamesClear env w.git options) (hi : options.interactive = false) {t : Text}
    (ht : options.target = some t) (hc : options.branchName = none) (hd : options.detach = false)
    (hb : ∀ b, ¬ GitBranch env.checkout.git w.git t b)
    (h : (switch env graph w options).outcome = .done) :
    ∃ o, (switch env graph w options).git.head = .detached o := by
  obtain ⟨x, dest, h1, h2, h3, -⟩ := switch_lands hs hn h
  unfold HeadAfter at h3
  rw [hc, hd] at h3
  simp only at h3
  rw [if_neg (by simp)] at h3
  cases h1 with
  | stay _ h => rw [ht] at h; cases h
  | ontoBranch _ h => rw [ht] at h; cases h
  | revision _ h =>
    rw [ht] at h
    cases h
    obtain ⟨o, -, ho⟩ := h3.2 hb
    exact ⟨o, ho⟩
  | @revset t' S o _ h =>
    obtain ⟨o, -, ho⟩ := h3.2 (by
      rintro b ⟨h1, ⟨h2, rfl⟩ | ⟨h2, -⟩⟩
      · rw [hn.hex o] at h1; cases h1
      · exact dash_oid o (h2 ▸ List.prefix_rfl))
    exact ⟨o, ho⟩
  | selected h => rw [hi] at h; cases h
  | selectedBranch h => rw [hi] at h; cases h

/-- C91 (finding): selecting the commit of `HEAD` leaves the branch which is checked out. -/
theorem switch_selected_head_detaches (hs : SwitchSetting env graph w es r d smartlog) {options : SwitchOptions}
    (hn : NamesClear env w.git options) (hi : options.interactive = true)
    (hc : options.branchName = none) (hd : options.detach = false) {o : Oid}
    (ho : env.select (options.target.getD []) smartlog = .ok (some o)) (hh : w.git.headInfo.oid = some o)
    (h : (switch env graph w options).outcome = .done) :
    (switch env graph w options).git.head = .detached o := by
  obtain ⟨x, dest, h1, h2, h3, -⟩ := switch_lands hs hn h
  obtain ⟨rfl, rfl⟩ := switchTo_unique hs h1 (.selected hi ho (.inr (.inl hh)))
  unfold HeadAfter at h3
  rw [hc, hd] at h3
  simp only at h3
  rw [if_neg (by simp)] at h3
  obtain ⟨c, hc, hcd⟩ := h3.2 (by
    rintro b ⟨h1, ⟨h2, rfl⟩ | ⟨h2, -⟩⟩
    · rw [hn.hex o] at h1; cases h1
    · exact dash_oid o (h2 ▸ List.prefix_rfl))
  cases hc
  exact hcd

/-- C91 (finding): with nothing given, the user is not asked, although the help says so. -/
theorem switch_does_not_ask {options : SwitchOptions} (hi : options.interactive = false)
    (select : Text → List Oid → Except Unit (Option Oid)) :
    switch { env with select } graph w options = switch env graph w options := by
  unfold switch switchTarget
  simp only [hi, Bool.false_eq_true, if_false]
  rfl

end

/-- C91 (finding): `git next --all` and `git prev --all` where there is nowhere to go leave the branch which is checked
out. -/
theorem nowhere_to_go_detaches {graph : CommitGraph Oid} {w : RepoWorld} {es : List Event}
    {env : NavEnv} {checkout : CheckoutEnv} {r : Replayer} {d : Dag}
    (hs : NavSetting graph checkout.mainBranch w es env r d)
    (hhex : ∀ o : Oid, w.git.refs.get? (t!"refs/heads/" ++ o.toText) = none)
    {command : NavCommand} {options : TraverseOptions} (ha : options.allTheWay = true)
    (hb : options.moveByBranches = false) {cur : Oid} (hcur : w.git.headInfo.oid = some cur)
    (hno : ∀ b, ¬ NavStep graph checkout.mainBranch w.git es command (.allTheWay false) cur b) {git : GitState}
    (h : traverseCommits env checkout graph w command options = (git, .done)) :
    git = { w.git with head := .detached cur } := by
  unfold traverseCommits at h
  cases hd : options.distance with
  | none => simp [hd] at h
  | some distance =>
  have hdist : distance = .allTheWay false := by
    unfold TraverseOptions.distance at hd
    rw [ha, hb] at hd
    split at hd <;> simp_all
  subst hdist
  cases ht : options.towards with
  | none => simp [hd, ht] at h
  | some towards =>
  simp only [hd, ht, hs.opened, hcur] at h
  have hcand : sortedCommitSet env d (candidateSet d command (.allTheWay false) cur) = [] := by
    rw [List.eq_nil_iff_forall_not_mem]
    intro x hx
    exact hno x (((sorted_candidates hs command (.allTheWay false) cur).2.1 x).1 hx)
  have hadv : advance env d cur command (.allTheWay false) towards = .ok (some cur) := by
    unfold advance
    rw [show d.graph.nodes.length + 2 = (d.graph.nodes.length + 1) + 1 from rfl, advanceLoop]
    simp only [hcand]
    rw [if_pos (by simp [arrived])]
  rw [hadv] at h
  have hname : (if checkout.autoSwitch = true then maybeGetBranchName checkout w.git cur.toText (some cur)
      else .ok cur.toText) = .ok cur.toText := by
    split
    · unfold maybeGetBranchName
      have hm : (w.git.refs.get? checkout.mainBranch).isSome := by
        have h := hs.opened
        unfold openRepoDag GitState.referencesSnapshot at h
        cases hm : w.git.refs.get? checkout.mainBranch with
        | none => rw [hm] at h; simp at h
        | some m => rfl
      obtain ⟨m, hm⟩ := Option.isSome_iff_exists.1 hm
      rw [hm]
      simp [hcur]
    · rfl
  simp only [traverseTarget, checkOutCommit, hname, gitCheckout, hhex cur, Oid.length_toText, if_true,
    Oid.parse_toText] at h
  cases hw : checkout.works <;> cases hcm : checkout.isCommit cur <;> rw [hw, hcm] at h <;> simp at h
  exact h.symm

end Verif.Props

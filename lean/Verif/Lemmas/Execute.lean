import Verif.Spec.Execute
import Verif.Lemmas.PlanRequests

namespace Verif.Spec

open Verif Verif.Constraints Verif.RebasePlanBuilder

/-- The commands run from one state to another. -/
def Runs (ee : ExecEnv) (head : Option Oid) (cs : List RebaseCommand) (e e' : ExecState) : Prop :=
  cs.foldlM (ee.runCommand head) e = .ok e'

theorem runs_nil {ee : ExecEnv} {head : Option Oid} {e e' : ExecState} :
    Runs ee head [] e e' ↔ e' = e := by
  unfold Runs
  rw [List.foldlM_nil]
  constructor
  · intro h; cases h; rfl
  · rintro rfl; rfl

theorem runs_cons {ee : ExecEnv} {head : Option Oid} {c : RebaseCommand} {cs : List RebaseCommand}
    {e e' : ExecState} :
    Runs ee head (c :: cs) e e' ↔ ∃ e1, ee.runCommand head e c = .ok e1 ∧ Runs ee head cs e1 e' := by
  unfold Runs
  rw [List.foldlM_cons]
  cases h : ee.runCommand head e c with
  | error x =>
    constructor
    · intro h'; cases h'
    · rintro ⟨_, h', _⟩; cases h'
  | ok e1 =>
    constructor
    · intro h'; exact ⟨e1, rfl, h'⟩
    · rintro ⟨_, h', h2⟩; cases h'; exact h2

theorem runs_one {ee : ExecEnv} {head : Option Oid} {c : RebaseCommand} {e e' : ExecState} :
    Runs ee head [c] e e' ↔ ee.runCommand head e c = .ok e' := by
  rw [runs_cons]
  constructor
  · rintro ⟨e1, h, h1⟩; rw [runs_nil] at h1; rw [h1]; exact h
  · exact fun h => ⟨e', h, runs_nil.2 rfl⟩

theorem runs_append {ee : ExecEnv} {head : Option Oid} {a b : List RebaseCommand}
    {e e' : ExecState} :
    Runs ee head (a ++ b) e e' ↔ ∃ e1, Runs ee head a e e1 ∧ Runs ee head b e1 e' := by
  induction a generalizing e with
  | nil =>
    constructor
    · exact fun h => ⟨e, runs_nil.2 rfl, h⟩
    · rintro ⟨e1, h, h1⟩; rw [runs_nil] at h; exact h ▸ h1
  | cons c a ih =>
    rw [List.cons_append, runs_cons]
    constructor
    · rintro ⟨e1, h, h1⟩
      obtain ⟨e2, h2, h3⟩ := ih.1 h1
      exact ⟨e2, runs_cons.2 ⟨e1, h, h2⟩, h3⟩
    · rintro ⟨e1, h, h1⟩
      obtain ⟨e2, h2, h3⟩ := runs_cons.1 h
      exact ⟨e2, h2, ih.2 ⟨e1, h3, h1⟩⟩

theorem Runs.unique {ee : ExecEnv} {head : Option Oid} {cs : List RebaseCommand} {e a b : ExecState}
    (h : Runs ee head cs e a) (h' : Runs ee head cs e b) : a = b := by
  unfold Runs at h h'
  rw [h] at h'
  cases h'; rfl

/-! ### what a pick does -/

theorem Applied.nonempty {ee : ExecEnv} {q : Oid} {mk : Nat → CommitData} {l : List Oid} {t : Nat}
    (h : Applied ee q mk l t) : l ≠ [] := by
  cases h <;> simp

theorem Applied.one {ee : ExecEnv} {q : Oid} {mk : Nat → CommitData} {c : Oid} {t : Nat}
    (h : Applied ee q mk [c] t) : ee.cherryPickFast c q = .ok t := by
  generalize hl : [c] = l at h
  cases h with
  | first c' t h => cases hl; exact h
  | next l t o c t' h1 =>
    have := h1.nonempty
    cases l with
    | nil => exact absurd rfl this
    | cons a l => simp at hl

/-- The loop over the commits to apply: if it succeeds with a commit, its tree and object. -/
theorem pickLoop_spec {ee : ExecEnv} {cur : Oid} {mk : Nat → CommitData} {l : List Oid}
    {created : List (Oid × CommitData)} {s' : ExecEnv.PickState}
    (h : l.foldlM (ee.pickOne cur mk) ⟨none, created⟩ = .ok s') :
    (∃ new, s'.created = new ++ created ∧ ∀ x ∈ new, ∃ t, x.2 = mk t ∧ ee.createCommit x.2 = some x.1) ∧
    (∀ r, s'.rebased = some r → r ∈ s'.created ∧ ∃ t, r.2 = mk t ∧
      Applied ee cur mk l t) := by
  refine foldlM_except_inv (P := fun pre s' =>
    (∃ new, s'.created = new ++ created ∧ ∀ x ∈ new, ∃ t, x.2 = mk t ∧ ee.createCommit x.2 = some x.1) ∧
    (∀ r, s'.rebased = some r → r ∈ s'.created ∧ ∃ t, r.2 = mk t ∧
      Applied ee cur mk pre t ∧ ee.createCommit (mk t) = some r.1) ∧ (s'.rebased = none → pre = []))
    ?_ ?_ h |> fun h => ⟨h.1, fun r hr => ⟨(h.2.1 r hr).1, (h.2.1 r hr).2.imp fun t ht => ⟨ht.1, ht.2.1⟩⟩⟩
  · refine ⟨⟨[], rfl, by simp⟩, by simp, by simp⟩
  · rintro pre c post s s' hl ⟨⟨new, h1, h2⟩, h3, h0⟩ hs
    unfold ExecEnv.pickOne at hs
    split at hs
    · simp at hs
    split at hs
    · simp at hs
    simp only at hs
    split at hs
    · simp at hs
    · simp at hs
    rename_i tree ht
    split at hs
    · simp at hs
    rename_i o ho
    cases hs
    refine ⟨⟨(o, mk tree) :: new, by simp [h1], ?_⟩, ?_, by simp⟩
    · intro x hx
      rcases List.mem_cons.1 hx with rfl | hx
      · exact ⟨tree, rfl, ho⟩
      · exact h2 x hx
    · intro r hr
      cases hr
      refine ⟨by simp, tree, rfl, ?_, ho⟩
      cases hb : s.rebased with
      | none =>
        rw [hb] at ht
        rw [h0 hb]
        exact .first _ _ ht
      | some r =>
        rw [hb] at ht
        obtain ⟨_, t, _, h4, h5⟩ := h3 r hb
        exact .next _ _ _ _ _ h4 h5 ht

/-- The effect of a `pick`. -/
structure PickDone (ee : ExecEnv) (head : Option Oid) (e e' : ExecState) (c : Oid) (l : List Oid) :
    Prop where
  labels : e'.labels = e.labels
  created : ∃ new, e'.created = new ++ e.created ∧ ∀ x ∈ new, ee.createCommit x.2 = some x.1
  result : ∃ cur orig tree, ee.find e.created e.current = some cur ∧
    ee.find e.created c = some orig ∧ Applied ee e.current (newVersion ee orig e.current) l tree ∧
    ((tree = cur.tree ∧ e'.current = e.current ∧ e'.rewritten = AMap.insert e.rewritten c .zero ∧
        e'.skippedHead = ExecEnv.setSkippedHead head e.skippedHead c e.current) ∨
      (tree ≠ cur.tree ∧ e'.skippedHead = e.skippedHead ∧
        e'.rewritten = l.foldl (fun m x => AMap.insert m x (.nonZero e'.current))
          (AMap.insert e.rewritten c (.nonZero e'.current)) ∧
        (e'.current, newVersion ee orig e.current tree) ∈ e'.created))

theorem runPick_done {ee : ExecEnv} {head : Option Oid} {e e' : ExecState} {c : Oid} {l : List Oid}
    (h : ee.runPick head e c l = .ok e') : PickDone ee head e e' c l := by
  unfold ExecEnv.runPick at h
  split at h
  · rename_i cur orig hcur horig
    split at h
    · simp at h
    rename_i msg hmsg
    simp only at h
    split at h
    · simp at h
    · simp at h
    rename_i o d created hloop
    obtain ⟨⟨new, h1, h2⟩, h3⟩ := pickLoop_spec hloop
    obtain ⟨h4, t, h5, h6⟩ := h3 (o, d) rfl
    simp only at h1 h4 h5
    rw [← hmsg] at h6
    have hd : d.tree = t := by rw [h5]
    split at h
    · rename_i ht
      cases h
      refine ⟨rfl, ⟨new, h1, fun x hx => (h2 x hx).choose_spec.2⟩, cur, orig, t, hcur, horig,
        h6, .inl ⟨by rw [← hd]; exact ht, rfl, rfl, rfl⟩⟩
    · rename_i ht
      cases h
      refine ⟨rfl, ⟨new, h1, fun x hx => (h2 x hx).choose_spec.2⟩, cur, orig, t, hcur, horig,
        h6, .inr ⟨by rw [← hd]; exact ht, rfl, rfl, ?_⟩⟩
      simp only
      rw [h5] at h4
      unfold newVersion
      rw [hmsg]
      exact h4
  · simp at h

/-! ### what stays the same -/

/-- Every `pick` applies its commit and commits which are squashed. -/
def PicksShape (k : Constraints) (cmds : List RebaseCommand) : Prop :=
  ∀ t l, .pick t l ∈ cmds → ∀ x ∈ l, x = t ∨ Squashed k x

theorem get?_foldl_insert {v : MaybeZero} {l : List Oid} {m : AMap Oid MaybeZero} {x : Oid} :
    AMap.get? (l.foldl (fun m x => AMap.insert m x v) m) x =
      if x ∈ l then some v else AMap.get? m x := by
  induction l generalizing m with
  | nil => simp
  | cons a l ih =>
    rw [List.foldl_cons, ih, AMap.get?_insert]
    by_cases h : x ∈ l
    · simp [h]
    · by_cases ha : a = x
      · simp [ha]
      · simp [h, ha, Ne.symm ha]

theorem runCommand_frame {ee : ExecEnv} {head : Option Oid} {e e' : ExecState} {cmd : RebaseCommand}
    (h : ee.runCommand head e cmd = .ok e') :
    (∀ l, labelCreated cmd ≠ some l → AMap.get? e'.labels l = AMap.get? e.labels l) ∧
    (∀ x, handled cmd ≠ some x → (∀ t l, cmd = .pick t l → x ∉ l) →
      AMap.get? e'.rewritten x = AMap.get? e.rewritten x) ∧
    (∃ new, e'.created = new ++ e.created ∧ ∀ x ∈ new, ee.createCommit x.2 = some x.1) ∧
    (∀ q, e.skippedHead = some q → e'.skippedHead = some q) ∧
    (∀ c, handled cmd = some c → (AMap.get? e'.rewritten c).isSome) := by
  have sk : ∀ c q, e.skippedHead = some q →
      ExecEnv.setSkippedHead head e.skippedHead c e.current = some q := by
    intro c q hq
    unfold ExecEnv.setSkippedHead
    rw [hq]
    split <;> rfl
  cases cmd with
  | createLabel l =>
    simp only [ExecEnv.runCommand, Except.ok.injEq] at h
    subst h
    refine ⟨fun l' hl => ?_, fun x _ _ => rfl, ⟨[], rfl, by simp⟩, fun q h => h, by simp [handled]⟩
    simp only [labelCreated, ne_eq, Option.some.injEq] at hl
    simp [hl]
  | reset t =>
    have he : e'.labels = e.labels ∧ e'.rewritten = e.rewritten ∧ e'.created = e.created ∧
        e'.skippedHead = e.skippedHead := by
      cases t with
      | label l =>
        simp only [ExecEnv.runCommand] at h
        split at h
        · cases h; simp
        · simp at h
      | oid o =>
        simp only [ExecEnv.runCommand] at h
        split at h <;> (cases h; simp)
    obtain ⟨h1, h2, h3, h4⟩ := he
    exact ⟨fun _ _ => by rw [h1], fun _ _ _ => by rw [h2], ⟨[], by simp [h3], by simp⟩,
      fun q h => by rw [h4, h], by simp [handled]⟩
  | pick c l =>
    obtain ⟨h1, h2, cur, orig, tree, _, _, _, h3⟩ := runPick_done h
    refine ⟨fun _ _ => by rw [h1], ?_, h2, ?_, ?_⟩
    · intro x hx hl
      have hx' : c ≠ x := by simpa [handled] using hx
      have hl' := hl c l rfl
      rcases h3 with ⟨_, _, h4, _⟩ | ⟨_, _, h4, _⟩
      · rw [h4]; simp [hx']
      · rw [h4, get?_foldl_insert]; simp [hl', hx']
    · intro q hq
      rcases h3 with ⟨_, _, _, h4⟩ | ⟨_, h4, _⟩
      · rw [h4]; exact sk c q hq
      · rw [h4, hq]
    · intro x hx
      simp only [handled, Option.some.injEq] at hx
      subst hx
      rcases h3 with ⟨_, _, h4, _⟩ | ⟨_, _, h4, _⟩
      · rw [h4]; simp
      · rw [h4, get?_foldl_insert]; split <;> simp
  | merge c ps => simp [ExecEnv.runCommand] at h
  | replace c r ps =>
    simp only [ExecEnv.runCommand] at h
    unfold ExecEnv.runReplace at h
    split at h
    · split at h
      · simp at h
      split at h
      · simp at h
      simp only at h
      split at h
      · simp at h
      rename_i o ho
      cases h
      refine ⟨fun _ _ => rfl, ?_, ⟨[_], rfl, by simpa using ho⟩, fun q h => h, ?_⟩
      · intro x hx _
        have hx' : c ≠ x := by simpa [handled] using hx
        simp [hx']
      · intro x hx
        simp only [handled, Option.some.injEq] at hx
        subst hx
        simp
    · simp at h
  | «break» => simp [ExecEnv.runCommand] at h
  | registerExtraPostRewriteHook =>
    simp only [ExecEnv.runCommand, Except.ok.injEq] at h
    subst h
    exact ⟨fun _ _ => rfl, fun _ _ _ => rfl, ⟨[], rfl, by simp⟩, fun q h => h, by simp [handled]⟩
  | detectEmptyCommit c =>
    simp only [ExecEnv.runCommand, Except.ok.injEq] at h
    subst h
    exact ⟨fun _ _ => rfl, fun _ _ _ => rfl, ⟨[], rfl, by simp⟩, fun q h => h, by simp [handled]⟩
  | skipUpstreamAppliedCommit c =>
    simp only [ExecEnv.runCommand] at h
    split at h
    · simp at h
    cases h
    refine ⟨fun _ _ => rfl, ?_, ⟨[], rfl, by simp⟩, fun q hq => sk c q hq, ?_⟩
    · intro x hx _
      have hx' : c ≠ x := by simpa [handled] using hx
      simp [hx']
    · intro x hx
      simp only [handled, Option.some.injEq] at hx
      subst hx
      simp

theorem runs_frame {ee : ExecEnv} {head : Option Oid} {cs : List RebaseCommand} {e e' : ExecState}
    (h : Runs ee head cs e e') :
    (∀ l, l ∉ labelsCreated cs → AMap.get? e'.labels l = AMap.get? e.labels l) ∧
    (∀ x, x ∉ handledCommits cs → (∀ t l, .pick t l ∈ cs → x ∉ l) →
      AMap.get? e'.rewritten x = AMap.get? e.rewritten x) ∧
    (∃ new, e'.created = new ++ e.created ∧ ∀ x ∈ new, ee.createCommit x.2 = some x.1) ∧
    (∀ q, e.skippedHead = some q → e'.skippedHead = some q) ∧
    (∀ c, c ∈ handledCommits cs ∨ (AMap.get? e.rewritten c).isSome →
      (AMap.get? e'.rewritten c).isSome) := by
  induction cs generalizing e with
  | nil =>
    rw [runs_nil] at h
    subst h
    exact ⟨fun _ _ => rfl, fun _ _ _ => rfl, ⟨[], rfl, by simp⟩, fun q h => h, by simp [handledCommits]⟩
  | cons c cs ih =>
    obtain ⟨e1, h1, h2⟩ := runs_cons.1 h
    obtain ⟨a1, a2, ⟨n1, a3, a3'⟩, a4, a5⟩ := runCommand_frame h1
    obtain ⟨b1, b2, ⟨n2, b3, b3'⟩, b4, b5⟩ := ih h2
    refine ⟨?_, ?_, ⟨n2 ++ n1, by rw [b3, a3, List.append_assoc], ?_⟩, fun q hq => b4 q (a4 q hq), ?_⟩
    · intro l hl
      unfold labelsCreated at hl
      rw [List.filterMap_cons] at hl
      have : labelCreated c ≠ some l ∧ l ∉ labelsCreated cs := by
        cases hc : labelCreated c with
        | none => rw [hc] at hl; exact ⟨by simp, hl⟩
        | some l' =>
          rw [hc] at hl
          simp only [List.mem_cons, not_or] at hl
          refine ⟨?_, hl.2⟩
          simpa using Ne.symm hl.1
      rw [b1 l this.2, a1 l this.1]
    · intro x hx hp
      unfold handledCommits at hx
      rw [List.filterMap_cons] at hx
      have : handled c ≠ some x ∧ x ∉ handledCommits cs := by
        cases hc : handled c with
        | none => rw [hc] at hx; exact ⟨by simp, hx⟩
        | some l' =>
          rw [hc] at hx
          simp only [List.mem_cons, not_or] at hx
          refine ⟨?_, hx.2⟩
          simpa using Ne.symm hx.1
      rw [b2 x this.2 fun t l hl => hp t l (List.mem_cons_of_mem _ hl), a2 x this.1]
      rintro t l rfl
      exact hp t l (by simp)
    · intro x hx
      rcases List.mem_append.1 hx with hx | hx
      · exact b3' x hx
      · exact a3' x hx
    · intro x hx
      refine b5 x ?_
      by_cases hxc : handled c = some x
      · exact .inr (a5 x hxc)
      · rcases hx with hx | hx
        · unfold handledCommits at hx
          rw [List.mem_filterMap] at hx
          obtain ⟨y, hy, hyx⟩ := hx
          rcases List.mem_cons.1 hy with rfl | hy
          · exact absurd hyx hxc
          · exact .inl (List.mem_filterMap.2 ⟨y, hy, hyx⟩)
        · rcases Classical.em (∃ t l, c = .pick t l ∧ x ∈ l) with hp | hp
          · obtain ⟨t, l, rfl, hl⟩ := hp
            right
            obtain ⟨_, _, cur, orig, tree, _, _, _, h3⟩ := runPick_done h1
            rcases h3 with ⟨_, _, h4, _⟩ | ⟨_, _, h4, _⟩
            · rw [h4, AMap.get?_insert]; split
              · rfl
              · exact hx
            · rw [h4, get?_foldl_insert]; simp [hl]
          · right
            rw [a2 x hxc (fun t l ht hl => hp ⟨t, l, ht, hl⟩)]
            exact hx

theorem find_mono {ee : ExecEnv} (hn : NoCollisions ee) {cr new : List (Oid × CommitData)}
    (hcr : ∀ x ∈ cr, ee.createCommit x.2 = some x.1)
    (hnew : ∀ x ∈ new, ee.createCommit x.2 = some x.1) {o : Oid} {d : CommitData}
    (h : ee.find cr o = some d) : ee.find (new ++ cr) o = some d := by
  induction new with
  | nil => exact h
  | cons x new ih =>
    obtain ⟨a, d'⟩ := x
    have ih' := ih fun x hx => hnew x (List.mem_cons_of_mem _ hx)
    unfold ExecEnv.find at ih' ⊢
    rw [List.cons_append, AMap.get?_cons]
    by_cases ha : a = o
    · subst ha
      have h1 := hnew (a, d') (by simp)
      simp only [if_true]
      cases hg : AMap.get? (new ++ cr) a with
      | none =>
        rw [hg] at ih'
        simp only at ih'
        rw [hn.old _ _ _ h1 ih']
      | some d2 =>
        rw [hg] at ih'
        simp only [Option.some.injEq] at ih'
        subst ih'
        have h2 : ee.createCommit d2 = some a := by
          rcases List.mem_append.1 (AMap.mem_of_get? hg) with hm | hm
          · exact hnew _ (List.mem_cons_of_mem _ hm)
          · exact hcr _ hm
        rw [hn.new _ _ _ h1 h2]
    · simp only [ha, if_false]
      exact ih'

end Verif.Spec

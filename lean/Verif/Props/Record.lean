import Verif.Lemmas.Record

/-! C69: `record`. -/

namespace Verif.Props

open Verif Verif.Spec Verif.RebasePlanBuilder

/-- C69: what is there after the commit was made, before anything else is done. -/
theorem commit_recorded {env : RecordEnv} {main : Text} {fe : FinishEnv} {w : RepoWorld} {new : Oid}
    {status : Oid → Option Bool} (hl : Logged w.db status) {n : Int} (hn : inIsize n)
    (htx : fe.tx = (TxId.id n).toText) (hrd : w.rebaseDir = none) (hfe : fe.move.mainBranch = main)
    (hmain : (w.git.refs.get? main).isSome ∨ w.git.head = .symbolic main)
    (hkeep : ∀ name, (w.git.refs.get? name).isSome →
      pathConflict (t!"refs/branchless/" ++ new.toText) name = false)
    (hhead : (∃ o, w.git.head = .detached o) ∨ ∃ name, IsBranch name ∧ w.git.head = .symbolic name) :
    RecordedRefs w.git (gitCommit fe w new).git new
        (match w.git.head with | .symbolic name => .symbolic name | _ => .detached new)
        (match w.git.head with | .symbolic name => some name | _ => none) ∧
      (gitCommit fe w new).git.headInfo.oid = some new ∧
      Logged (gitCommit fe w new).db (fun o => if o = new then some true else status o) ∧
      (gitCommit fe w new).rebaseDir = none ∧ (gitCommit fe w new).deferred = w.deferred := by
  have hrefs : (w.git.advance new).refs = match w.git.head with
      | .symbolic name => w.git.refs.insert name new
      | _ => w.git.refs := by
    unfold GitState.advance
    cases h : w.git.head <;> rfl
  have hhd : (w.git.advance new).head = match w.git.head with
      | .symbolic name => .symbolic name
      | _ => .detached new := by
    unfold GitState.advance
    cases h : w.git.head <;> simp [h]
  obtain ⟨h1, h2, h3, h4⟩ := gitCommit_spec (new := new) hl hn htx hrd (by
    rw [hfe, hrefs]
    rcases hhead with ⟨o, ho⟩ | ⟨name, hb, ho⟩
    · rw [ho] at hmain ⊢
      simpa using hmain
    · rw [ho] at hmain ⊢
      simp only
      rw [AMap.get?_insert]
      split
      · rfl
      · rename_i hne
        rcases hmain with h | h
        · exact h
        · cases h; exact absurd rfl hne) (by
    intro name hs
    rw [hrefs] at hs
    rcases hhead with ⟨o, ho⟩ | ⟨b, hb, ho⟩
    · rw [ho] at hs
      exact hkeep name hs
    · rw [ho] at hs
      simp only at hs
      rw [AMap.get?_insert] at hs
      split at hs
      · rename_i e; rw [← e]; exact (keepAlive_branch hb).1
      · exact hkeep name hs)
  refine ⟨?_, ?_, h2, h3, h4⟩
  · rw [h1]
    rcases hhead with ⟨o, ho⟩ | ⟨b, hb, ho⟩
    · rw [ho] at hrefs hhd ⊢
      simp only at hrefs hhd ⊢
      rw [hrefs, hhd]
      refine ⟨rfl, by simp, ?_, ?_⟩
      · exact (AMap.get?_insert ..).trans (if_pos rfl)
      · intro name _ hne
        exact (AMap.get?_insert ..).trans (if_neg (Ne.symm hne))
    · rw [ho] at hrefs hhd ⊢
      simp only at hrefs hhd ⊢
      rw [hrefs, hhd]
      refine ⟨rfl, ?_, ?_, ?_⟩
      · rintro name ⟨⟩
        simp only [AMap.get?_insert, if_true]
        rw [if_neg (Ne.symm (keepAlive_branch hb).2)]
      · exact (AMap.get?_insert ..).trans (if_pos rfl)
      · intro name h5 hne
        simp only [AMap.get?_insert]
        rw [if_neg (show keepAliveName new ≠ name from Ne.symm hne), if_neg (fun e => h5 (by rw [e]))]
  · rw [h1]
    rcases hhead with ⟨o, ho⟩ | ⟨b, hb, ho⟩
    · rw [ho] at hhd
      rw [hhd]
      rfl
    · rw [ho] at hrefs hhd
      rw [hrefs, hhd]
      show (AMap.insert (AMap.insert w.git.refs b new) (keepAliveName new) new).get? b = some new
      rw [AMap.get?_insert, AMap.get?_insert, if_neg (Ne.symm (keepAlive_branch hb).2), if_pos rfl]

/-- `record` up to moving the siblings, which is done with `--insert`. -/
theorem record_steps {env : RecordEnv} {main : Text} {txEnv : Option Text} {args : RecordArgs} {w : RepoWorld}
    {es : List Event} (hp : w.db.pending = none) (he : w.db.getEvents = some es) {n : Int} (hn : inIsize n)
    (htx : (w.db.makeTransactionId txEnv t!"record").1 = .id n) (hrd : w.rebaseDir = none)
    {kind : ChangesType} (hkind : env.status = some kind) (hk : kind = .unstaged ∨ kind = .staged)
    (hi : recordAction args.interactive kind ≠ .refused) {new : Oid}
    (hnew : env.commit (recordAction args.interactive kind) = .ok new)
    {merged : List Oid} (hwk : RecordWorks env main w.git new merged)
    (hmerge : merged = [] ∨ (∃ o, w.git.head = .detached o) ∨ args.detach = false ∧ args.stash = false)
    (hcreate : ∀ name, args.create = some name → CanCreateBranch env w.git name ∧ args.detach = false ∧
      args.stash = false ∧ (w.git.refs.get? main).isSome)
    (hback : args.detach = true → w.git.headInfo.oid.isSome)
    (hstash : args.stash = true → ∃ name, w.git.head = .symbolic name ∧ (w.git.refs.get? name).isSome) :
    ∃ w', RecordedRefs w.git w'.git new (recordedHead args w.git new).1 (recordedHead args w.git new).2 ∧
      Logged w'.db (fun o => if o = new then some true else statusIn es o) ∧
      w'.rebaseDir = none ∧ w'.deferred = w.deferred ∧ AMap.WF w'.git.refs ∧
      record env main txEnv args w = if args.insert then
        ((insertBeforeSiblings (env.repo w') main (env.graph w') w').1,
          .inserted (insertBeforeSiblings (env.repo w') main (env.graph w') w').2) else (w', .done) := by
  have hlog : Logged (w.db.makeTransactionId txEnv t!"record").2 (statusIn es) :=
    ⟨(getEvents_makeTransactionId _ _ _).2.trans hp, es, (getEvents_makeTransactionId _ _ _).1.trans he,
      fun _ => rfl⟩
  generalize hdb : w.db.makeTransactionId txEnv t!"record" = txdb at htx hlog
  obtain ⟨tx, db⟩ := txdb
  simp only at htx hlog
  subst htx
  have hhead' : ∀ git : GitState, ((∃ o, git.head = .detached o) ∨ ∃ name, IsBranch name ∧
    git.head = .symbolic name ∧ ∀ b, (git.refs.get? b).isSome → pathConflict name b = false) →
    ((∃ o, git.head = .detached o) ∨ ∃ name, IsBranch name ∧ git.head = .symbolic name) := by
    rintro git (h | ⟨name, h1, h2, _⟩)
    · exact .inl h
    · exact .inr ⟨name, h1, h2⟩
  have hrec : record env main txEnv args w =
      match (match args.create with
        | none => ({ w with db }, none)
        | some name => createBranch env { (env.repo { w with db }).finish [] with tx := (TxId.id n).toText }
            { w with db } name) with
      | (w, some outcome) => (w, outcome)
      | (w, none) => afterCommit env main args (.id n)
          (gitCommit { (env.repo w).finish [] with tx := (TxId.id n).toText } w new) := by
    unfold record
    rw [hdb, hkind]
    simp only
    rcases hk with rfl | rfl <;> simp only [hnew, if_neg hi] <;> rfl
  rw [hrec]
  cases hcr : args.create with
  | some name =>
    obtain ⟨hc, hdt, hst, hm⟩ := hcreate name hcr
    obtain ⟨w1, e1, e2, e3, e4, e5, e6, e7⟩ := createBranch_spec (env := env)
      (fe := { (env.repo { w with db }).finish [] with tx := (TxId.id n).toText }) (w := { w with db })
      hlog hc (hwk.accepts _) (by
        show (w.git.refs.get? ((env.repo _).finish []).checkout.mainBranch).isSome
        rw [(hwk.mains _).2]; exact hm)
    simp only
    rw [e1]
    simp only
    have hbr : IsBranch (t!"refs/heads/" ++ name) := ⟨name, rfl⟩
    obtain ⟨f1, f2, f3, f4, f5⟩ := commit_recorded (env := env) (main := main)
      (fe := { (env.repo w1).finish [] with tx := (TxId.id n).toText }) (new := new) e4 hn rfl
      (e5.trans hrd) (hwk.mains _).1 (by
        left
        rw [e3]
        split
        · rename_i e
          exact absurd e.symm (hc.free _ hm).1
        · exact hm) (by
        intro b hb
        rw [e3] at hb
        split at hb
        · rename_i e; rw [← e]; exact (keepAlive_branch hbr).1
        · exact hwk.keep b hb) (.inr ⟨_, hbr, e2⟩)
    rw [e2] at f1
    refine ⟨_, ?_, f3, f4, f5.trans e6, gitCommit_wf (e7 hwk.refs.wf), ?_⟩
    · unfold recordedHead
      rw [hcr]
      refine ⟨f1.head, f1.moved, f1.kept, fun b hb hne => ?_⟩
      rw [f1.others b hb hne, e3, if_neg (fun e => hb (congrArg some e))]
    · unfold afterCommit detachOrStash
      rw [hdt, hst]
      rfl
  | none =>
    simp only
    obtain ⟨f1, f2, f3, f4, f5⟩ := commit_recorded (env := env) (main := main) (w := { w with db })
      (fe := { (env.repo { w with db }).finish [] with tx := (TxId.id n).toText }) (new := new) hlog hn rfl
      hrd (hwk.mains _).1 hwk.main_exists hwk.keep (hhead' _ hwk.head)
    generalize hw1 : gitCommit { (env.repo { w with db }).finish [] with tx := (TxId.id n).toText }
      { w with db } new = w1 at f1 f2 f3 f4 f5
    have hwf : AMap.WF w1.git.refs := by rw [← hw1]; exact gitCommit_wf hwk.refs.wf
    simp only at f1 f5
    by_cases hdo : (args.detach || args.stash) = true
    · -- no branch is to be moved
      have hhd : (recordedHead args w.git new).2 = none ∧
          (recordedHead args w.git new).1 = if args.stash then w.git.head else .detached new := by
        unfold recordedHead
        rw [hcr]
        simp only
        split
        · exact ⟨rfl, rfl⟩
        · rename_i h
          rw [if_pos (by simpa [h] using hdo)]
          exact ⟨rfl, rfl⟩
      rw [hhd.1, hhd.2]
      rcases hwk.head with ⟨o, ho⟩ | ⟨name, hb, ho, hpc⟩
      · have hst : args.stash = false := by
          rw [Bool.eq_false_iff]
          intro h
          obtain ⟨b, h1, _⟩ := hstash h
          rw [ho] at h1
          cases h1
        rw [ho] at f1
        refine ⟨w1, ?_, f3, f4, f5, hwf, ?_⟩
        · rw [hst]
          exact f1
        · have hi : w1.git.headInfo = ⟨some new, none⟩ := by
            unfold GitState.headInfo
            rw [f1.head]
          unfold afterCommit detachOrStash detachBranch
          simp only [hst, hi, ite_self]
      · have hh : ∃ h, w.git.refs.get? name = some h := by
          rw [← Option.isSome_iff_exists]
          cases hst : args.stash with
          | true =>
            obtain ⟨b, h1, h2⟩ := hstash hst
            rw [ho] at h1
            cases h1
            exact h2
          | false =>
            have := hback (by simpa [hst] using hdo)
            simpa [GitState.headInfo, ho] using this
        obtain ⟨h, hh⟩ := hh
        rw [ho] at f1
        simp only at f1
        have hname := f1.moved name rfl
        have hi : w1.git.headInfo = ⟨some new, some name⟩ := by
          unfold GitState.headInfo
          rw [f1.head]
          simp only
          rw [hname]
        obtain ⟨d, hd1, hd2⟩ := hwk.commit w1 f2
        have hmg : merged = [] := by
          rcases hmerge with h | ⟨o, h⟩ | h
          · exact h
          · rw [ho] at h; cases h
          · rw [h.1, h.2] at hdo; cases hdo
        subst hmg
        obtain ⟨w2, g1, g2, g3, g4, g5⟩ := detachBranch_spec (commits := (env.repo w1).exec.commits)
          (fe := { (env.repo w1).finish [] with tx := (TxId.id n).toText }) f3 hb f1.head hname hd1
          (h := h) (by rw [hd2]; simp [GitState.headInfo, ho, hh]) (hwk.accepts _ _ hb) (by
            intro b hs
            by_cases hbk : b = t!"refs/branchless/" ++ new.toText
            · subst hbk
              have := (keepAlive_branch (new := new) hb).1
              unfold pathConflict at this ⊢
              rw [Bool.or_comm]
              exact this
            · by_cases hbn : b = name
              · subst hbn; exact hpc _ (by rw [hh]; rfl)
              · rw [f1.others b (by simpa using Ne.symm hbn) hbk] at hs
                exact hpc b hs)
        have hrefs : ∀ b, b ≠ t!"refs/branchless/" ++ new.toText → w2.git.refs.get? b = w.git.refs.get? b := by
          intro b hbk
          rw [g2]
          simp only [AMap.get?_insert]
          split
          · rename_i e; rw [← e]; exact hh.symm
          · rename_i e; exact f1.others b (by simpa using e) hbk
        have hkept : w2.git.refs.get? (t!"refs/branchless/" ++ new.toText) = some new := by
          rw [g2]
          simp only [AMap.get?_insert]
          rw [if_neg (show name ≠ t!"refs/branchless/" ++ new.toText from (keepAlive_branch hb).2)]
          exact f1.kept
        have hdet : ∀ stash, detachOrStash (env.repo w1).exec.commits
            { (env.repo w1).finish [] with tx := (TxId.id n).toText } args.detach stash w1 =
            if args.detach || stash then
              match stash, (some (.reference name) : Option CheckoutTarget) with
              | true, some target =>
                match checkOutCommit ((env.repo w1).finish []).checkout w2.git target with
                | .error _ => (w2, some .error)
                | .ok (git, true) => ({ w2 with git }, none)
                | .ok (git, false) => ({ w2 with git }, some (.failed 1))
              | _, _ => (w2, none)
            else (w1, none) := by
          intro stash
          unfold detachOrStash
          rw [hi, g1]
          rfl
        cases hst : args.stash with
        | false =>
          refine ⟨w2, ⟨?_, by simp, hkept, fun b _ hbk => hrefs b hbk⟩, g3, g4.trans f4, g5.trans f5,
            by rw [g2]; exact AMap.wf_insert hwf _ _, ?_⟩
          · rw [g2]; rfl
          · unfold afterCommit
            simp only
            rw [hdet, hdo, hst]
            rfl
        | true =>
          have hmk : main ≠ t!"refs/branchless/" ++ new.toText ∨
              main = t!"refs/branchless/" ++ new.toText := by tauto
          have hmain2 : (w2.git.refs.get? main).isSome := by
            rcases hmk with hmk | hmk
            · rw [hrefs main hmk]
              rcases hwk.main_exists with h | h
              · exact h
              · rw [ho] at h; cases h; rw [hh]; rfl
            · rw [hmk, hkept]; rfl
          have hco := checkOut_branch (env := ((env.repo w1).finish []).checkout) (g := w2.git) hb (by
            rw [hrefs name (keepAlive_branch hb).2, hh]; rfl) (hwk.works _) (by rw [(hwk.mains _).2]; exact hmain2)
          refine ⟨{ w2 with git := { w2.git with head := .symbolic name } },
            ⟨by simp [ho], by simp, hkept, fun b _ hbk => hrefs b hbk⟩, g3, g4.trans f4, g5.trans f5,
            by rw [g2]; exact AMap.wf_insert hwf _ _, ?_⟩
          unfold afterCommit
          simp only
          rw [hdet, hdo, hst]
          simp only [if_true]
          rw [hco]
    · have hd : args.detach = false ∧ args.stash = false := by simpa using hdo
      refine ⟨w1, ?_, f3, f4, f5, hwf, ?_⟩
      · unfold recordedHead
        rw [hcr, hd.1, hd.2]
        simp only [Bool.false_eq_true, if_false]
        rcases hhead' _ hwk.head with ⟨o, ho⟩ | ⟨name, _, ho⟩ <;> rw [ho] at f1 ⊢ <;> exact f1
      · unfold afterCommit detachOrStash
        rw [hd.1, hd.2]
        rfl

/-- C69: what `record` does, without `--insert`. The references are as the options say (see `recordedHead`), and
the new commit is recorded in the event log.

Missing: `--stash` when no branch is checked out (see `stash_detached_stays`); `--detach` and `--stash` for the
first commit (see `detach_first_commit`), and, on a branch, for a merge commit, which `git commit` makes if a merge is in
progress (see `merge_commit_stays_on_branch`). -/
theorem record_follows_options_partial (env : RecordEnv) (main : Text) (txEnv : Option Text) (args : RecordArgs)
    (w : RepoWorld) (es : List Event) (hp : w.db.pending = none) (he : w.db.getEvents = some es) (n : Int)
    (hn : inIsize n) (htx : (w.db.makeTransactionId txEnv t!"record").1 = .id n) (hrd : w.rebaseDir = none)
    (kind : ChangesType) (hkind : env.status = some kind) (hk : kind = .unstaged ∨ kind = .staged)
    (hi : recordAction args.interactive kind ≠ .refused) (new : Oid)
    (hnew : env.commit (recordAction args.interactive kind) = .ok new)
    (merged : List Oid) (hwk : RecordWorks env main w.git new merged)
    (hmerge : merged = [] ∨ (∃ o, w.git.head = .detached o) ∨ args.detach = false ∧ args.stash = false)
    (hcreate : ∀ name, args.create = some name → CanCreateBranch env w.git name ∧ args.detach = false ∧
      args.stash = false ∧ (w.git.refs.get? main).isSome)
    (hback : args.detach = true → w.git.headInfo.oid.isSome)
    (hstash : args.stash = true → ∃ name, w.git.head = .symbolic name ∧ (w.git.refs.get? name).isSome)
    (hins : args.insert = false) :
    ∃ w' es', record env main txEnv args w = (w', .done) ∧
      RecordedRefs w.git w'.git new (recordedHead args w.git new).1 (recordedHead args w.git new).2 ∧
      w'.db.getEvents = some es' ∧ RecordedEvents es es' new := by
  obtain ⟨w', h1, ⟨_, es', h2, h3⟩, _, _, _, h4⟩ := record_steps hp he hn htx hrd hkind hk hi hnew hwk hmerge
    hcreate hback hstash
  rw [hins] at h4
  exact ⟨w', es', h4, h1, h2, h3⟩

/-- C69: if nothing is committed, nothing is changed (unless a branch was to be created, see
`refused_branch_stays`): there are no changes, there are conflicts, changes are to be selected though some are
staged, or git does not make a commit. -/
theorem record_without_commit (env : RecordEnv) (main : Text) (txEnv : Option Text) (args : RecordArgs)
    (w : RepoWorld) (hc : args.create = none) :
    ((env.status = none ∧ (record env main txEnv args w).2 = .error) ∨
      ∃ kind, env.status = some kind ∧
        ((kind = .none ∧ (record env main txEnv args w).2 = .nothing) ∨
          (kind = .conflicts ∧ (record env main txEnv args w).2 = .refused) ∨
          (kind = .staged ∧ args.interactive = true ∧ (record env main txEnv args w).2 = .refused) ∨
          (env.commit (recordAction args.interactive kind) = .error none ∧
            (record env main txEnv args w).2 = .error) ∨
          ∃ code, env.commit (recordAction args.interactive kind) = .error (some code) ∧
            (record env main txEnv args w).2 = .failed code)) ∧
      (record env main txEnv args w).1.git = w.git ∧
      (record env main txEnv args w).1.db.getEvents = w.db.getEvents ∧
      (record env main txEnv args w).1.db.pending = w.db.pending ∧
      (record env main txEnv args w).1.deferred = w.deferred ∧
      (record env main txEnv args w).1.rebaseDir = w.rebaseDir ∨
    ∃ kind new, env.status = some kind ∧ (kind = .unstaged ∨ kind = .staged ∧ args.interactive = false) ∧
      env.commit (recordAction args.interactive kind) = .ok new := by
  have hdb := getEvents_makeTransactionId w.db txEnv t!"record"
  unfold record
  rw [hc]
  cases hs : env.status with
  | none => exact .inl ⟨.inl ⟨rfl, rfl⟩, rfl, hdb.1, hdb.2, rfl, rfl⟩
  | some kind =>
    have main : ∀ kind, kind = .unstaged ∨ kind = .staged →
        (recordAction args.interactive kind = .refused ↔ kind = .staged ∧ args.interactive = true) := by
      rintro _ (rfl | rfl) <;> cases args.interactive <;> simp [recordAction]
    have hcases : kind = .none ∨ kind = .conflicts ∨ kind = .unstaged ∨ kind = .staged := by
      cases kind <;> simp
    rcases hcases with rfl | rfl | hk
    · exact .inl ⟨.inr ⟨_, rfl, .inl ⟨rfl, rfl⟩⟩, rfl, hdb.1, hdb.2, rfl, rfl⟩
    · exact .inl ⟨.inr ⟨_, rfl, .inr (.inl ⟨rfl, rfl⟩)⟩, rfl, hdb.1, hdb.2, rfl, rfl⟩
    · by_cases hr : recordAction args.interactive kind = .refused
      · left
        refine ⟨.inr ⟨_, rfl, .inr (.inr (.inl ⟨((main _ hk).1 hr).1, ((main _ hk).1 hr).2, ?_⟩))⟩, ?_⟩
        · rcases hk with rfl | rfl <;> simp only [if_pos hr]
        · rcases hk with rfl | rfl <;> simp only [if_pos hr] <;>
            exact ⟨trivial, hdb.1, hdb.2, trivial, trivial⟩
      · cases hcm : env.commit (recordAction args.interactive kind) with
        | ok new =>
          right
          refine ⟨kind, new, rfl, ?_, hcm⟩
          rcases hk with rfl | rfl
          · exact .inl rfl
          · exact .inr ⟨rfl, by
              rw [Bool.eq_false_iff]
              exact fun h => hr ((main _ (.inr rfl)).2 ⟨rfl, h⟩)⟩
        | error e =>
          left
          cases e with
          | none =>
            refine ⟨.inr ⟨kind, rfl, .inr (.inr (.inr (.inl ⟨hcm, ?_⟩)))⟩, ?_⟩
            · rcases hk with rfl | rfl <;> simp only [if_neg hr, hcm]
            · rcases hk with rfl | rfl <;> simp only [if_neg hr, hcm] <;>
                exact ⟨trivial, hdb.1, hdb.2, trivial, trivial⟩
          | some code =>
            refine ⟨.inr ⟨kind, rfl, .inr (.inr (.inr (.inr ⟨code, hcm, ?_⟩)))⟩, ?_⟩
            · rcases hk with rfl | rfl <;> simp only [if_neg hr, hcm]
            · rcases hk with rfl | rfl <;> simp only [if_neg hr, hcm] <;>
                exact ⟨trivial, hdb.1, hdb.2, trivial, trivial⟩

/-- C69: if there are no changes, or conflicts, nothing is changed with any options; no branch is created
either. -/
theorem record_no_changes (env : RecordEnv) (main : Text) (txEnv : Option Text) (args : RecordArgs)
    (w : RepoWorld) (h : ∀ kind, env.status = some kind → kind = .none ∨ kind = .conflicts) :
    ((record env main txEnv args w).2 = .error ∨ (record env main txEnv args w).2 = .nothing ∨
      (record env main txEnv args w).2 = .refused) ∧
    (record env main txEnv args w).1.git = w.git ∧
    (record env main txEnv args w).1.db.getEvents = w.db.getEvents ∧
    (record env main txEnv args w).1.db.pending = w.db.pending ∧
    (record env main txEnv args w).1.deferred = w.deferred ∧
    (record env main txEnv args w).1.rebaseDir = w.rebaseDir := by
  have hdb := getEvents_makeTransactionId w.db txEnv t!"record"
  unfold record
  cases hs : env.status with
  | none => exact ⟨.inl rfl, rfl, hdb.1, hdb.2, rfl, rfl⟩
  | some kind =>
    rcases h kind hs with rfl | rfl
    · exact ⟨.inr (.inl rfl), rfl, hdb.1, hdb.2, rfl, rfl⟩
    · exact ⟨.inr (.inr rfl), rfl, hdb.1, hdb.2, rfl, rfl⟩

/-- C69 does not hold in general: if no branch is checked out, `--stash` does not go back to the commit which
was checked out before. -/
theorem stash_detached_stays (env : RecordEnv) (main : Text) (txEnv : Option Text) (args : RecordArgs)
    (w : RepoWorld) (es : List Event) (hp : w.db.pending = none) (he : w.db.getEvents = some es) (n : Int)
    (hn : inIsize n) (htx : (w.db.makeTransactionId txEnv t!"record").1 = .id n) (hrd : w.rebaseDir = none)
    (kind : ChangesType) (hkind : env.status = some kind) (hk : kind = .unstaged ∨ kind = .staged)
    (hi : recordAction args.interactive kind ≠ .refused) (new : Oid)
    (hnew : env.commit (recordAction args.interactive kind) = .ok new)
    (merged : List Oid) (hwk : RecordWorks env main w.git new merged) (hcr : args.create = none)
    (hstash : args.stash = true)
    (hins : args.insert = false) (o : Oid) (ho : w.git.head = .detached o)
    (hno : w.git.refs.get? (t!"refs/heads/" ++ new.toText) = none)
    (hexists : ∀ w, w.git.headInfo.oid = some new → ((env.repo w).finish []).checkout.isCommit new = true) :
    ∃ w', record env main txEnv args w = (w', .done) ∧ w'.git.head = .detached new ∧
      (recordedHead args w.git new).1 = .detached o := by
  have hlog : Logged (w.db.makeTransactionId txEnv t!"record").2 (statusIn es) :=
    ⟨(getEvents_makeTransactionId _ _ _).2.trans hp, es, (getEvents_makeTransactionId _ _ _).1.trans he,
      fun _ => rfl⟩
  generalize hdb : w.db.makeTransactionId txEnv t!"record" = txdb at htx hlog
  obtain ⟨tx, db⟩ := txdb
  simp only at htx hlog
  subst htx
  have hmain : (w.git.refs.get? main).isSome := by
    rcases hwk.main_exists with h | h
    · exact h
    · rw [ho] at h; cases h
  obtain ⟨f1, f2, f3, f4, f5⟩ := commit_recorded (env := env) (main := main) (w := { w with db })
    (fe := { (env.repo { w with db }).finish [] with tx := (TxId.id n).toText }) (new := new) hlog hn rfl
    hrd (hwk.mains _).1 hwk.main_exists hwk.keep (.inl ⟨o, ho⟩)
  have hrec : record env main txEnv args w = afterCommit env main args (.id n)
      (gitCommit { (env.repo { w with db }).finish [] with tx := (TxId.id n).toText } { w with db } new) := by
    unfold record
    rw [hdb, hkind, hcr]
    simp only
    rcases hk with rfl | rfl <;> simp only [hnew, if_neg hi] <;> rfl
  rw [hrec]
  generalize gitCommit { (env.repo { w with db }).finish [] with tx := (TxId.id n).toText }
    { w with db } new = w1 at f1 f2 f3 f4 f5
  simp only [ho] at f1
  have hinfo : w1.git.headInfo = ⟨some new, none⟩ := by
    unfold GitState.headInfo
    rw [f1.head]
  have hmain1 : ∃ m, w1.git.refs.get? main = some m := by
    by_cases hmk : main = t!"refs/branchless/" ++ new.toText
    · rw [hmk]; exact ⟨_, f1.kept⟩
    · rw [f1.others main (by simp) hmk]; exact Option.isSome_iff_exists.1 hmain
  obtain ⟨m, hm⟩ := hmain1
  have hno1 : w1.git.refs.get? (t!"refs/heads/" ++ new.toText) = none := by
    rw [f1.others _ (by simp) (by simp), hno]
  have hgc : gitCheckout ((env.repo w1).finish []).checkout w1.git new.toText =
      some { w1.git with head := .detached new } := by
    unfold gitCheckout
    rw [hwk.works, hno1]
    simp [hexists w1 f2]
  have hco : checkOutCommit ((env.repo w1).finish []).checkout w1.git (.oid new) =
      .ok ({ w1.git with head := .detached new }, true) := by
    unfold checkOutCommit
    simp only
    split
    · rename_i h
      split at h
      · unfold maybeGetBranchName at h
        rw [(hwk.mains _).2, hm, hinfo] at h
        simp at h
      · simp at h
    · rename_i text h
      have : text = new.toText := by
        split at h
        · unfold maybeGetBranchName at h
          rw [(hwk.mains _).2, hm, hinfo] at h
          simpa [eq_comm] using h
        · simpa [eq_comm] using h
      rw [this, hgc]
  refine ⟨{ w1 with git := { w1.git with head := .detached new } }, ?_, rfl, ?_⟩
  · unfold afterCommit detachOrStash detachBranch
    simp only [hstash, hins, hinfo, stashTarget, Bool.or_true, if_true, hco, Bool.false_eq_true, if_false]
  · unfold recordedHead
    rw [hcr, hstash]
    exact ho

/-- C69 does not hold in general: after `record --detach` in a repository without commits, `HEAD` is on the
branch as before, which does not exist any more, and the new commit is not checked out. -/
theorem detach_first_commit (env : RecordEnv) (main : Text) (txEnv : Option Text) (args : RecordArgs)
    (w : RepoWorld) (es : List Event) (hp : w.db.pending = none) (he : w.db.getEvents = some es) (n : Int)
    (hn : inIsize n) (htx : (w.db.makeTransactionId txEnv t!"record").1 = .id n) (hrd : w.rebaseDir = none)
    (kind : ChangesType) (hkind : env.status = some kind) (hk : kind = .unstaged ∨ kind = .staged)
    (hi : recordAction args.interactive kind ≠ .refused) (new : Oid)
    (hnew : env.commit (recordAction args.interactive kind) = .ok new)
    (hwk : RecordWorks env main w.git new []) (hcr : args.create = none) (hdetach : args.detach = true)
    (hstash : args.stash = false) (hins : args.insert = false) (name : Text)
    (ho : w.git.head = .symbolic name) (hunborn : w.git.refs.get? name = none) :
    ∃ w', record env main txEnv args w = (w', .done) ∧ w'.git.head = .symbolic name ∧
      w'.git.headInfo.oid = none ∧ (recordedHead args w.git new).1 = .detached new := by
  have hlog : Logged (w.db.makeTransactionId txEnv t!"record").2 (statusIn es) :=
    ⟨(getEvents_makeTransactionId _ _ _).2.trans hp, es, (getEvents_makeTransactionId _ _ _).1.trans he,
      fun _ => rfl⟩
  generalize hdb : w.db.makeTransactionId txEnv t!"record" = txdb at htx hlog
  obtain ⟨tx, db⟩ := txdb
  simp only at htx hlog
  subst htx
  have hbr : IsBranch name := by
    rcases hwk.head with ⟨o, h⟩ | ⟨b, h1, h2, _⟩
    · rw [ho] at h; cases h
    · rw [ho] at h2; cases h2; exact h1
  obtain ⟨f1, f2, f3, f4, f5⟩ := commit_recorded (env := env) (main := main) (w := { w with db })
    (fe := { (env.repo { w with db }).finish [] with tx := (TxId.id n).toText }) (new := new) hlog hn rfl
    hrd (hwk.mains _).1 hwk.main_exists hwk.keep (.inr ⟨name, hbr, ho⟩)
  have hrec : record env main txEnv args w = afterCommit env main args (.id n)
      (gitCommit { (env.repo { w with db }).finish [] with tx := (TxId.id n).toText } { w with db } new) := by
    unfold record
    rw [hdb, hkind, hcr]
    simp only
    rcases hk with rfl | rfl <;> simp only [hnew, if_neg hi] <;> rfl
  rw [hrec]
  generalize gitCommit { (env.repo { w with db }).finish [] with tx := (TxId.id n).toText }
    { w with db } new = w1 at f1 f2 f3 f4 f5
  simp only [ho] at f1
  have hname := f1.moved name rfl
  have hinfo : w1.git.headInfo = ⟨some new, some name⟩ := by
    unfold GitState.headInfo
    rw [f1.head]
    simp only
    rw [hname]
  obtain ⟨d, hd1, hd2⟩ := hwk.commit w1 f2
  have hpar : d.parents = [] := by rw [hd2]; simp [GitState.headInfo, ho, hunborn]
  have hdel : ∃ w2, gitDeleteRef { (env.repo w1).finish [] with tx := (TxId.id n).toText } w1 name new =
      some w2 ∧ w2.git = { w1.git with refs := deleteReference w1.git.refs name } := by
    unfold gitDeleteRef
    simp only
    rw [hwk.accepts _ _ hbr, hname, if_neg (by simp), if_neg (by simp)]
    exact ⟨_, rfl, rfl⟩
  obtain ⟨w2, h1, h2⟩ := hdel
  refine ⟨w2, ?_, by rw [h2]; exact f1.head, ?_, ?_⟩
  · unfold afterCommit detachOrStash detachBranch
    simp only [hdetach, hstash, hins, hinfo, hd1, hpar, h1, Bool.or_false, if_true, Bool.false_eq_true, if_false]
  · rw [h2]
    unfold GitState.headInfo
    simp only [f1.head]
    unfold deleteReference
    simp [AMap.get?_erase]
  · unfold recordedHead
    rw [hcr, hstash, hdetach]
    rfl

/-- C69 does not hold in general: if a merge is in progress and a branch is checked out, `record --detach` and
`record --stash` end with an error after the merge commit was made; the branch is moved to it and stays checked out, as
without the option. -/
theorem merge_commit_stays_on_branch (env : RecordEnv) (main : Text) (txEnv : Option Text) (args : RecordArgs)
    (w : RepoWorld) (es : List Event) (hp : w.db.pending = none) (he : w.db.getEvents = some es) (n : Int)
    (hn : inIsize n) (htx : (w.db.makeTransactionId txEnv t!"record").1 = .id n) (hrd : w.rebaseDir = none)
    (kind : ChangesType) (hkind : env.status = some kind) (hk : kind = .unstaged ∨ kind = .staged)
    (hi : recordAction args.interactive kind ≠ .refused) (new : Oid)
    (hnew : env.commit (recordAction args.interactive kind) = .ok new) (other : Oid) (others : List Oid)
    (hwk : RecordWorks env main w.git new (other :: others)) (hcr : args.create = none)
    (hopt : args.detach = true ∨ args.stash = true) (name : Text) (ho : w.git.head = .symbolic name)
    (hborn : (w.git.refs.get? name).isSome) :
    ∃ w' es', record env main txEnv args w = (w', .error) ∧
      RecordedRefs w.git w'.git new (.symbolic name) (some name) ∧ w'.db.getEvents = some es' ∧
      RecordedEvents es es' new ∧ (recordedHead args w.git new).2 = none := by
  have hlog : Logged (w.db.makeTransactionId txEnv t!"record").2 (statusIn es) :=
    ⟨(getEvents_makeTransactionId _ _ _).2.trans hp, es, (getEvents_makeTransactionId _ _ _).1.trans he,
      fun _ => rfl⟩
  generalize hdb : w.db.makeTransactionId txEnv t!"record" = txdb at htx hlog
  obtain ⟨tx, db⟩ := txdb
  simp only at htx hlog
  subst htx
  have hbr : IsBranch name := by
    rcases hwk.head with ⟨o, h⟩ | ⟨b, h1, h2, _⟩
    · rw [ho] at h; cases h
    · rw [ho] at h2; cases h2; exact h1
  obtain ⟨f1, f2, f3, f4, f5⟩ := commit_recorded (env := env) (main := main) (w := { w with db })
    (fe := { (env.repo { w with db }).finish [] with tx := (TxId.id n).toText }) (new := new) hlog hn rfl
    hrd (hwk.mains _).1 hwk.main_exists hwk.keep (.inr ⟨name, hbr, ho⟩)
  have hrec : record env main txEnv args w = afterCommit env main args (.id n)
      (gitCommit { (env.repo { w with db }).finish [] with tx := (TxId.id n).toText } { w with db } new) := by
    unfold record
    rw [hdb, hkind, hcr]
    simp only
    rcases hk with rfl | rfl <;> simp only [hnew, if_neg hi] <;> rfl
  rw [hrec]
  generalize gitCommit { (env.repo { w with db }).finish [] with tx := (TxId.id n).toText }
    { w with db } new = w1 at f1 f2 f3 f4 f5
  simp only [ho] at f1
  have hinfo : w1.git.headInfo = ⟨some new, some name⟩ := by
    unfold GitState.headInfo
    rw [f1.head]
    simp only
    rw [f1.moved name rfl]
  obtain ⟨d, hd1, hd2⟩ := hwk.commit w1 f2
  obtain ⟨h, hh⟩ := Option.isSome_iff_exists.1 hborn
  have hpar : d.parents = h :: other :: others := by rw [hd2]; simp [GitState.headInfo, ho, hh]
  have hor : (args.detach || args.stash) = true := by simpa using hopt
  obtain ⟨_, es', h2, h3⟩ := f3
  refine ⟨w1, es', ?_, f1, h2, h3, ?_⟩
  · unfold afterCommit detachOrStash detachBranch
    simp only [hor, hinfo, hd1, hpar, if_true]
  · unfold recordedHead
    rw [hcr]
    simp only
    rcases hopt with h | h
    · rw [h]
      simp only [if_true]
      split <;> rfl
    · rw [h]
      rfl

/-- With `--create`, the branch stays if the command is refused afterwards. -/
theorem refused_branch_stays (env : RecordEnv) (main : Text) (txEnv : Option Text) (args : RecordArgs)
    (w : RepoWorld) (es : List Event) (hp : w.db.pending = none) (he : w.db.getEvents = some es)
    (hkind : env.status = some .staged) (hi : args.interactive = true) (new : Oid)
    (merged : List Oid) (hwk : RecordWorks env main w.git new merged) (name : Text) (hcr : args.create = some name)
    (hcan : CanCreateBranch env w.git name) (hmain : (w.git.refs.get? main).isSome) :
    ∃ w', record env main txEnv args w = (w', .refused) ∧
      w'.git.head = .symbolic (t!"refs/heads/" ++ name) ∧
      w'.git.refs.get? (t!"refs/heads/" ++ name) = w.git.headInfo.oid := by
  have hlog : Logged (w.db.makeTransactionId txEnv t!"record").2 (statusIn es) :=
    ⟨(getEvents_makeTransactionId _ _ _).2.trans hp, es, (getEvents_makeTransactionId _ _ _).1.trans he,
      fun _ => rfl⟩
  generalize hdb : w.db.makeTransactionId txEnv t!"record" = txdb at hlog
  obtain ⟨tx, db⟩ := txdb
  simp only at hlog
  obtain ⟨w1, e1, e2, e3, e4, e5, e6, e7⟩ := createBranch_spec (env := env)
    (fe := { (env.repo { w with db }).finish [] with tx := tx.toText }) (w := { w with db })
    hlog hcan (hwk.accepts _) (by
      show (w.git.refs.get? ((env.repo _).finish []).checkout.mainBranch).isSome
      rw [(hwk.mains _).2]; exact hmain)
  refine ⟨w1, ?_, e2, ?_⟩
  · unfold record
    rw [hdb, hkind, hcr]
    simp only
    rw [e1]
    simp only [recordAction, hi, if_true]
  · rw [e3, if_pos rfl]

end Verif.Props

import Verif.Spec.OnDisk
import Verif.Props.RewriteHooks
import Verif.Props.Todo
import Verif.Props.Execute

namespace Verif.Spec

open Verif Verif.Props Verif.SeqEnv

/-! ### contents -/

theorem Known.unique {ee : ExecEnv} (hn : NoCollisions ee) {o : Oid} {d d' : CommitData} (h : Known ee o d)
    (h' : Known ee o d') : d = d' := by
  rcases h with h | h <;> rcases h' with h' | h'
  · rw [h] at h'; cases h'; rfl
  · exact hn.old _ _ _ h' h
  · exact (hn.old _ _ _ h h').symm
  · exact hn.new _ _ _ h' h

theorem known_of_find {ee : ExecEnv} {cr : List (Oid × CommitData)}
    (hcr : ∀ x ∈ cr, ee.createCommit x.2 = some x.1) {o : Oid} {d : CommitData}
    (h : ee.find cr o = some d) : Known ee o d := by
  rcases find_cases h with h | h
  · exact .inr (hcr _ h)
  · exact .inl h

theorem SameCommit.tree {ee : ExecEnv} (hn : NoCollisions ee) {o o' : Oid} (h : SameCommit ee o o')
    {d d' : CommitData} (hd : Known ee o d) (hd' : Known ee o' d') : d.tree = d'.tree := by
  cases h with
  | same => rw [hd.unique hn hd']
  | versions _ _ d1 d2 p p' h1 h2 _ _ h3 =>
    rw [hd.unique hn h1, hd'.unique hn h2, h3]

theorem find_known {ee : ExecEnv} (hn : NoCollisions ee) {cr : List (Oid × CommitData)}
    (hcr : ∀ x ∈ cr, ee.createCommit x.2 = some x.1) {o : Oid} {d : CommitData} (h : ee.commits o = some d) :
    ee.find cr o = some d := by
  obtain ⟨d', hd'⟩ := Option.isSome_iff_exists.1 (find_isSome_of_commits (cr := cr) h)
  rw [hd']
  rw [Known.unique hn (known_of_find hcr hd') (.inl h)]

/-! ### the rewritten-list -/

theorem addRewrittenListEntries_form {shuffle : List (Oid × MaybeZero) → List (Oid × MaybeZero)}
    {file : Option Text} {entries : List (Oid × MaybeZero)} {f : Text}
    (h : addRewrittenListEntries shuffle file entries = some f) : ∃ es, f = writeRewrittenList es := by
  unfold addRewrittenListEntries at h
  simp only at h
  split at h
  · simp at h
  · simp only [Option.some.injEq] at h
    exact ⟨_, h.symm⟩

theorem fileEntries_write {file : Option Text} {es : List (Oid × MaybeZero)}
    (h : file.getD [] = writeRewrittenList es) : fileEntries file = some es := by
  cases file with
  | none =>
    cases es with
    | nil => rfl
    | cons e es =>
      exfalso
      have h' : ([] : Text) = writeRewrittenList (e :: es) := h
      have hl := congrArg List.length h'
      unfold writeRewrittenList at hl
      simp at hl
  | some t =>
    have h' : t = writeRewrittenList es := h
    subst h'
    exact rewritten_list_roundtrip es

/-- Adding entries with the hook. -/
theorem addEntries_spec {shuffle : List (Oid × MaybeZero) → List (Oid × MaybeZero)}
    (hs : ∀ l, (shuffle l).Perm l) {file : Option Text} {es : List (Oid × MaybeZero)}
    (hf : file.getD [] = writeRewrittenList es) (hn : (es.map Prod.fst).Nodup)
    (entries : List (Oid × MaybeZero)) :
    ∃ new, addRewrittenListEntries shuffle file entries = some (writeRewrittenList new) ∧
      (new.map Prod.fst).Nodup ∧
      ∀ k, AMap.get? new k = (newestEntry entries k).or (AMap.get? es k) := by
  obtain ⟨file', new, h1, h2, h3, h4⟩ :=
    update_overrides_partial shuffle hs file es entries (fileEntries_write hf) hn
  obtain ⟨es', rfl⟩ := addRewrittenListEntries_form h1
  have : es' = new := by
    have h5 : readRewrittenListEntries (writeRewrittenList es') = some new := h2
    rw [rewritten_list_roundtrip] at h5
    exact Option.some.inj h5
  subst this
  refine ⟨es', h1, h3, fun k => ?_⟩
  rw [← newestEntry_of_nodup h3, ← newestEntry_of_nodup hn]
  exact h4 k

theorem writeRewrittenList_append (a b : List (Oid × MaybeZero)) :
    writeRewrittenList (a ++ b) = writeRewrittenList a ++ writeRewrittenList b := by
  unfold writeRewrittenList
  rw [List.flatMap_append]

theorem amap_get?_append_single {es : List (Oid × MaybeZero)} (c : Oid) (v : MaybeZero)
    (h : AMap.get? es c = none) (k : Oid) :
    AMap.get? (es ++ [(c, v)]) k = if c = k then some v else AMap.get? es k := by
  induction es with
  | nil => simp [AMap.get?_cons]
  | cons e es ih =>
    obtain ⟨a, w⟩ := e
    rw [AMap.get?_cons] at h
    have hac : a ≠ c := by
      rintro rfl
      simp at h
    rw [if_neg hac] at h
    rw [List.cons_append, AMap.get?_cons, AMap.get?_cons, ih h]
    by_cases hak : a = k
    · subst hak
      rw [if_pos rfl, if_neg (Ne.symm hac), if_pos rfl]
    · rw [if_neg hak, if_neg hak]

/-! ### the relation -/

/-- How the states of the two rebases correspond, when the commits in `done` have been handled. -/
structure DiskRel (ee : ExecEnv) (R : Oid → Prop) (head : Option Oid) (f0 : RebaseFiles) (done : List Oid) (s : ExecState)
    (t : SeqState) : Prop where
  memCreated : ∀ x ∈ s.created, ee.createCommit x.2 = some x.1
  diskCreated : ∀ x ∈ t.created, ee.createCommit x.2 = some x.1
  current : SameCommit ee s.current t.head
  found : (ee.find t.created t.head).isSome
  labels : ∀ l o, AMap.get? s.labels l = some o → ∃ o', AMap.get? t.labels l = some o' ∧ SameCommit ee o o' ∧
    (ee.find t.created o').isSome
  entries : ∃ es, t.files.rewrittenList.getD [] = writeRewrittenList es ∧ (es.map Prod.fst).Nodup ∧
    (∀ k, R k → SameFate ee (AMap.get? s.rewritten k) (AMap.get? es k)) ∧
    ∀ k n, AMap.get? es k = some (.nonZero n) → (ee.find t.created n).isSome
  handled : ∀ k, (AMap.get? s.rewritten k).isSome → k ∈ done
  all : ∀ k ∈ done, (AMap.get? s.rewritten k).isSome
  zero : ∀ h, head = some h → AMap.get? s.rewritten h = some .zero → s.skippedHead.isSome
  skippedDone : s.skippedHead.isSome → ∃ h, head = some h ∧ h ∈ done
  skipped : ∃ u, t.files.updatedHead = u.map Oid.toText ∧ Option.Rel (SameCommit ee) s.skippedHead u ∧
    ∀ q, u = some q → (ee.find t.created q).isSome
  orig : t.files.origHead = head.map Oid.toText
  dates : t.files.cdateIsAdate = ee.preserveTimestamps
  deferred : ∃ os : List Oid, t.files.deferred.getD [] = os.flatMap (fun o => o.toText ++ ['\n']) ∧
    os = (t.created.map Prod.fst).reverse
  kept : t.files.originalHeadOid = f0.originalHeadOid ∧ t.files.originalHead = f0.originalHead

theorem runPick_one_parent {ee : ExecEnv} {head : Option Oid} {s s' : ExecState} {c : Oid}
    (h : ee.runPick head s c [c] = .ok s') :
    ∃ d, ee.find s.created c = some d ∧ ¬ d.parents.length > 1 := by
  unfold ExecEnv.runPick at h
  split at h
  · rename_i cur orig hcur horig
    refine ⟨orig, horig, fun hlen => ?_⟩
    split at h
    · simp at h
    simp only at h
    rw [List.foldlM_cons] at h
    unfold ExecEnv.pickOne at h
    simp only [horig] at h
    rw [if_pos hlen] at h
    exact nomatch h
  · simp at h

/-- The disk's side of a `pick`, before it is looked whether the commit is empty. -/
structure Picked (ee : ExecEnv) (R : Oid → Prop) (t : SeqState) (c : Oid) (orig : CommitData) (tree : Nat) (t1 : SeqState) :
    Prop where
  labels : t1.labels = t.labels
  created : ∃ new, t1.created = new ++ t.created ∧ (∀ x ∈ new, ee.createCommit x.2 = some x.1) ∧
    t1.files.deferred.getD [] = t.files.deferred.getD [] ++
      ((new.map Prod.fst).reverse.flatMap fun o => o.toText ++ ['\n'])
  data : ∃ d, ee.find t1.created t1.head = some d ∧ d.parents = [t.head] ∧ d.tree = tree ∧
    d.message = orig.message ∧ d.author = orig.author
  list : t1.files.rewrittenList =
    some (t.files.rewrittenList.getD [] ++ writeRewrittenList [(c, .nonZero t1.head)])
  files : t1.files.updatedHead = t.files.updatedHead ∧ t1.files.origHead = t.files.origHead ∧
    t1.files.cdateIsAdate = t.files.cdateIsAdate ∧ t1.files.originalHeadOid = t.files.originalHeadOid ∧
    t1.files.originalHead = t.files.originalHead
  fresh : ∀ hd, ee.find t.created t.head = some hd → hd.tree = tree →
    R t1.head → t1.head = c

theorem pick_disk {env : SeqEnv} {ee : ExecEnv} {R : Oid → Prop} (hn : NoCollisions ee) (hp : GitPicks env ee R)
    {t : SeqState} (hcr : ∀ x ∈ t.created, ee.createCommit x.2 = some x.1) {c : Oid} {orig hd : CommitData}
    (hc : ee.commits c = some orig) (hlen : ¬ orig.parents.length > 1)
    (hh : ee.find t.created t.head = some hd) {tree : Nat} (ht : env.pick c hd.tree = .ok tree) :
    seqPick env ee t c = .error .unwritable ∨ ∃ t1, seqPick env ee t c = .ok t1 ∧ Picked ee R t c orig tree t1 := by
  have hf : ee.find t.created c = some orig := find_known hn hcr hc
  unfold seqPick
  rw [hf]
  simp only
  rw [if_neg hlen]
  by_cases hff : t.files.cdateIsAdate = false ∧ orig.parents = [t.head]
  · rw [if_pos hff]
    right
    refine ⟨_, rfl, rfl, ⟨[], rfl, by simp, by simp [recordRewritten]⟩, ⟨orig, hf, hff.2, ?_, rfl, rfl⟩, rfl,
      ⟨rfl, rfl, rfl, rfl, rfl⟩, fun _ _ _ _ => rfl⟩
    have := hp.own c orig t.head hd hc hff.2 (known_of_find hcr hh)
    rw [ht] at this
    cases this
    rfl
  · rw [if_neg hff, hh]
    simp only
    rw [ht]
    simp only
    unfold commitAs
    simp only
    cases hw : ee.createCommit ⟨[t.head], tree, orig.message, orig.author, env.user,
        if t.files.cdateIsAdate = true then env.authorTime orig.author else env.clock t.created.length⟩ with
    | none => left; rfl
    | some o =>
      right
      refine ⟨_, rfl, rfl, ⟨[(o, _)], rfl, ?_, ?_⟩, ⟨⟨[t.head], tree, orig.message, orig.author, env.user,
        if t.files.cdateIsAdate = true then env.authorTime orig.author else env.clock t.created.length⟩,
        ?_, rfl, rfl, rfl, rfl⟩, rfl, ⟨rfl, rfl, rfl, rfl, rfl⟩, ?_⟩
      · intro x hx
        simp only [List.mem_singleton] at hx
        subst hx
        exact hw
      · simp [recordRewritten, deferCommit]
      · simp [recordRewritten, ExecEnv.find, AMap.get?_cons]
      · intro hd' hh' htree hR
        rw [hh] at hh'
        cases hh'
        exact hp.fresh c orig ⟨[t.head], tree, orig.message, orig.author, env.user, _⟩ t.head hd o hc rfl rfl rfl hw rfl (known_of_find hcr hh) htree hR

theorem find_grow {ee : ExecEnv} {cr new : List (Oid × CommitData)} {o : Oid} (h : (ee.find cr o).isSome) :
    (ee.find (new ++ cr) o).isSome := find_isSome_append h

theorem hookDrop_eq {env : SeqEnv} {ee : ExecEnv} {t : SeqState} {d : CommitData} {p : Oid} {pd : CommitData}
    (h1 : ee.find t.created t.head = some d) (h2 : d.parents = [p]) (h3 : ee.find t.created p = some pd)
    (c : Oid) :
    hookDropCommitIfEmpty env ee t c =
      if d.tree = pd.tree then
        addRewritten env
          (if some c = origHeadOid t then
            { t with head := p, files := t.files.saveUpdatedHeadOid p } else { t with head := p })
          [(c, .zero), (t.head, .zero)]
      else .ok t := by
  unfold hookDropCommitIfEmpty
  rw [h1]
  simp only
  have he : isEmpty ee t.created d = decide (d.tree = pd.tree) := by
    unfold isEmpty
    rw [h2]
    simp only
    rw [h3]
  rw [he]
  by_cases ht : d.tree = pd.tree
  · rw [if_pos ht]
    simp only [ht, decide_true, Bool.not_true, Bool.false_eq_true, if_false]
    rw [h2]
    simp only
    rfl
  · rw [if_neg ht]
    simp [ht]

theorem parse_map_toText (o : Option Oid) : (o.map Oid.toText).bind Oid.parse = o := by
  cases o with
  | none => rfl
  | some o =>
    rw [Option.map_some, Option.bind_some]
    exact Oid.parse_toText o

theorem sameFate_not_mem {ee : ExecEnv} {a b : Option MaybeZero} (h : SameFate ee a b) (ha : a = none) :
    b = none := by
  subst ha
  cases h
  rfl

theorem fate_insert {ee : ExecEnv} {R : Oid → Prop} {m es new : AMap Oid MaybeZero} {c : Oid} {v v' : MaybeZero}
    (h : ∀ k, R k → SameFate ee (AMap.get? m k) (AMap.get? es k))
    (hv : SameFate ee (some v) (some v'))
    (hnew : ∀ k, R k → AMap.get? new k = if c = k then some v' else AMap.get? es k) (k : Oid)
    (hk : R k) : SameFate ee (AMap.get? (AMap.insert m c v) k) (AMap.get? new k) := by
  rw [AMap.get?_insert, hnew k hk]
  by_cases hck : c = k
  · rw [if_pos hck, if_pos hck]; exact hv
  · rw [if_neg hck, if_neg hck]; exact h k hk

/-- A pick, and the look whether the commit is empty. -/
theorem pick_block {env : SeqEnv} {ee : ExecEnv} {R : Oid → Prop} (hn : NoCollisions ee) (hp : GitPicks env ee R)
    {head : Option Oid} {f0 : RebaseFiles} {done : List Oid} {s s' : ExecState} {t : SeqState}
    (hrel : DiskRel ee R head f0 done s t) {c : Oid} (hc : ∃ d, ee.commits c = some d) (hR : R c) (hdone : c ∉ done)
    (hrun : ee.runPick head s c [c] = .ok s') :
    (seqPick env ee t c = .error .unwritable) ∨ ∃ t1 t', seqPick env ee t c = .ok t1 ∧
      hookDropCommitIfEmpty env ee t1 c = .ok t' ∧ DiskRel ee R head f0 (done ++ [c]) s' t' := by
  obtain ⟨orig, hc⟩ := hc
  have hfc := find_known hn hrel.memCreated hc
  obtain ⟨d0, hd0, hlen⟩ := runPick_one_parent hrun
  rw [hfc] at hd0
  cases hd0
  obtain ⟨hlab, ⟨mnew, hmc, hmn⟩, cur, orig', tree, hcur, horig, happ, hres⟩ := runPick_done hrun
  rw [hfc] at horig
  cases horig
  have hpick := happ.one
  obtain ⟨hd, hh⟩ := Option.isSome_iff_exists.1 hrel.found
  have htree : cur.tree = hd.tree := hrel.current.tree hn (known_of_find hrel.memCreated hcur)
    (known_of_find hrel.diskCreated hh)
  have ht : env.pick c hd.tree = .ok tree := by
    rw [← htree]
    exact hp.agrees c _ cur tree (known_of_find hrel.memCreated hcur) hpick
  rcases pick_disk hn hp hrel.diskCreated hc hlen hh ht with hu | ⟨t1, h1, P⟩
  · exact .inl hu
  right
  obtain ⟨new, hcr1, hnew, hdef⟩ := P.created
  obtain ⟨d, hfd, hdp, hdt, hdm, hda⟩ := P.data
  have hcr1' : ∀ x ∈ t1.created, ee.createCommit x.2 = some x.1 := by
    rw [hcr1]
    intro x hx
    rcases List.mem_append.1 hx with hx | hx
    · exact hnew x hx
    · exact hrel.diskCreated x hx
  have hmc' : ∀ x ∈ s'.created, ee.createCommit x.2 = some x.1 := by
    rw [hmc]
    intro x hx
    rcases List.mem_append.1 hx with hx | hx
    · exact hmn x hx
    · exact hrel.memCreated x hx
  have hhead1 : ee.find t1.created t.head = some hd := by
    rw [hcr1]
    exact find_mono hn hrel.diskCreated hnew hh
  have hgrow : ∀ o, (ee.find t.created o).isSome → (ee.find t1.created o).isSome := by
    intro o ho
    rw [hcr1]
    exact find_grow ho
  have hnone : AMap.get? s.rewritten c = none := by
    cases hr : AMap.get? s.rewritten c with
    | none => rfl
    | some v => exact absurd (hrel.handled c (by rw [hr]; rfl)) hdone
  have hskn : head = some c → s.skippedHead = none := by
    intro hhd
    cases hr : s.skippedHead with
    | none => rfl
    | some v =>
      obtain ⟨h, h2, h3⟩ := hrel.skippedDone (by rw [hr]; rfl)
      rw [hhd] at h2
      cases h2
      exact absurd h3 hdone
  obtain ⟨es, he1, he2, he3, he4⟩ := hrel.entries
  have hesn : AMap.get? es c = none := sameFate_not_mem (he3 c hR) hnone
  have hlist1 : t1.files.rewrittenList.getD [] = writeRewrittenList (es ++ [(c, .nonZero t1.head)]) := by
    rw [P.list, writeRewrittenList_append, he1]
    rfl
  have hnd1 : ((es ++ [(c, MaybeZero.nonZero t1.head)]).map Prod.fst).Nodup := by
    rw [List.map_append, List.nodup_append]
    refine ⟨he2, by simp, ?_⟩
    intro a ha b hb
    simp only [List.map_cons, List.map_nil, List.mem_singleton] at hb
    subst hb
    rintro rfl
    have : a ∈ AMap.keys es := ha
    rw [AMap.mem_keys_iff, hesn] at this
    simp at this
  have hdef1 : ∃ os : List Oid, t1.files.deferred.getD [] = os.flatMap (fun o => o.toText ++ ['\n']) ∧
      os = (t1.created.map Prod.fst).reverse := by
    obtain ⟨os, ho1, ho2⟩ := hrel.deferred
    refine ⟨_, ?_, rfl⟩
    rw [hdef, ho1, ho2, hcr1, List.map_append, List.reverse_append, List.flatMap_append]
  obtain ⟨f1, f2, f3, f4, f5⟩ := P.files
  obtain ⟨u, hu1, hu2, hu3⟩ := hrel.skipped
  have hdrop := hookDrop_eq (env := env) hfd hdp hhead1 c
  rw [hdt] at hdrop
  rcases hres with ⟨e1, e2, e3, e4⟩ | ⟨e1, e2, e3, e4⟩
  · -- nothing is left of the commit
    have he : tree = hd.tree := by rw [e1, htree]
    rw [if_pos he] at hdrop
    have horigc : (some c = origHeadOid t1) ↔ head = some c := by
      unfold origHeadOid
      rw [f2, hrel.orig, parse_map_toText]
      exact eq_comm
    have hs4 : ∀ list : Text, DiskRel ee R head f0 (done ++ [c]) s'
        ⟨t.head, t1.labels, t1.created, { (if some c = origHeadOid t1 then t1.files.saveUpdatedHeadOid t.head
          else t1.files) with rewrittenList := some list }⟩ ∨
        ¬ ∃ es', list = writeRewrittenList es' ∧ (es'.map Prod.fst).Nodup ∧
          ∀ k, AMap.get? es' k = (newestEntry [(c, .zero), (t1.head, .zero)] k).or
            (AMap.get? (es ++ [(c, MaybeZero.nonZero t1.head)]) k) := by
      intro list
      by_cases hl : ∃ es', list = writeRewrittenList es' ∧ (es'.map Prod.fst).Nodup ∧
          ∀ k, AMap.get? es' k = (newestEntry [(c, .zero), (t1.head, .zero)] k).or
            (AMap.get? (es ++ [(c, MaybeZero.nonZero t1.head)]) k)
      swap
      · exact .inr hl
      left
      obtain ⟨es', rfl, hnd', hget'⟩ := hl
      have hget : ∀ k, R k →
          AMap.get? es' k = if c = k then some .zero else AMap.get? es k := by
        intro k hk
        rw [hget', amap_get?_append_single c _ hesn k]
        by_cases hck : c = k
        · subst hck
          rw [if_pos rfl]
          simp [newestEntry]
          by_cases ht1 : t1.head = c <;> simp [ht1]
        · rw [if_neg hck, if_neg hck]
          have hkn : t1.head ≠ k := by
            rintro rfl
            exact hck (P.fresh hd hh he.symm hk).symm
          simp [newestEntry, hck, hkn]
      constructor
      · exact hmc'
      · exact hcr1'
      · rw [e2]; exact hrel.current
      · show (ee.find t1.created t.head).isSome
        rw [hhead1]; rfl
      · intro l o hl
        rw [hlab] at hl
        obtain ⟨o', a1, a2, a3⟩ := hrel.labels l o hl
        refine ⟨o', ?_, a2, hgrow _ a3⟩
        show AMap.get? t1.labels l = some o'
        rw [P.labels]; exact a1
      · refine ⟨es', rfl, hnd', ?_, ?_⟩
        · rw [e3]
          exact fate_insert he3 .dropped hget
        · intro k n hkn
          rw [hget', amap_get?_append_single c _ hesn k] at hkn
          by_cases hck : c = k
          · subst hck
            simp [newestEntry] at hkn
            by_cases ht1 : t1.head = c <;> simp [ht1] at hkn
          · rw [if_neg hck] at hkn
            by_cases ht1 : t1.head = k
            · simp [newestEntry, ht1] at hkn
            · simp only [newestEntry, List.reverse_cons, List.reverse_nil, List.nil_append,
                List.singleton_append, List.find?_cons, ht1, hck, decide_false, List.find?_nil,
                Option.map_none, Option.none_or] at hkn
              exact hgrow _ (he4 k n hkn)
      · intro k hk
        rw [e3, AMap.get?_insert] at hk
        by_cases hck : c = k
        · subst hck; simp
        · rw [if_neg hck] at hk
          exact List.mem_append_left _ (hrel.handled k hk)
      · intro k hk
        rw [e3, AMap.get?_insert]
        by_cases hck : c = k
        · rw [if_pos hck]; rfl
        · rw [if_neg hck]
          rcases List.mem_append.1 hk with hk | hk
          · exact hrel.all k hk
          · exact absurd (List.mem_singleton.1 hk).symm hck
      · intro h hh' hz
        rw [e4]
        unfold ExecEnv.setSkippedHead
        by_cases hcx : some c = head
        · rw [if_pos hcx]; rfl
        · rw [if_neg hcx]
          rw [e3, AMap.get?_insert, if_neg] at hz
          · exact hrel.zero h hh' hz
          · rintro rfl; exact hcx hh'.symm
      · intro hsk
        rw [e4] at hsk
        unfold ExecEnv.setSkippedHead at hsk
        by_cases hcx : some c = head
        · exact ⟨c, hcx.symm, by simp⟩
        · rw [if_neg hcx] at hsk
          obtain ⟨h, a1, a2⟩ := hrel.skippedDone hsk
          exact ⟨h, a1, List.mem_append_left _ a2⟩
      · rw [e4]
        unfold ExecEnv.setSkippedHead
        by_cases hcx : some c = head
        · refine ⟨some t.head, ?_, ?_, ?_⟩
          · simp only [if_pos (horigc.2 hcx.symm)]
            rfl
          · rw [if_pos hcx, hskn hcx.symm]
            exact .some hrel.current
          · rintro q ⟨⟩
            exact hgrow _ hrel.found
        · refine ⟨u, ?_, ?_, fun q hq => hgrow _ (hu3 q hq)⟩
          · have : ¬ (some c = origHeadOid t1) := fun h => hcx (horigc.1 h).symm
            simp only [if_neg this]
            rw [f1, hu1]
          · rw [if_neg hcx]; exact hu2
      · show (if some c = origHeadOid t1 then t1.files.saveUpdatedHeadOid t.head else t1.files).origHead = _
        rw [← hrel.orig, ← f2]
        split <;> rfl
      · show (if some c = origHeadOid t1 then t1.files.saveUpdatedHeadOid t.head else t1.files).cdateIsAdate = _
        rw [← hrel.dates, ← f3]
        split <;> rfl
      · obtain ⟨os, a1, a2⟩ := hdef1
        refine ⟨os, ?_, a2⟩
        rw [← a1]
        show (if some c = origHeadOid t1 then t1.files.saveUpdatedHeadOid t.head else t1.files).deferred.getD [] = _
        split <;> rfl
      · constructor
        · rw [← hrel.kept.1, ← f4]
          show (if some c = origHeadOid t1 then t1.files.saveUpdatedHeadOid t.head else t1.files).originalHeadOid = _
          split <;> rfl
        · rw [← hrel.kept.2, ← f5]
          show (if some c = origHeadOid t1 then t1.files.saveUpdatedHeadOid t.head else t1.files).originalHead = _
          split <;> rfl
    obtain ⟨es', g1, g2, g3⟩ := addEntries_spec hp.order hlist1 hnd1 [(c, .zero), (t1.head, .zero)]
    have hr := (hs4 (writeRewrittenList es')).resolve_right (not_not_intro ⟨es', rfl, g2, g3⟩)
    refine ⟨t1, _, h1, hdrop.trans ?_, hr⟩
    unfold addRewritten
    by_cases hcx : some c = origHeadOid t1
    · simp only [if_pos hcx]
      have : t1.files.rewrittenList = (t1.files.saveUpdatedHeadOid t.head).rewrittenList := rfl
      rw [← this, g1]
    · simp only [if_neg hcx]
      rw [g1]
  · -- a new commit
    have he : ¬ tree = hd.tree := by rw [← htree]; exact e1
    rw [if_neg he] at hdrop
    refine ⟨t1, t1, h1, hdrop, ?_⟩
    have hkm : Known ee s'.current (newVersion ee orig s.current tree) := .inr (hmc' _ e4)
    have hsame : SameCommit ee s'.current t1.head :=
      .versions _ _ _ d s.current t.head hkm (known_of_find hcr1' hfd) rfl hdp hdt.symm hdm.symm hda.symm hrel.current
    have e3' : s'.rewritten = AMap.insert (AMap.insert s.rewritten c (.nonZero s'.current)) c (.nonZero s'.current) := e3
    have hget : ∀ k, R k → AMap.get? (es ++ [(c, MaybeZero.nonZero t1.head)]) k =
        if c = k then some (.nonZero t1.head) else AMap.get? es k :=
      fun k _ => amap_get?_append_single c _ hesn k
    constructor
    · exact hmc'
    · exact hcr1'
    · exact hsame
    · rw [hfd]; rfl
    · intro l o hl
      rw [hlab] at hl
      obtain ⟨o', a1, a2, a3⟩ := hrel.labels l o hl
      exact ⟨o', by rw [P.labels]; exact a1, a2, hgrow _ a3⟩
    · refine ⟨_, hlist1, hnd1, ?_, ?_⟩
      · intro k hk
        rw [e3']
        refine fate_insert (es := es ++ [(c, MaybeZero.nonZero t1.head)]) ?_ (.new _ _ hsame) ?_ k hk
        · exact fate_insert he3 (.new _ _ hsame) hget
        · intro k hk
          rw [hget k hk]
          by_cases hck : c = k <;> simp [hck]
      · intro k n hkn
        rw [amap_get?_append_single c _ hesn k] at hkn
        by_cases hck : c = k
        · rw [if_pos hck] at hkn
          cases hkn
          rw [hfd]; rfl
        · rw [if_neg hck] at hkn
          exact hgrow _ (he4 k n hkn)
    · intro k hk
      rw [e3', AMap.get?_insert, AMap.get?_insert] at hk
      by_cases hck : c = k
      · subst hck; simp
      · rw [if_neg hck, if_neg hck] at hk
        exact List.mem_append_left _ (hrel.handled k hk)
    · intro k hk
      rw [e3', AMap.get?_insert, AMap.get?_insert]
      by_cases hck : c = k
      · rw [if_pos hck]; rfl
      · rw [if_neg hck, if_neg hck]
        rcases List.mem_append.1 hk with hk | hk
        · exact hrel.all k hk
        · exact absurd (List.mem_singleton.1 hk).symm hck
    · intro h hh' hz
      rw [e2]
      rw [e3', AMap.get?_insert, AMap.get?_insert] at hz
      by_cases hck : c = h
      · rw [if_pos hck] at hz; simp at hz
      · rw [if_neg hck, if_neg hck] at hz
        exact hrel.zero h hh' hz
    · intro hsk
      rw [e2] at hsk
      obtain ⟨h, a1, a2⟩ := hrel.skippedDone hsk
      exact ⟨h, a1, List.mem_append_left _ a2⟩
    · rw [e2]
      exact ⟨u, by rw [f1, hu1], hu2, fun q hq => hgrow _ (hu3 q hq)⟩
    · rw [f2]; exact hrel.orig
    · rw [f3]; exact hrel.dates
    · exact hdef1
    · rw [f4, f5]; exact hrel.kept

/-! ### the other commands -/

theorem seqExec_detect (env : SeqEnv) (ee : ExecEnv) (t : SeqState) (c : Oid) :
    seqExec env ee t [t!"git", t!"branchless", t!"hook-detect-empty-commit", c.toText] =
      hookDropCommitIfEmpty env ee t c := by
  unfold seqExec
  simp only
  rw [Oid.parse_toText]
  simp only
  rw [if_pos ⟨trivial, trivial, trivial⟩]

theorem seqExec_skip (env : SeqEnv) (ee : ExecEnv) (t : SeqState) (c : Oid) :
    seqExec env ee t [t!"git", t!"branchless", t!"hook-skip-upstream-applied-commit", c.toText] =
      hookSkipUpstreamAppliedCommit env ee t c := by
  unfold seqExec
  simp only
  rw [Oid.parse_toText]
  simp only
  rw [if_neg (by decide), if_pos ⟨trivial, trivial, trivial⟩]

theorem seqExec_register (env : SeqEnv) (ee : ExecEnv) (t : SeqState) :
    seqExec env ee t [t!"git", t!"branchless", t!"hook-register-extra-post-rewrite-hook"] =
      .ok (hookRegisterExtraPostRewriteHook t) := by
  unfold seqExec
  simp only
  rw [if_pos ⟨trivial, trivial, trivial⟩]

theorem skip_disk {env : SeqEnv} {ee : ExecEnv} {R : Oid → Prop} (hn : NoCollisions ee) (hp : GitPicks env ee R)
    {head : Option Oid} {f0 : RebaseFiles} {done : List Oid} {s s' : ExecState} {t : SeqState}
    (hrel : DiskRel ee R head f0 done s t) {c : Oid} (hc : ∃ d, ee.commits c = some d) (hR : R c) (hdone : c ∉ done)
    (hrun : ee.runCommand head s (.skipUpstreamAppliedCommit c) = .ok s') :
    ∃ t', hookSkipUpstreamAppliedCommit env ee t c = .ok t' ∧ DiskRel ee R head f0 (done ++ [c]) s' t' := by
  obtain ⟨orig, hc⟩ := hc
  have hs' : s' = { s with
        rewritten := AMap.insert s.rewritten c .zero
        skippedHead := ExecEnv.setSkippedHead head s.skippedHead c s.current } := by
    unfold ExecEnv.runCommand at hrun
    simp only at hrun
    split at hrun
    · cases hrun
    · cases hrun; rfl
  have hfc := find_known hn hrel.diskCreated hc
  have hnone : AMap.get? s.rewritten c = none := by
    cases hr : AMap.get? s.rewritten c with
    | none => rfl
    | some v => exact absurd (hrel.handled c (by rw [hr]; rfl)) hdone
  have hskn : head = some c → s.skippedHead = none := by
    intro hhd
    cases hr : s.skippedHead with
    | none => rfl
    | some v =>
      obtain ⟨h, h2, h3⟩ := hrel.skippedDone (by rw [hr]; rfl)
      rw [hhd] at h2
      cases h2
      exact absurd h3 hdone
  obtain ⟨es, he1, he2, he3, he4⟩ := hrel.entries
  obtain ⟨es', g1, g2, g3⟩ := addEntries_spec hp.order he1 he2 [(c, .zero)]
  have horigc : (origHeadOid t = some c) ↔ head = some c := by
    unfold origHeadOid
    rw [hrel.orig, parse_map_toText]
  obtain ⟨u, hu1, hu2, hu3⟩ := hrel.skipped
  obtain ⟨os, o1, o2⟩ := hrel.deferred
  have hget : ∀ k, AMap.get? es' k = if c = k then some .zero else AMap.get? es k := by
    intro k
    rw [g3]
    by_cases hck : c = k <;> simp [newestEntry, hck]
  refine ⟨{ t with files := { (if origHeadOid t = some c then t.files.saveUpdatedHeadOid t.head else t.files) with
      rewrittenList := some (writeRewrittenList es') } }, ?_, ?_⟩
  · unfold hookSkipUpstreamAppliedCommit
    rw [hfc]
    simp only
    unfold addRewritten
    by_cases hcx : origHeadOid t = some c
    · simp only [if_pos hcx]
      have : t.files.rewrittenList = (t.files.saveUpdatedHeadOid t.head).rewrittenList := rfl
      rw [← this, g1]
    · simp only [if_neg hcx]
      rw [g1]
  · subst hs'
    constructor
    · exact hrel.memCreated
    · exact hrel.diskCreated
    · exact hrel.current
    · exact hrel.found
    · exact hrel.labels
    · refine ⟨es', rfl, g2, ?_, ?_⟩
      · exact fate_insert he3 .dropped (fun k _ => hget k)
      · intro k n hkn
        rw [hget] at hkn
        by_cases hck : c = k
        · rw [if_pos hck] at hkn; simp at hkn
        · rw [if_neg hck] at hkn
          exact he4 k n hkn
    · intro k hk
      change (AMap.get? (AMap.insert s.rewritten c .zero) k).isSome at hk
      rw [AMap.get?_insert] at hk
      by_cases hck : c = k
      · subst hck; simp
      · rw [if_neg hck] at hk
        exact List.mem_append_left _ (hrel.handled k hk)
    · intro k hk
      show (AMap.get? (AMap.insert s.rewritten c .zero) k).isSome
      rw [AMap.get?_insert]
      by_cases hck : c = k
      · rw [if_pos hck]; rfl
      · rw [if_neg hck]
        rcases List.mem_append.1 hk with hk | hk
        · exact hrel.all k hk
        · exact absurd (List.mem_singleton.1 hk).symm hck
    · intro h hh' hz
      change AMap.get? (AMap.insert s.rewritten c .zero) h = some .zero at hz
      show (ExecEnv.setSkippedHead head s.skippedHead c s.current).isSome
      unfold ExecEnv.setSkippedHead
      by_cases hcx : some c = head
      · rw [if_pos hcx]; rfl
      · rw [if_neg hcx]
        rw [AMap.get?_insert, if_neg] at hz
        · exact hrel.zero h hh' hz
        · rintro rfl; exact hcx hh'.symm
    · intro hsk
      change (ExecEnv.setSkippedHead head s.skippedHead c s.current).isSome at hsk
      unfold ExecEnv.setSkippedHead at hsk
      by_cases hcx : some c = head
      · exact ⟨c, hcx.symm, by simp⟩
      · rw [if_neg hcx] at hsk
        obtain ⟨h, a1, a2⟩ := hrel.skippedDone hsk
        exact ⟨h, a1, List.mem_append_left _ a2⟩
    · show ∃ u, _ ∧ Option.Rel (SameCommit ee) (ExecEnv.setSkippedHead head s.skippedHead c s.current) u ∧ _
      unfold ExecEnv.setSkippedHead
      by_cases hcx : some c = head
      · refine ⟨some t.head, ?_, ?_, ?_⟩
        · simp only [if_pos (horigc.2 hcx.symm)]
          rfl
        · rw [if_pos hcx, hskn hcx.symm]
          exact .some hrel.current
        · rintro q ⟨⟩
          exact hrel.found
      · refine ⟨u, ?_, ?_, hu3⟩
        · have : ¬ (origHeadOid t = some c) := fun h => hcx (horigc.1 h).symm
          simp only [if_neg this]
          exact hu1
        · rw [if_neg hcx]; exact hu2
    · rw [← hrel.orig]
      show (if origHeadOid t = some c then t.files.saveUpdatedHeadOid t.head else t.files).origHead = _
      split <;> rfl
    · rw [← hrel.dates]
      show (if origHeadOid t = some c then t.files.saveUpdatedHeadOid t.head else t.files).cdateIsAdate = _
      split <;> rfl
    · refine ⟨os, ?_, o2⟩
      rw [← o1]
      show (if origHeadOid t = some c then t.files.saveUpdatedHeadOid t.head else t.files).deferred.getD [] = _
      split <;> rfl
    · constructor
      · rw [← hrel.kept.1]
        show (if origHeadOid t = some c then t.files.saveUpdatedHeadOid t.head else t.files).originalHeadOid = _
        split <;> rfl
      · rw [← hrel.kept.2]
        show (if origHeadOid t = some c then t.files.saveUpdatedHeadOid t.head else t.files).originalHead = _
        split <;> rfl

theorem seqRun_cons {env : SeqEnv} {ee : ExecEnv} {t t1 : SeqState} {i : TodoItem} {is : List TodoItem}
    (h : seqStep env ee t i = .ok t1) : seqRun env ee t (i :: is) = seqRun env ee t1 is := by
  unfold seqRun
  rw [List.foldlM_cons, h]
  rfl

theorem seqRun_error {env : SeqEnv} {ee : ExecEnv} {t : SeqState} {i : TodoItem} {is : List TodoItem} {e : SeqStop}
    (h : seqStep env ee t i = .error e) : seqRun env ee t (i :: is) = .error e := by
  unfold seqRun
  rw [List.foldlM_cons, h]
  rfl

theorem meaning_cons (c : RebaseCommand) (i : TodoItem) (cs : List RebaseCommand) (h : todoMeaning c = some i) :
    (c :: cs).filterMap todoMeaning = i :: cs.filterMap todoMeaning := List.filterMap_cons_some h

/-- The two rebases stay in step. -/
theorem blocks_sim {env : SeqEnv} {ee : ExecEnv} {R : Oid → Prop} (hn : NoCollisions ee) (hp : GitPicks env ee R)
    {head : Option Oid} {f0 : RebaseFiles} {cs : List RebaseCommand} (hb : Blocks cs) :
    ∀ {done : List Oid} {s s' : ExecState} {t : SeqState}, DiskRel ee R head f0 done s t →
      Runs ee head cs s s' → (done ++ handledCommits cs).Nodup →
      (∀ p, .reset (.oid p) ∈ cs → p ∉ done ++ handledCommits cs) →
      (∀ p, .reset (.oid p) ∈ cs → (ee.commits p).isSome) →
      (∀ c ∈ handledCommits cs, R c ∧ (ee.commits c).isSome) →
      seqRun env ee t (cs.filterMap todoMeaning) = .error .unwritable ∨
      ∃ t', seqRun env ee t (cs.filterMap todoMeaning) = .ok t' ∧
        DiskRel ee R head f0 (done ++ handledCommits cs) s' t' := by
  induction hb with
  | nil =>
    intro done s s' t hrel hrun _ _ _ _
    rw [runs_nil] at hrun
    subst hrun
    refine .inr ⟨t, rfl, ?_⟩
    simpa [handledCommits] using hrel
  | label l cs _ ih =>
    intro done s s' t hrel hrun hnd hres htg hex
    obtain ⟨s1, h1, h2⟩ := runs_cons.1 hrun
    cases h1
    have hstep : seqStep env ee t (.label l) = .ok { t with labels := AMap.insert t.labels l t.head } := rfl
    rw [meaning_cons _ (.label l) cs rfl, seqRun_cons hstep]
    refine ih ?_ h2 hnd (fun p hp => hres p (.tail _ hp)) (fun p hp => htg p (.tail _ hp)) hex
    refine { hrel with labels := ?_ }
    intro l' o ho
    change AMap.get? (AMap.insert s.labels l s.current) l' = some o at ho
    show ∃ o', AMap.get? (AMap.insert t.labels l t.head) l' = some o' ∧ _
    rw [AMap.get?_insert] at ho ⊢
    by_cases hl : l = l'
    · rw [if_pos hl] at ho ⊢
      cases ho
      exact ⟨_, rfl, hrel.current, hrel.found⟩
    · rw [if_neg hl] at ho ⊢
      exact hrel.labels l' o ho
  | reset tg cs _ ih =>
    intro done s s' t hrel hrun hnd hres htg hex
    obtain ⟨s1, h1, h2⟩ := runs_cons.1 hrun
    cases tg with
    | label l =>
      unfold ExecEnv.runCommand at h1
      simp only at h1
      cases hl : AMap.get? s.labels l with
      | none => rw [hl] at h1; cases h1
      | some o =>
        rw [hl] at h1
        cases h1
        obtain ⟨o', a1, a2, a3⟩ := hrel.labels l o hl
        have hstep : seqStep env ee t (.reset (.label l)) = .ok { t with head := o' } := by
          unfold seqStep resolve
          simp only
          rw [a1]
        rw [meaning_cons _ (.reset (.label l)) cs rfl, seqRun_cons hstep]
        exact ih (s := { s with current := o }) { hrel with current := a2, found := a3 } h2 hnd (fun p hp => hres p (.tail _ hp))
          (fun p hp => htg p (.tail _ hp)) hex
    | oid p =>
      have hpn : p ∉ done := fun h => hres p (.head _) (List.mem_append_left _ h)
      have hnone : AMap.get? s.rewritten p = none := by
        cases hr : AMap.get? s.rewritten p with
        | none => rfl
        | some v => exact absurd (hrel.handled p (by rw [hr]; rfl)) hpn
      unfold ExecEnv.runCommand at h1
      simp only at h1
      rw [hnone] at h1
      cases h1
      obtain ⟨pd, hpd⟩ := Option.isSome_iff_exists.1 (htg p (.head _))
      have hf := find_known hn hrel.diskCreated hpd
      have hstep : seqStep env ee t (.reset (.oid p)) = .ok { t with head := p } := by
        unfold seqStep resolve
        simp only
        rw [hf]
      rw [meaning_cons _ (.reset (.oid p)) cs rfl, seqRun_cons hstep]
      exact ih (s := { s with current := p }) { hrel with current := .same p, found := by rw [show ee.find _ p = _ from hf]; rfl } h2 hnd
        (fun p hp => hres p (.tail _ hp)) (fun p hp => htg p (.tail _ hp)) hex
  | skip c cs _ ih =>
    intro done s s' t hrel hrun hnd hres htg hex
    obtain ⟨s1, h1, h2⟩ := runs_cons.1 hrun
    have hh : handledCommits (.skipUpstreamAppliedCommit c :: cs) = c :: handledCommits cs := rfl
    rw [hh] at hnd hex hres ⊢
    have hcd : c ∉ done := by
      intro h
      exact (List.nodup_append.1 hnd).2.2 c h c (.head _) rfl
    obtain ⟨t1, g1, g2⟩ := skip_disk hn hp hrel (Option.isSome_iff_exists.1 (hex c (.head _)).2) (hex c (.head _)).1
      hcd h1
    have hstep : seqStep env ee t (.exec [t!"git", t!"branchless", t!"hook-skip-upstream-applied-commit", c.toText]) =
        .ok t1 := by
      unfold seqStep
      simp only
      rw [seqExec_skip, g1]
    rw [meaning_cons _ _ cs rfl, seqRun_cons hstep]
    have := ih g2 h2 (by simpa using hnd) (fun p hp => by simpa using hres p (.tail _ hp))
      (fun p hp => htg p (.tail _ hp)) (fun c hc => hex c (.tail _ hc))
    simpa using this
  | register cs _ ih =>
    intro done s s' t hrel hrun hnd hres htg hex
    obtain ⟨s1, h1, h2⟩ := runs_cons.1 hrun
    cases h1
    have hstep : seqStep env ee t (.exec [t!"git", t!"branchless", t!"hook-register-extra-post-rewrite-hook"]) =
        .ok (hookRegisterExtraPostRewriteHook t) := by
      unfold seqStep
      simp only
      rw [seqExec_register]
    rw [meaning_cons _ _ cs rfl, seqRun_cons hstep]
    exact ih { hrel with } h2 hnd (fun p hp => hres p (.tail _ hp)) (fun p hp => htg p (.tail _ hp)) hex
  | pick c cs _ ih =>
    intro done s s' t hrel hrun hnd hres htg hex
    obtain ⟨s1, h1, h2⟩ := runs_cons.1 hrun
    obtain ⟨s2, h3, h4⟩ := runs_cons.1 h2
    cases h3
    have hh : handledCommits (.pick c [c] :: .detectEmptyCommit c :: cs) = c :: handledCommits cs := rfl
    rw [hh] at hnd hex hres ⊢
    have hcd : c ∉ done := by
      intro h
      exact (List.nodup_append.1 hnd).2.2 c h c (.head _) rfl
    rw [meaning_cons _ (.pick c) _ rfl, meaning_cons _ _ cs rfl]
    rcases pick_block hn hp hrel (Option.isSome_iff_exists.1 (hex c (.head _)).2) (hex c (.head _)).1 hcd h1
      with hu | ⟨t1, t2, g1, g2, g3⟩
    · left
      exact seqRun_error (by unfold seqStep; exact hu)
    have hstep : seqStep env ee t (.pick c) = .ok t1 := by
      unfold seqStep; exact g1
    have hstep2 : seqStep env ee t1 (.exec [t!"git", t!"branchless", t!"hook-detect-empty-commit", c.toText]) =
        .ok t2 := by
      unfold seqStep
      simp only
      rw [seqExec_detect, g2]
    rw [seqRun_cons hstep, seqRun_cons hstep2]
    have := ih g3 h4 (by simpa using hnd) (fun p hp => by simpa using hres p (.tail _ (.tail _ hp)))
      (fun p hp => htg p (.tail _ (.tail _ hp))) (fun c hc => hex c (.tail _ hc))
    simpa using this

end Verif.Spec

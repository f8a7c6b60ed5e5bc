import Verif.Lemmas.Trailers
import Verif.Lemmas.Snapshot
import Verif.Lemmas.Text
import Verif.Lemmas.Reword
import Verif.Props.Plan

/-!
C30: a snapshot of the working copy can be loaded again from its base commit; ordinary commits are not
taken for snapshots.
-/

namespace Verif.Props

open Verif Verif.Spec

/-! ### what `create` does -/

/-- The commit of a stage. -/
def _root_.Verif.WcSnapshot.stageCommit (s : WcSnapshot) : Stage → SnapCommit
  | .stage0 => s.stage0
  | .stage1 => s.stage1
  | .stage2 => s.stage2
  | .stage3 => s.stage3

/-- What is known after creating a snapshot. -/
structure Created (r r' : SnapRepo) (index : GitIndex) (headOid : Option Oid) (headRef : Option Text)
    (wc : WorkingCopy) (es : List StatusEntry) (s : WcSnapshot) : Prop where
  grown : Extends r r'
  head : s.head.map r.commitId = headOid
  headMem : ∀ c, s.head = some c → c ∈ r.commits
  ref : s.headRef = headRef
  baseTree : s.base.tree = (s.head.map (·.tree)).getD []
  unstagedTree : unstagedTree (s.head.map (·.tree)) wc es = .ok s.unstaged.tree
  stageTree : ∀ stage, (s.stageCommit stage).tree = stageTree (s.head.map (·.tree)) index stage es
  stageParents : ∀ stage, (s.stageCommit stage).parents = (s.head.map r.commitId).toList
  baseParents : s.base.parents = (s.head.map r.commitId).toList ++
    [r.commitId s.stage0, r.commitId s.stage1, r.commitId s.stage2, r.commitId s.stage3]
  message : s.base.message = snapshotMessage (snapshotTrailers (MaybeZero.ofOption (s.head.map r.commitId))
    headRef (r.commitId s.unstaged) (r.commitId s.stage0) (r.commitId s.stage1) (r.commitId s.stage2)
    (r.commitId s.stage3))
  unstagedMessage : s.unstaged.message = unstagedMessage es
  stageMessage : ∀ stage, (s.stageCommit stage).message = stageMessage index stage es
  stageMem : ∀ stage, s.stageCommit stage ∈ r'.commits
  unstagedMem : s.unstaged ∈ r'.commits
  baseMem : s.base ∈ r'.commits

theorem find_mem {r : SnapRepo} {o : Oid} {c : SnapCommit} (h : r.find o = .ok c) :
    c ∈ r.commits ∧ r.commitId c = o := by
  unfold SnapRepo.find at h
  split at h
  · rename_i d hd
    cases h
    exact ⟨List.mem_of_find?_eq_some hd, by simpa using List.find?_some hd⟩
  · cases h

theorem except_bind_ok {ε α β : Type} {x : Except ε α} {f : α → Except ε β} {b : β}
    (h : (x >>= f) = .ok b) : ∃ a, x = .ok a ∧ f a = .ok b := by
  cases x with
  | error e => cases h
  | ok a => exact ⟨a, rfl, h⟩

theorem created {r r' : SnapRepo} {index : GitIndex} {headOid : Option Oid} {headRef : Option Text}
    {wc : WorkingCopy} {es : List StatusEntry} {s : WcSnapshot}
    (h : createSnapshot r index headOid headRef wc es = .ok (r', s)) :
    Created r r' index headOid headRef wc es s := by
  unfold createSnapshot at h
  obtain ⟨head, hh, h⟩ := except_bind_ok h
  obtain ⟨tree, hu, h⟩ := except_bind_ok h
  have hhead : head.map r.commitId = headOid ∧ ∀ c, head = some c → c ∈ r.commits := by
    cases headOid with
    | none => cases hh; exact ⟨rfl, by simp⟩
    | some o =>
      simp only [findHead] at hh
      cases hf : r.find o with
      | error e => rw [hf] at hh; cases hh
      | ok c =>
        rw [hf] at hh
        cases hh
        obtain ⟨h1, h2⟩ := find_mem hf
        exact ⟨by rw [Option.map_some, h2], fun d hd => by cases hd; exact h1⟩
  obtain ⟨h1, h2⟩ := hhead
  simp only [SnapRepo.createCommit, createCommitForStage, Except.ok.injEq, Prod.mk.injEq] at h
  obtain ⟨rfl, rfl⟩ := h
  refine ⟨⟨rfl, rfl, fun c hc => by simp [hc]⟩, h1, h2, rfl, rfl, hu, ?_, ?_, rfl, rfl, rfl, ?_, ?_, ?_, ?_⟩
  · intro stage; cases stage <;> rfl
  · intro stage; cases stage <;> rfl
  · intro stage; cases stage <;> rfl
  · intro stage; cases stage <;> simp [WcSnapshot.stageCommit]
  · simp
  · simp

/-! ### finding commits again -/

theorem find_of_mem {r : SnapRepo} (hn : NoCollisionsIn r) {c : SnapCommit} (h : c ∈ r.commits) :
    r.find (r.commitId c) = .ok c := by
  unfold SnapRepo.find
  cases e : r.commits.find? fun d => decide (r.commitId d = r.commitId c) with
  | none =>
    have := List.find?_eq_none.1 e c h
    simp at this
  | some d =>
    have h1 := List.mem_of_find?_eq_some e
    have h2 : r.commitId d = r.commitId c := by simpa using List.find?_some e
    rw [hn d h1 c h h2]

theorem find_extended {r r' : SnapRepo} (he : Extends r r') (hn : NoCollisionsIn r') {c : SnapCommit}
    (h : c ∈ r.commits) : r'.find (r.commitId c) = .ok c := by
  have := find_of_mem hn (he.commits c h)
  rwa [he.commitId] at this

/-! ### the message -/

theorem snapshotMessage_eq (ts : List (Text × Text)) (hne : ts ≠ []) :
    snapshotMessage ts = t!"branchless: automated working copy snapshot" ++
      '\n' :: '\n' :: (ts.map trailerLine).flatten := by
  have key : ∀ ts : List (Text × Text), ts ≠ [] →
      List.intercalate t!"\n" (ts.map fun e => e.1 ++ t!": " ++ e.2) ++ t!"\n" =
        (ts.map trailerLine).flatten := by
    intro ts hne
    induction ts with
    | nil => exact absurd rfl hne
    | cons e ts ih =>
      cases ts with
      | nil => simp [trailerLine, List.intercalate]
      | cons f ts =>
        have := ih (by simp)
        rw [List.map_cons (a := e) (f := trailerLine), List.flatten_cons, ← this]
        simp only [List.map_cons, intercalate_cons_cons]
        simp [trailerLine]
  unfold snapshotMessage
  rw [List.append_assoc, key ts hne]
  rfl

theorem hex_keyChar {d : Nat} (h : d < 16) : isKeyChar (hexDigit d) = true := by
  have : ∀ d < 16, isKeyChar (hexDigit d) = true := by decide
  exact this d h

theorem good_of_hex {k v : Text} (hk : k ≠ []) (hc : ∀ c ∈ k, isKeyChar c = true) (hv : v ≠ [])
    (hh : ∀ c ∈ v, isKeyChar c = true) : GoodTrailer (k, v) := by
  refine ⟨hk, hc, hv, ?_, fun h => (keyChar_props (hh _ h)).1 rfl⟩
  cases v with
  | nil => exact absurd rfl hv
  | cons c v =>
    have := keyChar_props (hh c List.mem_cons_self)
    simp [this.2.1, this.2.2.1]

theorem oid_hex (o : Oid) : o.toText ≠ [] ∧ ∀ c ∈ o.toText, isKeyChar c = true := by
  refine ⟨fun h => ?_, fun c hc => ?_⟩
  · have := Oid.length_toText o
    rw [h] at this; simp at this
  · obtain ⟨d, hd, rfl⟩ := Oid.mem_toText hc
    exact hex_keyChar hd

theorem maybeZero_hex (o : MaybeZero) : o.toText ≠ [] ∧ ∀ c ∈ o.toText, isKeyChar c = true := by
  refine ⟨fun h => ?_, fun c hc => ?_⟩
  · have := MaybeZero.length_toText o
    rw [h] at this; simp at this
  · obtain ⟨d, hd, rfl⟩ := MaybeZero.mem_toText hc
    exact hex_keyChar hd

theorem good_ref {name : Text} (h : GoodRefName name) : GoodTrailer (headRefTrailer, name) := by
  obtain ⟨hne, hc⟩ := h
  refine ⟨by dsimp only; decide, by dsimp only; decide, hne, ?_, fun h => absurd (hc _ h) (by decide)⟩
  cases name with
  | nil => exact absurd rfl hne
  | cons c v =>
    have := hc c List.mem_cons_self
    simp only [List.head?_cons, ne_eq, Option.some.injEq]
    exact ⟨fun e => by rw [e] at this; exact absurd this (by decide),
      fun e => by rw [e] at this; exact absurd this (by decide)⟩

theorem good_trailers (head : MaybeZero) (headRef : Option Text) (hr : ∀ name ∈ headRef, GoodRefName name)
    (u a b c d : Oid) : ∀ e ∈ snapshotTrailers head headRef u a b c d,
      GoodTrailer e ∧ e.1.head? = some 'B' ∧ '\x00' ∉ trailerLine e := by
  have nul : ∀ e : Text × Text, '\x00' ∉ e.1 → '\x00' ∉ e.2 → '\x00' ∉ trailerLine e := by
    intro e h1 h2
    simp only [trailerLine, List.mem_append, not_or]
    exact ⟨⟨⟨h1, by decide⟩, h2⟩, by decide⟩
  have nulHex : ∀ v : Text, (∀ c ∈ v, isKeyChar c = true) → '\x00' ∉ v := fun v h hm =>
    absurd (h _ hm) (by decide)
  intro e he
  unfold snapshotTrailers at he
  rw [List.cons_append, List.mem_cons, List.mem_append] at he
  rcases he with rfl | he | he
  · exact ⟨good_of_hex (by decide) (by decide) (maybeZero_hex _).1 (maybeZero_hex _).2, by dsimp only; decide,
      nul _ (by dsimp only; decide) (nulHex _ (maybeZero_hex _).2)⟩
  · cases headRef with
    | none => simp at he
    | some name =>
      simp only [Option.map_some, Option.toList_some, List.mem_singleton] at he
      subst he
      refine ⟨good_ref (hr name rfl), by dsimp only; decide, nul _ (by dsimp only; decide) fun hm => ?_⟩
      exact absurd ((hr name rfl).2 _ hm) (by decide)
  · have key : ∀ (k : Text) (o : Oid), k ≠ [] → (∀ c ∈ k, isKeyChar c = true) → k.head? = some 'B' →
        '\x00' ∉ k → GoodTrailer (k, o.toText) ∧ (k, o.toText).1.head? = some 'B' ∧
          '\x00' ∉ trailerLine (k, o.toText) := fun k o h1 h2 h3 h4 =>
      ⟨good_of_hex h1 h2 (oid_hex _).1 (oid_hex _).2, h3, nul _ h4 (nulHex _ (oid_hex _).2)⟩
    simp only [List.mem_cons, List.not_mem_nil, or_false] at he
    rcases he with rfl | rfl | rfl | rfl | rfl <;>
      exact key _ _ (by decide) (by decide) (by decide) (by decide)

theorem getTrailers_snapshot (head : MaybeZero) (headRef : Option Text)
    (hr : ∀ name ∈ headRef, GoodRefName name) (u a b c d : Oid) :
    getTrailers (snapshotMessage (snapshotTrailers head headRef u a b c d)) =
      some (snapshotTrailers head headRef u a b c d) := by
  have hg := good_trailers head headRef hr u a b c d
  have hne : snapshotTrailers head headRef u a b c d ≠ [] := by simp [snapshotTrailers]
  rw [snapshotMessage_eq _ hne]
  refine getTrailers_message (by decide) (by decide) (by decide) (by decide) (by decide)
    (fun e he => (hg e he).1) (fun e he => by rw [(hg e he).2.1]; decide) hne ?_
  intro hm
  rcases List.mem_append.1 hm with hm | hm
  · exact absurd hm (by decide)
  rcases List.mem_cons.1 hm with hm | hm
  · exact absurd hm (by decide)
  rcases List.mem_cons.1 hm with hm | hm
  · exact absurd hm (by decide)
  simp only [List.mem_flatten, List.mem_map] at hm
  obtain ⟨l, ⟨e, he, rfl⟩, hl⟩ := hm
  exact (hg e he).2.2 hl

/-! ### loading -/

theorem findTrailerCommit_here {r : SnapRepo} {name : Text} {o : Oid} {c : SnapCommit}
    {rest : List (Text × Text)} (h : r.find o = .ok c) :
    findTrailerCommit r name ((name, o.toText) :: rest) = .ok (some c) := by
  simp [findTrailerCommit, h, Except.map]

theorem findTrailerCommit_skip {r : SnapRepo} {name k v : Text} {rest : List (Text × Text)} (h : k ≠ name) :
    findTrailerCommit r name ((k, v) :: rest) = findTrailerCommit r name rest := by
  simp [findTrailerCommit, h]

/-- **C30.** A snapshot which was created is loaded again from its base commit, with all its parts: the
commit and the branch of `HEAD`, the unstaged changes and the four stages. Further commits may have been
added since. -/
theorem snapshot_roundtrip {r r' r'' : SnapRepo} {index : GitIndex} {headOid : Option Oid}
    {headRef : Option Text} {wc : WorkingCopy} {es : List StatusEntry} {s : WcSnapshot}
    (hr : ∀ name ∈ headRef, GoodRefName name)
    (h : createSnapshot r index headOid headRef wc es = .ok (r', s))
    (he : Extends r' r'') (hn : NoCollisionsIn r'') :
    tryFromBaseCommit r'' s.base = .ok (some s) := by
  have hc := created h
  unfold tryFromBaseCommit
  rw [hc.message, getTrailers_snapshot _ _ hr]
  have hid : r'.commitId = r.commitId := hc.grown.commitId
  have fu := find_extended he hn hc.unstagedMem
  have f0 := find_extended he hn (hc.stageMem .stage0)
  have f1 := find_extended he hn (hc.stageMem .stage1)
  have f2 := find_extended he hn (hc.stageMem .stage2)
  have f3 := find_extended he hn (hc.stageMem .stage3)
  rw [hid] at fu f0 f1 f2 f3
  simp only [WcSnapshot.stageCommit] at f0 f1 f2 f3
  -- the trailers
  generalize hts : snapshotTrailers _ _ _ _ _ _ _ = ts
  have hhead : findTrailerCommit r'' headTrailer ts = .ok s.head := by
    rw [← hts]
    cases hh : s.head with
    | none => rfl
    | some c =>
      have hcm := hc.headMem c hh
      have := find_extended he hn (hc.grown.commits c hcm)
      rw [hid] at this
      simp only [Option.map_some, MaybeZero.ofOption]
      exact findTrailerCommit_here this
  have href : findHeadRef ts = s.headRef := by
    rw [← hts, hc.ref]
    cases headRef with
    | none => rfl
    | some name => rfl
  have hdrop : ∀ name, name ≠ headTrailer → name ≠ headRefTrailer →
      findTrailerCommit r'' name ts = findTrailerCommit r'' name
        [(unstagedTrailer, (r.commitId s.unstaged).toText),
         (Stage.stage0.trailer, (r.commitId s.stage0).toText),
         (Stage.stage1.trailer, (r.commitId s.stage1).toText),
         (Stage.stage2.trailer, (r.commitId s.stage2).toText),
         (Stage.stage3.trailer, (r.commitId s.stage3).toText)] := by
    intro name h1 h2
    rw [← hts]
    unfold snapshotTrailers
    rw [List.cons_append, findTrailerCommit_skip (Ne.symm h1)]
    cases headRef with
    | none => rfl
    | some nm =>
      simp only [Option.map_some, Option.toList_some, List.singleton_append]
      rw [findTrailerCommit_skip (Ne.symm h2)]
  have hU : findTrailerCommit r'' unstagedTrailer ts = .ok (some s.unstaged) := by
    rw [hdrop _ (by decide) (by decide)]
    exact findTrailerCommit_here fu
  have h0 : findTrailerCommit r'' Stage.stage0.trailer ts = .ok (some s.stage0) := by
    rw [hdrop _ (by decide) (by decide), findTrailerCommit_skip (by decide)]
    exact findTrailerCommit_here f0
  have h1 : findTrailerCommit r'' Stage.stage1.trailer ts = .ok (some s.stage1) := by
    rw [hdrop _ (by decide) (by decide), findTrailerCommit_skip (by decide),
      findTrailerCommit_skip (by decide)]
    exact findTrailerCommit_here f1
  have h2 : findTrailerCommit r'' Stage.stage2.trailer ts = .ok (some s.stage2) := by
    rw [hdrop _ (by decide) (by decide), findTrailerCommit_skip (by decide),
      findTrailerCommit_skip (by decide), findTrailerCommit_skip (by decide)]
    exact findTrailerCommit_here f2
  have h3 : findTrailerCommit r'' Stage.stage3.trailer ts = .ok (some s.stage3) := by
    rw [hdrop _ (by decide) (by decide), findTrailerCommit_skip (by decide),
      findTrailerCommit_skip (by decide), findTrailerCommit_skip (by decide),
      findTrailerCommit_skip (by decide)]
    exact findTrailerCommit_here f3
  simp only [hhead, withCommit, hU, h0, h1, h2, h3, href]

/-! ### other commits -/

/-- The markers which a snapshot must have. -/
def markers : List Text := [t!"Branchless-unstaged", t!"Branchless-stage-0", t!"Branchless-stage-1",
  t!"Branchless-stage-2", t!"Branchless-stage-3"]

theorem findTrailerCommit_none {r : SnapRepo} {name : Text} {ts : List (Text × Text)}
    (h : ∀ e ∈ ts, e.1 ≠ name) : findTrailerCommit r name ts = .ok none := by
  induction ts with
  | nil => rfl
  | cons e ts ih =>
    obtain ⟨k, v⟩ := e
    rw [findTrailerCommit_skip (h _ List.mem_cons_self)]
    exact ih fun e he => h e (List.mem_cons_of_mem _ he)

theorem withCommit_some {α : Type} {r : SnapRepo} {name : Text} {ts : List (Text × Text)}
    {f : SnapCommit → Except Unit (Option α)} {x : α} (h : withCommit r name ts f = .ok (some x)) :
    (∃ e ∈ ts, e.1 = name) ∧ ∃ c, f c = .ok (some x) := by
  unfold withCommit at h
  split at h
  · cases h
  · cases h
  · rename_i c hc
    refine ⟨?_, c, h⟩
    by_contra hne
    rw [findTrailerCommit_none fun e he hk => hne ⟨e, he, hk⟩] at hc
    cases hc

theorem marker_at_line {message : Text} {ts : List (Text × Text)} {m : Text}
    (ht : getTrailers message = some ts) (hm : m ≠ []) (h : ∃ e ∈ ts, e.1 = m) : AtLineStart m message := by
  obtain ⟨e, he, rfl⟩ := h
  rcases getTrailers_keys ht e he with h | h
  · exact absurd h hm
  · exact h

/-- **C30.** A commit is only taken for a snapshot if each of the five markers begins a line of its
message. -/
theorem snapshot_has_markers {r : SnapRepo} {c : SnapCommit} {s : WcSnapshot}
    (h : tryFromBaseCommit r c = .ok (some s)) : ∀ m ∈ markers, AtLineStart m c.message := by
  unfold tryFromBaseCommit at h
  split at h
  · cases h
  rename_i ts ht
  split at h
  · cases h
  obtain ⟨k1, c1, h⟩ := withCommit_some h
  obtain ⟨k2, c2, h⟩ := withCommit_some h
  obtain ⟨k3, c3, h⟩ := withCommit_some h
  obtain ⟨k4, c4, h⟩ := withCommit_some h
  obtain ⟨k5, c5, h⟩ := withCommit_some h
  intro m hm
  simp only [markers, List.mem_cons, List.not_mem_nil, or_false] at hm
  rcases hm with rfl | rfl | rfl | rfl | rfl
  · exact marker_at_line ht (by decide) k1
  · exact marker_at_line ht (by decide) k2
  · exact marker_at_line ht (by decide) k3
  · exact marker_at_line ht (by decide) k4
  · exact marker_at_line ht (by decide) k5

/-- **C30.** A commit whose message has no line which begins with `Branchless-`, and no NUL, is no snapshot,
and there is no error. -/
theorem ordinary_commit {r : SnapRepo} {c : SnapCommit} (hn : '\x00' ∉ c.message)
    (h : ¬ AtLineStart t!"Branchless-" c.message) : tryFromBaseCommit r c = .ok none := by
  unfold tryFromBaseCommit
  cases ht : getTrailers c.message with
  | none =>
    unfold getTrailers at ht
    rw [if_neg hn] at ht
    cases ht
  | some ts =>
    have key : ∀ name rest : Text, name = t!"Branchless-" ++ rest → ∀ e ∈ ts, e.1 ≠ name := by
      rintro name rest rfl e he hk
      rcases getTrailers_keys ht e he with h1 | ⟨a, b, h1, h2⟩
      · rw [hk] at h1; cases h1
      · refine h ⟨a, rest ++ b, ?_, h2⟩
        rw [h1, hk]
        simp
    simp only [findTrailerCommit_none (key headTrailer t!"head" rfl), withCommit,
      findTrailerCommit_none (key unstagedTrailer t!"unstaged" rfl)]

/-! ### what distinguishes a snapshot is its message -/

/-- **C30.** The message alone decides: any commit with the message of a snapshot is loaded as this snapshot,
whatever its tree and its parents are (for example after such a commit was cherry-picked or amended). -/
theorem snapshot_by_message_alone {r r' r'' : SnapRepo} {index : GitIndex} {headOid : Option Oid}
    {headRef : Option Text} {wc : WorkingCopy} {es : List StatusEntry} {s : WcSnapshot}
    (hr : ∀ name ∈ headRef, GoodRefName name)
    (h : createSnapshot r index headOid headRef wc es = .ok (r', s))
    (he : Extends r' r'') (hn : NoCollisionsIn r'') (c : SnapCommit) (hm : c.message = s.base.message) :
    tryFromBaseCommit r'' c = .ok (some { s with base := c }) := by
  have h1 := snapshot_roundtrip hr h he hn
  unfold tryFromBaseCommit at h1 ⊢
  rw [hm]
  split at h1
  · cases h1
  split at h1
  · cases h1
  unfold withCommit at h1 ⊢
  revert h1
  split <;> try (intro h1; cases h1; done)
  split <;> try (intro h1; cases h1; done)
  split <;> try (intro h1; cases h1; done)
  split <;> try (intro h1; cases h1; done)
  split <;> try (intro h1; cases h1; done)
  intro h1
  rw [Except.ok.injEq, Option.some.injEq] at h1
  rw [← h1]

/-! ### keeping the commits alive (C60) -/

/-- **C60.** The commits of the stages, and the commit `HEAD`, are kept alive by the base commit. -/
theorem stages_kept_alive {r r' : SnapRepo} {index : GitIndex} {headOid : Option Oid}
    {headRef : Option Text} {wc : WorkingCopy} {es : List StatusEntry} {s : WcSnapshot}
    (h : createSnapshot r index headOid headRef wc es = .ok (r', s)) :
    (∀ o ∈ headOid, KeepsAlive r' (r'.commitId s.base) o) ∧
    ∀ c ∈ [s.stage0, s.stage1, s.stage2, s.stage3],
      c ∈ r'.commits ∧ KeepsAlive r' (r'.commitId s.base) (r'.commitId c) := by
  have hc := created h
  have hid := hc.grown.commitId
  constructor
  · intro o ho
    refine .step hc.baseMem ?_ (.refl _)
    rw [hc.baseParents, hc.head]
    simp only [Option.mem_def] at ho
    simp [ho]
  · intro c hm
    have hmem : c ∈ r'.commits := by
      simp only [List.mem_cons, List.not_mem_nil, or_false] at hm
      rcases hm with rfl | rfl | rfl | rfl
      · exact hc.stageMem .stage0
      · exact hc.stageMem .stage1
      · exact hc.stageMem .stage2
      · exact hc.stageMem .stage3
    refine ⟨hmem, .step hc.baseMem ?_ (.refl _)⟩
    rw [hc.baseParents, hid]
    simp only [List.mem_cons, List.not_mem_nil, or_false] at hm
    rcases hm with rfl | rfl | rfl | rfl <;> simp

theorem unstaged_message_ne {es : List StatusEntry} {index : GitIndex} {stage : Stage} :
    unstagedMessage es ≠ stageMessage index stage es := by
  intro h
  unfold unstagedMessage stageMessage pluralize at h
  have h1 := List.append_cancel_left h
  have hd : ∀ (n : Nat) (t : Text), (natToText n ++ t!" " ++ t).dropWhile (fun c => c ≠ ' ') = ' ' :: t := by
    intro n t
    have hn : ∀ c ∈ natToText n, c ≠ ' ' := by
      intro c hc
      obtain ⟨d, hd, rfl⟩ := mem_natToText hc
      have : ∀ d < 10, Char.ofNat (48 + d) ≠ ' ' := by decide
      exact this d hd
    rw [List.append_assoc, List.dropWhile_append_of_pos (by simpa using hn)]
    rfl
  have h2 := congrArg (List.dropWhile (fun c => decide (c ≠ ' '))) h1
  rw [hd, hd, List.cons.injEq] at h2
  have h3 := congrArg List.head? h2.2
  revert h3
  split <;> split <;> (intro h3; exact absurd h3 (by simp))

/-- **C60, as far as it fails.** The commit with the unstaged changes is not a parent of the base commit, as
the commits of the stages are: it is not kept alive by the base commit, whatever the snapshot is (unless the
very same commit was there before). -/
theorem unstaged_not_kept_alive {r r' : SnapRepo} {index : GitIndex} {headOid : Option Oid}
    {headRef : Option Text} {wc : WorkingCopy} {es : List StatusEntry} {s : WcSnapshot}
    (h : createSnapshot r index headOid headRef wc es = .ok (r', s)) (hp : ParentsThere r)
    (hn : NoCollisionsIn r') (hnew : s.unstaged ∉ r.commits) :
    ¬ KeepsAlive r' (r'.commitId s.base) (r'.commitId s.unstaged) := by
  have hc := created h
  have hid := hc.grown.commitId
  -- the commits which are reachable
  have key : ∀ o o', KeepsAlive r' o o' →
      (∃ c, (c = s.base ∨ c ∈ [s.stage0, s.stage1, s.stage2, s.stage3] ∨ c ∈ r.commits) ∧
        r'.commitId c = o) →
      ∃ c, (c = s.base ∨ c ∈ [s.stage0, s.stage1, s.stage2, s.stage3] ∨ c ∈ r.commits) ∧
        r'.commitId c = o' := by
    intro o o' hk
    induction hk with
    | refl o => exact id
    | step hm hpm _ ih =>
      rintro ⟨c', hc', hid'⟩
      apply ih
      have hmem' : c' ∈ r'.commits := by
        rcases hc' with rfl | hm' | hm'
        · exact hc.baseMem
        · exact ((stages_kept_alive h).2 c' hm').1
        · exact hc.grown.commits _ hm'
      have := hn c' hmem' _ hm hid'
      subst this
      have hh : ∀ o ∈ (s.head.map r.commitId).toList, ∃ c ∈ r.commits, r.commitId c = o := by
        intro o ho
        cases e : s.head with
        | none => rw [e] at ho; simp at ho
        | some d =>
          rw [e] at ho
          simp only [Option.map_some, Option.toList_some, List.mem_singleton] at ho
          exact ⟨d, hc.headMem d e, ho.symm⟩
      rcases hc' with rfl | hm' | hm'
      · rw [hc.baseParents, List.mem_append] at hpm
        rcases hpm with hpm | hpm
        · obtain ⟨d, hd, rfl⟩ := hh _ hpm
          exact ⟨d, .inr (.inr hd), by rw [hid]⟩
        · simp only [List.mem_cons, List.not_mem_nil, or_false] at hpm
          rw [hid]
          rcases hpm with rfl | rfl | rfl | rfl
          · exact ⟨s.stage0, .inr (.inl (by simp)), rfl⟩
          · exact ⟨s.stage1, .inr (.inl (by simp)), rfl⟩
          · exact ⟨s.stage2, .inr (.inl (by simp)), rfl⟩
          · exact ⟨s.stage3, .inr (.inl (by simp)), rfl⟩
      · have hpar : c'.parents = (s.head.map r.commitId).toList := by
          simp only [List.mem_cons, List.not_mem_nil, or_false] at hm'
          rcases hm' with rfl | rfl | rfl | rfl
          · exact hc.stageParents .stage0
          · exact hc.stageParents .stage1
          · exact hc.stageParents .stage2
          · exact hc.stageParents .stage3
        rw [hpar] at hpm
        obtain ⟨d, hd, rfl⟩ := hh _ hpm
        exact ⟨d, .inr (.inr hd), by rw [hid]⟩
      · obtain ⟨d, hd, rfl⟩ := hp c' hm' _ hpm
        exact ⟨d, .inr (.inr hd), by rw [hid]⟩
  intro hk
  obtain ⟨c, hc', hid'⟩ := key _ _ hk ⟨s.base, .inl rfl, rfl⟩
  have hmem' : c ∈ r'.commits := by
    rcases hc' with rfl | hm' | hm'
    · exact hc.baseMem
    · exact ((stages_kept_alive h).2 c hm').1
    · exact hc.grown.commits _ hm'
  have heq := hn c hmem' s.unstaged hc.unstagedMem hid'
  have hum := hc.unstagedMessage
  rcases hc' with rfl | hm' | hm'
  · -- the messages differ
    rw [← heq, hc.message, snapshotMessage_eq _ (by simp [snapshotTrailers])] at hum
    have := congrArg (fun t : Text => t[12]?) hum
    simp [unstagedMessage] at this
  · simp only [List.mem_cons, List.not_mem_nil, or_false] at hm'
    rw [← heq] at hum
    rcases hm' with rfl | rfl | rfl | rfl
    · exact unstaged_message_ne (hum.symm.trans (hc.stageMessage .stage0))
    · exact unstaged_message_ne (hum.symm.trans (hc.stageMessage .stage1))
    · exact unstaged_message_ne (hum.symm.trans (hc.stageMessage .stage2))
    · exact unstaged_message_ne (hum.symm.trans (hc.stageMessage .stage3))
  · exact hnew (heq ▸ hm')

end Verif.Props

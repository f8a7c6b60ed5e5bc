import Mathlib.Data.List.Forall2
import Verif.Model.RewriteHooks
import Verif.Lemmas.Lines
import Verif.Lemmas.List
import Verif.Props.EventLog

/-! C25-C27: the rewritten-list file and the commit/rewrite hooks. -/

namespace Verif.Props

/-! ## C25 -/

theorem entry_chars {e : Oid × MaybeZero} {c : Char}
    (h : c ∈ e.1.toText ++ ' ' :: e.2.toText) : c = ' ' ∨ ∃ d, d < 16 ∧ c = hexDigit d := by
  rcases List.mem_append.1 h with h | h
  · exact .inr (Oid.mem_toText h)
  · rcases List.mem_cons.1 h with h | h
    · exact .inl h
    · exact .inr (MaybeZero.mem_toText h)

theorem last_char_toText (n : MaybeZero) {a : Text} {c : Char}
    (h : (a ++ ' ' :: n.toText).getLast? = some c) : ∃ d, d < 16 ∧ c = hexDigit d := by
  have hne : n.toText ≠ [] := by
    intro e; have := MaybeZero.length_toText n; rw [e] at this; simp at this
  have : (a ++ ' ' :: n.toText).getLast? = n.toText.getLast? := by
    rw [List.getLast?_append, List.getLast?_cons, List.getLast?_eq_some_getLast hne]
    simp
  rw [this] at h
  exact MaybeZero.mem_toText (List.mem_of_getLast? h)

theorem head_char_toText (o : Oid) {b : Text} {c : Char}
    (h : (o.toText ++ b).head? = some c) : ∃ d, d < 16 ∧ c = hexDigit d := by
  cases ho : o.toText with
  | nil => have := Oid.length_toText o; rw [ho] at this; simp at this
  | cons x xs =>
    rw [ho] at h
    simp at h
    subst h
    exact Oid.mem_toText (o := o) (by rw [ho]; simp)

theorem space_not_mem_oid (o : Oid) : ' ' ∉ o.toText := by
  intro h; obtain ⟨d, hd, e⟩ := Oid.mem_toText h; exact (hexDigit_ne hd).1 e.symm

theorem space_not_mem_maybeZero (o : MaybeZero) : ' ' ∉ o.toText := by
  intro h; obtain ⟨d, hd, e⟩ := MaybeZero.mem_toText h; exact (hexDigit_ne hd).1 e.symm

theorem parseRewrittenLine_write (e : Oid × MaybeZero) :
    parseRewrittenLine (e.1.toText ++ ' ' :: e.2.toText) = some e := by
  have ht : trim (e.1.toText ++ ' ' :: e.2.toText) = e.1.toText ++ ' ' :: e.2.toText := by
    apply trim_of_no_space
    · intro c hc
      obtain ⟨d, hd, rfl⟩ := head_char_toText _ hc
      exact hexDigit_not_space hd
    · intro c hc
      obtain ⟨d, hd, rfl⟩ := last_char_toText _ hc
      exact hexDigit_not_space hd
  unfold parseRewrittenLine
  rw [ht, splitChar_append_sep (space_not_mem_oid _), splitChar_of_not_mem (space_not_mem_maybeZero _)]
  simp

theorem mapM_some_map {α β : Type} {f : α → Option β} {g : β → α} (h : ∀ b, f (g b) = some b)
    (l : List β) : (l.map g).mapM f = some l := by
  induction l with
  | nil => rfl
  | cons b l ih => simp [List.mapM_cons, h, ih]

/-- C25: what was written is read back, in the same order, including deletions. -/
theorem rewritten_list_roundtrip (entries : List (Oid × MaybeZero)) :
    readRewrittenListEntries (writeRewrittenList entries) = some entries := by
  unfold readRewrittenListEntries writeRewrittenList
  have hl : (entries.flatMap fun (x : Oid × MaybeZero) => (x.1.toText ++ ' ' :: x.2.toText) ++ ['\n'])
      = ((entries.map fun x => x.1.toText ++ ' ' :: x.2.toText).flatMap fun l => l ++ ['\n']) := by
    rw [List.flatMap_map]
  have hm : (entries.flatMap fun x : Oid × MaybeZero => match x with
      | (old, new) => (old.toText ++ ' ' :: new.toText) ++ ['\n'])
      = (entries.flatMap fun (x : Oid × MaybeZero) => (x.1.toText ++ ' ' :: x.2.toText) ++ ['\n']) := rfl
  rw [hm, hl, textLines_lines]
  · exact mapM_some_map parseRewrittenLine_write entries
  · intro l hl
    obtain ⟨e, _, rfl⟩ := List.mem_map.1 hl
    refine ⟨fun h => ?_, fun h => ?_⟩
    · rcases entry_chars h with h | ⟨d, hd, h⟩
      · cases h
      · exact (hexDigit_ne hd).2.1 h.symm
    · obtain ⟨d, hd, h⟩ := last_char_toText _ h
      exact (hexDigit_ne hd).2.2.2.1 h.symm

/-- A well-formed line for an entry: after trimming, the old id, a space, the new id, and nothing
more or a space and anything. -/
def IsRewrittenLine (line : Text) (e : Oid × MaybeZero) : Prop :=
  ∃ old new rest, trim line = old ++ ' ' :: (new ++ rest) ∧ ' ' ∉ old ∧ ' ' ∉ new ∧
    (rest = [] ∨ rest.head? = some ' ') ∧
    Oid.parse old = some e.1 ∧ MaybeZero.parse new = some e.2

theorem parseRewrittenLine_iff (line : Text) (e : Oid × MaybeZero) :
    parseRewrittenLine line = some e ↔ IsRewrittenLine line e := by
  constructor
  · intro h
    unfold parseRewrittenLine at h
    split at h
    · rename_i old new rest hs
      split at h
      · rename_i o n ho hn
        cases h
        have hsp := splitChar_spec ' ' (trim line)
        rw [hs] at hsp
        have h1 := hsp.1 old (by simp)
        have h2 := hsp.1 new (by simp)
        cases rest with
        | nil =>
          refine ⟨old, new, [], ?_, h1, h2, .inl rfl, ho, hn⟩
          rw [← hsp.2]; simp [List.intercalate]
        | cons r rs =>
          refine ⟨old, new, ' ' :: List.intercalate [' '] (r :: rs), ?_, h1, h2, .inr rfl, ho, hn⟩
          conv => lhs; rw [← hsp.2]
          simp [List.intercalate]
      · simp at h
    · simp at h
  · rintro ⟨old, new, rest, ht, h1, h2, hr, ho, hn⟩
    unfold parseRewrittenLine
    rw [ht, splitChar_append_sep h1]
    rcases hr with rfl | hr
    · rw [List.append_nil, splitChar_of_not_mem h2]
      simp [ho, hn]
    · cases rest with
      | nil => simp at hr
      | cons c rest =>
        simp at hr; subst hr
        rw [splitChar_append_sep h2]
        simp [ho, hn]

theorem mapM_some_iff {α β : Type} (f : α → Option β) (l : List α) (r : List β) :
    l.mapM f = some r ↔ List.Forall₂ (fun a b => f a = some b) l r := by
  induction l generalizing r with
  | nil => cases r <;> simp
  | cons a l ih =>
    simp only [List.mapM_cons, Option.pure_def, Option.bind_eq_bind]
    constructor
    · intro h
      cases ha : f a with
      | none => simp [ha] at h
      | some b =>
        cases hl : l.mapM f with
        | none => simp [ha, hl] at h
        | some bs =>
          simp [ha, hl] at h
          subst h
          exact .cons ha ((ih bs).1 hl)
    · intro h
      cases h with
      | cons h1 h2 => simp [h1, (ih _).2 h2]

/-- C25: reading succeeds iff every line is well-formed, and gives one entry per line. -/
theorem rewritten_list_accepted_iff (contents : Text) (entries : List (Oid × MaybeZero)) :
    readRewrittenListEntries contents = some entries ↔
      List.Forall₂ IsRewrittenLine (textLines contents) entries := by
  unfold readRewrittenListEntries
  rw [mapM_some_iff]
  simp only [parseRewrittenLine_iff]

example : readRewrittenListEntries (writeRewrittenList [(oidA, .nonZero oidB), (oidB, .zero)])
    = some [(oidA, .nonZero oidB), (oidB, .zero)] := rewritten_list_roundtrip _

example : readRewrittenListEntries t!"00a1\n" = none ∧
    readRewrittenListEntries t!"0000000000000000000000000000000000000000 1\n" = none := by decide

/-! ## C26 -/

/-- Value of an old commit according to a list of pairs: the newest (last) one counts. -/
def newestEntry (es : List (Oid × MaybeZero)) (k : Oid) : Option MaybeZero :=
  (es.reverse.find? fun e => e.1 = k).map Prod.snd

theorem newestEntry_append (es : List (Oid × MaybeZero)) (e : Oid × MaybeZero) (k : Oid) :
    newestEntry (es ++ [e]) k = if e.1 = k then some e.2 else newestEntry es k := by
  unfold newestEntry
  rw [List.reverse_append, List.reverse_singleton, List.singleton_append, List.find?_cons]
  by_cases h : e.1 = k <;> simp [h]

theorem newestEntry_append_list (a b : List (Oid × MaybeZero)) (k : Oid) :
    newestEntry (a ++ b) k = (newestEntry b k).or (newestEntry a k) := by
  induction b using snocInduction with
  | h0 => simp [newestEntry]
  | h1 b e ih =>
    rw [← List.append_assoc, newestEntry_append, newestEntry_append, ih]
    split <;> simp

/-- Reading the pairs into a map: the newest counts. -/
theorem get?_ofList (es : List (Oid × MaybeZero)) (k : Oid) :
    (AMap.ofList es).get? k = newestEntry es k := by
  induction es using snocInduction with
  | h0 => rfl
  | h1 es e ih =>
    rw [newestEntry_append, ← ih]
    unfold AMap.ofList
    rw [List.foldl_append, List.foldl_cons, List.foldl_nil, AMap.get?_insert]

theorem wf_ofList {β : Type} (es : List (Oid × β)) : AMap.WF (AMap.ofList es) := by
  induction es using snocInduction with
  | h0 => exact AMap.wf_nil
  | h1 es e ih =>
    unfold AMap.ofList at *
    rw [List.foldl_append, List.foldl_cons, List.foldl_nil]
    exact AMap.wf_insert ih _ _

theorem newestEntry_of_nodup {es : List (Oid × MaybeZero)} (h : (es.map Prod.fst).Nodup) (k : Oid) :
    newestEntry es k = AMap.get? es k := by
  rw [← get?_ofList]
  have hw : AMap.WF es := h
  cases hk : AMap.get? es k with
  | some v =>
    rw [get?_ofList]
    have hm := AMap.mem_of_get? hk
    clear hk
    induction es using snocInduction with
    | h0 => simp at hm
    | h1 es e ih =>
      rw [newestEntry_append]
      by_cases he : e.1 = k
      · rw [if_pos he]
        rcases List.mem_append.1 hm with hm | hm
        · have hn := h
          rw [List.map_append, List.nodup_append] at hn
          exact absurd he.symm (hn.2.2 k (List.mem_map.2 ⟨_, hm, rfl⟩) e.1 (by simp))
        · simp at hm; subst hm; rfl
      · rw [if_neg he]
        have hm' : (k, v) ∈ es := by
          rcases List.mem_append.1 hm with hm | hm
          · exact hm
          · simp at hm; subst hm; exact absurd rfl he
        have hn : (es.map Prod.fst).Nodup := by
          rw [List.map_append, List.nodup_append] at h; exact h.1
        exact ih hn hn hm'
  | none =>
    rw [get?_ofList]
    cases hn : newestEntry es k with
    | none => rfl
    | some v =>
      exfalso
      unfold newestEntry at hn
      cases hf : es.reverse.find? (fun e => decide (e.1 = k)) with
      | none => rw [hf] at hn; simp at hn
      | some e =>
        have h1 := List.mem_of_find?_eq_some hf
        have h2 := List.find?_some hf
        simp at h1 h2
        have : AMap.get? es k = some e.2 := AMap.get?_of_mem hw (by rw [← h2]; exact h1)
        rw [this] at hk
        simp at hk

theorem updateEntries_spec (cur : List (Oid × MaybeZero)) (toAdd : AMap Oid MaybeZero)
    (hn : (cur.map Prod.fst).Nodup) (hw : AMap.WF toAdd) :
    (updateEntries cur toAdd).1.map Prod.fst = cur.map Prod.fst ∧
    AMap.WF (updateEntries cur toAdd).2 ∧
    (∀ k, AMap.get? (updateEntries cur toAdd).1 k =
      (AMap.get? cur k).map fun v => (toAdd.get? k).getD v) ∧
    (∀ k, (updateEntries cur toAdd).2.get? k =
      if k ∈ cur.map Prod.fst then none else toAdd.get? k) := by
  induction cur generalizing toAdd with
  | nil => simp [updateEntries, hw]
  | cons e cur ih =>
    obtain ⟨old, new⟩ := e
    simp only [List.map_cons, List.nodup_cons] at hn
    have hold : AMap.get? cur old = none := by
      cases h : AMap.get? cur old with
      | none => rfl
      | some v => exact absurd (List.mem_map.2 ⟨_, AMap.mem_of_get? h, rfl⟩) hn.1
    simp only [updateEntries]
    cases ha : toAdd.get? old with
    | some new' =>
      obtain ⟨h1, h2, h3, h4⟩ := ih (toAdd.erase old) hn.2 (AMap.wf_erase hw old)
      refine ⟨by simp [h1], h2, ?_, ?_⟩
      · intro k
        simp only [AMap.get?_cons, h3, AMap.get?_erase]
        by_cases hk : old = k
        · subst hk; simp [ha]
        · simp [hk]
      · intro k
        simp only [h4, AMap.get?_erase, List.map_cons, List.mem_cons]
        by_cases hk : old = k
        · subst hk; simp
        · have hk' : ¬ k = old := Ne.symm hk
          by_cases hm : k ∈ cur.map Prod.fst
          · rw [if_pos hm, if_pos (Or.inr hm)]
          · rw [if_neg hm, if_neg (not_or.2 ⟨hk', hm⟩), if_neg hk]
    | none =>
      obtain ⟨h1, h2, h3, h4⟩ := ih toAdd hn.2 hw
      refine ⟨by simp [h1], h2, ?_, ?_⟩
      · intro k
        simp only [AMap.get?_cons, h3]
        by_cases hk : old = k
        · subst hk; simp [ha]
        · simp [hk]
      · intro k
        simp only [h4, List.map_cons, List.mem_cons]
        by_cases hk : old = k
        · subst hk; simp [ha]
        · have hk' : ¬ k = old := Ne.symm hk
          by_cases hm : k ∈ cur.map Prod.fst
          · rw [if_pos hm, if_pos (Or.inr hm)]
          · rw [if_neg hm, if_neg (not_or.2 ⟨hk', hm⟩)]

/-- The pairs recorded in the file (a missing file records nothing). -/
def fileEntries (file : Option Text) : Option (List (Oid × MaybeZero)) :=
  match file with
  | none => some []
  | some contents => readRewrittenListEntries contents

/-- What C26 asks of an update of the rewritten-list, for every readable file. -/
def UpdateOverrides : Prop :=
  ∀ shuffle, (∀ l, (shuffle l).Perm l) → ∀ file cur entries, fileEntries file = some cur →
    ∃ file' new, addRewrittenListEntries shuffle file entries = some file' ∧
      fileEntries (some file') = some new ∧
      ∀ k, newestEntry new k = (newestEntry entries k).or (newestEntry cur k)

/-- C26, finding: if the file mentions an old commit twice, only the first mention is updated,
and readers (which let the last mention win) do not see the new value. -/
theorem update_misses_duplicates : ¬ UpdateOverrides := by
  intro h
  let cur : List (Oid × MaybeZero) := [(oidA, .nonZero oidB), (oidA, .nonZero oidC)]
  obtain ⟨file', new, h1, h2, h3⟩ := h id (fun l => .refl l) (some (writeRewrittenList cur)) cur
    [(oidA, .zero)] (rewritten_list_roundtrip cur)
  simp only [addRewrittenListEntries, rewritten_list_roundtrip, Option.some.injEq] at h1
  rw [← h1] at h2
  simp only [fileEntries, rewritten_list_roundtrip, Option.some.injEq] at h2
  have := h3 oidA
  rw [← h2] at this
  revert this
  decide

/-- C26 (partial: for a file which mentions no old commit twice; see `update_misses_duplicates`):
after the update each commit has its newest recorded value, others are unchanged, and the file
again mentions no commit twice - so the claim holds for any sequence of updates of a new file. -/
theorem update_overrides_partial (shuffle : List (Oid × MaybeZero) → List (Oid × MaybeZero))
    (hs : ∀ l, (shuffle l).Perm l) (file : Option Text) (cur entries : List (Oid × MaybeZero))
    (hf : fileEntries file = some cur) (hn : (cur.map Prod.fst).Nodup) :
    ∃ file' new, addRewrittenListEntries shuffle file entries = some file' ∧
      fileEntries (some file') = some new ∧ (new.map Prod.fst).Nodup ∧
      ∀ k, newestEntry new k = (newestEntry entries k).or (newestEntry cur k) := by
  have hcur : (match (generalizing := false) file with
    | some contents => readRewrittenListEntries contents
    | none => some []) = some cur := by
    cases file <;> exact hf
  have hn0 := hn
  clear hf
  refine ⟨_, (updateEntries cur (AMap.ofList entries)).1 ++
    shuffle (updateEntries cur (AMap.ofList entries)).2, ?_, rewritten_list_roundtrip _, ?_⟩
  · unfold addRewrittenListEntries
    cases file with
    | none => simp at hcur; subst hcur; rfl
    | some c => simp only at hcur; simp only [hcur]
  · obtain ⟨h1, h2, h3, h4⟩ := updateEntries_spec cur (AMap.ofList entries) hn (wf_ofList entries)
    generalize (updateEntries cur (AMap.ofList entries)).1 = new at *
    generalize (updateEntries cur (AMap.ofList entries)).2 = left at *
    have hleft : ((shuffle left).map Prod.fst).Nodup :=
      ((hs left).map Prod.fst).nodup_iff.2 h2
    have hdis : ∀ a ∈ new.map Prod.fst, ∀ b ∈ (shuffle left).map Prod.fst, a ≠ b := by
      intro a ha b hb hab
      subst hab
      rw [h1] at ha
      have hb : a ∈ AMap.keys left := ((hs left).map Prod.fst).mem_iff.1 hb
      rw [AMap.mem_keys_iff, h4] at hb
      simp [ha] at hb
    have hnd : ((new ++ shuffle left).map Prod.fst).Nodup := by
      rw [List.map_append, List.nodup_append]
      exact ⟨h1 ▸ hn, hleft, hdis⟩
    refine ⟨hnd, fun k => ?_⟩
    have hn1 : (new.map Prod.fst).Nodup := h1 ▸ hn
    rw [newestEntry_append_list, newestEntry_of_nodup hn1, newestEntry_of_nodup hleft, h3,
      newestEntry_of_nodup hn, ← get?_ofList]
    have hsh : AMap.get? (shuffle left) k = AMap.get? left k := by
      cases hk : AMap.get? left k with
      | some v =>
        exact AMap.get?_of_mem hleft ((hs left).mem_iff.2 (AMap.mem_of_get? hk))
      | none =>
        cases hk' : AMap.get? (shuffle left) k with
        | none => rfl
        | some v =>
          have := (hs left).mem_iff.1 (AMap.mem_of_get? hk')
          rw [AMap.get?_of_mem h2 this] at hk
          simp at hk
    rw [hsh, h4]
    cases hc : AMap.get? cur k with
    | some v =>
      have : k ∈ cur.map Prod.fst := List.mem_map.2 ⟨_, AMap.mem_of_get? hc, rfl⟩
      rw [if_pos this]
      cases AMap.get? (AMap.ofList entries) k <;> simp
    | none =>
      have : k ∉ cur.map Prod.fst := by
        intro hm
        have : k ∈ AMap.keys cur := hm
        rw [AMap.mem_keys_iff, hc] at this
        simp at this
      rw [if_neg this]
      simp

example : (([(oidA, .nonZero oidB), (oidB, .zero)] : List (Oid × MaybeZero)).map Prod.fst).Nodup ∧
    fileEntries (some (writeRewrittenList [(oidA, .nonZero oidB), (oidB, .zero)]))
      = some [(oidA, .nonZero oidB), (oidB, .zero)] :=
  ⟨by decide, rewritten_list_roundtrip _⟩

/-! ## C27 -/

/-- A hook invocation while a rebase is underway. -/
inductive DuringRebase where
  | postCommit (hookName : Text) (head : Option Oid) (time : Timestamp)
  | amend (now : Timestamp) (stdin : Text)

def DuringRebase.run (env : Option Text) (w : HookWorld) : DuringRebase → HookWorld
  | .postCommit name head time => hookPostCommit w env name head time
  | .amend now stdin => (hookPostRewrite w env t!"amend" now stdin).2

/-- The commit made (or checked) by an invocation. -/
def DuringRebase.head? : DuringRebase → Option Oid
  | .postCommit _ head _ => head
  | .amend .. => none

theorem readDeferred_snoc {file : Option Text} {oids : List Oid}
    (hf : (file.getD []) = oids.flatMap fun o => o.toText ++ ['\n']) :
    readDeferredCommits file = some oids := by
  have h : ∀ l ∈ oids.map Oid.toText, '\n' ∉ l ∧ l.getLast? ≠ some '\r' := by
    intro l hl
    obtain ⟨o, _, rfl⟩ := List.mem_map.1 hl
    refine ⟨fun hm => ?_, fun hm => ?_⟩
    · obtain ⟨d, hd, e⟩ := Oid.mem_toText hm; exact (hexDigit_ne hd).2.1 e.symm
    · obtain ⟨d, hd, e⟩ := Oid.mem_toText (List.mem_of_getLast? hm)
      exact (hexDigit_ne hd).2.2.2.1 e.symm
  cases file with
  | none =>
    cases oids with
    | nil => rfl
    | cons o os => simp at hf
  | some c =>
    simp only [Option.getD_some] at hf
    unfold readDeferredCommits
    have hfm : (oids.flatMap fun o => o.toText ++ ['\n']) =
        (oids.map Oid.toText).flatMap fun l => l ++ ['\n'] := by rw [List.flatMap_map]
    simp only [hf, hfm, textLines_lines _ h]
    exact mapM_some_map Oid.parse_toText oids

/-- C27: while a rebase is underway nothing is recorded; what is remembered is exactly the
commits made, in order. -/
theorem rebase_underway_records_nothing (env : Option Text) (w : HookWorld) (hu : w.underway = true)
    (steps : List DuringRebase) (oids : List Oid)
    (hd : (w.deferred.getD []) = oids.flatMap fun o => o.toText ++ ['\n']) :
    let w' := steps.foldl (DuringRebase.run env) w
    w'.db = w.db ∧ w'.underway = true ∧
      readDeferredCommits w'.deferred = some (oids ++ steps.filterMap DuringRebase.head?) := by
  induction steps generalizing w oids with
  | nil => exact ⟨rfl, hu, by simpa using readDeferred_snoc hd⟩
  | cons s steps ih =>
    simp only [List.foldl_cons]
    cases s with
    | amend now stdin =>
      have : DuringRebase.run env w (.amend now stdin) = w := by
        simp [DuringRebase.run, hookPostRewrite, hu]
      rw [this]
      rw [List.filterMap_cons_none rfl]
      exact ih w hu oids hd
    | postCommit name head time =>
      cases head with
      | none =>
        have : DuringRebase.run env w (.postCommit name none time) = w := rfl
        rw [this]
        rw [List.filterMap_cons_none rfl]
        exact ih w hu oids hd
      | some o =>
        have hw : DuringRebase.run env w (.postCommit name (some o) time) =
            { w with keptAlive := o :: w.keptAlive,
                     deferred := some ((w.deferred.getD []) ++ (o.toText ++ ['\n'])) } := by
          simp [DuringRebase.run, hookPostCommit, hu]
        rw [hw]
        have := ih { w with keptAlive := o :: w.keptAlive,
                            deferred := some ((w.deferred.getD []) ++ (o.toText ++ ['\n'])) }
          hu (oids ++ [o]) (by simp [hd])
        have hfm : (DuringRebase.postCommit name (some o) time :: steps).filterMap
            DuringRebase.head? = o :: steps.filterMap DuringRebase.head? := rfl
        rw [hfm]
        simpa using this

/-- One complete stretch of work as seen by the hooks. -/
inductive Session where
  /-- A commit outside of a rebase. -/
  | commit (hookName : Text) (head : Oid) (time : Timestamp)
  /-- `git commit --amend` outside of a rebase. -/
  | amend (now : Timestamp) (rewrites : List (Oid × MaybeZero))
  /-- A rebase that runs to its end. -/
  | rebase (steps : List DuringRebase) (now : Timestamp) (rewrites : List (Oid × MaybeZero))
  /-- A rebase that is aborted. -/
  | aborted (steps : List DuringRebase)

def Session.run (env : Option Text) (w : HookWorld) : Session → HookWorld
  | .commit name head time => hookPostCommit w env name (some head) time
  | .amend now rs => (hookPostRewrite w env t!"amend" now (writeRewrittenList rs)).2
  | .rebase steps now rs =>
    (hookPostRewrite (steps.foldl (DuringRebase.run env) w.beginRebase) env t!"rebase" now
      (writeRewrittenList rs)).2.endRebase
  | .aborted steps => (steps.foldl (DuringRebase.run env) w.beginRebase).endRebase

/-- What has to be recorded for a session, in a transaction `tx`. -/
def Session.expected (tx : TxId) : Session → List Event
  | .commit _ head time => [.commit time tx head]
  | .amend now rs => rs.map fun e => .rewrite now tx (.nonZero e.1) e.2
  | .rebase steps now rs =>
    ((steps.filterMap DuringRebase.head?).map fun o => .commit now tx o) ++
      rs.map fun e => .rewrite now tx (.nonZero e.1) e.2
  | .aborted _ => []

theorem storable_append (a b : List Event) : storable (a ++ b) = storable a ++ storable b := by
  simp [storable]

theorem makeTransactionId_getEvents (db : Db) (env : Option Text) (m : Text) :
    (db.makeTransactionId env m).2.getEvents = db.getEvents ∧
    (db.makeTransactionId env m).2.pending = db.pending ∧
    db.seq ≤ (db.makeTransactionId env m).2.seq := by
  unfold Db.makeTransactionId
  split
  · simp
  · refine ⟨rfl, rfl, ?_⟩; simp only; omega

theorem makeTransactionId_fresh (db : Db) (m : Text) :
    ∃ n, (db.makeTransactionId none m).1 = .id n ∧ db.seq < n ∧
      n ≤ (db.makeTransactionId none m).2.seq := by
  refine ⟨max db.seq (maxKey db.txs) + 1, rfl, by omega, ?_⟩
  simp [Db.makeTransactionId]

theorem addEvents_seq (db : Db) (h : db.pending = none) (es : List Event) :
    (db.addEvents es).seq = db.seq := by
  rw [addEvents_eq db h]

/-- The result of the post-rewrite hook when it is not spurious and its inputs are readable. -/
theorem hookPostRewrite_done (w : HookWorld) (env : Option Text) (ty : Text) (now : Timestamp)
    (rs : List (Oid × MaybeZero)) (oids : List Oid) (es : List Event)
    (hty : ¬ (ty = t!"amend" ∧ w.underway = true)) (hd : readDeferredCommits w.deferred = some oids)
    (hp : w.db.pending = none) (he : w.db.getEvents = some es) :
    ∃ w' tx, hookPostRewrite w env ty now (writeRewrittenList rs) = (.done (AMap.ofList rs), w') ∧
      tx = (w.db.makeTransactionId env t!"hook-post-rewrite").1 ∧
      w'.db.getEvents = some (es ++ storable ((oids.map fun o => .commit now tx o) ++
        rs.map fun e => .rewrite now tx (.nonZero e.1) e.2)) ∧
      w'.db.pending = none ∧ w'.underway = w.underway ∧ w'.deferred = w.deferred ∧
      w'.db.seq = (w.db.makeTransactionId env t!"hook-post-rewrite").2.seq := by
  unfold hookPostRewrite
  simp only [hty, if_false, hd, rewritten_list_roundtrip]
  obtain ⟨h1, h2, _⟩ := makeTransactionId_getEvents w.db env t!"hook-post-rewrite"
  refine ⟨_, _, rfl, rfl, ?_⟩
  generalize hm : w.db.makeTransactionId env t!"hook-post-rewrite" = r at *
  obtain ⟨tx, db⟩ := r
  simp only at *
  have a1 := add_events_appends db es (oids.map fun o => .commit now tx o) (by rw [h2, hp])
    (by rw [h1, he])
  have a2 := add_events_appends _ _ (rs.map fun e => .rewrite now tx (.nonZero e.1) e.2) a1.2 a1.1
  refine ⟨by rw [a2.1, storable_append, List.append_assoc], a2.2, trivial, trivial, ?_⟩
  rw [addEvents_seq _ a1.2, addEvents_seq _ (by rw [h2, hp])]

/-- What holds between sessions. -/
def Quiet (w : HookWorld) (es : List Event) : Prop :=
  w.underway = false ∧ w.deferred = none ∧ w.db.pending = none ∧ w.db.getEvents = some es

theorem session_run (w : HookWorld) (es : List Event) (hq : Quiet w es) (s : Session) :
    ∃ n, w.db.seq < n ∧ (n ≤ (s.run none w).db.seq ∨ s.expected (.id n) = []) ∧
      w.db.seq ≤ (s.run none w).db.seq ∧
      Quiet (s.run none w) (es ++ s.expected (.id n)) := by
  obtain ⟨hu, hd, hp, he⟩ := hq
  have hsto : ∀ n, storable (s.expected (.id n)) = s.expected (.id n) := by
    intro n
    unfold storable
    rw [List.filter_eq_self]
    intro e hmem
    cases s <;> simp [Session.expected] at hmem
    · subst hmem; simp [Event.txId]
    · obtain ⟨_, _, _, rfl⟩ := hmem; simp [Event.txId]
    · rcases hmem with ⟨_, _, rfl⟩ | ⟨_, _, _, rfl⟩ <;> simp [Event.txId]
  have hreb : ∀ steps : List DuringRebase,
      (steps.foldl (DuringRebase.run none) w.beginRebase).db = w.db ∧
      (steps.foldl (DuringRebase.run none) w.beginRebase).underway = true ∧
      readDeferredCommits (steps.foldl (DuringRebase.run none) w.beginRebase).deferred
        = some ([] ++ steps.filterMap DuringRebase.head?) := fun steps =>
    rebase_underway_records_nothing none w.beginRebase rfl steps [] rfl
  cases s with
  | aborted steps =>
    obtain ⟨h1, _, _⟩ := hreb steps
    refine ⟨w.db.seq + 1, by omega, .inr rfl, ?_, ?_⟩
    · simp only [Session.run, HookWorld.endRebase, h1]; omega
    · simp only [Session.run, HookWorld.endRebase, Session.expected, List.append_nil]
      exact ⟨rfl, rfl, h1 ▸ hp, by rw [h1]; exact he⟩
  | commit name head time =>
    obtain ⟨n, h1, h2, h3⟩ := makeTransactionId_fresh w.db name
    obtain ⟨g1, g2, g3⟩ := makeTransactionId_getEvents w.db none name
    have hr : Session.run none w (.commit name head time) =
        { w with keptAlive := head :: w.keptAlive,
                 db := (w.db.makeTransactionId none name).2.addEvents
                   [.commit time (w.db.makeTransactionId none name).1 head] } := by
      simp [Session.run, hookPostCommit, hu]
    have a := add_events_appends _ es [.commit time (w.db.makeTransactionId none name).1 head]
      (by rw [g2, hp]) (by rw [g1, he])
    have hs := hsto n
    simp only [Session.expected] at hs
    refine ⟨n, h2, .inl ?_, ?_, ?_⟩
    · rw [hr]; simp only; rw [addEvents_seq _ (by rw [g2, hp])]; exact h3
    · rw [hr]; simp only; rw [addEvents_seq _ (by rw [g2, hp])]; exact g3
    · rw [hr]
      rw [h1, hs] at a
      exact ⟨hu, hd, a.2, by simp only [Session.expected]; rw [h1]; exact a.1⟩
  | amend now rs =>
    obtain ⟨w', tx, e1, e2, e3, e4, e5, e6, e7⟩ := hookPostRewrite_done w none t!"amend" now rs []
      es (by simp [hu]) (by rw [hd]; rfl) hp he
    obtain ⟨n, h1, h2, h3⟩ := makeTransactionId_fresh w.db t!"hook-post-rewrite"
    have hr : Session.run none w (.amend now rs) = w' := by
      simp only [Session.run]; rw [e1]
    rw [h1] at e2; subst e2
    have hs := hsto n
    simp only [Session.expected] at hs
    simp only [List.map_nil, List.nil_append] at e3
    rw [hs] at e3
    rw [hr]
    exact ⟨n, h2, .inl (by rw [e7]; exact h3), by rw [e7]; omega, by rw [e5, hu], by rw [e6, hd], e4, e3⟩
  | rebase steps now rs =>
    obtain ⟨k1, k2, k3⟩ := hreb steps
    obtain ⟨w', tx, e1, e2, e3, e4, e5, e6, e7⟩ := hookPostRewrite_done _ none t!"rebase" now rs _
      es (by simp) k3 (by rw [k1]; exact hp) (by rw [k1]; exact he)
    rw [k1] at e2 e7
    obtain ⟨n, h1, h2, h3⟩ := makeTransactionId_fresh w.db t!"hook-post-rewrite"
    have hr : Session.run none w (.rebase steps now rs) = w'.endRebase := by
      simp only [Session.run]; rw [e1]
    rw [h1] at e2; subst e2
    have hs := hsto n
    simp only [Session.expected] at hs
    simp only [List.nil_append] at e3
    rw [hs] at e3
    rw [hr]
    exact ⟨n, h2, .inl (by simp only [HookWorld.endRebase]; rw [e7]; exact h3),
      by simp only [HookWorld.endRebase]; rw [e7]; omega, rfl, rfl, e4, e3⟩

/-- C27: whatever sequence of commits, amendments, finished and aborted rebases happens, the log
grows by exactly the expected events of each, once, in order, each in a transaction of its own. -/
theorem hooks_record_exactly_once (w : HookWorld) (es : List Event) (hq : Quiet w es)
    (sessions : List Session) :
    ∃ new : List (Session × Int), new.map Prod.fst = sessions ∧
      ((new.filter fun x => x.1.expected (.id x.2) ≠ []).map Prod.snd).Pairwise (· < ·) ∧
      (∀ x ∈ new, w.db.seq < x.2) ∧
      Quiet (sessions.foldl (Session.run none) w)
        (es ++ new.flatMap fun x => x.1.expected (.id x.2)) := by
  induction sessions generalizing w es with
  | nil => exact ⟨[], rfl, .nil, by simp, by simpa using hq⟩
  | cons s sessions ih =>
    obtain ⟨n, h1, h2, h3, h4⟩ := session_run w es hq s
    obtain ⟨new, i1, i2, i3, i4⟩ := ih _ _ h4
    refine ⟨(s, n) :: new, by simp [i1], ?_, ?_, ?_⟩
    · rw [List.filter_cons]
      split
      · rename_i hne
        simp only [List.map_cons, List.pairwise_cons]
        refine ⟨?_, i2⟩
        intro m hm
        obtain ⟨x, hx, rfl⟩ := List.mem_map.1 hm
        have := i3 x (List.mem_filter.1 hx).1
        rcases h2 with h2 | h2
        · omega
        · exact absurd h2 (by simpa using hne)
      · exact i2
    · intro x hx
      rcases List.mem_cons.1 hx with rfl | hx
      · exact h1
      · have := i3 x hx; omega
    · simpa [List.append_assoc] using i4

example : Quiet ⟨false, none, {}, []⟩ [] ∧
    Session.expected (.id 1) (.rebase [.postCommit t!"post-commit" (some oidB) 1, .amend 2 []] 3
      [(oidA, .nonZero oidB)]) =
      [.commit 3 (.id 1) oidB, .rewrite 3 (.id 1) (.nonZero oidA) (.nonZero oidB)] := by
  refine ⟨⟨rfl, rfl, rfl, rfl⟩, by decide⟩

end Verif.Props

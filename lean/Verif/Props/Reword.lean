import Verif.Lemmas.Prettify

/-!
C46: which message each commit gets from the edited text of `git reword`.
-/

namespace Verif.Props

open Verif Verif.Spec

theorem messages_eq {commits : List RewordCommit} (hd : DistinctNames commits) :
    ∀ h1 h2 o, AMap.get? (shortOids commits) h1 = some o → AMap.get? (shortOids commits) h2 = some o → h1 = h2 := by
  intro h1 h2 o e1 e2
  obtain ⟨c1, m1, n1, o1⟩ := (shortOids_get? hd.1 _ _).1 e1
  obtain ⟨c2, m2, n2, o2⟩ := (shortOids_get? hd.1 _ _).1 e2
  have : c1 = c2 := List.inj_on_of_nodup_map hd.2 m1 m2 (o1.trans o2.symm)
  rw [← n1, ← n2, this]

theorem find?_isSome_iff (sections : List (Text × Text)) (h : Text) :
    (sections.find? fun s => decide (s.1 = h)).isSome = true ↔ h ∈ sections.map (·.1) := by
  rw [List.find?_isSome, List.mem_map]
  simp

/-- What `prepare_messages` does with the edited text, if it is neither unchanged nor blank. -/
theorem parsed_exact {commits : List RewordCommit} {comment : Char} {p : Text}
    (hc : comment.toNat < 256) (hd : DistinctNames commits) (hn : ∀ c ∈ commits, ShortName c.short)
    (hz : '\x00' ∉ p) :
    ∃ sections parsed, SaysMessages commits p sections ∧
      parseBulkEditMessage p commits comment = .ok parsed ∧
      parsed.unexpected = (sections.map (·.1)).filter (fun h => decide (h ∉ commits.map (·.short))) ∧
      (∀ c ∈ commits, AMap.get? parsed.messages c.oid =
        (sections.find? fun s => decide (s.1 = c.short)).map fun s => pretty (some comment) s.2) ∧
      (∀ o, o ∉ commits.map (·.oid) → AMap.get? parsed.messages o = none) ∧
      (∀ c ∈ commits, parsed.duplicates.count c.short = (sections.map (·.1)).count c.short - 1) ∧
      (∀ h, h ∉ commits.map (·.short) → h ∉ parsed.duplicates) := by
  have hz2 : '\x00' ∉ markedText p commits := by
    unfold markedText
    split
    · rename_i c
      split
      · exact hz
      · simp only [List.mem_append, not_or]
        refine ⟨⟨⟨⟨by decide, by decide⟩, ?_⟩, by decide⟩, hz⟩
        intro h
        exact absurd ((hn c (by simp)).2 _ h) (by decide)
    · exact hz
  obtain ⟨r, h1, h2, h3, h4, h5, h6⟩ := parseSections_exact (comment := comment) (messages_eq hd)
    (bulkSections (markedText p commits))
    (fun s hs => messagePrettify_eq (by rintro c ⟨⟩; exact hc) fun h => hz2 (mem_section hs h)) ⟨[], [], []⟩
  have hnone : ∀ h, AMap.get? (shortOids commits) h = none ↔ h ∉ commits.map (·.short) := by
    intro h
    rw [Option.eq_none_iff_forall_ne_some]
    constructor
    · intro hh hm
      obtain ⟨c, hc, rfl⟩ := List.mem_map.1 hm
      exact hh c.oid ((shortOids_get? hd.1 _ _).2 ⟨c, hc, rfl, rfl⟩)
    · intro hh o ho
      obtain ⟨c, hc, rfl, _⟩ := (shortOids_get? hd.1 _ _).1 ho
      exact hh (List.mem_map_of_mem hc)
  refine ⟨_, r, (saysMessages_iff hn p _).2 rfl, h1, ?_, ?_, ?_, ?_, ?_⟩
  · rw [h2, List.nil_append]
    apply List.filter_congr
    intro h _
    rw [Bool.eq_iff_iff, Option.isNone_iff_eq_none, hnone, decide_eq_true_eq]
  · intro c hc
    rw [h3 _ _ ((shortOids_get? hd.1 _ _).2 ⟨c, hc, rfl, rfl⟩)]
    simp
  · intro o ho
    rw [h4]
    · simp
    · intro h e
      obtain ⟨c, hc, _, rfl⟩ := (shortOids_get? hd.1 _ _).1 e
      exact ho (List.mem_map_of_mem hc)
  · intro c hc
    rw [h5 _ _ ((shortOids_get? hd.1 _ _).2 ⟨c, hc, rfl, rfl⟩)]
    simp
  · intro h hh
    rw [← List.count_eq_zero, h6 h ((hnone h).2 hh)]
    simp

/-- `prepare_messages` reads the edited text. -/
theorem prepare_edited {comment : Char} {template start shown edited : Text} {discard : Bool}
    {messages : InitialMessages} {commits : List RewordCommit} {edit : Text → Except Unit Text}
    (hask : AsksEditor template messages start discard)
    (hshown : editorText comment start discard commits = .ok shown)
    (hedit : edit shown = .ok edited) (hne : edited ≠ shown) :
    prepareMessages comment template messages commits edit =
      match messagePrettify edited (some comment) with
      | .error e => .error e
      | .ok message =>
        if trim message = [] then .ok .empty
        else
          match parseBulkEditMessage message commits comment with
          | .error e => .error e
          | .ok parsed =>
            let missing := commits.filter fun c => (AMap.get? parsed.messages c.oid).isNone
            let same := missing.isEmpty &&
              (AMap.keys parsed.messages).all fun o => decide (o ∈ commits.map (·.oid))
            if same && parsed.duplicates.isEmpty && parsed.unexpected.isEmpty then
              .ok (.succeeded parsed.messages)
            else .ok (.mismatched parsed.duplicates (missing.map (·.short)) parsed.unexpected) := by
  unfold prepareMessages
  rcases hask with ⟨rfl, rfl, rfl⟩ | ⟨ms, rfl, hms, rfl, rfl⟩
  · simp only [Bool.not_true, Bool.false_eq_true, if_false, hshown, hedit, if_neg hne]
    cases messagePrettify edited (some comment) <;> rfl
  · have : trim (joinTexts ['\n', '\n'] ms) = [] := by
      rw [trim_eq_nil]
      intro c hc
      rcases mem_intercalate hc with h | ⟨t, h1, h2⟩
      · simp only [List.mem_cons, List.not_mem_nil, or_false, or_self] at h
        subst h
        decide
      · exact hms t h1 c h2
    simp only [this, List.isEmpty_nil, Bool.not_true, Bool.false_eq_true, if_false, hshown, hedit, if_neg hne]
    cases messagePrettify edited (some comment) <;> rfl

/-- The edited text decides what happens. If it says nothing, nothing is done. If its sections name exactly the
selected commits, each of them once, in any order, then each commit gets the message in its section, and no other
commit gets one. Else nothing is done, and the sections which are too many, missing or unexpected are reported. -/
theorem edited_text_exact {comment : Char} {template start shown edited : Text} {discard : Bool}
    {messages : InitialMessages} {commits : List RewordCommit} {edit : Text → Except Unit Text}
    (hd : DistinctNames commits) (hn : ∀ c ∈ commits, ShortName c.short)
    (hask : AsksEditor template messages start discard)
    (hshown : editorText comment start discard commits = .ok shown)
    (hedit : edit shown = .ok edited) (hne : edited ≠ shown)
    {p : Text} (hp : messagePrettify edited (some comment) = .ok p) :
    ((∀ ch ∈ p, isSpace ch = true) ∧ prepareMessages comment template messages commits edit = .ok .empty) ∨
    ((∃ ch ∈ p, isSpace ch = false) ∧ ∃ sections, SaysMessages commits p sections ∧
      (((sections.map (·.1)).Perm (commits.map (·.short)) ∧
        ∃ ms, prepareMessages comment template messages commits edit = .ok (.succeeded ms) ∧
          (∀ o, (AMap.get? ms o).isSome = true ↔ o ∈ commits.map (·.oid)) ∧
          ∀ c ∈ commits, ∀ body, (c.short, body) ∈ sections →
            ∃ m, messagePrettify body (some comment) = .ok m ∧ AMap.get? ms c.oid = some m) ∨
      (¬ (sections.map (·.1)).Perm (commits.map (·.short)) ∧
        ∃ duplicates missing unexpected,
          prepareMessages comment template messages commits edit = .ok (.mismatched duplicates missing unexpected) ∧
          unexpected = (sections.map (·.1)).filter (fun h => decide (h ∉ commits.map (·.short))) ∧
          missing = (commits.map (·.short)).filter (fun h => decide (h ∉ sections.map (·.1))) ∧
          (∀ c ∈ commits, duplicates.count c.short = (sections.map (·.1)).count c.short - 1) ∧
          ∀ h ∈ duplicates, h ∈ commits.map (·.short)))) := by
  rw [prepare_edited hask hshown hedit hne, hp]
  obtain ⟨hc, hz, hpe⟩ := messagePrettify_ok hp
  have hc := hc comment rfl
  have hz2 : '\x00' ∉ p := by
    intro h
    rw [hpe] at h
    rcases mem_pretty h with h | h
    · exact absurd h (by decide)
    · exact hz h
  by_cases hb : trim p = []
  · left
    refine ⟨trim_eq_nil.1 hb, ?_⟩
    simp only [hb, if_true]
  right
  refine ⟨?_, ?_⟩
  · rw [trim_eq_nil] at hb
    by_contra hno
    apply hb
    intro c hc
    by_contra h
    exact hno ⟨c, hc, by simpa using h⟩
  obtain ⟨sections, parsed, h1, h2, h3, h4, h5, h6, h7⟩ := parsed_exact hc hd hn hz2
  refine ⟨sections, h1, ?_⟩
  simp only [if_neg hb, h2]
  have hsome : ∀ c ∈ commits, ((AMap.get? parsed.messages c.oid).isSome = true ↔ c.short ∈ sections.map (·.1)) := by
    intro c hc
    rw [h4 c hc, Option.isSome_map, find?_isSome_iff]
  have hkeys : ((AMap.keys parsed.messages).all fun o => decide (o ∈ commits.map (·.oid))) = true := by
    rw [List.all_eq_true]
    intro o ho
    rw [AMap.mem_keys_iff] at ho
    rw [decide_eq_true_eq]
    by_contra hno
    rw [h5 o hno] at ho
    simp at ho
  have hmissing : (commits.filter fun c => (AMap.get? parsed.messages c.oid).isNone).map (·.short) =
      (commits.map (·.short)).filter (fun h => decide (h ∉ sections.map (·.1))) := by
    rw [List.filter_map]
    congr 1
    apply List.filter_congr
    intro c hc
    have := hsome c hc
    rw [Bool.eq_iff_iff]
    simp only [Function.comp_apply, decide_eq_true_eq, ← this]
    cases AMap.get? parsed.messages c.oid <;> simp
  have hiff : ((commits.filter fun c => (AMap.get? parsed.messages c.oid).isNone).isEmpty &&
      ((AMap.keys parsed.messages).all fun o => decide (o ∈ commits.map (·.oid))) && parsed.duplicates.isEmpty &&
      parsed.unexpected.isEmpty) = true ↔ (sections.map (·.1)).Perm (commits.map (·.short)) := by
    rw [hkeys]
    simp only [Bool.and_true, Bool.and_eq_true, List.isEmpty_iff]
    constructor
    · rintro ⟨⟨g1, g2⟩, g3⟩
      rw [List.perm_iff_count]
      intro a
      by_cases ha : a ∈ commits.map (·.short)
      · rw [List.count_eq_one_of_mem hd.1 ha]
        obtain ⟨c, hc, rfl⟩ := List.mem_map.1 ha
        have e1 := h6 c hc
        rw [g2, List.count_nil] at e1
        have e2 : c.short ∈ sections.map (·.1) := by
          rw [← hsome c hc]
          rw [List.filter_eq_nil_iff] at g1
          have := g1 c hc
          cases hh : AMap.get? parsed.messages c.oid with
          | none => rw [hh] at this; simp at this
          | some m => rfl
        have := List.count_pos_iff.2 e2
        omega
      · rw [List.count_eq_zero.2 ha, List.count_eq_zero]
        intro hin
        rw [h3, List.filter_eq_nil_iff] at g3
        exact g3 a hin (by simpa using ha)
    · intro hperm
      refine ⟨⟨?_, ?_⟩, ?_⟩
      · rw [List.filter_eq_nil_iff]
        intro c hc hn
        have : c.short ∈ sections.map (·.1) := hperm.mem_iff.2 (List.mem_map_of_mem hc)
        rw [← hsome c hc] at this
        cases hh : AMap.get? parsed.messages c.oid with
        | none => rw [hh] at this; simp at this
        | some m => rw [hh] at hn; simp at hn
      · rw [List.eq_nil_iff_forall_not_mem]
        intro h hh
        by_cases ha : h ∈ commits.map (·.short)
        · obtain ⟨c, hc, rfl⟩ := List.mem_map.1 ha
          have := h6 c hc
          rw [hperm.count_eq, List.count_eq_one_of_mem hd.1 ha] at this
          exact List.count_eq_zero.1 this hh
        · exact h7 h ha hh
      · rw [h3, List.filter_eq_nil_iff]
        intro h hh
        simpa using hperm.mem_iff.1 hh
  by_cases hperm : (sections.map (·.1)).Perm (commits.map (·.short))
  · left
    refine ⟨hperm, parsed.messages, ?_, ?_, ?_⟩
    · rw [if_pos (hiff.2 hperm)]
    · intro o
      constructor
      · intro h
        by_contra hno
        rw [h5 o hno] at h
        simp at h
      · intro h
        obtain ⟨c, hc, rfl⟩ := List.mem_map.1 h
        rw [hsome c hc]
        exact hperm.mem_iff.2 (List.mem_map_of_mem hc)
    · intro c hcm body hbody
      have hz3 : '\x00' ∉ body := by
        rw [saysMessages_iff hn] at h1
        rw [← h1] at hbody
        intro h
        have := mem_section hbody h
        revert this
        unfold markedText
        split
        · rename_i c
          split
          · exact hz2
          · simp only [List.mem_append, imp_false, not_or]
            refine ⟨⟨⟨⟨by decide, by decide⟩, ?_⟩, by decide⟩, hz2⟩
            intro h
            exact absurd ((hn c (by simp)).2 _ h) (by decide)
        · exact hz2
      refine ⟨_, messagePrettify_eq (by rintro c ⟨⟩; exact hc) hz3, ?_⟩
      rw [h4 c hcm]
      have hnd : (sections.map (·.1)).Nodup := hperm.nodup_iff.2 hd.1
      cases hf : sections.find? fun s => decide (s.1 = c.short) with
      | none =>
        rw [List.find?_eq_none] at hf
        exact absurd (decide_eq_true rfl) (hf _ hbody)
      | some s =>
        have e1 := List.mem_of_find?_eq_some hf
        have e2 := List.find?_some hf
        simp only [decide_eq_true_eq] at e2
        have : s = (c.short, body) := List.inj_on_of_nodup_map hnd e1 hbody e2
        rw [this]
        rfl
  · right
    refine ⟨hperm, parsed.duplicates, _, parsed.unexpected, ?_, h3, hmissing, h6, ?_⟩
    · rw [if_neg (fun h => hperm (hiff.1 h))]
    · intro h hh
      by_contra hno
      exact h7 h hno hh

/-- A text which was not edited changes nothing. -/
theorem unedited_text {comment : Char} {template start shown : Text} {discard : Bool}
    {messages : InitialMessages} {commits : List RewordCommit} {edit : Text → Except Unit Text}
    (hask : AsksEditor template messages start discard)
    (hshown : editorText comment start discard commits = .ok shown) (hedit : edit shown = .ok shown) :
    prepareMessages comment template messages commits edit = .ok .identical := by
  unfold prepareMessages
  rcases hask with ⟨rfl, rfl, rfl⟩ | ⟨ms, rfl, hms, rfl, rfl⟩
  · simp only [Bool.not_true, Bool.false_eq_true, if_false, hshown, hedit, if_true]
  · have : trim (joinTexts ['\n', '\n'] ms) = [] := by
      rw [trim_eq_nil]
      intro c hc
      rcases mem_intercalate hc with h | ⟨t, h1, h2⟩
      · simp only [List.mem_cons, List.not_mem_nil, or_false, or_self] at h
        subst h
        decide
      · exact hms t h1 c h2
    simp only [this, List.isEmpty_nil, Bool.not_true, Bool.false_eq_true, if_false, hshown, hedit, if_true]

theorem saysMessages_unique {commits : List RewordCommit} (hn : ∀ c ∈ commits, ShortName c.short) {text : Text}
    {s1 s2 : List (Text × Text)} (h1 : SaysMessages commits text s1) (h2 : SaysMessages commits text s2) : s1 = s2 :=
  ((saysMessages_iff hn text s1).1 h1).symm.trans ((saysMessages_iff hn text s2).1 h2)

/-- Several commits: the text for the editor has their messages, each after a line which names the commit, and
below them an explanation. If only the messages are replaced, with any text that does not contain the marker, then
each commit gets its new text (cleaned up). The comment character must be a character of ASCII, and not the first
character of the marker. -/
theorem new_messages_arrive {comment : Char} {template shown : Text} {ms : List Text} {commits : List RewordCommit}
    (hc : comment.toNat < 128) (hplus : comment ≠ '+') (hnl : comment ≠ '\n')
    (hd : DistinctNames commits) (hn : ∀ c ∈ commits, ShortName c.short) (hlen : 2 ≤ commits.length)
    (hms : ∀ m ∈ ms, ∀ c ∈ m, isSpace c = true)
    (hshown : editorText comment [] false commits = .ok shown) :
    ∃ footer : Text,
      shown = (commits.flatMap fun c =>
        t!"++ reword " ++ c.short ++ t!"\n" ++ trim (c.message.getD []) ++ t!"\n\n") ++ footer ∧
      ∀ (new : RewordCommit → Text) (edited : Text),
        edited = (commits.flatMap fun c => t!"++ reword " ++ c.short ++ t!"\n" ++ new c ++ t!"\n\n") ++ footer →
        (∀ c ∈ commits, ¬ t!"++ reword" <:+: new c) → '\x00' ∉ edited → edited ≠ shown →
        ∀ edit : Text → Except Unit Text, edit shown = .ok edited →
          ∃ result, prepareMessages comment template (.messages ms) commits edit = .ok (.succeeded result) ∧
            (∀ o, (AMap.get? result o).isSome = true ↔ o ∈ commits.map (·.oid)) ∧
            ∀ c ∈ commits, ∃ m, messagePrettify (new c) (some comment) = .ok m ∧
              AMap.get? result c.oid = some m := by
  refine ⟨rewordFooter comment commits.length, ?_, ?_⟩
  · unfold editorText at hshown
    simp only at hshown
    split at hshown
    · simp at hshown
    rename_i parts hparts
    simp only [Except.ok.injEq] at hshown
    rw [← hshown]
    congr 1
    have hne1 : ¬ commits.length = 1 := by omega
    simp only [hne1, decide_false, Bool.false_eq_true, if_false, commitPart] at hparts
    rw [List.flatMap_def]
    congr 1
    clear hshown hne1 hlen hd hn
    induction commits generalizing parts with
    | nil => simpa using hparts.symm
    | cons c cs ih =>
      simp only [List.mapM_cons, Option.bind_eq_bind, Option.pure_def] at hparts
      cases hm : c.message with
      | none => simp [hm] at hparts
      | some m =>
        cases hr : (cs.mapM fun c => c.message.map fun m =>
            rewordMarker ++ [' '] ++ c.short ++ ['\n'] ++ trim m ++ ['\n', '\n']) with
        | none => simp only [hm, hr, Option.map_some, Option.bind_some, Option.bind_none, reduceCtorEq] at hparts
        | some rest =>
          simp only [hm, hr, Option.map_some, Option.bind_some, Option.some.injEq] at hparts
          rw [← hparts, ih _ hr]
          simp [hm, rewordMarker]
  · intro new edited hedited hnew hz hne edit hedit
    have hedited' : edited = partsText new commits ++ rewordFooter comment commits.length := by
      rw [hedited]
      unfold partsText
      congr 2
    have hpe : messagePrettify edited (some comment) = .ok (pretty (some comment) edited) :=
      messagePrettify_eq (by rintro c ⟨⟩; omega) hz
    have hsays := parts_say hplus new (footer_comments hc hnl commits.length) hlen hn hnew
    rw [← hedited'] at hsays
    have hask : AsksEditor template (.messages ms) [] false := .inr ⟨ms, rfl, hms, rfl, rfl⟩
    rcases edited_text_exact hd hn hask hshown hedit hne hpe with ⟨h1, _⟩ | ⟨_, sections, h1, h2⟩
    · -- the text has a marker
      exfalso
      have hplus : '+' ∈ pretty (some comment) edited := by
        cases hcs : commits with
        | nil => rw [hcs] at hlen; simp at hlen
        | cons c cs =>
          rw [hedited']
          have := pretty_parts hplus new (footer_comments hc hnl commits.length) c cs (by rw [← hcs]; exact hn)
          rw [hcs] at this ⊢
          rw [this]
          cases hr : roundChunks comment new (c :: cs) with
          | nil => cases cs <;> simp [roundChunks] at hr
          | cons r rs =>
            rw [intercalate_cons_cons]
            simp [rewordMarker]
      exact absurd (h1 _ hplus) (by decide)
    · have := saysMessages_unique hn h1 hsays
      subst this
      rcases h2 with ⟨_, result, h3, h4, h5⟩ | ⟨h3, _⟩
      · refine ⟨result, h3, h4, ?_⟩
        intro c hcm
        have hzn : '\x00' ∉ new c := by
          intro h
          apply hz
          rw [hedited, List.mem_append, List.mem_flatMap]
          exact .inl ⟨c, hcm, by simp [h]⟩
        obtain ⟨e, he, hmem⟩ := mem_roundSections (comment := comment) (new := new) hcm
        obtain ⟨m, hm1, hm2⟩ := h5 c hcm _ hmem
        refine ⟨m, ?_, hm2⟩
        have := (messagePrettify_ok hm1).2.2
        rw [pretty_outLines comment (new c) he] at this
        rw [this]
        exact messagePrettify_eq (by rintro c ⟨⟩; omega) hzn
      · exact absurd (by rw [roundSections_names]) h3

/-- One commit: the text for the editor is its message and the explanation. If the message is replaced, with any
text that does not contain the marker and in which something is left after the clean-up, then the commit gets it. -/
theorem new_message_arrives {comment : Char} {template shown : Text} {ms : List Text} {c : RewordCommit}
    (hc : comment.toNat < 128) (hnl : comment ≠ '\n') (hn : ShortName c.short)
    (hms : ∀ m ∈ ms, ∀ c ∈ m, isSpace c = true)
    (hshown : editorText comment [] false [c] = .ok shown) :
    ∃ footer : Text,
      shown = trim (c.message.getD []) ++ t!"\n\n" ++ footer ∧
      ∀ new edited m : Text, edited = new ++ t!"\n\n" ++ footer →
        ¬ t!"++ reword" <:+: new → '\x00' ∉ edited → edited ≠ shown →
        messagePrettify new (some comment) = .ok m → (∃ ch ∈ m, isSpace ch = false) →
        ∀ edit : Text → Except Unit Text, edit shown = .ok edited →
          ∃ result, prepareMessages comment template (.messages ms) [c] edit = .ok (.succeeded result) ∧
            ∀ o, AMap.get? result o = if o = c.oid then some m else none := by
  refine ⟨rewordFooter comment 1, ?_, ?_⟩
  · unfold editorText at hshown
    cases hm : c.message with
    | none => simp [hm] at hshown
    | some m =>
      simp only [List.length_singleton, List.mapM_cons, List.mapM_nil, hm, Option.map_some, Option.pure_def,
        Option.bind_eq_bind, Option.bind_some, commitPart, decide_true, if_true, Bool.false_eq_true, if_false,
        List.flatten_cons, List.flatten_nil, List.append_nil, Except.ok.injEq] at hshown
      rw [← hshown]
      simp
  · intro new edited m hedited hnew hz hne hm hblank edit hedit
    have hd : DistinctNames [c] := by simp [DistinctNames]
    have hn' : ∀ c' ∈ [c], ShortName c'.short := by simpa using hn
    have hpe : messagePrettify edited (some comment) = .ok (pretty (some comment) edited) :=
      messagePrettify_eq (by rintro c ⟨⟩; omega) hz
    have hm' := (messagePrettify_ok hm).2.2
    have hp : pretty (some comment) edited = m := by
      rw [hm', hedited]
      unfold pretty
      have : new ++ t!"\n\n" ++ rewordFooter comment 1 =
          new ++ '\n' :: ([] ++ '\n' :: rewordFooter comment 1) := by simp
      rw [this, splitChar_append, splitChar_append, ← List.append_assoc, prettifyLines_append,
        prettifyLines_comments _ _ _ (footer_comments hc hnl 1), List.append_nil]
      simp only [splitChar]
      rw [prettifyLines_blank]
    rw [hp] at hpe
    have hnm : ¬ rewordMarker <:+: m := by
      intro h
      rw [hm'] at h
      obtain ⟨l, h1, h2⟩ := infix_unlines (by decide) (by decide) h
      exact marker_not_in_lines hnew l h1 h2
    have hsays : SaysMessages [c] m [(c.short, m)] := .inl ⟨c, rfl, hnm, rfl⟩
    have hask : AsksEditor template (.messages ms) [] false := .inr ⟨ms, rfl, hms, rfl, rfl⟩
    rcases edited_text_exact hd hn' hask hshown hedit hne hpe with ⟨h1, _⟩ | ⟨_, sections, h1, h2⟩
    · obtain ⟨ch, g1, g2⟩ := hblank
      rw [h1 ch g1] at g2
      simp at g2
    · have := saysMessages_unique hn' h1 hsays
      subst this
      rcases h2 with ⟨_, result, h3, h4, h5⟩ | ⟨h3, _⟩
      · refine ⟨result, h3, ?_⟩
        intro o
        split
        · rename_i ho
          subst ho
          obtain ⟨m2, g1, g2⟩ := h5 c (by simp) m (by simp)
          rw [g2, (messagePrettify_ok g1).2.2, hm', pretty_pretty]
        · rename_i ho
          have := h4 o
          cases hg : AMap.get? result o with
          | none => rfl
          | some x =>
            rw [hg] at this
            simp [ho] at this
      · exact absurd (by simp) h3

/-- Messages given on the command line: every commit gets them, as one text, and no editor is started. -/
theorem given_messages {comment : Char} {template : Text} {ms : List Text} {commits : List RewordCommit}
    {edit : Text → Except Unit Text} (hgiven : ∃ m ∈ ms, ∃ c ∈ m, isSpace c = false) (hz : ∀ m ∈ ms, '\x00' ∉ m) :
    ∃ message, messagePrettify (trim (List.intercalate t!"\n\n" ms)) none = .ok message ∧
      (((∀ c ∈ message, isSpace c = true) ∧
          prepareMessages comment template (.messages ms) commits edit = .ok .empty) ∨
       ((∃ c ∈ message, isSpace c = false) ∧
          ∃ result, prepareMessages comment template (.messages ms) commits edit = .ok (.succeeded result) ∧
            ∀ o, AMap.get? result o = if o ∈ commits.map (·.oid) then some message else none)) := by
  have hmem : ∀ x ∈ trim (List.intercalate t!"\n\n" ms), x ∈ List.intercalate t!"\n\n" ms := by
    intro x hx
    unfold trim trimEnd trimStart at hx
    rw [List.mem_reverse] at hx
    exact (List.dropWhile_suffix _).subset (List.mem_reverse.1 ((List.dropWhile_suffix _).subset hx))
  have hz2 : '\x00' ∉ trim (List.intercalate t!"\n\n" ms) := by
    intro h
    rcases mem_intercalate (hmem _ h) with h | ⟨t, h1, h2⟩
    · exact absurd h (by decide)
    · exact hz t h1 h2
  have hp := messagePrettify_eq (comment := none) (by simp) hz2
  refine ⟨_, hp, ?_⟩
  have hne : trim (joinTexts ['\n', '\n'] ms) ≠ [] := by
    rw [Ne, trim_eq_nil]
    obtain ⟨m, h1, c, h2, h3⟩ := hgiven
    intro h
    have := h c (mem_intercalate_of h1 h2)
    rw [h3] at this
    simp at this
  have hempty : (trim (joinTexts ['\n', '\n'] ms)).isEmpty = false := by
    cases h : trim (joinTexts ['\n', '\n'] ms) with
    | nil => exact absurd h hne
    | cons => rfl
  have hp' : messagePrettify (trim (joinTexts ['\n', '\n'] ms)) none = .ok _ := hp
  unfold prepareMessages
  simp only [hempty, Bool.not_false, if_true, hp']
  by_cases hb : trim (pretty none (trim (List.intercalate t!"\n\n" ms))) = []
  · left
    exact ⟨trim_eq_nil.1 hb, by simp only [hb, if_true]⟩
  · right
    refine ⟨?_, _, by simp only [if_neg hb]; rfl, ?_⟩
    · rw [trim_eq_nil] at hb
      by_contra hno
      apply hb
      intro c hc
      by_contra h
      exact hno ⟨c, hc, by simpa using h⟩
    · intro o
      have key : ∀ (l : List RewordCommit) (v : Text) (m : AMap Oid Text),
          AMap.get? (l.foldl (fun m c => AMap.insert m c.oid v) m) o =
            if o ∈ l.map (·.oid) then some v else AMap.get? m o := by
        intro l v
        induction l with
        | nil => simp
        | cons c l ih =>
          intro m
          rw [List.foldl_cons, ih, AMap.get?_insert]
          by_cases h1 : o ∈ l.map (·.oid)
          · simp [h1]
          · by_cases h2 : c.oid = o
            · simp [h2]
            · have : ¬ o = c.oid := fun e => h2 e.symm
              simp only [List.map_cons, List.mem_cons, this, h1, h2, or_self, if_false]
      rw [key]
      rfl

/-! ### examples -/

/-- Two commits. -/
def exFirst : RewordCommit := ⟨⟨1, by decide, by decide⟩, t!"a1", some t!"First\n"⟩
def exSecond : RewordCommit := ⟨⟨2, by decide, by decide⟩, t!"b2", some t!"Second\n\nMore.\n"⟩

theorem exNames : DistinctNames [exFirst, exSecond] ∧ ∀ c ∈ [exFirst, exSecond], ShortName c.short := by
  refine ⟨⟨by decide, by decide⟩, ?_⟩
  intro c hc
  simp only [List.mem_cons, List.not_mem_nil, or_false] at hc
  rcases hc with rfl | rfl <;> exact ⟨by decide, by decide⟩

/-- The text for the editor. -/
example : editorText '#' [] false [exFirst, exSecond] = .ok
    t!"++ reword a1\nFirst\n\n++ reword b2\nSecond\n\nMore.\n\n# Rewording: Please enter the commit messages to apply to these 2 commits.\n# Lines starting with '#' will be ignored, and an empty message aborts\n# rewording." := by
  rfl

/-- The sections of a text, in the other order. -/
example : SaysMessages [exFirst, exSecond] t!"++ reword b2\nB\n++ reword a1\nA\n" [(t!"b2", t!"B\n"), (t!"a1", t!"A\n")] :=
  (saysMessages_iff exNames.2 _ _).2 (by decide +kernel)

/-- The messages arrive, although their order was changed. -/
example : prepareMessages '#' [] (.messages []) [exFirst, exSecond]
    (fun _ => .ok t!"++ reword b2\nB \n# a comment\n\n\n++ reword a1\n\nA\n") =
      .ok (.succeeded [(exFirst.oid, t!"A\n"), (exSecond.oid, t!"B\n")]) := by decide +kernel

/-- A commit named twice, and another one not at all. -/
example : prepareMessages '#' [] (.messages []) [exFirst, exSecond]
    (fun _ => .ok t!"++ reword b2\nB\n\n++ reword b2\nA\n\n++ reword c3\nC\n") =
      .ok (.mismatched [t!"b2"] [t!"a1"] [t!"c3"]) := by decide +kernel

/-- Replacing the messages: of several lines, one of them a comment; and of none. -/
example : prepareMessages '#' [] (.messages []) [exFirst, exSecond]
      (fun _ => .ok t!"++ reword a1\nNew\n# left out\n\n\nbody\n\n++ reword b2\n\n\n# Rewording") =
        .ok (.succeeded [(exSecond.oid, []), (exFirst.oid, t!"New\n\nbody\n")]) := by decide +kernel

/-- The hypotheses of `new_messages_arrive` can be met. -/
example : ∃ footer : Text, ∀ edit : Text → Except Unit Text, (∀ s, edit s = .ok
    (t!"++ reword a1\nA\n\n++ reword b2\nB\n\n" ++ footer)) →
    ∃ result, prepareMessages '#' [] (.messages []) [exFirst, exSecond] edit = .ok (.succeeded result) ∧
      AMap.get? result exFirst.oid = some t!"A\n" := by
  obtain ⟨footer, h1, h2⟩ := new_messages_arrive (comment := '#') (template := []) (ms := []) (by decide)
    (by decide) (by decide) exNames.1 exNames.2 (by decide) (by simp) rfl
  refine ⟨footer, fun edit hedit => ?_⟩
  have hf : footer = rewordFooter '#' 2 := by
    have h1' : t!"++ reword a1\nFirst\n\n++ reword b2\nSecond\n\nMore.\n\n" ++ rewordFooter '#' 2 =
        t!"++ reword a1\nFirst\n\n++ reword b2\nSecond\n\nMore.\n\n" ++ footer := h1
    exact (List.append_cancel_left h1').symm
  obtain ⟨result, h3, _, h4⟩ := h2 (fun c => if c = exFirst then t!"A" else t!"B") _ rfl (by decide) (by
    rw [hf]; decide +kernel) (by rw [h1, hf]; decide +kernel) edit (by rw [hedit]; rfl)
  refine ⟨result, h3, ?_⟩
  obtain ⟨m, h5, h6⟩ := h4 exFirst (by simp)
  rw [h6]
  have h7 : messagePrettify t!"A" (some '#') = .ok t!"A\n" := by decide +kernel
  have h8 : messagePrettify t!"A" (some '#') = .ok m := h5
  rw [h7] at h8
  simpa using h8.symm

/-- A message for one commit, with its own first line. -/
example : prepareMessages '#' [] (.messages []) [exFirst] (fun _ => .ok t!"New\n\n# words") =
    .ok (.succeeded [(exFirst.oid, t!"New\n")]) := by decide +kernel

/-- The same messages for both commits. -/
example : prepareMessages '#' [] (.messages [t!"A", t!"# B"]) [exFirst, exSecond] (fun _ => .error ()) =
    .ok (.succeeded [(exSecond.oid, t!"A\n\n# B\n"), (exFirst.oid, t!"A\n\n# B\n")]) := by decide +kernel

/-! ### where the text does not mean what it says -/

/-- The text for the editor says that an empty message aborts rewording. With several commits, an empty message
for one of them does not: the commit gets an empty message. -/
theorem empty_message_accepted :
    ∃ edited result, prepareMessages '#' [] (.messages []) [exFirst, exSecond] (fun _ => .ok edited) =
      .ok (.succeeded result) ∧ AMap.get? result (exSecond.oid) = some [] :=
  ⟨t!"++ reword a1\nFirst\n\n++ reword b2\n\n\n# Rewording", _, rfl, by decide +kernel⟩

/-- A commit whose message has the marker somewhere below its first line: whatever else is edited, the text is
refused, as the first line is taken for the name of a commit. -/
theorem own_marker_refused {comment : Char} {template start shown edited : Text} {discard : Bool}
    {messages : InitialMessages} {c : RewordCommit} {edit : Text → Except Unit Text} (hn : ShortName c.short)
    (hask : AsksEditor template messages start discard)
    (hshown : editorText comment start discard [c] = .ok shown)
    (hedit : edit shown = .ok edited) (hne : edited ≠ shown) {line below rest : Text}
    (hp : messagePrettify edited (some comment) = .ok (line ++ '\n' :: below ++ t!"++ reword" ++ rest))
    (hline : '\n' ∉ line) (hfirst : ¬ t!"++ reword" <:+: line ++ '\n' :: below) (hname : trim line ≠ c.short) :
    ∃ d m u, prepareMessages comment template messages [c] edit = .ok (.mismatched d m u) := by
  have hd : DistinctNames [c] := by simp [DistinctNames]
  have hn' : ∀ c' ∈ [c], ShortName c'.short := by simpa using hn
  rcases edited_text_exact hd hn' hask hshown hedit hne hp with ⟨h1, _⟩ | ⟨_, sections, h1, h2⟩
  · exact absurd (h1 '+' (by simp)) (by decide)
  · rcases h2 with ⟨hperm, _⟩ | ⟨_, d, m, u, h3, _⟩
    · exfalso
      have hin : t!"++ reword" <:+: line ++ '\n' :: below ++ t!"++ reword" ++ rest :=
        ⟨line ++ '\n' :: below, rest, rfl⟩
      rcases h1 with ⟨_, _, h4, _⟩ | ⟨_, h4⟩
      · exact h4 hin
      · rw [hasSections_iff] at h4
        have hsplit : splitText rewordMarker (line ++ '\n' :: below ++ t!"++ reword" ++ rest) =
            (line ++ '\n' :: below) :: splitText rewordMarker rest := by
          rw [List.append_assoc (line ++ '\n' :: below)]
          exact splitText_cut (by decide) noBorder_marker hfirst rest
        unfold bulkSections at h4
        rw [hsplit, List.filterMap_cons_some (splitOnce_some.2 ⟨rfl, hline⟩)] at h4
        rw [← h4, List.map_cons, List.map_cons, List.map_singleton] at hperm
        have := List.perm_singleton.1 hperm
        simp only [List.cons.injEq] at this
        exact hname this.1
    · exact ⟨d, m, u, h3⟩

example : ∃ d m u, prepareMessages '#' [] (.messages [])
    [⟨exFirst.oid, t!"a1", some t!"Explain\n\nThe lines ++ reword are special.\n"⟩]
    (fun _ => .ok t!"Explain more\n\nThe lines ++ reword are special.\n\n# words") = .ok (.mismatched d m u) :=
  own_marker_refused (line := t!"Explain more") (below := t!"\nThe lines ") (rest := t!" are special.\n")
    ⟨by decide, by decide⟩ (.inr ⟨[], rfl, by simp, rfl, rfl⟩) rfl rfl (by decide +kernel) (by decide +kernel)
    (by decide) (by decide +kernel) (by decide)

/-- Words before a marker in its line are lost: the text is accepted. -/
theorem words_before_marker_lost :
    prepareMessages '#' [] (.messages []) [exFirst, exSecond]
      (fun _ => .ok t!"important ++ reword a1\nA\n\n++ reword b2\nB\n") =
      .ok (.succeeded [(exSecond.oid, t!"B\n"), (exFirst.oid, t!"A\n")]) := by decide +kernel

/-- With the comment character `+`, the markers are comments themselves. Then no replacement of the messages of
several commits is accepted. -/
theorem plus_comment_refused {template start shown edited : Text} {discard : Bool} {messages : InitialMessages}
    {commits : List RewordCommit} {edit : Text → Except Unit Text} (hd : DistinctNames commits)
    (hn : ∀ c ∈ commits, ShortName c.short) (hlen : 2 ≤ commits.length)
    (hask : AsksEditor template messages start discard)
    (hshown : editorText '+' start discard commits = .ok shown)
    (hedit : edit shown = .ok edited) (hne : edited ≠ shown) (hz : '\x00' ∉ edited)
    (hlines : ∀ l ∈ splitChar '\n' edited, t!"++ reword" <:+: l → l.head? = some '+') (result : AMap Oid Text) :
    prepareMessages '+' template messages commits edit ≠ .ok (.succeeded result) := by
  have hpe : messagePrettify edited (some '+') = .ok (pretty (some '+') edited) :=
    messagePrettify_eq (by rintro c ⟨⟩; decide) hz
  have hnm : ¬ rewordMarker <:+: pretty (some '+') edited := by
    intro h
    obtain ⟨l, h1, h2⟩ := infix_unlines (by decide) (by decide) h
    rcases mem_prettifyLines_kept h1 with rfl | ⟨l', h3, h4, rfl⟩
    · exact absurd (List.infix_nil.1 h2) (by decide)
    · have h5 := hlines l' h3 (h2.trans (rtrim_prefix l').isInfix)
      cases l' with
      | nil => simp at h5
      | cons x r =>
        simp only [List.head?_cons, Option.some.injEq] at h5
        subst h5
        exact absurd h4 (by simp [isComment, leadByte])
  rcases edited_text_exact hd hn hask hshown hedit hne hpe with ⟨_, h1⟩ | ⟨_, sections, h1, h2⟩
  · rw [h1]
    simp
  · rcases h2 with ⟨hperm, _⟩ | ⟨_, d, m, u, h3, _⟩
    · exfalso
      have hle : sections.length ≤ 1 := by
        rcases h1 with ⟨c, rfl, _⟩ | ⟨_, h4⟩
        · simp at hlen
        · rw [hasSections_iff] at h4
          rw [← h4]
          unfold bulkSections
          rw [splitText_no (by decide) hnm, List.length_map]
          exact List.length_filterMap_le _ _
      have := hperm.length_eq
      rw [List.length_map, List.length_map] at this
      omega
    · rw [h3]
      simp

example (result : AMap Oid Text) : prepareMessages '+' [] (.messages []) [exFirst, exSecond]
    (fun _ => .ok t!"++ reword a1\nA\n\n++ reword b2\nB\n\n+ words") ≠ .ok (.succeeded result) := by
  have h := plus_comment_refused (template := []) (messages := .messages []) (edit := fun _ => .ok
    t!"++ reword a1\nA\n\n++ reword b2\nB\n\n+ words") exNames.1 exNames.2 (by decide)
    (.inr ⟨[], rfl, by simp, rfl, rfl⟩) rfl rfl (by decide +kernel) (by decide +kernel) (by decide +kernel) result
  exact h

end Verif.Props

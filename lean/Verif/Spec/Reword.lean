import Verif.Model.Reword

/-! What an edited text for `git reword` means. -/

namespace Verif.Spec

open Verif

/-- The text, cut at the markers `++ reword`. -/
def CutAtMarkers (text : Text) (chunks : List Text) : Prop :=
  chunks ≠ [] ∧ text = List.intercalate t!"++ reword" chunks ∧ ∀ c ∈ chunks, ¬ t!"++ reword" <:+: c

/-- A piece after a marker: the rest of the line, which names the commit, and the lines below. -/
def IsSection (chunk hash body : Text) : Prop :=
  ∃ line, chunk = line ++ '\n' :: body ∧ '\n' ∉ line ∧ hash = trim line

/-- The sections of a text, in order; pieces within one line are none. -/
inductive SectionsOf : List Text → List (Text × Text) → Prop
  | nil : SectionsOf [] []
  | take {chunk hash body chunks sections} : IsSection chunk hash body → SectionsOf chunks sections →
      SectionsOf (chunk :: chunks) ((hash, body) :: sections)
  | skip {chunk chunks sections} : '\n' ∉ chunk → SectionsOf chunks sections →
      SectionsOf (chunk :: chunks) sections

/-- The sections which a text has. -/
def HasSections (text : Text) (sections : List (Text × Text)) : Prop :=
  ∃ chunks, CutAtMarkers text chunks ∧ SectionsOf chunks sections

/-- The commits are distinguished by their short names. -/
def DistinctNames (commits : List RewordCommit) : Prop :=
  (commits.map (·.short)).Nodup ∧ (commits.map (·.oid)).Nodup

/-- A short name, as libgit2 makes it: hexadecimal digits. -/
def ShortName (s : Text) : Prop := s ≠ [] ∧ ∀ c ∈ s, c ∈ t!"0123456789abcdef"

/-- The editor is started: the messages are to be discarded, or none was given. Then the text starts from the
template, or from nothing. -/
def AsksEditor (template : Text) (messages : InitialMessages) (start : Text) (discard : Bool) : Prop :=
  (messages = .discard ∧ start = template ∧ discard = true) ∨
    ∃ ms, messages = .messages ms ∧ (∀ m ∈ ms, ∀ c ∈ m, isSpace c = true) ∧ start = [] ∧ discard = false

/-- What the edited text says about each commit. For one commit, no marker is needed. -/
def SaysMessages (commits : List RewordCommit) (text : Text) (sections : List (Text × Text)) : Prop :=
  (∃ c, commits = [c] ∧ ¬ t!"++ reword" <:+: text ∧ sections = [(c.short, text)]) ∨
    (¬ (commits.length = 1 ∧ ¬ t!"++ reword" <:+: text) ∧ HasSections text sections)

end Verif.Spec

import Verif.Model.GithubClient

/-!
What the client for GitHub should see.
-/

namespace Verif.Spec

open Verif

/-- The later pull requests. -/
def newer (prs : List PullRequest) (p : PullRequest) : List PullRequest := prs.filter fun q => p.number < q.number

/-- The pull request is one of the 30 latest. -/
def Recent (prs : List PullRequest) (p : PullRequest) : Prop := p ∈ prs ∧ (newer prs p).length < 30

/-- The pull requests are in the order in which they were made. -/
def MadeInOrder (prs : List PullRequest) : Prop := prs.Pairwise fun p q => p.number < q.number

end Verif.Spec

import Verif.Model.Utils

/-!
# How many linear programs a computation depends on
-/

namespace PW

/-- The result of `f` with the solver `glp` is determined by the answers of `glp` to at most `N` linear programs: any other solver that gives the same answers to
these (and any answers to other programs) gives the same result. -/
def DependsOn {F α : Type} (f : Glpk F → α) (glp : Glpk F) (N : ℕ) : Prop :=
  ∃ Q : List (LP F), Q.length ≤ N ∧ ∀ glp' : Glpk F, (∀ lp ∈ Q, glp'.solve lp = glp.solve lp) → f glp' = f glp

end PW

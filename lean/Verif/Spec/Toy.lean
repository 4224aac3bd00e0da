import Verif.Spec.Walks

/-!
# A small computable arithmetic and environment

Used only in `example`s that show that hypotheses of theorems are met by concrete runs. The theorems that
are stated for every `Scalar F` hold for this one too.
-/

namespace PW.Toy
open PW

/-- Integer "doubles": enough to run the code of the model by evaluation. -/
@[reducible] def intScalar : Scalar Int where
  ofInt z := z
  sqrt _ := 1
  exp z := z
  log z := z
  log2 z := z
  pow a _ := a
  abs z := if z < 0 then -z else z
  lt a b := decide (a < b)
  le a b := decide (a ≤ b)
  eq a b := decide (a = b)

/-- A counter as generator: the draws are 1, 2, 3, …; the uniform draws are 0. -/
def rng : Rng Int where
  G := ℕ
  N := Unit
  seed w := w.toNat
  normalInit := ()
  normal _ g := ((g : Int) + 1, (), g + 1)
  uniform g := (0, g + 1)

/-- Environment with this generator. -/
def env : Env Int := ⟨rng, 7, fun _ _ => 0, 5⟩

/-- The half line `x <= 100`, start 0. -/
def args (niter burnin thin : Int) : Args Int :=
  ⟨niter, ⟨1, fun _ => 0⟩, ⟨1, 1, fun _ _ => 1⟩, ⟨1, fun _ => 100⟩, 1, burnin, thin, 3⟩

/-- The first coordinates of the samples of a run. -/
def col (o : Out (List (Fin 1 → Int))) : Out (List Int) := o.map (·.map fun r => r 0)

end PW.Toy

import Verif.Spec.Rounding
import Verif.Spec.Walks

/-!
# Specification: how a sparse walk moves in floating point
-/

namespace PW

variable {F : Type} [Scalar F] {m n : ℕ}

/-- `x'` is the computed value of `x + c z` (the coordinates are rounded). -/
def MovesAlong (x x' : Fin n → F) (c : F) (z : Fin n → F) : Prop := (∀ j, x' j = c * z j + x j) ∨ ∀ j, x' j = x j + c * z j

/-- A sparse walk in state `s` computes the direction `z` (meant to lie in the kernel of `A`) with its linear solver, and the multiple `c`
of it that it may add to the position. -/
def Walk.Displacement (w : Walk F) (e : Env F) (A : Matrix (Fin m) (Fin n) F) (k : Int) (s : w.State e n) (c : F) (z : Fin n → F) : Prop :=
  match w with
  | .sparseBall R E => z = normalize (kernelProject E A (e.r.gaussian n s.2).1) ∧ c = R / Scalar.sqrt (Scalar.ofInt ((n : Int) - m))
  | .sparseHitRun R ERR E => z = normalize (kernelProject E A (e.r.gaussian n s.2).1) ∧
      ∃ p q, SparseHitRun.binarySearch R ERR e.fuel k.toNat z s.1 = .ok p ∧
        SparseHitRun.binarySearch R ERR e.fuel k.toNat (fun i => -z i) s.1 = .ok q ∧
        c = (e.r.uniform (e.r.gaussian n s.2).2).1 * (p - -q) + -q
  | .sparseBarrier cls ERR E _ => ∃ Go, generateG cls ERR (e.junk n) s.2.1 s.1 A k.toNat = .ok Go ∧
      (let AG := scaleCols A (invSqrt Go.1)
       let rand := (e.r.gaussian n s.2.2).1
       z = fun j => invSqrt Go.1 j * (rand j - mulVec (transp AG) (E.sparseLLTSolve (mulMat AG (transp AG)) (mulVec AG rand)) j)) ∧
      c = Scalar.sqrt (cls.distTerm Go.2)
  | .ball _ | .hitRun .. | .barrier .. => False

end PW

import Verif.Model.Dense

/-!
# Specification: where the weight iterations of a John or Lee-Sidford object start

The stored weights `w` (any length) serve as a starting point for a polytope with `m` weights if they have the right length and are not marked
as unset by a first entry `-1`; otherwise all ones do. An empty stored vector has no first entry: no start.
-/

namespace PW

/-- `w0` is the starting point for `m` weights, given the stored vector `w`. -/
inductive StartsFrom (w : DVec ℝ) (m : ℕ) : (Fin m → ℝ) → Prop
  | unset (h0 : 0 < w.n) (h : w.n ≠ m ∨ w.val ⟨0, h0⟩ = -1) : StartsFrom w m fun _ => 1
  | stored (h0 : 0 < w.n) (h : w.n = m) (hne : w.val ⟨0, h0⟩ ≠ -1) : StartsFrom w m (w.at h)

/-- The iteration starts from all ones. -/
def StartsAtOnes (w : DVec ℝ) (m : ℕ) : Prop := StartsFrom w m fun _ => 1

/-- The stored weights an object can hold: unset, or positive. -/
def GoodStart (w : DVec ℝ) (m : ℕ) : Prop := ∀ w0, StartsFrom w m w0 → ∀ i, 0 < w0 i

end PW

import Mathlib.Data.List.OfFn
import Verif.Spec.Membership
import Verif.Model.Sparse

/-! # The model's membership tests are the specified ones -/

namespace PW
variable {F : Type} [Scalar F] {m n : ℕ}

theorem foldl_finRange_ofFn {α β : Type} (f : β → α → β) (v : Fin n → α) (a : β) :
    (List.finRange n).foldl (fun s i => f s (v i)) a = (List.ofFn v).foldl f a := by
  rw [List.ofFn_eq_map, List.foldl_map]

theorem vsum_eq_ofFn (v : Fin n → F) : vsum v = (List.ofFn v).foldl (· + ·) 0 := by
  unfold vsum; exact foldl_finRange_ofFn _ v 0

theorem maxCoeff_eq_largest (v : Fin n → F) (c : F) :
    maxCoeff v = .ok c ↔ Spec.largest (List.ofFn v) = some c := by
  cases n with
  | zero => simp [maxCoeff, Spec.largest]
  | succ n =>
    rw [maxCoeff, List.ofFn_succ, Spec.largest,
      foldl_finRange_ofFn (fun s x => cmax s x) (fun i => v i.succ) (v 0)]
    simp [cmax]

theorem minCoeff_eq_smallest (v : Fin n → F) (c : F) :
    minCoeff v = .ok c ↔ Spec.smallest (List.ofFn v) = some c := by
  cases n with
  | zero => simp [minCoeff, Spec.smallest]
  | succ n =>
    rw [minCoeff, List.ofFn_succ, Spec.smallest,
      foldl_finRange_ofFn (fun s x => cmin s x) (fun i => v i.succ) (v 0)]
    simp [cmin]

/-- The dense membership test is `Spec.PassesDense`. -/
theorem inPolytope_iff_passes (x : Fin n → F) (A : Matrix (Fin m) (Fin n) F) (b : Fin m → F) :
    inPolytope x A b = .ok true ↔ Spec.PassesDense A b x := by
  unfold inPolytope Spec.PassesDense
  rw [Out.bind_eq_ok]
  have : (fun i => mulVec A x i - b i) = fun i => Spec.dot (A i) x - b i := by
    funext i; rw [mulVec, vsum_eq_ofFn, Spec.dot]
  rw [this]
  constructor
  · rintro ⟨c, hc, h⟩
    exact ⟨c, (maxCoeff_eq_largest _ c).1 hc, by simpa using h⟩
  · rintro ⟨c, hc, h⟩
    exact ⟨c, (maxCoeff_eq_largest _ c).2 hc, by simpa using h⟩

theorem tail_ofFn (x : Fin n → F) {k : ℕ} (hk : k ≤ n) (t : Fin k → F) (h : tail x k = .ok t) :
    List.ofFn t = (List.ofFn x).drop (n - k) := by
  unfold tail at h
  rw [dif_pos hk] at h
  cases h
  apply List.ext_getElem
  · simp; omega
  · intro i h1 h2
    simp

/-- The sparse membership test is `Spec.PassesSparse`. -/
theorem inPolytopeK_iff_passes (x : Fin n → F) {k : ℕ} (hk : k ≤ n) :
    inPolytopeK x k = .ok true ↔ Spec.PassesSparse k x := by
  have ht : ∃ t, tail x k = .ok t := by unfold tail; rw [dif_pos hk]; exact ⟨_, rfl⟩
  obtain ⟨t, ht⟩ := ht
  unfold inPolytopeK Spec.PassesSparse
  rw [ht, ← tail_ofFn x hk t ht, Out.ok_bind, Out.bind_eq_ok]
  constructor
  · rintro ⟨c, hc, h⟩
    exact ⟨c, (minCoeff_eq_smallest _ c).1 hc, by simpa using h⟩
  · rintro ⟨c, hc, h⟩
    exact ⟨c, (minCoeff_eq_smallest _ c).2 hc, by simpa using h⟩

end PW

namespace PW
variable {F : Type} [Scalar F] {n : ℕ}

/-- The acceptance test of the code is `Spec.Accepts`. -/
theorem mhAccept_iff_accepts (gzx gxz val : F) :
    mhAccept gzx gxz val = true ↔ Spec.Accepts (Scalar.exp (gzx - gxz)) val := by
  unfold mhAccept Spec.Accepts cmin
  split <;> rfl

/-- A completed sparse membership test means `k ≤ n`. -/
theorem inPolytopeK_le {x : Fin n → F} {k : ℕ} {c : Bool} (h : inPolytopeK x k = .ok c) : k ≤ n := by
  by_contra hk
  unfold inPolytopeK tail at h
  rw [dif_neg hk] at h
  cases h

end PW

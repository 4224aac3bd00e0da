import Verif.Lemmas.Chord

/-! # Polytopes along rays, normalised directions -/

namespace PW
open Classical
variable {m n : ℕ}

theorem mulVec_ray (A : Matrix (Fin m) (Fin n) ℝ) (x u : Fin n → ℝ) (t : ℝ) (i : Fin m) :
    A.mulVec (ray x u t) i = A.mulVec x i + t * A.mulVec u i := by
  have : ray x u t = x + t • u := by funext i; simp [ray]
  rw [this, Matrix.mulVec_add, Matrix.mulVec_smul]; rfl

/-- Between two points of a ray that satisfy `a + t * c ≤ b`. -/
theorem affine_between {a c b s r t : ℝ} (hs : a + s * c ≤ b) (ht : a + t * c ≤ b) (h1 : s ≤ r)
    (h2 : r ≤ t) : a + r * c ≤ b := by
  rcases le_total 0 c with h | h
  · nlinarith
  · nlinarith

theorem Poly.between {A : Matrix (Fin m) (Fin n) ℝ} {b : Fin m → ℝ} {x u : Fin n → ℝ} {s r t : ℝ}
    (hs : ray x u s ∈ Poly A b) (ht : ray x u t ∈ Poly A b) (h1 : s ≤ r) (h2 : r ≤ t) :
    ray x u r ∈ Poly A b := by
  intro i
  have h3 := hs i
  have h4 := ht i
  rw [mulVec_ray] at *
  exact affine_between h3 h4 h1 h2

theorem TailNonneg.between {k : ℕ} {x u : Fin n → ℝ} {s r t : ℝ}
    (hs : ray x u s ∈ TailNonneg n k) (ht : ray x u t ∈ TailNonneg n k) (h1 : s ≤ r) (h2 : r ≤ t) :
    ray x u r ∈ TailNonneg n k := by
  intro i hi
  have h3 : 0 ≤ x i + s * u i := hs i hi
  have h4 : 0 ≤ x i + t * u i := ht i hi
  have := affine_between (a := -x i) (c := -u i) (b := 0) (s := s) (t := t) (r := r)
    (by linarith) (by linarith) h1 h2
  show 0 ≤ x i + r * u i
  linarith

theorem sum_sq_eq_zero {v : Fin n → ℝ} (h : ∑ i, v i * v i = 0) : v = 0 := by
  funext i
  have := (Finset.sum_eq_zero_iff_of_nonneg (fun i _ => mul_self_nonneg (v i))).1 h i (Finset.mem_univ _)
  simpa using this

/-- A normalised vector is a unit vector unless the vector was zero. -/
theorem normalize_unit (v : Fin n → ℝ) (h : v ≠ 0) : IsUnitVec fun i => v i / norm2 v := by
  unfold IsUnitVec
  have h0 : 0 ≤ ∑ i, v i * v i := Finset.sum_nonneg fun i _ => mul_self_nonneg _
  have h1 : ∑ i, v i * v i ≠ 0 := fun e => h (sum_sq_eq_zero e)
  have h2 : norm2 v * norm2 v = ∑ i, v i * v i := by rw [norm2_real, Real.mul_self_sqrt h0]
  have : ∀ i, v i / norm2 v * (v i / norm2 v) = v i * v i / (norm2 v * norm2 v) := fun i => by
    rw [div_mul_div_comm]
  simp only [this, ← Finset.sum_div, h2]
  exact div_self h1

theorem normalize_zero (v : Fin n → ℝ) (h : v = 0) : (fun i => v i / norm2 v) = fun _ => (0 : ℝ) := by
  funext i; rw [h]; simp

/-- A normalised vector is a unit vector or zero. -/
theorem normalize_cases (v : Fin n → ℝ) :
    IsUnitVec (fun i => v i / norm2 v) ∨ (fun i => v i / norm2 v) = fun _ => (0 : ℝ) := by
  by_cases h : v = 0
  · exact .inr (normalize_zero v h)
  · exact .inl (normalize_unit v h)

theorem IsUnitVec.neg {u : Fin n → ℝ} (h : IsUnitVec u) : IsUnitVec fun i => -u i := by
  unfold IsUnitVec at *; simpa using h

theorem ray_neg (x u : Fin n → ℝ) (t : ℝ) : ray x (fun i => -u i) t = ray x u (-t) := by
  funext i; simp [ray]

/-! ## Zero directions -/

theorem expand_zero (inside : (Fin n → ℝ) → Out Bool) (x z : Fin n → ℝ) (fuel : ℕ)
    (h : inside x = .ok true) : HitRun.expand inside (fun _ => 0) x fuel z = .timeout := by
  induction fuel generalizing z with
  | zero => rfl
  | succ fuel ih =>
    rw [HitRun.expand]
    have : (fun i => x i + two * distance x z * (0 : ℝ)) = x := by funext i; ring
    simp only [this, h, Out.ok_bind, Bool.not_true, Bool.false_eq_true, if_false, ih]

theorem sexpand_zero (inside : (Fin n → ℝ) → Out Bool) (x z : Fin n → ℝ) (fuel : ℕ)
    (h : inside x = .ok true) : SparseHitRun.expand inside (fun _ => 0) x fuel z = .ok none := by
  induction fuel generalizing z with
  | zero => rfl
  | succ fuel ih =>
    rw [SparseHitRun.expand]
    have : (fun i => x i + two * distance x z * (0 : ℝ)) = x := by funext i; ring
    simp only [this, h, Out.ok_bind, Bool.not_true, Bool.false_eq_true, if_false, ih]

theorem search_zero (hm : 0 < m) {A : Matrix (Fin m) (Fin n) ℝ} {b : Fin m → ℝ} {x : Fin n → ℝ}
    (hx : x ∈ Poly A b) (R ERR : ℝ) (fuel : ℕ) :
    HitRun.binarySearch R ERR fuel A b (fun _ => 0) x = .timeout := by
  rw [HitRun.binarySearch, expand_zero _ _ _ _ (by rw [inPolytope_mem hm]; simp [hx])]
  rfl

theorem ssearch_zero {k : ℕ} (hk : 1 ≤ k) (hkn : k ≤ n) {x : Fin n → ℝ}
    (hx : x ∈ TailNonneg n k) (R ERR : ℝ) (fuel : ℕ) :
    SparseHitRun.binarySearch R ERR fuel k (fun _ => 0) x = .ok 0 := by
  rw [SparseHitRun.binarySearch, sexpand_zero _ _ _ _ (by rw [inPolytopeK_mem hk hkn]; simp [hx])]
  rfl

end PW

import Verif.Spec.Repeat
import Verif.Props.DenseBarrierConverges

/-! # Metric fields that differ by a factor, and the metrics of a repeated description -/

namespace PW
open Matrix MeasureTheory Set
variable {m m' n : ℕ}

/-! ## Two Metropolis-Hastings chains with the same moves -/

theorem posAt_same {X : Type} {r : Rng ℝ} {d : ℕ} {C V : Set X} {P P' : X → (Fin d → ℝ) → X} {a a' : X → X → ℝ}
    (hP : ∀ x ∈ V, ∀ v, P' x v = P x v) (ha : ∀ x ∈ V, ∀ z ∈ V, a' x z = a x z) {x : X} {g : r.G}
    (hgood : ∀ t p, p = (fun p : X × r.G => mhNext r d C P a p.1 p.2)^[t] (x, g) →
      p.1 ∈ V ∧ (P p.1 (r.gaussian d p.2).1 ∈ V ∨ P p.1 (r.gaussian d p.2).1 ∉ C)) (t : ℕ) :
    posAt (mhNext r d C P' a') x t g = posAt (mhNext r d C P a) x t g := by
  have key : ∀ t, (fun p : X × r.G => mhNext r d C P' a' p.1 p.2)^[t] (x, g) =
      (fun p : X × r.G => mhNext r d C P a p.1 p.2)^[t] (x, g) := by
    intro t
    induction t with
    | zero => rfl
    | succ t ih =>
      rw [Function.iterate_succ_apply', Function.iterate_succ_apply', ih]
      obtain ⟨h1, h2⟩ := hgood t _ rfl
      generalize (fun p : X × r.G => mhNext r d C P a p.1 p.2)^[t] (x, g) = p at h1 h2
      show mhNext r d C P' a' p.1 p.2 = mhNext r d C P a p.1 p.2
      unfold mhNext
      rw [hP p.1 h1]
      rcases h2 with h2 | h2
      · rw [ha p.1 h1 _ h2]
      · rw [if_neg h2, if_neg h2]
  exact congrArg Prod.fst (key t)

/-! ## Multiplying a metric by a number -/

theorem IsCholesky.smul {L M : Matrix (Fin n) (Fin n) ℝ} (h : IsCholesky L M) {c : ℝ} (hc : 0 < c) : IsCholesky (√c • L) (c • M) where
  lower i j hij := by rw [Matrix.smul_apply, h.lower i j hij, smul_zero]
  diag_pos i := by rw [Matrix.smul_apply]; exact mul_pos (Real.sqrt_pos.2 hc) (h.diag_pos i)
  mul_eq := by rw [Matrix.transpose_smul, Matrix.smul_mul, Matrix.mul_smul, smul_smul, Real.mul_self_sqrt hc.le, h.mul_eq]

namespace MetricField
variable {Φ Φ' : MetricField n} {c : ℝ} (hc : 0 < c)
include hc

theorem L_smul {x : Fin n → ℝ} (h : Φ'.H x = c • Φ.H x) : Φ'.L x = √c • Φ.L x :=
  IsCholesky.unique (M := Φ'.H x) (Φ'.chol x) (h ▸ (Φ.chol x).smul hc)

theorem prop_smul {x : Fin n → ℝ} (h : Φ'.H x = c • Φ.H x) (D : ℝ) (v : Fin n → ℝ) : Φ'.prop (c * D) x v = Φ.prop D x v := by
  unfold prop
  have hs : √c ≠ 0 := (Real.sqrt_pos.2 hc).ne'
  have hdet : IsUnit (Φ.L x).det := by
    rw [isUnit_iff_ne_zero]
    have h0 : (Φ.L x).det = ∏ i, Φ.L x i i := Matrix.det_of_lowerTriangular _ fun i j hij => (Φ.chol x).lower i j hij
    rw [h0]
    exact Finset.prod_ne_zero_iff.2 fun i _ => ((Φ.chol x).diag_pos i).ne'
  have hi : (√c • Φ.L x)⁻¹ = (√c)⁻¹ • (Φ.L x)⁻¹ := by
    refine Matrix.inv_eq_right_inv ?_
    rw [Matrix.smul_mul, Matrix.mul_smul, smul_smul, mul_inv_cancel₀ hs, one_smul, Matrix.mul_nonsing_inv _ hdet]
  rw [L_smul hc h, hi, smul_smul, Real.sqrt_mul hc.le, mul_comm (√c), mul_assoc, mul_inv_cancel₀ hs, mul_one]

theorem logd_smul {x : Fin n → ℝ} (h : Φ'.H x = c • Φ.H x) (D : ℝ) (z : Fin n → ℝ) :
    Φ'.logd (c * D) x z = Φ.logd D x z + Real.log (√c ^ n) := by
  unfold logd denseLogDens
  have hs : √c ≠ 0 := (Real.sqrt_pos.2 hc).ne'
  have h0 : (Φ.L x).det ≠ 0 := by
    have h0 : (Φ.L x).det = ∏ i, Φ.L x i i := Matrix.det_of_lowerTriangular _ fun i j hij => (Φ.chol x).lower i j hij
    rw [h0]
    exact Finset.prod_ne_zero_iff.2 fun i _ => ((Φ.chol x).diag_pos i).ne'
  rw [L_smul hc h, h, Matrix.det_smul, Fintype.card_fin, Real.log_mul (pow_ne_zero _ hs) h0, Matrix.smul_mulVec, dotProduct_smul, smul_eq_mul]
  have h2 : ∀ q : ℝ, 1 / 2 / (c * D) * (c * q) = 1 / 2 / D * q := fun q => by
    by_cases hD : D = 0
    · simp [hD]
    · field_simp
  rw [h2]
  ring

theorem acc_smul {x z : Fin n → ℝ} (hx : Φ'.H x = c • Φ.H x) (hz : Φ'.H z = c • Φ.H z) (D : ℝ) : Φ'.acc (c * D) x z = Φ.acc D x z := by
  unfold acc
  rw [logd_smul hc hx, logd_smul hc hz, add_sub_add_right_eq_sub]

/-- The chains of the two fields, at step sizes with the same ratio, have the same positions. -/
theorem pos_smul {r : Rng ℝ} [MeasurableSpace r.G] {μ : Measure r.G} {D D' : ℝ} (hD : D' = c * D) {C C' V : Set (Fin n → ℝ)} (hC : C' = C)
    (hH : ∀ y ∈ V, Φ'.H y = c • Φ.H y) {x : Fin n → ℝ}
    (hgood : ∀ᵐ g ∂μ, ∀ t p, p = (fun p : (Fin n → ℝ) × r.G => mhNext r n C (Φ.prop D) (Φ.acc D) p.1 p.2)^[t] (x, g) →
      p.1 ∈ V ∧ (Φ.prop D p.1 (r.gaussian n p.2).1 ∈ V ∨ Φ.prop D p.1 (r.gaussian n p.2).1 ∉ C)) :
    ∀ᵐ g ∂μ, ∀ t, posAt (mhNext r n C' (Φ'.prop D') (Φ'.acc D')) x t g = posAt (mhNext r n C (Φ.prop D) (Φ.acc D)) x t g := by
  subst hD hC
  filter_upwards [hgood] with g hg t
  exact posAt_same (fun y hy v => prop_smul hc (hH y hy) _ v) (fun y hy z hz => acc_smul hc (hH y hy) (hH z hz) _) hg t

end MetricField

/-! ## Repeated constraints -/

namespace Repeats
variable {N : ℕ} {A : Matrix (Fin m) (Fin n) ℝ} {b : Fin m → ℝ} {A' : Matrix (Fin m') (Fin n) ℝ} {b' : Fin m' → ℝ}

/-- A sum over the copies. -/
theorem sum_comp {f : Fin m' → Fin m} (hf : ∀ i, (Finset.univ.filter fun j => f j = i).card = N) (φ : Fin m → ℝ) :
    ∑ j, φ (f j) = N * ∑ i, φ i := by
  rw [← Finset.sum_fiberwise (s := Finset.univ) f fun j => φ (f j), Finset.mul_sum]
  refine Finset.sum_congr rfl fun i _ => ?_
  rw [Finset.sum_congr rfl fun j hj => congrArg φ (Finset.mem_filter.1 hj).2, Finset.sum_const, hf, nsmul_eq_mul]

theorem card {f : Fin m' → Fin m} (hf : ∀ i, (Finset.univ.filter fun j => f j = i).card = N) : m' = N * m := by
  have := sum_comp hf fun _ => 1
  simp only [Finset.sum_const, Finset.card_univ, Fintype.card_fin, nsmul_eq_mul, mul_one] at this
  exact_mod_cast this

theorem surj {f : Fin m' → Fin m} (hN : 0 < N) (hf : ∀ i, (Finset.univ.filter fun j => f j = i).card = N) : Function.Surjective f := fun i => by
  have : 0 < (Finset.univ.filter fun j => f j = i).card := by rw [hf]; exact hN
  obtain ⟨j, hj⟩ := Finset.card_pos.1 this
  exact ⟨j, (Finset.mem_filter.1 hj).2⟩

/-- The polytope is the same. -/
theorem poly (hN : 0 < N) (h : Repeats N A b A' b') : Poly A' b' = Poly A b := by
  obtain ⟨f, hf, hA, hb⟩ := h
  ext x
  have h1 : ∀ j, (A' *ᵥ x) j = (A *ᵥ x) (f j) := fun j => congrArg (fun r => r ⬝ᵥ x) (hA j)
  refine ⟨fun hx i => ?_, fun hx j => ?_⟩
  · obtain ⟨j, rfl⟩ := surj hN hf i
    rw [← h1, ← hb]; exact hx j
  · rw [h1, hb]; exact hx (f j)

/-- So is its interior. -/
theorem interior (hN : 0 < N) (h : Repeats N A b A' b') : Interior A' b' = Interior A b := by
  obtain ⟨f, hf, hA, hb⟩ := h
  ext x
  have h1 : ∀ j, (A' *ᵥ x) j = (A *ᵥ x) (f j) := fun j => congrArg (fun r => r ⬝ᵥ x) (hA j)
  refine ⟨fun hx i => ?_, fun hx j => ?_⟩
  · obtain ⟨j, rfl⟩ := surj hN hf i
    rw [← h1, ← hb]; exact hx j
  · rw [h1, hb]; exact hx (f j)

/-- A Hessian with the same weight on every copy. -/
theorem hessian {f : Fin m' → Fin m} (hf : ∀ i, (Finset.univ.filter fun j => f j = i).card = N) (hA : ∀ j, A' j = A (f j))
    (hb : ∀ j, b' j = b (f j)) {w : Fin m → ℝ} {w' : Fin m' → ℝ} {c : ℝ} (hw : ∀ j, N * w' j = c * w (f j)) (hN : 0 < N) (x : Fin n → ℝ) :
    hessianOf w' x A' b' = c • hessianOf w x A b := by
  have hN' : (N : ℝ) ≠ 0 := by exact_mod_cast hN.ne'
  rw [hessianOf_real, hessianOf_real]
  ext i k
  rw [Matrix.smul_apply, Matrix.mul_apply, Matrix.mul_apply, smul_eq_mul, Finset.mul_sum]
  have h1 : ∀ j, (A' *ᵥ x) j = (A *ᵥ x) (f j) := fun j => congrArg (fun r => r ⬝ᵥ x) (hA j)
  have hw' : ∀ j, w' j = c * w (f j) / N := fun j => by rw [← hw]; field_simp
  have h2 : ∀ j, (A'ᵀ * diagonal fun i => w' i / (b' i - (A' *ᵥ x) i) ^ 2) i j * A' j k =
      (fun l => c / N * ((A l i * (w l / (b l - (A *ᵥ x) l) ^ 2)) * A l k)) (f j) := fun j => by
    rw [Matrix.mul_diagonal, Matrix.transpose_apply, hA, hb, h1, hw']
    show _ = c / N * ((A (f j) i * (w (f j) / (b (f j) - (A *ᵥ x) (f j)) ^ 2)) * A (f j) k)
    ring
  rw [Finset.sum_congr rfl fun j _ => h2 j,
    sum_comp hf (fun l => c / N * ((A l i * (w l / (b l - (A *ᵥ x) l) ^ 2)) * A l k)), Finset.mul_sum]
  refine Finset.sum_congr rfl fun l _ => ?_
  rw [Matrix.mul_diagonal, Matrix.transpose_apply]
  field_simp

/-- The leverage of a copy. -/
theorem lev_copy {f : Fin m' → Fin m} (hN : 0 < N) (hf : ∀ i, (Finset.univ.filter fun j => f j = i).card = N) {M : Matrix (Fin m) (Fin n) ℝ}
    {M' : Matrix (Fin m') (Fin n) ℝ} (hM : ∀ j, M' j = M (f j)) (hI : IndepCols M) (j : Fin m') : N * lev M' j = lev M (f j) := by
  have hN' : (N : ℝ) ≠ 0 := by exact_mod_cast hN.ne'
  have hG : M'ᵀ * M' = (N : ℝ) • (Mᵀ * M) := by
    ext i k
    rw [Matrix.smul_apply, Matrix.mul_apply, Matrix.mul_apply, smul_eq_mul, ← sum_comp hf fun l => Mᵀ i l * M l k]
    exact Finset.sum_congr rfl fun j _ => by rw [Matrix.transpose_apply, Matrix.transpose_apply, hM]
  have hi : ((N : ℝ) • (Mᵀ * M))⁻¹ = (N : ℝ)⁻¹ • (Mᵀ * M)⁻¹ := by
    refine Matrix.inv_eq_right_inv ?_
    rw [Matrix.smul_mul, Matrix.mul_smul, smul_smul, mul_inv_cancel₀ hN', one_smul, Matrix.mul_nonsing_inv _ (gram_det _ hI)]
  have hr : ∀ X : Matrix (Fin n) (Fin n) ℝ, (M' * X * M'ᵀ) j j = (M * X * Mᵀ) (f j) (f j) := fun X => by
    simp only [Matrix.mul_apply, Matrix.transpose_apply, hM]
  unfold lev
  rw [hr, hG, hi, Matrix.mul_smul, Matrix.smul_mul, Matrix.smul_apply, smul_eq_mul, ← mul_assoc, mul_inv_cancel₀ hN', one_mul]

end Repeats

end PW

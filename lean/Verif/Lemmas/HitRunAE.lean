import Verif.Lemmas.PMeas
import Verif.Lemmas.Geometry
import Mathlib.MeasureTheory.Measure.Haar.Disintegration
import Mathlib.MeasureTheory.Measure.Lebesgue.Basic
import Mathlib.Algebra.Polynomial.Roots

/-! # Directions that hit the boundary at a dyadic point have probability 0 -/

namespace PW
open MeasureTheory Set

theorem quadratic_finite {a : ℝ} (ha : a ≠ 0) (b c : ℝ) : {r : ℝ | a * r ^ 2 + b * r + c = 0}.Finite := by
  classical
  let P : Polynomial ℝ := Polynomial.C a * Polynomial.X ^ 2 + Polynomial.C b * Polynomial.X + Polynomial.C c
  have hP : P ≠ 0 := by
    intro h
    have : P.coeff 2 = 0 := by rw [h]; simp
    apply ha
    simpa [P, Polynomial.coeff_X, Polynomial.coeff_C] using this
  refine (P.roots.toFinset.finite_toSet).subset fun r hr => ?_
  simp only [Finset.mem_coe, Multiset.mem_toFinset, Polynomial.mem_roots hP, Polynomial.IsRoot.def]
  simpa [P] using hr

theorem ae_cone_ne {n d : ℕ} (l : (Fin n → ℝ) →ₗ[ℝ] ℝ) (L : (Fin n → ℝ) →ₗ[ℝ] (Fin d → ℝ)) (e : Fin n → ℝ) (hle : l e = 0)
    (hLe : L e ≠ 0) (s : ℝ) (hs : s ≠ 0) : ∀ᵐ v ∂(volume : Measure (Fin n → ℝ)), l v ≠ s * norm2 (L v) := by
  have hmeas : MeasurableSet {v : Fin n → ℝ | l v ≠ s * norm2 (L v)} := by
    have h1 : Measurable l := l.continuous_of_finiteDimensional.measurable
    have h2 : Measurable L := L.continuous_of_finiteDimensional.measurable
    exact (measurableSet_eq_fun h1 ((measurable_norm2.comp h2).const_mul s)).compl
  refine ae_mem_of_ae_add_linearMap_mem (LinearMap.toSpanSingleton ℝ (Fin n → ℝ) e) volume volume hmeas fun y => ?_
  have hQ : 0 < ∑ i, L e i * L e i := by
    obtain ⟨i, hi⟩ := Function.ne_iff.1 hLe
    exact Finset.sum_pos' (fun i _ => mul_self_nonneg _) ⟨i, Finset.mem_univ _, mul_self_pos.2 hi⟩
  have hfin := quadratic_finite (a := s ^ 2 * ∑ i, L e i * L e i) (by positivity) (s ^ 2 * (2 * ∑ i, L y i * L e i))
    (s ^ 2 * (∑ i, L y i * L y i) - l y ^ 2)
  have h0 : volume {r : ℝ | ¬ (y + LinearMap.toSpanSingleton ℝ (Fin n → ℝ) e r ∈ {v | l v ≠ s * norm2 (L v)})} = 0 := by
    refine (hfin.subset fun r hr => ?_).measure_zero _
    simp only [LinearMap.toSpanSingleton_apply, mem_ofPred_eq, ne_eq, not_not, map_add, map_smul, hle, smul_zero,
      add_zero] at hr ⊢
    have hn : norm2 (L y + r • L e) ^ 2 = ∑ i, (L y + r • L e) i * (L y + r • L e) i := by
      rw [norm2_real, Real.sq_sqrt (Finset.sum_nonneg fun i _ => mul_self_nonneg _)]
    have hexp : ∑ i, (L y + r • L e) i * (L y + r • L e) i =
        (∑ i, L e i * L e i) * r ^ 2 + (2 * ∑ i, L y i * L e i) * r + ∑ i, L y i * L y i := by
      rw [Finset.mul_sum, Finset.sum_mul, Finset.sum_mul, ← Finset.sum_add_distrib, ← Finset.sum_add_distrib]
      refine Finset.sum_congr rfl fun i _ => ?_
      simp only [Pi.add_apply, Pi.smul_apply, smul_eq_mul]; ring
    have h2 : l y ^ 2 = s ^ 2 * norm2 (L y + r • L e) ^ 2 := by rw [hr]; ring
    rw [hn, hexp] at h2
    linarith
  exact h0

/-- A vector orthogonal to a functional, in dimension at least two. -/
theorem exists_ker_ne_zero {n : ℕ} (hn : 2 ≤ n) (l : (Fin n → ℝ) →ₗ[ℝ] ℝ) : ∃ e, e ≠ 0 ∧ l e = 0 := by
  have : LinearMap.ker l ≠ ⊥ := LinearMap.ker_ne_bot_of_finrank_lt (by simp; omega)
  obtain ⟨e, he, h0⟩ := Submodule.exists_mem_ne_zero_of_ne_bot this
  exact ⟨e, h0, he⟩

variable {m n : ℕ}

/-- Along almost every direction, no dyadic multiple of the radius lands on the boundary. -/
theorem ae_dyadic (hn : 2 ≤ n) (A : Matrix (Fin m) (Fin n) ℝ) (b : Fin m → ℝ) {x : Fin n → ℝ} (hx : x ∈ Interior A b) (R : ℝ)
    (σ : ℝ) : ∀ᵐ v ∂(volume : Measure (Fin n → ℝ)), ∀ i j : ℕ,
      ray x (fun k => v k / norm2 v * σ) (|R| * i / 2 ^ j) ∈ Poly A b →
      ray x (fun k => v k / norm2 v * σ) (|R| * i / 2 ^ j) ∈ Interior A b := by
  have key : ∀ (i j : ℕ) (k : Fin m), ∀ᵐ v ∂(volume : Measure (Fin n → ℝ)),
      (|R| * i / 2 ^ j * σ) * A.mulVec v k ≠ (b k - A.mulVec x k) * norm2 v := by
    intro i j k
    let l : (Fin n → ℝ) →ₗ[ℝ] ℝ := (|R| * i / 2 ^ j * σ) • (LinearMap.proj k ∘ₗ A.mulVecLin)
    obtain ⟨e, he, hl⟩ := exists_ker_ne_zero hn l
    have := ae_cone_ne l LinearMap.id e hl (by simpa using he) (b k - A.mulVec x k) (by have := hx k; intro h; linarith)
    filter_upwards [this] with v hv
    simpa [l] using hv
  have hne : ∀ᵐ v ∂(volume : Measure (Fin n → ℝ)), v ≠ 0 := by
    have : Nonempty (Fin n) := ⟨⟨0, by omega⟩⟩
    rw [ae_iff]; simp
  have hall : ∀ᵐ v ∂(volume : Measure (Fin n → ℝ)), ∀ (i j : ℕ) (k : Fin m),
      (|R| * i / 2 ^ j * σ) * A.mulVec v k ≠ (b k - A.mulVec x k) * norm2 v :=
    ae_all_iff.2 fun i => ae_all_iff.2 fun j => ae_all_iff.2 fun k => key i j k
  filter_upwards [hall, hne] with v hv h0 i j hP k
  have hnv : 0 < norm2 v := by
    rw [norm2_real]
    obtain ⟨i, hi⟩ := Function.ne_iff.1 h0
    exact Real.sqrt_pos.2 (Finset.sum_pos' (fun i _ => mul_self_nonneg _) ⟨i, Finset.mem_univ _, mul_self_pos.2 hi⟩)
  refine lt_of_le_of_ne (hP k) fun heq => hv i j k ?_
  rw [mulVec_ray] at heq
  have hmul : A.mulVec (fun k => v k / norm2 v * σ) k = A.mulVec v k / norm2 v * σ := by
    have : (fun k => v k / norm2 v * σ) = (σ / norm2 v) • v := by
      funext k; simp only [Pi.smul_apply, smul_eq_mul]; ring
    rw [this, Matrix.mulVec_smul]; simp only [Pi.smul_apply, smul_eq_mul]; ring
  rw [hmul] at heq
  field_simp at heq ⊢
  linarith

end PW

import Verif.Spec.JohnWeights
import Verif.Lemmas.LogDet
import Verif.Lemmas.Potential
import Mathlib.Analysis.Convex.SpecificFunctions.Basic

/-! # The John weight iteration climbs the John objective -/

namespace PW
open Classical Matrix
variable {m n : ℕ}

theorem scaledRows_gram {w w' : Fin m → ℝ} (hw : ∀ i, 0 < w i) (hw' : ∀ i, 0 < w' i) (α : ℝ) (M : Matrix (Fin m) (Fin n) ℝ) :
    (scaledRows w (α / 2) M)ᵀ * diagonal (fun i => (w' i / w i) ^ α) * scaledRows w (α / 2) M =
      Mᵀ * diagonal (fun i => w' i ^ α) * M := by
  ext j k
  rw [weightedGram_eq, weightedGram_eq]
  refine Finset.sum_congr rfl fun i _ => ?_
  unfold scaledRows
  have h1 : w i ^ (α / 2) * w i ^ (α / 2) = w i ^ α := by rw [← Real.rpow_add (hw i)]; ring_nf
  have h2 : (w' i / w i) ^ α * w i ^ α = w' i ^ α := by
    rw [← Real.mul_rpow (div_pos (hw' i) (hw i)).le (hw i).le, div_mul_cancel₀ _ (hw i).ne']
  calc (w' i / w i) ^ α * (w i ^ (α / 2) * M i j) * (w i ^ (α / 2) * M i k)
      = (w' i / w i) ^ α * (w i ^ (α / 2) * w i ^ (α / 2)) * M i j * M i k := by ring
    _ = _ := by rw [h1, h2]

theorem scaledRows_self {w : Fin m → ℝ} (hw : ∀ i, 0 < w i) (α : ℝ) (M : Matrix (Fin m) (Fin n) ℝ) :
    (scaledRows w (α / 2) M)ᵀ * scaledRows w (α / 2) M = Mᵀ * diagonal (fun i => w i ^ α) * M := by
  rw [← scaledRows_gram hw hw α M]
  have : (fun i => (w i / w i) ^ α) = fun _ => (1 : ℝ) := by
    funext i; rw [div_self (hw i).ne', Real.one_rpow]
  rw [this, Matrix.diagonal_one, Matrix.mul_one]

/-- `(r^α - 1)/α ≤ r - 1 - (1 - α)(√r - 1)²`. -/
theorem rpow_sub_one_le {α r : ℝ} (h0 : 0 ≤ α) (h1 : α ≤ 1) (hr : 0 < r) :
    r ^ α - 1 ≤ α * (r - 1 - (1 - α) * (Real.sqrt r - 1) ^ 2) := by
  have hs := Real.sqrt_pos.2 hr
  have hb := rpow_one_add_le_one_add_mul_self (s := Real.sqrt r - 1) (p := α) (by linarith) h0 h1
  have e : 1 + (Real.sqrt r - 1) = Real.sqrt r := by ring
  rw [e] at hb
  have e2 : r ^ α = (Real.sqrt r ^ α) ^ 2 := by
    rw [sq, ← Real.mul_rpow hs.le hs.le, Real.mul_self_sqrt hr.le]
  have h3 : (Real.sqrt r ^ α) ^ 2 ≤ (1 + α * (Real.sqrt r - 1)) ^ 2 :=
    pow_le_pow_left₀ (Real.rpow_nonneg hs.le α) hb 2
  have e3 : (1 + α * (Real.sqrt r - 1)) ^ 2 - 1 = α * (Real.sqrt r ^ 2 - 1 - (1 - α) * (Real.sqrt r - 1) ^ 2) := by ring
  rw [Real.sq_sqrt hr.le] at e3
  rw [e2]
  linarith

theorem potential_pos {M : Matrix (Fin m) (Fin n) ℝ} (hM : IndepCols M) {α : ℝ} (h0 : 0 < α) (h1 : α ≤ 1) :
    Potential (1 - α) (fun w i => lev (scaledRows w (α / 2) M) i)
      (fun w => 1 / α * Real.log (Mᵀ * diagonal (fun i => w i ^ α) * M).det) where
  kpos := by linarith
  kle := by linarith
  lo w w' hw hw' := by
    have hS := scaledRows_indep hM hw (α / 2)
    have hb := logdet_bounds hS (c := fun i => (w' i / w i) ^ α) fun i => Real.rpow_pos_of_pos (div_pos (hw' i) (hw i)) α
    rw [scaledRows_gram hw hw', scaledRows_self hw] at hb
    have := mul_le_mul_of_nonneg_left hb.2.1 (one_div_pos.2 h0).le
    rw [← mul_sub]
    refine le_trans (le_of_eq ?_) this
    rw [Finset.mul_sum]
    refine Finset.sum_congr rfl fun i _ => ?_
    rw [Real.log_rpow (div_pos (hw' i) (hw i))]
    field_simp
  up w w' hw hw' := by
    have hS := scaledRows_indep hM hw (α / 2)
    have hb := logdet_bounds hS (c := fun i => (w' i / w i) ^ α) fun i => Real.rpow_pos_of_pos (div_pos (hw' i) (hw i)) α
    rw [scaledRows_gram hw hw', scaledRows_self hw] at hb
    have := mul_le_mul_of_nonneg_left hb.2.2 (one_div_pos.2 h0).le
    rw [← mul_sub]
    refine this.trans ?_
    rw [Finset.mul_sum]
    refine Finset.sum_le_sum fun i _ => ?_
    have h2 := rpow_sub_one_le h0.le h1 (div_pos (hw' i) (hw i))
    have h3 := mul_le_mul_of_nonneg_left h2 (lev_nonneg _ hS i)
    calc 1 / α * (lev (scaledRows w (α / 2) M) i * ((w' i / w i) ^ α - 1))
        ≤ 1 / α * (lev (scaledRows w (α / 2) M) i * (α * (w' i / w i - 1 - (1 - α) * (Real.sqrt (w' i / w i) - 1) ^ 2))) :=
          mul_le_mul_of_nonneg_left h3 (one_div_pos.2 h0).le
      _ = _ := by field_simp
  nonneg w hw i := lev_nonneg _ (scaledRows_indep hM hw _) i
  le_one w hw i := lev_le_one _ (scaledRows_indep hM hw _) i

theorem scaledRows_zero (w : Fin m → ℝ) (M : Matrix (Fin m) (Fin n) ℝ) : scaledRows w (0 / 2) M = M := by
  funext i j; simp [scaledRows]

theorem potential_zero {M : Matrix (Fin m) (Fin n) ℝ} (hM : IndepCols M) :
    Potential 1 (fun w i => lev (scaledRows w (0 / 2) M) i) (fun w => ∑ i, lev M i * Real.log (w i)) where
  kpos := by norm_num
  kle := le_rfl
  lo w w' hw hw' := by
    rw [← Finset.sum_sub_distrib]
    refine Finset.sum_le_sum fun i _ => ?_
    rw [scaledRows_zero, Real.log_div (hw' i).ne' (hw i).ne']
    linarith
  up w w' hw hw' := by
    rw [← Finset.sum_sub_distrib]
    refine Finset.sum_le_sum fun i _ => ?_
    rw [scaledRows_zero, ← mul_sub, ← Real.log_div (hw' i).ne' (hw i).ne']
    rw [one_mul]
    exact mul_le_mul_of_nonneg_left (log_le_sqrt (div_pos (hw' i) (hw i))) (lev_nonneg _ hM i)
  nonneg w _ i := by rw [scaledRows_zero]; exact lev_nonneg _ hM i
  le_one w _ i := by rw [scaledRows_zero]; exact lev_le_one _ hM i

theorem exists_potential {M : Matrix (Fin m) (Fin n) ℝ} (hM : IndepCols M) {α : ℝ} (h0 : 0 ≤ α) (h1 : α ≤ 1) :
    ∃ L, Potential (1 - α) (fun w i => lev (scaledRows w (α / 2) M) i) L := by
  rcases h0.eq_or_lt with rfl | h0
  · rw [sub_zero]; exact ⟨_, potential_zero hM⟩
  · exact ⟨_, potential_pos hM h0 h1⟩

end PW

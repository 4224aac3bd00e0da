import Verif.Lemmas.Descent
import Verif.Lemmas.SparseJohnPotential

/-! # How far a leverage score can fall when the weights fall -/

namespace PW
open Classical Matrix Finset
variable {m n d : ℕ}

theorem lev_cauchy {B : Matrix (Fin m) (Fin n) ℝ} (hB : IndepCols B) (u : Fin n → ℝ) (i : Fin m) :
    ((B *ᵥ u) i) ^ 2 ≤ lev B i * ∑ j, ((B *ᵥ u) j) ^ 2 := by
  have hq : (B * (Bᵀ * B)⁻¹ * Bᵀ) *ᵥ (B *ᵥ u) = B *ᵥ u := by
    rw [Matrix.mulVec_mulVec, Matrix.mul_assoc, Matrix.mul_assoc, Matrix.nonsing_inv_mul _ (gram_det B hB), Matrix.mul_one]
  have h1 : (B *ᵥ u) i = ∑ j, (B * (Bᵀ * B)⁻¹ * Bᵀ) i j * (B *ᵥ u) j := (congrFun hq i).symm
  rw [lev_eq_sum_sq B hB i]
  rw [h1]
  exact Finset.sum_mul_sq_le_sq_mul_sq _ _ _

/-- Multiplying the rows by factors of absolute value at most one, row `i` by `s i`, divides its score by at most `(s i)²`. -/
theorem lev_scale_le {M B : Matrix (Fin m) (Fin n) ℝ} (hM : IndepCols M) (hB : IndepCols B) {s : Fin m → ℝ}
    (hs : ∀ i, s i ^ 2 ≤ 1) (he : ∀ i j, B i j = s i * M i j) (i : Fin m) : s i ^ 2 * lev M i ≤ lev B i := by
  set u : Fin n → ℝ := (Mᵀ * M)⁻¹ *ᵥ M i with hu
  have hm : ∀ j, (M *ᵥ u) j = (M * (Mᵀ * M)⁻¹ * Mᵀ) j i := by
    intro j
    rw [hu, Matrix.mulVec_mulVec, Matrix.mul_apply]
    rfl
  have hbm : ∀ j, (B *ᵥ u) j = s j * (M *ᵥ u) j := by
    intro j
    simp only [Matrix.mulVec, dotProduct, he, Finset.mul_sum]
    exact Finset.sum_congr rfl fun k _ => by ring
  have h1 := lev_cauchy hB u i
  have h2 : ∑ j, ((M *ᵥ u) j) ^ 2 = lev M i := by
    rw [lev_eq_sum_sq M hM i]
    refine Finset.sum_congr rfl fun j _ => ?_
    rw [hm j]
    have := congrFun (congrFun (proj_transpose M) i) j
    rw [Matrix.transpose_apply] at this
    rw [this]
  have h3 : ∑ j, ((B *ᵥ u) j) ^ 2 ≤ lev M i := by
    rw [← h2]
    refine Finset.sum_le_sum fun j _ => ?_
    rw [hbm j, mul_pow]
    exact mul_le_of_le_one_left (sq_nonneg _) (hs j)
  have h4 : (B *ᵥ u) i = s i * lev M i := by rw [hbm i, hm i]; rfl
  have h5 := lev_nonneg M hM i
  rcases h5.eq_or_lt with h0 | h0
  · rw [← h0, mul_zero]; exact lev_nonneg B hB i
  · rw [h4, mul_pow] at h1
    have h6 : lev B i * ∑ j, ((B *ᵥ u) j) ^ 2 ≤ lev B i * lev M i := mul_le_mul_of_nonneg_left h3 (lev_nonneg B hB i)
    have h7 : s i ^ 2 * lev M i * lev M i ≤ lev B i * lev M i := by nlinarith
    exact le_of_mul_le_mul_right h7 h0

theorem lev_pos_iff {M : Matrix (Fin m) (Fin n) ℝ} (hM : IndepCols M) (i : Fin m) : 0 < lev M i ↔ ∃ j, M i j ≠ 0 := by
  constructor
  · intro h
    by_contra hc
    push Not at hc
    have : lev M i = 0 := by
      unfold lev
      rw [Matrix.mul_assoc, Matrix.mul_apply]
      exact Finset.sum_eq_zero fun j _ => by rw [hc j, zero_mul]
    linarith
  · rintro ⟨j, hj⟩
    refine lt_of_le_of_ne (lev_nonneg M hM i) fun h0 => hj ?_
    have h1 := lev_cauchy hM (Pi.single j 1) i
    rw [← h0, zero_mul, Matrix.mulVec_single_one] at h1
    have := pow_eq_zero_iff (n := 2) (by norm_num) |>.1 (le_antisymm h1 (sq_nonneg _))
    exact this

theorem rpow_half_sq {a α : ℝ} (ha : 0 < a) : (a ^ (α / 2)) ^ 2 = a ^ α := by
  rw [← Real.rpow_natCast, ← Real.rpow_mul ha.le]; congr 1; push_cast; ring

theorem floor_aux {l α a τ s : ℝ} (hl : 0 < l) (h0 : 0 ≤ α) (hla : l ≤ a) (hτ : l ^ (1 - α) ≤ τ) (hs : a ^ α * τ ≤ s) :
    l ≤ s := by
  refine le_trans ?_ hs
  calc l = l ^ α * l ^ (1 - α) := by rw [← Real.rpow_add hl]; simp
    _ ≤ a ^ α * τ := mul_le_mul (Real.rpow_le_rpow hl.le hla h0) hτ (Real.rpow_nonneg hl.le _) (Real.rpow_nonneg (hl.le.trans hla) _)

theorem lev_floor {M : Matrix (Fin m) (Fin n) ℝ} (hM : IndepCols M) {α l : ℝ} (h0 : 0 ≤ α) (hl : 0 < l)
    (hτ : ∀ i, l ^ (1 - α) ≤ lev M i) : ScoreFloor (fun w i => lev (scaledRows w (α / 2) M) i) l := by
  intro w hw i
  have hp : ∀ i, 0 < w i := fun i => hl.trans_le (hw i).1
  refine floor_aux hl h0 (hw i).1 (hτ i) ?_
  rw [← rpow_half_sq (hp i)]
  exact lev_scale_le hM (scaledRows_indep hM hp (α / 2)) (s := fun i => w i ^ (α / 2))
    (fun j => by rw [rpow_half_sq (hp j)]; exact Real.rpow_le_one (hp j).le (hw j).2 h0) (fun _ _ => rfl) i

/-- The sparse scores with all weights one. -/
theorem tail_floor {A : Matrix (Fin m) (Fin n) ℝ} (hA : IndepRows A) {ERR : ℝ} (hR : ERR ≠ 0) {k : ℕ} {x : Fin n → ℝ}
    (hx : x ∈ TailPos n k) {α l : ℝ} (h0 : 0 ≤ α) (hl : 0 < l)
    (hτ : ∀ i : Fin n, n - k ≤ i.val → l ^ (1 - α) ≤ colev (colScaled A (slackScale ERR k (fun _ => 1) x)) i) :
    ScoreFloor (tailScore α ERR A k x) l := by
  obtain ⟨d, Z, hZ⟩ := exists_kernelBasis A
  intro u hu i
  have hp : ∀ i, 0 < u i := fun i => hl.trans_le (hu i).1
  have hg1 : ∀ i, slackScale ERR k (fun _ => 1) x i ≠ 0 := slackScale_ne hR (w := fun _ => 1) (fun _ _ => one_ne_zero) hx
  have hg2 : ∀ i, slackScale ERR k (fun j => padTail k u j ^ (α / 2)) x i ≠ 0 :=
    slackScale_ne hR (w := fun j => padTail k u j ^ (α / 2)) (fun i hi => (Real.rpow_pos_of_pos (padTail_pos hp i hi) _).ne') hx
  have hI : ∀ g : Fin n → ℝ, (∀ i, g i ≠ 0) → IndepCols (diagonal g * Z) := by
    intro g hg
    have := IndepCols.scale Z (kernelBasis_indep hZ) (s := g) hg
    have e : diagonal g * Z = fun i j => g i * Z i j := by ext i j; rw [Matrix.diagonal_mul]
    rw [e]; exact this
  refine floor_aux hl h0 (hu i).1 (hτ i.1 i.2) ?_
  unfold tailScore
  rw [colev_eq_lev hA hZ hg1, colev_eq_lev hA hZ hg2]
  set s : Fin n → ℝ := fun i => if h : n - k ≤ i.val then u ⟨i, h⟩ ^ (α / 2) else 1 with hs
  have hsi : s i.1 ^ 2 = u i ^ α := by rw [hs]; simp only [dif_pos i.2]; exact rpow_half_sq (hp i)
  rw [← hsi]
  refine lev_scale_le (hI _ hg1) (hI _ hg2) (s := s) (fun j => ?_) (fun j r => ?_) i.1
  · rw [hs]; dsimp only
    split
    · rename_i h; rw [rpow_half_sq (hp _)]; exact Real.rpow_le_one (hp _).le (hu _).2 h0
    · norm_num
  · rw [Matrix.diagonal_mul, Matrix.diagonal_mul, ← mul_assoc]
    congr 1
    rw [hs]; unfold slackScale; dsimp only
    by_cases h : n - k ≤ j.val
    · rw [if_pos h, if_pos h, dif_pos h]
      have e1 := padTail_tail u ⟨j, h⟩
      simp only at e1
      rw [e1]; ring
    · rw [if_neg h, if_neg h, dif_neg h, one_mul]

/-- A common floor for positive numbers. -/
theorem exists_floor {ι : Type} [Fintype ι] {τ : ι → ℝ} (h : ∀ i, 0 < τ i) {κ : ℝ} (hκ : 0 < κ) :
    ∃ l : ℝ, 0 < l ∧ l ≤ 1 ∧ ∀ i, l ^ κ ≤ τ i := by
  rcases isEmpty_or_nonempty ι with _ | _
  · exact ⟨1, one_pos, le_rfl, fun i => isEmptyElim i⟩
  · obtain ⟨i0, hi0⟩ := Finite.exists_min τ
    have hm : 0 < min (τ i0) 1 := lt_min (h i0) one_pos
    refine ⟨min (τ i0) 1 ^ κ⁻¹, Real.rpow_pos_of_pos hm _, Real.rpow_le_one hm.le (min_le_right _ _) (inv_pos.2 hκ).le, fun i => ?_⟩
    rw [← Real.rpow_mul hm.le, inv_mul_cancel₀ hκ.ne', Real.rpow_one]
    exact (min_le_left _ _).trans (hi0 i)

end PW

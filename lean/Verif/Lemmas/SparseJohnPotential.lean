import Verif.Lemmas.JohnPotential
import Verif.Lemmas.KernelMetric
import Verif.Props.SparseWeights
import Mathlib.LinearAlgebra.Dimension.Free

/-! # The sparse John weight iteration climbs a potential too -/

namespace PW
open Classical Matrix
variable {m n d : ℕ}

theorem exists_kernelBasis (A : Matrix (Fin m) (Fin n) ℝ) :
    ∃ (d : ℕ) (Z : Matrix (Fin n) (Fin d) ℝ), IsKernelBasis A Z := by
  let K := LinearMap.ker (Matrix.mulVecLin A)
  let e := Module.finBasis ℝ K
  have hmul : ∀ u, Matrix.mulVec (Matrix.of fun i j => (e j : Fin n → ℝ) i) u = ((∑ j, u j • e j : K) : Fin n → ℝ) := by
    intro u
    funext i
    rw [Submodule.coe_sum, Finset.sum_apply, Matrix.mulVec]
    simp [dotProduct, mul_comm]
  refine ⟨_, Matrix.of fun i j => (e j : Fin n → ℝ) i, ?_, ?_, ?_⟩
  · ext r j
    have h : A *ᵥ (e j : Fin n → ℝ) = 0 := (e j).2
    exact congrFun h r
  · intro u hu
    rw [hmul] at hu
    have h0 : (∑ j, u j • e j : K) = 0 := Subtype.ext hu
    funext j
    exact (Fintype.linearIndependent_iff.1 e.linearIndependent) u h0 j
  · intro v hv
    refine ⟨fun j => e.repr ⟨v, hv⟩ j, ?_⟩
    rw [hmul, e.sum_repr]

/-- Leverage scores of the kernel of `A diag(1/g)` are those of the rows of `diag(g) Z`. -/
theorem colev_eq_lev {A : Matrix (Fin m) (Fin n) ℝ} (hA : IndepRows A) {Z : Matrix (Fin n) (Fin d) ℝ}
    (hZ : IsKernelBasis A Z) {g : Fin n → ℝ} (hg : ∀ i, g i ≠ 0) (i : Fin n) :
    colev (colScaled A g) i = lev (diagonal g * Z) i := by
  set S := colScaled A g with hS
  have hSI := colScaled_indep hA hg
  rw [← hS] at hSI
  have hSe : S = A * diagonal fun i => (g i)⁻¹ := by
    ext r j; rw [Matrix.mul_diagonal]; simp [hS, colScaled, div_eq_mul_inv]
  have hgg : (diagonal fun i => (g i)⁻¹) * diagonal g = (1 : Matrix (Fin n) (Fin n) ℝ) := by
    rw [Matrix.diagonal_mul_diagonal, ← Matrix.diagonal_one]
    congr 1; funext i; exact inv_mul_cancel₀ (hg i)
  have hgg' : diagonal g * (diagonal fun i => (g i)⁻¹) = (1 : Matrix (Fin n) (Fin n) ℝ) := by
    rw [Matrix.diagonal_mul_diagonal, ← Matrix.diagonal_one]
    congr 1; funext i; exact mul_inv_cancel₀ (hg i)
  set B := diagonal g * Z with hB
  have hBI : IndepCols B := by
    have := IndepCols.scale Z (kernelBasis_indep hZ) (s := g) hg
    have e : B = fun i j => g i * Z i j := by ext i j; rw [hB, Matrix.diagonal_mul]
    rw [e]; exact this
  have hSB : S * B = 0 := by
    rw [hSe, hB, Matrix.mul_assoc, ← Matrix.mul_assoc (diagonal _), hgg, Matrix.one_mul, hZ.mul_zero]
  have hu := PosDef.isUnit_det hSI.posDef
  -- both are the orthogonal projection on the kernel of `S`
  set P := 1 - Sᵀ * (S * Sᵀ)⁻¹ * S with hP
  set Q := B * (Bᵀ * B)⁻¹ * Bᵀ with hQ
  have hBS : Bᵀ * Sᵀ = 0 := by rw [← Matrix.transpose_mul, hSB, Matrix.transpose_zero]
  have h1 : Q * P = Q := by
    refine mul_projKer ?_
    rw [hQ, Matrix.mul_assoc, hBS, Matrix.mul_zero]
  have h2 : Q * P = P := by
    have hk : S * P = 0 := projKer_ker hu
    have hA' : A * ((diagonal fun i => (g i)⁻¹) * P) = 0 := by rw [← Matrix.mul_assoc, ← hSe, hk]
    have hz := coordMat_mul_ker hZ hA'
    set C := coordMat Z * ((diagonal fun i => (g i)⁻¹) * P) with hC
    have hPB : B * C = P := by
      rw [hB, Matrix.mul_assoc, hz, ← Matrix.mul_assoc, hgg', Matrix.one_mul]
    have hBd := gram_det B hBI
    calc Q * P = B * ((Bᵀ * B)⁻¹ * (Bᵀ * B)) * C := by
          rw [← hPB, hQ]; simp only [Matrix.mul_assoc]
      _ = P := by rw [Matrix.nonsing_inv_mul _ hBd, Matrix.mul_one, hPB]
  have hPQ : P = Q := h2.symm.trans h1
  have h3 := congrFun (congrFun hPQ i) i
  have h4 : colev S i = P i i := by
    rw [colev_eq, hP, lev, Matrix.sub_apply, Matrix.one_apply_eq, Matrix.transpose_transpose]
  rw [h4, h3]; rfl

/-- The constrained coordinates. -/
abbrev TailIx (n k : ℕ) : Type := {i : Fin n // n - k ≤ i.val}

/-- Weights of the constrained coordinates as a vector with zeros elsewhere. -/
noncomputable def padTail (k : ℕ) (u : TailIx n k → ℝ) : Fin n → ℝ := fun i => if h : n - k ≤ i.val then u ⟨i, h⟩ else 0

/-- The scores of the sparse John walk as a function of the weights of the constrained coordinates. -/
noncomputable def tailScore (α ERR : ℝ) (A : Matrix (Fin m) (Fin n) ℝ) (k : ℕ) (x : Fin n → ℝ) (u : TailIx n k → ℝ)
    (i : TailIx n k) : ℝ := colev (colScaled A (slackScale ERR k (fun j => padTail k u j ^ (α / 2)) x)) i.1

theorem padTail_tail {k : ℕ} (u : TailIx n k → ℝ) (i : TailIx n k) : padTail k u i.1 = u i := by
  unfold padTail; rw [dif_pos i.2]

theorem padTail_pos {k : ℕ} {u : TailIx n k → ℝ} (hu : ∀ i, 0 < u i) : padTail k u ∈ TailPos n k := by
  intro i hi
  have := padTail_tail u ⟨i, hi⟩
  simp only at this
  rw [this]; exact hu _

/-- The factor by which the squared scale of coordinate `i` changes. -/
noncomputable def tailRatio (α : ℝ) (k : ℕ) (u u' : TailIx n k → ℝ) (i : Fin n) : ℝ :=
  if h : n - k ≤ i.val then (u' ⟨i, h⟩ / u ⟨i, h⟩) ^ α else 1

theorem tail_gram {α ERR : ℝ} {k : ℕ} {x : Fin n → ℝ} {u u' : TailIx n k → ℝ} (hu : ∀ i, 0 < u i) (hu' : ∀ i, 0 < u' i)
    (Z : Matrix (Fin n) (Fin d) ℝ) :
    (diagonal (slackScale ERR k (fun j => padTail k u j ^ (α / 2)) x) * Z)ᵀ * diagonal (tailRatio α k u u') *
        (diagonal (slackScale ERR k (fun j => padTail k u j ^ (α / 2)) x) * Z) =
      (diagonal (slackScale ERR k (fun j => padTail k u' j ^ (α / 2)) x) * Z)ᵀ *
        (diagonal (slackScale ERR k (fun j => padTail k u' j ^ (α / 2)) x) * Z) := by
  rw [← Matrix.mul_one (diagonal (slackScale ERR k (fun j => padTail k u' j ^ (α / 2)) x) * Z)ᵀ, ← Matrix.diagonal_one]
  ext j l
  rw [weightedGram_eq, weightedGram_eq]
  refine Finset.sum_congr rfl fun i _ => ?_
  rw [Matrix.diagonal_mul, Matrix.diagonal_mul, Matrix.diagonal_mul, Matrix.diagonal_mul]
  unfold slackScale tailRatio
  by_cases h : n - k ≤ i.val
  · rw [if_pos h, if_pos h, dif_pos h]
    have e1 := padTail_tail u ⟨i, h⟩
    have e2 := padTail_tail u' ⟨i, h⟩
    simp only at e1 e2 ⊢
    rw [e1, e2]
    have p1 := hu ⟨i, h⟩
    have p2 := hu' ⟨i, h⟩
    set a := u ⟨i, h⟩
    set a' := u' ⟨i, h⟩
    have h1 : a ^ (α / 2) * a ^ (α / 2) = a ^ α := by rw [← Real.rpow_add p1]; ring_nf
    have h1' : a' ^ (α / 2) * a' ^ (α / 2) = a' ^ α := by rw [← Real.rpow_add p2]; ring_nf
    have h2 : (a' / a) ^ α * a ^ α = a' ^ α := by
      rw [← Real.mul_rpow (div_pos p2 p1).le p1.le, div_mul_cancel₀ _ p1.ne']
    calc (a' / a) ^ α * (a ^ (α / 2) / x i * Z i j) * (a ^ (α / 2) / x i * Z i l)
        = (a' / a) ^ α * (a ^ (α / 2) * a ^ (α / 2)) * (Z i j * Z i l / x i / x i) := by ring
      _ = a' ^ (α / 2) * a' ^ (α / 2) * (Z i j * Z i l / x i / x i) := by rw [h1, h2, h1']
      _ = _ := by ring
  · rw [if_neg h, if_neg h, dif_neg h]

theorem sum_tail {k : ℕ} (f : Fin n → ℝ) (hf : ∀ i : Fin n, ¬ n - k ≤ i.val → f i = 0) :
    ∑ i, f i = ∑ i : TailIx n k, f i.1 := by
  have : ∑ i : TailIx n k, f i.1 = ∑ i ∈ Finset.univ.filter (fun i : Fin n => n - k ≤ i.val), f i :=
    (Finset.sum_subtype (p := fun i : Fin n => n - k ≤ i.val) (Finset.univ.filter fun i : Fin n => n - k ≤ i.val)
      (by intro i; simp) f).symm
  rw [this, Finset.sum_filter]
  exact Finset.sum_congr rfl fun i _ => by
    by_cases h : n - k ≤ i.val
    · rw [if_pos h]
    · rw [if_neg h, hf i h]

section
variable {A : Matrix (Fin m) (Fin n) ℝ} (hA : IndepRows A) {ERR : ℝ} (hR : ERR ≠ 0) {k : ℕ} {x : Fin n → ℝ}
  (hx : x ∈ TailPos n k)
include hA hR hx

theorem tailScore_range {α : ℝ} {u : TailIx n k → ℝ} (hu : ∀ i, 0 < u i) (i : TailIx n k) :
    0 ≤ tailScore α ERR A k x u i ∧ tailScore α ERR A k x u i ≤ 1 := by
  have hI := colScaled_indep hA (slackScale_ne hR (w := fun j => padTail k u j ^ (α / 2))
    (fun i hi => (Real.rpow_pos_of_pos (padTail_pos hu i hi) _).ne') hx)
  exact ⟨colev_nonneg hI _, colev_le_one hI _⟩

theorem tailPotential_pos {α : ℝ} (h0 : 0 < α) (h1 : α ≤ 1) {Z : Matrix (Fin n) (Fin d) ℝ} (hZ : IsKernelBasis A Z) :
    Potential (1 - α) (tailScore α ERR A k x) (fun u => 1 / α * Real.log
      ((diagonal (slackScale ERR k (fun j => padTail k u j ^ (α / 2)) x) * Z)ᵀ *
        (diagonal (slackScale ERR k (fun j => padTail k u j ^ (α / 2)) x) * Z)).det) := by
  have hg : ∀ u : TailIx n k → ℝ, (∀ i, 0 < u i) → ∀ i, slackScale ERR k (fun j => padTail k u j ^ (α / 2)) x i ≠ 0 :=
    fun u hu => slackScale_ne hR (w := fun j => padTail k u j ^ (α / 2))
      (fun i hi => (Real.rpow_pos_of_pos (padTail_pos hu i hi) _).ne') hx
  have hI : ∀ u : TailIx n k → ℝ, (∀ i, 0 < u i) →
      IndepCols (diagonal (slackScale ERR k (fun j => padTail k u j ^ (α / 2)) x) * Z) := by
    intro u hu
    have := IndepCols.scale Z (kernelBasis_indep hZ) (hg u hu)
    have e : diagonal (slackScale ERR k (fun j => padTail k u j ^ (α / 2)) x) * Z =
      fun i j => slackScale ERR k (fun j => padTail k u j ^ (α / 2)) x i * Z i j := by ext i j; rw [Matrix.diagonal_mul]
    rw [e]; exact this
  have hs : ∀ u : TailIx n k → ℝ, (∀ i, 0 < u i) → ∀ i : TailIx n k, tailScore α ERR A k x u i =
      lev (diagonal (slackScale ERR k (fun j => padTail k u j ^ (α / 2)) x) * Z) i.1 := fun u hu i =>
    colev_eq_lev hA hZ (hg u hu) i.1
  have hc : ∀ u u' : TailIx n k → ℝ, (∀ i, 0 < u i) → (∀ i, 0 < u' i) → ∀ i, 0 < tailRatio α k u u' i := by
    intro u u' hu hu' i
    unfold tailRatio
    split
    · exact Real.rpow_pos_of_pos (div_pos (hu' _) (hu _)) α
    · exact one_pos
  have ht : ∀ (u u' : TailIx n k → ℝ) (i : TailIx n k), tailRatio α k u u' i.1 = (u' i / u i) ^ α := fun u u' i => by
    unfold tailRatio; rw [dif_pos i.2]
  have hh : ∀ (u u' : TailIx n k → ℝ) (i : Fin n), ¬ n - k ≤ i.val → tailRatio α k u u' i = 1 := fun u u' i h => by
    unfold tailRatio; rw [dif_neg h]
  refine ⟨by linarith, by linarith, ?_, ?_, ?_, ?_⟩
  · intro u u' hu hu'
    have hb := logdet_bounds (hI u hu) (hc u u' hu hu')
    rw [tail_gram hu hu'] at hb
    have := mul_le_mul_of_nonneg_left hb.2.1 (one_div_pos.2 h0).le
    rw [← mul_sub]
    refine le_trans (le_of_eq ?_) this
    rw [sum_tail (k := k) _ (fun i h => by rw [hh u u' i h, Real.log_one, mul_zero]), Finset.mul_sum]
    refine Finset.sum_congr rfl fun i _ => ?_
    rw [hs u hu i, ht, Real.log_rpow (div_pos (hu' i) (hu i))]
    field_simp
  · intro u u' hu hu'
    have hb := logdet_bounds (hI u hu) (hc u u' hu hu')
    rw [tail_gram hu hu'] at hb
    have := mul_le_mul_of_nonneg_left hb.2.2 (one_div_pos.2 h0).le
    rw [← mul_sub]
    refine this.trans ?_
    rw [sum_tail (k := k) _ (fun i h => by rw [hh u u' i h, sub_self, mul_zero]), Finset.mul_sum]
    refine Finset.sum_le_sum fun i _ => ?_
    rw [hs u hu i, ht]
    have h2 := rpow_sub_one_le h0.le h1 (div_pos (hu' i) (hu i))
    have h3 := mul_le_mul_of_nonneg_left h2 (lev_nonneg _ (hI u hu) i.1)
    calc _ ≤ 1 / α * (lev _ i.1 * (α * (u' i / u i - 1 - (1 - α) * (Real.sqrt (u' i / u i) - 1) ^ 2))) := mul_le_mul_of_nonneg_left h3 (one_div_pos.2 h0).le
      _ = _ := by field_simp
  · exact fun u hu i => (tailScore_range hA hR hx hu i).1
  · exact fun u hu i => (tailScore_range hA hR hx hu i).2

theorem tailPotential_zero :
    Potential 1 (tailScore 0 ERR A k x) (fun u => ∑ i, tailScore 0 ERR A k x (fun _ => 1) i * Real.log (u i)) := by
  have hs : ∀ u, tailScore 0 ERR A k x u = tailScore 0 ERR A k x (fun _ => 1) := by
    intro u; funext i; unfold tailScore; simp
  have hr := fun i => tailScore_range (α := 0) hA hR hx (u := fun _ => 1) (fun _ => one_pos) i
  refine ⟨by norm_num, le_rfl, ?_, ?_, ?_, ?_⟩
  · intro u u' hu hu'
    rw [← Finset.sum_sub_distrib]
    refine Finset.sum_le_sum fun i _ => ?_
    rw [hs u, Real.log_div (hu' i).ne' (hu i).ne']
    linarith
  · intro u u' hu hu'
    rw [← Finset.sum_sub_distrib]
    refine Finset.sum_le_sum fun i _ => ?_
    rw [hs u, ← mul_sub, ← Real.log_div (hu' i).ne' (hu i).ne']
    rw [one_mul]
    exact mul_le_mul_of_nonneg_left (log_le_sqrt (div_pos (hu' i) (hu i))) (hr i).1
  · intro u _ i; rw [hs u]; exact (hr i).1
  · intro u _ i; rw [hs u]; exact (hr i).2

theorem exists_tailPotential {α : ℝ} (h0 : 0 ≤ α) (h1 : α ≤ 1) : ∃ L, Potential (1 - α) (tailScore α ERR A k x) L := by
  rcases h0.eq_or_lt with rfl | h0
  · rw [sub_zero]; exact ⟨_, tailPotential_zero hA hR hx⟩
  · obtain ⟨d, Z, hZ⟩ := exists_kernelBasis A
    exact ⟨_, tailPotential_pos hA hR hx h0 h1 hZ⟩
end

end PW

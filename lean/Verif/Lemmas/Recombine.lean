import Verif.Spec.Recombine
import Verif.Lemmas.Redescribe
import Verif.Props.SparseBarrierLaw
import Verif.Props.SparseBallLaw

/-!
# Two runs of a sparse walk on two descriptions of the same polytope
-/

set_option linter.unusedVariables false
set_option linter.unusedSectionVars false

namespace PW
open Finset Matrix
variable {m n : ℕ} {M : Matrix (Fin m) (Fin m) ℝ} {δ v : Fin n → ℝ} {A A' : Matrix (Fin m) (Fin n) ℝ} {k : ℕ}

theorem Recombined.eq (h : Recombined M δ A A') : A' * diagonal δ = M * A := by
  funext i j
  rw [Matrix.mul_diagonal]; exact h.mat i j

theorem Recombined.unit (h : Recombined M δ A A') : IsUnit M.det := isUnit_iff_ne_zero.2 h.det

theorem Recombined.mulVec (h : Recombined M δ A A') (x : Fin n → ℝ) : A' *ᵥ (fun j => δ j * x j) = M *ᵥ (A *ᵥ x) := by
  have : (fun j => δ j * x j) = diagonal δ *ᵥ x := by funext j; rw [Matrix.mulVec_diagonal]
  rw [this, Matrix.mulVec_mulVec, h.eq, Matrix.mulVec_mulVec]

theorem Recombined.indep (h : Recombined M δ A A') (hA : IndepRows A) : IndepRows A' := by
  intro y hy
  have h1 : Matrix.vecMul (Matrix.vecMul y M) A = 0 := by
    rw [Matrix.vecMul_vecMul, ← h.eq, ← Matrix.vecMul_vecMul, hy, Matrix.zero_vecMul]
  have h2 := hA _ h1
  have h3 : Matrix.vecMul (Matrix.vecMul y M) M⁻¹ = y := by
    rw [Matrix.vecMul_vecMul, Matrix.mul_nonsing_inv _ h.unit, Matrix.vecMul_one]
  rw [← h3, h2, Matrix.zero_vecMul]

/-- The projection on the kernel depends on the kernel only. -/
theorem projKer_mul {S : Matrix (Fin m) (Fin n) ℝ} (hM : IsUnit M.det) :
    (1 - (M * S)ᵀ * ((M * S) * (M * S)ᵀ)⁻¹ * (M * S) : Matrix (Fin n) (Fin n) ℝ) = 1 - Sᵀ * (S * Sᵀ)⁻¹ * S := by
  have hM' : IsUnit Mᵀ.det := by rwa [Matrix.det_transpose]
  congr 1
  have e : (M * S) * (M * S)ᵀ = M * (S * Sᵀ) * Mᵀ := by rw [Matrix.transpose_mul]; simp only [Matrix.mul_assoc]
  rw [e, Matrix.mul_inv_rev, Matrix.mul_inv_rev, Matrix.transpose_mul]
  calc Sᵀ * Mᵀ * (Mᵀ⁻¹ * ((S * Sᵀ)⁻¹ * M⁻¹)) * (M * S)
      = Sᵀ * (Mᵀ * Mᵀ⁻¹) * (S * Sᵀ)⁻¹ * (M⁻¹ * M) * S := by simp only [Matrix.mul_assoc]
    _ = _ := by rw [Matrix.mul_nonsing_inv _ hM', Matrix.nonsing_inv_mul _ hM, Matrix.mul_one, Matrix.mul_one]

theorem colev_mul {S : Matrix (Fin m) (Fin n) ℝ} (hS : IndepRows S) (hM : IsUnit M.det) (i : Fin n) : colev (M * S) i = colev S i := by
  rw [colev_eq, colev_eq, Matrix.transpose_mul, lev_mul _ hS.transpose _ (by rwa [Matrix.det_transpose])]

/-! ### The metric and the proposal -/

/-- The metric in the new units. -/
theorem invSqrt_units (hδ : ∀ j, 0 < δ j) {G : Fin n → ℝ} (hG : ∀ i, 0 < G i) :
    invSqrt (fun i => G i / (δ i * δ i)) = fun i => δ i * invSqrt G i := by
  funext i
  show Real.sqrt (1 / (G i / (δ i * δ i))) = δ i * Real.sqrt (1 / G i)
  have h1 : 1 / (G i / (δ i * δ i)) = δ i ^ 2 * (1 / G i) := by
    have := (hG i).ne'; have := (hδ i).ne'; field_simp
  rw [h1, Real.sqrt_mul (sq_nonneg _), Real.sqrt_sq (hδ i).le]

theorem Recombined.scaled (h : Recombined M δ A A') {G : Fin n → ℝ} (hG : ∀ i, 0 < G i) :
    A' * diagonal (invSqrt fun i => G i / (δ i * δ i)) = M * (A * diagonal (invSqrt G)) := by
  rw [invSqrt_units h.pos hG, ← Matrix.mul_assoc, ← h.eq, Matrix.mul_assoc, Matrix.diagonal_mul_diagonal]

theorem Recombined.dirMat (h : Recombined M δ A A') {G : Fin n → ℝ} (hG : ∀ i, 0 < G i) :
    dirMat A' (fun i => G i / (δ i * δ i)) = diagonal δ * dirMat A G := by
  unfold PW.dirMat
  rw [h.scaled hG, projKer_mul h.unit, invSqrt_units h.pos hG, ← Matrix.mul_assoc (diagonal δ), Matrix.diagonal_mul_diagonal]

theorem Recombined.proposal (h : Recombined M δ A A') (hA : IndepRows A) {E : Eigen ℝ} (hE : E.SparseLLTSolveExact) {G : Fin n → ℝ}
    (hG : ∀ i, 0 < G i) (D : ℝ) (x ξ : Fin n → ℝ) :
    SparseBarrier.proposal E D (fun i => G i / (δ i * δ i)) A' (fun j => δ j * x j + v j) ξ =
      fun j => δ j * SparseBarrier.proposal E D G A x ξ j + v j := by
  have hG' : ∀ i, 0 < G i / (δ i * δ i) := fun i => div_pos (hG i) (mul_pos (h.pos i) (h.pos i))
  rw [sparse_proposal_real hE (h.indep hA) hG', sparse_proposal_real hE hA hG, h.dirMat hG]
  funext j
  rw [← Matrix.mulVec_mulVec]
  show δ j * x j + v j + Real.sqrt D * ((diagonal δ *ᵥ (PW.dirMat A G *ᵥ ξ)) j) = δ j * (x j + Real.sqrt D * (PW.dirMat A G *ᵥ ξ) j) + v j
  rw [Matrix.mulVec_diagonal]
  ring

/-- The two log densities differ by a constant. -/
theorem Recombined.logDens (h : Recombined M δ A A') (hA : IndepRows A) {G : Fin n → ℝ} (hG : ∀ i, 0 < G i) (D : ℝ) (x z : Fin n → ℝ) :
    kerLogDens A' D (fun i => G i / (δ i * δ i)) (fun j => δ j * x j + v j) (fun j => δ j * z j + v j) =
      kerLogDens A D G x z + (Real.log |M.det| - ∑ i, Real.log (δ i)) := by
  unfold kerLogDens
  rw [h.scaled hG]
  have e1 : (M * (A * diagonal (invSqrt G))) * (M * (A * diagonal (invSqrt G)))ᵀ =
      M * ((A * diagonal (invSqrt G)) * (A * diagonal (invSqrt G))ᵀ) * Mᵀ := by rw [Matrix.transpose_mul]; simp only [Matrix.mul_assoc]
  have hp := (scaled_posDef hA hG).det_pos
  rw [e1, Matrix.det_mul, Matrix.det_mul, Matrix.det_transpose]
  generalize ((A * diagonal (invSqrt G)) * (A * diagonal (invSqrt G))ᵀ).det = d at hp ⊢
  have e2 : Real.log (M.det * d * M.det) = 2 * Real.log |M.det| + Real.log d := by
    rw [Real.log_mul (mul_ne_zero h.det hp.ne') h.det, Real.log_mul h.det hp.ne', Real.log_abs]; ring
  have e3 : ∀ i, Real.log (G i / (δ i * δ i)) = Real.log (G i) - 2 * Real.log (δ i) := fun i => by
    rw [Real.log_div (hG i).ne' (mul_pos (h.pos i) (h.pos i)).ne', Real.log_mul (h.pos i).ne' (h.pos i).ne']; ring
  have e4 : ∑ i, (δ i * z i + v i - (δ i * x i + v i)) * (G i / (δ i * δ i) * (δ i * z i + v i - (δ i * x i + v i))) =
      ∑ i, (z i - x i) * (G i * (z i - x i)) := sum_congr rfl fun i _ => by
    have := (h.pos i).ne'; field_simp; ring
  rw [e2, e4, sum_congr rfl fun i _ => e3 i, sum_sub_distrib, ← mul_sum]
  ring

theorem Recombined.logDensity (h : Recombined M δ A A') (hA : IndepRows A) {E : Eigen ℝ} (hL : E.SparseLLTLExact) (hLU : E.SparseLUExact)
    {G : Fin n → ℝ} (hG : ∀ i, 0 < G i) (D : ℝ) (x z : Fin n → ℝ) (hxz : A *ᵥ x = A *ᵥ z) :
    SparseBarrier.logDensity E D (fun i => G i / (δ i * δ i)) A' (fun j => δ j * x j + v j) (fun j => δ j * z j + v j) =
      SparseBarrier.logDensity E D G A x z + (Real.log |M.det| - ∑ i, Real.log (δ i)) := by
  have hG' : ∀ i, 0 < G i / (δ i * δ i) := fun i => div_pos (hG i) (mul_pos (h.pos i) (h.pos i))
  have hxz' : A' *ᵥ (fun j => δ j * x j + v j) = A' *ᵥ fun j => δ j * z j + v j := by
    have e : ∀ y : Fin n → ℝ, (fun j => δ j * y j + v j) = (fun j => δ j * y j) + v := fun y => rfl
    rw [e, e, Matrix.mulVec_add, Matrix.mulVec_add, h.mulVec, h.mulVec, hxz]
  rw [sparse_logDensity_real hL (h.indep hA) hG' hLU D _ _ hxz', sparse_logDensity_real hL hA hG hLU D x z hxz, h.logDens hA hG]

/-! ### Positions -/

theorem units_tailPos (hδ : ∀ j, 0 < δ j) (hv : TailZero k v) (x : Fin n → ℝ) :
    (fun j => δ j * x j + v j) ∈ TailPos n k ↔ x ∈ TailPos n k := by
  refine forall_congr' fun i => forall_congr' fun hi => ?_
  show 0 < δ i * x i + v i ↔ 0 < x i
  rw [hv i hi, add_zero]
  exact mul_pos_iff_of_pos_left (hδ i)

theorem units_inside (hδ : ∀ j, 0 < δ j) (hv : TailZero k v) (x : Fin n → ℝ) :
    inPolytopeK (fun j => δ j * x j + v j) k = inPolytopeK x k := by
  by_cases hkn : k ≤ n
  · rcases Nat.eq_zero_or_pos k with rfl | hk
    · unfold inPolytopeK tail
      rw [dif_pos hkn, dif_pos hkn]; rfl
    · rw [inPolytopeK_real _ k hk hkn, inPolytopeK_real _ k hk hkn]
      congr 1
      rw [decide_eq_decide]
      refine forall_congr' fun i => forall_congr' fun hi => ?_
      show 0 ≤ δ i * x i + v i ↔ 0 ≤ x i
      rw [hv i hi, add_zero]
      exact mul_nonneg_iff_of_pos_left (hδ i)
  · unfold inPolytopeK tail
    rw [dif_neg hkn, dif_neg hkn]

theorem metricG_units {ERR : ℝ} (hδ : ∀ j, 0 < δ j) (hv : TailZero k v) (hf : ∀ i : Fin n, i.val < n - k → δ i = 1) (junk x w : Fin n → ℝ) :
    metricG ERR junk (fun j => δ j * x j + v j) w k = fun i => metricG ERR junk x w k i / (δ i * δ i) := by
  funext i
  unfold metricG generateSlackInverse
  by_cases hi : isTail k i = true
  · simp only [hi, if_true]
    rw [hv i ((isTail_iff i).1 hi), add_zero, one_div, mul_inv, one_div]
    have := (hδ i).ne'
    field_simp
  · simp only [hi, Bool.false_eq_true, if_false]
    rw [hf i (by rw [isTail_iff] at hi; omega)]; ring

theorem slackScale_units {ERR : ℝ} (hδ : ∀ j, 0 < δ j) (hv : TailZero k v) (hf : ∀ i : Fin n, i.val < n - k → δ i = 1) (w x : Fin n → ℝ) :
    slackScale ERR k w (fun j => δ j * x j + v j) = fun i => slackScale ERR k w x i / δ i := by
  funext i
  unfold slackScale
  by_cases hi : n - k ≤ i.val
  · rw [if_pos hi, if_pos hi]
    show w i / (δ i * x i + v i) = _
    rw [hv i hi, add_zero, div_div, mul_comm]
  · rw [if_neg hi, if_neg hi, hf i (by omega), div_one]

theorem Recombined.colScaled (h : Recombined M δ A A') {g : Fin n → ℝ} :
    colScaled A' (fun i => g i / δ i) = M * PW.colScaled A g := by
  funext i j
  show A' i j / (g j / δ j) = ∑ l, M i l * (A l j / g j)
  rw [div_div_eq_mul_div, h.mat, sum_div]
  exact sum_congr rfl fun l _ => by ring

/-! ### Weights -/

theorem johnLoop_units {next next' : (Fin n → ℝ) → Fin n → ℝ} {I : (Fin n → ℝ) → Prop} (hn : ∀ w, I w → next' w = next w) (hI : ∀ w, I w → I (next w))
    (diff : (Fin n → ℝ) → (Fin n → ℝ) → Fin n → ℝ) (hn0 : 0 < n) (LIM : ℝ) (K : ℕ) :
    ∀ w nw, I w → I nw → ∃ p, johnLoop next diff LIM K w nw = .ok p ∧ johnLoop next' diff LIM K w nw = .ok p ∧ I p.1 := by
  induction K with
  | zero => exact fun w nw hw _ => ⟨_, rfl, rfl, hw⟩
  | succ K ih =>
    intro w nw hw hnw
    rw [johnLoop, johnLoop]
    obtain ⟨c, h1, -, -⟩ := maxCoeff_real (diff (next nw) nw) hn0
    rw [hn nw hnw, h1, Out.ok_bind, Out.ok_bind]
    by_cases hc : Scalar.lt c LIM = true
    · rw [if_pos hc, if_pos hc]; exact ⟨_, rfl, rfl, hnw⟩
    · rw [if_neg hc, if_neg hc]; exact ih _ _ hnw (hI _ hnw)

theorem lsLoop_units {grad grad' : (Fin n → ℝ) → Fin n → ℝ} {I : (Fin n → ℝ) → Prop} (hn : ∀ w, I w → grad' w = grad w)
    {upd : (Fin n → ℝ) → (Fin n → ℝ) → Fin n → ℝ} (hI : ∀ w, I w → I (upd w (grad w))) (GLIM : ℝ) (K : ℕ) :
    ∀ w, I w → lsLoop grad' upd GLIM K w = lsLoop grad upd GLIM K w ∧ I (lsLoop grad upd GLIM K w).1 := by
  induction K with
  | zero => exact fun w hw => ⟨rfl, hw⟩
  | succ K ih =>
    intro w hw
    rw [lsLoop, lsLoop]
    rw [hn w hw]
    by_cases hc : Scalar.lt (norm2 (grad w)) GLIM = true
    · rw [if_pos hc, if_pos hc]; exact ⟨rfl, hw⟩
    · rw [if_neg hc, if_neg hc]; exact ih _ (hI _ hw)

section weights
variable (h : Recombined M δ A A') (hA : IndepRows A) (hv : TailZero k v) (hf : ∀ i : Fin n, i.val < n - k → δ i = 1)
include h hA hv hf

theorem Recombined.colev {ERR : ℝ} (hR : ERR ≠ 0) {w x : Fin n → ℝ} (hw : ∀ i : Fin n, n - k ≤ i.val → w i ≠ 0) (hx : x ∈ TailPos n k) (i : Fin n) :
    colev (PW.colScaled A' (slackScale ERR k w fun j => δ j * x j + v j)) i = colev (PW.colScaled A (slackScale ERR k w x)) i := by
  rw [slackScale_units h.pos hv hf, h.colScaled, colev_mul (colScaled_indep hA (slackScale_ne hR hw hx)) h.unit]

theorem Recombined.vaidyaWeight {E : Eigen ℝ} (hE : E.LdltExact) {ERR : ℝ} (hR : ERR ≠ 0) (junk : Fin n → ℝ) {x : Fin n → ℝ} (hx : x ∈ TailPos n k) :
    sparseVaidyaWeight E ERR junk (fun j => δ j * x j + v j) A' k = sparseVaidyaWeight E ERR junk x A k := by
  have lv : ∀ (A : Matrix (Fin m) (Fin n) ℝ) (hA : IndepRows A) (x : Fin n → ℝ) (hx : x ∈ TailPos n k) (i : Fin n),
      leverageScore E junk A (fun i => if isTail k i then some 1 else none) x ERR k i =
        if n - k ≤ i.val then PW.colev (PW.colScaled A (slackScale ERR k (fun _ => 1) x)) i else 0 := fun A hA x hx =>
    C28_leverage E hE junk A hA (fun i => if isTail k i then some 1 else none) x ERR k
      (slackScale ERR k (fun _ => 1) x) (slackScale_ne hR (fun _ _ => one_ne_zero) hx)
      (fun i h => by unfold slackScale; rw [if_neg (by omega)])
      (fun i h => ⟨1, by simp [(isTail_iff i).2 h], by unfold slackScale; rw [if_pos h]⟩)
  have e : leverageScore E junk A' (fun i => if isTail k i then some 1 else none) (fun j => δ j * x j + v j) ERR k =
      leverageScore E junk A (fun i => if isTail k i then some 1 else none) x ERR k := by
    funext i
    rw [lv A' (h.indep hA) _ ((units_tailPos h.pos hv x).2 hx), lv A hA x hx, h.colev hA hv hf hR (fun _ _ => one_ne_zero) hx]
  funext i
  show (if isTail k i then leverageScore E junk A' (fun i => if isTail k i then some 1 else none) (fun j => δ j * x j + v j) ERR k i + _ else
    leverageScore E junk A' (fun i => if isTail k i then some 1 else none) (fun j => δ j * x j + v j) ERR k i) = _
  rw [e]
  rfl

theorem Recombined.score {E : Eigen ℝ} (hE : E.LdltExact) {ERR : ℝ} (hR : ERR ≠ 0) (junk : Fin n → ℝ) {x : Fin n → ℝ} (hx : x ∈ TailPos n k)
    (α : ℝ) {w : Fin n → ℝ} (hw : w ∈ TailPos n k) :
    leverageScore E junk A' (powDiag α w k) (fun j => δ j * x j + v j) ERR k = leverageScore E junk A (powDiag α w k) x ERR k := by
  funext i
  rw [(sparseScore_real hE hR junk (h.indep hA) ((units_tailPos h.pos hv x).2 hx) α hw).2 i, (sparseScore_real hE hR junk hA hx α hw).2 i,
    h.colev hA hv hf hR (fun i hi => (Real.rpow_pos_of_pos (hw i hi) _).ne') hx]

theorem Recombined.johnNext {E : Eigen ℝ} (hE : E.LdltExact) {ERR : ℝ} (hR : ERR ≠ 0) (junk : Fin n → ℝ) {x : Fin n → ℝ} (hx : x ∈ TailPos n k)
    {w : Fin n → ℝ} (hw : w ∈ TailPos n k) :
    sparseJohnNext E ERR junk (fun j => δ j * x j + v j) A' k w = sparseJohnNext E ERR junk x A k w := by
  unfold sparseJohnNext
  simp only
  rw [h.score hA hv hf hE hR junk hx _ hw]

theorem Recombined.lsGrad {E : Eigen ℝ} (hE : E.LdltExact) {ERR : ℝ} (hR : ERR ≠ 0) (junk : Fin n → ℝ) {x : Fin n → ℝ} (hx : x ∈ TailPos n k)
    {w : Fin n → ℝ} (hw : w ∈ TailPos n k) :
    sparseLSGrad E ERR junk (fun j => δ j * x j + v j) A' k w = sparseLSGrad E ERR junk x A k w := by
  unfold sparseLSGrad
  simp only
  rw [h.score hA hv hf hE hR junk hx _ hw]

end weights

/-- What a class of sparse barrier walks needs: on the two descriptions its weights are the same, and positive. -/
structure UnitsClass (cls : SparseBarrierClass ℝ (BState ℝ)) (k : ℕ) (junk : Fin n → ℝ) (A A' : Matrix (Fin m) (Fin n) ℝ) (δ v : Fin n → ℝ)
    (Ok : BState ℝ → Prop) : Prop where
  start : ∀ o o1, cls.setDistTerm o ((n : Int) - m) k = .ok o1 → Ok o1
  weight : ∀ o, Ok o → ∀ x ∈ TailPos n k, ∃ w o1, cls.generateWeight junk o x A k = .ok (⟨n, w⟩, o1) ∧
    cls.generateWeight junk o (fun j => δ j * x j + v j) A' k = .ok (⟨n, w⟩, o1) ∧ Ok o1 ∧ ∀ i : Fin n, n - k ≤ i.val → 0 < w i

theorem unitsClass_base (junk : Fin n → ℝ) : UnitsClass sparseBarrierClass k junk A A' δ v fun _ => True where
  start _ _ _ := trivial
  weight o _ x _ := ⟨fun _ => 1, o, rfl, rfl, trivial, fun _ _ => one_pos⟩

theorem unitsClass_dikin (R : ℝ) (junk : Fin n → ℝ) : UnitsClass (sparseDikinClass R) k junk A A' δ v fun _ => True where
  start _ _ _ := trivial
  weight o _ x _ := ⟨fun _ => 1, o, rfl, rfl, trivial, fun _ _ => one_pos⟩

section classes
variable (h : Recombined M δ A A') (hA : IndepRows A) (hv : TailZero k v) (hf : ∀ i : Fin n, i.val < n - k → δ i = 1) (hk : 1 ≤ k) (hkn : k ≤ n) (hmn : m < n)
  {E : Eigen ℝ} (hE : E.LdltExact) {ERR : ℝ} (hR : 0 < ERR)
include h hA hv hf hk hmn hE hR

include hkn in
theorem unitsClass_vaidya (R : ℝ) (junk : Fin n → ℝ) : UnitsClass (sparseVaidyaClass E ERR R) k junk A A' δ v fun _ => True where
  start _ _ _ := trivial
  weight o _ x hx := by
    obtain ⟨w, h1, _, h3, _⟩ := C29_vaidya E hE ERR R hR.ne' o junk x A hA k hk hkn hx
    refine ⟨w, o, h1, ?_, trivial, fun i hi => lt_of_lt_of_le ?_ (h3 i hi).2.1⟩
    · rw [← h1]
      show Out.ok _ = Out.ok _
      rw [h.vaidyaWeight hA hv hf hE hR.ne' junk hx]
    · have h1 : (m : ℝ) < n := by exact_mod_cast hmn
      have h2 : (0 : ℝ) < k := by exact_mod_cast hk
      exact div_pos (by linarith) h2

theorem unitsClass_john (R LIM : ℝ) (N : Int) (junk : Fin n → ℝ) : UnitsClass (sparseJohnClass E ERR R LIM N) k junk A A' δ v
    fun o => GoodStartK o.w n k ∧ 0 < o.w.n where
  start o o1 h1 := by
    simp only [sparseJohnClass] at h1
    rw [if_neg (by omega)] at h1
    cases h1
    have hdp : ((n : Int) - m).toNat = n - m := by omega
    simp only [hdp]
    exact ⟨goodStartK_ones (by omega) _ _, by show 0 < n - m; omega⟩
  weight o ho x hx := by
    obtain ⟨w0, hw0⟩ : ∃ w0, warmStart o.w n = .ok w0 := by
      unfold warmStart
      rw [dif_pos ho.2]
      split_ifs <;> exact ⟨_, rfl⟩
    have hp0 := ho.1 w0 (warmStart_iff.1 hw0)
    have hst := tailOnly_zeroHead hp0
    have hβ : 0 < sparseJohnBeta (F := ℝ) ((n : Int) - m) k := by
      have h1 : (m : ℝ) < n := by exact_mod_cast hmn
      have h2 : (0 : ℝ) < k := by exact_mod_cast hk
      simp only [sparseJohnBeta, rsc_ofInt, two_real]
      push_cast
      exact div_pos (by linarith) (by linarith)
    obtain ⟨p, p1, p2, p3⟩ := johnLoop_units (I := TailOnly k) (next := sparseJohnNext E ERR junk x A k)
      (next' := sparseJohnNext E ERR junk (fun j => δ j * x j + v j) A' k) (fun w hw => h.johnNext hA hv hf hE hR.ne' junk hx hw.2)
      (by
        intro w hw
        refine ⟨fun i hi => ?_, fun i hi => ?_⟩
        · have hi' : ¬ isTail k i = true := by rw [isTail_iff]; omega
          simp only [sparseJohnNext, zeroHead, if_neg hi', leverageScore_head E junk A _ x ERR k i (by simpa using hi'),
            hw.1 i hi, cmax_real]
          simp
        · simp only [sparseJohnNext, zeroHead, if_pos ((isTail_iff i).2 hi), cmax_real, half_real]
          refine mul_pos (by norm_num) (lt_of_lt_of_le ?_ (le_max_right _ _))
          rw [mul_one]; exact hβ) (fun nw w i => Scalar.abs (w i - nw i)) (by omega) LIM N.toNat _ _ hst hst
    have q1 : sparseJohnWeightConv E ERR LIM N o.w junk x A k = .ok p := by
      unfold sparseJohnWeightConv; rw [hw0, Out.ok_bind]; exact p1
    have q2 : sparseJohnWeightConv E ERR LIM N o.w junk (fun j => δ j * x j + v j) A' k = .ok p := by
      unfold sparseJohnWeightConv; rw [hw0, Out.ok_bind]; exact p2
    refine ⟨p.1, { o with w := ⟨n, p.1⟩ }, ?_, ?_, ⟨goodStartK_of p3.2, by show 0 < n; omega⟩, p3.2⟩
    · exact congrArg (fun q : Out ((Fin n → ℝ) × Bool) => q.map fun wc => ((⟨n, wc.1⟩, { o with w := ⟨n, wc.1⟩ }) : DVec ℝ × BState ℝ)) q1
    · exact congrArg (fun q : Out ((Fin n → ℝ) × Bool) => q.map fun wc => ((⟨n, wc.1⟩, { o with w := ⟨n, wc.1⟩ }) : DVec ℝ × BState ℝ)) q2

theorem unitsClass_ls (R GLIM STEP : ℝ) (N : Int) (junk : Fin n → ℝ) : UnitsClass (sparseDikinLSClass E ERR R GLIM STEP N) k junk A A' δ v
    fun o => GoodStartK o.w n k ∧ 0 < o.w.n where
  start o o1 h1 := by
    simp only [sparseDikinLSClass] at h1
    rw [if_neg (by omega)] at h1
    cases h1
    have hdp : ((n : Int) - m).toNat = n - m := by omega
    simp only [hdp]
    exact ⟨goodStartK_ones (by omega) _ _, by show 0 < n - m; omega⟩
  weight o ho x hx := by
    obtain ⟨w0, hw0⟩ : ∃ w0, warmStart o.w n = .ok w0 := by
      unfold warmStart
      rw [dif_pos ho.2]
      split_ifs <;> exact ⟨_, rfl⟩
    have hp0 := ho.1 w0 (warmStart_iff.1 hw0)
    have hst := tailOnly_zeroHead hp0
    obtain ⟨p1, p3⟩ := lsLoop_units (I := TailOnly k) (grad := sparseLSGrad E ERR junk x A k)
      (grad' := sparseLSGrad E ERR junk (fun j => δ j * x j + v j) A' k) (fun w hw => h.lsGrad hA hv hf hE hR.ne' junk hx hw.2)
      (upd := sparseLSUpdate ERR STEP k) (by
        intro w hw
        refine ⟨fun i hi => ?_, fun i hi => ?_⟩
        · have hi' : ¬ isTail k i = true := by rw [isTail_iff]; omega
          simp only [sparseLSUpdate, sparseLSGrad, zeroHead, if_neg hi', hw.1 i hi]
          simp
        · simp only [sparseLSUpdate, if_pos ((isTail_iff i).2 hi), cmax_real]
          exact lt_of_lt_of_le hR (le_max_right _ _)) GLIM N.toNat _ hst
    have q1 : sparseLSWeightConv E ERR GLIM STEP N o.w junk x A k =
        .ok (lsLoop (sparseLSGrad E ERR junk x A k) (sparseLSUpdate ERR STEP k) GLIM N.toNat (zeroHead w0 k)) := by
      unfold sparseLSWeightConv; rw [hw0, Out.ok_bind]
    have q2 : sparseLSWeightConv E ERR GLIM STEP N o.w junk (fun j => δ j * x j + v j) A' k =
        .ok (lsLoop (sparseLSGrad E ERR junk x A k) (sparseLSUpdate ERR STEP k) GLIM N.toNat (zeroHead w0 k)) := by
      unfold sparseLSWeightConv; rw [hw0, Out.ok_bind, p1]
    generalize lsLoop (sparseLSGrad E ERR junk x A k) (sparseLSUpdate ERR STEP k) GLIM N.toNat (zeroHead w0 k) = p at q1 q2 p3
    refine ⟨p.1, { o with w := ⟨n, p.1⟩ }, ?_, ?_, ⟨goodStartK_of p3.2, by show 0 < n; omega⟩, p3.2⟩
    · exact congrArg (fun q : Out ((Fin n → ℝ) × Bool) => q.map fun wc => ((⟨n, wc.1⟩, { o with w := ⟨n, wc.1⟩ }) : DVec ℝ × BState ℝ)) q1
    · exact congrArg (fun q : Out ((Fin n → ℝ) × Bool) => q.map fun wc => ((⟨n, wc.1⟩, { o with w := ⟨n, wc.1⟩ }) : DVec ℝ × BState ℝ)) q2

end classes

/-! ### The step -/

/-- The states of the two runs. -/
def SRel (k : ℕ) (δ v : Fin n → ℝ) (Ok : BState ℝ → Prop) {G : Type} (s s' : (Fin n → ℝ) × BState ℝ × G) : Prop :=
  s.1 ∈ TailPos n k ∧ Ok s.2.1 ∧ s'.1 = (fun j => δ j * s.1 j + v j) ∧ s'.2 = s.2

theorem UnitsClass.step {cls : SparseBarrierClass ℝ (BState ℝ)} {junk : Fin n → ℝ} {Ok} (hc : UnitsClass cls k junk A A' δ v Ok)
    (h : Recombined M δ A A') (hA : IndepRows A) (hv : TailZero k v) (hf : ∀ i : Fin n, i.val < n - k → δ i = 1) (hk : 1 ≤ k) (hkn : k ≤ n)
    {E : Eigen ℝ} (hS : E.SparseLLTSolveExact) (hL : E.SparseLLTLExact) (hLU : E.SparseLUExact) {ERR : ℝ} (hR : 0 < ERR) (r : Rng ℝ)
    (s s' : (Fin n → ℝ) × BState ℝ × r.G) (hs : SRel k δ v Ok s s')
    (hz : ∀ z og, SparseBarrier.generateSample cls ERR E r junk A k s.1 s.2.1 s.2.2 = .ok (z, og) → z ∈ TailPos n k ∨ z ∉ TailNonneg n k) :
    Out.Rel (SRel k δ v Ok) (SparseBarrier.step cls ERR E r junk A k s) (SparseBarrier.step cls ERR E r junk A' k s') := by
  obtain ⟨x, o, g⟩ := s
  obtain ⟨x', o', g'⟩ := s'
  obtain ⟨hx, ho, h1, h2⟩ := hs
  simp only at hx ho h1 h2 hz
  cases h2
  subst h1
  have gen : ∀ o, Ok o → ∀ x ∈ TailPos n k, ∃ G o1, generateG cls ERR junk o x A k = .ok (G, o1) ∧
      generateG cls ERR junk o (fun j => δ j * x j + v j) A' k = .ok ((fun i => G i / (δ i * δ i)), o1) ∧ Ok o1 ∧ ∀ i, 0 < G i := by
    intro o ho x hx
    obtain ⟨w, o1, w1, w2, w3, w4⟩ := hc.weight o ho x hx
    refine ⟨metricG ERR junk x w k, o1, ?_, ?_, w3, metricG_pos hR junk hx w4⟩
    · unfold generateG; rw [w1, Out.ok_bind, dif_pos rfl]; rfl
    · unfold generateG; rw [w2, Out.ok_bind, dif_pos rfl, ← metricG_units h.pos hv hf]; rfl
  obtain ⟨G, o1, g1, g2, ho1, hG⟩ := gen o ho x hx
  have hgs : SparseBarrier.generateSample cls ERR E r junk A k x o g =
      .ok (SparseBarrier.proposal E (cls.distTerm o1) G A x (r.gaussian n g).1, o1, (r.gaussian n g).2) := by
    unfold SparseBarrier.generateSample
    rw [if_neg (by omega), g1, Out.ok_bind]
  have hgs' : SparseBarrier.generateSample cls ERR E r junk A' k (fun j => δ j * x j + v j) o g =
      .ok (fun j => δ j * SparseBarrier.proposal E (cls.distTerm o1) G A x (r.gaussian n g).1 j + v j, o1, (r.gaussian n g).2) := by
    unfold SparseBarrier.generateSample
    rw [if_neg (by omega), g2, Out.ok_bind]
    simp only
    rw [h.proposal hA hS hG]
  have hz := hz _ _ hgs
  have hker : A *ᵥ SparseBarrier.proposal E (cls.distTerm o1) G A x (r.gaussian n g).1 = A *ᵥ x :=
    proposal_ker hS (by rw [scaleCols_eq]; exact scaled_posDef hA hG) _ _
  generalize SparseBarrier.proposal E (cls.distTerm o1) G A x (r.gaussian n g).1 = z at hgs hgs' hz hker
  generalize (r.gaussian n g).2 = gn at hgs hgs'
  unfold SparseBarrier.step
  simp only
  rw [hgs, hgs', Out.ok_bind, Out.ok_bind]
  simp only
  rw [units_inside h.pos hv, inPolytopeK_real z k hk hkn, Out.ok_bind, Out.ok_bind]
  by_cases hzC : z ∈ TailNonneg n k
  · have hzV := hz.resolve_right (fun h => h hzC)
    have hzC' : ∀ i : Fin n, n - k ≤ i.val → 0 ≤ z i := hzC
    rw [if_pos (decide_eq_true hzC'), if_pos (decide_eq_true hzC')]
    obtain ⟨G2, o2, a1, a2, ho2, hG2⟩ := gen o1 ho1 x hx
    obtain ⟨G3, o3, b1, b2, ho3, hG3⟩ := gen o2 ho2 z hzV
    unfold SparseBarrier.generateProposalDensity
    rw [a1, a2, Out.ok_bind, Out.ok_bind, Out.ok_bind, Out.ok_bind]
    simp only
    rw [b1, b2, Out.ok_bind, Out.ok_bind, Out.ok_bind, Out.ok_bind]
    simp only
    rw [h.logDensity hA hL hLU hG2 _ x z hker.symm, h.logDensity hA hL hLU hG3 _ z x hker]
    have hacc : ∀ p q c val : ℝ, mhAccept (p + c) (q + c) val = mhAccept p q val := fun p q c val => by
      unfold mhAccept
      rw [show p + c - (q + c) = p - q by ring]
    rw [hacc]
    refine .ok ?_
    by_cases hm : mhAccept (SparseBarrier.logDensity E (cls.distTerm o3) G3 A z x) (SparseBarrier.logDensity E (cls.distTerm o2) G2 A x z)
      (r.uniform gn).1 = true
    · rw [if_pos hm, if_pos hm]; exact ⟨hzV, ho3, rfl, rfl⟩
    · rw [if_neg hm, if_neg hm]; exact ⟨hx, ho3, rfl, rfl⟩
  · rw [if_neg (by rw [decide_eq_true_iff]; exact hzC), if_neg (by rw [decide_eq_true_iff]; exact hzC)]
    exact .ok ⟨hx, ho1, rfl, rfl⟩

/-! ### Ball walk and hit-and-run -/

theorem Recombined.kernelProject {a : ℝ} (h : Recombined M (fun _ => a) A A') (hA : IndepRows A) {E : Eigen ℝ} (hLU : E.SparseLUExact) (ξ : Fin n → ℝ) :
    kernelProject E A' ξ = PW.kernelProject E A ξ := by
  rw [kernelProject_real hLU (h.indep hA), kernelProject_real hLU hA]
  rcases Nat.eq_zero_or_pos n with rfl | hn
  · exact funext fun i => i.elim0
  have ha : 0 < a := h.pos ⟨0, hn⟩
  have e : A' = (a⁻¹ • M) * A := by
    rw [Matrix.smul_mul, ← h.eq]
    funext i j
    rw [Matrix.smul_apply, Matrix.mul_diagonal, smul_eq_mul]
    field_simp
  have hu : IsUnit (a⁻¹ • M).det := by
    rw [Matrix.det_smul]
    exact isUnit_iff_ne_zero.2 (mul_ne_zero (pow_ne_zero _ (inv_ne_zero ha.ne')) h.det)
  rw [e, projKer_mul hu]

theorem sparseBall_rel {a : ℝ} (ha : 0 < a) (h : Recombined M (fun _ => a) A A') (hA : IndepRows A) (hv : TailZero k v) {E : Eigen ℝ} (hLU : E.SparseLUExact)
    (R : ℝ) (r : Rng ℝ) (s s' : (Fin n → ℝ) × r.G) (hs : PRel (fun x j => a * x j + v j) s s') :
    Out.Rel (PRel fun x j => a * x j + v j) (SparseBallWalk.step R E r A k s) (SparseBallWalk.step (a * R) E r A' k s') := by
  obtain ⟨x, g⟩ := s
  obtain ⟨x', g'⟩ := s'
  obtain ⟨h1, h2⟩ := hs
  simp only at h1 h2
  subst h1 h2
  unfold SparseBallWalk.step
  simp only [h.kernelProject hA hLU]
  generalize normalize (PW.kernelProject E A (r.gaussian n g').1) = z
  have e : (fun i => a * R / Scalar.sqrt (Scalar.ofInt ((n : Int) - m) : ℝ) * z i + (a * x i + v i)) =
      fun i => a * (R / Scalar.sqrt (Scalar.ofInt ((n : Int) - m) : ℝ) * z i + x i) + v i := by
    funext i; ring
  simp only [e]
  rw [units_inside (δ := fun _ => a) (fun _ => ha) hv fun i => R / Scalar.sqrt (Scalar.ofInt ((n : Int) - m) : ℝ) * z i + x i]
  refine Out.Rel.bind (Out.Rel.refl (R := fun a b => b = a) (fun _ => rfl) _) ?_
  intro cc cc' hcc
  subst hcc
  split
  · exact .ok ⟨rfl, rfl⟩
  · exact .ok ⟨rfl, rfl⟩

theorem sparseExpand_affine {inside inside' : (Fin n → ℝ) → Out Bool} {a : ℝ} (ha : 0 < a) {v : Fin n → ℝ}
    (hin : ∀ x, inside' (fun j => a * x j + v j) = inside x) (dir x : Fin n → ℝ) (iters : ℕ) :
    ∀ f : Fin n → ℝ, Out.Rel (fun p q => q = p.map fun p j => a * p j + v j) (SparseHitRun.expand inside dir x iters f)
      (SparseHitRun.expand inside' dir (fun j => a * x j + v j) iters fun j => a * f j + v j) := by
  induction iters with
  | zero => exact fun _ => .ok rfl
  | succ fuel ih =>
    intro f
    rw [SparseHitRun.expand, SparseHitRun.expand]
    have e : (fun i => a * x i + v i + two * distance (fun j => a * x j + v j) (fun j => a * f j + v j) * dir i) =
        fun i => a * (x i + two * distance x f * dir i) + v i := by
      funext i; rw [distance_affine ha]; ring
    simp only [e]
    rw [hin fun i => x i + two * distance x f * dir i]
    refine Out.Rel.bind (Out.Rel.refl (R := fun a b => b = a) (fun _ => rfl) _) ?_
    intro cc cc' hcc
    subst hcc
    split
    · exact .ok rfl
    · exact ih _

theorem sparseSearch_affine {a : ℝ} (ha : 0 < a) (hv : TailZero k v) (R ERR : ℝ) (fuel : ℕ) (dir x : Fin n → ℝ) :
    SparseHitRun.binarySearch (a * R) (a * ERR) fuel k dir (fun j => a * x j + v j) = (SparseHitRun.binarySearch R ERR fuel k dir x).map fun t => a * t := by
  unfold SparseHitRun.binarySearch
  have e0 : (fun i => a * x i + v i + a * R * dir i) = fun i => a * (x i + R * dir i) + v i := by funext i; ring
  have hin := units_inside (n := n) (k := k) (δ := fun _ => a) (v := v) (fun _ => ha) hv
  refine Out.Rel.eq_map ?_
  refine Out.Rel.bind (R := fun p q => q = p.map fun p j => a * p j + v j) ?_ ?_
  · rw [e0]; exact sparseExpand_affine ha hin dir x SparseHitRun.maxIter _
  · intro p q hpq
    subst hpq
    cases p with
    | none => exact .ok (mul_zero a).symm
    | some p =>
      have e : (fun i => (a * x i + v i + (a * p i + v i)) / two) = fun i => a * ((x i + p i) / two) + v i := by
        funext i; rw [two_real]; ring
      show Out.Rel _ _ ((HitRun.bisect _ _ _ _ _ fun i => (a * x i + v i + (a * p i + v i)) / two).bind _)
      rw [e]
      refine Out.Rel.bind (bisect_affine ha hin ERR fuel _ _ _) ?_
      intro y z hyz
      subst hyz
      exact .ok (distance_affine ha v y x)

theorem sparseHitRun_rel {a : ℝ} (ha : 0 < a) (h : Recombined M (fun _ => a) A A') (hA : IndepRows A) (hv : TailZero k v) {E : Eigen ℝ} (hLU : E.SparseLUExact)
    (R ERR : ℝ) (fuel : ℕ) (r : Rng ℝ) (s s' : (Fin n → ℝ) × r.G) (hs : PRel (fun x j => a * x j + v j) s s') :
    Out.Rel (PRel fun x j => a * x j + v j) (SparseHitRun.step R ERR fuel E r A k s) (SparseHitRun.step (a * R) (a * ERR) fuel E r A' k s') := by
  obtain ⟨x, g⟩ := s
  obtain ⟨x', g'⟩ := s'
  obtain ⟨h1, h2⟩ := hs
  simp only at h1 h2
  subst h1 h2
  unfold SparseHitRun.step
  simp only [h.kernelProject hA hLU, sparseSearch_affine ha hv]
  rw [Out.bind_map]
  refine Out.Rel.bind (Out.Rel.refl (R := fun a b => b = a) (fun _ => rfl) _) ?_
  intro p p' hp
  subst hp
  rw [Out.bind_map]
  refine Out.Rel.bind (Out.Rel.refl (R := fun a b => b = a) (fun _ => rfl) _) ?_
  intro q q' hq
  subst hq
  refine .ok ⟨?_, rfl⟩
  funext i
  simp only
  ring

end PW

import Verif.Lemmas.Takahashi
import Verif.Lemmas.ContractsSat
import Verif.Props.DenseWeights
import Verif.Props.SparsePolytope

/-!
# C28–C31: leverage scores and weights of the sparse barrier walks
-/

namespace PW
open Classical Matrix
variable {m n : ℕ}

/-! ## Properties of `colev` -/

theorem IndepRows.transpose {M : Matrix (Fin m) (Fin n) ℝ} (h : IndepRows M) : IndepCols Mᵀ := by
  intro y hy
  exact h y (by rw [← Matrix.mulVec_transpose]; exact hy)

theorem colev_eq (M : Matrix (Fin m) (Fin n) ℝ) (i : Fin n) : colev M i = 1 - lev Mᵀ i := by
  unfold colev lev
  congr 1
  rw [Matrix.transpose_transpose, Matrix.mul_assoc, Matrix.mul_apply]
  refine Finset.sum_congr rfl fun r _ => ?_
  rw [Matrix.transpose_apply]
  rfl

theorem colev_nonneg {M : Matrix (Fin m) (Fin n) ℝ} (h : IndepRows M) (i : Fin n) : 0 ≤ colev M i := by
  rw [colev_eq]; linarith [lev_le_one _ h.transpose i]

theorem colev_le_one {M : Matrix (Fin m) (Fin n) ℝ} (h : IndepRows M) (i : Fin n) : colev M i ≤ 1 := by
  rw [colev_eq]; linarith [lev_nonneg _ h.transpose i]

theorem colev_sum {M : Matrix (Fin m) (Fin n) ℝ} (h : IndepRows M) : ∑ i, colev M i = n - m := by
  simp only [colev_eq, Finset.sum_sub_distrib, lev_sum _ h.transpose]
  simp

theorem colScaled_indep {A : Matrix (Fin m) (Fin n) ℝ} (hA : IndepRows A) {g : Fin n → ℝ}
    (hg : ∀ i, g i ≠ 0) : IndepRows (colScaled A g) := by
  have : colScaled A g = scaleCols A fun i => (g i)⁻¹ := by
    funext r i; simp [colScaled, scaleCols, div_eq_mul_inv]
  rw [this]
  exact hA.scaleCols fun i => inv_ne_zero (hg i)

/-! ## The leverage score routine -/

/-- **C28**: `LeverageScore::generate` returns exactly `1 - aᵢᵀ (A G⁻¹ Aᵀ)⁻¹ aᵢ` on the last `k` coordinates
and `0` on the others. `g` is the square root of the diagonal of `G`: `ERR` on the free coordinates, the given
weight divided by the coordinate on the last `k`. -/
theorem C28_leverage (E : Eigen ℝ) (hE : E.LdltExact) (junk : Fin n → ℝ) (A : Matrix (Fin m) (Fin n) ℝ)
    (hA : IndepRows A) (W : Fin n → Option ℝ) (x : Fin n → ℝ) (ERR : ℝ) (k : ℕ) (g : Fin n → ℝ)
    (hg : ∀ i, g i ≠ 0) (hhead : ∀ i : Fin n, i.val < n - k → g i = ERR)
    (htail : ∀ i : Fin n, n - k ≤ i.val → ∃ w, W i = some w ∧ g i = w / x i) (i : Fin n) :
    leverageScore E junk A W x ERR k i = if n - k ≤ i.val then colev (colScaled A g) i else 0 := by
  have hgs : levGSqrt junk W x ERR k = g := by
    funext i
    simp only [levGSqrt]
    by_cases ht : n - k ≤ i.val
    · obtain ⟨w, h1, h2⟩ := htail i ht
      rw [if_pos ((isTail_iff i).2 ht), h1, if_pos ((isTail_iff i).2 ht), h2]
      ring
    · rw [if_neg (by rw [isTail_iff]; exact ht)]
      exact (hhead i (by omega)).symm
  have hAG : (fun r i => A r i * (1 / g i) : Matrix (Fin m) (Fin n) ℝ) = colScaled A g := by
    funext r i; simp [colScaled, div_eq_mul_inv]
  unfold leverageScore
  simp only
  rw [hgs, hAG]
  by_cases ht : n - k ≤ i.val
  swap
  · rw [if_neg (by rw [isTail_iff]; exact ht), if_neg ht]
  rw [if_pos ((isTail_iff i).2 ht), if_pos ht]
  set M := colScaled A g with hM
  have hI := colScaled_indep hA hg
  rw [← hM] at hI
  rw [vsum_real, mulMat_real, transp_eq]
  have hf := hE (M * Mᵀ) (productPattern A) hI.posDef (by
    intro r s hrs
    unfold productPattern
    rw [List.any_eq_true]
    rw [Matrix.mul_apply] at hrs
    obtain ⟨j, _, hj⟩ := Finset.exists_ne_zero_of_sum_ne_zero hrs
    refine ⟨j, List.mem_finRange j, ?_⟩
    have h1 : M r j ≠ 0 := left_ne_zero_of_mul hj
    have h2 : M s j ≠ 0 := by
      have := right_ne_zero_of_mul hj
      rwa [Matrix.transpose_apply] at this
    have h3 : A r j ≠ 0 := fun h => h1 (by simp [hM, colScaled, h])
    have h4 : A s j ≠ 0 := fun h => h2 (by simp [hM, colScaled, h])
    simp [h3, h4])
  set f := E.ldlt (M * Mᵀ) (productPattern A) with hfd
  refine congrArg (1 - ·) (Finset.sum_congr rfl fun r _ => ?_)
  have hp : A r i * (1 / g i) = M r i := congrFun (congrFun hAG r) i
  have hq : mulMat (lowerSym (sparseInverse f)) M r i = ∑ s, lowerSym (sparseInverse f) r s * M s i :=
    (congrFun (congrFun (mulMat_real _ _) r) i).trans Matrix.mul_apply
  refine (congr_arg₂ (· * ·) hp hq).trans ?_
  show M r i * _ = M r i * ∑ s, (M * Mᵀ)⁻¹ r s * M s i
  by_cases hr : M r i = 0
  · rw [hr, zero_mul, zero_mul]
  congr 1
  refine Finset.sum_congr rfl fun s _ => ?_
  by_cases hs : M s i = 0
  · rw [hs, mul_zero, mul_zero]
  congr 1
  have hpat : ∀ r s : Fin m, M r i ≠ 0 → M s i ≠ 0 → s ≤ r → f.pat r s = true := by
    intro r s hr hs hsr
    refine hf.pat_sup r s hsr ?_
    unfold productPattern
    rw [List.any_eq_true]
    have h3 : A r i ≠ 0 := fun h => hr (by simp [hM, colScaled, h])
    have h4 : A s i ≠ 0 := fun h => hs (by simp [hM, colScaled, h])
    exact ⟨i, List.mem_finRange i, by simp [h3, h4]⟩
  have hsym : (M * Mᵀ)⁻¹ r s = (M * Mᵀ)⁻¹ s r := by
    have : ((M * Mᵀ)⁻¹)ᵀ = (M * Mᵀ)⁻¹ := by
      rw [Matrix.transpose_nonsing_inv, Matrix.transpose_mul, Matrix.transpose_transpose]
    exact (congrFun (congrFun this r) s).symm
  unfold lowerSym
  split
  · rename_i hsr
    exact sparseInverse_eq hf (hpat r s hr hs hsr)
  · rename_i hsr
    rw [hsym]
    exact sparseInverse_eq hf (hpat s r hs hr (by omega))

/-! ## Vaidya -/

/-- `1/x` on the last `k` coordinates, `ERR` on the others: the slack scaling of the sparse walks. -/
noncomputable def slackScale (ERR : ℝ) (k : ℕ) (w : Fin n → ℝ) (x : Fin n → ℝ) : Fin n → ℝ :=
  fun i => if n - k ≤ i.val then w i / x i else ERR

theorem slackScale_ne {ERR : ℝ} (hE : ERR ≠ 0) {k : ℕ} {w x : Fin n → ℝ}
    (hw : ∀ i : Fin n, n - k ≤ i.val → w i ≠ 0) (hx : x ∈ TailPos n k) (i : Fin n) :
    slackScale ERR k w x i ≠ 0 := by
  unfold slackScale
  split
  · rename_i h
    exact div_ne_zero (hw i h) (hx i h).ne'
  · exact hE

/-- **C29**: sparse Vaidya weights: `0` on the free coordinates, leverage score plus `d/k` on the last `k`,
hence in `[d/k, 1 + d/k]`; for `k = cols` they sum to `2d`, `d = cols - rows`. -/
theorem C29_vaidya (E : Eigen ℝ) (hE : E.LdltExact) (ERR R : ℝ) (hR : ERR ≠ 0) (o : BState ℝ)
    (junk x : Fin n → ℝ) (A : Matrix (Fin m) (Fin n) ℝ) (hA : IndepRows A) (k : ℕ) (hk : 1 ≤ k) (hkn : k ≤ n)
    (hx : x ∈ TailPos n k) :
    ∃ w : Fin n → ℝ, (sparseVaidyaClass E ERR R).generateWeight junk o x A k = .ok (⟨n, w⟩, o) ∧
      (∀ i : Fin n, i.val < n - k → w i = 0) ∧
      (∀ i : Fin n, n - k ≤ i.val →
        w i = colev (colScaled A (slackScale ERR k (fun _ => 1) x)) i + ((n : ℝ) - m) / k ∧
        ((n : ℝ) - m) / k ≤ w i ∧ w i ≤ 1 + ((n : ℝ) - m) / k) ∧
      (k = n → ∑ i, w i = 2 * ((n : ℝ) - m)) := by
  have hg := slackScale_ne hR (w := fun _ => 1) (fun _ _ => one_ne_zero) hx
  have hI := colScaled_indep hA hg
  have hl := C28_leverage E hE junk A hA (fun i => if isTail k i then some 1 else none) x ERR k
    (slackScale ERR k (fun _ => 1) x) hg
    (fun i h => by unfold slackScale; rw [if_neg (by omega)])
    (fun i h => ⟨1, by simp [(isTail_iff i).2 h], by unfold slackScale; rw [if_pos h]⟩)
  set w := sparseVaidyaWeight E ERR junk x A k with hw
  have hwt : ∀ i : Fin n, n - k ≤ i.val →
      w i = colev (colScaled A (slackScale ERR k (fun _ => 1) x)) i + ((n : ℝ) - m) / k := by
    intro i hi
    rw [hw]
    simp only [sparseVaidyaWeight]
    rw [if_pos ((isTail_iff i).2 hi), hl i, if_pos hi]
    simp
  refine ⟨w, rfl, ?_, ?_, ?_⟩
  · intro i hi
    rw [hw]
    simp only [sparseVaidyaWeight]
    rw [if_neg (by rw [isTail_iff]; omega), hl i, if_neg (by omega)]
  · intro i hi
    refine ⟨hwt i hi, ?_, ?_⟩ <;> rw [hwt i hi]
    · linarith [colev_nonneg hI i]
    · linarith [colev_le_one hI i]
  · rintro rfl
    have : ∀ i, w i = colev (colScaled A (slackScale ERR k (fun _ => 1) x)) i + ((k : ℝ) - m) / k :=
      fun i => hwt i (by omega)
    simp only [this, Finset.sum_add_distrib, colev_sum hI, Finset.sum_const, Finset.card_univ,
      Fintype.card_fin, nsmul_eq_mul]
    have : (k : ℝ) ≠ 0 := by positivity
    field_simp; ring

/-! ## John -/

/-- The John fixed point map on the last `k` coordinates, `0` on the others. -/
noncomputable def sparseJohnMap (α β ERR : ℝ) (A : Matrix (Fin m) (Fin n) ℝ) (k : ℕ) (x w : Fin n → ℝ) :
    Fin n → ℝ :=
  fun i => if n - k ≤ i.val then
    (w i + colev (colScaled A (slackScale ERR k (fun i => w i ^ (α / 2)) x)) i + β) / 2 else 0

theorem sparseScore_real {E : Eigen ℝ} (hE : E.LdltExact) {ERR : ℝ} (hR : ERR ≠ 0) (junk : Fin n → ℝ)
    {A : Matrix (Fin m) (Fin n) ℝ} (hA : IndepRows A) {k : ℕ} {x : Fin n → ℝ} (hx : x ∈ TailPos n k)
    (α : ℝ) {w : Fin n → ℝ} (hw : w ∈ TailPos n k) :
    IndepRows (colScaled A (slackScale ERR k (fun i => w i ^ (α / 2)) x)) ∧
    ∀ i, leverageScore E junk A (powDiag α w k) x ERR k i = if n - k ≤ i.val then
      colev (colScaled A (slackScale ERR k (fun i => w i ^ (α / 2)) x)) i else 0 := by
  have hg := slackScale_ne hR (w := fun i => w i ^ (α / 2))
    (fun i hi => (Real.rpow_pos_of_pos (hw i hi) _).ne') hx
  refine ⟨colScaled_indep hA hg, C28_leverage E hE junk A hA _ x ERR k _ hg
    (fun i h => by unfold slackScale; rw [if_neg (by omega)])
    (fun i h => ⟨w i ^ (α / 2), ?_, by unfold slackScale; rw [if_pos h]⟩)⟩
  unfold powDiag
  rw [if_pos ((isTail_iff i).2 h), rsc_pow, half_real]
  congr 2; ring

/-- Bounds kept by the sparse John update. -/
structure SparseJohnInv (β : ℝ) (k : ℕ) (w : Fin n → ℝ) : Prop where
  head : ∀ i : Fin n, i.val < n - k → w i = 0
  lower : ∀ i : Fin n, n - k ≤ i.val → β < w i
  upper : ∀ i : Fin n, n - k ≤ i.val → w i ≤ 1 + β

theorem SparseJohnInv.pos {β : ℝ} (hβ : 0 ≤ β) {k : ℕ} {w : Fin n → ℝ} (h : SparseJohnInv β k w) :
    w ∈ TailPos n k := fun i hi => hβ.trans_lt (h.lower i hi)

/-- `α = 1 - 1/log2(2k/d)`: the exponent the sparse John walk uses. -/
noncomputable def sparseJohnExponent (d k : ℝ) : ℝ := 1 - 1 / Real.logb 2 (2 * k / d)

theorem sparseJohnNext_real {E : Eigen ℝ} (hE : E.LdltExact) {ERR : ℝ} (hR : ERR ≠ 0) (junk : Fin n → ℝ)
    {A : Matrix (Fin m) (Fin n) ℝ} (hA : IndepRows A) {k : ℕ} {x : Fin n → ℝ} (hx : x ∈ TailPos n k)
    {β : ℝ} (hβ : 0 ≤ β) (hβe : ((n : ℝ) - m) / (2 * k) = β) {w : Fin n → ℝ} (hw : SparseJohnInv β k w) :
    sparseJohnNext E ERR junk x A k w =
      sparseJohnMap (sparseJohnExponent ((n : ℝ) - m) k) β ERR A k x w := by
  obtain ⟨hI, hs⟩ := sparseScore_real hE hR junk hA hx (sparseJohnExponent ((n : ℝ) - m) k) (hw.pos hβ)
  have hal : sparseJohnAlpha (F := ℝ) ((n : Int) - m) k = sparseJohnExponent ((n : ℝ) - m) k := by
    simp [sparseJohnAlpha, sparseJohnExponent]
  have hbe : sparseJohnBeta (F := ℝ) ((n : Int) - m) k = β := by
    simp [sparseJohnBeta, ← hβe]
  funext i
  simp only [sparseJohnNext, sparseJohnMap]
  rw [hal, hbe, hs i, cmax_real, half_real]
  by_cases hi : n - k ≤ i.val
  · simp only [zeroHead, if_pos hi, if_pos ((isTail_iff i).2 hi)]
    rw [max_eq_left]
    · ring
    · have := colev_nonneg hI i
      have := hw.lower i hi
      linarith
  · have hi' : ¬ isTail k i = true := by rw [isTail_iff]; exact hi
    simp only [zeroHead, if_neg hi, if_neg hi', hw.head i (by omega)]
    simp

theorem SparseJohnInv.map {A : Matrix (Fin m) (Fin n) ℝ} (hA : IndepRows A) {α β ERR : ℝ} (hR : ERR ≠ 0)
    (hβ : 0 ≤ β) {k : ℕ} {x w : Fin n → ℝ} (hx : x ∈ TailPos n k) (h : SparseJohnInv β k w) :
    SparseJohnInv β k (sparseJohnMap α β ERR A k x w) := by
  have hI := colScaled_indep hA (slackScale_ne hR (w := fun i => w i ^ (α / 2))
    (fun i hi => (Real.rpow_pos_of_pos (h.pos hβ i hi) _).ne') hx)
  constructor <;> intro i hi
  · simp only [sparseJohnMap]; rw [if_neg (by omega)]
  · simp only [sparseJohnMap]; rw [if_pos hi]
    have := h.lower i hi; have := colev_nonneg hI i; linarith
  · simp only [sparseJohnMap]; rw [if_pos hi]
    have := h.upper i hi; have := colev_le_one hI i; linarith

theorem sparseJohn_sum_iter {A : Matrix (Fin m) (Fin n) ℝ} (hA : IndepRows A) {α β ERR : ℝ} (hR : ERR ≠ 0)
    (hβ : 0 ≤ β) (hn : 0 < n) (hβe : ((n : ℝ) - m) / (2 * n) = β) {x : Fin n → ℝ} (hx : x ∈ TailPos n n)
    (t : ℕ) (w0 : Fin n → ℝ) (h0 : SparseJohnInv β n w0) :
    SparseJohnInv β n ((sparseJohnMap α β ERR A n x)^[t] w0) ∧
    ∑ i, (sparseJohnMap α β ERR A n x)^[t] w0 i =
      3 * ((n : ℝ) - m) / 2 + (∑ i, w0 i - 3 * ((n : ℝ) - m) / 2) / 2 ^ t := by
  induction t with
  | zero => simpa using h0
  | succ t ih =>
    obtain ⟨h1, h2⟩ := ih
    rw [Function.iterate_succ_apply']
    refine ⟨h1.map hA hR hβ hx, ?_⟩
    set w := (sparseJohnMap α β ERR A n x)^[t] w0
    have hI := colScaled_indep hA (slackScale_ne hR (w := fun i => w i ^ (α / 2))
      (fun i hi => (Real.rpow_pos_of_pos (h1.pos hβ i hi) _).ne') hx)
    have e : ∑ i, sparseJohnMap α β ERR A n x w i = (∑ i, w i + ((n : ℝ) - m) + n * β) / 2 := by
      have : ∀ i : Fin n, sparseJohnMap α β ERR A n x w i =
          (w i + colev (colScaled A (slackScale ERR n (fun i => w i ^ (α / 2)) x)) i + β) / 2 := by
        intro i; simp only [sparseJohnMap]; rw [if_pos (by omega)]
      simp only [this, ← Finset.sum_div, Finset.sum_add_distrib, colev_sum hI]
      simp
    rw [e, h2, pow_succ]
    have h3 : (n : ℝ) * β = (n - m) / 2 := by
      rw [← hβe]; have : (n : ℝ) ≠ 0 := by positivity
      field_simp
    rw [h3]
    field_simp
    ring

/-- An object after `setDistTerm` starts from all ones, if the polytope has positive dimension. -/
theorem startsAtOnes_ones' {d : ℕ} (hd : 0 < d) (n : ℕ) : StartsAtOnes (ones d) n := by
  by_cases h : d = n
  · subst h; exact startsAtOnes_ones d hd
  · exact .unset (w := ones d) hd (Or.inl h)

/-- **C30**: sparse John weights when the iteration starts from all ones. -/
theorem C30_john (E : Eigen ℝ) (hE : E.LdltExact) (ERR R LIM : ℝ) (hR : ERR ≠ 0) (M : Int) (hM : 1 ≤ M)
    (o : BState ℝ) (ho : StartsAtOnes o.w n) (junk x : Fin n → ℝ) (A : Matrix (Fin m) (Fin n) ℝ)
    (hA : IndepRows A) (k : ℕ) (hk : 1 ≤ k) (hkn : k ≤ n) (hd : n - m ≤ k) (hx : x ∈ TailPos n k) :
    ∃ (w : Fin n → ℝ) (t : ℕ) (conv : Bool),
      (sparseJohnClass E ERR R LIM M).generateWeight junk o x A k =
        .ok (⟨n, w⟩, { o with w := ⟨n, w⟩ }) ∧
      sparseJohnWeightConv E ERR LIM M o.w junk x A k = .ok (w, conv) ∧
      (t : Int) < M ∧ (conv = false → (t : Int) + 1 = M) ∧
      (∀ i : Fin n, i.val < n - k → w i = 0) ∧
      (∀ i : Fin n, n - k ≤ i.val →
        ((n : ℝ) - m) / (2 * k) < w i ∧ w i ≤ 1 + ((n : ℝ) - m) / (2 * k)) ∧
      (k = n → ∑ i, w i = 3 * ((n : ℝ) - m) / 2 + (n - 3 * ((n : ℝ) - m) / 2) / 2 ^ t) ∧
      (conv = true → ∀ i : Fin n, n - k ≤ i.val →
        |w i - (colev (colScaled A (slackScale ERR k
          (fun i => w i ^ (sparseJohnExponent ((n : ℝ) - m) k / 2)) x)) i + ((n : ℝ) - m) / (2 * k))| <
            2 * LIM) := by
  have hmn : m ≤ n := hA.transpose.le
  have hmn' : (m : ℝ) ≤ n := by exact_mod_cast hmn
  have hk0 : (0 : ℝ) < k := by exact_mod_cast hk
  obtain ⟨β, hβe⟩ : ∃ β, ((n : ℝ) - m) / (2 * k) = β := ⟨_, rfl⟩
  have hβ : 0 ≤ β := by rw [← hβe]; exact div_nonneg (by linarith) (by linarith)
  have hβ2 : β ≤ 1 / 2 := by
    have : (n : ℝ) - m ≤ k := by
      have : ((n - m : ℕ) : ℝ) ≤ k := by exact_mod_cast hd
      rwa [Nat.cast_sub hmn] at this
    rw [← hβe, div_le_div_iff₀ (by positivity) (by norm_num)]; linarith
  have h1 : SparseJohnInv β k (zeroHead (fun _ : Fin n => (1 : ℝ)) k) := by
    constructor <;> intro i hi
    · simp only [zeroHead]; rw [if_neg (by rw [isTail_iff]; omega)]
    · simp only [zeroHead]; rw [if_pos ((isTail_iff i).2 hi)]; linarith
    · simp only [zeroHead]; rw [if_pos ((isTail_iff i).2 hi)]; linarith
  have hconv : ∃ wc, sparseJohnWeightConv E ERR LIM M o.w junk x A k = .ok wc := by
    unfold sparseJohnWeightConv
    rw [warmStart_iff.2 ho, Out.ok_bind]
    have : ∀ (N : ℕ) (w0 w1 : Fin n → ℝ), ∃ wc, johnLoop (sparseJohnNext E ERR junk x A k)
        (fun nw w i => Scalar.abs (w i - nw i)) LIM N w0 w1 = .ok wc := by
      intro N
      induction N with
      | zero => exact fun w0 _ => ⟨_, rfl⟩
      | succ N ih =>
        intro w0 w1
        obtain ⟨c, hc, _⟩ := maxCoeff_real
          (fun i => Scalar.abs (w1 i - sparseJohnNext E ERR junk x A k w1 i)) (by omega : 0 < n)
        simp only [johnLoop]
        rw [hc, Out.ok_bind]
        split
        · exact ⟨_, rfl⟩
        · exact ih _ _
    exact this _ _ _
  obtain ⟨⟨w, c⟩, hwc⟩ := hconv
  have hwc' := hwc
  unfold sparseJohnWeightConv at hwc'
  rw [warmStart_iff.2 ho, Out.ok_bind] at hwc'
  rcases johnLoop_iterate (I := SparseJohnInv β k)
    (spec := sparseJohnMap (sparseJohnExponent ((n : ℝ) - m) k) β ERR A k x)
    (fun w hw => sparseJohnNext_real hE hR junk hA hx hβ hβe hw)
    (fun w hw => hw.map hA hR hβ hx) (fun u v i => abs_sub_comm _ _) _ _ _ _ _ h1 h1 hwc' with
    ⟨h0, _⟩ | ⟨t, ht, hw, hI, hc, hc'⟩
  · omega
  · refine ⟨w, t, c, ?_, hwc, by omega, fun h => by have := hc' h; omega, hI.head,
      fun i hi => hβe ▸ ⟨hI.lower i hi, hI.upper i hi⟩, ?_, ?_⟩
    · show (sparseJohnWeightConv E ERR LIM M o.w junk x A k).map _ = _
      rw [hwc]; rfl
    · rintro rfl
      have hs := (sparseJohn_sum_iter hA (α := sparseJohnExponent ((k : ℝ) - m) k) hR hβ (by omega) hβe hx
        t _ h1).2
      rw [← hw] at hs
      rw [hs]
      congr 3
      have : ∀ i : Fin k, zeroHead (fun _ : Fin k => (1 : ℝ)) k i = 1 := by
        intro i; simp only [zeroHead]; rw [if_pos ((isTail_iff i).2 (by omega))]
      simp [this]
    · intro hct i hi
      have := hc hct i
      simp only [sparseJohnMap] at this
      rw [if_pos hi] at this
      rw [hβe]
      rw [abs_lt] at this ⊢
      constructor <;> linarith [this.1, this.2]

/-! ## Lee-Sidford -/

/-- **C31**: sparse Lee-Sidford weights; `w0` is where the iteration starts (all ones on a fresh object). -/
theorem C31_leeSidford (E : Eigen ℝ) (hE : E.LdltExact) (ERR R GLIM STEP : ℝ) (hR : 0 < ERR) (M : Int)
    (k : ℕ) (o : BState ℝ) (w0 : Fin n → ℝ) (ho : StartsFrom o.w n w0) (h0 : w0 ∈ TailPos n k)
    (junk x : Fin n → ℝ) (A : Matrix (Fin m) (Fin n) ℝ) (hA : IndepRows A) (hx : x ∈ TailPos n k) :
    ∃ (w : Fin n → ℝ) (conv : Bool),
      (sparseDikinLSClass E ERR R GLIM STEP M).generateWeight junk o x A k =
        .ok (⟨n, w⟩, { o with w := ⟨n, w⟩ }) ∧
      sparseLSWeightConv E ERR GLIM STEP M o.w junk x A k = .ok (w, conv) ∧
      (∀ i : Fin n, i.val < n - k → w i = 0) ∧
      (∀ i : Fin n, n - k ≤ i.val → min ERR (w0 i) ≤ w i) ∧
      (conv = true → 2 ≤ k → ∀ i : Fin n, n - k ≤ i.val →
        |w i - colev (colScaled A (slackScale ERR k (fun i => w i ^ (lsExponent k / 2)) x)) i| <
          w i * GLIM / lsExponent k) := by
  let I : (Fin n → ℝ) → Prop := fun w => (∀ i : Fin n, i.val < n - k → w i = 0) ∧
    ∀ i : Fin n, n - k ≤ i.val → min ERR (w0 i) ≤ w i
  have hgrad0 : ∀ w (i : Fin n), i.val < n - k → sparseLSGrad E ERR junk x A k w i = 0 := by
    intro w i hi
    have hi' : ¬ isTail k i = true := by rw [isTail_iff]; omega
    simp only [sparseLSGrad, zeroHead, if_neg hi']
    simp
  have hstep : ∀ w, I w → I (sparseLSUpdate ERR STEP k w (sparseLSGrad E ERR junk x A k w)) := by
    intro w hw
    refine ⟨fun i hi => ?_, fun i hi => ?_⟩
    · have hi' : ¬ isTail k i = true := by rw [isTail_iff]; omega
      simp only [sparseLSUpdate, if_neg hi', hgrad0 w i hi, hw.1 i hi]
      simp
    · simp only [sparseLSUpdate, if_pos ((isTail_iff i).2 hi)]
      rw [cmax_real]
      exact (min_le_left _ _).trans (le_max_right _ _)
  have hstart : I (zeroHead w0 k) := by
    refine ⟨fun i hi => ?_, fun i hi => ?_⟩
    · simp only [zeroHead]; rw [if_neg (by rw [isTail_iff]; omega)]
    · simp only [zeroHead]; rw [if_pos ((isTail_iff i).2 hi)]; exact min_le_right _ _
  have hspec : ∃ w conv, sparseLSWeightConv E ERR GLIM STEP M o.w junk x A k = .ok (w, conv) ∧ I w ∧
      (conv = true → norm2 (sparseLSGrad E ERR junk x A k w) < GLIM) := by
    unfold sparseLSWeightConv
    rw [warmStart_iff.2 ho, Out.ok_bind]
    have := lsLoop_spec (I := I) (grad := sparseLSGrad E ERR junk x A k)
      (upd := sparseLSUpdate ERR STEP k) (GLIM := GLIM) hstep M.toNat (zeroHead w0 k) hstart
    exact ⟨_, _, rfl, this.1, this.2⟩
  obtain ⟨w, conv, h1, h2, h3⟩ := hspec
  have hw : w ∈ TailPos n k := fun i hi => lt_of_lt_of_le (lt_min hR (h0 i hi)) (h2.2 i hi)
  refine ⟨w, conv, ?_, h1, h2.1, h2.2, ?_⟩
  · show (sparseLSWeightConv E ERR GLIM STEP M o.w junk x A k).map _ = _
    rw [h1]; rfl
  · intro hc hk i hi
    have hα := lsExponent_pos hk
    have hs := (sparseScore_real hE hR.ne' junk hA hx (lsExponent k) hw).2 i
    rw [if_pos hi] at hs
    have hgi := abs_lt_of_norm2_lt (h3 hc) i
    simp only [sparseLSGrad, zeroHead, if_pos ((isTail_iff i).2 hi), lsAlpha_real] at hgi
    rw [hs] at hgi
    have hwi := hw i hi
    set l := colev (colScaled A (slackScale ERR k (fun i => w i ^ (lsExponent k / 2)) x)) i
    have e : w i - l = w i / lsExponent k * (lsExponent k * 1 - lsExponent k / w i * l) := by
      field_simp
    rw [e, abs_mul, abs_of_pos (div_pos hwi hα)]
    calc w i / lsExponent k * _ < w i / lsExponent k * GLIM :=
          mul_lt_mul_of_pos_left hgi (div_pos hwi hα)
      _ = _ := by ring

/-! ## The metric of the library's sparse barrier walks -/

/-- The four weighted sparse barrier walks. -/
inductive IsSparseWeighted (E : Eigen ℝ) (ERR : ℝ) : SparseBarrierClass ℝ (BState ℝ) → Prop
  | dikin (R) : IsSparseWeighted E ERR (sparseDikinClass R)
  | vaidya (R) : IsSparseWeighted E ERR (sparseVaidyaClass E ERR R)
  | john (R LIM M) : IsSparseWeighted E ERR (sparseJohnClass E ERR R LIM M)
  | leeSidford (R GLIM STEP M) : IsSparseWeighted E ERR (sparseDikinLSClass E ERR R GLIM STEP M)

/-- The stored weights an object can hold: not yet set, or positive on the last `k` coordinates. -/
def GoodStartK (w : DVec ℝ) (n k : ℕ) : Prop := ∀ w0, StartsFrom w n w0 → w0 ∈ TailPos n k

theorem goodStartK_of {w : Fin n → ℝ} {k : ℕ} (h : w ∈ TailPos n k) : GoodStartK ⟨n, w⟩ n k := by
  intro w0 hw0
  have hw0 := warmStart_iff.2 hw0
  unfold warmStart at hw0
  split at hw0
  · rw [dif_pos rfl] at hw0
    split at hw0
    · cases hw0; exact fun _ _ => one_pos
    · cases hw0; exact h
  · cases hw0

theorem goodStartK_ones {d : ℕ} (hd : 0 < d) (n k : ℕ) : GoodStartK (ones d) n k := by
  intro w0 hw0
  have hw0 := warmStart_iff.2 hw0
  rw [warmStart_iff.2 (startsAtOnes_ones' hd n)] at hw0
  cases hw0
  exact fun _ _ => one_pos

/-- Head zero, tail positive. -/
def TailOnly (k : ℕ) (w : Fin n → ℝ) : Prop := (∀ i : Fin n, i.val < n - k → w i = 0) ∧ w ∈ TailPos n k

theorem tailOnly_zeroHead {k : ℕ} {w0 : Fin n → ℝ} (h : w0 ∈ TailPos n k) : TailOnly k (zeroHead w0 k) := by
  refine ⟨fun i hi => ?_, fun i hi => ?_⟩
  · simp only [zeroHead]; rw [if_neg (by rw [isTail_iff]; omega)]
  · simp only [zeroHead]; rw [if_pos ((isTail_iff i).2 hi)]; exact h i hi

theorem sparseJohnWeight_tailOnly {E : Eigen ℝ} {ERR LIM : ℝ} {M : Int} {w : DVec ℝ} {junk x : Fin n → ℝ}
    {A : Matrix (Fin m) (Fin n) ℝ} {k : ℕ} (hk : 1 ≤ k) (hmn : m < n) (hw : GoodStartK w n k)
    {wc : (Fin n → ℝ) × Bool} (h : sparseJohnWeightConv E ERR LIM M w junk x A k = .ok wc) :
    TailOnly k wc.1 := by
  unfold sparseJohnWeightConv at h
  obtain ⟨w0, hw0, h⟩ := Out.bind_eq_ok.1 h
  have hβ : 0 < sparseJohnBeta (F := ℝ) ((n : Int) - m) k := by
    have h1 : (m : ℝ) < n := by exact_mod_cast hmn
    have h2 : (0 : ℝ) < k := by exact_mod_cast hk
    simp only [sparseJohnBeta, rsc_ofInt, two_real]
    push_cast
    exact div_pos (by linarith) (by linarith)
  have hst := tailOnly_zeroHead (hw w0 (warmStart_iff.1 hw0))
  rcases johnLoop_iterate (I := TailOnly k) (spec := sparseJohnNext E ERR junk x A k) (fun _ _ => rfl)
    (by
      intro w hw
      refine ⟨fun i hi => ?_, fun i hi => ?_⟩
      · have hi' : ¬ isTail k i = true := by rw [isTail_iff]; omega
        simp only [sparseJohnNext, zeroHead, if_neg hi', leverageScore_head E junk A _ x ERR k i (by simpa using hi'),
          hw.1 i hi, cmax_real]
        simp
      · simp only [sparseJohnNext, zeroHead, if_pos ((isTail_iff i).2 hi), cmax_real, half_real]
        refine mul_pos (by norm_num) (lt_of_lt_of_le ?_ (le_max_right _ _))
        rw [mul_one]; exact hβ) (fun u v i => abs_sub_comm _ _) _ _ _ _ _ hst hst h with
    ⟨_, h, _⟩ | ⟨t, _, _, h, _⟩
  · rw [h]; exact hst
  · exact h

theorem sparseLSWeight_tailOnly {E : Eigen ℝ} {ERR GLIM STEP : ℝ} (hR : 0 < ERR) {M : Int} {w : DVec ℝ}
    {junk x : Fin n → ℝ} {A : Matrix (Fin m) (Fin n) ℝ} {k : ℕ} (hw : GoodStartK w n k)
    {wc : (Fin n → ℝ) × Bool} (h : sparseLSWeightConv E ERR GLIM STEP M w junk x A k = .ok wc) :
    TailOnly k wc.1 := by
  unfold sparseLSWeightConv at h
  obtain ⟨w0, hw0, h⟩ := Out.bind_eq_ok.1 h
  cases h
  refine (lsLoop_spec (I := TailOnly k) ?_ _ _ (tailOnly_zeroHead (hw w0 (warmStart_iff.1 hw0)))).1
  intro w hw
  refine ⟨fun i hi => ?_, fun i hi => ?_⟩
  · have hi' : ¬ isTail k i = true := by rw [isTail_iff]; omega
    simp only [sparseLSUpdate, sparseLSGrad, zeroHead, if_neg hi', hw.1 i hi]
    simp
  · simp only [sparseLSUpdate, if_pos ((isTail_iff i).2 hi), cmax_real]
    exact lt_of_lt_of_le hR (le_max_right _ _)

/-- Whatever the point, computing weights leaves positive (or unset) weights behind. -/
theorem sparseWeight_good {E : Eigen ℝ} {ERR : ℝ} (hR : 0 < ERR) {cls : SparseBarrierClass ℝ (BState ℝ)}
    (hc : IsSparseWeighted E ERR cls) {o : BState ℝ} {k : ℕ} (hk : 1 ≤ k) (hmn : m < n)
    (ho : GoodStartK o.w n k) {junk x : Fin n → ℝ} {A : Matrix (Fin m) (Fin n) ℝ} {wo : DVec ℝ × BState ℝ}
    (h : cls.generateWeight junk o x A k = .ok wo) : GoodStartK wo.2.w n k := by
  cases hc with
  | dikin R => cases h; exact ho
  | vaidya R => cases h; exact ho
  | john R LIM M =>
    obtain ⟨wc, hwc, rfl⟩ := Out.map_eq_ok.1
      (show (sparseJohnWeightConv E ERR LIM M o.w junk x A k).map _ = .ok wo from h)
    have := sparseJohnWeight_tailOnly hk hmn ho hwc
    exact goodStartK_of this.2
  | leeSidford R GLIM STEP M =>
    obtain ⟨wc, hwc, rfl⟩ := Out.map_eq_ok.1
      (show (sparseLSWeightConv E ERR GLIM STEP M o.w junk x A k).map _ = .ok wo from h)
    have := sparseLSWeight_tailOnly hR ho hwc
    exact goodStartK_of this.2

/-- **C26** (sparse library walks): at a point with positive last `k` coordinates the diagonal metric is
positive and the matrix handed to the Cholesky solver is positive definite, whatever the object's history. -/
theorem C26_sparse_library (E : Eigen ℝ) (hE : E.LdltExact) (ERR : ℝ) (hR : 0 < ERR)
    (cls : SparseBarrierClass ℝ (BState ℝ)) (hc : IsSparseWeighted E ERR cls) (o : BState ℝ) (k : ℕ)
    (hk : 1 ≤ k) (hkn : k ≤ n) (hmn : m < n) (ho : GoodStartK o.w n k) (junk x : Fin n → ℝ)
    (A : Matrix (Fin m) (Fin n) ℝ) (hA : IndepRows A) (hx : x ∈ TailPos n k) (G : Fin n → ℝ) (o' : BState ℝ)
    (h : generateG cls ERR junk o x A k = .ok (G, o')) :
    (∀ i, 0 < G i) ∧ (scaleCols A (invSqrt G) * (scaleCols A (invSqrt G))ᵀ).PosDef ∧
      GoodStartK o'.w n k := by
  have key : ∀ w : Fin n → ℝ, (∀ i : Fin n, n - k ≤ i.val → 0 < w i) → G = metricG ERR junk x w k →
      (∀ i, 0 < G i) ∧ (scaleCols A (invSqrt G) * (scaleCols A (invSqrt G))ᵀ).PosDef := by
    rintro w hw rfl
    have := metricG_pos hR junk hx hw
    exact ⟨this, C16_barrier_metric hA this⟩
  unfold generateG at h
  obtain ⟨wo, hwo, h⟩ := Out.bind_eq_ok.1 h
  have hgood := sparseWeight_good hR hc hk hmn ho hwo
  obtain ⟨w, hw, hpos⟩ : ∃ w : Fin n → ℝ, wo.1 = ⟨n, w⟩ ∧ ∀ i : Fin n, n - k ≤ i.val → 0 < w i := by
    cases hc with
    | dikin R => cases hwo; exact ⟨_, rfl, fun _ _ => one_pos⟩
    | vaidya R =>
      obtain ⟨w, h1, _, h3, _⟩ := C29_vaidya E hE ERR R hR.ne' o junk x A hA k hk hkn hx
      rw [h1] at hwo
      cases hwo
      refine ⟨w, rfl, fun i hi => lt_of_lt_of_le ?_ (h3 i hi).2.1⟩
      have h1 : (m : ℝ) < n := by exact_mod_cast hmn
      have h2 : (0 : ℝ) < k := by exact_mod_cast hk
      exact div_pos (by linarith) h2
    | john R LIM M =>
      obtain ⟨wc, hwc, rfl⟩ := Out.map_eq_ok.1
        (show (sparseJohnWeightConv E ERR LIM M o.w junk x A k).map _ = .ok wo from hwo)
      exact ⟨_, rfl, (sparseJohnWeight_tailOnly hk hmn ho hwc).2⟩
    | leeSidford R GLIM STEP M =>
      obtain ⟨wc, hwc, rfl⟩ := Out.map_eq_ok.1
        (show (sparseLSWeightConv E ERR GLIM STEP M o.w junk x A k).map _ = .ok wo from hwo)
      exact ⟨_, rfl, (sparseLSWeight_tailOnly hR ho hwc).2⟩
  obtain ⟨wv, wo2⟩ := wo
  simp only at hw hgood h
  subst hw
  rw [dif_pos rfl] at h
  cases h
  obtain ⟨h1, h2⟩ := key w hpos rfl
  exact ⟨h1, h2, hgood⟩

theorem generateG_good {E : Eigen ℝ} {ERR : ℝ} (hR : 0 < ERR) {cls : SparseBarrierClass ℝ (BState ℝ)}
    (hc : IsSparseWeighted E ERR cls) {o : BState ℝ} {k : ℕ} (hk : 1 ≤ k) (hmn : m < n)
    (ho : GoodStartK o.w n k) {junk x : Fin n → ℝ} {A : Matrix (Fin m) (Fin n) ℝ}
    {Go : (Fin n → ℝ) × BState ℝ} (h : generateG cls ERR junk o x A k = .ok Go) : GoodStartK Go.2.w n k := by
  unfold generateG at h
  obtain ⟨wo, hwo, h⟩ := Out.bind_eq_ok.1 h
  have := sparseWeight_good hR hc hk hmn ho hwo
  split at h
  · cases h; exact this
  · cases h

theorem SparseBarrier.step_good {E : Eigen ℝ} {ERR : ℝ} (hR : 0 < ERR)
    {cls : SparseBarrierClass ℝ (BState ℝ)} (hc : IsSparseWeighted E ERR cls) {r : Rng ℝ} {k : ℕ} (hk : 1 ≤ k)
    (hmn : m < n) {junk : Fin n → ℝ} {A : Matrix (Fin m) (Fin n) ℝ} {s s' : (Fin n → ℝ) × BState ℝ × r.G}
    (hs : GoodStartK s.2.1.w n k) (hst : SparseBarrier.step cls ERR E r junk A k s = .ok s') :
    GoodStartK s'.2.1.w n k := by
  unfold SparseBarrier.step SparseBarrier.generateSample at hst
  simp only at hst
  obtain ⟨zog, hz, hst⟩ := Out.bind_eq_ok.1 hst
  split at hz
  · cases hz
  obtain ⟨Go1, hG1, hz⟩ := Out.bind_eq_ok.1 hz
  have g1 := generateG_good hR hc hk hmn hs hG1
  cases hz
  obtain ⟨c, _, hst⟩ := Out.bind_eq_ok.1 hst
  cases c
  · cases hst; exact g1
  · rw [if_pos rfl] at hst
    unfold SparseBarrier.generateProposalDensity at hst
    obtain ⟨p, hp, hst⟩ := Out.bind_eq_ok.1 hst
    obtain ⟨Go2, hG2, hp⟩ := Out.bind_eq_ok.1 hp
    have g2 := generateG_good hR hc hk hmn g1 hG2
    cases hp
    obtain ⟨q, hq, hst⟩ := Out.bind_eq_ok.1 hst
    obtain ⟨Go3, hG3, hq⟩ := Out.bind_eq_ok.1 hq
    have g3 := generateG_good hR hc hk hmn g2 hG3
    cases hq
    cases hst
    exact g3

/-- **C16** for all of the library's sparse weighted barrier walks: every returned row satisfies `A x = b`,
for independent rows and fewer rows than columns, provided the visited points have positive last `k`
coordinates. -/
theorem C16_library (E : Eigen ℝ) (hE : E.LdltExact) (hS : E.SparseLLTSolveExact) (ERR : ℝ) (hR : 0 < ERR)
    (cls : SparseBarrierClass ℝ (BState ℝ)) (hc : IsSparseWeighted E ERR cls) (o : BState ℝ) (e : Env ℝ)
    (a : Args ℝ) (hA : IndepRows a.A.val) (hmn : a.A.r < a.A.c)
    (hi : SaneInts a.niter a.burnin a.thin) (hd : a.DimsOk) (hx : a.A.val *ᵥ a.x0 hd = a.rhs hd)
    (hpos : ∀ t x, (Walk.sparseBarrier cls ERR E o).PosAt e a hd t x → x ∈ TailPos _ a.k.toNat)
    (rows : List (Fin a.A.c → ℝ)) (h : (Walk.sparseBarrier cls ERR E o).run e a = .ok rows) :
    ∀ x ∈ rows, a.A.val *ᵥ x = a.rhs hd := by
  obtain ⟨k1, k2⟩ := Walk.run_kOk h rfl
  refine C16_barrier cls ERR E o hS e a hi hd hx ?_ rows h
  intro t x o' g hch Go hGo
  have noState : (∀ o1 o2 Go, generateG cls ERR (e.junk _) o1 x a.A.val a.k.toNat = .ok Go →
      generateG cls ERR (e.junk _) o2 x a.A.val a.k.toNat = .ok (Go.1, o2)) →
      (scaleCols a.A.val (invSqrt Go.1) * (scaleCols a.A.val (invSqrt Go.1))ᵀ).PosDef := fun hno =>
    (C26_sparse_library E hE ERR hR cls hc ⟨0, ones 1⟩ a.k.toNat (by omega) (by omega) hmn
      (goodStartK_ones one_pos _ _) _ x a.A.val hA (hpos t x ⟨_, hch, rfl⟩) Go.1 _ (hno _ _ _ hGo)).2.1
  by_cases hst : ∀ o1 o2 Go, generateG cls ERR (e.junk _) o1 x a.A.val a.k.toNat = .ok Go →
      generateG cls ERR (e.junk _) o2 x a.A.val a.k.toNat = .ok (Go.1, o2)
  · exact noState hst
  have hgood : GoodStartK o'.w a.A.c a.k.toNat := by
    refine Walk.chain_inv (w := Walk.sparseBarrier cls ERR E o) (e := e) (a := a) (hd := hd)
      (fun s => GoodStartK s.2.1.w a.A.c a.k.toNat) ?_ ?_ t (x, o', g) hch
    · intro s0 h0
      obtain ⟨o1, h1, h0⟩ := Out.bind_eq_ok.1 h0
      cases h0
      show GoodStartK o1.w _ _
      have hdp : ((a.A.c : Int) - a.A.r).toNat = a.A.c - a.A.r := by omega
      cases hc with
      | dikin R =>
        refine absurd (fun o1 o2 Go h => ?_) hst
        simp only [generateG, sparseDikinClass, Out.ok_bind] at h ⊢
        rw [dif_pos (by rfl)] at h ⊢
        cases h; rfl
      | vaidya R =>
        refine absurd (fun o1 o2 Go h => ?_) hst
        simp only [generateG, sparseVaidyaClass, Out.ok_bind] at h ⊢
        rw [dif_pos (by trivial)] at h ⊢
        cases h; rfl
      | john R LIM M =>
        simp only [sparseJohnClass] at h1
        rw [if_neg (by omega)] at h1
        cases h1
        simp only [hdp]
        exact goodStartK_ones (by omega) _ _
      | leeSidford R GLIM STEP M =>
        simp only [sparseDikinLSClass] at h1
        rw [if_neg (by omega)] at h1
        cases h1
        simp only [hdp]
        exact goodStartK_ones (by omega) _ _
    · intro t s s' _ hs hst
      exact SparseBarrier.step_good hR hc (by omega) hmn (s := s) (s' := s') hs hst
  exact (C26_sparse_library E hE ERR hR cls hc o' a.k.toNat (by omega) (by omega) hmn hgood _ x a.A.val hA
    (hpos t x ⟨_, hch, rfl⟩) Go.1 Go.2 hGo).2.1

/-! ## The hypotheses are met: the segment `{x ≥ 0 | x1 + x2 = 1}` at its midpoint -/

section Examples

/-- `[1 1]`. -/
def rowOnes : Matrix (Fin 1) (Fin 2) ℝ := fun _ _ => 1

theorem rowOnes_indep : IndepRows rowOnes := by
  intro y hy
  have h1 : ∑ i : Fin 1, y i * 1 = 0 := congrFun hy (0 : Fin 2)
  rw [Fin.sum_univ_one, mul_one] at h1
  funext i
  rw [Subsingleton.elim i 0]; exact h1

/-- The midpoint. -/
noncomputable def midpoint2 : Fin 2 → ℝ := fun _ => 1 / 2

theorem midpoint2_pos : midpoint2 ∈ TailPos 2 2 := fun _ _ => by norm_num [midpoint2]

/-- Vaidya weights at the midpoint: both are `1`. -/
example : ∃ w : Fin 2 → ℝ, (sparseVaidyaClass exactEigen 1 1).generateWeight (fun _ => 0) (BState.fresh 0)
    midpoint2 rowOnes 2 = .ok (⟨2, w⟩, BState.fresh 0) ∧ ∑ i, w i = 2 := by
  obtain ⟨w, h1, _, _, h2⟩ := C29_vaidya exactEigen exactEigen_exact.ldlt 1 1 one_ne_zero (BState.fresh 0)
    (fun _ => 0) midpoint2 rowOnes rowOnes_indep 2 (by norm_num) le_rfl midpoint2_pos
  refine ⟨w, h1, ?_⟩
  rw [h2 rfl]; norm_num

/-- John weights on a fresh object and on an object after `setDistTerm`. -/
example : ∃ (w : Fin 2 → ℝ) (t : ℕ), (sparseJohnClass exactEigen 1 1 (1 / 10) 5).generateWeight
      (fun _ => 0) (BState.fresh 0) midpoint2 rowOnes 2 =
        .ok (⟨2, w⟩, { BState.fresh 0 with w := ⟨2, w⟩ }) ∧
    ∑ i, w i = 3 / 2 + (1 / 2) / 2 ^ t := by
  obtain ⟨w, t, c, h1, _, _, _, _, _, h2, _⟩ := C30_john exactEigen exactEigen_exact.ldlt 1 1 (1 / 10)
    one_ne_zero 5 (by norm_num) (BState.fresh 0) (startsAtOnes_fresh 0 2) (fun _ => 0) midpoint2 rowOnes
    rowOnes_indep 2 (by norm_num) le_rfl (by norm_num) midpoint2_pos
  refine ⟨w, t, h1, ?_⟩
  rw [h2 rfl]; norm_num

example : StartsAtOnes (ones 1) 2 := startsAtOnes_ones' one_pos 2

/-- Lee-Sidford weights on a fresh object. -/
example : ∃ (w : Fin 2 → ℝ), (sparseDikinLSClass exactEigen (1 / 8) 1 (1 / 10) (1 / 10) 5).generateWeight
      (fun _ => 0) (BState.fresh 0) midpoint2 rowOnes 2 =
        .ok (⟨2, w⟩, { BState.fresh 0 with w := ⟨2, w⟩ }) ∧ ∀ i, 1 / 8 ≤ w i := by
  obtain ⟨w, c, h1, _, _, h2, _⟩ := C31_leeSidford exactEigen exactEigen_exact.ldlt (1 / 8) 1 (1 / 10)
    (1 / 10) (by norm_num) 5 2 (BState.fresh 0) _ (startsAtOnes_fresh 0 2) (fun _ _ => one_pos) (fun _ => 0)
    midpoint2 rowOnes rowOnes_indep midpoint2_pos
  refine ⟨w, h1, fun i => ?_⟩
  have := h2 i (by simp)
  norm_num at this ⊢
  exact this

end Examples

end PW

import Verif.Props.AnyArith
import Verif.Props.SparseWeights

/-!
# C24 in exact arithmetic: weights that meet the stopping criterion are kept

The criterion is written out with exact leverage scores; the stored vector may come from anywhere (an earlier call, another point,
another polytope of the same shape).
-/

namespace PW
open Matrix
variable {m n : ℕ}

theorem johnLoop_keep {next : (Fin m → ℝ) → Fin m → ℝ} {diff : (Fin m → ℝ) → (Fin m → ℝ) → Fin m → ℝ} {LIM : ℝ} (hm : 0 < m)
    {N : ℕ} (hN : 1 ≤ N) {v w : Fin m → ℝ} (h : ∀ i, diff (next w) w i < LIM) :
    johnLoop next diff LIM N v w = .ok (w, true) := by
  obtain ⟨N, rfl⟩ : ∃ k, N = k + 1 := ⟨N - 1, by omega⟩
  obtain ⟨c, hc, _, i, hi⟩ := maxCoeff_real (diff (next w) w) hm
  simp only [johnLoop]
  rw [hc, Out.ok_bind, if_pos]
  rw [← hi]
  simpa using h i

theorem lsLoop_keep {grad : (Fin m → ℝ) → Fin m → ℝ} {upd : (Fin m → ℝ) → (Fin m → ℝ) → Fin m → ℝ} {GLIM : ℝ}
    {N : ℕ} {w : Fin m → ℝ} (h : Real.sqrt (∑ i, grad w i ^ 2) < GLIM) : (lsLoop grad upd GLIM N w).1 = w := by
  cases N with
  | zero => rfl
  | succ N =>
    simp only [lsLoop]
    rw [if_pos]
    rw [rsc_lt, norm2_real, decide_eq_true_eq]
    simpa [sq] using h

theorem warmStart_pos {w : Fin m → ℝ} (hm : 0 < m) (h : 0 ≤ w ⟨0, hm⟩) : warmStart ⟨m, w⟩ m = .ok w := by
  refine warmStart_stored hm ?_
  rw [rsc_eq, rsc_ofInt, decide_eq_false_iff_not]
  push_cast
  linarith

/-- **C24** (`JohnWalk`): a stored positive `w` with `|(wᵢ + σᵢ + d/2n)/2 - wᵢ| < LIM` at every `i`, `σ` the leverage scores of the
polytope at `x` scaled by `w`, is returned unchanged. -/
theorem C24_john_exact (E : Eigen ℝ) (hE : E.InvExact) (R LIM : ℝ) (M : Int) (hM : 1 ≤ M) (o : BState ℝ) (x : Fin n → ℝ)
    (A : Matrix (Fin m) (Fin n) ℝ) (b w : Fin m → ℝ) (hn : 0 < n) (hA : IndepCols A) (hx : x ∈ Interior A b) (hw : ∀ i, 0 < w i)
    (hcrit : ∀ i, |(w i + lev (scaledRows w (denseJohnAlpha m n / 2) (normals x A b)) i + (n : ℝ) / (2 * m)) / 2 - w i| < LIM) :
    (johnClass E R LIM M).generateWeight { o with w := ⟨m, w⟩ } x A b = .ok (⟨m, w⟩, { o with w := ⟨m, w⟩ }) := by
  have hm : 0 < m := lt_of_lt_of_le hn hA.le
  have hal : johnAlpha (F := ℝ) m n = .ok (denseJohnAlpha m n) := by
    unfold johnAlpha denseJohnAlpha
    rw [if_neg (by omega), rsc_log2, rsc_ofInt, Int.cast_natCast]
  have hbe : johnBeta (F := ℝ) m n = (n : ℝ) / (2 * m) := by simp [johnBeta]
  show (johnWeightConv E LIM M ⟨m, w⟩ x A b).map _ = _
  unfold johnWeightConv
  rw [hal, Out.ok_bind, warmStart_pos hm (hw _).le, Out.ok_bind, hbe, scaledA_real, johnLoop_keep hm (by omega)]
  · rfl
  · intro i
    rw [johnNext_real hE (normals_indep hx hA) _ _ hw]
    exact hcrit i

/-- **C24** (`DikinLSWalk`): a stored positive `w` at which the gradient `α(1 - σᵢ/wᵢ)` has Euclidean norm below the limit is
returned unchanged, for every iteration bound. -/
theorem C24_ls_exact (E : Eigen ℝ) (hE : E.InvExact) (R GLIM STEP : ℝ) (M : Int) (o : BState ℝ) (x : Fin n → ℝ)
    (A : Matrix (Fin m) (Fin n) ℝ) (b w : Fin m → ℝ) (hm : 0 < m) (hA : IndepCols A) (hx : x ∈ Interior A b) (hw : ∀ i, 0 < w i)
    (hcrit : Real.sqrt (∑ i, (lsExponent m * (1 - lev (scaledRows w (lsExponent m / 2) (normals x A b)) i / w i)) ^ 2) < GLIM) :
    (dikinLSClass E R GLIM STEP M).generateWeight { o with w := ⟨m, w⟩ } x A b = .ok (⟨m, w⟩, { o with w := ⟨m, w⟩ }) := by
  show (lsWeightConv E GLIM STEP M ⟨m, w⟩ x A b).map _ = _
  unfold lsWeightConv
  rw [warmStart_pos hm (hw _).le, Out.ok_bind, scaledA_real, lsAlpha_real, Out.map_ok, lsLoop_keep]
  · simp only [lsGrad_real hE (normals_indep hx hA) _ hw]
    refine lt_of_eq_of_lt ?_ hcrit
    congr 2; funext i; ring

theorem sparseJohnNext_tail {E : Eigen ℝ} (hE : E.LdltExact) {ERR : ℝ} (hR : ERR ≠ 0) (junk : Fin n → ℝ)
    {A : Matrix (Fin m) (Fin n) ℝ} (hA : IndepRows A) {k : ℕ} {x : Fin n → ℝ} (hx : x ∈ TailPos n k)
    {w : Fin n → ℝ} (h0 : ∀ i : Fin n, i.val < n - k → w i = 0) (hw : w ∈ TailPos n k) :
    sparseJohnNext E ERR junk x A k w =
      sparseJohnMap (sparseJohnExponent ((n : ℝ) - m) k) (((n : ℝ) - m) / (2 * k)) ERR A k x w := by
  obtain ⟨hI, hs⟩ := sparseScore_real hE hR junk hA hx (sparseJohnExponent ((n : ℝ) - m) k) hw
  have hal : sparseJohnAlpha (F := ℝ) ((n : Int) - m) k = sparseJohnExponent ((n : ℝ) - m) k := by
    simp [sparseJohnAlpha, sparseJohnExponent]
  have hbe : sparseJohnBeta (F := ℝ) ((n : Int) - m) k = ((n : ℝ) - m) / (2 * k) := by
    simp [sparseJohnBeta]
  funext i
  simp only [sparseJohnNext, sparseJohnMap]
  rw [hal, hbe, hs i, cmax_real, half_real]
  by_cases hi : n - k ≤ i.val
  · simp only [zeroHead, if_pos hi, if_pos ((isTail_iff i).2 hi)]
    rw [max_eq_left]
    · ring
    · have := colev_nonneg hI i
      have := hw i hi
      linarith
  · have hi' : ¬ isTail k i = true := by rw [isTail_iff]; exact hi
    simp only [zeroHead, if_neg hi, if_neg hi', h0 i (by omega)]
    simp

theorem zeroHead_of_zero {k : ℕ} {w : Fin n → ℝ} (h0 : ∀ i : Fin n, i.val < n - k → w i = 0) : zeroHead w k = w := by
  funext i
  by_cases hi : isTail k i = true
  · simp only [zeroHead, if_pos hi]
  · rw [isTail_iff] at hi
    simp only [zeroHead, isTail_iff, if_neg hi, h0 i (by omega)]

theorem sparseWarm {k : ℕ} (hk : 1 ≤ k) (hkn : k ≤ n) {w : Fin n → ℝ} (h0 : ∀ i : Fin n, i.val < n - k → w i = 0)
    (hw : w ∈ TailPos n k) : warmStart ⟨n, w⟩ n = .ok w := by
  refine warmStart_pos (by omega) ?_
  by_cases hi : n - k ≤ 0
  · exact (hw _ hi).le
  · exact (h0 _ (by show 0 < n - k; omega)).ge

/-- **C24** (`SparseJohnWalk`). -/
theorem C24_sparseJohn_exact (E : Eigen ℝ) (hE : E.LdltExact) (ERR R LIM : ℝ) (hR : ERR ≠ 0) (hL : 0 < LIM) (M : Int) (hM : 1 ≤ M)
    (o : BState ℝ) (junk x : Fin n → ℝ) (A : Matrix (Fin m) (Fin n) ℝ) (hA : IndepRows A) (k : ℕ) (hk : 1 ≤ k) (hkn : k ≤ n)
    (hx : x ∈ TailPos n k) (w : Fin n → ℝ) (h0 : ∀ i : Fin n, i.val < n - k → w i = 0) (hw : w ∈ TailPos n k)
    (hcrit : ∀ i : Fin n, n - k ≤ i.val → |(w i + colev (colScaled A (slackScale ERR k
      (fun i => w i ^ (sparseJohnExponent ((n : ℝ) - m) k / 2)) x)) i + ((n : ℝ) - m) / (2 * k)) / 2 - w i| < LIM) :
    (sparseJohnClass E ERR R LIM M).generateWeight junk { o with w := ⟨n, w⟩ } x A k = .ok (⟨n, w⟩, { o with w := ⟨n, w⟩ }) := by
  show (sparseJohnWeightConv E ERR LIM M ⟨n, w⟩ junk x A k).map _ = _
  unfold sparseJohnWeightConv
  rw [sparseWarm hk hkn h0 hw, Out.ok_bind, zeroHead_of_zero h0, johnLoop_keep (by omega) (by omega)]
  · rfl
  · intro i
    rw [sparseJohnNext_tail hE hR junk hA hx h0 hw, rsc_abs, abs_sub_comm]
    by_cases hi : n - k ≤ i.val
    · simp only [sparseJohnMap, if_pos hi]
      exact hcrit i hi
    · simp only [sparseJohnMap, if_neg hi, h0 i (by omega)]
      simpa using hL

/-- **C24** (`SparseDikinLSWalk`). -/
theorem C24_sparseLS_exact (E : Eigen ℝ) (hE : E.LdltExact) (ERR R GLIM STEP : ℝ) (hR : ERR ≠ 0) (M : Int)
    (o : BState ℝ) (junk x : Fin n → ℝ) (A : Matrix (Fin m) (Fin n) ℝ) (hA : IndepRows A) (k : ℕ) (hk : 1 ≤ k) (hkn : k ≤ n)
    (hx : x ∈ TailPos n k) (w : Fin n → ℝ) (h0 : ∀ i : Fin n, i.val < n - k → w i = 0) (hw : w ∈ TailPos n k)
    (hcrit : Real.sqrt (∑ i : Fin n, if n - k ≤ i.val then (lsExponent k * (1 - colev (colScaled A (slackScale ERR k
      (fun i => w i ^ (lsExponent k / 2)) x)) i / w i)) ^ 2 else 0) < GLIM) :
    (sparseDikinLSClass E ERR R GLIM STEP M).generateWeight junk { o with w := ⟨n, w⟩ } x A k =
      .ok (⟨n, w⟩, { o with w := ⟨n, w⟩ }) := by
  obtain ⟨-, hs⟩ := sparseScore_real hE hR junk hA hx (lsExponent k) hw
  show (sparseLSWeightConv E ERR GLIM STEP M ⟨n, w⟩ junk x A k).map _ = _
  unfold sparseLSWeightConv
  rw [sparseWarm hk hkn h0 hw, Out.ok_bind, zeroHead_of_zero h0, Out.map_ok, lsLoop_keep]
  · refine lt_of_eq_of_lt ?_ hcrit
    congr 2; funext i
    by_cases hi : n - k ≤ i.val
    · simp only [sparseLSGrad, zeroHead, if_pos ((isTail_iff i).2 hi), lsAlpha_real, hs i, if_pos hi]
      ring
    · have hi' : ¬ isTail k i = true := by rw [isTail_iff]; exact hi
      simp only [sparseLSGrad, zeroHead, if_neg hi', hs i, if_neg hi]
      simp

end PW

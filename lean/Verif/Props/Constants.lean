import Verif.Props.DenseWeights
import Verif.Spec.Constants

/-!
# C27, C32: step size constants and the John exponents
-/

namespace PW
open Classical Matrix

/-- After `setDistTerm(d, n)` the object's step constant is `c`. -/
def SetsDist {σ : Type} (set : σ → Int → Int → Out σ) (dist : σ → ℝ) (d n : ℕ) (c : ℝ) : Prop :=
  ∀ o, ∃ o', set o d n = .ok o' ∧ dist o' = c

theorem lsQ_real (n : ℕ) : lsQ (F := ℝ) (n : Int) = qOf n := by simp [lsQ, qOf]

theorem qOf_pos {n : ℕ} (hn : 1 ≤ n) : 0 < qOf n := by
  have : 0 ≤ Real.log n := Real.log_natCast_nonneg n
  unfold qOf; linarith

/-- **C27** (dense classes): the constants, for all dimensions; the Vaidya product must fit in an `int`. -/
theorem C27_dense_partial (E : Eigen ℝ) (R LIM GLIM STEP : ℝ) (M : Int) (d n : ℕ) :
    SetsDist (dikinClass R).setDistTerm (dikinClass R).distTerm d n (dikinConst R d) ∧
    ((d : Int) * n ≤ intMax →
      SetsDist (vaidyaClass E R).setDistTerm (vaidyaClass E R).distTerm d n (vaidyaConst R d n)) ∧
    SetsDist (johnClass E R LIM M).setDistTerm (johnClass E R LIM M).distTerm d n (johnConst R d) ∧
    SetsDist (dikinLSClass E R GLIM STEP M).setDistTerm (dikinLSClass E R GLIM STEP M).distTerm d n
      (lsConst R n) := by
  refine ⟨fun o => ⟨_, rfl, ?_⟩, fun h o => ?_, fun o => ?_, fun o => ?_⟩
  · simp [dikinClass, dikinConst, sq]
  · refine ⟨{ o with dist := R * R / Scalar.sqrt (Scalar.ofInt ((d : Int) * n)) }, ?_, ?_⟩
    · simp only [vaidyaClass]
      rw [toInt, if_pos ⟨by have : (0 : Int) ≤ (d : Int) * n := by positivity
                            unfold intMin; omega, h⟩]
      rfl
    · simp [vaidyaClass, vaidyaConst, sq, mul_comm]
  · refine ⟨⟨R * R / Scalar.pow (Scalar.ofInt d) (Scalar.ofInt 3 / Scalar.ofInt 2), ones n⟩, if_neg (t := .ub .negativeSize) (show ¬ ((n : ℕ) : Int) < 0 by omega), ?_⟩
    · simp [johnClass, johnConst, sq]
  · refine ⟨⟨R * R / ((1 + lsQ n) * (1 + lsQ n * lsQ n)), ones n⟩, if_neg (t := .ub .negativeSize) (show ¬ ((n : ℕ) : Int) < 0 by omega), ?_⟩
    · simp [dikinLSClass, lsConst, sq, lsQ_real]

/-- **C27** (sparse classes): the constants, for `d = cols - rows ≥ 0` and `k` constraints. -/
theorem C27_sparse_partial (E : Eigen ℝ) (ERR R LIM GLIM STEP : ℝ) (M : Int) (d k : ℕ) :
    SetsDist (sparseDikinClass R).setDistTerm (sparseDikinClass R).distTerm d k (dikinConst R d) ∧
    ((k : Int) * d ≤ intMax →
      SetsDist (sparseVaidyaClass E ERR R).setDistTerm (sparseVaidyaClass E ERR R).distTerm d k
        (vaidyaConst R d k)) ∧
    SetsDist (sparseJohnClass E ERR R LIM M).setDistTerm (sparseJohnClass E ERR R LIM M).distTerm d k
      (johnConst R d) ∧
    SetsDist (sparseDikinLSClass E ERR R GLIM STEP M).setDistTerm
      (sparseDikinLSClass E ERR R GLIM STEP M).distTerm d k (lsConst R k) := by
  refine ⟨fun o => ⟨_, rfl, ?_⟩, fun h o => ?_, fun o => ?_, fun o => ?_⟩
  · simp [sparseDikinClass, dikinConst, sq]
  · refine ⟨{ o with dist := R * R / Scalar.sqrt (Scalar.ofInt ((k : Int) * d)) }, ?_, ?_⟩
    · simp only [sparseVaidyaClass]
      rw [toInt, if_pos ⟨by have : (0 : Int) ≤ (k : Int) * d := by positivity
                            unfold intMin; omega, h⟩]
      rfl
    · simp [sparseVaidyaClass, vaidyaConst, sq]
  · refine ⟨⟨R * R / Scalar.pow (Scalar.ofInt d) (Scalar.ofInt 3 / Scalar.ofInt 2), ones d⟩, if_neg (t := .ub .negativeSize) (show ¬ ((d : ℕ) : Int) < 0 by omega), ?_⟩
    · simp [sparseJohnClass, johnConst, sq]
  · refine ⟨⟨R * R / ((1 + lsQ k) * (1 + lsQ k * lsQ k)), ones d⟩, if_neg (t := .ub .negativeSize) (show ¬ ((d : ℕ) : Int) < 0 by omega), ?_⟩
    · simp [sparseDikinLSClass, lsConst, sq, lsQ_real]

/-- **C27** (positivity). -/
theorem C27_positive (R : ℝ) (hR : R ≠ 0) (d n : ℕ) (hd : 1 ≤ d) (hn : 1 ≤ n) :
    0 < dikinConst R d ∧ 0 < vaidyaConst R d n ∧ 0 < johnConst R d ∧ 0 < lsConst R n := by
  have h1 : (0 : ℝ) < d := by exact_mod_cast hd
  have h2 : (0 : ℝ) < n := by exact_mod_cast hn
  have h3 := qOf_pos hn
  have h4 : 0 < R ^ 2 := by positivity
  unfold dikinConst vaidyaConst johnConst lsConst
  refine ⟨by positivity, by positivity, by positivity, by positivity⟩

/-- **C27 is false for every dimension**: the Vaidya walks multiply the two `int` dimensions, which overflows
(undefined behaviour) as soon as the product exceeds `INT_MAX`, before a single step is made. -/
theorem C27_overflow (E : Eigen ℝ) (ERR R : ℝ) (o : BState ℝ) (d n : ℕ) (h : intMax < (d : Int) * n) :
    (vaidyaClass E R).setDistTerm o d n = .ub .signedOverflow ∧
    (sparseVaidyaClass E ERR R).setDistTerm o d n = .ub .signedOverflow := by
  constructor
  · simp only [vaidyaClass, toInt]
    rw [if_neg (by rintro ⟨_, h'⟩; omega)]; rfl
  · simp only [sparseVaidyaClass, toInt]
    rw [if_neg (by rintro ⟨_, h'⟩; rw [mul_comm] at h'; omega)]; rfl

/-- The overflow is reached by dimensions that are themselves ordinary `int`s. -/
example : intMax < ((46341 : ℕ) : Int) * (46341 : ℕ) ∧ (46341 : Int) ≤ intMax := by
  unfold intMax; norm_num

/-- **C27** (sparse, degenerate): with more rows than columns the John and Lee-Sidford walks ask for a vector
of negative length. -/
theorem C27_negative_dimension (E : Eigen ℝ) (ERR R LIM GLIM STEP : ℝ) (M : Int) (o : BState ℝ) (d k : Int)
    (hd : d < 0) :
    (sparseJohnClass E ERR R LIM M).setDistTerm o d k = .ub .negativeSize ∧
    (sparseDikinLSClass E ERR R GLIM STEP M).setDistTerm o d k = .ub .negativeSize := by
  constructor
  · simp only [sparseJohnClass]; rw [if_pos hd]
  · simp only [sparseDikinLSClass]; rw [if_pos hd]

/-! ## C32 -/

/-- The exponent `1 - 1/log₂(2n/d)` of the John walk. -/
noncomputable def johnExponent (n d : ℕ) : ℝ := 1 - 1 / Real.logb 2 (2 * n / d)

/-- The sparse John walk uses the documented exponent. -/
theorem C32_sparse (d k : ℕ) : sparseJohnAlpha (F := ℝ) d k = johnExponent k d := by
  simp [sparseJohnAlpha, johnExponent]

/-- **C32** (true part): the dense walk uses it when `d` divides `2n`. -/
theorem C32_dense_partial (n d : ℕ) (hd : 0 < d) (h : d ∣ 2 * n) :
    johnAlpha (F := ℝ) n d = .ok (johnExponent n d) := by
  unfold johnAlpha johnExponent
  rw [if_neg (by omega), rsc_log2, rsc_ofInt, Int.cast_natCast, Nat.cast_div h (by exact_mod_cast hd.ne')]
  push_cast
  rfl

/-- **C32 is false**: with 4 constraints in dimension 3 the dense walk uses exponent 0 (integer division
`2*4/3 = 2`), the sparse walk a positive one. -/
theorem C32_differs :
    johnAlpha (F := ℝ) 4 3 = .ok 0 ∧ 0 < sparseJohnAlpha (F := ℝ) (3 : ℕ) (4 : ℕ) := by
  constructor
  · unfold johnAlpha
    rw [if_neg (by norm_num), rsc_log2, rsc_ofInt]
    norm_num
  · rw [C32_sparse, johnExponent]
    have h1 : 1 < Real.logb 2 (2 * (4 : ℕ) / (3 : ℕ)) := by
      rw [Real.lt_logb_iff_rpow_lt (by norm_num) (by norm_num)]
      norm_num
    have : 1 / Real.logb 2 (2 * (4 : ℕ) / (3 : ℕ)) < 1 := by
      rw [div_lt_one (by linarith)]; exact h1
    linarith

/-- More generally the dense exponent is the documented one for the rounded-down ratio, hence never larger. -/
theorem C32_dense_le (n d : ℕ) (hd : 0 < d) (hnd : d ≤ n) :
    ∃ α : ℝ, johnAlpha n d = .ok α ∧ 0 ≤ α ∧ α ≤ johnExponent n d := by
  have h2 : 2 ≤ 2 * n / d := by rw [Nat.le_div_iff_mul_le hd]; omega
  refine ⟨1 - 1 / Real.logb 2 ((2 * n / d : ℕ) : ℝ), ?_, ?_, ?_⟩
  · unfold johnAlpha
    rw [if_neg (by omega), rsc_log2, rsc_ofInt, Int.cast_natCast]
  all_goals
    have h2' : (2 : ℝ) ≤ ((2 * n / d : ℕ) : ℝ) := by exact_mod_cast h2
    have h1 : 1 ≤ Real.logb 2 ((2 * n / d : ℕ) : ℝ) := by
      rw [Real.le_logb_iff_rpow_le (by norm_num) (by linarith)]
      simpa using h2'
  · have : 1 / Real.logb 2 ((2 * n / d : ℕ) : ℝ) ≤ 1 := by
      rw [div_le_one (by linarith)]; exact h1
    linarith
  · have h3 : ((2 * n / d : ℕ) : ℝ) ≤ 2 * n / d := by
      have := Nat.cast_div_le (α := ℝ) (m := 2 * n) (n := d)
      push_cast at this ⊢; exact this
    have h4 : Real.logb 2 ((2 * n / d : ℕ) : ℝ) ≤ Real.logb 2 (2 * n / d) :=
      Real.logb_le_logb_of_le (by norm_num) (by linarith) h3
    have := one_div_le_one_div_of_le (by linarith) h4
    unfold johnExponent; linarith

/-- **C32** (exactly): on a polytope with at least as many constraints as dimensions the two exponents agree iff `d` divides `2n`. -/
theorem C32_iff (n d : ℕ) (hd : 0 < d) (hnd : d ≤ n) :
    johnAlpha (F := ℝ) n d = .ok (sparseJohnAlpha (F := ℝ) d n) ↔ d ∣ 2 * n := by
  rw [C32_sparse]
  refine ⟨fun h => ?_, C32_dense_partial n d hd⟩
  have hdr : (0 : ℝ) < d := by exact_mod_cast hd
  have h2 : 2 ≤ 2 * n / d := by rw [Nat.le_div_iff_mul_le hd]; omega
  have h2' : (2 : ℝ) ≤ ((2 * n / d : ℕ) : ℝ) := by exact_mod_cast h2
  have h2n : (2 : ℝ) ≤ 2 * n / d := by
    rw [le_div_iff₀ hdr]
    have : (d : ℝ) ≤ n := by exact_mod_cast hnd
    linarith
  have pos : ∀ y : ℝ, 2 ≤ y → Real.logb 2 y ≠ 0 := fun y hy => by
    have : 1 ≤ Real.logb 2 y := by
      rw [Real.le_logb_iff_rpow_le (by norm_num) (by linarith)]
      simpa using hy
    linarith
  unfold johnAlpha johnExponent at h
  rw [if_neg (by omega), rsc_log2, rsc_ofInt, Int.cast_natCast] at h
  have h3 : (1 : ℝ) / Real.logb 2 ((2 * n / d : ℕ) : ℝ) = 1 / Real.logb 2 (2 * n / d) := by linarith [Out.ok.inj h]
  rw [div_eq_div_iff (pos _ h2') (pos _ h2n), one_mul, one_mul] at h3
  have h4 : (2 * n / d : ℝ) = ((2 * n / d : ℕ) : ℝ) := Real.logb_injOn_pos (by norm_num) (by show (0 : ℝ) < _; linarith) (by show (0 : ℝ) < _; linarith) h3
  rw [div_eq_iff hdr.ne'] at h4
  exact ⟨2 * n / d, by
    have : (2 * n : ℕ) = (2 * n / d) * d := by exact_mod_cast h4
    rw [mul_comm d]; exact this⟩

/-- Both sides occur: a square in the plane and four constraints in space. -/
example : (2 ∣ 2 * 4) ∧ ¬ (3 ∣ 2 * 4) := by decide

/-- **C27** (exactly): the Vaidya walks set their documented constant iff the product of the dimensions is an `int`. -/
theorem C27_vaidya_iff (E : Eigen ℝ) (ERR R : ℝ) (d n : ℕ) :
    (SetsDist (vaidyaClass E R).setDistTerm (vaidyaClass E R).distTerm d n (vaidyaConst R d n) ↔ (d : Int) * n ≤ intMax) ∧
    (SetsDist (sparseVaidyaClass E ERR R).setDistTerm (sparseVaidyaClass E ERR R).distTerm d n (vaidyaConst R d n) ↔ (d : Int) * n ≤ intMax) := by
  constructor
  · refine ⟨fun h => ?_, fun h => (C27_dense_partial E R 0 0 0 0 d n).2.1 h⟩
    by_contra hc
    obtain ⟨o', ho, -⟩ := h ⟨0, ⟨0, fun i => 0⟩⟩
    rw [(C27_overflow E ERR R _ d n (by omega)).1] at ho
    cases ho
  · refine ⟨fun h => ?_, fun h => (C27_sparse_partial E ERR R 0 0 0 0 d n).2.1 (by rwa [mul_comm])⟩
    by_contra hc
    obtain ⟨o', ho, -⟩ := h ⟨0, ⟨0, fun i => 0⟩⟩
    rw [(C27_overflow E ERR R _ d n (by omega)).2] at ho
    cases ho

end PW

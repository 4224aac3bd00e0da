import Verif.Props.LSConverges
import Mathlib.Analysis.Complex.ExponentialBounds

/-!
# C74: where `DikinLSWalk` does not find the Lee-Sidford weights

The intervals `[-K, 1]` at `0`, as a polytope with two constraints in one variable.
-/

namespace PW
open Classical Matrix
variable {m : ℕ}

theorem lev_one_col (M : Matrix (Fin m) (Fin 1) ℝ) (i : Fin m) : lev M i = M i 0 ^ 2 / ∑ j, M j 0 ^ 2 := by
  have e : (Mᵀ * M) 0 0 = ∑ j, M j 0 ^ 2 := by
    rw [Matrix.mul_apply]; exact Finset.sum_congr rfl fun j _ => by rw [Matrix.transpose_apply, sq]
  unfold lev
  rw [Matrix.inv_subsingleton, Matrix.mul_apply, Fin.sum_univ_one, Matrix.mul_diagonal, Matrix.transpose_apply, e,
    Ring.inverse_eq_inv]
  ring

/-- The constraints `x ≤ 1`, `-x ≤ K`. -/
def ivA : Matrix (Fin 2) (Fin 1) ℝ := Matrix.of fun i _ => if i = 0 then 1 else -1
/-- Their right-hand sides. -/
def ivB (K : ℝ) : Fin 2 → ℝ := fun i => if i = 0 then 1 else K

theorem ivA_indep : IndepCols ivA := by
  intro x hx
  have h0 := congrFun hx 0
  simp [ivA, Matrix.mulVec, dotProduct] at h0
  funext i
  rw [Subsingleton.elim i 0]
  exact h0

theorem iv_interior {K : ℝ} (hK : 0 < K) : (0 : Fin 1 → ℝ) ∈ Interior ivA (ivB K) := by
  intro i
  rw [Matrix.mulVec_zero]
  show 0 < if i = 0 then (1 : ℝ) else K
  split
  · exact one_pos
  · exact hK

theorem iv_rows (i : Fin 2) : ∃ j, ivA i j ≠ 0 := ⟨0, by
  show (if i = 0 then (1 : ℝ) else -1) ≠ 0
  split <;> norm_num⟩

theorem iv_normals (K : ℝ) (i : Fin 2) (j : Fin 1) : normals 0 ivA (ivB K) i j = if i = 0 then 1 else -1 / K := by
  unfold normals
  rw [Matrix.mulVec_zero, Pi.zero_apply, sub_zero]
  fin_cases i <;> simp [ivA, ivB]

/-- Both scores have the same denominator. -/
noncomputable def ivDen (K α : ℝ) (w : Fin 2 → ℝ) : ℝ := w 0 ^ α + w 1 ^ α / K ^ 2

theorem iv_lev {K : ℝ} {α : ℝ} {w : Fin 2 → ℝ} (hw : ∀ i, 0 < w i) :
    lev (scaledRows w (α / 2) (normals 0 ivA (ivB K))) 0 = w 0 ^ α / ivDen K α w ∧
    lev (scaledRows w (α / 2) (normals 0 ivA (ivB K))) 1 = w 1 ^ α / K ^ 2 / ivDen K α w := by
  have e0 : scaledRows w (α / 2) (normals 0 ivA (ivB K)) 0 0 ^ 2 = w 0 ^ α := by
    show (w 0 ^ (α / 2) * normals 0 ivA (ivB K) 0 0) ^ 2 = _
    rw [iv_normals, if_pos rfl, mul_one, rpow_half_sq (hw 0)]
  have e1 : scaledRows w (α / 2) (normals 0 ivA (ivB K)) 1 0 ^ 2 = w 1 ^ α / K ^ 2 := by
    show (w 1 ^ (α / 2) * normals 0 ivA (ivB K) 1 0) ^ 2 = _
    rw [iv_normals, if_neg (by decide), mul_pow, rpow_half_sq (hw 1)]
    ring
  rw [lev_one_col, lev_one_col, Fin.sum_univ_two, e0, e1]
  exact ⟨rfl, rfl⟩

section
variable {K α : ℝ} (hK : 0 < K) {w : Fin 2 → ℝ} (hw : ∀ i, 0 < w i)
include hK hw

theorem ivDen_pos : 0 < ivDen K α w := by
  have h0 := Real.rpow_pos_of_pos (hw 0) α
  have h1 := Real.rpow_pos_of_pos (hw 1) α
  unfold ivDen; positivity

/-- The relative score of the far constraint, from above. -/
theorem iv_ratio_le (h0 : 0 ≤ α) (h1 : α ≤ 1) {c0 c1 : ℝ} (hc0 : 0 < c0) (hc1 : 0 < c1) (h2 : c0 ≤ w 0) (h3 : c1 ≤ w 1) :
    lev (scaledRows w (α / 2) (normals 0 ivA (ivB K))) 1 / w 1 ≤ c1 ^ (α - 1) / K ^ 2 / c0 ^ α := by
  rw [(iv_lev hw).2]
  have p0 := Real.rpow_pos_of_pos (hw 0) α
  have p1 := Real.rpow_pos_of_pos (hw 1) α
  have hd := ivDen_pos (α := α) hK hw
  have e : w 1 ^ α / K ^ 2 / ivDen K α w / w 1 = w 1 ^ (α - 1) / K ^ 2 / ivDen K α w := by
    rw [Real.rpow_sub_one (hw 1).ne']; field_simp
  rw [e]
  have h4 : w 1 ^ (α - 1) ≤ c1 ^ (α - 1) := Real.rpow_le_rpow_of_nonpos hc1 h3 (by linarith)
  have h5 : c0 ^ α ≤ ivDen K α w := by
    have : c0 ^ α ≤ w 0 ^ α := Real.rpow_le_rpow hc0.le h2 h0
    unfold ivDen
    have : 0 ≤ w 1 ^ α / K ^ 2 := by positivity
    linarith
  have := Real.rpow_pos_of_pos hc0 α
  have := Real.rpow_pos_of_pos hc1 (α - 1)
  exact div_le_div₀ (by positivity) (div_le_div_of_nonneg_right h4 (by positivity)) (by positivity) h5

/-- And from below. -/
theorem iv_ratio_ge (h0 : 0 ≤ α) (h1 : α ≤ 1) {c1 : ℝ} (h2 : w 0 ≤ 1) (h3 : w 1 ≤ c1) (h4 : c1 ≤ 1) :
    c1 ^ (α - 1) / K ^ 2 / (1 + 1 / K ^ 2) ≤ lev (scaledRows w (α / 2) (normals 0 ivA (ivB K))) 1 / w 1 := by
  rw [(iv_lev hw).2]
  have p0 := Real.rpow_pos_of_pos (hw 0) α
  have p1 := Real.rpow_pos_of_pos (hw 1) α
  have hd := ivDen_pos (α := α) hK hw
  have e : w 1 ^ α / K ^ 2 / ivDen K α w / w 1 = w 1 ^ (α - 1) / K ^ 2 / ivDen K α w := by
    rw [Real.rpow_sub_one (hw 1).ne']; field_simp
  rw [e]
  have h5 : c1 ^ (α - 1) ≤ w 1 ^ (α - 1) := Real.rpow_le_rpow_of_nonpos (hw 1) h3 (by linarith)
  have h6 : ivDen K α w ≤ 1 + 1 / K ^ 2 := by
    have a := Real.rpow_le_one (hw 0).le h2 h0
    have b := Real.rpow_le_one (hw 1).le (h3.trans h4) h0
    unfold ivDen
    have : w 1 ^ α / K ^ 2 ≤ 1 / K ^ 2 := div_le_div_of_nonneg_right b (by positivity)
    linarith
  have := Real.rpow_pos_of_pos (hw 1) (α - 1)
  exact div_le_div₀ (by positivity) (div_le_div_of_nonneg_right h5 (by positivity)) hd h6

theorem iv_sum : lev (scaledRows w (α / 2) (normals 0 ivA (ivB K))) 0 + lev (scaledRows w (α / 2) (normals 0 ivA (ivB K))) 1 = 1 := by
  rw [(iv_lev hw).1, (iv_lev hw).2, ← add_div]
  exact div_self (ivDen_pos (α := α) hK hw).ne'
end

/-- Two constraints: `α = ln 2 / (1 + ln 2)`. -/
theorem lsExponent_two : 0.4093 < lsExponent 2 ∧ lsExponent 2 < 0.4094 := by
  have h1 := Real.log_two_gt_d9
  have h2 := Real.log_two_lt_d9
  have e : lsExponent 2 = 1 - 1 / (1 + Real.log 2) := by
    have := one_sub_lsExponent 2
    push_cast at this
    linarith
  rw [e]
  constructor
  · have : 1 / (1 + Real.log 2) < 0.5907 := by rw [div_lt_iff₀ (by linarith)]; nlinarith
    linarith
  · have : 0.5906 < 1 / (1 + Real.log 2) := by rw [lt_div_iff₀ (by linarith)]; nlinarith
    linarith

theorem iv_grad {E : Eigen ℝ} (hE : E.InvExact) {K : ℝ} (hK : 0 < K) {w : Fin 2 → ℝ} (hw : ∀ i, 0 < w i) (i : Fin 2) :
    lsGrad E (lsExponent 2) (normals 0 ivA (ivB K)) w i =
      lsExponent 2 * (1 - lev (scaledRows w (lsExponent 2 / 2) (normals 0 ivA (ivB K))) i / w i) := by
  rw [lsGrad_real hE (normals_indep (iv_interior hK) ivA_indep) _ hw]; ring

/-- **C74** (8), the floor: on `[-1000, 1]` at `0` the Lee-Sidford weights exist, but the far one is below the floor `1e-5` that the
program imposes, and the loop never stops by its criterion: whatever the step size, the iteration limit and the (admissible) past. -/
theorem C74_floor (E : Eigen ℝ) (hE : E.InvExact) (GLIM STEP : ℝ) (hG : GLIM ≤ 1 / 3) (M : Int) (o : BState ℝ) (w0 : Fin 2 → ℝ)
    (ho : StartsFrom o.w 2 w0) (h0 : ∀ i, 1 / 100000 ≤ w0 i) :
    (∃ v, IsLSWeights (lsExponent 2) (normals 0 ivA (ivB 1000)) v ∧ v 1 < 1 / 100000) ∧
    ∃ w, lsWeightConv E GLIM STEP M o.w 0 ivA (ivB 1000) = .ok (w, false) := by
  have hr := lsExponent_range 2
  have hα := lsExponent_two
  have hK : (0 : ℝ) < 1000 := by norm_num
  have hle : ∀ w : Fin 2 → ℝ, (∀ i, 1 / 100000 ≤ w i) →
      lev (scaledRows w (lsExponent 2 / 2) (normals 0 ivA (ivB 1000))) 1 / w 1 ≤ 1 / 10 := by
    intro w hw
    have hp : ∀ i, 0 < w i := fun i => lt_of_lt_of_le (by norm_num) (hw i)
    refine (iv_ratio_le hK hp hr.1 hr.2.le (c0 := 1 / 100000) (c1 := 1 / 100000) (by norm_num) (by norm_num) (hw 0) (hw 1)).trans
      (le_of_eq ?_)
    rw [Real.rpow_sub_one (by norm_num)]
    have := Real.rpow_pos_of_pos (show (0 : ℝ) < 1 / 100000 by norm_num) (lsExponent 2)
    field_simp
    norm_num
  constructor
  · obtain ⟨v, hv⟩ := (C74_exists_iff 0 ivA (ivB 1000) ivA_indep (iv_interior hK)).2 iv_rows
    refine ⟨v, hv, ?_⟩
    by_contra hc
    have hc := not_lt.1 hc
    have hs := iv_sum (α := lsExponent 2) hK hv.pos
    rw [← hv.eq 0, ← hv.eq 1] at hs
    rcases le_or_gt (1 / 100000) (v 0) with h | h
    · have := hle v fun i => by fin_cases i; exacts [h, hc]
      rw [← hv.eq 1, div_self (hv.pos 1).ne'] at this
      norm_num at this
    · -- then `v 1` is nearly one, but its ratio with `v 0` is small
      have h1 := (iv_lev (K := 1000) (α := lsExponent 2) hv.pos)
      have hd := ivDen_pos (α := lsExponent 2) hK hv.pos
      have e0 := hv.eq 0
      have e1 := hv.eq 1
      rw [h1.1] at e0
      rw [h1.2] at e1
      have p0 := Real.rpow_pos_of_pos (hv.pos 0) (lsExponent 2)
      have p1 := Real.rpow_pos_of_pos (hv.pos 1) (lsExponent 2)
      -- `v 0 ^ α ≥ v 0`-type bounds: `v 1 = v 1 ^ α / (10^6 D) ≤ 1 / (10^6 D)` and `v 0 = v 0 ^ α / D`
      have a0 : v 0 ^ (lsExponent 2 - 1) = ivDen 1000 (lsExponent 2) v := by
        rw [Real.rpow_sub_one (hv.pos 0).ne']
        rw [eq_div_iff hd.ne'] at e0
        rw [div_eq_iff (hv.pos 0).ne', mul_comm]
        exact e0.symm
      have a1 : v 1 ^ (lsExponent 2 - 1) = 1000000 * ivDen 1000 (lsExponent 2) v := by
        rw [Real.rpow_sub_one (hv.pos 1).ne']
        rw [eq_div_iff hd.ne'] at e1
        rw [div_eq_iff (hv.pos 1).ne']
        have : v 1 ^ lsExponent 2 = 1000000 * (v 1 ^ lsExponent 2 / 1000 ^ 2) := by norm_num; ring
        rw [this, ← e1]; ring
      have h2 : v 0 ≤ v 1 := by linarith
      have h3 : v 1 ^ (lsExponent 2 - 1) ≤ v 0 ^ (lsExponent 2 - 1) :=
        Real.rpow_le_rpow_of_nonpos (hv.pos 0) h2 (by linarith [hr.2])
      rw [a0, a1] at h3
      linarith
  · obtain ⟨w, c, hw⟩ : ∃ w c, lsWeightConv E GLIM STEP M o.w 0 ivA (ivB 1000) = .ok (w, c) := by
      unfold lsWeightConv
      rw [warmStart_iff.2 ho, Out.ok_bind]
      exact ⟨_, _, rfl⟩
    refine ⟨w, ?_⟩
    rw [hw]
    unfold lsWeightConv at hw
    rw [warmStart_iff.2 ho, Out.ok_bind, scaledA_real, show ((2 : ℕ) : Int) = ((2 : ℕ) : Int) from rfl, lsAlpha_real] at hw
    have hs := lsLoop_spec (I := fun w : Fin 2 → ℝ => ∀ i, 1 / 100000 ≤ w i)
      (grad := lsGrad E (lsExponent 2) (normals 0 ivA (ivB 1000)))
      (upd := fun w g i => cmax (w i - STEP * g i) (lsErr * 1)) (GLIM := GLIM)
      (by
        intro w _ i
        rw [cmax_real]
        refine le_trans ?_ (le_max_right _ _)
        simp [lsErr]) M.toNat w0 h0
    rw [Out.ok.inj hw] at hs
    have hp : ∀ i, 0 < w i := fun i => lt_of_lt_of_le (by norm_num) (hs.1 i)
    have : c = false := by
      by_contra hc
      have hg := abs_lt_of_norm2_lt (hs.2 (by simpa using hc)) 1
      rw [iv_grad hE hK hp] at hg
      have h1 := hle w hs.1
      have h2 := (abs_lt.1 hg).2
      nlinarith [hα.1]
    rw [this]

/-! ## The step size -/

theorem rpow_div_le {a c : ℝ} (ha : 0 < a) (hc : 0 ≤ c) (p q : ℕ) (hq : q ≠ 0) (h : a ^ p ≤ c ^ q) : a ^ ((p : ℝ) / q) ≤ c := by
  rw [div_eq_mul_inv, Real.rpow_mul ha.le, Real.rpow_natCast]
  calc (a ^ p) ^ ((q : ℝ)⁻¹) ≤ (c ^ q) ^ ((q : ℝ)⁻¹) := Real.rpow_le_rpow (pow_nonneg ha.le p) h (by positivity)
    _ = c := Real.pow_rpow_inv_natCast hc hq

theorem le_rpow_div {a c : ℝ} (ha : 0 < a) (hc : 0 ≤ c) (p q : ℕ) (hq : q ≠ 0) (h : c ^ q ≤ a ^ p) : c ≤ a ^ ((p : ℝ) / q) := by
  rw [div_eq_mul_inv, Real.rpow_mul ha.le, Real.rpow_natCast]
  calc c = (c ^ q) ^ ((q : ℝ)⁻¹) := (Real.pow_rpow_inv_natCast hc hq).symm
    _ ≤ (a ^ p) ^ ((q : ℝ)⁻¹) := Real.rpow_le_rpow (pow_nonneg hc q) h (by positivity)

theorem inv_rpow_le {a c : ℝ} (ha : 1 ≤ a) (hc : 0 ≤ c) {α : ℝ} (hα : 2 / 5 ≤ α) (h : a ^ 3 ≤ c ^ 5) : (1 / a) ^ (α - 1) ≤ c := by
  have ha0 : 0 < a := by linarith
  rw [one_div, Real.inv_rpow ha0.le, ← Real.rpow_neg ha0.le]
  calc a ^ (-(α - 1)) ≤ a ^ (((3 : ℕ) : ℝ) / (5 : ℕ)) := Real.rpow_le_rpow_of_exponent_le ha (by push_cast; linarith)
    _ ≤ c := rpow_div_le ha0 hc 3 5 (by norm_num) h

section
variable {w : Fin 2 → ℝ}

/-- Bounds on the relative score of the far constraint of `[-25, 1]`. -/
theorem iv25_le (h0 : 9 / 10 ≤ w 0) {a c : ℝ} (ha : 1 ≤ a) (hc : 0 ≤ c) (hac : a ^ 3 ≤ c ^ 5) (h1 : 1 / a ≤ w 1) :
    lev (scaledRows w (lsExponent 2 / 2) (normals 0 ivA (ivB 25))) 1 / w 1 ≤ c / 625 / (9 / 10) := by
  have hα := lsExponent_two
  have ha0 : (0 : ℝ) < 1 / a := by positivity
  have hp : ∀ i, 0 < w i := fun i => by fin_cases i; exacts [lt_of_lt_of_le (by norm_num) h0, lt_of_lt_of_le ha0 h1]
  have h := iv_ratio_le (K := 25) (by norm_num) hp (α := lsExponent 2) (by linarith) (by linarith) (c0 := 9 / 10) (c1 := 1 / a)
    (by norm_num) ha0 h0 h1
  refine h.trans ?_
  have h2 := inv_rpow_le ha hc (α := lsExponent 2) (by linarith) hac
  have h3 : (9 / 10 : ℝ) ≤ (9 / 10 : ℝ) ^ lsExponent 2 := by
    calc (9 / 10 : ℝ) = (9 / 10 : ℝ) ^ (1 : ℝ) := (Real.rpow_one _).symm
      _ ≤ _ := Real.rpow_le_rpow_of_exponent_ge (by norm_num) (by norm_num) (by linarith)
  have e : (25 : ℝ) ^ 2 = 625 := by norm_num
  rw [e]
  exact div_le_div₀ (by positivity) (div_le_div_of_nonneg_right h2 (by norm_num)) (by norm_num) h3

theorem iv25_ge (h0 : 0 < w 0) (h0' : w 0 ≤ 1) (h1 : 0 < w 1) (h1' : w 1 ≤ 1 / 100000) :
    6 / 5 ≤ lev (scaledRows w (lsExponent 2 / 2) (normals 0 ivA (ivB 25))) 1 / w 1 := by
  have hα := lsExponent_two
  have hp : ∀ i, 0 < w i := fun i => by fin_cases i; exacts [h0, h1]
  have h := iv_ratio_ge (K := 25) (by norm_num) hp (α := lsExponent 2) (by linarith) (by linarith) (c1 := 1 / 100000) h0' h1'
    (by norm_num)
  refine le_trans ?_ h
  have h2 : (800 : ℝ) ≤ (1 / 100000 : ℝ) ^ (lsExponent 2 - 1) := by
    rw [one_div, Real.inv_rpow (by norm_num), ← Real.rpow_neg (by norm_num)]
    calc (800 : ℝ) ≤ (100000 : ℝ) ^ (((59 : ℕ) : ℝ) / (100 : ℕ)) := le_rpow_div (by norm_num) (by norm_num) 59 100 (by norm_num) (by norm_num)
      _ ≤ _ := Real.rpow_le_rpow_of_exponent_le (by norm_num) (by push_cast; linarith)
  have e : (1 / 100000 : ℝ) ^ (lsExponent 2 - 1) / 25 ^ 2 / (1 + 1 / 25 ^ 2) = (1 / 100000 : ℝ) ^ (lsExponent 2 - 1) / 626 := by
    field_simp; norm_num
  rw [e, le_div_iff₀ (by norm_num)]
  linarith

end

/-- Where the loop can be: the near weight close to one, the far one on its way down from one, at the floor, or in the middle. -/
inductive Iv25 (w : Fin 2 → ℝ) : Prop
  | down (h0 : 9 / 10 ≤ w 0 ∧ w 0 ≤ 1) (t : ℕ) (ht : t ≤ 24) (h1 : 1 - 1 / 10 * lsExponent 2 * t ≤ w 1)
      (h2 : w 1 ≤ 1 - 1 / 10 * lsExponent 2 * t + t * (9 / 10000)) : Iv25 w
  | floor (h0 : 9 / 10 ≤ w 0 ∧ w 0 ≤ 1) (h1 : w 1 = 1 / 100000) : Iv25 w
  | mid (h0 : 9 / 10 ≤ w 0 ∧ w 0 ≤ 1) (h1 : 1 / 125 ≤ w 1) (h2 : w 1 ≤ 35 / 1000) : Iv25 w

/-- In all these places the far weight is at least 20% off its score. -/
theorem Iv25.off {w : Fin 2 → ℝ} (h : Iv25 w) : (∀ i, 1 / 100000 ≤ w i) ∧ (∀ i, w i ≤ 1) ∧ 9 / 10 ≤ w 0 ∧
    1 / 5 ≤ |1 - lev (scaledRows w (lsExponent 2 / 2) (normals 0 ivA (ivB 25))) 1 / w 1| := by
  have hα := lsExponent_two
  cases h with
  | down h0 t ht h1 h2 =>
    have ht' : (t : ℝ) ≤ 24 := by exact_mod_cast ht
    have ht0 : (0 : ℝ) ≤ t := Nat.cast_nonneg t
    have hlow : 1 / 64 ≤ w 1 := by nlinarith
    have hup : w 1 ≤ 1 := by nlinarith
    have hr := iv25_le h0.1 (a := 64) (c := 12.2) (by norm_num) (by norm_num) (by norm_num) hlow
    refine ⟨fun i => ?_, fun i => ?_, h0.1, ?_⟩
    · fin_cases i
      · exact le_trans (by norm_num) h0.1
      · exact le_trans (by norm_num) hlow
    · fin_cases i; exacts [h0.2, hup]
    · refine le_trans ?_ (le_abs_self _)
      norm_num at hr; linarith
  | floor h0 h1 =>
    have hr := iv25_ge (w := w) (by linarith [h0.1]) h0.2 (by rw [h1]; norm_num) h1.le
    refine ⟨fun i => ?_, fun i => ?_, h0.1, ?_⟩
    · fin_cases i
      · exact le_trans (by norm_num) h0.1
      · exact h1.ge
    · fin_cases i
      · exact h0.2
      · exact h1.le.trans (by norm_num)
    · rw [abs_sub_comm]
      refine le_trans ?_ (le_abs_self _)
      linarith
  | mid h0 h1 h2 =>
    have hr := iv25_le h0.1 (a := 125) (c := 18.2) (by norm_num) (by norm_num) (by norm_num) h1
    refine ⟨fun i => ?_, fun i => ?_, h0.1, ?_⟩
    · fin_cases i
      · exact le_trans (by norm_num) h0.1
      · exact le_trans (by norm_num) h1
    · fin_cases i
      · exact h0.2
      · exact h2.trans (by norm_num)
    · refine le_trans ?_ (le_abs_self _)
      norm_num at hr; linarith

/-- The pass keeps it there. -/
theorem Iv25.step {w : Fin 2 → ℝ} (h : Iv25 w) {w' : Fin 2 → ℝ}
    (hw' : ∀ i, w' i = max (w i - 1 / 10 * (lsExponent 2 * (1 - lev (scaledRows w (lsExponent 2 / 2) (normals 0 ivA (ivB 25))) i / w i)))
      (1 / 100000)) : Iv25 w' := by
  have hα := lsExponent_two
  obtain ⟨hlo, hhi, h90, -⟩ := h.off
  have hp : ∀ i, 0 < w i := fun i => lt_of_lt_of_le (by norm_num) (hlo i)
  set ρ := lev (scaledRows w (lsExponent 2 / 2) (normals 0 ivA (ivB 25))) 1 / w 1 with hρ
  -- the near weight
  have hnear : 9 / 10 ≤ w' 0 ∧ w' 0 ≤ 1 := by
    have hI := scaledRows_indep (normals_indep (iv_interior (K := 25) (by norm_num)) ivA_indep) hp (lsExponent 2 / 2)
    have hs := iv_sum (K := 25) (α := lsExponent 2) (by norm_num) hp
    have hs1 : lev (scaledRows w (lsExponent 2 / 2) (normals 0 ivA (ivB 25))) 1 ≤ 1 / 10 := by
      rw [(iv_lev hp).2]
      have hd : 9 / 10 ≤ ivDen 25 (lsExponent 2) w := by
        have h3 : (9 / 10 : ℝ) ≤ w 0 ^ lsExponent 2 := by
          calc (9 / 10 : ℝ) ≤ w 0 := h90
            _ = w 0 ^ (1 : ℝ) := (Real.rpow_one _).symm
            _ ≤ _ := Real.rpow_le_rpow_of_exponent_ge (hp 0) (hhi 0) (by linarith)
        have := Real.rpow_pos_of_pos (hp 1) (lsExponent 2)
        unfold ivDen
        have : 0 ≤ w 1 ^ lsExponent 2 / 25 ^ 2 := by positivity
        linarith
      have h4 := Real.rpow_le_one (hp 1).le (hhi 1) (show 0 ≤ lsExponent 2 by linarith)
      rw [div_le_iff₀ (by linarith)]
      have : w 1 ^ lsExponent 2 / 25 ^ 2 ≤ 1 / 25 ^ 2 := div_le_div_of_nonneg_right h4 (by norm_num)
      linarith
    have hs0 := lev_le_one _ hI 0
    have hge : 9 / 10 ≤ lev (scaledRows w (lsExponent 2 / 2) (normals 0 ivA (ivB 25))) 0 := by linarith
    set s := lev (scaledRows w (lsExponent 2 / 2) (normals 0 ivA (ivB 25))) 0 with hs_def
    have e1 : w 0 - 1 / 10 * (lsExponent 2 * (1 - s / w 0)) - 9 / 10 =
        (w 0 - 9 / 10) * (1 - 1 / 10 * lsExponent 2 / w 0) + 1 / 10 * lsExponent 2 / w 0 * (s - 9 / 10) := by
      have := (hp 0).ne'; field_simp; ring
    have e2 : 1 - (w 0 - 1 / 10 * (lsExponent 2 * (1 - s / w 0))) =
        (1 - w 0) * (1 - 1 / 10 * lsExponent 2 / w 0) + 1 / 10 * lsExponent 2 / w 0 * (1 - s) := by
      have := (hp 0).ne'; field_simp; ring
    have q0 : 0 ≤ 1 / 10 * lsExponent 2 / w 0 := div_nonneg (by linarith) (hp 0).le
    have q1 : 0 ≤ 1 - 1 / 10 * lsExponent 2 / w 0 := by
      rw [sub_nonneg, div_le_one (hp 0)]; linarith
    have a1 := add_nonneg (mul_nonneg (sub_nonneg.2 h90) q1) (mul_nonneg q0 (sub_nonneg.2 hge))
    have a2 := add_nonneg (mul_nonneg (sub_nonneg.2 (hhi 0)) q1) (mul_nonneg q0 (sub_nonneg.2 hs0))
    rw [hw' 0]
    exact ⟨le_trans (by linarith) (le_max_left _ _), max_le (by linarith) (by norm_num)⟩
  have hw1 := hw' 1
  rw [← hρ] at hw1
  have hρ0 : 0 ≤ ρ := div_nonneg (lev_nonneg _
    (scaledRows_indep (normals_indep (iv_interior (K := 25) (by norm_num)) ivA_indep) hp (lsExponent 2 / 2)) 1) (hp 1).le
  cases h with
  | down h0 t ht h1 h2 =>
    have ht' : (t : ℝ) ≤ 24 := by exact_mod_cast ht
    have ht0 : (0 : ℝ) ≤ t := Nat.cast_nonneg t
    have hlow : 1 / 64 ≤ w 1 := by nlinarith
    have hr := iv25_le h0.1 (a := 64) (c := 12.2) (by norm_num) (by norm_num) (by norm_num) hlow
    rw [← hρ] at hr
    norm_num at hr
    rcases Nat.lt_or_ge t 24 with h24 | h24
    · have h24' : (t : ℝ) + 1 ≤ 24 := by exact_mod_cast h24
      have hbig : 1 / 100000 ≤ w 1 - 1 / 10 * (lsExponent 2 * (1 - ρ)) := by nlinarith
      rw [max_eq_left hbig] at hw1
      refine .down hnear (t + 1) h24 ?_ ?_
      · rw [hw1]; push_cast; nlinarith
      · rw [hw1]; push_cast; nlinarith
    · have e : t = 24 := by omega
      subst e
      refine .floor hnear ?_
      rw [hw1]
      refine max_eq_right ?_
      push_cast at h2
      nlinarith
  | floor h0 h1 =>
    have hr := iv25_ge (w := w) (hp 0) h0.2 (hp 1) h1.le
    have hr' := iv25_le h0.1 (a := 100000) (c := 1000) (by norm_num) (by norm_num) (by norm_num) h1.ge
    rw [← hρ] at hr hr'
    norm_num at hr'
    have hbig : 1 / 100000 ≤ w 1 - 1 / 10 * (lsExponent 2 * (1 - ρ)) := by nlinarith
    rw [max_eq_left hbig] at hw1
    refine .mid hnear ?_ ?_
    · rw [hw1]; nlinarith
    · rw [hw1]; nlinarith
  | mid h0 h1 h2 =>
    have hr := iv25_le h0.1 (a := 125) (c := 18.2) (by norm_num) (by norm_num) (by norm_num) h1
    rw [← hρ] at hr
    norm_num at hr
    refine .floor hnear ?_
    rw [hw1]
    refine max_eq_right ?_
    nlinarith

/-- **C74** (9), the step size: on `[-25, 1]` at `0` the Lee-Sidford weights exist and are above the floor, but a `DikinLSWalk` that
starts from all ones with the default step size `0.1` never meets its criterion (default `0.01`), whatever the iteration limit, and
what it returns violates the equation by at least 20% at the far constraint. -/
theorem C74_default_step (E : Eigen ℝ) (hE : E.InvExact) (GLIM : ℝ) (hG : GLIM ≤ 1 / 20) (M : Int) (o : BState ℝ)
    (ho : StartsAtOnes o.w 2) :
    (∃ v, IsLSWeights (lsExponent 2) (normals 0 ivA (ivB 25)) v ∧ ∀ i, 1 / 100000 < v i) ∧
    ∃ w, lsWeightConv E GLIM (1 / 10) M o.w 0 ivA (ivB 25) = .ok (w, false) ∧
      w 1 / 5 ≤ |w 1 - lev (scaledRows w (lsExponent 2 / 2) (normals 0 ivA (ivB 25))) 1| := by
  have hα := lsExponent_two
  have hK : (0 : ℝ) < 25 := by norm_num
  constructor
  · obtain ⟨v, hv⟩ := (C74_exists_iff 0 ivA (ivB 25) ivA_indep (iv_interior hK)).2 iv_rows
    have hs := iv_sum (α := lsExponent 2) hK hv.pos
    rw [← hv.eq 0, ← hv.eq 1] at hs
    have h1 : 1 / 100000 < v 1 := by
      by_contra hc
      have := iv25_ge (w := v) (hv.pos 0) (by linarith [hv.pos 1]) (hv.pos 1) (not_lt.1 hc)
      rw [← hv.eq 1, div_self (hv.pos 1).ne'] at this
      norm_num at this
    refine ⟨v, hv, fun i => ?_⟩
    fin_cases i
    · by_contra hc
      have hc := not_lt.1 hc
      simp only [Fin.zero_eta] at hc
      -- the near score is at least half
      have hl := (iv_lev (K := 25) (α := lsExponent 2) hv.pos)
      have hd := ivDen_pos (α := lsExponent 2) hK hv.pos
      have e0 := hv.eq 0
      rw [hl.1] at e0
      have p0 := Real.rpow_pos_of_pos (hv.pos 0) (lsExponent 2)
      have a0 : v 0 ^ (lsExponent 2 - 1) = ivDen 25 (lsExponent 2) v := by
        rw [Real.rpow_sub_one (hv.pos 0).ne']
        rw [eq_div_iff hd.ne'] at e0
        rw [div_eq_iff (hv.pos 0).ne', mul_comm]
        exact e0.symm
      have a1 : 1 ≤ v 0 ^ (lsExponent 2 - 1) := by
        calc (1 : ℝ) = 1 ^ (lsExponent 2 - 1) := (Real.one_rpow _).symm
          _ ≤ _ := Real.rpow_le_rpow_of_nonpos (hv.pos 0) (by linarith) (by linarith)
      have a2 : v 0 ^ lsExponent 2 ≤ 1 / 100 := by
        have h3 : v 0 ^ lsExponent 2 ≤ (1 / 100000 : ℝ) ^ (((2 : ℕ) : ℝ) / (5 : ℕ)) := by
          calc v 0 ^ lsExponent 2 ≤ (1 / 100000 : ℝ) ^ lsExponent 2 := Real.rpow_le_rpow (hv.pos 0).le hc (by linarith)
            _ ≤ _ := Real.rpow_le_rpow_of_exponent_ge (by norm_num) (by norm_num) (by push_cast; linarith)
        exact h3.trans (rpow_div_le (by norm_num) (by norm_num) 2 5 (by norm_num) (by norm_num))
      have a3 := Real.rpow_le_one (hv.pos 1).le (show v 1 ≤ 1 by linarith [hv.pos 0]) (show 0 ≤ lsExponent 2 by linarith)
      rw [a0] at a1
      unfold ivDen at a1
      have : v 1 ^ lsExponent 2 / 25 ^ 2 ≤ 1 / 25 ^ 2 := div_le_div_of_nonneg_right a3 (by norm_num)
      norm_num at this
      linarith
    · exact h1
  · obtain ⟨w, c, hw⟩ : ∃ w c, lsWeightConv E GLIM (1 / 10) M o.w 0 ivA (ivB 25) = .ok (w, c) := by
      unfold lsWeightConv
      rw [warmStart_iff.2 ho, Out.ok_bind]
      exact ⟨_, _, rfl⟩
    refine ⟨w, ?_⟩
    rw [hw]
    unfold lsWeightConv at hw
    rw [warmStart_iff.2 ho, Out.ok_bind, scaledA_real, show ((2 : ℕ) : Int) = ((2 : ℕ) : Int) from rfl, lsAlpha_real] at hw
    have hs := lsLoop_spec (I := Iv25)
      (grad := lsGrad E (lsExponent 2) (normals 0 ivA (ivB 25)))
      (upd := fun w g i => cmax (w i - 1 / 10 * g i) (lsErr * 1)) (GLIM := GLIM)
      (by
        intro w hI
        have hp : ∀ i, 0 < w i := fun i => lt_of_lt_of_le (by norm_num) (hI.off.1 i)
        refine hI.step fun i => ?_
        rw [cmax_real, iv_grad hE hK hp]
        simp [lsErr]) M.toNat (fun _ => 1) (.down (by norm_num) 0 (by norm_num) (by norm_num) (by norm_num))
    rw [Out.ok.inj hw] at hs
    obtain ⟨hlo, -, -, hoff⟩ := hs.1.off
    have hp : ∀ i, 0 < w i := fun i => lt_of_lt_of_le (by norm_num) (hlo i)
    dsimp only at hlo hoff hp
    have hc : c = false := by
      by_contra hc
      have hg := abs_lt_of_norm2_lt (hs.2 (by simpa using hc)) 1
      rw [iv_grad hE hK hp, abs_mul, abs_of_pos (show 0 < lsExponent 2 by linarith)] at hg
      nlinarith
    refine ⟨by rw [hc], ?_⟩
    have e : w 1 - lev (scaledRows w (lsExponent 2 / 2) (normals 0 ivA (ivB 25))) 1 =
        w 1 * (1 - lev (scaledRows w (lsExponent 2 / 2) (normals 0 ivA (ivB 25))) 1 / w 1) := by
      have := (hp 1).ne'; field_simp
    rw [e, abs_mul, abs_of_pos (hp 1)]
    nlinarith [hp 1]

end PW

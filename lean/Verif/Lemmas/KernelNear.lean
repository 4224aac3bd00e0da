import Verif.Lemmas.Perturb
import Verif.Lemmas.SparseMHStep
import Verif.Lemmas.LogDet

/-! # The proposal density of a sparse barrier walk under a small change of the metric -/

namespace PW
open Matrix MeasureTheory Set Filter Topology
open scoped ENNReal
variable {m n d : ℕ}

/-- The exponent of the proposal density. -/
noncomputable def kerQuad (D : ℝ) (G x z : Fin n → ℝ) : ℝ := 1 / 2 / D * ∑ i, (z i - x i) * (G i * (z i - x i))

theorem kerQuad_nonneg {D : ℝ} (hD : 0 < D) {G : Fin n → ℝ} (hG : ∀ i, 0 < G i) (x z : Fin n → ℝ) : 0 ≤ kerQuad D G x z := by
  unfold kerQuad
  refine mul_nonneg (by positivity) (Finset.sum_nonneg fun i _ => ?_)
  have := mul_nonneg (hG i).le (mul_self_nonneg (z i - x i))
  linarith [this, show (z i - x i) * (G i * (z i - x i)) = G i * ((z i - x i) * (z i - x i)) by ring]

theorem kerQuad_near {D : ℝ} (hD : 0 < D) {G G' : Fin n → ℝ} {τ : ℝ} (h : ∀ i, |G' i - G i| ≤ τ * G i) (x z : Fin n → ℝ) :
    |kerQuad D G' x z - kerQuad D G x z| ≤ τ * kerQuad D G x z := by
  unfold kerQuad
  rw [← mul_sub, ← Finset.sum_sub_distrib, abs_mul, abs_of_pos (by positivity : 0 < 1 / 2 / D)]
  have h1 : |∑ i, ((z i - x i) * (G' i * (z i - x i)) - (z i - x i) * (G i * (z i - x i)))| ≤ τ * ∑ i, (z i - x i) * (G i * (z i - x i)) := by
    refine (Finset.abs_sum_le_sum_abs _ _).trans ?_
    rw [Finset.mul_sum]
    refine Finset.sum_le_sum fun i _ => ?_
    have e : (z i - x i) * (G' i * (z i - x i)) - (z i - x i) * (G i * (z i - x i)) = (G' i - G i) * ((z i - x i) * (z i - x i)) := by ring
    rw [e, abs_mul, abs_of_nonneg (mul_self_nonneg (z i - x i))]
    have := mul_le_mul_of_nonneg_right (h i) (mul_self_nonneg (z i - x i))
    linarith [show τ * G i * ((z i - x i) * (z i - x i)) = τ * ((z i - x i) * (G i * (z i - x i))) by ring]
  have := mul_le_mul_of_nonneg_left h1 (by positivity : 0 ≤ 1 / 2 / D)
  linarith [show 1 / 2 / D * (τ * ∑ i, (z i - x i) * (G i * (z i - x i))) = τ * (1 / 2 / D * ∑ i, (z i - x i) * (G i * (z i - x i))) by ring]

theorem log_near {c τ : ℝ} (hτ : τ ≤ 1 / 2) (h : |c - 1| ≤ τ) : 0 < c ∧ -(2 * τ) ≤ Real.log c ∧ c - 1 ≤ τ := by
  have h1 := abs_le.1 h
  have hc : 0 < c := by linarith
  refine ⟨hc, ?_, h1.2⟩
  have h2 := Real.one_sub_inv_le_log_of_pos hc
  refine le_trans ?_ h2
  have h3 : 1 - c⁻¹ = (c - 1) / c := by field_simp
  rw [h3, le_div_iff₀ hc]
  have ht : 0 ≤ τ := (abs_nonneg _).trans h
  nlinarith [h1.1, h1.2, mul_nonneg ht (by linarith : 0 ≤ 2 * c - 1)]

/-- The log density changes by at most `τ (d + quadratic form)`. -/
theorem kerLogDens_near {A : Matrix (Fin m) (Fin n) ℝ} (hA : IndepRows A) {B : Matrix (Fin n) (Fin d) ℝ} (hB : IsKernelBasis A B) {D : ℝ} (hD : 0 < D)
    {G G' : Fin n → ℝ} (hG : ∀ i, 0 < G i) {τ : ℝ} (hτ : τ ≤ 1 / 2) (h : ∀ i, |G' i - G i| ≤ τ * G i) (x z : Fin n → ℝ) :
    (∀ i, 0 < G' i) ∧ |kerLogDens A D G' x z - kerLogDens A D G x z| ≤ τ * (d + kerQuad D G x z) := by
  have hr : ∀ i, |G' i / G i - 1| ≤ τ := fun i => by
    have e : G' i / G i - 1 = (G' i - G i) / G i := by have := (hG i).ne'; field_simp
    rw [e, abs_div, abs_of_pos (hG i), div_le_iff₀ (hG i)]; exact h i
  have hG' : ∀ i, 0 < G' i := fun i => by
    have := (log_near hτ (hr i)).1
    rwa [div_pos_iff_of_pos_right (hG i)] at this
  refine ⟨hG', ?_⟩
  obtain ⟨c, hc, hdet⟩ := det_kernel hA hB
  set B' : Matrix (Fin n) (Fin d) ℝ := diagonal (fun i => Real.sqrt (G i)) * B with hB'
  have hI : IndepCols B' := by
    intro u hu
    refine hB.inj u ?_
    funext i
    have h1 := congrFun hu i
    rw [hB', ← Matrix.mulVec_mulVec, Matrix.mulVec_diagonal] at h1
    simp only [Pi.zero_apply, mul_eq_zero] at h1
    exact h1.resolve_left (Real.sqrt_pos.2 (hG i)).ne'
  have hgram : ∀ e : Fin n → ℝ, B'ᵀ * diagonal e * B' = Bᵀ * diagonal (fun i => G i * e i) * B := by
    intro e
    rw [hB', Matrix.transpose_mul, Matrix.diagonal_transpose]
    have : Bᵀ * diagonal (fun i => Real.sqrt (G i)) * diagonal e * (diagonal (fun i => Real.sqrt (G i)) * B) =
        Bᵀ * (diagonal (fun i => Real.sqrt (G i)) * diagonal e * diagonal (fun i => Real.sqrt (G i))) * B := by simp only [Matrix.mul_assoc]
    rw [this, Matrix.diagonal_mul_diagonal, Matrix.diagonal_mul_diagonal]
    congr 3
    funext i
    have := Real.mul_self_sqrt (hG i).le
    calc Real.sqrt (G i) * e i * Real.sqrt (G i) = Real.sqrt (G i) * Real.sqrt (G i) * e i := by ring
      _ = _ := by rw [this]
  have g1 : B'ᵀ * diagonal (fun i => G' i / G i) * B' = Bᵀ * diagonal G' * B := by
    rw [hgram]
    congr 3
    funext i
    have := (hG i).ne'
    field_simp
  have g2 : B'ᵀ * B' = Bᵀ * diagonal G * B := by
    have := hgram fun _ => 1
    rw [show (diagonal fun _ : Fin n => (1 : ℝ)) = 1 from Matrix.diagonal_one, Matrix.mul_one] at this
    rw [this]
    simp only [mul_one]
  obtain ⟨-, b1, b2⟩ := logdet_bounds hI (c := fun i => G' i / G i) fun i => (log_near hτ (hr i)).1
  rw [g1, g2] at b1 b2
  have hlevs := lev_sum B' hI
  have l1 : -(2 * τ) * d ≤ ∑ i, lev B' i * Real.log (G' i / G i) := by
    calc -(2 * τ) * d = ∑ i, lev B' i * -(2 * τ) := by rw [← Finset.sum_mul, hlevs, mul_comm]
      _ ≤ _ := Finset.sum_le_sum fun i _ => mul_le_mul_of_nonneg_left (log_near hτ (hr i)).2.1 (lev_nonneg B' hI i)
  have l2 : ∑ i, lev B' i * (G' i / G i - 1) ≤ τ * d := by
    calc _ ≤ ∑ i, lev B' i * τ := Finset.sum_le_sum fun i _ => mul_le_mul_of_nonneg_left (log_near hτ (hr i)).2.2 (lev_nonneg B' hI i)
      _ = _ := by rw [← Finset.sum_mul, hlevs, mul_comm]
  have hlog : ∀ G : Fin n → ℝ, (∀ i, 0 < G i) → (∑ i, Real.log (G i)) +
      Real.log ((A * diagonal (invSqrt G)) * (A * diagonal (invSqrt G))ᵀ).det = Real.log (Bᵀ * diagonal G * B).det - Real.log c := by
    intro G hG
    have hP : 0 < ∏ i, G i := Finset.prod_pos fun i _ => hG i
    have hH := (scaled_posDef hA hG).det_pos
    rw [hdet G hG, Real.log_mul hc.ne' (mul_pos hP hH).ne', Real.log_mul hP.ne' hH.ne', Real.log_prod fun i _ => (hG i).ne']
    ring
  have hq := abs_le.1 (kerQuad_near hD h x z)
  have e : kerLogDens A D G' x z - kerLogDens A D G x z =
      1 / 2 * (Real.log (Bᵀ * diagonal G' * B).det - Real.log (Bᵀ * diagonal G * B).det) - (kerQuad D G' x z - kerQuad D G x z) := by
    unfold kerLogDens kerQuad
    rw [hlog G hG, hlog G' hG']; ring
  have ht : 0 ≤ τ * d ∨ d = 0 := by
    rcases Nat.eq_zero_or_pos d with h0 | h0
    · exact Or.inr h0
    · left
      obtain ⟨i⟩ : Nonempty (Fin n) := by
        by_contra hne
        rw [not_nonempty_iff] at hne
        have := hB.inj (fun _ => 1) (Subsingleton.elim _ _)
        exact one_ne_zero (congrFun this ⟨0, h0⟩)
      exact mul_nonneg ((abs_nonneg _).trans (hr i)) (Nat.cast_nonneg d)
  have ht' : 0 ≤ τ * d := by
    rcases ht with h0 | h0
    · exact h0
    · rw [h0]; simp
  rw [e, abs_le]
  constructor <;> nlinarith [hq.1, hq.2]

/-! ## Flows -/

/-- Bound on the change of the flow from `x` to `y`. -/
noncomputable def flowBound (A : Matrix (Fin m) (Fin n) ℝ) (D : ℝ) (Gf : (Fin n → ℝ) → Fin n → ℝ) (d : ℕ) (τ : ℝ) (x y : Fin n → ℝ) : ℝ :=
  min ((Real.exp (3 * τ * ((d + kerQuad D (Gf x) x y) + (d + kerQuad D (Gf y) y x))) - 1) *
      min (Real.exp (kerLogDens A D (Gf x) x y)) (Real.exp (kerLogDens A D (Gf y) y x)))
    (Real.exp (kerLogDens A D (Gf x) x y + τ * (d + kerQuad D (Gf x) x y)))

theorem flow_near {L1 L2 L3 Lx Ly τ p q : ℝ} (hp : 0 ≤ p) (hq : 0 ≤ q) (hτ : 0 ≤ τ) (h1 : |L1 - Lx| ≤ τ * p) (h2 : |L2 - Lx| ≤ τ * p) (h3 : |L3 - Ly| ≤ τ * q) :
    |Real.exp L1 * min 1 (Real.exp (L3 - L2)) - Real.exp Lx * min 1 (Real.exp (Ly - Lx))| ≤
      min ((Real.exp (3 * τ * (p + q)) - 1) * min (Real.exp Lx) (Real.exp Ly)) (Real.exp (Lx + τ * p)) := by
  have key : ∀ a b : ℝ, Real.exp a * min 1 (Real.exp b) = Real.exp (min a (a + b)) := by
    intro a b
    rw [mul_min_of_nonneg _ _ (Real.exp_pos a).le, mul_one, ← Real.exp_add]
    rcases le_total a (a + b) with h | h
    · rw [min_eq_left h, min_eq_left (Real.exp_le_exp.2 h)]
    · rw [min_eq_right h, min_eq_right (Real.exp_le_exp.2 h)]
  have e2 : min (Real.exp Lx) (Real.exp Ly) = Real.exp (min Lx Ly) := by
    rcases le_total Lx Ly with h | h
    · rw [min_eq_left h, min_eq_left (Real.exp_le_exp.2 h)]
    · rw [min_eq_right h, min_eq_right (Real.exp_le_exp.2 h)]
  rw [key, key, e2, add_sub_cancel]
  have a1 := abs_le.1 h1
  have a2 := abs_le.1 h2
  have a3 := abs_le.1 h3
  have tp := mul_nonneg hτ hp
  have tq := mul_nonneg hτ hq
  set s := min L1 (L1 + (L3 - L2)) with hs
  set t := min Lx Ly with ht
  have eE : 3 * τ * (p + q) = 3 * (τ * p) + 3 * (τ * q) := by ring
  have d1 : s ≤ t + 3 * τ * (p + q) := by
    rw [eE, ht, ← min_add_add_right]
    refine le_min ?_ ?_
    · have := min_le_left L1 (L1 + (L3 - L2)); linarith
    · have := min_le_right L1 (L1 + (L3 - L2)); linarith
  have d2 : t ≤ s + 3 * τ * (p + q) := by
    rw [eE, hs, ← min_add_add_right]
    refine le_min ?_ ?_
    · have := min_le_left Lx Ly; linarith
    · have := min_le_right Lx Ly; linarith
  have d3 : s ≤ Lx + τ * p := by have := min_le_left L1 (L1 + (L3 - L2)); linarith
  have d4 : t ≤ Lx + τ * p := by have := min_le_left Lx Ly; linarith
  set e := 3 * τ * (p + q) with he
  have he0 : 0 ≤ e := by rw [eE]; linarith
  have x1 := Real.exp_le_exp.2 d1
  have x2 := Real.exp_le_exp.2 d2
  rw [Real.exp_add] at x1 x2
  have x3 := Real.exp_le_exp.2 d3
  have x4 := Real.exp_le_exp.2 d4
  have p1 := Real.exp_pos s
  have p2 := Real.exp_pos t
  have hE : 1 ≤ Real.exp e := Real.one_le_exp he0
  refine le_min ?_ ?_
  · rw [abs_le]
    constructor
    · rcases le_total (Real.exp t) (Real.exp s) with h | h
      · nlinarith
      · nlinarith
    · nlinarith
  · rw [abs_le]
    constructor <;> linarith

section
variable (A : Matrix (Fin m) (Fin n) ℝ) (D : ℝ) {Gf : (Fin n → ℝ) → Fin n → ℝ} (hGm : ∀ i, Measurable fun x => Gf x i)

theorem measurable_kerQuad {X : Type} [MeasurableSpace X] (D : ℝ) {G : X → Fin n → ℝ} (hG : ∀ i, Measurable fun x => G x i) {f g : X → Fin n → ℝ}
    (hf : Measurable f) (hg : Measurable g) : Measurable fun x => kerQuad D (G x) (f x) (g x) := by
  have hd : ∀ i, Measurable fun x => g x i - f x i := fun i =>
    ((measurable_pi_apply i).comp hg).sub ((measurable_pi_apply i).comp hf)
  unfold kerQuad
  exact (Finset.measurable_sum _ fun i _ => (hd i).mul ((hG i).mul (hd i))).const_mul _

include hGm in
theorem measurable_flowBound (d : ℕ) (τ : ℝ) : Measurable fun p : (Fin n → ℝ) × (Fin n → ℝ) => flowBound A D Gf d τ p.1 p.2 := by
  have g1 : ∀ i, Measurable fun p : (Fin n → ℝ) × (Fin n → ℝ) => Gf p.1 i := fun i => (hGm i).comp measurable_fst
  have g2 : ∀ i, Measurable fun p : (Fin n → ℝ) × (Fin n → ℝ) => Gf p.2 i := fun i => (hGm i).comp measurable_snd
  have q1 := measurable_kerQuad D g1 measurable_fst measurable_snd
  have q2 := measurable_kerQuad D g2 measurable_snd measurable_fst
  have k1 := measurable_kerLogDens A D g1 measurable_fst measurable_snd
  have k2 := measurable_kerLogDens A D g2 measurable_snd measurable_fst
  unfold flowBound
  exact (((Real.measurable_exp.comp (((q1.const_add _).add (q2.const_add _)).const_mul _)).sub_const 1).mul
    ((Real.measurable_exp.comp k1).min (Real.measurable_exp.comp k2))).min (Real.measurable_exp.comp (k1.add ((q1.const_add _).const_mul _)))

end

/-- Deviation of one step at `x`. -/
noncomputable def flowDev (A : Matrix (Fin m) (Fin n) ℝ) (D : ℝ) (Gf : (Fin n → ℝ) → Fin n → ℝ) (k : ℕ) (x₀ : Fin n → ℝ) (B : Matrix (Fin n) (Fin d) ℝ)
    (c τ : ℝ) (x : Fin n → ℝ) : ℝ :=
  max 0 (min 2 (2 * ∫ v in chart x₀ B ⁻¹' TailNonneg n k, c * flowBound A D Gf d τ x (chart x₀ B v)))

section
variable {A : Matrix (Fin m) (Fin n) ℝ} (hA : IndepRows A) {k : ℕ} {D : ℝ} (hD : 0 < D) {x₀ : Fin n → ℝ} (hx₀ : x₀ ∈ TailPos n k)
  {B : Matrix (Fin n) (Fin d) ℝ} (hB : IsKernelBasis A B) {Gf : (Fin n → ℝ) → Fin n → ℝ} (hGm : ∀ i, Measurable fun x => Gf x i)
  (hGpos : ∀ x ∈ TailPos n k, ∀ i, 0 < Gf x i)

include hGm in
theorem flowDev_bdd (c τ : ℝ) : Bdd 2 (flowDev A D Gf k x₀ B c τ) := by
  refine ⟨?_, fun x => ?_⟩
  · have m1 : Measurable fun p : (Fin n → ℝ) × (Fin d → ℝ) => c * flowBound A D Gf d τ p.1 (chart x₀ B p.2) :=
      ((measurable_flowBound A D hGm d τ).comp (measurable_fst.prodMk ((measurable_chart x₀ B).comp measurable_snd))).const_mul c
    have m2 : Measurable fun x => ∫ v in chart x₀ B ⁻¹' TailNonneg n k, c * flowBound A D Gf d τ x (chart x₀ B v) :=
      (m1.stronglyMeasurable.integral_prod_right' (ν := volume.restrict (chart x₀ B ⁻¹' TailNonneg n k))).measurable
    exact measurable_const.max (measurable_const.min (m2.const_mul 2))
  · unfold flowDev
    rw [abs_of_nonneg (le_max_left _ _)]
    exact max_le (by norm_num) (min_le_left _ _)

theorem flowDev_nonneg (c τ : ℝ) (x : Fin n → ℝ) : 0 ≤ flowDev A D Gf k x₀ B c τ x := le_max_left _ _

include hA hD hB in
/-- The density of a proposal is integrable. -/
theorem integrable_dens {c : ℝ} (hc : 0 < c)
    (hdens : ∀ G : Fin n → ℝ, (∀ i, 0 < G i) → ∀ (x : Fin n → ℝ) (u v : Fin d → ℝ),
      gaussDensity ((1 / D) • (Bᵀ * diagonal G * B)) u v = c * Real.exp (kerLogDens A D G (chart x B u) (chart x B v)))
    {G : Fin n → ℝ} (hG : ∀ i, 0 < G i) (u : Fin d → ℝ) :
    Integrable fun v => c * Real.exp (kerLogDens A D G (chart x₀ B u) (chart x₀ B v)) := by
  have hx : (fun _ => 1 : Fin n → ℝ) ∈ TailPos n n := fun i _ => one_pos
  have hlaw := sparseCoordProp_law (A := A) (k := 0) hA hD hB (x₀ := x₀) (Gf := fun _ => G) (fun _ _ i => hG i) hdens (u := u)
    ⟨fun i hi => by omega, by rw [chart, Matrix.mulVec_add, Matrix.mulVec_mulVec, hB.mul_zero, Matrix.zero_mulVec, add_zero]⟩
  have h1 : (volume.withDensity (sparseCoordDens A D (fun _ => G) x₀ B c u)) univ = 1 := by
    rw [← hlaw, Measure.map_apply (measurable_sparseCoordProp u) MeasurableSet.univ, preimage_univ]
    have : IsProbabilityMeasure (stdNormal n) := inferInstance
    exact measure_univ
  rw [withDensity_apply _ MeasurableSet.univ, Measure.restrict_univ] at h1
  have m1 : Measurable fun v => kerLogDens A D G (chart x₀ B u) (chart x₀ B v) :=
    measurable_kerLogDens A D (G := fun _ => G) (fun i => measurable_const) measurable_const (measurable_chart x₀ B)
  refine ⟨((Real.measurable_exp.comp m1).const_mul c).aestronglyMeasurable, ?_⟩
  rw [hasFiniteIntegral_iff_ofReal (ae_of_all _ fun v => by positivity)]
  have : ∫⁻ v, ENNReal.ofReal (c * Real.exp (kerLogDens A D G (chart x₀ B u) (chart x₀ B v))) = 1 := h1
  rw [this]
  exact ENNReal.one_lt_top

include hA hD hB in
/-- So is the bound on the change of the flow. -/
theorem integrable_upper {c : ℝ} (hc : 0 < c)
    (hdens : ∀ G : Fin n → ℝ, (∀ i, 0 < G i) → ∀ (x : Fin n → ℝ) (u v : Fin d → ℝ),
      gaussDensity ((1 / D) • (Bᵀ * diagonal G * B)) u v = c * Real.exp (kerLogDens A D G (chart x B u) (chart x B v)))
    {G : Fin n → ℝ} (hG : ∀ i, 0 < G i) {τ : ℝ} (hτ1 : τ < 1) (u : Fin d → ℝ) :
    Integrable fun v => c * Real.exp (kerLogDens A D G (chart x₀ B u) (chart x₀ B v) + τ * (d + kerQuad D G (chart x₀ B u) (chart x₀ B v))) := by
  have hG' : ∀ i, 0 < (1 - τ) * G i := fun i => mul_pos (by linarith) (hG i)
  have h1 := integrable_dens hA hD hB (x₀ := x₀) hc hdens hG' u
  -- the two exponents differ by a constant
  obtain ⟨κ, hκ⟩ : ∃ κ, ∀ v, kerLogDens A D G (chart x₀ B u) (chart x₀ B v) + τ * (d + kerQuad D G (chart x₀ B u) (chart x₀ B v)) =
      κ + kerLogDens A D (fun i => (1 - τ) * G i) (chart x₀ B u) (chart x₀ B v) := by
    refine ⟨1 / 2 * ((∑ i, Real.log (G i)) + Real.log ((A * diagonal (invSqrt G)) * (A * diagonal (invSqrt G))ᵀ).det) + τ * d -
      1 / 2 * ((∑ i, Real.log ((1 - τ) * G i)) + Real.log ((A * diagonal (invSqrt fun i => (1 - τ) * G i)) *
        (A * diagonal (invSqrt fun i => (1 - τ) * G i))ᵀ).det), fun v => ?_⟩
    have e : kerQuad D (fun i => (1 - τ) * G i) (chart x₀ B u) (chart x₀ B v) = (1 - τ) * kerQuad D G (chart x₀ B u) (chart x₀ B v) := by
      unfold kerQuad
      rw [Finset.mul_sum, Finset.mul_sum, Finset.mul_sum]
      exact Finset.sum_congr rfl fun i _ => by ring
    have k1 : ∀ G : Fin n → ℝ, kerLogDens A D G (chart x₀ B u) (chart x₀ B v) = 1 / 2 * ((∑ i, Real.log (G i)) +
      Real.log ((A * diagonal (invSqrt G)) * (A * diagonal (invSqrt G))ᵀ).det) - kerQuad D G (chart x₀ B u) (chart x₀ B v) := fun G => rfl
    rw [k1 G, k1 fun i => (1 - τ) * G i, e]
    ring
  refine (h1.const_mul (Real.exp κ)).congr (ae_of_all _ fun v => ?_)
  show Real.exp κ * (c * _) = c * _
  rw [hκ v, Real.exp_add]
  ring

include hGpos hD in
theorem flowBound_nonneg {τ : ℝ} (hτ : 0 ≤ τ) {x y : Fin n → ℝ} (hx : x ∈ TailPos n k) (hy : y ∈ TailPos n k) : 0 ≤ flowBound A D Gf d τ x y := by
  have q1 := kerQuad_nonneg hD (hGpos x hx) x y
  have q2 := kerQuad_nonneg hD (hGpos y hy) y x
  refine le_min (mul_nonneg ?_ ?_) (Real.exp_pos _).le
  · rw [sub_nonneg]
    exact Real.one_le_exp (by positivity)
  · exact le_min (Real.exp_pos _).le (Real.exp_pos _).le

include hx₀ in
theorem tailPos_ae : ∀ᵐ v ∂(volume.restrict (chart x₀ B ⁻¹' TailNonneg n k)), chart x₀ B v ∈ TailPos n k := by
  rw [← Measure.restrict_congr_set (tail_boundary_null hx₀ B)]
  exact ae_restrict_mem (measurable_chart x₀ B (measurableSet_tailPos n k))

include hA hD hB hGm hGpos hx₀ in
theorem integrable_flowBound {c : ℝ} (hc : 0 < c)
    (hdens : ∀ G : Fin n → ℝ, (∀ i, 0 < G i) → ∀ (x : Fin n → ℝ) (u v : Fin d → ℝ),
      gaussDensity ((1 / D) • (Bᵀ * diagonal G * B)) u v = c * Real.exp (kerLogDens A D G (chart x B u) (chart x B v)))
    {τ : ℝ} (hτ : 0 ≤ τ) (hτ1 : τ < 1) {u : Fin d → ℝ} (hu : chart x₀ B u ∈ TailPos n k) :
    IntegrableOn (fun v => c * flowBound A D Gf d τ (chart x₀ B u) (chart x₀ B v)) (chart x₀ B ⁻¹' TailNonneg n k) := by
  refine Integrable.mono' (integrable_upper hA hD hB (x₀ := x₀) hc hdens (hGpos _ hu) hτ1 u).integrableOn
    (((measurable_flowBound A D hGm d τ).comp (measurable_const.prodMk (measurable_chart x₀ B))).const_mul c).aestronglyMeasurable ?_
  filter_upwards [tailPos_ae hx₀ (B := B)] with v hv
  rw [Real.norm_eq_abs, abs_of_nonneg (mul_nonneg hc.le (flowBound_nonneg hD hGpos hτ hu hv))]
  exact mul_le_mul_of_nonneg_left (min_le_right _ _) hc.le

include hA hD hB hGm hGpos hx₀ in
/-- The deviation vanishes with the error of the metric. -/
theorem flowDev_tendsto {c : ℝ} (hc : 0 < c)
    (hdens : ∀ G : Fin n → ℝ, (∀ i, 0 < G i) → ∀ (x : Fin n → ℝ) (u v : Fin d → ℝ),
      gaussDensity ((1 / D) • (Bᵀ * diagonal G * B)) u v = c * Real.exp (kerLogDens A D G (chart x B u) (chart x B v)))
    {u : Fin d → ℝ} (hu : chart x₀ B u ∈ TailPos n k) :
    Tendsto (fun τ => flowDev A D Gf k x₀ B c τ (chart x₀ B u)) (𝓝[>] 0) (𝓝 0) := by
  have h1 : Tendsto (fun τ => ∫ v in chart x₀ B ⁻¹' TailNonneg n k, c * flowBound A D Gf d τ (chart x₀ B u) (chart x₀ B v)) (𝓝[>] 0)
      (𝓝 (∫ _ in chart x₀ B ⁻¹' TailNonneg n k, (0 : ℝ))) := by
    have hsm : ∀ᶠ τ : ℝ in 𝓝[>] 0, 0 < τ ∧ τ ≤ 1 / 2 := by
      filter_upwards [self_mem_nhdsWithin, nhdsWithin_le_nhds (Iic_mem_nhds (by norm_num : (0 : ℝ) < 1 / 2))] with τ h1 h2 using ⟨h1, h2⟩
    refine tendsto_integral_filter_of_dominated_convergence
      (fun v => c * Real.exp (kerLogDens A D (Gf (chart x₀ B u)) (chart x₀ B u) (chart x₀ B v) +
        1 / 2 * (d + kerQuad D (Gf (chart x₀ B u)) (chart x₀ B u) (chart x₀ B v))))
      (Eventually.of_forall fun τ => (((measurable_flowBound A D hGm d τ).comp (measurable_const.prodMk (measurable_chart x₀ B))).const_mul c).aestronglyMeasurable)
      ?_ (integrable_upper hA hD hB (x₀ := x₀) hc hdens (hGpos _ hu) (by norm_num) u).integrableOn ?_
    · filter_upwards [hsm] with τ hτ
      filter_upwards [tailPos_ae hx₀ (B := B)] with v hv
      rw [Real.norm_eq_abs, abs_of_nonneg (mul_nonneg hc.le (flowBound_nonneg hD hGpos hτ.1.le hu hv))]
      refine mul_le_mul_of_nonneg_left ((min_le_right _ _).trans (Real.exp_le_exp.2 ?_)) hc.le
      have q1 := kerQuad_nonneg hD (hGpos _ hu) (chart x₀ B u) (chart x₀ B v)
      have := mul_le_mul_of_nonneg_right hτ.2 (by positivity : 0 ≤ (d : ℝ) + kerQuad D (Gf (chart x₀ B u)) (chart x₀ B u) (chart x₀ B v))
      linarith
    · filter_upwards [tailPos_ae hx₀ (B := B)] with v hv
      set s := (d + kerQuad D (Gf (chart x₀ B u)) (chart x₀ B u) (chart x₀ B v)) + (d + kerQuad D (Gf (chart x₀ B v)) (chart x₀ B v) (chart x₀ B u)) with hs
      set f := min (Real.exp (kerLogDens A D (Gf (chart x₀ B u)) (chart x₀ B u) (chart x₀ B v)))
        (Real.exp (kerLogDens A D (Gf (chart x₀ B v)) (chart x₀ B v) (chart x₀ B u))) with hf
      have hlim : Tendsto (fun τ : ℝ => c * ((Real.exp (3 * τ * s) - 1) * f)) (𝓝[>] 0) (𝓝 0) := by
        have hcont : Continuous fun τ : ℝ => c * ((Real.exp (3 * τ * s) - 1) * f) := by fun_prop
        have : Tendsto (fun τ : ℝ => c * ((Real.exp (3 * τ * s) - 1) * f)) (𝓝[>] 0) (𝓝 _) := (hcont.tendsto 0).mono_left nhdsWithin_le_nhds
        simpa using this
      refine squeeze_zero' ?_ ?_ hlim
      · filter_upwards [hsm] with τ hτ using mul_nonneg hc.le (flowBound_nonneg hD hGpos hτ.1.le hu hv)
      · exact Eventually.of_forall fun τ => mul_le_mul_of_nonneg_left (min_le_left _ _) hc.le
  rw [integral_zero] at h1
  have h2 := (tendsto_const_nhds (x := (0 : ℝ)) (f := 𝓝[>] (0 : ℝ))).max ((tendsto_const_nhds (x := (2 : ℝ)) (f := 𝓝[>] (0 : ℝ))).min (h1.const_mul 2))
  simpa [flowDev] using h2

end

end PW

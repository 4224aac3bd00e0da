import Verif.Lemmas.StrongRows
import Verif.Props.Joint

/-!
# C98: Hit-and-Run has a limiting distribution, which differs from the uniform one by the tolerance only

C60 bounds the distance from the uniform law after `t` iterations by `(1 - β) ^ t + C err`: the second term does not vanish. Here is what happens in the
limit: for a fixed tolerance the law converges, geometrically, to a law within `C err` of the uniform one.
-/

namespace PW
open Matrix MeasureTheory Set
open scoped ENNReal
variable {m n d : ℕ}

theorem share_prob {X : Type} [MeasurableSpace X] (π : Measure X) [IsProbabilityMeasure π] (S : Set X) : (π S).toReal = share π S := by
  unfold share; simp

theorem average_prob {X : Type} [MeasurableSpace X] (π : Measure X) [IsProbabilityMeasure π] (φ : X → ℝ) : ∫ y, φ y ∂π = average π φ := by
  unfold average; simp

theorem normed_self {X : Type} [MeasurableSpace X] (π : Measure X) [IsProbabilityMeasure π] : normed π = π := by
  unfold normed; simp

/-- What the limit law says about the walk. -/
theorem Mixes.draw {P : Measure (Fin n → ℝ)} {next : (Fin n → ℝ) → (Fin n → ℝ) → ℝ → Fin n → ℝ}
    (hn : Measurable fun p : (Fin n → ℝ) × (Fin n → ℝ) × ℝ => next p.1 p.2.1 p.2.2) {K : Set (Fin n → ℝ)} {β : ℝ}
    (h : Mixes P ((stdNormal n).prod unitLaw) (drawStep next) K β 1) {w : Walk ℝ} {e : Env ℝ} [MeasurableSpace e.r.G] {μ : Measure e.r.G}
    (hs : IdealSource e.r μ) {A : Matrix (Fin m) (Fin n) ℝ} {b : Fin m → ℝ} {x : Fin n → ℝ} (hx : x ∈ K) {k seed : Int}
    (hk : w.isSparse = true → 1 ≤ k ∧ k ≤ n)
    (hfol : ∀ niter burnin thin : Int, ∀ᵐ g ∂μ, Follows w e (callArgs A b x niter k burnin thin seed) ⟨rfl, rfl⟩ (idealPos e.r next x) g ∧
      ∀ t, idealPos e.r next x t g ∈ K) :
    (∀ t, LawWithin w e μ A b x k seed P t ((1 - β) ^ t)) ∧ (∀ L gap : ℕ, JointWithin w e μ A b x k seed P L gap (L * (1 - β) ^ gap)) ∧
      ∀ (φ : (Fin n → ℝ) → ℝ) (M : ℝ), Measurable φ → 0 < M → (∀ y ∈ K, |φ y| ≤ M) → MeanConverges w e μ A b x k seed φ (average P φ) := by
  have hp := h.prob
  have := hs.prob
  have mf : Measurable fun p : (Fin n → ℝ) × e.r.G => (fun x g => idealStep e.r next (x, g)) p.1 p.2 := measurable_idealStep hs hn
  have hd := ideal_drives hs hn
  have hf1 := fun niter burnin thin => (hfol niter burnin thin).mono fun g h => h.1
  refine ⟨fun t => ?_, fun L gap => ?_, fun φ M hφ hM hφM => ?_⟩
  · have := h.rows mf hd hx hk hf1 (π := P) (share_prob P) t
    rwa [Nat.div_one] at this
  · have h' := h
    rw [← normed_self P] at h'
    have := h'.joint mf hd hx hk hf1 L gap
    rwa [Nat.div_one] at this
  · rw [← average_prob]
    exact h.strong hx hφ hM hφM w e μ mf hd ((hfol 0 0 1).mono fun g h => h.2) A b k seed hk hf1

/-- The chain of Hit-and-Run, and its limit law. -/
theorem hitRun_limit_dense (hn : 2 ≤ n) (A : Matrix (Fin m) (Fin n) ℝ) (b : Fin m → ℝ) (hx₀ : ∃ x, x ∈ Interior A b)
    (hb : ∃ B, ∀ y ∈ Poly A b, ∀ i, |y i| ≤ B) :
    ∃ β C ε₀ : ℝ, 0 < β ∧ β ≤ 1 ∧ 0 ≤ C ∧ 0 < ε₀ ∧ ∀ R ERR : ℝ, R ≠ 0 → 0 < ERR → ERR ≤ ε₀ →
      ∃ π : Measure (Fin n → ℝ), Mixes π ((stdNormal n).prod unitLaw) (drawStep (hitRunNext R ERR A b)) (Interior A b) β 1 ∧
        (∀ T, MeasurableSet T → |share π T - share (uniformOn A b) T| ≤ C * ERR) ∧
        (∀ (φ : (Fin n → ℝ) → ℝ) (M : ℝ), Measurable φ → 0 < M → (∀ y ∈ Poly A b, |φ y| ≤ M) →
          |average π φ - average (uniformOn A b) φ| ≤ 2 * M * (C * ERR)) := by
  obtain ⟨β', C, ε', h1, h2, h3, h4, h5⟩ := hitRun_mix_dense hn A b hx₀ hb
  obtain ⟨κ, ρ, y₀, hκ, hρ, hball, hmin⟩ := hitRun_minorize_dense hn A b hx₀ hb
  have hm := pos_rows_of_bounded (by omega) hb
  have hfin : IsFiniteMeasure (uniformOn A b) := ⟨by rw [uniformOn, Measure.restrict_apply_univ]; exact volume_poly_lt_top hb⟩
  have hZ : uniformOn A b univ = volume (Poly A b) := by rw [uniformOn, Measure.restrict_apply_univ]
  have hZ0 : uniformOn A b univ ≠ 0 := by rw [hZ]; exact (volume_poly_pos hx₀).ne'
  obtain ⟨x₁, hx₁⟩ := hx₀
  let m₀ : Measure (Fin n → ℝ) := ENNReal.ofReal κ • volume.restrict (Metric.ball y₀ ρ)
  have hm₀ : ∀ F : (Fin n → ℝ) → ℝ≥0∞, ∫⁻ z, F z ∂m₀ = ENNReal.ofReal κ * ∫⁻ z in Metric.ball y₀ ρ, F z := fun F => by
    rw [lintegral_smul_measure]; rfl
  have hb1 : m₀ univ ≤ 1 := by
    have h := hmin 1 ρ one_ne_zero hρ le_rfl x₁ hx₁ (fun _ => 1) measurable_const
    rw [← hm₀] at h
    simpa using h
  have hb0 : m₀ univ ≠ 0 := by
    show ENNReal.ofReal κ * volume.restrict (Metric.ball y₀ ρ) univ ≠ 0
    rw [Measure.restrict_apply_univ]
    refine mul_ne_zero (by rw [Ne, ENNReal.ofReal_eq_zero, not_le]; exact hκ) ?_
    exact (Metric.isOpen_ball.measure_pos volume ⟨y₀, Metric.mem_ball_self hρ⟩).ne'
  have hbt : m₀ univ ≠ ⊤ := ne_top_of_le_ne_top ENNReal.one_ne_top hb1
  refine ⟨(m₀ univ).toReal, C, min ε' ρ, ENNReal.toReal_pos hb0 hbt, ENNReal.toReal_mono ENNReal.one_ne_top hb1, h3, lt_min h4 hρ, ?_⟩
  intro R ERR hR hE hEρ
  have mnext := measurable_hitRunNext hm R ERR A b
  obtain ⟨P, hP⟩ := draw_limit mnext (measurableSet_interior A b) (fun x hx => by
      filter_upwards [hitRun_next_ae hn R ERR hR hE hb Unit x hx] with v hv val hval using (hv val hval).1) (m := m₀) (by
      have h1 : ∀ᵐ z ∂(volume.restrict (Metric.ball y₀ ρ)), z ∈ Interior A b := by
        filter_upwards [ae_restrict_mem measurableSet_ball] with z hz using hball hz
      exact Measure.ae_smul_measure h1 _)
    (fun y hy F hF => by
      rw [hm₀]
      exact hmin R ERR hR hE (hEρ.trans (min_le_right _ _)) y hy F hF) hb1 hb0
  have hp := hP.prob
  have hmix := fun F hF hF1 t => h5 R ERR hR hE (hEρ.trans (min_le_left _ _)) x₁ hx₁ F hF hF1 t
  refine ⟨P, hP, fun T hT => ?_, fun φ M hφ hM hφM => ?_⟩
  · have h6 := limit_close mnext hP hx₁ h1 h2 hmix (u := T.indicator 1) ⟨measurable_one.indicator hT,
      fun y => indicator_nonneg (fun _ _ => zero_le_one) y, fun y => by by_cases hy : y ∈ T <;> simp [hy]⟩
    rw [integral_indicator_one hT, integral_indicator_one hT] at h6
    rw [← share_prob P]
    exact h6
  · rw [← average_prob P]
    exact limit_mean mnext hP hZ0 (uniformOn_ae hx₁) hx₁ h1 h2 hmix hφ hM (fun y hy => hφM y (interior_subset A b hy))

/-- **C98** (`HitAndRun`): for every bounded polytope of dimension at least two with an interior point there are constants `β ∈ (0, 1]`, `C` and `ε₀ > 0`
such that for every tolerance `err ≤ ε₀` there is a distribution `π` inside the polytope, within `C err` of the uniform one, to which the walk converges:
from every interior starting point the position after `t` iterations has law `π` up to `(1 - β) ^ t`, rows that are `gap` apart are jointly like
independent draws from `π` up to `L (1 - β) ^ gap`, and with probability one the averages over the rows of a run converge to the mean under `π`, which is
within `2 M C err` of the mean over the polytope. -/
theorem C98_hitrun (hn : 2 ≤ n) (A : Matrix (Fin m) (Fin n) ℝ) (b : Fin m → ℝ) (hx₀ : ∃ x, x ∈ Interior A b)
    (hb : ∃ B, ∀ y ∈ Poly A b, ∀ i, |y i| ≤ B) :
    ∃ β C ε₀ : ℝ, 0 < β ∧ β ≤ 1 ∧ 0 ≤ C ∧ 0 < ε₀ ∧ ∀ R ERR : ℝ, R ≠ 0 → 0 < ERR → ERR ≤ ε₀ →
      ∃ π : Measure (Fin n → ℝ), π univ = 1 ∧ π (Interior A b)ᶜ = 0 ∧
        (∀ T, MeasurableSet T → |share π T - share (uniformOn A b) T| ≤ C * ERR) ∧
        (∀ (φ : (Fin n → ℝ) → ℝ) (M : ℝ), Measurable φ → 0 < M → (∀ y ∈ Poly A b, |φ y| ≤ M) →
          |average π φ - average (uniformOn A b) φ| ≤ 2 * M * (C * ERR)) ∧
        ∀ (e : Env ℝ) [MeasurableSpace e.r.G] (μ : Measure e.r.G), IdealSource e.r μ → ∀ x ∈ Interior A b, ∀ k seed : Int,
          (∀ t, LawWithin (.hitRun R ERR) e μ A b x k seed π t ((1 - β) ^ t)) ∧
          (∀ L gap : ℕ, JointWithin (.hitRun R ERR) e μ A b x k seed π L gap (L * (1 - β) ^ gap)) ∧
          ∀ (φ : (Fin n → ℝ) → ℝ) (M : ℝ), Measurable φ → 0 < M → (∀ y ∈ Poly A b, |φ y| ≤ M) →
            MeanConverges (.hitRun R ERR) e μ A b x k seed φ (average π φ) := by
  obtain ⟨β, C, ε₀, h1, h2, h3, h4, h5⟩ := hitRun_limit_dense hn A b hx₀ hb
  have hm := pos_rows_of_bounded (by omega) hb
  refine ⟨β, C, ε₀, h1, h2, h3, h4, fun R ERR hR hE hEρ => ?_⟩
  obtain ⟨P, hP, hT, hφ⟩ := h5 R ERR hR hE hEρ
  have hp := hP.prob
  refine ⟨P, measure_univ, ae_iff.1 hP.ae, hT, hφ, fun e _ μ hs x hx k seed => ?_⟩
  have h7 := hP.draw (m := m) (measurable_hitRunNext hm R ERR A b) (w := .hitRun R ERR) hs (A := A) (b := b) hx (k := k) (seed := seed) (by intro h; cases h)
    (fun niter burnin thin => hitRun_follows R ERR hR hE e μ hs A b x niter k burnin thin seed hn hx hb)
  exact ⟨h7.1, h7.2.1, fun φ M hφ hM hφM => h7.2.2 φ M hφ hM fun y hy => hφM y (interior_subset A b hy)⟩

/-- The chain of the sparse Hit-and-Run, and its limit law. -/
theorem hitRun_limit_sparse {E : Eigen ℝ} (hL : E.SparseLUExact) {A : Matrix (Fin m) (Fin n) ℝ} (hA : IndepRows A) (hmn : m + 2 ≤ n)
    (k : Int) (hk : 1 ≤ k ∧ k ≤ n) (b : Fin m → ℝ) (x₀ : Fin n → ℝ) (hx₀A : A *ᵥ x₀ = b) (hx₀ : x₀ ∈ TailPos n k.toNat) (D : ℝ)
    (hD : ∀ y ∈ PolyEq A b k.toNat, ∀ z ∈ PolyEq A b k.toNat, ∑ i, (y i - z i) ^ 2 ≤ D ^ 2)
    (B : Matrix (Fin n) (Fin d) ℝ) (hB : IsKernelBasis A B) :
    ∃ β C ε₀ : ℝ, 0 < β ∧ β ≤ 1 ∧ 0 ≤ C ∧ 0 < ε₀ ∧ ∀ R ERR : ℝ, |D| < 2 ^ 10000 * |R| → 0 < ERR → ERR ≤ ε₀ →
      ∃ π : Measure (Fin n → ℝ), Mixes π ((stdNormal n).prod unitLaw) (drawStep (sparseHitRunNext R ERR E A k.toNat)) ({x | A *ᵥ x = b} ∩ TailPos n k.toNat) β 1 ∧
        (∀ y ∈ PolyEq A b k.toNat, ∀ z ∈ PolyEq A b k.toNat, ∑ i, (y i - z i) ^ 2 < (2 ^ 10000 * |R|) ^ 2) ∧
        (∀ T, MeasurableSet T → |share π T - share (uniformOnEq x₀ B k.toNat) T| ≤ C * ERR) ∧
        (∀ (φ : (Fin n → ℝ) → ℝ) (M : ℝ), Measurable φ → 0 < M → (∀ y ∈ PolyEq A b k.toNat, |φ y| ≤ M) →
          |average π φ - average (uniformOnEq x₀ B k.toNat) φ| ≤ 2 * M * (C * ERR)) := by
  obtain ⟨β', C, ε', h1, h2, h3, h4, h5⟩ := hitRun_mix_sparse hL hA hmn k hk b x₀ hx₀A hx₀ D hD B hB
  have hk1 : 1 ≤ k.toNat := by omega
  have hkn : k.toNat ≤ n := by omega
  subst hx₀A
  set κ' := k.toNat with hκ'
  let K : Set (Fin n → ℝ) := {x | A *ᵥ x = A *ᵥ x₀} ∩ TailPos n κ'
  have hKm : MeasurableSet K := (measurableSet_eqs A _).inter (measurableSet_tailPos _ _)
  have hDa : ∀ y ∈ PolyEq A (A *ᵥ x₀) κ', ∀ z ∈ PolyEq A (A *ᵥ x₀) κ', ∑ i, (y i - z i) ^ 2 ≤ |D| ^ 2 := by
    intro y hy z hz; rw [sq_abs]; exact hD y hy z hz
  -- two different points
  have hD0 : 0 < |D| := by
    obtain ⟨e, he, hAe, -⟩ := exists_tangent A hmn ⟨0, by omega⟩
    have hcont : Continuous fun t : ℝ => x₀ + t • e := by fun_prop
    have ho : IsOpen {t : ℝ | x₀ + t • e ∈ TailPos n κ'} := (isOpen_tailPos n κ').preimage hcont
    obtain ⟨r, hr, hsub⟩ := Metric.isOpen_iff.1 ho 0 (by simpa using hx₀)
    have hmem : x₀ + (r / 2) • e ∈ TailPos n κ' := hsub (by rw [Metric.mem_ball, dist_zero_right, Real.norm_eq_abs, abs_of_pos (by positivity)]; linarith)
    have h1 := hDa _ ⟨by rw [Matrix.mulVec_add, Matrix.mulVec_smul, hAe, smul_zero, add_zero], tailPos_subset _ _ hmem⟩ x₀
      ⟨rfl, tailPos_subset _ _ hx₀⟩
    obtain ⟨i, hi⟩ := Function.ne_iff.1 he
    have h2 : 0 < ∑ i, ((x₀ + (r / 2) • e) i - x₀ i) ^ 2 := by
      refine Finset.sum_pos' (fun i _ => sq_nonneg _) ⟨i, Finset.mem_univ i, ?_⟩
      have : (x₀ + (r / 2) • e) i - x₀ i = r / 2 * e i := by simp
      rw [this]
      have hi' : e i ≠ 0 := hi
      positivity
    by_contra h
    have h3 : |D| = 0 := le_antisymm (not_lt.1 h) (abs_nonneg D)
    rw [h3] at h1
    simp only [ne_eq, OfNat.ofNat_ne_zero, not_false_eq_true, zero_pow] at h1
    linarith
  have hbd : ∃ M, ∀ y ∈ PolyEq A (A *ᵥ x₀) κ', ∀ i, |y i| ≤ M := by
    refine ⟨|D| + ∑ i, |x₀ i|, fun z hz i => ?_⟩
    have h1 := hDa z hz x₀ ⟨rfl, tailPos_subset _ _ hx₀⟩
    have h2 : (z i - x₀ i) ^ 2 ≤ |D| ^ 2 :=
      (Finset.single_le_sum (f := fun i => (z i - x₀ i) ^ 2) (fun _ _ => sq_nonneg _) (Finset.mem_univ i)).trans h1
    have h3 : |z i - x₀ i| ≤ |D| := (sq_le_sq.1 h2).trans (abs_abs D).le
    have h4 : |x₀ i| ≤ ∑ i, |x₀ i| := Finset.single_le_sum (f := fun i => |x₀ i|) (fun _ _ => abs_nonneg _) (Finset.mem_univ i)
    have h5 : z i = (z i - x₀ i) + x₀ i := by ring
    rw [h5]
    exact (abs_add_le _ _).trans (add_le_add h3 h4)
  obtain ⟨κ, ρ, ε₀, hκ, hρ, hε₀, hball, hmin⟩ := hitRun_minorize_sparse hL hA hmn hk1 hkn hx₀ hD0 hDa hB
  have mch := measurable_chart x₀ B
  have hchA : ∀ u, A *ᵥ chart x₀ B u = A *ᵥ x₀ := fun u => by
    show A *ᵥ (x₀ + B *ᵥ u) = _
    rw [Matrix.mulVec_add, Matrix.mulVec_mulVec, hB.mul_zero, Matrix.zero_mulVec, add_zero]
  set V := volume {u | chart x₀ B u ∈ Thicken (PolyEq A (A *ᵥ x₀) κ') 1} with hV
  have hVt : V < ⊤ := volume_chart_thicken_lt_top hB x₀ hbd 1
  have hZ : uniformOnEq x₀ B κ' univ = volume {u : Fin d → ℝ | chart x₀ B u ∈ TailNonneg n κ'} := by
    rw [uniformOnEq, Measure.map_apply mch MeasurableSet.univ, preimage_univ, Measure.restrict_apply_univ]
  have hZt : uniformOnEq x₀ B κ' univ < ⊤ := by
    rw [hZ]
    refine lt_of_le_of_lt (measure_mono fun u hu => ?_) hVt
    exact ⟨chart x₀ B u, ⟨hchA u, hu⟩, by simp⟩
  have hZ0 : uniformOnEq x₀ B κ' univ ≠ 0 := by
    rw [hZ]
    refine (lt_of_lt_of_le (Metric.isOpen_ball.measure_pos volume ⟨(0 : Fin d → ℝ), Metric.mem_ball_self hρ⟩)
      (measure_mono fun u hu => ?_)).ne'
    exact tailPos_subset _ _ (hball u hu)
  have hfin : IsFiniteMeasure (uniformOnEq x₀ B κ') := ⟨hZt⟩
  let m₀ : Measure (Fin n → ℝ) := ENNReal.ofReal κ • (volume.restrict (Metric.ball (0 : Fin d → ℝ) ρ)).map (chart x₀ B)
  have hm₀ : ∀ F : (Fin n → ℝ) → ℝ≥0∞, Measurable F →
      ∫⁻ z, F z ∂m₀ = ENNReal.ofReal κ * ∫⁻ u in Metric.ball (0 : Fin d → ℝ) ρ, F (chart x₀ B u) := fun F hF => by
    rw [lintegral_smul_measure, lintegral_map hF mch]; rfl
  obtain ⟨R₁, hR₁⟩ : ∃ R : ℝ, |D| < 2 ^ 10000 * |R| := by
    refine ⟨|D|, ?_⟩
    rw [abs_abs]
    have : (1 : ℝ) < 2 ^ 10000 := one_lt_pow₀ one_lt_two (by norm_num)
    exact lt_mul_of_one_lt_left hD0 this
  have hb1 : m₀ univ ≤ 1 := by
    have h := hmin R₁ ε₀ hR₁ hε₀ le_rfl x₀ rfl hx₀ (fun _ => 1) measurable_const
    rw [← hm₀ (fun _ => 1) measurable_const] at h
    simpa using h
  have hm₀u : m₀ univ = ENNReal.ofReal κ * volume (Metric.ball (0 : Fin d → ℝ) ρ) := by
    have := hm₀ (fun _ => 1) measurable_const
    simpa using this
  have hb0 : m₀ univ ≠ 0 := by
    rw [hm₀u]
    refine mul_ne_zero (by rw [Ne, ENNReal.ofReal_eq_zero, not_le]; exact hκ) ?_
    exact (Metric.isOpen_ball.measure_pos volume ⟨(0 : Fin d → ℝ), Metric.mem_ball_self hρ⟩).ne'
  have hbt : m₀ univ ≠ ⊤ := ne_top_of_le_ne_top ENNReal.one_ne_top hb1
  refine ⟨(m₀ univ).toReal, C, min ε' ε₀, ENNReal.toReal_pos hb0 hbt, ENNReal.toReal_mono ENNReal.one_ne_top hb1, h3, lt_min h4 hε₀, ?_⟩
  intro R ERR hR hE hEρ
  obtain ⟨hDlt, h6⟩ := h5 R ERR hR hE (hEρ.trans (min_le_left _ _))
  have mnext := measurable_sparseHitRunNext hL hA hk1 hkn R ERR
  have hstay : ∀ x ∈ K, ∀ᵐ v ∂(stdNormal n), ∀ val ∈ Icc (0 : ℝ) 1, sparseHitRunNext R ERR E A κ' x v val ∈ K := by
    intro x hx
    filter_upwards [sparse_ae_segment hL hA hmn hk1 hkn R ERR hE hDlt x hx.1 hx.2] with v hv val hval
    obtain ⟨p, q, hpq, hin, -, f0, hf⟩ := hv
    rw [sparseHitRunNext_eq fun f hf' => hf f hf' Unit val ()]
    refine ⟨?_, hin _ (by nlinarith [hval.1]) (by nlinarith [hval.2])⟩
    show A *ᵥ (x + _ • kerDir A v) = _
    rw [Matrix.mulVec_add, Matrix.mulVec_smul, kerDir_ker hA, smul_zero, add_zero]
    exact hx.1
  obtain ⟨P, hP⟩ := draw_limit mnext hKm hstay (m := m₀) (by
      have h1 : ∀ᵐ z ∂((volume.restrict (Metric.ball (0 : Fin d → ℝ) ρ)).map (chart x₀ B)), z ∈ K := by
        refine (ae_map_iff (p := fun z => z ∈ K) mch.aemeasurable hKm).2 ?_
        filter_upwards [ae_restrict_mem measurableSet_ball] with u hu using ⟨hchA u, hball u hu⟩
      exact Measure.ae_smul_measure h1 _)
    (fun y hy F hF => by
      rw [hm₀ F hF]
      exact hmin R ERR hR hE (hEρ.trans (min_le_right _ _)) y hy.1 hy.2 F hF) hb1 hb0
  have hp := hP.prob
  have hmix := fun F hF hF1 t => h6 x₀ rfl hx₀ F hF hF1 t
  have hsub : ∀ y ∈ K, y ∈ PolyEq A (A *ᵥ x₀) κ' := fun y hy => ⟨hy.1, tailPos_subset _ _ hy.2⟩
  refine ⟨P, hP, hDlt, fun T hT => ?_, fun φ M hφ hM hφM => ?_⟩
  · have h7 := limit_close mnext hP (x := x₀) ⟨rfl, hx₀⟩ h1 h2 hmix (u := T.indicator 1) ⟨measurable_one.indicator hT,
      fun y => indicator_nonneg (fun _ _ => zero_le_one) y, fun y => by by_cases hy : y ∈ T <;> simp [hy]⟩
    rw [integral_indicator_one hT, integral_indicator_one hT] at h7
    rw [← share_prob P]
    exact h7
  · rw [← average_prob P]
    exact limit_mean mnext hP hZ0 (chart_ae B hx₀ hB.mul_zero) (x := x₀) ⟨rfl, hx₀⟩ h1 h2 hmix hφ hM (fun y hy => hφM y (hsub y hy))

/-- **C98** (`SparseHitAndRun`): the same on `{A x = b, last k coordinates ≥ 0}`, for independent rows, at least two more columns and a polytope of
diameter `D < 2¹⁰⁰⁰⁰ r`. -/
theorem C98_sparse_hitrun {E : Eigen ℝ} (hL : E.SparseLUExact) {A : Matrix (Fin m) (Fin n) ℝ} (hA : IndepRows A) (hmn : m + 2 ≤ n)
    (k : Int) (hk : 1 ≤ k ∧ k ≤ n) (b : Fin m → ℝ) (x₀ : Fin n → ℝ) (hx₀A : A *ᵥ x₀ = b) (hx₀ : x₀ ∈ TailPos n k.toNat) (D : ℝ)
    (hD : ∀ y ∈ PolyEq A b k.toNat, ∀ z ∈ PolyEq A b k.toNat, ∑ i, (y i - z i) ^ 2 ≤ D ^ 2)
    (B : Matrix (Fin n) (Fin d) ℝ) (hB : IsKernelBasis A B) :
    ∃ β C ε₀ : ℝ, 0 < β ∧ β ≤ 1 ∧ 0 ≤ C ∧ 0 < ε₀ ∧ ∀ R ERR : ℝ, |D| < 2 ^ 10000 * |R| → 0 < ERR → ERR ≤ ε₀ →
      ∃ π : Measure (Fin n → ℝ), π univ = 1 ∧ π ({x | A *ᵥ x = b} ∩ TailPos n k.toNat)ᶜ = 0 ∧
        (∀ T, MeasurableSet T → |share π T - share (uniformOnEq x₀ B k.toNat) T| ≤ C * ERR) ∧
        (∀ (φ : (Fin n → ℝ) → ℝ) (M : ℝ), Measurable φ → 0 < M → (∀ y ∈ PolyEq A b k.toNat, |φ y| ≤ M) →
          |average π φ - average (uniformOnEq x₀ B k.toNat) φ| ≤ 2 * M * (C * ERR)) ∧
        ∀ (e : Env ℝ) [MeasurableSpace e.r.G] (μ : Measure e.r.G), IdealSource e.r μ → ∀ x, A *ᵥ x = b → x ∈ TailPos n k.toNat → ∀ seed : Int,
          (∀ t, LawWithin (.sparseHitRun R ERR E) e μ A b x k seed π t ((1 - β) ^ t)) ∧
          (∀ L gap : ℕ, JointWithin (.sparseHitRun R ERR E) e μ A b x k seed π L gap (L * (1 - β) ^ gap)) ∧
          ∀ (φ : (Fin n → ℝ) → ℝ) (M : ℝ), Measurable φ → 0 < M → (∀ y ∈ PolyEq A b k.toNat, |φ y| ≤ M) →
            MeanConverges (.sparseHitRun R ERR E) e μ A b x k seed φ (average π φ) := by
  obtain ⟨β, C, ε₀, h1, h2, h3, h4, h5⟩ := hitRun_limit_sparse hL hA hmn k hk b x₀ hx₀A hx₀ D hD B hB
  refine ⟨β, C, ε₀, h1, h2, h3, h4, fun R ERR hR hE hEρ => ?_⟩
  obtain ⟨P, hP, hDlt, hT, hφ⟩ := h5 R ERR hR hE hEρ
  have hp := hP.prob
  refine ⟨P, measure_univ, ae_iff.1 hP.ae, hT, hφ, fun e _ μ hs x hxA hx seed => ?_⟩
  have h7 := hP.draw (m := m) (measurable_sparseHitRunNext hL hA (by omega) (by omega) R ERR) (w := .sparseHitRun R ERR E) hs (A := A) (b := b) (x := x) ⟨hxA, hx⟩ (k := k)
    (seed := seed) (fun _ => hk) (fun niter burnin thin => sparseHitRun_follows R ERR hE hL e μ hs hA hmn b x niter k burnin thin seed hk hxA hx hDlt)
  exact ⟨h7.1, h7.2.1, fun φ M hφ hM hφM => h7.2.2 φ M hφ hM fun y hy => hφM y ⟨hy.1, tailPos_subset _ _ hy.2⟩⟩

/-! ## Concrete cases -/

/-- On the square. -/
example : ∃ β C ε₀ : ℝ, 0 < β ∧ 0 < ε₀ ∧ ∀ ERR, 0 < ERR → ERR ≤ ε₀ → ∃ π : Measure (Fin 2 → ℝ),
    |share π {y | y 0 ≤ 0} - share (uniformOn boxA fun _ => 1) {y | y 0 ≤ 0}| ≤ C * ERR ∧
    (∀ t, LawWithin (.hitRun 1 ERR) streamEnv streamLaw boxA (fun _ => 1) (fun _ => 0) 0 7 π t ((1 - β) ^ t)) ∧
    MeanConverges (.hitRun 1 ERR) streamEnv streamLaw boxA (fun _ => 1) (fun _ => 0) 0 7 ({y | y 0 ≤ 0}.indicator 1) (average π ({y | y 0 ≤ 0}.indicator 1)) := by
  have h0 : (0 : Fin 2 → ℝ) ∈ Interior boxA fun _ => 1 := fun i => by rw [Matrix.mulVec_zero]; exact one_pos
  have mT : MeasurableSet {y : Fin 2 → ℝ | y 0 ≤ 0} := measurableSet_le (measurable_pi_apply (0 : Fin 2)) measurable_const
  obtain ⟨β, C, ε₀, h1, -, -, h4, h⟩ := C98_hitrun (le_refl 2) boxA (fun _ => 1) ⟨0, h0⟩ boxA_bdd
  refine ⟨β, C, ε₀, h1, h4, fun ERR hE hE' => ?_⟩
  obtain ⟨π, -, -, h5, -, h6⟩ := h 1 ERR one_ne_zero hE hE'
  obtain ⟨h7, -, h8⟩ := h6 streamEnv streamLaw streamRng_ideal _ h0 0 7
  exact ⟨π, h5 _ mT, h7, h8 _ 1 (measurable_one.indicator mT) one_pos fun y _ => by by_cases hy : y ∈ {y : Fin 2 → ℝ | y 0 ≤ 0} <;> simp [hy]⟩

end PW

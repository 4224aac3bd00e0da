import Verif.Lemmas.BallMinorize
import Verif.Lemmas.UniformRows
import Verif.Props.BallLaw

/-! # The ball walk in a convex set converges -/

namespace PW
open Matrix MeasureTheory Set
open scoped ENNReal

section
variable {X W : Type} [MeasurableSpace X] [MeasurableSpace W]

/-- The probability proportional to `π`. -/
noncomputable def normed (π : Measure X) : Measure X := (π univ)⁻¹ • π

theorem normed_prob {π : Measure X} (h0 : π univ ≠ 0) (ht : π univ ≠ ⊤) : IsProbabilityMeasure (normed π) := ⟨by
  unfold normed
  rw [Measure.smul_apply, smul_eq_mul, ENNReal.inv_mul_cancel h0 ht]⟩

theorem normed_share (π : Measure X) (T : Set X) : (normed π T).toReal = share π T := by
  unfold normed share
  rw [Measure.smul_apply, smul_eq_mul, ENNReal.toReal_mul, ENNReal.toReal_inv]
  ring

theorem normed_average (π : Measure X) (φ : X → ℝ) : ∫ x, φ x ∂(normed π) = average π φ := by
  unfold normed average
  rw [integral_smul_measure, smul_eq_mul, ENNReal.toReal_inv]
  ring

theorem normed_ae {π : Measure X} {p : X → Prop} (h : ∀ᵐ x ∂π, p x) : ∀ᵐ x ∂(normed π), p x := by
  rw [ae_iff] at h ⊢
  unfold normed
  rw [Measure.smul_apply, h, smul_zero]

theorem normed_balance {π : Measure X} {ν : Measure W} {T : X → W → X} (h : Balance π ν T) : Balance (normed π) ν T := by
  intro F hF
  unfold normed
  rw [lintegral_smul_measure, lintegral_smul_measure, h F hF]

end

variable {d : ℕ}

theorem norm2_eq_len (v : Fin d → ℝ) : norm2 v = len v := norm2_real v

theorem hat_neg (v : Fin d → ℝ) : hat (-v) = -hat v := by unfold hat; rw [len_neg, smul_neg]

theorem ballMove_neg (K : Set (Fin d → ℝ)) (s : ℝ) (x v : Fin d → ℝ) : ballMove K (-s) x v = ballMove K s x (-v) := by
  unfold ballMove
  rw [hat_neg, smul_neg, neg_smul]

theorem stepE_ball_neg {K : Set (Fin d → ℝ)} (hK : MeasurableSet K) (s : ℝ) {F : (Fin d → ℝ) → ℝ≥0∞} (hF : Measurable F) (x : Fin d → ℝ) :
    stepE (stdNormal d) (ballMove K (-s)) F x = stepE (stdNormal d) (ballMove K s) F x := by
  unfold stepE
  have hm : Measurable fun v => F (ballMove K s x v) := hF.comp (meas_at (measurable_ballMove hK s) x)
  have h1 : (stdNormal d).map (fun v => -v) = stdNormal d := stdNormal_symmetric d
  conv_rhs => rw [← h1, lintegral_map hm measurable_neg]
  simp only [ballMove_neg]

theorem stepE_ball_neg_iter {K : Set (Fin d → ℝ)} (hK : MeasurableSet K) (s : ℝ) {F : (Fin d → ℝ) → ℝ≥0∞} (hF : Measurable F) (n : ℕ) :
    (stepE (stdNormal d) (ballMove K (-s)))^[n] F = (stepE (stdNormal d) (ballMove K s))^[n] F := by
  induction n with
  | zero => rfl
  | succ n ih =>
    rw [Function.iterate_succ_apply', Function.iterate_succ_apply', ih]
    funext x
    exact stepE_ball_neg hK s (stepE_meas (measurable_ballMove hK s) hF n) x

/-- The minorising measure. -/
theorem ball_minor_measure (hd : 2 ≤ d) {K : Set (Fin d → ℝ)} {s : ℝ} (hconv : Convex ℝ K) (hs : s ≠ 0) {c : Fin d → ℝ} {ρ : ℝ} (hρ : |s| < ρ)
    (hball : ∀ y, len (y - c) ≤ ρ → y ∈ K) {D : ℝ} (hD : ∀ y ∈ K, len (y - c) ≤ D) (hKm : MeasurableSet K) :
    ∃ n₀ : ℕ, 0 < n₀ ∧ ∃ m : Measure (Fin d → ℝ), m univ ≠ 0 ∧ (∀ᵐ y ∂m, y ∈ K) ∧ ∀ x ∈ K, ∀ F : (Fin d → ℝ) → ℝ≥0∞, Measurable F →
      ∫⁻ y, F y ∂m ≤ (stepE (stdNormal d) (ballMove K s))^[n₀] F x := by
  obtain ⟨n₀, hn₀, b, hb, δ, hδ, hδρ, h⟩ := ball_minorize hd hconv (abs_pos.2 hs) hρ hball hD hKm
  have mS : MeasurableSet {y : Fin d → ℝ | len (y - c) ≤ δ} :=
    measurableSet_le (measurable_len.comp (measurable_id.sub_const c)) measurable_const
  refine ⟨n₀, hn₀, b • volume.restrict {y | len (y - c) ≤ δ}, ?_, ?_, ?_⟩
  · rw [Measure.smul_apply, smul_eq_mul, Measure.restrict_apply_univ, mul_ne_zero_iff]
    refine ⟨hb, ?_⟩
    have ho : IsOpen {y : Fin d → ℝ | len (y - c) < δ} := by
      have hc : Continuous fun y : Fin d → ℝ => len (y - c) := by
        unfold len dotProduct
        fun_prop
      exact isOpen_lt hc continuous_const
    refine (lt_of_lt_of_le (ho.measure_pos volume ⟨c, ?_⟩) (measure_mono fun y (hy : len (y - c) < δ) => hy.le)).ne'
    show len (c - c) < δ
    rw [sub_self, len_zero]; exact hδ
  · have : ∀ᵐ y ∂(volume.restrict {y : Fin d → ℝ | len (y - c) ≤ δ}), y ∈ K :=
      (ae_restrict_mem mS).mono fun y hy => hball y (le_trans hy hδρ)
    rw [ae_iff] at this ⊢
    rw [Measure.smul_apply, this, smul_zero]
  · intro x hx F hF
    rw [lintegral_smul_measure, smul_eq_mul]
    refine (h x hx F hF).trans (le_of_eq ?_)
    rcases abs_choice s with h | h
    · rw [h]
    · rw [h, stepE_ball_neg_iter hKm s hF]

end PW

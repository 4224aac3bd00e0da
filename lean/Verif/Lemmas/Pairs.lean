import Verif.Lemmas.Backwards
import Verif.Lemmas.ErgodicMean
import Verif.Lemmas.BallMix

/-! # Lagged second moments of a chain with detailed balance -/

namespace PW
open MeasureTheory Set
open scoped ENNReal

section
variable {X W : Type} [MeasurableSpace X] [MeasurableSpace W]

theorem sq_expand {P : Measure X} [IsProbabilityMeasure P] {M N : ℝ} {f g : X → ℝ} (hf : Bdd M f) (hg : Bdd N g) (s : ℝ) :
    ∫ x, (f x + s * g x) ^ 2 ∂P = ∫ x, f x * f x ∂P + 2 * s * ∫ x, f x * g x ∂P + s ^ 2 * ∫ x, g x * g x ∂P := by
  have e : ∀ x, (f x + s * g x) ^ 2 = f x * f x + 2 * s * (f x * g x) + s ^ 2 * (g x * g x) := fun x => by ring
  simp only [e]
  have i1 := (hf.mul hf).int P
  have i2 := ((hf.mul hg).int P).const_mul (2 * s)
  have i3 := ((hg.mul hg).int P).const_mul (s ^ 2)
  have i4 : Integrable (fun x => f x * f x + 2 * s * (f x * g x)) P := i1.add i2
  rw [integral_add i4 i3, integral_add i1 i2, integral_const_mul, integral_const_mul]

theorem Bdd.add {M N : ℝ} {f g : X → ℝ} (h : Bdd M f) (h' : Bdd N g) : Bdd (M + N) fun x => f x + g x :=
  ⟨h.meas.add h'.meas, fun x => (abs_add_le _ _).trans (add_le_add (h.le x) (h'.le x))⟩

variable {ν : Measure W} [IsProbabilityMeasure ν] {T : X → W → X} (hT : Measurable fun p : X × W => T p.1 p.2)
include hT

theorem avgIter_add {M N : ℝ} {f g : X → ℝ} (hf : Bdd M f) (hg : Bdd N g) (n : ℕ) (x : X) :
    (avg ν T)^[n] (fun y => f y + g y) x = (avg ν T)^[n] f x + (avg ν T)^[n] g x := by
  induction n generalizing x with
  | zero => rfl
  | succ n ih =>
    rw [Function.iterate_succ_apply', Function.iterate_succ_apply', Function.iterate_succ_apply']
    show ∫ w, _ ∂ν = ∫ w, _ ∂ν + ∫ w, _ ∂ν
    rw [integral_congr_ae (ae_of_all _ fun w => ih (T x w)),
      integral_add (((hf.avgIter hT n).comp (meas_at hT x)).int ν) (((hg.avgIter hT n).comp (meas_at hT x)).int ν)]

variable {P : Measure X} [IsProbabilityMeasure P] (hb : Balance P ν T)
include hb

/-- Averaging does not increase the second moment. -/
theorem avgIter_sq_le {M : ℝ} {f : X → ℝ} (hf : Bdd M f) (n : ℕ) :
    ∫ x, (avg ν T)^[n] f x * (avg ν T)^[n] f x ∂P ≤ ∫ x, f x * f x ∂P := by
  induction n with
  | zero => exact le_rfl
  | succ n ih =>
    refine le_trans ?_ ih
    have h := loss hT hb (hf.avgIter (ν := ν) hT n)
    have h0 : 0 ≤ ∫ z, ((avg ν T)^[n] f z.2 - avg ν T ((avg ν T)^[n] f) z.1) ^ 2 ∂(pairLaw P ν T) := integral_nonneg fun z => sq_nonneg _
    rw [Function.iterate_succ_apply']
    linarith

/-- Lagged second moment. -/
noncomputable def lagged (P : Measure X) (ν : Measure W) (T : X → W → X) (f : X → ℝ) (s : ℕ) : ℝ := ∫ x, f x * (avg ν T)^[s] f x ∂P

theorem lagged_split {M : ℝ} {f : X → ℝ} (hf : Bdd M f) (a b : ℕ) :
    lagged P ν T f (a + b) = ∫ x, (avg ν T)^[a] f x * (avg ν T)^[b] f x ∂P := by
  unfold lagged
  rw [Function.iterate_add_apply, avgIter_adj hT hb (hf.avgIter hT b) hf a]
  exact integral_congr_ae (ae_of_all _ fun x => mul_comm _ _)

theorem lagged_even_le {M : ℝ} {f : X → ℝ} (hf : Bdd M f) (a τ : ℕ) : lagged P ν T f (2 * (a + τ)) ≤ lagged P ν T f (2 * a) := by
  have h := avgIter_sq_le hT hb (hf.avgIter (ν := ν) hT a) τ
  rw [← Function.iterate_add_apply, ← lagged_split hT hb hf, ← lagged_split hT hb hf] at h
  convert h using 2 <;> omega

theorem lagged_even_floor {M : ℝ} {f : X → ℝ} (hf : Bdd M f) (a : ℕ) : (∫ x, f x ∂P) ^ 2 ≤ lagged P ν T f (2 * a) := by
  have hg := hf.avgIter (ν := ν) hT a
  have h := sq_expand (P := P) hg (Bdd.const (X := X) 1) (-∫ x, f x ∂P)
  have h0 : 0 ≤ ∫ x, ((avg ν T)^[a] f x + -(∫ x, f x ∂P) * 1) ^ 2 ∂P := integral_nonneg fun z => sq_nonneg _
  rw [h] at h0
  simp only [mul_one, integral_const, probReal_univ, one_smul] at h0
  rw [integral_avgIter hT hb hf, ← lagged_split hT hb hf, ← two_mul] at h0
  nlinarith

theorem lagged_pairs_floor {M : ℝ} {f : X → ℝ} (hf : Bdd M f) (a τ : ℕ) :
    2 * (∫ x, f x ∂P) ^ 2 ≤ lagged P ν T f (2 * a) + lagged P ν T f (2 * a + τ) := by
  have hg := hf.avgIter (ν := ν) hT a
  have hq := hf.avgIter (ν := ν) hT (a + τ)
  have h := sq_expand (P := P) (hg.add hq) (Bdd.const (X := X) 1) (-(2 * ∫ x, f x ∂P))
  have h0 : 0 ≤ ∫ x, ((avg ν T)^[a] f x + (avg ν T)^[a + τ] f x + -(2 * ∫ x, f x ∂P) * 1) ^ 2 ∂P := integral_nonneg fun z => sq_nonneg _
  rw [h] at h0
  have h1 := sq_expand (P := P) hg hq 1
  have e1 : ∀ x, ((avg ν T)^[a] f x + 1 * (avg ν T)^[a + τ] f x) ^ 2 =
      ((avg ν T)^[a] f x + (avg ν T)^[a + τ] f x) * ((avg ν T)^[a] f x + (avg ν T)^[a + τ] f x) := fun x => by ring
  simp only [e1] at h1
  rw [h1] at h0
  simp only [mul_one, integral_const, probReal_univ, one_smul] at h0
  rw [integral_add (hg.int P) (hq.int P), integral_avgIter hT hb hf, integral_avgIter hT hb hf, ← lagged_split hT hb hf, ← lagged_split hT hb hf,
    ← lagged_split hT hb hf] at h0
  have h2 := lagged_even_le hT hb hf a τ
  rw [show a + τ + (a + τ) = 2 * (a + τ) by omega, show a + (a + τ) = 2 * a + τ by omega, ← two_mul a] at h0
  nlinarith

theorem lagged_pairs_le {M : ℝ} {f : X → ℝ} (hf : Bdd M f) (a τ : ℕ) :
    lagged P ν T f (2 * (a + τ)) + lagged P ν T f (2 * (a + τ) + τ) ≤ lagged P ν T f (2 * a) + lagged P ν T f (2 * a + τ) := by
  have hg := hf.avgIter (ν := ν) hT a
  have hq := hf.avgIter (ν := ν) hT (a + τ)
  have hqq := hf.avgIter (ν := ν) hT (a + τ + τ)
  have h1 := sq_expand (P := P) hg hqq (-1)
  have h0 : 0 ≤ ∫ x, ((avg ν T)^[a] f x + (-1) * (avg ν T)^[a + τ + τ] f x) ^ 2 ∂P := integral_nonneg fun z => sq_nonneg _
  rw [h1, ← lagged_split hT hb hf, ← lagged_split hT hb hf, ← lagged_split hT hb hf] at h0
  have h2 := avgIter_sq_le hT hb (hg.add hq) τ
  simp only [avgIter_add hT hg hq τ, ← Function.iterate_add_apply] at h2
  have e2 : ∀ (u v : X → ℝ), (fun x => (u x + v x) * (u x + v x)) = fun x => (u x + 1 * v x) ^ 2 := fun u v => by funext x; ring
  rw [e2, e2, show τ + a = a + τ by omega, show τ + (a + τ) = a + τ + τ by omega, sq_expand hq hqq, sq_expand hg hq] at h2
  simp only [← lagged_split hT hb hf] at h2
  rw [show a + (a + τ + τ) = 2 * (a + τ) by omega, ← two_mul a] at h0
  rw [show a + τ + (a + τ) = 2 * (a + τ) by omega, show a + τ + (a + τ + τ) = 2 * (a + τ) + τ by omega, ← two_mul a,
    show a + (a + τ) = 2 * a + τ by omega] at h2
  linarith

end
end PW

import Verif.Lemmas.ErgodicMean

/-! # Geometric convergence of a chain that satisfies a minorisation condition after several steps -/

namespace PW
open MeasureTheory Set Filter Topology
open scoped ENNReal

variable {X W : Type} [MeasurableSpace X] [MeasurableSpace W]

/-- Expected value of a nonnegative function after one step. -/
noncomputable def stepE (ν : Measure W) (T : X → W → X) (F : X → ℝ≥0∞) (x : X) : ℝ≥0∞ := ∫⁻ w, F (T x w) ∂ν

section
variable {ν : Measure W} [IsProbabilityMeasure ν] {T : X → W → X} (hT : Measurable fun p : X × W => T p.1 p.2)
include hT

theorem stepE_meas {F : X → ℝ≥0∞} (hF : Measurable F) (n : ℕ) : Measurable ((stepE ν T)^[n] F) := by
  induction n with
  | zero => exact hF
  | succ n ih => rw [Function.iterate_succ_apply']; exact (ih.comp hT).lintegral_prod_right'

theorem avg_nonneg {f : X → ℝ} (h0 : ∀ x, 0 ≤ f x) (n : ℕ) (x : X) : 0 ≤ (avg ν T)^[n] f x := by
  induction n generalizing x with
  | zero => exact h0 x
  | succ n ih => rw [Function.iterate_succ_apply']; exact integral_nonneg fun w => ih _

theorem stepE_ofReal {M : ℝ} {f : X → ℝ} (hf : Bdd M f) (h0 : ∀ x, 0 ≤ f x) (n : ℕ) (x : X) :
    (stepE ν T)^[n] (fun y => ENNReal.ofReal (f y)) x = ENNReal.ofReal ((avg ν T)^[n] f x) := by
  induction n generalizing x with
  | zero => rfl
  | succ n ih =>
    rw [Function.iterate_succ_apply', Function.iterate_succ_apply']
    show ∫⁻ w, _ ∂ν = ENNReal.ofReal (∫ w, _ ∂ν)
    rw [ofReal_integral_eq_lintegral_ofReal (((hf.avgIter hT n).comp (meas_at hT x)).int ν) (ae_of_all _ fun w => avg_nonneg hT h0 n _)]
    exact lintegral_congr fun w => ih _

end

section
variable {ν : Measure W} {T : X → W → X} {K : Set X} (hK : ∀ x ∈ K, ∀ᵐ w ∂ν, T x w ∈ K)
include hK

omit [MeasurableSpace X] in
theorem avg_congr_on {f g : X → ℝ} (h : ∀ x ∈ K, f x = g x) (n : ℕ) {x : X} (hx : x ∈ K) : (avg ν T)^[n] f x = (avg ν T)^[n] g x := by
  induction n generalizing x with
  | zero => exact h x hx
  | succ n ih =>
    rw [Function.iterate_succ_apply', Function.iterate_succ_apply']
    exact integral_congr_ae ((hK x hx).mono fun w hw => ih hw)

end

section
variable {P : Measure X} [IsProbabilityMeasure P] {ν : Measure W} [IsProbabilityMeasure ν] {T : X → W → X}
  (hT : Measurable fun p : X × W => T p.1 p.2) {K : Set X} (hK : ∀ x ∈ K, ∀ᵐ w ∂ν, T x w ∈ K) {n₀ : ℕ}
  {m : Measure X} (hmK : ∀ᵐ x ∂m, x ∈ K)
  (hm : ∀ x ∈ K, ∀ F : X → ℝ≥0∞, Measurable F → ∫⁻ y, F y ∂m ≤ (stepE ν T)^[n₀] F x)
include hT hK hmK hm

omit [IsProbabilityMeasure P] in
/-- The minorisation for real functions. -/
theorem minor_real [IsFiniteMeasure m] {M : ℝ} {f : X → ℝ} (hf : Bdd M f) (h0 : ∀ x ∈ K, 0 ≤ f x) {x : X} (hx : x ∈ K) :
    ∫ y, f y ∂m ≤ (avg ν T)^[n₀] f x := by
  set g : X → ℝ := fun y => max (f y) 0 with hg
  have hgf : ∀ y ∈ K, g y = f y := fun y hy => max_eq_left (h0 y hy)
  have bg : Bdd M g := ⟨hf.meas.max measurable_const, fun y => by
    simp only [hg]
    rw [abs_of_nonneg (le_max_right _ _)]
    exact max_le ((le_abs_self _).trans (hf.le y)) (hf.nonneg y)⟩
  have g0 : ∀ y, 0 ≤ g y := fun y => le_max_right _ _
  rw [← avg_congr_on hK hgf n₀ hx, ← integral_congr_ae (hmK.mono fun y hy => hgf y hy)]
  have h1 := hm x hx (fun y => ENNReal.ofReal (g y)) bg.meas.ennreal_ofReal
  rw [stepE_ofReal hT bg g0, ← ofReal_integral_eq_lintegral_ofReal (bg.int m) (ae_of_all _ g0)] at h1
  exact (ENNReal.ofReal_le_ofReal_iff (avg_nonneg hT g0 n₀ x)).1 h1

/-- Ranges shrink. -/
theorem range_shrink [IsFiniteMeasure m] {β : ℝ} (hβ : β = (m univ).toReal) {M : ℝ} {f : X → ℝ} (hf : Bdd M f) {lo hi : ℝ}
    (hlo : ∀ x ∈ K, lo ≤ f x) (hhi : ∀ x ∈ K, f x ≤ hi) (k : ℕ) :
    ∃ lo' hi', hi' - lo' = (1 - β) ^ k * (hi - lo) ∧ ∀ t ≥ k * n₀, ∀ x ∈ K, lo' ≤ (avg ν T)^[t] f x ∧ (avg ν T)^[t] f x ≤ hi' := by
  have hstep : ∀ {g : X → ℝ}, Bdd M g → ∀ {a b : ℝ}, (∀ x ∈ K, a ≤ g x ∧ g x ≤ b) → ∀ x ∈ K, a ≤ avg ν T g x ∧ avg ν T g x ≤ b := by
    intro g hg a b hab x hx
    have hi := (hg.comp (meas_at hT x)).int ν
    constructor
    · calc a = ∫ w, a ∂ν := by simp
        _ ≤ _ := integral_mono_ae (integrable_const _) hi ((hK x hx).mono fun w hw => (hab _ hw).1)
    · calc avg ν T g x ≤ ∫ w, b ∂ν := integral_mono_ae hi (integrable_const _) ((hK x hx).mono fun w hw => (hab _ hw).2)
        _ = b := by simp
  have hkeep : ∀ {a b : ℝ} {t₁ : ℕ}, (∀ x ∈ K, a ≤ (avg ν T)^[t₁] f x ∧ (avg ν T)^[t₁] f x ≤ b) →
      ∀ t ≥ t₁, ∀ x ∈ K, a ≤ (avg ν T)^[t] f x ∧ (avg ν T)^[t] f x ≤ b := by
    intro a b t₁ h t ht
    induction t, ht using Nat.le_induction with
    | base => exact h
    | succ t _ ih => rw [Function.iterate_succ_apply']; exact hstep (hf.avgIter hT t) ih
  induction k with
  | zero =>
    refine ⟨lo, hi, by simp, ?_⟩
    rw [zero_mul]
    exact hkeep (t₁ := 0) fun x hx => ⟨hlo x hx, hhi x hx⟩
  | succ k ih =>
    obtain ⟨a, b, hw, hr⟩ := ih
    set g := (avg ν T)^[k * n₀] f with hg
    have bg : Bdd M g := hf.avgIter hT _
    have hab : ∀ x ∈ K, a ≤ g x ∧ g x ≤ b := fun x hx => hr _ le_rfl x hx
    have hmass : ∀ c : ℝ, ∫ _, c ∂m = β * c := fun c => by rw [integral_const, hβ]; rfl
    refine ⟨a + ∫ y, (g y - a) ∂m, b - ∫ y, (b - g y) ∂m, ?_, ?_⟩
    · rw [integral_sub (bg.int m) (integrable_const _), integral_sub (integrable_const _) (bg.int m), hmass, hmass, pow_succ, mul_right_comm,
        ← hw]
      ring
    · refine hkeep (t₁ := (k + 1) * n₀) fun x hx => ?_
      have e : (avg ν T)^[(k + 1) * n₀] f x = (avg ν T)^[n₀] g x := by
        rw [hg, ← Function.iterate_add_apply]; congr 2; ring
      rw [e]
      constructor
      · have h1 := minor_real hT hK hmK hm (bg.sub (Bdd.const a)) (fun y hy => sub_nonneg.2 (hab y hy).1) hx
        rw [avg_sub_const hT bg a n₀ x] at h1
        linarith
      · have h1 := minor_real hT hK hmK hm ((Bdd.const b).sub bg) (fun y hy => sub_nonneg.2 (hab y hy).2) hx
        have h2 : (avg ν T)^[n₀] (fun y => b - g y) x = b - (avg ν T)^[n₀] g x := by
          have h3 := avg_const_mul (ν := ν) (T := T) (fun y => g y - b) (-1) n₀ x
          rw [avg_sub_const hT bg b n₀ x] at h3
          have h4 : (fun y => b - g y) = fun y => -1 * (g y - b) := by funext y; ring
          rw [h4, h3]; ring
        rw [h2] at h1
        linarith

/-- **Geometric convergence**, uniformly over the starting point. -/
theorem uniform_converge [IsFiniteMeasure m] {β : ℝ} (hβ : β = (m univ).toReal) (hPK : ∀ᵐ x ∂P, x ∈ K) (hn₀ : 0 < n₀) {M : ℝ} {f : X → ℝ}
    (hf : Bdd M f) (hinv : ∀ t, ∫ x, (avg ν T)^[t] f x ∂P = ∫ x, f x ∂P) {lo hi : ℝ} (hlo : ∀ x ∈ K, lo ≤ f x) (hhi : ∀ x ∈ K, f x ≤ hi)
    (t : ℕ) {x : X} (hx : x ∈ K) : |(avg ν T)^[t] f x - ∫ y, f y ∂P| ≤ (1 - β) ^ (t / n₀) * (hi - lo) := by
  obtain ⟨a, b, hw, hr⟩ := range_shrink (ν := ν) hT hK hmK hm hβ hf hlo hhi (t / n₀)
  have ht : t ≥ t / n₀ * n₀ := Nat.div_mul_le_self t n₀
  have h1 := hr t ht x hx
  have hi := (hf.avgIter (ν := ν) hT t).int P
  have h2 : a ≤ ∫ y, f y ∂P := by
    rw [← hinv t]
    calc a = ∫ _, a ∂P := by simp
      _ ≤ _ := integral_mono_ae (integrable_const _) hi (hPK.mono fun y hy => (hr t ht y hy).1)
  have h3 : ∫ y, f y ∂P ≤ b := by
    rw [← hinv t]
    calc _ ≤ ∫ _, b ∂P := integral_mono_ae hi (integrable_const _) (hPK.mono fun y hy => (hr t ht y hy).2)
      _ = b := by simp
  rw [← hw, abs_le]
  constructor <;> linarith [h1.1, h1.2]

end

end PW

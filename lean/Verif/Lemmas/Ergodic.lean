import Verif.Lemmas.Stationary
import Mathlib.MeasureTheory.Integral.Bochner.Basic
import Mathlib.MeasureTheory.Integral.Prod
import Mathlib.MeasureTheory.Measure.Decomposition.RadonNikodym
import Mathlib.Analysis.SpecificLimits.Basic

/-! # Convergence of a chain that leaves a law invariant and can jump anywhere -/

namespace PW
open MeasureTheory Set Filter Topology
open scoped ENNReal

variable {X W : Type} [MeasurableSpace X] [MeasurableSpace W]

/-- Measurable and bounded by `M`. -/
structure Bdd (M : ℝ) (f : X → ℝ) : Prop where
  meas : Measurable f
  le : ∀ x, |f x| ≤ M

theorem Bdd.int {M : ℝ} {f : X → ℝ} (h : Bdd M f) (μ : Measure X) [IsFiniteMeasure μ] : Integrable f μ :=
  Integrable.of_bound h.meas.aestronglyMeasurable M (ae_of_all _ h.le)

theorem Bdd.nonneg {M : ℝ} {f : X → ℝ} (h : Bdd M f) (x : X) : 0 ≤ M := (abs_nonneg _).trans (h.le x)

theorem Bdd.mul {M N : ℝ} {f g : X → ℝ} (h : Bdd M f) (h' : Bdd N g) : Bdd (M * N) fun x => f x * g x :=
  ⟨h.meas.mul h'.meas, fun x => by rw [abs_mul]; exact mul_le_mul (h.le x) (h'.le x) (abs_nonneg _) (h.nonneg x)⟩

theorem Bdd.comp {Y : Type} [MeasurableSpace Y] {M : ℝ} {f : X → ℝ} (h : Bdd M f) {c : Y → X} (hc : Measurable c) : Bdd M fun y => f (c y) :=
  ⟨h.meas.comp hc, fun _ => h.le _⟩

theorem Bdd.sub {M N : ℝ} {f g : X → ℝ} (h : Bdd M f) (h' : Bdd N g) : Bdd (M + N) fun x => f x - g x :=
  ⟨h.meas.sub h'.meas, fun x => (abs_sub _ _).trans (add_le_add (h.le x) (h'.le x))⟩

theorem Bdd.const (c : ℝ) : Bdd (X := X) |c| fun _ => c := ⟨measurable_const, fun _ => le_rfl⟩

/-- Expected value of `f` after one step. -/
noncomputable def avg (ν : Measure W) (T : X → W → X) (f : X → ℝ) (x : X) : ℝ := ∫ w, f (T x w) ∂ν

section
variable {ν : Measure W} [IsProbabilityMeasure ν] {T : X → W → X} (hT : Measurable fun p : X × W => T p.1 p.2)
include hT

theorem meas_at (x : X) : Measurable (T x) := hT.comp measurable_prodMk_left

theorem Bdd.avg {M : ℝ} {f : X → ℝ} (h : Bdd M f) : Bdd M (avg ν T f) := by
  refine ⟨?_, fun x => ?_⟩
  · have : StronglyMeasurable fun p : X × W => f (T p.1 p.2) := (h.meas.comp hT).stronglyMeasurable
    exact this.integral_prod_right'.measurable
  · unfold PW.avg
    have := norm_integral_le_of_norm_le_const (μ := ν) (f := fun w => f (T x w)) (C := M) (ae_of_all _ fun w => h.le _)
    rw [Real.norm_eq_abs] at this
    simpa using this

theorem Bdd.avgIter {M : ℝ} {f : X → ℝ} (h : Bdd M f) (n : ℕ) : Bdd M ((PW.avg ν T)^[n] f) := by
  induction n with
  | zero => exact h
  | succ n ih => rw [Function.iterate_succ_apply']; exact ih.avg hT

end

/-- The law of two successive positions. -/
noncomputable def pairLaw (P : Measure X) (ν : Measure W) (T : X → W → X) : Measure (X × X) :=
  (P.prod ν).map fun p => (p.1, T p.1 p.2)

section
variable {P : Measure X} [IsProbabilityMeasure P] {ν : Measure W} [IsProbabilityMeasure ν] {T : X → W → X}
  (hT : Measurable fun p : X × W => T p.1 p.2)
include hT

theorem measurable_pair : Measurable fun p : X × W => (p.1, T p.1 p.2) := measurable_fst.prodMk hT

theorem pairLaw_prob : IsProbabilityMeasure (pairLaw P ν T) := Measure.isProbabilityMeasure_map (measurable_pair hT).aemeasurable

/-- Integrals under the pair law. -/
theorem integral_pairLaw {M : ℝ} {F : X × X → ℝ} (hF : Bdd M F) :
    ∫ z, F z ∂(pairLaw P ν T) = ∫ x, ∫ w, F (x, T x w) ∂ν ∂P := by
  unfold pairLaw
  rw [integral_map (measurable_pair hT).aemeasurable hF.meas.aestronglyMeasurable, integral_prod]
  exact (hF.comp (measurable_pair hT)).int _

omit [IsProbabilityMeasure P] in
theorem lintegral_pairLaw {F : X × X → ℝ≥0∞} (hF : Measurable F) :
    ∫⁻ z, F z ∂(pairLaw P ν T) = ∫⁻ x, ∫⁻ w, F (x, T x w) ∂ν ∂P := by
  unfold pairLaw
  rw [lintegral_map hF (measurable_pair hT)]
  exact lintegral_prod (fun p : X × W => F (p.1, T p.1 p.2)) (hF.comp (measurable_pair hT)).aemeasurable

theorem integral_pair_mul {M N : ℝ} {f g : X → ℝ} (hf : Bdd M f) (hg : Bdd N g) :
    ∫ z, g z.1 * f z.2 ∂(pairLaw P ν T) = ∫ x, g x * avg ν T f x ∂P := by
  rw [integral_pairLaw hT ((hg.comp measurable_fst).mul (hf.comp measurable_snd))]
  exact integral_congr_ae (ae_of_all _ fun x => integral_const_mul (g x) fun w => f (T x w))

end

/-- Detailed balance. -/
def Balance (P : Measure X) (ν : Measure W) (T : X → W → X) : Prop :=
  ∀ F : X × X → ℝ≥0∞, Measurable F → ∫⁻ x, ∫⁻ w, F (x, T x w) ∂ν ∂P = ∫⁻ x, ∫⁻ w, F (T x w, x) ∂ν ∂P

section
variable {P : Measure X} [IsProbabilityMeasure P] {ν : Measure W} [IsProbabilityMeasure ν] {T : X → W → X}
  (hT : Measurable fun p : X × W => T p.1 p.2) (hb : Balance P ν T)
include hT hb

theorem pairLaw_swap : (pairLaw P ν T).map Prod.swap = pairLaw P ν T := by
  refine Measure.ext_of_lintegral _ fun F hF => ?_
  rw [lintegral_map hF measurable_swap, lintegral_pairLaw hT hF]
  exact (lintegral_pairLaw hT (F := fun z : X × X => F z.swap) (hF.comp measurable_swap)).trans (hb F hF).symm

theorem integral_swap {M : ℝ} {F : X × X → ℝ} (hF : Bdd M F) :
    ∫ z, F z.swap ∂(pairLaw P ν T) = ∫ z, F z ∂(pairLaw P ν T) := by
  conv_rhs => rw [← pairLaw_swap hT hb]
  rw [integral_map measurable_swap.aemeasurable hF.meas.aestronglyMeasurable]

/-- Self-adjointness. -/
theorem avg_adj {M N : ℝ} {f g : X → ℝ} (hf : Bdd M f) (hg : Bdd N g) : ∫ x, g x * avg ν T f x ∂P = ∫ x, f x * avg ν T g x ∂P := by
  rw [← integral_pair_mul hT hf hg, ← integral_pair_mul hT hg hf,
    ← integral_swap hT hb ((hf.comp measurable_fst).mul (hg.comp measurable_snd))]
  exact integral_congr_ae (ae_of_all _ fun z => mul_comm _ _)

theorem avgIter_adj {M N : ℝ} {f g : X → ℝ} (hf : Bdd M f) (hg : Bdd N g) (n : ℕ) :
    ∫ x, g x * (avg ν T)^[n] f x ∂P = ∫ x, f x * (avg ν T)^[n] g x ∂P := by
  induction n generalizing f g M N with
  | zero => exact integral_congr_ae (ae_of_all _ fun z => mul_comm _ _)
  | succ n ih =>
    rw [Function.iterate_succ_apply', avg_adj hT hb (hf.avgIter hT n) hg, Function.iterate_succ_apply]
    have := ih hf (hg.avg (ν := ν) hT)
    rw [← this]
    exact integral_congr_ae (ae_of_all _ fun z => mul_comm _ _)

theorem integral_snd {M : ℝ} {f : X → ℝ} (hf : Bdd M f) : ∫ z, f z.2 ∂(pairLaw P ν T) = ∫ x, f x ∂P := by
  have h1 := integral_swap hT hb (hf.comp (measurable_fst (α := X) (β := X)))
  have h2 : ∫ z, f z.1 ∂(pairLaw P ν T) = ∫ x, f x ∂P := by
    rw [integral_pairLaw hT (hf.comp measurable_fst)]
    simp
  rw [← h2, ← h1]
  rfl

theorem integral_avg {M : ℝ} {f : X → ℝ} (hf : Bdd M f) : ∫ x, avg ν T f x ∂P = ∫ x, f x ∂P := by
  have h := integral_pair_mul (P := P) (ν := ν) hT hf (Bdd.const (X := X) 1)
  simp only [one_mul] at h
  rw [← h]
  exact integral_snd hT hb hf

theorem integral_avgIter {M : ℝ} {f : X → ℝ} (hf : Bdd M f) (n : ℕ) : ∫ x, (avg ν T)^[n] f x ∂P = ∫ x, f x ∂P := by
  induction n with
  | zero => rfl
  | succ n ih => rw [Function.iterate_succ_apply', integral_avg hT hb (hf.avgIter hT n), ih]

/-- The loss of second moment in one step is a squared distance. -/
theorem loss {M : ℝ} {f : X → ℝ} (hf : Bdd M f) :
    ∫ z, (f z.2 - avg ν T f z.1) ^ 2 ∂(pairLaw P ν T) = ∫ x, f x * f x ∂P - ∫ x, avg ν T f x * avg ν T f x ∂P := by
  have := pairLaw_prob (P := P) (ν := ν) hT
  have ha := hf.avg (ν := ν) hT
  have e : ∀ z : X × X, (f z.2 - avg ν T f z.1) ^ 2 = f z.2 * f z.2 - 2 * (avg ν T f z.1 * f z.2) + avg ν T f z.1 * avg ν T f z.1 :=
    fun z => by ring
  simp only [e]
  have i1 : Integrable (fun z : X × X => f z.2 * f z.2) (pairLaw P ν T) := ((hf.mul hf).comp measurable_snd).int _
  have i2 : Integrable (fun z : X × X => 2 * (avg ν T f z.1 * f z.2)) (pairLaw P ν T) :=
    (((ha.comp measurable_fst).mul (hf.comp measurable_snd)).int _).const_mul 2
  have i3 : Integrable (fun z : X × X => avg ν T f z.1 * avg ν T f z.1) (pairLaw P ν T) := ((ha.mul ha).comp measurable_fst).int _
  have i4 : Integrable (fun z : X × X => f z.2 * f z.2 - 2 * (avg ν T f z.1 * f z.2)) (pairLaw P ν T) := i1.sub i2
  rw [integral_add i4 i3, integral_sub i1 i2, integral_const_mul, integral_pair_mul hT hf ha, integral_snd hT hb (hf.mul hf)]
  have h3 : ∫ z, avg ν T f z.1 * avg ν T f z.1 ∂(pairLaw P ν T) = ∫ x, avg ν T f x * avg ν T f x ∂P := by
    rw [integral_pairLaw hT ((ha.mul ha).comp measurable_fst)]
    simp
  rw [h3]; ring

end

/-! ## Truncation -/

theorem exists_trunc {μ : Measure X} {k : X → ℝ≥0∞} (hk : Measurable k) (hfin : ∫⁻ x, k x ∂μ ≠ ⊤) {ε : ℝ≥0∞} (hε : ε ≠ 0) :
    ∃ M : ℕ, ∫⁻ x, (k x - min (k x) M) ∂μ ≤ ε := by
  have hmono : Monotone fun (M : ℕ) x => min (k x) (M : ℝ≥0∞) := fun a b hab x =>
    min_le_min le_rfl (by exact_mod_cast hab)
  have hlim : Tendsto (fun M : ℕ => ∫⁻ x, min (k x) M ∂μ) atTop (𝓝 (∫⁻ x, k x ∂μ)) := by
    refine lintegral_tendsto_of_tendsto_of_monotone (fun M => (hk.min measurable_const).aemeasurable)
      (ae_of_all _ fun x a b hab => hmono hab x) (ae_of_all _ fun x => ?_)
    have : Tendsto (fun M : ℕ => min (k x) (M : ℝ≥0∞)) atTop (𝓝 (min (k x) ⊤)) :=
      tendsto_const_nhds.min ENNReal.tendsto_nat_nhds_top
    rwa [min_top_right] at this
  have h1 : Tendsto (fun M : ℕ => ∫⁻ x, k x ∂μ - ∫⁻ x, min (k x) M ∂μ) atTop (𝓝 0) := by
    have := ENNReal.Tendsto.sub (tendsto_const_nhds (x := ∫⁻ x, k x ∂μ)) hlim (Or.inl hfin)
    rwa [tsub_self] at this
  obtain ⟨M, hM⟩ := (h1.eventually (gt_mem_nhds (pos_iff_ne_zero.2 hε))).exists
  refine ⟨M, le_of_eq_of_le ?_ hM.le⟩
  rw [lintegral_sub (hk.min measurable_const)]
  · exact ne_top_of_le_ne_top hfin (lintegral_mono fun x => min_le_left _ _)
  · exact ae_of_all _ fun x => min_le_left _ _

/-- Small integrals under a law are small under laws it dominates, uniformly for bounded functions. -/
theorem ac_small {Q R : Measure X} [IsProbabilityMeasure Q] [IsProbabilityMeasure R] (hac : R ≪ Q) (C : ℝ≥0∞) (hC : C ≠ ⊤)
    {ε : ℝ≥0∞} (hε : ε ≠ 0) : ∃ δ ≠ 0, ∀ h : X → ℝ≥0∞, Measurable h → (∀ x, h x ≤ C) → ∫⁻ x, h x ∂Q ≤ δ → ∫⁻ x, h x ∂R ≤ ε := by
  have mk := Measure.measurable_rnDeriv R Q
  have hfin : ∫⁻ x, R.rnDeriv Q x ∂Q ≠ ⊤ := (Measure.lintegral_rnDeriv_lt_top R Q).ne
  obtain ⟨M, hM⟩ := exists_trunc mk hfin (ε := ε / 2 / (C + 1)) (by
    simp only [ne_eq, ENNReal.div_eq_zero_iff, hε, false_or, ENNReal.add_eq_top, hC, ENNReal.one_ne_top, or_self]
    simp)
  refine ⟨ε / 2 / (M + 1), ?_, fun h mh hC' hQ => ?_⟩
  · simp only [ne_eq, ENNReal.div_eq_zero_iff, hε, false_or, ENNReal.add_eq_top, ENNReal.natCast_ne_top, ENNReal.one_ne_top, or_self]
    simp
  have e : ∫⁻ x, h x ∂R = ∫⁻ x, R.rnDeriv Q x * h x ∂Q := (lintegral_rnDeriv_mul hac mh.aemeasurable).symm
  rw [e]
  calc ∫⁻ x, R.rnDeriv Q x * h x ∂Q ≤ ∫⁻ x, ((R.rnDeriv Q x - min (R.rnDeriv Q x) M) * (C + 1) + (M + 1) * h x) ∂Q := by
        refine lintegral_mono fun x => ?_
        set k := R.rnDeriv Q x
        calc k * h x = (k - min k M + min k M) * h x := by rw [tsub_add_cancel_of_le (min_le_left _ _)]
          _ = (k - min k M) * h x + min k M * h x := add_mul _ _ _
          _ ≤ _ := add_le_add (mul_le_mul_right ((hC' x).trans le_self_add) _) (mul_le_mul_left ((min_le_right _ _).trans le_self_add) _)
    _ = (∫⁻ x, (R.rnDeriv Q x - min (R.rnDeriv Q x) M) ∂Q) * (C + 1) + (M + 1) * ∫⁻ x, h x ∂Q := by
        have m1 : Measurable fun x => R.rnDeriv Q x - min (R.rnDeriv Q x) (M : ℝ≥0∞) := mk.sub (mk.min measurable_const)
        rw [lintegral_add_left (m1.mul_const _), lintegral_mul_const _ m1, lintegral_const_mul _ mh]
    _ ≤ ε / 2 / (C + 1) * (C + 1) + (M + 1) * (ε / 2 / (M + 1)) := add_le_add (mul_le_mul_left hM _) (mul_le_mul_right hQ _)
    _ ≤ ε / 2 + ε / 2 := add_le_add (by rw [mul_comm]; exact ENNReal.mul_div_le) ENNReal.mul_div_le
    _ = ε := ENNReal.add_halves ε

/-! ## Convergence in mean square -/

section
variable {P : Measure X} [IsProbabilityMeasure P] {ν : Measure W} [IsProbabilityMeasure ν] {T : X → W → X}
  (hT : Measurable fun p : X × W => T p.1 p.2) (hb : Balance P ν T) (hac : P.prod P ≪ pairLaw P ν T)
include hT hb

theorem moment_anti {M : ℝ} {f : X → ℝ} (hf : Bdd M f) (n : ℕ) :
    ∫ x, (avg ν T)^[n + 1] f x * (avg ν T)^[n + 1] f x ∂P ≤ ∫ x, (avg ν T)^[n] f x * (avg ν T)^[n] f x ∂P := by
  have := loss hT hb (hf.avgIter (ν := ν) hT n)
  rw [Function.iterate_succ_apply']
  have h2 : 0 ≤ ∫ z, ((avg ν T)^[n] f z.2 - avg ν T ((avg ν T)^[n] f) z.1) ^ 2 ∂(pairLaw P ν T) := integral_nonneg fun z => sq_nonneg _
  linarith

include hac in
/-- The second moment tends to the square of the mean. -/
theorem moment_tendsto {M : ℝ} {f : X → ℝ} (hf : Bdd M f) :
    Tendsto (fun n => ∫ x, (avg ν T)^[n] f x * (avg ν T)^[n] f x ∂P) atTop (𝓝 ((∫ x, f x ∂P) ^ 2)) := by
  have hQ := pairLaw_prob (P := P) (ν := ν) hT
  set a : ℕ → ℝ := fun n => ∫ x, (avg ν T)^[n] f x * (avg ν T)^[n] f x ∂P with ha
  set c := ∫ x, f x ∂P with hc
  have ha0 : ∀ n, 0 ≤ a n := fun n => integral_nonneg fun x => mul_self_nonneg _
  have hanti : Antitone a := antitone_nat_of_succ_le fun n => moment_anti hT hb hf n
  obtain ⟨l, hl⟩ : ∃ l, Tendsto a atTop (𝓝 l) := ⟨_, tendsto_atTop_ciInf hanti ⟨0, fun _ ⟨n, hn⟩ => hn ▸ ha0 n⟩⟩
  have hg : ∀ n, Bdd M ((avg ν T)^[n] f) := fun n => hf.avgIter hT n
  have hint : ∀ n, ∫ x, (avg ν T)^[n] f x ∂P = c := fun n => integral_avgIter hT hb hf n
  -- the squared difference
  set h : ℕ → X × X → ℝ := fun n z => ((avg ν T)^[n] f z.2 - (avg ν T)^[n + 1] f z.1) ^ 2 with hh
  have mh : ∀ n, Bdd ((M + M) * (M + M)) (h n) := fun n => by
    have := (((hg n).comp (measurable_snd (α := X) (β := X))).sub ((hg (n + 1)).comp measurable_fst))
    have := this.mul this
    refine ⟨?_, fun z => ?_⟩
    · simp only [hh, sq]; exact this.meas
    · simp only [hh, sq]; exact this.le z
  have hloss : ∀ n, ∫ z, h n z ∂(pairLaw P ν T) = a n - a (n + 1) := fun n => by
    have := loss hT hb (hg n)
    simp only [hh, ha, Function.iterate_succ_apply']
    exact this
  have hprod : ∀ n, ∫ z, h n z ∂(P.prod P) = a n + a (n + 1) - 2 * c ^ 2 := fun n => by
    have e : ∀ z : X × X, h n z = (avg ν T)^[n] f z.2 * (avg ν T)^[n] f z.2 - 2 * ((avg ν T)^[n + 1] f z.1 * (avg ν T)^[n] f z.2) +
        (avg ν T)^[n + 1] f z.1 * (avg ν T)^[n + 1] f z.1 := fun z => by simp only [hh]; ring
    simp only [e]
    have i1 : Integrable (fun z : X × X => (avg ν T)^[n] f z.2 * (avg ν T)^[n] f z.2) (P.prod P) := (((hg n).mul (hg n)).comp measurable_snd).int _
    have i2 : Integrable (fun z : X × X => 2 * ((avg ν T)^[n + 1] f z.1 * (avg ν T)^[n] f z.2)) (P.prod P) :=
      ((((hg (n + 1)).comp measurable_fst).mul ((hg n).comp measurable_snd)).int _).const_mul 2
    have i3 : Integrable (fun z : X × X => (avg ν T)^[n + 1] f z.1 * (avg ν T)^[n + 1] f z.1) (P.prod P) :=
      (((hg (n + 1)).mul (hg (n + 1))).comp measurable_fst).int _
    have i4 : Integrable (fun z : X × X => (avg ν T)^[n] f z.2 * (avg ν T)^[n] f z.2 -
      2 * ((avg ν T)^[n + 1] f z.1 * (avg ν T)^[n] f z.2)) (P.prod P) := i1.sub i2
    rw [integral_add i4 i3, integral_sub i1 i2, integral_const_mul, integral_prod_mul, hint, hint]
    have j1 := integral_prod_mul (μ := P) (ν := P) (fun _ : X => (1 : ℝ)) (fun y => (avg ν T)^[n] f y * (avg ν T)^[n] f y)
    have j2 := integral_prod_mul (μ := P) (ν := P) (fun y => (avg ν T)^[n + 1] f y * (avg ν T)^[n + 1] f y) (fun _ : X => (1 : ℝ))
    simp only [one_mul, mul_one, integral_const, smul_eq_mul, probReal_univ] at j1 j2
    rw [j1, j2]
    ring
  -- the squared difference vanishes
  have key : Tendsto (fun n => ∫ z, h n z ∂(P.prod P)) atTop (𝓝 0) := by
    have h0 : Tendsto (fun n => a n - a (n + 1)) atTop (𝓝 0) := by
      have := hl.sub (hl.comp (tendsto_add_atTop_nat 1))
      rwa [sub_self] at this
    rw [Metric.tendsto_atTop]
    intro ε hε
    obtain ⟨δ, hδ, hδ'⟩ := ac_small hac (ENNReal.ofReal ((M + M) * (M + M))) ENNReal.ofReal_ne_top (ε := ENNReal.ofReal (ε / 2))
      (by rw [ne_eq, ENNReal.ofReal_eq_zero, not_le]; linarith)
    have h1 : Tendsto (fun n => ENNReal.ofReal (a n - a (n + 1))) atTop (𝓝 0) := by
      have := ENNReal.tendsto_ofReal h0
      rwa [ENNReal.ofReal_zero] at this
    obtain ⟨N, hN⟩ := eventually_atTop.1 (h1.eventually (gt_mem_nhds (pos_iff_ne_zero.2 hδ)))
    refine ⟨N, fun n hn => ?_⟩
    have hnn : ∀ z, 0 ≤ h n z := fun z => sq_nonneg _
    have h2 : ∫⁻ z, ENNReal.ofReal (h n z) ∂(P.prod P) ≤ ENNReal.ofReal (ε / 2) := by
      refine hδ' _ (mh n).meas.ennreal_ofReal (fun z => ENNReal.ofReal_le_ofReal ((le_abs_self _).trans ((mh n).le z))) ?_
      rw [← ofReal_integral_eq_lintegral_ofReal ((mh n).int _) (ae_of_all _ hnn), hloss]
      exact (hN n hn).le
    rw [← ofReal_integral_eq_lintegral_ofReal ((mh n).int _) (ae_of_all _ hnn)] at h2
    have h3 := (ENNReal.ofReal_le_ofReal_iff (by linarith)).1 h2
    rw [Real.dist_eq, sub_zero, abs_of_nonneg (integral_nonneg hnn)]
    linarith
  have h2 : Tendsto (fun n => ∫ z, h n z ∂(P.prod P)) atTop (𝓝 (l + l - 2 * c ^ 2)) := by
    simp only [hprod]
    exact (hl.add (hl.comp (tendsto_add_atTop_nat 1))).sub_const _
  have h3 := tendsto_nhds_unique h2 key
  have : l = c ^ 2 := by linarith
  rwa [this] at hl

include hac in
/-- Mean square distance from the mean. -/
theorem l2_tendsto {M : ℝ} {f : X → ℝ} (hf : Bdd M f) :
    Tendsto (fun n => ∫ x, ((avg ν T)^[n] f x - ∫ y, f y ∂P) ^ 2 ∂P) atTop (𝓝 0) := by
  have h := (moment_tendsto hT hb hac hf).sub_const ((∫ x, f x ∂P) ^ 2)
  rw [sub_self] at h
  refine h.congr fun n => ?_
  set c := ∫ x, f x ∂P with hc
  have hg := hf.avgIter (ν := ν) hT n
  have e : ∀ x, ((avg ν T)^[n] f x - c) ^ 2 = (avg ν T)^[n] f x * (avg ν T)^[n] f x - (2 * c * (avg ν T)^[n] f x - c ^ 2) := fun x => by ring
  simp only [e]
  have i1 : Integrable (fun x => (avg ν T)^[n] f x * (avg ν T)^[n] f x) P := (hg.mul hg).int _
  have i2 : Integrable (fun x => 2 * c * (avg ν T)^[n] f x) P := (hg.int P).const_mul _
  have i3 : Integrable (fun x => 2 * c * (avg ν T)^[n] f x - c ^ 2) P := i2.sub (integrable_const _)
  rw [integral_sub i1 i3, integral_sub i2 (integrable_const _), integral_const_mul, integral_avgIter hT hb hf n]
  simp
  ring

include hac in
/-- Mean distance from the mean. -/
theorem l1_tendsto {M : ℝ} {f : X → ℝ} (hf : Bdd M f) :
    Tendsto (fun n => ∫ x, |(avg ν T)^[n] f x - ∫ y, f y ∂P| ∂P) atTop (𝓝 0) := by
  have h := l2_tendsto hT hb hac hf
  have h' : Tendsto (fun n => Real.sqrt (∫ x, ((avg ν T)^[n] f x - ∫ y, f y ∂P) ^ 2 ∂P)) atTop (𝓝 0) := by
    have := (Real.continuous_sqrt.tendsto 0).comp h
    rwa [Real.sqrt_zero] at this
  refine squeeze_zero (fun n => integral_nonneg fun x => abs_nonneg _) (fun n => ?_) h'
  set c := ∫ x, f x ∂P with hc
  have hg := (hf.avgIter (ν := ν) hT n).sub (Bdd.const (X := X) c)
  have hv : ∀ t : ℝ, 0 < t → ∫ x, |(avg ν T)^[n] f x - c| ∂P ≤ (t + (∫ x, ((avg ν T)^[n] f x - c) ^ 2 ∂P) / t) / 2 := by
    intro t ht
    have i1 : Integrable (fun x => ((avg ν T)^[n] f x - c) ^ 2) P := by
      simp only [sq]; exact (hg.mul hg).int P
    have i2 : Integrable (fun x => (t + ((avg ν T)^[n] f x - c) ^ 2 / t) / 2) P :=
      ((integrable_const t).add (i1.div_const t)).div_const 2
    have h1 : ∫ x, |(avg ν T)^[n] f x - c| ∂P ≤ ∫ x, (t + ((avg ν T)^[n] f x - c) ^ 2 / t) / 2 ∂P := by
      refine integral_mono (hg.int P).abs i2 fun x => ?_
      show |(avg ν T)^[n] f x - c| ≤ (t + ((avg ν T)^[n] f x - c) ^ 2 / t) / 2
      rw [← sq_abs]
      set y := |(avg ν T)^[n] f x - c|
      rw [le_div_iff₀ (by norm_num), ← sub_nonneg]
      have : t + y ^ 2 / t - y * 2 = (t - y) ^ 2 / t := by field_simp; ring
      rw [this]
      positivity
    refine h1.trans (le_of_eq ?_)
    rw [integral_div, integral_add (integrable_const t) (i1.div_const t), integral_div]
    simp
  set s := ∫ x, ((avg ν T)^[n] f x - c) ^ 2 ∂P with hs
  have hs0 : 0 ≤ s := integral_nonneg fun x => sq_nonneg _
  rcases hs0.eq_or_lt with h0 | h0
  · rw [← h0, Real.sqrt_zero]
    refine le_of_forall_pos_le_add fun ε hε => ?_
    have := hv ε hε
    rw [← h0] at this
    simp at this
    linarith
  · have hpos := Real.sqrt_pos.2 h0
    have := hv _ hpos
    rw [Real.div_sqrt] at this
    linarith

/-- Duality. -/
theorem dual_bound {M : ℝ} {f g : X → ℝ} (hf : Bdd 1 f) (hg : Bdd M g) (n : ℕ) :
    |∫ x, g x * ((avg ν T)^[n] f x - ∫ y, f y ∂P) ∂P| ≤ ∫ x, |(avg ν T)^[n] g x - ∫ y, g y ∂P| ∂P := by
  set c := ∫ y, f y ∂P with hc
  have hfn := hf.avgIter (ν := ν) hT n
  have hgn := hg.avgIter (ν := ν) hT n
  have e1 : ∫ x, g x * ((avg ν T)^[n] f x - c) ∂P = ∫ x, f x * ((avg ν T)^[n] g x - ∫ y, g y ∂P) ∂P := by
    simp only [mul_sub]
    have i1 : Integrable (fun x => g x * (avg ν T)^[n] f x) P := (hg.mul hfn).int P
    have i2 : Integrable (fun x => g x * c) P := (hg.int P).mul_const c
    have i3 : Integrable (fun x => f x * (avg ν T)^[n] g x) P := (hf.mul hgn).int P
    have i4 : Integrable (fun x => f x * ∫ y, g y ∂P) P := (hf.int P).mul_const _
    rw [integral_sub i1 i2, integral_sub i3 i4, integral_mul_const, integral_mul_const, avgIter_adj hT hb hf hg n]
    ring
  rw [e1]
  have hd := hgn.sub (Bdd.const (X := X) (∫ y, g y ∂P))
  refine (abs_integral_le_integral_abs).trans (integral_mono ((hf.mul hd).int P).abs (hd.int P).abs fun x => ?_)
  show |f x * ((avg ν T)^[n] g x - ∫ y, g y ∂P)| ≤ |(avg ν T)^[n] g x - ∫ y, g y ∂P|
  rw [abs_mul]
  exact mul_le_of_le_one_left (abs_nonneg _) (hf.le x)

end

/-! ## Convergence from a point -/

section
variable {P : Measure X} [IsProbabilityMeasure P] {ν : Measure W} [IsProbabilityMeasure ν] {T : X → W → X}
  (hT : Measurable fun p : X × W => T p.1 p.2) (hb : Balance P ν T) (hac : P.prod P ≪ pairLaw P ν T)
include hT hb hac

/-- Convergence from a law with a density, uniformly over functions bounded by one. -/
theorem density_converge {ρ : Measure X} [IsFiniteMeasure ρ] (hρ : ρ ≪ P) {ε : ℝ} (hε : 0 < ε) :
    ∃ N : ℕ, ∀ n ≥ N, ∀ f : X → ℝ, Bdd 1 f → |∫ x, ((avg ν T)^[n] f x - ∫ y, f y ∂P) ∂ρ| ≤ ε := by
  have mk := Measure.measurable_rnDeriv ρ P
  have hfin : ∫⁻ x, ρ.rnDeriv P x ∂P ≠ ⊤ := (Measure.lintegral_rnDeriv_lt_top ρ P).ne
  obtain ⟨M, hM⟩ := exists_trunc mk hfin (ε := ENNReal.ofReal (ε / 4)) (by
    rw [ne_eq, ENNReal.ofReal_eq_zero, not_le]; linarith)
  set g : X → ℝ := fun x => (min (ρ.rnDeriv P x) M).toReal with hg
  have hgt : ∀ x, min (ρ.rnDeriv P x) (M : ℝ≥0∞) ≠ ⊤ := fun x => ne_top_of_le_ne_top (ENNReal.natCast_ne_top M) (min_le_right _ _)
  have bg : Bdd M g := ⟨(mk.min measurable_const).ennreal_toReal, fun x => by
    rw [abs_of_nonneg ENNReal.toReal_nonneg]
    exact (ENNReal.toReal_mono (ENNReal.natCast_ne_top M) (min_le_right _ _)).trans (by simp)⟩
  obtain ⟨N, hN⟩ := Metric.tendsto_atTop.1 (l1_tendsto hT hb hac bg) (ε / 2) (by linarith)
  refine ⟨N, fun n hn f hf => ?_⟩
  set c := ∫ y, f y ∂P with hc
  have hc1 : |c| ≤ 1 := by
    have := norm_integral_le_of_norm_le_const (μ := P) (f := f) (C := 1) (ae_of_all _ fun w => hf.le _)
    rw [Real.norm_eq_abs] at this
    simpa using this
  have hd := (hf.avgIter (ν := ν) hT n).sub (Bdd.const (X := X) c)
  have e : ∫ x, ((avg ν T)^[n] f x - c) ∂ρ = ∫ x, (ρ.rnDeriv P x).toReal * ((avg ν T)^[n] f x - c) ∂P := by
    have := integral_rnDeriv_smul (μ := ρ) (ν := P) hρ (f := fun x => (avg ν T)^[n] f x - c)
    simp only [smul_eq_mul] at this
    exact this.symm
  have ik : Integrable (fun x => (ρ.rnDeriv P x).toReal) P := integrable_toReal_of_lintegral_ne_top mk.aemeasurable hfin
  have i1 : Integrable (fun x => ((ρ.rnDeriv P x).toReal - g x) * ((avg ν T)^[n] f x - c)) P :=
    (ik.sub (bg.int P)).mul_bdd hd.meas.aestronglyMeasurable (ae_of_all _ hd.le)
  have i2 : Integrable (fun x => g x * ((avg ν T)^[n] f x - c)) P := (bg.mul hd).int P
  have e2 : ∫ x, (ρ.rnDeriv P x).toReal * ((avg ν T)^[n] f x - c) ∂P =
      ∫ x, ((ρ.rnDeriv P x).toReal - g x) * ((avg ν T)^[n] f x - c) ∂P + ∫ x, g x * ((avg ν T)^[n] f x - c) ∂P := by
    rw [← integral_add i1 i2]
    exact integral_congr_ae (ae_of_all _ fun x => by ring)
  have hdk : ∀ᵐ x ∂P, (ρ.rnDeriv P x).toReal - g x = (ρ.rnDeriv P x - min (ρ.rnDeriv P x) M).toReal := by
    filter_upwards [Measure.rnDeriv_ne_top ρ P] with x hx
    rw [ENNReal.toReal_sub_of_le (min_le_left _ _) hx]
  have h1 : |∫ x, ((ρ.rnDeriv P x).toReal - g x) * ((avg ν T)^[n] f x - c) ∂P| ≤ ε / 2 := by
    have i3 : Integrable (fun x => 2 * ((ρ.rnDeriv P x).toReal - g x)) P := (ik.sub (bg.int P)).const_mul 2
    calc |∫ x, ((ρ.rnDeriv P x).toReal - g x) * ((avg ν T)^[n] f x - c) ∂P|
        ≤ ∫ x, |((ρ.rnDeriv P x).toReal - g x) * ((avg ν T)^[n] f x - c)| ∂P := abs_integral_le_integral_abs
      _ ≤ ∫ x, 2 * ((ρ.rnDeriv P x).toReal - g x) ∂P := by
        refine integral_mono_ae i1.abs i3 ?_
        filter_upwards [hdk] with x hx
        show |((ρ.rnDeriv P x).toReal - g x) * ((avg ν T)^[n] f x - c)| ≤ 2 * ((ρ.rnDeriv P x).toReal - g x)
        have h0 : 0 ≤ (ρ.rnDeriv P x).toReal - g x := by rw [hx]; exact ENNReal.toReal_nonneg
        rw [abs_mul, abs_of_nonneg h0, mul_comm]
        exact mul_le_mul_of_nonneg_right ((hd.le x).trans (by linarith)) h0
      _ = 2 * ∫ x, (ρ.rnDeriv P x - min (ρ.rnDeriv P x) M).toReal ∂P := by
        rw [integral_const_mul]
        congr 1
        exact integral_congr_ae hdk
      _ ≤ ε / 2 := by
        have mm : Measurable fun x => ρ.rnDeriv P x - min (ρ.rnDeriv P x) (M : ℝ≥0∞) := mk.sub (mk.min measurable_const)
        rw [integral_toReal mm.aemeasurable]
        · have := ENNReal.toReal_mono ENNReal.ofReal_ne_top hM
          rw [ENNReal.toReal_ofReal (by linarith)] at this
          linarith
        · filter_upwards [Measure.rnDeriv_lt_top ρ P] with x hx
          exact lt_of_le_of_lt tsub_le_self hx
  have h2 : |∫ x, g x * ((avg ν T)^[n] f x - c) ∂P| ≤ ε / 2 := by
    refine (dual_bound hT hb hf bg n).trans ?_
    have := hN n hn
    rw [Real.dist_eq, sub_zero] at this
    exact (le_abs_self _).trans this.le
  rw [e, e2]
  exact (abs_add_le _ _).trans (by linarith)

/-- Convergence from a point where one step either stays or has a density. -/
theorem point_converge {x : X} {ρ : Measure X} [IsFiniteMeasure ρ] {s : ℝ≥0∞} (hs : s < 1) (hρ : ρ ≪ P)
    (hx : ν.map (T x) = ρ + s • Measure.dirac x) {ε : ℝ} (hε : 0 < ε) :
    ∃ N : ℕ, ∀ n ≥ N, ∀ f : X → ℝ, Bdd 1 f → |(avg ν T)^[n] f x - ∫ y, f y ∂P| ≤ ε := by
  set q := s.toReal with hq
  have hst : s ≠ ⊤ := hs.ne_top
  have hq0 : 0 ≤ q := ENNReal.toReal_nonneg
  have hq1 : q < 1 := by
    have := (ENNReal.toReal_lt_toReal hst ENNReal.one_ne_top).2 hs
    simpa using this
  obtain ⟨N, hN⟩ := density_converge hT hb hac hρ (ε := ε * (1 - q) / 2) (by
    have : 0 < 1 - q := by linarith
    positivity)
  -- one step
  have hone : ∀ f : X → ℝ, Bdd 1 f → ∀ n, (avg ν T)^[n + 1] f x - ∫ y, f y ∂P =
      ∫ y, ((avg ν T)^[n] f y - ∫ y, f y ∂P) ∂ρ + q * ((avg ν T)^[n] f x - ∫ y, f y ∂P) := by
    intro f hf n
    set c := ∫ y, f y ∂P with hc
    have hd := (hf.avgIter (ν := ν) hT n).sub (Bdd.const (X := X) c)
    have mTx := meas_at hT x
    have e1 : (avg ν T)^[n + 1] f x - c = ∫ w, ((avg ν T)^[n] f (T x w) - c) ∂ν := by
      rw [Function.iterate_succ_apply', avg, integral_sub (((hf.avgIter hT n).comp mTx).int ν) (integrable_const _)]
      simp
    have e2 : ∫ w, ((avg ν T)^[n] f (T x w) - c) ∂ν = ∫ y, ((avg ν T)^[n] f y - c) ∂(ν.map (T x)) :=
      (integral_map mTx.aemeasurable hd.meas.aestronglyMeasurable).symm
    have hfs : IsFiniteMeasure (s • Measure.dirac x) := ⟨by simp [hst.lt_top]⟩
    rw [e1, e2, hx, integral_add_measure (hd.int ρ) (hd.int _), integral_smul_measure,
      integral_dirac' _ _ hd.meas.stronglyMeasurable]
    rfl
  have hc2 : ∀ f : X → ℝ, Bdd 1 f → ∀ n, |(avg ν T)^[n] f x - ∫ y, f y ∂P| ≤ 2 := by
    intro f hf n
    have h1 := norm_integral_le_of_norm_le_const (μ := P) (f := f) (C := 1) (ae_of_all _ fun w => hf.le _)
    rw [Real.norm_eq_abs] at h1
    simp only [probReal_univ, mul_one] at h1
    exact (abs_sub _ _).trans (by linarith [(hf.avgIter (ν := ν) hT n).le x])
  have hrec : ∀ f : X → ℝ, Bdd 1 f → ∀ m, |(avg ν T)^[N + m] f x - ∫ y, f y ∂P| ≤ 2 * q ^ m + ε / 2 := by
    intro f hf m
    induction m with
    | zero => have := hc2 f hf N; simp only [add_zero, pow_zero, mul_one]; linarith
    | succ m ih =>
      rw [← add_assoc, hone f hf]
      have h2 : |q * ((avg ν T)^[N + m] f x - ∫ y, f y ∂P)| ≤ q * (2 * q ^ m + ε / 2) := by
        rw [abs_mul, abs_of_nonneg hq0]; exact mul_le_mul_of_nonneg_left ih hq0
      refine (abs_add_le _ _).trans ((add_le_add (hN (N + m) (by omega) f hf) h2).trans (le_of_eq ?_))
      ring
  have hpow := tendsto_pow_atTop_nhds_zero_of_lt_one hq0 hq1
  obtain ⟨m, hm⟩ := Metric.tendsto_atTop.1 hpow (ε / 4) (by linarith)
  refine ⟨N + m, fun n hn f hf => ?_⟩
  obtain ⟨j, rfl⟩ := Nat.exists_eq_add_of_le (show N ≤ n by omega)
  have h1 := hm j (by omega)
  rw [Real.dist_eq, sub_zero, abs_of_nonneg (pow_nonneg hq0 _)] at h1
  linarith [hrec f hf j]

end

end PW

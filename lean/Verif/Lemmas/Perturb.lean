import Verif.Lemmas.MHErgodic

/-! # Chains that nearly follow a Metropolis-Hastings chain -/

namespace PW
open MeasureTheory Set Filter Topology
open scoped ENNReal

/-! ## An iteration with a memory -/

section
variable {Z : Type} [MeasurableSpace Z]

open Classical in
/-- One iteration: a normal vector is drawn and, if it falls in `K`, a uniform number. -/
noncomputable def drawNext (r : Rng ℝ) (d : ℕ) (K : Set (Z × (Fin d → ℝ))) (F1 : Z → (Fin d → ℝ) → ℝ → Z) (F0 : Z → (Fin d → ℝ) → Z) (z : Z)
    (g : r.G) : Z × r.G :=
  if (z, (r.gaussian d g).1) ∈ K then
    (F1 z (r.gaussian d g).1 (r.uniform (r.gaussian d g).2).1, (r.uniform (r.gaussian d g).2).2)
  else (F0 z (r.gaussian d g).1, (r.gaussian d g).2)

open Classical in
/-- The same with the draws as an argument. -/
noncomputable def drawMove {d : ℕ} (K : Set (Z × (Fin d → ℝ))) (F1 : Z → (Fin d → ℝ) → ℝ → Z) (F0 : Z → (Fin d → ℝ) → Z) (z : Z)
    (w : (Fin d → ℝ) × ℝ) : Z :=
  if (z, w.1) ∈ K then F1 z w.1 w.2 else F0 z w.1

variable {d : ℕ} {K : Set (Z × (Fin d → ℝ))} {F1 : Z → (Fin d → ℝ) → ℝ → Z} {F0 : Z → (Fin d → ℝ) → Z} (hK : MeasurableSet K)
  (h1 : Measurable fun p : Z × (Fin d → ℝ) × ℝ => F1 p.1 p.2.1 p.2.2) (h0 : Measurable fun p : Z × (Fin d → ℝ) => F0 p.1 p.2)
include hK h1 h0

theorem measurable_drawMove : Measurable fun p : Z × ((Fin d → ℝ) × ℝ) => drawMove K F1 F0 p.1 p.2 := by
  classical
  have m : Measurable fun p : Z × ((Fin d → ℝ) × ℝ) => (p.1, p.2.1) := measurable_fst.prodMk (measurable_fst.comp measurable_snd)
  exact Measurable.ite (m hK) h1 (h0.comp m)

theorem measurable_drawNext (r : Rng ℝ) [MeasurableSpace r.G] (hgm : Measurable (r.gaussian d)) (hum : Measurable r.uniform) :
    Measurable fun p : Z × r.G => drawNext r d K F1 F0 p.1 p.2 := by
  classical
  have m : Measurable fun p : Z × r.G => (p.1, (r.gaussian d p.2).1) := measurable_fst.prodMk ((measurable_fst.comp hgm).comp measurable_snd)
  have hg1 : Measurable fun p : Z × r.G => (r.gaussian d p.2).2 := (measurable_snd.comp hgm).comp measurable_snd
  have hu : Measurable fun p : Z × r.G => r.uniform (r.gaussian d p.2).2 := hum.comp hg1
  refine Measurable.ite (m hK) ?_ ((h0.comp m).prodMk hg1)
  exact (h1.comp (measurable_fst.prodMk (((measurable_fst.comp hgm).comp measurable_snd).prodMk (measurable_fst.comp hu)))).prodMk
    (measurable_snd.comp hu)

theorem drawNext_drives (r : Rng ℝ) [MeasurableSpace r.G] (μ : Measure r.G) (N : (d : ℕ) → Measure (Fin d → ℝ)) (hs : Source r μ N) :
    Drives μ ((N d).prod unitLaw) (drawNext r d K F1 F0) (drawMove K F1 F0) := by
  classical
  intro F hF z
  have := hs.prob
  have := hs.probN d
  have hum := hs.uniform.measurable
  have mz : Measurable fun q : (Fin d → ℝ) × r.G => (z, q.1) := measurable_const.prodMk measurable_fst
  let Φ : (Fin d → ℝ) × r.G → ℝ≥0∞ := fun q =>
    F (if (z, q.1) ∈ K then (F1 z q.1 (r.uniform q.2).1, (r.uniform q.2).2) else (F0 z q.1, q.2))
  have hu : Measurable fun q : (Fin d → ℝ) × r.G => r.uniform q.2 := hum.comp measurable_snd
  have hΦ : Measurable Φ := by
    refine hF.comp (Measurable.ite (mz hK) ?_ ((h0.comp mz).prodMk measurable_snd))
    exact (h1.comp (measurable_const.prodMk (measurable_fst.prodMk (measurable_fst.comp hu)))).prodMk (measurable_snd.comp hu)
  have e1 : ∫⁻ g, F (drawNext r d K F1 F0 z g) ∂μ = ∫⁻ ξ, ∫⁻ g, Φ (ξ, g) ∂μ ∂(N d) := by
    rw [← lintegral_prod _ hΦ.aemeasurable, ← (hs.gaussian d).lintegral_comp hΦ]
    rfl
  rw [e1]
  have hmv : Measurable fun w : (Fin d → ℝ) × ℝ => drawMove K F1 F0 z w := (measurable_drawMove hK h1 h0).comp measurable_prodMk_left
  have hin : Measurable fun w : (Fin d → ℝ) × ℝ => ∫⁻ g, F (drawMove K F1 F0 z w, g) ∂μ :=
    Measurable.lintegral_prod_right' (f := fun q : ((Fin d → ℝ) × ℝ) × r.G => F (drawMove K F1 F0 z q.1, q.2))
      (hF.comp ((hmv.comp measurable_fst).prodMk measurable_snd))
  rw [lintegral_prod _ hin.aemeasurable]
  refine lintegral_congr fun ξ => ?_
  by_cases hc : (z, ξ) ∈ K
  · let Ψ : ℝ × r.G → ℝ≥0∞ := fun q => F (F1 z ξ q.1, q.2)
    have hΨ : Measurable Ψ := by
      refine hF.comp (Measurable.prodMk ?_ measurable_snd)
      exact h1.comp (measurable_const.prodMk (measurable_const.prodMk measurable_fst))
    have e1 : ∫⁻ g, Φ (ξ, g) ∂μ = ∫⁻ g, Ψ (r.uniform g) ∂μ := by
      refine lintegral_congr fun g => ?_
      show F (if (z, ξ) ∈ K then _ else _) = _
      rw [if_pos hc]
    rw [e1, hs.uniform.lintegral_comp hΨ, lintegral_prod _ hΨ.aemeasurable]
    refine lintegral_congr fun v => lintegral_congr fun g => ?_
    show F (F1 z ξ v, g) = F (drawMove K F1 F0 z (ξ, v), g)
    unfold drawMove
    rw [if_pos hc]
  · have e1 : ∀ g, Φ (ξ, g) = F (F0 z ξ, g) := fun g => by
      show F (if (z, ξ) ∈ K then _ else _) = _
      rw [if_neg hc]
    have e2 : ∀ v, drawMove K F1 F0 z (ξ, v) = F0 z ξ := fun v => by
      unfold drawMove; rw [if_neg hc]
    simp only [e1, e2]
    simp

end

/-! ## Comparing two chains -/

section
variable {X Z W : Type} [MeasurableSpace X] [MeasurableSpace Z] [MeasurableSpace W] {ν : Measure W} [IsProbabilityMeasure ν]
  {T : X → W → X} (hT : Measurable fun p : X × W => T p.1 p.2) {T' : Z → W → Z} (hT' : Measurable fun p : Z × W => T' p.1 p.2)
  {π : Z → X} (hπ : Measurable π) {I : Set Z} (hI : ∀ z ∈ I, ∀ᵐ w ∂ν, T' z w ∈ I) {dev : X → ℝ} (hdev : Bdd 2 dev) (hdev0 : ∀ x, 0 ≤ dev x)
  (hstep : ∀ z ∈ I, ∀ f : X → ℝ, Bdd 1 f → |∫ w, f (π (T' z w)) ∂ν - ∫ w, f (T (π z) w) ∂ν| ≤ dev (π z))

/-- The total deviation over `t` steps. -/
noncomputable def driftSum (ν : Measure W) (T : X → W → X) (dev : X → ℝ) (t : ℕ) (x : X) : ℝ :=
  ∑ j ∈ Finset.range t, (avg ν T)^[j] (fun y => 3 * dev y) x

include hT hdev in
theorem driftSum_bdd (t : ℕ) : Bdd (6 * t) (driftSum ν T dev t) := by
  have h3 : Bdd 6 fun y => 3 * dev y := ⟨hdev.meas.const_mul 3, fun y => by
    rw [abs_mul, abs_of_pos (by norm_num : (0 : ℝ) < 3)]; linarith [hdev.le y]⟩
  refine ⟨Finset.measurable_fun_sum _ fun j _ => (h3.avgIter hT j).meas, fun x => ?_⟩
  refine (Finset.abs_sum_le_sum_abs _ _).trans ((Finset.sum_le_sum fun j _ => (h3.avgIter hT j).le x).trans ?_)
  rw [Finset.sum_const, Finset.card_range, nsmul_eq_mul]; linarith

include hT hdev in
theorem driftSum_succ (t : ℕ) (x : X) : driftSum ν T dev (t + 1) x = avg ν T (driftSum ν T dev t) x + 3 * dev x := by
  have h3 : Bdd 6 fun y => 3 * dev y := ⟨hdev.meas.const_mul 3, fun y => by
    rw [abs_mul, abs_of_pos (by norm_num : (0 : ℝ) < 3)]; linarith [hdev.le y]⟩
  unfold driftSum
  rw [Finset.sum_range_succ']
  congr 1
  show _ = ∫ w, _ ∂ν
  rw [integral_finsetSum _ fun j _ => ((h3.avgIter hT j).comp (meas_at hT x)).int ν]
  refine Finset.sum_congr rfl fun j _ => ?_
  rw [Function.iterate_succ_apply']
  rfl

include hT hdev hdev0 in
theorem driftSum_nonneg (t : ℕ) (x : X) : 0 ≤ driftSum ν T dev t x := by
  induction t generalizing x with
  | zero => exact le_of_eq rfl
  | succ t ih =>
    rw [driftSum_succ hT hdev]
    exact add_nonneg (integral_nonneg fun w => ih _) (mul_nonneg (by norm_num) (hdev0 x))

include hT hdev hdev0 in
theorem driftSum_mono {s t : ℕ} (h : s ≤ t) (x : X) : driftSum ν T dev s x ≤ driftSum ν T dev t x := by
  have h3 : Bdd 6 fun y => 3 * dev y := ⟨hdev.meas.const_mul 3, fun y => by
    rw [abs_mul, abs_of_pos (by norm_num : (0 : ℝ) < 3)]; linarith [hdev.le y]⟩
  refine Finset.sum_le_sum_of_subset_of_nonneg (Finset.range_mono h) fun j _ _ => ?_
  have := avg_mono (ν := ν) hT (Bdd.const 0) h3 (fun x => mul_nonneg (by norm_num) (hdev0 x)) j x
  refine le_trans (le_of_eq ?_) this
  have e : ∀ j x, (avg ν T)^[j] (fun _ => (0 : ℝ)) x = 0 := by
    intro j
    induction j with
    | zero => intro x; rfl
    | succ j ih =>
      intro x
      rw [Function.iterate_succ_apply']
      show ∫ w, _ ∂ν = 0
      rw [integral_congr_ae (ae_of_all _ fun w => ih (T x w))]
      simp
  exact (e j x).symm

include hT hT' hπ hI hstep

/-- One step. -/
theorem near_step {F : Z → ℝ} {f e : X → ℝ} (hF : Bdd 1 F) (hf : Bdd 1 f) {M : ℝ} (he : Bdd M e) (he0 : ∀ x, 0 ≤ e x)
    (h : ∀ z ∈ I, |F z - f (π z)| ≤ e (π z)) {z : Z} (hz : z ∈ I) :
    |avg ν T' F z - avg ν T f (π z)| ≤ avg ν T e (π z) + 3 * dev (π z) := by
  set e2 : X → ℝ := fun x => min 2 (e x) with he2
  have be2 : Bdd 1 fun x => e2 x / 2 := ⟨(measurable_const.min he.meas).div_const 2, fun x => by
    have h1 : 0 ≤ e2 x := le_min (by norm_num) (he0 x)
    have h2 : e2 x ≤ 2 := min_le_left _ _
    rw [abs_of_nonneg (by positivity)]; linarith⟩
  have be2' : Bdd 2 e2 := ⟨measurable_const.min he.meas, fun x => by
    rw [abs_of_nonneg (le_min (by norm_num) (he0 x))]; exact min_le_left _ _⟩
  have h2 : ∀ z ∈ I, |F z - f (π z)| ≤ e2 (π z) := fun z hz => le_min (by
    have := abs_sub (F z) (f (π z)); have := hF.le z; have := hf.le (π z); linarith) (h z hz)
  have mz : Measurable (T' z) := meas_at hT' z
  have mpz : Measurable fun w => π (T' z w) := hπ.comp mz
  have iF := (hF.comp mz).int ν
  have if' := (hf.comp mpz).int ν
  have ie := (be2'.comp mpz).int ν
  have s1 : |∫ w, F (T' z w) ∂ν - ∫ w, f (π (T' z w)) ∂ν| ≤ ∫ w, e2 (π (T' z w)) ∂ν := by
    rw [← integral_sub iF if']
    refine (abs_integral_le_integral_abs).trans (integral_mono_ae (iF.sub if').abs ie ?_)
    filter_upwards [hI z hz] with w hw using h2 _ hw
  have s2 := hstep z hz f hf
  have s3 := hstep z hz _ be2
  have s4 : |∫ w, e2 (π (T' z w)) ∂ν - ∫ w, e2 (T (π z) w) ∂ν| ≤ 2 * dev (π z) := by
    rw [integral_div, integral_div, ← sub_div, abs_div, abs_of_pos (by norm_num : (0 : ℝ) < 2), div_le_iff₀ (by norm_num)] at s3
    linarith
  have s5 : ∫ w, e2 (T (π z) w) ∂ν ≤ ∫ w, e (T (π z) w) ∂ν :=
    integral_mono ((be2'.comp (meas_at hT _)).int ν) ((he.comp (meas_at hT _)).int ν) fun w => min_le_right _ _
  have s6 := (abs_le.1 s4).2
  show |∫ w, F (T' z w) ∂ν - ∫ w, f (T (π z) w) ∂ν| ≤ ∫ w, e (T (π z) w) ∂ν + 3 * dev (π z)
  have s7 := abs_add_le (∫ w, F (T' z w) ∂ν - ∫ w, f (π (T' z w)) ∂ν) (∫ w, f (π (T' z w)) ∂ν - ∫ w, f (T (π z) w) ∂ν)
  rw [sub_add_sub_cancel] at s7
  linarith

include hdev hdev0

/-- Many steps, from functions that already differ by a drift. -/
theorem near_iter {F : Z → ℝ} {f : X → ℝ} (hF : Bdd 1 F) (hf : Bdd 1 f) {s : ℕ} (h : ∀ z ∈ I, |F z - f (π z)| ≤ driftSum ν T dev s (π z)) (t : ℕ) :
    ∀ z ∈ I, |(avg ν T')^[t] F z - (avg ν T)^[t] f (π z)| ≤ driftSum ν T dev (t + s) (π z) := by
  induction t with
  | zero => intro z hz; rw [zero_add]; exact h z hz
  | succ t ih =>
    intro z hz
    rw [Function.iterate_succ_apply', Function.iterate_succ_apply', Nat.succ_add, driftSum_succ hT hdev]
    exact near_step hT hT' hπ hI hstep (hF.avgIter hT' t) (hf.avgIter hT t) (driftSum_bdd hT hdev (t + s)) (driftSum_nonneg hT hdev hdev0 _) ih hz

/-- The law after `t` steps. -/
theorem near_law {f : X → ℝ} (hf : Bdd 1 f) (t : ℕ) {z : Z} (hz : z ∈ I) :
    |(avg ν T')^[t] (fun z => f (π z)) z - (avg ν T)^[t] f (π z)| ≤ driftSum ν T dev t (π z) :=
  near_iter hT hT' hπ hI hdev hdev0 hstep (hf.comp hπ) hf (s := 0) (fun z _ => by
    rw [sub_self, abs_zero]; exact le_of_eq rfl) t z hz

/-- Two times. -/
theorem near_pair {f f' : X → ℝ} (hf : Bdd 1 f) (hf' : Bdd 1 f') (s t : ℕ) {z : Z} (hz : z ∈ I) :
    |(avg ν T')^[s] (fun z => f (π z) * (avg ν T')^[t] (fun z => f' (π z)) z) z -
      (avg ν T)^[s] (fun x => f x * (avg ν T)^[t] f' x) (π z)| ≤ driftSum ν T dev (s + t) (π z) := by
  have b1 : Bdd 1 fun z => f (π z) * (avg ν T')^[t] (fun z => f' (π z)) z := by
    have := (hf.comp hπ).mul ((hf'.comp hπ).avgIter (ν := ν) hT' t)
    rwa [one_mul] at this
  have b2 : Bdd 1 fun x => f x * (avg ν T)^[t] f' x := by
    have := hf.mul (hf'.avgIter (ν := ν) hT t)
    rwa [one_mul] at this
  refine near_iter hT hT' hπ hI hdev hdev0 hstep b1 b2 (fun z hz => ?_) s z hz
  rw [← mul_sub, abs_mul]
  have h1 := near_law hT hT' hπ hI hdev hdev0 hstep hf' t hz
  have h2 := hf.le (π z)
  calc _ ≤ 1 * driftSum ν T dev t (π z) := mul_le_mul h2 h1 (abs_nonneg _) zero_le_one
    _ = _ := one_mul _

end

/-- The drift vanishes with the deviation. -/
theorem driftSum_tendsto {X W ι : Type} [MeasurableSpace X] [MeasurableSpace W] {ν : Measure W} [IsProbabilityMeasure ν] {T : X → W → X}
    (hT : Measurable fun p : X × W => T p.1 p.2) {V : Set X} (hV : ∀ x ∈ V, ∀ᵐ w ∂ν, T x w ∈ V) {l : Filter ι} [l.IsCountablyGenerated]
    {dev : ι → X → ℝ} (hdev : ∀ s, Bdd 2 (dev s)) (hlim : ∀ x ∈ V, Tendsto (fun s => dev s x) l (𝓝 0)) (t : ℕ) :
    ∀ x ∈ V, Tendsto (fun s => driftSum ν T (dev s) t x) l (𝓝 0) := by
  induction t with
  | zero => intro x _; exact tendsto_const_nhds
  | succ t ih =>
    intro x hx
    have h1 : Tendsto (fun s => ∫ w, driftSum ν T (dev s) t (T x w) ∂ν) l (𝓝 (∫ _, (0 : ℝ) ∂ν)) := by
      refine tendsto_integral_filter_of_dominated_convergence (fun _ => 6 * t) (Eventually.of_forall fun s =>
        ((driftSum_bdd hT (hdev s) t).comp (meas_at hT x)).meas.aestronglyMeasurable) (Eventually.of_forall fun s => ae_of_all _ fun w => by
          rw [Real.norm_eq_abs]; exact (driftSum_bdd hT (hdev s) t).le _) (integrable_const _) ?_
      filter_upwards [hV x hx] with w hw using ih _ hw
    rw [integral_zero] at h1
    have h2 := h1.add ((hlim x hx).const_mul 3)
    rw [mul_zero, add_zero] at h2
    refine h2.congr fun s => ?_
    rw [driftSum_succ hT (hdev s)]
    rfl

/-! ## One Metropolis-Hastings move -/

section
variable {Y Ξ : Type} [MeasurableSpace Y] [MeasurableSpace Ξ] {l : Measure Y} {ν : Measure Ξ} [IsProbabilityMeasure ν] {K : Set Y} (hK : MeasurableSet K)
include hK

/-- Expected value of a bounded function after one move whose proposal has density `p`. -/
theorem mh_expect_real {prop : Ξ → Y} {a : Y → ℝ} {p : Y → ℝ} (u : Y) (hp : Measurable prop) (hq : Measurable p) (hp0 : ∀ v, 0 ≤ p v)
    (hlaw : ν.map prop = l.withDensity fun v => ENNReal.ofReal (p v)) (ha : Measurable a) (ha0 : ∀ v, 0 ≤ a v) (ha1 : ∀ v, a v ≤ 1)
    {f : Y → ℝ} {M : ℝ} (hf : Bdd M f) :
    IntegrableOn (fun v => p v * a v) K l ∧ ∫ w, f (mhMove K (fun _ => prop) (fun _ => a) u w) ∂ν.prod unitLaw =
      (∫ v in K, p v * a v * f v ∂l) + (1 - ∫ v in K, p v * a v ∂l) * f u := by
  classical
  set mv : Ξ × ℝ → Y := fun w => mhMove K (fun _ => prop) (fun _ => a) u w with hmv
  have mm : Measurable mv :=
    Measurable.ite (((hp.comp measurable_fst) hK).inter (measurableSet_lt measurable_snd (ha.comp (hp.comp measurable_fst))))
      (hp.comp measurable_fst) measurable_const
  have mD : Measurable fun v => p v * a v := hq.mul ha
  have hD0 : ∀ v, 0 ≤ p v * a v := fun v => mul_nonneg (hp0 v) (ha0 v)
  set st : ℝ≥0∞ := ∫⁻ v, ENNReal.ofReal (p v) * ENNReal.ofReal (1 - K.indicator a v) ∂l with hst
  have hex : ∀ F : Y → ℝ≥0∞, Measurable F → ∫⁻ w, F (mv w) ∂ν.prod unitLaw =
      (∫⁻ v in K, ENNReal.ofReal (p v * a v) * F v ∂l) + st * F u := by
    intro F hF
    have := mh_expect (l := l) (ν := ν) hK (prop := fun _ => prop) (a := fun _ => a) u hp hq.ennreal_ofReal hlaw ha ha0 ha1 F hF
    rw [hmv]
    refine this.trans ?_
    congr 1
    · refine lintegral_congr fun v => ?_
      rw [ENNReal.ofReal_mul (hp0 v)]
    · rw [hst, ← lintegral_mul_const]
      · exact lintegral_congr fun v => (mul_assoc _ _ _).symm
      · exact hq.ennreal_ofReal.mul (measurable_const.sub (ha.indicator hK)).ennreal_ofReal
  have htot : (∫⁻ v in K, ENNReal.ofReal (p v * a v) ∂l) + st = 1 := by
    have := hex (fun _ => 1) measurable_const
    simpa using this.symm
  have hfin : ∫⁻ v in K, ENNReal.ofReal (p v * a v) ∂l ≠ ⊤ := ne_top_of_le_ne_top ENNReal.one_ne_top (htot ▸ le_self_add)
  have hsf : st ≠ ⊤ := ne_top_of_le_ne_top ENNReal.one_ne_top (htot ▸ le_add_self)
  have hint : IntegrableOn (fun v => p v * a v) K l := ⟨mD.aestronglyMeasurable, by
    rw [hasFiniteIntegral_iff_ofReal (ae_of_all _ hD0)]; exact hfin.lt_top⟩
  refine ⟨hint, ?_⟩
  have hsr : st.toReal = 1 - ∫ v in K, p v * a v ∂l := by
    rw [integral_eq_lintegral_of_nonneg_ae (ae_of_all _ hD0) mD.aestronglyMeasurable]
    have := congrArg ENNReal.toReal htot
    rw [ENNReal.toReal_add hfin hsf, ENNReal.toReal_one] at this
    linarith
  set J := (l.restrict K).withDensity fun v => ENNReal.ofReal (p v * a v) with hJ
  have hlaw' : (ν.prod unitLaw).map mv = J + st • Measure.dirac u := by
    refine Measure.ext_of_lintegral _ fun F hF => ?_
    rw [lintegral_map hF mm, hex F hF, lintegral_add_measure, lintegral_smul_measure, lintegral_dirac' _ hF, hJ,
      lintegral_withDensity_eq_lintegral_mul _ mD.ennreal_ofReal hF]
    rfl
  have : IsFiniteMeasure J := ⟨by
    rw [hJ, withDensity_apply _ MeasurableSet.univ, Measure.restrict_univ]; exact hfin.lt_top⟩
  have e1 : ∫ w, f (mv w) ∂ν.prod unitLaw = ∫ v, f v ∂((ν.prod unitLaw).map mv) :=
    (integral_map mm.aemeasurable hf.meas.aestronglyMeasurable).symm
  have : IsFiniteMeasure (st • Measure.dirac u) := ⟨by
    rw [Measure.smul_apply, measure_univ, smul_eq_mul, mul_one]; exact hsf.lt_top⟩
  have e2 : ∫ v, f v ∂J = ∫ v in K, p v * a v * f v ∂l := by
    rw [hJ, integral_withDensity_eq_integral_toReal_smul mD.ennreal_ofReal (ae_of_all _ fun _ => ENNReal.ofReal_lt_top)]
    refine integral_congr_ae (ae_of_all _ fun v => ?_)
    show (ENNReal.ofReal (p v * a v)).toReal • f v = _
    rw [ENNReal.toReal_ofReal (hD0 v), smul_eq_mul]
  rw [e1, hlaw', integral_add_measure (hf.int _) (hf.int _), e2, integral_smul_measure, integral_dirac' _ _ hf.meas.stronglyMeasurable, hsr, smul_eq_mul]

/-- Two moves from the same point differ by at most twice the distance of their densities. -/
theorem mh_near {prop prop' : Ξ → Y} {a a' : Y → ℝ} {p p' : Y → ℝ} (u : Y) (hp : Measurable prop) (hq : Measurable p) (hp0 : ∀ v, 0 ≤ p v)
    (hlaw : ν.map prop = l.withDensity fun v => ENNReal.ofReal (p v)) (ha : Measurable a) (ha0 : ∀ v, 0 ≤ a v) (ha1 : ∀ v, a v ≤ 1)
    (hp' : Measurable prop') (hq' : Measurable p') (hp0' : ∀ v, 0 ≤ p' v)
    (hlaw' : ν.map prop' = l.withDensity fun v => ENNReal.ofReal (p' v)) (ha' : Measurable a') (ha0' : ∀ v, 0 ≤ a' v) (ha1' : ∀ v, a' v ≤ 1)
    {D : Y → ℝ} (hD : IntegrableOn D K l) (hle : ∀ᵐ v ∂(l.restrict K), |p v * a v - p' v * a' v| ≤ D v) {f : Y → ℝ} (hf : Bdd 1 f) :
    |∫ w, f (mhMove K (fun _ => prop) (fun _ => a) u w) ∂ν.prod unitLaw - ∫ w, f (mhMove K (fun _ => prop') (fun _ => a') u w) ∂ν.prod unitLaw| ≤
      2 * ∫ v in K, D v ∂l := by
  obtain ⟨i1, e1⟩ := mh_expect_real (l := l) hK u hp hq hp0 hlaw ha ha0 ha1 hf
  obtain ⟨i2, e2⟩ := mh_expect_real (l := l) hK u hp' hq' hp0' hlaw' ha' ha0' ha1' hf
  rw [e1, e2]
  have j1 : IntegrableOn (fun v => p v * a v * f v) K l := i1.mul_bdd (c := 1) hf.meas.aestronglyMeasurable (ae_of_all _ fun v => hf.le v)
  have j2 : IntegrableOn (fun v => p' v * a' v * f v) K l := i2.mul_bdd (c := 1) hf.meas.aestronglyMeasurable (ae_of_all _ fun v => hf.le v)
  have b1 : |∫ v in K, p v * a v * f v ∂l - ∫ v in K, p' v * a' v * f v ∂l| ≤ ∫ v in K, D v ∂l := by
    rw [← integral_sub j1 j2]
    refine abs_integral_le_integral_abs.trans (integral_mono_ae (j1.sub j2).abs hD ?_)
    filter_upwards [hle] with v hv
    show |p v * a v * f v - p' v * a' v * f v| ≤ D v
    rw [← sub_mul, abs_mul]
    calc _ ≤ |p v * a v - p' v * a' v| * 1 := mul_le_mul_of_nonneg_left (hf.le v) (abs_nonneg _)
      _ ≤ _ := by rw [mul_one]; exact hv
  have b2 : |∫ v in K, p v * a v ∂l - ∫ v in K, p' v * a' v ∂l| ≤ ∫ v in K, D v ∂l := by
    rw [← integral_sub i1 i2]
    exact abs_integral_le_integral_abs.trans (integral_mono_ae (i1.sub i2).abs hD hle)
  set A1 := ∫ v in K, p v * a v * f v ∂l
  set A2 := ∫ v in K, p' v * a' v * f v ∂l
  set B1 := ∫ v in K, p v * a v ∂l
  set B2 := ∫ v in K, p' v * a' v ∂l
  have e : A1 + (1 - B1) * f u - (A2 + (1 - B2) * f u) = (A1 - A2) - (B1 - B2) * f u := by ring
  rw [e]
  have b3 : |(B1 - B2) * f u| ≤ ∫ v in K, D v ∂l := by
    rw [abs_mul]
    calc _ ≤ |B1 - B2| * 1 := mul_le_mul_of_nonneg_left (hf.le u) (abs_nonneg _)
      _ ≤ _ := by rw [mul_one]; exact b2
  have := abs_sub (A1 - A2) ((B1 - B2) * f u)
  linarith

end

end PW

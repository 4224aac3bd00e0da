import Verif.Spec.Stationary
import Verif.Lemmas.Loop
import Mathlib.MeasureTheory.Measure.Lebesgue.Basic
import Mathlib.Dynamics.Ergodic.MeasurePreserving

/-! # From one-step laws to the law of the chain; Metropolis-Hastings -/

namespace PW
open MeasureTheory Set
open scoped ENNReal

section
variable {X G W σ : Type} [MeasurableSpace X] [MeasurableSpace G] [MeasurableSpace W]

/-- One iteration as a random map: `f` is the deterministic effect of one iteration on position and
generator, `T` the new position as a function of draws `w` of law `ν`. -/
structure StepKernel (π : Measure X) (μ : Measure G) (ν : Measure W) (start : X → G → σ)
    (step : σ → Out σ) (f : X → G → X × G) (T : X → W → X) : Prop where
  meas : Measurable fun p : X × G => f p.1 p.2
  measT : Measurable fun p : X × W => T p.1 p.2
  step_eq : ∀ᵐ p ∂(π.prod μ), step (start p.1 p.2) = .ok (start (f p.1 p.2).1 (f p.1 p.2).2)
  law : ∀ (F : X × G → ℝ≥0∞), Measurable F → ∀ x,
    ∫⁻ g, F (f x g) ∂μ = ∫⁻ w, ∫⁻ g, F (T x w, g) ∂μ ∂ν

/-- What has to be checked about one iteration. -/
structure StepLaw (π : Measure X) (μ : Measure G) (ν : Measure W) (start : X → G → σ)
    (step : σ → Out σ) (f : X → G → X × G) (T : X → W → X) : Prop
    extends StepKernel π μ ν start step f T where
  balance : ∀ F : X × X → ℝ≥0∞, Measurable F →
    ∫⁻ x, ∫⁻ w, F (x, T x w) ∂ν ∂π = ∫⁻ x, ∫⁻ w, F (T x w, x) ∂ν ∂π

variable {π : Measure X} {μ : Measure G} {ν : Measure W} {start : X → G → σ} {pos : σ → X}
  {step : σ → Out σ} {f : X → G → X × G} {T : X → W → X}

/-- Probability of one step, through the draws. -/
theorem StepKernel.stepProb_ae [IsProbabilityMeasure μ] (h : StepKernel π μ ν start step f T)
    (hpos : ∀ x g, pos (start x g) = x) : ∀ U : Set X, MeasurableSet U → ∀ᵐ x ∂π,
      stepProb μ start pos step x U = ∫⁻ w, U.indicator 1 (T x w) ∂ν := by
  intro U hU
  filter_upwards [Measure.ae_ae_of_ae_prod h.step_eq] with x hx
  have e : {g | ∃ s, step (start x g) = .ok s ∧ pos s ∈ U} =ᵐ[μ] (fun g => (f x g).1) ⁻¹' U := by
    filter_upwards [hx] with g hg
    refine propext ?_
    show (∃ s, step (start x g) = .ok s ∧ pos s ∈ U) ↔ (f x g).1 ∈ U
    rw [hg]
    constructor
    · rintro ⟨s, hs', hs⟩
      rw [Out.ok.injEq] at hs'
      rwa [← hs', hpos] at hs
    · intro hs; exact ⟨_, rfl, by rwa [hpos]⟩
  have hmx : Measurable fun g => (f x g).1 := (h.meas.comp measurable_prodMk_left).fst
  unfold stepProb
  rw [measure_congr e, ← lintegral_indicator_one (hmx hU)]
  have hF : Measurable fun p : X × G => U.indicator (1 : X → ℝ≥0∞) p.1 :=
    (measurable_one.indicator hU).comp measurable_fst
  have := h.law _ hF x
  rw [show (fun g => ((fun g => (f x g).1) ⁻¹' U).indicator (1 : G → ℝ≥0∞) g) =
    fun g => U.indicator (1 : X → ℝ≥0∞) (f x g).1 from rfl, this]
  simp

/-- Probability of starting in `U` and ending in `V`. -/
theorem StepKernel.flow [IsProbabilityMeasure μ] (h : StepKernel π μ ν start step f T)
    (hpos : ∀ x g, pos (start x g) = x) : ∀ U V : Set X, MeasurableSet U → MeasurableSet V →
      ∫⁻ x in U, stepProb μ start pos step x V ∂π =
        ∫⁻ x, ∫⁻ w, (U ×ˢ V).indicator 1 (x, T x w) ∂ν ∂π := by
  intro U V hU hV
  rw [setLIntegral_congr_fun_ae hU ((h.stepProb_ae hpos V hV).mono fun x hx _ => hx), ← lintegral_indicator hU]
  refine lintegral_congr fun x => ?_
  by_cases hx : x ∈ U
  · rw [indicator_of_mem hx]
    refine lintegral_congr fun w => ?_
    by_cases hw : T x w ∈ V
    · rw [indicator_of_mem hw, indicator_of_mem (show (x, T x w) ∈ U ×ˢ V from ⟨hx, hw⟩)]; rfl
    · rw [indicator_of_notMem hw, indicator_of_notMem (fun h : (x, T x w) ∈ U ×ˢ V => hw h.2)]
  · rw [indicator_of_notMem hx]
    rw [lintegral_congr (g := fun _ => 0) fun w =>
      indicator_of_notMem (fun h : (x, T x w) ∈ U ×ˢ V => hx h.1) _]
    simp

theorem StepLaw.reversible [IsProbabilityMeasure μ] (h : StepLaw π μ ν start step f T)
    (hpos : ∀ x g, pos (start x g) = x) : Reversible π μ start pos step := by
  intro S' T' hS hT
  rw [h.flow hpos S' T' hS hT, h.flow hpos T' S' hT hS,
    h.balance _ (measurable_one.indicator (hS.prod hT))]
  refine lintegral_congr fun x => lintegral_congr fun w => ?_
  by_cases hx : x ∈ T' <;> by_cases hw : T x w ∈ S' <;> simp [indicator, hx, hw]

theorem StepLaw.measurePreserving [SFinite π] [IsProbabilityMeasure μ] [IsProbabilityMeasure ν]
    (h : StepLaw π μ ν start step f T) :
    MeasurePreserving (fun p : X × G => f p.1 p.2) (π.prod μ) (π.prod μ) := by
  refine ⟨h.meas, Measure.ext_of_lintegral _ fun F hF => ?_⟩
  rw [lintegral_map hF h.meas, lintegral_prod (fun p : X × G => F (f p.1 p.2)) (hF.comp h.meas).aemeasurable,
    lintegral_prod _ hF.aemeasurable]
  simp only
  rw [lintegral_congr fun x => h.law F hF x]
  have hF' : Measurable fun x => ∫⁻ g, F (x, g) ∂μ := hF.lintegral_prod_right'
  have := h.balance (fun p => ∫⁻ g, F (p.2, g) ∂μ) (hF'.comp measurable_snd)
  rw [this]
  simp

theorem iter_fst {σ : Type} (step : σ → Out σ) (t : ℕ) (s : σ) :
    iter step (t + 1) s = (iter step t s).bind step := rfl

theorem StepLaw.iter_ae [SFinite π] [IsProbabilityMeasure μ] [IsProbabilityMeasure ν]
    (h : StepLaw π μ ν start step f T) (t : ℕ) : ∀ᵐ p ∂(π.prod μ), iter step t (start p.1 p.2) =
      .ok (start ((fun p : X × G => f p.1 p.2)^[t] p).1 ((fun p : X × G => f p.1 p.2)^[t] p).2) := by
  have hp := h.measurePreserving
  induction t with
  | zero => exact Filter.Eventually.of_forall fun p => rfl
  | succ t ih =>
    have h2 := (hp.iterate t).quasiMeasurePreserving.ae h.step_eq
    filter_upwards [ih, h2] with p hp1 hp2
    rw [iter_fst, hp1, Out.ok_bind, hp2, Function.iterate_succ_apply']

theorem StepLaw.stationary [SFinite π] [IsProbabilityMeasure μ] [IsProbabilityMeasure ν]
    (h : StepLaw π μ ν start step f T) (hpos : ∀ x g, pos (start x g) = x) :
    Stationary π μ start pos step := by
  intro t T' hT
  have hp := h.measurePreserving
  have hae := h.iter_ae
  have e : {p : X × G | ∃ s, iter step t (start p.1 p.2) = .ok s ∧ pos s ∈ T'} =ᵐ[π.prod μ]
      (fun p : X × G => f p.1 p.2)^[t] ⁻¹' (Prod.fst ⁻¹' T') := by
    filter_upwards [hae t] with p hp
    refine propext ?_
    show (∃ s, iter step t (start p.1 p.2) = .ok s ∧ pos s ∈ T') ↔ _
    rw [hp]
    constructor
    · rintro ⟨s, hs, hs'⟩
      rw [Out.ok.injEq] at hs
      rw [← hs, hpos] at hs'
      exact hs'
    · intro hs
      exact ⟨_, rfl, by rw [hpos]; exact hs⟩
  rw [measure_congr e, (hp.iterate t).measure_preimage (measurable_fst hT).nullMeasurableSet]
  have : (Prod.fst ⁻¹' T' : Set (X × G)) = T' ×ˢ univ := by ext; simp
  rw [this, Measure.prod_prod]
  simp

/-- Law of the recorded rows: if the chain is stationary, every row of the loop's result has law `π`. -/
theorem Stationary.rows {n : ℕ} {π : Measure (Fin n → ℝ)} {start : (Fin n → ℝ) → G → σ}
    {pos : σ → Fin n → ℝ} (h : Stationary π μ start pos step) (niter burnin thin : Int)
    (hg : GoodInts niter burnin thin) (hok : ∀ᵐ p ∂(π.prod μ), ∃ s, iter step niter.toNat (start p.1 p.2) = .ok s)
    (j : ℕ) (hj : (j : Int) < (niter - burnin) / thin) (T : Set (Fin n → ℝ)) (hT : MeasurableSet T) :
    (π.prod μ) {p | ∃ rows s, runLoop step pos niter burnin thin (start p.1 p.2) = .ok (rows, s) ∧
      ∃ hj : j < rows.length, rows[j] ∈ T} = π T := by
  rw [← h (burnin + ((j : Int) + 1) * thin).toNat T hT]
  refine measure_congr ?_
  filter_upwards [hok] with p hp
  refine propext ?_
  show (∃ rows s, runLoop step pos niter burnin thin (start p.1 p.2) = .ok (rows, s) ∧
      ∃ hj : j < rows.length, rows[j] ∈ T) ↔
    ∃ s, iter step (burnin + ((j : Int) + 1) * thin).toNat (start p.1 p.2) = .ok s ∧ pos s ∈ T
  obtain ⟨h1, h2⟩ := runLoop_spec step pos niter burnin thin hg (start p.1 p.2)
  constructor
  · rintro ⟨rows, s, hr, hj', hm⟩
    obtain ⟨st, hs, he⟩ := (h2 rows s hr).2 j hj'
    exact ⟨st, hs, by rwa [← he]⟩
  · rintro ⟨s, hs, hm⟩
    obtain ⟨s', hs'⟩ := hp
    rw [hs', Out.map_eq_ok] at h1
    obtain ⟨⟨rows, s''⟩, hr, _⟩ := h1
    have hl := (h2 rows s'' hr).1
    have hj' : j < rows.length := by omega
    obtain ⟨st, hst, he⟩ := (h2 rows s'' hr).2 j hj'
    refine ⟨rows, s'', hr, hj', ?_⟩
    rw [hst, Out.ok.injEq] at hs
    rw [he, hs]; exact hm

theorem StepLaw.rows {n : ℕ} {π : Measure (Fin n → ℝ)} {start : (Fin n → ℝ) → G → σ}
    {pos : σ → Fin n → ℝ} {f : (Fin n → ℝ) → G → (Fin n → ℝ) × G} {T : (Fin n → ℝ) → W → Fin n → ℝ}
    [SFinite π] [IsProbabilityMeasure μ] [IsProbabilityMeasure ν]
    (h : StepLaw π μ ν start step f T) (hpos : ∀ x g, pos (start x g) = x) (niter burnin thin : Int)
    (hg : GoodInts niter burnin thin) (j : ℕ) (hj : (j : Int) < (niter - burnin) / thin)
    (S : Set (Fin n → ℝ)) (hS : MeasurableSet S) :
    (π.prod μ) {p | ∃ rows s, runLoop step pos niter burnin thin (start p.1 p.2) = .ok (rows, s) ∧
      ∃ hj : j < rows.length, rows[j] ∈ S} = π S :=
  (h.stationary hpos).rows niter burnin thin hg
    ((h.iter_ae niter.toNat).mono fun _ hp => ⟨_, hp⟩) j hj S hS

end

/-! ## Metropolis-Hastings -/

section
variable {Y Ξ : Type} [MeasurableSpace Y] [MeasurableSpace Ξ]

/-- The uniform law on `[0, 1]`. -/
noncomputable abbrev unitLaw : Measure ℝ := volume.restrict (Icc (0 : ℝ) 1)

instance : IsProbabilityMeasure unitLaw := ⟨by simp⟩

/-- A uniform draw is below `a` with probability `a`. -/
theorem unit_lt (a : ℝ) (h0 : 0 ≤ a) (h1 : a ≤ 1) (c d : ℝ≥0∞) :
    ∫⁻ v, (if v < a then c else d) ∂unitLaw = ENNReal.ofReal a * c + ENNReal.ofReal (1 - a) * d := by
  have e : (fun v : ℝ => if v < a then c else d) =
      fun v => (Iio a).indicator (fun _ => c) v + (Ici a).indicator (fun _ => d) v := by
    funext v
    by_cases h : v < a
    · simp [h, not_le.2 h]
    · simp [h, not_lt.1 h]
  rw [e, lintegral_add_left (measurable_const.indicator measurableSet_Iio),
    lintegral_indicator_const measurableSet_Iio, lintegral_indicator_const measurableSet_Ici,
    Measure.restrict_apply measurableSet_Iio, Measure.restrict_apply measurableSet_Ici]
  have e1 : Iio a ∩ Icc (0 : ℝ) 1 = Ico 0 a := by
    ext v; simp only [mem_inter_iff, mem_Iio, mem_Icc, mem_Ico]
    constructor
    · rintro ⟨h, h', _⟩; exact ⟨h', h⟩
    · rintro ⟨h, h'⟩; exact ⟨h', h, by linarith⟩
  have e2 : Ici a ∩ Icc (0 : ℝ) 1 = Icc a 1 := by
    ext v; simp only [mem_inter_iff, mem_Ici, mem_Icc]
    constructor
    · rintro ⟨h, _, h'⟩; exact ⟨h, h'⟩
    · rintro ⟨h, h'⟩; exact ⟨h, by linarith, h'⟩
  rw [e1, e2, Real.volume_Ico, Real.volume_Icc, sub_zero, mul_comm c, mul_comm d]

open Classical in
/-- One Metropolis-Hastings move: proposal `prop u ξ`, kept if it is in `K` and `val < a`. -/
noncomputable def mhMove (K : Set Y) (prop : Y → Ξ → Y) (a : Y → Y → ℝ) (u : Y) (w : Ξ × ℝ) : Y :=
  if prop u w.1 ∈ K ∧ w.2 < a u (prop u w.1) then prop u w.1 else u

/-- Expected value after one Metropolis-Hastings move. -/
theorem mh_expect {l : Measure Y} {ν : Measure Ξ} [IsProbabilityMeasure ν] {K : Set Y}
    (hK : MeasurableSet K) {prop : Y → Ξ → Y} {a : Y → Y → ℝ} {q : Y → ℝ≥0∞} (u : Y)
    (hp : Measurable (prop u)) (hq : Measurable q) (hlaw : ν.map (prop u) = l.withDensity q)
    (ha : Measurable (a u)) (ha0 : ∀ v, 0 ≤ a u v) (ha1 : ∀ v, a u v ≤ 1)
    (F : Y → ℝ≥0∞) (hF : Measurable F) :
    ∫⁻ w, F (mhMove K prop a u w) ∂ν.prod unitLaw =
      (∫⁻ v in K, q v * ENNReal.ofReal (a u v) * F v ∂l) +
        ∫⁻ v, q v * (ENNReal.ofReal (1 - K.indicator (a u) v) * F u) ∂l := by
  classical
  have hm : Measurable fun w : Ξ × ℝ => F (mhMove K prop a u w) := by
    refine hF.comp (Measurable.ite ?_ (hp.comp measurable_fst) measurable_const)
    exact ((hp.comp measurable_fst) hK).inter
      (measurableSet_lt measurable_snd (ha.comp (hp.comp measurable_fst)))
  rw [lintegral_prod _ hm.aemeasurable]
  have hind : Measurable (K.indicator (a u)) := ha.indicator hK
  have hb0 : ∀ v, 0 ≤ K.indicator (a u) v := fun v => indicator_nonneg (fun v _ => ha0 v) v
  have hb1 : ∀ v, K.indicator (a u) v ≤ 1 := fun v => by
    by_cases h : v ∈ K
    · rw [indicator_of_mem h]; exact ha1 v
    · rw [indicator_of_notMem h]; exact zero_le_one
  have inner : ∀ ξ, ∫⁻ y, F (mhMove K prop a u (ξ, y)) ∂unitLaw =
      ENNReal.ofReal (K.indicator (a u) (prop u ξ)) * F (prop u ξ) +
        ENNReal.ofReal (1 - K.indicator (a u) (prop u ξ)) * F u := by
    intro ξ
    by_cases h : prop u ξ ∈ K
    · rw [indicator_of_mem h, ← unit_lt _ (ha0 _) (ha1 _)]
      refine lintegral_congr fun y => ?_
      unfold mhMove
      by_cases hy : y < a u (prop u ξ) <;> simp [h, hy]
    · rw [indicator_of_notMem h]
      have : ∀ y, mhMove K prop a u (ξ, y) = u := fun y => by simp [mhMove, h]
      simp [this]
  rw [lintegral_congr inner]
  have hmH : Measurable fun v => ENNReal.ofReal (K.indicator (a u) v) * F v +
      ENNReal.ofReal (1 - K.indicator (a u) v) * F u :=
    ((hind.ennreal_ofReal).mul hF).add (((measurable_const.sub hind).ennreal_ofReal).mul_const _)
  have h2 := lintegral_map (μ := ν) hmH hp
  rw [← h2, hlaw, lintegral_withDensity_eq_lintegral_mul _ hq hmH]
  simp only [Pi.mul_apply, mul_add]
  have hmq : Measurable fun v => q v * (ENNReal.ofReal (K.indicator (a u) v) * F v) :=
    hq.mul ((hind.ennreal_ofReal).mul hF)
  rw [lintegral_add_left hmq]
  congr 1
  rw [← lintegral_indicator hK]
  refine lintegral_congr fun v => ?_
  by_cases h : v ∈ K
  · rw [indicator_of_mem h, indicator_of_mem h, mul_assoc]
  · rw [indicator_of_notMem h, indicator_of_notMem h]; simp

/-- **Metropolis-Hastings.** If proposal density times acceptance probability is symmetric, the move is
reversible with respect to `l` restricted to `K`. -/
theorem mh_balance {l : Measure Y} [SFinite l] {ν : Measure Ξ} [IsProbabilityMeasure ν] {K U : Set Y}
    (hK : MeasurableSet K) (hU : MeasurableSet U) (hUK : U =ᵐ[l] K) {prop : Y → Ξ → Y} {a : Y → Y → ℝ}
    {q : Y → Y → ℝ≥0∞} (hp : ∀ u ∈ U, Measurable (prop u))
    (hq : Measurable fun p : Y × Y => q p.1 p.2)
    (hlaw : ∀ u ∈ U, ν.map (prop u) = l.withDensity (q u))
    (ha : Measurable fun p : Y × Y => a p.1 p.2) (ha0 : ∀ u v, 0 ≤ a u v) (ha1 : ∀ u v, a u v ≤ 1)
    (hbal : ∀ u ∈ U, ∀ v ∈ U, q u v * ENNReal.ofReal (a u v) = q v u * ENNReal.ofReal (a v u))
    (F : Y × Y → ℝ≥0∞) (hF : Measurable F) :
    ∫⁻ u in K, ∫⁻ w, F (u, mhMove K prop a u w) ∂ν.prod unitLaw ∂l =
      ∫⁻ u in K, ∫⁻ w, F (mhMove K prop a u w, u) ∂ν.prod unitLaw ∂l := by
  have hr : l.restrict K = l.restrict U := (Measure.restrict_congr_set hUK).symm
  have hq1 : ∀ u, Measurable (q u) := fun u => hq.comp measurable_prodMk_left
  have ha1' : ∀ u, Measurable (a u) := fun u => ha.comp measurable_prodMk_left
  have L : ∀ H : Y × Y → ℝ≥0∞, Measurable H → (∀ u, H (u, u) = F (u, u)) →
      ∫⁻ u in K, ∫⁻ w, H (u, mhMove K prop a u w) ∂ν.prod unitLaw ∂l =
      (∫⁻ u in U, ∫⁻ v in U, q u v * ENNReal.ofReal (a u v) * H (u, v) ∂l ∂l) +
        ∫⁻ u in U, ∫⁻ v, q u v * (ENNReal.ofReal (1 - K.indicator (a u) v) * F (u, u)) ∂l ∂l := by
    intro H hH hd
    rw [hr]
    have hm1 : Measurable fun u => ∫⁻ v in U, q u v * ENNReal.ofReal (a u v) * H (u, v) ∂l :=
      Measurable.lintegral_prod_right' (f := fun p : Y × Y => q p.1 p.2 * ENNReal.ofReal (a p.1 p.2) * H p)
        ((hq.mul ha.ennreal_ofReal).mul hH)
    rw [← lintegral_add_left hm1]
    refine setLIntegral_congr_fun hU fun u hu => ?_
    rw [mh_expect hK u (hp u hu) (hq1 u) (hlaw u hu) (ha1' u) (ha0 u) (ha1 u) (fun v => H (u, v))
      (hH.comp measurable_prodMk_left), hr]
    simp only [hd]
  have hF' : Measurable fun p : Y × Y => F (p.2, p.1) := hF.comp measurable_swap
  rw [L F hF fun _ => rfl, L (fun p => F (p.2, p.1)) hF' fun _ => rfl]
  congr 1
  have hm : Measurable fun p : Y × Y => q p.1 p.2 * ENNReal.ofReal (a p.1 p.2) * F p :=
    (hq.mul ha.ennreal_ofReal).mul hF
  rw [lintegral_lintegral_swap hm.aemeasurable]
  refine setLIntegral_congr_fun hU fun u hu => setLIntegral_congr_fun hU fun v hv => ?_
  show q v u * ENNReal.ofReal (a v u) * F (v, u) = q u v * ENNReal.ofReal (a u v) * F (v, u)
  rw [hbal u hu v hv]

/-- **Symmetric translations.** A move by a random vector of symmetric law, kept if it stays in `K`, is
reversible with respect to Lebesgue measure on `K`. -/
theorem translate_balance {d : ℕ} {ν : Measure Ξ} [IsProbabilityMeasure ν] {K : Set (Fin d → ℝ)}
    (hK : MeasurableSet K) (c : Ξ → Fin d → ℝ) (hc : Measurable c)
    (hsym : (ν.map c).map (fun v => -v) = ν.map c) [DecidablePred (· ∈ K)]
    (F : (Fin d → ℝ) × (Fin d → ℝ) → ℝ≥0∞) (hF : Measurable F) :
    ∫⁻ u in K, ∫⁻ w, F (u, if u + c w ∈ K then u + c w else u) ∂ν =
      ∫⁻ u in K, ∫⁻ w, F ((if u + c w ∈ K then u + c w else u), u) ∂ν := by
  have hnu : IsProbabilityMeasure (ν.map c) := Measure.isProbabilityMeasure_map hc.aemeasurable
  have L : ∀ H : (Fin d → ℝ) × (Fin d → ℝ) → ℝ≥0∞, Measurable H → (∀ u, H (u, u) = F (u, u)) →
      ∫⁻ u in K, ∫⁻ w, H (u, if u + c w ∈ K then u + c w else u) ∂ν =
      (∫⁻ v, (∫⁻ u, (K ×ˢ K).indicator H (u, u + v)) ∂ν.map c) +
        ∫⁻ u in K, ∫⁻ v, (Kᶜ).indicator (fun _ => F (u, u)) (u + v) ∂ν.map c := by
    intro H hH hd
    have hmI : Measurable ((K ×ˢ K).indicator H) := hH.indicator (hK.prod hK)
    have hm1 : Measurable fun p : (Fin d → ℝ) × (Fin d → ℝ) => (K ×ˢ K).indicator H (p.2, p.2 + p.1) :=
      hmI.comp (measurable_snd.prodMk (measurable_snd.add measurable_fst))
    rw [lintegral_lintegral_swap (f := fun v u => (K ×ˢ K).indicator H (u, u + v)) hm1.aemeasurable]
    have hz : ∫⁻ u, ∫⁻ v, (K ×ˢ K).indicator H (u, u + v) ∂ν.map c =
        ∫⁻ u in K, ∫⁻ v, (K ×ˢ K).indicator H (u, u + v) ∂ν.map c := by
      rw [← lintegral_indicator hK]
      refine lintegral_congr fun u => ?_
      by_cases hu : u ∈ K
      · rw [indicator_of_mem hu]
      · rw [indicator_of_notMem hu]
        rw [lintegral_congr (g := fun _ => 0) fun v =>
          indicator_of_notMem (fun h : (u, u + v) ∈ K ×ˢ K => hu h.1) _]
        simp
    rw [hz]
    have hm2 : Measurable fun u => ∫⁻ v, (K ×ˢ K).indicator H (u, u + v) ∂ν.map c :=
      Measurable.lintegral_prod_right' (f := fun p : (Fin d → ℝ) × (Fin d → ℝ) =>
        (K ×ˢ K).indicator H (p.1, p.1 + p.2))
        (hmI.comp (measurable_fst.prodMk (measurable_fst.add measurable_snd)))
    rw [← lintegral_add_left hm2]
    refine setLIntegral_congr_fun hK fun u hu => ?_
    have hm3 : Measurable fun v => (K ×ˢ K).indicator H (u, u + v) :=
      hmI.comp (measurable_const.prodMk (measurable_const.add measurable_id))
    have hm4 : Measurable fun v => (Kᶜ).indicator (fun _ => F (u, u)) (u + v) :=
      (measurable_const.indicator hK.compl).comp (measurable_const.add measurable_id)
    show _ = (∫⁻ v, (K ×ˢ K).indicator H (u, u + v) ∂ν.map c) +
      ∫⁻ v, (Kᶜ).indicator (fun _ => F (u, u)) (u + v) ∂ν.map c
    rw [← lintegral_add_left hm3]
    refine Eq.trans ?_ (lintegral_map (hm3.add hm4) hc).symm
    refine lintegral_congr fun w => ?_
    show _ = (K ×ˢ K).indicator H (u, u + c w) + (Kᶜ).indicator (fun _ => F (u, u)) (u + c w)
    by_cases hv : u + c w ∈ K
    · rw [if_pos hv, indicator_of_mem (show (u, u + c w) ∈ K ×ˢ K from ⟨hu, hv⟩),
        indicator_of_notMem (fun h : u + c w ∈ Kᶜ => h hv), add_zero]
    · rw [if_neg hv, indicator_of_notMem (fun h : (u, u + c w) ∈ K ×ˢ K => hv h.2),
        indicator_of_mem (show u + c w ∈ Kᶜ from hv), zero_add, hd]
  have hF' : Measurable fun p : (Fin d → ℝ) × (Fin d → ℝ) => F (p.2, p.1) := hF.comp measurable_swap
  rw [L F hF fun _ => rfl, L (fun p => F (p.2, p.1)) hF' fun _ => rfl]
  congr 1
  have hmI : Measurable ((K ×ˢ K).indicator F) := hF.indicator (hK.prod hK)
  have hm5 : Measurable fun v => ∫⁻ u, (K ×ˢ K).indicator F (u, u + v) :=
    Measurable.lintegral_prod_right' (f := fun p : (Fin d → ℝ) × (Fin d → ℝ) =>
        (K ×ˢ K).indicator F (p.2, p.2 + p.1))
        (hmI.comp (measurable_snd.prodMk (measurable_snd.add measurable_fst)))
  have h6 : ∫⁻ v, (∫⁻ u, (K ×ˢ K).indicator F (u, u + v)) ∂ν.map c =
      ∫⁻ v, (∫⁻ u, (K ×ˢ K).indicator F (u, u + -v)) ∂ν.map c := by
    conv_lhs => rw [← hsym]
    exact lintegral_map hm5 measurable_neg
  rw [h6]
  refine lintegral_congr fun v => ?_
  rw [← lintegral_add_right_eq_self _ v]
  refine lintegral_congr fun u => ?_
  rw [add_neg_cancel_right]
  by_cases h1 : u ∈ K <;> by_cases h2 : u + v ∈ K <;> simp [indicator, h1, h2]

end
end PW

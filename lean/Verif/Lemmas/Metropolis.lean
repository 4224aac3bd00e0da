import Verif.Lemmas.Stationary

/-! # One Metropolis-Hastings iteration with generator calls, on a space with a chart -/

namespace PW
open MeasureTheory Set
open scoped ENNReal

section
variable {X Y σ : Type} [MeasurableSpace X] [MeasurableSpace Y]

open Classical in
/-- One iteration: a Gaussian vector is drawn; if the proposal is in `C` a uniform number is drawn and the
proposal is kept if it is below `a`. -/
noncomputable def mhNext (r : Rng ℝ) (d : ℕ) (C : Set X) (P : X → (Fin d → ℝ) → X) (a : X → X → ℝ) (x : X)
    (g : r.G) : X × r.G :=
  if P x (r.gaussian d g).1 ∈ C then
    (if (r.uniform (r.gaussian d g).2).1 < a x (P x (r.gaussian d g).1) then P x (r.gaussian d g).1 else x,
      (r.uniform (r.gaussian d g).2).2)
  else (x, (r.gaussian d g).2)

theorem measurable_mhMove {Ξ : Type} [MeasurableSpace Ξ] {C : Set X} (hC : MeasurableSet C) {P : X → Ξ → X}
    (hP : Measurable fun p : X × Ξ => P p.1 p.2) {a : X → X → ℝ} (ha : Measurable fun p : X × X => a p.1 p.2) :
    Measurable fun p : X × (Ξ × ℝ) => mhMove C P a p.1 p.2 := by
  classical
  have h1 : Measurable fun p : X × (Ξ × ℝ) => P p.1 p.2.1 :=
    hP.comp (measurable_fst.prodMk (measurable_fst.comp measurable_snd))
  have h2 : Measurable fun p : X × (Ξ × ℝ) => a p.1 (P p.1 p.2.1) := ha.comp (measurable_fst.prodMk h1)
  exact Measurable.ite ((h1 hC).inter (measurableSet_lt (measurable_snd.comp measurable_snd) h2)) h1
    measurable_fst

theorem measurable_mhNext (r : Rng ℝ) [MeasurableSpace r.G] (d : ℕ) (hgm : Measurable (r.gaussian d))
    (hum : Measurable r.uniform) {C : Set X} (hC : MeasurableSet C)
    {P : X → (Fin d → ℝ) → X} (hP : Measurable fun p : X × (Fin d → ℝ) => P p.1 p.2) {a : X → X → ℝ}
    (ha : Measurable fun p : X × X => a p.1 p.2) :
    Measurable fun p : X × r.G => mhNext r d C P a p.1 p.2 := by
  classical
  have hz : Measurable fun p : X × r.G => P p.1 (r.gaussian d p.2).1 :=
    hP.comp (measurable_fst.prodMk ((measurable_fst.comp hgm).comp measurable_snd))
  have hg1 : Measurable fun p : X × r.G => (r.gaussian d p.2).2 :=
    (measurable_snd.comp hgm).comp measurable_snd
  have hv : Measurable fun p : X × r.G => (r.uniform (r.gaussian d p.2).2).1 :=
    (measurable_fst.comp hum).comp hg1
  have hg2 : Measurable fun p : X × r.G => (r.uniform (r.gaussian d p.2).2).2 :=
    (measurable_snd.comp hum).comp hg1
  have haz : Measurable fun p : X × r.G => a p.1 (P p.1 (r.gaussian d p.2).1) :=
    ha.comp (measurable_fst.prodMk hz)
  refine Measurable.ite (hz hC) ?_ (measurable_fst.prodMk hg1)
  exact (Measurable.ite (measurableSet_lt hv haz) hz measurable_fst).prodMk hg2

theorem mhNext_law (r : Rng ℝ) [MeasurableSpace r.G] (μ : Measure r.G) (N : (d : ℕ) → Measure (Fin d → ℝ))
    (hs : Source r μ N) (d : ℕ) {C : Set X} (hC : MeasurableSet C) {P : X → (Fin d → ℝ) → X}
    (hP : Measurable fun p : X × (Fin d → ℝ) => P p.1 p.2) {a : X → X → ℝ}
    (ha : Measurable fun p : X × X => a p.1 p.2) (F : X × r.G → ℝ≥0∞) (hF : Measurable F) (x : X) :
    ∫⁻ g, F (mhNext r d C P a x g) ∂μ =
      ∫⁻ w, ∫⁻ g, F (mhMove C P a x w, g) ∂μ ∂((N d).prod unitLaw) := by
  classical
  have := hs.prob
  have := hs.probN d
  have hPx : Measurable (P x) := hP.comp measurable_prodMk_left
  have hax : Measurable fun ξ => a x (P x ξ) := ha.comp (measurable_const.prodMk hPx)
  -- first the Gaussian draw
  let Φ : (Fin d → ℝ) × r.G → ℝ≥0∞ := fun q =>
    F (if P x q.1 ∈ C then (if (r.uniform q.2).1 < a x (P x q.1) then P x q.1 else x, (r.uniform q.2).2)
      else (x, q.2))
  have hum := hs.uniform.measurable
  have hz : Measurable fun q : (Fin d → ℝ) × r.G => P x q.1 := hPx.comp measurable_fst
  have hΦ : Measurable Φ := by
    refine hF.comp (Measurable.ite (hz hC) ?_ (measurable_const.prodMk measurable_snd))
    have hv : Measurable fun q : (Fin d → ℝ) × r.G => (r.uniform q.2).1 :=
      (measurable_fst.comp hum).comp measurable_snd
    have hg2 : Measurable fun q : (Fin d → ℝ) × r.G => (r.uniform q.2).2 :=
      (measurable_snd.comp hum).comp measurable_snd
    exact (Measurable.ite (measurableSet_lt hv (hax.comp measurable_fst)) hz measurable_const).prodMk hg2
  have h1 : ∫⁻ g, F (mhNext r d C P a x g) ∂μ = ∫⁻ ξ, ∫⁻ g, Φ (ξ, g) ∂μ ∂(N d) := by
    rw [← lintegral_prod _ hΦ.aemeasurable, ← (hs.gaussian d).lintegral_comp hΦ]
    rfl
  rw [h1]
  have hmv : Measurable fun w : (Fin d → ℝ) × ℝ => mhMove C P a x w :=
    (measurable_mhMove hC hP ha).comp measurable_prodMk_left
  have hin : Measurable fun w : (Fin d → ℝ) × ℝ => ∫⁻ g, F (mhMove C P a x w, g) ∂μ :=
    Measurable.lintegral_prod_right' (f := fun q : ((Fin d → ℝ) × ℝ) × r.G => F (mhMove C P a x q.1, q.2))
      (hF.comp ((hmv.comp measurable_fst).prodMk measurable_snd))
  rw [lintegral_prod _ hin.aemeasurable]
  refine lintegral_congr fun ξ => ?_
  by_cases hc : P x ξ ∈ C
  · let Ψ : ℝ × r.G → ℝ≥0∞ := fun q => F (if q.1 < a x (P x ξ) then P x ξ else x, q.2)
    have hΨ : Measurable Ψ := by
      refine hF.comp (Measurable.prodMk ?_ measurable_snd)
      exact Measurable.ite (measurableSet_lt measurable_fst measurable_const) measurable_const measurable_const
    have e1 : ∫⁻ g, Φ (ξ, g) ∂μ = ∫⁻ g, Ψ (r.uniform g) ∂μ := by
      refine lintegral_congr fun g => ?_
      show F (if P x ξ ∈ C then _ else _) = _
      rw [if_pos hc]
    rw [e1, hs.uniform.lintegral_comp hΨ, lintegral_prod _ hΨ.aemeasurable]
    refine lintegral_congr fun v => lintegral_congr fun g => ?_
    show F (if v < a x (P x ξ) then P x ξ else x, g) = F (mhMove C P a x (ξ, v), g)
    unfold mhMove
    simp only [hc, true_and]
  · have e1 : ∀ g, Φ (ξ, g) = F (x, g) := fun g => by
      show F (if P x ξ ∈ C then _ else _) = _
      rw [if_neg hc]
    have e2 : ∀ v, mhMove C P a x (ξ, v) = x := fun v => by simp [mhMove, hc]
    simp only [e1, e2]
    simp

/-- One Metropolis-Hastings iteration through a chart as a random map. `c` maps coordinates `u` to positions; the target is the image of
`l` restricted to the coordinates of `C`. `V` is a full-measure part of `C` where the step is well defined. -/
theorem mh_stepKernel (r : Rng ℝ) [MeasurableSpace r.G] (μ : Measure r.G) (N : (d : ℕ) → Measure (Fin d → ℝ))
    (hs : Source r μ N) (d : ℕ) {C V : Set X} (hC : MeasurableSet C) (hV : MeasurableSet V)
    {l : Measure Y} [SFinite l] {c : Y → X} (hc : Measurable c) (hVC : c ⁻¹' V =ᵐ[l] c ⁻¹' C)
    {P : X → (Fin d → ℝ) → X} (hP : Measurable fun p : X × (Fin d → ℝ) => P p.1 p.2)
    {a : X → X → ℝ} (ha : Measurable fun p : X × X => a p.1 p.2)
    {prop : Y → (Fin d → ℝ) → Y} (hprop : ∀ u, c u ∈ V → Measurable (prop u))
    (hcp : ∀ u, c u ∈ V → ∀ ξ, c (prop u ξ) = P (c u) ξ)
    {q : Y → Y → ℝ≥0∞}
    (hlaw : ∀ u, c u ∈ V → (N d).map (prop u) = l.withDensity (q u))
    {start : X → r.G → σ} {step : σ → Out σ}
    (hstep : ∀ x ∈ V, ∀ g, (P x (r.gaussian d g).1 ∈ V ∨ P x (r.gaussian d g).1 ∉ C) →
      step (start x g) = .ok (start (mhNext r d C P a x g).1 (mhNext r d C P a x g).2)) :
    StepKernel ((l.restrict (c ⁻¹' C)).map c) μ ((N d).prod unitLaw) start step (mhNext r d C P a)
      (mhMove C P a) := by
  classical
  have := hs.prob
  have := hs.probN d
  have hgm := (hs.gaussian d).measurable
  have hum := hs.uniform.measurable
  have mM := measurable_mhMove hC hP ha
  refine ⟨measurable_mhNext r d hgm hum hC hP ha, mM, ?_, mhNext_law r μ N hs d hC hP ha⟩
  · -- almost every start and draw is fine
    let S : Set (X × r.G) := {p | p.1 ∈ V ∧ (P p.1 (r.gaussian d p.2).1 ∈ V ∨ P p.1 (r.gaussian d p.2).1 ∉ C)}
    have hz : Measurable fun p : X × r.G => P p.1 (r.gaussian d p.2).1 :=
      hP.comp (measurable_fst.prodMk ((measurable_fst.comp hgm).comp measurable_snd))
    have hS : MeasurableSet S := (measurable_fst hV).inter ((hz hV).union (hz hC).compl)
    have h0 : (((l.restrict (c ⁻¹' C)).map c).prod μ) Sᶜ = 0 := by
      rw [Measure.prod_apply hS.compl, lintegral_map (measurable_measure_prodMk_left hS.compl) hc]
      have hr : l.restrict (c ⁻¹' C) = l.restrict (c ⁻¹' V) := (Measure.restrict_congr_set hVC).symm
      rw [hr]
      have : ∀ u ∈ c ⁻¹' V, μ (Prod.mk (c u) ⁻¹' Sᶜ) = 0 := by
        intro u hu
        have hN0 : l (c ⁻¹' C \ c ⁻¹' V) = 0 := ae_le_set.1 hVC.symm.le
        have hD : MeasurableSet (c ⁻¹' C \ c ⁻¹' V) := (hc hC).diff (hc hV)
        have h2 : (N d) (prop u ⁻¹' (c ⁻¹' C \ c ⁻¹' V)) = 0 := by
          rw [← Measure.map_apply (hprop u hu) hD, hlaw u hu]
          exact withDensity_absolutelyContinuous _ _ hN0
        have h3 : μ ((fun g => (r.gaussian d g).1) ⁻¹' (prop u ⁻¹' (c ⁻¹' C \ c ⁻¹' V))) = 0 := by
          have hm1 := hprop u hu hD
          have e : (fun g => (r.gaussian d g).1) ⁻¹' (prop u ⁻¹' (c ⁻¹' C \ c ⁻¹' V)) =
              r.gaussian d ⁻¹' ((prop u ⁻¹' (c ⁻¹' C \ c ⁻¹' V)) ×ˢ univ) := by
            ext g; simp
          rw [e, (hs.gaussian d).measure_preimage (hm1.prod MeasurableSet.univ).nullMeasurableSet,
            Measure.prod_prod, h2, zero_mul]
        refine measure_mono_null ?_ h3
        intro g hg
        have hg' : ¬ (c u ∈ V ∧ (P (c u) (r.gaussian d g).1 ∈ V ∨ P (c u) (r.gaussian d g).1 ∉ C)) := hg
        rw [← hcp u hu] at hg'
        show c (prop u (r.gaussian d g).1) ∈ C ∧ c (prop u (r.gaussian d g).1) ∉ V
        have hu' : c u ∈ V := hu
        tauto
      rw [setLIntegral_congr_fun (hc hV) this]
      simp
    have h1 : ∀ᵐ p ∂(((l.restrict (c ⁻¹' C)).map c).prod μ), p ∈ S := by
      rw [ae_iff]; exact h0
    filter_upwards [h1] with p hp
    exact hstep p.1 hp.1 p.2 hp.2

/-- **Metropolis-Hastings through a chart.** `c` maps coordinates `u` to positions; the target is the image of
`l` restricted to the coordinates of `C`. `V` is a full-measure part of `C` where the step is well defined. -/
theorem mh_stepLaw (r : Rng ℝ) [MeasurableSpace r.G] (μ : Measure r.G) (N : (d : ℕ) → Measure (Fin d → ℝ))
    (hs : Source r μ N) (d : ℕ) {C V : Set X} (hC : MeasurableSet C) (hV : MeasurableSet V)
    {l : Measure Y} [SFinite l] {c : Y → X} (hc : Measurable c) (hVC : c ⁻¹' V =ᵐ[l] c ⁻¹' C)
    {P : X → (Fin d → ℝ) → X} (hP : Measurable fun p : X × (Fin d → ℝ) => P p.1 p.2)
    {a : X → X → ℝ} (ha : Measurable fun p : X × X => a p.1 p.2) (ha0 : ∀ x z, 0 ≤ a x z)
    (ha1 : ∀ x z, a x z ≤ 1)
    {prop : Y → (Fin d → ℝ) → Y} (hprop : ∀ u, c u ∈ V → Measurable (prop u))
    (hcp : ∀ u, c u ∈ V → ∀ ξ, c (prop u ξ) = P (c u) ξ)
    {q : Y → Y → ℝ≥0∞} (hq : Measurable fun p : Y × Y => q p.1 p.2)
    (hlaw : ∀ u, c u ∈ V → (N d).map (prop u) = l.withDensity (q u))
    (hbal : ∀ u v, c u ∈ V → c v ∈ V →
      q u v * ENNReal.ofReal (a (c u) (c v)) = q v u * ENNReal.ofReal (a (c v) (c u)))
    {start : X → r.G → σ} {step : σ → Out σ}
    (hstep : ∀ x ∈ V, ∀ g, (P x (r.gaussian d g).1 ∈ V ∨ P x (r.gaussian d g).1 ∉ C) →
      step (start x g) = .ok (start (mhNext r d C P a x g).1 (mhNext r d C P a x g).2)) :
    StepLaw ((l.restrict (c ⁻¹' C)).map c) μ ((N d).prod unitLaw) start step (mhNext r d C P a)
      (mhMove C P a) := by
  classical
  have := hs.prob
  have := hs.probN d
  have mM := measurable_mhMove hC hP ha
  refine ⟨mh_stepKernel r μ N hs d hC hV hc hVC hP ha hprop hcp hlaw hstep, ?_⟩
  · intro F hF
    have mv : Measurable fun p : X × ((Fin d → ℝ) × ℝ) => (p.1, mhMove C P a p.1 p.2) :=
      measurable_fst.prodMk mM
    have mv' : Measurable fun p : X × ((Fin d → ℝ) × ℝ) => (mhMove C P a p.1 p.2, p.1) :=
      mM.prodMk measurable_fst
    have m1 : Measurable fun x => ∫⁻ w, F (x, mhMove C P a x w) ∂((N d).prod unitLaw) :=
      Measurable.lintegral_prod_right' (hF.comp mv)
    have m2 : Measurable fun x => ∫⁻ w, F (mhMove C P a x w, x) ∂((N d).prod unitLaw) :=
      Measurable.lintegral_prod_right' (hF.comp mv')
    rw [lintegral_map m1 hc, lintegral_map m2 hc]
    have hmove : ∀ u, c u ∈ V → ∀ w, c (mhMove (c ⁻¹' C) prop (fun u v => a (c u) (c v)) u w) =
        mhMove C P a (c u) w := by
      intro u hu w
      unfold mhMove
      simp only [mem_preimage, hcp u hu, apply_ite c]
    have hr : l.restrict (c ⁻¹' C) = l.restrict (c ⁻¹' V) := (Measure.restrict_congr_set hVC).symm
    have hF2 : Measurable fun p : Y × Y => F (c p.1, c p.2) :=
      hF.comp ((hc.comp measurable_fst).prodMk (hc.comp measurable_snd))
    have key := mh_balance (l := l) (ν := N d) (hc hC) (hc hV) hVC (prop := prop)
      (a := fun u v => a (c u) (c v)) (q := q) hprop hq hlaw
      (ha.comp ((hc.comp measurable_fst).prodMk (hc.comp measurable_snd))) (fun u v => ha0 _ _)
      (fun u v => ha1 _ _) (fun u hu v hv => hbal u v hu hv) (fun p => F (c p.1, c p.2)) hF2
    rw [hr] at key ⊢
    refine Eq.trans ?_ (key.trans ?_)
    · refine setLIntegral_congr_fun (hc hV) fun u hu => lintegral_congr fun w => ?_
      simp only [hmove u hu]
    · refine setLIntegral_congr_fun (hc hV) fun u hu => lintegral_congr fun w => ?_
      simp only [hmove u hu]

end
end PW

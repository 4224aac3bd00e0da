import Verif.Lemmas.Metropolis
import Verif.Lemmas.ErgodicMean

/-! # Metropolis-Hastings chains with positive densities converge from every point -/

namespace PW
open MeasureTheory Set Filter Topology
open scoped ENNReal

section
variable {X Y Ξ : Type} [MeasurableSpace X] [MeasurableSpace Y] [MeasurableSpace Ξ]

/-- A Metropolis-Hastings move on `C` through a chart `c`: the proposal `P x ξ` (`ξ` of law `N`) has, in coordinates, the density `q`, is
kept with probability `a`, and both are positive. `V` is the part of `C` where this holds. -/
structure MHBase (N : Measure Ξ) (C V : Set X) (l : Measure Y) (c : Y → X) (P : X → Ξ → X) (a : X → X → ℝ)
    (prop : Y → Ξ → Y) (q : Y → Y → ℝ≥0∞) : Prop where
  measC : MeasurableSet C
  measV : MeasurableSet V
  measc : Measurable c
  sub : V ⊆ C
  range : ∀ x ∈ V, ∃ u, c u = x
  null : c ⁻¹' V =ᵐ[l] c ⁻¹' C
  measP : Measurable fun p : X × Ξ => P p.1 p.2
  measa : Measurable fun p : X × X => a p.1 p.2
  a0 : ∀ x z, 0 < a x z
  a1 : ∀ x z, a x z ≤ 1
  measprop : ∀ u, c u ∈ V → Measurable (prop u)
  lift : ∀ u, c u ∈ V → ∀ ξ, c (prop u ξ) = P (c u) ξ
  measq : Measurable fun p : Y × Y => q p.1 p.2
  law : ∀ u, c u ∈ V → N.map (prop u) = l.withDensity (q u)
  pos : ∀ u v, c u ∈ V → q u v ≠ 0
  mass0 : l (c ⁻¹' C) ≠ 0
  mass : l (c ⁻¹' C) ≠ ⊤

/-- A Metropolis-Hastings move with detailed balance. -/
structure MHData (N : Measure Ξ) (C V : Set X) (l : Measure Y) (c : Y → X) (P : X → Ξ → X) (a : X → X → ℝ)
    (prop : Y → Ξ → Y) (q : Y → Y → ℝ≥0∞) : Prop extends MHBase N C V l c P a prop q where
  bal : ∀ u v, c u ∈ V → c v ∈ V → q u v * ENNReal.ofReal (a (c u) (c v)) = q v u * ENNReal.ofReal (a (c v) (c u))

variable {N : Measure Ξ} [IsProbabilityMeasure N] {C V : Set X} {l : Measure Y} [SFinite l] {c : Y → X} {P : X → Ξ → X} {a : X → X → ℝ}
  {prop : Y → Ξ → Y} {q : Y → Y → ℝ≥0∞}

/-- The target. -/
noncomputable def mhTarget (C : Set X) (l : Measure Y) (c : Y → X) : Measure X := (l.restrict (c ⁻¹' C)).map c

/-- The normalised target. -/
noncomputable def mhProb (C : Set X) (l : Measure Y) (c : Y → X) : Measure X := (l (c ⁻¹' C))⁻¹ • mhTarget C l c

/-- Probability of staying. -/
noncomputable def mhStay (C : Set X) (l : Measure Y) (c : Y → X) (a : X → X → ℝ) (q : Y → Y → ℝ≥0∞) (u : Y) : ℝ≥0∞ :=
  ∫⁻ v, q u v * ENNReal.ofReal (1 - (c ⁻¹' C).indicator (fun v => a (c u) (c v)) v) ∂l

/-- Density of a move. -/
noncomputable def mhDens (c : Y → X) (a : X → X → ℝ) (q : Y → Y → ℝ≥0∞) (u v : Y) : ℝ≥0∞ := q u v * ENNReal.ofReal (a (c u) (c v))

/-- The part of one step that moves. -/
noncomputable def mhJump (C : Set X) (l : Measure Y) (c : Y → X) (a : X → X → ℝ) (q : Y → Y → ℝ≥0∞) (u : Y) : Measure X :=
  ((l.restrict (c ⁻¹' C)).withDensity (mhDens c a q u)).map c

omit [IsProbabilityMeasure N] [SFinite l] in
theorem MHBase.prob (h : MHBase N C V l c P a prop q) : IsProbabilityMeasure (mhProb C l c) := ⟨by
  unfold mhProb mhTarget
  rw [Measure.smul_apply, Measure.map_apply h.measc MeasurableSet.univ, preimage_univ, Measure.restrict_apply_univ, smul_eq_mul,
    ENNReal.inv_mul_cancel h.mass0 h.mass]⟩

variable (h : MHData N C V l c P a prop q)
include h

omit [IsProbabilityMeasure N] [SFinite l] in
theorem MHData.measDens : Measurable fun p : Y × Y => mhDens c a q p.1 p.2 :=
  h.measq.mul (h.measa.comp ((h.measc.comp measurable_fst).prodMk (h.measc.comp measurable_snd))).ennreal_ofReal

omit [IsProbabilityMeasure N] [SFinite l] in
theorem MHData.dens_ne (u v : Y) (hu : c u ∈ V) : mhDens c a q u v ≠ 0 :=
  mul_ne_zero (h.pos u v hu) (by rw [ne_eq, ENNReal.ofReal_eq_zero, not_le]; exact h.a0 _ _)

/-- One step as a jump or a stay. -/
theorem MHData.expect {u : Y} (hu : c u ∈ V) {F : X → ℝ≥0∞} (hF : Measurable F) :
    ∫⁻ w, F (mhMove C P a (c u) w) ∂(N.prod unitLaw) =
      (∫⁻ v in c ⁻¹' C, mhDens c a q u v * F (c v) ∂l) + mhStay C l c a q u * F (c u) := by
  classical
  have hmove : ∀ w, mhMove C P a (c u) w = c (mhMove (c ⁻¹' C) prop (fun u v => a (c u) (c v)) u w) := by
    intro w
    unfold mhMove
    simp only [mem_preimage, h.lift u hu, apply_ite c]
  have mau : Measurable fun v => a (c u) (c v) := h.measa.comp (measurable_const.prodMk h.measc)
  have := mh_expect (l := l) (ν := N) (h.measc h.measC) u (h.measprop u hu) (q := q u) (a := fun u v => a (c u) (c v))
    (h.measq.comp measurable_prodMk_left) (h.law u hu) mau (fun v => (h.a0 _ _).le) (fun v => h.a1 _ _) (fun v => F (c v)) (hF.comp h.measc)
  simp only [hmove]
  rw [this]
  congr 1
  have mind : Measurable ((c ⁻¹' C).indicator fun v => a (c u) (c v)) := mau.indicator (h.measc h.measC)
  unfold mhStay
  rw [← lintegral_mul_const]
  · exact lintegral_congr fun v => (mul_assoc _ _ _).symm
  · exact (h.measq.comp measurable_prodMk_left).mul (measurable_const.sub mind).ennreal_ofReal

theorem MHData.total {u : Y} (hu : c u ∈ V) : (∫⁻ v in c ⁻¹' C, mhDens c a q u v ∂l) + mhStay C l c a q u = 1 := by
  have := h.expect hu (F := fun _ => 1) measurable_const
  simpa using this.symm

theorem MHData.stay_lt {u : Y} (hu : c u ∈ V) : mhStay C l c a q u < 1 := by
  have ht := h.total hu
  have hpos : (∫⁻ v in c ⁻¹' C, mhDens c a q u v ∂l) ≠ 0 := by
    have md : Measurable (mhDens c a q u) := h.measDens.comp measurable_prodMk_left
    rw [ne_eq, lintegral_eq_zero_iff md]
    intro h0
    have h1 : ∀ᵐ v ∂(l.restrict (c ⁻¹' C)), False := by
      filter_upwards [h0] with v hv using h.dens_ne u v hu hv
    rw [ae_iff] at h1
    simp at h1
    exact h.mass0 h1
  have hst : mhStay C l c a q u ≠ ⊤ := ne_top_of_le_ne_top ENNReal.one_ne_top (ht ▸ le_add_self)
  calc mhStay C l c a q u = 0 + mhStay C l c a q u := (zero_add _).symm
    _ < (∫⁻ v in c ⁻¹' C, mhDens c a q u v ∂l) + mhStay C l c a q u := by
      rw [ENNReal.add_lt_add_iff_right hst]; exact pos_iff_ne_zero.2 hpos
    _ = 1 := ht

theorem MHData.jump_finite {u : Y} (hu : c u ∈ V) : IsFiniteMeasure (mhJump C l c a q u) := ⟨by
  unfold mhJump
  rw [Measure.map_apply h.measc MeasurableSet.univ, preimage_univ, withDensity_apply _ MeasurableSet.univ, Measure.restrict_univ]
  exact lt_of_le_of_lt (h.total hu ▸ le_self_add) ENNReal.one_lt_top⟩

omit [IsProbabilityMeasure N] [SFinite l] in
theorem MHData.jump_ac (u : Y) : mhJump C l c a q u ≪ mhProb C l c := by
  have h1 : mhJump C l c a q u ≪ mhTarget C l c := (withDensity_absolutelyContinuous _ _).map h.measc
  refine h1.trans (Measure.AbsolutelyContinuous.mk fun S _ hS => ?_)
  unfold mhProb at hS
  rw [Measure.smul_apply, smul_eq_mul, mul_eq_zero, ENNReal.inv_eq_zero] at hS
  exact hS.resolve_left h.mass

theorem MHData.step_eq {u : Y} (hu : c u ∈ V) :
    (N.prod unitLaw).map (mhMove C P a (c u)) = mhJump C l c a q u + mhStay C l c a q u • Measure.dirac (c u) := by
  have mM : Measurable (mhMove C P a (c u)) := meas_at (measurable_mhMove h.measC h.measP h.measa) (c u)
  have md : Measurable (mhDens c a q u) := h.measDens.comp measurable_prodMk_left
  refine Measure.ext_of_lintegral _ fun F hF => ?_
  rw [lintegral_map hF mM, h.expect hu hF, lintegral_add_measure, lintegral_smul_measure, lintegral_dirac' _ hF]
  unfold mhJump
  have hw := lintegral_withDensity_eq_lintegral_mul (l.restrict (c ⁻¹' C)) md (g := fun v => F (c v)) (hF.comp h.measc)
  rw [lintegral_map hF h.measc, hw]
  rfl

/-- Detailed balance. -/
theorem MHData.balance : Balance (mhProb C l c) (N.prod unitLaw) (mhMove C P a) := by
  classical
  intro F hF
  have mM := measurable_mhMove h.measC h.measP h.measa
  have mv : Measurable fun p : X × (Ξ × ℝ) => (p.1, mhMove C P a p.1 p.2) := measurable_fst.prodMk mM
  have mv' : Measurable fun p : X × (Ξ × ℝ) => (mhMove C P a p.1 p.2, p.1) := mM.prodMk measurable_fst
  have m1 : Measurable fun x => ∫⁻ w, F (x, mhMove C P a x w) ∂(N.prod unitLaw) := Measurable.lintegral_prod_right' (hF.comp mv)
  have m2 : Measurable fun x => ∫⁻ w, F (mhMove C P a x w, x) ∂(N.prod unitLaw) := Measurable.lintegral_prod_right' (hF.comp mv')
  unfold mhProb mhTarget
  rw [lintegral_smul_measure, lintegral_smul_measure, lintegral_map m1 h.measc, lintegral_map m2 h.measc]
  congr 1
  have hmove : ∀ u, c u ∈ V → ∀ w, c (mhMove (c ⁻¹' C) prop (fun u v => a (c u) (c v)) u w) = mhMove C P a (c u) w := by
    intro u hu w
    unfold mhMove
    simp only [mem_preimage, h.lift u hu, apply_ite c]
  have hr : l.restrict (c ⁻¹' C) = l.restrict (c ⁻¹' V) := (Measure.restrict_congr_set h.null).symm
  have hF2 : Measurable fun p : Y × Y => F (c p.1, c p.2) :=
    hF.comp ((h.measc.comp measurable_fst).prodMk (h.measc.comp measurable_snd))
  have key := mh_balance (l := l) (ν := N) (h.measc h.measC) (h.measc h.measV) h.null (prop := prop)
    (a := fun u v => a (c u) (c v)) (q := q) h.measprop h.measq h.law
    (h.measa.comp ((h.measc.comp measurable_fst).prodMk (h.measc.comp measurable_snd))) (fun u v => (h.a0 _ _).le)
    (fun u v => h.a1 _ _) (fun u hu v hv => h.bal u v hu hv) (fun p => F (c p.1, c p.2)) hF2
  rw [hr] at key ⊢
  refine Eq.trans ?_ (key.trans ?_)
  · refine setLIntegral_congr_fun (h.measc h.measV) fun u hu => lintegral_congr fun w => ?_
    simp only [hmove u hu]
  · refine setLIntegral_congr_fun (h.measc h.measV) fun u hu => lintegral_congr fun w => ?_
    simp only [hmove u hu]

/-- Any two regions communicate. -/
theorem MHData.ac : (mhProb C l c).prod (mhProb C l c) ≪ pairLaw (mhProb C l c) (N.prod unitLaw) (mhMove C P a) := by
  have := h.prob
  have mM := measurable_mhMove h.measC h.measP h.measa
  refine Measure.AbsolutelyContinuous.mk fun S hS h0 => ?_
  have hZ : (l (c ⁻¹' C))⁻¹ ≠ 0 := by rw [ne_eq, ENNReal.inv_eq_zero]; exact h.mass
  have mS : Measurable (S.indicator (1 : X × X → ℝ≥0∞)) := measurable_one.indicator hS
  -- the flow into `S` vanishes
  have m1 : Measurable fun x => ∫⁻ w, S.indicator (1 : X × X → ℝ≥0∞) (x, mhMove C P a x w) ∂(N.prod unitLaw) :=
    Measurable.lintegral_prod_right' (mS.comp (measurable_fst.prodMk mM))
  have h1 : ∫⁻ u in c ⁻¹' C, ∫⁻ w, S.indicator (1 : X × X → ℝ≥0∞) (c u, mhMove C P a (c u) w) ∂(N.prod unitLaw) ∂l = 0 := by
    rw [← lintegral_indicator_one hS, lintegral_pairLaw mM mS] at h0
    unfold mhProb mhTarget at h0
    rw [lintegral_smul_measure, lintegral_map m1 h.measc, smul_eq_mul, mul_eq_zero] at h0
    exact h0.resolve_left hZ
  have h2 := (lintegral_eq_zero_iff (m1.comp h.measc)).1 h1
  have hV : ∀ᵐ u ∂(l.restrict (c ⁻¹' C)), c u ∈ V := by
    rw [← Measure.restrict_congr_set h.null]
    exact ae_restrict_mem (h.measc h.measV)
  have h3 : ∀ᵐ u ∂(l.restrict (c ⁻¹' C)), mhProb C l c (Prod.mk (c u) ⁻¹' S) = 0 := by
    filter_upwards [h2, hV] with u hu huV
    have mSu : Measurable fun y => S.indicator (1 : X × X → ℝ≥0∞) (c u, y) := mS.comp measurable_prodMk_left
    have h4 : ∫⁻ w, S.indicator (1 : X × X → ℝ≥0∞) (c u, mhMove C P a (c u) w) ∂(N.prod unitLaw) = 0 := hu
    rw [h.expect huV mSu] at h4
    have h5 := (add_eq_zero.1 h4).1
    have md : Measurable fun v => mhDens c a q u v * S.indicator (1 : X × X → ℝ≥0∞) (c u, c v) :=
      (h.measDens.comp measurable_prodMk_left).mul (mSu.comp h.measc)
    have h6 := (lintegral_eq_zero_iff md).1 h5
    have mSx : MeasurableSet (Prod.mk (c u) ⁻¹' S) := measurable_prodMk_left hS
    unfold mhProb mhTarget
    rw [Measure.smul_apply, smul_eq_mul, Measure.map_apply h.measc mSx]
    have h7 : (l.restrict (c ⁻¹' C)) (c ⁻¹' (Prod.mk (c u) ⁻¹' S)) = 0 := by
      have : ∀ᵐ v ∂(l.restrict (c ⁻¹' C)), v ∉ c ⁻¹' (Prod.mk (c u) ⁻¹' S) := by
        filter_upwards [h6] with v hv hvS
        have h8 : mhDens c a q u v * S.indicator (1 : X × X → ℝ≥0∞) (c u, c v) = 0 := hv
        rw [indicator_of_mem (show (c u, c v) ∈ S from hvS)] at h8
        exact h.dens_ne u v huV (by simpa using h8)
      rw [ae_iff] at this
      refine measure_mono_null (fun v hv => ?_) this
      exact not_not.2 hv
    rw [h7, mul_zero]
  rw [Measure.prod_apply hS]
  have m3 : Measurable fun x => mhProb C l c (Prod.mk x ⁻¹' S) := measurable_measure_prodMk_left hS
  have h9 : ∀ G : X → ℝ≥0∞, Measurable G → ∫⁻ x, G x ∂(mhProb C l c) = (l (c ⁻¹' C))⁻¹ * ∫⁻ u in c ⁻¹' C, G (c u) ∂l := by
    intro G hG
    unfold mhProb mhTarget
    rw [lintegral_smul_measure, lintegral_map hG h.measc, smul_eq_mul]
  rw [h9 _ m3, lintegral_congr_ae (g := fun _ => 0) h3]
  simp

/-- Convergence from every point of `V`. -/
theorem MHData.converge {x : X} (hx : x ∈ V) {ε : ℝ} (hε : 0 < ε) :
    ∃ n₀ : ℕ, ∀ n ≥ n₀, ∀ f : X → ℝ, Bdd 1 f → |(avg (N.prod unitLaw) (mhMove C P a))^[n] f x - ∫ y, f y ∂(mhProb C l c)| ≤ ε := by
  have := h.prob
  obtain ⟨u, rfl⟩ := h.range x hx
  have := h.jump_finite hx
  exact point_converge (measurable_mhMove h.measC h.measP h.measa) h.balance h.ac (h.stay_lt hx) (h.jump_ac u) (h.step_eq hx) hε

theorem MHData.l1 {M : ℝ} {f : X → ℝ} (hf : Bdd M f) : Tendsto (fun n => ∫ x, |(avg (N.prod unitLaw) (mhMove C P a))^[n] f x -
    ∫ y, f y ∂(mhProb C l c)| ∂(mhProb C l c)) atTop (𝓝 0) := by
  have := h.prob
  exact l1_tendsto (measurable_mhMove h.measC h.measP h.measa) h.balance h.ac hf

end

/-! ## With generator calls -/

section
variable {X Y σ : Type} [MeasurableSpace X] [MeasurableSpace Y] {d : ℕ} {r : Rng ℝ} [MeasurableSpace r.G] {μ : Measure r.G}
  {N : (d : ℕ) → Measure (Fin d → ℝ)} (hs : Source r μ N)
  {C V : Set X} {l : Measure Y} [SFinite l] {c : Y → X} {P : X → (Fin d → ℝ) → X} {a : X → X → ℝ}
  {prop : Y → (Fin d → ℝ) → Y} {q : Y → Y → ℝ≥0∞} (h : MHBase (N d) C V l c P a prop q)
include hs h

omit [SFinite l] in
/-- The moves of an iteration. -/
theorem MHBase.drives : Drives μ ((N d).prod unitLaw) (mhNext r d C P a) (mhMove C P a) :=
  fun F hF x => mhNext_law r μ N hs d h.measC h.measP h.measa F hF x

omit [SFinite l] in
/-- The chain stays where it is well defined, almost surely. -/
theorem MHBase.good (t : ℕ) : ∀ x ∈ V, ∀ᵐ g ∂μ, ∀ p, p = (fun p : X × r.G => mhNext r d C P a p.1 p.2)^[t] (x, g) →
    p.1 ∈ V ∧ (P p.1 (r.gaussian d p.2).1 ∈ V ∨ P p.1 (r.gaussian d p.2).1 ∉ C) := by
  classical
  have := hs.prob
  have := hs.probN d
  have hgm := (hs.gaussian d).measurable
  have hum := hs.uniform.measurable
  have mf := measurable_mhNext r d hgm hum h.measC h.measP h.measa
  have mM := measurable_mhMove h.measC h.measP h.measa
  let S : Set (X × r.G) := {p | p.1 ∈ V ∧ (P p.1 (r.gaussian d p.2).1 ∈ V ∨ P p.1 (r.gaussian d p.2).1 ∉ C)}
  have hz : Measurable fun p : X × r.G => P p.1 (r.gaussian d p.2).1 :=
    h.measP.comp (measurable_fst.prodMk ((measurable_fst.comp hgm).comp measurable_snd))
  have hS : MeasurableSet S := (measurable_fst h.measV).inter ((hz h.measV).union (hz h.measC).compl)
  -- proposals on the bad part of `C` do not occur
  have hnull : ∀ x ∈ V, ∀ᵐ ξ ∂(N d), P x ξ ∈ V ∨ P x ξ ∉ C := by
    intro x hx
    obtain ⟨u, rfl⟩ := h.range x hx
    have hN0 : l (c ⁻¹' C \ c ⁻¹' V) = 0 := ae_le_set.1 h.null.symm.le
    have hD : MeasurableSet (c ⁻¹' C \ c ⁻¹' V) := (h.measc h.measC).diff (h.measc h.measV)
    have h2 : (N d) (prop u ⁻¹' (c ⁻¹' C \ c ⁻¹' V)) = 0 := by
      rw [← Measure.map_apply (h.measprop u hx) hD, h.law u hx]
      exact withDensity_absolutelyContinuous _ _ hN0
    rw [ae_iff]
    refine measure_mono_null ?_ h2
    intro ξ hξ
    have hξ' : ¬ (P (c u) ξ ∈ V ∨ P (c u) ξ ∉ C) := hξ
    rw [← h.lift u hx] at hξ'
    show c (prop u ξ) ∈ C ∧ c (prop u ξ) ∉ V
    tauto
  have key : ∀ x ∈ V, ∀ᵐ g ∂μ, (fun p : X × r.G => mhNext r d C P a p.1 p.2)^[t] (x, g) ∈ S := by
    induction t with
    | zero =>
      intro x hx
      have h1 : ∀ᵐ p ∂((N d).prod μ), P x p.1 ∈ V ∨ P x p.1 ∉ C := by
        have : Measure.QuasiMeasurePreserving (Prod.fst : (Fin d → ℝ) × r.G → _) ((N d).prod μ) (N d) := Measure.quasiMeasurePreserving_fst
        exact this.ae (hnull x hx)
      have h2 := (hs.gaussian d).quasiMeasurePreserving.ae h1
      filter_upwards [h2] with g hg
      exact ⟨hx, hg⟩
    | succ t ih =>
      intro x hx
      have mt : Measurable ((fun p : X × r.G => mhNext r d C P a p.1 p.2)^[t + 1]) := mf.iterate _
      have mt' : Measurable ((fun p : X × r.G => mhNext r d C P a p.1 p.2)^[t]) := mf.iterate _
      have mB : Measurable fun p : X × r.G => Sᶜ.indicator (1 : X × r.G → ℝ≥0∞) ((fun p : X × r.G => mhNext r d C P a p.1 p.2)^[t] p) :=
        (measurable_one.indicator hS.compl).comp mt'
      have hstay : ∀ᵐ w ∂((N d).prod unitLaw), mhMove C P a x w ∈ V := by
        have : Measure.QuasiMeasurePreserving (Prod.fst : (Fin d → ℝ) × ℝ → _) ((N d).prod unitLaw) (N d) := Measure.quasiMeasurePreserving_fst
        filter_upwards [this.ae (hnull x hx)] with w hw
        unfold mhMove
        split_ifs with hc
        · exact hw.resolve_right (fun h => h hc.1)
        · exact hx
      have h1 := h.drives hs _ mB x
      have h2 : ∫⁻ g, Sᶜ.indicator (1 : X × r.G → ℝ≥0∞) ((fun p : X × r.G => mhNext r d C P a p.1 p.2)^[t] (mhNext r d C P a x g)) ∂μ = 0 := by
        rw [h1, lintegral_congr_ae (g := fun _ => 0)]
        · simp
        filter_upwards [hstay] with w hw
        rw [lintegral_congr_ae (g := fun _ => 0)]
        · simp
        filter_upwards [ih _ hw] with g hg
        exact indicator_of_notMem (fun hn : _ ∈ Sᶜ => hn hg) _
      have m2 : Measurable fun g : r.G => Sᶜ.indicator (1 : X × r.G → ℝ≥0∞)
          ((fun p : X × r.G => mhNext r d C P a p.1 p.2)^[t] (mhNext r d C P a x g)) :=
        mB.comp (mf.comp measurable_prodMk_left)
      have h3 := (lintegral_eq_zero_iff m2).1 h2
      filter_upwards [h3] with g hg
      rw [Function.iterate_succ_apply]
      by_contra hn
      have h4 : Sᶜ.indicator (1 : X × r.G → ℝ≥0∞) ((fun p : X × r.G => mhNext r d C P a p.1 p.2)^[t] (mhNext r d C P a x g)) = 0 := hg
      rw [indicator_of_mem (show _ ∈ Sᶜ from hn)] at h4
      simp at h4
  intro x hx
  filter_upwards [key x hx] with g hg p hp
  rw [hp]; exact hg

omit [SFinite l] in
/-- The chain returns, almost surely, and follows `mhNext`. -/
theorem MHBase.iter_ae {start : X → r.G → σ} {step : σ → Out σ}
    (hstep : ∀ x ∈ V, ∀ g, (P x (r.gaussian d g).1 ∈ V ∨ P x (r.gaussian d g).1 ∉ C) →
      step (start x g) = .ok (start (mhNext r d C P a x g).1 (mhNext r d C P a x g).2)) {x : X} (hx : x ∈ V) :
    ∀ᵐ g ∂μ, ∀ t, posAt (mhNext r d C P a) x t g ∈ V ∧ ∃ g', iter step t (start x g) = .ok (start (posAt (mhNext r d C P a) x t g) g') := by
  have hall := ae_all_iff.2 fun t => h.good hs t x hx
  filter_upwards [hall] with g hg t
  refine ⟨(hg t _ rfl).1, ?_⟩
  have hit : ∀ t, iter step t (start x g) = .ok (start ((fun p : X × r.G => mhNext r d C P a p.1 p.2)^[t] (x, g)).1
      ((fun p : X × r.G => mhNext r d C P a p.1 p.2)^[t] (x, g)).2) := by
    intro t
    induction t with
    | zero => rfl
    | succ t ih =>
      obtain ⟨h1, h2⟩ := hg t _ rfl
      rw [iter_fst, ih, Out.ok_bind, hstep _ h1 _ h2, Function.iterate_succ_apply']
  exact ⟨_, hit t⟩

end

end PW

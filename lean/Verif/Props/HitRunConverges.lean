import Verif.Lemmas.Doeblin
import Verif.Lemmas.RayMinorize
import Verif.Props.HitRunBias
import Verif.Lemmas.Follows

/-!
# C60: Hit-and-Run converges from every interior starting point
-/

namespace PW
open Matrix MeasureTheory Set
open scoped ENNReal

/-! ## Transition probabilities -/

section
variable {X V : Type} [MeasurableSpace X] [MeasurableSpace V]

/-- The law of the next position. -/
noncomputable def nextLaw (ν : Measure V) (next : X → V → ℝ → X) (x : X) : Measure X :=
  (ν.prod unitLaw).map fun q => next x q.1 q.2

theorem measurable_next_at {next : X → V → ℝ → X} (hn : Measurable fun p : X × V × ℝ => next p.1 p.2.1 p.2.2) (x : X) :
    Measurable fun q : V × ℝ => next x q.1 q.2 := by
  have h : Measurable fun q : V × ℝ => (x, q) := measurable_const.prodMk measurable_id
  exact hn.comp h

theorem lintegral_nextLaw (ν : Measure V) [SFinite ν] {next : X → V → ℝ → X}
    (hn : Measurable fun p : X × V × ℝ => next p.1 p.2.1 p.2.2) (x : X) {F : X → ℝ≥0∞} (hF : Measurable F) :
    ∫⁻ y, F y ∂(nextLaw ν next x) = ∫⁻ v, ∫⁻ val, F (next x v val) ∂unitLaw ∂ν := by
  unfold nextLaw
  have h := measurable_next_at hn x
  have h2 : Measurable fun q : V × ℝ => F (next x q.1 q.2) := hF.comp h
  rw [lintegral_map hF h, lintegral_prod _ h2.aemeasurable]

theorem iterK_nextLaw (ν : Measure V) [IsProbabilityMeasure ν] {next : X → V → ℝ → X}
    (hn : Measurable fun p : X × V × ℝ => next p.1 p.2.1 p.2.2) {F : X → ℝ≥0∞} (hF : Measurable F) (t : ℕ) :
    iterK (nextLaw ν next) F t = afterSteps ν next F t := by
  induction t with
  | zero => rfl
  | succ t ih =>
    funext x
    show ∫⁻ y, iterK (nextLaw ν next) F t y ∂_ = _
    rw [ih, lintegral_nextLaw ν hn x (measurable_afterSteps ν hn hF t)]
    rfl

theorem chain_nextLaw (ν : Measure V) [IsProbabilityMeasure ν] {next : X → V → ℝ → X}
    (hn : Measurable fun p : X × V × ℝ => next p.1 p.2.1 p.2.2) {K : Set X} (hK : MeasurableSet K)
    (hstay : ∀ x ∈ K, ∀ᵐ v ∂ν, ∀ val ∈ Icc (0 : ℝ) 1, next x v val ∈ K) : Chain (nextLaw ν next) K where
  prob x := Measure.isProbabilityMeasure_map (measurable_next_at hn x).aemeasurable
  meas F hF := by
    have : (fun x => ∫⁻ y, F y ∂(nextLaw ν next x)) = fun x => ∫⁻ v, ∫⁻ val, F (next x v val) ∂unitLaw ∂ν :=
      funext fun x => lintegral_nextLaw ν hn x hF
    rw [this]
    exact measurable_step_expect ν hn hF
  stay x hx := by
    have h := measurable_next_at hn x
    refine (ae_map_iff (p := fun y => y ∈ K) h.aemeasurable hK).2 ?_
    refine (Measure.ae_prod_iff_ae_ae (p := fun q : V × ℝ => next x q.1 q.2 ∈ K) (h hK)).2 ?_
    filter_upwards [hstay x hx] with v hv
    filter_upwards [ae_restrict_mem measurableSet_Icc] with val hval using hv val hval

end

/-- The conclusion in real numbers. -/
theorem real_bound {Z P T b t δ : ℝ≥0∞} (hZ0 : Z ≠ 0) (hZ : Z ≠ ⊤) (hP : P ≠ ⊤) (hT : T ≠ ⊤) (ht : t ≠ ⊤) (hb0 : b ≠ 0) (hb : b ≠ ⊤) (hδ : δ ≠ ⊤)
    (h1 : Z * P ≤ T + (Z * t + b⁻¹ * δ)) (h2 : T ≤ Z * P + (Z * t + b⁻¹ * δ)) :
    |P.toReal - T.toReal / Z.toReal| ≤ t.toReal + δ.toReal / (b.toReal * Z.toReal) := by
  have hbi : b⁻¹ ≠ ⊤ := ENNReal.inv_ne_top.2 hb0
  have f1 : Z * P ≠ ⊤ := ENNReal.mul_ne_top hZ hP
  have f2 : Z * t ≠ ⊤ := ENNReal.mul_ne_top hZ ht
  have f3 : b⁻¹ * δ ≠ ⊤ := ENNReal.mul_ne_top hbi hδ
  have f4 : Z * t + b⁻¹ * δ ≠ ⊤ := ENNReal.add_ne_top.2 ⟨f2, f3⟩
  have g1 := ENNReal.toReal_mono (ENNReal.add_ne_top.2 ⟨hT, f4⟩) h1
  have g2 := ENNReal.toReal_mono (ENNReal.add_ne_top.2 ⟨f1, f4⟩) h2
  rw [ENNReal.toReal_add hT f4, ENNReal.toReal_add f2 f3, ENNReal.toReal_mul, ENNReal.toReal_mul, ENNReal.toReal_mul,
    ENNReal.toReal_inv] at g1
  rw [ENNReal.toReal_add f1 f4, ENNReal.toReal_add f2 f3, ENNReal.toReal_mul, ENNReal.toReal_mul, ENNReal.toReal_mul,
    ENNReal.toReal_inv] at g2
  have hz : 0 < Z.toReal := ENNReal.toReal_pos hZ0 hZ
  have hbp : 0 < b.toReal := ENNReal.toReal_pos hb0 hb
  have e : P.toReal - T.toReal / Z.toReal = (Z.toReal * P.toReal - T.toReal) / Z.toReal := by
    rw [sub_div, mul_div_cancel_left₀ _ hz.ne']
  have e2 : t.toReal + δ.toReal / (b.toReal * Z.toReal) = (Z.toReal * t.toReal + b.toReal⁻¹ * δ.toReal) / Z.toReal := by
    field_simp
  rw [e, e2, abs_div, abs_of_pos hz]
  refine div_le_div_of_nonneg_right ?_ hz.le
  rw [abs_le]
  constructor <;> linarith

/-! ## The dense class -/

section
variable {m n : ℕ}

theorem norm2_smul_nonneg (a : ℝ) (w : Fin n → ℝ) (ha : 0 ≤ a) : norm2 (a • w) = a * norm2 w := by
  rw [norm2_real, norm2_real]
  have e : ∑ i, (a • w) i * (a • w) i = a ^ 2 * ∑ i, w i * w i := by
    rw [Finset.mul_sum]
    exact Finset.sum_congr rfl fun i _ => by simp only [Pi.smul_apply, smul_eq_mul]; ring
  rw [e, Real.sqrt_mul (sq_nonneg a), Real.sqrt_sq ha]

theorem norm2_pos {w : Fin n → ℝ} (hw : w ≠ 0) : 0 < norm2 w := by
  rw [norm2_real, Real.sqrt_pos]
  obtain ⟨i, hi⟩ := Function.ne_iff.1 hw
  exact Finset.sum_pos' (fun i _ => mul_self_nonneg _) ⟨i, Finset.mem_univ i, mul_self_pos.2 hi⟩

theorem norm2_le_of_abs {w : Fin n → ℝ} {B : ℝ} (hB : 0 ≤ B) (h : ∀ i, |w i| ≤ B) : norm2 w ≤ n * B := by
  rw [norm2_real]
  refine Real.sqrt_le_iff.2 ⟨by positivity, ?_⟩
  have h1 : ∑ i, w i * w i ≤ ∑ _i : Fin n, B ^ 2 := Finset.sum_le_sum fun i _ => by
    rw [← abs_mul_abs_self, sq]
    exact mul_le_mul (h i) (h i) (abs_nonneg _) hB
  refine h1.trans ?_
  rw [Finset.sum_const, Finset.card_univ, Fintype.card_fin, nsmul_eq_mul, mul_pow]
  refine mul_le_mul_of_nonneg_right ?_ (sq_nonneg B)
  rcases Nat.eq_zero_or_pos n with h0 | h0
  · simp [h0]
  · have : (1 : ℝ) ≤ n := by exact_mod_cast h0
    nlinarith

theorem norm2_sq (w : Fin n → ℝ) : norm2 w ^ 2 = ∑ i, w i * w i := by
  rw [norm2_real, Real.sq_sqrt (Finset.sum_nonneg fun i _ => mul_self_nonneg _)]

theorem unitVec_norm_le {c : Fin n → ℝ} (hc : IsUnitVec c) : ‖c‖ ≤ 1 := by
  refine (pi_norm_le_iff_of_nonneg zero_le_one).2 fun i => ?_
  rw [Real.norm_eq_abs]
  have h1 : c i * c i ≤ 1 := by
    rw [← show ∑ i, c i * c i = 1 from hc]
    exact Finset.single_le_sum (f := fun i => c i * c i) (fun _ _ => mul_self_nonneg _) (Finset.mem_univ i)
  rw [abs_le]
  constructor <;> nlinarith

/-- Around an interior point, the interior contains a ball with a margin. -/
theorem exists_core {U : Set (Fin n → ℝ)} (hU : IsOpen U) {x₀ : Fin n → ℝ} (hx₀ : x₀ ∈ U) :
    ∃ ρ > 0, ∀ z ∈ Metric.ball x₀ ρ, ∀ u : Fin n → ℝ, ‖u‖ ≤ ρ → z + u ∈ U := by
  obtain ⟨r, hr, hsub⟩ := Metric.isOpen_iff.1 hU x₀ hx₀
  refine ⟨r / 2, by positivity, fun z hz u hu => hsub ?_⟩
  rw [Metric.mem_ball, dist_eq_norm] at hz ⊢
  have e : z + u - x₀ = (z - x₀) + u := by abel
  rw [e]
  exact lt_of_le_of_lt (norm_add_le _ _) (by linarith)

/-- **Minorisation.** -/
theorem hitRun_minorize_dense (hn : 2 ≤ n) (A : Matrix (Fin m) (Fin n) ℝ) (b : Fin m → ℝ) (hx : ∃ x, x ∈ Interior A b)
    (hb : ∃ B, ∀ y ∈ Poly A b, ∀ i, |y i| ≤ B) :
    ∃ (κ : ℝ) (ρ : ℝ) (x₀ : Fin n → ℝ), 0 < κ ∧ 0 < ρ ∧ Metric.ball x₀ ρ ⊆ Interior A b ∧
      ∀ R ERR : ℝ, R ≠ 0 → 0 < ERR → ERR ≤ ρ → ∀ x ∈ Interior A b, ∀ F : (Fin n → ℝ) → ℝ≥0∞, Measurable F →
        ENNReal.ofReal κ * ∫⁻ z in Metric.ball x₀ ρ, F z ≤
          ∫⁻ v, ∫⁻ val, F (hitRunNext R ERR A b x v val) ∂unitLaw ∂(stdNormal n) := by
  obtain ⟨x₀, hx₀⟩ := hx
  obtain ⟨ρ, hρ, hcore⟩ := exists_core (isOpen_interior A b) hx₀
  have hb' := hb
  obtain ⟨B, hB⟩ := hb'
  set D : ℝ := n * (2 * |B|) + 1 with hDdef
  have hD0 : 0 < D := by positivity
  set c₁ : ℝ := Real.sqrt (1 : Matrix (Fin n) (Fin n) ℝ).det * (Real.sqrt (2 * Real.pi))⁻¹ ^ n * Real.exp (-1 / 2) with hc₁
  have hc₁0 : 0 < c₁ := by rw [hc₁, det_one, Real.sqrt_one]; positivity
  have hsub : Metric.ball x₀ ρ ⊆ Interior A b := fun z hz => by
    have := hcore z hz 0 (by rw [norm_zero]; exact hρ.le)
    rwa [add_zero] at this
  refine ⟨D⁻¹ * (c₁ * (2 ^ (n + 1) * D ^ (n - 1))⁻¹), ρ, x₀, by positivity, hρ, hsub, fun R ERR hR hE hEρ x hx F hF => ?_⟩
  have hprob : IsProbabilityMeasure (stdNormal n) := inferInstance
  have hne : ∀ᵐ v ∂(stdNormal n), v ≠ 0 := by
    have : Nonempty (Fin n) := ⟨⟨0, by omega⟩⟩
    have h0 : ∀ᵐ v ∂(volume : Measure (Fin n → ℝ)), v ≠ 0 := by rw [ae_iff]; simp
    exact (stdNormal_ac n).ae_le h0
  have key := hitRun_minorize (stdNormal n) (U := Interior A b) (T₀ := Metric.ball x₀ ρ) (N := norm2) measurable_norm2
    norm2_smul_nonneg (fun w hw => norm2_pos hw) (f := fun z => ENNReal.ofReal (gaussDensity (1 : Matrix (Fin n) (Fin n) ℝ) 0 z))
    (measurable_gaussDensity 1 0).ennreal_ofReal (c₁ := ENNReal.ofReal c₁)
    (fun w hw => ENNReal.ofReal_le_ofReal (gaussDensity_lower (by
      rw [Matrix.one_mulVec]
      have h1 := norm2_sq w
      have h2 : w ⬝ᵥ w = norm2 w ^ 2 := h1.symm
      have h3 : 0 ≤ norm2 w := by rw [norm2_real]; exact Real.sqrt_nonneg _
      rw [h2]; nlinarith)))
    (by omega) (w := fun v => v) measurable_id
    (by rw [Measure.map_id']; exact stdNormal_eq n) (c := unitDir)
    (ae_of_all _ fun v => by funext i; simp only [unitDir, Pi.smul_apply, smul_eq_mul]; rw [div_eq_inv_mul]) hD0
    (fun y hy z hz => by
      refine (norm2_le_of_abs (B := 2 * |B|) (by positivity) fun i => ?_).trans (by rw [hDdef]; linarith)
      have h1 := hB y (interior_subset A b hy) i
      have h2 := hB z (interior_subset A b hz) i
      have h3 := le_abs_self B
      exact (abs_sub _ _).trans (by linarith))
    measurableSet_ball (ε := ERR)
    (by
      filter_upwards [hne] with v hv z hz
      have hu := unitVec_norm_le (normalize_unit v hv)
      have h1 : ‖ERR • unitDir v‖ ≤ ρ := by
        rw [norm_smul, Real.norm_eq_abs, abs_of_pos hE]
        have : ‖unitDir v‖ ≤ 1 := hu
        nlinarith
      refine ⟨hcore z hz _ h1, ?_⟩
      rw [sub_eq_add_neg]
      exact hcore z hz _ (by rwa [norm_neg]))
    hsub hF hx (fun v => ∫⁻ val, F (hitRunNext R ERR A b x v val) ∂unitLaw)
    (by
      filter_upwards [hitRun_ae_segment hn A b x hx hb R ERR hR hE] with v hv
      obtain ⟨p, q, hpq, hin, hout, f0, hf⟩ := hv
      refine ⟨p, q, hpq, hin, fun t ht => ?_, ?_⟩
      · have := hout t (interior_subset A b ht)
        exact ⟨this.1.le, this.2.le⟩
      refine lintegral_congr fun val => ?_
      rw [hitRunNext_eq fun f hf' => hf f hf' Unit val ()])
  rw [ENNReal.ofReal_mul (by positivity), ENNReal.ofReal_mul (by positivity)]
  exact key

theorem hitRun_det (R ERR : ℝ) (f : ℕ) (r : Rng ℝ) (A : Matrix (Fin m) (Fin n) ℝ) (b : Fin m → ℝ) (p s : (Fin n → ℝ) × r.G)
    (h : HitRun.step R ERR f r A b p = .ok s) : s = idealStep r (hitRunNext R ERR A b) p := by
  obtain ⟨x, g⟩ := p
  rw [hitRun_step_draw] at h
  set v := (r.gaussian n g).1
  set val := (r.uniform (r.gaussian n g).2).1
  obtain ⟨p1, h1, h2⟩ := Out.bind_eq_ok.1 h
  obtain ⟨q1, h3, h4⟩ := Out.bind_eq_ok.1 h2
  have hU : hitRunDraw (G := Unit) R ERR f A b x v val () = .ok (fun i => (val * (p1 - q1 * (-1)) + q1 * (-1)) * (v i / norm2 v) + x i, ()) := by
    unfold hitRunDraw
    rw [h1, Out.ok_bind, h3, Out.ok_bind]
  have hnext : hitRunNext R ERR A b x v val = fun i => (val * (p1 - q1 * (-1)) + q1 * (-1)) * (v i / norm2 v) + x i := by
    unfold hitRunNext
    rw [fuelLimit_eq (f0 := f) fun f' hf' => (hitRunDraw_mono R ERR A b x v val ()).ok hU f' hf']
  cases h4
  exact Prod.ext hnext.symm rfl

/-- The call follows the ideal chain, which stays in the interior, almost surely. -/
theorem hitRun_follows (R ERR : ℝ) (hR : R ≠ 0) (hE : 0 < ERR) (e : Env ℝ) [MeasurableSpace e.r.G] (μ : Measure e.r.G)
    (hs : IdealSource e.r μ) (A : Matrix (Fin m) (Fin n) ℝ) (b : Fin m → ℝ) (x : Fin n → ℝ) (niter k burnin thin seed : Int)
    (hn : 2 ≤ n) (hx : x ∈ Interior A b) (hb : ∃ B, ∀ y ∈ Poly A b, ∀ i, |y i| ≤ B) :
    ∀ᵐ g ∂μ, Follows (.hitRun R ERR) e (callArgs A b x niter k burnin thin seed) ⟨rfl, rfl⟩ (idealPos e.r (hitRunNext R ERR A b) x) g ∧
      ∀ t, idealPos e.r (hitRunNext R ERR A b) x t g ∈ Interior A b := by
  have := hs.prob
  have hm := pos_rows_of_bounded (by omega) hb
  have hK := hitRun_next_ae hn R ERR hR hE hb e.r.G
  have hdraw := fun f => hitRunDraw_pmeas (G := e.r.G) hm A b R ERR f measurable_fst (measurable_fst.comp measurable_snd)
      (measurable_fst.comp (measurable_snd.comp measurable_snd)) (measurable_snd.comp (measurable_snd.comp measurable_snd))
  have hret : ∀ᵐ g ∂μ, ∀ t, ∃ f0, ∀ f ≥ f0, ∃ s, iter (HitRun.step R ERR f e.r A b) t (x, g) = .ok s ∧ s.1 ∈ Interior A b :=
    ae_all_iff.2 fun t => iter_returns_ae e.r μ stdNormal hs (Interior A b) (measurableSet_interior A b) _
      (fun f => hitRunDraw R ERR f A b) (fun f x g => hitRun_step_draw R ERR f e.r A b x g) hdraw (by
        intro x hx
        filter_upwards [hK x hx] with v hv val hval
        obtain ⟨h1, f0, h2⟩ := hv val hval
        exact ⟨f0, _, h1, h2⟩) t x hx
  filter_upwards [hret] with g hp
  refine ⟨fun t => ?_, fun t => ?_⟩
  · obtain ⟨f0, h⟩ := hp t
    refine ⟨f0, fun f hf => ?_⟩
    obtain ⟨s, h1, -⟩ := h f hf
    refine ⟨s, ?_, congrArg Prod.fst (iter_ideal (fun p s => hitRun_det R ERR f e.r A b p s) t (x, g) s h1)⟩
    have h2 : (Walk.hitRun R ERR).chain ((e.withGen g).withFuel f) (callArgs A b x niter k burnin thin seed) ⟨rfl, rfl⟩ t =
        iter (HitRun.step R ERR f (e.withGen g).r A b) t (x, (e.withGen g).r.initRng seed (e.withGen g).rd) := rfl
    rw [h2, withGen_init]
    exact (congrArg (fun st => iter st t (x, g)) (withGen_hitRunStep R ERR e g f A b)).trans h1
  · obtain ⟨f0, h⟩ := hp t
    obtain ⟨s, h1, h2⟩ := h f0 le_rfl
    rw [iter_ideal (fun p s => hitRun_det R ERR f0 e.r A b p s) t (x, g) s h1] at h2
    exact h2

theorem volume_poly_lt_top {A : Matrix (Fin m) (Fin n) ℝ} {b : Fin m → ℝ} (hb : ∃ B, ∀ y ∈ Poly A b, ∀ i, |y i| ≤ B) :
    volume (Poly A b) < ⊤ := by
  refine lt_of_le_of_lt (measure_mono fun y hy => ?_) (volume_thicken_lt_top hb 1)
  exact ⟨y, hy, by simp⟩

theorem volume_poly_pos {A : Matrix (Fin m) (Fin n) ℝ} {b : Fin m → ℝ} (hx : ∃ x, x ∈ Interior A b) : 0 < volume (Poly A b) :=
  ((isOpen_interior A b).measure_pos volume hx).trans_le (measure_mono (interior_subset A b))

/-- Expectations converge, from every interior starting point. -/
theorem hitRun_mix_dense (hn : 2 ≤ n) (A : Matrix (Fin m) (Fin n) ℝ) (b : Fin m → ℝ) (hx₀ : ∃ x, x ∈ Interior A b)
    (hb : ∃ B, ∀ y ∈ Poly A b, ∀ i, |y i| ≤ B) :
    ∃ β C ε₀ : ℝ, 0 < β ∧ β ≤ 1 ∧ 0 ≤ C ∧ 0 < ε₀ ∧ ∀ R ERR : ℝ, R ≠ 0 → 0 < ERR → ERR ≤ ε₀ → ∀ x ∈ Interior A b,
      ∀ F : (Fin n → ℝ) → ℝ≥0∞, Measurable F → (∀ x, F x ≤ 1) → ∀ t : ℕ,
        |(afterSteps (stdNormal n) (hitRunNext R ERR A b) F t x).toReal -
          (∫⁻ y, F y ∂(uniformOn A b)).toReal / (uniformOn A b univ).toReal| ≤ (1 - β) ^ t + C * ERR := by
  obtain ⟨κ, ρ, y₀, hκ, hρ, hball, hmin⟩ := hitRun_minorize_dense hn A b hx₀ hb
  have hm := pos_rows_of_bounded (by omega) hb
  have hfin : IsFiniteMeasure (uniformOn A b) := ⟨by rw [uniformOn, Measure.restrict_apply_univ]; exact volume_poly_lt_top hb⟩
  have hZ : uniformOn A b univ = volume (Poly A b) := by rw [uniformOn, Measure.restrict_apply_univ]
  obtain ⟨x₁, hx₁⟩ := hx₀
  let m₀ : Measure (Fin n → ℝ) := ENNReal.ofReal κ • volume.restrict (Metric.ball y₀ ρ)
  have hm₀ : ∀ F : (Fin n → ℝ) → ℝ≥0∞, ∫⁻ z, F z ∂m₀ = ENNReal.ofReal κ * ∫⁻ z in Metric.ball y₀ ρ, F z := fun F => by
    rw [lintegral_smul_measure]; rfl
  have hb1 : m₀ univ ≤ 1 := by
    have h := hmin 1 ρ one_ne_zero hρ le_rfl x₁ hx₁ (fun _ => 1) measurable_const
    rw [← hm₀] at h
    simpa using h
  have hb0 : m₀ univ ≠ 0 := by
    show ENNReal.ofReal κ * volume.restrict (Metric.ball y₀ ρ) univ ≠ 0
    rw [Measure.restrict_apply_univ]
    refine mul_ne_zero (by rw [Ne, ENNReal.ofReal_eq_zero, not_le]; exact hκ) ?_
    exact (Metric.isOpen_ball.measure_pos volume ⟨y₀, Metric.mem_ball_self hρ⟩).ne'
  have hbt : m₀ univ ≠ ⊤ := ne_top_of_le_ne_top ENNReal.one_ne_top hb1
  set V := volume (Thicken (Poly A b) 1) with hV
  have hVt : V < ⊤ := volume_thicken_lt_top hb 1
  refine ⟨(m₀ univ).toReal, V.toReal / ((m₀ univ).toReal * (uniformOn A b univ).toReal), ρ, ENNReal.toReal_pos hb0 hbt,
    ENNReal.toReal_mono ENNReal.one_ne_top hb1, by positivity, hρ, ?_⟩
  intro R ERR hR hE hEρ x hx F hF hF1 t
  have hprob : IsProbabilityMeasure (stdNormal n) := inferInstance
  have mnext := measurable_hitRunNext hm R ERR A b
  have hch := chain_nextLaw (stdNormal n) mnext (measurableSet_interior A b) (fun x hx => by
    filter_upwards [hitRun_next_ae hn R ERR hR hE hb Unit x hx] with v hv val hval using (hv val hval).1)
  have key := hch.converge (π := uniformOn A b) (uniformOn_ae hx₁) (δ := ENNReal.ofReal (ERR / 1) * V)
    (fun F hF h1 => by
      have := hitRun_step_near hn A b ⟨x₁, hx₁⟩ hb R ERR hR hE one_pos hF h1
      simp only [← lintegral_nextLaw (stdNormal n) mnext _ hF] at this
      exact this)
    (m := m₀) (by
      have h1 : ∀ᵐ z ∂(volume.restrict (Metric.ball y₀ ρ)), z ∈ Interior A b := by
        filter_upwards [ae_restrict_mem measurableSet_ball] with z hz using hball hz
      exact Measure.ae_smul_measure h1 _)
    (fun y hy F hF => by
      rw [hm₀, lintegral_nextLaw (stdNormal n) mnext y hF]
      exact hmin R ERR hR hE hEρ y hy F hF)
    hb1 hF hF1 t hx
  rw [iterK_nextLaw (stdNormal n) mnext hF] at key
  have hFt : ∫⁻ y, F y ∂(uniformOn A b) ≠ ⊤ :=
    ne_top_of_le_ne_top (measure_ne_top (uniformOn A b) univ) ((lintegral_mono hF1).trans (by simp))
  have := real_bound (by rw [hZ]; exact (volume_poly_pos ⟨x₁, hx₁⟩).ne') (measure_ne_top _ _)
    (ne_top_of_le_ne_top ENNReal.one_ne_top (afterSteps_le_one (stdNormal n) (hitRunNext R ERR A b) hF1 _ _))
    hFt (ENNReal.pow_ne_top (ENNReal.sub_ne_top ENNReal.one_ne_top)) hb0 hbt
    (ENNReal.mul_ne_top ENNReal.ofReal_ne_top hVt.ne) key.1 key.2
  refine this.trans (le_of_eq ?_)
  rw [ENNReal.toReal_pow, ENNReal.toReal_sub_of_le hb1 ENNReal.one_ne_top, ENNReal.toReal_one, ENNReal.toReal_mul, div_one,
    ENNReal.toReal_ofReal hE.le]
  ring

/-- **C60** (`HitAndRun`): for every bounded polytope of dimension at least two with an interior point there are constants
`β ∈ (0, 1]`, `C` and `ε₀ > 0` such that, with ideal random draws and exact arithmetic, from every interior starting point and for
every tolerance `err ≤ ε₀`, the law of the position after `t` iterations differs from the uniform law by at most
`(1 - β)ᵗ + C · err`. -/
theorem C60_dense (hn : 2 ≤ n) (A : Matrix (Fin m) (Fin n) ℝ) (b : Fin m → ℝ) (hx₀ : ∃ x, x ∈ Interior A b)
    (hb : ∃ B, ∀ y ∈ Poly A b, ∀ i, |y i| ≤ B) :
    ∃ β C ε₀ : ℝ, 0 < β ∧ β ≤ 1 ∧ 0 ≤ C ∧ 0 < ε₀ ∧ ∀ R ERR : ℝ, R ≠ 0 → 0 < ERR → ERR ≤ ε₀ →
      ∀ (e : Env ℝ) [MeasurableSpace e.r.G] (μ : Measure e.r.G), IdealSource e.r μ → ∀ x ∈ Interior A b,
        ∀ (k seed : Int) (t : ℕ), LawWithin (.hitRun R ERR) e μ A b x k seed (uniformOn A b) t ((1 - β) ^ t + C * ERR) := by
  obtain ⟨β, C, ε₀, h1, h2, h3, h4, h5⟩ := hitRun_mix_dense hn A b hx₀ hb
  refine ⟨β, C, ε₀, h1, h2, h3, h4, ?_⟩
  intro R ERR hR hE hEρ e _ μ hs x hx k seed t
  have hm := pos_rows_of_bounded (by omega) hb
  refine LawWithin.of_follows (q := idealPos e.r (hitRunNext R ERR A b) x) (by intro h; cases h)
    (fun niter burnin thin => (hitRun_follows R ERR hR hE e μ hs A b x niter k burnin thin seed hn hx hb).mono fun g h => h.1) fun T hT => ?_
  rw [idealPos_law hs (measurable_hitRunNext hm R ERR A b) x t hT]
  have := h5 R ERR hR hE hEρ x hx (T.indicator 1) (measurable_one.indicator hT) (fun x => by by_cases h : x ∈ T <;> simp [h]) t
  rwa [lintegral_indicator_one hT] at this

end

/-! ## The sparse class -/

section
variable {m n d : ℕ}

theorem kernelBasis_dim {A : Matrix (Fin m) (Fin n) ℝ} {B : Matrix (Fin n) (Fin d) ℝ} (hB : IsKernelBasis A B) (hmn : m + 2 ≤ n) : 1 ≤ d := by
  rcases Nat.eq_zero_or_pos d with h | h
  · exfalso
    obtain ⟨e, he, hAe, -⟩ := exists_tangent A hmn ⟨0, by omega⟩
    obtain ⟨u, hu⟩ := hB.span e hAe
    apply he
    rw [← hu]
    subst h
    funext i
    simp [Matrix.mulVec, dotProduct]
  · exact h

/-- The coordinates of the direction of a sparse Hit-and-Run step. -/
theorem coord_kerDir {A : Matrix (Fin m) (Fin n) ℝ} (hA : IndepRows A) {B : Matrix (Fin n) (Fin d) ℝ} (hB : IsKernelBasis A B)
    (v : Fin n → ℝ) :
    coordMat B *ᵥ kerDir A v = (norm2 (B *ᵥ (coordMat B *ᵥ v)))⁻¹ • (coordMat B *ᵥ v) := by
  set P : Matrix (Fin n) (Fin n) ℝ := 1 - Aᵀ * (A * Aᵀ)⁻¹ * A with hP
  have hBA : Bᵀ * Aᵀ = 0 := by rw [← Matrix.transpose_mul, hB.mul_zero, Matrix.transpose_zero]
  have hCP : coordMat B * P = coordMat B := by
    have : coordMat B * (Aᵀ * (A * Aᵀ)⁻¹ * A) = 0 := by
      rw [coordMat, Matrix.mul_assoc, ← Matrix.mul_assoc Bᵀ, ← Matrix.mul_assoc Bᵀ, hBA, Matrix.zero_mul, Matrix.zero_mul, Matrix.mul_zero]
    rw [hP, Matrix.mul_sub, this, Matrix.mul_one, sub_zero]
  have hker : A *ᵥ (P *ᵥ v) = 0 := by
    rw [Matrix.mulVec_mulVec, hP, projKer_ker (PosDef.isUnit_det hA.posDef), Matrix.zero_mulVec]
  have h1 : coordMat B *ᵥ (P *ᵥ v) = coordMat B *ᵥ v := by rw [Matrix.mulVec_mulVec, hCP]
  have h2 : B *ᵥ (coordMat B *ᵥ v) = P *ᵥ v := by rw [← h1]; exact coordMat_mulVec hB hker
  have h3 : kerDir A v = (norm2 (P *ᵥ v))⁻¹ • (P *ᵥ v) := by
    funext i
    simp only [kerDir, normalize, Pi.smul_apply, smul_eq_mul]
    rw [div_eq_inv_mul]
  rw [h3, Matrix.mulVec_smul, h1, h2]

/-- **Minorisation.** -/
theorem hitRun_minorize_sparse {E : Eigen ℝ} (hL : E.SparseLUExact) {A : Matrix (Fin m) (Fin n) ℝ} (hA : IndepRows A)
    (hmn : m + 2 ≤ n) {k : ℕ} (hk : 1 ≤ k) (hkn : k ≤ n) {x₀ : Fin n → ℝ} (hx₀ : x₀ ∈ TailPos n k) {D : ℝ} (hD0 : 0 < D)
    (hD : ∀ y ∈ PolyEq A (A *ᵥ x₀) k, ∀ z ∈ PolyEq A (A *ᵥ x₀) k, ∑ i, (y i - z i) ^ 2 ≤ D ^ 2)
    {B : Matrix (Fin n) (Fin d) ℝ} (hB : IsKernelBasis A B) :
    ∃ (κ : ℝ) (ρ : ℝ) (ε₀ : ℝ), 0 < κ ∧ 0 < ρ ∧ 0 < ε₀ ∧ (∀ u ∈ Metric.ball (0 : Fin d → ℝ) ρ, chart x₀ B u ∈ TailPos n k) ∧
      ∀ R ERR : ℝ, D < 2 ^ 10000 * |R| → 0 < ERR → ERR ≤ ε₀ → ∀ x, A *ᵥ x = A *ᵥ x₀ → x ∈ TailPos n k →
        ∀ F : (Fin n → ℝ) → ℝ≥0∞, Measurable F →
          ENNReal.ofReal κ * ∫⁻ u in Metric.ball (0 : Fin d → ℝ) ρ, F (chart x₀ B u) ≤
            ∫⁻ v, ∫⁻ val, F (sparseHitRunNext R ERR E A k x v val) ∂unitLaw ∂(stdNormal n) := by
  have hd := kernelBasis_dim hB hmn
  have mch := measurable_chart x₀ B
  let U : Set (Fin d → ℝ) := {u | chart x₀ B u ∈ TailPos n k}
  have hchA : ∀ u, A *ᵥ chart x₀ B u = A *ᵥ x₀ := fun u => by
    show A *ᵥ (x₀ + B *ᵥ u) = _
    rw [Matrix.mulVec_add, Matrix.mulVec_mulVec, hB.mul_zero, Matrix.zero_mulVec, add_zero]
  have hUo : IsOpen U := by
    have : Continuous (chart x₀ B) := continuous_const.add (Continuous.matrix_mulVec continuous_const continuous_id)
    exact (isOpen_tailPos n k).preimage this
  have h0U : (0 : Fin d → ℝ) ∈ U := by
    show x₀ + B *ᵥ 0 ∈ TailPos n k
    rw [Matrix.mulVec_zero, add_zero]; exact hx₀
  obtain ⟨ρ, hρ, hcore⟩ := exists_core hUo h0U
  have hsub : Metric.ball (0 : Fin d → ℝ) ρ ⊆ U := fun z hz => by
    have := hcore z hz 0 (by rw [norm_zero]; exact hρ.le)
    rwa [add_zero] at this
  -- the coordinates of the directions are bounded
  obtain ⟨M, hM0, hM⟩ : ∃ M : ℝ, 0 < M ∧ ∀ u : Fin n → ℝ, IsUnitVec u → ‖coordMat B *ᵥ u‖ ≤ M := by
    refine ⟨∑ i, ∑ j, |coordMat B i j| + 1, by positivity, fun u hu => ?_⟩
    refine (pi_norm_le_iff_of_nonneg (by positivity)).2 fun i => ?_
    have hu1 : ∀ j, |u j| ≤ 1 := fun j => by
      have := (pi_norm_le_iff_of_nonneg zero_le_one).1 (unitVec_norm_le hu) j
      rwa [Real.norm_eq_abs] at this
    rw [Real.norm_eq_abs]
    have h1 : |(coordMat B *ᵥ u) i| ≤ ∑ j, |coordMat B i j| :=
      (Finset.abs_sum_le_sum_abs (fun j => coordMat B i j * u j) Finset.univ).trans
        (Finset.sum_le_sum fun j _ => by rw [abs_mul]; exact mul_le_of_le_one_right (abs_nonneg _) (hu1 j))
    have h2 : ∑ j, |coordMat B i j| ≤ ∑ i, ∑ j, |coordMat B i j| :=
      Finset.single_le_sum (f := fun i => ∑ j, |coordMat B i j|) (fun _ _ => Finset.sum_nonneg fun _ _ => abs_nonneg _) (Finset.mem_univ i)
    linarith
  set P : Matrix (Fin d) (Fin d) ℝ := Bᵀ * B with hP
  have hPpd : P.PosDef := (kernelBasis_indep hB).posDef
  have hPu : IsUnit P.det := PosDef.isUnit_det hPpd
  set c₁ : ℝ := Real.sqrt P.det * (Real.sqrt (2 * Real.pi))⁻¹ ^ d * Real.exp (-1 / 2) with hc₁
  have hc₁0 : 0 < c₁ := by
    have := Real.sqrt_pos.2 hPpd.det_pos
    positivity
  have hlaw : (stdNormal n).map (fun v => coordMat B *ᵥ v) = gaussLaw P 0 := by
    have h1 : P * (coordMat B * (coordMat B)ᵀ) = 1 := by
      have hPt : Pᵀ = P := by rw [hP, Matrix.transpose_mul, Matrix.transpose_transpose]
      rw [coordMat, Matrix.transpose_mul, Matrix.transpose_transpose, Matrix.transpose_nonsing_inv, ← hP, hPt, ← Matrix.mul_assoc,
        ← Matrix.mul_assoc, ← Matrix.mul_assoc, Matrix.mul_nonsing_inv _ hPu, Matrix.one_mul, ← hP, Matrix.mul_nonsing_inv _ hPu]
    have h2 := stdNormal_map (coordMat B) P h1 0
    simpa using h2
  have hnrm : ∀ u : Fin d → ℝ, u ⬝ᵥ P *ᵥ u = norm2 (B *ᵥ u) ^ 2 := fun u => by
    have h1 : norm2 (B *ᵥ u) ^ 2 = B *ᵥ u ⬝ᵥ B *ᵥ u := norm2_sq _
    rw [h1, hP, ← Matrix.mulVec_mulVec, Matrix.dotProduct_mulVec, Matrix.vecMul_transpose]
  refine ⟨D⁻¹ * (c₁ * (2 ^ (d + 1) * D ^ (d - 1))⁻¹), ρ, ρ / M, by positivity, hρ, by positivity, hsub, ?_⟩
  intro R ERR hR hE hEρ x hxA hx F hF
  have hDlt : ∀ y ∈ PolyEq A (A *ᵥ x₀) k, ∀ z ∈ PolyEq A (A *ᵥ x₀) k, ∑ i, (y i - z i) ^ 2 < (2 ^ 10000 * |R|) ^ 2 := by
    intro y hy z hz
    refine lt_of_le_of_lt (hD y hy z hz) ?_
    exact pow_lt_pow_left₀ hR hD0.le two_ne_zero
  have hprob : IsProbabilityMeasure (stdNormal n) := inferInstance
  obtain ⟨y, hy⟩ : ∃ y, chart x₀ B y = x := by
    obtain ⟨y, hy⟩ := hB.span (x - x₀) (by rw [Matrix.mulVec_sub, hxA, sub_self])
    exact ⟨y, by show x₀ + B *ᵥ y = x; rw [hy]; abel⟩
  have hyU : y ∈ U := by show chart x₀ B y ∈ TailPos n k; rw [hy]; exact hx
  let c : (Fin n → ℝ) → Fin d → ℝ := fun v => coordMat B *ᵥ kerDir A v
  have hBc : ∀ v, B *ᵥ c v = kerDir A v := fun v => coordMat_mulVec hB (kerDir_ker hA v)
  have hch : ∀ (u : Fin d → ℝ) (t : ℝ) (v : Fin n → ℝ), chart x₀ B (u + t • c v) = chart x₀ B u + t • kerDir A v := by
    intro u t v
    show x₀ + B *ᵥ (u + t • c v) = x₀ + B *ᵥ u + _
    rw [Matrix.mulVec_add, ← add_assoc, Matrix.mulVec_smul, hBc]
  have hunit := (stdNormal_ac n).ae_le (ae_kerDir_unit A hmn)
  have hcont : Continuous fun u : Fin d → ℝ => B *ᵥ u := Continuous.matrix_mulVec continuous_const continuous_id
  have mN : Measurable fun u : Fin d → ℝ => norm2 (B *ᵥ u) := measurable_norm2.comp hcont.measurable
  have mC : Measurable fun v : Fin n → ℝ => coordMat B *ᵥ v :=
    Continuous.measurable (Continuous.matrix_mulVec continuous_const continuous_id)
  have key := hitRun_minorize (stdNormal n) (U := U) (T₀ := Metric.ball (0 : Fin d → ℝ) ρ) (N := fun u => norm2 (B *ᵥ u)) mN
    (fun a w ha => by rw [Matrix.mulVec_smul]; exact norm2_smul_nonneg a _ ha)
    (fun w hw => norm2_pos fun h => hw (hB.inj w h)) (f := fun z => ENNReal.ofReal (gaussDensity P 0 z))
    (measurable_gaussDensity P 0).ennreal_ofReal (c₁ := ENNReal.ofReal c₁)
    (fun w hw => ENNReal.ofReal_le_ofReal (gaussDensity_lower (by
      have h3 : 0 ≤ norm2 (B *ᵥ w) := by rw [norm2_real]; exact Real.sqrt_nonneg _
      rw [hnrm]; nlinarith)))
    hd (w := fun v => coordMat B *ᵥ v) mC hlaw (c := c) (ae_of_all _ fun v => coord_kerDir hA hB v) hD0
    (fun y hy z hz => by
      have h1 := hD (chart x₀ B y) ⟨hchA y, tailPos_subset n k hy⟩ (chart x₀ B z) ⟨hchA z, tailPos_subset n k hz⟩
      have e : ∑ i, (chart x₀ B y i - chart x₀ B z i) ^ 2 = norm2 (B *ᵥ (y - z)) ^ 2 := by
        rw [norm2_sq]
        refine Finset.sum_congr rfl fun i _ => ?_
        have : (B *ᵥ (y - z)) i = chart x₀ B y i - chart x₀ B z i := by
          rw [Matrix.mulVec_sub]; simp [chart]
        rw [this]; ring
      rw [e] at h1
      exact le_of_sq_le_sq h1 hD0.le)
    measurableSet_ball (ε := ERR)
    (by
      filter_upwards [hunit] with v hv z hz
      have h1 : ‖ERR • c v‖ ≤ ρ := by
        rw [norm_smul, Real.norm_eq_abs, abs_of_pos hE]
        have h2 : ‖c v‖ ≤ M := hM _ hv
        rw [le_div_iff₀ hM0] at hEρ
        exact (mul_le_mul_of_nonneg_left h2 hE.le).trans hEρ
      refine ⟨hcore z hz _ h1, ?_⟩
      rw [sub_eq_add_neg]
      exact hcore z hz _ (by rwa [norm_neg]))
    hsub (hF.comp mch) hyU (fun v => ∫⁻ val, F (sparseHitRunNext R ERR E A k x v val) ∂unitLaw)
    (by
      filter_upwards [sparse_ae_segment hL hA hmn hk hkn R ERR hE hDlt x hxA hx] with v hv
      obtain ⟨p, q, hpq, hin, hout, f0, hf⟩ := hv
      refine ⟨p, q, hpq, fun t h1 h2 => ?_, fun t ht => ?_, ?_⟩
      · show chart x₀ B (y + t • c v) ∈ TailPos n k
        rw [hch, hy]; exact hin t h1 h2
      · have ht' : chart x₀ B (y + t • c v) ∈ TailPos n k := ht
        rw [hch, hy] at ht'
        exact hout t ht'
      · refine lintegral_congr fun val => ?_
        rw [sparseHitRunNext_eq fun f hf' => hf f hf' Unit val ()]
        show _ = F (chart x₀ B _)
        rw [hch, hy])
  rw [ENNReal.ofReal_mul (by positivity), ENNReal.ofReal_mul (by positivity)]
  exact key

theorem sparseHitRun_det (R ERR : ℝ) (f : ℕ) (E : Eigen ℝ) (r : Rng ℝ) (A : Matrix (Fin m) (Fin n) ℝ) (k : ℕ) (p s : (Fin n → ℝ) × r.G)
    (h : SparseHitRun.step R ERR f E r A k p = .ok s) : s = idealStep r (sparseHitRunNext R ERR E A k) p := by
  obtain ⟨x, g⟩ := p
  have h : sparseHitRunDraw R ERR f E A k x (r.gaussian n g).1 (r.uniform (r.gaussian n g).2).1 (r.uniform (r.gaussian n g).2).2 = .ok s := h
  set v := (r.gaussian n g).1
  set val := (r.uniform (r.gaussian n g).2).1
  obtain ⟨p1, h1, h2⟩ := Out.bind_eq_ok.1 h
  obtain ⟨q1, h3, h4⟩ := Out.bind_eq_ok.1 h2
  have hU : sparseHitRunDraw (G := Unit) R ERR f E A k x v val () =
      .ok (fun i => (val * (p1 - -q1) + -q1) * normalize (kernelProject E A v) i + x i, ()) := by
    unfold sparseHitRunDraw
    rw [h1, Out.ok_bind, h3, Out.ok_bind]
  have hnext : sparseHitRunNext R ERR E A k x v val = fun i => (val * (p1 - -q1) + -q1) * normalize (kernelProject E A v) i + x i := by
    unfold sparseHitRunNext
    rw [fuelLimit_eq (f0 := f) fun f' hf' => (sparseHitRunDraw_mono R ERR E A k x v val ()).ok hU f' hf']
  cases h4
  exact Prod.ext hnext.symm rfl

/-- The call follows the ideal chain, which stays in the relative interior, almost surely. -/
theorem sparseHitRun_follows (R ERR : ℝ) (hE : 0 < ERR) {E : Eigen ℝ} (hL : E.SparseLUExact) (e : Env ℝ)
    [MeasurableSpace e.r.G] (μ : Measure e.r.G) (hs : IdealSource e.r μ) {A : Matrix (Fin m) (Fin n) ℝ} (hA : IndepRows A) (hmn : m + 2 ≤ n)
    (b : Fin m → ℝ) (x : Fin n → ℝ) (niter k burnin thin seed : Int) (hk : 1 ≤ k ∧ k ≤ n)
    (hxA : A *ᵥ x = b) (hx : x ∈ TailPos n k.toNat)
    (hD : ∀ y ∈ PolyEq A b k.toNat, ∀ z ∈ PolyEq A b k.toNat, ∑ i, (y i - z i) ^ 2 < (2 ^ 10000 * |R|) ^ 2) :
    ∀ᵐ g ∂μ, Follows (.sparseHitRun R ERR E) e (callArgs A b x niter k burnin thin seed) ⟨rfl, rfl⟩
        (idealPos e.r (sparseHitRunNext R ERR E A k.toNat) x) g ∧
      ∀ t, idealPos e.r (sparseHitRunNext R ERR E A k.toNat) x t g ∈ {x | A *ᵥ x = b} ∩ TailPos n k.toNat := by
  have := hs.prob
  have hk1 : 1 ≤ k.toNat := by omega
  have hkn : k.toNat ≤ n := by omega
  let K : Set (Fin n → ℝ) := {x | A *ᵥ x = b} ∩ TailPos n k.toNat
  have hKm : MeasurableSet K := (measurableSet_eqs A _).inter (measurableSet_tailPos _ _)
  have hxK : x ∈ K := ⟨hxA, hx⟩
  have hK : ∀ x ∈ K, ∀ᵐ v ∂(stdNormal n), ∀ val ∈ Icc (0 : ℝ) 1, sparseHitRunNext R ERR E A k.toNat x v val ∈ K ∧
      ∃ f0, ∀ f ≥ f0, ∀ g : e.r.G, sparseHitRunDraw R ERR f E A k.toNat x v val g =
        .ok (sparseHitRunNext R ERR E A k.toNat x v val, g) := by
    intro x hx
    filter_upwards [sparse_ae_segment hL hA hmn hk1 hkn R ERR hE hD x hx.1 hx.2] with v hv val hval
    obtain ⟨p, q, hpq, hin, -, f0, hf⟩ := hv
    rw [sparseHitRunNext_eq fun f hf' => hf f hf' Unit val ()]
    refine ⟨⟨?_, hin _ (by nlinarith [hval.1]) (by nlinarith [hval.2])⟩, f0, fun f hf' g => hf f hf' _ val g⟩
    show A *ᵥ (x + _ • kerDir A v) = _
    rw [Matrix.mulVec_add, Matrix.mulVec_smul, kerDir_ker hA, smul_zero, add_zero]
    exact hx.1
  have hdraw := fun f => sparseHitRunDraw_pmeas (G := e.r.G) hL hA hk1 hkn R ERR f
  have hret : ∀ᵐ g ∂μ, ∀ t, ∃ f0, ∀ f ≥ f0, ∃ s, iter (SparseHitRun.step R ERR f E e.r A k.toNat) t (x, g) = .ok s ∧ s.1 ∈ K :=
    ae_all_iff.2 fun t => iter_returns_ae e.r μ stdNormal hs K hKm _
      (fun f => sparseHitRunDraw R ERR f E A k.toNat) (fun f x g => rfl) hdraw (by
        intro x hx
        filter_upwards [hK x hx] with v hv val hval
        obtain ⟨h1, f0, h2⟩ := hv val hval
        exact ⟨f0, _, h1, h2⟩) t x hxK
  filter_upwards [hret] with g hp
  refine ⟨fun t => ?_, fun t => ?_⟩
  · obtain ⟨f0, h⟩ := hp t
    refine ⟨f0, fun f hf => ?_⟩
    obtain ⟨s, h1, -⟩ := h f hf
    refine ⟨s, ?_, congrArg Prod.fst (iter_ideal (fun p s => sparseHitRun_det R ERR f E e.r A k.toNat p s) t (x, g) s h1)⟩
    have h2 : (Walk.sparseHitRun R ERR E).chain ((e.withGen g).withFuel f) (callArgs A b x niter k burnin thin seed) ⟨rfl, rfl⟩ t =
        iter (SparseHitRun.step R ERR f E (e.withGen g).r A k.toNat) t (x, (e.withGen g).r.initRng seed (e.withGen g).rd) := rfl
    rw [h2, withGen_init]
    exact (congrArg (fun st => iter st t (x, g)) (withGen_sparseHitRunStep R ERR E e g f A k.toNat)).trans h1
  · obtain ⟨f0, h⟩ := hp t
    obtain ⟨s, h1, h2⟩ := h f0 le_rfl
    rw [iter_ideal (fun p s => sparseHitRun_det R ERR f0 E e.r A k.toNat p s) t (x, g) s h1] at h2
    exact h2

/-- Expectations converge, from every starting point in the relative interior. -/
theorem hitRun_mix_sparse {E : Eigen ℝ} (hL : E.SparseLUExact) {A : Matrix (Fin m) (Fin n) ℝ} (hA : IndepRows A) (hmn : m + 2 ≤ n)
    (k : Int) (hk : 1 ≤ k ∧ k ≤ n) (b : Fin m → ℝ) (x₀ : Fin n → ℝ) (hx₀A : A *ᵥ x₀ = b) (hx₀ : x₀ ∈ TailPos n k.toNat) (D : ℝ)
    (hD : ∀ y ∈ PolyEq A b k.toNat, ∀ z ∈ PolyEq A b k.toNat, ∑ i, (y i - z i) ^ 2 ≤ D ^ 2)
    (B : Matrix (Fin n) (Fin d) ℝ) (hB : IsKernelBasis A B) :
    ∃ β C ε₀ : ℝ, 0 < β ∧ β ≤ 1 ∧ 0 ≤ C ∧ 0 < ε₀ ∧ ∀ R ERR : ℝ, |D| < 2 ^ 10000 * |R| → 0 < ERR → ERR ≤ ε₀ →
      (∀ y ∈ PolyEq A b k.toNat, ∀ z ∈ PolyEq A b k.toNat, ∑ i, (y i - z i) ^ 2 < (2 ^ 10000 * |R|) ^ 2) ∧
      ∀ x, A *ᵥ x = b → x ∈ TailPos n k.toNat → ∀ F : (Fin n → ℝ) → ℝ≥0∞, Measurable F → (∀ x, F x ≤ 1) → ∀ t : ℕ,
        |(afterSteps (stdNormal n) (sparseHitRunNext R ERR E A k.toNat) F t x).toReal -
          (∫⁻ y, F y ∂(uniformOnEq x₀ B k.toNat)).toReal / (uniformOnEq x₀ B k.toNat univ).toReal| ≤ (1 - β) ^ t + C * ERR := by
  have hk1 : 1 ≤ k.toNat := by omega
  have hkn : k.toNat ≤ n := by omega
  subst hx₀A
  set κ' := k.toNat with hκ'
  let K : Set (Fin n → ℝ) := {x | A *ᵥ x = A *ᵥ x₀} ∩ TailPos n κ'
  have hKm : MeasurableSet K := (measurableSet_eqs A _).inter (measurableSet_tailPos _ _)
  have hDa : ∀ y ∈ PolyEq A (A *ᵥ x₀) κ', ∀ z ∈ PolyEq A (A *ᵥ x₀) κ', ∑ i, (y i - z i) ^ 2 ≤ |D| ^ 2 := by
    intro y hy z hz; rw [sq_abs]; exact hD y hy z hz
  -- two different points
  have hD0 : 0 < |D| := by
    obtain ⟨e, he, hAe, -⟩ := exists_tangent A hmn ⟨0, by omega⟩
    have hcont : Continuous fun t : ℝ => x₀ + t • e := by fun_prop
    have ho : IsOpen {t : ℝ | x₀ + t • e ∈ TailPos n κ'} := (isOpen_tailPos n κ').preimage hcont
    obtain ⟨r, hr, hsub⟩ := Metric.isOpen_iff.1 ho 0 (by simpa using hx₀)
    have hmem : x₀ + (r / 2) • e ∈ TailPos n κ' := hsub (by rw [Metric.mem_ball, dist_zero_right, Real.norm_eq_abs, abs_of_pos (by positivity)]; linarith)
    have h1 := hDa _ ⟨by rw [Matrix.mulVec_add, Matrix.mulVec_smul, hAe, smul_zero, add_zero], tailPos_subset _ _ hmem⟩ x₀
      ⟨rfl, tailPos_subset _ _ hx₀⟩
    obtain ⟨i, hi⟩ := Function.ne_iff.1 he
    have h2 : 0 < ∑ i, ((x₀ + (r / 2) • e) i - x₀ i) ^ 2 := by
      refine Finset.sum_pos' (fun i _ => sq_nonneg _) ⟨i, Finset.mem_univ i, ?_⟩
      have : (x₀ + (r / 2) • e) i - x₀ i = r / 2 * e i := by simp
      rw [this]
      have hi' : e i ≠ 0 := hi
      positivity
    by_contra h
    have h3 : |D| = 0 := le_antisymm (not_lt.1 h) (abs_nonneg D)
    rw [h3] at h1
    simp only [ne_eq, OfNat.ofNat_ne_zero, not_false_eq_true, zero_pow] at h1
    linarith
  have hbd : ∃ M, ∀ y ∈ PolyEq A (A *ᵥ x₀) κ', ∀ i, |y i| ≤ M := by
    refine ⟨|D| + ∑ i, |x₀ i|, fun z hz i => ?_⟩
    have h1 := hDa z hz x₀ ⟨rfl, tailPos_subset _ _ hx₀⟩
    have h2 : (z i - x₀ i) ^ 2 ≤ |D| ^ 2 :=
      (Finset.single_le_sum (f := fun i => (z i - x₀ i) ^ 2) (fun _ _ => sq_nonneg _) (Finset.mem_univ i)).trans h1
    have h3 : |z i - x₀ i| ≤ |D| := (sq_le_sq.1 h2).trans (abs_abs D).le
    have h4 : |x₀ i| ≤ ∑ i, |x₀ i| := Finset.single_le_sum (f := fun i => |x₀ i|) (fun _ _ => abs_nonneg _) (Finset.mem_univ i)
    have h5 : z i = (z i - x₀ i) + x₀ i := by ring
    rw [h5]
    exact (abs_add_le _ _).trans (add_le_add h3 h4)
  obtain ⟨κ, ρ, ε₀, hκ, hρ, hε₀, hball, hmin⟩ := hitRun_minorize_sparse hL hA hmn hk1 hkn hx₀ hD0 hDa hB
  have mch := measurable_chart x₀ B
  have hchA : ∀ u, A *ᵥ chart x₀ B u = A *ᵥ x₀ := fun u => by
    show A *ᵥ (x₀ + B *ᵥ u) = _
    rw [Matrix.mulVec_add, Matrix.mulVec_mulVec, hB.mul_zero, Matrix.zero_mulVec, add_zero]
  set V := volume {u | chart x₀ B u ∈ Thicken (PolyEq A (A *ᵥ x₀) κ') 1} with hV
  have hVt : V < ⊤ := volume_chart_thicken_lt_top hB x₀ hbd 1
  have hZ : uniformOnEq x₀ B κ' univ = volume {u : Fin d → ℝ | chart x₀ B u ∈ TailNonneg n κ'} := by
    rw [uniformOnEq, Measure.map_apply mch MeasurableSet.univ, preimage_univ, Measure.restrict_apply_univ]
  have hZt : uniformOnEq x₀ B κ' univ < ⊤ := by
    rw [hZ]
    refine lt_of_le_of_lt (measure_mono fun u hu => ?_) hVt
    exact ⟨chart x₀ B u, ⟨hchA u, hu⟩, by simp⟩
  have hZ0 : uniformOnEq x₀ B κ' univ ≠ 0 := by
    rw [hZ]
    refine (lt_of_lt_of_le (Metric.isOpen_ball.measure_pos volume ⟨(0 : Fin d → ℝ), Metric.mem_ball_self hρ⟩)
      (measure_mono fun u hu => ?_)).ne'
    exact tailPos_subset _ _ (hball u hu)
  have hfin : IsFiniteMeasure (uniformOnEq x₀ B κ') := ⟨hZt⟩
  let m₀ : Measure (Fin n → ℝ) := ENNReal.ofReal κ • (volume.restrict (Metric.ball (0 : Fin d → ℝ) ρ)).map (chart x₀ B)
  have hm₀ : ∀ F : (Fin n → ℝ) → ℝ≥0∞, Measurable F →
      ∫⁻ z, F z ∂m₀ = ENNReal.ofReal κ * ∫⁻ u in Metric.ball (0 : Fin d → ℝ) ρ, F (chart x₀ B u) := fun F hF => by
    rw [lintegral_smul_measure, lintegral_map hF mch]; rfl
  obtain ⟨R₁, hR₁⟩ : ∃ R : ℝ, |D| < 2 ^ 10000 * |R| := by
    refine ⟨|D|, ?_⟩
    rw [abs_abs]
    have : (1 : ℝ) < 2 ^ 10000 := one_lt_pow₀ one_lt_two (by norm_num)
    exact lt_mul_of_one_lt_left hD0 this
  have hb1 : m₀ univ ≤ 1 := by
    have h := hmin R₁ ε₀ hR₁ hε₀ le_rfl x₀ rfl hx₀ (fun _ => 1) measurable_const
    rw [← hm₀ (fun _ => 1) measurable_const] at h
    simpa using h
  have hm₀u : m₀ univ = ENNReal.ofReal κ * volume (Metric.ball (0 : Fin d → ℝ) ρ) := by
    have := hm₀ (fun _ => 1) measurable_const
    simpa using this
  have hb0 : m₀ univ ≠ 0 := by
    rw [hm₀u]
    refine mul_ne_zero (by rw [Ne, ENNReal.ofReal_eq_zero, not_le]; exact hκ) ?_
    exact (Metric.isOpen_ball.measure_pos volume ⟨(0 : Fin d → ℝ), Metric.mem_ball_self hρ⟩).ne'
  have hbt : m₀ univ ≠ ⊤ := ne_top_of_le_ne_top ENNReal.one_ne_top hb1
  refine ⟨(m₀ univ).toReal, V.toReal / ((m₀ univ).toReal * (uniformOnEq x₀ B κ' univ).toReal), ε₀, ENNReal.toReal_pos hb0 hbt,
    ENNReal.toReal_mono ENNReal.one_ne_top hb1, by positivity, hε₀, ?_⟩
  intro R ERR hR hE hEρ
  have hDlt : ∀ y ∈ PolyEq A (A *ᵥ x₀) κ', ∀ z ∈ PolyEq A (A *ᵥ x₀) κ', ∑ i, (y i - z i) ^ 2 < (2 ^ 10000 * |R|) ^ 2 := by
    intro y hy z hz
    exact lt_of_le_of_lt (hDa y hy z hz) (pow_lt_pow_left₀ hR hD0.le two_ne_zero)
  refine ⟨hDlt, ?_⟩
  intro x hxA hx F hF hF1 t
  have hprob : IsProbabilityMeasure (stdNormal n) := inferInstance
  have mnext := measurable_sparseHitRunNext hL hA hk1 hkn R ERR
  have hstay : ∀ x ∈ K, ∀ᵐ v ∂(stdNormal n), ∀ val ∈ Icc (0 : ℝ) 1, sparseHitRunNext R ERR E A κ' x v val ∈ K := by
    intro x hx
    filter_upwards [sparse_ae_segment hL hA hmn hk1 hkn R ERR hE hDlt x hx.1 hx.2] with v hv val hval
    obtain ⟨p, q, hpq, hin, -, f0, hf⟩ := hv
    rw [sparseHitRunNext_eq fun f hf' => hf f hf' Unit val ()]
    refine ⟨?_, hin _ (by nlinarith [hval.1]) (by nlinarith [hval.2])⟩
    show A *ᵥ (x + _ • kerDir A v) = _
    rw [Matrix.mulVec_add, Matrix.mulVec_smul, kerDir_ker hA, smul_zero, add_zero]
    exact hx.1
  have hnear : ∀ F : (Fin n → ℝ) → ℝ≥0∞, Measurable F → (∀ x, F x ≤ 1) → _ := fun F hF h1 =>
    sparse_step_near hL hA hmn hk1 hkn R ERR hE hx₀ hDlt hB one_pos hF h1
  have hmin' := hmin R ERR hR hE hEρ
  generalize sparseHitRunNext R ERR E A κ' = next at mnext hstay hnear hmin' ⊢
  have hch := chain_nextLaw (stdNormal n) mnext hKm hstay
  have key := hch.converge (π := uniformOnEq x₀ B κ') (chart_ae B hx₀ hB.mul_zero) (δ := ENNReal.ofReal (ERR / 1) * V)
    (fun F hF h1 => by
      have := hnear F hF h1
      simp only [← lintegral_nextLaw (stdNormal n) mnext _ hF] at this
      exact this)
    (m := m₀) (by
      have h1 : ∀ᵐ z ∂((volume.restrict (Metric.ball (0 : Fin d → ℝ) ρ)).map (chart x₀ B)), z ∈ K := by
        refine (ae_map_iff (p := fun z => z ∈ K) mch.aemeasurable hKm).2 ?_
        filter_upwards [ae_restrict_mem measurableSet_ball] with u hu using ⟨hchA u, hball u hu⟩
      exact Measure.ae_smul_measure h1 _)
    (fun y hy F hF => by
      rw [hm₀ F hF, lintegral_nextLaw (stdNormal n) mnext y hF]
      exact hmin' y hy.1 hy.2 F hF)
    hb1 hF hF1 t (x := x) ⟨hxA, hx⟩
  rw [iterK_nextLaw (stdNormal n) mnext hF] at key
  have hFt : ∫⁻ y, F y ∂(uniformOnEq x₀ B κ') ≠ ⊤ :=
    ne_top_of_le_ne_top (measure_ne_top (uniformOnEq x₀ B κ') univ) ((lintegral_mono hF1).trans (by simp))
  have := real_bound hZ0 (measure_ne_top _ _)
    (ne_top_of_le_ne_top ENNReal.one_ne_top (afterSteps_le_one (stdNormal n) next hF1 _ _))
    hFt (ENNReal.pow_ne_top (ENNReal.sub_ne_top ENNReal.one_ne_top)) hb0 hbt
    (ENNReal.mul_ne_top ENNReal.ofReal_ne_top hVt.ne) key.1 key.2
  refine this.trans (le_of_eq ?_)
  rw [ENNReal.toReal_pow, ENNReal.toReal_sub_of_le hb1 ENNReal.one_ne_top, ENNReal.toReal_one, ENNReal.toReal_mul, div_one,
    ENNReal.toReal_ofReal hE.le]
  ring

/-- **C60** (`SparseHitAndRun`): for independent rows, at least two more columns and a polytope of diameter `D` with a point `x₀`
whose constrained coordinates are positive there are constants `β ∈ (0, 1]`, `C` and `ε₀ > 0` such that, with ideal random
draws and exact arithmetic, for every `r` with `D < 2¹⁰⁰⁰⁰ r`, every tolerance `err ≤ ε₀` and from every starting point in the relative
interior, the law of the position after `t` iterations differs from the uniform law by at most `(1 - β)ᵗ + C · err`. -/
theorem C60_sparse {E : Eigen ℝ} (hL : E.SparseLUExact) {A : Matrix (Fin m) (Fin n) ℝ} (hA : IndepRows A) (hmn : m + 2 ≤ n)
    (k : Int) (hk : 1 ≤ k ∧ k ≤ n) (b : Fin m → ℝ) (x₀ : Fin n → ℝ) (hx₀A : A *ᵥ x₀ = b) (hx₀ : x₀ ∈ TailPos n k.toNat) (D : ℝ)
    (hD : ∀ y ∈ PolyEq A b k.toNat, ∀ z ∈ PolyEq A b k.toNat, ∑ i, (y i - z i) ^ 2 ≤ D ^ 2)
    (B : Matrix (Fin n) (Fin d) ℝ) (hB : IsKernelBasis A B) :
    ∃ β C ε₀ : ℝ, 0 < β ∧ β ≤ 1 ∧ 0 ≤ C ∧ 0 < ε₀ ∧ ∀ R ERR : ℝ, |D| < 2 ^ 10000 * |R| → 0 < ERR → ERR ≤ ε₀ →
      ∀ (e : Env ℝ) [MeasurableSpace e.r.G] (μ : Measure e.r.G), IdealSource e.r μ →
        ∀ x, A *ᵥ x = b → x ∈ TailPos n k.toNat → ∀ (seed : Int) (t : ℕ),
          LawWithin (.sparseHitRun R ERR E) e μ A b x k seed (uniformOnEq x₀ B k.toNat) t ((1 - β) ^ t + C * ERR) := by
  obtain ⟨β, C, ε₀, h1, h2, h3, h4, h5⟩ := hitRun_mix_sparse hL hA hmn k hk b x₀ hx₀A hx₀ D hD B hB
  refine ⟨β, C, ε₀, h1, h2, h3, h4, ?_⟩
  intro R ERR hR hE hEρ e _ μ hs x hxA hx seed t
  obtain ⟨hDlt, h6⟩ := h5 R ERR hR hE hEρ
  refine LawWithin.of_follows (q := idealPos e.r (sparseHitRunNext R ERR E A k.toNat) x) (fun _ => hk)
    (fun niter burnin thin => (sparseHitRun_follows R ERR hE hL e μ hs hA hmn b x niter k burnin thin seed hk hxA hx hDlt).mono fun g h => h.1)
    fun T hT => ?_
  rw [idealPos_law hs (measurable_sparseHitRunNext hL hA (by omega) (by omega) R ERR) x t hT]
  have := h6 x hxA hx (T.indicator 1) (measurable_one.indicator hT) (fun x => by by_cases h : x ∈ T <;> simp [h]) t
  rwa [lintegral_indicator_one hT] at this

end

/-! ## Limits -/

section
variable {m n d : ℕ}

theorem small_of_rate {β C ε₀ ε : ℝ} (hβ : 0 < β) (hβ1 : β ≤ 1) (hC : 0 ≤ C) (hε₀ : 0 < ε₀) (hε : 0 < ε) :
    ∃ η, 0 < η ∧ η ≤ ε₀ ∧ ∃ t₀ : ℕ, ∀ ERR, 0 < ERR → ERR ≤ η → ∀ t ≥ t₀, (1 - β) ^ t + C * ERR ≤ ε := by
  obtain ⟨t₀, ht₀⟩ := exists_pow_lt_of_lt_one (half_pos hε) (show 1 - β < 1 by linarith)
  refine ⟨min ε₀ (ε / (2 * (C + 1))), lt_min hε₀ (by positivity), min_le_left _ _, t₀, fun ERR hE hη t ht => ?_⟩
  have h1 : (1 - β) ^ t ≤ ε / 2 := (pow_le_pow_of_le_one (by linarith) (by linarith) ht).trans ht₀.le
  have h2 : ERR ≤ ε / (2 * (C + 1)) := hη.trans (min_le_right _ _)
  have h3 : C * ERR ≤ ε / 2 := by
    calc C * ERR ≤ (C + 1) * (ε / (2 * (C + 1))) := mul_le_mul (by linarith) h2 hE.le (by linarith)
      _ = ε / 2 := by field_simp
  linarith

/-- **C60** (`HitAndRun`, limit): for a small enough tolerance and after enough iterations the position, and every row a call records from
then on, is as close to uniform as required, whatever the interior starting point. -/
theorem C60_dense_limit (hn : 2 ≤ n) (A : Matrix (Fin m) (Fin n) ℝ) (b : Fin m → ℝ) (hx₀ : ∃ x, x ∈ Interior A b)
    (hb : ∃ B, ∀ y ∈ Poly A b, ∀ i, |y i| ≤ B) (ε : ℝ) (hε : 0 < ε) :
    ∃ η > 0, ∃ t₀ : ℕ, ∀ R ERR : ℝ, R ≠ 0 → 0 < ERR → ERR ≤ η →
      ∀ (e : Env ℝ) [MeasurableSpace e.r.G] (μ : Measure e.r.G), IdealSource e.r μ → ∀ x ∈ Interior A b,
        ∀ k seed : Int, ∀ t ≥ t₀, LawWithin (.hitRun R ERR) e μ A b x k seed (uniformOn A b) t ε := by
  obtain ⟨β, C, ε₀, h1, h2, h3, h4, h5⟩ := C60_dense hn A b hx₀ hb
  obtain ⟨η, hη, hη₀, t₀, ht⟩ := small_of_rate h1 h2 h3 h4 hε
  refine ⟨η, hη, t₀, ?_⟩
  intro R ERR hR hE hEη e _ μ hs x hx k seed t htt
  exact (h5 R ERR hR hE (hEη.trans hη₀) e μ hs x hx k seed t).mono (ht ERR hE hEη t htt)

/-- **C60** (`SparseHitAndRun`, limit). -/
theorem C60_sparse_limit {E : Eigen ℝ} (hL : E.SparseLUExact) {A : Matrix (Fin m) (Fin n) ℝ} (hA : IndepRows A) (hmn : m + 2 ≤ n)
    (k : Int) (hk : 1 ≤ k ∧ k ≤ n) (b : Fin m → ℝ) (x₀ : Fin n → ℝ) (hx₀A : A *ᵥ x₀ = b) (hx₀ : x₀ ∈ TailPos n k.toNat) (D : ℝ)
    (hD : ∀ y ∈ PolyEq A b k.toNat, ∀ z ∈ PolyEq A b k.toNat, ∑ i, (y i - z i) ^ 2 ≤ D ^ 2)
    (B : Matrix (Fin n) (Fin d) ℝ) (hB : IsKernelBasis A B) (ε : ℝ) (hε : 0 < ε) :
    ∃ η > 0, ∃ t₀ : ℕ, ∀ R ERR : ℝ, |D| < 2 ^ 10000 * |R| → 0 < ERR → ERR ≤ η →
      ∀ (e : Env ℝ) [MeasurableSpace e.r.G] (μ : Measure e.r.G), IdealSource e.r μ →
        ∀ x, A *ᵥ x = b → x ∈ TailPos n k.toNat → ∀ seed : Int, ∀ t ≥ t₀,
          LawWithin (.sparseHitRun R ERR E) e μ A b x k seed (uniformOnEq x₀ B k.toNat) t ε := by
  obtain ⟨β, C, ε₀, h1, h2, h3, h4, h5⟩ := C60_sparse hL hA hmn k hk b x₀ hx₀A hx₀ D hD B hB
  obtain ⟨η, hη, hη₀, t₀, ht⟩ := small_of_rate h1 h2 h3 h4 hε
  refine ⟨η, hη, t₀, ?_⟩
  intro R ERR hR hE hEη e _ μ hs x hxA hx seed t htt
  exact (h5 R ERR hR hE (hEη.trans hη₀) e μ hs x hxA hx seed t).mono (ht ERR hE hEη t htt)

end

/-! ## Concrete cases -/

/-- On the square, from every point of the open square: the position after `t ≥ t₀` iterations, and burnt-in samples, within `ε` of uniform. -/
example (ε : ℝ) (hε : 0 < ε) : ∃ η > 0, ∃ t₀ : ℕ, ∀ ERR, 0 < ERR → ERR ≤ η → ∀ x ∈ Interior squareArgs.A.val (squareArgs.b.at (h := rfl)),
    (∀ t ≥ t₀, ∀ T : Set (Fin 2 → ℝ), MeasurableSet T →
      |(pathProb (.hitRun (1 / 2) ERR) streamEnv streamLaw
        (callArgs squareArgs.A.val (squareArgs.b.at (h := rfl)) x 100 0 0 1 7) ⟨rfl, rfl⟩ {p | p t ∈ T}).toReal -
          share (uniformOn squareArgs.A.val (squareArgs.b.at (h := rfl))) T| ≤ ε) ∧
    ∀ burnin : ℕ, t₀ ≤ burnin → burnin < 10 ^ 9 → ∀ j : ℕ, j < 100 → ∀ T : Set (Fin 2 → ℝ), MeasurableSet T →
      |(rowProb (.hitRun (1 / 2) ERR) streamEnv streamLaw
        (callArgs squareArgs.A.val (squareArgs.b.at (h := rfl)) x (burnin + 100) 0 burnin 1 7) j T).toReal -
          share (uniformOn squareArgs.A.val (squareArgs.b.at (h := rfl))) T| ≤ ε := by
  obtain ⟨η, hη, t₀, h⟩ := C60_dense_limit (le_refl 2) squareArgs.A.val (squareArgs.b.at (h := rfl)) squareArgs_interior
    ⟨1, fun y hy => (squareArgs_mem y).1 hy⟩ ε hε
  refine ⟨η, hη, t₀, fun ERR h1 h2 x hx => ?_⟩
  have h := h (1 / 2) ERR (by norm_num) h1 h2 streamEnv streamLaw streamRng_ideal x hx 0 7
  refine ⟨fun t ht T hT => (h t ht 100 0 1 T hT).1, fun burnin h3 h4 j hj T hT => ?_⟩
  refine (h (burnin + j + 1) (by omega) (burnin + 100) burnin 1 T hT).2 ⟨?_, ?_, ?_, ?_, ?_⟩ j ?_ ?_
  pick_goal 7
  · unfold rowTime; omega
  all_goals first | omega | (simp only [intMax]; omega) | (rw [Int.ediv_one]; omega)

theorem simplex_box (y : Fin 3 → ℝ) (hy : y ∈ PolyEq ones3 (fun _ => 1) 3) (i : Fin 3) : 0 ≤ y i ∧ y i ≤ 1 := by
  obtain ⟨hy, hp⟩ := hy
  have h := congrFun hy 0
  simp [Matrix.mulVec, dotProduct, Fin.sum_univ_three, ones3] at h
  have p0 : 0 ≤ y 0 := hp 0 (by simp)
  have p1 : 0 ≤ y 1 := hp 1 (by simp)
  have p2 : 0 ≤ y 2 := hp 2 (by simp)
  fin_cases i <;> constructor <;> simp <;> linarith

theorem simplex_diam (y : Fin 3 → ℝ) (hy : y ∈ PolyEq ones3 (fun _ => 1) 3) (z : Fin 3 → ℝ) (hz : z ∈ PolyEq ones3 (fun _ => 1) 3) :
    ∑ i, (y i - z i) ^ 2 ≤ 2 ^ 2 := by
  have h1 : ∀ i : Fin 3, (y i - z i) ^ 2 ≤ 1 := fun i => by
    have := simplex_box y hy i; have := simplex_box z hz i
    nlinarith
  rw [Fin.sum_univ_three]
  linarith [h1 0, h1 1, h1 2]

theorem simplex_start : ones3 *ᵥ (fun _ => 1 / 3) = fun _ => 1 := by
  funext i
  simp [Matrix.mulVec, dotProduct, Fin.sum_univ_three, ones3]

/-- On the simplex, from every point with positive coordinates: the position after `t ≥ t₀` iterations, and burnt-in samples. -/
example (E : Eigen ℝ) (hE : E.SparseLUExact) (ε : ℝ) (hε : 0 < ε) : ∃ η > 0, ∃ t₀ : ℕ, ∀ ERR, 0 < ERR → ERR ≤ η →
    ∀ x : Fin 3 → ℝ, ones3 *ᵥ x = (fun _ => 1) → x ∈ TailPos 3 3 →
      (∀ t ≥ t₀, ∀ T : Set (Fin 3 → ℝ), MeasurableSet T →
        |(pathProb (.sparseHitRun 2 ERR E) streamEnv streamLaw (callArgs ones3 (fun _ => 1) x 100 3 0 1 7) ⟨rfl, rfl⟩ {p | p t ∈ T}).toReal -
            share (uniformOnEq (fun _ => 1 / 3) simplexBasis 3) T| ≤ ε) ∧
      ∀ burnin : ℕ, t₀ ≤ burnin → burnin < 10 ^ 9 → ∀ j : ℕ, j < 100 → ∀ T : Set (Fin 3 → ℝ), MeasurableSet T →
        |(rowProb (.sparseHitRun 2 ERR E) streamEnv streamLaw
          (callArgs ones3 (fun _ => 1) x (burnin + 100) 3 burnin 1 7) j T).toReal -
            share (uniformOnEq (fun _ => 1 / 3) simplexBasis 3) T| ≤ ε := by
  obtain ⟨η, hη, t₀, h⟩ := C60_sparse_limit hE ones3_indep (by decide) 3 ⟨by decide, by decide⟩ (fun _ => 1) (fun _ => 1 / 3)
    simplex_start (by intro i _; show (0 : ℝ) < 1 / 3; norm_num) 2 simplex_diam simplexBasis ones3_kernel ε hε
  refine ⟨η, hη, t₀, fun ERR h1 h2 x hxA hx => ?_⟩
  have h := h 2 ERR (by
    have h3 : (1 : ℝ) < 2 ^ 10000 := one_lt_pow₀ one_lt_two (by norm_num)
    rw [abs_two]
    generalize (2 : ℝ) ^ 10000 = c at h3
    linarith) h1 h2 streamEnv streamLaw streamRng_ideal x hxA hx 7
  refine ⟨fun t ht T hT => (h t ht 100 0 1 T hT).1, fun burnin h3 h4 j hj T hT => ?_⟩
  refine (h (burnin + j + 1) (by omega) (burnin + 100) burnin 1 T hT).2 ⟨?_, ?_, ?_, ?_, ?_⟩ j ?_ ?_
  pick_goal 7
  · unfold rowTime; omega
  all_goals first | omega | (simp only [intMax]; omega) | (rw [Int.ediv_one]; omega)

end PW

import Verif.Lemmas.NearLaw
import Mathlib.MeasureTheory.Integral.Bochner.Basic
import Mathlib.MeasureTheory.Integral.Prod

/-! # Averages along the chain -/

namespace PW
open MeasureTheory Set
open scoped ENNReal

section
variable {n : ℕ} (r : Rng ℝ) (next : (Fin n → ℝ) → (Fin n → ℝ) → ℝ → Fin n → ℝ)

/-- One step that always returns. -/
def idealStep (p : (Fin n → ℝ) × r.G) : (Fin n → ℝ) × r.G :=
  (next p.1 (r.gaussian n p.2).1 (r.uniform (r.gaussian n p.2).2).1, (r.uniform (r.gaussian n p.2).2).2)

variable {r next}

theorem measurable_idealStep [MeasurableSpace r.G] {μ : Measure r.G} {N : (d : ℕ) → Measure (Fin d → ℝ)} (hs : Source r μ N)
    (hn : Measurable fun p : (Fin n → ℝ) × (Fin n → ℝ) × ℝ => next p.1 p.2.1 p.2.2) : Measurable (idealStep r next) := by
  have mg := (hs.gaussian n).measurable
  have mu := hs.uniform.measurable
  have m1 : Measurable fun p : (Fin n → ℝ) × r.G => r.gaussian n p.2 := mg.comp measurable_snd
  have m2 : Measurable fun p : (Fin n → ℝ) × r.G => r.uniform (r.gaussian n p.2).2 := mu.comp m1.snd
  have m3 : Measurable fun p : (Fin n → ℝ) × r.G => (p.1, (r.gaussian n p.2).1, (r.uniform (r.gaussian n p.2).2).1) :=
    measurable_fst.prodMk (m1.fst.prodMk m2.fst)
  exact (hn.comp m3).prodMk m2.snd

/-- Steps that return agree with the ideal steps. -/
theorem iter_ideal {step : (Fin n → ℝ) × r.G → Out ((Fin n → ℝ) × r.G)} (hdet : ∀ p s, step p = .ok s → s = idealStep r next p)
    (t : ℕ) : ∀ p s, iter step t p = .ok s → s = (idealStep r next)^[t] p := by
  induction t with
  | zero => intro p s h; cases h; rfl
  | succ t ih =>
    intro p s h
    rw [iter_front] at h
    obtain ⟨p', h1, h2⟩ := Out.bind_eq_ok.1 h
    rw [Function.iterate_succ_apply, ← hdet p p' h1]
    exact ih p' s h2

/-- The Markov property. -/
theorem ideal_law [MeasurableSpace r.G] {μ : Measure r.G} {N : (d : ℕ) → Measure (Fin d → ℝ)} (hs : Source r μ N)
    (hn : Measurable fun p : (Fin n → ℝ) × (Fin n → ℝ) × ℝ => next p.1 p.2.1 p.2.2)
    {Φ : (Fin n → ℝ) × r.G → ℝ≥0∞} (hΦ : Measurable Φ) (t : ℕ) (x : Fin n → ℝ) :
    ∫⁻ g, Φ ((idealStep r next)^[t] (x, g)) ∂μ = afterSteps (N n) next (fun y => ∫⁻ g, Φ (y, g) ∂μ) t x := by
  have := hs.prob
  have := hs.probN n
  have mi := measurable_idealStep hs hn
  induction t generalizing x with
  | zero => rfl
  | succ t ih =>
    show _ = ∫⁻ v, ∫⁻ val, afterSteps (N n) next _ t (next x v val) ∂unitLaw ∂(N n)
    have mit : Measurable ((idealStep r next)^[t]) := mi.iterate t
    have hmp : MeasurePreserving (fun g => ((r.gaussian n g).1, r.uniform (r.gaussian n g).2)) μ
        ((N n).prod ((volume.restrict (Icc (0 : ℝ) 1)).prod μ)) :=
      ((MeasurePreserving.id (N n)).prod hs.uniform).comp (hs.gaussian n)
    have mΨ : Measurable fun q : (Fin n → ℝ) × ℝ × r.G => Φ ((idealStep r next)^[t] (next x q.1 q.2.1, q.2.2)) := by
      have m1 : Measurable fun q : (Fin n → ℝ) × ℝ × r.G => (x, q.1, q.2.1) :=
        measurable_const.prodMk (measurable_fst.prodMk (measurable_fst.comp measurable_snd))
      have m2 : Measurable fun q : (Fin n → ℝ) × ℝ × r.G => (next x q.1 q.2.1, q.2.2) :=
        (hn.comp m1).prodMk (measurable_snd.comp measurable_snd)
      exact hΦ.comp (mit.comp m2)
    have e : ∀ g, Φ ((idealStep r next)^[t + 1] (x, g)) =
        (fun q : (Fin n → ℝ) × ℝ × r.G => Φ ((idealStep r next)^[t] (next x q.1 q.2.1, q.2.2)))
          ((r.gaussian n g).1, r.uniform (r.gaussian n g).2) := fun g => by
      rw [Function.iterate_succ_apply]; rfl
    rw [lintegral_congr e, hmp.lintegral_comp mΨ, lintegral_prod _ mΨ.aemeasurable]
    refine lintegral_congr fun v => ?_
    have mΨv : Measurable fun q : ℝ × r.G => Φ ((idealStep r next)^[t] (next x v q.1, q.2)) := mΨ.comp measurable_prodMk_left
    rw [lintegral_prod _ mΨv.aemeasurable]
    exact lintegral_congr fun val => ih (next x v val)

/-- Position after `t` ideal steps from `x`. -/
def idealPos (r : Rng ℝ) (next : (Fin n → ℝ) → (Fin n → ℝ) → ℝ → Fin n → ℝ) (x : Fin n → ℝ) (t : ℕ) (g : r.G) : Fin n → ℝ :=
  ((idealStep r next)^[t] (x, g)).1

theorem measurable_idealPos [MeasurableSpace r.G] {μ : Measure r.G} {N : (d : ℕ) → Measure (Fin d → ℝ)} (hs : Source r μ N)
    (hn : Measurable fun p : (Fin n → ℝ) × (Fin n → ℝ) × ℝ => next p.1 p.2.1 p.2.2) (x : Fin n → ℝ) (t : ℕ) :
    Measurable (idealPos r next x t) := by
  have h : Measurable fun g : r.G => (x, g) := measurable_prodMk_left
  exact (((measurable_idealStep hs hn).iterate t).comp h).fst

/-- Two positions. -/
theorem ideal_pair [MeasurableSpace r.G] {μ : Measure r.G} {N : (d : ℕ) → Measure (Fin d → ℝ)} (hs : Source r μ N)
    (hn : Measurable fun p : (Fin n → ℝ) × (Fin n → ℝ) × ℝ => next p.1 p.2.1 p.2.2) {F H : (Fin n → ℝ) → ℝ≥0∞}
    (hF : Measurable F) (hH : Measurable H) (x : Fin n → ℝ) (s t : ℕ) :
    ∫⁻ g, F (idealPos r next x s g) * H (idealPos r next x (t + s) g) ∂μ =
      ∫⁻ g, F (idealPos r next x s g) * afterSteps (N n) next H t (idealPos r next x s g) ∂μ := by
  have := hs.prob
  have := hs.probN n
  have mi := (measurable_idealStep hs hn).iterate t
  have mΦ : Measurable fun p : (Fin n → ℝ) × r.G => F p.1 * H ((idealStep r next)^[t] p).1 :=
    (hF.comp measurable_fst).mul (hH.comp mi.fst)
  have ma := measurable_afterSteps (N n) hn hH t
  have mΨ : Measurable fun p : (Fin n → ℝ) × r.G => F p.1 * afterSteps (N n) next H t p.1 :=
    (hF.comp measurable_fst).mul (ma.comp measurable_fst)
  have h1 := ideal_law hs hn mΦ s x
  have h2 := ideal_law hs hn mΨ s x
  have h3 : ∀ y, ∫⁻ g, H ((idealStep r next)^[t] (y, g)).1 ∂μ = afterSteps (N n) next H t y := by
    intro y
    have := ideal_law hs hn (Φ := fun p => H p.1) (hH.comp measurable_fst) t y
    rw [this]
    simp
  have e : (fun y => ∫⁻ g, F y * H ((idealStep r next)^[t] (y, g)).1 ∂μ) = fun y => ∫⁻ _, F y * afterSteps (N n) next H t y ∂μ := by
    funext y
    have my : Measurable fun g : r.G => H ((idealStep r next)^[t] (y, g)).1 := hH.comp (mi.comp measurable_prodMk_left).fst
    rw [lintegral_const_mul _ my, h3]
    simp
  have h4 : ∀ g, F (idealPos r next x s g) * H (idealPos r next x (t + s) g) =
      F ((idealStep r next)^[s] (x, g)).1 * H ((idealStep r next)^[t] ((idealStep r next)^[s] (x, g))).1 := fun g => by
    unfold idealPos
    rw [Function.iterate_add_apply]
  rw [lintegral_congr h4, h1]
  simp only [e]
  exact h2.symm

end

/-! ## Covariances -/

section
variable {n : ℕ} {r : Rng ℝ} {next : (Fin n → ℝ) → (Fin n → ℝ) → ℝ → Fin n → ℝ} [MeasurableSpace r.G] {μ : Measure r.G}
  {N : (d : ℕ) → Measure (Fin d → ℝ)}

theorem integrable_bounded {Ω : Type} [MeasurableSpace Ω] {μ : Measure Ω} [IsFiniteMeasure μ] {f : Ω → ℝ} (hf : Measurable f) {M : ℝ}
    (h : ∀ ω, |f ω| ≤ M) : Integrable f μ :=
  Integrable.of_bound hf.aestronglyMeasurable M (ae_of_all _ h)

/-- Values at nearby times are correlated at most as much as the chain remembers. -/
theorem ideal_cov (hs : Source r μ N) (hn : Measurable fun p : (Fin n → ℝ) × (Fin n → ℝ) × ℝ => next p.1 p.2.1 p.2.2)
    {ψ : (Fin n → ℝ) → ℝ} (hψ : Measurable ψ) (h0 : ∀ y, 0 ≤ ψ y) (h1 : ∀ y, ψ y ≤ 1) {c : ℝ} (hc0 : 0 ≤ c) (hc1 : c ≤ 1)
    {K : Set (Fin n → ℝ)} {x : Fin n → ℝ} (s t : ℕ) (hK : ∀ᵐ g ∂μ, idealPos r next x s g ∈ K) {ρ : ℝ}
    (hρ : ∀ y ∈ K, |(afterSteps (N n) next (fun z => ENNReal.ofReal (ψ z)) t y).toReal - c| ≤ ρ) :
    ∫ g, (ψ (idealPos r next x s g) - c) * (ψ (idealPos r next x (t + s) g) - c) ∂μ ≤ ρ := by
  have := hs.prob
  have := hs.probN n
  have mE : Measurable fun z => ENNReal.ofReal (ψ z) := hψ.ennreal_ofReal
  have hE1 : ∀ z, ENNReal.ofReal (ψ z) ≤ 1 := fun z => by rw [← ENNReal.ofReal_one]; exact ENNReal.ofReal_le_ofReal (h1 z)
  set u : (Fin n → ℝ) → ℝ≥0∞ := afterSteps (N n) next (fun z => ENNReal.ofReal (ψ z)) t with hu
  have mu : Measurable u := measurable_afterSteps (N n) hn mE t
  have hu1 : ∀ y, u y ≤ 1 := fun y => afterSteps_le_one (N n) next hE1 t y
  have hut : ∀ y, u y ≠ ⊤ := fun y => ne_top_of_le_ne_top ENNReal.one_ne_top (hu1 y)
  set w : (Fin n → ℝ) → ℝ := fun y => (u y).toReal with hw
  have mw : Measurable w := mu.ennreal_toReal
  have hw0 : ∀ y, 0 ≤ w y := fun y => ENNReal.toReal_nonneg
  have hw1 : ∀ y, w y ≤ 1 := fun y => ENNReal.toReal_mono ENNReal.one_ne_top (hu1 y)
  have hwu : ∀ y, ENNReal.ofReal (w y) = u y := fun y => ENNReal.ofReal_toReal (hut y)
  set X := idealPos r next x s with hX
  set Y := idealPos r next x (t + s) with hY
  have mX : Measurable X := measurable_idealPos hs hn x s
  have mY : Measurable Y := measurable_idealPos hs hn x (t + s)
  -- the pair law for a non-negative factor
  have hpair : ∀ a : (Fin n → ℝ) → ℝ, Measurable a → (∀ y, 0 ≤ a y) → ∫ g, a (X g) * ψ (Y g) ∂μ = ∫ g, a (X g) * w (X g) ∂μ := by
    intro a ma ha
    rw [integral_eq_lintegral_of_nonneg_ae (ae_of_all _ fun g => mul_nonneg (ha _) (h0 _))
        (((ma.comp mX).mul (hψ.comp mY)).aestronglyMeasurable),
      integral_eq_lintegral_of_nonneg_ae (ae_of_all _ fun g => mul_nonneg (ha _) (hw0 _))
        (((ma.comp mX).mul (mw.comp mX)).aestronglyMeasurable)]
    congr 1
    have := ideal_pair hs hn (F := fun y => ENNReal.ofReal (a y)) ma.ennreal_ofReal mE x s t
    simp only [ENNReal.ofReal_mul (ha _), hwu]
    exact this
  have p1 := hpair ψ hψ h0
  have p2 := hpair (fun _ => 1) measurable_const (fun _ => zero_le_one)
  simp only [one_mul] at p2
  have aψ : ∀ y, |ψ y| ≤ 1 := fun y => abs_le.2 ⟨by linarith [h0 y], h1 y⟩
  have aw : ∀ y, |w y| ≤ 1 := fun y => abs_le.2 ⟨by linarith [hw0 y], hw1 y⟩
  have iX : Integrable (fun g => ψ (X g)) μ := integrable_bounded (hψ.comp mX) fun g => aψ _
  have iY : Integrable (fun g => ψ (Y g)) μ := integrable_bounded (hψ.comp mY) fun g => aψ _
  have iW : Integrable (fun g => w (X g)) μ := integrable_bounded (mw.comp mX) fun g => aw _
  have iXY : Integrable (fun g => ψ (X g) * ψ (Y g)) μ := integrable_bounded ((hψ.comp mX).mul (hψ.comp mY)) (M := 1) fun g => by
    rw [abs_mul]; exact mul_le_one₀ (aψ _) (abs_nonneg _) (aψ _)
  have iXW : Integrable (fun g => ψ (X g) * w (X g)) μ := integrable_bounded ((hψ.comp mX).mul (mw.comp mX)) (M := 1) fun g => by
    rw [abs_mul]; exact mul_le_one₀ (aψ _) (abs_nonneg _) (aw _)
  have e1 : ∫ g, (ψ (X g) - c) * (ψ (Y g) - c) ∂μ = ∫ g, (ψ (X g) - c) * (w (X g) - c) ∂μ := by
    have f1 : ∀ g, (ψ (X g) - c) * (ψ (Y g) - c) = ψ (X g) * ψ (Y g) - (c * ψ (X g) + c * ψ (Y g) - c * c) := fun g => by ring
    have f2 : ∀ g, (ψ (X g) - c) * (w (X g) - c) = ψ (X g) * w (X g) - (c * ψ (X g) + c * w (X g) - c * c) := fun g => by ring
    have ic : Integrable (fun _ : r.G => c * c) μ := integrable_const _
    simp only [f1, f2]
    have j1 : Integrable (fun g => c * ψ (X g)) μ := iX.const_mul c
    have j2 : Integrable (fun g => c * ψ (Y g)) μ := iY.const_mul c
    have j3 : Integrable (fun g => c * w (X g)) μ := iW.const_mul c
    have j4 : Integrable (fun g => c * ψ (X g) + c * ψ (Y g)) μ := j1.add j2
    have j5 : Integrable (fun g => c * ψ (X g) + c * w (X g)) μ := j1.add j3
    have j6 : Integrable (fun g => c * ψ (X g) + c * ψ (Y g) - c * c) μ := j4.sub ic
    have j7 : Integrable (fun g => c * ψ (X g) + c * w (X g) - c * c) μ := j5.sub ic
    rw [integral_sub iXY j6, integral_sub iXW j7, integral_sub j4 ic, integral_sub j5 ic, integral_add j1 j2, integral_add j1 j3]
    simp only [integral_const_mul]
    rw [p1, p2]
  rw [e1]
  have hbound : ∀ᵐ g ∂μ, (ψ (X g) - c) * (w (X g) - c) ≤ ρ := by
    filter_upwards [hK] with g hg
    have h2 := hρ _ hg
    have h3 : |ψ (X g) - c| ≤ 1 := abs_le.2 ⟨by linarith [h0 (X g)], by linarith [h1 (X g)]⟩
    calc (ψ (X g) - c) * (w (X g) - c) ≤ |(ψ (X g) - c) * (w (X g) - c)| := le_abs_self _
      _ = |ψ (X g) - c| * |w (X g) - c| := abs_mul _ _
      _ ≤ 1 * ρ := mul_le_mul h3 h2 (abs_nonneg _) zero_le_one
      _ = ρ := one_mul _
  have iP : Integrable (fun g => (ψ (X g) - c) * (w (X g) - c)) μ :=
    integrable_bounded (((hψ.comp mX).sub_const c).mul ((mw.comp mX).sub_const c)) (M := 1) fun g => by
      rw [abs_mul]
      refine mul_le_one₀ (abs_le.2 ⟨by linarith [h0 (X g)], by linarith [h1 (X g)]⟩) (abs_nonneg _)
        (abs_le.2 ⟨by linarith [hw0 (X g)], by linarith [hw1 (X g)]⟩)
  calc ∫ g, (ψ (X g) - c) * (w (X g) - c) ∂μ ≤ ∫ _, ρ ∂μ := integral_mono_ae iP (integrable_const _) hbound
    _ = ρ := by simp

/-- Mean square error of an average over the positions at times `τ₀ + i τ` (`i < L`). -/
theorem ideal_mse (hs : Source r μ N) (hn : Measurable fun p : (Fin n → ℝ) × (Fin n → ℝ) × ℝ => next p.1 p.2.1 p.2.2)
    {ψ : (Fin n → ℝ) → ℝ} (hψ : Measurable ψ) (h0 : ∀ y, 0 ≤ ψ y) (h1 : ∀ y, ψ y ≤ 1) {c : ℝ} (hc0 : 0 ≤ c) (hc1 : c ≤ 1)
    {K : Set (Fin n → ℝ)} {x : Fin n → ℝ} (hK : ∀ s, ∀ᵐ g ∂μ, idealPos r next x s g ∈ K) {β η : ℝ} (hβ : 0 < β) (hβ1 : β ≤ 1)
    (hη : 0 ≤ η)
    (hρ : ∀ t, ∀ y ∈ K, |(afterSteps (N n) next (fun z => ENNReal.ofReal (ψ z)) t y).toReal - c| ≤ (1 - β) ^ t + η)
    (τ₀ τ : ℕ) (hτ : 1 ≤ τ) (L : ℕ) (hL : 1 ≤ L) :
    ∫ g, ((∑ i ∈ Finset.range L, ψ (idealPos r next x (τ₀ + i * τ) g)) / L - c) ^ 2 ∂μ ≤ 2 / (β * L) + η := by
  have := hs.prob
  have hLr : (0 : ℝ) < L := by exact_mod_cast hL
  set D : ℕ → r.G → ℝ := fun i g => ψ (idealPos r next x (τ₀ + i * τ) g) - c with hD
  have mD : ∀ i, Measurable (D i) := fun i => (hψ.comp (measurable_idealPos hs hn x _)).sub_const c
  have bD : ∀ i g, |D i g| ≤ 1 := fun i g => abs_le.2 ⟨by simp only [hD]; linarith [h0 (idealPos r next x (τ₀ + i * τ) g)],
    by simp only [hD]; linarith [h1 (idealPos r next x (τ₀ + i * τ) g)]⟩
  have e : ∀ g, ((∑ i ∈ Finset.range L, ψ (idealPos r next x (τ₀ + i * τ) g)) / L - c) ^ 2 =
      (L ^ 2 : ℝ)⁻¹ * ∑ i ∈ Finset.range L, ∑ j ∈ Finset.range L, D i g * D j g := by
    intro g
    have h : (∑ i ∈ Finset.range L, ψ (idealPos r next x (τ₀ + i * τ) g)) / L - c = (L : ℝ)⁻¹ * ∑ i ∈ Finset.range L, D i g := by
      simp only [hD]
      rw [Finset.sum_sub_distrib, Finset.sum_const, Finset.card_range, nsmul_eq_mul]
      field_simp
    rw [h, mul_pow, sq (∑ i ∈ Finset.range L, D i g), Finset.sum_mul_sum, inv_pow]
  have iD : ∀ i j, Integrable (fun g => D i g * D j g) μ := fun i j => integrable_bounded ((mD i).mul (mD j)) (M := 1) fun g => by
    rw [abs_mul]; exact mul_le_one₀ (bD i g) (abs_nonneg _) (bD j g)
  have hcov : ∀ i j, ∫ g, D i g * D j g ∂μ ≤ (1 - β) ^ (i - j) + (1 - β) ^ (j - i) - 1 + (1 - (1 - β) ^ 0) + η := by
    have key : ∀ i j, i ≤ j → ∫ g, D i g * D j g ∂μ ≤ (1 - β) ^ (j - i) + η := by
      intro i j hij
      have h2 := ideal_cov hs hn hψ h0 h1 hc0 hc1 (x := x) (τ₀ + i * τ) ((j - i) * τ) (hK _) (hρ ((j - i) * τ))
      have e2 : (j - i) * τ + (τ₀ + i * τ) = τ₀ + j * τ := by
        obtain ⟨k, rfl⟩ := Nat.exists_eq_add_of_le hij
        rw [Nat.add_sub_cancel_left]; ring
      rw [e2] at h2
      refine h2.trans (add_le_add ?_ le_rfl)
      exact pow_le_pow_of_le_one (by linarith) (by linarith) (Nat.le_mul_of_pos_right _ hτ)
    intro i j
    rcases le_total i j with h | h
    · have := key i j h
      rw [Nat.sub_eq_zero_of_le h, pow_zero]; linarith
    · have h3 := key j i h
      have e3 : ∫ g, D i g * D j g ∂μ = ∫ g, D j g * D i g ∂μ := by congr 1; funext g; ring
      rw [e3, Nat.sub_eq_zero_of_le h, pow_zero]; linarith
  have hcov' : ∀ i j, ∫ g, D i g * D j g ∂μ ≤ (1 - β) ^ (i - j) * (if j ≤ i then 1 else 0) + (1 - β) ^ (j - i) * (if i ≤ j then 1 else 0) + η := by
    intro i j
    have := hcov i j
    rw [pow_zero, sub_self, add_zero] at this
    rcases lt_trichotomy i j with h | h | h
    · rw [if_neg (not_le.2 h), if_pos h.le]; rw [Nat.sub_eq_zero_of_le h.le, pow_zero] at this; linarith
    · subst h
      simp only [le_refl, if_true, Nat.sub_self, pow_zero] at this ⊢; linarith
    · rw [if_pos h.le, if_neg (not_le.2 h)]; rw [Nat.sub_eq_zero_of_le h.le, pow_zero] at this; linarith
  -- geometric sums
  have hgeo : ∀ M : ℕ, ∑ s ∈ Finset.range M, (1 - β) ^ s ≤ 1 / β := by
    intro M
    have h : (∑ s ∈ Finset.range M, (1 - β) ^ s) * β = 1 - (1 - β) ^ M := by
      have := geom_sum_mul (1 - β) M
      linarith
    rw [le_div_iff₀ hβ, h]
    have : 0 ≤ (1 - β) ^ M := pow_nonneg (by linarith) _
    linarith
  have hrow1 : ∀ i, ∑ j ∈ Finset.range L, (1 - β) ^ (j - i) * (if i ≤ j then (1 : ℝ) else 0) ≤ 1 / β := by
    intro i
    refine le_trans ?_ (hgeo L)
    have : ∑ j ∈ Finset.range L, (1 - β) ^ (j - i) * (if i ≤ j then (1 : ℝ) else 0) =
        ∑ j ∈ (Finset.range L).filter (i ≤ ·), (1 - β) ^ (j - i) := by
      rw [Finset.sum_filter]
      exact Finset.sum_congr rfl fun j _ => by split_ifs <;> simp
    rw [this]
    have himg : ∑ j ∈ (Finset.range L).filter (i ≤ ·), (1 - β) ^ (j - i) =
        ∑ s ∈ ((Finset.range L).filter (i ≤ ·)).image (· - i), (1 - β) ^ s := by
      rw [Finset.sum_image]
      intro a ha b hb hab
      have ha' := (Finset.mem_filter.1 ha).2
      have hb' := (Finset.mem_filter.1 hb).2
      have : a - i = b - i := hab
      omega
    rw [himg]
    refine Finset.sum_le_sum_of_subset_of_nonneg ?_ fun s _ _ => pow_nonneg (by linarith) _
    intro s hs
    obtain ⟨a, ha, rfl⟩ := Finset.mem_image.1 hs
    have := Finset.mem_range.1 (Finset.mem_filter.1 ha).1
    exact Finset.mem_range.2 (by omega)
  have hrow2 : ∀ i ∈ Finset.range L, ∑ j ∈ Finset.range L, (1 - β) ^ (i - j) * (if j ≤ i then (1 : ℝ) else 0) ≤ 1 / β := by
    intro i hi
    refine le_trans ?_ (hgeo L)
    have : ∑ j ∈ Finset.range L, (1 - β) ^ (i - j) * (if j ≤ i then (1 : ℝ) else 0) =
        ∑ j ∈ (Finset.range L).filter (· ≤ i), (1 - β) ^ (i - j) := by
      rw [Finset.sum_filter]
      exact Finset.sum_congr rfl fun j _ => by split_ifs <;> simp
    rw [this]
    have himg : ∑ j ∈ (Finset.range L).filter (· ≤ i), (1 - β) ^ (i - j) =
        ∑ s ∈ ((Finset.range L).filter (· ≤ i)).image (i - ·), (1 - β) ^ s := by
      rw [Finset.sum_image]
      intro a ha b hb hab
      have ha' := (Finset.mem_filter.1 ha).2
      have hb' := (Finset.mem_filter.1 hb).2
      have : i - a = i - b := hab
      omega
    rw [himg]
    refine Finset.sum_le_sum_of_subset_of_nonneg ?_ fun s _ _ => pow_nonneg (by linarith) _
    intro s hs
    obtain ⟨a, ha, rfl⟩ := Finset.mem_image.1 hs
    have := Finset.mem_range.1 hi
    exact Finset.mem_range.2 (by omega)
  have hint : ∫ g, ((∑ i ∈ Finset.range L, ψ (idealPos r next x (τ₀ + i * τ) g)) / L - c) ^ 2 ∂μ =
      (L ^ 2 : ℝ)⁻¹ * ∑ i ∈ Finset.range L, ∑ j ∈ Finset.range L, ∫ g, D i g * D j g ∂μ := by
    simp only [e]
    rw [integral_const_mul, integral_finsetSum _ fun i _ => integrable_finsetSum _ fun j _ => iD i j]
    congr 1
    exact Finset.sum_congr rfl fun i _ => integral_finsetSum _ fun j _ => iD i j
  rw [hint]
  have hsum : ∑ i ∈ Finset.range L, ∑ j ∈ Finset.range L, ∫ g, D i g * D j g ∂μ ≤ L * (2 / β) + L ^ 2 * η := by
    calc ∑ i ∈ Finset.range L, ∑ j ∈ Finset.range L, ∫ g, D i g * D j g ∂μ
        ≤ ∑ i ∈ Finset.range L, (2 / β + L * η) := by
          refine Finset.sum_le_sum fun i hi => ?_
          refine (Finset.sum_le_sum fun j _ => hcov' i j).trans ?_
          rw [Finset.sum_add_distrib, Finset.sum_add_distrib, Finset.sum_const, Finset.card_range, nsmul_eq_mul]
          have h2 := hrow1 i
          have h3 := hrow2 i hi
          have : 2 / β = 1 / β + 1 / β := by ring
          linarith
      _ = L * (2 / β) + L ^ 2 * η := by rw [Finset.sum_const, Finset.card_range, nsmul_eq_mul]; ring
  refine (mul_le_mul_of_nonneg_left hsum (by positivity)).trans (le_of_eq ?_)
  field_simp

end

end PW

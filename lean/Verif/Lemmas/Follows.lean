import Verif.Lemmas.Average
import Verif.Spec.Limit

/-! # From the positions of the chain to the rows a call returns -/

namespace PW
open MeasureTheory Set
open scoped ENNReal

/-- With the generator in state `g` the call's chain returns at every time (given enough fuel) and its position is `q`. -/
def Follows (w : Walk ℝ) (e : Env ℝ) (a : Args ℝ) (hd : a.DimsOk) (q : ℕ → e.r.G → Fin a.A.c → ℝ) (g : e.r.G) : Prop :=
  w.Path (e.withGen g) a hd (fun t => q t g)

theorem Walk.Path.unique {w : Walk ℝ} {e : Env ℝ} {a : Args ℝ} {hd : a.DimsOk} {p p' : ℕ → Fin a.A.c → ℝ} (h : w.Path e a hd p)
    (h' : w.Path e a hd p') : p = p' := by
  funext t
  obtain ⟨f0, h0⟩ := h t
  obtain ⟨f1, h1⟩ := h' t
  obtain ⟨s, hs, rfl'⟩ := h0 (max f0 f1) (le_max_left _ _)
  obtain ⟨s', hs', rfl''⟩ := h1 (max f0 f1) (le_max_right _ _)
  have h2 := Out.ok.inj (hs.symm.trans hs')
  rw [← rfl', ← rfl'', h2]

section
variable {w : Walk ℝ} {e : Env ℝ} [MeasurableSpace e.r.G] {μ : Measure e.r.G} {a : Args ℝ} {hd : a.DimsOk}
  {q : ℕ → e.r.G → Fin a.A.c → ℝ} (hfol : ∀ᵐ g ∂μ, Follows w e a hd q g)
include hfol

theorem pathProb_follows (S : Set (ℕ → Fin a.A.c → ℝ)) : pathProb w e μ a hd S = μ {g | (fun t => q t g) ∈ S} := by
  refine measure_congr ?_
  filter_upwards [hfol] with g hgf
  refine propext ⟨?_, fun h => ⟨_, hgf, h⟩⟩
  rintro ⟨p, hp, hpS⟩
  show (fun t => q t g) ∈ S
  rw [Walk.Path.unique hgf hp]
  exact hpS

variable (hk : w.isSparse = true → a.KOk) (hg : GoodInts a.niter a.burnin a.thin)
include hk hg

/-- Almost surely the call returns, and its rows are the positions at the recorded times. -/
theorem rows_follows : ∀ᵐ g ∂μ, ∃ (f0 : ℕ) (rows : List (Fin a.A.c → ℝ)),
    (∀ f ≥ f0, w.run ((e.withGen g).withFuel f) a = .ok rows) ∧ (rows.length : Int) = (a.niter - a.burnin) / a.thin ∧
      ∀ j (hj : j < rows.length), rows[j] = q (rowTime a.burnin a.thin j) g := by
  filter_upwards [hfol] with g hgf
  obtain ⟨f0, rows, hall, -⟩ := returns_of_chain w (e.withGen g) a hg hd hk univ (fun t => by
    obtain ⟨f0, h0⟩ := hgf t
    refine ⟨f0, fun f hf => ?_⟩
    obtain ⟨s, hs, _⟩ := h0 f hf
    exact ⟨s, hs, trivial⟩)
  refine ⟨f0, rows, hall, C01_shape w _ a hg rows (hall f0 le_rfl), fun j hj => ?_⟩
  obtain ⟨f1, h1⟩ := hgf (rowTime a.burnin a.thin j)
  obtain ⟨s', hs', hq⟩ := h1 (max f0 f1) (le_max_right _ _)
  obtain ⟨_, h3⟩ := C02_rows w _ a hg rows (hall (max f0 f1) (le_max_left _ _))
  obtain ⟨s, hs, hp⟩ := h3 j hj
  have : s' = s := Out.ok.inj (hs'.symm.trans hs)
  rw [← hp, ← this]
  exact hq

theorem rowProb_follows (j : ℕ) (hj : (j : Int) < (a.niter - a.burnin) / a.thin) (T : Set (Fin a.A.c → ℝ)) :
    rowProb w e μ a j T = μ {g | q (rowTime a.burnin a.thin j) g ∈ T} := by
  refine measure_congr ?_
  filter_upwards [rows_follows hfol hk hg] with g ⟨f0, rows, hall, hlen, hrow⟩
  refine propext ⟨?_, fun h => ⟨f0, rows, hall, by omega, ?_⟩⟩
  · rintro ⟨f1, rows', hall', hj', hT⟩
    have : rows' = rows := Out.ok.inj ((hall' (max f0 f1) (le_max_right _ _)).symm.trans (hall (max f0 f1) (le_max_left _ _)))
    subst this
    show q _ g ∈ T
    rw [← hrow j hj']; exact hT
  · rw [hrow j (by omega)]; exact h

end

theorem rowTime_eq {burnin thin : Int} (hb : 0 ≤ burnin) (ht : 0 < thin) (j : ℕ) :
    rowTime burnin thin j = burnin.toNat + (j + 1) * thin.toNat := by
  unfold rowTime
  obtain ⟨τ, rfl⟩ := Int.eq_ofNat_of_zero_le (show 0 ≤ thin by omega)
  obtain ⟨B, rfl⟩ := Int.eq_ofNat_of_zero_le hb
  have : (B : Int) + ((j : Int) + 1) * τ = ((B + (j + 1) * τ : ℕ) : Int) := by push_cast; ring
  rw [this, Int.toNat_natCast, Int.toNat_natCast, Int.toNat_natCast]

section
variable {m n : ℕ} {w : Walk ℝ} {e : Env ℝ} [MeasurableSpace e.r.G] {μ : Measure e.r.G} {A : Matrix (Fin m) (Fin n) ℝ} {b : Fin m → ℝ}
  {x : Fin n → ℝ} {k seed : Int} {q : ℕ → e.r.G → Fin n → ℝ}
  (hk : w.isSparse = true → 1 ≤ k ∧ k ≤ n)
  (hfol : ∀ niter burnin thin, ∀ᵐ g ∂μ, Follows w e (callArgs A b x niter k burnin thin seed) ⟨rfl, rfl⟩ q g)
include hk hfol

/-- The law of the position at time `t` is the law of the rows recorded then. -/
theorem LawWithin.of_follows {π : Measure (Fin n → ℝ)} {t : ℕ} {ε : ℝ}
    (h : ∀ T, MeasurableSet T → |(μ {g | q t g ∈ T}).toReal - share π T| ≤ ε) : LawWithin w e μ A b x k seed π t ε := by
  intro niter burnin thin T hT
  constructor
  · rw [pathProb_follows (hfol niter burnin thin)]
    exact h T hT
  · intro hg j hj ht
    rw [rowProb_follows (hfol niter burnin thin) hk hg j hj T]
    have : rowTime (callArgs A b x niter k burnin thin seed).burnin (callArgs A b x niter k burnin thin seed).thin j = t := ht
    rw [this]
    exact h T hT

omit hk hfol in
theorem LawWithin.mono {π : Measure (Fin n → ℝ)} {t : ℕ} {ε ε' : ℝ} (h : LawWithin w e μ A b x k seed π t ε) (hε : ε ≤ ε') :
    LawWithin w e μ A b x k seed π t ε' := fun niter burnin thin T hT =>
  ⟨((h niter burnin thin T hT).1).trans hε, fun hg j hj ht => ((h niter burnin thin T hT).2 hg j hj ht).trans hε⟩

omit hk hfol in
theorem MeanWithin.mono {φ : (Fin n → ℝ) → ℝ} {c : ℝ} {L : ℕ} {ε δ δ' : ℝ} (h : MeanWithin w e μ A b x k seed φ c L ε δ) (hδ : δ ≤ δ') :
    MeanWithin w e μ A b x k seed φ c L ε δ' := fun niter burnin thin =>
  ⟨fun B τ hτ => (tsub_le_tsub_left (ENNReal.ofReal_le_ofReal hδ) 1).trans ((h niter burnin thin).1 B τ hτ),
    fun hg hL => (tsub_le_tsub_left (ENNReal.ofReal_le_ofReal hδ) 1).trans ((h niter burnin thin).2 hg hL)⟩

theorem LawApart.of_follows {π : Measure (Fin n → ℝ)} {t : ℕ} {ε : ℝ} {T : Set (Fin n → ℝ)}
    (h : ε ≤ |(μ {g | q t g ∈ T}).toReal - share π T|) : LawApart w e μ A b x k seed π t ε T := by
  intro niter burnin thin
  constructor
  · rw [pathProb_follows (hfol niter burnin thin)]
    exact h
  · intro hg j hj ht
    rw [rowProb_follows (hfol niter burnin thin) hk hg j hj T]
    have : rowTime (callArgs A b x niter k burnin thin seed).burnin (callArgs A b x niter k burnin thin seed).thin j = t := ht
    rw [this]
    exact h

/-- Averages along the path are averages over the rows. -/
theorem MeanWithin.of_follows {φ : (Fin n → ℝ) → ℝ} {c : ℝ} {L : ℕ} {ε δ : ℝ}
    (h : ∀ B τ : ℕ, 1 ≤ τ → 1 - ENNReal.ofReal δ ≤ μ {g | |(∑ i ∈ Finset.range L, φ (q (B + (i + 1) * τ) g)) / L - c| < ε}) :
    MeanWithin w e μ A b x k seed φ c L ε δ := by
  intro niter burnin thin
  constructor
  · intro B τ hτ
    rw [pathProb_follows (hfol niter burnin thin)]
    exact h B τ hτ
  · intro hg hL
    refine (h burnin.toNat thin.toNat (by have := hg.thin_pos; omega)).trans (measure_mono_ae ?_)
    filter_upwards [rows_follows (hfol niter burnin thin) hk hg] with g ⟨f0, rows, hall, hlen, hrow⟩ hgc
    refine ⟨f0, rows, hall, ?_⟩
    have hlen' : rows.length = L := by
      have : (rows.length : Int) = (niter - burnin) / thin := hlen
      omega
    have h4 : ∀ j (hj : j < rows.length), rows[j] = q (burnin.toNat + (j + 1) * thin.toNat) g := fun j hj => by
      rw [hrow j hj]
      show q (rowTime burnin thin j) g = _
      rw [rowTime_eq hg.burnin_nonneg (by have := hg.thin_pos; omega)]
    have h5 : (rows.map φ).sum = ∑ i ∈ Finset.range L, φ (q (burnin.toNat + (i + 1) * thin.toNat) g) := by
      rw [← Fin.sum_univ_fun_getElem, Finset.sum_congr rfl fun i _ => congrArg φ (h4 i.1 i.2), ← hlen']
      exact (Finset.sum_range fun i => φ (q (burnin.toNat + (i + 1) * thin.toNat) g)).symm
    have h6 : rowMean φ rows = (∑ i ∈ Finset.range L, φ (q (burnin.toNat + (i + 1) * thin.toNat) g)) / L := by
      unfold rowMean
      rw [h5, hlen']
    rw [h6]
    exact hgc

end

/-- From the mean square error of a rescaled function to the probability of a close average. -/
theorem markov_close {n : ℕ} {G : Type} [MeasurableSpace G] {μ : Measure G} [IsProbabilityMeasure μ] {q : ℕ → G → Fin n → ℝ}
    (hq : ∀ t, Measurable (q t)) {K : Set (Fin n → ℝ)} (hK : ∀ᵐ g ∂μ, ∀ t, q t g ∈ K) {L : ℕ} (hL : 1 ≤ L) (time : ℕ → ℕ)
    {ψ φ : (Fin n → ℝ) → ℝ} (hψ : Measurable ψ) (hψ1 : ∀ y, |ψ y| ≤ 1) {c c' u : ℝ} (hu : 0 < u)
    (hrel : ∀ y ∈ K, ψ y = (φ y - c) / u + c') {η ε : ℝ} (hε : 0 < ε)
    (hmse : ∫ g, ((∑ i ∈ Finset.range L, ψ (q (time i) g)) / L - c') ^ 2 ∂μ ≤ η) :
    1 - ENNReal.ofReal (u ^ 2 / ε ^ 2 * η) ≤ μ {g | |(∑ i ∈ Finset.range L, φ (q (time i) g)) / L - c| < ε} := by
  have hLr : (0 : ℝ) < L := by exact_mod_cast hL
  set Q : G → ℝ := fun g => ((∑ i ∈ Finset.range L, ψ (q (time i) g)) / L - c') ^ 2 with hQ
  have mQ : Measurable Q := (((Finset.measurable_fun_sum _ fun i _ => hψ.comp (hq _)).div_const _).sub_const _).pow_const 2
  have hsum : ∀ g, |(∑ i ∈ Finset.range L, ψ (q (time i) g)) / L| ≤ 1 := fun g => by
    rw [abs_div, abs_of_pos hLr, div_le_one hLr]
    calc _ ≤ ∑ i ∈ Finset.range L, |ψ (q (time i) g)| := Finset.abs_sum_le_sum_abs _ _
      _ ≤ ∑ i ∈ Finset.range L, (1 : ℝ) := Finset.sum_le_sum fun i _ => hψ1 _
      _ = L := by simp
  have iQ : Integrable Q μ := integrable_bounded mQ (M := (1 + |c'|) ^ 2) fun g => by
    simp only [hQ]
    rw [abs_of_nonneg (sq_nonneg _)]
    refine sq_le_sq' ?_ ?_
    · have := abs_le.1 (hsum g); have := le_abs_self c'; linarith
    · have := abs_le.1 (hsum g); have := neg_abs_le c'; linarith
  have hmarkov := mul_meas_ge_le_integral_of_nonneg (ae_of_all μ fun g => sq_nonneg
    ((∑ i ∈ Finset.range L, ψ (q (time i) g)) / L - c')) iQ ((ε / u) ^ 2)
  have hpos : 0 < (ε / u) ^ 2 := by positivity
  have hbad : μ {g | (ε / u) ^ 2 ≤ Q g} ≤ ENNReal.ofReal (u ^ 2 / ε ^ 2 * η) := by
    rw [← ENNReal.ofReal_toReal (measure_ne_top μ {g | (ε / u) ^ 2 ≤ Q g})]
    refine ENNReal.ofReal_le_ofReal ?_
    have h1 : (ε / u) ^ 2 * (μ {g | (ε / u) ^ 2 ≤ Q g}).toReal ≤ η := hmarkov.trans hmse
    have h2 : (μ {g | (ε / u) ^ 2 ≤ Q g}).toReal ≤ η / (ε / u) ^ 2 := by
      rw [le_div_iff₀ hpos, mul_comm]; exact h1
    refine h2.trans (le_of_eq ?_)
    field_simp
  set S := {g | |(∑ i ∈ Finset.range L, φ (q (time i) g)) / L - c| < ε} with hS
  have hsub : μ Sᶜ ≤ μ {g | (ε / u) ^ 2 ≤ Q g} := by
    refine measure_mono_ae ?_
    filter_upwards [hK] with g hgK hgS
    show (ε / u) ^ 2 ≤ Q g
    by_contra hlt
    refine hgS ?_
    have h6 : ∀ i, ψ (q (time i) g) = (φ (q (time i) g) - c) / u + c' := fun i => hrel _ (hgK _)
    have h7 : (∑ i ∈ Finset.range L, ψ (q (time i) g)) / L - c' = ((∑ i ∈ Finset.range L, φ (q (time i) g)) / L - c) / u := by
      simp only [h6]
      rw [Finset.sum_add_distrib, ← Finset.sum_div, Finset.sum_sub_distrib, Finset.sum_const, Finset.sum_const, Finset.card_range,
        nsmul_eq_mul, nsmul_eq_mul]
      field_simp
      ring
    have h8 : Q g < (ε / u) ^ 2 := not_le.1 hlt
    simp only [hQ] at h8
    rw [h7] at h8
    have h9 := abs_lt_of_sq_lt_sq h8 (by positivity)
    rw [abs_div, abs_of_pos hu, div_lt_div_iff_of_pos_right hu] at h9
    exact h9
  have h1 : (1 : ℝ≥0∞) ≤ μ S + μ Sᶜ := by
    rw [← measure_univ (μ := μ), ← union_compl_self S]; exact measure_union_le _ _
  rw [tsub_le_iff_right]
  exact h1.trans (add_le_add le_rfl (hsub.trans hbad))

/-- The law of the position after `t` ideal steps. -/
theorem idealPos_law {n : ℕ} {r : Rng ℝ} {next : (Fin n → ℝ) → (Fin n → ℝ) → ℝ → Fin n → ℝ} [MeasurableSpace r.G] {μ : Measure r.G}
    {N : (d : ℕ) → Measure (Fin d → ℝ)} (hs : Source r μ N) (hn : Measurable fun p : (Fin n → ℝ) × (Fin n → ℝ) × ℝ => next p.1 p.2.1 p.2.2)
    (x : Fin n → ℝ) (t : ℕ) {T : Set (Fin n → ℝ)} (hT : MeasurableSet T) :
    μ {g | idealPos r next x t g ∈ T} = afterSteps (N n) next (T.indicator 1) t x := by
  have := hs.prob
  have mT : Measurable (T.indicator (1 : (Fin n → ℝ) → ℝ≥0∞)) := measurable_one.indicator hT
  have h1 := ideal_law hs hn (Φ := fun p => T.indicator (1 : (Fin n → ℝ) → ℝ≥0∞) p.1) (mT.comp measurable_fst) t x
  have h2 : ∫⁻ g, T.indicator (1 : (Fin n → ℝ) → ℝ≥0∞) (idealPos r next x t g) ∂μ = μ {g | idealPos r next x t g ∈ T} :=
    lintegral_indicator_one ((measurable_idealPos hs hn x t) hT)
  rw [← h2]
  refine h1.trans ?_
  simp

end PW

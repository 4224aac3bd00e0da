import Verif.Lemmas.Stationary
import Mathlib.MeasureTheory.Integral.Lebesgue.Map
import Mathlib.Analysis.SpecificLimits.Basic

/-! # Convergence of a chain that satisfies a minorisation condition -/

namespace PW
open MeasureTheory Set
open scoped ENNReal

variable {X : Type} [MeasurableSpace X]

/-- Expectation of `F` after `t` steps of the transition probabilities `κ`. -/
noncomputable def iterK (κ : X → Measure X) (F : X → ℝ≥0∞) : ℕ → X → ℝ≥0∞
  | 0 => F
  | t + 1 => fun x => ∫⁻ y, iterK κ F t y ∂(κ x)

/-- Transition probabilities that stay in `K`. -/
structure Chain (κ : X → Measure X) (K : Set X) : Prop where
  /-- they are probabilities -/
  prob : ∀ x, IsProbabilityMeasure (κ x)
  /-- expectations are measurable -/
  meas : ∀ F : X → ℝ≥0∞, Measurable F → Measurable fun x => ∫⁻ y, F y ∂(κ x)
  /-- the chain stays in `K` -/
  stay : ∀ x ∈ K, ∀ᵐ y ∂(κ x), y ∈ K

variable {κ : X → Measure X} {K : Set X}

theorem Chain.measurable_iter (h : Chain κ K) {F : X → ℝ≥0∞} (hF : Measurable F) (t : ℕ) : Measurable (iterK κ F t) := by
  induction t with
  | zero => exact hF
  | succ t ih => exact h.meas _ ih

theorem Chain.iter_le (h : Chain κ K) {F : X → ℝ≥0∞} {c : ℝ≥0∞} (h1 : ∀ x, F x ≤ c) (t : ℕ) (x : X) : iterK κ F t x ≤ c := by
  induction t generalizing x with
  | zero => exact h1 x
  | succ t ih =>
    have := h.prob x
    exact (lintegral_mono fun y => ih y).trans (by simp)

/-- One step shrinks the range of an expectation. -/
theorem Chain.shrink (h : Chain κ K) {m : Measure X} (hmK : ∀ᵐ x ∂m, x ∈ K)
    (hm : ∀ x ∈ K, ∀ F : X → ℝ≥0∞, Measurable F → ∫⁻ y, F y ∂m ≤ ∫⁻ y, F y ∂(κ x)) (hfin : m univ ≤ 1)
    {u : X → ℝ≥0∞} (hu : Measurable u) {lo hi : ℝ≥0∞} (hlo : ∀ x ∈ K, lo ≤ u x) (hhi : ∀ x ∈ K, u x ≤ hi) (hle : lo ≤ hi) (hft : hi ≠ ⊤) :
    ∃ lo' hi', lo' ≤ hi' ∧ hi' ≤ hi ∧ hi' - lo' = (1 - m univ) * (hi - lo) ∧
      (∀ x ∈ K, lo' ≤ ∫⁻ y, u y ∂(κ x)) ∧ ∀ x ∈ K, ∫⁻ y, u y ∂(κ x) ≤ hi' := by
  have hlt : lo ≠ ⊤ := ne_top_of_le_ne_top hft hle
  have ma : Measurable fun y => u y - lo := hu.sub_const lo
  have mb : Measurable fun y => hi - u y := hu.const_sub hi
  set a := ∫⁻ y, (u y - lo) ∂m with ha
  set b := ∫⁻ y, (hi - u y) ∂m with hb
  have hab : a + b = (hi - lo) * m univ := by
    rw [ha, hb, ← lintegral_add_left ma, ← lintegral_const]
    refine lintegral_congr_ae ?_
    filter_upwards [hmK] with y hy
    rw [add_comm]
    exact tsub_add_tsub_cancel (hhi y hy) (hlo y hy)
  have h1 : ∀ x ∈ K, lo + a ≤ ∫⁻ y, u y ∂(κ x) := by
    intro x hx
    have := h.prob x
    calc lo + a ≤ (∫⁻ _, lo ∂(κ x)) + ∫⁻ y, (u y - lo) ∂(κ x) := by
          refine add_le_add (by simp) (hm x hx _ ma)
      _ = ∫⁻ y, (lo + (u y - lo)) ∂(κ x) := (lintegral_add_left measurable_const _).symm
      _ = ∫⁻ y, u y ∂(κ x) := by
        refine lintegral_congr_ae ?_
        filter_upwards [h.stay x hx] with y hy
        exact add_tsub_cancel_of_le (hlo y hy)
  have h2 : ∀ x ∈ K, (∫⁻ y, u y ∂(κ x)) + b ≤ hi := by
    intro x hx
    have := h.prob x
    calc (∫⁻ y, u y ∂(κ x)) + b ≤ (∫⁻ y, u y ∂(κ x)) + ∫⁻ y, (hi - u y) ∂(κ x) := add_le_add le_rfl (hm x hx _ mb)
      _ = ∫⁻ y, (u y + (hi - u y)) ∂(κ x) := (lintegral_add_left hu _).symm
      _ = ∫⁻ _, hi ∂(κ x) := by
        refine lintegral_congr_ae ?_
        filter_upwards [h.stay x hx] with y hy
        exact add_tsub_cancel_of_le (hhi y hy)
      _ = hi := by simp
  have hd : hi - lo ≠ ⊤ := ENNReal.sub_ne_top hft
  have habl : a + b ≤ hi - lo := by rw [hab]; exact mul_le_of_le_one_right' hfin
  have hat : a ≠ ⊤ := ne_top_of_le_ne_top hd (le_self_add.trans habl)
  have hbt : b ≠ ⊤ := ne_top_of_le_ne_top hd (le_add_self.trans habl)
  have hsum : lo + (a + b) ≤ hi := (add_le_add le_rfl habl).trans (add_tsub_cancel_of_le hle).le
  have hlohi : lo + a ≤ hi - b := by
    refine ENNReal.le_sub_of_add_le_right hbt ?_
    rw [add_assoc]; exact hsum
  refine ⟨lo + a, hi - b, hlohi, tsub_le_self, ?_, h1, fun x hx => ENNReal.le_sub_of_add_le_right hbt (h2 x hx)⟩
  rw [tsub_tsub, ENNReal.sub_mul fun _ _ => hd, one_mul, mul_comm, ← hab, tsub_tsub, add_comm b, add_assoc]

/-- After `t` steps the expectations from two starting points differ by at most `(1 - β)ᵗ`. -/
theorem Chain.range (h : Chain κ K) {m : Measure X} (hmK : ∀ᵐ x ∂m, x ∈ K)
    (hm : ∀ x ∈ K, ∀ F : X → ℝ≥0∞, Measurable F → ∫⁻ y, F y ∂m ≤ ∫⁻ y, F y ∂(κ x)) (hfin : m univ ≤ 1)
    {F : X → ℝ≥0∞} (hF : Measurable F) (h1 : ∀ x, F x ≤ 1) (t : ℕ) :
    ∃ lo hi, lo ≤ hi ∧ hi ≤ 1 ∧ hi - lo = (1 - m univ) ^ t ∧ (∀ x ∈ K, lo ≤ iterK κ F t x) ∧ ∀ x ∈ K, iterK κ F t x ≤ hi := by
  induction t with
  | zero => exact ⟨0, 1, zero_le, le_rfl, by simp, fun _ _ => zero_le, fun x _ => h1 x⟩
  | succ t ih =>
    obtain ⟨lo, hi, h2, h3, h4, h5, h6⟩ := ih
    obtain ⟨lo', hi', g1, g2, g3, g4, g5⟩ := h.shrink hmK hm hfin (h.measurable_iter hF t) h5 h6 h2 (ne_top_of_le_ne_top ENNReal.one_ne_top h3)
    exact ⟨lo', hi', g1, g2.trans h3, by rw [g3, h4, pow_succ, mul_comm], g4, g5⟩

/-- Approximate invariance, for functions with a small range. -/
theorem Chain.near_range (h : Chain κ K) {π : Measure X} [IsFiniteMeasure π] (hπ : ∀ᵐ x ∂π, x ∈ K) {δ : ℝ≥0∞}
    (hnear : ∀ F : X → ℝ≥0∞, Measurable F → (∀ x, F x ≤ 1) →
      (∫⁻ x, ∫⁻ y, F y ∂(κ x) ∂π) ≤ (∫⁻ x, F x ∂π) + δ ∧ (∫⁻ x, F x ∂π) ≤ (∫⁻ x, ∫⁻ y, F y ∂(κ x) ∂π) + δ)
    {u : X → ℝ≥0∞} (hu : Measurable u) {lo hi : ℝ≥0∞} (hlo : ∀ x ∈ K, lo ≤ u x) (hhi : ∀ x ∈ K, u x ≤ hi) (hle : lo ≤ hi)
    (hft : hi ≠ ⊤) :
    (∫⁻ x, ∫⁻ y, u y ∂(κ x) ∂π) ≤ (∫⁻ x, u x ∂π) + (hi - lo) * δ ∧
    (∫⁻ x, u x ∂π) ≤ (∫⁻ x, ∫⁻ y, u y ∂(κ x) ∂π) + (hi - lo) * δ := by
  have hlt : lo ≠ ⊤ := ne_top_of_le_ne_top hft hle
  set c := hi - lo with hc
  have hct : c ≠ ⊤ := ENNReal.sub_ne_top hft
  have hstep : ∀ x ∈ K, ∫⁻ y, u y ∂(κ x) = lo + ∫⁻ y, min (u y - lo) c ∂(κ x) := by
    intro x hx
    have := h.prob x
    have e : lo + ∫⁻ y, min (u y - lo) c ∂(κ x) = (∫⁻ _, lo ∂(κ x)) + ∫⁻ y, min (u y - lo) c ∂(κ x) := by simp
    rw [e, ← lintegral_add_left measurable_const]
    refine lintegral_congr_ae ?_
    filter_upwards [h.stay x hx] with y hy
    rw [min_eq_left (tsub_le_tsub_right (hhi y hy) lo)]
    exact (add_tsub_cancel_of_le (hlo y hy)).symm
  have hself : ∀ x ∈ K, u x = lo + min (u x - lo) c := fun x hx => by
    rw [min_eq_left (tsub_le_tsub_right (hhi x hx) lo)]
    exact (add_tsub_cancel_of_le (hlo x hx)).symm
  have mw : Measurable fun y => min (u y - lo) c := (hu.sub_const lo).min measurable_const
  have e1 : (∫⁻ x, ∫⁻ y, u y ∂(κ x) ∂π) = lo * π univ + ∫⁻ x, ∫⁻ y, min (u y - lo) c ∂(κ x) ∂π := by
    rw [← lintegral_const, ← lintegral_add_left measurable_const]
    refine lintegral_congr_ae ?_
    filter_upwards [hπ] with x hx using hstep x hx
  have e2 : (∫⁻ x, u x ∂π) = lo * π univ + ∫⁻ x, min (u x - lo) c ∂π := by
    rw [← lintegral_const, ← lintegral_add_left measurable_const]
    refine lintegral_congr_ae ?_
    filter_upwards [hπ] with x hx using hself x hx
  -- scale to `[0, 1]`
  have hsc : (∫⁻ x, ∫⁻ y, min (u y - lo) c ∂(κ x) ∂π) ≤ (∫⁻ x, min (u x - lo) c ∂π) + c * δ ∧
      (∫⁻ x, min (u x - lo) c ∂π) ≤ (∫⁻ x, ∫⁻ y, min (u y - lo) c ∂(κ x) ∂π) + c * δ := by
    rcases eq_or_ne c 0 with h0 | h0
    · simp [h0]
    have hn := hnear (fun y => c⁻¹ * min (u y - lo) c) (mw.const_mul _) (fun y => by
      calc c⁻¹ * min (u y - lo) c ≤ c⁻¹ * c := mul_le_mul_right (min_le_right _ _) _
        _ = 1 := ENNReal.inv_mul_cancel h0 hct)
    have mi := h.meas _ mw
    have f1 : (∫⁻ x, ∫⁻ y, c⁻¹ * min (u y - lo) c ∂(κ x) ∂π) = c⁻¹ * ∫⁻ x, ∫⁻ y, min (u y - lo) c ∂(κ x) ∂π := by
      rw [← lintegral_const_mul _ mi]
      exact lintegral_congr fun x => lintegral_const_mul _ mw
    rw [f1, lintegral_const_mul _ mw] at hn
    have key : ∀ p q : ℝ≥0∞, c⁻¹ * p ≤ c⁻¹ * q + δ → p ≤ q + c * δ := by
      intro p q hpq
      have := mul_le_mul_right hpq c
      rwa [mul_add, ← mul_assoc, ← mul_assoc, ENNReal.mul_inv_cancel h0 hct, one_mul, one_mul] at this
    exact ⟨key _ _ hn.1, key _ _ hn.2⟩
  rw [e1, e2]
  constructor
  · rw [add_assoc]; exact add_le_add le_rfl hsc.1
  · rw [add_assoc]; exact add_le_add le_rfl hsc.2

/-- Convergence from every starting point. `β = m univ` is the mass of the minorising measure, `δ` the error in the
invariance of `π`. -/
theorem Chain.converge (h : Chain κ K) {π : Measure X} [IsFiniteMeasure π] (hπ : ∀ᵐ x ∂π, x ∈ K) {δ : ℝ≥0∞}
    (hnear : ∀ F : X → ℝ≥0∞, Measurable F → (∀ x, F x ≤ 1) →
      (∫⁻ x, ∫⁻ y, F y ∂(κ x) ∂π) ≤ (∫⁻ x, F x ∂π) + δ ∧ (∫⁻ x, F x ∂π) ≤ (∫⁻ x, ∫⁻ y, F y ∂(κ x) ∂π) + δ)
    {m : Measure X} (hmK : ∀ᵐ x ∂m, x ∈ K)
    (hm : ∀ x ∈ K, ∀ F : X → ℝ≥0∞, Measurable F → ∫⁻ y, F y ∂m ≤ ∫⁻ y, F y ∂(κ x)) (hfin : m univ ≤ 1)
    {F : X → ℝ≥0∞} (hF : Measurable F) (h1 : ∀ x, F x ≤ 1) (t : ℕ) {x : X} (hx : x ∈ K) :
    π univ * iterK κ F t x ≤ (∫⁻ y, F y ∂π) + (π univ * (1 - m univ) ^ t + (m univ)⁻¹ * δ) ∧
    (∫⁻ y, F y ∂π) ≤ π univ * iterK κ F t x + (π univ * (1 - m univ) ^ t + (m univ)⁻¹ * δ) := by
  -- the mean of the expectation changes little
  have hmean : ∀ t, (∫⁻ y, iterK κ F t y ∂π) ≤ (∫⁻ y, F y ∂π) + (∑ s ∈ Finset.range t, (1 - m univ) ^ s) * δ ∧
      (∫⁻ y, F y ∂π) ≤ (∫⁻ y, iterK κ F t y ∂π) + (∑ s ∈ Finset.range t, (1 - m univ) ^ s) * δ := by
    intro t
    induction t with
    | zero => simp [iterK]
    | succ t ih =>
      obtain ⟨lo, hi, h2, h3, h4, h5, h6⟩ := h.range hmK hm hfin hF h1 t
      have hn := h.near_range hπ hnear (h.measurable_iter hF t) h5 h6 h2 (ne_top_of_le_ne_top ENNReal.one_ne_top h3)
      rw [h4] at hn
      rw [Finset.sum_range_succ, add_mul]
      constructor
      · exact hn.1.trans ((add_le_add ih.1 le_rfl).trans (add_assoc _ _ _).le)
      · refine ih.2.trans ((add_le_add hn.2 le_rfl).trans (le_of_eq ?_))
        show _ = (∫⁻ x, ∫⁻ y, iterK κ F t y ∂(κ x) ∂π) + _
        ring
  have hgeo : ∑ s ∈ Finset.range t, (1 - m univ) ^ s ≤ (m univ)⁻¹ := by
    refine (ENNReal.sum_le_tsum _).trans (le_of_eq ?_)
    rw [ENNReal.tsum_geometric, ENNReal.sub_sub_cancel ENNReal.one_ne_top hfin]
  obtain ⟨lo, hi, h2, h3, h4, h5, h6⟩ := h.range hmK hm hfin hF h1 t
  have hh : hi ≤ lo + (1 - m univ) ^ t := by rw [← h4]; exact le_add_tsub
  have hup : π univ * iterK κ F t x ≤ (∫⁻ y, iterK κ F t y ∂π) + π univ * (1 - m univ) ^ t := by
    calc π univ * iterK κ F t x ≤ π univ * (lo + (1 - m univ) ^ t) := mul_le_mul_right ((h6 x hx).trans hh) _
      _ = (∫⁻ _, lo ∂π) + π univ * (1 - m univ) ^ t := by rw [mul_add, lintegral_const, mul_comm lo]
      _ ≤ _ := by
        refine add_le_add (lintegral_mono_ae ?_) le_rfl
        filter_upwards [hπ] with y hy using h5 y hy
  have hdn : (∫⁻ y, iterK κ F t y ∂π) ≤ π univ * iterK κ F t x + π univ * (1 - m univ) ^ t := by
    calc (∫⁻ y, iterK κ F t y ∂π) ≤ ∫⁻ _, (lo + (1 - m univ) ^ t) ∂π := by
          refine lintegral_mono_ae ?_
          filter_upwards [hπ] with y hy using (h6 y hy).trans hh
      _ = π univ * lo + π univ * (1 - m univ) ^ t := by rw [lintegral_const, mul_comm, mul_add]
      _ ≤ _ := add_le_add (mul_le_mul_right (h5 x hx) _) le_rfl
  obtain ⟨a, b⟩ := hmean t
  have hsd : (∑ s ∈ Finset.range t, (1 - m univ) ^ s) * δ ≤ (m univ)⁻¹ * δ := mul_le_mul_left hgeo _
  constructor
  · refine hup.trans ((add_le_add (a.trans (add_le_add le_rfl hsd)) le_rfl).trans (le_of_eq ?_)); ring
  · refine b.trans ((add_le_add hdn hsd).trans (le_of_eq ?_)); ring

end PW

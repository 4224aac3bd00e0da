import Mathlib.Analysis.SpecialFunctions.Log.Basic
import Mathlib.Analysis.SpecialFunctions.Sqrt
import Mathlib.Analysis.SpecificLimits.Basic
import Mathlib.Algebra.Order.BigOperators.Ring.Finset
import Mathlib.Algebra.BigOperators.Field
import Mathlib.Topology.MetricSpace.Pseudo.Pi
import Mathlib.Topology.Order.Compact

/-!
# Fixed point iterations that climb a potential

`T w = (w + σ w + β) / 2` for scores `σ w ∈ [0,1]` that are the gradient, in `log w`, of a function `L`, in the
sense of the two bounds of `Potential`; `κ` measures the strict concavity of `L` in `w`. `Φ w = L w + ∑ (β log wᵢ - wᵢ)` rises along the iteration, has exactly
one maximiser, and the iteration converges to it geometrically.
-/

namespace PW
open Finset
variable {ι : Type} [Fintype ι]

/-- `L` has the scores `σ` as its logarithmic gradient, with the two one-sided bounds. -/
structure Potential (κ : ℝ) (σ : (ι → ℝ) → ι → ℝ) (L : (ι → ℝ) → ℝ) : Prop where
  kpos : 0 ≤ κ
  kle : κ ≤ 1
  lo : ∀ w w' : ι → ℝ, (∀ i, 0 < w i) → (∀ i, 0 < w' i) → ∑ i, σ w i * Real.log (w' i / w i) ≤ L w' - L w
  up : ∀ w w' : ι → ℝ, (∀ i, 0 < w i) → (∀ i, 0 < w' i) →
    L w' - L w ≤ ∑ i, σ w i * (w' i / w i - 1 - κ * (Real.sqrt (w' i / w i) - 1) ^ 2)
  nonneg : ∀ w : ι → ℝ, (∀ i, 0 < w i) → ∀ i, 0 ≤ σ w i
  le_one : ∀ w : ι → ℝ, (∀ i, 0 < w i) → ∀ i, σ w i ≤ 1

/-- The averaged fixed point map. -/
noncomputable def avgMap (σ : (ι → ℝ) → ι → ℝ) (β : ℝ) (w : ι → ℝ) : ι → ℝ := fun i => (w i + σ w i + β) / 2

/-- The potential that the iteration climbs. -/
noncomputable def climb (L : (ι → ℝ) → ℝ) (β : ℝ) (w : ι → ℝ) : ℝ := L w + ∑ i, (β * Real.log (w i) - w i)

variable {κ : ℝ} {σ : (ι → ℝ) → ι → ℝ} {L : (ι → ℝ) → ℝ} {β : ℝ}

theorem Potential.up' (h : Potential κ σ L) (w w' : ι → ℝ) (hw : ∀ i, 0 < w i) (hw' : ∀ i, 0 < w' i) :
    L w' - L w ≤ ∑ i, σ w i * (w' i / w i - 1) := by
  refine (h.up w w' hw hw').trans (sum_le_sum fun i _ => mul_le_mul_of_nonneg_left ?_ (h.nonneg w hw i))
  have := mul_nonneg h.kpos (sq_nonneg (Real.sqrt (w' i / w i) - 1))
  linarith

theorem one_sub_inv_le_log' {w t : ℝ} (hw : 0 < w) (ht : 0 < t) : (t - w) / t ≤ Real.log (t / w) := by
  have := Real.one_sub_inv_le_log_of_pos (div_pos ht hw)
  refine le_trans (le_of_eq ?_) this
  field_simp

theorem climb_sub (β : ℝ) {w w' : ι → ℝ} (hw : ∀ i, 0 < w i) (hw' : ∀ i, 0 < w' i) :
    climb L β w' - climb L β w =
      (L w' - L w) + ∑ i, (β * Real.log (w' i / w i) - (w' i - w i)) := by
  unfold climb
  have : ∀ i, β * Real.log (w' i / w i) - (w' i - w i) =
      (β * Real.log (w' i) - w' i) - (β * Real.log (w i) - w i) := fun i => by
    rw [Real.log_div (hw' i).ne' (hw i).ne']; ring
  simp only [this, sum_sub_distrib]
  ring

theorem avgMap_pos (h : Potential κ σ L) (hβ : 0 ≤ β) {w : ι → ℝ} (hw : ∀ i, 0 < w i) (i : ι) :
    0 < avgMap σ β w i := by
  have := h.nonneg w hw i; have := hw i
  unfold avgMap; linarith

/-- One step of the iteration gains at least the weighted squared length of the step. -/
theorem climb_gain (h : Potential κ σ L) (hβ : 0 ≤ β) {w : ι → ℝ} (hw : ∀ i, 0 < w i) :
    ∑ i, (avgMap σ β w i - w i) ^ 2 / avgMap σ β w i ≤ climb L β (avgMap σ β w) - climb L β w := by
  have ht := avgMap_pos h hβ hw
  rw [climb_sub β hw ht]
  refine le_trans ?_ (add_le_add_left (h.lo w _ hw ht) _)
  rw [← sum_add_distrib]
  refine sum_le_sum fun i _ => ?_
  have h1 := one_sub_inv_le_log' (hw i) (ht i)
  have h2 := h.nonneg w hw i
  have e : σ w i + β = 2 * avgMap σ β w i - w i := by unfold avgMap; ring
  have h3 : (σ w i + β) * ((avgMap σ β w i - w i) / avgMap σ β w i) ≤
      (σ w i + β) * Real.log (avgMap σ β w i / w i) := mul_le_mul_of_nonneg_left h1 (by linarith)
  have h4 : (avgMap σ β w i - w i) ^ 2 / avgMap σ β w i =
      (σ w i + β) * ((avgMap σ β w i - w i) / avgMap σ β w i) - (avgMap σ β w i - w i) := by
    rw [e]; have := (ht i).ne'; field_simp; ring
  rw [h4]; linarith

/-- What another point can gain at most, in terms of the step at this one. -/
theorem climb_le (h : Potential κ σ L) (hβ : 0 ≤ β) {w w' : ι → ℝ} (hw : ∀ i, 0 < w i) (hw' : ∀ i, 0 < w' i) :
    climb L β w' - climb L β w ≤ ∑ i, ((σ w i + β) / w i - 1) * (w' i - w i) := by
  rw [climb_sub β hw hw']
  refine (add_le_add_left (h.up' w w' hw hw') _).trans ?_
  rw [← sum_add_distrib]
  refine sum_le_sum fun i _ => ?_
  have h1 := Real.log_le_sub_one_of_pos (div_pos (hw' i) (hw i))
  have h2 := mul_le_mul_of_nonneg_left h1 hβ
  have e : ((σ w i + β) / w i - 1) * (w' i - w i) =
      σ w i * (w' i / w i - 1) + β * (w' i / w i - 1) - (w' i - w i) := by
    have := (hw i).ne'; field_simp
  rw [e]; linarith

theorem log_le_sqrt {r : ℝ} (hr : 0 < r) : Real.log r ≤ r - 1 - (Real.sqrt r - 1) ^ 2 := by
  have hs := Real.sqrt_pos.2 hr
  have h1 := Real.log_le_sub_one_of_pos hs
  rw [Real.log_sqrt hr.le] at h1
  have e : Real.sqrt r ^ 2 = r := Real.sq_sqrt hr.le
  nlinarith

/-- Near-optimal points are near a fixed point. -/
theorem climb_fixed (h : Potential κ σ L) (hβ : 0 ≤ β) {v w : ι → ℝ} (hv : ∀ i, 0 < v i)
    (hf : ∀ i, v i = σ v i + β) (hw : ∀ i, 0 < w i) :
    ∑ i, (κ * σ v i + β) * (Real.sqrt (w i / v i) - 1) ^ 2 ≤ climb L β v - climb L β w := by
  have h1 := climb_sub (L := L) β hv hw
  have h2 := h.up v w hv hw
  have e : ∑ i, σ v i * (w i / v i - 1 - κ * (Real.sqrt (w i / v i) - 1) ^ 2) + ∑ i, (β * Real.log (w i / v i) - (w i - v i)) ≤
      -(∑ i, (κ * σ v i + β) * (Real.sqrt (w i / v i) - 1) ^ 2) := by
    rw [← sum_neg_distrib, ← sum_add_distrib]
    refine sum_le_sum fun i _ => ?_
    have h3 := mul_le_mul_of_nonneg_left (log_le_sqrt (div_pos (hw i) (hv i))) hβ
    have h4 : w i - v i = v i * (w i / v i - 1) := by have := (hv i).ne'; field_simp
    have h5 : v i * (w i / v i - 1) = σ v i * (w i / v i - 1) + β * (w i / v i - 1) := by
      rw [← add_mul, ← hf i]
    rw [h4, h5]
    linarith
  linarith

/-- The same in terms of square roots. -/
theorem climb_fixed_sqrt (h : Potential κ σ L) (hβ : 0 ≤ β) {v w : ι → ℝ} (hv : ∀ i, 0 < v i)
    (hf : ∀ i, v i = σ v i + β) (hw : ∀ i, 0 < w i) :
    κ * ∑ i, (Real.sqrt (w i) - Real.sqrt (v i)) ^ 2 ≤ climb L β v - climb L β w := by
  refine le_trans ?_ (climb_fixed h hβ hv hf hw)
  rw [mul_sum]
  refine sum_le_sum fun i _ => ?_
  have e : (Real.sqrt (w i) - Real.sqrt (v i)) ^ 2 = v i * (Real.sqrt (w i / v i) - 1) ^ 2 := by
    rw [Real.sqrt_div (hw i).le]
    have hs := (Real.sqrt_pos.2 (hv i)).ne'
    have hq : v i = Real.sqrt (v i) ^ 2 := (Real.sq_sqrt (hv i).le).symm
    nth_rw 2 [hq]
    field_simp
  rw [e, ← mul_assoc]
  refine mul_le_mul_of_nonneg_right ?_ (sq_nonneg _)
  have := h.kle
  have hv' := hf i
  nlinarith

theorem sq_sub_le_sqrt {a b B : ℝ} (ha : 0 ≤ a) (hb : 0 ≤ b) (haB : a ≤ B) (hbB : b ≤ B) :
    (a - b) ^ 2 ≤ 4 * B * (Real.sqrt a - Real.sqrt b) ^ 2 := by
  have e : (a - b) ^ 2 = (Real.sqrt a + Real.sqrt b) ^ 2 * (Real.sqrt a - Real.sqrt b) ^ 2 := by
    rw [← mul_pow]
    congr 1
    have h1 := Real.sq_sqrt ha
    have h2 := Real.sq_sqrt hb
    nlinarith
  rw [e]
  refine mul_le_mul_of_nonneg_right ?_ (sq_nonneg _)
  have h1 := Real.sq_sqrt ha
  have h2 := Real.sq_sqrt hb
  nlinarith [sq_nonneg (Real.sqrt a - Real.sqrt b)]

theorem climb_fixed_sq (h : Potential κ σ L) (hβ : 0 ≤ β) {v w : ι → ℝ} (hv : ∀ i, 0 < v i)
    (hf : ∀ i, v i = σ v i + β) (hw : ∀ i, 0 < w i) {B : ℝ} (hB : 0 < B) (hvB : ∀ i, v i ≤ B) (hwB : ∀ i, w i ≤ B) :
    κ / (4 * B) * ∑ i, (w i - v i) ^ 2 ≤ climb L β v - climb L β w := by
  refine le_trans ?_ (climb_fixed_sqrt h hβ hv hf hw)
  have : ∑ i, (w i - v i) ^ 2 ≤ 4 * B * ∑ i, (Real.sqrt (w i) - Real.sqrt (v i)) ^ 2 := by
    rw [mul_sum]
    exact sum_le_sum fun i _ => sq_sub_le_sqrt (hw i).le (hv i).le (hwB i) (hvB i)
  calc _ ≤ κ / (4 * B) * (4 * B * ∑ i, (Real.sqrt (w i) - Real.sqrt (v i)) ^ 2) :=
        mul_le_mul_of_nonneg_left this (div_nonneg h.kpos (by positivity))
    _ = _ := by field_simp

/-- A fixed point is the only one, and the only maximiser, provided some strict concavity. -/
theorem fixed_unique (h : Potential κ σ L) (hβ : 0 ≤ β) (hκ : 0 < κ) {v w : ι → ℝ} (hv : ∀ i, 0 < v i)
    (hf : ∀ i, v i = σ v i + β) (hw : ∀ i, 0 < w i) (hle : climb L β v ≤ climb L β w) : w = v := by
  have h1 := climb_fixed_sqrt h hβ hv hf hw
  have hn : ∀ i ∈ (univ : Finset ι), 0 ≤ (Real.sqrt (w i) - Real.sqrt (v i)) ^ 2 := fun i _ => sq_nonneg _
  have h0 : ∀ i ∈ univ, (Real.sqrt (w i) - Real.sqrt (v i)) ^ 2 = 0 := by
    refine (sum_eq_zero_iff_of_nonneg hn).1 ?_
    have := sum_nonneg hn
    nlinarith
  funext i
  have h2 := pow_eq_zero_iff two_ne_zero |>.1 (h0 i (mem_univ i))
  exact (Real.sqrt_inj (hw i).le (hv i).le).1 (by linarith)

theorem climb_fixed_max (h : Potential κ σ L) (hβ : 0 ≤ β) {v w : ι → ℝ} (hv : ∀ i, 0 < v i)
    (hf : ∀ i, v i = σ v i + β) (hw : ∀ i, 0 < w i) : climb L β w ≤ climb L β v := by
  have h1 := climb_le h hβ hv hw
  have : ∑ i, ((σ v i + β) / v i - 1) * (w i - v i) = 0 := by
    refine sum_eq_zero fun i _ => ?_
    rw [← hf i, div_self (hv i).ne']; ring
  linarith

theorem fixed_of_max (h : Potential κ σ L) (hβ : 0 ≤ β) {v : ι → ℝ} (hv : ∀ i, 0 < v i)
    (hmax : climb L β (avgMap σ β v) ≤ climb L β v) (i : ι) : v i = σ v i + β := by
  have h1 := climb_gain h hβ hv
  have ht := avgMap_pos h hβ hv
  have h0 := (sum_eq_zero_iff_of_nonneg (s := univ)
    (f := fun i => (avgMap σ β v i - v i) ^ 2 / avgMap σ β v i)
    (fun i _ => div_nonneg (sq_nonneg _) (ht i).le)).1
    (le_antisymm (by linarith) (sum_nonneg fun i _ => div_nonneg (sq_nonneg _) (ht i).le)) i (mem_univ i)
  have h2 : avgMap σ β v i - v i = 0 := by
    rcases (div_eq_zero_iff.1 h0) with h3 | h3
    · exact pow_eq_zero_iff two_ne_zero |>.1 h3
    · exact absurd h3 (ht i).ne'
  unfold avgMap at h2
  linarith

/-- The box of weights that the iteration keeps. -/
def WBox (l B : ℝ) (w : ι → ℝ) : Prop := ∀ i, l ≤ w i ∧ w i ≤ B

theorem WBox.map (h : Potential κ σ L) {l B : ℝ} (hl : 0 < l) (hlβ : l ≤ β) (hB : 1 + β ≤ B)
    {w : ι → ℝ} (hw : WBox l B w) : WBox l B (avgMap σ β w) := by
  have hp : ∀ i, 0 < w i := fun i => hl.trans_le (hw i).1
  intro i
  have := h.nonneg w hp i; have := h.le_one w hp i; have := hw i
  unfold avgMap
  constructor <;> linarith

theorem WBox.fixed (h : Potential κ σ L) {v : ι → ℝ} (hv : ∀ i, 0 < v i) (hf : ∀ i, v i = σ v i + β) :
    WBox β (1 + β) v := fun i => by
  have := h.nonneg v hv i; have := h.le_one v hv i
  rw [hf i]; constructor <;> linarith

theorem climb_continuousOn (h : Potential κ σ L) (β : ℝ) : ContinuousOn (climb L β) {w | ∀ i, 0 < w i} := by
  have hL : ContinuousOn L {w : ι → ℝ | ∀ i, 0 < w i} := by
    intro w hw
    have hlog : Filter.Tendsto (fun w' : ι → ℝ => ∑ i, σ w i * Real.log (w' i / w i))
        (nhdsWithin w {w | ∀ i, 0 < w i}) (nhds 0) := by
      have : ContinuousAt (fun w' : ι → ℝ => ∑ i, σ w i * Real.log (w' i / w i)) w := by
        refine tendsto_finsetSum _ fun i _ => ?_
        refine Filter.Tendsto.const_mul _ ?_
        have hd : ContinuousAt (fun w' : ι → ℝ => w' i / w i) w :=
          (continuous_apply i).continuousAt.div_const _
        exact hd.log (div_pos (hw i) (hw i)).ne'
      have h0 : ∑ i, σ w i * Real.log (w i / w i) = 0 :=
        sum_eq_zero fun i _ => by rw [div_self (hw i).ne', Real.log_one, mul_zero]
      have h1 := this.tendsto.mono_left (nhdsWithin_le_nhds (s := {w | ∀ i, 0 < w i}))
      rwa [h0] at h1
    have hlin : Filter.Tendsto (fun w' : ι → ℝ => ∑ i, σ w i * (w' i / w i - 1))
        (nhdsWithin w {w | ∀ i, 0 < w i}) (nhds 0) := by
      have : Continuous (fun w' : ι → ℝ => ∑ i, σ w i * (w' i / w i - 1)) := by fun_prop
      have h0 : ∑ i, σ w i * (w i / w i - 1) = 0 :=
        sum_eq_zero fun i _ => by rw [div_self (hw i).ne', sub_self, mul_zero]
      have h1 := this.continuousAt.tendsto.mono_left (nhdsWithin_le_nhds (a := w) (s := {w | ∀ i, 0 < w i}))
      rwa [h0] at h1
    have h2 : Filter.Tendsto (fun w' => L w' - L w) (nhdsWithin w {w | ∀ i, 0 < w i}) (nhds 0) := by
      refine tendsto_of_tendsto_of_tendsto_of_le_of_le' hlog hlin ?_ ?_
      · filter_upwards [self_mem_nhdsWithin] with w' hw' using h.lo w w' hw hw'
      · filter_upwards [self_mem_nhdsWithin] with w' hw' using h.up' w w' hw hw'
    have h3 := h2.add_const (L w)
    simp only [sub_add_cancel, zero_add] at h3
    exact h3
  unfold climb
  refine hL.add (continuousOn_finsetSum _ fun i _ => ?_)
  refine (ContinuousOn.mul continuousOn_const ?_).sub (continuous_apply i).continuousOn
  exact ContinuousOn.log (continuous_apply i).continuousOn fun w hw => (hw i).ne'

/-- The fixed point exists. -/
theorem exists_fixed (h : Potential κ σ L) (hβ : 0 < β) :
    ∃ v : ι → ℝ, (∀ i, 0 < v i) ∧ ∀ i, v i = σ v i + β := by
  have hK : IsCompact (Set.pi Set.univ fun _ : ι => Set.Icc β (1 + β)) := isCompact_univ_pi fun _ => isCompact_Icc
  have hmem : ∀ w : ι → ℝ, w ∈ (Set.pi Set.univ fun _ : ι => Set.Icc β (1 + β)) ↔ WBox β (1 + β) w := by
    exact fun w => ⟨fun h i => h i (Set.mem_univ i), fun h i _ => h i⟩
  obtain ⟨v, hv, hmax⟩ := hK.exists_isMaxOn ⟨fun _ => β, by rw [hmem]; intro i; constructor <;> linarith⟩
    ((climb_continuousOn h β).mono (s := {w | ∀ i, 0 < w i}) fun w hw i =>
      hβ.trans_le ((hmem w).1 hw i).1)
  have hb := (hmem v).1 hv
  have hp : ∀ i, 0 < v i := fun i => hβ.trans_le (hb i).1
  refine ⟨v, hp, fixed_of_max h hβ.le hp ?_⟩
  exact hmax ((hmem _).2 (WBox.map h hβ le_rfl le_rfl hb))

/-! ### Rates -/

section Rates
variable {l B : ℝ} {v w : ι → ℝ}

/-- Distance to the fixed point from the size of the gradient. -/
theorem dist_of_grad (h : Potential κ σ L) (hβ : 0 ≤ β) (hκ : 0 < κ) (hB : 0 < B) (hv : ∀ i, 0 < v i)
    (hf : ∀ i, v i = σ v i + β) (hvB : ∀ i, v i ≤ B) (hp : ∀ i, 0 < w i) (hwB : ∀ i, w i ≤ B) :
    climb L β v - climb L β w ≤ 4 * B / κ * ∑ i, ((σ w i + β) / w i - 1) ^ 2 ∧
    ∑ i, (w i - v i) ^ 2 ≤ (4 * B / κ) ^ 2 * ∑ i, ((σ w i + β) / w i - 1) ^ 2 := by
  have h1 := climb_fixed_sq h hβ hv hf hp hB hvB hwB
  have h2 := climb_le h hβ hp hv
  set D := ∑ i, (w i - v i) ^ 2 with hD
  set S := ∑ i, ((σ w i + β) / w i - 1) ^ 2 with hS
  have hD0 : 0 ≤ D := sum_nonneg fun i _ => sq_nonneg _
  have hS0 : 0 ≤ S := sum_nonneg fun i _ => sq_nonneg _
  have h3 : ∑ i, ((σ w i + β) / w i - 1) * (v i - w i) ≤ Real.sqrt S * Real.sqrt D := by
    have := Real.sum_mul_le_sqrt_mul_sqrt univ (fun i => (σ w i + β) / w i - 1) (fun i => v i - w i)
    have e : ∑ i, (v i - w i) ^ 2 = D := sum_congr rfl fun i _ => by ring
    rwa [e] at this
  have hsD : Real.sqrt D ≤ 4 * B / κ * Real.sqrt S := by
    rcases eq_or_lt_of_le (Real.sqrt_nonneg D) with h0 | h0
    · rw [← h0]; positivity
    · have e1 : κ / (4 * B) * (Real.sqrt D * Real.sqrt D) ≤ Real.sqrt S * Real.sqrt D := by
        rw [Real.mul_self_sqrt hD0]; linarith
      have e2 : κ / (4 * B) * Real.sqrt D ≤ Real.sqrt S := by
        refine le_of_mul_le_mul_right ?_ h0
        linarith
      calc Real.sqrt D = (4 * B / κ) * (κ / (4 * B) * Real.sqrt D) := by field_simp
        _ ≤ _ := mul_le_mul_of_nonneg_left e2 (by positivity)
  constructor
  · calc climb L β v - climb L β w ≤ Real.sqrt S * Real.sqrt D := h2.trans h3
      _ ≤ Real.sqrt S * (4 * B / κ * Real.sqrt S) := mul_le_mul_of_nonneg_left hsD (Real.sqrt_nonneg _)
      _ = 4 * B / κ * (Real.sqrt S * Real.sqrt S) := by ring
      _ = _ := by rw [Real.mul_self_sqrt hS0]
  · calc D = Real.sqrt D ^ 2 := (Real.sq_sqrt hD0).symm
      _ ≤ (4 * B / κ * Real.sqrt S) ^ 2 := pow_le_pow_left₀ (Real.sqrt_nonneg _) hsD 2
      _ = _ := by rw [mul_pow, Real.sq_sqrt hS0]

theorem grad_le_step (hl : 0 < l) (hw : ∀ i, l ≤ w i) :
    ∑ i, ((σ w i + β) / w i - 1) ^ 2 ≤ 4 / l ^ 2 * ∑ i, (avgMap σ β w i - w i) ^ 2 := by
  rw [mul_sum]
  refine sum_le_sum fun i _ => ?_
  have hp := hl.trans_le (hw i)
  have e : (σ w i + β) / w i - 1 = 2 * (avgMap σ β w i - w i) / w i := by
    have := hp.ne'; unfold avgMap; field_simp; ring
  rw [e, div_pow, mul_pow]
  calc 2 ^ 2 * (avgMap σ β w i - w i) ^ 2 / w i ^ 2 ≤ 2 ^ 2 * (avgMap σ β w i - w i) ^ 2 / l ^ 2 :=
        div_le_div_of_nonneg_left (by positivity) (by positivity) (pow_le_pow_left₀ hl.le (hw i) 2)
    _ = _ := by ring

/-- Distance to the fixed point from the length of the next step. -/
theorem dist_of_step (h : Potential κ σ L) (hβ : 0 ≤ β) (hκ : 0 < κ) (hl : 0 < l) (hlB : l ≤ B) (hv : ∀ i, 0 < v i)
    (hf : ∀ i, v i = σ v i + β) (hvB : ∀ i, v i ≤ B) (hw : WBox l B w) :
    climb L β v - climb L β w ≤ 16 * B / (κ * l ^ 2) * ∑ i, (avgMap σ β w i - w i) ^ 2 ∧
    ∑ i, (w i - v i) ^ 2 ≤ (8 * B / (κ * l)) ^ 2 * ∑ i, (avgMap σ β w i - w i) ^ 2 := by
  have hB : 0 < B := hl.trans_le hlB
  have h1 := dist_of_grad h hβ hκ hB hv hf hvB (fun i => hl.trans_le (hw i).1) fun i => (hw i).2
  have h2 := grad_le_step (σ := σ) (β := β) hl fun i => (hw i).1
  constructor
  · calc _ ≤ _ := h1.1
      _ ≤ 4 * B / κ * (4 / l ^ 2 * ∑ i, (avgMap σ β w i - w i) ^ 2) := mul_le_mul_of_nonneg_left h2 (by positivity)
      _ = _ := by field_simp; ring
  · calc _ ≤ _ := h1.2
      _ ≤ (4 * B / κ) ^ 2 * (4 / l ^ 2 * ∑ i, (avgMap σ β w i - w i) ^ 2) := mul_le_mul_of_nonneg_left h2 (by positivity)
      _ = _ := by field_simp; ring

/-- The gap to the maximum shrinks by a constant factor in every step. -/
theorem gap_step (h : Potential κ σ L) (hβ : 0 ≤ β) (hκ : 0 < κ) (hl : 0 < l) (hlβ : l ≤ β) (hB : 1 + β ≤ B) (hv : ∀ i, 0 < v i)
    (hf : ∀ i, v i = σ v i + β) (hw : WBox l B w) :
    climb L β v - climb L β (avgMap σ β w) ≤
      (1 - κ * l ^ 2 / (16 * B ^ 2)) * (climb L β v - climb L β w) := by
  have hB0 : 0 < B := by linarith
  have hvb := WBox.fixed h hv hf
  have h1 := (dist_of_step h hβ hκ hl (by linarith) hv hf (fun i => (hvb i).2.trans hB) hw).1
  have hp : ∀ i, 0 < w i := fun i => hl.trans_le (hw i).1
  have h2 := climb_gain h hβ hp
  have hb := WBox.map h hl hlβ hB hw
  have h3 : (∑ i, (avgMap σ β w i - w i) ^ 2) / B ≤ ∑ i, (avgMap σ β w i - w i) ^ 2 / avgMap σ β w i := by
    rw [sum_div]
    exact sum_le_sum fun i _ => div_le_div_of_nonneg_left (sq_nonneg _) (hl.trans_le (hb i).1) (hb i).2
  have h4 : κ * l ^ 2 / (16 * B ^ 2) * (climb L β v - climb L β w) ≤ (∑ i, (avgMap σ β w i - w i) ^ 2) / B := by
    calc _ ≤ κ * l ^ 2 / (16 * B ^ 2) * (16 * B / (κ * l ^ 2) * ∑ i, (avgMap σ β w i - w i) ^ 2) :=
          mul_le_mul_of_nonneg_left h1 (by positivity)
      _ = _ := by field_simp
  linarith

theorem WBox.iterate (h : Potential κ σ L) (hl : 0 < l) (hlβ : l ≤ β) (hB : 1 + β ≤ B) (hw : WBox l B w)
    (t : ℕ) : WBox l B ((avgMap σ β)^[t] w) := by
  induction t with
  | zero => exact hw
  | succ t ih => rw [Function.iterate_succ_apply']; exact ih.map h hl hlβ hB

theorem rate_nonneg (hβ : 0 < β) (hκ : 0 < κ) (hκ1 : κ ≤ 1) (hl : 0 < l) (hlβ : l ≤ β) (hB : 1 + β ≤ B) :
    0 ≤ 1 - κ * l ^ 2 / (16 * B ^ 2) ∧ 1 - κ * l ^ 2 / (16 * B ^ 2) < 1 := by
  have hB0 : 0 < B := by linarith
  have hlB : l ≤ B := by linarith
  have : κ * l ^ 2 / (16 * B ^ 2) ≤ 1 := by
    rw [div_le_one (by positivity)]
    calc κ * l ^ 2 ≤ 1 * B ^ 2 := mul_le_mul hκ1 (pow_le_pow_left₀ hl.le hlB 2) (by positivity) zero_le_one
      _ ≤ 16 * B ^ 2 := by nlinarith [pow_pos hB0 2]
  have : 0 < κ * l ^ 2 / (16 * B ^ 2) := by positivity
  constructor <;> linarith

theorem gap_iterate (h : Potential κ σ L) (hβ : 0 < β) (hκ : 0 < κ) (hl : 0 < l) (hlβ : l ≤ β) (hB : 1 + β ≤ B) (hv : ∀ i, 0 < v i)
    (hf : ∀ i, v i = σ v i + β) (hw : WBox l B w) (t : ℕ) :
    climb L β v - climb L β ((avgMap σ β)^[t] w) ≤
      (1 - κ * l ^ 2 / (16 * B ^ 2)) ^ t * (climb L β v - climb L β w) := by
  induction t with
  | zero => simp
  | succ t ih =>
    rw [Function.iterate_succ_apply', pow_succ']
    have hq := rate_nonneg hβ hκ h.kle hl hlβ hB
    calc _ ≤ (1 - κ * l ^ 2 / (16 * B ^ 2)) * (climb L β v - climb L β ((avgMap σ β)^[t] w)) :=
          gap_step h hβ.le hκ hl hlβ hB hv hf (hw.iterate h hl hlβ hB t)
      _ ≤ (1 - κ * l ^ 2 / (16 * B ^ 2)) * ((1 - κ * l ^ 2 / (16 * B ^ 2)) ^ t * (climb L β v - climb L β w)) :=
          mul_le_mul_of_nonneg_left ih hq.1
      _ = _ := by ring

/-- Geometric convergence of the iterates, and of the steps. -/
theorem iterate_rate (h : Potential κ σ L) (hβ : 0 < β) (hκ : 0 < κ) (hl : 0 < l) (hlβ : l ≤ β) (hB : 1 + β ≤ B) (hv : ∀ i, 0 < v i)
    (hf : ∀ i, v i = σ v i + β) (hw : WBox l B w) {G : ℝ} (hG : climb L β v - climb L β w ≤ G) (t : ℕ) :
    ∑ i, ((avgMap σ β)^[t] w i - v i) ^ 2 ≤ 4 * B / κ * ((1 - κ * l ^ 2 / (16 * B ^ 2)) ^ t * G) ∧
    ∑ i, ((avgMap σ β)^[t + 1] w i - (avgMap σ β)^[t] w i) ^ 2 ≤ B * ((1 - κ * l ^ 2 / (16 * B ^ 2)) ^ t * G) := by
  have hB0 : 0 < B := by linarith
  have hq := rate_nonneg hβ hκ h.kle hl hlβ hB
  have hg := gap_iterate h hβ hκ hl hlβ hB hv hf hw t
  have hg' := hg.trans (mul_le_mul_of_nonneg_left hG (pow_nonneg hq.1 t))
  have hb := hw.iterate h hl hlβ hB t
  have hp : ∀ i, 0 < (avgMap σ β)^[t] w i := fun i => hl.trans_le (hb i).1
  have hvb := WBox.fixed h hv hf
  constructor
  · have h1 := climb_fixed_sq h hβ.le hv hf hp hB0 (fun i => (hvb i).2.trans hB) fun i => (hb i).2
    calc _ = 4 * B / κ * (κ / (4 * B) * ∑ i, ((avgMap σ β)^[t] w i - v i) ^ 2) := by field_simp
      _ ≤ _ := mul_le_mul_of_nonneg_left (h1.trans hg') (by positivity)
  · rw [Function.iterate_succ_apply']
    set u := (avgMap σ β)^[t] w
    have h2 := climb_gain h hβ.le hp
    have hb' := WBox.map h hl hlβ hB hb
    have h3 : (∑ i, (avgMap σ β u i - u i) ^ 2) / B ≤ ∑ i, (avgMap σ β u i - u i) ^ 2 / avgMap σ β u i := by
      rw [sum_div]
      exact sum_le_sum fun i _ => div_le_div_of_nonneg_left (sq_nonneg _) (hl.trans_le (hb' i).1) (hb' i).2
    have h4 := climb_fixed_max h hβ.le hv hf fun i => hl.trans_le (hb' i).1
    calc _ = B * ((∑ i, (avgMap σ β u i - u i) ^ 2) / B) := by field_simp
      _ ≤ _ := mul_le_mul_of_nonneg_left (by linarith) hB0.le

/-- The total squared length of all steps is bounded by the initial gap. -/
theorem total_steps (h : Potential κ σ L) (hβ : 0 < β) (hl : 0 < l) (hlβ : l ≤ β) (hB : 1 + β ≤ B) (hv : ∀ i, 0 < v i)
    (hf : ∀ i, v i = σ v i + β) (hw : WBox l B w) {G : ℝ} (hG : climb L β v - climb L β w ≤ G) (N : ℕ) :
    ∑ t ∈ range N, ∑ i, ((avgMap σ β)^[t + 1] w i - (avgMap σ β)^[t] w i) ^ 2 ≤ B * G := by
  have hB0 : 0 < B := by linarith
  have key : ∀ N, (∑ t ∈ range N, ∑ i, ((avgMap σ β)^[t + 1] w i - (avgMap σ β)^[t] w i) ^ 2) / B ≤
      climb L β ((avgMap σ β)^[N] w) - climb L β w := by
    intro N
    induction N with
    | zero => simp
    | succ N ih =>
      rw [sum_range_succ, add_div]
      have hb := hw.iterate h hl hlβ hB N
      have hp : ∀ i, 0 < (avgMap σ β)^[N] w i := fun i => hl.trans_le (hb i).1
      simp only [Function.iterate_succ_apply'] at ih ⊢
      set u := (avgMap σ β)^[N] w
      have h2 := climb_gain h hβ.le hp
      have hb' := WBox.map h hl hlβ hB hb
      have h3 : (∑ i, (avgMap σ β u i - u i) ^ 2) / B ≤ ∑ i, (avgMap σ β u i - u i) ^ 2 / avgMap σ β u i := by
        rw [sum_div]
        exact sum_le_sum fun i _ => div_le_div_of_nonneg_left (sq_nonneg _) (hl.trans_le (hb' i).1) (hb' i).2
      linarith
  have h4 := climb_fixed_max h hβ.le hv hf fun i => hl.trans_le (hw.iterate h hl hlβ hB N i).1
  have h5 : (∑ t ∈ range N, ∑ i, ((avgMap σ β)^[t + 1] w i - (avgMap σ β)^[t] w i) ^ 2) / B ≤ G := by
    linarith [key N]
  rw [div_le_iff₀ hB0] at h5
  linarith

/-- If no step up to `N` has all its coordinates below `LIM`, `N` is bounded. -/
theorem steps_bound (h : Potential κ σ L) (hβ : 0 < β) (hl : 0 < l) (hlβ : l ≤ β) (hB : 1 + β ≤ B) (hv : ∀ i, 0 < v i)
    (hf : ∀ i, v i = σ v i + β) (hw : WBox l B w) {G : ℝ} (hG : climb L β v - climb L β w ≤ G) {LIM : ℝ} (hL : 0 < LIM)
    {N : ℕ} (hN : ∀ t < N, ∃ i, LIM ≤ |(avgMap σ β)^[t + 1] w i - (avgMap σ β)^[t] w i|) :
    N * LIM ^ 2 ≤ B * G := by
  refine le_trans ?_ (total_steps h hβ hl hlβ hB hv hf hw hG N)
  have : (N : ℝ) * LIM ^ 2 = ∑ _t ∈ range N, LIM ^ 2 := by simp
  rw [this]
  refine sum_le_sum fun t ht => ?_
  obtain ⟨i, hi⟩ := hN t (mem_range.1 ht)
  calc LIM ^ 2 ≤ |(avgMap σ β)^[t + 1] w i - (avgMap σ β)^[t] w i| ^ 2 := pow_le_pow_left₀ hL.le hi 2
    _ = ((avgMap σ β)^[t + 1] w i - (avgMap σ β)^[t] w i) ^ 2 := sq_abs _
    _ ≤ _ := single_le_sum (f := fun i => ((avgMap σ β)^[t + 1] w i - (avgMap σ β)^[t] w i) ^ 2)
      (fun i _ => sq_nonneg _) (mem_univ i)

/-- The gap at a point of the box, and at all ones. -/
theorem gap_box (h : Potential κ σ L) (hβ : 0 < β) (hv : ∀ i, 0 < v i) (hf : ∀ i, v i = σ v i + β)
    (hw : WBox β (1 + β) w) : climb L β v - climb L β w ≤ Fintype.card ι / β := by
  have hp : ∀ i, 0 < w i := fun i => hβ.trans_le (hw i).1
  have hvb := WBox.fixed h hv hf
  refine (climb_le h hβ.le hp hv).trans ?_
  have : (Fintype.card ι : ℝ) / β = ∑ _i : ι, 1 / β := by simp [Finset.card_univ, div_eq_mul_inv]
  rw [this]
  refine sum_le_sum fun i _ => ?_
  refine (le_abs_self _).trans ?_
  rw [abs_mul]
  have h1 : |(σ w i + β) / w i - 1| ≤ 1 / β := by
    have e : (σ w i + β) / w i - 1 = (σ w i + β - w i) / w i := by have := (hp i).ne'; field_simp
    rw [e, abs_div, abs_of_pos (hp i)]
    have : |σ w i + β - w i| ≤ 1 := by
      have := h.nonneg w hp i; have := h.le_one w hp i; have := hw i
      rw [abs_le]; constructor <;> linarith
    exact div_le_div₀ zero_le_one this hβ (hw i).1
  have h2 : |v i - w i| ≤ 1 := by
    have := hvb i; have := hw i
    rw [abs_le]; constructor <;> linarith
  calc _ ≤ 1 / β * 1 := mul_le_mul h1 h2 (abs_nonneg _) (by positivity)
    _ = _ := mul_one _

theorem gap_one (h : Potential κ σ L) (hβ : 0 < β) (hβ1 : β ≤ 1) (hv : ∀ i, 0 < v i) (hf : ∀ i, v i = σ v i + β) :
    climb L β v - climb L β (fun _ => 1) ≤ Fintype.card ι := by
  have hp : ∀ i : ι, (0 : ℝ) < (fun _ => (1 : ℝ)) i := fun i => one_pos
  have hvb := WBox.fixed h hv hf
  refine (climb_le h hβ.le hp hv).trans ?_
  have : (Fintype.card ι : ℝ) = ∑ _i : ι, (1 : ℝ) := by simp [Finset.card_univ]
  rw [this]
  refine sum_le_sum fun i _ => ?_
  refine (le_abs_self _).trans ?_
  rw [abs_mul]
  have h1 : |(σ (fun _ => 1) i + β) / 1 - 1| ≤ 1 := by
    have := h.nonneg _ hp i; have := h.le_one _ hp i
    rw [abs_le]; constructor <;> linarith
  have h2 : |v i - 1| ≤ 1 := by
    have := hvb i
    rw [abs_le]; constructor <;> linarith
  calc _ ≤ (1 : ℝ) * 1 := mul_le_mul h1 h2 (abs_nonneg _) one_pos.le
    _ = _ := mul_one _

end Rates
end PW

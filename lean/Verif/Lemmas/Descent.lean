import Verif.Lemmas.Potential

/-!
# Gradient descent on the potential

`w ↦ w - h (1 - σ(w)/w)` on a box `[l, 1]` on which the scores stay above `l`, with `2h ≤ l`.
-/

namespace PW
open Finset
variable {ι : Type} [Fintype ι] {κ : ℝ} {σ : (ι → ℝ) → ι → ℝ} {L : (ι → ℝ) → ℝ} {h l : ℝ} {v w : ι → ℝ}

/-- One step of gradient descent. -/
noncomputable def gdMap (σ : (ι → ℝ) → ι → ℝ) (h : ℝ) (w : ι → ℝ) : ι → ℝ := fun i => w i - h * (1 - σ w i / w i)

/-- On the box `[l, 1]` the scores stay above `l`. -/
def ScoreFloor (σ : (ι → ℝ) → ι → ℝ) (l : ℝ) : Prop := ∀ w, WBox l 1 w → ∀ i, l ≤ σ w i

/-- The squared length of the relative defect. -/
noncomputable def defectSq (σ : (ι → ℝ) → ι → ℝ) (w : ι → ℝ) : ℝ := ∑ i, (1 - σ w i / w i) ^ 2

theorem defectSq_nonneg (σ : (ι → ℝ) → ι → ℝ) (w : ι → ℝ) : 0 ≤ defectSq σ w := sum_nonneg fun _ _ => sq_nonneg _

theorem defectSq_eq (σ : (ι → ℝ) → ι → ℝ) (w : ι → ℝ) : ∑ i, ((σ w i + 0) / w i - 1) ^ 2 = defectSq σ w :=
  sum_congr rfl fun i _ => by ring

theorem gd_box (hP : Potential κ σ L) (hl : 0 < l) (hs : ScoreFloor σ l) (hh : 0 ≤ h) (h2 : h ≤ l) (hw : WBox l 1 w) :
    WBox l 1 (gdMap σ h w) := by
  have hp : ∀ i, 0 < w i := fun i => hl.trans_le (hw i).1
  intro i
  have hwi := hp i
  have h1 : l ≤ σ w i := hs w hw i
  have h3 := hP.le_one w hp i
  have h4 := hw i
  have hq : 0 ≤ 1 - h / w i := by
    rw [sub_nonneg, div_le_one hwi]; linarith
  have e1 : gdMap σ h w i - l = (w i - l) * (1 - h / w i) + h / w i * (σ w i - l) := by
    unfold gdMap; field_simp; ring
  have e2 : 1 - gdMap σ h w i = (1 - w i) * (1 - h / w i) + h / w i * (1 - σ w i) := by
    unfold gdMap; field_simp; ring
  have hq' : 0 ≤ h / w i := div_nonneg hh hwi.le
  constructor
  · have := add_nonneg (mul_nonneg (sub_nonneg.2 h4.1) hq) (mul_nonneg hq' (sub_nonneg.2 h1))
    linarith
  · have := add_nonneg (mul_nonneg (sub_nonneg.2 h4.2) hq) (mul_nonneg hq' (sub_nonneg.2 h3))
    linarith

theorem gd_box_iterate (hP : Potential κ σ L) (hl : 0 < l) (hs : ScoreFloor σ l) (hh : 0 ≤ h) (h2 : h ≤ l) (hw : WBox l 1 w)
    (t : ℕ) : WBox l 1 ((gdMap σ h)^[t] w) := by
  induction t with
  | zero => exact hw
  | succ t ih => rw [Function.iterate_succ_apply']; exact gd_box hP hl hs hh h2 ih

/-- A step climbs by at least `h l / 2` times the squared defect. -/
theorem gd_gain (hP : Potential κ σ L) (hl : 0 < l) (hs : ScoreFloor σ l) (hh : 0 ≤ h) (h2 : 2 * h ≤ l) (hw : WBox l 1 w) :
    h * l / 2 * defectSq σ w ≤ climb L 0 (gdMap σ h w) - climb L 0 w := by
  have hp : ∀ i, 0 < w i := fun i => hl.trans_le (hw i).1
  have hb := gd_box hP hl hs hh (by linarith) hw
  have ht : ∀ i, 0 < gdMap σ h w i := fun i => hl.trans_le (hb i).1
  rw [climb_sub 0 hp ht]
  refine le_trans ?_ (add_le_add_left (hP.lo w _ hp ht) _)
  unfold defectSq
  rw [← sum_add_distrib, mul_sum]
  refine sum_le_sum fun i _ => ?_
  have h1 := one_sub_inv_le_log' (hp i) (ht i)
  have h3 := mul_le_mul_of_nonneg_left h1 (hP.nonneg w hp i)
  have hti := ht i
  have hwi := hp i
  have e : σ w i * ((gdMap σ h w i - w i) / gdMap σ h w i) + (0 * Real.log (gdMap σ h w i / w i) - (gdMap σ h w i - w i)) =
      h * ((w i - h) / gdMap σ h w i) * (1 - σ w i / w i) ^ 2 := by
    have e1 : gdMap σ h w i - w i = -h * (1 - σ w i / w i) := by unfold gdMap; ring
    have e2 : (w i - h) * (1 - σ w i / w i) = gdMap σ h w i - σ w i := by unfold gdMap; field_simp; ring
    have e3 : h * ((w i - h) / gdMap σ h w i) * (1 - σ w i / w i) ^ 2 =
        h * (1 - σ w i / w i) * ((w i - h) * (1 - σ w i / w i)) / gdMap σ h w i := by ring
    rw [e3, e2, e1]
    field_simp
    ring
  rw [zero_mul] at e ⊢
  refine le_trans ?_ (add_le_add_left h3 _)
  rw [e]
  refine mul_le_mul_of_nonneg_right ?_ (sq_nonneg _)
  rw [mul_div_assoc]
  refine mul_le_mul_of_nonneg_left ?_ hh
  have h5 := (hw i).1
  rw [le_div_iff₀ hti]
  nlinarith [(hb i).2]

theorem gd_gap_step (hP : Potential κ σ L) (hκ : 0 < κ) (hl : 0 < l) (hs : ScoreFloor σ l) (hh : 0 ≤ h) (h2 : 2 * h ≤ l)
    (hv : ∀ i, 0 < v i) (hf : ∀ i, v i = σ v i + 0) (hw : WBox l 1 w) :
    climb L 0 v - climb L 0 (gdMap σ h w) ≤ (1 - κ * h * l / 8) * (climb L 0 v - climb L 0 w) := by
  have hp : ∀ i, 0 < w i := fun i => hl.trans_le (hw i).1
  have hvb : ∀ i, v i ≤ 1 := fun i => by have := (WBox.fixed hP hv hf i).2; linarith
  have h1 := (dist_of_grad hP le_rfl hκ one_pos hv hf hvb hp fun i => (hw i).2).1
  rw [defectSq_eq] at h1
  have h3 := gd_gain hP hl hs hh h2 hw
  have h4 : κ * h * l / 8 * (climb L 0 v - climb L 0 w) ≤ h * l / 2 * defectSq σ w := by
    calc _ ≤ κ * h * l / 8 * (4 * 1 / κ * defectSq σ w) := mul_le_mul_of_nonneg_left h1 (by positivity)
      _ = _ := by field_simp; ring
  linarith

theorem gd_rate_range (hκ : 0 < κ) (hκ1 : κ ≤ 1) (hl : 0 < l) (hl1 : l ≤ 1) (hh : 0 ≤ h) (h2 : 2 * h ≤ l) :
    0 ≤ 1 - κ * h * l / 8 ∧ 1 - κ * h * l / 8 ≤ 1 := by
  have : κ * h * l ≤ 1 := by
    calc κ * h * l ≤ 1 * 1 * 1 := by gcongr; linarith
      _ = 1 := by ring
  constructor
  · linarith
  · have : 0 ≤ κ * h * l := by positivity
    linarith

/-- Geometric convergence. -/
theorem gd_rate (hP : Potential κ σ L) (hκ : 0 < κ) (hl : 0 < l) (hl1 : l ≤ 1) (hs : ScoreFloor σ l) (hh : 0 ≤ h) (h2 : 2 * h ≤ l)
    (hv : ∀ i, 0 < v i) (hf : ∀ i, v i = σ v i + 0) (hw : WBox l 1 w) {G : ℝ} (hG : climb L 0 v - climb L 0 w ≤ G) (t : ℕ) :
    ∑ i, ((gdMap σ h)^[t] w i - v i) ^ 2 ≤ 4 / κ * ((1 - κ * h * l / 8) ^ t * G) := by
  have hq := gd_rate_range hκ hP.kle hl hl1 hh h2
  have hg : climb L 0 v - climb L 0 ((gdMap σ h)^[t] w) ≤ (1 - κ * h * l / 8) ^ t * (climb L 0 v - climb L 0 w) := by
    induction t with
    | zero => simp
    | succ t ih =>
      rw [Function.iterate_succ_apply', pow_succ']
      have := gd_gap_step hP hκ hl hs hh h2 hv hf (gd_box_iterate hP hl hs hh (by linarith) hw t)
      calc _ ≤ _ := this
        _ ≤ _ := mul_le_mul_of_nonneg_left ih hq.1
        _ = _ := by ring
  have hg' := hg.trans (mul_le_mul_of_nonneg_left hG (pow_nonneg hq.1 t))
  have hb := gd_box_iterate hP hl hs hh (by linarith) hw t
  have hvb : ∀ i, v i ≤ 1 := fun i => by have := (WBox.fixed hP hv hf i).2; linarith
  have h1 := climb_fixed_sq hP le_rfl hv hf (fun i => hl.trans_le (hb i).1) one_pos hvb fun i => (hb i).2
  calc _ = 4 / κ * (κ / (4 * 1) * ∑ i, ((gdMap σ h)^[t] w i - v i) ^ 2) := by field_simp
    _ ≤ _ := mul_le_mul_of_nonneg_left (h1.trans hg') (by positivity)

/-- If the defect is at least `g` at the first `N` points, `N` is bounded. -/
theorem gd_steps (hP : Potential κ σ L) (hl : 0 < l) (hs : ScoreFloor σ l) (hh : 0 ≤ h) (h2 : 2 * h ≤ l)
    (hv : ∀ i, 0 < v i) (hf : ∀ i, v i = σ v i + 0) (hw : WBox l 1 w) {G g : ℝ} (hG : climb L 0 v - climb L 0 w ≤ G) {N : ℕ}
    (hN : ∀ t < N, g ≤ defectSq σ ((gdMap σ h)^[t] w)) : N * (h * l / 2 * g) ≤ G := by
  have key : ∀ N : ℕ, (∀ t < N, g ≤ defectSq σ ((gdMap σ h)^[t] w)) →
      N * (h * l / 2 * g) ≤ climb L 0 ((gdMap σ h)^[N] w) - climb L 0 w := by
    intro N
    induction N with
    | zero => intro _; simp
    | succ N ih =>
      intro hN
      have h1 := ih fun t ht => hN t (by omega)
      have h3 := gd_gain hP hl hs hh h2 (gd_box_iterate hP hl hs hh (by linarith) hw N)
      rw [Function.iterate_succ_apply']
      have h4 := mul_le_mul_of_nonneg_left (hN N (by omega)) (show 0 ≤ h * l / 2 by positivity)
      push_cast
      linarith
  have h4 := climb_fixed_max hP le_rfl hv hf fun i => hl.trans_le (gd_box_iterate hP hl hs hh (by linarith) hw N i).1
  linarith [key N hN]

/-- The gap at a point of the box. -/
theorem gd_gap (hP : Potential κ σ L) (hl : 0 < l) (hv : ∀ i, 0 < v i) (hf : ∀ i, v i = σ v i + 0) (hw : WBox l 1 w) :
    climb L 0 v - climb L 0 w ≤ Fintype.card ι / l := by
  have hp : ∀ i, 0 < w i := fun i => hl.trans_le (hw i).1
  refine (climb_le hP le_rfl hp hv).trans ?_
  have : (Fintype.card ι : ℝ) / l = ∑ _i : ι, 1 / l := by simp [Finset.card_univ, div_eq_mul_inv]
  rw [this]
  refine sum_le_sum fun i _ => ?_
  refine (le_abs_self _).trans ?_
  rw [abs_mul]
  have h1 : |(σ w i + 0) / w i - 1| ≤ 1 / l := by
    have e : (σ w i + 0) / w i - 1 = (σ w i - w i) / w i := by have := (hp i).ne'; field_simp; ring
    rw [e, abs_div, abs_of_pos (hp i)]
    have : |σ w i - w i| ≤ 1 := by
      have := hP.nonneg w hp i; have := hP.le_one w hp i; have := hw i; have := hp i
      rw [abs_le]; constructor <;> linarith
    exact div_le_div₀ zero_le_one this hl (hw i).1
  have h2 : |v i - w i| ≤ 1 := by
    have := WBox.fixed hP hv hf i; have := hw i; have := hp i
    rw [abs_le]; constructor <;> linarith
  calc _ ≤ 1 / l * 1 := mul_le_mul h1 h2 (abs_nonneg _) (by positivity)
    _ = _ := mul_one _

theorem gd_gap_one (hP : Potential κ σ L) (hv : ∀ i, 0 < v i) (hf : ∀ i, v i = σ v i + 0) :
    climb L 0 v - climb L 0 (fun _ => 1) ≤ Fintype.card ι := by
  have := gd_gap (w := fun _ => 1) hP one_pos hv hf fun i => ⟨le_rfl, le_rfl⟩
  rwa [div_one] at this

/-- A fixed point in the box. -/
theorem exists_fixed_floor (hP : Potential κ σ L) (hl : 0 < l) (hl1 : l ≤ 1) (hs : ScoreFloor σ l) :
    ∃ v : ι → ℝ, WBox l 1 v ∧ ∀ i, v i = σ v i + 0 := by
  have hK : IsCompact (Set.pi Set.univ fun _ : ι => Set.Icc l (1 : ℝ)) := isCompact_univ_pi fun _ => isCompact_Icc
  have hmem : ∀ w : ι → ℝ, w ∈ (Set.pi Set.univ fun _ : ι => Set.Icc l (1 : ℝ)) ↔ WBox l 1 w := by
    exact fun w => ⟨fun h i => h i (Set.mem_univ i), fun h i _ => h i⟩
  obtain ⟨v, hv, hmax⟩ := hK.exists_isMaxOn ⟨fun _ => 1, by rw [hmem]; intro i; exact ⟨hl1, le_rfl⟩⟩
    ((climb_continuousOn hP 0).mono (s := {w | ∀ i, 0 < w i}) fun w hw i => hl.trans_le ((hmem w).1 hw i).1)
  rw [hmem] at hv
  have hp : ∀ i, 0 < v i := fun i => hl.trans_le (hv i).1
  refine ⟨v, hv, fixed_of_max hP le_rfl hp (hmax ((hmem _).2 fun i => ?_))⟩
  have h1 : l ≤ σ v i := hs v hv i
  have h2 := hP.le_one v hp i
  have h3 := hv i
  unfold avgMap
  constructor <;> linarith

end PW

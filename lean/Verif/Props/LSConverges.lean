import Verif.Lemmas.LevFloor
import Verif.Spec.JohnWeights
import Verif.Spec.LSWeights
import Verif.Props.JohnConverges

/-!
# C74: the Lee-Sidford weights, and when `DikinLSWalk` finds them
-/

namespace PW
open Classical Matrix
variable {m n : ℕ}

/-! ## The loop -/

/-- The gradient loop as an iteration. -/
theorem lsLoop_run {I : (Fin m → ℝ) → Prop} {grad g' : (Fin m → ℝ) → Fin m → ℝ} {upd : (Fin m → ℝ) → (Fin m → ℝ) → Fin m → ℝ}
    {spec : (Fin m → ℝ) → Fin m → ℝ} (hg : ∀ w, I w → grad w = g' w)
    (hs : ∀ w, I w → upd w (g' w) = spec w) (hI : ∀ w, I w → I (spec w)) {GLIM : ℝ} :
    ∀ (N : ℕ) (w0 : Fin m → ℝ), I w0 →
      ∃ (t : ℕ) (c : Bool), lsLoop grad upd GLIM N w0 = (spec^[t] w0, c) ∧ t ≤ N ∧
        (∀ s < t, GLIM ≤ norm2 (g' (spec^[s] w0))) ∧
        (c = true → norm2 (g' (spec^[t] w0)) < GLIM) ∧ (c = false → t = N) := by
  intro N
  induction N with
  | zero => exact fun w0 _ => ⟨0, false, rfl, le_rfl, fun s hs => absurd hs (by omega), by simp, fun _ => rfl⟩
  | succ N ih =>
    intro w0 h
    simp only [lsLoop]
    rw [hg w0 h]
    split
    · rename_i hlt
      exact ⟨0, true, rfl, Nat.zero_le _, fun s hs => absurd hs (by omega), fun _ => by simpa using hlt, by simp⟩
    · rename_i hlt
      have hge : GLIM ≤ norm2 (g' w0) := by simpa using hlt
      rw [hs w0 h]
      obtain ⟨t, c, h1, h2, h3, h4, h5⟩ := ih _ (hI _ h)
      refine ⟨t + 1, c, ?_, by omega, ?_, ?_, fun h => by rw [h5 h]⟩
      · rw [h1, Function.iterate_succ_apply]
      · intro s hs'
        cases s with
        | zero => exact hge
        | succ s => rw [Function.iterate_succ_apply]; exact h3 s (by omega)
      · intro h; rw [Function.iterate_succ_apply]; exact h4 h

theorem norm2_sq_real (v : Fin m → ℝ) : norm2 v ^ 2 = ∑ i, v i ^ 2 := by
  rw [norm2_real, Real.sq_sqrt (Finset.sum_nonneg fun i _ => mul_self_nonneg _)]
  exact Finset.sum_congr rfl fun i _ => (sq _).symm

theorem norm2_nonneg_real (v : Fin m → ℝ) : 0 ≤ norm2 v := by rw [norm2_real]; exact Real.sqrt_nonneg _

/-! ## Exponent -/

theorem lsExponent_range (m : ℕ) : 0 ≤ lsExponent m ∧ lsExponent m < 1 := by
  have hl : 0 ≤ Real.log m := Real.log_natCast_nonneg m
  have h1 : (2 : ℝ) / (2 * (1 + Real.log m)) ≤ 1 := by rw [div_le_one (by linarith)]; linarith
  have h2 : (0 : ℝ) < 2 / (2 * (1 + Real.log m)) := by positivity
  unfold lsExponent
  constructor <;> linarith

theorem one_sub_lsExponent (m : ℕ) : 1 - lsExponent m = 1 / (1 + Real.log m) := by
  have hl : 0 ≤ Real.log m := Real.log_natCast_nonneg m
  unfold lsExponent; field_simp; ring

/-! ## Existence and uniqueness -/

theorem lsWeights_unique {M : Matrix (Fin m) (Fin n) ℝ} (hM : IndepCols M) {α : ℝ} (h0 : 0 ≤ α) (h1 : α < 1) {v w : Fin m → ℝ}
    (hv : IsLSWeights α M v) (hw : IsLSWeights α M w) : v = w := by
  obtain ⟨L, hL⟩ := exists_potential hM h0 h1.le
  have hvf : ∀ i, v i = lev (scaledRows v (α / 2) M) i + 0 := fun i => by rw [add_zero]; exact hv.eq i
  have hwf : ∀ i, w i = lev (scaledRows w (α / 2) M) i + 0 := fun i => by rw [add_zero]; exact hw.eq i
  exact fixed_unique hL le_rfl (by linarith) hw.pos hwf hv.pos (climb_fixed_max hL le_rfl hv.pos hvf hw.pos)

theorem lsWeights_exists {M : Matrix (Fin m) (Fin n) ℝ} (hM : IndepCols M) {α : ℝ} (h0 : 0 ≤ α) (h1 : α < 1)
    (hr : ∀ i, ∃ j, M i j ≠ 0) : ∃ w, IsLSWeights α M w := by
  obtain ⟨L, hL⟩ := exists_potential hM h0 h1.le
  obtain ⟨l, hl, hl1, hf⟩ := exists_floor (τ := lev M) (fun i => (lev_pos_iff hM i).2 (hr i)) (κ := 1 - α) (by linarith)
  obtain ⟨v, hv, he⟩ := exists_fixed_floor hL hl hl1 (lev_floor hM h0 hl hf)
  exact ⟨v, fun i => hl.trans_le (hv i).1, fun i => by have := he i; rwa [add_zero] at this⟩

/-- **C74** (1): at an interior point there is a vector of Lee-Sidford weights iff no constraint has a zero normal. -/
theorem C74_exists_iff (x : Fin n → ℝ) (A : Matrix (Fin m) (Fin n) ℝ) (b : Fin m → ℝ) (hA : IndepCols A) (hx : x ∈ Interior A b) :
    (∃ w, IsLSWeights (lsExponent m) (normals x A b) w) ↔ ∀ i, ∃ j, A i j ≠ 0 := by
  have hN := normals_indep hx hA
  have hα := lsExponent_range m
  have hrow : (∀ i, ∃ j, normals x A b i j ≠ 0) ↔ ∀ i, ∃ j, A i j ≠ 0 := by
    refine forall_congr' fun i => exists_congr fun j => ?_
    have : b i - (A *ᵥ x) i ≠ 0 := (sub_pos.2 (hx i)).ne'
    unfold normals
    rw [Ne, div_eq_zero_iff, not_or]
    exact ⟨fun h => h.1, fun h => ⟨h, this⟩⟩
  rw [← hrow]
  refine ⟨fun ⟨w, hw⟩ i => ?_, fun h => lsWeights_exists hN hα.1 hα.2 h⟩
  have h1 : 0 < lev (scaledRows w (lsExponent m / 2) (normals x A b)) i := by rw [← hw.eq i]; exact hw.pos i
  obtain ⟨j, hj⟩ := (lev_pos_iff (scaledRows_indep hN hw.pos _) i).1 h1
  exact ⟨j, fun h => hj (by show _ * _ = _; rw [h, mul_zero])⟩

/-- **C74** (2): and there is never more than one. -/
theorem C74_unique (x : Fin n → ℝ) (A : Matrix (Fin m) (Fin n) ℝ) (b : Fin m → ℝ) (hA : IndepCols A) (hx : x ∈ Interior A b)
    (v w : Fin m → ℝ) (hv : IsLSWeights (lsExponent m) (normals x A b) v) (hw : IsLSWeights (lsExponent m) (normals x A b) w) :
    v = w := lsWeights_unique (normals_indep hx hA) (lsExponent_range m).1 (lsExponent_range m).2 hv hw

/-- **C74** (3): they are the maximisers of the program. -/
theorem C74_program (x : Fin n → ℝ) (A : Matrix (Fin m) (Fin n) ℝ) (b : Fin m → ℝ) (hm : 2 ≤ m) (hA : IndepCols A)
    (hx : x ∈ Interior A b) (w : Fin m → ℝ) :
    IsLSWeights (lsExponent m) (normals x A b) w ↔
      (∀ i, 0 < w i) ∧ ∀ u : Fin m → ℝ, (∀ i, 0 < u i) →
        lsObjective (lsExponent m) (normals x A b) u ≤ lsObjective (lsExponent m) (normals x A b) w := by
  have hα := lsExponent_pos hm
  have hP := potential_pos (normals_indep hx hA) hα (lsExponent_range m).2.le
  have hobj : ∀ u : Fin m → ℝ, lsObjective (lsExponent m) (normals x A b) u = lsExponent m * climb (fun w => 1 / lsExponent m *
      Real.log ((normals x A b)ᵀ * diagonal (fun i => w i ^ lsExponent m) * normals x A b).det) 0 u := by
    intro u
    unfold lsObjective climb
    simp only [zero_mul, zero_sub, Finset.sum_neg_distrib]
    field_simp
    ring
  constructor
  · intro h
    refine ⟨h.pos, fun u hu => ?_⟩
    rw [hobj, hobj]
    exact mul_le_mul_of_nonneg_left (climb_fixed_max hP le_rfl h.pos (fun i => by rw [add_zero]; exact h.eq i) hu) hα.le
  · rintro ⟨hw, hmax⟩
    refine ⟨hw, fun i => ?_⟩
    have := fixed_of_max hP le_rfl hw (by
      have := hmax _ (avgMap_pos hP le_rfl hw)
      rw [hobj, hobj] at this
      exact le_of_mul_le_mul_left this hα) i
    rwa [add_zero] at this

/-! ## What a converged call returns -/

theorem ls_defect {E : Eigen ℝ} (hE : E.InvExact) {M : Matrix (Fin m) (Fin n) ℝ} (hM : IndepCols M) (α : ℝ) {w : Fin m → ℝ}
    (hw : ∀ i, 0 < w i) :
    norm2 (lsGrad E α M w) ^ 2 = α ^ 2 * defectSq (fun w i => lev (scaledRows w (α / 2) M) i) w := by
  rw [norm2_sq_real, defectSq, Finset.mul_sum]
  refine Finset.sum_congr rfl fun i _ => ?_
  rw [lsGrad_real hE hM α hw i]
  ring

/-- Near-solutions are near the weights. -/
theorem ls_near {κ α GLIM : ℝ} {ι : Type} [Fintype ι] {σ : (ι → ℝ) → ι → ℝ} {L : (ι → ℝ) → ℝ} (hP : Potential κ σ L) (hκ : 0 < κ)
    (hG : 0 ≤ GLIM) (hα : GLIM < α) {v w : ι → ℝ} (hv : ∀ i, 0 < v i) (hf : ∀ i, v i = σ v i) (hw : ∀ i, 0 < w i)
    (hd : α ^ 2 * defectSq σ w ≤ GLIM ^ 2) : ∑ i, (w i - v i) ^ 2 ≤ (4 / κ * (GLIM / (α - GLIM))) ^ 2 := by
  have hα0 : 0 < α := hG.trans_lt hα
  have hαG : 0 < α - GLIM := by linarith
  have hvf : ∀ i, v i = σ v i + 0 := fun i => by rw [add_zero]; exact hf i
  have hB : 0 < α / (α - GLIM) := div_pos hα0 hαG
  have hB1 : 1 ≤ α / (α - GLIM) := by rw [one_le_div hαG]; linarith
  have hvB : ∀ i, v i ≤ α / (α - GLIM) := fun i => by
    have := (WBox.fixed hP hv hvf i).2; linarith
  have hwB : ∀ i, w i ≤ α / (α - GLIM) := fun i => by
    have h1 : (1 - σ w i / w i) ^ 2 ≤ defectSq σ w :=
      Finset.single_le_sum (f := fun i => (1 - σ w i / w i) ^ 2) (fun j _ => sq_nonneg _) (Finset.mem_univ i)
    have h2 : (α * (1 - σ w i / w i)) ^ 2 ≤ GLIM ^ 2 := by
      rw [mul_pow]; exact (mul_le_mul_of_nonneg_left h1 (sq_nonneg _)).trans hd
    have h3 := (abs_le_of_sq_le_sq' h2 hG).2
    have h4 := hP.le_one w hw i
    have hwi := hw i
    rw [le_div_iff₀ hαG]
    have h5 : α * (w i - σ w i) ≤ GLIM * w i := by
      have := mul_le_mul_of_nonneg_right h3 hwi.le
      have e : α * (1 - σ w i / w i) * w i = α * (w i - σ w i) := by field_simp
      linarith
    nlinarith
  have h1 := (dist_of_grad hP le_rfl hκ hB hv hvf hvB hw hwB).2
  rw [defectSq_eq] at h1
  have h2 : defectSq σ w ≤ GLIM ^ 2 / α ^ 2 := by rw [le_div_iff₀ (by positivity)]; linarith
  calc _ ≤ _ := h1
    _ ≤ (4 * (α / (α - GLIM)) / κ) ^ 2 * (GLIM ^ 2 / α ^ 2) := mul_le_mul_of_nonneg_left h2 (sq_nonneg _)
    _ = _ := by field_simp

/-- **C74** (4): whatever the object's past and the step size, when the loop stops by its criterion the weights returned are near
the Lee-Sidford weights. -/
theorem C74_converged (E : Eigen ℝ) (hE : E.InvExact) (GLIM STEP : ℝ) (hG : 0 ≤ GLIM) (M : Int) (o : BState ℝ) (w0 : Fin m → ℝ)
    (ho : StartsFrom o.w m w0) (h0 : ∀ i, 0 < w0 i) (x : Fin n → ℝ) (A : Matrix (Fin m) (Fin n) ℝ) (b : Fin m → ℝ) (hA : IndepCols A)
    (hx : x ∈ Interior A b) (hα : GLIM < lsExponent m) (v : Fin m → ℝ) (hv : IsLSWeights (lsExponent m) (normals x A b) v)
    (w : Fin m → ℝ) (hw : lsWeightConv E GLIM STEP M o.w x A b = .ok (w, true)) :
    distSq w v ≤ (4 * (1 + Real.log m) * (GLIM / (lsExponent m - GLIM))) ^ 2 := by
  have hN := normals_indep hx hA
  have hr := lsExponent_range m
  obtain ⟨L, hP⟩ := exists_potential hN hr.1 hr.2.le
  unfold lsWeightConv at hw
  rw [warmStart_iff.2 ho, Out.ok_bind, scaledA_real, lsAlpha_real] at hw
  have hs := lsLoop_spec (I := fun w : Fin m → ℝ => ∀ i, 0 < w i)
    (grad := lsGrad E (lsExponent m) (normals x A b))
    (upd := fun w g i => cmax (w i - STEP * g i) (lsErr * 1)) (GLIM := GLIM)
    (by
      intro w _ i
      rw [cmax_real]
      refine lt_of_lt_of_le ?_ (le_max_right _ _)
      simp [lsErr]) M.toNat w0 h0
  rw [Out.ok.inj hw] at hs
  have hg := hs.2 rfl
  have hd := ls_defect hE hN (lsExponent m) hs.1
  have h1 := ls_near hP (by linarith [hr.2]) hG hα hv.pos hv.eq hs.1 (GLIM := GLIM) (by
    rw [← hd]; exact pow_le_pow_left₀ (norm2_nonneg_real _) hg.le 2)
  have hl : 0 ≤ Real.log m := Real.log_natCast_nonneg m
  have e : 4 / (1 - lsExponent m) = 4 * (1 + Real.log m) := by rw [one_sub_lsExponent]; field_simp
  rw [e] at h1
  exact h1

/-- **C74** (5): two objects with any histories and step sizes, asked at the same point, agree whenever both loops stop by their
criterion. -/
theorem C74_history (E : Eigen ℝ) (hE : E.InvExact) (GLIM STEP STEP' : ℝ) (hG : 0 ≤ GLIM) (M M' : Int) (o o' : BState ℝ)
    (w0 w0' : Fin m → ℝ) (ho : StartsFrom o.w m w0) (h0 : ∀ i, 0 < w0 i) (ho' : StartsFrom o'.w m w0') (h0' : ∀ i, 0 < w0' i)
    (x : Fin n → ℝ) (A : Matrix (Fin m) (Fin n) ℝ) (b : Fin m → ℝ) (hA : IndepCols A) (hr : ∀ i, ∃ j, A i j ≠ 0)
    (hx : x ∈ Interior A b) (hα : GLIM < lsExponent m) (w w' : Fin m → ℝ)
    (hw : lsWeightConv E GLIM STEP M o.w x A b = .ok (w, true)) (hw' : lsWeightConv E GLIM STEP' M' o'.w x A b = .ok (w', true)) :
    distSq w w' ≤ (8 * (1 + Real.log m) * (GLIM / (lsExponent m - GLIM))) ^ 2 := by
  obtain ⟨v, hv⟩ := (C74_exists_iff x A b hA hx).2 hr
  have h1 := C74_converged E hE GLIM STEP hG M o w0 ho h0 x A b hA hx hα v hv w hw
  have h2 := C74_converged E hE GLIM STEP' hG M' o' w0' ho' h0' x A b hA hx hα v hv w' hw'
  have h3 := distSq_triangle w v w'
  set q := GLIM / (lsExponent m - GLIM)
  calc _ ≤ _ := h3
    _ ≤ 2 * (4 * (1 + Real.log m) * q) ^ 2 + 2 * (4 * (1 + Real.log m) * q) ^ 2 := by linarith
    _ = _ := by ring

/-- **C74** (6): with a zero normal the loop never stops by its criterion. -/
theorem C74_zero_row (E : Eigen ℝ) (hE : E.InvExact) (GLIM STEP : ℝ) (M : Int) (o : BState ℝ) (w0 : Fin m → ℝ)
    (ho : StartsFrom o.w m w0) (h0 : ∀ i, 0 < w0 i) (x : Fin n → ℝ) (A : Matrix (Fin m) (Fin n) ℝ) (b : Fin m → ℝ) (hA : IndepCols A)
    (hx : x ∈ Interior A b) (hα : GLIM ≤ lsExponent m) (i : Fin m) (hi : ∀ j, A i j = 0) (w : Fin m → ℝ) (c : Bool)
    (hw : lsWeightConv E GLIM STEP M o.w x A b = .ok (w, c)) : c = false := by
  have hN := normals_indep hx hA
  have hr := lsExponent_range m
  unfold lsWeightConv at hw
  rw [warmStart_iff.2 ho, Out.ok_bind, scaledA_real, lsAlpha_real] at hw
  have hs := lsLoop_spec (I := fun w : Fin m → ℝ => ∀ i, 0 < w i)
    (grad := lsGrad E (lsExponent m) (normals x A b))
    (upd := fun w g i => cmax (w i - STEP * g i) (lsErr * 1)) (GLIM := GLIM)
    (by
      intro w _ i
      rw [cmax_real]
      refine lt_of_lt_of_le ?_ (le_max_right _ _)
      simp [lsErr]) M.toNat w0 h0
  rw [Out.ok.inj hw] at hs
  by_contra hc
  have hg := abs_lt_of_norm2_lt (hs.2 (by simpa using hc)) i
  rw [lsGrad_real hE hN _ hs.1] at hg
  have hz : lev (scaledRows w (lsExponent m / 2) (normals x A b)) i = 0 := by
    have h2 := lev_nonneg _ (scaledRows_indep hN hs.1 (lsExponent m / 2)) i
    rcases h2.eq_or_lt with h | h
    · exact h.symm
    · obtain ⟨j, hj⟩ := (lev_pos_iff (scaledRows_indep hN hs.1 (lsExponent m / 2)) i).1 h
      refine absurd ?_ hj
      show _ * (A i j / _) = 0
      rw [hi j, zero_div, mul_zero]
  rw [hz, mul_zero, sub_zero, abs_of_nonneg hr.1] at hg
  linarith

/-! ## When the descent converges -/

/-- **C74** (7): if the leverage scores of the constraints are at least `l^(1/(1+ln n))`, `l` is above the floor of the program and
twice the step size times `α` is at most `l`, the loop, started anywhere in `[l, 1]`, stays there, converges geometrically to the
Lee-Sidford weights, and stops by its criterion after a bounded number of passes. -/
theorem C74_descent (E : Eigen ℝ) (hE : E.InvExact) (R GLIM STEP : ℝ) (hG : 0 < GLIM) (hS : 0 < STEP) (M : Int) (o : BState ℝ)
    (w0 : Fin m → ℝ) (ho : StartsFrom o.w m w0) (x : Fin n → ℝ) (A : Matrix (Fin m) (Fin n) ℝ) (b : Fin m → ℝ)
    (hm : 2 ≤ m) (hA : IndepCols A) (hx : x ∈ Interior A b) (l : ℝ) (hl : 1 / 100000 ≤ l) (hl1 : l ≤ 1)
    (hτ : ∀ i, l ^ (1 / (1 + Real.log m)) ≤ lev (normals x A b) i) (h2 : 2 * (STEP * lsExponent m) ≤ l)
    (hbox : ∀ i, l ≤ w0 i ∧ w0 i ≤ 1) :
    ∃ (v w : Fin m → ℝ) (t : ℕ) (conv : Bool),
      IsLSWeights (lsExponent m) (normals x A b) v ∧ (∀ i, l ≤ v i ∧ v i ≤ 1) ∧
      (dikinLSClass E R GLIM STEP M).generateWeight o x A b = .ok (⟨m, w⟩, { o with w := ⟨m, w⟩ }) ∧
      lsWeightConv E GLIM STEP M o.w x A b = .ok (w, conv) ∧ t ≤ M.toNat ∧ (conv = false → t = M.toNat) ∧
      (∀ i, l ≤ w i ∧ w i ≤ 1) ∧
      t * (STEP * l * GLIM ^ 2) ≤ 2 * lsExponent m * m / l ∧
      (2 * lsExponent m * m / l < M.toNat * (STEP * l * GLIM ^ 2) → conv = true) ∧
      distSq w v ≤ 4 * (1 + Real.log m) * (m / l) * (1 - STEP * lsExponent m * l / (8 * (1 + Real.log m))) ^ t ∧
      ((∀ i, w0 i = 1) → t * (STEP * l * GLIM ^ 2) ≤ 2 * lsExponent m * m ∧
        (2 * lsExponent m * m < M.toNat * (STEP * l * GLIM ^ 2) → conv = true) ∧
        distSq w v ≤ 4 * (1 + Real.log m) * m * (1 - STEP * lsExponent m * l / (8 * (1 + Real.log m))) ^ t) := by
  have hN := normals_indep hx hA
  have hr := lsExponent_range m
  have hα := lsExponent_pos hm
  have hl0 : 0 < l := by linarith
  have hlog : 0 ≤ Real.log m := Real.log_natCast_nonneg m
  set α := lsExponent m with hαdef
  have hκe : 1 - α = 1 / (1 + Real.log m) := one_sub_lsExponent m
  have hκ : 0 < 1 - α := by linarith [hr.2]
  obtain ⟨L, hP⟩ := exists_potential hN hr.1 hr.2.le
  have hF : ScoreFloor (fun w i => lev (scaledRows w (α / 2) (normals x A b)) i) l :=
    lev_floor hN hr.1 hl0 fun i => by rw [hκe]; exact hτ i
  set σ : (Fin m → ℝ) → Fin m → ℝ := fun w i => lev (scaledRows w (α / 2) (normals x A b)) i with hσ
  obtain ⟨v, hvb, hvf⟩ := exists_fixed_floor hP hl0 hl1 hF
  have hvp : ∀ i, 0 < v i := fun i => hl0.trans_le (hvb i).1
  have hh : 0 ≤ STEP * α := by positivity
  obtain ⟨t, c, hrun, htN, hbefore, hc, hc'⟩ := lsLoop_run (I := fun w : Fin m → ℝ => WBox l 1 w)
    (grad := lsGrad E α (normals x A b)) (g' := lsGrad E α (normals x A b))
    (upd := fun w g i => cmax (w i - STEP * g i) (lsErr * 1)) (spec := gdMap σ (STEP * α)) (fun _ _ => rfl)
    (fun w hw => by
      have hp : ∀ i, 0 < w i := fun i => hl0.trans_le (hw i).1
      have hb := gd_box hP hl0 hF hh (by linarith) hw
      funext i
      have e : w i - STEP * lsGrad E α (normals x A b) w i = gdMap σ (STEP * α) w i := by
        rw [lsGrad_real hE hN α hp i]; unfold gdMap; rw [hσ]; ring
      rw [cmax_real, e]
      refine max_eq_left (le_trans ?_ (hb i).1)
      simpa [lsErr] using hl)
    (fun w hw => gd_box hP hl0 hF hh (by linarith) hw) (GLIM := GLIM) M.toNat w0 hbox
  have hb := gd_box_iterate hP hl0 hF hh (by linarith) (w := w0) hbox
  have hwc : lsWeightConv E GLIM STEP M o.w x A b = .ok ((gdMap σ (STEP * α))^[t] w0, c) := by
    unfold lsWeightConv
    rw [warmStart_iff.2 ho, Out.ok_bind, scaledA_real, lsAlpha_real, hrun]
  have hdef : ∀ s < t, GLIM ^ 2 / α ^ 2 ≤ defectSq σ ((gdMap σ (STEP * α))^[s] w0) := by
    intro s hs
    rw [div_le_iff₀ (by positivity), mul_comm, ← ls_defect hE hN α fun i => hl0.trans_le (hb s i).1]
    exact pow_le_pow_left₀ hG.le (hbefore s hs) 2
  have hsteps : ∀ G, climb L 0 v - climb L 0 w0 ≤ G → t * (STEP * l * GLIM ^ 2) ≤ 2 * α * G := by
    intro G hG'
    have := gd_steps hP hl0 hF hh h2 hvp hvf hbox hG' hdef
    have e : STEP * α * l / 2 * (GLIM ^ 2 / α ^ 2) = STEP * l * GLIM ^ 2 / (2 * α) := by field_simp
    rw [e, mul_div_assoc', div_le_iff₀ (by positivity)] at this
    linarith
  have hcon : ∀ G, climb L 0 v - climb L 0 w0 ≤ G → 2 * α * G < M.toNat * (STEP * l * GLIM ^ 2) → c = true := by
    intro G hG' hlt
    by_contra hcc
    rw [← hc' (by simpa using hcc)] at hlt
    exact absurd (hsteps G hG') (not_le.2 hlt)
  have hrate : ∀ G, climb L 0 v - climb L 0 w0 ≤ G → distSq ((gdMap σ (STEP * α))^[t] w0) v ≤
      4 * (1 + Real.log m) * G * (1 - STEP * α * l / (8 * (1 + Real.log m))) ^ t := by
    intro G hG'
    have := gd_rate hP hκ hl0 hl1 hF hh h2 hvp hvf hbox hG' t
    have e1 : 4 / (1 - α) = 4 * (1 + Real.log m) := by rw [hκe]; field_simp
    have e2 : (1 - α) * (STEP * α) * l / 8 = STEP * α * l / (8 * (1 + Real.log m)) := by rw [hκe]; field_simp
    rw [e1, e2] at this
    refine le_trans this (le_of_eq ?_)
    ring
  have hgap : climb L 0 v - climb L 0 w0 ≤ m / l := by
    have := gd_gap hP hl0 hvp hvf hbox
    rwa [Fintype.card_fin] at this
  have e0 : 2 * α * m / l = 2 * α * (m / l) := by ring
  rw [e0]
  refine ⟨v, (gdMap σ (STEP * α))^[t] w0, t, c, ⟨hvp, fun i => by have := hvf i; rwa [add_zero] at this⟩, hvb, ?_, hwc, htN, hc', hb t,
    hsteps _ hgap, hcon _ hgap, hrate _ hgap, fun h1 => ?_⟩
  · show (lsWeightConv E GLIM STEP M o.w x A b).map _ = _
    rw [hwc]; rfl
  · have hg1 : climb L 0 v - climb L 0 w0 ≤ m := by
      have := gd_gap_one hP hvp hvf
      rw [Fintype.card_fin] at this
      rwa [show w0 = fun _ => 1 from funext h1]
    exact ⟨hsteps _ hg1, hcon _ hg1, hrate _ hg1⟩

end PW

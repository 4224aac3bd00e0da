import Verif.Lemmas.Leverage
import Verif.Props.AnyArith
import Verif.Spec.WarmStart
import Mathlib.Analysis.SpecialFunctions.Pow.Real

/-!
# C21–C23, C25–C27, C32: weights, metric and constants of the dense barrier walks
-/

namespace PW
open Classical Matrix
variable {m n : ℕ}

/-! ## Vaidya -/

/-- **C21**: Vaidya weights are leverage scores of the slack-normalised constraints plus `d/n`; they lie in
`[d/n, 1 + d/n]` and sum to `2d`. -/
theorem C21_vaidya (E : Eigen ℝ) (hE : E.InvExact) (R : ℝ) (o : BState ℝ) (x : Fin n → ℝ)
    (A : Matrix (Fin m) (Fin n) ℝ) (b : Fin m → ℝ) (hA : IndepCols A) (hx : x ∈ Interior A b) :
    ∃ w : Fin m → ℝ, (vaidyaClass E R).generateWeight o x A b = .ok (⟨m, w⟩, o) ∧
      (∀ i, w i = lev (normals x A b) i + (n : ℝ) / m) ∧
      (∀ i, (n : ℝ) / m ≤ w i ∧ w i ≤ 1 + (n : ℝ) / m) ∧ ∑ i, w i = 2 * n := by
  have hM := normals_indep hx hA
  have hw : ∀ i, vaidyaWeight E x A b i = lev (normals x A b) i + (n : ℝ) / m := by
    intro i
    simp only [vaidyaWeight, scaledA_real, levScores_real _ hM hE, rsc_ofInt, Int.cast_natCast]
  refine ⟨vaidyaWeight E x A b, rfl, hw, ?_, ?_⟩
  · intro i
    rw [hw i]
    exact ⟨by linarith [lev_nonneg _ hM i], by linarith [lev_le_one _ hM i]⟩
  · simp only [hw, Finset.sum_add_distrib, lev_sum _ hM, Finset.sum_const, Finset.card_univ,
      Fintype.card_fin, nsmul_eq_mul]
    rcases Nat.eq_zero_or_pos m with rfl | hm
    · have : n = 0 := by have := hA.le; omega
      subst this; simp
    · field_simp; ring

/-! ## John -/

/-- `w ↦ ½ (w + lev(diag(w^{α/2}) M) + β)`: the fixed point map of the John weights. -/
noncomputable def johnMap (α β : ℝ) (M : Matrix (Fin m) (Fin n) ℝ) (w : Fin m → ℝ) : Fin m → ℝ :=
  fun i => (w i + lev (scaledRows w (α / 2) M) i + β) / 2

theorem johnNext_real {E : Eigen ℝ} (hE : E.InvExact) {M : Matrix (Fin m) (Fin n) ℝ} (hM : IndepCols M)
    (α β : ℝ) {w : Fin m → ℝ} (hw : ∀ i, 0 < w i) : johnNext E α β M w = johnMap α β M w := by
  funext i
  have hS := scaledRows_indep hM hw (α / 2)
  unfold johnNext johnMap
  rw [powScaled_real, levScores_real _ hS hE, cmax_real, half_real, max_eq_left]
  · ring
  · have := lev_nonneg _ hS i
    have := hw i
    show β ≤ w i + lev _ i + β
    linarith

/-- Bounds preserved by the John update. -/
structure JohnInv (β : ℝ) (w : Fin m → ℝ) : Prop where
  lower : ∀ i, β < w i
  upper : ∀ i, w i ≤ 1 + β

theorem JohnInv.map {M : Matrix (Fin m) (Fin n) ℝ} (hM : IndepCols M) {α β : ℝ} (hβ : 0 ≤ β)
    {w : Fin m → ℝ} (h : JohnInv β w) : JohnInv β (johnMap α β M w) := by
  have hS := scaledRows_indep hM (fun i => hβ.trans_lt (h.lower i)) (α / 2)
  constructor <;> intro i
  · have := h.lower i; have := lev_nonneg _ hS i; simp only [johnMap]; linarith
  · have := h.upper i; have := lev_le_one _ hS i; simp only [johnMap]; linarith

theorem johnMap_sum {M : Matrix (Fin m) (Fin n) ℝ} (hM : IndepCols M) {α β : ℝ} {w : Fin m → ℝ}
    (hw : ∀ i, 0 < w i) : ∑ i, johnMap α β M w i = (∑ i, w i + n + m * β) / 2 := by
  have hS := scaledRows_indep hM hw (α / 2)
  simp only [johnMap, ← Finset.sum_div, Finset.sum_add_distrib, lev_sum _ hS]
  simp

/-- What the fixed point loop returns: an iterate of the update from the start, and on convergence the next
iterate is within the limit. Generic in the update, under an invariant `I` preserved by it. -/
theorem johnLoop_iterate {I : (Fin m → ℝ) → Prop} {next spec : (Fin m → ℝ) → Fin m → ℝ}
    (hs : ∀ w, I w → next w = spec w) (hI : ∀ w, I w → I (spec w))
    {diff : (Fin m → ℝ) → (Fin m → ℝ) → Fin m → ℝ} (hd : ∀ u v i, diff u v i = |u i - v i|) {LIM : ℝ} :
    ∀ (N : ℕ) (w0 nw w : Fin m → ℝ) (c : Bool), I w0 → I nw →
      johnLoop next diff LIM N w0 nw = .ok (w, c) →
      (N = 0 ∧ w = w0 ∧ c = false) ∨
      ∃ t < N, w = spec^[t] nw ∧ I w ∧ (c = true → ∀ i, |spec w i - w i| < LIM) ∧
        (c = false → t + 1 = N) := by
  intro N
  induction N with
  | zero =>
    intro w0 nw w c _ _ h
    simp only [johnLoop, Out.ok.injEq, Prod.mk.injEq] at h
    exact .inl ⟨rfl, h.1.symm, h.2.symm⟩
  | succ N ih =>
    intro w0 nw w c _ hn h
    right
    simp only [johnLoop] at h
    obtain ⟨mx, hmx, h⟩ := Out.bind_eq_ok.1 h
    rw [hs nw hn] at h hmx
    split at h
    · rename_i hlt
      simp only [Out.ok.injEq, Prod.mk.injEq] at h
      obtain ⟨rfl, rfl⟩ := h
      refine ⟨0, by omega, rfl, hn, fun _ i => ?_, by simp⟩
      rcases Nat.eq_zero_or_pos m with h0 | h0
      · subst h0; exact i.elim0
      · obtain ⟨c', h1, h2, _⟩ := maxCoeff_real (diff (spec nw) nw) h0
        rw [h1] at hmx
        simp only [Out.ok.injEq] at hmx
        subst hmx
        have := h2 i
        rw [hd] at this
        simp only [rsc_lt, decide_eq_true_eq] at hlt
        linarith
    · rcases ih _ _ _ _ hn (hI _ hn) h with ⟨h0, rfl, rfl⟩ | ⟨t, ht, hw, hw', hc, hc'⟩
      · exact ⟨0, by omega, rfl, hn, by simp, by simp [h0]⟩
      · refine ⟨t + 1, by omega, ?_, hw', hc, fun h => by have := hc' h; omega⟩
        rw [hw]; rfl

/-- The John exponent the dense code uses (integer division inside the logarithm). -/
noncomputable def denseJohnAlpha (m n : ℕ) : ℝ := 1 - 1 / Real.logb 2 ((2 * m / n : ℕ) : ℝ)

/-- The code starts there (src/dense/JohnWalk.cpp:15-17 and its copies, `warmStart` in the model). -/
theorem warmStart_iff {w : DVec ℝ} {m : ℕ} {w0 : Fin m → ℝ} : warmStart w m = .ok w0 ↔ StartsFrom w m w0 := by
  unfold warmStart
  constructor
  · intro h
    split at h
    · rename_i h0
      split at h
      · rename_i hm
        split at h
        · rename_i he
          cases h
          exact .unset h0 (Or.inr (by simpa using he))
        · rename_i he
          cases h
          exact .stored h0 hm (by simpa using he)
      · rename_i hm
        cases h
        exact .unset h0 (Or.inl hm)
    · cases h
  · intro h
    cases h with
    | unset h0 h =>
      rw [dif_pos h0]
      split
      · rename_i hm
        rw [if_pos]
        have := h.resolve_left (fun h => h hm)
        simp [this]
      · rfl
    | stored h0 h hne =>
      rw [dif_pos h0, dif_pos h, if_neg]
      simpa using hne

theorem startsAtOnes_fresh (junk : ℝ) (m : ℕ) : StartsAtOnes (BState.fresh junk).w m :=
  .unset (w := (BState.fresh junk).w) (show 0 < 1 by norm_num) (Or.inr (show (0 : ℝ) - 1 = -1 by norm_num))

theorem startsAtOnes_ones (m : ℕ) (hm : 0 < m) : StartsAtOnes (ones m) m :=
  .stored (w := ones m) hm rfl (show (1 : ℝ) ≠ -1 by norm_num)

/-- The fixed point map of the John walk at `x`. -/
noncomputable def johnUpdate (x : Fin n → ℝ) (A : Matrix (Fin m) (Fin n) ℝ) (b : Fin m → ℝ) :
    (Fin m → ℝ) → Fin m → ℝ :=
  johnMap (denseJohnAlpha m n) ((n : ℝ) / (2 * m)) (normals x A b)

theorem john_sum_iter {M : Matrix (Fin m) (Fin n) ℝ} (hM : IndepCols M) (hm : 0 < m) {α : ℝ}
    (t : ℕ) (w0 : Fin m → ℝ) (h0 : JohnInv ((n : ℝ) / (2 * m)) w0) :
    JohnInv ((n : ℝ) / (2 * m)) ((johnMap α ((n : ℝ) / (2 * m)) M)^[t] w0) ∧
    ∑ i, (johnMap α ((n : ℝ) / (2 * m)) M)^[t] w0 i =
      3 * n / 2 + (∑ i, w0 i - 3 * n / 2) / 2 ^ t := by
  have hβ : (0 : ℝ) ≤ (n : ℝ) / (2 * m) := by positivity
  induction t with
  | zero => simpa using h0
  | succ t ih =>
    obtain ⟨h1, h2⟩ := ih
    rw [Function.iterate_succ_apply']
    refine ⟨h1.map hM hβ, ?_⟩
    rw [johnMap_sum hM (fun i => hβ.trans_lt (h1.lower i)), h2, pow_succ]
    have : (m : ℝ) * (n / (2 * m)) = n / 2 := by field_simp
    rw [this]
    field_simp
    ring

/-- **C22**: the John weights on an object whose iteration starts from all ones. -/
theorem C22_john (E : Eigen ℝ) (hE : E.InvExact) (R LIM : ℝ) (M : Int) (hM : 1 ≤ M) (o : BState ℝ)
    (ho : StartsAtOnes o.w m) (x : Fin n → ℝ) (A : Matrix (Fin m) (Fin n) ℝ) (b : Fin m → ℝ)
    (hn : 0 < n) (hA : IndepCols A) (hx : x ∈ Interior A b) :
    ∃ (w : Fin m → ℝ) (t : ℕ) (conv : Bool),
      (johnClass E R LIM M).generateWeight o x A b = .ok (⟨m, w⟩, { o with w := ⟨m, w⟩ }) ∧
      johnWeightConv E LIM M o.w x A b = .ok (w, conv) ∧
      w = (johnUpdate x A b)^[t] (fun _ => 1) ∧ (t : Int) < M ∧ (conv = false → (t : Int) + 1 = M) ∧
      (∀ i, (n : ℝ) / (2 * m) < w i ∧ w i ≤ 1 + (n : ℝ) / (2 * m)) ∧
      ∑ i, w i = 3 * n / 2 + (m - 3 * n / 2) / 2 ^ t ∧
      (conv = true →
        (∀ i, |w i - (lev (scaledRows w (denseJohnAlpha m n / 2) (normals x A b)) i +
          (n : ℝ) / (2 * m))| < 2 * LIM) ∧
        |∑ i, w i - 3 * n / 2| ≤ 2 * m * LIM) := by
  have hm : 0 < m := lt_of_lt_of_le hn hA.le
  have hN := normals_indep hx hA
  set β : ℝ := (n : ℝ) / (2 * m) with hβdef
  have hβ : 0 ≤ β := by positivity
  have hβ2 : β ≤ 1 / 2 := by
    have : (n : ℝ) ≤ m := by exact_mod_cast hA.le
    rw [hβdef, div_le_div_iff₀ (by positivity) (by norm_num)]; linarith
  have h1 : JohnInv β (fun _ : Fin m => (1 : ℝ)) := ⟨fun _ => by linarith, fun _ => by linarith⟩
  have hal : johnAlpha (F := ℝ) m n = .ok (denseJohnAlpha m n) := by
    unfold johnAlpha denseJohnAlpha
    rw [if_neg (by omega), rsc_log2, rsc_ofInt, Int.cast_natCast]
  have hbe : johnBeta (F := ℝ) m n = β := by simp [johnBeta, hβdef]
  have hconv : ∃ wc, johnWeightConv E LIM M o.w x A b = .ok wc := by
    unfold johnWeightConv
    rw [hal, Out.ok_bind, warmStart_iff.2 ho, Out.ok_bind]
    generalize M.toNat = N
    generalize (fun _ => (1 : ℝ) : Fin m → ℝ) = w0
    generalize hw1 : w0 = w1
    rw [← hw1] ; clear hw1
    have : ∀ (N : ℕ) (w0 w1 : Fin m → ℝ), ∃ wc, johnLoop (johnNext E (denseJohnAlpha m n)
        (johnBeta m n) (scaledA x A b)) (fun nw w i => Scalar.abs (nw i - w i)) LIM N w0 w1 =
          .ok wc := by
      intro N
      induction N with
      | zero => exact fun w0 _ => ⟨_, rfl⟩
      | succ N ih =>
        intro w0 w1
        obtain ⟨c, hc, _⟩ := maxCoeff_real (fun i => Scalar.abs (johnNext E (denseJohnAlpha m n)
          (johnBeta m n) (scaledA x A b) w1 i - w1 i)) hm
        simp only [johnLoop]
        rw [hc, Out.ok_bind]
        split
        · exact ⟨_, rfl⟩
        · exact ih _ _
    exact this N w0 w0
  obtain ⟨⟨w, c⟩, hwc⟩ := hconv
  have hwc' := hwc
  unfold johnWeightConv at hwc'
  rw [hal, Out.ok_bind, warmStart_iff.2 ho, Out.ok_bind, hbe, scaledA_real] at hwc'
  rcases johnLoop_iterate (I := JohnInv β) (spec := johnMap (denseJohnAlpha m n) β (normals x A b))
    (fun w hw => johnNext_real hE hN _ _ (fun i => hβ.trans_lt (hw.lower i)))
    (fun w hw => hw.map hN hβ) (fun _ _ _ => rfl) _ _ _ _ _ h1 h1 hwc' with ⟨h0, _⟩ | ⟨t, ht, hw, hI, hc, hc'⟩
  · omega
  · have hs := (john_sum_iter hN hm (α := denseJohnAlpha m n) t _ h1).2
    rw [← hβdef] at hs
    rw [← hw] at hs
    refine ⟨w, t, c, ?_, hwc, hw, by omega, fun h => by have := hc' h; omega,
      fun i => ⟨hI.lower i, hI.upper i⟩, ?_, ?_⟩
    · show (johnWeightConv E LIM M o.w x A b).map _ = _
      rw [hwc]; rfl
    · rw [hs]; simp
    · intro hct
      have hcl : ∀ i, |w i - (lev (scaledRows w (denseJohnAlpha m n / 2) (normals x A b)) i + β)| <
          2 * LIM := by
        intro i
        have := hc hct i
        simp only [johnMap] at this
        rw [abs_lt] at this ⊢
        constructor <;> linarith [this.1, this.2]
      refine ⟨hcl, ?_⟩
      have hS := scaledRows_indep hN (fun i => hβ.trans_lt (hI.lower i)) (denseJohnAlpha m n / 2)
      have e : ∑ i, w i - 3 * n / 2 = ∑ i, (w i - (lev (scaledRows w (denseJohnAlpha m n / 2)
          (normals x A b)) i + β)) := by
        rw [Finset.sum_sub_distrib, Finset.sum_add_distrib, lev_sum _ hS]
        simp only [Finset.sum_const, Finset.card_univ, Fintype.card_fin, nsmul_eq_mul, hβdef]
        field_simp; ring
      rw [e]
      refine (Finset.abs_sum_le_sum_abs _ _).trans ?_
      calc _ ≤ ∑ _i : Fin m, 2 * LIM := Finset.sum_le_sum fun i _ => (hcl i).le
        _ = _ := by simp; ring

/-! ## Lee-Sidford -/

/-- `α = 1 - 2/q`, `q = 2(1 + ln n)`: the Lee-Sidford exponent. -/
noncomputable def lsExponent (m : ℕ) : ℝ := 1 - 2 / (2 * (1 + Real.log m))

theorem lsAlpha_real (m : ℕ) : lsAlpha (F := ℝ) (m : Int) = lsExponent m := by
  simp [lsAlpha, lsQ, lsExponent]

theorem lsExponent_pos {m : ℕ} (hm : 2 ≤ m) : 0 < lsExponent m := by
  have h1 : (1 : ℝ) < m := by exact_mod_cast (by omega : 1 < m)
  have h2 : 0 < Real.log m := Real.log_pos h1
  have h3 : (2 : ℝ) / (2 * (1 + Real.log m)) < 1 := by
    rw [div_lt_one (by linarith)]; linarith
  unfold lsExponent; linarith

theorem abs_lt_of_norm2_lt {v : Fin n → ℝ} {c : ℝ} (h : norm2 v < c) (i : Fin n) : |v i| < c := by
  refine lt_of_le_of_lt ?_ h
  rw [norm2_real, ← Real.sqrt_sq_eq_abs]
  apply Real.sqrt_le_sqrt
  rw [sq]
  exact Finset.single_le_sum (f := fun i => v i * v i) (fun j _ => mul_self_nonneg _) (Finset.mem_univ i)

/-- What the gradient loop returns: it satisfies every predicate kept by the update, and on convergence the
gradient is small. -/
theorem lsLoop_spec {I : (Fin m → ℝ) → Prop} {grad : (Fin m → ℝ) → Fin m → ℝ}
    {upd : (Fin m → ℝ) → (Fin m → ℝ) → Fin m → ℝ} (hI : ∀ w, I w → I (upd w (grad w))) {GLIM : ℝ} :
    ∀ (N : ℕ) (w0 : Fin m → ℝ), I w0 → I (lsLoop grad upd GLIM N w0).1 ∧
      ((lsLoop grad upd GLIM N w0).2 = true → norm2 (grad (lsLoop grad upd GLIM N w0).1) < GLIM) := by
  intro N
  induction N with
  | zero => intro w0 h; exact ⟨h, by simp [lsLoop]⟩
  | succ N ih =>
    intro w0 h
    simp only [lsLoop]
    split
    · rename_i hlt
      exact ⟨h, fun _ => by simpa using hlt⟩
    · exact ih _ (hI _ h)

theorem lsGrad_real {E : Eigen ℝ} (hE : E.InvExact) {M : Matrix (Fin m) (Fin n) ℝ} (hM : IndepCols M)
    (α : ℝ) {w : Fin m → ℝ} (hw : ∀ i, 0 < w i) (i : Fin m) :
    lsGrad E α M w i = α - α / w i * lev (scaledRows w (α / 2) M) i := by
  unfold lsGrad
  rw [powScaled_real, levScores_real _ (scaledRows_indep hM hw (α / 2)) hE]
  ring

/-- The leverage scores are close to the weights when the gradient is small. -/
theorem ls_close {M : Matrix (Fin m) (Fin n) ℝ} (hM : IndepCols M) {α GLIM : ℝ} (hα : 0 < α)
    {w l g : Fin m → ℝ} (hw : ∀ i, 0 < w i) (hg : ∀ i, g i = α - α / w i * l i)
    (h : norm2 g < GLIM) (i : Fin m) : |w i - l i| < w i * GLIM / α := by
  have h1 := abs_lt_of_norm2_lt h i
  have hwi := hw i
  have e : w i - l i = w i / α * g i := by
    rw [hg i]; field_simp
  rw [e, abs_mul, abs_of_pos (div_pos hwi hα)]
  calc w i / α * |g i| < w i / α * GLIM := by
        exact mul_lt_mul_of_pos_left h1 (div_pos hwi hα)
    _ = _ := by ring

/-- **C23**: Lee-Sidford weights. `w0` is where the iteration starts (all ones on a fresh object, the stored
weights otherwise). -/
theorem C23_leeSidford (E : Eigen ℝ) (hE : E.InvExact) (R GLIM STEP : ℝ) (M : Int) (o : BState ℝ)
    (w0 : Fin m → ℝ) (ho : StartsFrom o.w m w0) (h0 : ∀ i, 0 < w0 i) (x : Fin n → ℝ)
    (A : Matrix (Fin m) (Fin n) ℝ) (b : Fin m → ℝ) (hA : IndepCols A) (hx : x ∈ Interior A b) :
    ∃ (w : Fin m → ℝ) (conv : Bool),
      (dikinLSClass E R GLIM STEP M).generateWeight o x A b = .ok (⟨m, w⟩, { o with w := ⟨m, w⟩ }) ∧
      lsWeightConv E GLIM STEP M o.w x A b = .ok (w, conv) ∧
      (∀ i, min (1 / 100000) (w0 i) ≤ w i) ∧
      (conv = true → 2 ≤ m →
        (∀ i, |w i - lev (scaledRows w (lsExponent m / 2) (normals x A b)) i| <
          w i * GLIM / lsExponent m) ∧
        |∑ i, w i - n| ≤ GLIM / lsExponent m * ∑ i, w i) := by
  have hN := normals_indep hx hA
  have hspec : ∃ w conv, lsWeightConv E GLIM STEP M o.w x A b = .ok (w, conv) ∧
      (∀ i, min (1 / 100000) (w0 i) ≤ w i) ∧
      (conv = true → norm2 (lsGrad E (lsExponent m) (normals x A b) w) < GLIM) := by
    unfold lsWeightConv
    rw [warmStart_iff.2 ho, Out.ok_bind, scaledA_real, lsAlpha_real]
    have := lsLoop_spec (I := fun w : Fin m → ℝ => ∀ i, min (1 / 100000) (w0 i) ≤ w i)
      (grad := lsGrad E (lsExponent m) (normals x A b))
      (upd := fun w g i => cmax (w i - STEP * g i) (lsErr * 1)) (GLIM := GLIM)
      (by
        intro w _ i
        rw [cmax_real]
        refine (min_le_left _ _).trans (le_trans ?_ (le_max_right _ _))
        simp [lsErr]) M.toNat w0 (fun i => min_le_right _ _)
    exact ⟨_, _, rfl, this.1, this.2⟩
  obtain ⟨w, conv, h1, h2, h3⟩ := hspec
  have hw : ∀ i, 0 < w i := fun i =>
    lt_of_lt_of_le (lt_min (by norm_num) (h0 i)) (h2 i)
  refine ⟨w, conv, ?_, h1, h2, ?_⟩
  · show (lsWeightConv E GLIM STEP M o.w x A b).map _ = _
    rw [h1]; rfl
  · intro hc hm
    have hα := lsExponent_pos hm
    have hcl := ls_close hN hα hw (fun i => lsGrad_real hE hN (lsExponent m) hw i) (h3 hc)
    refine ⟨hcl, ?_⟩
    have hS := scaledRows_indep hN hw (lsExponent m / 2)
    have e : ∑ i, w i - n = ∑ i, (w i - lev (scaledRows w (lsExponent m / 2) (normals x A b)) i) := by
      rw [Finset.sum_sub_distrib, lev_sum _ hS]
    rw [e]
    refine (Finset.abs_sum_le_sum_abs _ _).trans ?_
    calc _ ≤ ∑ i, w i * GLIM / lsExponent m := Finset.sum_le_sum fun i _ => (hcl i).le
      _ = _ := by rw [Finset.mul_sum]; exact Finset.sum_congr rfl fun i _ => by ring

/-! ## Affine invariance -/

theorem slack_affine (y c : Fin n → ℝ) (T : Matrix (Fin n) (Fin n) ℝ) (A : Matrix (Fin m) (Fin n) ℝ)
    (b : Fin m → ℝ) (i : Fin m) :
    (b - A *ᵥ c) i - ((A * T) *ᵥ y) i = b i - (A *ᵥ (T *ᵥ y + c)) i := by
  rw [Matrix.mulVec_add, Matrix.mulVec_mulVec]
  simp only [Pi.sub_apply, Pi.add_apply]; ring

theorem normals_affine (y c : Fin n → ℝ) (T : Matrix (Fin n) (Fin n) ℝ) (A : Matrix (Fin m) (Fin n) ℝ)
    (b : Fin m → ℝ) :
    normals y (A * T) (b - A *ᵥ c) = normals (T *ᵥ y + c) A b * T := by
  funext i j
  rw [Matrix.mul_apply]
  show (A * T) i j / ((b - A *ᵥ c) i - ((A * T) *ᵥ y) i) =
    ∑ l, A i l / (b i - (A *ᵥ (T *ᵥ y + c)) i) * T l j
  rw [slack_affine, Matrix.mul_apply, Finset.sum_div]
  exact Finset.sum_congr rfl fun l _ => by ring

theorem scaledRows_mul (w : Fin m → ℝ) (p : ℝ) (M : Matrix (Fin m) (Fin n) ℝ)
    (T : Matrix (Fin n) (Fin n) ℝ) : scaledRows w p (M * T) = scaledRows w p M * T := by
  funext i j
  rw [Matrix.mul_apply]
  show w i ^ p * (M * T) i j = ∑ l, w i ^ p * M i l * T l j
  rw [Matrix.mul_apply, Finset.mul_sum]
  exact Finset.sum_congr rfl fun l _ => by ring

theorem levScores_mul {E : Eigen ℝ} (hE : E.InvExact) {M : Matrix (Fin m) (Fin n) ℝ} (hM : IndepCols M)
    {T : Matrix (Fin n) (Fin n) ℝ} (hT : IsUnit T.det) : levScores E (M * T) = levScores E M := by
  funext i
  rw [levScores_real _ (hM.mul _ T hT) hE, levScores_real _ hM hE, lev_mul _ hM _ hT]

theorem johnLoop_congr {I : (Fin m → ℝ) → Prop} {next next' : (Fin m → ℝ) → Fin m → ℝ}
    (hs : ∀ w, I w → next w = next' w) (hI : ∀ w, I w → I (next w))
    {diff : (Fin m → ℝ) → (Fin m → ℝ) → Fin m → ℝ} {LIM : ℝ} :
    ∀ (N : ℕ) (w0 nw : Fin m → ℝ), I nw →
      johnLoop next diff LIM N w0 nw = johnLoop next' diff LIM N w0 nw := by
  intro N
  induction N with
  | zero => intros; rfl
  | succ N ih =>
    intro w0 nw hn
    simp only [johnLoop]
    rw [← hs nw hn]
    congr 1; funext c
    split
    · rfl
    · exact ih _ _ (hI _ hn)

theorem lsLoop_congr {I : (Fin m → ℝ) → Prop} {grad grad' : (Fin m → ℝ) → Fin m → ℝ}
    {upd : (Fin m → ℝ) → (Fin m → ℝ) → Fin m → ℝ}
    (hs : ∀ w, I w → grad w = grad' w) (hI : ∀ w, I w → I (upd w (grad w))) {GLIM : ℝ} :
    ∀ (N : ℕ) (w0 : Fin m → ℝ), I w0 → lsLoop grad upd GLIM N w0 = lsLoop grad' upd GLIM N w0 := by
  intro N
  induction N with
  | zero => intros; rfl
  | succ N ih =>
    intro w0 h
    simp only [lsLoop]
    rw [← hs w0 h]
    split
    · rfl
    · exact ih _ (hI _ h)

/-- The four weighted barrier walks of the library. -/
inductive IsWeighted (E : Eigen ℝ) : BarrierClass ℝ (BState ℝ) → Prop
  | dikin (R) : IsWeighted E (dikinClass R)
  | vaidya (R) : IsWeighted E (vaidyaClass E R)
  | john (R LIM M) : IsWeighted E (johnClass E R LIM M)
  | leeSidford (R GLIM STEP M) : IsWeighted E (dikinLSClass E R GLIM STEP M)

theorem bind_congr_ok {α β : Type} {x : Out α} {f g : α → Out β} (h : ∀ a, x = .ok a → f a = g a) :
    x.bind f = x.bind g := by
  cases x with
  | ok a => exact h a rfl
  | throws e => rfl
  | ub e => rfl
  | timeout => rfl

/-- **C25**: in new coordinates `x = T y + c` the polytope is `(A T) y ≤ b - A c`; every weighted barrier
walk computes the same weights (and leaves the same members behind). -/
theorem C25_affine (E : Eigen ℝ) (hE : E.InvExact) (cls : BarrierClass ℝ (BState ℝ))
    (hc : IsWeighted E cls) (o : BState ℝ) (ho : GoodStart o.w m) (A : Matrix (Fin m) (Fin n) ℝ)
    (b : Fin m → ℝ) (hA : IndepCols A) (T : Matrix (Fin n) (Fin n) ℝ) (hT : IsUnit T.det)
    (c y : Fin n → ℝ) (hx : T *ᵥ y + c ∈ Interior A b) :
    cls.generateWeight o y (A * T) (b - A *ᵥ c) = cls.generateWeight o (T *ᵥ y + c) A b := by
  have hN := normals_indep hx hA
  cases hc with
  | dikin R => rfl
  | vaidya R =>
    show Out.ok _ = Out.ok _
    congr 3
    unfold vaidyaWeight
    rw [scaledA_real, scaledA_real, normals_affine, levScores_mul hE hN hT]
  | john R LIM M =>
    refine congrArg (Out.map _) ?_
    unfold johnWeightConv
    refine bind_congr_ok fun α hα => bind_congr_ok fun w0 hw => ?_
    have h0 : 0 < n := by
      rcases Nat.eq_zero_or_pos n with h0 | h0
      · simp [johnAlpha, h0] at hα
      · exact h0
    have hm : 0 < m := lt_of_lt_of_le h0 hA.le
    rw [scaledA_real, scaledA_real, normals_affine]
    have hβ : (0 : ℝ) < johnBeta m n := by
      simp only [johnBeta, rsc_ofInt, Int.cast_natCast]; push_cast; positivity
    refine (johnLoop_congr (I := fun w : Fin m → ℝ => ∀ i, 0 < w i) ?_ ?_ _ _ _ (ho w0 (warmStart_iff.1 hw))).symm
    · intro w hw
      unfold johnNext
      rw [powScaled_real, powScaled_real, scaledRows_mul,
        levScores_mul hE (scaledRows_indep hN hw _) hT]
    · intro w hw i
      unfold johnNext
      rw [cmax_real, half_real]
      have := lt_of_lt_of_le hβ (le_max_right
        (w i + levScores E (powScaled α w (normals (T *ᵥ y + c) A b)) i + johnBeta m n)
        (johnBeta (F := ℝ) m n))
      linarith
  | leeSidford R GLIM STEP M =>
    refine congrArg (Out.map _) ?_
    unfold lsWeightConv
    refine bind_congr_ok fun w0 hw => ?_
    rw [scaledA_real, scaledA_real, normals_affine]
    refine congrArg Out.ok ?_
    refine (lsLoop_congr (I := fun w : Fin m → ℝ => ∀ i, 0 < w i) ?_ ?_ _ _ (ho w0 (warmStart_iff.1 hw))).symm
    · intro w hw
      unfold lsGrad
      rw [powScaled_real, powScaled_real, scaledRows_mul,
        levScores_mul hE (scaledRows_indep hN hw _) hT]
    · intro w _ i
      rw [cmax_real]
      refine lt_of_lt_of_le ?_ (le_max_right _ _)
      simp [lsErr]

/-! ## The metric -/

/-- **C26** (any positive weights): the matrix factorised at an interior point is positive definite, and its
Cholesky factor exists and is what `LLT` returns. -/
theorem C26_posDef (E : Eigen ℝ) (hE : E.LltExact) (w : Fin m → ℝ) (hw : ∀ i, 0 < w i) (x : Fin n → ℝ)
    (A : Matrix (Fin m) (Fin n) ℝ) (b : Fin m → ℝ) (hA : IndepCols A) (hx : x ∈ Interior A b) :
    (hessianOf w x A b).PosDef ∧ IsCholesky (E.lltL (hessianOf w x A b)) (hessianOf w x A b) := by
  let B : Matrix (Fin m) (Fin n) ℝ := fun i j => (Real.sqrt (w i) * (b i - (A *ᵥ x) i)⁻¹) * A i j
  have h1 : hessianOf w x A b = Bᵀ * B := by
    rw [hessianOf_real]
    funext i j
    rw [Matrix.mul_apply, Matrix.mul_apply]
    refine Finset.sum_congr rfl fun l _ => ?_
    rw [Matrix.mul_diagonal, Matrix.transpose_apply]
    show A l i * (w l / (b l - (A *ᵥ x) l) ^ 2) * A l j =
      Real.sqrt (w l) * (b l - (A *ᵥ x) l)⁻¹ * A l i * (Real.sqrt (w l) * (b l - (A *ᵥ x) l)⁻¹ * A l j)
    have := Real.mul_self_sqrt (hw l).le
    generalize b l - (A *ᵥ x) l = s
    conv_lhs => rw [← this]
    ring
  have h2 : (hessianOf w x A b).PosDef := by
    rw [h1]
    exact IndepCols.posDef (hA.scale (M := A) fun i => mul_ne_zero
      (Real.sqrt_pos.2 (hw i)).ne' (inv_ne_zero (Interior.slack_pos hx i).ne'))
  exact ⟨h2, hE _ h2⟩

/-- **C26** (library walks): whatever the history of the object, the Hessian the walk factorises at an
interior point is positive definite. -/
theorem C26_library (E : Eigen ℝ) (hE : E.InvExact) (hL : E.LltExact) (cls : BarrierClass ℝ (BState ℝ))
    (hc : IsWeighted E cls) (o o' : BState ℝ) (ho : GoodStart o.w m) (x : Fin n → ℝ)
    (A : Matrix (Fin m) (Fin n) ℝ) (b : Fin m → ℝ) (hA : IndepCols A) (hn : 0 < n)
    (hx : x ∈ Interior A b) (H : Matrix (Fin n) (Fin n) ℝ)
    (hH : generateHessian cls o x A b = .ok (H, o')) :
    H.PosDef ∧ IsCholesky (E.lltL H) H ∧ (GoodStart o'.w m) := by
  have hm : 0 < m := lt_of_lt_of_le hn hA.le
  have key : ∀ w, (∀ i, 0 < w i) → H = hessianOf w x A b →
      H.PosDef ∧ IsCholesky (E.lltL H) H := by
    rintro w hw rfl; exact C26_posDef E hL w hw x A b hA hx
  have good : ∀ w : Fin m → ℝ, (∀ i, 0 < w i) → GoodStart ⟨m, w⟩ m := by
    intro w hw w0 h
    have h := warmStart_iff.2 h
    unfold warmStart at h
    rw [dif_pos hm, dif_pos rfl] at h
    split at h
    · simp only [Out.ok.injEq] at h; subst h; intro i; norm_num
    · simp only [Out.ok.injEq] at h; subst h; exact hw
  have hN := normals_indep hx hA
  cases hc with
  | dikin R =>
    have e : generateHessian (dikinClass R) o x A b = .ok (hessianOf (fun _ => 1) x A b, o) := by
      unfold generateHessian
      rw [C20_weights, Out.ok_bind]
      exact dif_pos rfl
    rw [e] at hH
    simp only [Out.ok.injEq, Prod.mk.injEq] at hH
    obtain ⟨h1, h2⟩ := key (fun _ => 1) (fun _ => one_pos) hH.1.symm
    exact ⟨h1, h2, hH.2 ▸ ho⟩
  | vaidya R =>
    obtain ⟨w, h1, _, h3, _⟩ := C21_vaidya E hE R o x A b hA hx
    have e : generateHessian (vaidyaClass E R) o x A b = .ok (hessianOf w x A b, o) := by
      unfold generateHessian
      rw [h1, Out.ok_bind]
      exact dif_pos rfl
    rw [e] at hH
    simp only [Out.ok.injEq, Prod.mk.injEq] at hH
    obtain ⟨h1, h2⟩ := key w (fun i => lt_of_lt_of_le (by positivity) (h3 i).1) hH.1.symm
    exact ⟨h1, h2, hH.2 ▸ ho⟩
  | john R LIM M =>
    unfold generateHessian at hH
    obtain ⟨wo, hw, hH⟩ := Out.bind_eq_ok.1 hH
    have hw : (johnWeightConv E LIM M o.w x A b).map _ = .ok wo := hw
    obtain ⟨wc, hwc, e⟩ := Out.map_eq_ok.1 hw
    subst e
    rw [dif_pos (by trivial)] at hH
    simp only [Out.ok.injEq, Prod.mk.injEq] at hH
    have hpos : ∀ i, 0 < wc.1 i := by
      unfold johnWeightConv at hwc
      obtain ⟨α, _, hwc⟩ := Out.bind_eq_ok.1 hwc
      obtain ⟨w0, hw0, hwc⟩ := Out.bind_eq_ok.1 hwc
      have hβ : (0 : ℝ) < johnBeta m n := by
        simp only [johnBeta, rsc_ofInt, Int.cast_natCast]; push_cast; positivity
      have hst := ho w0 (warmStart_iff.1 hw0)
      rcases johnLoop_iterate (I := fun w : Fin m → ℝ => ∀ i, 0 < w i)
        (spec := johnNext E α (johnBeta m n) (scaledA x A b)) (fun _ _ => rfl)
        (by
          intro w _ i
          unfold johnNext
          rw [cmax_real, half_real]
          have := lt_of_lt_of_le hβ (le_max_right
            (w i + levScores E (powScaled α w (scaledA x A b)) i + johnBeta m n)
            (johnBeta (F := ℝ) m n))
          linarith) (fun _ _ _ => rfl) _ _ _ _ _ hst hst hwc with ⟨_, h, _⟩ | ⟨t, _, _, h, _⟩
      · rw [h]; exact hst
      · exact h
    obtain ⟨h1, h2⟩ := key wc.1 hpos hH.1.symm
    exact ⟨h1, h2, hH.2 ▸ good _ hpos⟩
  | leeSidford R GLIM STEP M =>
    unfold generateHessian at hH
    obtain ⟨wo, hw, hH⟩ := Out.bind_eq_ok.1 hH
    have hw : (lsWeightConv E GLIM STEP M o.w x A b).map _ = .ok wo := hw
    obtain ⟨wc, hwc, e⟩ := Out.map_eq_ok.1 hw
    subst e
    rw [dif_pos (by trivial)] at hH
    simp only [Out.ok.injEq, Prod.mk.injEq] at hH
    have hpos : ∀ i, 0 < wc.1 i := by
      have hwc' := hwc
      unfold lsWeightConv at hwc'
      obtain ⟨w0, hw0, _⟩ := Out.bind_eq_ok.1 hwc'
      obtain ⟨w, c, _, h2, h3, _⟩ := C23_leeSidford E hE R GLIM STEP M o w0 (warmStart_iff.1 hw0) (ho w0 (warmStart_iff.1 hw0)) x A b hA hx
      rw [h2] at hwc
      simp only [Out.ok.injEq] at hwc
      rw [← hwc]
      exact fun i => lt_of_lt_of_le (lt_min (by norm_num) (ho w0 (warmStart_iff.1 hw0) i)) (h3 i)
    obtain ⟨h1, h2⟩ := key wc.1 hpos hH.1.symm
    exact ⟨h1, h2, hH.2 ▸ good _ hpos⟩

end PW

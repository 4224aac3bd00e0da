import Verif.Lemmas.JohnPotential
import Verif.Props.DenseWeights

/-!
# C73: the John weight iteration finds the John weights

Existence and uniqueness of the John weights at every interior point, the number of updates the loop of `JohnWalk::generateWeight`
makes, and how far from them the returned vector is, whatever the history of the object.
-/

namespace PW
open Classical Matrix
variable {m n : ℕ}

/-- What the loop does, with the updates it makes before stopping. -/
theorem johnLoop_run {I : (Fin m → ℝ) → Prop} {next spec : (Fin m → ℝ) → Fin m → ℝ}
    (hs : ∀ w, I w → next w = spec w) (hI : ∀ w, I w → I (spec w)) (hm : 0 < m)
    {diff : (Fin m → ℝ) → (Fin m → ℝ) → Fin m → ℝ} (hd : ∀ u v i, diff u v i = |u i - v i|) {LIM : ℝ} :
    ∀ (N : ℕ) (w0 nw : Fin m → ℝ), 1 ≤ N → I nw →
      ∃ (t : ℕ) (c : Bool), johnLoop next diff LIM N w0 nw = .ok (spec^[t] nw, c) ∧ t < N ∧
        (∀ s < t, ∃ i, LIM ≤ |spec^[s + 1] nw i - spec^[s] nw i|) ∧
        (c = true → ∀ i, |spec^[t + 1] nw i - spec^[t] nw i| < LIM) ∧
        (c = false → t + 1 = N ∧ ∃ i, LIM ≤ |spec^[t + 1] nw i - spec^[t] nw i|) := by
  intro N
  induction N with
  | zero => intro _ _ h; omega
  | succ N ih =>
    intro w0 nw _ hn
    obtain ⟨c, hc, hle, i, hi⟩ := maxCoeff_real (diff (spec nw) nw) hm
    simp only [johnLoop]
    rw [hs nw hn, hc, Out.ok_bind]
    by_cases hlt : c < LIM
    · refine ⟨0, true, ?_, by omega, by simp, fun _ j => ?_, by simp⟩
      · rw [if_pos (by simpa using hlt)]; rfl
      · have := hle j
        rw [hd] at this
        exact this.trans_lt hlt
    · have hstep : ∃ i, LIM ≤ |spec nw i - nw i| := ⟨i, by rw [← hd, hi]; exact not_lt.1 hlt⟩
      rw [if_neg (by simpa using hlt)]
      rcases Nat.eq_zero_or_pos N with rfl | hN
      · exact ⟨0, false, rfl, by omega, by simp, by simp, fun _ => ⟨rfl, hstep⟩⟩
      · obtain ⟨t, c', h1, h2, h3, h4, h5⟩ := ih nw (spec nw) hN (hI nw hn)
        refine ⟨t + 1, c', ?_, by omega, ?_, h4, fun h => ⟨by have := (h5 h).1; omega, (h5 h).2⟩⟩
        · rw [h1]; rfl
        · intro s hs'
          rcases s with _ | s
          · exact hstep
          · exact h3 s (by omega)

/-- `log2 ⌊2n/d⌋`, the quantity in the exponent; `m` constraints, `n` dimensions. -/
noncomputable def johnLog (m n : ℕ) : ℝ := Real.logb 2 ((2 * m / n : ℕ) : ℝ)

theorem johnLog_ge (hn : 0 < n) (hmn : n ≤ m) : 1 ≤ johnLog m n := by
  have h2 : 2 ≤ 2 * m / n := (Nat.le_div_iff_mul_le hn).2 (by omega)
  have h2' : (2 : ℝ) ≤ ((2 * m / n : ℕ) : ℝ) := by exact_mod_cast h2
  unfold johnLog
  rw [Real.le_logb_iff_rpow_le (by norm_num) (by linarith)]
  simpa using h2'

theorem one_sub_denseJohnAlpha (m n : ℕ) : 1 - denseJohnAlpha m n = 1 / johnLog m n := by
  unfold denseJohnAlpha johnLog; ring

theorem denseJohnAlpha_range (hn : 0 < n) (hmn : n ≤ m) : 0 ≤ denseJohnAlpha m n ∧ denseJohnAlpha m n < 1 := by
  have h2 : 2 ≤ 2 * m / n := (Nat.le_div_iff_mul_le hn).2 (by omega)
  have h2' : (2 : ℝ) ≤ ((2 * m / n : ℕ) : ℝ) := by exact_mod_cast h2
  have hl : 1 ≤ Real.logb 2 ((2 * m / n : ℕ) : ℝ) := by
    rw [Real.le_logb_iff_rpow_le (by norm_num) (by linarith)]
    simpa using h2'
  unfold denseJohnAlpha
  have h3 : 1 / Real.logb 2 ((2 * m / n : ℕ) : ℝ) ≤ 1 := (div_le_one (by linarith)).2 hl
  have h4 : 0 < 1 / Real.logb 2 ((2 * m / n : ℕ) : ℝ) := by positivity
  constructor <;> linarith

theorem johnWeights_iff_fixed {α β : ℝ} {M : Matrix (Fin m) (Fin n) ℝ} {w : Fin m → ℝ} :
    IsJohnWeights α β M w ↔ (∀ i, 0 < w i) ∧ ∀ i, w i = lev (scaledRows w (α / 2) M) i + β :=
  ⟨fun h => ⟨h.pos, h.eq⟩, fun h => ⟨h.1, h.2⟩⟩

/-- There is exactly one vector of John weights. -/
theorem johnWeights_existsUnique {M : Matrix (Fin m) (Fin n) ℝ} (hM : IndepCols M) {α β : ℝ} (h0 : 0 ≤ α) (h1 : α < 1)
    (hβ : 0 < β) : ∃! w, IsJohnWeights α β M w := by
  obtain ⟨L, hL⟩ := exists_potential hM h0 h1.le
  obtain ⟨v, hv, hf⟩ := exists_fixed hL hβ
  refine ⟨v, ⟨hv, hf⟩, fun w hw => ?_⟩
  exact fixed_unique hL hβ.le (by linarith) hv hf hw.pos (climb_fixed_max hL hβ.le hw.pos hw.eq hv)

/-- **C73** (1): at every interior point there is exactly one vector of John weights. -/
theorem C73_exists (x : Fin n → ℝ) (A : Matrix (Fin m) (Fin n) ℝ) (b : Fin m → ℝ) (hn : 0 < n) (hA : IndepCols A)
    (hx : x ∈ Interior A b) : ∃! w, IsJohnWeights (denseJohnAlpha m n) ((n : ℝ) / (2 * m)) (normals x A b) w := by
  have hm : 0 < m := lt_of_lt_of_le hn hA.le
  have hα := denseJohnAlpha_range hn hA.le
  exact johnWeights_existsUnique (normals_indep hx hA) hα.1 hα.2 (by positivity)

theorem denseJohnAlpha_pos (hn : 0 < n) (h : 3 * n ≤ 2 * m) : 0 < denseJohnAlpha m n := by
  have h2 : 3 ≤ 2 * m / n := (Nat.le_div_iff_mul_le hn).2 (by omega)
  have h2' : (3 : ℝ) ≤ ((2 * m / n : ℕ) : ℝ) := by exact_mod_cast h2
  have hl : 1 < Real.logb 2 ((2 * m / n : ℕ) : ℝ) := by
    rw [Real.lt_logb_iff_rpow_lt (by norm_num) (by linarith), Real.rpow_one]
    linarith
  unfold denseJohnAlpha
  have h3 : 1 / Real.logb 2 ((2 * m / n : ℕ) : ℝ) < 1 := (div_lt_one (by linarith)).2 hl
  linarith

/-- **C73** (2): with at least three constraints for every two dimensions (so that the exponent is positive) the John weights are the
maximiser of the John objective. -/
theorem C73_program (x : Fin n → ℝ) (A : Matrix (Fin m) (Fin n) ℝ) (b : Fin m → ℝ) (hn : 0 < n) (hA : IndepCols A)
    (hx : x ∈ Interior A b) (h32 : 3 * n ≤ 2 * m) (w : Fin m → ℝ) :
    IsJohnWeights (denseJohnAlpha m n) ((n : ℝ) / (2 * m)) (normals x A b) w ↔
      (∀ i, 0 < w i) ∧ ∀ u : Fin m → ℝ, (∀ i, 0 < u i) →
        johnObjective (denseJohnAlpha m n) ((n : ℝ) / (2 * m)) (normals x A b) u ≤
        johnObjective (denseJohnAlpha m n) ((n : ℝ) / (2 * m)) (normals x A b) w := by
  have hα := denseJohnAlpha_pos hn h32
  have hm : 0 < m := lt_of_lt_of_le hn hA.le
  have hβ : 0 < (n : ℝ) / (2 * m) := by positivity
  have hP := potential_pos (normals_indep hx hA) hα (denseJohnAlpha_range hn hA.le).2.le
  constructor
  · intro h
    exact ⟨h.pos, fun u hu => climb_fixed_max hP hβ.le h.pos h.eq hu⟩
  · rintro ⟨hw, hmax⟩
    exact ⟨hw, fixed_of_max hP hβ.le hw (hmax _ (avgMap_pos hP hβ.le hw))⟩

/-- The stored vector is a start inside the box of John weights: true of a new object and after every call. -/
def JohnStart (w : DVec ℝ) (m n : ℕ) : Prop :=
  ∀ w0, StartsFrom w m w0 → ∀ i, (n : ℝ) / (2 * m) ≤ w0 i ∧ w0 i ≤ 1 + (n : ℝ) / (2 * m)

theorem johnStart_of_ones {w : DVec ℝ} (h : StartsAtOnes w m) (hmn : n ≤ m) : JohnStart w m n := by
  intro w0 h0 i
  have e : w0 = fun _ => 1 := by
    have h1 := warmStart_iff.2 h
    have h2 := warmStart_iff.2 h0
    rw [h1] at h2
    exact (Out.ok.inj h2).symm
  have hm : 0 < m := i.pos
  have h1 : (n : ℝ) / (2 * m) ≤ 1 := by
    rw [div_le_one (by positivity)]
    have : (n : ℝ) ≤ m := by exact_mod_cast hmn
    have : (0 : ℝ) ≤ m := by positivity
    linarith
  rw [e]
  exact ⟨h1, by have : (0 : ℝ) ≤ (n : ℝ) / (2 * m) := by positivity
                simp only; linarith⟩

/-- **C73** (3), from any start inside the box: the call returns the `t`-th iterate; the number `t` of updates, whether the loop
stopped by its criterion, and the distance to the John weights `v` are bounded explicitly. `G` bounds the initial gap. -/
theorem john_run (E : Eigen ℝ) (hE : E.InvExact) (R LIM : ℝ) (hL : 0 < LIM) (M : Int) (hM : 1 ≤ M) (o : BState ℝ)
    (w0 : Fin m → ℝ) (ho : StartsFrom o.w m w0)
    (hbox : ∀ i, (n : ℝ) / (2 * m) ≤ w0 i ∧ w0 i ≤ 1 + (n : ℝ) / (2 * m))
    (x : Fin n → ℝ) (A : Matrix (Fin m) (Fin n) ℝ) (b : Fin m → ℝ) (hn : 0 < n) (hA : IndepCols A) (hx : x ∈ Interior A b)
    (v : Fin m → ℝ) (hv : IsJohnWeights (denseJohnAlpha m n) ((n : ℝ) / (2 * m)) (normals x A b) v) (G : ℝ)
    (hG : ∀ L, Potential (1 - denseJohnAlpha m n) (fun w i => lev (scaledRows w (denseJohnAlpha m n / 2) (normals x A b)) i) L →
      climb L ((n : ℝ) / (2 * m)) v - climb L ((n : ℝ) / (2 * m)) w0 ≤ G) :
    ∃ (w : Fin m → ℝ) (t : ℕ) (conv : Bool),
      (johnClass E R LIM M).generateWeight o x A b = .ok (⟨m, w⟩, { o with w := ⟨m, w⟩ }) ∧
      johnWeightConv E LIM M o.w x A b = .ok (w, conv) ∧ (t : Int) < M ∧
      (∀ i, (n : ℝ) / (2 * m) ≤ w i ∧ w i ≤ 1 + (n : ℝ) / (2 * m)) ∧
      t * LIM ^ 2 ≤ 3 / 2 * G ∧
      (conv = false → (t : Int) + 1 = M ∧ M * LIM ^ 2 ≤ 3 / 2 * G ∧
        LIM ^ 2 ≤ 3 / 2 * ((1 - ((n : ℝ) / m) ^ 2 / (144 * johnLog m n)) ^ t * G)) ∧
      distSq w v ≤ 6 * johnLog m n * ((1 - ((n : ℝ) / m) ^ 2 / (144 * johnLog m n)) ^ t * G) ∧
      (conv = true → distSq w v ≤ m * (24 * johnLog m n * ((m : ℝ) / n) * LIM) ^ 2) := by
  have hm : 0 < m := lt_of_lt_of_le hn hA.le
  have hm' : (0 : ℝ) < m := by exact_mod_cast hm
  have hn' : (0 : ℝ) < n := by exact_mod_cast hn
  have hN := normals_indep hx hA
  have hα := denseJohnAlpha_range hn hA.le
  set β : ℝ := (n : ℝ) / (2 * m) with hβdef
  have hβ : 0 < β := by positivity
  have hβ2 : β ≤ 1 / 2 := by
    have : (n : ℝ) ≤ m := by exact_mod_cast hA.le
    rw [hβdef, div_le_div_iff₀ (by positivity) (by norm_num)]; linarith
  obtain ⟨L, hP⟩ := exists_potential hN hα.1 hα.2.le
  have hG' := hG L hP
  set σ : (Fin m → ℝ) → Fin m → ℝ := fun w i => lev (scaledRows w (denseJohnAlpha m n / 2) (normals x A b)) i with hσ
  have hmap : johnMap (denseJohnAlpha m n) β (normals x A b) = avgMap σ β := rfl
  have hw0 : WBox β (1 + β) w0 := hbox
  have hw0' : WBox β (3 / 2) w0 := fun i => ⟨(hbox i).1, by have := (hbox i).2; linarith⟩
  have hal : johnAlpha (F := ℝ) m n = .ok (denseJohnAlpha m n) := by
    unfold johnAlpha denseJohnAlpha
    rw [if_neg (by omega), rsc_log2, rsc_ofInt, Int.cast_natCast]
  have hbe : johnBeta (F := ℝ) m n = β := by simp [johnBeta, hβdef]
  obtain ⟨t, c, hrun, htN, hbefore, hc, hc'⟩ := johnLoop_run (I := WBox β (1 + β))
    (next := johnNext E (denseJohnAlpha m n) β (normals x A b)) (spec := avgMap σ β)
    (fun w hw => johnNext_real hE hN _ _ fun i => hβ.trans_le (hw i).1)
    (fun w hw => hw.map hP hβ le_rfl le_rfl) hm (diff := fun nw w i => Scalar.abs (nw i - w i)) (fun _ _ _ => rfl)
    (LIM := LIM) M.toNat w0 w0 (by omega) hw0
  have hwc : johnWeightConv E LIM M o.w x A b = .ok ((avgMap σ β)^[t] w0, c) := by
    unfold johnWeightConv
    rw [hal, Out.ok_bind, warmStart_iff.2 ho, Out.ok_bind, hbe, scaledA_real]
    exact hrun
  have hΛ := johnLog_ge hn hA.le
  have hκe := one_sub_denseJohnAlpha m n
  have hκ : 0 < 1 - denseJohnAlpha m n := by linarith [hα.2]
  have hrate : (1 - denseJohnAlpha m n) * β ^ 2 / (16 * (3 / 2) ^ 2) = ((n : ℝ) / m) ^ 2 / (144 * johnLog m n) := by
    rw [hκe, hβdef]; field_simp; ring
  have hit := iterate_rate hP hβ hκ hβ le_rfl (B := 3 / 2) (by linarith) hv.pos hv.eq hw0' hG' t
  rw [hrate] at hit
  have hsb : ∀ N : ℕ, (∀ s < N, ∃ i, LIM ≤ |(avgMap σ β)^[s + 1] w0 i - (avgMap σ β)^[s] w0 i|) →
      N * LIM ^ 2 ≤ 3 / 2 * G := fun N h =>
    steps_bound hP hβ hβ le_rfl (B := 3 / 2) (by linarith) hv.pos hv.eq hw0' hG' hL h
  refine ⟨(avgMap σ β)^[t] w0, t, c, ?_, hwc, by omega, hw0.iterate hP hβ le_rfl le_rfl t, hsb t hbefore, ?_, ?_, ?_⟩
  · show (johnWeightConv E LIM M o.w x A b).map _ = _
    rw [hwc]; rfl
  · intro h
    obtain ⟨h1, i, hi⟩ := hc' h
    refine ⟨by omega, ?_, ?_⟩
    · have := hsb (t + 1) fun s hs => by
        rcases Nat.lt_succ_iff_lt_or_eq.1 hs with h | rfl
        · exact hbefore s h
        · exact ⟨i, hi⟩
      have e : (M : ℝ) = ((t + 1 : ℕ) : ℝ) := by
        have : M = ((t + 1 : ℕ) : Int) := by omega
        rw [this]; simp
      rw [e]; exact this
    · calc LIM ^ 2 ≤ |(avgMap σ β)^[t + 1] w0 i - (avgMap σ β)^[t] w0 i| ^ 2 := pow_le_pow_left₀ hL.le hi 2
        _ = ((avgMap σ β)^[t + 1] w0 i - (avgMap σ β)^[t] w0 i) ^ 2 := sq_abs _
        _ ≤ _ := Finset.single_le_sum (f := fun i => ((avgMap σ β)^[t + 1] w0 i - (avgMap σ β)^[t] w0 i) ^ 2)
          (fun i _ => sq_nonneg _) (Finset.mem_univ i)
        _ ≤ _ := hit.2
  · have e : 4 * (3 / 2 : ℝ) / (1 - denseJohnAlpha m n) = 6 * johnLog m n := by rw [hκe]; field_simp; ring
    have := hit.1
    rw [e] at this
    exact this
  · intro h
    have hd := (dist_of_step hP hβ.le hκ hβ (by linarith) hv.pos hv.eq (B := 3 / 2)
      (fun i => by have := (WBox.fixed hP hv.pos hv.eq i).2; linarith) (hw0'.iterate hP hβ le_rfl (by linarith) t)).2
    have hs : ∑ i, (avgMap σ β ((avgMap σ β)^[t] w0) i - (avgMap σ β)^[t] w0 i) ^ 2 ≤ m * LIM ^ 2 := by
      calc _ ≤ ∑ _i : Fin m, LIM ^ 2 := Finset.sum_le_sum fun i _ => by
            have := hc h i
            rw [Function.iterate_succ_apply'] at this
            rw [← sq_abs]
            exact pow_le_pow_left₀ (abs_nonneg _) this.le 2
        _ = _ := by simp
    calc distSq ((avgMap σ β)^[t] w0) v ≤ _ := hd
      _ ≤ (8 * (3 / 2) / ((1 - denseJohnAlpha m n) * β)) ^ 2 * (m * LIM ^ 2) := mul_le_mul_of_nonneg_left hs (sq_nonneg _)
      _ = _ := by rw [hκe, hβdef]; field_simp; ring

/-- **C73** (3): a call of `generateWeight` on an object that starts from all ones. It makes at most `3n/2 / LIM²` updates, so it
stops by its criterion whenever the iteration bound exceeds that; it then is within `24 (n/d) log2⌊2n/d⌋ LIM √n` of the John weights; and in every
case the distance falls geometrically with the number of updates. -/
theorem C73_fresh (E : Eigen ℝ) (hE : E.InvExact) (R LIM : ℝ) (hL : 0 < LIM) (M : Int) (hM : 1 ≤ M) (o : BState ℝ)
    (ho : StartsAtOnes o.w m) (x : Fin n → ℝ) (A : Matrix (Fin m) (Fin n) ℝ) (b : Fin m → ℝ) (hn : 0 < n) (hA : IndepCols A)
    (hx : x ∈ Interior A b) (v : Fin m → ℝ)
    (hv : IsJohnWeights (denseJohnAlpha m n) ((n : ℝ) / (2 * m)) (normals x A b) v) :
    ∃ (w : Fin m → ℝ) (t : ℕ) (conv : Bool),
      (johnClass E R LIM M).generateWeight o x A b = .ok (⟨m, w⟩, { o with w := ⟨m, w⟩ }) ∧
      johnWeightConv E LIM M o.w x A b = .ok (w, conv) ∧ (t : Int) < M ∧
      (conv = false → (t : Int) + 1 = M) ∧
      t * LIM ^ 2 ≤ 3 / 2 * m ∧ (3 / 2 * m < M * LIM ^ 2 → conv = true) ∧
      distSq w v ≤ 6 * johnLog m n * m * (1 - ((n : ℝ) / m) ^ 2 / (144 * johnLog m n)) ^ t ∧
      (conv = true → distSq w v ≤ m * (24 * johnLog m n * ((m : ℝ) / n) * LIM) ^ 2) := by
  have hm : 0 < m := lt_of_lt_of_le hn hA.le
  have hm' : (0 : ℝ) < m := by exact_mod_cast hm
  have hβ : 0 < (n : ℝ) / (2 * m) := by positivity
  have hβ1 : (n : ℝ) / (2 * m) ≤ 1 := by
    have : (n : ℝ) ≤ m := by exact_mod_cast hA.le
    rw [div_le_one (by positivity)]; linarith
  obtain ⟨w, t, c, h1, h2, h3, _, h5, h6, h7, h8⟩ := john_run E hE R LIM hL M hM o (fun _ => 1) ho
    (johnStart_of_ones ho hA.le _ ho) x A b hn hA hx v hv m fun L hP => by
      simpa using gap_one hP hβ hβ1 hv.pos hv.eq
  refine ⟨w, t, c, h1, h2, h3, fun h => (h6 h).1, h5, fun h => ?_, ?_, h8⟩
  · by_contra hc
    have := (h6 (by simpa using hc)).2.1
    linarith
  · refine h7.trans (le_of_eq ?_)
    ring

/-- **C73** (4): the same for an object with any history: the bounds lose a factor `2n/d`, and the object is again in such a state. -/
theorem C73_any (E : Eigen ℝ) (hE : E.InvExact) (R LIM : ℝ) (hL : 0 < LIM) (M : Int) (hM : 1 ≤ M) (o : BState ℝ)
    (w0 : Fin m → ℝ) (ho : StartsFrom o.w m w0) (hs : JohnStart o.w m n)
    (x : Fin n → ℝ) (A : Matrix (Fin m) (Fin n) ℝ) (b : Fin m → ℝ) (hn : 0 < n) (hA : IndepCols A)
    (hx : x ∈ Interior A b) (v : Fin m → ℝ)
    (hv : IsJohnWeights (denseJohnAlpha m n) ((n : ℝ) / (2 * m)) (normals x A b) v) :
    ∃ (w : Fin m → ℝ) (t : ℕ) (conv : Bool),
      (johnClass E R LIM M).generateWeight o x A b = .ok (⟨m, w⟩, { o with w := ⟨m, w⟩ }) ∧
      johnWeightConv E LIM M o.w x A b = .ok (w, conv) ∧ (t : Int) < M ∧
      (conv = false → (t : Int) + 1 = M) ∧
      t * LIM ^ 2 ≤ 3 * (m : ℝ) ^ 2 / n ∧ (3 * (m : ℝ) ^ 2 / n < M * LIM ^ 2 → conv = true) ∧
      distSq w v ≤ 12 * johnLog m n * ((m : ℝ) ^ 2 / n) * (1 - ((n : ℝ) / m) ^ 2 / (144 * johnLog m n)) ^ t ∧
      (conv = true → distSq w v ≤ m * (24 * johnLog m n * ((m : ℝ) / n) * LIM) ^ 2) ∧
      StartsFrom (⟨m, w⟩ : DVec ℝ) m w ∧ JohnStart ⟨m, w⟩ m n := by
  have hm : 0 < m := lt_of_lt_of_le hn hA.le
  have hm' : (0 : ℝ) < m := by exact_mod_cast hm
  have hn' : (0 : ℝ) < n := by exact_mod_cast hn
  have hβ : 0 < (n : ℝ) / (2 * m) := by positivity
  obtain ⟨w, t, c, h1, h2, h3, h4, h5, h6, h7, h8⟩ := john_run E hE R LIM hL M hM o w0 ho (hs _ ho) x A b hn hA hx v hv
    (2 * (m : ℝ) ^ 2 / n) fun L hP => by
      refine (gap_box hP hβ hv.pos hv.eq (hs _ ho)).trans (le_of_eq ?_)
      rw [Fintype.card_fin]; field_simp
  have e1 : 3 / 2 * (2 * (m : ℝ) ^ 2 / n) = 3 * (m : ℝ) ^ 2 / n := by ring
  rw [e1] at h5 h6
  have hst : StartsFrom (⟨m, w⟩ : DVec ℝ) m w :=
    .stored (w := ⟨m, w⟩) hm rfl (by have := (h4 ⟨0, hm⟩).1; intro h; simp only at h; linarith)
  refine ⟨w, t, c, h1, h2, h3, fun h => (h6 h).1, h5, fun h => ?_, ?_, h8, hst, ?_⟩
  · by_contra hc
    have := (h6 (by simpa using hc)).2.1
    linarith
  · refine h7.trans (le_of_eq ?_)
    field_simp; ring
  · intro w' hw' i
    have h1 := warmStart_iff.2 hst
    rw [warmStart_iff.2 hw'] at h1
    rw [Out.ok.inj h1]
    exact h4 i

/-- **C73** (5): the iterates of the update converge to the John weights. -/
theorem C73_limit (x : Fin n → ℝ) (A : Matrix (Fin m) (Fin n) ℝ) (b : Fin m → ℝ) (hn : 0 < n) (hA : IndepCols A)
    (hx : x ∈ Interior A b) (v : Fin m → ℝ)
    (hv : IsJohnWeights (denseJohnAlpha m n) ((n : ℝ) / (2 * m)) (normals x A b) v) :
    Filter.Tendsto (fun t => (johnUpdate x A b)^[t] (fun _ => 1)) Filter.atTop (nhds v) := by
  have hm : 0 < m := lt_of_lt_of_le hn hA.le
  have hm' : (0 : ℝ) < m := by exact_mod_cast hm
  have hn' : (0 : ℝ) < n := by exact_mod_cast hn
  have hα := denseJohnAlpha_range hn hA.le
  have hmn : (n : ℝ) ≤ m := by exact_mod_cast hA.le
  have hβ : 0 < (n : ℝ) / (2 * m) := by positivity
  have hβ1 : (n : ℝ) / (2 * m) ≤ 1 := by rw [div_le_one (by positivity)]; linarith
  obtain ⟨L, hP⟩ := exists_potential (normals_indep hx hA) hα.1 hα.2.le
  have hG : climb L ((n : ℝ) / (2 * m)) v - climb L ((n : ℝ) / (2 * m)) (fun _ => 1) ≤ m := by
    simpa using gap_one hP hβ hβ1 hv.pos hv.eq
  have hw0 : WBox ((n : ℝ) / (2 * m)) (1 + (n : ℝ) / (2 * m)) (fun _ : Fin m => (1 : ℝ)) := fun i => ⟨hβ1, by linarith⟩
  have hκ : 0 < 1 - denseJohnAlpha m n := by linarith [hα.2]
  have hq := rate_nonneg hβ hκ hP.kle hβ le_rfl (le_refl (1 + (n : ℝ) / (2 * m)))
  rw [tendsto_pi_nhds]
  intro i
  rw [← tendsto_sub_nhds_zero_iff]
  refine squeeze_zero_norm (a := fun t => Real.sqrt (4 * (1 + (n : ℝ) / (2 * m)) / (1 - denseJohnAlpha m n) *
    ((1 - (1 - denseJohnAlpha m n) * ((n : ℝ) / (2 * m)) ^ 2 / (16 * (1 + (n : ℝ) / (2 * m)) ^ 2)) ^ t * m))) (fun t => ?_) ?_
  · have h1 := (iterate_rate hP hβ hκ hβ le_rfl le_rfl hv.pos hv.eq hw0 hG t).1
    refine Real.abs_le_sqrt (le_trans ?_ h1)
    exact Finset.single_le_sum (f := fun i => ((avgMap (fun w i => lev (scaledRows w (denseJohnAlpha m n / 2) (normals x A b)) i)
      ((n : ℝ) / (2 * m)))^[t] (fun _ => 1) i - v i) ^ 2) (fun i _ => sq_nonneg _) (Finset.mem_univ i)
  · have h2 := tendsto_pow_atTop_nhds_zero_of_lt_one hq.1 hq.2
    have h3 := (h2.mul_const (m : ℝ)).const_mul (4 * (1 + (n : ℝ) / (2 * m)) / (1 - denseJohnAlpha m n))
    have h4 := h3.sqrt
    simpa using h4

theorem distSq_triangle (u v w : Fin m → ℝ) : distSq u w ≤ 2 * distSq u v + 2 * distSq w v := by
  unfold distSq
  rw [Finset.mul_sum, Finset.mul_sum, ← Finset.sum_add_distrib]
  exact Finset.sum_le_sum fun i _ => by nlinarith [sq_nonneg ((u i - v i) + (w i - v i))]

/-- **C73** (6): two objects with any histories, asked at the same point: whenever both loops stop by their criterion, the weights
agree up to `48 (n/d) log2⌊2n/d⌋ LIM √n`. -/
theorem C73_history (E : Eigen ℝ) (hE : E.InvExact) (LIM : ℝ) (hL : 0 < LIM) (M M' : Int) (hM : 1 ≤ M) (hM' : 1 ≤ M')
    (o o' : BState ℝ) (w0 w0' : Fin m → ℝ) (ho : StartsFrom o.w m w0) (ho' : StartsFrom o'.w m w0')
    (hs : JohnStart o.w m n) (hs' : JohnStart o'.w m n)
    (x : Fin n → ℝ) (A : Matrix (Fin m) (Fin n) ℝ) (b : Fin m → ℝ) (hn : 0 < n) (hA : IndepCols A)
    (hx : x ∈ Interior A b) (w w' : Fin m → ℝ) (hw : johnWeightConv E LIM M o.w x A b = .ok (w, true))
    (hw' : johnWeightConv E LIM M' o'.w x A b = .ok (w', true)) :
    distSq w w' ≤ m * (48 * johnLog m n * ((m : ℝ) / n) * LIM) ^ 2 := by
  obtain ⟨v, hv, _⟩ := C73_exists x A b hn hA hx
  obtain ⟨u, t, c, _, h2, _, _, _, _, _, h8, _⟩ := C73_any E hE 0 LIM hL M hM o w0 ho hs x A b hn hA hx v hv
  obtain ⟨u', t', c', _, h2', _, _, _, _, _, h8', _⟩ := C73_any E hE 0 LIM hL M' hM' o' w0' ho' hs' x A b hn hA hx v hv
  rw [hw] at h2
  rw [hw'] at h2'
  have e := Out.ok.inj h2
  have e' := Out.ok.inj h2'
  obtain ⟨rfl, rfl⟩ := Prod.mk.inj e
  obtain ⟨rfl, rfl⟩ := Prod.mk.inj e'
  have := distSq_triangle w v w'
  have a := h8 rfl
  have b := h8' rfl
  calc _ ≤ _ := this
    _ ≤ 2 * (m * (24 * johnLog m n * ((m : ℝ) / n) * LIM) ^ 2) + 2 * (m * (24 * johnLog m n * ((m : ℝ) / n) * LIM) ^ 2) := by linarith
    _ = _ := by ring

end PW

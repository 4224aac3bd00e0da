import Verif.Props.JohnConverges
import Verif.Lemmas.SparseJohnPotential
import Verif.Props.Stable

/-!
# C73 for `SparseJohnWalk`

The scores are the leverage scores of the kernel of `A diag(1/g)`, `g` the weighted inverse slack on the constrained coordinates and
the regularisation constant on the free ones.
-/

namespace PW
open Classical Matrix
variable {m n : ℕ}

/-- The sparse John weights: zero on the free coordinates, leverage score plus `β` on the constrained ones. -/
structure IsSparseJohnWeights (α β ERR : ℝ) (A : Matrix (Fin m) (Fin n) ℝ) (k : ℕ) (x w : Fin n → ℝ) : Prop where
  head : ∀ i : Fin n, i.val < n - k → w i = 0
  pos : ∀ i : Fin n, n - k ≤ i.val → 0 < w i
  eq : ∀ i : Fin n, n - k ≤ i.val → w i = colev (colScaled A (slackScale ERR k (fun j => w j ^ (α / 2)) x)) i + β

theorem padTail_restrict {k : ℕ} {w : Fin n → ℝ} (h : ∀ i : Fin n, i.val < n - k → w i = 0) :
    padTail k (fun i : TailIx n k => w i.1) = w := by
  funext i
  unfold padTail
  split
  · rfl
  · rename_i hi; exact (h i (by omega)).symm

theorem isSparseJohnWeights_iff {α β ERR : ℝ} {A : Matrix (Fin m) (Fin n) ℝ} {k : ℕ} {x w : Fin n → ℝ} :
    IsSparseJohnWeights α β ERR A k x w ↔ ∃ u : TailIx n k → ℝ, w = padTail k u ∧ (∀ i, 0 < u i) ∧
      ∀ i, u i = tailScore α ERR A k x u i + β := by
  constructor
  · intro h
    refine ⟨fun i => w i.1, (padTail_restrict h.head).symm, fun i => h.pos i.1 i.2, fun i => ?_⟩
    unfold tailScore
    rw [padTail_restrict h.head]
    exact h.eq i.1 i.2
  · rintro ⟨u, rfl, h1, h2⟩
    refine ⟨fun i hi => by unfold padTail; rw [dif_neg (by omega)], padTail_pos h1, fun i hi => ?_⟩
    have := h2 ⟨i, hi⟩
    rw [← padTail_tail u] at this
    exact this

theorem sparseJohnLog_ge {δ k : ℝ} (hδ : 0 < δ) (hk : δ ≤ k) : 1 ≤ Real.logb 2 (2 * k / δ) := by
  have h2 : 2 ≤ 2 * k / δ := by rw [le_div_iff₀ hδ]; linarith
  rw [Real.le_logb_iff_rpow_le (by norm_num) (by linarith)]
  simpa using h2

theorem sparseJohnExponent_range {δ k : ℝ} (hδ : 0 < δ) (hk : δ ≤ k) :
    0 ≤ sparseJohnExponent δ k ∧ sparseJohnExponent δ k < 1 := by
  have h2 : 2 ≤ 2 * k / δ := by rw [le_div_iff₀ hδ]; linarith
  have hl : 1 ≤ Real.logb 2 (2 * k / δ) := by
    rw [Real.le_logb_iff_rpow_le (by norm_num) (by linarith)]
    simpa using h2
  unfold sparseJohnExponent
  have h3 : 1 / Real.logb 2 (2 * k / δ) ≤ 1 := (div_le_one (by linarith)).2 hl
  have h4 : 0 < 1 / Real.logb 2 (2 * k / δ) := by positivity
  constructor <;> linarith

theorem card_tailIx {k : ℕ} (hk : k ≤ n) : Fintype.card (TailIx n k) = k := by
  rw [Fintype.card_subtype]
  have h1 : (Finset.univ.filter fun i : Fin n => n - k ≤ i.val).card + (Finset.univ.filter fun i : Fin n => ¬ n - k ≤ i.val).card = n := by
    have := Finset.card_filter_add_card_filter_not (s := (Finset.univ : Finset (Fin n))) (fun i : Fin n => n - k ≤ i.val)
    simpa using this
  have h2 : (Finset.univ.filter fun i : Fin n => ¬ n - k ≤ i.val).card = n - k := by
    have : (Finset.univ.filter fun i : Fin n => ¬ n - k ≤ i.val) = Finset.univ.filter fun i : Fin n => i.val < n - k := by
      ext i; simp only [Finset.mem_filter, Finset.mem_univ, true_and]; omega
    rw [this, Fin.card_filter_val_lt]
    omega
  omega

theorem sparseJohnMap_pad {α β ERR : ℝ} {A : Matrix (Fin m) (Fin n) ℝ} {k : ℕ} {x : Fin n → ℝ} (u : TailIx n k → ℝ) :
    sparseJohnMap α β ERR A k x (padTail k u) = padTail k (avgMap (tailScore α ERR A k x) β u) := by
  funext i
  unfold sparseJohnMap
  by_cases h : n - k ≤ i.val
  · have e1 := padTail_tail u ⟨i, h⟩
    have e2 := padTail_tail (avgMap (tailScore α ERR A k x) β u) ⟨i, h⟩
    simp only at e1 e2
    rw [if_pos h, e2, e1]; rfl
  · rw [if_neg h]; unfold padTail; rw [dif_neg h]

theorem sparseJohnMap_iterate {α β ERR : ℝ} {A : Matrix (Fin m) (Fin n) ℝ} {k : ℕ} {x : Fin n → ℝ} (u : TailIx n k → ℝ) (t : ℕ) :
    (sparseJohnMap α β ERR A k x)^[t] (padTail k u) = padTail k ((avgMap (tailScore α ERR A k x) β)^[t] u) := by
  induction t with
  | zero => rfl
  | succ t ih => rw [Function.iterate_succ_apply', ih, sparseJohnMap_pad, Function.iterate_succ_apply']

theorem distSq_pad {k : ℕ} (u v : TailIx n k → ℝ) : distSq (padTail k u) (padTail k v) = ∑ i, (u i - v i) ^ 2 := by
  unfold distSq
  rw [sum_tail (k := k)]
  · exact Finset.sum_congr rfl fun i _ => by rw [padTail_tail, padTail_tail]
  · intro i h; unfold padTail; rw [dif_neg h, dif_neg h]; ring

/-- **C73** (1), sparse: exactly one vector of weights solves the equation at every point with positive constrained coordinates. -/
theorem C73_sparse_exists (ERR : ℝ) (hR : ERR ≠ 0) (x : Fin n → ℝ) (A : Matrix (Fin m) (Fin n) ℝ) (hA : IndepRows A) (k : ℕ)
    (hmn : m < n) (hd : n - m ≤ k) (hx : x ∈ TailPos n k) :
    ∃! w, IsSparseJohnWeights (sparseJohnExponent ((n : ℝ) - m) k) (((n : ℝ) - m) / (2 * k)) ERR A k x w := by
  have hmn' : (0 : ℝ) < (n : ℝ) - m := by rw [sub_pos]; exact_mod_cast hmn
  have hdk : (n : ℝ) - m ≤ k := by
    have : ((n - m : ℕ) : ℝ) ≤ k := by exact_mod_cast hd
    rwa [Nat.cast_sub hmn.le] at this
  have hk0 : (0 : ℝ) < k := by linarith
  have hβ : 0 < ((n : ℝ) - m) / (2 * k) := by positivity
  have hα := sparseJohnExponent_range hmn' hdk
  obtain ⟨L, hL⟩ := exists_tailPotential hA hR hx hα.1 hα.2.le
  obtain ⟨v, hv, hf⟩ := exists_fixed hL hβ
  refine ⟨padTail k v, isSparseJohnWeights_iff.2 ⟨v, rfl, hv, hf⟩, fun w hw => ?_⟩
  obtain ⟨u, rfl, h1, h2⟩ := isSparseJohnWeights_iff.1 hw
  rw [fixed_unique hL hβ.le (by linarith [hα.2]) hv hf h1 (climb_fixed_max hL hβ.le h1 h2 hv)]

/-- The stored vector is a start inside the box, on the constrained coordinates. -/
def SparseJohnStart (w : DVec ℝ) (m n k : ℕ) : Prop :=
  ∀ w0 : Fin n → ℝ, StartsFrom w n w0 → ∀ i : Fin n, n - k ≤ i.val →
    ((n : ℝ) - m) / (2 * k) ≤ w0 i ∧ w0 i ≤ 1 + ((n : ℝ) - m) / (2 * k)

theorem zeroHead_pad {k : ℕ} (w : Fin n → ℝ) : zeroHead w k = padTail k fun i : TailIx n k => w i.1 := by
  funext i
  unfold zeroHead padTail
  by_cases h : n - k ≤ i.val
  · rw [if_pos ((isTail_iff i).2 h), dif_pos h]
  · rw [if_neg (by rw [isTail_iff]; exact h), dif_neg h]

theorem sparseJohn_run (E : Eigen ℝ) (hE : E.LdltExact) (ERR R LIM : ℝ) (hR : ERR ≠ 0) (hL : 0 < LIM) (M : Int) (hM : 1 ≤ M)
    (o : BState ℝ) (w0 : Fin n → ℝ) (ho : StartsFrom o.w n w0) (k : ℕ) (hkn : k ≤ n)
    (hbox : ∀ i : Fin n, n - k ≤ i.val → ((n : ℝ) - m) / (2 * k) ≤ w0 i ∧ w0 i ≤ 1 + ((n : ℝ) - m) / (2 * k))
    (junk x : Fin n → ℝ) (A : Matrix (Fin m) (Fin n) ℝ) (hA : IndepRows A) (hmn : m < n) (hd : n - m ≤ k) (hx : x ∈ TailPos n k)
    (v : Fin n → ℝ)
    (hv : IsSparseJohnWeights (sparseJohnExponent ((n : ℝ) - m) k) (((n : ℝ) - m) / (2 * k)) ERR A k x v) (G : ℝ)
    (hG : ∀ L, Potential (1 - sparseJohnExponent ((n : ℝ) - m) k) (tailScore (sparseJohnExponent ((n : ℝ) - m) k) ERR A k x) L →
      climb L (((n : ℝ) - m) / (2 * k)) (fun i : TailIx n k => v i.1) -
        climb L (((n : ℝ) - m) / (2 * k)) (fun i : TailIx n k => w0 i.1) ≤ G) :
    ∃ (w : Fin n → ℝ) (t : ℕ) (conv : Bool),
      (sparseJohnClass E ERR R LIM M).generateWeight junk o x A k = .ok (⟨n, w⟩, { o with w := ⟨n, w⟩ }) ∧
      sparseJohnWeightConv E ERR LIM M o.w junk x A k = .ok (w, conv) ∧ (t : Int) < M ∧
      (∀ i : Fin n, i.val < n - k → w i = 0) ∧
      (∀ i : Fin n, n - k ≤ i.val → ((n : ℝ) - m) / (2 * k) ≤ w i ∧ w i ≤ 1 + ((n : ℝ) - m) / (2 * k)) ∧
      t * LIM ^ 2 ≤ 3 / 2 * G ∧
      (conv = false → (t : Int) + 1 = M ∧ M * LIM ^ 2 ≤ 3 / 2 * G) ∧
      distSq w v ≤ 6 * Real.logb 2 (2 * k / ((n : ℝ) - m)) * ((1 - (((n : ℝ) - m) / k) ^ 2 / (144 * Real.logb 2 (2 * k / ((n : ℝ) - m)))) ^ t * G) ∧
      (conv = true → distSq w v ≤ k * (24 * Real.logb 2 (2 * k / ((n : ℝ) - m)) * (k / ((n : ℝ) - m)) * LIM) ^ 2) := by
  have hn : 0 < n := by omega
  have hmn' : (0 : ℝ) < (n : ℝ) - m := by rw [sub_pos]; exact_mod_cast hmn
  have hdk : (n : ℝ) - m ≤ k := by
    have : ((n - m : ℕ) : ℝ) ≤ k := by exact_mod_cast hd
    rwa [Nat.cast_sub hmn.le] at this
  have hk0 : (0 : ℝ) < k := by linarith
  set β : ℝ := ((n : ℝ) - m) / (2 * k) with hβdef
  have hβ : 0 < β := by positivity
  have hβ2 : β ≤ 1 / 2 := by
    rw [hβdef, div_le_div_iff₀ (by positivity) (by norm_num)]; linarith
  have hα := sparseJohnExponent_range hmn' hdk
  set α := sparseJohnExponent ((n : ℝ) - m) k with hαdef
  obtain ⟨L, hP⟩ := exists_tailPotential hA hR hx hα.1 hα.2.le
  have hG' := hG L hP
  set σ := tailScore α ERR A k x with hσ
  obtain ⟨v', hve, hvp, hvf⟩ := isSparseJohnWeights_iff.1 hv
  have hvr : (fun i : TailIx n k => v i.1) = v' := by funext i; rw [hve, padTail_tail]
  rw [hvr] at hG'
  set u0 : TailIx n k → ℝ := fun i => w0 i.1 with hu0
  have hw0 : WBox β (1 + β) u0 := fun i => hbox i.1 i.2
  have hw0' : WBox β (3 / 2) u0 := fun i => ⟨(hw0 i).1, by have := (hw0 i).2; linarith⟩
  obtain ⟨t, c, hrun, htN, hbefore, hc, hc'⟩ := johnLoop_run (I := fun w => ∃ u : TailIx n k → ℝ, w = padTail k u ∧ WBox β (1 + β) u)
    (next := sparseJohnNext E ERR junk x A k) (spec := sparseJohnMap α β ERR A k x)
    (fun w ⟨u, hw, hu⟩ => by
      rw [hw]
      exact sparseJohnNext_tail hE hR junk hA hx (fun i hi => by unfold padTail; rw [dif_neg (by omega)])
        (padTail_pos fun i => hβ.trans_le (hu i).1))
    (fun w ⟨u, hw, hu⟩ => ⟨avgMap σ β u, by rw [hw, sparseJohnMap_pad], hu.map hP hβ le_rfl le_rfl⟩) hn
    (diff := fun nw w i => Scalar.abs (w i - nw i)) (fun u v i => abs_sub_comm _ _)
    (LIM := LIM) M.toNat (padTail k u0) (padTail k u0) (by omega) ⟨u0, rfl, hw0⟩
  simp only [sparseJohnMap_iterate] at hrun hbefore hc hc'
  have hcv : ∀ s, (∃ i, LIM ≤ |padTail k ((avgMap σ β)^[s + 1] u0) i - padTail k ((avgMap σ β)^[s] u0) i|) →
      ∃ i, LIM ≤ |(avgMap σ β)^[s + 1] u0 i - (avgMap σ β)^[s] u0 i| := by
    rintro s ⟨i, hi⟩
    by_cases h : n - k ≤ i.val
    · refine ⟨⟨i, h⟩, ?_⟩
      rw [← padTail_tail ((avgMap σ β)^[s + 1] u0), ← padTail_tail ((avgMap σ β)^[s] u0)]
      exact hi
    · unfold padTail at hi
      rw [dif_neg h, dif_neg h, sub_self, abs_zero] at hi
      linarith
  have hwc : sparseJohnWeightConv E ERR LIM M o.w junk x A k = .ok (padTail k ((avgMap σ β)^[t] u0), c) := by
    unfold sparseJohnWeightConv
    rw [warmStart_iff.2 ho, Out.ok_bind, zeroHead_pad]
    exact hrun
  have hΛ := sparseJohnLog_ge hmn' hdk
  have hκe : 1 - α = 1 / Real.logb 2 (2 * k / ((n : ℝ) - m)) := by rw [hαdef]; unfold sparseJohnExponent; ring
  have hκ : 0 < 1 - α := by linarith [hα.2]
  set Λ := Real.logb 2 (2 * k / ((n : ℝ) - m)) with hΛdef
  have hrate : (1 - α) * β ^ 2 / (16 * (3 / 2) ^ 2) = (((n : ℝ) - m) / k) ^ 2 / (144 * Λ) := by
    rw [hκe, hβdef]; field_simp; ring
  have hit := iterate_rate hP hβ hκ hβ le_rfl (B := 3 / 2) (by linarith) hvp hvf hw0' hG' t
  rw [hrate] at hit
  have hsb : ∀ N : ℕ, (∀ s < N, ∃ i, LIM ≤ |(avgMap σ β)^[s + 1] u0 i - (avgMap σ β)^[s] u0 i|) →
      N * LIM ^ 2 ≤ 3 / 2 * G := fun N h =>
    steps_bound hP hβ hβ le_rfl (B := 3 / 2) (by linarith) hvp hvf hw0' hG' hL h
  have hbx := hw0.iterate hP hβ le_rfl le_rfl t
  refine ⟨padTail k ((avgMap σ β)^[t] u0), t, c, ?_, hwc, by omega, fun i hi => by unfold padTail; rw [dif_neg (by omega)],
    fun i hi => ?_, hsb t fun s hs => hcv s (hbefore s hs), ?_, ?_, ?_⟩
  · show (sparseJohnWeightConv E ERR LIM M o.w junk x A k).map _ = _
    rw [hwc]; rfl
  · have := padTail_tail ((avgMap σ β)^[t] u0) ⟨i, hi⟩
    simp only at this
    rw [this]
    exact hbx ⟨i, hi⟩
  · intro h
    obtain ⟨h1, h2⟩ := hc' h
    refine ⟨by omega, ?_⟩
    have := hsb (t + 1) fun s hs => by
      rcases Nat.lt_succ_iff_lt_or_eq.1 hs with h | rfl
      · exact hcv s (hbefore s h)
      · exact hcv s h2
    have e : (M : ℝ) = ((t + 1 : ℕ) : ℝ) := by
      have : M = ((t + 1 : ℕ) : Int) := by omega
      rw [this]; simp
    rw [e]; exact this
  · have e : 4 * (3 / 2 : ℝ) / (1 - α) = 6 * Λ := by rw [hκe]; field_simp; ring
    have := hit.1
    rw [e] at this
    rw [hve, distSq_pad]
    exact this
  · intro h
    have hd := (dist_of_step hP hβ.le hκ hβ (by linarith) hvp hvf (B := 3 / 2)
      (fun i => by have := (WBox.fixed hP hvp hvf i).2; linarith) (hw0'.iterate hP hβ le_rfl (by linarith) t)).2
    have hs : ∑ i, (avgMap σ β ((avgMap σ β)^[t] u0) i - (avgMap σ β)^[t] u0 i) ^ 2 ≤ k * LIM ^ 2 := by
      calc _ ≤ ∑ _i : TailIx n k, LIM ^ 2 := Finset.sum_le_sum fun i _ => by
            have := hc h i.1
            rw [Function.iterate_succ_apply', padTail_tail, padTail_tail] at this
            rw [← sq_abs]
            exact pow_le_pow_left₀ (abs_nonneg _) this.le 2
        _ = _ := by simp only [Finset.sum_const, Finset.card_univ, card_tailIx hkn, nsmul_eq_mul]
    rw [hve, distSq_pad]
    calc _ ≤ _ := hd
      _ ≤ (8 * (3 / 2) / ((1 - α) * β)) ^ 2 * (k * LIM ^ 2) := mul_le_mul_of_nonneg_left hs (sq_nonneg _)
      _ = _ := by rw [hκe, hβdef]; field_simp; ring

/-- **C73** (3), sparse: a call on an object that starts from all ones. -/
theorem C73_sparse_fresh (E : Eigen ℝ) (hE : E.LdltExact) (ERR R LIM : ℝ) (hR : ERR ≠ 0) (hL : 0 < LIM) (M : Int) (hM : 1 ≤ M)
    (o : BState ℝ) (ho : StartsAtOnes o.w n) (k : ℕ) (hkn : k ≤ n) (junk x : Fin n → ℝ) (A : Matrix (Fin m) (Fin n) ℝ)
    (hA : IndepRows A) (hmn : m < n) (hd : n - m ≤ k) (hx : x ∈ TailPos n k) (v : Fin n → ℝ)
    (hv : IsSparseJohnWeights (sparseJohnExponent ((n : ℝ) - m) k) (((n : ℝ) - m) / (2 * k)) ERR A k x v) :
    ∃ (w : Fin n → ℝ) (t : ℕ) (conv : Bool),
      (sparseJohnClass E ERR R LIM M).generateWeight junk o x A k = .ok (⟨n, w⟩, { o with w := ⟨n, w⟩ }) ∧
      sparseJohnWeightConv E ERR LIM M o.w junk x A k = .ok (w, conv) ∧ (t : Int) < M ∧
      (conv = false → (t : Int) + 1 = M) ∧
      t * LIM ^ 2 ≤ 3 / 2 * k ∧ (3 / 2 * k < M * LIM ^ 2 → conv = true) ∧
      distSq w v ≤ 6 * Real.logb 2 (2 * k / ((n : ℝ) - m)) * k * (1 - (((n : ℝ) - m) / k) ^ 2 / (144 * Real.logb 2 (2 * k / ((n : ℝ) - m)))) ^ t ∧
      (conv = true → distSq w v ≤ k * (24 * Real.logb 2 (2 * k / ((n : ℝ) - m)) * (k / ((n : ℝ) - m)) * LIM) ^ 2) := by
  have hmn' : (0 : ℝ) < (n : ℝ) - m := by rw [sub_pos]; exact_mod_cast hmn
  have hdk : (n : ℝ) - m ≤ k := by
    have : ((n - m : ℕ) : ℝ) ≤ k := by exact_mod_cast hd
    rwa [Nat.cast_sub hmn.le] at this
  have hk0 : (0 : ℝ) < k := by linarith
  have hβ : 0 < ((n : ℝ) - m) / (2 * k) := by positivity
  have hβ1 : ((n : ℝ) - m) / (2 * k) ≤ 1 := by rw [div_le_one (by positivity)]; linarith
  obtain ⟨v', hve, hvp, hvf⟩ := isSparseJohnWeights_iff.1 hv
  have hvr : (fun i : TailIx n k => v i.1) = v' := by funext i; rw [hve, padTail_tail]
  obtain ⟨w, t, c, h1, h2, h3, _, _, h5, h6, h7, h8⟩ := sparseJohn_run E hE ERR R LIM hR hL M hM o (fun _ => 1) ho k hkn
    (fun i _ => ⟨hβ1, by linarith⟩) junk x A hA hmn hd hx v hv k fun L hP => by
      rw [hvr]
      have := gap_one hP hβ hβ1 hvp hvf
      rwa [card_tailIx hkn] at this
  refine ⟨w, t, c, h1, h2, h3, fun h => (h6 h).1, h5, fun h => ?_, ?_, h8⟩
  · by_contra hc
    have := (h6 (by simpa using hc)).2
    linarith
  · refine h7.trans (le_of_eq ?_)
    ring

/-- **C73** (4), sparse: an object with any history. -/
theorem C73_sparse_any (E : Eigen ℝ) (hE : E.LdltExact) (ERR R LIM : ℝ) (hR : ERR ≠ 0) (hL : 0 < LIM) (M : Int) (hM : 1 ≤ M)
    (o : BState ℝ) (w0 : Fin n → ℝ) (ho : StartsFrom o.w n w0) (k : ℕ) (hs : SparseJohnStart o.w m n k) (hkn : k ≤ n)
    (junk x : Fin n → ℝ) (A : Matrix (Fin m) (Fin n) ℝ)
    (hA : IndepRows A) (hmn : m < n) (hd : n - m ≤ k) (hx : x ∈ TailPos n k) (v : Fin n → ℝ)
    (hv : IsSparseJohnWeights (sparseJohnExponent ((n : ℝ) - m) k) (((n : ℝ) - m) / (2 * k)) ERR A k x v) :
    ∃ (w : Fin n → ℝ) (t : ℕ) (conv : Bool),
      (sparseJohnClass E ERR R LIM M).generateWeight junk o x A k = .ok (⟨n, w⟩, { o with w := ⟨n, w⟩ }) ∧
      sparseJohnWeightConv E ERR LIM M o.w junk x A k = .ok (w, conv) ∧ (t : Int) < M ∧
      (conv = false → (t : Int) + 1 = M) ∧
      t * LIM ^ 2 ≤ 3 * (k : ℝ) ^ 2 / ((n : ℝ) - m) ∧ (3 * (k : ℝ) ^ 2 / ((n : ℝ) - m) < M * LIM ^ 2 → conv = true) ∧
      distSq w v ≤ 12 * Real.logb 2 (2 * k / ((n : ℝ) - m)) * ((k : ℝ) ^ 2 / ((n : ℝ) - m)) * (1 - (((n : ℝ) - m) / k) ^ 2 / (144 * Real.logb 2 (2 * k / ((n : ℝ) - m)))) ^ t ∧
      (conv = true → distSq w v ≤ k * (24 * Real.logb 2 (2 * k / ((n : ℝ) - m)) * (k / ((n : ℝ) - m)) * LIM) ^ 2) ∧
      StartsFrom (⟨n, w⟩ : DVec ℝ) n w ∧ SparseJohnStart ⟨n, w⟩ m n k := by
  have hn : 0 < n := by omega
  have hmn' : (0 : ℝ) < (n : ℝ) - m := by rw [sub_pos]; exact_mod_cast hmn
  have hdk : (n : ℝ) - m ≤ k := by
    have : ((n - m : ℕ) : ℝ) ≤ k := by exact_mod_cast hd
    rwa [Nat.cast_sub hmn.le] at this
  have hk0 : (0 : ℝ) < k := by linarith
  have hβ : 0 < ((n : ℝ) - m) / (2 * k) := by positivity
  obtain ⟨v', hve, hvp, hvf⟩ := isSparseJohnWeights_iff.1 hv
  have hvr : (fun i : TailIx n k => v i.1) = v' := by funext i; rw [hve, padTail_tail]
  obtain ⟨w, t, c, h1, h2, h3, hz, h4, h5, h6, h7, h8⟩ := sparseJohn_run E hE ERR R LIM hR hL M hM o w0 ho k hkn
    (hs _ ho) junk x A hA hmn hd hx v hv (2 * (k : ℝ) ^ 2 / ((n : ℝ) - m)) fun L hP => by
      rw [hvr]
      refine (gap_box hP hβ hvp hvf fun i => hs _ ho i.1 i.2).trans (le_of_eq ?_)
      rw [card_tailIx hkn]; field_simp
  have e1 : 3 / 2 * (2 * (k : ℝ) ^ 2 / ((n : ℝ) - m)) = 3 * (k : ℝ) ^ 2 / ((n : ℝ) - m) := by ring
  rw [e1] at h5 h6
  have hst : StartsFrom (⟨n, w⟩ : DVec ℝ) n w := by
    refine .stored (w := ⟨n, w⟩) hn rfl ?_
    have : 0 ≤ w ⟨0, hn⟩ := by
      by_cases h : n - k ≤ 0
      · exact hβ.le.trans (h4 ⟨0, hn⟩ h).1
      · exact (hz ⟨0, hn⟩ (by show 0 < n - k; omega)).ge
    intro h; simp only at h; linarith
  refine ⟨w, t, c, h1, h2, h3, fun h => (h6 h).1, h5, fun h => ?_, ?_, h8, hst, ?_⟩
  · by_contra hc
    have := (h6 (by simpa using hc)).2
    linarith
  · refine h7.trans (le_of_eq ?_)
    field_simp; ring
  · intro w' hw' i hi
    have h1 := warmStart_iff.2 hst
    rw [warmStart_iff.2 hw'] at h1
    rw [Out.ok.inj h1]
    exact h4 i hi

/-- **C73** (6), sparse: two objects with any histories. -/
theorem C73_sparse_history (E : Eigen ℝ) (hE : E.LdltExact) (ERR LIM : ℝ) (hR : ERR ≠ 0) (hL : 0 < LIM) (M M' : Int) (hM : 1 ≤ M)
    (hM' : 1 ≤ M') (o o' : BState ℝ) (w0 w0' : Fin n → ℝ) (ho : StartsFrom o.w n w0) (ho' : StartsFrom o'.w n w0') (k : ℕ)
    (hs : SparseJohnStart o.w m n k) (hs' : SparseJohnStart o'.w m n k) (hkn : k ≤ n)
    (junk junk' x : Fin n → ℝ) (A : Matrix (Fin m) (Fin n) ℝ)
    (hA : IndepRows A) (hmn : m < n) (hd : n - m ≤ k) (hx : x ∈ TailPos n k) (w w' : Fin n → ℝ)
    (hw : sparseJohnWeightConv E ERR LIM M o.w junk x A k = .ok (w, true))
    (hw' : sparseJohnWeightConv E ERR LIM M' o'.w junk' x A k = .ok (w', true)) :
    distSq w w' ≤ k * (48 * Real.logb 2 (2 * k / ((n : ℝ) - m)) * (k / ((n : ℝ) - m)) * LIM) ^ 2 := by
  obtain ⟨v, hv, _⟩ := C73_sparse_exists ERR hR x A hA k hmn hd hx
  obtain ⟨u, t, c, _, h2, _, _, _, _, _, h8, _⟩ := C73_sparse_any E hE ERR 0 LIM hR hL M hM o w0 ho k hs hkn junk x A hA hmn hd hx v hv
  obtain ⟨u', t', c', _, h2', _, _, _, _, _, h8', _⟩ :=
    C73_sparse_any E hE ERR 0 LIM hR hL M' hM' o' w0' ho' k hs' hkn junk' x A hA hmn hd hx v hv
  rw [hw] at h2
  rw [hw'] at h2'
  obtain ⟨rfl, rfl⟩ := Prod.mk.inj (Out.ok.inj h2)
  obtain ⟨rfl, rfl⟩ := Prod.mk.inj (Out.ok.inj h2')
  have := distSq_triangle w v w'
  have a := h8 rfl
  have b := h8' rfl
  calc _ ≤ _ := this
    _ ≤ 2 * (k * (24 * Real.logb 2 (2 * k / ((n : ℝ) - m)) * (k / ((n : ℝ) - m)) * LIM) ^ 2) + 2 * (k * (24 * Real.logb 2 (2 * k / ((n : ℝ) - m)) * (k / ((n : ℝ) - m)) * LIM) ^ 2) := by linarith
    _ = _ := by ring

end PW

import Verif.Lemmas.ChordRound

/-!
# The chord search of Hit-and-Run in floating point: nothing overflows
-/

namespace PW
open Finset

/-- Room for points with coordinates of size about `n B`, their lengths and the squares of their lengths. In binary64 this holds up to
`n B = 2⁵⁰⁸`. -/
structure Roomy (Ω B : ℝ) (n : ℕ) : Prop where
  two : 2 ≤ Ω
  lin : 40 * (n * B) ≤ Ω
  sq : 100 * (n * B) ^ 2 ≤ Ω

section
variable {F : Type} [Scalar F] {ext : F → Option EReal} {u θ Ω B : ℝ} {n N : ℕ}

/-- A sum of nonnegative numbers. -/
theorem SumOf.nonneg {ι : Type} [DecidableEq ι] {v : ι → F} {s : Finset ι} {d : ℕ} {a : F} (R : Rounding F ext u θ Ω) (h : SumOf v s d a)
    (hv : ∀ i ∈ s, ∀ x : ℝ, ext (v i) = some (x : EReal) → 0 ≤ x) : ∀ r : ℝ, ext a = some (r : EReal) → 0 ≤ r := by
  induction h with
  | zero =>
    intro r hr
    rw [R.zero] at hr
    have : r = 0 := by simpa using hr.symm
    exact this.ge
  | single j => intro r hr; exact hv j (mem_singleton_self j) r hr
  | add hd hs ht ihs iht =>
    intro r hr
    obtain ⟨x, y, hx, hy, hxy⟩ := R.add _ _ _ hr
    have h1 := ihs (fun i hi => hv i (mem_union_left _ hi)) x hx
    have h2 := iht (fun i hi => hv i (mem_union_right _ hi)) y hy
    have h3 := (abs_le.1 hxy).1
    rw [abs_of_nonneg (by linarith)] at h3
    have : u * (x + y) ≤ 1 * (x + y) := mul_le_mul_of_nonneg_right R.u_lt_one.le (by linarith)
    linarith

/-- A computed Euclidean distance is finite. -/
theorem distance_fin (R : RoundingFull F ext u θ Ω) (hΩ : Roomy Ω B n) (hS : FineFor u θ B n N) {x f : Fin n → F} {ξ φ : Fin n → ℝ}
    (hx : HasValues ext x ξ) (hf : HasValues ext f φ) (hd : ∀ j, |ξ j - φ j| ≤ 8 * (Real.sqrt n * B)) :
    ∃ d : ℝ, ext (distance x f) = some (d : EReal) := by
  have hu := R.u_nonneg
  have hθ := R.θ_nonneg
  have hB := hS.pos
  have hnu := hS.nu_le R.toRounding
  have hu1 := hS.u_le R.toRounding
  have M := hS.mags R.toRounding
  have hn1 : (1 : ℝ) ≤ n := by exact_mod_cast hS.dim
  have hqn := mul_le_mul_of_nonneg_right M.q_n hB.le
  have hnB : 0 < n * B := by positivity
  have hsub := fun j => R.sub_fin _ _ _ _ (hx j) (hf j) ((hd j).trans (by linarith [hΩ.lin]))
  choose w hw using hsub
  have hwl : ∀ j, |w j| ≤ 81 / 10 * (Real.sqrt n * B) := fun j => by
    obtain ⟨a, b, ha, hb, hab⟩ := R.sub _ _ _ (hw j)
    cases ext_inj ha (hx j)
    cases ext_inj hb (hf j)
    have h1 := abs_sub_abs_le_abs_sub (w j) (ξ j - φ j)
    have h2 : u * |ξ j - φ j| ≤ 1 / 1100 * (8 * (Real.sqrt n * B)) := mul_le_mul hu1 (hd j) (abs_nonneg _) (by norm_num)
    linarith [hd j, M.B_q]
  have hsum : ∑ j, |w j * w j| ≤ 6561 / 100 * (n * B) ^ 2 := by
    calc ∑ j, |w j * w j| ≤ ∑ _j : Fin n, 6561 / 100 * (n * B ^ 2) := sum_le_sum fun j _ => by
          rw [abs_mul, ← sq]
          have h1 := pow_le_pow_left₀ (abs_nonneg _) (hwl j) 2
          have h2 : (81 / 10 * (Real.sqrt n * B)) ^ 2 = 6561 / 100 * (Real.sqrt n ^ 2 * B ^ 2) := by ring
          rw [h2, M.q_sq] at h1
          exact h1
      _ = _ := by simp; ring
  have hpw : (1 + u) ^ (n + 1) ≤ 102 / 100 := by
    have := pow_small hu (n + 1) (by push_cast; linarith)
    push_cast at this
    linarith
  have hnθ : n * θ ≤ 1 / 100 * (n * B) ^ 2 := by
    have h1 : u * B ≤ 1 / 10 * B := mul_le_mul_of_nonneg_right (by linarith) hB.le
    have h2 := pow_le_pow_left₀ (by positivity) h1 2
    have h3 : θ ≤ 1 / 100 * B ^ 2 := hS.θ_sq.trans (by linarith)
    have h4 : (n : ℝ) * θ ≤ n * (1 / 100 * B ^ 2) := mul_le_mul_of_nonneg_left h3 (by positivity)
    have h5 : (n : ℝ) * (1 / 100 * B ^ 2) ≤ n * (n * (1 / 100 * B ^ 2)) := le_mul_of_one_le_left (by positivity) hn1
    calc _ ≤ _ := h4.trans h5
      _ = _ := by ring
  have hS0 : 0 ≤ (n * B) ^ 2 := by positivity
  have hnθ0 : 0 ≤ n * θ := by positivity
  have hT : 0 ≤ ∑ j, |w j * w j| := sum_nonneg fun _ _ => abs_nonneg _
  have htot : (1 + u) ^ (n + 1) * (∑ j, |w j * w j| + n * θ) ≤ Ω := by
    have := mul_le_mul hpw (add_le_add hsum hnθ) (by linarith) (by norm_num)
    linarith [hΩ.sq]
  have hw' : HasValues ext (fun j => x j - f j) w := hw
  obtain ⟨Q, hQ, -, hQb⟩ := dot_finite R.toRounding hw' hw' (sumOf_dot _ _) htot
  have hQ0 : 0 ≤ Q := (sumOf_dot (fun j => x j - f j) fun j => x j - f j).nonneg R.toRounding (fun j _ y hy => R.mul_self _ _ hy) Q hQ
  obtain ⟨r, hr⟩ := R.sqrt_fin _ _ hQ hQ0 ((le_abs_self Q).trans (hQb.trans htot))
  exact ⟨r, by unfold distance norm2; rw [vsum_dot]; exact hr⟩

/-- A computed Euclidean distance, from below. -/
theorem distance_low (R : RoundingFull F ext u θ Ω) (hS : FineFor u θ B n N) {x f : Fin n → F} {ξ φ : Fin n → ℝ}
    (hx : HasValues ext x ξ) (hf : HasValues ext f φ) {d : ℝ} (hd : ext (distance x f) = some (d : EReal)) :
    (1 - 2 * (n + 4) * u) * len (ξ - φ) - 2 * (Real.sqrt n * (u * B)) ≤ d := by
  have hu := R.u_nonneg
  have hθ := R.θ_nonneg
  have hB := hS.pos
  have hnu := hS.nu_le R.toRounding
  have hu1 := hS.u_le R.toRounding
  have M := hS.mags R.toRounding
  have hn1 : (1 : ℝ) ≤ n := by exact_mod_cast hS.dim
  unfold distance norm2 at hd
  obtain ⟨Q, hQ, hQ0, hd0, hdQ⟩ := R.sqrt _ _ hd
  rw [vsum_dot] at hQ
  have hsum := sumOf_dot (fun i => x i - f i) (fun i => x i - f i)
  have ht := hsum.terms R.toRounding Q hQ
  choose p hp using fun i => ht i (mem_univ i)
  have hp0 := fun i => R.mul_self _ _ (hp i)
  have hmul := fun i => R.mul _ _ _ (hp i)
  choose w w' hw hw' hpw using hmul
  have hww : ∀ i, w' i = w i := fun i => ext_inj (hw' i) (hw i)
  have hwe : ∀ i, |w i - (ξ i - φ i)| ≤ u * |ξ i - φ i| := fun i => by
    obtain ⟨a, b, ha, hb, hab⟩ := R.sub _ _ _ (hw i)
    cases ext_inj ha (hx i)
    cases ext_inj hb (hf i)
    exact hab
  have hu0 : 0 ≤ 1 - u := by linarith
  have hpl : ∀ i, (1 - u) ^ 3 * (ξ i - φ i) ^ 2 - θ ≤ p i := fun i => by
    have h1 : (1 - u) * |ξ i - φ i| ≤ |w i| := by
      have := abs_sub_abs_le_abs_sub (ξ i - φ i) (w i)
      rw [abs_sub_comm (ξ i - φ i) (w i)] at this
      linarith [hwe i]
    have h2 : (1 - u) ^ 2 * (ξ i - φ i) ^ 2 ≤ w i ^ 2 := by
      have := pow_le_pow_left₀ (mul_nonneg hu0 (abs_nonneg _)) h1 2
      rwa [mul_pow, sq_abs, sq_abs] at this
    have h3 := (abs_le.1 (hpw i)).1
    rw [hww, ← sq, abs_of_nonneg (sq_nonneg (w i))] at h3
    have h4 := mul_le_mul_of_nonneg_left h2 hu0
    have h5 : (1 - u) * ((1 - u) ^ 2 * (ξ i - φ i) ^ 2) = (1 - u) ^ 3 * (ξ i - φ i) ^ 2 := by ring
    linarith
  have hQe := hsum.error R.toRounding p (fun i _ y hy => ext_inj hy (hp i)) Q hQ
  have hS2 : len (ξ - φ) ^ 2 = ∑ i, (ξ i - φ i) ^ 2 := by
    rw [len_sq]
    exact sum_congr rfl fun i _ => by simp [sq]
  have hl := len_nonneg (ξ - φ)
  have hsq : (1 - u) ^ 3 * len (ξ - φ) ^ 2 - n * θ ≤ ∑ i, p i := by
    rw [hS2, mul_sum]
    have := sum_le_sum fun i (_ : i ∈ univ) => hpl i
    rw [sum_sub_distrib] at this
    simpa using this
  have hpa : ∑ i, |p i| = ∑ i, p i := sum_congr rfl fun i _ => abs_of_nonneg (hp0 i)
  rw [hpa] at hQe
  generalize len (ξ - φ) = L at *
  have hP0 : 0 ≤ ∑ i, p i := sum_nonneg fun i _ => hp0 i
  generalize ∑ i, p i = P at *
  have hpn : (1 + u) ^ n ≤ 1 + 2 * n * u := pow_small hu n (by linarith)
  have h3u : 1 - 3 * u ≤ (1 - u) ^ 3 := by nlinarith [mul_nonneg hu hu, mul_nonneg (mul_nonneg hu hu) hu]
  have hQP : (1 - 2 * n * u) * P ≤ Q := by
    have h1 := (abs_le.1 hQe).1
    have h2 : ((1 + u) ^ n - 1) * P ≤ (2 * n * u) * P := mul_le_mul_of_nonneg_right (by linarith) hP0
    linarith
  have hθs := hS.θ_sq
  obtain ⟨hε, hqq, hq1, hqn, hε0, hεB, hBq, hεq, hqεB, huqB, hθB⟩ := M
  generalize Real.sqrt n = q at *
  rw [← hε] at hθs
  generalize u * B = ε at *
  obtain ⟨c, hc⟩ : ∃ c, c = 1 - 2 * (n + 2) * u := ⟨_, rfl⟩
  have hnu0 : 0 ≤ n * u := by positivity
  have hc1 : 97 / 100 ≤ c := by rw [hc]; linarith
  have hc2 : c ≤ 1 := by rw [hc]; linarith
  have hQL : c * L ^ 2 - n * ε ^ 2 ≤ Q := by
    have h1 : (1 - 2 * n * u) * ((1 - 3 * u) * L ^ 2 - n * θ) ≤ Q := by
      refine le_trans (mul_le_mul_of_nonneg_left ?_ (by linarith)) hQP
      have := mul_le_mul_of_nonneg_right h3u (sq_nonneg L)
      linarith
    have h2 : c * L ^ 2 ≤ (1 - 2 * n * u) * (1 - 3 * u) * L ^ 2 := by
      refine mul_le_mul_of_nonneg_right ?_ (sq_nonneg L)
      rw [hc]
      have : 0 ≤ n * u * u := by positivity
      linarith
    have h3 : (n : ℝ) * θ ≤ n * ε ^ 2 := mul_le_mul_of_nonneg_left hθs (by positivity)
    have h4 : 0 ≤ n * u * (n * θ) := by positivity
    linarith
  have hsqrt : c * L - q * ε ≤ Real.sqrt Q := by
    rcases le_or_gt (c * L) (q * ε) with h | h
    · exact le_trans (by linarith) (Real.sqrt_nonneg _)
    · refine Real.le_sqrt_of_sq_le (le_trans ?_ hQL)
      have h1 : q * ε * (q * ε) ≤ q * ε * (c * L) := mul_le_mul_of_nonneg_left h.le (by linarith)
      have h2 : c * c * L ^ 2 ≤ c * L ^ 2 := by
        refine mul_le_mul_of_nonneg_right ?_ (sq_nonneg L)
        exact mul_le_of_le_one_left (by linarith) hc2
      rw [← hqq]
      linarith
  have h7 : (1 - u) * Real.sqrt Q - θ ≤ d := by linarith [(abs_le.1 hdQ).1]
  have h8 : (1 - u) * (c * L - q * ε) ≤ (1 - u) * Real.sqrt Q := mul_le_mul_of_nonneg_left hsqrt hu0
  have h9 : (1 - 2 * (n + 4) * u) * L ≤ (1 - u) * c * L := by
    refine mul_le_mul_of_nonneg_right ?_ hl
    have h10 : u * c ≤ u := mul_le_of_le_one_right hu hc2
    rw [hc] at h10 ⊢
    linarith
  have h10 : 0 ≤ u * (q * ε) := mul_nonneg hu (by linarith)
  linarith

/-- The far end computed from a point `g`. -/
theorem far_vals (R : RoundingFull F ext u θ Ω) (hΩ : Roomy Ω B n) (hS : FineFor u θ B n N) {q ε : ℝ} (hq : Real.sqrt n = q) (M : Mags u θ B q ε n)
    {x dir : Fin n → F} {ξ δ : Fin n → ℝ} (hx : HasValues ext x ξ) (hξ : ∀ j, |ξ j| ≤ B) (hδ : HasValues ext dir δ) (hdj : ∀ j, |δ j| ≤ 103 / 100)
    {g : Fin n → F} {γ : Fin n → ℝ} (hg : HasValues ext g γ) (hγ : ∀ j, |(ξ - γ) j| ≤ 2 * B) :
    ∃ φ σ d, HasValues ext (fun i => x i + two * distance x g * dir i) φ ∧ ext (distance x g) = some ((d : ℝ) : EReal) ∧ -θ ≤ σ ∧ σ ≤ 21 / 5 * (q * B) ∧
      2 * d - 2 * (u * d) - θ ≤ σ ∧ ∀ j, |φ j - (ξ j + σ * δ j)| ≤ 12 * (q * ε) := by
  have hu := R.u_nonneg
  have hθ := R.θ_nonneg
  have hB := hS.pos
  have hnu := hS.nu_le R.toRounding
  have hn1 : (1 : ℝ) ≤ n := by exact_mod_cast hS.dim
  have hqnB : q * B ≤ n * B := mul_le_mul_of_nonneg_right M.q_n hB.le
  have hlin := hΩ.lin
  obtain ⟨hε, hqq, hq1, hqn, hε0, hεB, hBq, hεq, hqεB, huqB, hθB⟩ := M
  obtain ⟨d, hd⟩ := distance_fin R hΩ hS hx hg fun j => (hγ j).trans (by rw [hq]; linarith)
  obtain ⟨ξ2, γ2, hξ2, hγ2, hd0, hdle⟩ := distance_up R.toRoundingOps hS hd
  have : ξ2 = ξ := funext fun j => ext_inj (hξ2 j) (hx j)
  subst this
  have : γ2 = γ := funext fun j => ext_inj (hγ2 j) (hg j)
  subst this
  have hlen := len_le_of_coords _ (by positivity) hγ
  rw [hq] at hlen hdle
  rw [← hε] at hdle
  have hdb : d ≤ 207 / 100 * (q * B) := by
    have h0 : 1 + 2 * (n + 4) * u ≤ 102 / 100 := by linarith
    have h1 : (1 + 2 * (n + 4) * u) * len (ξ2 - γ2) ≤ 102 / 100 * (q * (2 * B)) := mul_le_mul h0 hlen (len_nonneg _) (by norm_num)
    linarith
  have h2 : ext (two : F) = some ((2 : ℝ) : EReal) := R.ofInt 2 (by norm_num)
  obtain ⟨σ, hσ⟩ := R.mul_fin _ _ _ _ h2 hd (by rw [abs_of_nonneg (by linarith)]; linarith)
  have hσe : |σ - 2 * d| ≤ u * |2 * d| + θ := by
    obtain ⟨a, b, ha, hb, hab⟩ := R.mul _ _ _ hσ
    cases ext_inj ha h2
    cases ext_inj hb hd
    exact hab
  have hσ2 := abs_le.1 hσe
  rw [abs_of_nonneg (by linarith : (0 : ℝ) ≤ 2 * d)] at hσ2
  have hudd : u * d ≤ 207 / 100 * (q * ε) := by
    rw [← huqB]; have := mul_le_mul_of_nonneg_left hdb hu; linarith
  have huddd : u * d ≤ d := by
    have := mul_le_mul_of_nonneg_right R.u_lt_one.le hd0
    linarith
  have hs1 : -θ ≤ σ := by linarith [hσ2.1]
  have hs2 : σ ≤ 21 / 5 * (q * B) := by linarith [hσ2.2]
  have hsa : |σ| ≤ 21 / 5 * (q * B) := abs_le.2 ⟨by linarith, hs2⟩
  have h1 : ∀ j, |σ * δ j| ≤ 44 / 10 * (q * B) := fun j => by
    rw [abs_mul]
    have := mul_le_mul hsa (hdj j) (abs_nonneg _) (by linarith)
    linarith
  have hv := fun j => R.mul_fin _ _ _ _ hσ (hδ j) ((h1 j).trans (by linarith))
  choose v hv using hv
  have hve : ∀ j, |v j - σ * δ j| ≤ 44 / 10 * (q * ε) + ε := fun j => by
    obtain ⟨a, b, ha, hb, hab⟩ := R.mul _ _ _ (hv j)
    cases ext_inj ha hσ
    cases ext_inj hb (hδ j)
    have := mul_le_mul_of_nonneg_left (h1 j) hu
    linarith
  have h3 : ∀ j, |ξ2 j + v j| ≤ 6 * (q * B) := fun j => by
    have h4 := abs_sub_abs_le_abs_sub (v j) (σ * δ j)
    have h5 := abs_add_le (ξ2 j) (v j)
    linarith [hξ j, hve j, h1 j]
  have hφ := fun j => R.add_fin _ _ _ _ (hx j) (hv j) ((h3 j).trans (by linarith))
  choose φ hφ using hφ
  refine ⟨φ, σ, d, hφ, hd, hs1, hs2, by linarith [hσ2.1], fun j => ?_⟩
  have h4 : |φ j - (ξ2 j + v j)| ≤ 6 * (q * ε) := by
    obtain ⟨a, b, ha, hb, hab⟩ := R.add _ _ _ (hφ j)
    cases ext_inj ha (hx j)
    cases ext_inj hb (hv j)
    have := mul_le_mul_of_nonneg_left (h3 j) hu
    linarith
  have := abs_le.1 (hve j); have := abs_le.1 h4
  rw [abs_le]
  constructor <;> linarith

/-- The first trial point. -/
theorem init_vals (R : RoundingFull F ext u θ Ω) (hΩ : Roomy Ω B n) (hS : FineFor u θ B n N) {q ε : ℝ} (M : Mags u θ B q ε n)
    {Rr : F} {ρ : ℝ} (hρ : ext Rr = some (ρ : EReal)) (hρB : |ρ| ≤ B)
    {x dir : Fin n → F} {ξ δ : Fin n → ℝ} (hx : HasValues ext x ξ) (hξ : ∀ j, |ξ j| ≤ B) (hδ : HasValues ext dir δ) (hdj : ∀ j, |δ j| ≤ 103 / 100) :
    ∃ γ, HasValues ext (fun i => x i + Rr * dir i) γ ∧ (∀ j, |(ξ - γ) j| ≤ 2 * B) ∧ ∀ j, |γ j - (ξ j + ρ * δ j)| ≤ 6 * ε := by
  have hu := R.u_nonneg
  have hB := hS.pos
  have hu1 := hS.u_le R.toRounding
  have hn1 : (1 : ℝ) ≤ n := by exact_mod_cast hS.dim
  have hBn : B ≤ n * B := le_mul_of_one_le_left hB.le hn1
  have hlin := hΩ.lin
  have h1 : ∀ j, |ρ * δ j| ≤ 103 / 100 * B := fun j => by
    rw [abs_mul]
    have := mul_le_mul hρB (hdj j) (abs_nonneg _) hB.le
    linarith
  have hv := fun j => R.mul_fin _ _ _ _ hρ (hδ j) ((h1 j).trans (by linarith))
  choose v hv using hv
  have hve : ∀ j, |v j - ρ * δ j| ≤ 3 * ε := fun j => by
    obtain ⟨a, b, ha, hb, hab⟩ := R.mul _ _ _ (hv j)
    cases ext_inj ha hρ
    cases ext_inj hb (hδ j)
    have := mul_le_mul_of_nonneg_left (h1 j) hu
    rw [M.ε_eq]
    linarith [M.θ_ε, M.ε_eq, M.ε_nonneg]
  have hεB := M.ε_B
  have h3 : ∀ j, |v j| ≤ 105 / 100 * B := fun j => by
    have := abs_sub_abs_le_abs_sub (v j) (ρ * δ j)
    linarith [hve j, h1 j]
  have h4 : ∀ j, |ξ j + v j| ≤ 3 * B := fun j => (abs_add_le _ _).trans (by linarith [hξ j, h3 j])
  have hφ := fun j => R.add_fin _ _ _ _ (hx j) (hv j) ((h4 j).trans (by linarith))
  choose γ hγ using hφ
  have h5 : ∀ j, |γ j - (ξ j + v j)| ≤ 3 * ε := fun j => by
    obtain ⟨a, b, ha, hb, hab⟩ := R.add _ _ _ (hγ j)
    cases ext_inj ha (hx j)
    cases ext_inj hb (hv j)
    have := mul_le_mul_of_nonneg_left (h4 j) hu
    rw [M.ε_eq]
    linarith
  refine ⟨γ, hγ, fun j => ?_, fun j => ?_⟩
  · rw [Pi.sub_apply]
    have := abs_le.1 (h5 j); have := abs_le.1 (h3 j)
    rw [abs_le]
    constructor <;> linarith
  · have := abs_le.1 (h5 j); have := abs_le.1 (hve j)
    rw [abs_le]
    constructor <;> linarith

/-- A rounded midpoint is finite. -/
theorem mid_fin (R : RoundingFull F ext u θ Ω) {W : ℝ} (hW : 3 * W ≤ Ω) {l r : Fin n → F} {α ρ' : Fin n → ℝ} (hl : HasValues ext l α) (hr : HasValues ext r ρ')
    (hlW : ∀ j, |α j| ≤ W) (hrW : ∀ j, |ρ' j| ≤ W) : ∃ ζ, HasValues ext (fun i => (l i + r i) / two) ζ := by
  have h2 : ext (two : F) = some ((2 : ℝ) : EReal) := R.ofInt 2 (by norm_num)
  have hb : ∀ j, |α j + ρ' j| ≤ 2 * W := fun j => (abs_add_le _ _).trans (by linarith [hlW j, hrW j])
  have hW0 : ∀ _j : Fin n, 0 ≤ W := fun j => (abs_nonneg _).trans (hlW j)
  have hs := fun j => R.add_fin _ _ _ _ (hl j) (hr j) ((hb j).trans (by linarith [hW0 j]))
  choose s hs using hs
  have hsb : ∀ j, |s j| ≤ 4 * W := fun j => by
    obtain ⟨a, b, ha, hb', hab⟩ := R.add _ _ _ (hs j)
    cases ext_inj ha (hl j)
    cases ext_inj hb' (hr j)
    have h1 := abs_sub_abs_le_abs_sub (s j) (α j + ρ' j)
    have h3 : u * |α j + ρ' j| ≤ 1 * |α j + ρ' j| := mul_le_mul_of_nonneg_right R.u_lt_one.le (abs_nonneg _)
    linarith [hb j]
  have hd := fun j => R.div_fin _ _ _ _ (hs j) h2 (by norm_num) (by
    rw [abs_div, abs_two]
    linarith [hsb j, hW0 j])
  choose ζ hζ using hd
  exact ⟨ζ, hζ⟩

/-- The point that a bisection returns is finite. -/
theorem bisect_fin (R : RoundingFull F ext u θ Ω) {ξ δ : Fin n → ℝ} {lo hi W : ℝ} (hu4 : u ≤ 1 / 4) (hW : ∀ s, lo ≤ s → s ≤ hi → ∀ j, |ξ j + s * δ j| ≤ W)
    (hW0 : 0 ≤ W) (hΩ : 6 * W ≤ Ω) (hθ : θ ≤ u * W / 2) (inside : (Fin n → F) → Out Bool) (ERR : F) (fuel : ℕ) :
    ∀ (l r mid m : Fin n → F) (E : ℝ), NearLine ext ξ δ lo hi E l → NearLine ext ξ δ lo hi E r → (∃ α, HasValues ext l α) → (∃ ρ', HasValues ext r ρ') →
      (∃ μ, HasValues ext mid μ) → E + fuel * (5 * (u * W)) ≤ W → HitRun.bisect inside ERR fuel l r mid = .ok m → ∃ μ, HasValues ext m μ := by
  have hUW : 0 ≤ u * W := mul_nonneg R.u_nonneg hW0
  induction fuel with
  | zero =>
    intro l r mid m E hl hr _ _ hmf _ h
    unfold HitRun.bisect at h
    obtain ⟨c, hc, h⟩ := Out.bind_eq_ok.1 h
    cases c with
    | true => cases h
    | false => cases h; exact hmf
  | succ fuel ih =>
    intro l r mid m E hl hr hlf hrf hmf hEW h
    push_cast at hEW
    unfold HitRun.bisect at h
    obtain ⟨c, hc, h⟩ := Out.bind_eq_ok.1 h
    cases c with
    | true =>
      have hfu : 0 ≤ (fuel : ℝ) * (5 * (u * W)) := by positivity
      have hmid := NearLine.mid R.toRoundingOps hu4 hW (by linarith) hθ hl hr
      have hle : E ≤ E + 5 * (u * W) := by linarith
      obtain ⟨α, hα⟩ := hlf
      obtain ⟨ρ', hρ⟩ := hrf
      have hbd : ∀ {z : Fin n → F} {ζ : Fin n → ℝ}, NearLine ext ξ δ lo hi E z → HasValues ext z ζ → ∀ j, |ζ j| ≤ 2 * W := fun hz hζ j => by
        obtain ⟨s, h1, h2, h3⟩ := hz _ hζ
        have h4 := abs_sub_abs_le_abs_sub (_ : ℝ) (ξ j + s * δ j) |>.trans (h3 j)
        linarith [hW s h1 h2 j]
      have hmf' := mid_fin R (W := 2 * W) (by linarith) hα hρ (hbd hl hα) (hbd hr hρ)
      obtain ⟨c', _, h⟩ := Out.bind_eq_ok.1 h
      cases c' with
      | true => exact ih _ _ _ m _ hmid (hr.mono hle) hmf' ⟨ρ', hρ⟩ hmf' (by linarith) h
      | false => exact ih _ _ _ m _ (hl.mono hle) hmid ⟨α, hα⟩ hmf' hmf' (by linarith) h
    | false => cases h; exact hmf

/-- The end of a chord search that found a far end `f`: it returns a finite length, at most that of the chord up to an accepted point. -/
theorem search_vals (R : RoundingFull F ext u θ Ω) (hΩ : Roomy Ω B n) (hS : FineFor u θ B n N) {q ε : ℝ} (hq : Real.sqrt n = q) (M : Mags u θ B q ε n)
    {ERR : F} {x : Fin n → F} {ξ δ : Fin n → ℝ} (hx : HasValues ext x ξ) (hξ : ∀ j, |ξ j| ≤ B) (hδl : len δ ≤ 1 + 3 * (n + 4) * u)
    (hdj : ∀ j, |δ j| ≤ 103 / 100) (inside : (Fin n → F) → Out Bool) {f : Fin n → F} {φ : Fin n → ℝ} (hf : HasValues ext f φ) {σ : ℝ} (hσ1 : -θ ≤ σ)
    (hσ2 : σ ≤ 21 / 5 * (q * B)) (hσ : ∀ j, |φ j - (ξ j + σ * δ j)| ≤ 12 * (q * ε)) {p : F}
    (h : ((HitRun.bisect inside ERR N x f fun i => (x i + f i) / two).bind fun mid => .ok (distance mid x)) = .ok p) :
    ∃ P m μ s, ext p = some ((P : ℝ) : EReal) ∧ inside m = .ok true ∧ HasValues ext m μ ∧ -θ ≤ s ∧ s ≤ 21 / 5 * (q * B) ∧
      (∀ j, |μ j - (ξ j + s * δ j)| ≤ (42 + 30 * N) * (q * ε)) ∧ 0 ≤ P ∧ P ≤ s + 160 * (n * (n + N) * ε) ∧ P ≤ 5 * (n * B) := by
  have hu := R.u_nonneg
  have hB := hS.pos
  have hNu := hS.Nu_le R.toRounding
  have hu1 := hS.u_le R.toRounding
  have hlin := hΩ.lin
  obtain ⟨m, hm, h⟩ := Out.bind_eq_ok.1 h
  cases h
  have hfar : NearLine ext ξ δ (-θ) (21 / 5 * (q * B)) (12 * (q * ε)) f := fun ζ hζ => by
    have : ζ = φ := funext fun j => ext_inj (hζ j) (hf j)
    subst this
    exact ⟨σ, hσ1, hσ2, hσ⟩
  have M' := M
  have hqnB : q * B ≤ n * B := mul_le_mul_of_nonneg_right M.q_n hB.le
  obtain ⟨hε, hqq, hq1, hqn, hε0, hεB, hBq, hεq, hqεB, huqB, hθB⟩ := M
  have hqB0 : 0 ≤ q * B := by linarith
  have hqε0 : 0 ≤ q * ε := by linarith
  have hθ := R.θ_nonneg
  have hW : ∀ s, -θ ≤ s → s ≤ 21 / 5 * (q * B) → ∀ j, |ξ j + s * δ j| ≤ 6 * (q * B) := by
    intro s h1 h2 j
    have hsa : |s| ≤ 21 / 5 * (q * B) := abs_le.2 ⟨by linarith, h2⟩
    have h3 : |s * δ j| ≤ 44 / 10 * (q * B) := by
      rw [abs_mul]
      have := mul_le_mul hsa (hdj j) (abs_nonneg _) (by linarith)
      linarith
    have := abs_add_le (ξ j) (s * δ j)
    linarith [hξ j]
  have hUW : u * (6 * (q * B)) = 6 * (q * ε) := by rw [← huqB]; ring
  have hθW : θ ≤ u * (6 * (q * B)) / 2 := by rw [hUW]; linarith
  have n1 : NearLine ext ξ δ (-θ) (21 / 5 * (q * B)) (12 * (q * ε)) x := fun ζ hζ => by
    have : ζ = ξ := funext fun j => ext_inj (hζ j) (hx j)
    subst this
    refine ⟨0, by linarith, by linarith, fun j => ?_⟩
    simp only [zero_mul, add_zero, sub_self, abs_zero]
    linarith
  have n2 := NearLine.mid R.toRoundingOps (by linarith) hW (by linarith) hθW n1 hfar
  have hNε : (N + 10) * u * (q * B) ≤ 1 / 100 * (q * B) := mul_le_mul_of_nonneg_right hNu hqB0
  have hNε' : N * (q * ε) + 10 * (q * ε) ≤ 1 / 100 * (q * B) := by rw [← huqB]; linarith
  have hφW : ∀ j, |φ j| ≤ 13 / 2 * (q * B) := fun j => by
    have h4 := (abs_sub_abs_le_abs_sub (φ j) (ξ j + σ * δ j)).trans (hσ j)
    linarith [hW σ hσ1 hσ2 j]
  have hmf := mid_fin R (W := 13 / 2 * (q * B)) (by linarith) hx hf (fun j => (hξ j).trans (by linarith)) hφW
  obtain ⟨μ, hμ⟩ : ∃ μ, HasValues ext m μ := by
    exact bisect_fin R (by linarith) hW (by linarith) (by linarith) hθW inside ERR N x f _ m (12 * (q * ε)) n1 hfar ⟨ξ, hx⟩ ⟨φ, hf⟩ hmf
      (by rw [hUW]; linarith) hm
  obtain ⟨n3, _⟩ := bisect_near R.toRoundingOps (by linarith) hW (by linarith) hθW inside ERR N x f _ m (12 * (q * ε) + 5 * (u * (6 * (q * B))))
    (n1.mono (by rw [hUW]; linarith)) (NearLine.mono hfar (by rw [hUW]; linarith)) n2 (by rw [hUW]; linarith) hm
  obtain ⟨s, hs1, hs2, hs3⟩ := n3 μ hμ
  rw [hUW] at hs3
  obtain ⟨P, hP⟩ := distance_fin R hΩ hS hμ hx fun j => by
    rw [hq]
    have h4 := (abs_sub_abs_le_abs_sub (μ j) (ξ j + s * δ j)).trans (hs3 j)
    have h5 := abs_sub (μ j) (ξ j)
    linarith [hW s hs1 hs2 j, hξ j]
  obtain ⟨μ2, ξ2, hμ2, hξ2, hP0, hPle⟩ := distance_up R.toRoundingOps hS hP
  have : ξ2 = ξ := funext fun j => ext_inj (hξ2 j) (hx j)
  subst this
  rw [hq, ← hε] at hPle
  obtain ⟨m', μ', s', hh⟩ := bisect_length R.toRoundingOps hS hq M' hx hξ hδl hdj inside hfar hm hμ2 hP0 hPle
  exact ⟨P, m', μ', s', hP, hh⟩

/-- What is assumed of the accepted points: those near the chord have coordinates up to `B`. -/
def ChordWithin (ext : F → Option EReal) (θ B q ε : ℝ) (ξ δ : Fin n → ℝ) (inside : (Fin n → F) → Out Bool) : Prop :=
  ∀ z ζ, inside z = .ok true → HasValues ext z ζ → (∃ s, -θ ≤ s ∧ s ≤ 21 / 5 * (q * B) ∧ ∀ j, |ζ j - (ξ j + s * δ j)| ≤ 12 * (q * ε)) → ∀ j, |ζ j| ≤ B

/-- The doubling loop: the far end is finite and near the line. -/
theorem expand_vals (R : RoundingFull F ext u θ Ω) (hΩ : Roomy Ω B n) (hS : FineFor u θ B n N) {q ε : ℝ} (hq : Real.sqrt n = q) (M : Mags u θ B q ε n)
    {x dir : Fin n → F} {ξ δ : Fin n → ℝ} (hx : HasValues ext x ξ) (hξ : ∀ j, |ξ j| ≤ B) (hδ : HasValues ext dir δ) (hdj : ∀ j, |δ j| ≤ 103 / 100)
    (inside : (Fin n → F) → Out Bool) (hin : ChordWithin ext θ B q ε ξ δ inside) (fuel : ℕ) :
    ∀ (f0 f : Fin n → F) (γ : Fin n → ℝ), HasValues ext f0 γ → (∀ j, |(ξ - γ) j| ≤ 2 * B) → HitRun.expand inside dir x fuel f0 = .ok f →
      ∃ φ σ, HasValues ext f φ ∧ -θ ≤ σ ∧ σ ≤ 21 / 5 * (q * B) ∧ ∀ j, |φ j - (ξ j + σ * δ j)| ≤ 12 * (q * ε) := by
  induction fuel with
  | zero => intro f0 f γ _ _ h; cases h
  | succ fuel ih =>
    intro f0 f γ hγ hγB h
    obtain ⟨φ, σ, d, h1, -, h3, h4, -, h6⟩ := far_vals R hΩ hS hq M hx hξ hδ hdj hγ hγB
    obtain ⟨c, hc, h⟩ := Out.bind_eq_ok.1 h
    cases c with
    | false => cases h; exact ⟨φ, σ, h1, h3, h4, h6⟩
    | true =>
      refine ih _ f φ h1 (fun j => ?_) h
      have := hin _ φ hc h1 ⟨σ, h3, h4, h6⟩ j
      rw [Pi.sub_apply]
      exact (abs_sub _ _).trans (by linarith [hξ j])

/-- The next position is finite. -/
theorem move_vals (R : RoundingFull F ext u θ Ω) (hΩ : Roomy Ω B n) (hS : FineFor u θ B n N) {q ε : ℝ} (M : Mags u θ B q ε n)
    {x dir : Fin n → F} {ξ δ : Fin n → ℝ} (hx : HasValues ext x ξ) (hξ : ∀ j, |ξ j| ≤ B) (hδ : HasValues ext dir δ) (hdj : ∀ j, |δ j| ≤ 103 / 100)
    {p neg val : F} {P Q γ y : ℝ} (hp : ext p = some (P : EReal)) (hneg : ext neg = some (γ : EReal)) (hγ : |γ - Q * (-1)| ≤ u * |Q * (-1)| + θ)
    (hval : ext val = some (y : EReal)) (hy0 : 0 ≤ y) (hy1 : y ≤ 1) (hP0 : 0 ≤ P) (hPB : P ≤ 5 * (n * B)) (hQ0 : 0 ≤ Q) (hQB : Q ≤ 5 * (n * B)) :
    ∃ T ξ', ext (val * (p - neg) + neg) = some ((T : ℝ) : EReal) ∧ HasValues ext (fun i => (val * (p - neg) + neg) * dir i + x i) ξ' ∧
      -Q - 51 * (n * ε) ≤ T ∧ T ≤ P + 51 * (n * ε) := by
  have hu := R.u_nonneg
  have hB := hS.pos
  have hu1 := hS.u_le R.toRounding
  have hn1 : (1 : ℝ) ≤ n := by exact_mod_cast hS.dim
  have hnε : ε ≤ n * ε := le_mul_of_one_le_left M.ε_nonneg hn1
  have hκ : (n : ℝ) * ε = u * (n * B) := by rw [M.ε_eq]; ring
  have hnB0 : 0 < n * B := by positivity
  have hBn : B ≤ n * B := le_mul_of_one_le_left hB.le hn1
  have hκ1 : n * ε ≤ 1 / 1100 * (n * B) := by rw [hκ]; exact mul_le_mul_of_nonneg_right hu1 hnB0.le
  have hlin := hΩ.lin
  have hθ := M.θ_ε
  have g1 : |γ| ≤ 51 / 10 * (n * B) := by
    have e0 : |Q * (-1)| ≤ 5 * (n * B) := by rw [mul_neg_one, abs_neg, abs_of_nonneg hQ0]; exact hQB
    have e1 := mul_le_mul_of_nonneg_left e0 hu
    have e2 := abs_sub_abs_le_abs_sub γ (Q * (-1))
    linarith
  have g1' := abs_le.1 g1
  have g2 : |P - γ| ≤ 11 * (n * B) := abs_le.2 ⟨by linarith, by linarith⟩
  obtain ⟨D, hD⟩ := R.sub_fin _ _ _ _ hp hneg (g2.trans (by linarith))
  have hDe : |D - (P - γ)| ≤ u * |P - γ| := by
    obtain ⟨a, b, ha, hb, hab⟩ := R.sub _ _ _ hD
    cases ext_inj ha hp
    cases ext_inj hb hneg
    exact hab
  have g3 : |D| ≤ 12 * (n * B) := by
    have e1 := abs_sub_abs_le_abs_sub D (P - γ)
    have e2 : u * |P - γ| ≤ 1 / 1100 * (11 * (n * B)) := mul_le_mul hu1 g2 (abs_nonneg _) (by norm_num)
    linarith
  have g4 : |y * D| ≤ 12 * (n * B) := by
    rw [abs_mul, abs_of_nonneg hy0]
    exact (mul_le_of_le_one_left (abs_nonneg _) hy1).trans g3
  obtain ⟨E, hE⟩ := R.mul_fin _ _ _ _ hval hD (g4.trans (by linarith))
  have hEe : |E - y * D| ≤ u * |y * D| + θ := by
    obtain ⟨a, b, ha, hb, hab⟩ := R.mul _ _ _ hE
    cases ext_inj ha hval
    cases ext_inj hb hD
    exact hab
  have g5 : |E| ≤ 13 * (n * B) := by
    have e1 := abs_sub_abs_le_abs_sub E (y * D)
    have e2 : u * |y * D| ≤ 1 / 1100 * (12 * (n * B)) := mul_le_mul hu1 g4 (abs_nonneg _) (by norm_num)
    linarith
  have g6 : |E + γ| ≤ 19 * (n * B) := (abs_add_le _ _).trans (by linarith)
  obtain ⟨T, hT⟩ := R.add_fin _ _ _ _ hE hneg (g6.trans (by linarith))
  have hTe : |T - (E + γ)| ≤ u * |E + γ| := by
    obtain ⟨a, b, ha, hb, hab⟩ := R.add _ _ _ hT
    cases ext_inj ha hE
    cases ext_inj hb hneg
    exact hab
  obtain ⟨hT1, hT2⟩ := mix_bounds hu hu1 hnB0.le hκ R.θ_nonneg (hθ.trans hnε) hP0 hPB hQ0 hQB hy0 hy1 hγ hDe hEe hTe
  have g7 : |T| ≤ 6 * (n * B) := abs_le.2 ⟨by linarith, by linarith⟩
  have g8 : ∀ j, |T * δ j| ≤ 7 * (n * B) := fun j => by
    rw [abs_mul]
    have := mul_le_mul g7 (hdj j) (abs_nonneg _) (by linarith)
    linarith
  have hv := fun j => R.mul_fin _ _ _ _ hT (hδ j) ((g8 j).trans (by linarith))
  choose v hv using hv
  have g9 : ∀ j, |v j| ≤ 8 * (n * B) := fun j => by
    obtain ⟨a, b, ha, hb, hab⟩ := R.mul _ _ _ (hv j)
    cases ext_inj ha hT
    cases ext_inj hb (hδ j)
    have e1 := abs_sub_abs_le_abs_sub (v j) (T * δ j)
    have e2 : u * |T * δ j| ≤ 1 / 1100 * (7 * (n * B)) := mul_le_mul hu1 (g8 j) (abs_nonneg _) (by norm_num)
    linarith [g8 j]
  have hξ' := fun j => R.add_fin _ _ _ _ (hv j) (hx j) ((abs_add_le _ _).trans (by linarith [hξ j, g9 j]))
  choose ξ' hξ' using hξ'
  exact ⟨T, ξ', hT, hξ', hT1, hT2⟩

end
end PW

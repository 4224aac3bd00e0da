import Verif.Lemmas.IeeeOps

/-!
# Rounding is monotone, and exact on numbers that fit
-/

namespace PW
open Classical

theorem rint_mono {z w : ℝ} (h : z ≤ w) : rint z ≤ rint w := by
  rcases (Int.floor_mono h).lt_or_eq with hf | hf
  · have h1 : rint z ≤ ⌊z⌋ + 1 := by unfold rint; split_ifs <;> omega
    have h2 : ⌊w⌋ ≤ rint w := by unfold rint; split_ifs <;> omega
    omega
  · have hr : Int.fract z ≤ Int.fract w := by
      have h1 := Int.fract_add_floor z
      have h2 := Int.fract_add_floor w
      rw [hf] at h1
      linarith
    unfold rint
    rw [hf]
    split_ifs <;> first | omega | (exfalso; linarith)

theorem rint_le {z : ℝ} {k : ℤ} (h : z ≤ k) : rint z ≤ k := by
  have := rint_mono h
  rwa [rint_int] at this

theorem le_rint {z : ℝ} {k : ℤ} (h : (k : ℝ) ≤ z) : k ≤ rint z := by
  have := rint_mono h
  rwa [rint_int] at this

namespace Ieee
variable {p : ℕ} {emin : ℤ}

theorem lt_pow_log {x : ℝ} (hx : 0 < x) : x < 2 ^ (Int.log 2 x + 1) := by
  have := Int.lt_zpow_succ_log_self (b := 2) (by norm_num) x
  exact_mod_cast this

theorem pow_log_le {x : ℝ} (hx : 0 < x) : (2 : ℝ) ^ Int.log 2 x ≤ x := by
  have := Int.zpow_log_le_self (b := 2) (by norm_num) hx
  exact_mod_cast this

theorem log_lt {x : ℝ} (hx : 0 < x) {k : ℤ} (h : x < 2 ^ k) : Int.log 2 x < k :=
  (Int.lt_zpow_iff_log_lt (R := ℝ) (b := 2) (by norm_num) hx).1 (by exact_mod_cast h)

theorem le_log {x : ℝ} (hx : 0 < x) {k : ℤ} (h : 2 ^ k ≤ x) : k ≤ Int.log 2 x :=
  (Int.zpow_le_iff_le_log (R := ℝ) (b := 2) (by norm_num) hx).1 (by exact_mod_cast h)

theorem two_zpow_sub {a b : ℤ} (h : a ≤ b) : ∃ N : ℤ, (2 : ℝ) ^ b = (N : ℝ) * 2 ^ a := by
  obtain ⟨k, hk⟩ := Int.eq_ofNat_of_zero_le (sub_nonneg.2 h)
  refine ⟨2 ^ k, ?_⟩
  push_cast
  rw [← zpow_natCast, ← zpow_add₀ (by norm_num)]
  congr 1
  omega

/-- Rounding is monotone. -/
theorem rnd_mono (hp : 1 ≤ p) {x y : ℝ} (hx : 0 ≤ x) (hxy : x ≤ y) : rnd p emin x ≤ rnd p emin y := by
  rcases hx.lt_or_eq with hx | rfl
  swap
  · rw [rnd_zero]; exact rnd_nonneg p emin hxy
  have hy : 0 < y := hx.trans_le hxy
  have hlog : Int.log 2 x ≤ Int.log 2 y := Int.log_mono_right hx hxy
  have hex : ulpExp p emin x = max (Int.log 2 x - (p - 1)) emin := by unfold ulpExp; rw [abs_of_pos hx]
  have hey : ulpExp p emin y = max (Int.log 2 y - (p - 1)) emin := by unfold ulpExp; rw [abs_of_pos hy]
  have hle : ulpExp p emin x ≤ ulpExp p emin y := by rw [hex, hey]; exact max_le_max (by omega) le_rfl
  rcases hle.lt_or_eq with hlt | heq
  · have h1 : ulpExp p emin y = Int.log 2 y - (p - 1) := by
      have := le_max_right (Int.log 2 x - ((p : ℤ) - 1)) emin
      rw [hey] at hlt ⊢
      rw [hex] at hlt
      rcases le_total (Int.log 2 y - ((p : ℤ) - 1)) emin with h | h
      · rw [max_eq_right h] at hlt; omega
      · exact max_eq_left h
    have h2 : Int.log 2 x < Int.log 2 y := by
      have := le_max_left (Int.log 2 x - ((p : ℤ) - 1)) emin
      rw [← hex] at this
      omega
    have hxl : x ≤ 2 ^ Int.log 2 y := (lt_pow_log hx).le.trans (zpow_le_zpow_right₀ (by norm_num) (by omega))
    have hyl := pow_log_le hy
    obtain ⟨k, hk⟩ := two_zpow_sub (show ulpExp p emin x ≤ Int.log 2 y by omega)
    obtain ⟨k', hk'⟩ := two_zpow_sub (show ulpExp p emin y ≤ Int.log 2 y by omega)
    have h3 : rnd p emin x ≤ 2 ^ Int.log 2 y := by
      unfold rnd
      rw [hk]
      refine mul_le_mul_of_nonneg_right ?_ (by positivity)
      exact_mod_cast rint_le (by rw [div_le_iff₀ (by positivity), ← hk]; exact hxl)
    have h4 : 2 ^ Int.log 2 y ≤ rnd p emin y := by
      unfold rnd
      rw [hk']
      refine mul_le_mul_of_nonneg_right ?_ (by positivity)
      exact_mod_cast le_rint (by rw [le_div_iff₀ (by positivity), ← hk']; exact hyl)
    exact h3.trans h4
  · unfold rnd
    rw [← heq]
    refine mul_le_mul_of_nonneg_right ?_ (by positivity)
    exact_mod_cast rint_mono (div_le_div_of_nonneg_right hxy (by positivity))

/-- Numbers with at most `p` bits are not rounded. -/
theorem rnd_fits {z k : ℤ} (hz : |z| < 2 ^ p) (hk : emin ≤ k) : rnd p emin (z * 2 ^ k) = z * 2 ^ k := by
  by_cases h0 : z = 0
  · subst h0; simpa using rnd_zero p emin
  have hpos : (0 : ℝ) < |(z : ℝ) * 2 ^ k| := abs_pos.2 (mul_ne_zero (by exact_mod_cast h0) (by positivity))
  have hlog : Int.log 2 |(z : ℝ) * 2 ^ k| < p + k := by
    refine log_lt hpos ?_
    rw [abs_mul, abs_of_pos (by positivity : (0 : ℝ) < 2 ^ k), zpow_add₀ (by norm_num)]
    refine mul_lt_mul_of_pos_right ?_ (by positivity)
    rw [zpow_natCast]
    exact_mod_cast hz
  have key : ∀ E : ℤ, ulpExp p emin (z * 2 ^ k) = E → E ≤ k → rnd p emin (z * 2 ^ k) = z * 2 ^ k := by
    intro E hE hEk
    obtain ⟨j, hj⟩ := two_zpow_sub hEk
    unfold rnd
    rw [hE]
    have : (z : ℝ) * 2 ^ k / 2 ^ E = ((z * j : ℤ) : ℝ) := by
      rw [hj, div_eq_iff (by positivity)]
      push_cast
      ring
    rw [this, rint_int, hj]
    push_cast
    ring
  exact key _ rfl (by unfold ulpExp; exact max_le (by omega) hk)

/-- The same, with the next power of two. -/
theorem rnd_fits' (hp : 1 ≤ p) {z k : ℤ} (hz : |z| ≤ 2 ^ p) (hk : emin ≤ k) : rnd p emin (z * 2 ^ k) = z * 2 ^ k := by
  rcases hz.lt_or_eq with h | h
  · exact rnd_fits h hk
  have h1 : |(1 : ℤ)| < 2 ^ p := by rw [abs_one]; exact one_lt_pow₀ (by norm_num) (by omega)
  have h2 : |(-1 : ℤ)| < 2 ^ p := by rw [abs_neg]; exact h1
  have e : (2 : ℝ) ^ (k + p) = 2 ^ p * 2 ^ k := by rw [zpow_add₀ (by norm_num), zpow_natCast]; ring
  rcases abs_choice z with hc | hc
  · have hz' : z = 2 ^ p := by omega
    have := rnd_fits (emin := emin) (k := k + p) h1 (by omega)
    rw [e] at this
    rw [hz']
    push_cast at this ⊢
    simpa using this
  · have hz' : z = -2 ^ p := by omega
    have := rnd_fits (emin := emin) (k := k + p) h2 (by omega)
    rw [e] at this
    rw [hz']
    push_cast at this ⊢
    simpa using this

theorem rint_neg (z : ℝ) : rint (-z) = -rint z := by
  by_cases hz : Int.fract z = 0
  · have h : z = ⌊z⌋ := by have := Int.fract_add_floor z; linarith
    rw [h, ← Int.cast_neg, rint_int, rint_int]
  · have hf : Int.fract (-z) = 1 - Int.fract z := Int.fract_neg hz
    have hfl : ⌊-z⌋ = -⌊z⌋ - 1 := by
      have h1 := Int.fract_add_floor z
      have h2 := Int.fract_add_floor (-z)
      rw [hf] at h2
      have : ((⌊-z⌋ : ℤ) : ℝ) = ((-⌊z⌋ - 1 : ℤ) : ℝ) := by push_cast; linarith
      exact_mod_cast this
    have hev : Even (-⌊z⌋ - 1) ↔ ¬ Even ⌊z⌋ := by
      rw [Int.even_sub_one, even_neg]
    unfold rint
    rw [hf, hfl]
    have h3 := Int.fract_lt_one z
    by_cases c1 : Int.fract z < 1 / 2
    · rw [if_neg (by linarith), if_pos (by linarith), if_pos c1]; ring
    · by_cases c2 : 1 / 2 < Int.fract z
      · rw [if_pos (by linarith), if_neg c1, if_pos c2]; ring
      · rw [if_neg (by linarith), if_neg (by linarith), if_neg c1, if_neg c2]
        by_cases c3 : Even ⌊z⌋
        · rw [if_neg (fun h => hev.1 h c3), if_pos c3]; ring
        · rw [if_pos (hev.2 c3), if_neg c3]; ring

theorem rnd_neg (x : ℝ) : rnd p emin (-x) = -rnd p emin x := by
  have h : ulpExp p emin (-x) = ulpExp p emin x := by unfold ulpExp; rw [abs_neg]
  unfold rnd
  rw [h, neg_div, rint_neg]
  push_cast
  ring

theorem rnd_nonpos {x : ℝ} (hx : x ≤ 0) : rnd p emin x ≤ 0 := by
  have := rnd_nonneg p emin (neg_nonneg.2 hx)
  rw [rnd_neg] at this
  linarith

/-- A rounded number that is at least `z 2ᵏ` (with `z` normalised) is this number or at least the next one. -/
theorem rnd_gap (hp : 1 ≤ p) {z k : ℤ} (hz : 2 ^ (p - 1) ≤ z) (hz' : z < 2 ^ p) (hk : emin ≤ k) {v : ℝ} (h : (z : ℝ) * 2 ^ k ≤ rnd p emin v)
    (hne : rnd p emin v ≠ z * 2 ^ k) : ((z + 1 : ℤ) : ℝ) * 2 ^ k ≤ rnd p emin v := by
  have hz0 : (0 : ℝ) < z := by
    have : (0 : ℤ) < z := lt_of_lt_of_le (by positivity) hz
    exact_mod_cast this
  have hpos : (0 : ℝ) < (z : ℝ) * 2 ^ k := by positivity
  have hv : 0 < v := by
    by_contra hc
    have := rnd_nonpos (p := p) (emin := emin) (not_lt.1 hc)
    linarith
  -- the exponent of `v` is at least `k`, up to the rounding
  rcases le_or_gt k (ulpExp p emin v) with he | he
  · obtain ⟨N, hN⟩ := two_zpow_sub he
    unfold rnd at h hne ⊢
    rw [hN] at h hne ⊢
    have h1 : (z : ℝ) * 2 ^ k < (rint (v / (N * 2 ^ k)) * N : ℤ) * 2 ^ k := by
      refine lt_of_le_of_ne (h.trans (le_of_eq (by push_cast; ring))) fun h2 => hne ?_
      rw [h2]
      push_cast
      ring
    have h2 : z < rint (v / (N * 2 ^ k)) * N := by
      have := lt_of_mul_lt_mul_right h1 (by positivity)
      exact_mod_cast this
    have h3 : ((z + 1 : ℤ) : ℝ) ≤ (rint (v / (N * 2 ^ k)) * N : ℤ) := by exact_mod_cast h2
    calc ((z + 1 : ℤ) : ℝ) * 2 ^ k ≤ (rint (v / (N * 2 ^ k)) * N : ℤ) * 2 ^ k := mul_le_mul_of_nonneg_right h3 (by positivity)
      _ = _ := by push_cast; ring
  · -- then `v < 2 ^ (k + p - 1) ≤ z 2 ^ k`, so `rnd v ≤ 2 ^ (k + p - 1)`
    exfalso
    have hlog : Int.log 2 v - (p - 1) < k := by
      have := le_max_left (Int.log 2 |v| - ((p : ℤ) - 1)) emin
      rw [abs_of_pos hv] at this
      unfold ulpExp at he
      rw [abs_of_pos hv] at he
      omega
    have hv2 : v ≤ 2 ^ (k + (p - 1) : ℤ) := (lt_pow_log hv).le.trans (zpow_le_zpow_right₀ (by norm_num) (by omega))
    have h1 : rnd p emin v ≤ rnd p emin (((1 : ℤ) : ℝ) * 2 ^ (k + (p - 1) : ℤ)) := rnd_mono hp hv.le (by simpa using hv2)
    rw [rnd_fits' hp (by rw [abs_one]; exact one_le_pow₀ (by norm_num)) (by omega)] at h1
    have h2 : ((1 : ℤ) : ℝ) * 2 ^ (k + (p - 1) : ℤ) ≤ z * 2 ^ k := by
      rw [Int.cast_one, one_mul, zpow_add₀ (by norm_num), mul_comm]
      refine mul_le_mul_of_nonneg_right ?_ (by positivity)
      obtain ⟨q, rfl⟩ : ∃ q, p = q + 1 := ⟨p - 1, by omega⟩
      have : (((q + 1 : ℕ) : ℤ) - 1) = (q : ℤ) := by push_cast; ring
      rw [this, zpow_natCast]
      have h3 : (2 : ℤ) ^ q ≤ z := by simpa using hz
      exact_mod_cast h3
    exact hne (le_antisymm (h1.trans h2) h)

end Ieee
end PW

import Verif.Spec.RoundingOps
import Verif.Lemmas.Ieee

/-!
# IEEE division, square roots and small integers
-/

namespace PW
namespace Ieee
variable {p : ℕ} {emin emax : ℤ}

theorem rnd_nonneg (p : ℕ) (emin : ℤ) {x : ℝ} (hx : 0 ≤ x) : 0 ≤ rnd p emin x := by
  unfold rnd
  refine mul_nonneg ?_ (by positivity)
  have h : 0 ≤ x / 2 ^ ulpExp p emin x := div_nonneg hx (by positivity)
  generalize x / 2 ^ ulpExp p emin x = z at h
  have h2 : (0 : ℤ) ≤ ⌊z⌋ := Int.floor_nonneg.2 h
  have : (0 : ℤ) ≤ rint z := by
    unfold rint
    split_ifs <;> omega
  exact_mod_cast this

/-- Integers with few enough bits are not rounded. -/
theorem rnd_int (hp : 2 ≤ p) (he : emin ≤ 0) {z : ℤ} (hz : |z| ≤ 2) : rnd p emin (z : ℝ) = z := by
  by_cases h0 : z = 0
  · subst h0; simpa using rnd_zero p emin
  have hlog : Int.log 2 |(z : ℝ)| ≤ 1 := by
    have hpos : (0 : ℝ) < |(z : ℝ)| := abs_pos.2 (by exact_mod_cast h0)
    have h4 : |(z : ℝ)| < ((2 : ℕ) : ℝ) ^ (2 : ℤ) := by
      have : |(z : ℝ)| ≤ 2 := by exact_mod_cast hz
      norm_num
      linarith
    have := (Int.lt_zpow_iff_log_lt (b := 2) (by norm_num) hpos).1 h4
    omega
  have he0 : ulpExp p emin (z : ℝ) ≤ 0 := by
    unfold ulpExp
    rw [max_le_iff]
    constructor <;> omega
  obtain ⟨k, hk⟩ := Int.eq_ofNat_of_zero_le (neg_nonneg.2 he0)
  have h1 : (z : ℝ) / 2 ^ ulpExp p emin (z : ℝ) = ((z * 2 ^ k : ℤ) : ℝ) := by
    have : ulpExp p emin (z : ℝ) = -(k : ℤ) := by omega
    rw [this, zpow_neg, div_inv_eq_mul, zpow_natCast]
    push_cast
    ring
  unfold rnd
  rw [h1, rint_int, ← h1, div_mul_cancel₀]
  positivity

theorem roundingOps (hp : 2 ≤ p) (he : emin ≤ emax) (he0 : emin ≤ 0) (hm : 1 ≤ emax) :
    RoundingOps (Ieee p emin emax) ext ((2 : ℝ) ^ (-(p : ℤ))) (2 ^ (emin - 1)) (2 ^ emax) where
  toRounding := rounding hp he
  div a b y r hb hy h := by
    obtain ⟨hy', rfl⟩ := ext_eq hb
    cases a with
    | num x hx =>
      refine ⟨x, rfl, ?_⟩
      change ext (div (num x hx) (num y hy')) = _ at h
      simp only [div, if_neg hy] at h
      rw [ext_round h]
      exact rnd_close p emin _
    | inf s => exact absurd h ext_inf_ne
    | nan => cases h
  sqrt a r h := by
    change ext (fun1 Real.sqrt (0 ≤ ·) nan (inf False) a) = _ at h
    cases a with
    | num x hx =>
      simp only [fun1] at h
      split_ifs at h with h0
      · rw [ext_round h]
        exact ⟨x, rfl, h0, rnd_nonneg _ _ (Real.sqrt_nonneg x), by
          have := rnd_close p emin (Real.sqrt x)
          rwa [abs_of_nonneg (Real.sqrt_nonneg x)] at this⟩
      · cases h
    | inf s =>
      simp only [fun1] at h
      split_ifs at h
      · cases h
      · exact absurd h ext_inf_ne
    | nan => cases h
  sqrt_fin a x h h0 hx := by
    obtain ⟨hx', rfl⟩ := ext_eq h
    have h1 : |Real.sqrt x| ≤ 2 ^ emax := by
      rw [abs_of_nonneg (Real.sqrt_nonneg x), Real.sqrt_le_left (by positivity)]
      refine hx.trans ?_
      rw [sq]
      exact le_mul_of_one_le_left (by positivity) (one_le_zpow₀ (by norm_num) (by omega))
    obtain ⟨r, hr⟩ := round_fin (p := p) (emin := emin) hp he h1
    refine ⟨r, ?_⟩
    show ext (fun1 Real.sqrt (0 ≤ ·) nan (inf False) (num x hx')) = _
    simp only [fun1, if_pos h0]
    exact hr
  ofInt z hz := by
    show ext (round (z : ℝ)) = _
    have h3 : |rnd p emin (z : ℝ)| < 2 ^ (emax + 1) := by
      rw [rnd_int hp he0 hz]
      have h1 : |(z : ℝ)| ≤ 2 := by exact_mod_cast hz
      have h2 : (4 : ℝ) ≤ 2 ^ (emax + 1) := by
        calc (4 : ℝ) = 2 ^ (2 : ℤ) := by norm_num
          _ ≤ _ := zpow_le_zpow_right₀ (by norm_num) (by omega)
      linarith
    unfold round
    rw [if_pos h3]
    show some ((rnd p emin (z : ℝ) : ℝ) : EReal) = _
    rw [rnd_int hp he0 hz]

theorem binary64_ops : RoundingOps Binary64 ext ((2 : ℝ) ^ (-53 : ℤ)) (2 ^ (-1075 : ℤ)) (2 ^ (1023 : ℤ)) := by
  have := roundingOps (p := 53) (emin := -1074) (emax := 1023) (by norm_num) (by norm_num) (by norm_num) (by norm_num)
  norm_num at this ⊢
  exact this

theorem roundingFull (hp : 2 ≤ p) (he : emin ≤ emax) (he0 : emin ≤ 0) (hm : 1 ≤ emax) :
    RoundingFull (Ieee p emin emax) ext ((2 : ℝ) ^ (-(p : ℤ))) (2 ^ (emin - 1)) (2 ^ emax) where
  toRoundingOps := roundingOps hp he he0 hm
  div_fin a b x y ha hb hy h := by
    obtain ⟨hx', rfl⟩ := ext_eq ha
    obtain ⟨hy', rfl⟩ := ext_eq hb
    obtain ⟨r, hr⟩ := round_fin (p := p) (emin := emin) hp he h
    refine ⟨r, ?_⟩
    show ext (div (num x hx') (num y hy')) = _
    simp only [div, if_neg hy]
    exact hr
  mul_self a r h := by
    obtain ⟨x, y, hx, hy, _⟩ := (rounding hp he).mul a a r h
    obtain ⟨hx', rfl⟩ := ext_eq hx
    change ext (round (x * x)) = _ at h
    rw [ext_round h]
    exact rnd_nonneg _ _ (mul_self_nonneg x)
  neg a x h := by
    obtain ⟨hx', rfl⟩ := ext_eq h
    rfl

theorem binary64_full : RoundingFull Binary64 ext ((2 : ℝ) ^ (-53 : ℤ)) (2 ^ (-1075 : ℤ)) (2 ^ (1023 : ℤ)) := by
  have := roundingFull (p := 53) (emin := -1074) (emax := 1023) (by norm_num) (by norm_num) (by norm_num) (by norm_num)
  norm_num at this ⊢
  exact this

end Ieee
end PW

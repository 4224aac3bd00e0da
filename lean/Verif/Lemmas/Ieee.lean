import Verif.Model.Ieee
import Verif.Spec.Rounding
import Mathlib.Tactic.Linarith
import Mathlib.Tactic.Positivity
import Mathlib.Tactic.FieldSimp

/-! # IEEE arithmetic satisfies the standard model of floating-point arithmetic -/

namespace PW
open Classical

theorem rint_err (z : ℝ) : |(rint z : ℝ) - z| ≤ 1 / 2 := by
  have h1 := Int.fract_add_floor z
  have h2 := Int.fract_nonneg z
  have h3 := Int.fract_lt_one z
  unfold rint
  split_ifs with c1 c2 c3 <;> push_cast <;> rw [abs_le] <;> constructor <;> linarith

theorem rint_int (z : ℤ) : rint (z : ℝ) = z := by
  unfold rint
  simp

theorem rnd_err (p : ℕ) (emin : ℤ) (x : ℝ) : |rnd p emin x - x| ≤ (2 : ℝ) ^ (ulpExp p emin x - 1) := by
  have hu : (0 : ℝ) < 2 ^ ulpExp p emin x := by positivity
  have h := rint_err (x / 2 ^ ulpExp p emin x)
  have e : rnd p emin x - x = ((rint (x / 2 ^ ulpExp p emin x) : ℝ) - x / 2 ^ ulpExp p emin x) * 2 ^ ulpExp p emin x := by
    unfold rnd; field_simp
  rw [e, abs_mul, abs_of_pos hu, zpow_sub_one₀ (by norm_num)]
  calc _ ≤ 1 / 2 * (2 : ℝ) ^ ulpExp p emin x := mul_le_mul_of_nonneg_right h hu.le
    _ = _ := by ring

theorem rnd_zero (p : ℕ) (emin : ℤ) : rnd p emin 0 = 0 := by
  have h : rint 0 = 0 := by
    have := rint_int 0
    simpa using this
  unfold rnd
  rw [zero_div, h]; simp

/-- Relative error, if the last place is above the smallest. -/
theorem rnd_rel {p : ℕ} {emin : ℤ} {x : ℝ} (h : emin < ulpExp p emin x) : |rnd p emin x - x| ≤ (2 : ℝ) ^ (-(p : ℤ)) * |x| := by
  rcases eq_or_ne x 0 with rfl | hx
  · rw [rnd_zero]; simp
  have hl : ulpExp p emin x = Int.log 2 |x| - (p - 1) := by
    unfold ulpExp at h ⊢
    rcases le_total (Int.log 2 |x| - (p - 1)) emin with h1 | h1
    · rw [max_eq_right h1] at h; exact absurd h (lt_irrefl _)
    · exact max_eq_left h1
  refine (rnd_err p emin x).trans ?_
  rw [hl]
  have h2 : (2 : ℝ) ^ Int.log 2 |x| ≤ |x| := by
    have := Int.zpow_log_le_self (b := 2) (by norm_num) (abs_pos.2 hx)
    exact_mod_cast this
  calc (2 : ℝ) ^ (Int.log 2 |x| - (p - 1) - 1) = 2 ^ (-(p : ℤ)) * 2 ^ Int.log 2 |x| := by
        rw [← zpow_add₀ (by norm_num)]; congr 1; ring
    _ ≤ _ := mul_le_mul_of_nonneg_left h2 (by positivity)

/-- Error of rounding any real number. -/
theorem rnd_close (p : ℕ) (emin : ℤ) (x : ℝ) : |rnd p emin x - x| ≤ (2 : ℝ) ^ (-(p : ℤ)) * |x| + 2 ^ (emin - 1) := by
  rcases (Ieee.ulpExp_ge p emin x).lt_or_eq with h | h
  · exact (rnd_rel h).trans (le_add_of_nonneg_right (by positivity))
  · have := rnd_err p emin x
    rw [← h] at this
    exact this.trans (le_add_of_nonneg_left (by positivity))

/-- Error of rounding a number on the grid. -/
theorem rnd_close_grid (p : ℕ) (emin : ℤ) {x : ℝ} (hx : OnGrid emin x) : |rnd p emin x - x| ≤ (2 : ℝ) ^ (-(p : ℤ)) * |x| := by
  rcases (Ieee.ulpExp_ge p emin x).lt_or_eq with h | h
  · exact rnd_rel h
  · obtain ⟨z, hz⟩ := hx
    have : rnd p emin x = x := by
      unfold rnd
      rw [← h, hz, mul_div_assoc, div_self (by positivity), mul_one, rint_int]
    rw [this]; simp

namespace Ieee
variable {p : ℕ} {emin emax : ℤ}

theorem OnGrid.add {x y : ℝ} (hx : OnGrid emin x) (hy : OnGrid emin y) : OnGrid emin (x + y) := by
  obtain ⟨a, rfl⟩ := hx
  obtain ⟨b, rfl⟩ := hy
  exact ⟨a + b, by push_cast; ring⟩

theorem ext_round {x r : ℝ} (h : ext (round x : Ieee p emin emax) = some (r : EReal)) : r = rnd p emin x := by
  unfold round at h
  split_ifs at h with c
  · simp only [ext, Option.some.injEq, EReal.coe_eq_coe_iff] at h; exact h.symm
  · simp only [ext, Option.some.injEq] at h
    split_ifs at h with c2
    · exact absurd h.symm (EReal.coe_ne_bot r)
    · exact absurd h.symm (EReal.coe_ne_top r)

theorem ext_inf_ne {s : Prop} {r : ℝ} : ext (inf s : Ieee p emin emax) ≠ some (r : EReal) := by
  intro h
  simp only [ext, Option.some.injEq] at h
  split_ifs at h with c2
  · exact absurd h.symm (EReal.coe_ne_bot r)
  · exact absurd h.symm (EReal.coe_ne_top r)

theorem ext_eq {a : Ieee p emin emax} {x : ℝ} (h : ext a = some (x : EReal)) : ∃ hx, a = num x hx := by
  cases a with
  | num y hy =>
    simp only [ext, Option.some.injEq, EReal.coe_eq_coe_iff] at h
    subst h; exact ⟨hy, rfl⟩
  | inf s => exact absurd h ext_inf_ne
  | nan => cases h

theorem ext_neg {a : Ieee p emin emax} {x : ℝ} (h : ext (neg a) = some (x : EReal)) : ext a = some ((-x : ℝ) : EReal) := by
  cases a with
  | num y hy =>
    simp only [neg, ext, Option.some.injEq, EReal.coe_eq_coe_iff] at h ⊢
    linarith
  | inf s => exact absurd h ext_inf_ne
  | nan => cases h

theorem neg_num {a : Ieee p emin emax} {x : ℝ} (h : ext a = some (x : EReal)) : ext (neg a) = some ((-x : ℝ) : EReal) := by
  obtain ⟨hx, rfl⟩ := ext_eq h
  rfl

theorem add_ext {a b : Ieee p emin emax} {r : ℝ} (h : ext (add a b) = some (r : EReal)) :
    ∃ x y : ℝ, ext a = some (x : EReal) ∧ ext b = some (y : EReal) ∧ |r - (x + y)| ≤ (2 : ℝ) ^ (-(p : ℤ)) * |x + y| := by
  cases a with
  | num x hx =>
    cases b with
    | num y hy =>
      refine ⟨x, y, rfl, rfl, ?_⟩
      rw [ext_round h]
      exact rnd_close_grid p emin (OnGrid.add hx hy)
    | inf s => exact absurd h ext_inf_ne
    | nan => cases h
  | inf s =>
    cases b with
    | num y hy => exact absurd h ext_inf_ne
    | inf t =>
      simp only [add] at h
      split_ifs at h
      · exact absurd h ext_inf_ne
      · cases h
    | nan => cases h
  | nan => cases b <;> cases h

theorem mul_ext {a b : Ieee p emin emax} {r : ℝ} (h : ext (mul a b) = some (r : EReal)) :
    ∃ x y : ℝ, ext a = some (x : EReal) ∧ ext b = some (y : EReal) ∧
      |r - x * y| ≤ (2 : ℝ) ^ (-(p : ℤ)) * |x * y| + 2 ^ (emin - 1) := by
  cases a with
  | num x hx =>
    cases b with
    | num y hy =>
      refine ⟨x, y, rfl, rfl, ?_⟩
      rw [ext_round h]
      exact rnd_close p emin _
    | inf s =>
      simp only [mul] at h
      split_ifs at h
      · cases h
      · exact absurd h ext_inf_ne
    | nan => cases h
  | inf s =>
    cases b with
    | num y hy =>
      simp only [mul] at h
      split_ifs at h
      · cases h
      · exact absurd h ext_inf_ne
    | inf t => exact absurd h ext_inf_ne
    | nan => cases h
  | nan => cases b <;> cases h

/-- Numbers up to `2 ^ emax` do not overflow. -/
theorem round_fin (hp : 2 ≤ p) (he : emin ≤ emax) {x : ℝ} (hx : |x| ≤ 2 ^ emax) :
    ∃ r : ℝ, ext (round x : Ieee p emin emax) = some (r : EReal) := by
  have h1 := rnd_close p emin x
  have h2 : (2 : ℝ) ^ (-(p : ℤ)) ≤ 1 / 4 := by
    calc (2 : ℝ) ^ (-(p : ℤ)) ≤ 2 ^ (-2 : ℤ) := zpow_le_zpow_right₀ (by norm_num) (by omega)
      _ = 1 / 4 := by norm_num
  have h3 : (2 : ℝ) ^ (emin - 1) ≤ 1 / 2 * 2 ^ emax := by
    calc (2 : ℝ) ^ (emin - 1) ≤ 2 ^ (emax - 1) := zpow_le_zpow_right₀ (by norm_num) (by omega)
      _ = _ := by rw [zpow_sub_one₀ (by norm_num)]; ring
  have h4 : (2 : ℝ) ^ (emax + 1) = 2 * 2 ^ emax := by rw [zpow_add_one₀ (by norm_num)]; ring
  have h5 : (0 : ℝ) < 2 ^ emax := by positivity
  have h6 : |rnd p emin x| ≤ |x| + |rnd p emin x - x| := by
    have := abs_add_le x (rnd p emin x - x)
    rwa [add_sub_cancel] at this
  have h7 : (2 : ℝ) ^ (-(p : ℤ)) * |x| ≤ 1 / 4 * 2 ^ emax := mul_le_mul h2 hx (abs_nonneg _) (by norm_num)
  refine ⟨rnd p emin x, ?_⟩
  unfold round
  rw [if_pos (by rw [h4]; linarith)]
  rfl

theorem cmp_iff (R : EReal → EReal → Prop) (a b : Ieee p emin emax) :
    cmp R a b = true ↔ ∃ x y, ext a = some x ∧ ext b = some y ∧ R x y := by
  unfold cmp
  cases ha : ext a with
  | none => simp
  | some x =>
    cases hb : ext b with
    | none => simp
    | some y => simp

theorem add_nan' {a b : Ieee p emin emax} (h : ext a = none ∨ ext b = none) : ext (add a b) = none := by
  rcases h with h | h
  · cases a <;> cases h
    cases b <;> rfl
  · cases b <;> cases h
    cases a <;> rfl

/-- IEEE arithmetic satisfies the standard model: relative error `2⁻ᵖ`, underflow error half the smallest positive number. -/
theorem rounding (hp : 2 ≤ p) (he : emin ≤ emax) :
    Rounding (Ieee p emin emax) ext ((2 : ℝ) ^ (-(p : ℤ))) (2 ^ (emin - 1)) (2 ^ emax) where
  u_nonneg := by positivity
  u_lt_one := by
    calc (2 : ℝ) ^ (-(p : ℤ)) < 2 ^ (0 : ℤ) := zpow_lt_zpow_right₀ (by norm_num) (by omega)
      _ = 1 := by norm_num
  θ_nonneg := by positivity
  zero := by show some ((0 : ℝ) : EReal) = some 0; simp
  le_iff a b := cmp_iff _ a b
  lt_iff a b := cmp_iff _ a b
  add a b r h := add_ext h
  sub a b r h := by
    obtain ⟨x, y, h1, h2, h3⟩ := add_ext (b := neg b) h
    refine ⟨x, -y, h1, ext_neg h2, ?_⟩
    rwa [sub_neg_eq_add]
  mul a b r h := mul_ext h
  add_fin a b x y ha hb h := by
    obtain ⟨hx, rfl⟩ := ext_eq ha
    obtain ⟨hy, rfl⟩ := ext_eq hb
    exact round_fin hp he h
  sub_fin a b x y ha hb h := by
    obtain ⟨hx, rfl⟩ := ext_eq ha
    obtain ⟨hy, rfl⟩ := ext_eq hb
    exact round_fin (x := x + -y) hp he (by rwa [← sub_eq_add_neg])
  mul_fin a b x y ha hb h := by
    obtain ⟨hx, rfl⟩ := ext_eq ha
    obtain ⟨hy, rfl⟩ := ext_eq hb
    exact round_fin hp he h
  add_nan a b h := add_nan' h
  sub_nan a b h := add_nan' (b := neg b) (h.imp_right fun h => by cases b <;> cases h; rfl)
  mul_nan a b h := by
    show ext (mul a b) = none
    rcases h with h | h
    · cases a <;> cases h
      cases b <;> rfl
    · cases b <;> cases h
      cases a <;> rfl

/-- Binary64. -/
theorem binary64 : Rounding Binary64 ext ((2 : ℝ) ^ (-53 : ℤ)) (2 ^ (-1075 : ℤ)) (2 ^ (1023 : ℤ)) := by
  have := rounding (p := 53) (emin := -1074) (emax := 1023) (by norm_num) (by norm_num)
  norm_num at this ⊢
  exact this

end Ieee
end PW

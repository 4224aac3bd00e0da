import Verif.Props.SparseHitRunRounding
import Verif.Props.HitRunRoundingExample

/-!
# C88: a concrete case in binary64
-/

namespace PW
open Finset

/-- The double with value `z / 2` (exact for `|z| < 2⁵³`). -/
noncomputable def dHalf (z : ℤ) : Binary64 := .num (z / 2) ⟨z * 2 ^ 1073, by
  have : (2 : ℝ) ^ (-1074 : ℤ) = 1 / (2 ^ 1073 * 2) := by rw [← pow_succ]; norm_num
  push_cast
  rw [this]
  field_simp⟩

theorem round_dHalf {x : ℝ} {z : ℤ} (h : x = z / 2) (hz : |z| < 2 ^ 53) : (Ieee.round x : Binary64) = dHalf z := by
  have h1 : rnd 53 (-1074) x = z / 2 := by
    have := Ieee.rnd_fits (p := 53) (emin := -1074) (k := -1) hz (by norm_num)
    rw [h]
    have e : (z : ℝ) * 2 ^ (-1 : ℤ) = z / 2 := by rw [zpow_neg_one]; ring
    rw [e] at this
    exact this
  unfold Ieee.round
  rw [if_pos]
  · exact num_congr h1 _ _
  · rw [h1]
    have h2 : |(z : ℝ)| < 2 ^ (53 : ℤ) := by exact_mod_cast hz
    have h3 : |(z : ℝ) / 2| ≤ |(z : ℝ)| := by
      rw [abs_div, abs_two]
      linarith [abs_nonneg (z : ℝ)]
    exact (h3.trans_lt h2).trans (zpow_lt_zpow_right₀ (by norm_num) (by norm_num))

theorem dInt_mul_dHalf {a b c : ℤ} (h : a * b = 2 * c) (hc : |c| < 2 ^ 53) : dInt a * dHalf b = dInt c :=
  round_dInt (x := (a : ℝ) * (b / 2)) (by
    have : (a : ℝ) * b = 2 * c := by exact_mod_cast h
    linarith) hc

theorem dInt_div_two {a : ℤ} (ha : |a| < 2 ^ 53) : dInt a / dInt 2 = dHalf a := by
  have hb' : ((2 : ℤ) : ℝ) ≠ 0 := by norm_num
  show (if ((2 : ℤ) : ℝ) = 0 then (if (a : ℝ) = 0 then Ieee.nan else Ieee.inf ((a : ℝ) < 0)) else Ieee.round ((a : ℝ) / (2 : ℤ)) : Binary64) = _
  rw [if_neg hb']
  exact round_dHalf (by push_cast; rfl) ha

theorem dHalf_neg (a : ℤ) : -dHalf a = dHalf (-a) := num_congr (by push_cast; ring) _ _
theorem dInt_neg (a : ℤ) : -dInt a = dInt (-a) := num_congr (by push_cast; ring) _ _

/-- A generator whose normal draws alternate `1, -1, 1, …` and whose uniform draws are 1. -/
noncomputable def altRng : Rng Binary64 :=
  ⟨Unit, Bool, fun _ => (), true, fun b _ => (dInt (if b then 1 else -1), !b, ()), fun _ => (dInt 1, ())⟩

/-- Decompositions that return zeros. `SparseLU` is only asked to solve with right-hand side 0 below. -/
noncomputable def zeroEigen : Eigen Binary64 :=
  ⟨fun _ _ _ => dInt 0, fun _ _ _ => dInt 0, fun _ _ _ => dInt 0, fun _ _ _ => dInt 0, fun _ _ _ => dInt 0, fun _ _ _ => dInt 0,
    fun _ _ => ⟨fun _ _ => dInt 0, fun _ _ => false, fun _ => dInt 0⟩, fun _ => ⟨fun _ _ => dInt 0, fun _ _ => dInt 0, id⟩,
    fun _ => ⟨fun _ _ => dInt 0, fun _ _ => dInt 0, id⟩⟩

/-- The simplex `x₁ + x₂ + x₃ + x₄ = 4`, `x ≥ 0`, from its centre, for one iteration. -/
noncomputable def simplex64 : Args Binary64 :=
  ⟨1, ⟨4, fun _ => dInt 1⟩, ⟨1, 4, fun _ _ => dInt 1⟩, ⟨1, fun _ => dInt 4⟩, 4, 0, 1, 3⟩

noncomputable def senv64 : Env Binary64 := ⟨altRng, 0, fun _ _ => dInt 0, 5⟩

theorem simplex64_dims : simplex64.DimsOk := ⟨rfl, rfl⟩
theorem simplex64_k : simplex64.KOk := by constructor <;> simp [simplex64]
theorem simplex64_ints : SaneInts simplex64.niter simplex64.burnin simplex64.thin := by constructor <;> simp [simplex64, intMax]

theorem vsum_fin4 (v : Fin 4 → Binary64) : vsum v = 0 + v 0 + v 1 + v 2 + v 3 := rfl

/-- Signs of the coordinates of the direction. -/
def alt : Fin 4 → ℤ := fun j => if j = 0 ∨ j = 2 then 1 else -1

theorem alt_abs : ∀ j, |alt j| = 1 := by decide

theorem alt_gaussian : (altRng.gaussian 4 ()).1 = fun j => dInt (alt j) := by
  funext j
  fin_cases j <;> rfl

theorem vsum_dInt {v : Fin 4 → ℤ} (hv : ∀ j, |v j| < 2 ^ 50) : vsum (fun j => dInt (v j)) = dInt (v 0 + v 1 + v 2 + v 3) := by
  have h0 := abs_lt.1 (hv 0)
  have h1 := abs_lt.1 (hv 1)
  have h2 := abs_lt.1 (hv 2)
  have h3 := abs_lt.1 (hv 3)
  rw [vsum_fin4, dInt_zero, dInt_add (c := v 0) (by ring) (by rw [abs_lt]; omega), dInt_add (c := v 0 + v 1) rfl (by rw [abs_lt]; omega),
    dInt_add (c := v 0 + v 1 + v 2) rfl (by rw [abs_lt]; omega), dInt_add (c := v 0 + v 1 + v 2 + v 3) rfl (by rw [abs_lt]; omega)]

theorem norm2_dInt {v : Fin 4 → ℤ} {c : ℤ} (hv : ∀ j, |v j * v j| < 2 ^ 50) (h0 : 0 ≤ c) (hc : |c| < 2 ^ 53)
    (h : c * c = v 0 * v 0 + v 1 * v 1 + v 2 * v 2 + v 3 * v 3) : norm2 (fun j => dInt (v j)) = dInt c := by
  unfold norm2
  have e : (fun j => dInt (v j) * dInt (v j)) = fun j => dInt (v j * v j) := funext fun j => dInt_mul rfl ((hv j).trans (by norm_num))
  show Scalar.sqrt (vsum fun j => dInt (v j) * dInt (v j)) = _
  rw [e, vsum_dInt hv]
  exact dInt_sqrt h h0 hc

theorem kernelProject_alt : kernelProject zeroEigen (m := 1) (n := 4) (fun _ _ => dInt 1) (fun j => dInt (alt j)) = fun j => dInt (alt j) := by
  funext j
  show dInt (alt j) - (0 + dInt 1 * dInt 0) = _
  rw [dInt_mul (c := 0) (by ring) (by norm_num), dInt_zero, dInt_add (c := 0) (by ring) (by norm_num)]
  exact dInt_sub (by ring) (by rw [alt_abs]; norm_num)

theorem alt_dir : normalize (kernelProject zeroEigen (m := 1) (n := 4) (fun _ _ => dInt 1) (altRng.gaussian 4 ()).1) = fun j => dHalf (alt j) := by
  rw [alt_gaussian, kernelProject_alt]
  unfold normalize
  rw [norm2_dInt (c := 2) (fun j => by rw [abs_mul, alt_abs]; norm_num) (by norm_num) (by norm_num) (by decide)]
  funext j
  exact dInt_div_two (by rw [alt_abs]; norm_num)

theorem dInt_min (a b : ℤ) : (if Scalar.lt (dInt a) (dInt b) then dInt a else dInt b) = dInt (min a b) := by
  rw [dInt_lt]
  by_cases h : a < b
  · rw [if_pos (by simpa using h), min_eq_left h.le]
  · rw [if_neg (by simpa using h), min_eq_right (not_lt.1 h)]

theorem simplex64_inside (v : Fin 4 → ℤ) : inPolytopeK (fun j => dInt (v j)) 4 = .ok (decide (∀ j, 0 ≤ v j)) := by
  have e : minCoeff (fun j => dInt (v j)) = .ok (dInt (min (v 3) (min (v 2) (min (v 1) (v 0))))) := by
    rw [← dInt_min, ← dInt_min, ← dInt_min]
    rfl
  show Out.bind (minCoeff (fun j => dInt (v j))) (fun c => Out.ok (Scalar.le 0 c)) = _
  rw [e]
  show Out.ok (Scalar.le 0 (dInt _)) = _
  rw [dInt_zero, dInt_le]
  congr 2
  rw [le_min_iff, le_min_iff, le_min_iff]
  exact propext ⟨fun h j => by fin_cases j; exacts [h.2.2.2, h.2.2.1, h.2.1, h.1], fun h => ⟨h 3, h 2, h 1, h 0⟩⟩

theorem distance4_dInt {v w : Fin 4 → ℤ} {c : ℤ} (hv : ∀ j, |v j - w j| ≤ 100) (h0 : 0 ≤ c) (hc : |c| < 2 ^ 53)
    (h : c * c = (v 0 - w 0) * (v 0 - w 0) + (v 1 - w 1) * (v 1 - w 1) + (v 2 - w 2) * (v 2 - w 2) + (v 3 - w 3) * (v 3 - w 3)) :
    distance (fun j => dInt (v j)) (fun j => dInt (w j)) = dInt c := by
  have e : (fun j => dInt (v j) - dInt (w j)) = fun j => dInt (v j - w j) := funext fun j => dInt_sub rfl ((hv j).trans_lt (by norm_num))
  show norm2 (fun j => dInt (v j) - dInt (w j)) = _
  rw [e]
  refine norm2_dInt (fun j => ?_) h0 hc h
  rw [abs_mul]
  exact (mul_le_mul (hv j) (hv j) (abs_nonneg _) (by norm_num)).trans_lt (by norm_num)

/-- A chord search of the example: from the centre in either direction it finds 2. -/
theorem simplex64_search (a : Fin 4 → ℤ) (ha : a = alt ∨ a = -alt) :
    SparseHitRun.binarySearch (n := 4) (dInt 2) (dInt 5) 5 4 (fun j => dHalf (a j)) (fun _ => dInt 1) = .ok (dInt 2) := by
  have hab : ∀ j, |a j| = 1 := by rcases ha with rfl | rfl <;> decide
  have hsum : a 0 * a 0 + a 1 * a 1 + a 2 * a 2 + a 3 * a 3 = 4 := by rcases ha with rfl | rfl <;> decide
  have hb : ∀ j, -1 ≤ a j ∧ a j ≤ 1 := fun j => abs_le.1 (hab j).le
  have e1 : (fun j => dInt 1 + dInt 2 * dHalf (a j)) = fun j => dInt (1 + a j) := funext fun j => by
    rw [dInt_mul_dHalf (c := a j) rfl (by rw [hab]; norm_num)]
    exact dInt_add rfl (by have := hb j; rw [abs_lt]; omega)
  have e3 : (two : Binary64) = dInt 2 := dInt_ofInt (by norm_num)
  have e4 : dInt 2 * dInt 2 = dInt 4 := dInt_mul (by ring) (by norm_num)
  have e5 : (fun j => dInt 1 + dInt 4 * dHalf (a j)) = fun j => dInt (1 + 2 * a j) := funext fun j => by
    rw [dInt_mul_dHalf (c := 2 * a j) (by ring) (by have := hb j; rw [abs_lt]; omega)]
    exact dInt_add rfl (by have := hb j; rw [abs_lt]; omega)
  have e7 : (fun j => (dInt 1 + dInt (1 + 2 * a j)) / dInt 2) = fun j => dInt (1 + a j) := funext fun j => by
    rw [dInt_add (c := 2 + 2 * a j) (by ring) (by have := hb j; rw [abs_lt]; omega)]
    exact dInt_div (by ring) (by norm_num) (by have := hb j; rw [abs_lt]; omega)
  have d1 : distance (n := 4) (fun _ => dInt 1) (fun j => dInt (1 + a j)) = dInt 2 :=
    distance4_dInt (v := fun _ => 1) (fun j => by have := hb j; rw [abs_le]; omega) (by norm_num) (by norm_num) (by linarith)
  have d2 : distance (n := 4) (fun _ => dInt 1) (fun j => dInt (1 + 2 * a j)) = dInt 4 :=
    distance4_dInt (v := fun _ => 1) (fun j => by have := hb j; rw [abs_le]; omega) (by norm_num) (by norm_num) (by linarith)
  have d3 : distance (n := 4) (fun j => dInt (1 + a j)) (fun _ => dInt 1) = dInt 2 :=
    distance4_dInt (w := fun _ => 1) (fun j => by have := hb j; rw [abs_le]; omega) (by norm_num) (by norm_num) (by linarith)
  have h1 := simplex64_inside (fun j => 1 + a j)
  have h2 := simplex64_inside (fun j => 1 + 2 * a j)
  rw [decide_eq_true (fun j => by have := hb j; omega)] at h1
  rw [decide_eq_false (by rcases ha with rfl | rfl <;> decide)] at h2
  unfold SparseHitRun.binarySearch SparseHitRun.maxIter
  simp only [e1]
  rw [show (10000 : ℕ) = 9999 + 1 from rfl, SparseHitRun.expand]
  simp only [d1, e3, e4, e5, h2]
  show Out.bind (HitRun.bisect (inPolytopeK · 4) (dInt 5) 5 (fun _ => dInt 1) (fun j => dInt (1 + 2 * a j))
    fun j => (dInt 1 + dInt (1 + 2 * a j)) / dInt 2) _ = _
  unfold HitRun.bisect
  simp only [e7, d2, dInt_lt]
  rw [if_neg (by simp), h1]
  show Out.ok (distance (n := 4) (fun j => dInt (1 + a j)) (fun _ => dInt 1)) = _
  rw [d3]

/-- The run returns the end of the chord. -/
theorem simplex64_run : (Walk.sparseHitRun (dInt 2) (dInt 5) zeroEigen).run senv64 simplex64 = .ok [fun j => dInt (1 + alt j)] := by
  have hstep : SparseHitRun.step (m := 1) (n := 4) (dInt 2) (dInt 5) 5 zeroEigen altRng (fun _ _ => dInt 1) 4 (fun _ => dInt 1, ()) =
      .ok (fun j => dInt (1 + alt j), ()) := by
    unfold SparseHitRun.step
    have hneg : (fun j => -dHalf (alt j)) = fun j => dHalf ((-alt) j) := funext fun j => dHalf_neg _
    simp only [alt_dir, hneg, simplex64_search alt (.inl rfl), simplex64_search (-alt) (.inr rfl)]
    show Out.ok ((fun j : Fin 4 => (dInt 1 * (dInt 2 - -dInt 2) + -dInt 2) * dHalf (alt j) + dInt 1), ()) = _
    rw [dInt_neg, dInt_sub (c := 4) (by ring) (by norm_num), dInt_mul (c := 4) (by ring) (by norm_num), dInt_add (c := 2) (by ring) (by norm_num)]
    congr 2
    funext j
    rw [dInt_mul_dHalf (c := alt j) rfl (by rw [alt_abs]; norm_num)]
    exact dInt_add (by ring) (by have := abs_le.1 (alt_abs j).le; rw [abs_lt]; omega)
  show (runLoop (SparseHitRun.step (m := 1) (n := 4) (dInt 2) (dInt 5) 5 zeroEigen altRng (fun _ _ => dInt 1) 4)
    Prod.fst 1 0 1 (fun _ => dInt 1, ())).map Prod.fst = _
  unfold runLoop
  have h1 : toInt (1 - 0) = .ok 1 := by decide
  rw [h1]
  show Out.map Prod.fst (loopFrom _ _ 0 1 1 1 _ [fun _ => 0]) = _
  unfold loopFrom
  rw [hstep]
  rfl

/-- The draws of the example are fine; the direction is exactly in the kernel. -/
theorem simplex64_draws (g : senv64.r.G) : senv64.r.KernelDrawsOk zeroEigen simplex64.A.val (fun _ _ => 1) Ieee.ext (2 ^ (-53 : ℤ)) (2 ^ (-1075 : ℤ))
    (2 ^ (1023 : ℤ)) 0 g := by
  have hs : ∑ j : Fin 4, ((alt j : ℤ) : ℝ) ^ 2 = 4 := by
    have : ∑ j : Fin 4, (alt j) ^ 2 = 4 := by decide
    exact_mod_cast this
  refine ⟨⟨fun j : Fin 4 => ((alt j : ℤ) : ℝ), fun j => ?_, ?_, ?_, ?_, fun i => ?_⟩, 1, by show Ieee.ext (dInt 1) = _; simpa using dInt_ext 1, by norm_num, le_rfl⟩
  · have : kernelProject zeroEigen simplex64.A.val (senv64.r.gaussian simplex64.A.c g).1 j = dInt (alt j) := by
      show kernelProject zeroEigen (m := 1) (n := 4) (fun _ _ => dInt 1) (altRng.gaussian 4 ()).1 j = _
      rw [alt_gaussian, kernelProject_alt]
    rw [this]
    exact dInt_ext _
  · show (0 : ℝ) < ∑ j : Fin 4, ((alt j : ℤ) : ℝ) ^ 2
    rw [hs]; norm_num
  · show ((4 : ℕ) : ℝ) * 2 ^ (-1075 : ℤ) ≤ 2 ^ (-53 : ℤ) * ∑ j : Fin 4, ((alt j : ℤ) : ℝ) ^ 2
    rw [hs, mul_comm]
    refine mul_le_mul (zpow_le_zpow_right₀ (by norm_num) (by norm_num)) (by norm_num) (by norm_num) (by positivity)
  · show 2 * ∑ j : Fin 4, ((alt j : ℤ) : ℝ) ^ 2 ≤ 2 ^ (1023 : ℤ)
    rw [hs]
    calc (2 : ℝ) * 4 = 2 ^ (3 : ℤ) := by norm_num
      _ ≤ _ := zpow_le_zpow_right₀ (by norm_num) (by norm_num)
  · show |∑ j : Fin 4, (1 : ℝ) * ((alt j : ℤ) : ℝ)| ≤ 0 * _
    have : ∑ j : Fin 4, (alt j) = 0 := by decide
    have h : ∑ j : Fin 4, ((alt j : ℤ) : ℝ) = 0 := by exact_mod_cast this
    simp only [one_mul, h, abs_zero, zero_mul, le_refl]

/-- `C88_binary64` on the run of `simplex64`: the row it returns is finite, within 16, its coordinates are nonnegative up to rounding and
sum to 4 up to rounding. -/
example : ∀ x ∈ [fun j : Fin 4 => dInt (1 + alt j)], ∃ ξ : Fin 4 → ℝ, HasValues Ieee.ext x ξ ∧ (∀ j, |ξ j| ≤ 16) ∧
    (∀ j : Fin 4, ((4 : ℕ) : ℤ) ≤ j + 4 → -(320 * (((4 : ℕ) : ℝ) * (((4 : ℕ) : ℝ) + ((5 : ℕ) : ℝ)) * (2 ^ (-53 : ℤ) * 16))) ≤ ξ j) ∧
    ∀ _ : Fin 1, |∑ j, 1 * ξ j - 4| ≤ |∑ _j : Fin 4, (1 : ℝ) * 1 - 4| + (((1 : ℤ).toNat : ℕ) : ℝ) * (6 * (((4 : ℕ) : ℝ) * 16) * 0 +
      24 * (((4 : ℕ) : ℝ) * (2 ^ (-53 : ℤ) * 16)) * ∑ _j : Fin 4, |(1 : ℝ)|) := by
  refine C88_binary64 (dInt 2) (dInt 5) zeroEigen senv64 simplex64 simplex64_dims simplex64_k simplex64_ints 16
    (by show 640 * (4 * (4 + 5 + 10)) ≤ 2 ^ 53; norm_num) ?_ ?_ ⟨2, by simpa using dInt_ext 2, ?_, by norm_num⟩ (fun _ _ => 1) (fun _ => 4) (fun _ => 1) ?_ le_rfl
    (ξ₀ := fun _ => 1) (fun j => by show Ieee.ext (dInt 1) = _; simpa using dInt_ext 1) (fun j => by norm_num) ?_ (fun t _ x g _ => simplex64_draws g) _ simplex64_run
  · calc (2 : ℝ) ^ (-484 : ℤ) ≤ 2 ^ (4 : ℤ) := zpow_le_zpow_right₀ (by norm_num) (by norm_num)
      _ = 16 := by norm_num
  · show ((4 : ℕ) : ℝ) * 16 ≤ 2 ^ (508 : ℤ)
    calc ((4 : ℕ) : ℝ) * 16 = 2 ^ (6 : ℤ) := by norm_num
      _ ≤ _ := zpow_le_zpow_right₀ (by norm_num) (by norm_num)
  · show 110 * (((4 : ℕ) : ℝ) * (2 ^ (-53 : ℤ) * 16)) ≤ 2
    norm_num
  · intro ζ hp hs j
    have h1 : ∀ j : Fin 4, 0 ≤ ζ j := fun j => hp j (by show ((4 : ℕ) : ℤ) ≤ (j : ℕ) + 4; omega)
    have h2 : |∑ j : Fin 4, 1 * ζ j - 4| ≤ 1 := hs (0 : Fin 1)
    have h3 : ∑ j : Fin 4, ζ j ≤ 5 := by
      simp only [one_mul] at h2
      linarith [(abs_le.1 h2).2]
    have h4 : ζ j ≤ ∑ j : Fin 4, ζ j := single_le_sum (f := ζ) (fun j _ => h1 j) (mem_univ (α := Fin 4) j)
    rw [abs_of_nonneg (h1 j)]
    linarith
  · intro i
    show |∑ _j : Fin 4, (1 : ℝ) * 1 - 4| + (((1 : ℤ).toNat : ℕ) : ℝ) * (6 * (((4 : ℕ) : ℝ) * 16) * 0 +
      24 * (((4 : ℕ) : ℝ) * (2 ^ (-53 : ℤ) * 16)) * ∑ _j : Fin 4, |(1 : ℝ)|) + 6 * (((4 : ℕ) : ℝ) * 16) * 0 +
      60 * (((4 : ℕ) : ℝ) * (((4 : ℕ) : ℝ) + ((5 : ℕ) : ℝ)) * (2 ^ (-53 : ℤ) * 16)) * (∑ _j : Fin 4, |(1 : ℝ)|) ≤ 1
    norm_num [Fin.sum_univ_four]

end PW

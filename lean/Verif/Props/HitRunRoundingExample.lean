import Verif.Props.HitRunFinite
import Verif.Lemmas.IeeeOrder

/-!
# C85: a concrete case in binary64
-/

namespace PW
open Finset

/-- The double with integer value `z` (exact for `|z| < 2⁵³`). -/
noncomputable def dInt (z : ℤ) : Binary64 := .num z ⟨z * 2 ^ 1074, by
  push_cast
  rw [mul_assoc, ← zpow_natCast, ← zpow_add₀ (by norm_num)]
  norm_num⟩

theorem num_congr {x y : ℝ} (h : x = y) (hx : OnGrid (-1074) x) (hy : OnGrid (-1074) y) : (Ieee.num x hx : Binary64) = .num y hy := by
  subst h; rfl

theorem round_dInt {x : ℝ} {z : ℤ} (h : x = z) (hz : |z| < 2 ^ 53) : (Ieee.round x : Binary64) = dInt z := by
  have h1 : rnd 53 (-1074) x = z := by
    have := Ieee.rnd_fits (p := 53) (emin := -1074) (k := 0) hz (by norm_num)
    rw [h]
    simpa using this
  unfold Ieee.round
  rw [if_pos]
  · exact num_congr h1 _ _
  · rw [h1]
    have h2 : |(z : ℝ)| < 2 ^ (53 : ℤ) := by exact_mod_cast hz
    exact h2.trans (zpow_lt_zpow_right₀ (by norm_num) (by norm_num))

theorem dInt_add {a b c : ℤ} (h : a + b = c) (hc : |c| < 2 ^ 53) : dInt a + dInt b = dInt c :=
  round_dInt (by rw [← h]; push_cast; rfl) hc

theorem dInt_sub {a b c : ℤ} (h : a - b = c) (hc : |c| < 2 ^ 53) : dInt a - dInt b = dInt c :=
  round_dInt (x := (a : ℝ) + -(b : ℝ)) (by rw [← h]; push_cast; ring) hc

theorem dInt_mul {a b c : ℤ} (h : a * b = c) (hc : |c| < 2 ^ 53) : dInt a * dInt b = dInt c :=
  round_dInt (by rw [← h]; push_cast; rfl) hc

theorem dInt_div {a b c : ℤ} (h : c * b = a) (hb : b ≠ 0) (hc : |c| < 2 ^ 53) : dInt a / dInt b = dInt c := by
  have hb' : (b : ℝ) ≠ 0 := by exact_mod_cast hb
  show (if (b : ℝ) = 0 then (if (a : ℝ) = 0 then Ieee.nan else Ieee.inf ((a : ℝ) < 0)) else Ieee.round ((a : ℝ) / b) : Binary64) = _
  rw [if_neg hb']
  refine round_dInt ?_ hc
  rw [div_eq_iff hb', ← h]
  push_cast
  ring

theorem dInt_sqrt {a c : ℤ} (h : c * c = a) (h0 : 0 ≤ c) (hc : |c| < 2 ^ 53) : Scalar.sqrt (dInt a) = dInt c := by
  have ha : (0 : ℝ) ≤ a := by rw [← h]; push_cast; exact mul_self_nonneg _
  show (if (0 : ℝ) ≤ a then Ieee.round (Real.sqrt a) else Ieee.nan : Binary64) = _
  rw [if_pos ha]
  refine round_dInt ?_ hc
  rw [← h]
  push_cast
  exact Real.sqrt_mul_self (by exact_mod_cast h0)

theorem dInt_ofInt {z : ℤ} (hz : |z| < 2 ^ 53) : (Scalar.ofInt z : Binary64) = dInt z := round_dInt rfl hz

theorem dInt_zero : (0 : Binary64) = dInt 0 := num_congr (by simp) _ _

theorem dInt_ext (z : ℤ) : Ieee.ext (dInt z) = some ((z : ℝ) : EReal) := rfl

theorem dInt_le (a b : ℤ) : Scalar.le (dInt a) (dInt b) = decide (a ≤ b) := by
  rw [Bool.eq_iff_iff, Ieee.binary64.le_iff, decide_eq_true_iff]
  constructor
  · rintro ⟨x, y, hx, hy, hxy⟩
    cases hx; cases hy
    have : (a : ℝ) ≤ b := by exact_mod_cast hxy
    exact_mod_cast this
  · intro h
    exact ⟨_, _, rfl, rfl, by exact_mod_cast h⟩

theorem dInt_lt (a b : ℤ) : Scalar.lt (dInt a) (dInt b) = decide (a < b) := by
  rw [Bool.eq_iff_iff, Ieee.binary64.lt_iff, decide_eq_true_iff]
  constructor
  · rintro ⟨x, y, hx, hy, hxy⟩
    cases hx; cases hy
    have : (a : ℝ) < b := by exact_mod_cast hxy
    exact_mod_cast this
  · intro h
    exact ⟨_, _, rfl, rfl, by exact_mod_cast h⟩

/-- A generator in binary64 whose draws are all 1. -/
noncomputable def oneRng : Rng Binary64 := ⟨Unit, Unit, fun _ => (), (), fun _ _ => (dInt 1, (), ()), fun _ => (dInt 1, ())⟩

/-- The interval `[-1, 1]`, from 0, for one iteration. -/
noncomputable def segment64 : Args Binary64 :=
  ⟨1, ⟨1, fun _ => dInt 0⟩, ⟨2, 1, fun i _ => if i = 0 then dInt 1 else dInt (-1)⟩, ⟨2, fun _ => dInt 1⟩, 1, 0, 1, 3⟩

noncomputable def env64 : Env Binary64 := ⟨oneRng, 0, fun _ _ => dInt 0, 5⟩

theorem segment64_dims : segment64.DimsOk := ⟨rfl, rfl⟩

theorem segment64_ints : SaneInts segment64.niter segment64.burnin segment64.thin := by constructor <;> simp [segment64, intMax]

theorem vsum_fin1 (v : Fin 1 → Binary64) : vsum v = 0 + v 0 := rfl

theorem segment64_inside (z : ℤ) (hz : |z| < 2 ^ 52) :
    inPolytope (m := 2) (n := 1) (fun _ => dInt z) (fun i _ => if i = 0 then dInt 1 else dInt (-1)) (fun _ => dInt 1) = .ok (decide (|z| ≤ 1)) := by
  have hz' := abs_lt.1 hz
  have e1 : dInt 1 * dInt z = dInt z := dInt_mul (by ring) (by omega)
  have e2 : dInt (-1) * dInt z = dInt (-z) := dInt_mul (by ring) (by rw [abs_neg]; omega)
  have e3 : dInt 0 + dInt z = dInt z := dInt_add (by ring) (by omega)
  have e4 : dInt 0 + dInt (-z) = dInt (-z) := dInt_add (by ring) (by rw [abs_neg]; omega)
  have e5 : dInt z - dInt 1 = dInt (z - 1) := dInt_sub rfl (by rw [abs_lt]; omega)
  have e6 : dInt (-z) - dInt 1 = dInt (-z - 1) := dInt_sub rfl (by rw [abs_lt]; omega)
  have hv : ∀ i : Fin 2, mulVec (m := 2) (n := 1) (fun i _ => if i = 0 then dInt 1 else dInt (-1)) (fun _ => dInt z) i - dInt 1 =
      dInt (if i = 0 then z - 1 else -z - 1) := by
    intro i
    unfold mulVec
    rw [vsum_fin1, dInt_zero]
    fin_cases i
    · show dInt 0 + dInt 1 * dInt z - dInt 1 = dInt (z - 1)
      rw [e1, e3, e5]
    · show dInt 0 + dInt (-1) * dInt z - dInt 1 = dInt (-z - 1)
      rw [e2, e4, e6]
  unfold inPolytope
  simp only [hv]
  show Out.ok (Scalar.le (if Scalar.lt (dInt (z - 1)) (dInt (-z - 1)) then dInt (-z - 1) else dInt (z - 1)) 0) = _
  rw [dInt_zero, dInt_lt]
  split_ifs with h
  · rw [dInt_le]
    rw [decide_eq_true_iff] at h
    congr 2
    rw [abs_of_neg (by omega)]
    exact propext (by omega)
  · rw [dInt_le]
    rw [decide_eq_true_iff] at h
    congr 2
    rw [abs_of_nonneg (by omega)]
    exact propext (by omega)

theorem distance_dInt {a b : ℤ} (h : |a - b| < 2 ^ 20) : distance (n := 1) (fun _ => dInt a) (fun _ => dInt b) = dInt |a - b| := by
  have h' := abs_lt.1 h
  unfold distance norm2
  rw [vsum_fin1, dInt_zero]
  show Scalar.sqrt (dInt 0 + (dInt a - dInt b) * (dInt a - dInt b)) = _
  have hs : (a - b) * (a - b) < 2 ^ 53 := by nlinarith
  have hs0 : 0 ≤ (a - b) * (a - b) := mul_self_nonneg _
  rw [dInt_sub (c := a - b) rfl (by omega), dInt_mul (c := (a - b) * (a - b)) rfl (by rw [abs_of_nonneg hs0]; exact hs),
    dInt_add (c := (a - b) * (a - b)) (by ring) (by rw [abs_of_nonneg hs0]; exact hs)]
  exact dInt_sqrt (abs_mul_abs_self _) (abs_nonneg _) (by rw [abs_abs]; omega)

/-- A chord search of the example: from 0 in direction `σ = ±1` it finds 1. -/
theorem segment64_search {σ : ℤ} (hσ : σ = 1 ∨ σ = -1) :
    HitRun.binarySearch (m := 2) (n := 1) (dInt 1) (dInt 2) 5 (fun i _ => if i = 0 then dInt 1 else dInt (-1)) (fun _ => dInt 1) (fun _ => dInt σ)
      (fun _ => dInt 0) = .ok (dInt 1) := by
  have hin := segment64_inside
  have hab : |σ| = 1 := by rcases hσ with rfl | rfl <;> rfl
  have hσ2 : |2 * σ| = 2 := by rw [abs_mul, hab]; rfl
  have e1 : dInt 1 * dInt σ = dInt σ := dInt_mul (by ring) (by rw [hab]; norm_num)
  have e2 : dInt 0 + dInt σ = dInt σ := dInt_add (by ring) (by rw [hab]; norm_num)
  have e3 : (two : Binary64) = dInt 2 := dInt_ofInt (by norm_num)
  have e4 : dInt 2 * dInt 1 = dInt 2 := dInt_mul (by ring) (by norm_num)
  have e5 : dInt 2 * dInt σ = dInt (2 * σ) := dInt_mul rfl (by rw [hσ2]; norm_num)
  have e6 : dInt 0 + dInt (2 * σ) = dInt (2 * σ) := dInt_add (by ring) (by rw [hσ2]; norm_num)
  have e7 : dInt (2 * σ) / dInt 2 = dInt σ := dInt_div (by ring) (by norm_num) (by rw [hab]; norm_num)
  have d1 : distance (n := 1) (fun _ => dInt 0) (fun _ => dInt σ) = dInt 1 := by
    rw [distance_dInt (by rw [zero_sub, abs_neg, hab]; norm_num), zero_sub, abs_neg, hab]
  have d2 : distance (n := 1) (fun _ => dInt 0) (fun _ => dInt (2 * σ)) = dInt 2 := by
    rw [distance_dInt (by rw [zero_sub, abs_neg, hσ2]; norm_num), zero_sub, abs_neg, hσ2]
  have d3 : distance (n := 1) (fun _ => dInt σ) (fun _ => dInt 0) = dInt 1 := by
    rw [distance_dInt (by rw [sub_zero, hab]; norm_num), sub_zero, hab]
  have h2 := hin (2 * σ) (by rw [hσ2]; norm_num)
  have h1 := hin σ (by rw [hab]; norm_num)
  rw [hσ2] at h2
  rw [hab] at h1
  unfold HitRun.binarySearch
  simp only [e1, e2]
  unfold HitRun.expand
  simp only [d1, e3, e4, e5, e6, h2]
  show Out.bind (HitRun.bisect (inPolytope · (fun i _ => if i = 0 then dInt 1 else dInt (-1)) (fun _ => dInt 1)) (dInt 2) 5 (fun _ => dInt 0)
    (fun _ => dInt (2 * σ)) fun _ => (dInt 0 + dInt (2 * σ)) / dInt 2) _ = _
  unfold HitRun.bisect
  simp only [e6, e7, d2, dInt_lt]
  rw [if_neg (by simp), h1]
  show Out.ok (distance (n := 1) (fun _ => dInt σ) (fun _ => dInt 0)) = _
  rw [d3]

theorem env64_dir : (fun i : Fin 1 => (env64.r.gaussianNorm 1 ()).1 i) = fun _ => dInt 1 := by
  funext i
  show dInt 1 / norm2 (fun _ : Fin 1 => dInt 1) = dInt 1
  unfold norm2
  rw [vsum_fin1, dInt_zero, dInt_mul (c := 1) rfl (by norm_num), dInt_add (c := 1) rfl (by norm_num), dInt_sqrt (a := 1) (c := 1) rfl (by norm_num) (by norm_num)]
  exact dInt_div rfl (by norm_num) (by norm_num)

/-- The run returns the end of the chord. -/
theorem segment64_run : (Walk.hitRun (dInt 1) (dInt 2)).run env64 segment64 = .ok [fun _ => dInt 1] := by
  have hstep : HitRun.step (m := 2) (n := 1) (dInt 1) (dInt 2) 5 oneRng (fun i _ => if i = 0 then dInt 1 else dInt (-1)) (fun _ => dInt 1)
      (fun _ => dInt 0, ()) = .ok (fun _ => dInt 1, ()) := by
    unfold HitRun.step
    have hd : (oneRng.gaussianNorm 1 ()).1 = fun _ => dInt 1 := env64_dir
    have e1 : dInt 1 * Scalar.ofInt (-1) = dInt (-1) := by
      rw [dInt_ofInt (by norm_num)]
      exact dInt_mul (by ring) (by norm_num)
    simp only [hd, e1, segment64_search (.inl rfl), segment64_search (.inr rfl)]
    have e2 : dInt 1 - dInt (-1) = dInt 2 := dInt_sub rfl (by norm_num)
    have e3 : dInt 1 * dInt 2 = dInt 2 := dInt_mul rfl (by norm_num)
    have e4 : dInt 2 + dInt (-1) = dInt 1 := dInt_add rfl (by norm_num)
    have e5 : dInt 1 * dInt 1 = dInt 1 := dInt_mul rfl (by norm_num)
    have e6 : dInt 1 + dInt 0 = dInt 1 := dInt_add rfl (by norm_num)
    show Out.ok ((fun i : Fin 1 => (dInt 1 * (dInt 1 - dInt 1 * Scalar.ofInt (-1)) + dInt 1 * Scalar.ofInt (-1)) * dInt 1 + dInt 0), ()) = _
    rw [e1, e2, e3, e4, e5, e6]
    rfl
  show (runLoop (HitRun.step (m := 2) (n := 1) (dInt 1) (dInt 2) 5 oneRng (fun i _ => if i = 0 then dInt 1 else dInt (-1)) (fun _ => dInt 1))
    Prod.fst 1 0 1 (fun _ => dInt 0, ())).map Prod.fst = _
  unfold runLoop
  have h1 : toInt (1 - 0) = .ok 1 := by decide
  rw [h1]
  show Out.map Prod.fst (loopFrom _ _ 0 1 1 1 _ [fun _ => 0]) = _
  unfold loopFrom
  rw [hstep]
  rfl

/-- A value above 2 does not pass the row `σ z ≤ 1`. -/
theorem segment64_row {σ : ℤ} (hσ : σ = 1 ∨ σ = -1) {z : Binary64} {ζ : ℝ} (hz : Ieee.ext z = some (ζ : EReal)) (h2 : 2 < σ * ζ) :
    ∃ y, Ieee.ext (0 + dInt σ * z - dInt 1) = some y ∧ 0 < y := by
  have hz' : ∃ h, z = Ieee.num ζ h := by
    cases z with
    | nan => cases hz
    | inf s =>
      simp only [Ieee.ext, Option.some.injEq] at hz
      split_ifs at hz
      · exact absurd hz.symm (EReal.coe_ne_bot ζ)
      · exact absurd hz.symm (EReal.coe_ne_top ζ)
    | num x hx =>
      simp only [Ieee.ext, Option.some.injEq, EReal.coe_eq_coe_iff] at hz
      subst hz
      exact ⟨hx, rfl⟩
  obtain ⟨hx, rfl⟩ := hz'
  have r2 : rnd 53 (-1074) 2 = 2 := by
    have := Ieee.rnd_fits (p := 53) (emin := -1074) (z := 2) (k := 0) (by norm_num) (by norm_num)
    simpa using this
  have r1 : rnd 53 (-1074) 1 = 1 := by
    have := Ieee.rnd_fits (p := 53) (emin := -1074) (z := 1) (k := 0) (by norm_num) (by norm_num)
    simpa using this
  have m : Ieee.AtLeast (dInt σ * Ieee.num ζ hx : Binary64) 2 := by
    have := Ieee.AtLeast.round (p := 53) (emin := -1074) (emax := 1023) (by norm_num) (c := 2) (by norm_num) h2.le
    rw [r2] at this
    exact this
  have a := Ieee.AtLeast.add (by norm_num) (a := dInt 0) (c := 0) (.num (by simp)) m (by norm_num)
  rw [zero_add, r2] at a
  have s : Ieee.AtLeast (dInt 0 + dInt σ * Ieee.num ζ hx - dInt 1) (rnd 53 (-1074) (2 - ((1 : ℤ) : ℝ))) := by
    unfold dInt at a ⊢
    exact Ieee.AtLeast.sub_num (by norm_num) a (by norm_num)
  have e : (2 : ℝ) - ((1 : ℤ) : ℝ) = 1 := by norm_num
  rw [e, r1] at s
  have hr : ∀ x : ℝ, ∃ y, Ieee.ext (Ieee.round x : Binary64) = some y := by
    intro x
    unfold Ieee.round
    split_ifs <;> exact ⟨_, rfl⟩
  have ha : ∀ b : Binary64, (∃ y, Ieee.ext b = some y) → ∀ w, ∃ y, Ieee.ext (dInt w + b) = some y := by
    intro b hb w
    cases b with
    | nan => obtain ⟨y, hy⟩ := hb; cases hy
    | inf t => exact ⟨_, rfl⟩
    | num v hv => exact hr _
  have hs : ∀ b : Binary64, (∃ y, Ieee.ext b = some y) → ∀ w, ∃ y, Ieee.ext (b - dInt w) = some y := by
    intro b hb w
    cases b with
    | nan => obtain ⟨y, hy⟩ := hb; cases hy
    | inf t => exact ⟨_, rfl⟩
    | num v hv => exact hr _
  obtain ⟨y, hy⟩ := hs _ (ha _ (hr ((σ : ℝ) * ζ)) 0) 1
  rw [dInt_zero]
  exact ⟨y, hy, lt_of_lt_of_le (by norm_num) (s _ hy)⟩

theorem segment64_within (z : Fin 1 → Binary64) (ζ : Fin 1 → ℝ)
    (h : Spec.PassesDense (m := 2) (n := 1) (fun i _ => if i = 0 then dInt 1 else dInt (-1)) (fun _ => dInt 1) z) (hz : HasValues Ieee.ext z ζ) :
    |ζ 0| ≤ 2 := by
  obtain ⟨c, hl, hc⟩ := h
  obtain ⟨_, hall⟩ := largest_le_zero Ieee.binary64 hl hc
  have key : ∀ i : Fin 2, ∀ σ : ℤ, (σ = 1 ∨ σ = -1) → (if i = 0 then dInt 1 else dInt (-1)) = dInt σ → ¬ 2 < σ * ζ 0 := by
    intro i σ hσ hi h2
    have hm := hall (Spec.dot (fun _ : Fin 1 => if i = 0 then dInt 1 else dInt (-1)) z - dInt 1) (by rw [List.mem_ofFn]; exact ⟨i, rfl⟩)
    rw [hi] at hm
    obtain ⟨y, hy, hpos⟩ := segment64_row hσ (hz 0) h2
    exact absurd (hm y hy) (not_le.2 hpos)
  rw [abs_le]
  constructor
  · have := key 1 (-1) (.inr rfl) (if_neg (by decide))
    push_cast at this
    linarith
  · have := key 0 1 (.inl rfl) (if_pos rfl)
    push_cast at this
    linarith

/-- The draws of the example are fine. -/
theorem segment64_draws (g : env64.r.G) : env64.r.DrawsOk Ieee.ext (2 ^ (-53 : ℤ)) (2 ^ (-1075 : ℤ)) (2 ^ (1023 : ℤ)) segment64.A.c g := by
  have h1 : Ieee.ext (dInt 1) = some ((1 : ℝ) : EReal) := by simpa using dInt_ext 1
  refine ⟨⟨fun _ => 1, fun j => h1, ?_, ?_, ?_⟩, 1, h1, by norm_num, le_rfl⟩
  · show (0 : ℝ) < ∑ _j : Fin 1, 1 ^ 2
    simp
  · show ((1 : ℕ) : ℝ) * 2 ^ (-1075 : ℤ) ≤ 2 ^ (-53 : ℤ) * ∑ _j : Fin 1, (1 : ℝ) ^ 2
    simp only [Nat.cast_one, one_mul, one_pow, sum_const, card_univ, Fintype.card_fin, one_smul, mul_one]
    exact zpow_le_zpow_right₀ (by norm_num) (by norm_num)
  · show 2 * ∑ _j : Fin 1, (1 : ℝ) ^ 2 ≤ 2 ^ (1023 : ℤ)
    simp only [one_pow, sum_const, card_univ, Fintype.card_fin, one_smul, mul_one]
    calc (2 : ℝ) = 2 ^ (1 : ℤ) := by norm_num
      _ ≤ _ := zpow_le_zpow_right₀ (by norm_num) (by norm_num)

/-- `C85_binary64` on the run of `segment64`: the row it returns is within `4`, and satisfies both inequalities up to rounding. -/
example : ∀ x ∈ [fun _ : Fin 1 => dInt 1], ∀ ξ, HasValues Ieee.ext x ξ → (∀ j, |ξ j| ≤ 4) ∧
    ∀ (i : Fin 2) (α : Fin 1 → ℝ) (β : ℝ), HasValues Ieee.ext (segment64.A.val i) α → Ieee.ext (segment64.rhs segment64_dims i) = some (β : EReal) →
      2 * ((∑ j, |α j|) * 4 + ((1 : ℕ) : ℝ) * 2 ^ (-1075 : ℤ)) + |β| ≤ 2 ^ (1023 : ℤ) →
      ∑ j, α j * ξ j ≤ β + 330 * (((1 : ℕ) : ℝ) * (((1 : ℕ) : ℝ) + ((5 : ℕ) : ℝ)) * (2 ^ (-53 : ℤ) * 4)) * (∑ j, |α j|) +
        2 * (((1 : ℕ) : ℝ) * 2 ^ (-1075 : ℤ)) := by
  refine C85_binary64 (dInt 1) (dInt 2) env64 segment64 segment64_dims segment64_ints 4 le_rfl (by show 640 * (1 * (1 + 5 + 10)) ≤ 2 ^ 53; norm_num) ?_
    ⟨1, by simpa using dInt_ext 1, by norm_num⟩ ?_ ?_ ?_ _ segment64_run
  · calc (2 : ℝ) ^ (-484 : ℤ) ≤ 2 ^ (2 : ℤ) := zpow_le_zpow_right₀ (by norm_num) (by norm_num)
      _ = 4 := by norm_num
  · intro ξ hξ j
    have h := hξ j
    have h0 : ξ j = 0 := by
      have h : Ieee.ext (dInt 0) = some (ξ j : EReal) := h
      rw [dInt_ext] at h
      simp only [Option.some.injEq, EReal.coe_eq_coe_iff] at h
      rw [← h]; simp
    rw [h0]; norm_num
  · intro z ζ hz hζ j
    have := segment64_within z ζ hz hζ
    have hj : j = (0 : Fin 1) := Subsingleton.elim (α := Fin 1) j 0
    rw [hj]
    exact this.trans (by norm_num)
  · exact fun t _ x g _ => segment64_draws g

/-- `C87_binary64` on the run of `segment64`: the row is finite as well. -/
example : ∀ x ∈ [fun _ : Fin 1 => dInt 1], ∃ ξ, HasValues Ieee.ext x ξ ∧ ∀ j, |ξ j| ≤ 4 := fun x hx => by
  obtain ⟨ξ, h1, h2, -⟩ := C87_binary64 (dInt 1) (dInt 2) env64 segment64 segment64_dims segment64_ints 4 le_rfl
    (by show 640 * (1 * (1 + 5 + 10)) ≤ 2 ^ 53; norm_num) (by
      calc (2 : ℝ) ^ (-484 : ℤ) ≤ 2 ^ (2 : ℤ) := zpow_le_zpow_right₀ (by norm_num) (by norm_num)
        _ = 4 := by norm_num) (by
      show ((1 : ℕ) : ℝ) * 4 ≤ 2 ^ (508 : ℤ)
      calc ((1 : ℕ) : ℝ) * 4 = 2 ^ (2 : ℤ) := by norm_num
        _ ≤ _ := zpow_le_zpow_right₀ (by norm_num) (by norm_num))
    ⟨1, by simpa using dInt_ext 1, by norm_num⟩ ⟨fun _ => 0, fun j => by show Ieee.ext (dInt 0) = _; simpa using dInt_ext 0, fun j => by norm_num⟩
    (fun z ζ hz hζ j => by
      have hj : j = (0 : Fin 1) := Subsingleton.elim (α := Fin 1) j 0
      rw [hj]
      exact (segment64_within z ζ hz hζ).trans (by norm_num)) (fun t _ x g _ => segment64_draws g) _ segment64_run x hx
  exact ⟨ξ, h1, h2⟩

end PW

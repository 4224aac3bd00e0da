import Verif.Props.HitRunHang
import Verif.Props.HitRunRoundingExample

/-!
# C86: concrete cases
-/

namespace PW
open Classical

/-- Not NaN, and at most `c`. -/
def Ieee.AtMost (a : Binary64) (c : ℝ) : Prop := ∃ y, Ieee.ext a = some y ∧ y ≤ (c : EReal)

theorem Ieee.AtMost.round {x c : ℝ} (h : x ≤ c) (h0 : 0 ≤ c) (hfit : rnd 53 (-1074) c = c) (hc : c < 2 ^ (1024 : ℤ)) :
    Ieee.AtMost (Ieee.round x) c := by
  have h1 : rnd 53 (-1074) x ≤ c := by
    rcases le_or_gt 0 x with hx | hx
    · rw [← hfit]; exact Ieee.rnd_mono (by norm_num) hx h
    · exact (Ieee.rnd_nonpos hx.le).trans h0
  unfold Ieee.round
  split_ifs with hlt
  · exact ⟨_, rfl, by exact_mod_cast h1⟩
  · refine ⟨_, rfl, ?_⟩
    rw [if_pos]
    · exact bot_le
    by_contra hx
    push Not at hx
    have h2 := Ieee.rnd_nonneg 53 (-1074) hx
    rw [abs_of_nonneg h2] at hlt
    exact hlt (lt_of_le_of_lt h1 (by norm_num at hc ⊢; exact hc))

theorem Ieee.AtMost.zero_add {a : Binary64} {c : ℝ} (ha : Ieee.AtMost a c) (h0 : 0 ≤ c) (hfit : rnd 53 (-1074) c = c) (hc : c < 2 ^ (1024 : ℤ)) :
    Ieee.AtMost (0 + a) c := by
  obtain ⟨y, hy, hyc⟩ := ha
  cases a with
  | nan => cases hy
  | inf s => exact ⟨y, hy, hyc⟩
  | num x hx =>
    cases hy
    have : x ≤ c := by exact_mod_cast hyc
    exact .round (by linarith) h0 hfit hc

theorem Ieee.AtMost.sub {a b : Binary64} {c : ℝ} (ha : Ieee.AtMost a c) (hb : Ieee.ext b = some (c : EReal)) : Ieee.AtMost (a - b) 0 := by
  obtain ⟨y, hy, hyc⟩ := ha
  obtain ⟨hg, rfl⟩ := Ieee.ext_eq hb
  cases a with
  | nan => cases hy
  | inf s =>
    by_cases hs : s
    · refine ⟨⊥, ?_, bot_le⟩
      show some (if s then (⊥ : EReal) else ⊤) = _
      rw [if_pos hs]
    · simp only [Ieee.ext, if_neg hs, Option.some.injEq] at hy
      rw [← hy] at hyc
      exact absurd (top_le_iff.1 hyc) (EReal.coe_ne_top c)
  | num x hx =>
    cases hy
    have : x ≤ c := by exact_mod_cast hyc
    exact .round (x := x + -c) (by linarith) le_rfl (rnd_zero _ _) (by positivity)

/-- The interval `[-c, d]`. -/
noncomputable def intervalA : Matrix (Fin 2) (Fin 1) Binary64 := fun i _ => if i = 0 then dInt 1 else dInt (-1)

theorem interval_passes {b : Fin 2 → Binary64} {c d : ℝ} (hd : Ieee.ext (b 0) = some (d : EReal)) (hc : Ieee.ext (b 1) = some (c : EReal))
    (hd0 : 0 ≤ d) (hc0 : 0 ≤ c) (fd : rnd 53 (-1074) d = d) (fc : rnd 53 (-1074) c = c) (ld : d < 2 ^ (1024 : ℤ)) (lc : c < 2 ^ (1024 : ℤ))
    (y : Fin 1 → Binary64) (v : ℝ) (hv : Ieee.ext (y 0) = some (v : EReal)) (h1 : -c ≤ v) (h2 : v ≤ d) : Spec.PassesDense intervalA b y := by
  obtain ⟨hg, e⟩ := Ieee.ext_eq hv
  refine largest_le_zero' Ieee.binary64 (by simp) fun w hw => ?_
  rw [List.mem_ofFn] at hw
  obtain ⟨i, rfl⟩ := hw
  have key : ∀ (σ : ℤ) (t : ℝ), intervalA i 0 = dInt σ → Ieee.ext (b i) = some (t : EReal) → 0 ≤ t → rnd 53 (-1074) t = t → t < 2 ^ (1024 : ℤ) → σ * v ≤ t →
      Ieee.AtMost (0 + intervalA i 0 * y 0 - b i) 0 := by
    intro σ t hσ hb h0 hf hl hle
    rw [hσ, e]
    exact (Ieee.AtMost.zero_add (.round hle h0 hf hl) h0 hf hl).sub hb
  have : Ieee.AtMost (0 + intervalA i 0 * y 0 - b i) 0 := by
    fin_cases i
    · exact key 1 d rfl hd hd0 fd ld (by push_cast; linarith)
    · exact key (-1) c rfl hc hc0 fc lc (by push_cast; linarith)
  exact this

/-- The double nearest to 0.3: its significand is odd. -/
noncomputable def d03 : Binary64 := .num (((5404319552844595 : ℤ) : ℝ) * 2 ^ (-54 : ℤ)) (by
  obtain ⟨N, hN⟩ := Ieee.two_zpow_sub (show (-1074 : ℤ) ≤ -54 by norm_num)
  exact ⟨5404319552844595 * N, by rw [hN]; push_cast; ring⟩)

theorem d03_nearest : (Ieee.round (3 / 10) : Binary64) = d03 := by
  have hlog : Int.log 2 ((3 : ℝ) / 10) = -2 := by
    refine le_antisymm ?_ (Ieee.le_log (by norm_num) (by norm_num))
    have := Ieee.log_lt (x := (3 : ℝ) / 10) (by norm_num) (k := -1) (by norm_num)
    omega
  have hu : ulpExp 53 (-1074) ((3 : ℝ) / 10) = -54 := by
    unfold ulpExp
    rw [abs_of_pos (by norm_num), hlog]
    norm_num
  have hx : (3 : ℝ) / 10 / 2 ^ (-54 : ℤ) = ((5404319552844595 : ℤ) : ℝ) + 1 / 5 := by norm_num
  have hfl : ⌊((5404319552844595 : ℤ) : ℝ) + 1 / 5⌋ = 5404319552844595 := by
    rw [Int.floor_intCast_add]
    norm_num
  have hr : rnd 53 (-1074) ((3 : ℝ) / 10) = ((5404319552844595 : ℤ) : ℝ) * 2 ^ (-54 : ℤ) := by
    unfold rnd
    rw [hu, hx]
    unfold rint
    rw [Int.fract, hfl, if_pos (by norm_num)]
  unfold Ieee.round
  rw [if_pos]
  · exact num_congr hr _ _
  · rw [hr, abs_of_nonneg (by positivity)]
    calc ((5404319552844595 : ℤ) : ℝ) * 2 ^ (-54 : ℤ) < 1 := by norm_num
      _ ≤ _ := one_le_zpow₀ (by norm_num) (by norm_num)

theorem dint_fits {z : ℤ} (hz : |z| < 2 ^ 53) : rnd 53 (-1074) (z : ℝ) = z := by
  have := Ieee.rnd_fits (p := 53) (emin := -1074) (k := 0) hz (by norm_num)
  simpa using this

/-- On `[0, 0.3]` from 0.3, Hit-and-Run hangs, for every radius, tolerance and random stream. -/
example (R ERR : Binary64) (e : Env Binary64) (seed : Int) :
    (Walk.hitRun R ERR).run e ⟨100, ⟨1, fun _ => d03⟩, ⟨2, 1, intervalA⟩, ⟨2, fun i => if i = 0 then d03 else dInt 0⟩, 0, 10, 2, seed⟩ = .timeout := by
  have hA : Ieee.ext (intervalA 0 0) = some ((1 : ℝ) : EReal) := by
    have h := dInt_ext 1
    rw [Int.cast_one] at h
    exact h
  refine C86_boundary (i := 0) (z := 5404319552844595) (k := -54) hA rfl (by norm_num) (by norm_num) (by norm_num) (by decide) d03 rfl ?_ R ERR e 100 0 10 2 seed
    (by constructor <;> simp [intMax]) (by norm_num) (by norm_num)
  have hf : rnd 53 (-1074) (((5404319552844595 : ℤ) : ℝ) * 2 ^ (-54 : ℤ)) = _ := Ieee.rnd_fits (by norm_num) (by norm_num)
  refine interval_passes (c := ((0 : ℤ) : ℝ)) rfl rfl (by positivity) (by simp) hf (dint_fits (by norm_num)) ?_ ?_ (fun _ => d03) _ rfl ?_ le_rfl
  · calc ((5404319552844595 : ℤ) : ℝ) * 2 ^ (-54 : ℤ) < 1 := by norm_num
      _ ≤ 2 ^ (1024 : ℤ) := one_le_zpow₀ (by norm_num) (by norm_num)
  · simp
  · norm_num

/-- On `[-10¹⁰, 10¹⁰]` from 0 with the default tolerance `1e-6`, Hit-and-Run hangs, for every radius and random stream. -/
example (R : Binary64) (e : Env Binary64) (seed : Int) :
    (Walk.hitRun R (Ieee.round (1 / 1000000))).run e ⟨100, ⟨1, fun _ => dInt 0⟩, ⟨2, 1, intervalA⟩, ⟨2, fun _ => dInt (10 ^ 10)⟩, 0, 10, 2, seed⟩ =
      .timeout := by
  have hA : Ieee.ext (intervalA 0 0) = some ((1 : ℝ) : EReal) := by
    have h := dInt_ext 1
    rw [Int.cast_one] at h
    exact h
  have e1 : ((5242880000000000 : ℤ) : ℝ) * 2 ^ (-19 : ℤ) = ((10 ^ 10 : ℤ) : ℝ) := by norm_num
  have hb : Ieee.ext (dInt (10 ^ 10)) = some ((((5242880000000000 : ℤ) : ℝ) * 2 ^ (-19 : ℤ) : ℝ) : EReal) := by rw [e1]; rfl
  have hf : rnd 53 (-1074) ((10 ^ 10 : ℤ) : ℝ) = ((10 ^ 10 : ℤ) : ℝ) := dint_fits (by norm_num)
  have hlt : ((10 ^ 10 : ℤ) : ℝ) < 2 ^ (1024 : ℤ) := by
    calc ((10 ^ 10 : ℤ) : ℝ) < 2 ^ (100 : ℤ) := by norm_num
      _ ≤ _ := zpow_le_zpow_right₀ (by norm_num) (by norm_num)
  have hr : rnd 53 (-1074) (1 / 1000000) ≤ 3 * 2 ^ (-21 : ℤ) := by
    have h1 := Ieee.rnd_mono (p := 53) (emin := -1074) (x := 1 / 1000000) (y := ((3 : ℤ) : ℝ) * 2 ^ (-21 : ℤ)) (by norm_num) (by norm_num) (by norm_num)
    rw [Ieee.rnd_fits (by norm_num) (by norm_num)] at h1
    simpa using h1
  have hE : Ieee.ext (Ieee.round (1 / 1000000) : Binary64) = some ((rnd 53 (-1074) (1 / 1000000) : ℝ) : EReal) := by
    unfold Ieee.round
    rw [if_pos]
    · rfl
    rw [abs_of_nonneg (Ieee.rnd_nonneg _ _ (by norm_num))]
    calc _ ≤ _ := hr
      _ < 1 := by norm_num
      _ ≤ _ := one_le_zpow₀ (by norm_num) (by norm_num)
  refine C86_resolution (i := 0) (z := 5242880000000000) (k := -19) hA hb (by norm_num) (by norm_num) (by norm_num) R _ hE ?_ (dInt 0)
    (w := 0) (j := 0) le_rfl (by norm_num) (by norm_num) (by simpa using dInt_ext 0) (by rw [e1]; norm_num) ?_ e 100 0 10 2 seed
    (by constructor <;> simp [intMax]) (by norm_num) (by norm_num)
  · exact lt_of_le_of_lt hr (by norm_num)
  · intro y v hv h1 h2
    rw [e1] at h2
    refine interval_passes (c := ((10 ^ 10 : ℤ) : ℝ)) rfl rfl (by norm_num) (by norm_num) hf hf hlt hlt y v hv ?_ h2
    have : (0 : ℝ) ≤ v := by simpa using h1
    have : (0 : ℝ) ≤ ((10 ^ 10 : ℤ) : ℝ) := by norm_num
    linarith

end PW

import Verif.Lemmas.ChordFinite
import Verif.Props.HitRunRounding

/-!
# C87: Hit-and-Run in floating point never overflows and never produces a NaN
-/

namespace PW
open Finset

section
variable {F : Type} [Scalar F] {ext : F → Option EReal} {u θ Ω B : ℝ} {n N : ℕ}

/-- A vector divided by its computed length is finite. -/
theorem normalize_vals (R : RoundingFull F ext u θ Ω) (hΩ : 2 ≤ Ω) (hS : FineFor u θ B n N) {w : Fin n → F} {v : Fin n → ℝ} (hv : HasValues ext w v)
    (hS0 : 0 < ∑ j, v j ^ 2) (hSθ : n * θ ≤ u * ∑ j, v j ^ 2) (hSΩ : 2 * ∑ j, v j ^ 2 ≤ Ω) :
    ∃ δ, HasValues ext (fun i => w i / norm2 w) δ ∧ len δ ≤ 1 + 2 * (n + 4) * u ∧ 97 / 100 ≤ len δ := by
  obtain ⟨⟨ν, hν, hν0, hν1, -⟩, h2⟩ := normalize_len R.toRoundingOps hS hv hS0 hSθ hSΩ
  have hd := fun j => R.div_fin _ _ _ _ (hv j) hν hν0.ne' (by
    rw [abs_div, abs_of_pos hν0, div_le_iff₀ hν0]
    have := coord_le_len v j
    nlinarith)
  choose δ hδ using hd
  exact ⟨δ, hδ, h2 δ hδ⟩

/-- One iteration of Hit-and-Run leads from a finite position to a finite position. -/
theorem hitRun_step_fin (R : RoundingFull F ext u θ Ω) (hΩ : Roomy Ω B n) (hS : FineFor u θ B n N) {Rr ERR : F} {ρ : ℝ} (hρ : ext Rr = some (ρ : EReal))
    (hρB : |ρ| ≤ B) (r : Rng F) {m : ℕ} (A : Matrix (Fin m) (Fin n) F) (b : Fin m → F) (s s' : (Fin n → F) × r.G)
    (hD : r.DrawsOk ext u θ Ω n s.2) {ξ : Fin n → ℝ} (hx : HasValues ext s.1 ξ) (hξ : ∀ j, |ξ j| ≤ B)
    (hin : ∀ z ζ, Spec.PassesDense A b z → HasValues ext z ζ → ∀ j, |ζ j| ≤ B) (h : HitRun.step Rr ERR N r A b s = .ok s') :
    ∃ ξ', HasValues ext s'.1 ξ' := by
  have hu := R.u_nonneg
  have hθ0 := R.θ_nonneg
  have hnu := hS.nu_le R.toRounding
  have M := hS.mags R.toRounding
  obtain ⟨q, hq⟩ : ∃ q, Real.sqrt n = q := ⟨_, rfl⟩
  obtain ⟨ε, hεd⟩ : ∃ ε, u * B = ε := ⟨_, rfl⟩
  rw [hq, hεd] at M
  obtain ⟨p, hp, h⟩ := Out.bind_eq_ok.1 h
  obtain ⟨ns, hns, h⟩ := Out.bind_eq_ok.1 h
  cases h
  obtain ⟨v, hv, hS0, hSθ, hSΩ⟩ := hD.gaussian
  obtain ⟨y, hy, hy0, hy1⟩ := hD.uniform
  obtain ⟨δ, hδ, hδl, -⟩ := normalize_vals R hΩ.two hS hv hS0 hSθ hSΩ
  have hdj : ∀ j, |δ j| ≤ 102 / 100 := fun j => (coord_le_len δ j).trans (hδl.trans (by linarith))
  have hδ : HasValues ext (r.gaussianNorm n s.2).1 δ := hδ
  have hm1 : ext (Scalar.ofInt (-1) : F) = some (((-1 : ℝ)) : EReal) := by
    have := R.ofInt (-1) (by norm_num)
    push_cast at this
    exact this
  have hneg := fun j => R.mul_fin _ (Scalar.ofInt (-1)) (δ j) (-1) (hδ j) hm1 (by
    rw [mul_neg_one, abs_neg]
    linarith [hdj j, hΩ.two])
  choose δ' hδ' using hneg
  have hδe : ∀ j, |δ' j + δ j| ≤ u * |δ j| + θ := fun j => by
    obtain ⟨a, b, ha, hb, hab⟩ := R.mul _ _ _ (hδ' j)
    cases ext_inj ha (hδ j)
    cases ext_inj hb hm1
    rw [mul_neg_one, abs_neg, sub_neg_eq_add] at hab
    exact hab
  have hδl' := neg_dir_len R.toRounding hS hδl hδe
  have hdj' : ∀ j, |δ' j| ≤ 103 / 100 := fun j => (coord_le_len δ' j).trans (hδl'.trans (by linarith))
  have hdj : ∀ j, |δ j| ≤ 103 / 100 := fun j => (hdj j).trans (by norm_num)
  have hCW : ∀ δ, ChordWithin ext θ B q ε ξ δ (inPolytope · A b) := fun _ z ζ hz hζ _ => hin z ζ ((inPolytope_iff_passes _ _ _).1 hz) hζ
  have hnu0 : 0 ≤ (n + 4) * u := by positivity
  obtain ⟨f, hf, hp⟩ := Out.bind_eq_ok.1 hp
  obtain ⟨γ, hγ, hγB, -⟩ := init_vals R hΩ hS M hρ hρB hx hξ hδ hdj
  obtain ⟨φ, σ, hφ, a1, a2, a3⟩ := expand_vals R hΩ hS hq M hx hξ hδ hdj _ (hCW δ) N _ f γ hγ hγB hf
  obtain ⟨P, -, -, -, hP, -, -, -, -, -, hP0, -, hPB⟩ := search_vals R hΩ hS hq M hx hξ (hδl.trans (by linarith)) hdj _ hφ a1 a2 a3 hp
  obtain ⟨f', hf', hns⟩ := Out.bind_eq_ok.1 hns
  obtain ⟨γ', hγ', hγB', -⟩ := init_vals R hΩ hS M hρ hρB hx hξ (dir := fun i => (r.gaussianNorm n s.2).1 i * Scalar.ofInt (-1)) hδ' hdj'
  obtain ⟨φ', σ', hφ', b1, b2, b3⟩ := expand_vals R hΩ hS hq M hx hξ (dir := fun i => (r.gaussianNorm n s.2).1 i * Scalar.ofInt (-1)) hδ' hdj' _ (hCW δ') N
    _ f' γ' hγ' hγB' hf'
  obtain ⟨Q, -, -, -, hQ, -, -, -, -, -, hQ0, -, hQB⟩ := search_vals R hΩ hS hq M hx hξ hδl' hdj' _ hφ' b1 b2 b3 hns
  have hnB0 : 0 ≤ n * B := mul_nonneg (by positivity) hS.pos.le
  obtain ⟨g, hg⟩ := R.mul_fin _ _ _ _ hQ hm1 (by
    rw [mul_neg_one, abs_neg, abs_of_nonneg hQ0]
    linarith [hΩ.lin])
  have hge : |g - Q * (-1)| ≤ u * |Q * (-1)| + θ := by
    obtain ⟨a, b, ha, hb, hab⟩ := R.mul _ _ _ hg
    cases ext_inj ha hQ
    cases ext_inj hb hm1
    exact hab
  obtain ⟨T, ξ', -, hξ', -⟩ := move_vals R hΩ hS M hx hξ hδ hdj hP hg hge hy hy0 hy1 hP0 hPB hQ0 hQB
  exact ⟨ξ', hξ'⟩

/-- Every position Hit-and-Run visits is finite and within `B`. -/
theorem hitRun_finite (R : RoundingFull F ext u θ Ω) (Rr ERR : F) (e : Env F) (a : Args F) (hd : a.DimsOk) (hΩ : Roomy Ω B a.A.c)
    (hS : FineFor u θ B a.A.c e.fuel) (hS2 : 640 * (a.A.c * (a.A.c + e.fuel) * u) ≤ 1) {ρ : ℝ} (hρ : ext Rr = some (ρ : EReal)) (hρB : |ρ| ≤ B)
    (h0 : ∃ ξ, HasValues ext (a.x0 hd) ξ ∧ ∀ j, |ξ j| ≤ B)
    (hin : ∀ z ζ, Spec.PassesDense a.A.val (a.rhs hd) z → HasValues ext z ζ → ∀ j, |ζ j| ≤ B / 2) (T : ℕ)
    (hdraw : ∀ t < T, ∀ x g, (Walk.hitRun Rr ERR).chain e a hd t = .ok (x, g) → e.r.DrawsOk ext u θ Ω a.A.c g) :
    ∀ t ≤ T, ∀ x, (Walk.hitRun Rr ERR).PosAt e a hd t x → ∃ ξ, HasValues ext x ξ ∧ ∀ j, |ξ j| ≤ B := by
  have hB := hS.pos
  have h0' : ∀ ξ, HasValues ext (a.x0 hd) ξ → ∀ j, |ξ j| ≤ B := fun ξ hξ => by
    obtain ⟨ξ₀, h1, h2⟩ := h0
    have : ξ = ξ₀ := funext fun j => ext_inj (hξ j) (h1 j)
    subst this
    exact h2
  have hbd := hitRun_bounded R.toRoundingOps hΩ.two Rr ERR e a hd hS hS2 hρ hρB h0' hin T hdraw
  intro t
  induction t with
  | zero =>
    rintro _ x ⟨s, hs, rfl⟩
    cases hs
    exact h0
  | succ t ih =>
    rintro ht x ⟨s', hs', rfl⟩
    obtain ⟨s0, e0, h1⟩ := Out.bind_eq_ok.1 hs'
    obtain ⟨s, h1, h2⟩ := Out.bind_eq_ok.1 h1
    have hs : (Walk.hitRun Rr ERR).chain e a hd t = .ok s := Out.bind_eq_ok.2 ⟨s0, e0, h1⟩
    obtain ⟨ξ, hx, hξ⟩ := ih (by omega) _ ⟨s, hs, rfl⟩
    obtain ⟨ξ', hξ'⟩ := hitRun_step_fin R hΩ hS hρ hρB e.r a.A.val (a.rhs hd) s s' (hdraw t (by omega) s.1 s.2 hs) hx hξ
      (fun z ζ h1 h2 j => (hin z ζ h1 h2 j).trans (by linarith)) h2
    exact ⟨ξ', hξ', hbd (t + 1) ht _ ⟨s', hs', rfl⟩ ξ' hξ'⟩

/-- **C87.** Hit-and-Run in floating point, from a finite start: every number it returns is finite. Each row is within `B` and satisfies every
constraint up to rounding. -/
theorem C87_rows (R : RoundingFull F ext u θ Ω) (Rr ERR : F) (e : Env F) (a : Args F) (hd : a.DimsOk) (hi : SaneInts a.niter a.burnin a.thin)
    (hΩ : Roomy Ω B a.A.c) (hS : FineFor u θ B a.A.c e.fuel) (hS2 : 640 * (a.A.c * (a.A.c + e.fuel) * u) ≤ 1) {ρ : ℝ} (hρ : ext Rr = some (ρ : EReal))
    (hρB : |ρ| ≤ B) (h0 : ∃ ξ, HasValues ext (a.x0 hd) ξ ∧ ∀ j, |ξ j| ≤ B)
    (hin : ∀ z ζ, Spec.PassesDense a.A.val (a.rhs hd) z → HasValues ext z ζ → ∀ j, |ζ j| ≤ B / 2)
    (hdraw : ∀ t < a.niter.toNat, ∀ x g, (Walk.hitRun Rr ERR).chain e a hd t = .ok (x, g) → e.r.DrawsOk ext u θ Ω a.A.c g)
    (rows : List (Fin a.A.c → F)) (h : (Walk.hitRun Rr ERR).run e a = .ok rows) :
    ∀ x ∈ rows, ∃ ξ, HasValues ext x ξ ∧ (∀ j, |ξ j| ≤ B) ∧
      ∀ (i : Fin a.A.r) (α : Fin a.A.c → ℝ) (β : ℝ), HasValues ext (a.A.val i) α → ext (a.rhs hd i) = some (β : EReal) →
        2 * ((∑ j, |α j|) * B + a.A.c * θ) + |β| ≤ Ω →
        ∑ j, α j * ξ j ≤ β + 330 * (a.A.c * (a.A.c + e.fuel) * (u * B)) * (∑ j, |α j|) + 2 * (a.A.c * θ) := by
  intro x hx
  obtain ⟨_, hr⟩ := C03_visited_partial _ e a hi rows h
  obtain ⟨t, ht1, ht2, hp⟩ := hr x hx
  obtain ⟨ξ, hξ, -⟩ := hitRun_finite R Rr ERR e a hd hΩ hS hS2 hρ hρB h0 hin a.niter.toNat hdraw t (by omega) x hp
  refine ⟨ξ, hξ, C85_rows R.toRoundingOps hΩ.two Rr ERR e a hd hi hS hS2 hρ hρB (fun ξ' hξ' => ?_) hin hdraw rows h x hx ξ hξ⟩
  obtain ⟨ξ₀, h1, h2⟩ := h0
  have : ξ' = ξ₀ := funext fun j => ext_inj (hξ' j) (h1 j)
  subst this
  exact h2

end

/-- Binary64 has room for every realistic dimension and scale. -/
theorem roomy_binary64 {B : ℝ} {n : ℕ} (hB : 0 ≤ B) (h : n * B ≤ 2 ^ (508 : ℤ)) : Roomy (2 ^ (1023 : ℤ)) B n := by
  have h0 : 0 ≤ n * B := by positivity
  refine ⟨?_, ?_, ?_⟩
  · calc (2 : ℝ) = 2 ^ (1 : ℤ) := by norm_num
      _ ≤ _ := zpow_le_zpow_right₀ (by norm_num) (by norm_num)
  · calc 40 * (n * B) ≤ 2 ^ (6 : ℤ) * 2 ^ (508 : ℤ) := mul_le_mul (by norm_num) h h0 (by positivity)
      _ = 2 ^ (6 + 508 : ℤ) := (zpow_add₀ (by norm_num) _ _).symm
      _ ≤ _ := zpow_le_zpow_right₀ (by norm_num) (by norm_num)
  · have h2 : (n * B) ^ 2 ≤ (2 ^ (508 : ℤ)) ^ 2 := pow_le_pow_left₀ h0 h 2
    calc 100 * (n * B) ^ 2 ≤ 2 ^ (7 : ℤ) * (2 ^ (508 : ℤ)) ^ 2 := mul_le_mul (by norm_num) h2 (by positivity) (by positivity)
      _ = 2 ^ (7 + (508 + 508) : ℤ) := by
        rw [zpow_add₀ two_ne_zero 7, zpow_add₀ two_ne_zero 508 508, sq]
      _ ≤ _ := zpow_le_zpow_right₀ (by norm_num) (by norm_num)

/-- **C87** (`double`). -/
theorem C87_binary64 (Rr ERR : Binary64) (e : Env Binary64) (a : Args Binary64) (hd : a.DimsOk) (hi : SaneInts a.niter a.burnin a.thin)
    (B : ℝ) (hn : 1 ≤ a.A.c) (hN : 640 * (a.A.c * (a.A.c + e.fuel + 10)) ≤ 2 ^ 53) (hB : (2 : ℝ) ^ (-484 : ℤ) ≤ B) (hB' : a.A.c * B ≤ 2 ^ (508 : ℤ))
    (hρ : ∃ ρ : ℝ, Ieee.ext Rr = some (ρ : EReal) ∧ |ρ| ≤ B) (h0 : ∃ ξ, HasValues Ieee.ext (a.x0 hd) ξ ∧ ∀ j, |ξ j| ≤ B)
    (hin : ∀ z ζ, Spec.PassesDense a.A.val (a.rhs hd) z → HasValues Ieee.ext z ζ → ∀ j, |ζ j| ≤ B / 2)
    (hdraw : ∀ t < a.niter.toNat, ∀ x g, (Walk.hitRun Rr ERR).chain e a hd t = .ok (x, g) →
      e.r.DrawsOk Ieee.ext (2 ^ (-53 : ℤ)) (2 ^ (-1075 : ℤ)) (2 ^ (1023 : ℤ)) a.A.c g)
    (rows : List (Fin a.A.c → Binary64)) (h : (Walk.hitRun Rr ERR).run e a = .ok rows) :
    ∀ x ∈ rows, ∃ ξ, HasValues Ieee.ext x ξ ∧ (∀ j, |ξ j| ≤ B) ∧
      ∀ (i : Fin a.A.r) (α : Fin a.A.c → ℝ) (β : ℝ), HasValues Ieee.ext (a.A.val i) α → Ieee.ext (a.rhs hd i) = some (β : EReal) →
        2 * ((∑ j, |α j|) * B + a.A.c * 2 ^ (-1075 : ℤ)) + |β| ≤ 2 ^ (1023 : ℤ) →
        ∑ j, α j * ξ j ≤ β + 330 * (a.A.c * (a.A.c + e.fuel) * (2 ^ (-53 : ℤ) * B)) * (∑ j, |α j|) + 2 * (a.A.c * 2 ^ (-1075 : ℤ)) := by
  obtain ⟨ρ, hρ, hρB⟩ := hρ
  have hB0 : (0 : ℝ) ≤ B := le_trans (by positivity) hB
  refine C87_rows Ieee.binary64_full Rr ERR e a hd hi (roomy_binary64 hB0 hB') (fineFor_binary64 hn hN hB) ?_ hρ hρB h0 hin hdraw rows h
  have h1 : (640 : ℝ) * (a.A.c * (a.A.c + e.fuel + 10)) ≤ 2 ^ 53 := by exact_mod_cast hN
  have e1 : (2 : ℝ) ^ (-53 : ℤ) = 1 / 2 ^ 53 := by norm_num
  rw [e1, mul_one_div, mul_div_assoc', div_le_one (by positivity)]
  have h2 : (0 : ℝ) ≤ a.A.c := by positivity
  linarith

end PW

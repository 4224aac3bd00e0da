import Verif.Lemmas.ChordRound
import Verif.Lemmas.IeeeOps
import Verif.Props.Sampling
import Verif.Props.Rounding
import Verif.Props.Drift

/-!
# C85: Hit-and-Run in floating point
-/

namespace PW
open Finset

section
variable {F : Type} [Scalar F] {ext : F → Option EReal} {u θ Ω B : ℝ} {n N : ℕ}

theorem direction_tail {b L ν l t : ℝ} (hu : 0 ≤ u) (hu1 : u ≤ 1 / 1100) (hn1 : (1 : ℝ) ≤ n) (hb : 101 / 100 * ((n + 2) * u) = b) (hb0 : 0 ≤ b)
    (hb1 : b ≤ 101 / 10000) (hνp : 0 < ν) (hνL : (1 - b - 2 * u) * L ≤ ν) (hL0 : 0 < L) (hqθ : t ≤ u) (hsplit : l ≤ (1 + u) * (L / ν) + t) :
    l ≤ 1 + 2 * (n + 4) * u := by
  have hquot : L / ν ≤ 1 + 103 / 100 * (b + 2 * u) := by
    rw [div_le_iff₀ hνp]
    have h1 : (1 + 103 / 100 * (b + 2 * u)) * ((1 - b - 2 * u) * L) ≤ (1 + 103 / 100 * (b + 2 * u)) * ν :=
      mul_le_mul_of_nonneg_left hνL (by linarith)
    refine le_trans ?_ h1
    have h2 : 1 ≤ (1 + 103 / 100 * (b + 2 * u)) * (1 - b - 2 * u) := by
      generalize ht : b + 2 * u = t
      have ht0 : 0 ≤ t := by linarith
      have ht1 : t ≤ 125 / 10000 := by linarith
      have : t * t ≤ 125 / 10000 * t := mul_le_mul_of_nonneg_right ht1 ht0
      have e : 1 - b - 2 * u = 1 - t := by linarith
      rw [e]
      nlinarith
    calc L = 1 * L := (one_mul L).symm
      _ ≤ _ := mul_le_mul_of_nonneg_right h2 hL0.le
      _ = _ := by ring
  have h6 : (1 + u) * (L / ν) ≤ (1 + u) * (1 + 103 / 100 * (b + 2 * u)) := mul_le_mul_of_nonneg_left hquot (by linarith)
  have h7 : u * (b + 2 * u) ≤ u * (125 / 10000) := mul_le_mul_of_nonneg_left (by linarith) hu
  have h8 : b = 101 / 100 * ((n + 2) * u) := hb.symm
  have h9 : u ≤ n * u := le_mul_of_one_le_left hu hn1
  linarith

/-- A vector divided by its computed length has length about 1. -/
theorem normalize_len (R : RoundingOps F ext u θ Ω) (hS : FineFor u θ B n N) {w : Fin n → F} {v : Fin n → ℝ} (hv : HasValues ext w v)
    (hS0 : 0 < ∑ j, v j ^ 2) (hSθ : n * θ ≤ u * ∑ j, v j ^ 2) (hSΩ : 2 * ∑ j, v j ^ 2 ≤ Ω) :
    (∃ ν, ext (norm2 w) = some ((ν : ℝ) : EReal) ∧ 0 < ν ∧ 98 / 100 * len v ≤ ν ∧ ν ≤ 102 / 100 * len v) ∧
      ∀ δ, HasValues ext (fun i => w i / norm2 w) δ → len δ ≤ 1 + 2 * (n + 4) * u ∧ 97 / 100 ≤ len δ := by
  have hu := R.u_nonneg
  have hθ := R.θ_nonneg
  have hnu := hS.nu_le R.toRounding
  have hu1 := hS.u_le R.toRounding
  have hn1 : (1 : ℝ) ≤ n := by exact_mod_cast hS.dim
  obtain ⟨S, hSd⟩ : ∃ S, ∑ j, v j ^ 2 = S := ⟨_, rfl⟩
  rw [hSd] at hS0 hSθ hSΩ
  have habs : ∑ j, |v j * v j| = S := by
    rw [← hSd]
    exact sum_congr rfl fun j _ => by rw [abs_of_nonneg (mul_self_nonneg _), sq]
  have hsum : ∑ j, v j * v j = S := by
    rw [← hSd]
    exact sum_congr rfl fun j _ => by rw [sq]
  have hp1 : (1 + u) ^ (n + 1) ≤ 1 + 2 * (n + 1) * u := by
    have := pow_small hu (n + 1) (by push_cast; linarith)
    push_cast at this
    exact this
  have hp1' : (1 + u) ^ (n + 1) ≤ 102 / 100 := by linarith
  have hpn : (1 + u) ^ n ≤ 102 / 100 := by
    have := pow_small hu n (by linarith)
    linarith
  have hST : n * θ ≤ 1 / 1100 * S := hSθ.trans (mul_le_mul_of_nonneg_right hu1 hS0.le)
  have hnθ0 : 0 ≤ n * θ := by positivity
  obtain ⟨Q, hQ, hQe, hQb⟩ := dot_finite R.toRounding hv hv (sumOf_dot _ _) (by
    rw [habs]
    have : (1 + u) ^ (n + 1) * (S + n * θ) ≤ 102 / 100 * (S + n * θ) := mul_le_mul_of_nonneg_right hp1' (by linarith)
    linarith)
  rw [habs, hsum] at hQe
  have hQlow : (1 - 2 * ((n + 2) * u)) * S ≤ Q := by
    have h1 := (abs_le.1 hQe).1
    have h2 : ((1 + u) ^ (n + 1) - 1) * S ≤ 2 * (n + 1) * u * S := mul_le_mul_of_nonneg_right (by linarith) hS0.le
    have h3 : (1 + u) ^ n * (n * θ) ≤ 102 / 100 * (u * S) := mul_le_mul hpn hSθ hnθ0 (by norm_num)
    have h4 : 0 ≤ u * S := mul_nonneg hu hS0.le
    have h5 : 0 ≤ n * (u * S) := by positivity
    linarith
  have hQ0 : 0 ≤ Q := le_trans (mul_nonneg (by linarith) hS0.le) hQlow
  have hQΩ : Q ≤ Ω := by
    have h1 := (abs_le.1 hQe).2
    have h2 : ((1 + u) ^ (n + 1) - 1) * S ≤ 2 / 100 * S := mul_le_mul_of_nonneg_right (by linarith) hS0.le
    have h3 : (1 + u) ^ n * (n * θ) ≤ 102 / 100 * (n * θ) := mul_le_mul_of_nonneg_right hpn hnθ0
    linarith
  obtain ⟨ν, hν⟩ := R.sqrt_fin _ _ hQ hQ0 hQΩ
  obtain ⟨Q', hQ', _, hν0, hνe⟩ := R.sqrt _ _ hν
  cases ext_inj hQ' hQ
  obtain ⟨L, hL⟩ : ∃ L, Real.sqrt S = L := ⟨_, rfl⟩
  have hL0 : 0 < L := by rw [← hL]; exact Real.sqrt_pos.2 hS0
  have hLL : L ^ 2 = S := by rw [← hL]; exact Real.sq_sqrt hS0.le
  obtain ⟨b, hb⟩ : ∃ b, 101 / 100 * ((n + 2) * u) = b := ⟨_, rfl⟩
  have hb0 : 0 ≤ b := by rw [← hb]; positivity
  have hb1 : b ≤ 101 / 10000 := by rw [← hb]; linarith
  have hsq : (1 - b) * L ≤ Real.sqrt Q := by
    refine Real.le_sqrt_of_sq_le ?_
    rw [mul_pow, hLL]
    refine le_trans (mul_le_mul_of_nonneg_right ?_ hS0.le) hQlow
    have : b * b ≤ 101 / 10000 * b := mul_le_mul_of_nonneg_right hb1 hb0
    have h2 : 2 * ((n + 2) * u) = 200 / 101 * b := by rw [← hb]; ring
    rw [h2]
    nlinarith
  have hθL : θ ≤ u * L := by
    refine le_of_sq_le_sq ?_ (by positivity)
    rw [mul_pow, hLL]
    have h1 : θ ≤ u := (le_mul_of_one_le_left hθ hn1).trans hS.θ_u
    have h2 : θ ≤ u * S := (le_mul_of_one_le_left hθ hn1).trans hSθ
    calc θ ^ 2 = θ * θ := sq θ
      _ ≤ u * (u * S) := mul_le_mul h1 h2 hθ hu
      _ = _ := by ring
  have hνL : (1 - b - 2 * u) * L ≤ ν := by
    have h1 := (abs_le.1 hνe).1
    have h2 : (1 - u) * ((1 - b) * L) ≤ (1 - u) * Real.sqrt Q := mul_le_mul_of_nonneg_left hsq (by linarith)
    have h3 : 0 ≤ u * b * L := by positivity
    nlinarith
  have hνp : 0 < ν := lt_of_lt_of_le (mul_pos (by linarith) hL0) hνL
  have hν' : ext (norm2 w) = some (ν : EReal) := by
    unfold norm2
    rw [vsum_dot]
    exact hν
  have hlv : len v = L := by
    rw [← hL, len]
    congr 1
  have hQup : Q ≤ (1 + 2 * ((n + 2) * u)) * S := by
    have h1 := (abs_le.1 hQe).2
    have h2 : ((1 + u) ^ (n + 1) - 1) * S ≤ 2 * (n + 1) * u * S := mul_le_mul_of_nonneg_right (by linarith) hS0.le
    have h3 : (1 + u) ^ n * (n * θ) ≤ 102 / 100 * (u * S) := mul_le_mul hpn hSθ hnθ0 (by norm_num)
    have h4 : 0 ≤ u * S := mul_nonneg hu hS0.le
    linarith
  have hνU : ν ≤ 102 / 100 * L := by
    have h1 := (abs_le.1 hνe).2
    have h2 : Real.sqrt Q ≤ (1 + b) * L := by
      rw [Real.sqrt_le_left (by positivity), mul_pow, hLL]
      refine hQup.trans (mul_le_mul_of_nonneg_right ?_ hS0.le)
      have h2 : 2 * ((n + 2) * u) = 200 / 101 * b := by rw [← hb]; ring
      rw [h2]
      nlinarith [sq_nonneg b]
    have h3 : (1 + u) * Real.sqrt Q ≤ (1 + u) * ((1 + b) * L) := mul_le_mul_of_nonneg_left h2 (by linarith)
    have h4 : (1 + u) * ((1 + b) * L) + u * L ≤ 102 / 100 * L := by
      have : (1 + u) * (1 + b) + u ≤ 102 / 100 := by nlinarith
      calc _ = ((1 + u) * (1 + b) + u) * L := by ring
        _ ≤ _ := mul_le_mul_of_nonneg_right this hL0.le
    linarith
  have hνL' : 98 / 100 * L ≤ ν := le_trans (mul_le_mul_of_nonneg_right (by linarith) hL0.le) hνL
  refine ⟨⟨ν, hν', hνp, by rw [hlv]; exact hνL', by rw [hlv]; exact hνU⟩, ?_⟩
  intro δ hδ
  have hdiv := fun j => R.div _ _ ν (δ j) hν' hνp.ne' (hδ j)
  have hδe : ∀ j, |δ j - v j / ν| ≤ u * |v j / ν| + θ := fun j => by
    obtain ⟨w, hw, hwe⟩ := hdiv j
    cases ext_inj hw (hv j)
    exact hwe
  -- `δ = v / ν + error`
  have hsplit : len δ ≤ (1 + u) * (L / ν) + Real.sqrt n * θ := by
    have hf : ∀ j, |δ j| ≤ (fun j => (1 + u) * (|v j| / ν) + θ) j := fun j => by
      have h1 := abs_sub_abs_le_abs_sub (δ j) (v j / ν)
      have h2 := hδe j
      rw [abs_div, abs_of_pos hνp] at h1 h2
      show _ ≤ (1 + u) * (|v j| / ν) + θ
      linarith
    have hmono : len δ ≤ len fun j => (1 + u) * (|v j| / ν) + θ := by
      refine Real.sqrt_le_sqrt (sum_le_sum fun j _ => ?_)
      have := hf j
      calc δ j * δ j = |δ j| * |δ j| := (abs_mul_abs_self _).symm
        _ ≤ _ := mul_le_mul this this (abs_nonneg _) ((abs_nonneg _).trans this)
    have h2 : (fun j => (1 + u) * (|v j| / ν) + θ) = ((1 + u) / ν) • (fun j => |v j|) + fun _ : Fin n => θ := by
      funext j
      show _ = (1 + u) / ν * |v j| + θ
      ring
    refine hmono.trans ?_
    rw [h2]
    refine (len_add_le _ _).trans (add_le_add (le_of_eq ?_) (len_le_of_coords _ hθ fun j => (abs_of_nonneg hθ).le))
    rw [len_smul, abs_of_nonneg (by positivity)]
    have h3 : len (fun j => |v j|) = L := by
      rw [← hlv, len, len]
      congr 1
      exact sum_congr rfl fun j _ => abs_mul_abs_self _
    rw [h3]
    ring
  have hqθ : Real.sqrt n * θ ≤ u := by
    refine le_trans (mul_le_mul_of_nonneg_right ?_ hθ) hS.θ_u
    exact (hS.mags R.toRounding).q_n
  refine ⟨direction_tail hu hu1 hn1 hb hb0 hb1 hνp hνL hL0 hqθ hsplit, ?_⟩
  -- from below
  have hquot : 98 / 100 ≤ L / ν := by
    rw [le_div_iff₀ hνp]
    linarith
  have hquot' : L / ν ≤ 103 / 100 := by
    rw [div_le_iff₀ hνp]
    linarith
  have herr : len (δ - fun j => v j / ν) ≤ u * (L / ν) + Real.sqrt n * θ := by
    have hmono : len (δ - fun j => v j / ν) ≤ len fun j => u * (|v j| / ν) + θ := by
      refine Real.sqrt_le_sqrt (sum_le_sum fun j _ => ?_)
      have h1 := hδe j
      rw [abs_div, abs_of_pos hνp] at h1
      have h1 : |(δ - fun j => v j / ν) j| ≤ u * (|v j| / ν) + θ := h1
      rw [← abs_mul_abs_self ((δ - fun j => v j / ν) j)]
      exact mul_le_mul h1 h1 (abs_nonneg _) ((abs_nonneg _).trans h1)
    have h2 : (fun j => u * (|v j| / ν) + θ) = (u / ν) • (fun j => |v j|) + fun _ : Fin n => θ := by
      funext j
      show _ = u / ν * |v j| + θ
      ring
    refine hmono.trans ?_
    rw [h2]
    refine (len_add_le _ _).trans (add_le_add (le_of_eq ?_) (len_le_of_coords _ hθ fun j => (abs_of_nonneg hθ).le))
    rw [len_smul, abs_of_nonneg (by positivity)]
    have h3 : len (fun j => |v j|) = L := by
      rw [← hlv, len, len]
      congr 1
      exact sum_congr rfl fun j _ => abs_mul_abs_self _
    rw [h3]
    ring
  have hvν : len (fun j => v j / ν) = L / ν := by
    have : (fun j => v j / ν) = ν⁻¹ • v := by
      funext j
      show v j / ν = ν⁻¹ * v j
      ring
    rw [this, len_smul, abs_of_pos (inv_pos.2 hνp), hlv]
    ring
  have htri : len (fun j => v j / ν) ≤ len δ + len (δ - fun j => v j / ν) := by
    have h1 : (fun j => v j / ν) = δ + (-1 : ℝ) • (δ - fun j => v j / ν) := by
      rw [neg_one_smul]; abel
    have h2 := len_add_le δ ((-1 : ℝ) • (δ - fun j => v j / ν))
    rw [len_smul, abs_neg, abs_one, one_mul] at h2
    calc _ = _ := congrArg len h1
      _ ≤ _ := h2
  rw [hvν] at htri
  have huL : u * (L / ν) ≤ 1 / 1100 * (103 / 100) := mul_le_mul hu1 hquot' (by positivity) (by norm_num)
  linarith

/-- The directions drawn have length about 1. -/
theorem direction_len (R : RoundingOps F ext u θ Ω) (hS : FineFor u θ B n N) (r : Rng F) (g : r.G) (hD : r.DrawsOk ext u θ Ω n g) :
    ∀ δ, HasValues ext (r.gaussianNorm n g).1 δ → len δ ≤ 1 + 2 * (n + 4) * u := by
  obtain ⟨v, hv, hS0, hSθ, hSΩ⟩ := hD.gaussian
  exact fun δ hδ => ((normalize_len R hS hv hS0 hSθ hSΩ).2 δ hδ).1

/-- What every linear bound on the accepted points says about the next position of Hit-and-Run. -/
theorem hitRun_step_rounded (R : RoundingOps F ext u θ Ω) (hΩ : 2 ≤ Ω) (hS : FineFor u θ B n N) {Rr ERR : F} {ρ : ℝ} (hρ : ext Rr = some (ρ : EReal))
    (hρB : |ρ| ≤ B) (r : Rng F) {m : ℕ} (A : Matrix (Fin m) (Fin n) F) (b : Fin m → F) (s s' : (Fin n → F) × r.G)
    (hD : r.DrawsOk ext u θ Ω n s.2) (hξ : ∀ ξ, HasValues ext s.1 ξ → ∀ j, |ξ j| ≤ B)
    (hin : ∀ z ζ, Spec.PassesDense A b z → HasValues ext z ζ → ∀ j, |ζ j| ≤ B) (h : HitRun.step Rr ERR N r A b s = .ok s')
    (ξ' : Fin n → ℝ) (hξ' : HasValues ext s'.1 ξ') (α : Fin n → ℝ) (c : ℝ)
    (hα : ∀ z ζ, Spec.PassesDense A b z → HasValues ext z ζ → ∑ j, α j * ζ j ≤ c) :
    ∑ j, α j * ξ' j ≤ c + 320 * (n * (n + N) * (u * B)) * ∑ j, |α j| := by
  obtain ⟨p, hp, h⟩ := Out.bind_eq_ok.1 h
  obtain ⟨ns, hns, h⟩ := Out.bind_eq_ok.1 h
  cases h
  have hx := fun j => R.add _ _ _ (hξ' j)
  choose w ξ hw hx _ using hx
  have hδ := fun j => R.mul _ _ _ (hw j)
  choose t δ _ hδ _ using hδ
  obtain ⟨y, hy, hy0, hy1⟩ := hD.uniform
  exact step_near R hΩ hS hρ hρB hx (hξ ξ hx) hδ (direction_len R hS r _ hD δ hδ) (inPolytope · A b)
    (fun z ζ hz => hin z ζ ((inPolytope_iff_passes _ _ _).1 hz)) hy hy0 hy1 hp hns hξ' α c
    fun z ζ hz => hα z ζ ((inPolytope_iff_passes _ _ _).1 hz)

/-- The coordinates of Hit-and-Run stay bounded: accepted points within `B / 2` keep every finite position within `B`. -/
theorem hitRun_bounded (R : RoundingOps F ext u θ Ω) (hΩ : 2 ≤ Ω) (Rr ERR : F) (e : Env F) (a : Args F) (hd : a.DimsOk)
    (hS : FineFor u θ B a.A.c e.fuel) (hS2 : 640 * (a.A.c * (a.A.c + e.fuel) * u) ≤ 1) {ρ : ℝ} (hρ : ext Rr = some (ρ : EReal)) (hρB : |ρ| ≤ B)
    (h0 : ∀ ξ, HasValues ext (a.x0 hd) ξ → ∀ j, |ξ j| ≤ B)
    (hin : ∀ z ζ, Spec.PassesDense a.A.val (a.rhs hd) z → HasValues ext z ζ → ∀ j, |ζ j| ≤ B / 2) (T : ℕ)
    (hdraw : ∀ t < T, ∀ x g, (Walk.hitRun Rr ERR).chain e a hd t = .ok (x, g) → e.r.DrawsOk ext u θ Ω a.A.c g) :
    ∀ t ≤ T, ∀ x, (Walk.hitRun Rr ERR).PosAt e a hd t x → ∀ ξ, HasValues ext x ξ → ∀ j, |ξ j| ≤ B := by
  have hB := hS.pos
  intro t
  induction t with
  | zero =>
    rintro _ x ⟨s, hs, rfl⟩ ξ hξ
    cases hs
    exact h0 ξ hξ
  | succ t ih =>
    rintro ht x ⟨s', hs', rfl⟩ ξ' hξ' j
    obtain ⟨s0, e0, h1⟩ := Out.bind_eq_ok.1 hs'
    obtain ⟨s, h1, h2⟩ := Out.bind_eq_ok.1 h1
    have hs : (Walk.hitRun Rr ERR).chain e a hd t = .ok s := Out.bind_eq_ok.2 ⟨s0, e0, h1⟩
    have key := fun α c hα => hitRun_step_rounded R hΩ hS hρ hρB e.r a.A.val (a.rhs hd) s s' (hdraw t (by omega) s.1 s.2 hs)
      (ih (by omega) _ ⟨s, hs, rfl⟩) (fun z ζ h1 h2 j => (hin z ζ h1 h2 j).trans (by linarith)) h2 ξ' hξ' α c hα
    have hsum : ∀ (c : ℝ) (ζ : Fin a.A.c → ℝ), ∑ i, (if i = j then c else 0) * ζ i = c * ζ j := fun c ζ => by simp
    have habs : ∀ c : ℝ, ∑ i : Fin a.A.c, |if i = j then c else 0| = |c| := fun c => by
      rw [sum_eq_single j (fun i _ hi => by rw [if_neg hi, abs_zero]) (fun h => absurd (mem_univ j) h), if_pos rfl]
    have e1 := key (fun i => if i = j then 1 else 0) (B / 2) fun z ζ h1 h2 => by
      rw [hsum]
      have := (abs_le.1 (hin z ζ h1 h2 j)).2
      linarith
    have e2 := key (fun i => if i = j then -1 else 0) (B / 2) fun z ζ h1 h2 => by
      rw [hsum]
      have := (abs_le.1 (hin z ζ h1 h2 j)).1
      linarith
    rw [hsum, habs, abs_one] at e1
    rw [hsum, habs, abs_neg, abs_one] at e2
    have e3 : 640 * (a.A.c * (a.A.c + e.fuel) * u) * B ≤ 1 * B := mul_le_mul_of_nonneg_right hS2 hB.le
    rw [abs_le]
    constructor <;> linarith

/-- **C85.** Hit-and-Run in floating point. Every row returned whose coordinates are finite satisfies every constraint up to rounding:
`∑ⱼ Aᵢⱼ xⱼ ≤ bᵢ + 330 n (n + N) u B ∑ⱼ |Aᵢⱼ| + 2 n θ`, in exact arithmetic on the stored numbers, where the points that pass the test
have coordinates up to `B / 2` and no loop of a chord search takes more than `N` iterations. The bound does not depend on the number of
iterations of the walk. -/
theorem C85_rows (R : RoundingOps F ext u θ Ω) (hΩ : 2 ≤ Ω) (Rr ERR : F) (e : Env F) (a : Args F) (hd : a.DimsOk) (hi : SaneInts a.niter a.burnin a.thin)
    (hS : FineFor u θ B a.A.c e.fuel) (hS2 : 640 * (a.A.c * (a.A.c + e.fuel) * u) ≤ 1) {ρ : ℝ} (hρ : ext Rr = some (ρ : EReal)) (hρB : |ρ| ≤ B)
    (h0 : ∀ ξ, HasValues ext (a.x0 hd) ξ → ∀ j, |ξ j| ≤ B)
    (hin : ∀ z ζ, Spec.PassesDense a.A.val (a.rhs hd) z → HasValues ext z ζ → ∀ j, |ζ j| ≤ B / 2)
    (hdraw : ∀ t < a.niter.toNat, ∀ x g, (Walk.hitRun Rr ERR).chain e a hd t = .ok (x, g) → e.r.DrawsOk ext u θ Ω a.A.c g)
    (rows : List (Fin a.A.c → F)) (h : (Walk.hitRun Rr ERR).run e a = .ok rows) :
    ∀ x ∈ rows, ∀ ξ, HasValues ext x ξ → (∀ j, |ξ j| ≤ B) ∧
      ∀ (i : Fin a.A.r) (α : Fin a.A.c → ℝ) (β : ℝ), HasValues ext (a.A.val i) α → ext (a.rhs hd i) = some (β : EReal) →
        2 * ((∑ j, |α j|) * B + a.A.c * θ) + |β| ≤ Ω →
        ∑ j, α j * ξ j ≤ β + 330 * (a.A.c * (a.A.c + e.fuel) * (u * B)) * (∑ j, |α j|) + 2 * (a.A.c * θ) := by
  have hB := hS.pos
  have hu := R.u_nonneg
  have hθ := R.θ_nonneg
  have hnu := hS.nu_le R.toRounding
  have hn1 : (1 : ℝ) ≤ a.A.c := by exact_mod_cast hS.dim
  have hbd := hitRun_bounded R hΩ Rr ERR e a hd hS hS2 hρ hρB h0 hin a.niter.toNat hdraw
  intro x hx ξ hξ
  obtain ⟨_, hr⟩ := C03_visited_partial _ e a hi rows h
  obtain ⟨t, ht1, ht2, hp⟩ := hr x hx
  refine ⟨hbd t (by omega) x hp ξ hξ, fun i α β hα hβ hov => ?_⟩
  obtain ⟨t, rfl⟩ : ∃ t', t = t' + 1 := ⟨t - 1, by omega⟩
  obtain ⟨s', hs', rfl⟩ := hp
  obtain ⟨s0, e0, h1⟩ := Out.bind_eq_ok.1 hs'
  obtain ⟨s, h1, h2⟩ := Out.bind_eq_ok.1 h1
  have hs : (Walk.hitRun Rr ERR).chain e a hd t = .ok s := Out.bind_eq_ok.2 ⟨s0, e0, h1⟩
  have hΛ0 : 0 ≤ ∑ j, |α j| := sum_nonneg fun _ _ => abs_nonneg _
  have hnθ0 : (0 : ℝ) ≤ a.A.c * θ := by positivity
  have hp1 : (1 + u) ^ (a.A.c + 1) ≤ 1 + 2 * (a.A.c + 1) * u := by
    have := pow_small hu (a.A.c + 1) (by push_cast; linarith)
    push_cast at this
    exact this
  have hp2 : (1 + u) ^ (a.A.c + 1) ≤ 2 := by linarith
  have hpn : (1 + u) ^ a.A.c ≤ 2 := by
    have := pow_small hu a.A.c (by linarith)
    linarith
  have hacc : ∀ z ζ, Spec.PassesDense a.A.val (a.rhs hd) z → HasValues ext z ζ →
      ∑ j, α j * ζ j ≤ β + ((a.A.c + 1) * (u * B) * (∑ j, |α j|) + 2 * (a.A.c * θ)) := by
    rintro z ζ hz hζ
    have hζB := hin z ζ hz hζ
    have hT : ∑ j, |α j * ζ j| ≤ (∑ j, |α j|) * (B / 2) := by
      rw [sum_mul]
      refine sum_le_sum fun j _ => ?_
      rw [abs_mul]
      exact mul_le_mul_of_nonneg_left (hζB j) (abs_nonneg _)
    have hT0 : 0 ≤ ∑ j, |α j * ζ j| := sum_nonneg fun _ _ => abs_nonneg _
    obtain ⟨c, hl, hc⟩ := hz
    obtain ⟨_, h3⟩ := largest_le_zero R.toRounding hl hc
    obtain ⟨q, hq, h4, _⟩ := C62_any_order R.toRounding hα hζ hβ (by
      unfold NoOverflow
      have : (1 + u) ^ (a.A.c + 1) * (∑ j, |α j * ζ j| + a.A.c * θ) ≤ 2 * (∑ j, |α j * ζ j| + a.A.c * θ) :=
        mul_le_mul_of_nonneg_right hp2 (by linarith)
      have h5 : 0 ≤ (∑ j, |α j|) * B := mul_nonneg hΛ0 hB.le
      linarith) (sumOf_dot (a.A.val i) z)
    have := h3 _ (by rw [List.mem_ofFn]; exact ⟨i, rfl⟩) q hq
    have h5 := h4 (by exact_mod_cast this)
    have h6 : dotError u θ a.A.c α ζ ≤ (a.A.c + 1) * (u * B) * (∑ j, |α j|) + 2 * (a.A.c * θ) := by
      unfold dotError
      have f1 : ((1 + u) ^ (a.A.c + 1) - 1) * ∑ j, |α j * ζ j| ≤ (2 * (a.A.c + 1) * u) * ((∑ j, |α j|) * (B / 2)) :=
        mul_le_mul (by linarith) hT hT0 (by positivity)
      have f2 : (1 + u) ^ a.A.c * (a.A.c * θ) ≤ 2 * (a.A.c * θ) := mul_le_mul_of_nonneg_right hpn hnθ0
      linarith
    linarith
  have key := hitRun_step_rounded R hΩ hS hρ hρB e.r a.A.val (a.rhs hd) s s' (hdraw t (by omega) s.1 s.2 hs)
    (hbd t (by omega) _ ⟨s, hs, rfl⟩) (fun z ζ h1 h2 j => (hin z ζ h1 h2 j).trans (by linarith)) h2 ξ hξ α _ hacc
  refine key.trans ?_
  have hε0 : 0 ≤ u * B := mul_nonneg hu hB.le
  have hN0 : (0 : ℝ) ≤ e.fuel := by positivity
  have h8 : (a.A.c + 1) * (u * B) ≤ 2 * (a.A.c * (a.A.c + e.fuel) * (u * B)) := by
    calc (a.A.c + 1) * (u * B) ≤ (2 * (a.A.c * (a.A.c + e.fuel))) * (u * B) := mul_le_mul_of_nonneg_right (by nlinarith) hε0
      _ = _ := by ring
  have h9 := mul_le_mul_of_nonneg_right h8 hΛ0
  have h10 : 0 ≤ (a.A.c * (a.A.c + e.fuel) * (u * B)) * ∑ j, |α j| := by positivity
  linarith

end

/-- Binary64 is fine enough for every realistic dimension and scale. -/
theorem fineFor_binary64 {B : ℝ} {n N : ℕ} (hn : 1 ≤ n) (hN : 640 * (n * (n + N + 10)) ≤ 2 ^ 53) (hB : (2 : ℝ) ^ (-484 : ℤ) ≤ B) :
    FineFor (2 ^ (-53 : ℤ)) (2 ^ (-1075 : ℤ)) B n N := by
  have h1 : (640 : ℝ) * (n * (n + N + 10)) ≤ 2 ^ 53 := by exact_mod_cast hN
  have hn1 : (1 : ℝ) ≤ n := by exact_mod_cast hn
  have hN0 : (0 : ℝ) ≤ N := by positivity
  have h2 : (n : ℝ) + N + 10 ≤ n * (n + N + 10) := le_mul_of_one_le_left (by positivity) hn1
  have h3 : (n : ℝ) ≤ 2 ^ 53 := by nlinarith
  have hq : (0 : ℝ) < 2 ^ (-484 : ℤ) := by positivity
  refine ⟨hn, lt_of_lt_of_le hq hB, ?_, ?_, ?_, ?_⟩
  · have e : (2 : ℝ) ^ (-53 : ℤ) = 1 / 2 ^ 53 := by norm_num
    rw [e, mul_one_div, div_le_iff₀ (by positivity)]
    linarith
  · calc (n : ℝ) * 2 ^ (-1075 : ℤ) ≤ 2 ^ (53 : ℤ) * 2 ^ (-1075 : ℤ) := mul_le_mul_of_nonneg_right (by exact_mod_cast h3) (by positivity)
      _ = 2 ^ (-1022 : ℤ) := by rw [← zpow_add₀ (by norm_num)]; norm_num
      _ ≤ _ := zpow_le_zpow_right₀ (by norm_num) (by norm_num)
  · calc (2 : ℝ) ^ (-1075 : ℤ) ≤ 2 ^ (-53 + -484 : ℤ) := zpow_le_zpow_right₀ (by norm_num) (by norm_num)
      _ = 2 ^ (-53 : ℤ) * 2 ^ (-484 : ℤ) := zpow_add₀ (by norm_num) _ _
      _ ≤ _ := mul_le_mul_of_nonneg_left hB (by positivity)
  · calc (2 : ℝ) ^ (-1075 : ℤ) ≤ 2 ^ (-1074 : ℤ) := zpow_le_zpow_right₀ (by norm_num) (by norm_num)
      _ = (2 ^ (-53 : ℤ) * 2 ^ (-484 : ℤ)) ^ 2 := by
        rw [← zpow_add₀ (by norm_num), ← zpow_natCast, ← zpow_mul]; norm_num
      _ ≤ _ := pow_le_pow_left₀ (by positivity) (mul_le_mul_of_nonneg_left hB (by positivity)) 2

/-- **C85** (`double`). -/
theorem C85_binary64 (Rr ERR : Binary64) (e : Env Binary64) (a : Args Binary64) (hd : a.DimsOk) (hi : SaneInts a.niter a.burnin a.thin)
    (B : ℝ) (hn : 1 ≤ a.A.c) (hN : 640 * (a.A.c * (a.A.c + e.fuel + 10)) ≤ 2 ^ 53) (hB : (2 : ℝ) ^ (-484 : ℤ) ≤ B)
    (hρ : ∃ ρ : ℝ, Ieee.ext Rr = some (ρ : EReal) ∧ |ρ| ≤ B) (h0 : ∀ ξ, HasValues Ieee.ext (a.x0 hd) ξ → ∀ j, |ξ j| ≤ B)
    (hin : ∀ z ζ, Spec.PassesDense a.A.val (a.rhs hd) z → HasValues Ieee.ext z ζ → ∀ j, |ζ j| ≤ B / 2)
    (hdraw : ∀ t < a.niter.toNat, ∀ x g, (Walk.hitRun Rr ERR).chain e a hd t = .ok (x, g) →
      e.r.DrawsOk Ieee.ext (2 ^ (-53 : ℤ)) (2 ^ (-1075 : ℤ)) (2 ^ (1023 : ℤ)) a.A.c g)
    (rows : List (Fin a.A.c → Binary64)) (h : (Walk.hitRun Rr ERR).run e a = .ok rows) :
    ∀ x ∈ rows, ∀ ξ, HasValues Ieee.ext x ξ → (∀ j, |ξ j| ≤ B) ∧
      ∀ (i : Fin a.A.r) (α : Fin a.A.c → ℝ) (β : ℝ), HasValues Ieee.ext (a.A.val i) α → Ieee.ext (a.rhs hd i) = some (β : EReal) →
        2 * ((∑ j, |α j|) * B + a.A.c * 2 ^ (-1075 : ℤ)) + |β| ≤ 2 ^ (1023 : ℤ) →
        ∑ j, α j * ξ j ≤ β + 330 * (a.A.c * (a.A.c + e.fuel) * (2 ^ (-53 : ℤ) * B)) * (∑ j, |α j|) + 2 * (a.A.c * 2 ^ (-1075 : ℤ)) := by
  obtain ⟨ρ, hρ, hρB⟩ := hρ
  refine C85_rows Ieee.binary64_ops ?_ Rr ERR e a hd hi (fineFor_binary64 hn hN hB) ?_ hρ hρB h0 hin hdraw rows h
  · calc (2 : ℝ) = 2 ^ (1 : ℤ) := by norm_num
      _ ≤ _ := zpow_le_zpow_right₀ (by norm_num) (by norm_num)
  · have h1 : (640 : ℝ) * (a.A.c * (a.A.c + e.fuel + 10)) ≤ 2 ^ 53 := by exact_mod_cast hN
    have e1 : (2 : ℝ) ^ (-53 : ℤ) = 1 / 2 ^ 53 := by norm_num
    rw [e1, mul_one_div, mul_div_assoc', div_le_one (by positivity)]
    have h2 : (0 : ℝ) ≤ a.A.c := by positivity
    linarith

end PW

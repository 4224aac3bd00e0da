import Verif.Spec.RoundingOps
import Verif.Lemmas.Rounding
import Verif.Lemmas.Sphere
import Verif.Model.Dense
import Mathlib.Tactic.FieldSimp

/-!
# The chord search of Hit-and-Run in floating point
-/

namespace PW
open Finset

section
variable {F : Type} [Scalar F] {ext : F → Option EReal} {u θ Ω B : ℝ} {n N : ℕ}

theorem ext_inj {a : F} {x y : ℝ} (h : ext a = some (x : EReal)) (h' : ext a = some (y : EReal)) : x = y := by
  have := h.symm.trans h'
  simpa using this

theorem pow_small (hu : 0 ≤ u) (k : ℕ) (h : 2 * k * u ≤ 1) : (1 + u) ^ k ≤ 1 + 2 * k * u := by
  induction k with
  | zero => simp
  | succ k ih =>
    have h1 : 2 * (k : ℝ) * u ≤ 1 := by push_cast at h; nlinarith
    have h2 := ih h1
    rw [pow_succ]
    push_cast
    have h3 : (1 + u) ^ k * (1 + u) ≤ (1 + 2 * k * u) * (1 + u) := mul_le_mul_of_nonneg_right h2 (by linarith)
    have h4 : 2 * (k : ℝ) * u * u ≤ 1 * u := mul_le_mul_of_nonneg_right h1 hu
    nlinarith

/-- A finite sum has finite terms. -/
theorem SumOf.terms {ι : Type} [DecidableEq ι] {v : ι → F} {s : Finset ι} {d : ℕ} {a : F} (R : Rounding F ext u θ Ω) (h : SumOf v s d a) :
    ∀ r : ℝ, ext a = some (r : EReal) → ∀ i ∈ s, ∃ x : ℝ, ext (v i) = some (x : EReal) := by
  induction h with
  | zero => intro r _ i hi; simp at hi
  | single j => intro r hr i hi; rw [mem_singleton] at hi; exact ⟨r, hi ▸ hr⟩
  | add hd hs ht ihs iht =>
    intro r hr i hi
    obtain ⟨x, y, hx, hy, _⟩ := R.add _ _ _ hr
    rcases mem_union.1 hi with h | h
    · exact ihs x hx i h
    · exact iht y hy i h

theorem vsum_dot {n : ℕ} (v : Fin n → F) : (vsum fun i => v i * v i) = Spec.dot v v := by
  unfold vsum Spec.dot
  rw [List.ofFn_eq_map, List.foldl_map]

theorem len_le_iff' (v : Fin n → ℝ) {r : ℝ} (hr : 0 ≤ r) : len v ≤ r ↔ ∑ i, v i ^ 2 ≤ r ^ 2 := by
  have h : v ⬝ᵥ v = ∑ i, v i ^ 2 := Finset.sum_congr rfl fun i _ => (sq (v i)).symm
  rw [← h, len, Real.sqrt_le_left hr]

theorem len_le_of_coords (v : Fin n → ℝ) {r : ℝ} (hr : 0 ≤ r) (h : ∀ i, |v i| ≤ r) : len v ≤ Real.sqrt n * r := by
  rw [len_le_iff' _ (by positivity), mul_pow, Real.sq_sqrt (by positivity)]
  calc ∑ i, v i ^ 2 ≤ ∑ _i : Fin n, r ^ 2 := sum_le_sum fun i _ => by rw [← sq_abs]; exact pow_le_pow_left₀ (abs_nonneg _) (h i) 2
    _ = n * r ^ 2 := by simp

theorem coord_le_len (v : Fin n → ℝ) (i : Fin n) : |v i| ≤ len v := by
  rw [len, ← Real.sqrt_sq_eq_abs]
  refine Real.sqrt_le_sqrt ?_
  rw [sq]
  exact single_le_sum (f := fun i => v i * v i) (fun _ _ => mul_self_nonneg _) (mem_univ i)

namespace FineFor
variable (hS : FineFor u θ B n N) (R : Rounding F ext u θ Ω)
include hS R

theorem u_le : u ≤ 1 / 1100 := by
  have h1 : (1 : ℝ) ≤ n := by exact_mod_cast hS.dim
  have h2 : (0 : ℝ) ≤ N := by positivity
  have := hS.u_small
  nlinarith [R.u_nonneg]

theorem nu_le : (n + 10) * u ≤ 1 / 100 := by
  have h2 : (0 : ℝ) ≤ N * u := mul_nonneg (by positivity) R.u_nonneg
  have := hS.u_small
  linarith

theorem Nu_le : (N + 10) * u ≤ 1 / 100 := by
  have h2 : (0 : ℝ) ≤ n * u := mul_nonneg (by positivity) R.u_nonneg
  have := hS.u_small
  linarith

end FineFor

/-- A computed Euclidean distance, from above. -/
theorem distance_up (R : RoundingOps F ext u θ Ω) (hS : FineFor u θ B n N) {x f : Fin n → F} {d : ℝ} (hd : ext (distance x f) = some (d : EReal)) :
    ∃ ξ φ : Fin n → ℝ, HasValues ext x ξ ∧ HasValues ext f φ ∧ 0 ≤ d ∧ d ≤ (1 + 2 * (n + 4) * u) * len (ξ - φ) + 3 * (Real.sqrt n * (u * B)) := by
  have hu := R.u_nonneg
  have hθ := R.θ_nonneg
  have hB := hS.pos
  have hnu := hS.nu_le R.toRounding
  obtain ⟨Q, hQ, hQ0, hd0, hdQ⟩ := R.sqrt _ _ hd
  rw [vsum_dot] at hQ
  have hsum := sumOf_dot (fun i => x i - f i) (fun i => x i - f i)
  have ht := hsum.terms R.toRounding Q hQ
  choose p hp using fun i => ht i (mem_univ i)
  have hmul := fun i => R.mul _ _ _ (hp i)
  choose w w' hw hw' hpw using hmul
  have hww : ∀ i, w' i = w i := fun i => ext_inj (hw' i) (hw i)
  have hsub := fun i => R.sub _ _ _ (hw i)
  choose ξ φ hξ hφ hwe using hsub
  refine ⟨ξ, φ, hξ, hφ, hd0, ?_⟩
  have hwl : ∀ i, |w i| ≤ (1 + u) * |ξ i - φ i| := fun i => by
    have h1 := abs_sub_abs_le_abs_sub (w i) (ξ i - φ i)
    linarith [hwe i]
  have hpl : ∀ i, |p i| ≤ (1 + u) ^ 3 * (ξ i - φ i) ^ 2 + θ := fun i => by
    have h1 := abs_sub_abs_le_abs_sub (p i) (w i * w' i)
    have h2 : |w i * w' i| ≤ (1 + u) ^ 2 * (ξ i - φ i) ^ 2 := by
      rw [hww, abs_mul, ← sq_abs (ξ i - φ i), ← mul_pow, ← sq]
      exact pow_le_pow_left₀ (abs_nonneg _) (hwl i) 2
    have h3 : (1 + u) * |w i * w' i| ≤ (1 + u) * ((1 + u) ^ 2 * (ξ i - φ i) ^ 2) := mul_le_mul_of_nonneg_left h2 (by linarith)
    have h4 : (1 + u) * ((1 + u) ^ 2 * (ξ i - φ i) ^ 2) = (1 + u) ^ 3 * (ξ i - φ i) ^ 2 := by ring
    linarith [hpw i]
  have hQb := hsum.bound R.toRounding p (fun i _ y hy => ext_inj hy (hp i)) Q hQ
  have hS2 : len (ξ - φ) ^ 2 = ∑ i, (ξ i - φ i) ^ 2 := by
    rw [len_sq]
    exact sum_congr rfl fun i _ => by simp [sq]
  have hl := len_nonneg (ξ - φ)
  generalize len (ξ - φ) = L at *
  have hsq : ∑ i, |p i| ≤ (1 + u) ^ 3 * L ^ 2 + n * θ := by
    rw [hS2, mul_sum]
    refine (sum_le_sum fun i _ => hpl i).trans (le_of_eq ?_)
    rw [sum_add_distrib]
    simp
  have hpw1 : (1 + u) ^ (n + 3) ≤ 1 + 2 * (n + 3) * u := by
    have := pow_small hu (n + 3) (by push_cast; nlinarith)
    push_cast at this
    exact this
  have hpn : (1 + u) ^ n ≤ 51 / 50 := by
    have h1 := pow_small hu n (by nlinarith)
    nlinarith
  have hn1 : (1 : ℝ) ≤ n := by exact_mod_cast hS.dim
  have hq1 : 1 ≤ Real.sqrt n := by rw [Real.one_le_sqrt]; exact hn1
  have hqq : Real.sqrt n ^ 2 = n := Real.sq_sqrt (by positivity)
  generalize hq : Real.sqrt n = q at *
  have hε : 0 ≤ u * B := mul_nonneg hu hB.le
  have hθB := hS.θ_B
  have hθs := hS.θ_sq
  have hu1 := hS.u_le R.toRounding
  generalize hεd : u * B = ε at *
  have hp0 : 1 ≤ (1 + u) ^ (n + 3) := one_le_pow₀ (by linarith)
  have hsqrt : Real.sqrt Q ≤ (1 + u) ^ (n + 3) * L + 11 / 10 * (q * ε) := by
    have hr : 0 ≤ (1 + u) ^ (n + 3) * L + 11 / 10 * (q * ε) := by positivity
    rw [Real.sqrt_le_left hr]
    have h1 : Q ≤ (1 + u) ^ n * ((1 + u) ^ 3 * L ^ 2 + n * θ) :=
      (le_abs_self Q).trans (hQb.trans (mul_le_mul_of_nonneg_left hsq (by positivity)))
    have h2 : (1 + u) ^ n * ((1 + u) ^ 3 * L ^ 2 + n * θ) = (1 + u) ^ (n + 3) * L ^ 2 + (1 + u) ^ n * (n * θ) := by ring
    have h3 : (1 + u) ^ (n + 3) * L ^ 2 ≤ ((1 + u) ^ (n + 3) * L) ^ 2 := by
      rw [mul_pow]
      refine mul_le_mul_of_nonneg_right ?_ (by positivity)
      rw [sq]
      exact le_mul_of_one_le_left (by linarith) hp0
    have h4 : (1 + u) ^ n * (n * θ) ≤ 51 / 50 * (q ^ 2 * ε ^ 2) := by
      rw [hqq]
      exact mul_le_mul hpn (mul_le_mul_of_nonneg_left hθs (by positivity)) (by positivity) (by norm_num)
    have h5 : 0 ≤ ((1 + u) ^ (n + 3) * L) * (q * ε) := by positivity
    have h6 : 0 ≤ (q * ε) ^ 2 := by positivity
    nlinarith
  have h7 : d ≤ (1 + u) * Real.sqrt Q + θ := by
    have := abs_le.1 hdQ
    linarith [this.2]
  have h8 : (1 + u) * ((1 + u) ^ (n + 3) * L) ≤ (1 + 2 * (n + 4) * u) * L := by
    have : (1 + u) * (1 + u) ^ (n + 3) ≤ 1 + 2 * (n + 4) * u := by
      have := pow_small hu (n + 4) (by push_cast; nlinarith)
      push_cast at this
      calc (1 + u) * (1 + u) ^ (n + 3) = (1 + u) ^ (n + 4) := by ring
        _ ≤ _ := this
    calc _ = ((1 + u) * (1 + u) ^ (n + 3)) * L := by ring
      _ ≤ _ := mul_le_mul_of_nonneg_right this hl
  have h9 : (1 + u) * Real.sqrt Q ≤ (1 + u) * ((1 + u) ^ (n + 3) * L + 11 / 10 * (q * ε)) := mul_le_mul_of_nonneg_left hsqrt (by linarith)
  have h10 : ε ≤ q * ε := le_mul_of_one_le_left hε hq1
  have h11 : u * (q * ε) ≤ 1 / 1100 * (q * ε) := mul_le_mul_of_nonneg_right hu1 (by positivity)
  nlinarith

/-- The finite values of `z` are close to a point of the line `ξ + s δ`, `lo ≤ s ≤ hi`. -/
def NearLine (ext : F → Option EReal) (ξ δ : Fin n → ℝ) (lo hi E : ℝ) (z : Fin n → F) : Prop :=
  ∀ ζ, HasValues ext z ζ → ∃ s, lo ≤ s ∧ s ≤ hi ∧ ∀ j, |ζ j - (ξ j + s * δ j)| ≤ E

theorem NearLine.mono {ξ δ : Fin n → ℝ} {lo hi E E' : ℝ} {z : Fin n → F} (h : NearLine ext ξ δ lo hi E z) (hE : E ≤ E') : NearLine ext ξ δ lo hi E' z :=
  fun ζ hζ => by
    obtain ⟨s, h1, h2, h3⟩ := h ζ hζ
    exact ⟨s, h1, h2, fun j => (h3 j).trans hE⟩

/-- The rounded midpoint of two points near the line. -/
theorem NearLine.mid (R : RoundingOps F ext u θ Ω) {ξ δ : Fin n → ℝ} {lo hi E W : ℝ} (hu4 : u ≤ 1 / 4) (hW : ∀ s, lo ≤ s → s ≤ hi → ∀ j, |ξ j + s * δ j| ≤ W)
    (hEW : E ≤ W) (hθ : θ ≤ u * W / 2) {l r : Fin n → F} (hl : NearLine ext ξ δ lo hi E l) (hr : NearLine ext ξ δ lo hi E r) :
    NearLine ext ξ δ lo hi (E + 5 * (u * W)) fun i => (l i + r i) / two := by
  intro ζ hζ
  have hu := R.u_nonneg
  have h2 : ext (two : F) = some ((2 : ℝ) : EReal) := R.ofInt 2 (by norm_num)
  have hdiv := fun j => R.div _ _ 2 (ζ j) h2 (by norm_num) (hζ j)
  choose w hw hwe using hdiv
  have hadd := fun j => R.add _ _ _ (hw j)
  choose lv rv hlv hrv hae using hadd
  obtain ⟨sl, a1, a2, a3⟩ := hl lv hlv
  obtain ⟨sr, b1, b2, b3⟩ := hr rv hrv
  refine ⟨(sl + sr) / 2, by linarith, by linarith, fun j => ?_⟩
  have c1 := hW sl a1 a2 j
  have c2 := hW sr b1 b2 j
  have d1 : |lv j| ≤ W + E := by
    have := abs_sub_abs_le_abs_sub (lv j) (ξ j + sl * δ j)
    linarith [a3 j]
  have d2 : |rv j| ≤ W + E := by
    have := abs_sub_abs_le_abs_sub (rv j) (ξ j + sr * δ j)
    linarith [b3 j]
  have d3 : |lv j + rv j| ≤ 4 * W := (abs_add_le _ _).trans (by linarith)
  have e1 : |w j - (lv j + rv j)| ≤ 4 * (u * W) := (hae j).trans (by nlinarith)
  have hW0 : 0 ≤ W := (abs_nonneg _).trans c1
  have hUW : 0 ≤ u * W := mul_nonneg hu hW0
  have d4 : |w j / 2| ≤ 5 / 2 * W := by
    have := abs_sub_abs_le_abs_sub (w j) (lv j + rv j)
    rw [abs_div, abs_two]
    nlinarith
  have e2 : |ζ j - w j / 2| ≤ 5 / 2 * (u * W) + u * W / 2 := (hwe j).trans (by nlinarith)
  have e3 : |lv j - (ξ j + sl * δ j)| ≤ E := a3 j
  have e4 : |rv j - (ξ j + sr * δ j)| ≤ E := b3 j
  have hx : ζ j - (ξ j + (sl + sr) / 2 * δ j) =
      (ζ j - w j / 2) + ((w j - (lv j + rv j)) / 2 + ((lv j - (ξ j + sl * δ j)) / 2 + (rv j - (ξ j + sr * δ j)) / 2)) := by ring
  rw [hx, abs_le]
  have := abs_le.1 e1; have := abs_le.1 e2; have := abs_le.1 e3; have := abs_le.1 e4
  constructor <;> linarith

/-- The bisection returns a point that was accepted and is near the line. -/
theorem bisect_near (R : RoundingOps F ext u θ Ω) {ξ δ : Fin n → ℝ} {lo hi W : ℝ} (hu4 : u ≤ 1 / 4) (hW : ∀ s, lo ≤ s → s ≤ hi → ∀ j, |ξ j + s * δ j| ≤ W)
    (hW0 : 0 ≤ W) (hθ : θ ≤ u * W / 2) (inside : (Fin n → F) → Out Bool) (ERR : F) (fuel : ℕ) :
    ∀ (l r mid m : Fin n → F) (E : ℝ), NearLine ext ξ δ lo hi E l → NearLine ext ξ δ lo hi E r → NearLine ext ξ δ lo hi E mid →
      E + fuel * (5 * (u * W)) ≤ W → HitRun.bisect inside ERR fuel l r mid = .ok m →
        NearLine ext ξ δ lo hi (E + fuel * (5 * (u * W))) m ∧ inside m = .ok true := by
  have hUW : 0 ≤ u * W := mul_nonneg R.u_nonneg hW0
  induction fuel with
  | zero =>
    intro l r mid m E hl hr hm _ h
    unfold HitRun.bisect at h
    obtain ⟨c, hc, h⟩ := Out.bind_eq_ok.1 h
    cases c with
    | true => cases h
    | false =>
      cases h
      refine ⟨by simpa using hm, ?_⟩
      split_ifs at hc
      · cases hc
      · obtain ⟨c', hc', h'⟩ := Out.bind_eq_ok.1 hc
        cases c' with
        | true => exact hc'
        | false => cases h'
  | succ fuel ih =>
    intro l r mid m E hl hr hm hEW h
    push_cast at hEW
    unfold HitRun.bisect at h
    obtain ⟨c, hc, h⟩ := Out.bind_eq_ok.1 h
    cases c with
    | true =>
      have hfu : 0 ≤ (fuel : ℝ) * (5 * (u * W)) := by positivity
      have hmid := NearLine.mid R hu4 hW (by linarith) hθ hl hr
      have hle : E ≤ E + 5 * (u * W) := by linarith
      have hcast : E + ((fuel + 1 : ℕ) : ℝ) * (5 * (u * W)) = E + 5 * (u * W) + fuel * (5 * (u * W)) := by push_cast; ring
      obtain ⟨c', _, h⟩ := Out.bind_eq_ok.1 h
      rw [hcast]
      cases c' with
      | true => exact ih _ _ _ m _ hmid (hr.mono hle) hmid (by linarith) h
      | false => exact ih _ _ _ m _ (hl.mono hle) hmid hmid (by linarith) h
    | false =>
      cases h
      have hfu : 0 ≤ ((fuel + 1 : ℕ) : ℝ) * (5 * (u * W)) := by positivity
      refine ⟨hm.mono (by linarith), ?_⟩
      split_ifs at hc
      · cases hc
      · obtain ⟨c', hc', h'⟩ := Out.bind_eq_ok.1 hc
        cases c' with
        | true => exact hc'
        | false => cases h'

/-- The far end of a chord: `x + 2 dist dir`, with `dist` the computed distance from `x` to the first trial point or to a point that was accepted. -/
theorem expand_spec (inside : (Fin n → F) → Out Bool) (dir x : Fin n → F) (fuel : ℕ) :
    ∀ f0 f, HitRun.expand inside dir x fuel f0 = .ok f → ∃ g, (g = f0 ∨ inside g = .ok true) ∧ f = fun i => x i + two * distance x g * dir i := by
  induction fuel with
  | zero => intro f0 f h; cases h
  | succ fuel ih =>
    intro f0 f h
    obtain ⟨c, hc, h⟩ := Out.bind_eq_ok.1 h
    cases c with
    | false => cases h; exact ⟨f0, .inl rfl, rfl⟩
    | true =>
      obtain ⟨g, hg, rfl⟩ := ih _ _ h
      rcases hg with rfl | hg
      · exact ⟨_, .inr hc, rfl⟩
      · exact ⟨g, .inr hg, rfl⟩

/-- The numbers `q = √n`, `ε = u B` of the estimates. -/
structure Mags (u θ B q ε : ℝ) (n : ℕ) : Prop where
  ε_eq : ε = u * B
  q_sq : q ^ 2 = n
  q_one : 1 ≤ q
  q_n : q ≤ n
  ε_nonneg : 0 ≤ ε
  ε_B : ε ≤ 1 / 1100 * B
  B_q : B ≤ q * B
  ε_q : ε ≤ q * ε
  qε : q * ε ≤ 1 / 1100 * (q * B)
  uqB : u * (q * B) = q * ε
  θ_ε : θ ≤ ε

theorem FineFor.mags (hS : FineFor u θ B n N) (R : Rounding F ext u θ Ω) : Mags u θ B (Real.sqrt n) (u * B) n := by
  have hB := hS.pos
  have hu := R.u_nonneg
  have hu1 := hS.u_le R
  have hn1 : (1 : ℝ) ≤ n := by exact_mod_cast hS.dim
  have hq1 : 1 ≤ Real.sqrt n := by rw [Real.one_le_sqrt]; exact hn1
  have hqq : Real.sqrt n ^ 2 = n := Real.sq_sqrt (by positivity)
  have hqn : Real.sqrt n ≤ n := by nlinarith
  have hε0 : 0 ≤ u * B := mul_nonneg hu hB.le
  have hεB : u * B ≤ 1 / 1100 * B := mul_le_mul_of_nonneg_right hu1 hB.le
  exact ⟨rfl, hqq, hq1, hqn, hε0, hεB, le_mul_of_one_le_left hB.le hq1, le_mul_of_one_le_left hε0 hq1, by nlinarith, by ring, hS.θ_B⟩

/-- The far end of a chord is near the line. -/
theorem far_near (R : RoundingOps F ext u θ Ω) (hS : FineFor u θ B n N) {q ε : ℝ} (hq : Real.sqrt n = q) (M : Mags u θ B q ε n)
    {Rr : F} {ρ : ℝ} (hρ : ext Rr = some (ρ : EReal)) (hρB : |ρ| ≤ B)
    {x dir : Fin n → F} {ξ δ : Fin n → ℝ} (hx : HasValues ext x ξ) (hξ : ∀ j, |ξ j| ≤ B) (hδ : HasValues ext dir δ) (hdj : ∀ j, |δ j| ≤ 103 / 100)
    {g f : Fin n → F} (hg : (g = fun i => x i + Rr * dir i) ∨ ∀ γ, HasValues ext g γ → ∀ j, |γ j| ≤ B) (hf : f = fun i => x i + two * distance x g * dir i) :
    NearLine ext ξ δ (-θ) (21 / 5 * (q * B)) (12 * (q * ε)) f := by
  have hu := R.u_nonneg
  have hθ := R.θ_nonneg
  have hB := hS.pos
  have hnu := hS.nu_le R.toRounding
  have hu1 := hS.u_le R.toRounding
  obtain ⟨hε, hqq, hq1, hqn, hε0, hεB, hBq, hεq, hqεB, huqB, hθB⟩ := M
  intro φ hφ
  rw [hf] at hφ
  have hadd := fun j => R.add _ _ _ (hφ j)
  choose a v ha hv hav using hadd
  have haξ : ∀ j, a j = ξ j := fun j => ext_inj (ha j) (hx j)
  have hmul := fun j => R.mul _ _ _ (hv j)
  choose σ d' hσ hd' hvd using hmul
  have hdδ : ∀ j, d' j = δ j := fun j => ext_inj (hd' j) (hδ j)
  have j0 : Fin n := ⟨0, hS.dim⟩
  have hσj : ∀ j, σ j = σ j0 := fun j => ext_inj (hσ j) (hσ j0)
  obtain ⟨t, dd, htt, hdd, hσe⟩ := R.mul _ _ _ (hσ j0)
  have ht2 : t = 2 := ext_inj htt (R.ofInt 2 (by norm_num))
  subst ht2
  obtain ⟨ξ2, γ, hξ2, hγ, hdd0, hddle⟩ := distance_up R hS hdd
  have : ξ2 = ξ := funext fun j => ext_inj (hξ2 j) (hx j)
  subst this
  -- the trial point is at most 2 B away in every coordinate
  have hγ2 : ∀ j, |(ξ2 - γ) j| ≤ 2 * B := by
    intro j
    rw [Pi.sub_apply]
    rcases hg with rfl | hg
    · obtain ⟨c, v, hc, hv', hcv⟩ := R.add _ _ _ (hγ j)
      have : c = ξ2 j := ext_inj hc (hx j)
      subst this
      obtain ⟨r, e, hr, he, hre⟩ := R.mul _ _ _ hv'
      have : r = ρ := ext_inj hr hρ
      subst this
      have : e = δ j := ext_inj he (hδ j)
      subst this
      have h1 : |r * δ j| ≤ 103 / 100 * B := by
        rw [abs_mul]
        have := mul_le_mul hρB (hdj j) (abs_nonneg _) hB.le
        linarith
      have h2 : |v - r * δ j| ≤ 1 / 100 * B := by
        have := mul_le_mul hu1 h1 (abs_nonneg _) (by norm_num)
        linarith
      have h3 : |v| ≤ 105 / 100 * B := by
        have := abs_sub_abs_le_abs_sub v (r * δ j)
        linarith
      have h4 : |ξ2 j + v| ≤ 3 * B := (abs_add_le _ _).trans (by linarith [hξ j])
      have h5 : |γ j - (ξ2 j + v)| ≤ 3 * ε := by
        have := mul_le_mul_of_nonneg_left h4 hu
        rw [hε]
        linarith
      have := abs_le.1 h5; have := abs_le.1 h3
      rw [abs_le]
      constructor <;> linarith
    · have h1 := hg γ hγ j
      have := abs_sub (ξ2 j) (γ j)
      linarith [hξ j]
  have hlen := len_le_of_coords _ (by positivity) hγ2
  rw [hq] at hlen hddle
  rw [← hε] at hddle
  have hddb : dd ≤ 207 / 100 * (q * B) := by
    have h0 : 1 + 2 * (n + 4) * u ≤ 102 / 100 := by linarith
    have h1 : (1 + 2 * (n + 4) * u) * len (ξ2 - γ) ≤ 102 / 100 * (q * (2 * B)) := mul_le_mul h0 hlen (len_nonneg _) (by norm_num)
    linarith
  have hσ2 := abs_le.1 hσe
  rw [abs_of_nonneg (by linarith : (0 : ℝ) ≤ 2 * dd)] at hσ2
  have hudd : u * dd ≤ 207 / 100 * (q * ε) := by
    rw [← huqB]; have := mul_le_mul_of_nonneg_left hddb hu; linarith
  have huddd : u * dd ≤ dd := by
    have := mul_le_mul_of_nonneg_right R.u_lt_one.le hdd0
    linarith
  have hs1 : -θ ≤ σ j0 := by linarith [hσ2.1]
  have hs2 : σ j0 ≤ 21 / 5 * (q * B) := by linarith [hσ2.2]
  refine ⟨σ j0, hs1, hs2, fun j => ?_⟩
  have hsa : |σ j0| ≤ 21 / 5 * (q * B) := abs_le.2 ⟨by linarith, hs2⟩
  have h1 : |σ j0 * δ j| ≤ 44 / 10 * (q * B) := by
    rw [abs_mul]
    have := mul_le_mul hsa (hdj j) (abs_nonneg _) (by linarith)
    linarith
  have h2 : |v j - σ j0 * δ j| ≤ 44 / 10 * (q * ε) + ε := by
    have h3 := hvd j
    rw [hσj j, hdδ j] at h3
    have := mul_le_mul_of_nonneg_left h1 hu
    linarith
  have h3 : |a j + v j| ≤ 6 * (q * B) := by
    have h4 := abs_sub_abs_le_abs_sub (v j) (σ j0 * δ j)
    have h5 := abs_add_le (a j) (v j)
    rw [haξ j] at h5 ⊢
    linarith [hξ j]
  have h4 : |φ j - (a j + v j)| ≤ 6 * (q * ε) := by
    have := mul_le_mul_of_nonneg_left h3 hu
    linarith [hav j]
  rw [haξ j] at h4
  have := abs_le.1 h2; have := abs_le.1 h4
  rw [abs_le]
  constructor <;> linarith

/-- The computed length of a chord. -/
theorem chord_length (hS : FineFor u θ B n N) (R : Rounding F ext u θ Ω) {q ε : ℝ} (M : Mags u θ B q ε n) {s P L D : ℝ} (hs1 : -θ ≤ s)
    (hs2 : s ≤ 21 / 5 * (q * B)) (hD : D ≤ 1 + 3 * (n + 4) * u) (hL : L ≤ |s| * D + q * ((42 + 30 * N) * (q * ε)))
    (hP : P ≤ (1 + 2 * (n + 4) * u) * L + 3 * (q * ε)) : P ≤ s + 160 * (n * (n + N) * ε) ∧ P ≤ 5 * (n * B) := by
  have hu := R.u_nonneg
  have hB := hS.pos
  have hnu := hS.nu_le R
  have hNu := hS.Nu_le R
  have hn1 : (1 : ℝ) ≤ n := by exact_mod_cast hS.dim
  obtain ⟨hε, hqq, hq1, hqn, hε0, hεB, hBq, hεq, hqεB, huqB, hθB⟩ := M
  have hqqE : q * ((42 + 30 * N) * (q * ε)) = (42 + 30 * N) * (n * ε) := by rw [← hqq]; ring
  rw [hqqE] at hL
  have hs0 : |s| ≤ s + 2 * ε := abs_le.2 ⟨by linarith, by linarith⟩
  have hs4 : |s| ≤ 21 / 5 * (q * B) := abs_le.2 ⟨by linarith, hs2⟩
  obtain ⟨a, ha⟩ : ∃ a, a = 2 * ((n : ℝ) + 4) * u := ⟨_, rfl⟩
  rw [← ha] at hP
  have ha0 : 0 ≤ a := by rw [ha]; positivity
  have ha1 : a ≤ 2 / 100 := by rw [ha]; linarith
  have hδ2 : D ≤ 1 + 3 / 2 * a := by rw [ha]; linarith
  have hnε0 : 0 ≤ (n : ℝ) * ε := by positivity
  have hNn0 : 0 ≤ (N : ℝ) * (n * ε) := by positivity
  have hqεn : q * ε ≤ n * ε := mul_le_mul_of_nonneg_right hqn hε0
  have hqBn : q * B ≤ n * B := mul_le_mul_of_nonneg_right hqn hB.le
  have hsa := abs_nonneg s
  have hP2 : P ≤ (1 + a) * (|s| * (1 + 3 / 2 * a) + (42 + 30 * N) * (n * ε)) + 3 * (q * ε) := by
    have h1 : L ≤ |s| * (1 + 3 / 2 * a) + (42 + 30 * N) * (n * ε) := by
      have := mul_le_mul_of_nonneg_left hδ2 (abs_nonneg s)
      linarith
    have := mul_le_mul_of_nonneg_left h1 (by linarith : 0 ≤ 1 + a)
    linarith
  have hP3 : P ≤ |s| + 255 / 100 * (a * |s|) + 102 / 100 * ((42 + 30 * N) * (n * ε)) + 3 * (q * ε) := by
    have h1 : (1 + a) * ((42 + 30 * N) * (n * ε)) ≤ 102 / 100 * ((42 + 30 * N) * (n * ε)) := mul_le_mul_of_nonneg_right (by linarith) (by positivity)
    have h3 : 0 ≤ a * |s| := mul_nonneg ha0 hsa
    have h4 : a * |s| * a ≤ a * |s| * (2 / 100) := mul_le_mul_of_nonneg_left ha1 h3
    have h2 : (1 + a) * (|s| * (1 + 3 / 2 * a)) = |s| + 5 / 2 * (a * |s|) + 3 / 2 * (a * |s| * a) := by ring
    linarith
  have has : a * |s| ≤ 84 / 10 * (n * (n * ε) + 4 * (n * ε)) := by
    calc a * |s| ≤ a * (21 / 5 * (q * B)) := mul_le_mul_of_nonneg_left hs4 ha0
      _ ≤ a * (21 / 5 * (n * B)) := mul_le_mul_of_nonneg_left (by linarith) ha0
      _ = _ := by rw [ha, hε]; ring
  have hnn : n * ε ≤ n * (n * ε) := le_mul_of_one_le_left hnε0 hn1
  constructor
  · have : 160 * (n * (n + N) * ε) = 160 * (n * (n * ε)) + 160 * (N * (n * ε)) := by ring
    rw [this]
    linarith
  · have h1 : a * |s| ≤ 2 / 100 * (21 / 5 * (q * B)) := mul_le_mul ha1 hs4 (abs_nonneg _) (by norm_num)
    have h2 : N * (n * ε) + 10 * (n * ε) ≤ 1 / 100 * (n * B) := by
      have : (N + 10) * u * (n * B) ≤ 1 / 100 * (n * B) := mul_le_mul_of_nonneg_right hNu (by positivity)
      rw [hε]; linarith
    have h3 : 0 < (n : ℝ) * B := by positivity
    linarith

/-- The bisection of a chord search: the computed length is at most that of the chord up to an accepted point near the line, up to rounding. -/
theorem bisect_length (R : RoundingOps F ext u θ Ω) (hS : FineFor u θ B n N) {q ε : ℝ} (hq : Real.sqrt n = q) (M : Mags u θ B q ε n)
    {ERR : F} {x : Fin n → F} {ξ' δ : Fin n → ℝ} (hx : HasValues ext x ξ') (hξ : ∀ j, |ξ' j| ≤ B) (hδl : len δ ≤ 1 + 3 * (n + 4) * u)
    (hdj : ∀ j, |δ j| ≤ 103 / 100) (inside : (Fin n → F) → Out Bool) {f : Fin n → F}
    (hfar : NearLine ext ξ' δ (-θ) (21 / 5 * (q * B)) (12 * (q * ε)) f) {m : Fin n → F} {μ : Fin n → ℝ} {P : ℝ}
    (hm : HitRun.bisect inside ERR N x f (fun i => (x i + f i) / two) = .ok m) (hμ : HasValues ext m μ)
    (hP0 : 0 ≤ P) (hP : P ≤ (1 + 2 * (n + 4) * u) * len (μ - ξ') + 3 * (q * ε)) :
    ∃ m μ s, inside m = .ok true ∧ HasValues ext m μ ∧ -θ ≤ s ∧ s ≤ 21 / 5 * (q * B) ∧
      (∀ j, |μ j - (ξ' j + s * δ j)| ≤ (42 + 30 * N) * (q * ε)) ∧ 0 ≤ P ∧ P ≤ s + 160 * (n * (n + N) * ε) ∧ P ≤ 5 * (n * B) := by
  have hu := R.u_nonneg
  have hθ := R.θ_nonneg
  have hB := hS.pos
  have hnu := hS.nu_le R.toRounding
  have hNu := hS.Nu_le R.toRounding
  have hu1 := hS.u_le R.toRounding
  have M' := M
  obtain ⟨hε, hqq, hq1, hqn, hε0, hεB, hBq, hεq, hqεB, huqB, hθB⟩ := M
  have hqB0 : 0 ≤ q * B := by linarith
  have hqε0 : 0 ≤ q * ε := by linarith
  -- the line stays within 6 q B
  have hW : ∀ s, -θ ≤ s → s ≤ 21 / 5 * (q * B) → ∀ j, |ξ' j + s * δ j| ≤ 6 * (q * B) := by
    intro s h1 h2 j
    have hsa : |s| ≤ 21 / 5 * (q * B) := abs_le.2 ⟨by linarith, h2⟩
    have h3 : |s * δ j| ≤ 44 / 10 * (q * B) := by
      rw [abs_mul]
      have := mul_le_mul hsa (hdj j) (abs_nonneg _) (by linarith)
      linarith
    have := abs_add_le (ξ' j) (s * δ j)
    linarith [hξ j]
  have hUW : u * (6 * (q * B)) = 6 * (q * ε) := by rw [← huqB]; ring
  have hθW : θ ≤ u * (6 * (q * B)) / 2 := by rw [hUW]; linarith
  have n1 : NearLine ext ξ' δ (-θ) (21 / 5 * (q * B)) (12 * (q * ε)) x := fun ζ hζ => by
    have : ζ = ξ' := funext fun j => ext_inj (hζ j) (hx j)
    subst this
    refine ⟨0, by linarith, by linarith, fun j => ?_⟩
    simp only [zero_mul, add_zero, sub_self, abs_zero]
    linarith
  have n2 := NearLine.mid R (by linarith) hW (by linarith) hθW n1 hfar
  have hNε : (N + 10) * u * (q * B) ≤ 1 / 100 * (q * B) := mul_le_mul_of_nonneg_right hNu hqB0
  have hNε' : N * (q * ε) + 10 * (q * ε) ≤ 1 / 100 * (q * B) := by rw [← huqB]; linarith
  obtain ⟨n3, hacc⟩ := bisect_near R (by linarith) hW (by linarith) hθW inside ERR N x f _ m (12 * (q * ε) + 5 * (u * (6 * (q * B))))
    (n1.mono (by rw [hUW]; linarith)) (NearLine.mono hfar (by rw [hUW]; linarith)) n2 (by rw [hUW]; linarith) hm
  obtain ⟨s, hs1, hs2, hs3⟩ := n3 μ hμ
  rw [hUW] at hs3
  have hE : ∀ j, |μ j - (ξ' j + s * δ j)| ≤ (42 + 30 * N) * (q * ε) := fun j => (hs3 j).trans (by linarith)
  have hE0 : 0 ≤ (42 + 30 * (N : ℝ)) * (q * ε) := mul_nonneg (by positivity) hqε0
  have hlen : len (μ - ξ') ≤ |s| * len δ + q * ((42 + 30 * N) * (q * ε)) := by
    have h1 : μ - ξ' = s • δ + (μ - (ξ' + s • δ)) := by abel
    rw [h1]
    refine (len_add_le _ _).trans (add_le_add (le_of_eq (len_smul _ _)) ?_)
    have := len_le_of_coords (μ - (ξ' + s • δ)) hE0 (fun j => by simpa using hE j)
    rwa [hq] at this
  obtain ⟨r1, r2⟩ := chord_length hS R.toRounding M' hs1 hs2 hδl hlen hP
  exact ⟨m, μ, s, hacc, hμ, hs1, hs2, hE, hP0, r1, r2⟩

/-- One chord search: the computed length is at most that of the chord up to an accepted point near the line, up to rounding. -/
theorem search_near (R : RoundingOps F ext u θ Ω) (hS : FineFor u θ B n N) {q ε : ℝ} (hq : Real.sqrt n = q) (M : Mags u θ B q ε n)
    {Rr ERR : F} {ρ : ℝ} (hρ : ext Rr = some (ρ : EReal)) (hρB : |ρ| ≤ B)
    {x dir : Fin n → F} {ξ δ : Fin n → ℝ} (hx : HasValues ext x ξ) (hξ : ∀ j, |ξ j| ≤ B) (hδ : HasValues ext dir δ) (hδl : len δ ≤ 1 + 3 * (n + 4) * u)
    (inside : (Fin n → F) → Out Bool) (hin : ∀ z ζ, inside z = .ok true → HasValues ext z ζ → ∀ j, |ζ j| ≤ B) {p : F} {P : ℝ}
    (h : ((HitRun.expand inside dir x N fun i => x i + Rr * dir i).bind fun farth =>
      (HitRun.bisect inside ERR N x farth fun i => (x i + farth i) / two).bind fun mid => .ok (distance mid x)) = .ok p)
    (hp : ext p = some (P : EReal)) :
    ∃ m μ s, inside m = .ok true ∧ HasValues ext m μ ∧ -θ ≤ s ∧ s ≤ 21 / 5 * (q * B) ∧
      (∀ j, |μ j - (ξ j + s * δ j)| ≤ (42 + 30 * N) * (q * ε)) ∧ 0 ≤ P ∧ P ≤ s + 160 * (n * (n + N) * ε) ∧ P ≤ 5 * (n * B) := by
  have hu := R.u_nonneg
  have hθ := R.θ_nonneg
  have hB := hS.pos
  have hnu := hS.nu_le R.toRounding
  have hNu := hS.Nu_le R.toRounding
  have hu1 := hS.u_le R.toRounding
  have M' := M
  obtain ⟨hε, hqq, hq1, hqn, hε0, hεB, hBq, hεq, hqεB, huqB, hθB⟩ := M
  obtain ⟨f, hf, h⟩ := Out.bind_eq_ok.1 h
  obtain ⟨m, hm, h⟩ := Out.bind_eq_ok.1 h
  cases h
  obtain ⟨μ, ξ', hμ, hξ', hP0, hP⟩ := distance_up R hS hp
  have : ξ' = ξ := funext fun j => ext_inj (hξ' j) (hx j)
  subst this
  rw [hq, ← hε] at hP
  obtain ⟨g, hg, hfg⟩ := expand_spec inside dir x N _ _ hf
  have hdj : ∀ j, |δ j| ≤ 103 / 100 := fun j => (coord_le_len δ j).trans (hδl.trans (by linarith))
  have hfar := far_near R hS hq M' hρ hρB hx hξ hδ hdj (hg.imp_right fun h γ hγ => hin g γ h hγ) hfg
  exact bisect_length R hS hq M' hx hξ hδl hdj inside hfar hm hμ hP0 hP

/-- The random point of the chord, computed. -/
theorem mix_bounds {H κ P Q v γ D E T : ℝ} (hu : 0 ≤ u) (hu1 : u ≤ 1 / 1100) (hH : 0 ≤ H) (hκ : κ = u * H) (hθ0 : 0 ≤ θ) (hθ : θ ≤ κ)
    (hP0 : 0 ≤ P) (hP : P ≤ 5 * H) (hQ0 : 0 ≤ Q) (hQ : Q ≤ 5 * H) (hv0 : 0 ≤ v) (hv1 : v ≤ 1)
    (h1 : |γ - Q * (-1)| ≤ u * |Q * (-1)| + θ) (h2 : |D - (P - γ)| ≤ u * |P - γ|) (h3 : |E - v * D| ≤ u * |v * D| + θ)
    (h4 : |T - (E + γ)| ≤ u * |E + γ|) : -Q - 51 * κ ≤ T ∧ T ≤ P + 51 * κ := by
  have hκ0 : 0 ≤ κ := by rw [hκ]; positivity
  have hκH : κ ≤ 1 / 1100 * H := by rw [hκ]; exact mul_le_mul_of_nonneg_right hu1 hH
  have e0 : |Q * (-1)| ≤ 5 * H := by rw [mul_neg_one, abs_neg, abs_of_nonneg hQ0]; exact hQ
  have e1 : |γ - Q * (-1)| ≤ 6 * κ := by
    have := mul_le_mul_of_nonneg_left e0 hu
    linarith
  obtain ⟨a1, a2⟩ := abs_le.1 e1
  have e2 : |P - γ| ≤ 101 / 10 * H := abs_le.2 ⟨by linarith, by linarith⟩
  have e3 : |D - (P - γ)| ≤ 101 / 10 * κ := by
    have := mul_le_mul_of_nonneg_left e2 hu
    linarith
  obtain ⟨b1, b2⟩ := abs_le.1 e3
  have e4 : |D| ≤ 102 / 10 * H := by
    have := abs_sub_abs_le_abs_sub D (P - γ)
    linarith
  have e5 : |v * D| ≤ 102 / 10 * H := by
    rw [abs_mul, abs_of_nonneg hv0]
    exact (mul_le_of_le_one_left (abs_nonneg _) hv1).trans e4
  have e6 : |E - v * D| ≤ 112 / 10 * κ := by
    have := mul_le_mul_of_nonneg_left e5 hu
    linarith
  obtain ⟨c1, c2⟩ := abs_le.1 e6
  have e7 : |E + γ| ≤ 154 / 10 * H := by
    have f1 := abs_sub_abs_le_abs_sub E (v * D)
    have f2 := abs_add_le E γ
    have f3 : |γ| ≤ 51 / 10 * H := abs_le.2 ⟨by linarith, by linarith⟩
    linarith
  have e8 : |T - (E + γ)| ≤ 154 / 10 * κ := by
    have := mul_le_mul_of_nonneg_left e7 hu
    linarith
  obtain ⟨d1, d2⟩ := abs_le.1 e8
  -- `v D` against `v (P - γ)`
  have g1 : v * D ≤ v * (P - γ) + 101 / 10 * κ := by
    have : v * (D - (P - γ)) ≤ 1 * (101 / 10 * κ) :=
      (mul_le_mul_of_nonneg_left b2 hv0).trans (mul_le_mul_of_nonneg_right hv1 (by linarith))
    linarith
  have g2 : v * (P - γ) - 101 / 10 * κ ≤ v * D := by
    have : v * ((P - γ) - D) ≤ 1 * (101 / 10 * κ) :=
      (mul_le_mul_of_nonneg_left (by linarith) hv0).trans (mul_le_mul_of_nonneg_right hv1 (by linarith))
    linarith
  have g3 : v * (P - γ) ≤ P - γ + 6 * κ := by
    have : 0 ≤ (1 - v) * (P - γ + 6 * κ) := mul_nonneg (by linarith) (by linarith)
    have : 0 ≤ v * κ := mul_nonneg hv0 hκ0
    linarith
  have g4 : -(6 * κ) ≤ v * (P - γ) := by
    have h1 : 0 ≤ v * (P - γ + 6 * κ) := mul_nonneg hv0 (by linarith)
    have h2 : v * κ ≤ κ := mul_le_of_le_one_left hκ0 hv1
    linarith
  constructor <;> linarith

/-- The end of the proof of `step_near`. -/
theorem step_tail (R : RoundingOps F ext u θ Ω) (hS : FineFor u θ B n N) {q ε : ℝ} (M : Mags u θ B q ε n)
    {x dir : Fin n → F} {ξ δ δ' : Fin n → ℝ} (hx : HasValues ext x ξ) (hξ : ∀ j, |ξ j| ≤ B) (hδ : HasValues ext dir δ) (hdj : ∀ j, |δ j| ≤ 103 / 100)
    (hδe : ∀ j, |δ' j + δ j| ≤ u * |δ j| + θ) {t : F} {T : ℝ} (hT : ext t = some (T : EReal)) {ξ' : Fin n → ℝ}
    (hx' : HasValues ext (fun i => t * dir i + x i) ξ') {P Q s s' : ℝ} (hT1 : -Q - 51 * (n * ε) ≤ T) (hT2 : T ≤ P + 51 * (n * ε))
    (hP0 : 0 ≤ P) (hPs : P ≤ s + 160 * (n * (n + N) * ε)) (hPB : P ≤ 5 * (n * B)) (hQ0 : 0 ≤ Q) (hQs : Q ≤ s' + 160 * (n * (n + N) * ε))
    (hQB : Q ≤ 5 * (n * B)) (hs1 : s ≤ 21 / 5 * (q * B)) (hs0' : -θ ≤ s') (hs1' : s' ≤ 21 / 5 * (q * B)) {μ μ' : Fin n → ℝ}
    (hms : ∀ j, |μ j - (ξ j + s * δ j)| ≤ (42 + 30 * N) * (q * ε)) (hms' : ∀ j, |μ' j - (ξ j + s' * δ' j)| ≤ (42 + 30 * N) * (q * ε))
    (α : Fin n → ℝ) (c : ℝ) (hα : ∑ j, α j * μ j ≤ c) (hα' : ∑ j, α j * μ' j ≤ c) :
    ∑ j, α j * ξ' j ≤ c + 320 * (n * (n + N) * ε) * ∑ j, |α j| := by
  have hu := R.u_nonneg
  have hu1 := hS.u_le R.toRounding
  have hB := hS.pos
  have hn1 : (1 : ℝ) ≤ n := by exact_mod_cast hS.dim
  have hε0 := M.ε_nonneg
  have hnε0 : 0 ≤ n * ε := by positivity
  have hnε : ε ≤ n * ε := le_mul_of_one_le_left hε0 hn1
  have hqn : q * ε ≤ n * ε := mul_le_mul_of_nonneg_right M.q_n hε0
  have hnB0 : 0 ≤ n * B := by positivity
  have hBn : B ≤ n * B := le_mul_of_one_le_left hB.le hn1
  have hκ : u * (n * B) = n * ε := by rw [M.ε_eq]; ring
  have hκ1 : n * ε ≤ 1 / 1100 * (n * B) := by rw [← hκ]; exact mul_le_mul_of_nonneg_right hu1 hnB0
  have hθε := M.θ_ε
  have hTa : |T| ≤ 506 / 100 * (n * B) := abs_le.2 ⟨by linarith, by linarith⟩
  -- one coordinate
  have hc : ∀ j, |ξ' j - (ξ j + T * δ j)| ≤ 13 * (n * ε) := fun j => by
    obtain ⟨w, a, hw, ha, hwa⟩ := R.add _ _ _ (hx' j)
    cases ext_inj ha (hx j)
    obtain ⟨t', d, ht', hd, htd⟩ := R.mul _ _ _ hw
    cases ext_inj ht' hT
    cases ext_inj hd (hδ j)
    have h1 : |T * δ j| ≤ 522 / 100 * (n * B) := by
      rw [abs_mul]
      have := mul_le_mul hTa (hdj j) (abs_nonneg _) (by linarith)
      linarith
    have h2 : |w - T * δ j| ≤ 522 / 100 * (n * ε) + ε := by
      have := mul_le_mul_of_nonneg_left h1 hu
      linarith
    have h3 : |w + ξ j| ≤ 63 / 10 * (n * B) := by
      have f1 := abs_sub_abs_le_abs_sub w (T * δ j)
      have f2 := abs_add_le w (ξ j)
      linarith [hξ j]
    have h4 : |ξ' j - (w + ξ j)| ≤ 63 / 10 * (n * ε) := by
      have := mul_le_mul_of_nonneg_left h3 hu
      linarith
    have := abs_le.1 h2; have := abs_le.1 h4
    rw [abs_le]
    constructor <;> linarith
  set Λ := ∑ j, |α j| with hΛ
  have hΛ0 : 0 ≤ Λ := sum_nonneg fun _ _ => abs_nonneg _
  have hlin : ∀ (f g : Fin n → ℝ) (E : ℝ), (∀ j, |f j - g j| ≤ E) → ∑ j, α j * f j ≤ ∑ j, α j * g j + E * Λ := by
    intro f g E h
    rw [hΛ, mul_sum, ← sum_add_distrib]
    refine sum_le_sum fun j _ => ?_
    have h1 : α j * (f j - g j) ≤ |α j| * E := (le_abs_self _).trans (by rw [abs_mul]; exact mul_le_mul_of_nonneg_left (h j) (abs_nonneg _))
    linarith
  have hline : ∀ τ : ℝ, ∑ j, α j * (ξ j + τ * δ j) = ∑ j, α j * ξ j + τ * ∑ j, α j * δ j := by
    intro τ
    rw [mul_sum, ← sum_add_distrib]
    exact sum_congr rfl fun j _ => by ring
  have hslope : |∑ j, α j * δ j| ≤ 103 / 100 * Λ := by
    rw [hΛ, mul_sum]
    refine (abs_sum_le_sum_abs _ _).trans (sum_le_sum fun j _ => ?_)
    rw [abs_mul, mul_comm]
    exact mul_le_mul_of_nonneg_right (hdj j) (abs_nonneg _)
  have h1 := hlin ξ' (fun j => ξ j + T * δ j) _ hc
  rw [hline] at h1
  have hbig : n * ε ≤ n * (n + N) * ε := by
    have : (1 : ℝ) ≤ n + N := by
      have : (0 : ℝ) ≤ N := by positivity
      linarith
    calc n * ε = n * 1 * ε := by ring
      _ ≤ _ := by gcongr
  have hNbig : (42 + 30 * N) * (q * ε) ≤ 42 * (n * (n + N) * ε) := by
    have h2 : (42 + 30 * (N : ℝ)) * (q * ε) ≤ (42 + 30 * N) * (n * ε) := mul_le_mul_of_nonneg_left hqn (by positivity)
    have h3 : n * ε ≤ n * (n * ε) := le_mul_of_one_le_left hnε0 hn1
    have h4 : 0 ≤ N * (n * ε) := by positivity
    have h5 : n * (n + N) * ε = n * (n * ε) + N * (n * ε) := by ring
    rw [h5]
    linarith
  have hG0 : 0 ≤ n * (n + N) * ε := by positivity
  generalize n * (n + N) * ε = G at *
  obtain ⟨σ, hσ⟩ : ∃ σ, ∑ j, α j * δ j = σ := ⟨_, rfl⟩
  rw [hσ] at h1 hslope
  have hΛG : n * ε * Λ ≤ G * Λ := mul_le_mul_of_nonneg_right hbig hΛ0
  have hNΛ : (42 + 30 * N) * (q * ε) * Λ ≤ 42 * G * Λ := mul_le_mul_of_nonneg_right hNbig hΛ0
  have hσu := abs_le.1 hslope
  have hGG : (160 * G + 51 * (n * ε)) * |σ| ≤ 211 * G * (103 / 100 * Λ) :=
    mul_le_mul (by linarith) hslope (abs_nonneg _) (by linarith)
  rcases le_or_gt 0 σ with h0 | h0
  · rw [abs_of_nonneg h0] at hGG
    have h2 := hlin (fun j => ξ j + s * δ j) μ _ fun j => by rw [abs_sub_comm]; exact hms j
    rw [hline, hσ] at h2
    have h3 : T * σ ≤ (s + 160 * G + 51 * (n * ε)) * σ := mul_le_mul_of_nonneg_right (by linarith) h0
    have hGΛ : 0 ≤ G * Λ := mul_nonneg hG0 hΛ0
    linarith
  · rw [abs_of_neg h0] at hGG
    have hs'a : |s'| ≤ 21 / 5 * (q * B) := by
      have h2 : B ≤ q * B := M.B_q
      have h3 := M.ε_B
      exact abs_le.2 ⟨by linarith, hs1'⟩
    have hd' : ∀ j, |(ξ j + (-s') * δ j) - μ' j| ≤ (42 + 30 * N) * (q * ε) + 9 * (q * ε) := fun j => by
      have e1 : ξ j + -s' * δ j - μ' j = -(μ' j - (ξ j + s' * δ' j)) - s' * (δ' j + δ j) := by ring
      have e2 : |s' * (δ' j + δ j)| ≤ 9 * (q * ε) := by
        rw [abs_mul]
        have f1 : |δ' j + δ j| ≤ 205 / 100 * u := by
          have g1 := mul_le_mul_of_nonneg_left (hdj j) hu
          have g2 : θ ≤ u := by
            have := hS.θ_u
            have := le_mul_of_one_le_left R.θ_nonneg hn1
            linarith
          linarith [hδe j]
        have f2 := mul_le_mul hs'a f1 (abs_nonneg _) (by
          have := M.B_q
          linarith)
        have f3 : 21 / 5 * (q * B) * (205 / 100 * u) = 861 / 100 * (q * ε) := by rw [← M.uqB]; ring
        have f4 : 0 ≤ q * ε := hε0.trans M.ε_q
        linarith
      rw [e1]
      refine (abs_sub _ _).trans ?_
      rw [abs_neg]
      linarith [hms' j]
    have h2 := hlin (fun j => ξ j + -s' * δ j) μ' _ hd'
    rw [hline, hσ] at h2
    have h3 : T * σ ≤ (-s' - 160 * G - 51 * (n * ε)) * σ := mul_le_mul_of_nonpos_right (by linarith) h0.le
    have hqΛ : q * ε * Λ ≤ G * Λ := mul_le_mul_of_nonneg_right (hqn.trans hbig) hΛ0
    have hGΛ : 0 ≤ G * Λ := mul_nonneg hG0 hΛ0
    linarith

/-- The length of a direction multiplied by -1. -/
theorem neg_dir_len (R : Rounding F ext u θ Ω) (hS : FineFor u θ B n N) {δ δ' : Fin n → ℝ} (hδl : len δ ≤ 1 + 2 * (n + 4) * u)
    (hδe : ∀ j, |δ' j + δ j| ≤ u * |δ j| + θ) : len δ' ≤ 1 + 3 * (n + 4) * u := by
  have hu := R.u_nonneg
  have hθ0 := R.θ_nonneg
  have hnu := hS.nu_le R
  have M := hS.mags R
  obtain ⟨q, hq⟩ : ∃ q, Real.sqrt n = q := ⟨_, rfl⟩
  rw [hq] at M
  have hdj : ∀ j, |δ j| ≤ 103 / 100 := fun j => (coord_le_len δ j).trans (hδl.trans (by linarith))
  have e1 : δ' = -δ + (δ' + δ) := by abel
  have e2 : len (δ' + δ) ≤ Real.sqrt n * (u * (103 / 100) + θ) :=
    len_le_of_coords _ (by positivity) fun j => (hδe j).trans (by
      have := mul_le_mul_of_nonneg_left (hdj j) hu
      linarith)
  rw [hq] at e2
  have e3 : q * θ ≤ n * θ := mul_le_mul_of_nonneg_right M.q_n hθ0
  have e7 : q * u ≤ (n + 1) / 2 * u := by
    refine mul_le_mul_of_nonneg_right ?_ hu
    have := M.q_sq
    nlinarith [sq_nonneg (q - 1)]
  have e4 : len (-δ) = len δ := by rw [← neg_one_smul ℝ δ, len_smul]; simp
  have e5 := len_add_le (-δ) (δ' + δ)
  rw [← e1, e4] at e5
  have := hS.θ_u
  have e6 : (0 : ℝ) ≤ n * u := by positivity
  linarith

/-- One iteration: every linear bound on the accepted points holds at the next position up to rounding. -/
theorem step_near (R : RoundingOps F ext u θ Ω) (hΩ : 2 ≤ Ω) (hS : FineFor u θ B n N) {Rr ERR : F} {ρ : ℝ} (hρ : ext Rr = some (ρ : EReal)) (hρB : |ρ| ≤ B)
    {x dir : Fin n → F} {ξ δ : Fin n → ℝ} (hx : HasValues ext x ξ) (hξ : ∀ j, |ξ j| ≤ B) (hδ : HasValues ext dir δ) (hδl : len δ ≤ 1 + 2 * (n + 4) * u)
    (inside : (Fin n → F) → Out Bool) (hin : ∀ z ζ, inside z = .ok true → HasValues ext z ζ → ∀ j, |ζ j| ≤ B) {p ns val : F} {y : ℝ}
    (hval : ext val = some (y : EReal)) (hy0 : 0 ≤ y) (hy1 : y ≤ 1)
    (h : ((HitRun.expand inside dir x N fun i => x i + Rr * dir i).bind fun farth =>
      (HitRun.bisect inside ERR N x farth fun i => (x i + farth i) / two).bind fun mid => .ok (distance mid x)) = .ok p)
    (h' : ((HitRun.expand inside (fun i => dir i * Scalar.ofInt (-1)) x N fun i => x i + Rr * (dir i * Scalar.ofInt (-1))).bind fun farth =>
      (HitRun.bisect inside ERR N x farth fun i => (x i + farth i) / two).bind fun mid => .ok (distance mid x)) = .ok ns)
    {ξ' : Fin n → ℝ} (hx' : HasValues ext (fun i => (val * (p - ns * Scalar.ofInt (-1)) + ns * Scalar.ofInt (-1)) * dir i + x i) ξ')
    (α : Fin n → ℝ) (c : ℝ) (hα : ∀ z ζ, inside z = .ok true → HasValues ext z ζ → ∑ j, α j * ζ j ≤ c) :
    ∑ j, α j * ξ' j ≤ c + 320 * (n * (n + N) * (u * B)) * ∑ j, |α j| := by
  have hu := R.u_nonneg
  have hθ0 := R.θ_nonneg
  have hB := hS.pos
  have hnu := hS.nu_le R.toRounding
  have hu1 := hS.u_le R.toRounding
  have hn1 : (1 : ℝ) ≤ n := by exact_mod_cast hS.dim
  have M := hS.mags R.toRounding
  obtain ⟨q, hq⟩ : ∃ q, Real.sqrt n = q := ⟨_, rfl⟩
  obtain ⟨ε, hεd⟩ : ∃ ε, u * B = ε := ⟨_, rfl⟩
  rw [hq, hεd] at M
  rw [hεd]
  have hdj : ∀ j, |δ j| ≤ 103 / 100 := fun j => (coord_le_len δ j).trans (hδl.trans (by linarith))
  -- all the numbers involved are finite
  have j0 : Fin n := ⟨0, hS.dim⟩
  obtain ⟨w0, ξ0, hw0, -, -⟩ := R.add _ _ _ (hx' j0)
  obtain ⟨T, δ0, hT, -, -⟩ := R.mul _ _ _ hw0
  obtain ⟨E, γ, hE, hγ, hTe⟩ := R.add _ _ _ hT
  obtain ⟨y', D, hy', hD, hEe⟩ := R.mul _ _ _ hE
  cases ext_inj hy' hval
  obtain ⟨P, γ', hP, hγ', hDe⟩ := R.sub _ _ _ hD
  cases ext_inj hγ' hγ
  obtain ⟨Q, o, hQ, ho, hγe⟩ := R.mul _ _ _ hγ
  have hm1 : ext (Scalar.ofInt (-1) : F) = some (((-1 : ℝ)) : EReal) := by
    have := R.ofInt (-1) (by norm_num)
    push_cast at this
    exact this
  cases ext_inj ho hm1
  have hneg := fun j => R.mul_fin (dir j) (Scalar.ofInt (-1)) (δ j) (-1) (hδ j) hm1 (by
    rw [mul_neg_one, abs_neg]
    linarith [hdj j])
  choose δ' hδ' using hneg
  have hδe : ∀ j, |δ' j + δ j| ≤ u * |δ j| + θ := fun j => by
    obtain ⟨a, b, ha, hb, hab⟩ := R.mul _ _ _ (hδ' j)
    cases ext_inj ha (hδ j)
    cases ext_inj hb hm1
    rw [mul_neg_one, abs_neg, sub_neg_eq_add] at hab
    exact hab
  have hδl' := neg_dir_len R.toRounding hS hδl hδe
  obtain ⟨m, μ, s, hm, hμ, hs0, hs1, hms, hP0, hPs, hPB⟩ := search_near R hS hq M hρ hρB hx hξ hδ (hδl.trans (by
    have : 0 ≤ (n + 4) * u := by positivity
    linarith)) inside hin h hP
  obtain ⟨m', μ', s', hm', hμ', hs0', hs1', hms', hQ0, hQs, hQB⟩ := search_near R hS hq M hρ hρB hx hξ hδ' hδl' inside hin h' hQ
  have hκ : (n : ℝ) * ε = u * (n * B) := by rw [← hεd]; ring
  have hnε : ε ≤ n * ε := le_mul_of_one_le_left M.ε_nonneg hn1
  obtain ⟨hT1, hT2⟩ := mix_bounds hu hu1 (by positivity : 0 ≤ n * B) hκ hθ0 (M.θ_ε.trans hnε) hP0 hPB hQ0 hQB hy0 hy1 hγe hDe hEe hTe
  exact step_tail R hS M hx hξ hδ hdj hδe hT hx' hT1 hT2 hP0 hPs hPB hQ0 hQs hQB hs1 hs0' hs1' hms hms' α c (hα m μ hm hμ) (hα m' μ' hm' hμ')

end
end PW

import Verif.Lemmas.ChordFinite
import Verif.Props.HitRunFinite
import Verif.Lemmas.Membership
import Verif.Spec.KernelDraws

/-!
# C88: sparse Hit-and-Run in floating point
-/

namespace PW
open Finset

section
variable {F : Type} [Scalar F] {ext : F → Option EReal} {u θ Ω B : ℝ} {n N : ℕ}

/-- Doubling the distance: the far end is half as far again at least. -/
theorem far_grow (R : RoundingFull F ext u θ Ω) (hS : FineFor u θ B n N) {q ε : ℝ} (hq : Real.sqrt n = q) (M : Mags u θ B q ε n)
    {x g : Fin n → F} {ξ δ γ φ : Fin n → ℝ} (hx : HasValues ext x ξ) (hg : HasValues ext g γ) {d σ : ℝ} (hd : ext (distance x g) = some (d : EReal))
    (hδ1 : 97 / 100 ≤ len δ) (hσd : 2 * d - 2 * (u * d) - θ ≤ σ) (hφ : ∀ j, |φ j - (ξ j + σ * δ j)| ≤ 12 * (q * ε)) (hL : 100 * (n * ε) ≤ len (ξ - γ)) :
    3 / 2 * len (ξ - γ) ≤ len (ξ - φ) := by
  have hu := R.u_nonneg
  have hu1 := hS.u_le R.toRounding
  have hnu := hS.nu_le R.toRounding
  have hn1 : (1 : ℝ) ≤ n := by exact_mod_cast hS.dim
  have hlow := distance_low R hS hx hg hd
  rw [hq, ← M.ε_eq] at hlow
  have hl := len_nonneg (ξ - γ)
  have hε0 := M.ε_nonneg
  have hqε : q * ε ≤ n * ε := mul_le_mul_of_nonneg_right M.q_n hε0
  have hqqε : q * (12 * (q * ε)) = 12 * (n * ε) := by rw [← M.q_sq]; ring
  have hnε : ε ≤ n * ε := le_mul_of_one_le_left hε0 hn1
  have h1 : 98 / 100 * len (ξ - γ) ≤ (1 - 2 * (n + 4) * u) * len (ξ - γ) := mul_le_mul_of_nonneg_right (by linarith) hl
  have hd0 : 0 ≤ d := by linarith
  have h2 : u * d ≤ 1 / 1100 * d := mul_le_mul_of_nonneg_right hu1 hd0
  have hθ := M.θ_ε
  have h3 : 195 / 100 * len (ξ - γ) - 5 * (n * ε) ≤ σ := by linarith
  have hσ0 : 0 ≤ σ := by linarith
  have h4 : σ * len δ ≤ len (ξ - φ) + 12 * (n * ε) := by
    have e1 : σ • δ = (-1 : ℝ) • (ξ - φ) + (-1 : ℝ) • (φ - (ξ + σ • δ)) := by
      rw [neg_one_smul, neg_one_smul]; abel
    have e2 := len_add_le ((-1 : ℝ) • (ξ - φ)) ((-1 : ℝ) • (φ - (ξ + σ • δ)))
    rw [← e1, len_smul, len_smul, len_smul, abs_neg, abs_one, one_mul, one_mul, abs_of_nonneg hσ0] at e2
    have e3 := len_le_of_coords (φ - (ξ + σ • δ)) (by linarith [hε0.trans M.ε_q] : 0 ≤ 12 * (q * ε)) (fun j => by simpa using hφ j)
    rw [hq, hqqε] at e3
    linarith
  have h5 : σ * (97 / 100) ≤ σ * len δ := mul_le_mul_of_nonneg_left hδ1 hσ0
  linarith

/-- The doubling loop of the sparse class: it finds a far end near the line, or the distance has grown exponentially. -/
theorem sparse_expand_vals (R : RoundingFull F ext u θ Ω) (hΩ : Roomy Ω B n) (hS : FineFor u θ B n N) {q ε : ℝ} (hq : Real.sqrt n = q) (M : Mags u θ B q ε n)
    {x dir : Fin n → F} {ξ δ : Fin n → ℝ} (hx : HasValues ext x ξ) (hξ : ∀ j, |ξ j| ≤ B) (hδ : HasValues ext dir δ) (hdj : ∀ j, |δ j| ≤ 103 / 100)
    (hδ1 : 97 / 100 ≤ len δ) (inside : (Fin n → F) → Out Bool) (hin : ChordWithin ext θ B q ε ξ δ inside) (iters : ℕ) :
    ∀ (f0 : Fin n → F) (o : Option (Fin n → F)) (γ : Fin n → ℝ), HasValues ext f0 γ → (∀ j, |(ξ - γ) j| ≤ 2 * B) → 100 * (n * ε) ≤ len (ξ - γ) →
      SparseHitRun.expand inside dir x iters f0 = .ok o →
      (∃ f φ σ, o = some f ∧ HasValues ext f φ ∧ -θ ≤ σ ∧ σ ≤ 21 / 5 * (q * B) ∧ ∀ j, |φ j - (ξ j + σ * δ j)| ≤ 12 * (q * ε)) ∨
        (3 / 2) ^ iters * len (ξ - γ) ≤ 2 * (n * B) := by
  have hB := hS.pos
  induction iters with
  | zero =>
    intro f0 o γ _ hγ _ _
    right
    rw [pow_zero, one_mul]
    refine (len_le_of_coords _ (by positivity) hγ).trans ?_
    rw [hq]
    have := mul_le_mul_of_nonneg_right M.q_n hB.le
    linarith
  | succ iters ih =>
    intro f0 o γ hγ hγB hL h
    obtain ⟨φ, σ, d, h1, h2, h3, h4, h5, h6⟩ := far_vals R hΩ hS hq M hx hξ hδ hdj hγ hγB
    have hgrow := far_grow R hS hq M hx hγ h2 hδ1 h5 h6 hL
    obtain ⟨c, hc, h⟩ := Out.bind_eq_ok.1 h
    cases c with
    | false => cases h; exact .inl ⟨_, φ, σ, rfl, h1, h3, h4, h6⟩
    | true =>
      have hl := len_nonneg (ξ - γ)
      rcases ih _ o φ h1 (fun j => by
        have := hin _ φ hc h1 ⟨σ, h3, h4, h6⟩ j
        rw [Pi.sub_apply]
        exact (abs_sub _ _).trans (by linarith [hξ j])) (by linarith) h with h7 | h7
      · exact .inl h7
      · right
        refine le_trans ?_ h7
        rw [pow_succ, mul_assoc]
        exact mul_le_mul_of_nonneg_left hgrow (by positivity)

/-- One chord search of the sparse class. -/
theorem sparse_search_vals (R : RoundingFull F ext u θ Ω) (hΩ : Roomy Ω B n) (hS : FineFor u θ B n N) {q ε : ℝ} (hq : Real.sqrt n = q) (M : Mags u θ B q ε n)
    (hit : 1 ≤ (3 / 2) ^ SparseHitRun.maxIter * u) {Rr ERR : F} {ρ : ℝ} (hρ : ext Rr = some (ρ : EReal)) (hρ1 : 110 * (n * ε) ≤ ρ) (hρB : ρ ≤ B)
    {x dir : Fin n → F} {ξ δ : Fin n → ℝ} (hx : HasValues ext x ξ) (hξ : ∀ j, |ξ j| ≤ B) (hδ : HasValues ext dir δ) (hδl : len δ ≤ 1 + 3 * (n + 4) * u)
    (hδ1 : 97 / 100 ≤ len δ) {k : ℕ} (hin : ChordWithin ext θ B q ε ξ δ (inPolytopeK · k)) {p : F}
    (h : SparseHitRun.binarySearch Rr ERR N k dir x = .ok p) :
    ∃ P m μ s, ext p = some ((P : ℝ) : EReal) ∧ inPolytopeK m k = .ok true ∧ HasValues ext m μ ∧ -θ ≤ s ∧ s ≤ 21 / 5 * (q * B) ∧
      (∀ j, |μ j - (ξ j + s * δ j)| ≤ (42 + 30 * N) * (q * ε)) ∧ 0 ≤ P ∧ P ≤ s + 160 * (n * (n + N) * ε) ∧ P ≤ 5 * (n * B) := by
  have hu := R.u_nonneg
  have hB := hS.pos
  have hnu := hS.nu_le R.toRounding
  have hn1 : (1 : ℝ) ≤ n := by exact_mod_cast hS.dim
  have hε0 := M.ε_nonneg
  have hnε0 : 0 ≤ n * ε := by positivity
  have hdj : ∀ j, |δ j| ≤ 103 / 100 := fun j => (coord_le_len δ j).trans (hδl.trans (by linarith))
  have hρ0 : 0 ≤ ρ := by linarith
  obtain ⟨γ, hγ, hγB, hγρ⟩ := init_vals R hΩ hS M hρ (by rw [abs_of_nonneg hρ0]; exact hρB) hx hξ hδ hdj
  have hL : 100 * (n * ε) ≤ len (ξ - γ) := by
    have h4 : ρ * len δ ≤ len (ξ - γ) + 6 * (n * ε) := by
      have e1 : ρ • δ = (-1 : ℝ) • (ξ - γ) + (-1 : ℝ) • (γ - (ξ + ρ • δ)) := by
        rw [neg_one_smul, neg_one_smul]; abel
      have e2 := len_add_le ((-1 : ℝ) • (ξ - γ)) ((-1 : ℝ) • (γ - (ξ + ρ • δ)))
      rw [← e1, len_smul, len_smul, len_smul, abs_neg, abs_one, one_mul, one_mul, abs_of_nonneg hρ0] at e2
      have e3 := len_le_of_coords (γ - (ξ + ρ • δ)) (by positivity : 0 ≤ 6 * ε) (fun j => by simpa using hγρ j)
      rw [hq] at e3
      have e4 := mul_le_mul_of_nonneg_right M.q_n hε0
      linarith
    have h5 : ρ * (97 / 100) ≤ ρ * len δ := mul_le_mul_of_nonneg_left hδ1 hρ0
    linarith
  obtain ⟨o, ho, h⟩ := Out.bind_eq_ok.1 h
  rcases sparse_expand_vals R hΩ hS hq M hx hξ hδ hdj hδ1 _ hin SparseHitRun.maxIter _ o γ hγ hγB hL ho with ⟨f, φ, σ, rfl, h1, h2, h3, h4⟩ | hbig
  · exact search_vals R hΩ hS hq M hx hξ hδl hdj _ h1 h2 h3 h4 h
  · exfalso
    have hnB : 0 < n * B := by positivity
    generalize (3 / 2 : ℝ) ^ SparseHitRun.maxIter = K at hit hbig
    have hK : 0 ≤ K := by
      by_contra hK
      push Not at hK
      have : K * u ≤ 0 := mul_nonpos_of_nonpos_of_nonneg hK.le hu
      linarith
    have h1 : K * (100 * (n * ε)) ≤ K * len (ξ - γ) := mul_le_mul_of_nonneg_left hL hK
    have h2 : K * (100 * (n * ε)) = 100 * ((K * u) * (n * B)) := by rw [M.ε_eq]; ring
    have h3 : 1 * (n * B) ≤ (K * u) * (n * B) := mul_le_mul_of_nonneg_right hit hnB.le
    linarith

/-- One coordinate of the next position. -/
theorem move_coord (R : RoundingOps F ext u θ Ω) (hS : FineFor u θ B n N) {q ε : ℝ} (M : Mags u θ B q ε n)
    {x dir : Fin n → F} {ξ δ : Fin n → ℝ} (hx : HasValues ext x ξ) (hξ : ∀ j, |ξ j| ≤ B) (hδ : HasValues ext dir δ) (hdj : ∀ j, |δ j| ≤ 103 / 100)
    {t : F} {T : ℝ} (hT : ext t = some (T : EReal)) {ξ' : Fin n → ℝ} (hx' : HasValues ext (fun i => t * dir i + x i) ξ')
    (hTa : |T| ≤ 506 / 100 * (n * B)) : ∀ j, |ξ' j - (ξ j + T * δ j)| ≤ 13 * (n * ε) := fun j => by
  have hu := R.u_nonneg
  have hu1 := hS.u_le R.toRounding
  have hB := hS.pos
  have hn1 : (1 : ℝ) ≤ n := by exact_mod_cast hS.dim
  have hnε : ε ≤ n * ε := le_mul_of_one_le_left M.ε_nonneg hn1
  have hnB0 : 0 ≤ n * B := by positivity
  have hBn : B ≤ n * B := le_mul_of_one_le_left hB.le hn1
  have hκ : u * (n * B) = n * ε := by rw [M.ε_eq]; ring
  have hκ1 : n * ε ≤ 1 / 1100 * (n * B) := by rw [← hκ]; exact mul_le_mul_of_nonneg_right hu1 hnB0
  have hθε := M.θ_ε
  obtain ⟨w, a, hw, ha, hwa⟩ := R.add _ _ _ (hx' j)
  cases ext_inj ha (hx j)
  obtain ⟨t', d, ht', hd, htd⟩ := R.mul _ _ _ hw
  cases ext_inj ht' hT
  cases ext_inj hd (hδ j)
  have h1 : |T * δ j| ≤ 522 / 100 * (n * B) := by
    rw [abs_mul]
    have := mul_le_mul hTa (hdj j) (abs_nonneg _) (by linarith)
    linarith
  have h2 : |w - T * δ j| ≤ 522 / 100 * (n * ε) + ε := by
    have := mul_le_mul_of_nonneg_left h1 hu
    linarith
  have h3 : |w + ξ j| ≤ 63 / 10 * (n * B) := by
    have f1 := abs_sub_abs_le_abs_sub w (T * δ j)
    have f2 := abs_add_le w (ξ j)
    linarith [hξ j]
  have h4 : |ξ' j - (w + ξ j)| ≤ 63 / 10 * (n * ε) := by
    have := mul_le_mul_of_nonneg_left h3 hu
    linarith
  have := abs_le.1 h2; have := abs_le.1 h4
  rw [abs_le]
  constructor <;> linarith

/-- A point that passes the sparse test. -/
theorem passes_tail (R : Rounding F ext u θ Ω) {k : ℕ} (hk : k ≤ n) {z : Fin n → F} {ζ : Fin n → ℝ} (h : inPolytopeK z k = .ok true)
    (hz : HasValues ext z ζ) : ∀ j : Fin n, n ≤ j + k → 0 ≤ ζ j := by
  obtain ⟨c, hl, hc⟩ := (inPolytopeK_iff_passes z hk).1 h
  intro j hj
  have := (smallest_ge_zero R hl hc).2 (z j) (by
    rw [List.mem_iff_getElem]
    refine ⟨j.1 - (n - k), by simp; omega, ?_⟩
    have : n - k + (j.1 - (n - k)) = j.1 := by omega
    simp [this]) _ (hz j)
  exact_mod_cast this

/-- The residual of the normalised direction. -/
theorem normalize_residual (R : RoundingOps F ext u θ Ω) (hS : FineFor u θ B n N) {w : Fin n → F} {v : Fin n → ℝ} (hv : HasValues ext w v)
    (hS0 : 0 < ∑ j, v j ^ 2) (hSθ : n * θ ≤ u * ∑ j, v j ^ 2) (hSΩ : 2 * ∑ j, v j ^ 2 ≤ Ω) {δ : Fin n → ℝ} (hδ : HasValues ext (fun i => w i / norm2 w) δ)
    (α : Fin n → ℝ) {η : ℝ} (hα : |∑ j, α j * v j| ≤ η * Real.sqrt (∑ j, v j ^ 2)) :
    |∑ j, α j * δ j| ≤ 103 / 100 * η + 203 / 100 * (u * ∑ j, |α j|) := by
  have hu := R.u_nonneg
  have hθ := R.θ_nonneg
  have hn1 : (1 : ℝ) ≤ n := by exact_mod_cast hS.dim
  have hθu : θ ≤ u := (le_mul_of_one_le_left hθ hn1).trans hS.θ_u
  obtain ⟨⟨ν, hν, hν0, hν1, -⟩, -⟩ := normalize_len R hS hv hS0 hSθ hSΩ
  have hlv : Real.sqrt (∑ j, v j ^ 2) = len v := by
    rw [len]
    congr 1
    exact sum_congr rfl fun j _ => sq (v j)
  rw [hlv] at hα
  have hlp : 0 < len v := by rw [← hlv]; exact Real.sqrt_pos.2 hS0
  have hratio : len v / ν ≤ 103 / 100 := by
    rw [div_le_iff₀ hν0]
    linarith
  have hδe : ∀ j, |δ j - v j / ν| ≤ 203 / 100 * u := fun j => by
    obtain ⟨w', hw', hwe⟩ := R.div _ _ ν (δ j) hν hν0.ne' (hδ j)
    cases ext_inj hw' (hv j)
    have h1 : |v j / ν| ≤ 103 / 100 := by
      rw [abs_div, abs_of_pos hν0]
      exact (div_le_div_of_nonneg_right (coord_le_len v j) hν0.le).trans hratio
    have := mul_le_mul_of_nonneg_left h1 hu
    linarith
  have hsplit : ∑ j, α j * δ j = (∑ j, α j * v j) / ν + ∑ j, α j * (δ j - v j / ν) := by
    rw [sum_div, ← sum_add_distrib]
    exact sum_congr rfl fun j _ => by ring
  have h1 : |(∑ j, α j * v j) / ν| ≤ 103 / 100 * η := by
    have hη : 0 ≤ η := by
      by_contra hη
      push Not at hη
      have := mul_neg_of_neg_of_pos hη hlp
      linarith [abs_nonneg (∑ j, α j * v j)]
    rw [abs_div, abs_of_pos hν0]
    calc _ ≤ η * len v / ν := div_le_div_of_nonneg_right hα hν0.le
      _ = η * (len v / ν) := by ring
      _ ≤ η * (103 / 100) := mul_le_mul_of_nonneg_left hratio hη
      _ = _ := by ring
  have h2 : |∑ j, α j * (δ j - v j / ν)| ≤ 203 / 100 * (u * ∑ j, |α j|) := by
    refine (abs_sum_le_sum_abs _ _).trans ?_
    rw [mul_sum, mul_sum]
    refine sum_le_sum fun j _ => ?_
    rw [abs_mul]
    have := mul_le_mul_of_nonneg_left (hδe j) (abs_nonneg (α j))
    linarith
  rw [hsplit]
  exact (abs_add_le _ _).trans (add_le_add h1 h2)

/-- A linear function at a point near the line. -/
theorem residual_near {α ξ δ ζ : Fin n → ℝ} {c s E S D : ℝ} (h : ∀ j, |ζ j - (ξ j + s * δ j)| ≤ E) (hs : |s| ≤ S) (hD : |∑ j, α j * δ j| ≤ D) :
    |∑ j, α j * ζ j - c| ≤ |∑ j, α j * ξ j - c| + S * D + E * ∑ j, |α j| := by
  have hsplit : ∑ j, α j * ζ j - c = (∑ j, α j * ξ j - c) + s * (∑ j, α j * δ j) + ∑ j, α j * (ζ j - (ξ j + s * δ j)) := by
    have : ∑ j, α j * ζ j = ∑ j, α j * ξ j + s * (∑ j, α j * δ j) + ∑ j, α j * (ζ j - (ξ j + s * δ j)) := by
      rw [mul_sum, ← sum_add_distrib, ← sum_add_distrib]
      exact sum_congr rfl fun j _ => by ring
    rw [this]; ring
  rw [hsplit]
  refine (abs_add_le _ _).trans (add_le_add ((abs_add_le _ _).trans (add_le_add le_rfl ?_)) ?_)
  · rw [abs_mul]
    exact mul_le_mul hs hD (abs_nonneg _) ((abs_nonneg _).trans hs)
  · refine (abs_sum_le_sum_abs _ _).trans ?_
    rw [mul_sum]
    refine sum_le_sum fun j _ => ?_
    rw [abs_mul, mul_comm]
    exact mul_le_mul_of_nonneg_right (h j) (abs_nonneg _)

/-- One iteration of sparse Hit-and-Run. -/
theorem sparseHitRun_step_vals (R : RoundingFull F ext u θ Ω) (hΩ : Roomy Ω B n) (hS : FineFor u θ B n N) (hS2 : 640 * (n * (n + N) * u) ≤ 1)
    (hit : 1 ≤ (3 / 2) ^ SparseHitRun.maxIter * u) {Rr ERR : F} {ρ : ℝ} (hρ : ext Rr = some (ρ : EReal)) (hρ1 : 110 * (n * (u * B)) ≤ ρ) (hρB : ρ ≤ B)
    (E : Eigen F) (r : Rng F) {m : ℕ} (A : Matrix (Fin m) (Fin n) F) {k : ℕ} (hk : k ≤ n) (α : Fin m → Fin n → ℝ) (c τ : Fin m → ℝ)
    (hin : ∀ ζ : Fin n → ℝ, (∀ j : Fin n, n ≤ j + k → 0 ≤ ζ j) → (∀ i, |∑ j, α i j * ζ j - c i| ≤ τ i) → ∀ j, |ζ j| ≤ B / 2)
    {η : ℝ} (hη : 0 ≤ η) (s s' : (Fin n → F) × r.G) (hD : r.KernelDrawsOk E A α ext u θ Ω η s.2) {ξ : Fin n → ℝ} (hx : HasValues ext s.1 ξ) (hξ : ∀ j, |ξ j| ≤ B)
    (hres : ∀ i, |∑ j, α i j * ξ j - c i| + 6 * (n * B) * η + 60 * (n * (n + N) * (u * B)) * (∑ j, |α i j|) ≤ τ i)
    (h : SparseHitRun.step Rr ERR N E r A k s = .ok s') :
    ∃ ξ', HasValues ext s'.1 ξ' ∧ (∀ j, |ξ' j| ≤ B) ∧ (∀ j : Fin n, n ≤ j + k → -(320 * (n * (n + N) * (u * B))) ≤ ξ' j) ∧
      ∀ i, |∑ j, α i j * ξ' j - c i| ≤ |∑ j, α i j * ξ j - c i| + (6 * (n * B) * η + 24 * (n * (u * B)) * ∑ j, |α i j|) := by
  have hu := R.u_nonneg
  have hθ0 := R.θ_nonneg
  have hB := hS.pos
  have hnu := hS.nu_le R.toRounding
  have hu1 := hS.u_le R.toRounding
  have hn1 : (1 : ℝ) ≤ n := by exact_mod_cast hS.dim
  have M := hS.mags R.toRounding
  obtain ⟨q, hq⟩ : ∃ q, Real.sqrt n = q := ⟨_, rfl⟩
  obtain ⟨ε, hεd⟩ : ∃ ε, u * B = ε := ⟨_, rfl⟩
  rw [hq, hεd] at M
  rw [hεd] at hρ1 hres ⊢
  obtain ⟨p, hp, h⟩ := Out.bind_eq_ok.1 h
  obtain ⟨ns, hns, h⟩ := Out.bind_eq_ok.1 h
  cases h
  obtain ⟨v, hv, hS0, hSθ, hSΩ, hvη⟩ := hD.direction
  obtain ⟨y, hy, hy0, hy1⟩ := hD.uniform
  obtain ⟨δ, hδ, hδl, hδ1⟩ := normalize_vals R hΩ.two hS hv hS0 hSθ hSΩ
  have hδr := fun i => normalize_residual R.toRoundingOps hS hv hS0 hSθ hSΩ hδ (α i) (hvη i)
  have hδ : HasValues ext (normalize (kernelProject E A (r.gaussian n s.2).1)) δ := hδ
  generalize normalize (kernelProject E A (r.gaussian n s.2).1) = dir at *
  have hnu0 : 0 ≤ (n + 4) * u := by positivity
  have hdj : ∀ j, |δ j| ≤ 103 / 100 := fun j => (coord_le_len δ j).trans (hδl.trans (by linarith))
  have hδ' : HasValues ext (fun i => -dir i) (-δ) := fun j => R.neg _ _ (hδ j)
  have hlneg : len (-δ) = len δ := by rw [← neg_one_smul ℝ δ, len_smul]; simp
  have hδr' : ∀ i, |∑ j, α i j * (-δ) j| ≤ 103 / 100 * η + 203 / 100 * (u * ∑ j, |α i j|) := fun i => by
    have : ∑ j, α i j * (-δ) j = -∑ j, α i j * δ j := by
      rw [← sum_neg_distrib]
      exact sum_congr rfl fun j _ => by simp
    rw [this, abs_neg]
    exact hδr i
  -- numbers
  have hε0 := M.ε_nonneg
  have hnε0 : 0 ≤ n * ε := by positivity
  have hqε0 : 0 ≤ q * ε := hε0.trans M.ε_q
  have hqB0 : 0 ≤ q * B := hB.le.trans M.B_q
  have hqn : q * ε ≤ n * ε := mul_le_mul_of_nonneg_right M.q_n hε0
  have hqnB : q * B ≤ n * B := mul_le_mul_of_nonneg_right M.q_n hB.le
  have hbig : n * ε ≤ n * (n + N) * ε := by
    have : (1 : ℝ) ≤ n + N := by
      have : (0 : ℝ) ≤ N := by positivity
      linarith
    calc n * ε = n * 1 * ε := by ring
      _ ≤ _ := by gcongr
  have hNbig : (42 + 30 * N) * (q * ε) ≤ 42 * (n * (n + N) * ε) := by
    have h2 : (42 + 30 * (N : ℝ)) * (q * ε) ≤ (42 + 30 * N) * (n * ε) := mul_le_mul_of_nonneg_left hqn (by positivity)
    have h3 : n * ε ≤ n * (n * ε) := le_mul_of_one_le_left hnε0 hn1
    have h4 : 0 ≤ N * (n * ε) := by positivity
    have h5 : n * (n + N) * ε = n * (n * ε) + N * (n * ε) := by ring
    rw [h5]
    linarith
  have hG0 : 0 ≤ n * (n + N) * ε := by positivity
  have hκ : u * (n * B) = n * ε := by rw [M.ε_eq]; ring
  -- accepted points near the chord are within B / 2
  have hacc : ∀ (κ : Fin n → ℝ), (∀ i, |∑ j, α i j * κ j| ≤ 103 / 100 * η + 203 / 100 * (u * ∑ j, |α i j|)) → ∀ z ζ t, inPolytopeK z k = .ok true →
      HasValues ext z ζ → -θ ≤ t → t ≤ 21 / 5 * (q * B) → (∀ j, |ζ j - (ξ j + t * κ j)| ≤ 42 * (n * (n + N) * ε)) → ∀ j, |ζ j| ≤ B / 2 := by
    intro κ hκr z ζ t hz hζ ht0 ht1 hnear
    refine hin ζ (passes_tail R.toRounding hk hz hζ) fun i => ?_
    have hta : |t| ≤ 21 / 5 * (n * B) := abs_le.2 ⟨by linarith [M.θ_ε, M.ε_B, M.B_q, hB], ht1.trans (by linarith)⟩
    refine (residual_near (c := c i) hnear hta (hκr i)).trans (le_trans ?_ (hres i))
    have hΛ0 : 0 ≤ ∑ j, |α i j| := sum_nonneg fun _ _ => abs_nonneg _
    generalize ∑ j, |α i j| = Λ at hΛ0 ⊢
    have e1 : 21 / 5 * (n * B) * (103 / 100 * η + 203 / 100 * (u * Λ)) = 2163 / 500 * (n * B * η) + 4263 / 500 * (n * ε * Λ) := by
      rw [← hκ]; ring
    have e2 : n * ε * Λ ≤ n * (n + N) * ε * Λ := mul_le_mul_of_nonneg_right hbig hΛ0
    have e3 : 0 ≤ n * B * η := by positivity
    have e4 : 0 ≤ n * (n + N) * ε * Λ := mul_nonneg hG0 hΛ0
    rw [e1]
    linarith
  have hCW : ∀ κ : Fin n → ℝ, (∀ i, |∑ j, α i j * κ j| ≤ 103 / 100 * η + 203 / 100 * (u * ∑ j, |α i j|)) → ChordWithin ext θ B q ε ξ κ (inPolytopeK · k) := by
    rintro κ hκr z ζ hz hζ ⟨t, ht0, ht1, ht⟩ j
    exact (hacc κ hκr z ζ t hz hζ ht0 ht1 (fun j => (ht j).trans (by linarith)) j).trans (by linarith)
  obtain ⟨P, m1, μ, s1, hP, hm, hμ, a1, a2, a3, hP0, hPs, hPB⟩ := sparse_search_vals R hΩ hS hq M hit hρ hρ1 hρB hx hξ hδ (hδl.trans (by linarith)) hδ1
    (hCW δ hδr) hp
  obtain ⟨Q, m2, μ', s2, hQ, hm', hμ', b1, b2, b3, hQ0, hQs, hQB⟩ := sparse_search_vals R hΩ hS hq M hit hρ hρ1 hρB hx hξ hδ'
    (by rw [hlneg]; linarith) (by rw [hlneg]; exact hδ1) (hCW (-δ) hδr') hns
  obtain ⟨T, ξ', hT, hξ', hT1, hT2⟩ := move_vals R hΩ hS M hx hξ hδ hdj hP (R.neg _ _ hQ) (Q := Q) (by
    rw [mul_neg_one, sub_self, abs_zero]
    positivity) hy hy0 hy1 hP0 hPB hQ0 hQB
  have hδe : ∀ j, |(-δ) j + δ j| ≤ u * |δ j| + θ := fun j => by
    rw [Pi.neg_apply, neg_add_cancel, abs_zero]
    positivity
  have key := fun (β : Fin n → ℝ) (d : ℝ) h1 h2 => step_tail R.toRoundingOps hS M hx hξ hδ hdj hδe hT hξ' hT1 hT2 hP0 hPs hPB hQ0 hQs hQB a2 b1 b2 a3 b3 β d h1 h2
  have c1 := hacc δ hδr m1 μ s1 hm hμ a1 a2 fun j => (a3 j).trans hNbig
  have c2 := hacc (-δ) hδr' m2 μ' s2 hm' hμ' b1 b2 fun j => (b3 j).trans hNbig
  have d1 := passes_tail R.toRounding hk hm hμ
  have d2 := passes_tail R.toRounding hk hm' hμ'
  refine ⟨ξ', hξ', fun j => ?_, fun j hj => ?_, fun i => ?_⟩
  · have hsum : ∀ (c : ℝ) (ζ : Fin n → ℝ), ∑ i, (if i = j then c else 0) * ζ i = c * ζ j := fun c ζ => by simp
    have habs : ∀ c : ℝ, ∑ i : Fin n, |if i = j then c else 0| = |c| := fun c => by
      rw [sum_eq_single j (fun i _ hi => by rw [if_neg hi, abs_zero]) (fun h => absurd (mem_univ j) h), if_pos rfl]
    have e1 := key (fun i => if i = j then 1 else 0) (B / 2) (by rw [hsum]; linarith [(abs_le.1 (c1 j)).2]) (by rw [hsum]; linarith [(abs_le.1 (c2 j)).2])
    have e2 := key (fun i => if i = j then -1 else 0) (B / 2) (by rw [hsum]; linarith [(abs_le.1 (c1 j)).1]) (by rw [hsum]; linarith [(abs_le.1 (c2 j)).1])
    rw [hsum, habs, abs_one] at e1
    rw [hsum, habs, abs_neg, abs_one] at e2
    have e3 : 640 * (n * (n + N) * u) * B ≤ 1 * B := mul_le_mul_of_nonneg_right hS2 hB.le
    have e4 : 640 * (n * (n + N) * u) * B = 640 * (n * (n + N) * ε) := by rw [← hεd]; ring
    rw [abs_le]
    constructor <;> linarith
  · have hsum : ∀ (c : ℝ) (ζ : Fin n → ℝ), ∑ i, (if i = j then c else 0) * ζ i = c * ζ j := fun c ζ => by simp
    have habs : ∀ c : ℝ, ∑ i : Fin n, |if i = j then c else 0| = |c| := fun c => by
      rw [sum_eq_single j (fun i _ hi => by rw [if_neg hi, abs_zero]) (fun h => absurd (mem_univ j) h), if_pos rfl]
    have e2 := key (fun i => if i = j then -1 else 0) 0 (by rw [hsum]; linarith [d1 j hj]) (by rw [hsum]; linarith [d2 j hj])
    rw [hsum, habs, abs_neg, abs_one] at e2
    linarith
  · have hnB0 : 0 < n * B := by positivity
    have hκ1 : n * ε ≤ 1 / 1100 * (n * B) := by rw [← hκ]; exact mul_le_mul_of_nonneg_right hu1 hnB0.le
    have hTa : |T| ≤ 506 / 100 * (n * B) := abs_le.2 ⟨by linarith, by linarith⟩
    have hc := move_coord R.toRoundingOps hS M hx hξ hδ hdj hT hξ' hTa
    refine (residual_near (c := c i) hc hTa (hδr i)).trans ?_
    have hΛ0 : 0 ≤ ∑ j, |α i j| := sum_nonneg fun _ _ => abs_nonneg _
    generalize ∑ j, |α i j| = Λ at hΛ0 ⊢
    have e1 : 506 / 100 * (n * B) * (103 / 100 * η + 203 / 100 * (u * Λ)) = 52118 / 10000 * (n * B * η) + 102718 / 10000 * (n * ε * Λ) := by
      rw [← hκ]; ring
    have e3 : 0 ≤ n * B * η := by positivity
    have e4 : 0 ≤ n * ε * Λ := by positivity
    rw [e1]
    linarith

/-- Every position sparse Hit-and-Run visits is finite, within `B` and nonnegative up to rounding; its residual grows at most linearly. -/
theorem sparseHitRun_visited (R : RoundingFull F ext u θ Ω) (Rr ERR : F) (E : Eigen F) (e : Env F) (a : Args F) (hd : a.DimsOk) (hk : a.KOk)
    (hΩ : Roomy Ω B a.A.c) (hS : FineFor u θ B a.A.c e.fuel) (hS2 : 640 * (a.A.c * (a.A.c + e.fuel) * u) ≤ 1)
    (hit : 1 ≤ (3 / 2) ^ SparseHitRun.maxIter * u) {ρ : ℝ} (hρ : ext Rr = some (ρ : EReal)) (hρ1 : 110 * (a.A.c * (u * B)) ≤ ρ) (hρB : ρ ≤ B)
    (α : Fin a.A.r → Fin a.A.c → ℝ) (c τ : Fin a.A.r → ℝ)
    (hin : ∀ ζ : Fin a.A.c → ℝ, (∀ j : Fin a.A.c, (a.A.c : ℤ) ≤ j + a.k → 0 ≤ ζ j) → (∀ i, |∑ j, α i j * ζ j - c i| ≤ τ i) → ∀ j, |ζ j| ≤ B / 2)
    {η : ℝ} (hη : 0 ≤ η) {ξ₀ : Fin a.A.c → ℝ} (h0 : HasValues ext (a.x0 hd) ξ₀) (h0B : ∀ j, |ξ₀ j| ≤ B) (T : ℕ)
    (hres : ∀ i, |∑ j, α i j * ξ₀ j - c i| + T * (6 * (a.A.c * B) * η + 24 * (a.A.c * (u * B)) * ∑ j, |α i j|) + 6 * (a.A.c * B) * η +
      60 * (a.A.c * (a.A.c + e.fuel) * (u * B)) * (∑ j, |α i j|) ≤ τ i)
    (hdraw : ∀ t < T, ∀ x g, (Walk.sparseHitRun Rr ERR E).chain e a hd t = .ok (x, g) → e.r.KernelDrawsOk E a.A.val α ext u θ Ω η g) :
    ∀ t ≤ T, ∀ x, (Walk.sparseHitRun Rr ERR E).PosAt e a hd t x → ∃ ξ, HasValues ext x ξ ∧ (∀ j, |ξ j| ≤ B) ∧
      (1 ≤ t → ∀ j : Fin a.A.c, (a.A.c : ℤ) ≤ j + a.k → -(320 * (a.A.c * (a.A.c + e.fuel) * (u * B))) ≤ ξ j) ∧
      ∀ i, |∑ j, α i j * ξ j - c i| ≤ |∑ j, α i j * ξ₀ j - c i| + t * (6 * (a.A.c * B) * η + 24 * (a.A.c * (u * B)) * ∑ j, |α i j|) := by
  have hB := hS.pos
  have hu := R.u_nonneg
  have hk' : ∀ j : Fin a.A.c, a.A.c ≤ j + a.k.toNat ↔ (a.A.c : ℤ) ≤ j + a.k := fun j => by have := hk.1; omega
  intro t
  induction t with
  | zero =>
    rintro _ x ⟨s, hs, rfl⟩
    cases hs
    exact ⟨ξ₀, h0, h0B, fun h => absurd h (by norm_num), fun i => by simp⟩
  | succ t ih =>
    rintro ht x ⟨s', hs', rfl⟩
    obtain ⟨s0, e0, h1⟩ := Out.bind_eq_ok.1 hs'
    obtain ⟨s, h1, h2⟩ := Out.bind_eq_ok.1 h1
    have hs : (Walk.sparseHitRun Rr ERR E).chain e a hd t = .ok s := Out.bind_eq_ok.2 ⟨s0, e0, h1⟩
    obtain ⟨ξ, hx, hξ, -, hr⟩ := ih (by omega) _ ⟨s, hs, rfl⟩
    have htT : (t : ℝ) ≤ T := by exact_mod_cast (by omega : t ≤ T)
    obtain ⟨ξ', g1, g2, g3, g4⟩ := sparseHitRun_step_vals R hΩ hS hS2 hit hρ hρ1 hρB E e.r a.A.val (k := a.k.toNat) (by have := hk.2; omega) α c τ
      (fun ζ h => hin ζ fun j hj => h j ((hk' j).2 hj)) hη s s' (hdraw t (by omega) s.1 s.2 hs) hx hξ (fun i => by
        have hΛ0 : 0 ≤ ∑ j, |α i j| := sum_nonneg fun _ _ => abs_nonneg _
        have h3 : (t : ℝ) * (6 * (a.A.c * B) * η + 24 * (a.A.c * (u * B)) * ∑ j, |α i j|) ≤
          T * (6 * (a.A.c * B) * η + 24 * (a.A.c * (u * B)) * ∑ j, |α i j|) := mul_le_mul_of_nonneg_right htT (by positivity)
        have h4 := hr i
        have h5 := hres i
        linarith) h2
    refine ⟨ξ', g1, g2, fun _ j hj => g3 j ((hk' j).2 hj), fun i => ?_⟩
    have h4 := hr i
    have h5 := g4 i
    push_cast
    linarith

/-- **C88.** Sparse Hit-and-Run in floating point: every number it returns is finite and within `B`; the constrained coordinates are nonnegative
up to a rounding error that does not depend on the number of iterations; the equality constraints drift by at most a fixed amount per iteration. -/
theorem C88_rows (R : RoundingFull F ext u θ Ω) (Rr ERR : F) (E : Eigen F) (e : Env F) (a : Args F) (hd : a.DimsOk) (hk : a.KOk)
    (hi : SaneInts a.niter a.burnin a.thin) (hΩ : Roomy Ω B a.A.c) (hS : FineFor u θ B a.A.c e.fuel) (hS2 : 640 * (a.A.c * (a.A.c + e.fuel) * u) ≤ 1)
    (hit : 1 ≤ (3 / 2) ^ SparseHitRun.maxIter * u) {ρ : ℝ} (hρ : ext Rr = some (ρ : EReal)) (hρ1 : 110 * (a.A.c * (u * B)) ≤ ρ) (hρB : ρ ≤ B)
    (α : Fin a.A.r → Fin a.A.c → ℝ) (c τ : Fin a.A.r → ℝ)
    (hin : ∀ ζ : Fin a.A.c → ℝ, (∀ j : Fin a.A.c, (a.A.c : ℤ) ≤ j + a.k → 0 ≤ ζ j) → (∀ i, |∑ j, α i j * ζ j - c i| ≤ τ i) → ∀ j, |ζ j| ≤ B / 2)
    {η : ℝ} (hη : 0 ≤ η) {ξ₀ : Fin a.A.c → ℝ} (h0 : HasValues ext (a.x0 hd) ξ₀) (h0B : ∀ j, |ξ₀ j| ≤ B)
    (hres : ∀ i, |∑ j, α i j * ξ₀ j - c i| + (a.niter.toNat : ℝ) * (6 * (a.A.c * B) * η + 24 * (a.A.c * (u * B)) * ∑ j, |α i j|) +
      6 * (a.A.c * B) * η + 60 * (a.A.c * (a.A.c + e.fuel) * (u * B)) * (∑ j, |α i j|) ≤ τ i)
    (hdraw : ∀ t < a.niter.toNat, ∀ x g, (Walk.sparseHitRun Rr ERR E).chain e a hd t = .ok (x, g) → e.r.KernelDrawsOk E a.A.val α ext u θ Ω η g)
    (rows : List (Fin a.A.c → F)) (h : (Walk.sparseHitRun Rr ERR E).run e a = .ok rows) :
    ∀ x ∈ rows, ∃ ξ, HasValues ext x ξ ∧ (∀ j, |ξ j| ≤ B) ∧
      (∀ j : Fin a.A.c, (a.A.c : ℤ) ≤ j + a.k → -(320 * (a.A.c * (a.A.c + e.fuel) * (u * B))) ≤ ξ j) ∧
      ∀ i, |∑ j, α i j * ξ j - c i| ≤ |∑ j, α i j * ξ₀ j - c i| +
        (a.niter.toNat : ℝ) * (6 * (a.A.c * B) * η + 24 * (a.A.c * (u * B)) * ∑ j, |α i j|) := by
  intro x hx
  obtain ⟨_, hr⟩ := C03_visited_partial _ e a hi rows h
  obtain ⟨t, ht1, ht2, hp⟩ := hr x hx
  have htT : t ≤ a.niter.toNat := by omega
  obtain ⟨ξ, h1, h2, h3, h4⟩ := sparseHitRun_visited R Rr ERR E e a hd hk hΩ hS hS2 hit hρ hρ1 hρB α c τ hin hη h0 h0B a.niter.toNat hres hdraw t htT x hp
  refine ⟨ξ, h1, h2, h3 ht1, fun i => (h4 i).trans ?_⟩
  have hB := hS.pos
  have hu := R.u_nonneg
  have hΛ0 : 0 ≤ ∑ j, |α i j| := sum_nonneg fun _ _ => abs_nonneg _
  have htT' : (t : ℝ) ≤ a.niter.toNat := by exact_mod_cast htT
  gcongr

end

/-- **C88** (`double`). -/
theorem C88_binary64 (Rr ERR : Binary64) (E : Eigen Binary64) (e : Env Binary64) (a : Args Binary64) (hd : a.DimsOk) (hk : a.KOk)
    (hi : SaneInts a.niter a.burnin a.thin) (B : ℝ) (hN : 640 * (a.A.c * (a.A.c + e.fuel + 10)) ≤ 2 ^ 53) (hB : (2 : ℝ) ^ (-484 : ℤ) ≤ B)
    (hB' : a.A.c * B ≤ 2 ^ (508 : ℤ)) (hρ : ∃ ρ : ℝ, Ieee.ext Rr = some (ρ : EReal) ∧ 110 * (a.A.c * (2 ^ (-53 : ℤ) * B)) ≤ ρ ∧ ρ ≤ B)
    (α : Fin a.A.r → Fin a.A.c → ℝ) (c τ : Fin a.A.r → ℝ)
    (hin : ∀ ζ : Fin a.A.c → ℝ, (∀ j : Fin a.A.c, (a.A.c : ℤ) ≤ j + a.k → 0 ≤ ζ j) → (∀ i, |∑ j, α i j * ζ j - c i| ≤ τ i) → ∀ j, |ζ j| ≤ B / 2)
    {η : ℝ} (hη : 0 ≤ η) {ξ₀ : Fin a.A.c → ℝ} (h0 : HasValues Ieee.ext (a.x0 hd) ξ₀) (h0B : ∀ j, |ξ₀ j| ≤ B)
    (hres : ∀ i, |∑ j, α i j * ξ₀ j - c i| + (a.niter.toNat : ℝ) * (6 * (a.A.c * B) * η + 24 * (a.A.c * (2 ^ (-53 : ℤ) * B)) * ∑ j, |α i j|) +
      6 * (a.A.c * B) * η + 60 * (a.A.c * (a.A.c + e.fuel) * (2 ^ (-53 : ℤ) * B)) * (∑ j, |α i j|) ≤ τ i)
    (hdraw : ∀ t < a.niter.toNat, ∀ x g, (Walk.sparseHitRun Rr ERR E).chain e a hd t = .ok (x, g) →
      e.r.KernelDrawsOk E a.A.val α Ieee.ext (2 ^ (-53 : ℤ)) (2 ^ (-1075 : ℤ)) (2 ^ (1023 : ℤ)) η g)
    (rows : List (Fin a.A.c → Binary64)) (h : (Walk.sparseHitRun Rr ERR E).run e a = .ok rows) :
    ∀ x ∈ rows, ∃ ξ, HasValues Ieee.ext x ξ ∧ (∀ j, |ξ j| ≤ B) ∧
      (∀ j : Fin a.A.c, (a.A.c : ℤ) ≤ j + a.k → -(320 * (a.A.c * (a.A.c + e.fuel) * (2 ^ (-53 : ℤ) * B))) ≤ ξ j) ∧
      ∀ i, |∑ j, α i j * ξ j - c i| ≤ |∑ j, α i j * ξ₀ j - c i| +
        (a.niter.toNat : ℝ) * (6 * (a.A.c * B) * η + 24 * (a.A.c * (2 ^ (-53 : ℤ) * B)) * ∑ j, |α i j|) := by
  obtain ⟨ρ, hρ, hρ1, hρB⟩ := hρ
  have hB0 : (0 : ℝ) ≤ B := le_trans (by positivity) hB
  have hn : 1 ≤ a.A.c := by have := hk.1; have := hk.2; omega
  refine C88_rows Ieee.binary64_full Rr ERR E e a hd hk hi (roomy_binary64 hB0 hB') (fineFor_binary64 hn hN hB) ?_ ?_ hρ hρ1 hρB α c τ hin hη h0 h0B hres
    hdraw rows h
  · have h1 : (640 : ℝ) * (a.A.c * (a.A.c + e.fuel + 10)) ≤ 2 ^ 53 := by exact_mod_cast hN
    have e1 : (2 : ℝ) ^ (-53 : ℤ) = 1 / 2 ^ 53 := by norm_num
    rw [e1, mul_one_div, mul_div_assoc', div_le_one (by positivity)]
    have h2 : (0 : ℝ) ≤ a.A.c := by positivity
    linarith
  · have h1 : (2 : ℝ) ^ 53 ≤ (3 / 2) ^ SparseHitRun.maxIter := by
      calc (2 : ℝ) ^ 53 ≤ ((3 / 2) ^ 2) ^ 53 := pow_le_pow_left₀ (by norm_num) (by norm_num) _
        _ = (3 / 2) ^ (2 * 53) := (pow_mul _ _ _).symm
        _ ≤ _ := pow_le_pow_right₀ (by norm_num) (by unfold SparseHitRun.maxIter; norm_num)
    have e1 : (2 : ℝ) ^ (-53 : ℤ) = 1 / 2 ^ 53 := by norm_num
    rw [e1, mul_one_div, one_le_div (by positivity)]
    exact h1

end PW

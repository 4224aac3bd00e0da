import Verif.Lemmas.Real
import Verif.Spec.Polytope
import Mathlib.Analysis.Convex.Segment
import Mathlib.Analysis.SpecialFunctions.Pow.Real
import Mathlib.Algebra.Order.Archimedean.Basic
import Mathlib.Tactic.FieldSimp
import Mathlib.Tactic.Positivity

/-! # The chord search over `ℝ` -/

namespace PW
open Classical
variable {n : ℕ}

theorem ray_zero (x u : Fin n → ℝ) : ray x u 0 = x := by funext i; simp [ray]

theorem sqrt_sum_smul (u : Fin n → ℝ) (hu : IsUnitVec u) (t : ℝ) :
    Real.sqrt (∑ i, (t * u i) * (t * u i)) = |t| := by
  have : ∑ i, (t * u i) * (t * u i) = t ^ 2 * ∑ i, u i * u i := by
    rw [Finset.mul_sum]; exact Finset.sum_congr rfl fun i _ => by ring
  rw [this, hu, mul_one, Real.sqrt_sq_eq_abs]

theorem distance_ray (x u : Fin n → ℝ) (hu : IsUnitVec u) (s t : ℝ) :
    distance (ray x u s) (ray x u t) = |s - t| := by
  unfold distance
  rw [norm2_real, ← sqrt_sum_smul u hu (s - t)]
  congr 1
  exact Finset.sum_congr rfl fun i _ => by simp only [ray]; ring

theorem mid_ray (x u : Fin n → ℝ) (s t : ℝ) :
    (fun i => (ray x u s i + ray x u t i) / (two : ℝ)) = ray x u ((s + t) / 2) := by
  funext i; simp only [ray, two_real]; ring

theorem dist_ray_zero (x u : Fin n → ℝ) (hu : IsUnitVec u) (t : ℝ) :
    distance x (ray x u t) = |t| := by
  conv_lhs => rw [← ray_zero x u, show ray (ray x u 0) u t = ray x u t by rw [ray_zero]]
  rw [distance_ray x u hu]; simp

theorem dist_ray_zero' (x u : Fin n → ℝ) (hu : IsUnitVec u) (t : ℝ) :
    distance (ray x u t) x = |t| := by
  conv_lhs => rw [← ray_zero x u, show ray (ray x u 0) u t = ray x u t by rw [ray_zero]]
  rw [distance_ray x u hu]; simp

/-! ## The loops on ray parameters -/

/-- The dense doubling loop on ray parameters. -/
noncomputable def expandR (P : ℝ → Prop) : (fuel : ℕ) → (t : ℝ) → Out ℝ
  | 0, _ => .timeout
  | fuel + 1, t => if P (2 * |t|) then expandR P fuel (2 * |t|) else .ok (2 * |t|)

/-- The sparse doubling loop on ray parameters. -/
noncomputable def sexpandR (P : ℝ → Prop) : (fuel : ℕ) → (t : ℝ) → Option ℝ
  | 0, _ => none
  | fuel + 1, t => if P (2 * |t|) then sexpandR P fuel (2 * |t|) else some (2 * |t|)

/-- The bisection loop on ray parameters. -/
noncomputable def bisectR (P : ℝ → Prop) (ERR : ℝ) : (fuel : ℕ) → (a c μ : ℝ) → Out ℝ
  | 0, a, c, μ => if ERR < |a - c| ∨ ¬ P μ then .timeout else .ok μ
  | fuel + 1, a, c, μ =>
    if ERR < |a - c| ∨ ¬ P μ then
      if P ((a + c) / 2) then bisectR P ERR fuel ((a + c) / 2) c ((a + c) / 2)
      else bisectR P ERR fuel a ((a + c) / 2) ((a + c) / 2)
    else .ok μ

/-- The whole dense chord search on ray parameters. -/
noncomputable def chordR (P : ℝ → Prop) (R ERR : ℝ) (fuel : ℕ) : Out ℝ :=
  (expandR P fuel R).bind fun c => bisectR P ERR fuel 0 c (c / 2)

/-- The whole sparse chord search on ray parameters. -/
noncomputable def schordR (P : ℝ → Prop) (R ERR : ℝ) (fuel : ℕ) : Out ℝ :=
  match sexpandR P SparseHitRun.maxIter R with
  | none => .ok 0
  | some c => bisectR P ERR fuel 0 c (c / 2)

section
variable (K : Set (Fin n → ℝ)) (inside : (Fin n → ℝ) → Out Bool)
  (hI : ∀ z, inside z = .ok (decide (z ∈ K)))
include hI

theorem expand_ray (x u : Fin n → ℝ) (hu : IsUnitVec u) (fuel : ℕ) (t : ℝ) :
    HitRun.expand inside u x fuel (ray x u t)
      = (expandR (fun t => ray x u t ∈ K) fuel t).map (ray x u) := by
  induction fuel generalizing t with
  | zero => rfl
  | succ fuel ih =>
    have hf : (fun i => x i + two * distance x (ray x u t) * u i) = ray x u (2 * |t|) := by
      rw [dist_ray_zero x u hu, two_real]; rfl
    rw [HitRun.expand, expandR]
    simp only [hf, hI, Out.ok_bind, ih]
    by_cases hk : ray x u (2 * |t|) ∈ K <;> simp [hk]

theorem sexpand_ray (x u : Fin n → ℝ) (hu : IsUnitVec u) (fuel : ℕ) (t : ℝ) :
    SparseHitRun.expand inside u x fuel (ray x u t)
      = .ok ((sexpandR (fun t => ray x u t ∈ K) fuel t).map (ray x u)) := by
  induction fuel generalizing t with
  | zero => rfl
  | succ fuel ih =>
    have hf : (fun i => x i + two * distance x (ray x u t) * u i) = ray x u (2 * |t|) := by
      rw [dist_ray_zero x u hu, two_real]; rfl
    rw [SparseHitRun.expand, sexpandR]
    simp only [hf, hI, Out.ok_bind, ih]
    by_cases hk : ray x u (2 * |t|) ∈ K <;> simp [hk]

theorem bisect_ray (x u : Fin n → ℝ) (hu : IsUnitVec u) (ERR : ℝ) (fuel : ℕ) (a c μ : ℝ) :
    HitRun.bisect inside ERR fuel (ray x u a) (ray x u c) (ray x u μ)
      = (bisectR (fun t => ray x u t ∈ K) ERR fuel a c μ).map (ray x u) := by
  induction fuel generalizing a c μ with
  | zero =>
    rw [HitRun.bisect.eq_def, bisectR]
    simp only [hI, Out.ok_bind, distance_ray x u hu, rsc_lt]
    by_cases h1 : ERR < |a - c| <;> by_cases h2 : ray x u μ ∈ K <;> simp [h1, h2]
  | succ fuel ih =>
    rw [HitRun.bisect.eq_def, bisectR]
    simp only [hI, Out.ok_bind, distance_ray x u hu, rsc_lt, mid_ray, ih]
    by_cases h1 : ERR < |a - c| <;> by_cases h2 : ray x u μ ∈ K <;>
      by_cases h3 : ray x u ((a + c) / 2) ∈ K <;> simp [h1, h2, h3]

/-- Both loops in sequence. -/
theorem bisect_start_ray (x u : Fin n → ℝ) (hu : IsUnitVec u) (ERR : ℝ) (fuel : ℕ) (c : ℝ) :
    (HitRun.bisect inside ERR fuel x (ray x u c) fun i => (x i + ray x u c i) / two)
      = (bisectR (fun t => ray x u t ∈ K) ERR fuel 0 c (c / 2)).map (ray x u) := by
  have hm : (fun i => (x i + ray x u c i) / (two : ℝ)) = ray x u (c / 2) := by
    have := mid_ray x u 0 c
    rw [ray_zero, zero_add] at this
    exact this
  have := bisect_ray K inside hI x u hu ERR fuel 0 c (c / 2)
  rw [ray_zero] at this
  rw [hm, this]

end

theorem inPolytope_mem {m : ℕ} (hm : 0 < m) (A : Matrix (Fin m) (Fin n) ℝ) (b : Fin m → ℝ)
    (z : Fin n → ℝ) : inPolytope z A b = .ok (decide (z ∈ Poly A b)) := by
  rw [inPolytope_real z A b hm]; congr

theorem inPolytopeK_mem {k : ℕ} (hk : 1 ≤ k) (hkn : k ≤ n) (z : Fin n → ℝ) :
    inPolytopeK z k = .ok (decide (z ∈ TailNonneg n k)) := by
  rw [inPolytopeK_real z k hk hkn]; congr

theorem chord_dense {m : ℕ} (hm : 0 < m) (A : Matrix (Fin m) (Fin n) ℝ) (b : Fin m → ℝ)
    (x u : Fin n → ℝ) (hu : IsUnitVec u) (R ERR : ℝ) (fuel : ℕ) :
    HitRun.binarySearch R ERR fuel A b u x =
      (chordR (fun t => ray x u t ∈ Poly A b) R ERR fuel).map fun t => |t| := by
  have hI := inPolytope_mem hm A b
  rw [HitRun.binarySearch]
  have h1 := expand_ray _ _ hI x u hu fuel R
  have h1' : (fun i => x i + R * u i) = ray x u R := rfl
  simp only [h1', h1, chordR]
  cases hx : expandR (fun t => ray x u t ∈ Poly A b) fuel R with
  | ok c =>
    simp only [Out.map_ok, Out.ok_bind, bisect_start_ray _ _ hI x u hu]
    cases bisectR (fun t => ray x u t ∈ Poly A b) ERR fuel 0 c (c / 2) with
    | ok t => simp [dist_ray_zero' x u hu]
    | _ => rfl
  | _ => rfl

theorem chord_sparse {k : ℕ} (hk : 1 ≤ k) (hkn : k ≤ n) (x u : Fin n → ℝ) (hu : IsUnitVec u)
    (R ERR : ℝ) (fuel : ℕ) :
    SparseHitRun.binarySearch R ERR fuel k u x =
      (schordR (fun t => ray x u t ∈ TailNonneg n k) R ERR fuel).map fun t => |t| := by
  have hI := inPolytopeK_mem (n := n) hk hkn
  rw [SparseHitRun.binarySearch]
  have h1 := sexpand_ray _ _ hI x u hu SparseHitRun.maxIter R
  have h1' : (fun i => x i + R * u i) = ray x u R := rfl
  simp only [h1', h1, schordR, Out.ok_bind]
  cases hx : sexpandR (fun t => ray x u t ∈ TailNonneg n k) SparseHitRun.maxIter R with
  | none => simp
  | some c =>
    simp only [Option.map_some, bisect_start_ray _ _ hI x u hu]
    cases bisectR (fun t => ray x u t ∈ TailNonneg n k) ERR fuel 0 c (c / 2) with
    | ok t => simp [dist_ray_zero' x u hu]
    | _ => rfl

/-! ## Facts about the parameter loops -/

theorem expandR_spec (P : ℝ → Prop) (fuel : ℕ) (t : ℝ) {c : ℝ} (h : expandR P fuel t = .ok c) :
    (∃ j : ℕ, c = 2 ^ (j + 1) * |t|) ∧ ¬ P c := by
  induction fuel generalizing t with
  | zero => simp [expandR] at h
  | succ fuel ih =>
    rw [expandR] at h
    split_ifs at h with hk
    · obtain ⟨⟨j, hj⟩, hc⟩ := ih _ h
      refine ⟨⟨j + 1, ?_⟩, hc⟩
      rw [hj, abs_mul, abs_abs, abs_two]; ring
    · cases h
      exact ⟨⟨0, by simp⟩, hk⟩

theorem sexpandR_spec (P : ℝ → Prop) (fuel : ℕ) (t : ℝ) {c : ℝ} (h : sexpandR P fuel t = some c) :
    (∃ j : ℕ, c = 2 ^ (j + 1) * |t|) ∧ ¬ P c := by
  induction fuel generalizing t with
  | zero => simp [sexpandR] at h
  | succ fuel ih =>
    rw [sexpandR] at h
    split_ifs at h with hk
    · obtain ⟨⟨j, hj⟩, hc⟩ := ih _ h
      refine ⟨⟨j + 1, ?_⟩, hc⟩
      rw [hj, abs_mul, abs_abs, abs_two]; ring
    · cases h
      exact ⟨⟨0, by simp⟩, hk⟩

/-- The bisection loop returns a parameter inside, with a point outside at most `ERR` further. -/
theorem bisectR_spec (P : ℝ → Prop) (ERR : ℝ) (fuel : ℕ) (a c μ : ℝ)
    (ha : 0 ≤ a) (hac : a < c) (hμ : 0 < μ) (haμ : a ≤ μ) (hμc : μ ≤ c) (hc : ¬ P c)
    {t : ℝ} (h : bisectR P ERR fuel a c μ = .ok t) :
    0 < t ∧ P t ∧ ∃ s, t < s ∧ s ≤ t + ERR ∧ ¬ P s := by
  have last : ¬ (ERR < |a - c| ∨ ¬ P μ) →
      0 < μ ∧ P μ ∧ ∃ s, μ < s ∧ s ≤ μ + ERR ∧ ¬ P s := by
    intro h1
    push Not at h1
    have hne : μ ≠ c := fun e => hc (e ▸ h1.2)
    rw [abs_of_neg (by linarith)] at h1
    exact ⟨hμ, h1.2, c, lt_of_le_of_ne hμc hne, by linarith, hc⟩
  induction fuel generalizing a c μ with
  | zero =>
    rw [bisectR] at h
    split_ifs at h with h1
    cases h
    exact last h1
  | succ fuel ih =>
    rw [bisectR] at h
    split_ifs at h with h1 h2
    · refine ih _ _ _ (by linarith) (by linarith) (by linarith) le_rfl (by linarith) hc h ?_
      intro h1
      push Not at h1
      rw [abs_of_neg (by linarith)] at h1
      exact ⟨by linarith, h2, c, by linarith, by linarith, hc⟩
    · refine ih _ _ _ ha (by linarith) (by linarith) (by linarith) le_rfl h2 h ?_
      intro h1
      push Not at h1
      exact absurd h1.2 h2
    · cases h
      exact last h1

theorem chordR_spec (P : ℝ → Prop) (h0 : P 0) (R ERR : ℝ) (fuel : ℕ) {t : ℝ}
    (h : chordR P R ERR fuel = .ok t) : 0 < t ∧ P t ∧ ∃ s, t < s ∧ s ≤ t + ERR ∧ ¬ P s := by
  rw [chordR, Out.bind_eq_ok] at h
  obtain ⟨c, hc, h⟩ := h
  obtain ⟨⟨j, hj⟩, hcP⟩ := expandR_spec P fuel R hc
  have hc0 : 0 < c := by
    have : c ≠ 0 := fun e => hcP (e ▸ h0)
    have : 0 ≤ c := by rw [hj]; positivity
    exact lt_of_le_of_ne this (Ne.symm ‹_›)
  exact bisectR_spec P ERR fuel 0 c (c / 2) le_rfl hc0 (by linarith) (by linarith) (by linarith) hcP h

theorem schordR_spec (P : ℝ → Prop) (h0 : P 0) (R ERR : ℝ) (fuel : ℕ) {t : ℝ}
    (h : schordR P R ERR fuel = .ok t) :
    (t = 0 ∧ sexpandR P SparseHitRun.maxIter R = none) ∨
      (0 < t ∧ P t ∧ ∃ s, t < s ∧ s ≤ t + ERR ∧ ¬ P s) := by
  rw [schordR] at h
  cases hx : sexpandR P SparseHitRun.maxIter R with
  | none => rw [hx] at h; cases h; exact .inl ⟨rfl, rfl⟩
  | some c =>
    rw [hx] at h
    obtain ⟨⟨j, hj⟩, hcP⟩ := sexpandR_spec P _ R hx
    have hc0 : 0 < c := by
      have : c ≠ 0 := fun e => hcP (e ▸ h0)
      have : 0 ≤ c := by rw [hj]; positivity
      exact lt_of_le_of_ne this (Ne.symm ‹_›)
    exact .inr (bisectR_spec P ERR fuel 0 c (c / 2) le_rfl hc0 (by linarith) (by linarith)
      (by linarith) hcP h)

/-- If the left end is the last point inside, the loop never stops. -/
theorem bisectR_diverges (P : ℝ → Prop) (ERR : ℝ) (fuel : ℕ) (a c μ : ℝ) (hac : a < c)
    (hP : ∀ t, a < t → ¬ P t) (hμ : a < μ ∨ ERR < |a - c|) :
    bisectR P ERR fuel a c μ = .timeout := by
  have hcond : ∀ c μ, (a < μ ∨ ERR < |a - c|) → (ERR < |a - c| ∨ ¬ P μ) := by
    rintro c μ (h | h)
    · exact .inr (hP μ h)
    · exact .inl h
  induction fuel generalizing c μ with
  | zero => rw [bisectR, if_pos (hcond c μ hμ)]
  | succ fuel ih =>
    have hm : a < (a + c) / 2 := by linarith
    rw [bisectR, if_pos (hcond c μ hμ), if_neg (hP _ hm)]
    exact ih _ _ hm (.inl hm)

theorem bisectR_mono (P : ℝ → Prop) (ERR : ℝ) {f g : ℕ} (hfg : f ≤ g) {a c μ t : ℝ}
    (h : bisectR P ERR f a c μ = .ok t) : bisectR P ERR g a c μ = .ok t := by
  induction f generalizing g a c μ with
  | zero =>
    rw [bisectR] at h
    split_ifs at h with h1
    cases g with
    | zero => rw [bisectR, if_neg h1]; exact h
    | succ g => rw [bisectR, if_neg h1]; exact h
  | succ f ih =>
    obtain ⟨g, rfl⟩ : ∃ g', g = g' + 1 := ⟨g - 1, by omega⟩
    rw [bisectR] at h ⊢
    split_ifs at h ⊢
    · exact ih (by omega) h
    · exact ih (by omega) h
    · exact h

theorem expandR_mono (P : ℝ → Prop) {f g : ℕ} (hfg : f ≤ g) {t c : ℝ}
    (h : expandR P f t = .ok c) : expandR P g t = .ok c := by
  induction f generalizing g t with
  | zero => simp [expandR] at h
  | succ f ih =>
    obtain ⟨g, rfl⟩ : ∃ g', g = g' + 1 := ⟨g - 1, by omega⟩
    rw [expandR] at h ⊢
    split_ifs at h ⊢
    · exact ih (by omega) h
    · exact h

/-- No dyadic subdivision point of `[a, c]` is the chord end `e`. -/
def NoHit (e a c : ℝ) : Prop := ∀ j i : ℕ, a + (c - a) * i / 2 ^ j ≠ e

theorem NoHit.left {e a c : ℝ} (h : NoHit e a c) : NoHit e a ((a + c) / 2) := by
  intro j i he
  apply h (j + 1) i
  rw [← he, pow_succ]; field_simp; ring

theorem NoHit.right {e a c : ℝ} (h : NoHit e a c) : NoHit e ((a + c) / 2) c := by
  intro j i he
  apply h (j + 1) (2 ^ j + i)
  rw [← he, pow_succ]; push_cast; field_simp; ring

theorem NoHit.mid {e a c : ℝ} (h : NoHit e a c) : (a + c) / 2 ≠ e := by
  intro he
  apply h 1 1
  rw [← he]; push_cast; ring

/-- A narrow bracket: the left end moves after finitely many halvings. -/
theorem bisectR_narrow (P : ℝ → Prop) (ERR e : ℝ)
    (hin : ∀ t, 0 ≤ t → t < e → P t) (hout : ∀ t, e < t → ¬ P t) (a : ℝ) (ha : 0 ≤ a) (hae : a < e) :
    ∀ (N : ℕ) (c μ : ℝ), e < c → NoHit e a c → c - a ≤ ERR → c - a ≤ 2 ^ N * (e - a) →
      ∃ fuel t, bisectR P ERR fuel a c μ = .ok t := by
  intro N
  induction N with
  | zero => intro c μ hc _ _ h; linarith
  | succ N ih =>
    intro c μ hc hn hw hN
    by_cases hμ : P μ
    · refine ⟨0, μ, ?_⟩
      rw [bisectR, if_neg]
      push Not
      rw [abs_of_neg (by linarith)]
      exact ⟨by linarith, hμ⟩
    · rcases lt_or_gt_of_ne hn.mid with hm | hm
      · have hPm : P ((a + c) / 2) := hin _ (by linarith) hm
        refine ⟨1, (a + c) / 2, ?_⟩
        rw [bisectR, if_pos (.inr hμ), if_pos hPm, bisectR, if_neg]
        push Not
        rw [abs_of_neg (by linarith)]
        exact ⟨by linarith, hPm⟩
      · obtain ⟨f, t, hf⟩ := ih ((a + c) / 2) ((a + c) / 2) hm hn.left (by linarith)
          (by rw [pow_succ] at hN; nlinarith)
        exact ⟨f + 1, t, by rw [bisectR, if_pos (.inr hμ), if_neg (hout _ hm), hf]⟩

/-- The loop terminates if the end `e` of the chord is never hit by a midpoint. -/
theorem bisectR_terminates (P : ℝ → Prop) (ERR : ℝ) (hERR : 0 < ERR) (e : ℝ)
    (hin : ∀ t, 0 ≤ t → t < e → P t) (hout : ∀ t, e < t → ¬ P t) (a c μ : ℝ) (ha : 0 ≤ a) (hae : a < e)
    (hec : e < c) (hn : NoHit e a c) : ∃ fuel t, bisectR P ERR fuel a c μ = .ok t := by
  obtain ⟨N, hN⟩ := pow_unbounded_of_one_lt ((c - a) / ERR) (by norm_num : (1 : ℝ) < 2)
  rw [div_lt_iff₀ hERR] at hN
  induction N generalizing a c μ with
  | zero =>
    obtain ⟨M, hM⟩ := pow_unbounded_of_one_lt ((c - a) / (e - a)) (by norm_num : (1 : ℝ) < 2)
    rw [div_lt_iff₀ (by linarith)] at hM
    exact bisectR_narrow P ERR e hin hout a ha hae M c μ hec hn (by simp at hN; linarith) hM.le
  | succ N ih =>
    by_cases hcond : ERR < |a - c| ∨ ¬ P μ
    · rcases lt_or_gt_of_ne hn.mid with hm | hm
      · obtain ⟨f, t, hf⟩ := ih ((a + c) / 2) c ((a + c) / 2) (by linarith) hm hec hn.right
          (by rw [pow_succ] at hN; linarith)
        exact ⟨f + 1, t, by rw [bisectR, if_pos hcond, if_pos (hin _ (by linarith) hm), hf]⟩
      · obtain ⟨f, t, hf⟩ := ih a ((a + c) / 2) ((a + c) / 2) ha hae hm hn.left
          (by rw [pow_succ] at hN; linarith)
        exact ⟨f + 1, t, by rw [bisectR, if_pos hcond, if_neg (hout _ hm), hf]⟩
    · exact ⟨0, μ, by rw [bisectR, if_neg hcond]⟩

/-- The doubling loop leaves a bounded chord. -/
theorem expandR_terminates (P : ℝ → Prop) (e : ℝ) (hout : ∀ t, e < t → ¬ P t) (R : ℝ) (hR : R ≠ 0) :
    ∃ fuel c, expandR P fuel R = .ok c := by
  obtain ⟨N, hN⟩ := pow_unbounded_of_one_lt (e / |R|) (by norm_num : (1 : ℝ) < 2)
  rw [div_lt_iff₀ (abs_pos.2 hR)] at hN
  induction N generalizing R with
  | zero =>
    have : 0 < |R| := abs_pos.2 hR
    refine ⟨1, 2 * |R|, ?_⟩
    rw [expandR, if_neg (hout _ (by simp at hN; linarith))]
  | succ N ih =>
    have h0 : 0 < |R| := abs_pos.2 hR
    by_cases hk : P (2 * |R|)
    · obtain ⟨f, c, hf⟩ := ih (2 * |R|) (by positivity) (by
        rw [abs_mul, abs_abs, abs_two]; rw [pow_succ] at hN; linarith)
      exact ⟨f + 1, c, by rw [expandR, if_pos hk, hf]⟩
    · exact ⟨1, 2 * |R|, by rw [expandR, if_neg hk]⟩

/-- Termination of the chord search when the chord end `e > 0` is not a dyadic multiple of `|R|`. -/
theorem chordR_terminates (P : ℝ → Prop) (R ERR : ℝ) (hR : R ≠ 0) (hERR : 0 < ERR) (e : ℝ) (he : 0 < e)
    (hin : ∀ t, 0 ≤ t → t < e → P t) (hout : ∀ t, e < t → ¬ P t)
    (hd : ∀ i j : ℕ, |R| * i / 2 ^ j ≠ e) :
    ∃ fuel t, ∀ f ≥ fuel, chordR P R ERR f = .ok t := by
  obtain ⟨f1, c, h1⟩ := expandR_terminates P e hout R hR
  obtain ⟨⟨j, hj⟩, hcP⟩ := expandR_spec P f1 R h1
  have hec : e < c := by
    have h2 : c ≠ e := by
      have := hd (2 ^ (j + 1)) 0
      rw [hj]; intro h; apply this; rw [← h]; push_cast; ring
    have h3 : e ≤ c := by
      by_contra h
      exact hcP (hin c (by rw [hj]; positivity) (not_le.1 h))
    exact lt_of_le_of_ne h3 h2.symm
  obtain ⟨f2, t, h2⟩ := bisectR_terminates P ERR hERR e hin hout 0 c (c / 2) le_rfl he hec (by
    intro J i h
    have := hd (2 ^ (j + 1) * i) J
    apply this; rw [← h, hj]; push_cast; ring)
  refine ⟨max f1 f2, t, fun f hf => ?_⟩
  rw [chordR, expandR_mono P (le_trans (le_max_left _ _) hf) h1, Out.ok_bind]
  exact bisectR_mono P ERR (le_trans (le_max_right _ _) hf) h2

end PW

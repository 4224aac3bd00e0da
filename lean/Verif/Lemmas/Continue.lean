import Verif.Spec.Continue
import Verif.Lemmas.JointRows

/-! # Markov chains can be continued with a fresh generator -/

namespace PW
open MeasureTheory Set
open scoped ENNReal

section
variable {X W G : Type} [MeasurableSpace X] [MeasurableSpace W] [MeasurableSpace G] {μ : Measure G} [IsProbabilityMeasure μ] {ν : Measure W}
  {f : X → G → X × G} {T : X → W → X}

/-- The path up to time `s`, then constant. -/
def histAt (f : X → G → X × G) (s : ℕ) (p : X × G) : ℕ → X := fun t => posAt f p.1 (min t s) p.2

/-- The generator after `s` iterations. -/
def genAt (f : X → G → X × G) (s : ℕ) (p : X × G) : G := ((fun p : X × G => f p.1 p.2)^[s] p).2

/-- `x` first, then `h`. -/
def pathCons (x : X) (h : ℕ → X) : ℕ → X
  | 0 => x
  | t + 1 => h t

omit [MeasurableSpace X] [MeasurableSpace G] in
theorem posAt_succ (x : X) (t : ℕ) (g : G) : posAt f x (t + 1) g = posAt f (f x g).1 t (f x g).2 := by
  unfold posAt
  rw [Function.iterate_succ_apply]

omit [MeasurableSpace X] [MeasurableSpace G] in
theorem histAt_succ (s : ℕ) (x : X) (g : G) : histAt f (s + 1) (x, g) = pathCons x (histAt f s (f x g)) := by
  funext t
  cases t with
  | zero => rfl
  | succ t =>
    show posAt f x (min (t + 1) (s + 1)) g = posAt f (f x g).1 (min t s) (f x g).2
    rw [← posAt_succ, Nat.add_min_add_right]

theorem measurable_pathCons (x : X) : Measurable (pathCons x) := by
  refine measurable_pi_lambda _ fun t => ?_
  cases t with
  | zero => exact measurable_const
  | succ t => exact measurable_pi_apply t

variable (mf : Measurable fun p : X × G => f p.1 p.2)
include mf

theorem measurable_posAt_joint (t : ℕ) : Measurable fun p : X × G => posAt f p.1 t p.2 := (mf.iterate t).fst

theorem measurable_histAt (s : ℕ) : Measurable (histAt f s) := measurable_pi_lambda _ fun t => measurable_posAt_joint mf (min t s)

theorem measurable_genAt (s : ℕ) : Measurable (genAt f s) := (mf.iterate s).snd

variable (hd : Drives μ ν f T)
include hd

/-- The generator left after `s` iterations is fresh, and independent of the path so far. -/
theorem fresh_generator (s : ℕ) (x : X) {H : (ℕ → X) × G → ℝ≥0∞} (hH : Measurable H) :
    ∫⁻ g, H (histAt f s (x, g), genAt f s (x, g)) ∂μ = ∫⁻ g, ∫⁻ g', H (histAt f s (x, g), g') ∂μ ∂μ := by
  induction s generalizing x H with
  | zero =>
    have h1 : ∀ g, histAt f 0 (x, g) = fun _ => x := fun g => funext fun t => by unfold histAt; rw [Nat.min_zero]; rfl
    simp only [h1]
    rw [lintegral_const, measure_univ, mul_one]
    rfl
  | succ s ih =>
    have hH' : Measurable fun p : (ℕ → X) × G => H (pathCons x p.1, p.2) :=
      hH.comp (((measurable_pathCons x).comp measurable_fst).prodMk measurable_snd)
    have e1 : ∀ g, H (histAt f (s + 1) (x, g), genAt f (s + 1) (x, g)) = H (pathCons x (histAt f s (f x g)), genAt f s (f x g)) := fun g => by
      rw [histAt_succ]
      unfold genAt
      rw [Function.iterate_succ_apply]
    have e2 : ∀ g, ∫⁻ g', H (histAt f (s + 1) (x, g), g') ∂μ = ∫⁻ g', H (pathCons x (histAt f s (f x g)), g') ∂μ := fun g => by rw [histAt_succ]
    simp only [e1, e2]
    have m1 : Measurable fun p : X × G => H (pathCons x (histAt f s p), genAt f s p) :=
      hH'.comp ((measurable_histAt mf s).prodMk (measurable_genAt mf s))
    have m2 : Measurable fun p : X × G => ∫⁻ g', H (pathCons x (histAt f s p), g') ∂μ :=
      (hH'.lintegral_prod_right').comp (measurable_histAt mf s)
    refine (hd _ m1 x).trans (Eq.trans ?_ (hd _ m2 x).symm)
    exact lintegral_congr fun w => ih (T x w) hH'

omit mf hd [MeasurableSpace X] [MeasurableSpace G] in
theorem posAt_add (x : X) (s t : ℕ) (g : G) : posAt f x (s + t) g = posAt f (posAt f x s g) t (genAt f s (x, g)) := by
  unfold posAt genAt
  rw [Nat.add_comm, Function.iterate_add_apply]

omit mf hd [MeasurableSpace X] [MeasurableSpace G] in
theorem glue_self (x : X) (s : ℕ) (g : G) :
    glue s (histAt f s (x, g)) (fun t => posAt f (histAt f s (x, g) s) t (genAt f s (x, g))) = fun t => posAt f x t g := by
  funext t
  unfold glue
  by_cases h : t ≤ s
  · rw [if_pos h]
    show posAt f x (min t s) g = _
    rw [min_eq_left h]
  · rw [if_neg h]
    have h1 : histAt f s (x, g) s = posAt f x s g := by show posAt f x (min s s) g = _; rw [min_self]
    rw [h1]
    show posAt f (posAt f x s g) (t - s) (genAt f s (x, g)) = _
    rw [← posAt_add, Nat.add_sub_cancel' (by omega)]

omit mf hd [MeasurableSpace X] [MeasurableSpace G] in
theorem glue_hist (x : X) (s : ℕ) (g g' : G) :
    glue s (histAt f s (x, g)) (fun t => posAt f (histAt f s (x, g) s) t g') = glue s (fun t => posAt f x t g) (fun t => posAt f (posAt f x s g) t g') := by
  have h1 : histAt f s (x, g) s = posAt f x s g := by show posAt f x (min s s) g = _; rw [min_self]
  funext t
  unfold glue
  rw [h1]
  by_cases h : t ≤ s
  · rw [if_pos h, if_pos h]
    show posAt f x (min t s) g = _
    rw [min_eq_left h]
  · rw [if_neg h, if_neg h]

/-- Going on with a fresh generator gives a path of the same law. -/
theorem resume_law (s : ℕ) (x : X) {S : Set (ℕ → X)} (hS : MeasurableSet S) :
    ∫⁻ g, μ {g' | glue s (fun t => posAt f x t g) (fun t => posAt f (posAt f x s g) t g') ∈ S} ∂μ = μ {g | (fun t => posAt f x t g) ∈ S} := by
  have mglue : Measurable fun p : (ℕ → X) × G => glue s p.1 (fun t => posAt f (p.1 s) t p.2) := by
    refine measurable_pi_lambda _ fun t => ?_
    by_cases h : t ≤ s
    · have : (fun p : (ℕ → X) × G => glue s p.1 (fun t => posAt f (p.1 s) t p.2) t) = fun p => p.1 t := by
        funext p; unfold glue; rw [if_pos h]
      rw [this]
      exact (measurable_pi_apply t).comp measurable_fst
    · have : (fun p : (ℕ → X) × G => glue s p.1 (fun t => posAt f (p.1 s) t p.2) t) = fun p => posAt f (p.1 s) (t - s) p.2 := by
        funext p; unfold glue; rw [if_neg h]
      rw [this]
      have m4 : Measurable fun p : (ℕ → X) × G => (p.1 s, p.2) := ((measurable_pi_apply s).comp measurable_fst).prodMk measurable_snd
      exact (measurable_posAt_joint mf (t - s)).comp m4
  have mH : Measurable fun p : (ℕ → X) × G => S.indicator (1 : (ℕ → X) → ℝ≥0∞) (glue s p.1 (fun t => posAt f (p.1 s) t p.2)) :=
    (measurable_one.indicator hS).comp mglue
  have key := fresh_generator mf hd s x mH
  have mpath : Measurable fun g => (fun t => posAt f x t g : ℕ → X) := measurable_pi_lambda _ fun t => measurable_posAt mf x t
  have e1 : ∫⁻ g, S.indicator (1 : (ℕ → X) → ℝ≥0∞) (fun t => posAt f x t g) ∂μ = μ {g | (fun t => posAt f x t g) ∈ S} :=
    lintegral_indicator_one (mpath hS)
  rw [← e1]
  simp only [glue_self, glue_hist] at key
  rw [key]
  refine lintegral_congr fun g => ?_
  have m3 : Measurable fun g' => glue s (fun t => posAt f x t g) (fun t => posAt f (posAt f x s g) t g') := by
    have := mglue.comp (measurable_prodMk_left (x := histAt f s (x, g)) (β := G))
    simp only [Function.comp_def, glue_hist] at this
    exact this
  exact (lintegral_indicator_one (m3 hS)).symm

end

section
variable {m n : ℕ} {W : Type} [MeasurableSpace W] {w w' : Walk ℝ} {e : Env ℝ} [MeasurableSpace e.r.G] {μ : Measure e.r.G} [IsProbabilityMeasure μ]
  {ν : Measure W} {f : (Fin n → ℝ) → e.r.G → (Fin n → ℝ) × e.r.G} {T : (Fin n → ℝ) → W → Fin n → ℝ}

theorem continues_of (mf : Measurable fun p : (Fin n → ℝ) × e.r.G => f p.1 p.2) (hd : Drives μ ν f T)
    {K : Set (Fin n → ℝ)} {A : Matrix (Fin m) (Fin n) ℝ} {b : Fin m → ℝ} {k : Int}
    (hk : w.isSparse = true → 1 ≤ k ∧ k ≤ n) (hk' : w'.isSparse = true → 1 ≤ k ∧ k ≤ n)
    (hK : ∀ y ∈ K, ∀ t, ∀ᵐ g ∂μ, posAt f y t g ∈ K)
    (hfol : ∀ y ∈ K, ∀ niter burnin thin seed : Int, ∀ᵐ g ∂μ, Follows w e (callArgs A b y niter k burnin thin seed) ⟨rfl, rfl⟩ (posAt f y) g)
    (hfol' : ∀ y ∈ K, ∀ niter burnin thin seed : Int, ∀ᵐ g ∂μ, Follows w' e (callArgs A b y niter k burnin thin seed) ⟨rfl, rfl⟩ (posAt f y) g)
    {x : Fin n → ℝ} (hx : x ∈ K) : Continues w w' e μ A b x k where
  paths niter burnin thin seed niter' burnin' thin' seed' s S hS := by
    rw [pathProb_follows (hfol x hx niter burnin thin seed), ← resume_law mf hd s x hS]
    refine lintegral_congr_ae ?_
    filter_upwards [hfol x hx niter burnin thin seed, hK x hx s] with g hg hgK
    refine measure_congr ?_
    filter_upwards [hfol' _ hgK niter' burnin' thin' seed'] with g' hg'
    refine propext ⟨?_, fun h => ⟨_, _, hg, hg', h⟩⟩
    rintro ⟨p, p', hp, hp', hpS⟩
    have e1 : p = fun t => posAt f x t g := Walk.Path.unique hp hg
    subst e1
    have e2 : p' = fun t => posAt f (posAt f x s g) t g' := Walk.Path.unique hp' hg'
    subst e2
    exact hpS
  rows niter burnin thin seed niter' seed' hg1 hg2 hg3 hlt hdvd L S hS hL := by
    have hth := hg1.thin_pos
    have hb0 := hg1.burnin_nonneg
    have mev : Measurable fun (p : ℕ → Fin n → ℝ) (i : Fin L) => p (rowTime burnin thin i) :=
      measurable_pi_lambda _ fun i => measurable_pi_apply _
    rw [rowsProb_follows (q := posAt f x) hk (fun niter burnin thin => hfol x hx niter burnin thin seed) hg3 hL S]
    refine Eq.trans ?_ (resume_law mf hd niter.toNat x (mev hS))
    refine lintegral_congr_ae ?_
    filter_upwards [rows_follows (hfol x hx niter burnin thin seed) hk hg1, hK x hx niter.toNat] with g ⟨f1, rows, hall, hlen, hrow⟩ hgK
    refine measure_congr ?_
    filter_upwards [rows_follows (hfol' _ hgK niter' 0 thin seed') hk' hg2] with g' ⟨f2, rows', hall', hlen', hrow'⟩
    obtain ⟨N, hN⟩ := hdvd
    obtain ⟨τ, rfl⟩ := Int.eq_ofNat_of_zero_le (show 0 ≤ thin by omega)
    obtain ⟨B, rfl⟩ := Int.eq_ofNat_of_zero_le hb0
    have hτ : 0 < (τ : Int) := by omega
    have hN1 : (niter - B) / τ = N := by rw [hN]; exact Int.mul_ediv_cancel_left _ hτ.ne'
    have hlen1 : (rows.length : Int) = N := by rw [← hN1]; exact hlen
    have hlen2 : (rows'.length : Int) = niter' / τ := by
      have : (rows'.length : Int) = (niter' - 0) / τ := hlen'
      rw [this, sub_zero]
    have hN0 : 0 < N := by
      by_contra h0
      have h1 : (τ : Int) * N ≤ 0 := mul_nonpos_of_nonneg_of_nonpos hτ.le (by omega)
      omega
    have hne : rows ≠ [] := by rintro rfl; simp at hlen1; omega
    have hnit : niter.toNat = B + rows.length * τ := by
      have : niter = ((B + rows.length * τ : ℕ) : Int) := by push_cast; rw [hlen1]; rw [mul_comm]; omega
      omega
    have hlast : rows.getLast hne = posAt f x niter.toNat g := by
      rw [List.getLast_eq_getElem, hrow _ (by have := List.length_pos_of_ne_nil hne; omega)]
      have h1 := List.length_pos_of_ne_nil hne
      show posAt f x (rowTime (B : Int) (τ : Int) (rows.length - 1)) g = _
      rw [rowTime_eq (by omega) hτ, Nat.sub_add_cancel h1, Int.toNat_natCast, Int.toNat_natCast, hnit]
    have htot : (rows ++ rows').length = L := by
      rw [List.length_append]
      have h1 : niter + niter' - B = niter' + N * τ := by rw [mul_comm]; omega
      have h2 : (niter + niter' - (B : Int)) / τ = niter' / τ + N := by rw [h1, Int.add_mul_ediv_right _ _ hτ.ne']
      have h3 : (L : Int) = rows'.length + rows.length := by rw [hlen2, hlen1, ← h2]; exact hL.symm
      omega
    have e1 : (fun i : Fin L => (rows ++ rows')[i.val]'(by omega)) = fun i : Fin L =>
        glue niter.toNat (fun t => posAt f x t g) (fun t => posAt f (posAt f x niter.toNat g) t g') (rowTime (B : Int) (τ : Int) i) := by
      funext i
      rw [rowTime_eq (by omega) hτ, Int.toNat_natCast, Int.toNat_natCast]
      unfold glue
      by_cases hi : i.val < rows.length
      · rw [List.getElem_append_left hi, hrow _ hi, if_pos]
        · show posAt f x (rowTime (B : Int) (τ : Int) i) g = _
          rw [rowTime_eq (by omega) hτ, Int.toNat_natCast, Int.toNat_natCast]
        · rw [hnit]
          exact Nat.add_le_add_left (Nat.mul_le_mul_right _ hi) _
      · have hi2 : rows.length ≤ i.val := by omega
        have hτ' : 0 < τ := by omega
        rw [List.getElem_append_right hi2, hrow' _ (by have := i.isLt; have h4 := List.length_append (as := rows) (bs := rows'); omega), if_neg]
        · show posAt f _ (rowTime 0 (τ : Int) (i.val - rows.length)) g' = _
          rw [rowTime_eq le_rfl hτ, Int.toNat_natCast]
          refine congrArg (fun t => posAt f (posAt f x niter.toNat g) t g') ?_
          rw [hnit]
          have h5 : i.val + 1 = (i.val - rows.length + 1) + rows.length := by omega
          have h6 : (i.val + 1) * τ = (i.val - rows.length + 1) * τ + rows.length * τ := by rw [h5, Nat.add_mul]
          have h7 : (0 : Int).toNat = 0 := rfl
          omega
        · rw [hnit]
          have h5 : (rows.length + 1) * τ ≤ (i.val + 1) * τ := Nat.mul_le_mul_right _ (by omega)
          have h6 : (rows.length + 1) * τ = rows.length * τ + τ := by ring
          omega
    refine propext ⟨?_, fun h => ⟨max f1 f2, rows, rows', hne, fun f hf => hall f (le_trans (le_max_left _ _) hf), fun f hf => ?_, htot, ?_⟩⟩
    · rintro ⟨f0, r, r', hne2, h1, h2, hl, hS'⟩
      have er : r = rows := Out.ok.inj ((h1 (max f0 f1) (le_max_left _ _)).symm.trans (hall (max f0 f1) (le_max_right _ _)))
      subst er
      rw [hlast] at h2
      have er' : r' = rows' := Out.ok.inj ((h2 (max f0 f2) (le_max_left _ _)).symm.trans (hall' (max f0 f2) (le_max_right _ _)))
      subst er'
      show (fun i : Fin L => glue niter.toNat (fun t => posAt f x t g) (fun t => posAt f (posAt f x niter.toNat g) t g')
        (rowTime (B : Int) (τ : Int) i)) ∈ S
      rw [← e1]; exact hS'
    · rw [hlast]
      exact hall' f (le_trans (le_max_right _ _) hf)
    · rw [e1]; exact h

end

end PW

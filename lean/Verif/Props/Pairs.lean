import Verif.Spec.Pairs
import Verif.Lemmas.Pairs
import Verif.Props.BackwardsUser

/-!
# C115: lagged co-occurrences of rows are as the estimators of the effective sample size assume
-/

namespace PW
open Matrix MeasureTheory Set
open scoped ENNReal
variable {m n d : ℕ}

theorem rowTime_lag {burnin thin : Int} (hb : 0 ≤ burnin) (ht : 1 ≤ thin) (i l : ℕ) :
    rowTime burnin thin (i + l) = l * thin.toNat + rowTime burnin thin i := by
  have h1 : ∀ j : ℕ, ((rowTime burnin thin j : ℕ) : Int) = burnin + ((j : Int) + 1) * thin := fun j => by
    unfold rowTime
    exact Int.toNat_of_nonneg (by positivity)
  have h2 : ((thin.toNat : ℕ) : Int) = thin := Int.toNat_of_nonneg (by omega)
  have : ((rowTime burnin thin (i + l) : ℕ) : Int) = (l * thin.toNat + rowTime burnin thin i : ℕ) := by
    rw [Nat.cast_add, Nat.cast_mul, h1, h1, h2]
    push_cast
    ring
  exact_mod_cast this

theorem bothIn_symm (w : Walk ℝ) (e : Env ℝ) [MeasurableSpace e.r.G] (μ : Measure e.r.G) (A : Matrix (Fin m) (Fin n) ℝ) (b : Fin m → ℝ)
    (k : Int) (π : Measure (Fin n → ℝ)) (niter burnin thin seed : Int) {L : ℕ} (U : Set (Fin n → ℝ)) (i j : Fin L) :
    bothIn w e μ A b k π niter burnin thin seed U i j = bothIn w e μ A b k π niter burnin thin seed U j i := by
  unfold bothIn
  refine congrArg (fun z : ℝ≥0∞ => z.toReal / (π univ).toReal) (lintegral_congr fun x => congrArg _ ?_)
  ext v
  exact and_comm

theorem bdd_ind {X : Type} [MeasurableSpace X] {U : Set X} (hU : MeasurableSet U) : Bdd 1 (U.indicator (1 : X → ℝ)) :=
  ⟨measurable_one.indicator hU, fun x => by
    by_cases h : x ∈ U
    · rw [indicator_of_mem h, Pi.one_apply, abs_one]
    · rw [indicator_of_notMem h, abs_zero]; exact zero_le_one⟩

theorem bothIn_eq {W : Type} [MeasurableSpace W] {w : Walk ℝ} {e : Env ℝ} [MeasurableSpace e.r.G] {μ : Measure e.r.G} [IsProbabilityMeasure μ]
    {ν : Measure W} [IsProbabilityMeasure ν] {f : (Fin n → ℝ) → e.r.G → (Fin n → ℝ) × e.r.G} {T : (Fin n → ℝ) → W → Fin n → ℝ}
    {π : Measure (Fin n → ℝ)} [IsFiniteMeasure π] (hπ : π univ ≠ 0)
    (mf : Measurable fun p : (Fin n → ℝ) × e.r.G => f p.1 p.2) (hd : Drives μ ν f T) (hT : Measurable fun p : (Fin n → ℝ) × W => T p.1 p.2)
    (hb : Balance π ν T) {A : Matrix (Fin m) (Fin n) ℝ} {b : Fin m → ℝ} {k : Int} (hk : w.isSparse = true → 1 ≤ k ∧ k ≤ n)
    (hfol : ∀ᵐ x ∂π, ∀ niter burnin thin seed : Int, ∀ᵐ g ∂μ, Follows w e (callArgs A b x niter k burnin thin seed) ⟨rfl, rfl⟩ (posAt f x) g)
    {niter burnin thin seed : Int} (hg : GoodInts niter burnin thin) {L : ℕ} (hL : (niter - burnin) / thin = L) {U : Set (Fin n → ℝ)}
    (hU : MeasurableSet U) (l : ℕ) (i j : Fin L) (hij : (j : ℕ) = i + l) :
    bothIn w e μ A b k π niter burnin thin seed U i j = lagged (normed π) ν T (U.indicator 1) (l * thin.toNat) := by
  set u : (Fin n → ℝ) → ℝ := U.indicator 1 with hu
  have bu : Bdd 1 u := bdd_ind hU
  have := normed_prob hπ (measure_ne_top π univ)
  set s := rowTime burnin thin i
  set t := l * thin.toNat
  set F : (Fin n → ℝ) → ℝ := (avg ν T)^[s] fun y => u y * (avg ν T)^[t] u y with hF
  have bF : Bdd (1 * 1) F := (bu.mul (bu.avgIter hT t)).avgIter hT s
  have hrj : rowTime burnin thin j = t + s := by rw [hij]; exact rowTime_lag hg.burnin_nonneg hg.thin_pos i l
  have key : ∀ x, μ {g | (fun i : Fin L => posAt f x (rowTime burnin thin i) g) ∈ {v : Fin L → Fin n → ℝ | v i ∈ U ∧ v j ∈ U}} = ENNReal.ofReal (F x) := by
    intro x
    have h := markov_pair mf hT hd bu bu s t x
    have hm : MeasurableSet {g | posAt f x s g ∈ U ∧ posAt f x (t + s) g ∈ U} :=
      (measurable_posAt mf x s hU).inter (measurable_posAt mf x (t + s) hU)
    have e1 : (fun g => u (posAt f x s g) * u (posAt f x (t + s) g)) = {g | posAt f x s g ∈ U ∧ posAt f x (t + s) g ∈ U}.indicator 1 := by
      funext g
      by_cases h1 : posAt f x s g ∈ U
      · by_cases h2 : posAt f x (t + s) g ∈ U
        · rw [indicator_of_mem (show g ∈ {g | posAt f x s g ∈ U ∧ posAt f x (t + s) g ∈ U} from ⟨h1, h2⟩), hu, indicator_of_mem h1, indicator_of_mem h2]
          simp
        · rw [indicator_of_notMem (fun hh : g ∈ {g | posAt f x s g ∈ U ∧ posAt f x (t + s) g ∈ U} => h2 hh.2), hu, indicator_of_notMem h2, mul_zero]
      · rw [indicator_of_notMem (fun hh : g ∈ {g | posAt f x s g ∈ U ∧ posAt f x (t + s) g ∈ U} => h1 hh.1), hu, indicator_of_notMem h1, zero_mul]
    rw [e1, integral_indicator_one hm] at h
    have e2 : {g | (fun i : Fin L => posAt f x (rowTime burnin thin i) g) ∈ {v : Fin L → Fin n → ℝ | v i ∈ U ∧ v j ∈ U}} =
        {g | posAt f x s g ∈ U ∧ posAt f x (t + s) g ∈ U} := by
      ext g
      show posAt f x (rowTime burnin thin i) g ∈ U ∧ posAt f x (rowTime burnin thin j) g ∈ U ↔ _
      rw [hrj]
      exact Iff.rfl
    rw [e2, hF, ← h]
    exact (ENNReal.ofReal_toReal (measure_ne_top μ _)).symm
  have hF0 : ∀ x, 0 ≤ F x := fun x => by
    have h := markov_pair mf hT hd bu bu s t x
    rw [hF, ← h]
    refine integral_nonneg fun g => ?_
    have : ∀ y, 0 ≤ u y := fun y => indicator_nonneg (fun _ _ => zero_le_one) y
    exact mul_nonneg (this _) (this _)
  have h1 : ∫⁻ x, rowsProb w e μ (callArgs A b x niter k burnin thin seed) {v : Fin L → Fin n → ℝ | v i ∈ U ∧ v j ∈ U} ∂π =
      ENNReal.ofReal (∫ x, F x ∂π) := by
    rw [ofReal_integral_eq_lintegral_ofReal (bF.int π) (ae_of_all _ hF0)]
    refine lintegral_congr_ae (hfol.mono fun x hx => ?_)
    simp only
    rw [rowsProb_follows (q := posAt f x) hk (fun niter burnin thin => hx niter burnin thin seed) hg hL, key]
  unfold bothIn
  rw [h1, ENNReal.toReal_ofReal (integral_nonneg hF0)]
  have h2 : (∫ x, F x ∂π) / (π univ).toReal = ∫ x, F x ∂(normed π) := by rw [normed_average]; rfl
  rw [h2, hF, integral_avgIter hT (normed_balance hb) (bu.mul (bu.avgIter hT t))]
  rfl

theorem RevRun.pairs {w : Walk ℝ} {e : Env ℝ} [MeasurableSpace e.r.G] {μ : Measure e.r.G} {A : Matrix (Fin m) (Fin n) ℝ} {b : Fin m → ℝ} {k : Int}
    {π : Measure (Fin n → ℝ)} (h : RevRun w e μ A b k π) : PositivePairs w e μ A b k π := by
  obtain @⟨W, _, _, ν, _, f, T, _, mf, hd, hT, hb, hk, hfol⟩ := h
  intro niter burnin thin seed hg L hL U hU
  by_cases hπ : π univ = 0
  · have h0 : ∀ i j : Fin L, bothIn w e μ A b k π niter burnin thin seed U i j = 0 := fun i j => by
      unfold bothIn; rw [hπ, ENNReal.toReal_zero, div_zero]
    have h1 : share π U = 0 := by unfold share; rw [hπ, ENNReal.toReal_zero, div_zero]
    constructor <;> intros <;> simp [h0, h1]
  have := normed_prob hπ (measure_ne_top π univ)
  have bu := bdd_ind hU
  have hN := normed_balance hb
  have c := fun l i j hij => bothIn_eq hπ mf hd hT hb hk hfol (seed := seed) hg hL hU l i j hij
  have hm : ∫ x, U.indicator (1 : (Fin n → ℝ) → ℝ) x ∂(normed π) = share π U := by
    rw [integral_indicator_one hU, ← normed_share]; rfl
  refine ⟨fun i => ?_, bothIn_symm w e μ A b k π niter burnin thin seed U, ?_, ?_, ?_, ?_, ?_⟩
  · rw [c 0 i i (by omega), Nat.zero_mul, ← hm]
    refine integral_congr_ae (ae_of_all _ fun x => ?_)
    show U.indicator 1 x * U.indicator 1 x = U.indicator 1 x
    by_cases hx : x ∈ U
    · rw [indicator_of_mem hx, Pi.one_apply, mul_one]
    · rw [indicator_of_notMem hx, mul_zero]
  · have key : ∀ i j i' j' : Fin L, (i : ℕ) ≤ j → ((j : ℕ) : ℤ) - (i : ℕ) = ((j' : ℕ) : ℤ) - (i' : ℕ) →
        bothIn w e μ A b k π niter burnin thin seed U i j = bothIn w e μ A b k π niter burnin thin seed U i' j' := fun i j i' j' hij hh => by
      rw [c (j - i : ℕ) i j (by omega), c (j - i : ℕ) i' j' (by omega)]
    intro i j i' j' hh
    rcases le_total (i : ℕ) j with h | h
    · exact key i j i' j' h hh
    · rw [bothIn_symm w e μ A b k π niter burnin thin seed U i j, bothIn_symm w e μ A b k π niter burnin thin seed U i' j']
      exact key j i j' i' h (by omega)
  · intro t i j hj
    have h := lagged_even_floor hT hN bu (t * thin.toNat)
    rwa [hm, ← mul_assoc, ← c _ i j hj] at h
  · intro t i j j' hj hj'
    have h := lagged_even_le hT hN bu (t * thin.toNat) thin.toNat
    rwa [show 2 * (t * thin.toNat + thin.toNat) = 2 * (t + 1) * thin.toNat by ring, ← mul_assoc, ← c _ i j hj, ← c _ i j' hj'] at h
  · intro t i j₀ j₁ h₀ h₁
    have h := lagged_pairs_floor hT hN bu (t * thin.toNat) thin.toNat
    rw [hm, show 2 * (t * thin.toNat) + thin.toNat = (2 * t + 1) * thin.toNat by ring, ← mul_assoc, ← c _ i j₀ h₀, ← c _ i j₁ h₁] at h
    linarith
  · intro t i j₀ j₁ j₂ j₃ h₀ h₁ h₂ h₃
    have h := lagged_pairs_le hT hN bu (t * thin.toNat) thin.toNat
    rwa [show 2 * (t * thin.toNat + thin.toNat) + thin.toNat = (2 * (t + 1) + 1) * thin.toNat by ring,
      show 2 * (t * thin.toNat + thin.toNat) = 2 * (t + 1) * thin.toNat by ring,
      show 2 * (t * thin.toNat) + thin.toNat = (2 * t + 1) * thin.toNat by ring, ← mul_assoc, ← c _ i j₀ h₀, ← c _ i j₁ h₁, ← c _ i j₂ h₂,
      ← c _ i j₃ h₃] at h

section
variable (e : Env ℝ) [MeasurableSpace e.r.G] (μ : Measure e.r.G) (hs : IdealSource e.r μ)
include hs

/-- **C115** (`BallWalk`), on a bounded polytope. -/
theorem C115_ball (R : ℝ) (A : Matrix (Fin m) (Fin n) ℝ) (b : Fin m → ℝ) (hm : 0 < m) (hb : ∃ M, ∀ y ∈ Poly A b, ∀ i, |y i| ≤ M) (k : Int) :
    PositivePairs (.ball R) e μ A b k (uniformOn A b) :=
  (rev_ball e μ hs R A b hm hb k).pairs

/-- **C115** (`SparseBallWalk`), on a bounded polytope. -/
theorem C115_sparse_ball (R : ℝ) {E : Eigen ℝ} (hE : E.SparseLUExact) {A : Matrix (Fin m) (Fin n) ℝ} (hA : IndepRows A) {k : Int}
    (hk : 1 ≤ k ∧ k ≤ n) (x₀ : Fin n → ℝ) (hx₀ : x₀ ∈ TailPos n k.toNat) (hb : ∃ M, ∀ y ∈ PolyEq A (A *ᵥ x₀) k.toNat, ∀ i, |y i| ≤ M)
    {B : Matrix (Fin n) (Fin d) ℝ} (hB : IsKernelBasis A B) :
    PositivePairs (.sparseBall R E) e μ A (A *ᵥ x₀) k (uniformOnEq x₀ B k.toNat) :=
  (rev_sparse_ball e μ hs R hE hA hk x₀ hx₀ hb hB).pairs

/-! ## Barrier walks -/

section
variable (E : Eigen ℝ) (hE : E.Exact) (ERR : ℝ) (hR : 0 < ERR) (R : ℝ) (hr : R ≠ 0) {A : Matrix (Fin m) (Fin n) ℝ} (hA : IndepRows A)
  (hmn : m < n) (k : Int) (hk : 1 ≤ k ∧ k ≤ n) (x₀ : Fin n → ℝ) (hx₀ : x₀ ∈ TailPos n k.toNat)
  (hb : ∃ M, ∀ y ∈ PolyEq A (A *ᵥ x₀) k.toNat, ∀ i, |y i| ≤ M) {B : Matrix (Fin n) (Fin d) ℝ} (hB : IsKernelBasis A B)
include hE hR hr hA hmn hk hx₀ hb hB

/-- **C115** (`SparseDikinWalk`). -/
theorem C115_sparse_dikin (o : BState ℝ) :
    PositivePairs (.sparseBarrier (sparseDikinClass R) ERR E o) e μ A (A *ᵥ x₀) k (uniformOnEq x₀ B k.toNat) :=
  (rev_sparse_dikin e μ hs E hE ERR hR R hr hA hmn k hk x₀ hx₀ hb hB o).pairs

/-- **C115** (`SparseVaidyaWalk`), when the `int` product `k * (cols - rows)` does not overflow. -/
theorem C115_sparse_vaidya (hov : k * ((n : Int) - m) ≤ 2 ^ 31 - 1) (o : BState ℝ) :
    PositivePairs (.sparseBarrier (sparseVaidyaClass E ERR R) ERR E o) e μ A (A *ᵥ x₀) k (uniformOnEq x₀ B k.toNat) :=
  (rev_sparse_vaidya e μ hs E hE ERR hR R hr hA hmn k hk x₀ hx₀ hb hB hov o).pairs

end

/-- **C115** (`DikinWalk`, if all constraints bound a coordinate). -/
theorem C115_dense_dikin_axis (E : Eigen ℝ) (hE : E.Exact) (R : ℝ) (hr : R ≠ 0) {A : Matrix (Fin m) (Fin n) ℝ} {b : Fin m → ℝ} (hn : 0 < n)
    (hax : AxisAligned A) (hb : ∃ M, ∀ y ∈ Poly A b, ∀ i, |y i| ≤ M) (hne : (Interior A b).Nonempty) (k : Int) (o : BState ℝ) :
    PositivePairs (.barrier (dikinClass R) E o) e μ A b k (uniformOn A b) :=
  (rev_dense_dikin_axis e μ hs E hE R hr hn hax hb hne k o).pairs

/-- **C115** (`VaidyaWalk`, if all constraints bound a coordinate and the `int` product `cols * rows` does not overflow). -/
theorem C115_dense_vaidya_axis (E : Eigen ℝ) (hE : E.Exact) (R : ℝ) (hr : R ≠ 0) {A : Matrix (Fin m) (Fin n) ℝ} {b : Fin m → ℝ} (hn : 0 < n)
    (hax : AxisAligned A) (hb : ∃ M, ∀ y ∈ Poly A b, ∀ i, |y i| ≤ M) (hne : (Interior A b).Nonempty) (hov : (n : Int) * m ≤ 2 ^ 31 - 1) (k : Int)
    (o : BState ℝ) : PositivePairs (.barrier (vaidyaClass E R) E o) e μ A b k (uniformOn A b) :=
  (rev_dense_vaidya_axis e μ hs E hE R hr hn hax hb hne hov k o).pairs

end

/-- **C115** (any subclass of `SparseBarrierWalk` whose weights are a positive function of the point). -/
theorem C115_sparse_user {σ : Type} (cls : SparseBarrierClass ℝ σ) (E : Eigen ℝ) (hE : E.Exact) (ERR : ℝ) (hR : 0 < ERR) {A : Matrix (Fin m) (Fin n) ℝ}
    (hA : IndepRows A) (k : Int) (hk : 1 ≤ k ∧ k ≤ n) {D : ℝ} (hD : 0 < D) {wf : (Fin n → ℝ) → Fin n → ℝ} (hwm : Measurable wf)
    (hwp : ∀ x ∈ TailPos n k.toNat, ∀ i : Fin n, n - k.toNat ≤ i.val → 0 < wf x i)
    (x₀ : Fin n → ℝ) (hx₀ : x₀ ∈ TailPos n k.toNat) (hb : ∃ M, ∀ y ∈ PolyEq A (A *ᵥ x₀) k.toNat, ∀ i, |y i| ≤ M)
    {B : Matrix (Fin n) (Fin d) ℝ} (hB : IsKernelBasis A B) (o : σ) (ho : WeightsAre cls o A k D wf)
    (e : Env ℝ) [MeasurableSpace e.r.G] (μ : Measure e.r.G) (hs : IdealSource e.r μ) :
    PositivePairs (.sparseBarrier cls ERR E o) e μ A (A *ᵥ x₀) k (uniformOnEq x₀ B k.toNat) :=
  (rev_sparse_user cls E hE ERR hR hA k hk hD hwm hwp x₀ hx₀ hb hB o ho e μ hs).pairs

/-! ## Examples -/

/-- It applies to the subclass `squareClass` on the simplex. -/
example : PositivePairs (.sparseBarrier squareClass 1 exactEigen ()) streamEnv streamLaw ones3 (ones3 *ᵥ fun _ => 1 / 3) 3
    (uniformOnEq (fun _ => 1 / 3) simplexBasis 3) :=
  C115_sparse_user squareClass exactEigen exactEigen_exact 1 one_pos ones3_indep 3 ⟨by decide, by decide⟩ (D := 2) two_pos
    (wf := fun x i => 1 + x i * x i)
    (measurable_pi_lambda _ fun i => measurable_const.add ((measurable_pi_apply i).mul (measurable_pi_apply i)))
    (fun x _ i _ => by have := mul_self_nonneg (x i); linarith)
    (fun _ => 1 / 3) (by intro i _; show (0 : ℝ) < 1 / 3; norm_num) (by rw [simplex_start]; exact simplex_bdd) ones3_kernel ()
    ⟨(), rfl, rfl, fun _ _ _ => rfl⟩ streamEnv streamLaw streamRng_ideal

/-- On the simplex. -/
example (o : BState ℝ) : PositivePairs (.sparseBarrier (sparseDikinClass 1) 1 exactEigen o) streamEnv streamLaw ones3 (ones3 *ᵥ fun _ => 1 / 3) 3
    (uniformOnEq (fun _ => 1 / 3) simplexBasis ((3 : Int).toNat)) :=
  C115_sparse_dikin streamEnv streamLaw streamRng_ideal exactEigen exactEigen_exact 1 one_pos 1 one_ne_zero ones3_indep (by decide) 3 (by decide) _
    (by intro i _; show (0 : ℝ) < 1 / 3; norm_num) (by rw [simplex_start]; exact simplex_bdd) ones3_kernel o

/-- On the square: two barrier walks. -/
example (o : BState ℝ) : PositivePairs (.barrier (dikinClass 1) exactEigen o) streamEnv streamLaw boxA (fun _ => 1) 0 (uniformOn boxA fun _ => 1) ∧
    PositivePairs (.barrier (vaidyaClass exactEigen 1) exactEigen o) streamEnv streamLaw boxA (fun _ => 1) 0 (uniformOn boxA fun _ => 1) := by
  have hne : (Interior boxA fun _ => 1).Nonempty :=
    ⟨fun _ => 0, fun i => by rw [show (fun _ => (0 : ℝ)) = (0 : Fin 2 → ℝ) from rfl, Matrix.mulVec_zero]; exact zero_lt_one⟩
  exact ⟨C115_dense_dikin_axis streamEnv streamLaw streamRng_ideal exactEigen exactEigen_exact 1 one_ne_zero (by decide) boxA_axis boxA_bdd hne 0 o,
    C115_dense_vaidya_axis streamEnv streamLaw streamRng_ideal exactEigen exactEigen_exact 1 one_ne_zero (by decide) boxA_axis boxA_bdd hne (by decide) 0 o⟩

/-- On the square. -/
example : PositivePairs (.ball 1) streamEnv streamLaw boxA (fun _ => 1) 0 (uniformOn boxA fun _ => 1) :=
  C115_ball streamEnv streamLaw streamRng_ideal 1 boxA (fun _ => 1) (by decide) boxA_bdd 0

end PW

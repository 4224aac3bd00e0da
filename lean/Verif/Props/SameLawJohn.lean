import Verif.Props.SameLaw
import Verif.Props.SparseJohnLaw

/-!
# C108 for `SparseJohnWalk`

Its chain is a chain of positions and weights: the weights of the next iteration start from those of the last.
-/

namespace PW
open Matrix MeasureTheory Set
open scoped ENNReal
variable {m n d : ℕ}

/-- Two calls that follow the positions of the same chain, driven by different generators. -/
theorem sameLaw_fst {Y W : Type} [MeasurableSpace Y] [MeasurableSpace W] {w w' : Walk ℝ} {e e' : Env ℝ} [MeasurableSpace e.r.G] [MeasurableSpace e'.r.G]
    {μ : Measure e.r.G} [IsProbabilityMeasure μ] {μ' : Measure e'.r.G} [IsProbabilityMeasure μ'] {ν : Measure W}
    {f : (Fin n → ℝ) × Y → e.r.G → ((Fin n → ℝ) × Y) × e.r.G} {f' : (Fin n → ℝ) × Y → e'.r.G → ((Fin n → ℝ) × Y) × e'.r.G}
    {T : (Fin n → ℝ) × Y → W → (Fin n → ℝ) × Y}
    (mf : Measurable fun p : ((Fin n → ℝ) × Y) × e.r.G => f p.1 p.2) (hd : Drives μ ν f T)
    (mf' : Measurable fun p : ((Fin n → ℝ) × Y) × e'.r.G => f' p.1 p.2) (hd' : Drives μ' ν f' T) (mT : ∀ z, Measurable (T z))
    {A : Matrix (Fin m) (Fin n) ℝ} {b : Fin m → ℝ} {k : Int} {x : Fin n → ℝ} {y : Y}
    (hk : w.isSparse = true → 1 ≤ k ∧ k ≤ n) (hk' : w'.isSparse = true → 1 ≤ k ∧ k ≤ n)
    (hfol : ∀ niter burnin thin seed : Int,
      ∀ᵐ g ∂μ, Follows w e (callArgs A b x niter k burnin thin seed) ⟨rfl, rfl⟩ (fun t g => (posAt f (x, y) t g).1) g)
    (hfol' : ∀ niter burnin thin seed : Int,
      ∀ᵐ g ∂μ', Follows w' e' (callArgs A b x niter k burnin thin seed) ⟨rfl, rfl⟩ (fun t g => (posAt f' (x, y) t g).1) g) :
    SameLaw w e μ A b x k w' e' μ' A b x k id where
  paths niter burnin thin seed seed' S hS := by
    rw [pathProb_follows (hfol niter burnin thin seed), pathProb_follows (hfol' niter burnin thin seed')]
    have mev : Measurable fun (p : ℕ → (Fin n → ℝ) × Y) (t : ℕ) => (p t).1 :=
      measurable_pi_lambda _ fun t => measurable_fst.comp (measurable_pi_apply t)
    exact path_transfer mf hd mf' hd' mT measurable_id (MeasurePreserving.id _) (fun _ _ => rfl) (x, y) (mev hS)
  rows niter burnin thin seed seed' hg L S hS hL := by
    rw [rowsProb_follows (q := fun t g => (posAt f (x, y) t g).1) hk (fun niter burnin thin => hfol niter burnin thin seed) hg hL,
      rowsProb_follows (q := fun t g => (posAt f' (x, y) t g).1) hk' (fun niter burnin thin => hfol' niter burnin thin seed') hg hL]
    have mev : Measurable fun (p : ℕ → (Fin n → ℝ) × Y) (i : Fin L) => (p (rowTime burnin thin i)).1 :=
      measurable_pi_lambda _ fun i => measurable_fst.comp (measurable_pi_apply _)
    exact path_transfer mf hd mf' hd' mT measurable_id (MeasurePreserving.id _) (fun _ _ => rfl) (x, y) (mev hS)

/-- Two calls that follow a chain of positions and weights. -/
theorem mem_sameLaw {k : Int} {Gf : (Fin n → ℝ) → Fin n → ℝ} {Gm V : (Fin n → ℝ) → (Fin n → ℝ) → Fin n → ℝ} {Box : Set (Fin n → ℝ)} {τ D : ℝ}
    {A : Matrix (Fin m) (Fin n) ℝ} {b : Fin m → ℝ} {x ω : Fin n → ℝ} (h : MemNear k.toNat Gf Gm V Box τ) {w w' : Walk ℝ}
    (hk : 1 ≤ k ∧ k ≤ n) {e e' : Env ℝ} [MeasurableSpace e.r.G] [MeasurableSpace e'.r.G]
    {μ : Measure e.r.G} {μ' : Measure e'.r.G} (hs : IdealSource e.r μ) (hs' : IdealSource e'.r μ')
    (hfol : ∀ niter burnin thin seed : Int,
      ∀ᵐ g ∂μ, Follows w e (callArgs A b x niter k burnin thin seed) ⟨rfl, rfl⟩ (fun t g => (posAt (memNext A D Gm V k.toNat e.r) (x, ω) t g).1) g)
    (hfol' : ∀ niter burnin thin seed : Int,
      ∀ᵐ g ∂μ', Follows w' e' (callArgs A b x niter k burnin thin seed) ⟨rfl, rfl⟩ (fun t g => (posAt (memNext A D Gm V k.toNat e'.r) (x, ω) t g).1) g) :
    SameLaw w e μ A b x k w' e' μ' A b x k id := by
  have := hs.prob
  have := hs'.prob
  exact sameLaw_fst (measurable_memNext h A D k.toNat e.r μ hs) (memNext_drives h A D k.toNat e.r μ hs)
    (measurable_memNext h A D k.toNat e'.r μ' hs') (memNext_drives h A D k.toNat e'.r μ' hs')
    (fun z => (measurable_memMove h A D k.toNat).comp measurable_prodMk_left) (fun _ => hk) (fun _ => hk) hfol hfol'

/-- **C108** (`SparseJohnWalk`), when the tolerance `LIM` is small and the iteration limit large enough for it: neither the generator nor the seed nor the
weights that the object keeps from earlier calls matter. -/
theorem C108_sparse_john (E : Eigen ℝ) (hE : E.Exact) (ERR : ℝ) (hR : 0 < ERR) (R : ℝ) (hr : R ≠ 0) {A : Matrix (Fin m) (Fin n) ℝ} (hA : IndepRows A)
    (hmn : m < n) (k : Int) (hk : 1 ≤ k ∧ k ≤ n) (hd : (n : Int) - m ≤ k) (x : Fin n → ℝ) (hx : x ∈ TailPos n k.toNat) (LIM : ℝ) (M : Int)
    (hL : 0 < LIM) (hLs : johnSlope m n k.toNat * LIM ≤ 1 / 2) (hM : 3 * (k : ℝ) ^ 2 / ((n : ℝ) - m) < M * LIM ^ 2)
    (e : Env ℝ) [MeasurableSpace e.r.G] (μ : Measure e.r.G) (hs : IdealSource e.r μ)
    (e' : Env ℝ) [MeasurableSpace e'.r.G] (μ' : Measure e'.r.G) (hs' : IdealSource e'.r μ') (o o' : BState ℝ) :
    SameLaw (.sparseBarrier (sparseJohnClass E ERR R LIM M) ERR E o) e μ A (A *ᵥ x) x k
      (.sparseBarrier (sparseJohnClass E ERR R LIM M) ERR E o') e' μ' A (A *ᵥ x) x k id := by
  obtain ⟨d, B, hB⟩ := exists_kernelBasis A
  obtain ⟨D, hD, -, hch⟩ := john_chain E hE ERR hR R hr hA hmn k hk hd _ x rfl hx B hB x rfl hx
  obtain ⟨hnear, hfol⟩ := hch LIM M hL hLs hM
  exact mem_sameLaw hnear hk hs hs' (fun niter burnin thin seed => hfol o e μ hs niter burnin thin seed)
    fun niter burnin thin seed => hfol o' e' μ' hs' niter burnin thin seed

/-- On the simplex, from its centre, with a fresh object and with one that has been used. -/
example (o : BState ℝ) : ∃ LIM > 0, ∃ M : Int,
    SameLaw (.sparseBarrier (sparseJohnClass exactEigen 1 (1 / 2) LIM M) 1 exactEigen (BState.fresh 0)) streamEnv streamLaw ones3 (ones3 *ᵥ fun _ => 1 / 3)
      (fun _ => 1 / 3) 3 (.sparseBarrier (sparseJohnClass exactEigen 1 (1 / 2) LIM M) 1 exactEigen o) streamEnv streamLaw ones3
      (ones3 *ᵥ fun _ => 1 / 3) (fun _ => 1 / 3) 3 id := by
  have hx : (fun _ => 1 / 3 : Fin 3 → ℝ) ∈ TailPos 3 ((3 : Int).toNat) := by intro i _; show (0 : ℝ) < 1 / 3; norm_num
  have hs : 0 < johnSlope 1 3 ((3 : Int).toNat) :=
    johnSlope_pos exactEigen exactEigen_exact 1 one_pos (1 / 2) (by norm_num) ones3_indep (by decide) 3 ⟨by decide, by decide⟩
      (by decide) (fun _ => 1) simplex_bdd (fun _ => 1 / 3) simplex_start hx simplexBasis ones3_kernel (fun _ => 1 / 3) simplex_start hx
  obtain ⟨M, hM⟩ := exists_int_gt (3 * ((3 : Int) : ℝ) ^ 2 / (((3 : ℕ) : ℝ) - (1 : ℕ)) / (1 / (2 * johnSlope 1 3 ((3 : Int).toNat))) ^ 2)
  refine ⟨1 / (2 * johnSlope 1 3 ((3 : Int).toNat)), by positivity, M, ?_⟩
  refine C108_sparse_john exactEigen exactEigen_exact 1 one_pos (1 / 2) (by norm_num) ones3_indep (by decide) 3 ⟨by decide, by decide⟩ (by decide)
    _ hx _ M (by positivity) (le_of_eq ?_) ?_ streamEnv streamLaw streamRng_ideal streamEnv streamLaw streamRng_ideal _ _
  · field_simp
  · rwa [div_lt_iff₀ (by positivity)] at hM

end PW

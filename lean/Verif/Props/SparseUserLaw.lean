import Verif.Props.SparseBarrierConverges

/-!
# C80: any sparse barrier walk whose weights are a positive function of the point converges to the uniform distribution

`SparseBarrierWalk` is an abstract class; a subclass in C++ gives the distance term and the weights (a subclass in Python only the weights: C83).
-/

namespace PW
open Matrix MeasureTheory Set
open scoped ENNReal
variable {m n d : ℕ}

/-- What a subclass must do on one problem: the distance term is set once to `D`, and the weights at a point with positive constrained coordinates are
`wf x`, whatever uninitialised memory holds; evaluating them leaves the object as it was. -/
structure WeightsAre {σ : Type} (cls : SparseBarrierClass ℝ σ) (o : σ) (A : Matrix (Fin m) (Fin n) ℝ) (k : Int) (D : ℝ)
    (wf : (Fin n → ℝ) → Fin n → ℝ) : Prop where
  weights : ∃ o', cls.setDistTerm o ((n : Int) - m) k = .ok o' ∧ cls.distTerm o' = D ∧
    ∀ junk, ∀ x ∈ TailPos n k.toNat, cls.generateWeight junk o' x A k.toNat = .ok (⟨n, wf x⟩, o')

section
variable {σ : Type} (cls : SparseBarrierClass ℝ σ) (E : Eigen ℝ) (hE : E.Exact) (ERR : ℝ) (hR : 0 < ERR) {A : Matrix (Fin m) (Fin n) ℝ}
  (hA : IndepRows A) (k : Int) (hk : 1 ≤ k ∧ k ≤ n) {D : ℝ} (hD : 0 < D) {wf : (Fin n → ℝ) → Fin n → ℝ} (hwm : Measurable wf)
  (hwp : ∀ x ∈ TailPos n k.toNat, ∀ i : Fin n, n - k.toNat ≤ i.val → 0 < wf x i)
  (b : Fin m → ℝ) (hb : ∃ M, ∀ y ∈ PolyEq A b k.toNat, ∀ i, |y i| ≤ M) (x₀ : Fin n → ℝ)
  (hx₀A : A *ᵥ x₀ = b) (hx₀ : x₀ ∈ TailPos n k.toNat) (B : Matrix (Fin n) (Fin d) ℝ) (hB : IsKernelBasis A B)
  (x : Fin n → ℝ) (hxA : A *ᵥ x = b) (hx : x ∈ TailPos n k.toNat)
include hE hR hA hk hD hwm hwp hb hx₀A hx₀ hB hxA hx

theorem user_mh : ∃ Gf : (Fin n → ℝ) → Fin n → ℝ, ∃ c, MHData (stdNormal n) (TailNonneg n k.toNat) (relInterior A k.toNat x₀) volume (chart x₀ B)
      (sparseProp A D Gf) (sparseAccept A D Gf) (sparseCoordProp A D Gf x₀ B) (sparseCoordDens A D Gf x₀ B c) ∧ x ∈ relInterior A k.toNat x₀ ∧
    ∀ o, WeightsAre cls o A k D wf → ∀ (e : Env ℝ) [MeasurableSpace e.r.G] (μ : Measure e.r.G), IdealSource e.r μ → ∀ niter burnin thin seed : Int,
      ∀ᵐ g ∂μ, Follows (.sparseBarrier cls ERR E o) e (callArgs A b x niter k burnin thin seed) ⟨rfl, rfl⟩
        (posAt (mhNext e.r n (TailNonneg n k.toNat) (sparseProp A D Gf) (sparseAccept A D Gf)) x) g := by
  subst hx₀A
  have hpos : ∀ x ∈ TailPos n k.toNat, ∀ i, 0 < metricG ERR 0 x (wf x) k.toNat i := fun x hx i => metricG_pos hR 0 hx (hwp x hx) i
  have hmeas : ∀ i, Measurable fun x => metricG ERR 0 x (wf x) k.toNat i :=
    measurable_metricG ERR 0 k.toNat (fun i => measurable_pi_apply i) (fun i => (measurable_pi_apply i).comp hwm)
  obtain ⟨c, hc⟩ := sparse_mhData hA hD hx₀ hB hb hmeas hpos
  refine ⟨_, c, hc, ⟨hx, hxA⟩, fun o ho e _ μ hs niter burnin thin seed => ?_⟩
  obtain ⟨o', h1, h2, h3⟩ := ho.weights
  refine sparseBarrier_follows cls ERR E hE hA hk hpos hc o o' h1 h2 e μ hs (fun y hy => ?_) _ ⟨hx, hxA⟩ niter burnin thin seed
  unfold generateG
  rw [h3 _ y hy, Out.ok_bind, dif_pos rfl]
  congr 2
  funext i
  simp only [metricG, generateSlackInverse]
  by_cases h : isTail k.toNat i = true
  · simp only [h, if_true]; rfl
  · simp only [h, Bool.false_eq_true, if_false]

/-- **C80**: laws. -/
theorem C80_rows (ε : ℝ) (hε : 0 < ε) : ∃ t₀ : ℕ, ∀ o, WeightsAre cls o A k D wf → ∀ (e : Env ℝ) [MeasurableSpace e.r.G] (μ : Measure e.r.G),
    IdealSource e.r μ → ∀ seed : Int, ∀ t ≥ t₀, LawWithin (.sparseBarrier cls ERR E o) e μ A b x k seed (uniformOnEq x₀ B k.toNat) t ε := by
  obtain ⟨Gf, c, h, hxV, hfol⟩ := user_mh cls E hE ERR hR hA k hk hD hwm hwp b hb x₀ hx₀A hx₀ B hB x hxA hx
  obtain ⟨t₀, ht₀⟩ := h.rows (m := m) hxV hε
  exact ⟨t₀, fun o ho e _ μ hs seed t ht =>
    ht₀ _ e μ hs A b k seed (fun _ => hk) (fun niter burnin thin => hfol o ho e μ hs niter burnin thin seed) t ht⟩

/-- **C80**: averages. -/
theorem C80_averages (φ : (Fin n → ℝ) → ℝ) (hφ : Measurable φ) (M : ℝ) (hM : 0 < M) (hφM : ∀ y ∈ PolyEq A b k.toNat, |φ y| ≤ M) (ε δ : ℝ)
    (hε : 0 < ε) (hδ : 0 < δ) : ∃ L₀ : ℕ, ∀ o, WeightsAre cls o A k D wf → ∀ (e : Env ℝ) [MeasurableSpace e.r.G] (μ : Measure e.r.G),
    IdealSource e.r μ → ∀ seed : Int, ∀ L ≥ L₀,
      MeanWithin (.sparseBarrier cls ERR E o) e μ A b x k seed φ (average (uniformOnEq x₀ B k.toNat) φ) L ε δ := by
  obtain ⟨Gf, c, h, hxV, hfol⟩ := user_mh cls E hE ERR hR hA k hk hD hwm hwp b hb x₀ hx₀A hx₀ B hB x hxA hx
  obtain ⟨L₀, hL₀⟩ := h.averages (m := m) hxV hφ hM (fun y hy => hφM y ⟨hy.2.trans hx₀A, tailPos_subset _ _ hy.1⟩) hε hδ
  exact ⟨L₀, fun o ho e _ μ hs seed L hL =>
    hL₀ _ e μ hs A b k seed (fun _ => hk) (fun niter burnin thin => hfol o ho e μ hs niter burnin thin seed) L hL⟩

end

/-- A subclass nobody ships: weight `1 + xᵢ²` on every coordinate, distance term 2. -/
def squareClass : SparseBarrierClass ℝ Unit where
  setDistTerm _ _ _ := .ok ()
  distTerm _ := 2
  generateWeight {_ n} _ _ x _ _ := .ok (⟨n, fun i => 1 + x i * x i⟩, ())

/-- On the simplex it converges to the uniform distribution. -/
example (ε : ℝ) (hε : 0 < ε) (x : Fin 3 → ℝ) (hxA : ones3 *ᵥ x = fun _ => 1) (hx : x ∈ TailPos 3 3) :
    ∃ t₀ : ℕ, ∀ t ≥ t₀,
      |(pathProb (.sparseBarrier squareClass 1 exactEigen ()) streamEnv streamLaw
        (callArgs ones3 (fun _ => 1) x 100 3 0 1 7) ⟨rfl, rfl⟩ {p | p t (0 : Fin 3) ≤ 1 / 2}).toReal -
          share (uniformOnEq (fun _ => 1 / 3) simplexBasis 3) {y | y (0 : Fin 3) ≤ 1 / 2}| ≤ ε := by
  obtain ⟨t₀, h⟩ := C80_rows squareClass exactEigen exactEigen_exact 1 one_pos ones3_indep 3 ⟨by decide, by decide⟩ (D := 2) two_pos
    (wf := fun x i => 1 + x i * x i)
    (measurable_pi_lambda _ fun i => measurable_const.add ((measurable_pi_apply i).mul (measurable_pi_apply i)))
    (fun x _ i _ => by have := mul_self_nonneg (x i); linarith)
    (fun _ => 1) simplex_bdd (fun _ => 1 / 3) simplex_start (by intro i _; show (0 : ℝ) < 1 / 3; norm_num) simplexBasis ones3_kernel x hxA hx ε hε
  exact ⟨t₀, fun t ht => (h () ⟨(), rfl, rfl, fun _ _ _ => rfl⟩ streamEnv streamLaw streamRng_ideal 7 t ht 100 0 1 _
    (measurableSet_le (measurable_pi_apply (0 : Fin 3)) measurable_const)).1⟩

end PW

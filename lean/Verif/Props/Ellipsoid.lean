import Verif.Props.ChainFacts
import Verif.Props.Completes

/-!
# C55: the ellipsoid of a barrier walk lies in the polytope

A proposal whose distance from the current point, in the walk's own metric, is below the smallest weight is strictly
inside the polytope: it is never rejected by the membership test.
-/

namespace PW
open Matrix
variable {m n : ℕ}

theorem barrierHess_quad (w : Fin m → ℝ) (A : Matrix (Fin m) (Fin n) ℝ) (b : Fin m → ℝ) (x v : Fin n → ℝ) :
    v ⬝ᵥ barrierHess w A b x *ᵥ v = ∑ i, w i / (b i - (A *ᵥ x) i) ^ 2 * (A *ᵥ v) i ^ 2 := by
  unfold barrierHess
  rw [← Matrix.mulVec_mulVec, ← Matrix.mulVec_mulVec, Matrix.dotProduct_mulVec, Matrix.vecMul_transpose]
  unfold dotProduct
  refine Finset.sum_congr rfl fun i _ => ?_
  rw [Matrix.mulVec_diagonal]
  ring

/-- Points of the ellipsoid, any positive weights: strictly inside it they are interior, on its boundary they are in the
polytope. -/
theorem ellipsoid_dense {w : Fin m → ℝ} {A : Matrix (Fin m) (Fin n) ℝ} {b : Fin m → ℝ} {x z : Fin n → ℝ}
    (hx : x ∈ Interior A b) {c : ℝ} (hw : ∀ i, 0 < w i) (hc : ∀ i, c ≤ w i) :
    ((z - x) ⬝ᵥ barrierHess w A b x *ᵥ (z - x) < c → z ∈ Interior A b) ∧
    ((z - x) ⬝ᵥ barrierHess w A b x *ᵥ (z - x) ≤ c → z ∈ Poly A b) := by
  have key : ∀ i, w i / (b i - (A *ᵥ x) i) ^ 2 * (A *ᵥ (z - x)) i ^ 2 ≤
      (z - x) ⬝ᵥ barrierHess w A b x *ᵥ (z - x) := fun i => by
    rw [barrierHess_quad]
    refine Finset.single_le_sum (f := fun i => w i / (b i - (A *ᵥ x) i) ^ 2 * (A *ᵥ (z - x)) i ^ 2) (fun j _ => ?_)
      (Finset.mem_univ i)
    have := hw j
    positivity
  have hz : ∀ i, (A *ᵥ z) i = (A *ᵥ x) i + (A *ᵥ (z - x)) i := fun i => by
    rw [Matrix.mulVec_sub]; simp
  constructor
  · intro h i
    have hs : 0 < b i - (A *ᵥ x) i := sub_pos.2 (hx i)
    have h1 : w i / (b i - (A *ᵥ x) i) ^ 2 * (A *ᵥ (z - x)) i ^ 2 < w i := ((key i).trans_lt h).trans_le (hc i)
    have h2 : (A *ᵥ (z - x)) i ^ 2 < (b i - (A *ᵥ x) i) ^ 2 := by
      rw [div_mul_eq_mul_div, div_lt_iff₀ (by positivity)] at h1
      exact lt_of_mul_lt_mul_left h1 (hw i).le
    have h3 := lt_of_pow_lt_pow_left₀ 2 hs.le h2
    show (A *ᵥ z) i < b i
    rw [hz]
    linarith
  · intro h i
    have hs : 0 < b i - (A *ᵥ x) i := sub_pos.2 (hx i)
    have h1 : w i / (b i - (A *ᵥ x) i) ^ 2 * (A *ᵥ (z - x)) i ^ 2 ≤ w i := ((key i).trans h).trans (hc i)
    have h2 : (A *ᵥ (z - x)) i ^ 2 ≤ (b i - (A *ᵥ x) i) ^ 2 := by
      rw [div_mul_eq_mul_div, div_le_iff₀ (by positivity)] at h1
      exact le_of_mul_le_mul_left h1 (hw i)
    have h3 := le_of_sq_le_sq h2 hs.le
    show (A *ᵥ z) i ≤ b i
    rw [hz]
    linarith

/-- **C55** (dense): `w` the weights and `H` the Hessian any barrier walk computes at an interior point `x`, `c` a lower
bound of the weights. Every `z` with `(z-x)ᵀH(z-x) < c` is strictly inside the polytope, and every `z` with
`(z-x)ᵀH(z-x) ≤ c` passes the membership test. -/
theorem C55_dense {σ : Type} (cls : BarrierClass ℝ σ) (o o1 : σ) (x : Fin n → ℝ) (A : Matrix (Fin m) (Fin n) ℝ)
    (b : Fin m → ℝ) (hm : 0 < m) (hx : x ∈ Interior A b) (w : Fin m → ℝ)
    (hw : cls.generateWeight o x A b = .ok (⟨m, w⟩, o1)) (hpos : ∀ i, 0 < w i) (c : ℝ) (hc : ∀ i, c ≤ w i)
    (H : Matrix (Fin n) (Fin n) ℝ) (o2 : σ) (hH : generateHessian cls o x A b = .ok (H, o2)) (z : Fin n → ℝ) :
    ((z - x) ⬝ᵥ H *ᵥ (z - x) < c → z ∈ Interior A b) ∧
    ((z - x) ⬝ᵥ H *ᵥ (z - x) ≤ c → inPolytope z A b = .ok true) := by
  obtain ⟨w', hw', rfl⟩ := generateHessian_ok hH
  rw [hw] at hw'
  obtain rfl : w = w' := by
    have := (Prod.ext_iff.1 (Out.ok.inj hw')).1
    simpa using this
  refine ⟨(ellipsoid_dense hx hpos hc).1, fun h => ?_⟩
  rw [inPolytope_mem hm]
  simp [(ellipsoid_dense hx hpos hc).2 h]

/-- **C55** (dense, library): the Dikin ellipsoid of radius 1, the Vaidya ellipsoid of squared radius `d/n` and the John
ellipsoid of squared radius `d/(2n)` lie in the polytope (`n` constraints, dimension `d`). -/
theorem C55_library (E : Eigen ℝ) (hE : E.InvExact) (R LIM : ℝ) (M : Int) (hM : 1 ≤ M) (o : BState ℝ)
    (ho : StartsAtOnes o.w m) (x : Fin n → ℝ) (A : Matrix (Fin m) (Fin n) ℝ) (b : Fin m → ℝ) (hn : 0 < n)
    (hA : IndepCols A) (hx : x ∈ Interior A b) (cls : BarrierClass ℝ (BState ℝ)) (c : ℝ)
    (hc : (cls = dikinClass R ∧ c = 1) ∨ (cls = vaidyaClass E R ∧ c = (n : ℝ) / m) ∨
      (cls = johnClass E R LIM M ∧ c = (n : ℝ) / (2 * m)))
    (H : Matrix (Fin n) (Fin n) ℝ) (o2 : BState ℝ) (hH : generateHessian cls o x A b = .ok (H, o2)) (z : Fin n → ℝ)
    (hz : (z - x) ⬝ᵥ H *ᵥ (z - x) ≤ c) : inPolytope z A b = .ok true := by
  have hm : 0 < m := by
    rcases Nat.eq_zero_or_pos m with rfl | h
    · exact absurd (congrFun (hA (fun _ => 1) (Subsingleton.elim _ _)) ⟨0, hn⟩) one_ne_zero
    · exact h
  rcases hc with ⟨rfl, rfl⟩ | ⟨rfl, rfl⟩ | ⟨rfl, rfl⟩
  · exact (C55_dense _ o o x A b hm hx (fun _ => 1) rfl (fun _ => one_pos) 1 (fun _ => le_rfl) H o2 hH z).2 hz
  · obtain ⟨w, hw, -, hb, -⟩ := C21_vaidya E hE R o x A b hA hx
    exact (C55_dense _ o o x A b hm hx w hw (fun i => lt_of_lt_of_le (by positivity) (hb i).1) _ (fun i => (hb i).1)
      H o2 hH z).2 hz
  · obtain ⟨w, t, cv, hw, -, -, -, -, hb, -⟩ := C22_john E hE R LIM M hM o ho x A b hn hA hx
    exact (C55_dense _ o _ x A b hm hx w hw (fun i => lt_trans (by positivity) (hb i).1) _ (fun i => (hb i).1.le)
      H o2 hH z).2 hz

/-! ### Sparse -/

theorem ellipsoid_sparse {ERR : ℝ} (hR : 0 ≤ ERR) {k : ℕ} {w x z : Fin n → ℝ} (hx : x ∈ TailPos n k) {c : ℝ}
    (hw : ∀ i : Fin n, n - k ≤ i.val → 0 < w i) (hc : ∀ i : Fin n, n - k ≤ i.val → c ≤ w i)
    (h : ∑ i, Spec.sparseMetric ERR k w x i * (z i - x i) ^ 2 < c) : z ∈ TailPos n k := by
  intro i hi
  have h0 : ∀ j, 0 ≤ Spec.sparseMetric ERR k w x j * (z j - x j) ^ 2 := fun j => by
    unfold Spec.sparseMetric
    split
    · have := hw j ‹_›; positivity
    · positivity
  have h1 : Spec.sparseMetric ERR k w x i * (z i - x i) ^ 2 < w i :=
    ((Finset.single_le_sum (f := fun j => Spec.sparseMetric ERR k w x j * (z j - x j) ^ 2) (fun j _ => h0 j)
      (Finset.mem_univ i)).trans_lt h).trans_le (hc i hi)
  have hp := hx i hi
  rw [Spec.sparseMetric, if_pos hi, div_mul_eq_mul_div, div_lt_iff₀ (by positivity)] at h1
  have h2 := lt_of_mul_lt_mul_left h1 (hw i hi).le
  have h3 : |z i - x i| < x i := by
    have := sq_lt_sq.1 h2
    rwa [abs_of_pos hp] at this
  have := neg_lt_of_abs_lt h3
  linarith

/-- The local norm of the proposal is at most that of the draw. -/
theorem dirMat_contract {A : Matrix (Fin m) (Fin n) ℝ} (hA : IndepRows A) {G : Fin n → ℝ} (hG : ∀ i, 0 < G i)
    (v : Fin n → ℝ) : ∑ i, G i * (dirMat A G *ᵥ v) i ^ 2 ≤ ∑ i, v i ^ 2 := by
  have hu := PosDef.isUnit_det (scaled_posDef hA hG)
  unfold dirMat
  generalize A * diagonal (invSqrt G) = S at hu
  set Q := 1 - Sᵀ * (S * Sᵀ)⁻¹ * S with hQ
  have hQQ : Qᵀ * Q = Q := by
    rw [hQ, projKer_transpose]
    nth_rw 1 [Matrix.sub_mul]
    rw [Matrix.one_mul, Matrix.mul_assoc (Sᵀ * (S * Sᵀ)⁻¹), projKer_ker hu, Matrix.mul_zero, sub_zero]
  have h1 : ∑ i, G i * ((diagonal (invSqrt G) * Q) *ᵥ v) i ^ 2 = ∑ i, (Q *ᵥ v) i ^ 2 := by
    refine Finset.sum_congr rfl fun i _ => ?_
    rw [← Matrix.mulVec_mulVec, Matrix.mulVec_diagonal, mul_pow, ← mul_assoc]
    have := invSqrt_sq hG i
    rw [sq (invSqrt G i), this, one_mul]
  have h2 : ∑ i, (Q *ᵥ v) i ^ 2 = ∑ i, v i * (Q *ᵥ v) i := by
    have : (Q *ᵥ v) ⬝ᵥ (Q *ᵥ v) = v ⬝ᵥ (Q *ᵥ v) := by
      rw [Matrix.dotProduct_mulVec, ← Matrix.mulVec_transpose, Matrix.mulVec_mulVec, hQQ, dotProduct_comm]
    simpa [dotProduct, sq] using this
  have h3 : 0 ≤ ∑ i, (v i - (Q *ᵥ v) i) ^ 2 := Finset.sum_nonneg fun i _ => sq_nonneg _
  have h4 : ∑ i, (v i - (Q *ᵥ v) i) ^ 2 = ∑ i, v i ^ 2 - 2 * ∑ i, v i * (Q *ᵥ v) i + ∑ i, (Q *ᵥ v) i ^ 2 := by
    rw [Finset.mul_sum, ← Finset.sum_sub_distrib, ← Finset.sum_add_distrib]
    refine Finset.sum_congr rfl fun i _ => by ring
  rw [h1]
  linarith

/-- **C55** (sparse): a proposal drawn at a point with positive last `k` coordinates, with weights at least `c > 0`, has
positive last `k` coordinates whenever the Gaussian draw `ξ` satisfies `DIST_TERM · |ξ|² < c`; and then it passes
the membership test. -/
theorem C55_sparse {σ : Type} (cls : SparseBarrierClass ℝ σ) (ERR : ℝ) (hR : 0 < ERR) (E : Eigen ℝ)
    (hE : E.SparseLLTSolveExact) (r : Rng ℝ) (junk : Fin n → ℝ) (A : Matrix (Fin m) (Fin n) ℝ) (hA : IndepRows A) (k : ℕ)
    (x : Fin n → ℝ) (hx : x ∈ TailPos n k) (o o1 : σ) (w : Fin n → ℝ)
    (hw : cls.generateWeight junk o x A k = .ok (⟨n, w⟩, o1)) (c : ℝ) (hc0 : 0 < c)
    (hc : ∀ i : Fin n, n - k ≤ i.val → c ≤ w i) (hD : 0 ≤ cls.distTerm o1) (g g' : r.G)
    (hξ : cls.distTerm o1 * ∑ i, (r.gaussian n g).1 i ^ 2 < c) (z : Fin n → ℝ) (o2 : σ)
    (h : SparseBarrier.generateSample cls ERR E r junk A k x o g = .ok (z, o2, g')) :
    z ∈ TailPos n k ∧ inPolytopeK z k = .ok true := by
  have hwp : ∀ i : Fin n, n - k ≤ i.val → 0 < w i := fun i hi => hc0.trans_le (hc i hi)
  unfold SparseBarrier.generateSample at h
  by_cases hk : k = 0 ∨ n < k
  · rw [if_pos hk] at h; cases h
  rw [if_neg hk] at h
  obtain ⟨⟨G, o3⟩, hG, h⟩ := Out.bind_eq_ok.1 h
  obtain ⟨w', hw', rfl⟩ := generateG_ok hG
  rw [hw] at hw'
  obtain ⟨h1, h2⟩ := Prod.ext_iff.1 (Out.ok.inj hw')
  obtain rfl : w = w' := by simpa using h1
  obtain rfl : o1 = o3 := h2
  have hpos : ∀ i, 0 < Spec.sparseMetric ERR k w x i := fun i => by
    unfold Spec.sparseMetric
    split
    · have := hwp i ‹_›; have := hx i ‹_›; positivity
    · exact hR
  have hz := (Prod.ext_iff.1 (Out.ok.inj h)).1
  simp only at hz
  rw [sparse_proposal_real hE hA hpos] at hz
  have hT : z ∈ TailPos n k := by
    refine ellipsoid_sparse hR.le hx hwp hc (lt_of_le_of_lt ?_ hξ)
    have h3 := dirMat_contract hA hpos (r.gaussian n g).1
    have h4 : ∀ i, z i - x i = Real.sqrt (cls.distTerm o1) * (dirMat A (Spec.sparseMetric ERR k w x) *ᵥ
        (r.gaussian n g).1) i := fun i => by rw [← hz]; simp
    calc _ = cls.distTerm o1 * ∑ i, Spec.sparseMetric ERR k w x i * (dirMat A (Spec.sparseMetric ERR k w x) *ᵥ
        (r.gaussian n g).1) i ^ 2 := by
          rw [Finset.mul_sum]
          refine Finset.sum_congr rfl fun i _ => ?_
          rw [h4, mul_pow, Real.sq_sqrt hD]; ring
      _ ≤ _ := mul_le_mul_of_nonneg_left h3 hD
  refine ⟨hT, ?_⟩
  rw [inPolytopeK_mem (by omega) (by omega)]
  simp only [decide_eq_true_eq, Out.ok.injEq]
  exact fun i hi => (hT i hi).le

theorem SparseBarrier.step_sample {F : Type} [Scalar F] {σ : Type} {cls : SparseBarrierClass F σ} {ERR : F} {E : Eigen F}
    {r : Rng F} {junk : Fin n → F} {A : Matrix (Fin m) (Fin n) F} {k : ℕ} {s s' : (Fin n → F) × σ × r.G}
    (h : SparseBarrier.step cls ERR E r junk A k s = .ok s') :
    ∃ zog, SparseBarrier.generateSample cls ERR E r junk A k s.1 s.2.1 s.2.2 = .ok zog ∧
      (s'.1 = s.1 ∨ s'.1 = zog.1) := by
  simp only [SparseBarrier.step] at h
  obtain ⟨zog, hz, h⟩ := Out.bind_eq_ok.1 h
  refine ⟨zog, hz, ?_⟩
  obtain ⟨c, hc, h⟩ := Out.bind_eq_ok.1 h
  cases c
  · simp at h; subst h; exact .inl rfl
  · simp only [if_true] at h
    obtain ⟨p, _, h⟩ := Out.bind_eq_ok.1 h
    obtain ⟨p', _, h⟩ := Out.bind_eq_ok.1 h
    simp only [Out.ok.injEq] at h
    subst h
    dsimp only
    split
    · exact .inr rfl
    · exact .inl rfl

/-- **C55** (sparse Dikin, whole runs): if every Gaussian vector drawn satisfies `R²/d · |ξ|² < 1` then the chain never
touches the boundary. -/
theorem C55_sparse_dikin_run (R ERR : ℝ) (hR : 0 < ERR) (E : Eigen ℝ) (hE : E.SparseLLTSolveExact) (o : BState ℝ)
    (e : Env ℝ) (a : Args ℝ) (hd : a.DimsOk) (hA : IndepRows a.A.val) (hmn : a.A.r ≤ a.A.c)
    (hx : a.x0 hd ∈ TailPos _ a.k.toNat)
    (hξ : ∀ g, R ^ 2 / ((a.A.c : ℝ) - a.A.r) * ∑ i, (e.r.gaussian a.A.c g).1 i ^ 2 < 1) (t : ℕ) (x : Fin a.A.c → ℝ)
    (h : (Walk.sparseBarrier (sparseDikinClass R) ERR E o).PosAt e a hd t x) : x ∈ TailPos _ a.k.toNat := by
  obtain ⟨st, hst, rfl⟩ := h
  have hdim : (0 : ℝ) ≤ (a.A.c : ℝ) - a.A.r := by
    have : (a.A.r : ℝ) ≤ a.A.c := by exact_mod_cast hmn
    linarith
  refine (Walk.chain_inv (hd := hd) (w := .sparseBarrier (sparseDikinClass R) ERR E o) (e := e)
    (fun s => s.1 ∈ TailPos _ a.k.toNat ∧ s.2.1.dist = R ^ 2 / ((a.A.c : ℝ) - a.A.r)) ?_ ?_ t st hst).1
  · intro s0 h0
    have h0 : Out.ok (a.x0 hd, ({ o with dist := R * R / (((a.A.c : Int) - a.A.r : Int) : ℝ) } : BState ℝ),
        e.r.initRng a.seed e.rd) = Out.ok s0 := h0
    cases h0
    refine ⟨hx, ?_⟩
    show R * R / (((a.A.c : Int) - a.A.r : Int) : ℝ) = _
    push_cast
    rw [sq]
  · intro t s s' _ hs hst
    obtain ⟨zog, hz, hcase⟩ := SparseBarrier.step_sample (s := s) (s' := s') hst
    refine ⟨?_, ?_⟩
    · rcases hcase with h1 | h1
      · rw [h1]; exact hs.1
      · rw [h1]
        exact (C55_sparse (sparseDikinClass R) ERR hR E hE e.r (e.junk _) a.A.val hA a.k.toNat s.1 hs.1 s.2.1 s.2.1
          (fun _ => 1) rfl 1 one_pos (fun _ _ => le_rfl)
          (by show 0 ≤ s.2.1.dist; rw [hs.2]; positivity) s.2.2 zog.2.2
          (by show s.2.1.dist * _ < 1; rw [hs.2]; exact hξ _) zog.1 zog.2.1 hz).1
    · exact SparseBarrier.step_obj (cls := sparseDikinClass R) (fun o => o.dist = R ^ 2 / ((a.A.c : ℝ) - a.A.r))
        (fun o x wo ho hw => by cases hw; exact ho) (s := s) (s' := s') hs.2 hst

end PW

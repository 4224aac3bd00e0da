import Verif.Props.FacialReduction

/-! # The dense form computed at the end of `reduce` -/

namespace PW
open Classical Matrix

/-- A sum over `Fin c` split at `r ≤ c`. -/
theorem sum_split {r c : ℕ} (h : r ≤ c) (f : Fin c → ℝ) :
    ∑ j, f j = ∑ j : Fin r, f (j.castLE h) + ∑ j : Fin (c - r), f ⟨r + j.val, by omega⟩ := by
  obtain ⟨e, rfl⟩ : ∃ e, c = r + e := ⟨c - r, by omega⟩
  rw [Fin.sum_univ_add]
  congr 1
  obtain ⟨e', he'⟩ : ∃ e', e' = r + e - r := ⟨_, rfl⟩
  have : e = e' := by omega
  subst this
  refine Fintype.sum_equiv (finCongr he') _ _ fun j => ?_
  rfl

section
variable {d : ℕ} {E : Eigen ℝ} {s : FRResult ℝ d}

/-- The vector `[z; y]` of length `c`. -/
noncomputable def joinVec {r c : ℕ} (z : Fin r → ℝ) (y : Fin (c - r) → ℝ) : Fin c → ℝ :=
  fun j => if h : j.val < r then z ⟨j.val, h⟩ else y ⟨j.val - r, by omega⟩

theorem joinVec_left {r c : ℕ} (h : r ≤ c) (z : Fin r → ℝ) (y : Fin (c - r) → ℝ) (j : Fin r) :
    joinVec z y (j.castLE h) = z j := by
  unfold joinVec
  rw [dif_pos (show (j.castLE h).val < r from j.isLt)]
  rfl

theorem joinVec_right {r c : ℕ} (z : Fin r → ℝ) (y : Fin (c - r) → ℝ) (j : Fin (c - r)) :
    joinVec z y ⟨r + j.val, by omega⟩ = y j := by
  unfold joinVec
  rw [dif_neg (by simp)]
  congr 1
  apply Fin.ext
  simp

theorem orth' {c n : ℕ} {f : QR ℝ c n} {M : Matrix (Fin c) (Fin n) ℝ} (h : IsQR f M) : f.Q * f.Qᵀ = 1 :=
  mul_eq_one_comm.1 h.orth

/-- The leading block of `R`. -/
noncomputable def leadR {r c : ℕ} (h : r ≤ c) (R : Matrix (Fin c) (Fin r) ℝ) : Matrix (Fin r) (Fin r) ℝ :=
  Matrix.of fun i j => if i ≤ j then R (i.castLE h) j else 0

theorem leadR_apply {r c : ℕ} {h : r ≤ c} {f : QR ℝ c r} {M : Matrix (Fin c) (Fin r) ℝ} (hf : IsQR f M)
    (i j : Fin r) : leadR h f.R i j = f.R (i.castLE h) j := by
  show (if i ≤ j then f.R (i.castLE h) j else 0) = _
  split
  · rfl
  · rename_i hij
    exact (hf.upper _ _ (by simpa using hij)).symm

theorem mulVec_lift {r c : ℕ} (h : r ≤ c) {A : Matrix (Fin r) (Fin c) ℝ} {f : QR ℝ c r} (hf : IsQR f Aᵀ)
    (w : Fin c → ℝ) : A *ᵥ (f.Q *ᵥ w) = (leadR h f.R)ᵀ *ᵥ fun j => w (j.castLE h) := by
  have hA : A = f.Rᵀ * f.Qᵀ := by
    rw [← Matrix.transpose_mul, ← hf.mul_eq, Matrix.transpose_transpose]
  have e : A *ᵥ (f.Q *ᵥ w) = f.Rᵀ *ᵥ w := by
    rw [hA, Matrix.mulVec_mulVec, Matrix.mul_assoc, hf.orth, Matrix.mul_one]
  rw [e]
  funext i
  show ∑ j, f.R j i * w j = ∑ j, leadR h f.R j i * w (j.castLE h)
  rw [sum_split h]
  have h0 : ∑ j : Fin (c - r), f.R ⟨r + j.val, by omega⟩ i * w ⟨r + j.val, by omega⟩ = 0 := by
    apply Finset.sum_eq_zero
    intro j _
    rw [hf.upper _ _ (by simp; omega), zero_mul]
  rw [h0, add_zero]
  exact Finset.sum_congr rfl fun j _ => by rw [leadR_apply hf]

theorem leadR_det {r c : ℕ} (h : r ≤ c) {A : Matrix (Fin r) (Fin c) ℝ} {f : QR ℝ c r} (hf : IsQR f Aᵀ)
    (hA : IndepRows A) : IsUnit (leadR h f.R)ᵀ.det := by
  rw [Matrix.det_transpose, isUnit_iff_ne_zero]
  intro h0
  obtain ⟨y, hy, hR⟩ := Matrix.exists_mulVec_eq_zero_iff.2 h0
  apply hy
  apply hA
  have h1 : f.R *ᵥ y = 0 := by
    funext i
    by_cases hi : i.val < r
    · have := congrFun hR ⟨i.val, hi⟩
      refine Eq.trans ?_ this
      show ∑ j, f.R i j * y j = ∑ j, leadR h f.R ⟨i.val, hi⟩ j * y j
      exact Finset.sum_congr rfl fun j _ => by rw [leadR_apply hf]; rfl
    · show ∑ j, f.R i j * y j = 0
      apply Finset.sum_eq_zero
      intro j _
      rw [hf.upper _ _ (by omega), zero_mul]
  rw [← Matrix.mulVec_transpose, hf.mul_eq, ← Matrix.mulVec_mulVec, h1, Matrix.mulVec_zero]

theorem denseZ1_eq (hI : E.InvExact) (hQ : IsQR (E.householderQR s.Aᵀ) s.Aᵀ) (hA : IndepRows s.A)
    (hrc : s.r ≤ s.c) : (leadR hrc (E.householderQR s.Aᵀ).R)ᵀ *ᵥ denseZ1 E s hrc = s.b := by
  have hdet := leadR_det hrc hQ hA
  have e : denseZ1 E s hrc = (leadR hrc (E.householderQR s.Aᵀ).R)ᵀ⁻¹ *ᵥ s.b := by
    rw [← hI _ hdet]
    unfold denseZ1
    rw [mulVec_real]
    rfl
  rw [e, Matrix.mulVec_mulVec, Matrix.mul_nonsing_inv _ hdet, Matrix.one_mulVec]

/-- The point of the reduced polytope that the dense point `y` stands for. -/
noncomputable def liftVec (E : Eigen ℝ) (s : FRResult ℝ d) (hrc : s.r ≤ s.c) (y : Fin (s.c - s.r) → ℝ) :
    Fin s.c → ℝ := (E.householderQR s.Aᵀ).Q *ᵥ joinVec (denseZ1 E s hrc) y

theorem lift_slack (hrc : s.r ≤ s.c) (xdim : ℕ) (y : Fin (s.c - s.r) → ℝ) (i : Fin (s.c - xdim)) :
    liftVec E s hrc y ⟨xdim + i.val, by omega⟩ =
      densebOf E s xdim hrc i - (denseAOf E s xdim *ᵥ y) i := by
  show ∑ j, (E.householderQR s.Aᵀ).Q ⟨xdim + i.val, by omega⟩ j * joinVec (denseZ1 E s hrc) y j = _
  rw [sum_split hrc]
  have h1 : ∀ j : Fin s.r, joinVec (denseZ1 E s hrc) y (j.castLE hrc) = denseZ1 E s hrc j :=
    joinVec_left hrc _ _
  simp only [h1, joinVec_right]
  have h2 : densebOf E s xdim hrc i = ∑ j : Fin s.r,
      (E.householderQR s.Aᵀ).Q ⟨xdim + i.val, by omega⟩ (j.castLE hrc) * denseZ1 E s hrc j := by
    unfold densebOf
    rw [vsum_real]
    rfl
  have h3 : (denseAOf E s xdim *ᵥ y) i = - ∑ j : Fin (s.c - s.r),
      (E.householderQR s.Aᵀ).Q ⟨xdim + i.val, by omega⟩ ⟨s.r + j.val, by omega⟩ * y j := by
    rw [← Finset.sum_neg_distrib]
    show ∑ j, ((-1 : ℤ) : ℝ) * (E.householderQR s.Aᵀ).Q _ _ * y j = _
    refine Finset.sum_congr rfl fun j _ => ?_
    push_cast
    ring
  rw [h2, h3]
  ring

theorem lift_bijOn (hI : E.InvExact) (hQ : IsQR (E.householderQR s.Aᵀ) s.Aᵀ) (hA : IndepRows s.A)
    (hrc : s.r ≤ s.c) (xdim : ℕ) :
    Set.BijOn (liftVec E s hrc) (Poly (denseAOf E s xdim) (densebOf E s xdim hrc))
      (PolyFrom s.A s.b xdim) := by
  have hpos : ∀ y, y ∈ Poly (denseAOf E s xdim) (densebOf E s xdim hrc) ↔
      ∀ j : Fin s.c, xdim ≤ j.val → 0 ≤ liftVec E s hrc y j := by
    intro y
    constructor
    · intro hy j hj
      have := hy ⟨j.val - xdim, by omega⟩
      have e := lift_slack (E := E) hrc xdim y ⟨j.val - xdim, by omega⟩
      have ej : (⟨xdim + (j.val - xdim), by omega⟩ : Fin s.c) = j := Fin.ext (by simp; omega)
      rw [ej] at e
      rw [e]
      linarith
    · intro hy i
      have := hy ⟨xdim + i.val, by omega⟩ (by simp)
      rw [lift_slack] at this
      linarith
  refine ⟨fun y hy => ⟨?_, (hpos y).1 hy⟩, ?_, ?_⟩
  · show s.A *ᵥ (_ *ᵥ _) = _
    rw [mulVec_lift hrc hQ]
    refine Eq.trans ?_ (denseZ1_eq hI hQ hA hrc)
    congr 1
    funext j
    exact joinVec_left hrc _ _ j
  · intro y _ y' _ h
    have h1 : joinVec (denseZ1 E s hrc) y = joinVec (denseZ1 E s hrc) y' := by
      have := congrArg (fun v => (E.householderQR s.Aᵀ).Qᵀ *ᵥ v) h
      simpa [liftVec, Matrix.mulVec_mulVec, hQ.orth] using this
    funext j
    have := congrFun h1 ⟨s.r + j.val, by omega⟩
    rwa [joinVec_right, joinVec_right] at this
  · intro v hv
    set w := (E.householderQR s.Aᵀ).Qᵀ *ᵥ v with hw
    have hQw : (E.householderQR s.Aᵀ).Q *ᵥ w = v := by
      rw [hw, Matrix.mulVec_mulVec, orth' hQ, Matrix.one_mulVec]
    have hw1 : (fun j : Fin s.r => w (j.castLE hrc)) = denseZ1 E s hrc := by
      have h1 := mulVec_lift hrc hQ w
      rw [hQw, hv.1, ← denseZ1_eq hI hQ hA hrc] at h1
      have hdet := leadR_det hrc hQ hA
      exact (Matrix.mulVec_injective_of_isUnit ((Matrix.isUnit_iff_isUnit_det _).2 hdet) h1).symm
    have hl : liftVec E s hrc (fun j => w ⟨s.r + j.val, by omega⟩) = v := by
      rw [← hQw]
      show _ *ᵥ _ = _
      congr 1
      funext j
      unfold joinVec
      split
      · rename_i hj
        exact (congrFun hw1 ⟨j.val, hj⟩).symm
      · rename_i hj
        show w _ = w j
        congr 1
        apply Fin.ext
        simp
        omega
    refine ⟨_, (hpos _).2 ?_, hl⟩
    rw [hl]
    exact hv.2

theorem lift_dist (hQ : IsQR (E.householderQR s.Aᵀ) s.Aᵀ) (hrc : s.r ≤ s.c) (y y' : Fin (s.c - s.r) → ℝ) :
    ∑ i, (liftVec E s hrc y i - liftVec E s hrc y' i) ^ 2 = ∑ j, (y j - y' j) ^ 2 := by
  set w := joinVec (denseZ1 E s hrc) y - joinVec (denseZ1 E s hrc) y' with hw
  have h1 : ∀ i, liftVec E s hrc y i - liftVec E s hrc y' i = ((E.householderQR s.Aᵀ).Q *ᵥ w) i := by
    intro i
    rw [hw, Matrix.mulVec_sub]; rfl
  have h2 : ∑ i, ((E.householderQR s.Aᵀ).Q *ᵥ w) i ^ 2 = ∑ j, w j ^ 2 := by
    have e : ((E.householderQR s.Aᵀ).Q *ᵥ w) ⬝ᵥ ((E.householderQR s.Aᵀ).Q *ᵥ w) = w ⬝ᵥ w := by
      rw [Matrix.dotProduct_mulVec, Matrix.vecMul_mulVec, hQ.orth, Matrix.vecMul_one]
    simpa [dotProduct, sq] using e
  simp only [h1]
  rw [h2, sum_split hrc]
  have h3 : ∀ j : Fin s.r, w (j.castLE hrc) = 0 := by
    intro j
    show joinVec _ _ _ - joinVec _ _ _ = 0
    rw [joinVec_left, joinVec_left, sub_self]
  have h4 : ∀ j : Fin (s.c - s.r), w ⟨s.r + j.val, by omega⟩ = y j - y' j := by
    intro j
    show joinVec _ _ _ - joinVec _ _ _ = _
    rw [joinVec_right, joinVec_right]
  simp [h3, h4]

end
end PW

import Verif.Spec.Renumber
import Verif.Lemmas.Isometry
import Verif.Props.SparseUserLaw
import Verif.Props.SparseBallConverges
import Verif.Props.SparseBarrierConverges

/-! # Moves of the sparse walks when the variables are renumbered -/

namespace PW
open Matrix MeasureTheory Set
variable {m n k : ℕ} {σ : Equiv.Perm (Fin n)} {A A' : Matrix (Fin m) (Fin n) ℝ}

theorem reorder_sum (f : Fin n → ℝ) : ∑ j, f (σ j) = ∑ j, f j := Equiv.sum_comp σ f

theorem measurable_reorder : Measurable (reorder σ) := measurable_pi_lambda _ fun _ => measurable_pi_apply _

theorem norm2_reorder (y : Fin n → ℝ) : norm2 (reorder σ y) = norm2 y := by
  rw [norm2_real, norm2_real]
  exact congrArg Real.sqrt (reorder_sum fun j => y j * y j)

theorem distance_reorder (x y : Fin n → ℝ) : distance (reorder σ x) (reorder σ y) = distance x y :=
  norm2_reorder (σ := σ) fun j => x j - y j

theorem normalize_reorder (y : Fin n → ℝ) : normalize (reorder σ y) = reorder σ (normalize y) := by
  funext j
  show reorder σ y j / norm2 (reorder σ y) = _
  rw [norm2_reorder]; rfl

/-- Reordering keeps the normal law. -/
theorem stdNormal_reorder : MeasurePreserving (reorder σ) (stdNormal n) (stdNormal n) := by
  refine ⟨measurable_reorder, ?_⟩
  have h := stdNormal_rot (d := n) (Q := (1 : Matrix (Fin n) (Fin n) ℝ).submatrix σ id) (by
    rw [transpose_submatrix, transpose_one, ← submatrix_mul _ _ σ id σ Function.bijective_id, Matrix.one_mul, submatrix_one_equiv])
  have e : (fun v : Fin n → ℝ => (1 : Matrix (Fin n) (Fin n) ℝ).submatrix σ id *ᵥ v) = reorder σ := by
    funext v j
    show ((1 : Matrix (Fin n) (Fin n) ℝ) *ᵥ v) (σ j) = v (σ j)
    rw [one_mulVec]
  rwa [e] at h

theorem sub_mulVec_reorder (M : Matrix (Fin n) (Fin n) ℝ) (y : Fin n → ℝ) : M.submatrix σ σ *ᵥ reorder σ y = reorder σ (M *ᵥ y) := by
  funext j
  exact reorder_sum fun l => M (σ j) l * y l

/-- Limits over the fuel commute with injective maps. -/
theorem fuelLimit_map {Y Y' : Type} {o : ℕ → Out Y} {o' : ℕ → Out Y'} {F : Y → Y'} (hF : Function.Injective F) (h : ∀ f, o' f = (o f).map F) (y : Y) :
    fuelLimit o' (F y) = F (fuelLimit o y) := by
  by_cases hc : ∃ z, ∃ f0, ∀ f ≥ f0, o f = .ok z
  · obtain ⟨z, f0, hz⟩ := hc
    rw [fuelLimit_eq hz, fuelLimit_eq (z := F z) (f0 := f0) fun f hf => by rw [h, hz f hf]; rfl]
  · have hc' : ¬ ∃ z, ∃ f0, ∀ f ≥ f0, o' f = .ok z := by
      rintro ⟨z, f0, hz⟩
      have key : ∀ f ≥ f0, ∃ y, o f = .ok y ∧ F y = z := fun f hf => by
        have := hz f hf
        rw [h] at this
        cases h2 : o f with
        | ok y =>
          rw [h2] at this
          injection this with this
          exact ⟨y, rfl, this⟩
        | throws e => rw [h2] at this; cases this
        | ub e => rw [h2] at this; cases this
        | timeout => rw [h2] at this; cases this
      obtain ⟨y, -, hy⟩ := key f0 le_rfl
      refine hc ⟨y, f0, fun f hf => ?_⟩
      obtain ⟨y', h1, h2⟩ := key f hf
      rw [h1, hF (h2.trans hy.symm)]
    unfold fuelLimit
    rw [dif_neg hc, dif_neg hc']

namespace Renumbered
variable (h : Renumbered σ k A A')
include h

theorem eq : A' = A.submatrix id σ := by ext i j; exact h.mat i j

theorem mulVec (y : Fin n → ℝ) : A' *ᵥ reorder σ y = A *ᵥ y := by
  funext i
  show ∑ j, A' i j * y (σ j) = ∑ j, A i j * y j
  simp only [h.mat]
  exact reorder_sum fun j => A i j * y j

theorem tailPos (y : Fin n → ℝ) : reorder σ y ∈ TailPos n k ↔ y ∈ TailPos n k := by
  constructor
  · intro hy i hi
    have := hy (σ.symm i) ((h.tail _).1 (by rwa [Equiv.apply_symm_apply]))
    unfold reorder at this
    rwa [Equiv.apply_symm_apply] at this
  · exact fun hy j hj => hy (σ j) ((h.tail j).2 hj)

theorem tailNonneg (y : Fin n → ℝ) : reorder σ y ∈ TailNonneg n k ↔ y ∈ TailNonneg n k := by
  constructor
  · intro hy i hi
    have := hy (σ.symm i) ((h.tail _).1 (by rwa [Equiv.apply_symm_apply]))
    unfold reorder at this
    rwa [Equiv.apply_symm_apply] at this
  · exact fun hy j hj => hy (σ j) ((h.tail j).2 hj)

theorem polyEq (b : Fin m → ℝ) (y : Fin n → ℝ) : reorder σ y ∈ PolyEq A' b k ↔ y ∈ PolyEq A b k := by
  show _ ∧ _ ↔ _ ∧ _
  rw [h.tailNonneg y]
  exact and_congr_left' (by rw [← h.mulVec y])

theorem bounded {b : Fin m → ℝ} (hb : ∃ M, ∀ y ∈ PolyEq A b k, ∀ i, |y i| ≤ M) : ∃ M, ∀ y ∈ PolyEq A' b k, ∀ i, |y i| ≤ M := by
  obtain ⟨M, hM⟩ := hb
  refine ⟨M, fun y hy i => ?_⟩
  have e : reorder σ (reorder σ.symm y) = y := by funext j; show y (σ.symm (σ j)) = _; rw [Equiv.symm_apply_apply]
  have h1 := hM (reorder σ.symm y) ((h.polyEq b _).1 (by rw [e]; exact hy)) (σ i)
  have e2 : reorder σ.symm y (σ i) = y i := congrArg y (Equiv.symm_apply_apply σ i)
  rwa [e2] at h1

theorem indep (hA : IndepRows A) : IndepRows A' := by
  intro y hy
  refine hA y (funext fun j => ?_)
  have := congrFun hy (σ.symm j)
  have e : (y ᵥ* A') (σ.symm j) = (y ᵥ* A) j := by
    show ∑ i, y i * A' i (σ.symm j) = ∑ i, y i * A i j
    simp only [h.mat, Equiv.apply_symm_apply]
  rwa [e] at this

theorem gram {D : Matrix (Fin n) (Fin n) ℝ} : (A' * D.submatrix σ σ) = (A * D).submatrix id σ := by
  rw [h.eq, submatrix_mul_equiv]

omit h in
theorem proj (M : Matrix (Fin m) (Fin n) ℝ) :
    1 - (M.submatrix id σ)ᵀ * ((M.submatrix id σ) * (M.submatrix id σ)ᵀ)⁻¹ * M.submatrix id σ = (1 - Mᵀ * (M * Mᵀ)⁻¹ * M).submatrix σ σ := by
  have e : (M.submatrix id σ) * (M.submatrix id σ)ᵀ = M * Mᵀ := by
    rw [transpose_submatrix, submatrix_mul_equiv, submatrix_id_id]
  have e2 : (1 : Matrix (Fin n) (Fin n) ℝ).submatrix σ σ = 1 := submatrix_one_equiv σ
  rw [e, submatrix_sub, Pi.sub_apply, Pi.sub_apply]
  show _ = (1 : Matrix (Fin n) (Fin n) ℝ).submatrix σ σ - _
  rw [e2]
  rfl

/-! ### Ball walk -/

theorem ballShift (R : ℝ) (v : Fin n → ℝ) : sparseBallShift R A' (reorder σ v) = reorder σ (sparseBallShift R A v) := by
  unfold sparseBallShift
  rw [h.eq, proj A, sub_mulVec_reorder, normalize_reorder]
  rfl

theorem ballMove (R : ℝ) (x v : Fin n → ℝ) : sparseBallMove R A' k (reorder σ x) (reorder σ v) = reorder σ (sparseBallMove R A k x v) := by
  have e : reorder σ x + reorder σ (sparseBallShift R A v) = reorder σ (x + sparseBallShift R A v) := rfl
  unfold sparseBallMove
  rw [h.ballShift, e]
  by_cases hc : x + sparseBallShift R A v ∈ TailNonneg n k
  · rw [if_pos hc, if_pos ((h.tailNonneg _).2 hc)]
  · rw [if_neg hc, if_neg fun h' => hc ((h.tailNonneg _).1 h')]

/-! ### Hit-and-Run -/

omit h in
theorem expand {inside : (Fin n → ℝ) → Out Bool} (hin : ∀ x, inside (reorder σ x) = inside x) (dir x : Fin n → ℝ) (it : ℕ) :
    ∀ f : Fin n → ℝ, Out.Rel (fun p q => q = p.map (reorder σ)) (SparseHitRun.expand inside dir x it f)
      (SparseHitRun.expand inside (reorder σ dir) (reorder σ x) it (reorder σ f)) := by
  induction it with
  | zero => exact fun _ => .ok rfl
  | succ it ih =>
    intro f
    rw [SparseHitRun.expand, SparseHitRun.expand]
    have e : (fun i => reorder σ x i + two * distance (reorder σ x) (reorder σ f) * reorder σ dir i) = reorder σ fun i => x i + two * distance x f * dir i := by
      rw [distance_reorder]; rfl
    simp only [e]
    rw [hin fun i => x i + two * distance x f * dir i]
    refine Out.Rel.bind (Out.Rel.refl (R := fun a b => b = a) (fun _ => rfl) _) ?_
    intro cc cc' hcc
    subst hcc
    split
    · exact .ok rfl
    · exact ih _

omit h in
theorem bisect {inside : (Fin n → ℝ) → Out Bool} (hin : ∀ x, inside (reorder σ x) = inside x) (ERR : ℝ) (fuel : ℕ) :
    ∀ l r m : Fin n → ℝ, Out.Rel (fun p q => q = reorder σ p) (HitRun.bisect inside ERR fuel l r m)
      (HitRun.bisect inside ERR fuel (reorder σ l) (reorder σ r) (reorder σ m)) := by
  induction fuel with
  | zero =>
    intro l r m
    unfold HitRun.bisect
    rw [distance_reorder, hin m]
    refine Out.Rel.bind (Out.Rel.refl (R := fun a b => b = a) (fun _ => rfl) _) ?_
    intro cc cc' hcc
    subst hcc
    split
    · exact .timeout
    · exact .ok rfl
  | succ fuel ih =>
    intro l r m
    unfold HitRun.bisect
    rw [distance_reorder, hin m]
    refine Out.Rel.bind (Out.Rel.refl (R := fun a b => b = a) (fun _ => rfl) _) ?_
    intro cc cc' hcc
    subst hcc
    split
    · have e : (fun i => (reorder σ l i + reorder σ r i) / two) = reorder σ fun i => (l i + r i) / two := rfl
      simp only [e]
      rw [hin fun i => (l i + r i) / two]
      refine Out.Rel.bind (Out.Rel.refl (R := fun a b => b = a) (fun _ => rfl) _) ?_
      intro dd dd' hdd
      subst hdd
      split
      · exact ih _ _ _
      · exact ih _ _ _
    · exact .ok rfl

variable (hk : 1 ≤ k) (hkn : k ≤ n)
include hk hkn

theorem inside (x : Fin n → ℝ) : inPolytopeK (reorder σ x) k = inPolytopeK x k := by
  rw [inPolytopeK_real _ _ hk hkn, inPolytopeK_real _ _ hk hkn]
  congr 1
  rw [decide_eq_decide]
  exact h.tailNonneg x

theorem search (R ERR : ℝ) (fuel : ℕ) (dir x : Fin n → ℝ) :
    SparseHitRun.binarySearch R ERR fuel k (reorder σ dir) (reorder σ x) = SparseHitRun.binarySearch R ERR fuel k dir x := by
  have hid : ∀ o : Out ℝ, o.map id = o := fun o => by cases o <;> rfl
  rw [← hid (SparseHitRun.binarySearch R ERR fuel k dir x)]
  unfold SparseHitRun.binarySearch
  refine Out.Rel.eq_map ?_
  refine Out.Rel.bind (R := fun p q => q = p.map (reorder σ)) (expand (h.inside hk hkn) dir x _ _) ?_
  intro p q hpq
  subst hpq
  cases p with
  | none => exact .ok rfl
  | some p =>
    refine Out.Rel.bind (bisect (h.inside hk hkn) ERR fuel _ _ _) ?_
    intro y z hyz
    subst hyz
    exact .ok (distance_reorder y x)

theorem draw (R ERR : ℝ) (fuel : ℕ) {E E' : Eigen ℝ} (hE : E.SparseLUExact) (hE' : E'.SparseLUExact) (hA : IndepRows A) (x v : Fin n → ℝ) (val : ℝ) :
    sparseHitRunDraw R ERR fuel E' A' k (reorder σ x) (reorder σ v) val () =
      (sparseHitRunDraw R ERR fuel E A k x v val ()).map fun p => (reorder σ p.1, ()) := by
  unfold sparseHitRunDraw
  have e0 : normalize (kernelProject E' A' (reorder σ v)) = reorder σ (normalize (kernelProject E A v)) := by
    rw [kernelProject_real hE' (h.indep hA), kernelProject_real hE hA, h.eq, proj A, sub_mulVec_reorder, normalize_reorder]
  have e1 : (fun i => -normalize (kernelProject E' A' (reorder σ v)) i) = reorder σ fun i => -normalize (kernelProject E A v) i := by rw [e0]; rfl
  rw [e1, e0, h.search hk hkn, h.search hk hkn]
  refine Out.Rel.eq_map ?_
  refine Out.Rel.bind (Out.Rel.refl (R := fun a b => b = a) (fun _ => rfl) _) ?_
  intro p p' hp
  subst hp
  refine Out.Rel.bind (Out.Rel.refl (R := fun a b => b = a) (fun _ => rfl) _) ?_
  intro q q' hq
  subst hq
  exact .ok rfl

theorem next (R ERR : ℝ) {E E' : Eigen ℝ} (hE : E.SparseLUExact) (hE' : E'.SparseLUExact) (hA : IndepRows A) (x v : Fin n → ℝ) (val : ℝ) :
    sparseHitRunNext R ERR E' A' k (reorder σ x) (reorder σ v) val = reorder σ (sparseHitRunNext R ERR E A k x v val) := by
  have inj : ∀ y y' : Fin n → ℝ, reorder σ y = reorder σ y' → y = y' := fun y y' he => funext fun i => by
    have := congrFun he (σ.symm i)
    unfold reorder at this
    rwa [Equiv.apply_symm_apply] at this
  unfold sparseHitRunNext
  exact congrArg Prod.fst (fuelLimit_map (F := fun p : (Fin n → ℝ) × Unit => (reorder σ p.1, ())) (fun p q he => Prod.ext (inj _ _ (congrArg Prod.fst he)) rfl)
    (fun f => h.draw hk hkn R ERR f hE hE' hA x v val) (x, ()))

omit hk hkn

/-! ### Barrier walks -/

omit h in
theorem diag (g : Fin n → ℝ) : diagonal (invSqrt (reorder σ g)) = (diagonal (invSqrt g)).submatrix σ σ :=
  (submatrix_diagonal_equiv (invSqrt g) σ).symm

theorem scaled (g : Fin n → ℝ) : A' * diagonal (invSqrt (reorder σ g)) = (A * diagonal (invSqrt g)).submatrix id σ := by
  rw [diag, h.gram]

theorem dir (g : Fin n → ℝ) : dirMat A' (reorder σ g) = (dirMat A g).submatrix σ σ := by
  unfold dirMat
  rw [h.scaled, proj, diag, submatrix_mul_equiv]

theorem logDens (D : ℝ) (g x z : Fin n → ℝ) : kerLogDens A' D (reorder σ g) (reorder σ x) (reorder σ z) = kerLogDens A D g x z := by
  unfold kerLogDens
  have e : (A * diagonal (invSqrt g)).submatrix id σ * ((A * diagonal (invSqrt g)).submatrix id σ)ᵀ =
      (A * diagonal (invSqrt g)) * (A * diagonal (invSqrt g))ᵀ := by
    rw [transpose_submatrix, submatrix_mul_equiv, submatrix_id_id]
  rw [h.scaled, e]
  have e1 : ∑ i, Real.log (reorder σ g i) = ∑ i, Real.log (g i) := reorder_sum fun i => Real.log (g i)
  have e2 : ∑ i, (reorder σ z i - reorder σ x i) * (reorder σ g i * (reorder σ z i - reorder σ x i)) = ∑ i, (z i - x i) * (g i * (z i - x i)) :=
    reorder_sum fun i => (z i - x i) * (g i * (z i - x i))
  rw [e1, e2]

variable {D : ℝ} {Gf Gf' : (Fin n → ℝ) → Fin n → ℝ} (hG : ∀ x, Gf' (reorder σ x) = reorder σ (Gf x))
include hG

theorem prop (x v : Fin n → ℝ) : sparseProp A' D Gf' (reorder σ x) (reorder σ v) = reorder σ (sparseProp A D Gf x v) := by
  unfold sparseProp
  rw [hG, h.dir, sub_mulVec_reorder]
  rfl

theorem accept (x z : Fin n → ℝ) : sparseAccept A' D Gf' (reorder σ x) (reorder σ z) = sparseAccept A D Gf x z := by
  unfold sparseAccept
  rw [hG, hG, h.logDens, h.logDens]

theorem move (x : Fin n → ℝ) (w : (Fin n → ℝ) × ℝ) :
    mhMove (TailNonneg n k) (sparseProp A' D Gf') (sparseAccept A' D Gf') (reorder σ x) (Prod.map (reorder σ) id w) =
      reorder σ (mhMove (TailNonneg n k) (sparseProp A D Gf) (sparseAccept A D Gf) x w) := by
  have e1 : sparseProp A' D Gf' (reorder σ x) (Prod.map (reorder σ) id w).1 = reorder σ (sparseProp A D Gf x w.1) := h.prop hG x w.1
  have e2 := h.accept hG (D := D) x (sparseProp A D Gf x w.1)
  unfold mhMove
  by_cases hc : sparseProp A D Gf x w.1 ∈ TailNonneg n k ∧ w.2 < sparseAccept A D Gf x (sparseProp A D Gf x w.1)
  · rw [if_pos hc, if_pos (by rw [e1, e2]; exact ⟨(h.tailNonneg _).2 hc.1, hc.2⟩), e1]
  · rw [if_neg hc, if_neg]
    rw [e1, e2]
    exact fun h' => hc ⟨(h.tailNonneg _).1 h'.1, h'.2⟩

omit hG

theorem metric (ERR : ℝ) (x w : Fin n → ℝ) : metricG ERR 0 (reorder σ x) (reorder σ w) k = reorder σ (metricG ERR 0 x w k) := by
  have ht : ∀ j, isTail k (σ j) = isTail k j := fun j => by
    rw [Bool.eq_iff_iff, isTail_iff, isTail_iff]; exact h.tail j
  funext j
  show (if isTail k j then generateSlackInverse 0 (reorder σ x) k j * w (σ j) * generateSlackInverse 0 (reorder σ x) k j else ERR) =
    if isTail k (σ j) then generateSlackInverse 0 x k (σ j) * w (σ j) * generateSlackInverse 0 x k (σ j) else ERR
  unfold generateSlackInverse
  rw [ht]
  rfl

theorem lev (g : Fin n → ℝ) (j : Fin n) : colev (colScaled A' (reorder σ g)) j = colev (colScaled A g) (σ j) := by
  have e : colScaled A' (reorder σ g) = (colScaled A g).submatrix id σ := by
    ext i l
    show A' i l / g (σ l) = A i (σ l) / g (σ l)
    rw [h.mat]
  unfold colev
  rw [e, transpose_submatrix, submatrix_mul_equiv, submatrix_id_id]
  rfl

theorem slack (ERR : ℝ) (x : Fin n → ℝ) : slackScale ERR k (fun _ => 1) (reorder σ x) = reorder σ (slackScale ERR k (fun _ => 1) x) := by
  funext j
  show (if n - k ≤ j.val then 1 / x (σ j) else ERR) = if n - k ≤ (σ j).val then 1 / x (σ j) else ERR
  simp only [h.tail]

theorem dikin (ERR : ℝ) (x : Fin n → ℝ) : dikinG ERR 0 k (reorder σ x) = reorder σ (dikinG ERR 0 k x) :=
  h.metric ERR x fun _ => 1

theorem vaidya (ERR : ℝ) (x : Fin n → ℝ) : vaidyaG A' ERR 0 k (reorder σ x) = reorder σ (vaidyaG A ERR 0 k x) := by
  unfold vaidyaG
  rw [← h.metric]
  congr 1
  funext j
  rw [h.slack, h.lev]
  rfl

end Renumbered

end PW

import Mathlib.Data.Real.Basic
import Mathlib.LinearAlgebra.Matrix.DotProduct
import Mathlib.Algebra.BigOperators.Fin
import Mathlib.LinearAlgebra.Pi
import Mathlib.Tactic.Ring
import Mathlib.Tactic.Linarith
import Mathlib.Tactic.FieldSimp
import Mathlib.Data.Fintype.EquivFin
import Mathlib.Data.Fintype.Sum
import Mathlib.Algebra.Module.LinearMap.Basic
import Mathlib.Algebra.Module.Submodule.LinearMap
import Verif.Spec.Polytope

/-! # Farkas' lemma (Bartl's proof) and the theorem of alternatives used by facial reduction -/

namespace PW
open Matrix

theorem farkas_fin {V : Type*} [AddCommGroup V] [Module ℝ V] (m : ℕ) (a : Fin m → V →ₗ[ℝ] ℝ)
    (b : V →ₗ[ℝ] ℝ) (h : ∀ x, (∀ i, a i x ≤ 0) → b x ≤ 0) :
    ∃ u : Fin m → ℝ, (∀ i, 0 ≤ u i) ∧ ∀ x, b x = ∑ i, u i * a i x := by
  induction m generalizing b with
  | zero =>
    refine ⟨fun _ => 0, fun _ => le_refl _, fun x => ?_⟩
    have h1 := h x (fun i => i.elim0)
    have h2 := h (-x) (fun i => i.elim0)
    rw [map_neg] at h2
    simp; linarith
  | succ m ih =>
    by_cases hc : ∀ x, (∀ i : Fin m, a i.succ x ≤ 0) → b x ≤ 0
    · obtain ⟨u, hu, hb⟩ := ih (fun i => a i.succ) b hc
      refine ⟨Fin.cons 0 u, ?_, fun x => ?_⟩
      · intro i; refine Fin.cases ?_ (fun i => ?_) i <;> simp [hu]
      · rw [Fin.sum_univ_succ]; simp [hb x]
    · push Not at hc
      obtain ⟨x0, hx0, hbx0⟩ := hc
      have hpos : 0 < a 0 x0 := by
        by_contra hneg
        push Not at hneg
        have := h x0 (fun i => Fin.cases hneg hx0 i)
        linarith
      obtain ⟨xb, hxb, hbxb, h1⟩ : ∃ xb : V, (∀ i : Fin m, a i.succ xb ≤ 0) ∧ 0 < b xb ∧ a 0 xb = 1 := by
        refine ⟨(a 0 x0)⁻¹ • x0, fun i => ?_, ?_, ?_⟩
        · rw [map_smul, smul_eq_mul]
          exact mul_nonpos_of_nonneg_of_nonpos (inv_nonneg.2 hpos.le) (hx0 i)
        · rw [map_smul, smul_eq_mul]; exact mul_pos (inv_pos.2 hpos) hbx0
        · rw [map_smul, smul_eq_mul]; exact inv_mul_cancel₀ hpos.ne'
      obtain ⟨u, hu, hb⟩ := ih (fun i => a i.succ - (a i.succ xb) • a 0) (b - (b xb) • a 0) (by
        intro x hx
        have := h (x - (a 0 x) • xb) (by
          intro i
          refine Fin.cases ?_ (fun i => ?_) i
          · simp [h1]
          · have := hx i
            simp only [LinearMap.sub_apply, LinearMap.smul_apply, smul_eq_mul] at this
            simp only [map_sub, map_smul, smul_eq_mul]
            linarith)
        simp only [map_sub, map_smul, smul_eq_mul] at this
        simp only [LinearMap.sub_apply, LinearMap.smul_apply, smul_eq_mul]
        linarith)
      refine ⟨Fin.cons (b xb - ∑ i, u i * a i.succ xb) u, ?_, fun x => ?_⟩
      · intro i
        refine Fin.cases ?_ (fun i => ?_) i
        · have : ∑ i, u i * a i.succ xb ≤ 0 :=
            Finset.sum_nonpos fun i _ => mul_nonpos_of_nonneg_of_nonpos (hu i) (hxb i)
          simp only [Fin.cons_zero]; linarith
        · simpa using hu i
      · have := hb x
        simp only [LinearMap.sub_apply, LinearMap.smul_apply, smul_eq_mul, mul_sub,
          Finset.sum_sub_distrib] at this
        rw [Fin.sum_univ_succ]
        simp only [Fin.cons_zero, Fin.cons_succ, sub_mul, Finset.sum_mul]
        have e : ∑ i, u i * (a i.succ xb * a 0 x) = ∑ i, u i * a i.succ xb * a 0 x :=
          Finset.sum_congr rfl fun i _ => by ring
        rw [e] at this
        linarith

/-- **Farkas' lemma** for a finite family of linear functionals on a real vector space. -/
theorem farkas {ι : Type*} [Fintype ι] {V : Type*} [AddCommGroup V] [Module ℝ V] (a : ι → V →ₗ[ℝ] ℝ)
    (b : V →ₗ[ℝ] ℝ) (h : ∀ x, (∀ i, a i x ≤ 0) → b x ≤ 0) :
    ∃ u : ι → ℝ, (∀ i, 0 ≤ u i) ∧ ∀ x, b x = ∑ i, u i * a i x := by
  let e := Fintype.equivFin ι
  obtain ⟨u, hu, hb⟩ := farkas_fin _ (fun i => a (e.symm i)) b (by
    intro x hx
    exact h x fun i => by simpa using hx (e i))
  refine ⟨fun i => u (e i), fun i => hu _, fun x => ?_⟩
  rw [hb x]
  exact (Equiv.sum_comp e (fun i => u i * a (e.symm i) x)).symm.trans
    (Finset.sum_congr rfl fun i _ => by simp)

variable {r c : ℕ}

/-- If `{v | A v = b, v ≥ 0 on the indices in T}` is not empty and coordinate `l ∈ T` vanishes on it, there is
a certificate: `y` with `Aᵀ y = 0` off `T`, `≥ 0` on `T`, `= 1` at `l`, and `⟨b, y⟩ = 0`. -/
theorem exists_certificate (A : Matrix (Fin r) (Fin c) ℝ) (b : Fin r → ℝ) (T : Fin c → Prop) (l : Fin c)
    (hl : T l) (v0 : Fin c → ℝ) (h0 : A *ᵥ v0 = b) (h0' : ∀ j, T j → 0 ≤ v0 j)
    (hz : ∀ v, A *ᵥ v = b → (∀ j, T j → 0 ≤ v j) → v l ≤ 0) :
    ∃ y : Fin r → ℝ, (∀ j, ¬ T j → (y ᵥ* A) j = 0) ∧ (∀ j, T j → 0 ≤ (y ᵥ* A) j) ∧
      (y ᵥ* A) l = 1 ∧ b ⬝ᵥ y = 0 := by
  classical
  -- functionals on `(Fin c → ℝ) × ℝ`
  let row : Fin r → ((Fin c → ℝ) × ℝ) →ₗ[ℝ] ℝ := fun i =>
    { toFun := fun p => (A *ᵥ p.1) i - p.2 * b i
      map_add' := fun p q => by
        simp only [Prod.fst_add, Prod.snd_add, Matrix.mulVec_add, Pi.add_apply]; ring
      map_smul' := fun t p => by
        simp only [Prod.smul_fst, Prod.smul_snd, Matrix.mulVec_smul, Pi.smul_apply, smul_eq_mul,
          RingHom.id_apply]; ring }
  let coord : Fin c → ((Fin c → ℝ) × ℝ) →ₗ[ℝ] ℝ := fun j =>
    { toFun := fun p => p.1 j
      map_add' := fun p q => rfl
      map_smul' := fun t p => rfl }
  let tt : ((Fin c → ℝ) × ℝ) →ₗ[ℝ] ℝ :=
    { toFun := fun p => p.2
      map_add' := fun p q => rfl
      map_smul' := fun t p => rfl }
  have row_ap : ∀ i p, row i p = (A *ᵥ p.1) i - p.2 * b i := fun _ _ => rfl
  have coord_ap : ∀ j p, coord j p = p.1 j := fun _ _ => rfl
  have tt_ap : ∀ p, tt p = p.2 := fun _ => rfl
  let a : (Fin r ⊕ Fin r) ⊕ (Fin c ⊕ Unit) → ((Fin c → ℝ) × ℝ) →ₗ[ℝ] ℝ := fun
    | .inl (.inl i) => row i
    | .inl (.inr i) => - row i
    | .inr (.inl j) => if T j then - coord j else 0
    | .inr (.inr _) => - tt
  obtain ⟨u, hu, hb⟩ := farkas a (coord l) (by
    rintro ⟨v, t⟩ hx
    have e1 : ∀ i, (A *ᵥ v) i = t * b i := by
      intro i
      have h1 := hx (.inl (.inl i))
      have h2 := hx (.inl (.inr i))
      simp only [a, LinearMap.neg_apply, row_ap] at h1 h2
      linarith
    have e2 : ∀ j, T j → 0 ≤ v j := by
      intro j hj
      have h1 := hx (.inr (.inl j))
      simp only [a, if_pos hj, LinearMap.neg_apply, coord_ap] at h1
      linarith
    have e3 : 0 ≤ t := by
      have h1 := hx (.inr (.inr ()))
      simp only [a, LinearMap.neg_apply, tt_ap] at h1
      linarith
    rw [coord_ap]
    show v l ≤ 0
    rcases e3.eq_or_lt with ht | ht
    · subst ht
      by_contra hv
      push Not at hv
      have key := hz (v0 + ((-v0 l + 1) / v l) • v - 0) ?_ ?_
      · simp only [sub_zero, Pi.add_apply, Pi.smul_apply, smul_eq_mul] at key
        rw [div_mul_cancel₀ _ hv.ne'] at key
        linarith
      · rw [sub_zero, Matrix.mulVec_add, Matrix.mulVec_smul, h0]
        have : A *ᵥ v = 0 := by funext i; simp [e1 i]
        rw [this, smul_zero, add_zero]
      · intro j hj
        by_cases hneg : 0 ≤ (-v0 l + 1) / v l
        · simp only [sub_zero, Pi.add_apply, Pi.smul_apply, smul_eq_mul]
          have := mul_nonneg hneg (e2 j hj)
          linarith [h0' j hj]
        · exfalso
          apply hneg
          have := hz v0 h0 h0'
          exact div_nonneg (by linarith) hv.le
    · have key := hz (t⁻¹ • v) ?_ ?_
      · rw [Pi.smul_apply, smul_eq_mul] at key
        by_contra hv
        push Not at hv
        have := mul_pos (inv_pos.2 ht) hv
        linarith
      · rw [Matrix.mulVec_smul]
        funext i
        rw [Pi.smul_apply, e1 i, smul_eq_mul, ← mul_assoc, inv_mul_cancel₀ ht.ne', one_mul]
      · intro j hj
        rw [Pi.smul_apply, smul_eq_mul]
        exact mul_nonneg (inv_nonneg.2 ht.le) (e2 j hj))
  -- read off the certificate
  let p : Fin r → ℝ := fun i => u (.inl (.inl i)) - u (.inl (.inr i))
  have hexp : ∀ v t, v l = (p ⬝ᵥ (A *ᵥ v)) - t * (b ⬝ᵥ p) -
      (∑ j, u (.inr (.inl j)) * if T j then v j else 0) - u (.inr (.inr ())) * t := by
    intro v t
    have := hb (v, t)
    rw [coord_ap, Fintype.sum_sum_type, Fintype.sum_sum_type, Fintype.sum_sum_type] at this
    simp only [a, LinearMap.neg_apply, row_ap, tt_ap, Finset.univ_unique, Finset.sum_singleton] at this
    have e4 : ∀ j, (if T j then -coord j else 0) (v, t) = -(if T j then v j else 0) := by
      intro j; split <;> simp [coord_ap]
    simp only [e4] at this
    rw [this]
    simp only [dotProduct, p, sub_mul, mul_sub, mul_neg, Finset.sum_neg_distrib, Finset.mul_sum,
      Finset.sum_sub_distrib]
    have e5 : ∀ f : Fin r → ℝ, ∑ i, t * (b i * f i) = ∑ i, f i * (t * b i) :=
      fun f => Finset.sum_congr rfl fun i _ => by ring
    rw [e5, e5]
    show _ = _
    have e6 : u (.inr (.inr default)) = u (.inr (.inr ())) := rfl
    rw [e6]
    ring
  have hcol : ∀ j, (p ᵥ* A) j = (if j = l then 1 else 0) + if T j then u (.inr (.inl j)) else 0 := by
    intro j
    have := hexp (Pi.single j 1) 0
    rw [Matrix.dotProduct_mulVec, dotProduct_single] at this
    have e : (∑ i, u (.inr (.inl i)) * if T i then (Pi.single j (1 : ℝ) : Fin c → ℝ) i else 0) =
        if T j then u (.inr (.inl j)) else 0 := by
      rw [Finset.sum_eq_single j]
      · split <;> simp
      · intro i _ hij
        rw [Pi.single_eq_of_ne hij]; simp
      · simp
    rw [e, Pi.single_apply] at this
    have e7 : (if l = j then (1 : ℝ) else 0) = if j = l then 1 else 0 := by simp [eq_comm]
    rw [e7] at this
    linarith
  have hbp : b ⬝ᵥ p = -u (.inr (.inr ())) := by
    have := hexp 0 1
    simp at this
    linarith
  have hnon : ∀ j, T j → 0 ≤ (p ᵥ* A) j := by
    intro j hj
    rw [hcol j, if_pos hj]
    have := hu (.inr (.inl j))
    split <;> linarith
  have hfree : ∀ j, ¬ T j → (p ᵥ* A) j = 0 := by
    intro j hj
    rw [hcol j, if_neg hj, if_neg (by rintro rfl; exact hj hl), add_zero]
  have hbp0 : b ⬝ᵥ p = 0 := by
    have h1 : 0 ≤ b ⬝ᵥ p := by
      rw [← h0, dotProduct_comm, Matrix.dotProduct_mulVec]
      refine Finset.sum_nonneg fun j _ => ?_
      by_cases hj : T j
      · exact mul_nonneg (hnon j hj) (h0' j hj)
      · rw [hfree j hj, zero_mul]
    have := hu (.inr (.inr ()))
    linarith
  have hlpos : 0 < (p ᵥ* A) l := by
    rw [hcol l, if_pos rfl, if_pos hl]
    have := hu (.inr (.inl l)); linarith
  refine ⟨((p ᵥ* A) l)⁻¹ • p, fun j hj => ?_, fun j hj => ?_, ?_, ?_⟩
  · rw [Matrix.smul_vecMul, Pi.smul_apply, hfree j hj, smul_zero]
  · rw [Matrix.smul_vecMul, Pi.smul_apply, smul_eq_mul]
    exact mul_nonneg (inv_nonneg.2 hlpos.le) (hnon j hj)
  · rw [Matrix.smul_vecMul, Pi.smul_apply, smul_eq_mul, inv_mul_cancel₀ hlpos.ne']
  · rw [dotProduct_smul, hbp0, smul_zero]

end PW

import Verif.Lemmas.OutRel
import Verif.Lemmas.Real
import Verif.Spec.Redescribe

/-!
# The dense walks on two descriptions of the same polytope
-/

set_option linter.unusedVariables false
set_option linter.unusedSectionVars false
set_option linter.unusedSimpArgs false

namespace PW
open Finset
variable {m n : ℕ} {σ : Equiv.Perm (Fin m)} {c : Fin m → ℝ} {v : Fin n → ℝ} {A A' : Matrix (Fin m) (Fin n) ℝ} {b b' : Fin m → ℝ}

theorem Redescribed.slack (h : Redescribed σ c v A b A' b') (x : Fin n → ℝ) (i : Fin m) :
    generateSlack (fun j => x j + v j) A' b' i = c i * generateSlack x A b (σ i) := by
  unfold generateSlack
  rw [mulVec_real, mulVec_real, h.rhs]
  have h1 : (A'.mulVec fun j => x j + v j) i = ∑ j, A' i j * (x j + v j) := rfl
  have h2 : A.mulVec x (σ i) = ∑ j, A (σ i) j * x j := rfl
  have h3 : ∑ j, A' i j * (x j + v j) = c i * (∑ j, A (σ i) j * x j + ∑ j, A (σ i) j * v j) := by
    rw [← sum_add_distrib, mul_sum]
    exact sum_congr rfl fun j _ => by rw [h.mat]; ring
  rw [h1, h2, h3]; ring

theorem Redescribed.scaled (h : Redescribed σ c v A b A' b') (x : Fin n → ℝ) (i : Fin m) :
    scaledA (fun j => x j + v j) A' b' i = scaledA x A b (σ i) := by
  funext j
  unfold scaledA
  rw [h.slack, h.mat]
  have := (h.pos i).ne'
  rw [one_div, one_div, mul_inv]
  field_simp

theorem Redescribed.inside (h : Redescribed σ c v A b A' b') (x : Fin n → ℝ) :
    inPolytope (fun j => x j + v j) A' b' = inPolytope x A b := by
  rcases Nat.eq_zero_or_pos m with rfl | hm
  · rfl
  · rw [inPolytope_real _ _ _ hm, inPolytope_real _ _ _ hm]
    congr 1
    rw [decide_eq_decide]
    have key : ∀ i, (A'.mulVec fun j => x j + v j) i ≤ b' i ↔ A.mulVec x (σ i) ≤ b (σ i) := by
      intro i
      have hs := h.slack x i
      unfold generateSlack at hs
      rw [mulVec_real, mulVec_real] at hs
      rw [← sub_nonneg, hs, mul_nonneg_iff_of_pos_left (h.pos i), sub_nonneg]
    constructor
    · intro h1 i
      have := (key (σ.symm i)).1 (h1 _)
      rwa [Equiv.apply_symm_apply] at this
    · exact fun h1 i => (key i).2 (h1 _)

theorem mulMat_gram_perm (M : Matrix (Fin m) (Fin n) ℝ) (σ : Equiv.Perm (Fin m)) :
    mulMat (transp fun i => M (σ i)) (fun i => M (σ i)) = mulMat (transp M) M := by
  funext j l
  show vsum (fun i => M (σ i) j * M (σ i) l) = vsum fun i => M i j * M i l
  rw [vsum_real, vsum_real]
  exact Equiv.sum_comp σ fun i => M i j * M i l

theorem levScores_perm (E : Eigen ℝ) (M : Matrix (Fin m) (Fin n) ℝ) (σ : Equiv.Perm (Fin m)) (i : Fin m) :
    levScores E (fun i => M (σ i)) i = levScores E M (σ i) := by
  unfold levScores
  rw [mulMat_gram_perm]
  rfl

theorem hessianOf_scaled (w : Fin m → ℝ) (x : Fin n → ℝ) (A : Matrix (Fin m) (Fin n) ℝ) (b : Fin m → ℝ) (j l : Fin n) :
    hessianOf w x A b j l = ∑ i, w i * (scaledA x A b i j * scaledA x A b i l) := by
  show vsum (fun i => A i j * (1 / generateSlack x A b i * w i * (1 / generateSlack x A b i)) * A i l) = _
  rw [vsum_real]
  refine sum_congr rfl fun i _ => ?_
  show A i j * (1 / generateSlack x A b i * w i * (1 / generateSlack x A b i)) * A i l =
    w i * (1 / generateSlack x A b i * A i j * (1 / generateSlack x A b i * A i l))
  ring

theorem Redescribed.hessian (h : Redescribed σ c v A b A' b') (w : Fin m → ℝ) (x : Fin n → ℝ) :
    hessianOf (fun i => w (σ i)) (fun j => x j + v j) A' b' = hessianOf w x A b := by
  funext j l
  rw [hessianOf_scaled, hessianOf_scaled]
  have : ∀ i, w (σ i) * (scaledA (fun j => x j + v j) A' b' i j * scaledA (fun j => x j + v j) A' b' i l) =
      w (σ i) * (scaledA x A b (σ i) j * scaledA x A b (σ i) l) := fun i => by rw [h.scaled]
  rw [sum_congr rfl fun i _ => this i]
  exact Equiv.sum_comp σ fun i => w i * (scaledA x A b i j * scaledA x A b i l)

theorem maxCoeff_perm (u : Fin m → ℝ) (σ : Equiv.Perm (Fin m)) : maxCoeff (fun i => u (σ i)) = maxCoeff u := by
  rcases Nat.eq_zero_or_pos m with rfl | hm
  · rfl
  · obtain ⟨c, h1, h2, i, h3⟩ := maxCoeff_real u hm
    obtain ⟨d, g1, g2, j, g3⟩ := maxCoeff_real (fun i => u (σ i)) hm
    rw [h1, g1]
    congr 1
    refine le_antisymm (g3 ▸ h2 _) ?_
    rw [← h3]
    have := g2 (σ.symm i)
    simpa using this

theorem norm2_perm (u : Fin m → ℝ) (σ : Equiv.Perm (Fin m)) : norm2 (fun i => u (σ i)) = norm2 u := by
  rw [norm2_real, norm2_real]
  congr 1
  exact Equiv.sum_comp σ fun i => u i * u i

/-! ### Weights -/

/-- No entry is the marker `-1` of an unset weight vector. -/
def NoMark (w : Fin m → ℝ) : Prop := ∀ i, w i ≠ -1

theorem warmStart_noMark {w : Fin m → ℝ} (hw : NoMark w) :
    warmStart ⟨m, w⟩ m = if 0 < m then .ok w else .ub .indexOutOfRange := by
  by_cases h0 : 0 < m
  · rw [if_pos h0]
    unfold warmStart
    have : Scalar.eq (w ⟨0, h0⟩) (Scalar.ofInt (-1)) = false := by
      rw [rsc_eq, rsc_ofInt]
      simpa using hw ⟨0, h0⟩
    refine (dif_pos h0).trans ((dif_pos rfl).trans ((if_neg ?_).trans rfl))
    show ¬ Scalar.eq (w ⟨0, h0⟩) (Scalar.ofInt (-1)) = true
    rw [this]; exact Bool.false_ne_true
  · rw [if_neg h0]
    unfold warmStart
    exact dif_neg h0

theorem johnLoop_perm {next next' : (Fin m → ℝ) → Fin m → ℝ} (hn : ∀ w, next' (fun i => w (σ i)) = fun i => next w (σ i))
    (hmark : ∀ w, NoMark (next w)) {diff diff' : (Fin m → ℝ) → (Fin m → ℝ) → Fin m → ℝ}
    (hd : ∀ a b, diff' (fun i => a (σ i)) (fun i => b (σ i)) = fun i => diff a b (σ i)) (LIM : ℝ) (k : ℕ) :
    ∀ w nw, NoMark w → NoMark nw → Out.Rel (fun p q => q.1 = (fun i => p.1 (σ i)) ∧ NoMark p.1)
      (johnLoop next diff LIM k w nw) (johnLoop next' diff' LIM k (fun i => w (σ i)) fun i => nw (σ i)) := by
  induction k with
  | zero => exact fun w nw hw _ => .ok ⟨rfl, hw⟩
  | succ k ih =>
    intro w nw hw hnw
    rw [johnLoop, johnLoop]
    simp only [hn, hd, maxCoeff_perm]
    refine Out.Rel.bind (Out.Rel.refl (R := fun a b => b = a) (fun _ => rfl) _) ?_
    intro a a' ha
    subst ha
    split
    · exact .ok ⟨rfl, hnw⟩
    · exact ih _ _ hnw (hmark _)

theorem lsLoop_perm {grad grad' : (Fin m → ℝ) → Fin m → ℝ} (hn : ∀ w, grad' (fun i => w (σ i)) = fun i => grad w (σ i))
    {upd upd' : (Fin m → ℝ) → (Fin m → ℝ) → Fin m → ℝ} (hmark : ∀ w g, NoMark (upd w g))
    (hd : ∀ a b, upd' (fun i => a (σ i)) (fun i => b (σ i)) = fun i => upd a b (σ i)) (GLIM : ℝ) (k : ℕ) :
    ∀ w, NoMark w → (lsLoop grad' upd' GLIM k fun i => w (σ i)).1 = (fun i => (lsLoop grad upd GLIM k w).1 (σ i)) ∧
      NoMark (lsLoop grad upd GLIM k w).1 := by
  induction k with
  | zero => exact fun w hw => ⟨rfl, hw⟩
  | succ k ih =>
    intro w hw
    rw [lsLoop, lsLoop]
    simp only [hn, hd, norm2_perm]
    split
    · exact ⟨rfl, hw⟩
    · exact ih _ (hmark _ _)

/-- Weight vectors of the two descriptions. -/
def WPerm (σ : Equiv.Perm (Fin m)) (w w' : DVec ℝ) : Prop :=
  w'.n = w.n ∧ ∀ (h : w.n = m) (h' : w'.n = m), w'.at h' = fun i => w.at h (σ i)

/-- What a class of barrier walks needs: on the two descriptions its weights are the same up to order. -/
structure PermClass (σ : Equiv.Perm (Fin m)) (n : ℕ) (cls : BarrierClass ℝ (BState ℝ)) (Ro : BState ℝ → BState ℝ → Prop) : Prop where
  dist : ∀ o o', Ro o o' → cls.distTerm o' = cls.distTerm o
  start : ∀ o, Out.Rel Ro (cls.setDistTerm o n m) (cls.setDistTerm o n m)
  weight : ∀ {c : Fin m → ℝ} {v : Fin n → ℝ} {A A' : Matrix (Fin m) (Fin n) ℝ} {b b' : Fin m → ℝ}, Redescribed σ c v A b A' b' →
    ∀ o o', Ro o o' → ∀ x : Fin n → ℝ, Out.Rel (fun p q => WPerm σ p.1 q.1 ∧ Ro p.2 q.2)
      (cls.generateWeight o x A b) (cls.generateWeight o' (fun j => x j + v j) A' b')

/-- Equal states. -/
def SameDist (o o' : BState ℝ) : Prop := o' = o

/-- States with weights in the two orders. -/
def PermWeights (σ : Equiv.Perm (Fin m)) (o o' : BState ℝ) : Prop :=
  ∃ (D : ℝ) (w : Fin m → ℝ), NoMark w ∧ o = ⟨D, ⟨m, w⟩⟩ ∧ o' = ⟨D, ⟨m, fun i => w (σ i)⟩⟩

theorem wPerm_const (σ : Equiv.Perm (Fin m)) (l : ℕ) : WPerm σ (ones l) (ones l) := ⟨rfl, fun h h' => by subst h; rfl⟩

theorem wPerm_mk (σ : Equiv.Perm (Fin m)) {w w' : Fin m → ℝ} (h : w' = fun i => w (σ i)) : WPerm σ ⟨m, w⟩ ⟨m, w'⟩ :=
  ⟨rfl, fun _ _ => h⟩

theorem permClass_base (σ : Equiv.Perm (Fin m)) (n : ℕ) (R : ℝ) : PermClass σ n (barrierClass R) SameDist where
  dist o o' h := congrArg BState.dist h
  start o := Out.Rel.refl (R := SameDist) (fun _ => rfl) _
  weight _ o o' h x := .ok ⟨wPerm_const σ 1, h⟩

theorem permClass_dikin (σ : Equiv.Perm (Fin m)) (n : ℕ) (R : ℝ) : PermClass σ n (dikinClass R) SameDist where
  dist o o' h := congrArg BState.dist h
  start o := Out.Rel.refl (R := SameDist) (fun _ => rfl) _
  weight _ o o' h x := .ok ⟨wPerm_const σ m, h⟩

theorem permClass_vaidya (σ : Equiv.Perm (Fin m)) (n : ℕ) (E : Eigen ℝ) (R : ℝ) : PermClass σ n (vaidyaClass E R) SameDist where
  dist o o' h := congrArg BState.dist h
  start o := Out.Rel.refl (R := SameDist) (fun _ => rfl) _
  weight {c v A A' b b'} hr o o' h x := .ok ⟨wPerm_mk σ (by
    funext i
    unfold vaidyaWeight
    rw [show scaledA (fun j => x j + v j) A' b' = fun i => scaledA x A b (σ i) from funext fun i => hr.scaled x i, levScores_perm]), h⟩

theorem noMark_ones : NoMark (fun _ : Fin m => (1 : ℝ)) := fun _ => by norm_num

theorem permWeights_ones (σ : Equiv.Perm (Fin m)) (D : ℝ) : PermWeights σ ⟨D, ones ((m : Int).toNat)⟩ ⟨D, ones ((m : Int).toNat)⟩ :=
  ⟨D, fun _ => 1, noMark_ones, rfl, rfl⟩

theorem powScaled_perm (alpha : ℝ) (w : Fin m → ℝ) (M : Matrix (Fin m) (Fin n) ℝ) :
    powScaled alpha (fun i => w (σ i)) (fun i => M (σ i)) = fun i => powScaled alpha w M (σ i) := rfl

theorem permClass_john (σ : Equiv.Perm (Fin m)) (n : ℕ) (E : Eigen ℝ) (R LIM : ℝ) (M : Int) :
    PermClass σ n (johnClass E R LIM M) (PermWeights σ) where
  dist o o' h := by obtain ⟨D, w, _, rfl, rfl⟩ := h; rfl
  start o := by
    have e : (johnClass E R LIM M).setDistTerm o n m =
        .ok ⟨R * R / Scalar.pow (Scalar.ofInt (n : Int)) (Scalar.ofInt 3 / Scalar.ofInt 2), ones (m : Int).toNat⟩ := by
      have : ¬ (m : Int) < 0 := by omega
      simp [johnClass, this]
    rw [e]
    exact .ok (permWeights_ones σ _)
  weight {c v A A' b b'} hr o o' h x := by
    obtain ⟨D, w, hw, rfl, rfl⟩ := h
    refine Out.Rel.map (R := fun p q => q.1 = (fun i => p.1 (σ i)) ∧ NoMark p.1) ?_ ?_
    · unfold johnWeightConv
      refine Out.Rel.bind (Out.Rel.refl (R := fun a b => b = a) (fun _ => rfl) _) ?_
      intro α α' hα
      subst hα
      rw [warmStart_noMark hw, warmStart_noMark (w := fun i => w (σ i)) fun i => hw (σ i)]
      split
      · refine johnLoop_perm (σ := σ) (fun u => ?_) (fun u i => ?_) (fun a b => rfl) LIM _ _ _ hw hw
        · funext i
          unfold johnNext
          rw [show scaledA (fun j => x j + v j) A' b' = fun i => scaledA x A b (σ i) from funext fun i => hr.scaled x i, powScaled_perm,
            levScores_perm]
        · unfold johnNext
          rw [cmax_real, half_real]
          have h1 : (0 : ℝ) ≤ johnBeta m n := by
            unfold johnBeta
            rw [rsc_ofInt, rsc_ofInt]
            positivity
          have := le_max_right (u i + levScores E (powScaled α' u (scaledA x A b)) i + johnBeta m n) (johnBeta m n)
          intro hc
          linarith
      · exact .ub _
    · rintro p q ⟨h1, h2⟩
      exact ⟨wPerm_mk σ h1, D, p.1, h2, rfl, by rw [h1]⟩

theorem permClass_ls (σ : Equiv.Perm (Fin m)) (n : ℕ) (E : Eigen ℝ) (R GLIM STEP : ℝ) (M : Int) :
    PermClass σ n (dikinLSClass E R GLIM STEP M) (PermWeights σ) where
  dist o o' h := by obtain ⟨D, w, _, rfl, rfl⟩ := h; rfl
  start o := by
    have e : (dikinLSClass E R GLIM STEP M).setDistTerm o n m =
        .ok ⟨R * R / ((1 + lsQ (m : Int)) * (1 + lsQ (m : Int) * lsQ (m : Int))), ones (m : Int).toNat⟩ := by
      have : ¬ (m : Int) < 0 := by omega
      simp [dikinLSClass, this]
    rw [e]
    exact .ok (permWeights_ones σ _)
  weight {c v A A' b b'} hr o o' h x := by
    obtain ⟨D, w, hw, rfl, rfl⟩ := h
    refine Out.Rel.map (R := fun p q => q.1 = (fun i => p.1 (σ i)) ∧ NoMark p.1) ?_ ?_
    · unfold lsWeightConv
      rw [warmStart_noMark hw, warmStart_noMark (w := fun i => w (σ i)) fun i => hw (σ i)]
      split
      · refine .ok (lsLoop_perm (σ := σ) (fun u => ?_) (fun u g i => ?_) (fun a b => rfl) GLIM _ _ hw)
        · funext i
          unfold lsGrad
          rw [show scaledA (fun j => x j + v j) A' b' = fun i => scaledA x A b (σ i) from funext fun i => hr.scaled x i, powScaled_perm,
            levScores_perm]
        · rw [cmax_real]
          have h1 : (0 : ℝ) < lsErr * 1 := by unfold lsErr; rw [rsc_ofInt]; norm_num
          have := le_max_right (u i - STEP * g i) (lsErr * 1)
          intro hc
          linarith
      · exact .ub _
    · rintro p q ⟨h1, h2⟩
      exact ⟨wPerm_mk σ h1, D, p.1, h2, rfl, by rw [h1]⟩

/-! ### Steps -/

theorem PermClass.hess {cls : BarrierClass ℝ (BState ℝ)} {Ro} (hc : PermClass σ n cls Ro) (hr : Redescribed σ c v A b A' b')
    {o o' : BState ℝ} (ho : Ro o o') (x : Fin n → ℝ) :
    Out.Rel (fun p q => q.1 = p.1 ∧ Ro p.2 q.2) (generateHessian cls o x A b) (generateHessian cls o' (fun j => x j + v j) A' b') := by
  unfold generateHessian
  refine (hc.weight hr o o' ho x).bind ?_
  rintro ⟨w, o1⟩ ⟨w', o1'⟩ ⟨⟨h1, h2⟩, h3⟩
  by_cases h : w.n = m
  · have h' : w'.n = m := h1.trans h
    rw [dif_pos h, dif_pos h']
    refine .ok ⟨?_, h3⟩
    show hessianOf (w'.at h') _ A' b' = _
    rw [h2 h h']
    exact hr.hessian _ x
  · have h' : ¬ w'.n = m := fun hh => h (h1.symm.trans hh)
    rw [dif_neg h, dif_neg h']
    exact .ub _

/-- Related states of a barrier walk. -/
def BRel (v : Fin n → ℝ) (Ro : BState ℝ → BState ℝ → Prop) {G : Type} (s s' : (Fin n → ℝ) × BState ℝ × G) : Prop :=
  s'.1 = (fun j => s.1 j + v j) ∧ Ro s.2.1 s'.2.1 ∧ s'.2.2 = s.2.2

theorem PermClass.step {cls : BarrierClass ℝ (BState ℝ)} {Ro} (hc : PermClass σ n cls Ro) (hr : Redescribed σ c v A b A' b')
    (E : Eigen ℝ) (r : Rng ℝ) (s s' : (Fin n → ℝ) × BState ℝ × r.G) (hs : BRel v Ro s s') :
    Out.Rel (BRel v Ro) (BarrierWalk.step cls E r A b s) (BarrierWalk.step cls E r A' b' s') := by
  obtain ⟨x, o, g⟩ := s
  obtain ⟨x', o', g'⟩ := s'
  obtain ⟨h1, h2, h3⟩ := hs
  simp only at h1 h2 h3
  subst h1 h3
  unfold BarrierWalk.step BarrierWalk.generateSample
  refine (hc.hess hr h2 x).bind ?_
  rintro ⟨H, o1⟩ ⟨H', o1'⟩ ⟨e1, e2⟩
  simp only at e1 e2
  subst e1
  have eD := hc.dist _ _ e2
  simp only [eD]
  have eP : BarrierWalk.proposal E (cls.distTerm o1) H' (fun j => x j + v j) (r.gaussian n g').1 =
      fun j => BarrierWalk.proposal E (cls.distTerm o1) H' x (r.gaussian n g').1 j + v j := by
    funext j
    show x j + v j + _ = x j + _ + v j
    ring
  rw [eP, hr.inside]
  generalize BarrierWalk.proposal E (cls.distTerm o1) H' x (r.gaussian n g').1 = z
  refine Out.Rel.bind (Out.Rel.refl (R := fun a b => b = a) (fun _ => rfl) _) ?_
  intro cc cc' hcc
  subst hcc
  split
  · exact .ok ⟨rfl, e2, rfl⟩
  · refine (hc.hess hr e2 z).bind ?_
    rintro ⟨Hz, o2⟩ ⟨Hz', o2'⟩ ⟨f1, f2⟩
    simp only at f1 f2
    subst f1
    have fD := hc.dist _ _ f2
    simp only [fD]
    have eL : ∀ (D : ℝ) (L H : Matrix (Fin n) (Fin n) ℝ), BarrierWalk.logDensity D L H (fun j => x j + v j) (fun j => z j + v j) =
        BarrierWalk.logDensity D L H x z := by
      intro D L H
      unfold BarrierWalk.logDensity
      rw [show (fun i => x i + v i - (z i + v i)) = fun i => x i - z i from funext fun i => by ring]
    rw [eL, eL]
    refine .ok ⟨?_, f2, rfl⟩
    simp only
    split <;> rfl

/-! ### Ball walk and Hit-and-Run -/

/-- Related states of the walks without members. -/
def PRel (T : (Fin n → ℝ) → Fin n → ℝ) {G : Type} (s s' : (Fin n → ℝ) × G) : Prop := s'.1 = T s.1 ∧ s'.2 = s.2

theorem ball_rel {m' : ℕ} {A : Matrix (Fin m) (Fin n) ℝ} {b : Fin m → ℝ} {A' : Matrix (Fin m') (Fin n) ℝ} {b' : Fin m' → ℝ} {a : ℝ} {v : Fin n → ℝ}
    (hin : ∀ x, inPolytope (fun j => a * x j + v j) A' b' = inPolytope x A b) (R : ℝ) (r : Rng ℝ) (s s' : (Fin n → ℝ) × r.G)
    (hs : PRel (fun x j => a * x j + v j) s s') :
    Out.Rel (PRel fun x j => a * x j + v j) (BallWalk.step R r A b s) (BallWalk.step (a * R) r A' b' s') := by
  obtain ⟨x, g⟩ := s
  obtain ⟨x', g'⟩ := s'
  obtain ⟨h1, h2⟩ := hs
  simp only at h1 h2
  subst h1 h2
  unfold BallWalk.step
  have e : (fun i => (r.gaussianNorm n g').1 i * (a * R) / Scalar.sqrt (Scalar.ofInt (n : Int) : ℝ) + (a * x i + v i)) =
      fun i => a * ((r.gaussianNorm n g').1 i * R / Scalar.sqrt (Scalar.ofInt (n : Int) : ℝ) + x i) + v i := by
    funext i; ring
  simp only [e]
  rw [hin fun i => (r.gaussianNorm n g').1 i * R / Scalar.sqrt (Scalar.ofInt (n : Int) : ℝ) + x i]
  refine Out.Rel.bind (Out.Rel.refl (R := fun a b => b = a) (fun _ => rfl) _) ?_
  intro cc cc' hcc
  subst hcc
  split
  · exact .ok ⟨rfl, rfl⟩
  · exact .ok ⟨rfl, rfl⟩

theorem distance_affine {a : ℝ} (ha : 0 < a) (v x y : Fin n → ℝ) :
    distance (fun j => a * x j + v j) (fun j => a * y j + v j) = a * distance x y := by
  unfold distance
  rw [norm2_real, norm2_real]
  have : ∑ i, (a * x i + v i - (a * y i + v i)) * (a * x i + v i - (a * y i + v i)) = a ^ 2 * ∑ i, (x i - y i) * (x i - y i) := by
    rw [mul_sum]; exact sum_congr rfl fun i _ => by ring
  rw [this, Real.sqrt_mul (sq_nonneg a), Real.sqrt_sq ha.le]

theorem expand_affine {inside inside' : (Fin n → ℝ) → Out Bool} {a : ℝ} (ha : 0 < a) {v : Fin n → ℝ}
    (hin : ∀ x, inside' (fun j => a * x j + v j) = inside x) (dir x : Fin n → ℝ) (fuel : ℕ) :
    ∀ f : Fin n → ℝ, Out.Rel (fun p q => q = fun j => a * p j + v j) (HitRun.expand inside dir x fuel f)
      (HitRun.expand inside' dir (fun j => a * x j + v j) fuel fun j => a * f j + v j) := by
  induction fuel with
  | zero => exact fun _ => .timeout
  | succ fuel ih =>
    intro f
    rw [HitRun.expand, HitRun.expand]
    have e : (fun i => a * x i + v i + two * distance (fun j => a * x j + v j) (fun j => a * f j + v j) * dir i) =
        fun i => a * (x i + two * distance x f * dir i) + v i := by
      funext i; rw [distance_affine ha]; ring
    simp only [e]
    rw [hin fun i => x i + two * distance x f * dir i]
    refine Out.Rel.bind (Out.Rel.refl (R := fun a b => b = a) (fun _ => rfl) _) ?_
    intro cc cc' hcc
    subst hcc
    split
    · exact .ok rfl
    · exact ih _

theorem bisect_affine {inside inside' : (Fin n → ℝ) → Out Bool} {a : ℝ} (ha : 0 < a) {v : Fin n → ℝ}
    (hin : ∀ x, inside' (fun j => a * x j + v j) = inside x) (ERR : ℝ) (fuel : ℕ) :
    ∀ l r m : Fin n → ℝ, Out.Rel (fun p q => q = fun j => a * p j + v j) (HitRun.bisect inside ERR fuel l r m)
      (HitRun.bisect inside' (a * ERR) fuel (fun j => a * l j + v j) (fun j => a * r j + v j) fun j => a * m j + v j) := by
  have hlt : ∀ l r : Fin n → ℝ, Scalar.lt (a * ERR) (distance (fun j => a * l j + v j) fun j => a * r j + v j) = Scalar.lt ERR (distance l r) := by
    intro l r
    rw [distance_affine ha, rsc_lt, rsc_lt, decide_eq_decide, mul_lt_mul_iff_right₀ ha]
  induction fuel with
  | zero =>
    intro l r m
    unfold HitRun.bisect
    rw [hlt, hin m]
    refine Out.Rel.bind (Out.Rel.refl (R := fun a b => b = a) (fun _ => rfl) _) ?_
    intro cc cc' hcc
    subst hcc
    split
    · exact .timeout
    · exact .ok rfl
  | succ fuel ih =>
    intro l r m
    unfold HitRun.bisect
    rw [hlt, hin m]
    refine Out.Rel.bind (Out.Rel.refl (R := fun a b => b = a) (fun _ => rfl) _) ?_
    intro cc cc' hcc
    subst hcc
    split
    · have e : (fun i => (a * l i + v i + (a * r i + v i)) / two) = fun i => a * ((l i + r i) / two) + v i := by
        funext i; rw [two_real]; ring
      simp only [e]
      rw [hin fun i => (l i + r i) / two]
      refine Out.Rel.bind (Out.Rel.refl (R := fun a b => b = a) (fun _ => rfl) _) ?_
      intro dd dd' hdd
      subst hdd
      split
      · exact ih _ _ _
      · exact ih _ _ _
    · exact .ok rfl

theorem binarySearch_affine {m' : ℕ} {A : Matrix (Fin m) (Fin n) ℝ} {b : Fin m → ℝ} {A' : Matrix (Fin m') (Fin n) ℝ} {b' : Fin m' → ℝ} {a : ℝ} (ha : 0 < a)
    {v : Fin n → ℝ} (hin : ∀ x, inPolytope (fun j => a * x j + v j) A' b' = inPolytope x A b) (R ERR : ℝ) (fuel : ℕ) (dir x : Fin n → ℝ) :
    HitRun.binarySearch (a * R) (a * ERR) fuel A' b' dir (fun j => a * x j + v j) = (HitRun.binarySearch R ERR fuel A b dir x).map fun t => a * t := by
  unfold HitRun.binarySearch
  have e0 : (fun i => a * x i + v i + a * R * dir i) = fun i => a * (x i + R * dir i) + v i := by funext i; ring
  refine Out.Rel.eq_map ?_
  refine Out.Rel.bind (R := fun p q => q = fun j => a * p j + v j) ?_ ?_
  · rw [e0]; exact expand_affine ha hin dir x fuel _
  · intro p q hpq
    subst hpq
    have e : (fun i => (a * x i + v i + (a * p i + v i)) / two) = fun i => a * ((x i + p i) / two) + v i := by
      funext i; rw [two_real]; ring
    rw [e]
    refine Out.Rel.bind (bisect_affine ha hin ERR fuel _ _ _) ?_
    intro y z hyz
    subst hyz
    exact .ok (distance_affine ha v y x)

theorem hitRun_rel {m' : ℕ} {A : Matrix (Fin m) (Fin n) ℝ} {b : Fin m → ℝ} {A' : Matrix (Fin m') (Fin n) ℝ} {b' : Fin m' → ℝ} {a : ℝ} (ha : 0 < a) {v : Fin n → ℝ}
    (hin : ∀ x, inPolytope (fun j => a * x j + v j) A' b' = inPolytope x A b) (R ERR : ℝ) (fuel : ℕ) (r : Rng ℝ) (s s' : (Fin n → ℝ) × r.G)
    (hs : PRel (fun x j => a * x j + v j) s s') :
    Out.Rel (PRel fun x j => a * x j + v j) (HitRun.step R ERR fuel r A b s) (HitRun.step (a * R) (a * ERR) fuel r A' b' s') := by
  obtain ⟨x, g⟩ := s
  obtain ⟨x', g'⟩ := s'
  obtain ⟨h1, h2⟩ := hs
  simp only at h1 h2
  subst h1 h2
  unfold HitRun.step
  simp only [binarySearch_affine ha hin]
  rw [Out.bind_map]
  refine Out.Rel.bind (Out.Rel.refl (R := fun a b => b = a) (fun _ => rfl) _) ?_
  intro p p' hp
  subst hp
  rw [Out.bind_map]
  refine Out.Rel.bind (Out.Rel.refl (R := fun a b => b = a) (fun _ => rfl) _) ?_
  intro q q' hq
  subst hq
  refine .ok ⟨?_, rfl⟩
  funext i
  simp only
  ring

end PW

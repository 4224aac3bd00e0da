import Verif.Lemmas.Redescribe
import Verif.Lemmas.BallMinorize
import Verif.Props.HitRunLaw

/-! # Moves of the dense geometric walks on isometric polytopes -/

namespace PW
open Matrix MeasureTheory Set
variable {m m' n : ℕ} {Q : Matrix (Fin n) (Fin n) ℝ} (hQ : Q * Qᵀ = 1) {v : Fin n → ℝ}

theorem rot_other (hQ : Q * Qᵀ = 1) : Qᵀ * Q = 1 := mul_eq_one_comm.1 hQ

theorem len_norm2 (w : Fin n → ℝ) : len w = norm2 w := by rw [norm2_real]; rfl

theorem distance_len (x y : Fin n → ℝ) : distance x y = len (x - y) := by rw [len_norm2]; rfl

include hQ

theorem distance_iso (x y : Fin n → ℝ) : distance (Q *ᵥ x + v) (Q *ᵥ y + v) = distance x y := by
  rw [distance_len, distance_len, add_sub_add_right_eq_sub, ← mulVec_sub, len_rot (rot_other hQ)]

theorem norm2_iso (w : Fin n → ℝ) : norm2 (Q *ᵥ w) = norm2 w := by
  rw [← len_norm2, ← len_norm2, len_rot (rot_other hQ)]

theorem ray_iso (x d : Fin n → ℝ) (t : ℝ) : (fun i => (Q *ᵥ x + v) i + t * (Q *ᵥ d) i) = Q *ᵥ (fun i => x i + t * d i) + v := by
  have : (fun i => x i + t * d i) = x + t • d := rfl
  rw [this, mulVec_add, mulVec_smul]
  funext i
  show (Q *ᵥ x) i + v i + t * (Q *ᵥ d) i = (Q *ᵥ x) i + t * (Q *ᵥ d) i + v i
  ring

theorem mid_iso (x y : Fin n → ℝ) : (fun i => ((Q *ᵥ x + v) i + (Q *ᵥ y + v) i) / two) = Q *ᵥ (fun i => (x i + y i) / two) + v := by
  have : (fun i => (x i + y i) / two) = (2⁻¹ : ℝ) • (x + y) := by funext i; rw [two_real, div_eq_inv_mul]; rfl
  rw [this, mulVec_smul, mulVec_add]
  funext i
  rw [two_real]
  show ((Q *ᵥ x) i + v i + ((Q *ᵥ y) i + v i)) / 2 = 2⁻¹ * ((Q *ᵥ x) i + (Q *ᵥ y) i) + v i
  ring

theorem expand_iso {inside inside' : (Fin n → ℝ) → Out Bool} (hin : ∀ x, inside' (Q *ᵥ x + v) = inside x) (dir x : Fin n → ℝ) (fuel : ℕ) :
    ∀ f : Fin n → ℝ, Out.Rel (fun p q => q = Q *ᵥ p + v) (HitRun.expand inside dir x fuel f)
      (HitRun.expand inside' (Q *ᵥ dir) (Q *ᵥ x + v) fuel (Q *ᵥ f + v)) := by
  induction fuel with
  | zero => exact fun _ => .timeout
  | succ fuel ih =>
    intro f
    rw [HitRun.expand, HitRun.expand]
    simp only [distance_iso hQ, ray_iso hQ]
    rw [hin fun i => x i + two * distance x f * dir i]
    refine Out.Rel.bind (Out.Rel.refl (R := fun a b => b = a) (fun _ => rfl) _) ?_
    intro cc cc' hcc
    subst hcc
    split
    · exact .ok rfl
    · exact ih _

theorem bisect_iso {inside inside' : (Fin n → ℝ) → Out Bool} (hin : ∀ x, inside' (Q *ᵥ x + v) = inside x) (ERR : ℝ) (fuel : ℕ) :
    ∀ l r m : Fin n → ℝ, Out.Rel (fun p q => q = Q *ᵥ p + v) (HitRun.bisect inside ERR fuel l r m)
      (HitRun.bisect inside' ERR fuel (Q *ᵥ l + v) (Q *ᵥ r + v) (Q *ᵥ m + v)) := by
  induction fuel with
  | zero =>
    intro l r m
    unfold HitRun.bisect
    rw [distance_iso hQ, hin m]
    refine Out.Rel.bind (Out.Rel.refl (R := fun a b => b = a) (fun _ => rfl) _) ?_
    intro cc cc' hcc
    subst hcc
    split
    · exact .timeout
    · exact .ok rfl
  | succ fuel ih =>
    intro l r m
    unfold HitRun.bisect
    rw [distance_iso hQ, hin m]
    refine Out.Rel.bind (Out.Rel.refl (R := fun a b => b = a) (fun _ => rfl) _) ?_
    intro cc cc' hcc
    subst hcc
    split
    · simp only [mid_iso hQ]
      rw [hin fun i => (l i + r i) / two]
      refine Out.Rel.bind (Out.Rel.refl (R := fun a b => b = a) (fun _ => rfl) _) ?_
      intro dd dd' hdd
      subst hdd
      split
      · exact ih _ _ _
      · exact ih _ _ _
    · exact .ok rfl

variable {A : Matrix (Fin m) (Fin n) ℝ} {b : Fin m → ℝ} {A' : Matrix (Fin m') (Fin n) ℝ} {b' : Fin m' → ℝ}

theorem binarySearch_iso (hin : ∀ x, inPolytope (Q *ᵥ x + v) A' b' = inPolytope x A b) (R ERR : ℝ) (fuel : ℕ) (dir x : Fin n → ℝ) :
    HitRun.binarySearch R ERR fuel A' b' (Q *ᵥ dir) (Q *ᵥ x + v) = HitRun.binarySearch R ERR fuel A b dir x := by
  have hid : ∀ o : Out ℝ, o.map id = o := fun o => by cases o <;> rfl
  rw [← hid (HitRun.binarySearch R ERR fuel A b dir x)]
  unfold HitRun.binarySearch
  refine Out.Rel.eq_map ?_
  refine Out.Rel.bind (R := fun p q => q = Q *ᵥ p + v) ?_ ?_
  · rw [ray_iso hQ]; exact expand_iso hQ hin dir x fuel _
  · intro p q hpq
    subst hpq
    rw [mid_iso hQ]
    refine Out.Rel.bind (bisect_iso hQ hin ERR fuel _ _ _) ?_
    intro y z hyz
    subst hyz
    exact .ok (distance_iso hQ y x)

theorem unit_iso (w : Fin n → ℝ) : (fun i => (Q *ᵥ w) i / norm2 (Q *ᵥ w)) = Q *ᵥ fun i => w i / norm2 w := by
  have : (fun i => w i / norm2 w) = (norm2 w)⁻¹ • w := by funext i; rw [div_eq_inv_mul]; rfl
  rw [this, mulVec_smul, norm2_iso hQ]
  funext i
  rw [div_eq_inv_mul]; rfl

theorem hitRunDraw_iso (hin : ∀ x, inPolytope (Q *ᵥ x + v) A' b' = inPolytope x A b) (R ERR : ℝ) (fuel : ℕ) (x w : Fin n → ℝ) (val : ℝ) :
    hitRunDraw R ERR fuel A' b' (Q *ᵥ x + v) (Q *ᵥ w) val () = (hitRunDraw R ERR fuel A b x w val ()).map fun p => (Q *ᵥ p.1 + v, ()) := by
  unfold hitRunDraw
  have e1 : (fun i => (Q *ᵥ w) i / norm2 (Q *ᵥ w) * (-1)) = Q *ᵥ fun i => w i / norm2 w * (-1) := by
    have h := unit_iso hQ w
    have e : (fun i => w i / norm2 w * (-1)) = (-1 : ℝ) • fun i => w i / norm2 w := by funext i; exact mul_comm _ _
    rw [e, mulVec_smul, ← h]
    funext i
    exact mul_comm _ _
  rw [e1, unit_iso hQ, binarySearch_iso hQ hin, binarySearch_iso hQ hin]
  refine Out.Rel.eq_map ?_
  refine Out.Rel.bind (Out.Rel.refl (R := fun a b => b = a) (fun _ => rfl) _) ?_
  intro p p' hp
  subst hp
  refine Out.Rel.bind (Out.Rel.refl (R := fun a b => b = a) (fun _ => rfl) _) ?_
  intro q q' hq
  subst hq
  have h := unit_iso hQ w
  have h2 := ray_iso hQ (v := v) x (fun i => w i / norm2 w) (val * (p' - q' * (-1)) + q' * (-1))
  refine .ok (Prod.ext ?_ rfl)
  show (fun i => (val * (p' - q' * (-1)) + q' * (-1)) * ((Q *ᵥ w) i / norm2 (Q *ᵥ w)) + (Q *ᵥ x + v) i) =
    Q *ᵥ (fun i => (val * (p' - q' * (-1)) + q' * (-1)) * (w i / norm2 w) + x i) + v
  have e3 : (fun i => (val * (p' - q' * (-1)) + q' * (-1)) * (w i / norm2 w) + x i) = fun i => x i + (val * (p' - q' * (-1)) + q' * (-1)) * (w i / norm2 w) := by
    funext i; exact add_comm _ _
  rw [e3, ← h2]
  funext i
  rw [congrFun h i]
  exact add_comm _ _

theorem hitRunNext_iso (hin : ∀ x, inPolytope (Q *ᵥ x + v) A' b' = inPolytope x A b) (R ERR : ℝ) (x w : Fin n → ℝ) (val : ℝ) :
    hitRunNext R ERR A' b' (Q *ᵥ x + v) (Q *ᵥ w) val = Q *ᵥ hitRunNext R ERR A b x w val + v := by
  unfold hitRunNext
  by_cases h : ∃ z, ∃ f0, ∀ f ≥ f0, hitRunDraw (G := Unit) R ERR f A b x w val () = .ok z
  · obtain ⟨z, f0, hz⟩ := h
    rw [fuelLimit_eq hz, fuelLimit_eq (z := (Q *ᵥ z.1 + v, ())) (f0 := f0) fun f hf => by rw [hitRunDraw_iso hQ hin, hz f hf]; rfl]
  · have h' : ¬ ∃ z, ∃ f0, ∀ f ≥ f0, hitRunDraw (G := Unit) R ERR f A' b' (Q *ᵥ x + v) (Q *ᵥ w) val () = .ok z := by
      rintro ⟨z, f0, hz⟩
      refine h ?_
      have key : ∀ f ≥ f0, ∃ y, hitRunDraw (G := Unit) R ERR f A b x w val () = .ok y := fun f hf => by
        have := hz f hf
        rw [hitRunDraw_iso hQ hin] at this
        cases h2 : hitRunDraw (G := Unit) R ERR f A b x w val () with
        | ok y => exact ⟨y, rfl⟩
        | throws e => rw [h2] at this; cases this
        | ub e => rw [h2] at this; cases this
        | timeout => rw [h2] at this; cases this
      obtain ⟨y, hy⟩ := key f0 le_rfl
      refine ⟨y, f0, fun f hf => ?_⟩
      obtain ⟨y', hy'⟩ := key f hf
      have e1 := hz f hf
      have e2 := hz f0 le_rfl
      rw [hitRunDraw_iso hQ hin, hy'] at e1
      rw [hitRunDraw_iso hQ hin, hy] at e2
      have e3 : Q *ᵥ y'.1 + v = Q *ᵥ y.1 + v := by
        have e4 : (Out.ok (Q *ᵥ y'.1 + v, ()) : Out ((Fin n → ℝ) × Unit)) = Out.ok (Q *ᵥ y.1 + v, ()) := e1.trans e2.symm
        injection e4 with e4
        exact congrArg Prod.fst e4
      have e5 : y'.1 = y.1 := by
        have := congrArg (fun u => Qᵀ *ᵥ u) (add_right_cancel e3)
        simpa only [mulVec_mulVec, rot_other hQ, one_mulVec] using this
      rw [hy']
      exact congrArg Out.ok (Prod.ext e5 rfl)
    unfold fuelLimit
    rw [dif_neg h, dif_neg h']

theorem ballMove_iso {K K' : Set (Fin n → ℝ)} (hK : ∀ x, Q *ᵥ x + v ∈ K' ↔ x ∈ K) (s : ℝ) (x w : Fin n → ℝ) :
    ballMove K' s (Q *ᵥ x + v) (Q *ᵥ w) = Q *ᵥ ballMove K s x w + v := by
  have e : Q *ᵥ x + v + s • hat (Q *ᵥ w) = Q *ᵥ (x + s • hat w) + v := by
    rw [hat_rot (rot_other hQ), mulVec_add, mulVec_smul]; abel
  unfold ballMove
  rw [e]
  by_cases h : x + s • hat w ∈ K
  · rw [if_pos h, if_pos ((hK _).2 h)]
  · rw [if_neg h, if_neg fun h' => h ((hK _).1 h')]

end PW

import Verif.Lemmas.Api
import Verif.Spec.Chain

/-! # More fuel never changes an outcome -/

namespace PW

/-- `y` is what `x` becomes with more fuel. -/
def Out.Refines {α : Type} (x y : Out α) : Prop := x = .timeout ∨ x = y

namespace Out
variable {α β : Type}

theorem Refines.refl (x : Out α) : x.Refines x := .inr rfl

theorem Refines.bind {x y : Out α} {f g : α → Out β} (h : x.Refines y) (hf : ∀ a, (f a).Refines (g a)) :
    (x.bind f).Refines (y.bind g) := by
  rcases h with rfl | rfl
  · exact .inl rfl
  · cases x with
    | ok a => exact hf a
    | throws e => exact .inr rfl
    | ub e => exact .inr rfl
    | timeout => exact .inl rfl

theorem Refines.map {x y : Out α} (h : x.Refines y) (f : α → β) : (x.map f).Refines (y.map f) :=
  h.bind fun _ => .refl _

theorem Refines.eq {x y : Out α} (h : x.Refines y) (hx : x ≠ .timeout) : y = x := by
  rcases h with h | h
  · exact absurd h hx
  · exact h.symm

end Out

section
variable {F : Type} [Scalar F] {m n : ℕ}

theorem expand_refines (inside : (Fin n → F) → Out Bool) (dir x : Fin n → F) {f f' : ℕ} (hf : f ≤ f') (far : Fin n → F) :
    (HitRun.expand inside dir x f far).Refines (HitRun.expand inside dir x f' far) := by
  induction f generalizing f' far with
  | zero => exact .inl rfl
  | succ f ih =>
    obtain ⟨f', rfl⟩ : ∃ g, f' = g + 1 := ⟨f' - 1, by omega⟩
    rw [HitRun.expand, HitRun.expand]
    refine Out.Refines.bind (.refl _) fun c => ?_
    cases c
    · exact .refl _
    · exact ih (by omega) _

theorem bisect_refines (inside : (Fin n → F) → Out Bool) (ERR : F) {f f' : ℕ} (hf : f ≤ f') (l r mid : Fin n → F) :
    (HitRun.bisect inside ERR f l r mid).Refines (HitRun.bisect inside ERR f' l r mid) := by
  induction f generalizing f' l r mid with
  | zero =>
    rw [HitRun.bisect.eq_def, HitRun.bisect.eq_def]
    refine Out.Refines.bind (.refl _) fun c => ?_
    cases c
    · exact .refl _
    · exact .inl rfl
  | succ f ih =>
    obtain ⟨f', rfl⟩ : ∃ g, f' = g + 1 := ⟨f' - 1, by omega⟩
    rw [HitRun.bisect.eq_def, HitRun.bisect.eq_def]
    refine Out.Refines.bind (.refl _) fun c => ?_
    cases c
    · exact .refl _
    · refine Out.Refines.bind (.refl _) fun c => ?_
      cases c
      · exact ih (by omega) _ _ _
      · exact ih (by omega) _ _ _

theorem binarySearch_refines (R ERR : F) (A : Matrix (Fin m) (Fin n) F) (b : Fin m → F) (dir x : Fin n → F) {f f' : ℕ}
    (hf : f ≤ f') : (HitRun.binarySearch R ERR f A b dir x).Refines (HitRun.binarySearch R ERR f' A b dir x) :=
  (expand_refines _ _ _ hf _).bind fun _ => (bisect_refines _ _ hf _ _ _).bind fun _ => .refl _

theorem sparseBinarySearch_refines (R ERR : F) (k : ℕ) (dir x : Fin n → F) {f f' : ℕ} (hf : f ≤ f') :
    (SparseHitRun.binarySearch R ERR f k dir x).Refines (SparseHitRun.binarySearch R ERR f' k dir x) := by
  unfold SparseHitRun.binarySearch
  refine Out.Refines.bind (.refl _) fun o => ?_
  cases o with
  | none => exact .refl _
  | some far => exact (bisect_refines _ _ hf _ _ _).bind fun _ => .refl _

theorem hitRun_step_refines (R ERR : F) (r : Rng F) (A : Matrix (Fin m) (Fin n) F) (b : Fin m → F) {f f' : ℕ} (hf : f ≤ f')
    (s : (Fin n → F) × r.G) : (HitRun.step R ERR f r A b s).Refines (HitRun.step R ERR f' r A b s) :=
  (binarySearch_refines _ _ _ _ _ _ hf).bind fun _ => (binarySearch_refines _ _ _ _ _ _ hf).bind fun _ => .refl _

theorem loopFrom_refines {σ : Type} {step step' : σ → Out σ} (h : ∀ s, (step s).Refines (step' s)) (pos : σ → Fin n → F)
    (burnin thin : Int) (left : ℕ) (i : Int) (s : σ) (rows : List (Fin n → F)) :
    (loopFrom step pos burnin thin left i s rows).Refines (loopFrom step' pos burnin thin left i s rows) := by
  induction left generalizing i s rows with
  | zero => exact .refl _
  | succ left ih =>
    rw [loopFrom, loopFrom]
    exact (h s).bind fun _ => Out.Refines.bind (.refl _) fun _ => Out.Refines.bind (.refl _) fun _ => ih _ _ _

theorem runLoop_refines {σ : Type} {step step' : σ → Out σ} (h : ∀ s, (step s).Refines (step' s)) (pos : σ → Fin n → F)
    (niter burnin thin : Int) (s : σ) :
    (runLoop step pos niter burnin thin s).Refines (runLoop step' pos niter burnin thin s) := by
  unfold runLoop
  refine Out.Refines.bind (.refl _) fun _ => Out.Refines.bind (.refl _) fun _ => ?_
  split
  · exact .refl _
  · exact loopFrom_refines h pos burnin thin _ _ _ _

theorem iter_refines {σ : Type} {step step' : σ → Out σ} (h : ∀ s, (step s).Refines (step' s)) (t : ℕ) (s : σ) :
    (iter step t s).Refines (iter step' t s) := by
  induction t with
  | zero => exact .refl _
  | succ t ih => exact ih.bind h

end
end PW

import Verif.Lemmas.Api

set_option linter.unusedSectionVars false

namespace PW
variable {F : Type} [Scalar F]

/-- The outcome is not an exception. -/
structure Out.NoThrow {α : Type u} (x : Out α) : Prop where
  ne : ∀ e, x ≠ .throws e

namespace Out
theorem NoThrow.ok {α : Type u} (a : α) : (Out.ok a).NoThrow := ⟨fun _ h => by cases h⟩
theorem NoThrow.ub {α : Type u} (u : UB) : (Out.ub u : Out α).NoThrow := ⟨fun _ h => by cases h⟩
theorem NoThrow.timeout {α : Type u} : (Out.timeout : Out α).NoThrow := ⟨fun _ h => by cases h⟩

theorem NoThrow.bind {α : Type u} {β : Type v} {x : Out α} {f : α → Out β} (hx : x.NoThrow)
    (hf : ∀ a, (f a).NoThrow) : (x.bind f).NoThrow := by
  rcases x with a | e | u | _
  · exact hf a
  · exact absurd rfl (hx.ne e)
  · exact NoThrow.ub u
  · exact NoThrow.timeout

theorem NoThrow.map {α : Type u} {β : Type v} {x : Out α} {f : α → β} (hx : x.NoThrow) :
    (x.map f).NoThrow := hx.bind fun _ => NoThrow.ok _

theorem NoThrow.ite {α : Type u} {c : Prop} [Decidable c] {x y : Out α} (hx : x.NoThrow)
    (hy : y.NoThrow) : (if c then x else y).NoThrow := by split <;> assumption
end Out
open Out

theorem toInt_noThrow (z : Int) : (toInt z).NoThrow := by
  unfold toInt; split
  · exact NoThrow.ok _
  · exact NoThrow.ub _

theorem intDiv_noThrow (a b : Int) : (intDiv a b).NoThrow := by
  unfold intDiv; split
  · exact NoThrow.ub _
  · exact toInt_noThrow _

theorem intMod_noThrow (a b : Int) : (intMod a b).NoThrow := by
  unfold intMod; split
  · exact NoThrow.ub _
  · split
    · exact NoThrow.ok _
    · exact NoThrow.ub _

theorem record_noThrow {n : ℕ} (B T i : Int) (rows : List (Fin n → F)) (x) :
    (record B T i rows x).NoThrow := by
  unfold record
  refine NoThrow.ite ?_ (NoThrow.ok _)
  refine (toInt_noThrow _).bind fun t => (intMod_noThrow _ _).bind fun q => NoThrow.ite ?_ (NoThrow.ok _)
  refine (intDiv_noThrow _ _).bind fun t => (toInt_noThrow _).bind fun q => ?_
  unfold writeRow
  exact NoThrow.ite (NoThrow.ok _) (NoThrow.ub _)

theorem loopFrom_noThrow {n : ℕ} {σ : Type} {step : σ → Out σ} (hstep : ∀ s, (step s).NoThrow)
    (pos : σ → Fin n → F) (B T : Int) (left : ℕ) (i : Int) (s : σ) (rows) :
    (loopFrom step pos B T left i s rows).NoThrow := by
  induction left generalizing i s rows with
  | zero => exact NoThrow.ok _
  | succ left ih =>
    rw [loopFrom]
    exact (hstep s).bind fun s1 => (record_noThrow ..).bind fun r1 => (toInt_noThrow _).bind fun i1 => ih ..

theorem runLoop_noThrow {n : ℕ} {σ : Type} {step : σ → Out σ} (hstep : ∀ s, (step s).NoThrow)
    (pos : σ → Fin n → F) (N B T : Int) (s : σ) : (runLoop step pos N B T s).NoThrow := by
  rw [runLoop]
  exact (toInt_noThrow _).bind fun _ => (intDiv_noThrow _ _).bind fun _ =>
    NoThrow.ite (NoThrow.ub _) (loopFrom_noThrow hstep ..)

theorem maxCoeff_noThrow {n : ℕ} (v : Fin n → F) : (maxCoeff v).NoThrow := by
  cases n
  · exact NoThrow.ub _
  · exact NoThrow.ok _

theorem minCoeff_noThrow {n : ℕ} (v : Fin n → F) : (minCoeff v).NoThrow := by
  cases n
  · exact NoThrow.ub _
  · exact NoThrow.ok _

theorem inPolytope_noThrow {m n : ℕ} (x : Fin n → F) (A : Matrix (Fin m) (Fin n) F) (b : Fin m → F) :
    (inPolytope x A b).NoThrow := (maxCoeff_noThrow _).bind fun _ => NoThrow.ok _

theorem inPolytopeK_noThrow {n : ℕ} (x : Fin n → F) (k : ℕ) : (inPolytopeK x k).NoThrow := by
  refine NoThrow.bind ?_ fun _ => (minCoeff_noThrow _).bind fun _ => NoThrow.ok _
  unfold tail; split
  · exact NoThrow.ok _
  · exact NoThrow.ub _

theorem expand_noThrow {n : ℕ} {inside : (Fin n → F) → Out Bool} (hi : ∀ x, (inside x).NoThrow)
    (dir x : Fin n → F) (fuel : ℕ) (farth) : (HitRun.expand inside dir x fuel farth).NoThrow := by
  induction fuel generalizing farth with
  | zero => exact NoThrow.timeout
  | succ fuel ih => exact (hi _).bind fun c => NoThrow.ite (NoThrow.ok _) (ih _)

theorem sexpand_noThrow {n : ℕ} {inside : (Fin n → F) → Out Bool} (hi : ∀ x, (inside x).NoThrow)
    (dir x : Fin n → F) (fuel : ℕ) (farth) : (SparseHitRun.expand inside dir x fuel farth).NoThrow := by
  induction fuel generalizing farth with
  | zero => exact NoThrow.ok _
  | succ fuel ih => exact (hi _).bind fun c => NoThrow.ite (NoThrow.ok _) (ih _)

theorem bisect_noThrow {n : ℕ} {inside : (Fin n → F) → Out Bool} (hi : ∀ x, (inside x).NoThrow)
    (ERR : F) (fuel : ℕ) (l r m) : (HitRun.bisect inside ERR fuel l r m).NoThrow := by
  induction fuel generalizing l r m with
  | zero =>
    unfold HitRun.bisect
    exact (NoThrow.ite (NoThrow.ok _) ((hi _).bind fun _ => NoThrow.ok _)).bind fun c =>
      NoThrow.ite NoThrow.timeout (NoThrow.ok _)
  | succ fuel ih =>
    unfold HitRun.bisect
    exact (NoThrow.ite (NoThrow.ok _) ((hi _).bind fun _ => NoThrow.ok _)).bind fun c =>
      NoThrow.ite ((hi _).bind fun c => NoThrow.ite (ih ..) (ih ..)) (NoThrow.ok _)

/-- A dense barrier class whose virtual functions throw no exceptions. -/
def BarrierClass.NoThrow {σ : Type} (cls : BarrierClass F σ) : Prop :=
  (∀ o d n, (cls.setDistTerm o d n).NoThrow) ∧
  ∀ {m n : ℕ} o (x : Fin n → F) (A : Matrix (Fin m) (Fin n) F) b, (cls.generateWeight o x A b).NoThrow

/-- A sparse barrier class whose virtual functions throw no exceptions. -/
def SparseBarrierClass.NoThrow {σ : Type} (cls : SparseBarrierClass F σ) : Prop :=
  (∀ o d n, (cls.setDistTerm o d n).NoThrow) ∧
  ∀ {m n : ℕ} junk o (x : Fin n → F) (A : Matrix (Fin m) (Fin n) F) k,
    (cls.generateWeight junk o x A k).NoThrow

/-- No virtual function of the walk throws. -/
def Walk.ClassNoThrow : Walk F → Prop
  | .barrier cls _ _ => cls.NoThrow
  | .sparseBarrier cls _ _ _ => cls.NoThrow
  | _ => True

theorem johnLoop_noThrow {m : ℕ} (next : (Fin m → F) → Fin m → F) (diff) (LIM : F) (k : ℕ) (w nw) :
    (johnLoop next diff LIM k w nw).NoThrow := by
  induction k generalizing w nw with
  | zero => exact NoThrow.ok _
  | succ k ih => exact (maxCoeff_noThrow _).bind fun _ => NoThrow.ite (NoThrow.ok _) (ih ..)

theorem warmStart_noThrow (w : DVec F) (m : ℕ) : (warmStart w m).NoThrow := by
  unfold warmStart
  split
  · split
    · exact NoThrow.ite (NoThrow.ok _) (NoThrow.ok _)
    · exact NoThrow.ok _
  · exact NoThrow.ub _

theorem johnAlpha_noThrow (m n : ℕ) : (johnAlpha m n : Out F).NoThrow :=
  NoThrow.ite (NoThrow.ub _) (NoThrow.ok _)

theorem Walk.Library.noThrow {w : Walk F} (h : w.Library) : w.ClassNoThrow := by
  cases h <;> try exact trivial
  · exact ⟨fun _ _ _ => NoThrow.ok _, fun _ _ _ _ => NoThrow.ok _⟩
  · exact ⟨fun _ _ _ => NoThrow.ok _, fun _ _ _ _ => NoThrow.ok _⟩
  · exact ⟨fun _ _ _ => (toInt_noThrow _).bind fun _ => NoThrow.ok _, fun _ _ _ _ => NoThrow.ok _⟩
  · exact ⟨fun _ _ _ => NoThrow.ite (NoThrow.ub _) (NoThrow.ok _), fun _ _ _ _ =>
      ((johnAlpha_noThrow _ _).bind fun _ => (warmStart_noThrow _ _).bind fun _ =>
        johnLoop_noThrow ..).map⟩
  · exact ⟨fun _ _ _ => NoThrow.ite (NoThrow.ub _) (NoThrow.ok _), fun _ _ _ _ =>
      ((warmStart_noThrow _ _).bind fun _ => NoThrow.ok _).map⟩
  · exact ⟨fun _ _ _ => NoThrow.ok _, fun _ _ _ _ _ => NoThrow.ok _⟩
  · exact ⟨fun _ _ _ => NoThrow.ok _, fun _ _ _ _ _ => NoThrow.ok _⟩
  · exact ⟨fun _ _ _ => (toInt_noThrow _).bind fun _ => NoThrow.ok _, fun _ _ _ _ _ => NoThrow.ok _⟩
  · exact ⟨fun _ _ _ => NoThrow.ite (NoThrow.ub _) (NoThrow.ok _), fun _ _ _ _ _ =>
      ((warmStart_noThrow _ _).bind fun _ => johnLoop_noThrow ..).map⟩
  · exact ⟨fun _ _ _ => NoThrow.ite (NoThrow.ub _) (NoThrow.ok _), fun _ _ _ _ _ =>
      ((warmStart_noThrow _ _).bind fun _ => NoThrow.ok _).map⟩

theorem generateHessian_noThrow {σ : Type} {cls : BarrierClass F σ} (hc : cls.NoThrow) {m n : ℕ} (o : σ)
    (x : Fin n → F) (A : Matrix (Fin m) (Fin n) F) (b : Fin m → F) :
    (generateHessian cls o x A b).NoThrow := by
  refine (hc.2 ..).bind fun wo => ?_
  split
  · exact NoThrow.ok _
  · exact NoThrow.ub _

theorem generateG_noThrow {σ : Type} {cls : SparseBarrierClass F σ} (hc : cls.NoThrow) {m n : ℕ}
    (ERR : F) (junk : Fin n → F) (o : σ) (x : Fin n → F) (A : Matrix (Fin m) (Fin n) F) (k : ℕ) :
    (generateG cls ERR junk o x A k).NoThrow := by
  refine (hc.2 ..).bind fun wo => ?_
  split
  · exact NoThrow.ok _
  · exact NoThrow.ub _

theorem Walk.step_noThrow {w : Walk F} (hw : w.ClassNoThrow) (e : Env F) {m n : ℕ}
    (A : Matrix (Fin m) (Fin n) F) (b : Fin m → F) (k : Int) (hk : w.isSparse = true → 1 ≤ k ∧ k ≤ n)
    (s : w.State e n) : (w.step e A b k s).NoThrow := by
  cases w with
  | ball R => exact (inPolytope_noThrow ..).bind fun c => NoThrow.ite (NoThrow.ok _) (NoThrow.ok _)
  | hitRun R ERR =>
    have hb : ∀ dir x, (HitRun.binarySearch R ERR e.fuel A b dir x).NoThrow := fun dir x =>
      (expand_noThrow (fun _ => inPolytope_noThrow ..) ..).bind fun _ =>
        (bisect_noThrow (fun _ => inPolytope_noThrow ..) ..).bind fun _ => NoThrow.ok _
    exact (hb _ _).bind fun _ => (hb _ _).bind fun _ => NoThrow.ok _
  | barrier cls E o =>
    exact (generateHessian_noThrow hw ..).bind fun _ => (inPolytope_noThrow ..).bind fun _ =>
      NoThrow.ite (NoThrow.ok _) ((generateHessian_noThrow hw ..).bind fun _ => NoThrow.ok _)
  | sparseBall R E => exact (inPolytopeK_noThrow ..).bind fun c => NoThrow.ite (NoThrow.ok _) (NoThrow.ok _)
  | sparseHitRun R ERR E =>
    have hb : ∀ dir x, (SparseHitRun.binarySearch (n := n) R ERR e.fuel k.toNat dir x).NoThrow := by
      intro dir x
      refine (sexpand_noThrow (fun _ => inPolytopeK_noThrow ..) ..).bind fun o => ?_
      cases o
      · exact NoThrow.ok _
      · exact (bisect_noThrow (fun _ => inPolytopeK_noThrow ..) ..).bind fun _ => NoThrow.ok _
    exact (hb _ _).bind fun _ => (hb _ _).bind fun _ => NoThrow.ok _
  | sparseBarrier cls ERR E o =>
    have hk := hk rfl
    have hd : ∀ o x z, (SparseBarrier.generateProposalDensity cls ERR E (e.junk n) A k.toNat o x z).NoThrow :=
      fun o x z => (generateG_noThrow hw ..).bind fun _ => NoThrow.ok _
    refine NoThrow.bind ?_ fun zog => (inPolytopeK_noThrow ..).bind fun c =>
      NoThrow.ite ((hd _ _ _).bind fun _ => (hd _ _ _).bind fun _ => NoThrow.ok _) (NoThrow.ok _)
    unfold SparseBarrier.generateSample
    rw [if_neg (by omega)]
    exact (generateG_noThrow hw ..).bind fun _ => NoThrow.ok _

theorem Walk.start_noThrow {w : Walk F} (hw : w.ClassNoThrow) (e : Env F) {m n : ℕ} (x : Fin n → F)
    (k seed : Int) : (w.start e m x k seed).NoThrow := by
  cases w with
  | barrier cls E o => exact (hw.1 ..).bind fun _ => NoThrow.ok _
  | sparseBarrier cls E o => exact (hw.1 ..).bind fun _ => NoThrow.ok _
  | _ => exact NoThrow.ok _

end PW

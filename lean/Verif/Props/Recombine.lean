import Verif.Lemmas.Recombine
import Verif.Props.Redescribe
import Verif.Props.SparseBarrierConverges

/-!
# C93, C94: sparse walks on equivalent systems of equations, and in other units
-/

set_option linter.unusedVariables false
set_option linter.unusedSectionVars false

namespace PW
open Finset Matrix MeasureTheory
variable {m n : ℕ} {M : Matrix (Fin m) (Fin m) ℝ} {δ v : Fin n → ℝ} {A A' : Matrix (Fin m) (Fin n) ℝ}

theorem Walk.run_callArgs_sparse (w : Walk ℝ) (hw : w.isSparse = true) (e : Env ℝ) (A : Matrix (Fin m) (Fin n) ℝ) (b : Fin m → ℝ)
    (x : Fin n → ℝ) (niter k burnin thin seed : Int) :
    w.run e (callArgs A b x niter k burnin thin seed) = if 1 ≤ k ∧ k ≤ n then (w.start e m x k seed).bind fun s0 =>
      (runLoop (w.step e A b k) (w.pos e) niter burnin thin s0).map Prod.fst else .throws .badK := by
  have hk : (callArgs A b x niter k burnin thin seed).KOk ↔ 1 ≤ k ∧ k ≤ n := by
    show 0 < k ∧ k ≤ (n : Int) ↔ _
    omega
  rw [Walk.run_eq]
  by_cases h : 1 ≤ k ∧ k ≤ n
  · rw [if_neg (fun hh => hh.2 (hk.2 h)), dif_pos ⟨rfl, rfl⟩, if_pos h]; rfl
  · rw [if_pos ⟨hw, fun hh => h (hk.1 hh)⟩, if_neg h]

theorem sparseBall_affine {a : ℝ} (ha : 0 < a) (h : Recombined M (fun _ => a) A A') (hA : IndepRows A) {E : Eigen ℝ} (hE : E.SparseLUExact)
    (R : ℝ) (e : Env ℝ) (b b' : Fin m → ℝ) (x : Fin n → ℝ) {niter k burnin thin seed : Int} (hv : TailZero k.toNat v)
    (hg : GoodInts niter burnin thin ∨ v = 0) :
    (Walk.sparseBall (a * R) E).run e (callArgs A' b' (a • x + v) niter k burnin thin seed) =
      ((Walk.sparseBall R E).run e (callArgs A b x niter k burnin thin seed)).map (List.map fun y => a • y + v) := by
  rw [Walk.run_callArgs_sparse _ rfl, Walk.run_callArgs_sparse _ rfl]
  by_cases hk : 1 ≤ k ∧ k ≤ n
  swap
  · rw [if_neg hk, if_neg hk]; rfl
  rw [if_pos hk, if_pos hk]
  have hs := fun (t : ℕ) s s' (_ : iter (SparseBallWalk.step R E e.r A k.toNat) t (x, e.r.initRng seed e.rd) = .ok s) hh =>
    sparseBall_rel ha h hA hv hE R e.r s s' hh
  have h0 : PRel (fun x j => a * x j + v j) (x, e.r.initRng seed e.rd) (a • x + v, e.r.initRng seed e.rd) := ⟨rfl, rfl⟩
  rcases hg with hg | hv
  · exact runLoop_rel h0 hs (pos := Prod.fst) (pos' := Prod.fst) (fun y => a • y + v) (fun s s' h => h.1) hg
  · exact runLoop_rel_zero h0 hs (pos := Prod.fst) (pos' := Prod.fst) (fun y => a • y + v)
      (by funext j; subst hv; show a * 0 + 0 = (0 : ℝ); ring) (fun s s' h => h.1) niter burnin thin

theorem sparseHitRun_affine {a : ℝ} (ha : 0 < a) (h : Recombined M (fun _ => a) A A') (hA : IndepRows A) {E : Eigen ℝ} (hE : E.SparseLUExact)
    (R ERR : ℝ) (e : Env ℝ) (b b' : Fin m → ℝ) (x : Fin n → ℝ) {niter k burnin thin seed : Int} (hv : TailZero k.toNat v)
    (hg : GoodInts niter burnin thin ∨ v = 0) :
    (Walk.sparseHitRun (a * R) (a * ERR) E).run e (callArgs A' b' (a • x + v) niter k burnin thin seed) =
      ((Walk.sparseHitRun R ERR E).run e (callArgs A b x niter k burnin thin seed)).map (List.map fun y => a • y + v) := by
  rw [Walk.run_callArgs_sparse _ rfl, Walk.run_callArgs_sparse _ rfl]
  by_cases hk : 1 ≤ k ∧ k ≤ n
  swap
  · rw [if_neg hk, if_neg hk]; rfl
  rw [if_pos hk, if_pos hk]
  have hs := fun (t : ℕ) s s' (_ : iter (SparseHitRun.step R ERR e.fuel E e.r A k.toNat) t (x, e.r.initRng seed e.rd) = .ok s) hh =>
    sparseHitRun_rel ha h hA hv hE R ERR e.fuel e.r s s' hh
  have h0 : PRel (fun x j => a * x j + v j) (x, e.r.initRng seed e.rd) (a • x + v, e.r.initRng seed e.rd) := ⟨rfl, rfl⟩
  rcases hg with hg | hv
  · exact runLoop_rel h0 hs (pos := Prod.fst) (pos' := Prod.fst) (fun y => a • y + v) (fun s s' h => h.1) hg
  · exact runLoop_rel_zero h0 hs (pos := Prod.fst) (pos' := Prod.fst) (fun y => a • y + v)
      (by funext j; subst hv; show a * 0 + 0 = (0 : ℝ); ring) (fun s s' h => h.1) niter burnin thin

theorem sparseBarrier_units {cls : SparseBarrierClass ℝ (BState ℝ)} {ERR : ℝ} (hR : 0 < ERR) {E : Eigen ℝ} (hE : E.Exact) {Ok : BState ℝ → Prop}
    {e : Env ℝ} {k : Int} (hc : 1 ≤ k → k ≤ n → UnitsClass cls k.toNat (e.junk n) A A' δ v Ok) (h : Recombined M δ A A') (hA : IndepRows A)
    (hv : TailZero k.toNat v) (hf : ∀ i : Fin n, i.val < n - k.toNat → δ i = 1) (o : BState ℝ) (b b' : Fin m → ℝ)
    {x : Fin n → ℝ} {niter burnin thin seed : Int} (hx : x ∈ TailPos n k.toNat) (hz : AvoidsBoundary cls ERR E o e A x k seed)
    (hg : GoodInts niter burnin thin ∨ v = 0) :
    (Walk.sparseBarrier cls ERR E o).run e (callArgs A' b' (fun j => δ j * x j + v j) niter k burnin thin seed) =
      ((Walk.sparseBarrier cls ERR E o).run e (callArgs A b x niter k burnin thin seed)).map (List.map fun y j => δ j * y j + v j) := by
  rw [Walk.run_callArgs_sparse _ rfl, Walk.run_callArgs_sparse _ rfl]
  by_cases hk : 1 ≤ k ∧ k ≤ n
  swap
  · rw [if_neg hk, if_neg hk]; rfl
  rw [if_pos hk, if_pos hk, Out.map_bind]
  have hc := hc hk.1 hk.2
  have hkk : ((k.toNat : ℕ) : Int) = k := by omega
  show ((cls.setDistTerm o ((n : Int) - m) k).bind fun o =>
      (.ok (fun j => δ j * x j + v j, o, e.r.initRng seed e.rd) : Out ((Fin n → ℝ) × BState ℝ × e.r.G))).bind _ =
    ((cls.setDistTerm o ((n : Int) - m) k).bind fun o => (.ok (x, o, e.r.initRng seed e.rd) : Out ((Fin n → ℝ) × BState ℝ × e.r.G))).bind _
  generalize hd : cls.setDistTerm o ((n : Int) - m) k = od
  cases od with
  | ok o' =>
    have hs := fun (t : ℕ) s s' (ht : iter (SparseBarrier.step cls ERR E e.r (e.junk n) A k.toNat) t (x, o', e.r.initRng seed e.rd) = .ok s) hh =>
      hc.step h hA hv hf (by omega) (by omega) hE.sparseLLTSolve hE.sparseLLTL hE.sparseLU hR e.r s s' hh (hz o' hd t s ht)
    have h0 : SRel k.toNat δ v Ok (x, o', e.r.initRng seed e.rd) (fun j => δ j * x j + v j, o', e.r.initRng seed e.rd) :=
      ⟨hx, hc.start o o' (by rw [hkk]; exact hd), rfl, rfl⟩
    rcases hg with hg | hv
    · exact runLoop_rel h0 hs (pos := Prod.fst) (pos' := Prod.fst) (fun y j => δ j * y j + v j) (fun s s' h => h.2.2.1) hg
    · exact runLoop_rel_zero h0 hs (pos := Prod.fst) (pos' := Prod.fst) (fun y j => δ j * y j + v j)
        (by funext j; subst hv; show δ j * 0 + 0 = (0 : ℝ); ring) (fun s s' h => h.2.2.1) niter burnin thin
  | throws _ => rfl
  | ub _ => rfl
  | timeout => rfl

/-- The sparse barrier walks of the library, user-defined subclasses aside. -/
theorem sparseLibrary_units {cls : SparseBarrierClass ℝ (BState ℝ)} {ERR : ℝ} (hR : 0 < ERR) {E : Eigen ℝ} (hE : E.Exact)
    (hc : IsSparseWeighted E ERR cls ∨ cls = sparseBarrierClass) {e : Env ℝ} {k : Int} (h : Recombined M δ A A') (hA : IndepRows A) (hmn : m < n)
    (hv : TailZero k.toNat v) (hf : ∀ i : Fin n, i.val < n - k.toNat → δ i = 1) (o : BState ℝ) (b b' : Fin m → ℝ)
    {x : Fin n → ℝ} {niter burnin thin seed : Int} (hx : x ∈ TailPos n k.toNat) (hz : AvoidsBoundary cls ERR E o e A x k seed)
    (hg : GoodInts niter burnin thin ∨ v = 0) :
    (Walk.sparseBarrier cls ERR E o).run e (callArgs A' b' (fun j => δ j * x j + v j) niter k burnin thin seed) =
      ((Walk.sparseBarrier cls ERR E o).run e (callArgs A b x niter k burnin thin seed)).map (List.map fun y j => δ j * y j + v j) := by
  rcases hc with hc | rfl
  · cases hc with
    | dikin R => exact sparseBarrier_units hR hE (fun _ _ => unitsClass_dikin R _) h hA hv hf o b b' hx hz hg
    | vaidya R =>
      exact sparseBarrier_units hR hE (fun _ _ => unitsClass_vaidya h hA hv hf (by omega) (by omega) hmn hE.ldlt hR R _) h hA hv hf o b b' hx hz hg
    | john R LIM N =>
      exact sparseBarrier_units hR hE (fun _ _ => unitsClass_john h hA hv hf (by omega) hmn hE.ldlt hR R LIM N _) h hA hv hf o b b' hx hz hg
    | leeSidford R GLIM STEP N =>
      exact sparseBarrier_units hR hE (fun _ _ => unitsClass_ls h hA hv hf (by omega) hmn hE.ldlt hR R GLIM STEP N _) h hA hv hf o b b' hx hz hg
  · exact sparseBarrier_units hR hE (fun _ _ => unitsClass_base _) h hA hv hf o b b' hx hz hg

/-! ### C93 -/

/-- C93 (`SparseBallWalk`, `SparseHitAndRun`): replacing the equations `A x = b` by invertible combinations of them changes no row
that is returned, whatever the right hand side handed over. -/
theorem C93_lines (h : Recombined M (fun _ => 1) A A') (hA : IndepRows A) {E : Eigen ℝ} (hE : E.SparseLUExact) {w : Walk ℝ}
    (hw : (∃ R, w = .sparseBall R E) ∨ ∃ R ERR, w = .sparseHitRun R ERR E) (e : Env ℝ) (b b' : Fin m → ℝ) (x : Fin n → ℝ)
    (niter k burnin thin seed : Int) :
    w.run e (callArgs A' b' x niter k burnin thin seed) = w.run e (callArgs A b x niter k burnin thin seed) := by
  have ha : ∀ y : Fin n → ℝ, (1 : ℝ) • y + 0 = y := fun y => by rw [one_smul, add_zero]
  have hf : (fun y : Fin n → ℝ => (1 : ℝ) • y + 0) = id := funext ha
  rcases hw with ⟨R, rfl⟩ | ⟨R, ERR, rfl⟩
  · have := sparseBall_affine (v := 0) one_pos h hA hE R e b b' x (niter := niter) (k := k) (burnin := burnin) (thin := thin) (seed := seed)
      (fun _ _ => rfl) (.inr rfl)
    rw [ha, one_mul, hf] at this
    exact this.trans (Out.map_listId _)
  · have := sparseHitRun_affine (v := 0) one_pos h hA hE R ERR e b b' x (niter := niter) (k := k) (burnin := burnin) (thin := thin) (seed := seed)
      (fun _ _ => rfl) (.inr rfl)
    rw [ha, one_mul, one_mul, hf] at this
    exact this.trans (Out.map_listId _)

/-- C93 (`SparseBarrierWalk`, `SparseDikinWalk`, `SparseVaidyaWalk`, `SparseJohnWalk`, `SparseDikinLSWalk`): the same, from an interior
point, unless a proposal lands exactly on the boundary. -/
theorem C93_barrier {cls : SparseBarrierClass ℝ (BState ℝ)} {ERR : ℝ} (hR : 0 < ERR) {E : Eigen ℝ} (hE : E.Exact)
    (hc : IsSparseWeighted E ERR cls ∨ cls = sparseBarrierClass) (h : Recombined M (fun _ => 1) A A') (hA : IndepRows A) (hmn : m < n) (o : BState ℝ)
    (e : Env ℝ) (b b' : Fin m → ℝ) {x : Fin n → ℝ} {k seed : Int} (hx : x ∈ TailPos n k.toNat) (hz : AvoidsBoundary cls ERR E o e A x k seed)
    (niter burnin thin : Int) :
    (Walk.sparseBarrier cls ERR E o).run e (callArgs A' b' x niter k burnin thin seed) =
      (Walk.sparseBarrier cls ERR E o).run e (callArgs A b x niter k burnin thin seed) := by
  have ha : ∀ y : Fin n → ℝ, (fun j => (1 : ℝ) * y j + (0 : Fin n → ℝ) j) = y := fun y => funext fun j => by
    show 1 * y j + 0 = y j; ring
  have hf : (fun (y : Fin n → ℝ) j => (1 : ℝ) * y j + (0 : Fin n → ℝ) j) = id := funext ha
  have := sparseLibrary_units (v := 0) hR hE hc h hA hmn (fun _ _ => rfl) (fun _ _ => rfl) o b b' hx hz (niter := niter) (burnin := burnin) (thin := thin)
    (.inr rfl)
  rw [ha, hf] at this
  exact this.trans (Out.map_listId _)

/-! ### C94 -/

/-- C94 (`SparseBallWalk`, `SparseHitAndRun`): measuring every coordinate in units `a` times smaller, and moving the origin of the
coordinates that are not constrained to be nonnegative, does the same to every row, when the radius and the tolerance are in the new units. -/
theorem C94_lines {a : ℝ} (ha : 0 < a) (h : Recombined M (fun _ => a) A A') (hA : IndepRows A) {E : Eigen ℝ} (hE : E.SparseLUExact)
    (R ERR : ℝ) (e : Env ℝ) (b b' : Fin m → ℝ) (x : Fin n → ℝ) {niter k burnin thin seed : Int} (hv : TailZero k.toNat v)
    (hg : GoodInts niter burnin thin) :
    (Walk.sparseBall (a * R) E).run e (callArgs A' b' (a • x + v) niter k burnin thin seed) =
      ((Walk.sparseBall R E).run e (callArgs A b x niter k burnin thin seed)).map (List.map fun y => a • y + v) ∧
    (Walk.sparseHitRun (a * R) (a * ERR) E).run e (callArgs A' b' (a • x + v) niter k burnin thin seed) =
      ((Walk.sparseHitRun R ERR E).run e (callArgs A b x niter k burnin thin seed)).map (List.map fun y => a • y + v) :=
  ⟨sparseBall_affine ha h hA hE R e b b' x hv (.inl hg), sparseHitRun_affine ha h hA hE R ERR e b b' x hv (.inl hg)⟩

/-- C94 (the sparse barrier walks): each nonnegative coordinate can be measured in a unit of its own, with the radius and the
tolerance unchanged. -/
theorem C94_barrier {cls : SparseBarrierClass ℝ (BState ℝ)} {ERR : ℝ} (hR : 0 < ERR) {E : Eigen ℝ} (hE : E.Exact)
    (hc : IsSparseWeighted E ERR cls ∨ cls = sparseBarrierClass) (h : Recombined M δ A A') (hA : IndepRows A) (hmn : m < n) {k : Int}
    (hv : TailZero k.toNat v) (hf : ∀ i : Fin n, i.val < n - k.toNat → δ i = 1) (o : BState ℝ) (e : Env ℝ) (b b' : Fin m → ℝ) {x : Fin n → ℝ}
    {niter burnin thin seed : Int} (hx : x ∈ TailPos n k.toNat) (hz : AvoidsBoundary cls ERR E o e A x k seed) (hg : GoodInts niter burnin thin) :
    (Walk.sparseBarrier cls ERR E o).run e (callArgs A' b' (fun j => δ j * x j + v j) niter k burnin thin seed) =
      ((Walk.sparseBarrier cls ERR E o).run e (callArgs A b x niter k burnin thin seed)).map (List.map fun y j => δ j * y j + v j) :=
  sparseLibrary_units hR hE hc h hA hmn hv hf o b b' hx hz (.inl hg)

/-! ### Proposals on the boundary have probability zero -/

section
variable {d : ℕ}

theorem avoids_of_follows (cls : SparseBarrierClass ℝ (BState ℝ)) (ERR : ℝ) (E : Eigen ℝ) (hE : E.Exact)
    (hA : IndepRows A) {k : Int} (hk : 1 ≤ k ∧ k ≤ n) {D : ℝ} {x₀ : Fin n → ℝ}
    {B : Matrix (Fin n) (Fin d) ℝ} {Gf : (Fin n → ℝ) → Fin n → ℝ} (hGpos : ∀ x ∈ TailPos n k.toNat, ∀ i, 0 < Gf x i) {c : ℝ}
    (h : MHData (stdNormal n) (TailNonneg n k.toNat) (relInterior A k.toNat x₀) volume (chart x₀ B) (sparseProp A D Gf) (sparseAccept A D Gf)
      (sparseCoordProp A D Gf x₀ B) (sparseCoordDens A D Gf x₀ B c))
    (o o' : BState ℝ) (ho : cls.setDistTerm o ((n : Int) - m) k = .ok o') (hD : cls.distTerm o' = D)
    (e : Env ℝ) [MeasurableSpace e.r.G] (μ : Measure e.r.G) (hs : IdealSource e.r μ)
    (hG : ∀ x ∈ TailPos n k.toNat, generateG cls ERR (e.junk n) o' x A k.toNat = .ok (Gf x, o')) {x : Fin n → ℝ}
    (hx : x ∈ relInterior A k.toNat x₀) (seed : Int) :
    ∀ᵐ g ∂μ, AvoidsBoundary cls ERR E o (e.withGen g) A x k seed := by
  subst hD
  have hall := ae_all_iff.2 fun t => h.good hs t x hx
  filter_upwards [hall] with g hg
  intro o1 ho1 t s ht z og hz
  cases ho.symm.trans ho1
  have hit : ∀ t, iter (SparseBarrier.step cls ERR E e.r (e.junk n) A k.toNat) t (x, o', g) =
      .ok (((fun p : (Fin n → ℝ) × e.r.G => mhNext e.r n (TailNonneg n k.toNat) (sparseProp A (cls.distTerm o') Gf) (sparseAccept A (cls.distTerm o') Gf) p.1 p.2)^[t] (x, g)).1, o',
        ((fun p : (Fin n → ℝ) × e.r.G => mhNext e.r n (TailNonneg n k.toNat) (sparseProp A (cls.distTerm o') Gf) (sparseAccept A (cls.distTerm o') Gf) p.1 p.2)^[t] (x, g)).2) := by
    intro t
    induction t with
    | zero => rfl
    | succ t ih =>
      obtain ⟨h1, h2⟩ := hg t _ rfl
      rw [iter_fst, ih, Out.ok_bind, sparseBarrier_step_next cls ERR E hE.sparseLLTSolve hE.sparseLLTL hE.sparseLU e.r (e.junk n) A hA k.toNat (by omega)
        (by omega) o' x₀ Gf hGpos hG _ h1 _ h2, Function.iterate_succ_apply']
  have ht' : iter (SparseBarrier.step cls ERR E e.r (e.junk n) A k.toNat) t (x, o', g) = .ok s := by
    refine Eq.trans ?_ ht
    have := congrArg (fun s => iter s t (x, o', g)) (withGen_sparseBarrierStep cls ERR E e g (e.junk n) A k.toNat)
    refine this.symm.trans ?_
    have hi : (e.withGen g).r.initRng seed (e.withGen g).rd = g := withGen_init ..
    rw [hi]
    rfl
  obtain ⟨h1, h2⟩ := hg t _ rfl
  have hs' := Out.ok.inj ((hit t).symm.trans ht')
  generalize (fun p : (Fin n → ℝ) × e.r.G => mhNext e.r n (TailNonneg n k.toNat) (sparseProp A (cls.distTerm o') Gf)
    (sparseAccept A (cls.distTerm o') Gf) p.1 p.2)^[t] (x, g) = p at h1 h2 hs'
  obtain ⟨y, g'⟩ := p
  subst hs'
  unfold SparseBarrier.generateSample at hz
  rw [if_neg (by omega)] at hz
  have hg1 : generateG cls ERR ((e.withGen g).junk n) o' y A k.toNat = .ok (Gf y, o') := hG _ h1.1
  simp only at hz
  rw [hg1, Out.ok_bind] at hz
  have hzz : SparseBarrier.proposal E (cls.distTerm o') (Gf y) A y (e.r.gaussian n g').1 = z :=
    (congrArg (fun q => SparseBarrier.proposal E (cls.distTerm o') (Gf y) A y (Prod.fst q)) (withGen_gaussian e g g' n)).symm.trans
      (congrArg Prod.fst (Out.ok.inj hz))
  rw [← hzz]
  rw [sparse_proposal_real hE.sparseLLTSolve hA (hGpos _ h1.1)]
  exact h2.imp_left fun h => h.1

variable (E : Eigen ℝ) (hE : E.Exact) (ERR : ℝ) (hR : 0 < ERR) (R : ℝ) (hr : R ≠ 0) (hA : IndepRows A)
  (hmn : m < n) (k : Int) (hk : 1 ≤ k ∧ k ≤ n) (b : Fin m → ℝ) (hb : ∃ M, ∀ y ∈ PolyEq A b k.toNat, ∀ i, |y i| ≤ M)
  (B : Matrix (Fin n) (Fin d) ℝ) (hB : IsKernelBasis A B) (x : Fin n → ℝ) (hxA : A *ᵥ x = b) (hx : x ∈ TailPos n k.toNat)
include hE hR hr hA hmn hk hb hB hxA hx

theorem dikin_avoids (o : BState ℝ) (e : Env ℝ) [MeasurableSpace e.r.G] (μ : Measure e.r.G) (hs : IdealSource e.r μ) (seed : Int) :
    ∀ᵐ g ∂μ, AvoidsBoundary (sparseDikinClass R) ERR E o (e.withGen g) A x k seed := by
  subst hxA
  have hD : 0 < R * R / (Scalar.ofInt ((n : Int) - m) : ℝ) := by
    rw [rsc_ofInt]
    have h1 : (m : ℝ) < n := by exact_mod_cast hmn
    push_cast
    exact div_pos (mul_self_pos.2 hr) (by linarith)
  have hpos : ∀ x ∈ TailPos n k.toNat, ∀ i, 0 < dikinG ERR 0 k.toNat x i := fun x hx i => dikinG_pos hR 0 hx i
  obtain ⟨c, hc⟩ := sparse_mhData hA hD hx hB hb (measurable_dikinG ERR 0 k.toNat) hpos
  exact avoids_of_follows (sparseDikinClass R) ERR E hE hA hk hpos hc o _ rfl rfl e μ hs
    (fun x _ => by rw [dikinG_junk ERR 0 (e.junk n)]; exact generateG_dikin R ERR (e.junk n) _ x A k.toNat) ⟨hx, rfl⟩ seed

theorem vaidya_avoids (hov : k * ((n : Int) - m) ≤ 2 ^ 31 - 1) (o : BState ℝ) (e : Env ℝ) [MeasurableSpace e.r.G] (μ : Measure e.r.G)
    (hs : IdealSource e.r μ) (seed : Int) :
    ∀ᵐ g ∂μ, AvoidsBoundary (sparseVaidyaClass E ERR R) ERR E o (e.withGen g) A x k seed := by
  subst hxA
  have hpos' : 0 < k * ((n : Int) - m) := mul_pos (by omega) (by omega)
  have hD : 0 < R * R / Scalar.sqrt (Scalar.ofInt (k * ((n : Int) - m)) : ℝ) := by
    rw [rsc_ofInt, rsc_sqrt]
    have h1 : (0 : ℝ) < ((k * ((n : Int) - m) : Int) : ℝ) := by exact_mod_cast hpos'
    exact div_pos (mul_self_pos.2 hr) (Real.sqrt_pos.2 h1)
  have hpos : ∀ x ∈ TailPos n k.toNat, ∀ i, 0 < vaidyaG A ERR 0 k.toNat x i := fun x hx i => vaidyaG_pos hA hmn hR 0 (by omega) hx i
  obtain ⟨c, hc⟩ := sparse_mhData hA hD hx hB hb (measurable_vaidyaG A ERR 0 k.toNat) hpos
  refine avoids_of_follows (sparseVaidyaClass E ERR R) ERR E hE hA hk hpos hc o
    { o with dist := R * R / Scalar.sqrt (Scalar.ofInt (k * ((n : Int) - m)) : ℝ) } ?_ rfl e μ hs
    (fun x hx => by
      rw [vaidyaG_junk A ERR 0 (e.junk n)]
      exact generateG_vaidya hE.ldlt R hR (e.junk n) _ hA (by omega) (by omega) hx) ⟨hx, rfl⟩ seed
  show (toInt (k * ((n : Int) - m))).bind _ = _
  have : toInt (k * ((n : Int) - m)) = .ok (k * ((n : Int) - m)) := by
    unfold toInt
    rw [if_pos (by unfold IsInt intMin intMax; constructor <;> omega)]
  rw [this, Out.ok_bind]

/-- C93, C94 (`SparseDikinWalk`, `SparseVaidyaWalk`), with an ideal generator: almost surely the call on the other description returns
the same rows, in the other units. -/
theorem C94_almost_surely (hov : k * ((n : Int) - m) ≤ 2 ^ 31 - 1) {cls : SparseBarrierClass ℝ (BState ℝ)}
    (hc : cls = sparseDikinClass R ∨ cls = sparseVaidyaClass E ERR R) (h : Recombined M δ A A') (hv : TailZero k.toNat v)
    (hf : ∀ i : Fin n, i.val < n - k.toNat → δ i = 1) (o : BState ℝ) (e : Env ℝ) [MeasurableSpace e.r.G] (μ : Measure e.r.G) (hs : IdealSource e.r μ)
    (b' : Fin m → ℝ) {niter burnin thin : Int} (seed : Int) (hg : GoodInts niter burnin thin ∨ v = 0) :
    ∀ᵐ g ∂μ, (Walk.sparseBarrier cls ERR E o).run (e.withGen g) (callArgs A' b' (fun j => δ j * x j + v j) niter k burnin thin seed) =
      ((Walk.sparseBarrier cls ERR E o).run (e.withGen g) (callArgs A b x niter k burnin thin seed)).map (List.map fun y j => δ j * y j + v j) := by
  have hz : ∀ᵐ g ∂μ, AvoidsBoundary cls ERR E o (e.withGen g) A x k seed := by
    rcases hc with rfl | rfl
    · exact dikin_avoids E hE ERR hR R hr hA hmn k hk b hb B hB x hxA hx o e μ hs seed
    · exact vaidya_avoids E hE ERR hR R hr hA hmn k hk b hb B hB x hxA hx hov o e μ hs seed
  have hc' : IsSparseWeighted E ERR cls ∨ cls = sparseBarrierClass := by
    rcases hc with rfl | rfl
    · exact .inl (.dikin R)
    · exact .inl (.vaidya R)
  filter_upwards [hz] with g hzg
  exact sparseLibrary_units hR hE hc' h hA hmn hv hf o b b' hx hzg hg

end

/-! ### The hypotheses are met -/

theorem twoRows_indep : IndepRows (fun i => ![![1, 1, 1], ![1, -1, 0]] i : Matrix (Fin 2) (Fin 3) ℝ) := by
  intro y hy
  have h0 := congrFun hy (0 : Fin 3)
  have h2 := congrFun hy (2 : Fin 3)
  simp [Matrix.vecMul, dotProduct, Fin.sum_univ_two] at h0 h2
  funext i
  fin_cases i
  · exact h2
  · show y 1 = 0
    linarith

theorem twoRows_recombined : Recombined (m := 2) (n := 3) (fun i => ![![1, 1], ![2, 1]] i) (fun _ => 1)
    (fun i => ![![1, 1, 1], ![1, -1, 0]] i) (fun i => ![![2, 0, 1], ![3, 1, 2]] i) := by
  refine ⟨?_, fun _ => one_pos, ?_⟩
  · refine (Matrix.det_fin_two _).trans_ne ?_
    show (1 : ℝ) * 1 - 1 * 2 ≠ 0
    norm_num
  · intro i j
    rw [Fin.sum_univ_two]
    fin_cases i <;> fin_cases j <;> norm_num

/-- C93, the equations `x₁ + x₂ + x₃ = 1, x₁ = x₂` and their combinations `2x₁ + x₃ = 1, 3x₁ + x₂ + 2x₃ = 2`. -/
example (e : Env ℝ) (R ERR : ℝ) (x : Fin 3 → ℝ) :
    (Walk.sparseHitRun R ERR exactEigen).run e (callArgs (m := 2) (fun i => ![![2, 0, 1], ![3, 1, 2]] i) ![1, 2] x 10 3 0 1 (-1)) =
      (Walk.sparseHitRun R ERR exactEigen).run e (callArgs (m := 2) (fun i => ![![1, 1, 1], ![1, -1, 0]] i) ![1, 0] x 10 3 0 1 (-1)) :=
  C93_lines twoRows_recombined twoRows_indep exactEigen_exact.sparseLU (.inr ⟨R, ERR, rfl⟩) e _ _ x _ _ _ _ _

/-- The simplex in other units: `y₁ + y₂ / 2 + y₃ / 5 = 1`. -/
theorem simplex_units : Recombined (1 : Matrix (Fin 1) (Fin 1) ℝ) ![1, 2, 5] ones3 (fun _ => ![1, 1 / 2, 1 / 5]) := by
  refine ⟨by rw [Matrix.det_one]; norm_num, fun j => by fin_cases j <;> norm_num, fun i j => ?_⟩
  rw [Fin.sum_univ_one, Subsingleton.elim i 0]
  fin_cases j <;> simp [ones3]

/-- C94, almost surely, on the simplex. -/
theorem simplex_units_as (cls : SparseBarrierClass ℝ (BState ℝ)) (hc : cls = sparseDikinClass (1 / 2) ∨ cls = sparseVaidyaClass exactEigen 1 (1 / 2)) :
    ∀ᵐ g ∂streamLaw, (Walk.sparseBarrier cls 1 exactEigen (BState.fresh 0)).run (streamEnv.withGen g)
        (callArgs (m := 1) (fun _ => ![1, 1 / 2, 1 / 5]) (fun _ => 1) (fun j => ![1, 2, 5] j * (1 / 3) + (0 : Fin 3 → ℝ) j) 100 3 10 2 7) =
      ((Walk.sparseBarrier cls 1 exactEigen (BState.fresh 0)).run (streamEnv.withGen g)
        (callArgs ones3 (fun _ => 1) (fun _ => 1 / 3) 100 3 10 2 7)).map (List.map fun y j => ![1, 2, 5] j * y j + (0 : Fin 3 → ℝ) j) :=
  C94_almost_surely exactEigen exactEigen_exact 1 one_pos (1 / 2) (by norm_num) ones3_indep (by decide) 3 ⟨by decide, by decide⟩
    (fun _ => 1) simplex_bdd simplexBasis ones3_kernel (fun _ => 1 / 3) simplex_start (by intro i _; show (0 : ℝ) < 1 / 3; norm_num) (by decide) hc
    simplex_units (fun _ _ => rfl) (fun i hi => absurd hi (by show ¬ i.val < 3 - (3 : Int).toNat; simp)) (BState.fresh 0) streamEnv streamLaw
    streamRng_ideal (fun _ => 1) 7 (.inr rfl)

/-- C93, C94: a run that no proposal takes to the boundary. -/
theorem exists_avoids : ∃ g, AvoidsBoundary (sparseDikinClass (1 / 2)) 1 exactEigen (BState.fresh 0) (streamEnv.withGen g) ones3 (fun _ => 1 / 3) 3 7 := by
  have h := dikin_avoids exactEigen exactEigen_exact 1 one_pos (1 / 2) (by norm_num) ones3_indep (by decide) 3 ⟨by decide, by decide⟩
    (fun _ => 1) simplex_bdd simplexBasis ones3_kernel (fun _ => 1 / 3) simplex_start (by intro i _; show (0 : ℝ) < 1 / 3; norm_num)
    (BState.fresh 0) streamEnv streamLaw streamRng_ideal 7
  have : IsProbabilityMeasure streamLaw := streamRng_ideal.prob
  have hne : (ae streamLaw).NeBot := inferInstance
  exact @Filter.Eventually.exists _ _ _ hne h

/-- C93, the equation `x₁ + x₂ + x₃ = 1` multiplied by `-2`; C94, in other units. -/
example : ∃ g, (Walk.sparseBarrier (sparseDikinClass (1 / 2)) 1 exactEigen (BState.fresh 0)).run (streamEnv.withGen g)
        (callArgs (m := 1) (fun _ _ => -2) (fun _ => -2) (fun _ : Fin 3 => 1 / 3) 100 3 10 2 7) =
      (Walk.sparseBarrier (sparseDikinClass (1 / 2)) 1 exactEigen (BState.fresh 0)).run (streamEnv.withGen g)
        (callArgs ones3 (fun _ => 1) (fun _ => 1 / 3) 100 3 10 2 7) ∧
    (Walk.sparseBarrier (sparseDikinClass (1 / 2)) 1 exactEigen (BState.fresh 0)).run (streamEnv.withGen g)
        (callArgs (m := 1) (fun _ => ![1, 1 / 2, 1 / 5]) (fun _ => 1) (fun j => ![1, 2, 5] j * (1 / 3) + (0 : Fin 3 → ℝ) j) 100 3 10 2 7) =
      ((Walk.sparseBarrier (sparseDikinClass (1 / 2)) 1 exactEigen (BState.fresh 0)).run (streamEnv.withGen g)
        (callArgs ones3 (fun _ => 1) (fun _ => 1 / 3) 100 3 10 2 7)).map (List.map fun y j => ![1, 2, 5] j * y j + (0 : Fin 3 → ℝ) j) := by
  obtain ⟨g, hg⟩ := exists_avoids
  have hx : (fun _ => 1 / 3 : Fin 3 → ℝ) ∈ TailPos 3 (3 : Int).toNat := by intro i _; show (0 : ℝ) < 1 / 3; norm_num
  refine ⟨g, C93_barrier (M := fun _ _ => -2) one_pos exactEigen_exact (.inl (.dikin _)) ⟨?_, fun _ => one_pos, ?_⟩ ones3_indep (by decide) _ _ _ _ hx hg _ _ _,
    C94_barrier one_pos exactEigen_exact (.inl (.dikin _)) simplex_units ones3_indep (by decide) (fun _ _ => rfl)
      (fun i hi => absurd hi (by show ¬ i.val < 3 - (3 : Int).toNat; simp)) _ _ _ _ hx hg (by constructor <;> norm_num [intMax])⟩
  · refine (Matrix.det_fin_one _).trans_ne ?_
    show (-2 : ℝ) ≠ 0
    norm_num
  · intro i j
    rw [Fin.sum_univ_one]
    show (-2 : ℝ) * 1 = -2 * 1
    rfl

/-- C94, the simplex magnified three times, for the ball walk. -/
example (e : Env ℝ) (R : ℝ) :
    (Walk.sparseBall (3 * R) exactEigen).run e (callArgs ones3 (fun _ => 3) ((3 : ℝ) • (fun _ => 1 / 3) + 0) 100 3 10 2 7) =
      ((Walk.sparseBall R exactEigen).run e (callArgs ones3 (fun _ => 1) (fun _ => 1 / 3) 100 3 10 2 7)).map (List.map fun y => (3 : ℝ) • y + 0) := by
  refine (C94_lines (M := fun _ _ => 3) three_pos ⟨?_, fun _ => three_pos, ?_⟩ ones3_indep exactEigen_exact.sparseLU R 1 e _ _ _ (fun _ _ => rfl)
    (by constructor <;> norm_num [intMax])).1
  · refine (Matrix.det_fin_one _).trans_ne ?_
    show (3 : ℝ) ≠ 0
    norm_num
  · intro i j
    rw [Fin.sum_univ_one]
    show (1 : ℝ) * 3 = 3 * 1
    norm_num

end PW

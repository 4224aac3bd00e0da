import Verif.Props.SparsePolytope

/-!
# C19, C20, C24, C33: properties that hold in any arithmetic
-/

set_option linter.unusedSimpArgs false

namespace PW
open Matrix
section
variable {F : Type} [Scalar F] {m n : ℕ}

/-! ## C19 -/

/-- Uninitialised memory does not influence the metric. -/
theorem C19_metric (ERR : F) (junk junk' x w : Fin n → F) (k : ℕ) :
    metricG ERR junk x w k = metricG ERR junk' x w k := by
  funext i
  unfold metricG generateSlackInverse
  by_cases h : isTail k i = true <;> simp [h]

/-- Nor the leverage scores. -/
theorem C19_leverage (E : Eigen F) (junk junk' : Fin n → F) (A : Matrix (Fin m) (Fin n) F)
    (W : Fin n → Option F) (x : Fin n → F) (ERR : F) (k : ℕ) :
    leverageScore E junk A W x ERR k = leverageScore E junk' A W x ERR k := by
  have : levGSqrt junk W x ERR k = levGSqrt junk' W x ERR k := by
    funext i
    unfold levGSqrt
    by_cases h : isTail k i = true <;> simp [h]
  unfold leverageScore
  rw [this]

/-- A sparse barrier class whose weights do not depend on uninitialised memory. -/
def SparseBarrierClass.JunkFree {σ : Type} (cls : SparseBarrierClass F σ) : Prop :=
  ∀ {m n : ℕ} (junk junk' : Fin n → F) (o : σ) (x : Fin n → F) (A : Matrix (Fin m) (Fin n) F) (k : ℕ),
    cls.generateWeight junk o x A k = cls.generateWeight junk' o x A k

/-- **C19** (weights): the library's classes compute their weights from initialised memory only. -/
theorem C19_weights_dikin (R : F) : (sparseDikinClass R).JunkFree := fun _ _ _ _ _ _ => rfl
theorem C19_weights_base : (sparseBarrierClass (F := F)).JunkFree := fun _ _ _ _ _ _ => rfl
theorem C19_weights_vaidya (E : Eigen F) (ERR R : F) : (sparseVaidyaClass E ERR R).JunkFree := by
  intro m n junk junk' o x A k
  simp only [sparseVaidyaClass, sparseVaidyaWeight, C19_leverage E junk junk']
theorem C19_weights_john (E : Eigen F) (ERR R LIM : F) (M : Int) :
    (sparseJohnClass E ERR R LIM M).JunkFree := by
  intro m n junk junk' o x A k
  have : sparseJohnNext E ERR junk x A k = sparseJohnNext E ERR junk' x A k := by
    funext w; simp only [sparseJohnNext, C19_leverage E junk junk']
  simp only [sparseJohnClass, sparseJohnWeightConv, this]
theorem C19_weights_ls (E : Eigen F) (ERR R GLIM STEP : F) (M : Int) :
    (sparseDikinLSClass E ERR R GLIM STEP M).JunkFree := by
  intro m n junk junk' o x A k
  have : sparseLSGrad E ERR junk x A k = sparseLSGrad E ERR junk' x A k := by
    funext w; simp only [sparseLSGrad, C19_leverage E junk junk']
  simp only [sparseDikinLSClass, sparseLSWeightConv, this]

/-- Metric of a junk-free class. -/
theorem C19_generateG {σ : Type} {cls : SparseBarrierClass F σ} (hc : cls.JunkFree) (ERR : F)
    (junk junk' : Fin n → F) (o : σ) (x : Fin n → F) (A : Matrix (Fin m) (Fin n) F) (k : ℕ) :
    generateG cls ERR junk o x A k = generateG cls ERR junk' o x A k := by
  unfold generateG
  rw [hc junk junk']
  simp only [C19_metric ERR junk junk']

/-- **C19** (proposals). -/
theorem C19_proposal {σ : Type} {cls : SparseBarrierClass F σ} (hc : cls.JunkFree) (ERR : F) (E : Eigen F)
    (r : Rng F) (junk junk' : Fin n → F) (A : Matrix (Fin m) (Fin n) F) (k : ℕ) (x : Fin n → F) (o : σ)
    (g : r.G) : SparseBarrier.generateSample cls ERR E r junk A k x o g =
      SparseBarrier.generateSample cls ERR E r junk' A k x o g := by
  unfold SparseBarrier.generateSample
  rw [C19_generateG hc ERR junk junk']

/-- **C19** (densities). -/
theorem C19_density {σ : Type} {cls : SparseBarrierClass F σ} (hc : cls.JunkFree) (ERR : F) (E : Eigen F)
    (junk junk' : Fin n → F) (A : Matrix (Fin m) (Fin n) F) (k : ℕ) (o : σ) (x z : Fin n → F) :
    SparseBarrier.generateProposalDensity cls ERR E junk A k o x z =
      SparseBarrier.generateProposalDensity cls ERR E junk' A k o x z := by
  unfold SparseBarrier.generateProposalDensity
  rw [C19_generateG hc ERR junk junk']

/-- **C19** (one step; the uninitialised memory may hold something else in every call). -/
theorem C19_step {σ : Type} {cls : SparseBarrierClass F σ} (hc : cls.JunkFree) (ERR : F) (E : Eigen F)
    (r : Rng F) (junk junk' : Fin n → F) (A : Matrix (Fin m) (Fin n) F) (k : ℕ) :
    SparseBarrier.step cls ERR E r junk A k = SparseBarrier.step cls ERR E r junk' A k := by
  funext s
  unfold SparseBarrier.step
  simp only [C19_proposal hc ERR E r junk junk', C19_density hc ERR E junk junk']

/-- **C19** (whole walks): the samples of every library walk are the same whatever the uninitialised memory
holds. -/
theorem C19_walks (w : Walk F) (hw : w.Library) (e : Env F) (junk' : (n : ℕ) → Fin n → F) (a : Args F) :
    w.run { e with junk := junk' } a = w.run e a := by
  cases hw with
  | sparseBarrier ERR E o =>
    simp only [Walk.run, SparseBarrier.generateCompleteWalk,
      C19_step C19_weights_base ERR E e.r (junk' _) (e.junk _)]
  | sparseDikin R ERR E o =>
    simp only [Walk.run, SparseBarrier.generateCompleteWalk,
      C19_step (C19_weights_dikin R) ERR E e.r (junk' _) (e.junk _)]
  | sparseVaidya R ERR E o =>
    simp only [Walk.run, SparseBarrier.generateCompleteWalk,
      C19_step (C19_weights_vaidya E ERR R) ERR E e.r (junk' _) (e.junk _)]
  | sparseJohn R ERR LIM M E o =>
    simp only [Walk.run, SparseBarrier.generateCompleteWalk,
      C19_step (C19_weights_john E ERR R LIM M) ERR E e.r (junk' _) (e.junk _)]
  | sparseDikinLS R ERR GLIM STEP M E o =>
    simp only [Walk.run, SparseBarrier.generateCompleteWalk,
      C19_step (C19_weights_ls E ERR R GLIM STEP M) ERR E e.r (junk' _) (e.junk _)]
  | _ => rfl

/-- A class that does read the uninitialised memory (so the property is not automatic). -/
example : ¬ (SparseBarrierClass.JunkFree (F := ℝ) (σ := Unit)
    ⟨fun o _ _ => .ok o, fun _ => 1, fun {_ n} junk o _ _ _ => .ok (⟨n, junk⟩, o)⟩) := by
  intro h
  have := h (m := 0) (n := 1) (fun _ => 0) (fun _ => 1) () (fun _ => 0) (fun _ _ => 0) 0
  simp at this
  exact absurd (congrFun this 0) (by norm_num)

/-! ## C20 -/

/-- **C20.** `DikinWalk::generateWeight` is the all-ones vector, one entry per constraint. -/
theorem C20_weights (R : F) (o : BState F) (x : Fin n → F) (A : Matrix (Fin m) (Fin n) F) (b : Fin m → F) :
    (dikinClass R).generateWeight o x A b = .ok (⟨m, fun _ => 1⟩, o) := rfl

/-- **C20** (sparse): one entry per coordinate. -/
theorem C20_weights_sparse (R : F) (junk : Fin n → F) (o : BState F) (x : Fin n → F)
    (A : Matrix (Fin m) (Fin n) F) (k : ℕ) :
    (sparseDikinClass R).generateWeight junk o x A k = .ok (⟨n, fun _ => 1⟩, o) := rfl

/-! ## C24 -/

/-- A converged John loop started again at its result stops at once. -/
theorem johnLoop_stable {next : (Fin m → F) → Fin m → F} {diff : (Fin m → F) → (Fin m → F) → Fin m → F}
    {LIM : F} {k : ℕ} {w nw w' : Fin m → F} (h : johnLoop next diff LIM k w nw = .ok (w', true)) (v) :
    1 ≤ k ∧ johnLoop next diff LIM k v w' = .ok (w', true) := by
  have conv : ∃ c, maxCoeff (diff (next w') w') = .ok c ∧ Scalar.lt c LIM = true := by
    induction k generalizing w nw with
    | zero => simp [johnLoop] at h
    | succ k ih =>
      rw [johnLoop] at h
      obtain ⟨c, hc, h⟩ := Out.bind_eq_ok.1 h
      by_cases hl : Scalar.lt c LIM = true
      · rw [if_pos hl] at h
        cases h
        exact ⟨c, hc, hl⟩
      · rw [if_neg hl] at h
        exact ih h
  cases k with
  | zero => simp [johnLoop] at h
  | succ k =>
    obtain ⟨c, hc, hl⟩ := conv
    refine ⟨by omega, ?_⟩
    rw [johnLoop]
    simp only [hc, Out.ok_bind, hl, if_true]

theorem lsLoop_stable {grad : (Fin m → F) → Fin m → F} {upd : (Fin m → F) → (Fin m → F) → Fin m → F}
    {GLIM : F} {k : ℕ} {w w' : Fin m → F} (h : lsLoop grad upd GLIM k w = (w', true)) :
    lsLoop grad upd GLIM k w' = (w', true) := by
  have conv : Scalar.lt (norm2 (grad w')) GLIM = true ∧ 1 ≤ k := by
    induction k generalizing w with
    | zero => simp [lsLoop] at h
    | succ k ih =>
      rw [lsLoop] at h
      by_cases hl : Scalar.lt (norm2 (grad w)) GLIM = true
      · rw [if_pos hl] at h
        cases h
        exact ⟨hl, by omega⟩
      · rw [if_neg hl] at h
        exact ⟨(ih h).1, by omega⟩
  obtain ⟨k, rfl⟩ : ∃ k', k = k' + 1 := ⟨k - 1, by omega⟩
  rw [lsLoop]
  simp only [conv.1, if_true]

/-- The warm start returns the stored weights unless their first entry equals the marker `-1`. -/
theorem warmStart_stored {w : Fin m → F} (hm : 0 < m)
    (h0 : Scalar.eq (w ⟨0, hm⟩) (Scalar.ofInt (-1)) = false) : warmStart ⟨m, w⟩ m = .ok w := by
  unfold warmStart
  rw [dif_pos hm, dif_pos rfl]
  simp only [h0]
  rfl

/-- **C24** for `JohnWalk`: if the iteration stopped by its criterion, calling `generateWeight` again at the
same point, on the object as the first call left it, returns the same vector and leaves the object as it is.
(`-1` as first entry is the code's "no weights yet" marker.) -/
theorem C24_john (E : Eigen F) (R LIM : F) (M : Int) (o : BState F) (x : Fin n → F)
    (A : Matrix (Fin m) (Fin n) F) (b w' : Fin m → F) (hm : 0 < m)
    (hconv : johnWeightConv E LIM M o.w x A b = .ok (w', true))
    (hmark : Scalar.eq (w' ⟨0, hm⟩) (Scalar.ofInt (-1)) = false) :
    (johnClass E R LIM M).generateWeight o x A b = .ok (⟨m, w'⟩, { o with w := ⟨m, w'⟩ }) ∧
    (johnClass E R LIM M).generateWeight { o with w := ⟨m, w'⟩ } x A b =
      .ok (⟨m, w'⟩, { o with w := ⟨m, w'⟩ }) := by
  constructor
  · simp only [johnClass, hconv, Out.map_ok]
  · have h2 := hconv
    unfold johnWeightConv at h2 
    obtain ⟨al, ha, h2⟩ := Out.bind_eq_ok.1 h2
    obtain ⟨w0, hw0, h2⟩ := Out.bind_eq_ok.1 h2
    simp only [johnClass, johnWeightConv, ha, Out.ok_bind, warmStart_stored hm hmark,
      (johnLoop_stable h2 w').2, Out.map_ok]

/-- **C24** for `DikinLSWalk`. -/
theorem C24_ls (E : Eigen F) (R GLIM STEP : F) (M : Int) (o : BState F) (x : Fin n → F)
    (A : Matrix (Fin m) (Fin n) F) (b w' : Fin m → F) (hm : 0 < m)
    (hconv : lsWeightConv E GLIM STEP M o.w x A b = .ok (w', true))
    (hmark : Scalar.eq (w' ⟨0, hm⟩) (Scalar.ofInt (-1)) = false) :
    (dikinLSClass E R GLIM STEP M).generateWeight o x A b = .ok (⟨m, w'⟩, { o with w := ⟨m, w'⟩ }) ∧
    (dikinLSClass E R GLIM STEP M).generateWeight { o with w := ⟨m, w'⟩ } x A b =
      .ok (⟨m, w'⟩, { o with w := ⟨m, w'⟩ }) := by
  constructor
  · simp only [dikinLSClass, hconv, Out.map_ok]
  · have h2 := hconv
    unfold lsWeightConv at h2
    obtain ⟨w0, hw0, h2⟩ := Out.bind_eq_ok.1 h2
    simp only [Out.ok.injEq] at h2
    simp only [dikinLSClass, lsWeightConv, warmStart_stored hm hmark, Out.ok_bind, lsLoop_stable h2,
      Out.map_ok]

/-- The few facts about `0` that the sparse weight loops rely on to keep the free coordinates at 0. True in
`ℝ` and for IEEE doubles with a finite step size. -/
structure ZeroArith (F : Type) [Scalar F] (STEP : F) : Prop where
  add : (0 + 0 : F) = 0
  sub : (0 - 0 : F) = 0
  mul : (0 * 0 : F) = 0
  half_mul : (half * 0 : F) = 0
  step_mul : STEP * 0 = 0
  lt : Scalar.lt (0 : F) 0 = false

/-- It holds in `ℝ`. -/
theorem ZeroArith.real (STEP : ℝ) : ZeroArith ℝ STEP :=
  ⟨by simp, by simp, by simp, by simp, by simp, by simp⟩

theorem zeroHead_idem {w : Fin n → F} {k : ℕ} (h : ∀ i, isTail k i = false → w i = 0) :
    zeroHead w k = w := by
  funext i
  unfold zeroHead
  by_cases hi : isTail k i = true
  · simp [hi]
  · simp only [hi]; rw [h i (by simpa using hi)]; rfl

theorem zeroHead_head {w : Fin n → F} {k : ℕ} (i : Fin n) (h : isTail k i = false) :
    zeroHead w k i = 0 := by simp [zeroHead, h]

theorem leverageScore_head (E : Eigen F) (junk : Fin n → F) (A : Matrix (Fin m) (Fin n) F)
    (W : Fin n → Option F) (x : Fin n → F) (ERR : F) (k : ℕ) (i : Fin n) (h : isTail k i = false) :
    leverageScore E junk A W x ERR k i = 0 := by simp [leverageScore, h]

theorem johnLoop_inv {next : (Fin m → F) → Fin m → F} {diff : (Fin m → F) → (Fin m → F) → Fin m → F}
    {LIM : F} (P : (Fin m → F) → Prop) (hn : ∀ w, P w → P (next w)) {k : ℕ} {w nw w' : Fin m → F} {c : Bool}
    (hw : P w) (hnw : P nw) (h : johnLoop next diff LIM k w nw = .ok (w', c)) : P w' := by
  induction k generalizing w nw with
  | zero => cases h; exact hw
  | succ k ih =>
    rw [johnLoop] at h
    obtain ⟨c', hc, h⟩ := Out.bind_eq_ok.1 h
    split at h
    · cases h; exact hnw
    · exact ih hnw (hn _ hnw) h

theorem lsLoop_inv {grad : (Fin m → F) → Fin m → F} {upd : (Fin m → F) → (Fin m → F) → Fin m → F}
    {GLIM : F} (P : (Fin m → F) → Prop) (hn : ∀ w, P w → P (upd w (grad w))) {k : ℕ} {w : Fin m → F}
    (hw : P w) : P (lsLoop grad upd GLIM k w).1 := by
  induction k generalizing w with
  | zero => exact hw
  | succ k ih =>
    rw [lsLoop]
    split
    · exact hw
    · exact ih (hn w hw)

/-- The free coordinates of the sparse John weights are 0. -/
theorem sparseJohn_head (hz : ∃ s : F, ZeroArith F s) {E : Eigen F} {ERR LIM : F} {M : Int} {w : DVec F}
    {junk x : Fin n → F} {A : Matrix (Fin m) (Fin n) F} {k : ℕ} {w' : Fin n → F} {c : Bool}
    (h : sparseJohnWeightConv E ERR LIM M w junk x A k = .ok (w', c)) (i : Fin n)
    (hi : isTail k i = false) : w' i = 0 := by
  obtain ⟨_, hz⟩ := hz
  unfold sparseJohnWeightConv at h
  obtain ⟨w0, _, h⟩ := Out.bind_eq_ok.1 h
  refine johnLoop_inv (fun w => w i = 0) ?_ (zeroHead_head i hi) (zeroHead_head i hi) h
  intro w hw
  simp only [sparseJohnNext, zeroHead_head i hi, leverageScore_head _ _ _ _ _ _ _ i hi, hw, cmax, hz.add,
    hz.lt]
  exact hz.half_mul

theorem sparseLS_head {STEP : F} (hz : ZeroArith F STEP) {E : Eigen F} {ERR GLIM : F} {M : Int}
    {w : DVec F} {junk x : Fin n → F} {A : Matrix (Fin m) (Fin n) F} {k : ℕ} {w' : Fin n → F} {c : Bool}
    (h : sparseLSWeightConv E ERR GLIM STEP M w junk x A k = .ok (w', c)) (i : Fin n)
    (hi : isTail k i = false) : w' i = 0 := by
  unfold sparseLSWeightConv at h
  obtain ⟨w0, _, h⟩ := Out.bind_eq_ok.1 h
  simp only [Out.ok.injEq] at h
  have := lsLoop_inv (GLIM := GLIM) (k := M.toNat) (grad := sparseLSGrad E ERR junk x A k)
    (upd := sparseLSUpdate ERR STEP k) (fun w : Fin n → F => w i = 0) (by
      intro w hw
      simp [sparseLSUpdate, sparseLSGrad, hi, zeroHead_head i hi, leverageScore_head _ _ _ _ _ _ _ i hi, hw,
        hz.mul, hz.sub, hz.step_mul]) (zeroHead_head (w := w0) i hi)
  rw [h] at this
  exact this

/-- **C24** for `SparseJohnWalk`. -/
theorem C24_sparseJohn (hz : ∃ s : F, ZeroArith F s) (E : Eigen F) (ERR R LIM : F) (M : Int) (o : BState F)
    (junk x : Fin n → F) (A : Matrix (Fin m) (Fin n) F) (k : ℕ) (w' : Fin n → F) (hn : 0 < n)
    (hconv : sparseJohnWeightConv E ERR LIM M o.w junk x A k = .ok (w', true))
    (hmark : Scalar.eq (w' ⟨0, hn⟩) (Scalar.ofInt (-1)) = false) :
    (sparseJohnClass E ERR R LIM M).generateWeight junk o x A k =
      .ok (⟨n, w'⟩, { o with w := ⟨n, w'⟩ }) ∧
    (sparseJohnClass E ERR R LIM M).generateWeight junk { o with w := ⟨n, w'⟩ } x A k =
      .ok (⟨n, w'⟩, { o with w := ⟨n, w'⟩ }) := by
  constructor
  · simp only [sparseJohnClass, hconv, Out.map_ok]
  · have hh := zeroHead_idem (fun i hi => sparseJohn_head hz hconv i hi)
    have h2 := hconv
    unfold sparseJohnWeightConv at h2
    obtain ⟨w0, hw0, h2⟩ := Out.bind_eq_ok.1 h2
    simp only [sparseJohnClass, sparseJohnWeightConv, Out.ok_bind, warmStart_stored hn hmark, hh,
      (johnLoop_stable h2 w').2, Out.map_ok]

/-- **C24** for `SparseDikinLSWalk`. -/
theorem C24_sparseLS (E : Eigen F) (ERR R GLIM STEP : F) (hz : ZeroArith F STEP) (M : Int) (o : BState F)
    (junk x : Fin n → F) (A : Matrix (Fin m) (Fin n) F) (k : ℕ) (w' : Fin n → F) (hn : 0 < n)
    (hconv : sparseLSWeightConv E ERR GLIM STEP M o.w junk x A k = .ok (w', true))
    (hmark : Scalar.eq (w' ⟨0, hn⟩) (Scalar.ofInt (-1)) = false) :
    (sparseDikinLSClass E ERR R GLIM STEP M).generateWeight junk o x A k =
      .ok (⟨n, w'⟩, { o with w := ⟨n, w'⟩ }) ∧
    (sparseDikinLSClass E ERR R GLIM STEP M).generateWeight junk { o with w := ⟨n, w'⟩ } x A k =
      .ok (⟨n, w'⟩, { o with w := ⟨n, w'⟩ }) := by
  constructor
  · simp only [sparseDikinLSClass, hconv, Out.map_ok]
  · have hh := zeroHead_idem (fun i hi => sparseLS_head hz hconv i hi)
    have h2 := hconv
    unfold sparseLSWeightConv at h2
    obtain ⟨w0, hw0, h2⟩ := Out.bind_eq_ok.1 h2
    simp only [Out.ok.injEq] at h2
    simp only [sparseDikinLSClass, sparseLSWeightConv, warmStart_stored hn hmark, Out.ok_bind, hh,
      lsLoop_stable h2, Out.map_ok]

/-! ## C33 -/

/-- **C33** (dense, any arithmetic): what one completed accept/reject step does. With `z` the proposal:
rejected if the membership test fails; otherwise the new position is `z` exactly when the uniform draw is below
`min(1, exp(g(z→x) - g(x→z)))`, and `x` otherwise. -/
theorem C33_dense {σ : Type} (cls : BarrierClass F σ) (E : Eigen F) (r : Rng F)
    (A : Matrix (Fin m) (Fin n) F) (b : Fin m → F) (x x' : Fin n → F) (o o' : σ) (g g' : r.G)
    (h : BarrierWalk.step cls E r A b (x, o, g) = .ok (x', o', g')) :
    ∃ H o1, generateHessian cls o x A b = .ok (H, o1) ∧
      ∃ z, z = BarrierWalk.proposal E (cls.distTerm o1) H x (r.gaussian n g).1 ∧
      ((¬ Spec.PassesDense A b z ∧ x' = x) ∨
       (Spec.PassesDense A b z ∧ ∃ Hz o2, generateHessian cls o1 z A b = .ok (Hz, o2) ∧
        ∃ gxz gzx val, gxz = BarrierWalk.logDensity (cls.distTerm o1) (E.lltL H) H x z ∧
          gzx = BarrierWalk.logDensity (cls.distTerm o2) (E.lltL Hz) Hz x z ∧
          val = (r.uniform (r.gaussian n g).2).1 ∧
          (Spec.Accepts (Scalar.exp (gzx - gxz)) val → x' = z) ∧
          (¬ Spec.Accepts (Scalar.exp (gzx - gxz)) val → x' = x))) := by
  simp only [BarrierWalk.step, BarrierWalk.generateSample] at h
  obtain ⟨ho, hH, h⟩ := Out.bind_eq_ok.1 h
  obtain ⟨c, hc, h⟩ := Out.bind_eq_ok.1 h
  refine ⟨ho.1, ho.2, hH, _, rfl, ?_⟩
  cases c
  · simp only [Bool.not_false, if_true, Out.ok.injEq, Prod.mk.injEq] at h
    exact .inl ⟨fun hp => (by rw [(inPolytope_iff_passes _ _ _).2 hp] at hc; cases hc), h.1.symm⟩
  · simp only [Bool.not_true, Bool.false_eq_true, if_false] at h
    obtain ⟨ho2, hH2, h⟩ := Out.bind_eq_ok.1 h
    simp only [Out.ok.injEq, Prod.mk.injEq] at h
    refine .inr ⟨(inPolytope_iff_passes _ _ _).1 hc, ho2.1, ho2.2, hH2, _, _, _, rfl, rfl, rfl, ?_, ?_⟩
    · intro ha; rw [← h.1, if_pos ((mhAccept_iff_accepts _ _ _).2 ha)]
    · intro ha; rw [← h.1, if_neg fun hm => ha ((mhAccept_iff_accepts _ _ _).1 hm)]

/-- **C33** (sparse, any arithmetic). -/
theorem C33_sparse {σ : Type} (cls : SparseBarrierClass F σ) (ERR : F) (E : Eigen F) (r : Rng F)
    (junk : Fin n → F) (A : Matrix (Fin m) (Fin n) F) (k : ℕ) (x x' : Fin n → F) (o o' : σ) (g g' : r.G)
    (h : SparseBarrier.step cls ERR E r junk A k (x, o, g) = .ok (x', o', g')) :
    ∃ G o1, generateG cls ERR junk o x A k = .ok (G, o1) ∧
      ∃ z, z = SparseBarrier.proposal E (cls.distTerm o1) G A x (r.gaussian n g).1 ∧
      ((¬ Spec.PassesSparse k z ∧ x' = x) ∨
       (Spec.PassesSparse k z ∧
        ∃ Gx o2, generateG cls ERR junk o1 x A k = .ok (Gx, o2) ∧
        ∃ Gz o3, generateG cls ERR junk o2 z A k = .ok (Gz, o3) ∧
        ∃ gxz gzx val, gxz = SparseBarrier.logDensity E (cls.distTerm o2) Gx A x z ∧
          gzx = SparseBarrier.logDensity E (cls.distTerm o3) Gz A z x ∧
          val = (r.uniform (r.gaussian n g).2).1 ∧
          (Spec.Accepts (Scalar.exp (gzx - gxz)) val → x' = z) ∧
          (¬ Spec.Accepts (Scalar.exp (gzx - gxz)) val → x' = x))) := by
  simp only [SparseBarrier.step] at h
  obtain ⟨zog, hz, h⟩ := Out.bind_eq_ok.1 h
  obtain ⟨c, hc, h⟩ := Out.bind_eq_ok.1 h
  simp only [SparseBarrier.generateSample] at hz
  split at hz
  · cases hz
  obtain ⟨Go, hG, hz⟩ := Out.bind_eq_ok.1 hz
  simp only [Out.ok.injEq] at hz
  subst hz
  refine ⟨Go.1, Go.2, hG, _, rfl, ?_⟩
  cases c
  · simp at h
    exact .inl ⟨fun hp => (by rw [(inPolytopeK_iff_passes _ (inPolytopeK_le hc)).2 hp] at hc; cases hc),
      h.1.symm⟩
  · simp only [if_true] at h
    obtain ⟨p, hp, h⟩ := Out.bind_eq_ok.1 h
    obtain ⟨p', hp', h⟩ := Out.bind_eq_ok.1 h
    simp only [SparseBarrier.generateProposalDensity] at hp
    obtain ⟨G2, hG2, hp⟩ := Out.bind_eq_ok.1 hp
    simp only [Out.ok.injEq] at hp
    subst hp
    simp only [SparseBarrier.generateProposalDensity] at hp'
    obtain ⟨G3, hG3, hp'⟩ := Out.bind_eq_ok.1 hp'
    simp only [Out.ok.injEq] at hp'
    subst hp'
    simp only [Out.ok.injEq, Prod.mk.injEq] at h
    refine .inr ⟨(inPolytopeK_iff_passes _ (inPolytopeK_le hc)).1 hc, G2.1, G2.2, hG2, G3.1, G3.2, hG3, _, _, _, rfl, rfl, rfl, ?_, ?_⟩
    · intro ha; rw [← h.1, if_pos ((mhAccept_iff_accepts _ _ _).2 ha)]
    · intro ha; rw [← h.1, if_neg fun hm => ha ((mhAccept_iff_accepts _ _ _).1 hm)]

/-- **C33** (exact): the acceptance test is `val < min(1, exp(g(z→x) - g(x→z)))`; a ratio of at least 1 is
always accepted (draws below 1), a ratio below 1 with probability equal to the ratio. -/
theorem C33_real (gzx gxz val : ℝ) :
    (mhAccept gzx gxz val = true ↔ val < min 1 (Real.exp (gzx - gxz))) ∧
    (val < 1 → gxz ≤ gzx → mhAccept gzx gxz val = true) := by
  have h1 : mhAccept gzx gxz val = true ↔ val < min 1 (Real.exp (gzx - gxz)) := by
    unfold mhAccept; rw [cmin_real]; simp
  refine ⟨h1, fun hv hg => h1.2 ?_⟩
  have : (1 : ℝ) ≤ Real.exp (gzx - gxz) := by
    rw [← Real.exp_zero]; exact Real.exp_le_exp.2 (by linarith)
  rw [min_eq_left this]; exact hv

/-- **C33, last clause is false**: a proposal whose ratio is not comparable with 1 (a NaN) is always accepted:
`std::min(1.0, NaN)` is `1.0`. -/
theorem C33_undefined_ratio_accepted (gzx gxz val : F)
    (hnan : Scalar.lt (Scalar.exp (gzx - gxz)) (1 : F) = false) (hval : Scalar.lt val (1 : F) = true) :
    mhAccept gzx gxz val = true := by
  simp [mhAccept, cmin, hnan, hval]

/-- An arithmetic with an unordered value, where this happens with `gzx - gxz` undefined. -/
@[reducible] def nanScalar : Scalar (Option Int) where
  add a b := a.bind fun a => b.map (a + ·)
  sub a b := a.bind fun a => b.map (a - ·)
  mul a b := a.bind fun a => b.map (a * ·)
  div a b := a.bind fun a => b.bind fun b => if b = 0 then none else some (a / b)
  neg a := a.map Neg.neg
  zero := some 0
  one := some 1
  ofInt z := some z
  sqrt a := a
  exp a := a
  log a := a.bind fun a => if a ≤ 0 then none else some a
  log2 a := a
  pow a _ := a
  abs a := a
  lt a b := match a, b with
    | some a, some b => decide (a < b)
    | _, _ => false
  le a b := match a, b with
    | some a, some b => decide (a ≤ b)
    | _, _ => false
  eq a b := match a, b with
    | some a, some b => decide (a = b)
    | _, _ => false

example : @mhAccept _ nanScalar (none) (some 5) (some 0) = true := by decide

end

/-- The matrix factorised by the dense barrier walks, in closed form. -/
theorem hessianOf_real {m n : ℕ} (w : Fin m → ℝ) (x : Fin n → ℝ) (A : Matrix (Fin m) (Fin n) ℝ)
    (b : Fin m → ℝ) :
    hessianOf w x A b = Aᵀ * Matrix.diagonal (fun i => w i / (b i - (A *ᵥ x) i) ^ 2) * A := by
  rw [← mulMat_real (Aᵀ * Matrix.diagonal (fun i => w i / (b i - (A *ᵥ x) i) ^ 2))]
  have : (fun (i : Fin n) (j : Fin m) => transp A i j * (1 / generateSlack x A b j * w j *
      (1 / generateSlack x A b j))) = Aᵀ * Matrix.diagonal (fun i => w i / (b i - (A *ᵥ x) i) ^ 2) := by
    funext i j
    rw [Matrix.mul_diagonal]
    show A j i * (1 / (b j - mulVec A x j) * w j * (1 / (b j - mulVec A x j))) = _
    rw [mulVec_real, Matrix.transpose_apply]
    generalize b j - (A *ᵥ x) j = s
    ring
  exact congrArg (fun M => mulMat M A) this

/-- **C20** (Hessian): the Dikin metric is `Aᵀ S⁻² A`. -/
theorem C20_hessian {m n : ℕ} (R : ℝ) (o : BState ℝ) (x : Fin n → ℝ) (A : Matrix (Fin m) (Fin n) ℝ)
    (b : Fin m → ℝ) :
    generateHessian (dikinClass R) o x A b =
      .ok (Aᵀ * Matrix.diagonal (fun i => 1 / (b i - (A *ᵥ x) i) ^ 2) * A, o) := by
  have : generateHessian (dikinClass R) o x A b = .ok (hessianOf (fun _ => 1) x A b, o) := by
    unfold generateHessian
    rw [C20_weights, Out.ok_bind]
    exact dif_pos rfl
  rw [this, hessianOf_real]

/-- **C20** (sparse): the diagonal of the metric of `SparseDikinWalk` is `1 / x_i²` at the last `k` coordinates and `ERR` at the others. -/
theorem C20_metric_sparse {m n : ℕ} (R ERR : ℝ) (junk : Fin n → ℝ) (o : BState ℝ) (x : Fin n → ℝ) (A : Matrix (Fin m) (Fin n) ℝ) (k : ℕ) :
    generateG (sparseDikinClass R) ERR junk o x A k = .ok (fun i => if n - k ≤ i.val then 1 / x i ^ 2 else ERR, o) := by
  unfold generateG
  rw [C20_weights_sparse, Out.ok_bind]
  refine (dif_pos rfl).trans ?_
  congr 2
  funext i
  simp only [metricG, generateSlackInverse, isTail, DVec.at, decide_eq_true_eq]
  split_ifs with h
  · show 1 / x i * 1 * (1 / x i) = 1 / x i ^ 2
    rw [mul_one, div_mul_div_comm, one_mul, sq]
  · rfl

end PW

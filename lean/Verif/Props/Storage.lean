import Verif.Lemmas.StorageTriplets

/-!
# C81: the linear programs GLPK is asked to solve
-/

namespace PW

variable {F : Type} [Scalar F]

/-- The entries of a sparse matrix in the order of the double loop, numbered from 1. -/
def SpMat.entries (A : SpMat F) : List (ℕ × ℕ × F) :=
  (List.finRange A.c).flatMap fun j => (A.col j).map fun e => (e.1.val + 1, j.val + 1, e.2)

theorem SpMat.entries_length (A : SpMat F) : A.entries.length = A.nonZeros := by
  unfold SpMat.entries SpMat.nonZeros
  rw [List.length_flatMap]
  simp

theorem SpMat.mem_entries {A : SpMat F} {i j : ℕ} {v : F} :
    (i, j, v) ∈ A.entries ↔ ∃ (i' : Fin A.r) (j' : Fin A.c), (i', v) ∈ A.col j' ∧ i = i'.val + 1 ∧ j = j'.val + 1 := by
  unfold SpMat.entries
  simp only [List.mem_flatMap, List.mem_finRange, true_and, List.mem_map, Prod.mk.injEq]
  constructor
  · rintro ⟨j', ⟨i', w⟩, h1, h2, h3, h4⟩
    exact ⟨i', j', h4 ▸ h1, h2.symm, h3.symm⟩
  · rintro ⟨i', j', h1, h2, h3⟩
    exact ⟨j', (i', v), h1, h2.symm, h3.symm, rfl⟩

theorem SpMat.Valid.entries_nodup {A : SpMat F} (hA : A.Valid) : (A.entries.map fun e => (e.1, e.2.1)).Nodup := by
  unfold SpMat.entries
  rw [List.map_flatMap]
  refine List.nodup_flatMap.2 ⟨fun j _ => ?_, ?_⟩
  · rw [List.map_map]
    have h1 := hA j
    have : (List.map (fun i : Fin A.r => (i.val + 1, j.val + 1)) ((A.col j).map Prod.fst)).Nodup :=
      h1.map fun a b h => by simpa [Fin.ext_iff] using h
    rw [List.map_map] at this
    exact this
  · refine (List.nodup_finRange A.c).pairwise_of_forall_ne fun j _ j' _ hne => ?_
    rw [Function.onFun, List.disjoint_left]
    intro e he he'
    simp only [List.mem_map] at he he'
    obtain ⟨_, ⟨_, _, rfl⟩, rfl⟩ := he
    obtain ⟨_, ⟨_, _, rfl⟩, h⟩ := he'
    exact hne (Fin.ext (by simp only [Prod.mk.injEq] at h; omega))

/-- **C81** (`SparseLP`). Whatever sparse matrix is passed, the calls leave GLPK with the maximisation problem that has exactly its
coefficients, the given objective and the given bounds; no call exits and no array is overrun. -/
theorem C81_sparseLP_problem (A : SpMat F) (hA : A.Valid) (hr : A.r ≠ 0) (hc : A.c ≠ 0) (b : Fin A.r → F) (c : Fin A.c → F)
    (rk : Fin A.r → Kind) (cc : Fin A.c → F) (ck : Fin A.c → Kind) :
    ∃ p, SparseLP.build A ⟨A.r, b⟩ ⟨A.c, c⟩ ⟨A.r, fun i => (rk i).code⟩ ⟨A.c, cc⟩ ⟨A.c, fun j => (ck j).code⟩ = .ok p ∧
      p.Represents ⟨A.r, A.c, A.coeff, c, rk, fun i => if rk i = .FR then 0 else b i, ck, fun j => if ck j = .FR then 0 else cc j⟩ := by
  have : Inhabited F := ⟨0⟩
  set bv : DVec F := ⟨A.r, b⟩
  set cv : DVec F := ⟨A.c, c⟩
  set rv : DVec Int := ⟨A.r, fun i => (rk i).code⟩
  set ccv : DVec F := ⟨A.c, cc⟩
  set ckv : DVec Int := ⟨A.c, fun j => (ck j).code⟩
  have bnd : ∀ k : Kind, ∀ v : F, GlpProb.bounds k.code v v = .ok (GlpProb.boundsOf k v) := fun k v => by cases k <;> rfl
  let rq : ℕ → F × F := fun i => if h : i < A.r then GlpProb.boundsOf (rk ⟨i, h⟩) (b ⟨i, h⟩) else (0, 0)
  let cq : ℕ → F × F := fun i => if h : i < A.c then GlpProb.boundsOf (ck ⟨i, h⟩) (cc ⟨i, h⟩) else (0, 0)
  have L0 := TripletArrays.holds_new (F := F) (1 + A.nonZeros)
  have hlen := A.entries_length
  obtain ⟨s, hs1, hs2⟩ := TripletArrays.Holds.forEach (amount := 1 + A.nonZeros)
    (f := fun s (j : Fin A.c) => forEach (fun (s : TripletArrays F) e => s.push (e.1.val + 1) (j.val + 1) e.2) (A.col j) s)
    (E := fun j => (A.col j).map fun e => (e.1.val + 1, j.val + 1, e.2))
    (fun j s L hL hl => by
      have := TripletArrays.Holds.forEach (amount := 1 + A.nonZeros)
        (f := fun (s : TripletArrays F) (e : Fin A.r × F) => s.push (e.1.val + 1) (j.val + 1) e.2)
        (E := fun e => [(e.1.val + 1, j.val + 1, e.2)]) (fun e s L hL hl => hL.push _ _ _ (by simpa using hl)) (A.col j) hL
        (by simpa [List.length_flatMap] using hl)
      simpa [← List.map_eq_flatMap] using this)
    (List.finRange A.c) L0 (by show 0 + A.entries.length < _; omega)
  rw [List.nil_append] at hs2
  change s.Holds _ A.entries at hs2
  apply Exists.intro
  apply And.intro
  · unfold SparseLP.build
    dsimp only
    rw [GlpProb.addRows, if_neg hr, Out.ok_bind, GlpProb.addCols, if_neg hc, Out.ok_bind,
      GlpProb.forEach_obj _ A.c (by simp) cv.fn (fun i hi p => by rw [cv.get_of_lt hi, Out.ok_bind]), Out.ok_bind,
      GlpProb.forEach_rows _ A.r (by simp [GlpProb.setMax]) rv.fn bv.fn rq
        (fun i hi => by simp only [DVec.fn, dif_pos (show i < A.r from hi), rv, bv, rq]; exact bnd _ _)
        (fun i hi p => by rw [rv.get_of_lt hi, Out.ok_bind, bv.get_of_lt hi, Out.ok_bind]), Out.ok_bind,
      GlpProb.forEach_cols _ A.c (by simp [GlpProb.setMax]) ckv.fn ccv.fn cq
        (fun i hi => by simp only [DVec.fn, dif_pos (show i < A.c from hi), ckv, ccv, cq]; exact bnd _ _)
        (fun i hi p => by rw [ckv.get_of_lt hi, Out.ok_bind, ccv.get_of_lt hi, Out.ok_bind]), Out.ok_bind,
      hs1, Out.ok_bind, Nat.add_sub_cancel_left, ← hlen]
    exact hs2.load (fun ⟨i, j, v⟩ he => by
      obtain ⟨i', j', -, h1, h2⟩ := SpMat.mem_entries.1 he
      have := i'.isLt; have := j'.isLt
      show (1 ≤ i ∧ i ≤ 0 + A.r) ∧ 1 ≤ j ∧ j ≤ 0 + A.c
      omega) hA.entries_nodup
  · have e1 : ∀ {n : ℕ} (i : Fin n), (1 ≤ i.val + 1 ∧ i.val + 1 ≤ n) := fun i => ⟨by omega, i.isLt⟩
    have bd : ∀ k : Kind, ∀ v : F, GlpProb.bound k.code (GlpProb.boundsOf k v).1 (GlpProb.boundsOf k v).2 = if k = .FR then 0 else v :=
      fun k v => by cases k <;> rfl
    refine ⟨Nat.zero_add _, Nat.zero_add _, rfl, fun i j => ?_, fun j => ?_, fun i => ?_, fun i => ?_, fun j => ?_, fun j => ?_⟩
    · by_cases h : ∃ v, (i, v) ∈ A.col j
      · obtain ⟨v, hv⟩ := h
        refine Eq.trans ?_ (SpMat.coeff_of_mem hA hv).symm
        exact GlpProb.coeff_of_mem hA.entries_nodup (SpMat.mem_entries.2 ⟨i, j, hv, rfl, rfl⟩)
      · push Not at h
        refine Eq.trans ?_ (SpMat.coeff_of_not_mem h).symm
        refine GlpProb.coeff_of_not_mem fun v hv => ?_
        obtain ⟨i', j', h1, h2, h3⟩ := SpMat.mem_entries.1 hv
        have h2 : i = i' := Fin.ext (by omega)
        have h3 : j = j' := Fin.ext (by omega)
        subst h2 h3
        exact h v h1
    · show (if 1 ≤ j.val + 1 ∧ j.val + 1 ≤ A.c then cv.fn (j.val + 1 - 1) else _) = c j
      rw [if_pos (e1 j), Nat.add_sub_cancel, DVec.fn, dif_pos (show j.val < cv.n from j.isLt)]
    · show (if 1 ≤ i.val + 1 ∧ i.val + 1 ≤ A.r then rv.fn (i.val + 1 - 1) else _) = _
      rw [if_pos (e1 i), Nat.add_sub_cancel, DVec.fn, dif_pos (show i.val < rv.n from i.isLt)]
    · show GlpProb.bound (if 1 ≤ i.val + 1 ∧ i.val + 1 ≤ A.r then rv.fn (i.val + 1 - 1) else _)
        (if 1 ≤ i.val + 1 ∧ i.val + 1 ≤ A.r then (rq (i.val + 1 - 1)).1 else _)
        (if 1 ≤ i.val + 1 ∧ i.val + 1 ≤ A.r then (rq (i.val + 1 - 1)).2 else _) = _
      rw [if_pos (e1 i), if_pos (e1 i), if_pos (e1 i), Nat.add_sub_cancel, DVec.fn, dif_pos (show i.val < rv.n from i.isLt)]
      simp only [rq, dif_pos i.isLt]
      exact bd _ _
    · show (if 1 ≤ j.val + 1 ∧ j.val + 1 ≤ A.c then ckv.fn (j.val + 1 - 1) else _) = _
      rw [if_pos (e1 j), Nat.add_sub_cancel, DVec.fn, dif_pos (show j.val < ckv.n from j.isLt)]
    · show GlpProb.bound (if 1 ≤ j.val + 1 ∧ j.val + 1 ≤ A.c then ckv.fn (j.val + 1 - 1) else _)
        (if 1 ≤ j.val + 1 ∧ j.val + 1 ≤ A.c then (cq (j.val + 1 - 1)).1 else _)
        (if 1 ≤ j.val + 1 ∧ j.val + 1 ≤ A.c then (cq (j.val + 1 - 1)).2 else _) = _
      rw [if_pos (e1 j), if_pos (e1 j), if_pos (e1 j), Nat.add_sub_cancel, DVec.fn, dif_pos (show j.val < ckv.n from j.isLt)]
      simp only [cq, dif_pos j.isLt]
      exact bd _ _

/-- **C81** (`SparseLP`). The values returned are GLPK's answer to the linear program with these coefficients and bounds, whatever the
sparsity pattern; GLPK exits iff there are no rows or no columns. -/
theorem C81_sparseLP (glp : Glpk F) (A : SpMat F) (hA : A.Valid) (b : Fin A.r → F) (c : Fin A.c → F)
    (rk : Fin A.r → Kind) (cc : Fin A.c → F) (ck : Fin A.c → Kind) :
    SparseLP.findOptimalVector glp A ⟨A.r, b⟩ ⟨A.c, c⟩ ⟨A.r, fun i => (rk i).code⟩ ⟨A.c, cc⟩ ⟨A.c, fun j => (ck j).code⟩ =
      PW.findOptimalVector glp
        ⟨A.r, A.c, A.coeff, c, rk, fun i => if rk i = .FR then 0 else b i, ck, fun j => if ck j = .FR then 0 else cc j⟩ := by
  unfold SparseLP.findOptimalVector PW.findOptimalVector
  by_cases hr : A.r = 0
  · rw [if_pos (Or.inl hr), SparseLP.build, GlpProb.addRows, if_pos hr]; rfl
  by_cases hc : A.c = 0
  · rw [if_pos (Or.inr hc), SparseLP.build, GlpProb.addRows, if_neg hr, Out.ok_bind, GlpProb.addCols, if_pos hc]; rfl
  obtain ⟨p, hp, hR⟩ := C81_sparseLP_problem A hA hr hc b c rk cc ck
  rw [hp, Out.ok_bind, hR.simplex glp (le_refl _), if_neg (by simp [hr, hc])]
  rfl

/-! ## `DenseCenter` -/

/-- The entries of one row of the centre LP. -/
def DenseCenter.rowEntries (A : DMat F) (i : Fin A.r) : List (ℕ × ℕ × F) :=
  ((List.finRange A.c).map fun j => (i.val + 1, j.val + 1, A.val i j)) ++ [(i.val + 1, A.c + 1, 1)]

/-- All entries of the centre LP. -/
def DenseCenter.entries (A : DMat F) : List (ℕ × ℕ × F) := (List.finRange A.r).flatMap (DenseCenter.rowEntries A)

theorem DenseCenter.entries_length (A : DMat F) : (DenseCenter.entries A).length = A.r * (A.c + 1) := by
  unfold DenseCenter.entries
  rw [List.length_flatMap]
  simp [DenseCenter.rowEntries]

theorem DenseCenter.mem_entries {A : DMat F} {i j : ℕ} {v : F} : (i, j, v) ∈ DenseCenter.entries A ↔
    (∃ (i' : Fin A.r) (j' : Fin A.c), i = i'.val + 1 ∧ j = j'.val + 1 ∧ v = A.val i' j') ∨
      ∃ i' : Fin A.r, i = i'.val + 1 ∧ j = A.c + 1 ∧ v = 1 := by
  unfold DenseCenter.entries DenseCenter.rowEntries
  simp only [List.mem_flatMap, List.mem_finRange, true_and, List.mem_append, List.mem_map, Prod.mk.injEq, List.mem_singleton]
  constructor
  · rintro ⟨i', ⟨j', h1, h2, h3⟩ | h⟩
    · exact Or.inl ⟨i', j', h1.symm, h2.symm, h3.symm⟩
    · exact Or.inr ⟨i', h⟩
  · rintro (⟨i', j', h1, h2, h3⟩ | ⟨i', h⟩)
    · exact ⟨i', Or.inl ⟨j', h1.symm, h2.symm, h3.symm⟩⟩
    · exact ⟨i', Or.inr h⟩

theorem DenseCenter.entries_nodup (A : DMat F) : ((DenseCenter.entries A).map fun e => (e.1, e.2.1)).Nodup := by
  unfold DenseCenter.entries
  rw [List.map_flatMap]
  refine List.nodup_flatMap.2 ⟨fun i _ => ?_, ?_⟩
  · unfold DenseCenter.rowEntries
    rw [List.map_append, List.map_map, List.nodup_append]
    refine ⟨(List.nodup_finRange _).map fun a b h => ?_, by simp, ?_⟩
    · simp only [Function.comp, Prod.mk.injEq] at h
      exact Fin.ext (by omega)
    · intro a ha b hb
      simp only [List.mem_map, List.mem_finRange, true_and, Function.comp, List.mem_singleton, List.map_cons, List.map_nil] at ha hb
      obtain ⟨j, rfl⟩ := ha
      subst hb
      intro h
      simp only [Prod.mk.injEq] at h
      have := j.isLt
      omega
  · refine (List.nodup_finRange A.r).pairwise_of_forall_ne fun i _ i' _ hne => ?_
    rw [Function.onFun, List.disjoint_left]
    intro e he he'
    have key : ∀ (i : Fin A.r) (e : ℕ × ℕ), e ∈ (DenseCenter.rowEntries A i).map (fun e => (e.1, e.2.1)) → e.1 = i.val + 1 := by
      intro i e h
      simp only [DenseCenter.rowEntries, List.mem_map, List.mem_append, List.mem_finRange, true_and, List.mem_singleton] at h
      obtain ⟨a, ⟨j, rfl⟩ | rfl, rfl⟩ := h <;> rfl
    exact hne (Fin.ext (by have := key i e he; have := key i' e he'; omega))

/-- **C81** (`DenseCenter`). The calls leave GLPK with the LP "maximise `δ` subject to `A x + δ ≤ b`, `δ ≥ 0`". -/
theorem C81_denseCenter_problem (A : DMat F) (b : DVec F) (hr : A.r ≠ 0) (hb : b.n ≤ A.r) :
    ∃ p, DenseCenter.build A b = .ok p ∧ p.Represents (denseCenterLP A.val b) := by
  have : Inhabited F := ⟨0⟩
  have hlen := DenseCenter.entries_length A
  obtain ⟨s, hs1, hs2⟩ := TripletArrays.Holds.forEach (amount := 1 + A.r * (A.c + 1))
    (f := fun s (i : Fin A.r) =>
      (forEach (fun (s : TripletArrays F) j => s.push (i.val + 1) (j.val + 1) (A.val i j)) (List.finRange A.c) s).bind fun s =>
      s.push (i.val + 1) (A.c + 1) 1)
    (E := DenseCenter.rowEntries A)
    (fun i s L hL hl => by
      have hl' : L.length + (A.c + 1) < 1 + A.r * (A.c + 1) := by simpa [DenseCenter.rowEntries] using hl
      obtain ⟨s1, e1, e2⟩ := TripletArrays.Holds.forEach (amount := 1 + A.r * (A.c + 1))
        (f := fun (s : TripletArrays F) (j : Fin A.c) => s.push (i.val + 1) (j.val + 1) (A.val i j))
        (E := fun j => [(i.val + 1, j.val + 1, A.val i j)]) (fun e s L hL hl => hL.push _ _ _ (by simpa using hl)) (List.finRange A.c) hL
        (by simp only [List.length_flatMap, List.length_singleton, List.map_const', List.length_finRange, List.sum_replicate, smul_eq_mul]; omega)
      obtain ⟨s2, e3, e4⟩ := e2.push (i.val + 1) (A.c + 1) 1 (by
        simp only [List.length_append, List.length_flatMap, List.length_singleton, List.map_const', List.length_finRange, List.sum_replicate, smul_eq_mul]; omega)
      refine ⟨s2, by rw [e1, Out.ok_bind, e3], ?_⟩
      unfold DenseCenter.rowEntries
      rw [← List.append_assoc, List.map_eq_flatMap]
      exact e4)
    (List.finRange A.r) (TripletArrays.holds_new (F := F) (1 + A.r * (A.c + 1))) (by
      show 0 + (DenseCenter.entries A).length < _; omega)
  rw [List.nil_append] at hs2
  change s.Holds _ (DenseCenter.entries A) at hs2
  apply Exists.intro
  apply And.intro
  · unfold DenseCenter.build
    dsimp only
    rw [GlpProb.addRows, if_neg hr, Out.ok_bind, GlpProb.addCols, if_neg (by omega), Out.ok_bind]
    dsimp only [GlpProb.create]
    rw [GlpProb.setObjCoef_ok _ (show A.c + 1 ≤ 0 + (A.c + 1) by omega), Out.ok_bind]
    dsimp only [GlpProb.setMax]
    rw [GlpProb.forEach_rows _ b.n (show b.n ≤ 0 + A.r by omega) (fun _ => 3) b.fn (fun i => (0, b.fn i)) (fun i hi => rfl)
        (fun i hi p => by rw [b.get_of_lt hi, Out.ok_bind]), Out.ok_bind, Nat.add_sub_cancel]
    dsimp only
    rw [GlpProb.forEach_cols _ A.c (show A.c ≤ 0 + (A.c + 1) by omega) (fun _ => 1) (fun _ => 0) (fun _ => (0, 0)) (fun i hi => rfl)
        (fun i hi p => rfl), Out.ok_bind]
    dsimp only
    rw [GlpProb.setColBnds_ok _ (show 1 ≤ A.c + 1 ∧ A.c + 1 ≤ 0 + (A.c + 1) by omega)
        (show GlpProb.bounds 2 (0 : F) 0 = .ok (0, 0) from rfl), Out.ok_bind, hs1, Out.ok_bind, hs2.ind, Nat.add_sub_cancel]
    dsimp only
    exact hs2.load (fun ⟨i, j, v⟩ he => by
      show (1 ≤ i ∧ i ≤ 0 + A.r) ∧ 1 ≤ j ∧ j ≤ 0 + (A.c + 1)
      rcases DenseCenter.mem_entries.1 he with ⟨i', j', h1, h2, -⟩ | ⟨i', h1, h2, -⟩
      · have := i'.isLt; have := j'.isLt
        omega
      · have := i'.isLt
        omega) (DenseCenter.entries_nodup A)
  · have cs : ∀ j : Fin (A.c + 1), ¬ j.val < A.c → j.val = A.c := fun j h => by have := j.isLt; omega
    refine ⟨Nat.zero_add _, Nat.zero_add _, rfl, fun i j => ?_, fun j => ?_, fun i => ?_, fun i => ?_, fun j => ?_, fun j => ?_⟩
    · refine GlpProb.coeff_of_mem (DenseCenter.entries_nodup A) (DenseCenter.mem_entries.2 ?_)
      show _ ∨ ∃ i' : Fin A.r, _ ∧ _ ∧ (if h : j.val < A.c then A.val i ⟨j.val, h⟩ else 1) = 1
      by_cases h : j.val < A.c
      · exact Or.inl ⟨i, ⟨j.val, h⟩, rfl, rfl, dif_pos h⟩
      · exact Or.inr ⟨i, rfl, by rw [cs j h], dif_neg h⟩
    · show Function.update (fun _ => (0 : F)) (A.c + 1) 1 (j.val + 1) = if j.val < A.c then 0 else 1
      by_cases h : j.val < A.c
      · rw [if_pos h, Function.update_of_ne (by omega)]
      · rw [if_neg h, cs j h, Function.update_self]
    · show (if 1 ≤ i.val + 1 ∧ i.val + 1 ≤ b.n then (3 : Int) else 1) = (if i.val < b.n then Kind.UP else Kind.FR).code
      by_cases h : i.val < b.n
      · rw [if_pos h, if_pos (by omega)]; rfl
      · rw [if_neg h, if_neg (by omega)]; rfl
    · show GlpProb.bound (if 1 ≤ i.val + 1 ∧ i.val + 1 ≤ b.n then (3 : Int) else 1) (if 1 ≤ i.val + 1 ∧ i.val + 1 ≤ b.n then (0 : F) else 0)
        (if 1 ≤ i.val + 1 ∧ i.val + 1 ≤ b.n then b.fn (i.val + 1 - 1) else 0) = if h : i.val < b.n then b.val ⟨i.val, h⟩ else 0
      by_cases h : i.val < b.n
      · rw [dif_pos h, if_pos (by omega), if_pos (by omega), if_pos (by omega), Nat.add_sub_cancel, DVec.fn, dif_pos h]; rfl
      · rw [dif_neg h, if_neg (by omega), if_neg (by omega), if_neg (by omega)]; rfl
    · show Function.update (fun i => if 1 ≤ i ∧ i ≤ A.c then (1 : Int) else 5) (A.c + 1) 2 (j.val + 1) =
        (if j.val < A.c then Kind.FR else Kind.LO).code
      by_cases h : j.val < A.c
      · rw [if_pos h, Function.update_of_ne (by omega), if_pos (by omega)]; rfl
      · rw [if_neg h, cs j h, Function.update_self]; rfl
    · show GlpProb.bound (Function.update (fun i => if 1 ≤ i ∧ i ≤ A.c then (1 : Int) else 5) (A.c + 1) 2 (j.val + 1))
        (Function.update (fun i => if 1 ≤ i ∧ i ≤ A.c then (0 : F) else 0) (A.c + 1) 0 (j.val + 1))
        (Function.update (fun i => if 1 ≤ i ∧ i ≤ A.c then (0 : F) else 0) (A.c + 1) 0 (j.val + 1)) = 0
      have e : Function.update (fun i => if 1 ≤ i ∧ i ≤ A.c then (0 : F) else 0) (A.c + 1) 0 (j.val + 1) = 0 := by
        by_cases h : j.val < A.c
        · rw [Function.update_of_ne (by omega)]; simp
        · rw [cs j h, Function.update_self]
      rw [e]
      unfold GlpProb.bound
      simp

/-- **C81** (`DenseCenter`). For every matrix and vector the call sequence behaves like the model used by the other theorems: GLPK exits
iff there is no row or `b` is longer than `A` is high. -/
theorem C81_denseCenter (glp : Glpk F) (A : DMat F) (b : DVec F) :
    DenseCenter.getInitialPointCalls glp A b = DenseCenter.getInitialPoint glp A b := by
  have : Inhabited F := ⟨0⟩
  unfold DenseCenter.getInitialPointCalls DenseCenter.getInitialPoint
  by_cases hr : A.r = 0
  · rw [if_pos (Or.inl hr), DenseCenter.build, GlpProb.addRows, if_pos hr]; rfl
  by_cases hb : A.r < b.n
  · rw [if_pos (Or.inr hb), DenseCenter.build]
    dsimp only
    rw [GlpProb.addRows, if_neg hr, Out.ok_bind, GlpProb.addCols, if_neg (by omega), Out.ok_bind]
    dsimp only [GlpProb.create]
    rw [GlpProb.setObjCoef_ok _ (show A.c + 1 ≤ 0 + (A.c + 1) by omega), Out.ok_bind]
    dsimp only [GlpProb.setMax]
    rw [show List.range b.n = List.range A.r ++ List.range' A.r (b.n - A.r) by
        have := List.range'_append_1 (s := 0) (m := A.r) (n := b.n - A.r)
        rw [Nat.zero_add, show A.r + (b.n - A.r) = b.n by omega] at this
        rw [List.range_eq_range', List.range_eq_range', this],
      forEach_append, GlpProb.forEach_rows _ A.r (show A.r ≤ 0 + A.r by omega) (fun _ => 3) b.fn (fun i => (0, b.fn i)) (fun i hi => rfl)
        (fun i hi p => by rw [b.get_of_lt (by omega), Out.ok_bind]), Out.ok_bind]
    dsimp only
    rw [show b.n - A.r = (b.n - A.r - 1) + 1 by omega, List.range'_succ, forEach, b.get_of_lt hb, Out.ok_bind, GlpProb.setRowBnds]
    dsimp only
    rw [if_neg (show ¬ (1 ≤ A.r + 1 ∧ A.r + 1 ≤ 0 + A.r) by omega)]
    rfl
  obtain ⟨p, hp, hR⟩ := C81_denseCenter_problem A b hr (by omega)
  rw [hp, Out.ok_bind, hR.simplex glp (show A.c ≤ A.c + 1 by omega), if_neg (by omega)]
  rfl

/-! ## `SparseCenter` -/

theorem SparseCenter.mem_triplets {A : SpMat F} {k i j : ℕ} {v : F} : (i, j, v) ∈ SparseCenter.triplets A k ↔
    (∃ (i' : Fin A.r) (j' : Fin A.c), (i', v) ∈ A.col j' ∧ i = i'.val ∧ j = j'.val) ∨
      ∃ t < k, i = A.r + t ∧ (j = A.c - k + t ∧ v = 1 ∨ j = A.c ∧ v = -1) := by
  unfold SparseCenter.triplets
  simp only [List.mem_append, List.mem_flatMap, List.mem_finRange, true_and, List.mem_map, Prod.mk.injEq, List.mem_range, List.mem_cons,
    List.not_mem_nil, or_false]
  refine or_congr ⟨?_, ?_⟩ ⟨?_, ?_⟩
  · rintro ⟨j', ⟨i', w⟩, h1, h2, h3, h4⟩
    exact ⟨i', j', h4 ▸ h1, h2.symm, h3.symm⟩
  · rintro ⟨i', j', h1, h2, h3⟩
    exact ⟨j', (i', v), h1, h2.symm, h3.symm, rfl⟩
  · rintro ⟨t, ht, ⟨h1, h2⟩ | ⟨h1, h2⟩⟩
    · exact ⟨t, ht, h1, Or.inl h2⟩
    · exact ⟨t, ht, h1, Or.inr h2⟩
  · rintro ⟨t, ht, h1, h2 | h2⟩
    · exact ⟨t, ht, Or.inl ⟨h1, h2⟩⟩
    · exact ⟨t, ht, Or.inr ⟨h1, h2⟩⟩

theorem SparseCenter.triplets_nodup {A : SpMat F} (hA : A.Valid) {k : ℕ} (hk : k ≤ A.c) :
    ((SparseCenter.triplets A k).map fun e => (e.1, e.2.1)).Nodup := by
  unfold SparseCenter.triplets
  rw [List.map_append, List.nodup_append]
  refine ⟨?_, ?_, ?_⟩
  · have h := hA.entries_nodup
    unfold SpMat.entries at h
    rw [List.map_flatMap] at h ⊢
    have e : ((List.finRange A.c).flatMap fun j => ((A.col j).map fun e => (e.1.val + 1, j.val + 1, e.2)).map fun e => (e.1, e.2.1)) =
        ((List.finRange A.c).flatMap fun j => ((A.col j).map fun e => (e.1.val, j.val, e.2)).map fun e => (e.1, e.2.1)).map
          fun p => (p.1 + 1, p.2 + 1) := by
      rw [List.map_flatMap]
      simp [List.map_map, Function.comp_def]
    rw [e] at h
    exact h.of_map _
  · rw [List.map_flatMap]
    refine List.nodup_flatMap.2 ⟨fun t ht => ?_, ?_⟩
    · have := List.mem_range.1 ht
      simp
      omega
    · refine List.nodup_range.pairwise_of_forall_ne fun t _ t' _ hne => ?_
      rw [Function.onFun, List.disjoint_left]
      rintro ⟨a, b⟩ he he'
      simp only [List.map_cons, List.map_nil, List.mem_cons, Prod.mk.injEq, List.not_mem_nil, or_false] at he he'
      omega
  · rintro ⟨a, b⟩ ha ⟨a', b'⟩ hb h
    simp only [Prod.mk.injEq] at h
    obtain ⟨rfl, rfl⟩ := h
    simp only [List.mem_map, List.mem_flatMap, List.mem_finRange, true_and, List.mem_range, List.mem_cons, List.not_mem_nil, or_false] at ha hb
    obtain ⟨e, ⟨j, e', he, rfl⟩, h1⟩ := ha
    obtain ⟨f, ⟨t, ht, rfl | rfl⟩, h2⟩ := hb
    all_goals
      simp only [Prod.mk.injEq] at h1 h2
      have := e'.1.isLt
      omega

/-- **C81** (`SparseCenter`). For every sparsity pattern, every `b` and every `k`, the loops of `SparseCenter::getInitialPoint` and the calls
of `SparseLP` behave like the model used by the other theorems. -/
theorem C81_sparseCenter (glp : Glpk F) (A : SpMat F) (hA : A.Valid) (b : DVec F) (k : Int) :
    SparseCenter.getInitialPointCalls glp A b k = SparseCenter.getInitialPoint glp ⟨A.r, A.c, A.coeff⟩ b k := by
  have : Inhabited F := ⟨0⟩
  unfold SparseCenter.getInitialPointCalls SparseCenter.getInitialPoint
  by_cases hk : k ≤ 0 ∨ (A.c : Int) < k
  · rw [if_pos hk, if_pos hk]
  rw [if_neg hk, if_neg hk]
  dsimp only
  obtain ⟨κ, rfl⟩ : ∃ κ : ℕ, k = κ := ⟨k.toNat, by omega⟩
  simp only [Int.toNat_natCast]
  have hκ : κ ≤ A.c := by omega
  rw [DVec.zeros, DVec.put_ok _ (by omega), Out.ok_bind]
  have hloop : ∀ n, n ≤ b.n → n ≤ A.r + κ → forEach
      (fun (s : DVec F × DVec Int) i => (b.get i).bind fun v => (s.1.put i v).bind fun bnds => (s.2.put i 5).bind fun rel =>
        .ok (bnds, rel)) (List.range n) (DVec.zeros (A.r + κ), DVec.zeros (A.r + κ)) =
      .ok (⟨A.r + κ, fun i => if i.val < n then b.fn i.val else 0⟩, ⟨A.r + κ, fun i => if i.val < n then 5 else 0⟩) := by
    intro n hn1 hn2
    obtain ⟨s, hs1, hs2⟩ := forEach_range
      (f := fun (s : DVec F × DVec Int) i => (b.get i).bind fun v => (s.1.put i v).bind fun bnds => (s.2.put i 5).bind fun rel =>
        .ok (bnds, rel))
      (fun t s => s = (⟨A.r + κ, fun i => if i.val < t then b.fn i.val else 0⟩, ⟨A.r + κ, fun i => if i.val < t then 5 else 0⟩)) n
      (DVec.zeros (A.r + κ), DVec.zeros (A.r + κ)) (by simp [DVec.zeros]) (by
        rintro t ht s rfl
        refine ⟨_, by rw [b.get_of_lt (by omega), Out.ok_bind, DVec.put_ok _ (by omega), Out.ok_bind, DVec.put_ok _ (by omega), Out.ok_bind], ?_⟩
        congr 2 <;> funext j <;> by_cases hj : j.val = t
        · rw [if_pos hj, if_pos (by omega), hj]
        · rw [if_neg hj]
          by_cases h1 : j.val < t
          · rw [if_pos h1, if_pos (by omega)]
          · rw [if_neg h1, if_neg (by omega)]
        · rw [if_pos hj, if_pos (by omega)]
        · rw [if_neg hj]
          by_cases h1 : j.val < t
          · rw [if_pos h1, if_pos (by omega)]
          · rw [if_neg h1, if_neg (by omega)])
    rw [hs1, hs2]
  by_cases hb : A.r + κ < b.n
  · rw [if_pos hb, show List.range b.n = List.range (A.r + κ) ++ List.range' (A.r + κ) (b.n - (A.r + κ)) by
        have := List.range'_append_1 (s := 0) (m := A.r + κ) (n := b.n - (A.r + κ))
        rw [Nat.zero_add, show A.r + κ + (b.n - (A.r + κ)) = b.n by omega] at this
        rw [List.range_eq_range', List.range_eq_range', this],
      forEach_append, hloop _ (by omega) (le_refl _), Out.ok_bind, show b.n - (A.r + κ) = (b.n - (A.r + κ) - 1) + 1 by omega, List.range'_succ,
      forEach, b.get_of_lt hb, Out.ok_bind, DVec.put, if_neg (by simp)]
    rfl
  rw [if_neg hb, hloop _ (le_refl _) (by omega), Out.ok_bind]
  dsimp only
  rw [forEach_put _ (fun _ => 2) b.n (A.r + κ - b.n) (by omega) (fun i _ _ w => rfl), Out.ok_bind, DVec.zeros,
    forEach_put0 _ (fun _ => 1) (A.c + 1 - κ - 1) (by omega) (fun i _ w => rfl), Out.ok_bind,
    forEach_put _ (fun _ => 2) (A.c + 1 - κ - 1) (κ + 1) (by omega) (fun i _ _ w => rfl), Out.ok_bind]
  obtain ⟨M, hM, hof⟩ := SpMat.ofTriplets_ok (r := A.r + κ) (c := A.c + 1) (SparseCenter.triplets A κ) (fun ⟨i, j, v⟩ he => by
      rcases SparseCenter.mem_triplets.1 he with ⟨i', j', -, h1, h2⟩ | ⟨t, ht, h1, ⟨h2, -⟩ | ⟨h2, -⟩⟩
      · have := i'.isLt; have := j'.isLt
        show i < _ ∧ j < _
        omega
      · show i < _ ∧ j < _
        omega
      · show i < _ ∧ j < _
        omega) (SparseCenter.triplets_nodup hA hκ)
  rw [hM, Out.ok_bind]
  obtain ⟨r, c, col⟩ := M
  obtain ⟨hr, hc, hval, hmem⟩ := hof
  simp only at hr hc
  subst hr hc
  have key := C81_sparseLP glp ⟨A.r + κ, A.c + 1, col⟩ hval (fun i => if i.val < b.n then b.fn i.val else 0)
    (fun j => if j.val = A.c + 1 - 1 then 1 else 0) (sparseCenterLP A.coeff b κ).rowKind (fun _ => 0) (sparseCenterLP A.coeff b κ).colKind
  have hmat : SpMat.coeff ⟨A.r + κ, A.c + 1, col⟩ = (sparseCenterLP A.coeff b κ).mat := by
    funext i j
    change Fin (A.r + κ) at i
    change Fin (A.c + 1) at j
    have cin : ∀ v, (i.val, j.val, v) ∈ SparseCenter.triplets A κ → SpMat.coeff ⟨A.r + κ, A.c + 1, col⟩ i j = v :=
      fun v hv => SpMat.coeff_of_mem hval ((hmem i j v).2 hv)
    have cout : (∀ v, (i.val, j.val, v) ∉ SparseCenter.triplets A κ) → SpMat.coeff ⟨A.r + κ, A.c + 1, col⟩ i j = 0 :=
      fun h => SpMat.coeff_of_not_mem fun v hv => h v ((hmem i j v).1 hv)
    show _ = if hi : i.val < A.r then if hj : j.val < A.c then A.coeff ⟨i.val, hi⟩ ⟨j.val, hj⟩ else 0
      else if j.val = A.c - κ + (i.val - A.r) then 1 else if j.val = A.c then -1 else 0
    have hil := i.isLt
    have hjl := j.isLt
    by_cases hi : i.val < A.r
    · rw [dif_pos hi]
      by_cases hj : j.val < A.c
      · rw [dif_pos hj]
        by_cases h : ∃ v, ((⟨i.val, hi⟩ : Fin A.r), v) ∈ A.col ⟨j.val, hj⟩
        · obtain ⟨v, hv⟩ := h
          rw [SpMat.coeff_of_mem hA hv]
          exact cin v (SparseCenter.mem_triplets.2 (Or.inl ⟨_, _, hv, rfl, rfl⟩))
        · push Not at h
          rw [SpMat.coeff_of_not_mem h]
          refine cout fun v hv => ?_
          rcases SparseCenter.mem_triplets.1 hv with ⟨i', j', h1, h2, h3⟩ | ⟨t, ht, h1, -⟩
          · exact h v (by rwa [show (⟨i.val, hi⟩ : Fin A.r) = i' from Fin.ext h2, show (⟨j.val, hj⟩ : Fin A.c) = j' from Fin.ext h3])
          · omega
      · rw [dif_neg hj]
        refine cout fun v hv => ?_
        rcases SparseCenter.mem_triplets.1 hv with ⟨i', j', -, h2, h3⟩ | ⟨t, ht, h1, -⟩
        · exact hj (h3 ▸ j'.isLt)
        · omega
    · rw [dif_neg hi]
      by_cases hj : j.val = A.c - κ + (i.val - A.r)
      · rw [if_pos hj]
        exact cin 1 (SparseCenter.mem_triplets.2 (Or.inr ⟨i.val - A.r, by omega, by omega, Or.inl ⟨hj, rfl⟩⟩))
      · rw [if_neg hj]
        by_cases hj' : j.val = A.c
        · rw [if_pos hj']
          exact cin (-1) (SparseCenter.mem_triplets.2 (Or.inr ⟨i.val - A.r, by omega, by omega, Or.inr ⟨hj', rfl⟩⟩))
        · rw [if_neg hj']
          refine cout fun v hv => ?_
          rcases SparseCenter.mem_triplets.1 hv with ⟨i', j', -, h2, h3⟩ | ⟨t, ht, h1, ⟨h2, -⟩ | ⟨h2, -⟩⟩
          · exact hi (h2 ▸ i'.isLt)
          · omega
          · omega
  have hobj : (fun j : Fin (A.c + 1) => if j.val = A.c + 1 - 1 then (1 : F) else 0) = (sparseCenterLP A.coeff b κ).obj := by
    funext j
    show _ = if j.val < A.c then (0 : F) else 1
    have := j.isLt
    by_cases h : j.val < A.c
    · rw [if_pos h, if_neg (by omega)]
    · rw [if_neg h, if_pos (by omega)]
  have hrb : (fun i : Fin (A.r + κ) => if (sparseCenterLP A.coeff b κ).rowKind i = .FR then 0 else
      if i.val < b.n then b.fn i.val else 0) = (sparseCenterLP A.coeff b κ).rowBnd := by
    funext i
    show (if (if i.val < b.n then Kind.FX else Kind.LO) = .FR then 0 else if i.val < b.n then b.fn i.val else 0) =
      if h : i.val < b.n then b.val ⟨i.val, h⟩ else 0
    by_cases h : i.val < b.n
    · rw [if_pos h, dif_pos h, if_neg (by simp), if_pos h, DVec.fn, dif_pos h]
    · rw [if_neg h, dif_neg h, if_neg (by simp), if_neg h]
  have hcb : (fun j : Fin (A.c + 1) => if (sparseCenterLP A.coeff b κ).colKind j = .FR then (0 : F) else 0) =
      (sparseCenterLP A.coeff b κ).colBnd := by
    funext j
    show _ = (0 : F)
    simp
  have hrr : (fun i : Fin (A.r + κ) => if b.n ≤ i.val ∧ i.val < b.n + (A.r + κ - b.n) then (2 : Int) else if i.val < b.n then 5 else 0) =
      fun i => ((sparseCenterLP A.coeff b κ).rowKind i).code := by
    funext i
    show _ = (if i.val < b.n then Kind.FX else Kind.LO).code
    have := i.isLt
    by_cases h : i.val < b.n
    · rw [if_neg (by omega), if_pos h, if_pos h]; rfl
    · rw [if_pos (by omega), if_neg h]; rfl
  have hcr : (fun j : Fin (A.c + 1) => if A.c + 1 - κ - 1 ≤ j.val ∧ j.val < A.c + 1 - κ - 1 + (κ + 1) then (2 : Int) else
      if j.val < A.c + 1 - κ - 1 then 1 else 0) = fun j => ((sparseCenterLP A.coeff b κ).colKind j).code := by
    funext j
    show _ = (if j.val < A.c - κ then Kind.FR else Kind.LO).code
    have := j.isLt
    by_cases h : j.val < A.c - κ
    · rw [if_pos h, if_neg (by omega), if_pos (by omega)]; rfl
    · rw [if_neg h, if_pos (by omega)]; rfl
  have key' : SparseLP.findOptimalVector glp ⟨A.r + κ, A.c + 1, col⟩ ⟨A.r + κ, fun i => if i.val < b.n then b.fn i.val else 0⟩
      ⟨A.c + 1, fun j => if j.val = A.c + 1 - 1 then 1 else 0⟩ ⟨A.r + κ, fun i => ((sparseCenterLP A.coeff b κ).rowKind i).code⟩
      ⟨A.c + 1, fun _ => 0⟩ ⟨A.c + 1, fun j => ((sparseCenterLP A.coeff b κ).colKind j).code⟩ =
      findOptimalVector glp ⟨A.r + κ, A.c + 1, SpMat.coeff ⟨A.r + κ, A.c + 1, col⟩, fun j => if j.val = A.c + 1 - 1 then 1 else 0,
      (sparseCenterLP A.coeff b κ).rowKind, fun i => if (sparseCenterLP A.coeff b κ).rowKind i = .FR then 0 else
        if i.val < b.n then b.fn i.val else 0, (sparseCenterLP A.coeff b κ).colKind,
      fun j => if (sparseCenterLP A.coeff b κ).colKind j = .FR then 0 else 0⟩ := key
  rw [hmat, hobj, hrb, hcb] at key'
  rw [hrr, hcr]
  dsimp only
  rw [hobj]
  refine (congrArg (fun x : Out (Fin (A.c + 1) → F) => x.bind fun sol => if h : A.c + 1 - 1 = A.c then
    Out.ok fun j : Fin A.c => sol ⟨j.val, by omega⟩ else Out.ub UB.sizeMismatch) key').trans ?_
  simp only [Nat.add_sub_cancel, dif_pos]
  rfl

/-! ## `findZ` -/

/-- The stored entries of `A`, transposed. -/
def SpMat.flipped (A : SpMat F) : List (ℕ × ℕ × F) :=
  (List.finRange A.c).flatMap fun j => (A.col j).map fun e => (j.val, e.1.val, e.2)

theorem SpMat.mem_flipped {A : SpMat F} {i j : ℕ} {v : F} :
    (i, j, v) ∈ A.flipped ↔ ∃ (i' : Fin A.r) (j' : Fin A.c), (i', v) ∈ A.col j' ∧ i = j'.val ∧ j = i'.val := by
  unfold SpMat.flipped
  simp only [List.mem_flatMap, List.mem_finRange, true_and, List.mem_map, Prod.mk.injEq]
  constructor
  · rintro ⟨j', ⟨i', w⟩, h1, h2, h3, h4⟩
    exact ⟨i', j', h4 ▸ h1, h2.symm, h3.symm⟩
  · rintro ⟨i', j', h1, h2, h3⟩
    exact ⟨j', (i', v), h1, h2.symm, h3.symm, rfl⟩

theorem SpMat.Valid.flipped_nodup {A : SpMat F} (hA : A.Valid) : (A.flipped.map fun e => (e.1, e.2.1)).Nodup := by
  have h := hA.entries_nodup
  unfold SpMat.entries at h
  unfold SpMat.flipped
  rw [List.map_flatMap] at h ⊢
  have e : ((List.finRange A.c).flatMap fun j => ((A.col j).map fun e => (e.1.val + 1, j.val + 1, e.2)).map fun e => (e.1, e.2.1)) =
      ((List.finRange A.c).flatMap fun j => ((A.col j).map fun e => (j.val, e.1.val, e.2)).map fun e => (e.1, e.2.1)).map
        fun p => (p.2 + 1, p.1 + 1) := by
    rw [List.map_flatMap]
    simp [List.map_map, Function.comp_def]
  rw [e] at h
  exact h.of_map _

/-- The matrix built by `findZ` stores the transposed entries of `A` and the row `b`. -/
theorem findZMat_ok [Inhabited F] (A : SpMat F) (hA : A.Valid) (b : Fin A.r → F) :
    ∃ M, findZMat A ⟨A.r, b⟩ = .ok M ∧
      M.IsOf (A.c + 1) A.r (A.flipped ++ (List.range A.r).map fun i => (A.c, i, (⟨A.r, b⟩ : DVec F).fn i)) := by
  set bv : DVec F := ⟨A.r, b⟩
  have efl : ((List.finRange A.c).flatMap fun j => (A.col j).map fun e => (j, e)).map (fun p => (p.1.val, p.2.1.val, p.2.2)) = A.flipped := by
    unfold SpMat.flipped
    rw [List.map_flatMap]
    simp [List.map_map, Function.comp_def]
  have hn : ((A.flipped ++ (List.range A.r).map fun i => (A.c, i, bv.fn i)).map fun e => (e.1, e.2.1)).Nodup := by
    rw [List.map_append, List.nodup_append]
    refine ⟨hA.flipped_nodup, ?_, ?_⟩
    · rw [List.map_map]
      exact List.nodup_range.map fun a b h => by simpa using h
    · rintro ⟨x, y⟩ ha ⟨x', y'⟩ hb h
      simp only [Prod.mk.injEq] at h
      obtain ⟨rfl, rfl⟩ := h
      simp only [List.mem_map, Prod.exists, Prod.mk.injEq] at ha hb
      obtain ⟨_, _, v, ha, rfl, rfl⟩ := ha
      obtain ⟨_, _, w, ⟨t, ht, hb⟩, h1, h2⟩ := hb
      obtain ⟨i', j', -, h3, h4⟩ := SpMat.mem_flipped.1 ha
      have := j'.isLt
      omega
  obtain ⟨M1, h1, h2⟩ := SpMat.IsOf.forEach (r := A.c + 1) (c := A.r)
    (f := fun (M : SpMat F) (p : Fin A.c × (Fin A.r × F)) => M.insert p.1.val p.2.1.val p.2.2) (fun p => (p.1.val, p.2.1.val, p.2.2))
    (fun p M L h h1 h2 h3 => h.insert h1 h2 _ h3) ((List.finRange A.c).flatMap fun j => (A.col j).map fun e => (j, e))
    (SpMat.isOf_empty (F := F) (A.c + 1) A.r) (fun p _ => ⟨by have := p.1.isLt; simp only; omega, p.2.1.isLt⟩)
    (by rw [List.nil_append, efl]; exact hA.flipped_nodup)
  rw [List.nil_append, efl] at h2
  obtain ⟨M2, h3, h4⟩ := SpMat.IsOf.forEach (r := A.c + 1) (c := A.r)
    (f := fun (M : SpMat F) i => (bv.get i).bind fun v => M.insert A.c i v) (fun i => (A.c, i, bv.fn i))
    (fun i M L h h1 h2 h3 => by
      rw [bv.get_of_lt h2, Out.ok_bind]
      exact h.insert h1 h2 _ h3) (List.range A.r) h2 (fun i hi => ⟨by simp, by simpa using hi⟩) hn
  refine ⟨M2, ?_, h4⟩
  unfold findZMat
  rw [forEach_nested (fun (j : Fin A.c) (M : SpMat F) (e : Fin A.r × F) => M.insert j.val e.1.val e.2) A.col, h1, Out.ok_bind]
  exact h3

/-- **C81** (`findZ`). For every sparsity pattern the loops of `findZ` and the calls of `SparseLP` behave like the model used by the other
theorems. -/
theorem C81_findZ (glp : Glpk F) (gi : ℕ) (A : SpMat F) (hA : A.Valid) (b : Fin A.r → F) (xdim : ℕ) :
    findZCalls glp gi A ⟨A.r, b⟩ xdim = findZ glp gi A.coeff b xdim := by
  have : Inhabited F := ⟨0⟩
  unfold findZCalls findZ
  dsimp only
  by_cases hm : A.r = 0
  · rw [if_pos hm, if_pos hm]
  rw [if_neg hm, if_neg hm, DVec.zeros, DVec.put_ok _ (by omega), Out.ok_bind, DVec.zeros,
    forEach_put0 _ (fun i => if i < xdim then 5 else 2) A.c (by omega) (fun i _ w => by split <;> rfl), Out.ok_bind, DVec.put_ok _ (by omega),
    Out.ok_bind, DVec.zeros, forEach_put0 _ (fun _ => 1) A.r (le_refl _) (fun i _ w => rfl), Out.ok_bind]
  obtain ⟨M, hM, hof⟩ := findZMat_ok A hA b
  rw [hM, Out.ok_bind]
  obtain ⟨r, c, col⟩ := M
  obtain ⟨hr, hc, hval, hmem⟩ := hof
  simp only at hr hc
  subst hr hc
  have hmat : SpMat.coeff ⟨A.c + 1, A.r, col⟩ = fun i j => if h : i.val < A.c then A.coeff j ⟨i.val, h⟩ else b j := by
    funext i j
    change Fin (A.c + 1) at i
    change Fin A.r at j
    have hil := i.isLt
    simp only
    by_cases hi : i.val < A.c
    · rw [dif_pos hi]
      by_cases h : ∃ v, (j, v) ∈ A.col ⟨i.val, hi⟩
      · obtain ⟨v, hv⟩ := h
        rw [SpMat.coeff_of_mem hA hv]
        exact SpMat.coeff_of_mem hval ((hmem i j v).2 (List.mem_append_left _ (SpMat.mem_flipped.2 ⟨j, _, hv, rfl, rfl⟩)))
      · push Not at h
        rw [SpMat.coeff_of_not_mem h]
        refine SpMat.coeff_of_not_mem fun v hv => ?_
        rcases List.mem_append.1 ((hmem i j v).1 hv) with h' | h'
        · obtain ⟨i', j', h1, h2, h3⟩ := SpMat.mem_flipped.1 h'
          exact h v (by rwa [show j = i' from Fin.ext h3, show (⟨i.val, hi⟩ : Fin A.c) = j' from Fin.ext h2])
        · simp only [List.mem_map, Prod.mk.injEq] at h'
          obtain ⟨_, _, h1, _⟩ := h'
          omega
    · rw [dif_neg hi]
      refine SpMat.coeff_of_mem hval ((hmem i j (b j)).2 (List.mem_append_right _ ?_))
      simp only [List.mem_map, Prod.mk.injEq, List.mem_range]
      exact ⟨j.val, j.isLt, by omega, rfl, by rw [DVec.fn, dif_pos (show j.val < A.r from j.isLt)]⟩
  have hobj : (fun j : Fin A.r => if j.val = A.r - 1 then (1 : F) else 0) = fun j => if j.val + 1 = A.r then 1 else 0 := by
    funext j
    have := j.isLt
    by_cases h : j.val = A.r - 1
    · rw [if_pos h, if_pos (by omega)]
    · rw [if_neg h, if_neg (by omega)]
  have solve : ∀ (rel : Fin (A.c + 1) → Kind) (bnd : Fin (A.c + 1) → F), (∀ i, rel i ≠ .FR) →
      SparseLP.findOptimalVector glp ⟨A.c + 1, A.r, col⟩ ⟨A.c + 1, bnd⟩ ⟨A.r, fun j => if j.val = A.r - 1 then 1 else 0⟩
        ⟨A.c + 1, fun i => (rel i).code⟩ ⟨A.r, fun _ => 0⟩ ⟨A.r, fun j => if j.val < A.r then 1 else 0⟩ =
      findOptimalVector glp (findZLP A.coeff b rel bnd) := by
    intro rel bnd hrel
    have key : SparseLP.findOptimalVector glp ⟨A.c + 1, A.r, col⟩ ⟨A.c + 1, bnd⟩ ⟨A.r, fun j => if j.val = A.r - 1 then 1 else 0⟩
        ⟨A.c + 1, fun i => (rel i).code⟩ ⟨A.r, fun _ => 0⟩ ⟨A.r, fun _ => Kind.FR.code⟩ =
        findOptimalVector glp ⟨A.c + 1, A.r, SpMat.coeff ⟨A.c + 1, A.r, col⟩, fun j => if j.val = A.r - 1 then 1 else 0, rel,
          fun i => if rel i = .FR then 0 else bnd i, fun _ => .FR, fun _ => if Kind.FR = .FR then 0 else 0⟩ :=
      C81_sparseLP glp ⟨A.c + 1, A.r, col⟩ hval bnd (fun j => if j.val = A.r - 1 then 1 else 0) rel (fun _ => 0) (fun _ => .FR)
    have e1 : (fun i => if rel i = .FR then 0 else bnd i) = bnd := by funext i; rw [if_neg (hrel i)]
    have e2 : (fun j : Fin A.r => if j.val < A.r then (1 : Int) else 0) = fun _ => Kind.FR.code := by
      funext j; rw [if_pos j.isLt]; rfl
    rw [hmat, e1, hobj] at key
    rw [e2, hobj]
    exact key
  have loop : ∀ (left i : ℕ), i + left ≤ A.c → ∀ (rel : Fin (A.c + 1) → Kind) (bnd : Fin (A.c + 1) → F), (∀ i, rel i ≠ .FR) →
      findZLoopCalls glp A ⟨A.c + 1, A.r, col⟩ ⟨A.r, fun j => if j.val = A.r - 1 then 1 else 0⟩ ⟨A.r, fun _ => 0⟩
        ⟨A.r, fun j => if j.val < A.r then 1 else 0⟩ left i ⟨A.c + 1, fun i => (rel i).code⟩ ⟨A.c + 1, bnd⟩ =
      findZLoop glp A.coeff b left i rel bnd := by
    intro left
    induction left with
    | zero => intro i _ rel bnd _; rfl
    | succ left ih =>
      intro i hi rel bnd hrel
      have put : ∀ (rel : Fin (A.c + 1) → Kind) (K : Kind), (⟨A.c + 1, fun i => (rel i).code⟩ : DVec Int).put i K.code =
          .ok ⟨A.c + 1, fun l => (setAt rel i K l).code⟩ := fun rel K => by
        rw [DVec.put_ok _ (by omega)]
        congr 2
        funext l
        unfold setAt
        split <;> rfl
      have p5 : ∀ rel : Fin (A.c + 1) → Kind, (⟨A.c + 1, fun i => (rel i).code⟩ : DVec Int).put i 5 =
          .ok ⟨A.c + 1, fun l => (setAt rel i .FX l).code⟩ := fun rel => put rel .FX
      have p2 : ∀ rel : Fin (A.c + 1) → Kind, (⟨A.c + 1, fun i => (rel i).code⟩ : DVec Int).put i 2 =
          .ok ⟨A.c + 1, fun l => (setAt rel i .LO l).code⟩ := fun rel => put rel .LO
      have putb : ∀ (bnd : Fin (A.c + 1) → F) (a : F), (⟨A.c + 1, bnd⟩ : DVec F).put i a = .ok ⟨A.c + 1, setAt bnd i a⟩ := fun bnd a => by
        rw [DVec.put_ok _ (by omega)]
        rfl
      have hne : ∀ K : Kind, K ≠ .FR → ∀ rel : Fin (A.c + 1) → Kind, (∀ i, rel i ≠ .FR) → ∀ l, setAt rel i K l ≠ .FR := fun K hK rel h l => by
        unfold setAt
        split
        · exact hK
        · exact h l
      unfold findZLoopCalls findZLoop
      rw [p5, Out.ok_bind, putb, Out.ok_bind, solve _ _ (hne .FX (by simp) rel hrel)]
      dsimp only
      congr 1
      funext sol
      by_cases hs : (!(Scalar.eq (vsum fun j => Scalar.abs (sol j)) 0)) = true
      · exact (if_pos hs).trans ((dif_pos rfl).trans (if_pos hs).symm)
      · refine (if_neg hs).trans (Eq.trans ?_ (if_neg hs).symm)
        rw [p2, Out.ok_bind, putb, Out.ok_bind]
        exact ih (i + 1) (by omega) _ _ (hne .LO (by simp) _ (hne .FX (by simp) rel hrel))
  have hrel : (fun j : Fin (A.c + 1) => if j.val = A.c then (5 : Int) else if j.val < A.c then if j.val < xdim then 5 else 2 else 0) =
      fun j => (findZRel A.c xdim j).code := by
    funext j
    have := j.isLt
    unfold findZRel
    by_cases h : j.val = A.c
    · rw [if_pos h, if_pos h]; rfl
    · rw [if_neg h, if_neg h, if_pos (by omega)]
      by_cases h' : j.val < xdim
      · rw [if_pos h', if_pos h']; rfl
      · rw [if_neg h', if_neg h']; rfl
  rw [hrel]
  by_cases hg : gi ≤ A.c
  · refine loop (A.c - gi) gi (by omega) (findZRel A.c xdim) (fun _ => 0) fun i => ?_
    unfold findZRel
    split
    · simp
    · split <;> simp
  · rw [show A.c - gi = 0 by omega]
    rfl

/-! ## A concrete case -/

/-- A `2 × 3` matrix with a stored zero, entries out of order and an empty column. -/
noncomputable def exMat : SpMat ℝ := ⟨2, 3, ![[(1, 5), (0, 2)], [], [(0, 0)]]⟩

theorem exMat_valid : exMat.Valid := by
  intro j
  change Fin 3 at j
  fin_cases j <;> simp [exMat]

/-- Its hypotheses hold, three entries are stored, and the coefficients are as expected. -/
example : exMat.Valid ∧ exMat.nonZeros = 3 ∧ exMat.coeff (0 : Fin 2) (0 : Fin 3) = 2 ∧ exMat.coeff (1 : Fin 2) (0 : Fin 3) = 5 ∧
    exMat.coeff (0 : Fin 2) (1 : Fin 3) = 0 := by
  refine ⟨exMat_valid, by decide, ?_, ?_, ?_⟩
  · exact SpMat.coeff_of_mem exMat_valid (i := (0 : Fin 2)) (j := (0 : Fin 3)) (List.mem_cons_of_mem _ (List.mem_singleton.2 rfl))
  · exact SpMat.coeff_of_mem exMat_valid (i := (1 : Fin 2)) (j := (0 : Fin 3)) List.mem_cons_self
  · exact SpMat.coeff_of_not_mem (A := exMat) (i := (0 : Fin 2)) (j := (1 : Fin 3)) fun v => List.not_mem_nil

/-- The centre of the square `[-1, 1]²`: the calls reach the solver. -/
example (glp : Glpk ℝ) : ∃ x, DenseCenter.getInitialPointCalls glp ⟨4, 2, !![1, 0; -1, 0; 0, 1; 0, -1]⟩ ⟨4, fun _ => 1⟩ = .ok x := by
  rw [C81_denseCenter]
  exact ⟨_, if_neg (by simp)⟩

end PW

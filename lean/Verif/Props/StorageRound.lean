import Verif.Props.Storage

/-!
# C81: the selection matrices of facial reduction
-/

namespace PW
open Matrix

variable {F : Type} [Scalar F]

/-- The triplets of a 0/1 matrix with one entry per row: row `t` selects position `l[t]`. -/
def selTriplets {n : ℕ} (l : List (Fin n)) : List (ℕ × ℕ × F) := l.mapIdx fun t i => (t, i.val, 1)

theorem selTriplets_snoc {n : ℕ} (l : List (Fin n)) (i : Fin n) :
    selTriplets (F := F) (l ++ [i]) = selTriplets l ++ [((selTriplets (F := F) l).length, i.val, 1)] := by
  unfold selTriplets
  rw [List.mapIdx_append]
  simp

/-- `pickV` collects triplets one by one; they select the columns of the model. -/
theorem pickVTriplets_eq {n : ℕ} (ERR : F) (z : Fin n → F) {xdim : ℕ} (hx : xdim ≤ n) :
    pickVTriplets ERR z xdim = selTriplets (pickV ERR z xdim) := by
  have key : ∀ (l : List (Fin n)) (acc : List (Fin n)), l.foldl (fun (l : List (ℕ × ℕ × F)) i =>
      if xdim ≤ i.val ∧ Scalar.lt (z i) ERR then l ++ [(l.length, i.val, 1)] else l) (selTriplets acc) =
      selTriplets (acc ++ l.filter fun i => decide (xdim ≤ i.val ∧ Scalar.lt (z i) ERR)) := by
    intro l
    induction l with
    | nil => intro acc; simp
    | cons a l ih =>
      intro acc
      rw [List.foldl_cons, List.filter_cons]
      by_cases h : xdim ≤ a.val ∧ Scalar.lt (z a) ERR = true
      · rw [if_pos h, if_pos (by simpa using h), ← selTriplets_snoc, ih]
        simp
      · rw [if_neg h, if_neg (by simpa using h), ih]
  obtain ⟨r, rfl⟩ : ∃ r, n = xdim + r := ⟨n - xdim, by omega⟩
  have split : List.finRange (xdim + r) = (List.finRange xdim).map (Fin.castAdd r) ++ (List.finRange r).map (Fin.natAdd xdim) := by
    apply List.ext_getElem
    · simp
    · intro i h1 h2
      simp only [List.getElem_append, List.getElem_map, List.getElem_finRange, List.length_map, List.length_finRange]
      split
      · rfl
      · apply Fin.ext
        simp
        omega
  have h1 : (List.range (min xdim (xdim + r))).map (fun i => (i, i, (1 : F))) = selTriplets ((List.finRange xdim).map (Fin.castAdd r)) := by
    apply List.ext_getElem <;> simp [selTriplets]
  unfold pickVTriplets
  dsimp only
  rw [h1, key]
  congr 1
  unfold pickV
  rw [split, List.filter_append, List.filter_append]
  have e1 : ((List.finRange xdim).map (Fin.castAdd r)).filter (fun i => decide (xdim ≤ i.val ∧ Scalar.lt (z i) ERR = true)) = [] := by
    rw [List.filter_eq_nil_iff]
    intro a ha
    rw [List.mem_map] at ha
    obtain ⟨i, -, rfl⟩ := ha
    have := i.isLt
    simp only [Fin.val_castAdd, decide_eq_true_eq]
    omega
  have e2 : ((List.finRange xdim).map (Fin.castAdd r)).filter (fun i => decide (i.val < xdim) || Scalar.lt (z i) ERR) =
      (List.finRange xdim).map (Fin.castAdd r) := by
    rw [List.filter_eq_self]
    intro a ha
    rw [List.mem_map] at ha
    obtain ⟨i, -, rfl⟩ := ha
    simp
  rw [e1, e2, List.nil_append]
  congr 1
  refine List.filter_congr fun a ha => ?_
  rw [List.mem_map] at ha
  obtain ⟨i, -, rfl⟩ := ha
  simp

/-- `pickP` collects triplets one by one; they select the rows of the model. -/
theorem pickPTriplets_eq {m n : ℕ} (E : Eigen F) (ERR : F) (AV : Matrix (Fin m) (Fin n) F) :
    pickPTriplets E ERR AV = selTriplets (pickP E ERR AV) := by
  unfold pickPTriplets pickP
  dsimp only
  generalize List.finRange m = l
  have key : ∀ (l : List (Fin m)) (acc : List (Fin m)), l.foldl (fun (l : List (ℕ × ℕ × F)) i =>
      if h : i.val < n then
        if Scalar.lt ERR (Scalar.abs ((E.sparseQR (transp AV)).R ⟨i.val, h⟩ i)) then
          l ++ [(l.length, ((E.sparseQR (transp AV)).perm i).val, 1)] else l
      else l) (selTriplets acc) = selTriplets (acc ++ l.filterMap fun i =>
        if h : i.val < n then
          if Scalar.lt ERR (Scalar.abs ((E.sparseQR (transp AV)).R ⟨i.val, h⟩ i)) then some ((E.sparseQR (transp AV)).perm i) else none
        else none) := by
    intro l
    induction l with
    | nil => intro acc; simp
    | cons a l ih =>
      intro acc
      rw [List.foldl_cons, List.filterMap_cons]
      by_cases h : a.val < n
      · rw [dif_pos h, dif_pos h]
        by_cases h' : Scalar.lt ERR (Scalar.abs ((E.sparseQR (transp AV)).R ⟨a.val, h⟩ a)) = true
        · rw [if_pos h', if_pos h', ← selTriplets_snoc, ih]
          simp
        · rw [if_neg h', if_neg h', ih]
      · rw [dif_neg h, dif_neg h, ih]
  exact (key l []).trans (by rw [List.nil_append])

/-- The matrix built from selection triplets: row `t` has a single 1 in column `l[t]`. -/
theorem ofTriplets_sel {n : ℕ} (l : List (Fin n)) :
    ∃ col, SpMat.ofTriplets l.length n (selTriplets (F := F) l) = .ok ⟨l.length, n, col⟩ ∧
      SpMat.coeff ⟨l.length, n, col⟩ = fun t i => if l.get t = i then (1 : F) else 0 := by
  have hmem : ∀ t i (v : F), (t, i, v) ∈ selTriplets (F := F) l ↔ ∃ h : t < l.length, i = (l[t]).val ∧ v = 1 := by
    intro t i v
    unfold selTriplets
    rw [List.mem_mapIdx]
    constructor
    · rintro ⟨t', h, he⟩
      simp only [Prod.mk.injEq] at he
      obtain ⟨rfl, rfl, rfl⟩ := he
      exact ⟨h, rfl, rfl⟩
    · rintro ⟨h, rfl, rfl⟩
      exact ⟨t, h, rfl⟩
  obtain ⟨M, hM, hof⟩ := SpMat.ofTriplets_ok (r := l.length) (c := n) (selTriplets (F := F) l) (fun ⟨t, i, v⟩ he => by
      obtain ⟨h, rfl, -⟩ := (hmem t i v).1 he
      exact ⟨h, (l[t]).isLt⟩) (by
      have : (((selTriplets (F := F) l).map fun e => (e.1, e.2.1)).map Prod.fst).Nodup := by
        rw [show ((selTriplets (F := F) l).map fun e => (e.1, e.2.1)).map Prod.fst = List.range l.length from by
          apply List.ext_getElem <;> simp [selTriplets]]
        exact List.nodup_range
      exact this.of_map _)
  obtain ⟨r, c, col⟩ := M
  obtain ⟨hr, hc, hval, hm⟩ := hof
  simp only at hr hc
  subst hr hc
  refine ⟨col, hM, ?_⟩
  funext t i
  by_cases h : l.get t = i
  · rw [if_pos h]
    exact SpMat.coeff_of_mem hval ((hm t i 1).2 ((hmem _ _ _).2 ⟨t.isLt, by rw [← h]; rfl, rfl⟩))
  · rw [if_neg h]
    refine SpMat.coeff_of_not_mem fun v hv => h ?_
    obtain ⟨h1, h2, -⟩ := (hmem _ _ _).1 ((hm t i v).1 hv)
    exact (Fin.ext h2).symm

/-- **C81** (facial reduction). The matrix `V` built by `pickV` and the matrix `P` built by `pickP` exist, and one round of facial reduction
is what the code writes: `savedV * V`, `P * (A * V)`, `P * b`. -/
theorem C81_round (E : Eigen ℝ) (ERR : ℝ) {d xdim : ℕ} (s : FRResult ℝ d) (hx : xdim ≤ s.c) (z : Fin s.c → ℝ) :
    ∃ (V : Matrix (Fin s.c) (Fin (pickV ERR z xdim).length) ℝ)
      (P : Matrix (Fin (pickP E ERR (s.A * V)).length) (Fin s.r) ℝ),
      (∃ col, SpMat.ofTriplets (pickV ERR z xdim).length s.c (pickVTriplets ERR z xdim) = .ok ⟨_, _, col⟩ ∧ V = (SpMat.coeff ⟨_, _, col⟩)ᵀ) ∧
      (∃ col, SpMat.ofTriplets (pickP E ERR (s.A * V)).length s.r (pickPTriplets E ERR (s.A * V)) = .ok ⟨_, _, col⟩ ∧
        P = SpMat.coeff ⟨_, _, col⟩) ∧
      frRound E ERR xdim s z = ⟨_, _, P * (s.A * V), P *ᵥ s.b, s.V * V⟩ := by
  obtain ⟨vc, hv1, hv2⟩ := ofTriplets_sel (F := ℝ) (pickV ERR z xdim)
  have hsel : ∀ {p : ℕ} (B : Matrix (Fin p) (Fin s.c) ℝ), B * (SpMat.coeff ⟨_, _, vc⟩)ᵀ = fun i j => B i ((pickV ERR z xdim).get j) := by
    intro p B
    funext i j
    rw [Matrix.mul_apply, hv2]
    show ∑ x, B i x * (if (pickV ERR z xdim).get j = x then (1 : ℝ) else 0) = _
    simp
  obtain ⟨pc, hp1, hp2⟩ := ofTriplets_sel (F := ℝ) (pickP E ERR (s.A * (SpMat.coeff ⟨_, _, vc⟩)ᵀ))
  refine ⟨(SpMat.coeff ⟨_, _, vc⟩)ᵀ, SpMat.coeff ⟨_, _, pc⟩, ⟨vc, by rw [pickVTriplets_eq ERR z hx, hv1], rfl⟩,
    ⟨pc, by rw [pickPTriplets_eq, hp1], rfl⟩, ?_⟩
  have hs : s.selectCols (pickV ERR z xdim) = ⟨s.r, _, s.A * (SpMat.coeff ⟨_, _, vc⟩)ᵀ, s.b, s.V * (SpMat.coeff ⟨_, _, vc⟩)ᵀ⟩ := by
    rw [hsel, hsel]; rfl
  unfold frRound
  dsimp only
  rw [hs]
  unfold FRResult.selectRows
  dsimp only
  generalize s.A * (SpMat.coeff ⟨_, _, vc⟩)ᵀ = AV at *
  congr 1
  · funext i j
    rw [Matrix.mul_apply, hp2]
    show _ = ∑ x, (if (pickP E ERR AV).get i = x then (1 : ℝ) else 0) * AV x j
    simp
  · funext i
    rw [hp2]
    show _ = ∑ x, (if (pickP E ERR AV).get i = x then (1 : ℝ) else 0) * s.b x
    simp

/-- **C81** (facial reduction). The preliminary removal of dependent rows is `P * A`, `P * b` as well. -/
theorem C81_start (E : Eigen ℝ) (ERR : ℝ) {m n : ℕ} (A : Matrix (Fin m) (Fin n) ℝ) (b : Fin m → ℝ) :
    ∃ P : Matrix (Fin (pickP E ERR A).length) (Fin m) ℝ,
      (∃ col, SpMat.ofTriplets (pickP E ERR A).length m (pickPTriplets E ERR A) = .ok ⟨_, _, col⟩ ∧ P = SpMat.coeff ⟨_, _, col⟩) ∧
      frStart E ERR A b = ⟨_, _, P * A, P *ᵥ b, (1 : Matrix (Fin n) (Fin n) ℝ)⟩ := by
  obtain ⟨pc, hp1, hp2⟩ := ofTriplets_sel (F := ℝ) (pickP E ERR A)
  refine ⟨SpMat.coeff ⟨_, _, pc⟩, ⟨pc, by rw [pickPTriplets_eq, hp1], rfl⟩, ?_⟩
  unfold frStart FRResult.selectRows
  dsimp only
  congr 1
  · funext i j
    rw [Matrix.mul_apply, hp2]
    show _ = ∑ x, (if (pickP E ERR A).get i = x then (1 : ℝ) else 0) * A x j
    simp
  · funext i
    rw [hp2]
    show _ = ∑ x, (if (pickP E ERR A).get i = x then (1 : ℝ) else 0) * b x
    simp

end PW

import Verif.Lemmas.Storage

/-!
# Tools: sparse matrices built from triplets, vectors filled by loops
-/

namespace PW

variable {F : Type} [Scalar F]

/-- `M` is an `r × c` matrix storing exactly the entries `L`, each position once. -/
structure SpMat.IsOf (M : SpMat F) (r c : ℕ) (L : List (ℕ × ℕ × F)) : Prop where
  r : M.r = r
  c : M.c = c
  valid : M.Valid
  mem : ∀ (i : Fin M.r) (j : Fin M.c) (v : F), (i, v) ∈ M.col j ↔ (i.val, j.val, v) ∈ L

theorem SpMat.isOf_empty (r c : ℕ) : (SpMat.empty (F := F) r c).IsOf r c [] :=
  ⟨rfl, rfl, fun j => by simp [SpMat.empty], fun i j v => ⟨fun h => absurd h (List.not_mem_nil (a := (i, v))), fun h => absurd h List.not_mem_nil⟩⟩

/-- Appending one entry at a free position. -/
theorem SpMat.IsOf.append {M : SpMat F} {r c : ℕ} {L : List (ℕ × ℕ × F)} (h : M.IsOf r c L) {i j : ℕ} (hi : i < M.r) (_hj : j < M.c) (v : F)
    (hfree : ∀ v, (i, j, v) ∉ L) :
    SpMat.IsOf ⟨M.r, M.c, fun l => if l.val = j then M.col l ++ [(⟨i, hi⟩, v)] else M.col l⟩ r c (L ++ [(i, j, v)]) := by
  refine ⟨h.r, h.c, fun l => ?_, fun i' j' w => ?_⟩
  · show (List.map Prod.fst (if l.val = j then _ else _)).Nodup
    by_cases hl : l.val = j
    · rw [if_pos hl, List.map_append, List.nodup_append]
      refine ⟨h.valid l, by simp, fun a ha b hb => ?_⟩
      rintro rfl
      rw [List.mem_map] at ha
      obtain ⟨⟨a', w⟩, h1, rfl⟩ := ha
      simp only [List.map_cons, List.map_nil, List.mem_singleton] at hb
      have := (h.mem a' l w).1 h1
      rw [hl, hb] at this
      exact hfree w this
    · rw [if_neg hl]; exact h.valid l
  · show (i', w) ∈ (if j'.val = j then _ else _) ↔ _
    rw [List.mem_append, List.mem_singleton, Prod.mk.injEq, Prod.mk.injEq, ← h.mem i' j' w]
    by_cases hl : j'.val = j
    · rw [if_pos hl, List.mem_append, List.mem_singleton, Prod.mk.injEq, Fin.ext_iff]
      constructor
      · rintro (h1 | ⟨h1, h2⟩)
        · exact Or.inl h1
        · exact Or.inr ⟨h1, hl, h2⟩
      · rintro (h1 | ⟨h1, _, h2⟩)
        · exact Or.inl h1
        · exact Or.inr ⟨h1, h2⟩
    · rw [if_neg hl]
      exact ⟨Or.inl, fun h' => h'.resolve_right fun h'' => hl h''.2.1⟩

theorem SpMat.IsOf.any_false {M : SpMat F} {r c : ℕ} {L : List (ℕ × ℕ × F)} (h : M.IsOf r c L) {i : ℕ} (l : Fin M.c)
    (hfree : ∀ v, (i, l.val, v) ∉ L) : ((M.col l).any fun e => e.1.val == i) = false := by
  rw [List.any_eq_false]
  rintro ⟨i', w⟩ he
  simp only [beq_iff_eq]
  rintro rfl
  exact hfree w ((h.mem i' l w).1 he)

theorem SpMat.IsOf.addTriplet {M : SpMat F} {r c : ℕ} {L : List (ℕ × ℕ × F)} (h : M.IsOf r c L) {i j : ℕ} (hi : i < r) (hj : j < c) (v : F)
    (hfree : ∀ v, (i, j, v) ∉ L) : ∃ M', M.addTriplet (i, j, v) = .ok M' ∧ M'.IsOf r c (L ++ [(i, j, v)]) := by
  have hi' : i < M.r := by rw [h.r]; exact hi
  have hj' : j < M.c := by rw [h.c]; exact hj
  refine ⟨_, ?_, h.append hi' hj' v hfree⟩
  unfold SpMat.addTriplet
  rw [dif_pos hi', dif_pos hj']
  congr 2
  funext l
  by_cases hl : l.val = j
  · rw [if_pos hl, if_pos hl, h.any_false l (by rw [hl]; exact hfree)]
    rfl
  · rw [if_neg hl, if_neg hl]

theorem SpMat.IsOf.insert {M : SpMat F} {r c : ℕ} {L : List (ℕ × ℕ × F)} (h : M.IsOf r c L) {i j : ℕ} (hi : i < r) (hj : j < c) (v : F)
    (hfree : ∀ v, (i, j, v) ∉ L) : ∃ M', M.insert i j v = .ok M' ∧ M'.IsOf r c (L ++ [(i, j, v)]) := by
  have hi' : i < M.r := by rw [h.r]; exact hi
  have hj' : j < M.c := by rw [h.c]; exact hj
  refine ⟨_, ?_, h.append hi' hj' v hfree⟩
  unfold SpMat.insert
  rw [dif_pos hi', dif_pos hj', h.any_false ⟨j, hj'⟩ hfree]
  rfl

/-- A loop that adds one entry per round, at different positions within the matrix. -/
theorem SpMat.IsOf.forEach {α : Type} {r c : ℕ} {f : SpMat F → α → Out (SpMat F)} (E : α → ℕ × ℕ × F)
    (hf : ∀ (a : α) (M : SpMat F) (L : List (ℕ × ℕ × F)), M.IsOf r c L → (E a).1 < r → (E a).2.1 < c →
      (∀ v, ((E a).1, (E a).2.1, v) ∉ L) → ∃ M', f M a = .ok M' ∧ M'.IsOf r c (L ++ [E a])) (l : List α) :
    ∀ {M : SpMat F} {L : List (ℕ × ℕ × F)}, M.IsOf r c L → (∀ a ∈ l, (E a).1 < r ∧ (E a).2.1 < c) →
      ((L ++ l.map E).map fun e => (e.1, e.2.1)).Nodup → ∃ M', PW.forEach f l M = .ok M' ∧ M'.IsOf r c (L ++ l.map E) := by
  induction l with
  | nil => intro M L h _ _; exact ⟨M, rfl, by simpa using h⟩
  | cons a l ih =>
    intro M L h hr hn
    have hfree : ∀ v, ((E a).1, (E a).2.1, v) ∉ L := by
      intro v hv
      rw [List.map_append, List.nodup_append] at hn
      refine hn.2.2 _ (List.mem_map_of_mem hv) ((E a).1, (E a).2.1) ?_ rfl
      simp
    obtain ⟨M1, h1, h2⟩ := hf a M L h (hr a (by simp)).1 (hr a (by simp)).2 hfree
    obtain ⟨M2, h3, h4⟩ := ih h2 (fun a ha => hr a (by simp [ha])) (by simpa using hn)
    refine ⟨M2, ?_, by simpa using h4⟩
    show (f M a).bind _ = _
    rw [h1]
    exact h3

theorem SpMat.ofTriplets_ok {r c : ℕ} (L : List (ℕ × ℕ × F)) (hr : ∀ e ∈ L, e.1 < r ∧ e.2.1 < c)
    (hn : (L.map fun e => (e.1, e.2.1)).Nodup) : ∃ M, SpMat.ofTriplets r c L = .ok M ∧ M.IsOf r c L := by
  have := SpMat.IsOf.forEach (f := SpMat.addTriplet) (fun e => e) (fun e M L h h1 h2 h3 => h.addTriplet h1 h2 _ h3) L
    (SpMat.isOf_empty (F := F) r c) hr (by simpa using hn)
  simpa [SpMat.ofTriplets] using this

/-! ## Vectors -/

theorem DVec.put_ok {α : Type} {n : ℕ} (v : Fin n → α) {i : ℕ} (hi : i < n) (a : α) :
    (⟨n, v⟩ : DVec α).put i a = .ok ⟨n, fun j => if j.val = i then a else v j⟩ := if_pos hi

theorem forEach_put {α : Type} {f : DVec α → ℕ → Out (DVec α)} {n : ℕ} (v : Fin n → α) (a : ℕ → α) (lo k : ℕ) (h : lo + k ≤ n)
    (hf : ∀ i, lo ≤ i → i < lo + k → ∀ w : DVec α, f w i = w.put i (a i)) :
    forEach f (List.range' lo k) ⟨n, v⟩ = .ok ⟨n, fun j => if lo ≤ j.val ∧ j.val < lo + k then a j.val else v j⟩ := by
  obtain ⟨w, h1, h2⟩ := forEach_range' (f := f) (fun t w => w = ⟨n, fun j => if lo ≤ j.val ∧ j.val < t then a j.val else v j⟩) lo k ⟨n, v⟩
    (by
      have : ∀ j : Fin n, ¬ (lo ≤ j.val ∧ j.val < lo) := fun j => by omega
      simp only [this, if_false])
    (by
      rintro t ht1 ht2 w rfl
      refine ⟨_, by rw [hf t ht1 ht2, DVec.put_ok _ (by omega)], ?_⟩
      congr 1
      funext j
      by_cases hj : j.val = t
      · rw [if_pos hj, if_pos (by omega), hj]
      · rw [if_neg hj]
        by_cases h1 : lo ≤ j.val ∧ j.val < t
        · rw [if_pos h1, if_pos (by omega)]
        · rw [if_neg h1, if_neg (by omega)])
  rw [h1, h2]

theorem forEach_put0 {α : Type} {f : DVec α → ℕ → Out (DVec α)} {n : ℕ} (v : Fin n → α) (a : ℕ → α) (k : ℕ) (h : k ≤ n)
    (hf : ∀ i, i < k → ∀ w : DVec α, f w i = w.put i (a i)) :
    forEach f (List.range k) ⟨n, v⟩ = .ok ⟨n, fun j => if j.val < k then a j.val else v j⟩ := by
  rw [List.range_eq_range', forEach_put v a 0 k (by omega) fun i _ h2 w => hf i (by omega) w]
  simp

end PW

import Verif.Spec.Storage

/-!
# Tools: loops, triplet arrays, GLPK calls
-/

namespace PW

variable {F : Type} [Scalar F]

/-! ## Loops -/

theorem forEach_append {σ α : Type} (f : σ → α → Out σ) (l l' : List α) : ∀ s, forEach f (l ++ l') s = (forEach f l s).bind (forEach f l') := by
  induction l with
  | nil => intro s; rfl
  | cons a l ih =>
    intro s
    show (f s a).bind (forEach f (l ++ l')) = ((f s a).bind (forEach f l)).bind (forEach f l')
    rw [Out.bind_assoc, show forEach f (l ++ l') = fun s => (forEach f l s).bind (forEach f l') from funext ih]

theorem forEach_map {σ α β : Type} (f : σ → β → Out σ) (g : α → β) (l : List α) :
    ∀ s, forEach f (l.map g) s = forEach (fun s a => f s (g a)) l s := by
  induction l with
  | nil => intro s; rfl
  | cons a l ih =>
    intro s
    show (f s (g a)).bind (forEach f (l.map g)) = (f s (g a)).bind (forEach (fun s a => f s (g a)) l)
    rw [show forEach f (l.map g) = forEach (fun s a => f s (g a)) l from funext ih]

/-- A nested loop is a loop over all pairs. -/
theorem forEach_nested {σ α β : Type} (g : α → σ → β → Out σ) (E : α → List β) (l : List α) :
    ∀ s, forEach (fun s a => forEach (g a) (E a) s) l s = forEach (fun s p => g p.1 s p.2) (l.flatMap fun a => (E a).map fun e => (a, e)) s := by
  induction l with
  | nil => intro s; rfl
  | cons a l ih =>
    intro s
    rw [List.flatMap_cons, forEach_append, forEach_map]
    show (forEach (g a) (E a) s).bind (forEach _ l) = _
    rw [show forEach (fun s a => forEach (g a) (E a) s) l =
      forEach (fun s p => g p.1 s p.2) (l.flatMap fun a => (E a).map fun e => (a, e)) from funext ih]

theorem forEach_inv {σ α : Type} {f : σ → α → Out σ} (I : ℕ → σ → Prop) (l : List α) :
    ∀ (k : ℕ) (s : σ), I k s → (∀ (t : ℕ) (h : t < l.length) (s : σ), I (k + t) s → ∃ s', f s l[t] = .ok s' ∧ I (k + t + 1) s') →
    ∃ s', forEach f l s = .ok s' ∧ I (k + l.length) s' := by
  induction l with
  | nil => intro k s h _; exact ⟨s, rfl, h⟩
  | cons a l ih =>
    intro k s h hs
    obtain ⟨s1, h1, h2⟩ := hs 0 (by simp) s h
    obtain ⟨s2, h3, h4⟩ := ih (k + 1) s1 h2 fun t ht s hI => by
      obtain ⟨s', e1, e2⟩ := hs (t + 1) (by simpa using ht) s (by rw [show k + (t + 1) = k + 1 + t by omega]; exact hI)
      exact ⟨s', by simpa using e1, by rw [show k + 1 + t + 1 = k + (t + 1) + 1 by omega]; exact e2⟩
    refine ⟨s2, ?_, by rw [List.length_cons, show k + (l.length + 1) = k + 1 + l.length by omega]; exact h4⟩
    show (f s a).bind _ = _
    rw [show f s a = .ok s1 from by simpa using h1]
    exact h3

theorem forEach_range {σ : Type} {f : σ → ℕ → Out σ} (I : ℕ → σ → Prop) (n : ℕ) (s : σ) (h0 : I 0 s)
    (hs : ∀ t < n, ∀ s, I t s → ∃ s', f s t = .ok s' ∧ I (t + 1) s') : ∃ s', forEach f (List.range n) s = .ok s' ∧ I n s' := by
  obtain ⟨s', h1, h2⟩ := forEach_inv (f := f) I (List.range n) 0 s h0 fun t ht s hI => by
    obtain ⟨s', e1, e2⟩ := hs t (by simpa using ht) s (by simpa using hI)
    exact ⟨s', by simpa using e1, by simpa using e2⟩
  exact ⟨s', h1, by simpa using h2⟩

theorem forEach_range' {σ : Type} {f : σ → ℕ → Out σ} (I : ℕ → σ → Prop) (a n : ℕ) (s : σ) (h0 : I a s)
    (hs : ∀ t, a ≤ t → t < a + n → ∀ s, I t s → ∃ s', f s t = .ok s' ∧ I (t + 1) s') :
    ∃ s', forEach f (List.range' a n) s = .ok s' ∧ I (a + n) s' := by
  obtain ⟨s', h1, h2⟩ := forEach_inv (f := f) I (List.range' a n) a s h0 fun t ht s hI => by
    have ht : t < n := by simpa using ht
    obtain ⟨s', e1, e2⟩ := hs (a + t) (by omega) (by omega) s hI
    exact ⟨s', by simpa using e1, e2⟩
  exact ⟨s', h1, by simpa using h2⟩

/-! ## Lookup -/

theorem find?_of_nodup {α κ : Type} [DecidableEq κ] (key : α → κ) {l : List α} (hn : (l.map key).Nodup) {e : α} (h : e ∈ l) :
    l.find? (fun x => key x = key e) = some e := by
  induction l with
  | nil => simp at h
  | cons a l ih =>
    rw [List.map_cons, List.nodup_cons] at hn
    rcases List.mem_cons.1 h with rfl | h
    · simp
    · have : key a ≠ key e := fun hk => hn.1 (hk ▸ List.mem_map_of_mem h)
      rw [List.find?_cons_of_neg (by simpa using this)]
      exact ih hn.2 h

/-- A sparse matrix all of whose positions are stored once has the stored coefficients. -/
theorem SpMat.coeff_of_mem {A : SpMat F} (hA : A.Valid) {i : Fin A.r} {j : Fin A.c} {v : F} (h : (i, v) ∈ A.col j) : A.coeff i j = v := by
  have := find?_of_nodup Prod.fst (hA j) h
  unfold SpMat.coeff
  simp only at this
  rw [this]

theorem SpMat.coeff_of_not_mem {A : SpMat F} {i : Fin A.r} {j : Fin A.c} (h : ∀ v, (i, v) ∉ A.col j) : A.coeff i j = 0 := by
  unfold SpMat.coeff
  have : (A.col j).find? (fun e => e.1 = i) = none := by
    rw [List.find?_eq_none]
    rintro ⟨i', v⟩ he
    simp only [decide_eq_true_eq]
    rintro rfl
    exact h v he
  rw [this]

theorem GlpProb.coeff_of_mem {p : GlpProb F} (hp : (p.mat.map fun e => (e.1, e.2.1)).Nodup) {i j : ℕ} {v : F} (h : (i, j, v) ∈ p.mat) :
    p.coeff i j = v := by
  have := find?_of_nodup (fun e : ℕ × ℕ × F => (e.1, e.2.1)) hp h
  unfold GlpProb.coeff
  simp only [Prod.mk.injEq] at this
  rw [this]

theorem GlpProb.coeff_of_not_mem {p : GlpProb F} {i j : ℕ} (h : ∀ v, (i, j, v) ∉ p.mat) : p.coeff i j = 0 := by
  unfold GlpProb.coeff
  have : p.mat.find? (fun e => e.1 = i ∧ e.2.1 = j) = none := by
    rw [List.find?_eq_none]
    rintro ⟨i', j', v⟩ he
    simp only [decide_eq_true_eq]
    rintro ⟨rfl, rfl⟩
    exact h v he
  rw [this]

/-! ## The triplet arrays -/

/-- After writing the triplets `L` into arrays of size `amount`. -/
structure TripletArrays.Holds (s : TripletArrays F) (amount : ℕ) (L : List (ℕ × ℕ × F)) : Prop where
  ia : s.ia.length = amount
  ja : s.ja.length = amount
  ar : s.ar.length = amount
  ind : s.ind = L.length + 1
  get : ∀ (t : ℕ) (h : t < L.length), GlpProb.triplet s.ia s.ja s.ar (t + 1) = .ok L[t]

theorem TripletArrays.holds_new (amount : ℕ) : (TripletArrays.new (F := F) amount).Holds amount [] :=
  ⟨by simp [TripletArrays.new], by simp [TripletArrays.new], by simp [TripletArrays.new], rfl, fun t h => absurd h (by simp)⟩

theorem TripletArrays.Holds.push {s : TripletArrays F} {amount : ℕ} {L : List (ℕ × ℕ × F)} (h : s.Holds amount L) (i j : ℕ) (v : F)
    (hl : L.length + 1 < amount) : ∃ s', s.push i j v = .ok s' ∧ s'.Holds amount (L ++ [(i, j, v)]) := by
  have hi := h.ind
  refine ⟨⟨s.ia.set s.ind i, s.ja.set s.ind j, s.ar.set s.ind v, s.ind + 1⟩, ?_, ?_⟩
  · unfold TripletArrays.push vecSet
    rw [if_pos (by rw [h.ia]; omega), Out.ok_bind, if_pos (by rw [h.ja]; omega), Out.ok_bind, if_pos (by rw [h.ar]; omega), Out.ok_bind]
  · refine ⟨by simp [h.ia], by simp [h.ja], by simp [h.ar], by simp [hi], fun t ht => ?_⟩
    have ht' : t < L.length + 1 := by simpa using ht
    show GlpProb.triplet (s.ia.set s.ind i) (s.ja.set s.ind j) (s.ar.set s.ind v) (t + 1) = _
    by_cases hlt : t < L.length
    · have hne : s.ind ≠ t + 1 := by omega
      rw [List.getElem_append_left hlt, ← h.get t hlt]
      unfold GlpProb.triplet
      rw [List.getElem?_set_ne hne, List.getElem?_set_ne hne, List.getElem?_set_ne hne]
    · have hte : t = L.length := by omega
      subst hte
      rw [List.getElem_append_right (le_refl _)]
      unfold GlpProb.triplet
      rw [← hi, List.getElem?_set_self (by rw [h.ia]; omega), List.getElem?_set_self (by rw [h.ja]; omega),
        List.getElem?_set_self (by rw [h.ar]; omega)]
      simp

theorem TripletArrays.Holds.forEach {α : Type} {amount : ℕ} {f : TripletArrays F → α → Out (TripletArrays F)}
    {E : α → List (ℕ × ℕ × F)}
    (hf : ∀ (a : α) (s : TripletArrays F) (L : List (ℕ × ℕ × F)), s.Holds amount L → L.length + (E a).length < amount →
      ∃ s', f s a = .ok s' ∧ s'.Holds amount (L ++ E a)) (l : List α) :
    ∀ {s : TripletArrays F} {L : List (ℕ × ℕ × F)}, s.Holds amount L → L.length + (l.flatMap E).length < amount →
      ∃ s', PW.forEach f l s = .ok s' ∧ s'.Holds amount (L ++ l.flatMap E) := by
  induction l with
  | nil => intro s L h _; exact ⟨s, rfl, by simpa using h⟩
  | cons a l ih =>
    intro s L h hl
    rw [List.flatMap_cons, List.length_append] at hl
    obtain ⟨s1, h1, h2⟩ := hf a s L h (by omega)
    obtain ⟨s2, h3, h4⟩ := ih h2 (by rw [List.length_append]; omega)
    refine ⟨s2, ?_, by rw [List.flatMap_cons, ← List.append_assoc]; exact h4⟩
    show (f s a).bind _ = _
    rw [h1]
    exact h3

theorem TripletArrays.Holds.read {s : TripletArrays F} {amount : ℕ} {L : List (ℕ × ℕ × F)} (h : s.Holds amount L) :
    mapRows (GlpProb.triplet s.ia s.ja s.ar) (List.range' 1 L.length) = .ok L := by
  have key : ∀ (n k : ℕ), k + n = L.length →
      mapRows (GlpProb.triplet s.ia s.ja s.ar) (List.range' (k + 1) n) = .ok (L.drop k) := by
    intro n
    induction n with
    | zero => intro k hk; simp [mapRows, List.drop_of_length_le (by omega : L.length ≤ k)]
    | succ n ih =>
      intro k hk
      have hlt : k < L.length := by omega
      rw [List.range'_succ, mapRows, h.get k hlt, Out.ok_bind, ih (k + 1) (by omega), Out.ok_bind, List.drop_eq_getElem_cons hlt]
  simpa using key L.length 0 (by omega)

theorem TripletArrays.Holds.load {s : TripletArrays F} {amount : ℕ} {L : List (ℕ × ℕ × F)} (h : s.Holds amount L) {p : GlpProb F}
    (hr : ∀ e ∈ L, (1 ≤ e.1 ∧ e.1 ≤ p.r) ∧ 1 ≤ e.2.1 ∧ e.2.1 ≤ p.c) (hn : (L.map fun e => (e.1, e.2.1)).Nodup) :
    p.loadMatrix L.length s.ia s.ja s.ar = .ok { p with mat := L } := by
  unfold GlpProb.loadMatrix
  rw [h.read, Out.ok_bind, if_pos ⟨hr, hn⟩]

/-! ## Problems and linear programs -/

theorem GlpProb.kind_code (k : Kind) : GlpProb.kind k.code = k := by cases k <;> rfl

theorem GlpProb.Represents.toLP_eq {p : GlpProb F} {lp : LP F} (h : p.Represents lp) : p.toLP = lp := by
  obtain ⟨r, c, mat, obj, rk, rb, ck, cb⟩ := lp
  obtain ⟨hr, hc, hm, h1, h2, h3, h4, h5, h6⟩ := h
  simp only at hr hc
  subst hr hc
  unfold GlpProb.toLP
  congr 1
  · funext i j; exact h1 i j
  · funext j; rw [hm, if_pos rfl]; exact h2 j
  · funext i; rw [h3 i, GlpProb.kind_code]
  · funext i; exact h4 i
  · funext i; rw [h5 i, GlpProb.kind_code]
  · funext i; exact h6 i

theorem GlpProb.Represents.simplex {p : GlpProb F} {lp : LP F} (h : p.Represents lp) (glp : Glpk F) {n : ℕ} (hn : n ≤ lp.c) :
    p.simplex glp n = .ok fun j => glp.solve lp (j.castLE hn) := by
  unfold GlpProb.simplex
  have hc : n ≤ p.c := by rw [h.c]; exact hn
  rw [dif_pos hc]
  have key : ∀ (q : LP F) (hq : q = lp) (h1 : n ≤ q.c), (fun j : Fin n => glp.solve q (j.castLE h1)) = fun j => glp.solve lp (j.castLE hn) := by
    rintro q rfl h1; rfl
  exact congrArg Out.ok (key p.toLP h.toLP_eq hc)

/-- The bounds stored for a kind. -/
def GlpProb.boundsOf (k : Kind) (v : F) : F × F :=
  match k with
  | .FR => (0, 0)
  | .LO => (v, 0)
  | .UP => (0, v)
  | .FX => (v, v)

/-! ## The loops over rows and columns -/

theorem upd_range {α : Type} (n : ℕ) (g h : ℕ → α) (a : α) (ha : a = g n) :
    Function.update (fun i => if 1 ≤ i ∧ i ≤ n then g (i - 1) else h i) (n + 1) a =
      fun i => if 1 ≤ i ∧ i ≤ n + 1 then g (i - 1) else h i := by
  subst ha
  funext i
  by_cases hi : i = n + 1
  · subst hi
    rw [Function.update_self, if_pos (by omega)]
    rfl
  · rw [Function.update_of_ne hi]
    by_cases h1 : 1 ≤ i ∧ i ≤ n
    · rw [if_pos h1, if_pos (by omega)]
    · rw [if_neg h1, if_neg (by omega)]

theorem GlpProb.forEach_rows {f : GlpProb F → ℕ → Out (GlpProb F)} (p : GlpProb F) (n : ℕ) (hn : n ≤ p.r) (t : ℕ → Int) (v : ℕ → F)
    (q : ℕ → F × F) (hq : ∀ i < n, GlpProb.bounds (t i) (v i) (v i) = .ok (q i))
    (hf : ∀ i < n, ∀ p, f p i = p.setRowBnds (i + 1) (t i) (v i) (v i)) :
    forEach f (List.range n) p = .ok { p with
      rowType := fun i => if 1 ≤ i ∧ i ≤ n then t (i - 1) else p.rowType i
      rowLb := fun i => if 1 ≤ i ∧ i ≤ n then (q (i - 1)).1 else p.rowLb i
      rowUb := fun i => if 1 ≤ i ∧ i ≤ n then (q (i - 1)).2 else p.rowUb i } := by
  obtain ⟨p', h1, h2⟩ := forEach_range (f := f) (fun k p' => p' = { p with
      rowType := fun i => if 1 ≤ i ∧ i ≤ k then t (i - 1) else p.rowType i
      rowLb := fun i => if 1 ≤ i ∧ i ≤ k then (q (i - 1)).1 else p.rowLb i
      rowUb := fun i => if 1 ≤ i ∧ i ≤ k then (q (i - 1)).2 else p.rowUb i }) n p
    (by
      have : ∀ i : ℕ, ¬ (1 ≤ i ∧ i ≤ 0) := fun i => by omega
      simp only [this, if_false])
    (by
      rintro k hk p' rfl
      refine ⟨_, ?_, rfl⟩
      rw [hf k hk, GlpProb.setRowBnds, if_pos (⟨by omega, by simp only; omega⟩), hq k hk, Out.ok_bind]
      simp only
      rw [upd_range k t p.rowType _ rfl, upd_range k (fun i => (q i).1) p.rowLb _ rfl, upd_range k (fun i => (q i).2) p.rowUb _ rfl])
  rw [h1, h2]

theorem GlpProb.forEach_cols {f : GlpProb F → ℕ → Out (GlpProb F)} (p : GlpProb F) (n : ℕ) (hn : n ≤ p.c) (t : ℕ → Int) (v : ℕ → F)
    (q : ℕ → F × F) (hq : ∀ i < n, GlpProb.bounds (t i) (v i) (v i) = .ok (q i))
    (hf : ∀ i < n, ∀ p, f p i = p.setColBnds (i + 1) (t i) (v i) (v i)) :
    forEach f (List.range n) p = .ok { p with
      colType := fun i => if 1 ≤ i ∧ i ≤ n then t (i - 1) else p.colType i
      colLb := fun i => if 1 ≤ i ∧ i ≤ n then (q (i - 1)).1 else p.colLb i
      colUb := fun i => if 1 ≤ i ∧ i ≤ n then (q (i - 1)).2 else p.colUb i } := by
  obtain ⟨p', h1, h2⟩ := forEach_range (f := f) (fun k p' => p' = { p with
      colType := fun i => if 1 ≤ i ∧ i ≤ k then t (i - 1) else p.colType i
      colLb := fun i => if 1 ≤ i ∧ i ≤ k then (q (i - 1)).1 else p.colLb i
      colUb := fun i => if 1 ≤ i ∧ i ≤ k then (q (i - 1)).2 else p.colUb i }) n p
    (by
      have : ∀ i : ℕ, ¬ (1 ≤ i ∧ i ≤ 0) := fun i => by omega
      simp only [this, if_false])
    (by
      rintro k hk p' rfl
      refine ⟨_, ?_, rfl⟩
      rw [hf k hk, GlpProb.setColBnds, if_pos (⟨by omega, by simp only; omega⟩), hq k hk, Out.ok_bind]
      simp only
      rw [upd_range k t p.colType _ rfl, upd_range k (fun i => (q i).1) p.colLb _ rfl, upd_range k (fun i => (q i).2) p.colUb _ rfl])
  rw [h1, h2]

theorem GlpProb.forEach_obj {f : GlpProb F → ℕ → Out (GlpProb F)} (p : GlpProb F) (n : ℕ) (hn : n ≤ p.c) (v : ℕ → F)
    (hf : ∀ i < n, ∀ p, f p i = p.setObjCoef (i + 1) (v i)) :
    forEach f (List.range n) p = .ok { p with obj := fun i => if 1 ≤ i ∧ i ≤ n then v (i - 1) else p.obj i } := by
  obtain ⟨p', h1, h2⟩ := forEach_range (f := f) (fun k p' => p' = { p with
      obj := fun i => if 1 ≤ i ∧ i ≤ k then v (i - 1) else p.obj i }) n p
    (by
      have : ∀ i : ℕ, ¬ (1 ≤ i ∧ i ≤ 0) := fun i => by omega
      simp only [this, if_false])
    (by
      rintro k hk p' rfl
      refine ⟨_, ?_, rfl⟩
      rw [hf k hk, GlpProb.setObjCoef, if_pos (by simp only; omega)]
      simp only
      rw [upd_range k v p.obj _ rfl])
  rw [h1, h2]

theorem GlpProb.setObjCoef_ok (p : GlpProb F) {j : ℕ} (h : j ≤ p.c) (v : F) :
    p.setObjCoef j v = .ok { p with obj := Function.update p.obj j v } := if_pos h

theorem GlpProb.setColBnds_ok (p : GlpProb F) {j : ℕ} (h : 1 ≤ j ∧ j ≤ p.c) {type : Int} {lb ub : F} {q : F × F}
    (hq : GlpProb.bounds type lb ub = .ok q) : p.setColBnds j type lb ub = .ok { p with
      colType := Function.update p.colType j type, colLb := Function.update p.colLb j q.1, colUb := Function.update p.colUb j q.2 } := by
  rw [GlpProb.setColBnds, if_pos h, hq, Out.ok_bind]

/-- A vector read as a function on all natural numbers. -/
def DVec.fn {α : Type} [Inhabited α] (v : DVec α) (i : ℕ) : α := if h : i < v.n then v.val ⟨i, h⟩ else default

theorem DVec.get_of_lt {α : Type} [Inhabited α] (v : DVec α) {i : ℕ} (h : i < v.n) : v.get i = .ok (v.fn i) := by
  rw [DVec.get, dif_pos h, DVec.fn, dif_pos h]

end PW

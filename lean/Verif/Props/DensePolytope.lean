import Verif.Props.Sampling
import Verif.Lemmas.Geometry
import Verif.Lemmas.Membership
import Verif.Spec.Contracts
import Verif.Spec.Toy

/-!
# C09–C15: the dense walks and the polytope
-/

set_option linter.unusedSimpArgs false

namespace PW

/-! ## C09 -/

section
variable {F : Type} [Scalar F] {m n : ℕ}

theorem BallWalk.step_pos {R : F} {r : Rng F} {A : Matrix (Fin m) (Fin n) F} {b : Fin m → F}
    {s s' : (Fin n → F) × r.G} (h : BallWalk.step R r A b s = .ok s') :
    s'.1 = s.1 ∨ inPolytope s'.1 A b = .ok true := by
  simp only [BallWalk.step] at h
  obtain ⟨c, hc, h⟩ := Out.bind_eq_ok.1 h
  cases c <;> simp at h <;> subst h
  · exact .inl rfl
  · exact .inr hc

theorem BarrierWalk.step_pos {σ : Type} {cls : BarrierClass F σ} {E : Eigen F} {r : Rng F}
    {A : Matrix (Fin m) (Fin n) F} {b : Fin m → F} {s s' : (Fin n → F) × σ × r.G}
    (h : BarrierWalk.step cls E r A b s = .ok s') :
    s'.1 = s.1 ∨ inPolytope s'.1 A b = .ok true := by
  simp only [BarrierWalk.step, BarrierWalk.generateSample] at h
  obtain ⟨ho, _, h⟩ := Out.bind_eq_ok.1 h
  obtain ⟨c, hc, h⟩ := Out.bind_eq_ok.1 h
  cases c
  · simp at h; subst h; exact .inl rfl
  · simp only [Bool.not_true, Bool.false_eq_true, if_false] at h
    obtain ⟨ho2, _, h⟩ := Out.bind_eq_ok.1 h
    simp only [Out.ok.injEq] at h
    subst h
    dsimp only
    split
    · exact .inr hc
    · exact .inl rfl

/-- Every row is the initial point or a point accepted by the model's membership test. -/
theorem Walk.DenseMH.rows_tested {w : Walk F} (hw : w.DenseMH) (e : Env F) (a : Args F)
    (hi : SaneInts a.niter a.burnin a.thin) (rows : List (Fin a.A.c → F)) (h : w.run e a = .ok rows) :
    ∃ hd : a.DimsOk, ∀ x ∈ rows, x = a.x0 hd ∨ inPolytope x a.A.val (a.rhs hd) = .ok true := by
  obtain ⟨hd, _⟩ := C03_visited_partial w e a hi rows h
  refine ⟨hd, fun x hx => ?_⟩
  cases hw with
  | ball R =>
    obtain ⟨st, hP, rfl⟩ := Walk.rows_inv hi h hd
      (fun s => s.1 = a.x0 hd ∨ inPolytope s.1 a.A.val (a.rhs hd) = .ok true)
      (by intro s0 h0; cases h0; exact .inl rfl)
      (by
        intro s s' hs hst
        rcases BallWalk.step_pos hst with h1 | h1
        · rw [h1]; exact hs
        · exact .inr h1) x hx
    exact hP
  | barrier cls E o =>
    obtain ⟨st, hP, rfl⟩ := Walk.rows_inv hi h hd
      (fun s => s.1 = a.x0 hd ∨ inPolytope s.1 a.A.val (a.rhs hd) = .ok true)
      (by
        intro s0 h0
        obtain ⟨o', _, h0⟩ := Out.bind_eq_ok.1 h0
        cases h0; exact .inl rfl)
      (by
        intro s s' hs hst
        rcases BarrierWalk.step_pos hst with h1 | h1
        · rw [h1]; exact hs
        · exact .inr h1) x hx
    exact hP

/-- **C09.** Every row returned by a Ball walk or by any barrier walk (any weights, any arithmetic) is the
initial point or a point that passed the test `max(A x - b) <= 0`, computed in the same arithmetic. -/
theorem C09_rows_tested (w : Walk F) (hw : w.DenseMH) (e : Env F) (a : Args F)
    (hi : SaneInts a.niter a.burnin a.thin) (rows : List (Fin a.A.c → F)) (h : w.run e a = .ok rows) :
    ∃ hd : a.DimsOk, ∀ x ∈ rows, x = a.x0 hd ∨ Spec.PassesDense a.A.val (a.rhs hd) x := by
  obtain ⟨hd, hr⟩ := hw.rows_tested e a hi rows h
  exact ⟨hd, fun x hx => (hr x hx).imp_right (inPolytope_iff_passes x _ _).1⟩

/-- A concrete run meeting the hypotheses (integer arithmetic): it moves, then stops at the boundary. -/
example : letI := Toy.intScalar
    (Toy.col ((Walk.ball (F := Int) 10).run Toy.env (Toy.args 4 0 1)) = .ok [40, 90, 90, 90]) := by
  decide

end

/-! ## C10 -/

section
open Classical
variable {m n : ℕ}

/-- **C10.** From a feasible initial point, Ball and barrier walks only return feasible points. -/
theorem C10_feasible (w : Walk ℝ) (hw : w.DenseMH) (e : Env ℝ) (a : Args ℝ)
    (hi : SaneInts a.niter a.burnin a.thin) (hd : a.DimsOk) (hx : a.x0 hd ∈ Poly a.A.val (a.rhs hd))
    (rows : List (Fin a.A.c → ℝ)) (h : w.run e a = .ok rows) :
    ∀ x ∈ rows, x ∈ Poly a.A.val (a.rhs hd) := by
  obtain ⟨_, hr⟩ := hw.rows_tested e a hi rows h
  intro x hxr
  rcases hr x hxr with h1 | h1
  · rw [h1]; exact hx
  · rcases Nat.eq_zero_or_pos a.A.r with h0 | h0
    · intro i; exact absurd i.isLt (by omega)
    · rw [inPolytope_mem h0] at h1
      simpa using h1

/-! ## C12 -/

/-- **C12** (dense). When the chord search returns `t` for a start in the polytope and a unit direction,
`x + t u` is in the polytope and every point `x + s u`, `s ≥ t + err`, is outside; `t > 0`. -/
theorem C12_chord (A : Matrix (Fin m) (Fin n) ℝ) (b : Fin m → ℝ) (x u : Fin n → ℝ) (hu : IsUnitVec u)
    (hx : x ∈ Poly A b) (R ERR t : ℝ) (fuel : ℕ)
    (h : HitRun.binarySearch R ERR fuel A b u x = .ok t) :
    0 < t ∧ ray x u t ∈ Poly A b ∧ ∀ s, t + ERR ≤ s → ray x u s ∉ Poly A b := by
  rcases Nat.eq_zero_or_pos m with rfl | hm
  · exfalso
    cases fuel <;> simp [HitRun.binarySearch, HitRun.expand, inPolytope_zero] at h
  rw [chord_dense hm A b x u hu] at h
  obtain ⟨t', h1, h2⟩ := Out.map_eq_ok.1 h
  have h0 : ray x u 0 ∈ Poly A b := by rw [ray_zero]; exact hx
  obtain ⟨ht, hin, s, hs1, hs2, hs3⟩ := chordR_spec (fun t => ray x u t ∈ Poly A b) h0 R ERR fuel h1
  rw [abs_of_pos ht] at h2
  subst h2
  exact ⟨ht, hin, fun s' hs' hc => hs3 (Poly.between hin hc hs1.le (by linarith))⟩

/-- **C12** (sparse). The same for the sparse chord search, unless it gave up, in which case it returns 0. -/
theorem C12_chord_sparse {k : ℕ} (hk : 1 ≤ k) (hkn : k ≤ n) (x u : Fin n → ℝ) (hu : IsUnitVec u)
    (hx : x ∈ TailNonneg n k) (R ERR t : ℝ) (fuel : ℕ)
    (h : SparseHitRun.binarySearch R ERR fuel k u x = .ok t) :
    (t = 0 ∧ (∀ j : ℕ, j < 10000 → ray x u (2 ^ (j + 1) * |R|) ∈ TailNonneg n k)) ∨
      (0 < t ∧ ray x u t ∈ TailNonneg n k ∧ ∀ s, t + ERR ≤ s → ray x u s ∉ TailNonneg n k) := by
  rw [chord_sparse hk hkn x u hu] at h
  obtain ⟨t', h1, h2⟩ := Out.map_eq_ok.1 h
  have h0 : ray x u 0 ∈ TailNonneg n k := by rw [ray_zero]; exact hx
  rcases schordR_spec (fun t => ray x u t ∈ TailNonneg n k) h0 R ERR fuel h1 with ⟨h3, h4⟩ | h3
  · left
    refine ⟨by rw [← h2, h3, abs_zero], ?_⟩
    have key : ∀ (N : ℕ) (t : ℝ), sexpandR (fun t => ray x u t ∈ TailNonneg n k) N t = none →
        ∀ j < N, ray x u (2 ^ (j + 1) * |t|) ∈ TailNonneg n k := by
      intro N
      induction N with
      | zero => intro t _ j hj; omega
      | succ N ih =>
        intro t ht j hj
        rw [sexpandR] at ht
        split_ifs at ht with hP
        cases j with
        | zero => simpa using hP
        | succ j =>
          have := ih _ ht j (by omega)
          rw [abs_mul, abs_abs, abs_two] at this
          rwa [show (2 : ℝ) ^ (j + 1 + 1) * |t| = 2 ^ (j + 1) * (2 * |t|) by ring]
    exact key _ _ h4
  · right
    obtain ⟨ht, hin, s, hs1, hs2, hs3⟩ := h3
    rw [abs_of_pos ht] at h2
    subst h2
    exact ⟨ht, hin, fun s' hs' hc => hs3 (TailNonneg.between hin hc hs1.le (by linarith))⟩

/-! ## C11 -/

theorem HitRun.step_feasible {R ERR : ℝ} {fuel : ℕ} {r : Rng ℝ} (hr : r.UnitDraws)
    {A : Matrix (Fin m) (Fin n) ℝ} {b : Fin m → ℝ} {s s' : (Fin n → ℝ) × r.G} (hx : s.1 ∈ Poly A b)
    (h : HitRun.step R ERR fuel r A b s = .ok s') : s'.1 ∈ Poly A b := by
  rcases Nat.eq_zero_or_pos m with rfl | hm
  · intro i; exact i.elim0
  simp only [HitRun.step, Rng.gaussianNorm] at h
  set v := (r.gaussian n s.2).1
  rcases normalize_cases v with hu | hz
  · set u : Fin n → ℝ := fun i => v i / norm2 v with hudef
    obtain ⟨p, hp, h⟩ := Out.bind_eq_ok.1 h
    obtain ⟨q, hq, h⟩ := Out.bind_eq_ok.1 h
    have hneg : (fun i => u i * (Scalar.ofInt (-1) : ℝ)) = fun i => -u i := by
      funext i; simp
    rw [show (fun i => v i / norm2 v * (Scalar.ofInt (-1) : ℝ)) = fun i => -u i from hneg] at hq
    obtain ⟨p0, pin, _⟩ := C12_chord A b s.1 u hu hx R ERR p fuel hp
    obtain ⟨q0, qin, _⟩ := C12_chord A b s.1 _ hu.neg hx R ERR q fuel hq
    rw [ray_neg] at qin
    simp only [Out.ok.injEq] at h
    subst h
    obtain ⟨l0, l1⟩ := hr (r.gaussian n s.2).2
    set l := (r.uniform (r.gaussian n s.2).2).1
    have e : (fun i => (l * (p - q * (Scalar.ofInt (-1) : ℝ)) + q * (Scalar.ofInt (-1) : ℝ)) * u i + s.1 i)
        = ray s.1 u (l * (p + q) - q) := by
      funext i; simp only [ray, rsc_ofInt]; push_cast; ring
    show (fun i => (l * (p - q * (Scalar.ofInt (-1) : ℝ)) + q * (Scalar.ofInt (-1) : ℝ)) * u i + s.1 i) ∈ _
    rw [e]
    exact Poly.between qin pin (by nlinarith) (by nlinarith)
  · rw [hz, search_zero hm hx] at h
    simp at h

/-- **C11.** From a feasible initial point, Hit-and-Run only returns feasible points, although it never
tests the points it moves to. -/
theorem C11_feasible (R ERR : ℝ) (e : Env ℝ) (hr : e.r.UnitDraws) (a : Args ℝ)
    (hi : SaneInts a.niter a.burnin a.thin) (hd : a.DimsOk) (hx : a.x0 hd ∈ Poly a.A.val (a.rhs hd))
    (rows : List (Fin a.A.c → ℝ)) (h : (Walk.hitRun R ERR).run e a = .ok rows) :
    ∀ x ∈ rows, x ∈ Poly a.A.val (a.rhs hd) := by
  intro x hxr
  obtain ⟨st, hP, rfl⟩ := Walk.rows_inv hi h hd (fun s => s.1 ∈ Poly a.A.val (a.rhs hd))
    (by intro s0 h0; cases h0; exact hx)
    (fun s s' hs hst => HitRun.step_feasible hr hs hst) x hxr
  exact hP

/-! ## C13 -/

/-- The chord of a bounded polytope from an interior point. -/
theorem chord_end {A : Matrix (Fin m) (Fin n) ℝ} {b : Fin m → ℝ} {x u : Fin n → ℝ} (hu : u ≠ 0)
    (hx : x ∈ Interior A b) (hb : ∃ B, ∀ y ∈ Poly A b, ∀ i, |y i| ≤ B) :
    ∃ e, 0 < e ∧ (∀ t, 0 ≤ t → t < e → ray x u t ∈ Interior A b) ∧ ray x u e ∈ Poly A b ∧
      ray x u e ∉ Interior A b ∧ ∀ t, e < t → ray x u t ∉ Poly A b := by
  have hS : ∃ i, 0 < A.mulVec u i := by
    by_contra hcon
    push Not at hcon
    obtain ⟨B, hB⟩ := hb
    obtain ⟨j, hj⟩ : ∃ j, u j ≠ 0 := by
      by_contra hc; push Not at hc; exact hu (funext hc)
    have hall : ∀ t, 0 ≤ t → ray x u t ∈ Poly A b := fun t ht i => by
      rw [mulVec_ray]
      have := hx i
      have := hcon i
      nlinarith
    have h1 := hB _ (hall ((B + |x j| + 1) / |u j|)
      (div_nonneg (by have := (abs_nonneg _).trans (hB x (fun i => (hx i).le) j); positivity) (abs_nonneg _))) j
    have h2 : |u j| ≠ 0 := abs_ne_zero.2 hj
    have hBn : 0 ≤ B := (abs_nonneg _).trans (hB x (fun i => (hx i).le) j)
    have h3 : |(B + |x j| + 1) / |u j| * u j| = B + |x j| + 1 := by
      rw [abs_mul, abs_div, abs_abs, div_mul_cancel₀ _ h2, abs_of_nonneg (by positivity)]
    have h4 : |(B + |x j| + 1) / |u j| * u j| ≤ |ray x u ((B + |x j| + 1) / |u j|) j| + |x j| := by
      have : (B + |x j| + 1) / |u j| * u j = ray x u ((B + |x j| + 1) / |u j|) j - x j := by
        simp [ray]
      rw [this]; exact abs_sub _ _
    linarith
  let S := Finset.univ.filter fun i => 0 < A.mulVec u i
  have hSne : S.Nonempty := by
    obtain ⟨i, hi⟩ := hS; exact ⟨i, by simp [S, hi]⟩
  obtain ⟨i0, hi0, hmin⟩ := S.exists_min_image (fun i => (b i - A.mulVec x i) / A.mulVec u i) hSne
  have hi0' : 0 < A.mulVec u i0 := by simpa [S] using hi0
  refine ⟨(b i0 - A.mulVec x i0) / A.mulVec u i0, div_pos (by linarith [hx i0]) hi0', ?_, ?_, ?_, ?_⟩
  · intro t ht0 ht i
    rw [mulVec_ray]
    rcases le_or_gt (A.mulVec u i) 0 with h | h
    · have := hx i; nlinarith
    · have h1 := hmin i (by simp [S, h])
      have h2 : t < (b i - A.mulVec x i) / A.mulVec u i := lt_of_lt_of_le ht h1
      rw [lt_div_iff₀ h] at h2; linarith
  · intro i
    rw [mulVec_ray]
    rcases le_or_gt (A.mulVec u i) 0 with h | h
    · have h2 : 0 < (b i0 - A.mulVec x i0) / A.mulVec u i0 := div_pos (by linarith [hx i0]) hi0'
      have := hx i; nlinarith
    · have h1 := hmin i (by simp [S, h])
      rw [le_div_iff₀ h] at h1; linarith
  · intro hc
    have := hc i0
    rw [mulVec_ray, div_mul_cancel₀ _ hi0'.ne'] at this
    linarith
  · intro t ht hc
    have := hc i0
    rw [mulVec_ray] at this
    rw [div_lt_iff₀ hi0'] at ht
    linarith

/-- **C13, partial.** On a bounded polytope, from a strictly interior point, with `r ≠ 0` and `err > 0`, the
dense chord search terminates (with the same answer for every sufficient amount of fuel), **provided** no
dyadic multiple `|r| i / 2^j` of the radius lands exactly on the boundary along the direction. Missing: that
proviso (without it the claim is false, `C13_chord_diverges`), and the lift to whole walks. -/
theorem C13_chord_terminates_partial (A : Matrix (Fin m) (Fin n) ℝ) (b : Fin m → ℝ) (x u : Fin n → ℝ)
    (hu : IsUnitVec u) (hx : x ∈ Interior A b) (hb : ∃ B, ∀ y ∈ Poly A b, ∀ i, |y i| ≤ B) (R ERR : ℝ)
    (hR : R ≠ 0) (hE : 0 < ERR)
    (hd : ∀ i j : ℕ, ray x u (|R| * i / 2 ^ j) ∈ Poly A b → ray x u (|R| * i / 2 ^ j) ∈ Interior A b) :
    ∃ fuel t, ∀ f ≥ fuel, HitRun.binarySearch R ERR f A b u x = .ok t := by
  have hu0 : u ≠ 0 := by
    rintro rfl; unfold IsUnitVec at hu; simp at hu
  obtain ⟨e, he, hin, hon, hnot, hout⟩ := chord_end hu0 hx hb
  have hm : 0 < m := by
    rcases Nat.eq_zero_or_pos m with rfl | h
    · exact absurd (fun i => i.elim0 : ray x u (e + 1) ∈ Poly A b) (hout _ (by linarith))
    · exact h
  obtain ⟨fuel, t, h⟩ := chordR_terminates (fun t => ray x u t ∈ Poly A b) R ERR hR hE e he
    (fun t h0 h1 i => (hin t h0 h1 i).le) hout (by
      intro i j h
      have := hd i j
      rw [h] at this
      exact hnot (this hon))
  exact ⟨fuel, |t|, fun f hf => by rw [chord_dense hm A b x u hu, h f hf]; rfl⟩

/-- **C13 is false in exact arithmetic**: if the search for the chord end from `x` passes through the exact
chord end `e = |r| 2^j` (here: twice the radius is past it, and `r` itself is it) then the left end of the
bracket is stuck on the boundary, every midpoint is outside and the loop never ends, for every fuel. -/
theorem C13_chord_diverges (A : Matrix (Fin m) (Fin n) ℝ) (b : Fin m → ℝ) (hm : 0 < m) (x u : Fin n → ℝ)
    (hu : IsUnitVec u) (R ERR : ℝ) (hR : 0 < R) (hE : ERR < R)
    (hon : ray x u R ∈ Poly A b) (hout : ∀ t, R < t → ray x u t ∉ Poly A b) (fuel : ℕ) :
    HitRun.binarySearch R ERR fuel A b u x = .timeout := by
  rw [chord_dense hm A b x u hu, chordR]
  cases fuel with
  | zero => rfl
  | succ fuel =>
    rw [expandR, if_neg (hout _ (by rw [abs_of_pos hR]; linarith)), Out.ok_bind, abs_of_pos hR, bisectR,
      if_pos (.inl (by rw [abs_of_neg] <;> linarith)),
      show (0 + 2 * R) / 2 = R by ring, if_pos hon,
      bisectR_diverges _ ERR fuel R (2 * R) R (by linarith) hout
        (.inr (by rw [abs_of_neg] <;> linarith))]
    rfl

/-! ## C14 -/

/-- **C14 is false for `HitAndRun`**: if the polytope contains the whole ray in the drawn direction, the
doubling loop never ends. -/
theorem C14_unbounded_diverges (A : Matrix (Fin m) (Fin n) ℝ) (b : Fin m → ℝ) (hm : 0 < m)
    (x u : Fin n → ℝ) (hu : IsUnitVec u) (hray : ∀ t, 0 ≤ t → ray x u t ∈ Poly A b) (R ERR : ℝ)
    (fuel : ℕ) : HitRun.binarySearch R ERR fuel A b u x = .timeout := by
  rw [chord_dense hm A b x u hu, chordR]
  have : ∀ t, expandR (fun t => ray x u t ∈ Poly A b) fuel t = .timeout := by
    induction fuel with
    | zero => intro t; rfl
    | succ fuel ih => intro t; rw [expandR, if_pos (hray _ (by positivity)), ih]
  rw [this]; rfl

/-- **C14 is false**: radius 0 never leaves the polytope. -/
theorem C14_radius_zero_diverges (A : Matrix (Fin m) (Fin n) ℝ) (b : Fin m → ℝ) (hm : 0 < m)
    (x u : Fin n → ℝ) (hu : IsUnitVec u) (hx : x ∈ Poly A b) (ERR : ℝ) (fuel : ℕ) :
    HitRun.binarySearch 0 ERR fuel A b u x = .timeout := by
  rw [chord_dense hm A b x u hu, chordR]
  have : ∀ fuel, expandR (fun t => ray x u t ∈ Poly A b) fuel 0 = .timeout := by
    intro fuel
    induction fuel with
    | zero => rfl
    | succ fuel ih =>
      have h0 : ray x u 0 ∈ Poly A b := by rw [ray_zero]; exact hx
      rw [expandR]; simp only [abs_zero, mul_zero]; rw [if_pos h0, ih]
  rw [this]; rfl

/-- **C14 is false**: from a boundary point, a direction that leaves the polytope at once makes the
bisection run forever (the midpoint is never inside). -/
theorem C14_boundary_diverges (A : Matrix (Fin m) (Fin n) ℝ) (b : Fin m → ℝ) (hm : 0 < m)
    (x u : Fin n → ℝ) (hu : IsUnitVec u) (hout : ∀ t, 0 < t → ray x u t ∉ Poly A b) (R ERR : ℝ)
    (hR : R ≠ 0) (fuel : ℕ) : HitRun.binarySearch R ERR fuel A b u x = .timeout := by
  rw [chord_dense hm A b x u hu, chordR]
  cases fuel with
  | zero => rfl
  | succ fuel =>
    have h2 : 0 < 2 * |R| := by positivity
    rw [expandR, if_neg (hout _ h2), Out.ok_bind, bisectR_diverges _ ERR _ 0 (2 * |R|) (2 * |R| / 2) h2 hout
      (.inl (by linarith))]
    rfl

/-- The same for the sparse search. -/
theorem C14_boundary_diverges_sparse {k : ℕ} (hk : 1 ≤ k) (hkn : k ≤ n) (x u : Fin n → ℝ)
    (hu : IsUnitVec u) (hout : ∀ t, 0 < t → ray x u t ∉ TailNonneg n k) (R ERR : ℝ)
    (hR : R ≠ 0) (fuel : ℕ) : SparseHitRun.binarySearch R ERR fuel k u x = .timeout := by
  have h2 : 0 < 2 * |R| := by positivity
  have h3 : sexpandR (fun t => ray x u t ∈ TailNonneg n k) SparseHitRun.maxIter R = some (2 * |R|) := by
    rw [SparseHitRun.maxIter, sexpandR, if_neg (hout _ h2)]
  rw [chord_sparse hk hkn x u hu, schordR, h3]
  simp only
  rw [bisectR_diverges _ ERR _ 0 (2 * |R|) (2 * |R| / 2) h2 hout (.inl (by linarith))]
  rfl

/-- A step whose direction is unbounded (one way or the other) or whose draw is zero never returns. -/
theorem HitRun.step_diverges {R ERR : ℝ} {fuel : ℕ} {r : Rng ℝ} (hm : 0 < m)
    {A : Matrix (Fin m) (Fin n) ℝ} {b : Fin m → ℝ} {s : (Fin n → ℝ) × r.G} (hx : s.1 ∈ Poly A b)
    (h : ∀ u, IsUnitVec u → (∀ t, 0 ≤ t → ray s.1 u t ∈ Poly A b) ∨
      (∀ t, t ≤ 0 → ray s.1 u t ∈ Poly A b)) :
    (HitRun.step R ERR fuel r A b s).bind (fun _ => .ok ()) ≠ .ok () := by
  intro hok
  obtain ⟨s', h1, _⟩ := Out.bind_eq_ok.1 hok
  simp only [HitRun.step, Rng.gaussianNorm] at h1
  set v := (r.gaussian n s.2).1
  rcases normalize_cases v with hu | hz
  · set u : Fin n → ℝ := fun i => v i / norm2 v with hudef
    obtain ⟨p, hp, h1⟩ := Out.bind_eq_ok.1 h1
    obtain ⟨q, hq, h1⟩ := Out.bind_eq_ok.1 h1
    have hneg : (fun i => u i * (Scalar.ofInt (-1) : ℝ)) = fun i => -u i := by funext i; simp
    rw [show (fun i => v i / norm2 v * (Scalar.ofInt (-1) : ℝ)) = fun i => -u i from hneg] at hq
    rcases h u hu with h2 | h2
    · rw [C14_unbounded_diverges A b hm s.1 u hu h2] at hp; cases hp
    · rw [C14_unbounded_diverges A b hm s.1 _ hu.neg
        (fun t ht => by rw [ray_neg]; exact h2 _ (by linarith))] at hq
      cases hq
  · rw [hz, search_zero hm hx] at h1; simp at h1

/-- **C14 is false for whole walks**: on the half line `{x ≤ b}` in dimension 1, `HitAndRun` never returns,
whatever the radius, the error parameter, the start in the half line, the random numbers and the number
`niter ≥ 1` of steps. -/
theorem C14_halfline_never_returns (R ERR : ℝ) (e : Env ℝ) (a : Args ℝ)
    (hi : SaneInts a.niter a.burnin a.thin) (hn : 1 ≤ a.niter) (x0 b0 : ℝ) (hx : x0 ≤ b0)
    (hA : a.A = ⟨1, 1, fun _ _ => 1⟩) (hb : a.b = ⟨1, fun _ => b0⟩) (hx0 : a.init = ⟨1, fun _ => x0⟩) :
    ∀ rows, (Walk.hitRun R ERR).run e a ≠ .ok rows := by
  obtain ⟨niter, init, A, b, k, burnin, thin, seed⟩ := a
  dsimp only at hA hb hx0 hi hn
  subst hA hb hx0
  intro rows h
  obtain ⟨hd, s0, s', _, hs, hr⟩ := Walk.run_ok h
  cases hs
  obtain ⟨s1, h1⟩ := runLoop_first hr hn
  refine HitRun.step_diverges (m := 1) (n := 1) one_pos (A := fun _ _ => 1) (b := fun _ => b0)
    (s := (fun _ => x0, e.r.initRng seed e.rd)) ?_ ?_ (by
      show (HitRun.step R ERR e.fuel e.r _ _ _).bind _ = _
      have h1' : HitRun.step R ERR e.fuel e.r (fun _ _ => 1) (fun _ => b0)
        (fun _ => x0, e.r.initRng seed e.rd) = .ok s1 := h1
      rw [h1']; rfl)
  · intro i; simp [Matrix.mulVec, dotProduct, hx]
  · intro u hu
    rcases le_total (u 0) 0 with h0 | h0
    · left
      intro t ht i
      simp only [Matrix.mulVec, dotProduct, Finset.univ_unique, Fin.default_eq_zero, ray,
        Finset.sum_singleton, one_mul]
      nlinarith
    · right
      intro t ht i
      simp only [Matrix.mulVec, dotProduct, Finset.univ_unique, Fin.default_eq_zero, ray,
        Finset.sum_singleton, one_mul]
      nlinarith

/-! ## C15 -/

theorem scaled_unit_dist {v x : Fin n → ℝ} (c : ℝ) (hu : IsUnitVec v) :
    Real.sqrt (∑ i, ((c * v i + x i) - x i) ^ 2) = |c| := by
  rw [← sqrt_sum_smul v hu c]
  congr 1
  exact Finset.sum_congr rfl fun i _ => by ring

theorem BallWalk.step_dist {R : ℝ} {r : Rng ℝ} {A : Matrix (Fin m) (Fin n) ℝ} {b : Fin m → ℝ}
    {s s' : (Fin n → ℝ) × r.G} (h : BallWalk.step R r A b s = .ok s') :
    s'.1 = s.1 ∨ Real.sqrt (∑ i, (s'.1 i - s.1 i) ^ 2) = |R| / Real.sqrt n := by
  simp only [BallWalk.step, Rng.gaussianNorm] at h
  obtain ⟨c, hc, h⟩ := Out.bind_eq_ok.1 h
  cases c <;> simp at h <;> subst h
  · exact .inl rfl
  · dsimp only
    rcases normalize_cases (r.gaussian n s.2).1 with hu | hz
    · right
      have := scaled_unit_dist (x := s.1) (R / Real.sqrt n) hu
      rw [abs_div, abs_of_nonneg (Real.sqrt_nonneg _)] at this
      rw [← this]
      congr 1
      refine Finset.sum_congr rfl fun i _ => ?_
      ring
    · left
      funext i
      have := congrFun hz i
      rw [this]; simp

theorem SparseBallWalk.step_dist {R : ℝ} {E : Eigen ℝ} {r : Rng ℝ} {A : Matrix (Fin m) (Fin n) ℝ}
    {k : ℕ} {s s' : (Fin n → ℝ) × r.G} (h : SparseBallWalk.step R E r A k s = .ok s') :
    s'.1 = s.1 ∨ Real.sqrt (∑ i, (s'.1 i - s.1 i) ^ 2) = |R| / Real.sqrt ((n : ℝ) - m) := by
  simp only [SparseBallWalk.step] at h
  obtain ⟨c, hc, h⟩ := Out.bind_eq_ok.1 h
  cases c <;> simp at h <;> subst h
  · exact .inl rfl
  · dsimp only
    rcases normalize_cases (kernelProject E A (r.gaussian n s.2).1) with hu | hz
    · right
      have := scaled_unit_dist (x := s.1) (R / Real.sqrt ((n : ℝ) - m)) hu
      rw [abs_div, abs_of_nonneg (Real.sqrt_nonneg _)] at this
      exact this
    · left
      funext i
      have := congrFun hz i
      unfold normalize
      rw [this]; simp

/-- Consecutive positions are related by one step. -/
theorem Walk.PosAt.step {w : Walk ℝ} {e : Env ℝ} {a : Args ℝ} {hd : a.DimsOk} {t : ℕ}
    {x y : Fin a.A.c → ℝ} (hx : w.PosAt e a hd t x) (hy : w.PosAt e a hd (t + 1) y) :
    ∃ s s', w.pos e s = x ∧ w.pos e s' = y ∧ w.step e a.A.val (a.rhs hd) a.k s = .ok s' := by
  obtain ⟨s, hs, rfl⟩ := hx
  obtain ⟨s', hs', rfl⟩ := hy
  rw [Walk.chain, Out.bind_eq_ok] at hs hs'
  obtain ⟨s0, h0, hs⟩ := hs
  obtain ⟨s0', h0', hs'⟩ := hs'
  rw [h0] at h0'; cases h0'
  rw [iter, hs, Out.ok_bind] at hs'
  exact ⟨s, s', rfl, rfl, hs'⟩

/-- **C15** (dense). Consecutive states of the Ball walk are equal or at distance exactly `|r|/√d`.
(A zero Gaussian vector gives a NaN direction in the code; `0/0 = 0` in `ℝ`, the point does not move.) -/
theorem C15_ball_step (R : ℝ) (e : Env ℝ) (a : Args ℝ) (hd : a.DimsOk) (t : ℕ) (x y : Fin a.A.c → ℝ)
    (hx : (Walk.ball R).PosAt e a hd t x) (hy : (Walk.ball R).PosAt e a hd (t + 1) y) :
    y = x ∨ Real.sqrt (∑ i, (y i - x i) ^ 2) = |R| / Real.sqrt a.A.c := by
  obtain ⟨s, s', rfl, rfl, h⟩ := hx.step hy
  exact BallWalk.step_dist h

/-- **C15** (sparse). The same for `SparseBallWalk` with `d = cols - rows`. -/
theorem C15_sparse_ball_step (R : ℝ) (E : Eigen ℝ) (e : Env ℝ) (a : Args ℝ) (hd : a.DimsOk) (t : ℕ)
    (x y : Fin a.A.c → ℝ) (hx : (Walk.sparseBall R E).PosAt e a hd t x)
    (hy : (Walk.sparseBall R E).PosAt e a hd (t + 1) y) :
    y = x ∨ Real.sqrt (∑ i, (y i - x i) ^ 2) = |R| / Real.sqrt ((a.A.c : ℝ) - a.A.r) := by
  obtain ⟨s, s', rfl, rfl, h⟩ := hx.step hy
  exact SparseBallWalk.step_dist h

end
end PW

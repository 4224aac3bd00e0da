import Verif.Lemmas.ErgodicMean
import Verif.Spec.Joint

/-! # Well separated positions of a converging chain are nearly independent -/

namespace PW
open MeasureTheory Set Filter Topology
open scoped ENNReal

variable {X W G : Type} [MeasurableSpace X] [MeasurableSpace W] [MeasurableSpace G]

/-- Measurable with values in `[0, 1]`. -/
structure Unit01 {Y : Type} [MeasurableSpace Y] (h : Y → ℝ) : Prop where
  meas : Measurable h
  nonneg : ∀ x, 0 ≤ h x
  le_one : ∀ x, h x ≤ 1

theorem Unit01.bdd {Y : Type} [MeasurableSpace Y] {h : Y → ℝ} (hh : Unit01 h) : Bdd 1 h :=
  ⟨hh.meas, fun x => abs_le.2 ⟨by linarith [hh.nonneg x], hh.le_one x⟩⟩

theorem Unit01.comp {Y Z : Type} [MeasurableSpace Y] [MeasurableSpace Z] {h : Y → ℝ} (hh : Unit01 h) {c : Z → Y} (hc : Measurable c) :
    Unit01 fun z => h (c z) := ⟨hh.meas.comp hc, fun _ => hh.nonneg _, fun _ => hh.le_one _⟩

theorem Unit01.indicator {Y : Type} [MeasurableSpace Y] {S : Set Y} (hS : MeasurableSet S) : Unit01 (S.indicator (1 : Y → ℝ)) :=
  ⟨measurable_one.indicator hS, fun x => indicator_nonneg (fun _ _ => zero_le_one) x, fun x => by
    by_cases hx : x ∈ S
    · rw [indicator_of_mem hx]; exact le_rfl
    · rw [indicator_of_notMem hx]; exact zero_le_one⟩

section
variable {ν : Measure W} [IsProbabilityMeasure ν] {T : X → W → X}

theorem avgIter_param {Z : Type} (h : Z × X → ℝ) (n : ℕ) (z : Z) (x : X) :
    (avg ν fun (p : Z × X) w => (p.1, T p.2 w))^[n] h (z, x) = (avg ν T)^[n] (fun y => h (z, y)) x := by
  induction n generalizing x with
  | zero => rfl
  | succ n ih =>
    rw [Function.iterate_succ_apply', Function.iterate_succ_apply']
    show ∫ w, _ ∂ν = ∫ w, _ ∂ν
    exact integral_congr_ae (ae_of_all _ fun w => ih (T x w))

variable (hT : Measurable fun p : X × W => T p.1 p.2)
include hT

theorem Unit01.avg {h : X → ℝ} (hh : Unit01 h) : Unit01 (PW.avg ν T h) :=
  ⟨(hh.bdd.avg hT).meas, fun x => integral_nonneg fun w => hh.nonneg _, fun x => (le_abs_self _).trans ((hh.bdd.avg hT).le x)⟩

theorem Unit01.avgIter {h : X → ℝ} (hh : Unit01 h) (n : ℕ) : Unit01 ((PW.avg ν T)^[n] h) := by
  induction n with
  | zero => exact hh
  | succ n ih => rw [Function.iterate_succ_apply']; exact ih.avg hT

theorem Unit01.avgIter_param {Z : Type} [MeasurableSpace Z] {h : Z × X → ℝ} (hh : Unit01 h) (n : ℕ) :
    Unit01 fun p : Z × X => (PW.avg ν T)^[n] (fun y => h (p.1, y)) p.2 := by
  have hT' : Measurable fun p : (Z × X) × W => ((fun (p : Z × X) w => (p.1, T p.2 w)) p.1 p.2) :=
    (measurable_fst.comp measurable_fst).prodMk (hT.comp ((measurable_snd.comp measurable_fst).prodMk measurable_snd))
  have h1 := hh.avgIter (ν := ν) (T := fun (p : Z × X) w => (p.1, T p.2 w)) hT' n
  have e : (PW.avg ν fun (p : Z × X) w => (p.1, T p.2 w))^[n] h = fun p : Z × X => (PW.avg ν T)^[n] (fun y => h (p.1, y)) p.2 :=
    funext fun p => PW.avgIter_param h n p.1 p.2
  rwa [e] at h1

end

/-- Expected value of a function of the positions at times `t 0 < t 1 < …`. -/
noncomputable def jointAvg (ν : Measure W) (T : X → W → X) : (L : ℕ) → (Fin L → ℕ) → ((Fin L → X) → ℝ) → X → ℝ
  | 0, _, F, _ => F Fin.elim0
  | L + 1, t, F, x => (avg ν T)^[t 0] (fun y => jointAvg ν T L (fun i => t i.succ - t 0) (fun v => F (Fin.cons y v)) y) x

theorem Apart.tail {L g : ℕ} {t : Fin (L + 1) → ℕ} (h : Apart g t) : Apart g fun i : Fin L => t i.succ - t 0 := by
  refine ⟨fun i => ?_, fun i j hij => ?_⟩
  · have := h.2 0 i.succ (Fin.succ_pos i); show g ≤ t i.succ - t 0; omega
  · have h1 := h.2 0 i.succ (Fin.succ_pos i)
    have h2 := h.2 i.succ j.succ (Fin.succ_lt_succ_iff.2 hij)
    show t i.succ - t 0 + g ≤ t j.succ - t 0
    omega

theorem Apart.mono {L g g' : ℕ} {t : Fin L → ℕ} (h : Apart g' t) (hg : g ≤ g') : Apart g t :=
  ⟨fun i => hg.trans (h.1 i), fun i j hij => (Nat.add_le_add_left hg _).trans (h.2 i j hij)⟩

theorem measurable_cons {L : ℕ} : Measurable fun p : X × (Fin L → X) => (Fin.cons p.1 p.2 : Fin (L + 1) → X) := by
  refine measurable_pi_lambda _ fun i => ?_
  refine Fin.cases ?_ (fun i => ?_) i
  · exact measurable_fst
  · exact (measurable_pi_apply i).comp measurable_snd

section
variable {ν : Measure W} [IsProbabilityMeasure ν] {T : X → W → X} (hT : Measurable fun p : X × W => T p.1 p.2)
include hT

theorem jointAvg_unit {L : ℕ} (t : Fin L → ℕ) {Z : Type} [MeasurableSpace Z] {F : Z × (Fin L → X) → ℝ} (hF : Unit01 F) :
    Unit01 fun p : Z × X => jointAvg ν T L t (fun v => F (p.1, v)) p.2 := by
  induction L generalizing Z with
  | zero => exact hF.comp (measurable_fst.prodMk measurable_const)
  | succ L ih =>
    have h1 := ih (fun i => t i.succ - t 0) (Z := Z × X) (F := fun q : (Z × X) × (Fin L → X) => F (q.1.1, Fin.cons q.1.2 q.2))
      (hF.comp ((measurable_fst.comp measurable_fst).prodMk
        (measurable_cons.comp ((measurable_snd.comp measurable_fst).prodMk measurable_snd))))
    have h2 : Unit01 fun p : Z × X => jointAvg ν T L (fun i => t i.succ - t 0) (fun v => F (p.1, Fin.cons p.2 v)) p.2 :=
      h1.comp (c := fun p : Z × X => (p, p.2)) (measurable_id.prodMk measurable_snd)
    exact h2.avgIter_param hT (t 0)

theorem jointAvg_unit' {L : ℕ} (t : Fin L → ℕ) {F : (Fin L → X) → ℝ} (hF : Unit01 F) : Unit01 (jointAvg ν T L t F) :=
  (jointAvg_unit hT t (Z := Unit) (hF.comp measurable_snd)).comp (measurable_const.prodMk measurable_id : Measurable fun x : X => ((), x))

theorem jointAvg_diag {L : ℕ} (t : Fin L → ℕ) {F : (Fin (L + 1) → X) → ℝ} (hF : Unit01 F) :
    Unit01 fun y => jointAvg ν T L t (fun v => F (Fin.cons y v)) y :=
  (jointAvg_unit hT t (Z := X) (hF.comp measurable_cons)).comp (measurable_id.prodMk measurable_id)

/-- The joint law of the positions of a driven chain. -/
theorem joint_eq {μ : Measure G} [IsProbabilityMeasure μ] {f : X → G → X × G} (hf : Measurable fun p : X × G => f p.1 p.2)
    (hd : Drives μ ν f T) {L : ℕ} {g : ℕ} (t : Fin L → ℕ) (ht : Apart g t) {F : (Fin L → X) → ℝ} (hF : Unit01 F) (x : X) :
    ∫ w, F (fun i => posAt f x (t i) w) ∂μ = jointAvg ν T L t F x := by
  induction L generalizing x with
  | zero =>
    show _ = F Fin.elim0
    have : ∀ w, F (fun i => posAt f x (t i) w) = F Fin.elim0 := fun w => congrArg F (funext fun i => i.elim0)
    simp only [this, integral_const, probReal_univ, one_smul]
  | succ L ih =>
    set Φ : X × G → ℝ := fun p => F (Fin.cons p.1 fun i : Fin L => posAt f p.1 (t i.succ - t 0) p.2) with hΦ
    have mΦ : Measurable fun p : X × G => (Fin.cons p.1 fun i : Fin L => posAt f p.1 (t i.succ - t 0) p.2 : Fin (L + 1) → X) :=
      measurable_cons.comp (measurable_fst.prodMk (measurable_pi_lambda _ fun i => (hf.iterate _).fst))
    have h1 := markov hf hT hd (hF.comp mΦ).bdd (t 0) x
    have e : ∀ w, F (fun i => posAt f x (t i) w) = Φ ((fun p : X × G => f p.1 p.2)^[t 0] (x, w)) := fun w => by
      rw [hΦ]
      refine congrArg F (funext fun i => ?_)
      refine Fin.cases rfl (fun i => ?_) i
      rw [Fin.cons_succ]
      unfold posAt
      rw [Prod.mk.eta, ← Function.iterate_add_apply]
      have := ht.2 0 i.succ (Fin.succ_pos i)
      rw [Nat.sub_add_cancel (by omega)]
    simp only [e]
    refine h1.trans ?_
    show (PW.avg ν T)^[t 0] _ x = (PW.avg ν T)^[t 0] _ x
    refine congrArg (fun u => (PW.avg ν T)^[t 0] u x) (funext fun y => ?_)
    exact ih (fun i => t i.succ - t 0) ht.tail (hF.comp (measurable_cons.comp measurable_prodMk_left)) y

end

/-- From `x`, the law at late times is eventually within every `ε > δ` of `P`. -/
def ConvFrom (P : Measure X) (ν : Measure W) (T : X → W → X) (δ : ℝ) (x : X) : Prop :=
  ∀ ε > 0, ∃ N : ℕ, ∀ n ≥ N, ∀ h : X → ℝ, Unit01 h → |(avg ν T)^[n] h x - ∫ y, h y ∂P| ≤ δ + ε

/-- If almost every point is in some `S N`, functions small on `S N` have a small mean. -/
theorem small_mean {P : Measure X} [IsProbabilityMeasure P] {S : ℕ → Set X} (hm : Monotone S) (hS : ∀ᵐ y ∂P, ∃ N, y ∈ S N)
    {c ε : ℝ} (hc : 0 ≤ c) (hε : 0 < ε) :
    ∃ N, ∀ ψ : X → ℝ, Unit01 ψ → (∀ y ∈ S N, ψ y ≤ c) → ∫ y, ψ y ∂P ≤ c + ε := by
  have h1 : P (⋃ N, S N) = 1 := by
    rw [← measure_univ (μ := P)]
    refine measure_congr ?_
    filter_upwards [hS] with y hy
    exact propext ⟨fun _ => trivial, fun _ => mem_iUnion.2 hy⟩
  have h2 := tendsto_measure_iUnion_atTop (μ := P) hm
  rw [h1] at h2
  have hlt : 1 - ENNReal.ofReal ε < 1 := ENNReal.sub_lt_self (by simp) (by simp) (by simpa using hε)
  obtain ⟨N, hN⟩ := (h2.eventually (lt_mem_nhds hlt)).exists
  refine ⟨N, fun ψ hψ hs => ?_⟩
  have hA : MeasurableSet {y | ψ y ≤ c} := measurableSet_le hψ.meas measurable_const
  have h3 : 1 - ENNReal.ofReal ε ≤ P {y | ψ y ≤ c} := hN.le.trans (measure_mono fun y hy => hs y hy)
  have h4 : P {y | ψ y ≤ c}ᶜ ≤ ENNReal.ofReal ε := by
    rw [prob_compl_eq_one_sub hA]
    exact tsub_le_iff_tsub_le.1 h3
  have h5 : ∫ y, ψ y ∂P ≤ ∫ y, (c + {y | ψ y ≤ c}ᶜ.indicator (1 : X → ℝ) y) ∂P := by
    refine integral_mono (hψ.bdd.int P) ((integrable_const _).add ((Unit01.indicator hA.compl).bdd.int P)) fun y => ?_
    show ψ y ≤ c + _
    by_cases hy : y ∈ {y | ψ y ≤ c}
    · have := (Unit01.indicator hA.compl).nonneg y
      have h6 : ψ y ≤ c := hy
      linarith
    · rw [indicator_of_mem (mem_compl hy)]
      have := hψ.le_one y
      show ψ y ≤ c + 1
      linarith
  refine h5.trans ?_
  rw [integral_add (integrable_const _) ((Unit01.indicator hA.compl).bdd.int P), integral_indicator_one hA.compl, integral_const]
  simp only [probReal_univ, one_smul]
  exact add_le_add le_rfl (ENNReal.toReal_le_of_le_ofReal hε.le h4)

theorem integral_pi_succ (P : Measure X) [IsProbabilityMeasure P] {L : ℕ} {F : (Fin (L + 1) → X) → ℝ} (hF : Unit01 F) :
    ∫ v, F v ∂(Measure.pi fun _ => P) = ∫ y, ∫ v, F (Fin.cons y v) ∂(Measure.pi fun _ => P) ∂P := by
  have h := (measurePreserving_piFinSuccAbove (fun _ : Fin (L + 1) => P) 0).symm
  have h1 := h.integral_comp' F
  rw [← h1]
  have e : ∀ p : X × (Fin L → X), (MeasurableEquiv.piFinSuccAbove (fun _ : Fin (L + 1) => X) 0).symm p = Fin.cons p.1 p.2 := fun p => by
    funext i
    refine Fin.cases rfl (fun i => rfl) i
  simp only [e]
  exact integral_prod (fun p : X × (Fin L → X) => F (Fin.cons p.1 p.2)) ((hF.comp measurable_cons).bdd.int _)

theorem unit_section (P : Measure X) [IsProbabilityMeasure P] {L : ℕ} {F : (Fin (L + 1) → X) → ℝ} (hF : Unit01 F) :
    Unit01 fun y => ∫ v, F (Fin.cons y v) ∂(Measure.pi fun _ => P) := by
  refine ⟨?_, fun y => integral_nonneg fun v => hF.nonneg _, fun y => ?_⟩
  · have : StronglyMeasurable fun p : X × (Fin L → X) => F (Fin.cons p.1 p.2) := (hF.comp measurable_cons).meas.stronglyMeasurable
    exact this.integral_prod_right'.measurable
  · have := integral_mono (μ := Measure.pi fun _ : Fin L => P) ((hF.comp (measurable_cons.comp (measurable_prodMk_left (x := y)))).bdd.int _)
      (integrable_const (1 : ℝ)) fun v => hF.le_one _
    simpa using this

section
variable {P : Measure X} [IsProbabilityMeasure P] {ν : Measure W} [IsProbabilityMeasure ν] {T : X → W → X}
  (hT : Measurable fun p : X × W => T p.1 p.2) {δ : ℝ} (hδ : 0 ≤ δ) (hae : ∀ᵐ y ∂P, ConvFrom P ν T δ y)
include hT hδ hae

/-- **Near independence.** Positions at `L` well separated times are jointly within `L δ + ε` of `L` independent draws from `P`. -/
theorem near_indep (L : ℕ) {x : X} (hx : ConvFrom P ν T δ x) {ε : ℝ} (hε : 0 < ε) :
    ∃ N : ℕ, ∀ t : Fin L → ℕ, Apart N t → ∀ F : (Fin L → X) → ℝ, Unit01 F →
      |jointAvg ν T L t F x - ∫ v, F v ∂(Measure.pi fun _ => P)| ≤ L * δ + ε := by
  induction L generalizing x ε with
  | zero =>
    refine ⟨0, fun t _ F _ => ?_⟩
    have : ∀ v : Fin 0 → X, F v = F Fin.elim0 := fun v => congrArg F (funext fun i => i.elim0)
    simp only [this, integral_const, probReal_univ, one_smul]
    show |F Fin.elim0 - F Fin.elim0| ≤ _
    rw [sub_self, abs_zero]
    simpa using hε.le
  | succ L ih =>
    have he : 0 < ε / 3 := by positivity
    obtain ⟨N₁, hN₁⟩ := hx (ε / 3) he
    set S : ℕ → Set X := fun N => {y | ∀ t : Fin L → ℕ, Apart N t → ∀ F : (Fin L → X) → ℝ, Unit01 F →
      |jointAvg ν T L t F y - ∫ v, F v ∂(Measure.pi fun _ => P)| ≤ L * δ + ε / 3} with hS
    have hmono : Monotone S := fun N N' h y hy t ht F hF => hy t (ht.mono h) F hF
    obtain ⟨N₂, hN₂⟩ := small_mean (P := P) (S := S) hmono (hae.mono fun y hy => ih hy he) (c := L * δ + ε / 3) (by positivity) he
    refine ⟨max N₁ N₂, fun t ht F hF => ?_⟩
    have h1 := hN₁ (t 0) ((le_max_left _ _).trans (ht.1 0)) _ (jointAvg_diag (ν := ν) hT (fun i => t i.succ - t 0) hF)
    rw [integral_pi_succ P hF]
    set H : X → ℝ := fun y => jointAvg ν T L (fun i => t i.succ - t 0) (fun v => F (Fin.cons y v)) y with hH
    set K : X → ℝ := fun y => ∫ v, F (Fin.cons y v) ∂(Measure.pi fun _ => P) with hK
    have uH : Unit01 H := jointAvg_diag hT _ hF
    have uK : Unit01 K := unit_section P hF
    have uD : Unit01 fun y => |H y - K y| := by
      refine ⟨(uH.meas.sub uK.meas).abs, fun y => abs_nonneg _, fun y => ?_⟩
      have a1 := uH.nonneg y
      have a2 := uH.le_one y
      have a3 := uK.nonneg y
      have a4 := uK.le_one y
      exact abs_le.2 ⟨by linarith, by linarith⟩
    have h2 := hN₂ _ uD fun y hy => hy (fun i => t i.succ - t 0) (ht.tail.mono (le_max_right _ _)) (fun v => F (Fin.cons y v))
      (hF.comp (measurable_cons.comp measurable_prodMk_left))
    have h3 : |∫ y, H y ∂P - ∫ y, K y ∂P| ≤ L * δ + ε / 3 + ε / 3 := by
      rw [← integral_sub (uH.bdd.int P) (uK.bdd.int P)]
      exact (abs_integral_le_integral_abs).trans h2
    have h4 : jointAvg ν T (L + 1) t F x - ∫ y, K y ∂P = ((PW.avg ν T)^[t 0] H x - ∫ y, H y ∂P) + (∫ y, H y ∂P - ∫ y, K y ∂P) := by
      show (PW.avg ν T)^[t 0] H x - _ = _
      ring
    rw [h4]
    refine (abs_add_le _ _).trans ((add_le_add h1 h3).trans ?_)
    push_cast
    linarith

/-- The same for a driven chain, in terms of regions. -/
theorem near_indep_driven (L : ℕ) {x : X} (hx : ConvFrom P ν T δ x) {ε : ℝ} (hε : 0 < ε) :
    ∃ N : ℕ, ∀ {G : Type} [MeasurableSpace G] (μ : Measure G) [IsProbabilityMeasure μ] (f : X → G → X × G),
      (Measurable fun p : X × G => f p.1 p.2) → Drives μ ν f T → ∀ t : Fin L → ℕ, Apart N t → ∀ S : Set (Fin L → X), MeasurableSet S →
      |(μ {g | (fun i => posAt f x (t i) g) ∈ S}).toReal - ((Measure.pi fun _ => P) S).toReal| ≤ L * δ + ε := by
  obtain ⟨N, hN⟩ := near_indep hT hδ hae L hx hε
  refine ⟨N, fun {G} _ μ _ f hf hd t ht S hS => ?_⟩
  have h1 := hN t ht _ (Unit01.indicator hS)
  rw [← joint_eq hT hf hd t ht (Unit01.indicator hS) x, integral_indicator_one hS] at h1
  have mp : Measurable fun (g : G) (i : Fin L) => posAt f x (t i) g := measurable_pi_lambda _ fun i => measurable_posAt hf x (t i)
  have h3 : ∫ g, S.indicator (1 : (Fin L → X) → ℝ) (fun i => posAt f x (t i) g) ∂μ = (μ {g | (fun i => posAt f x (t i) g) ∈ S}).toReal :=
    integral_indicator_one (μ := μ) (mp hS)
  rw [h3] at h1
  exact h1

end

/-! ## Uniformly -/

section
variable {P : Measure X} [IsProbabilityMeasure P] {ν : Measure W} [IsProbabilityMeasure ν] {T : X → W → X}
  (hT : Measurable fun p : X × W => T p.1 p.2) {K : Set X} (hK : ∀ᵐ y ∂P, y ∈ K) {δ : ℝ} {N : ℕ}
  (hN : ∀ y ∈ K, ∀ n ≥ N, ∀ h : X → ℝ, Unit01 h → |(avg ν T)^[n] h y - ∫ y, h y ∂P| ≤ δ)
include hT hK hN

/-- If the law is within `δ` of `P` after `N` steps from every point of `K`, positions `N` apart are jointly within `L δ` of independent draws. -/
theorem near_indep_uniform (L : ℕ) {x : X} (hx : x ∈ K) (t : Fin L → ℕ) (ht : Apart N t) {F : (Fin L → X) → ℝ} (hF : Unit01 F) :
    |jointAvg ν T L t F x - ∫ v, F v ∂(Measure.pi fun _ => P)| ≤ L * δ := by
  induction L generalizing x with
  | zero =>
    have : ∀ v : Fin 0 → X, F v = F Fin.elim0 := fun v => congrArg F (funext fun i => i.elim0)
    simp only [this, integral_const, probReal_univ, one_smul]
    show |F Fin.elim0 - F Fin.elim0| ≤ _
    rw [sub_self, abs_zero]
    simp
  | succ L ih =>
    have h1 := hN x hx (t 0) (ht.1 0) _ (jointAvg_diag (ν := ν) hT (fun i => t i.succ - t 0) hF)
    rw [integral_pi_succ P hF]
    set H : X → ℝ := fun y => jointAvg ν T L (fun i => t i.succ - t 0) (fun v => F (Fin.cons y v)) y with hH
    set K' : X → ℝ := fun y => ∫ v, F (Fin.cons y v) ∂(Measure.pi fun _ => P) with hK'
    have uH : Unit01 H := jointAvg_diag hT _ hF
    have uK : Unit01 K' := unit_section P hF
    have h3 : |∫ y, H y ∂P - ∫ y, K' y ∂P| ≤ L * δ := by
      rw [← integral_sub (uH.bdd.int P) (uK.bdd.int P)]
      have := norm_integral_le_of_norm_le_const (μ := P) (f := fun y => H y - K' y) (C := L * δ)
        (hK.mono fun y hy => ih hy (fun i => t i.succ - t 0) ht.tail (F := fun v => F (Fin.cons y v))
          (hF.comp (measurable_cons.comp measurable_prodMk_left)))
      rw [Real.norm_eq_abs] at this
      simpa using this
    have h4 : jointAvg ν T (L + 1) t F x - ∫ y, K' y ∂P = ((PW.avg ν T)^[t 0] H x - ∫ y, H y ∂P) + (∫ y, H y ∂P - ∫ y, K' y ∂P) := by
      show (PW.avg ν T)^[t 0] H x - _ = _
      ring
    rw [h4]
    refine (abs_add_le _ _).trans ((add_le_add h1 h3).trans ?_)
    push_cast
    linarith

theorem near_indep_uniform_driven (L : ℕ) {x : X} (hx : x ∈ K) {μ : Measure G} [IsProbabilityMeasure μ] {f : X → G → X × G}
    (hf : Measurable fun p : X × G => f p.1 p.2) (hd : Drives μ ν f T) (t : Fin L → ℕ) (ht : Apart N t) {S : Set (Fin L → X)}
    (hS : MeasurableSet S) :
    |(μ {g | (fun i => posAt f x (t i) g) ∈ S}).toReal - ((Measure.pi fun _ => P) S).toReal| ≤ L * δ := by
  have h1 := near_indep_uniform hT hK hN L hx t ht (Unit01.indicator hS)
  rw [← joint_eq hT hf hd t ht (Unit01.indicator hS) x, integral_indicator_one hS] at h1
  have mp : Measurable fun (g : G) (i : Fin L) => posAt f x (t i) g := measurable_pi_lambda _ fun i => measurable_posAt hf x (t i)
  have h3 : ∫ g, S.indicator (1 : (Fin L → X) → ℝ) (fun i => posAt f x (t i) g) ∂μ = (μ {g | (fun i => posAt f x (t i) g) ∈ S}).toReal :=
    integral_indicator_one (μ := μ) (mp hS)
  rw [h3] at h1
  exact h1

end

end PW

import Verif.Spec.Score
import Verif.Lemmas.Affine
import Verif.Lemmas.Gibbs
import Verif.Lemmas.Score
import Verif.Props.Plot

/-!
# No method scores better than the matching filter and smoother: C94
-/

namespace Verif

open Matrix MeasureTheory StateSpace

variable {Ω : Type*} {env : Env} {n k : ℕ} {N : ℕ}

/-! ## Scores of results -/

theorem rmse_of_reports {data : List (Arr × Arr)} {gs : List Gaussian} {x : ℕ → Fin n → ℝ} {y : ℕ → Fin k → ℝ} {m : ℕ → Fin n → ℝ}
    {C : ℕ → Matrix (Fin n) (Fin n) ℝ} (hN : 0 < N) (h : Reports env N data gs x y m C) :
    ∃ r, Metrics.rmse env gs (data.map Prod.fst) = .ok r ∧ r ^ 2 = (∑ i ∈ Finset.range N, sqDist (m i) (x i)) / N := by
  refine ⟨rootMeanSq ((List.range N).map fun i => (m i, x i)), ?_, ?_⟩
  · refine (C58_rmse (zip_forall h.length (by simp [h.data_length]) (fun i => (m i, x i)) fun i hi => ?_) (by simp; omega)).1
    obtain ⟨p, h1, h2, -⟩ := h.data i hi
    obtain ⟨g, h3, h4⟩ := h.result i hi
    exact ⟨g, p.1, h3, by simp [h1], ⟨_, h4.meanA, .inl rfl⟩, h2⟩
  · have hs : (((List.range N).map fun i => (m i, x i)).map fun p => sqDist p.1 p.2).sum = ∑ i ∈ Finset.range N, sqDist (m i) (x i) := by
      rw [List.map_map]
      exact sum_range_list _ N
    rw [rootMeanSq, Real.sq_sqrt, hs]
    · simp
    · rw [hs]
      exact div_nonneg (Finset.sum_nonneg fun i _ => Finset.sum_nonneg fun a _ => sq_nonneg _) (Nat.cast_nonneg _)

theorem Reports.covariances {data : List (Arr × Arr)} {gs : List Gaussian} {x m : ℕ → Fin n → ℝ} {y : ℕ → Fin k → ℝ} {C : ℕ → Matrix (Fin n) (Fin n) ℝ}
    (h : Reports env N data gs x y m C) : Covariances env N gs C := ⟨h.length, fun i hi => by
  obtain ⟨g, h1, h2⟩ := h.result i hi
  exact ⟨g, h1, h2.2⟩⟩

/-- Negative log density of `x`. -/
noncomputable def stepScore (m x : Fin n → ℝ) (C : Matrix (Fin n) (Fin n) ℝ) : ℝ :=
  (n * Real.log (2 * Real.pi) + Real.log C.det + (x - m) ⬝ᵥ C⁻¹ *ᵥ (x - m)) / 2

theorem nll_of_reports {data : List (Arr × Arr)} {gs : List Gaussian} {x : ℕ → Fin n → ℝ} {y : ℕ → Fin k → ℝ} {m : ℕ → Fin n → ℝ}
    {C : ℕ → Matrix (Fin n) (Fin n) ℝ} (hN : 0 < N) (h : Reports env N data gs x y m C) (hC : ∀ i < N, (C i).PosDef) (hS : ∀ i < N, Spread (C i)) :
    Metrics.nll env gs (data.map Prod.fst) = .ok ((∑ i ∈ Finset.range N, stepScore (m i) (x i) (C i)) / N) ∧
      ∀ i < N, ∃ g p, gs[i]? = some g ∧ data[i]? = some p ∧ g.nll env p.1 = .ok (stepScore (m i) (x i) (C i)) := by
  have key : ∀ i < N, ∃ g p, gs[i]? = some g ∧ data[i]? = some p ∧ g.nll env p.1 = .ok (stepScore (m i) (x i) (C i)) := fun i hi => by
    obtain ⟨p, h1, h2, -⟩ := h.data i hi
    obtain ⟨g, h3, h4⟩ := h.result i hi
    exact ⟨g, p, h3, h1, C64_formula h4 (hC i hi) (hS i hi) h2⟩
  refine ⟨?_, key⟩
  have := C64_average (env := env) (ls := (List.range N).map fun i => stepScore (m i) (x i) (C i))
    (zip_forall (as := gs) (bs := data.map Prod.fst) h.length (by simp [h.data_length]) (fun i => stepScore (m i) (x i) (C i)) fun i hi => by
      obtain ⟨g, p, h1, h2, h3⟩ := key i hi
      exact ⟨g, p.1, h1, by simp [h2], h3⟩) (by simp; omega)
  rw [this, sum_range_list]
  simp

variable [MeasurableSpace Ω] {ℙ : Measure Ω} {data : Ω → List (Arr × Arr)} {gs : Ω → List Gaussian} {x : Ω → ℕ → Fin n → ℝ} {y : Ω → ℕ → Fin k → ℝ}
  {m : Ω → ℕ → Fin n → ℝ} {C : ℕ → Matrix (Fin n) (Fin n) ℝ}

/-- Expected score of results whose errors have the second moments `M`. -/
private theorem mean_rmse (hN : 0 < N) (h : ∀ ω, Reports env N (data ω) (gs ω) (x ω) (y ω) (m ω) C)
    (hs : ∀ i < N, SqInt ℙ fun ω => x ω i - m ω i) :
    ∃ r : Ω → ℝ, (∀ ω, Metrics.rmse env (gs ω) ((data ω).map Prod.fst) = .ok (r ω)) ∧ Integrable (fun ω => r ω ^ 2) ℙ ∧
      ∫ ω, r ω ^ 2 ∂ℙ = (∑ i ∈ Finset.range N, (cross ℙ (fun ω => x ω i - m ω i) fun ω => x ω i - m ω i).trace) / N := by
  choose r h1 h2 using fun ω => rmse_of_reports hN (h ω)
  refine ⟨r, h1, ?_⟩
  simp only [h2, sqDist]
  have hint : ∀ i ∈ Finset.range N, ∀ a ∈ Finset.univ, Integrable (fun ω => (m ω i a - x ω i a) ^ 2) ℙ := fun i hi a _ => by
    refine ((hs i (Finset.mem_range.1 hi)) a).integrable_sq.congr (.of_forall fun ω => ?_)
    show (x ω i a - m ω i a) ^ 2 = _
    ring
  refine ⟨(integrable_finsetSum _ fun i hi => integrable_finsetSum _ (hint i hi)).div_const _, ?_⟩
  rw [integral_div, integral_finsetSum _ fun i hi => integrable_finsetSum _ (hint i hi)]
  congr 1
  refine Finset.sum_congr rfl fun i hi => ?_
  rw [integral_finsetSum _ (hint i hi), trace]
  refine Finset.sum_congr rfl fun a _ => ?_
  rw [diag_apply, cross, of_apply]
  refine integral_congr_ae (.of_forall fun ω => ?_)
  show (m ω i a - x ω i a) ^ 2 = (x ω i a - m ω i a) * (x ω i a - m ω i a)
  ring

private theorem integral_form {e : Ω → Fin n → ℝ} (he : SqInt ℙ e) (W : Matrix (Fin n) (Fin n) ℝ) :
    Integrable (fun ω => e ω ⬝ᵥ W *ᵥ e ω) ℙ ∧ ∫ ω, e ω ⬝ᵥ W *ᵥ e ω ∂ℙ = (W * cross ℙ e e).trace := by
  have hq : (fun ω => e ω ⬝ᵥ W *ᵥ e ω) = fun ω => ∑ a, ∑ b, W a b * (e ω b * e ω a) := funext fun ω => by
    simp only [dotProduct, mulVec, Finset.mul_sum]
    exact Finset.sum_congr rfl fun a _ => Finset.sum_congr rfl fun b _ => by ring
  have hi : ∀ a b, Integrable (fun ω => W a b * (e ω b * e ω a)) ℙ := fun a b => (he.mul he b a).const_mul _
  rw [hq]
  refine ⟨integrable_finsetSum _ fun a _ => integrable_finsetSum _ fun b _ => hi a b, ?_⟩
  rw [integral_finsetSum _ fun a _ => integrable_finsetSum _ fun b _ => hi a b, trace]
  refine Finset.sum_congr rfl fun a _ => ?_
  rw [integral_finsetSum _ fun b _ => hi a b, diag_apply, Matrix.mul_apply]
  exact Finset.sum_congr rfl fun b _ => by rw [integral_const_mul]; rfl

private theorem mean_nll [IsProbabilityMeasure ℙ] (hN : 0 < N) (h : ∀ ω, Reports env N (data ω) (gs ω) (x ω) (y ω) (m ω) C)
    (hs : ∀ i < N, SqInt ℙ fun ω => x ω i - m ω i) (hC : ∀ i < N, (C i).PosDef) (hS : ∀ i < N, Spread (C i)) :
    ∃ e : Ω → ℝ, (∀ ω, Metrics.nll env (gs ω) ((data ω).map Prod.fst) = .ok (e ω)) ∧ Integrable e ℙ ∧
      ∫ ω, e ω ∂ℙ = (∑ i ∈ Finset.range N, (n * Real.log (2 * Real.pi) + (Real.log (C i).det +
        ((C i)⁻¹ * cross ℙ (fun ω => x ω i - m ω i) fun ω => x ω i - m ω i).trace)) / 2) / N := by
  refine ⟨fun ω => (∑ i ∈ Finset.range N, stepScore (m ω i) (x ω i) (C i)) / N, fun ω => (nll_of_reports hN (h ω) hC hS).1, ?_⟩
  have hi : ∀ i ∈ Finset.range N, Integrable (fun ω => stepScore (m ω i) (x ω i) (C i)) ℙ := fun i hi =>
    ((integrable_const _).add (integral_form (hs i (Finset.mem_range.1 hi)) (C i)⁻¹).1).div_const 2
  refine ⟨(integrable_finsetSum _ hi).div_const _, ?_⟩
  rw [integral_div, integral_finsetSum _ hi]
  congr 1
  refine Finset.sum_congr rfl fun i hi => ?_
  obtain ⟨h1, h2⟩ := integral_form (hs i (Finset.mem_range.1 hi)) (C i)⁻¹
  simp only [stepScore]
  rw [integral_div, integral_add (integrable_const _) h1, h2]
  simp [add_assoc]

/-! ## Any method, normal noise -/

private theorem cov_trace_le {C M : Matrix (Fin n) (Fin n) ℝ} (h : ∀ u, quad C u ≤ quad M u) : C.trace ≤ M.trace := by
  refine Finset.sum_le_sum fun a _ => ?_
  have := h (Pi.single a 1)
  simpa [quad] using this

/-- The measurements from their first `N`. -/
private def fill (N : ℕ) (z : Fin N → Fin k → ℝ) (j : ℕ) : Fin k → ℝ := if h : j < N then z ⟨j, h⟩ else 0

private theorem fill_meas (N : ℕ) : Measurable (fill (k := k) N) := by
  refine measurable_pi_lambda _ fun j => ?_
  unfold fill
  split_ifs
  · exact measurable_pi_apply _
  · exact measurable_const

private theorem UsesFirst.fill {α : Type*} {N : ℕ} {φ : (ℕ → Fin k → ℝ) → α} (h : UsesFirst N φ) (y : ℕ → Fin k → ℝ) :
    φ (fill N fun j => y j) = φ y := h _ _ fun j hj => by simp [Verif.fill, hj]

theorem AffineIn.uses {N : ℕ} {f : (ℕ → Fin k → ℝ) → Fin n → ℝ} (h : AffineIn N f) : UsesFirst N f := by
  obtain ⟨β, B, h⟩ := h
  intro y y' e
  rw [h, h]
  congr 1
  exact Finset.sum_congr rfl fun j hj => by rw [e j (Finset.mem_range.1 hj)]

theorem AffineIn.measurable {N : ℕ} {f : (ℕ → Fin k → ℝ) → Fin n → ℝ} (h : AffineIn N f) (a : Fin n) : Measurable fun y => f y a := by
  obtain ⟨β, B, h⟩ := h
  simp only [h, Pi.add_apply, Finset.sum_apply]
  refine measurable_const.add (Finset.measurable_sum _ fun j _ => ?_)
  have : Measurable fun y : ℕ → Fin k → ℝ => ∑ b, B j a b * y j b := Finset.measurable_sum _ fun b _ =>
    Measurable.const_mul (f := fun y : ℕ → Fin k → ℝ => y j b) (by fun_prop) _
  exact this

private theorem sum_lintegral_le (f : ℕ → Ω → ENNReal) (S : Finset ℕ) : ∑ i ∈ S, ∫⁻ ω, f i ω ∂ℙ ≤ ∫⁻ ω, ∑ i ∈ S, f i ω ∂ℙ := by
  classical
  induction S using Finset.induction_on with
  | empty => simp
  | insert a S ha ih =>
    simp only [Finset.sum_insert ha]
    exact (add_le_add le_rfl ih).trans (le_lintegral_add _ _)

section Steps

variable [IsProbabilityMeasure ℙ] {rng : Ω → Rng} {L : StateSpace n k} {X q : ℕ → Ω → Fin n → ℝ} {r : ℕ → Ω → Fin k → ℝ}

private theorem centered (hL : L.Good) (h : L.Path ℙ X q r y) (d i : ℕ) : Centered ℙ (L.serr X y i d) (L.smth 0 i d).2 :=
  ⟨h.sq_serr d i, fun a => by simpa [cross, unit1] using congrFun (congrFun (h.mean_serr d i) a) 0, h.cov_serr hL d i⟩

private theorem first_meas (h : L.Path ℙ X q r y) (N : ℕ) : AEMeasurable (fun ω (j : Fin N) => y ω j) ℙ :=
  aemeasurable_pi_lambda _ fun j => aemeasurable_pi_lambda _ fun a => (h.sq_meas j a).1.aemeasurable

omit [MeasurableSpace Ω] in
/-- The correction of another method. -/
private theorem split (d i : ℕ) {m' : (ℕ → Fin k → ℝ) → Fin n → ℝ} (hm : UsesFirst (i + d) m') (ω : Ω) :
    X i ω - m' (y ω) = L.serr X y i d ω + (fun z => (L.smth (fill (i + d) z) i d).1 - m' (fill (i + d) z)) (fun j : Fin (i + d) => y ω j) := by
  dsimp only
  rw [hm.fill, (L.smth_affineIn d i).uses.fill, serr]
  abel

private theorem step_least (hL : L.Good) (h : L.Path ℙ X q r y) (d i : ℕ)
    (hind : ProbabilityTheory.IndepFun (L.serr X y i d) (fun ω (j : Fin (i + d)) => y ω j) ℙ)
    {m' : (ℕ → Fin k → ℝ) → Fin n → ℝ} (hm : UsesFirst (i + d) m') (hmm : ∀ a, Measurable fun y => m' y a) :
    ENNReal.ofReal (L.smth 0 i d).2.trace ≤ ∫⁻ ω, ENNReal.ofReal (sqDist (m' (y ω)) (X i ω)) ∂ℙ := by
  have hc := centered hL h d i
  have hg : ∀ a, Measurable fun z : Fin (i + d) → Fin k → ℝ => ((L.smth (fill (i + d) z) i d).1 - m' (fill (i + d) z)) a := fun a =>
    (((L.smth_affineIn d i).measurable a).comp (fill_meas _)).sub ((hmm a).comp (fill_meas _))
  have hl := fun u => hc.least (first_meas h (i + d)) hind hg u
  have hms : ∀ a, AEMeasurable (fun ω => (X i ω - m' (y ω)) a) ℙ := fun a => by
    have : (fun ω => (X i ω - m' (y ω)) a) = fun ω => L.serr X y i d ω a + ((L.smth (fill (i + d) fun j => y ω j) i d).1 - m' (fill (i + d) fun j => y ω j)) a :=
      funext fun ω => congrFun (split (L := L) d i hm ω) a
    rw [this]
    exact (hc.sq a).1.aemeasurable.add ((hg a).comp_aemeasurable (first_meas h (i + d)))
  have e : ∀ ω, ENNReal.ofReal (sqDist (m' (y ω)) (X i ω)) = ∑ a, ENNReal.ofReal (((X i ω - m' (y ω)) a) ^ 2) := fun ω => by
    rw [sqDist, ENNReal.ofReal_sum_of_nonneg fun a _ => sq_nonneg _]
    exact Finset.sum_congr rfl fun a _ => by rw [Pi.sub_apply, ← neg_sub, neg_sq]
  simp only [e]
  rw [lintegral_finsetSum' _ fun a _ => ((hms a).pow_const 2).ennreal_ofReal, trace,
    ENNReal.ofReal_sum_of_nonneg (f := fun a => (L.smth 0 i d).2.diag a) fun a _ => (hL.smth d i (y := 0)).posSemidef.diag_nonneg (i := a)]
  refine Finset.sum_le_sum fun a _ => ?_
  have := hl (Pi.single a 1)
  simp only [← split (L := L) d i hm] at this
  simpa [quad] using this

private theorem step_score (hL : L.Good) (h : L.Path ℙ X q r y) (d i : ℕ)
    (hind : ProbabilityTheory.IndepFun (L.serr X y i d) (fun ω (j : Fin (i + d)) => y ω j) ℙ)
    {m' : (ℕ → Fin k → ℝ) → Fin n → ℝ} (hm : UsesFirst (i + d) m') (hmm : ∀ a, Measurable fun y => m' y a)
    {D : (ℕ → Fin k → ℝ) → Matrix (Fin n) (Fin n) ℝ} (hD : UsesFirst (i + d) D) (hDm : ∀ a b, Measurable fun y => D y a b) (hp : ∀ y, (D y).PosDef)
    (hint : Integrable (fun ω => stepScore (m' (y ω)) (X i ω) (D (y ω))) ℙ) :
    (n * Real.log (2 * Real.pi) + (Real.log (L.smth 0 i d).2.det + n)) / 2 ≤ ∫ ω, stepScore (m' (y ω)) (X i ω) (D (y ω)) ∂ℙ := by
  have hc := centered hL h d i
  have hg : ∀ a, Measurable fun z : Fin (i + d) → Fin k → ℝ => ((L.smth (fill (i + d) z) i d).1 - m' (fill (i + d) z)) a := fun a =>
    (((L.smth_affineIn d i).measurable a).comp (fill_meas _)).sub ((hmm a).comp (fill_meas _))
  have e : (fun ω => stepScore (m' (y ω)) (X i ω) (D (y ω))) = fun ω => (n * Real.log (2 * Real.pi) +
      (Real.log (D (y ω)).det + (X i ω - m' (y ω)) ⬝ᵥ (D (y ω))⁻¹ *ᵥ (X i ω - m' (y ω)))) / 2 := funext fun ω => by
    rw [stepScore, add_assoc]
  have hint' : Integrable (fun ω => Real.log (D (y ω)).det + (X i ω - m' (y ω)) ⬝ᵥ (D (y ω))⁻¹ *ᵥ (X i ω - m' (y ω))) ℙ := by
    have := (hint.const_mul 2).sub (integrable_const (n * Real.log (2 * Real.pi)))
    refine this.congr (.of_forall fun ω => ?_)
    simp only [stepScore, Pi.sub_apply]
    ring
  have hs := hc.score (hL.smth d i) (first_meas h (i + d)) hind hg (D := fun z => D (fill (i + d) z)) (fun a b => (hDm a b).comp (fill_meas _))
    (fun z => hp _) (by simp only [← split (L := L) d i hm]; simp only [hD.fill]; exact hint')
  simp only [← split (L := L) d i hm] at hs
  simp only [hD.fill] at hs
  rw [e, integral_div, integral_add (integrable_const _) hint']
  simp only [integral_const, probReal_univ, one_smul]
  linarith

/-- Scores of the matching results, and of another method that at step `i` uses as many measurements. -/
private theorem compete (hd : NormalDraws ℙ rng) (hL : L.Good) (h : L.Path ℙ X q r y) (hx : Combinations rng fun ω => X 0 ω - L.m0)
    (hq : ∀ i, Combinations rng (q i)) (hr : ∀ i, Combinations rng (r i)) (hN : 0 < N) (d : ℕ → ℕ) {fs : Ω → List Gaussian}
    (hf : ∀ ω, Reports env N (data ω) (fs ω) (fun i => X (i + 1) ω) (y ω) (fun i => (L.smth (y ω) (i + 1) (d i)).1) fun i => (L.smth 0 (i + 1) (d i)).2)
    {use : ℕ → ℕ} (huse : ∀ i < N, use i = i + 1 + d i) {m' : ℕ → (ℕ → Fin k → ℝ) → Fin n → ℝ} {D : ℕ → (ℕ → Fin k → ℝ) → Matrix (Fin n) (Fin n) ℝ}
    (hM : Method use m' D)
    (hg : ∀ ω, Reports env N (data ω) (gs ω) (fun i => X (i + 1) ω) (y ω) (fun i => m' i (y ω)) fun i => D i (y ω)) :
    NoBetterRmse env ℙ data fs gs ∧ ((∀ i < N, Spread (L.smth 0 (i + 1) (d i)).2) → (∀ i < N, ∀ y, Spread (D i y)) → NoBetterNll env ℙ N data fs gs) := by
  have hs : ∀ i < N, SqInt ℙ fun ω => X (i + 1) ω - (L.smth (y ω) (i + 1) (d i)).1 := fun i _ => h.sq_serr (d i) (i + 1)
  have hcov : ∀ i, cross ℙ (fun ω => X (i + 1) ω - (L.smth (y ω) (i + 1) (d i)).1) (fun ω => X (i + 1) ω - (L.smth (y ω) (i + 1) (d i)).1) =
    (L.smth 0 (i + 1) (d i)).2 := fun i => h.cov_serr hL (d i) (i + 1)
  have hind := fun i => h.indep hd hL hx hq hr (d i) (i + 1)
  have hmu : ∀ i < N, UsesFirst (i + 1 + d i) (m' i) := fun i hi => huse i hi ▸ hM.mean_uses i
  have hDu : ∀ i < N, UsesFirst (i + 1 + d i) (D i) := fun i hi => huse i hi ▸ hM.cov_uses i
  constructor
  · obtain ⟨r, h1, h2, h3⟩ := mean_rmse (ℙ := ℙ) (m := fun ω i => (L.smth (y ω) (i + 1) (d i)).1) hN hf hs
    choose s h4 h5 using fun ω => rmse_of_reports hN (hg ω)
    refine ⟨r, s, h1, h4, ?_⟩
    rw [← ofReal_integral_eq_lintegral_ofReal h2 (.of_forall fun ω => sq_nonneg _), h3]
    simp only [hcov, h5]
    have hN' : (0 : ℝ) < N := Nat.cast_pos.2 hN
    have e : ∀ ω, ENNReal.ofReal ((∑ i ∈ Finset.range N, sqDist (m' i (y ω)) (X (i + 1) ω)) / N) =
        (∑ i ∈ Finset.range N, ENNReal.ofReal (sqDist (m' i (y ω)) (X (i + 1) ω))) / ENNReal.ofReal N := fun ω => by
      rw [ENNReal.ofReal_div_of_pos hN', ENNReal.ofReal_sum_of_nonneg (f := fun i => sqDist (m' i (y ω)) (X (i + 1) ω))
        fun i _ => Finset.sum_nonneg fun a _ => sq_nonneg _]
    simp only [e]
    simp only [div_eq_mul_inv]
    rw [lintegral_mul_const' _ _ (by simpa using hN.ne'), ← div_eq_mul_inv, ENNReal.ofReal_div_of_pos hN', div_eq_mul_inv]
    gcongr
    rw [ENNReal.ofReal_sum_of_nonneg (f := fun i => (L.smth 0 (i + 1) (d i)).2.trace) fun i _ => Finset.sum_nonneg fun a _ => (hL.smth (d i) (i + 1) (y := 0)).posSemidef.diag_nonneg (i := a)]
    refine (Finset.sum_le_sum fun i hi => step_least hL h (d i) (i + 1) (hind i) (hmu i (Finset.mem_range.1 hi)) (hM.mean_measurable i)).trans ?_
    exact sum_lintegral_le _ _
  · intro hS hS'
    obtain ⟨e, h1, h2, h3⟩ := mean_nll (ℙ := ℙ) (m := fun ω i => (L.smth (y ω) (i + 1) (d i)).1) hN hf hs (fun i _ => hL.smth _ _) hS
    have hn := fun ω => nll_of_reports hN (hg ω) (fun i _ => hM.posDef i _) fun i hi => hS' i hi _
    refine ⟨e, _, fun ω i => stepScore (m' i (y ω)) (X (i + 1) ω) (D i (y ω)), h1, h2, fun ω => (hn ω).1, fun ω => (hn ω).2, fun hint => ?_⟩
    have hint' : ∀ i ∈ Finset.range N, Integrable (fun ω => stepScore (m' i (y ω)) (X (i + 1) ω) (D i (y ω))) ℙ := fun i hi => hint i (Finset.mem_range.1 hi)
    refine ⟨(integrable_finsetSum _ hint').div_const _, ?_⟩
    rw [h3, integral_div, integral_finsetSum _ hint']
    gcongr with i hi
    have := step_score hL h (d i) (i + 1) (hind i) (hmu i (Finset.mem_range.1 hi)) (hM.mean_measurable i) (hDu i (Finset.mem_range.1 hi))
      (hM.cov_measurable i) (hM.posDef i) (hint i (Finset.mem_range.1 hi))
    rw [hcov, posDef_inv_mul (hL.smth _ _), trace_one, Fintype.card_fin]
    exact this

end Steps

section Runs

variable [IsProbabilityMeasure ℙ] {rng : Ω → Rng} {row : Bool} {sys : Sys} {T : Transform} {Tm : Option Transform} {L : StateSpace n k}
  {A : ℝ → Matrix (Fin n) (Fin n) ℝ} {b : ℝ → Fin n → ℝ} {H : Matrix (Fin k) (Fin n) ℝ} {c : Fin k → ℝ}

/-- **C94.** Simulate a linear system with normal noise and filter the measurements with the filter built from the same system.  Whatever
other method computes Gaussians for the same steps from the same measurements, each from those up to its time only: its expected squared
`rmse` and its expected `nll` are not smaller than those of the filter. -/
theorem C94_filter (hd : NormalDraws ℙ rng) (hL : L.Good) (hK : Describes env (KFS.init T sys Tm) none 0 sys.initState L)
    (hA : ∀ i : ℕ, L.A i = A (i * sys.dt)) (hb : ∀ i : ℕ, L.b i = b (i * sys.dt)) (hH : ∀ i, L.H i = H) (hc : ∀ i, L.c i = c)
    (htr : ∀ t, PointMap row Set.univ (fun x => sys.transition x (some t) none) fun x => A t *ᵥ x + b t)
    (hme : PointMap row Set.univ (fun x => sys.measurement x none none) fun x => H *ᵥ x + c) {N : ℕ} (hN : 0 < N) :
    ∃ (data : Ω → List (Arr × Arr)) (fs : Ω → List Gaussian) (x : Ω → ℕ → Fin n → ℝ) (y : Ω → ℕ → Fin k → ℝ) (m : Ω → ℕ → Fin n → ℝ)
      (C : ℕ → Matrix (Fin n) (Fin n) ℝ),
      (∀ ω, simData env (rng ω) n k sys N = .ok (data ω) ∧
        (KFS.init T sys Tm).kalmanFilter env ((data ω).map Prod.snd) none 0 none = .ok (fs ω) ∧ Reports env N (data ω) (fs ω) (x ω) (y ω) (m ω) C) ∧
      ∀ m' D, Method (fun i => i + 1) m' D → ∀ gs : Ω → List Gaussian,
        (∀ ω, Reports env N (data ω) (gs ω) (x ω) (y ω) (fun i => m' i (y ω)) fun i => D i (y ω)) →
        NoBetterRmse env ℙ data fs gs ∧ ((∀ i < N, Spread (C i)) → (∀ i < N, ∀ y, Spread (D i y)) → NoBetterNll env ℙ N data fs gs) := by
  have hpath := hd.path hL.P0.posSemidef hL.Q.posSemidef hL.R.posSemidef hA hb hH hc
  obtain ⟨data, fs, hrep⟩ := filter_reports (rng := rng) hL hK htr hme N
  refine ⟨data, fs, _, _, _, _, hrep, fun m' D hM gs hg => ?_⟩
  exact compete hd hL hpath (.draw 0 _ hL.P0.posSemidef) (fun i => .draw0 _ hL.Q.posSemidef) (fun i => .draw0 _ hL.R.posSemidef) hN (fun _ => 0)
    (fun ω => (hrep ω).2.2) (fun _ _ => rfl) hM hg

/-- **C94.** The same for the smoother and methods that use all measurements for every step. -/
theorem C94_smoother (hd : NormalDraws ℙ rng) (hL : L.Good) (hK : Describes env (KFS.init T sys Tm) none 0 sys.initState L)
    (hA : ∀ i : ℕ, L.A i = A (i * sys.dt)) (hb : ∀ i : ℕ, L.b i = b (i * sys.dt)) (hH : ∀ i, L.H i = H) (hc : ∀ i, L.c i = c)
    (htr : ∀ t, PointMap row Set.univ (fun x => sys.transition x (some t) none) fun x => A t *ᵥ x + b t)
    (hme : PointMap row Set.univ (fun x => sys.measurement x none none) fun x => H *ᵥ x + c) {N : ℕ} (hN : 0 < N) :
    ∃ (data : Ω → List (Arr × Arr)) (fs rs : Ω → List Gaussian) (x : Ω → ℕ → Fin n → ℝ) (y : Ω → ℕ → Fin k → ℝ) (m : Ω → ℕ → Fin n → ℝ)
      (C : ℕ → Matrix (Fin n) (Fin n) ℝ),
      (∀ ω, simData env (rng ω) n k sys N = .ok (data ω) ∧
        (KFS.init T sys Tm).kalmanFilter env ((data ω).map Prod.snd) none 0 none = .ok (fs ω) ∧
        (KFS.init T sys Tm).kalmanSmoother env (fs ω) none = .ok (rs ω) ∧ Reports env N (data ω) (rs ω) (x ω) (y ω) (m ω) C) ∧
      ∀ m' D, Method (fun _ => N) m' D → ∀ gs : Ω → List Gaussian,
        (∀ ω, Reports env N (data ω) (gs ω) (x ω) (y ω) (fun i => m' i (y ω)) fun i => D i (y ω)) →
        NoBetterRmse env ℙ data rs gs ∧ ((∀ i < N, Spread (C i)) → (∀ i < N, ∀ y, Spread (D i y)) → NoBetterNll env ℙ N data rs gs) := by
  have hpath := hd.path hL.P0.posSemidef hL.Q.posSemidef hL.R.posSemidef hA hb hH hc
  obtain ⟨data, fs, rs, hrep⟩ := smoother_reports (rng := rng) hL hK htr hme hN
  refine ⟨data, fs, rs, _, _, _, _, hrep, fun m' D hM gs hg => ?_⟩
  exact compete hd hL hpath (.draw 0 _ hL.P0.posSemidef) (fun i => .draw0 _ hL.Q.posSemidef) (fun i => .draw0 _ hL.R.posSemidef) hN
    (fun i => N - (i + 1)) (fun ω => (hrep ω).2.2.2) (fun i hi => by omega) hM hg

/-! ## Wrong models, any noise -/

private theorem mistuned {fs : Ω → List Gaussian} {m' : Ω → ℕ → Fin n → ℝ} {C' : ℕ → Matrix (Fin n) (Fin n) ℝ} (hN : 0 < N)
    (hf : ∀ ω, Reports env N (data ω) (fs ω) (x ω) (y ω) (m ω) C) (hs : ∀ i < N, SqInt ℙ fun ω => x ω i - m ω i)
    (hcov : ∀ i < N, cross ℙ (fun ω => x ω i - m ω i) (fun ω => x ω i - m ω i) = C i) (hC : ∀ i < N, (C i).PosDef)
    (hg : ∀ ω, Reports env N (data ω) (gs ω) (x ω) (y ω) (m' ω) C') (hs' : ∀ i < N, SqInt ℙ fun ω => x ω i - m' ω i) (hC' : ∀ i < N, (C' i).PosDef)
    (hle : ∀ i < N, ∀ u, quad (C i) u ≤ ∫ ω, (u ⬝ᵥ (x ω i - m' ω i)) ^ 2 ∂ℙ) : Outscores env ℙ N data fs gs C C' := by
  have hle' : ∀ i < N, ∀ u, quad (C i) u ≤ quad (cross ℙ (fun ω => x ω i - m' ω i) fun ω => x ω i - m' ω i) u := fun i hi u => by
    rw [Path.quad_cross (hs' i hi)]
    exact hle i hi u
  constructor
  · obtain ⟨r, h1, h2, h3⟩ := mean_rmse hN hf hs
    obtain ⟨s, h4, h5, h6⟩ := mean_rmse hN hg hs'
    refine ⟨r, s, h1, h4, h2, h5, ?_⟩
    rw [h3, h6]
    gcongr with i hi
    rw [hcov i (Finset.mem_range.1 hi)]
    exact cov_trace_le (hle' i (Finset.mem_range.1 hi))
  · intro hS hS'
    obtain ⟨e, h1, h2, h3⟩ := mean_nll hN hf hs hC hS
    obtain ⟨f, h4, h5, h6⟩ := mean_nll hN hg hs' hC' hS'
    have key := fun i hi => gibbs (hC i hi) (hC' i hi) (hle' i hi)
    have e1 : ∀ i ∈ Finset.range N, ((C i)⁻¹ * cross ℙ (fun ω => x ω i - m ω i) fun ω => x ω i - m ω i).trace = n := fun i hi => by
      rw [hcov i (Finset.mem_range.1 hi), posDef_inv_mul (hC i (Finset.mem_range.1 hi)), trace_one, Fintype.card_fin]
    refine ⟨e, f, h1, h4, h2, h5, ?_, fun ⟨j, hj, hne⟩ => ?_⟩
    · rw [h3, h6]
      refine div_le_div_of_nonneg_right (Finset.sum_le_sum fun i hi => ?_) (Nat.cast_nonneg _)
      rw [e1 i hi]
      have := (key i (Finset.mem_range.1 hi)).1
      linarith
    · rw [h3, h6]
      refine div_lt_div_of_pos_right (Finset.sum_lt_sum (fun i hi => ?_) ⟨j, Finset.mem_range.2 hj, ?_⟩) (Nat.cast_pos.2 hN)
      · rw [e1 i hi]
        have := (key i (Finset.mem_range.1 hi)).1
        linarith
      · rw [e1 j (Finset.mem_range.2 hj)]
        have := (key j hj).2 hne
        linarith

omit [MeasurableSpace Ω] [IsProbabilityMeasure ℙ] in
private theorem Reports.vec {data : List (Arr × Arr)} {gs : List Gaussian} {x m : ℕ → Fin n → ℝ} {y : ℕ → Fin k → ℝ} {C : ℕ → Matrix (Fin n) (Fin n) ℝ}
    (h : Reports env N data gs x y m C) (i : ℕ) (a : Arr) (ha : (data.map Prod.snd)[i]? = some a) : IsVec a.squeeze (y i) := by
  rw [List.getElem?_map, Option.map_eq_some_iff] at ha
  obtain ⟨p, hp, rfl⟩ := ha
  obtain ⟨p', h1, -, h2⟩ := h.data i (h.data_length ▸ (List.getElem?_eq_some_iff.1 hp).1)
  rw [hp, Option.some.injEq] at h1
  rw [h1]
  exact h2.isVec

private theorem affine_step {X q : ℕ → Ω → Fin n → ℝ} {r : ℕ → Ω → Fin k → ℝ} (hL : L.Good) (h : L.Path ℙ X q r y) (d i : ℕ)
    {f : (ℕ → Fin k → ℝ) → Fin n → ℝ} (hf : AffineIn (i + d) f) :
    SqInt ℙ (fun ω => X i ω - f (y ω)) ∧ ∀ u, quad (L.smth 0 i d).2 u ≤ ∫ ω, (u ⬝ᵥ (X i ω - f (y ω))) ^ 2 ∂ℙ := by
  obtain ⟨β, B, hf⟩ := hf
  simp only [hf]
  refine ⟨(h.sq_state i).sub ((SqInt.const β).add fun a => ?_), fun u => h.best hL d i β B u⟩
  simp only [Finset.sum_apply]
  exact memLp_finsetSum _ fun j _ => (h.sq_meas j).mulVec (B j) a

/-- **C94.** Simulate a linear system, with noise of any distribution, and filter the measurements twice: with the filter built from the
same system, and with a filter built from any other linear system and prior, in any way in which its results are exact for that system.
The expected squared `rmse` and the expected `nll` of the latter are not smaller, and the expected `nll` is larger whenever a covariance
that it reports differs. -/
theorem C94_mistuned_filter (hfair : FairDraws ℙ rng) (hL : L.Good) (hK : Describes env (KFS.init T sys Tm) none 0 sys.initState L)
    (hA : ∀ i : ℕ, L.A i = A (i * sys.dt)) (hb : ∀ i : ℕ, L.b i = b (i * sys.dt)) (hH : ∀ i, L.H i = H) (hc : ∀ i, L.c i = c)
    (htr : ∀ t, PointMap row Set.univ (fun x => sys.transition x (some t) none) fun x => A t *ᵥ x + b t)
    (hme : PointMap row Set.univ (fun x => sys.measurement x none none) fun x => H *ᵥ x + c) {K : KFS} {prior : Option Gaussian} {t : ℝ}
    {u : Option ℝ} {L' : StateSpace n k} (hL' : L'.Good) (hK' : Describes env K u t (prior.getD K.initState) L') {N : ℕ} (hN : 0 < N) :
    ∃ (data : Ω → List (Arr × Arr)) (fs gs : Ω → List Gaussian) (C C' : ℕ → Matrix (Fin n) (Fin n) ℝ),
      (∀ ω, simData env (rng ω) n k sys N = .ok (data ω) ∧
        (KFS.init T sys Tm).kalmanFilter env ((data ω).map Prod.snd) none 0 none = .ok (fs ω) ∧
        K.kalmanFilter env ((data ω).map Prod.snd) prior t u = .ok (gs ω) ∧ Covariances env N (fs ω) C ∧ Covariances env N (gs ω) C') ∧
      Outscores env ℙ N data fs gs C C' := by
  have hpath := hfair.path hL.P0.posSemidef hL.Q.posSemidef hL.R.posSemidef hA hb hH hc
  obtain ⟨data, fs, hrep⟩ := filter_reports (rng := rng) hL hK htr hme N
  have hlen : ∀ ω, ((data ω).map Prod.snd).length = N := fun ω => by rw [List.length_map]; exact (hrep ω).2.2.data_length
  choose gs hrun hglen hres using fun ω => Describes.filter hL' hK' (hrep ω).2.2.vec
  have hg : ∀ ω, Reports env N (data ω) (gs ω) (fun i => truth rng L A b sys.dt (i + 1) ω) (sensed rng L A b H c sys.dt ω)
      (fun i => (L'.filt (sensed rng L A b H c sys.dt ω) (i + 1)).1) (fun i => (L'.filt 0 (i + 1)).2) := fun ω =>
    ⟨(hrep ω).2.2.data_length, (hglen ω).trans (hlen ω), (hrep ω).2.2.data, fun i hi => by
      obtain ⟨g, h1, h2⟩ := hres ω i (by rw [hlen]; exact hi)
      rw [L'.filt_cov' _ 0] at h2
      exact ⟨g, h1, h2⟩⟩
  refine ⟨data, fs, gs, _, _, fun ω => ⟨(hrep ω).1, (hrep ω).2.1, hrun ω, (hrep ω).2.2.covariances, (hg ω).covariances⟩, ?_⟩
  have hst := fun i => affine_step hL hpath 0 (i + 1) (L'.filt_affineIn (i + 1))
  exact mistuned hN (fun ω => (hrep ω).2.2) (fun i _ => hpath.sq_err (i + 1)) (fun i _ => hpath.cov_err hL (i + 1)) (fun i _ => hL.filt (i + 1)) hg
    (fun i _ => (hst i).1) (fun i _ => hL'.filt (i + 1)) fun i _ => (hst i).2

/-- **C94.** The same for the smoother. -/
theorem C94_mistuned_smoother (hfair : FairDraws ℙ rng) (hL : L.Good) (hK : Describes env (KFS.init T sys Tm) none 0 sys.initState L)
    (hA : ∀ i : ℕ, L.A i = A (i * sys.dt)) (hb : ∀ i : ℕ, L.b i = b (i * sys.dt)) (hH : ∀ i, L.H i = H) (hc : ∀ i, L.c i = c)
    (htr : ∀ t, PointMap row Set.univ (fun x => sys.transition x (some t) none) fun x => A t *ᵥ x + b t)
    (hme : PointMap row Set.univ (fun x => sys.measurement x none none) fun x => H *ᵥ x + c) {K : KFS} {prior : Option Gaussian}
    {u : Option ℝ} {L' : StateSpace n k} (hL' : L'.Good) (hK' : Describes env K u 0 (prior.getD K.initState) L') {N : ℕ} (hN : 0 < N) :
    ∃ (data : Ω → List (Arr × Arr)) (fs rs fs' rs' : Ω → List Gaussian) (C C' : ℕ → Matrix (Fin n) (Fin n) ℝ),
      (∀ ω, simData env (rng ω) n k sys N = .ok (data ω) ∧
        (KFS.init T sys Tm).kalmanFilter env ((data ω).map Prod.snd) none 0 none = .ok (fs ω) ∧
        (KFS.init T sys Tm).kalmanSmoother env (fs ω) none = .ok (rs ω) ∧
        K.kalmanFilter env ((data ω).map Prod.snd) prior 0 u = .ok (fs' ω) ∧ K.kalmanSmoother env (fs' ω) u = .ok (rs' ω) ∧
        Covariances env N (rs ω) C ∧ Covariances env N (rs' ω) C') ∧
      Outscores env ℙ N data rs rs' C C' := by
  have hpath := hfair.path hL.P0.posSemidef hL.Q.posSemidef hL.R.posSemidef hA hb hH hc
  obtain ⟨data, fs, rs, hrep⟩ := smoother_reports (rng := rng) hL hK htr hme hN
  have hlen : ∀ ω, ((data ω).map Prod.snd).length = N := fun ω => by rw [List.length_map]; exact (hrep ω).2.2.2.data_length
  choose fs' rs' hrun hrun' hglen hres using fun ω => Describes.smoother hL' hK' (hrep ω).2.2.2.vec (List.length_pos_iff.1 (by rw [hlen]; exact hN))
  have hg : ∀ ω, Reports env N (data ω) (rs' ω) (fun i => truth rng L A b sys.dt (i + 1) ω) (sensed rng L A b H c sys.dt ω)
      (fun i => (L'.smth (sensed rng L A b H c sys.dt ω) (i + 1) (N - (i + 1))).1) (fun i => (L'.smth 0 (i + 1) (N - (i + 1))).2) := fun ω =>
    ⟨(hrep ω).2.2.2.data_length, (hglen ω).trans (hlen ω), (hrep ω).2.2.2.data, fun i hi => by
      obtain ⟨g, h1, h2⟩ := hres ω i (by rw [hlen]; exact hi)
      rw [hlen, L'.smth_cov' _ 0] at h2
      exact ⟨g, h1, h2⟩⟩
  refine ⟨data, fs, rs, fs', rs', _, _, fun ω => ⟨(hrep ω).1, (hrep ω).2.1, (hrep ω).2.2.1, hrun ω, hrun' ω, (hrep ω).2.2.2.covariances,
    (hg ω).covariances⟩, ?_⟩
  have hst := fun i => affine_step hL hpath (N - (i + 1)) (i + 1) (L'.smth_affineIn (N - (i + 1)) (i + 1))
  exact mistuned hN (fun ω => (hrep ω).2.2.2) (fun i _ => hpath.sq_serr _ (i + 1)) (fun i _ => hpath.cov_serr hL _ (i + 1))
    (fun i _ => hL.smth _ (i + 1)) hg (fun i _ => (hst i).1) (fun i _ => hL'.smth _ (i + 1)) fun i _ => (hst i).2

end Runs

/-! ## Examples -/

/-- A method that trusts the last measurement up to a limit, and is less certain beyond: the extended Kalman filter has at most its
expected squared `rmse` on simulated normal data. -/
example : ∃ (data : (ℕ × ℕ → ℝ) → List (Arr × Arr)) (fs gs : (ℕ × ℕ → ℝ) → List Gaussian) (y : (ℕ × ℕ → ℝ) → ℕ → Fin 1 → ℝ),
    (∀ z, simData calmEnv (drawsFrom z) 2 1 velocitySys 100 = .ok (data z) ∧
      (KFS.init (taylorTransform calmEnv exactJac) velocitySys none).kalmanFilter calmEnv ((data z).map Prod.snd) none 0 none = .ok (fs z) ∧
      (∀ i < 100, ∃ p, (data z)[i]? = some p ∧ IsPoint p.2 (y z i)) ∧
      gs z = (List.range 100).map fun i => Gaussian.ofMoment (.v ![min (y z i 0) 50, 6]) (.m (diagonal fun _ : Fin 2 => 1 + |y z i 0|))) ∧
      NoBetterRmse calmEnv standardNormals data fs gs := by
  obtain ⟨data, fs, x, y, m, C, h1, h2⟩ := C94_filter (A := fun _ => !![1, 2; 0, 1]) (b := fun _ => ![5, 6]) (H := !![1, 0]) (c := ![1])
    (row := false) C92_normal_draws demoSpace_good (sys := velocitySys)
    demo_describes (fun _ => rfl) (fun _ => rfl) (fun _ => rfl) (fun _ => rfl) (fun t => affine_pointMap _ _ (some t) none)
    (affine_pointMap _ _ none none) (N := 100) (by norm_num)
  have hy : ∀ i : ℕ, Measurable fun y : ℕ → Fin 1 → ℝ => y i 0 := fun i => by fun_prop
  have hM : Method (fun i => i + 1) (fun i (y : ℕ → Fin 1 → ℝ) => (![min (y i 0) 50, 6] : Fin 2 → ℝ))
      (fun i y => diagonal fun _ : Fin 2 => 1 + |y i 0|) :=
    ⟨fun i y y' h => by rw [h i (Nat.lt_succ_self i)], fun i y y' h => by rw [h i (Nat.lt_succ_self i)],
      fun i a => by
        fin_cases a
        · exact (hy i).min measurable_const
        · exact measurable_const,
      fun i a b => by
        simp only [diagonal_apply]
        split_ifs
        · exact measurable_const.add (hy i).abs
        · exact measurable_const,
      fun i y => PosDef.diagonal fun _ => by positivity⟩
  refine ⟨data, fs, _, y, fun z => ⟨(h1 z).1, (h1 z).2.1, fun i hi => ?_, rfl⟩, (h2 _ _ hM _ fun z => ?_).1⟩
  · obtain ⟨p, h3, -, h4⟩ := (h1 z).2.2.data i hi
    exact ⟨p, h3, h4⟩
  · exact ⟨(h1 z).2.2.data_length, by simp, (h1 z).2.2.data, fun i hi => ⟨_, by simp [hi], hasMoments_ofMoment _ _ _⟩⟩

/-- A smoother that assumes too much process noise, a wrong drift and a wrong prior. -/
example : ∃ (data : (ℕ × ℕ → ℝ) → List (Arr × Arr)) (fs rs fs' rs' : (ℕ × ℕ → ℝ) → List Gaussian) (C C' : ℕ → Matrix (Fin 2) (Fin 2) ℝ),
    (∀ z, simData calmEnv (drawsFrom z) 2 1 velocitySys 100 = .ok (data z) ∧
      (KFS.init (taylorTransform calmEnv exactJac) velocitySys none).kalmanFilter calmEnv ((data z).map Prod.snd) none 0 none = .ok (fs z) ∧
      (KFS.init (taylorTransform calmEnv exactJac) velocitySys none).kalmanSmoother calmEnv (fs z) none = .ok (rs z) ∧
      (KFS.init (taylorTransform calmEnv exactJac) { velocitySys with transition := affineSys !![1, 2; 0, 1] ![0, 0], Q := .m (diagonal ![9, 9]) }
        none).kalmanFilter calmEnv ((data z).map Prod.snd) (some (Gaussian.ofMoment (.v ![0, 0]) (.m (diagonal ![1, 1])))) 0 none = .ok (fs' z) ∧
      (KFS.init (taylorTransform calmEnv exactJac) { velocitySys with transition := affineSys !![1, 2; 0, 1] ![0, 0], Q := .m (diagonal ![9, 9]) }
        none).kalmanSmoother calmEnv (fs' z) none = .ok (rs' z) ∧ Covariances calmEnv 100 (rs z) C ∧ Covariances calmEnv 100 (rs' z) C') ∧
      Outscores calmEnv standardNormals 100 data rs rs' C C' :=
  C94_mistuned_smoother (A := fun _ => !![1, 2; 0, 1]) (b := fun _ => ![5, 6]) (H := !![1, 0]) (c := ![1])
    (row := false) C85_normal_draws demoSpace_good (sys := velocitySys)
    demo_describes (fun _ => rfl) (fun _ => rfl) (fun _ => rfl) (fun _ => rfl) (fun t => affine_pointMap _ _ (some t) none)
    (affine_pointMap _ _ none none)
    (L' := { demoSpace with m0 := ![0, 0], P0 := diagonal ![1, 1], b := fun _ => ![0, 0], Q := diagonal ![9, 9] })
    ⟨PosDef.diagonal fun i => by fin_cases i <;> norm_num, PosDef.diagonal fun i => by fin_cases i <;> norm_num, demoSpace_good.R⟩
    ⟨fun _ => C20_taylor_exact calmEnv exactJac_correct (.inl (affineFunc_vec _ _)),
      fun _ => C20_taylor_exact calmEnv exactJac_correct (.inl (affineFunc_vec _ _)), rfl, rfl, hasMoments_ofMoment _ _ _⟩ (by norm_num)

end Verif

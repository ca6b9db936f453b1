import Verif.Props.PerturbationIEKS
import Verif.Props.DefaultSweep
import Verif.Props.GrowthExtended

/-!
# The iterated smoother on the growth model: continuous in the measurements (C121)
-/

namespace Verif

open Matrix Gaussian

variable {env : Env} {jac : Jac} {Θ : Type*} [TopologicalSpace Θ]

private theorem lift_deriv {F : ℝ → ℝ} {F' : ℝ → ℝ} (h : ∀ x, HasDerivAt F (F' x) x) (x : Fin 1 → ℝ) :
    HasFDerivAt (fun (x : Fin 1 → ℝ) (i : Fin 1) => F (x i))
      (ContinuousLinearMap.pi fun i : Fin 1 => (F' (x i)) • (ContinuousLinearMap.proj i : (Fin 1 → ℝ) →L[ℝ] ℝ)) x :=
  hasFDerivAt_pi.2 fun i => by
    exact (h (x i)).comp_hasFDerivAt x (ContinuousLinearMap.proj (R := ℝ) (φ := fun _ : Fin 1 => ℝ) i).hasFDerivAt

private theorem tame_scalar {f : SysFunc} {t : ℝ} {F F' : ℝ → ℝ} (hf : ∀ x : Arr, f x (some t) none = .ok (x.map F))
    (h : ∀ x, HasDerivAt F (F' x) x) (hc : Continuous F') : ContinuouslyTame (Θ := Θ) (fun _ => f) (fun _ => t) 1 1 := by
  have cF : Continuous F := continuous_iff_continuousAt.2 fun x => (h x).continuousAt
  refine ⟨fun _ x i => F (x i), _, .inl fun _ x => hf _, fun _ x => lift_deriv h x, by fun_prop,
    continuous_clm_apply.2 fun v => continuous_pi fun i => ?_⟩
  simp only [ContinuousLinearMap.pi_apply, _root_.smul_apply, ContinuousLinearMap.proj_apply, smul_eq_mul]
  fun_prop

/-- **C121.** The iterated smoother on the growth model of the repository: for every number of measurements and of iterations the estimates
are continuous functions of all measurements together, and bounded as long as the measurements are. -/
theorem C121_growth_ieks (hjac : CorrectJac jac) {sys : Sys} (hs : UNGM.init = .ok sys) {N : ℕ} (hN : 0 < N) (numIter : ℕ) :
    ∃ (M V : ℕ → (Fin N → ℝ) → ℝ),
      (∀ y : Fin N → ℝ, ∃ rs s', IEKS.call env jac (IEKS.init env jac sys).1 (List.ofFn fun i => .v (v1 (y i))) numIter
          (IEKS.init env jac sys).2 = (.ok rs, s') ∧ rs.length = N ∧
        ∀ i < N, ∃ g, rs[i]? = some g ∧ HasMoments env g (v1 (M i y)) (m1 (V i y)) ∧ 0 < V i y) ∧
      (∀ i < N, Continuous (M i) ∧ Continuous (V i)) ∧
      ∀ Y : ℝ, ∃ B b : ℝ, 0 < b ∧ ∀ y : Fin N → ℝ, (∀ j, |y j| ≤ Y) → ∀ i < N, |M i y| ≤ B ∧ b ≤ V i y ∧ V i y ≤ B := by
  obtain rfl := ungm_eq hs
  have hf : ∀ j : ℕ, ContinuouslyTame (Θ := Fin N → ℝ) (fun _ => UNGM.f) (fun _ => j * 1) 1 1 := fun j =>
    tame_scalar (F := growth j) (fun x => by rw [mul_one]; rfl) (growth_hasDerivAt j) (by
      have h : ∀ x : ℝ, (1 + x ^ 2) ^ 2 ≠ 0 := fun x => by positivity
      unfold growthSlope
      fun_prop (disch := exact h))
  have hh : ∀ j : ℕ, ContinuouslyTame (Θ := Fin N → ℝ) (fun _ => UNGM.h) (fun _ => j * 1) 1 1 := fun j =>
    tame_scalar (F := fun x => x ^ 2 / 20) (F' := fun x => 2 * x / 20) (fun x => rfl)
      (fun x => by simpa using (hasDerivAt_pow 2 x).div_const 20) (by fun_prop)
  obtain ⟨M, V, e, t⟩ := C121_ieks (env := env) hjac (Θ := Fin N → ℝ) (sys := fun _ =>
      { transition := UNGM.f, measurement := UNGM.h, Q := .m (m1 1), R := .m (m1 10), initState := sG 0 5, dt := 1 }) hf hh
    (Q := fun _ => m1 1) (R := fun _ => m1 10) (fun _ => ⟨rfl, m1_posDef.2 (by norm_num)⟩) (fun _ => ⟨rfl, m1_posDef.2 (by norm_num)⟩)
    continuous_const continuous_const (m := fun _ => v1 0) (P := fun _ => m1 5)
    (fun _ => ⟨hasMoments_ofMoment .., m1_posDef.2 (by norm_num)⟩) continuous_const continuous_const
    [⟨fun y => List.ofFn fun i => .v (v1 (y i)), numIter⟩] (by
      intro q hq
      obtain rfl := List.mem_singleton.1 hq
      refine ⟨N, fun y i => if h : i < N then v1 (y ⟨i, h⟩) else 0, hN, fun y => ⟨by simp, fun i a ha => ?_, fun i hi => ?_⟩⟩
      · obtain ⟨hi, rfl⟩ := List.getElem?_eq_some_iff.1 ha
        rw [List.length_ofFn] at hi
        simp only [dif_pos hi, List.getElem_ofFn]
        exact .inr (by simp)
      · simp only [dif_pos hi]
        exact continuous_pi fun _ => by simpa [v1] using continuous_apply (⟨i, hi⟩ : Fin N))
  have tc : ∀ i < N, Continuous (fun y => M 0 y i 0) ∧ Continuous fun y => V 0 y i 0 0 := fun i hi => by
    obtain ⟨a, b⟩ := t 0 _ rfl i fun _ => by simpa using hi
    exact ⟨(continuous_apply 0).comp a, (continuous_apply 0).comp ((continuous_apply 0).comp b)⟩
  have main : ∀ y : Fin N → ℝ, ∃ rs s', IEKS.call env jac (IEKS.init env jac
      { transition := UNGM.f, measurement := UNGM.h, Q := .m (m1 1), R := .m (m1 10), initState := sG 0 5, dt := 1 }).1
        (List.ofFn fun i => .v (v1 (y i))) numIter (IEKS.init env jac
      { transition := UNGM.f, measurement := UNGM.h, Q := .m (m1 1), R := .m (m1 10), initState := sG 0 5, dt := 1 }).2 = (.ok rs, s') ∧
      rs.length = N ∧ ∀ i < N, ∃ g, rs[i]? = some g ∧ HasMoments env g (v1 (M 0 y i 0)) (m1 (V 0 y i 0 0)) ∧ 0 < V 0 y i 0 0 := by
    intro y
    obtain ⟨rss, h1, h2, h3⟩ := e y
    obtain ⟨rs, h4, h5, h6⟩ := h3 0 _ rfl
    rw [List.length_ofFn] at h5
    rcases hcall : IEKS.call env jac (IEKS.init env jac
      { transition := UNGM.f, measurement := UNGM.h, Q := .m (m1 1), R := .m (m1 10), initState := sG 0 5, dt := 1 }).1
        (List.ofFn fun i => .v (v1 (y i))) numIter (IEKS.init env jac
      { transition := UNGM.f, measurement := UNGM.h, Q := .m (m1 1), R := .m (m1 10), initState := sG 0 5, dt := 1 }).2 with ⟨r, s'⟩
    have h7 : r = .ok rs := by
      simp only [List.map_cons, List.map_nil, IEKS.callAll] at h1
      cases r with
      | error x => rw [PyM.bind_error hcall] at h1; simp at h1
      | ok r =>
        rw [PyM.bind_ok hcall] at h1
        have h8 : [r] = rss := Except.ok.inj h1
        rw [← h8] at h4
        simpa using h4
    refine ⟨rs, s', by rw [h7], h5, fun i hi => ?_⟩
    obtain ⟨g, a1, a2, a3⟩ := h6 i (by omega)
    have e1 : M 0 y i = v1 (M 0 y i 0) := v1_ext _
    have e2 : V 0 y i = m1 (V 0 y i 0 0) := m1_ext _
    rw [e2] at a3
    refine ⟨g, a1, by rw [← e1, ← e2]; exact a2, m1_posDef.1 a3⟩
  refine ⟨fun i y => M 0 y i 0, fun i y => V 0 y i 0 0, main, tc, fun Y => ?_⟩
  have hK : IsCompact {y : Fin N → ℝ | ∀ j, |y j| ≤ Y} := by
    have : {y : Fin N → ℝ | ∀ j, |y j| ≤ Y} = Set.pi Set.univ fun _ => Set.Icc (-Y) Y := by
      ext y; simp only [Set.mem_ofPred_eq, Set.mem_pi, Set.mem_univ, forall_true_left, Set.mem_Icc, abs_le]
    rw [this]; exact isCompact_univ_pi fun _ => isCompact_Icc
  have key : ∀ i < N, ∃ B b : ℝ, 0 < b ∧ ∀ y : Fin N → ℝ, (∀ j, |y j| ≤ Y) → |M 0 y i 0| ≤ B ∧ b ≤ V 0 y i 0 0 ∧ V 0 y i 0 0 ≤ B := by
    intro i hi
    have pos : ∀ y, 0 < V 0 y i 0 0 := fun y => by
      obtain ⟨rs, s', -, -, h⟩ := main y
      obtain ⟨g, -, -, h⟩ := h i hi
      exact h
    obtain ⟨B1, h1⟩ := hK.exists_bound_of_continuousOn (tc i hi).1.continuousOn
    obtain ⟨B2, h2⟩ := hK.exists_bound_of_continuousOn (tc i hi).2.continuousOn
    obtain ⟨B3, h3⟩ := hK.exists_bound_of_continuousOn ((tc i hi).2.inv₀ fun y => (pos y).ne').continuousOn
    refine ⟨max B1 B2, (max B3 1)⁻¹, by positivity, fun y hy => ⟨(h1 y hy).trans (le_max_left ..), ?_, ?_⟩⟩
    · have : ‖(V 0 y i 0 0)⁻¹‖ ≤ B3 := h3 y hy
      rw [Real.norm_of_nonneg (inv_nonneg.2 (pos y).le)] at this
      exact inv_le_of_inv_le₀ (pos y) (this.trans (le_max_left ..))
    · exact ((le_abs_self _).trans (h2 y hy)).trans (le_max_right ..)
  choose! B b h using key
  refine ⟨∑ i ∈ Finset.range N, |B i|, (Finset.range N).inf' ⟨0, Finset.mem_range.2 hN⟩ b, ?_, fun y hy i hi => ?_⟩
  · exact (Finset.lt_inf'_iff _).2 fun i hi => (h i (Finset.mem_range.1 hi)).1
  · obtain ⟨h1, h2, h3⟩ := (h i hi).2 y hy
    have h4 : B i ≤ ∑ i ∈ Finset.range N, |B i| :=
      (le_abs_self _).trans (Finset.single_le_sum (f := fun i => |B i|) (fun _ _ => abs_nonneg _) (Finset.mem_range.2 hi))
    exact ⟨h1.trans h4, (Finset.inf'_le _ (Finset.mem_range.2 hi)).trans h2, h3.trans h4⟩

/-- Three measurements between -1 and 1, ten iterations: the last estimate stays within fixed bounds. -/
example : ∃ B : ℝ, ∀ y : Fin 3 → ℝ, (∀ j, |y j| ≤ 1) → ∃ rs s' g m v, IEKS.call calmEnv exactJac (IEKS.init calmEnv exactJac ungm).1
    (List.ofFn fun i => .v (v1 (y i))) 10 (IEKS.init calmEnv exactJac ungm).2 = (.ok rs, s') ∧ rs[2]? = some g ∧
    HasMoments calmEnv g (v1 m) (m1 v) ∧ |m| ≤ B ∧ v ≤ B := by
  obtain ⟨M, V, h1, -, h2⟩ := C121_growth_ieks (env := calmEnv) exactJac_correct ungm_init (N := 3) (by norm_num) 10
  obtain ⟨B, b, -, h3⟩ := h2 1
  refine ⟨B, fun y hy => ?_⟩
  obtain ⟨rs, s', e, -, h4⟩ := h1 y
  obtain ⟨g, h5, h6, -⟩ := h4 2 (by norm_num)
  exact ⟨rs, s', g, _, _, e, h5, h6, (h3 y hy 2 (by norm_num)).1, (h3 y hy 2 (by norm_num)).2.2⟩

end Verif

import Verif.Props.Total
import Verif.Lemmas.Forget
import Verif.Spec.Moves

/-!
# Estimates move no further than the decrease of their variance and the surprise in the data allow (C111)
-/

namespace Verif

open Matrix Gaussian

variable {env : Env} {jac : Jac} {n k : ℕ}

/-! ## Algebra -/

/-- Two moves that are backed by decreases of the variance are so together. -/
private theorem moves_add {a b A B s t : ℝ} (ha : a ^ 2 ≤ A * s) (hb : b ^ 2 ≤ B * t) (hA : 0 ≤ A) (hB : 0 ≤ B) (hs : 0 ≤ s) (ht : 0 ≤ t) :
    (a + b) ^ 2 ≤ (A + B) * (s + t) := by
  have h1 : |a| ≤ √(A * s) := Real.abs_le_sqrt ha
  have h2 : |b| ≤ √(B * t) := Real.abs_le_sqrt hb
  have h3 : 2 * (√(A * s) * √(B * t)) ≤ A * t + B * s := by
    have e : √(A * s) * √(B * t) = √(A * t) * √(B * s) := by
      rw [← Real.sqrt_mul (mul_nonneg hA hs), ← Real.sqrt_mul (mul_nonneg hA ht)]
      congr 1; ring
    have := two_mul_le_add_sq (√(A * t)) (√(B * s))
    rw [Real.sq_sqrt (mul_nonneg hA ht), Real.sq_sqrt (mul_nonneg hB hs)] at this
    rw [e]; linarith
  have h4 : a * b ≤ √(A * s) * √(B * t) :=
    (le_abs_self _).trans (by rw [abs_mul]; exact mul_le_mul h1 h2 (abs_nonneg _) (Real.sqrt_nonneg _))
  nlinarith

theorem MovesAtMost.trans {m m' m'' : Fin n → ℝ} {C C' C'' : Matrix (Fin n) (Fin n) ℝ} {z z' : ℝ} (h : MovesAtMost m m' C C' z)
    (h' : MovesAtMost m' m'' C' C'' z') (hC : (C - C').PosSemidef) (hC' : (C' - C'').PosSemidef) (hz : 0 ≤ z) (hz' : 0 ≤ z') :
    MovesAtMost m m'' C C'' (z + z') := fun v => by
  have := moves_add (h v) (h' v) (quad_nonneg hC v) (quad_nonneg hC' v) hz hz'
  rwa [← dotProduct_add, ← dotProduct_add, ← add_mulVec, add_comm (m' - m), sub_add_sub_cancel, sub_add_sub_cancel] at this

/-- A linear map of a move. -/
theorem MovesAtMost.map {j : ℕ} {m m' : Fin n → ℝ} {C C' : Matrix (Fin n) (Fin n) ℝ} {z : ℝ} (h : MovesAtMost m m' C C' z)
    (J : Matrix (Fin j) (Fin n) ℝ) (μ : Fin j → ℝ) (P : Matrix (Fin j) (Fin j) ℝ) :
    MovesAtMost μ (μ + J *ᵥ (m' - m)) P (P + J * (C' - C) * Jᵀ) z := fun v => by
  have := h (Jᵀ *ᵥ v)
  rw [add_sub_cancel_left, sub_add_cancel_left]
  have e : -(J * (C' - C) * Jᵀ) = J * (C - C') * Jᵀ := by
    rw [← Matrix.neg_mul, ← Matrix.mul_neg, neg_sub]
  rw [e, dotProduct_mulVec v J, ← mulVec_transpose]
  have e2 : v ⬝ᵥ (J * (C - C') * Jᵀ) *ᵥ v = Jᵀ *ᵥ v ⬝ᵥ (C - C') *ᵥ (Jᵀ *ᵥ v) := quad_congr' (C - C') J v
  rwa [e2]

/-! ## Single steps -/

section steps

variable {K : KFS} {t u : Option ℝ} {Q : Matrix (Fin n) (Fin n) ℝ} {R : Matrix (Fin k) (Fin k) ℝ}

/-- **C111.** A correction moves the mean in every direction by no more than the square root of the decrease of the variance times the
surprise, and does not increase the variance. -/
theorem C111_correct (hf : LinearisesOn env K.transform (fun x => K.transition x t u) n n)
    (hh : LinearisesOn env K.measTransform (fun x => K.measurement x t u) n k) (hQ : K.Q = .m Q) (hQ' : Q.PosDef) (hR : K.R = .m R)
    (hR' : R.PosDef) {g : Gaussian} {μ : Fin n → ℝ} {P : Matrix (Fin n) (Fin n) ℝ} (hg : HasMoments env g μ P) (hP : P.PosDef)
    {y : Arr} {yv : Fin k → ℝ} (hy : IsVec y.squeeze yv) :
    ∃ (m m' : Fin n → ℝ) (C C' : Matrix (Fin n) (Fin n) ℝ) (z : ℝ), K.predict g t u = .ok (ofMoment (.v m) (.m C)) ∧
      K.correct env (ofMoment (.v m) (.m C)) y.squeeze t u = .ok (ofMoment (.v m') (.m C')) ∧ Surprise K t u g y z ∧ 0 ≤ z ∧
      C.PosDef ∧ C'.PosDef ∧ (C - C').PosSemidef ∧ MovesAtMost m m' C C' z := by
  obtain ⟨p, hp, m, C, rfl, hC⟩ := predict_good hf hQ hQ' hg hP
  have hm := hasMoments_ofMoment env m C
  obtain ⟨r, m', C', hr, rfl, hC', hle⟩ := correct_good hh hR hR' hm hC hy
  obtain ⟨a, av, H, E, ha, hE, hT⟩ := hh _ m C hm hC
  have hpd : (H * C * Hᵀ + E + R).PosDef := by
    rw [add_assoc]; exact innov_posDef hC.posSemidef (hR'.posSemidef_add hE) H
  set S := H * C * Hᵀ + E + R with hS
  refine ⟨m, m', C, C', _, hp, hr, ⟨k, _, a, _, av, yv, _, R, hp, hT, ha, hy, hR, rfl⟩, quad_nonneg hpd.inv.posSemidef _, hC, hC', hle, ?_⟩
  have h := KFS.correct_of hm hT ha hy hR (posDef_det_ne hpd)
  rw [hr, Except.ok.injEq] at h
  have e1 : m' = m + (S⁻¹ * (C * Hᵀ)ᵀ)ᵀ *ᵥ (yv - av) := by
    have a := (hasMoments_ofMoment env m' C').1
    rw [h] at a
    simpa using a.symm.trans (hasMoments_ofMoment env _ _).1
  have e2 : C' = C - (S⁻¹ * (C * Hᵀ)ᵀ)ᵀ * (C * Hᵀ)ᵀ := by
    have a := (hasMoments_ofMoment env m' C').2
    rw [h] at a
    simpa using a.symm.trans (hasMoments_ofMoment env _ _).2
  intro v
  rw [e1, e2, add_sub_cancel_left, sub_sub_cancel, transpose_mul, transpose_transpose, posDef_inv_symm hpd]
  have c1 : v ⬝ᵥ (C * Hᵀ * S⁻¹) *ᵥ (yv - av) = (C * Hᵀ)ᵀ *ᵥ v ⬝ᵥ S⁻¹ *ᵥ (yv - av) := by
    rw [← mulVec_mulVec, dotProduct_mulVec v, ← mulVec_transpose]
  have c2 : v ⬝ᵥ (C * Hᵀ * S⁻¹ * (C * Hᵀ)ᵀ) *ᵥ v = quad S⁻¹ ((C * Hᵀ)ᵀ *ᵥ v) := quad_congr' S⁻¹ (C * Hᵀ) v
  rw [c1, c2]
  exact quad_cauchy hpd.inv.posSemidef _ _

/-- A smoothing step is linear in the later state. -/
private theorem smooth_linear (hf : LinearisesOn env K.transform (fun x => K.transition x t u) n n) (hQ : K.Q = .m Q) (hQ' : Q.PosDef)
    {m π ν : Fin n → ℝ} {C C' S : Matrix (Fin n) (Fin n) ℝ} (hC : C.PosDef)
    (hp : K.predict (ofMoment (.v m) (.m C)) t u = .ok (ofMoment (.v π) (.m C'))) :
    ∃ J : Matrix (Fin n) (Fin n) ℝ, K.smooth env (ofMoment (.v m) (.m C)) (ofMoment (.v ν) (.m S)) t u =
      .ok (ofMoment (.v (m + J *ᵥ (ν - π))) (.m (C + J * (S - C') * Jᵀ))) := by
  have hm := hasMoments_ofMoment env m C
  obtain ⟨a, av, H, E, ha, hE, hT⟩ := hf _ m C hm hC
  have hpd : (H * C * Hᵀ + E + Q).PosDef := by
    rw [add_assoc]; exact innov_posDef hC.posSemidef (hQ'.posSemidef_add hE) H
  rw [KFS.predict_of hT ha hQ, Except.ok.injEq] at hp
  have e1 : av = π := by
    have a := (hasMoments_ofMoment env π C').1
    rw [← hp] at a
    simpa using (hasMoments_ofMoment env _ _).1.symm.trans a
  have e2 : H * C * Hᵀ + E + Q = C' := by
    have a := (hasMoments_ofMoment env π C').2
    rw [← hp] at a
    simpa using (hasMoments_ofMoment env _ _).2.symm.trans a
  have := KFS.smooth_of hm (hasMoments_ofMoment env ν S) hT ha hQ (posDef_det_ne hpd)
  rw [e1, e2] at this
  exact ⟨_, this⟩

end steps

/-! ## Whole runs -/

variable {K : KFS} {u : Option ℝ} {Q : Matrix (Fin n) (Fin n) ℝ} {R : Matrix (Fin k) (Fin k) ℝ}

/-- **C111.** The smoother moves the mean of every filtered state in every direction by no more than the square root of the decrease of
the variance times the sum of the surprises of all later measurements.  This holds for every system, linear or not, and for every
transform that replaces its functions by linear ones plus noise. -/
theorem C111_smoother (hQ : K.Q = .m Q) (hQ' : Q.PosDef) (hR : K.R = .m R) (hR' : R.PosDef)
    (hf : ∀ t, LinearisesOn env K.transform (fun x => K.transition x (some t) u) n n)
    (hh : ∀ t, LinearisesOn env K.measTransform (fun x => K.measurement x (some t) u) n k) (prior : Option Gaussian) {μ : Fin n → ℝ}
    {P : Matrix (Fin n) (Fin n) ℝ} (hg : HasMoments env (prior.getD K.initState) μ P) (hP : P.PosDef) (ys : List Arr) (hne : ys ≠ [])
    (hys : ∀ y ∈ ys, ∃ yv : Fin k → ℝ, IsVec y.squeeze yv) :
    ∃ (fs rs : List Gaussian) (z : ℕ → ℝ), K.kalmanFilter env ys prior 0 u = .ok fs ∧ K.kalmanSmoother env fs u = .ok rs ∧
      (∀ (i : ℕ) g y, fs[i]? = some g → ys[i + 1]? = some y → Surprise K (some ((i + 1) * K.dt)) u g y (z (i + 1))) ∧
      ∀ i, i < ys.length → ∃ (mf ms : Fin n → ℝ) (Cf Cs : Matrix (Fin n) (Fin n) ℝ), fs[i]? = some (ofMoment (.v mf) (.m Cf)) ∧
        rs[i]? = some (ofMoment (.v ms) (.m Cs)) ∧ (Cf - Cs).PosSemidef ∧
        MovesAtMost mf ms Cf Cs (∑ j ∈ Finset.Ico (i + 1) ys.length, z j) := by
  obtain ⟨fs, hfs, l1, good⟩ := C75_filter_total hQ hQ' hR hR' hf hh prior hg hP ys hys 0
  have hfne : fs ≠ [] := by rintro rfl; exact hne (List.length_eq_zero_iff.1 l1.symm)
  obtain ⟨rs, hrs, l2, goodr⟩ := C75_smoother_total (u := u) hQ hQ' hf fs hfne good
  have hz : ∀ i : ℕ, ∃ z : ℝ, 0 ≤ z ∧ ∀ g y, fs[i]? = some g → ys[i + 1]? = some y →
      Surprise K (some ((i + 1) * K.dt)) u g y z ∧ ∃ (m m' : Fin n → ℝ) (C C' : Matrix (Fin n) (Fin n) ℝ),
        K.predict g (some ((i + 1) * K.dt)) u = .ok (ofMoment (.v m) (.m C)) ∧
        K.correct env (ofMoment (.v m) (.m C)) y.squeeze (some ((i + 1) * K.dt)) u = .ok (ofMoment (.v m') (.m C')) ∧
        (C - C').PosSemidef ∧ MovesAtMost m m' C C' z := fun i => by
    by_cases hi : i + 1 < ys.length
    · obtain ⟨m, C, e, hC⟩ := good (fs[i]'(by omega)) (List.getElem_mem _)
      obtain ⟨yv, hy⟩ := hys ys[i + 1] (List.getElem_mem _)
      obtain ⟨m1, m2, C1, C2, z, a1, a2, a3, a4, -, -, a7, a8⟩ := C111_correct (hf ((i + 1) * K.dt)) (hh ((i + 1) * K.dt)) hQ hQ' hR hR'
        (hasMoments_ofMoment env m C) hC hy
      refine ⟨z, a4, fun g y hg hy => ?_⟩
      rw [List.getElem?_eq_getElem (by omega), Option.some.injEq] at hg
      rw [List.getElem?_eq_getElem (by omega), Option.some.injEq] at hy
      rw [← hg, ← hy, e]
      exact ⟨a3, m1, m2, C1, C2, a1, a2, a7, a8⟩
    · refine ⟨0, le_rfl, fun g y _ hy => ?_⟩
      rw [List.getElem?_eq_none (by omega)] at hy
      simp at hy
  choose z hz0 hz using hz
  refine ⟨fs, rs, fun i => z (i - 1), hfs, hrs, fun i g y h1 h2 => (hz i g y h1 h2).1, ?_⟩
  have key : ∀ d i, i + d + 1 = ys.length → ∃ (mf ms : Fin n → ℝ) (Cf Cs : Matrix (Fin n) (Fin n) ℝ),
      fs[i]? = some (ofMoment (.v mf) (.m Cf)) ∧ rs[i]? = some (ofMoment (.v ms) (.m Cs)) ∧ Cs.PosDef ∧ (Cf - Cs).PosSemidef ∧
      MovesAtMost mf ms Cf Cs (∑ j ∈ Finset.Ico (i + 1) ys.length, z (j - 1)) := by
    intro d
    induction d with
    | zero =>
      intro i hi
      obtain ⟨last, c, h1, h2, h3⟩ := (KFS.kalmanSmoother_get hrs).2.1
      rw [List.getLast?_eq_getElem?, show fs.length - 1 = i by omega] at h1
      rw [List.getLast?_eq_getElem?, show rs.length - 1 = i by omega] at h2
      have hl := good last (getElem?_mem h1)
      rw [hl.copy env, Except.ok.injEq] at h3
      subst h3
      obtain ⟨m, C, rfl, hC⟩ := hl
      refine ⟨m, m, C, C, h1, h2, hC, by rw [sub_self]; exact PosSemidef.zero, fun v => ?_⟩
      simp
    | succ d ih =>
      intro i hi
      obtain ⟨st, pred, later, r, h1, h2, h3, ⟨y, h4, h5⟩, h6, h7⟩ := C26_time_stamps env K ys prior 0 u fs rs hfs hrs i (by omega)
      rw [zero_add] at h3 h5
      obtain ⟨mf, ms, Cf, Cs, q1, q2, q4, q5, q6⟩ := ih (i + 1) (by omega)
      rw [q2, Option.map_some, copyV_moment, Option.some.injEq, Except.ok.injEq] at h6
      subst h6
      obtain ⟨m, C, rfl, hC⟩ := good st (getElem?_mem h1)
      obtain ⟨-, m1, m2, C1, C2, a1, a2, a3, a4⟩ := hz i _ y h1 h4
      rw [h3, Except.ok.injEq] at a1
      subst a1
      rw [q1, a2] at h5
      have h5 : ofMoment (.v mf) (.m Cf) = ofMoment (.v m2) (.m C2) := by simpa [Except.toOption] using h5
      obtain ⟨rfl, rfl⟩ : m2 = mf ∧ C2 = Cf := by
        have a := hasMoments_ofMoment env mf Cf
        rw [h5] at a
        have b := hasMoments_ofMoment env m2 C2
        exact ⟨by simpa using b.1.symm.trans a.1, by simpa using b.2.symm.trans a.2⟩
      obtain ⟨J, hJ⟩ := smooth_linear (ν := ms) (S := Cs) (hf ((i + 1) * K.dt)) hQ hQ' hC h3
      rw [h7, Except.ok.injEq] at hJ
      subst hJ
      have hmv := a4.trans q6 a3 q5 (hz0 i) (Finset.sum_nonneg fun j _ => hz0 (j - 1))
      have hsum : z i + ∑ j ∈ Finset.Ico (i + 1 + 1) ys.length, z (j - 1) = ∑ j ∈ Finset.Ico (i + 1) ys.length, z (j - 1) := by
        rw [Finset.sum_eq_sum_Ico_succ_bot (show i + 1 < ys.length by omega), Nat.add_sub_cancel]
      rw [hsum] at hmv
      refine ⟨m, _, C, _, h1, h2, ?_, ?_, hmv.map J m C⟩
      · obtain ⟨m3, C3, e3, hC3⟩ := goodr _ (getElem?_mem h2)
        have a := hasMoments_ofMoment env m3 C3
        rw [← e3] at a
        have b := (hasMoments_ofMoment env _ _).2.symm.trans a.2
        rw [Except.ok.injEq, Option.some.injEq] at b
        have : C + J * (Cs - C1) * Jᵀ = C3 := by simpa using b
        rwa [this]
      · have := congr_posSemidef (a3.add q5) J
        rw [sub_add_sub_cancel] at this
        rwa [sub_add_cancel_left, ← Matrix.neg_mul, ← Matrix.mul_neg, neg_sub]
  intro i hi
  obtain ⟨mf, ms, Cf, Cs, q1, q2, -, q5, q6⟩ := key (ys.length - i - 1) i (by omega)
  exact ⟨mf, ms, Cf, Cs, q1, q2, q5, q6⟩

/-- **C111.** Unscented transforms with nonnegative weights, for all functions acting row by row. -/
theorem C111_unscented {α β κ α' β' κ' : ℝ} {v w : UT} (hv : UT.init n α β κ = .ok v) (hw : UT.init n α' β' κ' = .ok w)
    (hpos : 0 < α ^ 2 * (n + κ)) (hpos' : 0 < α' ^ 2 * (n + κ'))
    (hwt : 0 ≤ (α ^ 2 * (n + κ) - n) / (α ^ 2 * (n + κ)) + 1 - α ^ 2 + β)
    (hwt' : 0 ≤ (α' ^ 2 * (n + κ') - n) / (α' ^ 2 * (n + κ')) + 1 - α' ^ 2 + β') {sys : Sys}
    {F : ℝ → (Fin n → ℝ) → Fin n → ℝ} (hF : ∀ t, OnRows (fun x => sys.transition x (some t) u) (F t))
    {G : ℝ → (Fin n → ℝ) → Fin k → ℝ} (hG : ∀ t, OnRows (fun x => sys.measurement x (some t) u) (G t))
    (hQ : sys.Q = .m Q) (hQ' : Q.PosDef) (hR : sys.R = .m R) (hR' : R.PosDef) {μ : Fin n → ℝ}
    {P : Matrix (Fin n) (Fin n) ℝ} (hg : HasMoments env sys.initState μ P) (hP : P.PosDef) (ys : List Arr) (hne : ys ≠ [])
    (hys : ∀ y ∈ ys, ∃ yv : Fin k → ℝ, IsVec y.squeeze yv) (hK : K = KFS.init (v.transform env) sys (some (w.transform env))) :
    ∃ (fs rs : List Gaussian) (z : ℕ → ℝ), K.kalmanFilter env ys none 0 u = .ok fs ∧ K.kalmanSmoother env fs u = .ok rs ∧
      (∀ (i : ℕ) g y, fs[i]? = some g → ys[i + 1]? = some y → Surprise K (some ((i + 1) * K.dt)) u g y (z (i + 1))) ∧
      ∀ i, i < ys.length → ∃ (mf ms : Fin n → ℝ) (Cf Cs : Matrix (Fin n) (Fin n) ℝ), fs[i]? = some (ofMoment (.v mf) (.m Cf)) ∧
        rs[i]? = some (ofMoment (.v ms) (.m Cs)) ∧ (Cf - Cs).PosSemidef ∧
        MovesAtMost mf ms Cf Cs (∑ j ∈ Finset.Ico (i + 1) ys.length, z j) := by
  subst hK
  exact C111_smoother hQ hQ' hR hR' (fun t => unscented_linearises hv hpos hwt (hF t)) (fun t => unscented_linearises hw hpos' hwt' (hG t))
    none hg hP ys hne hys

/-- The extended Kalman smoother on the growth model with three measurements: the first mean moves by no more than the square root of the
decrease of its variance times the surprises of the last two measurements. -/
example (a b c : ℝ) : ∃ (sys : Sys) (fs rs : List Gaussian) (z : ℕ → ℝ), UNGM.init = .ok sys ∧
    (KFS.init (taylorTransform calmEnv exactJac) sys none).kalmanFilter calmEnv [.v (v1 a), .v (v1 b), .v (v1 c)] none 0 none = .ok fs ∧
    (KFS.init (taylorTransform calmEnv exactJac) sys none).kalmanSmoother calmEnv fs none = .ok rs ∧
    ∃ (mf ms : Fin 1 → ℝ) (Cf Cs : Matrix (Fin 1) (Fin 1) ℝ), fs[0]? = some (ofMoment (.v mf) (.m Cf)) ∧
      rs[0]? = some (ofMoment (.v ms) (.m Cs)) ∧ (ms 0 - mf 0) ^ 2 ≤ (Cf 0 0 - Cs 0 0) * (z 1 + z 2) := by
  obtain ⟨fs, rs, z, h1, h2, -, h3⟩ := C111_smoother (env := calmEnv) (K := KFS.init (taylorTransform calmEnv exactJac) ungm none) (u := none)
    (Q := m1 1) (R := m1 10) rfl (m1_posDef.2 one_pos) rfl (m1_posDef.2 (by norm_num))
    (fun t => taylor_linearises exactJac_correct (ungm_transition t none).vec (ungm_transition t none).differentiable)
    (fun t => taylor_linearises exactJac_correct (ungm_measurement (some t) none).vec (ungm_measurement (some t) none).differentiable)
    none (sG_moments calmEnv 0 5) (m1_posDef.2 (by norm_num)) [.v (v1 a), .v (v1 b), .v (v1 c)] (by simp) (fun y hy => by
      simp only [List.mem_cons, List.not_mem_nil, or_false] at hy
      rcases hy with rfl | rfl | rfl
      · exact ⟨v1 a, .inr rfl⟩
      · exact ⟨v1 b, .inr rfl⟩
      · exact ⟨v1 c, .inr rfl⟩)
  obtain ⟨mf, ms, Cf, Cs, q1, q2, -, q4⟩ := h3 0 (by simp)
  refine ⟨ungm, fs, rs, z, ungm_init, h1, h2, mf, ms, Cf, Cs, q1, q2, ?_⟩
  have := q4 fun _ => 1
  simpa [Finset.sum_Ico_succ_top, mulVec, dotProduct] using this

end Verif

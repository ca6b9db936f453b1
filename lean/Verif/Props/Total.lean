import Verif.Props.IEKS
import Verif.Props.Multi

/-!
# The filters and smoothers complete on nonlinear systems (C75, C76)
-/

namespace Verif

open Matrix Gaussian

variable {env : Env} {jac : Jac} {n k : ℕ}

/-- A state given by a mean vector and a positive definite covariance. -/
def GoodState (n : ℕ) (g : Gaussian) : Prop :=
  ∃ (m : Fin n → ℝ) (C : Matrix (Fin n) (Fin n) ℝ), g = Gaussian.ofMoment (.v m) (.m C) ∧ C.PosDef

theorem GoodState.moments {g : Gaussian} (h : GoodState n g) (env : Env) : ∃ (m : Fin n → ℝ) (C : Matrix (Fin n) (Fin n) ℝ),
    HasMoments env g m C ∧ C.PosDef := by
  obtain ⟨m, C, rfl, hC⟩ := h
  exact ⟨m, C, hasMoments_ofMoment .., hC⟩

theorem GoodState.copy {g : Gaussian} (h : GoodState n g) (env : Env) : g.copyV env = .ok g := by
  obtain ⟨m, C, rfl, -⟩ := h
  exact copyV_moment _ _

/-! ## Single steps -/

section steps

variable {K : KFS} {t u : Option ℝ} {Q : Matrix (Fin n) (Fin n) ℝ} {R : Matrix (Fin k) (Fin k) ℝ}

theorem predict_good (hf : LinearisesOn env K.transform (fun x => K.transition x t u) n n) (hQ : K.Q = .m Q) (hQ' : Q.PosDef)
    {g : Gaussian} {μ : Fin n → ℝ} {P : Matrix (Fin n) (Fin n) ℝ} (hg : HasMoments env g μ P) (hP : P.PosDef) :
    ∃ r, K.predict g t u = .ok r ∧ GoodState n r := by
  obtain ⟨z, zv, H, E, hz, hE, hT⟩ := hf g μ P hg hP
  have hpd : (H * P * Hᵀ + E + Q).PosDef := by
    rw [add_assoc]; exact innov_posDef hP.posSemidef (hQ'.posSemidef_add hE) H
  exact ⟨_, KFS.predict_of hT hz hQ, _, _, rfl, hpd⟩

theorem correct_good (hh : LinearisesOn env K.measTransform (fun x => K.measurement x t u) n k) (hR : K.R = .m R) (hR' : R.PosDef)
    {g : Gaussian} {μ : Fin n → ℝ} {P : Matrix (Fin n) (Fin n) ℝ} (hg : HasMoments env g μ P) (hP : P.PosDef)
    {y : Arr} {yv : Fin k → ℝ} (hy : IsVec y yv) :
    ∃ (r : Gaussian) (m' : Fin n → ℝ) (C' : Matrix (Fin n) (Fin n) ℝ), K.correct env g y t u = .ok r ∧ r = ofMoment (.v m') (.m C') ∧
      C'.PosDef ∧ (P - C').PosSemidef := by
  obtain ⟨z, zv, H, E, hz, hE, hT⟩ := hh g μ P hg hP
  have hER : (E + R).PosDef := hR'.posSemidef_add hE
  have hpd : (H * P * Hᵀ + E + R).PosDef := by
    rw [add_assoc]; exact innov_posDef hP.posSemidef hER H
  refine ⟨_, _, _, KFS.correct_of hg hT hz hy hR (posDef_det_ne hpd), rfl, ?_, ?_⟩
  · have := condCov_posDef hP hER H
    rw [condCov, ← add_assoc] at this
    rwa [transpose_mul, transpose_transpose, posDef_inv_symm hpd]
  · rw [sub_sub_cancel, transpose_mul, transpose_transpose, posDef_inv_symm hpd]
    exact congr_posSemidef hpd.inv.posSemidef (P * Hᵀ)

theorem smooth_good (hf : LinearisesOn env K.transform (fun x => K.transition x t u) n n) (hQ : K.Q = .m Q) (hQ' : Q.PosDef)
    {g nx : Gaussian} {μ ν : Fin n → ℝ} {P S : Matrix (Fin n) (Fin n) ℝ} (hg : HasMoments env g μ P) (hP : P.PosDef)
    (hnx : HasMoments env nx ν S) (hS : S.PosSemidef) :
    ∃ (r : Gaussian) (m' : Fin n → ℝ) (C' : Matrix (Fin n) (Fin n) ℝ), K.smooth env g nx t u = .ok r ∧ r = ofMoment (.v m') (.m C') ∧
      C'.PosDef ∧ ∀ p : Gaussian, K.predict g t u = .ok p → ∀ (π : Fin n → ℝ) (S' : Matrix (Fin n) (Fin n) ℝ), HasMoments env p π S' →
        (S' - S).PosSemidef → (P - C').PosSemidef := by
  obtain ⟨z, zv, H, E, hz, hE, hT⟩ := hf g μ P hg hP
  have hEQ : (E + Q).PosDef := hQ'.posSemidef_add hE
  have hpd : (H * P * Hᵀ + E + Q).PosDef := by
    rw [add_assoc]; exact innov_posDef hP.posSemidef hEQ H
  have hK : ((H * P * Hᵀ + E + Q)⁻¹ * (P * Hᵀ)ᵀ)ᵀ = gainMat P H (E + Q) := by
    rw [transpose_mul, transpose_transpose, posDef_inv_symm hpd, gainMat, add_assoc]
  have hs := KFS.smooth_of hg hnx hT hz hQ (posDef_det_ne hpd)
  rw [hK] at hs
  refine ⟨_, _, _, hs, rfl, ?_, ?_⟩
  · rw [add_assoc] at hpd ⊢
    have e : P + gainMat P H (E + Q) * (S - (H * P * Hᵀ + (E + Q))) * (gainMat P H (E + Q))ᵀ =
        condCov P H (E + Q) + gainMat P H (E + Q) * S * (gainMat P H (E + Q))ᵀ := by
      have : gainMat P H (E + Q) * (H * P * Hᵀ + (E + Q)) = P * Hᵀ := by
        rw [gainMat, Matrix.mul_assoc, posDef_inv_mul hpd, Matrix.mul_one]
      rw [Matrix.mul_sub, Matrix.sub_mul, this, condCov]
      have h2 : P * Hᵀ * (gainMat P H (E + Q))ᵀ = P * Hᵀ * (H * P * Hᵀ + (E + Q))⁻¹ * (P * Hᵀ)ᵀ := by
        rw [gainMat, transpose_mul, posDef_inv_symm hpd]; simp only [Matrix.mul_assoc]
      rw [h2]; abel
    rw [e]
    exact (condCov_posDef hP hEQ H).add_posSemidef (congr_posSemidef hS _)
  · intro p hp π S' hpm hle
    rw [KFS.predict_of hT hz hQ, Except.ok.injEq] at hp
    subst hp
    have hS' : S' = H * P * Hᵀ + E + Q := by
      have := hpm.2.symm.trans (hasMoments_ofMoment env zv (H * P * Hᵀ + E + Q)).2
      simpa using this
    rw [hS'] at hle
    have := congr_posSemidef hle (gainMat P H (E + Q))
    refine cast (congrArg _ ?_) this
    rw [sub_add_cancel_left, ← Matrix.neg_mul, ← Matrix.mul_neg, neg_sub]

end steps

/-! ## C75: the Kalman filter and smoother -/

variable {K : KFS} {u : Option ℝ} {Q : Matrix (Fin n) (Fin n) ℝ} {R : Matrix (Fin k) (Fin k) ℝ}

/-- **C75.** Whatever the transition and the measurement are, as long as the transforms replace them by linear functions plus noise:
`kalman_filter` returns one state with positive definite covariance for every measurement. -/
theorem C75_filter_total (hQ : K.Q = .m Q) (hQ' : Q.PosDef) (hR : K.R = .m R) (hR' : R.PosDef)
    (hf : ∀ t, LinearisesOn env K.transform (fun x => K.transition x (some t) u) n n)
    (hh : ∀ t, LinearisesOn env K.measTransform (fun x => K.measurement x (some t) u) n k) (prior : Option Gaussian) {μ : Fin n → ℝ}
    {P : Matrix (Fin n) (Fin n) ℝ} (hg : HasMoments env (prior.getD K.initState) μ P) (hP : P.PosDef) (ys : List Arr)
    (hys : ∀ y ∈ ys, ∃ yv : Fin k → ℝ, IsVec y.squeeze yv) (tZero : ℝ) :
    ∃ fs, K.kalmanFilter env ys prior tZero u = .ok fs ∧ fs.length = ys.length ∧ ∀ r ∈ fs, GoodState n r := by
  unfold KFS.kalmanFilter
  generalize prior.getD K.initState = g at hg
  clear prior
  induction ys generalizing g tZero μ P with
  | nil => exact ⟨[], rfl, rfl, by simp⟩
  | cons y ys ih =>
    obtain ⟨yv, hy⟩ := hys y (by simp)
    obtain ⟨p, hp, hpg⟩ := predict_good (hf tZero) hQ hQ' hg hP
    obtain ⟨m1, C1, hm1, hC1⟩ := hpg.moments env
    obtain ⟨r, m2, C2, hr, rfl, hC2, -⟩ := correct_good (hh tZero) hR hR' hm1 hC1 hy
    obtain ⟨rs, h1, h2, h3⟩ := ih hC2 (fun y hy => hys y (by simp [hy])) (tZero + K.dt) _ (hasMoments_ofMoment env m2 C2)
    refine ⟨ofMoment (.v m2) (.m C2) :: rs, ?_, by simp [h2], ?_⟩
    · simp [KFS.filterLoop, hp, hr, h1]
    · intro r' hr'
      rcases List.mem_cons.1 hr' with rfl | h
      · exact ⟨_, _, rfl, hC2⟩
      · exact h3 r' h

/-- **C75.** Under the same conditions `kalman_smoother` returns one state with positive definite covariance for every filtered state. -/
theorem C75_smoother_total (hQ : K.Q = .m Q) (hQ' : Q.PosDef)
    (hf : ∀ t, LinearisesOn env K.transform (fun x => K.transition x (some t) u) n n) (fs : List Gaussian) (hne : fs ≠ [])
    (hfs : ∀ g ∈ fs, GoodState n g) :
    ∃ rs, K.kalmanSmoother env fs u = .ok rs ∧ rs.length = fs.length ∧ ∀ r ∈ rs, GoodState n r := by
  have loop : ∀ (l : List Gaussian) (nx : Gaussian) (t : ℝ), GoodState n nx → (∀ g ∈ l, GoodState n g) →
      ∃ rs, KFS.smoothLoop env K u nx t l = .ok rs ∧ rs.length = l.length ∧ ∀ r ∈ rs, GoodState n r := by
    intro l
    induction l with
    | nil => exact fun nx t _ _ => ⟨[], rfl, rfl, by simp⟩
    | cons g l ih =>
      intro nx t hnx hl
      obtain ⟨m1, C1, hm1, hC1⟩ := (hl g (by simp)).moments env
      obtain ⟨m2, C2, hm2, hC2⟩ := hnx.moments env
      obtain ⟨r, m', C', hr, hr', hC', -⟩ := smooth_good (hf t) hQ hQ' hm1 hC1 hm2 hC2.posSemidef
      have hgood : GoodState n r := ⟨m', C', hr', hC'⟩
      obtain ⟨rs, h1, h2, h3⟩ := ih r (t - K.dt) hgood fun g hg => hl g (by simp [hg])
      refine ⟨r :: rs, ?_, by simp [h2], ?_⟩
      · simp [KFS.smoothLoop, hr, hgood.copy env, h1]
      · intro r' hr'
        rcases List.mem_cons.1 hr' with rfl | h
        · exact hgood
        · exact h3 r' h
  unfold KFS.kalmanSmoother
  cases hrev : fs.reverse with
  | nil => exact absurd (List.reverse_eq_nil_iff.1 hrev) hne
  | cons last states =>
    have hmem : ∀ g, g ∈ last :: states → g ∈ fs := by
      intro g hg; rw [← hrev] at hg; exact List.mem_reverse.1 hg
    have hlast := hfs last (hmem _ (by simp))
    have hlen : fs.length = states.length + 1 := by rw [← List.length_reverse, hrev]; rfl
    obtain ⟨rs, h1, h2, h3⟩ := loop states last (((fs.length : ℝ) - 1) * K.dt) hlast fun g hg => hfs g (hmem g (by simp [hg]))
    refine ⟨(last :: rs).reverse, ?_, by simp [hlen, h2], ?_⟩
    · simp only [hlast.copy env, ok_bind, h1]; rfl
    · intro r hr
      rcases List.mem_cons.1 (List.mem_reverse.1 hr) with rfl | h
      · exact hlast
      · exact h3 r h

theorem getElem?_mem {α : Type} {l : List α} {i : ℕ} {a : α} (h : l[i]? = some a) : a ∈ l := List.mem_of_getElem? h

/-- **C75.** Smoothing never increases the uncertainty of any state: with filtering started at time zero, every smoothed covariance is
at most the filtered covariance of the same step (in the Loewner order). -/
theorem C75_smoothing_reduces_uncertainty (hQ : K.Q = .m Q) (hQ' : Q.PosDef) (hR : K.R = .m R) (hR' : R.PosDef)
    (hf : ∀ t, LinearisesOn env K.transform (fun x => K.transition x (some t) u) n n)
    (hh : ∀ t, LinearisesOn env K.measTransform (fun x => K.measurement x (some t) u) n k) (prior : Option Gaussian) {μ : Fin n → ℝ}
    {P : Matrix (Fin n) (Fin n) ℝ} (hg : HasMoments env (prior.getD K.initState) μ P) (hP : P.PosDef) (ys : List Arr)
    (hys : ∀ y ∈ ys, ∃ yv : Fin k → ℝ, IsVec y.squeeze yv) {fs rs : List Gaussian}
    (hfs : K.kalmanFilter env ys prior 0 u = .ok fs) (hrs : K.kalmanSmoother env fs u = .ok rs) (i : ℕ) (hi : i < ys.length) :
    ∃ (mf ms : Fin n → ℝ) (Cf Cs : Matrix (Fin n) (Fin n) ℝ), fs[i]? = some (ofMoment (.v mf) (.m Cf)) ∧
      rs[i]? = some (ofMoment (.v ms) (.m Cs)) ∧ Cf.PosDef ∧ Cs.PosDef ∧ (Cf - Cs).PosSemidef := by
  obtain ⟨fs', e1, l1, good⟩ := C75_filter_total hQ hQ' hR hR' hf hh prior hg hP ys hys 0
  rw [hfs, Except.ok.injEq] at e1
  subst e1
  have hne : fs ≠ [] := by
    intro h; rw [h] at l1; simp at l1; omega
  obtain ⟨rs', e2, l2, goodr⟩ := C75_smoother_total (u := u) hQ hQ' hf fs hne good
  rw [hrs, Except.ok.injEq] at e2
  subst e2
  have key : ∀ d i, i + d + 1 = ys.length → ∃ (mf ms : Fin n → ℝ) (Cf Cs : Matrix (Fin n) (Fin n) ℝ),
      fs[i]? = some (ofMoment (.v mf) (.m Cf)) ∧ rs[i]? = some (ofMoment (.v ms) (.m Cs)) ∧ Cf.PosDef ∧ Cs.PosDef ∧
      (Cf - Cs).PosSemidef := by
    intro d
    induction d with
    | zero =>
      intro i hi
      obtain ⟨last, c, h1, h2, h3⟩ := (KFS.kalmanSmoother_get hrs).2.1
      rw [List.getLast?_eq_getElem?, show fs.length - 1 = i by omega] at h1
      rw [List.getLast?_eq_getElem?, show rs.length - 1 = i by omega] at h2
      have hl := good last (getElem?_mem h1)
      rw [hl.copy env, Except.ok.injEq] at h3
      subst h3
      obtain ⟨m, C, rfl, hC⟩ := hl
      exact ⟨m, m, C, C, h1, h2, hC, hC, by rw [sub_self]; exact PosSemidef.zero⟩
    | succ d ih =>
      intro i hi
      obtain ⟨τ, st, pred, later, r, h1, h2, h3, ⟨y, h4, h5⟩, h6, h7⟩ := C26_same_times_from_zero env K ys prior u fs rs hfs hrs i (by omega)
      obtain ⟨mf, ms, Cf, Cs, q1, q2, q3, q4, q5⟩ := ih (i + 1) (by omega)
      rw [q2, Option.map_some, copyV_moment, Option.some.injEq, Except.ok.injEq] at h6
      subst h6
      obtain ⟨m, C, rfl, hC⟩ := good st (getElem?_mem h1)
      obtain ⟨p', hp', hpg⟩ := predict_good (hf τ) hQ hQ' (hasMoments_ofMoment env m C) hC
      rw [h3, Except.ok.injEq] at hp'
      subst hp'
      obtain ⟨π, S', hπ, hS'⟩ := hpg.moments env
      obtain ⟨yv, hy⟩ := hys y (getElem?_mem h4)
      obtain ⟨r', m', C', hr', hr'', hC', hle⟩ := correct_good (hh τ) hR hR' hπ hS' hy
      rw [q1, hr'] at h5
      have h5 : ofMoment (.v mf) (.m Cf) = r' := by simpa [Except.toOption] using h5
      have hCC : Cf = C' := by
        have a := (hasMoments_ofMoment env mf Cf).2
        rw [h5, hr''] at a
        have := a.symm.trans (hasMoments_ofMoment env m' C').2
        simpa using this
      subst hCC
      obtain ⟨r2, m2, C2, e3, e4, e5, e6⟩ := smooth_good (hf τ) hQ hQ' (hasMoments_ofMoment env m C) hC (hasMoments_ofMoment env ms Cs)
        q4.posSemidef
      rw [h7, Except.ok.injEq] at e3
      subst e3 e4
      refine ⟨m, m2, C, C2, h1, h2, hC, e5, e6 pred h3 π S' hπ ?_⟩
      have := hle.add q5
      rwa [sub_add_sub_cancel] at this
  exact key (ys.length - i - 1) i (by omega)

/-- **C75.** Unscented transforms with nonnegative weights meet the condition for all functions acting row by row. -/
theorem C75_unscented {α β κ α' β' κ' : ℝ} {v w : UT} (hv : UT.init n α β κ = .ok v) (hw : UT.init n α' β' κ' = .ok w)
    (hpos : 0 < α ^ 2 * (n + κ)) (hpos' : 0 < α' ^ 2 * (n + κ'))
    (hwt : 0 ≤ (α ^ 2 * (n + κ) - n) / (α ^ 2 * (n + κ)) + 1 - α ^ 2 + β)
    (hwt' : 0 ≤ (α' ^ 2 * (n + κ') - n) / (α' ^ 2 * (n + κ')) + 1 - α' ^ 2 + β') {sys : Sys}
    {F : ℝ → (Fin n → ℝ) → Fin n → ℝ} (hF : ∀ t, OnRows (fun x => sys.transition x (some t) u) (F t))
    {G : ℝ → (Fin n → ℝ) → Fin k → ℝ} (hG : ∀ t, OnRows (fun x => sys.measurement x (some t) u) (G t))
    (hQ : sys.Q = .m Q) (hQ' : Q.PosDef) (hR : sys.R = .m R) (hR' : R.PosDef) {μ : Fin n → ℝ}
    {P : Matrix (Fin n) (Fin n) ℝ} (hg : HasMoments env sys.initState μ P) (hP : P.PosDef) (ys : List Arr) (hne : ys ≠ [])
    (hys : ∀ y ∈ ys, ∃ yv : Fin k → ℝ, IsVec y.squeeze yv) (tZero : ℝ) :
    ∃ fs rs, (KFS.init (v.transform env) sys (some (w.transform env))).kalmanFilter env ys none tZero u = .ok fs ∧
      (KFS.init (v.transform env) sys (some (w.transform env))).kalmanSmoother env fs u = .ok rs ∧ fs.length = ys.length ∧
      rs.length = ys.length ∧ (∀ r ∈ fs, GoodState n r) ∧ ∀ r ∈ rs, GoodState n r := by
  set K := KFS.init (v.transform env) sys (some (w.transform env)) with hK
  have hf : ∀ t, LinearisesOn env K.transform (fun x => K.transition x (some t) u) n n := fun t =>
    unscented_linearises hv hpos hwt (hF t)
  have hh : ∀ t, LinearisesOn env K.measTransform (fun x => K.measurement x (some t) u) n k := fun t =>
    unscented_linearises hw hpos' hwt' (hG t)
  obtain ⟨fs, h1, h2, h3⟩ := C75_filter_total (K := K) hQ hQ' hR hR' hf hh none hg hP ys hys tZero
  obtain ⟨rs, h4, h5, h6⟩ := C75_smoother_total (K := K) hQ hQ' hf fs (by rintro rfl; exact hne (List.length_eq_zero_iff.1 h2.symm)) h3
  exact ⟨fs, rs, h1, h4, h2, h5.trans h2, h3, h6⟩

/-! ## C76: the iterated filters -/

/-- A system function that is differentiable in the state at every time (without control) and returns a shape the Taylor transform can
handle: vectors, or rows of shape `(1, k)` if neither dimension is one. -/
def Tame (f : SysFunc) (n k : ℕ) : Prop :=
  (∀ t, ∃ F : (Fin n → ℝ) → Fin k → ℝ, VecFunc (fun z => f z (some t) none) F ∧ Differentiable ℝ F) ∨
  ((∀ t, ∃ F : (Fin n → ℝ) → Fin k → ℝ, RowFunc (fun z => f z (some t) none) F ∧ Differentiable ℝ F) ∧ n ≠ 1 ∧ k ≠ 1)

theorem Tame.linearises (hjac : CorrectJac jac) {f : SysFunc} (h : Tame f n k) (env : Env) (t : ℝ) :
    LinearisesOn env (taylorTransform env jac) (fun z => f z (some t) none) n k := by
  rcases h with h | ⟨h, h1, h2⟩
  · obtain ⟨F, hF, hd⟩ := h t
    exact taylor_linearises hjac hF hd
  · obtain ⟨F, hF, hd⟩ := h t
    intro g μ P hg _
    exact ⟨_, F μ, _, 0, .inl rfl, Matrix.PosSemidef.zero,
      by rw [add_zero]; exact C17_taylor_linearises_rows hjac h1 h2 hg hF (hd μ).hasFDerivAt⟩

theorem affine_differentiable (A : Matrix (Fin k) (Fin n) ℝ) (b : Fin k → ℝ) (x0 : Fin n → ℝ) :
    Differentiable ℝ (fun x => b + A *ᵥ (x - x0)) := by
  intro x
  have h := (hasFDerivAt_affine A (b - A *ᵥ x0) x).differentiableAt
  have e : (fun x => b + A *ᵥ (x - x0)) = fun x => A *ᵥ x + (b - A *ᵥ x0) := by
    funext x; rw [mulVec_sub]; abel
  rw [e]; exact h

/-- Linearised functions are differentiable again. -/
theorem Tame.linearise (hjac : CorrectJac jac) {f : SysFunc} (h : Tame f n k) (x0 : Fin n → ℝ) :
    Tame (IEKS.linearise jac f (.v x0)) n k := by
  rcases h with h | ⟨h, h1, h2⟩
  · refine .inl fun t => ?_
    obtain ⟨F, hF, hd⟩ := h t
    exact ⟨_, IEKS.linearise_vec hjac hF (hd x0).hasFDerivAt, affine_differentiable _ _ _⟩
  · refine .inr ⟨fun t => ?_, h1, h2⟩
    obtain ⟨F, hF, hd⟩ := h t
    exact ⟨_, IEKS.linearise_row hjac hF (hd x0).hasFDerivAt, affine_differentiable _ _ _⟩

namespace IEKS

/-- The functions stored in the object are differentiable. -/
def TameState (n k : ℕ) (s : IEKSState) : Prop := Tame s.transition n n ∧ Tame s.measurement n k

/-- There are at least `N` linearised functions, all differentiable. -/
def TameLists (n k N : ℕ) (s : IEKSState) : Prop :=
  N ≤ s.fList.length ∧ N ≤ s.hList.length ∧ (∀ f ∈ s.fList, Tame f n n) ∧ ∀ f ∈ s.hList, Tame f n k

section loops

variable {K : IEKS}

theorem filterLoop_total (hjac : CorrectJac jac) (hT : K.transform = taylorTransform env jac) (hM : K.measTransform = taylorTransform env jac)
    (hQ : K.Q = .m Q) (hQ' : Q.PosDef) (hR : K.R = .m R) (hR' : R.PosDef) :
    ∀ (ys : List Arr) (i : ℕ) (g : Gaussian) (t : ℝ) (μ : Fin n → ℝ) (P : Matrix (Fin n) (Fin n) ℝ) (s : IEKSState),
      HasMoments env g μ P → P.PosDef → (∀ y ∈ ys, ∃ yv : Fin k → ℝ, IsVec y.squeeze yv) → TameState n k s → TameLists n k (i + ys.length) s →
      ∃ rs s', filterLoop env K i g t ys s = (.ok rs, s') ∧ rs.length = ys.length ∧ (∀ r ∈ rs, GoodState n r) ∧ TameState n k s' ∧
        s'.fList = s.fList ∧ s'.hList = s.hList := by
  intro ys
  induction ys with
  | nil => exact fun i g t μ P s _ _ _ hs _ => ⟨[], s, rfl, rfl, by simp, hs, rfl, rfl⟩
  | cons y ys ih =>
    intro i g t μ P s hg hP hys hs hl
    obtain ⟨hl1, hl2, hl3, hl4⟩ := hl
    simp only [List.length_cons] at hl1 hl2
    have hi : i < s.fList.length := by omega
    have hi' : i < s.hList.length := by omega
    obtain ⟨yv, hy⟩ := hys y (by simp)
    have tf := hl3 _ (List.getElem_mem hi)
    have th := hl4 _ (List.getElem_mem hi')
    set s1 : IEKSState := { s with transition := s.fList[i], measurement := s.hList[i] } with hs1
    obtain ⟨p, hp, hpg⟩ := predict_good (K := K.current s1) (by rw [show (K.current s1).transform = _ from hT]; exact tf.linearises hjac env t) hQ
      hQ' hg hP
    obtain ⟨m1, C1, hm1, hC1⟩ := hpg.moments env
    obtain ⟨r, m2, C2, hr, hre, hC2, -⟩ := correct_good (K := K.current s1)
      (by rw [show (K.current s1).measTransform = _ from hM]; exact th.linearises hjac env t) hR hR' hm1 hC1 hy
    obtain ⟨rs, s', h1, h2, h3, h4, h5, h6⟩ := ih (i + 1) r (t + K.dt) m2 C2 s1 (hre ▸ hasMoments_ofMoment env m2 C2) hC2
      (fun y hy => hys y (by simp [hy])) ⟨tf, th⟩ ⟨by simp [hs1]; omega, by simp [hs1]; omega, hl3, hl4⟩
    refine ⟨r :: rs, s', ?_, by simp [h2], ?_, h4, h5, h6⟩
    · simp only [filterLoop, PyM.get_bind, PyM.modify_bind, getItem, List.getElem?_eq_getElem hi, List.getElem?_eq_getElem hi',
        PyM.lift_ok_bind]
      rw [hp, PyM.lift_ok_bind, hr, PyM.lift_ok_bind, PyM.bind_ok h1]; rfl
    · intro r' hr'
      rcases List.mem_cons.1 hr' with rfl | h
      · exact ⟨_, _, hre, hC2⟩
      · exact h3 r' h

theorem smoothLoop_total (hjac : CorrectJac jac) (hT : K.transform = taylorTransform env jac) (hQ : K.Q = .m Q) (hQ' : Q.PosDef) :
    ∀ (l : List Gaussian) (nx : Gaussian) (t : ℝ) (s : IEKSState), GoodState n nx → (∀ g ∈ l, GoodState n g) → TameState n k s →
      TameLists n k (l.length + 1) s →
      ∃ rs s', smoothLoop env K nx t l s = (.ok rs, s') ∧ rs.length = l.length ∧ (∀ r ∈ rs, GoodState n r) ∧ TameState n k s' := by
  intro l
  induction l with
  | nil => exact fun nx t s _ _ hs _ => ⟨[], s, rfl, rfl, by simp, hs⟩
  | cons g l ih =>
    intro nx t s hnx hl hs ⟨hl1, hl2, hl3, hl4⟩
    simp only [List.length_cons] at hl1 hl2
    have hi : l.length + 1 < s.fList.length := by omega
    have tf := hl3 _ (List.getElem_mem hi)
    set s1 : IEKSState := { s with transition := s.fList[l.length + 1] } with hs1
    obtain ⟨m1, C1, hm1, hC1⟩ := (hl g (by simp)).moments env
    obtain ⟨m2, C2, hm2, hC2⟩ := hnx.moments env
    obtain ⟨r, m', C', hr, hr', hC', -⟩ := smooth_good (K := K.current s1)
      (by rw [show (K.current s1).transform = _ from hT]; exact tf.linearises hjac env t) hQ hQ' hm1 hC1 hm2 hC2.posSemidef
    have hgood : GoodState n r := ⟨m', C', hr', hC'⟩
    obtain ⟨rs, s', h1, h2, h3, h4⟩ := ih r (t - K.dt) s1 hgood (fun g hg => hl g (by simp [hg])) ⟨tf, hs.2⟩
      ⟨by simp [hs1]; omega, by simp [hs1]; omega, hl3, hl4⟩
    refine ⟨r :: rs, s', ?_, by simp [h2], ?_, h4⟩
    · simp only [smoothLoop, PyM.get_bind, PyM.modify_bind, getItem, List.getElem?_eq_getElem hi, PyM.lift_ok_bind]
      rw [hr, PyM.lift_ok_bind, hgood.copy env, PyM.lift_ok_bind, PyM.bind_ok h1]; rfl
    · intro r' hr'
      rcases List.mem_cons.1 hr' with rfl | h
      · exact hgood
      · exact h3 r' h

theorem smoother_total (hjac : CorrectJac jac) (hT : K.transform = taylorTransform env jac) (hQ : K.Q = .m Q) (hQ' : Q.PosDef)
    (fs : List Gaussian) (hne : fs ≠ []) (hfs : ∀ g ∈ fs, GoodState n g) (s : IEKSState) (hs : TameState n k s)
    (hl : TameLists n k fs.length s) :
    ∃ rs s', smoother env K fs s = (.ok rs, s') ∧ rs.length = fs.length ∧ (∀ r ∈ rs, GoodState n r) ∧ TameState n k s' := by
  unfold smoother
  cases hrev : fs.reverse with
  | nil => exact absurd (List.reverse_eq_nil_iff.1 hrev) hne
  | cons last states =>
    have hmem : ∀ g, g ∈ last :: states → g ∈ fs := by
      intro g hg; rw [← hrev] at hg; exact List.mem_reverse.1 hg
    have hlast := hfs last (hmem _ (by simp))
    have hlen : fs.length = states.length + 1 := by rw [← List.length_reverse, hrev]; rfl
    rw [hlen] at hl
    obtain ⟨rs, s', h1, h2, h3, h4⟩ := smoothLoop_total (env := env) hjac hT hQ hQ' states last (((fs.length : ℝ) - 1) * K.dt) s hlast
      (fun g hg => hfs g (hmem g (by simp [hg]))) hs hl
    refine ⟨(last :: rs).reverse, s', ?_, by simp [hlen, h2], ?_, h4⟩
    · dsimp only
      rw [hlast.copy env, PyM.lift_ok_bind, PyM.bind_ok h1]; rfl
    · intro r hr
      rcases List.mem_cons.1 (List.mem_reverse.1 hr) with rfl | h
      · exact hlast
      · exact h3 r h

theorem relinearise_total (hjac : CorrectJac jac) (hf : Tame K.transition n n) (hh : Tame K.measurement n k) {rs : List Gaussian}
    (hrs : ∀ r ∈ rs, GoodState n r) (s : IEKSState) (hs : TameState n k s) :
    ∃ s', relinearise env jac K rs s = (.ok (), s') ∧ TameState n k s' ∧ TameLists n k rs.length s' := by
  obtain ⟨fl, a1, a2, a3⟩ := lineariseAll_ok (env := env) (jac := jac) (f := K.transition) hrs
  obtain ⟨hl, b1, b2, b3⟩ := lineariseAll_ok (env := env) (jac := jac) (f := K.measurement) hrs
  refine ⟨{ s with fList := fl, hList := hl }, ?_, hs, by simp [a2], by simp [b2], ?_, ?_⟩
  · simp only [relinearise, a1, b1, PyM.lift_ok_bind, PyM.modify_bind, PyM.modify_run]
  · intro f hf1
    obtain ⟨x0, rfl⟩ := a3 f hf1
    exact hf.linearise hjac x0
  · intro f hf1
    obtain ⟨x0, rfl⟩ := b3 f hf1
    exact hh.linearise hjac x0

/-- **C76.** On a system with differentiable functions a call of an `IEKS` object returns one state with positive definite covariance
per measurement, for every number of iterations and whatever calls were made before: the functions stored in the object stay
differentiable. -/
theorem C76_ieks_total (hjac : CorrectJac jac) (hT : K.transform = taylorTransform env jac) (hM : K.measTransform = taylorTransform env jac)
    (hQ : K.Q = .m Q) (hQ' : Q.PosDef) (hR : K.R = .m R) (hR' : R.PosDef) (hf : Tame K.transition n n) (hh : Tame K.measurement n k)
    {μ : Fin n → ℝ} {P : Matrix (Fin n) (Fin n) ℝ} (hg : HasMoments env K.initState μ P) (hP : P.PosDef) (ys : List Arr) (hne : ys ≠ [])
    (hys : ∀ y ∈ ys, ∃ yv : Fin k → ℝ, IsVec y.squeeze yv) (numIter : ℕ) (s : IEKSState) (hs : TameState n k s) :
    ∃ rs s', call env jac K ys numIter s = (.ok rs, s') ∧ rs.length = ys.length ∧ (∀ r ∈ rs, GoodState n r) ∧ TameState n k s' := by
  have sw : ∀ (j : ℕ) (rs : List Gaussian) (s : IEKSState), rs.length = ys.length → (∀ r ∈ rs, GoodState n r) → TameState n k s →
      TameLists n k ys.length s →
      ∃ rs' s', sweeps env jac K ys j rs s = (.ok rs', s') ∧ rs'.length = ys.length ∧ (∀ r ∈ rs', GoodState n r) ∧ TameState n k s' := by
    intro j
    induction j with
    | zero => exact fun rs s h1 h2 h3 _ => ⟨rs, s, rfl, h1, h2, h3⟩
    | succ j ih =>
      intro rs s h1 h2 h3 h4
      obtain ⟨fs, s1, a1, a2, a3, a4, a5, a6⟩ := filterLoop_total (env := env) hjac hT hM hQ hQ' hR hR' ys 0 K.initState 0 μ P s hg hP hys h3
        (by rwa [zero_add])
      obtain ⟨rs', s2, b1, b2, b3, b4⟩ := smoother_total (env := env) (k := k) hjac hT hQ hQ' fs
        (by rintro rfl; exact hne (List.length_eq_zero_iff.1 a2.symm)) a3 s1 a4 (by
          unfold TameLists at h4 ⊢
          rw [a5, a6, a2]; exact h4)
      obtain ⟨s3, c1, c2, c3⟩ := relinearise_total (env := env) hjac hf hh b3 s2 b4
      have hlen : rs'.length = ys.length := b2.trans a2
      obtain ⟨rs'', s4, d⟩ := ih rs' s3 hlen b3 c2 (hlen ▸ c3)
      refine ⟨rs'', s4, ?_, d.2⟩
      simp only [sweeps]
      rw [PyM.bind_ok a1, PyM.bind_ok b1, PyM.bind_ok c1, d.1]
  obtain ⟨fs, a1, a2, a3⟩ := C75_filter_total (env := env) (K := K.current s) (u := none) hQ hQ' hR hR'
    (fun t => by rw [show (K.current s).transform = _ from hT]; exact hs.1.linearises hjac env t)
    (fun t => by rw [show (K.current s).measTransform = _ from hM]; exact hs.2.linearises hjac env t) none hg hP ys hys 0
  obtain ⟨rs, b1, b2, b3⟩ := C75_smoother_total (env := env) (K := K.current s) (u := none) hQ hQ'
    (fun t => by rw [show (K.current s).transform = _ from hT]; exact hs.1.linearises hjac env t) fs
    (by rintro rfl; exact hne (List.length_eq_zero_iff.1 a2.symm)) a3
  obtain ⟨s3, c1, c2, c3⟩ := relinearise_total (env := env) hjac hf hh b3 s hs
  have hlen : rs.length = ys.length := b2.trans a2
  obtain ⟨rs', s4, d⟩ := sw (numIter - 1) rs s3 hlen b3 c2 (hlen ▸ c3)
  refine ⟨rs', s4, ?_, d.2⟩
  simp only [call, PyM.get_bind]
  rw [a1, PyM.lift_ok_bind, b1, PyM.lift_ok_bind, PyM.bind_ok c1, d.1]

end loops

/-- A sequence of calls of one object, each with its measurements and number of iterations. -/
noncomputable def callAll (env : Env) (jac : Jac) (K : IEKS) : List (List Arr × ℕ) → PyM IEKSState (List (List Gaussian))
  | [] => pure []
  | q :: qs => do
    let rs ← call env jac K q.1 q.2
    let rest ← callAll env jac K qs
    return rs :: rest

/-- **C76.** Any sequence of calls on a new `IEKS` object completes. -/
theorem C76_ieks_calls (hjac : CorrectJac jac) (sys : Sys) (hQ : sys.Q = .m Q) (hQ' : Q.PosDef) (hR : sys.R = .m R) (hR' : R.PosDef)
    (hf : Tame sys.transition n n) (hh : Tame sys.measurement n k) {μ : Fin n → ℝ} {P : Matrix (Fin n) (Fin n) ℝ}
    (hg : HasMoments env sys.initState μ P) (hP : P.PosDef) (calls : List (List Arr × ℕ)) (hne : ∀ q ∈ calls, q.1 ≠ [])
    (hys : ∀ q ∈ calls, ∀ y ∈ q.1, ∃ yv : Fin k → ℝ, IsVec y.squeeze yv) :
    ∃ rss s', callAll env jac (init env jac sys).1 calls (init env jac sys).2 = (.ok rss, s') ∧
      List.Forall₂ (fun (rs : List Gaussian) q => rs.length = q.1.length ∧ ∀ r ∈ rs, GoodState n r) rss calls := by
  have key : ∀ s : IEKSState, TameState n k s → ∃ rss s', callAll env jac (init env jac sys).1 calls s = (.ok rss, s') ∧
      List.Forall₂ (fun (rs : List Gaussian) q => rs.length = q.1.length ∧ ∀ r ∈ rs, GoodState n r) rss calls := by
    induction calls with
    | nil => exact fun s _ => ⟨[], s, rfl, .nil⟩
    | cons q qs ih =>
      intro s hs
      obtain ⟨rs, s1, h1, h2, h3, h4⟩ := C76_ieks_total (env := env) (K := (init env jac sys).1) hjac rfl rfl hQ hQ' hR hR' hf hh hg hP q.1
        (hne q (by simp)) (hys q (by simp)) q.2 s hs
      obtain ⟨rss, s2, h5, h6⟩ := ih (fun q' h => hne q' (by simp [h])) (fun q' h => hys q' (by simp [h])) s1 h4
      refine ⟨rs :: rss, s2, ?_, .cons ⟨h2, h3⟩ h6⟩
      rw [callAll, PyM.bind_ok h1, PyM.bind_ok h5]; rfl
  exact key _ ⟨hf, hh⟩

end IEKS

/-- **C76.** An `IEKF` call on a system with differentiable functions (the measurement returning rows of shape `(1, k)`) returns one
state with positive definite covariance per measurement, for every number of iterations. -/
theorem C76_iekf_total (hjac : CorrectJac jac) (hT : K.transform = taylorTransform env jac)
    (hQ : K.Q = .m Q) (hQ' : Q.PosDef) (hR : K.R = .m R) (hR' : R.PosDef) (hf : Tame K.transition n n)
    (hh : ∀ t, ∃ G : (Fin n → ℝ) → Fin k → ℝ, RowFunc (fun z => K.measurement z (some t) none) G ∧ Differentiable ℝ G)
    (prior : Option Gaussian) {μ : Fin n → ℝ} {P : Matrix (Fin n) (Fin n) ℝ} (hg : HasMoments env (prior.getD K.initState) μ P)
    (hP : P.PosDef) (ys : List Arr) (hys : ∀ y ∈ ys, ∃ yv : Fin k → ℝ, IsVec y.squeeze yv) (numIter : ℕ) (tZero : ℝ) :
    ∃ rs, K.iekf env jac ys numIter prior tZero none = .ok rs ∧ rs.length = ys.length ∧ ∀ r ∈ rs, GoodState n r := by
  unfold KFS.iekf
  generalize prior.getD K.initState = g at hg
  clear prior
  induction ys generalizing g tZero μ P with
  | nil => exact ⟨[], rfl, rfl, by simp⟩
  | cons y ys ih =>
    obtain ⟨yv, hy⟩ := hys y (by simp)
    obtain ⟨p, hp, hpg⟩ := predict_good (by rw [hT]; exact hf.linearises hjac env tZero) hQ hQ' hg hP
    obtain ⟨m1, C1, hp1, hC1⟩ := id hpg
    have hm1 := hasMoments_ofMoment env m1 C1
    rw [← hp1] at hm1
    obtain ⟨G, hG, hd⟩ := hh tZero
    have it : ∀ (j : ℕ) (g : Gaussian), GoodState n g → ∃ r, KFS.iterate (K.iekfStep env jac (.v m1) (.m C1) y.squeeze (some tZero) none) j g =
        .ok r ∧ GoodState n r := by
      intro j
      induction j with
      | zero => exact fun g hg => ⟨g, rfl, hg⟩
      | succ j ihj =>
        intro g hg
        obtain ⟨m2, C2, hm2, hC2⟩ := hg.moments env
        have hstep := iekfStep_row (K := K) hjac (x := m1) hG (hd m2).hasFDerivAt hR hC1.posSemidef hR' hm2 hy
        obtain ⟨r, hr, hr'⟩ := ihj _ ⟨_, _, rfl, condCov_posDef hC1 hR' _⟩
        exact ⟨r, by rw [KFS.iterate, hstep, ok_bind, hr], hr'⟩
    obtain ⟨r, hr, hr'⟩ := it numIter p hpg
    obtain ⟨m3, C3, hm3, hC3⟩ := hr'.moments env
    obtain ⟨rs, h1, h2, h3⟩ := ih hC3 (fun y hy => hys y (by simp [hy])) (tZero + K.dt) r hm3
    refine ⟨r :: rs, ?_, by simp [h2], ?_⟩
    · simp [KFS.iekfLoop, hp, KFS.iteratedUpdate, hm1.meanA, hm1.covA, hr, h1]
    · intro r' hr''
      rcases List.mem_cons.1 hr'' with rfl | h
      · exact hr'
      · exact h3 r' h

/-! ## The systems of the repository -/

theorem l96_tame {q r dt F : ℝ} {dim : ℕ} (hd : 2 ≤ dim) {x : Fin dim → ℝ} {sys : Sys}
    (h : L96.init q r dt dim F (some (.v x)) = .ok sys) : Tame sys.transition dim dim ∧ Tame sys.measurement dim dim ∧
      (∀ t, ∃ G : (Fin dim → ℝ) → Fin dim → ℝ, RowFunc (fun z => sys.measurement z (some t) none) G ∧ Differentiable ℝ G) ∧
      sys.initState = Gaussian.ofMoment (.v x) (.m (1 : Matrix (Fin dim) (Fin dim) ℝ)) ∧ sys.Q = .m (q • 1 : Matrix (Fin dim) (Fin dim) ℝ) ∧
      sys.R = .m (r • 1 : Matrix (Fin dim) (Fin dim) ℝ) := by
  have e : L96.init q r dt dim F (some (.v x)) = Sys.make dim dim (L96.f dt F) L96.h (.init dim (some ((Arr.eye dim).smul q)) none)
      (.init dim (some ((Arr.eye dim).smul r)) none) (Gaussian.ofMoment (.v x) (Arr.eye dim)) 1 := by
    simp only [L96.init, ok_bind, Arr.shape0_v, ne_eq, not_true_eq_false, if_false]
  rw [e, Sys.make, if_pos ⟨rfl, rfl⟩, Except.ok.injEq] at h
  subst h
  have hrow : ∀ t : ℝ, ∃ G : (Fin dim → ℝ) → Fin dim → ℝ, RowFunc (fun z => L96.h z (some t) none) G ∧ Differentiable ℝ G := fun t =>
    ⟨fun x j => x j ^ 2, fun x => rfl, differentiable_pi.2 fun j => (differentiable_apply j).pow 2⟩
  have h1 : dim ≠ 1 := by omega
  exact ⟨.inr ⟨fun t => C53_step_differentiable dt F (some t) none, h1, h1⟩, .inr ⟨hrow, h1, h1⟩, hrow, rfl, rfl, rfl⟩

/-- **C76.** On the Lorenz 96 system in every dimension from two on, with a stored initial condition, every sequence of `IEKS` calls and
every `IEKF` call completes. -/
theorem C76_lorenz (hjac : CorrectJac jac) {q r dt F : ℝ} (hq : 0 < q) (hr : 0 < r) {dim : ℕ} (hd : 2 ≤ dim) {x : Fin dim → ℝ} {sys : Sys}
    (h : L96.init q r dt dim F (some (.v x)) = .ok sys) :
    (∀ calls : List (List Arr × ℕ), (∀ q ∈ calls, q.1 ≠ []) → (∀ q ∈ calls, ∀ y ∈ q.1, ∃ yv : Fin dim → ℝ, IsPoint y yv) →
      ∃ rss s', IEKS.callAll env jac (IEKS.init env jac sys).1 calls (IEKS.init env jac sys).2 = (.ok rss, s') ∧
        List.Forall₂ (fun (rs : List Gaussian) q => rs.length = q.1.length ∧ ∀ r ∈ rs, GoodState dim r) rss calls) ∧
    ∀ (ys : List Arr), (∀ y ∈ ys, ∃ yv : Fin dim → ℝ, IsPoint y yv) → ∀ numIter,
      ∃ rs, (KFS.init (taylorTransform env jac) sys none).iekf env jac ys numIter none 0 none = .ok rs ∧ rs.length = ys.length ∧
        ∀ r ∈ rs, GoodState dim r := by
  obtain ⟨h1, h2, h3, h4, h5, h6⟩ := l96_tame hd h
  have hg : HasMoments env sys.initState x (1 : Matrix (Fin dim) (Fin dim) ℝ) := by rw [h4]; exact hasMoments_ofMoment ..
  have hy : ∀ y : Arr, (∃ yv : Fin dim → ℝ, IsPoint y yv) → ∃ yv : Fin dim → ℝ, IsVec y.squeeze yv := by
    rintro _ ⟨yv, h⟩; exact ⟨yv, h.isVec⟩
  refine ⟨fun calls hne hys => ?_, fun ys hys numIter => ?_⟩
  · exact IEKS.C76_ieks_calls hjac sys h5 (one_smul_posDef dim hq) h6 (one_smul_posDef dim hr) h1 h2 hg PosDef.one calls hne
      fun q hq y hy' => hy y (hys q hq y hy')
  · exact C76_iekf_total (K := KFS.init (taylorTransform env jac) sys none) hjac rfl h5 (one_smul_posDef dim hq) h6
      (one_smul_posDef dim hr) h1 h3 none hg PosDef.one ys (fun y hy' => hy y (hys y hy')) numIter 0

/-- **C76.** On the growth model every sequence of `IEKS` calls completes. -/
theorem C76_growth (hjac : CorrectJac jac) (calls : List (List Arr × ℕ)) (hne : ∀ q ∈ calls, q.1 ≠ [])
    (hys : ∀ q ∈ calls, ∀ y ∈ q.1, ∃ a : ℝ, y = .v (v1 a)) :
    ∃ sys, UNGM.init = .ok sys ∧
      ∃ rss s', IEKS.callAll env jac (IEKS.init env jac sys).1 calls (IEKS.init env jac sys).2 = (.ok rss, s') ∧
        List.Forall₂ (fun (rs : List Gaussian) q => rs.length = q.1.length ∧ ∀ r ∈ rs, GoodState 1 r) rss calls :=
  ⟨ungm, ungm_init, IEKS.C76_ieks_calls (Q := m1 1) (R := m1 10) hjac ungm rfl (m1_posDef.2 one_pos) rfl (m1_posDef.2 (by norm_num))
    (.inl fun t => ⟨_, (ungm_transition t none).vec, (ungm_transition t none).differentiable⟩)
    (.inl fun t => ⟨_, (ungm_measurement (some t) none).vec, (ungm_measurement (some t) none).differentiable⟩)
    (sG_moments env 0 5) (m1_posDef.2 (by norm_num)) calls hne fun q hq y hy => by
      obtain ⟨a, rfl⟩ := hys q hq y hy
      exact ⟨v1 a, .inr rfl⟩⟩

example : ∃ sys, UNGM.init = .ok sys ∧ ∃ rss s', IEKS.callAll calmEnv exactJac (IEKS.init calmEnv exactJac sys).1
    [([.v (v1 3), .v (v1 5)], 50), ([.v (v1 1)], 0)] (IEKS.init calmEnv exactJac sys).2 = (.ok rss, s') := by
  obtain ⟨sys, h1, rss, s', h2, -⟩ := C76_growth (env := calmEnv) exactJac_correct [([.v (v1 3), .v (v1 5)], 50), ([.v (v1 1)], 0)]
    (by simp) (by simp)
  exact ⟨sys, h1, rss, s', h2⟩

/-- **C75.** On the Lorenz 96 system (stored initial condition, any dimension from two on) and on constant velocity tracking with any
sensors, filtering and smoothing with the default unscented transform (`alpha = 1`, `beta = 2`, `kappa > 0`) complete. -/
theorem C75_lorenz {q r dt F κ : ℝ} (hq : 0 < q) (hr : 0 < r) (hκ : 0 < κ) {dim : ℕ} {x : Fin dim → ℝ} {sys : Sys}
    (h : L96.init q r dt dim F (some (.v x)) = .ok sys) {v : UT} (hv : UT.init dim 1 2 κ = .ok v) (ys : List Arr) (hne : ys ≠ [])
    (hys : ∀ y ∈ ys, ∃ yv : Fin dim → ℝ, IsPoint y yv) :
    ∃ fs rs, (KFS.init (v.transform env) sys none).kalmanFilter env ys none 0 none = .ok fs ∧
      (KFS.init (v.transform env) sys none).kalmanSmoother env fs none = .ok rs ∧ fs.length = ys.length ∧
      rs.length = ys.length ∧ (∀ r ∈ fs, GoodState dim r) ∧ ∀ r ∈ rs, GoodState dim r := by
  have e : L96.init q r dt dim F (some (.v x)) = Sys.make dim dim (L96.f dt F) L96.h (.init dim (some ((Arr.eye dim).smul q)) none)
      (.init dim (some ((Arr.eye dim).smul r)) none) (Gaussian.ofMoment (.v x) (Arr.eye dim)) 1 := by
    simp only [L96.init, ok_bind, Arr.shape0_v, ne_eq, not_true_eq_false, if_false]
  rw [e, Sys.make, if_pos ⟨rfl, rfl⟩, Except.ok.injEq] at h
  subst h
  have h0 : (0 : ℝ) ≤ dim := Nat.cast_nonneg dim
  have hw : (0 : ℝ) ≤ (1 ^ 2 * (dim + κ) - dim) / (1 ^ 2 * (dim + κ)) + 1 - 1 ^ 2 + 2 := by
    have : (0 : ℝ) ≤ (1 ^ 2 * (dim + κ) - dim) / (1 ^ 2 * (dim + κ)) := div_nonneg (by linarith) (by linarith)
    linarith
  choose Φ hΦ using fun t : ℝ => onRows_of (f := fun x => L96.f dt F x (some t) none) fun N X => C53_step_rows dt F X _ _
  exact C75_unscented (k := dim) (G := fun _ x j => x j ^ 2) hv hv (by linarith) (by linarith) hw hw hΦ (fun t N X => rfl) rfl
    (one_smul_posDef dim hq) rfl (one_smul_posDef dim hr) (hasMoments_ofMoment env x 1) PosDef.one ys hne
    (fun y hy => by obtain ⟨a, h⟩ := hys y hy; exact ⟨a, h.isVec⟩) 0

theorem C75_bearings {q r dt κ : ℝ} (hq : 0 < q) (hr : 0 < r) (hd : 0 < dt) (hκ : 0 < κ) {l : List Sensor} (hl : l ≠ []) {sys : Sys}
    (h : BOT.init q r (some l) dt = .ok sys) {v : UT} (hv : UT.init 4 1 2 κ = .ok v) (ys : List Arr) (hne : ys ≠ [])
    (hys : ∀ y ∈ ys, ∃ yv : Fin l.length → ℝ, IsPoint y yv) :
    ∃ fs rs, (KFS.init (v.transform env) sys none).kalmanFilter env ys none 0 none = .ok fs ∧
      (KFS.init (v.transform env) sys none).kalmanSmoother env fs none = .ok rs ∧ fs.length = ys.length ∧
      rs.length = ys.length ∧ (∀ r ∈ fs, GoodState 4 r) ∧ ∀ r ∈ rs, GoodState 4 r := by
  obtain ⟨sys', Q, h', hQ, hQ'⟩ := C56_noise_posDef dt q r (some l) hd hq
  rw [h, Except.ok.injEq] at h'
  subst h'
  rw [BOT.init, Sys.make, if_pos ⟨rfl, rfl⟩, Except.ok.injEq] at h
  have hw : (0 : ℝ) ≤ (1 ^ 2 * ((4 : ℕ) + κ) - (4 : ℕ)) / (1 ^ 2 * ((4 : ℕ) + κ)) + 1 - 1 ^ 2 + 2 := by
    have : (0 : ℝ) ≤ (1 ^ 2 * ((4 : ℕ) + κ) - (4 : ℕ)) / (1 ^ 2 * ((4 : ℕ) + κ)) := div_nonneg (by push_cast; linarith) (by positivity)
    linarith
  choose Φ hΦ using fun t : ℝ => onRows_of (f := fun x => BOT.f dt x (some t) none) fun N X => by
    obtain ⟨Y, h1, h2, -⟩ := C56_constant_velocity dt X (some t) none
    exact ⟨Y, h1, h2⟩
  choose G hG using fun t : ℝ => onRows_of (f := fun x => BOT.h (some l) x (some t) none) fun N X => by
    obtain ⟨Y, h1, h2, -⟩ := C62_shape_and_range l hl X (some t) none
    exact ⟨Y, h1, h2⟩
  subst h
  exact C75_unscented (k := l.length) hv hv (by positivity) (by positivity) hw hw hΦ hG hQ hQ' rfl (one_smul_posDef _ hr)
    (hasMoments_ofMoment env _ ((0.1 : ℝ) • 1)) (one_smul_posDef 4 (by norm_num)) ys hne
    (fun y hy => by obtain ⟨a, h⟩ := hys y hy; exact ⟨a, h.isVec⟩) 0

/-- **C75.** The extended Kalman filter and smoother complete on the growth model, and no state becomes less certain by smoothing. -/
theorem C75_growth (hjac : CorrectJac jac) (ys : List Arr) (hne : ys ≠ []) (hys : ∀ y ∈ ys, ∃ a : ℝ, y = .v (v1 a)) :
    ∃ sys, UNGM.init = .ok sys ∧ ∃ fs rs,
      (KFS.init (taylorTransform env jac) sys none).kalmanFilter env ys none 0 none = .ok fs ∧
      (KFS.init (taylorTransform env jac) sys none).kalmanSmoother env fs none = .ok rs ∧ fs.length = ys.length ∧
      rs.length = ys.length ∧ ∀ i < ys.length, ∃ (mf ms : Fin 1 → ℝ) (Cf Cs : Matrix (Fin 1) (Fin 1) ℝ),
        fs[i]? = some (Gaussian.ofMoment (.v mf) (.m Cf)) ∧ rs[i]? = some (Gaussian.ofMoment (.v ms) (.m Cs)) ∧
        0 < Cs 0 0 ∧ Cs 0 0 ≤ Cf 0 0 := by
  refine ⟨ungm, ungm_init, ?_⟩
  set K := KFS.init (taylorTransform env jac) ungm none
  have hf : ∀ t, LinearisesOn env K.transform (fun x => K.transition x (some t) none) 1 1 := fun t =>
    taylor_linearises hjac (ungm_transition t none).vec (ungm_transition t none).differentiable
  have hh : ∀ t, LinearisesOn env K.measTransform (fun x => K.measurement x (some t) none) 1 1 := fun t =>
    taylor_linearises hjac (ungm_measurement (some t) none).vec (ungm_measurement (some t) none).differentiable
  have hys' : ∀ y ∈ ys, ∃ yv : Fin 1 → ℝ, IsVec y.squeeze yv := fun y hy => by
    obtain ⟨a, rfl⟩ := hys y hy
    exact ⟨v1 a, .inr rfl⟩
  have hP : (m1 5).PosDef := m1_posDef.2 (by norm_num)
  have hQ : (m1 1).PosDef := m1_posDef.2 one_pos
  have hR : (m1 10).PosDef := m1_posDef.2 (by norm_num)
  obtain ⟨fs, h1, h2, h3⟩ := C75_filter_total (K := K) (Q := m1 1) (R := m1 10) rfl hQ rfl hR hf hh none (sG_moments env 0 5) hP ys hys' 0
  obtain ⟨rs, h4, h5, h6⟩ := C75_smoother_total (K := K) (Q := m1 1) rfl hQ hf fs
    (by rintro rfl; exact hne (List.length_eq_zero_iff.1 h2.symm)) h3
  refine ⟨fs, rs, h1, h4, h2, h5.trans h2, fun i hi => ?_⟩
  obtain ⟨mf, ms, Cf, Cs, a1, a2, -, a4, a5⟩ := C75_smoothing_reduces_uncertainty (K := K) (Q := m1 1) (R := m1 10) rfl hQ rfl hR hf hh none
    (sG_moments env 0 5) hP ys hys' h1 h4 i hi
  exact ⟨mf, ms, Cf, Cs, a1, a2, a4.diag_pos, by have := a5.diag_nonneg (i := 0); rw [Matrix.sub_apply] at this; linarith⟩

example : ∃ sys fs rs, UNGM.init = .ok sys ∧
    (KFS.init (taylorTransform calmEnv exactJac) sys none).kalmanFilter calmEnv [.v (v1 3), .v (v1 5)] none 0 none = .ok fs ∧
    (KFS.init (taylorTransform calmEnv exactJac) sys none).kalmanSmoother calmEnv fs none = .ok rs ∧ rs.length = 2 := by
  obtain ⟨sys, h1, fs, rs, h2, h3, h4, h5, -⟩ := C75_growth (env := calmEnv) exactJac_correct [.v (v1 3), .v (v1 5)] (by simp) (by simp)
  exact ⟨sys, fs, rs, h1, h2, h3, h5⟩

example : ∃ sys v fs rs, L96.init 0.1 1 0.05 3 8 (some (.v ![8.01, 8, 8])) = .ok sys ∧ UT.init 3 1 2 1 = .ok v ∧
    (KFS.init (v.transform calmEnv) sys none).kalmanFilter calmEnv [.v ![1, 2, 3], .v ![4, 5, 6]] none 0 none = .ok fs ∧
    (KFS.init (v.transform calmEnv) sys none).kalmanSmoother calmEnv fs none = .ok rs ∧ rs.length = 2 := by
  obtain ⟨sys, hs, -⟩ := C54_stored_works 0.1 1 0.05 8 ![8.01, 8, 8]
  obtain ⟨v, hv, -⟩ := (C14_unscented_weights 3 1 2 1).2 (by norm_num)
  obtain ⟨fs, rs, h1, h2, -, h3, -⟩ := C75_lorenz (env := calmEnv) (by norm_num) one_pos one_pos hs hv [.v ![1, 2, 3], .v ![4, 5, 6]]
    (by simp) (by simp [IsPoint])
  exact ⟨sys, v, fs, rs, hs, hv, h1, h2, h3⟩

example : ∃ sys rs, L96.init 0.1 1 0.05 3 8 (some (.v ![8.01, 8, 8])) = .ok sys ∧
    (KFS.init (taylorTransform calmEnv exactJac) sys none).iekf calmEnv exactJac [.v ![1, 2, 3], .v ![4, 5, 6]] 10 none 0 none = .ok rs := by
  obtain ⟨sys, hs, -⟩ := C54_stored_works 0.1 1 0.05 8 ![8.01, 8, 8]
  obtain ⟨rs, h, -⟩ := (C76_lorenz (env := calmEnv) exactJac_correct (by norm_num) one_pos (by norm_num) hs).2 [.v ![1, 2, 3], .v ![4, 5, 6]]
    (by simp [IsPoint]) 10
  exact ⟨sys, rs, hs, h⟩

end Verif

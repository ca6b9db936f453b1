import Verif.Props.IEKF
import Verif.Lemmas.PyM
import Mathlib.Analysis.Calculus.Deriv.Pow
import Mathlib.Analysis.Calculus.Deriv.Mul
import Mathlib.Analysis.Calculus.Deriv.Add

/-!
# The iterated extended Kalman smoother (C28–C30)
-/

namespace Verif

open Matrix

variable {env : Env} {jac : Jac} {n k : ℕ}

namespace IEKS

/-- The linearisation of a vector-valued function. -/
theorem linearise_vec (hjac : CorrectJac jac) {f : SysFunc} {t u : Option ℝ} {F : (Fin n → ℝ) → Fin k → ℝ}
    (hf : VecFunc (fun z => f z t u) F) {x0 : Fin n → ℝ} {F' : (Fin n → ℝ) →L[ℝ] (Fin k → ℝ)} (hF : HasFDerivAt F F' x0) :
    VecFunc (fun z => linearise jac f (.v x0) z t u) (fun x => F x0 + jacMat F' *ᵥ (x - x0)) := by
  intro x
  obtain ⟨T, hT, hs, he⟩ := (hjac _ F F' x0 hF).1 hf
  have h0 := hf x0
  simp only at h0
  obtain ⟨sh, gt⟩ := T
  simp only at hs he
  subst hs
  have hM : Tensor.toArr ⟨[k, n], gt⟩ = .ok (.m (jacMat F')) := by
    simp only [Tensor.toArr]
    congr 2
    ext i j; exact he i j
  simp only [linearise, h0, ok_bind, hT, Arr.sub_vv, Tensor.matmulArr, hM, Arr.matmul_mv, Arr.add_vv]

/-- The linearisation of a row-valued function. -/
theorem linearise_row (hjac : CorrectJac jac) {f : SysFunc} {t u : Option ℝ} {F : (Fin n → ℝ) → Fin k → ℝ}
    (hf : RowFunc (fun z => f z t u) F) {x0 : Fin n → ℝ} {F' : (Fin n → ℝ) →L[ℝ] (Fin k → ℝ)} (hF : HasFDerivAt F F' x0) :
    RowFunc (fun z => linearise jac f (.v x0) z t u) (fun x => F x0 + jacMat F' *ᵥ (x - x0)) := by
  intro x
  obtain ⟨T, hT, hs, he⟩ := (hjac _ F F' x0 hF).2 hf
  have h0 := hf x0
  simp only at h0
  obtain ⟨sh, gt⟩ := T
  simp only at hs he
  subst hs
  simp only [linearise, h0, ok_bind, hT, Arr.sub_vv, Tensor.matmulArr, dif_pos, Arr.add_mm]
  congr 2
  ext i j
  simp [mulVec, dotProduct, he]

/-- The linearisation of an affine function is that function. -/
theorem linearise_affine (hjac : CorrectJac jac) {f : SysFunc} {A : ℝ → Matrix (Fin k) (Fin n) ℝ} {b : ℝ → Fin k → ℝ}
    (hf : AffineSysFunc f A b) (x0 : Fin n → ℝ) : AffineSysFunc (linearise jac f (.v x0)) A b := by
  have e : ∀ t (x : Fin n → ℝ), A t *ᵥ x0 + b t + jacMat (LinearMap.toContinuousLinearMap (A t).mulVecLin) *ᵥ (x - x0) = A t *ᵥ x + b t := by
    intro t x
    have eJ : jacMat (LinearMap.toContinuousLinearMap (A t).mulVecLin) = A t := by ext i j; exact affine_deriv_apply (A t) i j
    rw [eJ, mulVec_sub]; abel
  rcases hf with hf | ⟨hf, h1, h2⟩
  · refine .inl fun t => ?_
    have := linearise_vec hjac (hf t) (hasFDerivAt_affine (A t) (b t) x0)
    simpa only [e] using this
  · refine .inr ⟨fun t => ?_, h1, h2⟩
    have := linearise_row hjac (hf t) (hasFDerivAt_affine (A t) (b t) x0)
    simpa only [e] using this

theorem AffineSysFunc.exact (hjac : CorrectJac jac) {f : SysFunc} {A : ℝ → Matrix (Fin k) (Fin n) ℝ} {b : ℝ → Fin k → ℝ}
    (hf : AffineSysFunc f A b) (t : ℝ) : ExactOn env (taylorTransform env jac) (fun z => f z (some t) none) (A t) (b t) := by
  refine C20_taylor_exact env hjac ?_
  rcases hf with hf | ⟨hf, h1, h2⟩
  · exact .inl (hf t)
  · exact .inr ⟨hf t, h1, h2⟩

/-- States produced by the filters on affine systems. -/
def Proper (n : ℕ) (g : Gaussian) : Prop :=
  ∃ (m : Fin n → ℝ) (C : Matrix (Fin n) (Fin n) ℝ), g = Gaussian.ofMoment (.v m) (.m C) ∧ C.PosDef

theorem lineariseAll_ok {f : SysFunc} : ∀ {states : List Gaussian}, (∀ g ∈ states, Proper n g) →
    ∃ fl, lineariseAll env jac f states = .ok fl ∧ fl.length = states.length ∧ ∀ f' ∈ fl, ∃ x0 : Fin n → ℝ, f' = linearise jac f (.v x0) := by
  intro states
  induction states with
  | nil => intro _; exact ⟨[], rfl, rfl, by simp⟩
  | cons g states ih =>
    intro h
    obtain ⟨fl, h1, h2, h3⟩ := ih fun g hg => h g (by simp [hg])
    obtain ⟨m, C, rfl, -⟩ := h g (by simp)
    refine ⟨linearise jac f (.v m) :: fl, ?_, by simp [h2], ?_⟩
    · unfold lineariseAll at h1 ⊢
      rw [List.mapM_cons]
      rw [h1, (hasMoments_ofMoment env m C).meanA]
      rfl
    · intro f' hf'
      rcases List.mem_cons.1 hf' with rfl | h
      · exact ⟨m, rfl⟩
      · exact h3 f' h

variable {K : IEKS} {A : ℝ → Matrix (Fin n) (Fin n) ℝ} {b : ℝ → Fin n → ℝ} {H : ℝ → Matrix (Fin k) (Fin n) ℝ} {c : ℝ → Fin k → ℝ}
  {Q : Matrix (Fin n) (Fin n) ℝ} {R : Matrix (Fin k) (Fin k) ℝ}

/-- One filter step with any affine functions representing the same maps. -/
theorem step_eq (hjac : CorrectJac jac) (hT : K.transform = taylorTransform env jac) (hM : K.measTransform = taylorTransform env jac)
    (hQ : K.Q = .m Q) (hQ' : Q.PosDef) (hR : K.R = .m R) (hR' : R.PosDef)
    {g : Gaussian} {μ : Fin n → ℝ} {P : Matrix (Fin n) (Fin n) ℝ} (hg : HasMoments env g μ P) (hP : P.PosDef) (t : ℝ)
    {y : Arr} {yv : Fin k → ℝ} (hy : IsVec y yv) :
    ∃ p r, Proper n r ∧ ∀ s : IEKSState, AffineSysFunc s.transition A b → AffineSysFunc s.measurement H c →
      (K.current s).predict g (some t) none = .ok p ∧ (K.current s).correct env p y (some t) none = .ok r := by
  have hpd : (A t * P * (A t)ᵀ + Q).PosDef := innov_posDef hP.posSemidef hQ' (A t)
  have hS := innov_posDef hpd.posSemidef hR' (H t)
  refine ⟨Gaussian.ofMoment (.v (A t *ᵥ μ + b t)) (.m (A t * P * (A t)ᵀ + Q)),
    Gaussian.ofMoment (.v (condMean (A t *ᵥ μ + b t) (A t * P * (A t)ᵀ + Q) (H t) (c t) R yv)) (.m (condCov (A t * P * (A t)ᵀ + Q) (H t) R)),
    ⟨_, _, rfl, condCov_posDef hpd hR' (H t)⟩, fun s hf hh => ?_⟩
  obtain ⟨x, hx, h⟩ := AffineSysFunc.exact (env := env) hjac hf t g μ P hg hP
  obtain ⟨z, hz, h'⟩ := AffineSysFunc.exact (env := env) hjac hh t _ _ _ (hasMoments_ofMoment env (A t *ᵥ μ + b t) (A t * P * (A t)ᵀ + Q)) hpd
  refine ⟨KFS.predict_of (K := K.current s) (by rw [← hT] at h; exact h) hx hQ, ?_⟩
  rw [KFS.correct_of (K := K.current s) (hasMoments_ofMoment env _ _) (by rw [← hM] at h'; exact h') hz hy hR (posDef_det_ne hS),
    transpose_mul, transpose_transpose, posDef_inv_symm hS]
  rfl

/-- One smoothing step with any affine function representing the same map. -/
theorem smooth_eq (hjac : CorrectJac jac) (hT : K.transform = taylorTransform env jac)
    (hQ : K.Q = .m Q) (hQ' : Q.PosDef) {g nx : Gaussian} (hg : Proper n g) (hnx : Proper n nx) (t : ℝ) :
    ∃ r, Proper n r ∧ ∀ s : IEKSState, AffineSysFunc s.transition A b → (K.current s).smooth env g nx (some t) none = .ok r := by
  obtain ⟨μ, P, rfl, hP⟩ := hg
  obtain ⟨ν, S, rfl, hS⟩ := hnx
  have hSp := innov_posDef hP.posSemidef hQ' (A t)
  have hK : ((A t * P * (A t)ᵀ + Q)⁻¹ * (P * (A t)ᵀ)ᵀ)ᵀ = gainMat P (A t) Q := by
    rw [transpose_mul, transpose_transpose, posDef_inv_symm hSp, gainMat]
  refine ⟨Gaussian.ofMoment (.v (μ + gainMat P (A t) Q *ᵥ (ν - (A t *ᵥ μ + b t))))
    (.m (P + gainMat P (A t) Q * (S - (A t * P * (A t)ᵀ + Q)) * (gainMat P (A t) Q)ᵀ)), ⟨_, _, rfl, ?_⟩, fun s hf => ?_⟩
  · have e : P + gainMat P (A t) Q * (S - (A t * P * (A t)ᵀ + Q)) * (gainMat P (A t) Q)ᵀ =
        condCov P (A t) Q + gainMat P (A t) Q * S * (gainMat P (A t) Q)ᵀ := by
      have : gainMat P (A t) Q * (A t * P * (A t)ᵀ + Q) = P * (A t)ᵀ := by
        rw [gainMat, Matrix.mul_assoc, posDef_inv_mul hSp, Matrix.mul_one]
      rw [Matrix.mul_sub, Matrix.sub_mul, this, condCov]
      have h2 : P * (A t)ᵀ * (gainMat P (A t) Q)ᵀ = P * (A t)ᵀ * (A t * P * (A t)ᵀ + Q)⁻¹ * (P * (A t)ᵀ)ᵀ := by
        rw [gainMat, transpose_mul, posDef_inv_symm hSp]; simp only [Matrix.mul_assoc]
      rw [h2]; abel
    rw [e]
    refine (condCov_posDef hP hQ' (A t)).add_posSemidef ?_
    have := congr_posSemidef hS.posSemidef (gainMat P (A t) Q)
    simpa using this
  · obtain ⟨x, hx, h⟩ := AffineSysFunc.exact (env := env) hjac hf t _ μ P (hasMoments_ofMoment env μ P) hP
    rw [KFS.smooth_of (K := K.current s) (hasMoments_ofMoment env μ P) (hasMoments_ofMoment env ν S) (by rw [← hT] at h; exact h) hx hQ
      (posDef_det_ne hSp), hK]

/-- The relinearised filter computes what the plain filter computes. -/
theorem filterLoop_eq (hjac : CorrectJac jac) (hT : K.transform = taylorTransform env jac) (hM : K.measTransform = taylorTransform env jac)
    (hQ : K.Q = .m Q) (hQ' : Q.PosDef) (hR : K.R = .m R) (hR' : R.PosDef) (hf : AffineSysFunc K.transition A b)
    (hh : AffineSysFunc K.measurement H c) :
    ∀ (ys : List Arr) (i : ℕ) (g : Gaussian) (t : ℝ) (μ : Fin n → ℝ) (P : Matrix (Fin n) (Fin n) ℝ), HasMoments env g μ P → P.PosDef →
      (∀ y ∈ ys, ∃ yv : Fin k → ℝ, IsVec y.squeeze yv) →
      ∃ rs, rs.length = ys.length ∧ (∀ r ∈ rs, Proper n r) ∧ KFS.filterLoop env K none g t ys = .ok rs ∧
        ∀ s : IEKSState, i + ys.length ≤ s.fList.length → i + ys.length ≤ s.hList.length → (∀ f ∈ s.fList, AffineSysFunc f A b) →
          (∀ f ∈ s.hList, AffineSysFunc f H c) → ∃ s', filterLoop env K i g t ys s = (.ok rs, s') ∧ s'.fList = s.fList ∧ s'.hList = s.hList := by
  intro ys
  induction ys with
  | nil => intro i g t μ P _ _ _; exact ⟨[], rfl, by simp, rfl, fun s _ _ _ _ => ⟨s, rfl, rfl, rfl⟩⟩
  | cons y ys ih =>
    intro i g t μ P hg hP hys
    obtain ⟨yv, hy⟩ := hys y (by simp)
    obtain ⟨p, r, ⟨m', C', hr, hC'⟩, hstep⟩ := step_eq (A := A) (b := b) (H := H) (c := c) hjac hT hM hQ hQ' hR hR' hg hP t hy
    obtain ⟨rs, hl, hprop, hrs, hloop⟩ := ih (i + 1) r (t + K.dt) m' C' (hr ▸ hasMoments_ofMoment _ _ _) hC' fun y hy => hys y (by simp [hy])
    obtain ⟨h1, h2⟩ := hstep ⟨K.transition, K.measurement, [], []⟩ hf hh
    refine ⟨r :: rs, by simp [hl], ?_, ?_, ?_⟩
    · intro r' hr'
      rcases List.mem_cons.1 hr' with rfl | h
      · exact ⟨m', C', hr, hC'⟩
      · exact hprop r' h
    · have e : K.current ⟨K.transition, K.measurement, [], []⟩ = K := rfl
      rw [e] at h1 h2
      simp [KFS.filterLoop, h1, h2, hrs]
    · intro s hlf hlh hfl hhl
      simp only [List.length_cons] at hlf hlh
      have hi : i < s.fList.length := by omega
      have hi' : i < s.hList.length := by omega
      obtain ⟨s', h3, h4, h5⟩ := hloop { s with transition := s.fList[i], measurement := s.hList[i] } (by simp; omega) (by simp; omega) hfl hhl
      obtain ⟨h6, h7⟩ := hstep { s with transition := s.fList[i], measurement := s.hList[i] } (hfl _ (List.getElem_mem _)) (hhl _ (List.getElem_mem _))
      refine ⟨s', ?_, h4, h5⟩
      simp only [filterLoop, PyM.get_bind, PyM.modify_bind, getItem, List.getElem?_eq_getElem hi, List.getElem?_eq_getElem hi',
        PyM.lift_ok_bind, h6, h7]
      rw [PyM.bind_ok h3]; rfl

/-- The relinearised smoothing loop computes what the plain one computes. -/
theorem smoothLoop_eq (hjac : CorrectJac jac) (hT : K.transform = taylorTransform env jac)
    (hQ : K.Q = .m Q) (hQ' : Q.PosDef) (hf : AffineSysFunc K.transition A b) :
    ∀ (l : List Gaussian) (nx : Gaussian) (t : ℝ), Proper n nx → (∀ g ∈ l, Proper n g) →
      ∃ rs, rs.length = l.length ∧ (∀ r ∈ rs, Proper n r) ∧ KFS.smoothLoop env K none nx t l = .ok rs ∧
        ∀ s : IEKSState, l.length < s.fList.length → (∀ f ∈ s.fList, AffineSysFunc f A b) →
          ∃ s', smoothLoop env K nx t l s = (.ok rs, s') ∧ s'.fList = s.fList ∧ s'.hList = s.hList := by
  intro l
  induction l with
  | nil => intro nx t _ _; exact ⟨[], rfl, by simp, rfl, fun s _ _ => ⟨s, rfl, rfl, rfl⟩⟩
  | cons g l ih =>
    intro nx t hnx hl
    obtain ⟨r, hr, hstep⟩ := smooth_eq (A := A) (b := b) hjac hT hQ hQ' (hl g (by simp)) hnx t
    obtain ⟨rs, hlen, hprop, hrs, hloop⟩ := ih r (t - K.dt) hr fun g hg => hl g (by simp [hg])
    have hcopy : r.copyV env = .ok r := by obtain ⟨m, C, rfl, -⟩ := hr; exact copyV_moment _ _
    have h1 := hstep ⟨K.transition, K.measurement, [], []⟩ hf
    refine ⟨r :: rs, by simp [hlen], ?_, ?_, ?_⟩
    · intro r' hr'
      rcases List.mem_cons.1 hr' with rfl | h
      · exact hr
      · exact hprop r' h
    · have e : K.current ⟨K.transition, K.measurement, [], []⟩ = K := rfl
      rw [e] at h1
      simp [KFS.smoothLoop, h1, hcopy, hrs]
    · intro s hlf hfl
      simp only [List.length_cons] at hlf
      obtain ⟨s', h3, h4, h5⟩ := hloop { s with transition := s.fList[l.length + 1] } (by simp; omega) hfl
      have h6 := hstep { s with transition := s.fList[l.length + 1] } (hfl _ (List.getElem_mem _))
      refine ⟨s', ?_, h4, h5⟩
      simp only [smoothLoop, PyM.get_bind, PyM.modify_bind, getItem, List.getElem?_eq_getElem hlf, PyM.lift_ok_bind, h6, hcopy]
      rw [PyM.bind_ok h3]; rfl

theorem smoother_eq (hjac : CorrectJac jac) (hT : K.transform = taylorTransform env jac)
    (hQ : K.Q = .m Q) (hQ' : Q.PosDef) (hf : AffineSysFunc K.transition A b) (fs : List Gaussian) (hne : fs ≠ [])
    (hfs : ∀ g ∈ fs, Proper n g) :
    ∃ rs, rs.length = fs.length ∧ (∀ r ∈ rs, Proper n r) ∧ K.kalmanSmoother env fs none = .ok rs ∧
      ∀ s : IEKSState, fs.length ≤ s.fList.length → (∀ f ∈ s.fList, AffineSysFunc f A b) →
        ∃ s', smoother env K fs s = (.ok rs, s') ∧ s'.fList = s.fList ∧ s'.hList = s.hList := by
  unfold KFS.kalmanSmoother smoother
  cases hrev : fs.reverse with
  | nil => exact absurd (List.reverse_eq_nil_iff.1 hrev) hne
  | cons last states =>
    have hmem : ∀ g, g ∈ last :: states → g ∈ fs := by
      intro g hg; rw [← hrev] at hg; exact List.mem_reverse.1 hg
    have hlast := hfs last (hmem _ (by simp))
    have hlen : fs.length = states.length + 1 := by rw [← List.length_reverse, hrev]; rfl
    obtain ⟨rs, h1, h2, h3, h4⟩ := smoothLoop_eq (env := env) hjac hT hQ hQ' hf states last (((fs.length : ℝ) - 1) * K.dt) hlast
      fun g hg => hfs g (hmem g (by simp [hg]))
    have hcopy : last.copyV env = .ok last := by obtain ⟨m, C, rfl, -⟩ := hlast; exact copyV_moment _ _
    refine ⟨(last :: rs).reverse, by simp [hlen, h1], ?_, ?_, ?_⟩
    · intro r hr
      rcases List.mem_cons.1 (List.mem_reverse.1 hr) with rfl | h
      · exact hlast
      · exact h2 r h
    · simp only [hcopy, ok_bind, h3]; rfl
    · intro s hl hfl
      obtain ⟨s', h5, h6, h7⟩ := h4 s (by omega) hfl
      refine ⟨s', ?_, h6, h7⟩
      simp only [hcopy, PyM.lift_ok_bind]
      rw [PyM.bind_ok h5]; rfl

/-- **C28.** For affine transition and measurement functions (possibly time dependent), a fresh `IEKS` object returns the result of the
plain extended Kalman filter and smoother, whatever `num_iter` is. -/
theorem C28_affine_iterations_agree (env : Env) (hjac : CorrectJac jac) (sys : Sys) (hf : AffineSysFunc sys.transition A b)
    (hh : AffineSysFunc sys.measurement H c) (hQ : sys.Q = .m Q) (hQ' : Q.PosDef) (hR : sys.R = .m R) (hR' : R.PosDef)
    {μ : Fin n → ℝ} {P : Matrix (Fin n) (Fin n) ℝ} (hg : HasMoments env sys.initState μ P) (hP : P.PosDef) (ys : List Arr) (hne : ys ≠ [])
    (hys : ∀ y ∈ ys, ∃ yv : Fin k → ℝ, IsVec y.squeeze yv) :
    ∃ fs rs, (KFS.init (taylorTransform env jac) sys none).kalmanFilter env ys none 0 none = .ok fs ∧
      (KFS.init (taylorTransform env jac) sys none).kalmanSmoother env fs none = .ok rs ∧
      ∀ numIter, (call env jac (init env jac sys).1 ys numIter (init env jac sys).2).1 = .ok rs := by
  set K : IEKS := KFS.init (taylorTransform env jac) sys none with hK
  have hKi : (init env jac sys).1 = K := rfl
  have hT : K.transform = taylorTransform env jac := rfl
  have hM : K.measTransform = taylorTransform env jac := rfl
  have hf' : AffineSysFunc K.transition A b := hf
  have hh' : AffineSysFunc K.measurement H c := hh
  obtain ⟨fs, l1, p1, e1, loop1⟩ := filterLoop_eq (env := env) hjac hT hM (K := K) hQ hQ' hR hR' hf' hh' ys 0 sys.initState 0 μ P hg hP hys
  have hfne : fs ≠ [] := by
    intro h; rw [h] at l1; exact hne (List.length_eq_zero_iff.1 l1.symm)
  obtain ⟨rs, l2, p2, e2, loop2⟩ := smoother_eq (env := env) hjac hT hQ hQ' hf' fs hfne p1
  refine ⟨fs, rs, e1, e2, ?_⟩
  have hrel : ∀ s : IEKSState, ∃ s' : IEKSState, relinearise env jac K rs s = (.ok (), s') ∧ s'.fList.length = ys.length ∧ s'.hList.length = ys.length ∧
      (∀ f ∈ s'.fList, AffineSysFunc f A b) ∧ (∀ f ∈ s'.hList, AffineSysFunc f H c) := by
    intro s
    obtain ⟨fl, a1, a2, a3⟩ := lineariseAll_ok (env := env) (jac := jac) (f := K.transition) p2
    obtain ⟨hl, b1, b2, b3⟩ := lineariseAll_ok (env := env) (jac := jac) (f := K.measurement) p2
    refine ⟨{ s with fList := fl, hList := hl }, ?_, by simp [a2, l2, l1], by simp [b2, l2, l1], ?_, ?_⟩
    · simp only [relinearise, a1, b1, PyM.lift_ok_bind, PyM.modify_bind, PyM.modify_run]
    · intro f hf1
      obtain ⟨x0, rfl⟩ := a3 f hf1
      exact linearise_affine hjac hf' x0
    · intro f hf1
      obtain ⟨x0, rfl⟩ := b3 f hf1
      exact linearise_affine hjac hh' x0
  have hsweeps : ∀ (j : ℕ) (s : IEKSState), s.fList.length = ys.length → s.hList.length = ys.length →
      (∀ f ∈ s.fList, AffineSysFunc f A b) → (∀ f ∈ s.hList, AffineSysFunc f H c) → (sweeps env jac K ys j rs s).1 = .ok rs := by
    intro j
    induction j with
    | zero => intro s _ _ _ _; rfl
    | succ j ih =>
      intro s h1 h2 h3 h4
      obtain ⟨s1, q1, q2, q3⟩ := loop1 s (by omega) (by omega) h3 h4
      obtain ⟨s2, q4, q5, q6⟩ := loop2 s1 (by rw [q2, l1, h1]) (by rw [q2]; exact h3)
      obtain ⟨s3, q7, q8, q9, q10, q11⟩ := hrel s2
      have hi : K.initState = sys.initState := rfl
      simp only [sweeps, hi]
      rw [PyM.bind_ok q1, PyM.bind_ok q4, PyM.bind_ok q7]
      exact ih s3 q8 q9 q10 q11
  intro numIter
  have hc : IEKS.current K (init env jac sys).2 = K := rfl
  obtain ⟨s3, q7, q8, q9, q10, q11⟩ := hrel (init env jac sys).2
  simp only [call, hKi, PyM.get_bind, hc]
  have e1' : K.kalmanFilter env ys none 0 none = .ok fs := e1
  simp only [e1', e2, PyM.lift_ok_bind]
  rw [PyM.bind_ok q7]
  exact hsweeps _ s3 q8 q9 q10 q11

/-! ## What one relinearised sweep computes -/

theorem lineariseAll_get {f : SysFunc} : ∀ {ps : List Gaussian} {fl : List SysFunc}, lineariseAll env jac f ps = .ok fl →
    fl.length = ps.length ∧ ∀ (i : ℕ) (g : Gaussian), ps[i]? = some g → ∃ m, g.meanA env = .ok m ∧ fl[i]? = some (linearise jac f m) := by
  intro ps
  induction ps with
  | nil =>
    intro fl h
    simp only [lineariseAll, List.mapM_nil, py_pure, Except.ok.injEq] at h
    subst h
    exact ⟨rfl, fun i g h => by simp at h⟩
  | cons g ps ih =>
    intro fl h
    unfold lineariseAll at h
    rw [List.mapM_cons] at h
    obtain ⟨f', h1, h⟩ := py_bind_ok h
    obtain ⟨fs, h2, h⟩ := py_bind_ok h
    obtain ⟨m, h3, h4⟩ := py_bind_ok h1
    simp only [py_pure, Except.ok.injEq] at h h4
    subst h h4
    obtain ⟨h5, h6⟩ := ih h2
    refine ⟨by simp [h5], fun i g' hg => ?_⟩
    cases i with
    | zero =>
      simp only [List.getElem?_cons_zero, Option.some.injEq] at hg
      subst hg
      exact ⟨m, h3, rfl⟩
    | succ i => exact h6 i g' (by simpa using hg)

theorem getItem_ok {α : Type} {l : List α} {i : ℕ} {a : α} (h : getItem l i = .ok a) : l[i]? = some a := by
  unfold getItem at h
  split at h
  · next b hb => simp only [Except.ok.injEq] at h; rw [hb, h]
  · simp at h

theorem filterLoop_get : ∀ {ys : List Arr} {i : ℕ} {g : Gaussian} {t : ℝ} {s s' : IEKSState} {rs : List Gaussian},
    filterLoop env K i g t ys s = (.ok rs, s') →
    rs.length = ys.length ∧ s'.fList = s.fList ∧ s'.hList = s.hList ∧ (ys = [] → s' = s) ∧
    (ys ≠ [] → s.fList[i + ys.length - 1]? = some s'.transition ∧ s.hList[i + ys.length - 1]? = some s'.measurement) ∧
    ∀ (j : ℕ) (y : Arr), ys[j]? = some y → ∃ f h prev pred r, s.fList[i + j]? = some f ∧ s.hList[i + j]? = some h ∧
      (g :: rs)[j]? = some prev ∧ rs[j]? = some r ∧
      ({ K with transition := f } : KFS).predict prev (some (t + j * K.dt)) none = .ok pred ∧
      ({ K with measurement := h } : KFS).correct env pred y.squeeze (some (t + j * K.dt)) none = .ok r := by
  intro ys
  induction ys with
  | nil =>
    intro i g t s s' rs h
    simp only [filterLoop, PyM.pure_run, Prod.mk.injEq, Except.ok.injEq] at h
    obtain ⟨rfl, rfl⟩ := h
    exact ⟨rfl, rfl, rfl, fun _ => rfl, fun h => absurd rfl h, fun j y h => by simp at h⟩
  | cons y ys ih =>
    intro i g t s s' rs h
    simp only [filterLoop, PyM.get_bind] at h
    obtain ⟨f, hf, h⟩ := PyM.lift_bind_ok_inv h
    simp only [PyM.get_bind, PyM.modify_bind] at h
    obtain ⟨hm, hh, h⟩ := PyM.lift_bind_ok_inv h
    simp only [PyM.get_bind, PyM.modify_bind] at h
    obtain ⟨p, hp, h⟩ := PyM.lift_bind_ok_inv h
    obtain ⟨c, hc, h⟩ := PyM.lift_bind_ok_inv h
    obtain ⟨rest, s1, h1, h⟩ := PyM.bind_ok_inv h
    simp only [PyM.pure_run, Prod.mk.injEq, Except.ok.injEq] at h
    obtain ⟨rfl, rfl⟩ := h
    have hf := getItem_ok hf
    have hh := getItem_ok hh
    obtain ⟨q1, q2, q3, q4, q5, q6⟩ := ih h1
    simp only at q2 q3 q5 q6
    refine ⟨by simp [q1], q2, q3, fun h => by simp at h, fun _ => ?_, fun j y' hy => ?_⟩
    · by_cases hys : ys = []
      · subst hys
        rw [q4 rfl]
        simpa using ⟨hf, hh⟩
      · have := q5 hys
        simp only [List.length_cons]
        rwa [show i + (ys.length + 1) - 1 = i + 1 + ys.length - 1 by omega]
    · cases j with
      | zero =>
        simp only [List.getElem?_cons_zero, Option.some.injEq] at hy
        subst hy
        exact ⟨f, hm, g, p, c, hf, hh, rfl, rfl, by rw [Nat.cast_zero, zero_mul, add_zero]; exact hp,
          by rw [Nat.cast_zero, zero_mul, add_zero]; exact hc⟩
      | succ j =>
        obtain ⟨f', h', prev, pred, r, w1, w2, w3, w4, w5, w6⟩ := q6 j y' (by simpa using hy)
        have e : t + K.dt + (j : ℝ) * K.dt = t + ((j + 1 : ℕ) : ℝ) * K.dt := by push_cast; ring
        rw [e] at w5 w6
        rw [show i + 1 + j = i + (j + 1) by omega] at w1 w2
        exact ⟨f', h', prev, pred, r, w1, w2, by simpa using w3, by simpa using w4, w5, w6⟩

theorem smoothLoop_get : ∀ {states : List Gaussian} {next : Gaussian} {t : ℝ} {s s' : IEKSState} {rs : List Gaussian},
    next.copyV env = .ok next → smoothLoop env K next t states s = (.ok rs, s') →
    rs.length = states.length ∧ s'.fList = s.fList ∧ s'.hList = s.hList ∧ s'.measurement = s.measurement ∧
    (states = [] → s' = s) ∧ (states ≠ [] → s.fList[1]? = some s'.transition) ∧
    ∀ (j : ℕ) (st : Gaussian), states[j]? = some st → ∃ f prev nx r, s.fList[states.length - j]? = some f ∧
      (next :: rs)[j]? = some prev ∧ rs[j]? = some r ∧ prev.copyV env = .ok nx ∧
      ({ K with transition := f } : KFS).smooth env st nx (some (t - j * K.dt)) none = .ok r := by
  intro states
  induction states with
  | nil =>
    intro next t s s' rs _ h
    simp only [smoothLoop, PyM.pure_run, Prod.mk.injEq, Except.ok.injEq] at h
    obtain ⟨rfl, rfl⟩ := h
    exact ⟨rfl, rfl, rfl, rfl, fun _ => rfl, fun h => absurd rfl h, fun j y h => by simp at h⟩
  | cons st states ih =>
    intro next t s s' rs hn h
    simp only [smoothLoop, PyM.get_bind] at h
    obtain ⟨f, hf, h⟩ := PyM.lift_bind_ok_inv h
    simp only [PyM.get_bind, PyM.modify_bind] at h
    obtain ⟨p, hp, h⟩ := PyM.lift_bind_ok_inv h
    obtain ⟨c, hc, h⟩ := PyM.lift_bind_ok_inv h
    obtain ⟨rest, s1, h1, h⟩ := PyM.bind_ok_inv h
    simp only [PyM.pure_run, Prod.mk.injEq, Except.ok.injEq] at h
    obtain ⟨rfl, rfl⟩ := h
    have hf := getItem_ok hf
    obtain ⟨q1, q2, q3, q4, q5, q6, q7⟩ := ih (copyV_idem hc) h1
    simp only at q2 q3 q4 q6 q7
    refine ⟨by simp [q1], q2, q3, q4, fun h => by simp at h, fun _ => ?_, fun j st' hst => ?_⟩
    · by_cases hs : states = []
      · subst hs
        rw [q5 rfl]
        simpa using hf
      · exact q6 hs
    · cases j with
      | zero =>
        simp only [List.getElem?_cons_zero, Option.some.injEq] at hst
        subst hst
        exact ⟨f, next, next, p, hf, rfl, rfl, hn, by rw [Nat.cast_zero, zero_mul, sub_zero]; exact hp⟩
      | succ j =>
        obtain ⟨f', prev, nx, r, w1, w2, w3, w4, w5⟩ := q7 j st' (by simpa using hst)
        have e : t - K.dt - (j : ℝ) * K.dt = t - ((j + 1 : ℕ) : ℝ) * K.dt := by push_cast; ring
        rw [e] at w5
        have w1' : s.fList[(st :: states).length - (j + 1)]? = some f' := by simpa using w1
        cases j with
        | zero =>
          simp only [List.getElem?_cons_zero, Option.some.injEq] at w2
          subst w2
          rw [copyV_idem hc] at w4
          simp only [Except.ok.injEq] at w4
          subst w4
          exact ⟨f', p, c, r, w1', by simp, by simpa using w3, hc, w5⟩
        | succ j => exact ⟨f', prev, nx, r, w1', by simpa using w2, by simpa using w3, w4, w5⟩

theorem smoother_get {fs rs : List Gaussian} {s s' : IEKSState} (h : smoother env K fs s = (.ok rs, s')) :
    rs.length = fs.length ∧ fs ≠ [] ∧ s'.fList = s.fList ∧ s'.hList = s.hList ∧ s'.measurement = s.measurement ∧
    (fs.length = 1 → s'.transition = s.transition) ∧ (2 ≤ fs.length → s.fList[1]? = some s'.transition) ∧
    (∃ last c, fs.getLast? = some last ∧ rs.getLast? = some c ∧ last.copyV env = .ok c) ∧
    ∀ (i : ℕ) (st : Gaussian), fs[i]? = some st → i + 1 < fs.length →
      ∃ f later nx r, s.fList[i + 1]? = some f ∧ rs[i + 1]? = some later ∧ rs[i]? = some r ∧ later.copyV env = .ok nx ∧
        ({ K with transition := f } : KFS).smooth env st nx (some ((i + 1 : ℝ) * K.dt)) none = .ok r := by
  unfold smoother at h
  cases hrev : fs.reverse with
  | nil => rw [hrev] at h; simp at h
  | cons last states =>
    rw [hrev] at h
    obtain ⟨c, hc, h⟩ := PyM.lift_bind_ok_inv h
    obtain ⟨rest, s1, hr, h⟩ := PyM.bind_ok_inv h
    simp only [PyM.pure_run, Prod.mk.injEq, Except.ok.injEq] at h
    obtain ⟨rfl, rfl⟩ := h
    have hfs : fs = (last :: states).reverse := by rw [← hrev, List.reverse_reverse]
    have hlen : fs.length = states.length + 1 := by rw [hfs]; simp
    obtain ⟨hl, q2, q3, q4, q5, q6, hg⟩ := smoothLoop_get (copyV_idem hc) hr
    refine ⟨by simp [hlen, hl], by rw [hfs]; simp, q2, q3, q4, fun h => ?_, fun h => ?_, ⟨last, c, by simp [hfs], by simp, hc⟩, ?_⟩
    · have : states = [] := List.length_eq_zero_iff.1 (by omega)
      rw [q5 this]
    · exact q6 (by rintro rfl; simp at hlen; omega)
    intro i st hst hi
    have hst' : states[states.length - 1 - i]? = some st := by
      rw [hfs, List.getElem?_reverse (by simp; omega)] at hst
      have : (last :: states).length - 1 - i = (states.length - 1 - i) + 1 := by simp; omega
      rw [this, List.getElem?_cons_succ] at hst
      exact hst
    obtain ⟨f, prev, nx, r, h0, h1, h2, h3, h4⟩ := hg _ st hst'
    refine ⟨f, prev, nx, r, ?_, ?_, ?_, h3, ?_⟩
    · rwa [show states.length - (states.length - 1 - i) = i + 1 by omega] at h0
    · rw [List.getElem?_reverse (by simp; omega)]
      have : (c :: rest).length - 1 - (i + 1) = states.length - 1 - i := by simp [hl]; omega
      rw [this, h1]
    · rw [List.getElem?_reverse (by simp; omega)]
      have : (c :: rest).length - 1 - i = states.length - 1 - i + 1 := by simp [hl]; omega
      rw [this, List.getElem?_cons_succ, h2]
    · have e : ((fs.length : ℝ) - 1) * K.dt - ((states.length - 1 - i : ℕ) : ℝ) * K.dt = (i + 1 : ℝ) * K.dt := by
        have h5 : states.length - 1 - i + (i + 1) = states.length := by omega
        have h6 : ((states.length - 1 - i : ℕ) : ℝ) + (i + 1) = states.length := by exact_mod_cast h5
        rw [hlen, ← sub_mul]
        congr 1
        push_cast
        linarith
      rw [e] at h4
      exact h4

theorem relinearise_get {ps : List Gaussian} {s s' : IEKSState} (h : relinearise env jac K ps s = (.ok (), s')) :
    s'.transition = s.transition ∧ s'.measurement = s.measurement ∧
    lineariseAll env jac K.transition ps = .ok s'.fList ∧ lineariseAll env jac K.measurement ps = .ok s'.hList := by
  unfold relinearise at h
  obtain ⟨fl, h1, h⟩ := PyM.lift_bind_ok_inv h
  simp only [PyM.modify_bind] at h
  obtain ⟨hl, h2, h⟩ := PyM.lift_bind_ok_inv h
  simp only [PyM.modify_run, Prod.mk.injEq, true_and] at h
  subst h
  exact ⟨rfl, rfl, h1, h2⟩

theorem sweeps_last {ys : List Arr} : ∀ {j : ℕ} {st rs : List Gaussian} {s s2 : IEKSState}, sweeps env jac K ys (j + 1) st s = (.ok rs, s2) →
    ∃ ps s1, sweeps env jac K ys j st s = (.ok ps, s1) ∧ sweeps env jac K ys 1 ps s1 = (.ok rs, s2) := by
  intro j
  induction j with
  | zero => intro st rs s s2 h; exact ⟨st, s, rfl, h⟩
  | succ j ih =>
    intro st rs s s2 h
    rw [sweeps] at h
    obtain ⟨fs, s1, h1, h⟩ := PyM.bind_ok_inv h
    obtain ⟨qs, s3, h2, h⟩ := PyM.bind_ok_inv h
    obtain ⟨_, s4, h3, h⟩ := PyM.bind_ok_inv h
    obtain ⟨ps, s5, h4, h5⟩ := ih h
    refine ⟨ps, s5, ?_, h5⟩
    rw [sweeps, PyM.bind_ok h1, PyM.bind_ok h2, PyM.bind_ok h3]
    exact h4

/-- After a call the stored linearisations are those at the returned states. -/
theorem call_lists {ys : List Arr} : ∀ {j : ℕ} {rs : List Gaussian} {s s2 : IEKSState}, call env jac K ys (j + 1) s = (.ok rs, s2) →
    lineariseAll env jac K.transition rs = .ok s2.fList ∧ lineariseAll env jac K.measurement rs = .ok s2.hList := by
  intro j rs s s2 h
  simp only [call, PyM.get_bind] at h
  obtain ⟨fs, h1, h⟩ := PyM.lift_bind_ok_inv h
  obtain ⟨qs, h2, h⟩ := PyM.lift_bind_ok_inv h
  obtain ⟨_, s3, h3, h⟩ := PyM.bind_ok_inv h
  cases j with
  | zero =>
    simp only [Nat.add_sub_cancel, sweeps, PyM.pure_run, Prod.mk.injEq, Except.ok.injEq] at h
    obtain ⟨rfl, rfl⟩ := h
    exact (relinearise_get h3).2.2
  | succ j =>
    rw [Nat.add_sub_cancel] at h
    obtain ⟨ps, s4, h4, h5⟩ := sweeps_last h
    rw [sweeps] at h5
    obtain ⟨fs', s5, h6, h5⟩ := PyM.bind_ok_inv h5
    obtain ⟨qs', s6, h7, h5⟩ := PyM.bind_ok_inv h5
    obtain ⟨_, s7, h8, h5⟩ := PyM.bind_ok_inv h5
    simp only [sweeps, PyM.pure_run, Prod.mk.injEq, Except.ok.injEq] at h5
    obtain ⟨rfl, rfl⟩ := h5
    exact (relinearise_get h8).2.2

/-- A call with `j + 2` iterations is a call with `j + 1` iterations followed by one relinearised sweep. -/
theorem call_last {ys : List Arr} {j : ℕ} {rs : List Gaussian} {s s2 : IEKSState} (h : call env jac K ys (j + 2) s = (.ok rs, s2)) :
    ∃ ps s1 fs sf sg, call env jac K ys (j + 1) s = (.ok ps, s1) ∧ filterLoop env K 0 K.initState 0 ys s1 = (.ok fs, sf) ∧
      smoother env K fs sf = (.ok rs, sg) ∧ relinearise env jac K rs sg = (.ok (), s2) := by
  simp only [call, PyM.get_bind] at h
  obtain ⟨fs, h1, h⟩ := PyM.lift_bind_ok_inv h
  obtain ⟨qs, h2, h⟩ := PyM.lift_bind_ok_inv h
  obtain ⟨_, s3, h3, h⟩ := PyM.bind_ok_inv h
  rw [show j + 2 - 1 = j + 1 by omega] at h
  obtain ⟨ps, s4, h4, h5⟩ := sweeps_last h
  rw [sweeps] at h5
  obtain ⟨fs', s5, h6, h5⟩ := PyM.bind_ok_inv h5
  obtain ⟨qs', s6, h7, h5⟩ := PyM.bind_ok_inv h5
  obtain ⟨_, s7, h8, h5⟩ := PyM.bind_ok_inv h5
  simp only [sweeps, PyM.pure_run, Prod.mk.injEq, Except.ok.injEq] at h5
  obtain ⟨rfl, rfl⟩ := h5
  refine ⟨ps, s4, fs', s5, s6, ?_, h6, h7, h8⟩
  simp only [call, PyM.get_bind, h1, h2, PyM.lift_ok_bind]
  rw [PyM.bind_ok h3]
  exact h4

/-! ## C29 -/

/-- **C29.** With `num_iter ≤ 1` the call leaves the object's transition and measurement functions as they were, whatever happens. -/
theorem C29_single_sweep_reusable (env : Env) (jac : Jac) (K : IEKS) (ys : List Arr) (numIter : ℕ) (h : numIter ≤ 1) (s : IEKSState) :
    (call env jac K ys numIter s).2.transition = s.transition ∧ (call env jac K ys numIter s).2.measurement = s.measurement := by
  have e : numIter - 1 = 0 := by omega
  have hrel : ∀ ps, (relinearise env jac K ps s).2.transition = s.transition ∧ (relinearise env jac K ps s).2.measurement = s.measurement := by
    intro ps
    simp only [relinearise]
    cases lineariseAll env jac K.transition ps with
    | error e => simp
    | ok fl =>
      cases lineariseAll env jac K.measurement ps with
      | error e => simp
      | ok hl => simp
  simp only [call, PyM.get_bind, e]
  cases (K.current s).kalmanFilter env ys none 0 none with
  | error e => simp
  | ok fs =>
    simp only [PyM.lift_ok_bind]
    cases (K.current s).kalmanSmoother env fs none with
    | error e => simp
    | ok ps =>
      simp only [PyM.lift_ok_bind]
      have := hrel ps
      rcases hr : relinearise env jac K ps s with ⟨r, s'⟩
      rw [hr] at this
      cases r with
      | error e => rw [PyM.bind_error hr]; exact this
      | ok a => rw [PyM.bind_ok hr]; exact this

/-- **C29.** After a successful call with `num_iter ≥ 2` the object holds linearisations of the system functions at the estimates of the
sweep before the last: the measurement at the last state, the transition at the second state (the only one if there is one). The next
call's first sweep runs with these functions. -/
theorem C29_state_after_call (env : Env) (jac : Jac) (K : IEKS) (ys : List Arr) (j : ℕ) (s s2 : IEKSState) (rs : List Gaussian)
    (h : call env jac K ys (j + 2) s = (.ok rs, s2)) :
    (∃ ps s1 g g' m m', call env jac K ys (j + 1) s = (.ok ps, s1) ∧ ps.length = ys.length ∧ ps[min 1 (ys.length - 1)]? = some g ∧
      ps[ys.length - 1]? = some g' ∧ g.meanA env = .ok m ∧ g'.meanA env = .ok m' ∧
      s2.transition = linearise jac K.transition m ∧ s2.measurement = linearise jac K.measurement m') ∧
    ∀ ys', call env jac K ys' 1 s2 = (do
      let fs ← PyM.lift (({ K with transition := s2.transition, measurement := s2.measurement } : KFS).kalmanFilter env ys' none 0 none)
      let ps ← PyM.lift (({ K with transition := s2.transition, measurement := s2.measurement } : KFS).kalmanSmoother env fs none)
      relinearise env jac K ps
      return ps : PyM IEKSState (List Gaussian)) s2 := by
  refine ⟨?_, fun ys' => rfl⟩
  obtain ⟨ps, s1, fs, sf, sg, h1, h2, h3, h4⟩ := call_last h
  obtain ⟨hf1, hh1⟩ := call_lists h1
  obtain ⟨lf, gf⟩ := lineariseAll_get hf1
  obtain ⟨lh, gh⟩ := lineariseAll_get hh1
  obtain ⟨a1, a2, a3, -, a5, -⟩ := filterLoop_get h2
  obtain ⟨b1, b2, b3, b4, b5, b6, b7, -⟩ := smoother_get h3
  obtain ⟨c1, c2, -⟩ := relinearise_get h4
  have hne : ys ≠ [] := by
    rintro rfl
    exact b2 (List.length_eq_zero_iff.1 a1)
  obtain ⟨d1, d2⟩ := a5 hne
  rw [zero_add] at d1 d2
  -- the list of the previous sweep has the right length
  have hps : ps.length = ys.length := by
    have p1 : ∀ {j : ℕ} {ps : List Gaussian} {s s1 : IEKSState}, call env jac K ys (j + 1) s = (.ok ps, s1) → ps.length = ys.length := by
      intro j ps s s1 h
      cases j with
      | zero =>
        simp only [call, PyM.get_bind] at h
        obtain ⟨fs, h1, h⟩ := PyM.lift_bind_ok_inv h
        obtain ⟨qs, h2, h⟩ := PyM.lift_bind_ok_inv h
        obtain ⟨_, s3, h3, h⟩ := PyM.bind_ok_inv h
        simp only [zero_add, Nat.sub_self, sweeps, PyM.pure_run, Prod.mk.injEq, Except.ok.injEq] at h
        obtain ⟨rfl, rfl⟩ := h
        rw [(KFS.kalmanSmoother_get h2).1]
        exact KFS.filterLoop_length h1
      | succ j =>
        obtain ⟨ps', s1', fs', sf', sg', h1', h2', h3', h4'⟩ := call_last h
        rw [(smoother_get h3').1, (filterLoop_get h2').1]
    exact p1 h1
  have hpos : 0 < ys.length := List.length_pos_iff.2 hne
  have hgl : ys.length - 1 < ps.length := by omega
  obtain ⟨m', hm', hh⟩ := gh _ _ (List.getElem?_eq_getElem hgl)
  rw [hh] at d2
  have htr : s1.fList[min 1 (ys.length - 1)]? = some s2.transition := by
    rw [c1]
    by_cases h1' : ys.length = 1
    · rw [b6 (by omega)]
      rw [h1'] at d1 ⊢
      exact d1
    · rw [show min 1 (ys.length - 1) = 1 by omega, ← a2]
      exact b7 (by omega)
  have hmin : min 1 (ys.length - 1) < ps.length := by omega
  obtain ⟨m, hm, hfm⟩ := gf _ _ (List.getElem?_eq_getElem hmin)
  refine ⟨ps, s1, ps[min 1 (ys.length - 1)], ps[ys.length - 1], m, m', h1, hps, List.getElem?_eq_getElem hmin, List.getElem?_eq_getElem hgl,
    hm, hm', ?_, ?_⟩
  · rw [hfm] at htr
    exact (Option.some.inj htr).symm
  · rw [c2, b5]
    exact (Option.some.inj d2).symm

/-! ## C30 -/

/-- **C30.** What each sweep after the first computes, state by state.  With `ps` the estimates of the previous sweep, both the filter's
prediction of state `i` and the smoothing step from state `i` back to `i - 1` use the transition linearised at the mean of `ps[i]` — the
*target* of that transition — and the correction of state `i` uses the measurement linearised at the mean of `ps[i]`.  The last
smoothed state is the last filtered one. -/
theorem C30_linearisation_points (env : Env) (jac : Jac) (K : IEKS) (ys : List Arr) (j : ℕ) (s s2 : IEKSState) (rs : List Gaussian)
    (h : call env jac K ys (j + 2) s = (.ok rs, s2)) :
    ∃ ps s1 fs, call env jac K ys (j + 1) s = (.ok ps, s1) ∧ fs.length = ys.length ∧ rs.length = ys.length ∧
      (∀ (i : ℕ) (y : Arr), ys[i]? = some y → ∃ g m prev pred r, ps[i]? = some g ∧ g.meanA env = .ok m ∧
        (K.initState :: fs)[i]? = some prev ∧ fs[i]? = some r ∧
        ({ K with transition := linearise jac K.transition m } : KFS).predict prev (some (i * K.dt)) none = .ok pred ∧
        ({ K with measurement := linearise jac K.measurement m } : KFS).correct env pred y.squeeze (some (i * K.dt)) none = .ok r) ∧
      (∀ (i : ℕ) (st : Gaussian), fs[i]? = some st → i + 1 < fs.length → ∃ g m later nx r, ps[i + 1]? = some g ∧ g.meanA env = .ok m ∧
        rs[i + 1]? = some later ∧ rs[i]? = some r ∧ later.copyV env = .ok nx ∧
        ({ K with transition := linearise jac K.transition m } : KFS).smooth env st nx (some ((i + 1 : ℝ) * K.dt)) none = .ok r) ∧
      ∃ last c, fs.getLast? = some last ∧ rs.getLast? = some c ∧ last.copyV env = .ok c := by
  obtain ⟨ps, s1, fs, sf, sg, h1, h2, h3, h4⟩ := call_last h
  obtain ⟨hf1, hh1⟩ := call_lists h1
  obtain ⟨lf, gf⟩ := lineariseAll_get hf1
  obtain ⟨lh, gh⟩ := lineariseAll_get hh1
  obtain ⟨a1, a2, a3, -, -, a6⟩ := filterLoop_get h2
  obtain ⟨b1, -, b3, b4, -, -, -, b7, b8⟩ := smoother_get h3
  refine ⟨ps, s1, fs, h1, a1, by rw [b1, a1], ?_, ?_, b7⟩
  · intro i y hy
    obtain ⟨f, hm, prev, pred, r, w1, w2, w3, w4, w5, w6⟩ := a6 i y hy
    rw [zero_add] at w1 w2
    rw [zero_add] at w5 w6
    obtain ⟨hi, -⟩ := List.getElem?_eq_some_iff.1 w1
    rw [lf] at hi
    obtain ⟨m, hmm, hfm⟩ := gf i _ (List.getElem?_eq_getElem hi)
    obtain ⟨m', hmm', hhm⟩ := gh i _ (List.getElem?_eq_getElem hi)
    rw [hmm] at hmm'
    simp only [Except.ok.injEq] at hmm'
    subst hmm'
    rw [hfm] at w1
    rw [hhm] at w2
    rw [← Option.some.inj w1] at w5
    rw [← Option.some.inj w2] at w6
    exact ⟨_, m, prev, pred, r, List.getElem?_eq_getElem hi, hmm, w3, w4, w5, w6⟩
  · intro i st hst hi
    obtain ⟨f, later, nx, r, w1, w2, w3, w4, w5⟩ := b8 i st hst hi
    rw [a2] at w1
    obtain ⟨hi', -⟩ := List.getElem?_eq_some_iff.1 w1
    rw [lf] at hi'
    obtain ⟨m, hmm, hfm⟩ := gf (i + 1) _ (List.getElem?_eq_getElem hi')
    rw [hfm] at w1
    rw [← Option.some.inj w1] at w5
    exact ⟨_, m, later, nx, r, List.getElem?_eq_getElem hi', hmm, w2, w3, w4, w5⟩

/-! ## Concrete runs: scalar systems, one measurement -/

/-- The entrywise application of a real function as a system function. -/
noncomputable def mapSys (F : ℝ → ℝ) : SysFunc := fun x _ _ => .ok (x.map F)

theorem mapSys_vec (F : ℝ → ℝ) (t u : Option ℝ) : VecFunc (fun z => mapSys F z t u) (fun x : Fin 1 → ℝ => v1 (F (x 0))) := by
  intro x
  simp only [mapSys, Arr.map]
  rw [v1_ext x]; rfl

/-- A function of one variable that is `F` on vectors of length one. -/
def ScalarFun (f : SysFunc) (F : ℝ → ℝ) : Prop := VecFunc (fun z => f z (some 0) none) (fun x : Fin 1 → ℝ => v1 (F (x 0)))

theorem ScalarFun.linearise (hjac : CorrectJac jac) {f : SysFunc} {F : ℝ → ℝ} (hf : ScalarFun f F) {x0 d : ℝ} (hF : HasDerivAt F d x0) :
    ScalarFun (linearise jac f (.v (v1 x0))) (fun x => F x0 + d * (x - x0)) := by
  have := linearise_vec hjac hf (hasFDerivAt_v1 hF)
  intro x
  rw [this x, v1_ext x]
  congr 2
  ext i
  simp [mulVec, dotProduct]

/-- One prediction and correction of a scalar system by the extended Kalman filter, and the smoother on a single state. -/
theorem scalar_sweep (hjac : CorrectJac jac) {K : KFS} (hT : K.transform = taylorTransform env jac)
    (hM : K.measTransform = taylorTransform env jac) {F H : ℝ → ℝ} (hF : ScalarFun K.transition F) (hH : ScalarFun K.measurement H)
    {m p a d q r y : ℝ} (ha : HasDerivAt F a m) (hd : HasDerivAt H d (F m)) (hQ : K.Q = .m (m1 q)) (hR : K.R = .m (m1 r))
    (hi : K.initState = sG m p) (hS : d * (a * p * a + q) * d + r ≠ 0) :
    K.predict K.initState (some 0) none = .ok (sG (F m) (a * p * a + q)) ∧
    K.correct env (sG (F m) (a * p * a + q)) (.s y) (some 0) none =
      .ok (sG (F m + (a * p * a + q) * d / (d * (a * p * a + q) * d + r) * (y - H (F m)))
        ((a * p * a + q) - (a * p * a + q) * d / (d * (a * p * a + q) * d + r) * ((a * p * a + q) * d))) := by
  constructor
  · rw [hi]
    exact KFS.predict_scalar (by rw [hT]; exact taylor_scalar hjac hF ha) (isVec_s _) hQ
  · exact KFS.correct_scalar (by rw [hM]; exact taylor_scalar hjac hH hd) (isVec_s _) (isVec_s y) hR hS

theorem smoother_single (K : KFS) (m c : ℝ) : K.kalmanSmoother env [sG m c] none = .ok [sG m c] := by
  simp [KFS.kalmanSmoother, KFS.smoothLoop]

/-- A whole call with one measurement, with any functions stored in the object. -/
theorem call_single (hjac : CorrectJac jac) {K : IEKS} (hT : K.transform = taylorTransform env jac)
    (hM : K.measTransform = taylorTransform env jac) {s : IEKSState} {F H : ℝ → ℝ} (hF : ScalarFun s.transition F)
    (hH : ScalarFun s.measurement H) {m p a d q r y : ℝ} (ha : HasDerivAt F a m) (hd : HasDerivAt H d (F m)) (hQ : K.Q = .m (m1 q))
    (hR : K.R = .m (m1 r)) (hi : K.initState = sG m p) (hS : d * (a * p * a + q) * d + r ≠ 0) {M C : ℝ}
    (hMv : F m + (a * p * a + q) * d / (d * (a * p * a + q) * d + r) * (y - H (F m)) = M)
    (hC : (a * p * a + q) - (a * p * a + q) * d / (d * (a * p * a + q) * d + r) * ((a * p * a + q) * d) = C) (j : ℕ) :
    call env jac K [.s y] (j + 1) s = sweeps env jac K [.s y] j [sG M C] { s with
      fList := [linearise jac K.transition (.v (v1 M))], hList := [linearise jac K.measurement (.v (v1 M))] } := by
  obtain ⟨h1, h2⟩ := scalar_sweep (K := K.current s) (env := env) hjac hT hM hF hH (y := y) ha hd hQ hR hi hS
  rw [hMv, hC] at h2
  have hfil : (K.current s).kalmanFilter env [.s y] none 0 none = .ok [sG M C] := by
    simp only [KFS.kalmanFilter, Option.getD_none, KFS.filterLoop, h1, ok_bind, Arr.squeeze_s, h2]
    rfl
  have hlin : ∀ f, lineariseAll env jac f [sG M C] = .ok [linearise jac f (.v (v1 M))] := by
    intro f
    simp only [lineariseAll, List.mapM_cons, List.mapM_nil, (sG_moments env M C).meanA, ok_bind, py_pure]
  simp only [call, PyM.get_bind, hfil, smoother_single, PyM.lift_ok_bind, relinearise, hlin]
  rfl

/-- A further sweep with one measurement. -/
theorem sweep_single (hjac : CorrectJac jac) {K : IEKS} (hT : K.transform = taylorTransform env jac)
    (hM : K.measTransform = taylorTransform env jac) {s : IEKSState} {f h : SysFunc} (hfl : s.fList = [f]) (hhl : s.hList = [h])
    {F H : ℝ → ℝ} (hF : ScalarFun f F) (hH : ScalarFun h H) {m p a d q r y : ℝ} (ha : HasDerivAt F a m) (hd : HasDerivAt H d (F m))
    (hQ : K.Q = .m (m1 q)) (hR : K.R = .m (m1 r)) (hi : K.initState = sG m p) (hS : d * (a * p * a + q) * d + r ≠ 0) {M C : ℝ}
    (hMv : F m + (a * p * a + q) * d / (d * (a * p * a + q) * d + r) * (y - H (F m)) = M)
    (hC : (a * p * a + q) - (a * p * a + q) * d / (d * (a * p * a + q) * d + r) * ((a * p * a + q) * d) = C) (j : ℕ) (st : List Gaussian) :
    sweeps env jac K [.s y] (j + 1) st s = sweeps env jac K [.s y] j [sG M C]
      ⟨f, h, [linearise jac K.transition (.v (v1 M))], [linearise jac K.measurement (.v (v1 M))]⟩ := by
  have hF' : ScalarFun (K.current { transition := f, measurement := h, fList := [f], hList := [h] }).transition F := hF
  have hH' : ScalarFun (K.current { transition := f, measurement := h, fList := [f], hList := [h] }).measurement H := hH
  obtain ⟨h1, h2⟩ := scalar_sweep (K := K.current { transition := f, measurement := h, fList := [f], hList := [h] }) (env := env) hjac hT hM hF' hH'
    (y := y) ha hd hQ hR hi hS
  rw [hMv, hC] at h2
  have h1' : (K.current { transition := f, measurement := h, fList := [f], hList := [h] }).predict K.initState (some 0) none =
    .ok (sG (F m) (a * p * a + q)) := h1
  have hlin : ∀ f, lineariseAll env jac f [sG M C] = .ok [linearise jac f (.v (v1 M))] := by
    intro f
    simp only [lineariseAll, List.mapM_cons, List.mapM_nil, (sG_moments env M C).meanA, ok_bind, py_pure]
  obtain ⟨st0, sm0, fl0, hl0⟩ := s
  simp only at hfl hhl
  subst hfl hhl
  have hfil : filterLoop env K 0 K.initState 0 [.s y] { transition := st0, measurement := sm0, fList := [f], hList := [h] } =
      (.ok [sG M C], { transition := f, measurement := h, fList := [f], hList := [h] }) := by
    simp only [filterLoop, PyM.get_bind, getItem, List.getElem?_cons_zero, PyM.lift_ok_bind, PyM.modify_bind, h1', Arr.squeeze_s, h2]
    rfl
  have hsm : ∀ s', smoother env K [sG M C] s' = (.ok [sG M C], s') := by
    intro s'
    simp only [smoother, List.reverse_cons, List.reverse_nil, List.nil_append, sG_copyV, PyM.lift_ok_bind, smoothLoop]
    rfl
  rw [sweeps, PyM.bind_ok hfil, PyM.bind_ok (hsm _)]
  simp only [relinearise, hlin]
  rfl

/-- A scalar system: transition `F`, measurement `H`, unit noises except the measurement noise `r`, prior `N(m, 1)`. -/
noncomputable def scalarSys (F H : ℝ → ℝ) (r m : ℝ) : Sys :=
  { transition := mapSys F, measurement := mapSys H, Q := .m (m1 1), R := .m (m1 r), initState := sG m 1, dt := 1 }

/-- **C29**, counterexample: a random walk observed through `x²`.  On a fresh object one sweep gives 3 and two sweeps give 2.8.  After
that call the same object returns 2.8 for one sweep, and something else than 2.8 for two. -/
theorem C29_second_call_differs (env : Env) (hjac : CorrectJac jac) :
    ∃ c1 c2 c3 s1 s2 s3 s4 M, call env jac (init env jac (scalarSys id (· ^ 2) 8 1)).1 [.s 9] 1 (init env jac (scalarSys id (· ^ 2) 8 1)).2 =
        (.ok [sG 3 c1], s1) ∧
      call env jac (init env jac (scalarSys id (· ^ 2) 8 1)).1 [.s 9] 2 (init env jac (scalarSys id (· ^ 2) 8 1)).2 =
        (.ok [sG (14 / 5) c2], s2) ∧
      call env jac (init env jac (scalarSys id (· ^ 2) 8 1)).1 [.s 9] 1 s2 = (.ok [sG (14 / 5) c2], s3) ∧
      call env jac (init env jac (scalarSys id (· ^ 2) 8 1)).1 [.s 9] 2 s2 = (.ok [sG M c3], s4) ∧ M ≠ 14 / 5 := by
  set K := (init env jac (scalarSys id (· ^ 2) 8 1)).1
  set s0 := (init env jac (scalarSys id (· ^ 2) 8 1)).2
  have hid : ∀ x, HasDerivAt (id : ℝ → ℝ) 1 x := hasDerivAt_id
  have hsq : ∀ x, HasDerivAt (fun x : ℝ => x ^ 2) (2 * x) x := fun x => by simpa using hasDerivAt_pow 2 x
  have hlin : ∀ c d x0 x, HasDerivAt (fun x : ℝ => c + d * (x - x0)) d x := fun c d x0 x => by
    simpa using (((hasDerivAt_id x).sub_const x0).const_mul d).const_add c
  have hF0 : ScalarFun K.transition id := mapSys_vec id (some 0) none
  have hH0 : ScalarFun K.measurement (fun x => x ^ 2) := mapSys_vec (· ^ 2) (some 0) none
  have hT : K.transform = taylorTransform env jac := rfl
  have hM : K.measTransform = taylorTransform env jac := rfl
  have hQ : K.Q = .m (m1 1) := rfl
  have hR : K.R = .m (m1 8) := rfl
  have hi : K.initState = sG 1 1 := rfl
  have first : ∀ j, call env jac K [.s 9] (j + 1) s0 = sweeps env jac K [.s 9] j [sG 3 1] { s0 with
      fList := [linearise jac K.transition (.v (v1 3))], hList := [linearise jac K.measurement (.v (v1 3))] } := fun j =>
    call_single (env := env) (a := 1) (d := 2 * 1) hjac hT hM hF0 hH0 (hid 1) (hsq 1) hQ hR hi (by norm_num)
      (by norm_num) (by norm_num) j
  have hF3 := hF0.linearise hjac (hid 3)
  have hH3 := hH0.linearise hjac (hsq 3)
  have second : ∀ j st s, s.fList = [linearise jac K.transition (.v (v1 3))] → s.hList = [linearise jac K.measurement (.v (v1 3))] →
      sweeps env jac K [.s 9] (j + 1) st s = sweeps env jac K [.s 9] j [sG (14 / 5) (1 / 5)] {
        transition := linearise jac K.transition (.v (v1 3)), measurement := linearise jac K.measurement (.v (v1 3)),
        fList := [linearise jac K.transition (.v (v1 (14 / 5)))], hList := [linearise jac K.measurement (.v (v1 (14 / 5)))] } :=
    fun j st s e1 e2 => sweep_single (env := env) hjac hT hM e1 e2 hF3 hH3 (hlin _ _ _ _) (hlin _ _ _ _) hQ hR hi (by norm_num)
      (by norm_num) (by norm_num) j st
  have again : ∀ (s : IEKSState) j, s.transition = linearise jac K.transition (.v (v1 3)) → s.measurement = linearise jac K.measurement (.v (v1 3)) →
      call env jac K [.s 9] (j + 1) s = sweeps env jac K [.s 9] j [sG (14 / 5) (1 / 5)] { s with
        fList := [linearise jac K.transition (.v (v1 (14 / 5)))], hList := [linearise jac K.measurement (.v (v1 (14 / 5)))] } :=
    fun s j e1 e2 => call_single (env := env) hjac hT hM (by rw [e1]; exact hF3) (by rw [e2]; exact hH3) (hlin _ _ _ _) (hlin _ _ _ _) hQ hR hi (by norm_num)
      (by norm_num) (by norm_num) j
  have hF4 := hF0.linearise hjac (hid (14 / 5))
  have hH4 := hH0.linearise hjac (hsq (14 / 5))
  have third : ∀ j st s, s.fList = [linearise jac K.transition (.v (v1 (14 / 5)))] → s.hList = [linearise jac K.measurement (.v (v1 (14 / 5)))] →
      ∃ M C s', sweeps env jac K [.s 9] (j + 1) st s = sweeps env jac K [.s 9] j [sG M C] s' ∧ M ≠ 14 / 5 :=
    fun j st s e1 e2 => ⟨_, _, _, sweep_single (env := env) hjac hT hM e1 e2 hF4 hH4 (hlin _ _ _ _) (hlin _ _ _ _) hQ hR hi (by norm_num)
      rfl rfl j st, by norm_num⟩
  obtain ⟨M, C, s', h3, hne⟩ := third 0 [sG (14 / 5) (1 / 5)] { ({
        transition := linearise jac K.transition (.v (v1 3)), measurement := linearise jac K.measurement (.v (v1 3)),
        fList := [linearise jac K.transition (.v (v1 (14 / 5)))], hList := [linearise jac K.measurement (.v (v1 (14 / 5)))] } : IEKSState) with
        fList := [linearise jac K.transition (.v (v1 (14 / 5)))], hList := [linearise jac K.measurement (.v (v1 (14 / 5)))] } rfl rfl
  refine ⟨1, 1 / 5, C, _, _, _, s', M, first 0, (first 1).trans (second 0 _ _ rfl rfl), again _ 0 rfl rfl, (again _ 1 rfl rfl).trans h3, hne⟩

/-- **C30**, counterexample: transition `x²`, direct observation, prior mean 2 and measurement 4.  The data fit the model without any
noise and one sweep returns the exact trajectory point 4; the second sweep, linearising the transition at 4 instead of at the estimate
of the state it starts from, moves the estimate to 130/33. -/
theorem C30_leaves_exact_trajectory (env : Env) (hjac : CorrectJac jac) :
    ∃ c1 c2 s1 s2, call env jac (init env jac (scalarSys (· ^ 2) id 1 2)).1 [.s 4] 1 (init env jac (scalarSys (· ^ 2) id 1 2)).2 =
        (.ok [sG 4 c1], s1) ∧
      call env jac (init env jac (scalarSys (· ^ 2) id 1 2)).1 [.s 4] 2 (init env jac (scalarSys (· ^ 2) id 1 2)).2 =
        (.ok [sG (130 / 33) c2], s2) := by
  set K := (init env jac (scalarSys (· ^ 2) id 1 2)).1
  set s0 := (init env jac (scalarSys (· ^ 2) id 1 2)).2
  have hid : ∀ x, HasDerivAt (id : ℝ → ℝ) 1 x := hasDerivAt_id
  have hsq : ∀ x, HasDerivAt (fun x : ℝ => x ^ 2) (2 * x) x := fun x => by simpa using hasDerivAt_pow 2 x
  have hlin : ∀ c d x0 x, HasDerivAt (fun x : ℝ => c + d * (x - x0)) d x := fun c d x0 x => by
    simpa using (((hasDerivAt_id x).sub_const x0).const_mul d).const_add c
  have hF0 : ScalarFun K.transition (fun x => x ^ 2) := mapSys_vec (· ^ 2) (some 0) none
  have hH0 : ScalarFun K.measurement id := mapSys_vec id (some 0) none
  have hT : K.transform = taylorTransform env jac := rfl
  have hM : K.measTransform = taylorTransform env jac := rfl
  have hQ : K.Q = .m (m1 1) := rfl
  have hR : K.R = .m (m1 1) := rfl
  have hi : K.initState = sG 2 1 := rfl
  have first : ∀ j, call env jac K [.s 4] (j + 1) s0 = sweeps env jac K [.s 4] j [sG 4 (17 / 18)] { s0 with
      fList := [linearise jac K.transition (.v (v1 4))], hList := [linearise jac K.measurement (.v (v1 4))] } := fun j =>
    call_single (env := env) (a := 2 * 2) (d := 1) hjac hT hM hF0 hH0 (hsq 2) (hid _) hQ hR hi (by norm_num)
      (by norm_num) (by norm_num) j
  have hF4 := hF0.linearise hjac (hsq 4)
  have hH4 := hH0.linearise hjac (hid 4)
  have second : ∀ j st s, s.fList = [linearise jac K.transition (.v (v1 4))] → s.hList = [linearise jac K.measurement (.v (v1 4))] →
      sweeps env jac K [.s 4] (j + 1) st s = sweeps env jac K [.s 4] j [sG (130 / 33) (65 / 66)] {
        transition := linearise jac K.transition (.v (v1 4)), measurement := linearise jac K.measurement (.v (v1 4)),
        fList := [linearise jac K.transition (.v (v1 (130 / 33)))], hList := [linearise jac K.measurement (.v (v1 (130 / 33)))] } :=
    fun j st s e1 e2 => sweep_single (env := env) hjac hT hM e1 e2 hF4 hH4 (hlin _ _ _ _) (hlin _ _ _ _) hQ hR hi (by norm_num)
      (by norm_num) (by norm_num) j st
  exact ⟨_, _, _, _, first 0, (first 1).trans (second 0 _ _ rfl rfl)⟩

/-- The contract of `jacobian` is met by `exactJac`, so the runs above exist; `C29_state_after_call` and `C30_linearisation_points`
apply to them. -/
example : ∃ rs s2, call calmEnv exactJac (init calmEnv exactJac (scalarSys (· ^ 2) id 1 2)).1 [.s 4] 2
    (init calmEnv exactJac (scalarSys (· ^ 2) id 1 2)).2 = (.ok rs, s2) := by
  obtain ⟨c1, c2, s1, s2, h1, h2⟩ := C30_leaves_exact_trajectory calmEnv exactJac_correct
  exact ⟨_, _, h2⟩

/-- Affine systems for C28 exist: a shear in the plane with one observed coordinate. -/
example (numIter : ℕ) : ∃ rs, (call calmEnv exactJac
    (init calmEnv exactJac ⟨affineSys !![1, 2; 0, 1] ![5, 6], affineSys !![1, 0] ![1], .m (diagonal ![1, 1]), .m (diagonal fun _ : Fin 1 => 1),
      Gaussian.ofMoment (.v ![1, 1]) (.m (diagonal ![2, 3])), 1⟩).1 [.s 3, .s 4] numIter
    (init calmEnv exactJac ⟨affineSys !![1, 2; 0, 1] ![5, 6], affineSys !![1, 0] ![1], .m (diagonal ![1, 1]), .m (diagonal fun _ : Fin 1 => 1),
      Gaussian.ofMoment (.v ![1, 1]) (.m (diagonal ![2, 3])), 1⟩).2).1 = .ok rs := by
  obtain ⟨fs, rs, -, -, h⟩ := C28_affine_iterations_agree (A := fun _ => !![1, 2; 0, 1]) (b := fun _ => ![5, 6]) (H := fun _ => !![1, 0])
    (c := fun _ => ![1]) calmEnv exactJac_correct
    ⟨affineSys !![1, 2; 0, 1] ![5, 6], affineSys !![1, 0] ![1], .m (diagonal ![1, 1]), .m (diagonal fun _ : Fin 1 => 1),
      Gaussian.ofMoment (.v ![1, 1]) (.m (diagonal ![2, 3])), 1⟩ (.inl fun _ => affineFunc_vec _ _) (.inl fun _ => affineFunc_vec _ _) rfl
    (PosDef.diagonal fun i => by fin_cases i <;> norm_num) rfl (posDef_scalar one_pos)
    (hasMoments_ofMoment _ _ _) posDef_two [.s 3, .s 4] (by simp) (by
      intro y hy
      simp only [List.mem_cons, List.not_mem_nil, or_false] at hy
      rcases hy with rfl | rfl <;> exact ⟨v1 _, isVec_s _⟩)
  exact ⟨rs, h numIter⟩

end IEKS

end Verif

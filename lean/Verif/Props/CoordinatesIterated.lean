import Verif.Props.CoordinatesRules

/-!
# The iterated extended filter and smoother in other coordinates and units (C90)
-/

namespace Verif

open Matrix Gaussian

variable {env : Env} {jac : Jac} {n k : ℕ} {c : Chart n} {d : Chart k} {Q : Matrix (Fin n) (Fin n) ℝ} {R : Matrix (Fin k) (Fin k) ℝ}

/-! ## The iterated extended Kalman filter -/

section iekf

/-- At every time both measurement functions return rows, are differentiable, and the second is the first in the coordinates `c`
(argument) and `d` (value). -/
def SameRowFunc (c : Chart n) (d : Chart k) (f f' : SysFunc) : Prop :=
  ∀ t, ∃ F F' : (Fin n → ℝ) → Fin k → ℝ, RowFunc (fun z => f z (some t) none) F ∧ RowFunc (fun z => f' z (some t) none) F' ∧
    Differentiable ℝ F ∧ ∀ x, F' (c.pt x) = d.pt (F x)

theorem iekf_alg (P : Matrix (Fin n) (Fin n) ℝ) (J : Matrix (Fin k) (Fin n) ℝ) :
    gainMat (c.cov P) (d.A * J * c.A⁻¹) (d.cov R) = c.A * gainMat P J R * d.A⁻¹ ∧
      condCov (c.cov P) (d.A * J * c.A⁻¹) (d.cov R) = c.cov (condCov P J R) := by
  have ht : IsUnit c.Aᵀ.det := by rw [det_transpose]; exact c.isUnit
  have hd : IsUnit d.Aᵀ.det := by rw [det_transpose]; exact d.isUnit
  have e1 : (d.A * J * c.A⁻¹) * c.cov P * (d.A * J * c.A⁻¹)ᵀ + d.cov R = d.cov (J * P * Jᵀ + R) := by
    rw [d.cov_add]
    congr 1
    simp only [Chart.cov, transpose_mul, transpose_nonsing_inv, Matrix.mul_assoc, mul_nonsing_inv_cancel_left _ _ ht,
      nonsing_inv_mul_cancel_left _ _ c.isUnit]
  have e2 : c.cov P * (d.A * J * c.A⁻¹)ᵀ = c.A * (P * Jᵀ) * d.Aᵀ := by
    simp only [Chart.cov, transpose_mul, transpose_nonsing_inv, Matrix.mul_assoc, mul_nonsing_inv_cancel_left _ _ ht]
  have e3 : gainMat (c.cov P) (d.A * J * c.A⁻¹) (d.cov R) = c.A * gainMat P J R * d.A⁻¹ := by
    rw [gainMat, e1, e2, gainMat]
    generalize J * P * Jᵀ + R = S
    rw [Chart.cov, Matrix.mul_inv_rev, Matrix.mul_inv_rev]
    simp only [Matrix.mul_assoc, mul_nonsing_inv_cancel_left _ _ hd]
  refine ⟨e3, ?_⟩
  rw [condCov, e1, e2, condCov, c.cov_sub]
  generalize J * P * Jᵀ + R = S
  congr 1
  rw [Chart.cov, Chart.cov, Matrix.mul_inv_rev, Matrix.mul_inv_rev]
  simp only [transpose_mul, transpose_transpose, Matrix.mul_assoc, nonsing_inv_mul_cancel_left _ _ d.isUnit, mul_nonsing_inv_cancel_left _ _ hd]

/-- **C90.** The iterated extended Kalman filter, with any number of iterations, in other coordinates or units: the results are the old
ones in the new coordinates. -/
theorem C90_iterated_filter (hjac : CorrectJac jac) {sys sys' : Sys} {μ : Fin n → ℝ} {P : Matrix (Fin n) (Fin n) ℝ}
    (hs : SameNoise env c d Q R μ P sys sys') (hf : SameFunc c c sys.transition sys'.transition)
    (hh : SameRowFunc c d sys.measurement sys'.measurement) {ys ys' : List Arr} (hys : List.Forall₂ (SameMeas d) ys ys') (numIter : ℕ)
    (tZero : ℝ) :
    ∃ rs rs', (KFS.init (taylorTransform env jac) sys none).iekf env jac ys numIter none tZero none = .ok rs ∧
      (KFS.init (taylorTransform env jac) sys' none).iekf env jac ys' numIter none tZero none = .ok rs' ∧ rs.length = ys.length ∧
      List.Forall₂ (SameState c) rs rs' := by
  set K := KFS.init (taylorTransform env jac) sys none with hK
  set K' := KFS.init (taylorTransform env jac) sys' none with hK'
  have hg : HasMoments env ((none : Option Gaussian).getD K.initState) μ P := hs.init
  have hg' : HasMoments env ((none : Option Gaussian).getD K'.initState) (c.pt μ) (c.cov P) := hs.init'
  have hP := hs.posP
  obtain ⟨hQ, hQ', hR, hR', -, -, hdt, posQ, posR, -⟩ := hs
  have hdt : K'.dt = K.dt := hdt
  unfold KFS.iekf
  generalize (none : Option Gaussian).getD K.initState = g at hg
  generalize (none : Option Gaussian).getD K'.initState = g' at hg'
  induction hys generalizing g g' tZero μ P with
  | nil => exact ⟨[], [], rfl, rfl, rfl, .nil⟩
  | @cons y y' ys ys' hy hys ih =>
    obtain ⟨yv, hy, hy'⟩ := hy
    obtain ⟨p, p', hp, hp', hpp⟩ := predict_same (K := K) (K' := K') (u := none) (hf.tame.1.linearises hjac env tZero) rfl
      (hf.carries hjac tZero) hQ posQ hQ' hg hP hg'
    obtain ⟨m1, C1, hC1, hm1, hm1'⟩ := hpp.moments env
    obtain ⟨G, G', hG, hG', hd, e⟩ := hh tZero
    have it : ∀ (j : ℕ) (g g' : Gaussian), SameState c g g' →
        ∃ r r', KFS.iterate (K.iekfStep env jac (.v m1) (.m C1) y.squeeze (some tZero) none) j g = .ok r ∧
          KFS.iterate (K'.iekfStep env jac (.v (c.pt m1)) (.m (c.cov C1)) y'.squeeze (some tZero) none) j g' = .ok r' ∧ SameState c r r' := by
      intro j
      induction j with
      | zero => exact fun g g' h => ⟨g, g', rfl, rfl, h⟩
      | succ j ihj =>
        intro g g' h
        obtain ⟨m2, C2, hC2, hm2, hm2'⟩ := h.moments env
        obtain ⟨L', hL', eL⟩ := same_deriv (c := c) (d := d) e (hd m2).hasFDerivAt
        have h1 := iekfStep_row (K := K) hjac (x := m1) hG (hd m2).hasFDerivAt hR hC1.posSemidef posR hm2 hy
        have h2 := iekfStep_row (K := K') hjac (x := c.pt m1) hG' hL' hR' (c.cov_posSemidef hC1.posSemidef) (d.cov_posDef posR) hm2' hy'
        set J := jacMat (fderiv ℝ G m2)
        rw [eL, (iekf_alg C1 J).1, (iekf_alg C1 J).2, e, c.pt_sub] at h2
        have e3 : d.pt yv - (d.pt (G m2) - (d.A * J * c.A⁻¹) *ᵥ (c.A *ᵥ (m1 - m2))) = d.A *ᵥ (yv - (G m2 - J *ᵥ (m1 - m2))) := by
          rw [mulVec_mulVec, Matrix.mul_assoc, nonsing_inv_mul _ c.isUnit, Matrix.mul_one, ← mulVec_mulVec, mulVec_sub d.A, mulVec_sub d.A, Chart.pt,
            Chart.pt]
          abel
        rw [e3, mulVec_mulVec, Matrix.mul_assoc _ d.A⁻¹, nonsing_inv_mul _ d.isUnit, Matrix.mul_one, ← mulVec_mulVec, ← c.pt_add] at h2
        obtain ⟨r, r', hr, hr', hrr⟩ := ihj _ _ ⟨_, _, condCov_posDef hC1 posR J, rfl, rfl⟩
        exact ⟨r, r', by rw [KFS.iterate, h1, ok_bind, hr], by rw [KFS.iterate, h2, ok_bind, hr'], hrr⟩
    obtain ⟨r, r', hr, hr', hrr⟩ := it numIter p p' hpp
    obtain ⟨m3, C3, hC3, hm3, hm3'⟩ := hrr.moments env
    obtain ⟨rs, rs', h1, h2, h3, h4⟩ := ih (tZero + K.dt) hC3 r hm3 r' hm3'
    refine ⟨r :: rs, r' :: rs', ?_, ?_, by simp [h3], .cons hrr h4⟩
    · simp [KFS.iekfLoop, hp, KFS.iteratedUpdate, hm1.meanA, hm1.covA, hr, h1]
    · simp [KFS.iekfLoop, hp', KFS.iteratedUpdate, hm1'.meanA, hm1'.covA, hr', hdt, h2]

end iekf

/-! ## The iterated extended Kalman smoother -/

theorem SameFunc.linearise (hjac : CorrectJac jac) {f f' : SysFunc} (h : SameFunc c d f f') (x0 : Fin n → ℝ) :
    SameFunc c d (IEKS.linearise jac f (.v x0)) (IEKS.linearise jac f' (.v (c.pt x0))) := by
  have alg : ∀ (J : Matrix (Fin k) (Fin n) ℝ) (b : Fin k → ℝ) x, d.pt b + (d.A * J * c.A⁻¹) *ᵥ (c.pt x - c.pt x0) = d.pt (b + J *ᵥ (x - x0)) := by
    intro J b x
    rw [c.pt_sub, mulVec_mulVec, Matrix.mul_assoc _ c.A⁻¹, nonsing_inv_mul _ c.isUnit, Matrix.mul_one, ← mulVec_mulVec, d.pt_add]
  rcases h with h | ⟨h, h1, h2⟩
  · refine .inl fun t => ?_
    obtain ⟨F, F', hF, hF', hd, e⟩ := h t
    obtain ⟨L', hL', eL⟩ := same_deriv (c := c) (d := d) e (hd x0).hasFDerivAt
    exact ⟨_, _, IEKS.linearise_vec hjac hF (hd x0).hasFDerivAt, IEKS.linearise_vec hjac hF' hL', affine_differentiable _ _ _,
      fun x => by rw [eL, e, alg]⟩
  · refine .inr ⟨fun t => ?_, h1, h2⟩
    obtain ⟨F, F', hF, hF', hd, e⟩ := h t
    obtain ⟨L', hL', eL⟩ := same_deriv (c := c) (d := d) e (hd x0).hasFDerivAt
    exact ⟨_, _, IEKS.linearise_row hjac hF (hd x0).hasFDerivAt, IEKS.linearise_row hjac hF' hL', affine_differentiable _ _ _,
      fun x => by rw [eL, e, alg]⟩

namespace IEKS

theorem lineariseAll_same (hjac : CorrectJac jac) {f f' : SysFunc} (h : SameFunc c d f f') {rs rs' : List Gaussian}
    (hrs : List.Forall₂ (SameState c) rs rs') : ∃ fl fl', lineariseAll env jac f rs = .ok fl ∧ lineariseAll env jac f' rs' = .ok fl' ∧
      fl.length = rs.length ∧ List.Forall₂ (SameFunc c d) fl fl' := by
  induction hrs with
  | nil => exact ⟨[], [], rfl, rfl, rfl, .nil⟩
  | @cons g g' rs rs' hg hrs ih =>
    obtain ⟨fl, fl', h1, h2, h3, h4⟩ := ih
    obtain ⟨m, C, hC, rfl, rfl⟩ := hg
    refine ⟨linearise jac f (.v m) :: fl, linearise jac f' (.v (c.pt m)) :: fl', ?_, ?_, by simp [h3], .cons (h.linearise hjac m) h4⟩
    · unfold lineariseAll at h1 ⊢
      rw [List.mapM_cons]
      rw [h1, (hasMoments_ofMoment env m C).meanA]
      rfl
    · unfold lineariseAll at h2 ⊢
      rw [List.mapM_cons]
      rw [h2, (hasMoments_ofMoment env (c.pt m) (c.cov C)).meanA]
      rfl

/-- The functions stored in the second object are those of the first in the new coordinates. -/
def SameStored (c : Chart n) (d : Chart k) (s s' : IEKSState) : Prop :=
  SameFunc c c s.transition s'.transition ∧ SameFunc c d s.measurement s'.measurement

/-- The same for the linearised functions, of which there are at least `N`. -/
def SameLists (c : Chart n) (d : Chart k) (N : ℕ) (s s' : IEKSState) : Prop :=
  N ≤ s.fList.length ∧ N ≤ s.hList.length ∧ List.Forall₂ (SameFunc c c) s.fList s'.fList ∧ List.Forall₂ (SameFunc c d) s.hList s'.hList

variable {K K' : IEKS}

theorem filterLoop_same (hjac : CorrectJac jac) (hT : K.transform = taylorTransform env jac) (hM : K.measTransform = taylorTransform env jac)
    (hT' : K'.transform = taylorTransform env jac) (hM' : K'.measTransform = taylorTransform env jac) (hdt : K'.dt = K.dt)
    (hQ : K.Q = .m Q) (hQ' : Q.PosDef) (hQ2 : K'.Q = .m (c.cov Q)) (hR : K.R = .m R) (hR' : R.PosDef) (hR2 : K'.R = .m (d.cov R))
    {ys ys' : List Arr} (hys : List.Forall₂ (SameMeas d) ys ys') :
    ∀ (i : ℕ) (g g' : Gaussian) (t : ℝ) (μ : Fin n → ℝ) (P : Matrix (Fin n) (Fin n) ℝ) (s s' : IEKSState), P.PosDef →
      HasMoments env g μ P → HasMoments env g' (c.pt μ) (c.cov P) → SameStored c d s s' → SameLists c d (i + ys.length) s s' →
      ∃ rs rs' r r', filterLoop env K i g t ys s = (.ok rs, r) ∧ filterLoop env K' i g' t ys' s' = (.ok rs', r') ∧ rs.length = ys.length ∧
        List.Forall₂ (SameState c) rs rs' ∧ SameStored c d r r' ∧ r.fList = s.fList ∧ r.hList = s.hList ∧ r'.fList = s'.fList ∧
        r'.hList = s'.hList := by
  induction hys with
  | nil => exact fun i g g' t μ P s s' _ _ _ hs _ => ⟨[], [], s, s', rfl, rfl, rfl, .nil, hs, rfl, rfl, rfl, rfl⟩
  | @cons y y' ys ys' hy hys ih =>
    intro i g g' t μ P s s' hP hg hg' hs ⟨hl1, hl2, hl3, hl4⟩
    simp only [List.length_cons] at hl1 hl2
    have hi : i < s.fList.length := by omega
    have hi' : i < s.hList.length := by omega
    have hj : i < s'.fList.length := hl3.length_eq ▸ hi
    have hj' : i < s'.hList.length := hl4.length_eq ▸ hi'
    have tf := hl3.get hi hj
    have th := hl4.get hi' hj'
    simp only [List.get_eq_getElem] at tf th
    obtain ⟨yv, hy, hy'⟩ := hy
    set s1 : IEKSState := { s with transition := s.fList[i], measurement := s.hList[i] } with hs1
    set s1' : IEKSState := { s' with transition := s'.fList[i], measurement := s'.hList[i] } with hs1'
    obtain ⟨p, p', hp, hp', hpp⟩ := predict_same (K := K.current s1) (K' := K'.current s1') (t := some t) (u := none)
      (by rw [show (K.current s1).transform = _ from hT]; exact tf.tame.1.linearises hjac env t) (hT'.trans hT.symm)
      (by rw [show (K.current s1).transform = _ from hT]; exact tf.carries hjac t) hQ hQ' hQ2 hg hP hg'
    obtain ⟨m1, C1, hC1, hm1, hm1'⟩ := hpp.moments env
    obtain ⟨r, r', hr, hr', hrr⟩ := correct_same (K := K.current s1) (K' := K'.current s1') (t := some t) (u := none)
      (by rw [show (K.current s1).measTransform = _ from hM]; exact th.tame.1.linearises hjac env t) (hM'.trans hM.symm)
      (by rw [show (K.current s1).measTransform = _ from hM]; exact th.carries hjac t) hR hR' hR2 hm1 hC1 hm1' hy hy'
    obtain ⟨m2, C2, hC2, hm2, hm2'⟩ := hrr.moments env
    obtain ⟨rs, rs', q, q', h1, h2, h3, h4, h5, h6, h7, h8, h9⟩ := ih (i + 1) r r' (t + K.dt) m2 C2 s1 s1' hC2 hm2 hm2' ⟨tf, th⟩
      ⟨by simp [hs1]; omega, by simp [hs1]; omega, hl3, hl4⟩
    refine ⟨r :: rs, r' :: rs', q, q', ?_, ?_, by simp [h3], .cons hrr h4, h5, h6, h7, h8, h9⟩
    · simp only [filterLoop, PyM.get_bind, PyM.modify_bind, getItem, List.getElem?_eq_getElem hi, List.getElem?_eq_getElem hi',
        PyM.lift_ok_bind]
      rw [hp, PyM.lift_ok_bind, hr, PyM.lift_ok_bind, PyM.bind_ok h1]; rfl
    · simp only [filterLoop, PyM.get_bind, PyM.modify_bind, getItem, List.getElem?_eq_getElem hj, List.getElem?_eq_getElem hj',
        PyM.lift_ok_bind]
      rw [hp', PyM.lift_ok_bind, hr', PyM.lift_ok_bind, hdt, PyM.bind_ok h2]; rfl

theorem smoothLoop_same (hjac : CorrectJac jac) (hT : K.transform = taylorTransform env jac) (hT' : K'.transform = taylorTransform env jac)
    (hdt : K'.dt = K.dt) (hQ : K.Q = .m Q) (hQ' : Q.PosDef) (hQ2 : K'.Q = .m (c.cov Q)) {l l' : List Gaussian}
    (hl : List.Forall₂ (SameState c) l l') :
    ∀ (nx nx' : Gaussian) (t : ℝ) (s s' : IEKSState), SameState c nx nx' → SameStored c d s s' → SameLists c d (l.length + 1) s s' →
      ∃ rs rs' r r', smoothLoop env K nx t l s = (.ok rs, r) ∧ smoothLoop env K' nx' t l' s' = (.ok rs', r') ∧ rs.length = l.length ∧
        List.Forall₂ (SameState c) rs rs' ∧ SameStored c d r r' := by
  induction hl with
  | nil => exact fun nx nx' t s s' _ hs _ => ⟨[], [], s, s', rfl, rfl, rfl, .nil, hs⟩
  | @cons g g' l l' hg hl ih =>
    intro nx nx' t s s' hnx hs ⟨hl1, hl2, hl3, hl4⟩
    simp only [List.length_cons] at hl1 hl2
    have hi : l.length + 1 < s.fList.length := by omega
    have hll := hl.length_eq
    have hj : l.length + 1 < s'.fList.length := hl3.length_eq ▸ hi
    have tf := hl3.get hi hj
    simp only [List.get_eq_getElem] at tf
    set s1 : IEKSState := { s with transition := s.fList[l.length + 1] } with hs1
    set s1' : IEKSState := { s' with transition := s'.fList[l.length + 1] } with hs1'
    obtain ⟨r, r', hr, hr', hrr⟩ := smooth_same (K := K.current s1) (K' := K'.current s1') (t := some t) (u := none)
      (by rw [show (K.current s1).transform = _ from hT]; exact tf.tame.1.linearises hjac env t) (hT'.trans hT.symm)
      (by rw [show (K.current s1).transform = _ from hT]; exact tf.carries hjac t) hQ hQ' hQ2 hg hnx
    obtain ⟨rs, rs', q, q', h1, h2, h3, h4, h5⟩ := ih r r' (t - K.dt) s1 s1' hrr ⟨tf, hs.2⟩
      ⟨by simp [hs1]; omega, by simp [hs1]; omega, hl3, hl4⟩
    refine ⟨r :: rs, r' :: rs', q, q', ?_, ?_, by simp [h3], .cons hrr h4, h5⟩
    · simp only [smoothLoop, PyM.get_bind, PyM.modify_bind, getItem, List.getElem?_eq_getElem hi, PyM.lift_ok_bind]
      rw [hr, PyM.lift_ok_bind, hrr.good.1.copy env, PyM.lift_ok_bind, PyM.bind_ok h1]; rfl
    · simp only [smoothLoop, PyM.get_bind, PyM.modify_bind, getItem, ← hll, List.getElem?_eq_getElem hj, PyM.lift_ok_bind]
      rw [hr', PyM.lift_ok_bind, hrr.good.2.copy env, PyM.lift_ok_bind, hdt, PyM.bind_ok h2]; rfl

theorem smoother_same (hjac : CorrectJac jac) (hT : K.transform = taylorTransform env jac) (hT' : K'.transform = taylorTransform env jac)
    (hdt : K'.dt = K.dt) (hQ : K.Q = .m Q) (hQ' : Q.PosDef) (hQ2 : K'.Q = .m (c.cov Q)) {fs fs' : List Gaussian} (hne : fs ≠ [])
    (hfs : List.Forall₂ (SameState c) fs fs') (s s' : IEKSState) (hs : SameStored c d s s') (hl : SameLists c d fs.length s s') :
    ∃ rs rs' r r', smoother env K fs s = (.ok rs, r) ∧ smoother env K' fs' s' = (.ok rs', r') ∧ rs.length = fs.length ∧
      List.Forall₂ (SameState c) rs rs' ∧ SameStored c d r r' := by
  unfold smoother
  have hrev := (List.forall₂_reverse_iff (R := SameState c)).2 hfs
  have hll := hfs.length_eq
  cases h1 : fs.reverse with
  | nil => exact absurd (List.reverse_eq_nil_iff.1 h1) hne
  | cons last states =>
    rw [h1] at hrev
    cases h2 : fs'.reverse with
    | nil => rw [h2] at hrev; cases hrev
    | cons last' states' =>
      rw [h2] at hrev
      obtain ⟨hlast, hst⟩ := List.forall₂_cons.1 hrev
      have hlen : fs.length = states.length + 1 := by rw [← List.length_reverse, h1]; rfl
      rw [hlen] at hl
      obtain ⟨rs, rs', q, q', a1, a2, a3, a4, a5⟩ := smoothLoop_same (env := env) hjac hT hT' hdt hQ hQ' hQ2 hst last last'
        (((fs.length : ℝ) - 1) * K.dt) s s' hlast hs hl
      refine ⟨(last :: rs).reverse, (last' :: rs').reverse, q, q', ?_, ?_, by simp [hlen, a3],
        (List.forall₂_reverse_iff (R := SameState c)).2 (.cons hlast a4), a5⟩
      · dsimp only
        rw [hlast.good.1.copy env, PyM.lift_ok_bind, PyM.bind_ok a1]; rfl
      · dsimp only
        rw [hlast.good.2.copy env, PyM.lift_ok_bind, ← hll, hdt, PyM.bind_ok a2]; rfl

theorem relinearise_same (hjac : CorrectJac jac) (hf : SameFunc c c K.transition K'.transition) (hh : SameFunc c d K.measurement K'.measurement)
    {rs rs' : List Gaussian} (hrs : List.Forall₂ (SameState c) rs rs') (s s' : IEKSState) (hs : SameStored c d s s') :
    ∃ r r', relinearise env jac K rs s = (.ok (), r) ∧ relinearise env jac K' rs' s' = (.ok (), r') ∧ SameStored c d r r' ∧
      SameLists c d rs.length r r' := by
  obtain ⟨fl, fl', a1, a2, a3, a4⟩ := lineariseAll_same (env := env) hjac hf hrs
  obtain ⟨hl, hl', b1, b2, b3, b4⟩ := lineariseAll_same (env := env) hjac hh hrs
  refine ⟨{ s with fList := fl, hList := hl }, { s' with fList := fl', hList := hl' }, ?_, ?_, hs, by simp [a3], by simp [b3], a4, b4⟩
  · simp only [relinearise, a1, b1, PyM.lift_ok_bind, PyM.modify_bind, PyM.modify_run]
  · simp only [relinearise, a2, b2, PyM.lift_ok_bind, PyM.modify_bind, PyM.modify_run]

theorem call_same (hjac : CorrectJac jac) (hT : K.transform = taylorTransform env jac) (hM : K.measTransform = taylorTransform env jac)
    (hT' : K'.transform = taylorTransform env jac) (hM' : K'.measTransform = taylorTransform env jac) (hdt : K'.dt = K.dt)
    (hQ : K.Q = .m Q) (hQ' : Q.PosDef) (hQ2 : K'.Q = .m (c.cov Q)) (hR : K.R = .m R) (hR' : R.PosDef) (hR2 : K'.R = .m (d.cov R))
    (hf : SameFunc c c K.transition K'.transition) (hh : SameFunc c d K.measurement K'.measurement) {μ : Fin n → ℝ}
    {P : Matrix (Fin n) (Fin n) ℝ} (hP : P.PosDef) (hg : HasMoments env K.initState μ P)
    (hg' : HasMoments env K'.initState (c.pt μ) (c.cov P)) {ys ys' : List Arr} (hne : ys ≠ []) (hys : List.Forall₂ (SameMeas d) ys ys')
    (numIter : ℕ) (s s' : IEKSState) (hs : SameStored c d s s') :
    ∃ rs rs' r r', call env jac K ys numIter s = (.ok rs, r) ∧ call env jac K' ys' numIter s' = (.ok rs', r') ∧ rs.length = ys.length ∧
      List.Forall₂ (SameState c) rs rs' ∧ SameStored c d r r' := by
  have sw : ∀ (j : ℕ) (rs rs' : List Gaussian) (s s' : IEKSState), rs.length = ys.length → List.Forall₂ (SameState c) rs rs' →
      SameStored c d s s' → SameLists c d ys.length s s' →
      ∃ qs qs' r r', sweeps env jac K ys j rs s = (.ok qs, r) ∧ sweeps env jac K' ys' j rs' s' = (.ok qs', r') ∧ qs.length = ys.length ∧
        List.Forall₂ (SameState c) qs qs' ∧ SameStored c d r r' := by
    intro j
    induction j with
    | zero => exact fun rs rs' s s' h1 h2 h3 _ => ⟨rs, rs', s, s', rfl, rfl, h1, h2, h3⟩
    | succ j ih =>
      intro rs rs' s s' h1 h2 h3 h4
      obtain ⟨fs, fs', s1, s1', a1, a2, a3, a4, a5, a6, a7, a8, a9⟩ := filterLoop_same (env := env) hjac hT hM hT' hM' hdt hQ hQ' hQ2 hR hR' hR2
        hys 0 K.initState K'.initState 0 μ P s s' hP hg hg' h3 (by rwa [zero_add])
      obtain ⟨qs, qs', s2, s2', b1, b2, b3, b4, b5⟩ := smoother_same (env := env) (d := d) hjac hT hT' hdt hQ hQ' hQ2
        (by rintro rfl; exact hne (List.length_eq_zero_iff.1 a3.symm)) a4 s1 s1' a5 (by
          unfold SameLists at h4 ⊢
          rw [a6, a7, a8, a9, a3]; exact h4)
      obtain ⟨s3, s3', c1, c2, c3, c4⟩ := relinearise_same (env := env) hjac hf hh b4 s2 s2' b5
      have hlen : qs.length = ys.length := b3.trans a3
      obtain ⟨ws, ws', s4, s4', d1, d2, d3⟩ := ih qs qs' s3 s3' hlen b4 c3 (hlen ▸ c4)
      refine ⟨ws, ws', s4, s4', ?_, ?_, d3⟩
      · simp only [sweeps]
        rw [PyM.bind_ok a1, PyM.bind_ok b1, PyM.bind_ok c1, d1]
      · simp only [sweeps]
        rw [PyM.bind_ok a2, PyM.bind_ok b2, PyM.bind_ok c2, d2]
  have lf : ∀ t, LinearisesOn env (K.current s).transform (fun x => (K.current s).transition x (some t) none) n n := fun t => by
    rw [show (K.current s).transform = _ from hT]; exact hs.1.tame.1.linearises hjac env t
  have lh : ∀ t, LinearisesOn env (K.current s).measTransform (fun x => (K.current s).measurement x (some t) none) n k := fun t => by
    rw [show (K.current s).measTransform = _ from hM]; exact hs.2.tame.1.linearises hjac env t
  have cf : ∀ t, Carries env (K.current s).transform c c (fun x => (K.current s).transition x (some t) none)
      (fun x => (K'.current s').transition x (some t) none) := fun t => by
    rw [show (K.current s).transform = _ from hT]; exact hs.1.carries hjac t
  have ch : ∀ t, Carries env (K.current s).measTransform c d (fun x => (K.current s).measurement x (some t) none)
      (fun x => (K'.current s').measurement x (some t) none) := fun t => by
    rw [show (K.current s).measTransform = _ from hM]; exact hs.2.carries hjac t
  obtain ⟨fs, fs', a1, a2, a3, a4⟩ := C90_filter (env := env) (K := K.current s) (K' := K'.current s') (u := none) hQ hQ' hQ2 hR hR' hR2 hdt
    (hT'.trans hT.symm) (hM'.trans hM.symm) lf lh cf ch none none hg hP hg' ys ys' hys 0
  have hne' : fs ≠ [] := by rintro rfl; exact hne (List.length_eq_zero_iff.1 a3.symm)
  obtain ⟨qs, qs', b1, b2, b4⟩ := C90_smoother (env := env) (K := K.current s) (K' := K'.current s') (u := none) hQ hQ' hQ2 hdt
    (hT'.trans hT.symm) lf cf hne' a4
  have b3 : qs.length = fs.length := by
    obtain ⟨rs, x1, x2, -⟩ := C75_smoother_total (env := env) (K := K.current s) (u := none) hQ hQ' lf fs hne' (fun r hr => by
      obtain ⟨r', -, h⟩ := List.forall₂_iff_get.1 a4 |>.2 |> fun h => (by
        obtain ⟨i, hi, rfl⟩ := List.getElem_of_mem hr
        exact ⟨fs'[i]'(a4.length_eq ▸ hi), trivial, h i hi (a4.length_eq ▸ hi)⟩ : ∃ r', True ∧ SameState c r r')
      exact h.good.1)
    rw [b1, Except.ok.injEq] at x1
    rw [x1, x2]
  obtain ⟨s3, s3', c1, c2, c3, c4⟩ := relinearise_same (env := env) hjac hf hh b4 s s' hs
  have hlen : qs.length = ys.length := b3.trans a3
  obtain ⟨ws, ws', s4, s4', d1, d2, d3⟩ := sw (numIter - 1) qs qs' s3 s3' hlen b4 c3 (hlen ▸ c4)
  refine ⟨ws, ws', s4, s4', ?_, ?_, d3⟩
  · simp only [call, PyM.get_bind]
    rw [a1, PyM.lift_ok_bind, b1, PyM.lift_ok_bind, PyM.bind_ok c1, d1]
  · simp only [call, PyM.get_bind]
    rw [a2, PyM.lift_ok_bind, b2, PyM.lift_ok_bind, PyM.bind_ok c2, d2]

end IEKS

/-- **C90.** Any sequence of calls of an `IEKS` object, with any numbers of iterations, in other coordinates or units: the results are
the old ones in the new coordinates. -/
theorem C90_iterated_smoother (hjac : CorrectJac jac) {sys sys' : Sys} {μ : Fin n → ℝ} {P : Matrix (Fin n) (Fin n) ℝ}
    (hs : SameNoise env c d Q R μ P sys sys') (hf : SameFunc c c sys.transition sys'.transition)
    (hh : SameFunc c d sys.measurement sys'.measurement) {calls calls' : List (List Arr × ℕ)} (hne : ∀ q ∈ calls, q.1 ≠ [])
    (hc : List.Forall₂ (fun q q' => List.Forall₂ (SameMeas d) q.1 q'.1 ∧ q.2 = q'.2) calls calls') :
    ∃ rss rss' s s', IEKS.callAll env jac (IEKS.init env jac sys).1 calls (IEKS.init env jac sys).2 = (.ok rss, s) ∧
      IEKS.callAll env jac (IEKS.init env jac sys').1 calls' (IEKS.init env jac sys').2 = (.ok rss', s') ∧
      List.Forall₂ (fun (rs : List Gaussian) q => rs.length = q.1.length) rss calls ∧
      List.Forall₂ (List.Forall₂ (SameState c)) rss rss' := by
  have key : ∀ s s' : IEKSState, IEKS.SameStored c d s s' → ∃ rss rss' r r', IEKS.callAll env jac (IEKS.init env jac sys).1 calls s = (.ok rss, r) ∧
      IEKS.callAll env jac (IEKS.init env jac sys').1 calls' s' = (.ok rss', r') ∧
      List.Forall₂ (fun (rs : List Gaussian) q => rs.length = q.1.length) rss calls ∧
      List.Forall₂ (List.Forall₂ (SameState c)) rss rss' := by
    induction hc with
    | nil => exact fun s s' _ => ⟨[], [], s, s', rfl, rfl, .nil, .nil⟩
    | @cons q q' qs qs' hq hqs ih =>
      intro s s' h
      obtain ⟨rs, rs', s1, s1', h1, h2, h3, h4, h5⟩ := IEKS.call_same (env := env) (K := (IEKS.init env jac sys).1)
        (K' := (IEKS.init env jac sys').1) hjac rfl rfl rfl rfl hs.dt hs.hQ hs.posQ hs.hQ' hs.hR hs.posR hs.hR' hf hh hs.posP hs.init hs.init'
        (hne q (by simp)) hq.1 q.2 s s' h
      obtain ⟨rss, rss', s2, s2', g1, g2, g3, g4⟩ := ih (fun q' h => hne q' (by simp [h])) s1 s1' h5
      refine ⟨rs :: rss, rs' :: rss', s2, s2', ?_, ?_, .cons h3 g3, .cons h4 g4⟩
      · rw [IEKS.callAll, PyM.bind_ok h1, PyM.bind_ok g1]; rfl
      · rw [IEKS.callAll, ← hq.2, PyM.bind_ok h2, PyM.bind_ok g2]; rfl
  exact key _ _ ⟨hf, hh⟩

/-- **C90.** Every measurement function that the iterated filter accepts can be restated in any coordinates. -/
theorem C90_restate_measurement (c : Chart n) (d : Chart k) {f : SysFunc}
    (h : ∀ t, ∃ G : (Fin n → ℝ) → Fin k → ℝ, RowFunc (fun z => f z (some t) none) G ∧ Differentiable ℝ G) :
    SameRowFunc c d f (c.restate d f) := by
  intro t
  obtain ⟨F, hF, hd⟩ := h t
  exact ⟨F, _, hF, c.restate_row d hF, hd, fun x => by rw [c.back_pt]⟩

/-- Lorenz 96 with any invertible mixing of the state and any units of the squared measurements. -/
example {q r dt F : ℝ} (hq : 0 < q) (hr : 0 < r) {x : Fin 3 → ℝ} {sys : Sys} (h : L96.init q r dt 3 F (some (.v x)) = .ok sys)
    (ys : List (Fin 3 → ℝ)) (hys : ys ≠ []) (numIter : ℕ) : ∃ c d : Chart 3, c.A = !![2, 1, 0; 0, 1, 5; 0, 0, -1] ∧ d.A = (9 / 5 : ℝ) • 1 ∧
      d.a = 32 ∧ (∃ rs rs', (KFS.init (taylorTransform calmEnv exactJac) sys none).iekf calmEnv exactJac (ys.map .v) numIter none 0 none = .ok rs ∧
        (KFS.init (taylorTransform calmEnv exactJac) (c.sys d (q • 1) (r • 1) x 1 sys) none).iekf calmEnv exactJac
          (ys.map fun y => .v (d.pt y)) numIter none 0 none = .ok rs' ∧ List.Forall₂ (SameState c) rs rs') ∧
      ∃ rss rss' s s', IEKS.callAll calmEnv exactJac (IEKS.init calmEnv exactJac sys).1 [(ys.map .v, numIter)]
          (IEKS.init calmEnv exactJac sys).2 = (.ok rss, s) ∧
        IEKS.callAll calmEnv exactJac (IEKS.init calmEnv exactJac (c.sys d (q • 1) (r • 1) x 1 sys)).1 [(ys.map fun y => .v (d.pt y), numIter)]
          (IEKS.init calmEnv exactJac (c.sys d (q • 1) (r • 1) x 1 sys)).2 = (.ok rss', s') ∧
        List.Forall₂ (List.Forall₂ (SameState c)) rss rss' := by
  refine ⟨⟨!![2, 1, 0; 0, 1, 5; 0, 0, -1], 0, by simp [det_fin_three]⟩, ⟨(9 / 5 : ℝ) • 1, 32, by simp⟩, rfl, rfl, rfl, ?_⟩
  set c : Chart 3 := ⟨!![2, 1, 0; 0, 1, 5; 0, 0, -1], 0, by simp [det_fin_three]⟩
  set d : Chart 3 := ⟨(9 / 5 : ℝ) • 1, 32, by simp⟩
  obtain ⟨h1, h2, h3, h4, h5, h6⟩ := l96_tame (by norm_num) h
  have hg : HasMoments calmEnv sys.initState x (1 : Matrix (Fin 3) (Fin 3) ℝ) := by rw [h4]; exact hasMoments_ofMoment ..
  have hs := c.sys_same (env := calmEnv) d (sys := sys) h5 (one_smul_posDef 3 hq) h6 (one_smul_posDef 3 hr) hg PosDef.one
  have hm : List.Forall₂ (SameMeas d) (ys.map .v) (ys.map fun y => .v (d.pt y)) := by
    rw [List.forall₂_map_left_iff, List.forall₂_map_right_iff, List.forall₂_same]
    exact fun y _ => ⟨y, .inr rfl, .inr rfl⟩
  obtain ⟨rs, rs', a1, a2, -, a3⟩ := C90_iterated_filter exactJac_correct hs (C90_restate c c h1) (C90_restate_measurement c d h3) hm numIter 0
  obtain ⟨rss, rss', s, s', b1, b2, -, b3⟩ := C90_iterated_smoother exactJac_correct hs (C90_restate c c h1) (C90_restate c d h2)
    (calls := [(ys.map .v, numIter)]) (calls' := [(ys.map fun y => .v (d.pt y), numIter)]) (by simpa using hys) (.cons ⟨hm, rfl⟩ .nil)
  exact ⟨⟨rs, rs', a1, a2, a3⟩, rss, rss', s, s', b1, b2, b3⟩

end Verif

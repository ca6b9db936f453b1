import Verif.Props.IEKS
import Verif.Lemmas.MarkovFixed
import Verif.Props.Total
import Verif.Props.Bearings
import Mathlib.Topology.Order.IntermediateValue
import Mathlib.Analysis.SpecialFunctions.Complex.LogDeriv

/-!
# Where the iterated smoother converges to (C83)
-/

namespace Verif

open Matrix Filter Topology

variable {env : Env} {jac : Jac} {n k N : ℕ}

/-- `func` computes `F` on vectors, in a shape the Taylor transform can handle: vectors, or rows of shape `(1, k)` if neither dimension
is one. -/
def Evaluates (func : Func) {k n : ℕ} (F : (Fin n → ℝ) → Fin k → ℝ) : Prop := VecFunc func F ∨ (RowFunc func F ∧ n ≠ 1 ∧ k ≠ 1)

/-- The object is an extended Kalman smoother for the state space model `S`, with measurement `j` taken at time `j dt`. -/
structure Poses (env : Env) (jac : Jac) (K : KFS) (S : Markov n k N) : Prop where
  transform : K.transform = taylorTransform env jac
  measTransform : K.measTransform = taylorTransform env jac
  transition : ∀ j : Fin N, Evaluates (fun z => K.transition z (some (j * K.dt)) none) (S.f j)
  measurement : ∀ j : Fin N, Evaluates (fun z => K.measurement z (some (j * K.dt)) none) (S.h j)
  Q : K.Q = .m S.Q
  R : K.R = .m S.R
  prior : HasMoments env K.initState S.m0 S.P0

/-- The measurements as the model sees them. -/
def Observed (ys : List Arr) (y : Fin N → Fin k → ℝ) : Prop :=
  ys.length = N ∧ ∀ j : Fin N, ∃ a, ys[(j : ℕ)]? = some a ∧ IsVec a.squeeze (y j)

/-- The means read from the returned states. -/
def ReadsMeans (env : Env) (rs : List Gaussian) (u : Fin N → Fin n → ℝ) : Prop :=
  rs.length = N ∧ ∀ j : Fin N, ∃ g, rs[(j : ℕ)]? = some g ∧ g.meanA env = .ok (.v (u j))

namespace IEKS

theorem evaluates_linearise (hjac : CorrectJac jac) {f : SysFunc} {t u : Option ℝ} {F : (Fin n → ℝ) → Fin k → ℝ}
    (hf : Evaluates (fun z => f z t u) F) {x0 : Fin n → ℝ} (hF : DifferentiableAt ℝ F x0) {A : Matrix (Fin k) (Fin n) ℝ} {b : Fin k → ℝ}
    (hA : ∀ x, A *ᵥ x + b = F x0 + fderiv ℝ F x0 (x - x0)) :
    ExactOn env (taylorTransform env jac) (fun z => linearise jac f (.v x0) z t u) A b := by
  have e : (fun x => F x0 + jacMat (fderiv ℝ F x0) *ᵥ (x - x0)) = fun x => A *ᵥ x + b := by
    funext x; rw [hA, mulVec_jacMat]
  refine C20_taylor_exact env hjac ?_
  rcases hf with hf | ⟨hf, h1, h2⟩
  · have := linearise_vec hjac hf hF.hasFDerivAt
    rw [e] at this
    exact .inl this
  · have := linearise_row hjac hf hF.hasFDerivAt
    rw [e] at this
    exact .inr ⟨this, h1, h2⟩

theorem gain_form {P : Matrix (Fin n) (Fin n) ℝ} {R : Matrix (Fin k) (Fin k) ℝ} (hP : P.PosDef) (hR : R.PosDef)
    (H : Matrix (Fin k) (Fin n) ℝ) : ((H * P * Hᵀ + R)⁻¹ * (P * Hᵀ)ᵀ)ᵀ = gainMat P H R := by
  rw [transpose_mul, transpose_transpose, posDef_inv_symm (innov_posDef hP.posSemidef hR H), gainMat]

variable {K : IEKS} {S : Markov n k N} {ys : List Arr} {y : Fin N → Fin k → ℝ}

/-- One sweep maps the means to the smoothed means of the linearised model. -/
theorem sweep_next (hjac : CorrectJac jac) (hK : Poses env jac K S) (hS : S.Good) (hy : Observed ys y) {j : ℕ} {s s2 : IEKSState}
    {rs : List Gaussian} (h : call env jac K ys (j + 2) s = (.ok rs, s2)) :
    ∃ ps s1, call env jac K ys (j + 1) s = (.ok ps, s1) ∧ ∀ u : Fin N → Fin n → ℝ, ReadsMeans env ps u →
      (∀ i, DifferentiableAt ℝ (S.f i) (u i) ∧ DifferentiableAt ℝ (S.h i) (u i)) → ReadsMeans env rs (S.next y u) := by
  obtain ⟨ps, s1, fs, h1, lf, lr, hfil, hsm, hlast⟩ := C30_linearisation_points env jac K ys j s s2 rs h
  refine ⟨ps, s1, h1, fun u hu hd => ?_⟩
  obtain ⟨lN, hy⟩ := hy
  rw [lN] at lf lr
  set L := S.lin u with hL
  have hLg : L.Good := hS.lin u
  have hexf : ∀ i : Fin N, ExactOn env (taylorTransform env jac)
      (fun z => linearise jac K.transition (.v (u i)) z (some (i * K.dt)) none) (L.A i) (L.b i) :=
    fun i => evaluates_linearise hjac (hK.transition i) (hd i).1 (Markov.lin_f i)
  have hexh : ∀ i : Fin N, ExactOn env (taylorTransform env jac)
      (fun z => linearise jac K.measurement (.v (u i)) z (some (i * K.dt)) none) (L.H i) (L.c i) :=
    fun i => evaluates_linearise hjac (hK.measurement i) (hd i).2 (Markov.lin_h i)
  have hmean : ∀ (i : Fin N) (g : Gaussian) (m : Arr), ps[(i : ℕ)]? = some g → g.meanA env = .ok m → m = .v (u i) := by
    intro i g m e1 e2
    obtain ⟨g', e3, e4⟩ := hu.2 i
    rw [e1, Option.some.injEq] at e3
    subst e3
    rw [e2, Except.ok.injEq] at e4
    exact e4
  -- the filter
  have hpy : ∀ i : Fin N, Markov.pad y i = y i := fun i => by simp [Markov.pad]
  have filt : ∀ i ≤ N, ∃ g, (K.initState :: fs)[i]? = some g ∧ HasMoments env g (L.filt (Markov.pad y) i).1 (L.filt (Markov.pad y) i).2 ∧
      (0 < i → g = Gaussian.ofMoment (.v (L.filt (Markov.pad y) i).1) (.m (L.filt (Markov.pad y) i).2)) := by
    intro i
    induction i with
    | zero => exact fun _ => ⟨_, rfl, hK.prior, fun h => absurd h (lt_irrefl _)⟩
    | succ i ih =>
      intro hi
      obtain ⟨g, e1, e2, -⟩ := ih (by omega)
      obtain ⟨a, ha, hav⟩ := hy ⟨i, by omega⟩
      obtain ⟨g', m, prev, pred, r, w1, w2, w3, w4, w5, w6⟩ := hfil i a ha
      rw [e1, Option.some.injEq] at w3
      subst w3
      rw [hmean ⟨i, by omega⟩ g' m w1 w2] at w5 w6
      have hP := hLg.filt (y := Markov.pad y) i
      have hSp := hLg.pred (y := Markov.pad y) i
      obtain ⟨x, hx, hT⟩ := hexf ⟨i, by omega⟩ g _ _ e2 hP
      have p1 := KFS.predict_of (K := { K with transition := linearise jac K.transition (.v (u ⟨i, by omega⟩)) }) (g := g)
        (t := some (i * K.dt)) (u := none) (by simp only; rw [hK.transform]; exact hT) hx hK.Q
      rw [p1, Except.ok.injEq] at w5
      subst w5
      obtain ⟨z, hz, hM⟩ := hexh ⟨i, by omega⟩ _ _ _ (hasMoments_ofMoment env (L.A i *ᵥ (L.filt (Markov.pad y) i).1 + L.b i)
        (L.A i * (L.filt (Markov.pad y) i).2 * (L.A i)ᵀ + L.Q)) hSp
      have p2 := KFS.correct_of (K := { K with measurement := linearise jac K.measurement (.v (u ⟨i, by omega⟩)) })
        (t := some (i * K.dt)) (u := none) (hasMoments_ofMoment env _ _) (by simp only; rw [hK.measTransform]; exact hM) hz hav hK.R
        (posDef_det_ne (innov_posDef hSp.posSemidef hS.R _))
      rw [gain_form hSp hS.R, ← hpy] at p2
      have p3 := w6.symm.trans p2
      rw [Except.ok.injEq] at p3
      have p4 : r = Gaussian.ofMoment (.v (L.filt (Markov.pad y) (i + 1)).1) (.m (L.filt (Markov.pad y) (i + 1)).2) := p3
      refine ⟨r, by simpa using w4, ?_, fun _ => p4⟩
      rw [p4]
      exact hasMoments_ofMoment env _ _
  have hfs : ∀ i < N, fs[i]? = some (Gaussian.ofMoment (.v (L.filt (Markov.pad y) (i + 1)).1) (.m (L.filt (Markov.pad y) (i + 1)).2)) := by
    intro i hi
    obtain ⟨g, e1, -, e3⟩ := filt (i + 1) (by omega)
    rw [e3 (by omega)] at e1
    simpa using e1
  -- the smoother
  have smth : ∀ d i, i + 1 + d = N → rs[i]? = some (Gaussian.ofMoment (.v (L.smth (Markov.pad y) (i + 1) d).1)
      (.m (L.smth (Markov.pad y) (i + 1) d).2)) := by
    intro d
    induction d with
    | zero =>
      intro i hi
      obtain ⟨last, c, e1, e2, e3⟩ := hlast
      rw [List.getLast?_eq_getElem?, lf, show N - 1 = i by omega, hfs i (by omega), Option.some.injEq] at e1
      subst e1
      rw [copyV_moment, Except.ok.injEq] at e3
      subst e3
      rw [List.getLast?_eq_getElem?, lr, show N - 1 = i by omega] at e2
      exact e2
    | succ d ih =>
      intro i hi
      obtain ⟨g', m, later, nx, r, w1, w2, w3, w4, w5, w6⟩ := hsm i _ (hfs i (by omega)) (by omega)
      rw [hmean ⟨i + 1, by omega⟩ g' m w1 w2] at w6
      rw [ih (i + 1) (by omega), Option.some.injEq] at w3
      subst w3
      rw [copyV_moment, Except.ok.injEq] at w5
      subst w5
      have hP := hLg.filt (y := Markov.pad y) (i + 1)
      have hSp := hLg.pred (y := Markov.pad y) (i + 1)
      have hex := hexf ⟨i + 1, by omega⟩
      simp only [Nat.cast_add, Nat.cast_one] at hex
      obtain ⟨x, hx, hT⟩ := hex _ _ _ (hasMoments_ofMoment env (L.filt (Markov.pad y) (i + 1)).1 (L.filt (Markov.pad y) (i + 1)).2) hP
      have p1 := KFS.smooth_of (K := { K with transition := linearise jac K.transition (.v (u ⟨i + 1, by omega⟩)) })
        (t := some ((i + 1 : ℝ) * K.dt)) (u := none) (hasMoments_ofMoment env _ _)
        (hasMoments_ofMoment env (L.smth (Markov.pad y) (i + 1 + 1) d).1 (L.smth (Markov.pad y) (i + 1 + 1) d).2)
        (by simp only; rw [hK.transform]; exact hT) hx hK.Q (posDef_det_ne hSp)
      rw [gain_form hP hS.Q] at p1
      have p2 := w6.symm.trans p1
      rw [Except.ok.injEq] at p2
      rw [w4, p2]
      congr 3
      · simp only [StateSpace.smth, StateSpace.gain]
        rw [mulVec_sub]
        have : S.Q = L.Q := rfl
        rw [this]
        abel
      · simp only [StateSpace.smth, StateSpace.gain]
        have eq : S.Q = L.Q := rfl
        have hG : gainMat (L.filt (Markov.pad y) (i + 1)).2 (L.A (i + 1)) L.Q *
            (L.A (i + 1) * (L.filt (Markov.pad y) (i + 1)).2 * (L.A (i + 1))ᵀ + L.Q) = (L.filt (Markov.pad y) (i + 1)).2 * (L.A (i + 1))ᵀ := by
          rw [gainMat, Matrix.mul_assoc, posDef_inv_mul hSp, Matrix.mul_one]
        have hG' : (gainMat (L.filt (Markov.pad y) (i + 1)).2 (L.A (i + 1)) L.Q)ᵀ =
            (L.A (i + 1) * (L.filt (Markov.pad y) (i + 1)).2 * (L.A (i + 1))ᵀ + L.Q)⁻¹ *
              ((L.filt (Markov.pad y) (i + 1)).2 * (L.A (i + 1))ᵀ)ᵀ := by
          rw [← gain_form hP hLg.Q, transpose_transpose]
        rw [eq, Matrix.mul_sub, Matrix.sub_mul, hG, condCov]
        conv_lhs => rw [hG']
        conv_rhs => rw [hG']
        simp only [Matrix.mul_assoc]
        abel
  refine ⟨lr, fun i => ⟨_, smth (N - (i + 1)) i (by omega), ?_⟩⟩
  exact (hasMoments_ofMoment env _ _).meanA

theorem ReadsMeans.unique {rs : List Gaussian} {u v : Fin N → Fin n → ℝ} (h : ReadsMeans env rs u) (h' : ReadsMeans env rs v) : u = v := by
  funext j
  obtain ⟨g, e1, e2⟩ := h.2 j
  obtain ⟨g', e3, e4⟩ := h'.2 j
  rw [e1, Option.some.injEq] at e3
  subst e3
  rw [e2, Except.ok.injEq] at e4
  exact Arr.v_inj.1 e4

/-- The means of successive iteration counts. -/
theorem calls_next (hjac : CorrectJac jac) (hK : Poses env jac K S) (hS : S.Good) (hy : Observed ys y) {s : IEKSState} {j : ℕ}
    {u v : Fin N → Fin n → ℝ} (hu : ∃ rs s', call env jac K ys (j + 1) s = (.ok rs, s') ∧ ReadsMeans env rs u)
    (hv : ∃ rs s', call env jac K ys (j + 2) s = (.ok rs, s') ∧ ReadsMeans env rs v)
    (hd : ∀ i, DifferentiableAt ℝ (S.f i) (u i) ∧ DifferentiableAt ℝ (S.h i) (u i)) : v = S.next y u := by
  obtain ⟨rs, s', e1, e2⟩ := hv
  obtain ⟨ps, s1, e3, e4⟩ := sweep_next hjac hK hS hy e1
  obtain ⟨ps', s1', e5, e6⟩ := hu
  rw [e3, Prod.mk.injEq, Except.ok.injEq] at e5
  obtain ⟨rfl, -⟩ := e5
  exact ReadsMeans.unique e2 (e4 u e6 hd)

/-- **C83.** If the means returned for growing `num_iter` converge, the limit (together with some state before the first measurement) is a
stationary point of the density of the trajectory under the model in which every transition is replaced by its tangent *at the state it
leads to*.  The functions only need to be continuously differentiable at the limit. -/
theorem C83_limit (hjac : CorrectJac jac) (hK : Poses env jac K S) (hS : S.Good) (hN : 0 < N) (hy : Observed ys y) (s : IEKSState)
    {v : ℕ → Fin N → Fin n → ℝ} (hv : ∀ j, ∃ rs s', call env jac K ys (j + 1) s = (.ok rs, s') ∧ ReadsMeans env rs (v j))
    {x : Fin N → Fin n → ℝ} (hx : Tendsto v atTop (𝓝 x))
    (hd : ∀ j, ContDiffAt ℝ 1 (S.f j) (x j) ∧ ContDiffAt ℝ 1 (S.h j) (x j)) :
    ∃ x0, (S.tangent x).Stationary y (Fin.cons x0 x) :=
  ⟨_, hS.fixed_stationary hN (fun j => (hd j).2.differentiableAt one_ne_zero) (hS.limit_fixed hd hx fun j hj =>
    calls_next hjac hK hS hy (hv j) (hv (j + 1)) fun i =>
      ⟨(hj i).1.differentiableAt one_ne_zero, (hj i).2.differentiableAt one_ne_zero⟩)⟩

/-- **C83.** The same if one more iteration leaves the means unchanged. -/
theorem C83_unchanged (hjac : CorrectJac jac) (hK : Poses env jac K S) (hS : S.Good) (hN : 0 < N) (hy : Observed ys y) (s : IEKSState)
    {j : ℕ} {u : Fin N → Fin n → ℝ} (hu : ∃ rs s', call env jac K ys (j + 1) s = (.ok rs, s') ∧ ReadsMeans env rs u)
    (hv : ∃ rs s', call env jac K ys (j + 2) s = (.ok rs, s') ∧ ReadsMeans env rs u)
    (hd : ∀ i, DifferentiableAt ℝ (S.f i) (u i) ∧ DifferentiableAt ℝ (S.h i) (u i)) :
    ∃ x0, (S.tangent u).Stationary y (Fin.cons x0 u) :=
  ⟨_, hS.fixed_stationary hN (fun j => (hd j).2) (calls_next hjac hK hS hy hu hv hd).symm⟩

theorem tangent_affine {A : Fin N → Matrix (Fin n) (Fin n) ℝ} {b : Fin N → Fin n → ℝ} (hf : ∀ j, S.f j = fun x => A j *ᵥ x + b j)
    (u : Fin N → Fin n → ℝ) : S.tangent u = S := by
  obtain ⟨m0, P0, f, Q, h, R⟩ := S
  simp only at hf
  simp only [Markov.tangent, Markov.mk.injEq, true_and, and_true]
  funext j x
  rw [hf j, (hasFDerivAt_affine (A j) (b j) (u j)).fderiv, map_sub]
  simp only [LinearMap.coe_toContinuousLinearMap', mulVecLin_apply]
  abel

/-- **C83.** With affine transitions (and any measurement functions) a limit is a stationary point of the posterior density of the
trajectory. -/
theorem C83_affine_transition (hjac : CorrectJac jac) (hK : Poses env jac K S) (hS : S.Good) (hN : 0 < N) (hy : Observed ys y)
    (s : IEKSState) {A : Fin N → Matrix (Fin n) (Fin n) ℝ} {b : Fin N → Fin n → ℝ} (hf : ∀ j, S.f j = fun x => A j *ᵥ x + b j)
    {v : ℕ → Fin N → Fin n → ℝ} (hv : ∀ j, ∃ rs s', call env jac K ys (j + 1) s = (.ok rs, s') ∧ ReadsMeans env rs (v j))
    {x : Fin N → Fin n → ℝ} (hx : Tendsto v atTop (𝓝 x)) (hd : ∀ j, ContDiffAt ℝ 1 (S.h j) (x j)) :
    ∃ x0, S.Stationary y (Fin.cons x0 x) := by
  have hc : ∀ j, ContDiffAt ℝ 1 (S.f j) (x j) := fun j => by
    rw [hf j]
    exact (((LinearMap.toContinuousLinearMap (A j).mulVecLin).contDiff).add contDiff_const).contDiffAt
  obtain ⟨x0, h⟩ := C83_limit hjac hK hS hN hy s hv hx fun j => ⟨hc j, hd j⟩
  rw [tangent_affine hf] at h
  exact ⟨x0, h⟩

/-! ## A nonlinear transition: the limit exists and is not stationary -/

/-- The model behind `scalarSys (· ^ 2) id 1 2` with one measurement. -/
noncomputable def squareModel : Markov 1 1 1 where
  m0 := v1 2
  P0 := m1 1
  f := fun _ x => v1 (x 0 ^ 2)
  Q := m1 1
  h := fun _ x => v1 (x 0)
  R := m1 1

theorem squareModel_good : squareModel.Good := ⟨m1_posDef.2 one_pos, m1_posDef.2 one_pos, m1_posDef.2 one_pos⟩

theorem squareModel_poses (env : Env) (jac : Jac) : Poses env jac (init env jac (scalarSys (· ^ 2) id 1 2)).1 squareModel where
  transform := rfl
  measTransform := rfl
  transition := fun j => .inl (mapSys_vec (· ^ 2) (some ((j : ℝ) * (init env jac (scalarSys (· ^ 2) id 1 2)).1.dt)) none)
  measurement := fun j => .inl (mapSys_vec id (some ((j : ℝ) * (init env jac (scalarSys (· ^ 2) id 1 2)).1.dt)) none)
  Q := rfl
  R := rfl
  prior := sG_moments env 2 1

/-- What a sweep does to the mean. -/
noncomputable def squareStep (s : ℝ) : ℝ := (4 * s - s ^ 2) + (4 * s ^ 2 + 1) / (4 * s ^ 2 + 2) * (4 - (4 * s - s ^ 2))

theorem square_calls (env : Env) (hjac : CorrectJac jac) (j : ℕ) : ∃ c s', call env jac (init env jac (scalarSys (· ^ 2) id 1 2)).1 [.s 4] (j + 1)
    (init env jac (scalarSys (· ^ 2) id 1 2)).2 = (.ok [sG (squareStep^[j] 4) c], s') := by
  set K := (init env jac (scalarSys (· ^ 2) id 1 2)).1
  set s0 := (init env jac (scalarSys (· ^ 2) id 1 2)).2
  have hid : ∀ x, HasDerivAt (id : ℝ → ℝ) 1 x := hasDerivAt_id
  have hsq : ∀ x, HasDerivAt (fun x : ℝ => x ^ 2) (2 * x) x := fun x => by simpa using hasDerivAt_pow 2 x
  have hlin : ∀ c d x0 x, HasDerivAt (fun x : ℝ => c + d * (x - x0)) d x := fun c d x0 x => by
    simpa using (((hasDerivAt_id x).sub_const x0).const_mul d).const_add c
  have hF0 : ScalarFun K.transition (fun x => x ^ 2) := mapSys_vec (· ^ 2) (some 0) none
  have hH0 : ScalarFun K.measurement id := mapSys_vec id (some 0) none
  have hT : K.transform = taylorTransform env jac := rfl
  have hM : K.measTransform = taylorTransform env jac := rfl
  have hQ : K.Q = .m (m1 1) := rfl
  have hR : K.R = .m (m1 1) := rfl
  have hi : K.initState = sG 2 1 := rfl
  have first : ∀ j, call env jac K [.s 4] (j + 1) s0 = sweeps env jac K [.s 4] j [sG 4 (17 / 18)] { s0 with
      fList := [linearise jac K.transition (.v (v1 4))], hList := [linearise jac K.measurement (.v (v1 4))] } := fun j =>
    call_single (env := env) (a := 2 * 2) (d := 1) hjac hT hM hF0 hH0 (hsq 2) (hid _) hQ hR hi (by norm_num)
      (by norm_num) (by norm_num) j
  have more : ∀ (j : ℕ) (M C : ℝ) (s : IEKSState), s.fList = [linearise jac K.transition (.v (v1 M))] →
      s.hList = [linearise jac K.measurement (.v (v1 M))] → ∃ c s', sweeps env jac K [.s 4] j [sG M C] s = (.ok [sG (squareStep^[j] M) c], s') := by
    intro j
    induction j with
    | zero => exact fun M C s _ _ => ⟨C, s, rfl⟩
    | succ j ih =>
      intro M C s e1 e2
      have step := sweep_single (env := env) (y := 4) (M := squareStep M) hjac hT hM e1 e2 (hF0.linearise hjac (hsq M)) (hH0.linearise hjac (hid M))
        (hlin _ _ _ _) (hlin _ _ _ _) hQ hR hi (by have := sq_nonneg M; nlinarith) (by
          unfold squareStep
          have : (1 : ℝ) * (2 * M * 1 * (2 * M) + 1) * 1 + 1 = 4 * M ^ 2 + 2 := by ring
          rw [this]
          simp only [id]
          ring) rfl j [sG M C]
      obtain ⟨c, s', h⟩ := ih (squareStep M) _ ⟨_, _, [linearise jac K.transition (.v (v1 (squareStep M)))],
        [linearise jac K.measurement (.v (v1 (squareStep M)))]⟩ rfl rfl
      exact ⟨c, s', by rw [Function.iterate_succ_apply]; exact step.trans h⟩
  obtain ⟨c, s', h⟩ := more j 4 (17 / 18) { s0 with
      fList := [linearise jac K.transition (.v (v1 4))], hList := [linearise jac K.measurement (.v (v1 4))] } rfl rfl
  exact ⟨c, s', (first j).trans h⟩

theorem squareStep_eq (s : ℝ) : squareStep s = 15 / 4 + (4 * s - 7 / 2) / (4 * s ^ 2 + 2) := by
  have : 4 * s ^ 2 + 2 ≠ 0 := by positivity
  unfold squareStep
  field_simp
  ring

/-- The iteration contracts. -/
theorem squareStep_contract {s t : ℝ} (hs : 3 ≤ s) (ht : 3 ≤ t) : |squareStep s - squareStep t| ≤ 1 / 2 * |s - t| := by
  have e : squareStep s - squareStep t = (s - t) * ((8 + 14 * (s + t) - 16 * (s * t)) / ((4 * s ^ 2 + 2) * (4 * t ^ 2 + 2))) := by
    have h1 : 4 * s ^ 2 + 2 ≠ 0 := by positivity
    have h2 : 4 * t ^ 2 + 2 ≠ 0 := by positivity
    rw [squareStep_eq, squareStep_eq]
    field_simp
    ring
  rw [e, abs_mul, mul_comm]
  refine mul_le_mul_of_nonneg_right ?_ (abs_nonneg _)
  have hp : 0 < (4 * s ^ 2 + 2) * (4 * t ^ 2 + 2) := by positivity
  rw [abs_div, abs_of_pos hp, div_le_iff₀ hp, abs_le]
  have hst : 9 ≤ s * t := by nlinarith
  constructor
  · nlinarith [mul_nonneg (sub_nonneg.2 hs) (sub_nonneg.2 ht), sq_nonneg (s * t), sq_nonneg (s - t)]
  · nlinarith [mul_nonneg (sub_nonneg.2 hs) (sub_nonneg.2 ht), sq_nonneg (s * t), sq_nonneg (s - t)]

theorem squareStep_mem {s : ℝ} (hs : 3 ≤ s) : 3 ≤ squareStep s := by
  have : 0 ≤ (4 * s - 7 / 2) / (4 * s ^ 2 + 2) := div_nonneg (by linarith) (by positivity)
  rw [squareStep_eq]; linarith

/-- The iteration has a fixed point between 3 and 4. -/
theorem squareStep_fixed : ∃ x, 3 ≤ x ∧ x < 4 ∧ squareStep x = x := by
  have hc : Continuous fun x : ℝ => squareStep x - x := by
    have : (fun x : ℝ => squareStep x - x) = fun x => 15 / 4 + (4 * x - 7 / 2) / (4 * x ^ 2 + 2) - x := by
      funext x; rw [squareStep_eq]
    rw [this]
    refine (continuous_const.add (Continuous.div (by fun_prop) (by fun_prop) fun x => by positivity)).sub continuous_id
  have h3 : squareStep 3 - 3 ≥ 0 := by rw [squareStep_eq]; norm_num
  have h4 : squareStep 4 - 4 ≤ 0 := by rw [squareStep_eq]; norm_num
  obtain ⟨x, ⟨hx1, hx2⟩, hx⟩ := intermediate_value_Icc' (by norm_num : (3 : ℝ) ≤ 4) hc.continuousOn ⟨h4, h3⟩
  simp only at hx
  refine ⟨x, hx1, lt_of_le_of_ne hx2 ?_, by linarith⟩
  rintro rfl
  rw [squareStep_eq] at hx
  norm_num at hx

theorem squareStep_tendsto {x : ℝ} (hx : 3 ≤ x) (hf : squareStep x = x) : Tendsto (fun j => squareStep^[j] 4) atTop (𝓝 x) := by
  have h : ∀ j, 3 ≤ squareStep^[j] 4 ∧ |squareStep^[j] 4 - x| ≤ (1 / 2) ^ j * |4 - x| := by
    intro j
    induction j with
    | zero => simp; norm_num
    | succ j ih =>
      rw [Function.iterate_succ_apply']
      refine ⟨squareStep_mem ih.1, ?_⟩
      have := squareStep_contract ih.1 hx
      rw [hf] at this
      rw [pow_succ]
      nlinarith [ih.2]
  rw [tendsto_iff_dist_tendsto_zero]
  refine squeeze_zero (g := fun j => (1 / 2) ^ j * |4 - x|) (fun _ => dist_nonneg) (fun j => by rw [Real.dist_eq]; exact (h j).2) ?_
  have := (tendsto_pow_atTop_nhds_zero_of_lt_one (by norm_num : (0 : ℝ) ≤ 1 / 2) (by norm_num)).mul_const |4 - x|
  rwa [zero_mul] at this

/-- The stationary trajectories of the model with measurement 4. -/
theorem square_stationary {a b : ℝ} : squareModel.Stationary (fun _ => v1 4) ![v1 a, v1 b] ↔
    a - 2 = 2 * a * (b - a ^ 2) ∧ b - a ^ 2 = 4 - b := by
  have hsq : ∀ x, HasDerivAt (fun x : ℝ => x ^ 2) (2 * x) x := fun x => by simpa using hasDerivAt_pow 2 x
  rw [squareModel_good.stationary_iff (x := ![v1 a, v1 b]) 
    (f' := fun _ => ContinuousLinearMap.pi fun _ : Fin 1 => (2 * a) • ContinuousLinearMap.proj (R := ℝ) (φ := fun _ : Fin 1 => ℝ) 0)
    (h' := fun _ => ContinuousLinearMap.pi fun _ : Fin 1 => (1 : ℝ) • ContinuousLinearMap.proj (R := ℝ) (φ := fun _ : Fin 1 => ℝ) 0)
    (fun j => by rw [Fin.eq_zero j]; exact hasFDerivAt_v1 (hsq a)) (fun j => by rw [Fin.eq_zero j]; exact hasFDerivAt_v1 (hasDerivAt_id b))]
  have e : ∀ d : Fin 2 → Fin 1 → ℝ, squareModel.slope (fun _ => v1 4)
      (fun _ => jacMat (ContinuousLinearMap.pi fun _ : Fin 1 => (2 * a) • ContinuousLinearMap.proj (R := ℝ) (φ := fun _ : Fin 1 => ℝ) 0))
      (fun _ => jacMat (ContinuousLinearMap.pi fun _ : Fin 1 => (1 : ℝ) • ContinuousLinearMap.proj (R := ℝ) (φ := fun _ : Fin 1 => ℝ) 0))
      ![v1 a, v1 b] d = -(a - 2) * d 0 0 - (b - a ^ 2) * (d 1 0 - 2 * a * d 0 0) + (4 - b) * d 1 0 := by
    intro d
    simp [Markov.slope, squareModel, mulVec, dotProduct]
    ring
  constructor
  · intro h
    have h0 := h ![v1 1, v1 0]
    have h1 := h ![v1 0, v1 1]
    rw [e] at h0 h1
    simp at h0 h1
    constructor <;> linarith
  · rintro ⟨h0, h1⟩ d
    rw [e]
    have h0' : a - 2 - 2 * a * (b - a ^ 2) = 0 := by linarith
    have h1' : b - a ^ 2 - (4 - b) = 0 := by linarith
    linear_combination (-d 0 0) * h0' - d 1 0 * h1'

/-- **C83**, the transition matters: for the transition `x²`, direct observation, prior mean 2 and measurement 4, the most probable
trajectory is `2, 4`.  The means of the iterated smoother converge, and their limit is not part of any stationary trajectory. -/
theorem C83_nonlinear_transition (env : Env) (hjac : CorrectJac jac) :
    (∀ x, squareModel.density (fun _ => v1 4) x ≤ squareModel.density (fun _ => v1 4) ![v1 2, v1 4]) ∧
    ∃ (v : ℕ → Fin 1 → Fin 1 → ℝ) (x : Fin 1 → Fin 1 → ℝ), (∀ j, ∃ rs s',
        call env jac (init env jac (scalarSys (· ^ 2) id 1 2)).1 [.s 4] (j + 1) (init env jac (scalarSys (· ^ 2) id 1 2)).2 = (.ok rs, s') ∧
          ReadsMeans env rs (v j)) ∧
      Tendsto v atTop (𝓝 x) ∧ ∀ x0, ¬ squareModel.Stationary (fun _ => v1 4) (Fin.cons x0 x) := by
  constructor
  · intro x
    rw [Markov.density_eq, Markov.density_eq]
    refine mul_le_mul_of_nonneg_left (Real.exp_le_exp.2 ?_) squareModel_good.const_pos.le
    simp [Markov.expo, squareModel, mulVec, dotProduct]
    norm_num
    nlinarith [mul_self_nonneg (x 0 0 - 2), mul_self_nonneg (x 1 0 - x 0 0 ^ 2), mul_self_nonneg (4 - x 1 0)]
  · obtain ⟨x, h3, h4, hx⟩ := squareStep_fixed
    refine ⟨fun j _ => v1 (squareStep^[j] 4), fun _ => v1 x, fun j => ?_, ?_, ?_⟩
    · obtain ⟨c, s', h⟩ := square_calls env hjac j
      exact ⟨_, s', h, rfl, fun i => ⟨_, by rw [Fin.eq_zero i]; rfl, (sG_moments env _ _).meanA⟩⟩
    · rw [tendsto_pi_nhds]
      intro i
      rw [tendsto_pi_nhds]
      intro l
      rw [Fin.eq_zero l]
      simpa using squareStep_tendsto h3 hx
    · intro x0 hs
      have e : (Fin.cons x0 fun _ => v1 x : Fin 2 → Fin 1 → ℝ) = ![v1 (x0 0), v1 x] := by
        ext i l
        fin_cases i <;> simp [Fin.eq_zero l]
      rw [e, square_stationary] at hs
      obtain ⟨h1, h2⟩ := hs
      set a := x0 0
      have hb : x = (4 + a ^ 2) / 2 := by linarith
      have hfac : (a - 2) * (a + 1) ^ 2 = 0 := by
        rw [hb] at h1
        linear_combination h1
      rcases mul_eq_zero.1 hfac with h | h
      · rw [sub_eq_zero.1 h] at hb; norm_num at hb; linarith
      · have h' : a = -1 := by have := pow_eq_zero_iff (n := 2) (by norm_num) |>.1 h; linarith
        rw [h'] at hb; norm_num at hb; linarith

/-! ## Constant velocity tracking from bearings -/

/-- The state space model behind `BOT.init q r (some l) dt`. -/
noncomputable def botModel (q r dt : ℝ) (l : List Sensor) (N : ℕ) : Markov 4 l.length N where
  m0 := ![0, 0, 1, 0]
  P0 := (0.1 : ℝ) • 1
  f := fun _ x => ![x 0 + dt * x 2, x 1 + dt * x 3, x 2, x 3]
  Q := BOT.Q dt q
  h := fun _ x s => arctan2 (x 1 - (l.get s).2) (x 0 - (l.get s).1)
  R := r • 1

theorem bot_affine (dt : ℝ) (x : Fin 4 → ℝ) : ![x 0 + dt * x 2, x 1 + dt * x 3, x 2, x 3] = BOT.F dt *ᵥ x + 0 := by
  ext i
  fin_cases i <;> simp [BOT.F, dotProduct, Fin.sum_univ_four]

theorem botModel_poses (env : Env) (jac : Jac) {q r dt : ℝ} {l : List Sensor} (hl : 2 ≤ l.length) {sys : Sys}
    (h : BOT.init q r (some l) dt = .ok sys) (N : ℕ) : Poses env jac (init env jac sys).1 (botModel q r dt l N) := by
  rw [BOT.init, Sys.make, if_pos ⟨rfl, rfl⟩, Except.ok.injEq] at h
  subst h
  refine ⟨rfl, rfl, fun j => .inr ⟨fun x => ?_, by norm_num, by norm_num⟩, fun j => .inr ⟨fun x => ?_, by norm_num, by omega⟩, rfl, rfl,
    hasMoments_ofMoment env _ ((0.1 : ℝ) • 1)⟩
  · obtain ⟨Y, -, h2, h3⟩ := C56_constant_velocity dt (N := 1) (of fun _ => x) (some (j * 1)) none
    refine (h2 0).trans ?_
    congr 2
    ext i k
    obtain ⟨e0, e1, e2, e3⟩ := h3 0
    fin_cases k <;> simp [botModel, e0, e1, e2, e3]
  · refine (bearings_vec (n := 4) 0 1 l (by rintro rfl; simp at hl) x).trans ?_
    rfl

theorem botModel_good {q r dt : ℝ} (hq : 0 < q) (hr : 0 < r) (hd : 0 < dt) (l : List Sensor) (N : ℕ) : (botModel q r dt l N).Good := by
  obtain ⟨sys, Q, h, hQ, hQ'⟩ := C56_noise_posDef dt q r (some l) hd hq
  rw [BOT.init, Sys.make, if_pos ⟨rfl, rfl⟩, Except.ok.injEq] at h
  subst h
  have e : BOT.Q dt q = Q := Arr.m_inj.1 hQ
  exact ⟨one_smul_posDef 4 (by norm_num), by rw [← e] at hQ'; exact hQ', one_smul_posDef _ hr⟩

/-- Bearings are smooth except for targets due west of (or at) the sensor. -/
theorem contDiffAt_bearing {s : Sensor} {x : Fin 4 → ℝ} (hx : s.1 < x 0 ∨ x 1 ≠ s.2) :
    ContDiffAt ℝ 1 (fun x : Fin 4 → ℝ => arctan2 (x 1 - s.2) (x 0 - s.1)) x := by
  have h1 : ContDiffAt ℝ 1 (fun x : Fin 4 → ℝ => (⟨x 0 - s.1, x 1 - s.2⟩ : ℂ)) x := by
    have : (fun x : Fin 4 → ℝ => (⟨x 0 - s.1, x 1 - s.2⟩ : ℂ)) =
        fun x => ((x 0 - s.1 : ℝ) : ℂ) + ((x 1 - s.2 : ℝ) : ℂ) * Complex.I := by
      funext x; apply Complex.ext <;> simp
    rw [this]
    have c : ∀ (i : Fin 4) (a : ℝ), ContDiff ℝ 1 fun x : Fin 4 → ℝ => ((x i - a : ℝ) : ℂ) := fun i a =>
      Complex.ofRealCLM.contDiff.comp ((contDiff_apply ℝ ℝ i).sub contDiff_const)
    exact ((c 0 s.1).add ((c 1 s.2).mul contDiff_const)).contDiffAt
  have h2 : ContDiffAt ℝ 1 Complex.arg (⟨x 0 - s.1, x 1 - s.2⟩ : ℂ) := by
    have hz : (⟨x 0 - s.1, x 1 - s.2⟩ : ℂ) ∈ Complex.slitPlane :=
      hx.imp (fun h => sub_pos.2 h) fun h => sub_ne_zero.2 h
    have e : Complex.arg = Complex.imCLM ∘ Complex.log := by
      funext z; exact (Complex.log_im z).symm
    rw [e]
    exact Complex.imCLM.contDiff.contDiffAt.comp _ ((Complex.contDiffAt_log hz).restrict_scalars ℝ)
  exact h2.comp x h1

/-- **C83.** Tracking with the constant velocity model and at least two sensors: if the means of the iterated smoother converge as the
number of sweeps grows, to positions none of which is due west of a sensor, the limit is a stationary trajectory of the exact posterior
density. -/
theorem C83_bearings (hjac : CorrectJac jac) {q r dt : ℝ} (hq : 0 < q) (hr : 0 < r) (hd : 0 < dt) {l : List Sensor} (hl : 2 ≤ l.length)
    {sys : Sys} (h : BOT.init q r (some l) dt = .ok sys) (hN : 0 < N) {ys : List Arr} {y : Fin N → Fin l.length → ℝ} (hy : Observed ys y)
    (s : IEKSState) {v : ℕ → Fin N → Fin 4 → ℝ}
    (hv : ∀ j, ∃ rs s', call env jac (init env jac sys).1 ys (j + 1) s = (.ok rs, s') ∧ ReadsMeans env rs (v j))
    {x : Fin N → Fin 4 → ℝ} (hx : Tendsto v atTop (𝓝 x)) (hw : ∀ j, ∀ p ∈ l, p.1 < x j 0 ∨ x j 1 ≠ p.2) :
    ∃ x0, (botModel q r dt l N).Stationary y (Fin.cons x0 x) :=
  C83_affine_transition hjac (botModel_poses env jac hl h N) (botModel_good hq hr hd l N) hN hy s
    (A := fun _ => BOT.F dt) (b := fun _ => 0) (fun _ => funext fun z => bot_affine dt z) hv hx fun j =>
      contDiffAt_pi.2 fun i => contDiffAt_bearing (hw j _ (List.get_mem l i))

/-! ## Instances -/

/-- A random walk observed through its square, prior mean 1 and measurement 1: every call returns the mean 1. -/
theorem walk_calls (env : Env) (hjac : CorrectJac jac) (j : ℕ) : ∃ s', call env jac (init env jac (scalarSys id (· ^ 2) 8 1)).1 [.s 1] (j + 1)
    (init env jac (scalarSys id (· ^ 2) 8 1)).2 = (.ok [sG 1 1], s') := by
  set K := (init env jac (scalarSys id (· ^ 2) 8 1)).1
  set s0 := (init env jac (scalarSys id (· ^ 2) 8 1)).2
  have hid : ∀ x, HasDerivAt (id : ℝ → ℝ) 1 x := hasDerivAt_id
  have hsq : ∀ x, HasDerivAt (fun x : ℝ => x ^ 2) (2 * x) x := fun x => by simpa using hasDerivAt_pow 2 x
  have hlin : ∀ c d x0 x, HasDerivAt (fun x : ℝ => c + d * (x - x0)) d x := fun c d x0 x => by
    simpa using (((hasDerivAt_id x).sub_const x0).const_mul d).const_add c
  have hF0 : ScalarFun K.transition id := mapSys_vec id (some 0) none
  have hH0 : ScalarFun K.measurement (fun x => x ^ 2) := mapSys_vec (· ^ 2) (some 0) none
  have hT : K.transform = taylorTransform env jac := rfl
  have hM : K.measTransform = taylorTransform env jac := rfl
  have hQ : K.Q = .m (m1 1) := rfl
  have hR : K.R = .m (m1 8) := rfl
  have hi : K.initState = sG 1 1 := rfl
  have first : call env jac K [.s 1] (j + 1) s0 = sweeps env jac K [.s 1] j [sG 1 1] { s0 with
      fList := [linearise jac K.transition (.v (v1 1))], hList := [linearise jac K.measurement (.v (v1 1))] } :=
    call_single (env := env) (a := 1) (d := 2 * 1) hjac hT hM hF0 hH0 (hid 1) (hsq 1) hQ hR hi (by norm_num)
      (by norm_num) (by norm_num) j
  have more : ∀ (j : ℕ) (s : IEKSState), s.fList = [linearise jac K.transition (.v (v1 1))] →
      s.hList = [linearise jac K.measurement (.v (v1 1))] → ∃ s', sweeps env jac K [.s 1] j [sG 1 1] s = (.ok [sG 1 1], s') := by
    intro j
    induction j with
    | zero => exact fun s _ _ => ⟨s, rfl⟩
    | succ j ih =>
      intro s e1 e2
      have step := sweep_single (env := env) (y := 1) (M := 1) (C := 1) hjac hT hM e1 e2 (hF0.linearise hjac (hid 1))
        (hH0.linearise hjac (hsq 1)) (hlin _ _ _ _) (hlin _ _ _ _) hQ hR hi (by norm_num) (by norm_num) (by norm_num) j [sG 1 1]
      obtain ⟨s', h⟩ := ih ⟨_, _, [linearise jac K.transition (.v (v1 1))], [linearise jac K.measurement (.v (v1 1))]⟩ rfl rfl
      exact ⟨s', step.trans h⟩
  obtain ⟨s', h⟩ := more j { s0 with
      fList := [linearise jac K.transition (.v (v1 1))], hList := [linearise jac K.measurement (.v (v1 1))] } rfl rfl
  exact ⟨s', first.trans h⟩

/-- The model behind `scalarSys id (· ^ 2) 8 1` with one measurement. -/
noncomputable def walkModel : Markov 1 1 1 where
  m0 := v1 1
  P0 := m1 1
  f := fun _ x => v1 (x 0)
  Q := m1 1
  h := fun _ x => v1 (x 0 ^ 2)
  R := m1 8

theorem walkModel_poses (env : Env) (jac : Jac) : Poses env jac (init env jac (scalarSys id (· ^ 2) 8 1)).1 walkModel where
  transform := rfl
  measTransform := rfl
  transition := fun j => .inl (mapSys_vec id (some ((j : ℝ) * (init env jac (scalarSys id (· ^ 2) 8 1)).1.dt)) none)
  measurement := fun j => .inl (mapSys_vec (· ^ 2) (some ((j : ℝ) * (init env jac (scalarSys id (· ^ 2) 8 1)).1.dt)) none)
  Q := rfl
  R := rfl
  prior := sG_moments env 1 1

theorem walkModel_good : walkModel.Good := ⟨m1_posDef.2 one_pos, m1_posDef.2 one_pos, m1_posDef.2 (by norm_num)⟩

/-- The hypotheses of `C83_affine_transition` (hence of `C83_limit`) can be met with a nonlinear measurement. -/
example : ∃ x0, walkModel.Stationary (fun _ => v1 1) (Fin.cons x0 fun _ => v1 1) := by
  refine C83_affine_transition (env := calmEnv) exactJac_correct (K := (init calmEnv exactJac (scalarSys id (· ^ 2) 8 1)).1) (ys := [.s 1])
    (walkModel_poses calmEnv exactJac) walkModel_good one_pos ⟨rfl, fun j => ⟨.s 1, by rw [Fin.eq_zero j]; rfl, .inr rfl⟩⟩ (init calmEnv exactJac (scalarSys id (· ^ 2) 8 1)).2 (A := fun _ => 1) (b := fun _ => 0) (fun _ => ?_)
    (v := fun _ _ => v1 1) (fun j => ?_) tendsto_const_nhds (fun j => ?_)
  · funext x
    rw [one_mulVec, add_zero, v1_ext x]
    rfl
  · obtain ⟨s', h⟩ := walk_calls calmEnv exactJac_correct j
    exact ⟨_, s', h, rfl, fun i => ⟨_, by rw [Fin.eq_zero i]; rfl, (sG_moments calmEnv _ _).meanA⟩⟩
  · exact contDiffAt_pi.2 fun i => ((contDiff_apply ℝ ℝ (0 : Fin 1)).pow 2).contDiffAt

/-- The hypotheses of `C83_unchanged` can be met. -/
example : ∃ x0, (walkModel.tangent fun _ => v1 1).Stationary (fun _ => v1 1) (Fin.cons x0 fun _ => v1 1) := by
  refine C83_unchanged (env := calmEnv) exactJac_correct (K := (init calmEnv exactJac (scalarSys id (· ^ 2) 8 1)).1) (ys := [.s 1])
    (walkModel_poses calmEnv exactJac) walkModel_good one_pos ⟨rfl, fun j => ⟨.s 1, by rw [Fin.eq_zero j]; rfl, .inr rfl⟩⟩ (init calmEnv exactJac (scalarSys id (· ^ 2) 8 1)).2 (j := 0) ?_ ?_ (fun j => ⟨?_, ?_⟩)
  · obtain ⟨s', h⟩ := walk_calls calmEnv exactJac_correct 0
    exact ⟨_, s', h, rfl, fun i => ⟨_, by rw [Fin.eq_zero i]; rfl, (sG_moments calmEnv _ _).meanA⟩⟩
  · obtain ⟨s', h⟩ := walk_calls calmEnv exactJac_correct 1
    exact ⟨_, s', h, rfl, fun i => ⟨_, by rw [Fin.eq_zero i]; rfl, (sG_moments calmEnv _ _).meanA⟩⟩
  · exact differentiableAt_pi.2 fun i => (hasFDerivAt_apply (𝕜 := ℝ) (0 : Fin 1) _).differentiableAt
  · exact differentiableAt_pi.2 fun i => ((hasFDerivAt_apply (𝕜 := ℝ) (0 : Fin 1) _).differentiableAt).pow 2

end IEKS

end Verif

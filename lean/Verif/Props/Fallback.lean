import Verif.Props.Transforms
import Verif.Lemmas.ScalarOps
import Verif.Lemmas.Reads
import Verif.Spec.Shapes
import Verif.Model.Kalman
import Verif.Model.Nodes

/-!
# Covariances that are not positive definite, the Cholesky factor of a state, shapes of measurements (C96 – C98)
-/

namespace Verif

open Matrix

section
variable {n : ℕ}

theorem cholU_attempt_not {P : Matrix (Fin n) (Fin n) ℝ} (hs : Pᵀ = P) (hP : ¬ P.PosDef) :
    spCholeskyU (.m P) = .error .linAlg := by
  have hup := upperSym_of_symm hs
  simp only [spCholeskyU, Arr.atleast2d_m, dif_pos]
  rw [dif_neg]
  intro h
  apply hP
  have e : P.submatrix id (Fin.cast rfl) = P := rfl
  rwa [e, hup] at h

theorem cholL_posDef {P : Matrix (Fin n) (Fin n) ℝ} (hP : (lowerSym P).PosDef) :
    spCholeskyL (.m P) = .ok (.m (cholU hP)ᵀ) := by
  simp only [spCholeskyL, Arr.atleast2d_m, dif_pos]
  rw [dif_pos (show (lowerSym (P.submatrix id (Fin.cast rfl))).PosDef from hP)]
  rfl

theorem cholL_not {P : Matrix (Fin n) (Fin n) ℝ} (hP : ¬ (lowerSym P).PosDef) :
    spCholeskyL (.m P) = .error .linAlg := by
  simp only [spCholeskyL, Arr.atleast2d_m, dif_pos]
  rw [dif_neg (show ¬ (lowerSym (P.submatrix id (Fin.cast rfl))).PosDef from hP)]

end

/-! ## C96 -/

section
variable {env : Env} {n k : ℕ} {u : UT} {g g' : Gaussian} {μ : Fin n → ℝ} {P : Matrix (Fin n) (Fin n) ℝ}

/-- **C96.** Only the symmetric part of the covariance counts: for every function the transform of a state equals the transform
of the state with the symmetrised covariance. -/
theorem C96_symmetric_part (hg : HasMoments env g μ P) (hg' : HasMoments env g' μ ((1 / 2 : ℝ) • (P + Pᵀ))) (func : Func) :
    u.transform env func g = u.transform env func g' := by
  have e : (1 / 2 : ℝ) = 2⁻¹ := by norm_num
  rw [e] at hg'
  simp only [UT.transform, hg.1, hg.2, hg'.1, hg'.2, ok_bind, UT.sigmaPoints, need, symmetrize_m,
    half_add_self (half_add_transpose_symm P)]

/-- **C96.** If the covariance is symmetric but not positive definite while adding `1e-10` to its diagonal makes it so, then for
every function the transform is the transform of the state with that enlarged covariance. -/
theorem C96_jitter (hg : HasMoments env g μ P) (hs : Pᵀ = P) (hP : ¬ P.PosDef)
    (hJ : (P + (1 / 10 ^ 10 : ℝ) • (1 : Matrix (Fin n) (Fin n) ℝ)).PosDef)
    (hg' : HasMoments env g' μ (P + (1 / 10 ^ 10 : ℝ) • (1 : Matrix (Fin n) (Fin n) ℝ))) (func : Func) :
    u.transform env func g = u.transform env func g' := by
  have hj : jitMat P = P + (1 / 10 ^ 10 : ℝ) • (1 : Matrix (Fin n) (Fin n) ℝ) := jitMat_of_symm hs
  simp only [UT.transform, hg.1, hg.2, hg'.1, hg'.2, ok_bind, UT.sigmaPoints, need, symmetrize_symm hs,
    symmetrize_symm (posDef_symm hJ), cholU_attempt_not hs hP, tryBare_error, jitteredCholU, jitter_m, hj,
    spCholeskyU_posDef hJ, tryBare_ok]

/-- **C96.** A singular covariance: a symmetric positive semidefinite matrix that is not positive definite is transformed by an
affine function with the exact formulas for the covariance enlarged by `1e-10` times the identity. -/
theorem C96_singular {alpha beta kappa : ℝ} (hu : UT.init n alpha beta kappa = .ok u) (hpos : 0 < alpha ^ 2 * (n + kappa))
    (hg : HasMoments env g μ P) (hP : P.PosSemidef) (hP' : ¬ P.PosDef)
    {func : Func} {A : Matrix (Fin k) (Fin n) ℝ} {b : Fin k → ℝ} (hf : AffineRows func A b) :
    u.transform env func g = .ok (.v (A *ᵥ μ + b),
      .m (A * P * Aᵀ + (1 / 10 ^ 10 : ℝ) • (A * Aᵀ)), .m (P * Aᵀ + (1 / 10 ^ 10 : ℝ) • Aᵀ)) := by
  have hs := posSemidef_symm hP
  have hJ : (P + (1 / 10 ^ 10 : ℝ) • (1 : Matrix (Fin n) (Fin n) ℝ)).PosDef := by
    have := jitMat_posDef hP
    rwa [jitMat_of_symm hs] at this
  have hg' : HasMoments env (.ofMoment (.v μ) (.m (P + (1 / 10 ^ 10 : ℝ) • (1 : Matrix (Fin n) (Fin n) ℝ)))) μ
      (P + (1 / 10 ^ 10 : ℝ) • (1 : Matrix (Fin n) (Fin n) ℝ)) := ⟨rfl, rfl⟩
  rw [C96_jitter hg hs hP' hJ hg', C15_unscented_exact_affine hu hpos hg' hJ hf]
  simp only [Matrix.mul_add, Matrix.add_mul, Matrix.mul_smul, Matrix.smul_mul, Matrix.mul_one, Matrix.one_mul]

/-- **C96.** If the enlarged covariance is not positive definite either, every transform raises `LinAlgError`. -/
theorem C96_indefinite (hu : 0 ≤ (u.n : ℝ) + u.lam) (hg : HasMoments env g μ P) (hs : Pᵀ = P)
    (hJ : ¬ (P + (1 / 10 ^ 10 : ℝ) • (1 : Matrix (Fin n) (Fin n) ℝ)).PosDef) (func : Func) :
    u.transform env func g = .error .linAlg := by
  have hP : ¬ P.PosDef := fun h => hJ (by
    have := jitMat_posDef h.posSemidef
    rwa [jitMat_of_symm hs] at this)
  have hj : jitMat P = P + (1 / 10 ^ 10 : ℝ) • (1 : Matrix (Fin n) (Fin n) ℝ) := jitMat_of_symm hs
  have hsj : (P + (1 / 10 ^ 10 : ℝ) • (1 : Matrix (Fin n) (Fin n) ℝ))ᵀ = P + (1 / 10 ^ 10 : ℝ) • 1 := by
    rw [← hj]; exact jitMat_symm P
  simp only [UT.transform, hg.1, hg.2, ok_bind, UT.sigmaPoints, if_neg (not_lt.2 hu), need, symmetrize_symm hs,
    cholU_attempt_not hs hP, tryBare_error, jitteredCholU, jitter_m, hj, cholU_attempt_not hsj hJ]
  rfl

end

/-- A concrete case: the zero covariance (a known state) is transformed with covariance `1e-10`. -/
example : ∃ u, UT.init 1 1 2 0 = .ok u ∧ ∀ func : Func, AffineRows func (m1 3) (v1 5) →
    u.transform calmEnv func (.ofMoment (.v (v1 2)) (.m (m1 0))) = .ok (.v (m1 3 *ᵥ v1 2 + v1 5),
      .m (m1 3 * m1 0 * (m1 3)ᵀ + (1 / 10 ^ 10 : ℝ) • (m1 3 * (m1 3)ᵀ)), .m (m1 0 * (m1 3)ᵀ + (1 / 10 ^ 10 : ℝ) • (m1 3)ᵀ)) := by
  obtain ⟨u, hu, -⟩ := (C14_unscented_weights 1 1 2 0).2 (by norm_num)
  refine ⟨u, hu, fun func hf => C96_singular hu (by norm_num) ⟨rfl, rfl⟩ ?_ (by rw [m1_posDef]; simp) hf⟩
  have : m1 0 = 0 := by ext i j; rfl
  rw [this]
  exact Matrix.PosSemidef.zero

/-- A concrete case: a variance of `-1` is rejected. -/
example : ∃ u, UT.init 1 1 2 0 = .ok u ∧ ∀ func : Func,
    u.transform calmEnv func (.ofMoment (.v (v1 2)) (.m (m1 (-1)))) = .error .linAlg := by
  obtain ⟨u, hu, -⟩ := (C14_unscented_weights 1 1 2 0).2 (by norm_num)
  refine ⟨u, hu, fun func => C96_indefinite ?_ ⟨rfl, rfl⟩ rfl ?_ func⟩
  · obtain ⟨-, rfl⟩ := ut_init hu
    norm_num
  · have : m1 (-1) + (1 / 10 ^ 10 : ℝ) • (1 : Matrix (Fin 1) (Fin 1) ℝ) = m1 (-1 + 1 / 10 ^ 10) := by
      ext i j
      fin_cases i; fin_cases j
      simp [m1]
    rw [this, m1_posDef]
    norm_num

/-! ## C97 -/

section
variable {env : Env} {n : ℕ} {g : Gaussian} {μ : Fin n → ℝ} {C : Matrix (Fin n) (Fin n) ℝ}

/-- **C97.** The first read of `chol_cov` returns the lower Cholesky factor of the covariance: lower triangular, positive on the
diagonal, product with its transpose the covariance; no other matrix has these three properties. -/
theorem C97_factor (hg : HasMoments env g μ C) (hc : g.chol_ = none) (hC : C.PosDef) :
    ∃ L : Matrix (Fin n) (Fin n) ℝ, (g.getChol env).1 = .ok (.m L) ∧
      ((∀ i j, i < j → L i j = 0) ∧ (∀ i, 0 < L i i) ∧ L * Lᵀ = C) ∧
      ∀ L' : Matrix (Fin n) (Fin n) ℝ, (∀ i j, i < j → L' i j = 0) → (∀ i, 0 < L' i i) → L' * L'ᵀ = C → L' = L := by
  have hl := lowerSym_of_symm (posDef_symm hC)
  have hC' : (lowerSym C).PosDef := by rwa [hl]
  have hS := cholU_spec hC'
  have hcov : (Gaussian.getCov env g).1 = .ok (some (.m C)) := hg.2
  refine ⟨(cholU hC')ᵀ, ?_, ⟨fun i j h => hS.upper j i h, fun i => hS.diag_pos i, ?_⟩, fun L' h1 h2 h3 => ?_⟩
  · rw [getChol_fst, hc]
    simp only [hcov, ok_bind, cholL_posDef hC']
  · rw [transpose_transpose, hS.mul_eq, hl]
  · have h' : IsUpperChol (lowerSym C) L'ᵀ := ⟨fun i j h => h1 j i h, fun i => h2 i, by rw [transpose_transpose, h3, hl]⟩
    rw [← transpose_transpose L', upperChol_unique h' hS]

/-- **C97.** Only the lower triangle is read; if it is not that of a positive definite matrix, `LinAlgError`, and the object is
left without a cached factor. -/
theorem C97_not_posDef (hg : HasMoments env g μ C) (hc : g.chol_ = none)
    (hC : ¬ (Matrix.of fun i j => if j ≤ i then C i j else C j i : Matrix (Fin n) (Fin n) ℝ).PosDef) :
    (g.getChol env).1 = .error .linAlg ∧ (g.getChol env).2.chol_ = none := by
  have hcov : (Gaussian.getCov env g).1 = .ok (some (.m C)) := hg.2
  have hl : ¬ (lowerSym C).PosDef := hC
  have h1 : (g.getChol env).1 = .error .linAlg := by
    rw [getChol_fst, hc]
    simp only [hcov, ok_bind, cholL_not hl]
  refine ⟨h1, ?_⟩
  rcases getChol_snd env g with h | ⟨-, h | ⟨c, h, -⟩⟩
  · rw [h, hc]
  · rw [h]
    unfold Gaussian.getCov
    split
    · split <;> exact hc
    · exact hc
  · rw [h1] at h; cases h

/-- **C97.** Once read, the factor is kept: after assigning any other covariance `cov` reads the new one and `chol_cov` still the
factor of the old one.  Assigning the covariance first gives the factor of the new one. -/
theorem C97_stale (hg : HasMoments env g μ C) (hc : g.chol_ = none) (hC : C.PosDef)
    {D : Matrix (Fin n) (Fin n) ℝ} (hD : D.PosDef) :
    (∃ L : Matrix (Fin n) (Fin n) ℝ, L * Lᵀ = C ∧ (((g.getChol env).2.setCov (some (.m D))).getChol env).1 = .ok (.m L)) ∧
    ((g.getChol env).2.setCov (some (.m D))).cov env = .ok (some (.m D)) ∧
    ∃ L : Matrix (Fin n) (Fin n) ℝ, L * Lᵀ = D ∧ ((g.setCov (some (.m D))).getChol env).1 = .ok (.m L) := by
  have hset : ∀ g : Gaussian, (Gaussian.getCov env (g.setCov (some (.m D)))).1 = .ok (some (.m D)) := by
    intro g
    unfold Gaussian.getCov Gaussian.setCov
    simp
  refine ⟨?_, hset _, ?_⟩
  · obtain ⟨L, h1, ⟨-, -, h2⟩, -⟩ := C97_factor hg hc hC
    refine ⟨L, h2, ?_⟩
    have h3 : (g.getChol env).2.chol_ = some (.m L) := by
      have hcov : (Gaussian.getCov env g).1 = .ok (some (.m C)) := hg.2
      rw [getChol_fst, hc] at h1
      unfold Gaussian.getChol
      rw [hc]
      dsimp only
      rcases hr : Gaussian.getCov env g with ⟨r, g'⟩
      rw [hr] at hcov h1
      dsimp only at hcov h1 ⊢
      subst hcov
      simp only [ok_bind] at h1 ⊢
      rw [h1]
    rw [getChol_fst]
    simp only [Gaussian.setCov, h3]
  · have hl := lowerSym_of_symm (posDef_symm hD)
    have hD' : (lowerSym D).PosDef := by rwa [hl]
    refine ⟨(cholU hD')ᵀ, by rw [transpose_transpose, (cholU_spec hD').mul_eq, hl], ?_⟩
    rw [getChol_fst]
    simp only [hset, ok_bind, cholL_posDef hD', show (g.setCov (some (.m D))).chol_ = none from hc]

end

/-- A concrete case: covariance `9`, factor `3`; after assigning covariance `4` the factor read is still `3`. -/
example : ∃ L : Matrix (Fin 1) (Fin 1) ℝ, ((Gaussian.ofMoment (.v (v1 2)) (.m (m1 9))).getChol calmEnv).1 = .ok (.m L) ∧
    L 0 0 = 3 := by
  obtain ⟨L, h, -, hu⟩ := C97_factor (env := calmEnv) (g := .ofMoment (.v (v1 2)) (.m (m1 9))) (μ := v1 2) (C := m1 9) ⟨rfl, rfl⟩ rfl
    (m1_posDef.2 (by norm_num))
  refine ⟨L, h, ?_⟩
  rw [← hu (m1 3) (fun i j h => absurd h (by omega)) (fun i => by simp [m1]) (by ext i j; simp [m1, Matrix.mul_apply]; norm_num)]
  simp [m1]

/-! ## C98 -/

theorem squeeze_holds {k : ℕ} {f : Fin k → ℝ} {y : Arr} (h : HoldsAlong y f) : y.squeeze = (Arr.v f).squeeze := by
  rcases h with rfl | rfl | rfl | ⟨rfl, rfl⟩
  · rfl
  · by_cases hk : k = 1
    · subst hk; simp [Arr.squeeze]
    · simp [Arr.squeeze, hk]
  · by_cases hk : k = 1
    · subst hk; simp [Arr.squeeze]
    · simp [Arr.squeeze, hk]
  · simp [Arr.squeeze]

theorem squeeze_sameReadings {ys zs : List Arr} (h : SameReadings ys zs) : ys.map Arr.squeeze = zs.map Arr.squeeze := by
  induction h with
  | nil => rfl
  | cons h _ ih =>
    obtain ⟨k, f, h1, h2⟩ := h
    rw [List.map_cons, List.map_cons, ih, squeeze_holds h1, squeeze_holds h2]

section
variable {env : Env} {ys zs : List Arr}

/-- **C98.** The Kalman filter (of every transform) gives the same result for the same readings in whatever shape. -/
theorem C98_filter (h : SameReadings ys zs) (k : KFS) (prior : Option Gaussian) (t : ℝ) (u : Option ℝ) :
    k.kalmanFilter env ys prior t u = k.kalmanFilter env zs prior t u := by
  unfold KFS.kalmanFilter
  generalize prior.getD k.initState = g
  induction h generalizing g t with
  | nil => rfl
  | cons h _ ih =>
    obtain ⟨_, f, h1, h2⟩ := h
    simp only [KFS.filterLoop, squeeze_holds h1, squeeze_holds h2, ih]

/-- **C98.** The iterated filter. -/
theorem C98_iekf (h : SameReadings ys zs) (jac : Jac) (k : KFS) (numIter : ℕ) (prior : Option Gaussian) (t : ℝ) (u : Option ℝ) :
    k.iekf env jac ys numIter prior t u = k.iekf env jac zs numIter prior t u := by
  unfold KFS.iekf
  generalize prior.getD k.initState = g
  induction h generalizing g t with
  | nil => rfl
  | cons h _ ih =>
    obtain ⟨_, f, h1, h2⟩ := h
    simp only [KFS.iekfLoop, squeeze_holds h1, squeeze_holds h2, ih]

theorem ieksFilterLoop_same (h : SameReadings ys zs) (k : IEKS) (i : ℕ) (g : Gaussian) (t : ℝ) :
    IEKS.filterLoop env k i g t ys = IEKS.filterLoop env k i g t zs := by
  induction h generalizing g t i with
  | nil => rfl
  | cons h _ ih =>
    obtain ⟨_, f, h1, h2⟩ := h
    simp only [IEKS.filterLoop, squeeze_holds h1, squeeze_holds h2, ih]

/-- **C98.** The iterated smoother. -/
theorem C98_ieks (h : SameReadings ys zs) (jac : Jac) (k : IEKS) (numIter : ℕ) :
    k.call env jac ys numIter = k.call env jac zs numIter := by
  have hs : ∀ m states, k.sweeps env jac ys m states = k.sweeps env jac zs m states := by
    intro m
    induction m with
    | zero => intro states; rfl
    | succ m ih =>
      intro states
      simp only [IEKS.sweeps, ieksFilterLoop_same h, ih]
  simp only [IEKS.call, C98_filter h, hs]

/-- **C98.** Expectation propagation: the nodes are set up identically, so everything computed from them is. -/
theorem C98_nodes (h : SameReadings ys zs) (nodes : List Ref) (sys : Sys) (fargs : Option (List (Option ℝ × Option ℝ))) :
    nodeSystem nodes sys ys fargs = nodeSystem nodes sys zs fargs := by
  have hl : ∀ nodes fs, nodeSystemLoop sys nodes ys fs = nodeSystemLoop sys nodes zs fs := by
    induction h with
    | nil => intro nodes fs; rfl
    | cons h _ ih =>
      obtain ⟨_, f, h1, h2⟩ := h
      intro nodes fs
      rcases nodes with _ | ⟨r, rs⟩
      · rfl
      rcases fs with _ | ⟨⟨t, u⟩, fs⟩
      · rfl
      simp only [nodeSystemLoop, squeeze_holds h1, squeeze_holds h2, ih]
  have hlen : ys.length = zs.length := List.Forall₂.length_eq h
  unfold nodeSystem
  rw [hl, hlen]

end

/-- A concrete case: two readings, the first as a column and the second as a row, against both as vectors. -/
example : SameReadings [.m (c := 1) (Matrix.of fun i _ => (![1, 2] : Fin 2 → ℝ) i), .m (r := 1) (Matrix.of fun _ j => (![3, 4] : Fin 2 → ℝ) j)]
    [.v ![1, 2], .v ![3, 4]] :=
  .cons ⟨2, ![1, 2], .inr (.inr (.inl rfl)), .inl rfl⟩ (.cons ⟨2, ![3, 4], .inr (.inl rfl), .inl rfl⟩ .nil)

end Verif

import Verif.Spec.Gaussian
import Verif.Lemmas.Gaussian
import Verif.Lemmas.Reads
import Verif.Lemmas.GaussOps

/-!
# Properties C01–C11: `StateModel/Gaussian.py`
-/

namespace Verif

open Matrix Gaussian

/-! ### C01, C02: round trips -/

/-- **C01** moment → natural → moment is the identity for positive definite covariances scipy accepts as well-conditioned
whose inverse has trace at least `1e-10`. -/
theorem C01_moment_round_trip (env : Env) {n : ℕ} (μ : Fin n → ℝ) (C : Matrix (Fin n) (Fin n) ℝ) (hC : C.PosDef)
    (ht : 1 / 10 ^ 10 ≤ C⁻¹.trace) (h1 : env.illPos C = false) (h2 : env.illPos C⁻¹ = false) :
    ∃ P h, (ofMoment (.v μ) (.m C)).precision env = .ok (some P) ∧ (ofMoment (.v μ) (.m C)).shift env = .ok (some h) ∧
      HasMoments env (ofNatural P h) μ C := by
  obtain ⟨e1, e2⟩ := natural_of_moment μ hC h1
  refine ⟨_, _, e1, e2, ?_⟩
  have := moment_of_natural (env := env) (C⁻¹ *ᵥ μ) hC.inv ht h2
  have hu : IsUnit C.det := (isUnit_iff_isUnit_det _).1 hC.isUnit
  rwa [Matrix.nonsing_inv_nonsing_inv _ hu, Matrix.mulVec_mulVec, Matrix.mul_nonsing_inv _ hu,
    Matrix.one_mulVec] at this

example : ∃ P h, (ofMoment (.v ![1, -4]) (.m (Matrix.diagonal ![(2 : ℝ), 3]))).precision calmEnv = .ok (some P) ∧
    (ofMoment (.v ![1, -4]) (.m (Matrix.diagonal ![(2 : ℝ), 3]))).shift calmEnv = .ok (some h) ∧
    HasMoments calmEnv (ofNatural P h) ![1, -4] (Matrix.diagonal ![(2 : ℝ), 3]) :=
  C01_moment_round_trip calmEnv _ _ posDef_two
    (by
      rw [inv_diagonal_real _ (by intro i; fin_cases i <;> norm_num)]
      simp [Matrix.trace, Fin.sum_univ_two]; norm_num) rfl rfl

/-- **C02** natural → moment → natural is the identity for positive definite precisions of trace at least `1e-10`. -/
theorem C02_natural_round_trip (env : Env) {n : ℕ} (P : Matrix (Fin n) (Fin n) ℝ) (h : Fin n → ℝ) (hP : P.PosDef)
    (ht : 1 / 10 ^ 10 ≤ P.trace) (h1 : env.illPos P = false) (h2 : env.illPos P⁻¹ = false) :
    ∃ μ C, (ofNatural (.m P) (.v h)).mean env = .ok (some μ) ∧ (ofNatural (.m P) (.v h)).cov env = .ok (some C) ∧
      HasNatural env (ofMoment μ C) P h := by
  obtain ⟨e1, e2⟩ := moment_of_natural (env := env) h hP ht h1
  refine ⟨_, _, e1, e2, ?_⟩
  have := natural_of_moment (env := env) (P⁻¹ *ᵥ h) hP.inv h2
  have hu : IsUnit P.det := (isUnit_iff_isUnit_det _).1 hP.isUnit
  rwa [Matrix.nonsing_inv_nonsing_inv _ hu, Matrix.mulVec_mulVec, Matrix.mul_nonsing_inv _ hu,
    Matrix.one_mulVec] at this

example : ∃ μ C, (ofNatural (.m (Matrix.diagonal ![(2 : ℝ), 3])) (.v ![1, 5])).mean calmEnv = .ok (some μ) ∧
    (ofNatural (.m (Matrix.diagonal ![(2 : ℝ), 3])) (.v ![1, 5])).cov calmEnv = .ok (some C) ∧
    HasNatural calmEnv (ofMoment μ C) (Matrix.diagonal ![(2 : ℝ), 3]) ![1, 5] :=
  C02_natural_round_trip calmEnv _ _ posDef_two (by simp [Matrix.trace, Fin.sum_univ_two]; norm_num) rfl rfl

/-- The hypothesis of C01 about conditioning can not be dropped: if scipy reports `C` as ill-conditioned, the precision that is
read is the inverse of `C + 1e-10 I`, not of `C`. -/
theorem C01_ill_conditioned_reads_jittered (env : Env) {n : ℕ} (μ : Fin n → ℝ) (C : Matrix (Fin n) (Fin n) ℝ)
    (hC : C.PosDef) (h1 : env.illPos C = true)
    (h2 : env.illPos (C + (1 / 10 ^ 10 : ℝ) • (1 : Matrix (Fin n) (Fin n) ℝ)) = false) :
    (ofMoment (.v μ) (.m C)).precision env =
      .ok (some (.m (C + (1 / 10 ^ 10 : ℝ) • (1 : Matrix (Fin n) (Fin n) ℝ))⁻¹)) := by
  have hj : jitMat C = C + (1 / 10 ^ 10 : ℝ) • (1 : Matrix (Fin n) (Fin n) ℝ) := jitMat_of_symm (posDef_symm hC)
  have hpd : (jitMat C).PosDef := jitMat_posDef hC.posSemidef
  rw [precision_ofMoment, ← hj]
  rw [← hj] at h2
  simp only [momentToNatural, need_some, ok_bind, Arr.shape0_m, spSolvePos_ill hC h1, tryBare_error, jitteredSolve,
    jitter_m, spSolvePos_eye hpd h2, tryBare_ok, symmetrize_symm (posDef_symm hpd.inv)]
  simp [Except.map]

open Classical in
example : ∃ env : Env, (ofMoment (.v ![1]) (.m (Matrix.diagonal fun _ : Fin 1 => (1 : ℝ)))).precision env =
      .ok (some (.m ((Matrix.diagonal fun _ : Fin 1 => (1 : ℝ)) + (1 / 10 ^ 10 : ℝ) • (1 : Matrix (Fin 1) (Fin 1) ℝ))⁻¹)) :=
  ⟨⟨fun A => decide (A = 1), fun _ => false⟩, C01_ill_conditioned_reads_jittered _ _ _ (posDef_scalar one_pos) (by simp)
    (by
      simp only [decide_eq_false_iff_not]
      intro h
      have := congrFun (congrFun h 0) 0
      simp at this)⟩

/-! ### C03: vanishing precision -/

/-- **C03** a precision with trace below `1e-10` is read back as mean `0` and covariance `1e10 I`, whatever the shift. -/
theorem C03_vanishing_precision (env : Env) {n : ℕ} (P : Matrix (Fin n) (Fin n) ℝ) (h : Fin n → ℝ)
    (ht : P.trace < 1 / 10 ^ 10) :
    HasMoments env (ofNatural (.m P) (.v h)) (0 : Fin n → ℝ) ((10 ^ 10 : ℝ) • (1 : Matrix (Fin n) (Fin n) ℝ)) :=
  moment_of_natural_broad _ ht

example : HasMoments fussyEnv (ofNatural (.m (Matrix.diagonal ![(-7 : ℝ), 3])) (.v ![1, 5]))
    (0 : Fin 2 → ℝ) ((10 ^ 10 : ℝ) • (1 : Matrix (Fin 2) (Fin 2) ℝ)) :=
  C03_vanishing_precision _ _ _ (by simp [Matrix.trace, Fin.sum_univ_two]; norm_num)

/-- **C03**, second half: the round trip through natural parameters replaces *every* covariance whose inverse has trace below
`1e-10`, together with its mean, by the default. -/
theorem C03_round_trip_lossy (env : Env) {n : ℕ} (μ : Fin n → ℝ) (C : Matrix (Fin n) (Fin n) ℝ) (hC : C.PosDef)
    (ht : C⁻¹.trace < 1 / 10 ^ 10) (h1 : env.illPos C = false) :
    ∃ P h, (ofMoment (.v μ) (.m C)).precision env = .ok (some P) ∧ (ofMoment (.v μ) (.m C)).shift env = .ok (some h) ∧
      HasMoments env (ofNatural P h) (0 : Fin n → ℝ) ((10 ^ 10 : ℝ) • (1 : Matrix (Fin n) (Fin n) ℝ)) := by
  obtain ⟨e1, e2⟩ := natural_of_moment μ hC h1
  exact ⟨_, _, e1, e2, C03_vanishing_precision env _ _ ht⟩

example : ∃ P h, (ofMoment (.v ![7]) (.m (Matrix.diagonal fun _ : Fin 1 => (2 * 10 ^ 10 : ℝ)))).precision calmEnv = .ok (some P) ∧
    (ofMoment (.v ![7]) (.m (Matrix.diagonal fun _ : Fin 1 => (2 * 10 ^ 10 : ℝ)))).shift calmEnv = .ok (some h) ∧
    HasMoments calmEnv (ofNatural P h) (0 : Fin 1 → ℝ) ((10 ^ 10 : ℝ) • (1 : Matrix (Fin 1) (Fin 1) ℝ)) :=
  C03_round_trip_lossy _ _ _ (posDef_scalar (by norm_num))
    (by rw [inv_diagonal_real _ (by norm_num)]; simp [Matrix.trace]; norm_num) rfl

/-! ### C04: lazy caches are unobservable -/

/-- **C04** For every Gaussian, however it was constructed — except with a mean but no covariance *and* a shift, see
`C04_mixed_construction_counterexample` — and every history of reads (of any attribute, including reads that raise), each
read shows what it shows on the freshly built object. -/
theorem C04_reads_unobservable (env : Env) (mean cov precision shift : Option Arr)
    (h : ¬ (mean.isSome ∧ cov = none ∧ shift.isSome)) (history : List Read) (r : Read) :
    (read env r (afterReads env history (init mean cov precision shift))).1 =
      (read env r (init mean cov precision shift)).1 := by
  have : ∀ (rs : List Read) (g : Gaussian), Complete g →
      ∀ r, (read env r (afterReads env rs g)).1 = (read env r g).1 := by
    intro rs
    induction rs with
    | nil => intro g _ r; rfl
    | cons a rs ih =>
      intro g hg r
      have := read_step env g hg a
      rw [afterReads, List.foldl_cons, ← afterReads, ih _ this.1, this.2]
  exact this history _ (complete_init _ _ _ _ h) r

example : (read fussyEnv .cov (afterReads fussyEnv [.mean, .chol, .precision, .dim, .cov]
      (init none none (some (.m (Matrix.diagonal ![(2 : ℝ), 3]))) (some (.v ![1, 5]))))).1 =
    (read fussyEnv .cov (init none none (some (.m (Matrix.diagonal ![(2 : ℝ), 3]))) (some (.v ![1, 5])))).1 :=
  C04_reads_unobservable _ _ _ _ _ (by simp) _ _

/-- **C04**, why the exception is needed: an object built from a mean, a precision and a shift (no covariance) shows the given
mean first, but another mean after `cov` was read. -/
theorem C04_mixed_construction_counterexample (env : Env) :
    ∃ g : Gaussian, g = init (some (.v ![7])) none (some (.m (0 : Matrix (Fin 1) (Fin 1) ℝ))) (some (.v ![0])) ∧
      (read env .mean g).1 ≠ (read env .mean (afterReads env [.cov] g)).1 := by
  refine ⟨_, rfl, ?_⟩
  have hn : naturalToMoment env (some (.m (0 : Matrix (Fin 1) (Fin 1) ℝ))) (some (.v ![0])) = _ :=
    naturalToMoment_broad _ (by simp [TRACE_EPS])
  have h7 : (.v (0 : Fin 1 → ℝ) : Arr) ≠ .v ![7] := by
    rw [Ne, Arr.v_inj]
    intro h
    have := congrFun h 0
    simp at this
  simp [read, afterReads, getMean, getCov, init, hn, Except.map, Ne.symm h7]

/-! ### C05: products of densities -/

/-- **C05** `a * b` succeeds and its unnormalised density is the pointwise product (no symmetry needed). -/
theorem C05_mul_density (env : Env) {n : ℕ} (a b : Gaussian) (P Q : Matrix (Fin n) (Fin n) ℝ) (h k : Fin n → ℝ)
    (ha : HasNatural env a P h) (hb : HasNatural env b Q k) :
    ∃ g R s, a.mul env b = .ok g ∧ HasNatural (n := n) env g R s ∧
      ∀ x, unnorm R s x = unnorm P h x * unnorm Q k x := by
  refine ⟨_, _, _, mul_natural' ha hb, hasNatural_ofNatural _ _ _, fun x => ?_⟩
  rw [unnorm_symmetrize, unnorm_add]

example : ∃ g R s, (ofMoment (.v ![1, -4]) (.m (Matrix.diagonal ![(2 : ℝ), 3]))).mul calmEnv
      (ofNatural (.m !![1, 2; 3, (4 : ℝ)]) (.v ![0, 1])) = .ok g ∧
    HasNatural (n := 2) calmEnv g R s ∧ ∀ x, unnorm R s x =
      unnorm (Matrix.diagonal ![(2 : ℝ), 3])⁻¹ ((Matrix.diagonal ![(2 : ℝ), 3])⁻¹ *ᵥ ![1, -4]) x *
        unnorm !![1, 2; 3, (4 : ℝ)] ![0, 1] x :=
  C05_mul_density calmEnv _ _ _ _ _ _ (natural_of_moment _ posDef_two rfl) (hasNatural_ofNatural _ _ _)

/-- **C05**, commutativity: the two products are the same object value. -/
theorem C05_mul_comm (env : Env) {n : ℕ} (a b : Gaussian) (P Q : Matrix (Fin n) (Fin n) ℝ) (h k : Fin n → ℝ)
    (ha : HasNatural env a P h) (hb : HasNatural env b Q k) : a.mul env b = b.mul env a := by
  rw [mul_natural' ha hb, mul_natural' hb ha, add_comm P, add_comm h]

/-- **C05**, associativity. -/
theorem C05_mul_assoc (env : Env) {n : ℕ} (a b c : Gaussian) (P Q R : Matrix (Fin n) (Fin n) ℝ) (h k l : Fin n → ℝ)
    (ha : HasNatural env a P h) (hb : HasNatural env b Q k) (hc : HasNatural env c R l) :
    ∃ g, (a.mul env b >>= fun ab => ab.mul env c) = .ok g ∧ (b.mul env c >>= fun bc => a.mul env bc) = .ok g := by
  rw [mul_natural' ha hb, mul_natural' hb hc, ok_bind, ok_bind, mul_natural' (hasNatural_ofNatural _ _ _) hc,
    mul_natural' ha (hasNatural_ofNatural _ _ _)]
  refine ⟨_, rfl, ?_⟩
  rw [add_assoc h k l]
  congr 4
  simp only [transpose_add, transpose_smul, transpose_transpose]
  ext i j
  simp only [Matrix.smul_apply, Matrix.add_apply, smul_eq_mul, transpose_apply]
  ring

/-- **C05**, link to moments: for a positive definite covariance the density of the natural parameters that are read is the
Gaussian density of the moments up to a constant factor. -/
theorem C05_natural_density_is_moment_density (env : Env) {n : ℕ} (μ : Fin n → ℝ) (C : Matrix (Fin n) (Fin n) ℝ)
    (hC : C.PosDef) (hi : env.illPos C = false) :
    ∃ P h, HasNatural env (ofMoment (.v μ) (.m C)) P h ∧ ∃ z : ℝ, 0 < z ∧ ∀ x, unnorm P h x = z * unnormMoment μ C x := by
  refine ⟨_, _, natural_of_moment μ hC hi, Real.exp ((μ ⬝ᵥ C⁻¹ *ᵥ μ) / 2), Real.exp_pos _, fun x => ?_⟩
  have hs : ∀ x y : Fin n → ℝ, x ⬝ᵥ C⁻¹ *ᵥ y = y ⬝ᵥ C⁻¹ *ᵥ x := fun x y => by
    rw [dotProduct_mulVec, ← mulVec_transpose, posDef_symm hC.inv, dotProduct_comm]
  simp only [unnorm, unnormMoment, ← Real.exp_add]
  congr 1
  simp only [mulVec_sub, dotProduct_sub, sub_dotProduct]
  rw [hs μ x]; ring

example : ∃ P h, HasNatural calmEnv (ofMoment (.v ![1, -4]) (.m (Matrix.diagonal ![(2 : ℝ), 3]))) P h ∧
    ∃ z : ℝ, 0 < z ∧ ∀ x, unnorm P h x = z * unnormMoment ![1, -4] (Matrix.diagonal ![(2 : ℝ), 3]) x :=
  C05_natural_density_is_moment_density _ _ _ posDef_two rfl

/-! ### C06: division undoes multiplication -/

/-- **C06** `(a*b)/b` is exactly the Gaussian with `a`'s natural parameters, and `(a*b)/a` the one with `b`'s; `(a/b)*b`
again has `a`'s.  (The result is a Gaussian in natural mode, so all its reads are determined by these parameters.) -/
theorem C06_div_undoes_mul (env : Env) {n : ℕ} (a b : Gaussian) (P Q : Matrix (Fin n) (Fin n) ℝ) (h k : Fin n → ℝ)
    (ha : HasNatural env a P h) (hb : HasNatural env b Q k) (hP : Pᵀ = P) (hQ : Qᵀ = Q) :
    (a.mul env b >>= fun g => g.truediv env b) = .ok (ofNatural (.m P) (.v h)) ∧
    (a.mul env b >>= fun g => g.truediv env a) = .ok (ofNatural (.m Q) (.v k)) ∧
    (a.truediv env b >>= fun g => g.mul env b) = .ok (ofNatural (.m P) (.v h)) := by
  refine ⟨?_, ?_, ?_⟩
  · rw [mul_natural ha hb hP hQ, ok_bind, truediv_natural (hasNatural_ofNatural _ _ _) hb]; simp
  · rw [mul_natural ha hb hP hQ, ok_bind, truediv_natural (hasNatural_ofNatural _ _ _) ha]; simp
  · rw [truediv_natural ha hb, ok_bind, mul_natural (hasNatural_ofNatural _ _ _) hb (by rw [transpose_sub, hP, hQ]) hQ]
    simp

example : ((ofNatural (.m !![1, 2; 2, (4 : ℝ)]) (.v ![0, 1])).mul calmEnv (ofMoment (.v ![1, -4])
      (.m (Matrix.diagonal ![(2 : ℝ), 3]))) >>= fun g => g.truediv calmEnv (ofMoment (.v ![1, -4])
      (.m (Matrix.diagonal ![(2 : ℝ), 3])))) = .ok (ofNatural (.m !![1, 2; 2, (4 : ℝ)]) (.v ![0, 1])) :=
  (C06_div_undoes_mul calmEnv _ _ _ _ _ _ (hasNatural_ofNatural _ _ _) (natural_of_moment _ posDef_two rfl)
    (by ext i j; fin_cases i <;> fin_cases j <;> rfl) (posDef_symm posDef_two.inv)).1

/-- **C06**, moments: for a Gaussian built from a mean and a (well-conditioned, not too broad) positive definite covariance,
multiplying by any Gaussian with a symmetric precision and dividing it out again gives back mean and covariance. -/
theorem C06_div_undoes_mul_moments (env : Env) {n : ℕ} (μ : Fin n → ℝ) (C : Matrix (Fin n) (Fin n) ℝ) (hC : C.PosDef)
    (ht : 1 / 10 ^ 10 ≤ C⁻¹.trace) (h1 : env.illPos C = false) (h2 : env.illPos C⁻¹ = false)
    (b : Gaussian) (Q : Matrix (Fin n) (Fin n) ℝ) (k : Fin n → ℝ) (hb : HasNatural env b Q k) (hQ : Qᵀ = Q) :
    ∃ g, ((ofMoment (.v μ) (.m C)).mul env b >>= fun g => g.truediv env b) = .ok g ∧ HasMoments env g μ C := by
  have ha := natural_of_moment (env := env) μ hC h1
  refine ⟨_, (C06_div_undoes_mul env _ b _ Q _ k ha hb (posDef_symm hC.inv) hQ).1, ?_⟩
  obtain ⟨P, h, e1, e2, e3⟩ := C01_moment_round_trip env μ C hC ht h1 h2
  rw [ha.1] at e1
  rw [ha.2] at e2
  simp only [Except.ok.injEq, Option.some.injEq] at e1 e2
  rw [e1, e2]; exact e3

/-! ### C07: powers -/

/-- The `k`-fold product `a * a * ... * a` (`k ≥ 1` factors), associated to the left as Python does. -/
noncomputable def prodPow (env : Env) (a : Gaussian) : ℕ → Py Gaussian
  | 0 => .ok a
  | k + 1 => do (← prodPow env a k).mul env a

/-- **C07** laws of powers, on the natural parameters. -/
theorem C07_pow_laws (env : Env) {n : ℕ} (a b : Gaussian) (P Q : Matrix (Fin n) (Fin n) ℝ) (h k : Fin n → ℝ)
    (ha : HasNatural env a P h) (hb : HasNatural env b Q k) (hP : Pᵀ = P) (hQ : Qᵀ = Q) (p q : ℝ) :
    a.pow env 1 = .ok (ofNatural (.m P) (.v h)) ∧
    a.pow env 0 = .ok (asFactor n) ∧
    (a.pow env p >>= fun g => g.pow env q) = a.pow env (p * q) ∧
    (do let x ← a.pow env p; let y ← a.pow env q; x.mul env y) = a.pow env (p + q) ∧
    (do let x ← a.mul env b; x.pow env p) = (do let x ← a.pow env p; let y ← b.pow env p; x.mul env y) := by
  refine ⟨?_, ?_, ?_, ?_, ?_⟩
  · rw [pow_natural ha]; simp
  · rw [pow_natural ha]; simp [asFactor, Arr.zeros]; rfl
  · rw [pow_natural ha, ok_bind, pow_natural (hasNatural_ofNatural _ _ _), pow_natural ha]
    simp [smul_smul, mul_comm]
  · rw [pow_natural ha, pow_natural ha, ok_bind, ok_bind, pow_natural ha,
      mul_natural (hasNatural_ofNatural _ _ _) (hasNatural_ofNatural _ _ _) (by rw [transpose_smul, hP])
        (by rw [transpose_smul, hP])]
    simp [add_smul]
  · rw [mul_natural ha hb hP hQ, ok_bind, pow_natural (hasNatural_ofNatural _ _ _), pow_natural ha, pow_natural hb,
      ok_bind, ok_bind,
      mul_natural (hasNatural_ofNatural _ _ _) (hasNatural_ofNatural _ _ _) (by rw [transpose_smul, hP])
        (by rw [transpose_smul, hQ])]
    simp [smul_add]

example : ((ofMoment (.v ![1, -4]) (.m (Matrix.diagonal ![(2 : ℝ), 3]))).pow calmEnv (1 / 2) >>= fun g => g.pow calmEnv (-3)) =
    (ofMoment (.v ![1, -4]) (.m (Matrix.diagonal ![(2 : ℝ), 3]))).pow calmEnv (1 / 2 * -3) :=
  (C07_pow_laws calmEnv _ _ _ _ _ _ (natural_of_moment _ posDef_two rfl) (natural_of_moment ![0, 0] posDef_two rfl)
    (posDef_symm posDef_two.inv) (posDef_symm posDef_two.inv) _ _).2.2.1

/-- **C07** an integer power is the repeated product: same natural parameters as `a ** (k+1)`. -/
theorem C07_pow_is_repeated_product (env : Env) {n : ℕ} (a : Gaussian) (P : Matrix (Fin n) (Fin n) ℝ) (h : Fin n → ℝ)
    (ha : HasNatural env a P h) (hP : Pᵀ = P) (k : ℕ) :
    ∃ g g', prodPow env a k = .ok g ∧ a.pow env ((k + 1 : ℕ) : ℝ) = .ok g' ∧
      ∃ R s, HasNatural (n := n) env g R s ∧ HasNatural (n := n) env g' R s := by
  have key : ∃ g, prodPow env a k = .ok g ∧ HasNatural env g (((k + 1 : ℕ) : ℝ) • P) (((k + 1 : ℕ) : ℝ) • h) := by
    induction k with
    | zero => exact ⟨a, rfl, by simpa using ha⟩
    | succ k ih =>
      obtain ⟨g, hg, hn⟩ := ih
      refine ⟨_, by rw [prodPow, hg, ok_bind, mul_natural hn ha (by rw [transpose_smul, hP]) hP], ?_⟩
      have e1 : ((k + 1 : ℕ) : ℝ) • P + P = ((k + 1 + 1 : ℕ) : ℝ) • P := by
        rw [Nat.cast_succ (k + 1), add_smul, one_smul]
      have e2 : ((k + 1 : ℕ) : ℝ) • h + h = ((k + 1 + 1 : ℕ) : ℝ) • h := by
        rw [Nat.cast_succ (k + 1), add_smul, one_smul]
      rw [e1, e2]
      exact hasNatural_ofNatural _ _ _
  obtain ⟨g, hg, hn⟩ := key
  exact ⟨g, _, hg, pow_natural ha _, _, _, hn, hasNatural_ofNatural _ _ _⟩

example : ∃ g g', prodPow calmEnv (ofMoment (.v ![1, -4]) (.m (Matrix.diagonal ![(2 : ℝ), 3]))) 4 = .ok g ∧
    (ofMoment (.v ![1, -4]) (.m (Matrix.diagonal ![(2 : ℝ), 3]))).pow calmEnv ((4 + 1 : ℕ) : ℝ) = .ok g' ∧
      ∃ R s, HasNatural (n := 2) calmEnv g R s ∧ HasNatural (n := 2) calmEnv g' R s :=
  C07_pow_is_repeated_product _ _ _ _ (natural_of_moment _ posDef_two rfl) (posDef_symm posDef_two.inv) 4

/-! ### C08: the neutral factor -/

/-- **C08** `as_factor(n)` is neutral for `*` and `/`, and reads the moments of `as_marginal(n)`. -/
theorem C08_asFactor_neutral (env : Env) {n : ℕ} (a : Gaussian) (P : Matrix (Fin n) (Fin n) ℝ) (h : Fin n → ℝ)
    (ha : HasNatural env a P h) (hP : Pᵀ = P) :
    a.mul env (asFactor n) = .ok (ofNatural (.m P) (.v h)) ∧
    (asFactor n).mul env a = .ok (ofNatural (.m P) (.v h)) ∧
    a.truediv env (asFactor n) = .ok (ofNatural (.m P) (.v h)) ∧
    (asFactor n).mean env = (asMarginal n).mean env ∧ (asFactor n).cov env = (asMarginal n).cov env ∧
    HasMoments env (asMarginal n) (0 : Fin n → ℝ) ((10 ^ 10 : ℝ) • (1 : Matrix (Fin n) (Fin n) ℝ)) := by
  have h0 : HasNatural env (asFactor n) (0 : Matrix (Fin n) (Fin n) ℝ) (0 : Fin n → ℝ) := hasNatural_ofNatural _ _ _
  have hm : HasMoments env (asFactor n) (0 : Fin n → ℝ) (LARGE_NUM • (1 : Matrix (Fin n) (Fin n) ℝ)) :=
    moment_of_natural_broad _ (by rw [Matrix.trace_zero]; exact TRACE_EPS_pos)
  have hm' : HasMoments env (asMarginal n) (0 : Fin n → ℝ) (LARGE_NUM • (1 : Matrix (Fin n) (Fin n) ℝ)) :=
    hasMoments_ofMoment _ _ _
  refine ⟨?_, ?_, ?_, hm.1.trans hm'.1.symm, hm.2.trans hm'.2.symm, hm'⟩
  · rw [mul_natural ha h0 hP transpose_zero]; simp
  · rw [mul_natural h0 ha transpose_zero hP]; simp
  · rw [truediv_natural ha h0]; simp

example : (ofMoment (.v ![1, -4]) (.m (Matrix.diagonal ![(2 : ℝ), 3]))).mul calmEnv (asFactor 2) =
    .ok (ofNatural (.m (Matrix.diagonal ![(2 : ℝ), 3])⁻¹) (.v ((Matrix.diagonal ![(2 : ℝ), 3])⁻¹ *ᵥ ![1, -4]))) :=
  (C08_asFactor_neutral calmEnv _ _ _ (natural_of_moment _ posDef_two rfl) (posDef_symm posDef_two.inv)).1

/-- **C08**, why symmetry is needed: a product with the neutral factor symmetrises the precision. -/
theorem C08_asymmetric_counterexample (env : Env) :
    (ofNatural (.m !![1, 1; 0, (1 : ℝ)]) (.v ![0, 0])).mul env (asFactor 2) ≠
      .ok (ofNatural (.m !![1, 1; 0, (1 : ℝ)]) (.v ![0, 0])) := by
  have h0 : HasNatural env (asFactor 2) (0 : Matrix (Fin 2) (Fin 2) ℝ) (0 : Fin 2 → ℝ) := hasNatural_ofNatural _ _ _
  rw [mul_natural' (hasNatural_ofNatural _ _ _) h0]
  intro h
  have := hasNatural_ofNatural env ((2 : ℝ)⁻¹ • ((!![1, 1; 0, (1 : ℝ)] + 0) + (!![1, 1; 0, (1 : ℝ)] + 0)ᵀ)) (![0, 0] + (0 : Fin 2 → ℝ))
  rw [Except.ok.inj h] at this
  have := (hasNatural_inj this (hasNatural_ofNatural _ _ _)).1
  have := congrFun (congrFun this 0) 1
  simp at this

/-! ### C09: copies -/

/-- **C09** For every Gaussian built from one complete parametrisation and every read history, `copy()` succeeds and the copy
reads like the freshly built original, in every attribute and after every further history of reads of the copy. -/
theorem C09_copy_faithful (env : Env) (g : Gaussian)
    (hg : (∃ mean cov, g = ofMoment mean cov) ∨ (∃ precision shift, g = ofNatural precision shift))
    (history later : List Read) (r : Read) :
    ∃ c, (copy env (afterReads env history g)).1 = .ok c ∧
      (read env r (afterReads env later c)).1 = (read env r g).1 := by
  have inv : ∀ (rs : List Read) (g : Gaussian), Complete g →
      (afterReads env rs g).mode = g.mode ∧ Complete (afterReads env rs g) ∧
      ∀ r, (read env r (afterReads env rs g)).1 = (read env r g).1 := by
    intro rs
    induction rs with
    | nil => intro g hg; exact ⟨rfl, hg, fun r => rfl⟩
    | cons x rs ih =>
      intro g hg
      have h1 := read_step env g hg x
      obtain ⟨i1, i2, i3⟩ := ih _ h1.1
      refine ⟨i1.trans (read_mode env g x hg), i2, fun r => (i3 r).trans (h1.2 r)⟩
  rcases hg with ⟨mn, cv, rfl⟩ | ⟨p, s, rfl⟩
  · have hc : Complete (ofMoment mn cv) := complete_init _ _ _ _ (by simp)
    obtain ⟨i1, i2, i3⟩ := inv history _ hc
    generalize afterReads env history (ofMoment mn cv) = g' at *
    have hmode : g'.mode = .moment := i1
    have e1 : (getMean env g').1 = .ok (some mn.atleast1d) := by
      have := i3 .mean
      simp only [read] at this
      rw [show (getMean env (ofMoment mn cv)).1 = _ from mean_ofMoment env mn cv] at this
      exact map_arr_inj this
    have e2 : (getCov env (getMean env g').2).1 = .ok (some cv) := by
      rw [(sameReads_mean env g' i2).cov]
      have := i3 .cov
      simp only [read] at this
      rw [show (getCov env (ofMoment mn cv)).1 = _ from cov_ofMoment env mn cv] at this
      exact map_arr_inj this
    refine ⟨ofMoment mn cv, ?_, (inv later _ hc).2.2 r⟩
    rw [copy, if_neg (by rw [hmode]; decide)]
    rcases h1 : getMean env g' with ⟨r1, g1⟩
    rw [h1] at e1 e2
    dsimp only at e1 e2
    subst e1
    rcases h2 : getCov env g1 with ⟨r2, g2⟩
    rw [h2] at e2
    dsimp only at e2
    subst e2
    simp [h2, ofMoment, init]
  · have hc : Complete (ofNatural p s) := complete_init _ _ _ _ (by simp)
    obtain ⟨i1, i2, i3⟩ := inv history _ hc
    generalize afterReads env history (ofNatural p s) = g' at *
    have hmode : g'.mode = .natural := i1
    have e1 : (getPrecision env g').1 = .ok (some p) := by
      have := i3 .precision
      simp only [read] at this
      rw [show (getPrecision env (ofNatural p s)).1 = _ from precision_ofNatural env p s] at this
      exact map_arr_inj this
    have e2 : (getShift env (getPrecision env g').2).1 = .ok (some s.atleast1d) := by
      rw [(sameReads_precision env g' i2).shift]
      have := i3 .shift
      simp only [read] at this
      rw [show (getShift env (ofNatural p s)).1 = _ from shift_ofNatural env p s] at this
      exact map_arr_inj this
    refine ⟨ofNatural p s, ?_, (inv later _ hc).2.2 r⟩
    rw [copy, if_pos hmode]
    rcases h1 : getPrecision env g' with ⟨r1, g1⟩
    rw [h1] at e1 e2
    dsimp only at e1 e2
    subst e1
    rcases h2 : getShift env g1 with ⟨r2, g2⟩
    rw [h2] at e2
    dsimp only at e2
    subst e2
    simp [h2, ofNatural, init]

example : ∃ c, (copy fussyEnv (afterReads fussyEnv [.precision, .dim] (ofMoment (.v ![1, 2]) (Arr.eye 2)))).1 = .ok c ∧
    (read fussyEnv .shift (afterReads fussyEnv [.chol] c)).1 = (read fussyEnv .shift (ofMoment (.v ![1, 2]) (Arr.eye 2))).1 :=
  C09_copy_faithful _ _ (.inl ⟨_, _, rfl⟩) _ _ _

/-! ### C10: the `==` operator -/

/-- The tolerance relation `==` tests, on numbers. -/
def Close (x y : ℝ) : Prop := |x - y| ≤ 1 / 1000 + 1 / 1000 * |y|

/-- **C10** `g == h` decides entrywise closeness of means and covariances, relative to the *right* operand. -/
theorem C10_eq_iff (env : Env) {n : ℕ} (a b : Gaussian) (μ ν : Fin n → ℝ) (C D : Matrix (Fin n) (Fin n) ℝ)
    (ha : HasMoments env a μ C) (hb : HasMoments env b ν D) :
    ∃ t, a.eq env b = .ok t ∧ (t = true ↔ (∀ i, Close (μ i) (ν i)) ∧ ∀ i j, Close (C i j) (D i j)) := by
  simp only [Gaussian.eq, ha.meanA, hb.meanA, ha.covA, hb.covA, ok_bind, allclose_vv, allclose_mm, py_pure]
  refine ⟨_, rfl, ?_⟩
  simp [Close]

/-- **C10** reflexivity: comparing a Gaussian with itself, or with any Gaussian of the same moments, gives `True`. -/
theorem C10_eq_refl (env : Env) {n : ℕ} (a : Gaussian) (μ : Fin n → ℝ) (C : Matrix (Fin n) (Fin n) ℝ)
    (ha : HasMoments env a μ C) : a.eq env a = .ok true := by
  obtain ⟨t, h, ht⟩ := C10_eq_iff env a a μ μ C C ha ha
  rw [h]
  congr 1
  rw [ht]
  have : ∀ x : ℝ, Close x x := fun x => by simp only [Close, sub_self, abs_zero]; positivity
  exact ⟨fun i => this _, fun i j => this _⟩

example : (ofMoment (.v ![1, -4]) (.m (Matrix.diagonal ![(2 : ℝ), 3]))).eq calmEnv
    (ofMoment (.v ![1, -4]) (.m (Matrix.diagonal ![(2 : ℝ), 3]))) = .ok true :=
  C10_eq_refl _ _ _ _ (hasMoments_ofMoment _ _ _)

/-- **C10** `==` is not symmetric. -/
theorem C10_eq_not_symmetric (env : Env) : ∃ a b : Gaussian, a.eq env b = .ok true ∧ b.eq env a = .ok false := by
  let a := ofMoment (.v ![(0 : ℝ)]) (.m (1 : Matrix (Fin 1) (Fin 1) ℝ))
  let b := ofMoment (.v ![(1001 / 1000000 : ℝ)]) (.m (1 : Matrix (Fin 1) (Fin 1) ℝ))
  obtain ⟨t, h, ht⟩ := C10_eq_iff env a b _ _ _ _ (hasMoments_ofMoment _ _ _) (hasMoments_ofMoment _ _ _)
  obtain ⟨t', h', ht'⟩ := C10_eq_iff env b a _ _ _ _ (hasMoments_ofMoment _ _ _) (hasMoments_ofMoment _ _ _)
  refine ⟨a, b, ?_, ?_⟩
  · rw [h]; congr 1; rw [ht]
    simp [Close, abs_of_pos]; norm_num
  · rw [h']; congr 1; rw [← Bool.not_eq_true, ht']
    simp [Close, abs_of_pos]; norm_num

/-- **C10** `==` is not transitive. -/
theorem C10_eq_not_transitive (env : Env) :
    ∃ a b c : Gaussian, a.eq env b = .ok true ∧ b.eq env c = .ok true ∧ a.eq env c = .ok false := by
  let a := ofMoment (.v ![(0 : ℝ)]) (.m (1 : Matrix (Fin 1) (Fin 1) ℝ))
  let b := ofMoment (.v ![(1 / 1000 : ℝ)]) (.m (1 : Matrix (Fin 1) (Fin 1) ℝ))
  let c := ofMoment (.v ![(2 / 1000 : ℝ)]) (.m (1 : Matrix (Fin 1) (Fin 1) ℝ))
  obtain ⟨t, h, ht⟩ := C10_eq_iff env a b _ _ _ _ (hasMoments_ofMoment _ _ _) (hasMoments_ofMoment _ _ _)
  obtain ⟨t', h', ht'⟩ := C10_eq_iff env b c _ _ _ _ (hasMoments_ofMoment _ _ _) (hasMoments_ofMoment _ _ _)
  obtain ⟨t'', h'', ht''⟩ := C10_eq_iff env a c _ _ _ _ (hasMoments_ofMoment _ _ _) (hasMoments_ofMoment _ _ _)
  refine ⟨a, b, c, ?_, ?_, ?_⟩
  · rw [h]; congr 1; rw [ht]
    simp [Close]
  · rw [h']; congr 1; rw [ht']
    simp only [Close]; norm_num [abs_of_neg, abs_of_pos]
  · rw [h'']; congr 1; rw [← Bool.not_eq_true, ht'']
    simp only [Close]; norm_num [abs_of_neg, abs_of_pos]

/-! ### C11: assignment does not refresh derived parameters -/

/-- **C11** After `precision` (or `shift`) was read once, assigning a new mean or covariance leaves precision and shift as they
were. -/
theorem C11_assignment_stale (env : Env) {n : ℕ} (μ : Fin n → ℝ) (C : Matrix (Fin n) (Fin n) ℝ) (hC : C.PosDef)
    (hi : env.illPos C = false) (μ' : Fin n → ℝ) (C' : Matrix (Fin n) (Fin n) ℝ) :
    let g := ofMoment (.v μ) (.m C)
    let g' := ((getPrecision env g).2.setMean (some (.v μ'))).setCov (some (.m C'))
    let g'' := ((getShift env g).2.setMean (some (.v μ'))).setCov (some (.m C'))
    HasMoments env g' μ' C' ∧ HasNatural env g' C⁻¹ (C⁻¹ *ᵥ μ) ∧
    HasMoments env g'' μ' C' ∧ HasNatural env g'' C⁻¹ (C⁻¹ *ᵥ μ) := by
  have hm := momentToNatural_good (env := env) μ hC hi
  refine ⟨⟨?_, ?_⟩, ⟨?_, ?_⟩, ⟨?_, ?_⟩, ⟨?_, ?_⟩⟩ <;>
    simp [ofMoment, init, getPrecision, getShift, hm, setMean, setCov, Gaussian.mean, Gaussian.cov, getMean, getCov,
      Gaussian.precision, Gaussian.shift]

/-- **C11**, the object is inconsistent afterwards: after changing only the mean, the shift is no longer precision times mean. -/
theorem C11_assignment_inconsistent (env : Env) {n : ℕ} (μ : Fin n → ℝ) (C : Matrix (Fin n) (Fin n) ℝ) (hC : C.PosDef)
    (hi : env.illPos C = false) (μ' : Fin n → ℝ) (hne : μ' ≠ μ) :
    ∃ P h, HasNatural env ((getPrecision env (ofMoment (.v μ) (.m C))).2.setMean (some (.v μ'))) P h ∧
      HasMoments env ((getPrecision env (ofMoment (.v μ) (.m C))).2.setMean (some (.v μ'))) μ' C ∧ h ≠ P *ᵥ μ' := by
  have hm := momentToNatural_good (env := env) μ hC hi
  refine ⟨C⁻¹, C⁻¹ *ᵥ μ, ⟨?_, ?_⟩, ⟨?_, ?_⟩, ?_⟩
  iterate 4
    simp [ofMoment, init, getPrecision, hm, setMean, Gaussian.mean, Gaussian.cov, getMean, getCov,
      Gaussian.precision, Gaussian.shift, getShift]
  intro h
  have hu : IsUnit C.det := (isUnit_iff_isUnit_det _).1 hC.isUnit
  have := congrArg (C *ᵥ ·) h
  simp only [mulVec_mulVec, mul_nonsing_inv _ hu, one_mulVec] at this
  exact hne this.symm

example : ∃ P h, HasNatural calmEnv ((getPrecision calmEnv (ofMoment (.v ![1, -4])
      (.m (Matrix.diagonal ![(2 : ℝ), 3])))).2.setMean (some (.v ![0, 0]))) P h ∧
    HasMoments calmEnv ((getPrecision calmEnv (ofMoment (.v ![1, -4])
      (.m (Matrix.diagonal ![(2 : ℝ), 3])))).2.setMean (some (.v ![0, 0]))) ![0, 0] (Matrix.diagonal ![(2 : ℝ), 3]) ∧
      h ≠ P *ᵥ ![0, 0] :=
  C11_assignment_inconsistent _ _ _ posDef_two rfl _ (by intro h; have := congrFun h 0; simp at this)

/-- **C11**, second half: if nothing derived was read before, the assignment is reflected — the object then reads exactly
like one freshly built from the new values. -/
theorem C11_assignment_fresh (a c a' c' : Arr) :
    ((ofMoment a c).setMean (some a'.atleast1d)).setCov (some c') = ofMoment a' c' := by
  simp [ofMoment, init, setMean, setCov]

end Verif

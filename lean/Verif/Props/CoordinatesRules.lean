import Verif.Props.Coordinates

/-!
# Coordinates and units: sigma points and Monte Carlo (C90)
-/

namespace Verif

open Matrix Gaussian

variable {env : Env} {jac : Jac} {n k : ℕ}

/-! ## The unscented transform: lower triangular changes, in particular changes of units -/

section unscented

variable {c : Chart n} {d : Chart k} {α β κ : ℝ}

/-- Every new component is computed from the same and earlier old components; the determinant makes the diagonal nonzero. -/
def Chart.Triangular (c : Chart n) : Prop := ∀ i j, i < j → c.A i j = 0

/-- New units for every component: `x i ↦ s i * x i + a i`. -/
def Chart.units (s a : Fin n → ℝ) (hs : ∀ i, s i ≠ 0) : Chart n :=
  ⟨diagonal s, a, by rw [det_diagonal]; exact Finset.prod_ne_zero_iff.2 fun i _ => hs i⟩

theorem Chart.units_triangular (s a : Fin n → ℝ) (hs : ∀ i, s i ≠ 0) : (Chart.units s a hs).Triangular :=
  fun _ _ h => diagonal_apply_ne _ h.ne

theorem Chart.Triangular.diag_ne (h : c.Triangular) (i : Fin n) : c.A i i ≠ 0 := by
  have := c.det_ne
  rw [det_of_isLowerTriangular (M := c.A) (fun i j hij => h i j hij)] at this
  exact Finset.prod_ne_zero_iff.1 this i (Finset.mem_univ i)

/-- The Cholesky factor in the new coordinates has the old rows in new coordinates, up to signs. -/
theorem chol_chart (h : c.Triangular) {P : Matrix (Fin n) (Fin n) ℝ} (hP : P.PosDef) (hP' : (c.cov P).PosDef) :
    ∃ s : Fin n → ℝ, (∀ i, s i = 1 ∨ s i = -1) ∧ ∀ i, cholU hP' i = s i • c.A *ᵥ (cholU hP i) := by
  have hU := cholU_spec hP
  set U := cholU hP
  set s : Fin n → ℝ := fun i => if 0 < c.A i i then 1 else -1 with hs
  have hs1 : ∀ i, s i = 1 ∨ s i = -1 := fun i => by simp only [hs]; split_ifs <;> simp
  have key : IsUpperChol (c.cov P) (diagonal s * (U * c.Aᵀ)) := by
    refine ⟨fun i j hij => ?_, fun i => ?_, ?_⟩
    · rw [diagonal_mul, mul_apply, Finset.sum_eq_zero, mul_zero]
      intro l _
      rcases lt_or_ge l i with hl | hl
      · rw [hU.upper _ _ hl, zero_mul]
      · rw [transpose_apply, h _ _ (lt_of_lt_of_le hij hl), mul_zero]
    · rw [diagonal_mul, mul_apply, Finset.sum_eq_single i]
      · have h1 := hU.diag_pos i
        have h2 := h.diag_ne i
        rw [transpose_apply]
        simp only [hs]
        split_ifs with h3
        · rw [one_mul]; exact mul_pos h1 h3
        · have : c.A i i < 0 := lt_of_le_of_ne (not_lt.1 h3) h2
          nlinarith
      · intro l _ hl
        rcases lt_or_gt_of_ne hl with hl | hl
        · rw [hU.upper _ _ hl, zero_mul]
        · rw [transpose_apply, h _ _ hl, mul_zero]
      · simp
    · have hss : diagonal s * diagonal s = (1 : Matrix (Fin n) (Fin n) ℝ) := by
        rw [diagonal_mul_diagonal, ← diagonal_one]
        congr 1; funext i
        rcases hs1 i with e | e <;> rw [e] <;> norm_num
      rw [transpose_mul, transpose_mul, transpose_transpose, diagonal_transpose, Matrix.mul_assoc, ← Matrix.mul_assoc (diagonal s) (diagonal s),
        hss, Matrix.one_mul, Chart.cov, ← hU.mul_eq]
      simp only [Matrix.mul_assoc]
  refine ⟨s, hs1, fun i => ?_⟩
  rw [upperChol_unique (cholU_spec hP') key]
  funext j
  rw [diagonal_mul, Pi.smul_apply, smul_eq_mul, mul_apply]
  congr 1
  simp only [mulVec, dotProduct, transpose_apply]
  exact Finset.sum_congr rfl fun l _ => mul_comm _ _

/-- Sums over sigma points with weights that treat opposite points alike do not see the signs of the directions. -/
theorem sum_sigma_signs {L L' : Matrix (Fin n) (Fin n) ℝ} {s : Fin n → ℝ} (hs : ∀ i, s i = 1 ∨ s i = -1)
    (hL : ∀ i, L' i = s i • c.A *ᵥ (L i)) (w : Fin (1 + n + n) → ℝ)
    (hw : ∀ i, w (Fin.castAdd n (Fin.natAdd 1 i)) = w (Fin.natAdd (1 + n) i)) (μ : Fin n → ℝ) (q : ℝ) (Φ : (Fin n → ℝ) → ℝ) :
    ∑ l, w l * Φ (sigmaMat (c.pt μ) L' q l) = ∑ l, w l * Φ (c.pt (sigmaMat μ L q l)) := by
  rw [sum_ut, sum_ut]
  simp only [sigmaMat_centre, hw, add_assoc, ← Finset.sum_add_distrib, ← mul_add]
  congr 1
  refine Finset.sum_congr rfl fun i _ => ?_
  congr 1
  have e1 : sigmaMat μ L q (Fin.castAdd n (Fin.natAdd 1 i)) = μ + q • L i := by rw [sigmaMat_plus]; rfl
  have e2 : sigmaMat μ L q (Fin.natAdd (1 + n) i) = μ - q • L i := by rw [sigmaMat_minus]; rfl
  have e3 : sigmaMat (c.pt μ) L' q (Fin.castAdd n (Fin.natAdd 1 i)) = c.pt μ + q • L' i := by rw [sigmaMat_plus]; rfl
  have e4 : sigmaMat (c.pt μ) L' q (Fin.natAdd (1 + n) i) = c.pt μ - q • L' i := by rw [sigmaMat_minus]; rfl
  have f1 : c.pt (μ + q • L i) = c.pt μ + q • (c.A *ᵥ L i) := by rw [c.pt_add, mulVec_smul]
  have f2 : c.pt (μ - q • L i) = c.pt μ - q • (c.A *ᵥ L i) := by rw [sub_eq_add_neg, ← smul_neg, c.pt_add, mulVec_smul, mulVec_neg, smul_neg, ← sub_eq_add_neg]
  rw [e1, e2, e3, e4, f1, f2, hL]
  rcases hs i with e | e <;> rw [e]
  · rw [one_smul]
  · rw [neg_one_smul, smul_neg, sub_neg_eq_add, ← sub_eq_add_neg, add_comm]

theorem weights_pair (i : Fin n) : UT.meanWeights n α κ (Fin.castAdd n (Fin.natAdd 1 i)) = UT.meanWeights n α κ (Fin.natAdd (1 + n) i) ∧
    UT.covWeights n α β κ (Fin.castAdd n (Fin.natAdd 1 i)) = UT.covWeights n α β κ (Fin.natAdd (1 + n) i) := by
  constructor <;> simp [UT.meanWeights, UT.covWeights]

/-- The unscented transform commutes with lower triangular changes of the state and all changes of the output. -/
theorem unscented_carries {v : UT} (hv : UT.init n α β κ = .ok v) (hpos : 0 < α ^ 2 * (n + κ)) (hc : c.Triangular) {f f' : Func}
    {F F' : (Fin n → ℝ) → Fin k → ℝ} (hf : OnRows f F) (hf' : OnRows f' F') (h : ∀ x, F' (c.pt x) = d.pt (F x)) :
    Carries env (v.transform env) c d f f' := by
  intro g g' μ P hg hP hg' z zv S C hz hT
  have hP' := c.cov_posDef hP
  obtain ⟨Y, σ, hσ, hY, h1⟩ := ut_rows hv hpos hg hP hf
  obtain ⟨Y', σ', hσ', hY', h2⟩ := ut_rows hv hpos hg' hP' hf'
  obtain ⟨s, hs, hL⟩ := chol_chart hc hP hP'
  have h0 := (ut_init hv).1
  set wm := UT.meanWeights n α κ with hwm
  set wc := UT.covWeights n α β κ with hwc
  have sm : ∀ Φ : (Fin n → ℝ) → ℝ, ∑ l, wm l * Φ (σ' l) = ∑ l, wm l * Φ (c.pt (σ l)) := fun Φ => by
    rw [hσ, hσ']; exact sum_sigma_signs hs hL wm (fun i => (weights_pair (β := β) i).1) μ _ Φ
  have sc : ∀ Φ : (Fin n → ℝ) → ℝ, ∑ l, wc l * Φ (σ' l) = ∑ l, wc l * Φ (c.pt (σ l)) := fun Φ => by
    rw [hσ, hσ']; exact sum_sigma_signs hs hL wc (fun i => (weights_pair i).2) μ _ Φ
  have hsum : ∑ l, wm l = 1 := sum_meanWeights h0
  have hFY : ∀ l j, F' (c.pt (σ l)) j = ∑ i, d.A j i * Y l i + d.a j := fun l j => by
    rw [h, Chart.pt, Pi.add_apply, mulVec, dotProduct, hY]; rfl
  have hmean : ∀ j, (wm ᵥ* Y') j = ∑ i, d.A j i * (wm ᵥ* Y) i + d.a j := by
    intro j
    have e1 : (wm ᵥ* Y') j = ∑ l, wm l * F' (σ' l) j := by rw [hY']; rfl
    rw [e1, sm fun x => F' x j]
    simp only [hFY, mul_add, Finset.sum_add_distrib, ← Finset.sum_mul, hsum, one_mul]
    congr 1
    simp only [vecMul, dotProduct, Finset.mul_sum]
    rw [Finset.sum_comm]
    exact Finset.sum_congr rfl fun i _ => Finset.sum_congr rfl fun l _ => by ring
  have hm' : wm ᵥ* Y' = d.pt (wm ᵥ* Y) := by
    funext j; rw [hmean j]; rfl
  set m := wm ᵥ* Y with hm
  set Z : Matrix (Fin (1 + n + n)) (Fin k) ℝ := of fun l j => Y l j - m j with hZ
  set X : Matrix (Fin (1 + n + n)) (Fin n) ℝ := of fun l j => σ l j - μ j with hX
  have hZ' : ∀ l j, F' (c.pt (σ l)) j - (d.pt m) j = (Z * d.Aᵀ) l j := by
    intro l j
    rw [hFY, mul_apply, Chart.pt, Pi.add_apply, mulVec, dotProduct, add_sub_add_right_eq_sub, ← Finset.sum_sub_distrib]
    refine Finset.sum_congr rfl fun i _ => ?_
    rw [transpose_apply, hZ, of_apply]; ring
  have hX' : ∀ l j, c.pt (σ l) j - (c.pt μ) j = (X * c.Aᵀ) l j := by
    intro l j
    have := congrFun (c.pt_sub (σ l) μ) j
    rw [Pi.sub_apply] at this
    rw [this, mul_apply, mulVec, dotProduct]
    exact Finset.sum_congr rfl fun i _ => by rw [transpose_apply, hX, of_apply, Pi.sub_apply, mul_comm]
  have hcov : (of fun i j => ∑ l, wc l * (Y' l i - (wm ᵥ* Y') i) * (Y' l j - (wm ᵥ* Y') j)) =
      d.cov (of fun i j => ∑ l, wc l * (Y l i - m i) * (Y l j - m j)) := by
    have e : (of fun i j => ∑ l, wc l * (Y' l i - (wm ᵥ* Y') i) * (Y' l j - (wm ᵥ* Y') j)) =
        of fun i j => ∑ l, wc l * (Z * d.Aᵀ) l i * (Z * d.Aᵀ) l j := by
      ext i j
      simp only [of_apply]
      rw [hm', hY']
      have := sc fun x => (F' x i - (d.pt m) i) * (F' x j - (d.pt m) j)
      simp only [hZ', ← mul_assoc] at this
      exact this
    rw [e, ← diag_form, Chart.cov, show (of fun i j => ∑ l, wc l * (Y l i - m i) * (Y l j - m j)) = Zᵀ * diagonal wc * Z from (diag_form ..).symm]
    simp only [transpose_mul, transpose_transpose, Matrix.mul_assoc]
  have hcross : (of fun i j => ∑ l, wc l * (σ' l i - (c.pt μ) i) * (Y' l j - (wm ᵥ* Y') j)) =
      c.A * (of fun i j => ∑ l, wc l * (σ l i - μ i) * (Y l j - m j)) * d.Aᵀ := by
    have e : (of fun i j => ∑ l, wc l * (σ' l i - (c.pt μ) i) * (Y' l j - (wm ᵥ* Y') j)) =
        of fun i j => ∑ l, wc l * (X * c.Aᵀ) l i * (Z * d.Aᵀ) l j := by
      ext i j
      simp only [of_apply]
      rw [hm', hY']
      have := sc fun x => (x i - (c.pt μ) i) * (F' x j - (d.pt m) j)
      simp only [hZ', hX', ← mul_assoc] at this
      exact this
    rw [e, ← diag_form, show (of fun i j => ∑ l, wc l * (σ l i - μ i) * (Y l j - m j)) = Xᵀ * diagonal wc * Z from (diag_form ..).symm]
    simp only [transpose_mul, transpose_transpose, Matrix.mul_assoc]
  rw [hcov, hcross, hm'] at h2
  rw [hT, Except.ok.injEq, Prod.mk.injEq, Prod.mk.injEq, Arr.m_inj, Arr.m_inj] at h1
  obtain ⟨rfl, rfl, rfl⟩ := h1
  rw [isVec_inj hz (.inl rfl)]
  exact ⟨_, .inl rfl, h2⟩

/-- **C90.** The unscented Kalman filter and smoother (nonnegative weights): restate the system with any lower triangular change of the
state (new units for every component, or new components computed from the same and earlier ones) and any invertible affine change of
the measurements; the results are the old ones in the new coordinates. -/
theorem C90_unscented {α' β' κ' : ℝ} {v w : UT} (hv : UT.init n α β κ = .ok v) (hw : UT.init n α' β' κ' = .ok w)
    (hpos : 0 < α ^ 2 * (n + κ)) (hpos' : 0 < α' ^ 2 * (n + κ'))
    (hwt : 0 ≤ (α ^ 2 * (n + κ) - n) / (α ^ 2 * (n + κ)) + 1 - α ^ 2 + β)
    (hwt' : 0 ≤ (α' ^ 2 * (n + κ') - n) / (α' ^ 2 * (n + κ')) + 1 - α' ^ 2 + β') (hc : c.Triangular)
    {sys sys' : Sys} {Q : Matrix (Fin n) (Fin n) ℝ} {R : Matrix (Fin k) (Fin k) ℝ} {μ : Fin n → ℝ}
    {P : Matrix (Fin n) (Fin n) ℝ} (hs : SameNoise env c d Q R μ P sys sys') (hf : SameRows c c sys.transition sys'.transition)
    (hh : SameRows c d sys.measurement sys'.measurement) {ys ys' : List Arr} (hne : ys ≠ []) (hys : List.Forall₂ (SameMeas d) ys ys')
    (tZero : ℝ) :
    ∃ fs fs' rs rs', (KFS.init (v.transform env) sys (some (w.transform env))).kalmanFilter env ys none tZero none = .ok fs ∧
      (KFS.init (v.transform env) sys' (some (w.transform env))).kalmanFilter env ys' none tZero none = .ok fs' ∧
      (KFS.init (v.transform env) sys (some (w.transform env))).kalmanSmoother env fs none = .ok rs ∧
      (KFS.init (v.transform env) sys' (some (w.transform env))).kalmanSmoother env fs' none = .ok rs' ∧ fs.length = ys.length ∧
      List.Forall₂ (SameState c) fs fs' ∧ List.Forall₂ (SameState c) rs rs' := by
  have lf : ∀ t, LinearisesOn env (v.transform env) (fun x => sys.transition x (some t) none) n n := fun t => by
    obtain ⟨F, -, h, -⟩ := hf t; exact unscented_linearises hv hpos hwt h
  have lh : ∀ t, LinearisesOn env (w.transform env) (fun x => sys.measurement x (some t) none) n k := fun t => by
    obtain ⟨F, -, h, -⟩ := hh t; exact unscented_linearises hw hpos' hwt' h
  have cf : ∀ t, Carries env (v.transform env) c c (fun x => sys.transition x (some t) none) (fun x => sys'.transition x (some t) none) :=
    fun t => by obtain ⟨F, F', h, h', e⟩ := hf t; exact unscented_carries hv hpos hc h h' e
  have ch : ∀ t, Carries env (w.transform env) c d (fun x => sys.measurement x (some t) none) (fun x => sys'.measurement x (some t) none) :=
    fun t => by obtain ⟨F, F', h, h', e⟩ := hh t; exact unscented_carries hw hpos' hc h h' e
  obtain ⟨fs, fs', h1, h2, h3, h4⟩ := C90_filter (env := env) (u := none) (K := KFS.init (v.transform env) sys (some (w.transform env)))
    (K' := KFS.init (v.transform env) sys' (some (w.transform env))) hs.hQ hs.posQ hs.hQ' hs.hR hs.posR hs.hR' hs.dt rfl rfl lf
    lh cf ch none none hs.init hs.posP hs.init' ys ys' hys tZero
  have hne' : fs ≠ [] := by rintro rfl; exact hne (List.length_eq_zero_iff.1 h3.symm)
  obtain ⟨rs, rs', h5, h6, h7⟩ := C90_smoother (env := env) (u := none) (K := KFS.init (v.transform env) sys (some (w.transform env)))
    (K' := KFS.init (v.transform env) sys' (some (w.transform env))) hs.hQ hs.posQ hs.hQ' hs.dt rfl lf cf hne' h4
  exact ⟨fs, fs', rs, rs', h1, h2, h5, h6, h3, h4, h7⟩

/-- Functions acting row by row can be restated in any coordinates. -/
theorem C90_restate_rows (c : Chart n) (d : Chart k) {f : SysFunc} (h : ∀ t, ∃ F : (Fin n → ℝ) → Fin k → ℝ, OnRows (fun z => f z (some t) none) F) :
    SameRows c d f (c.restate d f) := fun t => by
  obtain ⟨F, hF⟩ := h t
  exact ⟨F, _, hF, c.restate_onRows d hF, fun x => by rw [c.back_pt]⟩

/-- Lorenz 96 in dimension five, every component in its own unit (one of them with the sign reversed). -/
example (q r dt F : ℝ) (hq : 0 < q) (hr : 0 < r) (x y : Fin 5 → ℝ) {sys : Sys} (h : L96.init q r dt 5 F (some (.v x)) = .ok sys) {v : UT}
    (hv : UT.init 5 1 2 1 = .ok v) : ∃ (c : Chart 5) (fs fs' : List Gaussian), c.A = diagonal ![1000, -1, 1 / 60, 2, 3] ∧
      (KFS.init (v.transform calmEnv) sys none).kalmanFilter calmEnv [.v y] none 0 none = .ok fs ∧
      (KFS.init (v.transform calmEnv) (c.sys c (q • 1) (r • 1) x 1 sys) none).kalmanFilter calmEnv [.v (c.pt y)] none 0 none = .ok fs' ∧
      List.Forall₂ (SameState c) fs fs' := by
  have hs : ∀ i, (![1000, -1, 1 / 60, 2, 3] : Fin 5 → ℝ) i ≠ 0 := by
    intro i; fin_cases i <;> norm_num
  set c := Chart.units ![1000, -1, 1 / 60, 2, 3] 0 hs with hc
  have e : L96.init q r dt 5 F (some (.v x)) = Sys.make 5 5 (L96.f dt F) L96.h (.init 5 (some ((Arr.eye 5).smul q)) none)
      (.init 5 (some ((Arr.eye 5).smul r)) none) (Gaussian.ofMoment (.v x) (Arr.eye 5)) 1 := by
    simp only [L96.init, ok_bind, Arr.shape0_v, ne_eq, not_true_eq_false, if_false]
  rw [e, Sys.make, if_pos ⟨rfl, rfl⟩, Except.ok.injEq] at h
  obtain ⟨e1, e2, e3, e4, e5⟩ : sys.transition = L96.f dt F ∧ sys.measurement = L96.h ∧ sys.Q = .m (q • 1 : Matrix (Fin 5) (Fin 5) ℝ) ∧
      sys.R = .m (r • 1 : Matrix (Fin 5) (Fin 5) ℝ) ∧ sys.initState = ofMoment (.v x) (.m (1 : Matrix (Fin 5) (Fin 5) ℝ)) := by
    subst h; exact ⟨rfl, rfl, rfl, rfl, rfl⟩
  have hrow : ∀ z : Fin 5 → ℝ, IsVec (Arr.v z).squeeze z := fun z => .inr rfl
  obtain ⟨fs, fs', -, -, h1, h2, -, -, -, h3, -⟩ := C90_unscented (env := calmEnv) (c := c) (d := c) (sys := sys) (ys := [.v y])
    (ys' := [.v (c.pt y)]) hv hv (by norm_num) (by norm_num) (by norm_num) (by norm_num) (Chart.units_triangular _ _ hs)
    (c.sys_same c e3 (one_smul_posDef 5 hq) e4 (one_smul_posDef 5 hr) (e5 ▸ hasMoments_ofMoment calmEnv x 1) PosDef.one)
    (C90_restate_rows c c fun t => by
      rw [e1]; exact onRows_of (f := fun x => L96.f dt F x (some t) none) fun N X => C53_step_rows dt F X _ _)
    (C90_restate_rows c c fun t => by rw [e2]; exact ⟨fun x j => x j ^ 2, fun N X => rfl⟩) (by simp)
    (.cons ⟨y, hrow y, hrow _⟩ .nil) 0
  exact ⟨c, fs, fs', rfl, h1, h2, h3⟩

/-- Limit of C90: the unscented transform depends on the order of the components.  Exchanging two state variables changes the mean it
computes for the same function, for all parameters it accepts (`x₀ x₁³` at mean zero, variances 2 and covariance 1; the Taylor
transform is not affected, see `C90_extended`). -/
theorem C90_order_matters {v : UT} (hv : UT.init 2 α β κ = .ok v) (hpos : 0 < α ^ 2 * (2 + κ)) {f f' : Func}
    (hf : OnRows f fun (x : Fin 2 → ℝ) (_ : Fin 1) => x 0 * x 1 ^ 3) (hf' : OnRows f' fun (x : Fin 2 → ℝ) (_ : Fin 1) => x 1 * x 0 ^ 3)
    {g : Gaussian} (hg : HasMoments env g 0 !![2, 1; 1, 2]) :
    ∃ m m' S S' C C', v.transform env f g = .ok (.v ![m], S, C) ∧ v.transform env f' g = .ok (.v ![m'], S', C') ∧
      m = α ^ 2 * (2 + κ) / 2 ∧ m' = 2 * (α ^ 2 * (2 + κ)) := by
  have hP : (!![2, 1; 1, 2] : Matrix (Fin 2) (Fin 2) ℝ).PosDef := by
    rw [posDef_iff_real]
    refine ⟨by ext i j; fin_cases i <;> fin_cases j <;> rfl, fun x hx => ?_⟩
    simp only [dotProduct, mulVec, Fin.sum_univ_two, of_apply, cons_val_zero, cons_val_one]
    have : x 0 ≠ 0 ∨ x 1 ≠ 0 := by
      by_contra h
      push Not at h
      exact hx (by ext i; fin_cases i; exacts [h.1, h.2])
    rcases this with h | h <;> nlinarith [sq_nonneg (x 0 + x 1), sq_nonneg (x 0), sq_nonneg (x 1), sq_pos_of_ne_zero h]
  obtain ⟨z, z0, hz⟩ : ∃ z : ℝ, 0 < z ∧ z * z = 2 := ⟨Real.sqrt 2, Real.sqrt_pos.2 (by norm_num), Real.mul_self_sqrt (by norm_num)⟩
  obtain ⟨b, b0, hb⟩ : ∃ b : ℝ, 0 < b ∧ b * b = 3 / 2 :=
    ⟨Real.sqrt (3 / 2), Real.sqrt_pos.2 (by norm_num), Real.mul_self_sqrt (by norm_num)⟩
  have hU : cholU hP = !![z, z / 2; 0, b] := by
    refine upperChol_unique (cholU_spec hP) ⟨fun i j hij => ?_, fun i => ?_, ?_⟩
    · fin_cases i <;> fin_cases j <;> simp at hij ⊢
    · fin_cases i
      · exact z0
      · exact b0
    · ext i j
      fin_cases i <;> fin_cases j <;> simp [mul_apply, Fin.sum_univ_two] <;> nlinarith
  have hpos2 : 0 < α ^ 2 * (((2 : ℕ) : ℝ) + κ) := by exact_mod_cast hpos
  have hs := Real.mul_self_sqrt hpos2.le
  obtain ⟨Y, σ, hσ, hY, a⟩ := ut_rows hv hpos2 hg hP hf
  obtain ⟨Y', σ', hσ', hY', a'⟩ := ut_rows hv hpos2 hg hP hf'
  obtain ⟨T, hT⟩ : ∃ T, T = α ^ 2 * (2 + κ) := ⟨_, rfl⟩
  have wt : ∀ l : Fin 2, UT.meanWeights 2 α κ (Fin.castAdd 2 (Fin.natAdd 1 l)) = 1 / (2 * T) ∧
      UT.meanWeights 2 α κ (Fin.natAdd (1 + 2) l) = 1 / (2 * T) := by
    rw [hT]
    intro l; constructor <;> simp [UT.meanWeights, sq]
  have hα : α * α * (((2 : ℕ) : ℝ) + κ) = α ^ 2 * (((2 : ℕ) : ℝ) + κ) := by rw [sq]
  rw [hα] at hσ hσ'
  rw [← hT] at hpos ⊢
  set q := Real.sqrt (α ^ 2 * (((2 : ℕ) : ℝ) + κ)) with hq
  have hs' : q * q = T := by rw [hs, hT]; norm_num
  have h0 : q ≠ 0 := fun h => by rw [h, mul_zero] at hs'; exact hpos.ne hs'
  have e1 : UT.meanWeights 2 α κ ᵥ* Y = ![T / 2] := by
    funext j
    simp only [vecMul, dotProduct]
    rw [sum_ut, hY, hσ, hU]
    simp only [of_apply, sigmaMat_centre, sigmaMat_plus, sigmaMat_minus, Fin.sum_univ_two, (wt _).1, (wt _).2]
    fin_cases j
    simp
    rw [← hs']
    field_simp
    linear_combination (2 * z ^ 2 + 4) * hz
  have e2 : UT.meanWeights 2 α κ ᵥ* Y' = ![2 * T] := by
    funext j
    simp only [vecMul, dotProduct]
    rw [sum_ut, hY', hσ', hU]
    simp only [of_apply, sigmaMat_centre, sigmaMat_plus, sigmaMat_minus, Fin.sum_univ_two, (wt _).1, (wt _).2]
    fin_cases j
    simp
    rw [← hs']
    field_simp
    linear_combination (2 * z ^ 2 + 4) * hz
  rw [e1] at a
  rw [e2] at a'
  exact ⟨_, _, _, _, _, _, a, a', rfl, rfl⟩

example {v : UT} (hv : UT.init 2 1 0 1 = .ok v) : ∃ m m' S S' C C', m ≠ m' ∧
    v.transform calmEnv (rowsFunc fun (x : Fin 2 → ℝ) (_ : Fin 1) => x 0 * x 1 ^ 3) (ofMoment (.v (0 : Fin 2 → ℝ)) (.m !![2, 1; 1, 2])) = .ok (.v ![m], S, C) ∧
    v.transform calmEnv (rowsFunc fun (x : Fin 2 → ℝ) (_ : Fin 1) => x 1 * x 0 ^ 3) (ofMoment (.v (0 : Fin 2 → ℝ)) (.m !![2, 1; 1, 2])) = .ok (.v ![m'], S', C') := by
  obtain ⟨m, m', S, S', C, C', h1, h2, rfl, rfl⟩ := C90_order_matters hv (by norm_num) (rowsFunc_onRows fun (x : Fin 2 → ℝ) (_ : Fin 1) => x 0 * x 1 ^ 3)
    (rowsFunc_onRows fun (x : Fin 2 → ℝ) (_ : Fin 1) => x 1 * x 0 ^ 3) (hasMoments_ofMoment calmEnv 0 !![2, 1; 1, 2])
  exact ⟨_, _, _, _, _, _, by norm_num, h1, h2⟩

end unscented

/-! ## Units of the sensors: every transform, including Monte Carlo -/

section sensor

variable {d : Chart k} {T : Transform}

/-- The transform returns arrays of the right shape for `f` or raises, and for `f'` does the same with the result in the coordinates
`d`. -/
def ReadsAs (env : Env) (T : Transform) (n : ℕ) (d : Chart k) (f f' : Func) : Prop :=
  ∀ (g : Gaussian) (μ : Fin n → ℝ) (P : Matrix (Fin n) (Fin n) ℝ), HasMoments env g μ P →
    (∃ (z z' : Fin k → ℝ) (S : Matrix (Fin k) (Fin k) ℝ) (C : Matrix (Fin n) (Fin k) ℝ), z' = d.pt z ∧ T f g = .ok (.v z, .m S, .m C) ∧
      T f' g = .ok (.v z', .m (d.cov S), .m (C * d.Aᵀ))) ∨ ∃ e, T f g = .error e ∧ T f' g = .error e

/-- The transform returns arrays of the right shape or raises. -/
def Shaped (env : Env) (T : Transform) (n k : ℕ) (f : Func) : Prop :=
  ∀ (g : Gaussian) (μ : Fin n → ℝ) (P : Matrix (Fin n) (Fin n) ℝ), HasMoments env g μ P →
    (∃ (z : Fin k → ℝ) (S : Matrix (Fin k) (Fin k) ℝ) (C : Matrix (Fin n) (Fin k) ℝ), T f g = .ok (.v z, .m S, .m C)) ∨
      ∃ e, T f g = .error e

theorem correct_sensor {K K' : KFS} {t u : Option ℝ} {R : Matrix (Fin k) (Fin k) ℝ}
    (hMM : K'.measTransform = K.measTransform) (hR : K.R = .m R) (hR2 : K'.R = .m (d.cov R))
    (ch : ReadsAs env K.measTransform n d (fun x => K.measurement x t u) (fun x => K'.measurement x t u))
    {g : Gaussian} {μ : Fin n → ℝ} {P : Matrix (Fin n) (Fin n) ℝ} (hg : HasMoments env g μ P) {y y' : Arr} {yv : Fin k → ℝ}
    (hy : IsVec y yv) (hy' : IsVec y' (d.pt yv)) :
    K'.correct env g y' t u = K.correct env g y t u ∧
      ((∃ (m : Fin n → ℝ) (C : Matrix (Fin n) (Fin n) ℝ), K.correct env g y t u = .ok (ofMoment (.v m) (.m C))) ∨
        ∃ e, K.correct env g y t u = .error e) := by
  rcases ch g μ P hg with ⟨z, z', S, C, rfl, hT, hT'⟩ | ⟨e, hT, hT'⟩
  · rw [← hMM] at hT'
    by_cases hdet : (S + R).det = 0
    · have h1 : K.correct env g y t u = .error .linAlg := by
        simp only [KFS.correct, hT, ok_bind, hR, Arr.iadd_mm, Arr.T_m, npSolve_singular _ hdet, error_bind]
      have hdet' : (d.cov S + d.cov R).det = 0 := by rw [← d.cov_add, d.cov_det, hdet, mul_zero]
      have h2 : K'.correct env g y' t u = .error .linAlg := by
        simp only [KFS.correct, hT', ok_bind, hR2, Arr.iadd_mm, Arr.T_m, npSolve_singular _ hdet', error_bind]
      exact ⟨h2.trans h1.symm, .inr ⟨_, h1⟩⟩
    · have h1 := KFS.correct_of hg hT (.inl rfl) hy hR hdet
      have hdet' : (d.cov S + d.cov R).det ≠ 0 := by
        rw [← d.cov_add, d.cov_det]; exact mul_ne_zero (pow_ne_zero 2 d.det_ne) hdet
      have h2 := KFS.correct_of hg hT' (.inl rfl) hy' hR2 hdet'
      refine ⟨h2.trans (Eq.trans ?_ h1.symm), .inl ⟨_, _, h1⟩⟩
      have hgain : ((d.cov (S + R))⁻¹ * (C * d.Aᵀ)ᵀ)ᵀ = ((S + R)⁻¹ * Cᵀ)ᵀ * d.A⁻¹ := by
        have := gain_chart (⟨1, 0, by simp⟩ : Chart n) d (S + R) C
        simpa only [Matrix.one_mul] using this
      rw [← d.cov_add, hgain, d.pt_sub, mulVec_mulVec, Matrix.mul_assoc _ d.A⁻¹, nonsing_inv_mul _ d.isUnit, Matrix.mul_one]
      congr 4
      simp only [transpose_mul, transpose_transpose, Matrix.mul_assoc, nonsing_inv_mul_cancel_left _ _ d.isUnit]
  · rw [← hMM] at hT'
    have h1 : K.correct env g y t u = .error e := by simp only [KFS.correct, hT, error_bind]
    have h2 : K'.correct env g y' t u = .error e := by simp only [KFS.correct, hT', error_bind]
    exact ⟨h2.trans h1.symm, .inr ⟨_, h1⟩⟩

/-- **C90.** The units of the sensors do not matter at all: if the measurement function, the measurements and the measurement noise are
given in other coordinates, `kalman_filter` does exactly the same (the same states, or the same exception), for every transform that
reads the new measurement function as the old one in the new coordinates; and so does `kalman_smoother`. -/
theorem C90_sensor {K K' : KFS} {u : Option ℝ} {Q : Matrix (Fin n) (Fin n) ℝ} {R : Matrix (Fin k) (Fin k) ℝ}
    (hT : K'.transform = K.transform) (hf : K'.transition = K.transition) (hQ : K'.Q = K.Q) (hi : K'.initState = K.initState)
    (hdt : K'.dt = K.dt) (hMM : K'.measTransform = K.measTransform) (hQ2 : K.Q = .m Q) (hR : K.R = .m R) (hR2 : K'.R = .m (d.cov R))
    (sf : ∀ t, Shaped env K.transform n n (fun x => K.transition x (some t) u))
    (ch : ∀ t, ReadsAs env K.measTransform n d (fun x => K.measurement x (some t) u) (fun x => K'.measurement x (some t) u))
    (prior : Option Gaussian) {μ : Fin n → ℝ} {P : Matrix (Fin n) (Fin n) ℝ} (hg : HasMoments env (prior.getD K.initState) μ P)
    {ys ys' : List Arr} (hys : List.Forall₂ (SameMeas d) ys ys') (tZero : ℝ) :
    K'.kalmanFilter env ys' prior tZero u = K.kalmanFilter env ys prior tZero u ∧
      ∀ fs, K'.kalmanSmoother env fs u = K.kalmanSmoother env fs u := by
  constructor
  · unfold KFS.kalmanFilter
    rw [hi]
    generalize prior.getD K.initState = g at hg
    clear prior
    induction hys generalizing g tZero μ P with
    | nil => rfl
    | @cons y y' ys ys' hy hys ih =>
      obtain ⟨yv, hy, hy'⟩ := hy
      have hpp : K'.predict g (some tZero) u = K.predict g (some tZero) u := by simp only [KFS.predict, hT, hf, hQ]
      simp only [KFS.filterLoop, hpp]
      rcases sf tZero g μ P hg with ⟨z, S, C, h⟩ | ⟨e, h⟩
      · rw [KFS.predict_of h (.inl rfl) hQ2]
        simp only [ok_bind]
        obtain ⟨h1, h2⟩ := correct_sensor hMM hR hR2 (ch tZero) (hasMoments_ofMoment env z (S + Q)) hy hy'
        rw [h1]
        rcases h2 with ⟨m, C', h2⟩ | ⟨e, h2⟩
        · rw [h2, ok_bind, ok_bind, hdt, ih (tZero + K.dt) _ (hasMoments_ofMoment env m C')]
        · rw [h2]; rfl
      · have : K.predict g (some tZero) u = .error e := by simp only [KFS.predict, h, error_bind]
        rw [this]; rfl
  · intro fs
    have hs : ∀ a b t, K'.smooth env a b t u = K.smooth env a b t u := by intro a b t; simp only [KFS.smooth, hT, hf, hQ]
    have hl : ∀ (l : List Gaussian) (nx : Gaussian) (t : ℝ), K'.smoothLoop env u nx t l = K.smoothLoop env u nx t l := by
      intro l
      induction l with
      | nil => intro nx t; rfl
      | cons a l ih => intro nx t; simp only [KFS.smoothLoop, hs, hdt, ih]
    unfold KFS.kalmanSmoother
    simp only [hl, hdt]

/-- What the Monte Carlo transform returns for a function that works row by row. -/
theorem mc_rows (draw : Draw) {N : ℕ} (hN : 2 ≤ N) (hnk : n + k ≠ 1) {g : Gaussian} {μ : Fin n → ℝ} {P : Matrix (Fin n) (Fin n) ℝ}
    (hg : HasMoments env g μ P) {f : Func} {F : (Fin n → ℝ) → Fin k → ℝ} (hf : OnRows f F) :
    mcTransform env draw N f g = .ok (.v (fun j => (∑ i, F (draw N μ P i) j) / N),
      .m (of fun i j => covEntry (fun l => F (draw N μ P l) i) (fun l => F (draw N μ P l) j)),
      .m (of fun i j => covEntry (fun l => draw N μ P l i) (fun l => F (draw N μ P l) j))) := by
  have hN0 : N ≠ 0 := by omega
  have hN1 : ¬ N ≤ 1 := by omega
  simp only [mcTransform, sample_ok hg, hf N, ok_bind, meanRows, if_neg hN0, Arr.T_m, sampleCovariance, Arr.atleast2d_m, dif_pos, if_neg hN1,
    if_neg hnk, py_pure]
  rfl

theorem mc_shaped (draw : Draw) {N : ℕ} (hN : 2 ≤ N) (hnk : n + k ≠ 1) {f : Func} {F : (Fin n → ℝ) → Fin k → ℝ} (hf : OnRows f F) :
    Shaped env (mcTransform env draw N) n k f := fun _ _ _ hg => .inl ⟨_, _, _, mc_rows draw hN hnk hg hf⟩

theorem mc_reads (draw : Draw) {N : ℕ} (hN : 2 ≤ N) (hnk : n + k ≠ 1) {f f' : Func} {F F' : (Fin n → ℝ) → Fin k → ℝ} (hf : OnRows f F)
    (hf' : OnRows f' F') (h : ∀ x, F' x = d.pt (F x)) : ReadsAs env (mcTransform env draw N) n d f f' := by
  intro g μ P hg
  have hN0 : N ≠ 0 := by omega
  have a := mc_rows draw hN hnk hg hf
  have b := mc_rows draw hN hnk hg hf'
  set X := draw N μ P
  set Y : Matrix (Fin N) (Fin k) ℝ := of fun l j => F (X l) j with hY
  have e : ∀ l j, F' (X l) j = (∑ i, Y l i * d.A j i) + d.a j := by
    intro l j
    rw [h, Chart.pt, Pi.add_apply, mulVec, dotProduct]
    congr 1
    exact Finset.sum_congr rfl fun i _ => mul_comm _ _
  have hcross : ∀ (x : Fin N → ℝ) j, covEntry x (fun l => F' (X l) j) = ∑ i, covEntry x (fun l => Y l i) * d.A j i := by
    intro x j
    simp only [e, covEntry_affine_right hN0]
  refine .inl ⟨_, fun j => (∑ i, F' (X i) j) / N, _, _, ?_, a, b.trans ?_⟩
  · funext j
    simp only [e, mean_affine hN0]
    rw [Chart.pt, Pi.add_apply, mulVec, dotProduct]
    rfl
  · congr 3
    · congr 1
      ext i j
      rw [of_apply, hcross, Chart.cov, mul_apply]
      refine Finset.sum_congr rfl fun l _ => ?_
      rw [transpose_apply, covEntry_comm, hcross, mul_apply]
      congr 1
      refine Finset.sum_congr rfl fun q _ => ?_
      rw [of_apply, covEntry_comm, mul_comm]
      rfl
    · congr 1
      ext i j
      rw [of_apply, hcross, mul_apply]
      exact Finset.sum_congr rfl fun l _ => rfl

/-- **C90.** Monte Carlo filters (the same random draws for the same distributions): other units of the sensors change nothing. -/
theorem C90_monte_carlo_sensor {sys sys' : Sys} (draw : Draw) {N : ℕ} (hN : 2 ≤ N) (hn : n ≠ 0) (hk : k ≠ 0)
    {Q : Matrix (Fin n) (Fin n) ℝ} {R : Matrix (Fin k) (Fin k) ℝ} (hf : sys'.transition = sys.transition) (hQ : sys'.Q = sys.Q)
    (hi : sys'.initState = sys.initState) (hdt : sys'.dt = sys.dt) (hQ2 : sys.Q = .m Q) (hR : sys.R = .m R) (hR2 : sys'.R = .m (d.cov R))
    (sf : ∀ t, ∃ F : (Fin n → ℝ) → Fin n → ℝ, OnRows (fun z => sys.transition z (some t) none) F)
    (sh : ∀ t, ∃ G G' : (Fin n → ℝ) → Fin k → ℝ, OnRows (fun z => sys.measurement z (some t) none) G ∧
      OnRows (fun z => sys'.measurement z (some t) none) G' ∧ ∀ x, G' x = d.pt (G x))
    {μ : Fin n → ℝ} {P : Matrix (Fin n) (Fin n) ℝ} (hg : HasMoments env sys.initState μ P) {ys ys' : List Arr}
    (hys : List.Forall₂ (SameMeas d) ys ys') (tZero : ℝ) :
    (KFS.init (mcTransform env draw N) sys' none).kalmanFilter env ys' none tZero none =
      (KFS.init (mcTransform env draw N) sys none).kalmanFilter env ys none tZero none :=
  (C90_sensor (env := env) (n := n) (u := none) (K := KFS.init (mcTransform env draw N) sys none)
    (K' := KFS.init (mcTransform env draw N) sys' none) rfl hf hQ hi hdt rfl hQ2 hR hR2
    (fun t => by obtain ⟨F, h⟩ := sf t; exact mc_shaped draw hN (by omega) h)
    (fun t => by obtain ⟨G, G', h, h', e⟩ := sh t; exact mc_reads draw hN (by omega) h h' e) none hg hys tZero).1

/-- Bearings in degrees instead of radians: tracking with any list of sensors. -/
example (q r dt : ℝ) {l : List Sensor} (hl : l ≠ []) {sys : Sys} (h : BOT.init q r (some l) dt = .ok sys) (draw : Draw)
    (ys : List (Fin l.length → ℝ)) : ∃ (d : Chart l.length) (sys' : Sys), d.A = (180 / Real.pi) • 1 ∧ d.a = 0 ∧
      sys'.R = .m (((180 / Real.pi) ^ 2 * r) • 1 : Matrix (Fin l.length) (Fin l.length) ℝ) ∧
      (KFS.init (mcTransform calmEnv draw 1000) sys' none).kalmanFilter calmEnv (ys.map fun y => .v ((180 / Real.pi) • y)) none 0 none =
        (KFS.init (mcTransform calmEnv draw 1000) sys none).kalmanFilter calmEnv (ys.map .v) none 0 none := by
  have hpi : (180 / Real.pi : ℝ) ≠ 0 := div_ne_zero (by norm_num) Real.pi_ne_zero
  set s : ℝ := 180 / Real.pi
  set d : Chart l.length := ⟨s • 1, 0, by rw [det_smul, det_one, mul_one]; exact pow_ne_zero _ hpi⟩ with hd
  rw [BOT.init, Sys.make, if_pos ⟨rfl, rfl⟩, Except.ok.injEq] at h
  obtain ⟨e1, e2, ⟨Q, e3⟩, e4, e5⟩ : sys.transition = BOT.f dt ∧ sys.measurement = BOT.h (some l) ∧ (∃ Q : Matrix (Fin 4) (Fin 4) ℝ, sys.Q = .m Q) ∧
      sys.R = .m (r • 1 : Matrix (Fin l.length) (Fin l.length) ℝ) ∧ ∃ (m : Fin 4 → ℝ) (P : Matrix (Fin 4) (Fin 4) ℝ),
        sys.initState = ofMoment (.v m) (.m P) := by
    subst h; exact ⟨rfl, rfl, ⟨_, rfl⟩, rfl, _, _, rfl⟩
  obtain ⟨m, P, e5⟩ := e5
  have hcov : d.cov (r • 1) = (s ^ 2 * r) • 1 := by
    simp only [hd, Chart.cov, smul_mul_assoc, mul_smul_comm, Matrix.mul_one, transpose_smul, transpose_one, smul_smul]
    congr 1; ring
  refine ⟨d, { sys with measurement := fun x t u => do affineFunc d.A d.a (← sys.measurement x t u), R := .m (d.cov (r • 1)) }, rfl, rfl, ?_, ?_⟩
  · rw [hcov]
  · refine C90_monte_carlo_sensor (env := calmEnv) (d := d) (sys := sys)
      (sys' := { sys with measurement := fun x t u => do affineFunc d.A d.a (← sys.measurement x t u), R := .m (d.cov (r • 1)) }) draw (N := 1000) (by norm_num) (by norm_num)
      (fun h => hl (List.length_eq_zero_iff.1 h)) rfl rfl rfl rfl e3 e4 rfl (fun t => ?_) (fun t => ?_)
      (e5 ▸ hasMoments_ofMoment calmEnv m P) ?_ 0
    · rw [e1]
      exact onRows_of (f := fun x => BOT.f dt x (some t) none) fun N X => by
        obtain ⟨Y, h1, h2, -⟩ := C56_constant_velocity dt X (some t) none
        exact ⟨Y, h1, h2⟩
    · obtain ⟨G, hG⟩ := onRows_of (f := fun x => BOT.h (some l) x (some t) none) fun N X => by
        obtain ⟨Y, h1, h2, -⟩ := C62_shape_and_range l hl X (some t) none
        exact ⟨Y, h1, h2⟩
      refine ⟨G, fun x => d.pt (G x), by rw [e2]; exact hG, fun N X => ?_, fun x => rfl⟩
      have := hG N X
      dsimp only at this ⊢
      rw [e2, this, ok_bind, affineFunc_rows]
      congr 2
      ext i j
      simp [Chart.pt, mul_apply, mulVec, dotProduct, mul_comm]
    · rw [List.forall₂_map_left_iff, List.forall₂_map_right_iff, List.forall₂_same]
      intro y _
      refine ⟨y, .inr rfl, ?_⟩
      have : d.pt y = s • y := by
        simp [hd, Chart.pt, smul_mulVec]
      rw [this]
      exact .inr rfl

end sensor

end Verif

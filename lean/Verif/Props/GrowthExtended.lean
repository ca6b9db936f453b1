import Verif.Props.Bounded
import Verif.Props.FloorExtended

/-!
# Boundedness of the extended Kalman filter (C118)

A filter on scalar states that linearises the functions is a chain of moment matching rules like any other; what is known about the
variances of the unscented filter on the growth model (C112) fails for it.
-/

namespace Verif

open Matrix

variable {env : Env} {N : ℕ}

/-- Moment matching by the tangent of a function with derivative `φ'`. -/
def tangentRule (φ φ' : ℝ → ℝ) : Rule := ⟨fun m _ => φ m, fun m p => φ' m ^ 2 * p, fun m p => φ' m * p⟩

/-- A scalar model as seen by the Taylor transform. -/
def tangentChain (q r m0 p0 : ℝ) (F F' : ℕ → ℝ → ℝ) (G G' : ℝ → ℝ) (y : ℕ → ℝ) : Chain :=
  ⟨1, 1, q, r, m0, p0, fun i => tangentRule (F i) (F' i), tangentRule G G', y⟩

theorem tangentRule_schwarz (φ φ' : ℝ → ℝ) : (tangentRule φ φ').Schwarz := fun m p hp =>
  ⟨mul_nonneg (sq_nonneg _) hp.le, le_of_eq (by simp only [tangentRule]; ring)⟩

theorem tangentChain_regular {q r m0 p0 : ℝ} {F F' : ℕ → ℝ → ℝ} {G G' : ℝ → ℝ} {y : ℕ → ℝ} (hq : 0 < q) (hr : 0 < r) (hp : 0 < p0) :
    (tangentChain q r m0 p0 F F' G G' y).Regular :=
  ⟨one_pos, hq, hr, hp, fun _ => tangentRule_schwarz _ _, tangentRule_schwarz _ _⟩

/-- The Taylor transform with a correct Jacobian follows the rule. -/
theorem tangent_realises {jac : Jac} (hjac : CorrectJac jac) {f : Func} {φ φ' : ℝ → ℝ} (hf : ∀ x : Arr, f x = .ok (x.map φ))
    (hφ : ∀ x, HasDerivAt φ (φ' x) x) : RealisesFlat env (taylorTransform env jac) f (tangentRule φ φ') := fun g m p hg hp => by
  have he : Elementwise f φ := ⟨hf, fun x => (hφ x).differentiableAt⟩
  obtain ⟨z, hz, hT⟩ := C114_slopes (env := env) (n := 1) (k := 1) hjac he.differentiable (.inl he.vec) g (v1 m) (m1 p) hg (m1_posDef.2 hp)
  simp only at hT
  rw [jac_elementwise he.2, show deriv φ (v1 m 0) = φ' m from (hφ m).deriv, m1_transpose, m1_mul, m1_mul, m1_mul] at hT
  refine ⟨z, ?_, hT.trans ?_⟩
  · rwa [show (fun (x : Fin 1 → ℝ) i => φ (x i)) (v1 m) = v1 (φ m) from v1_ext _] at hz
  · simp only [tangentRule]
    rw [show φ' m * p * φ' m = φ' m ^ 2 * p by ring, mul_comm p]

/-- The extended Kalman filter on a scalar system is the chain. -/
theorem tangent_modelsKFS {jac : Jac} (hjac : CorrectJac jac) {sys : Sys} {ys : List Arr} {q r m0 p0 : ℝ} {F F' : ℕ → ℝ → ℝ} {G G' : ℝ → ℝ}
    {y : ℕ → ℝ} (hf : ∀ (i : ℕ) (x : Arr), sys.transition x (some (i * sys.dt)) none = .ok (x.map (F i)))
    (hF : ∀ i x, HasDerivAt (F i) (F' i x) x) (hh : ∀ (i : ℕ) (x : Arr), sys.measurement x (some (i * sys.dt)) none = .ok (x.map G))
    (hG : ∀ x, HasDerivAt G (G' x) x) (hQ : sys.Q = .m (m1 q)) (hR : sys.R = .m (m1 r)) (h0 : Mom1 env sys.initState false m0 p0)
    (hlen : ys.length = N) (hy : ∀ i a, ys[i]? = some a → IsVec a.squeeze (v1 (y i))) :
    ModelsKFS env (KFS.init (taylorTransform env jac) sys none) ys N (tangentChain q r m0 p0 F F' G G' y) where
  Q := hQ
  R := hR
  prior := h0
  trans i _ := tangent_realises hjac (hf i) (hF i)
  meas i _ := tangent_realises hjac (hh i) hG
  length := hlen
  obs := hy

/-! ## C118 -/

/-- **C118.** Extended Kalman filter and smoother on a scalar system whose transitions have slopes with squares of at most `a < 1`: no
reported variance exceeds a bound `B` with `a B + q ≤ B`, whatever the data are and however many there are. -/
theorem C118_gentle_slopes {jac : Jac} (hjac : CorrectJac jac) {sys : Sys} {ys : List Arr} {q r m0 p0 : ℝ} {F F' : ℕ → ℝ → ℝ}
    {G G' : ℝ → ℝ} {y : ℕ → ℝ} (hf : ∀ (i : ℕ) (x : Arr), sys.transition x (some (i * sys.dt)) none = .ok (x.map (F i)))
    (hF : ∀ i x, HasDerivAt (F i) (F' i x) x) (hh : ∀ (i : ℕ) (x : Arr), sys.measurement x (some (i * sys.dt)) none = .ok (x.map G))
    (hG : ∀ x, HasDerivAt G (G' x) x) (hQ : sys.Q = .m (m1 q)) (hR : sys.R = .m (m1 r)) (h0 : Mom1 env sys.initState false m0 p0)
    (hq : 0 < q) (hr : 0 < r) (hp : 0 < p0) (hN : 0 < N) (hlen : ys.length = N)
    (hy : ∀ i a, ys[i]? = some a → IsVec a.squeeze (v1 (y i))) {a B : ℝ} (hs : ∀ i x, F' i x ^ 2 ≤ a) (hB0 : p0 ≤ B) (hB : a * B + q ≤ B) :
    ∃ fs rs, (KFS.init (taylorTransform env jac) sys none).kalmanFilter env ys none 0 none = .ok fs ∧
      (KFS.init (taylorTransform env jac) sys none).kalmanSmoother env fs none = .ok rs ∧ fs.length = N ∧ rs.length = N ∧
      (∀ i, i < N → ∃ g m v, fs[i]? = some g ∧ Mom1 env g false m v ∧ 0 < v ∧ v ≤ B) ∧
      ∀ i, i < N → ∃ g m v, rs[i]? = some g ∧ Mom1 env g false m v ∧ 0 < v ∧ v ≤ B :=
  C112_filter_smoother (tangent_modelsKFS hjac hf hF hh hG hQ hR h0 hlen hy) (tangentChain_regular hq hr hp) hN (a := a) (b := q)
    (fun i m p hp' => by
      have := mul_le_mul_of_nonneg_right (hs i m) hp'.le
      simp only [tangentChain, tangentRule]
      linarith) ((sq_nonneg _).trans (hs 0 0)) hB0 hB

/-- Half the sine, measured by its square. -/
private noncomputable def halfSine : Sys where
  transition x _ _ := .ok (x.map fun a => Real.sin a / 2)
  measurement x _ _ := .ok (x.map (· ^ 2))
  Q := .m (m1 1)
  R := .m (m1 1)
  initState := sG 0 1
  dt := 1

/-- Half the sine with squared measurements, unit noises and prior: no variance exceeds 4/3. -/
example (y₀ y₁ : ℝ) : ∃ fs, (KFS.init (taylorTransform calmEnv exactJac) halfSine none).kalmanFilter calmEnv
      [.s y₀, .s y₁] none 0 none = .ok fs ∧ ∃ g m v, fs[1]? = some g ∧ Mom1 calmEnv g false m v ∧ 0 < v ∧ v ≤ 4 / 3 := by
  obtain ⟨fs, rs, h1, -, -, -, h2, -⟩ := C118_gentle_slopes (env := calmEnv) (N := 2) exactJac_correct (ys := [.s y₀, .s y₁])
    (sys := halfSine) (y := fun i => if i = 0 then y₀ else y₁)
    (F' := fun _ x => Real.cos x / 2) (G' := fun x => 2 * x) (a := 1 / 4) (B := 4 / 3) (fun _ _ => rfl)
    (fun _ x => (Real.hasDerivAt_sin x).div_const 2) (fun _ _ => rfl) (fun x => by simpa using hasDerivAt_pow 2 x) rfl rfl (mom1_sG _ _)
    one_pos one_pos one_pos (by norm_num) rfl (by
      intro i a hi
      match i, hi with
      | 0, hi => simp only [List.getElem?_cons_zero, Option.some.injEq] at hi; rw [← hi]; exact isVec_s y₀
      | 1, hi => simp only [List.getElem?_cons_succ, List.getElem?_cons_zero, Option.some.injEq] at hi; rw [← hi]; exact isVec_s y₁)
    (fun _ x => by
      have := Real.cos_sq_le_one x
      rw [div_pow]; linarith) (by norm_num) (by norm_num)
  exact ⟨fs, h1, h2 1 (by norm_num)⟩

/-- The slope of the growth model. -/
noncomputable def growthSlope (x : ℝ) : ℝ := 0.5 + 25 * (1 - x ^ 2) / (1 + x ^ 2) ^ 2

/-- The growth model as seen by the extended Kalman filter. -/
noncomputable def growthTangent (y : ℕ → ℝ) : Chain := tangentChain 1 10 0 5 growth (fun _ => growthSlope) (fun x => x ^ 2 / 20) (fun x => x / 10) y

theorem growth_hasDerivAt (i : ℕ) (x : ℝ) : HasDerivAt (growth i) (growthSlope x) x := by
  have hp : (1 : ℝ) + x ^ 2 ≠ 0 := by positivity
  have h1 : HasDerivAt (fun x : ℝ => 0.5 * x) (0.5 * 1) x := (hasDerivAt_id x).const_mul _
  have h2 : HasDerivAt (fun x : ℝ => 25 * x) (25 * 1) x := (hasDerivAt_id x).const_mul _
  have h3 : HasDerivAt (fun x : ℝ => 1 + x ^ 2) (2 * x) x := by
    simpa using (hasDerivAt_pow 2 x).const_add 1
  have := (h1.add (h2.div h3 hp)).add_const (8 * Real.cos (1.2 * i))
  refine this.congr_deriv ?_
  rw [growthSlope]
  field_simp
  ring

private theorem slope_bounds {x : ℝ} (hx : |x| ≤ 1 / 2) : 12 ≤ growthSlope x ∧ growthSlope x ≤ 51 / 2 := by
  have h2 : x ^ 2 ≤ 1 / 4 := by
    have := sq_le_sq' (abs_le.1 hx).1 (abs_le.1 hx).2
    linarith
  have h0 := sq_nonneg x
  set s := x ^ 2
  have hp : (0 : ℝ) < (1 + s) ^ 2 := by positivity
  have h3 : 12 ≤ 25 * (1 - s) / (1 + s) ^ 2 := by rw [le_div_iff₀ hp]; nlinarith
  have h4 : 25 * (1 - s) / (1 + s) ^ 2 ≤ 25 := by rw [div_le_iff₀ hp]; nlinarith
  have e : growthSlope x = 0.5 + 25 * (1 - s) / (1 + s) ^ 2 := rfl
  rw [e]
  constructor <;> linarith

/-- Between -1/2 and 1/2 there is a state that is led to any prescribed small state. -/
private theorem exists_source (i : ℕ) {δ : ℝ} (hδ : |δ| ≤ 1) : ∃ m : ℝ, |m| ≤ 1 / 2 ∧ growth i m = δ := by
  have hcont : ContinuousOn (growth i) (Set.Icc (-(1 / 2)) (1 / 2)) := fun x _ => (growth_hasDerivAt i x).continuousAt.continuousWithinAt
  have hc := abs_le.1 (Real.abs_cos_le_one (1.2 * i))
  have hd := abs_le.1 hδ
  have h1 : growth i (-(1 / 2)) ≤ δ := by simp only [growth]; norm_num at hc ⊢; linarith
  have h2 : δ ≤ growth i (1 / 2) := by simp only [growth]; norm_num at hc ⊢; linarith
  obtain ⟨m, hm, he⟩ := intermediate_value_Icc (by norm_num) hcont ⟨h1, h2⟩
  exact ⟨m, abs_le.2 hm, he⟩

private noncomputable def source (i : ℕ) (δ : ℝ) : ℝ := if h : |δ| ≤ 1 then Classical.choose (exists_source i h) else 0

private theorem source_spec (i : ℕ) {δ : ℝ} (h : |δ| ≤ 1) : |source i δ| ≤ 1 / 2 ∧ growth i (source i δ) = δ := by
  rw [source, dif_pos h]; exact Classical.choose_spec (exists_source i h)

/-- Predicted mean and variance of step `i` after the estimate `g`. -/
private noncomputable def pm (i : ℕ) (g : ℝ × ℝ) : ℝ := growth i g.1
private noncomputable def pv (g : ℝ × ℝ) : ℝ := growthSlope g.1 ^ 2 * g.2 + 1
/-- The variance after the correction. -/
private noncomputable def cv (i : ℕ) (g : ℝ × ℝ) : ℝ := pv g / (1 + pv g * pm i g ^ 2 / 1000)
/-- The mean that the filter is to report: the one from which the next prediction is as small as the variance allows. -/
private noncomputable def cm (i : ℕ) (g : ℝ × ℝ) : ℝ := source (i + 1) (1 / √(cv i g))
/-- The gain and the measurement that makes the filter report it. -/
private noncomputable def gn (i : ℕ) (g : ℝ × ℝ) : ℝ := pm i g / 10 * pv g / ((pm i g / 10) ^ 2 * pv g + 10)
private noncomputable def ob (i : ℕ) (g : ℝ × ℝ) : ℝ := pm i g ^ 2 / 20 + (cm i g - pm i g) / gn i g

/-- The estimates before step `i`. -/
private noncomputable def est : ℕ → ℝ × ℝ
  | 0 => (0, 5)
  | i + 1 => (cm i (est i), cv i (est i))

/-- The measurements. -/
private noncomputable def bad (i : ℕ) : ℝ := ob i (est i)

private theorem pv_pos {g : ℝ × ℝ} (hg : 0 < g.2) : 0 < pv g := by rw [pv]; positivity

/-- One step of the filter reports what it is to report. -/
private theorem step_eq (y : ℕ → ℝ) {i : ℕ} {g : ℝ × ℝ} (hg : 0 < g.2) (hx : 0 < pm i g) (hy : y i = ob i g) :
    (growthTangent y).correct i (Chain.damp 0 ((growthTangent y).predict i g)) = (cm i g, cv i g) := by
  have hP := pv_pos hg
  have hp : (growthTangent y).predict i g = (pm i g, pv g) := rfl
  have hd : Chain.damp 0 (pm i g, pv g) = (pm i g, pv g) := by
    have hne := hP.ne'
    refine Prod.ext ?_ ?_ <;> simp only [Chain.damp, add_zero, one_div_one_div]
    field_simp
  have hw : 0 < (pm i g / 10) ^ 2 * pv g + 10 := by positivity
  have hgn : gn i g ≠ 0 := by rw [gn]; positivity
  rw [hp, hd]
  refine Prod.ext ?_ ?_
  · show pm i g + gn i g * (y i - pm i g ^ 2 / 20) = cm i g
    rw [hy, ob]
    field_simp
    ring
  · show pv g - gn i g ^ 2 * ((pm i g / 10) ^ 2 * pv g + 10) = cv i g
    rw [gn, cv]
    have : 0 < 1 + pv g * pm i g ^ 2 / 1000 := by positivity
    field_simp
    ring

private theorem first : pm 0 (0, 5) = 8 ∧ pv (0, 5) = 13009 / 4 ∧ 15 ≤ cv 0 (0, 5) ∧ |ob 0 (0, 5)| ≤ 4 := by
  have h1 : pm 0 (0, 5) = 8 := by simp [pm, growth]
  have h2 : pv (0, 5) = 13009 / 4 := by norm_num [pv, growthSlope]
  have h3 : 15 ≤ cv 0 (0, 5) := by rw [cv, h1, h2]; norm_num
  refine ⟨h1, h2, h3, ?_⟩
  have hs : 1 ≤ √(cv 0 (0, 5)) := by rw [Real.one_le_sqrt]; linarith
  have hδ : |1 / √(cv 0 (0, 5))| ≤ 1 := by
    rw [abs_of_nonneg (by positivity)]; exact div_le_one_of_le₀ hs (by positivity)
  have hm := abs_le.1 (source_spec 1 hδ).1
  rw [ob, gn, h1, h2, cm]
  rw [abs_le]
  norm_num at hm ⊢
  constructor <;> linarith

/-- What holds after the first step is kept, and the variance grows. -/
private theorem next {i : ℕ} {g : ℝ × ℝ} (hm : |g.1| ≤ 1 / 2) (hp : 1 ≤ g.2) (hx : pm i g = 1 / √g.2) :
    0 < pm i g ∧ 87 * g.2 ≤ cv i g ∧ |cm i g| ≤ 1 / 2 ∧ pm (i + 1) (cm i g, cv i g) = 1 / √(cv i g) ∧ |ob i g| ≤ 4 := by
  obtain ⟨b1, b2⟩ := slope_bounds hm
  set p := g.2 with hpd
  have hp0 : 0 < p := by linarith
  have hs0 : 0 < √p := Real.sqrt_pos.2 hp0
  have hs1 : 1 ≤ √p := Real.one_le_sqrt.2 hp
  have hss : √p ^ 2 = p := Real.sq_sqrt hp0.le
  have hxp : 0 < pm i g := by rw [hx]; positivity
  have hx1 : pm i g ≤ 1 := by rw [hx]; exact div_le_one_of_le₀ hs1 hs0.le
  have hP : pv g = growthSlope g.1 ^ 2 * p + 1 := rfl
  have hF1 : 144 ≤ growthSlope g.1 ^ 2 := by nlinarith
  have hF2 : growthSlope g.1 ^ 2 ≤ 651 := by nlinarith
  have hP1 : 144 * p ≤ pv g := by
    have := mul_le_mul_of_nonneg_right hF1 hp0.le
    rw [hP]; linarith
  have hP2 : pv g ≤ 652 * p := by
    have := mul_le_mul_of_nonneg_right hF2 hp0.le
    rw [hP]; linarith
  have hPp : 0 < pv g := by linarith
  have hx2 : pm i g ^ 2 = 1 / p := by rw [hx, div_pow, hss, one_pow]
  have hPx : pv g * pm i g ^ 2 ≤ 652 := by
    rw [hx2, mul_one_div, div_le_iff₀ hp0]; linarith
  have hcv : 87 * p ≤ cv i g := by
    rw [cv, le_div_iff₀ (by positivity)]
    nlinarith
  have hcs : 1 ≤ √(cv i g) := by rw [Real.one_le_sqrt]; linarith
  have hδ : |1 / √(cv i g)| ≤ 1 := by
    rw [abs_of_nonneg (by positivity)]; exact div_le_one_of_le₀ hcs (by positivity)
  obtain ⟨s1, s2⟩ := source_spec (i + 1) hδ
  refine ⟨hxp, hcv, s1, s2, ?_⟩
  have hxP : 144 ≤ pm i g * pv g := by
    have : pm i g * √p = 1 := by rw [hx]; field_simp
    have h1 : pm i g * (144 * p) = 144 * √p := by
      linear_combination 144 * √p * this - 144 * pm i g * hss
    have := mul_le_mul_of_nonneg_left hP1 hxp.le
    nlinarith
  have hgn : 1 ≤ gn i g := by
    have e : (pm i g / 10) ^ 2 * pv g + 10 = pv g * pm i g ^ 2 / 100 + 10 := by ring
    have e' : pm i g / 10 * pv g = pm i g * pv g / 10 := by ring
    rw [gn, e, e', le_div_iff₀ (by positivity)]
    nlinarith
  have h4 : |cm i g - pm i g| ≤ 3 / 2 := by
    have a := abs_le.1 (show |cm i g| ≤ 1 / 2 from s1)
    rw [abs_le]; constructor <;> linarith
  have h5 : |(cm i g - pm i g) / gn i g| ≤ 3 / 2 := by
    rw [abs_div, abs_of_pos (by linarith : 0 < gn i g)]
    exact (div_le_self (abs_nonneg _) hgn).trans h4
  have h6 : |pm i g ^ 2 / 20| ≤ 1 := by
    rw [abs_of_nonneg (by positivity)]
    nlinarith
  exact (abs_add_le _ _).trans (by linarith)

private theorem est_spec : ∀ i : ℕ, |(est (i + 1)).1| ≤ 1 / 2 ∧ 15 * 87 ^ i ≤ (est (i + 1)).2 ∧
    pm (i + 1) (est (i + 1)) = 1 / √(est (i + 1)).2
  | 0 => by
    obtain ⟨-, -, h3, -⟩ := first
    have hs : 1 ≤ √(cv 0 (0, 5)) := by rw [Real.one_le_sqrt]; linarith
    have hδ : |1 / √(cv 0 (0, 5))| ≤ 1 := by
      rw [abs_of_nonneg (by positivity)]; exact div_le_one_of_le₀ hs (by positivity)
    obtain ⟨s1, s2⟩ := source_spec 1 hδ
    exact ⟨s1, by rw [pow_zero, mul_one]; exact h3, s2⟩
  | i + 1 => by
    obtain ⟨h1, h2, h3⟩ := est_spec i
    have hp : 1 ≤ (est (i + 1)).2 := by
      have : (1 : ℝ) ≤ 87 ^ i := one_le_pow₀ (by norm_num)
      linarith
    obtain ⟨-, a2, a3, a4, -⟩ := next h1 hp h3
    refine ⟨a3, ?_, a4⟩
    rw [pow_succ]
    show _ ≤ cv (i + 1) (est (i + 1))
    linarith

private theorem est_one (i : ℕ) : 1 ≤ (est (i + 1)).2 := by
  have := (est_spec i).2.1
  have : (1 : ℝ) ≤ 87 ^ i := one_le_pow₀ (by norm_num)
  linarith

private theorem bad_le : ∀ i, |bad i| ≤ 4
  | 0 => first.2.2.2
  | i + 1 => by
    obtain ⟨h1, h2, h3⟩ := est_spec i
    exact (next h1 (est_one i) h3).2.2.2.2

private theorem filtered_bad {y : ℕ → ℝ} : ∀ i, (∀ j ≤ i, y j = bad j) → (growthTangent y).filtered 0 i = est (i + 1)
  | 0, h => step_eq y (i := 0) (g := (0, 5)) (by norm_num) (by rw [first.1]; norm_num) (h 0 le_rfl)
  | i + 1, h => by
    rw [Chain.filtered, filtered_bad i fun j hj => h j (by omega)]
    obtain ⟨h1, h2, h3⟩ := est_spec i
    exact step_eq y (by linarith [est_one i]) (next h1 (est_one i) h3).1 (h (i + 1) le_rfl)

/-- The filter after `k` of the measurements and the measurement 4. -/
private theorem filtered_four {y : ℕ → ℝ} (k : ℕ) (h : ∀ j ≤ k, y j = bad j) (h4 : y (k + 1) = 4) :
    9 ^ (k + 1) ≤ ((growthTangent y).filtered 0 (k + 1)).1 := by
  rw [Chain.filtered, filtered_bad k h]
  obtain ⟨e1, e2, e3⟩ := est_spec k
  set g := est (k + 1)
  have hg1 : 1 ≤ g.2 := est_one k
  have hg0 : 0 < g.2 := by linarith
  have hP := pv_pos hg0
  have hp : (growthTangent y).predict (k + 1) g = (pm (k + 1) g, pv g) := rfl
  have hd : Chain.damp 0 (pm (k + 1) g, pv g) = (pm (k + 1) g, pv g) := by
    have hne := hP.ne'
    refine Prod.ext ?_ ?_ <;> simp only [Chain.damp, add_zero, one_div_one_div]
    field_simp
  rw [hp, hd]
  show _ ≤ pm (k + 1) g + gn (k + 1) g * (y (k + 1) - pm (k + 1) g ^ 2 / 20)
  rw [h4]
  obtain ⟨b1, b2⟩ := slope_bounds e1
  have hs1 : 1 ≤ √g.2 := Real.one_le_sqrt.2 hg1
  have hs0 : 0 < √g.2 := by linarith
  have hss : √g.2 ^ 2 = g.2 := Real.sq_sqrt hg0.le
  have hx0 : 0 < pm (k + 1) g := by rw [e3]; positivity
  have hx2 : pm (k + 1) g ^ 2 = 1 / g.2 := by rw [e3, div_pow, hss, one_pow]
  have hx21 : pm (k + 1) g ^ 2 ≤ 1 := by rw [hx2]; exact div_le_one_of_le₀ hg1 hg0.le
  have hF1 : 144 ≤ growthSlope g.1 ^ 2 := by nlinarith
  have hF2 : growthSlope g.1 ^ 2 ≤ 651 := by nlinarith
  have hP1 : 144 * g.2 ≤ pv g := by
    have := mul_le_mul_of_nonneg_right hF1 hg0.le
    rw [pv]; linarith
  have hPx : pv g * pm (k + 1) g ^ 2 ≤ 652 := by
    have := mul_le_mul_of_nonneg_right hF2 hg0.le
    rw [hx2, mul_one_div, div_le_iff₀ hg0, pv]
    linarith
  have hxP : 144 * √g.2 ≤ pm (k + 1) g * pv g := by
    have : pm (k + 1) g * √g.2 = 1 := by rw [e3]; field_simp
    have h1 : pm (k + 1) g * (144 * g.2) = 144 * √g.2 := by linear_combination 144 * √g.2 * this - 144 * pm (k + 1) g * hss
    exact h1 ▸ mul_le_mul_of_nonneg_left hP1 hx0.le
  have hgn : 4 / 5 * √g.2 ≤ gn (k + 1) g := by
    have e : (pm (k + 1) g / 10) ^ 2 * pv g + 10 = pv g * pm (k + 1) g ^ 2 / 100 + 10 := by ring
    have e' : pm (k + 1) g / 10 * pv g = pm (k + 1) g * pv g / 10 := by ring
    rw [gn, e, e', le_div_iff₀ (by positivity)]
    nlinarith
  have hroot : 3 * 9 ^ k ≤ √g.2 := by
    refine Real.le_sqrt_of_sq_le (le_trans ?_ e2)
    rw [mul_pow, ← pow_mul, mul_comm k, pow_mul]
    have : ((9 : ℝ) ^ 2) ^ k ≤ 87 ^ k := pow_le_pow_left₀ (by norm_num) (by norm_num) k
    nlinarith [show (0 : ℝ) < (9 ^ 2) ^ k by positivity]
  have hin : (15 / 4 : ℝ) ≤ 4 - pm (k + 1) g ^ 2 / 20 := by linarith
  have := mul_le_mul hgn hin (by norm_num) (by linarith)
  rw [pow_succ]
  linarith

private theorem growthTangent_models {jac : Jac} (hjac : CorrectJac jac) (y : ℕ → ℝ) (N : ℕ) :
    ModelsKFS env (KFS.init (taylorTransform env jac) ungm none) ((List.range N).map fun i => .v (v1 (y i))) N (growthTangent y) := by
  refine tangent_modelsKFS hjac (fun i x => ?_) (fun i x => growth_hasDerivAt i x) (fun i x => (ungm_measurement (some (i * ungm.dt)) none).1 x)
    (fun x => ?_) rfl rfl (mom1_sG _ _) (by simp) fun i a hi => ?_
  · have := (ungm_transition (i * ungm.dt) none).1 x
    rw [show (i : ℝ) * ungm.dt = i from mul_one _] at this ⊢
    exact this
  · refine ((hasDerivAt_pow 2 x).div_const 20).congr_deriv ?_
    norm_num; ring
  · rw [List.getElem?_map, Option.map_eq_some_iff] at hi
    obtain ⟨j, hj, rfl⟩ := hi
    obtain ⟨h1, rfl⟩ := List.getElem?_eq_some_iff.1 hj
    rw [List.getElem_range]
    exact .inr rfl

/-- **C118.** The growth model: there are measurements between -4 and 4 on which the extended Kalman filter, with a correct Jacobian,
reports variances that grow more than eightyfold with every step, while its means stay between -1/2 and 1/2. On the same measurements the
unscented filter of the experiments reports variances of at most 940. -/
theorem C118_growth : ∃ y : ℕ → ℝ, (∀ i, |y i| ≤ 4) ∧ ∀ (env : Env) (N : ℕ), 0 < N → ∃ sys, UNGM.init = .ok sys ∧
    (∀ jac, CorrectJac jac → ∃ fs rs,
      (KFS.init (taylorTransform env jac) sys none).kalmanFilter env ((List.range N).map fun i => .v (v1 (y i))) none 0 none = .ok fs ∧
      (KFS.init (taylorTransform env jac) sys none).kalmanSmoother env fs none = .ok rs ∧ fs.length = N ∧ rs.length = N ∧
      (∀ i, i < N → ∃ g m v, fs[i]? = some g ∧ Mom1 env g false m v ∧ |m| ≤ 1 / 2 ∧ 15 * 87 ^ i ≤ v) ∧
      ∃ g m v, rs[N - 1]? = some g ∧ Mom1 env g false m v ∧ |m| ≤ 1 / 2 ∧ 15 * 87 ^ (N - 1) ≤ v) ∧
    ∀ u u' : UT, UT.init 1 1 2 3 = .ok u → UT.init 1 1 2 2 = .ok u' → ∃ fs,
      (KFS.init (u.transform env) sys (some (u'.transform env))).kalmanFilter env ((List.range N).map fun i => .v (v1 (y i))) none 0 none =
        .ok fs ∧ fs.length = N ∧ ∀ i, i < N → ∃ g m v, fs[i]? = some g ∧ Mom1 env g false m v ∧ 0 < v ∧ v ≤ 940 ∧ |m| ≤ 47 := by
  refine ⟨bad, bad_le, fun env N hN => ⟨ungm, ungm_init, fun jac hjac => ?_, fun u u' hu hu' => ?_⟩⟩
  · have hm := growthTangent_models (env := env) hjac bad N
    obtain ⟨fs, rs, h1, h2, h3, h4, h5, h6⟩ := C40_kalman hm (tangentChain_regular one_pos (by norm_num) (by norm_num)) hN
    refine ⟨fs, rs, h1, h2, h3, h4, fun i hi => ?_, ?_⟩
    · obtain ⟨g, e1, e2⟩ := h5 i hi
      rw [filtered_bad i fun _ _ => rfl] at e2
      exact ⟨g, _, _, e1, e2, (est_spec i).1, (est_spec i).2.1⟩
    · obtain ⟨g, e1, e2⟩ := h6 (N - 1) (by omega)
      rw [Chain.smoothed_last, filtered_bad _ fun _ _ => rfl] at e2
      exact ⟨g, _, _, e1, e2, (est_spec _).1, (est_spec _).2.1⟩
  · obtain ⟨fs, rs, h1, -, h3, -, h5, -⟩ := C112_growth_filter (env := env) (N := N) (ys := (List.range N).map fun i => .v (v1 (bad i)))
      hu hu' ungm_init hN (by simp) (y := bad) (fun i a hi => by
        rw [List.getElem?_map, Option.map_eq_some_iff] at hi
        obtain ⟨j, hj, rfl⟩ := hi
        obtain ⟨h1, rfl⟩ := List.getElem?_eq_some_iff.1 hj
        rw [List.getElem_range]
        exact .inr rfl) (Y := 4) fun i _ => bad_le i
    refine ⟨fs, h1, h3, fun i hi => ?_⟩
    obtain ⟨g, m, v, e1, e2, e3, e4, e5⟩ := h5 i hi
    exact ⟨g, m, v, e1, e2, e3, e4, e5.trans (by norm_num)⟩

/-- **C118.** The means are not bounded either: for every `k` there are `k + 2` measurements between -4 and 4 after which the extended Kalman
filter reports a mean of at least `9 ^ (k + 1)`; the unscented filter stays below 47 (C118_growth, C112). -/
theorem C118_growth_mean (k : ℕ) : ∃ y : ℕ → ℝ, (∀ i, |y i| ≤ 4) ∧ ∀ (env : Env) (jac : Jac), CorrectJac jac → ∃ sys fs, UNGM.init = .ok sys ∧
    (KFS.init (taylorTransform env jac) sys none).kalmanFilter env ((List.range (k + 2)).map fun i => .v (v1 (y i))) none 0 none = .ok fs ∧
    fs.length = k + 2 ∧ ∃ g m v, fs[k + 1]? = some g ∧ Mom1 env g false m v ∧ 9 ^ (k + 1) ≤ m := by
  refine ⟨fun i => if i ≤ k then bad i else 4, fun i => ?_, fun env jac hjac => ?_⟩
  · dsimp only
    split_ifs
    · exact bad_le i
    · norm_num
  · obtain ⟨fs, rs, h1, -, h3, -, h5, -⟩ := C40_kalman (growthTangent_models (env := env) hjac (fun i => if i ≤ k then bad i else 4) (k + 2))
      (tangentChain_regular one_pos (by norm_num) (by norm_num)) (by omega)
    obtain ⟨g, e1, e2⟩ := h5 (k + 1) (by omega)
    exact ⟨ungm, fs, ungm_init, h1, h3, g, _, _, e1, e2, filtered_four k (fun j hj => if_pos hj) (if_neg (by omega))⟩

/-- Twelve measurements between -4 and 4, and the extended Kalman filter reports a mean above `10 ^ 10`. -/
example : ∃ y : ℕ → ℝ, (∀ i, |y i| ≤ 4) ∧ ∃ sys fs, UNGM.init = .ok sys ∧
    (KFS.init (taylorTransform calmEnv exactJac) sys none).kalmanFilter calmEnv ((List.range 12).map fun i => .v (v1 (y i))) none 0 none = .ok fs ∧
    ∃ g m v, fs[11]? = some g ∧ Mom1 calmEnv g false m v ∧ 10 ^ 10 ≤ m := by
  obtain ⟨y, h1, h2⟩ := C118_growth_mean 10
  obtain ⟨sys, fs, a1, a2, -, g, m, v, b1, b2, b3⟩ := h2 calmEnv exactJac exactJac_correct
  exact ⟨y, h1, sys, fs, a1, a2, g, m, v, b1, b2, le_trans (by norm_num) b3⟩

/-- After ten measurements of this kind the extended Kalman filter reports a variance above `10 ^ 18`. -/
example : ∃ (ys : List Arr) (sys : Sys) (fs : List Gaussian), ys.length = 10 ∧ UNGM.init = .ok sys ∧
    (KFS.init (taylorTransform calmEnv exactJac) sys none).kalmanFilter calmEnv ys none 0 none = .ok fs ∧
    ∃ g m v, fs[9]? = some g ∧ Mom1 calmEnv g false m v ∧ |m| ≤ 1 / 2 ∧ 10 ^ 18 ≤ v := by
  obtain ⟨y, -, h⟩ := C118_growth
  obtain ⟨sys, h1, h2, -⟩ := h calmEnv 10 (by norm_num)
  obtain ⟨fs, rs, a1, -, -, -, a2, -⟩ := h2 exactJac exactJac_correct
  obtain ⟨g, m, v, b1, b2, b3, b4⟩ := a2 9 (by norm_num)
  exact ⟨_, sys, fs, by simp, h1, a1, g, m, v, b1, b2, b3, le_trans (by norm_num) b4⟩

end Verif

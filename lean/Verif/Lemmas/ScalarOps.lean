import Verif.Lemmas.ScalarRule
import Verif.Lemmas.GaussOps
import Verif.Lemmas.Nodes

/-! Gaussians on the line whose mean or shift may have shape `(1, 1)`. -/

namespace Verif

open Matrix Gaussian

variable {env : Env}

/-! ## Arrays with one entry -/

theorem of_const1 (f : Fin 1 → Fin 1 → ℝ) : (of f : Matrix (Fin 1) (Fin 1) ℝ) = m1 (f 0 0) := m1_ext _

@[simp] theorem num_add (a b : Bool) (x y : ℝ) : (num a x).add (num b y) = .ok (num (a || b) (x + y)) := by
  cases a <;> cases b <;> simp [num, of_const1]

@[simp] theorem num_sub (a b : Bool) (x y : ℝ) : (num a x).sub (num b y) = .ok (num (a || b) (x - y)) := by
  cases a <;> cases b <;> simp [num, of_const1]

@[simp] theorem num_smul (a : Bool) (k x : ℝ) : (num a x).smul k = num a (k * x) := by cases a <;> simp [num]

@[simp] theorem matmul_num (a : Bool) (k x : ℝ) : (Arr.m (m1 k)).matmul (num a x) = .ok (num a (k * x)) := by
  cases a <;> simp [num]

@[simp] theorem dot_num (a : Bool) (k x : ℝ) : (Arr.m (m1 k)).dot (num a x) = .ok (num a (k * x)) := by
  cases a <;> simp [num]

@[simp] theorem num_atleast1d (a : Bool) (x : ℝ) : (num a x).atleast1d = num a x := by cases a <;> rfl

theorem num_false (x : ℝ) : Arr.v (v1 x) = num false x := rfl
theorem num_true (x : ℝ) : Arr.m (m1 x) = num true x := rfl

@[simp] theorem num_reshapeCol_false (x : ℝ) : (num false x).reshapeCol = num true x := rfl

theorem symmetrize_m1 (x : ℝ) : symmetrize (.m (m1 x)) = .ok (.m (m1 x)) := symmetrize_symm rfl

theorem npCholesky_m1 {x : ℝ} (hx : 0 < x) : npCholesky (.m (m1 x)) = .ok () := npCholesky_posDef (m1_posDef.2 hx)

theorem npSolve_m1 {x : ℝ} (hx : 0 < x) (y : ℝ) : npSolve (.m (m1 x)) (.m (m1 y)) = .ok (.m (m1 (y / x))) := by
  rw [npSolve_mm _ (by simpa using hx.ne'), m1_inv, m1_mul, div_eq_inv_mul]

/-! ## Reading natural parameters and moments -/

/-- Scipy never warns about a `1 × 1` matrix. -/
def Calm1 (env : Env) : Prop := ∀ A : Matrix (Fin 1) (Fin 1) ℝ, env.illPos A = false

/-- The Gaussian in natural parameters. -/
def nG (a : Site) : Gaussian := ofNatural (.m (m1 a.p)) (num a.sh a.h)

theorem natIs_nG (a : Site) : NatIs env (nG a) a := ⟨by simp [nG], by simp [nG]⟩

theorem Site.var_pos (a : Site) : 0 < a.var := by
  unfold Site.var
  split_ifs with h
  · positivity
  · exact div_pos one_pos (lt_of_lt_of_le (by positivity) (not_lt.1 h))

theorem Site.var_le (a : Site) : a.var ≤ 10 ^ 10 := by
  unfold Site.var
  split_ifs with h
  · exact le_rfl
  · have h1 : (1 : ℝ) / 10 ^ 10 ≤ a.p := not_lt.1 h
    rw [div_le_iff₀ (lt_of_lt_of_le (by positivity) h1)]
    rw [div_le_iff₀ (by positivity)] at h1
    linarith

theorem is_nG (hc : Calm1 env) (a : Site) : Is env (nG a) a := by
  refine ⟨natIs_nG a, ?_⟩
  by_cases h : a.p < 1 / 10 ^ 10
  · have hm := moment_of_natural_broad (env := env) (P := m1 a.p) (num a.sh a.h) (by rw [m1_trace]; exact h)
    have e1 : a.mean = 0 := if_pos h
    have e2 : a.var = 10 ^ 10 := if_pos h
    have e3 : a.meanSh = false := if_pos h
    rw [e1, e2, e3]
    refine ⟨hm.1, hm.2.trans ?_⟩
    rw [m1_one, m1_smul, mul_one]
    rfl
  · have e1 : a.mean = a.h / a.p := if_neg h
    have e2 : a.var = 1 / a.p := if_neg h
    have e3 : a.meanSh = a.sh := if_neg h
    have hp : 0 < a.p := lt_of_lt_of_le (by positivity) (not_lt.1 h)
    rw [e1, e2, e3]
    have : naturalToMoment env (some (.m (m1 a.p))) (some (num a.sh a.h)) = .ok (num a.sh (a.h / a.p), .m (m1 (1 / a.p))) := by
      simp only [naturalToMoment, need_some, ok_bind, Arr.shape0_m, Arr.trace_m, m1_trace]
      rw [if_neg (show ¬ a.p < TRACE_EPS from h), spSolvePos_eye (m1_posDef.2 hp) (hc _), tryBare_ok, m1_inv]
      simp only [ok_bind, symmetrize_m1, dot_num, py_pure]
      rw [one_div, div_eq_inv_mul]
    exact ⟨by rw [nG, mean_ofNatural, num_atleast1d, this]; rfl, by rw [nG, cov_ofNatural, num_atleast1d, this]; rfl⟩

/-- A Gaussian in moments reads the natural parameters. -/
theorem natIs_ofMoment (hc : Calm1 env) (b : Bool) (m : ℝ) {c : ℝ} (h : 0 < c) :
    NatIs env (ofMoment (num b m) (.m (m1 c))) (.ofMoments b m c) := by
  have : momentToNatural env (some (num b m)) (some (.m (m1 c))) = .ok (.m (m1 (1 / c)), num b (m / c)) := by
    simp only [momentToNatural, need_some, ok_bind, Arr.shape0_m, spSolvePos_eye (m1_posDef.2 h) (hc _), tryBare_ok, m1_inv,
      symmetrize_m1, matmul_num, py_pure]
    rw [one_div, div_eq_inv_mul]
  exact ⟨by rw [precisionA, precision_ofMoment, num_atleast1d, this]; rfl, by rw [shiftA, shift_ofMoment, num_atleast1d, this]; rfl⟩

theorem mom1_ofMoment (b : Bool) (m c : ℝ) : Mom1 env (ofMoment (num b m) (.m (m1 c))) b m c := ⟨by simp, by simp⟩

theorem asFactor_nG : asFactor 1 = nG ⟨false, 0, 0⟩ := by
  simp only [asFactor, nG, m1_zero]
  rfl

theorem asMarginal_is (hc : Calm1 env) : Is env (asMarginal 1) ⟨false, 1 / 10 ^ 10, 0⟩ := by
  have e : asMarginal 1 = ofMoment (num false 0) (.m (m1 (10 ^ 10))) := by
    simp only [asMarginal, Arr.eye, m1_one, Arr.smul_m, m1_smul, mul_one]
    rfl
  have h := natIs_ofMoment hc false 0 (c := 10 ^ 10) (by positivity)
  rw [e]
  refine ⟨⟨h.1, ?_⟩, ?_⟩
  · have := h.2
    simp only [Site.ofMoments, zero_div] at this
    exact this
  · have h1 := mom1_ofMoment (env := env) false 0 (10 ^ 10)
    have e1 : (Site.mk false (1 / 10 ^ 10) 0).mean = 0 := by simp [Site.mean]
    have e2 : (Site.mk false (1 / 10 ^ 10) 0).var = 10 ^ 10 := by simp [Site.var]
    have e3 : (Site.mk false (1 / 10 ^ 10) 0).meanSh = false := by simp [Site.meanSh]
    rw [e1, e2, e3]
    exact h1

theorem NatIs.mul {g g' : Gaussian} {a b : Site} (h : NatIs env g a) (h' : NatIs env g' b) : g.mul env g' = .ok (nG (a + b)) := by
  simp only [Gaussian.mul, h.prec, h.shift, h'.prec, h'.shift, ok_bind, Arr.add_mm, m1_add, symmetrize_m1, num_add, py_pure]
  rfl

theorem NatIs.truediv {g g' : Gaussian} {a b : Site} (h : NatIs env g a) (h' : NatIs env g' b) :
    g.truediv env g' = .ok (nG (a - b)) := by
  simp only [Gaussian.truediv, h.prec, h.shift, h'.prec, h'.shift, ok_bind, Arr.sub_mm, m1_sub, num_sub, py_pure]
  rfl

theorem NatIs.pow {g : Gaussian} {a : Site} (h : NatIs env g a) (k : ℝ) : g.pow env k = .ok (nG (k • a)) := by
  simp only [Gaussian.pow, h.prec, h.shift, ok_bind, Arr.smul_m, m1_smul, num_smul, py_pure]
  rfl

theorem Mom1.meanA {g : Gaussian} {b : Bool} {m c : ℝ} (h : Mom1 env g b m c) : g.meanA env = .ok (num b m) := by
  simp [Gaussian.meanA, h.1]
theorem Mom1.covA {g : Gaussian} {b : Bool} {m c : ℝ} (h : Mom1 env g b m c) : g.covA env = .ok (.m (m1 c)) := by
  simp [Gaussian.covA, h.2]
theorem Mom1.validate {g : Gaussian} {b : Bool} {m c : ℝ} (h : Mom1 env g b m c) (hc : 0 < c) : validateCovariance env g = .ok () := by
  simp only [validateCovariance, h.2, ok_bind, npCholesky_m1 hc]
theorem Is.validate {g : Gaussian} {a : Site} (h : Is env g a) : validateCovariance env g = .ok () := h.mom.validate a.var_pos

/-! ## The projections -/

section proj

variable {e : Estimator} {f : Func} {τ : Rule} {g : Gaussian} {b : Bool} {m p : ℝ}

theorem projTrans_scalar (hT : Realises env e.transMap f τ) (hα : 0 < e.power) {q : ℝ} (hQ : e.Q = some (.m (m1 q)))
    (hg : Mom1 env g b m p) (hp : 0 < p) (hs : 0 < τ.S m p + q) :
    e.projTrans f g = .ok (ofMoment (num false (τ.X m p)) (.m (m1 ((τ.S m p + q) / e.power)))) := by
  have : e.power⁻¹ * (τ.S m p + q) = (τ.S m p + q) / e.power := (div_eq_inv_mul _ _).symm
  simp only [Estimator.projTrans, hT g b m p hg hp, ok_bind, hQ, need, Arr.iadd_mm, m1_add, Arr.divS_m _ hα.ne', m1_smul, this,
    symmetrize_m1, npCholesky_m1 (div_pos hs hα), py_pure]
  rfl

theorem projMeas_scalar {κ : Rule} (hT : Realises env e.measMap f κ) (hα : 0 < e.power) {r : ℝ} (hR : e.R = some (.m (m1 r)))
    (hg : Mom1 env g b m p) (hp : 0 < p) (hs : 0 < κ.S m p + r / e.power) {ya : Arr} {y : ℝ} (hy : IsVec ya (v1 y)) :
    e.projMeas env f g ya = .ok (ofMoment (num true (m + κ.C m p / (κ.S m p + r / e.power) * (y - κ.X m p)))
      (.m (m1 (p - (κ.C m p / (κ.S m p + r / e.power)) ^ 2 * (κ.S m p + r / e.power))))) := by
  have : e.power⁻¹ * r = r / e.power := (div_eq_inv_mul _ _).symm
  have h2 : ∀ C w : ℝ, 0 < w → C / w * C = (C / w) ^ 2 * w := fun C w hw => by field_simp
  simp only [Estimator.projMeas, hg.validate hp, hT g b m p hg hp, ok_bind, hR, need, Arr.divS_m _ hα.ne', m1_smul, this, Arr.iadd_mm, m1_add,
    symmetrize_m1, npCholesky_m1 hs, Arr.T_m, m1_transpose, npSolve_m1 hs, hy.atleast1d, Arr.sub_vv, v1_sub, hg.meanA, hg.covA]
  rw [num_false, num_reshapeCol_false]
  simp only [matmul_num, ok_bind, num_add, Bool.or_true, Arr.matmul_mm, m1_mul, Arr.sub_mm, m1_sub, symmetrize_m1, py_pure, h2 _ _ hs]

theorem projBack_scalar (hT : Realises env e.transMap f τ) (hα : 0 < e.power) {q : ℝ} (hQ : e.Q = some (.m (m1 q)))
    (hg : Mom1 env g b m p) (hp : 0 < p) (hs : 0 < τ.S m p + q / e.power) {nc : Gaussian} {nx : Option Gaussian} {b' : Bool} {μ σ : ℝ}
    (ht : e.target env (num false (τ.X m p)) (.m (m1 (τ.S m p + q / e.power))) nc nx = .ok (num b' μ, .m (m1 σ))) :
    e.projBack env f g nc nx = .ok (ofMoment (num (b || b') (m + τ.C m p / (τ.S m p + q / e.power) * (μ - τ.X m p)))
      (.m (m1 (p + (τ.C m p / (τ.S m p + q / e.power)) ^ 2 * (σ - (τ.S m p + q / e.power)))))) := by
  have : e.power⁻¹ * q = q / e.power := (div_eq_inv_mul _ _).symm
  rw [← num_false] at ht
  simp only [Estimator.projBack, hT g b m p hg hp, ok_bind, hQ, need, Arr.divS_m _ hα.ne', m1_smul, this, Arr.iadd_mm, m1_add,
    symmetrize_m1, Arr.T_m, m1_transpose, npSolve_m1 hs, ht, hg.meanA, hg.covA]
  rw [num_false]
  simp only [num_sub, Bool.or_false, ok_bind, dot_num, num_add, Arr.sub_mm, m1_sub, Arr.matmul_mm, m1_mul, Arr.add_mm, m1_add, symmetrize_m1,
    py_pure]
  rw [show ∀ k d : ℝ, k * d * k = k ^ 2 * d from fun k d => by ring]

theorem target_one (he : e.power = 1) {xa ca : Arr} {nc nx : Gaussian} {a : Site} (hn : Is env nx a) :
    e.target env xa ca nc (some nx) = .ok (num a.meanSh a.mean, .m (m1 a.var)) := by
  simp only [Estimator.target, if_pos he, hn.mom.meanA, hn.mom.covA, ok_bind, py_pure]

theorem target_power (hc : Calm1 env) (he : e.power ≠ 1) {x s : ℝ} (hs : 0 < s) {nc : Gaussian} {nx : Option Gaussian} {a : Site}
    (hn : NatIs env nc a) :
    e.target env (num false x) (.m (m1 s)) nc nx = .ok (num (Site.ofMoments false x s + e.power • a).meanSh
      (Site.ofMoments false x s + e.power • a).mean, .m (m1 (Site.ofMoments false x s + e.power • a).var)) := by
  have h := (natIs_ofMoment hc false x hs).mul (natIs_nG (env := env) (e.power • a))
  have hm := (is_nG hc (Site.ofMoments false x s + e.power • a)).mom
  simp only [Estimator.target, if_neg he, hn.pow, ok_bind, h, hm.meanA, hm.covA, py_pure]

end proj

/-! ## Positivity -/

theorem Rule.Schwarz.meas_pos {κ : Rule} (h : κ.Schwarz) {m p r : ℝ} (hp : 0 < p) (hr : 0 < r) :
    0 < κ.S m p + r ∧ 0 < p - (κ.C m p / (κ.S m p + r)) ^ 2 * (κ.S m p + r) := by
  obtain ⟨h1, h2⟩ := h m p hp
  have hs : 0 < κ.S m p + r := by linarith
  refine ⟨hs, ?_⟩
  have : (κ.C m p / (κ.S m p + r)) ^ 2 * (κ.S m p + r) = κ.C m p ^ 2 / (κ.S m p + r) := by field_simp
  rw [this, sub_pos, div_lt_iff₀ hs]
  nlinarith

theorem Rule.Schwarz.back_pos {κ : Rule} (h : κ.Schwarz) {m p r : ℝ} (hp : 0 < p) (hr : 0 < r) {σ : ℝ} (hσ : 0 ≤ σ) :
    0 < p + (κ.C m p / (κ.S m p + r)) ^ 2 * (σ - (κ.S m p + r)) := by
  have := (h.meas_pos (m := m) hp hr).2
  have h2 : 0 ≤ (κ.C m p / (κ.S m p + r)) ^ 2 * σ := mul_nonneg (sq_nonneg _) hσ
  nlinarith

end Verif

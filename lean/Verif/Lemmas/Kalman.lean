import Verif.Spec.Kalman
import Verif.Lemmas.Transforms
import Verif.Lemmas.Bayes

/-! The steps of the Kalman filter on well-shaped arguments. -/

namespace Verif

open Matrix

variable {env : Env} {n k : ℕ}

theorem IsVec.atleast1d {a : Arr} {y : Fin k → ℝ} (h : IsVec a y) : a.atleast1d = .v y := by
  rcases h with rfl | rfl
  · rfl
  · by_cases hk : k = 1
    · subst hk
      simp only [Arr.squeeze_v1, Arr.atleast1d_s]
      congr 1; ext i; rw [Subsingleton.elim i 0]
    · rw [Arr.squeeze_v _ hk]; rfl

theorem isVec_v (y : Fin k → ℝ) : IsVec (.v y) y := .inl rfl

theorem IsVec.sub {a : Arr} {y : Fin k → ℝ} (h : IsVec a y) (x : Fin k → ℝ) : (Arr.v x).sub a = .ok (.v (x - y)) := by
  rcases h with rfl | rfl
  · simp
  · by_cases hk : k = 1
    · subst hk
      simp only [Arr.squeeze_v1, Arr.sub, Arr.zip]
      simp
      ext i; rw [Subsingleton.elim i 0]; simp [Arr.bget]
    · rw [Arr.squeeze_v _ hk]; simp

theorem hasMoments_isVec {a : Arr} {y : Fin n → ℝ} (h : IsVec a y) (C : Matrix (Fin n) (Fin n) ℝ) :
    HasMoments env (Gaussian.ofMoment a (.m C)) y C := ⟨by simp [h.atleast1d], by simp⟩

theorem hasMoments_inj {g : Gaussian} {μ μ' : Fin n → ℝ} {C C' : Matrix (Fin n) (Fin n) ℝ} (h : HasMoments env g μ C)
    (h' : HasMoments env g μ' C') : μ = μ' ∧ C = C' := by
  have h1 := h.1.symm.trans h'.1
  have h2 := h.2.symm.trans h'.2
  simp only [Except.ok.injEq, Option.some.injEq] at h1 h2
  exact ⟨Arr.v_inj.1 h1, Arr.m_inj.1 h2⟩

/-- Copying a Gaussian with readable moments keeps them readable if it is in moment form. -/
theorem copyV_ofMoment (a c : Arr) : (Gaussian.ofMoment a c).copyV env = .ok (Gaussian.ofMoment a.atleast1d c) := by
  simp [Gaussian.copyV, Gaussian.copy, Gaussian.ofMoment, Gaussian.init, Gaussian.getMean, Gaussian.getCov]

theorem ofMoment_atleast1d (a c : Arr) : Gaussian.ofMoment a.atleast1d c = Gaussian.ofMoment a c := by
  simp [Gaussian.ofMoment, Gaussian.init]

theorem IsVec.ofMoment {a : Arr} {y : Fin n → ℝ} (h : IsVec a y) (c : Arr) :
    Gaussian.ofMoment a c = Gaussian.ofMoment (.v y) c := by
  rw [← ofMoment_atleast1d a, h.atleast1d]

theorem copyV_moment (y : Fin n → ℝ) (c : Arr) : (Gaussian.ofMoment (.v y) c).copyV env = .ok (Gaussian.ofMoment (.v y) c) := by
  rw [copyV_ofMoment]; rfl

namespace KFS

theorem predict_of {K : KFS} {g : Gaussian} {t u : Option ℝ} {x cr : Arr} {xv : Fin k → ℝ} {S0 Q : Matrix (Fin k) (Fin k) ℝ}
    (hT : K.transform (fun z => K.transition z t u) g = .ok (x, .m S0, cr)) (hx : IsVec x xv) (hQ : K.Q = .m Q) :
    K.predict g t u = .ok (Gaussian.ofMoment (.v xv) (.m (S0 + Q))) := by
  simp only [predict, hT, ok_bind, hQ, Arr.iadd_mm, py_pure, hx.ofMoment]

theorem correct_of {K : KFS} {g : Gaussian} {t u : Option ℝ} {μ : Fin n → ℝ} {P : Matrix (Fin n) (Fin n) ℝ}
    (hg : HasMoments env g μ P) {z y : Arr} {zv yv : Fin k → ℝ} {S0 R : Matrix (Fin k) (Fin k) ℝ} {C : Matrix (Fin n) (Fin k) ℝ}
    (hT : K.measTransform (fun w => K.measurement w t u) g = .ok (z, .m S0, .m C)) (hz : IsVec z zv) (hy : IsVec y yv)
    (hR : K.R = .m R) (hS : (S0 + R).det ≠ 0) :
    K.correct env g y t u = .ok (Gaussian.ofMoment (.v (μ + ((S0 + R)⁻¹ * Cᵀ)ᵀ *ᵥ (yv - zv)))
      (.m (P - ((S0 + R)⁻¹ * Cᵀ)ᵀ * Cᵀ))) := by
  simp only [correct, hT, ok_bind, hR, Arr.iadd_mm, Arr.T_m, npSolve_mm _ hS, hy.atleast1d, hz.sub, hg.meanA, hg.covA,
    Arr.dot_mv, Arr.dot_mm, Arr.add_vv, Arr.sub_mm, py_pure]

theorem smooth_of {K : KFS} {g nx : Gaussian} {t u : Option ℝ} {μ : Fin n → ℝ} {P : Matrix (Fin n) (Fin n) ℝ}
    (hg : HasMoments env g μ P) {ν : Fin k → ℝ} {Sg : Matrix (Fin k) (Fin k) ℝ} (hn : HasMoments env nx ν Sg)
    {x : Arr} {xv : Fin k → ℝ} {S0 Q : Matrix (Fin k) (Fin k) ℝ} {C : Matrix (Fin n) (Fin k) ℝ}
    (hT : K.transform (fun w => K.transition w t u) g = .ok (x, .m S0, .m C)) (hx : IsVec x xv)
    (hQ : K.Q = .m Q) (hS : (S0 + Q).det ≠ 0) :
    K.smooth env g nx t u = .ok (Gaussian.ofMoment (.v (μ + ((S0 + Q)⁻¹ * Cᵀ)ᵀ *ᵥ (ν - xv)))
      (.m (P + ((S0 + Q)⁻¹ * Cᵀ)ᵀ * (Sg - (S0 + Q)) * (((S0 + Q)⁻¹ * Cᵀ)ᵀ)ᵀ))) := by
  simp only [smooth, hT, ok_bind, hQ, Arr.iadd_mm, Arr.T_m, npSolve_mm _ hS, hx.sub, hg.meanA, hg.covA, hn.meanA, hn.covA,
    Arr.dot_mv, Arr.matmul_mm, Arr.add_vv, Arr.sub_mm, Arr.add_mm, py_pure]

end KFS

end Verif

namespace Verif

open Matrix

variable {env : Env}

/-- Copying a copy gives the same value. -/
theorem copyV_idem {g c : Gaussian} (h : g.copyV env = .ok c) : c.copyV env = .ok c := by
  unfold Gaussian.copyV Gaussian.copy at h
  have key : (∃ p s, c = Gaussian.init none none p s) ∨ (∃ m v, c = Gaussian.init m v none none) := by
    split_ifs at h
    · left
      split at h
      · simp at h
      · split at h
        · simp at h
        · simp only [Except.ok.injEq] at h
          exact ⟨_, _, h.symm⟩
    · right
      split at h
      · simp at h
      · split at h
        · simp at h
        · simp only [Except.ok.injEq] at h
          exact ⟨_, _, h.symm⟩
  rcases key with ⟨p, s, rfl⟩ | ⟨m, v, rfl⟩
  · cases s <;>
      simp [Gaussian.copyV, Gaussian.copy, Gaussian.init, Gaussian.getMean, Gaussian.getCov, Gaussian.getPrecision,
        Gaussian.getShift]
  · cases m <;> simp [Gaussian.copyV, Gaussian.copy, Gaussian.init, Gaussian.getMean, Gaussian.getCov]

/-- The copy of a Gaussian reads the same moments. -/
theorem copyV_hasMoments_moment {n : ℕ} {g : Gaussian} {μ : Fin n → ℝ} {C : Matrix (Fin n) (Fin n) ℝ}
    (hg : HasMoments env g μ C) (hm : g.mode ≠ .natural) : ∃ c, g.copyV env = .ok c ∧ HasMoments env c μ C := by
  have h1 := hg.1
  have h2 := hg.2
  simp only [Gaussian.mean, Gaussian.getMean, Gaussian.cov, Gaussian.getCov, hm, false_and, if_false, Except.ok.injEq] at h1 h2
  refine ⟨Gaussian.ofMoment (.v μ) (.m C), ?_, hasMoments_ofMoment _ _ _⟩
  simp [Gaussian.copyV, Gaussian.copy, hm, Gaussian.getMean, Gaussian.getCov, h1, h2, Gaussian.ofMoment]

namespace KFS

variable {K : KFS} {u : Option ℝ}

theorem filterLoop_length {ys : List Arr} : ∀ {g : Gaussian} {t : ℝ} {rs : List Gaussian},
    K.filterLoop env u g t ys = .ok rs → rs.length = ys.length := by
  induction ys with
  | nil => intro g t rs h; simp only [filterLoop, Except.ok.injEq] at h; simp [← h]
  | cons y ys ih =>
    intro g t rs h
    simp only [filterLoop] at h
    obtain ⟨p, -, h⟩ := py_bind_ok h
    obtain ⟨c, -, h⟩ := py_bind_ok h
    obtain ⟨r, hr, h⟩ := py_bind_ok h
    simp only [py_pure, Except.ok.injEq] at h
    simp [← h, ih hr]

theorem filterLoop_append {ys ys' : List Arr} : ∀ {g : Gaussian} {t : ℝ} {rs : List Gaussian},
    K.filterLoop env u g t (ys ++ ys') = .ok rs → K.filterLoop env u g t ys = .ok (rs.take ys.length) := by
  induction ys with
  | nil => intro g t rs h; simp [filterLoop]
  | cons y ys ih =>
    intro g t rs h
    simp only [List.cons_append, filterLoop] at h ⊢
    obtain ⟨p, hp, h⟩ := py_bind_ok h
    obtain ⟨c, hc, h⟩ := py_bind_ok h
    obtain ⟨r, hr, h⟩ := py_bind_ok h
    simp only [py_pure, Except.ok.injEq] at h
    simp [hp, hc, ih hr, ← h]

theorem filterLoop_append_error {ys ys' : List Arr} : ∀ {g : Gaussian} {t : ℝ} {e : Err},
    K.filterLoop env u g t ys = .error e → K.filterLoop env u g t (ys ++ ys') = .error e := by
  induction ys with
  | nil => intro g t e h; simp [filterLoop] at h
  | cons y ys ih =>
    intro g t e h
    simp only [List.cons_append, filterLoop] at h ⊢
    cases hp : K.predict g (some t) u with
    | error e' => simp [hp] at h ⊢; exact h
    | ok p =>
      simp only [hp, ok_bind] at h ⊢
      cases hc : K.correct env p y.squeeze (some t) u with
      | error e' => simp [hc] at h ⊢; exact h
      | ok c =>
        simp only [hc, ok_bind] at h ⊢
        cases hr : K.filterLoop env u c (t + K.dt) ys with
        | error e' =>
          rw [hr] at h
          rw [ih hr]
          simpa using h
        | ok r => simp [hr] at h

/-- Every result of the filter loop is the correction of the prediction made from the previous result, at time `t + i dt`. -/
theorem filterLoop_get {ys : List Arr} : ∀ {g : Gaussian} {t : ℝ} {rs : List Gaussian},
    K.filterLoop env u g t ys = .ok rs → ∀ (i : ℕ) (y : Arr), ys[i]? = some y →
      ∃ prev pred r, (g :: rs)[i]? = some prev ∧ rs[i]? = some r ∧ K.predict prev (some (t + i * K.dt)) u = .ok pred ∧
        K.correct env pred y.squeeze (some (t + i * K.dt)) u = .ok r := by
  induction ys with
  | nil => intro g t rs h i y hy; simp at hy
  | cons y ys ih =>
    intro g t rs h i y' hy
    simp only [filterLoop] at h
    obtain ⟨p, hp, h⟩ := py_bind_ok h
    obtain ⟨c, hc, h⟩ := py_bind_ok h
    obtain ⟨r, hr, h⟩ := py_bind_ok h
    simp only [py_pure, Except.ok.injEq] at h
    subst h
    cases i with
    | zero =>
      simp only [List.getElem?_cons_zero, Option.some.injEq] at hy
      subst hy
      exact ⟨g, p, c, rfl, rfl, by simpa using hp, by simpa using hc⟩
    | succ i =>
      obtain ⟨prev, pred, r', h1, h2, h3, h4⟩ := ih hr i y' (by simpa using hy)
      have e : t + K.dt + (i : ℝ) * K.dt = t + ((i + 1 : ℕ) : ℝ) * K.dt := by push_cast; ring
      rw [e] at h3 h4
      exact ⟨prev, pred, r', by simpa using h1, by simpa using h2, h3, h4⟩

theorem smoothLoop_get {states : List Gaussian} : ∀ {next : Gaussian} {t : ℝ} {rs : List Gaussian},
    next.copyV env = .ok next →
    K.smoothLoop env u next t states = .ok rs → rs.length = states.length ∧ ∀ (j : ℕ) (st : Gaussian), states[j]? = some st →
      ∃ prev nx r, (next :: rs)[j]? = some prev ∧ rs[j]? = some r ∧ prev.copyV env = .ok nx ∧
        K.smooth env st nx (some (t - j * K.dt)) u = .ok r := by
  induction states with
  | nil =>
    intro next t rs _ h
    simp only [smoothLoop, Except.ok.injEq] at h
    subst h
    exact ⟨rfl, fun j st h => by simp at h⟩
  | cons s states ih =>
    intro next t rs hn h
    simp only [smoothLoop] at h
    obtain ⟨p, hp, h⟩ := py_bind_ok h
    obtain ⟨c, hc, h⟩ := py_bind_ok h
    obtain ⟨r, hr, h⟩ := py_bind_ok h
    simp only [py_pure, Except.ok.injEq] at h
    subst h
    obtain ⟨hl, hg⟩ := ih (copyV_idem hc) hr
    refine ⟨by simp [hl], ?_⟩
    intro j st hst
    cases j with
    | zero =>
      simp only [List.getElem?_cons_zero, Option.some.injEq] at hst
      subst hst
      exact ⟨next, next, p, rfl, rfl, hn, by simpa using hp⟩
    | succ j =>
      obtain ⟨prev, nx, r', h1, h2, h3, h4⟩ := hg j st (by simpa using hst)
      have e : t - K.dt - (j : ℝ) * K.dt = t - ((j + 1 : ℕ) : ℝ) * K.dt := by push_cast; ring
      rw [e] at h4
      cases j with
      | zero =>
        simp only [List.getElem?_cons_zero, Option.some.injEq] at h1
        subst h1
        rw [copyV_idem hc] at h3
        simp only [Except.ok.injEq] at h3
        subst h3
        exact ⟨p, c, r', by simp, by simpa using h2, hc, h4⟩
      | succ j => exact ⟨prev, nx, r', by simpa using h1, by simpa using h2, h3, h4⟩

/-- What the smoother computes, index by index. -/
theorem kalmanSmoother_get {fs rs : List Gaussian} (h : K.kalmanSmoother env fs u = .ok rs) :
    rs.length = fs.length ∧ (∃ last c, fs.getLast? = some last ∧ rs.getLast? = some c ∧ last.copyV env = .ok c) ∧
    ∀ (i : ℕ) (st : Gaussian), fs[i]? = some st → i + 1 < fs.length →
      ∃ later nx r, rs[i + 1]? = some later ∧ rs[i]? = some r ∧ later.copyV env = .ok nx ∧
        K.smooth env st nx (some ((i + 1 : ℝ) * K.dt)) u = .ok r := by
  unfold kalmanSmoother at h
  split at h
  · simp at h
  · next last states hrev =>
    obtain ⟨c, hc, h⟩ := py_bind_ok h
    obtain ⟨rest, hr, h⟩ := py_bind_ok h
    simp only [py_pure, Except.ok.injEq] at h
    have hfs : fs = (last :: states).reverse := by rw [← hrev, List.reverse_reverse]
    have hlen : fs.length = states.length + 1 := by rw [hfs]; simp
    obtain ⟨hl, hg⟩ := smoothLoop_get (copyV_idem hc) hr
    subst h
    refine ⟨by simp [hlen, hl], ⟨last, c, by simp [hfs], by simp, hc⟩, ?_⟩
    intro i st hst hi
    have hj : i = states.length - (states.length - 1 - i) - 1 := by omega
    have hst' : states[states.length - 1 - i]? = some st := by
      rw [hfs, List.getElem?_reverse (by simp; omega)] at hst
      have : (last :: states).length - 1 - i = (states.length - 1 - i) + 1 := by simp; omega
      rw [this, List.getElem?_cons_succ] at hst
      exact hst
    obtain ⟨prev, nx, r, h1, h2, h3, h4⟩ := hg _ st hst'
    refine ⟨prev, nx, r, ?_, ?_, h3, ?_⟩
    · rw [List.getElem?_reverse (by simp; omega)]
      have : (c :: rest).length - 1 - (i + 1) = states.length - 1 - i := by simp [hl]; omega
      rw [this, h1]
    · rw [List.getElem?_reverse (by simp; omega)]
      have : (c :: rest).length - 1 - i = states.length - 1 - i + 1 := by simp [hl]; omega
      rw [this, List.getElem?_cons_succ, h2]
    · have e : ((fs.length : ℝ) - 1) * K.dt - ((states.length - 1 - i : ℕ) : ℝ) * K.dt = (i + 1 : ℝ) * K.dt := by
        have h5 : states.length - 1 - i + (i + 1) = states.length := by omega
        have h6 : ((states.length - 1 - i : ℕ) : ℝ) + (i + 1) = states.length := by exact_mod_cast h5
        rw [hlen, ← sub_mul]
        congr 1
        push_cast
        linarith
      rw [e] at h4
      exact h4

end KFS

end Verif

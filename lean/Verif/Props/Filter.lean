import Verif.Props.Kalman
import Verif.Lemmas.Scalar

/-!
# Properties of the filter and smoother loops (C24 – C26)
-/

namespace Verif

open Matrix

/-! ## C24 -/

/-- **C24.** `kalman_filter` returns one state per measurement, and its first results depend only on the first measurements. -/
theorem C24_filter_causal (env : Env) (K : KFS) (ys ys' : List Arr) (prior : Option Gaussian) (tZero : ℝ) (u : Option ℝ)
    (rs : List Gaussian) (h : K.kalmanFilter env (ys ++ ys') prior tZero u = .ok rs) :
    rs.length = (ys ++ ys').length ∧ K.kalmanFilter env ys prior tZero u = .ok (rs.take ys.length) :=
  ⟨KFS.filterLoop_length h, KFS.filterLoop_append h⟩

/-- **C24.** If filtering a prefix raises, filtering the whole sequence raises the same exception. -/
theorem C24_filter_raises (env : Env) (K : KFS) (ys ys' : List Arr) (prior : Option Gaussian) (tZero : ℝ) (u : Option ℝ) (e : Err)
    (h : K.kalmanFilter env ys prior tZero u = .error e) : K.kalmanFilter env (ys ++ ys') prior tZero u = .error e :=
  KFS.filterLoop_append_error h

/-- **C24.** Each result is the correction, with its own measurement, of the prediction from the previous result (the prior, by
default the system's initial state, for the first), both evaluated at `t_zero + i dt`. -/
theorem C24_filter_recursion (env : Env) (K : KFS) (ys : List Arr) (prior : Option Gaussian) (tZero : ℝ) (u : Option ℝ)
    (rs : List Gaussian) (h : K.kalmanFilter env ys prior tZero u = .ok rs) (i : ℕ) (y : Arr) (hy : ys[i]? = some y) :
    ∃ prev pred r, (if i = 0 then some (prior.getD K.initState) else rs[i - 1]?) = some prev ∧ rs[i]? = some r ∧
      K.predict prev (some (tZero + i * K.dt)) u = .ok pred ∧
      K.correct env pred y.squeeze (some (tZero + i * K.dt)) u = .ok r := by
  obtain ⟨prev, pred, r, h1, h2, h3, h4⟩ := KFS.filterLoop_get h i y hy
  refine ⟨prev, pred, r, ?_, h2, h3, h4⟩
  cases i with
  | zero => simpa using h1
  | succ i => simpa using h1

/-- `kalman_filter` on affine systems with positive definite noises never fails (used for the examples below). -/
theorem C24_filter_affine_total (env : Env) (K : KFS) {n k : ℕ} {A : Matrix (Fin n) (Fin n) ℝ} {b : Fin n → ℝ}
    {H : Matrix (Fin k) (Fin n) ℝ} {c : Fin k → ℝ} {Q : Matrix (Fin n) (Fin n) ℝ} {R : Matrix (Fin k) (Fin k) ℝ} {u : Option ℝ}
    (hQ : K.Q = .m Q) (hQ' : Q.PosDef) (hR : K.R = .m R) (hR' : R.PosDef) :
    ∀ (ys : List Arr) (g : Gaussian) (t : ℝ) (μ : Fin n → ℝ) (P : Matrix (Fin n) (Fin n) ℝ), HasMoments env g μ P → P.PosDef →
      (∀ j : ℕ, ExactOn env K.transform (fun x => K.transition x (some (t + j * K.dt)) u) A b) →
      (∀ j : ℕ, ExactOn env K.measTransform (fun x => K.measurement x (some (t + j * K.dt)) u) H c) →
      (∀ y ∈ ys, ∃ yv : Fin k → ℝ, IsVec y.squeeze yv) →
      ∃ rs, K.kalmanFilter env ys (some g) t u = .ok rs ∧
        ∀ r ∈ rs, ∃ (m : Fin n → ℝ) (C : Matrix (Fin n) (Fin n) ℝ), HasMoments env r m C ∧ C.PosDef := by
  intro ys
  induction ys with
  | nil => intro g t μ P _ _ _ _ _; exact ⟨[], rfl, by simp⟩
  | cons y ys ih =>
    intro g t μ P hg hP hf hh hys
    have hf0 := hf 0
    have hh0 := hh 0
    rw [Nat.cast_zero, zero_mul, add_zero] at hf0 hh0
    have e : ∀ j : ℕ, t + K.dt + (j : ℝ) * K.dt = t + ((j + 1 : ℕ) : ℝ) * K.dt := fun j => by push_cast; ring
    obtain ⟨p, hp, hpm, hpp⟩ := C20_predict_affine env K hf0 hQ hg hP
    obtain ⟨yv, hyv⟩ := hys y (by simp)
    obtain ⟨r, m', C', hr, hrm, hC, -⟩ := C21_correct_is_bayes env K hh0 hR hR' hpm (hpp hQ') hyv
    obtain ⟨rs, hrs, hall⟩ := ih r (t + K.dt) m' C' hrm hC (fun j => by rw [e]; exact hf _) (fun j => by rw [e]; exact hh _) (fun y hy => hys y (by simp [hy]))
    simp only [KFS.kalmanFilter, Option.getD_some] at hrs ⊢
    refine ⟨r :: rs, by simp [KFS.filterLoop, hp, hr, hrs], ?_⟩
    intro r' hr'
    rcases List.mem_cons.1 hr' with rfl | h
    · exact ⟨m', C', hrm, hC⟩
    · exact hall r' h

/-- Three measurements in the plane. -/
example : ∃ rs, (demoKFS (taylorTransform calmEnv exactJac)).kalmanFilter calmEnv
    [.v (n := 1) fun _ => 1, .v (n := 1) fun _ => 2, .v (n := 1) fun _ => 3] none 0 none = .ok rs ∧ rs.length = 3 := by
  obtain ⟨rs, h, -⟩ := C24_filter_affine_total calmEnv (demoKFS (taylorTransform calmEnv exactJac)) (u := none)
    rfl (PosDef.diagonal fun i => by fin_cases i <;> norm_num) rfl (posDef_scalar one_pos)
    [.v (n := 1) fun _ => 1, .v (n := 1) fun _ => 2, .v (n := 1) fun _ => 3] (Gaussian.ofMoment (.v ![1, 1]) (.m (diagonal ![2, 3]))) 0
    _ _ (hasMoments_ofMoment _ _ _) posDef_two
    (fun _ => C20_taylor_exact calmEnv exactJac_correct (.inl (affineFunc_vec _ _)))
    (fun _ => C20_taylor_exact calmEnv exactJac_correct (.inl (affineFunc_vec _ _))) (by
      intro y hy
      simp only [List.mem_cons, List.not_mem_nil, or_false] at hy
      rcases hy with rfl | rfl | rfl <;> exact ⟨_, .inr rfl⟩)
  exact ⟨rs, h, KFS.filterLoop_length h⟩

/-! ## C25 -/

/-- **C25.** The smoother returns as many states as it is given; the last one is a copy of the last filtered state (with the same
moments, see `C09` for copies); on an empty list it raises `StopIteration`. -/
theorem C25_smoother_alignment (env : Env) (K : KFS) (u : Option ℝ) :
    K.kalmanSmoother env [] u = .error .stopIteration ∧
    ∀ fs rs, K.kalmanSmoother env fs u = .ok rs → rs.length = fs.length ∧
      ∃ last c, fs.getLast? = some last ∧ rs.getLast? = some c ∧ last.copyV env = .ok c := by
  refine ⟨rfl, fun fs rs h => ?_⟩
  obtain ⟨h1, h2, -⟩ := KFS.kalmanSmoother_get h
  exact ⟨h1, h2⟩

/-- **C25.** The `i`-th smoothed state depends only on filtered states from `i` on: two runs over lists of equal length that agree from
some index on have the same results from that index on. -/
theorem C25_smoother_anticausal (env : Env) (K : KFS) (u : Option ℝ) (a b c : List Gaussian) (hab : a.length = b.length)
    (rs rs' : List Gaussian) (h : K.kalmanSmoother env (a ++ c) u = .ok rs) (h' : K.kalmanSmoother env (b ++ c) u = .ok rs') :
    rs.drop a.length = rs'.drop a.length := by
  obtain ⟨l1, e1, g1⟩ := KFS.kalmanSmoother_get h
  obtain ⟨l2, e2, g2⟩ := KFS.kalmanSmoother_get h'
  have hlen : rs.length = rs'.length := by rw [l1, l2]; simp [hab]
  -- downward induction on the index
  have key : ∀ d i, a.length ≤ i → i + d + 1 = rs.length → rs[i]? = rs'[i]? := by
    intro d
    induction d with
    | zero =>
      intro i hi hd
      obtain ⟨la, ca, p1, p2, p3⟩ := e1
      obtain ⟨lb, cb, q1, q2, q3⟩ := e2
      have hc : c ≠ [] := by
        rintro rfl
        simp at l1; omega
      rw [List.getLast?_append_of_ne_nil _ hc] at p1 q1
      have : la = lb := by rw [p1] at q1; simpa using q1
      subst this
      rw [p3] at q3
      simp only [Except.ok.injEq] at q3
      subst q3
      rw [List.getLast?_eq_getElem?] at p2 q2
      have e3 : rs.length - 1 = i := by omega
      have e4 : rs'.length - 1 = i := by omega
      rw [e3] at p2; rw [e4] at q2
      rw [p2, q2]
    | succ d ih =>
      intro i hi hd
      have hnext := ih (i + 1) (by omega) (by omega)
      have hi1 : i < (a ++ c).length := by rw [← l1]; omega
      obtain ⟨la, na, ra, p1, p2, p3, p4⟩ := g1 i _ (List.getElem?_eq_getElem hi1) (by rw [← l1]; omega)
      have hi2 : i < (b ++ c).length := by rw [← l2]; omega
      obtain ⟨lb, nb, rb, q1, q2, q3, q4⟩ := g2 i _ (List.getElem?_eq_getElem hi2) (by rw [← l2]; omega)
      have hs : (a ++ c)[i] = (b ++ c)[i] := by
        rw [List.getElem_append_right hi, List.getElem_append_right (by omega)]
        simp only [hab]
      rw [p1, q1] at hnext
      simp only [Option.some.injEq] at hnext
      subst hnext
      rw [p3] at q3
      simp only [Except.ok.injEq] at q3
      subst q3
      rw [hs, q4] at p4
      simp only [Except.ok.injEq] at p4
      rw [p2, q2, p4]
  apply List.ext_getElem?
  intro j
  rw [List.getElem?_drop, List.getElem?_drop]
  by_cases hj : a.length + j < rs.length
  · exact key (rs.length - 1 - (a.length + j)) _ (by omega) (by omega)
  · rw [List.getElem?_eq_none (by omega), List.getElem?_eq_none (by omega)]

/-- Smoothing affine systems never fails either. -/
theorem C25_smoother_affine_total (env : Env) (K : KFS) {n : ℕ} {A : Matrix (Fin n) (Fin n) ℝ} {b : Fin n → ℝ}
    {Q : Matrix (Fin n) (Fin n) ℝ} {u : Option ℝ}
    (hf : ∀ t, ExactOn env K.transform (fun x => K.transition x (some t) u) A b)
    (hQ : K.Q = .m Q) (hQ' : Q.PosDef) (fs : List Gaussian) (hne : fs ≠ [])
    (hfs : ∀ g ∈ fs, ∃ (m : Fin n → ℝ) (C : Matrix (Fin n) (Fin n) ℝ), g = Gaussian.ofMoment (.v m) (.m C) ∧ C.PosDef) :
    ∃ rs, K.kalmanSmoother env fs u = .ok rs ∧
      ∀ r ∈ rs, ∃ (m : Fin n → ℝ) (C : Matrix (Fin n) (Fin n) ℝ), r = Gaussian.ofMoment (.v m) (.m C) ∧ C.PosDef := by
  have loop : ∀ (l : List Gaussian) (next : Gaussian) (t : ℝ),
      (∃ (m : Fin n → ℝ) (C : Matrix (Fin n) (Fin n) ℝ), next = Gaussian.ofMoment (.v m) (.m C) ∧ C.PosDef) →
      (∀ g ∈ l, ∃ (m : Fin n → ℝ) (C : Matrix (Fin n) (Fin n) ℝ), g = Gaussian.ofMoment (.v m) (.m C) ∧ C.PosDef) →
      ∃ rs, K.smoothLoop env u next t l = .ok rs ∧
        ∀ r ∈ rs, ∃ (m : Fin n → ℝ) (C : Matrix (Fin n) (Fin n) ℝ), r = Gaussian.ofMoment (.v m) (.m C) ∧ C.PosDef := by
    intro l
    induction l with
    | nil => intro next t _ _; exact ⟨[], rfl, by simp⟩
    | cons g l ih =>
      intro next t ⟨ν, S, hν, hS⟩ hl
      obtain ⟨m, C, rfl, hC⟩ := hl g (by simp)
      subst hν
      obtain ⟨r, m', P', hr, hrm, hP'⟩ := C23_smooth_affine_posDef env K (hf t) hQ hQ' (hasMoments_ofMoment env m C) hC
        (hasMoments_ofMoment env ν S) hS.posSemidef
      have hrv : r = Gaussian.ofMoment (.v m') (.m P') := by
        obtain ⟨x, hx, h⟩ := hf t _ m C (hasMoments_ofMoment env m C) hC
        have h2 := KFS.smooth_of (K := K) (hasMoments_ofMoment env m C) (hasMoments_ofMoment env ν S) h hx hQ
          (posDef_det_ne (innov_posDef hC.posSemidef hQ' A))
        rw [h2] at hr
        simp only [Except.ok.injEq] at hr
        subst hr
        obtain ⟨e1, e2⟩ := hasMoments_inj hrm (hasMoments_ofMoment _ _ _)
        rw [e1, e2]
      subst hrv
      obtain ⟨rs, hrs, hall⟩ := ih (Gaussian.ofMoment (.v m') (.m P')) (t - K.dt) ⟨m', P', rfl, hP'⟩ (fun g hg => hl g (by simp [hg]))
      refine ⟨_ :: rs, by simp [KFS.smoothLoop, hr, copyV_moment, hrs]; rfl, ?_⟩
      intro r' hr'
      rcases List.mem_cons.1 hr' with rfl | h
      · exact ⟨m', P', rfl, hP'⟩
      · exact hall r' h
  unfold KFS.kalmanSmoother
  split
  · next h => exact absurd (List.reverse_eq_nil_iff.1 h) hne
  · next last states hrev =>
    have hmem : ∀ g, g ∈ last :: states → g ∈ fs := by
      intro g hg; rw [← hrev] at hg; exact List.mem_reverse.1 hg
    obtain ⟨m, C, rfl, hC⟩ := hfs last (hmem _ (by simp))
    obtain ⟨rs, hrs, hall⟩ := loop states (Gaussian.ofMoment (.v m) (.m C)) (((fs.length : ℝ) - 1) * K.dt) ⟨m, C, rfl, hC⟩
      (fun g hg => hfs g (hmem g (by simp [hg])))
    refine ⟨(Gaussian.ofMoment (.v m) (.m C) :: rs).reverse, by simp only [copyV_moment, ok_bind, hrs, py_pure], ?_⟩
    intro r hr
    rw [List.mem_reverse, List.mem_cons] at hr
    rcases hr with rfl | h
    · exact ⟨m, C, rfl, hC⟩
    · exact hall r h

/-- Two filtered states in the plane. -/
example : ∃ rs, (demoKFS (taylorTransform calmEnv exactJac)).kalmanSmoother calmEnv
    [Gaussian.ofMoment (.v ![1, 1]) (.m (diagonal ![2, 3])), Gaussian.ofMoment (.v ![0, 2]) (.m (diagonal ![2, 3]))] none = .ok rs ∧
    rs.length = 2 := by
  obtain ⟨rs, h, -⟩ := C25_smoother_affine_total calmEnv (demoKFS (taylorTransform calmEnv exactJac)) (u := none)
    (fun _ => C20_taylor_exact calmEnv exactJac_correct (.inl (affineFunc_vec _ _)))
    rfl (PosDef.diagonal fun i => by fin_cases i <;> norm_num)
    [Gaussian.ofMoment (.v ![1, 1]) (.m (diagonal ![2, 3])), Gaussian.ofMoment (.v ![0, 2]) (.m (diagonal ![2, 3]))] (by simp) (by
      intro g hg
      simp only [List.mem_cons, List.not_mem_nil, or_false] at hg
      rcases hg with rfl | rfl <;> exact ⟨_, _, rfl, posDef_two⟩)
  exact ⟨rs, h, ((C25_smoother_alignment calmEnv _ none).2 _ rs h).1⟩

/-! ## C26 -/

/-- **C26.** Time stamps: for filter results obtained with `t_zero`, the transition between states `i` and `i+1` is evaluated at
`t_zero + (i+1) dt` by the filter and at `(i+1) dt` by the smoother. -/
theorem C26_time_stamps (env : Env) (K : KFS) (ys : List Arr) (prior : Option Gaussian) (tZero : ℝ) (u : Option ℝ)
    (fs rs : List Gaussian) (hf : K.kalmanFilter env ys prior tZero u = .ok fs) (hs : K.kalmanSmoother env fs u = .ok rs)
    (i : ℕ) (hi : i + 1 < ys.length) :
    ∃ st pred later r, fs[i]? = some st ∧ rs[i]? = some r ∧
      K.predict st (some (tZero + (i + 1) * K.dt)) u = .ok pred ∧
      (∃ y, ys[i + 1]? = some y ∧ fs[i + 1]? = (K.correct env pred y.squeeze (some (tZero + (i + 1) * K.dt)) u).toOption) ∧
      (rs[i + 1]?.map fun g => g.copyV env) = some (.ok later) ∧
      K.smooth env st later (some ((i + 1) * K.dt)) u = .ok r := by
  have hlen := KFS.filterLoop_length hf
  obtain ⟨prev, pred, r', h1, h2, h3, h4⟩ := KFS.filterLoop_get hf (i + 1) _ (List.getElem?_eq_getElem hi)
  obtain ⟨-, -, hg⟩ := KFS.kalmanSmoother_get hs
  rw [List.getElem?_cons_succ] at h1
  obtain ⟨later, nx, r, g1, g2, g3, g4⟩ := hg i prev h1 (by omega)
  push_cast at h3 h4
  refine ⟨prev, pred, nx, r, h1, g2, h3, ⟨_, List.getElem?_eq_getElem hi, ?_⟩, ?_, g4⟩
  · rw [h2, h4]; rfl
  · rw [g1, Option.map_some, g3]

/-- **C26.** With `t_zero = 0` filter and smoother therefore evaluate each transition at the same time. -/
theorem C26_same_times_from_zero (env : Env) (K : KFS) (ys : List Arr) (prior : Option Gaussian) (u : Option ℝ)
    (fs rs : List Gaussian) (hf : K.kalmanFilter env ys prior 0 u = .ok fs) (hs : K.kalmanSmoother env fs u = .ok rs)
    (i : ℕ) (hi : i + 1 < ys.length) :
    ∃ τ st pred later r, fs[i]? = some st ∧ rs[i]? = some r ∧ K.predict st (some τ) u = .ok pred ∧
      (∃ y, ys[i + 1]? = some y ∧ fs[i + 1]? = (K.correct env pred y.squeeze (some τ) u).toOption) ∧
      (rs[i + 1]?.map fun g => g.copyV env) = some (.ok later) ∧ K.smooth env st later (some τ) u = .ok r := by
  obtain ⟨st, pred, later, r, h1, h2, h3, h4, h5, h6⟩ := C26_time_stamps env K ys prior 0 u fs rs hf hs i hi
  rw [zero_add] at h3 h4
  exact ⟨_, st, pred, later, r, h1, h2, h3, h4, h5, h6⟩

/-- A scalar system that starts moving at time `start`: the transition is `x ↦ x` from then on and `x ↦ 0` before. -/
noncomputable def switchKFS (start : ℝ) : KFS :=
  KFS.init (taylorTransform calmEnv exactJac)
    { transition := fun x t _ => match t with
        | some t => if start ≤ t then affineFunc (m1 1) (v1 0) x else affineFunc (m1 0) (v1 0) x
        | none => .error .type
      measurement := affineSys (m1 1) (v1 0)
      Q := .m (m1 1), R := .m (m1 1)
      initState := sG 0 1, dt := 1 } none

/-- **C26**, what a user with `t_zero ≠ 0` meets: shifting the time axis of a system changes the smoother's output.  The same
measurements filtered from time 100 and, for the system with the shifted clock, from time 0 give the same filtered states, but
the smoothed estimates of the first state differ (0 and 2). -/
theorem C26_smoother_ignores_t_zero : ∃ fs rs rs',
    (switchKFS 100).kalmanFilter calmEnv [.s 0, .s 8] none 100 none = .ok fs ∧
    (switchKFS 0).kalmanFilter calmEnv [.s 0, .s 8] none 0 none = .ok fs ∧
    (switchKFS 100).kalmanSmoother calmEnv fs none = .ok rs ∧ (switchKFS 0).kalmanSmoother calmEnv fs none = .ok rs' ∧
    ∃ g g', rs[0]? = some g ∧ rs'[0]? = some g' ∧ g.mean calmEnv = .ok (some (.v (v1 0))) ∧
      g'.mean calmEnv = .ok (some (.v (v1 2))) := by
  have hv : ∀ a, VecFunc (affineFunc (m1 a) (v1 0)) (fun x : Fin 1 → ℝ => v1 ((fun x => a * x) (x 0))) := by
    intro a x
    rw [affineFunc_vec (m1 a) (v1 0) x, v1_ext x]
    simp
  have hd : ∀ a m : ℝ, HasDerivAt (fun x => a * x) a m := fun a m => by
    simpa using (hasDerivAt_id m).const_mul a
  have hon : ∀ s t m p : ℝ, s ≤ t → (switchKFS s).transform (fun x => (switchKFS s).transition x (some t) none) (sG m p) =
      .ok (.s (1 * m), .m (m1 (1 * p * 1)), .m (m1 (p * 1))) := by
    intro s t m p hst
    have e : (fun x => (switchKFS s).transition x (some t) none) = affineFunc (m1 1) (v1 0) := by
      funext x; simp [switchKFS, KFS.init, hst]
    rw [e]
    exact taylor_scalar exactJac_correct (hv 1) (hd 1 m)
  have hoff : ∀ s t m p : ℝ, ¬ s ≤ t → (switchKFS s).transform (fun x => (switchKFS s).transition x (some t) none) (sG m p) =
      .ok (.s (0 * m), .m (m1 (0 * p * 0)), .m (m1 (p * 0))) := by
    intro s t m p hst
    have e : (fun x => (switchKFS s).transition x (some t) none) = affineFunc (m1 0) (v1 0) := by
      funext x; simp only [switchKFS, KFS.init, if_neg hst]
    rw [e]
    exact taylor_scalar exactJac_correct (hv 0) (hd 0 m)
  have hm : ∀ s t m p : ℝ, (switchKFS s).measTransform (fun x => (switchKFS s).measurement x (some t) none) (sG m p) =
      .ok (.s (1 * m), .m (m1 (1 * p * 1)), .m (m1 (p * 1))) := fun s t m p =>
    taylor_scalar exactJac_correct (hv 1) (hd 1 m)
  have hfilter : ∀ s, (switchKFS s).kalmanFilter calmEnv [.s 0, .s 8] none s none = .ok [sG 0 (2 / 3), sG 5 (5 / 8)] := by
    intro s
    have hi : (switchKFS s).initState = sG 0 1 := rfl
    have hdt : (switchKFS s).dt = 1 := rfl
    simp only [KFS.kalmanFilter, Option.getD_none, hi, KFS.filterLoop, Arr.squeeze_s, hdt]
    rw [KFS.predict_scalar (hon s s 0 1 le_rfl) (isVec_s _) rfl]
    simp only [ok_bind]
    rw [KFS.correct_scalar (hm s s _ _) (isVec_s _) (isVec_s 0) rfl (by norm_num)]
    simp only [ok_bind]
    rw [KFS.predict_scalar (hon s (s + 1) _ _ (by linarith)) (isVec_s _) rfl]
    simp only [ok_bind]
    rw [KFS.correct_scalar (hm s (s + 1) _ _) (isVec_s _) (isVec_s 8) rfl (by norm_num)]
    norm_num
  refine ⟨_, [sG 0 (2 / 3), sG 5 (5 / 8)], [sG 2 (2 / 3 + 2 / 5 * (5 / 8 - 5 / 3) * (2 / 5)), sG 5 (5 / 8)], hfilter 100, hfilter 0, ?_, ?_, _, _, rfl, rfl,
    (sG_moments _ _ _).1, (sG_moments _ _ _).1⟩
  · have hdt : (switchKFS 100).dt = 1 := rfl
    simp only [KFS.kalmanSmoother, List.reverse_cons, List.reverse_nil, List.nil_append, List.cons_append, sG_copyV, ok_bind,
      KFS.smoothLoop, hdt]
    rw [KFS.smooth_scalar (hoff 100 _ _ _ (by norm_num)) (isVec_s _) rfl (by norm_num)]
    norm_num
  · have hdt : (switchKFS 0).dt = 1 := rfl
    simp only [KFS.kalmanSmoother, List.reverse_cons, List.reverse_nil, List.nil_append, List.cons_append, sG_copyV, ok_bind,
      KFS.smoothLoop, hdt]
    rw [KFS.smooth_scalar (hon 0 _ _ _ (by norm_num)) (isVec_s _) rfl (by norm_num)]
    norm_num

end Verif

import Verif.Spec.Proper
import Verif.Props.Stationary
import Verif.Props.Shapes
import Verif.Lemmas.Build

/-!
# The covariances reported by the factor graph (C103)
-/

namespace Verif

open Matrix Gaussian Node Arr

variable {env : Env}

theorem solvePos_eye_shape {a x : Arr} {d : ℕ} (h : spSolvePos env a (Arr.eye d) = .ok x) :
    ∃ X : Matrix (Fin d) (Fin d) ℝ, x = .m X := by
  unfold spSolvePos at h
  cases ha : a.atleast2d with
  | s a => simp [ha, Arr.eye] at h
  | v f => simp [ha, Arr.eye] at h
  | @m r c A =>
    simp only [ha, Arr.eye] at h
    split_ifs at h with h1 h2
    subst h2
    exact ⟨_, (Except.ok.inj h).symm⟩

theorem solveGen_eye_shape {a x : Arr} {d : ℕ} (h : spSolveGen env a (Arr.eye d) = .ok x) :
    ∃ X : Matrix (Fin d) (Fin d) ℝ, x = .m X := by
  unfold spSolveGen at h
  cases ha : a.atleast2d with
  | s a => simp [ha, Arr.eye] at h
  | v f => simp [ha, Arr.eye] at h
  | @m r c A =>
    simp only [ha, Arr.eye] at h
    split_ifs at h with h1 h2
    subst h2
    exact ⟨_, (Except.ok.inj h).symm⟩

theorem tryBare_either {α : Type} {x y : Py α} {a : α} (h : tryBare x y = .ok a) : x = .ok a ∨ y = .ok a := by
  cases x with
  | ok b => exact .inl h
  | error e => exact .inr h

theorem solve_eye {a x : Arr} {d : ℕ} (h : tryBare (spSolvePos env a (Arr.eye d)) (jitteredSolve env a (Arr.eye d)) = .ok x) :
    ∃ X : Matrix (Fin d) (Fin d) ℝ, x = .m X := by
  rcases tryBare_either h with h | h
  · exact solvePos_eye_shape h
  · unfold jitteredSolve at h
    obtain ⟨j, -, h⟩ := py_bind_ok h
    rcases tryBare_either h with h | h
    · exact solvePos_eye_shape h
    · exact solveGen_eye_shape h

/-- Whatever precision array is converted, the covariance is a symmetric matrix with one row per row of the precision. -/
theorem naturalToMoment_cov {P : Arr} {k : Option Arr} {mc : Arr × Arr} (h : naturalToMoment env (some P) k = .ok mc) :
    ∃ (d : ℕ) (C : Matrix (Fin d) (Fin d) ℝ), P.shape0 = .ok d ∧ mc.2 = .m C ∧ Cᵀ = C := by
  unfold naturalToMoment at h
  obtain ⟨P', h1, h⟩ := py_bind_ok h
  simp only [need, Except.ok.injEq] at h1
  subst h1
  obtain ⟨d, h2, h⟩ := py_bind_ok h
  obtain ⟨tr, h3, h⟩ := py_bind_ok h
  split_ifs at h with ht
  · obtain ⟨c, h4, h⟩ := py_bind_ok h
    simp only [py_pure, Except.ok.injEq] at h
    subst h
    simp only [Arr.eye, Arr.smul_m, symmetrize_m, Except.ok.injEq] at h4
    exact ⟨d, _, h2, h4.symm, half_add_transpose_symm _⟩
  · obtain ⟨c, h4, h⟩ := py_bind_ok h
    obtain ⟨c', h5, h⟩ := py_bind_ok h
    obtain ⟨s, h6, h⟩ := py_bind_ok h
    obtain ⟨mn, h7, h⟩ := py_bind_ok h
    simp only [py_pure, Except.ok.injEq] at h
    subst h
    obtain ⟨X, rfl⟩ := solve_eye h4
    simp only [symmetrize_m, Except.ok.injEq] at h5
    exact ⟨d, _, h2, h5.symm, half_add_transpose_symm _⟩

/-- A state in natural parameters that passes the check has a positive definite covariance. -/
theorem proper_of_valid {P k : Arr} (h : validateCovariance env (ofNatural P k) = .ok ()) :
    ∃ d, P.shape0 = .ok d ∧ Reportable env d (ofNatural P k) := by
  unfold validateCovariance at h
  obtain ⟨c, h1, h⟩ := py_bind_ok h
  have h1' := h1
  rw [cov_ofNatural] at h1
  cases hm : naturalToMoment env (some P) (some k.atleast1d) with
  | error e => rw [hm] at h1; cases h1
  | ok mc =>
    rw [hm] at h1
    simp only [Except.map, Except.ok.injEq] at h1
    subst h1
    obtain ⟨d, C, hd, hC, hs⟩ := naturalToMoment_cov hm
    refine ⟨d, hd, ⟨mc.1, ?_⟩, C, ?_, ?_⟩
    · simp only [meanA, mean, getMean, ofNatural, Gaussian.init]
      rw [if_pos (by simp)]
      simp only [hm]
      rfl
    · rw [hC] at h
      simp only [npCholesky_m, lowerSym_of_symm hs] at h
      exact h
    · simp only [covA, h1', hC]; rfl

/-- One call: the marginal of a node stays, or becomes its product with something, which passed the check. -/
theorem call_marginal (c : Upd × Ref) (h : Heap) (q : Ref) :
    (((Upd.call env c h).2).get q).marginal = (h.get q).marginal ∨
    ∃ k, (h.get q).marginal.mul env k = .ok (((Upd.call env c h).2).get q).marginal ∧
      validateCovariance env (((Upd.call env c h).2).get q).marginal = .ok () := by
  obtain ⟨-, hloc, -⟩ := call_local (env := env) c h
  by_cases ht : Upd.target h c = some q
  · obtain ⟨k, r⟩ := c
    cases k with
    | fwd =>
      simp only [Upd.target, Option.map_eq_some_iff, Prod.exists, exists_and_right, exists_eq_right] at ht
      obtain ⟨p, hp'⟩ := ht
      simp only [Upd.call, fwdCall, PyM.get_bind, hp', fwdUpdateBody_eq]
      cases fwdCavity env h (h.get q) with
      | error e => exact .inl rfl
      | ok c =>
        simp only
        cases hg : fwdGuarded env (h.get q) p c with
        | error e => cases e <;> exact .inl rfl
        | ok FM =>
          simp only [Heap.update_get_same]
          obtain ⟨_, _, _, _, k, _, _, -, -, -, -, -, -, -, -, -, -, h6, h7⟩ := fwdGuarded_ok (F := FM.1) (M := FM.2) hg
          exact .inr ⟨k, h6, h7⟩
    | meas =>
      simp only [Upd.target, Option.map_eq_some_iff, Prod.exists, exists_and_right, exists_eq_right] at ht
      obtain ⟨p, hp'⟩ := ht
      simp only [Upd.call, measCall, PyM.get_bind, hp', measUpdateBody_eq]
      cases (h.get q).marginal.truediv env (h.get q).measFactor with
      | error e => exact .inl rfl
      | ok c =>
        simp only
        cases hg : measValue env (h.get q) p c with
        | error e => cases e <;> exact .inl rfl
        | ok FM =>
          simp only [Heap.update_get_same]
          obtain ⟨_, _, _, _, _, hu⟩ := measValue_ok hg
          obtain ⟨_, _, k, _, _, -, -, -, -, -, -, -, h6, h7⟩ := powerUpdate_ok (F := FM.1) (M := FM.2) hu
          exact .inr ⟨k, h6, h7⟩
    | back =>
      simp only [Upd.target, Option.map_eq_some_iff, Prod.exists, exists_and_right, exists_eq_right] at ht
      obtain ⟨p, hp'⟩ := ht
      simp only [Upd.call, backCall, PyM.get_bind, hp', backUpdateBody_eq]
      cases (h.get q).marginal.truediv env (h.get q).backFactor with
      | error e => exact .inl rfl
      | ok c =>
        simp only
        cases nextFwdCavity env h (h.get q) with
        | error e => cases e <;> exact .inl rfl
        | ok x =>
          obtain ⟨next, nc⟩ := x
          simp only
          cases hg : backValue env (h.get q) next p c nc with
          | error e => cases e <;> exact .inl rfl
          | ok FM =>
            simp only [Heap.update_get_same]
            obtain ⟨_, _, _, hu⟩ := backValue_ok hg
            obtain ⟨_, _, k, _, _, -, -, -, -, -, -, -, h6, h7⟩ := powerUpdate_ok (F := FM.1) (M := FM.2) hu
            exact .inr ⟨k, h6, h7⟩
  · rw [hloc q ht]; exact .inl rfl

theorem shape0_rows {P : Arr} {d : ℕ} (h : P.shape0 = .ok d) (h2 : P.ndim = 2) : P.rows = d := by
  cases P with
  | s a => simp [Arr.ndim] at h2
  | v f => simp [Arr.ndim] at h2
  | m M => simpa [Arr.shape0, Arr.rows] using h

/-- The precision of `g`, if it can be read at all, is a matrix of `n` rows. -/
def RowsAre (env : Env) (n : ℕ) (g : Gaussian) : Prop := ∀ P, g.precisionA env = .ok P → P.ndim = 2 ∧ P.rows = n

theorem proper_mul {n : ℕ} (hn : n ≠ 1) {a b c : Gaussian} (ha : RowsAre env n a) (h : a.mul env b = .ok c)
    (hv : validateCovariance env c = .ok ()) : Reportable env n c ∧ RowsAre env n c := by
  obtain ⟨Pa, xa, Pb, xb, S, P, k, na, nb, -⟩ := mul_nats h
  obtain ⟨d2, hr⟩ := ha Pa na.1
  obtain ⟨P1, k1, e, i, f1, -⟩ := mul_entries h na nb d2
  have d1 : P1.ndim = 2 := le_antisymm (ndim_le _) (d2 ▸ f1.1)
  have hr1 : P1.rows = n := by
    rcases f1.2.1 with h | h
    · rw [← h, hr]
    · exact absurd (hr ▸ h) hn
  subst e
  obtain ⟨d, hd, hp⟩ := proper_of_valid hv
  obtain rfl : n = d := by rw [← hr1]; exact shape0_rows hd d1
  refine ⟨hp, fun Q hQ => ?_⟩
  rw [precisionA_ofNatural] at hQ
  obtain rfl := Except.ok.inj hQ
  exact ⟨d1, hr1⟩

theorem asMarginal_rows (n : ℕ) : RowsAre env n (asMarginal n) := by
  intro P hP
  unfold precisionA at hP
  obtain ⟨p, h1, h2⟩ := py_bind_ok hP
  rw [asMarginal, precision_ofMoment] at h1
  cases hm : momentToNatural env (some (Arr.zeros n).atleast1d) (some ((Arr.eye n).smul LARGE_NUM)) with
  | error e => rw [hm] at h1; cases h1
  | ok ph =>
    rw [hm] at h1
    simp only [Except.map, Except.ok.injEq] at h1
    subst h1
    simp only [need, Except.ok.injEq] at h2
    subst h2
    unfold momentToNatural at hm
    obtain ⟨c, h3, hm⟩ := py_bind_ok hm
    simp only [need, Except.ok.injEq] at h3
    subst h3
    obtain ⟨d, h4, hm⟩ := py_bind_ok hm
    obtain ⟨x, h5, hm⟩ := py_bind_ok hm
    obtain ⟨y, h6, hm⟩ := py_bind_ok hm
    obtain ⟨z, h7, hm⟩ := py_bind_ok hm
    obtain ⟨w, h8, hm⟩ := py_bind_ok hm
    simp only [py_pure, Except.ok.injEq] at hm
    subst hm
    obtain ⟨X, rfl⟩ := solve_eye h5
    simp only [symmetrize_m, Except.ok.injEq] at h6
    subst h6
    simp only [Arr.eye, Arr.smul_m, Arr.shape0, Except.ok.injEq] at h4
    exact ⟨rfl, h4.symm⟩

theorem asMarginal_proper (n : ℕ) : Reportable env n (asMarginal n) := by
  refine ⟨⟨Arr.zeros n, ?_⟩, LARGE_NUM • 1, Matrix.PosDef.one.smul LARGE_NUM_pos, ?_⟩
  · rfl
  · rfl

/-- **C103.** After any schedule of updates, accepted, rejected or raising, with any projections, powers and dampings, a node whose
covariance was positive definite reports a mean and a positive definite covariance. -/
theorem C103_any_schedule (calls : List (Upd × Ref)) (h : Heap) (q : Ref) {n : ℕ} (hp : Reportable env n (h.get q).marginal) :
    ∃ d, Reportable env d ((afterCalls env calls h).get q).marginal := by
  induction calls generalizing h n with
  | nil => exact ⟨n, hp⟩
  | cons c cs ih =>
    rcases call_marginal (env := env) c h q with e | ⟨k, e, hv⟩
    · exact ih _ (e ▸ hp)
    · obtain ⟨Pa, xa, Pb, xb, S, P, k', -, -, -, -, -, -⟩ := mul_nats e
      have hM : ∃ P x, (((Upd.call env c h).2).get q).marginal = ofNatural P x := by
        unfold mul at e
        obtain ⟨_, -, e⟩ := py_bind_ok e
        obtain ⟨_, -, e⟩ := py_bind_ok e
        obtain ⟨_, -, e⟩ := py_bind_ok e
        obtain ⟨p, -, e⟩ := py_bind_ok e
        obtain ⟨_, -, e⟩ := py_bind_ok e
        obtain ⟨_, -, e⟩ := py_bind_ok e
        obtain ⟨x, -, e⟩ := py_bind_ok e
        exact ⟨p, x, (Except.ok.inj e).symm⟩
      obtain ⟨P, x, hM⟩ := hM
      rw [hM] at hv
      obtain ⟨d, -, hd⟩ := proper_of_valid hv
      exact ih _ (hM ▸ hd)

/-- **C103.** In a graph made by `build_nodes` for states of dimension `n` other than one, every node reports at every moment a mean and a
positive definite `n × n` covariance, whatever the projections return. -/
theorem C103_dimension {n : ℕ} (hn : n ≠ 1) (calls : List (Upd × Ref)) (h : Heap) (q : Ref) (hq : (h.get q).marginal = asMarginal n) :
    Reportable env n ((afterCalls env calls h).get q).marginal := by
  have key : ∀ (calls : List (Upd × Ref)) (h : Heap), Reportable env n (h.get q).marginal → RowsAre env n (h.get q).marginal →
      Reportable env n ((afterCalls env calls h).get q).marginal := by
    intro calls
    induction calls with
    | nil => exact fun h hp _ => hp
    | cons c cs ih =>
      intro h hp hr
      rcases call_marginal (env := env) c h q with e | ⟨k, e, hv⟩
      · exact ih _ (e ▸ hp) (e ▸ hr)
      · obtain ⟨h1, h2⟩ := proper_mul hn hr e hv
        exact ih _ h1 h2
  exact key calls h (hq ▸ asMarginal_proper n) (hq ▸ asMarginal_rows n)

theorem executes_prefix {l : List (Upd × Ref)} {h h' : Heap} {x : Py Unit} (e : Executes env l h x h') :
    ∃ l', l' <+: l ∧ afterCalls env l' h = h' := by
  induction e with
  | done h => exact ⟨[], List.prefix_refl _, rfl⟩
  | @step c cs h h1 r h2 hc _ ih =>
    obtain ⟨l', hl, e⟩ := ih
    refine ⟨c :: l', List.cons_prefix_cons.2 ⟨rfl, hl⟩, ?_⟩
    simp only [afterCalls, List.foldl_cons, hc] at e ⊢
    exact e
  | @stop c cs h e h1 hc =>
    exact ⟨[c], by simp, by simp [afterCalls, hc]⟩

/-- **C103.** The same for the iterations a user calls, whether they return or raise: `ep_fwd_back_updates`, `kalman_filter`,
`kalman_smoother` and `ep_update`. -/
theorem C103_iterations (nodes : List Ref) (h : Heap) (q : Ref) {n : ℕ} (hp : Reportable env n (h.get q).marginal) :
    (∃ d, Reportable env d ((epFwdBack env nodes h).2.get q).marginal) ∧ (∃ d, Reportable env d ((epFilter env nodes h).2.get q).marginal) ∧
    (∃ d, Reportable env d ((epSmoother env nodes h).2.get q).marginal) ∧ ∃ d, Reportable env d ((epUpdate env nodes h).2.get q).marginal := by
  have key : ∀ {l : List (Upd × Ref)} {x : Py Unit} {h' : Heap}, Executes env l h x h' → ∃ d, Reportable env d (h'.get q).marginal := by
    intro l x h' e
    obtain ⟨l', -, e⟩ := executes_prefix e
    exact e ▸ C103_any_schedule l' h q hp
  obtain ⟨o1, o2, o3⟩ := C39_other_orders (env := env) nodes h
  exact ⟨key (C39_pass_order nodes h), key o1, key o2, key o3⟩

/-- The check can not be dropped: a projection that divides too much would leave a marginal without a proper covariance. -/
example : ¬ ∃ d, Reportable calmEnv d (sG 0 (-1)) := by
  rintro ⟨d, -, C, hC, h⟩
  have := (sG_moments calmEnv 0 (-1)).2
  simp only [covA, this, ok_bind, need, Except.ok.injEq] at h
  cases h
  exact absurd (m1_posDef.1 hC) (by norm_num)

/-- **C103.** A whole run: build the graph for any system, estimator and measurements, then call any updates in any order; every node
reports a mean and a positive definite covariance, of the dimension asked for if that is not one. -/
theorem C103_run (N dim : ℕ) (hN : 2 ≤ N) (e : Estimator) (sys : Sys) (ys : List Arr) (hlen : ys.length = N) (h : Heap)
    (calls : List (Upd × Ref)) :
    ∃ h', graph env N dim e sys ys h = (.ok (List.range' h.size N), h') ∧
      ∀ i, i < N → ∃ d, (dim ≠ 1 → d = dim) ∧ Reportable env d ((afterCalls env calls h').get (h.size + i)).marginal := by
  have hys : ys ≠ [] := by rintro rfl; simp at hlen; omega
  obtain ⟨h', a1, -, -, a4⟩ := graph_run (env := env) N dim hN e sys ys hys h
  refine ⟨h', by rw [a1, hlen, List.take_of_length_le (by simp)], fun i hi => ?_⟩
  have hm : (h'.get (h.size + i)).marginal = asMarginal dim := by
    rw [a4 i (ys[i]'(by omega)) hi (by simp [hlen, hi])]; rfl
  by_cases hd : dim = 1
  · obtain ⟨d, hp⟩ := C103_any_schedule (env := env) calls h' (h.size + i) (hm ▸ asMarginal_proper dim)
    exact ⟨d, fun h => absurd hd h, hp⟩
  · exact ⟨dim, fun _ => rfl, C103_dimension hd calls h' _ hm⟩

/-- Such a graph. -/
example : ∃ h', graph calmEnv 2 3 ⟨fun _ _ => .error .linAlg, fun _ _ => .error .linAlg, none, none, 1, 1⟩ demoSys [.s 0, .s 1]
    ⟨fun _ => Node.init 1 0, 0⟩ = (.ok [0, 1], h') ∧ ∃ C : Matrix (Fin 3) (Fin 3) ℝ, C.PosDef ∧
      ((afterCalls calmEnv [(.fwd, 0), (.meas, 1), (.back, 0)] h').get 1).marginal.covA calmEnv = .ok (.m C) := by
  obtain ⟨h', e, k⟩ := C103_run (env := calmEnv) 2 3 le_rfl ⟨fun _ _ => .error .linAlg, fun _ _ => .error .linAlg, none, none, 1, 1⟩
    demoSys [.s 0, .s 1] rfl ⟨fun _ => Node.init 1 0, 0⟩ [(.fwd, 0), (.meas, 1), (.back, 0)]
  obtain ⟨d, hd, -, hC⟩ := k 1 (by norm_num)
  obtain rfl := hd (by norm_num)
  exact ⟨h', e, hC⟩

end Verif

import Verif.Props.Multi
import Verif.Props.Sampling

/-!
# Expectation propagation with Monte Carlo transforms (C77)
-/

namespace Verif

open Matrix Gaussian Node

variable {env : Env} {n k : ℕ}

/-- The inverse reverses the order of positive definite matrices. -/
theorem inv_antitone {A X : Matrix (Fin n) (Fin n) ℝ} (hA : A.PosDef) (hX : X.PosDef) (h : (A - X).PosSemidef) :
    (X⁻¹ - A⁻¹).PosSemidef := by
  have := hA.isUnit.invertible
  have := hX.inv.isUnit.invertible
  have h1 := PosDef.fromBlocks₁₁ (1 : Matrix (Fin n) (Fin n) ℝ) X⁻¹ hA
  have h2 := PosDef.fromBlocks₂₂ A (1 : Matrix (Fin n) (Fin n) ℝ) hX.inv
  simp only [conjTranspose_one, Matrix.one_mul, Matrix.mul_one] at h1 h2
  rw [nonsing_inv_nonsing_inv _ (posDef_isUnit hX)] at h2
  exact h1.1 (h2.2 h)

/-- The transform returns a vector, a positive semidefinite matrix and a matrix of cross covariances. -/
def SamplesOn (env : Env) (T : Transform) (f : Func) (n k : ℕ) : Prop :=
  ∀ (g : Gaussian) (μ : Fin n → ℝ) (P : Matrix (Fin n) (Fin n) ℝ), HasMoments env g μ P → P.PosDef →
    ∃ (z : Arr) (zv : Fin k → ℝ) (S : Matrix (Fin k) (Fin k) ℝ) (C : Matrix (Fin n) (Fin k) ℝ), IsVec z zv ∧ S.PosSemidef ∧
      T f g = .ok (z, .m S, .m C)

theorem covEntry_posSemidef {N : ℕ} (hN : 1 ≤ N) (Y : Fin k → Fin N → ℝ) :
    (of fun i j => covEntry (Y i) (Y j) : Matrix (Fin k) (Fin k) ℝ).PosSemidef := by
  have e : (of fun i j => covEntry (Y i) (Y j) : Matrix (Fin k) (Fin k) ℝ) =
      (1 / ((N : ℝ) - 1)) • ((of fun i l => Y i l - (∑ m, Y i m) / N) * (of fun i l => Y i l - (∑ m, Y i m) / N)ᴴ) := by
    ext i j
    simp [covEntry, Matrix.mul_apply, mul_comm]
  rw [e]
  refine (posSemidef_self_mul_conjTranspose _).smul (one_div_nonneg.2 ?_)
  have : (1 : ℝ) ≤ N := by exact_mod_cast hN
  linarith

theorem mc_samples (draw : Draw) {N : ℕ} (hN : 2 ≤ N) (hnk : n + k ≠ 1) {func : Func} {F : (Fin n → ℝ) → Fin k → ℝ}
    (hf : OnRows func F) : SamplesOn env (mcTransform env draw N) func n k := fun g μ P hg _ =>
  ⟨_, _, _, _, .inl rfl, covEntry_posSemidef (by omega) fun i l => F (draw N μ P l) i, mc_rows draw hN hnk hg hf⟩

/-- **C77.** The first measurement update of a node: it is accepted iff the corrected covariance `P⁻¹ - C (S + R / power)⁻¹ Cᵀ` made of
the sample covariances is positive definite; then the shift of the new marginal is an `n × n` array. -/
theorem C77_measurement {e : Estimator} {r : Ref} {h : Heap} {γ : ℝ} (hcalm : ∀ A : Matrix (Fin n) (Fin n) ℝ, env.illPos A = false)
    (hp : 0 < e.power) (hγ : 0 ≤ γ) (hpow : (h.get r).power = some e.power) (hdamp : (h.get r).damping = some γ)
    {P : Matrix (Fin n) (Fin n) ℝ} {s : Fin n → ℝ} (hM : (h.get r).marginal = ofNatural (.m P) (.v s)) (hP : P.PosDef)
    (ht : TRACE_EPS ≤ P.trace) (hF : (h.get r).measFactor = asFactor n) {z : Arr} {zv : Fin k → ℝ} (hz : IsVec z zv)
    {S : Matrix (Fin k) (Fin k) ℝ} {C : Matrix (Fin n) (Fin k) ℝ} (hS : S.PosSemidef)
    (hT : e.measMap (h.get r).measFunc (ofNatural (.m P) (.v s)) = .ok (z, .m S, .m C))
    {y : Arr} {yv : Fin k → ℝ} (hmeas : (h.get r).meas = some y) (hy : IsVec y yv) {R : Matrix (Fin k) (Fin k) ℝ}
    (hR : e.R = some (.m R)) (hR' : R.PosDef) :
    (¬ (P⁻¹ - C * (S + e.power⁻¹ • R)⁻¹ * Cᵀ).PosDef ∧ measUpdateBody env r (e.projMeas env) h = (.ok (), h)) ∨
    ((P⁻¹ - C * (S + e.power⁻¹ • R)⁻¹ * Cᵀ).PosDef ∧ ∃ (F : Gaussian) (P' W : Matrix (Fin n) (Fin n) ℝ), P'.PosDef ∧
      TRACE_EPS ≤ P'.trace ∧ measUpdateBody env r (e.projMeas env) h = (.ok (), h.update r (setMeas F (ofNatural (.m P') (.m W))))) := by
  have hcav : (h.get r).marginal.truediv env (h.get r).measFactor = .ok (ofNatural (.m P) (.v s)) := by
    rw [hM, hF, truediv_natural (hasNatural_ofNatural env _ _) (asFactor_natural env n), sub_zero, sub_zero]
  have hg : HasMoments env (ofNatural (.m P) (.v s)) (P⁻¹ *ᵥ s) P⁻¹ := moment_of_natural s hP ht (hcalm _)
  have hS' : (S + e.power⁻¹ • R).PosDef := (hR'.smul (inv_pos.2 hp)).posSemidef_add hS
  have hproj := projMeas_of (e := e) hg hP.inv hp.ne' hT hz hy hR hS'
  have hK : ((S + e.power⁻¹ • R)⁻¹ * Cᵀ)ᵀ * Cᵀ = C * (S + e.power⁻¹ • R)⁻¹ * Cᵀ := by
    rw [Matrix.transpose_mul, transpose_transpose, posDef_inv_symm hS']
  rw [hK] at hproj
  have hps := congr_posSemidef hS'.inv.posSemidef C
  have hsym : (P⁻¹ - C * (S + e.power⁻¹ • R)⁻¹ * Cᵀ)ᵀ = P⁻¹ - C * (S + e.power⁻¹ • R)⁻¹ * Cᵀ := by
    rw [transpose_sub, posDef_symm hP.inv, posSemidef_symm hps]
  generalize hX : P⁻¹ - C * (S + e.power⁻¹ • R)⁻¹ * Cᵀ = X at hproj hsym ⊢
  obtain ⟨Mn, hproj⟩ : ∃ Mn : Matrix (Fin n) (Fin n) ℝ, e.projMeas env (h.get r).measFunc (ofNatural (.m P) (.v s)) y =
    .ok (ofMoment (.m Mn) (.m X)) := ⟨_, hproj⟩
  by_cases hXp : X.PosDef
  swap
  · left
    refine ⟨hXp, ?_⟩
    have hv : validateCovariance env (ofMoment (.m Mn) (.m X)) = .error .linAlg := by
      simp only [validateCovariance, cov_ofMoment, ok_bind]
      rcases npCholesky_cases X with ⟨h1, -⟩ | ⟨-, h2⟩
      · rw [lowerSym_of_symm hsym] at h1; exact absurd h1 hXp
      · exact h2
    have hval : measValue env (h.get r) (e.projMeas env) (ofNatural (.m P) (.v s)) = .error .linAlg := by
      simp only [measValue, hmeas, attr, ok_bind, hproj, hv, error_bind]
    rw [measUpdateBody_eq, hcav]
    simp only [hval]
  right
  refine ⟨hXp, ?_⟩
  have hge : (X⁻¹ - P).PosSemidef := by
    have := inv_antitone hP.inv hXp (by rw [← hX, sub_sub_cancel]; exact hps)
    rwa [nonsing_inv_nonsing_inv _ (posDef_isUnit hP)] at this
  have hps2 : ((γ / e.power) • (X⁻¹ - P)).PosSemidef := hge.smul (div_nonneg hγ hp.le)
  have hP2 : (P + (γ / e.power) • (X⁻¹ - P)).PosDef := Matrix.PosDef.add_posSemidef hP hps2
  have ht2 : TRACE_EPS ≤ (P + (γ / e.power) • (X⁻¹ - P)).trace := by
    rw [trace_add]; have := hps2.trace_nonneg; linarith
  have hsp : (ofMoment (.m Mn) (.m X)).precisionA env = .ok (.m X⁻¹) ∧ (ofMoment (.m Mn) (.m X)).shiftA env = .ok (.m (X⁻¹ * Mn)) := by
    simp only [precisionA, shiftA, precision_ofMoment, shift_ofMoment, Arr.atleast1d_m, momentToNatural, need_some, ok_bind,
      Arr.shape0_m, spSolvePos_eye hXp (hcalm _), tryBare_ok, symmetrize_symm (posDef_symm hXp.inv), Arr.matmul_mm, py_pure]
    exact ⟨rfl, rfl⟩
  have hMn : HasNatural env (h.get r).marginal P s := by rw [hM]; exact hasNatural_ofNatural env _ _
  have hv : validateCovariance env (ofMoment (.m Mn) (.m X)) = .ok () := by
    simp only [validateCovariance, cov_ofMoment, ok_bind, npCholesky_posDef hXp]
  have hval : ∃ (F : Gaussian) (W : Matrix (Fin n) (Fin n) ℝ), measValue env (h.get r) (e.projMeas env) (ofNatural (.m P) (.v s)) = .ok
      (F, ofNatural (.m (P + (γ / e.power) • (X⁻¹ - P))) (.m W)) := by
    simp only [measValue, hmeas, attr, ok_bind, hproj, hv, powerUpdate, hpow, hdamp, truediv, hsp.1, hsp.2, hMn.precisionA, hMn.shiftA,
      Arr.sub_mm, Arr.sub_mv, py_pure, hF, Gaussian.pow, precisionA_ofNatural, shiftA_ofNatural, Arr.smul_m, Arr.atleast1d_m, pyDiv,
      if_neg hp.ne', Gaussian.mul, (asFactor_natural env n).precisionA,
      (asFactor_natural env n).shiftA, Arr.add_mm, Arr.add_vm, zero_add, Pi.zero_apply, symmetrize_m,
      symmetrize_symm (posDef_symm hP2)]
    rw [validate_natural hcalm _ (.inr ⟨_, rfl⟩) hP2 ht2, ok_bind]
    exact ⟨_, _, rfl⟩
  obtain ⟨F, W, hval⟩ := hval
  refine ⟨F, _, W, hP2, ht2, ?_⟩
  rw [measUpdateBody_eq, hcav]
  simp only [hval]

/-! ## A whole pass -/

theorem take_range' (s k m : ℕ) : (List.range' s m).take k = List.range' s (min k m) := by
  induction m generalizing s k with
  | zero => simp
  | succ m ih =>
    cases k with
    | zero => simp
    | succ k => rw [List.range'_succ, List.take_succ_cons, ih, Nat.succ_min_succ, List.range'_succ]

theorem backCall_measFactor (r : Ref) (h : Heap) (q : Ref) : ((backCall env r h).2.get q).measFactor = (h.get q).measFactor := by
  unfold backCall
  rw [PyM.get_bind]
  rcases (h.get r).backUpdate with _ | ⟨t, proj⟩
  · rfl
  · dsimp only
    rw [backUpdateBody_eq]
    split
    · rfl
    · split
      · rfl
      · rfl
      · split
        · by_cases hq : q = t
          · subst hq; rw [Heap.update_get_same]; rfl
          · rw [Heap.update_get_ne _ hq]
        · rfl
        · rfl

theorem backLoop_measFactor (l : List Ref) (h : Heap) (q : Ref) :
    ((PyM.forEach l (fun r => backCall env r) h).2.get q).measFactor = (h.get q).measFactor := by
  induction l generalizing h with
  | nil => rfl
  | cons r l ih =>
    have := backCall_measFactor (env := env) r h q
    unfold PyM.forEach
    rcases hb : backCall env r h with ⟨_ | u, h'⟩
    · rw [PyM.bind_error hb]; rw [hb] at this; exact this
    · rw [PyM.bind_ok hb, ih]; rw [hb] at this; exact this

/-- The forward half of the first pass, from node `i` on. -/
theorem filter_cases {e : Estimator} {sys : Sys} {s N : ℕ} (hcalm : ∀ A : Matrix (Fin n) (Fin n) ℝ, env.illPos A = false) (hn : n ≠ 0)
    (hp : 0 < e.power) (hγ : 0 ≤ e.damping) {μ0 : Fin n → ℝ} {P0 : Matrix (Fin n) (Fin n) ℝ} (hg : HasMoments env sys.initState μ0 P0)
    (hP0 : P0.PosDef) {Q : Matrix (Fin n) (Fin n) ℝ} (hQ : e.Q = some (.m Q)) (hQ' : Q.PosDef) {R : Matrix (Fin k) (Fin k) ℝ}
    (hR : e.R = some (.m R)) (hR' : R.PosDef)
    (hA : ∀ t, SamplesOn env e.transMap (fun x => sys.transition x (some t) (some 0)) n n)
    (hT : SamplesOn env e.measMap (fun x => sys.measurement x none none) n k)
    (hrej : ∀ t, RejectsMatrixMean env n e.transMap (fun x => sys.transition x (some t) (some 0))) :
    ∀ (m i : ℕ) (h : Heap),
      (∀ j, i ≤ j → j < i + m → ∃ (y : Arr) (yv : Fin k → ℝ), IsVec y.squeeze yv ∧ h.get (s + j) = builtNode env e sys s N n j y) →
      (i = 0 ∨ ∃ (P : Matrix (Fin n) (Fin n) ℝ) (v : Fin n → ℝ), (h.get (s + (i - 1))).marginal = ofNatural (.m P) (.v v) ∧ P.PosDef ∧
        TRACE_EPS ≤ P.trace ∧ (h.get (s + (i - 1))).backFactor = asFactor n) →
      ∃ (res : Py Unit) (h' : Heap),
        PyM.forEach (List.range' (s + i) m) (fun r => do fwdCall env r; measCall env r) h = (res, h') ∧
        (res = .error .value ∨ res = .ok () ∧ ∀ j, i ≤ j → j + 1 < i + m → (h'.get (s + j)).measFactor = asFactor n) ∧
        ∀ q, q < s + i → h'.get q = h.get q := by
  intro m
  induction m with
  | zero => intro i h _ _; exact ⟨.ok (), h, rfl, .inr ⟨rfl, fun j h1 h2 => by omega⟩, fun _ _ => rfl⟩
  | succ m ih =>
    intro i h hb hprev
    obtain ⟨y, yv, hyv, hnd⟩ := hb i le_rfl (by omega)
    -- the cavity
    obtain ⟨g, μ, Pc, hcav, hgm, hPc⟩ : ∃ (g : Gaussian) (μ : Fin n → ℝ) (Pc : Matrix (Fin n) (Fin n) ℝ),
        fwdCavity env h (h.get (s + i)) = .ok g ∧ HasMoments env g μ Pc ∧ Pc.PosDef := by
      by_cases hi : i = 0
      · subst hi
        refine ⟨sys.initState, μ0, P0, ?_, hg, hP0⟩
        rw [hnd]
        simp only [fwdCavity, backCavityFromPrev, builtNode, if_true, attr, error_bind]
      · obtain ⟨P, v, h1, h2, h3, h4⟩ := hprev.resolve_left hi
        refine ⟨ofNatural (.m P) (.v v), _, P⁻¹, ?_, moment_of_natural v h2 h3 (hcalm _), h2.inv⟩
        rw [hnd]
        simp only [fwdCavity, backCavityFromPrev, builtNode, if_neg hi, attr, ok_bind, pyDiv, if_neg hp.ne', h1, h4,
          pow_natural (asFactor_natural env n), truediv_natural (hasNatural_ofNatural env P v) (hasNatural_ofNatural env _ _), smul_zero,
          sub_zero]
    obtain ⟨x, xv, S0, Cx, hx, hS0, hTx⟩ := hA (i * sys.dt) g μ Pc hgm hPc
    have hS : (S0 + Q).PosDef := hQ'.posSemidef_add hS0
    have hfresh : FreshNode n e.power e.damping (h.get (s + i)) := by rw [hnd]; exact ⟨rfl, rfl, rfl, rfl, rfl, rfl⟩
    obtain ⟨F, hf⟩ := fwd_of_cavity (e := e) hcalm hn hp hγ hfresh hcav (by rw [hnd]; exact hTx) hx hQ hS
    have hps : (e.damping • (S0 + Q)⁻¹).PosSemidef := hS.inv.posSemidef.smul hγ
    have hP1 : (TRACE_EPS • (1 : Matrix (Fin n) (Fin n) ℝ) + e.damping • (S0 + Q)⁻¹).PosDef :=
      (Matrix.PosDef.one.smul TRACE_EPS_pos).add_posSemidef hps
    have htr : TRACE_EPS ≤ (TRACE_EPS • (1 : Matrix (Fin n) (Fin n) ℝ) + e.damping • (S0 + Q)⁻¹).trace := by
      rw [trace_add, trace_smul, trace_one, Fintype.card_fin]
      have h1 : (1 : ℝ) ≤ n := by exact_mod_cast Nat.one_le_iff_ne_zero.2 hn
      have h2 := hps.trace_nonneg
      have := TRACE_EPS_pos
      simp only [smul_eq_mul]
      nlinarith
    generalize TRACE_EPS • (1 : Matrix (Fin n) (Fin n) ℝ) + e.damping • (S0 + Q)⁻¹ = P1 at hf hP1 htr
    generalize e.damping • ((S0 + Q)⁻¹ *ᵥ xv) = v1 at hf
    set h1 := h.update (s + i) (setFwd F (ofNatural (.m P1) (.v v1))) with hh1
    have hget : h1.get (s + i) = setFwd F (ofNatural (.m P1) (.v v1)) (builtNode env e sys s N n i y) := by
      rw [hh1, Heap.update_get_same, hnd]
    have hget' : ∀ q, q ≠ s + i → h1.get q = h.get q := fun q hq => Heap.update_get_ne _ hq _
    obtain ⟨z, zv, S, C, hz, hSS, hTz⟩ := hT _ _ _ (moment_of_natural v1 hP1 htr (hcalm _)) hP1.inv
    have c1 : fwdCall env (s + i) h = (.ok (), h1) := by
      unfold fwdCall; rw [PyM.get_bind, hnd]; exact hf
    have c2 : measCall env (s + i) h1 = measUpdateBody env (s + i) (e.projMeas env) h1 := by
      unfold measCall; rw [PyM.get_bind, hget]; rfl
    rw [List.range'_succ]
    unfold PyM.forEach
    rcases C77_measurement (e := e) (r := s + i) (h := h1) (γ := e.damping) hcalm hp hγ (by rw [hget]; rfl) (by rw [hget]; rfl)
      (by rw [hget]; rfl) hP1 htr (by rw [hget]; rfl) hz hSS (by rw [hget]; exact hTz) (by rw [hget]; rfl) hyv hR hR' with
      ⟨-, hm⟩ | ⟨-, F', P', W, hP', ht', hm⟩
    · rw [hm] at c2
      obtain ⟨res, h', hl, hres, hfr⟩ := ih (i + 1) h1 (fun j h2 h3 => by
          obtain ⟨y', yv', a, b⟩ := hb j (by omega) (by omega)
          exact ⟨y', yv', a, (hget' _ (by omega)).trans b⟩)
        (.inr ⟨P1, v1, by rw [Nat.add_sub_cancel, hget]; rfl, hP1, htr, by rw [Nat.add_sub_cancel, hget]; rfl⟩)
      refine ⟨res, h', (PyM.bind_ok (a := ()) ((PyM.bind_ok c1 _).trans c2) _).trans hl, ?_, fun q hq => ?_⟩
      · refine hres.imp id fun ⟨a, b⟩ => ⟨a, fun j hj hj' => ?_⟩
        rcases hj.eq_or_lt with rfl | hj
        · rw [hfr _ (by omega), hget]; rfl
        · exact b j hj (by omega)
      · rw [hfr q (by omega), hget' q (by omega)]
    · rw [hm] at c2
      set h2 := h1.update (s + i) (setMeas F' (ofNatural (.m P') (.m W))) with hh2
      have hget2 : ∀ q, q ≠ s + i → h2.get q = h.get q := fun q hq => (Heap.update_get_ne _ hq _).trans (hget' q hq)
      have hrun := PyM.bind_ok (a := ()) ((PyM.bind_ok c1 fun _ => measCall env (s + i)).trans c2) fun _ =>
        PyM.forEach (List.range' (s + i + 1) m) fun r => do fwdCall env r; measCall env r
      cases m with
      | zero => exact ⟨.ok (), h2, hrun, .inr ⟨rfl, fun j a b => by omega⟩, fun q hq => hget2 q (by omega)⟩
      | succ m =>
        obtain ⟨y', yv', -, hnd'⟩ := hb (i + 1) (by omega) (by omega)
        have hnd2 : h2.get (s + i + 1) = builtNode env e sys s N n (i + 1) y' := (hget2 _ (by omega)).trans hnd'
        have ha := fwdUpdate_aborts (e := e) (r := s + i + 1) (p := s + i) (h := h2) (α := e.power) (by rw [hnd2]; rfl) (by rw [hnd2]; rfl)
          hp.ne' (by rw [hh2, Heap.update_get_same]; rfl) (by rw [hh2, Heap.update_get_same, hget]; rfl) hP' ht' (hcalm _)
          (by rw [hnd2]; exact hrej _)
        have c3 : fwdCall env (s + i + 1) h2 = (.error .value, h2) := by
          unfold fwdCall; rw [PyM.get_bind, hnd2]; exact ha
        refine ⟨.error .value, h2, hrun.trans ?_, .inl rfl, fun q hq => hget2 q (by omega)⟩
        rw [List.range'_succ]
        unfold PyM.forEach
        exact PyM.bind_error (PyM.bind_error c3 _) _

/-- **C77.** The first pass of expectation propagation with Monte Carlo transforms, whatever numbers are drawn: it raises `ValueError`,
or it has ignored every measurement but the last (their factors are still uniform). -/
theorem C77_first_pass {N : ℕ} {draw : Draw} {samples : ℕ} (hsamples : 2 ≤ samples) {e : Estimator} {sys : Sys} {ys : List Arr}
    (hsys : Proper env n k sys ys) (hN : 2 ≤ N) (hn : n ≠ 0) (hnk : n + k ≠ 1)
    (hcalm : ∀ A : Matrix (Fin n) (Fin n) ℝ, env.illPos A = false) (hp : 0 < e.power) (hγ : 0 ≤ e.damping)
    (hQ : e.Q = some sys.Q) (hR : e.R = some sys.R) (he : e.transMap = mcTransform env draw samples)
    (he' : e.measMap = mcTransform env draw samples)
    {F : ℝ → (Fin n → ℝ) → Fin n → ℝ} (hF : ∀ t, OnRows (fun x => sys.transition x (some t) (some 0)) (F t))
    {G : (Fin n → ℝ) → Fin k → ℝ} (hG : OnRows (fun x => sys.measurement x none none) G) (h : Heap) :
    (firstPass env N n e sys ys h).1 = .error .value ∨
      ∀ i, i + 1 < min N ys.length → ((firstPass env N n e sys ys h).2.get (h.size + i)).measFactor = asFactor n := by
  obtain ⟨h2, hmeas, ⟨μ, P, hg, hP⟩, ⟨Q, hQ1, hQ2⟩, ⟨R, hR1, hR2⟩⟩ := hsys
  obtain ⟨h1, hrun, -, -, hget⟩ := graph_run (env := env) N n hN e sys ys (by rintro rfl; simp at h2) h
  rw [take_range'] at hrun
  obtain ⟨res, h', hl, hres, -⟩ := filter_cases (env := env) (e := e) (sys := sys) (s := h.size) (N := N) hcalm hn hp hγ hg hP
    (hQ.trans (by rw [hQ1])) hQ2 (hR.trans (by rw [hR1])) hR2 (fun t => by rw [he]; exact mc_samples draw hsamples (by omega) (hF t))
    (by rw [he']; exact mc_samples draw hsamples hnk hG) (fun t => by rw [he]; exact C41_monte_carlo draw samples _)
    (min ys.length N) 0 h1 (fun j _ hj => by
      rw [Nat.zero_add] at hj
      obtain ⟨yv, hy⟩ := hmeas ys[j] (List.getElem_mem _)
      exact ⟨ys[j], yv, hy, hget j _ (by omega) (List.getElem?_eq_getElem (by omega))⟩) (.inl rfl)
  unfold firstPass
  rw [PyM.bind_ok hrun]
  unfold epFwdBack
  rw [Nat.add_zero] at hl
  rcases hres with rfl | ⟨rfl, hfac⟩
  · left; rw [PyM.bind_error hl]
  · right
    intro i hi
    rw [PyM.bind_ok hl, backLoop_measFactor]
    exact hfac i (Nat.zero_le i) (by omega)

/-- **C77.** `power_sweep` with the Monte Carlo identifier: it raises and stores nothing, or its first pass has ignored every measurement
but the last. -/
theorem C77_power_sweep {jac : Jac} (draw : Draw) {cfg : Config} (hdim : cfg.sysDim = n) (hn : n ≠ 0) (hnk : n + k ≠ 1)
    (hcalm : ∀ A : Matrix (Fin n) (Fin n) ℝ, env.illPos A = false) (hN : 2 ≤ cfg.timesteps) (hiter : 1 ≤ cfg.numIter)
    (x : List Arr) {ys : List Arr} (hsys : Proper env n k cfg.system ys)
    {F : ℝ → (Fin n → ℝ) → Fin n → ℝ} (hF : ∀ t, OnRows (fun x => cfg.system.transition x (some t) (some 0)) (F t))
    {G : (Fin n → ℝ) → Fin k → ℝ} (hG : OnRows (fun x => cfg.system.measurement x none none) G)
    (seed : ℤ) {type : String} (ht : SameLetters type "MCT") {power damping : ℝ} (hp : 0 < power) (hγ : 0 ≤ damping) (conn : Conn) :
    powerSweep env jac draw cfg x ys seed ⟨type, power, damping⟩ conn = (.error .value, conn) ∨
      ∀ i, i + 1 < min cfg.timesteps ys.length → ((firstPass env cfg.timesteps n
        ⟨mcTransform env draw 10000, mcTransform env draw 10000, some cfg.system.Q, some cfg.system.R, power, damping⟩ cfg.system ys
        ⟨fun _ => Node.init 0 0, 0⟩).2.get i).measFactor = asFactor n := by
  have hsel := (C59_total type cfg.sysDim 10000).2.1 ht
  refine (C77_first_pass (env := env) (draw := draw) (samples := 10000) (by norm_num)
    (e := ⟨mcTransform env draw 10000, mcTransform env draw 10000, some cfg.system.Q, some cfg.system.R, power, damping⟩)
    hsys hN hn hnk hcalm hp hγ rfl rfl rfl rfl hF hG ⟨fun _ => Node.init 0 0, 0⟩).imp (fun h => ?_) fun h i hi => ?_
  · refine powerSweep_aborts (s := ⟨type, power, damping⟩) hsel hN hiter x ys
      (fun h => by have := hsys.two; rw [h] at this; simp at this) ?_ seed conn
    rw [hdim]
    exact h
  · have := h i hi
    rwa [Nat.zero_add] at this

/-- **C77.** The growth model of the experiments. -/
theorem C77_growth {jac : Jac} (draw : Draw) {cfg : Config} (hsys : UNGM.init = .ok cfg.system) (hdim : cfg.sysDim = 1)
    (hcalm : ∀ A : Matrix (Fin 1) (Fin 1) ℝ, env.illPos A = false) (hN : 2 ≤ cfg.timesteps) (hiter : 1 ≤ cfg.numIter)
    (xs : List Arr) {ys : List Arr} (h2 : 2 ≤ ys.length) (hys : ∀ y ∈ ys, ∃ a : ℝ, y = .v (v1 a)) (seed : ℤ) {power damping : ℝ}
    (hp : 0 < power) (hγ : 0 ≤ damping) (conn : Conn) :
    powerSweep env jac draw cfg xs ys seed ⟨"MCT", power, damping⟩ conn = (.error .value, conn) ∨
      ∀ i, i + 1 < min cfg.timesteps ys.length → ((firstPass env cfg.timesteps 1
        ⟨mcTransform env draw 10000, mcTransform env draw 10000, some cfg.system.Q, some cfg.system.R, power, damping⟩ cfg.system ys
        ⟨fun _ => Node.init 0 0, 0⟩).2.get i).measFactor = asFactor 1 := by
  rw [ungm_init, Except.ok.injEq] at hsys
  exact C77_power_sweep (F := fun t x i => 0.5 * x i + 25 * x i / (1 + x i ^ 2) + 8 * Real.cos (1.2 * t)) (G := fun x i => x i ^ 2 / 20)
    draw hdim one_ne_zero (by norm_num) hcalm hN hiter xs (by rw [← hsys]; exact ungm_proper h2 hys)
    (fun t => by rw [← hsys]; exact fun N X => (ungm_transition t (some 0)).1 (.m X)) (by rw [← hsys]; exact fun N X => (ungm_measurement none none).1 (.m X))
    seed (by unfold SameLetters; decide) hp hγ conn

/-- **C77.** The Lorenz 96 system. -/
theorem C77_lorenz {q r dt F : ℝ} (hq : 0 < q) (hr : 0 < r) {dim : ℕ} (hn : dim ≠ 0) (x : Fin dim → ℝ) {jac : Jac} (draw : Draw)
    {cfg : Config} (hsys : L96.init q r dt dim F (some (.v x)) = .ok cfg.system) (hdim : cfg.sysDim = dim)
    (hcalm : ∀ A : Matrix (Fin dim) (Fin dim) ℝ, env.illPos A = false) (hN : 2 ≤ cfg.timesteps) (hiter : 1 ≤ cfg.numIter)
    (xs : List Arr) {ys : List Arr} (h2 : 2 ≤ ys.length) (hys : ∀ y ∈ ys, ∃ v : Fin dim → ℝ, IsPoint y v) (seed : ℤ) {power damping : ℝ}
    (hp : 0 < power) (hγ : 0 ≤ damping) (conn : Conn) :
    powerSweep env jac draw cfg xs ys seed ⟨"MCT", power, damping⟩ conn = (.error .value, conn) ∨
      ∀ i, i + 1 < min cfg.timesteps ys.length → ((firstPass env cfg.timesteps dim
        ⟨mcTransform env draw 10000, mcTransform env draw 10000, some cfg.system.Q, some cfg.system.R, power, damping⟩ cfg.system ys
        ⟨fun _ => Node.init 0 0, 0⟩).2.get i).measFactor = asFactor dim := by
  obtain ⟨h1, ⟨Φ, hΦ⟩, ⟨G, hG⟩⟩ := l96_proper (env := env) hq hr x hsys h2 hys
  exact C77_power_sweep draw hdim hn (by omega) hcalm hN hiter xs h1 hΦ hG seed (by unfold SameLetters; decide) hp hγ conn

/-- The growth model with three measurements, on an empty database. -/
example (draw : Draw) (jac : Jac) : ∃ sys, UNGM.init = .ok sys ∧
    (powerSweep calmEnv jac draw
      { system := sys, timesteps := 3, sysDim := 1, numIter := 50, dynTable := "UNGM_SIM", expTable := "UNGM_EXP", sim := fun _ => .ok [] }
      [] [.v (v1 1), .v (v1 2), .v (v1 3)] 101 ⟨"MCT", 0.5, 1⟩ (Conn.connect fun _ => none) = (.error .value, Conn.connect fun _ => none) ∨
    ∀ i : ℕ, i < 2 → ((firstPass calmEnv 3 1 ⟨mcTransform calmEnv draw 10000, mcTransform calmEnv draw 10000, some sys.Q, some sys.R, 0.5, 1⟩ sys
      [.v (v1 1), .v (v1 2), .v (v1 3)] ⟨fun _ => Node.init 0 0, 0⟩).2.get i).measFactor = asFactor 1) := by
  refine ⟨ungm, ungm_init, ?_⟩
  refine (C77_growth (env := calmEnv) (jac := jac) draw (cfg :=
      { system := ungm, timesteps := 3, sysDim := 1, numIter := 50, dynTable := "UNGM_SIM", expTable := "UNGM_EXP", sim := fun _ => .ok [] })
    ungm_init rfl (fun _ => rfl) (by norm_num) (by norm_num) [] (by simp) (by simp) 101 (by norm_num) zero_le_one
    (Conn.connect fun _ => none)).imp id fun h i hi => h i ?_

  simp only [List.length_cons, List.length_nil]
  omega

end Verif

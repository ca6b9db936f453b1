import Verif.Props.MonteCarlo

/-! The first pass with Monte Carlo transforms on two sequences of measurements. -/

namespace Verif

open Matrix Gaussian Node

variable {env : Env} {n k : ℕ}

/-- The same nodes with other measurements. -/
def remeas (f : Ref → Option Arr) (h : Heap) : Heap := ⟨fun q => { h.get q with meas := f q }, h.size⟩

theorem remeas_get (f : Ref → Option Arr) (h : Heap) (q : Ref) : (remeas f h).get q = { h.get q with meas := f q } := rfl

theorem remeas_update (f : Ref → Option Arr) (h : Heap) (r : Ref) (g : Node → Node)
    (hg : ∀ (nd : Node) (y : Option Arr), g { nd with meas := y } = { g nd with meas := y }) :
    (remeas f h).update r g = remeas f (h.update r g) := by
  unfold remeas Heap.update
  congr 1
  funext q
  by_cases hq : q = r
  · subst hq; simp only [Function.update_self]; exact hg _ _
  · simp only [Function.update_of_ne hq]

theorem fwdCall_remeas (f : Ref → Option Arr) (r : Ref) (h : Heap) :
    fwdCall env r (remeas f h) = ((fwdCall env r h).1, remeas f (fwdCall env r h).2) := by
  unfold fwdCall
  rw [PyM.get_bind, PyM.get_bind, remeas_get]
  dsimp only
  rcases (h.get r).fwdUpdate with _ | ⟨t, proj⟩
  · rfl
  · dsimp only
    rw [fwdUpdateBody_eq, fwdUpdateBody_eq]
    have e1 : fwdCavity env (remeas f h) ((remeas f h).get t) = fwdCavity env h (h.get t) := rfl
    have e2 : ∀ c, fwdGuarded env ((remeas f h).get t) proj c = fwdGuarded env (h.get t) proj c := fun c => rfl
    simp only [e1, e2]
    split
    · rfl
    · split
      · simp only [remeas_update f h t (setFwd _ _) fun _ _ => rfl]
      · rfl
      · rfl

theorem backCall_remeas (f : Ref → Option Arr) (r : Ref) (h : Heap) :
    backCall env r (remeas f h) = ((backCall env r h).1, remeas f (backCall env r h).2) := by
  unfold backCall
  rw [PyM.get_bind, PyM.get_bind, remeas_get]
  dsimp only
  rcases (h.get r).backUpdate with _ | ⟨t, proj⟩
  · rfl
  · dsimp only
    rw [backUpdateBody_eq, backUpdateBody_eq]
    have e0 : ((remeas f h).get t).marginal.truediv env ((remeas f h).get t).backFactor =
      (h.get t).marginal.truediv env (h.get t).backFactor := rfl
    have e1 : nextFwdCavity env (remeas f h) ((remeas f h).get t) = (nextFwdCavity env h (h.get t)).map
        fun p => ({ p.1 with meas := ((h.get t).next.bind f) }, p.2) := by
      unfold nextFwdCavity
      rw [remeas_get]
      dsimp only
      rcases (h.get t).next with _ | q
      · rfl
      · simp only [attr, ok_bind, remeas_get, Option.bind_some]
        rcases (h.get t).power with _ | p
        · rfl
        · simp only [ok_bind]
          rcases pyDiv 1 p with _ | a
          · rfl
          · simp only [ok_bind]
            rcases Gaussian.pow env (h.get q).fwdFactor a with _ | g
            · rfl
            · simp only [ok_bind]
              rcases Gaussian.truediv env (h.get q).marginal g with _ | g'
              · rfl
              · rfl
    rw [e0, e1]
    rcases (h.get t).marginal.truediv env (h.get t).backFactor with e | c
    · rfl
    · dsimp only
      rcases nextFwdCavity env h (h.get t) with e | ⟨nx, nc⟩
      · cases e <;> rfl
      · have e2 : backValue env ((remeas f h).get t) { nx with meas := (h.get t).next.bind f } proj c nc =
          backValue env (h.get t) nx proj c nc := rfl
        simp only [Except.map, e2]
        rcases backValue env (h.get t) nx proj c nc with e | ⟨F, M⟩
        · cases e <;> rfl
        · simp only [remeas_update f h t (setBack _ _) fun _ _ => rfl]

theorem forEach_remeas {call : Ref → PyM Heap Unit} (f : Ref → Option Arr)
    (hc : ∀ r h, call r (remeas f h) = ((call r h).1, remeas f (call r h).2)) (l : List Ref) (h : Heap) :
    PyM.forEach l call (remeas f h) = ((PyM.forEach l call h).1, remeas f (PyM.forEach l call h).2) := by
  induction l generalizing h with
  | nil => rfl
  | cons r l ih =>
    unfold PyM.forEach
    rcases hr : call r h with ⟨e | u, h'⟩
    · rw [PyM.bind_error hr, PyM.bind_error (s' := remeas f h') (e := e) (by rw [hc, hr])]
    · rw [PyM.bind_ok hr, PyM.bind_ok (s' := remeas f h') (a := u) (by rw [hc, hr]), ih]

/-- A marginal whose mean is an `n × n` array. -/
def MatrixShift (n : ℕ) (g : Gaussian) : Prop :=
  ∃ P W : Matrix (Fin n) (Fin n) ℝ, g = ofNatural (.m P) (.m W) ∧ P.PosDef ∧ TRACE_EPS ≤ P.trace

/-- The forward half of the first pass on the same nodes with two sequences of measurements: it raises for both; or the last update is
accepted for both; or no update is accepted, so that the result is that of the predictions alone. -/
theorem filter_twice {e : Estimator} {sys : Sys} {s N : ℕ} (hcalm : ∀ A : Matrix (Fin n) (Fin n) ℝ, env.illPos A = false) (hn : n ≠ 0)
    (hp : 0 < e.power) (hγ : 0 ≤ e.damping) {μ0 : Fin n → ℝ} {P0 : Matrix (Fin n) (Fin n) ℝ} (hg : HasMoments env sys.initState μ0 P0)
    (hP0 : P0.PosDef) {Q : Matrix (Fin n) (Fin n) ℝ} (hQ : e.Q = some (.m Q)) (hQ' : Q.PosDef) {R : Matrix (Fin k) (Fin k) ℝ}
    (hR : e.R = some (.m R)) (hR' : R.PosDef)
    (hA : ∀ t, SamplesOn env e.transMap (fun x => sys.transition x (some t) (some 0)) n n)
    (hT : SamplesOn env e.measMap (fun x => sys.measurement x none none) n k)
    (hrej : ∀ t, RejectsMatrixMean env n e.transMap (fun x => sys.transition x (some t) (some 0))) (f : Ref → Option Arr) :
    ∀ (m i : ℕ) (h : Heap), 0 < m →
      (∀ j, i ≤ j → j < i + m → ∃ (y : Arr) (yv : Fin k → ℝ), IsVec y.squeeze yv ∧ h.get (s + j) = builtNode env e sys s N n j y) →
      (∀ j, i ≤ j → j < i + m → ∃ (y : Arr) (yv : Fin k → ℝ), IsVec y yv ∧ f (s + j) = some y) →
      (i = 0 ∨ ∃ (P : Matrix (Fin n) (Fin n) ℝ) (v : Fin n → ℝ), (h.get (s + (i - 1))).marginal = ofNatural (.m P) (.v v) ∧ P.PosDef ∧
        TRACE_EPS ≤ P.trace ∧ (h.get (s + (i - 1))).backFactor = asFactor n) →
      ∃ (h' h'' : Heap),
        ((PyM.forEach (List.range' (s + i) m) (fun r => do fwdCall env r; measCall env r) h = (.error .value, h') ∧
          PyM.forEach (List.range' (s + i) m) (fun r => do fwdCall env r; measCall env r) (remeas f h) = (.error .value, h'')) ∨
        (PyM.forEach (List.range' (s + i) m) (fun r => do fwdCall env r; measCall env r) h = (.ok (), h') ∧
          PyM.forEach (List.range' (s + i) m) (fun r => do fwdCall env r; measCall env r) (remeas f h) = (.ok (), h'') ∧
          MatrixShift n (h'.get (s + (i + m - 1))).marginal ∧ MatrixShift n (h''.get (s + (i + m - 1))).marginal) ∨
        (PyM.forEach (List.range' (s + i) m) (fun r => do fwdCall env r; measCall env r) h = (.ok (), h') ∧
          PyM.forEach (List.range' (s + i) m) (fun r => do fwdCall env r; measCall env r) (remeas f h) = (.ok (), remeas f h') ∧
          PyM.forEach (List.range' (s + i) m) (fwdCall env) h = (.ok (), h'))) := by
  intro m
  induction m with
  | zero => intro i h hm; exact absurd hm (lt_irrefl _)
  | succ m ih =>
    intro i h _ hb hb' hprev
    obtain ⟨y, yv, hyv, hnd⟩ := hb i le_rfl (by omega)
    obtain ⟨y2, yv2, hyv2, hnd2⟩ := hb' i le_rfl (by omega)
    -- the cavity
    obtain ⟨g, μ, Pc, hcav, hgm, hPc⟩ : ∃ (g : Gaussian) (μ : Fin n → ℝ) (Pc : Matrix (Fin n) (Fin n) ℝ),
        fwdCavity env h (h.get (s + i)) = .ok g ∧ HasMoments env g μ Pc ∧ Pc.PosDef := by
      by_cases hi : i = 0
      · subst hi
        refine ⟨sys.initState, μ0, P0, ?_, hg, hP0⟩
        rw [hnd]
        simp only [fwdCavity, backCavityFromPrev, builtNode, if_true, attr, error_bind]
      · obtain ⟨P, v, h1, h2, h3, h4⟩ := hprev.resolve_left hi
        refine ⟨ofNatural (.m P) (.v v), _, P⁻¹, ?_, moment_of_natural v h2 h3 (hcalm _), h2.inv⟩
        rw [hnd]
        simp only [fwdCavity, backCavityFromPrev, builtNode, if_neg hi, attr, ok_bind, pyDiv, if_neg hp.ne', h1, h4,
          pow_natural (asFactor_natural env n), truediv_natural (hasNatural_ofNatural env P v) (hasNatural_ofNatural env _ _), smul_zero,
          sub_zero]
    obtain ⟨x, xv, S0, Cx, hx, hS0, hTx⟩ := hA (i * sys.dt) g μ Pc hgm hPc
    have hS : (S0 + Q).PosDef := hQ'.posSemidef_add hS0
    have hfresh : FreshNode n e.power e.damping (h.get (s + i)) := by rw [hnd]; exact ⟨rfl, rfl, rfl, rfl, rfl, rfl⟩
    obtain ⟨F, hf⟩ := fwd_of_cavity (e := e) hcalm hn hp hγ hfresh hcav (by rw [hnd]; exact hTx) hx hQ hS
    have hps : (e.damping • (S0 + Q)⁻¹).PosSemidef := hS.inv.posSemidef.smul hγ
    have hP1 : (TRACE_EPS • (1 : Matrix (Fin n) (Fin n) ℝ) + e.damping • (S0 + Q)⁻¹).PosDef :=
      (Matrix.PosDef.one.smul TRACE_EPS_pos).add_posSemidef hps
    have htr : TRACE_EPS ≤ (TRACE_EPS • (1 : Matrix (Fin n) (Fin n) ℝ) + e.damping • (S0 + Q)⁻¹).trace := by
      rw [trace_add, trace_smul, trace_one, Fintype.card_fin]
      have h1 : (1 : ℝ) ≤ n := by exact_mod_cast Nat.one_le_iff_ne_zero.2 hn
      have h2 := hps.trace_nonneg
      have := TRACE_EPS_pos
      simp only [smul_eq_mul]
      nlinarith
    generalize TRACE_EPS • (1 : Matrix (Fin n) (Fin n) ℝ) + e.damping • (S0 + Q)⁻¹ = P1 at hf hP1 htr
    generalize e.damping • ((S0 + Q)⁻¹ *ᵥ xv) = v1 at hf
    set h1 := h.update (s + i) (setFwd F (ofNatural (.m P1) (.v v1))) with hh1
    have hget : h1.get (s + i) = setFwd F (ofNatural (.m P1) (.v v1)) (builtNode env e sys s N n i y) := by
      rw [hh1, Heap.update_get_same, hnd]
    have hget' : ∀ q, q ≠ s + i → h1.get q = h.get q := fun q hq => Heap.update_get_ne _ hq _
    have hgetr : (remeas f h1).get (s + i) =
        { setFwd F (ofNatural (.m P1) (.v v1)) (builtNode env e sys s N n i y) with meas := some y2 } := by
      rw [remeas_get, hget, hnd2]
    obtain ⟨z, zv, S, C, hz, hSS, hTz⟩ := hT _ _ _ (moment_of_natural v1 hP1 htr (hcalm _)) hP1.inv
    have c1 : fwdCall env (s + i) h = (.ok (), h1) := by
      unfold fwdCall; rw [PyM.get_bind, hnd]; exact hf
    have c1' : fwdCall env (s + i) (remeas f h) = (.ok (), remeas f h1) := by rw [fwdCall_remeas, c1]
    have c2 : measCall env (s + i) h1 = measUpdateBody env (s + i) (e.projMeas env) h1 := by
      unfold measCall; rw [PyM.get_bind, hget]; rfl
    have c2' : measCall env (s + i) (remeas f h1) = measUpdateBody env (s + i) (e.projMeas env) (remeas f h1) := by
      unfold measCall; rw [PyM.get_bind, hgetr]; rfl
    have m1 := C77_measurement (e := e) (r := s + i) (h := h1) (γ := e.damping) hcalm hp hγ (by rw [hget]; rfl) (by rw [hget]; rfl)
      (by rw [hget]; rfl) hP1 htr (by rw [hget]; rfl) hz hSS (by rw [hget]; exact hTz) (by rw [hget]; rfl) hyv hR hR'
    have m2 := C77_measurement (e := e) (r := s + i) (h := remeas f h1) (γ := e.damping) hcalm hp hγ (by rw [hgetr]; rfl) (by rw [hgetr]; rfl)
      (by rw [hgetr]; rfl) hP1 htr (by rw [hgetr]; rfl) hz hSS (by rw [hgetr]; exact hTz) (by rw [hgetr]) hyv2 hR hR'
    rw [List.range'_succ]
    unfold PyM.forEach
    rcases m1 with ⟨hno, hm⟩ | ⟨hyes, F', P', W, hP', ht', hm⟩
    · have hm2 := (m2.resolve_right fun h => hno h.1).2
      rw [hm] at c2
      rw [hm2] at c2'
      have r1 := PyM.bind_ok (a := ()) ((PyM.bind_ok c1 fun _ => measCall env (s + i)).trans c2) fun _ =>
        PyM.forEach (List.range' (s + i + 1) m) fun r => do fwdCall env r; measCall env r
      have r2 := PyM.bind_ok (a := ()) ((PyM.bind_ok c1' fun _ => measCall env (s + i)).trans c2') fun _ =>
        PyM.forEach (List.range' (s + i + 1) m) fun r => do fwdCall env r; measCall env r
      have r3 := PyM.bind_ok (a := ()) c1 fun _ => PyM.forEach (List.range' (s + i + 1) m) (fwdCall env)
      rw [r1, r2, r3]
      cases m with
      | zero => exact ⟨h1, h1, .inr (.inr ⟨rfl, rfl, rfl⟩)⟩
      | succ m =>
        obtain ⟨h', h'', hres⟩ := ih (i + 1) h1 (by omega) (fun j h2 h3 => by
            obtain ⟨y', yv', a, b⟩ := hb j (by omega) (by omega)
            exact ⟨y', yv', a, (hget' _ (by omega)).trans b⟩)
          (fun j h2 h3 => hb' j (by omega) (by omega))
          (.inr ⟨P1, v1, by rw [Nat.add_sub_cancel, hget]; rfl, hP1, htr, by rw [Nat.add_sub_cancel, hget]; rfl⟩)
        have e1 : i + 1 + (m + 1) - 1 = i + (m + 1 + 1) - 1 := by omega
        rw [e1] at hres
        exact ⟨h', h'', hres⟩
    · obtain ⟨-, F2, P2, W2, hP2, ht2, hm2⟩ := m2.resolve_left fun h => h.1 hyes
      rw [hm] at c2
      rw [hm2] at c2'
      set h2 := h1.update (s + i) (setMeas F' (ofNatural (.m P') (.m W))) with hh2
      set h3 := (remeas f h1).update (s + i) (setMeas F2 (ofNatural (.m P2) (.m W2))) with hh3
      have hget2 : ∀ q, q ≠ s + i → h2.get q = h.get q := fun q hq => (Heap.update_get_ne _ hq _).trans (hget' q hq)
      have hget3 : ∀ q, q ≠ s + i → h3.get q = { h.get q with meas := f q } := fun q hq => by
        rw [hh3, Heap.update_get_ne _ hq, remeas_get, hget' q hq]
      have r1 := PyM.bind_ok (a := ()) ((PyM.bind_ok c1 fun _ => measCall env (s + i)).trans c2) fun _ =>
        PyM.forEach (List.range' (s + i + 1) m) fun r => do fwdCall env r; measCall env r
      have r2 := PyM.bind_ok (a := ()) ((PyM.bind_ok c1' fun _ => measCall env (s + i)).trans c2') fun _ =>
        PyM.forEach (List.range' (s + i + 1) m) fun r => do fwdCall env r; measCall env r
      rw [r1, r2]
      cases m with
      | zero =>
        refine ⟨h2, h3, .inr (.inl ⟨rfl, rfl, ⟨P', W, ?_, hP', ht'⟩, ⟨P2, W2, ?_, hP2, ht2⟩⟩)⟩
        · rw [Nat.zero_add, Nat.add_sub_cancel, hh2, Heap.update_get_same]; rfl
        · rw [Nat.zero_add, Nat.add_sub_cancel, hh3, Heap.update_get_same]; rfl
      | succ m =>
        obtain ⟨y', yv', -, hnd'⟩ := hb (i + 1) (by omega) (by omega)
        have k2 : h2.get (s + i + 1) = builtNode env e sys s N n (i + 1) y' := (hget2 _ (by omega)).trans hnd'
        have k3 : h3.get (s + i + 1) = { builtNode env e sys s N n (i + 1) y' with meas := f (s + i + 1) } := by
          rw [hget3 _ (by omega), Nat.add_assoc, hnd']
        have a2 := fwdUpdate_aborts (e := e) (r := s + i + 1) (p := s + i) (h := h2) (α := e.power) (by rw [k2]; rfl) (by rw [k2]; rfl)
          hp.ne' (by rw [hh2, Heap.update_get_same]; rfl) (by rw [hh2, Heap.update_get_same, hget]; rfl) hP' ht' (hcalm _)
          (by rw [k2]; exact hrej _)
        have a3 := fwdUpdate_aborts (e := e) (r := s + i + 1) (p := s + i) (h := h3) (α := e.power) (by rw [k3]; rfl) (by rw [k3]; rfl)
          hp.ne' (by rw [hh3, Heap.update_get_same]; rfl) (by rw [hh3, Heap.update_get_same, hgetr]; rfl) hP2 ht2 (hcalm _)
          (by rw [k3]; exact hrej _)
        have c3 : fwdCall env (s + i + 1) h2 = (.error .value, h2) := by
          unfold fwdCall; rw [PyM.get_bind, k2]; exact a2
        have c4 : fwdCall env (s + i + 1) h3 = (.error .value, h3) := by
          unfold fwdCall; rw [PyM.get_bind, k3]; exact a3
        refine ⟨h2, h3, .inl ⟨?_, ?_⟩⟩ <;>
        · rw [List.range'_succ]
          unfold PyM.forEach
          first
          | exact PyM.bind_error (PyM.bind_error c3 _) _
          | exact PyM.bind_error (PyM.bind_error c4 _) _

/-! ## The backward half -/

theorem backCall_frame (r q : Ref) (h : Heap) (hr : ∀ p, (h.get r).backUpdate = some p → p.1 = r) (hq : (h.get q).next = none) :
    ((backCall env r h).2.get q).marginal = (h.get q).marginal ∧
      (∀ t, ((backCall env r h).2.get t).backUpdate = (h.get t).backUpdate ∧ ((backCall env r h).2.get t).next = (h.get t).next) := by
  unfold backCall
  rw [PyM.get_bind]
  rcases hb : (h.get r).backUpdate with _ | ⟨t, proj⟩
  · exact ⟨rfl, fun _ => ⟨rfl, rfl⟩⟩
  · obtain rfl : t = r := hr _ hb
    dsimp only
    rw [backUpdateBody_eq]
    split
    · exact ⟨rfl, fun _ => ⟨rfl, rfl⟩⟩
    · by_cases hqt : q = t
      · subst hqt
        have : nextFwdCavity env h (h.get q) = .error .attribute := by simp only [nextFwdCavity, hq, attr, error_bind]
        rw [this]
        exact ⟨rfl, fun _ => ⟨rfl, rfl⟩⟩
      · split
        · exact ⟨rfl, fun _ => ⟨rfl, rfl⟩⟩
        · exact ⟨rfl, fun _ => ⟨rfl, rfl⟩⟩
        · split
          · refine ⟨by rw [Heap.update_get_ne _ hqt], fun p => ?_⟩
            by_cases hp : p = t
            · subst hp; rw [Heap.update_get_same]; exact ⟨rfl, rfl⟩
            · rw [Heap.update_get_ne _ hp]; exact ⟨rfl, rfl⟩
          · exact ⟨rfl, fun _ => ⟨rfl, rfl⟩⟩
          · exact ⟨rfl, fun _ => ⟨rfl, rfl⟩⟩

/-- The backward half leaves the marginal of the last node alone. -/
theorem backLoop_frame (l : List Ref) (q : Ref) (h : Heap) (hu : ∀ r ∈ l, ∀ p, (h.get r).backUpdate = some p → p.1 = r)
    (hq : (h.get q).next = none) : ((PyM.forEach l (backCall env) h).2.get q).marginal = (h.get q).marginal := by
  induction l generalizing h with
  | nil => rfl
  | cons r l ih =>
    obtain ⟨h1, h2⟩ := backCall_frame (env := env) r q h (hu r (by simp)) hq
    unfold PyM.forEach
    rcases hb : backCall env r h with ⟨_ | u, h'⟩
    · rw [PyM.bind_error hb]; rw [hb] at h1; exact h1
    · rw [hb] at h1 h2
      rw [PyM.bind_ok hb, ih h' (fun r hr p hp => hu r (by simp [hr]) p ((h2 r).1 ▸ hp)) ((h2 q).2.trans hq), h1]

theorem fwdCall_static (r t : Ref) (h : Heap) :
    ((fwdCall env r h).2.get t).backUpdate = (h.get t).backUpdate ∧ ((fwdCall env r h).2.get t).next = (h.get t).next := by
  unfold fwdCall
  rw [PyM.get_bind]
  rcases (h.get r).fwdUpdate with _ | ⟨q, proj⟩
  · exact ⟨rfl, rfl⟩
  · dsimp only
    rw [fwdUpdateBody_eq]
    split
    · exact ⟨rfl, rfl⟩
    · split
      · by_cases hp : t = q
        · subst hp; rw [Heap.update_get_same]; exact ⟨rfl, rfl⟩
        · rw [Heap.update_get_ne _ hp]; exact ⟨rfl, rfl⟩
      · exact ⟨rfl, rfl⟩
      · exact ⟨rfl, rfl⟩

theorem measCall_static (r t : Ref) (h : Heap) :
    ((measCall env r h).2.get t).backUpdate = (h.get t).backUpdate ∧ ((measCall env r h).2.get t).next = (h.get t).next := by
  unfold measCall
  rw [PyM.get_bind]
  rcases (h.get r).measUpdate with _ | ⟨q, proj⟩
  · exact ⟨rfl, rfl⟩
  · dsimp only
    rw [measUpdateBody_eq]
    split
    · exact ⟨rfl, rfl⟩
    · split
      · by_cases hp : t = q
        · subst hp; rw [Heap.update_get_same]; exact ⟨rfl, rfl⟩
        · rw [Heap.update_get_ne _ hp]; exact ⟨rfl, rfl⟩
      · exact ⟨rfl, rfl⟩
      · exact ⟨rfl, rfl⟩

theorem filter_static (l : List Ref) (t : Ref) (h : Heap) :
    ((PyM.forEach l (fun r => do fwdCall env r; measCall env r) h).2.get t).backUpdate = (h.get t).backUpdate ∧
      ((PyM.forEach l (fun r => do fwdCall env r; measCall env r) h).2.get t).next = (h.get t).next := by
  induction l generalizing h with
  | nil => exact ⟨rfl, rfl⟩
  | cons r l ih =>
    have a := fwdCall_static (env := env) r t h
    unfold PyM.forEach
    rcases hb : fwdCall env r h with ⟨_ | u, h'⟩
    · rw [PyM.bind_error (PyM.bind_error hb _)]; rw [hb] at a; exact a
    · rw [hb] at a
      have b := measCall_static (env := env) r t h'
      rcases hb' : measCall env r h' with ⟨_ | u, h''⟩
      · rw [PyM.bind_error ((PyM.bind_ok hb _).trans hb')]; rw [hb'] at b; exact ⟨b.1.trans a.1, b.2.trans a.2⟩
      · rw [PyM.bind_ok ((PyM.bind_ok hb _).trans hb')]
        rw [hb'] at b
        exact ⟨(ih h'').1.trans (b.1.trans a.1), (ih h'').2.trans (b.2.trans a.2)⟩

/-! ## The nodes -/

/-- Nodes built for two sequences of measurements differ in their measurements only. -/
theorem graph_twice (N dim : ℕ) (hN : 2 ≤ N) (e : Estimator) (sys : Sys) {ys ys' : List Arr} (hys : ys ≠ []) (hl : ys'.length = ys.length)
    (h : Heap) :
    ∃ (h1 : Heap) (f : Ref → Option Arr), graph env N dim e sys ys h = (.ok ((List.range' h.size N).take ys.length), h1) ∧
      graph env N dim e sys ys' h = (.ok ((List.range' h.size N).take ys.length), remeas f h1) ∧
      (∀ (i : ℕ) (y : Arr), i < N → ys[i]? = some y → h1.get (h.size + i) = builtNode env e sys h.size N dim i y) ∧
      ∀ (i : ℕ) (y : Arr), i < N → ys'[i]? = some y → f (h.size + i) = some y.squeeze := by
  have hys' : ys' ≠ [] := by rintro rfl; exact hys (List.length_eq_zero_iff.1 hl.symm)
  obtain ⟨h1, g1, -, -, g4⟩ := graph_run (env := env) N dim hN e sys ys hys h
  obtain ⟨h2, k1, -, -, k4⟩ := graph_run (env := env) N dim hN e sys ys' hys' h
  unfold graph at g1 k1
  rcases hb : buildNodes env N dim none none h with ⟨er | nodes, ha⟩
  · rw [PyM.bind_error hb] at g1; simp at g1
  rw [PyM.bind_ok hb] at g1 k1
  rcases hc : nodeEstimator env nodes e ha with ⟨er | nodes', hd⟩
  · rw [PyM.bind_error hc] at g1; simp at g1
  rw [PyM.bind_ok hc] at g1 k1
  -- both start from the same heap
  obtain ⟨hx, a1, -, -, -⟩ := allocNodes_run dim N 0 h
  obtain ⟨hy, b1, -, -, -⟩ := linkLoop_run (s := h.size) hN N 0 hx (by omega)
  rw [Nat.add_zero] at b1
  have hb' : buildNodes env N dim none none h = (.ok (List.range' h.size N), hy) := by
    unfold buildNodes
    rw [PyM.bind_ok a1, PyM.bind_ok b1]
    rfl
  rw [hb, Prod.mk.injEq, Except.ok.injEq] at hb'
  obtain ⟨rfl, rfl⟩ := hb'
  obtain ⟨hz, c1, -⟩ := nodeEstimator_run (env := env) e (List.range' h.size N) ha
  rw [hc, Prod.mk.injEq, Except.ok.injEq] at c1
  obtain ⟨rfl, rfl⟩ := c1
  have hne : List.range' h.size N ≠ [] := by intro h0; have := congrArg List.length h0; simp at this; omega
  obtain ⟨h1', d1, d2, d3, d4⟩ := C32_wiring (List.range' h.size N) sys ys hd List.nodup_range' hne hys
  obtain ⟨h2', e1, e2, e3, e4⟩ := C32_wiring (List.range' h.size N) sys ys' hd List.nodup_range' hne hys'
  rw [d1, Prod.mk.injEq] at g1
  rw [e1, Prod.mk.injEq] at k1
  obtain rfl := g1.2
  obtain rfl := k1.2
  refine ⟨h1', fun q => (h2'.get q).meas, ?_, ?_, g4, fun i y hi hy => ?_⟩
  · unfold graph; rw [PyM.bind_ok hb, PyM.bind_ok hc, d1]
  · unfold graph; rw [PyM.bind_ok hb, PyM.bind_ok hc, e1, hl]
    congr 1
    unfold remeas
    rcases h2' with ⟨get2, size2⟩
    congr 1
    · funext q
      dsimp only at *
      by_cases hq : q ∈ (List.range' h.size N).take ys.length
      · obtain ⟨i, hi, rfl⟩ := List.mem_iff_getElem.1 hq
        rw [List.length_take] at hi
        rw [List.getElem_take]
        have hi1 : (List.range' h.size N)[i]? = some ((List.range' h.size N)[i]) := List.getElem?_eq_getElem (by omega)
        rw [e4 i _ ys'[i] hi1 (List.getElem?_eq_getElem (by omega)), d4 i _ ys[i] hi1 (List.getElem?_eq_getElem (by omega))]
      · rw [e3 q (by rw [hl]; exact hq), d3 q hq, ← e3 q (by rw [hl]; exact hq)]
    · exact e2.trans d2.symm
  · dsimp only
    rw [k4 i y hi hy]; rfl

end Verif

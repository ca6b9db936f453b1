import Verif.Model.Nodes
import Verif.Lemmas.PyM
import Verif.Lemmas.Kalman

/-! Running node updates on the heap. -/

namespace Verif

namespace Heap

@[simp] theorem update_get_same (h : Heap) (r : Ref) (f : Node → Node) : (h.update r f).get r = f (h.get r) := by
  simp [update]

theorem update_get_ne (h : Heap) {r r' : Ref} (hr : r' ≠ r) (f : Node → Node) : (h.update r f).get r' = h.get r' := by
  simp [update, hr]

@[simp] theorem update_size (h : Heap) (r : Ref) (f : Node → Node) : (h.update r f).size = h.size := rfl

theorem update_update (h : Heap) (r : Ref) (f g : Node → Node) : (h.update r f).update r g = h.update r (g ∘ f) := by
  simp [update]

theorem update_id (h : Heap) (r : Ref) (f : Node → Node) (hf : f (h.get r) = h.get r) : h.update r f = h := by
  simp [update, hf]

theorem ext' {h h' : Heap} (h1 : ∀ r, h.get r = h'.get r) (h2 : h.size = h'.size) : h = h' := by
  cases h; cases h'; simp_all [funext_iff]

theorem update_comm (h : Heap) {r r' : Ref} (hr : r ≠ r') (f g : Node → Node) :
    (h.update r f).update r' g = (h.update r' g).update r f := by
  refine ext' (fun q => ?_) rfl
  by_cases h1 : q = r
  · subst h1; simp [update_get_ne _ hr]
  · by_cases h2 : q = r'
    · subst h2; simp [update_get_ne _ h1]
    · simp [update_get_ne _ h1, update_get_ne _ h2]

theorem update_get (h : Heap) (r r' : Ref) (f : Node → Node) :
    (h.update r f).get r' = if r' = r then f (h.get r) else h.get r' := by
  by_cases hr : r' = r
  · subst hr; simp
  · simp [hr, update_get_ne _ hr]

theorem alloc_get_new (h : Heap) (n : Node) : (h.alloc n).get h.size = n := by simp [alloc]

theorem alloc_get_old (h : Heap) (n : Node) {r : Ref} (hr : r ≠ h.size) : (h.alloc n).get r = h.get r := by
  simp [alloc, hr]

@[simp] theorem alloc_size (h : Heap) (n : Node) : (h.alloc n).size = h.size + 1 := rfl

end Heap

namespace PyM

variable {σ α β : Type}

theorem tryExcept_ok {x : PyM σ α} {s s' : σ} {a : α} (h : x s = (.ok a, s')) (e : Err) (hd : PyM σ α) :
    tryExcept x e hd s = (.ok a, s') := by
  simp [tryExcept, h]

theorem tryExcept_caught {x : PyM σ α} {s s' : σ} {e : Err} (h : x s = (.error e, s')) (hd : PyM σ α) :
    tryExcept x e hd s = hd s' := by
  simp [tryExcept, h]

theorem tryExcept_escaped {x : PyM σ α} {s s' : σ} {e e' : Err} (h : x s = (.error e', s')) (he : e' ≠ e) (hd : PyM σ α) :
    tryExcept x e hd s = (.error e', s') := by
  simp [tryExcept, h, he]

end PyM

namespace Node

/-- Replaces the forward factor and the marginal. -/
def setFwd (F M : Gaussian) (n : Node) : Node := { n with fwdFactor := F, marginal := M }
/-- Replaces the measurement factor and the marginal. -/
def setMeas (F M : Gaussian) (n : Node) : Node := { n with measFactor := F, marginal := M }
/-- Replaces the backward factor and the marginal. -/
def setBack (F M : Gaussian) (n : Node) : Node := { n with backFactor := F, marginal := M }

variable (env : Env)

/-- The cavity used by `fwd_update`. -/
noncomputable def fwdCavity (h : Heap) (nd : Node) : Py Gaussian :=
  match backCavityFromPrev env h nd with
  | .ok g => .ok g
  | .error .attribute => attr nd.prior
  | .error e => .error e

theorem fwdUpdateBody_eq (self : Ref) (proj : ProjTrans) (h : Heap) :
    fwdUpdateBody env self proj h =
      match fwdCavity env h (h.get self) with
      | .error e => (.error e, h)
      | .ok c =>
        match fwdGuarded env (h.get self) proj c with
        | .ok (F, M) => (.ok (), h.update self (setFwd F M))
        | .error .linAlg => (.ok (), h)
        | .error e => (.error e, h) := by
  have key : ∀ c : Gaussian, (PyM.tryExcept (do return some (← PyM.lift (fwdGuarded env (h.get self) proj c))) .linAlg (return none) :
      PyM Heap (Option (Gaussian × Gaussian))) h = match fwdGuarded env (h.get self) proj c with
        | .ok r => (.ok (some r), h)
        | .error .linAlg => (.ok none, h)
        | .error e => (.error e, h) := by
    intro c
    cases hg : fwdGuarded env (h.get self) proj c with
    | ok r => exact PyM.tryExcept_ok rfl _ _
    | error e =>
      by_cases he : e = .linAlg
      · subst he; exact PyM.tryExcept_caught rfl _
      · refine (PyM.tryExcept_escaped (s' := h) (e' := e) rfl he _).trans ?_
        cases e <;> first | rfl | exact absurd rfl he
  unfold fwdUpdateBody
  rw [PyM.get_bind]
  have cav : (PyM.tryExcept (PyM.lift (backCavityFromPrev env h (h.get self))) .attribute (PyM.lift (attr (h.get self).prior)) :
      PyM Heap Gaussian) h = (fwdCavity env h (h.get self), h) := by
    unfold fwdCavity
    cases hg : backCavityFromPrev env h (h.get self) with
    | ok r => exact PyM.tryExcept_ok rfl _ _
    | error e =>
      by_cases he : e = .attribute
      · subst he; exact PyM.tryExcept_caught rfl _
      · refine (PyM.tryExcept_escaped (s' := h) (e' := e) rfl he _).trans ?_
        cases e <;> first | rfl | exact absurd rfl he
  cases hc : fwdCavity env h (h.get self) with
  | error e => rw [hc] at cav; rw [PyM.bind_error cav]
  | ok c =>
    rw [hc] at cav
    rw [PyM.bind_ok cav]
    have k := key c
    dsimp only
    cases hg : fwdGuarded env (h.get self) proj c with
    | ok r =>
      rw [hg] at k
      rw [PyM.bind_ok k]
      obtain ⟨F, M⟩ := r
      simp only [PyM.modify_bind, PyM.modify_run, Heap.update_update]; rfl
    | error e =>
      rw [hg] at k
      by_cases he : e = .linAlg
      · subst he; rw [PyM.bind_ok k]; rfl
      · have k' : _ = ((.error e, h) : Py (Option (Gaussian × Gaussian)) × Heap) :=
          k.trans (by cases e <;> first | rfl | exact absurd rfl he)
        rw [PyM.bind_error k']
        cases e <;> first | rfl | exact absurd rfl he

/-- The value computed in the guarded block of `meas_update`. -/
noncomputable def measValue (nd : Node) (proj : ProjMeas) (cavity : Gaussian) : Py (Gaussian × Gaussian) := do
  let y ← attr nd.meas
  let state ← proj nd.measFunc cavity y
  validateCovariance env state
  nd.powerUpdate env state nd.measFactor nd.marginal

/-- The value computed in the guarded block of `back_update`. -/
noncomputable def backValue (nd next : Node) (proj : ProjBack) (cavity nextCavity : Gaussian) : Py (Gaussian × Gaussian) := do
  let state ← proj next.transFunc cavity nextCavity (some next.marginal)
  validateCovariance env state
  nd.powerUpdate env state nd.backFactor nd.marginal

theorem guarded_run (x : Py (Gaussian × Gaussian)) (h : Heap) (f : Gaussian × Gaussian → Heap → Heap) (y : PyM Heap Unit)
    (hy : y h = Except.rec (fun e => (.error e, h)) (fun r => (.ok (), f r h)) x) :
    PyM.tryExcept y .linAlg (pure ()) h =
      match (generalizing := false) x with
      | .ok r => (.ok (), f r h)
      | .error .linAlg => (.ok (), h)
      | .error e => (.error e, h) := by
  cases x with
  | ok r => exact PyM.tryExcept_ok hy _ _
  | error e =>
    by_cases he : e = .linAlg
    · subst he; exact PyM.tryExcept_caught hy _
    · rw [PyM.tryExcept_escaped hy he]
      cases e <;> first | rfl | exact absurd rfl he

theorem measUpdateBody_eq (self : Ref) (proj : ProjMeas) (h : Heap) :
    measUpdateBody env self proj h =
      match (h.get self).marginal.truediv env (h.get self).measFactor with
      | .error e => (.error e, h)
      | .ok c =>
        match measValue env (h.get self) proj c with
        | .ok (F, M) => (.ok (), h.update self (setMeas F M))
        | .error .linAlg => (.ok (), h)
        | .error e => (.error e, h) := by
  unfold measUpdateBody
  rw [PyM.get_bind]
  cases hc : (h.get self).marginal.truediv env (h.get self).measFactor with
  | error e => simp
  | ok c =>
    simp only [PyM.lift_ok_bind]
    refine (guarded_run (measValue env (h.get self) proj c) h (fun r h => h.update self (setMeas r.1 r.2)) _ ?_).trans
      (by cases measValue env (h.get self) proj c with
        | ok r => rfl
        | error e => cases e <;> rfl)
    unfold measValue
    cases hy : attr (h.get self).meas with
    | error e => simp [error_bind]
    | ok y =>
      simp only [ok_bind]
      cases hp : proj (h.get self).measFunc c y with
      | error e => simp [error_bind]
      | ok st =>
        simp only [ok_bind, PyM.lift_ok_bind]
        cases hv : validateCovariance env st with
        | error e => simp [error_bind]
        | ok _ =>
          simp only [ok_bind, PyM.lift_ok_bind]
          cases hu : (h.get self).powerUpdate env st (h.get self).measFactor (h.get self).marginal with
          | error e => simp
          | ok r =>
            obtain ⟨F, M⟩ := r
            simp only [PyM.lift_ok_bind, PyM.modify_bind, PyM.modify_run, Heap.update_update]; rfl

theorem backUpdateBody_eq (self : Ref) (proj : ProjBack) (h : Heap) :
    backUpdateBody env self proj h =
      match (h.get self).marginal.truediv env (h.get self).backFactor with
      | .error e => (.error e, h)
      | .ok c =>
        match nextFwdCavity env h (h.get self) with
        | .error .attribute => (.ok (), h)
        | .error e => (.error e, h)
        | .ok (next, nc) =>
          match backValue env (h.get self) next proj c nc with
          | .ok (F, M) => (.ok (), h.update self (setBack F M))
          | .error .linAlg => (.ok (), h)
          | .error e => (.error e, h) := by
  unfold backUpdateBody
  rw [PyM.get_bind]
  cases hc : (h.get self).marginal.truediv env (h.get self).backFactor with
  | error e => simp
  | ok c =>
    simp only [PyM.lift_ok_bind]
    cases hn : nextFwdCavity env h (h.get self) with
    | error e =>
      by_cases he : e = .attribute
      · subst he
        refine (PyM.bind_ok (a := none) (s' := h) (PyM.tryExcept_caught (s' := h) rfl _) _).trans rfl
      · refine (PyM.bind_error (s' := h) (PyM.tryExcept_escaped (s' := h) (e' := e) rfl he _) _).trans ?_
        cases e <;> first | rfl | exact absurd rfl he
    | ok r =>
      obtain ⟨next, nc⟩ := r
      refine (PyM.bind_ok (s' := h) (PyM.tryExcept_ok (a := some (next, nc)) (s' := h) rfl _ _) _).trans ?_
      refine (guarded_run (backValue env (h.get self) next proj c nc) h (fun r h => h.update self (setBack r.1 r.2)) _ ?_).trans
        (by
          dsimp only
          cases backValue env (h.get self) next proj c nc with
          | ok r => rfl
          | error e => cases e <;> rfl)
      unfold backValue
      cases hp : proj next.transFunc c nc (some next.marginal) with
      | error e => simp [error_bind]
      | ok st =>
        simp only [ok_bind, PyM.lift_ok_bind]
        cases hv : validateCovariance env st with
        | error e => simp [error_bind]
        | ok _ =>
          simp only [ok_bind, PyM.lift_ok_bind]
          cases hu : (h.get self).powerUpdate env st (h.get self).backFactor (h.get self).marginal with
          | error e => simp
          | ok r =>
            obtain ⟨F, M⟩ := r
            simp only [PyM.lift_ok_bind, PyM.modify_bind, PyM.modify_run, Heap.update_update]; rfl

theorem attr_ok {α : Type} {o : Option α} {a : α} (h : attr o = .ok a) : o = some a := by
  cases o <;> simp_all [attr]

theorem pyDiv_ok {a b c : ℝ} (h : pyDiv a b = .ok c) : b ≠ 0 ∧ c = a / b := by
  unfold pyDiv at h
  split_ifs at h with hb
  simp only [Except.ok.injEq] at h
  exact ⟨hb, h.symm⟩

variable {env}

/-- What a successful guarded block of `fwd_update` computed. -/
theorem fwdGuarded_ok {nd : Node} {proj : ProjTrans} {c F M : Gaussian} (h : fwdGuarded env nd proj c = .ok (F, M)) :
    ∃ (state a b d k : Gaussian) (γ α : ℝ), proj nd.transFunc c = .ok state ∧ validateCovariance env state = .ok () ∧
      nd.damping = some γ ∧ nd.power = some α ∧ α ≠ 0 ∧ nd.fwdFactor.pow env (1 - γ) = .ok a ∧ state.pow env γ = .ok b ∧
      a.mul env b = .ok F ∧ F.truediv env nd.fwdFactor = .ok d ∧ d.pow env (1 / α) = .ok k ∧ nd.marginal.mul env k = .ok M ∧
      validateCovariance env M = .ok () := by
  unfold fwdGuarded at h
  obtain ⟨state, h1, h⟩ := py_bind_ok h
  obtain ⟨_, h2, h⟩ := py_bind_ok h
  obtain ⟨γ, h3, h⟩ := py_bind_ok h
  obtain ⟨a, h4, h⟩ := py_bind_ok h
  obtain ⟨b, h5, h⟩ := py_bind_ok h
  obtain ⟨F', h6, h⟩ := py_bind_ok h
  obtain ⟨α, h7, h⟩ := py_bind_ok h
  obtain ⟨ip, h8, h⟩ := py_bind_ok h
  obtain ⟨d, h9, h⟩ := py_bind_ok h
  obtain ⟨k, h10, h⟩ := py_bind_ok h
  obtain ⟨M', h11, h⟩ := py_bind_ok h
  obtain ⟨_, h12, h⟩ := py_bind_ok h
  simp only [py_pure, Except.ok.injEq, Prod.mk.injEq] at h
  obtain ⟨rfl, rfl⟩ := h
  obtain ⟨hα, rfl⟩ := pyDiv_ok h8
  exact ⟨state, a, b, d, k, γ, α, h1, h2, attr_ok h3, attr_ok h7, hα, h4, h5, h6, h9, h10, h11, h12⟩

/-- What a successful `power_update` computed. -/
theorem powerUpdate_ok {nd : Node} {s f m F M : Gaussian} (h : nd.powerUpdate env s f m = .ok (F, M)) :
    ∃ (ratio a b : Gaussian) (γ α : ℝ), nd.damping = some γ ∧ nd.power = some α ∧ α ≠ 0 ∧ s.truediv env m = .ok ratio ∧
      ratio.pow env γ = .ok a ∧ f.mul env a = .ok F ∧ ratio.pow env (γ / α) = .ok b ∧ m.mul env b = .ok M ∧
      validateCovariance env M = .ok () := by
  unfold powerUpdate at h
  obtain ⟨γ, h1, h⟩ := py_bind_ok h
  obtain ⟨α, h2, h⟩ := py_bind_ok h
  obtain ⟨ratio, h3, h⟩ := py_bind_ok h
  obtain ⟨a, h4, h⟩ := py_bind_ok h
  obtain ⟨F', h5, h⟩ := py_bind_ok h
  obtain ⟨ip, h6, h⟩ := py_bind_ok h
  obtain ⟨b, h7, h⟩ := py_bind_ok h
  obtain ⟨M', h8, h⟩ := py_bind_ok h
  obtain ⟨_, h9, h⟩ := py_bind_ok h
  simp only [py_pure, Except.ok.injEq, Prod.mk.injEq] at h
  obtain ⟨rfl, rfl⟩ := h
  obtain ⟨hα, rfl⟩ := pyDiv_ok h6
  exact ⟨ratio, a, b, γ, α, attr_ok h1, attr_ok h2, hα, h3, h4, h5, h7, h8, h9⟩

theorem measValue_ok {nd : Node} {proj : ProjMeas} {c : Gaussian} {r : Gaussian × Gaussian} (h : measValue env nd proj c = .ok r) :
    ∃ y state, nd.meas = some y ∧ proj nd.measFunc c y = .ok state ∧ validateCovariance env state = .ok () ∧
      nd.powerUpdate env state nd.measFactor nd.marginal = .ok r := by
  unfold measValue at h
  obtain ⟨y, h1, h⟩ := py_bind_ok h
  obtain ⟨state, h2, h⟩ := py_bind_ok h
  obtain ⟨_, h3, h⟩ := py_bind_ok h
  exact ⟨y, state, attr_ok h1, h2, h3, h⟩

theorem backValue_ok {nd next : Node} {proj : ProjBack} {c nc : Gaussian} {r : Gaussian × Gaussian}
    (h : backValue env nd next proj c nc = .ok r) :
    ∃ state, proj next.transFunc c nc (some next.marginal) = .ok state ∧ validateCovariance env state = .ok () ∧
      nd.powerUpdate env state nd.backFactor nd.marginal = .ok r := by
  unfold backValue at h
  obtain ⟨state, h2, h⟩ := py_bind_ok h
  obtain ⟨_, h3, h⟩ := py_bind_ok h
  exact ⟨state, h2, h3, h⟩

end Node

theorem Arr.zip_error {op : ℝ → ℝ → ℝ} {a b : Arr} {e : Err} (h : a.zip op b = .error e) : e = .value := by
  unfold Arr.zip at h
  split at h
  · split at h <;> simp at h
  · simpa using h.symm

/-- Reading natural parameters of a power of a readable Gaussian succeeds. -/
theorem pow_ok {env : Env} {g : Gaussian} {P h : Arr} (h1 : g.precisionA env = .ok P) (h2 : g.shiftA env = .ok h) (k : ℝ) :
    g.pow env k = .ok (Gaussian.ofNatural (P.smul k) (h.smul k)) := by
  simp [Gaussian.pow, h1, h2]

theorem truediv_error {env : Env} {a b : Gaussian} {Pa ha Pb hb : Arr} {e : Err}
    (h1 : a.precisionA env = .ok Pa) (h2 : a.shiftA env = .ok ha) (h3 : b.precisionA env = .ok Pb) (h4 : b.shiftA env = .ok hb)
    (h : a.truediv env b = .error e) : e = .value := by
  simp only [Gaussian.truediv, h1, h2, h3, h4, ok_bind] at h
  cases h5 : Pa.sub Pb with
  | error e' => rw [h5, error_bind] at h; simp only [Except.error.injEq] at h; rw [← h]; exact Arr.zip_error h5
  | ok p =>
    rw [h5, ok_bind] at h
    cases h6 : ha.sub hb with
    | error e' => rw [h6, error_bind] at h; simp only [Except.error.injEq] at h; rw [← h]; exact Arr.zip_error h6
    | ok q => rw [h6] at h; simp at h

end Verif

import Verif.Lemmas.Stationary
import Verif.Props.Invariant

/-!
# Fixed points of expectation propagation (C102)
-/

namespace Verif

open Matrix Gaussian Node Arr

variable {env : Env}

/-- The factor a kind of update writes. -/
def Upd.factor : Upd → Node → Gaussian
  | .fwd, n => n.fwdFactor
  | .meas, n => n.measFactor
  | .back, n => n.backFactor

/-- Replaces that factor and the marginal. -/
def Upd.set : Upd → Gaussian → Gaussian → Node → Node
  | .fwd => setFwd
  | .meas => setMeas
  | .back => setBack

/-- The computation of an update runs to its end: neither a cavity, nor the projection, nor the checks of the projected state and of the new
marginal fail.  The last node of the chain has no backward update to compute. -/
def Accepts (env : Env) (h : Heap) : Upd × Ref → Prop
  | (.fwd, r) => ∃ t p c FM, (h.get r).fwdUpdate = some (t, p) ∧ fwdCavity env h (h.get t) = .ok c ∧ fwdGuarded env (h.get t) p c = .ok FM
  | (.meas, r) => ∃ t p c FM, (h.get r).measUpdate = some (t, p) ∧ (h.get t).marginal.truediv env (h.get t).measFactor = .ok c ∧
      measValue env (h.get t) p c = .ok FM
  | (.back, r) => ∃ t p c, (h.get r).backUpdate = some (t, p) ∧ (h.get t).marginal.truediv env (h.get t).backFactor = .ok c ∧
      ((h.get t).next = none ∨ ∃ n nc FM, nextFwdCavity env h (h.get t) = .ok (n, nc) ∧ backValue env (h.get t) n p c nc = .ok FM)

theorem powerUpdate_shapeLe {nd : Node} {s f m F M : Gaussian} (h : nd.powerUpdate env s f m = .ok (F, M)) : ShapeLe env m M := by
  obtain ⟨_, _, _, _, _, -, -, -, -, -, -, -, h5, -⟩ := powerUpdate_ok h
  exact mul_shapeLe h5

/-- What a call bound to its own node can do. -/
theorem call_form {γ : ℝ} (h0 : γ ≠ 0) (k : Upd) (r : Ref) (h : Heap) (ht : Upd.target h (k, r) = some r) (hreg : (h.get r).Regular)
    (hγ : (h.get r).damping = some γ) :
    (Upd.call env (k, r) h).2 = h ∨ ∃ F M, (Upd.call env (k, r) h).2 = h.update r (k.set F M) ∧ ShapeLe env (h.get r).marginal M ∧
      (F = k.factor (h.get r) → ShapeLe env M (h.get r).marginal → M = (h.get r).marginal) := by
  obtain ⟨rm, rf, rg, rb⟩ := hreg
  cases k with
  | fwd =>
    simp only [Upd.target, Option.map_eq_some_iff, Prod.exists, exists_and_right, exists_eq_right] at ht
    obtain ⟨p, hp'⟩ := ht
    simp only [Upd.call, fwdCall, PyM.get_bind, hp', fwdUpdateBody_eq]
    cases hc : fwdCavity env h (h.get r) with
    | error e => exact .inl rfl
    | ok c =>
      simp only
      cases hg : fwdGuarded env (h.get r) p c with
      | error e => cases e <;> exact .inl rfl
      | ok FM =>
        obtain ⟨F, M⟩ := FM
        obtain ⟨_, _, _, _, _, _, _, -, -, -, -, -, -, -, -, -, -, h6, -⟩ := fwdGuarded_ok hg
        refine .inr ⟨F, M, rfl, mul_shapeLe h6, ?_⟩
        rintro rfl hle
        exact (fwd_fix rf rm hγ h0 hg hle).1
  | meas =>
    simp only [Upd.target, Option.map_eq_some_iff, Prod.exists, exists_and_right, exists_eq_right] at ht
    obtain ⟨p, hp'⟩ := ht
    simp only [Upd.call, measCall, PyM.get_bind, hp', measUpdateBody_eq]
    cases hc : (h.get r).marginal.truediv env (h.get r).measFactor with
    | error e => exact .inl rfl
    | ok c =>
      simp only
      cases hg : measValue env (h.get r) p c with
      | error e => cases e <;> exact .inl rfl
      | ok FM =>
        obtain ⟨F, M⟩ := FM
        obtain ⟨y, s, _, _, _, hu⟩ := measValue_ok hg
        refine .inr ⟨F, M, rfl, powerUpdate_shapeLe hu, ?_⟩
        rintro rfl hle
        exact (power_fix rg rm hγ h0 hu hle).1
  | back =>
    simp only [Upd.target, Option.map_eq_some_iff, Prod.exists, exists_and_right, exists_eq_right] at ht
    obtain ⟨p, hp'⟩ := ht
    simp only [Upd.call, backCall, PyM.get_bind, hp', backUpdateBody_eq]
    cases hc : (h.get r).marginal.truediv env (h.get r).backFactor with
    | error e => exact .inl rfl
    | ok c =>
      simp only
      cases hn : nextFwdCavity env h (h.get r) with
      | error e => cases e <;> exact .inl rfl
      | ok x =>
        obtain ⟨next, nc⟩ := x
        simp only
        cases hg : backValue env (h.get r) next p c nc with
        | error e => cases e <;> exact .inl rfl
        | ok FM =>
          obtain ⟨F, M⟩ := FM
          obtain ⟨s, _, _, hu⟩ := backValue_ok hg
          refine .inr ⟨F, M, rfl, powerUpdate_shapeLe hu, ?_⟩
          rintro rfl hle
          exact (power_fix rb rm hγ h0 hu hle).1

/-- Marginals are stretched, never shrunk. -/
theorem call_shapeLe (c : Upd × Ref) (h : Heap) (q : Ref) : ShapeLe env (h.get q).marginal (((Upd.call env c h).2).get q).marginal := by
  obtain ⟨-, hloc, -⟩ := call_local (env := env) c h
  by_cases ht : Upd.target h c = some q
  · obtain ⟨k, r⟩ := c
    cases k with
    | fwd =>
      simp only [Upd.target, Option.map_eq_some_iff, Prod.exists, exists_and_right, exists_eq_right] at ht
      obtain ⟨p, hp'⟩ := ht
      simp only [Upd.call, fwdCall, PyM.get_bind, hp', fwdUpdateBody_eq]
      cases fwdCavity env h (h.get q) with
      | error e => exact .refl _
      | ok c =>
        simp only
        cases hg : fwdGuarded env (h.get q) p c with
        | error e => cases e <;> exact .refl _
        | ok FM =>
          simp only [Heap.update_get_same]
          obtain ⟨_, _, _, _, _, _, _, -, -, -, -, -, -, -, -, -, -, h6, -⟩ := fwdGuarded_ok (F := FM.1) (M := FM.2) hg
          exact mul_shapeLe h6
    | meas =>
      simp only [Upd.target, Option.map_eq_some_iff, Prod.exists, exists_and_right, exists_eq_right] at ht
      obtain ⟨p, hp'⟩ := ht
      simp only [Upd.call, measCall, PyM.get_bind, hp', measUpdateBody_eq]
      cases (h.get q).marginal.truediv env (h.get q).measFactor with
      | error e => exact .refl _
      | ok c =>
        simp only
        cases hg : measValue env (h.get q) p c with
        | error e => cases e <;> exact .refl _
        | ok FM =>
          simp only [Heap.update_get_same]
          obtain ⟨_, _, _, _, _, hu⟩ := measValue_ok hg
          exact powerUpdate_shapeLe hu
    | back =>
      simp only [Upd.target, Option.map_eq_some_iff, Prod.exists, exists_and_right, exists_eq_right] at ht
      obtain ⟨p, hp'⟩ := ht
      simp only [Upd.call, backCall, PyM.get_bind, hp', backUpdateBody_eq]
      cases (h.get q).marginal.truediv env (h.get q).backFactor with
      | error e => exact .refl _
      | ok c =>
        simp only
        cases nextFwdCavity env h (h.get q) with
        | error e => cases e <;> exact .refl _
        | ok x =>
          obtain ⟨next, nc⟩ := x
          simp only
          cases hg : backValue env (h.get q) next p c nc with
          | error e => cases e <;> exact .refl _
          | ok FM =>
            simp only [Heap.update_get_same]
            obtain ⟨_, _, _, hu⟩ := backValue_ok hg
            exact powerUpdate_shapeLe hu
  · rw [hloc q ht]; exact .refl _

theorem afterCalls_shapeLe (calls : List (Upd × Ref)) (h : Heap) (q : Ref) :
    ShapeLe env (h.get q).marginal ((afterCalls env calls h).get q).marginal := by
  induction calls generalizing h with
  | nil => exact .refl _
  | cons c cs ih => exact (call_shapeLe c h q).trans (ih _)

theorem target_call (c c' : Upd × Ref) (h : Heap) : Upd.target (Upd.call env c h).2 c' = Upd.target h c' := by
  obtain ⟨-, -, h3, -⟩ := C35_update_is_local (env := env) c h (Upd.call env c h).2 (Upd.call env c h).1 rfl
  obtain ⟨k, r⟩ := c'
  cases k <;> simp only [Upd.target] <;> rw [h3 r]

/-- A factor is only written by its own call. -/
theorem call_factor {c : Upd × Ref} {h : Heap} (ht : Upd.target h c = some c.2) {k : Upd} {q : Ref} (hne : c ≠ (k, q)) :
    k.factor (((Upd.call env c h).2).get q) = k.factor (h.get q) := by
  obtain ⟨-, h2, h3⟩ := call_local (env := env) c h
  by_cases hq : c.2 = q
  · have hk : c.1 ≠ k := fun e => hne (by rw [← e, ← hq])
    have := h3 q
    obtain ⟨k', r⟩ := c
    cases k' <;> cases k <;> first | exact absurd rfl hk | (simp only [Upd.factor]; rw [this])
  · rw [h2 q (by rw [ht]; exact fun e => hq (Option.some.inj e))]

theorem afterCalls_factor {calls : List (Upd × Ref)} {h : Heap} (ht : ∀ c ∈ calls, Upd.target h c = some c.2) {k : Upd} {q : Ref}
    (hne : (k, q) ∉ calls) : k.factor ((afterCalls env calls h).get q) = k.factor (h.get q) := by
  induction calls generalizing h with
  | nil => rfl
  | cons c cs ih =>
    simp only [List.mem_cons, not_or] at hne
    have h1 : k.factor (((Upd.call env c h).2).get q) = k.factor (h.get q) := call_factor (ht c (by simp)) (Ne.symm hne.1)
    rw [← h1]
    exact ih (fun c' hc' => by rw [target_call]; exact ht c' (by simp [hc'])) hne.2

@[simp] theorem Upd.factor_set (k : Upd) (F M : Gaussian) (n : Node) : k.factor (k.set F M n) = F := by cases k <;> rfl
@[simp] theorem Upd.marginal_set (k : Upd) (F M : Gaussian) (n : Node) : (k.set F M n).marginal = M := by cases k <;> rfl
theorem Upd.set_same (k : Upd) (n : Node) : k.set (k.factor n) n.marginal n = n := by cases k <;> rfl

/-- **C102.** A pass, in whatever order and over whichever updates, each called at most once, that ends where it began: not one of its
updates moved anything. -/
theorem C102_pass {γ : ℝ} (h0 : γ ≠ 0) (calls : List (Upd × Ref)) (h : Heap) (hnd : calls.Nodup)
    (ht : ∀ c ∈ calls, Upd.target h c = some c.2) (hreg : ∀ c ∈ calls, (h.get c.2).Regular)
    (hγ : ∀ c ∈ calls, (h.get c.2).damping = some γ) (hfix : afterCalls env calls h = h) :
    ∀ c ∈ calls, (Upd.call env c h).2 = h := by
  induction calls with
  | nil => simp
  | cons c cs ih =>
    obtain ⟨k, r⟩ := c
    rw [List.nodup_cons] at hnd
    have step : afterCalls env cs (Upd.call env (k, r) h).2 = h := hfix
    have h1 : (Upd.call env (k, r) h).2 = h := by
      rcases call_form (env := env) h0 k r h (ht (k, r) (by simp)) (hreg (k, r) (by simp)) (hγ (k, r) (by simp)) with e | ⟨F, M, e, -, hfM⟩
      · exact e
      · have hF : F = k.factor (h.get r) := by
          have := afterCalls_factor (env := env) (calls := cs) (h := (Upd.call env (k, r) h).2)
            (fun c' hc' => by rw [target_call]; exact ht c' (by simp [hc'])) hnd.1
          rw [step, e, Heap.update_get_same, Upd.factor_set] at this
          exact this.symm
        have hM := hfM hF (by
          have := afterCalls_shapeLe (env := env) cs (Upd.call env (k, r) h).2 r
          rwa [step, e, Heap.update_get_same, Upd.marginal_set] at this)
        rw [e, hF, hM]
        exact Heap.update_id _ _ _ (Upd.set_same _ _)
    intro c hc
    rcases List.mem_cons.1 hc with rfl | hc
    · exact h1
    · rw [h1] at step
      exact ih hnd.2 (fun c' hc' => ht c' (by simp [hc'])) (fun c' hc' => hreg c' (by simp [hc'])) (fun c' hc' => hγ c' (by simp [hc']))
        step c hc

/-- **C102.** Then every schedule of these updates, in any order and with any repetitions, leaves the graph as it is. -/
theorem C102_any_schedule (calls : List (Upd × Ref)) (h : Heap) (hfix : ∀ c ∈ calls, (Upd.call env c h).2 = h) (l : List (Upd × Ref))
    (hl : ∀ c ∈ l, c ∈ calls) : afterCalls env l h = h := by
  induction l with
  | nil => rfl
  | cons c cs ih =>
    show afterCalls env cs (Upd.call env c h).2 = h
    rw [hfix c (hl c (by simp))]
    exact ih fun c' hc' => hl c' (by simp [hc'])

theorem damp_get (γ : ℝ) (h : Heap) (r : Ref) : (h.withDamping γ).get r = { h.get r with damping := some γ } := rfl

theorem fwdCavity_damp (γ : ℝ) (h : Heap) (r : Ref) : fwdCavity env (h.withDamping γ) ((h.withDamping γ).get r) = fwdCavity env h (h.get r) := rfl

theorem nextFwdCavity_damp (γ : ℝ) (h : Heap) (r : Ref) {n : Node} {nc : Gaussian} (e : nextFwdCavity env h (h.get r) = .ok (n, nc)) :
    nextFwdCavity env (h.withDamping γ) ((h.withDamping γ).get r) = .ok ({ n with damping := some γ }, nc) := by
  unfold nextFwdCavity at e ⊢
  obtain ⟨x, h1, e⟩ := py_bind_ok e
  obtain ⟨a, h2, e⟩ := py_bind_ok e
  obtain ⟨i, h3, e⟩ := py_bind_ok e
  obtain ⟨b, h4, e⟩ := py_bind_ok e
  obtain ⟨d, h5, e⟩ := py_bind_ok e
  simp only [py_pure, Except.ok.injEq, Prod.mk.injEq] at e
  obtain ⟨rfl, rfl⟩ := e
  simp only [damp_get, h1, h2, h3, h4, h5, ok_bind, py_pure]

/-- The three kinds of updates at a fixed point. -/
theorem fixed_call {γ : ℝ} (h0 : γ ≠ 0) (k : Upd) (r : Ref) (h : Heap) (ht : Upd.target h (k, r) = some r) (hreg : (h.get r).Regular)
    (hγ : (h.get r).damping = some γ) (hacc : Accepts env h (k, r)) (hfix : (Upd.call env (k, r) h).2 = h) (γ' : ℝ) :
    Upd.call env (k, r) (h.withDamping γ') = (.ok (), h.withDamping γ') := by
  obtain ⟨rm, rf, rg, rb⟩ := hreg
  have upd : ∀ F M, h.update r (k.set F M) = h → F = k.factor (h.get r) ∧ M = (h.get r).marginal := by
    intro F M e
    have := congrArg (fun h => h.get r) e
    simp only [Heap.update_get_same] at this
    exact ⟨by rw [← this, Upd.factor_set], by rw [← this, Upd.marginal_set]⟩
  cases k with
  | fwd =>
    obtain ⟨t, p, c, ⟨F, M⟩, hb, hc, hg⟩ := hacc
    obtain rfl : t = r := by simpa [Upd.target, hb] using ht
    simp only [Upd.call, fwdCall, PyM.get_bind, hb, fwdUpdateBody_eq, hc, hg] at hfix
    obtain ⟨rfl, rfl⟩ := upd F M hfix
    have hv : fwdGuarded env ((h.withDamping γ').get t) p c = .ok ((h.get t).fwdFactor, (h.get t).marginal) :=
      (fwd_fix rf rm hγ h0 hg (.refl _)).2.2 γ'
    have hb' : ((h.withDamping γ').get t).fwdUpdate = some (t, p) := hb
    simp only [Upd.call, fwdCall, PyM.get_bind, hb', fwdUpdateBody_eq, fwdCavity_damp, hc, hv]
    rw [Heap.update_id _ _ _ rfl]
  | meas =>
    obtain ⟨t, p, c, ⟨F, M⟩, hb, hc, hg⟩ := hacc
    obtain rfl : t = r := by simpa [Upd.target, hb] using ht
    simp only [Upd.call, measCall, PyM.get_bind, hb, measUpdateBody_eq, hc, hg] at hfix
    obtain ⟨rfl, rfl⟩ := upd F M hfix
    obtain ⟨y, s, h1, h2, h3, hu⟩ := measValue_ok hg
    have hv : measValue env ((h.withDamping γ').get t) p c = .ok ((h.get t).measFactor, (h.get t).marginal) := by
      have h1' : ((h.withDamping γ').get t).meas = some y := h1
      have h2' : p ((h.withDamping γ').get t).measFunc c y = .ok s := h2
      unfold measValue
      simp only [h1', h2', h3, attr, ok_bind]
      exact (power_fix rg rm hγ h0 hu (.refl _)).2.2 γ' ((h.withDamping γ').get t) rfl rfl
    have hb' : ((h.withDamping γ').get t).measUpdate = some (t, p) := hb
    have hc' : ((h.withDamping γ').get t).marginal.truediv env ((h.withDamping γ').get t).measFactor = .ok c := hc
    simp only [Upd.call, measCall, PyM.get_bind, hb', measUpdateBody_eq, hc', hv]
    rw [Heap.update_id _ _ _ rfl]
  | back =>
    obtain ⟨t, p, c, hb, hc, hn⟩ := hacc
    obtain rfl : t = r := by simpa [Upd.target, hb] using ht
    have hb' : ((h.withDamping γ').get t).backUpdate = some (t, p) := hb
    have hc' : ((h.withDamping γ').get t).marginal.truediv env ((h.withDamping γ').get t).backFactor = .ok c := hc
    rcases hn with hn | ⟨n, nc, ⟨F, M⟩, hn, hg⟩
    · have hn' : ((h.withDamping γ').get t).next = none := hn
      simp only [Upd.call, backCall, PyM.get_bind, hb', backUpdateBody_eq, hc', nextFwdCavity, hn', attr]
      rfl
    · simp only [Upd.call, backCall, PyM.get_bind, hb, backUpdateBody_eq, hc, hn, hg] at hfix
      obtain ⟨rfl, rfl⟩ := upd F M hfix
      obtain ⟨s, h2, h3, hu⟩ := backValue_ok hg
      have hv : backValue env ((h.withDamping γ').get t) { n with damping := some γ' } p c nc =
          .ok ((h.get t).backFactor, (h.get t).marginal) := by
        unfold backValue
        simp only [h2, h3, ok_bind]
        exact (power_fix rb rm hγ h0 hu (.refl _)).2.2 γ' ((h.withDamping γ').get t) rfl rfl
      simp only [Upd.call, backCall, PyM.get_bind, hb', backUpdateBody_eq, hc', nextFwdCavity_damp γ' h t hn, hv]
      rw [Heap.update_id _ _ _ rfl]

/-- **C102.** Damping changes the path, not the points where it stops: a graph that one pass with damping `γ` leaves as it is, all updates
being accepted, is left as it is by every schedule of these updates with every other damping factor. -/
theorem C102_damping {γ : ℝ} (h0 : γ ≠ 0) (calls : List (Upd × Ref)) (h : Heap) (hnd : calls.Nodup)
    (ht : ∀ c ∈ calls, Upd.target h c = some c.2) (hreg : ∀ c ∈ calls, (h.get c.2).Regular)
    (hγ : ∀ c ∈ calls, (h.get c.2).damping = some γ) (hacc : ∀ c ∈ calls, Accepts env h c) (hfix : afterCalls env calls h = h)
    (γ' : ℝ) (l : List (Upd × Ref)) (hl : ∀ c ∈ l, c ∈ calls) :
    Executes env l (h.withDamping γ') (.ok ()) (h.withDamping γ') := by
  have h1 := C102_pass h0 calls h hnd ht hreg hγ hfix
  induction l with
  | nil => exact .done _
  | cons c cs ih =>
    have hc := hl c (by simp)
    exact .step (fixed_call h0 c.1 c.2 h (ht c hc) (hreg c hc) (hγ c hc) (hacc c hc) (h1 c hc) γ') (ih fun c' hc' => hl c' (by simp [hc']))

/-- **C102.** Where a measurement update stops, the state its projection returns is the marginal. -/
theorem C102_meas_agrees {γ : ℝ} (h0 : γ ≠ 0) (r : Ref) (h : Heap) (ht : Upd.target h (.meas, r) = some r) (hreg : (h.get r).Regular)
    (hγ : (h.get r).damping = some γ) (hacc : Accepts env h (.meas, r)) (hfix : (Upd.call env (.meas, r) h).2 = h) :
    ∃ p y c s Ps hs Pm hm, (h.get r).measUpdate = some (r, p) ∧ (h.get r).meas = some y ∧
      (h.get r).marginal.truediv env (h.get r).measFactor = .ok c ∧ p (h.get r).measFunc c y = .ok s ∧ Nats env s Ps hs ∧
      Nats env (h.get r).marginal Pm hm ∧ (∀ i j, (Ps.bget i j + Ps.bget j i) / 2 = Pm.bget i j) ∧ ∀ i j, hs.bget i j = hm.bget i j := by
  obtain ⟨t, p, c, ⟨F, M⟩, hb, hc, hg⟩ := hacc
  obtain rfl : t = r := by simpa [Upd.target, hb] using ht
  simp only [Upd.call, measCall, PyM.get_bind, hb, measUpdateBody_eq, hc, hg] at hfix
  have := congrArg (fun h => h.get t) hfix
  simp only [Heap.update_get_same] at this
  obtain rfl : F = (h.get t).measFactor := by rw [← this]; rfl
  obtain rfl : M = (h.get t).marginal := by rw [← this]; rfl
  obtain ⟨y, s, h1, h2, h3, hu⟩ := measValue_ok hg
  obtain ⟨-, ⟨Ps, hs, Pm, hm, q⟩, -⟩ := power_fix hreg.2.2.1 hreg.1 hγ h0 hu (.refl _)
  exact ⟨p, y, c, s, Ps, hs, Pm, hm, hb, h1, hc, h2, q⟩

/-- **C102.** Where a backward update stops, the state its projection returns is the marginal. -/
theorem C102_back_agrees {γ : ℝ} (h0 : γ ≠ 0) (r x : Ref) (h : Heap) (ht : Upd.target h (.back, r) = some r) (hreg : (h.get r).Regular)
    (hγ : (h.get r).damping = some γ) (hx : (h.get r).next = some x) (hacc : Accepts env h (.back, r))
    (hfix : (Upd.call env (.back, r) h).2 = h) :
    ∃ p c nc s Ps hs Pm hm, (h.get r).backUpdate = some (r, p) ∧ (h.get r).marginal.truediv env (h.get r).backFactor = .ok c ∧
      nextFwdCavity env h (h.get r) = .ok (h.get x, nc) ∧ p (h.get x).transFunc c nc (some (h.get x).marginal) = .ok s ∧ Nats env s Ps hs ∧
      Nats env (h.get r).marginal Pm hm ∧ (∀ i j, (Ps.bget i j + Ps.bget j i) / 2 = Pm.bget i j) ∧ ∀ i j, hs.bget i j = hm.bget i j := by
  obtain ⟨t, p, c, hb, hc, hn⟩ := hacc
  obtain rfl : t = r := by simpa [Upd.target, hb] using ht
  rcases hn with hn | ⟨n, nc, ⟨F, M⟩, hn, hg⟩
  · rw [hx] at hn; cases hn
  · simp only [Upd.call, backCall, PyM.get_bind, hb, backUpdateBody_eq, hc, hn, hg] at hfix
    have := congrArg (fun h => h.get t) hfix
    simp only [Heap.update_get_same] at this
    obtain rfl : F = (h.get t).backFactor := by rw [← this]; rfl
    obtain rfl : M = (h.get t).marginal := by rw [← this]; rfl
    obtain rfl : n = h.get x := by
      unfold nextFwdCavity at hn
      obtain ⟨x', h1, hn⟩ := py_bind_ok hn
      obtain ⟨_, _, hn⟩ := py_bind_ok hn
      obtain ⟨_, _, hn⟩ := py_bind_ok hn
      obtain ⟨_, _, hn⟩ := py_bind_ok hn
      obtain ⟨_, _, hn⟩ := py_bind_ok hn
      simp only [py_pure, Except.ok.injEq, Prod.mk.injEq] at hn
      have h2 := attr_ok h1
      rw [hx] at h2
      rw [← hn.1, Option.some.inj h2]
    obtain ⟨s, h2, h3, hu⟩ := backValue_ok hg
    obtain ⟨-, ⟨Ps, hs, Pm, hm, q⟩, -⟩ := power_fix hreg.2.2.2 hreg.1 hγ h0 hu (.refl _)
    exact ⟨p, c, nc, s, Ps, hs, Pm, hm, hb, hc, hn, h2, q⟩

/-- **C102.** Where a forward update stops, the predicted state is the forward factor. -/
theorem C102_fwd_agrees {γ : ℝ} (h0 : γ ≠ 0) (r : Ref) (h : Heap) (ht : Upd.target h (.fwd, r) = some r) (hreg : (h.get r).Regular)
    (hγ : (h.get r).damping = some γ) (hacc : Accepts env h (.fwd, r)) (hfix : (Upd.call env (.fwd, r) h).2 = h) :
    ∃ p c s Ps hs Pf hf, (h.get r).fwdUpdate = some (r, p) ∧ fwdCavity env h (h.get r) = .ok c ∧ p (h.get r).transFunc c = .ok s ∧
      Nats env s Ps hs ∧ Nats env (h.get r).fwdFactor Pf hf ∧ (∀ i j, (Ps.bget i j + Ps.bget j i) / 2 = Pf.bget i j) ∧
      ∀ i j, hs.bget i j = hf.bget i j := by
  obtain ⟨t, p, c, ⟨F, M⟩, hb, hc, hg⟩ := hacc
  obtain rfl : t = r := by simpa [Upd.target, hb] using ht
  simp only [Upd.call, fwdCall, PyM.get_bind, hb, fwdUpdateBody_eq, hc, hg] at hfix
  have := congrArg (fun h => h.get t) hfix
  simp only [Heap.update_get_same] at this
  obtain rfl : F = (h.get t).fwdFactor := by rw [← this]; rfl
  obtain rfl : M = (h.get t).marginal := by rw [← this]; rfl
  obtain ⟨-, ⟨s, Ps, hs, Pf, hf, q⟩, -⟩ := fwd_fix hreg.2.1 hreg.1 hγ h0 hg (.refl _)
  exact ⟨p, c, s, Ps, hs, Pf, hf, hb, hc, q⟩

/-- **C102.** Conversely: where the projection returns the marginal, a measurement update is accepted and moves nothing. -/
theorem C102_meas_converse {n : ℕ} {Pf Pm : Matrix (Fin n) (Fin n) ℝ} {kf km : Fin n → ℝ} {γ α : ℝ} {p : ProjMeas} {y : Arr} {s : Gaussian}
    (r : Ref) (h : Heap) (hb : (h.get r).measUpdate = some (r, p)) (em : (h.get r).marginal = ofNatural (.m Pm) (.v km))
    (ef : (h.get r).measFactor = ofNatural (.m Pf) (.v kf)) (sf : Pfᵀ = Pf) (hpd : Pm.PosDef) (htr : 1 / 10 ^ 10 ≤ Pm.trace)
    (hill : env.illPos Pm = false) (hγ : (h.get r).damping = some γ) (hα : (h.get r).power = some α) (hα0 : α ≠ 0)
    (hy : (h.get r).meas = some y) (hs : p (h.get r).measFunc (ofNatural (.m (Pm - Pf)) (.v (km - kf))) y = .ok s)
    (ns : HasNatural env s Pm km) (hv : validateCovariance env s = .ok ()) :
    Upd.call env (.meas, r) h = (.ok (), h) ∧ Accepts env h (.meas, r) := by
  have nm : HasNatural env (h.get r).marginal Pm km := by rw [em]; exact hasNatural_ofNatural _ _ _
  have nf : HasNatural env (h.get r).measFactor Pf kf := by rw [ef]; exact hasNatural_ofNatural _ _ _
  have sm : Pmᵀ = Pm := by have := hpd.1; rwa [IsHermitian, conjTranspose_eq_transpose_of_trivial] at this
  have z : Pm + (γ / α) • (Pm - Pm) = Pm := by simp
  have hu := powerUpdate_natural (env := env) (nd := h.get r) ns nf nm sm sf sm hγ hα hα0 (by rw [z]; exact hpd) (by rw [z]; exact htr)
    (by rw [z]; exact hill)
  simp only [sub_self, smul_zero, add_zero] at hu
  rw [← em, ← ef] at hu
  have hc := truediv_natural nm nf
  have hg : measValue env (h.get r) p (ofNatural (.m (Pm - Pf)) (.v (km - kf))) = .ok ((h.get r).measFactor, (h.get r).marginal) := by
    unfold measValue
    simp only [hy, attr, ok_bind, hs, hv, hu]
  refine ⟨?_, r, p, _, _, hb, hc, hg⟩
  simp only [Upd.call, measCall, PyM.get_bind, hb, measUpdateBody_eq, hc, hg]
  rw [Heap.update_id _ _ _ rfl]

/-- **C102.** Conversely for a backward update. -/
theorem C102_back_converse {n : ℕ} {Pf Pm Pn Pg : Matrix (Fin n) (Fin n) ℝ} {kf km kn kg : Fin n → ℝ} {γ α : ℝ} {p : ProjBack} {s : Gaussian}
    (r x : Ref) (h : Heap) (hb : (h.get r).backUpdate = some (r, p)) (em : (h.get r).marginal = ofNatural (.m Pm) (.v km))
    (ef : (h.get r).backFactor = ofNatural (.m Pf) (.v kf)) (hx : (h.get r).next = some x)
    (nn : HasNatural env (h.get x).marginal Pn kn) (ng : HasNatural env (h.get x).fwdFactor Pg kg)
    (sf : Pfᵀ = Pf) (hpd : Pm.PosDef) (htr : 1 / 10 ^ 10 ≤ Pm.trace)
    (hill : env.illPos Pm = false) (hγ : (h.get r).damping = some γ) (hα : (h.get r).power = some α) (hα0 : α ≠ 0)
    (hs : p (h.get x).transFunc (ofNatural (.m (Pm - Pf)) (.v (km - kf)))
      (ofNatural (.m (Pn - (1 / α) • Pg)) (.v (kn - (1 / α) • kg))) (some (h.get x).marginal) = .ok s)
    (ns : HasNatural env s Pm km) (hv : validateCovariance env s = .ok ()) :
    Upd.call env (.back, r) h = (.ok (), h) ∧ Accepts env h (.back, r) := by
  have nm : HasNatural env (h.get r).marginal Pm km := by rw [em]; exact hasNatural_ofNatural _ _ _
  have nf : HasNatural env (h.get r).backFactor Pf kf := by rw [ef]; exact hasNatural_ofNatural _ _ _
  have sm : Pmᵀ = Pm := by have := hpd.1; rwa [IsHermitian, conjTranspose_eq_transpose_of_trivial] at this
  have z : Pm + (γ / α) • (Pm - Pm) = Pm := by simp
  have hu := powerUpdate_natural (env := env) (nd := h.get r) ns nf nm sm sf sm hγ hα hα0 (by rw [z]; exact hpd) (by rw [z]; exact htr)
    (by rw [z]; exact hill)
  simp only [sub_self, smul_zero, add_zero] at hu
  rw [← em, ← ef] at hu
  have hc := truediv_natural nm nf
  have hn : nextFwdCavity env h (h.get r) = .ok (h.get x, ofNatural (.m (Pn - (1 / α) • Pg)) (.v (kn - (1 / α) • kg))) := by
    unfold nextFwdCavity
    simp only [hx, hα, attr, ok_bind, pyDiv, hα0, if_false, pow_natural ng]
    rw [truediv_natural nn (hasNatural_ofNatural _ _ _)]
    rfl
  have hg : backValue env (h.get r) (h.get x) p (ofNatural (.m (Pm - Pf)) (.v (km - kf)))
      (ofNatural (.m (Pn - (1 / α) • Pg)) (.v (kn - (1 / α) • kg))) = .ok ((h.get r).backFactor, (h.get r).marginal) := by
    unfold backValue
    simp only [ok_bind, hs, hv, hu]
  refine ⟨?_, r, p, _, hb, hc, .inr ⟨_, _, _, hn, hg⟩⟩
  simp only [Upd.call, backCall, PyM.get_bind, hb, backUpdateBody_eq, hc, hn, hg]
  rw [Heap.update_id _ _ _ rfl]

/-- **C102.** Conversely for a forward update: the prediction is the forward factor. -/
theorem C102_fwd_converse {n : ℕ} {Pf Pm : Matrix (Fin n) (Fin n) ℝ} {kf km : Fin n → ℝ} {γ α : ℝ} {p : ProjTrans} {c s : Gaussian}
    (r : Ref) (h : Heap) (hb : (h.get r).fwdUpdate = some (r, p)) (em : (h.get r).marginal = ofNatural (.m Pm) (.v km))
    (ef : (h.get r).fwdFactor = ofNatural (.m Pf) (.v kf)) (sf : Pfᵀ = Pf) (hpd : Pm.PosDef) (htr : 1 / 10 ^ 10 ≤ Pm.trace)
    (hill : env.illPos Pm = false) (hγ : (h.get r).damping = some γ) (hα : (h.get r).power = some α) (hα0 : α ≠ 0)
    (hc : fwdCavity env h (h.get r) = .ok c) (hs : p (h.get r).transFunc c = .ok s)
    (ns : HasNatural env s Pf kf) (hv : validateCovariance env s = .ok ()) :
    Upd.call env (.fwd, r) h = (.ok (), h) ∧ Accepts env h (.fwd, r) := by
  have nm : HasNatural env (h.get r).marginal Pm km := by rw [em]; exact hasNatural_ofNatural _ _ _
  have nf : HasNatural env (h.get r).fwdFactor Pf kf := by rw [ef]; exact hasNatural_ofNatural _ _ _
  have sm : Pmᵀ = Pm := by have := hpd.1; rwa [IsHermitian, conjTranspose_eq_transpose_of_trivial] at this
  have e1 : (1 - γ) • Pf + γ • Pf = Pf := by rw [← add_smul]; simp
  have e2 : (1 - γ) • kf + γ • kf = kf := by rw [← add_smul]; simp
  have hvm : validateCovariance env (h.get r).marginal = .ok () := by
    rw [em]
    simp only [validateCovariance, (moment_of_natural (env := env) km hpd htr hill).2, ok_bind, npCholesky_posDef hpd.inv]
  have hg : fwdGuarded env (h.get r) p c = .ok ((h.get r).fwdFactor, (h.get r).marginal) := by
    unfold fwdGuarded
    simp only [hs, hv, hγ, hα, attr, ok_bind, pow_natural nf, pow_natural ns, pyDiv, hα0, if_false]
    rw [mul_natural (hasNatural_ofNatural _ _ _) (hasNatural_ofNatural _ _ _) (by rw [transpose_smul, sf]) (by rw [transpose_smul, sf]),
      e1, e2, ← ef]
    simp only [ok_bind, truediv_natural nf nf, sub_self, pow_natural (hasNatural_ofNatural env _ _), smul_zero]
    rw [mul_natural nm (hasNatural_ofNatural _ _ _) sm (by simp), add_zero, add_zero, ← em]
    simp only [ok_bind, hvm, py_pure]
  refine ⟨?_, r, p, _, _, hb, hc, hg⟩
  simp only [Upd.call, fwdCall, PyM.get_bind, hb, fwdUpdateBody_eq, hc, hg]
  rw [Heap.update_id _ _ _ rfl]

theorem executes_afterCalls {l : List (Upd × Ref)} {h h' : Heap} {x : Py Unit} (e : Executes env l h x h') (hx : x = .ok ()) :
    afterCalls env l h = h' := by
  induction e with
  | done => rfl
  | step hc _ ih => rw [← ih hx]; simp [afterCalls, hc]
  | stop => cases hx

theorem passCalls_mem {nodes : List Ref} {c : Upd × Ref}
    (hc : c ∈ nodes.flatMap (fun r => [(Upd.fwd, r), (Upd.meas, r)]) ++ nodes.reverse.map fun r => (Upd.back, r)) : c.2 ∈ nodes := by
  simp only [List.mem_append, List.mem_flatMap, List.mem_cons, List.not_mem_nil, or_false, List.mem_map, List.mem_reverse] at hc
  rcases hc with ⟨r, hr, rfl | rfl⟩ | ⟨r, hr, rfl⟩ <;> exact hr

theorem mem_passCalls {nodes : List Ref} {r : Ref} (hr : r ∈ nodes) (k : Upd) :
    (k, r) ∈ nodes.flatMap (fun r => [(Upd.fwd, r), (Upd.meas, r)]) ++ nodes.reverse.map fun r => (Upd.back, r) := by
  cases k <;> simp [hr]

theorem passCalls_nodup {nodes : List Ref} (hn : nodes.Nodup) :
    (nodes.flatMap (fun r => [(Upd.fwd, r), (Upd.meas, r)]) ++ nodes.reverse.map fun r => (Upd.back, r)).Nodup := by
  rw [List.nodup_append]
  refine ⟨?_, ?_, ?_⟩
  · rw [List.nodup_flatMap]
    refine ⟨fun r _ => by simp, hn.imp fun {a b} hab => ?_⟩
    intro c h1 h2
    simp only [List.mem_cons, List.not_mem_nil, or_false] at h1 h2
    rcases h1 with rfl | rfl <;> rcases h2 with h2 | h2 <;> simp_all
  · exact (List.nodup_reverse.2 hn).map fun a b e => by simpa using e
  · intro c h1 d h2
    simp only [List.mem_flatMap, List.mem_cons, List.not_mem_nil, or_false, List.mem_map, List.mem_reverse] at h1 h2
    obtain ⟨r, -, rfl | rfl⟩ := h1 <;> obtain ⟨r', -, rfl⟩ := h2 <;> simp

/-- **C102.** The same for the iterations a user calls: if one `ep_fwd_back_updates` leaves the graph as it was, all updates being accepted,
then so do `ep_fwd_back_updates`, `kalman_filter`, `kalman_smoother` and `ep_update`, with the damping factor used and with every other. -/
theorem C102_iteration {γ : ℝ} (h0 : γ ≠ 0) (nodes : List Ref) (h : Heap) (hn : nodes.Nodup)
    (ht : ∀ r ∈ nodes, ∀ k, Upd.target h (k, r) = some r) (hreg : ∀ r ∈ nodes, (h.get r).Regular)
    (hγ : ∀ r ∈ nodes, (h.get r).damping = some γ) (hacc : ∀ r ∈ nodes, ∀ k, Accepts env h (k, r))
    (hfix : epFwdBack env nodes h = (.ok (), h)) (γ' : ℝ) :
    epFwdBack env nodes (h.withDamping γ') = (.ok (), h.withDamping γ') ∧ epFilter env nodes (h.withDamping γ') = (.ok (), h.withDamping γ') ∧
    epSmoother env nodes (h.withDamping γ') = (.ok (), h.withDamping γ') ∧ epUpdate env nodes (h.withDamping γ') = (.ok (), h.withDamping γ') := by
  have e := C39_pass_order (env := env) nodes h
  rw [hfix] at e
  have key := C102_damping h0 _ h (passCalls_nodup hn) (fun c hc => ht _ (passCalls_mem hc) _) (fun c hc => hreg _ (passCalls_mem hc))
    (fun c hc => hγ _ (passCalls_mem hc)) (fun c hc => hacc _ (passCalls_mem hc) _) (executes_afterCalls e rfl) γ'
  have fin : ∀ {l : List (Upd × Ref)} {x : Py Unit × Heap}, Executes env l (h.withDamping γ') x.1 x.2 → (∀ c ∈ l, c.2 ∈ nodes) →
      x = (.ok (), h.withDamping γ') := by
    intro l x ex hl
    obtain ⟨a, b⟩ := executes_fun ex (key l fun c hc => mem_passCalls (hl c hc) c.1)
    exact Prod.ext a b
  obtain ⟨o1, o2, o3⟩ := C39_other_orders (env := env) nodes (h.withDamping γ')
  refine ⟨fin (C39_pass_order nodes _) fun c hc => passCalls_mem hc, fin o1 ?_, fin o2 ?_, fin o3 ?_⟩
  · intro c hc
    simp only [List.mem_flatMap, List.mem_cons, List.not_mem_nil, or_false] at hc
    rcases hc with ⟨r, hr, rfl | rfl⟩ <;> exact hr
  · intro c hc
    simp only [List.mem_flatMap, List.mem_cons, List.not_mem_nil, or_false, List.mem_reverse] at hc
    obtain ⟨r, hr, rfl⟩ := hc; exact hr
  · intro c hc
    simp only [List.mem_flatMap, List.mem_cons, List.not_mem_nil, or_false] at hc
    rcases hc with ⟨r, hr, rfl | rfl | rfl⟩ <;> exact hr

/-! A chain of two nodes at such a point: marginals of precision 3 and shift 5, forward factors of precision 2, neutral others. -/

/-- A node whose projections return what they should. -/
noncomputable def steadyNode (r : Ref) (γ : ℝ) : Node :=
  { Node.init 1 r with
    marginal := ofNatural (.m (m1 3)) (.v (v1 5)), fwdFactor := ofNatural (.m (m1 2)) (.v (v1 4))
    measFactor := ofNatural (.m (m1 0)) (.v (v1 0)), backFactor := ofNatural (.m (m1 0)) (.v (v1 0))
    power := some (1 / 2), damping := some γ, meas := some (.s 0), prior := some (ofNatural (.m (m1 1)) (.v (v1 0)))
    next := if r = 0 then some 1 else none
    fwdUpdate := some (r, fun _ _ => .ok (ofNatural (.m (m1 2)) (.v (v1 4))))
    measUpdate := some (r, fun _ _ _ => .ok (ofNatural (.m (m1 3)) (.v (v1 5))))
    backUpdate := some (r, fun _ _ _ _ => .ok (ofNatural (.m (m1 3)) (.v (v1 5)))) }

noncomputable def steadyHeap (γ : ℝ) : Heap := ⟨fun r => steadyNode r γ, 2⟩

theorem steady_natural (a b : ℝ) : (ofNatural (.m (m1 a)) (.v (v1 b))).Natural := by
  refine ⟨.m (m1 a), .v (v1 b), rfl, rfl, ⟨rfl, fun _ i j => ?_⟩, rfl, ⟨Nat.one_pos, Nat.one_pos⟩, ⟨Nat.one_pos, Nat.one_pos⟩⟩
  simp [Arr.bget, m1, Nat.mod_one]

theorem steady_valid {p : ℝ} (hp : 1 ≤ p) (k : ℝ) : validateCovariance calmEnv (ofNatural (.m (m1 p)) (.v (v1 k))) = .ok () := by
  have hpd : (m1 p).PosDef := m1_posDef.2 (by linarith)
  have := (moment_of_natural (env := calmEnv) (v1 k) hpd (by simp [TRACE_EPS]; nlinarith) rfl).2
  simp only [validateCovariance, this, ok_bind]
  exact npCholesky_posDef hpd.inv

theorem steady_call (r : Ref) (k : Upd) : Upd.call calmEnv (k, r) (steadyHeap (1 / 4)) = (.ok (), steadyHeap (1 / 4)) ∧
    Accepts calmEnv (steadyHeap (1 / 4)) (k, r) := by
  have hpd : (m1 3).PosDef := m1_posDef.2 (by norm_num)
  have htr : 1 / 10 ^ 10 ≤ (m1 3).trace := by simp; norm_num
  have t : ∀ a, (m1 a)ᵀ = m1 a := fun a => by ext i j; rfl
  cases k with
  | fwd =>
    exact C102_fwd_converse (γ := 1 / 4) (α := 1 / 2) (Pm := m1 3) (km := v1 5) (Pf := m1 2) (kf := v1 4) r _ rfl rfl rfl (t _) hpd htr rfl
      rfl rfl (by norm_num) (c := ofNatural (.m (m1 1)) (.v (v1 0))) rfl rfl (hasNatural_ofNatural _ _ _) (steady_valid (by norm_num) _)
  | meas =>
    exact C102_meas_converse (γ := 1 / 4) (α := 1 / 2) (Pm := m1 3) (km := v1 5) (Pf := m1 0) (kf := v1 0) r _ rfl rfl rfl (t _) hpd htr rfl
      rfl rfl (by norm_num) rfl rfl (hasNatural_ofNatural _ _ _) (steady_valid (by norm_num) _)
  | back =>
    by_cases hr : r = 0
    · exact C102_back_converse (γ := 1 / 4) (α := 1 / 2) (Pm := m1 3) (km := v1 5) (Pf := m1 0) (kf := v1 0) (Pn := m1 3) (kn := v1 5)
        (Pg := m1 2) (kg := v1 4) r 1 _ rfl rfl rfl (by simp [steadyHeap, steadyNode, hr]) (hasNatural_ofNatural _ _ _)
        (hasNatural_ofNatural _ _ _) (t _) hpd htr rfl rfl rfl (by norm_num) rfl (hasNatural_ofNatural _ _ _) (steady_valid (by norm_num) _)
    · have hn : ((steadyHeap (1 / 4)).get r).next = none := by simp [steadyHeap, steadyNode, hr]
      have hb : ((steadyHeap (1 / 4)).get r).backUpdate = some (r, fun _ _ _ _ => .ok (ofNatural (.m (m1 3)) (.v (v1 5)))) := rfl
      have hc : ((steadyHeap (1 / 4)).get r).marginal.truediv calmEnv ((steadyHeap (1 / 4)).get r).backFactor = .ok _ :=
        truediv_natural (hasNatural_ofNatural _ (m1 3) (v1 5)) (hasNatural_ofNatural _ (m1 0) (v1 0))
      refine ⟨?_, r, _, _, hb, hc, .inl hn⟩
      simp only [Upd.call, backCall, PyM.get_bind, hb, backUpdateBody_eq, hc, nextFwdCavity, hn, attr]
      rfl

theorem executes_still {l : List (Upd × Ref)} {h : Heap} (hl : ∀ c ∈ l, Upd.call env c h = (.ok (), h)) : Executes env l h (.ok ()) h := by
  induction l with
  | nil => exact .done _
  | cons c cs ih => exact .step (hl c (by simp)) (ih fun c hc => hl c (by simp [hc]))

-- a pass with damping 1/4 changes nothing, hence none with full steps does
example : epFwdBack calmEnv [0, 1] (steadyHeap (1 / 4)) = (.ok (), steadyHeap (1 / 4)) ∧
    epFwdBack calmEnv [0, 1] ((steadyHeap (1 / 4)).withDamping 1) = (.ok (), (steadyHeap (1 / 4)).withDamping 1) := by
  have h1 : epFwdBack calmEnv [0, 1] (steadyHeap (1 / 4)) = (.ok (), steadyHeap (1 / 4)) := by
    obtain ⟨a, b⟩ := executes_fun (C39_pass_order (env := calmEnv) [0, 1] (steadyHeap (1 / 4))) (executes_still fun c _ => (steady_call c.2 c.1).1)
    exact Prod.ext a b
  exact ⟨h1, (C102_iteration (γ := 1 / 4) (by norm_num) [0, 1] _ (by simp) (fun r _ k => by cases k <;> rfl)
    (fun r _ => ⟨steady_natural _ _, steady_natural _ _, steady_natural _ _, steady_natural _ _⟩) (fun r _ => rfl)
    (fun r _ k => (steady_call r k).2) h1 1).1⟩

-- and there the projection of the measurement update agrees with the marginal
example : ∃ p y c s Ps hs Pm hm, ((steadyHeap (1 / 4)).get 0).measUpdate = some (0, p) ∧ ((steadyHeap (1 / 4)).get 0).meas = some y ∧
    ((steadyHeap (1 / 4)).get 0).marginal.truediv calmEnv ((steadyHeap (1 / 4)).get 0).measFactor = .ok c ∧
    p ((steadyHeap (1 / 4)).get 0).measFunc c y = .ok s ∧ Nats calmEnv s Ps hs ∧ Nats calmEnv ((steadyHeap (1 / 4)).get 0).marginal Pm hm ∧
    (∀ i j, (Ps.bget i j + Ps.bget j i) / 2 = Pm.bget i j) ∧ ∀ i j, hs.bget i j = hm.bget i j :=
  C102_meas_agrees (γ := 1 / 4) (by norm_num) 0 _ rfl ⟨steady_natural _ _, steady_natural _ _, steady_natural _ _, steady_natural _ _⟩ rfl
    (steady_call 0 .meas).2 (by rw [(steady_call 0 .meas).1])

end Verif

import Verif.Spec.Nodes
import Verif.Lemmas.Nodes
import Verif.Lemmas.Scalar

/-!
# Node updates: atomicity and locality (C34, C35), ends of the chain (C38), schedule (C39), copies (C44)
-/

namespace Verif

open Matrix Gaussian Node

variable {env : Env}

/-! ## C34 -/

/-- **C34.** A forward update changes nothing at all, or it succeeds and replaces exactly the forward factor and the marginal of its
node, the new marginal having passed `validate_covariance`. -/
theorem C34_fwd_all_or_nothing (self : Ref) (proj : ProjTrans) (h h' : Heap) (r : Py Unit)
    (hrun : fwdUpdateBody env self proj h = (r, h')) :
    h' = h ∨ (r = .ok () ∧ ∃ F M, validateCovariance env M = .ok () ∧
      h'.get self = { h.get self with fwdFactor := F, marginal := M } ∧ (∀ q, q ≠ self → h'.get q = h.get q) ∧
      h'.size = h.size) := by
  rw [fwdUpdateBody_eq] at hrun
  cases hc : fwdCavity env h (h.get self) with
  | error e => rw [hc] at hrun; simp only [Prod.mk.injEq] at hrun; exact .inl hrun.2.symm
  | ok c =>
    rw [hc] at hrun
    cases hg : fwdGuarded env (h.get self) proj c with
    | error e => simp only [hg] at hrun; left; cases e <;> (simp only [Prod.mk.injEq] at hrun; exact hrun.2.symm)
    | ok p =>
      obtain ⟨F, M⟩ := p
      simp only [hg, Prod.mk.injEq] at hrun
      obtain ⟨_, _, _, _, _, _, _, _, _, _, _, _, _, _, _, _, _, _, hv⟩ := fwdGuarded_ok hg
      refine .inr ⟨hrun.1.symm, F, M, hv, ?_, ?_, ?_⟩
      · rw [← hrun.2]; simp [setFwd]
      · intro q hq; rw [← hrun.2, Heap.update_get_ne _ hq]
      · rw [← hrun.2]; rfl

/-- **C34.** The same for a measurement update. -/
theorem C34_meas_all_or_nothing (self : Ref) (proj : ProjMeas) (h h' : Heap) (r : Py Unit)
    (hrun : measUpdateBody env self proj h = (r, h')) :
    h' = h ∨ (r = .ok () ∧ ∃ F M, validateCovariance env M = .ok () ∧
      h'.get self = { h.get self with measFactor := F, marginal := M } ∧ (∀ q, q ≠ self → h'.get q = h.get q) ∧
      h'.size = h.size) := by
  rw [measUpdateBody_eq] at hrun
  cases hc : (h.get self).marginal.truediv env (h.get self).measFactor with
  | error e => rw [hc] at hrun; simp only [Prod.mk.injEq] at hrun; exact .inl hrun.2.symm
  | ok c =>
    rw [hc] at hrun
    cases hg : measValue env (h.get self) proj c with
    | error e => simp only [hg] at hrun; left; cases e <;> (simp only [Prod.mk.injEq] at hrun; exact hrun.2.symm)
    | ok p =>
      obtain ⟨F, M⟩ := p
      simp only [hg, Prod.mk.injEq] at hrun
      obtain ⟨_, _, _, _, _, hp⟩ := measValue_ok hg
      obtain ⟨_, _, _, _, _, _, _, _, _, _, _, _, _, hv⟩ := powerUpdate_ok hp
      refine .inr ⟨hrun.1.symm, F, M, hv, ?_, ?_, ?_⟩
      · rw [← hrun.2]; simp [setMeas]
      · intro q hq; rw [← hrun.2, Heap.update_get_ne _ hq]
      · rw [← hrun.2]; rfl

/-- **C34.** The same for a backward update. -/
theorem C34_back_all_or_nothing (self : Ref) (proj : ProjBack) (h h' : Heap) (r : Py Unit)
    (hrun : backUpdateBody env self proj h = (r, h')) :
    h' = h ∨ (r = .ok () ∧ ∃ F M, validateCovariance env M = .ok () ∧
      h'.get self = { h.get self with backFactor := F, marginal := M } ∧ (∀ q, q ≠ self → h'.get q = h.get q) ∧
      h'.size = h.size) := by
  rw [backUpdateBody_eq] at hrun
  cases hc : (h.get self).marginal.truediv env (h.get self).backFactor with
  | error e => rw [hc] at hrun; simp only [Prod.mk.injEq] at hrun; exact .inl hrun.2.symm
  | ok c =>
    rw [hc] at hrun
    cases hn : nextFwdCavity env h (h.get self) with
    | error e => simp only [hn] at hrun; left; cases e <;> (simp only [Prod.mk.injEq] at hrun; exact hrun.2.symm)
    | ok p =>
      obtain ⟨next, nc⟩ := p
      cases hg : backValue env (h.get self) next proj c nc with
      | error e => simp only [hn, hg] at hrun; left; cases e <;> (simp only [Prod.mk.injEq] at hrun; exact hrun.2.symm)
      | ok p =>
        obtain ⟨F, M⟩ := p
        simp only [hn, hg, Prod.mk.injEq] at hrun
        obtain ⟨_, _, _, hp⟩ := backValue_ok hg
        obtain ⟨_, _, _, _, _, _, _, _, _, _, _, _, _, hv⟩ := powerUpdate_ok hp
        refine .inr ⟨hrun.1.symm, F, M, hv, ?_, ?_, ?_⟩
        · rw [← hrun.2]; simp [setBack]
        · intro q hq; rw [← hrun.2, Heap.update_get_ne _ hq]
        · rw [← hrun.2]; rfl

/-- A cavity formed from readable Gaussians never raises `LinAlgError`. -/
theorem fwdCavity_no_linAlg {self : Ref} {h : Heap}
    (hprev : ∀ p, (h.get self).prev = some p → NatReadable env (h.get p).marginal ∧ NatReadable env (h.get p).backFactor) :
    fwdCavity env h (h.get self) ≠ .error .linAlg := by
  intro hc
  unfold fwdCavity at hc
  have hb : backCavityFromPrev env h (h.get self) ≠ .error .linAlg := by
    intro hb
    unfold backCavityFromPrev at hb
    cases hp : (h.get self).prev with
    | none => rw [hp] at hb; simp [attr] at hb
    | some p =>
      obtain ⟨⟨P, x, h1, h2⟩, ⟨Q, y, h3, h4⟩⟩ := hprev p hp
      rw [hp] at hb
      simp only [attr, ok_bind] at hb
      cases hq : (h.get self).power with
      | none => rw [hq] at hb; simp [error_bind] at hb
      | some α =>
        rw [hq] at hb
        simp only [ok_bind] at hb
        cases hd : pyDiv 1 α with
        | error e =>
          rw [hd, error_bind] at hb
          unfold pyDiv at hd
          split_ifs at hd
          simp only [Except.error.injEq] at hd hb
          rw [← hd] at hb; cases hb
        | ok ip =>
          rw [hd, ok_bind, pow_ok h3 h4, ok_bind] at hb
          have := truediv_error h1 h2 (precisionA_ofNatural _ _ _) (shiftA_ofNatural _ _ _) hb
          cases this
  cases hx : backCavityFromPrev env h (h.get self) with
  | ok c => rw [hx] at hc; cases hc
  | error e =>
    rw [hx] at hc
    cases e with
    | linAlg => exact hb hx
    | «attribute» =>
      simp only at hc
      cases hp : (h.get self).prior <;> rw [hp] at hc <;> simp [attr] at hc
    | _ => simp at hc

/-- **C34.** `LinAlgError` never escapes from a forward update whose cavity is built from readable Gaussians. -/
theorem C34_fwd_no_linalg (self : Ref) (proj : ProjTrans) (h : Heap)
    (hprev : ∀ p, (h.get self).prev = some p → NatReadable env (h.get p).marginal ∧ NatReadable env (h.get p).backFactor) :
    (fwdUpdateBody env self proj h).1 ≠ .error .linAlg := by
  rw [fwdUpdateBody_eq]
  have hcav := fwdCavity_no_linAlg hprev
  cases hc : fwdCavity env h (h.get self) with
  | error e => rw [hc] at hcav; simpa using hcav
  | ok c =>
    simp only
    cases fwdGuarded env (h.get self) proj c with
    | error e => cases e <;> simp
    | ok p => simp

/-- **C34.** `LinAlgError` never escapes from a measurement update of a node with readable marginal and factor. -/
theorem C34_meas_no_linalg (self : Ref) (proj : ProjMeas) (h : Heap)
    (h1 : NatReadable env (h.get self).marginal) (h2 : NatReadable env (h.get self).measFactor) :
    (measUpdateBody env self proj h).1 ≠ .error .linAlg := by
  rw [measUpdateBody_eq]
  obtain ⟨P, x, hP, hx⟩ := h1
  obtain ⟨Q, y, hQ, hy⟩ := h2
  cases hc : (h.get self).marginal.truediv env (h.get self).measFactor with
  | error e => rw [truediv_error hP hx hQ hy hc]; simp
  | ok c =>
    simp only
    cases measValue env (h.get self) proj c with
    | error e => cases e <;> simp
    | ok p => simp

/-- **C34.** `LinAlgError` never escapes from a backward update if the marginals and factors it divides are readable. -/
theorem C34_back_no_linalg (self : Ref) (proj : ProjBack) (h : Heap)
    (h1 : NatReadable env (h.get self).marginal) (h2 : NatReadable env (h.get self).backFactor)
    (hnext : ∀ p, (h.get self).next = some p → NatReadable env (h.get p).marginal ∧ NatReadable env (h.get p).fwdFactor) :
    (backUpdateBody env self proj h).1 ≠ .error .linAlg := by
  rw [backUpdateBody_eq]
  obtain ⟨P, x, hP, hx⟩ := h1
  obtain ⟨Q, y, hQ, hy⟩ := h2
  cases hc : (h.get self).marginal.truediv env (h.get self).backFactor with
  | error e => rw [truediv_error hP hx hQ hy hc]; simp
  | ok c =>
    simp only
    have hb : nextFwdCavity env h (h.get self) ≠ .error .linAlg := by
      intro hb
      unfold nextFwdCavity at hb
      cases hp : (h.get self).next with
      | none => rw [hp] at hb; simp [attr] at hb
      | some p =>
        obtain ⟨⟨P, x, h1, h2⟩, ⟨Q, y, h3, h4⟩⟩ := hnext p hp
        rw [hp] at hb
        simp only [attr, ok_bind] at hb
        cases hq : (h.get self).power with
        | none => rw [hq] at hb; simp [error_bind] at hb
        | some α =>
          rw [hq] at hb
          simp only [ok_bind] at hb
          cases hd : pyDiv 1 α with
          | error e =>
            rw [hd, error_bind] at hb
            unfold pyDiv at hd
            split_ifs at hd
            simp only [Except.error.injEq] at hd hb
            rw [← hd] at hb; cases hb
          | ok ip =>
            rw [hd, ok_bind, pow_ok h3 h4, ok_bind] at hb
            cases ht : (h.get p).marginal.truediv env (ofNatural (Q.smul ip) (y.smul ip)) with
            | ok q => rw [ht] at hb; simp at hb
            | error e =>
              rw [ht, error_bind] at hb
              have := truediv_error h1 h2 (precisionA_ofNatural _ _ _) (shiftA_ofNatural _ _ _) ht
              rw [this] at hb; cases hb
    cases hn : nextFwdCavity env h (h.get self) with
    | error e => rw [hn] at hb; cases e <;> simp_all
    | ok p =>
      obtain ⟨next, nc⟩ := p
      simp only
      cases backValue env (h.get self) next proj c nc with
      | error e => cases e <;> simp
      | ok p => simp

/-- **C34.** A projection that fails numerically leaves the whole graph as it was, whatever the state of the node. -/
theorem C34_fwd_failure_restores (self : Ref) (proj : ProjTrans) (h : Heap)
    (hfail : ∀ f c, FailsNumerically env (proj f c)) : (fwdUpdateBody env self proj h).2 = h := by
  rw [fwdUpdateBody_eq]
  cases hc : fwdCavity env h (h.get self) with
  | error e => rfl
  | ok c =>
    have hg : fwdGuarded env (h.get self) proj c = .error .linAlg := by
      rcases hfail (h.get self).transFunc c with hf | ⟨s, hs, hv⟩
      · simp [fwdGuarded, hf]
      · simp [fwdGuarded, hs, hv]
    simp only [hg]

/-- **C34.** See `C34_fwd_failure_restores`. -/
theorem C34_meas_failure_restores (self : Ref) (proj : ProjMeas) (h : Heap)
    (hfail : ∀ f c y, FailsNumerically env (proj f c y)) : (measUpdateBody env self proj h).2 = h := by
  rw [measUpdateBody_eq]
  cases hc : (h.get self).marginal.truediv env (h.get self).measFactor with
  | error e => rfl
  | ok c =>
    simp only
    cases hy : attr (h.get self).meas with
    | error e => simp only [measValue, hy, error_bind]; cases e <;> rfl
    | ok y =>
      have hg : measValue env (h.get self) proj c = .error .linAlg := by
        rcases hfail (h.get self).measFunc c y with hf | ⟨s, hs, hv⟩
        · simp [measValue, hf, hy]
        · simp [measValue, hs, hv, hy]
      simp only [hg]

/-- **C34.** See `C34_fwd_failure_restores`. -/
theorem C34_back_failure_restores (self : Ref) (proj : ProjBack) (h : Heap)
    (hfail : ∀ f c n s, FailsNumerically env (proj f c n s)) : (backUpdateBody env self proj h).2 = h := by
  rw [backUpdateBody_eq]
  cases hc : (h.get self).marginal.truediv env (h.get self).backFactor with
  | error e => rfl
  | ok c =>
    simp only
    cases hn : nextFwdCavity env h (h.get self) with
    | error e => cases e <;> rfl
    | ok p =>
      obtain ⟨next, nc⟩ := p
      have hg : backValue env (h.get self) next proj c nc = .error .linAlg := by
        rcases hfail next.transFunc c nc (some next.marginal) with hf | ⟨s, hs, hv⟩
        · simp [backValue, hf]
        · simp [backValue, hs, hv]
      simp only [hg]

/-- A negative variance is such a failure. -/
example : FailsNumerically calmEnv (.ok (sG 0 (-1))) := by
  refine .inr ⟨_, rfl, ?_⟩
  have hn : ¬ (lowerSym (m1 (-1))).PosDef := by
    have : lowerSym (m1 (-1)) = m1 (-1) := by ext i j; simp [lowerSym]
    rw [this, m1_posDef]; norm_num
  rw [validateCovariance, (sG_moments calmEnv 0 (-1)).2]
  simp only [ok_bind, npCholesky, dite_true]
  rw [if_neg]
  exact hn

/-- The nodes made by `build_nodes` have readable factors. -/
example (n : ℕ) : NatReadable calmEnv (Node.init n 0).measFactor := ⟨_, _, precisionA_ofNatural _ _ _, shiftA_ofNatural _ _ _⟩

/-! ## C35 -/

/-- One call: nothing but the marginal and the factor concerned of the target node can change. -/
theorem call_local (c : Upd × Ref) (h : Heap) :
    ((Upd.call env c h).2).size = h.size ∧
    (∀ q, Upd.target h c ≠ some q → ((Upd.call env c h).2).get q = h.get q) ∧
    (∀ q, ((Upd.call env c h).2).get q = match c.1 with
      | .fwd => { h.get q with marginal := (((Upd.call env c h).2).get q).marginal,
                               fwdFactor := (((Upd.call env c h).2).get q).fwdFactor }
      | .meas => { h.get q with marginal := (((Upd.call env c h).2).get q).marginal,
                                measFactor := (((Upd.call env c h).2).get q).measFactor }
      | .back => { h.get q with marginal := (((Upd.call env c h).2).get q).marginal,
                                backFactor := (((Upd.call env c h).2).get q).backFactor }) := by
  obtain ⟨k, r⟩ := c
  cases k with
  | fwd =>
    simp only [Upd.call, Upd.target, fwdCall, PyM.get_bind]
    cases hb : (h.get r).fwdUpdate with
    | none => exact ⟨rfl, fun _ _ => rfl, fun _ => rfl⟩
    | some tp =>
      obtain ⟨t, p⟩ := tp
      simp only [Option.map_some, ne_eq, Option.some.injEq]
      rcases C34_fwd_all_or_nothing t p h (fwdUpdateBody env t p h).2 (fwdUpdateBody env t p h).1 rfl with h1 | ⟨-, F, M, -, h1, h2, h3⟩
      · rw [h1]; exact ⟨rfl, fun _ _ => rfl, fun _ => rfl⟩
      · refine ⟨h3, fun q hq => h2 q (fun hqt => hq hqt.symm), fun q => ?_⟩
        by_cases hq : q = t
        · subst hq; rw [h1]
        · rw [h2 q hq]
  | meas =>
    simp only [Upd.call, Upd.target, measCall, PyM.get_bind]
    cases hb : (h.get r).measUpdate with
    | none => exact ⟨rfl, fun _ _ => rfl, fun _ => rfl⟩
    | some tp =>
      obtain ⟨t, p⟩ := tp
      simp only [Option.map_some, ne_eq, Option.some.injEq]
      rcases C34_meas_all_or_nothing t p h (measUpdateBody env t p h).2 (measUpdateBody env t p h).1 rfl with h1 | ⟨-, F, M, -, h1, h2, h3⟩
      · rw [h1]; exact ⟨rfl, fun _ _ => rfl, fun _ => rfl⟩
      · refine ⟨h3, fun q hq => h2 q (fun hqt => hq hqt.symm), fun q => ?_⟩
        by_cases hq : q = t
        · subst hq; rw [h1]
        · rw [h2 q hq]
  | back =>
    simp only [Upd.call, Upd.target, backCall, PyM.get_bind]
    cases hb : (h.get r).backUpdate with
    | none => exact ⟨rfl, fun _ _ => rfl, fun _ => rfl⟩
    | some tp =>
      obtain ⟨t, p⟩ := tp
      simp only [Option.map_some, ne_eq, Option.some.injEq]
      rcases C34_back_all_or_nothing t p h (backUpdateBody env t p h).2 (backUpdateBody env t p h).1 rfl with h1 | ⟨-, F, M, -, h1, h2, h3⟩
      · rw [h1]; exact ⟨rfl, fun _ _ => rfl, fun _ => rfl⟩
      · refine ⟨h3, fun q hq => h2 q (fun hqt => hq hqt.symm), fun q => ?_⟩
        by_cases hq : q = t
        · subst hq; rw [h1]
        · rw [h2 q hq]

/-- **C35.** A single update changes only the marginal and its own factor of the node it runs on. -/
theorem C35_update_is_local (c : Upd × Ref) (h h' : Heap) (res : Py Unit) (hrun : Upd.call env c h = (res, h')) :
    h'.size = h.size ∧ (∀ q, Upd.target h c ≠ some q → h'.get q = h.get q) ∧
    (∀ q, h'.get q = { h.get q with
      marginal := (h'.get q).marginal, fwdFactor := (h'.get q).fwdFactor, measFactor := (h'.get q).measFactor,
      backFactor := (h'.get q).backFactor }) ∧
    (c.1 ≠ .fwd → ∀ q, (h'.get q).fwdFactor = (h.get q).fwdFactor) ∧
    (c.1 ≠ .meas → ∀ q, (h'.get q).measFactor = (h.get q).measFactor) ∧
    (c.1 ≠ .back → ∀ q, (h'.get q).backFactor = (h.get q).backFactor) := by
  obtain ⟨h1, h2, h3⟩ := call_local (env := env) c h
  rw [hrun] at h1 h2 h3
  obtain ⟨k, r⟩ := c
  cases k <;> simp only at h1 h2 h3 <;> refine ⟨h1, h2, fun q => ?_, fun hk q => ?_, fun hk q => ?_, fun hk q => ?_⟩ <;>
    first | exact absurd rfl hk | (rw [h3 q])

/-- **C35.** After any schedule of updates, whatever they raise: a node that no call is bound to is untouched, and in every node the
links, parameters, functions, measurement, prior and bound updates are what they were. -/
theorem C35_schedule_is_local (calls : List (Upd × Ref)) (h : Heap) (q : Ref) :
    ((afterCalls env calls h).get q = { h.get q with
      marginal := ((afterCalls env calls h).get q).marginal, fwdFactor := ((afterCalls env calls h).get q).fwdFactor,
      measFactor := ((afterCalls env calls h).get q).measFactor, backFactor := ((afterCalls env calls h).get q).backFactor }) ∧
    ((∀ c ∈ calls, Upd.target h c ≠ some q) → (afterCalls env calls h).get q = h.get q) := by
  induction calls generalizing h with
  | nil => exact ⟨rfl, fun _ => rfl⟩
  | cons c cs ih =>
    obtain ⟨-, h2, h3, -⟩ := C35_update_is_local (env := env) c h (Upd.call env c h).2 (Upd.call env c h).1 rfl
    have hT : ∀ c', Upd.target (Upd.call env c h).2 c' = Upd.target h c' := by
      rintro ⟨k, r⟩
      cases k <;> simp only [Upd.target] <;> rw [h3 r]
    obtain ⟨i1, i2⟩ := ih (Upd.call env c h).2
    simp only [afterCalls, List.foldl_cons] at i1 i2 ⊢
    constructor
    · have h3q := h3 q
      generalize (Upd.call env c h).2 = h1 at *
      generalize (List.foldl (fun h c => (Upd.call env c h).2) h1 cs).get q = a at *
      generalize h1.get q = b at *
      generalize h.get q = d at *
      rw [i1, h3q]
    · intro hq
      rw [i2 (fun c' hc' => by rw [hT]; exact hq c' (List.mem_cons_of_mem _ hc')), h2 q (hq c List.mem_cons_self)]

/-! ## C38 -/

/-- **C38.** The forward update of a node without predecessor presents the prior of the system to the projection and nothing else: two
projections that agree on the prior, and two graphs that agree on this node, give the same outcome. -/
theorem C38_first_node_uses_prior (self : Ref) (proj proj' : ProjTrans) (h h' : Heap) (p : Gaussian)
    (hprev : (h.get self).prev = none) (hprior : (h.get self).prior = some p) (hsame : h'.get self = h.get self)
    (hproj : proj' (h.get self).transFunc p = proj (h.get self).transFunc p) :
    (fwdUpdateBody env self proj' h').1 = (fwdUpdateBody env self proj h).1 ∧
    ((fwdUpdateBody env self proj' h').2).get self = ((fwdUpdateBody env self proj h).2).get self := by
  have hc : ∀ g : Heap, g.get self = h.get self → fwdCavity env g (h.get self) = .ok p := by
    intro g _
    simp [fwdCavity, backCavityFromPrev, hprev, hprior, attr]
  have hg : fwdGuarded env (h.get self) proj' p = fwdGuarded env (h.get self) proj p := by
    simp only [fwdGuarded, hproj]
  rw [fwdUpdateBody_eq, fwdUpdateBody_eq, hsame, hc h' hsame, hc h rfl]
  simp only [hg]
  cases fwdGuarded env (h.get self) proj p with
  | error e => cases e <;> simp [hsame]
  | ok r => simp [hsame]

/-- **C38.** The forward update of the first node is numerically the projection of the prior: an accepted update has used exactly the
state the projection returned for the prior. -/
theorem C38_first_node_projection (self : Ref) (proj : ProjTrans) (h : Heap) (p : Gaussian)
    (hprev : (h.get self).prev = none) (hprior : (h.get self).prior = some p) :
    (∀ e, proj (h.get self).transFunc p = .error e → (fwdUpdateBody env self proj h).2 = h ∧
      (fwdUpdateBody env self proj h).1 = (if e = .linAlg then .ok () else .error e)) ∧
    (∀ s, proj (h.get self).transFunc p = .ok s → (fwdUpdateBody env self proj h) = fwdUpdateBody env self (fun _ _ => .ok s) h) := by
  have hc : fwdCavity env h (h.get self) = .ok p := by simp [fwdCavity, backCavityFromPrev, hprev, hprior, attr]
  constructor
  · intro e he
    have hg : fwdGuarded env (h.get self) proj p = .error e := by simp [fwdGuarded, he]
    rw [fwdUpdateBody_eq, hc]
    simp only [hg]
    cases e <;> simp
  · intro s hs
    have hg : fwdGuarded env (h.get self) proj p = fwdGuarded env (h.get self) (fun _ _ => .ok s) p := by
      simp only [fwdGuarded, hs]
    rw [fwdUpdateBody_eq, fwdUpdateBody_eq, hc]
    simp only [hg]

/-- **C38.** The backward update of a node without successor does nothing and raises nothing, provided its cavity can be formed;
otherwise it raises that error and does nothing. -/
theorem C38_last_node_back (self : Ref) (proj : ProjBack) (h : Heap) (hnext : (h.get self).next = none) :
    (backUpdateBody env self proj h).2 = h ∧
    (∀ c, (h.get self).marginal.truediv env (h.get self).backFactor = .ok c → (backUpdateBody env self proj h).1 = .ok ()) := by
  have hn : nextFwdCavity env h (h.get self) = .error .attribute := by simp [nextFwdCavity, hnext, attr]
  constructor
  · rw [backUpdateBody_eq]
    cases (h.get self).marginal.truediv env (h.get self).backFactor with
    | error e => rfl
    | ok c => simp only [hn]
  · intro c hc
    rw [backUpdateBody_eq, hc]
    simp only [hn]

/-! ## C39 -/

theorem executes_append {cs ds : List (Upd × Ref)} {h h1 h2 : Heap} {r : Py Unit} (a : Executes env cs h (.ok ()) h1)
    (b : Executes env ds h1 r h2) : Executes env (cs ++ ds) h r h2 := by
  induction cs generalizing h with
  | nil => cases a; exact b
  | cons c cs ih =>
    cases a with
    | step hc ha => exact .step hc (ih ha)

theorem executes_append_error {cs ds : List (Upd × Ref)} {h h1 : Heap} {e : Err} (a : Executes env cs h (.error e) h1) :
    Executes env (cs ++ ds) h (.error e) h1 := by
  induction cs generalizing h with
  | nil => cases a
  | cons c cs ih =>
    cases a with
    | step hc ha => exact .step hc (ih ha)
    | stop hc => exact .stop hc

theorem executes_fun {cs : List (Upd × Ref)} {h h1 h2 : Heap} {r r' : Py Unit} (a : Executes env cs h r h1)
    (b : Executes env cs h r' h2) : r = r' ∧ h1 = h2 := by
  induction a with
  | done => cases b; exact ⟨rfl, rfl⟩
  | step hc _ ih =>
    cases b with
    | step hc' hb =>
      rw [hc] at hc'
      simp only [Prod.mk.injEq, true_and] at hc'
      subst hc'; exact ih hb
    | stop hc' => rw [hc] at hc'; simp at hc'
  | stop hc =>
    cases b with
    | step hc' hb => rw [hc] at hc'; simp at hc'
    | stop hc' =>
      rw [hc] at hc'
      simp only [Prod.mk.injEq, Except.error.injEq] at hc'
      exact ⟨by rw [hc'.1], hc'.2⟩

theorem executes_one (c : Upd × Ref) (h : Heap) : Executes env [c] h (Upd.call env c h).1 (Upd.call env c h).2 := by
  rcases hx : Upd.call env c h with ⟨r, h'⟩
  cases r with
  | ok u => exact .step hx (.done _)
  | error e => exact .stop hx

theorem executes_seq {x y : PyM Heap Unit} {cs ds : List (Upd × Ref)} (hx : ∀ h, Executes env cs h (x h).1 (x h).2)
    (hy : ∀ h, Executes env ds h (y h).1 (y h).2) (h : Heap) :
    Executes env (cs ++ ds) h ((do x; y : PyM Heap Unit) h).1 ((do x; y : PyM Heap Unit) h).2 := by
  have h1 := hx h
  rcases hr : x h with ⟨r, h'⟩
  rw [hr] at h1
  cases r with
  | ok u => rw [PyM.bind_ok hr]; exact executes_append h1 (hy h')
  | error e => rw [PyM.bind_error hr]; exact executes_append_error h1

theorem executes_forEach (l : List Ref) (f : Ref → List (Upd × Ref)) (body : Ref → PyM Heap Unit)
    (hb : ∀ r h, Executes env (f r) h (body r h).1 (body r h).2) (h : Heap) :
    Executes env (l.flatMap f) h (PyM.forEach l body h).1 (PyM.forEach l body h).2 := by
  induction l generalizing h with
  | nil => exact .done _
  | cons r l ih =>
    rw [List.flatMap_cons]
    exact executes_seq (hb r) ih h

/-- **C39.** The order of one pass: forward and measurement update of each node in list order, then the backward updates in reverse
order, stopping at the first exception with everything before it applied.  (`Executes` determines result and heap, `executes_fun`.) -/
theorem C39_pass_order (nodes : List Ref) (h : Heap) :
    Executes env (nodes.flatMap (fun r => [(Upd.fwd, r), (Upd.meas, r)]) ++ nodes.reverse.map fun r => (Upd.back, r)) h
      (epFwdBack env nodes h).1 (epFwdBack env nodes h).2 := by
  have hm : ∀ l : List Ref, (l.map fun r => (Upd.back, r)) = l.flatMap fun r => [(Upd.back, r)] := by
    intro l; induction l <;> simp_all
  rw [hm]
  refine executes_seq (fun h => ?_) (fun h => ?_) h
  · refine executes_forEach nodes _ _ (fun r h => ?_) h
    exact executes_seq (cs := [(Upd.fwd, r)]) (ds := [(Upd.meas, r)]) (fun h => executes_one (Upd.fwd, r) h)
      (fun h => executes_one (Upd.meas, r) h) h
  · exact executes_forEach nodes.reverse _ _ (fun r h => executes_one (Upd.back, r) h) h

/-- **C39.** The same for `kalman_filter`, `kalman_smoother` and `ep_update`. -/
theorem C39_other_orders (nodes : List Ref) (h : Heap) :
    Executes env (nodes.flatMap fun r => [(Upd.fwd, r), (Upd.meas, r)]) h (epFilter env nodes h).1 (epFilter env nodes h).2 ∧
    Executes env (nodes.reverse.flatMap fun r => [(Upd.back, r)]) h (epSmoother env nodes h).1 (epSmoother env nodes h).2 ∧
    Executes env (nodes.flatMap fun r => [(Upd.fwd, r), (Upd.meas, r), (Upd.back, r)]) h (epUpdate env nodes h).1
      (epUpdate env nodes h).2 := by
  refine ⟨?_, ?_, ?_⟩
  · refine executes_forEach nodes _ _ (fun r h => ?_) h
    exact executes_seq (cs := [(Upd.fwd, r)]) (ds := [(Upd.meas, r)]) (fun h => executes_one (Upd.fwd, r) h)
      (fun h => executes_one (Upd.meas, r) h) h
  · exact executes_forEach nodes.reverse _ _ (fun r h => executes_one (Upd.back, r) h) h
  · refine executes_forEach nodes _ _ (fun r h => ?_) h
    exact executes_seq (cs := [(Upd.fwd, r)]) (ds := [(Upd.meas, r), (Upd.back, r)]) (fun h => executes_one (Upd.fwd, r) h)
      (fun h => executes_seq (cs := [(Upd.meas, r)]) (ds := [(Upd.back, r)]) (fun h => executes_one (Upd.meas, r) h)
      (fun h => executes_one (Upd.back, r) h) h) h

/-- **C39.** One EP pass is `kalman_filter` followed by `kalman_smoother`, exceptions included. -/
theorem C39_pass_is_filter_then_smoother (nodes : List Ref) (h : Heap) :
    epFwdBack env nodes h =
      match epFilter env nodes h with
      | (.ok _, h1) => epSmoother env nodes h1
      | (.error e, h1) => (.error e, h1) := by
  obtain ⟨hf, -, -⟩ := C39_other_orders (env := env) nodes h
  have hp := C39_pass_order (env := env) nodes h
  have hm : ∀ l : List Ref, (l.map fun r => (Upd.back, r)) = l.flatMap fun r => [(Upd.back, r)] := by
    intro l; induction l <;> simp_all
  rw [hm] at hp
  rcases hr : epFilter env nodes h with ⟨r, h1⟩
  rw [hr] at hf
  cases r with
  | ok u =>
    have := executes_fun hp (executes_append hf (C39_other_orders (env := env) nodes h1).2.1)
    exact Prod.ext this.1 this.2
  | error e =>
    have := executes_fun hp (executes_append_error hf)
    exact Prod.ext this.1 this.2

/-! ## C44 -/

/-- **C44.** `node.copy()` makes a new object with the same attributes and changes no existing object. -/
theorem C44_copy_equal (self : Ref) (h : Heap) :
    ∃ h', Node.copy self h = (.ok h.size, h') ∧ h'.size = h.size + 1 ∧ h'.get h.size = h.get self ∧
      ∀ q, q < h.size → h'.get q = h.get q := by
  refine ⟨h.alloc (h.get self), rfl, rfl, h.alloc_get_new _, fun q hq => h.alloc_get_old _ (Nat.ne_of_lt hq)⟩

/-- **C44.** Calling an update of the copy of an equipped node has the same effect as calling it on the original: the copy keeps its
attributes, whatever the update does. -/
theorem C44_copy_updates_original (self : Ref) (h h' : Heap) (hself : self < h.size) (k : Upd)
    (hequipped : Upd.target h (k, self) = some self) (hcopy : Node.copy self h = (.ok h.size, h')) :
    Upd.call env (k, h.size) h' = Upd.call env (k, self) h' ∧
    ((Upd.call env (k, h.size) h').2).get h.size = h'.get h.size := by
  obtain ⟨h'', hc, -, hnew, hold⟩ := C44_copy_equal self h
  rw [hc] at hcopy
  simp only [Prod.mk.injEq, true_and] at hcopy
  subst hcopy
  have hsame : h''.get h.size = h''.get self := by rw [hnew, hold self hself]
  have htarget : Upd.target h'' (k, h.size) = some self := by
    rw [← hequipped]
    cases k <;> simp only [Upd.target, hnew]
  constructor
  · cases k <;> simp only [Upd.call, fwdCall, measCall, backCall, PyM.get_bind, hsame]
  · refine (call_local (env := env) (k, h.size) h'').2.1 h.size ?_
    rw [htarget]
    intro hh
    simp only [Option.some.injEq] at hh
    exact Nat.ne_of_lt hself hh

end Verif

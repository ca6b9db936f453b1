import Verif.Props.Graph
import Verif.Props.Nodes
import Verif.Lemmas.Broadcast

/-!
# The marginal is the product of its factors (C36), damping (C37)
-/

namespace Verif

open Matrix Gaussian Node Arr

variable {env : Env}

/-! ## C36 -/

theorem balanced_fwd {α : ℝ} {pb sb : ℕ → ℕ → ℝ} {nd : Node} {proj : ProjTrans} {c F M : Gaussian} (hα : α ≠ 0)
    (hp : nd.power = some α) (hb : Balanced env α pb sb nd) (hr : fwdGuarded env nd proj c = .ok (F, M)) :
    Balanced env α pb sb (setFwd F M nd) := by
  obtain ⟨PM, hM, PF, hF, PG, hG, PB, hB, n1, n2, n3, n4, s1, s2, s3, s4, e1, e2⟩ := hb
  obtain ⟨γ, α', s, Ps, hs, PF', hF', PM', hM', -, hα', -, -, -, n5, n6, s5, s6, f1, f2, f3, f4, g1, g2, g3, g4⟩ :=
    fwdGuarded_nats hr n2 n1 s2 s1
  obtain rfl : α = α' := by simpa [hp] using hα'
  refine ⟨PM', hM', PF', hF', PG, hG, PB, hB, n6, n5, n3, n4, s6, s5, s3, s4, fun h => ?_, fun h => ?_⟩
  · have h1 := f1.1 h
    have h2 := f2.2 ⟨h1.2.1, h1.2.2⟩
    refine ⟨⟨h2, (e1 h1.1).1.2.1, (e1 h1.1).1.2.2⟩, fun i j => ?_⟩
    rw [g2 h, g1 h2, (e1 h1.1).2]
    field_simp; ring
  · have h1 := f3.1 h
    have h2 := f4.2 ⟨h1.2.1, h1.2.2⟩
    refine ⟨⟨h2, (e2 h1.1).1.2.1, (e2 h1.1).1.2.2⟩, fun i j => ?_⟩
    rw [g4 h, g3 h2, (e2 h1.1).2]
    field_simp; ring

theorem balanced_meas {α : ℝ} {pb sb : ℕ → ℕ → ℝ} {nd : Node} {s F M : Gaussian} (hα : α ≠ 0)
    (hp : nd.power = some α) (hb : Balanced env α pb sb nd) (hr : nd.powerUpdate env s nd.measFactor nd.marginal = .ok (F, M)) :
    Balanced env α pb sb (setMeas F M nd) := by
  obtain ⟨PM, hM, PF, hF, PG, hG, PB, hB, n1, n2, n3, n4, s1, s2, s3, s4, e1, e2⟩ := hb
  obtain ⟨γ, α', Ps, hs, PG', hG', PM', hM', -, hα', -, -, n5, n6, s5, s6, f1, f2, f3, f4, g1, g2, g3, g4⟩ :=
    powerUpdate_nats hr n3 n1 s3 s1
  obtain rfl : α = α' := by simpa [hp] using hα'
  refine ⟨PM', hM', PF, hF, PG', hG', PB, hB, n6, n2, n5, n4, s6, s2, s5, s4, fun h => ?_, fun h => ?_⟩
  · have h1 := f1.1 h
    have h2 := f2.2 ⟨(e1 h1.1).1.2.1, h1⟩
    refine ⟨⟨(e1 h1.1).1.1, h2, (e1 h1.1).1.2.2⟩, fun i j => ?_⟩
    rw [g2 h, g1 h2, (e1 h1.1).2]
    field_simp; ring
  · have h1 := f3.1 h
    have h2 := f4.2 ⟨(e2 h1.1).1.2.1, h1⟩
    refine ⟨⟨(e2 h1.1).1.1, h2, (e2 h1.1).1.2.2⟩, fun i j => ?_⟩
    rw [g4 h, g3 h2, (e2 h1.1).2]
    field_simp; ring

theorem balanced_back {α : ℝ} {pb sb : ℕ → ℕ → ℝ} {nd : Node} {s F M : Gaussian} (hα : α ≠ 0)
    (hp : nd.power = some α) (hb : Balanced env α pb sb nd) (hr : nd.powerUpdate env s nd.backFactor nd.marginal = .ok (F, M)) :
    Balanced env α pb sb (setBack F M nd) := by
  obtain ⟨PM, hM, PF, hF, PG, hG, PB, hB, n1, n2, n3, n4, s1, s2, s3, s4, e1, e2⟩ := hb
  obtain ⟨γ, α', Ps, hs, PB', hB', PM', hM', -, hα', -, -, n5, n6, s5, s6, f1, f2, f3, f4, g1, g2, g3, g4⟩ :=
    powerUpdate_nats hr n4 n1 s4 s1
  obtain rfl : α = α' := by simpa [hp] using hα'
  refine ⟨PM', hM', PF, hF, PG, hG, PB', hB', n6, n2, n3, n5, s6, s2, s3, s5, fun h => ?_, fun h => ?_⟩
  · have h1 := f1.1 h
    have h2 := f2.2 ⟨(e1 h1.1).1.2.2, h1⟩
    refine ⟨⟨(e1 h1.1).1.1, (e1 h1.1).1.2.1, h2⟩, fun i j => ?_⟩
    rw [g2 h, g1 h2, (e1 h1.1).2]
    field_simp; ring
  · have h1 := f3.1 h
    have h2 := f4.2 ⟨(e2 h1.1).1.2.2, h1⟩
    refine ⟨⟨(e2 h1.1).1.1, (e2 h1.1).1.2.1, h2⟩, fun i j => ?_⟩
    rw [g4 h, g3 h2, (e2 h1.1).2]
    field_simp; ring

theorem balanced_call {α : ℝ} {pb sb : ℕ → ℕ → ℝ} (hα : α ≠ 0) (c : Upd × Ref) (h : Heap) (q : Ref)
    (hp : (h.get q).power = some α) (hb : Balanced env α pb sb (h.get q)) :
    Balanced env α pb sb (((Upd.call env c h).2).get q) := by
  obtain ⟨-, hloc, -⟩ := call_local (env := env) c h
  by_cases ht : Upd.target h c = some q
  · obtain ⟨k, r⟩ := c
    cases k with
    | fwd =>
      simp only [Upd.target, Option.map_eq_some_iff, Prod.exists, exists_and_right, exists_eq_right] at ht
      obtain ⟨p, hp'⟩ := ht
      simp only [Upd.call, fwdCall, PyM.get_bind, hp']
      rw [fwdUpdateBody_eq]
      cases fwdCavity env h (h.get q) with
      | error e => exact hb
      | ok c =>
        simp only
        cases hg : fwdGuarded env (h.get q) p c with
        | error e => cases e <;> exact hb
        | ok FM =>
          simp only [Heap.update_get_same]
          exact balanced_fwd hα hp hb hg
    | meas =>
      simp only [Upd.target, Option.map_eq_some_iff, Prod.exists, exists_and_right, exists_eq_right] at ht
      obtain ⟨p, hp'⟩ := ht
      simp only [Upd.call, measCall, PyM.get_bind, hp']
      rw [measUpdateBody_eq]
      cases (h.get q).marginal.truediv env (h.get q).measFactor with
      | error e => exact hb
      | ok c =>
        simp only
        cases hg : measValue env (h.get q) p c with
        | error e => cases e <;> exact hb
        | ok FM =>
          simp only [Heap.update_get_same]
          obtain ⟨_, _, _, _, _, hu⟩ := measValue_ok hg
          exact balanced_meas hα hp hb hu
    | back =>
      simp only [Upd.target, Option.map_eq_some_iff, Prod.exists, exists_and_right, exists_eq_right] at ht
      obtain ⟨p, hp'⟩ := ht
      simp only [Upd.call, backCall, PyM.get_bind, hp']
      rw [backUpdateBody_eq]
      cases (h.get q).marginal.truediv env (h.get q).backFactor with
      | error e => exact hb
      | ok c =>
        simp only
        cases nextFwdCavity env h (h.get q) with
        | error e => cases e <;> exact hb
        | ok x =>
          obtain ⟨next, nc⟩ := x
          simp only
          cases hg : backValue env (h.get q) next p c nc with
          | error e => cases e <;> exact hb
          | ok FM =>
            simp only [Heap.update_get_same]
            obtain ⟨_, _, _, hu⟩ := backValue_ok hg
            exact balanced_back hα hp hb hu
  · rw [hloc q ht]; exact hb

/-- **C36.** Whatever product relation between the marginal of a node and its three factors holds at some time, holds after every
schedule of updates of any nodes, with any projections, exceptions swallowed or not, for every power and damping. -/
theorem C36_product_relation_is_invariant {α : ℝ} (hα : α ≠ 0) (pb sb : ℕ → ℕ → ℝ) (calls : List (Upd × Ref)) (h : Heap) (q : Ref)
    (hp : (h.get q).power = some α) (hb : Balanced env α pb sb (h.get q)) :
    Balanced env α pb sb ((afterCalls env calls h).get q) := by
  induction calls generalizing h with
  | nil => exact hb
  | cons c cs ih =>
    simp only [afterCalls, List.foldl_cons]
    refine ih _ ?_ (balanced_call hα c h q hp hb)
    obtain ⟨-, -, h3, -⟩ := C35_update_is_local (env := env) c h (Upd.call env c h).2 (Upd.call env c h).1 rfl
    rw [h3 q]
    exact hp

theorem symMat_m {n : ℕ} {M : Matrix (Fin n) (Fin n) ℝ} (h : Mᵀ = M) : SymMat (.m M) := by
  refine ⟨rfl, fun _ i j => ?_⟩
  simp only [bget]
  split_ifs with h1 h2 h2
  · exact congrFun (congrFun h ⟨j % n, h1.2⟩) ⟨i % n, h1.1⟩
  · exact absurd ⟨h1.2, h1.1⟩ h2
  · exact absurd ⟨h2.2, h2.1⟩ h1
  · rfl

/-- A freshly built node: its marginal is `N(0, 1e10 I)`, its factors are neutral. -/
theorem balanced_fresh {dim : ℕ} {α : ℝ} (nd : Node) (h1 : nd.marginal = asMarginal dim) (h2 : nd.fwdFactor = asFactor dim)
    (h3 : nd.measFactor = asFactor dim) (h4 : nd.backFactor = asFactor dim)
    (hill : env.illPos ((10 ^ 10 : ℝ) • (1 : Matrix (Fin dim) (Fin dim) ℝ)) = false) :
    Balanced env α (fun i j => (Arr.eye dim).bget i j / 10 ^ 10) (fun _ _ => 0) nd := by
  have hpd : ((10 ^ 10 : ℝ) • (1 : Matrix (Fin dim) (Fin dim) ℝ)).PosDef := PosDef.one.smul (by positivity)
  have hinv : ((10 ^ 10 : ℝ) • (1 : Matrix (Fin dim) (Fin dim) ℝ))⁻¹ = ((10 ^ 10 : ℝ)⁻¹) • 1 := by
    rw [inv_eq_left_inv]
    rw [smul_mul_smul_comm, one_mul, inv_mul_cancel₀ (by norm_num), one_smul]
  have nat : HasNatural env (asMarginal dim) (((10 ^ 10 : ℝ)⁻¹) • (1 : Matrix (Fin dim) (Fin dim) ℝ)) 0 := by
    have := natural_of_moment (env := env) (0 : Fin dim → ℝ) hpd hill
    rw [hinv, mulVec_zero] at this
    exact this
  have nf : Nats env (asFactor dim) (.m (0 : Matrix (Fin dim) (Fin dim) ℝ)) (.v (0 : Fin dim → ℝ)) :=
    ⟨precisionA_ofNatural _ _ _, shiftA_ofNatural _ _ _⟩
  have z : ∀ i j, (Arr.m (0 : Matrix (Fin dim) (Fin dim) ℝ)).bget i j = 0 := by
    intro i j; simp only [bget]; split_ifs <;> rfl
  have zv : ∀ i j, (Arr.v (0 : Fin dim → ℝ)).bget i j = 0 := by
    intro i j; simp only [bget]; split_ifs <;> rfl
  refine ⟨.m (((10 ^ 10 : ℝ)⁻¹) • (1 : Matrix (Fin dim) (Fin dim) ℝ)), .v 0, .m 0, .v 0, .m 0, .v 0, .m 0, .v 0, by rw [h1]; exact ⟨nat.precisionA, nat.shiftA⟩, by rw [h2]; exact nf, by rw [h3]; exact nf,
    by rw [h4]; exact nf, symMat_m (by simp), symMat_m (by simp), symMat_m (by simp), symMat_m (by simp), fun hf => ⟨⟨hf, hf, hf⟩, ?_⟩,
    fun hf => ⟨⟨hf, hf, hf⟩, ?_⟩⟩
  · intro i j
    rw [z]
    simp only [bget, Arr.eye, Matrix.smul_apply, smul_eq_mul]
    split_ifs <;> simp [div_eq_inv_mul]
  · intro i j
    rw [zv]; simp

/-- **C36.** Nodes from `build_nodes(N, dim, estimator)` (and then wired by `node_system`): after every schedule of updates each
marginal precision is `1e-10 I` plus `1/power` times the sum of the precisions of the three factors, and each marginal shift is
`1/power` times the sum of the three shifts. -/
theorem C36_marginal_is_product (N dim : ℕ) (hN : 2 ≤ N) (e : Estimator) (hα : e.power ≠ 0) (sys : Sys) (ys : List Arr)
    (fargs : Option (List (Option ℝ × Option ℝ))) (h h1 h2 : Heap) (nodes nodes' : List Ref)
    (hill : env.illPos ((10 ^ 10 : ℝ) • (1 : Matrix (Fin dim) (Fin dim) ℝ)) = false)
    (hbuild : buildNodes env N dim (some e) none h = (.ok nodes, h1)) (hsys : nodeSystem nodes sys ys fargs h1 = (.ok nodes', h2))
    (calls : List (Upd × Ref)) (q : Ref) (hq : q ∈ nodes) :
    ∃ PM hM PF hF PG hG PB hB : Arr,
      Nats env ((afterCalls env calls h2).get q).marginal PM hM ∧ Nats env ((afterCalls env calls h2).get q).fwdFactor PF hF ∧
      Nats env ((afterCalls env calls h2).get q).measFactor PG hG ∧ Nats env ((afterCalls env calls h2).get q).backFactor PB hB ∧
      (PM.Full → ∀ i j, PM.bget i j = (Arr.eye dim).bget i j / 10 ^ 10 + (PF.bget i j + PG.bget i j + PB.bget i j) / e.power) ∧
      (hM.Full → ∀ i j, hM.bget i j = (hF.bget i j + hG.bget i j + hB.bget i j) / e.power) := by
  obtain ⟨h3, a1, a2, a3, a4⟩ := allocNodes_run dim N 0 h
  obtain ⟨h4, b1, b2, b3, b4⟩ := linkLoop_run (s := h.size) hN N 0 h3 (by omega)
  rw [Nat.add_zero] at b1
  obtain ⟨h5, c1, c2, c3, c4⟩ := nodeEstimator_run (env := env) e (List.range' h.size N) h4
  have hb : buildNodes env N dim (some e) none h = (.ok (List.range' h.size N), h5) := by
    unfold buildNodes
    rw [PyM.bind_ok a1]
    refine (PyM.bind_ok b1 _).trans ?_
    refine (PyM.bind_ok c1 _).trans ?_
    rfl
  rw [hb, Prod.mk.injEq, Except.ok.injEq] at hbuild
  obtain ⟨rfl, rfl⟩ := hbuild
  obtain ⟨i, hi, rfl⟩ : ∃ i, i < N ∧ q = h.size + i := by
    have := List.mem_range'_1.1 hq
    exact ⟨(q : ℕ) - h.size, by omega, (Nat.add_sub_cancel' this.1).symm⟩
  have e5 := c4 _ hq
  rw [b4 i (Nat.zero_le _) hi, a4 i hi] at e5
  -- node_system does not touch marginal, factors and power
  have key : ∀ q, (h2.get q).marginal = (h5.get q).marginal ∧ (h2.get q).fwdFactor = (h5.get q).fwdFactor ∧
      (h2.get q).measFactor = (h5.get q).measFactor ∧ (h2.get q).backFactor = (h5.get q).backFactor ∧
      (h2.get q).power = (h5.get q).power := by
    intro q
    have hloop : ∀ (nodes : List Ref) (ys : List Arr) (fs : List (Option ℝ × Option ℝ)) (h h' : Heap) (out : List Ref),
        nodeSystemLoop sys nodes ys fs h = (.ok out, h') → ((h'.get q).marginal = (h.get q).marginal ∧
          (h'.get q).fwdFactor = (h.get q).fwdFactor ∧ (h'.get q).measFactor = (h.get q).measFactor ∧
          (h'.get q).backFactor = (h.get q).backFactor ∧ (h'.get q).power = (h.get q).power) := by
      intro nodes
      induction nodes with
      | nil =>
        intro ys fs h h' out hh
        simp only [nodeSystemLoop, PyM.pure_run, Prod.mk.injEq] at hh
        rw [hh.2]; exact ⟨rfl, rfl, rfl, rfl, rfl⟩
      | cons r rs ih =>
        intro ys fs h h' out hh
        match ys, fs with
        | [], _ => simp only [nodeSystemLoop, PyM.pure_run, Prod.mk.injEq] at hh; rw [hh.2]; exact ⟨rfl, rfl, rfl, rfl, rfl⟩
        | _ :: _, [] => simp only [nodeSystemLoop, PyM.pure_run, Prod.mk.injEq] at hh; rw [hh.2]; exact ⟨rfl, rfl, rfl, rfl, rfl⟩
        | y :: ys, (t, u) :: fs =>
          unfold nodeSystemLoop at hh
          simp only [PyM.modify_bind, Heap.update_update] at hh
          obtain ⟨out', hm, hh1, hh2⟩ := PyM.bind_ok_inv hh
          simp only [PyM.pure_run, Prod.mk.injEq] at hh2
          rw [hh2.2] at hh1
          have := ih ys fs _ _ _ hh1
          rw [Heap.update_get] at this
          by_cases hqr : q = r
          · rw [if_pos hqr] at this; subst hqr; exact this
          · rw [if_neg hqr] at this; exact this
    unfold nodeSystem at hsys
    obtain ⟨out, hm, hh1, hh2⟩ := PyM.bind_ok_inv hsys
    have k := hloop _ _ _ _ _ _ hh1
    cases out with
    | nil => simp at hh2
    | cons r rs =>
      simp only [PyM.modify_bind, PyM.pure_run, Prod.mk.injEq] at hh2
      rw [← hh2.2]
      rw [Heap.update_get]
      by_cases hqr : q = r
      · rw [if_pos hqr]; subst hqr; exact k
      · rw [if_neg hqr]; exact k
  obtain ⟨k1, k2, k3, k4, k5⟩ := key (h.size + i)
  have hbal : Balanced env e.power (fun i j => (Arr.eye dim).bget i j / 10 ^ 10) (fun _ _ => 0) (h2.get (h.size + i)) :=
    balanced_fresh _ (by rw [k1, e5]; rfl) (by rw [k2, e5]; rfl) (by rw [k3, e5]; rfl) (by rw [k4, e5]; rfl) hill
  obtain ⟨PM, hM, PF, hF, PG, hG, PB, hB, n1, n2, n3, n4, -, -, -, -, e1, e2⟩ :=
    C36_product_relation_is_invariant hα _ _ calls h2 _ (by rw [k5, e5]; rfl) hbal
  exact ⟨PM, hM, PF, hF, PG, hG, PB, hB, n1, n2, n3, n4, fun hf => (e1 hf).2, fun hf i j => by rw [(e2 hf).2, zero_add]⟩

-- three scalar nodes with power 1/2, whatever the transforms, system, measurements and schedule
example (T : Transform) (sys : Sys) (y : Arr) (calls : List (Upd × Ref)) (h1 h2 : Heap) (ns : List Ref)
    (hb : buildNodes calmEnv 3 1 (some ⟨T, T, some (.s 1), some (.s 1), 1 / 2, 3 / 4⟩) none ⟨fun _ => Node.init 1 0, 0⟩ = (.ok [0, 1, 2], h1))
    (hs : nodeSystem [0, 1, 2] sys [y, y, y] none h1 = (.ok ns, h2)) :
    ∃ PM hM PF hF PG hG PB hB : Arr,
      Nats calmEnv ((afterCalls calmEnv calls h2).get 1).marginal PM hM ∧ Nats calmEnv ((afterCalls calmEnv calls h2).get 1).fwdFactor PF hF ∧
      Nats calmEnv ((afterCalls calmEnv calls h2).get 1).measFactor PG hG ∧ Nats calmEnv ((afterCalls calmEnv calls h2).get 1).backFactor PB hB ∧
      (PM.Full → ∀ i j, PM.bget i j = (Arr.eye 1).bget i j / 10 ^ 10 + (PF.bget i j + PG.bget i j + PB.bget i j) / (1 / 2)) ∧
      (hM.Full → ∀ i j, hM.bget i j = (hF.bget i j + hG.bget i j + hB.bget i j) / (1 / 2)) :=
  C36_marginal_is_product 3 1 (by norm_num) _ (by norm_num) sys _ none _ _ _ _ _ rfl hb hs calls 1 (by decide)

/-! ## C37 -/

/-- **C37.** A measurement update leaves the graph as it was, or it presents the cavity to the projection, gets a state `s`, and moves the
natural parameters of the factor by `damping` times, those of the marginal by `damping / power` times the difference between `s` and the old
marginal (precisions symmetrised). -/
theorem C37_meas_interpolates (self : Ref) (proj : ProjMeas) (h h' : Heap) (r : Py Unit) (hrun : measUpdateBody env self proj h = (r, h'))
    {Pf hf Pm hm : Arr} (nf : Nats env (h.get self).measFactor Pf hf) (nm : Nats env (h.get self).marginal Pm hm)
    (sf : SymMat Pf) (sm : SymMat Pm) :
    h' = h ∨ ∃ γ α c y s Ps hs PF hF PM hM, (h.get self).damping = some γ ∧ (h.get self).power = some α ∧ (h.get self).meas = some y ∧
      (h.get self).marginal.truediv env (h.get self).measFactor = .ok c ∧ proj (h.get self).measFunc c y = .ok s ∧ Nats env s Ps hs ∧
      Nats env (h'.get self).measFactor PF hF ∧ Nats env (h'.get self).marginal PM hM ∧
      (PF.Full → ∀ i j, PF.bget i j = Pf.bget i j + γ * ((Ps.bget i j + Ps.bget j i) / 2 - Pm.bget i j)) ∧
      (hF.Full → ∀ i j, hF.bget i j = hf.bget i j + γ * (hs.bget i j - hm.bget i j)) ∧
      (PM.Full → ∀ i j, PM.bget i j = Pm.bget i j + γ / α * ((Ps.bget i j + Ps.bget j i) / 2 - Pm.bget i j)) ∧
      (hM.Full → ∀ i j, hM.bget i j = hm.bget i j + γ / α * (hs.bget i j - hm.bget i j)) := by
  rw [measUpdateBody_eq] at hrun
  cases hc : (h.get self).marginal.truediv env (h.get self).measFactor with
  | error e => rw [hc] at hrun; simp only [Prod.mk.injEq] at hrun; exact .inl hrun.2.symm
  | ok c =>
    rw [hc] at hrun
    cases hg : measValue env (h.get self) proj c with
    | error e => simp only [hg] at hrun; left; cases e <;> (simp only [Prod.mk.injEq] at hrun; exact hrun.2.symm)
    | ok p =>
      obtain ⟨F, M⟩ := p
      simp only [hg, Prod.mk.injEq] at hrun
      obtain ⟨y, s, hy, hs, -, hp⟩ := measValue_ok hg
      obtain ⟨γ, α, Ps, hs', PF, hF, PM, hM, d1, d2, -, n1, n2, n3, -, -, -, -, -, -, g1, g2, g3, g4⟩ := powerUpdate_nats hp nf nm sf sm
      refine .inr ⟨γ, α, c, y, s, Ps, hs', PF, hF, PM, hM, d1, d2, hy, rfl, hs, n1, ?_, ?_, g1, g3, g2, g4⟩
      · rw [← hrun.2, Heap.update_get_same]; exact n2
      · rw [← hrun.2, Heap.update_get_same]; exact n3

/-- **C37.** The same for a backward update. -/
theorem C37_back_interpolates (self : Ref) (proj : ProjBack) (h h' : Heap) (r : Py Unit) (hrun : backUpdateBody env self proj h = (r, h'))
    {Pf hf Pm hm : Arr} (nf : Nats env (h.get self).backFactor Pf hf) (nm : Nats env (h.get self).marginal Pm hm)
    (sf : SymMat Pf) (sm : SymMat Pm) :
    h' = h ∨ ∃ γ α x c nc s Ps hs PF hF PM hM, (h.get self).damping = some γ ∧ (h.get self).power = some α ∧ (h.get self).next = some x ∧
      (h.get self).marginal.truediv env (h.get self).backFactor = .ok c ∧
      proj (h.get x).transFunc c nc (some (h.get x).marginal) = .ok s ∧ Nats env s Ps hs ∧
      Nats env (h'.get self).backFactor PF hF ∧ Nats env (h'.get self).marginal PM hM ∧
      (PF.Full → ∀ i j, PF.bget i j = Pf.bget i j + γ * ((Ps.bget i j + Ps.bget j i) / 2 - Pm.bget i j)) ∧
      (hF.Full → ∀ i j, hF.bget i j = hf.bget i j + γ * (hs.bget i j - hm.bget i j)) ∧
      (PM.Full → ∀ i j, PM.bget i j = Pm.bget i j + γ / α * ((Ps.bget i j + Ps.bget j i) / 2 - Pm.bget i j)) ∧
      (hM.Full → ∀ i j, hM.bget i j = hm.bget i j + γ / α * (hs.bget i j - hm.bget i j)) := by
  rw [backUpdateBody_eq] at hrun
  cases hc : (h.get self).marginal.truediv env (h.get self).backFactor with
  | error e => rw [hc] at hrun; simp only [Prod.mk.injEq] at hrun; exact .inl hrun.2.symm
  | ok c =>
    rw [hc] at hrun
    cases hn : nextFwdCavity env h (h.get self) with
    | error e => simp only [hn] at hrun; left; cases e <;> (simp only [Prod.mk.injEq] at hrun; exact hrun.2.symm)
    | ok p =>
      obtain ⟨next, nc⟩ := p
      obtain ⟨x, hx, rfl⟩ : ∃ x, (h.get self).next = some x ∧ next = h.get x := by
        unfold nextFwdCavity at hn
        obtain ⟨x, h1, hn⟩ := py_bind_ok hn
        obtain ⟨_, _, hn⟩ := py_bind_ok hn
        obtain ⟨_, _, hn⟩ := py_bind_ok hn
        obtain ⟨_, _, hn⟩ := py_bind_ok hn
        obtain ⟨_, _, hn⟩ := py_bind_ok hn
        simp only [py_pure, Except.ok.injEq, Prod.mk.injEq] at hn
        exact ⟨x, attr_ok h1, hn.1.symm⟩
      cases hg : backValue env (h.get self) (h.get x) proj c nc with
      | error e => simp only [hn, hg] at hrun; left; cases e <;> (simp only [Prod.mk.injEq] at hrun; exact hrun.2.symm)
      | ok p =>
        obtain ⟨F, M⟩ := p
        simp only [hn, hg, Prod.mk.injEq] at hrun
        obtain ⟨s, hs, -, hp⟩ := backValue_ok hg
        obtain ⟨γ, α, Ps, hs', PF, hF, PM, hM, d1, d2, -, n1, n2, n3, -, -, -, -, -, -, g1, g2, g3, g4⟩ := powerUpdate_nats hp nf nm sf sm
        refine .inr ⟨γ, α, x, c, nc, s, Ps, hs', PF, hF, PM, hM, d1, d2, hx, rfl, hs, n1, ?_, ?_, g1, g3, g2, g4⟩
        · rw [← hrun.2, Heap.update_get_same]; exact n2
        · rw [← hrun.2, Heap.update_get_same]; exact n3

/-- **C37.** A forward update leaves the graph as it was, or it moves the natural parameters of the factor by `damping` times the difference
between the projected state and the old factor, and those of the marginal by `1 / power` times as much. -/
theorem C37_fwd_interpolates (self : Ref) (proj : ProjTrans) (h h' : Heap) (r : Py Unit) (hrun : fwdUpdateBody env self proj h = (r, h'))
    {Pf hf Pm hm : Arr} (nf : Nats env (h.get self).fwdFactor Pf hf) (nm : Nats env (h.get self).marginal Pm hm)
    (sf : SymMat Pf) (sm : SymMat Pm) :
    h' = h ∨ ∃ γ α c s Ps hs PF hF PM hM, (h.get self).damping = some γ ∧ (h.get self).power = some α ∧
      proj (h.get self).transFunc c = .ok s ∧ Nats env s Ps hs ∧
      Nats env (h'.get self).fwdFactor PF hF ∧ Nats env (h'.get self).marginal PM hM ∧
      (PF.Full → ∀ i j, PF.bget i j = Pf.bget i j + γ * ((Ps.bget i j + Ps.bget j i) / 2 - Pf.bget i j)) ∧
      (hF.Full → ∀ i j, hF.bget i j = hf.bget i j + γ * (hs.bget i j - hf.bget i j)) ∧
      (PM.Full → ∀ i j, PM.bget i j = Pm.bget i j + γ / α * ((Ps.bget i j + Ps.bget j i) / 2 - Pf.bget i j)) ∧
      (hM.Full → ∀ i j, hM.bget i j = hm.bget i j + γ / α * (hs.bget i j - hf.bget i j)) := by
  rw [fwdUpdateBody_eq] at hrun
  cases hc : fwdCavity env h (h.get self) with
  | error e => rw [hc] at hrun; simp only [Prod.mk.injEq] at hrun; exact .inl hrun.2.symm
  | ok c =>
    rw [hc] at hrun
    cases hg : fwdGuarded env (h.get self) proj c with
    | error e => simp only [hg] at hrun; left; cases e <;> (simp only [Prod.mk.injEq] at hrun; exact hrun.2.symm)
    | ok p =>
      obtain ⟨F, M⟩ := p
      simp only [hg, Prod.mk.injEq] at hrun
      obtain ⟨γ, α, s, Ps, hs', PF, hF, PM, hM, d1, d2, -, hs, n1, n2, n3, -, -, -, -, -, -, g1, g2, g3, g4⟩ := fwdGuarded_nats hg nf nm sf sm
      refine .inr ⟨γ, α, c, s, Ps, hs', PF, hF, PM, hM, d1, d2, hs, n1, ?_, ?_, g1, g3, g2, g4⟩
      · rw [← hrun.2, Heap.update_get_same]; exact n2
      · rw [← hrun.2, Heap.update_get_same]; exact n3

/-- **C37.** With damping zero no update changes any natural parameter of the factor or the marginal, accepted or not. -/
theorem C37_zero_damping (c : Upd × Ref) (h h' : Heap) (r : Py Unit) (hrun : Upd.call env c h = (r, h')) (q : Ref)
    (hd : (h.get q).damping = some 0) {PM hM PF hF PG hG PB hB : Arr}
    (n1 : Nats env (h.get q).marginal PM hM) (n2 : Nats env (h.get q).fwdFactor PF hF) (n3 : Nats env (h.get q).measFactor PG hG)
    (n4 : Nats env (h.get q).backFactor PB hB) (s1 : SymMat PM) (s2 : SymMat PF) (s3 : SymMat PG) (s4 : SymMat PB) :
    ∃ PM' hM' PF' hF' PG' hG' PB' hB' : Arr,
      Nats env (h'.get q).marginal PM' hM' ∧ Nats env (h'.get q).fwdFactor PF' hF' ∧ Nats env (h'.get q).measFactor PG' hG' ∧
      Nats env (h'.get q).backFactor PB' hB' ∧
      (PM'.Full → PM'.bget = PM.bget) ∧ (hM'.Full → hM'.bget = hM.bget) ∧ (PF'.Full → PF'.bget = PF.bget) ∧ (hF'.Full → hF'.bget = hF.bget) ∧
      (PG'.Full → PG'.bget = PG.bget) ∧ (hG'.Full → hG'.bget = hG.bget) ∧ (PB'.Full → PB'.bget = PB.bget) ∧
      (hB'.Full → hB'.bget = hB.bget) := by
  have same : h'.get q = h.get q → _ := fun e => show ∃ PM' hM' PF' hF' PG' hG' PB' hB' : Arr,
      Nats env (h'.get q).marginal PM' hM' ∧ Nats env (h'.get q).fwdFactor PF' hF' ∧ Nats env (h'.get q).measFactor PG' hG' ∧
      Nats env (h'.get q).backFactor PB' hB' ∧
      (PM'.Full → PM'.bget = PM.bget) ∧ (hM'.Full → hM'.bget = hM.bget) ∧ (PF'.Full → PF'.bget = PF.bget) ∧ (hF'.Full → hF'.bget = hF.bget) ∧
      (PG'.Full → PG'.bget = PG.bget) ∧ (hG'.Full → hG'.bget = hG.bget) ∧ (PB'.Full → PB'.bget = PB.bget) ∧
      (hB'.Full → hB'.bget = hB.bget) from
    ⟨PM, hM, PF, hF, PG, hG, PB, hB, by rw [e]; exact n1, by rw [e]; exact n2, by rw [e]; exact n3, by rw [e]; exact n4,
      fun _ => rfl, fun _ => rfl, fun _ => rfl, fun _ => rfl, fun _ => rfl, fun _ => rfl, fun _ => rfl, fun _ => rfl⟩
  obtain ⟨-, hloc, hrest⟩ := call_local (env := env) c h
  rw [hrun] at hloc hrest
  by_cases ht : Upd.target h c = some q
  · obtain ⟨k, x⟩ := c
    cases k with
    | fwd =>
      simp only [Upd.target, Option.map_eq_some_iff, Prod.exists, exists_and_right, exists_eq_right] at ht
      obtain ⟨p, hp'⟩ := ht
      simp only [Upd.call, fwdCall, PyM.get_bind, hp'] at hrun
      rcases C37_fwd_interpolates q p h h' r hrun n2 n1 s2 s1 with e | ⟨γ, α, _, _, Ps, hs, PF', hF', PM', hM', d, -, -, -, a1, a2, g1, g2, g3, g4⟩
      · exact same (by rw [e])
      · obtain rfl : γ = 0 := by simpa [hd] using d.symm
        refine ⟨PM', hM', PF', hF', PG, hG, PB, hB, a2, a1, by rw [hrest q]; exact n3, by rw [hrest q]; exact n4, fun f => ?_, fun f => ?_,
          fun f => ?_, fun f => ?_, fun _ => rfl, fun _ => rfl, fun _ => rfl, fun _ => rfl⟩ <;> funext i j
        · rw [g3 f]; simp
        · rw [g4 f]; simp
        · rw [g1 f]; simp
        · rw [g2 f]; simp
    | meas =>
      simp only [Upd.target, Option.map_eq_some_iff, Prod.exists, exists_and_right, exists_eq_right] at ht
      obtain ⟨p, hp'⟩ := ht
      simp only [Upd.call, measCall, PyM.get_bind, hp'] at hrun
      rcases C37_meas_interpolates q p h h' r hrun n3 n1 s3 s1 with
        e | ⟨γ, α, _, _, _, Ps, hs, PG', hG', PM', hM', d, -, -, -, -, -, a1, a2, g1, g2, g3, g4⟩
      · exact same (by rw [e])
      · obtain rfl : γ = 0 := by simpa [hd] using d.symm
        refine ⟨PM', hM', PF, hF, PG', hG', PB, hB, a2, by rw [hrest q]; exact n2, a1, by rw [hrest q]; exact n4, fun f => ?_, fun f => ?_,
          fun _ => rfl, fun _ => rfl, fun f => ?_, fun f => ?_, fun _ => rfl, fun _ => rfl⟩ <;> funext i j
        · rw [g3 f]; simp
        · rw [g4 f]; simp
        · rw [g1 f]; simp
        · rw [g2 f]; simp
    | back =>
      simp only [Upd.target, Option.map_eq_some_iff, Prod.exists, exists_and_right, exists_eq_right] at ht
      obtain ⟨p, hp'⟩ := ht
      simp only [Upd.call, backCall, PyM.get_bind, hp'] at hrun
      rcases C37_back_interpolates q p h h' r hrun n4 n1 s4 s1 with
        e | ⟨γ, α, _, _, _, _, Ps, hs, PB', hB', PM', hM', d, -, -, -, -, -, a1, a2, g1, g2, g3, g4⟩
      · exact same (by rw [e])
      · obtain rfl : γ = 0 := by simpa [hd] using d.symm
        refine ⟨PM', hM', PF, hF, PG, hG, PB', hB', a2, by rw [hrest q]; exact n2, by rw [hrest q]; exact n3, a1, fun f => ?_, fun f => ?_,
          fun _ => rfl, fun _ => rfl, fun _ => rfl, fun _ => rfl, fun f => ?_, fun f => ?_⟩ <;> funext i j
        · rw [g3 f]; simp
        · rw [g4 f]; simp
        · rw [g1 f]; simp
        · rw [g2 f]; simp
  · exact same (hloc q ht)

/-- An accepted `power_update` on matrices. -/
theorem powerUpdate_natural {n : ℕ} {nd : Node} {s f m : Gaussian} {Ps Pf Pm : Matrix (Fin n) (Fin n) ℝ} {hs hf hm : Fin n → ℝ} {γ α : ℝ}
    (ns : HasNatural env s Ps hs) (nf : HasNatural env f Pf hf) (nm : HasNatural env m Pm hm) (ss : Psᵀ = Ps) (sf : Pfᵀ = Pf) (sm : Pmᵀ = Pm)
    (hγ : nd.damping = some γ) (hα : nd.power = some α) (hα0 : α ≠ 0) (hpd : (Pm + (γ / α) • (Ps - Pm)).PosDef)
    (ht : 1 / 10 ^ 10 ≤ (Pm + (γ / α) • (Ps - Pm)).trace) (hill : env.illPos (Pm + (γ / α) • (Ps - Pm)) = false) :
    nd.powerUpdate env s f m = .ok (ofNatural (.m (Pf + γ • (Ps - Pm))) (.v (hf + γ • (hs - hm))),
      ofNatural (.m (Pm + (γ / α) • (Ps - Pm))) (.v (hm + (γ / α) • (hs - hm)))) := by
  have n1 : HasNatural env (ofNatural (.m (Ps - Pm)) (.v (hs - hm))) (Ps - Pm) (hs - hm) := hasNatural_ofNatural _ _ _
  have hv := (moment_of_natural (env := env) (hm + (γ / α) • (hs - hm)) hpd ht hill).2
  unfold powerUpdate
  simp only [hγ, hα, attr, ok_bind, truediv_natural ns nm, pow_natural n1, pyDiv, hα0, if_false]
  rw [mul_natural nf (hasNatural_ofNatural _ _ _) sf (by rw [transpose_smul, transpose_sub, ss, sm]),
    mul_natural nm (hasNatural_ofNatural _ _ _) sm (by rw [transpose_smul, transpose_sub, ss, sm])]
  simp only [ok_bind, validateCovariance, hv, npCholesky_posDef hpd.inv, py_pure]

/-- **C37.** When a measurement update is accepted, and what it then does, for matrices and vectors: node with natural parameters
`(Pm, hm)` and factor `(Pf, hf)`, valid projected state `(Ps, hs)`; the new marginal precision must be positive definite. -/
theorem C37_meas_accepted {n : ℕ} (self : Ref) (proj : ProjMeas) (h : Heap) {s : Gaussian} {y : Arr} {Ps Pf Pm : Matrix (Fin n) (Fin n) ℝ}
    {hs hf hm : Fin n → ℝ} {γ α : ℝ}
    (nm : HasNatural env (h.get self).marginal Pm hm) (nf : HasNatural env (h.get self).measFactor Pf hf) (ns : HasNatural env s Ps hs)
    (sm : Pmᵀ = Pm) (sf : Pfᵀ = Pf) (ss : Psᵀ = Ps) (hγ : (h.get self).damping = some γ) (hα : (h.get self).power = some α) (hα0 : α ≠ 0)
    (hy : (h.get self).meas = some y) (hproj : proj (h.get self).measFunc (ofNatural (.m (Pm - Pf)) (.v (hm - hf))) y = .ok s)
    (hv : validateCovariance env s = .ok ()) (hpd : (Pm + (γ / α) • (Ps - Pm)).PosDef)
    (ht : 1 / 10 ^ 10 ≤ (Pm + (γ / α) • (Ps - Pm)).trace) (hill : env.illPos (Pm + (γ / α) • (Ps - Pm)) = false) :
    ∃ h', measUpdateBody env self proj h = (.ok (), h') ∧
      HasNatural env (h'.get self).measFactor (Pf + γ • (Ps - Pm)) (hf + γ • (hs - hm)) ∧
      HasNatural env (h'.get self).marginal (Pm + (γ / α) • (Ps - Pm)) (hm + (γ / α) • (hs - hm)) ∧
      (α = 1 → γ = 1 → HasNatural env (h'.get self).marginal Ps hs) := by
  have hu := powerUpdate_natural (env := env) (nd := h.get self) ns nf nm ss sf sm hγ hα hα0 hpd ht hill
  have hg : measValue env (h.get self) proj (ofNatural (.m (Pm - Pf)) (.v (hm - hf))) =
      (h.get self).powerUpdate env s (h.get self).measFactor (h.get self).marginal := by
    unfold measValue
    simp only [hy, attr, ok_bind, hproj, hv]
  rw [hu] at hg
  refine ⟨h.update self (setMeas (ofNatural (.m (Pf + γ • (Ps - Pm))) (.v (hf + γ • (hs - hm))))
      (ofNatural (.m (Pm + (γ / α) • (Ps - Pm))) (.v (hm + (γ / α) • (hs - hm))))), ?_, ?_, ?_, ?_⟩
  · rw [measUpdateBody_eq, truediv_natural nm nf]
    simp only [hg]
  · rw [Heap.update_get_same]; exact hasNatural_ofNatural _ _ _
  · rw [Heap.update_get_same]; exact hasNatural_ofNatural _ _ _
  · rintro rfl rfl
    rw [Heap.update_get_same]
    have e1 : Pm + (1 / 1 : ℝ) • (Ps - Pm) = Ps := by simp
    have e2 : hm + (1 / 1 : ℝ) • (hs - hm) = hs := by simp
    rw [e1, e2]
    exact hasNatural_ofNatural _ _ _

/-- **C37.** The same for a backward update. -/
theorem C37_back_accepted {n : ℕ} (self x : Ref) (proj : ProjBack) (h : Heap) {s : Gaussian} {Ps Pf Pm Pn Pg : Matrix (Fin n) (Fin n) ℝ}
    {hs hf hm hn hg : Fin n → ℝ} {γ α : ℝ}
    (nm : HasNatural env (h.get self).marginal Pm hm) (nf : HasNatural env (h.get self).backFactor Pf hf) (ns : HasNatural env s Ps hs)
    (nn : HasNatural env (h.get x).marginal Pn hn) (ng : HasNatural env (h.get x).fwdFactor Pg hg) (hx : (h.get self).next = some x)
    (sm : Pmᵀ = Pm) (sf : Pfᵀ = Pf) (ss : Psᵀ = Ps) (hγ : (h.get self).damping = some γ) (hα : (h.get self).power = some α) (hα0 : α ≠ 0)
    (hproj : proj (h.get x).transFunc (ofNatural (.m (Pm - Pf)) (.v (hm - hf))) (ofNatural (.m (Pn - (1 / α) • Pg)) (.v (hn - (1 / α) • hg)))
      (some (h.get x).marginal) = .ok s)
    (hv : validateCovariance env s = .ok ()) (hpd : (Pm + (γ / α) • (Ps - Pm)).PosDef)
    (ht : 1 / 10 ^ 10 ≤ (Pm + (γ / α) • (Ps - Pm)).trace) (hill : env.illPos (Pm + (γ / α) • (Ps - Pm)) = false) :
    ∃ h', backUpdateBody env self proj h = (.ok (), h') ∧
      HasNatural env (h'.get self).backFactor (Pf + γ • (Ps - Pm)) (hf + γ • (hs - hm)) ∧
      HasNatural env (h'.get self).marginal (Pm + (γ / α) • (Ps - Pm)) (hm + (γ / α) • (hs - hm)) ∧
      (α = 1 → γ = 1 → HasNatural env (h'.get self).marginal Ps hs) := by
  have hn' : nextFwdCavity env h (h.get self) = .ok (h.get x, ofNatural (.m (Pn - (1 / α) • Pg)) (.v (hn - (1 / α) • hg))) := by
    unfold nextFwdCavity
    simp only [hx, hα, attr, ok_bind, pyDiv, hα0, if_false, pow_natural ng]
    rw [truediv_natural nn (hasNatural_ofNatural _ _ _)]
    rfl
  have hg' : backValue env (h.get self) (h.get x) proj (ofNatural (.m (Pm - Pf)) (.v (hm - hf)))
      (ofNatural (.m (Pn - (1 / α) • Pg)) (.v (hn - (1 / α) • hg))) =
      (h.get self).powerUpdate env s (h.get self).backFactor (h.get self).marginal := by
    unfold backValue
    simp only [ok_bind, hproj, hv]
  have hu := powerUpdate_natural (env := env) (nd := h.get self) ns nf nm ss sf sm hγ hα hα0 hpd ht hill
  rw [hu] at hg'
  refine ⟨h.update self (setBack (ofNatural (.m (Pf + γ • (Ps - Pm))) (.v (hf + γ • (hs - hm))))
      (ofNatural (.m (Pm + (γ / α) • (Ps - Pm))) (.v (hm + (γ / α) • (hs - hm))))), ?_, ?_, ?_, ?_⟩
  · rw [backUpdateBody_eq, truediv_natural nm nf]
    simp only [hn', hg']
  · rw [Heap.update_get_same]; exact hasNatural_ofNatural _ _ _
  · rw [Heap.update_get_same]; exact hasNatural_ofNatural _ _ _
  · rintro rfl rfl
    rw [Heap.update_get_same]
    have e1 : Pm + (1 / 1 : ℝ) • (Ps - Pm) = Ps := by simp
    have e2 : hm + (1 / 1 : ℝ) • (hs - hm) = hs := by simp
    rw [e1, e2]
    exact hasNatural_ofNatural _ _ _

-- a node with marginal precision 1 and a neutral factor; projected state with precision 3 and shift 5; power 1/2, damping 1/4:
-- the factor moves a quarter of the way, the marginal half of it
example : ∃ h', measUpdateBody calmEnv 0 (fun _ _ _ => .ok (ofNatural (.m (m1 3)) (.v (v1 5))))
      ⟨fun _ => { Node.init 1 0 with marginal := ofNatural (.m (m1 1)) (.v (v1 0)), power := some (1 / 2), damping := some (1 / 4),
                                      meas := some (.s 0) }, 1⟩ = (.ok (), h') ∧
    HasNatural calmEnv (h'.get 0).measFactor (m1 (1 / 2)) (v1 (5 / 4)) ∧ HasNatural calmEnv (h'.get 0).marginal (m1 2) (v1 (5 / 2)) := by
  have e1 : m1 1 + ((1 / 4 : ℝ) / (1 / 2)) • (m1 3 - m1 1) = m1 2 := by simp; norm_num
  have e2 : (0 : Matrix (Fin 1) (Fin 1) ℝ) + (1 / 4 : ℝ) • (m1 3 - m1 1) = m1 (1 / 2) := by rw [m1_zero]; simp; norm_num
  have hpd : (m1 2).PosDef := m1_posDef.2 (by norm_num)
  have hpd3 : (m1 3).PosDef := m1_posDef.2 (by norm_num)
  obtain ⟨h', a, b, c, -⟩ := C37_meas_accepted (env := calmEnv) (n := 1) 0 (fun _ _ _ => .ok (ofNatural (.m (m1 3)) (.v (v1 5))))
      ⟨fun _ => { Node.init 1 0 with marginal := ofNatural (.m (m1 1)) (.v (v1 0)), power := some (1 / 2), damping := some (1 / 4),
                                      meas := some (.s 0) }, 1⟩ (Pf := 0) (hf := 0) (hasNatural_ofNatural _ _ _) (hasNatural_ofNatural _ _ _)
      (hasNatural_ofNatural _ _ _) rfl rfl rfl rfl rfl (by norm_num) rfl rfl
      (by
        have := (moment_of_natural (env := calmEnv) (v1 5) hpd3 (by simp [TRACE_EPS]; norm_num) rfl).2
        simp only [validateCovariance, this, ok_bind]
        exact npCholesky_posDef hpd3.inv)
      (by rw [e1]; exact hpd) (by rw [e1]; simp; norm_num) rfl
  refine ⟨h', a, ?_, ?_⟩
  · rw [e2] at b
    have : (0 : Fin 1 → ℝ) + (1 / 4 : ℝ) • (v1 5 - v1 0) = v1 (5 / 4) := by rw [v1_zero]; simp; norm_num
    rwa [this] at b
  · rw [e1] at c
    have : v1 0 + ((1 / 4 : ℝ) / (1 / 2)) • (v1 5 - v1 0) = v1 (5 / 2) := by simp; norm_num
    rwa [this] at c

end Verif

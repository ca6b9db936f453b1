import Verif.Lemmas.ScalarOps
import Verif.Lemmas.Build

/-! Node updates on the line compute the recursion of `Chain`. -/

namespace Verif

open Matrix Gaussian Node

variable {env : Env}

/-- `g` is the factor `a`: in natural parameters, or the marginal nodes start with. -/
def Enc (g : Gaussian) (a : Site) : Prop := g = nG a ∨ (g = asMarginal 1 ∧ a = ⟨false, 1 / 10 ^ 10, 0⟩)

theorem Enc.is {g : Gaussian} {a : Site} (hc : Calm1 env) (h : Enc g a) : Is env g a := by
  rcases h with rfl | ⟨rfl, rfl⟩
  · exact is_nG hc a
  · exact asMarginal_is hc

/-- The node differs from `base` in marginal and factors only, and these are `v`. -/
structure NodeSim (nd base : Node) (v : Vals) : Prop where
  rest : nd = { base with marginal := nd.marginal, fwdFactor := nd.fwdFactor, measFactor := nd.measFactor, backFactor := nd.backFactor }
  M : Enc nd.marginal v.M
  F : nd.fwdFactor = nG v.F
  Y : nd.measFactor = nG v.Y
  B : nd.backFactor = nG v.B

namespace NodeSim

variable {nd base : Node} {v : Vals}

theorem prev (h : NodeSim nd base v) : nd.prev = base.prev := (congrArg Node.prev h.rest :)
theorem next (h : NodeSim nd base v) : nd.next = base.next := (congrArg Node.next h.rest :)
theorem power (h : NodeSim nd base v) : nd.power = base.power := (congrArg Node.power h.rest :)
theorem damping (h : NodeSim nd base v) : nd.damping = base.damping := (congrArg Node.damping h.rest :)
theorem transFunc (h : NodeSim nd base v) : nd.transFunc = base.transFunc := (congrArg Node.transFunc h.rest :)
theorem measFunc (h : NodeSim nd base v) : nd.measFunc = base.measFunc := (congrArg Node.measFunc h.rest :)
theorem meas (h : NodeSim nd base v) : nd.meas = base.meas := (congrArg Node.meas h.rest :)
theorem prior (h : NodeSim nd base v) : nd.prior = base.prior := (congrArg Node.prior h.rest :)
theorem fwdUpdate (h : NodeSim nd base v) : nd.fwdUpdate = base.fwdUpdate := (congrArg Node.fwdUpdate h.rest :)
theorem measUpdate (h : NodeSim nd base v) : nd.measUpdate = base.measUpdate := (congrArg Node.measUpdate h.rest :)
theorem backUpdate (h : NodeSim nd base v) : nd.backUpdate = base.backUpdate := (congrArg Node.backUpdate h.rest :)

theorem setFwd (h : NodeSim nd base v) (F M : Site) : NodeSim (Node.setFwd (nG F) (nG M) nd) base { v with F := F, M := M } :=
  ⟨(congrArg (Node.setFwd (nG F) (nG M)) h.rest :), .inl rfl, rfl, h.Y, h.B⟩
theorem setMeas (h : NodeSim nd base v) (F M : Site) : NodeSim (Node.setMeas (nG F) (nG M) nd) base { v with Y := F, M := M } :=
  ⟨(congrArg (Node.setMeas (nG F) (nG M)) h.rest :), .inl rfl, h.F, rfl, h.B⟩
theorem setBack (h : NodeSim nd base v) (F M : Site) : NodeSim (Node.setBack (nG F) (nG M) nd) base { v with B := F, M := M } :=
  ⟨(congrArg (Node.setBack (nG F) (nG M)) h.rest :), .inl rfl, h.F, h.Y, rfl⟩

/-- Two nodes with the same values are equal, if the marginal is not the initial one. -/
theorem unique {nd' : Node} (h : NodeSim nd base v) (h' : NodeSim nd' base v) (hM : v.M.sh = true) : nd = nd' := by
  have key : ∀ g, Enc g v.M → g = nG v.M := by
    rintro g (h | ⟨-, h⟩)
    · exact h
    · rw [h] at hM; cases hM
  rw [h.rest, h'.rest, key _ h.M, key _ h'.M, h.F, h'.F, h.Y, h'.Y, h.B, h'.B]

end NodeSim

/-- The nodes `s, …, s + N - 1` hold the values `V`, everything else is as in `h0`. -/
structure Sim (env : Env) (e : Estimator) (sys : Sys) (ys : List Arr) (N s : ℕ) (h0 h : Heap) (V : ℕ → Vals) : Prop where
  size : h.size = h0.size
  frame : ∀ q : ℕ, (q < s ∨ s + N ≤ q) → h.get q = h0.get q
  node : ∀ i y, ys[i]? = some y → NodeSim (h.get (s + i)) (builtNode env e sys s N 1 i y) (V i)

variable {e : Estimator} {sys : Sys} {ys : List Arr} {N s : ℕ} {h0 h : Heap} {V : ℕ → Vals} {c : Chain}

theorem Models.get_obs (hm : Models env e sys ys N c) {i : ℕ} (hi : i < N) : ∃ y, ys[i]? = some y := by
  rw [← hm.length] at hi
  exact ⟨ys[i], List.getElem?_eq_getElem hi⟩

theorem Sim.update (hs : Sim env e sys ys N s h0 h V) {i : ℕ} (hi : i < N) (f : Node → Node) (v : Vals)
    (hf : ∀ y, ys[i]? = some y → NodeSim (f (h.get (s + i))) (builtNode env e sys s N 1 i y) v) :
    Sim env e sys ys N s h0 (h.update (s + i) f) (Function.update V i v) := by
  refine ⟨hs.size, fun q hq => ?_, fun j y hy => ?_⟩
  · rw [Heap.update_get_ne _ (ref_ne (by omega)), hs.frame q hq]
  · by_cases hj : j = i
    · subst hj
      rw [Heap.update_get_same, Function.update_self]
      exact hf y hy
    · rw [Heap.update_get_ne _ (ref_ne fun hc => hj (Nat.add_left_cancel hc)), Function.update_of_ne hj]
      exact hs.node j y hy

theorem Sim.unique {h' : Heap} (hlen : ys.length = N) (hs : Sim env e sys ys N s h0 h V) (hs' : Sim env e sys ys N s h0 h' V)
    (hM : ∀ i, i < N → (V i).M.sh = true) : h' = h := by
  refine Heap.ext' (fun (q : ℕ) => ?_) (hs'.size.trans hs.size.symm)
  by_cases hq : q < s ∨ s + N ≤ q
  · rw [hs'.frame q hq, hs.frame q hq]
  · obtain ⟨i, rfl⟩ : ∃ i, q = s + i := ⟨q - s, by omega⟩
    have hi : i < N := by omega
    have hy : ys[i]? = some (ys[i]'(by omega)) := List.getElem?_eq_getElem (by omega)
    exact (hs'.node i _ hy).unique (hs.node i _ hy) (hM i hi)

/-- The cavity of a forward update. -/
theorem Sim.fwdCavity (hm : Models env e sys ys N c) (hr : c.Regular) (hs : Sim env e sys ys N s h0 h V) {i : ℕ} (hi : i < N) :
    ∃ g b, fwdCavity env h (h.get (s + i)) = .ok g ∧ Mom1 env g b (c.cavity V i).1 (c.cavity V i).2 ∧ 0 < (c.cavity V i).2 := by
  obtain ⟨y, hy⟩ := hm.get_obs hi
  have hn := hs.node i y hy
  cases i with
  | zero =>
    refine ⟨sys.initState, false, ?_, hm.prior, hr.p0⟩
    have h1 : (h.get (s + 0)).prev = none := hn.prev
    have h2 : (h.get (s + 0)).prior = some sys.initState := hn.prior
    simp only [Node.fwdCavity, backCavityFromPrev, h1, h2, attr, error_bind]
  | succ i =>
    obtain ⟨y', hy'⟩ := hm.get_obs (show i < N by omega)
    have hp := hs.node i y' hy'
    have h1 : (h.get (s + (i + 1))).prev = some (s + i) := hn.prev
    have h2 : (h.get (s + (i + 1))).power = some c.α := hn.power.trans (by rw [← hm.power]; rfl)
    refine ⟨nG ((V i).M - (1 / c.α) • (V i).B), ((V i).M - (1 / c.α) • (V i).B).meanSh, ?_, (is_nG hm.calm _).mom, Site.var_pos _⟩
    simp only [Node.fwdCavity, backCavityFromPrev, h1, h2, attr, ok_bind, pyDiv, if_neg hr.α.ne', hp.B, (natIs_nG _).pow,
      (hp.M.is hm.calm).nat.truediv (natIs_nG _)]

theorem Sim.fwd (hm : Models env e sys ys N c) (hr : c.Regular) (hs : Sim env e sys ys N s h0 h V) {i : ℕ} (hi : i < N) :
    ∃ h', fwdCall env (s + i) h = (.ok (), h') ∧ Sim env e sys ys N s h0 h' (c.fwd i V) := by
  obtain ⟨g, b, hcav, hg, hp⟩ := hs.fwdCavity hm hr hi
  obtain ⟨y, hy⟩ := hm.get_obs hi
  have hn := hs.node i y hy
  have h1 : (h.get (s + i)).fwdUpdate = some (s + i, e.projTrans) := hn.fwdUpdate
  have h2 : (h.get (s + i)).power = some c.α := hn.power.trans (by rw [← hm.power]; rfl)
  have h3 : (h.get (s + i)).damping = some c.γ := hn.damping.trans (by rw [← hm.damping]; rfl)
  have h4 : (h.get (s + i)).transFunc = fun x => sys.transition x (some (i * sys.dt)) (some 0) := hn.transFunc
  have hcv : c.fwd i V = Function.update V i { V i with
      F := (1 - c.γ) • (V i).F + c.γ • Site.ofMoments false ((c.τ i).X (c.cavity V i).1 (c.cavity V i).2)
        (((c.τ i).S (c.cavity V i).1 (c.cavity V i).2 + c.q) / c.α)
      M := (V i).M + (1 / c.α) • ((1 - c.γ) • (V i).F + c.γ • Site.ofMoments false ((c.τ i).X (c.cavity V i).1 (c.cavity V i).2)
        (((c.τ i).S (c.cavity V i).1 (c.cavity V i).2 + c.q) / c.α) - (V i).F) } := rfl
  rw [hcv]
  generalize (c.cavity V i).1 = m at *
  generalize (c.cavity V i).2 = p at *
  have hS := (hr.τ i m p hp).1
  have hs' : 0 < (c.τ i).S m p + c.q := by have := hr.q; linarith
  have hpos : 0 < ((c.τ i).S m p + c.q) / c.α := div_pos hs' hr.α
  have hproj := projTrans_scalar (hm.trans i hi) (by rw [hm.power]; exact hr.α) hm.Q hg hp hs'
  rw [hm.power] at hproj
  have hg2 : fwdGuarded env (h.get (s + i)) e.projTrans g = .ok
      (nG ((1 - c.γ) • (V i).F + c.γ • Site.ofMoments false ((c.τ i).X m p) (((c.τ i).S m p + c.q) / c.α)),
       nG ((V i).M + (1 / c.α) • ((1 - c.γ) • (V i).F + c.γ • Site.ofMoments false ((c.τ i).X m p)
        (((c.τ i).S m p + c.q) / c.α) - (V i).F))) := by
    simp only [fwdGuarded, h4, hproj, ok_bind, (mom1_ofMoment _ _ _).validate hpos, h3, h2, attr, hn.F, (natIs_nG _).pow,
      (natIs_ofMoment hm.calm _ _ hpos).pow, (natIs_nG _).mul (natIs_nG _), pyDiv, if_neg hr.α.ne', (natIs_nG _).truediv (natIs_nG _),
      (hn.M.is hm.calm).nat.mul (natIs_nG _), (is_nG hm.calm _).validate]
    rfl
  refine ⟨_, ?_, hs.update hi (setFwd _ _) _ fun y' hy' => (hs.node i y' hy').setFwd _ _⟩
  unfold fwdCall
  rw [PyM.get_bind, h1]
  dsimp only
  rw [fwdUpdateBody_eq, hcav]
  simp only [hg2]

theorem Sim.powerUpdate (hm : Models env e sys ys N c) (hr : c.Regular) {nd : Node} (h2 : nd.power = some c.α)
    (h3 : nd.damping = some c.γ) {st f mg : Gaussian} {a x m : Site} (hst : NatIs env st a) (hf : NatIs env f x) (hmg : NatIs env mg m) :
    nd.powerUpdate env st f mg = .ok (nG (x + c.γ • (a - m)), nG (m + (c.γ / c.α) • (a - m))) := by
  simp only [Node.powerUpdate, h2, h3, attr, ok_bind, hst.truediv hmg, (natIs_nG _).pow, hf.mul (natIs_nG _), pyDiv, if_neg hr.α.ne',
    hmg.mul (natIs_nG _), (is_nG hm.calm _).validate, py_pure]

theorem Sim.meas (hm : Models env e sys ys N c) (hr : c.Regular) (hs : Sim env e sys ys N s h0 h V) {i : ℕ} (hi : i < N) :
    ∃ h', measCall env (s + i) h = (.ok (), h') ∧ Sim env e sys ys N s h0 h' (c.meas i V) := by
  obtain ⟨y, hy⟩ := hm.get_obs hi
  have hn := hs.node i y hy
  have h1 : (h.get (s + i)).measUpdate = some (s + i, e.projMeas env) := hn.measUpdate
  have h2 : (h.get (s + i)).power = some c.α := hn.power.trans (by rw [← hm.power]; rfl)
  have h3 : (h.get (s + i)).damping = some c.γ := hn.damping.trans (by rw [← hm.damping]; rfl)
  have h4 : (h.get (s + i)).measFunc = fun x => sys.measurement x none none := hn.measFunc
  have h5 : (h.get (s + i)).meas = some y.squeeze := hn.meas
  have hcav := (is_nG hm.calm ((V i).M - (V i).Y)).mom
  have hp := ((V i).M - (V i).Y).var_pos
  obtain ⟨q1, q2⟩ := hr.κ.meas_pos (m := ((V i).M - (V i).Y).mean) hp (div_pos hr.r hr.α)
  have hproj := projMeas_scalar hm.meas (by rw [hm.power]; exact hr.α) hm.R hcav hp (by rw [hm.power]; exact q1) (hm.obs i y hy)
  rw [hm.power] at hproj
  have hv := Sim.powerUpdate hm hr h2 h3 (natIs_ofMoment hm.calm true (((V i).M - (V i).Y).mean +
    c.κ.C ((V i).M - (V i).Y).mean ((V i).M - (V i).Y).var / (c.κ.S ((V i).M - (V i).Y).mean ((V i).M - (V i).Y).var + c.r / c.α) *
      (c.y i - c.κ.X ((V i).M - (V i).Y).mean ((V i).M - (V i).Y).var)) q2) (natIs_nG (V i).Y) (hn.M.is hm.calm).nat
  refine ⟨_, ?_, hs.update hi (setMeas _ _) _ fun y' hy' => (hs.node i y' hy').setMeas _ _⟩
  unfold measCall
  rw [PyM.get_bind, h1]
  dsimp only
  rw [measUpdateBody_eq, hn.Y, (hn.M.is hm.calm).nat.truediv (natIs_nG _)]
  simp only [measValue, h5, attr, ok_bind, h4, hproj, (mom1_ofMoment _ _ _).validate q2, hn.Y, hv]

theorem Sim.back (hm : Models env e sys ys N c) (hr : c.Regular) (hs : Sim env e sys ys N s h0 h V) {i : ℕ} (hi : i + 1 < N) :
    ∃ h', backCall env (s + i) h = (.ok (), h') ∧ Sim env e sys ys N s h0 h' (c.back i V) := by
  have hi' : i < N := by omega
  obtain ⟨y, hy⟩ := hm.get_obs hi'
  obtain ⟨y', hy'⟩ := hm.get_obs hi
  have hn := hs.node i y hy
  have hx := hs.node (i + 1) y' hy'
  have h1 : (h.get (s + i)).backUpdate = some (s + i, e.projBack env) := hn.backUpdate
  have h2 : (h.get (s + i)).power = some c.α := hn.power.trans (by rw [← hm.power]; rfl)
  have h3 : (h.get (s + i)).damping = some c.γ := hn.damping.trans (by rw [← hm.damping]; rfl)
  have h4 : (h.get (s + (i + 1))).transFunc = fun x => sys.transition x (some ((i + 1 : ℕ) * sys.dt)) (some 0) := hx.transFunc
  have h5 : (h.get (s + i)).next = some (s + (i + 1)) := hn.next.trans (if_pos hi)
  have hcv : c.back i V = Function.update V i { V i with
      B := (V i).B + c.γ • (Site.ofMoments (((V i).M - (V i).B).meanSh || (c.target i V ((c.τ (i + 1)).X ((V i).M - (V i).B).mean ((V i).M - (V i).B).var) ((c.τ (i + 1)).S ((V i).M - (V i).B).mean ((V i).M - (V i).B).var + c.q / c.α)).meanSh)
        (((V i).M - (V i).B).mean + (c.τ (i + 1)).C ((V i).M - (V i).B).mean ((V i).M - (V i).B).var / ((c.τ (i + 1)).S ((V i).M - (V i).B).mean ((V i).M - (V i).B).var + c.q / c.α) * ((c.target i V ((c.τ (i + 1)).X ((V i).M - (V i).B).mean ((V i).M - (V i).B).var) ((c.τ (i + 1)).S ((V i).M - (V i).B).mean ((V i).M - (V i).B).var + c.q / c.α)).mean - (c.τ (i + 1)).X ((V i).M - (V i).B).mean ((V i).M - (V i).B).var))
        (((V i).M - (V i).B).var + ((c.τ (i + 1)).C ((V i).M - (V i).B).mean ((V i).M - (V i).B).var / ((c.τ (i + 1)).S ((V i).M - (V i).B).mean ((V i).M - (V i).B).var + c.q / c.α)) ^ 2 * ((c.target i V ((c.τ (i + 1)).X ((V i).M - (V i).B).mean ((V i).M - (V i).B).var) ((c.τ (i + 1)).S ((V i).M - (V i).B).mean ((V i).M - (V i).B).var + c.q / c.α)).var - ((c.τ (i + 1)).S ((V i).M - (V i).B).mean ((V i).M - (V i).B).var + c.q / c.α))) - (V i).M)
      M := (V i).M + (c.γ / c.α) • (Site.ofMoments (((V i).M - (V i).B).meanSh || (c.target i V ((c.τ (i + 1)).X ((V i).M - (V i).B).mean ((V i).M - (V i).B).var) ((c.τ (i + 1)).S ((V i).M - (V i).B).mean ((V i).M - (V i).B).var + c.q / c.α)).meanSh)
        (((V i).M - (V i).B).mean + (c.τ (i + 1)).C ((V i).M - (V i).B).mean ((V i).M - (V i).B).var / ((c.τ (i + 1)).S ((V i).M - (V i).B).mean ((V i).M - (V i).B).var + c.q / c.α) * ((c.target i V ((c.τ (i + 1)).X ((V i).M - (V i).B).mean ((V i).M - (V i).B).var) ((c.τ (i + 1)).S ((V i).M - (V i).B).mean ((V i).M - (V i).B).var + c.q / c.α)).mean - (c.τ (i + 1)).X ((V i).M - (V i).B).mean ((V i).M - (V i).B).var))
        (((V i).M - (V i).B).var + ((c.τ (i + 1)).C ((V i).M - (V i).B).mean ((V i).M - (V i).B).var / ((c.τ (i + 1)).S ((V i).M - (V i).B).mean ((V i).M - (V i).B).var + c.q / c.α)) ^ 2 * ((c.target i V ((c.τ (i + 1)).X ((V i).M - (V i).B).mean ((V i).M - (V i).B).var) ((c.τ (i + 1)).S ((V i).M - (V i).B).mean ((V i).M - (V i).B).var + c.q / c.α)).var - ((c.τ (i + 1)).S ((V i).M - (V i).B).mean ((V i).M - (V i).B).var + c.q / c.α))) - (V i).M) } := rfl
  rw [hcv]
  have hcav := (is_nG hm.calm ((V i).M - (V i).B)).mom
  have hp := ((V i).M - (V i).B).var_pos
  generalize ((V i).M - (V i).B).mean = m at *
  generalize ((V i).M - (V i).B).var = p at *
  generalize ((V i).M - (V i).B).meanSh = b at *
  have hq := div_pos hr.q hr.α
  have q1 := ((hr.τ (i + 1)).meas_pos (m := m) hp hq).1
  have ht : e.target env (num false ((c.τ (i + 1)).X m p)) (.m (m1 ((c.τ (i + 1)).S m p + c.q / e.power)))
      (nG ((V (i + 1)).M - (1 / c.α) • (V (i + 1)).F)) (some (h.get (s + (i + 1))).marginal) =
      .ok (num (c.target i V ((c.τ (i + 1)).X m p) ((c.τ (i + 1)).S m p + c.q / c.α)).meanSh
        (c.target i V ((c.τ (i + 1)).X m p) ((c.τ (i + 1)).S m p + c.q / c.α)).mean,
        .m (m1 (c.target i V ((c.τ (i + 1)).X m p) ((c.τ (i + 1)).S m p + c.q / c.α)).var)) := by
    by_cases hα : c.α = 1
    · rw [show c.target i V _ _ = (V (i + 1)).M from if_pos hα]
      exact target_one (hm.power.trans hα) (hx.M.is hm.calm)
    · rw [hm.power, show c.target i V ((c.τ (i + 1)).X m p) ((c.τ (i + 1)).S m p + c.q / c.α) = _ from if_neg hα, ← hm.power]
      exact target_power hm.calm (by rw [hm.power]; exact hα) (by rw [hm.power]; exact q1) (natIs_nG _)
  generalize c.target i V ((c.τ (i + 1)).X m p) ((c.τ (i + 1)).S m p + c.q / c.α) = t at *
  have q2 := (hr.τ (i + 1)).back_pos (m := m) hp hq t.var_pos.le
  have hproj := projBack_scalar (hm.trans (i + 1) hi) (by rw [hm.power]; exact hr.α) hm.Q hcav hp (by rw [hm.power]; exact q1) ht
  rw [hm.power] at hproj
  have hv := Sim.powerUpdate hm hr h2 h3 (natIs_ofMoment hm.calm (b || t.meanSh) (m + (c.τ (i + 1)).C m p / ((c.τ (i + 1)).S m p + c.q / c.α) *
    (t.mean - (c.τ (i + 1)).X m p)) q2) (natIs_nG (V i).B) (hn.M.is hm.calm).nat
  refine ⟨_, ?_, hs.update hi' (setBack _ _) _ fun y' hy' => (hs.node i y' hy').setBack _ _⟩
  unfold backCall
  rw [PyM.get_bind, h1]
  dsimp only
  rw [backUpdateBody_eq, hn.B, (hn.M.is hm.calm).nat.truediv (natIs_nG _)]
  simp only [nextFwdCavity, h5, attr, ok_bind, h2, pyDiv, if_neg hr.α.ne', hx.F, (natIs_nG _).pow,
    (hx.M.is hm.calm).nat.truediv (natIs_nG _), py_pure, backValue, h4, hproj, (mom1_ofMoment _ _ _).validate q2, hn.B, hv]

theorem Sim.back_last (hm : Models env e sys ys N c) (hs : Sim env e sys ys N s h0 h V) {i : ℕ} (hi : i < N) (hl : ¬ i + 1 < N) :
    backCall env (s + i) h = (.ok (), h) := by
  obtain ⟨y, hy⟩ := hm.get_obs hi
  have hn := hs.node i y hy
  have h1 : (h.get (s + i)).backUpdate = some (s + i, e.projBack env) := hn.backUpdate
  have h5 : (h.get (s + i)).next = none := hn.next.trans (if_neg hl)
  unfold backCall
  rw [PyM.get_bind, h1]
  dsimp only
  rw [backUpdateBody_eq, hn.B, (hn.M.is hm.calm).nat.truediv (natIs_nG _)]
  simp only [nextFwdCavity, h5, attr, error_bind]

/-- Every update of a chain is accepted and computes the recursion. -/
theorem Sim.step (hm : Models env e sys ys N c) (hr : c.Regular) (hs : Sim env e sys ys N s h0 h V) (u : Upd) {i : ℕ} (hi : i < N) :
    ∃ h', Upd.call env (u, s + i) h = (.ok (), h') ∧ Sim env e sys ys N s h0 h' (c.step N (u, i) V) := by
  cases u with
  | fwd => exact hs.fwd hm hr hi
  | meas => exact hs.meas hm hr hi
  | back =>
    by_cases hl : i + 1 < N
    · rw [Chain.step, if_pos hl]; exact hs.back hm hr hl
    · rw [Chain.step, if_neg hl]; exact ⟨h, hs.back_last hm hi hl, hs⟩

theorem Sim.steps (hm : Models env e sys ys N c) (hr : c.Regular) (calls : List (Upd × ℕ)) : ∀ {h : Heap} {V : ℕ → Vals},
    (∀ k ∈ calls, k.2 < N) → Sim env e sys ys N s h0 h V →
    ∃ h', PyM.forEach (calls.map fun k => (k.1, s + k.2)) (Upd.call env) h = (.ok (), h') ∧
      Executes env (calls.map fun k => (k.1, s + k.2)) h (.ok ()) h' ∧ Sim env e sys ys N s h0 h' (c.steps N calls V) := by
  induction calls with
  | nil => intro h V _ hs; exact ⟨h, rfl, .done h, hs⟩
  | cons k ks ih =>
    intro h V hk hs
    obtain ⟨h1, e1, s1⟩ := hs.step hm hr k.1 (hk k (by simp))
    obtain ⟨h2, e2, x2, s2⟩ := ih (fun k' hk' => hk k' (by simp [hk'])) s1
    refine ⟨h2, ?_, .step e1 x2, s2⟩
    rw [List.map_cons, PyM.forEach, PyM.bind_ok e1]
    exact e2

end Verif

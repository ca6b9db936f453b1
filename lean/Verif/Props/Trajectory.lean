import Verif.Model.Scripts
import Verif.Props.Simulation
import Verif.Props.Multi

/-!
# Simulated data of the systems in `Systems/` (C78)
-/

namespace Verif

open Matrix

variable {env : Env} {n k : ℕ}

/-- The distributions a simulation draws from: mean and covariance of the initial state, covariances of the two noises. -/
structure Laws (n k : ℕ) where
  m0 : Fin n → ℝ
  P0 : Matrix (Fin n) (Fin n) ℝ
  Q : Matrix (Fin n) (Fin n) ℝ
  R : Matrix (Fin k) (Fin k) ℝ

/-- The states of the recursion `x₀ = w₀`, `xᵢ₊₁ = F (i dt) xᵢ + w₂ᵢ₊₁`, where `w₀` is the first draw, with mean `m0` and covariance
`P0`, and `w₂ᵢ₊₁` the draw number `2 i + 1` (from zero), with mean zero and covariance `Q`. -/
noncomputable def trajectory (rng : Rng) (L : Laws n k) (F : ℝ → (Fin n → ℝ) → Fin n → ℝ) (dt : ℝ) : ℕ → Fin n → ℝ
  | 0 => rng 0 n L.m0 L.P0
  | i + 1 => F (i * dt) (trajectory rng L F dt i) + rng (2 * i + 1) n 0 L.Q

/-- An array that holds `x`: of shape `(1, n)` if `row`, of shape `(n,)` otherwise. -/
def PointAs (row : Bool) (a : Arr) (x : Fin n → ℝ) : Prop := a = if row then .m (of fun _ : Fin 1 => x) else .v x

theorem PointAs.isPoint {row : Bool} {a : Arr} {x : Fin n → ℝ} (h : PointAs row a x) : IsPoint a x := by
  cases row
  · exact .inl h
  · exact .inr h

/-- What the simulation of a system returns: `N` pairs of vectors or of rows, state `i` of the trajectory (counted from one) and its
measurement with noise, the draw number `2 i + 2` with mean zero and covariance `R`. -/
structure Follows (row : Bool) (rng : Rng) (L : Laws n k) (F : ℝ → (Fin n → ℝ) → Fin n → ℝ) (H : (Fin n → ℝ) → Fin k → ℝ) (dt : ℝ) (N : ℕ)
    (data : List (Arr × Arr)) : Prop where
  length : data.length = N
  state : ∀ i p, data[i]? = some p → PointAs row p.1 (trajectory rng L F dt (i + 1))
  measurement : ∀ i p, data[i]? = some p → PointAs row p.2 (H (trajectory rng L F dt (i + 1)) + rng (2 * i + 2) k 0 L.R)

/-- A function that maps points of the domain `D` to points: all to rows, or vectors to vectors. -/
def PointMap (row : Bool) (D : Set (Fin n → ℝ)) (f : Arr → Py Arr) (F : (Fin n → ℝ) → Fin k → ℝ) : Prop :=
  ∀ a x, a = .v x ∨ PointAs row a x → x ∈ D → ∃ b, f a = .ok b ∧ PointAs row b (F x)

theorem PointAs.iadd {row : Bool} {b : Arr} {x : Fin n → ℝ} (h : PointAs row b x) (w : Fin n → ℝ) :
    ∃ c, b.iadd (.v w) = .ok c ∧ PointAs row c (x + w) := by
  cases row <;> (unfold PointAs at h; subst h)
  · exact ⟨_, Arr.iadd_vv _ _, rfl⟩
  · refine ⟨.m (of fun _ : Fin 1 => x + w), ?_, rfl⟩
    rw [if_pos rfl]
    unfold Arr.iadd
    simp only [Arr.add_mv]
    exact if_pos rfl

/-- **C78.** A system whose functions map points to points is simulated without failure, whatever numbers are drawn, as long as the
trajectory stays in the domain of its transition function. -/
theorem C78_simulate {row : Bool} {sys : Sys} {L : Laws n k}
    (hinit : HasMoments env sys.initState L.m0 L.P0) (hQ : sys.Q = .m L.Q) (hR : sys.R = .m L.R)
    {D : Set (Fin n → ℝ)} {F : ℝ → (Fin n → ℝ) → Fin n → ℝ} (hF : ∀ t, PointMap row D (fun x => sys.transition x (some t) none) (F t))
    {H : (Fin n → ℝ) → Fin k → ℝ} (hH : PointMap row Set.univ (fun x => sys.measurement x none none) H) (rng : Rng) (N : ℕ)
    (hD : ∀ i < N, trajectory rng L F sys.dt i ∈ D) :
    ∃ data, simData env rng n k sys N = .ok data ∧ Follows row rng L F H sys.dt N data := by
  have hstep : ∀ i (a : Arr), i < N → a = .v (trajectory rng L F sys.dt i) ∨ PointAs row a (trajectory rng L F sys.dt i) → ∃ b c, sys.transition a (some (i * sys.dt)) none = .ok b ∧
      b.iadd (.v (rng (2 * i + 1) n 0 L.Q)) = .ok c ∧ PointAs row c (trajectory rng L F sys.dt (i + 1)) := fun i a hi ha => by
    obtain ⟨b, h1, h2⟩ := hF (i * sys.dt) a _ ha (hD i hi)
    obtain ⟨c, h3, h4⟩ := h2.iadd (rng (2 * i + 1) n 0 L.Q)
    exact ⟨b, c, h1, h3, h4⟩
  -- the states as arrays
  have hX : ∃ X : ℕ → Arr, X 0 = .v (rng 0 n L.m0 L.P0) ∧ (∀ i ≤ N, X i = .v (trajectory rng L F sys.dt i) ∨ PointAs row (X i) (trajectory rng L F sys.dt i)) ∧
      (∀ i < N, PointAs row (X (i + 1)) (trajectory rng L F sys.dt (i + 1))) ∧
      ∀ i < N, ∃ b, sys.transition (X i) (some (i * sys.dt)) none = .ok b ∧ b.iadd (.v (rng (2 * i + 1) n 0 L.Q)) = .ok (X (i + 1)) := by
    clear hD hinit
    induction N with
    | zero => exact ⟨fun _ => .v (rng 0 n L.m0 L.P0), rfl, fun i hi => by rw [Nat.le_zero.1 hi]; exact .inl rfl, fun i hi => absurd hi (by omega),
      fun i hi => absurd hi (by omega)⟩
    | succ N ih =>
      obtain ⟨X, h0, h1, h1', h2⟩ := ih fun i a hi => hstep i a (by omega)
      obtain ⟨b, c, h3, h4, h5⟩ := hstep N (X N) (by omega) (h1 N le_rfl)
      refine ⟨Function.update X (N + 1) c, by rw [Function.update_of_ne (by omega)]; exact h0, fun i hi => ?_,
        fun i hi => ?_, fun i hi => ?_⟩
      · rcases hi.eq_or_lt with rfl | hi
        · rw [Function.update_self]; exact .inr h5
        · rw [Function.update_of_ne (by omega)]; exact h1 i (by omega)
      · rcases (Nat.lt_succ_iff.1 hi).eq_or_lt with rfl | hi
        · rw [Function.update_self]; exact h5
        · rw [Function.update_of_ne (by omega)]; exact h1' i hi
      · rw [Function.update_of_ne (by omega : i ≠ N + 1)]
        rcases (Nat.lt_succ_iff.1 hi).eq_or_lt with rfl | hi
        · rw [Function.update_self]; exact ⟨b, h3, h4⟩
        · rw [Function.update_of_ne (by omega)]; exact h2 i hi
  obtain ⟨X, hX0, hX1, hX1', hX2⟩ := hX
  have hY : ∀ i, ∃ y, i < N → (∃ b, sys.measurement (X (i + 1)) none none = .ok b ∧ b.iadd (.v (rng (2 * i + 2) k 0 L.R)) = .ok y) ∧
      PointAs row y (H (trajectory rng L F sys.dt (i + 1)) + rng (2 * i + 2) k 0 L.R) := fun i => by
    by_cases hi : i < N
    · obtain ⟨b, h1, h2⟩ := hH _ _ (hX1 (i + 1) hi) trivial
      obtain ⟨c, h3, h4⟩ := h2.iadd (rng (2 * i + 2) k 0 L.R)
      exact ⟨c, fun _ => ⟨⟨b, h1, h3⟩, h4⟩⟩
    · exact ⟨.s 0, fun h => absurd h hi⟩
  choose Y hY using hY
  let s0 : Store := ⟨fun _ => .s 0, 0, 0⟩
  let s1 : Store := ({ s0 with calls := 1 } : Store).alloc (.v (rng 0 n L.m0 L.P0))
  have hnd : NoiseCovs (sys.dyn n k) L.Q L.R := ⟨by rw [Sys.dyn, hQ], by rw [Sys.dyn, hR]⟩
  obtain ⟨out, s', hrun, hsh, -⟩ := (C51_recursion hnd (F := fun a t => sys.transition a (some t) none)
    (H := fun a => sys.measurement a none none) (fun _ _ => rfl) (fun _ => rfl) env rng N s1 0 0 (by simp [s1, s0, Store.alloc])).2 X Y
    (by rw [hX0]; simp [s1, s0, Store.alloc]) (fun i hi => by
      obtain ⟨b, h1, h2⟩ := hX2 i hi
      obtain ⟨⟨c, h3, h4⟩, -⟩ := hY i hi
      refine ⟨b, c, ?_, ?_, h3, ?_⟩
      · rw [zero_add]; exact h1
      · rw [show s1.calls + 2 * i = 2 * i + 1 from Nat.add_comm 1 _]; exact h2
      · rw [show s1.calls + 2 * i + 1 = 2 * i + 2 from by show 1 + 2 * i + 1 = _; omega]; exact h4)
  have hsim : (sys.dyn n k).simulate env rng N none 0 s0 = (.ok out, s') := by
    refine Eq.trans ?_ hrun
    unfold DynSys.simulate
    have h1 : (sys.dyn n k).initState = sys.initState := rfl
    simp only [h1, hinit.1, ok_bind, need]
    show (PyM.lift (.ok (Arr.v L.m0)) >>= _) s0 = _
    rw [PyM.lift_bind_eq rfl, hinit.covA, PyM.lift_bind_eq rfl]
    refine (PyM.bind_ok (a := Arr.v (rng 0 n L.m0 L.P0)) (s' := { s0 with calls := 1 }) ?_ _).trans ?_
    · simp only [DynSys.sample, DynSys.ravel]
      rw [PyM.lift_bind_eq rfl, PyM.lift_bind_eq (by rw [mvnArgs, dif_pos ⟨rfl, rfl⟩]), PyM.get_bind]
      rfl
    · rw [PyM.get_bind]
      rfl
  refine ⟨out.map fun p => (s'.get p.1, s'.get p.2), ?_, ⟨by simp [hsh.length], fun i p hp => ?_, fun i p hp => ?_⟩⟩
  · unfold simData
    rw [hsim]
    rfl
  all_goals
    rw [List.getElem?_map, Option.map_eq_some_iff] at hp
    obtain ⟨q, hq, rfl⟩ := hp
    have hi : i < N := by
      have := (List.getElem?_eq_some_iff.1 hq).1
      rwa [hsh.length] at this
    obtain ⟨h1, h2⟩ := hsh.values i q hq
  · rw [h1]; exact hX1' i hi
  · rw [h2]; exact (hY i hi).2

/-! ## The systems of the repository -/

/-- Functions that act row by row and return a row for a vector map points to points. -/
theorem pointMap_of_rows {f : Arr → Py Arr} {F : (Fin n → ℝ) → Fin k → ℝ} (h : OnRows f F)
    (h' : ∀ x : Fin n → ℝ, f (.v x) = f (.m (of fun _ : Fin 1 => x))) : PointMap true Set.univ f F := by
  rintro a x (rfl | rfl) -
  · exact ⟨_, (h' x).trans (h 1 _), rfl⟩
  · exact ⟨_, h 1 _, rfl⟩

theorem Elementwise.pointMap {f : Func} {F : ℝ → ℝ} (h : Elementwise f F) :
    PointMap false Set.univ f (fun (x : Fin n → ℝ) i => F (x i)) := by
  rintro a x (rfl | rfl) -
  · exact ⟨_, h.1 _, rfl⟩
  · exact ⟨_, h.1 _, rfl⟩

/-- **C78.** The growth model: every simulation returns `N` pairs with `xᵢ₊₁ = xᵢ/2 + 25 xᵢ/(1 + xᵢ²) + 8 cos(1.2 i) + w` and
`y = x²/20 + v`. -/
theorem C78_growth (rng : Rng) (N : ℕ) : ∃ sys data, UNGM.init = .ok sys ∧ simData env rng 1 1 sys N = .ok data ∧
    Follows false rng ⟨v1 0, m1 5, m1 1, m1 10⟩ (fun t (x : Fin 1 → ℝ) i => 0.5 * x i + 25 * x i / (1 + x i ^ 2) + 8 * Real.cos (1.2 * t))
      (fun x i => x i ^ 2 / 20) 1 N data := by
  obtain ⟨data, h1, h2⟩ := C78_simulate (env := env) (sys := ungm) (L := ⟨v1 0, m1 5, m1 1, m1 10⟩) (sG_moments env 0 5) rfl rfl
    (fun t => (ungm_transition t none).pointMap (n := 1)) (ungm_measurement none none).pointMap rng N fun _ _ => trivial
  exact ⟨ungm, data, ungm_init, h1, h2⟩

/-- **C78.** Lorenz 96 with a stored initial condition, in any dimension. -/
theorem C78_lorenz {q r dt F : ℝ} {dim : ℕ} (x : Fin dim → ℝ) {sys : Sys} (h : L96.init q r dt dim F (some (.v x)) = .ok sys)
    (rng : Rng) (N : ℕ) : ∃ (Φ : (Fin dim → ℝ) → Fin dim → ℝ) (data : List (Arr × Arr)),
      RowFunc (fun x => sys.transition x none none) Φ ∧ simData env rng dim dim sys N = .ok data ∧
      Follows true rng ⟨x, 1, q • 1, r • 1⟩ (fun _ => Φ) (fun x i => x i ^ 2) 1 N data := by
  have e : L96.init q r dt dim F (some (.v x)) = Sys.make dim dim (L96.f dt F) L96.h (.init dim (some ((Arr.eye dim).smul q)) none)
      (.init dim (some ((Arr.eye dim).smul r)) none) (Gaussian.ofMoment (.v x) (Arr.eye dim)) 1 := by
    simp only [L96.init, ok_bind, Arr.shape0_v, ne_eq, not_true_eq_false, if_false]
  rw [e, Sys.make, if_pos ⟨rfl, rfl⟩, Except.ok.injEq] at h
  subst h
  obtain ⟨Φ, hΦ⟩ := onRows_of (f := fun x => L96.f dt F x none none) fun N X => C53_step_rows dt F X none none
  have hv : ∀ x : Fin dim → ℝ, L96.f dt F (.v x) none none = L96.f dt F (.m (of fun _ : Fin 1 => x)) none none := fun x => by
    obtain ⟨Y, h1, h2⟩ := C53_step_rows dt F (of fun _ : Fin 1 => x) none none
    rw [h1]
    refine (h2 0).trans ?_
    congr 2
    ext i j
    rw [Subsingleton.elim i 0]
    rfl
  refine ⟨Φ, ?_⟩
  obtain ⟨data, h1, h2⟩ := C78_simulate (env := env) (sys := ⟨L96.f dt F, L96.h, _, _, _, 1⟩) (n := dim) (k := dim) (L := ⟨x, 1, q • 1, r • 1⟩) (D := Set.univ) (F := fun _ => Φ)
    (H := fun x i => x i ^ 2) (hasMoments_ofMoment env x 1) rfl rfl (fun t => pointMap_of_rows (f := fun x => L96.f dt F x none none) hΦ hv)
    (pointMap_of_rows (f := fun x => L96.h x none none) (fun N X => rfl) fun x => rfl) rng N fun _ _ => trivial
  exact ⟨data, fun x => (hv x).trans (hΦ 1 _), h1, h2⟩

/-- **C78.** Constant velocity tracking with any nonempty list of sensors. -/
theorem C78_bearings {q r dt : ℝ} {l : List Sensor} (hl : l ≠ []) {sys : Sys} (h : BOT.init q r (some l) dt = .ok sys)
    (rng : Rng) (N : ℕ) : ∃ data, simData env rng 4 l.length sys N = .ok data ∧
      Follows true rng ⟨![0, 0, 1, 0], (0.1 : ℝ) • 1, BOT.Q dt q, r • 1⟩ (fun _ x => BOT.F dt *ᵥ x) (fun x i => arctan2 (x 1 - (l.get i).2) (x 0 - (l.get i).1)) 1 N data := by
  rw [BOT.init, Sys.make, if_pos ⟨rfl, rfl⟩, Except.ok.injEq] at h
  subst h
  refine C78_simulate (env := env) (L := ⟨![0, 0, 1, 0], (0.1 : ℝ) • 1, BOT.Q dt q, r • 1⟩) (D := Set.univ) (hasMoments_ofMoment env _ _) rfl rfl
    (fun t => pointMap_of_rows (f := fun x => BOT.f dt x none none) (fun N X => ?_) fun x => rfl)
    (pointMap_of_rows (f := fun x => BOT.h (some l) x none none) (fun N X => ?_) fun x => rfl) rng N fun _ _ => trivial
  · simp only [BOT.f, Arr.atleast2d_m, dite_true]
    congr 2
    ext i j
    simp [Matrix.mul_apply, mulVec, dotProduct, mul_comm]
  · obtain ⟨a, l, rfl⟩ := List.exists_cons_of_ne_nil hl
    simp [BOT.h, bearings]

/-- What the turning model draws from; `r` is a standard deviation. -/
noncomputable def turnLaws (dt q0 q1 r : ℝ) (k : ℕ) : Laws 5 k where
  m0 := ![1000, 300, 1000, 0, -(Real.pi / 60)]
  P0 := diagonal ![100, 10, 100, 10, 0.0001]
  Q := BOTT.Q dt q0 q1
  R := r ^ 2 • 1

/-- **C78.** Coordinated turns: simulation works as long as the turn rate never is zero. -/
theorem C78_turn {q0 q1 r dt : ℝ} {l : List Sensor} (hl : l ≠ []) {sys : Sys} (h : BOTT.init q0 q1 r (some l) dt = .ok sys)
    (rng : Rng) (N : ℕ) (hw : ∀ i < N, trajectory rng (turnLaws dt q0 q1 r l.length) (fun _ x => BOTT.F dt (x 4) *ᵥ x) 1 i 4 ≠ 0) :
    ∃ data, simData env rng 5 l.length sys N = .ok data ∧
      Follows true rng (turnLaws dt q0 q1 r l.length) (fun _ x => BOTT.F dt (x 4) *ᵥ x) (fun x i => arctan2 (x 2 - (l.get i).2) (x 0 - (l.get i).1)) 1 N data := by
  rw [BOTT.init, Sys.make, if_pos ⟨rfl, rfl⟩, Except.ok.injEq] at h
  subst h
  refine C78_simulate (env := env) (L := turnLaws dt q0 q1 r l.length) (D := {x | x 4 ≠ 0}) (hasMoments_ofMoment env _ _) rfl rfl (fun t => ?_)
    (pointMap_of_rows (f := fun x => BOTT.h (some l) x none none) (fun N X => ?_) fun x => rfl) rng N hw
  · have : ∀ x : Fin 5 → ℝ, x 4 ≠ 0 → BOTT.f dt (.m (of fun _ : Fin 1 => x)) (some t) none =
        .ok (.m (of fun _ : Fin 1 => BOTT.F dt (x 4) *ᵥ x)) := fun x hx => by
      simp only [BOTT.f, Arr.atleast2d_m, dite_true]
      exact if_pos fun _ => hx
    rintro a x (rfl | rfl) hx
    · exact ⟨_, this x hx, rfl⟩
    · exact ⟨_, this x hx, rfl⟩
  · obtain ⟨a, l, rfl⟩ := List.exists_cons_of_ne_nil hl
    simp [BOTT.h, bearings]

/-! ## Sweeps over simulated data -/

theorem Follows.points {row : Bool} {rng : Rng} {L : Laws n k} {F : ℝ → (Fin n → ℝ) → Fin n → ℝ} {H : (Fin n → ℝ) → Fin k → ℝ} {dt : ℝ} {N : ℕ}
    {data : List (Arr × Arr)} (h : Follows row rng L F H dt N data) : ∀ y ∈ data.map Prod.snd, ∃ v : Fin k → ℝ, IsPoint y v := by
  intro y hy
  obtain ⟨p, hp, rfl⟩ := List.mem_map.1 hy
  obtain ⟨i, hi⟩ := List.getElem?_of_mem hp
  exact ⟨_, (h.measurement i p hi).isPoint⟩

/-- **C78.** Every sweep over Lorenz 96 data simulated with a stored initial condition ends with a `ValueError` in its first setting,
if that is not one of the identifiers `TT` and `MCT`: whatever the seeds and the numbers drawn. -/
theorem C78_lorenz_sweep {q r dt F : ℝ} (hq : 0 < q) (hr : 0 < r) {dim : ℕ} (hn : 2 ≤ dim) (x : Fin dim → ℝ) {jac : Jac}
    (draws : Draws) (rng : ℤ → Rng) {cfg : Config} (hsys : L96.init q r dt dim F (some (.v x)) = .ok cfg.system)
    (hdim : cfg.sysDim = dim) (hcalm : ∀ A : Matrix (Fin dim) (Fin dim) ℝ, env.illPos A = false) (hN : 2 ≤ cfg.timesteps)
    (hiter : 1 ≤ cfg.numIter) (hsim : ∀ seed, cfg.sim seed = simData env (rng seed) dim dim cfg.system cfg.timesteps)
    (hne : cfg.dynTable ≠ cfg.expTable) (seed : ℤ) (seeds : List ℤ) {type : String} (ht : ¬ SameLetters type "TT")
    (ht' : ¬ SameLetters type "MCT") (types : List String) {power damping : ℝ} (powers dampings : List ℝ) (hp : 0 < power)
    (hγ : 0 ≤ damping) (override : Bool) (file : Tables) (drows erows : List Row) (h : Holds cfg file (drows, erows))
    (hrun : override = true ∨ ¬ ∃ r ∈ erows, Marks seed ⟨type, power, damping⟩ r) :
    ∃ c, sweepMain env jac draws cfg (seed :: seeds) (type :: types) (power :: powers) (damping :: dampings) override
        (Conn.connect file) = (.error .value, c) ∧ c.saved cfg.dynTable = some (dynTable drows) ∧
      c.saved cfg.expTable = some (expTable erows) ∧ ∀ n, n ≠ cfg.dynTable → n ≠ cfg.expTable → c.saved n = file n := by
  obtain ⟨Φ, data, -, hd, hf⟩ := C78_lorenz (env := env) x hsys (rng seed) cfg.timesteps
  obtain ⟨h1, ⟨Φ', hΦ⟩, ⟨G, hG⟩⟩ := l96_proper (env := env) hq hr x hsys (ys := data.map Prod.snd)
    (by rw [List.length_map, hf.length]; exact hN) hf.points
  exact C74_sweep draws hdim hn hcalm hN hiter hne seeds ((hsim seed).trans hd) h1 hΦ hG ht ht' types powers dampings hp hγ override
    file drows erows h hrun

/-- **C78.** Likewise every sweep over simulated tracks of constant velocity. -/
theorem C78_bearings_sweep {q r dt : ℝ} (hq : 0 < q) (hr : 0 < r) (hd : 0 < dt) {l : List Sensor} (hl : l ≠ []) {jac : Jac}
    (draws : Draws) (rng : ℤ → Rng) {cfg : Config} (hsys : BOT.init q r (some l) dt = .ok cfg.system)
    (hdim : cfg.sysDim = 4) (hcalm : ∀ A : Matrix (Fin 4) (Fin 4) ℝ, env.illPos A = false) (hN : 2 ≤ cfg.timesteps)
    (hiter : 1 ≤ cfg.numIter) (hsim : ∀ seed, cfg.sim seed = simData env (rng seed) 4 l.length cfg.system cfg.timesteps)
    (hne : cfg.dynTable ≠ cfg.expTable) (seed : ℤ) (seeds : List ℤ) {type : String} (ht : ¬ SameLetters type "TT")
    (ht' : ¬ SameLetters type "MCT") (types : List String) {power damping : ℝ} (powers dampings : List ℝ) (hp : 0 < power)
    (hγ : 0 ≤ damping) (override : Bool) (file : Tables) (drows erows : List Row) (h : Holds cfg file (drows, erows))
    (hrun : override = true ∨ ¬ ∃ r ∈ erows, Marks seed ⟨type, power, damping⟩ r) :
    ∃ c, sweepMain env jac draws cfg (seed :: seeds) (type :: types) (power :: powers) (damping :: dampings) override
        (Conn.connect file) = (.error .value, c) ∧ c.saved cfg.dynTable = some (dynTable drows) ∧
      c.saved cfg.expTable = some (expTable erows) ∧ ∀ n, n ≠ cfg.dynTable → n ≠ cfg.expTable → c.saved n = file n := by
  obtain ⟨data, hd', hf⟩ := C78_bearings (env := env) hl hsys (rng seed) cfg.timesteps
  obtain ⟨h1, ⟨Φ', hΦ⟩, ⟨G, hG⟩⟩ := bot_proper (env := env) hq hr hd hl hsys (ys := data.map Prod.snd)
    (by rw [List.length_map, hf.length]; exact hN) hf.points
  exact C74_sweep draws hdim (by norm_num) hcalm hN hiter hne seeds ((hsim seed).trans hd') h1 hΦ hG ht ht' types powers dampings hp hγ
    override file drows erows h hrun

/-- The growth model without noise: it starts at zero, so its first state is `8` and its first measurement `3.2`. -/
example : ∃ sys data, UNGM.init = .ok sys ∧ simData calmEnv (fun _ _ _ _ _ => 0) 1 1 sys 100 = .ok data ∧ data.length = 100 ∧
    ∃ p, data[0]? = some p ∧ p.1 = .v (fun _ : Fin 1 => (8 : ℝ)) ∧ p.2 = .v (fun _ : Fin 1 => (3.2 : ℝ)) := by
  obtain ⟨sys, data, h1, h2, h3⟩ := C78_growth (env := calmEnv) (fun _ _ _ _ _ => 0) 100
  obtain ⟨p, hp⟩ : ∃ p, data[0]? = some p := ⟨data[0]'(by rw [h3.length]; norm_num), List.getElem?_eq_getElem _⟩
  refine ⟨sys, data, h1, h2, h3.length, p, hp, ?_, ?_⟩
  · refine (h3.state 0 p hp).trans (congrArg Arr.v ?_)
    ext i; simp [trajectory]
  · refine (h3.measurement 0 p hp).trans (congrArg Arr.v ?_)
    ext i; simp [trajectory]; norm_num

end Verif

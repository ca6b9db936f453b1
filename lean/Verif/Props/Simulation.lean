import Verif.Model.Systems
import Verif.Lemmas.Arr
import Verif.Lemmas.PyM

/-!
# Properties of the simulator and of the noise objects (C51, C52)
-/

namespace Verif

open Matrix DynSys

/-! ## C52: noise objects -/

/-- C52: without a mean the noise has the given dimension, mean zero and the given covariance, and `sample()` draws once from it. -/
theorem C52_zero_mean {n : ℕ} (C : Matrix (Fin n) (Fin n) ℝ) (rng : Rng) (s : Store) :
    (GaussianNoise.init n (some (.m C)) none).dimension = n ∧ (GaussianNoise.init n (some (.m C)) none).cov = .m C ∧
      (GaussianNoise.init n (some (.m C)) none).mean = some (.v (n := n) fun _ => 0) ∧
      sample rng (GaussianNoise.init n (some (.m C)) none) s = (.ok (.v (rng s.calls n 0 C)), { s with calls := s.calls + 1 }) := by
  refine ⟨rfl, rfl, rfl, ?_⟩
  simp [sample, GaussianNoise.init, mvnArgs, Arr.zeros]
  rfl

/-- C52: with a mean, whatever it is, no mean is stored and sampling raises `AttributeError`. -/
theorem C52_supplied_mean_lost (n : ℕ) (cov : Option Arr) (mean : Arr) (rng : Rng) (s : Store) :
    (GaussianNoise.init n cov (some mean)).mean = none ∧
      sample rng (GaussianNoise.init n cov (some mean)) s = (.error .attribute, s) := ⟨rfl, rfl⟩

/-- C52: with the default covariance and a dimension other than one, sampling raises `ValueError`. -/
theorem C52_default_cov_sample (n : ℕ) (hn : n ≠ 1) (rng : Rng) (s : Store) :
    sample rng (GaussianNoise.init n none none) s = (.error .value, s) := by
  simp [sample, GaussianNoise.init, mvnArgs, Arr.zeros, Arr.eye, hn]

/-- C52: adding the default covariance to an `n × n` covariance silently adds 1 to every entry, not only to the diagonal. -/
theorem C52_default_cov_broadcast {n k : ℕ} (C : Matrix (Fin n) (Fin n) ℝ) :
    (Arr.m C).iadd (GaussianNoise.init k none none).cov = .ok (.m (of fun i j => C i j + 1)) := by
  have h : (Arr.m C).add (Arr.eye 1) = .ok (.m (of fun i j => C i j + 1)) := by
    simp [Arr.add, Arr.zip, Arr.eye, Arr.bget_m11]
    rfl
  simp [GaussianNoise.init, Arr.iadd, h]

example : sample (fun _ _ _ _ _ => 0) (GaussianNoise.init 2 none none) ⟨fun _ => .s 0, 0, 0⟩ =
    (.error .value, ⟨fun _ => .s 0, 0, 0⟩) :=
  C52_default_cov_sample 2 (by norm_num) _ _

/-! ## C51: simulation -/

/-- The noises of the system have covariances `Q` and `R`, and no mean was supplied. -/
def NoiseCovs (sys : DynSys) {dx dy : ℕ} (Q : Matrix (Fin dx) (Fin dx) ℝ) (R : Matrix (Fin dy) (Fin dy) ℝ) : Prop :=
  sys.systemNoise = .init dx (some (.m Q)) none ∧ sys.measurementNoise = .init dy (some (.m R)) none

private theorem sample_sys {sys : DynSys} {dx dy : ℕ} {Q : Matrix (Fin dx) (Fin dx) ℝ} {R : Matrix (Fin dy) (Fin dy) ℝ} (h : NoiseCovs sys Q R) (rng : Rng) (s : Store) :
    sample rng sys.systemNoise s = (.ok (.v (rng s.calls dx 0 Q)), { s with calls := s.calls + 1 }) := by
  rw [h.1]; exact (C52_zero_mean Q rng s).2.2.2

private theorem sample_meas {sys : DynSys} {dx dy : ℕ} {Q : Matrix (Fin dx) (Fin dx) ℝ} {R : Matrix (Fin dy) (Fin dy) ℝ} (h : NoiseCovs sys Q R) (rng : Rng) (s : Store) :
    sample rng sys.measurementNoise s = (.ok (.v (rng s.calls dy 0 R)), { s with calls := s.calls + 1 }) := by
  rw [h.2]; exact (C52_zero_mean R rng s).2.2.2

/-- `x += a` when the addition works out. -/
private theorem inplaceAdd_ok {s : Store} {x : ℕ} {a b : Arr} (hx : x < s.size) (h : (s.get x).iadd a = .ok b) :
    ∃ r s', inplaceAdd x a s = (.ok r, s') ∧ s'.get r = b ∧ s'.calls = s.calls ∧ s.size ≤ s'.size ∧ r < s'.size ∧
      (r = x ∨ s.size ≤ r) ∧ (0 < (s.get x).ndim → r = x ∧ s'.size = s.size) ∧ ∀ q, q ≠ x → q < s.size → s'.get q = s.get q := by
  by_cases h0 : (s.get x).ndim = 0
  · refine ⟨s.size, s.alloc b, ?_, by simp [Store.alloc], rfl, by simp [Store.alloc], by simp [Store.alloc], .inr le_rfl,
      by omega, fun q _ hq => ?_⟩
    · simp [inplaceAdd, h, h0]
    · simp [Store.alloc, Function.update_of_ne hq.ne]
  · refine ⟨x, s.set x b, ?_, by simp [Store.set], rfl, le_rfl, hx, .inl rfl, fun _ => ⟨rfl, rfl⟩, fun q hq _ => ?_⟩
    · simp [inplaceAdd, h, h0]
    · simp [Store.set, Function.update_of_ne hq]

private theorem inplaceAdd_inv {s s' : Store} {x r : ℕ} {a : Arr} (h : inplaceAdd x a s = (.ok r, s')) :
    ∃ b, (s.get x).iadd a = .ok b := by
  cases hb : (s.get x).iadd a with
  | ok b => exact ⟨b, rfl⟩
  | error e => simp [inplaceAdd, hb] at h

private theorem result_fresh (a : Arr) (x : ℕ) (s : Store) : result (.ok (.fresh a)) x s = (.ok s.size, s.alloc a) := rfl
private theorem result_same (x : ℕ) (s : Store) : result (.ok .same) x s = (.ok x, s) := rfl

/-- One round, when transition and measurement create new arrays and all shapes fit. -/
private theorem step_fresh {sys : DynSys} {dx dy : ℕ} {Q : Matrix (Fin dx) (Fin dx) ℝ} {R : Matrix (Fin dy) (Fin dy) ℝ} (hn : NoiseCovs sys Q R) (rng : Rng) {s : Store} {x : ℕ} {t : ℝ}
    {a b X Y : Arr} (ht : sys.transition (s.get x) t = .ok (.fresh a)) (hX : a.iadd (.v (rng s.calls dx 0 Q)) = .ok X)
    (hm : sys.measurement X = .ok (.fresh b)) (hY : b.iadd (.v (rng (s.calls + 1) dy 0 R)) = .ok Y) :
    ∃ rx ry s', simulateStep rng sys x t s = (.ok (rx, ry), s') ∧ s'.get rx = X ∧ s'.get ry = Y ∧ s'.calls = s.calls + 2 ∧
      s.size ≤ rx ∧ rx < s'.size ∧ s.size ≤ ry ∧ ry < s'.size ∧ rx ≠ ry ∧ s.size ≤ s'.size ∧
      ∀ q, q < s.size → s'.get q = s.get q := by
  let s1 : Store := s.alloc a
  let s2 : Store := { s1 with calls := s1.calls + 1 }
  have g2 : s2.get s.size = a := by simp [s2, s1, Store.alloc]
  obtain ⟨rx, s3, e3, v3, c3, z3, l3, n3, -, k3⟩ := inplaceAdd_ok (s := s2) (x := s.size) (a := .v (rng s.calls dx 0 Q)) (b := X)
    (by simp [s2, s1, Store.alloc]) (by rw [g2]; exact hX)
  let s4 : Store := s3.alloc b
  let s5 : Store := { s4 with calls := s.calls + 1 + 1 }
  have g5 : s5.get s3.size = b := by simp [s5, s4, Store.alloc]
  obtain ⟨ry, s6, e6, v6, c6, z6, l6, n6, -, k6⟩ := inplaceAdd_ok (s := s5) (x := s3.size) (a := .v (rng (s.calls + 1) dy 0 R)) (b := Y)
    (by simp [s5, s4, Store.alloc]) (by rw [g5]; exact hY)
  have hs2 : s2.size = s.size + 1 := rfl
  have hs5 : s5.size = s3.size + 1 := rfl
  have c3' : s3.calls = s.calls + 1 := c3
  refine ⟨rx, ry, s6, ?_, ?_, v6, ?_, ?_, ?_, ?_, l6, ?_, ?_, ?_⟩
  · unfold simulateStep
    rw [PyM.get_bind, ht]
    refine (PyM.bind_ok (result_fresh a x s) _).trans ?_
    refine (PyM.bind_ok (sample_sys hn rng s1) _).trans ?_
    refine (PyM.bind_ok e3 _).trans ?_
    rw [PyM.get_bind, v3, hm]
    refine (PyM.bind_ok (result_fresh b rx s3) _).trans ?_
    refine (PyM.bind_ok (sample_meas hn rng s4) _).trans ?_
    have hc : s4.calls = s.calls + 1 := c3'
    rw [hc]
    exact (PyM.bind_ok e6 _).trans rfl
  · rw [k6 rx (by omega) (by omega)]
    show (Function.update s3.get s3.size b) rx = X
    rw [Function.update_of_ne (by omega)]; exact v3
  · rw [c6]
  · omega
  · omega
  · omega
  · omega
  · omega
  · intro q hq
    rw [k6 q (by omega) (by omega)]
    show (Function.update s3.get s3.size b) q = _
    rw [Function.update_of_ne (by omega), k3 q (by omega) (by omega)]
    show (Function.update s.get s.size a) q = _
    rw [Function.update_of_ne (by omega)]

/-- A round that succeeds went through all its parts. -/
private theorem step_inv {sys : DynSys} {dx dy : ℕ} {Q : Matrix (Fin dx) (Fin dx) ℝ} {R : Matrix (Fin dy) (Fin dy) ℝ} (hn : NoiseCovs sys Q R) {F : Arr → ℝ → Py Arr} {H : Arr → Py Arr}
    (hf : ∀ a t, sys.transition a t = (F a t).map .fresh) (hh : ∀ a, sys.measurement a = (H a).map .fresh)
    (rng : Rng) {s s' : Store} {x : ℕ} {t : ℝ} {p : ℕ × ℕ} (h : simulateStep rng sys x t s = (.ok p, s')) :
    ∃ a b X Y, F (s.get x) t = .ok a ∧ a.iadd (.v (rng s.calls dx 0 Q)) = .ok X ∧ H X = .ok b ∧
      b.iadd (.v (rng (s.calls + 1) dy 0 R)) = .ok Y := by
  unfold simulateStep at h
  rw [PyM.get_bind, hf] at h
  cases ha : F (s.get x) t with
  | error e => rw [ha] at h; simp [result, Except.map] at h; cases h
  | ok a =>
    rw [ha] at h
    have h := (PyM.bind_ok (result_fresh a x s) _).symm.trans h
    have h := (PyM.bind_ok (sample_sys hn rng (s.alloc a)) _).symm.trans h
    obtain ⟨rx, s3, h3, h⟩ := PyM.bind_ok_inv h
    obtain ⟨X, hX⟩ := inplaceAdd_inv h3
    obtain ⟨rx', s3', h3', v3, c3, -⟩ := inplaceAdd_ok (by simp [Store.alloc]) hX
    obtain ⟨e1, e2⟩ := Prod.mk.injEq .. ▸ h3.symm.trans h3'
    obtain rfl := Except.ok.inj e1
    subst e2
    rw [PyM.get_bind, hh, v3] at h
    have ga : (s.alloc a).get s.size = a := by simp [Store.alloc]
    cases hb : H X with
    | error e => rw [hb] at h; simp [result, Except.map] at h; cases h
    | ok b =>
      rw [hb] at h
      have h := (PyM.bind_ok (result_fresh b rx s3) _).symm.trans h
      have h := (PyM.bind_ok (sample_meas hn rng (s3.alloc b)) _).symm.trans h
      obtain ⟨ry, s6, h6, h⟩ := PyM.bind_ok_inv h
      obtain ⟨Y, hY⟩ := inplaceAdd_inv h6
      have c3' : (s3.alloc b).calls = s.calls + 1 := c3
      refine ⟨a, b, X, Y, rfl, ?_, hb, ?_⟩
      · rw [← ga]; exact hX
      · have gb : (s3.alloc b).get s3.size = b := by simp [Store.alloc]
        rw [← c3', ← gb]; exact hY

/-- The state-space recursion: starting from `X 0` at time `t`, the states and measurements are computed with the draws number
`calls, calls + 1, …` of the random generator, alternately with covariance `Q` and `R` and always with mean zero. -/
def Recursion (rng : Rng) {dx dy : ℕ} (Q : Matrix (Fin dx) (Fin dx) ℝ) (R : Matrix (Fin dy) (Fin dy) ℝ) (F : Arr → ℝ → Py Arr) (H : Arr → Py Arr) (dt : ℝ) (N : ℕ) (t : ℝ) (calls : ℕ)
    (X Y : ℕ → Arr) : Prop :=
  ∀ k, k < N → ∃ a b, F (X k) (t + k * dt) = .ok a ∧ a.iadd (.v (rng (calls + 2 * k) dx 0 Q)) = .ok (X (k + 1)) ∧
    H (X (k + 1)) = .ok b ∧ b.iadd (.v (rng (calls + 2 * k + 1) dy 0 R)) = .ok (Y k)

/-- The returned pairs are objects that hold the states `X 1, X 2, …` and measurements `Y 0, Y 1, …` and are distinct from each other
and from all older objects. -/
structure Shows (old : ℕ) (s : Store) (N : ℕ) (X Y : ℕ → Arr) (out : List (ℕ × ℕ)) : Prop where
  length : out.length = N
  values : ∀ k p, out[k]? = some p → s.get p.1 = X (k + 1) ∧ s.get p.2 = Y k
  new : ∀ p ∈ out, (old ≤ p.1 ∧ p.1 < s.size) ∧ (old ≤ p.2 ∧ p.2 < s.size)
  distinct : (out.map Prod.fst ++ out.map Prod.snd).Nodup

private theorem loop_shows {sys : DynSys} {dx dy : ℕ} {Q : Matrix (Fin dx) (Fin dx) ℝ} {R : Matrix (Fin dy) (Fin dy) ℝ} (hn : NoiseCovs sys Q R) {F : Arr → ℝ → Py Arr} {H : Arr → Py Arr}
    (hf : ∀ a t, sys.transition a t = (F a t).map .fresh) (hh : ∀ a, sys.measurement a = (H a).map .fresh)
    (rng : Rng) (N : ℕ) : ∀ (s : Store) (x : ℕ) (t : ℝ) (X Y : ℕ → Arr), x < s.size → X 0 = s.get x →
      Recursion rng Q R F H sys.dt N t s.calls X Y →
      ∃ out s', simulateLoop rng sys N x t s = (.ok out, s') ∧ Shows s.size s' N X Y out ∧ s.size ≤ s'.size ∧
        ∀ q, q < s.size → s'.get q = s.get q := by
  induction N with
  | zero =>
    intro s x t X Y _ _ _
    exact ⟨[], s, rfl, ⟨rfl, by simp, by simp, by simp⟩, le_rfl, fun _ _ => rfl⟩
  | succ N ih =>
    intro s x t X Y hx h0 hrec
    obtain ⟨a, b, h1, h2, h3, h4⟩ := hrec 0 (by omega)
    simp only [Nat.cast_zero, zero_mul, add_zero, mul_zero] at h1 h2 h3 h4
    obtain ⟨rx, ry, s1, e, v1, v2, c, n1, l1, n2, l2, d, z, k⟩ := step_fresh hn rng (s := s) (x := x) (t := t)
      (by rw [hf, ← h0, h1]; rfl) h2 (by rw [hh, h3]; rfl) h4
    obtain ⟨out, s', e', sh, z', k'⟩ := ih s1 rx (t + sys.dt) (fun k => X (k + 1)) (fun k => Y (k + 1)) l1 v1.symm (by
      intro j hj
      obtain ⟨a, b, g1, g2, g3, g4⟩ := hrec (j + 1) (by omega)
      refine ⟨a, b, ?_, ?_, g3, ?_⟩
      · rw [show t + sys.dt + (j : ℝ) * sys.dt = t + ((j + 1 : ℕ) : ℝ) * sys.dt by push_cast; ring]; exact g1
      · rw [c, show s.calls + 2 + 2 * j = s.calls + 2 * (j + 1) by ring]; exact g2
      · rw [c, show s.calls + 2 + 2 * j + 1 = s.calls + 2 * (j + 1) + 1 by ring]; exact g4)
    refine ⟨(rx, ry) :: out, s', ?_, ⟨by simp [sh.length], ?_, ?_, ?_⟩, by omega, ?_⟩
    · rw [simulateLoop]
      refine (PyM.bind_ok e _).trans ?_
      exact (PyM.bind_ok e' _).trans rfl
    · intro i p hp
      cases i with
      | zero =>
        simp only [List.getElem?_cons_zero, Option.some.injEq] at hp
        subst hp
        exact ⟨(k' rx l1).trans v1, (k' ry l2).trans v2⟩
      | succ i =>
        rw [List.getElem?_cons_succ] at hp
        exact sh.values i p hp
    · intro p hp
      rcases List.mem_cons.1 hp with rfl | hp
      · exact ⟨⟨n1, by omega⟩, ⟨n2, by omega⟩⟩
      · obtain ⟨⟨a1, a2⟩, a3, a4⟩ := sh.new p hp
        exact ⟨⟨by omega, a2⟩, by omega, a4⟩
    · have hd := sh.distinct
      have f1 : ∀ q ∈ out.map Prod.fst, s1.size ≤ q := by
        intro q hq; obtain ⟨p, hp, rfl⟩ := List.mem_map.1 hq; exact (sh.new p hp).1.1
      have f2 : ∀ q ∈ out.map Prod.snd, s1.size ≤ q := by
        intro q hq; obtain ⟨p, hp, rfl⟩ := List.mem_map.1 hq; exact (sh.new p hp).2.1
      simp only [List.map_cons, List.cons_append]
      refine List.nodup_cons.2 ⟨?_, ?_⟩
      · intro hm
        rcases List.mem_append.1 hm with hm | hm
        · exact absurd (f1 _ hm) (by omega)
        · rcases List.mem_cons.1 hm with hm | hm
          · exact d hm
          · exact absurd (f2 _ hm) (by omega)
      · refine List.nodup_middle.2 (List.nodup_cons.2 ⟨?_, hd⟩)
        intro hm
        rcases List.mem_append.1 hm with hm | hm
        · exact absurd (f1 _ hm) (by omega)
        · exact absurd (f2 _ hm) (by omega)
    · intro q hq
      rw [k' q (by omega), k q hq]

private theorem loop_inv {sys : DynSys} {dx dy : ℕ} {Q : Matrix (Fin dx) (Fin dx) ℝ} {R : Matrix (Fin dy) (Fin dy) ℝ} (hn : NoiseCovs sys Q R) {F : Arr → ℝ → Py Arr} {H : Arr → Py Arr}
    (hf : ∀ a t, sys.transition a t = (F a t).map .fresh) (hh : ∀ a, sys.measurement a = (H a).map .fresh)
    (rng : Rng) (N : ℕ) : ∀ (s s' : Store) (x : ℕ) (t : ℝ) (out : List (ℕ × ℕ)), x < s.size →
      simulateLoop rng sys N x t s = (.ok out, s') →
      ∃ X Y : ℕ → Arr, X 0 = s.get x ∧ Recursion rng Q R F H sys.dt N t s.calls X Y := by
  induction N with
  | zero => exact fun s s' x t out _ _ => ⟨fun _ => s.get x, fun _ => s.get x, rfl, fun k hk => absurd hk (by omega)⟩
  | succ N ih =>
    intro s s' x t out hx h
    rw [simulateLoop] at h
    obtain ⟨p, s1, hs, h⟩ := PyM.bind_ok_inv h
    obtain ⟨a, b, X1, Y1, h1, h2, h3, h4⟩ := step_inv hn hf hh rng hs
    obtain ⟨rx, ry, s1', e, v1, v2, c, n1, l1, n2, l2, d, z, k⟩ := step_fresh hn rng (s := s) (x := x) (t := t)
      (by rw [hf, h1]; rfl) h2 (by rw [hh, h3]; rfl) h4
    obtain ⟨e1, e2⟩ := Prod.mk.injEq .. ▸ hs.symm.trans e
    obtain rfl := Except.ok.inj e1
    subst e2
    obtain ⟨rest, s2, hr, -⟩ := PyM.bind_ok_inv h
    obtain ⟨X, Y, hX0, hrec⟩ := ih s1 s2 rx (t + sys.dt) rest l1 hr
    refine ⟨fun k => match k with | 0 => s.get x | k + 1 => X k, fun k => match k with | 0 => Y1 | k + 1 => Y k, rfl, ?_⟩
    intro j hj
    cases j with
    | zero =>
      refine ⟨a, b, ?_, ?_, ?_, ?_⟩
      · simpa using h1
      · simp only [mul_zero, add_zero, hX0, v1]; exact h2
      · simp only [hX0, v1]; exact h3
      · simp only [mul_zero, add_zero]; exact h4
    | succ j =>
      obtain ⟨a, b, g1, g2, g3, g4⟩ := hrec j (by omega)
      refine ⟨a, b, ?_, ?_, g3, ?_⟩
      · rw [show t + ((j + 1 : ℕ) : ℝ) * sys.dt = t + sys.dt + (j : ℝ) * sys.dt by push_cast; ring]; exact g1
      · rw [c, show s.calls + 2 + 2 * j = s.calls + 2 * (j + 1) by ring] at g2; exact g2
      · rw [c, show s.calls + 2 + 2 * j + 1 = s.calls + 2 * (j + 1) + 1 by ring] at g4; exact g4

/-- C51: if transition and measurement return new arrays, `simulate(N, x_zero, t_zero)` succeeds exactly when the state-space
recursion `x_k = f(x_{k-1}, t0 + (k-1) dt) + w_k`, `y_k = h(x_k) + v_k` can be carried out for `N` steps, and then it returns `N` pairs
of new arrays holding these values; no older array, in particular not `x_zero`, is changed. -/
theorem C51_recursion {sys : DynSys} {dx dy : ℕ} {Q : Matrix (Fin dx) (Fin dx) ℝ} {R : Matrix (Fin dy) (Fin dy) ℝ} (hn : NoiseCovs sys Q R) {F : Arr → ℝ → Py Arr} {H : Arr → Py Arr}
    (hf : ∀ a t, sys.transition a t = (F a t).map .fresh) (hh : ∀ a, sys.measurement a = (H a).map .fresh)
    (env : Env) (rng : Rng) (N : ℕ) (s : Store) (x : ℕ) (t : ℝ) (hx : x < s.size) :
    ((∃ out s', simulate env rng sys N (some x) t s = (.ok out, s')) ↔
      ∃ X Y, X 0 = s.get x ∧ Recursion rng Q R F H sys.dt N t s.calls X Y) ∧
    ∀ X Y, X 0 = s.get x → Recursion rng Q R F H sys.dt N t s.calls X Y →
      ∃ out s', simulate env rng sys N (some x) t s = (.ok out, s') ∧ Shows s.size s' N X Y out ∧
        ∀ q, q < s.size → s'.get q = s.get q := by
  refine ⟨⟨fun ⟨out, s', h⟩ => ?_, fun ⟨X, Y, h0, hr⟩ => ?_⟩, fun X Y h0 hr => ?_⟩
  · exact loop_inv hn hf hh rng N s s' x t out hx h
  · obtain ⟨out, s', e, -⟩ := loop_shows hn hf hh rng N s x t X Y hx h0 hr
    exact ⟨out, s', e⟩
  · obtain ⟨out, s', e, sh, -, k⟩ := loop_shows hn hf hh rng N s x t X Y hx h0 hr
    exact ⟨out, s', e, sh, k⟩

/-- A transition that returns its argument object: one round changes the array `x` in place. -/
private theorem step_same {sys : DynSys} {dx dy : ℕ} {Q : Matrix (Fin dx) (Fin dx) ℝ} {R : Matrix (Fin dy) (Fin dy) ℝ} (hn : NoiseCovs sys Q R) (rng : Rng) {s : Store} {x : ℕ} {t : ℝ}
    (hx : x < s.size) {x0 : Fin dx → ℝ} (hv : s.get x = .v x0) (ht : sys.transition (.v x0) t = .ok .same)
    {y0 : Fin dy → ℝ} (hm : sys.measurement (.v (x0 + rng s.calls dx 0 Q)) = .ok (.fresh (.v y0))) :
    ∃ ry s', simulateStep rng sys x t s = (.ok (x, ry), s') ∧ s'.get x = .v (x0 + rng s.calls dx 0 Q) ∧ s'.calls = s.calls + 2 ∧
      x < s'.size := by
  let s1 : Store := { s with calls := s.calls + 1 }
  obtain ⟨rx, s3, e3, v3, c3, z3, l3, n3, m3, k3⟩ := inplaceAdd_ok (s := s1) (x := x) (a := .v (rng s.calls dx 0 Q))
    (b := .v (x0 + rng s.calls dx 0 Q)) hx (by show (s.get x).iadd _ = _; rw [hv]; simp)
  obtain ⟨rfl, hsz⟩ := m3 (by show 0 < (s.get x).ndim; rw [hv]; simp)
  let s4 : Store := s3.alloc (.v y0)
  let s5 : Store := { s4 with calls := s4.calls + 1 }
  have g5 : s5.get s3.size = .v y0 := by simp [s5, s4, Store.alloc]
  obtain ⟨ry, s6, e6, v6, c6, z6, l6, n6, -, k6⟩ := inplaceAdd_ok (s := s5) (x := s3.size) (a := .v (rng s4.calls dy 0 R))
    (b := .v (y0 + rng s4.calls dy 0 R)) (by simp [s5, s4, Store.alloc]) (by rw [g5]; simp)
  have hs5 : s5.size = s3.size + 1 := rfl
  have hs1 : s1.size = s.size := rfl
  refine ⟨ry, s6, ?_, ?_, ?_, by omega⟩
  · unfold simulateStep
    rw [PyM.get_bind, hv, ht]
    refine (PyM.bind_ok (result_same rx s) _).trans ?_
    refine (PyM.bind_ok (sample_sys hn rng s) _).trans ?_
    refine (PyM.bind_ok e3 _).trans ?_
    rw [PyM.get_bind, v3, hm]
    refine (PyM.bind_ok (result_fresh _ rx s3) _).trans ?_
    refine (PyM.bind_ok (sample_meas hn rng s4) _).trans ?_
    exact (PyM.bind_ok e6 _).trans rfl
  · rw [k6 rx (by omega) (by omega)]
    show (Function.update s3.get s3.size _) rx = _
    rw [Function.update_of_ne (by omega)]; exact v3
  · rw [c6]; show s3.calls + 1 = _; rw [c3]

/-- C51: if the transition returns its argument object, all returned states are the object `x_zero` itself, which ends up holding
`x_zero` plus the sum of all system noises: the trajectory is lost. -/
theorem C51_transition_returning_argument {sys : DynSys} {dx dy : ℕ} {Q : Matrix (Fin dx) (Fin dx) ℝ} {R : Matrix (Fin dy) (Fin dy) ℝ} (hn : NoiseCovs sys Q R)
    (hf : ∀ a t, sys.transition a t = .ok .same) {H : (Fin dx → ℝ) → Fin dy → ℝ}
    (hh : ∀ a, sys.measurement (.v a) = .ok (.fresh (.v (H a)))) (env : Env) (rng : Rng) (N : ℕ) (s : Store) (x : ℕ) (t : ℝ)
    (hx : x < s.size) (x0 : Fin dx → ℝ) (hv : s.get x = .v x0) :
    ∃ out s', simulate env rng sys N (some x) t s = (.ok out, s') ∧ out.length = N ∧ (∀ p ∈ out, p.1 = x) ∧
      s'.get x = .v (x0 + ∑ k ∈ Finset.range N, rng (s.calls + 2 * k) dx 0 Q) := by
  show ∃ out s', simulateLoop rng sys N x t s = (.ok out, s') ∧ _
  induction N generalizing s t x0 with
  | zero => exact ⟨[], s, rfl, rfl, by simp, by simp [hv]⟩
  | succ N ih =>
    obtain ⟨ry, s1, e, v1, c1, l1⟩ := step_same hn rng hx hv (hf _ t) (hh _)
    obtain ⟨out, s', e', hl, hp, hs⟩ := ih s1 (t + sys.dt) l1 _ v1
    refine ⟨(x, ry) :: out, s', ?_, by simp [hl], ?_, ?_⟩
    · rw [simulateLoop]
      refine (PyM.bind_ok e _).trans ?_
      exact (PyM.bind_ok e' _).trans rfl
    · intro p hp'
      rcases List.mem_cons.1 hp' with rfl | h
      · rfl
      · exact hp p h
    · rw [hs, Finset.sum_range_succ', c1]
      simp only [mul_zero, add_zero]
      rw [add_assoc, add_comm (rng s.calls dx 0 Q)]
      simp only [show ∀ k, s.calls + 2 + 2 * k = s.calls + 2 * (k + 1) from fun k => by ring]

/-- C51: if the measurement function returns its argument object, states and measurements are the same objects and the measurement
noise enters the state: `x_k = f(x_{k-1}) + w_k + v_k`. -/
theorem C51_measurement_returning_argument {sys : DynSys} {d : ℕ} {Q R : Matrix (Fin d) (Fin d) ℝ} (hn : NoiseCovs sys Q R)
    {F : (Fin d → ℝ) → ℝ → Fin d → ℝ} (hf : ∀ a t, sys.transition (.v a) t = .ok (.fresh (.v (F a t))))
    (hh : ∀ a, sys.measurement a = .ok .same) (rng : Rng) (s : Store) (x : ℕ) (t : ℝ) (x0 : Fin d → ℝ) (hv : s.get x = .v x0) :
    ∃ r s', simulateStep rng sys x t s = (.ok (r, r), s') ∧
      s'.get r = .v (F x0 t + rng s.calls d 0 Q + rng (s.calls + 1) d 0 R) := by
  let s1 : Store := s.alloc (.v (F x0 t))
  let s2 : Store := { s1 with calls := s1.calls + 1 }
  have g2 : s2.get s.size = .v (F x0 t) := by simp [s2, s1, Store.alloc]
  obtain ⟨rx, s3, e3, v3, c3, z3, l3, n3, -, k3⟩ := inplaceAdd_ok (s := s2) (x := s.size) (a := .v (rng s.calls d 0 Q))
    (b := .v (F x0 t + rng s.calls d 0 Q)) (by simp [s2, s1, Store.alloc]) (by rw [g2]; simp)
  let s5 : Store := { s3 with calls := s.calls + 1 + 1 }
  have g5 : s5.get rx = .v (F x0 t + rng s.calls d 0 Q) := v3
  have c3' : s3.calls = s.calls + 1 := c3
  obtain ⟨ry, s6, e6, v6, c6, z6, l6, n6, m6, k6⟩ := inplaceAdd_ok (s := s5) (x := rx) (a := .v (rng (s.calls + 1) d 0 R))
    (b := .v (F x0 t + rng s.calls d 0 Q + rng (s.calls + 1) d 0 R)) l3 (by rw [g5]; simp)
  obtain ⟨rfl, -⟩ := m6 (by rw [g5]; simp)
  refine ⟨ry, s6, ?_, v6⟩
  unfold simulateStep
  rw [PyM.get_bind, hv, hf]
  refine (PyM.bind_ok (result_fresh _ x s) _).trans ?_
  refine (PyM.bind_ok (sample_sys hn rng s1) _).trans ?_
  refine (PyM.bind_ok e3 _).trans ?_
  rw [PyM.get_bind, hh]
  refine (PyM.bind_ok (result_same ry s3) _).trans ?_
  refine (PyM.bind_ok (sample_meas hn rng s3) _).trans ?_
  rw [c3']
  exact (PyM.bind_ok e6 _).trans rfl

/-- A one-dimensional system `x ↦ 2 x + t`, `h(x) = 3 x` that creates new arrays. -/
private def demoSys : DynSys where
  transition a t := .ok (.fresh (a.map fun x => 2 * x + t))
  measurement a := .ok (.fresh (a.map fun x => 3 * x))
  systemNoise := .init 1 (some (Arr.eye 1)) none
  measurementNoise := .init 1 (some (Arr.eye 1)) none
  initState := Gaussian.asFactor 1
  dt := 1

example : ∃ X Y, X 0 = .v (n := 1) (fun _ => 1) ∧
    Recursion (fun _ _ _ _ _ => 0) (1 : Matrix (Fin 1) (Fin 1) ℝ) (1 : Matrix (Fin 1) (Fin 1) ℝ) (fun a t => .ok (a.map fun x => 2 * x + t)) (fun a => .ok (a.map fun x => 3 * x)) demoSys.dt 5 0 0
      X Y := by
  let g : ℕ → ℝ := fun k => Nat.rec 1 (fun k x => 2 * x + (0 + (k : ℝ) * 1)) k
  refine ⟨fun k => .v (n := 1) fun _ => g k, fun k => .v (n := 1) fun _ => 3 * g (k + 1), rfl, fun k _ => ?_⟩
  refine ⟨_, _, rfl, ?_, rfl, ?_⟩
  · simp only [Arr.map, Arr.iadd_vv]
    congr 2; funext i; simp [g, demoSys]
  · simp only [Arr.map, Arr.iadd_vv]
    congr 2; funext i; simp

example : NoiseCovs demoSys (1 : Matrix (Fin 1) (Fin 1) ℝ) (1 : Matrix (Fin 1) (Fin 1) ℝ) := ⟨rfl, rfl⟩

end Verif

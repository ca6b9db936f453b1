import Verif.Lemmas.ScalarPass
import Verif.Lemmas.Kalman

/-! The Kalman filter and smoother on the line compute the undamped recursion of `Chain`. -/

namespace Verif

open Matrix Gaussian

variable {env : Env} {K : KFS} {ys : List Arr} {N : ℕ} {c : Chain}

theorem mom1_sG (m p : ℝ) : Mom1 env (sG m p) false m p := sG_moments env m p

theorem Realises.flat {T : Transform} {f : Func} {τ : Rule} (h : Realises env T f τ) : RealisesFlat env T f τ :=
  fun g m p hg hp => ⟨_, .inl rfl, h g false m p hg hp⟩

namespace ModelsKFS

theorem predict (hm : ModelsKFS env K ys N c) {i : ℕ} (hi : i < N) {g : Gaussian} {a : ℝ × ℝ} (hg : Mom1 env g false a.1 a.2) (ha : 0 < a.2) :
    K.predict g (some (i * K.dt)) none = .ok (sG (c.predict i a).1 (c.predict i a).2) := by
  obtain ⟨z, hz, hT⟩ := hm.trans i hi g a.1 a.2 hg ha
  rw [KFS.predict_of hT hz hm.Q, m1_add]
  rfl

theorem correct (hm : ModelsKFS env K ys N c) (hr : c.Regular) {i : ℕ} (hi : i < N) {a : ℝ × ℝ} (ha : 0 < a.2) {y : Arr} (hy : ys[i]? = some y) :
    K.correct env (sG a.1 a.2) y.squeeze (some (i * K.dt)) none = .ok (sG (c.correct i a).1 (c.correct i a).2) := by
  have hs := (hr.κ.meas_pos (m := a.1) ha hr.r).1
  obtain ⟨z, hz, hT⟩ := hm.meas i hi _ a.1 a.2 (mom1_sG _ _) ha
  rw [KFS.correct_scalar hT hz (hm.obs i y hy) hm.R hs.ne']
  have e : c.κ.C a.1 a.2 / (c.κ.S a.1 a.2 + c.r) * c.κ.C a.1 a.2 =
      (c.κ.C a.1 a.2 / (c.κ.S a.1 a.2 + c.r)) ^ 2 * (c.κ.S a.1 a.2 + c.r) := by field_simp
  rw [e]
  rfl

theorem smooth (hm : ModelsKFS env K ys N c) (hr : c.Regular) {i : ℕ} (hi : i + 1 < N) {a b : ℝ × ℝ} (ha : 0 < a.2) :
    K.smooth env (sG a.1 a.2) (sG b.1 b.2) (some (((i + 1 : ℕ) : ℝ) * K.dt)) none = .ok (sG (c.smooth i a b).1 (c.smooth i a b).2) := by
  have hs := ((hr.τ (i + 1)).meas_pos (m := a.1) ha hr.q).1
  obtain ⟨z, hz, hT⟩ := hm.trans (i + 1) hi _ a.1 a.2 (mom1_sG _ _) ha
  rw [KFS.smooth_scalar hT hz hm.Q hs.ne']
  have e : ∀ k d : ℝ, k * d * k = k ^ 2 * d := fun k d => by ring
  rw [e]
  rfl

theorem filterLoop (hm : ModelsKFS env K ys N c) (hr : c.Regular) : ∀ (k i : ℕ) (g : Gaussian), i + k = N →
    Mom1 env g false (c.before 0 i).1 (c.before 0 i).2 →
    K.filterLoop env none g (i * K.dt) (ys.drop i) = .ok ((List.range' i k).map fun j => sG (c.filtered 0 j).1 (c.filtered 0 j).2)
  | 0, i, g, hk, hg => by
    rw [List.drop_eq_nil_of_le (by rw [hm.length]; omega)]
    rfl
  | k + 1, i, g, hk, hg => by
    have hi : i < ys.length := by rw [hm.length]; omega
    have h0 := Chain.before_pos hr le_rfl i
    have h1 := Chain.predict_pos hr i h0
    have hf : c.filtered 0 i = c.correct i (c.predict i (c.before 0 i)) := by rw [Chain.filtered_eq, damp_zero h1]
    have ih := filterLoop hm hr k (i + 1) (sG (c.filtered 0 i).1 (c.filtered 0 i).2) (by omega) (mom1_sG _ _)
    rw [show ((i + 1 : ℕ) : ℝ) * K.dt = i * K.dt + K.dt by push_cast; ring] at ih
    rw [List.drop_eq_getElem_cons hi, KFS.filterLoop, hm.predict (by omega) hg h0, ok_bind,
      hm.correct hr (by omega) h1 (List.getElem?_eq_getElem hi), ok_bind, ← hf, ih, ok_bind, List.range'_succ]
    rfl

theorem kalmanFilter (hm : ModelsKFS env K ys N c) (hr : c.Regular) :
    K.kalmanFilter env ys none 0 none = .ok ((List.range N).map fun j => sG (c.filtered 0 j).1 (c.filtered 0 j).2) := by
  have h := hm.filterLoop hr N 0 K.initState (by omega) hm.prior
  simp only [Nat.cast_zero, zero_mul, List.drop_zero] at h
  rw [List.range_eq_range']
  exact h

theorem smoothLoop {n : ℕ} (hm : ModelsKFS env K ys (n + 1) c) (hr : c.Regular) : ∀ i : ℕ, i ≤ n →
    K.smoothLoop env none (sG (c.smoothed 0 n i).1 (c.smoothed 0 n i).2) (i * K.dt)
      ((List.range i).reverse.map fun j => sG (c.filtered 0 j).1 (c.filtered 0 j).2) =
      .ok ((List.range i).reverse.map fun j => sG (c.smoothed 0 n j).1 (c.smoothed 0 n j).2)
  | 0, _ => rfl
  | i + 1, hi => by
    have ih := smoothLoop hm hr i (by omega)
    rw [show (i : ℝ) * K.dt = ((i + 1 : ℕ) : ℝ) * K.dt - K.dt by push_cast; ring] at ih
    rw [List.range_succ, List.reverse_append, List.reverse_singleton, List.singleton_append, List.map_cons, List.map_cons, KFS.smoothLoop,
      hm.smooth hr (by omega) (Chain.filtered_pos hr le_rfl i), ok_bind, sG_copyV, ok_bind, ← Chain.smoothed_step c 0 (by omega), ih]
    rfl

theorem kalmanSmoother {n : ℕ} (hm : ModelsKFS env K ys (n + 1) c) (hr : c.Regular) :
    K.kalmanSmoother env ((List.range (n + 1)).map fun j => sG (c.filtered 0 j).1 (c.filtered 0 j).2) none =
      .ok ((List.range (n + 1)).map fun j => sG (c.smoothed 0 n j).1 (c.smoothed 0 n j).2) := by
  have h := hm.smoothLoop hr n le_rfl
  have e : (((List.range (n + 1)).map fun j => sG (c.filtered 0 j).1 (c.filtered 0 j).2).length : ℝ) - 1 = n := by simp
  have e2 : ((List.range (n + 1)).map fun j => sG (c.filtered 0 j).1 (c.filtered 0 j).2).reverse =
      sG (c.filtered 0 n).1 (c.filtered 0 n).2 :: (List.range n).reverse.map fun j => sG (c.filtered 0 j).1 (c.filtered 0 j).2 := by
    rw [← List.map_reverse, List.range_succ, List.reverse_append, List.reverse_singleton, List.singleton_append, List.map_cons]
  rw [KFS.kalmanSmoother, e2]
  dsimp only
  rw [sG_copyV, ok_bind, e, ← Chain.smoothed_last c 0 n, h, ok_bind]
  show Except.ok _ = _
  rw [List.reverse_cons, ← List.map_reverse, List.reverse_reverse, List.range_succ, List.map_append]
  rfl

end ModelsKFS

end Verif

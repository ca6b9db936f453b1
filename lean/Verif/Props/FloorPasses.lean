import Verif.Props.Bounded
import Verif.Props.Damped

/-!
# How certain filter, smoother and expectation propagation can become on a scalar state (C115)
-/

namespace Verif

open Matrix Gaussian Site

variable {env : Env} {e : Estimator} {sys : Sys} {ys : List Arr} {N : ℕ} {c : Chain}

/-- The covariance of state and output is at most `a` times the variance of the state for the transitions, and `s` times it for the
measurement. -/
structure Chain.Slope (c : Chain) (a s : ℝ) : Prop where
  trans : ∀ i m p, 0 < p → (c.τ i).C m p ^ 2 ≤ (a * p) ^ 2
  meas : ∀ m p, 0 < p → c.κ.C m p ^ 2 ≤ (s * p) ^ 2

/-- What an observation with noise of variance `R` adds to a precision. -/
private theorem added_le {P S C R a : ℝ} (hP : 0 < P) (hS : C ^ 2 ≤ P * S) (hS0 : 0 ≤ S) (hR : 0 < R) (hC : C ^ 2 ≤ (a * P) ^ 2) :
    1 / (P - (C / (S + R)) ^ 2 * (S + R)) ≤ 1 / P + a ^ 2 / R := by
  have hw : 0 < S + R := by linarith
  have e : P - (C / (S + R)) ^ 2 * (S + R) = (P * (S + R) - C ^ 2) / (S + R) := by field_simp
  have hd : 0 < P * (S + R) - C ^ 2 := by nlinarith
  rw [e, one_div_div, div_add_div _ _ hP.ne' hR.ne', div_le_div_iff₀ hd (by positivity)]
  have h1 : 0 ≤ P * S - C ^ 2 := by linarith
  have h2 : 0 ≤ a ^ 2 * P ^ 2 - C ^ 2 := by nlinarith
  nlinarith [mul_nonneg h1 (by positivity : 0 ≤ a ^ 2 * P), mul_nonneg h2 hR.le]

/-! ## Filter and smoother -/

namespace Chain

theorem correct_floor (hr : c.Regular) {a s : ℝ} (hs : c.Slope a s) (i : ℕ) {g : ℝ × ℝ} (hg : 0 < g.2) :
    1 / (c.correct i g).2 ≤ 1 / g.2 + s ^ 2 / c.r :=
  added_le hg (hr.κ g.1 g.2 hg).2 (hr.κ g.1 g.2 hg).1 hr.r (hs.meas g.1 g.2 hg)

theorem predict_floor (hr : c.Regular) (i : ℕ) {g : ℝ × ℝ} (hg : 0 < g.2) : 1 / (c.predict i g).2 ≤ 1 / c.q := by
  have := (hr.τ i g.1 g.2 hg).1
  exact one_div_le_one_div_of_le hr.q (by simp only [predict]; linarith)

theorem filtered_floor (hr : c.Regular) {a s : ℝ} (hs : c.Slope a s) (i : ℕ) : 1 / (c.filtered 0 i).2 ≤ 1 / c.q + s ^ 2 / c.r := by
  have hd : ∀ g : ℝ × ℝ, (Chain.damp 0 g).2 = g.2 := fun g => by simp [Chain.damp]
  have hstep : ∀ i g, 0 < g.2 → 1 / (c.correct i (Chain.damp 0 (c.predict i g))).2 ≤ 1 / c.q + s ^ 2 / c.r := fun i g hg => by
    have hp := Chain.predict_pos hr i hg
    have h1 := correct_floor hr hs i (g := Chain.damp 0 (c.predict i g)) (by rw [hd]; exact hp)
    rw [hd] at h1
    have := predict_floor hr i hg
    linarith
  cases i with
  | zero => exact hstep 0 (c.m0, c.p0) hr.p0
  | succ i => exact hstep (i + 1) _ (Chain.filtered_pos hr le_rfl i)

theorem smooth_floor (hr : c.Regular) {a s : ℝ} (hs : c.Slope a s) (i : ℕ) {g nx : ℝ × ℝ} (hg : 0 < g.2) (hn : 0 ≤ nx.2) :
    1 / (c.smooth i g nx).2 ≤ 1 / g.2 + a ^ 2 / c.q := by
  obtain ⟨h1, h2⟩ := hr.τ (i + 1) g.1 g.2 hg
  have h := added_le hg h2 h1 hr.q (hs.trans (i + 1) g.1 g.2 hg)
  refine le_trans (one_div_le_one_div_of_le ?_ ?_) h
  · have := (hr.τ (i + 1)).back_pos (m := g.1) hg hr.q (le_refl 0)
    refine lt_of_lt_of_eq this ?_
    ring
  · simp only [smooth]
    have := mul_nonneg (sq_nonneg ((c.τ (i + 1)).C g.1 g.2 / ((c.τ (i + 1)).S g.1 g.2 + c.q))) hn
    linarith

/-! ## Expectation propagation -/

/-- The precisions of the factors do not exceed what the noise allows. -/
structure Capped (c : Chain) (a s : ℝ) (v : Vals) : Prop where
  F : v.F.p ≤ c.α / c.q
  Y : v.Y.p ≤ c.α * (s ^ 2 / c.r)
  B : v.B.p ≤ c.α * (a ^ 2 / c.q)

theorem capped_start (hr : c.Regular) (a s : ℝ) : c.Capped a s start := by
  have := hr.α
  have := hr.q
  have := hr.r
  refine ⟨?_, ?_, ?_⟩ <;> simp only [start] <;> positivity

theorem fwd_capped (hr : c.Regular) (h0 : 0 < c.γ) (h1 : c.γ ≤ 1) {a s : ℝ} {V : ℕ → Vals} {i : ℕ} (hi : c.Tidy (V i))
    (hV : ∀ j, i = j + 1 → c.Tidy (V j)) (hc : c.Capped a s (V i)) : c.Capped a s (c.fwd i V i) := by
  obtain ⟨-, t2, t3, t4, -⟩ := fwd_tidy hr h0 h1 hi hV
  refine ⟨?_, by rw [t2]; exact hc.Y, by rw [t3]; exact hc.B⟩
  rw [t4]
  have h2 := predict_floor hr i (basis_pos hr V i)
  have h3 := mul_le_mul_of_nonneg_left h2 hr.α.le
  have h4 := mul_le_mul_of_nonneg_left h3 h0.le
  have h5 := mul_le_mul_of_nonneg_left hc.F (sub_nonneg.2 h1)
  have : c.α * (1 / c.q) = c.α / c.q := by ring
  rw [this] at h4
  linarith

theorem meas_capped (hr : c.Regular) (hα1 : c.α ≤ 1) (h0 : 0 < c.γ) (h1 : c.γ ≤ 1) {a s : ℝ} (hs : c.Slope a s) {V : ℕ → Vals} {i : ℕ}
    (hi : c.Tidy (V i)) (hc : c.Capped a s (V i)) : c.Capped a s (c.meas i V i) := by
  obtain ⟨-, m2, m3⟩ := meas_keeps hr hα1 h0 h1 hi
  refine ⟨by rw [m2]; exact hc.F, ?_, by rw [m3]; exact hc.B⟩
  have hα := hr.α
  set cav := (V i).M - (V i).Y with hcav
  have hY : (V i).Y.p ≤ (V i).Y.p / c.α := by
    rw [le_div_iff₀ hα]; exact mul_le_of_le_one_right hi.Y hα1
  have hcp : eps ≤ cav.p := by
    simp only [hcav, sub_def, hi.p, add_div]
    have := div_nonneg hi.F hα.le
    have := div_nonneg hi.B hα.le
    linarith
  have hvar : 0 < cav.var := Site.var_pos _
  obtain ⟨k1, k2⟩ := hr.κ cav.mean cav.var hvar
  have h := added_le hvar k2 k1 (div_pos hr.r hα) (hs.meas cav.mean cav.var hvar)
  rw [(Site.read _ hcp).2.1, one_div_one_div, ← (Site.read _ hcp).2.1] at h
  have e : (c.meas i V i).Y.p = (1 - c.γ) * (V i).Y.p + c.γ * (1 / (cav.var - (c.κ.C cav.mean cav.var / (c.κ.S cav.mean cav.var + c.r / c.α)) ^ 2 *
      (c.κ.S cav.mean cav.var + c.r / c.α)) - cav.p) := by
    simp only [meas, Function.update_self, add_def, sub_def, smul_def, ofMoments, hcav]
    ring
  rw [e]
  have h2 := mul_le_mul_of_nonneg_left hc.Y (sub_nonneg.2 h1)
  have h3 : s ^ 2 / (c.r / c.α) = c.α * (s ^ 2 / c.r) := by field_simp
  rw [h3] at h
  have h4 := mul_le_mul_of_nonneg_left (sub_left_le_of_le_add h) h0.le
  linarith

theorem back_capped (hr : c.Regular) (hα1 : c.α ≤ 1) (h0 : 0 < c.γ) (h1 : c.γ ≤ 1) {a s : ℝ} (hs : c.Slope a s) {V : ℕ → Vals} {i : ℕ}
    (hi : c.Tidy (V i)) (hc : c.Capped a s (V i)) : c.Capped a s (c.back i V i) := by
  have hα := hr.α
  have hq : 0 < c.q / c.α := div_pos hr.q hα
  set cav := (V i).M - (V i).B with hcav
  have hB : (V i).B.p ≤ (V i).B.p / c.α := by
    rw [le_div_iff₀ hα]; exact mul_le_of_le_one_right hi.B hα1
  have hcp : eps ≤ cav.p := by
    simp only [hcav, sub_def, hi.p, add_div]
    have := div_nonneg hi.F hα.le
    have := div_nonneg hi.Y hα.le
    linarith
  have hvar : 0 < cav.var := Site.var_pos _
  obtain ⟨k1, k2⟩ := hr.τ (i + 1) cav.mean cav.var hvar
  have h := added_le hvar k2 k1 hq (hs.trans (i + 1) cav.mean cav.var hvar)
  rw [(Site.read _ hcp).2.1, one_div_one_div, ← (Site.read _ hcp).2.1] at h
  set w := (c.τ (i + 1)).S cav.mean cav.var + c.q / c.α with hw
  set t := c.target i V ((c.τ (i + 1)).X cav.mean cav.var) w with ht
  set k := (c.τ (i + 1)).C cav.mean cav.var / w with hk
  have e : (c.back i V i).B.p = (1 - c.γ) * (V i).B.p + c.γ * (1 / (cav.var + k ^ 2 * (t.var - w)) - cav.p) := by
    have e' : (c.back i V i).B = (V i).B + c.γ • (ofMoments (cav.meanSh || t.meanSh)
        (cav.mean + k * (t.mean - (c.τ (i + 1)).X cav.mean cav.var)) (cav.var + k ^ 2 * (t.var - w)) - (V i).M) := by
      simp only [back, Function.update_self]
      rfl
    have e'' : cav.p = (V i).M.p - (V i).B.p := rfl
    rw [e', e'']
    simp only [add_def, sub_def, smul_def, ofMoments]
    ring
  have eF : (c.back i V i).F = (V i).F := by simp [back]
  have eY : (c.back i V i).Y = (V i).Y := by simp [back]
  refine ⟨by rw [eF]; exact hc.F, by rw [eY]; exact hc.Y, ?_⟩
  rw [e]
  have hv : 1 / (cav.var + k ^ 2 * (t.var - w)) ≤ 1 / (cav.var - k ^ 2 * w) := by
    refine one_div_le_one_div_of_le ?_ ?_
    · have := (hr.τ (i + 1)).back_pos (m := cav.mean) hvar hq (le_refl 0)
      rw [← hw, ← hk] at this
      linarith
    · have := mul_nonneg (sq_nonneg k) (Site.var_pos t).le
      linarith
  have h2 := mul_le_mul_of_nonneg_left hc.B (sub_nonneg.2 h1)
  have h3 : a ^ 2 / (c.q / c.α) = c.α * (a ^ 2 / c.q) := by field_simp
  rw [h3] at h
  have h4 := mul_le_mul_of_nonneg_left (sub_left_le_of_le_add (hv.trans h)) h0.le
  linarith

/-- Powers below one: no sequence of updates breaks the bounds. -/
theorem steps_capped (hr : c.Regular) (hα1 : c.α < 1) (h0 : 0 < c.γ) (h1 : c.γ ≤ 1) {a s : ℝ} (hs : c.Slope a s) (N : ℕ) :
    ∀ (calls : List (Upd × ℕ)) (V : ℕ → Vals), (∀ i, c.Tidy (V i)) → (∀ i, c.Capped a s (V i)) → ∀ i, c.Capped a s (c.steps N calls V i)
  | [], V, _, hC => hC
  | (u, j) :: calls, V, hV, hC => steps_capped hr hα1 h0 h1 hs N calls (c.step N (u, j) V)
      (fun i => steps_tidy hr hα1 h0 h1 N [(u, j)] V hV i) fun i => by
    by_cases hij : i = j
    · subst hij
      rcases u with _ | _ | _
      · exact fwd_capped hr h0 h1 (hV i) (fun k _ => hV k) (hC i)
      · exact meas_capped hr hα1.le h0 h1 hs (hV i) (hC i)
      · simp only [step]
        split_ifs
        · exact back_capped hr hα1.le h0 h1 hs (hV i) (hC i)
        · exact hC i
    · have : c.step N (u, j) V i = V i := by
        rcases u with _ | _ | _
        · simp only [step, fwd, Function.update_of_ne hij]
        · simp only [step, meas, Function.update_of_ne hij]
        · simp only [step]
          split_ifs
          · simp only [back, Function.update_of_ne hij]
          · rfl
      rw [this]
      exact hC i

/-- Power and damping one: no pass breaks the bounds. -/
theorem pass_capped (hr : c.Regular) (hα : c.α = 1) (hγ : c.γ = 1) {a s : ℝ} (hs : c.Slope a s) {V : ℕ → Vals} (n : ℕ)
    (hV : ∀ i, c.Tidy (V i)) (hC : ∀ i, c.Capped a s (V i)) (i : ℕ) : c.Capped a s (c.steps (n + 1) (passCalls (n + 1)) V i) := by
  have h0 : 0 < c.γ := hγ ▸ one_pos
  have h1 : c.γ ≤ 1 := hγ.le
  set U := c.steps (n + 1) ((List.range (n + 1)).flatMap fwdPair) V with hU
  obtain ⟨b1, b2⟩ := backward_parts c n U (n + 1) le_rfl
  have hW : c.steps (n + 1) (passCalls (n + 1)) V = c.steps (n + 1) ((List.range' (n + 1 - (n + 1)) (n + 1)).reverse.map fun i => (Upd.back, i)) U := by
    rw [passCalls, steps_append, Nat.sub_self, ← List.range_eq_range']
    rfl
  rw [hW]
  obtain ⟨f1, f2⟩ := forward_parts c (n + 1) (n + 1) V
  rw [← hU] at f1 f2
  have fw : ∀ i, i ≤ n → c.Tidy (U i) ∧ c.Capped a s (U i) := by
    intro i
    induction i with
    | zero =>
      intro hi
      obtain ⟨X, x1, -, x3⟩ := f2 0 (by omega)
      rw [x3]
      have t := (fwd_tidy hr h0 h1 (V := X) (i := 0) (by rw [x1]; exact hV 0) (fun j hj => by omega)).1
      have k := fwd_capped hr h0 h1 (V := X) (i := 0) (a := a) (s := s) (by rw [x1]; exact hV 0) (fun j hj => by omega) (by rw [x1]; exact hC 0)
      exact ⟨(meas_keeps hr hα.le h0 h1 t).1, meas_capped hr hα.le h0 h1 hs t k⟩
    | succ i ih =>
      intro hi
      obtain ⟨X, x1, x2, x3⟩ := f2 (i + 1) (by omega)
      rw [x3]
      have hj : ∀ j, i + 1 = j + 1 → c.Tidy (X j) := fun j hj => by
        obtain rfl : i = j := by omega
        rw [x2 i rfl]
        exact (ih (by omega)).1
      have t := (fwd_tidy hr h0 h1 (V := X) (i := i + 1) (by rw [x1]; exact hV _) hj).1
      have k := fwd_capped hr h0 h1 (V := X) (i := i + 1) (a := a) (s := s) (by rw [x1]; exact hV _) hj (by rw [x1]; exact hC _)
      exact ⟨(meas_keeps hr hα.le h0 h1 t).1, meas_capped hr hα.le h0 h1 hs t k⟩
  have ut : ∀ i, c.Tidy (U i) ∧ c.Capped a s (U i) := fun i =>
    if hi : i ≤ n then fw i hi else by rw [f1 i (by omega)]; exact ⟨hV i, hC i⟩
  rcases Nat.lt_or_ge i n with hin | hin
  · obtain ⟨X, x1, -, x3⟩ := b2 i (by omega) hin
    rw [x3]
    exact back_capped hr hα.le h0 h1 hs (by rw [x1]; exact (ut i).1) (by rw [x1]; exact (ut i).2)
  · rw [b1 i (.inr hin)]
    exact (ut i).2

theorem Capped.floor (hr : c.Regular) {a s : ℝ} {v : Vals} (t : c.Tidy v) (hc : c.Capped a s v) :
    1 / v.M.var ≤ 1 / 10 ^ 10 + 1 / c.q + s ^ 2 / c.r + a ^ 2 / c.q := by
  rw [(Site.read _ (t.le hr.α)).2.1, one_div_one_div, t.p]
  have h1 : (v.F.p + v.Y.p + v.B.p) / c.α ≤ 1 / c.q + s ^ 2 / c.r + a ^ 2 / c.q := by
    rw [div_le_iff₀ hr.α]
    have := hc.F
    have := hc.Y
    have := hc.B
    have : c.α / c.q = 1 / c.q * c.α := by ring
    linarith
  have : eps = 1 / 10 ^ 10 := rfl
  linarith

end Chain

private theorem replicate_steps (V : ℕ → Vals) (n : ℕ) :
    c.steps N (List.replicate n (passCalls N)).flatten V = (c.steps N (passCalls N))^[n] V := by
  induction n generalizing V with
  | zero => rfl
  | succ n ih =>
    rw [List.replicate_succ, List.flatten_cons, Function.iterate_succ_apply, ← ih]
    exact List.foldl_append

private theorem inv_floor {v B : ℝ} (hv : 0 < v) (h : 1 / v ≤ B) : 1 / B ≤ v := by
  have := one_div_le_one_div_of_le (one_div_pos.2 hv) h
  rwa [one_div_one_div] at this

/-! ## C115 -/

/-- **C115.** Filter and smoother on a scalar system whose transitions and measurement have slopes of at most `a` and `s` as far as the
transforms can see: no reported variance is below the limits set by the noise, whatever the prior, the data and their number. -/
theorem C115_filter_smoother {K : KFS} (hm : ModelsKFS env K ys N c) (hr : c.Regular) (hN : 0 < N) {a s : ℝ} (hs : c.Slope a s) :
    ∃ fs rs, K.kalmanFilter env ys none 0 none = .ok fs ∧ K.kalmanSmoother env fs none = .ok rs ∧ fs.length = N ∧ rs.length = N ∧
      (∀ i, i < N → ∃ g m v, fs[i]? = some g ∧ Mom1 env g false m v ∧ 1 / (1 / c.q + s ^ 2 / c.r) ≤ v) ∧
      ∀ i, i < N → ∃ g m v, rs[i]? = some g ∧ Mom1 env g false m v ∧ 1 / (1 / c.q + s ^ 2 / c.r + a ^ 2 / c.q) ≤ v := by
  obtain ⟨fs, rs, h1, h2, h3, h4, h5, h6⟩ := C40_kalman hm hr hN
  have hf := fun i => inv_floor (Chain.filtered_pos hr (le_refl 0) i) (Chain.filtered_floor hr hs i)
  refine ⟨fs, rs, h1, h2, h3, h4, fun i hi => ?_, fun i hi => ?_⟩
  · obtain ⟨g, e1, e2⟩ := h5 i hi
    exact ⟨g, _, _, e1, e2, hf i⟩
  · obtain ⟨g, e1, e2⟩ := h6 i hi
    have hq := hr.q
    obtain ⟨p1, -⟩ := Chain.smoothed_pos hr (le_refl 0) (show i ≤ N - 1 by omega)
    refine ⟨g, _, _, e1, e2, inv_floor p1 ?_⟩
    have h7 := Chain.filtered_floor hr hs i
    rcases Nat.lt_or_ge i (N - 1) with hin | hin
    · have e3 : c.smoothed 0 (N - 1) i = c.smooth i (c.filtered 0 i) (c.smoothed 0 (N - 1) (i + 1)) := by
        obtain ⟨d, hd⟩ : ∃ d, N - 1 - i = d + 1 := ⟨N - 1 - i - 1, by omega⟩
        simp only [Chain.smoothed, hd, show N - 1 - (i + 1) = d by omega, Chain.smoothedBack, show N - 1 - (d + 1) = i by omega]
      rw [e3]
      have := Chain.smooth_floor hr hs i (g := c.filtered 0 i) (Chain.filtered_pos hr (le_refl 0) i)
        (Chain.smoothed_pos hr (le_refl 0) (show i + 1 ≤ N - 1 by omega)).1.le
      linarith
    · have e3 : c.smoothed 0 (N - 1) i = c.filtered 0 i := by
        obtain rfl : i = N - 1 := by omega
        simp only [Chain.smoothed, Nat.sub_self, Chain.smoothedBack]
      rw [e3]
      have : 0 ≤ a ^ 2 / c.q := by positivity
      linarith

/-- **C115.** Expectation propagation with a power below one and a damping in `(0, 1]`: no updates, in whatever order and number, make a
reported variance smaller than the noise allows. -/
theorem C115_any_order (hm : Models env e sys ys N c) (hr : c.Regular) (hα : c.α < 1) (h0 : 0 < c.γ) (h1 : c.γ ≤ 1) {a s : ℝ}
    (hs : c.Slope a s) (h : Heap) (calls : List (Upd × ℕ)) (hk : ∀ k ∈ calls, k.2 < N) :
    ∃ h1 h2, graph env N 1 e sys ys h = (.ok (List.range' h.size N), h1) ∧
      Executes env (calls.map fun k => (k.1, h.size + k.2)) h1 (.ok ()) h2 ∧
      ∀ i, i < N → ∃ sh m v, Mom1 env (h2.get (h.size + i)).marginal sh m v ∧
        1 / (1 / 10 ^ 10 + 1 / c.q + s ^ 2 / c.r + a ^ 2 / c.q) ≤ v := by
  obtain ⟨g1, g2, e1, e2, e3⟩ := C66_no_update_fails hm hr h calls hk
  refine ⟨g1, g2, e1, e2, fun i hi => ⟨_, _, _, (e3 i hi).M.mom, inv_floor (Site.var_pos _) ?_⟩⟩
  exact (Chain.steps_capped hr hα h0 h1 hs N calls _ (fun _ => Chain.tidy_start c) (fun _ => Chain.capped_start hr a s) i).floor hr
    (Chain.steps_tidy hr hα h0 h1 N calls _ (fun _ => Chain.tidy_start c) i)

/-- **C115.** The same for any number of passes with power and damping one. -/
theorem C115_passes (hm : Models env e sys ys N c) (hr : c.Regular) (hα : c.α = 1) (hγ : c.γ = 1) {a s : ℝ} (hs : c.Slope a s)
    (h : Heap) (n : ℕ) :
    ∃ h1 h2, graph env N 1 e sys ys h = (.ok (List.range' h.size N), h1) ∧
      PyM.forEach (List.range n) (fun _ => epFwdBack env (List.range' h.size N)) h1 = (.ok (), h2) ∧
      ∀ i, i < N → ∃ sh m v, Mom1 env (h2.get (h.size + i)).marginal sh m v ∧
        1 / (1 / 10 ^ 10 + 1 / c.q + s ^ 2 / c.r + a ^ 2 / c.q) ≤ v := by
  obtain ⟨g1, g2, e1, e2, e3⟩ := C66_passes_succeed hm hr h n
  refine ⟨g1, g2, e1, e2, fun i hi => ⟨_, _, _, (e3 i hi).M.mom, inv_floor (Site.var_pos _) ?_⟩⟩
  rw [show (c.steps N (List.replicate n (passCalls N)).flatten fun _ => Chain.start) =
    (c.steps N (passCalls N))^[n] fun _ => Chain.start from replicate_steps _ _]
  obtain ⟨k, rfl⟩ : ∃ k, N = k + 1 := ⟨N - 1, by omega⟩
  have ht := fun n => Chain.passes_tidy hr (.inr ⟨hα, hγ⟩) k.succ_pos n
  have hc : ∀ n i, c.Capped a s ((c.steps (k + 1) (passCalls (k + 1)))^[n] (fun _ => Chain.start) i) := by
    intro n
    induction n with
    | zero => exact fun _ => Chain.capped_start hr a s
    | succ n ih =>
      intro i
      rw [Function.iterate_succ_apply']
      exact Chain.pass_capped hr hα hγ hs k (ht n) ih i
  exact (hc n i).floor hr (ht n i)

/-- **C115.** The unscented transform sees no slope beyond the Lipschitz constant of the function. -/
theorem C115_unscented {P P' : UTParams} (hP : P.Good) (hP' : P'.Good) {α γ q r m0 p0 a s : ℝ} {F : ℕ → ℝ → ℝ} {G : ℝ → ℝ} (y : ℕ → ℝ)
    (hF : ∀ i x z, |F i x - F i z| ≤ a * |x - z|) (hG : ∀ x z, |G x - G z| ≤ s * |x - z|) :
    (unscentedChain P P' α γ q r m0 p0 F G y).Slope a s := by
  have key : ∀ {P : UTParams}, P.Good → ∀ {f : ℝ → ℝ} {a : ℝ}, (∀ x z, |f x - f z| ≤ a * |x - z|) → ∀ m p, 0 < p →
      (unscented P.a P.b P.k f).C m p ^ 2 ≤ (a * p) ^ 2 := by
    intro P hP f a hf m p hp
    set w := P.a ^ 2 * (1 + P.k) with hw
    have hpos : 0 < w := hP.spread
    set d := √(w * p) with hd
    have hd0 : 0 < d := Real.sqrt_pos.2 (mul_pos hpos hp)
    have hd2 : d * d = w * p := Real.mul_self_sqrt (mul_nonneg hpos.le hp.le)
    have hC : (unscented P.a P.b P.k f).C m p = 1 / (2 * w) * d * (f (m + d) - f (m - d)) := by
      simp only [unscented, ← hw, ← hd]; ring
    have h1 := hf (m + d) (m - d)
    rw [show m + d - (m - d) = 2 * d by ring, abs_of_pos (by positivity : (0 : ℝ) < 2 * d)] at h1
    rw [hC, ← sq_abs, abs_mul, abs_of_pos (by positivity : 0 < 1 / (2 * w) * d)]
    have h2 : 1 / (2 * w) * d * |f (m + d) - f (m - d)| ≤ a * p := by
      refine (mul_le_mul_of_nonneg_left h1 (by positivity)).trans (le_of_eq ?_)
      have : 1 / (2 * w) * d * (a * (2 * d)) = a * (d * d) / w := by field_simp
      rw [this, hd2]; field_simp
    exact pow_le_pow_left₀ (by positivity) h2 2
  exact ⟨fun i => key hP (hF i), key hP' hG⟩

/-- The system of the examples: `x ↦ 3 sin x`, observed as `5 sin x`. -/
private noncomputable def waveSys : Sys :=
  { transition := fun x _ _ => .ok (x.map fun a => 3 * Real.sin a), measurement := fun x _ _ => .ok (x.map fun a => 5 * Real.sin a),
    Q := .m (m1 1), R := .m (m1 100), initState := sG 0 5, dt := 1 }

private theorem wave_columns : (∀ t s, OnColumns (fun x => waveSys.transition x t s) (fun x => 3 * Real.sin x)) ∧
    ∀ t s, OnColumns (fun x => waveSys.measurement x t s) (fun x => 5 * Real.sin x) := by
  constructor
  · intro t s M X
    simp only [waveSys, Arr.map]
    exact congrArg (fun z => Except.ok (Arr.m z)) (funext fun i => funext fun j => by rw [Subsingleton.elim j 0]; rfl)
  · intro t s M X
    simp only [waveSys, Arr.map]
    exact congrArg (fun z => Except.ok (Arr.m z)) (funext fun i => funext fun j => by rw [Subsingleton.elim j 0]; rfl)

private theorem wave_lip {b : ℝ} (hb : 0 ≤ b) (x z : ℝ) : |b * Real.sin x - b * Real.sin z| ≤ b * |x - z| := by
  rw [← mul_sub, abs_mul, abs_of_nonneg hb]
  refine mul_le_mul_of_nonneg_left ?_ hb
  rw [Real.sin_sub_sin, abs_mul, abs_mul, abs_two]
  have h1 : |Real.sin ((x - z) / 2)| ≤ |(x - z) / 2| := Real.abs_sin_le_abs
  have h2 := Real.abs_cos_le_one ((x + z) / 2)
  rw [abs_div, abs_two] at h1
  nlinarith [abs_nonneg (Real.sin ((x - z) / 2)), abs_nonneg (Real.cos ((x + z) / 2))]

/-- The system is nonlinear; power and damping 0.8, the updates in an odd order. -/
example (y₀ y₁ : ℝ) (h : Heap) : ∃ (e : Estimator) (h1 h2 : Heap), e.power = 0.8 ∧ e.damping = 0.8 ∧
    graph calmEnv 2 1 e waveSys [.s y₀, .s y₁] h = (.ok [h.size, h.size + 1], h1) ∧
    Executes calmEnv [(.meas, h.size + 1), (.back, h.size), (.fwd, h.size), (.meas, h.size + 1)] h1 (.ok ()) h2 ∧
    ∃ sh m v, Mom1 calmEnv (h2.get h.size).marginal sh m v ∧ 1 / 11 ≤ v := by
  obtain ⟨u, hu⟩ := init_ok params_trans
  obtain ⟨u', hu'⟩ := init_ok params_meas
  have hm := unscented_models (α := 0.8) (γ := 0.8) (sys := waveSys) (env := calmEnv) (fun _ => rfl) hu hu' params_trans params_meas
    (fun i => wave_columns.1 _ _) (wave_columns.2 _ _) rfl rfl (mom1_sG _ _) le_rfl rfl (pair_obs y₀ y₁)
  have hr := unscented_regular params_trans params_meas (α := 0.8) (γ := 0.8) (q := 1) (r := 100) (m0 := 0) (p0 := 5) (by norm_num) one_pos
    (by norm_num) (by norm_num) (fun _ x => 3 * Real.sin x) (fun x => 5 * Real.sin x) fun i => if i = 0 then y₀ else y₁
  have hs := C115_unscented params_trans params_meas (α := 0.8) (γ := 0.8) (q := 1) (r := 100) (m0 := 0) (p0 := 5)
    (F := fun _ x => 3 * Real.sin x) (G := fun x => 5 * Real.sin x) (fun i => if i = 0 then y₀ else y₁)
    (fun _ => wave_lip (by norm_num)) (wave_lip (by norm_num))
  obtain ⟨h1, h2, a1, a2, a3⟩ := C115_any_order hm hr (by norm_num [unscentedChain]) (by norm_num [unscentedChain])
    (by norm_num [unscentedChain]) hs h [(.meas, 1), (.back, 0), (.fwd, 0), (.meas, 1)] (by simp)
  obtain ⟨sh, m, v, b1, b2⟩ := a3 0 (by norm_num)
  refine ⟨_, h1, h2, rfl, rfl, a1, a2, sh, m, v, b1, le_trans ?_ b2⟩
  norm_num [unscentedChain]

/-- Filter, smoother and a hundred passes on it. -/
example (y₀ y₁ : ℝ) (h : Heap) : ∃ (e : Estimator) (u u' : UT) (fs rs : List Gaussian) (h1 h2 : Heap),
    (KFS.init (u.transform calmEnv) waveSys (some (u'.transform calmEnv))).kalmanFilter calmEnv [.s y₀, .s y₁] none 0 none = .ok fs ∧
    (KFS.init (u.transform calmEnv) waveSys (some (u'.transform calmEnv))).kalmanSmoother calmEnv fs none = .ok rs ∧
    (∃ g m v, fs[1]? = some g ∧ Mom1 calmEnv g false m v ∧ 4 / 5 ≤ v) ∧ (∃ g m v, rs[0]? = some g ∧ Mom1 calmEnv g false m v ∧ 1 / 11 ≤ v) ∧
    e.power = 1 ∧ e.damping = 1 ∧ graph calmEnv 2 1 e waveSys [.s y₀, .s y₁] h = (.ok [h.size, h.size + 1], h1) ∧
    PyM.forEach (List.range 100) (fun _ => epFwdBack calmEnv [h.size, h.size + 1]) h1 = (.ok (), h2) ∧
    ∃ sh m v, Mom1 calmEnv (h2.get h.size).marginal sh m v ∧ 1 / 11 ≤ v := by
  obtain ⟨u, hu⟩ := init_ok params_trans
  obtain ⟨u', hu'⟩ := init_ok params_meas
  have hk := unscented_modelsKFS (α := 1) (γ := 1) (sys := waveSys) (env := calmEnv) (N := 2) hu hu' params_trans params_meas
    (fun i => wave_columns.1 _ _) (fun i => wave_columns.2 _ _) rfl rfl (mom1_sG _ _) rfl (pair_obs y₀ y₁)
  have hm := unscented_models (α := 1) (γ := 1) (sys := waveSys) (env := calmEnv) (fun _ => rfl) hu hu' params_trans params_meas
    (fun i => wave_columns.1 _ _) (wave_columns.2 _ _) rfl rfl (mom1_sG _ _) le_rfl rfl (pair_obs y₀ y₁)
  have hr := unscented_regular params_trans params_meas (α := 1) (γ := 1) (q := 1) (r := 100) (m0 := 0) (p0 := 5) (by norm_num) one_pos
    (by norm_num) (by norm_num) (fun _ x => 3 * Real.sin x) (fun x => 5 * Real.sin x) fun i => if i = 0 then y₀ else y₁
  have hs := C115_unscented params_trans params_meas (α := 1) (γ := 1) (q := 1) (r := 100) (m0 := 0) (p0 := 5)
    (F := fun _ x => 3 * Real.sin x) (G := fun x => 5 * Real.sin x) (fun i => if i = 0 then y₀ else y₁)
    (fun _ => wave_lip (by norm_num)) (wave_lip (by norm_num))
  obtain ⟨h1, h2, a1, a2, a3⟩ := C115_passes hm hr rfl rfl hs h 100
  obtain ⟨fs, rs, k1, k2, -, -, k3, k4⟩ := C115_filter_smoother hk hr two_pos hs
  obtain ⟨sh, m, v, b1, b2⟩ := a3 0 (by norm_num)
  obtain ⟨g, gm, gv, c1, c2, c3⟩ := k3 1 (by norm_num)
  obtain ⟨g', gm', gv', d1, d2, d3⟩ := k4 0 (by norm_num)
  refine ⟨_, u, u', fs, rs, h1, h2, k1, k2, ⟨g, gm, gv, c1, c2, le_trans ?_ c3⟩, ⟨g', gm', gv', d1, d2, le_trans ?_ d3⟩, rfl, rfl, a1, a2,
    sh, m, v, b1, le_trans ?_ b2⟩ <;> norm_num [unscentedChain]

end Verif

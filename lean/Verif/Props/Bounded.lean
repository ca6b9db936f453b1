import Verif.Lemmas.ScalarTidy
import Verif.Props.GrowthSweep

/-!
# Bounds on reported means and variances of scalar systems whose transition does not expand (C112)
-/

namespace Verif

open Matrix Gaussian Site

variable {env : Env} {e : Estimator} {sys : Sys} {ys : List Arr} {N s : ℕ} {c : Chain}

/-- The predicted variance is at most `a` times the variance plus `b`. -/
def Chain.Contracts (c : Chain) (a b : ℝ) : Prop := ∀ i m p, 0 < p → (c.τ i).S m p + c.q ≤ a * p + b

private theorem steps_replicate (V : ℕ → Vals) (n : ℕ) :
    c.steps N (List.replicate n (passCalls N)).flatten V = (c.steps N (passCalls N))^[n] V := by
  induction n generalizing V with
  | zero => rfl
  | succ n ih =>
    rw [List.replicate_succ, List.flatten_cons, Function.iterate_succ_apply, ← ih]
    exact List.foldl_append

/-! ## Filter and smoother -/

theorem Chain.filtered_bounded (hr : c.Regular) {a b B : ℝ} (hc : c.Contracts a b) (ha : 0 ≤ a) (h0 : c.p0 ≤ B) (hB : a * B + b ≤ B) (i : ℕ) :
    (c.filtered 0 i).2 ≤ B := by
  have hd : ∀ g : ℝ × ℝ, (Chain.damp 0 g).2 = g.2 := fun g => by simp [Chain.damp]
  have hstep : ∀ i g, 0 < g.2 → g.2 ≤ B → (c.correct i (Chain.damp 0 (c.predict i g))).2 ≤ B := fun i g hg hle => by
    have hp := Chain.predict_pos hr i hg
    have h1 := (Chain.correct_pos hr i (g := Chain.damp 0 (c.predict i g)) (by rw [hd]; exact hp)).2
    rw [hd] at h1
    have h2 : (c.predict i g).2 ≤ a * g.2 + b := hc i g.1 g.2 hg
    have := mul_le_mul_of_nonneg_left hle ha
    linarith
  cases i with
  | zero => exact hstep 0 (c.m0, c.p0) hr.p0 h0
  | succ i => exact hstep (i + 1) _ (Chain.filtered_pos hr le_rfl i) (Chain.filtered_bounded hr hc ha h0 hB i)

/-! ## Expectation propagation -/

/-- After a pass the precision of every forward factor is at least `α / B`. -/
theorem Chain.pass_le (hr : c.Regular) (h : c.α < 1 ∧ 0 < c.γ ∧ c.γ ≤ 1 ∨ c.α = 1 ∧ c.γ = 1) {a b B : ℝ} (hc : c.Contracts a b)
    (ha : 0 ≤ a) (h0 : c.p0 ≤ B) (hB : a * B + b ≤ c.γ * B) (hB0 : 0 < B) (n : ℕ) {V : ℕ → Vals} (hV : ∀ i, c.Tidy (V i)) (i : ℕ)
    (hi : i ≤ n) : c.α / B ≤ (c.steps (n + 1) (passCalls (n + 1)) V i).F.p := by
  have hγ : 0 < c.γ ∧ c.γ ≤ 1 ∧ c.α ≤ 1 := by
    rcases h with ⟨x, y, z⟩ | ⟨x, y⟩
    · exact ⟨y, z, x.le⟩
    · rw [x, y]; norm_num
  obtain ⟨g0, g1, hα1⟩ := hγ
  have hα := hr.α
  set U := c.steps (n + 1) ((List.range (n + 1)).flatMap fwdPair) V with hU
  obtain ⟨b1, b2⟩ := backward_parts c n U (n + 1) le_rfl
  have hW : c.steps (n + 1) (passCalls (n + 1)) V = c.steps (n + 1) ((List.range' (n + 1 - (n + 1)) (n + 1)).reverse.map fun i => (Upd.back, i)) U := by
    rw [passCalls, steps_append, Nat.sub_self, ← List.range_eq_range']
    rfl
  rw [hW]
  obtain ⟨f1, f2⟩ := forward_parts c (n + 1) (n + 1) V
  rw [← hU] at f1 f2
  have fw : ∀ i, i ≤ n → c.Tidy (U i) ∧ c.α / B ≤ (U i).F.p := by
    intro i
    induction i with
    | zero =>
      intro hi
      obtain ⟨X, x1, -, x3⟩ := f2 0 (by omega)
      obtain ⟨t1, -, -, t4, -⟩ := fwd_tidy hr g0 g1 (V := X) (i := 0) (by rw [x1]; exact hV 0) (fun j hj => by omega)
      obtain ⟨m1, m2, -⟩ := meas_keeps hr hα1 g0 g1 t1
      rw [x3]
      refine ⟨m1, ?_⟩
      rw [m2, t4, x1]
      have hb : (c.predict 0 (c.basis X 0)).2 ≤ c.γ * B := by
        have : (c.predict 0 (c.basis X 0)).2 ≤ a * c.p0 + b := hc 0 c.m0 c.p0 hr.p0
        have := mul_le_mul_of_nonneg_left h0 ha
        linarith
      have hpos := predict_pos hr 0 (basis_pos hr X 0)
      have h1 : 1 / (c.γ * B) ≤ 1 / (c.predict 0 (c.basis X 0)).2 := one_div_le_one_div_of_le hpos hb
      have h2 : c.α / B = c.γ * (c.α * (1 / (c.γ * B))) := by field_simp
      have h3 : c.γ * (c.α * (1 / (c.γ * B))) ≤ c.γ * (c.α * (1 / (c.predict 0 (c.basis X 0)).2)) := by gcongr
      have h4 : 0 ≤ (1 - c.γ) * (V 0).F.p := mul_nonneg (by linarith) (hV 0).F
      linarith
    | succ i ih =>
      intro hi
      obtain ⟨u1, u2⟩ := ih (by omega)
      obtain ⟨X, x1, x2, x3⟩ := f2 (i + 1) (by omega)
      obtain ⟨t1, -, -, t4, -⟩ := fwd_tidy hr g0 g1 (V := X) (i := i + 1) (by rw [x1]; exact hV _) (fun j hj => by
        obtain rfl : i = j := by omega
        rw [x2 i rfl]; exact u1)
      obtain ⟨m1, m2, -⟩ := meas_keeps hr hα1 g0 g1 t1
      rw [x3]
      refine ⟨m1, ?_⟩
      rw [m2, t4, x1]
      have hvar : (c.basis X (i + 1)).2 ≤ B := by
        simp only [basis, x2 i rfl]
        have hp : 1 / B ≤ (c.filt (U i)).p := by
          simp only [filt]
          have e1 : 1 / B ≤ (U i).F.p / c.α := by
            rw [le_div_iff₀ hα, one_div, inv_mul_eq_div]; exact u2
          have e2 : 0 ≤ (U i).Y.p / c.α := div_nonneg u1.Y hα.le
          have e3 : (0 : ℝ) < eps := by norm_num [eps]
          rw [add_div]; linarith
        have he : eps ≤ (c.filt (U i)).p := by
          simp only [filt]
          have := div_nonneg (add_nonneg u1.F u1.Y) hα.le
          linarith
        rw [(Site.read _ he).2.1, div_le_iff₀ (lt_of_lt_of_le (by positivity) hp)]
        rw [div_le_iff₀ hB0] at hp
        linarith
      have hb : (c.predict (i + 1) (c.basis X (i + 1))).2 ≤ c.γ * B := by
        have : (c.predict (i + 1) (c.basis X (i + 1))).2 ≤ a * (c.basis X (i + 1)).2 + b := hc (i + 1) _ _ (basis_pos hr X (i + 1))
        have := mul_le_mul_of_nonneg_left hvar ha
        linarith
      have hpos := predict_pos hr (i + 1) (basis_pos hr X (i + 1))
      have h1 : 1 / (c.γ * B) ≤ 1 / (c.predict (i + 1) (c.basis X (i + 1))).2 := one_div_le_one_div_of_le hpos hb
      have h2 : c.α / B = c.γ * (c.α * (1 / (c.γ * B))) := by field_simp
      have h3 : c.γ * (c.α * (1 / (c.γ * B))) ≤ c.γ * (c.α * (1 / (c.predict (i + 1) (c.basis X (i + 1))).2)) := by gcongr
      have h4 : 0 ≤ (1 - c.γ) * (V (i + 1)).F.p := mul_nonneg (by linarith) (hV _).F
      linarith
  rcases Nat.lt_or_ge i n with hin | hin
  · obtain ⟨X, x1, -, x3⟩ := b2 i (by omega) hin
    rw [x3]
    have : (c.back i X i).F = (X i).F := by simp [back]
    rw [this, x1]
    exact (fw i hi).2
  · rw [b1 i (.inr hin)]
    exact (fw i hi).2

/-- After any positive number of passes, no variance exceeds `B`. -/
theorem Chain.estimates_le (hr : c.Regular) (h : c.α < 1 ∧ 0 < c.γ ∧ c.γ ≤ 1 ∨ c.α = 1 ∧ c.γ = 1) {a b B : ℝ} (hc : c.Contracts a b)
    (ha : 0 ≤ a) (h0 : c.p0 ≤ B) (hB : a * B + b ≤ c.γ * B) (k : ℕ) {i : ℕ} (hi : i < N) :
    0 < (c.estimates N (k + 1) i).2 ∧ (c.estimates N (k + 1) i).2 ≤ B := by
  have hB0 : 0 < B := lt_of_lt_of_le hr.p0 h0
  obtain ⟨n, rfl⟩ : ∃ n, N = n + 1 := ⟨N - 1, by omega⟩
  have ht := passes_tidy hr h n.succ_pos (k + 1) i
  have hF := pass_le hr h hc ha h0 hB hB0 n (passes_tidy hr h n.succ_pos k) i (by omega)
  rw [← Function.iterate_succ_apply' (c.steps (n + 1) (passCalls (n + 1)))] at hF
  refine ⟨Site.var_pos _, ?_⟩
  change ((c.steps (n + 1) (passCalls (n + 1)))^[k + 1] (fun _ => start) i).M.var ≤ B
  set v := (c.steps (n + 1) (passCalls (n + 1)))^[k + 1] (fun _ => start) i
  have hp : 1 / B ≤ v.M.p := by
    rw [ht.p]
    have e1 : 1 / B ≤ v.F.p / c.α := by
      rw [le_div_iff₀ hr.α, one_div, inv_mul_eq_div]; exact hF
    have e2 : 0 ≤ (v.Y.p + v.B.p) / c.α := div_nonneg (add_nonneg ht.Y ht.B) hr.α.le
    have e3 : (0 : ℝ) < eps := by norm_num [eps]
    rw [add_assoc, add_div]; linarith
  rw [(Site.read _ (ht.le hr.α)).2.1, div_le_iff₀ (lt_of_lt_of_le (by positivity) hp)]
  rw [div_le_iff₀ hB0] at hp
  linarith

/-! ## The growth model -/

private theorem fold_le (x : ℝ) : |25 * x / (1 + x ^ 2)| ≤ 25 / 2 := by
  rw [abs_le]
  have h : 0 < 1 + x ^ 2 := by positivity
  constructor
  · rw [le_div_iff₀ h]; nlinarith [sq_nonneg (x + 1)]
  · rw [div_le_iff₀ h]; nlinarith [sq_nonneg (x - 1)]

/-- Weighted squares of three bounded numbers around their mean. -/
private theorem three_points {g0 g1 g2 : ℝ} (h0 : |g0| ≤ 25 / 2) (h1 : |g1| ≤ 25 / 2) (h2 : |g2| ≤ 25 / 2) :
    11 / 4 * (g0 - (3 / 4 * g0 + 1 / 8 * g1 + 1 / 8 * g2)) ^ 2 + 1 / 8 * (g1 - (3 / 4 * g0 + 1 / 8 * g1 + 1 / 8 * g2)) ^ 2 +
      1 / 8 * (g2 - (3 / 4 * g0 + 1 / 8 * g1 + 1 / 8 * g2)) ^ 2 ≤ 1875 / 8 := by
  rw [abs_le] at h0 h1 h2
  have q0 : g0 ^ 2 ≤ 625 / 4 := by nlinarith
  have q1 : g1 ^ 2 ≤ 625 / 4 := by nlinarith
  have q2 : g2 ^ 2 ≤ 625 / 4 := by nlinarith
  have b : (2 * g0 - g1 - g2) ^ 2 ≤ 2500 := by nlinarith
  nlinarith [sq_nonneg (3 / 4 * g0 + 1 / 8 * g1 + 1 / 8 * g2)]

private theorem growth_spread (i : ℕ) (m p : ℝ) (hp : 0 < p) : (unscented 1 2 3 (growth i)).S m p ≤ 1 / 2 * p + 1875 / 4 := by
  have hn : (1 : ℝ) ^ 2 * (1 + 3) = 4 := by norm_num
  obtain ⟨d, hd⟩ : ∃ d, d = √(4 * p) := ⟨_, rfl⟩
  have hd2 : d ^ 2 = 4 * p := by rw [hd, Real.sq_sqrt (by linarith)]
  have h0 := fold_le m
  have h1 := fold_le (m + d)
  have h2 := fold_le (m - d)
  simp only [unscented, hn, growth, ← hd]
  set g0 := 25 * m / (1 + m ^ 2)
  set g1 := 25 * (m + d) / (1 + (m + d) ^ 2)
  set g2 := 25 * (m - d) / (1 + (m - d) ^ 2)
  have key := three_points h0 h1 h2
  set u := 3 / 4 * g0 + 1 / 8 * g1 + 1 / 8 * g2 with hu
  set k := 8 * Real.cos (1.2 * i)
  have e0 : 0.5 * m + g0 + k - ((4 - 1) / 4 * (0.5 * m + g0 + k) + 1 / (2 * 4) * (0.5 * (m + d) + g1 + k) +
      1 / (2 * 4) * (0.5 * (m - d) + g2 + k)) = g0 - u := by rw [hu]; ring
  have e1 : 0.5 * (m + d) + g1 + k - ((4 - 1) / 4 * (0.5 * m + g0 + k) + 1 / (2 * 4) * (0.5 * (m + d) + g1 + k) +
      1 / (2 * 4) * (0.5 * (m - d) + g2 + k)) = d / 2 + (g1 - u) := by rw [hu]; ring
  have e2 : 0.5 * (m - d) + g2 + k - ((4 - 1) / 4 * (0.5 * m + g0 + k) + 1 / (2 * 4) * (0.5 * (m + d) + g1 + k) +
      1 / (2 * 4) * (0.5 * (m - d) + g2 + k)) = -(d / 2) + (g2 - u) := by rw [hu]; ring
  rw [e0, e1, e2]
  nlinarith [sq_nonneg (d / 2 - (g1 - u)), sq_nonneg (d / 2 + (g2 - u)), sq_nonneg (g0 - u)]

private theorem growth_centre (i : ℕ) (m p : ℝ) : |(unscented 1 2 3 (growth i)).X m p| ≤ |m| / 2 + 41 / 2 := by
  have hn : (1 : ℝ) ^ 2 * (1 + 3) = 4 := by norm_num
  have h0 := abs_le.1 (fold_le m)
  have h1 := abs_le.1 (fold_le (m + √(4 * p)))
  have h2 := abs_le.1 (fold_le (m - √(4 * p)))
  have hc := abs_le.1 (Real.abs_cos_le_one (1.2 * i))
  have ha := abs_le.1 (le_refl |m|)
  simp only [unscented, hn, growth]
  set g0 := 25 * m / (1 + m ^ 2)
  rw [abs_le]
  constructor <;> linarith

private theorem growth_measured (m p : ℝ) (hp : 0 < p) : (unscented 1 2 2 fun x => x ^ 2 / 20).X m p = (m ^ 2 + p) / 20 ∧
    (unscented 1 2 2 fun x => x ^ 2 / 20).S m p = p * (m ^ 2 + p) / 100 ∧ (unscented 1 2 2 fun x => x ^ 2 / 20).C m p = m * p / 10 := by
  have hn : (1 : ℝ) ^ 2 * (1 + 2) = 3 := by norm_num
  obtain ⟨d, hd⟩ : ∃ d, d = √(3 * p) := ⟨_, rfl⟩
  have hp' : p = d ^ 2 / 3 := by rw [hd, Real.sq_sqrt (by linarith)]; ring
  simp only [unscented, hn, ← hd]
  rw [hp']
  refine ⟨by ring, by ring, by ring⟩

/-- The gain of a measurement is below 2/3, whatever mean and variance are, and the correction for the expected measurement does not
enlarge the mean. -/
private theorem growth_gain (m y : ℝ) {p : ℝ} (hp : 0 < p) :
    |m + m * p / 10 / (p * (m ^ 2 + p) / 100 + 10) * (y - (m ^ 2 + p) / 20)| ≤ |m| + 2 / 3 * |y| := by
  have hD : 0 < p * (m ^ 2 + p) + 1000 := by positivity
  have e : m + m * p / 10 / (p * (m ^ 2 + p) / 100 + 10) * (y - (m ^ 2 + p) / 20) =
      m * (1 - p * (m ^ 2 + p) / (2 * (p * (m ^ 2 + p) + 1000))) + 10 * m * p / (p * (m ^ 2 + p) + 1000) * y := by
    have : p * (m ^ 2 + p) / 100 + 10 = (p * (m ^ 2 + p) + 1000) / 100 := by ring
    rw [this]
    field_simp
    ring
  rw [e]
  refine (abs_add_le _ _).trans ?_
  rw [abs_mul, abs_mul]
  have h1 : |1 - p * (m ^ 2 + p) / (2 * (p * (m ^ 2 + p) + 1000))| ≤ 1 := by
    have h0 : 0 ≤ p * (m ^ 2 + p) / (2 * (p * (m ^ 2 + p) + 1000)) := by positivity
    have h2 : p * (m ^ 2 + p) / (2 * (p * (m ^ 2 + p) + 1000)) ≤ 1 := by
      rw [div_le_one (by positivity)]
      have : 0 < p * (m ^ 2 + p) := by positivity
      linarith
    rw [abs_le]; constructor <;> linarith
  have h2 : |10 * m * p / (p * (m ^ 2 + p) + 1000)| ≤ 2 / 3 := by
    rw [abs_div, abs_of_pos hD, div_le_iff₀ hD, abs_mul, abs_mul, abs_of_pos hp, abs_of_pos (by norm_num : (0 : ℝ) < 10)]
    have : |m| ^ 2 = m ^ 2 := sq_abs m
    nlinarith [mul_nonneg hp.le (sq_nonneg (|m| - 15 / 2)), sq_nonneg (p - 225 / 8)]
  have h3 := mul_le_mul_of_nonneg_left h1 (abs_nonneg m)
  have h4 := mul_le_mul_of_nonneg_right h2 (abs_nonneg y)
  linarith

theorem growthChain_regular {α : ℝ} (hα : 0 < α) (γ : ℝ) (y : ℕ → ℝ) : (growthChain α γ y).Regular :=
  unscented_regular params_trans params_meas hα one_pos (by norm_num) (by norm_num) _ _ _

theorem growthChain_contracts (α γ : ℝ) (y : ℕ → ℝ) : (growthChain α γ y).Contracts (1 / 2) (1879 / 4) := fun i m p hp => by
  have : ((growthChain α γ y).τ i).S m p ≤ 1 / 2 * p + 1875 / 4 := growth_spread i m p hp
  have hq : (growthChain α γ y).q = 1 := rfl
  linarith

/-- One step of the filter: half of the last mean, the bounded part of the transition, and the new measurement. -/
theorem growth_step (y : ℕ → ℝ) (i : ℕ) (g : ℝ × ℝ) (hg : 0 < g.2) :
    |((growthChain 1 1 y).correct i (Chain.damp 0 ((growthChain 1 1 y).predict i g))).1| ≤ |g.1| / 2 + 41 / 2 + 2 / 3 * |y i| := by
  set c := growthChain 1 1 y with hc
  have hr : c.Regular := growthChain_regular one_pos 1 y
  have hp := Chain.predict_pos hr i hg
  have hd : Chain.damp 0 (c.predict i g) = c.predict i g := by
    have hne := hp.ne'
    refine Prod.ext ?_ ?_ <;> simp only [Chain.damp, add_zero, one_div_one_div]
    field_simp
  rw [hd]
  have h1 : |(c.predict i g).1| ≤ |g.1| / 2 + 41 / 2 := growth_centre i g.1 g.2
  obtain ⟨k1, k2, k3⟩ := growth_measured (c.predict i g).1 (c.predict i g).2 hp
  have h2 := growth_gain (c.predict i g).1 (y i) hp
  have e : (c.correct i (c.predict i g)).1 = (c.predict i g).1 + (c.predict i g).1 * (c.predict i g).2 / 10 /
      ((c.predict i g).2 * ((c.predict i g).1 ^ 2 + (c.predict i g).2) / 100 + 10) *
      (y i - ((c.predict i g).1 ^ 2 + (c.predict i g).2) / 20) := by
    rw [← k1, ← k2, ← k3]; rfl
  rw [e]
  linarith

private theorem growth_means {Y : ℝ} {y : ℕ → ℝ} (hY : ∀ i, |y i| ≤ Y) (i : ℕ) : |((growthChain 1 1 y).filtered 0 i).1| ≤ 41 + 4 / 3 * Y := by
  have hY0 : 0 ≤ Y := (abs_nonneg _).trans (hY 0)
  have hstep : ∀ i g, 0 < g.2 → |g.1| ≤ 41 + 4 / 3 * Y →
      |((growthChain 1 1 y).correct i (Chain.damp 0 ((growthChain 1 1 y).predict i g))).1| ≤ 41 + 4 / 3 * Y := fun i g hg hle => by
    have := growth_step y i g hg
    have := hY i
    linarith
  induction i with
  | zero => exact hstep 0 (0, 5) (by norm_num) (by rw [abs_zero]; positivity)
  | succ i ih => exact hstep (i + 1) _ (Chain.filtered_pos (growthChain_regular one_pos 1 y) le_rfl i) ih

/-! ## C112 -/

/-- **C112.** Filter and smoother on a scalar system whose predicted variance is at most `a` times the variance plus `b`: no reported
variance exceeds a bound `B` with `a B + b ≤ B`, whatever the measurements are and however many there are. -/
theorem C112_filter_smoother {K : KFS} (hm : ModelsKFS env K ys N c) (hr : c.Regular) (hN : 0 < N) {a b B : ℝ} (hc : c.Contracts a b)
    (ha : 0 ≤ a) (h0 : c.p0 ≤ B) (hB : a * B + b ≤ B) :
    ∃ fs rs, K.kalmanFilter env ys none 0 none = .ok fs ∧ K.kalmanSmoother env fs none = .ok rs ∧ fs.length = N ∧ rs.length = N ∧
      (∀ i, i < N → ∃ g m v, fs[i]? = some g ∧ Mom1 env g false m v ∧ 0 < v ∧ v ≤ B) ∧
      ∀ i, i < N → ∃ g m v, rs[i]? = some g ∧ Mom1 env g false m v ∧ 0 < v ∧ v ≤ B := by
  obtain ⟨fs, rs, h1, h2, h3, h4, h5, h6⟩ := C40_kalman hm hr hN
  refine ⟨fs, rs, h1, h2, h3, h4, fun i hi => ?_, fun i hi => ?_⟩
  · obtain ⟨g, e1, e2⟩ := h5 i hi
    exact ⟨g, _, _, e1, e2, Chain.filtered_pos hr le_rfl i, Chain.filtered_bounded hr hc ha h0 hB i⟩
  · obtain ⟨g, e1, e2⟩ := h6 i hi
    obtain ⟨p1, p2⟩ := Chain.smoothed_pos hr (le_refl 0) (show i ≤ N - 1 by omega)
    exact ⟨g, _, _, e1, e2, p1, p2.trans (Chain.filtered_bounded hr hc ha h0 hB i)⟩

/-- **C112.** Expectation propagation on such a system, with a power below one and a damping in `(a, 1]`, or both one: after any positive
number of passes no reported variance exceeds `b / (γ - a)`, whatever the measurements are and however many there are. -/
theorem C112_passes (hm : Models env e sys ys N c) (hr : c.Regular) {a b : ℝ} (hc : c.Contracts a b) (ha : 0 ≤ a) (haγ : a < c.γ)
    (h : c.α < 1 ∧ c.γ ≤ 1 ∨ c.α = 1 ∧ c.γ = 1) (h0 : c.p0 ≤ b / (c.γ - a)) (hp : Heap) (n : ℕ) :
    ∃ h1 h2, graph env N 1 e sys ys hp = (.ok (List.range' hp.size N), h1) ∧
      PyM.forEach (List.range (n + 1)) (fun _ => epFwdBack env (List.range' hp.size N)) h1 = (.ok (), h2) ∧
      ∀ i, i < N → ∃ sh m v, Mom1 env (h2.get (hp.size + i)).marginal sh m v ∧ 0 < v ∧ v ≤ b / (c.γ - a) := by
  obtain ⟨h1, h2, e1, e2, e3⟩ := C66_passes_succeed hm hr hp (n + 1)
  refine ⟨h1, h2, e1, e2, fun i hi => ?_⟩
  have e4 := (e3 i hi).M.mom
  rw [show (c.steps N (List.replicate (n + 1) (passCalls N)).flatten fun _ => Chain.start) =
    (c.steps N (passCalls N))^[n + 1] fun _ => Chain.start from steps_replicate _ _] at e4
  obtain ⟨p1, p2⟩ := Chain.estimates_le (N := N) hr (h.imp (fun h => ⟨h.1, lt_of_le_of_lt ha haγ, h.2⟩) id) hc ha h0 (by
    rw [← sub_nonneg]
    have : c.γ - a ≠ 0 := by linarith
    have : c.γ * (b / (c.γ - a)) - (a * (b / (c.γ - a)) + b) = 0 := by field_simp; ring
    rw [this]) n hi
  exact ⟨_, _, _, e4, p1, p2⟩

/-- **C112.** The growth model with the unscented transforms of the experiments: filter and smoother report variances of at most 940,
whatever the data are, and if all measurements are at most `Y` in absolute value, the filter reports means of at most `41 + 4 Y / 3`. -/
theorem C112_growth_filter {u u' : UT} (hu : UT.init 1 1 2 3 = .ok u) (hu' : UT.init 1 1 2 2 = .ok u') (hsys : UNGM.init = .ok sys)
    (hN : 0 < N) (hlen : ys.length = N) {y : ℕ → ℝ} (hy : ∀ i a, ys[i]? = some a → IsVec a.squeeze (v1 (y i))) {Y : ℝ}
    (hY : ∀ i, i < N → |y i| ≤ Y) :
    ∃ fs rs, (KFS.init (u.transform env) sys (some (u'.transform env))).kalmanFilter env ys none 0 none = .ok fs ∧
      (KFS.init (u.transform env) sys (some (u'.transform env))).kalmanSmoother env fs none = .ok rs ∧ fs.length = N ∧ rs.length = N ∧
      (∀ i, i < N → ∃ g m v, fs[i]? = some g ∧ Mom1 env g false m v ∧ 0 < v ∧ v ≤ 940 ∧ |m| ≤ 41 + 4 / 3 * Y) ∧
      ∀ i, i < N → ∃ g m v, rs[i]? = some g ∧ Mom1 env g false m v ∧ 0 < v ∧ v ≤ 940 := by
  -- the measurements beyond the last one play no role
  set y' : ℕ → ℝ := fun i => if i < N then y i else 0 with hy'
  have hY0 : 0 ≤ Y := (abs_nonneg _).trans (hY 0 hN)
  have hY' : ∀ i, |y' i| ≤ Y := fun i => by
    simp only [hy']
    split_ifs with hi
    · exact hY i hi
    · rwa [abs_zero]
  have hk : ModelsKFS env (KFS.init (u.transform env) sys (some (u'.transform env))) ys N (growthChain 1 1 y') := by
    rw [ungm_eq hsys]
    refine unscented_modelsKFS (P := ⟨1, 2, 3⟩) (P' := ⟨1, 2, 2⟩) hu hu' params_trans params_meas (fun i => ungm_f i none)
      (fun i => ungm_h (some (i * 1)) none) rfl rfl (mom1_sG _ _) hlen fun i a hi => ?_
    have : i < N := hlen ▸ (List.getElem?_eq_some_iff.1 hi).1
    simp only [hy', if_pos this]
    exact hy i a hi
  have hr := growthChain_regular one_pos 1 y'
  have hb := Chain.filtered_bounded (B := 940) hr (growthChain_contracts 1 1 y') (by norm_num) (show (5 : ℝ) ≤ 940 by norm_num) (by norm_num)
  obtain ⟨fs, rs, h1, h2, h3, h4, h5, h6⟩ := C40_kalman hk hr hN
  refine ⟨fs, rs, h1, h2, h3, h4, fun i hi => ?_, fun i hi => ?_⟩
  · obtain ⟨g, e1, e2⟩ := h5 i hi
    exact ⟨g, _, _, e1, e2, Chain.filtered_pos hr le_rfl i, hb i, growth_means hY' i⟩
  · obtain ⟨g, e1, e2⟩ := h6 i hi
    obtain ⟨p1, p2⟩ := Chain.smoothed_pos hr (le_refl 0) (show i ≤ N - 1 by omega)
    exact ⟨g, _, _, e1, e2, p1, p2.trans (hb i)⟩

/-- **C112.** Expectation propagation on the growth model with a power below one and a damping `γ` in `(1/2, 1]`, or both one: after any
positive number of passes no reported variance exceeds `470 / (γ - 1/2)`, whatever the data are. -/
theorem C112_growth_passes {α γ : ℝ} {u u' : UT} {y : ℕ → ℝ} (hcalm : ∀ A : Matrix (Fin 1) (Fin 1) ℝ, env.illPos A = false)
    (hu : UT.init 1 1 2 3 = .ok u) (hu' : UT.init 1 1 2 2 = .ok u') (hα : 0 < α) (hγ : 1 / 2 < γ) (hαγ : α < 1 ∧ γ ≤ 1 ∨ α = 1 ∧ γ = 1)
    (hsys : UNGM.init = .ok sys) (hN : 2 ≤ N) (hlen : ys.length = N) (hy : ∀ i a, ys[i]? = some a → IsVec a.squeeze (v1 (y i)))
    (h : Heap) (n : ℕ) :
    ∃ h1 h2, graph env N 1 ⟨u.transform env, u'.transform env, some sys.Q, some sys.R, α, γ⟩ sys ys h = (.ok (List.range' h.size N), h1) ∧
      PyM.forEach (List.range (n + 1)) (fun _ => epFwdBack env (List.range' h.size N)) h1 = (.ok (), h2) ∧
      ∀ i, i < N → ∃ sh m v, Mom1 env (h2.get (h.size + i)).marginal sh m v ∧ 0 < v ∧ v ≤ 470 / (γ - 1 / 2) := by
  have hm := ungm_models (α := α) (γ := γ) (P := ⟨1, 2, 3⟩) (P' := ⟨1, 2, 2⟩) hcalm hu hu' params_trans params_meas hsys hN hlen hy
  have hγ1 : γ ≤ 1 := hαγ.elim (fun h => h.2) fun h => h.2.le
  have hg : 0 < γ - 1 / 2 := by linarith
  obtain ⟨h1, h2, e1, e2, e3⟩ := C112_passes hm (growthChain_regular hα γ y) (growthChain_contracts α γ y) (by norm_num) hγ hαγ (by
    change (5 : ℝ) ≤ 1879 / 4 / (γ - 1 / 2)
    rw [le_div_iff₀ hg]; linarith) h n
  refine ⟨h1, h2, e1, e2, fun i hi => ?_⟩
  obtain ⟨sh, m, v, a1, a2, a3⟩ := e3 i hi
  refine ⟨sh, m, v, a1, a2, a3.trans ?_⟩
  change 1879 / 4 / (γ - 1 / 2) ≤ 470 / (γ - 1 / 2)
  gcongr
  norm_num

/-- The demonstration: power and damping 0.8, two measurements of any size; fifty passes leave variances below 1600. -/
example (y₀ y₁ : ℝ) (h : Heap) : ∃ e sys h1 h2, UNGM.init = .ok sys ∧ e.power = 0.8 ∧ e.damping = 0.8 ∧
    graph calmEnv 2 1 e sys [.s y₀, .s y₁] h = (.ok [h.size, h.size + 1], h1) ∧
    PyM.forEach (List.range 50) (fun _ => epFwdBack calmEnv [h.size, h.size + 1]) h1 = (.ok (), h2) ∧
    ∃ sh m v, Mom1 calmEnv (h2.get (h.size + 1)).marginal sh m v ∧ 0 < v ∧ v ≤ 1600 := by
  obtain ⟨u, hu⟩ := init_ok params_trans
  obtain ⟨u', hu'⟩ := init_ok params_meas
  obtain ⟨sys, hs⟩ : ∃ sys, UNGM.init = .ok sys := ⟨_, rfl⟩
  obtain ⟨h1, h2, a1, a2, a3⟩ := C112_growth_passes (env := calmEnv) (N := 2) (ys := [.s y₀, .s y₁]) (α := 0.8) (γ := 0.8)
    (y := fun i => if i = 0 then y₀ else y₁) (fun _ => rfl) hu hu' (by norm_num) (by norm_num) (.inl (by norm_num)) hs le_rfl rfl (by
      intro i a hi
      match i, hi with
      | 0, hi => simp only [List.getElem?_cons_zero, Option.some.injEq] at hi; rw [← hi]; exact isVec_s y₀
      | 1, hi => simp only [List.getElem?_cons_succ, List.getElem?_cons_zero, Option.some.injEq] at hi; rw [← hi]; exact isVec_s y₁)
    h 49
  obtain ⟨sh, m, v, b1, b2, b3⟩ := a3 1 (by norm_num)
  exact ⟨_, sys, h1, h2, hs, rfl, rfl, a1, a2, sh, m, v, b1, b2, b3.trans (by norm_num)⟩

/-- Two measurements between -30 and 30: means between -81 and 81. -/
example (y₀ y₁ : ℝ) (h₀ : |y₀| ≤ 30) (h₁ : |y₁| ≤ 30) : ∃ u u' sys fs, UT.init 1 1 2 3 = .ok u ∧ UT.init 1 1 2 2 = .ok u' ∧
    UNGM.init = .ok sys ∧
    (KFS.init (u.transform calmEnv) sys (some (u'.transform calmEnv))).kalmanFilter calmEnv [.s y₀, .s y₁] none 0 none = .ok fs ∧
    ∃ g m v, fs[1]? = some g ∧ Mom1 calmEnv g false m v ∧ v ≤ 940 ∧ |m| ≤ 81 := by
  obtain ⟨u, hu⟩ := init_ok params_trans
  obtain ⟨u', hu'⟩ := init_ok params_meas
  obtain ⟨sys, hs⟩ : ∃ sys, UNGM.init = .ok sys := ⟨_, rfl⟩
  obtain ⟨fs, rs, a1, -, -, -, a5, -⟩ := C112_growth_filter (env := calmEnv) (N := 2) (ys := [.s y₀, .s y₁]) (Y := 30)
    (y := fun i => if i = 0 then y₀ else y₁) hu hu' hs two_pos rfl (by
      intro i a hi
      match i, hi with
      | 0, hi => simp only [List.getElem?_cons_zero, Option.some.injEq] at hi; rw [← hi]; exact isVec_s y₀
      | 1, hi => simp only [List.getElem?_cons_succ, List.getElem?_cons_zero, Option.some.injEq] at hi; rw [← hi]; exact isVec_s y₁)
    (fun i _ => by split_ifs <;> assumption)
  obtain ⟨g, m, v, b1, b2, -, b4, b5⟩ := a5 1 (by norm_num)
  exact ⟨u, u', sys, fs, hu, hu', hs, a1, g, m, v, b1, b2, b4, b5.trans (by norm_num)⟩

end Verif

import Verif.Lemmas.ScalarPass

/-! Power expectation propagation on scalar affine systems. -/

namespace Verif

open Site

namespace Chain

variable {c : Chain}

/-- The factors to the power `α`. -/
noncomputable def pw (α : ℝ) (v : Vals) : Vals := ⟨v.M, α • v.F, α • v.Y, α • v.B⟩

theorem filteredVals_M (hr : c.Regular) {h b : ℝ} (hκ : c.κ.Affine h b) (i : ℕ) :
    (c.filteredVals i).M = ⟨true, eps + 1 / (c.predict i (c.before eps i)).2 + h ^ 2 / c.r,
      (c.predict i (c.before eps i)).1 / (c.predict i (c.before eps i)).2 + h * (c.y i - b) / c.r⟩ := by
  have hY := Y_affine hr hκ i
  have h1 := congrArg Site.p hY
  have h2 := congrArg Site.h hY
  simp only [filteredVals, sub_def, add_def, ofMoments] at h1 h2 ⊢
  ext
  · rfl
  · simp only; linarith
  · simp only; linarith

theorem power_cavity (hr : c.Regular) {V : ℕ → Vals} {i : ℕ}
    (hV : ∀ j, i = j + 1 → (V j).M - (1 / c.α) • (V j).B = ofMoments true (c.filtered eps j).1 (c.filtered eps j).2) :
    c.cavity V i = c.before eps i := by
  cases i with
  | zero => rfl
  | succ j =>
    have h := ofMoments_read true (c.filtered eps j).1 (filtered_pos hr eps_pos.le j) (filtered_prec hr eps_pos.le j)
    simp only [cavity, hV j rfl, h.1, h.2.1, before]

theorem ofMoments_div (b : Bool) (m v α : ℝ) : ofMoments b m (v / α) = α • ofMoments b m v := by
  ext
  · rfl
  · simp only [ofMoments, smul_def, one_div_div]; ring
  · simp only [ofMoments, smul_def]; rw [div_div_eq_mul_div]; ring

/-- The measurement update for an affine measurement function, at a cavity above the threshold. -/
theorem meas_affine (hα : 0 < c.α) (hr : 0 < c.r) {h b : ℝ} (hκ : c.κ.Affine h b) (V : ℕ → Vals) (i : ℕ) (hc : eps ≤ ((V i).M - (V i).Y).p) :
    ∃ P : Site, P = ⟨true, ((V i).M - (V i).Y).p + c.α * (h ^ 2 / c.r), ((V i).M - (V i).Y).h + c.α * (h * (c.y i - b) / c.r)⟩ ∧
      c.meas i V = Function.update V i { V i with Y := (V i).Y + c.γ • (P - (V i).M), M := (V i).M + (c.γ / c.α) • (P - (V i).M) } := by
  obtain ⟨r1, r2, -⟩ := Site.read _ hc
  have hpos : 0 < ((V i).M - (V i).Y).p := lt_of_lt_of_le eps_pos hc
  have hvar : 0 < ((V i).M - (V i).Y).var := Site.var_pos _
  obtain ⟨k1, k2⟩ := ({ c with r := c.r / c.α } : Chain).correct_affine hκ (div_pos hr hα) i
    (g := (((V i).M - (V i).Y).mean, ((V i).M - (V i).Y).var)) hvar
  have k3 : 1 / ((V i).M - (V i).Y).var = ((V i).M - (V i).Y).p := by rw [r2, one_div_one_div]
  have k4 : ((V i).M - (V i).Y).mean / ((V i).M - (V i).Y).var = ((V i).M - (V i).Y).h := by rw [r1, r2]; field_simp
  dsimp only at k1 k2
  rw [k3] at k1
  rw [k4] at k2
  refine ⟨ofMoments true (({ c with r := c.r / c.α } : Chain).correct i (((V i).M - (V i).Y).mean, ((V i).M - (V i).Y).var)).1
    (({ c with r := c.r / c.α } : Chain).correct i (((V i).M - (V i).Y).mean, ((V i).M - (V i).Y).var)).2, ?_, ?_⟩
  · ext
    · rfl
    · simp only [ofMoments]; rw [k1, div_div_eq_mul_div]; ring
    · simp only [ofMoments]; rw [k2, div_div_eq_mul_div]; ring
  · simp only [meas, correct]

/-- The forward sweep at one node, for any power. -/
theorem fwdPair_power (hr : c.Regular) (hγ : c.γ = 1) {h b : ℝ} (hκ : c.κ.Affine h b) (N : ℕ) {V : ℕ → Vals} {i : ℕ} (hi : V i = start)
    (hV : ∀ j, i = j + 1 → V j = pw c.α (c.filteredVals j)) :
    c.steps N (fwdPair i) V = Function.update V i (pw c.α (c.filteredVals i)) := by
  have hα := hr.α
  have hc : c.cavity V i = c.before eps i := power_cavity hr fun j hj => by
    rw [hV j hj]
    ext <;> simp [pw, filteredVals, sub_def, smul_def, ofMoments]
  set m := (c.predict i (c.before eps i)).1 with hm
  set v := (c.predict i (c.before eps i)).2 with hv
  have hvp : 0 < v := predict_pos hr i (before_pos hr eps_pos.le i)
  have h1 : c.fwd i V = Function.update V i ⟨⟨false, eps + 1 / v, m / v⟩, c.α • ofMoments false m v, ⟨false, 0, 0⟩, ⟨false, 0, 0⟩⟩ := by
    simp only [fwd, hc, hi, start, hγ, sub_self]
    rw [show ((c.τ i).X (c.before eps i).1 (c.before eps i).2) = m from rfl,
      show ((c.τ i).S (c.before eps i).1 (c.before eps i).2 + c.q) = v from rfl, ofMoments_div]
    have e : (0 : ℝ) • (⟨false, 0, 0⟩ : Site) + (1 : ℝ) • c.α • ofMoments false m v = c.α • ofMoments false m v := by
      simp [smul_def, add_def, ofMoments]
    rw [e]
    congr 2
    ext
    · simp [add_def, sub_def, smul_def, ofMoments]
    · simp only [add_def, sub_def, smul_def, ofMoments, eps]; field_simp; ring
    · simp only [add_def, sub_def, smul_def, ofMoments]; field_simp; ring
  show c.meas i (c.fwd i V) = _
  have hup : (c.fwd i V) i = ⟨⟨false, eps + 1 / v, m / v⟩, c.α • ofMoments false m v, ⟨false, 0, 0⟩, ⟨false, 0, 0⟩⟩ := by
    rw [h1, Function.update_self]
  obtain ⟨P, hP, hmeas⟩ := meas_affine hα hr.r hκ (c.fwd i V) i (by
    rw [hup]; simp only [sub_def, sub_zero, le_add_iff_nonneg_right]; positivity)
  rw [hup] at hP hmeas
  rw [hmeas, h1, Function.update_idem, hP, hγ]
  refine congrArg (Function.update V i) ?_
  have hM := filteredVals_M hr hκ i
  rw [← hm, ← hv] at hM
  have hY := Y_affine hr hκ i
  have hr0 := hr.r
  simp only [pw, Vals.mk.injEq]
  refine ⟨?_, ?_, ?_, ?_⟩
  · rw [hM]
    ext
    · simp [add_def, sub_def, smul_def]
    · simp only [add_def, sub_def, smul_def]; field_simp; ring
    · simp only [add_def, sub_def, smul_def]; field_simp; ring
  · rfl
  · rw [hY]
    ext
    · simp [add_def, sub_def, smul_def]
    · simp only [add_def, sub_def, smul_def]; ring
    · simp only [add_def, sub_def, smul_def]; ring
  · ext <;> simp [smul_def, filteredVals]

/-- Smoothing in natural parameters: the future `(u, g)` reaches the state through the noise. -/
theorem smooth_alg {v q u : ℝ} (hv : 0 < v) (hq : 0 < q) (hu : 0 ≤ u) (m A b g : ℝ) :
    1 / (v + (A * v / (A ^ 2 * v + q)) ^ 2 * (1 / (1 / (A ^ 2 * v + q) + u) - (A ^ 2 * v + q))) = 1 / v + A ^ 2 * u / (q * u + 1) ∧
    (m + A * v / (A ^ 2 * v + q) * (((A * m + b) / (A ^ 2 * v + q) + g) / (1 / (A ^ 2 * v + q) + u) - (A * m + b))) /
      (v + (A * v / (A ^ 2 * v + q)) ^ 2 * (1 / (1 / (A ^ 2 * v + q) + u) - (A ^ 2 * v + q))) = m / v + A * (g - b * u) / (q * u + 1) := by
  have hs : 0 < A ^ 2 * v + q := by positivity
  have h1 : 0 < q * u + 1 := by positivity
  have h2 : 0 < 1 + (A ^ 2 * v + q) * u := by positivity
  have e1 : 1 / (1 / (A ^ 2 * v + q) + u) = (A ^ 2 * v + q) / (1 + (A ^ 2 * v + q) * u) := by field_simp
  have e2 : v + (A * v / (A ^ 2 * v + q)) ^ 2 * (1 / (1 / (A ^ 2 * v + q) + u) - (A ^ 2 * v + q)) =
      v * (q * u + 1) / (1 + (A ^ 2 * v + q) * u) := by
    rw [e1]; field_simp; ring
  have e3 : m + A * v / (A ^ 2 * v + q) * (((A * m + b) / (A ^ 2 * v + q) + g) / (1 / (A ^ 2 * v + q) + u) - (A * m + b)) =
      (m * (q * u + 1) + A * v * (g - b * u)) / (1 + (A ^ 2 * v + q) * u) := by
    have : ((A * m + b) / (A ^ 2 * v + q) + g) / (1 / (A ^ 2 * v + q) + u) =
        (A * m + b + (A ^ 2 * v + q) * g) / (1 + (A ^ 2 * v + q) * u) := by field_simp
    rw [this]; field_simp; ring
  rw [e3, e2]
  constructor
  · field_simp; ring
  · field_simp

/-- The backward update for an affine transition and a power other than one. -/
theorem back_affine (hα : 0 < c.α) (hα1 : c.α ≠ 1) (hq : 0 < c.q) {A b : ℝ} {i : ℕ} (hτ : (c.τ (i + 1)).Affine A b) (V : ℕ → Vals)
    (hc : eps ≤ ((V i).M - (V i).B).p) (hsh : ((V i).M - (V i).B).sh = true) (U : Site) (hU : U = (V (i + 1)).M - (1 / c.α) • (V (i + 1)).F)
    (hU0 : 0 ≤ U.p) (ht : eps ≤ 1 / (A ^ 2 / ((V i).M - (V i).B).p + c.q / c.α) + c.α * U.p) :
    ∃ P : Site, P = ⟨true, ((V i).M - (V i).B).p + c.α * (A ^ 2 * U.p / (c.q * U.p + 1)),
        ((V i).M - (V i).B).h + c.α * (A * (U.h - b * U.p) / (c.q * U.p + 1))⟩ ∧
      c.back i V = Function.update V i { V i with B := (V i).B + c.γ • (P - (V i).M), M := (V i).M + (c.γ / c.α) • (P - (V i).M) } := by
  obtain ⟨r1, r2, r3⟩ := Site.read _ hc
  have hpos : 0 < ((V i).M - (V i).B).p := lt_of_lt_of_le eps_pos hc
  have hvar : 0 < ((V i).M - (V i).B).var := Site.var_pos _
  obtain ⟨t1, t2, t3⟩ := hτ ((V i).M - (V i).B).mean _ hvar
  have hqα : 0 < c.q / c.α := div_pos hq hα
  have hsv : A ^ 2 * ((V i).M - (V i).B).var + c.q / c.α = A ^ 2 / ((V i).M - (V i).B).p + c.q / c.α := by rw [r2]; ring
  obtain ⟨a1, a2⟩ := smooth_alg hvar hqα (mul_nonneg hα.le hU0) ((V i).M - (V i).B).mean A b (c.α * U.h)
  have htarget : ∀ x s, c.target i V x s = ofMoments false x s + c.α • U := fun x s => by rw [hU]; exact if_neg hα1
  obtain ⟨u1, u2, u3⟩ := Site.read (ofMoments false (A * ((V i).M - (V i).B).mean + b) (A ^ 2 * ((V i).M - (V i).B).var + c.q / c.α) + c.α • U)
    (by simp only [add_def, ofMoments, smul_def]; rw [hsv]; exact ht)
  have k3 : 1 / ((V i).M - (V i).B).var = ((V i).M - (V i).B).p := by rw [r2, one_div_one_div]
  have k4 : ((V i).M - (V i).B).mean / ((V i).M - (V i).B).var = ((V i).M - (V i).B).h := by rw [r1, r2]; field_simp
  rw [k3] at a1
  rw [k4] at a2
  refine ⟨_, rfl, ?_⟩
  simp only [back, t1, t2, t3, htarget, u1, u2, r3, hsh, Bool.true_or]
  simp only [add_def, ofMoments, smul_def]
  rw [a1, a2]
  have e1 : A ^ 2 * (c.α * U.p) / (c.q / c.α * (c.α * U.p) + 1) = c.α * (A ^ 2 * U.p / (c.q * U.p + 1)) := by
    rw [show c.q / c.α * (c.α * U.p) = c.q * U.p by field_simp]; ring
  have e2 : A * (c.α * U.h - b * (c.α * U.p)) / (c.q / c.α * (c.α * U.p) + 1) = c.α * (A * (U.h - b * U.p) / (c.q * U.p + 1)) := by
    rw [show c.q / c.α * (c.α * U.p) = c.q * U.p by field_simp]; ring
  rw [e1, e2]

/-- What the future says about state `i + 1`: the smoothed state without the prediction. -/
noncomputable def future (c : Chain) (n i : ℕ) : Site := (c.smoothedVals n i).M - (c.smoothedVals n i).F

theorem smoothedVals_F (c : Chain) (n i : ℕ) : (c.smoothedVals n i).F = (c.filteredVals i).F := by
  unfold smoothedVals; split_ifs <;> rfl

theorem smoothedVals_Y (c : Chain) (n i : ℕ) : (c.smoothedVals n i).Y = (c.filteredVals i).Y := by
  unfold smoothedVals; split_ifs <;> rfl

theorem future_prec (hr : c.Regular) {n i : ℕ} (hi : i ≤ n) : eps ≤ (c.future n i).p := by
  have hp := predict_pos hr i (before_pos hr eps_pos.le i)
  have hd := damp_pos eps_pos.le hp
  have h1 := filtered_le hr eps_pos.le i
  have h2 := smoothed_pos (n := n) hr eps_pos.le hi
  have h3 : 1 / (damp eps (c.predict i (c.before eps i))).2 ≤ 1 / (c.smoothed eps n i).2 :=
    one_div_le_one_div_of_le h2.1 (h2.2.trans h1)
  have e1 : 1 / (damp eps (c.predict i (c.before eps i))).2 = 1 / (c.predict i (c.before eps i)).2 + eps := by
    simp only [damp, one_div_one_div]
  rw [future, smoothedVals_M c hi, smoothedVals_F]
  simp only [sub_def, ofMoments, filteredVals]
  linarith

/-- The message of the future to state `i`. -/
theorem smoothedVals_B (hr : c.Regular) {n i : ℕ} (hi : i < n) {A b : ℝ} (hτ : (c.τ (i + 1)).Affine A b) :
    (c.smoothedVals n i).B = ⟨true, A ^ 2 * (c.future n (i + 1)).p / (c.q * (c.future n (i + 1)).p + 1),
      A * ((c.future n (i + 1)).h - b * (c.future n (i + 1)).p) / (c.q * (c.future n (i + 1)).p + 1)⟩ := by
  have hf := filtered_pos hr eps_pos.le i
  obtain ⟨t1, t2, t3⟩ := hτ (c.filtered eps i).1 _ hf
  have hfut := future_prec hr (show i + 1 ≤ n from hi)
  have hq := hr.q
  obtain ⟨a1, a2⟩ := smooth_alg hf hq (eps_pos.le.trans hfut) (c.filtered eps i).1 A b (c.future n (i + 1)).h
  have hpred : c.predict (i + 1) (c.before eps (i + 1)) = (A * (c.filtered eps i).1 + b, A ^ 2 * (c.filtered eps i).2 + c.q) := by
    simp only [predict, before, t1, t2]
  have hsm := smoothed_pos (n := n) (i := i + 1) hr eps_pos.le hi
  have e1 : 1 / (A ^ 2 * (c.filtered eps i).2 + c.q) + (c.future n (i + 1)).p = 1 / (c.smoothed eps n (i + 1)).2 := by
    rw [future, smoothedVals_M c hi, smoothedVals_F]
    simp only [sub_def, ofMoments, filteredVals, hpred]; ring
  have e2 : (A * (c.filtered eps i).1 + b) / (A ^ 2 * (c.filtered eps i).2 + c.q) + (c.future n (i + 1)).h =
      (c.smoothed eps n (i + 1)).1 / (c.smoothed eps n (i + 1)).2 := by
    rw [future, smoothedVals_M c hi, smoothedVals_F]
    simp only [sub_def, ofMoments, filteredVals, hpred]; ring
  rw [e1, one_div_one_div] at a1
  rw [e1, e2, one_div_one_div] at a2
  have e3 : (c.smoothed eps n (i + 1)).1 / (c.smoothed eps n (i + 1)).2 / (1 / (c.smoothed eps n (i + 1)).2) = (c.smoothed eps n (i + 1)).1 := by
    have := hsm.1.ne'; field_simp
  rw [e3] at a2
  have hs := smoothed_step c eps hi
  have s1 : (c.smoothed eps n i).1 = (c.filtered eps i).1 + A * (c.filtered eps i).2 / (A ^ 2 * (c.filtered eps i).2 + c.q) *
      ((c.smoothed eps n (i + 1)).1 - (A * (c.filtered eps i).1 + b)) := by
    rw [hs]; simp only [smooth, t1, t2, t3]
  have s2 : (c.smoothed eps n i).2 = (c.filtered eps i).2 + (A * (c.filtered eps i).2 / (A ^ 2 * (c.filtered eps i).2 + c.q)) ^ 2 *
      ((c.smoothed eps n (i + 1)).2 - (A ^ 2 * (c.filtered eps i).2 + c.q)) := by
    rw [hs]; simp only [smooth, t2, t3]
  rw [← s2] at a1
  rw [← s1, ← s2] at a2
  simp only [smoothedVals, if_pos hi]
  ext
  · rfl
  · simp only [sub_def, ofMoments]; rw [a1]; ring
  · simp only [sub_def, ofMoments]; rw [a2]; ring

/-- The smoothed state is the filtered one and the message of the future. -/
theorem smoothedVals_split (c : Chain) (n i : ℕ) : (c.smoothedVals n i).M = (c.filteredVals i).M + (c.smoothedVals n i).B := by
  unfold smoothedVals
  split_ifs
  · ext <;> simp [add_def, sub_def, ofMoments, filteredVals]
  · ext <;> simp [add_def, filteredVals, ofMoments]

/-- Powers of at least one need no condition. -/
theorem heard_of_one_le (hr : c.Regular) (hα : 1 ≤ c.α) (A : ℕ → ℝ) (n : ℕ) : c.Heard A n := fun i _ => by
  have hf := filtered_pos hr eps_pos.le i
  have hq := hr.q
  have hα0 := hr.α
  have h1 : 0 ≤ 1 / (A (i + 1) ^ 2 * (c.filtered eps i).2 + c.q / c.α) := by positivity
  have h2 := mul_nonneg eps_pos.le (sub_nonneg.2 hα)
  show eps * (1 - c.α) ≤ 1 / (A (i + 1) ^ 2 * (c.filtered eps i).2 + c.q / c.α)
  linarith

theorem heard_prec (hr : c.Regular) {A : ℕ → ℝ} {n i : ℕ} (hi : i < n) (ht : c.Heard A n) {p : ℝ} (hp : 1 / (c.filtered eps i).2 ≤ p) :
    eps ≤ 1 / (A (i + 1) ^ 2 / p + c.q / c.α) + c.α * (c.future n (i + 1)).p := by
  have hf := filtered_pos hr eps_pos.le i
  have hq := hr.q
  have hα0 := hr.α
  have hp0 : 0 < p := lt_of_lt_of_le (by positivity) hp
  have h1 : A (i + 1) ^ 2 / p + c.q / c.α ≤ A (i + 1) ^ 2 * (c.filtered eps i).2 + c.q / c.α := by
    have : 1 / p ≤ (c.filtered eps i).2 := by
      rw [div_le_iff₀ hp0, mul_comm]
      rwa [div_le_iff₀ hf] at hp
    have := mul_le_mul_of_nonneg_left this (sq_nonneg (A (i + 1)))
    rw [mul_one_div] at this
    linarith
  have h2 : 0 < A (i + 1) ^ 2 / p + c.q / c.α := by positivity
  have h3 := one_div_le_one_div_of_le h2 h1
  have h4 := mul_le_mul_of_nonneg_left (future_prec hr (show i + 1 ≤ n from hi)) hα0.le
  have h5 : eps * (1 - c.α) ≤ 1 / (A (i + 1) ^ 2 * (c.filtered eps i).2 + c.q / c.α) := ht i hi
  linarith

/-- The backward update of the first pass, for any power. -/
theorem back_power (hr : c.Regular) (hγ : c.γ = 1) {A b : ℕ → ℝ} (hτ : ∀ i, (c.τ i).Affine (A i) (b i)) {n : ℕ} (ht : c.Heard A n)
    {V : ℕ → Vals} {i : ℕ} (hi : i < n) (hV : V i = pw c.α (c.filteredVals i)) (hx : V (i + 1) = pw c.α (c.smoothedVals n (i + 1))) :
    c.back i V = Function.update V i (pw c.α (c.smoothedVals n i)) := by
  have hα0 := hr.α
  by_cases hα : c.α = 1
  · have e : ∀ v : Vals, pw c.α v = v := fun v => by rw [hα]; simp [pw, smul_def]
    rw [e] at hV hx
    rw [e]
    exact back_filtered hr hα hγ hi hV hx
  have hcav : (V i).M - (V i).B = (c.filteredVals i).M := by
    rw [hV]; ext <;> simp [pw, filteredVals, sub_def, smul_def, ofMoments]
  have hU : c.future n (i + 1) = (V (i + 1)).M - (1 / c.α) • (V (i + 1)).F := by
    rw [hx]; ext
    · simp [future, pw, sub_def, smul_def]
    · simp only [future, pw, sub_def, smul_def]; field_simp
    · simp only [future, pw, sub_def, smul_def]; field_simp
  have hMp : (c.filteredVals i).M.p = 1 / (c.filtered eps i).2 := rfl
  obtain ⟨P, hP, hb⟩ := back_affine hα0 hα hr.q (hτ (i + 1)) V (by rw [hcav, hMp]; exact filtered_prec hr eps_pos.le i) (by rw [hcav]; rfl)
    _ hU (eps_pos.le.trans (future_prec hr hi)) (by rw [hcav]; exact heard_prec hr hi ht le_rfl)
  rw [hb, hγ]
  refine congrArg (Function.update V i) ?_
  have hB := smoothedVals_B hr hi (hτ (i + 1))
  have hS := smoothedVals_split c n i
  rw [hcav] at hP
  have hPe : P = (c.filteredVals i).M + c.α • (c.smoothedVals n i).B := by rw [hP, hB]; rfl
  rw [hPe, hV]
  simp only [pw, smoothedVals_F, smoothedVals_Y, hS, Vals.mk.injEq, true_and]
  have hsh : (c.smoothedVals n i).B.sh = true := by rw [hB]
  have hsh2 : (c.filteredVals i).M.sh = true := rfl
  refine ⟨?_, ?_⟩
  · ext
    · simp [add_def, sub_def, smul_def, hsh2]
    · simp only [add_def, sub_def, smul_def]; field_simp; ring
    · simp only [add_def, sub_def, smul_def]; field_simp; ring
  · ext
    · simp [add_def, sub_def, smul_def, filteredVals, hsh]
    · simp only [add_def, sub_def, smul_def, filteredVals]; ring
    · simp only [add_def, sub_def, smul_def, filteredVals]; ring

/-- The first pass with any power computes the same marginals as with power one; the factors are powers of those. -/
theorem first_pass_power (hr : c.Regular) (hγ : c.γ = 1) {h b' : ℝ} (hκ : c.κ.Affine h b') {A b : ℕ → ℝ} (hτ : ∀ i, (c.τ i).Affine (A i) (b i))
    {n : ℕ} (ht : c.Heard A n) :
    c.steps (n + 1) (passCalls (n + 1)) (fun _ => start) = fun i => if i < n + 1 then pw c.α (c.smoothedVals n i) else start :=
  pass_to c (fun i => pw c.α (c.filteredVals i)) (fun i => pw c.α (c.smoothedVals n i))
    (fun _ _ hi hV => fwdPair_power hr hγ hκ (n + 1) hi hV) (by simp [smoothedVals])
    fun _ _ hi hV hx => back_power hr hγ hτ ht hi hV hx

/-! ## Further passes -/

theorem B_prec_nonneg (hr : c.Regular) {A b : ℕ → ℝ} (hτ : ∀ i, (c.τ i).Affine (A i) (b i)) (n i : ℕ) : 0 ≤ (c.smoothedVals n i).B.p := by
  by_cases hi : i < n
  · rw [smoothedVals_B hr hi (hτ (i + 1))]
    have h1 : 0 ≤ (c.future n (i + 1)).p := eps_pos.le.trans (future_prec hr hi)
    have hq := hr.q
    dsimp only
    positivity
  · simp [smoothedVals, hi, filteredVals]

theorem fwd_fixed_power (hr : c.Regular) (hγ : c.γ = 1) {V : ℕ → Vals} {n i : ℕ} (hi : i ≤ n)
    (hV : ∀ j, j ≤ n → V j = pw c.α (c.smoothedVals n j)) : c.fwd i V = V := by
  have hα0 := hr.α
  have hc : c.cavity V i = c.before eps i := power_cavity hr fun j hj => by
    rw [hV j (by omega), ← smoothedVals_cavity c n j]
    ext
    · simp [pw, sub_def, smul_def]
    · simp only [pw, sub_def, smul_def]; field_simp
    · simp only [pw, sub_def, smul_def]; field_simp
  have hF : (V i).F = c.α • ofMoments false (c.predict i (c.before eps i)).1 (c.predict i (c.before eps i)).2 := by
    rw [hV i hi]; simp only [pw, smoothedVals_F]; rfl
  have hM : (V i).M.sh = true := by rw [hV i hi]; simp only [pw, smoothedVals_M c hi]; rfl
  simp only [fwd, hc, hγ, sub_self]
  rw [show ((c.τ i).X (c.before eps i).1 (c.before eps i).2) = (c.predict i (c.before eps i)).1 from rfl,
    show ((c.τ i).S (c.before eps i).1 (c.before eps i).2 + c.q) = (c.predict i (c.before eps i)).2 from rfl, ofMoments_div, ← hF]
  have e1 : (0 : ℝ) • (V i).F + (1 : ℝ) • (V i).F = (V i).F := by ext <;> simp [smul_def, add_def]
  have e2 : (V i).M + (1 / c.α) • ((V i).F - (V i).F) = (V i).M := by ext <;> simp [smul_def, add_def, sub_def, hM]
  rw [e1, e2]
  exact Function.update_eq_self i V

theorem update_fixed {V : ℕ → Vals} {i : ℕ} {P : Site} {k k' : ℝ} (hP : P = (V i).M) (hY : (V i).Y.sh = true) :
    Function.update V i { V i with Y := (V i).Y + k • (P - (V i).M), M := (V i).M + k' • (P - (V i).M) } = V := by
  have e1 : (V i).Y + k • ((V i).M - (V i).M) = (V i).Y := by ext <;> simp [smul_def, add_def, sub_def, hY]
  have e2 : (V i).M + k' • ((V i).M - (V i).M) = (V i).M := by ext <;> simp [smul_def, add_def, sub_def]
  rw [hP, e1, e2]
  exact Function.update_eq_self i V

theorem update_fixed_back {V : ℕ → Vals} {i : ℕ} {P : Site} {k k' : ℝ} (hP : P = (V i).M) (hB : (V i).B.sh = true) :
    Function.update V i { V i with B := (V i).B + k • (P - (V i).M), M := (V i).M + k' • (P - (V i).M) } = V := by
  have e1 : (V i).B + k • ((V i).M - (V i).M) = (V i).B := by ext <;> simp [smul_def, add_def, sub_def, hB]
  have e2 : (V i).M + k' • ((V i).M - (V i).M) = (V i).M := by ext <;> simp [smul_def, add_def, sub_def]
  rw [hP, e1, e2]
  exact Function.update_eq_self i V

theorem meas_fixed_power (hr : c.Regular) (hα : c.α ≤ 1) {h b' : ℝ} (hκ : c.κ.Affine h b') {A b : ℕ → ℝ} (hτ : ∀ i, (c.τ i).Affine (A i) (b i))
    {V : ℕ → Vals} {n i : ℕ} (hi : i ≤ n) (hV : V i = pw c.α (c.smoothedVals n i)) : c.meas i V = V := by
  have hα0 := hr.α
  have hr0 := hr.r
  have hY : (V i).Y = c.α • ⟨true, h ^ 2 / c.r, h * (c.y i - b') / c.r⟩ := by rw [hV, ← Y_affine hr hκ]; simp only [pw, smoothedVals_Y]
  have hM : (V i).M = (c.filteredVals i).M + (c.smoothedVals n i).B := by rw [hV]; exact smoothedVals_split c n i
  have hB := B_prec_nonneg hr hτ n i
  have hp := predict_pos hr i (before_pos hr eps_pos.le i)
  have hge : eps ≤ ((V i).M - (V i).Y).p := by
    rw [hM, hY, filteredVals_M hr hκ]
    simp only [sub_def, add_def, smul_def]
    have h1 : 0 ≤ 1 / (c.predict i (c.before eps i)).2 := by positivity
    have h2 : c.α * (h ^ 2 / c.r) ≤ h ^ 2 / c.r := mul_le_of_le_one_left (by positivity) hα
    linarith
  obtain ⟨P, hP, hm⟩ := meas_affine hα0 hr0 hκ V i hge
  rw [hm]
  refine update_fixed ?_ (by rw [hY]; rfl)
  rw [hP, hY]
  have hsh : (V i).M.sh = true := by rw [hM]; rfl
  ext
  · simp [hsh]
  · simp [sub_def, smul_def]
  · simp [sub_def, smul_def]

theorem back_fixed_power (hr : c.Regular) (hα : c.α ≤ 1) {A b : ℕ → ℝ} (hτ : ∀ i, (c.τ i).Affine (A i) (b i)) {n : ℕ} (ht : c.Heard A n)
    {V : ℕ → Vals} {i : ℕ} (hi : i < n) (hV : ∀ j, j ≤ n → V j = pw c.α (c.smoothedVals n j)) : c.back i V = V := by
  have hα0 := hr.α
  by_cases hα1 : c.α = 1
  · exact back_fixed hr hα1 hi fun j hj => by rw [hV j hj, hα1]; simp [pw, smul_def]
  have hB := smoothedVals_B hr hi (hτ (i + 1))
  have hBn := B_prec_nonneg hr hτ n i
  have hS : (V i).M = (c.filteredVals i).M + (c.smoothedVals n i).B := by rw [hV i hi.le]; exact smoothedVals_split c n i
  have hVB : (V i).B = c.α • (c.smoothedVals n i).B := by rw [hV i hi.le]; rfl
  have hU : c.future n (i + 1) = (V (i + 1)).M - (1 / c.α) • (V (i + 1)).F := by
    rw [hV (i + 1) hi]; ext
    · simp [future, pw, sub_def, smul_def]
    · simp only [future, pw, sub_def, smul_def]; field_simp
    · simp only [future, pw, sub_def, smul_def]; field_simp
  have hp : 1 / (c.filtered eps i).2 ≤ ((V i).M - (V i).B).p := by
    rw [hS, hVB]
    have : c.α * (c.smoothedVals n i).B.p ≤ (c.smoothedVals n i).B.p := mul_le_of_le_one_left hBn hα
    show _ ≤ 1 / (c.filtered eps i).2 + (c.smoothedVals n i).B.p - c.α * (c.smoothedVals n i).B.p
    linarith
  obtain ⟨P, hP, hb⟩ := back_affine hα0 hα1 hr.q (hτ (i + 1)) V ((filtered_prec hr eps_pos.le i).trans hp) (by rw [hS]; rfl)
    _ hU (eps_pos.le.trans (future_prec hr hi)) (heard_prec hr hi ht hp)
  rw [hb]
  have hsh : (c.smoothedVals n i).B.sh = true := by rw [hB]
  refine update_fixed_back ?_ (by rw [hVB]; exact hsh)
  have h1 := congrArg Site.p hB
  have h2 := congrArg Site.h hB
  dsimp only at h1 h2
  rw [hP, ← h1, ← h2, hVB]
  have hsh2 : (V i).M.sh = true := by rw [hS]; rfl
  ext
  · simp [hsh2]
  · simp [sub_def, smul_def]
  · simp [sub_def, smul_def]

/-- For affine systems and powers of at most one, every update leaves the result of the first pass as it is. -/
theorem steps_fixed_power (hr : c.Regular) (hα : c.α ≤ 1) (hγ : c.γ = 1) {h b' : ℝ} (hκ : c.κ.Affine h b') {A b : ℕ → ℝ}
    (hτ : ∀ i, (c.τ i).Affine (A i) (b i)) {n : ℕ} (ht : c.Heard A n) {V : ℕ → Vals}
    (hV : ∀ j, j ≤ n → V j = pw c.α (c.smoothedVals n j)) (calls : List (Upd × ℕ)) (hk : ∀ k ∈ calls, k.2 < n + 1) :
    c.steps (n + 1) calls V = V := by
  induction calls with
  | nil => rfl
  | cons k ks ih =>
    have h1 : c.step (n + 1) k V = V := by
      have hk2 : k.2 < n + 1 := hk k (by simp)
      obtain ⟨u, i⟩ := k
      dsimp only at hk2
      cases u with
      | fwd => exact fwd_fixed_power hr hγ (by omega) hV
      | meas => exact meas_fixed_power hr hα hκ hτ (by omega) (hV i (by omega))
      | back =>
        simp only [step]
        split_ifs with hl
        · exact back_fixed_power hr hα hτ ht (by omega) hV
        · rfl
    show c.steps (n + 1) ks (c.step (n + 1) k V) = V
    rw [h1]
    exact ih fun k hk' => hk k (by simp [hk'])

end Chain

end Verif

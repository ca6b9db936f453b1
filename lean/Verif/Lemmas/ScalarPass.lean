import Verif.Lemmas.ScalarOps

/-! One pass of the recursion of `Chain` with power and damping one. -/

namespace Verif

namespace Site

theorem add_def (a b : Site) : a + b = ⟨a.sh || b.sh, a.p + b.p, a.h + b.h⟩ := rfl
theorem sub_def (a b : Site) : a - b = ⟨a.sh || b.sh, a.p - b.p, a.h - b.h⟩ := rfl
theorem smul_def (k : ℝ) (a : Site) : k • a = ⟨a.sh, k * a.p, k * a.h⟩ := rfl

/-- The threshold. -/
noncomputable def eps : ℝ := 1 / 10 ^ 10

theorem eps_pos : 0 < eps := by unfold eps; positivity

theorem read (a : Site) (h : eps ≤ a.p) : a.mean = a.h / a.p ∧ a.var = 1 / a.p ∧ a.meanSh = a.sh :=
  ⟨if_neg (not_lt.2 h), if_neg (not_lt.2 h), if_neg (not_lt.2 h)⟩

theorem ofMoments_read (b : Bool) (m : ℝ) {c : ℝ} (h : 0 < c) (h' : eps ≤ 1 / c) :
    (ofMoments b m c).mean = m ∧ (ofMoments b m c).var = c ∧ (ofMoments b m c).meanSh = b := by
  obtain ⟨h1, h2, h3⟩ := read (ofMoments b m c) h'
  refine ⟨h1.trans ?_, h2.trans ?_, h3⟩
  · simp only [ofMoments]; field_simp
  · simp only [ofMoments]; field_simp

end Site

open Site

theorem damp_pos {ε : ℝ} (hε : 0 ≤ ε) {g : ℝ × ℝ} (hg : 0 < g.2) :
    0 < (Chain.damp ε g).2 ∧ (Chain.damp ε g).2 ≤ g.2 ∧ ε ≤ 1 / (Chain.damp ε g).2 := by
  have h1 : 0 < 1 / g.2 := by positivity
  have h2 : 0 < 1 / g.2 + ε := by linarith
  refine ⟨by simp only [Chain.damp]; positivity, ?_, ?_⟩
  · simp only [Chain.damp]
    rw [div_le_iff₀ h2, mul_add, mul_one_div_cancel hg.ne']
    have := mul_nonneg hg.le hε
    linarith
  · simp only [Chain.damp, one_div_one_div]; linarith

theorem damp_zero {g : ℝ × ℝ} (hg : 0 < g.2) : Chain.damp 0 g = g := by
  refine Prod.ext ?_ ?_
  · simp only [Chain.damp, add_zero]; field_simp
  · simp only [Chain.damp, add_zero, one_div_one_div]

namespace Chain

variable {c : Chain}

/-- The state before time `i`. -/
noncomputable def before (c : Chain) (ε : ℝ) : ℕ → ℝ × ℝ
  | 0 => (c.m0, c.p0)
  | i + 1 => c.filtered ε i

theorem filtered_eq (c : Chain) (ε : ℝ) (i : ℕ) : c.filtered ε i = c.correct i (damp ε (c.predict i (c.before ε i))) := by
  cases i <;> rfl

theorem predict_pos (hr : c.Regular) (i : ℕ) {g : ℝ × ℝ} (hg : 0 < g.2) : 0 < (c.predict i g).2 := by
  have := (hr.τ i g.1 g.2 hg).1
  have := hr.q
  simp only [predict]
  linarith

theorem correct_pos (hr : c.Regular) (i : ℕ) {g : ℝ × ℝ} (hg : 0 < g.2) : 0 < (c.correct i g).2 ∧ (c.correct i g).2 ≤ g.2 := by
  obtain ⟨h1, h2⟩ := hr.κ.meas_pos (m := g.1) hg hr.r
  refine ⟨h2, ?_⟩
  simp only [correct]
  have : 0 ≤ (c.κ.C g.1 g.2 / (c.κ.S g.1 g.2 + c.r)) ^ 2 * (c.κ.S g.1 g.2 + c.r) := mul_nonneg (sq_nonneg _) h1.le
  linarith

theorem filtered_pos (hr : c.Regular) {ε : ℝ} (hε : 0 ≤ ε) (i : ℕ) : 0 < (c.filtered ε i).2 := by
  induction i with
  | zero => exact (correct_pos hr _ (damp_pos hε (predict_pos hr _ hr.p0)).1).1
  | succ i ih => exact (correct_pos hr _ (damp_pos hε (predict_pos hr _ ih)).1).1

theorem before_pos (hr : c.Regular) {ε : ℝ} (hε : 0 ≤ ε) (i : ℕ) : 0 < (c.before ε i).2 := by
  cases i with
  | zero => exact hr.p0
  | succ i => exact filtered_pos hr hε i

theorem filtered_le (hr : c.Regular) {ε : ℝ} (hε : 0 ≤ ε) (i : ℕ) :
    (c.filtered ε i).2 ≤ (damp ε (c.predict i (c.before ε i))).2 := by
  rw [filtered_eq]
  exact (correct_pos hr _ (damp_pos hε (predict_pos hr _ (before_pos hr hε i))).1).2

theorem filtered_le_predict (hr : c.Regular) {ε : ℝ} (hε : 0 ≤ ε) (i : ℕ) : (c.filtered ε i).2 ≤ (c.predict i (c.before ε i)).2 :=
  (filtered_le hr hε i).trans (damp_pos hε (predict_pos hr _ (before_pos hr hε i))).2.1

theorem filtered_prec (hr : c.Regular) {ε : ℝ} (hε : 0 ≤ ε) (i : ℕ) : ε ≤ 1 / (c.filtered ε i).2 :=
  (damp_pos hε (predict_pos hr _ (before_pos hr hε i))).2.2.trans
    (one_div_le_one_div_of_le (filtered_pos hr hε i) (filtered_le hr hε i))

theorem smoothed_last (c : Chain) (ε : ℝ) (n : ℕ) : c.smoothed ε n n = c.filtered ε n := by simp [smoothed, smoothedBack]

theorem smoothed_step (c : Chain) (ε : ℝ) {n i : ℕ} (hi : i < n) :
    c.smoothed ε n i = c.smooth i (c.filtered ε i) (c.smoothed ε n (i + 1)) := by
  obtain ⟨k, rfl⟩ : ∃ k, n = i + (k + 1) := ⟨n - i - 1, by omega⟩
  have e1 : i + (k + 1) - i = k + 1 := by omega
  have e2 : i + (k + 1) - (i + 1) = k := by omega
  rw [smoothed, smoothed, e1, e2, smoothedBack]
  have e3 : i + (k + 1) - (k + 1) = i := by omega
  rw [e3]

theorem smooth_pos (hr : c.Regular) (i : ℕ) {g next : ℝ × ℝ} (hg : 0 < g.2) (hn : 0 ≤ next.2) : 0 < (c.smooth i g next).2 :=
  (hr.τ (i + 1)).back_pos hg hr.q hn

theorem smoothed_pos (hr : c.Regular) {ε : ℝ} (hε : 0 ≤ ε) {n i : ℕ} (hi : i ≤ n) :
    0 < (c.smoothed ε n i).2 ∧ (c.smoothed ε n i).2 ≤ (c.filtered ε i).2 := by
  obtain ⟨k, rfl⟩ : ∃ k, n = i + k := ⟨n - i, by omega⟩
  induction k generalizing i with
  | zero => rw [Nat.add_zero, smoothed_last]; exact ⟨filtered_pos hr hε i, le_rfl⟩
  | succ k ih =>
    have h1 := ih (i := i + 1) (by omega)
    rw [show i + 1 + k = i + (k + 1) by omega] at h1
    rw [smoothed_step c ε (by omega)]
    refine ⟨smooth_pos hr i (filtered_pos hr hε i) h1.1.le, ?_⟩
    have h2 := h1.2.trans (filtered_le_predict hr hε (i + 1))
    simp only [smooth]
    simp only [predict, before] at h2
    have : (((c.τ (i + 1)).C (c.filtered ε i).1 (c.filtered ε i).2 / ((c.τ (i + 1)).S (c.filtered ε i).1 (c.filtered ε i).2 + c.q)) ^ 2 *
      ((c.smoothed ε (i + (k + 1)) (i + 1)).2 - ((c.τ (i + 1)).S (c.filtered ε i).1 (c.filtered ε i).2 + c.q))) ≤ 0 :=
      mul_nonpos_of_nonneg_of_nonpos (sq_nonneg _) (by linarith)
    linarith

theorem smoothed_prec (hr : c.Regular) {ε : ℝ} (hε : 0 ≤ ε) {n i : ℕ} (hi : i ≤ n) : ε ≤ 1 / (c.smoothed ε n i).2 :=
  (filtered_prec hr hε i).trans (one_div_le_one_div_of_le (smoothed_pos hr hε hi).1 (smoothed_pos hr hε hi).2)

/-! ## The forward sweep -/

/-- Node `i` after the forward sweep. -/
noncomputable def filteredVals (c : Chain) (i : ℕ) : Vals :=
  let F := ofMoments false (c.predict i (c.before eps i)).1 (c.predict i (c.before eps i)).2
  let M := ofMoments true (c.filtered eps i).1 (c.filtered eps i).2
  ⟨M, F, M - (⟨false, eps, 0⟩ + F), ⟨false, 0, 0⟩⟩

/-- The calls of the forward sweep for node `i`. -/
def fwdPair (i : ℕ) : List (Upd × ℕ) := [(.fwd, i), (.meas, i)]

theorem steps_append (c : Chain) (N : ℕ) (as bs : List (Upd × ℕ)) (V : ℕ → Vals) :
    c.steps N (as ++ bs) V = c.steps N bs (c.steps N as V) := List.foldl_append

theorem cavity_eq (hr : c.Regular) (hα : c.α = 1) {V : ℕ → Vals} {i : ℕ}
    (hV : ∀ j, i = j + 1 → (V j).M - (V j).B = ofMoments true (c.filtered eps j).1 (c.filtered eps j).2) :
    c.cavity V i = c.before eps i := by
  cases i with
  | zero => rfl
  | succ j =>
    have h := ofMoments_read true (c.filtered eps j).1 (filtered_pos hr eps_pos.le j) (filtered_prec hr eps_pos.le j)
    have e : (1 / c.α) • (V j).B = (V j).B := by rw [hα]; simp [smul_def]
    simp only [cavity, e, hV j rfl, h.1, h.2.1, before]

theorem ofMoments_sub_zero (m v : ℝ) : ofMoments true m v - ⟨false, 0, 0⟩ = ofMoments true m v := by simp [sub_def, ofMoments]

theorem fwdPair_start (hr : c.Regular) (hα : c.α = 1) (hγ : c.γ = 1) (N : ℕ) {V : ℕ → Vals} {i : ℕ} (hi : V i = start)
    (hV : ∀ j, i = j + 1 → V j = c.filteredVals j) : c.steps N (fwdPair i) V = Function.update V i (c.filteredVals i) := by
  have hc : c.cavity V i = c.before eps i := cavity_eq hr hα fun j hj => by
    rw [hV j hj]; exact ofMoments_sub_zero _ _
  have hF : (0 : ℝ) • (⟨false, 0, 0⟩ : Site) + (1 : ℝ) • ofMoments false (c.predict i (c.before eps i)).1 (c.predict i (c.before eps i)).2 =
      ofMoments false (c.predict i (c.before eps i)).1 (c.predict i (c.before eps i)).2 := by
    simp [smul_def, add_def, ofMoments]
  have h1 : c.fwd i V = Function.update V i ⟨⟨false, eps, 0⟩ + ofMoments false (c.predict i (c.before eps i)).1 (c.predict i (c.before eps i)).2,
      ofMoments false (c.predict i (c.before eps i)).1 (c.predict i (c.before eps i)).2, ⟨false, 0, 0⟩, ⟨false, 0, 0⟩⟩ := by
    simp only [fwd, hc, hi, start, hα, hγ, sub_self, div_one]
    rw [show ((c.τ i).X (c.before eps i).1 (c.before eps i).2) = (c.predict i (c.before eps i)).1 from rfl,
      show ((c.τ i).S (c.before eps i).1 (c.before eps i).2 + c.q) = (c.predict i (c.before eps i)).2 from rfl, hF]
    congr 1
    simp [smul_def, add_def, sub_def, eps]
  have hp := predict_pos hr i (before_pos hr eps_pos.le i)
  have hd := damp_pos eps_pos.le hp
  -- the cavity of the measurement update is the damped prediction
  have hcav : (⟨false, eps, 0⟩ + ofMoments false (c.predict i (c.before eps i)).1 (c.predict i (c.before eps i)).2 : Site) - ⟨false, 0, 0⟩ =
      ⟨false, eps + 1 / (c.predict i (c.before eps i)).2, (c.predict i (c.before eps i)).1 / (c.predict i (c.before eps i)).2⟩ := by
    simp [add_def, sub_def, ofMoments]
  have hread := Site.read ⟨false, eps + 1 / (c.predict i (c.before eps i)).2,
    (c.predict i (c.before eps i)).1 / (c.predict i (c.before eps i)).2⟩ (by simp only [le_add_iff_nonneg_right]; positivity)
  have hm : (⟨false, eps + 1 / (c.predict i (c.before eps i)).2, (c.predict i (c.before eps i)).1 / (c.predict i (c.before eps i)).2⟩ :
      Site).mean = (damp eps (c.predict i (c.before eps i))).1 := by
    rw [hread.1]; simp only [damp]; rw [add_comm eps]
  have hv : (⟨false, eps + 1 / (c.predict i (c.before eps i)).2, (c.predict i (c.before eps i)).1 / (c.predict i (c.before eps i)).2⟩ :
      Site).var = (damp eps (c.predict i (c.before eps i))).2 := by
    rw [hread.2.1]; simp only [damp]; rw [add_comm eps]
  show c.meas i (c.fwd i V) = _
  rw [h1]
  simp only [meas, Function.update_self, hcav, hm, hv, hα, hγ, div_one, Function.update_idem]
  refine congrArg (Function.update V i) ?_
  have hcor : ofMoments true ((damp eps (c.predict i (c.before eps i))).1 +
      c.κ.C (damp eps (c.predict i (c.before eps i))).1 (damp eps (c.predict i (c.before eps i))).2 /
        (c.κ.S (damp eps (c.predict i (c.before eps i))).1 (damp eps (c.predict i (c.before eps i))).2 + c.r) *
      (c.y i - c.κ.X (damp eps (c.predict i (c.before eps i))).1 (damp eps (c.predict i (c.before eps i))).2))
      ((damp eps (c.predict i (c.before eps i))).2 -
      (c.κ.C (damp eps (c.predict i (c.before eps i))).1 (damp eps (c.predict i (c.before eps i))).2 /
        (c.κ.S (damp eps (c.predict i (c.before eps i))).1 (damp eps (c.predict i (c.before eps i))).2 + c.r)) ^ 2 *
        (c.κ.S (damp eps (c.predict i (c.before eps i))).1 (damp eps (c.predict i (c.before eps i))).2 + c.r)) =
      ofMoments true (c.filtered eps i).1 (c.filtered eps i).2 := by
    rw [filtered_eq]; rfl
  rw [hcor]
  simp only [filteredVals, Vals.mk.injEq, true_and, and_true]
  refine ⟨?_, ?_⟩
  · ext <;> simp [add_def, sub_def, smul_def, ofMoments]
  · ext <;> simp [add_def, sub_def, smul_def, ofMoments]

/-- A sweep forward that takes every node from the start to `W i`. -/
theorem forward_sweep_to (c : Chain) (N : ℕ) (W : ℕ → Vals)
    (h : ∀ (V : ℕ → Vals) (i : ℕ), V i = start → (∀ j, i = j + 1 → V j = W j) → c.steps N (fwdPair i) V = Function.update V i (W i)) (k : ℕ) :
    c.steps N ((List.range k).flatMap fwdPair) (fun _ => start) = fun i => if i < k then W i else start := by
  induction k with
  | zero => simp [steps]
  | succ k ih =>
    rw [List.range_succ, List.flatMap_append, steps_append, ih, List.flatMap_singleton,
      h _ _ (by simp) (fun j hj => by rw [if_pos (by omega)])]
    funext i
    by_cases hi : i = k
    · subst hi; simp
    · rw [Function.update_of_ne hi]
      by_cases h2 : i < k
      · rw [if_pos h2, if_pos (by omega)]
      · rw [if_neg h2, if_neg (by omega)]

/-- The forward sweep over the first `k` nodes. -/
theorem forward_sweep (hr : c.Regular) (hα : c.α = 1) (hγ : c.γ = 1) (N k : ℕ) :
    c.steps N ((List.range k).flatMap fwdPair) (fun _ => start) = fun i => if i < k then c.filteredVals i else start :=
  forward_sweep_to c N c.filteredVals (fun _ _ hi hV => fwdPair_start hr hα hγ N hi hV) k

/-! ## The backward sweep -/

/-- Node `i` of `n + 1` nodes after the backward sweep. -/
noncomputable def smoothedVals (c : Chain) (n i : ℕ) : Vals :=
  if i < n then
    { c.filteredVals i with
      M := ofMoments true (c.smoothed eps n i).1 (c.smoothed eps n i).2
      B := ofMoments true (c.smoothed eps n i).1 (c.smoothed eps n i).2 - ofMoments true (c.filtered eps i).1 (c.filtered eps i).2 }
  else c.filteredVals i

theorem smoothedVals_M (c : Chain) {n i : ℕ} (hi : i ≤ n) :
    (c.smoothedVals n i).M = ofMoments true (c.smoothed eps n i).1 (c.smoothed eps n i).2 := by
  unfold smoothedVals
  split_ifs with h
  · rfl
  · obtain rfl : i = n := by omega
    rw [smoothed_last]; rfl

theorem ofMoments_sub_sub (m v m' v' : ℝ) :
    ofMoments true m v - (ofMoments true m v - ofMoments true m' v') = ofMoments true m' v' := by
  ext <;> simp [sub_def, ofMoments]

theorem smoothedVals_cavity (c : Chain) (n i : ℕ) :
    (c.smoothedVals n i).M - (c.smoothedVals n i).B = ofMoments true (c.filtered eps i).1 (c.filtered eps i).2 := by
  unfold smoothedVals
  split_ifs with h
  · exact ofMoments_sub_sub _ _ _ _
  · exact ofMoments_sub_zero _ _

theorem back_projected (hr : c.Regular) (hα : c.α = 1) {V : ℕ → Vals} {n i : ℕ} (hi : i < n)
    (hc : (V i).M - (V i).B = ofMoments true (c.filtered eps i).1 (c.filtered eps i).2)
    (hx : (V (i + 1)).M = ofMoments true (c.smoothed eps n (i + 1)).1 (c.smoothed eps n (i + 1)).2) :
    c.back i V = Function.update V i { V i with
      B := (V i).B + c.γ • (ofMoments true (c.smoothed eps n i).1 (c.smoothed eps n i).2 - (V i).M)
      M := (V i).M + c.γ • (ofMoments true (c.smoothed eps n i).1 (c.smoothed eps n i).2 - (V i).M) } := by
  have h1 := ofMoments_read true (c.filtered eps i).1 (filtered_pos hr eps_pos.le i) (filtered_prec hr eps_pos.le i)
  have h2 := ofMoments_read true (c.smoothed eps n (i + 1)).1 (smoothed_pos hr eps_pos.le (by omega)).1
    (smoothed_prec (n := n) (i := i + 1) hr eps_pos.le (by omega))
  have ht : ∀ x s, c.target i V x s = ofMoments true (c.smoothed eps n (i + 1)).1 (c.smoothed eps n (i + 1)).2 :=
    fun x s => (if_pos hα).trans hx
  simp only [back, hc, h1, ht, h2, hα, div_one, Bool.or_self]
  rw [smoothed_step c eps hi]
  rfl

theorem back_filtered (hr : c.Regular) (hα : c.α = 1) (hγ : c.γ = 1) {V : ℕ → Vals} {n i : ℕ} (hi : i < n)
    (hV : V i = c.filteredVals i) (hx : V (i + 1) = c.smoothedVals n (i + 1)) :
    c.back i V = Function.update V i (c.smoothedVals n i) := by
  rw [back_projected hr hα hi (by rw [hV]; exact ofMoments_sub_zero _ _) (by rw [hx]; exact smoothedVals_M c (by omega)), hV, hγ]
  refine congrArg (Function.update V i) ?_
  simp only [smoothedVals, if_pos hi, filteredVals, Vals.mk.injEq, true_and]
  refine ⟨?_, ?_⟩
  · ext <;> simp [add_def, sub_def, smul_def, ofMoments]
  · ext <;> simp [add_def, sub_def, smul_def, ofMoments]

/-- A sweep backward that takes every node but the last from `W i` to `S i`. -/
theorem backward_sweep_to (c : Chain) {n : ℕ} (W S : ℕ → Vals) (hl : S n = W n)
    (h : ∀ (V : ℕ → Vals) (i : ℕ), i < n → V i = W i → V (i + 1) = S (i + 1) → c.back i V = Function.update V i (S i)) (k : ℕ) (hk : k ≤ n + 1) :
    c.steps (n + 1) ((List.range' (n + 1 - k) k).reverse.map fun i => (Upd.back, i)) (fun i => if i < n + 1 then W i else start) =
      fun i => if i < n + 1 - k then W i else if i < n + 1 then S i else start := by
  induction k with
  | zero =>
    funext i
    simp only [Nat.sub_zero, List.range'_zero, List.reverse_nil, List.map_nil, steps, List.foldl_nil]
    split_ifs <;> rfl
  | succ k ih =>
    have e : List.range' (n + 1 - (k + 1)) (k + 1) = (n - k) :: List.range' (n + 1 - k) k := by
      rw [List.range'_succ]
      congr 1
      · omega
      · congr 1; omega
    rw [e, List.reverse_cons, List.map_append, steps_append, ih (by omega), List.map_singleton]
    have hn : n - k < n + 1 - k := by omega
    simp only [steps, List.foldl_cons, List.foldl_nil, step]
    by_cases h0 : k = 0
    · subst h0
      rw [if_neg (by omega)]
      funext i
      rcases lt_trichotomy i n with h | h | h
      · rw [if_pos (by omega), if_pos (by omega)]
      · subst h; simp [hl]
      · simp only [if_neg (show ¬ i < n + 1 by omega), if_neg (show ¬ i < n + 1 - 0 by omega), if_neg (show ¬ i < n + 1 - (0 + 1) by omega)]
    · rw [if_pos (by omega), h _ _ (by omega) (by rw [if_pos (by omega)])
        (by rw [if_neg (by omega), if_pos (by omega)])]
      funext i
      by_cases hi : i = n - k
      · subst hi; rw [Function.update_self, if_neg (by omega), if_pos (by omega)]
      · rw [Function.update_of_ne hi]
        by_cases h2 : i < n + 1 - k
        · rw [if_pos h2, if_pos (by omega)]
        · rw [if_neg h2, if_neg (by omega : ¬ i < n + 1 - (k + 1))]

/-- A pass. -/
theorem pass_to (c : Chain) {n : ℕ} (W S : ℕ → Vals)
    (hf : ∀ (V : ℕ → Vals) (i : ℕ), V i = start → (∀ j, i = j + 1 → V j = W j) → c.steps (n + 1) (fwdPair i) V = Function.update V i (W i))
    (hl : S n = W n)
    (hb : ∀ (V : ℕ → Vals) (i : ℕ), i < n → V i = W i → V (i + 1) = S (i + 1) → c.back i V = Function.update V i (S i)) :
    c.steps (n + 1) (passCalls (n + 1)) (fun _ => start) = fun i => if i < n + 1 then S i else start := by
  have hf : c.steps (n + 1) ((List.range (n + 1)).flatMap fun i => [(Upd.fwd, i), (Upd.meas, i)]) _ = _ :=
    forward_sweep_to c (n + 1) W hf (n + 1)
  rw [passCalls, steps_append, hf]
  have h := backward_sweep_to c W S hl hb (n + 1) le_rfl
  rw [Nat.sub_self, ← List.range_eq_range'] at h
  rw [h]
  simp

/-- The first pass computes filter and smoother. -/
theorem first_pass (hr : c.Regular) (hα : c.α = 1) (hγ : c.γ = 1) (n : ℕ) :
    c.steps (n + 1) (passCalls (n + 1)) (fun _ => start) = fun i => if i < n + 1 then c.smoothedVals n i else start :=
  pass_to c c.filteredVals (c.smoothedVals n) (fun _ _ hi hV => fwdPair_start hr hα hγ (n + 1) hi hV) (by simp [smoothedVals])
    fun _ _ hi hV hx => back_filtered hr hα hγ hi hV hx

/-! ## Further passes -/

theorem correct_affine (c : Chain) {h b : ℝ} (hκ : c.κ.Affine h b) (hr : 0 < c.r) (i : ℕ) {g : ℝ × ℝ} (hg : 0 < g.2) :
    1 / (c.correct i g).2 = 1 / g.2 + h ^ 2 / c.r ∧ (c.correct i g).1 / (c.correct i g).2 = g.1 / g.2 + h * (c.y i - b) / c.r := by
  obtain ⟨e1, e2, e3⟩ := hκ g.1 g.2 hg
  have hw : 0 < h ^ 2 * g.2 + c.r := by positivity
  have e4 : (c.correct i g).2 = g.2 * c.r / (h ^ 2 * g.2 + c.r) := by
    simp only [correct, e2, e3]; field_simp; ring
  have e5 : (c.correct i g).1 = (g.1 * c.r + h * g.2 * (c.y i - b)) / (h ^ 2 * g.2 + c.r) := by
    simp only [correct, e1, e2, e3]; field_simp; ring
  rw [e4, e5]
  constructor
  · field_simp; ring
  · field_simp

theorem Y_affine (hr : c.Regular) {h b : ℝ} (hκ : c.κ.Affine h b) (i : ℕ) :
    (c.filteredVals i).Y = ⟨true, h ^ 2 / c.r, h * (c.y i - b) / c.r⟩ := by
  have hp := predict_pos hr i (before_pos hr eps_pos.le i)
  have hd := damp_pos eps_pos.le hp
  obtain ⟨h1, h2⟩ := c.correct_affine hκ hr.r i hd.1
  rw [← filtered_eq] at h1 h2
  have e1 : 1 / (damp eps (c.predict i (c.before eps i))).2 = 1 / (c.predict i (c.before eps i)).2 + eps := by
    simp only [damp, one_div_one_div]
  have e2 : (damp eps (c.predict i (c.before eps i))).1 / (damp eps (c.predict i (c.before eps i))).2 =
      (c.predict i (c.before eps i)).1 / (c.predict i (c.before eps i)).2 := by
    have : 0 < 1 / (c.predict i (c.before eps i)).2 + eps := by have := eps_pos; positivity
    simp only [damp]
    rw [div_div_eq_mul_div, div_one, div_mul_cancel₀ _ this.ne']
  simp only [filteredVals]
  ext
  · simp [sub_def, ofMoments, add_def]
  · simp only [sub_def, ofMoments, add_def]; rw [h1, e1]; ring
  · simp only [sub_def, ofMoments, add_def]; rw [h2, e2]; ring

theorem fwd_fixed (hr : c.Regular) (hα : c.α = 1) (hγ : c.γ = 1) {V : ℕ → Vals} {n i : ℕ} (hi : i ≤ n)
    (hV : ∀ j, j ≤ n → V j = c.smoothedVals n j) : c.fwd i V = V := by
  have hc : c.cavity V i = c.before eps i := cavity_eq hr hα fun j hj => by
    rw [hV j (by omega)]; exact smoothedVals_cavity c n j
  have hF : (V i).F = ofMoments false (c.predict i (c.before eps i)).1 (c.predict i (c.before eps i)).2 := by
    rw [hV i hi]; unfold smoothedVals; split_ifs <;> rfl
  have hM : (V i).M.sh = true := by rw [hV i hi, smoothedVals_M c hi]; rfl
  simp only [fwd, hc, hα, hγ, sub_self, div_one]
  rw [show ((c.τ i).X (c.before eps i).1 (c.before eps i).2) = (c.predict i (c.before eps i)).1 from rfl,
    show ((c.τ i).S (c.before eps i).1 (c.before eps i).2 + c.q) = (c.predict i (c.before eps i)).2 from rfl, ← hF]
  have e1 : (0 : ℝ) • (V i).F + (1 : ℝ) • (V i).F = (V i).F := by ext <;> simp [smul_def, add_def]
  have e2 : (V i).M + (1 : ℝ) • ((V i).F - (V i).F) = (V i).M := by ext <;> simp [smul_def, add_def, sub_def, hM]
  rw [e1, e2]
  exact Function.update_eq_self i V

theorem meas_fixed (hr : c.Regular) (hα : c.α = 1) {h b : ℝ} (hκ : c.κ.Affine h b) {V : ℕ → Vals} {n i : ℕ} (hi : i ≤ n)
    (hV : V i = c.smoothedVals n i) : c.meas i V = V := by
  have hY : (V i).Y = ⟨true, h ^ 2 / c.r, h * (c.y i - b) / c.r⟩ := by
    rw [hV, ← Y_affine hr hκ]; unfold smoothedVals; split_ifs <;> rfl
  have hM : (V i).M = ofMoments true (c.smoothed eps n i).1 (c.smoothed eps n i).2 := by rw [hV, smoothedVals_M c hi]
  -- the cavity is at least as precise as the prediction
  have hp := predict_pos hr i (before_pos hr eps_pos.le i)
  have hd := damp_pos eps_pos.le hp
  have h1 := (c.correct_affine hκ hr.r i hd.1).1
  rw [← filtered_eq] at h1
  have h2 : 1 / (c.filtered eps i).2 ≤ 1 / (c.smoothed eps n i).2 :=
    one_div_le_one_div_of_le (smoothed_pos hr eps_pos.le hi).1 (smoothed_pos hr eps_pos.le hi).2
  have hge : eps ≤ ((V i).M - (V i).Y).p := by
    rw [hM, hY]
    simp only [sub_def, ofMoments]
    have := hd.2.2
    linarith
  obtain ⟨r1, r2, -⟩ := Site.read _ hge
  have hpos : 0 < ((V i).M - (V i).Y).p := lt_of_lt_of_le eps_pos hge
  have hvar : 0 < ((V i).M - (V i).Y).var := Site.var_pos _
  obtain ⟨k1, k2⟩ := c.correct_affine hκ hr.r i (g := (((V i).M - (V i).Y).mean, ((V i).M - (V i).Y).var)) hvar
  have k3 : 1 / ((V i).M - (V i).Y).var = ((V i).M - (V i).Y).p := by rw [r2, one_div_one_div]
  have k4 : ((V i).M - (V i).Y).mean / ((V i).M - (V i).Y).var = ((V i).M - (V i).Y).h := by rw [r1, r2]; field_simp
  dsimp only at k1 k2
  rw [k3] at k1
  rw [k4] at k2
  have hproj : ofMoments true (c.correct i (((V i).M - (V i).Y).mean, ((V i).M - (V i).Y).var)).1
      (c.correct i (((V i).M - (V i).Y).mean, ((V i).M - (V i).Y).var)).2 = (V i).M := by
    ext
    · rw [hM]; rfl
    · simp only [ofMoments]; rw [k1, hY]; simp [sub_def]
    · simp only [ofMoments]; rw [k2, hY]; simp [sub_def]
  have hcv : c.meas i V = Function.update V i { V i with
      Y := (V i).Y + c.γ • (ofMoments true (c.correct i (((V i).M - (V i).Y).mean, ((V i).M - (V i).Y).var)).1
        (c.correct i (((V i).M - (V i).Y).mean, ((V i).M - (V i).Y).var)).2 - (V i).M)
      M := (V i).M + (c.γ / c.α) • (ofMoments true (c.correct i (((V i).M - (V i).Y).mean, ((V i).M - (V i).Y).var)).1
        (c.correct i (((V i).M - (V i).Y).mean, ((V i).M - (V i).Y).var)).2 - (V i).M) } := by
    simp only [meas, correct, hα, div_one]
  rw [hcv, hproj]
  have e1 : (V i).Y + c.γ • ((V i).M - (V i).M) = (V i).Y := by ext <;> simp [smul_def, add_def, sub_def, hY]
  have e2 : (V i).M + (c.γ / c.α) • ((V i).M - (V i).M) = (V i).M := by ext <;> simp [smul_def, add_def, sub_def]
  rw [e1, e2]
  exact Function.update_eq_self i V

theorem back_fixed (hr : c.Regular) (hα : c.α = 1) {V : ℕ → Vals} {n i : ℕ} (hi : i < n)
    (hV : ∀ j, j ≤ n → V j = c.smoothedVals n j) : c.back i V = V := by
  rw [back_projected hr hα hi (by rw [hV i hi.le]; exact smoothedVals_cavity c n i)
    (by rw [hV (i + 1) hi]; exact smoothedVals_M c hi)]
  have hM : (V i).M = ofMoments true (c.smoothed eps n i).1 (c.smoothed eps n i).2 := by rw [hV i hi.le, smoothedVals_M c hi.le]
  have hB : (V i).B.sh = true := by rw [hV i hi.le]; simp only [smoothedVals, if_pos hi]; rfl
  rw [← hM]
  have e1 : (V i).B + c.γ • ((V i).M - (V i).M) = (V i).B := by ext <;> simp [smul_def, add_def, sub_def, hB]
  have e2 : (V i).M + c.γ • ((V i).M - (V i).M) = (V i).M := by ext <;> simp [smul_def, add_def, sub_def]
  rw [e1, e2]
  exact Function.update_eq_self i V

/-- For affine measurements every update leaves the result of the first pass as it is. -/
theorem steps_fixed (hr : c.Regular) (hα : c.α = 1) (hγ : c.γ = 1) {h b : ℝ} (hκ : c.κ.Affine h b) {V : ℕ → Vals} {n : ℕ}
    (hV : ∀ j, j ≤ n → V j = c.smoothedVals n j) (calls : List (Upd × ℕ)) (hk : ∀ k ∈ calls, k.2 < n + 1) :
    c.steps (n + 1) calls V = V := by
  induction calls with
  | nil => rfl
  | cons k ks ih =>
    have h1 : c.step (n + 1) k V = V := by
      have hk2 : k.2 < n + 1 := hk k (by simp)
      obtain ⟨u, i⟩ := k
      dsimp only at hk2
      cases u with
      | fwd => exact fwd_fixed hr hα hγ (by omega) hV
      | meas => exact meas_fixed hr hα hκ (by omega) (hV i (by omega))
      | back =>
        simp only [step]
        split_ifs with hl
        · exact back_fixed hr hα (by omega) hV
        · rfl
    show c.steps (n + 1) ks (c.step (n + 1) k V) = V
    rw [h1]
    exact ih fun k hk' => hk k (by simp [hk'])

end Chain

end Verif

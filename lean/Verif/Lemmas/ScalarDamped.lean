import Verif.Lemmas.ScalarPower
import Verif.Lemmas.ScalarLimit
import Mathlib.Analysis.SpecificLimits.Basic

/-! Damped power expectation propagation on scalar affine systems converges. -/

namespace Verif

open Site Filter Topology

/-- A number that moves a fixed part of the way to a convergent target follows it. -/
theorem track {γ : ℝ} (h0 : 0 < γ) (h1 : γ ≤ 1) {x u : ℕ → ℝ} {l : ℝ} (hx : ∀ᶠ k in atTop, x (k + 1) = (1 - γ) * x k + γ * u k)
    (hu : Tendsto u atTop (𝓝 l)) : Tendsto x atTop (𝓝 l) := by
  rw [Metric.tendsto_atTop]
  intro η hη
  obtain ⟨K, hK⟩ := eventually_atTop.1 (hx.and (Metric.tendsto_nhds.1 hu (η / 2) (by positivity)))
  have hρ : 0 ≤ 1 - γ := by linarith
  have hb : ∀ m, |x (K + m) - l| ≤ (1 - γ) ^ m * |x K - l| + η / 2 := by
    intro m
    induction m with
    | zero => rw [pow_zero, one_mul, Nat.add_zero]; linarith
    | succ m ih =>
      obtain ⟨e1, e2⟩ := hK (K + m) (Nat.le_add_right _ _)
      rw [Real.dist_eq] at e2
      rw [← Nat.add_assoc, e1, show (1 - γ) * x (K + m) + γ * u (K + m) - l = (1 - γ) * (x (K + m) - l) + γ * (u (K + m) - l) by ring]
      refine (abs_add_le _ _).trans ?_
      rw [abs_mul, abs_mul, abs_of_nonneg hρ, abs_of_pos h0]
      have k1 := mul_le_mul_of_nonneg_left ih hρ
      have k2 := mul_le_mul_of_nonneg_left e2.le h0.le
      rw [pow_succ]
      nlinarith
  have hp : Tendsto (fun m : ℕ => (1 - γ) ^ m * |x K - l|) atTop (𝓝 (0 * |x K - l|)) :=
    (tendsto_pow_atTop_nhds_zero_of_lt_one hρ (by linarith)).mul_const _
  rw [zero_mul] at hp
  obtain ⟨m0, hm0⟩ := eventually_atTop.1 (Metric.tendsto_nhds.1 hp (η / 2) (by positivity))
  refine ⟨K + m0, fun k hk => ?_⟩
  obtain ⟨m, rfl⟩ : ∃ m, k = K + m := ⟨k - K, by omega⟩
  have h3 := hm0 m (by omega)
  rw [Real.dist_eq, sub_zero, abs_of_nonneg (by positivity)] at h3
  rw [Real.dist_eq]
  linarith [hb m]

/-- Precision and shift converge. -/
def STo (s : ℕ → Site) (l : Site) : Prop :=
  Tendsto (fun k => (s k).p) atTop (𝓝 l.p) ∧ Tendsto (fun k => (s k).h) atTop (𝓝 l.h)

theorem STo.moments {s : ℕ → Site} {l : Site} (h : STo s l) (hs : ∀ k, eps ≤ (s k).p) (hl : eps ≤ l.p) :
    Tendsto (fun k => ((s k).mean, (s k).var)) atTop (𝓝 (l.mean, l.var)) := by
  have hl0 : l.p ≠ 0 := (lt_of_lt_of_le eps_pos hl).ne'
  simp only [(Site.read _ (hs _)).1, (Site.read _ (hs _)).2.1, (Site.read _ hl).1, (Site.read _ hl).2.1]
  exact (h.2.div h.1 hl0).prodMk_nhds (tendsto_const_nhds.div h.1 hl0)

/-- Precision and shift follow a convergent target. -/
theorem track_site {γ : ℝ} (h0 : 0 < γ) (h1 : γ ≤ 1) {x u : ℕ → Site} {l : Site}
    (hp : ∀ᶠ k in atTop, (x (k + 1)).p = (1 - γ) * (x k).p + γ * (u k).p)
    (hh : ∀ᶠ k in atTop, (x (k + 1)).h = (1 - γ) * (x k).h + γ * (u k).h) (hu : STo u l) : STo x l :=
  ⟨track h0 h1 hp hu.1, track h0 h1 hh hu.2⟩

theorem to_of_eq {f : ℕ → ℝ} {a b : ℝ} (h : Tendsto f atTop (𝓝 a)) (e : a = b) : Tendsto f atTop (𝓝 b) := e ▸ h

namespace Chain

variable {c : Chain}

/-- Marginal without the backward factor, in natural parameters. -/
noncomputable def filt (c : Chain) (v : Vals) : Site := ⟨true, eps + (v.F.p + v.Y.p) / c.α, (v.F.h + v.Y.h) / c.α⟩

/-- Marginal without the forward factor, in natural parameters. -/
noncomputable def fut (c : Chain) (v : Vals) : Site := ⟨true, eps + (v.Y.p + v.B.p) / c.α, (v.Y.h + v.B.h) / c.α⟩

/-- The marginal is the product of the factors to the power `1 / α`, and no factor has a negative precision. -/
structure Tidy (c : Chain) (v : Vals) : Prop where
  p : v.M.p = eps + (v.F.p + v.Y.p + v.B.p) / c.α
  h : v.M.h = (v.F.h + v.Y.h + v.B.h) / c.α
  F : 0 ≤ v.F.p
  Y : 0 ≤ v.Y.p
  B : 0 ≤ v.B.p

theorem tidy_start (c : Chain) : c.Tidy start := by
  refine ⟨?_, ?_, le_rfl, le_rfl, le_rfl⟩ <;> simp [start, eps]

theorem mean_congr {a b : Site} (hp : a.p = b.p) (hh : a.h = b.h) : a.mean = b.mean := by simp only [Site.mean, hp, hh]
theorem var_congr {a b : Site} (hp : a.p = b.p) : a.var = b.var := by simp only [Site.var, hp]

/-- Mean and variance on which the forward update of node `i` is based. -/
noncomputable def basis (c : Chain) (V : ℕ → Vals) : ℕ → ℝ × ℝ
  | 0 => (c.m0, c.p0)
  | i + 1 => ((c.filt (V i)).mean, (c.filt (V i)).var)

theorem cavity_basis {V : ℕ → Vals} {i : ℕ} (hV : ∀ j, i = j + 1 → c.Tidy (V j)) : c.cavity V i = c.basis V i := by
  cases i with
  | zero => rfl
  | succ j =>
    have t := hV j rfl
    have hp : ((V j).M - (1 / c.α) • (V j).B).p = (c.filt (V j)).p := by
      simp only [sub_def, smul_def, filt, t.p]; ring
    have hh : ((V j).M - (1 / c.α) • (V j).B).h = (c.filt (V j)).h := by
      simp only [sub_def, smul_def, filt, t.h]; ring
    simp only [cavity, basis, mean_congr hp hh, var_congr hp]

theorem basis_pos (hr : c.Regular) (V : ℕ → Vals) (i : ℕ) : 0 < (c.basis V i).2 := by
  cases i with
  | zero => exact hr.p0
  | succ j => exact Site.var_pos _

/-- The forward update. -/
theorem fwd_tidy (hr : c.Regular) (h0 : 0 < c.γ) (h1 : c.γ ≤ 1) {V : ℕ → Vals} {i : ℕ} (hi : c.Tidy (V i)) (hV : ∀ j, i = j + 1 → c.Tidy (V j)) :
    c.Tidy (c.fwd i V i) ∧ (c.fwd i V i).Y = (V i).Y ∧ (c.fwd i V i).B = (V i).B ∧
      (c.fwd i V i).F.p = (1 - c.γ) * (V i).F.p + c.γ * (c.α * (1 / (c.predict i (c.basis V i)).2)) ∧
      (c.fwd i V i).F.h = (1 - c.γ) * (V i).F.h + c.γ * (c.α * ((c.predict i (c.basis V i)).1 / (c.predict i (c.basis V i)).2)) := by
  have hα := hr.α
  have hpos := predict_pos hr i (basis_pos hr V i)
  have e : c.fwd i V i = { V i with
      F := (1 - c.γ) • (V i).F + c.γ • c.α • ofMoments false (c.predict i (c.basis V i)).1 (c.predict i (c.basis V i)).2
      M := (V i).M + (1 / c.α) • ((1 - c.γ) • (V i).F + c.γ • c.α • ofMoments false (c.predict i (c.basis V i)).1
        (c.predict i (c.basis V i)).2 - (V i).F) } := by
    simp only [fwd, cavity_basis hV, Function.update_self, ofMoments_div]
    rfl
  rw [e]
  refine ⟨⟨?_, ?_, ?_, hi.Y, hi.B⟩, rfl, rfl, rfl, rfl⟩
  · simp only [add_def, sub_def, smul_def, ofMoments, hi.p]; field_simp; ring
  · simp only [add_def, sub_def, smul_def, ofMoments, hi.h]; field_simp; ring
  · simp only [add_def, smul_def, ofMoments]
    have := hi.F
    have : 0 ≤ 1 - c.γ := by linarith
    positivity

/-- The measurement update. -/
theorem meas_tidy (hr : c.Regular) (hα1 : c.α ≤ 1) (h0 : 0 < c.γ) (h1 : c.γ ≤ 1) {h b : ℝ} (hκ : c.κ.Affine h b) {V : ℕ → Vals} {i : ℕ}
    (hi : c.Tidy (V i)) :
    c.Tidy (c.meas i V i) ∧ (c.meas i V i).F = (V i).F ∧ (c.meas i V i).B = (V i).B ∧ (c.meas i V i).M.sh = true ∧
      (c.meas i V i).Y.p = (1 - c.γ) * (V i).Y.p + c.γ * (c.α * (h ^ 2 / c.r)) ∧
      (c.meas i V i).Y.h = (1 - c.γ) * (V i).Y.h + c.γ * (c.α * (h * (c.y i - b) / c.r)) := by
  have hα := hr.α
  have hr0 := hr.r
  have hY : (V i).Y.p ≤ (V i).Y.p / c.α := by
    rw [le_div_iff₀ hα]; exact mul_le_of_le_one_right hi.Y hα1
  have hc : eps ≤ ((V i).M - (V i).Y).p := by
    simp only [sub_def, hi.p, add_div]
    have := div_nonneg hi.F hα.le
    have := div_nonneg hi.B hα.le
    linarith
  obtain ⟨P, hP, e⟩ := meas_affine hα hr0 hκ V i hc
  rw [e, Function.update_self, hP]
  refine ⟨⟨?_, ?_, hi.F, ?_, hi.B⟩, rfl, rfl, ?_, ?_, ?_⟩
  · simp only [add_def, sub_def, smul_def, hi.p]; field_simp; ring
  · simp only [add_def, sub_def, smul_def, hi.h]; field_simp; ring
  · simp only [add_def, sub_def, smul_def]
    have h2 := hi.Y
    have h3 : 0 ≤ 1 - c.γ := by linarith
    have : (V i).Y.p + c.γ * ((V i).M.p - (V i).Y.p + c.α * (h ^ 2 / c.r) - (V i).M.p) = (1 - c.γ) * (V i).Y.p + c.γ * (c.α * (h ^ 2 / c.r)) := by ring
    rw [this]
    positivity
  · simp [add_def, sub_def, smul_def]
  · simp only [add_def, sub_def, smul_def]; ring
  · simp only [add_def, sub_def, smul_def]; ring

/-- The backward update never makes the backward factor negative. -/
theorem back_tidy (hr : c.Regular) (hα1 : c.α < 1) (h0 : 0 < c.γ) (h1 : c.γ ≤ 1) {V : ℕ → Vals} {i : ℕ} (hi : c.Tidy (V i)) (hx : c.Tidy (V (i + 1))) :
    c.Tidy (c.back i V i) ∧ (c.back i V i).F = (V i).F ∧ (c.back i V i).Y = (V i).Y := by
  have hα := hr.α
  have hq : 0 < c.q / c.α := div_pos hr.q hα
  set cav := (V i).M - (V i).B with hcav
  have hB : (V i).B.p ≤ (V i).B.p / c.α := by
    rw [le_div_iff₀ hα]; exact mul_le_of_le_one_right hi.B hα1.le
  have hc : eps ≤ cav.p := by
    simp only [hcav, sub_def, hi.p, add_div]
    have := div_nonneg hi.F hα.le
    have := div_nonneg hi.Y hα.le
    linarith
  have hvar : 0 < cav.var := Site.var_pos _
  set x := (c.τ (i + 1)).X cav.mean cav.var with hxd
  set s := (c.τ (i + 1)).S cav.mean cav.var + c.q / c.α with hs
  have hsp : 0 < s := add_pos_of_nonneg_of_pos (hr.τ (i + 1) cav.mean cav.var hvar).1 hq
  set t := c.target i V x s with htd
  have htp : 1 / s ≤ t.p := by
    have e : t = ofMoments false x s + c.α • ((V (i + 1)).M - (1 / c.α) • (V (i + 1)).F) := if_neg hα1.ne
    rw [e]
    simp only [add_def, sub_def, smul_def, ofMoments, hx.p]
    have k1 : 0 ≤ c.α * (eps + ((V (i + 1)).F.p + (V (i + 1)).Y.p + (V (i + 1)).B.p) / c.α - 1 / c.α * (V (i + 1)).F.p) := by
      refine mul_nonneg hα.le ?_
      have := div_nonneg hx.Y hα.le
      have := div_nonneg hx.B hα.le
      have := eps_pos
      have : (V (i + 1)).F.p / c.α = 1 / c.α * (V (i + 1)).F.p := by ring
      rw [add_div, add_div]
      linarith
    linarith
  have htv : t.var ≤ s := by
    have hinv : 0 < 1 / s := by positivity
    by_cases ht : t.p < 1 / 10 ^ 10
    · have : t.var = 10 ^ 10 := if_pos ht
      rw [this]
      have := htp.trans_lt ht
      rw [one_div_lt_one_div hsp (by positivity)] at this
      exact this.le
    · have : t.var = 1 / t.p := if_neg ht
      rw [this]
      have := one_div_le_one_div_of_le hinv htp
      rwa [one_div_one_div] at this
  set k := (c.τ (i + 1)).C cav.mean cav.var / s with hk
  set v := cav.var + k ^ 2 * (t.var - s) with hv
  have hv0 : 0 < v := (hr.τ (i + 1)).back_pos hvar hq (Site.var_pos t).le
  have hv1 : v ≤ cav.var := by
    have := mul_nonpos_of_nonneg_of_nonpos (sq_nonneg k) (sub_nonpos.2 htv)
    linarith
  have hPp : cav.p ≤ 1 / v := by
    have := one_div_le_one_div_of_le hv0 hv1
    rwa [(Site.read _ hc).2.1, one_div_one_div] at this
  have e : c.back i V i = { V i with
      B := (V i).B + c.γ • (ofMoments (cav.meanSh || t.meanSh) (cav.mean + k * (t.mean - x)) v - (V i).M)
      M := (V i).M + (c.γ / c.α) • (ofMoments (cav.meanSh || t.meanSh) (cav.mean + k * (t.mean - x)) v - (V i).M) } := by
    simp only [back, Function.update_self]
    rfl
  rw [e]
  refine ⟨⟨?_, ?_, hi.F, hi.Y, ?_⟩, rfl, rfl⟩
  · simp only [add_def, sub_def, smul_def, hi.p]; field_simp; ring
  · simp only [add_def, sub_def, smul_def, hi.h]; field_simp; ring
  · simp only [add_def, sub_def, smul_def, ofMoments]
    have e2 : (V i).B.p + c.γ * (1 / v - (V i).M.p) = (1 - c.γ) * (V i).B.p + c.γ * (1 / v - cav.p) := by
      simp only [hcav, sub_def]; ring
    rw [e2]
    have := hi.B
    have h3 : 0 ≤ 1 - c.γ := by linarith
    have h4 : 0 ≤ 1 / v - cav.p := by linarith
    positivity

/-- The backward update of an affine transition, when the target is above the threshold. -/
theorem back_message (hr : c.Regular) (hα1 : c.α < 1) {A b : ℝ} {V : ℕ → Vals} {i : ℕ} (hτ : (c.τ (i + 1)).Affine A b) (hi : c.Tidy (V i))
    (hx : c.Tidy (V (i + 1))) (hsh : (V i).M.sh = true)
    (ht : eps ≤ 1 / (A ^ 2 / (c.filt (V i)).p + c.q / c.α) + c.α * (c.fut (V (i + 1))).p) :
    (c.back i V i).B.p = (1 - c.γ) * (V i).B.p + c.γ * (c.α * (A ^ 2 * (c.fut (V (i + 1))).p / (c.q * (c.fut (V (i + 1))).p + 1))) ∧
    (c.back i V i).B.h = (1 - c.γ) * (V i).B.h +
      c.γ * (c.α * (A * ((c.fut (V (i + 1))).h - b * (c.fut (V (i + 1))).p) / (c.q * (c.fut (V (i + 1))).p + 1))) := by
  have hα := hr.α
  have hq := hr.q
  have hB : (V i).B.p ≤ (V i).B.p / c.α := by
    rw [le_div_iff₀ hα]; exact mul_le_of_le_one_right hi.B hα1.le
  have hge : (c.filt (V i)).p ≤ ((V i).M - (V i).B).p := by
    simp only [sub_def, hi.p, filt, add_div]
    linarith
  have hf : eps ≤ (c.filt (V i)).p := by
    simp only [filt]
    have := div_nonneg (add_nonneg hi.F hi.Y) hα.le
    linarith
  have hf0 : 0 < (c.filt (V i)).p := eps_pos.trans_le hf
  have hUp : ((V (i + 1)).M - (1 / c.α) • (V (i + 1)).F).p = (c.fut (V (i + 1))).p := by
    simp only [sub_def, smul_def, fut, hx.p]; ring
  have hUh : ((V (i + 1)).M - (1 / c.α) • (V (i + 1)).F).h = (c.fut (V (i + 1))).h := by
    simp only [sub_def, smul_def, fut, hx.h]; ring
  have hU0 : 0 ≤ (c.fut (V (i + 1))).p := by
    simp only [fut]
    have := div_nonneg (add_nonneg hx.Y hx.B) hα.le
    have := eps_pos
    linarith
  obtain ⟨P, hP, e⟩ := back_affine hα hα1.ne hq hτ V (hf.trans hge) (by simp [sub_def, hsh]) _ rfl (by rw [hUp]; exact hU0) (by
    rw [hUp]
    refine ht.trans (add_le_add_left ?_ _)
    have hp0 := hf0.trans_le hge
    have h1 : A ^ 2 / ((V i).M - (V i).B).p ≤ A ^ 2 / (c.filt (V i)).p := div_le_div_of_nonneg_left (sq_nonneg A) hf0 hge
    exact one_div_le_one_div_of_le (by positivity) (by linarith))
  rw [e, Function.update_self, hP, hUp, hUh]
  constructor
  · simp only [add_def, sub_def, smul_def]; ring
  · simp only [add_def, sub_def, smul_def]; ring

/-! ## The parts of a pass -/

theorem forward_parts (c : Chain) (N k : ℕ) (V : ℕ → Vals) :
    (∀ i, k ≤ i → c.steps N ((List.range k).flatMap fwdPair) V i = V i) ∧
    ∀ i, i < k → ∃ X : ℕ → Vals, X i = V i ∧ (∀ j, i = j + 1 → X j = c.steps N ((List.range k).flatMap fwdPair) V j) ∧
      c.steps N ((List.range k).flatMap fwdPair) V i = c.meas i (c.fwd i X) i := by
  induction k with
  | zero => exact ⟨fun _ _ => rfl, fun i hi => absurd hi (Nat.not_lt_zero i)⟩
  | succ k ih =>
    obtain ⟨a1, a2⟩ := ih
    set W := c.steps N ((List.range k).flatMap fwdPair) V with hW
    have e : c.steps N ((List.range (k + 1)).flatMap fwdPair) V = c.meas k (c.fwd k W) := by
      rw [List.range_succ, List.flatMap_append, steps_append, List.flatMap_singleton]
      rfl
    rw [e]
    have hne : ∀ i, i ≠ k → c.meas k (c.fwd k W) i = W i := fun i hi => by
      simp only [meas, fwd, Function.update_of_ne hi]
    refine ⟨fun i hi => by rw [hne i (by omega)]; exact a1 i (by omega), fun i hi => ?_⟩
    by_cases hik : i = k
    · subst hik
      exact ⟨W, a1 i le_rfl, fun j hj => (hne j (by omega)).symm, rfl⟩
    · obtain ⟨X, x1, x2, x3⟩ := a2 i (by omega)
      exact ⟨X, x1, fun j hj => by rw [hne j (by omega)]; exact x2 j hj, by rw [hne i hik]; exact x3⟩

theorem backward_parts (c : Chain) (n : ℕ) (V : ℕ → Vals) (k : ℕ) (hk : k ≤ n + 1) :
    (∀ i, i < n + 1 - k ∨ n ≤ i → c.steps (n + 1) ((List.range' (n + 1 - k) k).reverse.map fun i => (Upd.back, i)) V i = V i) ∧
    ∀ i, n + 1 - k ≤ i → i < n → ∃ X : ℕ → Vals, X i = V i ∧
      X (i + 1) = c.steps (n + 1) ((List.range' (n + 1 - k) k).reverse.map fun i => (Upd.back, i)) V (i + 1) ∧
      c.steps (n + 1) ((List.range' (n + 1 - k) k).reverse.map fun i => (Upd.back, i)) V i = c.back i X i := by
  induction k with
  | zero => exact ⟨fun _ _ => rfl, fun i h1 h2 => by omega⟩
  | succ k ih =>
    obtain ⟨a1, a2⟩ := ih (by omega)
    set W := c.steps (n + 1) ((List.range' (n + 1 - k) k).reverse.map fun i => (Upd.back, i)) V with hW
    have el : List.range' (n + 1 - (k + 1)) (k + 1) = (n - k) :: List.range' (n + 1 - k) k := by
      rw [List.range'_succ]
      congr 1
      · omega
      · congr 1; omega
    have e : c.steps (n + 1) ((List.range' (n + 1 - (k + 1)) (k + 1)).reverse.map fun i => (Upd.back, i)) V =
        if n - k + 1 < n + 1 then c.back (n - k) W else W := by
      rw [el, List.reverse_cons, List.map_append, steps_append, List.map_singleton]
      rfl
    rw [e]
    by_cases h0 : k = 0
    · subst h0
      rw [if_neg (by omega)]
      exact ⟨fun i hi => a1 i (by omega), fun i h1 h2 => by omega⟩
    rw [if_pos (by omega)]
    have hne : ∀ i, i ≠ n - k → c.back (n - k) W i = W i := fun i hi => by simp only [back, Function.update_of_ne hi]
    refine ⟨fun i hi => by rw [hne i (by omega)]; exact a1 i (by omega), fun i h1 h2 => ?_⟩
    by_cases hik : i = n - k
    · subst hik
      exact ⟨W, a1 _ (by omega), (hne _ (by omega)).symm, rfl⟩
    · obtain ⟨X, x1, x2, x3⟩ := a2 i (by omega) h2
      exact ⟨X, x1, by rw [hne _ (by omega)]; exact x2, by rw [hne i hik]; exact x3⟩

/-- What a pass does to tidy nodes. -/
structure Passed (c : Chain) (n : ℕ) (h b : ℝ) (V W : ℕ → Vals) : Prop where
  tidy : ∀ i, c.Tidy (W i)
  Fp : ∀ i, i ≤ n → (W i).F.p = (1 - c.γ) * (V i).F.p + c.γ * (c.α * (1 / (c.predict i (c.basis W i)).2))
  Fh : ∀ i, i ≤ n → (W i).F.h = (1 - c.γ) * (V i).F.h + c.γ * (c.α * ((c.predict i (c.basis W i)).1 / (c.predict i (c.basis W i)).2))
  Yp : ∀ i, i ≤ n → (W i).Y.p = (1 - c.γ) * (V i).Y.p + c.γ * (c.α * (h ^ 2 / c.r))
  Yh : ∀ i, i ≤ n → (W i).Y.h = (1 - c.γ) * (V i).Y.h + c.γ * (c.α * (h * (c.y i - b) / c.r))
  last : (W n).B = (V n).B
  B : ∀ i, i < n → ∀ A d : ℝ, (c.τ (i + 1)).Affine A d →
    eps ≤ 1 / (A ^ 2 / (c.filt (W i)).p + c.q / c.α) + c.α * (c.fut (W (i + 1))).p →
    (W i).B.p = (1 - c.γ) * (V i).B.p + c.γ * (c.α * (A ^ 2 * (c.fut (W (i + 1))).p / (c.q * (c.fut (W (i + 1))).p + 1))) ∧
    (W i).B.h = (1 - c.γ) * (V i).B.h +
      c.γ * (c.α * (A * ((c.fut (W (i + 1))).h - d * (c.fut (W (i + 1))).p) / (c.q * (c.fut (W (i + 1))).p + 1)))

theorem filt_congr {v w : Vals} (hF : v.F = w.F) (hY : v.Y = w.Y) : c.filt v = c.filt w := by simp only [filt, hF, hY]

theorem basis_congr {V W : ℕ → Vals} {i : ℕ} (h : ∀ j, i = j + 1 → (V j).F = (W j).F ∧ (V j).Y = (W j).Y) : c.basis V i = c.basis W i := by
  cases i with
  | zero => rfl
  | succ j => simp only [basis, filt_congr (h j rfl).1 (h j rfl).2]

/-- What the forward sweep does to tidy nodes, for powers of at most one. -/
theorem forwarded (hr : c.Regular) (hα1 : c.α ≤ 1) (h0 : 0 < c.γ) (h1 : c.γ ≤ 1) {h b : ℝ} (hκ : c.κ.Affine h b) {V : ℕ → Vals} (n : ℕ)
    (hV : ∀ i, c.Tidy (V i)) {U : ℕ → Vals} (hU : U = c.steps (n + 1) ((List.range (n + 1)).flatMap fwdPair) V) :
    (∀ i, c.Tidy (U i)) ∧ ∀ i, i ≤ n → (U i).M.sh = true ∧ (U i).B = (V i).B ∧
      (U i).F.p = (1 - c.γ) * (V i).F.p + c.γ * (c.α * (1 / (c.predict i (c.basis U i)).2)) ∧
      (U i).F.h = (1 - c.γ) * (V i).F.h + c.γ * (c.α * ((c.predict i (c.basis U i)).1 / (c.predict i (c.basis U i)).2)) ∧
      (U i).Y.p = (1 - c.γ) * (V i).Y.p + c.γ * (c.α * (h ^ 2 / c.r)) ∧
      (U i).Y.h = (1 - c.γ) * (V i).Y.h + c.γ * (c.α * (h * (c.y i - b) / c.r)) := by
  obtain ⟨f1, f2⟩ := forward_parts c (n + 1) (n + 1) V
  rw [← hU] at f1 f2
  have fw : ∀ i, i ≤ n → c.Tidy (U i) := by
    intro i
    induction i with
    | zero =>
      intro hi
      obtain ⟨X, x1, -, x3⟩ := f2 0 (by omega)
      rw [x3]
      exact (meas_tidy hr hα1 h0 h1 hκ (fwd_tidy hr h0 h1 (by rw [x1]; exact hV 0) (fun j hj => by omega)).1).1
    | succ i ih =>
      intro hi
      obtain ⟨X, x1, x2, x3⟩ := f2 (i + 1) (by omega)
      rw [x3]
      refine (meas_tidy hr hα1 h0 h1 hκ (fwd_tidy hr h0 h1 (by rw [x1]; exact hV _) (fun j hj => ?_)).1).1
      obtain rfl : i = j := by omega
      rw [x2 i rfl]
      exact ih (by omega)
  have ut : ∀ i, c.Tidy (U i) := fun i => if hi : i ≤ n then fw i hi else by rw [f1 i (by omega)]; exact hV i
  refine ⟨ut, fun i hi => ?_⟩
  obtain ⟨X, x1, x2, x3⟩ := f2 i (by omega)
  obtain ⟨t1, t2, t3, t4, t5⟩ := fwd_tidy hr h0 h1 (V := X) (i := i) (by rw [x1]; exact hV i) (fun j hj => by rw [x2 j hj]; exact ut j)
  obtain ⟨m1, m2, m3, m4, m5, m6⟩ := meas_tidy hr hα1 h0 h1 hκ t1
  have hb : c.basis X i = c.basis U i := basis_congr fun j hj => by rw [x2 j hj]; exact ⟨rfl, rfl⟩
  rw [x3, m2, m3, m4, m5, m6, t2, t3, t4, t5, x1, hb]
  exact ⟨rfl, rfl, rfl, rfl, rfl, rfl⟩

theorem passed (hr : c.Regular) (hα1 : c.α < 1) (h0 : 0 < c.γ) (h1 : c.γ ≤ 1) {h b : ℝ} (hκ : c.κ.Affine h b) {V : ℕ → Vals} (n : ℕ)
    (hV : ∀ i, c.Tidy (V i)) : c.Passed n h b V (c.steps (n + 1) (passCalls (n + 1)) V) := by
  set U := c.steps (n + 1) ((List.range (n + 1)).flatMap fwdPair) V with hU
  obtain ⟨b1, b2⟩ := backward_parts c n U (n + 1) le_rfl
  have hW : c.steps (n + 1) (passCalls (n + 1)) V = c.steps (n + 1) ((List.range' (n + 1 - (n + 1)) (n + 1)).reverse.map fun i => (Upd.back, i)) U := by
    rw [passCalls, steps_append, Nat.sub_self, ← List.range_eq_range']
    rfl
  rw [hW]
  set W := c.steps (n + 1) ((List.range' (n + 1 - (n + 1)) (n + 1)).reverse.map fun i => (Upd.back, i)) U with hWd
  obtain ⟨ut, fe⟩ := forwarded hr hα1.le h0 h1 hκ n hV hU
  -- backward
  have bt : ∀ k i, n - i = k → c.Tidy (W i) ∧ (W i).F = (U i).F ∧ (W i).Y = (U i).Y := by
    intro k
    induction k with
    | zero => intro i hi; rw [b1 i (.inr (by omega))]; exact ⟨ut i, rfl, rfl⟩
    | succ k ih =>
      intro i hi
      obtain ⟨X, x1, x2, x3⟩ := b2 i (by omega) (by omega)
      have t := back_tidy hr hα1 h0 h1 (V := X) (i := i) (by rw [x1]; exact ut i) (by rw [x2]; exact (ih (i + 1) (by omega)).1)
      rw [← x3, x1] at t
      exact t
  have hF : ∀ i, (W i).F = (U i).F := fun i => (bt _ i rfl).2.1
  have hY : ∀ i, (W i).Y = (U i).Y := fun i => (bt _ i rfl).2.2
  have hb : ∀ i, c.basis U i = c.basis W i := fun i => basis_congr fun j _ => ⟨(hF j).symm, (hY j).symm⟩
  refine ⟨fun i => (bt _ i rfl).1, fun i hi => ?_, fun i hi => ?_, fun i hi => ?_, fun i hi => ?_, ?_, fun i hi A d hτ ht => ?_⟩
  · rw [hF, ← hb]; exact (fe i hi).2.2.1
  · rw [hF, ← hb]; exact (fe i hi).2.2.2.1
  · rw [hY]; exact (fe i hi).2.2.2.2.1
  · rw [hY]; exact (fe i hi).2.2.2.2.2
  · rw [b1 n (.inr le_rfl)]; exact (fe n le_rfl).2.1
  · obtain ⟨X, x1, x2, x3⟩ := b2 i (by omega) hi
    have hfl : c.filt (X i) = c.filt (W i) := by rw [x1]; exact filt_congr (hF i).symm (hY i).symm
    have t := back_message hr hα1 (V := X) (i := i) hτ (by rw [x1]; exact ut i) (by rw [x2]; exact (bt _ _ rfl).1)
      (by rw [x1]; exact (fe i hi.le).1) (by rw [hfl, x2]; exact ht)
    rw [← x3, x1, x2, (fe i hi.le).2.1] at t
    exact t

/-! ## The limit of the passes -/

section limit

variable {n : ℕ} {h b : ℝ}

/-- The nodes after `k` passes. -/
noncomputable def after (c : Chain) (n k : ℕ) : ℕ → Vals := (c.steps (n + 1) (passCalls (n + 1)))^[k] (fun _ => start)

theorem after_tidy (hr : c.Regular) (hα1 : c.α < 1) (h0 : 0 < c.γ) (h1 : c.γ ≤ 1) (hκ : c.κ.Affine h b) (n k : ℕ) (i : ℕ) :
    c.Tidy (c.after n k i) := by
  induction k generalizing i with
  | zero => exact tidy_start c
  | succ k ih =>
    rw [after, Function.iterate_succ_apply']
    exact (passed hr hα1 h0 h1 hκ n ih).tidy i

theorem after_passed (hr : c.Regular) (hα1 : c.α < 1) (h0 : 0 < c.γ) (h1 : c.γ ≤ 1) (hκ : c.κ.Affine h b) (n k : ℕ) :
    c.Passed n h b (c.after n k) (c.after n (k + 1)) := by
  have := passed hr hα1 h0 h1 hκ n (after_tidy hr hα1 h0 h1 hκ n k)
  rw [after, after, Function.iterate_succ_apply']
  exact this

/-- The measurement factor after `k` passes is the likelihood to a power. -/
theorem after_Y (hr : c.Regular) (hα1 : c.α < 1) (h0 : 0 < c.γ) (h1 : c.γ ≤ 1) (hκ : c.κ.Affine h b) (k : ℕ) {i : ℕ} (hi : i ≤ n) :
    (c.after n k i).Y.p = (1 - (1 - c.γ) ^ k) * (c.α * (h ^ 2 / c.r)) ∧
    (c.after n k i).Y.h = (1 - (1 - c.γ) ^ k) * (c.α * (h * (c.y i - b) / c.r)) := by
  induction k with
  | zero => simp [after, start]
  | succ k ih =>
    have t := after_passed hr hα1 h0 h1 hκ n k
    rw [t.Yp i hi, t.Yh i hi, ih.1, ih.2, pow_succ]
    constructor <;> ring

theorem after_Y_to (hr : c.Regular) (hα1 : c.α < 1) (h0 : 0 < c.γ) (h1 : c.γ ≤ 1) (hκ : c.κ.Affine h b) {i : ℕ} (hi : i ≤ n) :
    STo (fun k => (c.after n k i).Y) ⟨true, c.α * (h ^ 2 / c.r), c.α * (h * (c.y i - b) / c.r)⟩ :=
  track_site h0 h1 (u := fun _ => ⟨true, c.α * (h ^ 2 / c.r), c.α * (h * (c.y i - b) / c.r)⟩)
    (.of_forall fun k => (after_passed hr hα1 h0 h1 hκ n k).Yp i hi)
    (.of_forall fun k => (after_passed hr hα1 h0 h1 hκ n k).Yh i hi) ⟨tendsto_const_nhds, tendsto_const_nhds⟩

theorem filt_prec (hr : c.Regular) {v : Vals} (t : c.Tidy v) : eps ≤ (c.filt v).p := by
  have := div_nonneg (add_nonneg t.F t.Y) hr.α.le
  simp only [filt]
  linarith

theorem fut_prec (hr : c.Regular) {v : Vals} (t : c.Tidy v) : eps ≤ (c.fut v).p := by
  have := div_nonneg (add_nonneg t.Y t.B) hr.α.le
  simp only [fut]
  linarith

theorem predict_to {f : ℕ → ℝ × ℝ} {l : ℝ × ℝ} (hf : Tendsto f atTop (𝓝 l)) (hl : 0 < l.2) {i : ℕ} (hτ : (c.τ i).Continuous) :
    Tendsto (fun k => c.predict i (f k)) atTop (𝓝 (c.predict i l)) := by
  have hn : {g : ℝ × ℝ | 0 < g.2} ∈ 𝓝 l := (isOpen_lt continuous_const continuous_snd).mem_nhds hl
  exact ((hτ.X.continuousAt hn).tendsto.comp hf).prodMk_nhds (((hτ.S.continuousAt hn).tendsto.comp hf).add tendsto_const_nhds)

/-- The forward factors converge to the predictions of the filter. -/
theorem after_F_to (hr : c.Regular) (hα1 : c.α < 1) (h0 : 0 < c.γ) (h1 : c.γ ≤ 1) (hκ : c.κ.Affine h b) (hτ : ∀ i, (c.τ i).Continuous) {i : ℕ}
    (hi : i ≤ n) :
    STo (fun k => (c.after n k i).F) (c.α • (c.filteredVals i).F) ∧ STo (fun k => c.filt (c.after n k i)) (c.filteredVals i).M := by
  have hα := hr.α
  have step : ∀ i, i ≤ n → Tendsto (fun k => c.basis (c.after n (k + 1)) i) atTop (𝓝 (c.before eps i)) →
      STo (fun k => (c.after n k i).F) (c.α • (c.filteredVals i).F) ∧ STo (fun k => c.filt (c.after n k i)) (c.filteredVals i).M := by
    intro i hi hb
    have hp := predict_to hb (before_pos hr eps_pos.le i) (hτ i)
    have hpos := predict_pos hr i (before_pos hr eps_pos.le i)
    have p1 := (continuous_fst.tendsto _).comp hp
    have p2 := (continuous_snd.tendsto _).comp hp
    have hF : STo (fun k => (c.after n k i).F) (c.α • (c.filteredVals i).F) := by
      refine track_site h0 h1 (u := fun k => c.α • ofMoments false (c.predict i (c.basis (c.after n (k + 1)) i)).1
        (c.predict i (c.basis (c.after n (k + 1)) i)).2)
        (.of_forall fun k => (after_passed hr hα1 h0 h1 hκ n k).Fp i hi)
        (.of_forall fun k => (after_passed hr hα1 h0 h1 hκ n k).Fh i hi) ⟨?_, ?_⟩
      · exact (tendsto_const_nhds.div p2 hpos.ne').const_mul c.α
      · exact (p1.div p2 hpos.ne').const_mul c.α
    have hY := after_Y_to hr hα1 h0 h1 hκ hi
    refine ⟨hF, ?_, ?_⟩
    · have := (((hF.1.add hY.1).div_const c.α).const_add eps)
      rw [filteredVals_M hr hκ]
      refine to_of_eq this ?_
      simp only [smul_def, filteredVals, ofMoments]; field_simp; ring
    · have := ((hF.2.add hY.2).div_const c.α)
      rw [filteredVals_M hr hκ]
      refine to_of_eq this ?_
      simp only [smul_def, filteredVals, ofMoments]; field_simp
  induction i with
  | zero => exact step 0 hi tendsto_const_nhds
  | succ i ih =>
    refine step (i + 1) hi ?_
    have hM := (ih (by omega)).2
    have hrd := ofMoments_read true (c.filtered eps i).1 (filtered_pos hr eps_pos.le i) (filtered_prec hr eps_pos.le i)
    have := hM.moments (fun k => filt_prec hr (after_tidy hr hα1 h0 h1 hκ n k i)) (filtered_prec hr eps_pos.le i)
    rw [show (c.filteredVals i).M = ofMoments true (c.filtered eps i).1 (c.filtered eps i).2 from rfl, hrd.1, hrd.2.1] at this
    exact (tendsto_add_atTop_iff_nat (f := fun k => c.basis (c.after n k) (i + 1)) 1).2 this

theorem Affine.continuous {τ : Rule} {A d : ℝ} (hτ : τ.Affine A d) : τ.Continuous := by
  refine ⟨?_, ?_, ?_⟩
  · exact ContinuousOn.congr (f := fun g : ℝ × ℝ => A * g.1 + d) (by fun_prop) fun g hg => (hτ g.1 g.2 hg).1
  · exact ContinuousOn.congr (f := fun g : ℝ × ℝ => A ^ 2 * g.2) (by fun_prop) fun g hg => (hτ g.1 g.2 hg).2.1
  · exact ContinuousOn.congr (f := fun g : ℝ × ℝ => A * g.2) (by fun_prop) fun g hg => (hτ g.1 g.2 hg).2.2

/-- The marginal is the product of what came before and what comes after. -/
theorem tidy_split {v : Vals} (t : c.Tidy v) : v.M.p = (c.filt v).p + v.B.p / c.α ∧ v.M.h = (c.filt v).h + v.B.h / c.α := by
  constructor
  · rw [t.p]; simp only [filt]; ring
  · rw [t.h]; simp only [filt]; ring

theorem marginal_to (hr : c.Regular) (hα1 : c.α < 1) (h0 : 0 < c.γ) (h1 : c.γ ≤ 1) (hκ : c.κ.Affine h b) (hτ : ∀ i, (c.τ i).Continuous) {i : ℕ}
    (hi : i ≤ n) (hB : STo (fun k => (c.after n k i).B) (c.α • (c.smoothedVals n i).B)) :
    STo (fun k => (c.after n k i).M) (c.smoothedVals n i).M := by
  have hα := hr.α
  have hf := (after_F_to hr hα1 h0 h1 hκ hτ hi).2
  rw [smoothedVals_split]
  constructor
  · simp only [(tidy_split (after_tidy hr hα1 h0 h1 hκ n _ i)).1]
    refine to_of_eq (hf.1.add (hB.1.div_const c.α)) ?_
    simp only [smul_def, add_def]; field_simp
  · simp only [(tidy_split (after_tidy hr hα1 h0 h1 hκ n _ i)).2]
    refine to_of_eq (hf.2.add (hB.2.div_const c.α)) ?_
    simp only [smul_def, add_def]; field_simp

theorem fut_to (hr : c.Regular) (hα1 : c.α < 1) (h0 : 0 < c.γ) (h1 : c.γ ≤ 1) (hκ : c.κ.Affine h b) {i : ℕ}
    (hi : i ≤ n) (hB : STo (fun k => (c.after n k i).B) (c.α • (c.smoothedVals n i).B)) :
    STo (fun k => c.fut (c.after n k i)) (c.future n i) := by
  have hα := hr.α
  have hY := after_Y_to hr hα1 h0 h1 hκ hi
  rw [future, smoothedVals_split, smoothedVals_F, filteredVals_M hr hκ]
  constructor
  · refine to_of_eq (((hY.1.add hB.1).div_const c.α).const_add eps) ?_
    simp only [smul_def, add_def, sub_def, filteredVals, ofMoments]
    rw [← mul_add, mul_div_cancel_left₀ _ hα.ne']
    ring
  · refine to_of_eq ((hY.2.add hB.2).div_const c.α) ?_
    simp only [smul_def, add_def, sub_def, filteredVals, ofMoments]
    rw [← mul_add, mul_div_cancel_left₀ _ hα.ne']
    ring

/-- The last backward factor stays empty. -/
theorem after_B_last (hr : c.Regular) (hα1 : c.α < 1) (h0 : 0 < c.γ) (h1 : c.γ ≤ 1) (hκ : c.κ.Affine h b) (n k : ℕ) :
    (c.after n k n).B = ⟨false, 0, 0⟩ := by
  induction k with
  | zero => rfl
  | succ k ih => rw [(after_passed hr hα1 h0 h1 hκ n k).last, ih]

theorem after_B_last_to (hr : c.Regular) (hα1 : c.α < 1) (h0 : 0 < c.γ) (h1 : c.γ ≤ 1) (hκ : c.κ.Affine h b) (n : ℕ) :
    STo (fun k => (c.after n k n).B) (c.α • (c.smoothedVals n n).B) := by
  have e : (c.smoothedVals n n).B = ⟨false, 0, 0⟩ := by simp [smoothedVals, filteredVals]
  simp only [after_B_last hr hα1 h0 h1 hκ, e, smul_def, mul_zero]
  exact ⟨tendsto_const_nhds, tendsto_const_nhds⟩

/-- The backward factors converge to those of the smoother. -/
theorem after_B_to (hr : c.Regular) (hα1 : c.α < 1) (h0 : 0 < c.γ) (h1 : c.γ ≤ 1) (hκ : c.κ.Affine h b) {A d : ℕ → ℝ}
    (hτ : ∀ i, (c.τ i).Affine (A i) (d i))
    (ht : ∀ i, i < n → eps * (1 - c.α) < 1 / (A (i + 1) ^ 2 * (c.filtered eps i).2 + c.q / c.α)) {i : ℕ} (hi : i ≤ n) :
    STo (fun k => (c.after n k i).B) (c.α • (c.smoothedVals n i).B) := by
  have hα := hr.α
  have hq := hr.q
  have hc : ∀ i, (c.τ i).Continuous := fun i => Affine.continuous (hτ i)
  obtain ⟨m, rfl⟩ : ∃ m, n = i + m := ⟨n - i, by omega⟩
  generalize hn : i + m = n at *
  induction m generalizing i with
  | zero =>
    obtain rfl : i = n := by omega
    exact after_B_last_to hr hα1 h0 h1 hκ i
  | succ m ih =>
    have hin : i < n := by omega
    have hU := fut_to hr hα1 h0 h1 hκ hin (ih (i := i + 1) (by omega) hin)
    have hfu := future_prec hr hin
    have hfu0 : 0 < (c.future n (i + 1)).p := eps_pos.trans_le hfu
    have hF := (after_F_to hr hα1 h0 h1 hκ hc hi).2.1
    have hf := filtered_pos hr eps_pos.le i
    have hne : c.q * (c.future n (i + 1)).p + 1 ≠ 0 := by positivity
    -- eventually above the threshold
    have hev : ∀ᶠ k in atTop, eps ≤ 1 / (A (i + 1) ^ 2 / (c.filt (c.after n (k + 1) i)).p + c.q / c.α) +
        c.α * (c.fut (c.after n (k + 1) (i + 1))).p := by
      have hMp : (c.filteredVals i).M.p = 1 / (c.filtered eps i).2 := rfl
      rw [hMp] at hF
      have l1 : Tendsto (fun k => 1 / (A (i + 1) ^ 2 / (c.filt (c.after n k i)).p + c.q / c.α)) atTop
          (𝓝 (1 / (A (i + 1) ^ 2 / (1 / (c.filtered eps i).2) + c.q / c.α))) :=
        tendsto_const_nhds.div ((tendsto_const_nhds.div hF (by positivity)).add tendsto_const_nhds) (by positivity)
      rw [div_div_eq_mul_div, div_one] at l1
      have l2 := (l1.eventually (lt_mem_nhds (ht i hin)))
      refine ((tendsto_add_atTop_nat 1).eventually l2).mono fun k hk => ?_
      have := mul_le_mul_of_nonneg_left (fut_prec hr (after_tidy hr hα1 h0 h1 hκ n (k + 1) (i + 1))) hα.le
      nlinarith
    have u1 := (tendsto_add_atTop_iff_nat (f := fun k => (c.fut (c.after n k (i + 1))).p) 1).2 hU.1
    have u2 := (tendsto_add_atTop_iff_nat (f := fun k => (c.fut (c.after n k (i + 1))).h) 1).2 hU.2
    have hden := (u1.const_mul c.q).add_const 1
    refine track_site h0 h1 (u := fun k => c.α • ⟨true,
        A (i + 1) ^ 2 * (c.fut (c.after n (k + 1) (i + 1))).p / (c.q * (c.fut (c.after n (k + 1) (i + 1))).p + 1),
        A (i + 1) * ((c.fut (c.after n (k + 1) (i + 1))).h - d (i + 1) * (c.fut (c.after n (k + 1) (i + 1))).p) /
          (c.q * (c.fut (c.after n (k + 1) (i + 1))).p + 1)⟩)
      (hev.mono fun k hk => ((after_passed hr hα1 h0 h1 hκ n k).B i hin _ _ (hτ (i + 1)) hk).1)
      (hev.mono fun k hk => ((after_passed hr hα1 h0 h1 hκ n k).B i hin _ _ (hτ (i + 1)) hk).2) ?_
    rw [smoothedVals_B hr hin (hτ (i + 1))]
    exact ⟨((u1.const_mul _).div hden hne).const_mul _, (((u2.sub (u1.const_mul _)).const_mul _).div hden hne).const_mul _⟩

theorem estimates_to (hr : c.Regular) (hα1 : c.α < 1) (h0 : 0 < c.γ) (h1 : c.γ ≤ 1) (hκ : c.κ.Affine h b) {i : ℕ} (hi : i ≤ n)
    (hM : STo (fun k => (c.after n k i).M) (c.smoothedVals n i).M) :
    Tendsto (fun k => c.estimates (n + 1) k i) atTop (𝓝 (c.smoothed eps n i)) := by
  have hprec : ∀ k, eps ≤ (c.after n k i).M.p := fun k => by
    have t := after_tidy hr hα1 h0 h1 hκ n k i
    rw [(tidy_split t).1]
    have := filt_prec hr t
    have := div_nonneg t.B hr.α.le
    linarith
  rw [smoothedVals_M c hi] at hM
  have hrd := ofMoments_read true (c.smoothed eps n i).1 (smoothed_pos hr eps_pos.le hi).1 (smoothed_prec hr eps_pos.le hi)
  have := hM.moments hprec (smoothed_prec hr eps_pos.le hi)
  rw [hrd.1, hrd.2.1] at this
  exact this

end limit

/-! ## The first damped pass, at power one and below -/

section first

variable {h b : ℝ}

theorem first_alg {α γ : ℝ} (hα : α ≠ 0) (x y : ℝ) : ((1 - γ) * 0 + γ * (α * x) + ((1 - γ) * 0 + γ * (α * y))) / α = γ * x + γ * y := by
  field_simp; ring

/-- New nodes after the forward sweep. -/
noncomputable def swept (c : Chain) (n : ℕ) : ℕ → Vals := c.steps (n + 1) ((List.range (n + 1)).flatMap fwdPair) (fun _ => start)

theorem filt_swept (hr : c.Regular) (hα1 : c.α ≤ 1) (h0 : 0 < c.γ) (h1 : c.γ ≤ 1) (hκ : c.κ.Affine h b) {n i : ℕ} (hi : i ≤ n) :
    c.filt (c.swept n i) = ⟨true, eps + c.γ * (1 / (c.predict i (c.basis (c.swept n) i)).2) + c.γ * (h ^ 2 / c.r),
      c.γ * ((c.predict i (c.basis (c.swept n) i)).1 / (c.predict i (c.basis (c.swept n) i)).2) + c.γ * (h * (c.y i - b) / c.r)⟩ := by
  have hα := hr.α.ne'
  obtain ⟨-, f⟩ := forwarded hr hα1 h0 h1 hκ n (fun _ => tidy_start c) (U := c.swept n) rfl
  obtain ⟨-, -, a1, a2, a3, a4⟩ := f i hi
  simp only [filt, a1, a2, a3, a4, Site.mk.injEq, true_and]
  exact ⟨(congrArg (eps + ·) (first_alg hα _ _)).trans (add_assoc _ _ _).symm, first_alg hα _ _⟩

theorem filt_swept_lt (hr : c.Regular) (hα1 : c.α ≤ 1) (h0 : 0 < c.γ) (h1 : c.γ ≤ 1) (hκ : c.κ.Affine h b) {n i : ℕ} (hi : i ≤ n) :
    eps < (c.filt (c.swept n i)).p ∧ c.γ * (h ^ 2 / c.r) ≤ (c.filt (c.swept n i)).p := by
  have hr0 := hr.r
  have hp := predict_pos hr i (basis_pos hr (c.swept n) i)
  rw [filt_swept hr hα1 h0 h1 hκ hi]
  dsimp only
  have k1 : 0 < c.γ * (1 / (c.predict i (c.basis (c.swept n) i)).2) := by positivity
  have k2 : 0 ≤ c.γ * (h ^ 2 / c.r) := by positivity
  have := eps_pos
  exact ⟨by linarith, by linarith⟩

/-- The forward sweep over new nodes gives the same marginals for all powers. -/
theorem filt_swept_power (hr : c.Regular) (hα1 : c.α ≤ 1) (h0 : 0 < c.γ) (h1 : c.γ ≤ 1) (hκ : c.κ.Affine h b) {α' : ℝ} (hα' : 0 < α')
    (hα1' : α' ≤ 1) {n i : ℕ} (hi : i ≤ n) :
    Chain.filt { c with α := α' } (Chain.swept { c with α := α' } n i) = c.filt (c.swept n i) := by
  have hr' : Chain.Regular { c with α := α' } := ⟨hα', hr.q, hr.r, hr.p0, hr.τ, hr.κ⟩
  have step : ∀ i, i ≤ n → Chain.basis { c with α := α' } (Chain.swept { c with α := α' } n) i = c.basis (c.swept n) i →
      Chain.filt { c with α := α' } (Chain.swept { c with α := α' } n i) = c.filt (c.swept n i) := by
    intro i hi hb
    rw [filt_swept hr hα1 h0 h1 hκ hi, filt_swept (c := { c with α := α' }) hr' hα1' h0 h1 hκ hi, hb]
    rfl
  induction i with
  | zero => exact step 0 hi rfl
  | succ i ih => exact step (i + 1) hi (by simp only [basis, ih (by omega)])

/-- The precision of the last but one marginal after the first pass, for powers below one. -/
theorem first_below (hr : c.Regular) (hα1 : c.α < 1) (h0 : 0 < c.γ) (h1 : c.γ ≤ 1) (hκ : c.κ.Affine h b) {i : ℕ} {A d : ℝ}
    (hτ : (c.τ (i + 1)).Affine A d) (hc : (1 - c.α) * (A ^ 2 + c.q / (c.α * 10 ^ 10)) ≤ 1) :
    (c.after (i + 1) 1 i).M.p = (c.filt (c.swept (i + 1) i)).p +
      c.γ * (A ^ 2 * (eps + c.γ * (h ^ 2 / c.r)) / (c.q * (eps + c.γ * (h ^ 2 / c.r)) + 1)) := by
  have hα := hr.α
  have hq := hr.q
  have t := after_passed hr hα1 h0 h1 hκ (i + 1) 0
  rw [zero_add] at t
  have hW := t.tidy
  have hY := (after_Y (n := i + 1) hr hα1 h0 h1 hκ 1 (i := i + 1) le_rfl).1
  have hB := after_B_last hr hα1 h0 h1 hκ (i + 1) 1
  have hfut : (c.fut (c.after (i + 1) 1 (i + 1))).p = eps + c.γ * (h ^ 2 / c.r) := by
    simp only [fut, hY, hB]; field_simp; ring
  -- forward factors after the pass are those after the forward sweep
  have key : ∀ j, j ≤ i + 1 → c.filt (c.after (i + 1) 1 j) = ⟨true,
      eps + c.γ * (1 / (c.predict j (c.basis (c.after (i + 1) 1) j)).2) + c.γ * (h ^ 2 / c.r),
      c.γ * ((c.predict j (c.basis (c.after (i + 1) 1) j)).1 / (c.predict j (c.basis (c.after (i + 1) 1) j)).2) +
        c.γ * (h * (c.y j - b) / c.r)⟩ := by
    intro j hj
    simp only [filt, t.Fp j hj, t.Fh j hj, t.Yp j hj, t.Yh j hj, Site.mk.injEq, true_and]
    exact ⟨(congrArg (eps + ·) (first_alg hα.ne' _ _)).trans (add_assoc _ _ _).symm, first_alg hα.ne' _ _⟩
  have same : ∀ j, j ≤ i + 1 → c.filt (c.after (i + 1) 1 j) = c.filt (c.swept (i + 1) j) := by
    intro j
    induction j with
    | zero => intro hj; rw [key 0 hj, filt_swept hr hα1.le h0 h1 hκ hj]; rfl
    | succ j ih =>
      intro hj
      rw [key _ hj, filt_swept hr hα1.le h0 h1 hκ hj]
      simp only [basis, ih (by omega)]
  have hf := filt_prec hr (hW i)
  have hf0 := eps_pos.trans_le hf
  have hcond : eps ≤ 1 / (A ^ 2 / (c.filt (c.after (i + 1) 1 i)).p + c.q / c.α) + c.α * (c.fut (c.after (i + 1) 1 (i + 1))).p := by
    have k1 := mul_le_mul_of_nonneg_left (fut_prec hr (hW (i + 1))) hα.le
    have k2 : A ^ 2 / (c.filt (c.after (i + 1) 1 i)).p ≤ A ^ 2 / eps := div_le_div_of_nonneg_left (sq_nonneg A) eps_pos hf
    have k3 : 0 < A ^ 2 / (c.filt (c.after (i + 1) 1 i)).p + c.q / c.α := by positivity
    have k4 : A ^ 2 / (c.filt (c.after (i + 1) 1 i)).p + c.q / c.α ≤ (A ^ 2 + c.q / (c.α * 10 ^ 10)) / eps := by
      refine (add_le_add_left k2 _).trans (le_of_eq ?_)
      unfold eps; field_simp
    have k5 := one_div_le_one_div_of_le k3 k4
    have k6 : eps * (1 - c.α) ≤ 1 / ((A ^ 2 + c.q / (c.α * 10 ^ 10)) / eps) := by
      have : 0 < A ^ 2 + c.q / (c.α * 10 ^ 10) := by positivity
      rw [one_div_div, le_div_iff₀ this, mul_assoc]
      exact mul_le_of_le_one_right eps_pos.le hc
    linarith
  obtain ⟨hB1, -⟩ := t.B i (Nat.lt_succ_self i) A d hτ hcond
  rw [(tidy_split (hW i)).1, same i (by omega), hB1, hfut]
  simp only [after, Function.iterate_zero, id, start]
  field_simp
  ring

/-- The precision of the last but one marginal after the first damped pass at power one. -/
theorem first_one_value (hr : c.Regular) (hα1 : c.α = 1) (h0 : 0 < c.γ) (h1 : c.γ ≤ 1) (hκ : c.κ.Affine h b) {i : ℕ} {A d : ℝ}
    (hτ : (c.τ (i + 1)).Affine A d) {v s T : ℝ} (hv : v = 1 / (c.filt (c.swept (i + 1) i)).p) (hs : s = A ^ 2 * v + c.q)
    (hT : T = eps + c.γ * (h ^ 2 / c.r)) :
    eps ≤ (c.filt (c.swept (i + 1) i)).p ∧ 0 < T ∧ (c.swept (i + 1) i).M.p = (c.filt (c.swept (i + 1) i)).p ∧
    (c.after (i + 1) 1 i).M.p = (c.filt (c.swept (i + 1) i)).p +
      c.γ * (1 / (v + (A * v / s) ^ 2 * (1 / (T + c.γ * (1 / s)) - s)) - (c.filt (c.swept (i + 1) i)).p) := by
  subst hs
  have hq := hr.q
  have hr0 := hr.r
  obtain ⟨ut, fe⟩ := forwarded hr hα1.le h0 h1 hκ (i + 1) (fun _ => tidy_start c) (U := c.swept (i + 1)) rfl
  obtain ⟨b1, b2⟩ := backward_parts c (i + 1) (c.swept (i + 1)) (i + 1 + 1) le_rfl
  have hW : c.after (i + 1) 1 = c.steps (i + 1 + 1)
      ((List.range' (i + 1 + 1 - (i + 1 + 1)) (i + 1 + 1)).reverse.map fun i => (Upd.back, i)) (c.swept (i + 1)) := by
    rw [after, Function.iterate_one, passCalls, steps_append, Nat.sub_self, ← List.range_eq_range']
    rfl
  rw [← hW] at b1 b2
  obtain ⟨X, x1, x2, x3⟩ := b2 i (by omega) (by omega)
  rw [b1 (i + 1) (.inr le_rfl)] at x2
  -- the marginals the backward update starts from
  have hB : (c.swept (i + 1) i).B = ⟨false, 0, 0⟩ := (fe i (by omega)).2.1
  have hB' : (c.swept (i + 1) (i + 1)).B = ⟨false, 0, 0⟩ := (fe (i + 1) le_rfl).2.1
  set φ := c.filt (c.swept (i + 1) i) with hφ
  have hφe := filt_prec hr (ut i)
  rw [← hφ] at hφe
  have hφ0 := eps_pos.trans_le hφe
  have hM : (c.swept (i + 1) i).M.p = φ.p := by rw [(tidy_split (ut i)).1, hB]; simp [hφ]
  have hv0 : 0 < v := by rw [hv]; positivity
  have hcav : ((X i).M - (X i).B).p = φ.p := by rw [x1, hB]; simp [sub_def, hM]
  have hvar : ((X i).M - (X i).B).var = v := by rw [(Site.read _ (by rw [hcav]; exact hφe)).2.1, hcav, hv]
  obtain ⟨-, t2, t3⟩ := hτ ((X i).M - (X i).B).mean v hv0
  have hT0 : 0 < T := by rw [hT]; have := eps_pos; positivity
  have hs0 : 0 < A ^ 2 * v + c.q := by positivity
  have hnext : (c.swept (i + 1) (i + 1)).M.p = T + c.γ * (1 / (A ^ 2 * v + c.q)) := by
    rw [(tidy_split (ut (i + 1))).1, hB', filt_swept hr hα1.le h0 h1 hκ le_rfl]
    have hbv : (c.basis (c.swept (i + 1)) (i + 1)).2 = v := ((Site.read _ hφe).2.1).trans hv.symm
    have : (c.predict (i + 1) (c.basis (c.swept (i + 1)) (i + 1))).2 = A ^ 2 * v + c.q := by
      simp only [predict, hbv]
      rw [(hτ _ v hv0).2.1]
    rw [this]
    simp only [hT]; ring
  have hne : eps ≤ (c.swept (i + 1) (i + 1)).M.p := by
    rw [hnext, hT]
    have k1 : 0 ≤ c.γ * (h ^ 2 / c.r) := by positivity
    have k2 : 0 ≤ c.γ * (1 / (A ^ 2 * v + c.q)) := by positivity
    linarith
  have htv : ∀ x s, (c.target i X x s).var = 1 / (T + c.γ * (1 / (A ^ 2 * v + c.q))) := fun x s => by
    have : c.target i X x s = (X (i + 1)).M := if_pos hα1
    rw [this, x2, (Site.read _ hne).2.1, hnext]
  -- the precision of the projection
  refine ⟨hφe, hT0, hM, ?_⟩
  rw [x3]
  simp only [back, Function.update_self]
  simp only [add_def, sub_def, smul_def, ofMoments, htv]
  have e1 : ((X i).M - (X i).B).var = v := hvar
  simp only [sub_def] at e1 t2 t3
  simp only [e1, hα1, div_one]
  rw [t2, t3, x1, hM]

/-- The precision of the last but one marginal after the first damped pass at power one. -/
theorem first_at_one (hr : c.Regular) (hα1 : c.α = 1) (h0 : 0 < c.γ) (h1 : c.γ < 1) (hκ : c.κ.Affine h b) {i : ℕ} {A d : ℝ}
    (hτ : (c.τ (i + 1)).Affine A d) (hA : A ≠ 0) :
    (c.after (i + 1) 1 i).M.p < (c.filt (c.swept (i + 1) i)).p +
      c.γ * (A ^ 2 * (eps + c.γ * (h ^ 2 / c.r)) / (c.q * (eps + c.γ * (h ^ 2 / c.r)) + 1)) := by
  have hq := hr.q
  set φ := c.filt (c.swept (i + 1) i) with hφ
  obtain ⟨hφe, hT0, -, hP⟩ := first_one_value hr hα1 h0 h1.le hκ hτ rfl rfl rfl
  rw [← hφ] at hφe hP
  have hφ0 := eps_pos.trans_le hφe
  set v := 1 / φ.p with hv
  have hv0 : 0 < v := by positivity
  set T := eps + c.γ * (h ^ 2 / c.r) with hT
  set k := A * v / (A ^ 2 * v + c.q) with hk
  have hk0 : k ≠ 0 := by positivity
  -- compared with the message that does not contain the prediction
  have hlt : T + c.γ * (1 / (A ^ 2 * v + c.q)) < 1 / (A ^ 2 * v + c.q) + T := by
    have : 0 < 1 / (A ^ 2 * v + c.q) := by positivity
    nlinarith
  have hinv : 1 / (1 / (A ^ 2 * v + c.q) + T) < 1 / (T + c.γ * (1 / (A ^ 2 * v + c.q))) := one_div_lt_one_div_of_lt (by positivity) hlt
  have halg := (smooth_alg hv0 hq hT0.le 0 A 0 0).1
  rw [← hk] at halg
  have hsmall : 0 < v + k ^ 2 * (1 / (1 / (A ^ 2 * v + c.q) + T) - (A ^ 2 * v + c.q)) := by
    have : 0 < 1 / (v + k ^ 2 * (1 / (1 / (A ^ 2 * v + c.q) + T) - (A ^ 2 * v + c.q))) := by rw [halg]; positivity
    exact one_div_pos.1 this
  have hcmp : v + k ^ 2 * (1 / (1 / (A ^ 2 * v + c.q) + T) - (A ^ 2 * v + c.q)) <
      v + k ^ 2 * (1 / (T + c.γ * (1 / (A ^ 2 * v + c.q))) - (A ^ 2 * v + c.q)) := by
    have : 0 < k ^ 2 := by positivity
    nlinarith
  have hfin := one_div_lt_one_div_of_lt hsmall hcmp
  rw [halg, hv, one_div_one_div] at hfin
  rw [← hv] at hfin
  rw [hP]
  nlinarith

/-- When the backward update of the first pass at power one takes precision away. -/
theorem first_one_loses (hr : c.Regular) (hα1 : c.α = 1) (h0 : 0 < c.γ) (h1 : c.γ ≤ 1) (hκ : c.κ.Affine h b) {i : ℕ} {A d : ℝ}
    (hτ : (c.τ (i + 1)).Affine A d) (hA : A ≠ 0)
    (hl : eps + c.γ * (h ^ 2 / c.r) < (1 - c.γ) * (1 / (A ^ 2 * (1 / (c.filt (c.swept (i + 1) i)).p) + c.q))) :
    (c.after (i + 1) 1 i).M.p < (c.swept (i + 1) i).M.p := by
  have hq := hr.q
  set φ := c.filt (c.swept (i + 1) i) with hφ
  obtain ⟨hφe, hT0, hM, hP⟩ := first_one_value hr hα1 h0 h1 hκ hτ rfl rfl rfl
  rw [← hφ] at hφe hP hM
  have hφ0 := eps_pos.trans_le hφe
  set v := 1 / φ.p with hv
  have hv0 : 0 < v := by positivity
  set T := eps + c.γ * (h ^ 2 / c.r) with hT
  set s := A ^ 2 * v + c.q with hs
  have hs0 : 0 < s := by positivity
  have hk : 0 < (A * v / s) ^ 2 := by positivity
  have hlt : T + c.γ * (1 / s) < 1 / s := by linarith
  have hinv := one_div_lt_one_div_of_lt (by positivity) hlt
  rw [one_div_one_div] at hinv
  have hcmp : v < v + (A * v / s) ^ 2 * (1 / (T + c.γ * (1 / s)) - s) := by nlinarith
  have hfin := one_div_lt_one_div_of_lt hv0 hcmp
  rw [hv, one_div_one_div, ← hv] at hfin
  rw [hP, hM]
  nlinarith

end first

end Chain

end Verif

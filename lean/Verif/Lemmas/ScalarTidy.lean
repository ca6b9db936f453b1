import Verif.Lemmas.ScalarDamped

/-! No precision becomes negative in expectation propagation on scalar states, whatever the functions are. -/

namespace Verif

open Site

namespace Chain

variable {c : Chain}

theorem Tidy.le (t : c.Tidy v) (hα : 0 < c.α) : eps ≤ v.M.p := by
  rw [t.p]
  have := add_nonneg (add_nonneg t.F t.Y) t.B
  have := div_nonneg this hα.le
  linarith

/-- The measurement update. -/
theorem meas_keeps (hr : c.Regular) (hα1 : c.α ≤ 1) (h0 : 0 < c.γ) (h1 : c.γ ≤ 1) {V : ℕ → Vals} {i : ℕ} (hi : c.Tidy (V i)) :
    c.Tidy (c.meas i V i) ∧ (c.meas i V i).F = (V i).F ∧ (c.meas i V i).B = (V i).B := by
  have hα := hr.α
  set cav := (V i).M - (V i).Y with hcav
  have hY : (V i).Y.p ≤ (V i).Y.p / c.α := by
    rw [le_div_iff₀ hα]; exact mul_le_of_le_one_right hi.Y hα1
  have hc : eps ≤ cav.p := by
    simp only [hcav, sub_def, hi.p, add_div]
    have := div_nonneg hi.F hα.le
    have := div_nonneg hi.B hα.le
    linarith
  have hvar : 0 < cav.var := Site.var_pos _
  set w := c.κ.S cav.mean cav.var + c.r / c.α with hw
  set k := c.κ.C cav.mean cav.var / w with hk
  obtain ⟨hw0, hv0⟩ := hr.κ.meas_pos (m := cav.mean) hvar (div_pos hr.r hα)
  set v := cav.var - k ^ 2 * w with hv
  have hv1 : v ≤ cav.var := by
    have : 0 ≤ k ^ 2 * w := mul_nonneg (sq_nonneg k) hw0.le
    linarith
  have hPp : cav.p ≤ 1 / v := by
    have := one_div_le_one_div_of_le (show 0 < v from hv0) hv1
    rwa [(Site.read _ hc).2.1, one_div_one_div] at this
  have e : c.meas i V i = { V i with
      Y := (V i).Y + c.γ • (ofMoments true (cav.mean + k * (c.y i - c.κ.X cav.mean cav.var)) v - (V i).M)
      M := (V i).M + (c.γ / c.α) • (ofMoments true (cav.mean + k * (c.y i - c.κ.X cav.mean cav.var)) v - (V i).M) } := by
    simp only [meas, Function.update_self]
    rfl
  rw [e]
  refine ⟨⟨?_, ?_, hi.F, ?_, hi.B⟩, rfl, rfl⟩
  · simp only [add_def, sub_def, smul_def, hi.p]; field_simp; ring
  · simp only [add_def, sub_def, smul_def, hi.h]; field_simp; ring
  · simp only [add_def, sub_def, smul_def, ofMoments]
    have e2 : (V i).Y.p + c.γ * (1 / v - (V i).M.p) = (1 - c.γ) * (V i).Y.p + c.γ * (1 / v - cav.p) := by
      simp only [hcav, sub_def]; ring
    rw [e2]
    have := hi.Y
    have h3 : 0 ≤ 1 - c.γ := by linarith
    have h4 : 0 ≤ 1 / v - cav.p := by linarith
    positivity

/-- The backward update with power one, if the forward factor of the next node is the present prediction. -/
theorem back_keeps (hr : c.Regular) (hα1 : c.α = 1) (h0 : 0 < c.γ) (h1 : c.γ ≤ 1) {V : ℕ → Vals} {i : ℕ} (hi : c.Tidy (V i))
    (hx : c.Tidy (V (i + 1))) (hF : (V (i + 1)).F.p = 1 / (c.predict (i + 1) (c.basis V (i + 1))).2) :
    c.Tidy (c.back i V i) ∧ (c.back i V i).F = (V i).F ∧ (c.back i V i).Y = (V i).Y := by
  have hα := hr.α
  have hq : 0 < c.q / c.α := div_pos hr.q hα
  set cav := (V i).M - (V i).B with hcav
  have hcp : cav.p = (c.filt (V i)).p := by simp only [hcav, sub_def, filt, hi.p, hα1]; ring
  have hch : cav.h = (c.filt (V i)).h := by simp only [hcav, sub_def, filt, hi.h, hα1]; ring
  have hc : eps ≤ cav.p := by
    simp only [hcav, sub_def, hi.p, hα1, div_one]
    have := hi.F
    have := hi.Y
    linarith
  have hvar : 0 < cav.var := Site.var_pos _
  set x := (c.τ (i + 1)).X cav.mean cav.var with hxd
  set s := (c.τ (i + 1)).S cav.mean cav.var + c.q / c.α with hs
  have hsp : 0 < s := add_pos_of_nonneg_of_pos (hr.τ (i + 1) cav.mean cav.var hvar).1 hq
  have hse : (c.predict (i + 1) (c.basis V (i + 1))).2 = s := by
    simp only [predict, basis, hs, hα1, div_one, mean_congr hcp hch, var_congr hcp]
  set t := c.target i V x s with htd
  have htp : 1 / s ≤ t.p := by
    have e : t = (V (i + 1)).M := if_pos hα1
    rw [e, hx.p, hF, hse, hα1, div_one]
    have := hx.Y
    have := hx.B
    have := eps_pos
    linarith
  have htv : t.var ≤ s := by
    have hinv : 0 < 1 / s := by positivity
    by_cases ht : t.p < 1 / 10 ^ 10
    · have : t.var = 10 ^ 10 := if_pos ht
      rw [this]
      have := htp.trans_lt ht
      rw [one_div_lt_one_div hsp (by positivity)] at this
      exact this.le
    · have : t.var = 1 / t.p := if_neg ht
      rw [this]
      have := one_div_le_one_div_of_le hinv htp
      rwa [one_div_one_div] at this
  set k := (c.τ (i + 1)).C cav.mean cav.var / s with hk
  set v := cav.var + k ^ 2 * (t.var - s) with hv
  have hv0 : 0 < v := (hr.τ (i + 1)).back_pos hvar hq (Site.var_pos t).le
  have hv1 : v ≤ cav.var := by
    have := mul_nonpos_of_nonneg_of_nonpos (sq_nonneg k) (sub_nonpos.2 htv)
    linarith
  have hPp : cav.p ≤ 1 / v := by
    have := one_div_le_one_div_of_le hv0 hv1
    rwa [(Site.read _ hc).2.1, one_div_one_div] at this
  have e : c.back i V i = { V i with
      B := (V i).B + c.γ • (ofMoments (cav.meanSh || t.meanSh) (cav.mean + k * (t.mean - x)) v - (V i).M)
      M := (V i).M + (c.γ / c.α) • (ofMoments (cav.meanSh || t.meanSh) (cav.mean + k * (t.mean - x)) v - (V i).M) } := by
    simp only [back, Function.update_self]
    rfl
  rw [e]
  refine ⟨⟨?_, ?_, hi.F, hi.Y, ?_⟩, rfl, rfl⟩
  · simp only [add_def, sub_def, smul_def, hi.p]; field_simp; ring
  · simp only [add_def, sub_def, smul_def, hi.h]; field_simp; ring
  · simp only [add_def, sub_def, smul_def, ofMoments]
    have e2 : (V i).B.p + c.γ * (1 / v - (V i).M.p) = (1 - c.γ) * (V i).B.p + c.γ * (1 / v - cav.p) := by
      simp only [hcav, sub_def]; ring
    rw [e2]
    have := hi.B
    have h3 : 0 ≤ 1 - c.γ := by linarith
    have h4 : 0 ≤ 1 / v - cav.p := by linarith
    positivity

/-- Powers below one: no sequence of updates makes a precision negative. -/
theorem steps_tidy (hr : c.Regular) (hα1 : c.α < 1) (h0 : 0 < c.γ) (h1 : c.γ ≤ 1) (N : ℕ) : ∀ (calls : List (Upd × ℕ)) (V : ℕ → Vals),
    (∀ i, c.Tidy (V i)) → ∀ i, c.Tidy (c.steps N calls V i)
  | [], V, hV => hV
  | (u, j) :: calls, V, hV => steps_tidy hr hα1 h0 h1 N calls (c.step N (u, j) V) fun i => by
    by_cases hij : i = j
    · subst hij
      rcases u with _ | _ | _
      · exact (fwd_tidy hr h0 h1 (hV i) fun k _ => hV k).1
      · exact (meas_keeps hr hα1.le h0 h1 (hV i)).1
      · simp only [step]
        split_ifs
        · exact (back_tidy hr hα1 h0 h1 (hV i) (hV (i + 1))).1
        · exact hV i
    · have : c.step N (u, j) V i = V i := by
        rcases u with _ | _ | _
        · simp only [step, fwd, Function.update_of_ne hij]
        · simp only [step, meas, Function.update_of_ne hij]
        · simp only [step]
          split_ifs
          · simp only [back, Function.update_of_ne hij]
          · rfl
      rw [this]
      exact hV i

/-- Power and damping one: no pass makes a precision negative. -/
theorem pass_tidy (hr : c.Regular) (hα : c.α = 1) (hγ : c.γ = 1) {V : ℕ → Vals} (n : ℕ) (hV : ∀ i, c.Tidy (V i)) (i : ℕ) :
    c.Tidy (c.steps (n + 1) (passCalls (n + 1)) V i) := by
  have h0 : 0 < c.γ := hγ ▸ one_pos
  have h1 : c.γ ≤ 1 := hγ.le
  set U := c.steps (n + 1) ((List.range (n + 1)).flatMap fwdPair) V with hU
  obtain ⟨b1, b2⟩ := backward_parts c n U (n + 1) le_rfl
  have hW : c.steps (n + 1) (passCalls (n + 1)) V = c.steps (n + 1) ((List.range' (n + 1 - (n + 1)) (n + 1)).reverse.map fun i => (Upd.back, i)) U := by
    rw [passCalls, steps_append, Nat.sub_self, ← List.range_eq_range']
    rfl
  rw [hW]
  set W := c.steps (n + 1) ((List.range' (n + 1 - (n + 1)) (n + 1)).reverse.map fun i => (Upd.back, i)) U with hWd
  obtain ⟨f1, f2⟩ := forward_parts c (n + 1) (n + 1) V
  rw [← hU] at f1 f2
  have fw : ∀ i, i ≤ n → c.Tidy (U i) := by
    intro i
    induction i with
    | zero =>
      intro hi
      obtain ⟨X, x1, -, x3⟩ := f2 0 (by omega)
      rw [x3]
      exact (meas_keeps hr hα.le h0 h1 (fwd_tidy hr h0 h1 (by rw [x1]; exact hV 0) (fun j hj => by omega)).1).1
    | succ i ih =>
      intro hi
      obtain ⟨X, x1, x2, x3⟩ := f2 (i + 1) (by omega)
      rw [x3]
      refine (meas_keeps hr hα.le h0 h1 (fwd_tidy hr h0 h1 (by rw [x1]; exact hV _) (fun j hj => ?_)).1).1
      obtain rfl : i = j := by omega
      rw [x2 i rfl]
      exact ih (by omega)
  have ut : ∀ i, c.Tidy (U i) := fun i => if hi : i ≤ n then fw i hi else by rw [f1 i (by omega)]; exact hV i
  have uF : ∀ i, i ≤ n → (U i).F.p = 1 / (c.predict i (c.basis U i)).2 := fun i hi => by
    obtain ⟨X, x1, x2, x3⟩ := f2 i (by omega)
    obtain ⟨t1, -, -, t4, -⟩ := fwd_tidy hr h0 h1 (V := X) (i := i) (by rw [x1]; exact hV i) (fun j hj => by rw [x2 j hj]; exact ut j)
    have hb : c.basis X i = c.basis U i := basis_congr fun j hj => by rw [x2 j hj]; exact ⟨rfl, rfl⟩
    rw [x3, (meas_keeps hr hα.le h0 h1 t1).2.1, t4, hb, hα, hγ]
    ring
  have bt : ∀ k i, n - i = k → c.Tidy (W i) ∧ (W i).F = (U i).F ∧ (W i).Y = (U i).Y := by
    intro k
    induction k with
    | zero => intro i hi; rw [b1 i (.inr (by omega))]; exact ⟨ut i, rfl, rfl⟩
    | succ k ih =>
      intro i hi
      obtain ⟨X, x1, x2, x3⟩ := b2 i (by omega) (by omega)
      obtain ⟨y1, y2, y3⟩ := ih (i + 1) (by omega)
      have t := back_keeps hr hα h0 h1 (V := X) (i := i) (by rw [x1]; exact ut i) (by rw [x2]; exact y1) (by
        have hb : c.basis X (i + 1) = c.basis U (i + 1) := by simp only [basis, x1]
        rw [x2, y2, hb]
        exact uF (i + 1) (by omega))
      rw [← x3, x1] at t
      exact t
  exact (bt _ i rfl).1

/-- The nodes after any number of passes, for powers below one and dampings in `(0, 1]`, and for power and damping one. -/
theorem passes_tidy (hr : c.Regular) (h : c.α < 1 ∧ 0 < c.γ ∧ c.γ ≤ 1 ∨ c.α = 1 ∧ c.γ = 1) {N : ℕ} (hN : 0 < N) (k i : ℕ) :
    c.Tidy ((c.steps N (passCalls N))^[k] (fun _ => start) i) := by
  obtain ⟨n, rfl⟩ : ∃ n, N = n + 1 := ⟨N - 1, by omega⟩
  induction k generalizing i with
  | zero => exact tidy_start c
  | succ k ih =>
    rw [Function.iterate_succ_apply']
    rcases h with ⟨a, b, d⟩ | ⟨a, b⟩
    · exact steps_tidy hr a b d _ _ _ ih i
    · exact pass_tidy hr a b n ih i

end Chain

end Verif

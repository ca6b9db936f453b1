import Verif.Props.IEKF

/-!
# Where the iterated update converges for scalar affine measurements (C27, continued)
-/

namespace Verif

open Matrix

variable {env : Env} {jac : Jac} {K : KFS} {t u : Option ℝ}

/-- **C27**, all iterates: for a scalar affine measurement `h x + c` of a state `N(m, p)` the iterate after `j` passes is
`m + G e (1 - q^j) / (1 - q)` with the Kalman gain `G = p h / (h p h + r)`, the innovation `e = y - (h m + c)` and `q = -2 h G`; from the first
pass on the variance is the one of the Kalman correction. -/
theorem C27_scalar_iterates (hjac : CorrectJac jac) {m p r h c y : ℝ} (hp : 0 ≤ p) (hr : 0 < r)
    (hf : VecFunc (fun z => K.measurement z t u) (fun x : Fin 1 → ℝ => v1 ((fun x => h * x + c) (x 0))))
    (hR : K.R = .m (m1 r)) {ya : Arr} (hy : IsVec ya (v1 y)) (j : ℕ) :
    K.iteratedUpdate env jac j (sG m p) ya t u =
      .ok (sG (m + p * h / (h * p * h + r) * (y - (h * m + c)) *
          ((1 - (-2 * (h * (p * h / (h * p * h + r)))) ^ j) / (1 - -2 * (h * (p * h / (h * p * h + r))))))
        (if j = 0 then p else p - p * h / (h * p * h + r) * (p * h))) := by
  set S := h * p * h + r with hS
  have hSpos : 0 < S := by nlinarith [mul_self_nonneg h, mul_nonneg hp (mul_self_nonneg h)]
  set q := -2 * (h * (p * h / S)) with hq
  set e := y - (h * m + c) with he
  have hd : ∀ x, HasDerivAt (fun x => h * x + c) h x := fun x => by
    simpa using ((hasDerivAt_id x).const_mul h).add_const c
  have hq0 : q ≤ 0 := by
    have : 0 ≤ h * (p * h / S) := by
      rw [← mul_div_assoc, ← mul_assoc]
      exact div_nonneg (by nlinarith [mul_nonneg hp (mul_self_nonneg h)]) hSpos.le
    rw [hq]; linarith
  have h1q : (1 - q) ≠ 0 := by linarith
  set M : ℕ → ℝ := fun j => m + p * h / S * e * ((1 - q ^ j) / (1 - q)) with hM
  have hrec : ∀ j C, K.iekfStep env jac (.v (v1 m)) (.m (m1 p)) ya t u (sG (M j) C) = .ok (sG (M (j + 1)) (p - p * h / S * (p * h))) := by
    intro j C
    rw [iekfStep_scalar hjac hf (hd _) hR hSpos.ne' hy]
    congr 2
    simp only [hM]
    rw [← hS]
    have e1 : y - (h * (m + p * h / S * e * ((1 - q ^ j) / (1 - q))) + c - h * (m - (m + p * h / S * e * ((1 - q ^ j) / (1 - q))))) =
        e + q * (e * ((1 - q ^ j) / (1 - q))) := by
      rw [hq, he]; ring
    rw [e1]
    field_simp
    ring
  have loop : ∀ l j C, KFS.iterate (K.iekfStep env jac (.v (v1 m)) (.m (m1 p)) ya t u) l (sG (M j) C) =
      .ok (sG (M (j + l)) (if l = 0 then C else p - p * h / S * (p * h))) := by
    intro l
    induction l with
    | zero => intro j C; rfl
    | succ l ih =>
      intro j C
      rw [KFS.iterate, hrec, ok_bind, ih, show j + (l + 1) = j + 1 + l by ring, if_neg (Nat.succ_ne_zero l)]
      split_ifs <;> rfl
  have hM0 : M 0 = m := by simp [hM]
  have := loop j 0 p
  rw [hM0, zero_add] at this
  simp only [KFS.iteratedUpdate, (sG_moments env m p).meanA, (sG_moments env m p).covA, ok_bind]
  exact this

/-- **C27**, convergence: if the prior is more informative than the measurement (`h² p < r`) the iterates converge, but to the correction with
`3 h² p + r` in place of the innovation variance `h² p + r`: not to the Kalman correction, unless the innovation or the gain vanishes.  At the
border `h² p = r` they alternate between the prediction and the Kalman correction. -/
theorem C27_scalar_convergence (hjac : CorrectJac jac) {m p r h c y : ℝ} (hp : 0 ≤ p) (hr : 0 < r)
    (hf : VecFunc (fun z => K.measurement z t u) (fun x : Fin 1 → ℝ => v1 ((fun x => h * x + c) (x 0))))
    (hR : K.R = .m (m1 r)) {ya : Arr} (hy : IsVec ya (v1 y)) :
    ∃ M : ℕ → ℝ, (∀ j, ∃ C, K.iteratedUpdate env jac j (sG m p) ya t u = .ok (sG (M j) C)) ∧
      (h * p * h < r → Filter.Tendsto M Filter.atTop (nhds (m + p * h / (3 * (h * p * h) + r) * (y - (h * m + c))))) ∧
      (h * p * h = r → ∀ j, M j = if Even j then m else m + p * h / (h * p * h + r) * (y - (h * m + c))) ∧
      (p * h * (y - (h * m + c)) ≠ 0 →
        m + p * h / (3 * (h * p * h) + r) * (y - (h * m + c)) ≠ m + p * h / (h * p * h + r) * (y - (h * m + c))) := by
  have ha : 0 ≤ h * p * h := by nlinarith [mul_nonneg hp (mul_self_nonneg h)]
  refine ⟨_, fun j => ⟨_, C27_scalar_iterates hjac hp hr hf hR hy j⟩, fun hlt => ?_, fun heq j => ?_, fun hne hcon => ?_⟩
  · set q := -2 * (h * (p * h / (h * p * h + r))) with hq
    have hq' : q = -2 * (h * p * h) / (h * p * h + r) := by rw [hq]; ring
    have hqa : |q| < 1 := by
      rw [hq', abs_lt]
      constructor
      · rw [lt_div_iff₀ (by linarith)]; linarith
      · rw [div_lt_iff₀ (by linarith)]; linarith
    have ht := tendsto_pow_atTop_nhds_zero_of_abs_lt_one hqa
    have h2 := ((ht.const_sub 1).div_const (1 - q)).const_mul (p * h / (h * p * h + r) * (y - (h * m + c)))
    have h3 := h2.const_add m
    have key : m + p * h / (h * p * h + r) * (y - (h * m + c)) * ((1 - 0) / (1 - q)) =
        m + p * h / (3 * (h * p * h) + r) * (y - (h * m + c)) := ?_
    · rw [← key]; exact h3
    have e1 : 1 - q = (3 * (h * p * h) + r) / (h * p * h + r) := by
      rw [hq']; field_simp; ring
    rw [e1]
    have : h * p * h + r ≠ 0 := by positivity
    have : 3 * (h * p * h) + r ≠ 0 := by positivity
    congr 1
    rw [sub_zero, one_div_div]
    field_simp
  · have e1 : -2 * (h * (p * h / (h * p * h + r))) = -1 := by
      have : h * (p * h / (h * p * h + r)) = h * p * h / (h * p * h + r) := by ring
      rw [this, heq]; field_simp; ring
    simp only [e1]
    split_ifs with hev
    · rw [hev.neg_one_pow]; simp
    · rw [(Nat.not_even_iff_odd.1 hev).neg_one_pow]; norm_num
  · have h1 : p * h / (3 * (h * p * h) + r) * (y - (h * m + c)) = p * h * (y - (h * m + c)) / (3 * (h * p * h) + r) := by ring
    have h2 : p * h / (h * p * h + r) * (y - (h * m + c)) = p * h * (y - (h * m + c)) / (h * p * h + r) := by ring
    rw [h1, h2, add_right_inj, div_eq_div_iff (by positivity) (by positivity), mul_right_inj' hne] at hcon
    have h0 : h * p * h = 0 := by linarith
    have h00 : p * h = 0 := by
      rcases mul_eq_zero.1 h0 with h' | h'
      · rw [mul_comm]; exact h'
      · rw [h', mul_zero]
    exact hne (by rw [h00, zero_mul])

/-- Prior variance 1/2, noise 1: the iterates of the measurement 1 converge to 1/5 instead of 1/3. -/
example : ∃ M : ℕ → ℝ, (∀ j, ∃ C, (switchKFS 0).iteratedUpdate calmEnv exactJac j (sG 0 (1 / 2)) (.s 1) (some 0) none = .ok (sG (M j) C)) ∧
    Filter.Tendsto M Filter.atTop (nhds (1 / 5)) := by
  obtain ⟨M, hM, h, -⟩ := C27_scalar_convergence (K := switchKFS 0) (t := some 0) (u := none) (env := calmEnv) (m := 0) (p := 1 / 2)
    (h := 1) (c := 0) (r := 1) (y := 1) exactJac_correct (by norm_num) one_pos
    (by
      intro x
      refine (affineFunc_vec (m1 1) (v1 0) x).trans ?_
      rw [v1_ext x]; simp) rfl (isVec_s 1)
  have h1 := h (by norm_num)
  norm_num at h1
  exact ⟨M, hM, by norm_num; exact h1⟩

end Verif

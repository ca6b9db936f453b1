import Verif.Props.Transforms
import Verif.Lemmas.Curvature
import Mathlib.Analysis.SpecialFunctions.Trigonometric.Deriv

/-!
# The error of the numerical Jacobian (C19)

`C19_numerical_jacobian_exact` covers functions that are quadratic in each variable. For every other function the entries are
approximations; this file bounds the error and shows that it vanishes with the step.
-/

namespace Verif

open Matrix Set

/-- Half of the bound: the central difference does not exceed the derivative by more than a sixth of the bound on the third
derivative times the square of the step. -/
private theorem central_le {g g1 g2 g3 : ℝ → ℝ} {x a K : ℝ} (h1 : ∀ s ∈ Icc (x - a) (x + a), HasDerivAt g (g1 s) s)
    (h2 : ∀ s ∈ Icc (x - a) (x + a), HasDerivAt g1 (g2 s) s) (h3 : ∀ s ∈ Icc (x - a) (x + a), HasDerivAt g2 (g3 s) s)
    (hK : ∀ s ∈ Icc (x - a) (x + a), g3 s ≤ K) (ha : 0 ≤ a) :
    g (x + a) - g (x - a) - 2 * a * g1 x ≤ K * a ^ 3 / 3 := by
  have plus : ∀ {e}, e ∈ Icc 0 a → x + e ∈ Icc (x - a) (x + a) := fun he => ⟨by linarith [he.1, he.2], by linarith [he.2]⟩
  have minus : ∀ {e}, e ∈ Icc 0 a → x - e ∈ Icc (x - a) (x + a) := fun he => ⟨by linarith [he.2], by linarith [he.1, he.2]⟩
  have dp : ∀ {f f' : ℝ → ℝ} {e}, HasDerivAt f (f' (x + e)) (x + e) → HasDerivAt (fun e => f (x + e)) (f' (x + e)) e :=
    fun {f f' e} h => by simpa using h.comp_const_add x e
  have dm : ∀ {f f' : ℝ → ℝ} {e}, HasDerivAt f (f' (x - e)) (x - e) → HasDerivAt (fun e => f (x - e)) (-f' (x - e)) e :=
    fun {f f' e} h => by simpa using h.comp_const_sub x e
  have s2 : ∀ e ∈ Icc 0 a, 0 ≤ 2 * K * e - (g2 (x + e) - g2 (x - e)) := by
    refine stays_nonneg (u' := fun e => 2 * K - (g3 (x + e) + g3 (x - e))) (by simp) (fun e he => ?_) fun e he => ?_
    · have := ((hasDerivAt_id e).const_mul (2 * K)).sub ((dp (h3 _ (plus he))).sub (dm (h3 _ (minus he))))
      refine HasDerivAt.congr_deriv this ?_
      ring
    · linarith [hK _ (plus he), hK _ (minus he)]
  have s1 : ∀ e ∈ Icc 0 a, 0 ≤ K * e ^ 2 - (g1 (x + e) + g1 (x - e) - 2 * g1 x) := by
    refine stays_nonneg (u' := fun e => 2 * K * e - (g2 (x + e) - g2 (x - e))) (by simp; linarith) (fun e he => ?_) s2
    have := ((hasDerivAt_pow 2 e).const_mul K).sub (((dp (h2 _ (plus he))).add (dm (h2 _ (minus he)))).sub_const (2 * g1 x))
    refine HasDerivAt.congr_deriv this ?_
    norm_num
    ring
  have s0 : ∀ e ∈ Icc 0 a, 0 ≤ K * e ^ 3 / 3 - (g (x + e) - g (x - e) - 2 * e * g1 x) := by
    refine stays_nonneg (u' := fun e => K * e ^ 2 - (g1 (x + e) + g1 (x - e) - 2 * g1 x)) (by simp) (fun e he => ?_) s1
    have := (((hasDerivAt_pow 3 e).const_mul K).div_const 3).sub
      (((dp (h1 _ (plus he))).sub (dm (h1 _ (minus he)))).sub (((hasDerivAt_id e).const_mul 2).mul_const (g1 x)))
    refine HasDerivAt.congr_deriv this ?_
    norm_num
    ring
  linarith [s0 a ⟨ha, le_rfl⟩]

/-- The error of a central difference over a positive step. -/
private theorem central_error {g g1 g2 g3 : ℝ → ℝ} {x a K : ℝ} (h1 : ∀ s ∈ Icc (x - a) (x + a), HasDerivAt g (g1 s) s)
    (h2 : ∀ s ∈ Icc (x - a) (x + a), HasDerivAt g1 (g2 s) s) (h3 : ∀ s ∈ Icc (x - a) (x + a), HasDerivAt g2 (g3 s) s)
    (hK : ∀ s ∈ Icc (x - a) (x + a), |g3 s| ≤ K) (ha : 0 < a) :
    |(g (x + a) - g (x - a)) / (2 * a) - g1 x| ≤ K * a ^ 2 / 6 := by
  have up := central_le h1 h2 h3 (fun s hs => (abs_le.1 (hK s hs)).2) ha.le
  have lo := central_le (fun s hs => (h1 s hs).neg) (fun s hs => (h2 s hs).neg) (fun s hs => (h3 s hs).neg)
    (fun s hs => by simpa using neg_le.1 (abs_le.1 (hK s hs)).1) ha.le
  simp only [Pi.neg_apply] at lo
  have e : (g (x + a) - g (x - a)) / (2 * a) - g1 x = (g (x + a) - g (x - a) - 2 * a * g1 x) / (2 * a) := by
    field_simp
  have e' : K * a ^ 2 / 6 = (K * a ^ 3 / 3) / (2 * a) := by field_simp; ring
  rw [e, e', abs_div, abs_of_pos (by positivity : 0 < 2 * a)]
  gcongr
  exact abs_le.2 ⟨by linarith, up⟩

/-- **C19** (error). If along each coordinate each component has three derivatives within the step, the third bounded by `K`, each
entry of the numerical Jacobian is within `K eps² / 6` of the partial derivative. The step may have either sign. -/
theorem C19_error_bound {f : Func} {k n : ℕ} (hn : 0 < n) {F : (Fin n → ℝ) → Fin k → ℝ} (hf : VecFunc f F)
    (x : Fin n → ℝ) {eps : ℝ} (he : eps ≠ 0) (g1 g2 g3 : Fin k → Fin n → ℝ → ℝ) (K : Fin k → Fin n → ℝ)
    (h1 : ∀ i j, ∀ s ∈ Icc (x j - |eps|) (x j + |eps|), HasDerivAt (fun s => F (Function.update x j s) i) (g1 i j s) s)
    (h2 : ∀ i j, ∀ s ∈ Icc (x j - |eps|) (x j + |eps|), HasDerivAt (g1 i j) (g2 i j s) s)
    (h3 : ∀ i j, ∀ s ∈ Icc (x j - |eps|) (x j + |eps|), HasDerivAt (g2 i j) (g3 i j s) s)
    (hK : ∀ i j, ∀ s ∈ Icc (x j - |eps|) (x j + |eps|), |g3 i j s| ≤ K i j) :
    ∃ t, numericalJacobian f (.v x) eps = .ok t ∧ t.shape = [k, n] ∧ ∀ (i : Fin k) (j : Fin n),
      |t.get [i, j] - g1 i j (x j)| ≤ K i j * eps ^ 2 / 6 := by
  obtain ⟨t, ht, hs, hg⟩ := C19_central_differences hn hf x he
  refine ⟨t, ht, hs, fun i j => ?_⟩
  have hb := central_error (h1 i j) (h2 i j) (h3 i j) (hK i j) (abs_pos.2 he)
  rw [hg, ← sq_abs]
  rcases abs_cases eps with ⟨h, -⟩ | ⟨h, -⟩
  · rw [h] at hb ⊢
    exact hb
  · rw [h] at hb ⊢
    simp only [sub_neg_eq_add, ← sub_eq_add_neg] at hb
    convert hb using 3
    rw [← neg_div_neg_eq]
    ring_nf

/-- **C19** (limit). Wherever the partial derivatives exist, the entries of the numerical Jacobian tend to them as the step shrinks:
for every tolerance all small enough steps give entries within it. -/
theorem C19_limit {f : Func} {k n : ℕ} (hn : 0 < n) {F : (Fin n → ℝ) → Fin k → ℝ} (hf : VecFunc f F)
    (x : Fin n → ℝ) (D : Fin k → Fin n → ℝ) (hD : ∀ i j, HasDerivAt (fun s => F (Function.update x j s) i) (D i j) (x j))
    {tol : ℝ} (htol : 0 < tol) :
    ∃ d > 0, ∀ eps, eps ≠ 0 → |eps| < d → ∃ t, numericalJacobian f (.v x) eps = .ok t ∧ t.shape = [k, n] ∧
      ∀ (i : Fin k) (j : Fin n), |t.get [i, j] - D i j| ≤ tol := by
  have hev : ∀ᶠ e in nhds (0 : ℝ), ∀ i j,
      |F (Function.update x j (x j + e)) i - F (Function.update x j (x j)) i - e * D i j| ≤ tol * |e| := by
    rw [Filter.eventually_all]
    intro i
    rw [Filter.eventually_all]
    intro j
    have := (hasDerivAt_iff_isLittleO_nhds_zero.1 (hD i j)).def htol
    simpa only [Real.norm_eq_abs, smul_eq_mul] using this
  obtain ⟨d, hd, hb⟩ := Metric.eventually_nhds_iff.1 hev
  refine ⟨d, hd, fun eps he hlt => ?_⟩
  obtain ⟨t, ht, hs, hg⟩ := C19_central_differences hn hf x he
  refine ⟨t, ht, hs, fun i j => ?_⟩
  have p := hb (y := eps) (by simpa using hlt) i j
  have m := hb (y := -eps) (by simpa using hlt) i j
  rw [← sub_eq_add_neg, abs_neg] at m
  have e : t.get [i, j] - D i j = ((F (Function.update x j (x j + eps)) i - F (Function.update x j (x j)) i - eps * D i j) -
      (F (Function.update x j (x j - eps)) i - F (Function.update x j (x j)) i - -eps * D i j)) / (2 * eps) := by
    rw [hg]
    field_simp
    ring
  rw [e, abs_div, abs_mul, abs_two, div_le_iff₀ (mul_pos two_pos (abs_pos.2 he))]
  refine (abs_sub _ _).trans ?_
  linarith

/-- The sine of a reading, at any point and for any step: the error is at most a sixth of the square of the step. -/
example (x eps : ℝ) (he : eps ≠ 0) :
    ∃ t, numericalJacobian (fun a => .ok (a.map Real.sin)) (.v ![x]) eps = .ok t ∧ t.shape = [1, 1] ∧
      |t.get [0, 0] - Real.cos x| ≤ 1 * eps ^ 2 / 6 := by
  have hf : VecFunc (fun a => .ok (a.map Real.sin)) (fun z : Fin 1 → ℝ => fun i => Real.sin (z i)) := fun z => rfl
  obtain ⟨t, ht, hs, hg⟩ := C19_error_bound (by norm_num) hf ![x] he (fun _ _ => Real.cos) (fun _ _ s => -Real.sin s)
    (fun _ _ s => -Real.cos s) (fun _ _ => 1)
    (fun i j s _ => by
      have hi : i = j := Subsingleton.elim _ _
      subst hi
      simpa using Real.hasDerivAt_sin s)
    (fun _ _ s _ => Real.hasDerivAt_cos s) (fun _ _ s _ => (Real.hasDerivAt_sin s).neg)
    (fun _ _ s _ => by simpa using Real.abs_cos_le_one s)
  exact ⟨t, ht, hs, by simpa using hg 0 0⟩

/-- **C19**, the point must be a vector: at a number (an array of rank zero) the function is evaluated once and then `TypeError` is
raised, even for functions of one variable. -/
theorem C19_number {f : Func} {x eps : ℝ} {z : Arr} (hf : f (.s x) = .ok z) : numericalJacobian f (.s x) eps = .error .type := by
  simp only [numericalJacobian, hf, ok_bind, Arr.len]
  rfl

/-- Doubling a number. -/
example : numericalJacobian (fun a => .ok (a.map (2 * ·))) (.s 1) 1 = .error .type := C19_number rfl

/-- **C19**, exceptions: what the function raises at the point itself is raised, although the value there is not used, and a result means
that the function could be evaluated at the point and at all points moved by the step. -/
theorem C19_raises (f : Func) {n : ℕ} (x : Fin n → ℝ) (eps : ℝ) : (∀ e, f (.v x) = .error e → numericalJacobian f (.v x) eps = .error e) ∧
    ∀ t, numericalJacobian f (.v x) eps = .ok t → (∃ z, f (.v x) = .ok z) ∧
      ∀ j : Fin n, (∃ z, f (.v (Function.update x j (x j + eps))) = .ok z) ∧ ∃ z, f (.v (Function.update x j (x j - eps))) = .ok z := by
  refine ⟨fun e he => by simp only [numericalJacobian, he]; rfl, fun t ht => ?_⟩
  cases h0 : f (.v x) with
  | error e => simp only [numericalJacobian, h0] at ht; cases ht
  | ok z =>
    refine ⟨⟨z, rfl⟩, fun j => ?_⟩
    simp only [numericalJacobian, h0, ok_bind, Arr.len] at ht
    have key : ∀ (l : List ℕ) (g : ℕ → Py Arr) cols, l.mapM g = .ok cols → ∀ i ∈ l, ∃ a, g i = .ok a := by
      intro l g
      induction l with
      | nil => intro _ _ i hi; cases hi
      | cons b l ih =>
        intro cols hc i hi
        rw [List.mapM_cons] at hc
        cases hb : g b with
        | error e => rw [hb] at hc; cases hc
        | ok a =>
          rw [hb, ok_bind] at hc
          cases hl : l.mapM g with
          | error e => rw [hl] at hc; cases hc
          | ok cols' =>
            rcases List.mem_cons.1 hi with rfl | hi
            · exact ⟨a, hb⟩
            · exact ih cols' hl i hi
    cases hc : (List.range n).mapM (fun i => do
        let y1 ← f ((Arr.v x).bump i eps)
        let y2 ← f ((Arr.v x).bump i (-eps))
        (← y1.sub y2).divS (2 * eps) : ℕ → Py Arr) with
    | error e => rw [hc] at ht; cases ht
    | ok cols =>
      obtain ⟨a, ha⟩ := key _ _ _ hc j (List.mem_range.2 j.2)
      have b1 := bump_v x j eps
      have b2 := bump_v x j (-eps)
      rw [b1, b2, ← sub_eq_add_neg] at ha
      cases h1 : f (.v (Function.update x j (x j + eps))) with
      | error e => rw [h1] at ha; cases ha
      | ok z1 =>
        cases h2 : f (.v (Function.update x j (x j - eps))) with
        | error e => rw [h1, h2] at ha; cases ha
        | ok z2 => exact ⟨⟨z1, rfl⟩, z2, rfl⟩

/-- A function that only fails at one point. -/
example : numericalJacobian (fun a => if a.entry [0] = 1 then .error .value else .ok a) (.v ![1]) 0.1 = .error .value :=
  (C19_raises _ ![1] 0.1).1 _ (by simp [Arr.entry])

/-- Stacked matrices of one shape. -/
private theorem stack_matrices {r k m : ℕ} (hr : 0 < r) (g : ℕ → Matrix (Fin m) (Fin k) ℝ) :
    ∃ t, Tensor.stack ((List.range r).map fun j => Arr.m (g j)) = .ok t ∧ t.shape = [r, m, k] ∧
      ∀ (i : Fin r) (a : Fin m) (l : Fin k), t.get [i, a, l] = g i a l := by
  obtain ⟨r, rfl⟩ : ∃ q, r = q + 1 := ⟨r - 1, by omega⟩
  rw [List.range_succ_eq_map, List.map_cons]
  simp only [Tensor.stack]
  rw [if_pos (by simp)]
  refine ⟨_, rfl, by simp, fun i a l => ?_⟩
  simp only
  rw [← List.map_cons (f := fun j => Arr.m (g j)), ← List.range_succ_eq_map]
  simp [List.getD_eq_getElem?_getD, Arr.entry]
  rw [List.getElem?_range i.2]; rfl

/-- **C19**, matrices. At a matrix the rows are moved as a whole: entry `(l, a, i)` of the result is the central difference of
output `(a, l)` when `eps` is added to every entry of row `i` and when it is subtracted. -/
theorem C19_matrix {f : Func} {r n m k : ℕ} (hr : 0 < r) {G : Matrix (Fin r) (Fin n) ℝ → Matrix (Fin m) (Fin k) ℝ}
    (hf : ∀ X, f (.m X) = .ok (.m (G X))) (X : Matrix (Fin r) (Fin n) ℝ) {eps : ℝ} (he : eps ≠ 0) :
    ∃ t, numericalJacobian f (.m X) eps = .ok t ∧ t.shape = [k, m, r] ∧ ∀ (l : Fin k) (a : Fin m) (i : Fin r),
      t.get [l, a, i] = (G (X.updateRow i fun j => X i j + eps) a l - G (X.updateRow i fun j => X i j - eps) a l) / (2 * eps) := by
  have h2 : 2 * eps ≠ 0 := mul_ne_zero two_ne_zero he
  have hb : ∀ (i : Fin r) (e : ℝ), (Arr.m X).bump i e = .m (X.updateRow i fun j => X i j + e) := by
    intro i e
    simp only [Arr.bump]
    congr 1
    ext a j
    by_cases h : a = i
    · subst h
      simp
    · rw [if_neg (by simpa [Fin.ext_iff] using h), Matrix.updateRow_ne h]
  have hcol : ∀ j ∈ List.range r, (do
      let y1 ← f ((Arr.m X).bump j eps)
      let y2 ← f ((Arr.m X).bump j (-eps))
      (← y1.sub y2).divS (2 * eps) : Py Arr) =
      .ok (.m (if h : j < r then (2 * eps)⁻¹ • (G (X.updateRow ⟨j, h⟩ fun l => X ⟨j, h⟩ l + eps) -
        G (X.updateRow ⟨j, h⟩ fun l => X ⟨j, h⟩ l + -eps)) else 0)) := by
    intro j hj
    have hj' : j < r := List.mem_range.1 hj
    have b1 := hb ⟨j, hj'⟩ eps
    have b2 := hb ⟨j, hj'⟩ (-eps)
    simp only at b1 b2
    simp only [b1, b2, hf _, ok_bind, Arr.sub_mm, Arr.divS_m _ h2, dif_pos hj']
  obtain ⟨t, ht, hs, hg⟩ := stack_matrices hr fun j => if h : j < r then (2 * eps)⁻¹ •
    (G (X.updateRow ⟨j, h⟩ fun l => X ⟨j, h⟩ l + eps) - G (X.updateRow ⟨j, h⟩ fun l => X ⟨j, h⟩ l + -eps)) else 0
  refine ⟨t.T, ?_, by simp [Tensor.T, hs], fun l a i => ?_⟩
  · simp only [numericalJacobian, hf X, ok_bind, Arr.len]
    rw [mapM_ok hcol, ok_bind, ht]
    rfl
  · simp only [Tensor.T, List.reverse_cons, List.reverse_nil, List.nil_append, List.cons_append]
    rw [hg i a l]
    simp only [Fin.is_lt, dif_pos, sub_eq_add_neg (X i _)]
    rw [div_eq_inv_mul]
    rfl

/-- **C19**, a state written as a row. For an affine function `A x + b` of such a row, `numerical_jacobian` returns an array of shape
`(outputs, 1, 1)` that holds the row sums of `A`, not `A`. -/
theorem C19_row {f : Func} {n k : ℕ} {A : Matrix (Fin k) (Fin n) ℝ} {b : Fin k → ℝ}
    (hf : ∀ x : Fin n → ℝ, f (.m (Matrix.of fun (_ : Fin 1) j => x j)) = .ok (.m (Matrix.of fun (_ : Fin 1) j => (A *ᵥ x + b) j)))
    (x : Fin n → ℝ) {eps : ℝ} (he : eps ≠ 0) :
    ∃ t, numericalJacobian f (.m (Matrix.of fun (_ : Fin 1) j => x j)) eps = .ok t ∧ t.shape = [k, 1, 1] ∧
      ∀ l : Fin k, t.get [l, 0, 0] = ∑ j, A l j := by
  obtain ⟨t, ht, hs, hg⟩ := C19_matrix (f := f) (r := 1) Nat.one_pos
    (G := fun X => Matrix.of fun (_ : Fin 1) j => (A *ᵥ X 0 + b) j)
    (fun X => by
      have e : X = Matrix.of fun (_ : Fin 1) j => X 0 j := by
        ext i j
        rw [Subsingleton.elim i 0]
        rfl
      conv_lhs => rw [e]
      exact hf (X 0)) (Matrix.of fun (_ : Fin 1) j => x j) he
  refine ⟨t, ht, hs, fun l => ?_⟩
  have h := hg l 0 0
  simp only [Fin.val_zero] at h
  rw [h]
  simp only [Matrix.of_apply, Matrix.updateRow_self, Pi.add_apply, Matrix.mulVec, dotProduct]
  rw [add_sub_add_right_eq_sub, ← Finset.sum_sub_distrib, Finset.sum_div]
  refine Finset.sum_congr rfl fun j _ => ?_
  field_simp
  ring

/-- Position and velocity as a row: one step of length two has Jacobian `!![1, 2; 0, 1]`, reported are `3` and `1`. -/
example : ∃ t, numericalJacobian (affineFunc !![1, 2; 0, 1] ![0, 0]) (.m (Matrix.of fun (_ : Fin 1) j => ![5, 7] j)) 1 = .ok t ∧
    t.shape = [2, 1, 1] ∧ t.get [0, 0, 0] = 3 ∧ t.get [1, 0, 0] = 1 := by
  obtain ⟨t, ht, hs, hg⟩ := C19_row (f := affineFunc !![1, 2; 0, 1] ![0, 0]) (A := !![1, 2; 0, 1]) (b := ![0, 0])
    (fun x => by
      rw [affineFunc_rows]
      congr 2
      ext i j
      fin_cases j <;> simp [Matrix.mul_apply, Fin.sum_univ_two, vecHead, vecTail, mul_comm]) ![5, 7] one_ne_zero
  refine ⟨t, ht, hs, ?_, ?_⟩
  · have := hg 0
    norm_num [Fin.sum_univ_two] at this
    simpa using this
  · have := hg 1
    norm_num [Fin.sum_univ_two] at this
    simpa using this

end Verif

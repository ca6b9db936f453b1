import Verif.Lemmas.GaussOps
import Verif.Lemmas.Reads
import Verif.Model.Printing
import Verif.Props.Estimator

/-!
# States with missing, redundant or mismatched parameters (C100, C101), shapes in `proj_meas` (C98)
-/

namespace Verif

open Matrix Gaussian

section C100
variable (env : Env)

/-- **C100.** A covariance without a mean and a precision without a shift are dropped: all four parameters of the object read `None`,
`dim` raises `IndexError`, and every product, quotient or power raises `TypeError`. -/
theorem C100_dropped (cov precision : Option Arr) :
    let g := Gaussian.init none cov precision none
    g.mean env = .ok none ∧ g.cov env = .ok none ∧ g.precision env = .ok none ∧ g.shift env = .ok none ∧
    g.dim env = .error .index ∧ (∀ k, g.pow env k = .error .type) ∧
    ∀ (b : Gaussian) (P h : Arr), b.precision env = .ok (some P) → b.shift env = .ok (some h) →
      g.mul env b = .error .type ∧ b.mul env g = .error .type ∧ g.truediv env b = .error .type ∧ b.truediv env g = .error .type := by
  intro g
  have hp : g.precision env = .ok none := rfl
  refine ⟨rfl, rfl, hp, rfl, rfl, fun k => rfl, fun b P h hP hh => ⟨rfl, ?_, rfl, ?_⟩⟩
  · simp only [Gaussian.mul, precisionA, hP, hp, need, ok_bind]; rfl
  · simp only [Gaussian.truediv, precisionA, hP, hp, need, ok_bind]; rfl

/-- A concrete case: the precision of `Gaussian(precision_mat=np.eye(2))` is lost. -/
example : (Gaussian.init none none (some (Arr.eye 2)) none).precision calmEnv = .ok none ∧
    (Gaussian.init none none (some (Arr.eye 2)) none).mul calmEnv (ofNatural (Arr.eye 2) (.v ![1, 2])) = .error .type :=
  ⟨(C100_dropped calmEnv none (some (Arr.eye 2))).2.2.1,
    ((C100_dropped calmEnv none (some (Arr.eye 2))).2.2.2.2.2.2 _ _ _ rfl rfl).1⟩

/-- **C100.** A mean without covariance: mean and dimension are read, the covariance is `None`, and everything that needs the natural
parameters raises `AttributeError`. -/
theorem C100_mean_only {n : ℕ} (μ : Fin n → ℝ) :
    let g := Gaussian.init (some (.v μ)) none none none
    g.mean env = .ok (some (.v μ)) ∧ g.cov env = .ok none ∧ g.dim env = .ok n ∧ g.precision env = .error .attribute ∧
    g.shift env = .error .attribute ∧ (∀ k, g.pow env k = .error .attribute) ∧
    ∀ b : Gaussian, g.mul env b = .error .attribute ∧ g.truediv env b = .error .attribute := by
  exact ⟨rfl, rfl, rfl, rfl, rfl, fun k => rfl, fun b => ⟨rfl, rfl⟩⟩

/-- **C100.** A shift without precision: shift and dimension are read, and everything that needs the moments raises `AttributeError`. -/
theorem C100_shift_only {n : ℕ} (h : Fin n → ℝ) (cov : Option Arr) :
    let g := Gaussian.init none cov none (some (.v h))
    g.shift env = .ok (some (.v h)) ∧ g.precision env = .ok none ∧ g.dim env = .ok n ∧ g.mean env = .error .attribute ∧
    g.cov env = .error .attribute ∧ ∀ x, g.squaredError env x = .error .attribute := by
  exact ⟨rfl, rfl, rfl, rfl, rfl, fun x => rfl⟩

/-- **C100.** All four parameters given: nothing is checked or converted.  Each attribute reads what was given for it, after any history
of reads; products, quotients and powers see only precision and shift, comparison and squared error only mean and covariance; and the
copy has forgotten mean and covariance. -/
theorem C100_both (μ C P h : Arr) (history : List Read) :
    let g := afterReads env history (Gaussian.init (some μ) (some C) (some P) (some h))
    g.mean env = .ok (some μ.atleast1d) ∧ g.cov env = .ok (some C) ∧ g.precision env = .ok (some P) ∧
    g.shift env = .ok (some h.atleast1d) ∧ (copy env g).1 = .ok (ofNatural P h) ∧
    (∀ b : Gaussian, g.mul env b = (ofNatural P h).mul env b ∧ b.mul env g = b.mul env (ofNatural P h) ∧
      g.truediv env b = (ofNatural P h).truediv env b ∧ b.truediv env g = b.truediv env (ofNatural P h) ∧
      g.eq env b = (ofMoment μ C).eq env b ∧ b.eq env g = b.eq env (ofMoment μ C)) ∧
    (∀ k, g.pow env k = (ofNatural P h).pow env k) ∧ ∀ x, g.squaredError env x = (ofMoment μ C).squaredError env x := by
  have key : ∀ (hist : List Read) (g : Gaussian), g.mean_ = some μ.atleast1d → g.cov_ = some C → g.precision_ = some P →
      g.shift_ = some h.atleast1d → g.mode = .natural →
      (afterReads env hist g).mean_ = some μ.atleast1d ∧ (afterReads env hist g).cov_ = some C ∧
      (afterReads env hist g).precision_ = some P ∧ (afterReads env hist g).shift_ = some h.atleast1d ∧
      (afterReads env hist g).mode = .natural := by
    intro hist
    induction hist with
    | nil => intro g h1 h2 h3 h4 h5; exact ⟨h1, h2, h3, h4, h5⟩
    | cons r hist ih =>
      intro g h1 h2 h3 h4 h5
      have e : ∀ g', (read env r g).2 = g' → g'.mean_ = some μ.atleast1d ∧ g'.cov_ = some C ∧ g'.precision_ = some P ∧
          g'.shift_ = some h.atleast1d ∧ g'.mode = .natural := by
        rintro g' rfl
        have m0 : getMean env g = (.ok g.mean_, g) := by simp [getMean, h1]
        have c0 : getCov env g = (.ok g.cov_, g) := by simp [getCov, h2]
        have p0 : getPrecision env g = (.ok g.precision_, g) := by simp [getPrecision, h3]
        have s0 : getShift env g = (.ok g.shift_, g) := by simp [getShift, h4]
        cases r with
        | mean => simp only [read, m0]; exact ⟨h1, h2, h3, h4, h5⟩
        | cov => simp only [read, c0]; exact ⟨h1, h2, h3, h4, h5⟩
        | precision => simp only [read, p0]; exact ⟨h1, h2, h3, h4, h5⟩
        | shift => simp only [read, s0]; exact ⟨h1, h2, h3, h4, h5⟩
        | dim =>
          simp only [read, getDim, h5, if_true, s0]
          cases g.dim_ with
          | some d => exact ⟨h1, h2, h3, h4, h5⟩
          | none => dsimp only; cases npShape0 g.shift_ <;> exact ⟨h1, h2, h3, h4, by first | exact h5 | rfl⟩
        | chol =>
          simp only [read, getChol, c0, h2]
          cases g.chol_ with
          | some d => exact ⟨h1, h2, h3, h4, h5⟩
          | none => dsimp only; cases spCholeskyL C <;> exact ⟨h1, by first | exact h2 | rfl, h3, h4, h5⟩
      obtain ⟨a1, a2, a3, a4, a5⟩ := e _ rfl
      exact ih _ a1 a2 a3 a4 a5
  intro g
  obtain ⟨h1, h2, h3, h4, h5⟩ : g.mean_ = some μ.atleast1d ∧ g.cov_ = some C ∧ g.precision_ = some P ∧
      g.shift_ = some h.atleast1d ∧ g.mode = .natural := key history _ rfl rfl rfl rfl rfl
  have m0 : getMean env g = (.ok g.mean_, g) := by simp [getMean, h1]
  have c0 : getCov env g = (.ok g.cov_, g) := by simp [getCov, h2]
  have p0 : getPrecision env g = (.ok g.precision_, g) := by simp [getPrecision, h3]
  have s0 : getShift env g = (.ok g.shift_, g) := by simp [getShift, h4]
  have hm : g.mean env = .ok (some μ.atleast1d) := by rw [Gaussian.mean, m0, h1]
  have hc : g.cov env = .ok (some C) := by rw [Gaussian.cov, c0, h2]
  have hp : g.precision env = .ok (some P) := by rw [Gaussian.precision, p0, h3]
  have hs : g.shift env = .ok (some h.atleast1d) := by rw [Gaussian.shift, s0, h4]
  have nP : (ofNatural P h).precision env = .ok (some P) := rfl
  have nh : (ofNatural P h).shift env = .ok (some h.atleast1d) := rfl
  have mM : (ofMoment μ C).mean env = .ok (some μ.atleast1d) := rfl
  have mC : (ofMoment μ C).cov env = .ok (some C) := rfl
  refine ⟨hm, hc, hp, hs, ?_, fun b => ⟨?_, ?_, ?_, ?_, ?_, ?_⟩, fun k => ?_, fun x => ?_⟩
  · simp only [copy, h5, if_true, p0, s0, h3, h4]
    have : ∀ a : Arr, a.atleast1d.atleast1d = a.atleast1d := fun a => by cases a <;> rfl
    simp only [Gaussian.init, ofNatural, this]
  all_goals simp only [Gaussian.mul, Gaussian.truediv, Gaussian.eq, Gaussian.pow, squaredError, precisionA, shiftA, meanA, covA,
    hm, hc, hp, hs, nP, nh, mM, mC]

/-- A concrete case: mean 0, covariance 1, but precision 4 and shift 8; the product with another state ignores the former. -/
example : let g := Gaussian.init (some (.v ![0])) (some (.m !![1])) (some (.m !![4])) (some (.v ![8]))
    g.mean calmEnv = .ok (some (.v ![0])) ∧ g.mul calmEnv (ofNatural (.m !![1]) (.v ![1])) =
      (ofNatural (.m !![4]) (.v ![8])).mul calmEnv (ofNatural (.m !![1]) (.v ![1])) :=
  ⟨(C100_both calmEnv _ _ _ _ []).1, ((C100_both calmEnv _ _ _ _ []).2.2.2.2.2.1 _).1⟩

/-- **C100.** Printing a state shows the parameters it is stored in, never raises and leaves the object unchanged. -/
theorem C100_printed (g : Gaussian) :
    shown env g = (.ok (if g.mode = .natural then (g.shift_, g.precision_) else (g.mean_, g.cov_)), g) := by
  unfold shown
  by_cases h : g.mode = .natural
  · simp [h, getShift, getPrecision]
  · simp [h, getMean, getCov]

/-- A concrete case: a singular covariance, which can not be converted quietly, is printed as it is. -/
example : shown fussyEnv (ofMoment (.v ![1, 2]) (.m (0 : Matrix (Fin 2) (Fin 2) ℝ))) =
    (.ok (some (.v ![1, 2]), some (.m (0 : Matrix (Fin 2) (Fin 2) ℝ))),
      ofMoment (.v ![1, 2]) (.m (0 : Matrix (Fin 2) (Fin 2) ℝ))) := C100_printed _ _

end C100

section C101
variable {env : Env} {n k : ℕ} {a b : Gaussian}

theorem bdim_one_right (n : ℕ) : Arr.bdim n 1 = some n := by
  by_cases h : n = 1 <;> simp [Arr.bdim, h]

theorem bdim_one_left (n : ℕ) : Arr.bdim 1 n = some n := by
  by_cases h : n = 1
  · simp [Arr.bdim, h]
  · simp [Arr.bdim, Ne.symm h]

theorem bdim_refused (h : n ≠ k) (hn : n ≠ 1) (hk : k ≠ 1) : Arr.bdim n k = none := by
  simp [Arr.bdim, h, hn, hk]

theorem bget_fin (P : Matrix (Fin n) (Fin k) ℝ) (i : Fin n) (j : Fin k) : (Arr.m P).bget i j = P i j := by
  simp only [Arr.bget]
  rw [dif_pos ⟨by rw [Nat.mod_eq_of_lt i.2]; exact i.2, by rw [Nat.mod_eq_of_lt j.2]; exact j.2⟩]
  congr 1 <;> exact Fin.ext (Nat.mod_eq_of_lt (Fin.is_lt _))

theorem bget_one (q : Matrix (Fin 1) (Fin 1) ℝ) (i j : ℕ) : (Arr.m q).bget i j = q 0 0 := by
  simp [Arr.bget, Nat.mod_one]

theorem bget_vec (f : Fin n → ℝ) (i : Fin n) : (Arr.v f).bget 0 i = f i := by
  simp only [Arr.bget]
  rw [dif_pos (by rw [Nat.mod_eq_of_lt i.2]; exact i.2)]
  congr 1; exact Fin.ext (Nat.mod_eq_of_lt i.2)

theorem bget_vec_one (q : Fin 1 → ℝ) (j : ℕ) : (Arr.v q).bget 0 j = q 0 := by
  simp [Arr.bget, Nat.mod_one]

theorem zip_big_one (op : ℝ → ℝ → ℝ) (P : Matrix (Fin n) (Fin n) ℝ) (q : Matrix (Fin 1) (Fin 1) ℝ) :
    Arr.zip op (.m P) (.m q) = .ok (.m (of fun i j => op (P i j) (q 0 0))) := by
  simp only [Arr.zip, Arr.rows, Arr.cols, bdim_one_right, Arr.ndim, Arr.shape, List.length_cons, List.length_nil]
  refine congrArg (fun M : Matrix (Fin n) (Fin n) ℝ => Except.ok (Arr.m M)) ?_
  funext i j
  rw [bget_fin, bget_one]; rfl

theorem zip_one_big (op : ℝ → ℝ → ℝ) (P : Matrix (Fin n) (Fin n) ℝ) (q : Matrix (Fin 1) (Fin 1) ℝ) :
    Arr.zip op (.m q) (.m P) = .ok (.m (of fun i j => op (q 0 0) (P i j))) := by
  simp only [Arr.zip, Arr.rows, Arr.cols, bdim_one_left, Arr.ndim, Arr.shape, List.length_cons, List.length_nil]
  refine congrArg (fun M : Matrix (Fin n) (Fin n) ℝ => Except.ok (Arr.m M)) ?_
  funext i j
  rw [bget_fin, bget_one]; rfl

theorem zip_vec_one (op : ℝ → ℝ → ℝ) (h : Fin n → ℝ) (q : Fin 1 → ℝ) :
    Arr.zip op (.v h) (.v q) = .ok (.v fun i => op (h i) (q 0)) := by
  simp only [Arr.zip, Arr.rows, Arr.cols, bdim_one_right, Arr.ndim, Arr.shape, List.length_cons, List.length_nil]
  refine congrArg (fun f : Fin n → ℝ => Except.ok (Arr.v f)) ?_
  funext i
  rw [bget_vec, bget_vec_one]

theorem zip_one_vec (op : ℝ → ℝ → ℝ) (h : Fin n → ℝ) (q : Fin 1 → ℝ) :
    Arr.zip op (.v q) (.v h) = .ok (.v fun i => op (q 0) (h i)) := by
  simp only [Arr.zip, Arr.rows, Arr.cols, bdim_one_left, bdim_one_right, Arr.ndim, Arr.shape, List.length_cons, List.length_nil]
  refine congrArg (fun f : Fin n → ℝ => Except.ok (Arr.v f)) ?_
  funext i
  rw [bget_vec, bget_vec_one]

theorem zip_refused (op : ℝ → ℝ → ℝ) (h : n ≠ k) (hn : n ≠ 1) (hk : k ≠ 1) (P : Matrix (Fin n) (Fin n) ℝ)
    (Q : Matrix (Fin k) (Fin k) ℝ) : Arr.zip op (.m P) (.m Q) = .error .value := by
  simp only [Arr.zip, Arr.rows, Arr.cols, bdim_refused h hn hk]

theorem zip_vec_refused (op : ℝ → ℝ → ℝ) (h : n ≠ k) (hn : n ≠ 1) (hk : k ≠ 1) (f : Fin n → ℝ) (g : Fin k → ℝ) :
    Arr.zip op (.v f) (.v g) = .error .value := by
  simp only [Arr.zip, Arr.rows, Arr.cols, bdim_refused h hn hk]
  rfl

/-- **C101.** States of two different dimensions, neither of them 1, can not be multiplied or divided: `ValueError`. -/
theorem C101_refused {P : Matrix (Fin n) (Fin n) ℝ} {h : Fin n → ℝ} {Q : Matrix (Fin k) (Fin k) ℝ} {l : Fin k → ℝ}
    (ha : HasNatural env a P h) (hb : HasNatural env b Q l) (hne : n ≠ k) (hn : n ≠ 1) (hk : k ≠ 1) :
    a.mul env b = .error .value ∧ a.truediv env b = .error .value := by
  constructor
  · simp only [Gaussian.mul, ha.precisionA, hb.precisionA, ok_bind, Arr.add, zip_refused _ hne hn hk]; rfl
  · simp only [Gaussian.truediv, ha.precisionA, hb.precisionA, ok_bind, Arr.sub, zip_refused _ hne hn hk]; rfl

/-- A concrete case: dimensions 2 and 3. -/
example : (asFactor 2).mul calmEnv (asFactor 3) = .error .value :=
  (C101_refused (hasNatural_ofNatural _ _ _) (hasNatural_ofNatural _ _ _) (by norm_num) (by norm_num) (by norm_num)).1

/-- **C101.** Nor compared. -/
theorem C101_compare_refused {μ : Fin n → ℝ} {C : Matrix (Fin n) (Fin n) ℝ} {ν : Fin k → ℝ} {D : Matrix (Fin k) (Fin k) ℝ}
    (ha : HasMoments env a μ C) (hb : HasMoments env b ν D) (hne : n ≠ k) (hn : n ≠ 1) (hk : k ≠ 1) :
    a.eq env b = .error .value := by
  simp only [Gaussian.eq, ha.meanA, hb.meanA, ok_bind, Gaussian.allclose, zip_vec_refused _ hne hn hk]; rfl

example : (asMarginal 2).eq calmEnv (asMarginal 3) = .error .value :=
  C101_compare_refused (n := 2) (k := 3) ⟨rfl, rfl⟩ ⟨rfl, rfl⟩ (by norm_num) (by norm_num) (by norm_num)

/-- The quadratic form of a constant added to all entries. -/
theorem quad_const (P : Matrix (Fin n) (Fin n) ℝ) (c : ℝ) (x : Fin n → ℝ) :
    x ⬝ᵥ (of fun i j => P i j + c : Matrix (Fin n) (Fin n) ℝ) *ᵥ x = x ⬝ᵥ P *ᵥ x + c * (∑ i, x i) ^ 2 := by
  have e : (of fun i j => P i j + c : Matrix (Fin n) (Fin n) ℝ) *ᵥ x = P *ᵥ x + fun _ => c * ∑ j, x j := by
    funext i
    simp only [mulVec, dotProduct, of_apply, Pi.add_apply, add_mul, Finset.sum_add_distrib, Finset.mul_sum]
  rw [e, dotProduct_add]
  congr 1
  simp only [dotProduct, ← Finset.sum_mul]; ring

theorem unnorm_const (P : Matrix (Fin n) (Fin n) ℝ) (h : Fin n → ℝ) (q : Matrix (Fin 1) (Fin 1) ℝ) (s : Fin 1 → ℝ) (x : Fin n → ℝ) :
    unnorm (of fun i j => P i j + q 0 0) (fun i => h i + s 0) x = unnorm P h x * unnorm q s fun _ => ∑ i, x i := by
  simp only [unnorm, ← Real.exp_add, quad_const]
  congr 1
  have e : x ⬝ᵥ (fun i => h i + s 0) = x ⬝ᵥ h + (∑ i, x i) * s 0 := by
    simp only [dotProduct, mul_add, Finset.sum_add_distrib, Finset.sum_mul]
  rw [e]
  simp [mulVec, dotProduct]
  ring

/-- **C101.** A one-dimensional state multiplied with an `n`-dimensional one raises nothing: in either order, the result is the
`n`-dimensional density times the one-dimensional density taken at the *sum* of the coordinates. -/
theorem C101_sum {P : Matrix (Fin n) (Fin n) ℝ} {h : Fin n → ℝ} {q : Matrix (Fin 1) (Fin 1) ℝ} {s : Fin 1 → ℝ}
    (ha : HasNatural env a P h) (hb : HasNatural env b q s) :
    ∃ g R t, a.mul env b = .ok g ∧ b.mul env a = .ok g ∧ HasNatural (n := n) env g R t ∧
      ∀ x, unnorm R t x = unnorm P h x * unnorm q s fun _ => ∑ i, x i := by
  have h1 : a.mul env b = .ok (ofNatural (.m ((2 : ℝ)⁻¹ • ((of fun i j => P i j + q 0 0) + (of fun i j => P i j + q 0 0)ᵀ)))
      (.v fun i => h i + s 0)) := by
    simp only [Gaussian.mul, ha.precisionA, hb.precisionA, ha.shiftA, hb.shiftA, ok_bind, Arr.add, zip_big_one, zip_vec_one,
      symmetrize_m, py_pure]
  have h2 : b.mul env a = .ok (ofNatural (.m ((2 : ℝ)⁻¹ • ((of fun i j => P i j + q 0 0) + (of fun i j => P i j + q 0 0)ᵀ)))
      (.v fun i => h i + s 0)) := by
    simp only [Gaussian.mul, ha.precisionA, hb.precisionA, ha.shiftA, hb.shiftA, ok_bind, Arr.add, zip_one_big, zip_one_vec,
      symmetrize_m, py_pure, add_comm (q 0 0), add_comm (s 0)]
  refine ⟨_, _, _, h1, h2, hasNatural_ofNatural _ _ _, fun x => ?_⟩
  rw [unnorm_symmetrize, unnorm_const]

/-- **C101.** Dividing by a one-dimensional state: the density is divided by the one-dimensional density at the sum. -/
theorem C101_sum_div {P : Matrix (Fin n) (Fin n) ℝ} {h : Fin n → ℝ} {q : Matrix (Fin 1) (Fin 1) ℝ} {s : Fin 1 → ℝ}
    (ha : HasNatural env a P h) (hb : HasNatural env b q s) :
    ∃ g R t, a.truediv env b = .ok g ∧ HasNatural (n := n) env g R t ∧
      ∀ x, unnorm R t x * (unnorm q s fun _ => ∑ i, x i) = unnorm P h x := by
  have h1 : a.truediv env b = .ok (ofNatural (.m (of fun i j => P i j - q 0 0)) (.v fun i => h i - s 0)) := by
    simp only [Gaussian.truediv, ha.precisionA, hb.precisionA, ha.shiftA, hb.shiftA, ok_bind, Arr.sub, zip_big_one, zip_vec_one,
      py_pure]
  refine ⟨_, _, _, h1, hasNatural_ofNatural _ _ _, fun x => ?_⟩
  rw [← unnorm_const]
  congr 1
  · ext i j; simp
  · simp

/-- A concrete case: a planar state and one about a single number. -/
example : ∃ g R t, (ofNatural (.m (Matrix.diagonal ![(2 : ℝ), 3])) (.v ![1, 5])).mul calmEnv (ofNatural (.m !![(7 : ℝ)]) (.v ![2])) = .ok g ∧
    HasNatural (n := 2) calmEnv g R t ∧ ∀ x, unnorm R t x = unnorm (Matrix.diagonal ![(2 : ℝ), 3]) ![1, 5] x *
      unnorm !![(7 : ℝ)] ![2] fun _ => ∑ i, x i :=
  let ⟨g, R, t, h1, _, h3, h4⟩ := C101_sum (env := calmEnv) (hasNatural_ofNatural _ (Matrix.diagonal ![(2 : ℝ), 3]) ![1, 5])
    (hasNatural_ofNatural _ !![(7 : ℝ)] ![2])
  ⟨g, R, t, h1, h3, h4⟩

end C101

section C98
variable {env : Env} {k : ℕ} {e : Estimator} {f : Func} {g : Gaussian}

theorem matmul_row_flat (G : Arr) (w : Fin k → ℝ) :
    G.matmul (Arr.m (r := 1) (c := k) (of fun _ j => w j)).reshapeCol = G.matmul (Arr.v w).reshapeCol := by
  have hk : k = 1 * k := (one_mul k).symm
  have e : ∀ i : Fin (1 * k), (finProdFinEquiv.symm i).2 = Fin.cast (one_mul k) i := by
    intro i
    apply Fin.ext
    simp only [finProdFinEquiv_symm_apply, Fin.coe_modNat, Fin.val_cast]
    exact Nat.mod_eq_of_lt (lt_of_lt_of_eq i.2 (one_mul k))
  simp only [Arr.reshapeCol, of_apply, e]
  have key : ∀ (l : ℕ) (h : l = k), (Arr.m (r := l) (c := 1) fun i _ => w (Fin.cast h i)) = Arr.m (r := k) (c := 1) fun i _ => w i := by
    rintro l rfl; rfl
  rw [key _ (one_mul k)]

/-- **C98.** A single projection of an estimator: a measurement given as a row `(1, k)` is treated like the vector. -/
theorem C98_projection_row (y : Fin k → ℝ)
    (hz : ∀ r, e.measMap f g = .ok r → ∃ z : Fin k → ℝ, r.1 = .v z) :
    e.projMeas env f g (.m (r := 1) (of fun _ j => y j)) = e.projMeas env f g (.v y) := by
  unfold Estimator.projMeas
  simp only [Arr.atleast1d]
  cases hm : e.measMap f g with
  | error err => rfl
  | ok r =>
    obtain ⟨z, S, C⟩ := r
    obtain ⟨zv, rfl⟩ := hz _ hm
    have h1 : (Arr.m (r := 1) (of fun _ j => y j)).sub (.v zv) = .ok (.m (r := 1) (of fun _ j => (y - zv) j)) := by
      rw [Arr.sub_mv]; rfl
    simp only [ok_bind, h1, Arr.sub_vv, matmul_row_flat]

/-- **C98.** Given as a column `(k, 1)` with more than one entry, it is refused with a `ValueError` whenever the vector is accepted. -/
theorem C98_projection_column (hk : 2 ≤ k) (y : Fin k → ℝ) {r : Gaussian}
    (hz : ∀ r, e.measMap f g = .ok r → ∃ z : Fin k → ℝ, r.1 = .v z) (h : e.projMeas env f g (.v y) = .ok r) :
    e.projMeas env f g (.m (c := 1) (of fun i _ => y i)) = .error .value := by
  unfold Estimator.projMeas at h ⊢
  simp only [Arr.atleast1d] at h ⊢
  obtain ⟨_, h1, h⟩ := py_bind_ok h
  obtain ⟨⟨z, S, C⟩, h2, h⟩ := py_bind_ok h
  obtain ⟨zv, rfl⟩ := hz _ h2
  obtain ⟨R, h3, h⟩ := py_bind_ok h
  obtain ⟨R', h4, h⟩ := py_bind_ok h
  obtain ⟨S1, h5, h⟩ := py_bind_ok h
  obtain ⟨S2, h6, h⟩ := py_bind_ok h
  obtain ⟨_, h7, h⟩ := py_bind_ok h
  obtain ⟨G, h8, h⟩ := py_bind_ok h
  obtain ⟨μ, h9, h⟩ := py_bind_ok h
  rw [Arr.sub_vv, ok_bind] at h
  obtain ⟨w, h10, h⟩ := py_bind_ok h
  have hc : (Arr.m (c := 1) (of fun i (_ : Fin 1) => y i)).sub (.v zv) = .ok (.m (r := k) (c := k) (of fun i j => y i - zv j)) := by
    simp only [Arr.sub, Arr.zip, Arr.rows, Arr.cols, bdim_one_left, bdim_one_right, Arr.ndim, Arr.shape, List.length_cons, List.length_nil]
    refine congrArg (fun M : Matrix (Fin k) (Fin k) ℝ => Except.ok (Arr.m M)) ?_
    funext i j
    have := bget_vec zv j
    have e2 : (Arr.v zv).bget i j = zv j := by rw [← this]; rfl
    have e1 : (Arr.m (c := 1) (of fun i (_ : Fin 1) => y i)).bget i j = y i := by
      simp [Arr.bget, Nat.mod_one, Nat.mod_eq_of_lt i.2]
    rw [e1, e2]; rfl
  have hkk : k ≠ k * k := by nlinarith
  have hG : G.T.matmul (Arr.m (r := k) (c := k) (of fun i j => y i - zv j)).reshapeCol = .error .value := by
    cases G with
    | s a => rfl
    | @v n f =>
      simp only [Arr.T, Arr.reshapeCol, Arr.matmul] at h10 ⊢
      split_ifs at h10 with hn
      rw [dif_neg (by rw [hn]; exact hkk)]
    | @m r c M =>
      simp only [Arr.T, Arr.reshapeCol, Arr.matmul] at h10 ⊢
      split_ifs at h10 with hn
      rw [dif_neg (by rw [hn]; exact hkk)]
  simp only [h1, h2, h3, h4, h5, h6, h7, h8, h9, ok_bind, hc, hG]
  rfl

/-- An estimator of a state with two coordinates that are measured directly with unit noise. -/
noncomputable def directPlane : Estimator :=
  { transMap := fun _ _ => .error .value, measMap := fun _ _ => .ok (.v ![0, 0], .m (1 : Matrix (Fin 2) (Fin 2) ℝ), .m (1 : Matrix (Fin 2) (Fin 2) ℝ)),
    Q := none, R := some (.m (1 : Matrix (Fin 2) (Fin 2) ℝ)), power := 1, damping := 1 }

theorem directPlane_vec : ∀ r, directPlane.measMap f g = .ok r → ∃ z : Fin 2 → ℝ, r.1 = .v z := by
  rintro r h
  injection h with h
  exact ⟨![0, 0], by rw [← h]⟩

/-- A concrete case for both. -/
example : directPlane.projMeas calmEnv f (ofMoment (.v ![0, 0]) (Arr.eye 2)) (.m (r := 1) (of fun _ j => (![3, 4] : Fin 2 → ℝ) j)) =
      directPlane.projMeas calmEnv f (ofMoment (.v ![0, 0]) (Arr.eye 2)) (.v ![3, 4]) ∧
    directPlane.projMeas calmEnv f (ofMoment (.v ![0, 0]) (Arr.eye 2)) (.m (c := 1) (of fun i _ => (![3, 4] : Fin 2 → ℝ) i)) = .error .value := by
  refine ⟨C98_projection_row _ directPlane_vec, C98_projection_column (by norm_num) _ directPlane_vec
    (projMeas_of (n := 2) (μ := ![0, 0]) ⟨rfl, rfl⟩ Matrix.PosDef.one one_ne_zero rfl (.inl rfl) (.inl rfl) rfl ?_)⟩
  have : (directPlane.power⁻¹ : ℝ) = 1 := inv_one
  rw [this, one_smul]
  exact Matrix.PosDef.one.add Matrix.PosDef.one

end C98

end Verif

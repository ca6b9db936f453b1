import Verif.Model.Systems
import Verif.Lemmas.Arr
import Verif.Lemmas.Gaussian
import Verif.Spec.Transforms
import Mathlib.Analysis.Calculus.FDeriv.Mul

/-!
# Properties of the Lorenz-96 system (C53, C54)
-/

namespace Verif

open Matrix L96

/-! ## Rolling -/

private theorem rollIdx_val {c : ℕ} (k : ℤ) (j : Fin c) : ((rollIdx k j : Fin c) : ℤ) = ((j : ℤ) - k) % c := by
  have hc : (0 : ℤ) < c := by exact_mod_cast Nat.lt_of_le_of_lt (Nat.zero_le _) j.isLt
  simp only [rollIdx]
  exact Int.toNat_of_nonneg (Int.emod_nonneg _ hc.ne')

private theorem fin_eq_of_int {c : ℕ} {a b : Fin c} (h : (a : ℤ) = b) : a = b := Fin.ext (by exact_mod_cast h)

private theorem roll_roll {c : ℕ} (k l : ℤ) (j : Fin c) : rollIdx k (rollIdx l j) = rollIdx (k + l) j := by
  refine fin_eq_of_int ?_
  rw [rollIdx_val, rollIdx_val, rollIdx_val, Int.emod_sub_emod]
  congr 1; ring

private theorem roll_zero {c : ℕ} (j : Fin c) : rollIdx 0 j = j := by
  refine fin_eq_of_int ?_
  rw [rollIdx_val, sub_zero]
  exact Int.emod_eq_of_lt (by positivity) (by exact_mod_cast j.isLt)

/-- Rolling is a permutation of the columns. -/
private def rollEquiv {c : ℕ} (k : ℤ) : Equiv.Perm (Fin c) where
  toFun := rollIdx k
  invFun := rollIdx (-k)
  left_inv j := by rw [roll_roll, neg_add_cancel, roll_zero]
  right_inv j := by rw [roll_roll, add_neg_cancel, roll_zero]

private theorem roll_of_mod {c : ℕ} (n : ℕ) (j p : Fin c) (h : (p : ℕ) = (j + n) % c) : rollIdx (-(n : ℤ)) j = p := by
  refine fin_eq_of_int ?_
  rw [rollIdx_val, h]; push_cast; congr 1; ring

private theorem roll_of_mod' {c : ℕ} (n : ℕ) (j p : Fin c) (h : (j : ℕ) = (p + n) % c) : rollIdx n j = p := by
  have := roll_of_mod n p j h
  rw [← this, roll_roll, add_neg_cancel, roll_zero]

/-! ## C53 -/

/-- C53: the drift of component `j` is `(x_{j-1} - x_{j+2}) x_{j+1} - x_j + F`, indices modulo the dimension, row by row.
A vector is treated as a single row. -/
theorem C53_formula (F : ℝ) {r c : ℕ} (X : Matrix (Fin r) (Fin c) ℝ) :
    ∃ D : Matrix (Fin r) (Fin c) ℝ, model F (.m X) = .m D ∧
      (∀ k, model F (.v (X k)) = .m (r := 1) (of fun _ j => D k j)) ∧
      ∀ (k : Fin r) (j prev next next2 : Fin c), (j : ℕ) = (prev + 1) % c → (next : ℕ) = (j + 1) % c →
        (next2 : ℕ) = (j + 2) % c → D k j = (X k prev - X k next2) * X k next - X k j + F := by
  refine ⟨_, rfl, fun k => rfl, fun k j p n n2 hp hn hn2 => ?_⟩
  have e1 := roll_of_mod 1 j n hn
  have e2 := roll_of_mod 2 j n2 hn2
  have e3 := roll_of_mod' 1 j p hp
  simp only [Nat.cast_one, Nat.cast_ofNat] at e1 e2 e3
  simp only [drift, of_apply, roll, e1, e2, e3]
  ring

/-- The cyclic shift of the columns by `n`. -/
def cyclicShift (n : ℕ) {r c : ℕ} (X : Matrix (Fin r) (Fin c) ℝ) : Matrix (Fin r) (Fin c) ℝ :=
  of fun k j => X k ⟨(j + n) % c, Nat.mod_lt _ (Nat.lt_of_le_of_lt (Nat.zero_le _) j.isLt)⟩

private theorem cyclicShift_eq (n : ℕ) {r c : ℕ} (X : Matrix (Fin r) (Fin c) ℝ) : cyclicShift n X = roll (-(n : ℤ)) X := by
  ext k j
  simp only [cyclicShift, of_apply, roll]
  congr 1
  exact (roll_of_mod n j _ rfl).symm

private theorem drift_roll (F : ℝ) (n : ℤ) {r c : ℕ} (X : Matrix (Fin r) (Fin c) ℝ) :
    drift F (roll n X) = roll n (drift F X) := by
  ext k j
  simp only [drift, of_apply, roll, roll_roll, add_comm n]

/-- C53: shifting the state cyclically shifts the drift. -/
theorem C53_shift_equivariant (F : ℝ) (n : ℕ) {r c : ℕ} (X D : Matrix (Fin r) (Fin c) ℝ) (h : model F (.m X) = .m D) :
    model F (.m (cyclicShift n X)) = .m (cyclicShift n D) := by
  obtain rfl := Arr.m_inj.1 h
  rw [cyclicShift_eq, cyclicShift_eq, ← drift_roll]; rfl

/-- C53: the constant state `F` has drift zero. -/
theorem C53_equilibrium (F : ℝ) (r c : ℕ) :
    model F (.m (of fun (_ : Fin r) (_ : Fin c) => F)) = .m (0 : Matrix (Fin r) (Fin c) ℝ) := by
  show Arr.m _ = Arr.m _
  congr 1
  ext i j
  simp [drift, roll]

/-- C53: the quadratic part conserves energy: only damping and forcing change `Σ x²/2`. -/
theorem C53_energy (F : ℝ) {r c : ℕ} (X D : Matrix (Fin r) (Fin c) ℝ) (h : model F (.m X) = .m D) (k : Fin r) :
    ∑ j, X k j * D k j = F * ∑ j, X k j - ∑ j, X k j ^ 2 := by
  obtain rfl := Arr.m_inj.1 h
  have e : ∀ j, X k j * drift F X k j =
      (X k (rollIdx 1 j) * X k j * X k (rollIdx (-1) j) - X k j * X k (rollIdx (-1) j) * X k (rollIdx (-2) j)) +
        (F * X k j - X k j ^ 2) := fun j => by
    simp only [drift, of_apply, roll]; ring
  have s : ∑ j, X k (rollIdx 1 j) * X k j * X k (rollIdx (-1) j) =
      ∑ j, X k j * X k (rollIdx (-1) j) * X k (rollIdx (-2) j) := by
    rw [← Equiv.sum_comp (rollEquiv (-1)) fun j => X k (rollIdx 1 j) * X k j * X k (rollIdx (-1) j)]
    refine Finset.sum_congr rfl fun j _ => ?_
    show X k (rollIdx 1 (rollIdx (-1) j)) * X k (rollIdx (-1) j) * X k (rollIdx (-1) (rollIdx (-1) j)) = _
    rw [roll_roll, roll_roll, add_neg_cancel, roll_zero, show (-1 : ℤ) + -1 = -2 from rfl]
  rw [Finset.sum_congr rfl fun j _ => e j, Finset.sum_add_distrib, Finset.sum_sub_distrib, s, sub_self, zero_add,
    Finset.sum_sub_distrib, Finset.mul_sum]

/-- The drift of the README: `(x_{i+1} - x_{i-2}) x_{i-1} - x_i + F`, indices modulo `c` (`c - 2` taken as a cyclic step). -/
def IsReadmeDrift (F : ℝ) {c : ℕ} (x d : Fin c → ℝ) : Prop :=
  ∀ i prev prev2 next : Fin c, (next : ℕ) = (i + 1) % c → (i : ℕ) = (prev + 1) % c → (i : ℕ) = (prev2 + 2) % c →
    d i = (x next - x prev2) * x prev - x i + F

private theorem rev_mod {c : ℕ} (n : ℕ) (a b : Fin c) (h : (b : ℕ) = (a + n) % c) : (Fin.rev a : ℕ) = (Fin.rev b + n) % c := by
  have e : rollIdx n (Fin.rev a) = Fin.rev b := by
    refine fin_eq_of_int ?_
    have hb : (b : ℤ) = (a + n) % c := by exact_mod_cast h
    have ha := a.isLt
    have hb' := b.isLt
    have hc : (0 : ℤ) < c := by exact_mod_cast Nat.lt_of_le_of_lt (Nat.zero_le _) a.isLt
    rw [rollIdx_val, Fin.val_rev, Fin.val_rev]
    have e1 : ((c - (a + 1) : ℕ) : ℤ) = c - 1 - a := by omega
    have e2 : ((c - (b + 1) : ℕ) : ℤ) = c - 1 - b := by omega
    rw [e1, e2, hb]
    have h1 := Int.emod_nonneg ((a : ℤ) + n) hc.ne'
    have h2 := Int.emod_lt_of_pos ((a : ℤ) + n) hc
    rw [show (c : ℤ) - 1 - a - n = (c - 1 - ((a + n) % c)) + c * (-((a + n) / c)) by
      have := Int.emod_add_mul_ediv ((a : ℤ) + n) c
      linear_combination this]
    rw [Int.add_mul_emod_self_left]
    exact Int.emod_eq_of_lt (by omega) (by omega)
  have hv := rollIdx_val (n : ℤ) (Fin.rev a)
  rw [e] at hv
  have hra := (Fin.rev a).isLt
  have : ((Fin.rev a : ℕ) : ℤ) = ((Fin.rev b : ℕ) + n) % c := by
    rw [hv, Int.emod_add_emod, sub_add_cancel]
    exact (Int.emod_eq_of_lt (by positivity) (by exact_mod_cast hra)).symm
  exact_mod_cast this

/-- C53: the code computes the mirror image of the README's equation: reversing the order of the components turns one into the
other. -/
theorem C53_mirror_of_readme (F : ℝ) {c : ℕ} (x d : Fin c → ℝ) (h : model F (.v x) = .m (r := 1) (of fun _ j => d j)) :
    IsReadmeDrift F (fun i => x (Fin.rev i)) (fun i => d (Fin.rev i)) := by
  obtain ⟨D, h1, -, h3⟩ := C53_formula F (r := 1) (of fun _ j => x j)
  have h' : Arr.m D = .m (r := 1) (of fun _ j => d j) := h1.symm.trans h
  obtain rfl := Arr.m_inj.1 h'
  intro i p p2 n hn hp hp2
  have := h3 0 (Fin.rev i) (Fin.rev n) (Fin.rev p) (Fin.rev p2) (rev_mod 1 i n hn) (rev_mod 1 p i hp) (rev_mod 2 p2 i hp2)
  exact this

/-- C53: in every dimension from four on it is a different equation. -/
theorem C53_differs_from_readme (F : ℝ) (c : ℕ) (hc : 4 ≤ c) :
    ∃ x d : Fin c → ℝ, model F (.v x) = .m (r := 1) (of fun _ j => d j) ∧ ¬ IsReadmeDrift F x d := by
  let x : Fin c → ℝ := fun j => if j.val = 2 ∨ j.val = 3 then 1 else 0
  obtain ⟨D, h1, -, h3⟩ := C53_formula F (r := 1) (of fun _ j => x j)
  refine ⟨x, D 0, ?_, fun hr => ?_⟩
  · refine (h1 : model F (.v x) = .m D).trans ?_
    congr 1; ext i j; rw [Subsingleton.elim i 0]; rfl
  have m : ∀ n, n < c → n % c = n := fun n h => Nat.mod_eq_of_lt h
  have e := h3 0 ⟨1, by omega⟩ ⟨0, by omega⟩ ⟨2, by omega⟩ ⟨3, by omega⟩ (by simp [m 1 (by omega)]) (by simp [m 2 (by omega)])
    (by simp [m 3 (by omega)])
  have e' := hr ⟨1, by omega⟩ ⟨0, by omega⟩ ⟨c - 1, by omega⟩ ⟨2, by omega⟩ (by simp [m 2 (by omega)]) (by simp [m 1 (by omega)])
    (by
      have : c - 1 + 2 = 1 + c := by omega
      simp only [this, Nat.add_mod_right, m 1 (by omega)])
  rw [e] at e'
  simp [x] at e'

/-- A state that moves. -/
example : ∃ x d : Fin 4 → ℝ, model 8 (.v x) = .m (r := 1) (of fun _ j => d j) ∧ d ≠ 0 := by
  refine ⟨fun _ => 0, fun _ => 8, ?_, ?_⟩
  · show Arr.m _ = Arr.m _
    congr 1; ext i j; simp [drift, roll]
  · intro h; simpa using congrFun h 0

/-! ### The Runge-Kutta step -/

/-- The step on matrices, as the sum of the four stages. -/
private noncomputable def rk {r c : ℕ} (dt F : ℝ) (X : Matrix (Fin r) (Fin c) ℝ) : Matrix (Fin r) (Fin c) ℝ :=
  let k1 := drift F X
  let k2 := drift F (X + of fun i j => dt * k1 i j / 2)
  let k3 := drift F (X + of fun i j => dt * k2 i j / 2)
  let k4 := drift F (X + dt • k3)
  X + (1 / 6 * dt) • (k1 + (2 : ℝ) • k2 + (2 : ℝ) • k3 + k4)

private theorem f_m {r c : ℕ} (dt F : ℝ) (X : Matrix (Fin r) (Fin c) ℝ) (t u : Option ℝ) :
    f dt F (.m X) t u = .ok (.m (rk dt F X)) := by
  have hm : ∀ Y : Matrix (Fin r) (Fin c) ℝ, model F (.m Y) = .m (drift F Y) := fun _ => rfl
  have hd : ∀ Y : Matrix (Fin r) (Fin c) ℝ, (Arr.m (dt • Y)).map (· / 2) = .m (of fun i j => dt * Y i j / 2) := fun _ => rfl
  simp only [f, hm, Arr.smul_m, hd, Arr.add_mm, ok_bind]
  rfl

private theorem add_row {c : ℕ} (x : Fin c → ℝ) (Y : Matrix (Fin 1) (Fin c) ℝ) :
    (Arr.v x).add (.m Y) = .ok (.m ((of fun _ j => x j) + Y)) := by
  rw [Arr.add_vm]; rfl

private theorem f_v {c : ℕ} (dt F : ℝ) (x : Fin c → ℝ) (t u : Option ℝ) :
    f dt F (.v x) t u = .ok (.m (rk dt F (r := 1) (of fun _ j => x j))) := by
  have hm : ∀ Y : Matrix (Fin 1) (Fin c) ℝ, model F (.m Y) = .m (drift F Y) := fun _ => rfl
  have hv : model F (.v x) = .m (drift F (r := 1) (of fun _ j => x j)) := rfl
  have hd : ∀ Y : Matrix (Fin 1) (Fin c) ℝ, (Arr.m (dt • Y)).map (· / 2) = .m (of fun i j => dt * Y i j / 2) := fun _ => rfl
  simp only [f, hv, hm, Arr.smul_m, hd, add_row, Arr.add_mm, ok_bind]
  rfl

/-- C53: the transition keeps shape `(N, dim)` and turns a vector into a row of shape `(1, dim)`; rows do not influence each
other. -/
theorem C53_step_rows {r c : ℕ} (dt F : ℝ) (X : Matrix (Fin r) (Fin c) ℝ) (t u : Option ℝ) :
    ∃ Y : Matrix (Fin r) (Fin c) ℝ, f dt F (.m X) t u = .ok (.m Y) ∧
      ∀ k, f dt F (.v (X k)) t u = .ok (.m (r := 1) (of fun _ j => Y k j)) :=
  ⟨_, f_m dt F X t u, fun k => (f_v dt F (X k) t u).trans rfl⟩

private theorem drift_differentiable {c : ℕ} (F : ℝ) {Z : (Fin c → ℝ) → Matrix (Fin 1) (Fin c) ℝ}
    (hZ : ∀ j, Differentiable ℝ fun x => Z x 0 j) (j : Fin c) : Differentiable ℝ fun x => drift F (Z x) 0 j := by
  have h1 := hZ (rollIdx (-1) j)
  have h2 := hZ (rollIdx (-2) j)
  have h3 := hZ (rollIdx 1 j)
  have h4 := hZ j
  simp only [drift, roll, of_apply]
  fun_prop

/-- C53: the transition of a vector is a row of differentiable functions of it. -/
theorem C53_step_differentiable {c : ℕ} (dt F : ℝ) (t u : Option ℝ) :
    ∃ Φ : (Fin c → ℝ) → Fin c → ℝ, RowFunc (fun z => f dt F z t u) Φ ∧ Differentiable ℝ Φ := by
  refine ⟨fun x j => rk dt F (r := 1) (of fun _ j => x j) 0 j, fun x => (f_v dt F x t u).trans ?_, differentiable_pi.2 fun j => ?_⟩
  · rfl
  · have h0 : ∀ j, Differentiable ℝ fun x : Fin c → ℝ => (of fun _ j => x j : Matrix (Fin 1) (Fin c) ℝ) 0 j := fun j =>
      differentiable_apply j
    have h1 := drift_differentiable F h0
    have h2 := drift_differentiable F (Z := fun x => (of fun _ j => x j) + of fun i j => dt * drift F (of fun _ j => x j) i j / 2)
      fun j => by have := h0 j; have := h1 j; simp only [Matrix.add_apply, of_apply] at *; fun_prop
    have h3 := drift_differentiable F (Z := fun x => (of fun _ j => x j) +
        of fun i j => dt * drift F ((of fun _ j => x j) + of fun i j => dt * drift F (of fun _ j => x j) i j / 2) i j / 2)
      fun j => by have := h0 j; have := h2 j; simp only [Matrix.add_apply, of_apply] at *; fun_prop
    have h4 := drift_differentiable F (Z := fun x => (of fun _ j => x j) + dt • drift F ((of fun _ j => x j) +
        of fun i j => dt * drift F ((of fun _ j => x j) + of fun i j => dt * drift F (of fun _ j => x j) i j / 2) i j / 2))
      fun j => by have := h0 j; have := h3 j; simp only [Matrix.add_apply, Matrix.smul_apply, smul_eq_mul, of_apply] at *; fun_prop
    have a0 := h0 j
    have a1 := h1 j
    have a2 := h2 j
    have a3 := h3 j
    have a4 := h4 j
    unfold rk
    simp only [Matrix.add_apply, Matrix.smul_apply, smul_eq_mul, of_apply] at *
    fun_prop

/-- C53: the transition leaves the constant state `F` where it is, for every time step. -/
theorem C53_step_equilibrium (dt F : ℝ) (r c : ℕ) (t u : Option ℝ) :
    f dt F (.m (of fun (_ : Fin r) (_ : Fin c) => F)) t u = .ok (.m (of fun (_ : Fin r) (_ : Fin c) => F)) := by
  rw [f_m]
  have h0 : drift F (of fun (_ : Fin r) (_ : Fin c) => F) = 0 := Arr.m_inj.1 (C53_equilibrium F r c)
  congr 2
  have hz : ∀ Y : Matrix (Fin r) (Fin c) ℝ, Y = 0 → (of fun i j => dt * Y i j / 2 : Matrix (Fin r) (Fin c) ℝ) = 0 := by
    rintro _ rfl; ext i j; simp
  simp only [rk, h0, hz _ rfl, add_zero, smul_zero]

/-- C53: the transition commutes with cyclic shifts. -/
theorem C53_step_shift_equivariant (dt F : ℝ) (n : ℕ) {r c : ℕ} (X Y : Matrix (Fin r) (Fin c) ℝ) (t u : Option ℝ)
    (h : f dt F (.m X) t u = .ok (.m Y)) : f dt F (.m (cyclicShift n X)) t u = .ok (.m (cyclicShift n Y)) := by
  rw [f_m] at h ⊢
  obtain rfl := Arr.m_inj.1 (Except.ok.inj h)
  congr 2
  rw [cyclicShift_eq, cyclicShift_eq]
  set k : ℤ := -(n : ℤ)
  have l1 : ∀ A B : Matrix (Fin r) (Fin c) ℝ, roll k A + roll k B = roll k (A + B) := fun _ _ => rfl
  have l2 : ∀ (a : ℝ) (A : Matrix (Fin r) (Fin c) ℝ), a • roll k A = roll k (a • A) := fun _ _ => rfl
  have l3 : ∀ A : Matrix (Fin r) (Fin c) ℝ, (of fun i j => dt * roll k A i j / 2 : Matrix (Fin r) (Fin c) ℝ) =
      roll k (of fun i j => dt * A i j / 2) := fun _ => rfl
  simp only [rk, drift_roll, l1, l2, l3]

/-! ## C54 -/

private theorem spinUp_shape {c : ℕ} (n : ℕ) : ∀ X : Matrix (Fin 1) (Fin c) ℝ, ∃ Y : Matrix (Fin 1) (Fin c) ℝ,
    spinUp n (.m X) = .ok (.m Y) := by
  induction n with
  | zero => exact fun X => ⟨X, rfl⟩
  | succ n ih =>
    intro X
    obtain ⟨Y, hY⟩ := ih (rk 0.05 8 X)
    exact ⟨Y, by rw [spinUp, f_m]; exact hY⟩

private theorem spinUp_vec {c : ℕ} (n : ℕ) (x : Fin c → ℝ) : ∃ Y : Matrix (Fin 1) (Fin c) ℝ,
    spinUp (n + 1) (.v x) = .ok (.m Y) := by
  obtain ⟨Y, hY⟩ := spinUp_shape n (rk 0.05 8 (r := 1) (of fun _ j => x j))
  exact ⟨Y, by rw [spinUp, f_v]; exact hY⟩

/-- C54: the generated initial condition has shape `(1, dim)`. -/
theorem C54_generated_shape (dim : ℕ) (F : ℝ) (hd : 2 ≤ dim) :
    ∃ X : Matrix (Fin 1) (Fin dim) ℝ, generate dim F = .ok (.m X) := by
  have h0 : dim ≠ 0 := by omega
  have h1 : dim ≠ 1 := by omega
  obtain ⟨Y, hY⟩ := spinUp_vec (c := dim) 998 fun j => if j.val = 0 then F + 0.01 else F
  refine ⟨Y, ?_⟩
  unfold generate start
  rw [if_neg h0]
  refine Eq.trans (b := (do let last ← spinUp 999 _; if dim = 1 then .error .outOfModel else return last)) rfl ?_
  rw [show spinUp 999 _ = _ from hY, ok_bind, if_neg h1]
  rfl

/-- C54: without a stored initial condition the constructor fails its assertion in every dimension from two on. -/
theorem C54_constructor_fails (q r dt F : ℝ) (dim : ℕ) (hd : 2 ≤ dim) : L96.init q r dt dim F none = .error .assertion := by
  obtain ⟨X, hX⟩ := C54_generated_shape dim F hd
  have : (1 : ℕ) ≠ dim := by omega
  simp only [L96.init, hX, ok_bind, Arr.shape0_m, ne_eq, this, not_false_eq_true, if_true]
  rfl

/-- C54: with a stored initial condition of shape `(dim,)` the constructor succeeds, and that array is the initial mean. -/
theorem C54_stored_works (q r dt F : ℝ) {dim : ℕ} (x : Fin dim → ℝ) :
    ∃ sys, L96.init q r dt dim F (some (.v x)) = .ok sys ∧ sys.initState = Gaussian.ofMoment (.v x) (Arr.eye dim) := by
  have e : L96.init q r dt dim F (some (.v x)) = Sys.make dim dim (f dt F) L96.h (.init dim (some ((Arr.eye dim).smul q)) none)
      (.init dim (some ((Arr.eye dim).smul r)) none) (Gaussian.ofMoment (.v x) (Arr.eye dim)) 1 := by
    simp only [L96.init, ok_bind, Arr.shape0_v, ne_eq, not_true_eq_false, if_false]
  rw [e]
  exact ⟨_, if_pos ⟨rfl, rfl⟩, rfl⟩

example : L96.init 0.1 1 0.05 40 8 none = .error .assertion := C54_constructor_fails _ _ _ _ _ (by norm_num)

end Verif

import Verif.Model.Arr

/-! Bridge lemmas: on well-shaped arguments the numpy operations are Mathlib's matrix operations. -/

namespace Verif.Arr

open Matrix

@[simp] theorem bdim_self (a : ℕ) : bdim a a = some a := by simp [bdim]
@[simp] theorem bdim_one_left (a : ℕ) : bdim 1 a = some a := by
  unfold bdim; split
  · next h => rw [h]
  · simp
@[simp] theorem bdim_one_right (a : ℕ) : bdim a 1 = some a := by
  unfold bdim; split
  · rfl
  · split <;> simp_all

@[simp] theorem bget_v {n : ℕ} (f : Fin n → ℝ) (i : ℕ) (j : Fin n) : (v f).bget i j = f j := by
  have : (j : ℕ) % n = j := Nat.mod_eq_of_lt j.2
  simp [bget, this]

@[simp] theorem bget_m {r c : ℕ} (M : Matrix (Fin r) (Fin c) ℝ) (i : Fin r) (j : Fin c) :
    (m M).bget i j = M i j := by
  have h1 : (i : ℕ) % r = i := Nat.mod_eq_of_lt i.2
  have h2 : (j : ℕ) % c = j := Nat.mod_eq_of_lt j.2
  simp [bget, h1, h2]

@[simp] theorem bget_s (a : ℝ) (i j : ℕ) : (s a).bget i j = a := rfl

theorem bget_v1 (f : Fin 1 → ℝ) (i j : ℕ) : (v f).bget i j = f 0 := by
  simp [bget, Nat.mod_one]

theorem bget_m_col {r : ℕ} (M : Matrix (Fin r) (Fin 1) ℝ) (i : Fin r) (j : ℕ) :
    (m M).bget i j = M i 0 := by
  have h1 : (i : ℕ) % r = i := Nat.mod_eq_of_lt i.2
  simp [bget, h1, Nat.mod_one]

theorem bget_m11 (M : Matrix (Fin 1) (Fin 1) ℝ) (i j : ℕ) : (m M).bget i j = M 0 0 := by
  simp [bget, Nat.mod_one]

@[simp] theorem rows_s (a : ℝ) : (s a).rows = 1 := rfl
@[simp] theorem rows_v {n} (f : Fin n → ℝ) : (v f).rows = 1 := rfl
@[simp] theorem rows_m {r c} (M : Matrix (Fin r) (Fin c) ℝ) : (m M).rows = r := rfl
@[simp] theorem cols_s (a : ℝ) : (s a).cols = 1 := rfl
@[simp] theorem cols_v {n} (f : Fin n → ℝ) : (v f).cols = n := rfl
@[simp] theorem cols_m {r c} (M : Matrix (Fin r) (Fin c) ℝ) : (m M).cols = c := rfl
@[simp] theorem ndim_s (a : ℝ) : (s a).ndim = 0 := rfl
@[simp] theorem ndim_v {n} (f : Fin n → ℝ) : (v f).ndim = 1 := rfl
@[simp] theorem ndim_m {r c} (M : Matrix (Fin r) (Fin c) ℝ) : (m M).ndim = 2 := rfl
@[simp] theorem shape_s (a : ℝ) : (s a).shape = [] := rfl
@[simp] theorem shape_v {n} (f : Fin n → ℝ) : (v f).shape = [n] := rfl
@[simp] theorem shape_m {r c} (M : Matrix (Fin r) (Fin c) ℝ) : (m M).shape = [r, c] := rfl

@[simp] theorem add_vv {n} (f g : Fin n → ℝ) : add (v f) (v g) = .ok (v (f + g)) := by
  simp [add, zip]; rfl
@[simp] theorem sub_vv {n} (f g : Fin n → ℝ) : sub (v f) (v g) = .ok (v (f - g)) := by
  simp [sub, zip]; rfl
@[simp] theorem add_mm {r c} (M N : Matrix (Fin r) (Fin c) ℝ) : add (m M) (m N) = .ok (m (M + N)) := by
  simp [add, zip]; rfl
@[simp] theorem sub_mm {r c} (M N : Matrix (Fin r) (Fin c) ℝ) : sub (m M) (m N) = .ok (m (M - N)) := by
  simp [sub, zip]; rfl
@[simp] theorem add_ss (a b : ℝ) : add (s a) (s b) = .ok (s (a + b)) := by simp [add, zip]
@[simp] theorem sub_ss (a b : ℝ) : sub (s a) (s b) = .ok (s (a - b)) := by simp [sub, zip]

/-- `(n,) + (r,n)`: the vector is added to every row. -/
theorem zip_vm (op) {r n} (f : Fin n → ℝ) (M : Matrix (Fin r) (Fin n) ℝ) :
    zip op (v f) (m M) = .ok (m (of fun i j => op (f j) (M i j))) := by
  simp [zip]; rfl
theorem zip_mv (op) {r n} (M : Matrix (Fin r) (Fin n) ℝ) (f : Fin n → ℝ) :
    zip op (m M) (v f) = .ok (m (of fun i j => op (M i j) (f j))) := by
  simp [zip]; rfl
/-- `(n,) + (k,1)`: numpy builds the `(k,n)` outer sum. -/
theorem zip_v_col (op) {k n} (f : Fin n → ℝ) (M : Matrix (Fin k) (Fin 1) ℝ) :
    zip op (v f) (m M) = .ok (m (r := k) (c := n) (of fun i j => op (f j) (M i 0))) := by
  simp [zip, bget_m_col]; rfl

@[simp] theorem add_vm {r n} (f : Fin n → ℝ) (M : Matrix (Fin r) (Fin n) ℝ) :
    add (v f) (m M) = .ok (m (of fun i j => f j + M i j)) := zip_vm _ _ _
@[simp] theorem sub_vm {r n} (f : Fin n → ℝ) (M : Matrix (Fin r) (Fin n) ℝ) :
    sub (v f) (m M) = .ok (m (of fun i j => f j - M i j)) := zip_vm _ _ _
@[simp] theorem add_mv {r n} (f : Fin n → ℝ) (M : Matrix (Fin r) (Fin n) ℝ) :
    add (m M) (v f) = .ok (m (of fun i j => M i j + f j)) := zip_mv _ _ _
@[simp] theorem sub_mv {r n} (f : Fin n → ℝ) (M : Matrix (Fin r) (Fin n) ℝ) :
    sub (m M) (v f) = .ok (m (of fun i j => M i j - f j)) := zip_mv _ _ _

@[simp] theorem smul_v {n} (k : ℝ) (f : Fin n → ℝ) : smul k (v f) = v (k • f) := rfl
@[simp] theorem smul_m {r c} (k : ℝ) (M : Matrix (Fin r) (Fin c) ℝ) : smul k (m M) = m (k • M) := rfl
@[simp] theorem smul_s (k a : ℝ) : smul k (s a) = s (k * a) := rfl

theorem divS_of_ne (a : Arr) {k : ℝ} (hk : k ≠ 0) : divS a k = .ok (smul k⁻¹ a) := by
  cases a <;> simp [divS, hk, map, smul, div_eq_inv_mul]

@[simp] theorem divS_v {n} (f : Fin n → ℝ) {k : ℝ} (hk : k ≠ 0) : divS (v f) k = .ok (v (k⁻¹ • f)) := by
  rw [divS_of_ne _ hk]; rfl
@[simp] theorem divS_m {r c} (M : Matrix (Fin r) (Fin c) ℝ) {k : ℝ} (hk : k ≠ 0) :
    divS (m M) k = .ok (m (k⁻¹ • M)) := by
  rw [divS_of_ne _ hk]; rfl

@[simp] theorem iadd_mm {r c} (M N : Matrix (Fin r) (Fin c) ℝ) : iadd (m M) (m N) = .ok (m (M + N)) := by
  simp [iadd]
@[simp] theorem iadd_vv {n} (f g : Fin n → ℝ) : iadd (v f) (v g) = .ok (v (f + g)) := by
  simp [iadd]

@[simp] theorem T_m {r c} (M : Matrix (Fin r) (Fin c) ℝ) : (m M).T = m Mᵀ := rfl
@[simp] theorem T_v {n} (f : Fin n → ℝ) : (v f).T = v f := rfl
@[simp] theorem T_s (a : ℝ) : (s a).T = s a := rfl

@[simp] theorem matmul_mm {r k c} (M : Matrix (Fin r) (Fin k) ℝ) (N : Matrix (Fin k) (Fin c) ℝ) :
    matmul (m M) (m N) = .ok (m (M * N)) := by
  simp [matmul]
@[simp] theorem matmul_mv {r k} (M : Matrix (Fin r) (Fin k) ℝ) (f : Fin k → ℝ) :
    matmul (m M) (v f) = .ok (v (M *ᵥ f)) := by
  simp [matmul]
@[simp] theorem matmul_vm {k c} (f : Fin k → ℝ) (N : Matrix (Fin k) (Fin c) ℝ) :
    matmul (v f) (m N) = .ok (v (f ᵥ* N)) := by
  simp [matmul]
@[simp] theorem matmul_vv {k} (f g : Fin k → ℝ) : matmul (v f) (v g) = .ok (s (f ⬝ᵥ g)) := by
  simp [matmul]

@[simp] theorem dot_mm {r k c} (M : Matrix (Fin r) (Fin k) ℝ) (N : Matrix (Fin k) (Fin c) ℝ) :
    dot (m M) (m N) = .ok (m (M * N)) := by simp [dot]
@[simp] theorem dot_mv {r k} (M : Matrix (Fin r) (Fin k) ℝ) (f : Fin k → ℝ) :
    dot (m M) (v f) = .ok (v (M *ᵥ f)) := by simp [dot]
@[simp] theorem dot_vv {k} (f g : Fin k → ℝ) : dot (v f) (v g) = .ok (s (f ⬝ᵥ g)) := by simp [dot]

@[simp] theorem atleast1d_v {n} (f : Fin n → ℝ) : atleast1d (v f) = v f := rfl
@[simp] theorem atleast1d_m {r c} (M : Matrix (Fin r) (Fin c) ℝ) : atleast1d (m M) = m M := rfl
@[simp] theorem atleast1d_s (a : ℝ) : atleast1d (s a) = v (n := 1) fun _ => a := rfl
@[simp] theorem atleast2d_v {n} (f : Fin n → ℝ) : atleast2d (v f) = m (r := 1) (of fun _ j => f j) := rfl
@[simp] theorem atleast2d_m {r c} (M : Matrix (Fin r) (Fin c) ℝ) : atleast2d (m M) = m M := rfl

@[simp] theorem atleast1d_idem (a : Arr) : a.atleast1d.atleast1d = a.atleast1d := by
  cases a <;> rfl

@[simp] theorem shape0_v {n} (f : Fin n → ℝ) : (v f).shape0 = .ok n := rfl
@[simp] theorem shape0_m {r c} (M : Matrix (Fin r) (Fin c) ℝ) : (m M).shape0 = .ok r := rfl
@[simp] theorem shapeLast_m {r c} (M : Matrix (Fin r) (Fin c) ℝ) : (m M).shapeLast = .ok c := rfl

@[simp] theorem trace_m {n} (M : Matrix (Fin n) (Fin n) ℝ) : (m M).trace = .ok M.trace := by
  simp [trace, Matrix.trace]

@[simp] theorem reshapeCol_v {n} (f : Fin n → ℝ) : reshapeCol (v f) = m (r := n) (c := 1) (of fun i _ => f i) := rfl

theorem v_inj {n} {f g : Fin n → ℝ} : v f = v g ↔ f = g := by
  constructor
  · intro h; injection h
  · rintro rfl; rfl
theorem m_inj {r c} {M N : Matrix (Fin r) (Fin c) ℝ} : m M = m N ↔ M = N := by
  constructor
  · intro h; injection h
  · rintro rfl; rfl

theorem squeeze_v {n} (f : Fin n → ℝ) (h : n ≠ 1) : squeeze (v f) = v f := by simp [squeeze, h]
@[simp] theorem squeeze_v1 (f : Fin 1 → ℝ) : squeeze (v f) = s (f 0) := by simp [squeeze]
@[simp] theorem squeeze_s (a : ℝ) : squeeze (s a) = s a := rfl
theorem squeeze_row {k} (f : Fin k → ℝ) (h : k ≠ 1) : squeeze (m (r := 1) (of fun _ j => f j)) = v f := by
  simp [squeeze, h]

end Verif.Arr

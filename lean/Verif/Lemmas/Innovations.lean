import Verif.Lemmas.Calibrate

/-! Second moments of the innovations of the filter. -/

namespace Verif

open Matrix MeasureTheory

namespace StateSpace

variable {Ω : Type*} [MeasurableSpace Ω] {n k : ℕ}

/-- Predicted measurement, its covariance, and its error. -/
noncomputable def zpred (L : StateSpace n k) (y : ℕ → Fin k → ℝ) (i : ℕ) : Fin k → ℝ := L.H i *ᵥ (L.A i *ᵥ (L.filt y i).1 + L.b i) + L.c i
noncomputable def zcov (L : StateSpace n k) (i : ℕ) : Matrix (Fin k) (Fin k) ℝ := L.H i * L.pcov i * (L.H i)ᵀ + L.R
noncomputable def innov (L : StateSpace n k) (y : Ω → ℕ → Fin k → ℝ) (i : ℕ) (ω : Ω) : Fin k → ℝ := y ω i - L.zpred (y ω) i

variable {L : StateSpace n k}

theorem Good.zcov (h : L.Good) (i : ℕ) : (L.zcov i).PosDef := innov_posDef (h.pcov i).posSemidef h.R _

theorem ev_eq (y : ℕ → Fin k → ℝ) : ∀ N, L.ev y N = ∏ i ∈ Finset.range N, normalPdf (L.zpred y i) (L.zcov i) (y i)
  | 0 => by simp [ev]
  | N + 1 => by
    rw [Finset.prod_range_succ, ← ev_eq y N, ev, filt_cov' L y 0]
    rfl

namespace Path

variable {ℙ : Measure Ω} {x q : ℕ → Ω → Fin n → ℝ} {r : ℕ → Ω → Fin k → ℝ} {y : Ω → ℕ → Fin k → ℝ}

theorem innov_eq (h : L.Path ℙ x q r y) (i : ℕ) : L.innov y i = fun ω => L.H i *ᵥ L.perr x q y i ω + r i ω := by
  funext ω
  simp only [innov, zpred, perr, err]
  rw [h.meas, h.state]
  simp only [mulVec_add, mulVec_sub]
  abel

theorem sq_innov (h : L.Path ℙ x q r y) (i : ℕ) : SqInt ℙ (L.innov y i) := by
  rw [h.innov_eq]
  exact ((h.sq_perr i).mulVec _).add (h.sq_r i)

theorem cross_innov {p : ℕ} {Z : Ω → Fin p → ℝ} (h : L.Path ℙ x q r y) (hZ : SqInt ℙ Z) (i : ℕ) :
    cross ℙ Z (L.innov y i) = cross ℙ Z (L.perr x q y i) * (L.H i)ᵀ + cross ℙ Z (r i) := by
  rw [h.innov_eq, cross_add_right hZ ((h.sq_perr i).mulVec _) (h.sq_r i), cross_mulVec_right hZ (h.sq_perr i)]

theorem cross_innov_zero {p : ℕ} {Z : Ω → Fin p → ℝ} (h : L.Path ℙ x q r y) (hZ : SqInt ℙ Z) {i : ℕ} (hp : cross ℙ Z (L.perr x q y i) = 0)
    (hr : cross ℙ Z (r i) = 0) : cross ℙ Z (L.innov y i) = 0 := by
  rw [h.cross_innov hZ, hp, hr, Matrix.zero_mul, add_zero]

theorem mean_innov [IsFiniteMeasure ℙ] (h : L.Path ℙ x q r y) (i : ℕ) : cross ℙ (L.innov y i) unit1 = 0 :=
  cross_zero_comm (h.cross_innov_zero (Z := unit1) (SqInt.const _)
    (h.cross_perr (SqInt.const _) (cross_zero_comm (h.mean_err i)) (cross_zero_comm (h.mean_q i))) (cross_zero_comm (h.mean_r i)))

theorem perr_innov (hL : L.Good) (h : L.Path ℙ x q r y) (i : ℕ) : cross ℙ (L.perr x q y i) (L.innov y i) = L.pcov i * (L.H i)ᵀ := by
  rw [h.cross_innov (h.sq_perr i), h.cov_perr (h.cov_err hL i), cross_zero_comm (h.r_perr le_rfl), add_zero]

theorem r_innov (h : L.Path ℙ x q r y) (i : ℕ) : cross ℙ (r i) (L.innov y i) = L.R := by
  rw [h.cross_innov (h.sq_r i), h.r_perr le_rfl, Matrix.zero_mul, zero_add, h.cov_r]

/-- The innovations have the covariance of the predicted measurement. -/
theorem cov_innov (hL : L.Good) (h : L.Path ℙ x q r y) (i : ℕ) : cross ℙ (L.innov y i) (L.innov y i) = L.zcov i := by
  have e1 := h.perr_innov hL i
  have e2 := h.r_innov i
  have hs := h.sq_innov i
  conv_lhs => arg 2; rw [h.innov_eq]
  rw [cross_add_left ((h.sq_perr i).mulVec _) (h.sq_r i) hs, cross_mulVec_left (h.sq_perr i) hs, e1, e2, zcov, Matrix.mul_assoc]

theorem innov_q (h : L.Path ℙ x q r y) {i j : ℕ} (hij : i < j) : cross ℙ (L.innov y i) (q j) = 0 :=
  cross_zero_comm (h.cross_innov_zero (h.sq_q j) (h.q_perr hij) (h.qr j i))

theorem innov_r (h : L.Path ℙ x q r y) {i j : ℕ} (hij : i < j) : cross ℙ (L.innov y i) (r j) = 0 :=
  cross_zero_comm (h.cross_innov_zero (h.sq_r j) (h.r_perr hij.le) (h.rr j i hij.ne'))

/-- The corrected error is uncorrelated with the innovation used for the correction. -/
theorem innov_err_succ (hL : L.Good) (h : L.Path ℙ x q r y) (i : ℕ) : cross ℙ (L.innov y i) (L.err x y (i + 1)) = 0 := by
  apply cross_zero_comm
  have hs := h.sq_innov i
  rw [h.err_succ, cross_sub_left ((h.sq_perr i).mulVec _) ((h.sq_r i).mulVec _) hs, cross_mulVec_left (h.sq_perr i) hs,
    cross_mulVec_left (h.sq_r i) hs, h.perr_innov hL, h.r_innov, sub_eq_zero]
  exact gain_balance (hL.pcov i) hL.R (L.H i)

theorem innov_err (hL : L.Good) (h : L.Path ℙ x q r y) (i : ℕ) : ∀ d, cross ℙ (L.innov y i) (L.err x y (i + 1 + d)) = 0
  | 0 => h.innov_err_succ hL i
  | d + 1 => by
    have hd : i < i + 1 + d := by omega
    exact h.cross_err_succ (h.sq_innov i) (h.cross_perr (h.sq_innov i) (innov_err hL h i d) (h.innov_q hd)) (h.innov_r hd)

theorem innov_lt (hL : L.Good) (h : L.Path ℙ x q r y) {i j : ℕ} (hij : i < j) : cross ℙ (L.innov y i) (L.innov y j) = 0 := by
  obtain ⟨d, rfl⟩ := Nat.exists_eq_add_of_lt hij
  have e : i + d + 1 = i + 1 + d := by omega
  rw [e]
  exact h.cross_innov_zero (h.sq_innov i) (h.cross_perr (h.sq_innov i) (h.innov_err hL i d) (h.innov_q (by omega))) (h.innov_r (by omega))

/-- Innovations at different times are uncorrelated. -/
theorem innov_ne (hL : L.Good) (h : L.Path ℙ x q r y) {i j : ℕ} (hij : i ≠ j) : cross ℙ (L.innov y i) (L.innov y j) = 0 := by
  rcases lt_or_gt_of_ne hij with hlt | hlt
  · exact h.innov_lt hL hlt
  · exact cross_zero_comm (h.innov_lt hL hlt)

end Path

end StateSpace

end Verif

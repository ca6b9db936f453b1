import Verif.Lemmas.Markov
import Mathlib.Analysis.Calculus.ContDiff.Comp
import Mathlib.Topology.Instances.Matrix

/-! Relinearising and smoothing as a map on trajectories: its fixed points are stationary, and it is continuous. -/

namespace Verif

open Matrix

variable {n k N : ℕ}

namespace Markov

/-- The linear Gaussian model obtained by linearising at `u`. -/
noncomputable def lin (S : Markov n k N) (u : Fin N → Fin n → ℝ) : StateSpace n k where
  m0 := S.m0
  P0 := S.P0
  A i := if h : i < N then jacMat (fderiv ℝ (S.f ⟨i, h⟩) (u ⟨i, h⟩)) else 0
  b i := if h : i < N then S.f ⟨i, h⟩ (u ⟨i, h⟩) - jacMat (fderiv ℝ (S.f ⟨i, h⟩) (u ⟨i, h⟩)) *ᵥ u ⟨i, h⟩ else 0
  Q := S.Q
  H i := if h : i < N then jacMat (fderiv ℝ (S.h ⟨i, h⟩) (u ⟨i, h⟩)) else 0
  c i := if h : i < N then S.h ⟨i, h⟩ (u ⟨i, h⟩) - jacMat (fderiv ℝ (S.h ⟨i, h⟩) (u ⟨i, h⟩)) *ᵥ u ⟨i, h⟩ else 0
  R := S.R

/-- Measurements as a sequence. -/
def pad (y : Fin N → Fin k → ℝ) (i : ℕ) : Fin k → ℝ := if h : i < N then y ⟨i, h⟩ else 0

/-- The smoothed means of the model linearised at `u`. -/
noncomputable def next (S : Markov n k N) (y : Fin N → Fin k → ℝ) (u : Fin N → Fin n → ℝ) (i : Fin N) : Fin n → ℝ :=
  ((S.lin u).smth (pad y) (i + 1) (N - (i + 1))).1

variable {S : Markov n k N} {y : Fin N → Fin k → ℝ} {u : Fin N → Fin n → ℝ}

theorem Good.lin (h : S.Good) (u : Fin N → Fin n → ℝ) : (S.lin u).Good := ⟨h.P0, h.Q, h.R⟩

theorem lin_A (j : Fin N) : (S.lin u).A j = jacMat (fderiv ℝ (S.f j) (u j)) := by simp [lin]
theorem lin_H (j : Fin N) : (S.lin u).H j = jacMat (fderiv ℝ (S.h j) (u j)) := by simp [lin]

theorem lin_f (j : Fin N) (x : Fin n → ℝ) : (S.lin u).A j *ᵥ x + (S.lin u).b j = S.f j (u j) + fderiv ℝ (S.f j) (u j) (x - u j) := by
  have : (S.lin u).b j = S.f j (u j) - jacMat (fderiv ℝ (S.f j) (u j)) *ᵥ u j := by simp [lin]
  rw [lin_A, this, ← mulVec_jacMat, mulVec_sub]; abel

theorem lin_h (j : Fin N) (x : Fin n → ℝ) : (S.lin u).H j *ᵥ x + (S.lin u).c j = S.h j (u j) + fderiv ℝ (S.h j) (u j) (x - u j) := by
  have : (S.lin u).c j = S.h j (u j) - jacMat (fderiv ℝ (S.h j) (u j)) *ᵥ u j := by simp [lin]
  rw [lin_H, this, ← mulVec_jacMat, mulVec_sub]; abel

/-- A fixed point is stationary for the model whose transitions are replaced by their tangents at the states they lead to. -/
theorem Good.fixed_stationary (h : S.Good) (hN : 0 < N) (hh : ∀ j, DifferentiableAt ℝ (S.h j) (u j)) (hu : S.next y u = u) :
    (S.tangent u).Stationary y (Fin.cons ((S.lin u).smth (pad y) 0 N).1 u) := by
  set L := S.lin u with hL
  set x : Fin (N + 1) → Fin n → ℝ := Fin.cons (L.smth (pad y) 0 N).1 u with hx
  have hLg : L.Good := h.lin u
  have hxs : ∀ i (hi : i < N + 1), x ⟨i, hi⟩ = (L.smth (pad y) i (N - i)).1 := by
    intro i hi
    cases i with
    | zero => rw [hx]; rfl
    | succ i =>
      have : x ⟨i + 1, hi⟩ = u ⟨i, by omega⟩ := by
        rw [hx]
        exact Fin.cons_succ (α := fun _ => Fin n → ℝ) _ _ (⟨i, by omega⟩ : Fin N)
      rw [this]
      conv_lhs => rw [← hu]
      rfl
  have hsucc : ∀ j : Fin N, x j.succ = u j := fun j => by rw [hx]; exact Fin.cons_succ (α := fun _ => Fin n → ℝ) _ _ j
  have hTg : (S.tangent u).Good := ⟨h.P0, h.Q, h.R⟩
  have hf : ∀ j : Fin N, HasFDerivAt ((S.tangent u).f j) (fderiv ℝ (S.f j) (u j)) (x j.castSucc) := fun j => by
    have := ((fderiv ℝ (S.f j) (u j)).hasFDerivAt (x := x j.castSucc - u j)).comp (x j.castSucc)
      ((hasFDerivAt_id (x j.castSucc)).sub_const (u j))
    exact this.const_add (S.f j (u j))
  refine (hTg.stationary_iff (h' := fun j => fderiv ℝ (S.h j) (u j)) hf fun j => ?_).2 ?_
  · rw [hsucc]; exact (hh j).hasFDerivAt
  have hfj : ∀ j : Fin N, (S.tangent u).f j (x j.castSucc) = L.A j *ᵥ (L.smth (pad y) j (N - j)).1 + L.b j := fun j => by
    rw [← hxs j (by omega), hL, lin_f]; rfl
  have hxj : ∀ j : Fin N, x j.succ = (L.smth (pad y) (j + 1) (N - (j + 1))).1 := fun j => hxs (j + 1) (by omega)
  have hhj : ∀ j : Fin N, (S.tangent u).h j (x j.succ) = L.H j *ᵥ (L.smth (pad y) (j + 1) (N - (j + 1))).1 + L.c j := fun j => by
    rw [← hxs (j + 1) (by omega), hL, lin_h]
    have : x ⟨j + 1, by omega⟩ = u j := hsucc j
    rw [this, sub_self, map_zero, add_zero, hsucc]; rfl
  have hpy : ∀ j : Fin N, pad y j = y j := fun j => by simp [pad]
  refine slope_zero (σ := fun i => if hi : (i : ℕ) < N then (L.A i)ᵀ *ᵥ (L.Q⁻¹ *ᵥ ((L.smth (pad y) (i + 1) (N - (i + 1))).1 -
    (L.A i *ᵥ (L.smth (pad y) i (N - i)).1 + L.b i))) else 0) ?_ ?_ ?_ ?_
  · obtain ⟨M, rfl⟩ := Nat.exists_eq_add_of_lt hN
    have := hLg.normal_first (y := pad y) (0 + M)
    have hx0 : x 0 = (L.smth (pad y) 0 (0 + M + 1)).1 := rfl
    rw [hx0]
    refine this.trans ?_
    rw [dif_pos (by simp)]
    simp
  · simp
  · intro j
    simp only [Fin.val_castSucc, j.isLt, dif_pos]
    rw [hfj, hxj, ← lin_A (S := S)]
    rfl
  · intro j
    rw [hfj, hhj, hxj, ← lin_H (S := S), ← hpy]
    simp only [Fin.val_succ]
    by_cases hj : (j : ℕ) + 1 < N
    · rw [dif_pos hj]
      have := hLg.normal (y := pad y) j (N - (j + 2))
      rw [show N - (j + 2) + 1 = N - (j + 1) by omega, show N - (j + 1) + 1 = N - (j : ℕ) by omega] at this
      exact this
    · rw [dif_neg hj, zero_add]
      have hj' : (j : ℕ) + 1 = N := by omega
      have := hLg.normal_last (y := pad y) j
      rw [show N - ((j : ℕ) + 1) = 0 by omega, show N - (j : ℕ) = 1 by omega]
      exact this

end Markov

theorem continuous_inv_posDef {X : Type*} [TopologicalSpace X] {M : X → Matrix (Fin n) (Fin n) ℝ} (hM : Continuous M)
    (h : ∀ x, (M x).PosDef) : Continuous fun x => (M x)⁻¹ := by
  have e : (fun x => (M x)⁻¹) = fun x => (M x).det⁻¹ • (M x).adjugate := by
    funext x; rw [Matrix.inv_def, Ring.inverse_eq_inv']
  rw [e]
  exact (hM.matrix_det.inv₀ fun x => posDef_det_ne (h x)).smul hM.matrix_adjugate

theorem continuous_gainMat {X : Type*} [TopologicalSpace X] {P : X → Matrix (Fin n) (Fin n) ℝ} {H : X → Matrix (Fin k) (Fin n) ℝ}
    {R : Matrix (Fin k) (Fin k) ℝ} (hP : Continuous P) (hP' : ∀ x, (P x).PosDef) (hH : Continuous H) (hR : R.PosDef) :
    Continuous fun x => gainMat (P x) (H x) R :=
  (hP.matrix_mul hH.matrix_transpose).matrix_mul
    (continuous_inv_posDef (((hH.matrix_mul hP).matrix_mul hH.matrix_transpose).add continuous_const)
      fun x => innov_posDef (hP' x).posSemidef hR _)

theorem continuous_condCov {X : Type*} [TopologicalSpace X] {P : X → Matrix (Fin n) (Fin n) ℝ} {H : X → Matrix (Fin k) (Fin n) ℝ}
    {R : Matrix (Fin k) (Fin k) ℝ} (hP : Continuous P) (hP' : ∀ x, (P x).PosDef) (hH : Continuous H) (hR : R.PosDef) :
    Continuous fun x => condCov (P x) (H x) R :=
  hP.sub ((continuous_gainMat hP hP' hH hR).matrix_mul (hP.matrix_mul hH.matrix_transpose).matrix_transpose)

namespace Markov

variable {S : Markov n k N} {y : Fin N → Fin k → ℝ}

theorem continuous_jacMat {X : Type*} [TopologicalSpace X] {F' : X → (Fin n → ℝ) →L[ℝ] (Fin k → ℝ)} (h : Continuous F') :
    Continuous fun x => jacMat (F' x) :=
  continuous_matrix fun i j => by
    have : Continuous fun x => F' x (Pi.single j 1) := h.clm_apply continuous_const
    exact (continuous_apply i).comp this

/-- The trajectories at which all functions of the model are continuously differentiable. -/
def Smooth (S : Markov n k N) : Set (Fin N → Fin n → ℝ) :=
  {u | ∀ j, ContDiffAt ℝ 1 (S.f j) (u j) ∧ ContDiffAt ℝ 1 (S.h j) (u j)}

theorem isOpen_smooth : IsOpen S.Smooth := by
  refine isOpen_iff_eventually.2 fun u hu => ?_
  refine Filter.eventually_all.2 fun j => ?_
  have hj : Filter.Tendsto (fun v : Fin N → Fin n → ℝ => v j) (nhds u) (nhds (u j)) := (continuous_apply j).continuousAt
  exact (hj.eventually ((hu j).1.eventually (by simp))).and (hj.eventually ((hu j).2.eventually (by simp)))

theorem continuous_fderiv_f (j : Fin N) : Continuous fun u : S.Smooth => fderiv ℝ (S.f j) (u.1 j) :=
  continuous_iff_continuousAt.2 fun u =>
    ContinuousAt.comp (g := fderiv ℝ (S.f j)) (f := fun u : S.Smooth => u.1 j) ((u.2 j).1.continuousAt_fderiv one_ne_zero)
      ((continuous_apply j).comp continuous_subtype_val).continuousAt

theorem continuous_fderiv_h (j : Fin N) : Continuous fun u : S.Smooth => fderiv ℝ (S.h j) (u.1 j) :=
  continuous_iff_continuousAt.2 fun u =>
    ContinuousAt.comp (g := fderiv ℝ (S.h j)) (f := fun u : S.Smooth => u.1 j) ((u.2 j).2.continuousAt_fderiv one_ne_zero)
      ((continuous_apply j).comp continuous_subtype_val).continuousAt

theorem continuous_f (j : Fin N) : Continuous fun u : S.Smooth => S.f j (u.1 j) :=
  continuous_iff_continuousAt.2 fun u =>
    ContinuousAt.comp (g := S.f j) (u.2 j).1.continuousAt ((continuous_apply j).comp continuous_subtype_val).continuousAt

theorem continuous_h (j : Fin N) : Continuous fun u : S.Smooth => S.h j (u.1 j) :=
  continuous_iff_continuousAt.2 fun u =>
    ContinuousAt.comp (g := S.h j) (u.2 j).2.continuousAt ((continuous_apply j).comp continuous_subtype_val).continuousAt

theorem continuous_at (j : Fin N) : Continuous fun u : S.Smooth => u.1 j := (continuous_apply j).comp continuous_subtype_val

theorem continuous_lin_A (i : ℕ) : Continuous fun u : S.Smooth => (S.lin u).A i := by
  simp only [lin]
  split
  · exact continuous_jacMat (continuous_fderiv_f _)
  · exact continuous_const

theorem continuous_lin_H (i : ℕ) : Continuous fun u : S.Smooth => (S.lin u).H i := by
  simp only [lin]
  split
  · exact continuous_jacMat (continuous_fderiv_h _)
  · exact continuous_const

theorem continuous_lin_b (i : ℕ) : Continuous fun u : S.Smooth => (S.lin u).b i := by
  simp only [lin]
  split
  · exact (continuous_f _).sub ((continuous_jacMat (continuous_fderiv_f _)).matrix_mulVec (continuous_at _))
  · exact continuous_const

theorem continuous_lin_c (i : ℕ) : Continuous fun u : S.Smooth => (S.lin u).c i := by
  simp only [lin]
  split
  · exact (continuous_h _).sub ((continuous_jacMat (continuous_fderiv_h _)).matrix_mulVec (continuous_at _))
  · exact continuous_const

theorem Good.continuous_filt (h : S.Good) : ∀ i,
    (Continuous fun u : S.Smooth => ((S.lin u).filt (pad y) i).1) ∧ Continuous fun u : S.Smooth => ((S.lin u).filt (pad y) i).2
  | 0 => ⟨continuous_const, continuous_const⟩
  | i + 1 => by
    obtain ⟨h1, h2⟩ := Good.continuous_filt h i
    have hA := continuous_lin_A (S := S) i
    have hH := continuous_lin_H (S := S) i
    have hm : Continuous fun u : S.Smooth => (S.lin u).A i *ᵥ ((S.lin u).filt (pad y) i).1 + (S.lin u).b i :=
      (hA.matrix_mulVec h1).add (continuous_lin_b i)
    have hP : Continuous fun u : S.Smooth => (S.lin u).A i * ((S.lin u).filt (pad y) i).2 * ((S.lin u).A i)ᵀ + (S.lin u).Q :=
      ((hA.matrix_mul h2).matrix_mul hA.matrix_transpose).add continuous_const
    have hP' : ∀ u : S.Smooth, ((S.lin u).A i * ((S.lin u).filt (pad y) i).2 * ((S.lin u).A i)ᵀ + (S.lin u).Q).PosDef :=
      fun u => (h.lin u).pred i
    exact ⟨hm.add ((continuous_gainMat hP hP' hH h.R).matrix_mulVec
      (continuous_const.sub ((hH.matrix_mulVec hm).add (continuous_lin_c i)))), continuous_condCov hP hP' hH h.R⟩

theorem Good.continuous_smth (h : S.Good) : ∀ d i, Continuous fun u : S.Smooth => ((S.lin u).smth (pad y) i d).1
  | 0, i => (h.continuous_filt i).1
  | d + 1, i => by
    obtain ⟨h1, h2⟩ := h.continuous_filt (y := y) i
    have hA := continuous_lin_A (S := S) i
    have hG : Continuous fun u : S.Smooth => (S.lin u).gain (pad y) i := continuous_gainMat h2 (fun u => (h.lin u).filt i) hA h.Q
    exact (hG.matrix_mulVec (Good.continuous_smth h d (i + 1))).add
      (h1.sub (hG.matrix_mulVec ((hA.matrix_mulVec h1).add (continuous_lin_b i))))

theorem Good.continuousAt_next (h : S.Good) {u : Fin N → Fin n → ℝ} (hu : u ∈ S.Smooth) : ContinuousAt (S.next y) u := by
  have h1 : ContinuousOn (S.next y) S.Smooth :=
    continuousOn_iff_continuous_domRestrict.2 (continuous_pi fun i : Fin N => h.continuous_smth (N - (i + 1)) (i + 1))
  exact h1.continuousAt (isOpen_smooth.mem_nhds hu)

/-- The limit of a sequence of relinearised smoothings is a fixed point. -/
theorem Good.limit_fixed (h : S.Good) {v : ℕ → Fin N → Fin n → ℝ} {x : Fin N → Fin n → ℝ} (hx : x ∈ S.Smooth)
    (hv : Filter.Tendsto v Filter.atTop (nhds x)) (hs : ∀ j, v j ∈ S.Smooth → v (j + 1) = S.next y (v j)) : S.next y x = x := by
  have h1 := (h.continuousAt_next (y := y) hx).tendsto.comp hv
  have h2 : Filter.Tendsto (fun j => v (j + 1)) Filter.atTop (nhds x) := hv.comp (Filter.tendsto_add_atTop_nat 1)
  refine tendsto_nhds_unique (h1.congr' ?_) h2
  filter_upwards [hv.eventually (isOpen_smooth.mem_nhds hx)] with j hj
  exact (hs j hj).symm

end Markov

end Verif

import Verif.Lemmas.Calibrate

/-! The means of filter and smoother are affine functions of the measurements. -/

namespace Verif

open Matrix StateSpace

variable {n k : ℕ}

/-- An affine function of the first `N` measurements. -/
def AffineIn (N : ℕ) (f : (ℕ → Fin k → ℝ) → Fin n → ℝ) : Prop :=
  ∃ (β : Fin n → ℝ) (B : ℕ → Matrix (Fin n) (Fin k) ℝ), ∀ y, f y = β + ∑ j ∈ Finset.range N, B j *ᵥ y j

namespace AffineIn

variable {N : ℕ} {f g : (ℕ → Fin k → ℝ) → Fin n → ℝ}

theorem const (β : Fin n → ℝ) : AffineIn (k := k) N fun _ => β := ⟨β, fun _ => 0, fun y => by simp⟩

theorem meas {j : ℕ} (hj : j < N) (M : Matrix (Fin n) (Fin k) ℝ) : AffineIn N fun y => M *ᵥ y j := by
  refine ⟨0, fun i => if i = j then M else 0, fun y => ?_⟩
  rw [zero_add, Finset.sum_eq_single j]
  · simp
  · intro i _ hi; simp [hi]
  · intro h; exact absurd (Finset.mem_range.2 hj) h

theorem add (hf : AffineIn N f) (hg : AffineIn N g) : AffineIn N fun y => f y + g y := by
  obtain ⟨β, B, h⟩ := hf
  obtain ⟨β', B', h'⟩ := hg
  refine ⟨β + β', fun j => B j + B' j, fun y => ?_⟩
  simp only [h, h', add_mulVec, Finset.sum_add_distrib]
  abel

theorem mulVec {p : ℕ} (hf : AffineIn N f) (M : Matrix (Fin p) (Fin n) ℝ) : AffineIn N fun y => M *ᵥ f y := by
  obtain ⟨β, B, h⟩ := hf
  refine ⟨M *ᵥ β, fun j => M * B j, fun y => ?_⟩
  simp only [h, mulVec_add, mulVec_sum, mulVec_mulVec]

theorem sub (hf : AffineIn N f) (hg : AffineIn N g) : AffineIn N fun y => f y - g y := by
  have := hf.add (hg.mulVec (-1))
  simpa [neg_mulVec, ← sub_eq_add_neg] using this

theorem mono {N' : ℕ} (hN : N ≤ N') (hf : AffineIn N f) : AffineIn N' f := by
  obtain ⟨β, B, h⟩ := hf
  refine ⟨β, fun j => if j < N then B j else 0, fun y => ?_⟩
  rw [h]
  congr 1
  refine Eq.trans ?_ (Finset.sum_subset (Finset.range_subset_range.2 hN) fun j _ hj => by simp [Finset.mem_range.not.1 hj])
  exact Finset.sum_congr rfl fun j hj => by dsimp only; rw [if_pos (Finset.mem_range.1 hj)]

end AffineIn

theorem StateSpace.filt_affineIn (L : StateSpace n k) : ∀ i, AffineIn i fun y => (L.filt y i).1
  | 0 => .const L.m0
  | i + 1 => by
    have ih := (L.filt_affineIn i).mono (Nat.le_succ i)
    have hp := (ih.mulVec (L.A i)).add (.const (L.b i))
    have e : (fun y => (L.filt y (i + 1)).1) = fun y => (L.A i *ᵥ (L.filt y i).1 + L.b i) +
        (gainMat (L.A i * (L.filt 0 i).2 * (L.A i)ᵀ + L.Q) (L.H i) L.R *ᵥ y i -
          gainMat (L.A i * (L.filt 0 i).2 * (L.A i)ᵀ + L.Q) (L.H i) L.R *ᵥ (L.H i *ᵥ (L.A i *ᵥ (L.filt y i).1 + L.b i) + L.c i)) := by
      funext y
      rw [filt, condMean, L.filt_cov' y 0 i, ← mulVec_sub]
    rw [e]
    exact hp.add ((AffineIn.meas (Nat.lt_succ_self i) _).sub (((hp.mulVec _).add (.const _)).mulVec _))

theorem StateSpace.smth_affineIn (L : StateSpace n k) : ∀ d i, AffineIn (i + d) fun y => (L.smth y i d).1
  | 0, i => L.filt_affineIn i
  | d + 1, i => by
    have ih := L.smth_affineIn d (i + 1)
    rw [show i + 1 + d = i + (d + 1) by omega] at ih
    have hf := (L.filt_affineIn i).mono (show i ≤ i + (d + 1) by omega)
    have hg : ∀ y, L.gain y i = L.gain 0 i := fun y => by rw [gain, gain, L.filt_cov' y 0 i]
    have e : (fun y => (L.smth y i (d + 1)).1) = fun y => L.gain 0 i *ᵥ (L.smth y (i + 1) d).1 +
        ((L.filt y i).1 - L.gain 0 i *ᵥ (L.A i *ᵥ (L.filt y i).1 + L.b i)) := by
      funext y
      rw [smth, hg]
    rw [e]
    exact (ih.mulVec _).add (hf.sub (((hf.mulVec _).add (.const _)).mulVec _))

end Verif

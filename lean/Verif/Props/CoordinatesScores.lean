import Verif.Props.CoordinatesIterated
import Verif.Props.Likelihood

/-!
# Scores in other coordinates and units (C90)
-/

namespace Verif

open Matrix Gaussian

variable {env : Env} {n : ℕ} {c : Chart n}

/-- The second true state is the first one in the coordinates `c`. -/
def SamePoint (c : Chart n) (a a' : Arr) : Prop := ∃ x : Fin n → ℝ, IsPoint a x ∧ IsPoint a' (c.pt x)

theorem nll_same {g g' : Gaussian} {a a' : Arr} (h : SameState c g g') (ha : SamePoint c a a')
    (hS : ∀ (m : Fin n → ℝ) C, HasMoments env g m C → Spread C) (hS' : ∀ (m : Fin n → ℝ) C, HasMoments env g' m C → Spread C) :
    ∃ l, g.nll env a = .ok l ∧ g'.nll env a' = .ok (l + Real.log |c.A.det|) := by
  obtain ⟨m, C, hC, hg, hg'⟩ := h.moments env
  obtain ⟨x, ha, ha'⟩ := ha
  refine ⟨_, C64_formula hg hC (hS _ _ hg) ha, ?_⟩
  rw [C64_formula hg' (c.cov_posDef hC) (hS' _ _ hg') ha', c.cov_det, Real.log_mul (pow_ne_zero 2 c.det_ne) hC.det_pos.ne', Real.log_pow,
    c.pt_sub, Chart.cov, Matrix.mul_inv_rev, Matrix.mul_inv_rev, mulVec_mulVec]
  have e : c.A *ᵥ (x - m) ⬝ᵥ (c.Aᵀ⁻¹ * (C⁻¹ * c.A⁻¹) * c.A) *ᵥ (x - m) = (x - m) ⬝ᵥ C⁻¹ *ᵥ (x - m) := by
    rw [Matrix.mul_assoc, Matrix.mul_assoc, nonsing_inv_mul _ c.isUnit, Matrix.mul_one, ← mulVec_mulVec, dotProduct_comm, dotProduct_mulVec,
      ← mulVec_transpose, mulVec_mulVec, mul_nonsing_inv _ (by rw [det_transpose]; exact c.isUnit), one_mulVec, dotProduct_comm]
  rw [e, Real.log_abs]
  congr 1
  push_cast
  ring

theorem zip_same {α β : Type} {p : α → α → Prop} {q : β → β → Prop} {l l' : List α} {r r' : List β} (h : List.Forall₂ p l l')
    (hr : List.Forall₂ q r r') : List.Forall₂ (fun a b => p a.1 b.1 ∧ q a.2 b.2) (l.zip r) (l'.zip r') := by
  induction h generalizing r r' with
  | nil => exact .nil
  | cons h1 _ ih => cases hr with
    | nil => exact .nil
    | cons h2 h3 => exact .cons ⟨h1, h2⟩ (ih h3)

/-- **C90.** Negative log likelihoods in other coordinates differ from the old ones by the logarithm of the factor of volume, the same
for all states: comparisons between estimators do not depend on units. -/
theorem C90_likelihood {gs gs' : List Gaussian} {xs xs' : List Arr} (h : List.Forall₂ (SameState c) gs gs')
    (hx : List.Forall₂ (SamePoint c) xs xs') (hne : gs ≠ []) (hne' : xs ≠ [])
    (hS : ∀ g ∈ gs, ∀ (m : Fin n → ℝ) C, HasMoments env g m C → Spread C) (hS' : ∀ g ∈ gs', ∀ (m : Fin n → ℝ) C, HasMoments env g m C → Spread C) :
    ∃ l, Metrics.nll env gs xs = .ok l ∧ Metrics.nll env gs' xs' = .ok (l + Real.log |c.A.det|) := by
  have hz := zip_same h hx
  have hz1 : ∀ p ∈ gs.zip xs, p.1 ∈ gs := fun p hp => (List.of_mem_zip hp).1
  have hz2 : ∀ p ∈ gs'.zip xs', p.1 ∈ gs' := fun p hp => (List.of_mem_zip hp).1
  have key : ∀ {l l' : List (Gaussian × Arr)}, List.Forall₂ (fun a b => SameState c a.1 b.1 ∧ SamePoint c a.2 b.2) l l' →
      (∀ p ∈ l, p.1 ∈ gs) → (∀ p ∈ l', p.1 ∈ gs') → ∃ ls : List ℝ, List.Forall₂ (fun p v => p.1.nll env p.2 = .ok v) l ls ∧
        List.Forall₂ (fun p v => p.1.nll env p.2 = .ok v) l' (ls.map (· + Real.log |c.A.det|)) := by
    intro l l' hl
    induction hl with
    | nil => exact fun _ _ => ⟨[], .nil, .nil⟩
    | @cons p p' l l' hp _ ih =>
      intro h1 h2
      obtain ⟨ls, a, b⟩ := ih (fun p hp => h1 p (by simp [hp])) (fun p hp => h2 p (by simp [hp]))
      obtain ⟨v, hv, hv'⟩ := nll_same hp.1 hp.2 (hS _ (h1 p (by simp))) (hS' _ (h2 p' (by simp)))
      exact ⟨v :: ls, .cons hv a, .cons hv' b⟩
  obtain ⟨ls, a, b⟩ := key hz hz1 hz2
  have hls : ls ≠ [] := by
    rintro rfl
    have := a.length_eq
    rw [List.length_zip, List.length_nil, Nat.min_eq_zero_iff] at this
    rcases this with h | h
    · exact hne (List.length_eq_zero_iff.1 h)
    · exact hne' (List.length_eq_zero_iff.1 h)
  refine ⟨_, C64_average a hls, ?_⟩
  rw [C64_average b (by simpa using hls)]
  congr 1
  have hpos : (ls.length : ℝ) ≠ 0 := by simpa using hls
  have hsum : ∀ (l : List ℝ) (w : ℝ), (l.map (· + w)).sum = l.sum + l.length * w := by
    intro l w
    induction l with
    | nil => simp
    | cons v l ih => rw [List.map_cons, List.sum_cons, ih, List.sum_cons, List.length_cons]; push_cast; ring
  rw [hsum, List.length_map]
  field_simp

/-- **C90.** Root mean square errors are multiplied by the factor of length when the state is rotated, reflected, shifted and uniformly
rescaled. -/
theorem C90_error {s : ℝ} (hs : 0 ≤ s) (hA : c.Aᵀ * c.A = s ^ 2 • (1 : Matrix (Fin n) (Fin n) ℝ)) {gs gs' : List Gaussian} {xs xs' : List Arr}
    (h : List.Forall₂ (SameState c) gs gs') (hx : List.Forall₂ (SamePoint c) xs xs') (hne : gs ≠ []) (hne' : xs ≠ []) :
    ∃ e, Metrics.rmse env gs xs = .ok e ∧ Metrics.rmse env gs' xs' = .ok (s * e) := by
  have hz := zip_same h hx
  have dist : ∀ x y : Fin n → ℝ, sqDist (c.pt x) (c.pt y) = s ^ 2 * sqDist x y := by
    intro x y
    have e : ∀ u v : Fin n → ℝ, sqDist u v = (u - v) ⬝ᵥ (u - v) := fun u v => by
      rw [sqDist, dotProduct]; exact Finset.sum_congr rfl fun i _ => by rw [Pi.sub_apply]; ring
    rw [e, e, c.pt_sub, dotProduct_mulVec, ← mulVec_transpose, mulVec_mulVec, hA, smul_mulVec, one_mulVec, smul_dotProduct, smul_eq_mul]
  have key : ∃ pts : List ((Fin n → ℝ) × (Fin n → ℝ)), Compared env gs xs pts ∧ Compared env gs' xs' (pts.map fun p => (c.pt p.1, c.pt p.2)) := by
    unfold Compared
    revert hz
    generalize gs.zip xs = l
    generalize gs'.zip xs' = l'
    intro hz
    induction hz with
    | nil => exact ⟨[], .nil, .nil⟩
    | @cons p p' l l' hp _ ih =>
      obtain ⟨pts, a, b⟩ := ih
      obtain ⟨m, C, -, hg, hg'⟩ := hp.1.moments env
      obtain ⟨x, ha, ha'⟩ := hp.2
      exact ⟨(m, x) :: pts, .cons ⟨⟨_, hg.meanA, .inl rfl⟩, ha⟩ a, .cons ⟨⟨_, hg'.meanA, .inl rfl⟩, ha'⟩ b⟩
  obtain ⟨pts, a, b⟩ := key
  have hpts : pts ≠ [] := by
    rintro rfl
    have := a.length_eq
    rw [List.length_zip, List.length_nil, Nat.min_eq_zero_iff] at this
    rcases this with h | h
    · exact hne (List.length_eq_zero_iff.1 h)
    · exact hne' (List.length_eq_zero_iff.1 h)
  refine ⟨_, (C58_rmse a hpts).1, ?_⟩
  rw [(C58_rmse b (by simpa using hpts)).1]
  congr 1
  rw [rootMeanSq, rootMeanSq, List.map_map, List.length_map]
  have : (pts.map ((fun p : (Fin n → ℝ) × (Fin n → ℝ) => sqDist p.1 p.2) ∘ fun p => (c.pt p.1, c.pt p.2))).sum =
      s ^ 2 * (pts.map fun p => sqDist p.1 p.2).sum := by
    rw [← List.sum_map_mul_left]
    congr 1
    exact List.map_congr_left fun p _ => dist p.1 p.2
  rw [this, mul_div_assoc, Real.sqrt_mul (sq_nonneg s), Real.sqrt_sq hs]

/-- Kilometres instead of metres in the plane. -/
example : ∃ (c : Chart 2) (l : ℝ), c.A = (1 / 1000 : ℝ) • 1 ∧
    Metrics.nll calmEnv [ofMoment (.v ![1, 2]) (.m (1 : Matrix (Fin 2) (Fin 2) ℝ))] [.v ![3, 4]] = .ok l ∧
    Metrics.nll calmEnv [ofMoment (.v (c.pt ![1, 2])) (.m (c.cov 1))] [.v (c.pt ![3, 4])] = .ok (l + Real.log (1 / 1000000)) ∧
    ∃ e, Metrics.rmse calmEnv [ofMoment (.v ![1, 2]) (.m (1 : Matrix (Fin 2) (Fin 2) ℝ))] [.v ![3, 4]] = .ok e ∧
      Metrics.rmse calmEnv [ofMoment (.v (c.pt ![1, 2])) (.m (c.cov 1))] [.v (c.pt ![3, 4])] = .ok (1 / 1000 * e) := by
  set c : Chart 2 := ⟨(1 / 1000 : ℝ) • 1, 0, by simp⟩ with hc
  have h : List.Forall₂ (SameState c) [ofMoment (.v ![1, 2]) (.m (1 : Matrix (Fin 2) (Fin 2) ℝ))] [ofMoment (.v (c.pt ![1, 2])) (.m (c.cov 1))] :=
    .cons ⟨_, _, PosDef.one, rfl, rfl⟩ .nil
  have hx : List.Forall₂ (SamePoint c) [.v ![3, 4]] [.v (c.pt ![3, 4])] := .cons ⟨_, .inl rfl, .inl rfl⟩ .nil
  have hcov : c.cov 1 = (1 / 1000000 : ℝ) • 1 := by
    rw [hc]
    simp only [Chart.cov, smul_mul_assoc, mul_smul_comm, Matrix.mul_one, transpose_smul, transpose_one, smul_smul]
    norm_num
  obtain ⟨l, h1, h2⟩ := C90_likelihood (env := calmEnv) h hx (by simp) (by simp)
    (by
      intro g hg m C hm
      rw [List.mem_singleton.1 hg] at hm
      obtain ⟨-, rfl⟩ := hasMoments_inj hm (hasMoments_ofMoment calmEnv ![1, 2] 1)
      intro u w hu hw
      rw [one_mulVec, one_mulVec, hu, hw]; norm_num)
    (by
      intro g hg m C hm
      rw [List.mem_singleton.1 hg] at hm
      obtain ⟨-, rfl⟩ := hasMoments_inj hm (hasMoments_ofMoment calmEnv (c.pt ![1, 2]) (c.cov 1))
      intro u w hu hw
      rw [hcov, smul_mulVec, smul_mulVec, one_mulVec, one_mulVec, dotProduct_smul, dotProduct_smul, hu, hw]; norm_num)
  obtain ⟨e, h3, h4⟩ := C90_error (env := calmEnv) (s := 1 / 1000) (by norm_num) (c := c) (by
    rw [hc]
    simp only [smul_mul_assoc, mul_smul_comm, Matrix.mul_one, transpose_smul, transpose_one, smul_smul]
    norm_num) h hx (by simp) (by simp)
  have hdet : |c.A.det| = 1 / 1000000 := by
    rw [hc]; simp; norm_num
  rw [hdet] at h2
  exact ⟨c, l, rfl, h1, h2, e, h3, h4⟩

end Verif

import Verif.Lemmas.Normal

/-! The posterior marginals of a linear Gaussian state space model in closed form. -/

namespace Verif

open Matrix MeasureTheory Function

namespace StateSpace

variable {n k : ℕ} (L : StateSpace n k) (y : ℕ → Fin k → ℝ)

/-- Moments of `x i` before the measurement `y i` of its successor: those given `y 0, …, y (i-1)`. -/
noncomputable def filt : ℕ → (Fin n → ℝ) × Matrix (Fin n) (Fin n) ℝ
  | 0 => (L.m0, L.P0)
  | i + 1 =>
    (condMean (L.A i *ᵥ (filt i).1 + L.b i) (L.A i * (filt i).2 * (L.A i)ᵀ + L.Q) (L.H i) (L.c i) L.R (y i),
      condCov (L.A i * (filt i).2 * (L.A i)ᵀ + L.Q) (L.H i) L.R)

/-- The gain of the smoother. -/
noncomputable def gain (i : ℕ) : Matrix (Fin n) (Fin n) ℝ := gainMat (L.filt y i).2 (L.A i) L.Q

/-- Moments of `x i` given `y 0, …, y (i+d-1)`. -/
noncomputable def smth : ℕ → ℕ → (Fin n → ℝ) × Matrix (Fin n) (Fin n) ℝ
  | i, 0 => L.filt y i
  | i, d + 1 =>
    (L.gain y i *ᵥ (smth (i + 1) d).1 + ((L.filt y i).1 - L.gain y i *ᵥ (L.A i *ᵥ (L.filt y i).1 + L.b i)),
      L.gain y i * (smth (i + 1) d).2 * (L.gain y i)ᵀ + condCov (L.filt y i).2 (L.A i) L.Q)

/-- The density of the measurements. -/
noncomputable def ev : ℕ → ℝ
  | 0 => 1
  | i + 1 => ev i * normalPdf (L.H i *ᵥ (L.A i *ᵥ (L.filt y i).1 + L.b i) + L.c i)
      (L.H i * (L.A i * (L.filt y i).2 * (L.A i)ᵀ + L.Q) * (L.H i)ᵀ + L.R) (y i)

variable {L y}

theorem Good.filt (h : L.Good) : ∀ i, (L.filt y i).2.PosDef
  | 0 => h.P0
  | i + 1 => condCov_posDef (innov_posDef (h.filt i).posSemidef h.Q _) h.R _

theorem Good.pred (h : L.Good) (i : ℕ) : (L.A i * (L.filt y i).2 * (L.A i)ᵀ + L.Q).PosDef :=
  innov_posDef (h.filt i).posSemidef h.Q _

theorem Good.smth (h : L.Good) : ∀ d i, (L.smth y i d).2.PosDef
  | 0, i => h.filt i
  | d + 1, i => innov_posDef (h.smth d (i + 1)).posSemidef (condCov_posDef (h.filt i) h.Q _) _

theorem Good.ev (h : L.Good) : ∀ i, 0 < L.ev y i
  | 0 => one_pos
  | i + 1 => mul_pos (h.ev i) (normalPdf_pos (innov_posDef (h.pred i).posSemidef h.R _) _ _)

/-- The factors of the joint density that belong to step `j`. -/
noncomputable def factor (L : StateSpace n k) (y : ℕ → Fin k → ℝ) (j : ℕ) (x : ℕ → Fin n → ℝ) : ENNReal :=
  ENNReal.ofReal (normalPdf (L.A j *ᵥ x j + L.b j) L.Q (x (j + 1))) *
    ENNReal.ofReal (normalPdf (L.H j *ᵥ x (j + 1) + L.c j) L.R (y j))

/-- The joint density as an extended nonnegative number. -/
noncomputable def jointE (L : StateSpace n k) (y : ℕ → Fin k → ℝ) (N : ℕ) (x : ℕ → Fin n → ℝ) : ENNReal :=
  ENNReal.ofReal (normalPdf L.m0 L.P0 (x 0)) * ∏ j ∈ Finset.range N, L.factor y j x

theorem Good.joint (h : L.Good) (N : ℕ) (x : ℕ → Fin n → ℝ) : ENNReal.ofReal (L.joint y N x) = L.jointE y N x := by
  unfold StateSpace.joint jointE factor
  rw [ENNReal.ofReal_mul (normalPdf_pos h.P0 _ _).le, ENNReal.ofReal_prod_of_nonneg fun j _ =>
    (mul_pos (normalPdf_pos h.Q _ _) (normalPdf_pos h.R _ _)).le]
  congr 1
  exact Finset.prod_congr rfl fun j _ => ENNReal.ofReal_mul (normalPdf_pos h.Q _ _).le

theorem measurable_factor (j : ℕ) : Measurable (L.factor y j) := by
  have h1 : ∀ i, Measurable fun x : ℕ → Fin n → ℝ => x i := fun i => measurable_pi_apply i
  have h2 : ∀ {r : ℕ} (M : Matrix (Fin r) (Fin n) ℝ) (v : Fin r → ℝ), Measurable fun x : Fin n → ℝ => M *ᵥ x + v := fun M v => by
    refine Continuous.measurable ?_
    unfold mulVec dotProduct
    fun_prop
  exact (measurable_normalPdf ((h2 _ _).comp (h1 j)) (h1 (j + 1))).ennreal_ofReal.mul
    (measurable_normalPdf ((h2 _ _).comp (h1 (j + 1))) measurable_const).ennreal_ofReal

theorem measurable_jointE (N : ℕ) : Measurable (L.jointE y N) :=
  (measurable_normalPdf measurable_const (measurable_pi_apply 0)).ennreal_ofReal.mul
    (Finset.measurable_fun_prod _ fun j _ => measurable_factor j)

theorem factor_ne_top (j : ℕ) (x : ℕ → Fin n → ℝ) : L.factor y j x ≠ ⊤ :=
  ENNReal.mul_ne_top ENNReal.ofReal_ne_top ENNReal.ofReal_ne_top

theorem factor_congr {j : ℕ} {x x' : ℕ → Fin n → ℝ} (h : x j = x' j) (h' : x (j + 1) = x' (j + 1)) :
    L.factor y j x = L.factor y j x' := by unfold factor; rw [h, h']

/-- A factor that does not involve the variables integrated over can be pulled out. -/
theorem lmarginal_mul_left {s : Finset ℕ} {g f : (ℕ → Fin n → ℝ) → ENNReal} {x : ℕ → Fin n → ℝ}
    (hg : ∀ x', (∀ i ∉ s, x' i = x i) → g x' = g x) (ht : g x ≠ ⊤) :
    (∫⋯∫⁻_s, fun x => g x * f x) x = g x * (∫⋯∫⁻_s, f) x := by
  unfold lmarginal
  rw [← lintegral_const_mul' _ _ ht]
  refine lintegral_congr fun z => ?_
  exact congrArg (· * _) (hg _ fun i hi => by simp [updateFinset, hi])

/-- **Forward recursion.** -/
theorem Good.forward (h : L.Good) : ∀ (i : ℕ) (x : ℕ → Fin n → ℝ),
    (∫⋯∫⁻_(Finset.range i), L.jointE y i) x = ENNReal.ofReal (L.ev y i * normalPdf (L.filt y i).1 (L.filt y i).2 (x i))
  | 0, x => by simp [jointE, StateSpace.ev, StateSpace.filt]
  | i + 1, x => by
    rw [Finset.range_add_one, lmarginal_insert _ (measurable_jointE _) Finset.notMem_range_self]
    have e : L.jointE y (i + 1) = fun x => L.factor y i x * L.jointE y i x := by
      funext x; unfold jointE; rw [Finset.prod_range_succ]; ring
    rw [e]
    have e1 : ∀ z, (∫⋯∫⁻_(Finset.range i), fun x => L.factor y i x * L.jointE y i x) (update x i z) =
        ENNReal.ofReal (L.ev y i * normalPdf (L.H i *ᵥ x (i + 1) + L.c i) L.R (y i)) *
          (ENNReal.ofReal (normalPdf (L.filt y i).1 (L.filt y i).2 z) *
          ENNReal.ofReal (normalPdf (L.A i *ᵥ z + L.b i) L.Q (x (i + 1)))) := fun z => by
      rw [lmarginal_mul_left (fun x' hx => factor_congr (hx i (by simp)) (hx (i + 1) (by simp))) (factor_ne_top _ _),
        h.forward i, factor, update_self, update_of_ne (by omega), ENNReal.ofReal_mul (h.ev i).le, ENNReal.ofReal_mul (h.ev i).le]
      ring
    simp only [e1]
    rw [lintegral_const_mul' _ _ ENNReal.ofReal_ne_top, lintegral_normalPdf_mul (h.filt i) h.Q,
      ← ENNReal.ofReal_mul (mul_pos (h.ev i) (normalPdf_pos h.R _ _)).le]
    congr 1
    have := normalPdf_mul (h.pred (y := y) i) h.R (L.H i) (L.A i *ᵥ (L.filt y i).1 + L.b i) (L.c i) (y i) (x (i + 1))
    simp only [StateSpace.ev, StateSpace.filt]
    linear_combination L.ev y i * this

/-- The density of the measurements. -/
theorem Good.evidence (h : L.Good) (N : ℕ) : L.evidence y N = ENNReal.ofReal (L.ev y N) := by
  unfold StateSpace.evidence
  simp only [h.joint]
  rw [Finset.range_add_one, lmarginal_insert _ (measurable_jointE _) Finset.notMem_range_self]
  simp only [h.forward, update_self]
  have e : ∀ z, ENNReal.ofReal (L.ev y N * normalPdf (L.filt y N).1 (L.filt y N).2 z) =
      ENNReal.ofReal (L.ev y N) * ENNReal.ofReal (normalPdf (L.filt y N).1 (L.filt y N).2 z) := fun z =>
    ENNReal.ofReal_mul (h.ev N).le
  simp only [e]
  rw [lintegral_const_mul' _ _ ENNReal.ofReal_ne_top, lintegral_normalPdf (h.filt N), mul_one]

/-- **Backward recursion.** -/
theorem Good.backward (h : L.Good) : ∀ (d i : ℕ) (x : ℕ → Fin n → ℝ),
    (∫⋯∫⁻_((Finset.range (i + d + 1)).erase i), L.jointE y (i + d)) x =
      ENNReal.ofReal (L.ev y (i + d) * normalPdf (L.smth y i d).1 (L.smth y i d).2 (x i))
  | 0, i, x => by
    have : (Finset.range (i + 0 + 1)).erase i = Finset.range i := by
      ext j; simp only [Finset.mem_erase, Finset.mem_range]; omega
    rw [this, add_zero, h.forward]; rfl
  | d + 1, i, x => by
    set N := i + (d + 1) with hN
    set s := (Finset.range i) with hs
    set t := Finset.Ico (i + 2) (N + 1) with ht
    have hst : Disjoint t s := by
      rw [Finset.disjoint_left]; intro j hj hj'
      simp only [hs, ht, Finset.mem_range, Finset.mem_Ico] at hj hj'; omega
    -- the marginal of the pair
    obtain ⟨W, hW, hWm, hpair⟩ : ∃ W : (ℕ → Fin n → ℝ) → ENNReal, (∀ x z, W (update x i z) = W x) ∧ Measurable W ∧
        ∀ x, (∫⋯∫⁻_(t ∪ s), L.jointE y N) x =
          ENNReal.ofReal (L.ev y i * normalPdf (L.filt y i).1 (L.filt y i).2 (x i)) *
            (ENNReal.ofReal (normalPdf (L.A i *ᵥ x i + L.b i) L.Q (x (i + 1))) * W x) := by
      let rest : (ℕ → Fin n → ℝ) → ENNReal := fun x =>
        ENNReal.ofReal (normalPdf (L.H i *ᵥ x (i + 1) + L.c i) L.R (y i)) * ∏ j ∈ Finset.Ico (i + 1) N, L.factor y j x
      have hm : Measurable rest := by
        refine Measurable.mul ?_ (Finset.measurable_fun_prod _ fun j _ => measurable_factor j)
        have h2 : Measurable fun x : Fin n → ℝ => L.H i *ᵥ x + L.c i := by
          refine Continuous.measurable ?_
          unfold mulVec dotProduct
          fun_prop
        exact (measurable_normalPdf (h2.comp (measurable_pi_apply (i + 1))) measurable_const).ennreal_ofReal
      have hrest : ∀ {x x' : ℕ → Fin n → ℝ}, (∀ j, i + 1 ≤ j → x' j = x j) → rest x' = rest x := fun {x x'} hx => by
        simp only [rest]
        rw [hx _ le_rfl]
        congr 1
        refine Finset.prod_congr rfl fun j hj => ?_
        rw [Finset.mem_Ico] at hj
        exact factor_congr (hx j hj.1) (hx (j + 1) (by omega))
      refine ⟨∫⋯∫⁻_t, rest, fun x z => ?_, hm.lmarginal _, fun x => ?_⟩
      · rw [lmarginal_update_of_notMem hm (by simp [ht])]
        congr 1
        funext x
        exact hrest fun j hj => update_of_ne (by omega) _ _
      · rw [lmarginal_union _ _ (measurable_jointE _) hst]
        have e : L.jointE y N = fun x => (ENNReal.ofReal (normalPdf (L.A i *ᵥ x i + L.b i) L.Q (x (i + 1))) * rest x) *
            L.jointE y i x := by
          funext x
          simp only [jointE, rest]
          have : Finset.range N = Finset.Ico 0 N := by rw [Finset.range_eq_Ico]
          rw [this, ← Finset.prod_Ico_consecutive _ (Nat.zero_le i) (by omega : i ≤ N),
            Finset.prod_eq_prod_Ico_succ_bot (by omega : i < N), ← Finset.range_eq_Ico, factor]
          ring
        have e1 : (∫⋯∫⁻_s, L.jointE y N) = fun x =>
            (ENNReal.ofReal (L.ev y i * normalPdf (L.filt y i).1 (L.filt y i).2 (x i)) *
              ENNReal.ofReal (normalPdf (L.A i *ᵥ x i + L.b i) L.Q (x (i + 1)))) * rest x := by
          funext x
          rw [e, lmarginal_mul_left (fun x' hx => ?_) ?_, h.forward]
          · ring
          · refine ENNReal.mul_ne_top ENNReal.ofReal_ne_top (ENNReal.mul_ne_top ENNReal.ofReal_ne_top ?_)
            exact ENNReal.prod_ne_top fun j _ => factor_ne_top _ _
          · rw [hrest fun j hj => hx j (by simp [hs]; omega), hx i (by simp [hs]), hx (i + 1) (by simp [hs])]
        rw [e1, lmarginal_mul_left (fun x' hx => ?_) (ENNReal.mul_ne_top ENNReal.ofReal_ne_top ENNReal.ofReal_ne_top), mul_assoc]
        rw [hx i (by simp [ht]), hx (i + 1) (by simp [ht])]
    have hi : i ∉ t ∪ s := by simp [ht, hs]
    have hi1 : i + 1 ∉ t ∪ s := by simp [ht, hs]
    have hset1 : (Finset.range (i + 1 + d + 1)).erase (i + 1) = insert i (t ∪ s) := by
      ext j; simp only [Finset.mem_erase, Finset.mem_range, Finset.mem_insert, Finset.mem_union, hs, ht, Finset.mem_Ico]; omega
    have hset2 : (Finset.range (N + 1)).erase i = insert (i + 1) (t ∪ s) := by
      ext j; simp only [Finset.mem_erase, Finset.mem_range, Finset.mem_insert, Finset.mem_union, hs, ht, Finset.mem_Ico]; omega
    have hN' : i + 1 + d = N := by omega
    -- prior times kernel, conditioned the other way round
    have hswap : ∀ z z' : Fin n → ℝ, ENNReal.ofReal (L.ev y i * normalPdf (L.filt y i).1 (L.filt y i).2 z) *
        ENNReal.ofReal (normalPdf (L.A i *ᵥ z + L.b i) L.Q z') =
        ENNReal.ofReal (L.ev y i * normalPdf (L.A i *ᵥ (L.filt y i).1 + L.b i) (L.A i * (L.filt y i).2 * (L.A i)ᵀ + L.Q) z') *
          ENNReal.ofReal (normalPdf (L.gain y i *ᵥ z' + ((L.filt y i).1 - L.gain y i *ᵥ (L.A i *ᵥ (L.filt y i).1 + L.b i)))
            (condCov (L.filt y i).2 (L.A i) L.Q) z) := fun z z' => by
      rw [← ENNReal.ofReal_mul (mul_pos (h.ev i) (normalPdf_pos (h.filt i) _ _)).le,
        ← ENNReal.ofReal_mul (mul_pos (h.ev i) (normalPdf_pos (h.pred i) _ _)).le]
      congr 1
      have := normalPdf_mul (h.filt (y := y) i) h.Q (L.A i) (L.filt y i).1 (L.b i) z' z
      have e : condMean (L.filt y i).1 (L.filt y i).2 (L.A i) (L.b i) L.Q z' =
          L.gain y i *ᵥ z' + ((L.filt y i).1 - L.gain y i *ᵥ (L.A i *ᵥ (L.filt y i).1 + L.b i)) := by
        rw [condMean, StateSpace.gain, mulVec_sub]; abel
      rw [e] at this
      linear_combination L.ev y i * this
    -- what is known about the next state
    have hnext : ∀ x, ENNReal.ofReal (L.ev y i * normalPdf (L.A i *ᵥ (L.filt y i).1 + L.b i)
          (L.A i * (L.filt y i).2 * (L.A i)ᵀ + L.Q) (x (i + 1))) * W x =
        ENNReal.ofReal (L.ev y N * normalPdf (L.smth y (i + 1) d).1 (L.smth y (i + 1) d).2 (x (i + 1))) := fun x => by
      have := h.backward d (i + 1) x
      rw [hset1, hN', lmarginal_insert _ (measurable_jointE _) hi] at this
      rw [← this]
      have e : ∀ z, (∫⋯∫⁻_(t ∪ s), L.jointE y N) (update x i z) =
          (ENNReal.ofReal (L.ev y i * normalPdf (L.A i *ᵥ (L.filt y i).1 + L.b i)
            (L.A i * (L.filt y i).2 * (L.A i)ᵀ + L.Q) (x (i + 1))) *
          ENNReal.ofReal (normalPdf (L.gain y i *ᵥ x (i + 1) + ((L.filt y i).1 - L.gain y i *ᵥ (L.A i *ᵥ (L.filt y i).1 + L.b i)))
            (condCov (L.filt y i).2 (L.A i) L.Q) z)) * W x := fun z => by
        rw [hpair, hW, update_self, update_of_ne (by omega), ← mul_assoc, hswap]
      simp only [e]
      by_cases ht : W x = ⊤
      · have hpos : 0 < ENNReal.ofReal (L.ev y i * normalPdf (L.A i *ᵥ (L.filt y i).1 + L.b i)
            (L.A i * (L.filt y i).2 * (L.A i)ᵀ + L.Q) (x (i + 1))) :=
          ENNReal.ofReal_pos.2 (mul_pos (h.ev i) (normalPdf_pos (h.pred i) _ _))
        have hm : Measurable fun z => ENNReal.ofReal (normalPdf (L.gain y i *ᵥ x (i + 1) + ((L.filt y i).1 -
            L.gain y i *ᵥ (L.A i *ᵥ (L.filt y i).1 + L.b i))) (condCov (L.filt y i).2 (L.A i) L.Q) z) :=
          (measurable_normalPdf measurable_const measurable_id).ennreal_ofReal
        rw [lintegral_mul_const _ (hm.const_mul _), lintegral_const_mul _ hm, lintegral_normalPdf (condCov_posDef (h.filt i) h.Q _),
          mul_one]
      · rw [lintegral_mul_const' _ _ ht, lintegral_const_mul' _ _ ENNReal.ofReal_ne_top,
          lintegral_normalPdf (condCov_posDef (h.filt i) h.Q _), mul_one]
    rw [hset2, lmarginal_insert _ (measurable_jointE _) hi1]
    have e : ∀ z, (∫⋯∫⁻_(t ∪ s), L.jointE y N) (update x (i + 1) z) = ENNReal.ofReal (L.ev y N) *
        (ENNReal.ofReal (normalPdf (L.smth y (i + 1) d).1 (L.smth y (i + 1) d).2 z) *
          ENNReal.ofReal (normalPdf (L.gain y i *ᵥ z + ((L.filt y i).1 - L.gain y i *ᵥ (L.A i *ᵥ (L.filt y i).1 + L.b i)))
            (condCov (L.filt y i).2 (L.A i) L.Q) (x i))) := fun z => by
      have hn := hnext (update x (i + 1) z)
      rw [update_self, ENNReal.ofReal_mul (h.ev N).le] at hn
      rw [hpair, update_self, update_of_ne (by omega), ← mul_assoc, hswap, mul_right_comm, hn, mul_assoc]
    simp only [e]
    rw [lintegral_const_mul' _ _ ENNReal.ofReal_ne_top,
      lintegral_normalPdf_mul (h.smth d (i + 1)) (condCov_posDef (h.filt i) h.Q _), ← ENNReal.ofReal_mul (h.ev N).le]
    rfl

/-- The posterior marginals are normal with the moments computed by the recursions. -/
theorem Good.posterior (h : L.Good) {N i : ℕ} (hi : i ≤ N) (z : Fin n → ℝ) :
    L.posterior y N i z = ENNReal.ofReal (normalPdf (L.smth y i (N - i)).1 (L.smth y i (N - i)).2 z) := by
  unfold StateSpace.posterior
  simp only [h.joint]
  obtain ⟨d, rfl⟩ := Nat.exists_eq_add_of_le hi
  rw [h.backward, h.evidence, ENNReal.ofReal_mul (h.ev _).le, Nat.add_sub_cancel_left, ENNReal.mul_div_right_comm,
    ENNReal.div_self (ENNReal.ofReal_pos.2 (h.ev _)).ne' ENNReal.ofReal_ne_top, one_mul]

end StateSpace

end Verif

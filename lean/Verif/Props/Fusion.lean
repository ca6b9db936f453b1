import Verif.Spec.Fusion
import Verif.Props.Kalman
import Verif.Props.Systems
import Verif.Props.IEKS
import Verif.Lemmas.Scalar
import Mathlib.Data.Matrix.ColumnRowPartitioned
import Mathlib.LinearAlgebra.Matrix.SchurComplement
import Mathlib.Analysis.Matrix.Order

/-!
# Combining sensors and steps: C106
-/

namespace Verif

open Matrix

variable {env : Env} {n : ℕ} {t u : Option ℝ}

/-- A correction that adds `J` to the precision and `v` to the shift of every Gaussian. -/
private def Adds (env : Env) (t u : Option ℝ) (s : KFS × Arr) (J : Matrix (Fin n) (Fin n) ℝ) (v : Fin n → ℝ) : Prop :=
  ∀ (g : Gaussian) (m : Fin n → ℝ) (P : Matrix (Fin n) (Fin n) ℝ), HasMoments env g m P → P.PosDef →
    ∃ r m' C', s.1.correct env g s.2 t u = .ok r ∧ HasMoments env r m' C' ∧ C'.PosDef ∧ C'⁻¹ = P⁻¹ + J ∧ C'⁻¹ *ᵥ m' = P⁻¹ *ᵥ m + v

private theorem Sees.adds {s : KFS × Arr} {k : ℕ} {H : Matrix (Fin k) (Fin n) ℝ} {c : Fin k → ℝ} {R : Matrix (Fin k) (Fin k) ℝ}
    {y : Fin k → ℝ} (h : Sees env t u s H c R y) : Adds env t u s (Hᵀ * R⁻¹ * H) ((Hᵀ * R⁻¹) *ᵥ (y - c)) := by
  intro g m P hg hP
  obtain ⟨r, m', C', h1, h2, h3, h4, h5, -⟩ := C21_correct_is_bayes env s.1 h.exact' h.noise h.pos hg hP h.value
  exact ⟨r, m', C', h1, h2, h3, h4, h5⟩

private theorem all_adds {J : KFS × Arr → Matrix (Fin n) (Fin n) ℝ} {v : KFS × Arr → Fin n → ℝ} :
    ∀ (l : List (KFS × Arr)), (∀ s ∈ l, Adds env t u s (J s) (v s)) → ∀ (g : Gaussian) (m : Fin n → ℝ) (P : Matrix (Fin n) (Fin n) ℝ),
      HasMoments env g m P → P.PosDef → ∃ r m' C', correctAll env t u l g = .ok r ∧ HasMoments env r m' C' ∧ C'.PosDef ∧
        C'⁻¹ = P⁻¹ + (l.map J).sum ∧ C'⁻¹ *ᵥ m' = P⁻¹ *ᵥ m + (l.map v).sum := by
  intro l
  induction l with
  | nil => exact fun _ g m P hg hP => ⟨g, m, P, rfl, hg, hP, by simp, by simp⟩
  | cons s l ih =>
    intro h g m P hg hP
    obtain ⟨r, m', C', h1, h2, h3, h4, h5⟩ := h s (by simp) g m P hg hP
    obtain ⟨r', m'', C'', h1', h2', h3', h4', h5'⟩ := ih (fun s' hs => h s' (by simp [hs])) r m' C' h2 h3
    refine ⟨r', m'', C'', ?_, h2', h3', ?_, ?_⟩
    · rw [correctAll, List.foldlM_cons, h1]; exact h1'
    · rw [h4', h4, List.map_cons, List.sum_cons, add_assoc]
    · rw [h5', h5, List.map_cons, List.sum_cons, add_assoc]

private theorem nat_inj {m m' : Fin n → ℝ} {C C' : Matrix (Fin n) (Fin n) ℝ} (hC : C.PosDef) (hC' : C'.PosDef) (h : C⁻¹ = C'⁻¹)
    (h' : C⁻¹ *ᵥ m = C'⁻¹ *ᵥ m') : C = C' ∧ m = m' := by
  have u1 : IsUnit C.det := hC.det_pos.ne'.isUnit
  have u2 : IsUnit C'.det := hC'.det_pos.ne'.isUnit
  have e : C = C' := by rw [← nonsing_inv_nonsing_inv C u1, h, nonsing_inv_nonsing_inv C' u2]
  subst e
  refine ⟨rfl, ?_⟩
  have := congrArg (C *ᵥ ·) h'
  simpa [mulVec_mulVec, mul_nonsing_inv _ u1] using this

private theorem same_of {m : Fin n → ℝ} {P : Matrix (Fin n) (Fin n) ℝ} {a b : Py Gaussian} {J J' : Matrix (Fin n) (Fin n) ℝ}
    {v v' : Fin n → ℝ}
    (ha : ∃ r m' C', a = .ok r ∧ HasMoments env r m' C' ∧ C'.PosDef ∧ C'⁻¹ = P⁻¹ + J ∧ C'⁻¹ *ᵥ m' = P⁻¹ *ᵥ m + v)
    (hb : ∃ r m' C', b = .ok r ∧ HasMoments env r m' C' ∧ C'.PosDef ∧ C'⁻¹ = P⁻¹ + J' ∧ C'⁻¹ *ᵥ m' = P⁻¹ *ᵥ m + v')
    (hJ : J = J') (hv : v = v') : SameResult env n a b := by
  obtain ⟨r, m₁, C₁, h1, h2, h3, h4, h5⟩ := ha
  obtain ⟨r', m₂, C₂, h1', h2', h3', h4', h5'⟩ := hb
  subst hJ hv
  obtain ⟨e1, e2⟩ := nat_inj h3 h3' (h4.trans h4'.symm) (h5.trans h5'.symm)
  subst e1 e2
  exact ⟨r, r', _, _, h1, h1', h3, h2, h2'⟩

/-- **C106.** With affine sensors and exact transforms the order of the corrections does not matter. -/
theorem C106_order {l l' : List (KFS × Arr)} (hp : l.Perm l')
    (hl : ∀ s ∈ l, ∃ (k : ℕ) (H : Matrix (Fin k) (Fin n) ℝ) (c : Fin k → ℝ) (R : Matrix (Fin k) (Fin k) ℝ) (y : Fin k → ℝ),
      Sees env t u s H c R y)
    {g : Gaussian} {m : Fin n → ℝ} {P : Matrix (Fin n) (Fin n) ℝ} (hg : HasMoments env g m P) (hP : P.PosDef) :
    SameResult env n (correctAll env t u l g) (correctAll env t u l' g) := by
  classical
  have hA : ∀ s ∈ l, ∃ J v, Adds (n := n) env t u s J v := fun s hs => by
    obtain ⟨k, H, c, R, y, h⟩ := hl s hs
    exact ⟨_, _, h.adds⟩
  choose! J v hJ using hA
  exact same_of (all_adds l hJ g m P hg hP) (all_adds l' (fun s hs => hJ s (hp.mem_iff.2 hs)) g m P hg hP)
    (hp.map J).sum_eq (hp.map v).sum_eq

private theorem stackRows_eq {k l : ℕ} (A : Matrix (Fin k) (Fin n) ℝ) (B : Matrix (Fin l) (Fin n) ℝ) :
    stackRows A B = (fromRows A B).submatrix finSumFinEquiv.symm id := by
  ext i j
  refine Fin.addCases (fun i => ?_) (fun i => ?_) i
  · have : Fin.append A B (Fin.castAdd l i) = A i := Fin.append_left A B i
    simp [stackRows, this]
  · have : Fin.append A B (Fin.natAdd k i) = B i := Fin.append_right A B i
    simp [stackRows, this]

private theorem append_eq {k l : ℕ} (a : Fin k → ℝ) (b : Fin l → ℝ) : Fin.append a b = Sum.elim a b ∘ finSumFinEquiv.symm := by
  ext i
  refine Fin.addCases (fun i => ?_) (fun i => ?_) i <;> simp

private theorem diag_inv {k l : ℕ} {A : Matrix (Fin k) (Fin k) ℝ} {B : Matrix (Fin l) (Fin l) ℝ} (hA : A.PosDef) (hB : B.PosDef) :
    (fromBlocks A 0 0 B)⁻¹ = fromBlocks A⁻¹ 0 0 B⁻¹ := by
  apply inv_eq_right_inv
  rw [fromBlocks_multiply]
  simp [mul_nonsing_inv _ hA.det_pos.ne'.isUnit, mul_nonsing_inv _ hB.det_pos.ne'.isUnit]

private theorem stackDiag_inv {k l : ℕ} {A : Matrix (Fin k) (Fin k) ℝ} {B : Matrix (Fin l) (Fin l) ℝ} (hA : A.PosDef) (hB : B.PosDef) :
    (stackDiag A B)⁻¹ = (fromBlocks A⁻¹ 0 0 B⁻¹).submatrix finSumFinEquiv.symm finSumFinEquiv.symm := by
  rw [stackDiag, inv_submatrix_equiv, diag_inv hA hB]

/-- **C106.** Two corrections are one correction with the stacked sensor and the block diagonal noise. -/
theorem C106_stacked {s₁ s₂ s : KFS × Arr} {k l : ℕ} {H₁ : Matrix (Fin k) (Fin n) ℝ} {H₂ : Matrix (Fin l) (Fin n) ℝ} {c₁ y₁ : Fin k → ℝ}
    {c₂ y₂ : Fin l → ℝ} {R₁ : Matrix (Fin k) (Fin k) ℝ} {R₂ : Matrix (Fin l) (Fin l) ℝ} (h₁ : Sees env t u s₁ H₁ c₁ R₁ y₁)
    (h₂ : Sees env t u s₂ H₂ c₂ R₂ y₂)
    (h : Sees env t u s (stackRows H₁ H₂) (Fin.append c₁ c₂) (stackDiag R₁ R₂) (Fin.append y₁ y₂))
    {g : Gaussian} {m : Fin n → ℝ} {P : Matrix (Fin n) (Fin n) ℝ} (hg : HasMoments env g m P) (hP : P.PosDef) :
    SameResult env n (correctAll env t u [s₁, s₂] g) (correctAll env t u [s] g) := by
  obtain ⟨r, m₁, C₁, a1, a2, a3, a4, a5⟩ := h₁.adds g m P hg hP
  obtain ⟨r', m₂, C₂, b1, b2, b3, b4, b5⟩ := h₂.adds r m₁ C₁ a2 a3
  obtain ⟨q, m₃, C₃, d1, d2, d3, d4, d5⟩ := h.adds g m P hg hP
  have hH : (stackRows H₁ H₂)ᵀ * (stackDiag R₁ R₂)⁻¹ =
      (fromCols (H₁ᵀ * R₁⁻¹) (H₂ᵀ * R₂⁻¹)).submatrix id finSumFinEquiv.symm := by
    rw [stackDiag_inv h₁.pos h₂.pos, stackRows_eq, transpose_submatrix, submatrix_mul_equiv, transpose_fromRows, fromCols_mul_fromBlocks]
    simp
  refine same_of (m := m) (P := P) (J := H₁ᵀ * R₁⁻¹ * H₁ + H₂ᵀ * R₂⁻¹ * H₂)
    (v := (H₁ᵀ * R₁⁻¹) *ᵥ (y₁ - c₁) + (H₂ᵀ * R₂⁻¹) *ᵥ (y₂ - c₂)) ⟨r', m₂, C₂, ?_, b2, b3, ?_, ?_⟩ ⟨q, m₃, C₃, ?_, d2, d3, d4, d5⟩ ?_ ?_
  · simp [correctAll, a1, b1, bind, Except.bind, pure, Except.pure]
  · rw [b4, a4, add_assoc]
  · rw [b5, a5, add_assoc]
  · simp [correctAll, d1, bind, Except.bind, pure, Except.pure]
  · rw [hH, stackRows_eq, submatrix_mul_equiv, fromCols_mul_fromRows]
    rfl
  · have e : Fin.append y₁ y₂ - Fin.append c₁ c₂ = Sum.elim (y₁ - c₁) (y₂ - c₂) ∘ finSumFinEquiv.symm := by
      rw [← append_eq]
      ext i
      refine Fin.addCases (fun i => ?_) (fun i => ?_) i <;> simp
    rw [hH, e, submatrix_mulVec_equiv, Function.comp_assoc, Equiv.symm_symm, Equiv.symm_comp_self, Function.comp_id, fromCols_mulVec]
    rfl

/-- The noise of the stacked sensor is positive definite. -/
theorem stackDiag_posDef {k l : ℕ} {A : Matrix (Fin k) (Fin k) ℝ} {B : Matrix (Fin l) (Fin l) ℝ} (hA : A.PosDef) (hB : B.PosDef) :
    (stackDiag A B).PosDef := by
  have h : (fromBlocks A 0 0 B).PosSemidef := by
    let _ := hA.isUnit.invertible
    simpa using (Matrix.PosDef.fromBlocks₁₁ (0 : Matrix (Fin k) (Fin l) ℝ) B hA).2 (by simpa using hB.posSemidef)
  have : (fromBlocks A 0 0 B).PosDef := (Matrix.PosSemidef.posDef_iff_det_ne_zero h).2 (by
    rw [det_fromBlocks_zero₂₁]
    exact mul_ne_zero hA.det_pos.ne' hB.det_pos.ne')
  exact this.submatrix (Equiv.injective _)

/-- **C106.** Corrections with `N` values of one sensor are one correction with the average and an `N`-th of the noise. -/
theorem C106_average {K : KFS} {k : ℕ} {H : Matrix (Fin k) (Fin n) ℝ} {c : Fin k → ℝ} {R : Matrix (Fin k) (Fin k) ℝ}
    {N : ℕ} (hN : 0 < N) {ys : List Arr} {y : Fin N → Fin k → ℝ} (hlen : ys.length = N)
    (hs : ∀ i : Fin N, ∀ a, ys[(i : ℕ)]? = some a → Sees env t u (K, a) H c R (y i)) {s : KFS × Arr}
    (h : Sees env t u s H c ((N : ℝ)⁻¹ • R) ((N : ℝ)⁻¹ • ∑ i, y i))
    {g : Gaussian} {m : Fin n → ℝ} {P : Matrix (Fin n) (Fin n) ℝ} (hg : HasMoments env g m P) (hP : P.PosDef) :
    SameResult env n (correctAll env t u (ys.map fun a => (K, a)) g) (correctAll env t u [s] g) := by
  have key : ∀ (l : List (Arr × (Fin k → ℝ))), (∀ p ∈ l, Sees env t u (K, p.1) H c R p.2) →
      ∀ (g : Gaussian) (m : Fin n → ℝ) (P : Matrix (Fin n) (Fin n) ℝ), HasMoments env g m P → P.PosDef →
      ∃ r m' C', correctAll env t u (l.map fun p => (K, p.1)) g = .ok r ∧ HasMoments env r m' C' ∧ C'.PosDef ∧
        C'⁻¹ = P⁻¹ + (l.length : ℝ) • (Hᵀ * R⁻¹ * H) ∧
        C'⁻¹ *ᵥ m' = P⁻¹ *ᵥ m + (Hᵀ * R⁻¹) *ᵥ ((l.map Prod.snd).sum - (l.length : ℝ) • c) := by
    intro l
    induction l with
    | nil => exact fun _ g m P hg hP => ⟨g, m, P, rfl, hg, hP, by simp, by simp⟩
    | cons p l ih =>
      intro h g m P hg hP
      obtain ⟨r, m', C', h1, h2, h3, h4, h5⟩ := (h p (by simp)).adds g m P hg hP
      obtain ⟨r', m'', C'', h1', h2', h3', h4', h5'⟩ := ih (fun s' hs => h s' (by simp [hs])) r m' C' h2 h3
      refine ⟨r', m'', C'', ?_, h2', h3', ?_, ?_⟩
      · rw [List.map_cons, correctAll, List.foldlM_cons, h1]; exact h1'
      · rw [h4', h4, List.length_cons, Nat.cast_add, Nat.cast_one, add_smul, one_smul, add_assoc, add_comm (Hᵀ * R⁻¹ * H)]
      · rw [h5', h5, add_assoc, ← mulVec_add, List.map_cons, List.sum_cons, List.length_cons, Nat.cast_add, Nat.cast_one, add_smul,
          one_smul]
        congr 2
        abel
  subst hlen
  have hN' : (ys.length : ℝ) ≠ 0 := by exact_mod_cast hN.ne'
  have hR : R.PosDef := (hs ⟨0, hN⟩ ys[0] (by simp)).pos
  have e1 : (List.ofFn fun i : Fin ys.length => (ys[i], y i)).map (fun p => (K, p.1)) = ys.map fun a => (K, a) := by
    rw [List.map_ofFn]
    conv_rhs => rw [← List.ofFn_getElem (xs := ys), List.map_ofFn]
    rfl
  have e2 : ((List.ofFn fun i : Fin ys.length => (ys[i], y i)).map Prod.snd).sum = ∑ i, y i := by
    rw [List.map_ofFn, List.sum_ofFn]
    rfl
  have := key (List.ofFn fun i : Fin ys.length => (ys[i], y i)) (fun p hp => by
    obtain ⟨i, rfl⟩ := (List.mem_ofFn' _ _).1 hp
    exact hs i _ (by simp)) g m P hg hP
  rw [e1, e2, List.length_ofFn] at this
  obtain ⟨q, m₃, C₃, d1, d2, d3, d4, d5⟩ := h.adds g m P hg hP
  have eR : ((ys.length : ℝ)⁻¹ • R)⁻¹ = (ys.length : ℝ) • R⁻¹ := by
    apply inv_eq_right_inv
    rw [smul_mul_smul_comm, inv_mul_cancel₀ hN', mul_nonsing_inv _ hR.det_pos.ne'.isUnit, one_smul]
  refine same_of this ⟨q, m₃, C₃, ?_, d2, d3, d4, d5⟩ ?_ ?_
  · simp [correctAll, d1, bind, Except.bind, pure, Except.pure]
  · rw [eR, Matrix.mul_smul, Matrix.smul_mul]
  · rw [eR, Matrix.mul_smul, smul_mulVec, ← mulVec_smul, smul_sub, smul_smul, mul_inv_cancel₀ hN', one_smul]

/-- **C106.** A sensor that does not see the state changes nothing. -/
theorem C106_blind {s : KFS × Arr} {k : ℕ} {c y : Fin k → ℝ} {R : Matrix (Fin k) (Fin k) ℝ} (h : Sees env t u s (n := n) 0 c R y)
    {g : Gaussian} {m : Fin n → ℝ} {P : Matrix (Fin n) (Fin n) ℝ} (hg : HasMoments env g m P) (hP : P.PosDef) :
    ∃ r, s.1.correct env g s.2 t u = .ok r ∧ HasMoments env r m P := by
  obtain ⟨r, m', C', h1, h2, h3, h4, h5⟩ := h.adds g m P hg hP
  simp only [transpose_zero, Matrix.zero_mul, zero_mulVec, add_zero] at h4 h5
  obtain ⟨rfl, rfl⟩ := nat_inj h3 hP h4 h5
  exact ⟨r, h1, h2⟩

/-- **C106.** Two predictions are one prediction with the composed motion and the noise of the first carried through the second. -/
theorem C106_steps {s₁ s₂ s : KFS × Option ℝ × Option ℝ} {A₁ A₂ Q₁ Q₂ : Matrix (Fin n) (Fin n) ℝ} {b₁ b₂ : Fin n → ℝ}
    (h₁ : Moves env s₁ A₁ b₁ Q₁) (h₂ : Moves env s₂ A₂ b₂ Q₂) (h : Moves env s (A₂ * A₁) (A₂ *ᵥ b₁ + b₂) (A₂ * Q₁ * A₂ᵀ + Q₂))
    (hQ₁ : Q₁.PosDef) {g : Gaussian} {m : Fin n → ℝ} {P : Matrix (Fin n) (Fin n) ℝ} (hg : HasMoments env g m P) (hP : P.PosDef) :
    ∃ r, predictAll [s₁, s₂] g = .ok r ∧ predictAll [s] g = .ok r ∧ ∃ (m' : Fin n → ℝ) (C' : Matrix (Fin n) (Fin n) ℝ), HasMoments env r m' C' := by
  obtain ⟨x, hx, e⟩ := h₁.exact' g m P hg hP
  have p1 := KFS.predict_of e hx h₁.noise
  have hP1 := innov_posDef hP.posSemidef hQ₁ A₁
  obtain ⟨x', hx', e'⟩ := h₂.exact' _ _ _ (hasMoments_ofMoment env (A₁ *ᵥ m + b₁) (A₁ * P * A₁ᵀ + Q₁)) hP1
  have p2 := KFS.predict_of e' hx' h₂.noise
  obtain ⟨x'', hx'', e''⟩ := h.exact' g m P hg hP
  have p3 := KFS.predict_of e'' hx'' h.noise
  have em : A₂ *ᵥ (A₁ *ᵥ m + b₁) + b₂ = (A₂ * A₁) *ᵥ m + (A₂ *ᵥ b₁ + b₂) := by
    rw [mulVec_add, mulVec_mulVec, add_assoc]
  have eC : A₂ * (A₁ * P * A₁ᵀ + Q₁) * A₂ᵀ + Q₂ = A₂ * A₁ * P * (A₂ * A₁)ᵀ + (A₂ * Q₁ * A₂ᵀ + Q₂) := by
    rw [transpose_mul, Matrix.mul_add, Matrix.add_mul]
    simp only [Matrix.mul_assoc, add_assoc]
  rw [em, eC] at p2
  refine ⟨_, ?_, ?_, _, _, hasMoments_ofMoment env ((A₂ * A₁) *ᵥ m + (A₂ *ᵥ b₁ + b₂)) (A₂ * A₁ * P * (A₂ * A₁)ᵀ + (A₂ * Q₁ * A₂ᵀ + Q₂))⟩
  · rw [predictAll, List.foldlM_cons, p1]
    show predictAll [s₂] _ = _
    rw [predictAll, List.foldlM_cons, p2]
    rfl
  · rw [predictAll, List.foldlM_cons, p3]
    rfl

private theorem F_add (a b : ℝ) : BOT.F b * BOT.F a = BOT.F (a + b) := by
  ext i j
  fin_cases i <;> fin_cases j <;> simp [BOT.F, Matrix.mul_apply, Fin.sum_univ_four]

/-- The noise of the tracking model is positive definite. -/
theorem botQ_posDef {d q : ℝ} (hd : 0 < d) (hq : 0 < q) : (BOT.Q d q).PosDef := by
  obtain ⟨sys, Q, h1, h2, h3⟩ := C56_noise_posDef d q 1 none hd hq
  rw [BOT.init, Sys.make, if_pos ⟨rfl, rfl⟩, Except.ok.injEq] at h1
  subst h1
  have : Arr.m (BOT.Q d q) = Arr.m Q := h2
  rwa [Arr.m_inj.1 this]

private theorem track {T : Transform} (hT : ∀ (d : ℝ) (t u : Option ℝ), ExactOn env T (fun x => BOT.f d x t u) (BOT.F d) 0) {q r : ℝ}
    (hq : 0 < q) {sensors : Option (List Sensor)} {sys : ℝ → Sys} (hs : ∀ d, BOT.init q r sensors d = .ok (sys d)) :
    ∀ (l : List (ℝ × Option ℝ × Option ℝ)), (∀ s ∈ l, 0 < s.1) → ∀ (g : Gaussian) (m : Fin 4 → ℝ) (P : Matrix (Fin 4) (Fin 4) ℝ),
      HasMoments env g m P → P.PosDef →
      ∃ g', predictAll (l.map fun s => (KFS.init T (sys s.1) none, s.2)) g = .ok g' ∧
        (l ≠ [] → g' = Gaussian.ofMoment (.v (BOT.F (l.map Prod.fst).sum *ᵥ m))
          (.m (BOT.F (l.map Prod.fst).sum * P * (BOT.F (l.map Prod.fst).sum)ᵀ + BOT.Q (l.map Prod.fst).sum q))) := by
  intro l
  induction l with
  | nil => exact fun _ g m P hg hP => ⟨g, rfl, by simp⟩
  | cons s l ih =>
    intro h g m P hg hP
    have e0 := hs s.1
    rw [BOT.init, Sys.make, if_pos ⟨rfl, rfl⟩, Except.ok.injEq] at e0
    obtain ⟨x, hx, e⟩ := hT s.1 s.2.1 s.2.2 g m P hg hP
    rw [add_zero] at hx
    have p1 : (KFS.init T (sys s.1) none).predict g s.2.1 s.2.2 = _ :=
      KFS.predict_of (K := KFS.init T (sys s.1) none) (Q := BOT.Q s.1 q) (by rw [← e0]; exact e) hx (by rw [← e0]; rfl)
    have hQ := botQ_posDef (h s (by simp)) hq
    obtain ⟨g', h1, h2⟩ := ih (fun s' hs' => h s' (by simp [hs'])) _ _ _ (hasMoments_ofMoment env (BOT.F s.1 *ᵥ m)
      (BOT.F s.1 * P * (BOT.F s.1)ᵀ + BOT.Q s.1 q)) (innov_posDef hP.posSemidef hQ _)
    refine ⟨g', ?_, fun _ => ?_⟩
    · rw [List.map_cons, predictAll, List.foldlM_cons, p1]; exact h1
    · by_cases hl : l = []
      · subst hl
        rw [List.map_nil, predictAll, List.foldlM_nil] at h1
        rw [← Except.ok.inj h1]
        simp
      · rw [h2 hl, List.map_cons, List.sum_cons, C56_noise_consistent, ← F_add]
        congr 2
        · rw [mulVec_mulVec]
        · rw [transpose_mul, Matrix.mul_add, Matrix.add_mul]
          simp only [Matrix.mul_assoc, add_assoc]

/-- **C106.** Predicting the constant velocity tracking model over an interval gives the same however the interval is cut into steps:
every step has its own system with that `delta_t`. -/
theorem C106_tracking {T : Transform} (hT : ∀ (d : ℝ) (t u : Option ℝ), ExactOn env T (fun x => BOT.f d x t u) (BOT.F d) 0) {q r : ℝ}
    (hq : 0 < q) {sensors : Option (List Sensor)} {sys : ℝ → Sys} (hs : ∀ d, BOT.init q r sensors d = .ok (sys d))
    {l l' : List (ℝ × Option ℝ × Option ℝ)} (hl : l ≠ []) (hl' : l' ≠ []) (hpos : ∀ s ∈ l, 0 < s.1) (hpos' : ∀ s ∈ l', 0 < s.1)
    (hsum : (l.map Prod.fst).sum = (l'.map Prod.fst).sum) {g : Gaussian} {m : Fin 4 → ℝ} {P : Matrix (Fin 4) (Fin 4) ℝ}
    (hg : HasMoments env g m P) (hP : P.PosDef) :
    ∃ g', predictAll (l.map fun s => (KFS.init T (sys s.1) none, s.2)) g = .ok g' ∧
      predictAll (l'.map fun s => (KFS.init T (sys s.1) none, s.2)) g = .ok g' := by
  obtain ⟨a, h1, h2⟩ := track hT hq hs l hpos g m P hg hP
  obtain ⟨b, h1', h2'⟩ := track hT hq hs l' hpos' g m P hg hP
  refine ⟨a, h1, ?_⟩
  rw [h1', h2' hl', h2 hl, hsum]

private theorem bot_affine (d : ℝ) (t u : Option ℝ) : AffineRows (fun x => BOT.f d x t u) (BOT.F d) 0 := by
  intro N X
  have : (of fun (_ : Fin N) (j : Fin 4) => (0 : Fin 4 → ℝ) j) = 0 := by ext; simp
  rw [this, add_zero]
  simp only [BOT.f, Arr.atleast2d_m, dite_true]
  rfl

/-- **C106.** The unscented and the Taylor transform meet the condition of `C106_tracking`. -/
theorem C106_tracking_unscented {alpha beta kappa : ℝ} {v : UT} (hv : UT.init 4 alpha beta kappa = .ok v)
    (hpos : 0 < alpha ^ 2 * ((4 : ℕ) + kappa)) (d : ℝ) (t u : Option ℝ) :
    ExactOn env (v.transform env) (fun x => BOT.f d x t u) (BOT.F d) 0 := C20_unscented_exact env hv hpos (bot_affine d t u)

theorem C106_tracking_taylor {jac : Jac} (hjac : CorrectJac jac) (d : ℝ) (t u : Option ℝ) :
    ExactOn env (taylorTransform env jac) (fun x => BOT.f d x t u) (BOT.F d) 0 :=
  C20_taylor_exact env hjac (.inr ⟨fun x => by
    have := bot_affine d t u 1 (of fun _ j => x j)
    refine (show BOT.f d (.v x) t u = BOT.f d (.m (r := 1) (of fun _ j => x j)) t u from rfl).trans (this.trans ?_)
    congr 2
    ext i j
    simp [Matrix.mul_apply, mulVec, dotProduct, mul_comm], by norm_num, by norm_num⟩)

/-- **C106.** For a sensor that is not affine the order matters: with the extended Kalman filter, a sensor of `x` and a sensor of `x²`
starting from mean one and variance one, the two orders give the means 13/12 and 7/6. -/
theorem C106_order_matters {jac : Jac} (hjac : CorrectJac jac) (t u : Option ℝ) {K₁ K₂ : KFS}
    (h₁ : K₁.measTransform = taylorTransform env jac ∧ K₁.measurement = IEKS.mapSys (fun x => x) ∧ K₁.R = .m (m1 1))
    (h₂ : K₂.measTransform = taylorTransform env jac ∧ K₂.measurement = IEKS.mapSys (fun x => x ^ 2) ∧ K₂.R = .m (m1 1)) :
    correctAll env t u [(K₁, .s 0), (K₂, .s 2)] (sG 1 1) = .ok (sG (13 / 12) (1 / 3)) ∧
    correctAll env t u [(K₂, .s 2), (K₁, .s 0)] (sG 1 1) = .ok (sG (7 / 6) (1 / 6)) := by
  have c1 : ∀ {m p : ℝ} (y : ℝ), p + 1 ≠ 0 → K₁.correct env (sG m p) (.s y) t u =
      .ok (sG (m + p / (p + 1) * (y - m)) (p - p / (p + 1) * p)) := fun {m p} y hp => by
    have := taylor_scalar (env := env) hjac (func := fun x => K₁.measurement x t u) (p := p)
      (by rw [h₁.2.1]; exact IEKS.mapSys_vec _ t u) (hasDerivAt_id m)
    have := KFS.correct_scalar (env := env) (ya := .s y) (y := y) (t := t) (u := u) (by rw [h₁.1]; exact this) (isVec_s _) (isVec_s _) h₁.2.2
      (by simpa using hp)
    simpa using this
  have c2 : ∀ {m p : ℝ} (y : ℝ), 2 * m * p * (2 * m) + 1 ≠ 0 → K₂.correct env (sG m p) (.s y) t u =
      .ok (sG (m + p * (2 * m) / (2 * m * p * (2 * m) + 1) * (y - m ^ 2)) (p - p * (2 * m) / (2 * m * p * (2 * m) + 1) * (p * (2 * m)))) :=
    fun {m p} y hp => by
    have := taylor_scalar (env := env) hjac (func := fun x => K₂.measurement x t u) (F := fun x => x ^ 2) (d := 2 * m) (p := p)
      (by rw [h₂.2.1]; exact IEKS.mapSys_vec _ t u) (by simpa using hasDerivAt_pow 2 m)
    exact KFS.correct_scalar (env := env) (ya := .s y) (y := y) (t := t) (u := u) (by rw [h₂.1]; exact this) (isVec_s _) (isVec_s _) h₂.2.2 hp
  constructor
  · simp only [correctAll, List.foldlM_cons, List.foldlM_nil]
    rw [c1 0 (by norm_num)]
    simp only [bind, Except.bind]
    rw [c2 2 (by norm_num)]
    simp only [pure, Except.pure]
    norm_num
  · simp only [correctAll, List.foldlM_cons, List.foldlM_nil]
    rw [c2 2 (by norm_num)]
    simp only [bind, Except.bind]
    rw [c1 0 (by norm_num)]
    simp only [pure, Except.pure]
    norm_num

/-! ## Concrete cases -/

/-- Covariance one. -/
private noncomputable def unitG {n : ℕ} (m : Fin n → ℝ) : Gaussian := Gaussian.ofMoment (.v m) (.m (1 : Matrix (Fin n) (Fin n) ℝ))

/-- A filter object with an affine motion and an affine sensor. -/
private noncomputable def affineKFS {n k : ℕ} (A Q : Matrix (Fin n) (Fin n) ℝ) (b : Fin n → ℝ) (H : Matrix (Fin k) (Fin n) ℝ)
    (R : Matrix (Fin k) (Fin k) ℝ) (c : Fin k → ℝ) : KFS :=
  KFS.init (taylorTransform calmEnv exactJac)
    { transition := affineSys A b, measurement := affineSys H c, Q := .m Q, R := .m R
      initState := unitG (0 : Fin n → ℝ), dt := 1 } none

private theorem affineKFS_sees {n k : ℕ} (A Q : Matrix (Fin n) (Fin n) ℝ) (b : Fin n → ℝ) (H : Matrix (Fin k) (Fin n) ℝ)
    {R : Matrix (Fin k) (Fin k) ℝ} (hR : R.PosDef) (c y : Fin k → ℝ) : Sees calmEnv t u (affineKFS A Q b H R c, .v y) H c R y :=
  ⟨C20_taylor_exact _ exactJac_correct (.inl fun x => affineFunc_vec H c x), rfl, hR, .inl rfl⟩

private theorem affineKFS_moves {n k : ℕ} (A Q : Matrix (Fin n) (Fin n) ℝ) (b : Fin n → ℝ) (H : Matrix (Fin k) (Fin n) ℝ)
    (R : Matrix (Fin k) (Fin k) ℝ) (c : Fin k → ℝ) : Moves calmEnv (affineKFS A Q b H R c, t, u) A b Q :=
  ⟨C20_taylor_exact _ exactJac_correct (.inl fun x => affineFunc_vec A b x), rfl⟩

/-- A position sensor, a velocity sensor and one that sees both, in two orders. -/
example : let s₁ := (affineKFS (1 : Matrix (Fin 2) (Fin 2) ℝ) 1 0 !![1, 0] 1 ![3], Arr.v ![5])
    let s₂ := (affineKFS (1 : Matrix (Fin 2) (Fin 2) ℝ) 1 0 !![0, 1] 1 ![0], Arr.v ![-1])
    let s₃ := (affineKFS (1 : Matrix (Fin 2) (Fin 2) ℝ) 1 0 !![1, 0; 1, 1] 1 ![0, 1], Arr.v ![2, 4])
    SameResult calmEnv 2 (correctAll calmEnv none none [s₁, s₂, s₃] (unitG ![0, 1]))
      (correctAll calmEnv none none [s₃, s₂, s₁] (unitG ![0, 1])) := by
  intro s₁ s₂ s₃
  refine C106_order (List.reverse_perm [s₁, s₂, s₃]).symm (fun s hs => ?_) (hasMoments_ofMoment calmEnv ![0, 1] 1) .one
  simp only [List.mem_cons, List.not_mem_nil, or_false] at hs
  rcases hs with rfl | rfl | rfl
  · exact ⟨_, _, _, _, _, affineKFS_sees _ _ _ _ .one _ _⟩
  · exact ⟨_, _, _, _, _, affineKFS_sees _ _ _ _ .one _ _⟩
  · exact ⟨_, _, _, _, _, affineKFS_sees _ _ _ _ .one _ _⟩

/-- A position sensor and a velocity sensor, and the sensor of both. -/
example : let s₁ := (affineKFS (1 : Matrix (Fin 2) (Fin 2) ℝ) 1 0 !![1, 0] 1 ![3], Arr.v ![5])
    let s₂ := (affineKFS (1 : Matrix (Fin 2) (Fin 2) ℝ) 1 0 !![0, 1] 1 ![0], Arr.v ![-1])
    let s := (affineKFS (1 : Matrix (Fin 2) (Fin 2) ℝ) 1 0 !![1, 0; 0, 1] 1 ![3, 0], Arr.v ![5, -1])
    SameResult calmEnv 2 (correctAll calmEnv none none [s₁, s₂] (unitG ![0, 1]))
      (correctAll calmEnv none none [s] (unitG ![0, 1])) := by
  intro s₁ s₂ s
  have e1 : stackRows (n := 2) !![1, 0] !![0, 1] = (!![1, 0; 0, 1] : Matrix (Fin 2) (Fin 2) ℝ) := by
    ext i j; fin_cases i <;> fin_cases j <;> rfl
  have e2 : stackDiag (1 : Matrix (Fin 1) (Fin 1) ℝ) (1 : Matrix (Fin 1) (Fin 1) ℝ) = 1 := by
    rw [stackDiag, fromBlocks_one, submatrix_one_equiv]
  have e3 : ∀ a b : ℝ, Fin.append ![a] ![b] = ![a, b] := fun a b => by
    ext i; fin_cases i <;> rfl
  refine C106_stacked (affineKFS_sees _ _ _ _ .one _ _) (affineKFS_sees _ _ _ _ .one _ _) ?_ (hasMoments_ofMoment calmEnv ![0, 1] 1) .one
  rw [e1, e2, e3, e3]
  exact affineKFS_sees _ _ _ _ .one _ _

/-- Two readings of a position sensor. -/
example : let K := affineKFS (1 : Matrix (Fin 2) (Fin 2) ℝ) 1 0 !![1, 0] 1 ![3]
    let s := (affineKFS (1 : Matrix (Fin 2) (Fin 2) ℝ) 1 0 !![1, 0] ((2 : ℝ)⁻¹ • 1) ![3], Arr.v ![6])
    SameResult calmEnv 2 (correctAll calmEnv none none ([Arr.v ![5], Arr.v ![7]].map fun a => (K, a)) (unitG ![0, 1]))
      (correctAll calmEnv none none [s] (unitG ![0, 1])) := by
  intro K s
  refine C106_average (N := 2) (H := !![1, 0]) (c := ![3]) (R := 1) (y := ![![5], ![7]]) (by norm_num) rfl (fun i a h => ?_) ?_
    (hasMoments_ofMoment calmEnv ![0, 1] 1) .one
  · fin_cases i
    · obtain rfl : Arr.v ![5] = a := by simpa using h
      exact affineKFS_sees _ _ _ _ .one _ _
    · obtain rfl : Arr.v ![7] = a := by simpa using h
      exact affineKFS_sees _ _ _ _ .one _ _
  · have e : (((2 : ℕ) : ℝ)⁻¹ • ∑ i, (![![5], ![7]] : Fin 2 → Fin 1 → ℝ) i) = ![6] := by
      ext i; fin_cases i; simp [Fin.sum_univ_two]; norm_num
    rw [e]
    exact affineKFS_sees _ _ _ _ (PosDef.one.smul (by norm_num)) _ _

/-- A sensor that gives noise only. -/
example : ∃ r, (affineKFS (1 : Matrix (Fin 2) (Fin 2) ℝ) 1 0 (0 : Matrix (Fin 1) (Fin 2) ℝ) 1 ![3]).correct calmEnv (unitG ![0, 1]) (.v ![5])
    none none = .ok r ∧ HasMoments calmEnv r ![0, 1] (1 : Matrix (Fin 2) (Fin 2) ℝ) :=
  C106_blind (affineKFS_sees _ _ _ _ .one _ _) (hasMoments_ofMoment calmEnv ![0, 1] 1) .one

/-- A motion followed by another. -/
example : ∃ r, predictAll [(affineKFS !![1, 1; 0, 1] 1 ![1, 0] (1 : Matrix (Fin 2) (Fin 2) ℝ) 1 0, some 0, none),
      (affineKFS !![2, 0; 1, 1] 1 ![0, 3] (1 : Matrix (Fin 2) (Fin 2) ℝ) 1 0, some 1, none)] (unitG ![0, 1]) = .ok r ∧
    predictAll [(affineKFS (!![2, 0; 1, 1] * !![1, 1; 0, 1]) (!![2, 0; 1, 1] * 1 * !![2, 0; 1, 1]ᵀ + 1) (!![2, 0; 1, 1] *ᵥ ![1, 0] + ![0, 3])
      (1 : Matrix (Fin 2) (Fin 2) ℝ) 1 0, some 0, none)] (unitG ![0, 1]) = .ok r := by
  obtain ⟨r, h1, h2, -⟩ := C106_steps (affineKFS_moves !![1, 1; 0, 1] 1 ![1, 0] (1 : Matrix (Fin 2) (Fin 2) ℝ) 1 0 (t := some 0) (u := none))
    (affineKFS_moves !![2, 0; 1, 1] 1 ![0, 3] (1 : Matrix (Fin 2) (Fin 2) ℝ) 1 0 (t := some 1) (u := none))
    (affineKFS_moves _ _ _ (1 : Matrix (Fin 2) (Fin 2) ℝ) 1 0 (t := some 0) (u := none)) .one (hasMoments_ofMoment calmEnv ![0, 1] 1) .one
  exact ⟨r, h1, h2⟩

/-- A step of three is steps of one and two. -/
example : ∃ sys : ℝ → Sys, (∀ d, BOT.init 0.1 0.01 none d = .ok (sys d)) ∧ ∃ g',
    predictAll [(KFS.init (taylorTransform calmEnv exactJac) (sys 1) none, some 0, none),
      (KFS.init (taylorTransform calmEnv exactJac) (sys 2) none, some 1, none)] (unitG ![0, 0, 1, 0]) = .ok g' ∧
    predictAll [(KFS.init (taylorTransform calmEnv exactJac) (sys 3) none, some 0, none)] (unitG ![0, 0, 1, 0]) = .ok g' := by
  choose sys h using fun d : ℝ => (⟨_, by rw [BOT.init, Sys.make, if_pos ⟨rfl, rfl⟩]⟩ : ∃ s, BOT.init 0.1 0.01 none d = .ok s)
  refine ⟨sys, h, ?_⟩
  exact C106_tracking (l := [(1, some 0, none), (2, some 1, none)]) (l' := [(3, some 0, none)])
    (C106_tracking_taylor exactJac_correct) (by norm_num) h (by simp) (by simp) (by simp) (by simp) (by simp; norm_num)
    (hasMoments_ofMoment calmEnv ![0, 0, 1, 0] 1) .one

/-- The two sensors of `C106_order_matters`. -/
example : ∃ K₁ K₂ : KFS,
    (K₁.measTransform = taylorTransform calmEnv exactJac ∧ K₁.measurement = IEKS.mapSys (fun x => x) ∧ K₁.R = .m (m1 1)) ∧
    (K₂.measTransform = taylorTransform calmEnv exactJac ∧ K₂.measurement = IEKS.mapSys (fun x => x ^ 2) ∧ K₂.R = .m (m1 1)) :=
  ⟨{ demoKFS (taylorTransform calmEnv exactJac) with measurement := IEKS.mapSys (fun x => x), R := .m (m1 1) },
    { demoKFS (taylorTransform calmEnv exactJac) with measurement := IEKS.mapSys (fun x => x ^ 2), R := .m (m1 1) },
    ⟨rfl, rfl, rfl⟩, rfl, rfl, rfl⟩

end Verif

import Verif.Props.Calibrate
import Verif.Spec.Order

/-! Errors of filter and smoother as linear functions of the noises; comparison of covariances. -/

namespace Verif

open Matrix MeasureTheory

namespace StateSpace

variable {n k p : ℕ} {L : StateSpace n k}

/-- States and measurements of the model for given deviation of the initial state and given noises. -/
noncomputable def walk (L : StateSpace n k) (e : Fin n → ℝ) (q : ℕ → Fin n → ℝ) : ℕ → Fin n → ℝ
  | 0 => L.m0 + e
  | i + 1 => L.A i *ᵥ walk L e q i + L.b i + q i
noncomputable def seen (L : StateSpace n k) (e : Fin n → ℝ) (q : ℕ → Fin n → ℝ) (r : ℕ → Fin k → ℝ) (i : ℕ) : Fin k → ℝ :=
  L.H i *ᵥ L.walk e q (i + 1) + L.c i + r i

/-- A linear function of the initial deviation and the first `N` noises. -/
def LinIn (N : ℕ) (Z : (Fin n → ℝ) → (ℕ → Fin n → ℝ) → (ℕ → Fin k → ℝ) → Fin p → ℝ) : Prop :=
  ∃ (W : Matrix (Fin p) (Fin n) ℝ) (U : ℕ → Matrix (Fin p) (Fin n) ℝ) (V : ℕ → Matrix (Fin p) (Fin k) ℝ), ∀ e q r,
    Z e q r = W *ᵥ e + ∑ j ∈ Finset.range N, (U j *ᵥ q j + V j *ᵥ r j)

variable {N : ℕ} {Z Z' : (Fin n → ℝ) → (ℕ → Fin n → ℝ) → (ℕ → Fin k → ℝ) → Fin p → ℝ}

theorem LinIn.add (h : LinIn N Z) (h' : LinIn N Z') : LinIn N fun e q r => Z e q r + Z' e q r := by
  obtain ⟨W, U, V, h⟩ := h
  obtain ⟨W', U', V', h'⟩ := h'
  refine ⟨W + W', fun j => U j + U' j, fun j => V j + V' j, fun e q r => ?_⟩
  dsimp only
  rw [h, h', add_mulVec, add_add_add_comm, ← Finset.sum_add_distrib]
  congr 1
  exact Finset.sum_congr rfl fun j _ => by rw [add_mulVec, add_mulVec]; abel

theorem LinIn.mulVec {l : ℕ} (h : LinIn N Z) (M : Matrix (Fin l) (Fin p) ℝ) : LinIn N fun e q r => M *ᵥ Z e q r := by
  obtain ⟨W, U, V, h⟩ := h
  refine ⟨M * W, fun j => M * U j, fun j => M * V j, fun e q r => ?_⟩
  dsimp only
  rw [h, mulVec_add, mulVec_sum, mulVec_mulVec]
  congr 1
  exact Finset.sum_congr rfl fun j _ => by rw [mulVec_add, mulVec_mulVec, mulVec_mulVec]

theorem LinIn.neg (h : LinIn N Z) : LinIn N fun e q r => - Z e q r := by
  have := h.mulVec (-1 : Matrix (Fin p) (Fin p) ℝ)
  simpa [neg_mulVec] using this

theorem LinIn.sub (h : LinIn N Z) (h' : LinIn N Z') : LinIn N fun e q r => Z e q r - Z' e q r := by
  simp only [sub_eq_add_neg]
  exact h.add h'.neg

theorem LinIn.mono {M : ℕ} (h : LinIn N Z) (hM : N ≤ M) : LinIn M Z := by
  obtain ⟨W, U, V, h⟩ := h
  refine ⟨W, fun j => if j < N then U j else 0, fun j => if j < N then V j else 0, fun e q r => ?_⟩
  rw [h]
  congr 1
  rw [← Finset.sum_subset (Finset.range_mono hM)]
  · exact Finset.sum_congr rfl fun j hj => by simp [Finset.mem_range.1 hj]
  · intro j _ hj
    rw [Finset.mem_range] at hj
    simp [hj]

theorem linIn_e : LinIn N fun (e : Fin n → ℝ) (_ : ℕ → Fin n → ℝ) (_ : ℕ → Fin k → ℝ) => e :=
  ⟨1, 0, 0, fun e q r => by simp⟩

theorem linIn_q {i : ℕ} (hi : i < N) : LinIn N fun (_ : Fin n → ℝ) (q : ℕ → Fin n → ℝ) (_ : ℕ → Fin k → ℝ) => q i := by
  refine ⟨0, fun j => if j = i then 1 else 0, 0, fun e q r => ?_⟩
  rw [zero_mulVec, zero_add, Finset.sum_eq_single i]
  · simp
  · intro j _ hj; simp [hj]
  · intro h; exact absurd (Finset.mem_range.2 hi) h

theorem linIn_r {i : ℕ} (hi : i < N) : LinIn N fun (_ : Fin n → ℝ) (_ : ℕ → Fin n → ℝ) (r : ℕ → Fin k → ℝ) => r i := by
  refine ⟨0, 0, fun j => if j = i then 1 else 0, fun e q r => ?_⟩
  rw [zero_mulVec, zero_add, Finset.sum_eq_single i]
  · simp
  · intro j _ hj; simp [hj]
  · intro h; exact absurd (Finset.mem_range.2 hi) h

theorem err_lin (L : StateSpace n k) : ∀ i, LinIn i fun e q r => L.walk e q i - (L.filt (L.seen e q r) i).1
  | 0 => by
    have : (fun (e : Fin n → ℝ) (q : ℕ → Fin n → ℝ) (r : ℕ → Fin k → ℝ) => L.walk e q 0 - (L.filt (L.seen e q r) 0).1) = fun e _ _ => e := by
      funext e q r; simp [walk, StateSpace.filt]
    rw [this]
    exact linIn_e
  | i + 1 => by
    have ih := (err_lin L i).mono (Nat.le_succ i)
    have h1 := (((ih.mulVec (L.A i)).add (linIn_q (Nat.lt_succ_self i))).mulVec (1 - L.fgain i * L.H i)).sub
      ((linIn_r (n := n) (Nat.lt_succ_self i)).mulVec (L.fgain i))
    refine (congrArg (LinIn (i + 1)) ?_).mp h1
    funext e q r
    rw [filt_mean, seen, walk]
    set m := (L.filt (L.seen e q r) i).1
    simp only [mulVec_add, mulVec_sub, sub_mulVec, one_mulVec, ← mulVec_mulVec]
    abel

theorem serr_lin (L : StateSpace n k) : ∀ d i, LinIn (i + d) fun e q r => L.walk e q i - (L.smth (L.seen e q r) i d).1
  | 0, i => L.err_lin i
  | d + 1, i => by
    have he := (L.err_lin i).mono (Nat.le_add_right i (d + 1))
    have hs := serr_lin L d (i + 1)
    rw [show i + 1 + d = i + (d + 1) by omega] at hs
    have h1 := (he.sub (((he.mulVec (L.A i)).add (linIn_q (show i < i + (d + 1) by omega))).mulVec (L.sgain i))).add (hs.mulVec (L.sgain i))
    refine (congrArg (LinIn (i + (d + 1))) ?_).mp h1
    funext e q r
    rw [smth_mean, walk]
    simp only [mulVec_add, mulVec_sub]
    abel

/-- The estimates are affine in the measurements. -/
theorem filt_affine (L : StateSpace n k) : ∀ i, ∃ (β : Fin n → ℝ) (B : ℕ → Matrix (Fin n) (Fin k) ℝ), ∀ y : ℕ → Fin k → ℝ,
    (L.filt y i).1 = β + ∑ j ∈ Finset.range i, B j *ᵥ y j
  | 0 => ⟨L.m0, 0, fun y => by simp [StateSpace.filt]⟩
  | i + 1 => by
    obtain ⟨β, B, h⟩ := filt_affine L i
    set M := (1 - L.fgain i * L.H i) * L.A i
    refine ⟨M *ᵥ β + (1 - L.fgain i * L.H i) *ᵥ L.b i - L.fgain i *ᵥ L.c i, fun j => if j = i then L.fgain i else M * B j, fun y => ?_⟩
    dsimp only
    have e1 : ∑ j ∈ Finset.range i, (if j = i then L.fgain i else M * B j) *ᵥ y j = M *ᵥ ∑ j ∈ Finset.range i, B j *ᵥ y j := by
      rw [mulVec_sum]
      exact Finset.sum_congr rfl fun j hj => by rw [if_neg (Finset.mem_range.1 hj).ne, ← mulVec_mulVec]
    rw [filt_mean, h, Finset.sum_range_succ, if_pos rfl, e1]
    set s := ∑ j ∈ Finset.range i, B j *ᵥ y j
    simp only [M, mulVec_add, mulVec_sub, sub_mulVec, one_mulVec, ← mulVec_mulVec]
    abel

theorem smth_affine (L : StateSpace n k) : ∀ d i, ∃ (β : Fin n → ℝ) (B : ℕ → Matrix (Fin n) (Fin k) ℝ), ∀ y : ℕ → Fin k → ℝ,
    (L.smth y i d).1 = β + ∑ j ∈ Finset.range (i + d), B j *ᵥ y j
  | 0, i => L.filt_affine i
  | d + 1, i => by
    obtain ⟨β, B, h⟩ := smth_affine L d (i + 1)
    obtain ⟨β', B', h'⟩ := L.filt_affine i
    set M := 1 - L.sgain i * L.A i
    refine ⟨L.sgain i *ᵥ β + (M *ᵥ β' - L.sgain i *ᵥ L.b i), fun j => L.sgain i * B j + if j < i then M * B' j else 0, fun y => ?_⟩
    have e1 : ∑ j ∈ Finset.range (i + (d + 1)), (L.sgain i * B j + if j < i then M * B' j else 0) *ᵥ y j =
        L.sgain i *ᵥ ∑ j ∈ Finset.range (i + 1 + d), B j *ᵥ y j + M *ᵥ ∑ j ∈ Finset.range i, B' j *ᵥ y j := by
      rw [mulVec_sum, mulVec_sum, show i + 1 + d = i + (d + 1) by omega]
      simp only [add_mulVec]
      rw [Finset.sum_add_distrib]
      congr 1
      · exact Finset.sum_congr rfl fun j _ => by rw [← mulVec_mulVec]
      · rw [← Finset.sum_subset (Finset.range_mono (Nat.le_add_right i (d + 1)))]
        · exact Finset.sum_congr rfl fun j hj => by rw [if_pos (Finset.mem_range.1 hj), ← mulVec_mulVec]
        · intro j _ hj
          rw [Finset.mem_range] at hj
          simp [hj]
    rw [smth_mean, h, h', e1]
    set s := ∑ j ∈ Finset.range (i + 1 + d), B j *ᵥ y j
    set s' := ∑ j ∈ Finset.range i, B' j *ᵥ y j
    simp only [M, mulVec_add, sub_mulVec, one_mulVec, ← mulVec_mulVec]
    abel

/-! ### Second moments -/

variable {Ω : Type*} [MeasurableSpace Ω] {ℙ : Measure Ω}

theorem quad_triple {a b : ℕ} (M : Matrix (Fin a) (Fin b) ℝ) (P : Matrix (Fin b) (Fin b) ℝ) (u : Fin a → ℝ) :
    quad (M * P * Mᵀ) u = quad P (Mᵀ *ᵥ u) := by
  rw [quad, quad, ← mulVec_mulVec, ← mulVec_mulVec, dotProduct_mulVec, ← mulVec_transpose]

namespace Path

variable {x q : ℕ → Ω → Fin n → ℝ} {r : ℕ → Ω → Fin k → ℝ} {y : Ω → ℕ → Fin k → ℝ}

theorem walk_eq (h : L.Path ℙ x q r y) (ω : Ω) : ∀ i, x i ω = L.walk (x 0 ω - L.m0) (fun j => q j ω) i
  | 0 => by simp [walk]
  | i + 1 => by rw [h.state, walk, ← h.walk_eq ω i]

theorem seen_eq (h : L.Path ℙ x q r y) (ω : Ω) : y ω = L.seen (x 0 ω - L.m0) (fun j => q j ω) fun j => r j ω := by
  funext i
  rw [h.meas, seen, ← h.walk_eq]

variable {W : Matrix (Fin p) (Fin n) ℝ} {U : ℕ → Matrix (Fin p) (Fin n) ℝ} {V : ℕ → Matrix (Fin p) (Fin k) ℝ}

theorem sq_lin (h : L.Path ℙ x q r y) : ∀ N, SqInt ℙ fun ω => W *ᵥ (x 0 ω - L.m0) + ∑ j ∈ Finset.range N, (U j *ᵥ q j ω + V j *ᵥ r j ω)
  | 0 => by simpa using h.sq_x.mulVec W
  | N + 1 => by
    simp only [Finset.sum_range_succ, ← add_assoc _ (Finset.sum _ _)]
    exact (h.sq_lin N).add (((h.sq_q N).mulVec _).add ((h.sq_r N).mulVec _))

theorem cross_lin_zero (h : L.Path ℙ x q r y) {l : ℕ} {Y : Ω → Fin l → ℝ} (hY : SqInt ℙ Y) (hx : cross ℙ (fun ω => x 0 ω - L.m0) Y = 0) : ∀ N,
    (∀ j < N, cross ℙ (q j) Y = 0) → (∀ j < N, cross ℙ (r j) Y = 0) →
    cross ℙ (fun ω => W *ᵥ (x 0 ω - L.m0) + ∑ j ∈ Finset.range N, (U j *ᵥ q j ω + V j *ᵥ r j ω)) Y = 0
  | 0, _, _ => by
    simp only [Finset.range_zero, Finset.sum_empty, add_zero]
    rw [cross_mulVec_left h.sq_x hY, hx, Matrix.mul_zero]
  | N + 1, hq, hr => by
    simp only [Finset.sum_range_succ, ← add_assoc _ (Finset.sum _ _)]
    rw [cross_add_left (h.sq_lin N) (((h.sq_q N).mulVec _).add ((h.sq_r N).mulVec _)) hY,
      h.cross_lin_zero hY hx N (fun j hj => hq j (by omega)) (fun j hj => hr j (by omega)),
      cross_add_left ((h.sq_q N).mulVec _) ((h.sq_r N).mulVec _) hY, cross_mulVec_left (h.sq_q N) hY, cross_mulVec_left (h.sq_r N) hY,
      hq N (by omega), hr N (by omega)]
    simp

/-- Second moments of linear functions of the noises. -/
theorem cross_lin (h : L.Path ℙ x q r y) : ∀ N,
    cross ℙ (fun ω => W *ᵥ (x 0 ω - L.m0) + ∑ j ∈ Finset.range N, (U j *ᵥ q j ω + V j *ᵥ r j ω))
      (fun ω => W *ᵥ (x 0 ω - L.m0) + ∑ j ∈ Finset.range N, (U j *ᵥ q j ω + V j *ᵥ r j ω)) =
      W * L.P0 * Wᵀ + ∑ j ∈ Finset.range N, (U j * L.Q * (U j)ᵀ + V j * L.R * (V j)ᵀ)
  | 0 => by
    simp only [Finset.range_zero, Finset.sum_empty, add_zero]
    rw [cross_mulVec_left h.sq_x (h.sq_x.mulVec W), cross_mulVec_right h.sq_x h.sq_x, h.cov_x, Matrix.mul_assoc]
  | N + 1 => by
    simp only [Finset.sum_range_succ, ← add_assoc _ (Finset.sum _ _)]
    have hX := h.sq_lin (W := W) (U := U) (V := V) N
    have hq := (h.sq_q N).mulVec (U N)
    have hr := (h.sq_r N).mulVec (V N)
    have hS := hq.add hr
    have z : cross ℙ (fun ω => W *ᵥ (x 0 ω - L.m0) + ∑ j ∈ Finset.range N, (U j *ᵥ q j ω + V j *ᵥ r j ω))
        (fun ω => U N *ᵥ q N ω + V N *ᵥ r N ω) = 0 := by
      have rq : ∀ i j, cross ℙ (r i) (q j) = 0 := fun i j => cross_zero_comm (h.qr j i)
      rw [cross_add_right hX hq hr, cross_mulVec_right hX (h.sq_q N), cross_mulVec_right hX (h.sq_r N),
        h.cross_lin_zero (h.sq_q N) (cross_zero_comm (h.xq N)) N (fun j hj => h.qq j N hj.ne) (fun j _ => rq j N),
        h.cross_lin_zero (h.sq_r N) (cross_zero_comm (h.xr N)) N (fun j _ => h.qr j N) (fun j hj => h.rr j N hj.ne)]
      simp
    rw [cross_add_left hX hS (hX.add hS), cross_add_right hX hX hS, cross_add_right hS hX hS, z, cross_zero_comm z, h.cross_lin N,
      cross_add_left hq hr hS, cross_add_right hq hq hr, cross_add_right hr hq hr,
      cross_mulVec_left (h.sq_q N) hq, cross_mulVec_left (h.sq_q N) hr, cross_mulVec_left (h.sq_r N) hq, cross_mulVec_left (h.sq_r N) hr,
      cross_mulVec_right (h.sq_q N) (h.sq_q N), cross_mulVec_right (h.sq_q N) (h.sq_r N), cross_mulVec_right (h.sq_r N) (h.sq_q N),
      cross_mulVec_right (h.sq_r N) (h.sq_r N), h.cov_q, h.cov_r, h.qr, cross_zero_comm (h.qr N N)]
    simp only [Matrix.zero_mul, Matrix.mul_zero, add_zero, zero_add, Matrix.mul_assoc]

end Path

/-- The model with normal noises. -/
theorem Good.exists_path (hL : L.Good) : ∃ (x q : ℕ → (ℕ × ℕ → ℝ) → Fin n → ℝ) (r : ℕ → (ℕ × ℕ → ℝ) → Fin k → ℝ) (y : (ℕ × ℕ → ℝ) → ℕ → Fin k → ℝ),
    L.Path standardNormals x q r y := by
  let x : ℕ → (ℕ × ℕ → ℝ) → Fin n → ℝ := fun i ω => L.walk (drawsFrom ω 0 n L.m0 L.P0 - L.m0) (fun j => drawsFrom ω (2 * j + 1) n 0 L.Q) i
  exact ⟨x, _, _, fun ω i => L.H i *ᵥ x (i + 1) ω + L.c i + drawsFrom ω (2 * i + 2) k 0 L.R,
    C85_normal_draws.walk L hL.P0.posSemidef hL.Q.posSemidef hL.R.posSemidef (fun ω => by simp [x, walk]) (fun i ω => rfl) fun i ω => rfl⟩

/-- The error of the smoother as a function of the noises; the noises with the covariances of the model give the reported covariance. -/
theorem Good.weights (hL : L.Good) (d i : ℕ) : ∃ (W : Matrix (Fin n) (Fin n) ℝ) (U : ℕ → Matrix (Fin n) (Fin n) ℝ) (V : ℕ → Matrix (Fin n) (Fin k) ℝ),
    (∀ e q r, L.walk e q i - (StateSpace.smth L (L.seen e q r) i d).1 = W *ᵥ e + ∑ j ∈ Finset.range (i + d), (U j *ᵥ q j + V j *ᵥ r j)) ∧
    (StateSpace.smth L 0 i d).2 = W * L.P0 * Wᵀ + ∑ j ∈ Finset.range (i + d), (U j * L.Q * (U j)ᵀ + V j * L.R * (V j)ᵀ) := by
  obtain ⟨W, U, V, h⟩ := L.serr_lin d i
  obtain ⟨x, q, r, y, hp⟩ := hL.exists_path
  refine ⟨W, U, V, h, ?_⟩
  rw [← hp.cov_serr hL, ← hp.cross_lin]
  have : L.serr x y i d = fun ω => W *ᵥ (x 0 ω - L.m0) + ∑ j ∈ Finset.range (i + d), (U j *ᵥ q j ω + V j *ᵥ r j ω) := by
    funext ω
    rw [serr, hp.walk_eq ω i, hp.seen_eq ω]
    exact h _ _ _
  rw [this]

variable {P P' Q Q' : Matrix (Fin n) (Fin n) ℝ} {R R' : Matrix (Fin k) (Fin k) ℝ}

theorem walk_withNoise (e : Fin n → ℝ) (q : ℕ → Fin n → ℝ) : ∀ i, (L.withNoise P Q R).walk e q i = L.walk e q i
  | 0 => rfl
  | i + 1 => by rw [walk, walk, walk_withNoise e q i]; rfl

theorem seen_withNoise (e : Fin n → ℝ) (q : ℕ → Fin n → ℝ) (r : ℕ → Fin k → ℝ) : (L.withNoise P Q R).seen e q r = L.seen e q r := by
  funext i
  rw [seen, seen, walk_withNoise]
  rfl

theorem quad_add' {a : ℕ} (M N : Matrix (Fin a) (Fin a) ℝ) (u : Fin a → ℝ) : quad (M + N) u = quad M u + quad N u := by
  rw [quad, quad, quad, add_mulVec, dotProduct_add]

theorem quad_sum {a : ℕ} {ι : Type*} (s : Finset ι) (M : ι → Matrix (Fin a) (Fin a) ℝ) (u : Fin a → ℝ) : quad (∑ j ∈ s, M j) u = ∑ j ∈ s, quad (M j) u := by
  rw [quad, sum_mulVec, dotProduct_sum]
  rfl

/-- The errors of a filter that assumes other covariances than the true ones: larger assumed covariances lead to reported covariances at
least as large as those of the errors, smaller ones to reported covariances at most as large. -/
theorem Path.mismatch [IsFiniteMeasure ℙ] {x q : ℕ → Ω → Fin n → ℝ} {r : ℕ → Ω → Fin k → ℝ} {y : Ω → ℕ → Fin k → ℝ} (h : L.Path ℙ x q r y)
    (hL : (L.withNoise P Q R).Good) (d i : ℕ) :
    SqInt ℙ (fun ω => x i ω - ((L.withNoise P Q R).smth (y ω) i d).1) ∧
    cross ℙ (fun ω => x i ω - ((L.withNoise P Q R).smth (y ω) i d).1) unit1 = 0 ∧
    (Below L.P0 P → Below L.Q Q → Below L.R R →
      Below (cross ℙ (fun ω => x i ω - ((L.withNoise P Q R).smth (y ω) i d).1) fun ω => x i ω - ((L.withNoise P Q R).smth (y ω) i d).1)
        ((L.withNoise P Q R).smth 0 i d).2) ∧
    (Below P L.P0 → Below Q L.Q → Below R L.R → Below ((L.withNoise P Q R).smth 0 i d).2
      (cross ℙ (fun ω => x i ω - ((L.withNoise P Q R).smth (y ω) i d).1) fun ω => x i ω - ((L.withNoise P Q R).smth (y ω) i d).1)) := by
  obtain ⟨W, U, V, hW, hC⟩ := hL.weights d i
  have e : (fun ω => x i ω - ((L.withNoise P Q R).smth (y ω) i d).1) =
      fun ω => W *ᵥ (x 0 ω - L.m0) + ∑ j ∈ Finset.range (i + d), (U j *ᵥ q j ω + V j *ᵥ r j ω) := by
    funext ω
    have := hW (x 0 ω - L.m0) (fun j => q j ω) fun j => r j ω
    rw [walk_withNoise, seen_withNoise, ← h.walk_eq ω i, ← h.seen_eq ω] at this
    exact this
  rw [e]
  refine ⟨h.sq_lin _, h.cross_lin_zero (SqInt.const _) h.mean_x _ (fun j _ => h.mean_q j) (fun j _ => h.mean_r j), fun hP hQ hR u => ?_,
    fun hP hQ hR u => ?_⟩
  all_goals
    rw [h.cross_lin, hC]
    change quad _ u ≤ quad _ u
    simp only [quad_add', quad_sum, quad_triple]
    exact add_le_add (hP _) (Finset.sum_le_sum fun j _ => add_le_add (hQ _) (hR _))

/-- Larger covariances of prior and noises lead to larger reported covariances. -/
theorem Good.monotone (hL : L.Good) (hL' : (L.withNoise P Q R).Good) (hP : Below L.P0 P) (hQ : Below L.Q Q) (hR : Below L.R R) (d i : ℕ) :
    Below (StateSpace.smth L 0 i d).2 ((L.withNoise P Q R).smth 0 i d).2 := by
  intro u
  obtain ⟨x, q, r, y, hp⟩ := hL.exists_path
  obtain ⟨h1, -, h2, -⟩ := hp.mismatch hL' d i
  obtain ⟨β, B, hB⟩ := (L.withNoise P Q R).smth_affine d i
  refine (hp.best hL d i β B u).trans (le_trans ?_ (h2 hP hQ hR u))
  rw [show u ⬝ᵥ cross standardNormals _ _ *ᵥ u = _ from Path.quad_cross h1 u]
  simp only [hB, le_refl]

/-- More measurements lead to smaller reported covariances. -/
theorem Good.longer (hL : L.Good) (i : ℕ) {d d' : ℕ} (hd : d ≤ d') : Below (StateSpace.smth L 0 i d').2 (StateSpace.smth L 0 i d).2 := by
  intro u
  obtain ⟨x, q, r, y, hp⟩ := hL.exists_path
  obtain ⟨β, B, hB⟩ := L.smth_affine d i
  have h1 := hp.best hL d' i β (fun j => if j < i + d then B j else 0) u
  have e : ∀ ω, ∑ j ∈ Finset.range (i + d'), (if j < i + d then B j else 0) *ᵥ y ω j = ∑ j ∈ Finset.range (i + d), B j *ᵥ y ω j := fun ω => by
    rw [← Finset.sum_subset (Finset.range_mono (show i + d ≤ i + d' by omega))]
    · exact Finset.sum_congr rfl fun j hj => by rw [if_pos (Finset.mem_range.1 hj)]
    · intro j _ hj
      rw [Finset.mem_range] at hj
      simp [hj]
  simp only [e, ← hB] at h1
  refine h1.trans (le_of_eq ?_)
  have h2 := Path.quad_cross (hp.sq_serr d i) u
  rw [hp.cov_serr hL] at h2
  exact h2.symm

theorem withSensors_path {k' : ℕ} {x q : ℕ → Ω → Fin n → ℝ} {r : ℕ → Ω → Fin k → ℝ} {y : Ω → ℕ → Fin k → ℝ} (h : L.Path ℙ x q r y) (s : Fin k' → Fin k) :
    (L.withSensors s).Path ℙ x q (fun j ω => r j ω ∘ s) fun ω j => y ω j ∘ s := by
  have c1 : ∀ j {l : ℕ} (Z : Ω → Fin l → ℝ), cross ℙ (r j) Z = 0 → cross ℙ (fun ω => r j ω ∘ s) Z = 0 := fun j l Z hZ => by
    ext a b
    exact congrFun (congrFun hZ (s a)) b
  refine ⟨h.state, fun i ω => ?_, h.sq_x, h.sq_q, fun i a => h.sq_r i (s a), h.mean_x, h.mean_q, fun i => c1 i _ (h.mean_r i), h.cov_x, h.cov_q,
    fun i => ?_, h.xq, fun i => c1 i _ (h.xr i), h.qq, fun i j hij => c1 i _ ?_, fun i j => ?_⟩
  · rw [h.meas]; rfl
  · ext a b
    exact congrFun (congrFun (h.cov_r i) (s a)) (s b)
  · exact Path.cross_zero_comm (c1 j _ (Path.cross_zero_comm (h.rr i j hij)))
  · exact Path.cross_zero_comm (c1 j _ (Path.cross_zero_comm (h.qr i j)))

/-- Recording more components of the measurements leads to smaller reported covariances. -/
theorem Good.sensors {k' : ℕ} (hL : L.Good) {s : Fin k' → Fin k} (hL' : (L.withSensors s).Good) (d i : ℕ) :
    Below (StateSpace.smth L 0 i d).2 ((L.withSensors s).smth 0 i d).2 := by
  intro u
  obtain ⟨x, q, r, y, hp⟩ := hL.exists_path
  have hp' := withSensors_path hp s
  obtain ⟨β, B, hB⟩ := (L.withSensors s).smth_affine d i
  have h1 := hp.best hL d i β (fun j => B j * (1 : Matrix (Fin k) (Fin k) ℝ).submatrix s id) u
  have e : ∀ v : Fin k → ℝ, (1 : Matrix (Fin k) (Fin k) ℝ).submatrix s id *ᵥ v = v ∘ s := fun v => by
    ext a
    simp [mulVec, dotProduct, Matrix.one_apply]
  simp only [← mulVec_mulVec, e] at h1
  simp only [← hB fun j => _ ∘ s] at h1
  refine h1.trans (le_of_eq ?_)
  have h2 := Path.quad_cross (hp'.sq_serr d i) u
  rw [hp'.cov_serr hL'] at h2
  exact h2.symm

end StateSpace
end Verif

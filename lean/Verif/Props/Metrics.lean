import Verif.Spec.Metrics
import Verif.Model.Sweep
import Verif.Lemmas.GaussOps
import Verif.Lemmas.Transforms
import Verif.Lemmas.Scalar

/-!
# Metrics and `select_transform`: C58–C60, C64
-/

namespace Verif

open Matrix

/-! ## C58 -/

theorem sqDist_eq_zero {n : ℕ} {x y : Fin n → ℝ} : sqDist x y = 0 ↔ x = y := by
  unfold sqDist
  rw [Finset.sum_eq_zero_iff_of_nonneg fun i _ => sq_nonneg _]
  simp only [Finset.mem_univ, true_implies, sq_eq_zero_iff, sub_eq_zero]
  exact funext_iff.symm

theorem sqDist_nonneg {n : ℕ} (x y : Fin n → ℝ) : 0 ≤ sqDist x y := Finset.sum_nonneg fun _ _ => sq_nonneg _

/-- **C58.** `squared_error` is the squared Euclidean distance between mean and argument. -/
theorem C58_squared_error {env : Env} {n : ℕ} {g : Gaussian} {a b : Arr} {μ x : Fin n → ℝ} (hg : g.meanA env = .ok a)
    (ha : IsPoint a μ) (hb : IsPoint b x) : g.squaredError env b = .ok (sqDist μ x) := by
  have hs : ((List.ofFn fun j => μ j - x j).map (· ^ 2)).sum = sqDist μ x := by
    rw [List.map_ofFn, List.sum_ofFn]; rfl
  unfold Gaussian.squaredError
  rw [hg, ok_bind]
  rcases ha with rfl | rfl <;> rcases hb with rfl | rfl
  · simp only [Arr.sub_vv, ok_bind, py_pure, Arr.entries]
    exact congrArg _ hs
  · simp only [Arr.sub_vm, ok_bind, py_pure, Arr.entries, List.ofFn_succ, List.ofFn_zero, List.flatten_cons, List.flatten_nil,
      List.append_nil]
    exact congrArg _ hs
  · simp only [Arr.sub_mv, ok_bind, py_pure, Arr.entries, List.ofFn_succ, List.ofFn_zero, List.flatten_cons, List.flatten_nil,
      List.append_nil]
    exact congrArg _ hs
  · simp only [Arr.sub_mm, ok_bind, py_pure, Arr.entries, List.ofFn_succ, List.ofFn_zero, List.flatten_cons, List.flatten_nil,
      List.append_nil]
    exact congrArg _ hs

private theorem mapM_forall₂ {α β γ : Type} {f : α → Py β} {g : γ → β} {l : List α} {l' : List γ}
    (h : List.Forall₂ (fun a c => f a = .ok (g c)) l l') : l.mapM f = .ok (l'.map g) := by
  induction h with
  | nil => rfl
  | cons h1 _ ih => rw [List.mapM_cons, h1, ok_bind, ih]; rfl

/-- **C58.** `rmse` is the root of the mean squared distance over the compared pairs, as many as the shorter list has; without pairs
there is no number. -/
theorem C58_rmse {env : Env} {n : ℕ} {states : List Gaussian} {truths : List Arr} {pts : List ((Fin n → ℝ) × (Fin n → ℝ))}
    (h : Compared env states truths pts) (hne : pts ≠ []) :
    Metrics.rmse env states truths = .ok (rootMeanSq pts) ∧ pts.length = min states.length truths.length := by
  have hm : (states.zip truths).mapM (fun p => p.1.squaredError env p.2) = .ok (pts.map fun p => sqDist p.1 p.2) :=
    mapM_forall₂ (h.imp fun p q ⟨⟨a, h1, h2⟩, h3⟩ => C58_squared_error h1 h2 h3)
  refine ⟨?_, by rw [← h.length_eq, List.length_zip]⟩
  unfold Metrics.rmse Metrics.mean
  rw [hm, ok_bind, if_neg (by simpa using hne)]
  simp [rootMeanSq]

/-- **C58.** It is zero iff every compared mean is the true state. -/
theorem C58_zero_iff {env : Env} {n : ℕ} {states : List Gaussian} {truths : List Arr} {pts : List ((Fin n → ℝ) × (Fin n → ℝ))}
    (h : Compared env states truths pts) (hne : pts ≠ []) :
    Metrics.rmse env states truths = .ok 0 ↔ ∀ p ∈ pts, p.1 = p.2 := by
  rw [(C58_rmse h hne).1]
  have hlen : (0 : ℝ) < pts.length := by exact_mod_cast List.length_pos_iff.2 hne
  have hnn : 0 ≤ (pts.map fun p => sqDist p.1 p.2).sum := List.sum_nonneg (by
    intro x hx
    obtain ⟨p, _, rfl⟩ := List.mem_map.1 hx
    exact sqDist_nonneg _ _)
  rw [Except.ok.injEq, rootMeanSq, Real.sqrt_eq_zero (div_nonneg hnn hlen.le), div_eq_zero_iff, or_iff_left hlen.ne']
  constructor
  · intro h0 p hp
    have : sqDist p.1 p.2 ≤ 0 := h0 ▸ List.single_le_sum (by
      intro x hx
      obtain ⟨p, _, rfl⟩ := List.mem_map.1 hx
      exact sqDist_nonneg _ _) _ (List.mem_map_of_mem hp)
    exact sqDist_eq_zero.1 (le_antisymm this (sqDist_nonneg _ _))
  · intro h0
    refine List.sum_eq_zero fun x hx => ?_
    obtain ⟨p, hp, rfl⟩ := List.mem_map.1 hx
    exact sqDist_eq_zero.2 (h0 p hp)

/-- **C58.** The order of the pairs does not matter. -/
theorem C58_order {env : Env} {n : ℕ} {states states' : List Gaussian} {truths truths' : List Arr}
    {pts : List ((Fin n → ℝ) × (Fin n → ℝ))} (h : Compared env states truths pts) (hne : pts ≠ [])
    (hp : (states.zip truths).Perm (states'.zip truths')) :
    Metrics.rmse env states' truths' = Metrics.rmse env states truths := by
  obtain ⟨pts', h1, h2⟩ := List.perm_comp_forall₂ hp.symm h
  have hne' : pts' ≠ [] := fun e => hne (by rw [e] at h2; exact List.nil_perm.1 h2)
  rw [(C58_rmse h hne).1, (C58_rmse (pts := pts') h1 hne').1]
  unfold rootMeanSq
  rw [(h2.map _).sum_eq, h2.length_eq]

/-- **C58.** A true state given as a column is compared with every component of the mean: the error is the sum over all pairs of
components, which is positive even for a perfect estimate with two different components. -/
theorem C58_column_truth {env : Env} {n : ℕ} {g : Gaussian} {μ x : Fin n → ℝ} (hg : g.meanA env = .ok (.v μ)) :
    g.squaredError env (.m (of fun i (_ : Fin 1) => x i)) = .ok (∑ i, ∑ j, (μ j - x i) ^ 2) := by
  unfold Gaussian.squaredError
  rw [hg, ok_bind]
  obtain ⟨M, hM, hM'⟩ : ∃ M : Matrix (Fin n) (Fin n) ℝ, (Arr.v μ).sub (.m (of fun i (_ : Fin 1) => x i)) = .ok (.m M) ∧
      ∀ i j, M i j = μ j - x i := by
    unfold Arr.sub Arr.zip
    have h1 : Arr.bdim (Arr.v μ).rows (Arr.m (of fun i (_ : Fin 1) => x i)).rows = some n := by
      simp only [Arr.rows, Arr.bdim]
      by_cases h : 1 = n <;> simp [h]
    have h2 : Arr.bdim (Arr.v μ).cols (Arr.m (of fun i (_ : Fin 1) => x i)).cols = some n := by
      simp only [Arr.cols, Arr.bdim]
      by_cases h : n = 1 <;> simp [h]
    rw [h1, h2]
    refine ⟨_, rfl, fun i j => ?_⟩
    simp [Arr.bget, Nat.mod_eq_of_lt i.2, Nat.mod_eq_of_lt j.2, Nat.mod_one]
  rw [hM, ok_bind]
  simp only [Arr.entries, py_pure]
  congr 1
  rw [List.map_flatten, List.sum_flatten, List.map_map, List.map_ofFn, List.sum_ofFn]
  refine Finset.sum_congr rfl fun i _ => ?_
  simp [List.map_ofFn, List.sum_ofFn, hM']

-- two states, three truths: only two pairs count
example : Metrics.rmse calmEnv [sG 1 1, sG 4 2] [.v (v1 2), .m (of fun _ : Fin 1 => v1 3), .s 0] = .ok 1 := by
  have h : Compared calmEnv [sG 1 1, sG 4 2] [.v (v1 2), .m (of fun _ : Fin 1 => v1 3), .s 0] [(v1 1, v1 2), (v1 4, v1 3)] :=
    .cons ⟨⟨_, (sG_moments calmEnv 1 1).meanA, .inl rfl⟩, .inl rfl⟩
      (.cons ⟨⟨_, (sG_moments calmEnv 4 2).meanA, .inl rfl⟩, .inr rfl⟩ .nil)
  rw [(C58_rmse h (by simp)).1]
  congr 1
  simp [rootMeanSq, sqDist, v1]
  norm_num

/-! ## C59 -/

private theorem toUpper_toLower (c : Char) : c.toLower.toUpper = c.toUpper := by
  apply Char.ext
  apply UInt32.toNat.inj
  have hA : 'A'.val.toNat = 65 := rfl
  have hZ : 'Z'.val.toNat = 90 := rfl
  have ha : 'a'.val.toNat = 97 := rfl
  have hz : 'z'.val.toNat = 122 := rfl
  have h1 : ('a'.val - 'A'.val).toNat = 32 := rfl
  have h2 : ('A'.val - 'a'.val).toNat = 4294967264 := rfl
  by_cases hU : c.val ≥ 'A'.val ∧ c.val ≤ 'Z'.val
  · have e : c.toLower.val = c.val + ('a'.val - 'A'.val) := by unfold Char.toLower; rw [dif_pos hU]
    have hU' := hU
    simp only [GE.ge, UInt32.le_iff_toNat_le, hA, hZ] at hU'
    have en : c.toLower.val.toNat = c.val.toNat + 32 := by
      rw [e, UInt32.toNat_add, h1]; omega
    have hl : 'a'.val ≤ c.toLower.val ∧ c.toLower.val ≤ 'z'.val := by
      simp only [UInt32.le_iff_toNat_le, ha, hz, en]; omega
    have hn : ¬ ('a'.val ≤ c.val ∧ c.val ≤ 'z'.val) := by
      simp only [UInt32.le_iff_toNat_le, ha, hz]; omega
    have e2 : c.toLower.toUpper.val = c.toLower.val + ('A'.val - 'a'.val) := by
      rw [Char.toUpper, dif_pos hl]
    have e3 : c.toUpper = c := by rw [Char.toUpper, dif_neg hn]
    rw [e2, e3, UInt32.toNat_add, h2, en]; omega
  · have e : c.toLower = c := by unfold Char.toLower; rw [dif_neg hU]
    rw [e]

private theorem toLower_toUpper (c : Char) : c.toUpper.toLower = c.toLower := by
  apply Char.ext
  apply UInt32.toNat.inj
  have hA : 'A'.val.toNat = 65 := rfl
  have hZ : 'Z'.val.toNat = 90 := rfl
  have ha : 'a'.val.toNat = 97 := rfl
  have hz : 'z'.val.toNat = 122 := rfl
  have h1 : ('a'.val - 'A'.val).toNat = 32 := rfl
  have h2 : ('A'.val - 'a'.val).toNat = 4294967264 := rfl
  by_cases hU : 'a'.val ≤ c.val ∧ c.val ≤ 'z'.val
  · have e : c.toUpper.val = c.val + ('A'.val - 'a'.val) := by unfold Char.toUpper; rw [dif_pos hU]
    have hU' := hU
    simp only [UInt32.le_iff_toNat_le, ha, hz] at hU'
    have en : c.toUpper.val.toNat = c.val.toNat - 32 := by
      rw [e, UInt32.toNat_add, h2]; omega
    have hl : c.toUpper.val ≥ 'A'.val ∧ c.toUpper.val ≤ 'Z'.val := by
      simp only [GE.ge, UInt32.le_iff_toNat_le, hA, hZ, en]; omega
    have hn : ¬ (c.val ≥ 'A'.val ∧ c.val ≤ 'Z'.val) := by
      simp only [GE.ge, UInt32.le_iff_toNat_le, hA, hZ]; omega
    have e2 : c.toUpper.toLower.val = c.toUpper.val + ('a'.val - 'A'.val) := by
      rw [Char.toLower, dif_pos hl]
    have e3 : c.toLower = c := by rw [Char.toLower, dif_neg hn]
    rw [e2, e3, UInt32.toNat_add, h1, en]; omega
  · have e : c.toUpper = c := by unfold Char.toUpper; rw [dif_neg hU]
    rw [e]

/-- Two strings that differ at most in the case of ASCII letters. -/
def SameLetters (a b : String) : Prop := a.toList.map Char.toLower = b.toList.map Char.toLower

private theorem upper_eq_iff (a b : String) : upper a = upper b ↔ SameLetters a b := by
  have key : ∀ (f g : Char → Char), (∀ c, g (f c) = g c) → ∀ l l' : List Char, l.map f = l'.map f → l.map g = l'.map g := by
    intro f g h l l' e
    have := congrArg (List.map g) e
    simpa [List.map_map, Function.comp_def, h] using this
  unfold upper SameLetters
  constructor
  · intro h
    refine key _ _ toLower_toUpper _ _ ?_
    have := congrArg String.toList h
    simpa using this
  · intro h
    rw [key _ _ toUpper_toLower _ _ h]

private theorem ut_init_ok (dim : ℕ) (k : ℝ) (hk : 0 < k) : ∃ u, UT.init dim 1 2 k = .ok u ∧ u.n = dim := by
  refine ⟨_, if_neg ?_, rfl⟩
  have : (0 : ℝ) ≤ dim := Nat.cast_nonneg _
  intro h
  linarith

/-- **C59.** Upper and lower case make no difference. -/
theorem C59_case_insensitive (a b : String) (dim samples : ℕ) (h : SameLetters a b) :
    selectTransform a dim samples = selectTransform b dim samples := by
  unfold selectTransform
  rw [(upper_eq_iff a b).2 h]

/-- **C59.** Every identifier gives a pair of transforms of the requested dimension: Taylor for `tt`, Monte Carlo with the requested
number of samples for `mct`, unscented for everything else. -/
theorem C59_total (id : String) (dim samples : ℕ) :
    (SameLetters id "TT" → selectTransform id dim samples = .ok (.taylor dim, .taylor dim)) ∧
    (SameLetters id "MCT" → selectTransform id dim samples = .ok (.mc dim samples, .mc dim samples)) ∧
    (¬ SameLetters id "TT" → ¬ SameLetters id "MCT" → ∃ u w, UT.init dim 1 2 3 = .ok u ∧ UT.init dim 1 2 2 = .ok w ∧
      u.n = dim ∧ w.n = dim ∧ selectTransform id dim samples = .ok (.ut u, .ut w)) := by
  have hUT : upper "UT" = "UT" := by decide
  have hTT : upper "TT" = "TT" := by decide
  have hMC : upper "MCT" = "MCT" := by decide
  refine ⟨fun h => ?_, fun h => ?_, fun h1 h2 => ?_⟩
  · rw [C59_case_insensitive _ _ _ _ h]
    simp [selectTransform, hTT]
  · rw [C59_case_insensitive _ _ _ _ h]
    simp [selectTransform, hMC]
  · obtain ⟨u, hu, hun⟩ := ut_init_ok dim 3 (by norm_num)
    obtain ⟨w, hw, hwn⟩ := ut_init_ok dim 2 (by norm_num)
    refine ⟨u, w, hu, hw, hun, hwn, ?_⟩
    rw [← upper_eq_iff, hTT] at h1
    rw [← upper_eq_iff, hMC] at h2
    unfold selectTransform
    simp [h1, h2, hu, hw]

example : SameLetters "mCt" "MCT" ∧ ¬ SameLetters "foo" "TT" ∧ ¬ SameLetters "foo" "MCT" := by
  refine ⟨?_, ?_, ?_⟩ <;> · unfold SameLetters; decide

/-! ## C60 -/

/-- Five-dimensional states with their moments. -/
def Moments5 (env : Env) (st : List (Gaussian × (Fin 5 → ℝ) × Matrix (Fin 5) (Fin 5) ℝ)) : Prop :=
  ∀ p ∈ st, HasMoments env p.1 p.2.1 p.2.2

/-- The distribution of some of the components. -/
noncomputable def part {k : ℕ} (sel : Fin k → Fin 5) (p : Gaussian × (Fin 5 → ℝ) × Matrix (Fin 5) (Fin 5) ℝ) : Gaussian :=
  Gaussian.ofMoment (.v fun i => p.2.1 (sel i)) (.m (p.2.2.submatrix sel sel))

private theorem components_eq {env : Env} {item : Arr → ℕ → Py ℝ} {st : List (Gaussian × (Fin 5 → ℝ) × Matrix (Fin 5) (Fin 5) ℝ)}
    (hst : Moments5 env st) {truths : List Arr} {xs : List (Fin 5 → ℝ)}
    (hx : List.Forall₂ (fun a x => ∀ i : Fin 5, item a i = .ok (x i)) truths xs) :
    Metrics.components env item (st.map Prod.fst) truths = (do
      let pr ← Metrics.rmse env (st.map (part ![0, 2])) (xs.map fun x => .v ![x 0, x 2])
      let pn ← Metrics.nll env (st.map (part ![0, 2])) (xs.map fun x => .v ![x 0, x 2])
      let vr ← Metrics.rmse env (st.map (part ![1, 3])) (xs.map fun x => .v ![x 1, x 3])
      let vn ← Metrics.nll env (st.map (part ![1, 3])) (xs.map fun x => .v ![x 1, x 3])
      let ar ← Metrics.rmse env (st.map (part ![4])) (xs.map fun x => .v ![x 4])
      let an ← Metrics.nll env (st.map (part ![4])) (xs.map fun x => .v ![x 4])
      return ⟨pr, pn, vr, vn, ar, an⟩) := by
  have hmean : (st.map Prod.fst).mapM (fun s => s.meanA env) = .ok (st.map fun p => Arr.v p.2.1) := by
    refine mapM_forall₂ (List.forall₂_map_left_iff.2 (List.forall₂_same.2 fun p hp => (hst p hp).meanA))
  have hcov : (st.map Prod.fst).mapM (fun s => s.covA env) = .ok (st.map fun p => Arr.m p.2.2) := by
    refine mapM_forall₂ (List.forall₂_map_left_iff.2 (List.forall₂_same.2 fun p hp => (hst p hp).covA))
  have hzip : (st.map fun p => Arr.v p.2.1).zip (st.map fun p => Arr.m p.2.2) = st.map fun p => (Arr.v p.2.1, Arr.m p.2.2) := by
    rw [List.zip_map']
  have hpair : ∀ i j : Fin 5, (st.map fun p => (Arr.v p.2.1, Arr.m p.2.2)).mapM (fun p => Metrics.pairState i j p.1 p.2) =
      .ok (st.map (part ![i, j])) := fun i j => by
    refine mapM_forall₂ (List.forall₂_map_left_iff.2 (List.forall₂_same.2 fun p hp => ?_))
    simp only [Metrics.pairState, Metrics.vecItem, Metrics.matItem, i.2, j.2, and_self, dif_pos, ok_bind, py_pure, part]
    congr 3
    · funext k; fin_cases k <;> rfl
    · ext k l; fin_cases k <;> fin_cases l <;> rfl
  have hsing : ∀ i : Fin 5, (st.map fun p => (Arr.v p.2.1, Arr.m p.2.2)).mapM (fun p => Metrics.singleState i p.1 p.2) =
      .ok (st.map (part ![i])) := fun i => by
    refine mapM_forall₂ (List.forall₂_map_left_iff.2 (List.forall₂_same.2 fun p hp => ?_))
    simp only [Metrics.singleState, Metrics.vecItem, Metrics.matItem, i.2, and_self, dif_pos, ok_bind, py_pure, part]
    congr 3
    · funext k; fin_cases k; rfl
    · ext k l; fin_cases k; fin_cases l; rfl
  have ht2 : ∀ i j : Fin 5, truths.mapM (fun x => do return Arr.v ![← item x i, ← item x j]) =
      .ok (xs.map fun x => .v ![x i, x j]) := fun i j => by
    refine mapM_forall₂ (hx.imp fun a x h => ?_)
    simp only [h i, h j, ok_bind, py_pure]
  have ht1 : ∀ i : Fin 5, truths.mapM (fun x => do return Arr.v ![← item x i]) = .ok (xs.map fun x => .v ![x i]) := fun i => by
    refine mapM_forall₂ (hx.imp fun a x h => ?_)
    simp only [h i, ok_bind, py_pure]
  unfold Metrics.components
  have p02 := hpair 0 2
  have p13 := hpair 1 3
  have s4 := hsing 4
  have t02 := ht2 0 2
  have t13 := ht2 1 3
  have t4 := ht1 4
  simp only [show ((0 : Fin 5) : ℕ) = 0 from rfl, show ((1 : Fin 5) : ℕ) = 1 from rfl, show ((2 : Fin 5) : ℕ) = 2 from rfl,
    show ((3 : Fin 5) : ℕ) = 3 from rfl, show ((4 : Fin 5) : ℕ) = 4 from rfl] at p02 p13 s4 t02 t13 t4
  simp only [hmean, hcov, ok_bind, hzip, p02, p13, s4, t02, t13, t4]

private theorem components_ok {env : Env} {item : Arr → ℕ → Py ℝ} {st : List (Gaussian × (Fin 5 → ℝ) × Matrix (Fin 5) (Fin 5) ℝ)}
    (hst : Moments5 env st) {truths : List Arr} {xs : List (Fin 5 → ℝ)}
    (hx : List.Forall₂ (fun a x => ∀ i : Fin 5, item a i = .ok (x i)) truths xs) {c : Metrics.Components}
    (h : Metrics.components env item (st.map Prod.fst) truths = .ok c) :
    Metrics.rmse env (st.map (part ![0, 2])) (xs.map fun x => .v ![x 0, x 2]) = .ok c.posRmse ∧
    Metrics.nll env (st.map (part ![0, 2])) (xs.map fun x => .v ![x 0, x 2]) = .ok c.posNll ∧
    Metrics.rmse env (st.map (part ![1, 3])) (xs.map fun x => .v ![x 1, x 3]) = .ok c.velRmse ∧
    Metrics.nll env (st.map (part ![1, 3])) (xs.map fun x => .v ![x 1, x 3]) = .ok c.velNll ∧
    Metrics.rmse env (st.map (part ![4])) (xs.map fun x => .v ![x 4]) = .ok c.angRmse ∧
    Metrics.nll env (st.map (part ![4])) (xs.map fun x => .v ![x 4]) = .ok c.angNll := by
  rw [components_eq hst hx] at h
  obtain ⟨a, h1, h⟩ := py_bind_ok h
  obtain ⟨b, h2, h⟩ := py_bind_ok h
  obtain ⟨d, h3, h⟩ := py_bind_ok h
  obtain ⟨e, h4, h⟩ := py_bind_ok h
  obtain ⟨f, h5, h⟩ := py_bind_ok h
  obtain ⟨g, h6, h⟩ := py_bind_ok h
  cases h
  exact ⟨h1, h2, h3, h4, h5, h6⟩

private theorem compared_part {env : Env} {k : ℕ} (sel : Fin k → Fin 5)
    (st : List (Gaussian × (Fin 5 → ℝ) × Matrix (Fin 5) (Fin 5) ℝ)) (xs : List (Fin 5 → ℝ)) :
    Compared env (st.map (part sel)) (xs.map fun x => .v fun i => x (sel i))
      ((st.zip xs).map fun p => (fun i => p.1.2.1 (sel i), fun i => p.2 (sel i))) := by
  unfold Compared
  rw [List.zip_map, List.forall₂_map_left_iff, List.forall₂_map_right_iff]
  exact List.forall₂_same.2 fun p _ => ⟨⟨_, (hasMoments_ofMoment env _ _).meanA, .inl rfl⟩, .inl rfl⟩

private theorem rootMeanSq_split (l : List ((Fin 5 → ℝ) × (Fin 5 → ℝ))) :
    rootMeanSq (l.map fun p => ((fun i => p.1 (![0, 2] i)), fun i => p.2 (![0, 2] i))) ^ 2 +
      rootMeanSq (l.map fun p => ((fun i => p.1 (![1, 3] i)), fun i => p.2 (![1, 3] i))) ^ 2 +
      rootMeanSq (l.map fun p => ((fun i => p.1 (![4] i)), fun i => p.2 (![4] i))) ^ 2 = rootMeanSq l ^ 2 := by
  have hnn : ∀ {k : ℕ} (m : List ((Fin k → ℝ) × (Fin k → ℝ))), rootMeanSq m ^ 2 = (m.map fun p => sqDist p.1 p.2).sum / m.length := by
    intro k m
    refine Real.sq_sqrt (div_nonneg (List.sum_nonneg ?_) (Nat.cast_nonneg _))
    intro x hx
    obtain ⟨p, _, rfl⟩ := List.mem_map.1 hx
    exact sqDist_nonneg _ _
  rw [hnn, hnn, hnn, hnn]
  simp only [List.length_map, ← add_div, List.map_map]
  congr 1
  induction l with
  | nil => simp
  | cons p l ih =>
    simp only [List.map_cons, List.sum_cons, Function.comp_apply] at ih ⊢
    rw [← ih]
    simp only [sqDist, Fin.sum_univ_succ, Fin.sum_univ_zero]
    simp
    ring

private theorem pythagoras {env : Env} {st : List (Gaussian × (Fin 5 → ℝ) × Matrix (Fin 5) (Fin 5) ℝ)} (hst : Moments5 env st)
    (xs : List (Fin 5 → ℝ)) (truth : (Fin 5 → ℝ) → Arr) (htruth : ∀ x, IsPoint (truth x) x) {a b d : ℝ}
    (h1 : Metrics.rmse env (st.map (part ![0, 2])) (xs.map fun x => .v ![x 0, x 2]) = .ok a)
    (h2 : Metrics.rmse env (st.map (part ![1, 3])) (xs.map fun x => .v ![x 1, x 3]) = .ok b)
    (h3 : Metrics.rmse env (st.map (part ![4])) (xs.map fun x => .v ![x 4]) = .ok d) :
    Metrics.rmse env (st.map Prod.fst) (xs.map truth) = .ok (Real.sqrt (a ^ 2 + b ^ 2 + d ^ 2)) := by
  have e02 : (fun x : Fin 5 → ℝ => Arr.v ![x 0, x 2]) = fun x => .v fun i => x (![0, 2] i) := by
    funext x; congr 1; funext i; fin_cases i <;> rfl
  have e13 : (fun x : Fin 5 → ℝ => Arr.v ![x 1, x 3]) = fun x => .v fun i => x (![1, 3] i) := by
    funext x; congr 1; funext i; fin_cases i <;> rfl
  have e4 : (fun x : Fin 5 → ℝ => Arr.v ![x 4]) = fun x => .v fun i => x (![4] i) := by
    funext x; congr 1; funext i; fin_cases i; rfl
  by_cases hnil : st.zip xs = []
  · exfalso
    have : Metrics.rmse env (st.map (part ![0, 2])) (xs.map fun x => .v ![x 0, x 2]) = .error .outOfModel := by
      simp [Metrics.rmse, List.zip_map, hnil, Metrics.mean]
    rw [this] at h1
    simp at h1
  rw [e02, (C58_rmse (compared_part ![0, 2] st xs) (by simpa using hnil)).1] at h1
  rw [e13, (C58_rmse (compared_part ![1, 3] st xs) (by simpa using hnil)).1] at h2
  rw [e4, (C58_rmse (compared_part ![4] st xs) (by simpa using hnil)).1] at h3
  have hc : Compared env (st.map Prod.fst) (xs.map truth) ((st.zip xs).map fun p => (p.1.2.1, p.2)) := by
    unfold Compared
    rw [List.zip_map, List.forall₂_map_left_iff, List.forall₂_map_right_iff]
    exact List.forall₂_same.2 fun p hp => ⟨⟨_, (hst p.1 (List.of_mem_zip hp).1).meanA, .inl rfl⟩, htruth _⟩
  have key := rootMeanSq_split ((st.zip xs).map fun p => (p.1.2.1, p.2))
  simp only [List.map_map, Function.comp_def] at key
  rw [Except.ok.inj h1, Except.ok.inj h2, Except.ok.inj h3] at key
  rw [(C58_rmse hc (by simpa using hnil)).1, key, Real.sqrt_sq (show 0 ≤ rootMeanSq _ from Real.sqrt_nonneg _)]

/-- **C60.** The metrics of the iterated smoother experiment are those of the distributions of the components (0, 2), (1, 3) and (4), and
the squared component errors add up to the squared error of the whole state. -/
theorem C60_componentwise {env : Env} {st : List (Gaussian × (Fin 5 → ℝ) × Matrix (Fin 5) (Fin 5) ℝ)} (hst : Moments5 env st)
    (xs : List (Fin 5 → ℝ)) {c : Metrics.Components}
    (h : Metrics.componentwiseMetrics env (st.map Prod.fst) (xs.map Arr.v) = .ok c) :
    (Metrics.rmse env (st.map (part ![0, 2])) (xs.map fun x => .v ![x 0, x 2]) = .ok c.posRmse ∧
    Metrics.nll env (st.map (part ![0, 2])) (xs.map fun x => .v ![x 0, x 2]) = .ok c.posNll ∧
    Metrics.rmse env (st.map (part ![1, 3])) (xs.map fun x => .v ![x 1, x 3]) = .ok c.velRmse ∧
    Metrics.nll env (st.map (part ![1, 3])) (xs.map fun x => .v ![x 1, x 3]) = .ok c.velNll ∧
    Metrics.rmse env (st.map (part ![4])) (xs.map fun x => .v ![x 4]) = .ok c.angRmse ∧
    Metrics.nll env (st.map (part ![4])) (xs.map fun x => .v ![x 4]) = .ok c.angNll) ∧
    Metrics.rmse env (st.map Prod.fst) (xs.map Arr.v) = .ok (Real.sqrt (c.posRmse ^ 2 + c.velRmse ^ 2 + c.angRmse ^ 2)) := by
  have hx : List.Forall₂ (fun a x => ∀ i : Fin 5, Metrics.vecItem a i = .ok (x i)) (xs.map Arr.v) xs :=
    List.forall₂_map_left_iff.2 (List.forall₂_same.2 fun x _ i => dif_pos i.2)
  have hc := components_ok hst hx h
  exact ⟨hc, pythagoras hst xs Arr.v (fun x => .inl rfl) hc.1 hc.2.2.1 hc.2.2.2.2.1⟩

/-- **C60.** Conversely they exist as soon as each of the six numbers exists. -/
theorem C60_defined {env : Env} {st : List (Gaussian × (Fin 5 → ℝ) × Matrix (Fin 5) (Fin 5) ℝ)} (hst : Moments5 env st)
    (xs : List (Fin 5 → ℝ)) {pr pn vr vn ar an : ℝ}
    (h1 : Metrics.rmse env (st.map (part ![0, 2])) (xs.map fun x => .v ![x 0, x 2]) = .ok pr)
    (h2 : Metrics.nll env (st.map (part ![0, 2])) (xs.map fun x => .v ![x 0, x 2]) = .ok pn)
    (h3 : Metrics.rmse env (st.map (part ![1, 3])) (xs.map fun x => .v ![x 1, x 3]) = .ok vr)
    (h4 : Metrics.nll env (st.map (part ![1, 3])) (xs.map fun x => .v ![x 1, x 3]) = .ok vn)
    (h5 : Metrics.rmse env (st.map (part ![4])) (xs.map fun x => .v ![x 4]) = .ok ar)
    (h6 : Metrics.nll env (st.map (part ![4])) (xs.map fun x => .v ![x 4]) = .ok an) :
    Metrics.componentwiseMetrics env (st.map Prod.fst) (xs.map Arr.v) = .ok ⟨pr, pn, vr, vn, ar, an⟩ := by
  have hx : List.Forall₂ (fun a x => ∀ i : Fin 5, Metrics.vecItem a i = .ok (x i)) (xs.map Arr.v) xs :=
    List.forall₂_map_left_iff.2 (List.forall₂_same.2 fun x _ i => dif_pos i.2)
  unfold Metrics.componentwiseMetrics
  rw [components_eq hst hx, h1, h2, h3, h4, h5, h6]
  rfl

/-- **C60.** The same for the EP experiment, where true states are arrays with one row. -/
theorem C60_bearings {env : Env} {heap : Heap} {nodes : List Ref} {st : List (Gaussian × (Fin 5 → ℝ) × Matrix (Fin 5) (Fin 5) ℝ)}
    (hst : Moments5 env st) (hn : (nodes.map fun r => (heap.get r).marginal) = st.map Prod.fst)
    (xs : List (Fin 5 → ℝ)) {c : Metrics.Components}
    (h : Metrics.bearingMetrics env heap nodes (xs.map fun x => .m (of fun _ : Fin 1 => x)) = .ok c) :
    (Metrics.rmse env (st.map (part ![0, 2])) (xs.map fun x => .v ![x 0, x 2]) = .ok c.posRmse ∧
    Metrics.nll env (st.map (part ![0, 2])) (xs.map fun x => .v ![x 0, x 2]) = .ok c.posNll ∧
    Metrics.rmse env (st.map (part ![1, 3])) (xs.map fun x => .v ![x 1, x 3]) = .ok c.velRmse ∧
    Metrics.nll env (st.map (part ![1, 3])) (xs.map fun x => .v ![x 1, x 3]) = .ok c.velNll ∧
    Metrics.rmse env (st.map (part ![4])) (xs.map fun x => .v ![x 4]) = .ok c.angRmse ∧
    Metrics.nll env (st.map (part ![4])) (xs.map fun x => .v ![x 4]) = .ok c.angNll) ∧
    Metrics.rmse env (nodes.map fun r => (heap.get r).marginal) (xs.map fun x => .m (of fun _ : Fin 1 => x)) =
      .ok (Real.sqrt (c.posRmse ^ 2 + c.velRmse ^ 2 + c.angRmse ^ 2)) := by
  unfold Metrics.bearingMetrics at h
  rw [hn] at h ⊢
  have hx : List.Forall₂ (fun a x => ∀ i : Fin 5, Metrics.matItem a 0 i = .ok (x i))
      (xs.map fun x => .m (of fun _ : Fin 1 => x)) xs :=
    List.forall₂_map_left_iff.2 (List.forall₂_same.2 fun x _ i => dif_pos ⟨Nat.one_pos, i.2⟩)
  have hc := components_ok hst hx h
  exact ⟨hc, pythagoras hst xs _ (fun x => .inr rfl) hc.1 hc.2.2.1 hc.2.2.2.2.1⟩

end Verif

import Verif.Model.Plot
import Verif.Lemmas.Combination
import Verif.Spec.Plot
import Verif.Lemmas.Band
import Verif.Props.Calibrate

/-!
# Plotted bands: C92, and averages over runs: C93
-/

namespace Verif

open Matrix MeasureTheory StateSpace

variable {env : Env} {n k : ℕ}

/-! ## What is drawn -/

section Drawn

theorem mapM_index {α β : Type} {f : α → Py β} : ∀ {l : List α} {g : ℕ → β}, (∀ i a, l[i]? = some a → f a = .ok (g i)) →
    l.mapM f = .ok ((List.range l.length).map g)
  | [], _, _ => rfl
  | a :: l, g, h => by
    rw [List.mapM_cons, h 0 a rfl, ok_bind, mapM_index (g := fun i => g (i + 1)) fun i b hb => h (i + 1) b (by simpa using hb), ok_bind, py_pure,
      List.length_cons, List.range_succ_eq_map, List.map_cons, List.map_map]
    rfl

private theorem stack_ok {α : Type} {size : α → List ℕ} {s : List ℕ} {l : List α} (h : ∀ a ∈ l, size a = s) : Plot.stack size l = .ok () := by
  cases l with
  | nil => rfl
  | cons a l => exact if_pos fun b hb => by rw [h b (by simp [hb]), h a (by simp)]

private theorem meanRows_ok (m : ℕ → Fin n → ℝ) : ∀ l : List ℕ, Plot.meanRows (l.map fun i => Arr.v (m i)) = .ok (l.map fun i => List.ofFn (m i))
  | [] => rfl
  | i :: l => by
    rw [List.map_cons, Plot.meanRows, meanRows_ok m l, ok_bind]
    rfl

private theorem sigmaRow_ok {g : Gaussian} {C : Matrix (Fin (n + 1)) (Fin (n + 1)) ℝ} (h : g.cov env = .ok (some (.m C))) :
    Plot.sigmaRow env g = .ok ((List.ofFn (C 0)).map Plot.root) := by
  unfold Plot.sigmaRow
  rw [h, ok_bind]
  rfl

private theorem bdim_self (a : ℕ) : Arr.bdim a a = some a := if_pos rfl

private theorem column0_ok (a : ℕ) : Plot.column0 (a + 1) (a + 1) = .ok () := by rw [Plot.column0, bdim_self]; rfl

private theorem zip_range {α β γ δ : Type} (f : α → β → γ) (a : δ → α) (b : δ → β) (l : List δ) :
    List.zipWith f (l.map a) (l.map b) = l.map fun i => f (a i) (b i) := by
  induction l with
  | nil => rfl
  | cons x l ih => simp [ih]

private theorem root_ok {a : ℝ} (h : 0 ≤ a) : Plot.root a = some (Real.sqrt a) := if_neg (not_lt.2 h)

private theorem root_none {a : ℝ} (h : ¬ 0 ≤ a) : Plot.root a = none := if_pos (not_le.1 h)

/-- **C92.** The band of `plot_gaussian` for any covariances: a variance below zero leaves a gap (nan) at its time, and only there. -/
theorem C92_negative_variance {gs : List Gaussian} {m : ℕ → Fin (n + 1) → ℝ} {C : ℕ → Matrix (Fin (n + 1)) (Fin (n + 1)) ℝ} (hne : gs ≠ [])
    (h : ∀ i g, gs[i]? = some g → HasMoments env g (m i) (C i)) :
    Plot.plotGaussian env gs = .ok (.fill (List.range gs.length)
      ((List.range gs.length).map fun i => if 0 ≤ C i 0 0 then some (m i 0 - 1.96 * Real.sqrt (C i 0 0)) else none)
      ((List.range gs.length).map fun i => if 0 ≤ C i 0 0 then some (m i 0 + 1.96 * Real.sqrt (C i 0 0)) else none)) := by
  have h1 : gs.mapM (Plot.meanOf env) = .ok ((List.range gs.length).map fun i => Arr.v (m i)) := mapM_index fun i g hg => by
    unfold Plot.meanOf
    rw [(h i g hg).1, ok_bind]
    rfl
  have h2 : gs.mapM (Plot.sigmaRow env) = .ok ((List.range gs.length).map fun i => (List.ofFn (C i 0)).map Plot.root) :=
    mapM_index fun i g hg => sigmaRow_ok (h i g hg).2
  obtain ⟨N, hN⟩ : ∃ N, gs.length = N + 1 := ⟨gs.length - 1, by have := List.length_pos_iff.2 hne; omega⟩
  unfold Plot.plotGaussian
  rw [h1, ok_bind, stack_ok (s := [n + 1]) (by simp [Arr.shape]), ok_bind, h2, ok_bind, stack_ok (s := [n + 1]) (by simp), ok_bind, meanRows_ok, ok_bind]
  have e1 : ((List.range gs.length).map fun i => List.ofFn (m i)).head? = some (List.ofFn (m 0)) := by rw [hN, List.range_succ_eq_map]; rfl
  have e2 : ((List.range gs.length).map fun i => (List.ofFn (C i 0)).map Plot.root).head? = some ((List.ofFn (C 0 0)).map Plot.root) := by
    rw [hN, List.range_succ_eq_map]; rfl
  rw [e1, e2]
  simp only [List.length_ofFn, List.length_map]
  rw [column0_ok, ok_bind, py_pure, List.map_map, List.map_map, zip_range, zip_range]
  congr 2
  · refine List.map_congr_left fun i hi => ?_
    by_cases hC : 0 ≤ C i 0 0
    · simp [Plot.entry0, Plot.lower, List.ofFn_succ, root_ok hC, hC]
    · simp [Plot.entry0, Plot.lower, List.ofFn_succ, root_none hC, hC]
  · refine List.map_congr_left fun i hi => ?_
    by_cases hC : 0 ≤ C i 0 0
    · simp [Plot.entry0, Plot.upper, List.ofFn_succ, root_ok hC, hC]
    · simp [Plot.entry0, Plot.upper, List.ofFn_succ, root_none hC, hC]

/-- **C92.** The band of `plot_gaussian` at the `i`-th of the times `0, 1, …` is the mean of the first component of the `i`-th Gaussian plus and
minus 1.96 of its standard deviations; signs of the other covariances do not matter. -/
theorem C92_band {gs : List Gaussian} {m : ℕ → Fin (n + 1) → ℝ} {C : ℕ → Matrix (Fin (n + 1)) (Fin (n + 1)) ℝ} (hne : gs ≠ [])
    (h : ∀ i g, gs[i]? = some g → HasMoments env g (m i) (C i)) (hC : ∀ i < gs.length, 0 ≤ C i 0 0) :
    Plot.plotGaussian env gs = .ok (.fill (List.range gs.length)
      ((List.range gs.length).map fun i => some (m i 0 - 1.96 * Real.sqrt (C i 0 0)))
      ((List.range gs.length).map fun i => some (m i 0 + 1.96 * Real.sqrt (C i 0 0)))) := by
  rw [C92_negative_variance hne h]
  congr 2
  · exact List.map_congr_left fun i hi => if_pos (hC i (List.mem_range.1 hi))
  · exact List.map_congr_left fun i hi => if_pos (hC i (List.mem_range.1 hi))

/-- **C92.** `plot_gaussian` does not accept means of shape `(1, n)`. -/
theorem C92_row_means {gs : List Gaussian} {m : ℕ → Fin (n + 1) → ℝ} {C : ℕ → Matrix (Fin (n + 1)) (Fin (n + 1)) ℝ} (hne : gs ≠ [])
    (h : ∀ (i : ℕ) (g : Gaussian), gs[i]? = some g → g.mean env = .ok (some (.m (of fun _ : Fin 1 => m i))) ∧ g.cov env = .ok (some (.m (C i)))) :
    Plot.plotGaussian env gs = .error .value := by
  have h1 : gs.mapM (Plot.meanOf env) = .ok ((List.range gs.length).map fun i => Arr.m (of fun _ : Fin 1 => m i)) := mapM_index fun i g hg => by
    unfold Plot.meanOf
    rw [(h i g hg).1, ok_bind]
    rfl
  have h2 : gs.mapM (Plot.sigmaRow env) = .ok ((List.range gs.length).map fun i => (List.ofFn (C i 0)).map Plot.root) :=
    mapM_index fun i g hg => sigmaRow_ok (h i g hg).2
  obtain ⟨N, hN⟩ : ∃ N, gs.length = N + 1 := ⟨gs.length - 1, by have := List.length_pos_iff.2 hne; omega⟩
  unfold Plot.plotGaussian
  rw [h1, ok_bind, stack_ok (s := [1, n + 1]) (by simp [Arr.shape]), ok_bind, h2, ok_bind, stack_ok (s := [n + 1]) (by simp), ok_bind]
  rw [hN, List.range_succ_eq_map, List.map_cons]
  rfl

private theorem column0_error {a b : ℕ} : (a ≠ b → a ≠ 1 → b ≠ 1 → Plot.column0 a b = .error .value) ∧
    (a = 0 ∧ b ≤ 1 ∨ b = 0 ∧ a ≤ 1 → Plot.column0 a b = .error .index) := by
  refine ⟨fun h1 h2 h3 => by rw [Plot.column0, Arr.bdim, if_neg h1, if_neg h2, if_neg h3], fun h => ?_⟩
  obtain ⟨rfl, h⟩ | ⟨rfl, h⟩ := h
  · interval_cases b <;> rfl
  · interval_cases a <;> rfl

/-- **C92.** When means and covariances do not fit together: means of `n` components and covariances with `c` columns are a `ValueError`,
unless the numbers agree or one of them is one; an `IndexError` if there is no component. -/
theorem C92_mismatch {gs : List Gaussian} {r c : ℕ} {m : ℕ → Fin n → ℝ} {C : ℕ → Matrix (Fin (r + 1)) (Fin c) ℝ} (hne : gs ≠ [])
    (h : ∀ (i : ℕ) (g : Gaussian), gs[i]? = some g → g.mean env = .ok (some (.v (m i))) ∧ g.cov env = .ok (some (.m (C i)))) :
    (n ≠ c → n ≠ 1 → c ≠ 1 → Plot.plotGaussian env gs = .error .value) ∧
    (n = 0 ∧ c ≤ 1 ∨ c = 0 ∧ n ≤ 1 → Plot.plotGaussian env gs = .error .index) := by
  have h1 : gs.mapM (Plot.meanOf env) = .ok ((List.range gs.length).map fun i => Arr.v (m i)) := mapM_index fun i g hg => by
    unfold Plot.meanOf
    rw [(h i g hg).1, ok_bind]
    rfl
  have h2 : gs.mapM (Plot.sigmaRow env) = .ok ((List.range gs.length).map fun i => (List.ofFn (C i 0)).map Plot.root) :=
    mapM_index fun i g hg => by
      unfold Plot.sigmaRow
      rw [(h i g hg).2, ok_bind]
      rfl
  obtain ⟨N, hN⟩ : ∃ N, gs.length = N + 1 := ⟨gs.length - 1, by have := List.length_pos_iff.2 hne; omega⟩
  have e1 : ((List.range gs.length).map fun i => List.ofFn (m i)).head? = some (List.ofFn (m 0)) := by rw [hN, List.range_succ_eq_map]; rfl
  have e2 : ((List.range gs.length).map fun i => (List.ofFn (C i 0)).map Plot.root).head? = some ((List.ofFn (C 0 0)).map Plot.root) := by
    rw [hN, List.range_succ_eq_map]; rfl
  have key : ∀ e, Plot.column0 n c = .error e → Plot.plotGaussian env gs = .error e := fun e he => by
    unfold Plot.plotGaussian
    rw [h1, ok_bind, stack_ok (s := [n]) (by simp [Arr.shape]), ok_bind, h2, ok_bind, stack_ok (s := [c]) (by simp), ok_bind, meanRows_ok, ok_bind,
      e1, e2]
    simp only [List.length_ofFn, List.length_map]
    rw [he]
    rfl
  exact ⟨fun a b d => key _ (column0_error.1 a b d), fun a => key _ (column0_error.2 a)⟩

/-- A mean with two components and a covariance of size three. -/
example : Plot.plotGaussian calmEnv [Gaussian.ofMoment (.v ![1, 5]) (.m (1 : Matrix (Fin 3) (Fin 3) ℝ))] = .error .value :=
  (C92_mismatch (m := fun _ => ![1, 5]) (C := fun _ => (1 : Matrix (Fin 3) (Fin 3) ℝ)) (by simp) (fun i g hg => by
    rcases i with _ | i
    · simp at hg; subst hg; exact ⟨rfl, rfl⟩
    · simp at hg)).1 (by norm_num) (by norm_num) (by norm_num)

/-- **C92.** Nothing can be plotted for no data. -/
theorem C92_no_data (truth : Option Arr) : Plot.plotGaussian env [] = .error .index ∧ Plot.plotGaussianNode env [] truth = .error .value :=
  ⟨rfl, rfl⟩

/-- The moments of a marginal, whose mean may have the shape `(1, n)`. -/
def MarginalMoments (env : Env) (row : Bool) (g : Gaussian) (μ : Fin n → ℝ) (C : Matrix (Fin n) (Fin n) ℝ) : Prop :=
  g.mean env = .ok (some (if row then .m (of fun _ : Fin 1 => μ) else .v μ)) ∧ g.cov env = .ok (some (.m C))

private theorem entries_marginal (row : Bool) (μ : Fin n → ℝ) :
    (if row then Arr.m (of fun _ : Fin 1 => μ) else Arr.v μ).entries = List.ofFn μ := by
  cases row
  · rfl
  · simp [Arr.entries]; rfl

/-- **C92.** `plot_gaussian_node` draws at the times `1, 2, …` the means of all components of the marginals, and the same band as
`plot_gaussian` for the first component, for means of shape `(n,)` and `(1, n)` alike.  True states are drawn over the same times. -/
theorem C92_node_band {nodes : List Node} {row : Bool} {m : ℕ → Fin (n + 1) → ℝ} {C : ℕ → Matrix (Fin (n + 1)) (Fin (n + 1)) ℝ} (hne : nodes ≠ [])
    (h : ∀ i x, nodes[i]? = some x → MarginalMoments env row x.marginal (m i) (C i)) (hC : ∀ i < nodes.length, 0 ≤ C i 0 0) :
    let time := (List.range nodes.length).map (· + 1)
    let drawn : List Plot.Draw := [.line time ((List.range nodes.length).map fun i => List.ofFn (m i)),
      .fill time ((List.range nodes.length).map fun i => some (m i 0 - 1.96 * Real.sqrt (C i 0 0)))
        ((List.range nodes.length).map fun i => some (m i 0 + 1.96 * Real.sqrt (C i 0 0)))]
    Plot.plotGaussianNode env nodes none = .ok drawn ∧
    (∀ x : Fin nodes.length → ℝ, Plot.plotGaussianNode env nodes (some (.v x)) = .ok (drawn ++ [.line time (List.ofFn fun i => [x i])])) ∧
    (∀ {c : ℕ} (x : Matrix (Fin nodes.length) (Fin c) ℝ), Plot.plotGaussianNode env nodes (some (.m x)) =
      .ok (drawn ++ [.line time (List.ofFn fun i => List.ofFn (x i))])) ∧
    ∀ {l : ℕ} (x : Fin l → ℝ), l ≠ nodes.length → Plot.plotGaussianNode env nodes (some (.v x)) = .error .value := by
  intro time drawn
  have h1 : nodes.mapM (fun x => Plot.meanOf env x.marginal) =
      .ok ((List.range nodes.length).map fun i => if row then Arr.m (of fun _ : Fin 1 => m i) else Arr.v (m i)) := mapM_index fun i x hx => by
    unfold Plot.meanOf
    rw [(h i x hx).1, ok_bind]
    rfl
  have h2 : nodes.mapM (fun x => Plot.sigmaRow env x.marginal) = .ok ((List.range nodes.length).map fun i => (List.ofFn (C i 0)).map Plot.root) :=
    mapM_index fun i x hx => sigmaRow_ok (h i x hx).2
  obtain ⟨N, hN⟩ : ∃ N, nodes.length = N + 1 := ⟨nodes.length - 1, by have := List.length_pos_iff.2 hne; omega⟩
  have e1 : ((List.range nodes.length).map fun i => List.ofFn (m i)).head? = some (List.ofFn (m 0)) := by rw [hN, List.range_succ_eq_map]; rfl
  have e2 : ((List.range nodes.length).map fun i => (List.ofFn (C i 0)).map Plot.root).head? = some ((List.ofFn (C 0 0)).map Plot.root) := by
    rw [hN, List.range_succ_eq_map]; rfl
  have e3 : ((List.range nodes.length).map fun i => if row then Arr.m (of fun _ : Fin 1 => m i) else Arr.v (m i)).map Arr.entries =
      (List.range nodes.length).map fun i => List.ofFn (m i) := by
    rw [List.map_map]
    exact List.map_congr_left fun i _ => entries_marginal row (m i)
  have hrun : ∀ truth, Plot.plotGaussianNode env nodes truth = match truth with
      | none => .ok drawn
      | some y => (Plot.plotLine time y).map fun l => drawn ++ [l] := fun truth => by
    unfold Plot.plotGaussianNode
    rw [h1, ok_bind, stack_ok (s := if row then [1, n + 1] else [n + 1]) (by cases row <;> simp [Arr.shape]), ok_bind]
    dsimp only
    rw [e3, e1]
    dsimp only
    rw [h2, ok_bind, stack_ok (s := [n + 1]) (by simp), ok_bind, e2]
    simp only [List.length_ofFn, List.length_map]
    rw [column0_ok, ok_bind, List.map_map, List.map_map, zip_range, zip_range]
    have hd : [Plot.Draw.line (List.map (fun x => x + 1) (List.range nodes.length)) (List.map (fun i => List.ofFn (m i)) (List.range nodes.length)),
        Plot.Draw.fill (List.map (fun x => x + 1) (List.range nodes.length))
          (List.map (fun i => Plot.lower ((Plot.entry0 0 ∘ fun i => List.ofFn (m i)) i)
            ((Plot.entry0 none ∘ fun i => List.map Plot.root (List.ofFn (C i 0))) i)) (List.range nodes.length))
          (List.map (fun i => Plot.upper ((Plot.entry0 0 ∘ fun i => List.ofFn (m i)) i)
            ((Plot.entry0 none ∘ fun i => List.map Plot.root (List.ofFn (C i 0))) i)) (List.range nodes.length))] = drawn := by
      simp only [drawn, time, List.cons.injEq, Plot.Draw.fill.injEq, true_and, and_true]
      constructor
      · refine List.map_congr_left fun i hi => ?_
        simp [Plot.entry0, Plot.lower, List.ofFn_succ, root_ok (hC i (List.mem_range.1 hi))]
      · refine List.map_congr_left fun i hi => ?_
        simp [Plot.entry0, Plot.upper, List.ofFn_succ, root_ok (hC i (List.mem_range.1 hi))]
    rw [hd]
    cases truth with
    | none => rfl
    | some y =>
      dsimp only
      cases Plot.plotLine time y <;> rfl
  have ht : time.length = nodes.length := by simp [time]
  refine ⟨hrun none, fun x => ?_, fun x => ?_, fun x hx => ?_⟩
  · rw [hrun]
    dsimp only
    rw [Plot.plotLine, if_pos ht]; rfl
  · rw [hrun]
    dsimp only
    rw [Plot.plotLine, if_pos ht]; rfl
  · rw [hrun]
    dsimp only
    rw [Plot.plotLine, if_neg (by rw [ht]; exact hx.symm)]; rfl

end Drawn

/-! ## What the band means -/

/-- **C92.** Under the normal distribution with the plotted mean and covariance the first component lies in the band with a probability of
95 percent, whatever the dimension. -/
theorem C92_band_probability {C : Matrix (Fin (n + 1)) (Fin (n + 1)) ℝ} (hC : C.PosDef) (μ : Fin (n + 1) → ℝ) :
    About95 (∫ x in {x | x 0 ∈ Set.Icc (μ 0 - 1.96 * Real.sqrt (C 0 0)) (μ 0 + 1.96 * Real.sqrt (C 0 0))}, normalPdf μ C x) :=
  normalPdf_band hC μ

private theorem posterior_band {C : Matrix (Fin (n + 1)) (Fin (n + 1)) ℝ} (hC : C.PosDef) (μ : Fin (n + 1) → ℝ) {f : (Fin (n + 1) → ℝ) → ENNReal}
    (hf : ∀ z, f z = ENNReal.ofReal (normalPdf μ C z)) :
    About95 (∫⁻ z in {z | z 0 ∈ Set.Icc (μ 0 - 1.96 * Real.sqrt (C 0 0)) (μ 0 + 1.96 * Real.sqrt (C 0 0))}, f z).toReal := by
  simp only [hf]
  rw [← ofReal_integral_eq_lintegral_ofReal (integrable_normalPdf hC μ).restrict (.of_forall fun x => (normalPdf_pos hC μ x).le),
    ENNReal.toReal_ofReal (by linarith [(normalPdf_band hC μ).1])]
  exact normalPdf_band hC μ

/-- A band with finite bounds. -/
def fillBand (N : ℕ) (lo up : ℕ → ℝ) : Plot.Draw :=
  .fill (List.range N) ((List.range N).map fun i => some (lo i)) ((List.range N).map fun i => some (up i))

private theorem plot_results {gs : List Gaussian} {N : ℕ} (hN : gs.length = N) (h0 : 0 < N) {m : ℕ → Fin (n + 1) → ℝ}
    {C : ℕ → Matrix (Fin (n + 1)) (Fin (n + 1)) ℝ} (h : ∀ i < N, ∃ g, gs[i]? = some g ∧ HasMoments env g (m i) (C i)) (hC : ∀ i < N, (C i).PosDef) :
    Plot.plotGaussian env gs = .ok (fillBand N (fun i => m i 0 - 1.96 * Real.sqrt (C i 0 0)) fun i => m i 0 + 1.96 * Real.sqrt (C i 0 0)) := by
  subst hN
  refine C92_band (List.length_pos_iff.1 h0) (fun i g hg => ?_) fun i hi => (hC i hi).diag_pos.le
  obtain ⟨g', h1, h2⟩ := h i (List.getElem?_eq_some_iff.1 hg).1
  rw [hg, Option.some.injEq] at h1
  exact h1 ▸ h2

/-- **C92.** Filter a linear Gaussian system and plot the result: at each time the band holds 95 percent of the posterior probability of the
first component given the measurements so far. -/
theorem C92_filter_posterior {K : KFS} {u : Option ℝ} {tZero : ℝ} {prior : Option Gaussian} {L : StateSpace (n + 1) k} (hL : L.Good)
    (hK : Describes env K u tZero (prior.getD K.initState) L) {ys : List Arr} {y : ℕ → Fin k → ℝ}
    (hy : ∀ i a, ys[i]? = some a → IsVec a.squeeze (y i)) (hne : ys ≠ []) :
    ∃ fs lo up, K.kalmanFilter env ys prior tZero u = .ok fs ∧ Plot.plotGaussian env fs = .ok (fillBand ys.length lo up) ∧
      ∀ i < ys.length, About95 (∫⁻ z in {z | z 0 ∈ Set.Icc (lo i) (up i)}, L.posterior y (i + 1) (i + 1) z).toReal := by
  obtain ⟨fs, h1, h2, h3⟩ := C67_filter_posterior hL hK hy
  have : Nonempty Gaussian := ⟨{}⟩
  choose! g m C hg hm hC hp using h3
  refine ⟨fs, _, _, h1, plot_results h2 (List.length_pos_iff.2 hne) (fun i hi => ⟨g i, hg i hi, hm i hi⟩) hC, fun i hi => ?_⟩
  exact posterior_band (hC i hi) (m i) (hp i hi)

/-- **C92.** The same for the smoother and all measurements. -/
theorem C92_smoother_posterior {K : KFS} {u : Option ℝ} {prior : Option Gaussian} {L : StateSpace (n + 1) k} (hL : L.Good)
    (hK : Describes env K u 0 (prior.getD K.initState) L) {ys : List Arr} {y : ℕ → Fin k → ℝ}
    (hy : ∀ i a, ys[i]? = some a → IsVec a.squeeze (y i)) (hne : ys ≠ []) :
    ∃ fs rs lo up, K.kalmanFilter env ys prior 0 u = .ok fs ∧ K.kalmanSmoother env fs u = .ok rs ∧
      Plot.plotGaussian env rs = .ok (fillBand ys.length lo up) ∧
      ∀ i < ys.length, About95 (∫⁻ z in {z | z 0 ∈ Set.Icc (lo i) (up i)}, L.posterior y ys.length (i + 1) z).toReal := by
  obtain ⟨fs, rs, h1, h1', h2, h3⟩ := C67_smoother_posterior hL hK hy hne
  have : Nonempty Gaussian := ⟨{}⟩
  choose! g m C hg hm hC hp using h3
  refine ⟨fs, rs, _, _, h1, h1', plot_results h2 (List.length_pos_iff.2 hne) (fun i hi => ⟨g i, hg i hi, hm i hi⟩) hC, fun i hi => ?_⟩
  exact posterior_band (hC i hi) (m i) (hp i hi)

/-! ## True states in the band -/

section Coverage

variable {Ω : Type*} {rng : Ω → Rng}

variable [MeasurableSpace Ω] {ℙ : Measure Ω}

/-- A combination of variance `c` lies within 1.96 standard deviations of zero with a probability of 95 percent. -/
private theorem comb_band (h : NormalDraws ℙ rng) {X : Ω → ℝ} (hX : Combination rng X) {c : ℝ} (hc : 0 < c) (hv : ∫ ω, X ω * X ω ∂ℙ = c) :
    About95 (ℙ.real {ω | |X ω| ≤ 1.96 * Real.sqrt c}) := by
  obtain ⟨v, hlaw⟩ := h.normal X hX
  have hm : AEMeasurable X ℙ := AEMeasurable.of_map_ne_zero (by rw [hlaw]; exact NeZero.ne _)
  have hvc : (v : ℝ) = c := by
    rw [← hv, ← integral_map (φ := X) (f := fun t => t * t) hm (by fun_prop), hlaw]
    have := ProbabilityTheory.variance_fun_id_gaussianReal (μ := 0) (v := v)
    rw [ProbabilityTheory.variance_eq_integral (by fun_prop)] at this
    simp only [ProbabilityTheory.integral_id_gaussianReal, sub_zero, sq] at this
    exact this.symm
  have hv0 : v ≠ 0 := by rintro rfl; rw [← hvc] at hc; simp at hc
  have hb := ProbabilityTheory.gaussianReal 0 v
  have hS : MeasurableSet {t : ℝ | |t| ≤ 1.96 * Real.sqrt c} := measurableSet_le (by fun_prop) (by fun_prop)
  have e : ℙ.real {ω | |X ω| ≤ 1.96 * Real.sqrt c} = (ProbabilityTheory.gaussianReal 0 v).real {t | |t| ≤ 1.96 * Real.sqrt v} := by
    rw [← hlaw, measureReal_def, measureReal_def, hvc, Measure.map_apply_of_aemeasurable hm hS]
    rfl
  rw [e]
  exact gaussianReal_band hv0

private theorem covers (h : NormalDraws ℙ rng) {x m : Ω → Fin (n + 1) → ℝ} {C : Matrix (Fin (n + 1)) (Fin (n + 1)) ℝ} (hC : C.PosDef)
    (hX : Combinations rng fun ω => x ω - m ω) (hcal : Calibrated ℙ x m C) :
    About95 (ℙ.real {ω | x ω 0 ∈ Set.Icc (m ω 0 - 1.96 * Real.sqrt (C 0 0)) (m ω 0 + 1.96 * Real.sqrt (C 0 0))}) := by
  have := comb_band h (hX 0) hC.diag_pos (hcal.cov 0 0)
  convert this using 3
  ext ω
  show _ ∧ _ ↔ |x ω 0 - m ω 0| ≤ _
  rw [abs_le]
  constructor <;> rintro ⟨h1, h2⟩ <;> constructor <;> linarith

variable [IsProbabilityMeasure ℙ] {row : Bool} {sys : Sys} {T : Transform} {Tm : Option Transform} {L : StateSpace (n + 1) k}
  {A : ℝ → Matrix (Fin (n + 1)) (Fin (n + 1)) ℝ} {b : ℝ → Fin (n + 1) → ℝ} {H : Matrix (Fin k) (Fin (n + 1)) ℝ} {c : Fin k → ℝ}

/-- **C92.** Simulate a linear system with normal noise, filter the measurements and plot the results: at every time the true first
component lies in the plotted band with a probability of 95 percent. -/
theorem C92_filter_coverage (hd : NormalDraws ℙ rng) (hL : L.Good) (hK : Describes env (KFS.init T sys Tm) none 0 sys.initState L)
    (hA : ∀ i : ℕ, L.A i = A (i * sys.dt)) (hb : ∀ i : ℕ, L.b i = b (i * sys.dt)) (hH : ∀ i, L.H i = H) (hc : ∀ i, L.c i = c)
    (htr : ∀ t, PointMap row Set.univ (fun x => sys.transition x (some t) none) fun x => A t *ᵥ x + b t)
    (hme : PointMap row Set.univ (fun x => sys.measurement x none none) fun x => H *ᵥ x + c) {N : ℕ} (hN : 0 < N) :
    ∃ (data : Ω → List (Arr × Arr)) (fs : Ω → List Gaussian) (x : Ω → ℕ → Fin (n + 1) → ℝ) (lo up : Ω → ℕ → ℝ),
      (∀ ω, simData env (rng ω) (n + 1) k sys N = .ok (data ω) ∧ (∀ i < N, ∃ p, (data ω)[i]? = some p ∧ IsPoint p.1 (x ω i)) ∧
        (KFS.init T sys Tm).kalmanFilter env ((data ω).map Prod.snd) none 0 none = .ok (fs ω) ∧
        Plot.plotGaussian env (fs ω) = .ok (fillBand N (lo ω) (up ω))) ∧
      ∀ i < N, About95 (ℙ.real {ω | x ω i 0 ∈ Set.Icc (lo ω i) (up ω i)}) := by
  have hpath := hd.path hL.P0.posSemidef hL.Q.posSemidef hL.R.posSemidef hA hb hH hc
  obtain ⟨data, fs, hrep⟩ := filter_reports (rng := rng) hL hK htr hme N
  refine ⟨data, fs, fun ω i => truth rng L A b sys.dt (i + 1) ω, _, _, fun ω => ⟨(hrep ω).1, fun i hi => ?_, (hrep ω).2.1,
    plot_results (hrep ω).2.2.length hN (hrep ω).2.2.result fun i hi => hL.filt (i + 1)⟩, fun i hi => ?_⟩
  · obtain ⟨p, h1, h2, -⟩ := (hrep ω).2.2.data i hi
    exact ⟨p, h1, h2⟩
  · refine covers hd (hL.filt (i + 1)) ?_ (calibrated_of (hpath.sq_err (i + 1)) (hpath.mean_err (i + 1)) (hpath.cov_err hL (i + 1)))
    exact hpath.comb_err (.draw 0 _ hL.P0.posSemidef) (fun i => .draw0 _ hL.Q.posSemidef) (fun i => .draw0 _ hL.R.posSemidef) (i + 1)

/-- **C92.** The same for the smoother. -/
theorem C92_smoother_coverage (hd : NormalDraws ℙ rng) (hL : L.Good) (hK : Describes env (KFS.init T sys Tm) none 0 sys.initState L)
    (hA : ∀ i : ℕ, L.A i = A (i * sys.dt)) (hb : ∀ i : ℕ, L.b i = b (i * sys.dt)) (hH : ∀ i, L.H i = H) (hc : ∀ i, L.c i = c)
    (htr : ∀ t, PointMap row Set.univ (fun x => sys.transition x (some t) none) fun x => A t *ᵥ x + b t)
    (hme : PointMap row Set.univ (fun x => sys.measurement x none none) fun x => H *ᵥ x + c) {N : ℕ} (hN : 0 < N) :
    ∃ (data : Ω → List (Arr × Arr)) (fs rs : Ω → List Gaussian) (x : Ω → ℕ → Fin (n + 1) → ℝ) (lo up : Ω → ℕ → ℝ),
      (∀ ω, simData env (rng ω) (n + 1) k sys N = .ok (data ω) ∧ (∀ i < N, ∃ p, (data ω)[i]? = some p ∧ IsPoint p.1 (x ω i)) ∧
        (KFS.init T sys Tm).kalmanFilter env ((data ω).map Prod.snd) none 0 none = .ok (fs ω) ∧
        (KFS.init T sys Tm).kalmanSmoother env (fs ω) none = .ok (rs ω) ∧
        Plot.plotGaussian env (rs ω) = .ok (fillBand N (lo ω) (up ω))) ∧
      ∀ i < N, About95 (ℙ.real {ω | x ω i 0 ∈ Set.Icc (lo ω i) (up ω i)}) := by
  have hpath := hd.path hL.P0.posSemidef hL.Q.posSemidef hL.R.posSemidef hA hb hH hc
  obtain ⟨data, fs, rs, hrep⟩ := smoother_reports (rng := rng) hL hK htr hme hN
  refine ⟨data, fs, rs, fun ω i => truth rng L A b sys.dt (i + 1) ω, _, _, fun ω => ⟨(hrep ω).1, fun i hi => ?_, (hrep ω).2.1, (hrep ω).2.2.1,
    plot_results (hrep ω).2.2.2.length hN (hrep ω).2.2.2.result fun i hi => hL.smth _ (i + 1)⟩, fun i hi => ?_⟩
  · obtain ⟨p, h1, h2, -⟩ := (hrep ω).2.2.2.data i hi
    exact ⟨p, h1, h2⟩
  · refine covers hd (hL.smth _ (i + 1)) ?_ (calibrated_of (hpath.sq_serr _ (i + 1)) (hpath.mean_serr _ (i + 1)) (hpath.cov_serr hL _ (i + 1)))
    exact hpath.comb_serr (.draw 0 _ hL.P0.posSemidef) (fun i => .draw0 _ hL.Q.posSemidef) (fun i => .draw0 _ hL.R.posSemidef) _ (i + 1)

end Coverage

private theorem law_sum (f : ℕ × ℕ → ℝ) (S : Finset (ℕ × ℕ)) :
    ∃ v, standardNormals.map (fun z => ∑ s ∈ S, f s * z s) = ProbabilityTheory.gaussianReal 0 v := by
  classical
  induction S using Finset.induction_on with
  | empty => exact ⟨0, by simp⟩
  | insert s S hs ih =>
    obtain ⟨v, hv⟩ := ih
    have hi := ProbabilityTheory.iIndepFun_infinitePi (P := fun _ : ℕ × ℕ => ProbabilityTheory.gaussianReal 0 1)
      (X := fun s x => f s * x) (fun s => measurable_const_mul (f s))
    have hind := (hi.indepFun_finsetSum_of_notMem (fun s => by fun_prop) hs).symm
    have h1 : standardNormals.map (fun z => f s * z s) = ProbabilityTheory.gaussianReal (f s * 0) (NNReal.mk (f s ^ 2) (sq_nonneg _) * 1) := by
      rw [← ProbabilityTheory.gaussianReal_map_const_mul, ← Measure.infinitePi_map_eval (fun _ : ℕ × ℕ => ProbabilityTheory.gaussianReal 0 1) s,
        Measure.map_map (by fun_prop) (by fun_prop)]
      rfl
    have hv' : standardNormals.map (∑ j ∈ S, fun z : ℕ × ℕ → ℝ => f j * z j) = ProbabilityTheory.gaussianReal 0 v := by
      rw [← hv]; congr 1; funext z; simp
    have := ProbabilityTheory.gaussianReal_add_gaussianReal_of_indepFun hind h1 hv'
    rw [mul_zero, zero_add] at this
    refine ⟨_, Eq.trans ?_ this⟩
    congr 1
    funext z
    simp [Finset.sum_insert hs]

/-- **C92.** Vectors made from independent standard normal numbers satisfy what is assumed of normal draws. -/
theorem C92_normal_draws : NormalDraws standardNormals drawsFrom := by
  refine ⟨C85_normal_draws, fun X hX => ?_⟩
  have hrep : ∃ f : (ℕ × ℕ) →₀ ℝ, X = fun z => f.sum fun s a => a * z s := by
    induction hX with
    | zero => exact ⟨0, by simp⟩
    | draw j p μ C hC a =>
      obtain ⟨f, hf⟩ := drawsFrom_eq j μ hC a
      refine ⟨∑ b : Fin p, Finsupp.single (j, (b : ℕ)) (f b), funext fun z => ?_⟩
      rw [hf, add_sub_cancel_left, ← Finsupp.sum_finsetSum_index (by simp) (by intros; ring)]
      simp
    | add _ _ hX hY =>
      obtain ⟨f, rfl⟩ := hX
      obtain ⟨g, rfl⟩ := hY
      exact ⟨f + g, funext fun z => (Finsupp.sum_add_index' (by simp) (by intros; ring)).symm⟩
    | smul t _ hX =>
      obtain ⟨f, rfl⟩ := hX
      refine ⟨t • f, funext fun z => ?_⟩
      rw [Finsupp.sum_smul_index (by simp), Finsupp.mul_sum]
      exact Finsupp.sum_congr fun _ _ => by ring
  obtain ⟨f, rfl⟩ := hrep
  exact law_sum f f.support

/-- One hundred steps of the extended Kalman filter and smoother on simulated normal data, plotted: the true position is in the band
with 95 percent probability at each time. -/
example : ∃ (data : (ℕ × ℕ → ℝ) → List (Arr × Arr)) (fs rs : (ℕ × ℕ → ℝ) → List Gaussian) (x : (ℕ × ℕ → ℝ) → ℕ → Fin 2 → ℝ) (lo up : (ℕ × ℕ → ℝ) → ℕ → ℝ),
    (∀ z, simData calmEnv (drawsFrom z) 2 1 velocitySys 100 = .ok (data z) ∧ (∀ i < 100, ∃ p, (data z)[i]? = some p ∧ IsPoint p.1 (x z i)) ∧
      (KFS.init (taylorTransform calmEnv exactJac) velocitySys none).kalmanFilter calmEnv ((data z).map Prod.snd) none 0 none = .ok (fs z) ∧
      (KFS.init (taylorTransform calmEnv exactJac) velocitySys none).kalmanSmoother calmEnv (fs z) none = .ok (rs z) ∧
      Plot.plotGaussian calmEnv (rs z) = .ok (fillBand 100 (lo z) (up z))) ∧
      ∀ i < 100, About95 (standardNormals.real {z | x z i 0 ∈ Set.Icc (lo z i) (up z i)}) :=
  C92_smoother_coverage (A := fun _ => !![1, 2; 0, 1]) (b := fun _ => ![5, 6]) (H := !![1, 0]) (c := ![1])
    (row := false) C92_normal_draws demoSpace_good (sys := velocitySys)
    demo_describes (fun _ => rfl) (fun _ => rfl) (fun _ => rfl) (fun _ => rfl) (fun t => affine_pointMap _ _ (some t) none)
    (affine_pointMap _ _ none none) (N := 100) (by norm_num)

/-- A variance below zero. -/
example : Plot.plotGaussian calmEnv [Gaussian.ofMoment (.v ![1, 5]) (.m !![-4, 0; 0, 3]), Gaussian.ofMoment (.v ![2, 6]) (.m !![9, 0; 0, 1])] =
    .ok (.fill [0, 1] [none, some (2 - 1.96 * 3)] [none, some (2 + 1.96 * 3)]) := by
  have h := C92_negative_variance (env := calmEnv) (n := 1)
    (gs := [Gaussian.ofMoment (.v ![1, 5]) (.m !![-4, 0; 0, 3]), Gaussian.ofMoment (.v ![2, 6]) (.m !![9, 0; 0, 1])])
    (m := fun i => if i = 0 then ![1, 5] else ![2, 6]) (C := fun i => if i = 0 then !![-4, 0; 0, 3] else !![9, 0; 0, 1]) (by simp)
    (fun i g hg => by
      rcases i with _ | _ | i
      · simp at hg; subst hg; exact hasMoments_ofMoment _ _ _
      · simp at hg; subst hg; exact hasMoments_ofMoment _ _ _
      · simp at hg)
  rw [h]
  have e9 : Real.sqrt 9 = 3 := by rw [show (9 : ℝ) = 3 ^ 2 by norm_num]; exact Real.sqrt_sq (by norm_num)
  simp [List.range_succ, e9]

/-- Two Gaussians in two dimensions, one with negatively correlated components. -/
example : Plot.plotGaussian calmEnv [Gaussian.ofMoment (.v ![1, 5]) (.m !![4, -1; -1, 3]), Gaussian.ofMoment (.v ![2, 6]) (.m !![9, 0; 0, 1])] =
    .ok (.fill [0, 1] [some (1 - 1.96 * 2), some (2 - 1.96 * 3)] [some (1 + 1.96 * 2), some (2 + 1.96 * 3)]) := by
  have h := C92_band (env := calmEnv) (n := 1) (gs := [Gaussian.ofMoment (.v ![1, 5]) (.m !![4, -1; -1, 3]), Gaussian.ofMoment (.v ![2, 6]) (.m !![9, 0; 0, 1])])
    (m := fun i => if i = 0 then ![1, 5] else ![2, 6]) (C := fun i => if i = 0 then !![4, -1; -1, 3] else !![9, 0; 0, 1]) (by simp)
    (fun i g hg => by
      rcases i with _ | _ | i
      · simp at hg; subst hg; exact hasMoments_ofMoment _ _ _
      · simp at hg; subst hg; exact hasMoments_ofMoment _ _ _
      · simp at hg)
    (fun i hi => by split_ifs <;> norm_num)
  rw [h]
  have e4 : Real.sqrt 4 = 2 := by rw [show (4 : ℝ) = 2 ^ 2 by norm_num]; exact Real.sqrt_sq (by norm_num)
  have e9 : Real.sqrt 9 = 3 := by rw [show (9 : ℝ) = 3 ^ 2 by norm_num]; exact Real.sqrt_sq (by norm_num)
  simp [List.range_succ, e4, e9]

/-- Two nodes whose marginals have means of shape `(1, 2)`, with true positions. -/
example (a b : Node) (ha : a.marginal = Gaussian.ofMoment (.m !![1, 5]) (.m !![4, -1; -1, 3]))
    (hb : b.marginal = Gaussian.ofMoment (.m !![2, 6]) (.m !![9, 0; 0, 1])) :
    Plot.plotGaussianNode calmEnv [a, b] (some (.v ![7, 8])) = .ok [.line [1, 2] [[1, 5], [2, 6]],
      .fill [1, 2] [some (1 - 1.96 * 2), some (2 - 1.96 * 3)] [some (1 + 1.96 * 2), some (2 + 1.96 * 3)], .line [1, 2] [[7], [8]]] ∧
    Plot.plotGaussian calmEnv [a.marginal, b.marginal] = .error .value := by
  have hm : ∀ (i : ℕ) (x : Node), [a, b][i]? = some x → MarginalMoments calmEnv true x.marginal ((fun i : ℕ => if i = 0 then ![1, 5] else ![2, 6]) i)
      ((fun i : ℕ => if i = 0 then !![4, -1; -1, 3] else !![9, 0; 0, 1]) i) := fun i x hx => by
    rcases i with _ | _ | i
    · simp at hx; subst hx; rw [ha]
      exact ⟨congrArg (fun M => Except.ok (some (Arr.m M))) (by ext i j; fin_cases i; rfl), rfl⟩
    · simp at hx; subst hx; rw [hb]
      exact ⟨congrArg (fun M => Except.ok (some (Arr.m M))) (by ext i j; fin_cases i; rfl), rfl⟩
    · simp at hx
  have e4 : Real.sqrt 4 = 2 := by rw [show (4 : ℝ) = 2 ^ 2 by norm_num]; exact Real.sqrt_sq (by norm_num)
  have e9 : Real.sqrt 9 = 3 := by rw [show (9 : ℝ) = 3 ^ 2 by norm_num]; exact Real.sqrt_sq (by norm_num)
  have h := C92_node_band (env := calmEnv) (by simp) hm (fun i _ => by split_ifs <;> norm_num)
  refine ⟨(h.2.1 ![7, 8]).trans ?_, C92_row_means (n := 1) (m := fun i => if i = 0 then ![1, 5] else ![2, 6])
    (C := fun i => if i = 0 then !![4, -1; -1, 3] else !![9, 0; 0, 1]) (by simp) fun i g hg => ?_⟩
  · simp [List.range_succ, e4, e9]
  · rcases i with _ | _ | i
    · simp at hg; subst hg; exact hm 0 a rfl
    · simp at hg; subst hg; exact hm 1 b rfl
    · simp at hg

/-- Extended Kalman smoother on three measurements of a constant velocity model, plotted. -/
example : ∃ fs rs lo up, (demoKFS (taylorTransform calmEnv exactJac)).kalmanFilter calmEnv [.s 4, .s 2, .s 7] none 0 none = .ok fs ∧
    (demoKFS (taylorTransform calmEnv exactJac)).kalmanSmoother calmEnv fs none = .ok rs ∧
    Plot.plotGaussian calmEnv rs = .ok (fillBand 3 lo up) ∧
    ∀ i < 3, About95 (∫⁻ z in {z | z 0 ∈ Set.Icc (lo i) (up i)},
      demoSpace.posterior (fun i _ => if i = 0 then 4 else if i = 1 then 2 else 7) 3 (i + 1) z).toReal :=
  C92_smoother_posterior demoSpace_good demo_describes (ys := [.s 4, .s 2, .s 7]) (prior := none)
    (fun i a ha => by
      rcases i with _ | _ | _ | i
      · obtain rfl : Arr.s 4 = a := by simpa using ha
        exact .inr (by simp)
      · obtain rfl : Arr.s 2 = a := by simpa using ha
        exact .inr (by simp)
      · obtain rfl : Arr.s 7 = a := by simpa using ha
        exact .inr (by simp)
      · simp at ha) (by simp)

/-! ## Averages over runs -/

section Runs

variable {N T : ℕ} {x : Matrix (Fin N) (Fin T) ℝ}

/-- **C93.** The line and band of `plot_1d_data`: the average over the runs and one standard deviation about it, with times from 1; for a
single run there is no band. -/
theorem C93_drawn (hN : 0 < N) (x : Matrix (Fin N) (Fin T) ℝ) :
    Plot.getMeanAndStd x = .ok (avg x, spread x) ∧
    Plot.plot1d x = .ok (.line ((List.range T).map (· + 1)) (List.ofFn fun t => [avg x t]) ::
      if 1 < N then [.fill ((List.range T).map (· + 1)) (List.ofFn fun t => some (avg x t - spread x t))
        (List.ofFn fun t => some (avg x t + spread x t))] else []) := by
  have h : Plot.getMeanAndStd x = .ok (avg x, spread x) := by
    unfold Plot.getMeanAndStd Plot.colMean
    rw [if_neg hN.ne', ok_bind]
    dsimp only
    rw [if_neg hN.ne', ok_bind]
    rfl
  refine ⟨h, ?_⟩
  unfold Plot.plot1d
  rw [h, ok_bind]
  dsimp only
  split_ifs <;> rfl

variable {m s : Fin T → ℝ}

private theorem of_ok (h : Plot.getMeanAndStd x = .ok (m, s)) : 0 < N ∧ m = avg x ∧ s = spread x := by
  rcases Nat.eq_zero_or_pos N with rfl | hN
  · simp [Plot.getMeanAndStd, Plot.colMean] at h
  · rw [(C93_drawn hN x).1, Except.ok.injEq, Prod.mk.injEq] at h
    exact ⟨hN, h.1.symm, h.2.symm⟩

/-- **C93.** The order of the runs does not matter. -/
theorem C93_order (x : Matrix (Fin N) (Fin T) ℝ) (σ : Equiv.Perm (Fin N)) :
    Plot.getMeanAndStd (x.submatrix σ id) = Plot.getMeanAndStd x ∧ Plot.plot1d (x.submatrix σ id) = Plot.plot1d x := by
  have h : Plot.getMeanAndStd (x.submatrix σ id) = Plot.getMeanAndStd x := by
    rcases Nat.eq_zero_or_pos N with rfl | hN
    · rfl
    · have h1 : avg (x.submatrix σ id) = avg x := funext fun t => by
        unfold avg
        exact congrArg (· / (N : ℝ)) (Equiv.sum_comp σ fun i => x i t)
      have h2 : spread (x.submatrix σ id) = spread x := funext fun t => by
        unfold spread
        rw [h1]
        exact congrArg (fun a => Real.sqrt (a / (N : ℝ))) (Equiv.sum_comp σ fun i => (x i t - avg x t) ^ 2)
      rw [(C93_drawn hN _).1, (C93_drawn hN _).1, h1, h2]
  exact ⟨h, by unfold Plot.plot1d; rw [h]⟩

/-- **C93.** In other units, `a x + o` instead of `x`, the line is `a m + o` and the width of the band `|a| s`. -/
theorem C93_units (h : Plot.getMeanAndStd x = .ok (m, s)) (a o : ℝ) :
    Plot.getMeanAndStd (of fun i t => a * x i t + o) = .ok (fun t => a * m t + o, fun t => |a| * s t) := by
  obtain ⟨hN, rfl, rfl⟩ := of_ok h
  have hN' : (N : ℝ) ≠ 0 := by positivity
  have h1 : avg (of fun i t => a * x i t + o) = fun t => a * avg x t + o := funext fun t => by
    simp only [avg, of_apply, Finset.sum_add_distrib, ← Finset.mul_sum, Finset.sum_const, Finset.card_univ, Fintype.card_fin, nsmul_eq_mul]
    field_simp
  have h2 : spread (of fun i t => a * x i t + o) = fun t => |a| * spread x t := funext fun t => by
    unfold spread
    rw [h1, ← Real.sqrt_sq_eq_abs, ← Real.sqrt_mul (sq_nonneg a), mul_div_assoc', Finset.mul_sum]
    congr 2
    refine Finset.sum_congr rfl fun i _ => ?_
    rw [of_apply]; ring
  rw [(C93_drawn hN _).1, h1, h2]

/-- **C93.** The band has width zero exactly where all runs agree. -/
theorem C93_zero_width (h : Plot.getMeanAndStd x = .ok (m, s)) (t : Fin T) : s t = 0 ↔ ∀ i j, x i t = x j t := by
  obtain ⟨hN, rfl, rfl⟩ := of_ok h
  have hN' : (0 : ℝ) < N := by positivity
  rw [spread, Real.sqrt_eq_zero (by positivity), div_eq_zero_iff, or_iff_left hN'.ne', Finset.sum_eq_zero_iff_of_nonneg fun _ _ => sq_nonneg _]
  constructor
  · intro h i j
    have h1 := h i (Finset.mem_univ _)
    have h2 := h j (Finset.mem_univ _)
    rw [sq_eq_zero_iff, sub_eq_zero] at h1 h2
    rw [h1, h2]
  · intro h i _
    have : avg x t = x i t := by
      rw [avg, Finset.sum_congr rfl fun j _ => h j i]
      simp [hN'.ne']
    rw [this]; simp

/-- **C93.** The line stays between the smallest and the largest run, and one run at least is in the band. -/
theorem C93_between (h : Plot.getMeanAndStd x = .ok (m, s)) (t : Fin T) :
    (∃ i j, x i t ≤ m t ∧ m t ≤ x j t) ∧ ∃ i, x i t ∈ Set.Icc (m t - s t) (m t + s t) := by
  obtain ⟨hN, rfl, rfl⟩ := of_ok h
  have hN' : (0 : ℝ) < N := by positivity
  have hne : (Finset.univ : Finset (Fin N)).Nonempty := ⟨⟨0, hN⟩, Finset.mem_univ _⟩
  have hs : ∑ i, x i t = ∑ _i : Fin N, avg x t := by
    simp only [Finset.sum_const, Finset.card_univ, Fintype.card_fin, nsmul_eq_mul, avg]
    field_simp
  obtain ⟨i, -, hi⟩ := Finset.exists_le_of_sum_le hne hs.le
  obtain ⟨j, -, hj⟩ := Finset.exists_le_of_sum_le hne hs.ge
  refine ⟨⟨i, j, hi, hj⟩, ?_⟩
  have hv : ∑ i, (x i t - avg x t) ^ 2 = ∑ _i : Fin N, spread x t ^ 2 := by
    rw [spread, Real.sq_sqrt (by positivity)]
    simp only [Finset.sum_const, Finset.card_univ, Fintype.card_fin, nsmul_eq_mul]
    field_simp
  obtain ⟨l, -, hl⟩ := Finset.exists_le_of_sum_le hne hv.le
  have := abs_le_of_sq_le_sq' hl (Real.sqrt_nonneg _)
  exact ⟨l, by linarith [this.1], by linarith [this.2]⟩

/-- **C93.** At most one in `c²` runs is further than `c` widths away from the line. -/
theorem C93_outside (h : Plot.getMeanAndStd x = .ok (m, s)) (t : Fin T) {c : ℝ} (hc : 0 < c) :
    ((Finset.univ.filter fun i => c * s t < |x i t - m t|).card : ℝ) ≤ N / c ^ 2 := by
  obtain ⟨hN, rfl, rfl⟩ := of_ok h
  have hN' : (0 : ℝ) < N := by positivity
  have hv : ∑ i, (x i t - avg x t) ^ 2 = N * spread x t ^ 2 := by
    rw [spread, Real.sq_sqrt (by positivity)]
    field_simp
  set F := Finset.univ.filter fun i => c * spread x t < |x i t - avg x t| with hF
  have hs0 : 0 ≤ spread x t := Real.sqrt_nonneg _
  have h1 : (F.card : ℝ) * (c * spread x t) ^ 2 ≤ N * spread x t ^ 2 := by
    rw [← hv, ← nsmul_eq_mul, ← Finset.sum_const]
    refine (Finset.sum_le_sum fun i hi => ?_).trans (Finset.sum_le_sum_of_subset_of_nonneg (Finset.subset_univ F) fun _ _ _ => sq_nonneg _)
    have := (Finset.mem_filter.1 hi).2
    rw [← sq_abs (x i t - avg x t)]
    exact pow_le_pow_left₀ (by positivity) this.le 2
  rw [le_div_iff₀ (by positivity)]
  rcases hs0.eq_or_lt with h0 | h0
  · have : F = ∅ := by
      refine Finset.filter_eq_empty_iff.2 fun i _ => ?_
      have hz := (C93_zero_width h t).1 h0.symm
      have ha : avg x t = x i t := by
        rw [avg, Finset.sum_congr rfl fun j _ => hz j i]
        simp [hN'.ne']
      rw [ha, ← h0]; simp
    rw [this]; simp
  · have : 0 < spread x t ^ 2 := by positivity
    nlinarith [mul_pow c (spread x t) 2]

/-- Three runs over two times. -/
example : ∃ m s, Plot.getMeanAndStd !![1, 5; 2, 5; 3, 5] = .ok (m, s) ∧ m 0 = 2 ∧ s 0 = Real.sqrt (2 / 3) ∧ m 1 = 5 ∧ s 1 = 0 := by
  refine ⟨_, _, (C93_drawn (by norm_num) _).1, ?_, ?_, ?_, ?_⟩ <;> simp [avg, spread, Fin.sum_univ_three] <;> norm_num

end Runs

end Verif

import Verif.Props.PerturbationIEKF
import Verif.Props.Total

/-!
# The iterated extended Kalman smoother: results depend continuously on data, prior and parameters (C121)
-/

namespace Verif

open Matrix Gaussian

variable {env : Env} {jac : Jac} {n k : ℕ} {Θ : Type*} [TopologicalSpace Θ]

/-- At the times `t θ` the functions `f θ` return vectors, or rows of shape `(1, k)` if neither dimension is one; value and derivative are
continuous in the parameter and the point. -/
def ContinuouslyTame (f : Θ → SysFunc) (t : Θ → ℝ) (n k : ℕ) : Prop :=
  ∃ (F : Θ → (Fin n → ℝ) → Fin k → ℝ) (F' : Θ → (Fin n → ℝ) → (Fin n → ℝ) →L[ℝ] (Fin k → ℝ)),
    ((∀ θ, VecFunc (fun x => f θ x (some (t θ)) none) (F θ)) ∨
      (n ≠ 1 ∧ k ≠ 1 ∧ ∀ θ, RowFunc (fun x => f θ x (some (t θ)) none) (F θ))) ∧
    (∀ θ x, HasFDerivAt (F θ) (F' θ x) x) ∧ Continuous (fun p : Θ × (Fin n → ℝ) => F p.1 p.2) ∧
    Continuous fun p : Θ × (Fin n → ℝ) => F' p.1 p.2

private theorem jac_apply (L : (Fin n → ℝ) →L[ℝ] (Fin k → ℝ)) (v : Fin n → ℝ) : jacMat L *ᵥ v = L v := by
  have := LinearMap.toMatrix'_mulVec (L : (Fin n → ℝ) →ₗ[ℝ] (Fin k → ℝ)) v
  have e : jacMat L = LinearMap.toMatrix' (L : (Fin n → ℝ) →ₗ[ℝ] (Fin k → ℝ)) := by
    ext i j; simp [jacMat, LinearMap.toMatrix'_apply]
  rw [e, this]; rfl

namespace ContinuouslyTame

variable {f : Θ → SysFunc} {t : Θ → ℝ}

theorem varies (hjac : CorrectJac jac) (h : ContinuouslyTame f t n k) :
    VariesContinuously env (fun _ => taylorTransform env jac) (fun θ x => f θ x (some (t θ)) none) n k := by
  obtain ⟨F, F', h1 | ⟨hn, hk, h1⟩, h2, h3, h4⟩ := h
  · exact C121_taylor hjac h1 h2 h3 h4
  · exact C121_taylor_rows hjac hn hk h1 h2 h3 h4

theorem linearises (hjac : CorrectJac jac) (h : ContinuouslyTame f t n k) (θ : Θ) :
    LinearisesOn env (taylorTransform env jac) (fun x => f θ x (some (t θ)) none) n k := by
  obtain ⟨F, F', h1 | ⟨hn, hk, h1⟩, h2, h3, h4⟩ := h
  · exact taylor_linearises hjac (h1 θ) fun x => (h2 θ x).differentiableAt
  · intro g μ P hg _
    exact ⟨_, F θ μ, _, 0, .inl rfl, PosSemidef.zero, by rw [add_zero]; exact C17_taylor_linearises_rows hjac hn hk hg (h1 θ) (h2 θ μ)⟩

/-- Linearising at points that depend continuously on the parameter. -/
theorem linearise (hjac : CorrectJac jac) (h : ContinuouslyTame f t n k) {p : Θ → Fin n → ℝ} (hp : Continuous p) :
    ContinuouslyTame (fun θ => IEKS.linearise jac (f θ) (.v (p θ))) t n k := by
  obtain ⟨F, F', h1, h2, h3, h4⟩ := h
  have c3 : Continuous fun θ => F θ (p θ) := h3.comp (continuous_id.prodMk hp)
  have c4 : Continuous fun θ => F' θ (p θ) := h4.comp (continuous_id.prodMk hp)
  have e : ∀ θ x, jacMat (F' θ (p θ)) *ᵥ (x - p θ) = F' θ (p θ) (x - p θ) := fun θ x => jac_apply _ _
  refine ⟨fun θ x => F θ (p θ) + jacMat (F' θ (p θ)) *ᵥ (x - p θ), fun θ _ => F' θ (p θ), ?_, fun θ x => ?_, ?_, c4.comp continuous_fst⟩
  · rcases h1 with h1 | ⟨hn, hk, h1⟩
    · exact .inl fun θ => IEKS.linearise_vec hjac (h1 θ) (h2 θ (p θ))
    · exact .inr ⟨hn, hk, fun θ => IEKS.linearise_row hjac (h1 θ) (h2 θ (p θ))⟩
  · simp only [e]
    exact (((F' θ (p θ)).hasFDerivAt).comp x ((hasFDerivAt_id x).sub_const (p θ))).const_add _
  · simp only [e]
    exact (c3.comp continuous_fst).add ((c4.comp continuous_fst).clm_apply (continuous_snd.sub (hp.comp continuous_fst)))

end ContinuouslyTame

namespace IEKS

/-- The moments of a sequence of states that depends on a parameter: positive definite covariances, continuous in the parameter. -/
def ContinuousStates (M : Θ → ℕ → Fin n → ℝ) (V : Θ → ℕ → Matrix (Fin n) (Fin n) ℝ) (W : ℕ) : Prop :=
  ∀ j < W, (∀ θ, (V θ j).PosDef) ∧ Continuous (fun θ => M θ j) ∧ Continuous fun θ => V θ j

/-- The functions stored in the object, at all times the loops use. -/
def ContinuousObject (K : Θ → IEKS) (n k : ℕ) (s : Θ → IEKSState) : Prop :=
  ∀ j : ℕ, ContinuouslyTame (fun θ => (s θ).transition) (fun θ => j * (K θ).dt) n n ∧
    ContinuouslyTame (fun θ => (s θ).measurement) (fun θ => j * (K θ).dt) n k

private theorem floop (hjac : CorrectJac jac) {K : Θ → IEKS} (hT : ∀ θ, (K θ).transform = taylorTransform env jac)
    (hM : ∀ θ, (K θ).measTransform = taylorTransform env jac)
    {Q : Θ → Matrix (Fin n) (Fin n) ℝ} {R : Θ → Matrix (Fin k) (Fin k) ℝ} (hQ : ∀ θ, (K θ).Q = .m (Q θ) ∧ (Q θ).PosDef)
    (hR : ∀ θ, (K θ).R = .m (R θ) ∧ (R θ).PosDef) (tQ : Continuous Q) (tR : Continuous R) {fs hs : ℕ → Θ → SysFunc}
    (hfs : ∀ i (j : ℕ), ContinuouslyTame (fs i) (fun θ => j * (K θ).dt) n n)
    (hhs : ∀ i (j : ℕ), ContinuouslyTame (hs i) (fun θ => j * (K θ).dt) n k) :
    ∀ (W i : ℕ) (ys : Θ → List Arr) (yv : Θ → ℕ → Fin k → ℝ) (g : Θ → Gaussian) (m : Θ → Fin n → ℝ) (P : Θ → Matrix (Fin n) (Fin n) ℝ)
      (s : Θ → IEKSState), (∀ θ, (ys θ).length = W) → (∀ θ j a, (ys θ)[j]? = some a → IsVec a.squeeze (yv θ j)) →
      (∀ j < W, Continuous fun θ => yv θ j) → (∀ θ, HasMoments env (g θ) (m θ) (P θ)) → (∀ θ, (P θ).PosDef) → Continuous m → Continuous P →
      (∀ θ, ∀ j < i + W, (s θ).fList[j]? = some (fs j θ) ∧ (s θ).hList[j]? = some (hs j θ)) → ContinuousObject K n k s →
    ∃ (M : Θ → ℕ → Fin n → ℝ) (V : Θ → ℕ → Matrix (Fin n) (Fin n) ℝ) (s' : Θ → IEKSState),
      (∀ θ, filterLoop env (K θ) i (g θ) (i * (K θ).dt) (ys θ) (s θ) =
        (.ok ((List.range W).map fun j => ofMoment (.v (M θ j)) (.m (V θ j))), s' θ) ∧ (s' θ).fList = (s θ).fList) ∧
      ContinuousStates M V W ∧ ContinuousObject K n k s'
  | 0, i, ys, yv, g, m, P, s, hlen, _, _, _, _, _, _, _, ho => by
    refine ⟨fun _ _ => 0, fun _ _ => 0, s, fun θ => ⟨?_, rfl⟩, fun j hj => absurd hj (by omega), ho⟩
    rw [List.length_eq_zero_iff.1 (hlen θ)]; rfl
  | W + 1, i, ys, yv, g, m, P, s, hlen, hy, ty, hg, hP, h1, h2, hl, _ => by
    have hc : ∀ θ, ∃ a l, ys θ = a :: l := fun θ => List.exists_cons_of_length_eq_add_one (hlen θ)
    choose a l hal using hc
    let s1 : Θ → IEKSState := fun θ => { s θ with transition := fs i θ, measurement := hs i θ }
    obtain ⟨p, m', P', e, hP', t1, t2⟩ := continuous_step (K := fun θ => (K θ).current (s1 θ)) (t := fun θ => some (i * (K θ).dt))
      (u := fun _ => none) (Q := Q) (R := R) (env := env) (n := n) (k := k)
      (by simpa only [current, hT] using (hfs i i).varies hjac) (fun θ => by simpa only [current, hT] using (hfs i i).linearises hjac θ)
      (by simpa only [current, hM] using (hhs i i).varies hjac) (fun θ => by simpa only [current, hM] using (hhs i i).linearises hjac θ)
      hQ hR tQ tR hg hP h1 h2 (a := a) (yv := fun θ => yv θ 0) (fun θ => hy θ 0 (a θ) (by rw [hal]; rfl)) (ty 0 (by omega))
    obtain ⟨M, V, s', e', t', ho'⟩ := floop hjac hT hM hQ hR tQ tR hfs hhs W (i + 1) l (fun θ j => yv θ (j + 1))
      (fun θ => ofMoment (.v (m' θ)) (.m (P' θ))) m' P' s1
      (fun θ => by have := hlen θ; rw [hal] at this; simpa using this) (fun θ j b hb => hy θ (j + 1) b (by rw [hal]; simpa using hb))
      (fun j hj => ty (j + 1) (by omega)) (fun θ => hasMoments_ofMoment ..) hP' t1 t2 (fun θ j hj => hl θ j (by omega))
      fun j => ⟨hfs i j, hhs i j⟩
    refine ⟨fun θ j => j.casesOn (m' θ) (M θ), fun θ j => j.casesOn (P' θ) (V θ), s', fun θ => ⟨?_, (e' θ).2⟩, fun j hj => ?_, ho'⟩
    · have e2 : (i : ℝ) * (K θ).dt + (K θ).dt = ((i + 1 : ℕ) : ℝ) * (K θ).dt := by push_cast; ring
      obtain ⟨l1, l2⟩ := hl θ i (by omega)
      rw [hal]
      simp only [filterLoop, PyM.get_bind, PyM.modify_bind, getItem, l1, l2, PyM.lift_ok_bind]
      have a1 := (e θ).1
      have a2 := (e θ).2
      simp only [s1] at a1 a2
      rw [a1, PyM.lift_ok_bind, a2, PyM.lift_ok_bind, e2, PyM.bind_ok (e' θ).1, List.range_succ_eq_map, List.map_cons, List.map_map]
      rfl
    · cases j with
      | zero => exact ⟨hP', t1, t2⟩
      | succ j => exact t' j (by omega)

private theorem sloop (hjac : CorrectJac jac) {K : Θ → IEKS} (hT : ∀ θ, (K θ).transform = taylorTransform env jac)
    {Q : Θ → Matrix (Fin n) (Fin n) ℝ} (hQ : ∀ θ, (K θ).Q = .m (Q θ) ∧ (Q θ).PosDef) (tQ : Continuous Q) {fs : ℕ → Θ → SysFunc}
    (hfs : ∀ i (j : ℕ), ContinuouslyTame (fs i) (fun θ => j * (K θ).dt) n n) {W : ℕ}
    {M : Θ → ℕ → Fin n → ℝ} {V : Θ → ℕ → Matrix (Fin n) (Fin n) ℝ} (hq : ContinuousStates M V W) :
    ∀ (j : ℕ), j < W → ∀ (x : Θ → Fin n → ℝ) (C : Θ → Matrix (Fin n) (Fin n) ℝ) (s : Θ → IEKSState), (∀ θ, (C θ).PosDef) → Continuous x →
      Continuous C → (∀ θ, ∀ i < W, (s θ).fList[i]? = some (fs i θ)) → ContinuousObject K n k s →
    ∃ (M' : Θ → ℕ → Fin n → ℝ) (V' : Θ → ℕ → Matrix (Fin n) (Fin n) ℝ) (s' : Θ → IEKSState),
      (∀ θ, smoothLoop env (K θ) (ofMoment (.v (x θ)) (.m (C θ))) (j * (K θ).dt)
        (((List.range j).map fun i => ofMoment (.v (M θ i)) (.m (V θ i))).reverse) (s θ) =
        (.ok (((List.range j).map fun i => ofMoment (.v (M' θ i)) (.m (V' θ i))).reverse), s' θ)) ∧ ContinuousStates M' V' j ∧ ContinuousObject K n k s'
  | 0, _, x, C, s, _, _, _, _, ho => ⟨fun _ _ => 0, fun _ _ => 0, s, fun _ => rfl, fun i hi => absurd hi (by omega), ho⟩
  | j + 1, hj, x, C, s, hC, x1, x2, hl, ho => by
    obtain ⟨h3, h1, h2⟩ := hq j (by omega)
    let s1 : Θ → IEKSState := fun θ => { s θ with transition := fs (j + 1) θ }
    obtain ⟨m', P', hc, hpd, c1, c2⟩ := continuous_smooth (K := fun θ => (K θ).current (s1 θ)) (t := fun θ => some (((j + 1 : ℕ) : ℝ) * (K θ).dt))
      (u := fun _ => none) (Q := Q) (env := env) (n := n)
      (by simpa only [current, hT] using (hfs (j + 1) (j + 1)).varies hjac) (fun θ => by simpa only [current, hT] using (hfs (j + 1) (j + 1)).linearises hjac θ)
      hQ tQ h3 hC h1 h2 x1 x2
    obtain ⟨M', V', s', e', t', ho'⟩ := sloop hjac hT hQ tQ hfs hq j (by omega) _ _ s1 hpd c1 c2 hl fun i => ⟨hfs (j + 1) i, (ho i).2⟩
    refine ⟨fun θ i => if i = j then m' θ else M' θ i, fun θ i => if i = j then P' θ else V' θ i, s', fun θ => ?_, fun i hi => ?_, ho'⟩
    · have b1 := hc θ
      have e2 : ((j + 1 : ℕ) : ℝ) * (K θ).dt - (K θ).dt = j * (K θ).dt := by push_cast; ring
      rw [List.range_succ, List.map_append, List.map_append, List.reverse_append, List.reverse_append]
      simp only [List.map_cons, List.map_nil, List.reverse_cons, List.reverse_nil, List.nil_append, List.singleton_append, if_true]
      simp only [smoothLoop, PyM.get_bind, PyM.modify_bind, getItem, List.length_reverse, List.length_map, List.length_range, hl θ (j + 1) hj,
        PyM.lift_ok_bind]
      simp only [s1] at b1
      rw [b1, PyM.lift_ok_bind, copyV_moment, PyM.lift_ok_bind, e2, PyM.bind_ok (e' θ)]
      have e3 : ((List.range j).map fun i => ofMoment (.v (if i = j then m' θ else M' θ i)) (.m (if i = j then P' θ else V' θ i))) =
          (List.range j).map fun i => ofMoment (.v (M' θ i)) (.m (V' θ i)) := by
        refine List.map_congr_left fun i hi => ?_
        have : i ≠ j := by have := List.mem_range.1 hi; omega
        rw [if_neg this, if_neg this]
      rw [e3]; rfl
    · rcases eq_or_ne i j with rfl | hij
      · simp only [if_true]
        exact ⟨hpd, c1, c2⟩
      · simp only [if_neg hij]
        exact t' i (by omega)

private theorem lineariseAll_some {f : SysFunc} : ∀ {rs : List Gaussian}, (∀ g ∈ rs, ∃ m, g.meanA env = .ok m) →
    ∃ fl, lineariseAll env jac f rs = .ok fl
  | [], _ => ⟨[], rfl⟩
  | g :: rs, h => by
    obtain ⟨m, hm⟩ := h g (by simp)
    obtain ⟨fl, hf⟩ := lineariseAll_some (f := f) fun g hg => h g (List.mem_cons_of_mem _ hg)
    unfold lineariseAll at hf
    exact ⟨linearise jac f m :: fl, by unfold lineariseAll; rw [List.mapM_cons, hm, ok_bind, py_pure, ok_bind, hf]; rfl⟩

/-- The list reports these moments. -/
def Reports (env : Env) (rs : List Gaussian) (W : ℕ) (M : ℕ → Fin n → ℝ) (V : ℕ → Matrix (Fin n) (Fin n) ℝ) : Prop :=
  rs.length = W ∧ ∀ i < W, ∃ g, rs[i]? = some g ∧ HasMoments env g (M i) (V i) ∧ (V i).PosDef

private theorem relin {K : IEKS} {rs : List Gaussian} {W : ℕ} {M : ℕ → Fin n → ℝ} {V : ℕ → Matrix (Fin n) (Fin n) ℝ} (h : Reports env rs W M V)
    (s : IEKSState) : ∃ s', relinearise env jac K rs s = (.ok (), s') ∧ (s'.transition = s.transition ∧ s'.measurement = s.measurement) ∧
      ∀ j < 0 + W, s'.fList[j]? = some (linearise jac K.transition (.v (M j))) ∧ s'.hList[j]? = some (linearise jac K.measurement (.v (M j))) := by
  have hm : ∀ g ∈ rs, ∃ m, g.meanA env = .ok m := fun g hg => by
    obtain ⟨i, hi, rfl⟩ := List.getElem_of_mem hg
    obtain ⟨g', e, hg', -⟩ := h.2 i (h.1 ▸ hi)
    rw [List.getElem?_eq_getElem hi, Option.some.injEq] at e
    exact ⟨_, e ▸ hg'.meanA⟩
  obtain ⟨fl, a⟩ := lineariseAll_some (jac := jac) (f := K.transition) hm
  obtain ⟨hl, b⟩ := lineariseAll_some (jac := jac) (f := K.measurement) hm
  refine ⟨{ s with fList := fl, hList := hl }, by simp only [relinearise, a, b, PyM.lift_ok_bind, PyM.modify_bind, PyM.modify_run], ⟨rfl, rfl⟩,
    fun j hj => ?_⟩
  obtain ⟨g, e, hg, -⟩ := h.2 j (by omega)
  obtain ⟨m, c1, c2⟩ := (lineariseAll_get a).2 j g e
  obtain ⟨m', d1, d2⟩ := (lineariseAll_get b).2 j g e
  obtain rfl : m = .v (M j) := by simpa using c1.symm.trans hg.meanA
  obtain rfl : m' = .v (M j) := by simpa using d1.symm.trans hg.meanA
  exact ⟨c2, d2⟩

end IEKS

/-- One call of an object in any state whose stored functions are continuously differentiable. -/
theorem ieks_call (hjac : CorrectJac jac) {sys : Θ → Sys}
    (hf : ∀ j : ℕ, ContinuouslyTame (fun θ => (sys θ).transition) (fun θ => j * (sys θ).dt) n n)
    (hh : ∀ j : ℕ, ContinuouslyTame (fun θ => (sys θ).measurement) (fun θ => j * (sys θ).dt) n k)
    {Q : Θ → Matrix (Fin n) (Fin n) ℝ} {R : Θ → Matrix (Fin k) (Fin k) ℝ} (hQ : ∀ θ, (sys θ).Q = .m (Q θ) ∧ (Q θ).PosDef)
    (hR : ∀ θ, (sys θ).R = .m (R θ) ∧ (R θ).PosDef) (tQ : Continuous Q) (tR : Continuous R)
    {m : Θ → Fin n → ℝ} {P : Θ → Matrix (Fin n) (Fin n) ℝ} (hp : ∀ θ, HasMoments env (sys θ).initState (m θ) (P θ) ∧ (P θ).PosDef)
    (tm : Continuous m) (tP : Continuous P) (numIter : ℕ) {W : ℕ} (hW : 0 < W) {ys : Θ → List Arr}
    {yv : Θ → ℕ → Fin k → ℝ} (hlen : ∀ θ, (ys θ).length = W) (hy : ∀ θ i a, (ys θ)[i]? = some a → IsVec a.squeeze (yv θ i))
    (ty : ∀ i < W, Continuous fun θ => yv θ i) (s₀ : Θ → IEKSState)
    (ho : IEKS.ContinuousObject (fun θ => (IEKS.init env jac (sys θ)).1) n k s₀) :
    ∃ (M : Θ → ℕ → Fin n → ℝ) (V : Θ → ℕ → Matrix (Fin n) (Fin n) ℝ) (rs : Θ → List Gaussian) (s' : Θ → IEKSState),
      (∀ θ, IEKS.call env jac (IEKS.init env jac (sys θ)).1 (ys θ) numIter (s₀ θ) = (.ok (rs θ), s' θ) ∧
        IEKS.Reports env (rs θ) W (M θ) (V θ)) ∧
      (∀ i < W, Continuous (fun θ => M θ i) ∧ Continuous fun θ => V θ i) ∧
      IEKS.ContinuousObject (fun θ => (IEKS.init env jac (sys θ)).1) n k s' := by
  set K : Θ → IEKS := fun θ => (IEKS.init env jac (sys θ)).1 with hKd
  have sw : ∀ (c : ℕ) (rs : Θ → List Gaussian) (s : Θ → IEKSState) (M : Θ → ℕ → Fin n → ℝ) (V : Θ → ℕ → Matrix (Fin n) (Fin n) ℝ),
      (∀ θ, IEKS.Reports env (rs θ) W (M θ) (V θ)) → (∀ i < W, Continuous (fun θ => M θ i) ∧ Continuous fun θ => V θ i) →
      IEKS.ContinuousObject K n k s →
      ∃ (M' : Θ → ℕ → Fin n → ℝ) (V' : Θ → ℕ → Matrix (Fin n) (Fin n) ℝ) (r : Θ → List Gaussian) (s' : Θ → IEKSState),
        (∀ θ, (IEKS.relinearise env jac (K θ) (rs θ) >>= fun _ => IEKS.sweeps env jac (K θ) (ys θ) c (rs θ)) (s θ) = (.ok (r θ), s' θ) ∧
          IEKS.Reports env (r θ) W (M' θ) (V' θ)) ∧ (∀ i < W, Continuous (fun θ => M' θ i) ∧ Continuous fun θ => V' θ i) ∧
        IEKS.ContinuousObject K n k s' := by
    intro c
    induction c with
    | zero =>
      intro rs s M V h1 h2 ho
      choose s1 e1 b1 l1 using fun θ => IEKS.relin (jac := jac) (K := K θ) (h1 θ) (s θ)
      have ho1 : IEKS.ContinuousObject K n k s1 := fun j => by simpa only [fun θ => (b1 θ).1, fun θ => (b1 θ).2] using ho j
      exact ⟨M, V, rs, s1, fun θ => ⟨by rw [PyM.bind_ok (e1 θ)]; rfl, h1 θ⟩, h2, ho1⟩
    | succ c ih =>
      intro rs s M V h1 h2 ho
      choose s1 e1 b1 l1 using fun θ => IEKS.relin (jac := jac) (K := K θ) (h1 θ) (s θ)
      have ho1 : IEKS.ContinuousObject K n k s1 := fun j => by simpa only [fun θ => (b1 θ).1, fun θ => (b1 θ).2] using ho j
      -- beyond the last index the lists are not read; any continuous point does
      let p : ℕ → Θ → Fin n → ℝ := fun j θ => if j < W then M θ j else 0
      have tp : ∀ j, Continuous (p j) := fun j => by
        by_cases hj : j < W
        · simpa only [p, if_pos hj] using (h2 j hj).1
        · simpa only [p, if_neg hj] using continuous_const
      let fs : ℕ → Θ → SysFunc := fun j θ => IEKS.linearise jac (sys θ).transition (.v (p j θ))
      let hs : ℕ → Θ → SysFunc := fun j θ => IEKS.linearise jac (sys θ).measurement (.v (p j θ))
      have hfs : ∀ i (j : ℕ), ContinuouslyTame (fs i) (fun θ => j * (K θ).dt) n n := fun i j => (hf j).linearise hjac (tp i)
      have hhs : ∀ i (j : ℕ), ContinuouslyTame (hs i) (fun θ => j * (K θ).dt) n k := fun i j => (hh j).linearise hjac (tp i)
      have l2 : ∀ θ, ∀ j < 0 + W, (s1 θ).fList[j]? = some (fs j θ) ∧ (s1 θ).hList[j]? = some (hs j θ) := fun θ j hj => by
        have : j < W := by omega
        simp only [fs, hs, p, if_pos this]
        exact l1 θ j hj
      obtain ⟨Mf, Vf, s2, e2, t2, ho2⟩ := IEKS.floop (env := env) hjac (K := K) (fun _ => rfl) (fun _ => rfl) hQ hR tQ tR hfs hhs W 0 ys yv
        (fun θ => (K θ).initState) m P s1 hlen hy ty (fun θ => (hp θ).1) (fun θ => (hp θ).2) tm tP l2 ho1
      obtain ⟨w, rfl⟩ : ∃ w, W = w + 1 := ⟨W - 1, by omega⟩
      obtain ⟨t3, t1, t4⟩ := t2 w (by omega)
      obtain ⟨Ms, Vs, s3, e3, t5, ho3⟩ := IEKS.sloop (env := env) hjac (K := K) (fun _ => rfl) hQ tQ hfs t2 w (by omega) _ _ s2 t3 t1 t4
        (fun θ i hi => by rw [(e2 θ).2]; exact (l2 θ i (by omega)).1) ho2
      let rs' : Θ → List Gaussian := fun θ =>
        ((List.range w).map fun i => ofMoment (.v (Ms θ i)) (.m (Vs θ i))) ++ [ofMoment (.v (Mf θ w)) (.m (Vf θ w))]
      have e4 : ∀ θ, IEKS.smoother env (K θ) ((List.range (w + 1)).map fun j => ofMoment (.v (Mf θ j)) (.m (Vf θ j))) (s2 θ) =
          (.ok (rs' θ), s3 θ) := fun θ => by
        rw [IEKS.smoother, List.length_map, List.length_range, List.range_succ, List.map_append, List.reverse_append]
        simp only [List.map_cons, List.map_nil, List.reverse_cons, List.reverse_nil, List.nil_append, List.singleton_append]
        have e : ((w + 1 : ℕ) : ℝ) - 1 = w := by push_cast; ring
        rw [copyV_moment, PyM.lift_ok_bind, e, PyM.bind_ok (e3 θ)]
        simp only [List.reverse_reverse]
        rfl
      obtain ⟨M', V', r, s', h3, h4, ho4⟩ := ih rs' s3 (fun θ i => if i = w then Mf θ w else Ms θ i) (fun θ i => if i = w then Vf θ w else Vs θ i)
        (fun θ => ⟨by simp [rs'], fun i hi => by
          rcases eq_or_ne i w with rfl | hiw
          · exact ⟨ofMoment (.v (Mf θ i)) (.m (Vf θ i)), by simp [rs'], by simpa using hasMoments_ofMoment .., by simpa using t3 θ⟩
          · have : i < w := by omega
            exact ⟨ofMoment (.v (Ms θ i)) (.m (Vs θ i)), by simp [rs', List.getElem?_append, this], by simpa [hiw] using hasMoments_ofMoment ..,
              by simpa [hiw] using (t5 i this).1 θ⟩⟩)
        (fun i hi => by
          rcases eq_or_ne i w with rfl | hiw
          · simp only [if_true]
            exact ⟨t1, t4⟩
          · simp only [if_neg hiw]
            exact (t5 i (by omega)).2) ho3
      refine ⟨M', V', r, s', fun θ => ⟨?_, (h3 θ).2⟩, h4, ho4⟩
      have e6 := (e2 θ).1
      rw [Nat.cast_zero, zero_mul] at e6
      rw [PyM.bind_ok (e1 θ), IEKS.sweeps, PyM.bind_ok e6, PyM.bind_ok (e4 θ)]
      exact (h3 θ).1
  have hK : ContinuousProblem env (fun θ => (K θ).current (s₀ θ)) (fun _ => none) (fun _ => 0)
      (fun θ => (none : Option Gaussian).getD (K θ).initState) n k :=
    { transition := fun i => by simp only [zero_add]; exact (ho i).1.varies hjac
      linTransition := fun θ i => by simp only [zero_add]; exact (ho i).1.linearises hjac θ
      measurement := fun i => by simp only [zero_add]; exact (ho i).2.varies hjac
      linMeasurement := fun θ i => by simp only [zero_add]; exact (ho i).2.linearises hjac θ
      noise := ⟨Q, R, hQ, hR, tQ, tR⟩
      prior := ⟨m, P, hp, tm, tP⟩ }
  obtain ⟨M, V, e, t⟩ := C121_smoother (prior := fun _ => none) hK hW hlen hy ty
  choose fs rs e1 e2 e3 using e
  obtain ⟨M', V', r, s', h1, h2, h3⟩ := sw (numIter - 1) rs s₀ M V e3 t ho
  refine ⟨M', V', r, s', fun θ => ⟨?_, (h1 θ).2⟩, h2, h3⟩
  rw [← (h1 θ).1]
  simp only [IEKS.call, PyM.get_bind]
  have e5 := e1 θ
  have e6 := e2 θ
  simp only [hKd] at e5 e6
  rw [e5, PyM.lift_ok_bind, e6, PyM.lift_ok_bind]

/-- A call whose measurements depend on a parameter. -/
structure IEKS.Request (Θ : Type*) where
  ys : Θ → List Arr
  numIter : ℕ

/-- **C121** (iterated smoother). Let systems with continuously differentiable functions, noise covariances, priors and measurements depend
continuously on a parameter.  Then for every value of the parameter any sequence of calls of one iterated smoother object succeeds, and for
all numbers of iterations all means and covariances reported by each call depend continuously on the parameter. -/
theorem C121_ieks (hjac : CorrectJac jac) {sys : Θ → Sys}
    (hf : ∀ j : ℕ, ContinuouslyTame (fun θ => (sys θ).transition) (fun θ => j * (sys θ).dt) n n)
    (hh : ∀ j : ℕ, ContinuouslyTame (fun θ => (sys θ).measurement) (fun θ => j * (sys θ).dt) n k)
    {Q : Θ → Matrix (Fin n) (Fin n) ℝ} {R : Θ → Matrix (Fin k) (Fin k) ℝ} (hQ : ∀ θ, (sys θ).Q = .m (Q θ) ∧ (Q θ).PosDef)
    (hR : ∀ θ, (sys θ).R = .m (R θ) ∧ (R θ).PosDef) (tQ : Continuous Q) (tR : Continuous R)
    {m : Θ → Fin n → ℝ} {P : Θ → Matrix (Fin n) (Fin n) ℝ} (hp : ∀ θ, HasMoments env (sys θ).initState (m θ) (P θ) ∧ (P θ).PosDef)
    (tm : Continuous m) (tP : Continuous P) (calls : List (IEKS.Request Θ))
    (hc : ∀ q ∈ calls, ∃ (W : ℕ) (yv : Θ → ℕ → Fin k → ℝ), 0 < W ∧ ∀ θ, (q.ys θ).length = W ∧
      (∀ i a, (q.ys θ)[i]? = some a → IsVec a.squeeze (yv θ i)) ∧ ∀ i < W, Continuous fun θ => yv θ i) :
    ∃ (M : ℕ → Θ → ℕ → Fin n → ℝ) (V : ℕ → Θ → ℕ → Matrix (Fin n) (Fin n) ℝ),
      (∀ θ, ∃ rss, (IEKS.callAll env jac (IEKS.init env jac (sys θ)).1 (calls.map fun q => (q.ys θ, q.numIter))
          (IEKS.init env jac (sys θ)).2).1 = .ok rss ∧ rss.length = calls.length ∧
        ∀ c q, calls[c]? = some q → ∃ rs, rss[c]? = some rs ∧ rs.length = (q.ys θ).length ∧
          ∀ i < rs.length, ∃ g, rs[i]? = some g ∧ HasMoments env g (M c θ i) (V c θ i) ∧ (V c θ i).PosDef) ∧
      ∀ c q, calls[c]? = some q → ∀ i, (∀ θ, i < (q.ys θ).length) → Continuous (fun θ => M c θ i) ∧ Continuous fun θ => V c θ i := by
  have key : ∀ s : Θ → IEKSState, IEKS.ContinuousObject (fun θ => (IEKS.init env jac (sys θ)).1) n k s →
      ∃ (M : ℕ → Θ → ℕ → Fin n → ℝ) (V : ℕ → Θ → ℕ → Matrix (Fin n) (Fin n) ℝ),
      (∀ θ, ∃ rss s', IEKS.callAll env jac (IEKS.init env jac (sys θ)).1 (calls.map fun q => (q.ys θ, q.numIter)) (s θ) = (.ok rss, s') ∧
        rss.length = calls.length ∧
        ∀ c q, calls[c]? = some q → ∃ rs, rss[c]? = some rs ∧ rs.length = (q.ys θ).length ∧
          ∀ i < rs.length, ∃ g, rs[i]? = some g ∧ HasMoments env g (M c θ i) (V c θ i) ∧ (V c θ i).PosDef) ∧
      ∀ c q, calls[c]? = some q → ∀ i, (∀ θ, i < (q.ys θ).length) → Continuous (fun θ => M c θ i) ∧ Continuous fun θ => V c θ i := by
    induction calls with
    | nil => exact fun s _ => ⟨fun _ _ _ => 0, fun _ _ _ => 0, fun θ => ⟨[], s θ, rfl, rfl, fun c q h => by simp at h⟩, fun c q h => by simp at h⟩
    | cons q qs ih =>
      intro s ho
      obtain ⟨W, yv, hW, hq⟩ := hc q (by simp)
      rcases isEmpty_or_nonempty Θ with hΘ | ⟨⟨θ₀⟩⟩
      · exact ⟨fun _ _ _ => 0, fun _ _ _ => 0, fun θ => hΘ.elim θ, fun _ _ _ _ _ => ⟨continuous_const, continuous_const⟩⟩
      obtain ⟨M, V, rs, s', e, t, ho'⟩ := ieks_call hjac hf hh hQ hR tQ tR hp tm tP q.numIter hW (fun θ => (hq θ).1) (fun θ => (hq θ).2.1)
        (hq θ₀).2.2 s ho
      obtain ⟨M', V', e', t'⟩ := ih (fun q' h => hc q' (by simp [h])) s' ho'
      refine ⟨fun c => c.casesOn M M', fun c => c.casesOn V V', fun θ => ?_, fun c q' hq' i hi => ?_⟩
      · obtain ⟨rss, s'', a1, a2, a3⟩ := e' θ
        refine ⟨rs θ :: rss, s'', ?_, by simp [a2], fun c q' hq' => ?_⟩
        · rw [List.map_cons, IEKS.callAll, PyM.bind_ok (e θ).1, PyM.bind_ok a1]; rfl
        · cases c with
          | zero =>
            obtain rfl : q = q' := by simpa using hq'
            exact ⟨rs θ, rfl, (e θ).2.1.trans (hq θ).1.symm, fun i hi => (e θ).2.2 i ((e θ).2.1 ▸ hi)⟩
          | succ c => exact a3 c q' (by simpa using hq')
      · cases c with
        | zero =>
          obtain rfl : q = q' := by simpa using hq'
          exact t i ((hq θ₀).1 ▸ hi θ₀)
        | succ c => exact t' c q' (by simpa using hq') i hi
  obtain ⟨M, V, e, t⟩ := key (fun θ => (IEKS.init env jac (sys θ)).2) fun j => ⟨hf j, hh j⟩
  refine ⟨M, V, fun θ => ?_, t⟩
  obtain ⟨rss, s', h1, h2⟩ := e θ
  exact ⟨rss, by rw [h1], h2⟩

/-- A linear transition with squared measurements of both components; the prior mean is a parameter. -/
noncomputable def squaresSys (x : Fin 2 → ℝ) : Sys where
  transition := affineSys !![1, 2; 0, 1] ![5, 6]
  measurement := L96.h
  Q := .m (1 : Matrix (Fin 2) (Fin 2) ℝ)
  R := .m (1 : Matrix (Fin 2) (Fin 2) ℝ)
  initState := ofMoment (.v x) (.m (1 : Matrix (Fin 2) (Fin 2) ℝ))
  dt := 1

/-- Two calls of one object, the first with ten iterations on two vectors of measurements, the second with three on the second vector: the
first reported mean of the second call is a continuous function of the prior mean (also the first vector of measurements) and the second
vector of measurements. -/
example : ∃ M : (Fin 2 → ℝ) × (Fin 2 → ℝ) → Fin 2 → ℝ, Continuous M ∧ ∀ y, ∃ rss rs g,
    (IEKS.callAll calmEnv exactJac (IEKS.init calmEnv exactJac (squaresSys y.1)).1 [([.v y.1, .v y.2], 10), ([.v y.2], 3)]
      (IEKS.init calmEnv exactJac (squaresSys y.1)).2).1 = .ok rss ∧ rss[1]? = some rs ∧ rs[0]? = some g ∧ g.meanA calmEnv = .ok (.v (M y)) := by
  have hA : ∀ x : Fin 2 → ℝ, HasFDerivAt (fun x : Fin 2 → ℝ => !![1, 2; 0, 1] *ᵥ x + ![5, 6])
      (LinearMap.toContinuousLinearMap (toLin' !![1, 2; 0, 1]) : (Fin 2 → ℝ) →L[ℝ] (Fin 2 → ℝ)) x := fun x =>
    ((LinearMap.toContinuousLinearMap (toLin' !![1, 2; 0, 1]) : (Fin 2 → ℝ) →L[ℝ] (Fin 2 → ℝ)).hasFDerivAt).add_const _
  obtain ⟨M, V, h, t⟩ := C121_ieks (Θ := (Fin 2 → ℝ) × (Fin 2 → ℝ)) (n := 2) (k := 2) (env := calmEnv) exactJac_correct
    (sys := fun y => squaresSys y.1)
    (fun j => ⟨_, _, .inl fun _ => affineFunc_vec _ _, fun _ x => hA x, by fun_prop, by fun_prop⟩)
    (fun j => ⟨fun _ x i => x i ^ 2, fun _ x => ContinuousLinearMap.pi fun i => (2 * x i) • ContinuousLinearMap.proj i,
      .inr ⟨by norm_num, by norm_num, fun _ => L96.h_row (some (j * 1)) none⟩, fun _ x => hasFDerivAt_pi.2 fun i => by
          simpa using (ContinuousLinearMap.proj (R := ℝ) (φ := fun _ : Fin 2 => ℝ) i).hasFDerivAt (x := x) |>.pow 2, by fun_prop,
        continuous_clm_apply.2 fun v => continuous_pi fun i => by
          simp only [ContinuousLinearMap.pi_apply, _root_.smul_apply, ContinuousLinearMap.proj_apply, smul_eq_mul]
          fun_prop⟩)
    (Q := fun _ => 1) (R := fun _ => 1) (fun _ => ⟨rfl, PosDef.one⟩) (fun _ => ⟨rfl, PosDef.one⟩) continuous_const continuous_const
    (m := fun y => y.1) (P := fun _ => 1) (fun _ => ⟨hasMoments_ofMoment .., PosDef.one⟩) continuous_fst continuous_const
    [⟨fun y => [.v y.1, .v y.2], 10⟩, ⟨fun y => [.v y.2], 3⟩] (by
      intro q hq
      simp only [List.mem_cons, List.not_mem_nil, or_false] at hq
      rcases hq with rfl | rfl
      · refine ⟨2, fun y i => if i = 0 then y.1 else y.2, by norm_num, fun y => ⟨rfl, fun i a ha => ?_, fun i _ => ?_⟩⟩
        · rcases i with _ | _ | i
          · obtain rfl : Arr.v y.1 = a := by simpa using ha
            exact IsPoint.isVec (.inl rfl)
          · obtain rfl : Arr.v y.2 = a := by simpa using ha
            exact IsPoint.isVec (.inl rfl)
          · simp at ha
        · rcases i with _ | i
          · simpa using continuous_fst
          · simpa using continuous_snd
      · refine ⟨1, fun y _ => y.2, by norm_num, fun y => ⟨rfl, fun i a ha => ?_, fun i _ => continuous_snd⟩⟩
        rcases i with _ | i
        · obtain rfl : Arr.v y.2 = a := by simpa using ha
          exact IsPoint.isVec (.inl rfl)
        · simp at ha)
  refine ⟨fun y => M 1 y 0, (t 1 _ rfl 0 fun _ => by simp).1, fun y => ?_⟩
  obtain ⟨rss, h1, -, h2⟩ := h y
  obtain ⟨rs, h3, h4, h5⟩ := h2 1 _ rfl
  obtain ⟨g, h6, h7, -⟩ := h5 0 (by rw [h4]; simp)
  exact ⟨rss, rs, g, h1, h3, h6, h7.meanA⟩

end Verif

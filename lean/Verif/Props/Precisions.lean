import Verif.Lemmas.ScalarTidy
import Verif.Props.FirstPass

/-!
# The precisions of the factors in expectation propagation on scalar states (C110)
-/

namespace Verif

open Matrix Gaussian Node Site

variable {env : Env} {e : Estimator} {sys : Sys} {ys : List Arr} {N s : ℕ} {c : Chain}

/-- The precisions read from marginal and factors of a node: those of the factors are not negative, and that of the marginal is their sum
divided by the power, above `10⁻¹⁰`. -/
def SoundPrecisions (env : Env) (nd : Node) (power : ℝ) : Prop :=
  ∃ m f y b : ℝ, nd.marginal.precisionA env = .ok (.m (m1 m)) ∧ nd.fwdFactor.precisionA env = .ok (.m (m1 f)) ∧
    nd.measFactor.precisionA env = .ok (.m (m1 y)) ∧ nd.backFactor.precisionA env = .ok (.m (m1 b)) ∧
    0 ≤ f ∧ 0 ≤ y ∧ 0 ≤ b ∧ m = 1 / 10 ^ 10 + (f + y + b) / power

theorem IsNode.sound {nd : Node} {v : Vals} (h : IsNode env nd v) (t : c.Tidy v) : SoundPrecisions env nd c.α :=
  ⟨_, _, _, _, h.M.nat.prec, h.F.nat.prec, h.Y.nat.prec, h.B.nat.prec, t.F, t.Y, t.B, t.p⟩

/-- **C110.** With a power below one and a damping in `(0, 1]`, no update in whatever order makes the precision of a factor negative. -/
theorem C110_any_order (hm : Models env e sys ys N c) (hr : c.Regular) (hα : c.α < 1) (h0 : 0 < c.γ) (h1 : c.γ ≤ 1) (h : Heap)
    (calls : List (Upd × ℕ)) (hk : ∀ k ∈ calls, k.2 < N) :
    ∃ h1 h2, graph env N 1 e sys ys h = (.ok (List.range' h.size N), h1) ∧
      Executes env (calls.map fun k => (k.1, h.size + k.2)) h1 (.ok ()) h2 ∧
      ∀ i, i < N → SoundPrecisions env (h2.get (h.size + i)) e.power := by
  obtain ⟨g1, g2, e1, e2, e3⟩ := C66_no_update_fails hm hr h calls hk
  refine ⟨g1, g2, e1, e2, fun i hi => ?_⟩
  rw [hm.power]
  exact (e3 i hi).sound (Chain.steps_tidy hr hα h0 h1 N calls _ (fun _ => Chain.tidy_start c) i)

/-- **C110.** With power and damping one, no pass makes the precision of a factor negative. -/
theorem C110_passes (hm : Models env e sys ys N c) (hr : c.Regular) (hα : c.α = 1) (hγ : c.γ = 1) (h : Heap) (n : ℕ) :
    ∃ h1 h2, graph env N 1 e sys ys h = (.ok (List.range' h.size N), h1) ∧
      PyM.forEach (List.range n) (fun _ => epFwdBack env (List.range' h.size N)) h1 = (.ok (), h2) ∧
      ∀ i, i < N → SoundPrecisions env (h2.get (h.size + i)) e.power := by
  obtain ⟨g1, g2, e1, e2, e3⟩ := C66_passes_succeed hm hr h n
  refine ⟨g1, g2, e1, e2, fun i hi => ?_⟩
  rw [hm.power]
  obtain ⟨k, rfl⟩ : ∃ k, N = k + 1 := ⟨N - 1, by omega⟩
  refine (e3 i hi).sound ?_
  clear e1 e2 e3 g1 g2
  suffices H : ∀ V : ℕ → Vals, (∀ i, c.Tidy (V i)) →
      ∀ i, c.Tidy (c.steps (k + 1) (List.replicate n (passCalls (k + 1))).flatten V i) from H _ (fun _ => Chain.tidy_start c) i
  induction n with
  | zero => exact fun V hV => hV
  | succ n ih =>
    intro V hV
    rw [List.replicate_succ, List.flatten_cons, Chain.steps_append]
    exact ih _ (Chain.pass_tidy hr hα hγ k hV)

/-- **C110.** The growth model with the unscented transforms of the experiments and any data: sound precisions after any number of passes,
for powers below one and dampings in `(0, 1]`, and for power and damping one. -/
theorem C110_growth_model {P P' : UTParams} {α γ : ℝ} {u u' : UT} {y : ℕ → ℝ} (hcalm : ∀ A : Matrix (Fin 1) (Fin 1) ℝ, env.illPos A = false)
    (hu : UT.init 1 P.a P.b P.k = .ok u) (hu' : UT.init 1 P'.a P'.b P'.k = .ok u') (hP : P.Good) (hP' : P'.Good)
    (hαγ : 0 < α ∧ α < 1 ∧ 0 < γ ∧ γ ≤ 1 ∨ α = 1 ∧ γ = 1)
    (hsys : UNGM.init = .ok sys) (hN : 2 ≤ N) (hlen : ys.length = N) (hy : ∀ i a, ys[i]? = some a → IsVec a.squeeze (v1 (y i)))
    (h : Heap) (n : ℕ) :
    ∃ h1 h2, graph env N 1 ⟨u.transform env, u'.transform env, some sys.Q, some sys.R, α, γ⟩ sys ys h = (.ok (List.range' h.size N), h1) ∧
      PyM.forEach (List.range n) (fun _ => epFwdBack env (List.range' h.size N)) h1 = (.ok (), h2) ∧
      ∀ i, i < N → SoundPrecisions env (h2.get (h.size + i)) α := by
  have hm := ungm_models (α := α) (γ := γ) hcalm hu hu' hP hP' hsys hN hlen hy
  have hreg : 0 < α → (unscentedChain P P' α γ 1 10 0 5 growth (fun x => x ^ 2 / 20) y).Regular := fun hα =>
    unscented_regular hP hP' hα one_pos (by norm_num) (by norm_num) _ _ _
  rcases hαγ with ⟨a0, a1, g0, g1⟩ | ⟨rfl, rfl⟩
  · obtain ⟨h1, h2, e1, e2, e3⟩ := C66_passes_succeed hm (hreg a0) h n
    exact ⟨h1, h2, e1, e2, fun i hi =>
      (e3 i hi).sound (Chain.steps_tidy (hreg a0) a1 g0 g1 N _ _ (fun _ => Chain.tidy_start _) i)⟩
  · exact C110_passes hm (hreg one_pos) rfl rfl h n

/-- Two measurements, power 0.8 and damping 0.9. -/
example (y₀ y₁ : ℝ) (h : Heap) (n : ℕ) : ∃ e sys h1 h2, UNGM.init = .ok sys ∧ e.power = 0.8 ∧ e.damping = 0.9 ∧
    graph calmEnv 2 1 e sys [.s y₀, .s y₁] h = (.ok [h.size, h.size + 1], h1) ∧
    PyM.forEach (List.range n) (fun _ => epFwdBack calmEnv [h.size, h.size + 1]) h1 = (.ok (), h2) ∧
    SoundPrecisions calmEnv (h2.get (h.size + 1)) 0.8 := by
  obtain ⟨u, hu⟩ := init_ok params_trans
  obtain ⟨u', hu'⟩ := init_ok params_meas
  obtain ⟨sys, hs⟩ : ∃ sys, UNGM.init = .ok sys := ⟨_, rfl⟩
  obtain ⟨h1, h2, e1, e2, e3⟩ := C110_growth_model (env := calmEnv) (α := 0.8) (γ := 0.9) (N := 2) (ys := [.s y₀, .s y₁])
    (y := fun i => if i = 0 then y₀ else y₁) (fun _ => rfl) hu hu' params_trans params_meas (.inl (by norm_num)) hs le_rfl rfl (by
      intro i a hi
      match i, hi with
      | 0, hi => simp only [List.getElem?_cons_zero, Option.some.injEq] at hi; rw [← hi]; exact isVec_s y₀
      | 1, hi => simp only [List.getElem?_cons_succ, List.getElem?_cons_zero, Option.some.injEq] at hi; rw [← hi]; exact isVec_s y₁) h n
  exact ⟨_, sys, h1, h2, hs, rfl, rfl, e1, e2, e3 1 (by norm_num)⟩

/-! ## Power one with damping below one -/

namespace Chain

/-- The first pass with power one and damping below one, when the measurements say nothing. -/
theorem damped_negative (hr : c.Regular) (hα : c.α = 1) (h0 : 0 < c.γ) (h1 : c.γ < 1) {b A d : ℝ} (hκ : c.κ.Affine 0 b)
    (hτ : ∀ i, (c.τ i).Affine A d) (hA : A ≠ 0) (hs : 1 / 10 ^ 10 * (A ^ 2 * ((A ^ 2 * c.p0 + c.q) / c.γ) + c.q) < 1 - c.γ) :
    (c.steps 2 (passCalls 2) (fun _ => start) 0).B.p < 0 := by
  set U := c.steps 2 ((List.range 2).flatMap fwdPair) (fun _ => start) with hU
  have hW : c.steps 2 (passCalls 2) (fun _ => start) = c.back 0 U := by
    rw [passCalls]
    change c.steps 2 ((List.range 2).flatMap fwdPair ++ _) _ = _
    rw [steps_append, ← hU]
    rfl
  rw [hW]
  obtain ⟨ut, fe⟩ := forwarded hr hα.le h0 h1.le hκ 1 (V := fun _ => start) (fun _ => tidy_start c) hU
  obtain ⟨-, B0, F0, -, Y0, -⟩ := fe 0 (by norm_num)
  obtain ⟨-, B1, F1, -, Y1, -⟩ := fe 1 (by norm_num)
  have hp0 := hr.p0
  have hq := hr.q
  have hB0 : (U 0).B.p = 0 := by rw [B0]; rfl
  have hB1 : (U 1).B.p = 0 := by rw [B1]; rfl
  have hY0 : (U 0).Y.p = 0 := by rw [Y0, start]; simp
  have hY1 : (U 1).Y.p = 0 := by rw [Y1, start]; simp
  have hF0 : (U 0).F.p = c.γ / (A ^ 2 * c.p0 + c.q) := by
    rw [F0, hα, start]
    simp only [predict, basis, ((hτ 0) c.m0 c.p0 hp0).2.1]
    ring
  have hM0 : (U 0).M.p = eps + c.γ / (A ^ 2 * c.p0 + c.q) := by rw [(ut 0).p, hF0, hY0, hB0, hα]; ring
  set cav := (U 0).M - (U 0).B with hcav
  have hcp : cav.p = (U 0).M.p := by simp only [hcav, sub_def, hB0, sub_zero]
  have hfp : cav.p = (c.filt (U 0)).p := by simp only [hcav, sub_def, filt, (ut 0).p, hα]; ring
  have hpos : 0 < c.γ / (A ^ 2 * c.p0 + c.q) := by positivity
  have hce : eps ≤ cav.p := by rw [hcp, hM0]; linarith
  have hvar : 0 < cav.var := Site.var_pos _
  have hcv : cav.var = 1 / cav.p := (Site.read _ hce).2.1
  set S := A ^ 2 * cav.var + c.q with hS
  have hSp : 0 < S := by positivity
  have hF1 : (U 1).F.p = c.γ / S := by
    rw [F1, hα, start]
    have e : c.basis U 1 = ((c.filt (U 0)).mean, (c.filt (U 0)).var) := rfl
    simp only [predict, e, ← var_congr hfp, ((hτ 1) (c.filt (U 0)).mean cav.var hvar).2.1]
    ring
  have hM1 : (U 1).M.p = eps + c.γ / S := by rw [(ut 1).p, hF1, hY1, hB1, hα]; ring
  have ht : (U 1).M.var = 1 / (eps + c.γ / S) := by
    rw [← hM1]
    refine (Site.read _ ?_).2.1
    rw [hM1]
    have : 0 < c.γ / S := by positivity
    linarith
  have hSle : S ≤ A ^ 2 * ((A ^ 2 * c.p0 + c.q) / c.γ) + c.q := by
    have : cav.var ≤ (A ^ 2 * c.p0 + c.q) / c.γ := by
      rw [hcv, ← one_div_div c.γ (A ^ 2 * c.p0 + c.q)]
      refine one_div_le_one_div_of_le hpos ?_
      rw [hcp, hM0]
      have := eps_pos
      linarith
    have := mul_le_mul_of_nonneg_left this (sq_nonneg A)
    linarith
  have hlt : S < (U 1).M.var := by
    rw [ht, lt_one_div hSp (by have := eps_pos; positivity)]
    have h3 : eps * S < 1 - c.γ := lt_of_le_of_lt (mul_le_mul_of_nonneg_left hSle eps_pos.le) hs
    rw [lt_div_iff₀ hSp, add_mul, div_mul_cancel₀ _ hSp.ne']
    linarith
  have e : (c.back 0 U 0).B.p = c.γ * (1 / (cav.var + (A * cav.var / S) ^ 2 * ((U 1).M.var - S)) - cav.p) := by
    have htg : c.target 0 U ((c.τ (0 + 1)).X cav.mean cav.var) ((c.τ (0 + 1)).S cav.mean cav.var + c.q / c.α) = (U 1).M := if_pos hα
    obtain ⟨-, t2, t3⟩ := hτ (0 + 1) cav.mean cav.var hvar
    simp only [back, Function.update_self]
    rw [← hcav, htg, t2, t3, hα, div_one, ← hS]
    simp only [add_def, sub_def, smul_def, ofMoments, hB0, hcp, zero_add]
  rw [e]
  refine mul_neg_of_pos_of_neg h0 ?_
  have hk : 0 < (A * cav.var / S) ^ 2 * ((U 1).M.var - S) := by
    have : A * cav.var / S ≠ 0 := div_ne_zero (mul_ne_zero hA hvar.ne') hSp.ne'
    have := sub_pos.2 hlt
    positivity
  have := one_div_lt_one_div_of_lt hvar (lt_add_of_pos_right cav.var hk)
  rw [hcv, one_div_one_div] at this
  rw [hcv]
  linarith

end Chain

/-- **C110.** The restriction on the damping is needed for power one: if the measurements of a linear chain of two nodes say nothing, the
first damped pass leaves a backward factor with negative precision. -/
theorem C110_damped_negative (hm : Models env e sys ys 2 c) (hr : c.Regular) (hα : c.α = 1) (h0 : 0 < c.γ) (h1 : c.γ < 1) {b A d : ℝ}
    (hκ : c.κ.Affine 0 b) (hτ : ∀ i, (c.τ i).Affine A d) (hA : A ≠ 0)
    (hs : 1 / 10 ^ 10 * (A ^ 2 * ((A ^ 2 * c.p0 + c.q) / c.γ) + c.q) < 1 - c.γ) (h : Heap) :
    ∃ h1 h2, graph env 2 1 e sys ys h = (.ok (List.range' h.size 2), h1) ∧ epFwdBack env (List.range' h.size 2) h1 = (.ok (), h2) ∧
      ∃ p < 0, (h2.get h.size).backFactor.precisionA env = .ok (.m (m1 p)) := by
  obtain ⟨g1, e1, s1⟩ := Sim.start hm h
  obtain ⟨g2, e2, s2⟩ := s1.pass hm hr
  exact ⟨g1, g2, e1, e2, _, Chain.damped_negative hr hα h0 h1 hκ hτ hA hs, (s2.isNode hm (i := 0) (by norm_num)).B.nat.prec⟩

/-- A random walk observed by a constant, damping one half. -/
example (y₀ y₁ : ℝ) (h : Heap) : ∃ e sys h1 h2, e.power = 1 ∧ e.damping = 1 / 2 ∧
    graph calmEnv 2 1 e sys [.s y₀, .s y₁] h = (.ok (List.range' h.size 2), h1) ∧
    epFwdBack calmEnv (List.range' h.size 2) h1 = (.ok (), h2) ∧
    ∃ p < 0, (h2.get h.size).backFactor.precisionA calmEnv = .ok (.m (m1 p)) := by
  obtain ⟨u, hu⟩ := init_ok params_trans
  obtain ⟨u', hu'⟩ := init_ok params_meas
  have hcol : ∀ a b : ℝ, OnColumns (fun x => .ok (x.map fun z => a * z + b)) (fun x => a * x + b) := fun a b M X => by
    simp only [Arr.map]
    exact congrArg (fun z => Except.ok (Arr.m z)) (funext fun i => funext fun j => by rw [Subsingleton.elim j 0]; rfl)
  have hm := unscented_models (env := calmEnv) (N := 2) (ys := [.s y₀, .s y₁]) (F := fun _ x => 1 * x + 0) (G := fun x => 0 * x + 3) (α := 1) (γ := 1 / 2)
    (q := 1) (r := 1) (m0 := 0) (p0 := 1)
    (sys := { transition := fun x _ _ => .ok (x.map fun z => 1 * z + 0), measurement := fun x _ _ => .ok (x.map fun a => 0 * a + 3), Q := .m (m1 1),
              R := .m (m1 1), initState := sG 0 1, dt := 1 })
    (y := fun i => if i = 0 then y₀ else y₁) (fun _ => rfl) hu hu' params_trans params_meas (fun i => hcol 1 0) (hcol 0 3) rfl rfl
    (mom1_sG _ _) le_rfl rfl (by
      intro i a hi
      match i, hi with
      | 0, hi => simp only [List.getElem?_cons_zero, Option.some.injEq] at hi; rw [← hi]; exact isVec_s y₀
      | 1, hi => simp only [List.getElem?_cons_succ, List.getElem?_cons_zero, Option.some.injEq] at hi; rw [← hi]; exact isVec_s y₁)
  obtain ⟨h1, h2, e1, e2, e3⟩ := C110_damped_negative hm
    (unscented_regular params_trans params_meas one_pos one_pos one_pos one_pos _ _ _) rfl (show (0 : ℝ) < 1 / 2 by norm_num)
    (show (1 / 2 : ℝ) < 1 by norm_num) (unscented_affine params_meas.spread 0 3) (fun _ => unscented_affine params_trans.spread 1 0) one_ne_zero
    (show 1 / 10 ^ 10 * ((1 : ℝ) ^ 2 * ((1 ^ 2 * 1 + 1) / (1 / 2)) + 1) < 1 - 1 / 2 by norm_num) h
  exact ⟨_, _, h1, h2, rfl, rfl, e1, e2, e3⟩

end Verif

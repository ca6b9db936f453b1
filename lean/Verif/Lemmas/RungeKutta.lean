import Mathlib.Analysis.Calculus.MeanValue
import Mathlib.Analysis.Calculus.FDeriv.Bilinear
import Mathlib.Analysis.Calculus.Deriv.Pow
import Mathlib.Analysis.Calculus.Deriv.Comp
import Mathlib.Analysis.Calculus.ContDiff.Operations
import Mathlib.Analysis.Calculus.ContDiff.RCLike
import Mathlib.Analysis.Normed.Operator.BoundedLinearMaps
import Mathlib.Analysis.SpecialFunctions.Exp
import Mathlib.Analysis.Normed.Module.FiniteDimension
import Mathlib.Analysis.ODE.ExistUnique
import Mathlib.Tactic.Module

/-!
# The classical Runge-Kutta step on quadratic differential equations

Local error of fifth, global error of fourth order.
-/

namespace Verif

open Set

/-- A quadratic vector field `x ↦ B(x, x) + A x + b` with symmetric `B`. -/
structure QuadField (E : Type*) [NormedAddCommGroup E] [NormedSpace ℝ E] where
  B : E →L[ℝ] E →L[ℝ] E
  A : E →L[ℝ] E
  b : E
  symm : ∀ x y, B x y = B y x

namespace QuadField

variable {E : Type*} [NormedAddCommGroup E] [NormedSpace ℝ E] (D : QuadField E)

/-- The field. -/
noncomputable def d1 (x : E) : E := D.B x x + D.A x + D.b
/-- Its derivative at `x`, applied to `v`. -/
noncomputable def L (x v : E) : E := (2 : ℝ) • D.B x v + D.A v
/-- The second to fifth derivative of a solution, as functions of the state. -/
noncomputable def d2 (x : E) : E := D.L x (D.d1 x)
@[inherit_doc d2] noncomputable def d3 (x : E) : E := (2 : ℝ) • D.B (D.d1 x) (D.d1 x) + D.L x (D.d2 x)
@[inherit_doc d2] noncomputable def d4 (x : E) : E := (6 : ℝ) • D.B (D.d1 x) (D.d2 x) + D.L x (D.d3 x)
@[inherit_doc d2] noncomputable def d5 (x : E) : E := (6 : ℝ) • D.B (D.d2 x) (D.d2 x) + (8 : ℝ) • D.B (D.d1 x) (D.d3 x) + D.L x (D.d4 x)

/-- The increment of the step, divided by `h`. -/
noncomputable def incr (h : ℝ) (x : E) : E :=
  let k1 := D.d1 x
  let k2 := D.d1 (x + (h / 2) • k1)
  let k3 := D.d1 (x + (h / 2) • k2)
  let k4 := D.d1 (x + h • k3)
  (1 / 6 : ℝ) • (k1 + (2 : ℝ) • k2 + (2 : ℝ) • k3 + k4)

/-- The step. -/
noncomputable def rk4 (h : ℝ) (x : E) : E := x + h • D.incr h x

/-- What remains of the step after the fourth power of `h`. -/
noncomputable def rest (h : ℝ) (x : E) : E :=
  let k1 := D.d1 x
  let a := D.L x k1
  let q := D.B k1 k1
  let c1 := (1 / 2 : ℝ) • a
  let c2 := (1 / 4 : ℝ) • (D.L x a + q)
  let c3 := (1 / 8 : ℝ) • D.L x q + (1 / 4 : ℝ) • D.B k1 a
  let c4 := (1 / 4 : ℝ) • ((1 / 2 : ℝ) • D.B k1 q + (1 / 4 : ℝ) • D.B a a + (h / 4) • D.B a q + (h ^ 2 / 16) • D.B q q)
  let r2 := c2 + h • c3 + h ^ 2 • c4
  let r := c1 + h • r2
  (1 / 6 : ℝ) • ((2 : ℝ) • c4 + D.L x (c3 + h • c4) + (2 : ℝ) • D.B k1 r2 + D.B r r)

theorem d1_add (x v : E) : D.d1 (x + v) = D.d1 x + D.L x v + D.B v v := by
  simp only [d1, L, map_add, add_apply, D.symm v x]
  module

theorem L_add (x u v : E) : D.L x (u + v) = D.L x u + D.L x v := by
  simp only [L, map_add]; module

theorem L_smul (x v : E) (s : ℝ) : D.L x (s • v) = s • D.L x v := by
  simp only [L, map_smul]; module

theorem rk4_expand (h : ℝ) (x : E) :
    D.rk4 h x = x + h • D.d1 x + (h ^ 2 / 2) • D.d2 x + (h ^ 3 / 6) • D.d3 x + (h ^ 4 / 24) • D.d4 x + h ^ 5 • D.rest h x := by
  simp only [rk4, incr, rest, d4, d3, d2]
  generalize hk : D.d1 x = k
  generalize ha : D.L x k = a
  generalize hq : D.B k k = q
  have e2 : D.d1 (x + (h / 2) • k) = k + (h / 2) • a + (h ^ 2 / 4) • q := by
    rw [d1_add, hk, L_smul, ha]
    simp only [map_smul, smul_apply, hq]
    module
  rw [e2]
  have e3 : D.d1 (x + (h / 2) • (k + (h / 2) • a + (h ^ 2 / 4) • q)) = k + (h / 2) • a + (h ^ 2 / 4) • (D.L x a + q) +
      h ^ 3 • ((1 / 8 : ℝ) • D.L x q + (1 / 4 : ℝ) • D.B k a) + h ^ 4 • ((1 / 4 : ℝ) • ((1 / 2 : ℝ) • D.B k q + (1 / 4 : ℝ) • D.B a a +
        (h / 4) • D.B a q + (h ^ 2 / 16) • D.B q q)) := by
    rw [d1_add, hk]
    simp only [L_smul, L_add, ha, map_smul, map_add, smul_apply, add_apply, hq, D.symm a k,
      D.symm q k, D.symm q a]
    module
  rw [e3]
  generalize hc3 : (1 / 8 : ℝ) • D.L x q + (1 / 4 : ℝ) • D.B k a = c3
  generalize hc4 : (1 / 4 : ℝ) • ((1 / 2 : ℝ) • D.B k q + (1 / 4 : ℝ) • D.B a a + (h / 4) • D.B a q + (h ^ 2 / 16) • D.B q q) = c4
  generalize hla : D.L x a = l
  rw [d1_add, hk]
  simp only [L_smul, L_add, ha, hla, map_smul, map_add, smul_apply, add_apply, hq, D.symm a k,
    D.symm q k, D.symm q a, D.symm l k, D.symm l a, D.symm l q, D.symm c3 k, D.symm c3 a, D.symm c3 q, D.symm c3 l, D.symm c4 k,
    D.symm c4 a, D.symm c4 q, D.symm c4 l, D.symm c4 c3]
  rw [← hc3]
  module

section smooth

variable {n : WithTop ℕ∞}

theorem contDiff_d1 {F : Type*} [NormedAddCommGroup F] [NormedSpace ℝ F] {g : F → E} (hg : ContDiff ℝ n g) :
    ContDiff ℝ n fun z => D.d1 (g z) := by
  unfold d1
  exact ((D.B.isBoundedBilinearMap.contDiff.comp (hg.prodMk hg)).add (D.A.contDiff.comp hg)).add contDiff_const

theorem contDiff_B {F : Type*} [NormedAddCommGroup F] [NormedSpace ℝ F] {g k : F → E} (hg : ContDiff ℝ n g) (hk : ContDiff ℝ n k) :
    ContDiff ℝ n fun z => D.B (g z) (k z) := D.B.isBoundedBilinearMap.contDiff.comp (hg.prodMk hk)

theorem contDiff_L {F : Type*} [NormedAddCommGroup F] [NormedSpace ℝ F] {g k : F → E} (hg : ContDiff ℝ n g) (hk : ContDiff ℝ n k) :
    ContDiff ℝ n fun z => D.L (g z) (k z) :=
  ((D.contDiff_B hg hk).const_smul _).add (D.A.contDiff.comp hk)

theorem contDiff_incr : ContDiff ℝ n fun z : ℝ × E => D.incr z.1 z.2 := by
  have h0 : ContDiff ℝ n fun z : ℝ × E => z.2 := contDiff_snd
  have hh : ContDiff ℝ n fun z : ℝ × E => z.1 := contDiff_fst
  have hh2 : ContDiff ℝ n fun z : ℝ × E => z.1 / 2 := hh.div_const _
  have h1 := D.contDiff_d1 h0
  have h2 := D.contDiff_d1 (h0.add (hh2.smul h1))
  have h3 := D.contDiff_d1 (h0.add (hh2.smul h2))
  have h4 := D.contDiff_d1 (h0.add (hh.smul h3))
  exact (((h1.add (h2.const_smul 2)).add (h3.const_smul 2)).add h4).const_smul _

theorem contDiff_rest : ContDiff ℝ n fun z : ℝ × E => D.rest z.1 z.2 := by
  have h0 : ContDiff ℝ n fun z : ℝ × E => z.2 := contDiff_snd
  have hh : ContDiff ℝ n fun z : ℝ × E => z.1 := contDiff_fst
  have h1 := D.contDiff_d1 h0
  have ha := D.contDiff_L h0 h1
  have hq := D.contDiff_B h1 h1
  have c1 := ha.const_smul (1 / 2 : ℝ)
  have c2 := ((D.contDiff_L h0 ha).add hq).const_smul (1 / 4 : ℝ)
  have c3 := ((D.contDiff_L h0 hq).const_smul (1 / 8 : ℝ)).add ((D.contDiff_B h1 ha).const_smul (1 / 4 : ℝ))
  have c4 := (((((D.contDiff_B h1 hq).const_smul (1 / 2 : ℝ)).add ((D.contDiff_B ha ha).const_smul (1 / 4 : ℝ))).add
    ((hh.div_const 4).smul (D.contDiff_B ha hq))).add (((hh.pow 2).div_const 16).smul (D.contDiff_B hq hq))).const_smul (1 / 4 : ℝ)
  have r2 := (c2.add (hh.smul c3)).add ((hh.pow 2).smul c4)
  have r := c1.add (hh.smul r2)
  exact ((((c4.const_smul (2 : ℝ)).add (D.contDiff_L h0 (c3.add (hh.smul c4)))).add ((D.contDiff_B h1 r2).const_smul (2 : ℝ))).add
    (D.contDiff_B r r)).const_smul _

theorem contDiff_d5 : ContDiff ℝ n D.d5 := by
  have h0 : ContDiff ℝ n fun z : E => z := contDiff_id
  have h1 := D.contDiff_d1 h0
  have h2 := D.contDiff_L h0 h1
  have h3 := ((D.contDiff_B h1 h1).const_smul (2 : ℝ)).add (D.contDiff_L h0 h2)
  have h4 := ((D.contDiff_B h1 h2).const_smul (6 : ℝ)).add (D.contDiff_L h0 h3)
  exact (((D.contDiff_B h2 h2).const_smul (6 : ℝ)).add ((D.contDiff_B h1 h3).const_smul (8 : ℝ))).add (D.contDiff_L h0 h4)

end smooth

/-! ## Solutions -/

/-- `x` solves the differential equation on `[0, T]`. -/
def Solves (x : ℝ → E) (T : ℝ) : Prop := ∀ t ∈ Icc 0 T, HasDerivWithinAt x (D.d1 (x t)) (Icc 0 T) t

variable {D} {x : ℝ → E} {T : ℝ}

private theorem der_B {u v : ℝ → E} {u' v' : E} {s : Set ℝ} {t : ℝ} (hu : HasDerivWithinAt u u' s t) (hv : HasDerivWithinAt v v' s t) :
    HasDerivWithinAt (fun z => D.B (u z) (v z)) (D.B (u t) v' + D.B u' (v t)) s t :=
  D.B.hasDerivWithinAt_of_bilinear hu hv

private theorem der_A {u : ℝ → E} {u' : E} {s : Set ℝ} {t : ℝ} (hu : HasDerivWithinAt u u' s t) :
    HasDerivWithinAt (fun z => D.A (u z)) (D.A u') s t := D.A.hasFDerivAt.comp_hasDerivWithinAt t hu

private theorem der_L {u v : ℝ → E} {u' v' : E} {s : Set ℝ} {t : ℝ} (hu : HasDerivWithinAt u u' s t) (hv : HasDerivWithinAt v v' s t) :
    HasDerivWithinAt (fun z => D.L (u z) (v z)) (D.L (u t) v' + (2 : ℝ) • D.B u' (v t)) s t := by
  refine (((der_B hu hv).const_smul (2 : ℝ)).add (der_A hv)).congr_deriv ?_
  simp only [L]; module

theorem Solves.derivs (hx : D.Solves x T) : ∀ t ∈ Icc 0 T,
    HasDerivWithinAt (fun z => D.d1 (x z)) (D.d2 (x t)) (Icc 0 T) t ∧ HasDerivWithinAt (fun z => D.d2 (x z)) (D.d3 (x t)) (Icc 0 T) t ∧
    HasDerivWithinAt (fun z => D.d3 (x z)) (D.d4 (x t)) (Icc 0 T) t ∧ HasDerivWithinAt (fun z => D.d4 (x z)) (D.d5 (x t)) (Icc 0 T) t := by
  intro t ht
  have h0 := hx t ht
  have h1 : HasDerivWithinAt (fun z => D.d1 (x z)) (D.d2 (x t)) (Icc 0 T) t := by
    refine (((der_B h0 h0).add (der_A h0)).add_const D.b).congr_deriv ?_
    simp only [d2, L, D.symm (D.d1 (x t)) (x t)]; module
  have h2 : HasDerivWithinAt (fun z => D.d2 (x z)) (D.d3 (x t)) (Icc 0 T) t := by
    refine (der_L h0 h1).congr_deriv ?_
    simp only [d3]; module
  have h3 : HasDerivWithinAt (fun z => D.d3 (x z)) (D.d4 (x t)) (Icc 0 T) t := by
    refine (((der_B h1 h1).const_smul (2 : ℝ)).add (der_L h0 h2)).congr_deriv ?_
    simp only [d4, D.symm (D.d2 (x t)) (D.d1 (x t))]; module
  refine ⟨h1, h2, h3, ?_⟩
  refine (((der_B h1 h2).const_smul (6 : ℝ)).add (der_L h0 h3)).congr_deriv ?_
  simp only [d5]; module

/-- Raising the order of a bound. -/
private theorem raise {g g' : ℝ → E} {C : ℝ} {k : ℕ} (h0 : g 0 = 0) (hg : ∀ t ∈ Icc 0 T, HasDerivWithinAt g (g' t) (Icc 0 T) t)
    (hb : ∀ t ∈ Icc 0 T, ‖g' t‖ ≤ C * t ^ k) : ∀ t ∈ Icc 0 T, ‖g t‖ ≤ C / (k + 1) * t ^ (k + 1) := by
  intro t ht
  refine image_norm_le_of_norm_deriv_right_le_deriv_boundary (f := g) (f' := g') (a := 0) (b := T)
    (B := fun t => C / (k + 1) * t ^ (k + 1)) (B' := fun t => C * t ^ k) (fun t ht => (hg t ht).continuousWithinAt) ?_ ?_ ?_ ?_ ht
  · intro s hs
    exact (hg s ⟨hs.1, hs.2.le⟩).mono_of_mem_nhdsWithin (Icc_mem_nhdsGE_of_mem hs)
  · simp [h0]
  · intro s
    refine ((hasDerivAt_pow (k + 1) s).const_mul (C / (k + 1))).congr_deriv ?_
    have : (k : ℝ) + 1 ≠ 0 := by positivity
    simp only [Nat.cast_add, Nat.cast_one, Nat.add_sub_cancel]
    field_simp
  · exact fun s hs => hb s ⟨hs.1, hs.2.le⟩

theorem Solves.taylor (hx : D.Solves x T) {M : ℝ} (hM : ∀ t ∈ Icc 0 T, ‖D.d5 (x t)‖ ≤ M) (t : ℝ) (ht : t ∈ Icc 0 T) :
    ‖x t - (x 0 + t • D.d1 (x 0) + (t ^ 2 / 2) • D.d2 (x 0) + (t ^ 3 / 6) • D.d3 (x 0) + (t ^ 4 / 24) • D.d4 (x 0))‖ ≤ M / 120 * t ^ 5 := by
  have hp : ∀ (k : ℕ) (a : ℝ) (v : E) (t : ℝ), HasDerivWithinAt (fun z : ℝ => (z ^ (k + 1) / a) • v) (((k + 1 : ℕ) * t ^ k / a) • v) (Icc 0 T) t :=
    fun k a v t => (((hasDerivAt_pow (k + 1) t).div_const a).smul_const v).hasDerivWithinAt
  have hl : ∀ (v : E) (t : ℝ), HasDerivWithinAt (fun z : ℝ => z • v) v (Icc 0 T) t := fun v t => by
    simpa using ((hasDerivAt_id t).smul_const v).hasDerivWithinAt (s := Icc 0 T)
  have g4 := raise (T := T) (C := M) (k := 0) (g := fun t => D.d4 (x t) - D.d4 (x 0)) (sub_self _)
    (fun t ht => ((hx.derivs t ht).2.2.2.sub_const _)) (by simpa using hM)
  have g3 := raise (T := T) (g := fun t => D.d3 (x t) - (D.d3 (x 0) + t • D.d4 (x 0))) (by simp)
    (fun t ht => ((hx.derivs t ht).2.2.1.sub ((hl _ t).const_add _))) g4
  have g2 := raise (T := T) (g := fun t => D.d2 (x t) - (D.d2 (x 0) + t • D.d3 (x 0) + (t ^ 2 / 2) • D.d4 (x 0))) (by simp)
    (fun t ht => ((hx.derivs t ht).2.1.sub (((hl _ t).const_add _).add (hp 1 2 _ t))).congr_deriv (by push_cast; module)) g3
  have g1 := raise (T := T) (g := fun t => D.d1 (x t) - (D.d1 (x 0) + t • D.d2 (x 0) + (t ^ 2 / 2) • D.d3 (x 0) + (t ^ 3 / 6) • D.d4 (x 0)))
    (by simp) (fun t ht => ((hx.derivs t ht).1.sub ((((hl _ t).const_add _).add (hp 1 2 _ t)).add (hp 2 6 _ t))).congr_deriv
      (by push_cast; module)) g2
  have g0 := raise (T := T) (g := fun t => x t - (x 0 + t • D.d1 (x 0) + (t ^ 2 / 2) • D.d2 (x 0) + (t ^ 3 / 6) • D.d3 (x 0) +
      (t ^ 4 / 24) • D.d4 (x 0))) (by simp) (fun t ht => ((hx t ht).sub (((((hl _ t).const_add _).add (hp 1 2 _ t)).add (hp 2 6 _ t)).add
      (hp 3 24 _ t))).congr_deriv (by push_cast; module)) g1
  refine (g0 t ht).trans (le_of_eq ?_)
  push_cast
  ring

/-- A shifted solution is a solution. -/
theorem Solves.shift (hx : D.Solves x T) {s h : ℝ} (hs : 0 ≤ s) (hh : s + h ≤ T) : D.Solves (fun t => x (s + t)) h := by
  intro t ht
  have hm : MapsTo (fun z => s + z) (Icc 0 h) (Icc 0 T) := fun z hz => ⟨add_nonneg hs hz.1, (add_le_add_right hz.2 s).trans hh⟩
  have hi : HasDerivWithinAt (fun z => s + z) 1 (Icc 0 h) t := ((hasDerivAt_id t).const_add s).hasDerivWithinAt
  have := HasDerivWithinAt.scomp_of_eq t (hx (s + t) (hm ht)) hi hm rfl
  rwa [one_smul] at this

variable (D) in
/-- Fifth order local error, uniformly on balls. -/
theorem local_error [ProperSpace E] (R : ℝ) : ∃ C : ℝ, 0 ≤ C ∧ ∀ (x : ℝ → E) (h : ℝ), 0 ≤ h → h ≤ 1 → D.Solves x h →
    (∀ t ∈ Icc 0 h, ‖x t‖ ≤ R) → ‖D.rk4 h (x 0) - x h‖ ≤ C * h ^ 5 := by
  obtain ⟨C₁, h₁⟩ := ((isCompact_Icc (a := (0 : ℝ)) (b := 1)).prod (isCompact_closedBall (0 : E) R)).exists_bound_of_continuousOn
    (f := fun z : ℝ × E => D.rest z.1 z.2) (D.contDiff_rest (n := 0)).continuous.continuousOn
  obtain ⟨C₂, h₂⟩ := (isCompact_closedBall (0 : E) R).exists_bound_of_continuousOn (f := D.d5) (D.contDiff_d5 (n := 0)).continuous.continuousOn
  refine ⟨|C₁| + |C₂| / 120, by positivity, fun x h h0 h1 hx hR => ?_⟩
  have e1 := hx.taylor (M := C₂) (fun t ht => h₂ _ (by simpa using hR t ht)) h ⟨h0, le_rfl⟩
  have e2 := h₁ (h, x 0) ⟨⟨h0, h1⟩, by simpa using hR 0 ⟨le_rfl, h0⟩⟩
  have h5 : 0 ≤ h ^ 5 := by positivity
  rw [D.rk4_expand]
  set P := x 0 + h • D.d1 (x 0) + (h ^ 2 / 2) • D.d2 (x 0) + (h ^ 3 / 6) • D.d3 (x 0) + (h ^ 4 / 24) • D.d4 (x 0) with hP
  calc ‖P + h ^ 5 • D.rest h (x 0) - x h‖ = ‖h ^ 5 • D.rest h (x 0) - (x h - P)‖ := by congr 1; abel
    _ ≤ ‖h ^ 5 • D.rest h (x 0)‖ + ‖x h - P‖ := norm_sub_le _ _
    _ ≤ h ^ 5 * C₁ + C₂ / 120 * h ^ 5 := by
      refine add_le_add ?_ e1
      rw [norm_smul, Real.norm_of_nonneg h5]
      exact mul_le_mul_of_nonneg_left e2 h5
    _ ≤ (|C₁| + |C₂| / 120) * h ^ 5 := by nlinarith [le_abs_self C₁, le_abs_self C₂]

variable (D) in
/-- On balls, the step expands distances by at most `1 + Λ h`. -/
theorem stable [ProperSpace E] (R : ℝ) : ∃ Λ : ℝ, 0 ≤ Λ ∧ ∀ (u v : E) (h : ℝ), 0 ≤ h → h ≤ 1 → ‖u‖ ≤ R → ‖v‖ ≤ R →
    ‖D.rk4 h u - D.rk4 h v‖ ≤ (1 + Λ * h) * ‖u - v‖ := by
  have hc := D.contDiff_incr (n := 1)
  obtain ⟨C, hC⟩ := ((isCompact_Icc (a := (0 : ℝ)) (b := 1)).prod (isCompact_closedBall (0 : E) R)).exists_bound_of_continuousOn
    (f := fderiv ℝ fun z : ℝ × E => D.incr z.1 z.2) (hc.continuous_fderiv one_ne_zero).continuousOn
  refine ⟨|C|, abs_nonneg _, fun u v h h0 h1 hu hv => ?_⟩
  have key : ‖D.incr h u - D.incr h v‖ ≤ |C| * ‖u - v‖ := by
    have := ((convex_Icc (0 : ℝ) 1).prod (convex_closedBall (0 : E) R)).norm_image_sub_le_of_norm_fderiv_le (𝕜 := ℝ)
      (f := fun z : ℝ × E => D.incr z.1 z.2) (C := |C|) (fun z _ => (hc.differentiable one_ne_zero) z)
      (fun z hz => (hC z hz).trans (le_abs_self _)) (x := (h, v)) (y := (h, u)) ⟨⟨h0, h1⟩, by simpa using hv⟩ ⟨⟨h0, h1⟩, by simpa using hu⟩
    simpa [Prod.norm_def] using this
  calc ‖D.rk4 h u - D.rk4 h v‖ = ‖(u - v) + h • (D.incr h u - D.incr h v)‖ := by
        congr 1; simp only [rk4]; module
    _ ≤ ‖u - v‖ + h * (|C| * ‖u - v‖) := by
      refine (norm_add_le _ _).trans ?_
      rw [norm_smul, Real.norm_of_nonneg h0]
      gcongr
    _ = _ := by ring

variable (D) in
/-- Fourth order global error, uniformly for the solutions in a ball. -/
theorem global_error [ProperSpace E] (R T : ℝ) (hT : 0 ≤ T) : ∃ C h₀ : ℝ, 0 ≤ C ∧ 0 < h₀ ∧ ∀ (x : ℝ → E), D.Solves x T →
    (∀ t ∈ Icc 0 T, ‖x t‖ ≤ R) → ∀ h, 0 < h → h ≤ h₀ → ∀ n : ℕ, n * h ≤ T → ‖(D.rk4 h)^[n] (x 0) - x (n * h)‖ ≤ C * h ^ 4 := by
  obtain ⟨C, hC0, hC⟩ := D.local_error R
  obtain ⟨Λ, hΛ0, hΛ⟩ := D.stable (R + 1)
  set K := C * T * Real.exp (Λ * T) with hK
  have hK0 : 0 ≤ K := by positivity
  refine ⟨K, min 1 (1 / (K + 1)), hK0, by positivity, fun x hx hR h h0 hh => ?_⟩
  have h1 : h ≤ 1 := hh.trans (min_le_left _ _)
  have hKh : K * h ^ 4 ≤ 1 := by
    have a1 : h * (K + 1) ≤ 1 := by
      have := hh.trans (min_le_right _ _)
      rwa [le_div_iff₀ (by positivity)] at this
    have a2 : h ^ 4 ≤ h := by
      have : h ^ 3 ≤ 1 := pow_le_one₀ h0.le h1
      nlinarith
    nlinarith
  have fine : ∀ n : ℕ, n * h ≤ T → n * C * h ^ 5 * (1 + Λ * h) ^ n ≤ K * h ^ 4 := by
    intro n hn
    have b1 : (1 + Λ * h) ^ n ≤ Real.exp (Λ * T) := by
      refine (pow_le_pow_left₀ (b := Real.exp (Λ * h)) (by positivity) (by linarith [Real.add_one_le_exp (Λ * h)]) n).trans ?_
      rw [← Real.exp_nat_mul]
      refine Real.exp_le_exp.2 ?_
      nlinarith
    have b2 : n * C * h ^ 5 ≤ C * T * h ^ 4 := by
      have : C * h ^ 4 * (n * h) ≤ C * h ^ 4 * T := mul_le_mul_of_nonneg_left hn (by positivity)
      linarith
    calc n * C * h ^ 5 * (1 + Λ * h) ^ n ≤ C * T * h ^ 4 * Real.exp (Λ * T) := by gcongr
      _ = K * h ^ 4 := by rw [hK]; ring
  have main : ∀ n : ℕ, n * h ≤ T → ‖(D.rk4 h)^[n] (x 0) - x (n * h)‖ ≤ n * C * h ^ 5 * (1 + Λ * h) ^ n := by
    intro n
    induction n with
    | zero => intro _; simp
    | succ n ih =>
      intro hn
      push_cast at hn ⊢
      have hn' : n * h ≤ T := by linarith
      have e := ih hn'
      have e1 := e.trans ((fine n hn').trans hKh)
      have hnh : (0 : ℝ) ≤ n * h := by positivity
      have hxn := hR (n * h) ⟨hnh, hn'⟩
      have hsh := hx.shift (s := n * h) (h := h) hnh (by linarith)
      have l := hC _ h h0.le h1 hsh fun t ht => hR _ ⟨by linarith [ht.1], by linarith [ht.2]⟩
      simp only [add_zero] at l
      rw [Function.iterate_succ_apply', show ((n : ℝ) + 1) * h = n * h + h by ring]
      set u := (D.rk4 h)^[n] (x 0) with hu
      have hun : ‖u‖ ≤ R + 1 := by
        calc ‖u‖ = ‖x (n * h) + (u - x (n * h))‖ := by congr 1; abel
          _ ≤ R + 1 := (norm_add_le _ _).trans (by linarith)
      have s := hΛ u (x (n * h)) h h0.le h1 hun (by linarith)
      have g1 : (1 : ℝ) ≤ (1 + Λ * h) ^ (n + 1) := one_le_pow₀ (by nlinarith)
      calc ‖D.rk4 h u - x (n * h + h)‖ = ‖(D.rk4 h u - D.rk4 h (x (n * h))) + (D.rk4 h (x (n * h)) - x (n * h + h))‖ := by congr 1; abel
        _ ≤ (1 + Λ * h) * (n * C * h ^ 5 * (1 + Λ * h) ^ n) + C * h ^ 5 * 1 := by
          refine (norm_add_le _ _).trans (add_le_add (s.trans ?_) (by linarith))
          exact mul_le_mul_of_nonneg_left e (by positivity)
        _ ≤ (1 + Λ * h) * (n * C * h ^ 5 * (1 + Λ * h) ^ n) + C * h ^ 5 * (1 + Λ * h) ^ (n + 1) := by gcongr
        _ = _ := by ring
  exact fun n hn => (main n hn).trans (fine n hn)

/-! ## Existence -/

theorem Solves.mono (hx : D.Solves x T) {S : ℝ} (hS : S ≤ T) : D.Solves x S := fun t ht =>
  (hx t ⟨ht.1, ht.2.trans hS⟩).mono (Icc_subset_Icc_right hS)

/-- A solution and one that starts where it ends make a longer one. -/
theorem Solves.glue {y : ℝ → E} {S ε : ℝ} (hS : 0 ≤ S) (hε : 0 ≤ ε) (hx : D.Solves x S) (hy : D.Solves y ε) (h : y 0 = x S) :
    D.Solves (fun t => if t ≤ S then x t else y (t - S)) (S + ε) := by
  intro t ht
  set z : ℝ → E := fun t => if t ≤ S then x t else y (t - S) with hz
  have z1 : ∀ s, s ≤ S → z s = x s := fun s hs => if_pos hs
  have z2 : ∀ s, S ≤ s → z s = y (s - S) := fun s hs => by
    rcases hs.eq_or_lt with rfl | hlt
    · rw [z1 _ le_rfl, sub_self, h]
    · exact if_neg (not_le.2 hlt)
  rw [← Icc_union_Icc_eq_Icc hS (show S ≤ S + ε by linarith)]
  refine HasDerivWithinAt.union ?_ ?_
  · by_cases hts : t ≤ S
    · have := hx t ⟨ht.1, hts⟩
      rw [← z1 t hts] at this
      exact this.congr (fun s hs => z1 s hs.2) (z1 t hts)
    · exact hasDerivWithinAt_iff_hasFDerivWithinAt.2 <| .of_notMem_closure fun hc => by rw [isClosed_Icc.closure_eq] at hc; exact hts hc.2
  · by_cases hts : S ≤ t
    · have hm : MapsTo (fun s => s - S) (Icc S (S + ε)) (Icc 0 ε) := fun s hs => ⟨by linarith [hs.1], by linarith [hs.2]⟩
      have hi : HasDerivWithinAt (fun s => s - S) 1 (Icc S (S + ε)) t := ((hasDerivAt_id t).sub_const S).hasDerivWithinAt
      have := HasDerivWithinAt.scomp_of_eq t (hy (t - S) (hm ⟨hts, ht.2⟩)) hi hm rfl
      rw [one_smul, ← z2 t hts] at this
      exact this.congr (fun s hs => z2 s hs.1) (z2 t hts)
    · exact hasDerivWithinAt_iff_hasFDerivWithinAt.2 <| .of_notMem_closure fun hc => by rw [isClosed_Icc.closure_eq] at hc; exact hts hc.1

variable (D) in
/-- If the solutions that start in a point cannot leave a ball, there are solutions of any length. -/
theorem exists_solves [ProperSpace E] {x₀ : E} {R : ℝ}
    (hR : ∀ (T : ℝ) (x : ℝ → E), D.Solves x T → x 0 = x₀ → ∀ t ∈ Icc 0 T, ‖x t‖ ≤ R) (T : ℝ) : ∃ x, x 0 = x₀ ∧ D.Solves x T := by
  have hc : ContDiff ℝ 1 D.d1 := D.contDiff_d1 contDiff_id
  obtain ⟨L, hL⟩ := (isCompact_closedBall (0 : E) (R + 1)).exists_bound_of_continuousOn (f := D.d1) hc.continuous.continuousOn
  obtain ⟨K, hK⟩ := (isCompact_closedBall (0 : E) (R + 1)).exists_bound_of_continuousOn (f := fderiv ℝ D.d1)
    (hc.continuous_fderiv one_ne_zero).continuousOn
  set ε : ℝ := 1 / (|L| + 1) with hε
  have hε0 : 0 < ε := by positivity
  have start : ∀ y : E, ‖y‖ ≤ R → ∃ x, x 0 = y ∧ D.Solves x ε := by
    intro y hy
    have hsub : Metric.closedBall y ((1 : NNReal) : ℝ) ⊆ Metric.closedBall (0 : E) (R + 1) := by
      refine Metric.closedBall_subset_closedBall' ?_
      rw [dist_zero_right, NNReal.coe_one]; linarith
    have hp : IsPicardLindelof (fun _ => D.d1) (tmin := 0) (tmax := ε) ⟨0, le_rfl, hε0.le⟩ y 1 0 ⟨|L|, abs_nonneg _⟩ ⟨|K|, abs_nonneg _⟩ := by
      refine .of_time_independent (fun z hz => (hL z (hsub hz)).trans (le_abs_self L)) ?_ ?_
      · refine (convex_closedBall _ _).lipschitzOnWith_of_nnnorm_fderiv_le (𝕜 := ℝ) (fun z _ => (hc.differentiable one_ne_zero) z) fun z hz => ?_
        exact (hK z (hsub hz)).trans (le_abs_self K)
      · show |L| * max (ε - 0) (0 - 0) ≤ 1 - 0
        rw [sub_zero, sub_zero, sub_zero, max_eq_left hε0.le, hε, mul_one_div, div_le_one (by positivity)]
        linarith
    obtain ⟨x, x0, hx⟩ := hp.exists_eq_forall_mem_Icc_hasDerivWithinAt (x := y) (by simp)
    exact ⟨x, x0, hx⟩
  have many : ∀ n : ℕ, ∃ x, x 0 = x₀ ∧ D.Solves x (n * ε) := by
    intro n
    induction n with
    | zero =>
      refine ⟨fun _ => x₀, rfl, fun t ht => ?_⟩
      obtain rfl : t = 0 := by
        rw [Nat.cast_zero, zero_mul] at ht
        exact le_antisymm ht.2 ht.1
      rw [Nat.cast_zero, zero_mul, Icc_self]
      exact hasDerivWithinAt_iff_hasFDerivWithinAt.2 .singleton
    | succ n ih =>
      obtain ⟨x, x0, hx⟩ := ih
      have hn : 0 ≤ n * ε := by positivity
      obtain ⟨y, y0, hy⟩ := start (x (n * ε)) (hR _ x hx x0 _ ⟨hn, le_rfl⟩)
      refine ⟨_, ?_, by simpa [add_mul] using hx.glue hn hε0.le hy y0⟩
      simp only [if_pos hn, x0]
  obtain ⟨n, hn⟩ := exists_nat_gt (T / ε)
  obtain ⟨x, x0, hx⟩ := many n
  exact ⟨x, x0, hx.mono ((div_lt_iff₀ hε0).1 hn).le⟩

end QuadField

end Verif

import Verif.Lemmas.ScalarPass
import Mathlib.Topology.Algebra.Order.Field
import Mathlib.Analysis.SpecialFunctions.Sqrt

/-! The recursion of `Chain` is continuous in the precision added to every prediction. -/

namespace Verif

open Filter Topology

theorem unscented_affine {a b k : ℝ} (hpos : 0 < a ^ 2 * (1 + k)) (h d : ℝ) : (unscented a b k fun x => h * x + d).Affine h d := by
  intro m p hp
  simp only [unscented]
  generalize a ^ 2 * (1 + k) = n at *
  have hs : √(n * p) * √(n * p) = n * p := Real.mul_self_sqrt (by positivity)
  generalize √(n * p) = s at *
  have hX : (n - 1) / n * (h * m + d) + 1 / (2 * n) * (h * (m + s) + d) + 1 / (2 * n) * (h * (m - s) + d) = h * m + d := by
    field_simp; ring
  refine ⟨hX, ?_, ?_⟩
  · rw [hX, show h * m + d - (h * m + d) = 0 by ring, show h * (m + s) + d - (h * m + d) = h * s by ring,
      show h * (m - s) + d - (h * m + d) = -(h * s) by ring]
    rw [show ∀ c w : ℝ, c * 0 ^ 2 + w * (h * s) ^ 2 + w * (-(h * s)) ^ 2 = 2 * w * h ^ 2 * (s * s) from fun c w => by ring, hs]
    field_simp
  · rw [hX, show h * (m + s) + d - (h * m + d) = h * s by ring, show h * (m - s) + d - (h * m + d) = -(h * s) by ring]
    rw [show ∀ w : ℝ, w * s * (h * s) - w * s * (-(h * s)) = 2 * w * h * (s * s) from fun w => by ring, hs]
    field_simp

theorem unscented_continuous (a b k : ℝ) {F : ℝ → ℝ} (hF : Continuous F) : (unscented a b k F).Continuous := by
  have h1 : Continuous fun g : ℝ × ℝ => F g.1 := hF.comp continuous_fst
  have hs : Continuous fun g : ℝ × ℝ => √(a ^ 2 * (1 + k) * g.2) := by fun_prop
  have h2 : Continuous fun g : ℝ × ℝ => F (g.1 + √(a ^ 2 * (1 + k) * g.2)) := hF.comp (continuous_fst.add hs)
  have h3 : Continuous fun g : ℝ × ℝ => F (g.1 - √(a ^ 2 * (1 + k) * g.2)) := hF.comp (continuous_fst.sub hs)
  refine ⟨Continuous.continuousOn ?_, Continuous.continuousOn ?_, Continuous.continuousOn ?_⟩ <;>
  · simp only [unscented]; fun_prop

/-- Continuity from the right at zero. -/
def CR (f : ℝ → ℝ × ℝ) : Prop := Tendsto f (𝓝[≥] 0) (𝓝 (f 0))

theorem CR.comp₁ {f : ℝ → ℝ × ℝ} (hf : CR f) {φ : ℝ × ℝ → ℝ} (hφ : ContinuousOn φ {g | 0 < g.2}) (h0 : 0 < (f 0).2) :
    Tendsto (fun ε => φ (f ε)) (𝓝[≥] 0) (𝓝 (φ (f 0))) := by
  have : ContinuousAt φ (f 0) := hφ.continuousAt ((isOpen_lt continuous_const continuous_snd).mem_nhds h0)
  exact this.tendsto.comp hf

theorem CR.fst {f : ℝ → ℝ × ℝ} (hf : CR f) : Tendsto (fun ε => (f ε).1) (𝓝[≥] 0) (𝓝 (f 0).1) :=
  (continuous_fst.tendsto (f 0)).comp hf
theorem CR.snd {f : ℝ → ℝ × ℝ} (hf : CR f) : Tendsto (fun ε => (f ε).2) (𝓝[≥] 0) (𝓝 (f 0).2) :=
  (continuous_snd.tendsto (f 0)).comp hf

theorem CR.damp {f : ℝ → ℝ × ℝ} (hf : CR f) (h0 : 0 < (f 0).2) : CR fun ε => Chain.damp ε (f ε) := by
  have hid : Tendsto (fun ε : ℝ => ε) (𝓝[≥] 0) (𝓝 0) := tendsto_nhdsWithin_of_tendsto_nhds tendsto_id
  have hs : Tendsto (fun ε => 1 / (f ε).2 + ε) (𝓝[≥] 0) (𝓝 (1 / (f 0).2 + 0)) := (tendsto_const_nhds.div hf.snd h0.ne').add hid
  have hne : 1 / (f 0).2 + 0 ≠ 0 := by rw [add_zero]; positivity
  exact ((hf.fst.div hf.snd h0.ne').div hs hne).prodMk_nhds (tendsto_const_nhds.div hs hne)

namespace Chain

variable {c : Chain}

theorem cr_predict {f : ℝ → ℝ × ℝ} (hf : CR f) (h0 : 0 < (f 0).2) {i : ℕ} (hτ : (c.τ i).Continuous) : CR fun ε => c.predict i (f ε) :=
  (hf.comp₁ hτ.X h0).prodMk_nhds ((hf.comp₁ hτ.S h0).add tendsto_const_nhds)

theorem cr_correct (hr : c.Regular) {f : ℝ → ℝ × ℝ} (hf : CR f) (h0 : 0 < (f 0).2) {i : ℕ} (hκ : c.κ.Continuous) :
    CR fun ε => c.correct i (f ε) := by
  have hw := (hf.comp₁ hκ.S h0).add (tendsto_const_nhds (x := c.r))
  have hpos := (hr.κ.meas_pos (m := (f 0).1) h0 hr.r).1
  have hk := (hf.comp₁ hκ.C h0).div hw hpos.ne'
  exact (hf.fst.add (hk.mul (tendsto_const_nhds.sub (hf.comp₁ hκ.X h0)))).prodMk_nhds (hf.snd.sub ((hk.pow 2).mul hw))

theorem cr_smooth (hr : c.Regular) {f g : ℝ → ℝ × ℝ} (hf : CR f) (h0 : 0 < (f 0).2) (hg : CR g) {i : ℕ} (hτ : (c.τ (i + 1)).Continuous) :
    CR fun ε => c.smooth i (f ε) (g ε) := by
  have hw := (hf.comp₁ hτ.S h0).add (tendsto_const_nhds (x := c.q))
  have hpos := ((hr.τ (i + 1)).meas_pos (m := (f 0).1) h0 hr.q).1
  have hk := (hf.comp₁ hτ.C h0).div hw hpos.ne'
  exact (hf.fst.add (hk.mul (hg.fst.sub (hf.comp₁ hτ.X h0)))).prodMk_nhds (hf.snd.add ((hk.pow 2).mul (hg.snd.sub hw)))

theorem filtered_cr (hr : c.Regular) (hτ : ∀ i, (c.τ i).Continuous) (hκ : c.κ.Continuous) (i : ℕ) : CR fun ε => c.filtered ε i := by
  have key : ∀ i, CR (fun ε => c.before ε i) → CR fun ε => c.filtered ε i := by
    intro i hb
    have h1 := cr_predict hb (before_pos hr le_rfl i) (hτ i)
    have h2 := h1.damp (predict_pos hr i (before_pos hr le_rfl i))
    have h3 := cr_correct (i := i) hr h2 (damp_pos le_rfl (predict_pos hr i (before_pos hr le_rfl i))).1 hκ
    simpa only [← filtered_eq] using h3
  induction i with
  | zero => exact key 0 tendsto_const_nhds
  | succ i ih => exact key (i + 1) ih

theorem smoothed_tendsto (hr : c.Regular) (hτ : ∀ i, (c.τ i).Continuous) (hκ : c.κ.Continuous) {n i : ℕ} (hi : i ≤ n) :
    CR fun ε => c.smoothed ε n i := by
  obtain ⟨k, rfl⟩ : ∃ k, n = i + k := ⟨n - i, by omega⟩
  induction k generalizing i with
  | zero => simp only [Nat.add_zero, smoothed_last]; exact filtered_cr hr hτ hκ i
  | succ k ih =>
    have h1 := ih (i := i + 1) (by omega)
    rw [show i + 1 + k = i + (k + 1) by omega] at h1
    have h2 := cr_smooth hr (filtered_cr hr hτ hκ i) (filtered_pos hr le_rfl i) h1 (hτ (i + 1))
    simpa only [← smoothed_step c _ (show i < i + (k + 1) by omega)] using h2

end Chain

end Verif

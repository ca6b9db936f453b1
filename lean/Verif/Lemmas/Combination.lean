import Verif.Spec.Plot
import Verif.Lemmas.Calibrate

/-! States, measurements and errors as combinations of drawn numbers. -/

namespace Verif

open Matrix MeasureTheory StateSpace

variable {n k : ℕ} {Ω : Type*} {rng : Ω → Rng}

theorem Combination.sum {ι : Type*} (s : Finset ι) {X : ι → Ω → ℝ} (h : ∀ i ∈ s, Combination rng (X i)) :
    Combination rng fun ω => ∑ i ∈ s, X i ω := by
  classical
  induction s using Finset.induction_on with
  | empty => simpa using Combination.zero
  | insert i s hi ih =>
    simp only [Finset.sum_insert hi]
    exact (h i (by simp)).add (ih fun j hj => h j (by simp [hj]))

/-- All components of a random vector are combinations. -/
def Combinations (rng : Ω → Rng) {p : ℕ} (X : Ω → Fin p → ℝ) : Prop := ∀ a, Combination rng fun ω => X ω a

theorem Combinations.mulVec {p q : ℕ} {X : Ω → Fin p → ℝ} (h : Combinations rng X) (M : Matrix (Fin q) (Fin p) ℝ) :
    Combinations rng fun ω => M *ᵥ X ω := fun a => Combination.sum Finset.univ fun b _ => (h b).smul (M a b)

theorem Combinations.add {p : ℕ} {X Y : Ω → Fin p → ℝ} (hX : Combinations rng X) (hY : Combinations rng Y) :
    Combinations rng fun ω => X ω + Y ω := fun a => (hX a).add (hY a)

theorem Combinations.sub {p : ℕ} {X Y : Ω → Fin p → ℝ} (hX : Combinations rng X) (hY : Combinations rng Y) :
    Combinations rng fun ω => X ω - Y ω := fun a => by
  have := (hX a).add ((hY a).smul (-1))
  simpa [sub_eq_add_neg] using this

theorem Combinations.draw (j : ℕ) {p : ℕ} (μ : Fin p → ℝ) {C : Matrix (Fin p) (Fin p) ℝ} (hC : C.PosSemidef) :
    Combinations rng fun ω => rng ω j p μ C - μ := fun a => .draw j p μ C hC a

theorem Combinations.draw0 (j : ℕ) {p : ℕ} {C : Matrix (Fin p) (Fin p) ℝ} (hC : C.PosSemidef) :
    Combinations rng fun ω => rng ω j p 0 C := fun a => by simpa using Combination.draw (rng := rng) j p 0 C hC a

variable [MeasurableSpace Ω] {ℙ : Measure Ω} {L : StateSpace n k} {x : ℕ → Ω → Fin n → ℝ} {q : ℕ → Ω → Fin n → ℝ} {r : ℕ → Ω → Fin k → ℝ}
  {y : Ω → ℕ → Fin k → ℝ}

theorem StateSpace.Path.comb_err (h : L.Path ℙ x q r y) (hx : Combinations rng fun ω => x 0 ω - L.m0) (hq : ∀ i, Combinations rng (q i))
    (hr : ∀ i, Combinations rng (r i)) : ∀ i, Combinations rng (L.err x y i)
  | 0 => hx
  | i + 1 => by
    rw [h.err_succ]
    exact ((((h.comb_err hx hq hr i).mulVec _).add (hq i)).mulVec _).sub ((hr i).mulVec _)

theorem StateSpace.Path.comb_serr (h : L.Path ℙ x q r y) (hx : Combinations rng fun ω => x 0 ω - L.m0) (hq : ∀ i, Combinations rng (q i))
    (hr : ∀ i, Combinations rng (r i)) : ∀ d i, Combinations rng (L.serr x y i d)
  | 0, i => h.comb_err hx hq hr i
  | d + 1, i => by
    rw [h.serr_succ]
    exact ((h.comb_err hx hq hr i).sub (((((h.comb_err hx hq hr i).mulVec _).add (hq i))).mulVec _)).add ((h.comb_serr hx hq hr d (i + 1)).mulVec _)

end Verif

import Verif.Props.Kalman
import Verif.Lemmas.ScalarOps

/-!
# Filtering in instalments (C24)
-/

namespace Verif

section
variable {env : Env}

/-- **C24.** Filtering may be interrupted: filtering a list of measurements is filtering a first part and then the rest, starting from
the last state obtained (or the given prior, if the first part is empty) at the time reached. -/
theorem C24_resume (k : KFS) (ys zs : List Arr) (prior : Option Gaussian) (t : ℝ) (u : Option ℝ) :
    k.kalmanFilter env (ys ++ zs) prior t u = (do
      let first ← k.kalmanFilter env ys prior t u
      let rest ← k.kalmanFilter env zs (some (first.getLast?.getD (prior.getD k.initState))) (t + ys.length * k.dt) u
      return first ++ rest) := by
  unfold KFS.kalmanFilter
  simp only [Option.getD_some]
  generalize prior.getD k.initState = g
  induction ys generalizing g t with
  | nil =>
    simp only [KFS.filterLoop, List.nil_append, ok_bind, List.length_nil, Nat.cast_zero, zero_mul, add_zero, List.getLast?_nil,
      Option.getD_none]
    cases k.filterLoop env u g t zs <;> rfl
  | cons y ys ih =>
    simp only [KFS.filterLoop, List.cons_append]
    cases k.predict g (some t) u with
    | error e => rfl
    | ok p =>
      simp only [ok_bind]
      cases k.correct env p y.squeeze (some t) u with
      | error e => rfl
      | ok c =>
        simp only [ok_bind]
        rw [ih]
        cases k.filterLoop env u c (t + k.dt) ys with
        | error e => rfl
        | ok a =>
          simp only [ok_bind, py_pure]
          have e1 : (t + k.dt + ys.length * k.dt) = t + ((y :: ys).length : ℕ) * k.dt := by
            rw [List.length_cons]; push_cast; ring
          have e2 : a.getLast?.getD c = (c :: a).getLast?.getD g := by
            cases a <;> simp [List.getLast?_cons]
          rw [e1, e2]
          cases k.filterLoop env u ((c :: a).getLast?.getD g) (t + ((y :: ys).length : ℕ) * k.dt) zs <;> rfl

/-- **C24.** The same for the iterated filter. -/
theorem C24_resume_iekf (jac : Jac) (k : KFS) (numIter : ℕ) (ys zs : List Arr) (prior : Option Gaussian) (t : ℝ) (u : Option ℝ) :
    k.iekf env jac (ys ++ zs) numIter prior t u = (do
      let first ← k.iekf env jac ys numIter prior t u
      let rest ← k.iekf env jac zs numIter (some (first.getLast?.getD (prior.getD k.initState))) (t + ys.length * k.dt) u
      return first ++ rest) := by
  unfold KFS.iekf
  simp only [Option.getD_some]
  generalize prior.getD k.initState = g
  induction ys generalizing g t with
  | nil =>
    simp only [KFS.iekfLoop, List.nil_append, ok_bind, List.length_nil, Nat.cast_zero, zero_mul, add_zero, List.getLast?_nil,
      Option.getD_none]
    cases k.iekfLoop env jac numIter u g t zs <;> rfl
  | cons y ys ih =>
    simp only [KFS.iekfLoop, List.cons_append]
    cases k.predict g (some t) u with
    | error e => rfl
    | ok p =>
      simp only [ok_bind]
      cases k.iteratedUpdate env jac numIter p y.squeeze (some t) u with
      | error e => rfl
      | ok c =>
        simp only [ok_bind]
        rw [ih]
        cases k.iekfLoop env jac numIter u c (t + k.dt) ys with
        | error e => rfl
        | ok a =>
          simp only [ok_bind, py_pure]
          have e1 : (t + k.dt + ys.length * k.dt) = t + ((y :: ys).length : ℕ) * k.dt := by
            rw [List.length_cons]; push_cast; ring
          have e2 : a.getLast?.getD c = (c :: a).getLast?.getD g := by
            cases a <;> simp [List.getLast?_cons]
          rw [e1, e2]
          cases k.iekfLoop env jac numIter u ((c :: a).getLast?.getD g) (t + ((y :: ys).length : ℕ) * k.dt) zs <;> rfl

/-- **C24.** If neither function looks at the time, the starting time has no effect. -/
theorem C24_no_time (k : KFS) (hf : ∀ x t t' u, k.transition x t u = k.transition x t' u)
    (hh : ∀ x t t' u, k.measurement x t u = k.measurement x t' u) (ys : List Arr) (prior : Option Gaussian) (t t' : ℝ) (u : Option ℝ) :
    k.kalmanFilter env ys prior t u = k.kalmanFilter env ys prior t' u := by
  unfold KFS.kalmanFilter
  generalize prior.getD k.initState = g
  have hp : ∀ (g : Gaussian) (t t' : Option ℝ), k.predict g t u = k.predict g t' u := fun g t t' => by
    have : (fun x => k.transition x t u) = fun x => k.transition x t' u := funext fun x => hf x t t' u
    simp only [KFS.predict, this]
  have hc : ∀ (g : Gaussian) (y : Arr) (t t' : Option ℝ), k.correct env g y t u = k.correct env g y t' u := fun g y t t' => by
    have : (fun x => k.measurement x t u) = fun x => k.measurement x t' u := funext fun x => hh x t t' u
    simp only [KFS.correct, this]
  induction ys generalizing g t t' with
  | nil => rfl
  | cons y ys ih =>
    simp only [KFS.filterLoop]
    rw [hp g (some t) (some t')]
    refine bind_congr fun p => ?_
    rw [hc p y.squeeze (some t) (some t')]
    refine bind_congr fun c => ?_
    rw [ih (t + k.dt) (t' + k.dt)]

end

/-- A concrete case of the last hypotheses: a random walk observed directly. -/
example (env : Env) (tr : Transform) (g : Gaussian) (y : Arr) :
    (KFS.mk tr tr (fun x _ _ => .ok x) (fun x _ _ => .ok x) (.m (m1 1)) (.m (m1 1)) g 1).kalmanFilter env [y] none 0 none =
      (KFS.mk tr tr (fun x _ _ => .ok x) (fun x _ _ => .ok x) (.m (m1 1)) (.m (m1 1)) g 1).kalmanFilter env [y] none 7 none :=
  C24_no_time _ (fun _ _ _ _ => rfl) (fun _ _ _ _ => rfl) _ _ _ _ _

end Verif

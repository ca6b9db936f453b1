import Verif.Model.PyM

/-! Running computations with side effects. -/

namespace Verif

namespace PyM

variable {σ α β : Type}

theorem bind_run (x : PyM σ α) (f : α → PyM σ β) (s : σ) :
    (x >>= f) s = match x s with
      | (.ok a, s') => f a s'
      | (.error e, s') => (.error e, s') := rfl

theorem bind_ok {x : PyM σ α} {s s' : σ} {a : α} (h : x s = (.ok a, s')) (f : α → PyM σ β) : (x >>= f) s = f a s' := by
  rw [bind_run, h]

theorem bind_error {x : PyM σ α} {s s' : σ} {e : Err} (h : x s = (.error e, s')) (f : α → PyM σ β) :
    (x >>= f) s = (.error e, s') := by
  rw [bind_run, h]

@[simp] theorem pure_run (a : α) (s : σ) : (pure a : PyM σ α) s = (.ok a, s) := rfl
@[simp] theorem get_bind (f : σ → PyM σ β) (s : σ) : (get >>= f) s = f s s := rfl
@[simp] theorem modify_bind (g : σ → σ) (f : Unit → PyM σ β) (s : σ) : (modify g >>= f) s = f () (g s) := rfl
@[simp] theorem modify_run (g : σ → σ) (s : σ) : (modify g) s = (.ok (), g s) := rfl
@[simp] theorem get_run (s : σ) : (get : PyM σ σ) s = (.ok s, s) := rfl
@[simp] theorem raise_run (e : Err) (s : σ) : (raise e : PyM σ α) s = (.error e, s) := rfl
@[simp] theorem raise_bind (e : Err) (f : α → PyM σ β) (s : σ) : (raise e >>= f) s = (.error e, s) := rfl
@[simp] theorem lift_ok_bind (a : α) (f : α → PyM σ β) (s : σ) : (lift (.ok a) >>= f) s = f a s := rfl
@[simp] theorem lift_error_bind (e : Err) (f : α → PyM σ β) (s : σ) : (lift (.error e) >>= f) s = (.error e, s) := rfl
@[simp] theorem lift_run (x : Py α) (s : σ) : (lift x : PyM σ α) s = (x, s) := rfl
@[simp] theorem pure_bind' (a : α) (f : α → PyM σ β) : (pure a >>= f) = f a := rfl

theorem lift_bind_eq {x : Py α} {a : α} (h : x = .ok a) (f : α → PyM σ β) (s : σ) : (lift x >>= f) s = f a s := by rw [h]; rfl

theorem bind_ok_inv {x : PyM σ α} {f : α → PyM σ β} {s s2 : σ} {b : β} (h : (x >>= f) s = (.ok b, s2)) :
    ∃ a s1, x s = (.ok a, s1) ∧ f a s1 = (.ok b, s2) := by
  rw [bind_run] at h
  split at h
  · next a s' hx => exact ⟨a, s', hx, h⟩
  · simp at h

theorem lift_bind_ok_inv {x : Py α} {f : α → PyM σ β} {s s2 : σ} {b : β} (h : (lift x >>= f) s = (.ok b, s2)) :
    ∃ a, x = .ok a ∧ f a s = (.ok b, s2) := by
  obtain ⟨a, s1, h1, h2⟩ := bind_ok_inv h
  simp only [lift_run, Prod.mk.injEq] at h1
  obtain ⟨rfl, rfl⟩ := h1
  exact ⟨a, rfl, h2⟩

end PyM

end Verif

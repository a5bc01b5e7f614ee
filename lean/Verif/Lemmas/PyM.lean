import Verif.Model.Py

/-! # Calculating with `PyM` -/
namespace EthAbi

@[simp] theorem ok_bind {α β : Type} (a : α) (f : α → PyM β) :
    ((Except.ok a : PyM α) >>= f) = f a := rfl

@[simp] theorem error_bind {α β : Type} (e : Exc) (f : α → PyM β) :
    ((Except.error e : PyM α) >>= f) = .error e := rfl

@[simp] theorem pure_eq_ok {α : Type} (a : α) : (pure a : PyM α) = .ok a := rfl

@[simp] theorem throw_eq_error {α : Type} (e : Exc) : (throw e : PyM α) = .error e := rfl

theorem bind_eq_ok {α β : Type} {x : PyM α} {f : α → PyM β} {b : β} :
    (x >>= f) = .ok b ↔ ∃ a, x = .ok a ∧ f a = .ok b := by
  cases x <;> simp

theorem bind_eq_error {α β : Type} {x : PyM α} {f : α → PyM β} {e : Exc} :
    (x >>= f) = .error e ↔ x = .error e ∨ ∃ a, x = .ok a ∧ f a = .error e := by
  cases x <;> simp

theorem ok_or_error {α : Type} (x : PyM α) : (∃ a, x = .ok a) ∨ ∃ e, x = .error e := by
  cases x <;> simp

end EthAbi

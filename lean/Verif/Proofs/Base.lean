import Verif.Base

set_option autoImplicit false

/-! Rewriting lemmas for the outcome monad and the containers. -/

namespace Tok

@[simp] theorem res_ok_bind {α β : Type} (a : α) (f : α → Res β) :
    (Bind.bind (Except.ok a : Res α) f) = f a := rfl
@[simp] theorem res_error_bind {α β : Type} (e : Err) (f : α → Res β) :
    (Bind.bind (Except.error e : Res α) f) = .error e := rfl
@[simp] theorem res_pure {α : Type} (a : α) : (pure a : Res α) = .ok a := rfl

theorem res_bind_ok {α β : Type} {x : Res α} {f : α → Res β} {b : β} :
    (x >>= f) = .ok b ↔ ∃ a, x = .ok a ∧ f a = .ok b := by
  cases x <;> simp

theorem res_bind_error {α β : Type} {x : Res α} {f : α → Res β} {e : Err} :
    (x >>= f) = .error e ↔ x = .error e ∨ ∃ a, x = .ok a ∧ f a = .error e := by
  cases x <;> simp

theorem res_ite_bind {α β : Type} {p : Prop} [Decidable p] {x y : Res α} {f : α → Res β} :
    (if p then x >>= f else y >>= f) = ((if p then x else y) >>= f) := by
  split <;> rfl

end Tok

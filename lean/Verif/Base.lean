/-
Shared vocabulary of the model.

`Outcome` distinguishes the four ways a modelled C++ call can end:
* `ok a`    – it returns normally (an OK `Status` / a value);
* `err m`   – it returns a non-OK `absl::Status` (or throws a C++ exception) with message `m`;
* `abort`   – the process is killed by `CHECK` / `CRYPTO_CHECK` / `LOG(FATAL)`;
* `ub`      – undefined behaviour (out-of-bounds access, invalid shift, ...).
-/
namespace Upsi

inductive Outcome (α : Type u) where
  | ok (a : α)
  | err (msg : String)
  | abort
  | ub
  deriving Repr, DecidableEq

namespace Outcome

@[inline] def bind {α : Type u} {β : Type v} (x : Outcome α) (f : α → Outcome β) : Outcome β :=
  match x with
  | ok a => f a
  | err m => err m
  | abort => abort
  | ub => ub

instance : Monad Outcome where
  pure := ok
  bind := bind

@[simp] theorem pure_eq {α : Type u} (a : α) : (pure a : Outcome α) = ok a := rfl
@[simp] theorem bind_ok {α β : Type u} (a : α) (f : α → Outcome β) : (ok a >>= f) = f a := rfl
@[simp] theorem bind_err {α β : Type u} (m : String) (f : α → Outcome β) :
    ((err m : Outcome α) >>= f) = err m := rfl
@[simp] theorem bind_abort {α β : Type u} (f : α → Outcome β) :
    ((abort : Outcome α) >>= f) = abort := rfl
@[simp] theorem bind_ub {α β : Type u} (f : α → Outcome β) : ((ub : Outcome α) >>= f) = ub := rfl

theorem bind_eq_ok {α β : Type u} {x : Outcome α} {f : α → Outcome β} {b : β} :
    (x >>= f) = ok b ↔ ∃ a, x = ok a ∧ f a = ok b := by
  cases x <;> simp

/-- `x` ended normally. -/
def isOk {α : Type u} : Outcome α → Bool
  | ok _ => true
  | _ => false

theorem isOk_iff {α : Type u} {x : Outcome α} : x.isOk = true ↔ ∃ a, x = ok a := by
  cases x <;> simp [isOk]

end Outcome
end Upsi

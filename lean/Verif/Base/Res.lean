/-!
Outcomes of modelled C functions.

casync functions return a negative errno on failure.  `Res.err` carries the errno, `Res.ok` the
value(s) delivered, and `Res.ub` stands for a failed `assert()` or undefined behaviour: it is a
distinct outcome so that no theorem can hide it behind a default value.
-/
namespace Casync

/-- The errno values used by the modelled code. -/
inductive Errno
  | E2BIG | EROFS | EBADFD | EAGAIN | EADDRNOTAVAIL | EADDRINUSE | EBADMSG | EBADF | EBUSY | EEXIST | EFBIG | EINVAL | EISDIR | ELOOP
  | EMEDIUMTYPE | ENETRESET | ENOATTR | ENODATA | ENOENT | ENOEXEC | ENOLINK | ENOMEM | ENOSYS
  | ESRCH | ENOTDIR | ENOTTY | ENOTUNIQ | ENOTCONN | ENOTEMPTY | ENXIO | EOPNOTSUPP | EOVERFLOW | EPERM | EPIPE
  | EPROTO | EPROTONOSUPPORT | EPROTOTYPE | ERANGE | EREMOTE | ESHUTDOWN | ESPIPE | ESTALE
  | ENOMEDIUM | EUNATCH | EUCLEAN | EIO | ENOSPC | ENAMETOOLONG | ENOBUFS | EBADE | EALREADY | ECONNABORTED | EKEYREVOKED | EBADR | EXDEV | EMLINK
  deriving DecidableEq, Repr

/-- Result of a modelled function: success, negative errno, or assertion failure / undefined
behaviour. -/
inductive Res (α : Type u) : Type u
  | ok (a : α)
  | err (e : Errno)
  | ub
  deriving Repr, DecidableEq

namespace Res

@[inline] def bind {α : Type u} {β : Type v} (x : Res α) (f : α → Res β) : Res β :=
  match x with
  | ok a => f a
  | err e => err e
  | ub => ub

instance : Monad Res where
  pure := ok
  bind := bind

@[simp] theorem bind_ok {α β : Type u} (a : α) (f : α → Res β) : (Res.ok a >>= f) = f a := rfl
@[simp] theorem bind_err {α β : Type u} (e : Errno) (f : α → Res β) :
    ((Res.err e : Res α) >>= f) = .err e := rfl
@[simp] theorem bind_ub {α β : Type u} (f : α → Res β) : ((Res.ub : Res α) >>= f) = .ub := rfl
@[simp] theorem pure_eq {α : Type u} (a : α) : (pure a : Res α) = .ok a := rfl

theorem bind_eq_ok {α β : Type u} {x : Res α} {f : α → Res β} {b : β} :
    (x >>= f) = .ok b ↔ ∃ a, x = .ok a ∧ f a = .ok b := by
  cases x <;> simp

/-- C `assert(b)`. -/
def assert (b : Bool) : Res Unit := if b then ok () else ub

/-- `if (!b) return -e;` -/
def guard (b : Bool) (e : Errno) : Res Unit := if b then ok () else err e

@[simp] theorem guard_true (e : Errno) : guard true e = ok () := rfl
@[simp] theorem guard_false (e : Errno) : guard false e = err e := rfl
@[simp] theorem assert_true : assert true = ok () := rfl
@[simp] theorem assert_false : assert false = ub := rfl

theorem guard_eq_ok {b : Bool} {e : Errno} {u : Unit} : guard b e = ok u ↔ b = true := by
  cases b <;> simp [guard]

end Res
end Casync

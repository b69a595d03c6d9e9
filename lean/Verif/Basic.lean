/-!
# Shared helpers

`upd` models one write to an array or to a field of the object with a given identity.
-/
namespace Verif

/-- `f[k] = x`. -/
def upd {β : Type} (f : Nat → β) (k : Nat) (x : β) : Nat → β := fun i => if i = k then x else f i

@[simp] theorem upd_same {β : Type} (f : Nat → β) (k : Nat) (x : β) : upd f k x k = x := by
  simp [upd]

theorem upd_ne {β : Type} (f : Nat → β) {k i : Nat} (x : β) (h : i ≠ k) : upd f k x i = f i := by
  simp [upd, h]

theorem upd_apply {β : Type} (f : Nat → β) (k i : Nat) (x : β) :
    upd f k x i = if i = k then x else f i := rfl

/-- `k n`, written so that the kernel evaluates `n` before it is copied into `k`.  Only an
evaluation hint: see `withNat_eq`. -/
def withNat {β : Type} (n : Nat) (k : Nat → β) : β :=
  match n with
  | 0 => k 0
  | n + 1 => k (n + 1)

@[simp] theorem withNat_eq {β : Type} (n : Nat) (k : Nat → β) : withNat n k = k n := by
  cases n <;> rfl

end Verif

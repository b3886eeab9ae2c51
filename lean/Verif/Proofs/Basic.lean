import Verif.Spec.Forest
/-
Small facts about `Res` and about forests of syntax trees.
-/
namespace Mofmt

namespace Res
@[simp] theorem bind_ok {α β} (a : α) (f : α → Res β) : (Res.ok a).bind f = f a := rfl
@[simp] theorem bind_panic {α β} (p : Panic) (f : α → Res β) : (Res.panic p).bind f = .panic p := rfl
@[simp] theorem bind_fuel {α β} (f : α → Res β) : (Res.fuel).bind f = .fuel := rfl
theorem bind_eq_ok {α β} {x : Res α} {f : α → Res β} {b : β} :
    x.bind f = .ok b ↔ ∃ a, x = .ok a ∧ f a = .ok b := by
  cases x <;> simp
theorem bind_eq_fuel {α β} {x : Res α} {f : α → Res β} :
    x.bind f = .fuel ↔ x = .fuel ∨ ∃ a, x = .ok a ∧ f a = .fuel := by
  cases x <;> simp
end Res

@[simp] theorem evsF_append (a b : List Tree) : evsF (a ++ b) = evsF a ++ evsF b := by
  induction a with
  | nil => simp [evsF]
  | cons t ts ih => simp [evsF, ih]

@[simp] theorem leavesF_append (a b : List Tree) : leavesF (a ++ b) = leavesF a ++ leavesF b := by
  induction a with
  | nil => simp [leavesF]
  | cons t ts ih => simp [leavesF, ih]

@[simp] theorem hasErrorF_append (a b : List Tree) :
    hasErrorF (a ++ b) = (hasErrorF a || hasErrorF b) := by
  induction a with
  | nil => simp [hasErrorF]
  | cons t ts ih => simp [hasErrorF, ih, Bool.or_assoc]

end Mofmt

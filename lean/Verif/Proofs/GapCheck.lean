import Verif.Proofs.GapTable
/-
The layout of every production: the check.
-/
namespace Mofmt

set_option maxHeartbeats 1000000 in
theorem gaps_ok : ∀ k, gapsOk k = true := by
  intro k; cases k <;> decide +kernel

/-! ### Last tokens -/

def lastSetFine (k : SK) : Option Sym → Bool
  | some (.t j) => (lastSet k).has j
  | some (.n j) => (lastSet j).within (lastSet k)
  | none => true

theorem lastSet_ok : ∀ k, checkG (fun _ s => some s) (lastSetFine k) (Gram.spec k) none = true := by
  intro k; cases k <;> decide +kernel

end Mofmt

import Verif.Proofs.FmtTables
/-
The tables of the analysis of the formatting functions are valid: checked by the kernel, group by group.
-/
namespace Mofmt

/-- productions checked on their own -/
def bigFull : List SK := [.Composition, .Primary, .ShortClassSpecifier, .ArithmeticExpression]

set_option maxRecDepth 100000 in
theorem full_small : ∀ k ∈ SK.all.filter (fun k => !bigFull.contains k), ∀ e ∈ fullTabs.entry k,
    chkEntry fullTabs k e = true := by
  decide +kernel

set_option maxRecDepth 100000 in
theorem full_big : ∀ k ∈ bigFull, ∀ e ∈ fullTabs.entry k, chkEntry fullTabs k e = true := by
  decide +kernel

theorem full_valid : fullTabs.Valid := by
  intro fn e he
  by_cases h : fn ∈ bigFull
  · exact full_big fn h e he
  · exact full_small fn (by simp only [List.mem_filter]; exact ⟨by cases fn <;> decide, by simp [h]⟩) e he

end Mofmt

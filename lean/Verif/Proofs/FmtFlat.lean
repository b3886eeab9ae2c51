import Verif.Proofs.FmtTables
/-
The tables of the analysis of the formatting functions are valid: checked by the kernel, group by group.
-/
namespace Mofmt

/-- productions checked on their own -/
def bigFlat : List SK := [.Composition, .Primary, .ShortClassSpecifier, .ArithmeticExpression]

set_option maxRecDepth 100000 in
theorem flat_small : ∀ k ∈ SK.all.filter (fun k => !bigFlat.contains k), ∀ e ∈ flatTabs.entry k,
    chkEntry flatTabs k e = true := by
  decide +kernel

set_option maxRecDepth 100000 in
theorem flat_big : ∀ k ∈ bigFlat, ∀ e ∈ flatTabs.entry k, chkEntry flatTabs k e = true := by
  decide +kernel

theorem flat_valid : flatTabs.Valid := by
  intro fn e he
  by_cases h : fn ∈ bigFlat
  · exact flat_big fn h e he
  · exact flat_small fn (by simp only [List.mem_filter]; exact ⟨by cases fn <;> decide, by simp [h]⟩) e he

end Mofmt

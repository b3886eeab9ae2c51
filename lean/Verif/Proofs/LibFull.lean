import Verif.Proofs.FmtFull
/-
The analysis of the formatting functions for calls from the library: every production may be the root.  Before
the root a token of kind `LineComment` is imagined (no formatting function asks for that kind).
-/
-- one check after the other: they need much memory
set_option Elab.async false

namespace Mofmt

/-- What holds for all productions. -/
def libTabs : Tabs where
  flat := false
  entry := fun k => ({}, .none, KSet.bit .LineComment) ::
    (fullTabs.entry k).map fun e => (e.1, e.2.1, e.2.2 ||| KSet.bit .LineComment)
  exit := fun k a => if k = .ResultReference then [⟨false, .none, KSet.of [.RParen, .RBracket, .Identifier], 0, 0⟩] else fullTabs.exit k a
  ok := fun k g => fullTabs.ok k g ||| KSet.bit .LineComment

set_option maxRecDepth 100000 in
theorem lib_small1 : ∀ k ∈ (SK.all.filter (fun k => !bigFull.contains k)).take 40, ∀ e ∈ libTabs.entry k,
    chkEntry libTabs k e = true := by
  decide +kernel

set_option maxRecDepth 100000 in
theorem lib_small2 : ∀ k ∈ (SK.all.filter (fun k => !bigFull.contains k)).drop 40, ∀ e ∈ libTabs.entry k,
    chkEntry libTabs k e = true := by
  decide +kernel

set_option maxRecDepth 100000 in
theorem lib_big : ∀ k ∈ bigFull.tail, ∀ e ∈ libTabs.entry k, chkEntry libTabs k e = true := by
  decide +kernel

set_option maxRecDepth 100000 in
theorem lib_composition1 : ∀ e ∈ (libTabs.entry .Composition).take 1, chkEntry libTabs .Composition e = true := by
  decide +kernel

set_option maxRecDepth 100000 in
theorem lib_composition2 : ∀ e ∈ (libTabs.entry .Composition).drop 1, chkEntry libTabs .Composition e = true := by
  decide +kernel

theorem lib_valid : libTabs.Valid := by
  intro fn e he
  by_cases h : fn ∈ bigFull
  · rcases List.mem_cons.1 h with rfl | h
    · rw [← List.take_append_drop 1 (libTabs.entry .Composition)] at he
      rcases List.mem_append.1 he with he | he
      · exact lib_composition1 e he
      · exact lib_composition2 e he
    · exact lib_big fn h e he
  · have hm : fn ∈ SK.all.filter (fun k => !bigFull.contains k) := by
      simp only [List.mem_filter]; exact ⟨by cases fn <;> decide, by simp [h]⟩
    rw [← List.take_append_drop 40 (SK.all.filter (fun k => !bigFull.contains k))] at hm
    rcases List.mem_append.1 hm with hm | hm
    · exact lib_small1 fn hm e he
    · exact lib_small2 fn hm e he

end Mofmt

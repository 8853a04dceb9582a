import Verif.Valuation.ConeExample

/-!
# Example for C56
-/

namespace Verif.Valuation

open MeasureTheory Set Verif.Measure Verif.Trie Latte.RatVec

/-- The integrand `x₀`. -/
def exTerms : List (Term ℚ) := [⟨1, [1, 0], -1⟩]

/-- The hypotheses of C56 are met by the triangle with the integrand `x₀`. -/
example : ∃ (poly : Sum ℚ) (N : ℕ), insertAll (emptySum ℚ 2) exTerms = some poly ∧
    ∀ fuel rounds, N ≤ fuel → N ≤ rounds → ∀ draws draws' r p',
      findIntegralPoly (fun _ c => [c]) fuel rounds .cone draws draws' poly (ofCones 2 exCones) = some (r, p') →
      (r : ℝ) = ∫ x in polytope 2 exCones, polyAt (monoPoly 2 exTerms) x :=
  c56_integral_polynomial _ 2 (by norm_num) exCones ex_tangent ex_engine exTerms ⟨by decide, by decide +kernel, by decide⟩ (by decide +kernel)

/-- The program returns a number for it. -/
example : ((insertAll (emptySum ℚ 2) exTerms).bind fun poly =>
    (findIntegralPoly (fun _ c => [c]) 9 9 .cone [1, 2, 3, 4, 5, 6] [1, 2] poly (ofCones 2 exCones)).map Prod.fst) = some (1 / 72) := by decide +kernel

end Verif.Valuation

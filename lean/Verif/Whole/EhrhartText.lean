import Verif.Whole.EhrhartExample
import Verif.Files.Convert

/-!
# C92: the text that is printed
-/

namespace Verif.Whole

open Verif.Files Latte.Decimal Latte.Rational

/-- count.cpp:590–603: the loop that prints the coefficients, from the exponent `i` on. -/
def ehrhartTerms : ℕ → List ℚ → List Char
  | _, [] => []
  | i, c :: cs =>
    (if 0 < c then [' ', '+', ' '] ++ CddV.printQ c ++ [' ', '*', ' ', 't', '^'] ++ printNat i
      else if c < 0 then [' ', '-', ' '] ++ CddV.printQ |c| ++ [' ', '*', ' ', 't', '^'] ++ printNat i
      else []) ++ ehrhartTerms (i + 1) cs

/-- What is on standard output at the end (count.cpp:590–606). -/
def ehrhartText (coeffs : List ℚ) : List Char := ehrhartTerms 0 coeffs ++ ['\n', '\n']

/-- **Specification.** The value at `t` of a sum of terms `± number * t^exponent`, given as its words. -/
def readSum (t : ℚ) : List (List Char) → Option ℚ
  | [] => some 0
  | ['+'] :: w :: ['*'] :: ('t' :: '^' :: e) :: rest =>
    match ofString w, parseNat e, readSum t rest with
    | some q, some i, some v => some (q.val * t ^ i + v)
    | _, _, _ => none
  | ['-'] :: w :: ['*'] :: ('t' :: '^' :: e) :: rest =>
    match ofString w, parseNat e, readSum t rest with
    | some q, some i, some v => some (-(q.val * t ^ i) + v)
    | _, _, _ => none
  | _ => none

theorem printNat_int (n : ℕ) : printInt (n : ℤ) = printNat n := by
  unfold printInt
  rw [if_neg (by omega)]
  simp

theorem printQ_denotes (q : ℚ) : Denotes (CddV.printQ q) q := by
  unfold CddV.printQ
  by_cases h : q.den = 1
  · left
    rw [if_pos h]
    exact ⟨q.num, by simp, ((Rat.den_eq_one_iff q).1 h).symm⟩
  · right
    rw [if_neg h]
    exact ⟨q.num, q.den, by exact_mod_cast q.den_ne_zero, by rw [printNat_int], by
      conv_lhs => rw [← Rat.num_div_den q]
      push_cast
      rfl⟩

theorem printQ_noSpace (q : ℚ) : ∀ c ∈ CddV.printQ q, isSpace c = false := by
  intro c hc
  unfold CddV.printQ at hc
  rcases List.mem_append.1 hc with h | h
  · exact printInt_noSpace _ c h
  · split at h
    · cases h
    · rcases List.mem_cons.1 h with rfl | h
      · decide
      · exact isDigit_not_space (printNat_digits _ c h)

theorem printQ_ne_nil (q : ℚ) : CddV.printQ q ≠ [] := by
  unfold CddV.printQ
  intro h
  exact printInt_ne_nil _ (List.append_eq_nil_iff.1 h).1

theorem words_term (s : Char) (hs : isSpace s = false) (q : ℚ) (i : ℕ) (b : Char) (hb : isSpace b = true) (rest : List Char) :
    splitWords [] ([' ', s, ' '] ++ CddV.printQ q ++ [' ', '*', ' ', 't', '^'] ++ printNat i ++ b :: rest) =
      [s] :: CddV.printQ q :: ['*'] :: ('t' :: '^' :: printNat i) :: splitWords [] (b :: rest) := by
  have e : [' ', s, ' '] ++ CddV.printQ q ++ [' ', '*', ' ', 't', '^'] ++ printNat i ++ b :: rest =
      ' ' :: ([s] ++ ' ' :: (CddV.printQ q ++ ' ' :: (['*'] ++ ' ' :: (('t' :: '^' :: printNat i) ++ b :: rest)))) := by simp
  rw [e, splitWords_space _ (by decide), splitWords_blank [s] (by simpa using hs) (by simp) ' ' (by decide),
    splitWords_blank _ (printQ_noSpace q) (printQ_ne_nil q) ' ' (by decide), splitWords_blank ['*'] (by decide) (by simp) ' ' (by decide),
    splitWords_blank ('t' :: '^' :: printNat i) (by
      intro c hc
      simp only [List.mem_cons] at hc
      rcases hc with rfl | rfl | hc
      · decide
      · decide
      · exact isDigit_not_space (printNat_digits _ c hc)) (by simp) b hb, splitWords_space b hb]

theorem terms_head (cs : List ℚ) (i : ℕ) : ∃ b rest, isSpace b = true ∧ ehrhartTerms i cs ++ ['\n', '\n'] = b :: rest := by
  induction cs generalizing i with
  | nil => exact ⟨'\n', ['\n'], by decide, rfl⟩
  | cons c cs ih =>
    unfold ehrhartTerms
    split
    · exact ⟨' ', _, by decide, rfl⟩
    · split
      · exact ⟨' ', _, by decide, rfl⟩
      · rw [List.nil_append]
        exact ih (i + 1)

theorem read_terms (t : ℚ) (cs : List ℚ) (i : ℕ) :
    readSum t (splitWords [] (ehrhartTerms i cs ++ ['\n', '\n'])) = some (t ^ i * polyValue cs t) := by
  induction cs generalizing i with
  | nil =>
    show readSum t [] = _
    unfold polyValue
    simp [readSum]
  | cons c cs ih =>
    have hv : polyValue (c :: cs) t = c + t * polyValue cs t := rfl
    obtain ⟨b, rest, hb, he⟩ := terms_head cs (i + 1)
    have ih := ih (i + 1)
    unfold ehrhartTerms
    rw [hv]
    by_cases hp : 0 < c
    · obtain ⟨r, hr, -, hval⟩ := denotes_ofString _ _ (printQ_denotes c)
      rw [if_pos hp, List.append_assoc, he, words_term '+' (by decide) c i b hb rest, ← he, readSum, hr, parseNat_printNat, ih]
      dsimp only
      rw [hval]
      congr 1
      ring
    · rw [if_neg hp]
      by_cases hn : c < 0
      · obtain ⟨r, hr, -, hval⟩ := denotes_ofString _ _ (printQ_denotes |c|)
        rw [if_pos hn, List.append_assoc, he, words_term '-' (by decide) |c| i b hb rest, ← he, readSum, hr, parseNat_printNat, ih]
        dsimp only
        rw [hval, abs_of_neg hn]
        congr 1
        ring
      · have : c = 0 := le_antisymm (not_lt.1 hp) (not_lt.1 hn)
        subst this
        rw [if_neg hn, List.nil_append, ih]
        congr 1
        ring

/-- **C92, the text.** The text on standard output, read as a sum of terms, has the value of the polynomial at every rational `t`. -/
theorem c92_text (coeffs : List ℚ) (t : ℚ) : readSum t (splitWords [] (ehrhartText coeffs)) = some (polyValue coeffs t) := by
  unfold ehrhartText
  rw [read_terms, pow_zero, one_mul]

/-- **C92: the text printed for a file.** Its value at `t` is the number of integer points of the `t`-fold dilation. -/
theorem c92_printed {n : ℕ} {T : Tools} (hT : T.Ok) {L : Limits} (hm0 : L.maxDet ≠ 0) (hmax : L.maxDet ≤ Piped.intMax) (hfuel : L.maxDet < L.fuel) (hn : 0 < n)
    (P : Empty.Problem n) (h : P.Ok) (hs : Small P) (h0 : P.rows ≠ []) (hf : P.nonnegFirst = false) (hd : P.Directions = {0})
    {coeffs : List ℚ} (hr : ehrhartFile T L (text P) = .polynomial coeffs) (t : ℕ) (ht : 1 ≤ t) :
    readSum t (splitWords [] (ehrhartText coeffs)) = some ((dilatedPoints P t).ncard : ℚ) := by
  rw [c92_text, (c92_ehrhart hT hm0 hmax hfuel hn P h hs h0 hf hd hr).2 t ht]

/-- The polynomial of the triangle, and one with a negative and a missing coefficient. -/
example : ehrhartText [1, 3, 2] = " + 1 * t^0 + 3 * t^1 + 2 * t^2\n\n".toList ∧ ehrhartText [1, -1 / 2, 0, 3 / 4] = " + 1 * t^0 - 1/2 * t^1 + 3/4 * t^3\n\n".toList := by
  decide +kernel

end Verif.Whole

import Verif.Gmp.Model

/-!
Property C37: conversion between the two big-integer libraries is lossless.
-/

namespace Verif.Gmp

theorem sum_digits_range (n k : ℕ) :
    ((List.range k).map fun i => n / 256 ^ i % 256 * 256 ^ i).sum = n % 256 ^ k := by
  induction k with
  | zero => simp [Nat.mod_one]
  | succ k ih =>
    rw [List.range_succ, List.map_append, List.sum_append, ih]
    simp only [List.map_cons, List.map_nil, List.sum_cons, List.sum_nil, Nat.add_zero]
    rw [pow_succ, Nat.mod_mul]
    ring

theorem lt_pow_numBytes (z : ℤ) : z.natAbs < 256 ^ numBytes z := by
  have h : z.natAbs.size ≤ 8 * numBytes z := by unfold numBytes; omega
  have := Nat.size_le.1 h
  rwa [pow_mul] at this

theorem mpzImport_bytes (z : ℤ) : mpzImport (numBytes z) (bytesFromZZ z (numBytes z)) = z.natAbs := by
  unfold mpzImport bytesFromZZ
  have : (List.range (numBytes z)).map (fun i =>
      (((List.range (numBytes z)).map fun i => (⟨z.natAbs / 256 ^ i % 256, Nat.mod_lt _ (by decide)⟩ : Fin 256)).getD
        i 0).val * 256 ^ i) = (List.range (numBytes z)).map fun i => z.natAbs / 256 ^ i % 256 * 256 ^ i := by
    apply List.map_congr_left
    intro i hi
    have hi := List.mem_range.1 hi
    simp [List.getD_eq_getElem?_getD, hi]
  rw [this, sum_digits_range, Nat.mod_eq_of_lt (lt_pow_numBytes z)]

theorem sign_fix (z : ℤ) : (if z.sign = -1 then -(z.natAbs : ℤ) else (z.natAbs : ℤ)) = z := by
  rcases lt_trichotomy z 0 with h | h | h
  · rw [if_pos (Int.sign_eq_neg_one_iff_neg.2 h)]; omega
  · subst h; rfl
  · rw [if_neg (by rw [Int.sign_eq_one_of_pos h]; decide)]; omega

/-- **C37** NTL to GMP: the same integer, for every integer. -/
theorem c37_zz_to_mpz (z : ℤ) : convertZZToMpz z = z := by
  simp only [convertZZToMpz, mpzImport_bytes]
  exact sign_fix z

theorem sum_getD (l : List (Fin 256)) :
    ((List.range l.length).map fun i => ((l.getD i 0).val * 256 ^ i)).sum =
      Nat.ofDigits 256 (l.map fun d => d.val) := by
  induction l with
  | nil => simp
  | cons a l ih =>
    simp only [List.length_cons, List.range_succ_eq_map, List.map_cons, List.map_map, List.sum_cons, Nat.ofDigits_cons]
    rw [← ih, ← List.sum_map_mul_left]
    congr 1
    · simp
    · congr 1
      apply List.map_congr_left
      intro i _
      simp only [Function.comp, List.getD_cons_succ, pow_succ]
      ring

theorem export_vals (z : ℤ) : (mpzExport z).map (fun d => d.val) = Nat.digits 256 z.natAbs := by
  unfold mpzExport
  rw [List.map_map]
  conv_rhs => rw [← List.map_id (Nat.digits 256 z.natAbs)]
  apply List.map_congr_left
  intro d hd
  have := Nat.digits_lt_base (by decide : 1 < 256) hd
  simp [Fin.ofNat, Nat.mod_eq_of_lt this]

theorem export_length (z : ℤ) : (mpzExport z).length ≤ (mpzSizeInBase2 z + 8 - 1) / 8 := by
  unfold mpzExport
  rw [List.length_map]
  by_cases hz : z = 0
  · subst hz; simp
  have h0 : z.natAbs ≠ 0 := by omega
  have : z.natAbs < 256 ^ ((mpzSizeInBase2 z + 8 - 1) / 8) := by
    rw [show 256 = 2 ^ 8 by norm_num, ← pow_mul]
    apply Nat.size_le.1
    unfold mpzSizeInBase2
    rw [if_neg hz]
    omega
  exact (Nat.digits_length_le_iff (by decide) _).2 this

/-- **C37** GMP to NTL: the same integer, and the export stays inside the allocated buffer. -/
theorem c37_mpz_to_zz (z : ℤ) : convertMpzToZZ z = some z := by
  have h : (mpzExport z).length ≤ (mpzSizeInBase2 z + (8 * 1 - 0) - 1) / (8 * 1 - 0) * 1 := by
    simpa using export_length z
  simp only [convertMpzToZZ, writeBuffer]
  rw [if_pos h]
  simp only [Option.map_some, zzFromBytes, sum_getD, export_vals, Nat.ofDigits_digits]
  rw [sign_fix]

/-- **C37** Both round trips are the identity. -/
theorem c37_round_trips (z : ℤ) :
    convertMpzToZZ (convertZZToMpz z) = some z ∧ (convertMpzToZZ z).map convertZZToMpz = some z := by
  rw [c37_zz_to_mpz, c37_mpz_to_zz]
  exact ⟨rfl, by simp [c37_zz_to_mpz]⟩

/-- **C37** Rational wrappers: an integer survives; a proper fraction is stopped by the assertion. -/
theorem c37_mpq (z : ℤ) (num : ℤ) (den : ℕ) :
    convertMpqToZZ (convertZZToMpq z).1 (convertZZToMpq z).2 = some z ∧
      (den ≠ 1 → convertMpqToZZ num den = none) := by
  constructor
  · simp [convertMpqToZZ, convertZZToMpq, c37_zz_to_mpz, c37_mpz_to_zz]
  · intro h; simp [convertMpqToZZ, h]

theorem convertVecLoop_spec (vs : List ℤ) (pre : List ℤ) (n : ℕ) (hn : n = vs.length) :
    convertVecLoop vs pre.length (pre ++ List.replicate n 0) = some (pre ++ vs) := by
  induction vs generalizing pre n with
  | nil => subst hn; simp [convertVecLoop]
  | cons v vs ih =>
    subst hn
    simp only [convertVecLoop, List.length_append, List.length_replicate, List.length_cons]
    rw [if_pos (by omega)]
    have : (pre ++ List.replicate (vs.length + 1) 0).set pre.length (convertZZToMpz v) =
        (pre ++ [v]) ++ List.replicate vs.length 0 := by
      rw [List.set_append_right _ _ le_rfl]
      simp [List.replicate_succ, c37_zz_to_mpz]
    rw [this]
    have h := ih (pre ++ [v]) vs.length rfl
    simp only [List.length_append, List.length_cons, List.length_nil, Nat.zero_add] at h
    rw [h]
    simp

/-- **C37** Vectors are converted entry by entry. -/
theorem c37_vectors (vec : List ℤ) : convertVec vec = some vec := by
  have := convertVecLoop_spec vec [] vec.length rfl
  simpa [convertVec] using this

example : convertZZToMpz (-256) = -256 := by decide +kernel
example : numBytes (-256) = 2 ∧ bytesFromZZ (-256) 2 = [0, 1] := by decide +kernel
example : convertMpzToZZ 0 = some 0 := by decide +kernel

end Verif.Gmp

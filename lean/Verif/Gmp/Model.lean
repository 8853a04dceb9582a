import Mathlib.Data.Nat.Digits.Lemmas
import Mathlib.Data.Nat.Size

/-!
Model of `code/latte/latte_gmp.cpp`: conversion of big integers between NTL (`ZZ`) and GMP (`mpz_class`).

Both libraries' integers are modelled by `ℤ`.  The library routines are modelled by their documented behaviour
(NTL `ZZ.h`, GMP manual sections "Integer Import and Export", "Miscellaneous Integer Functions"); those
definitions say so and are part of the trusted base.
-/

namespace Verif.Gmp

/-- a byte buffer -/
abbrev Bytes := List (Fin 256)

/-- NTL `NumBytes(a)`: number of bytes in the binary representation of `|a|`; `NumBytes(0) = 0`. -/
def numBytes (z : ℤ) : ℕ := (z.natAbs.size + 7) / 8

/-- NTL `BytesFromZZ(p, a, n)`: `p[0..n-1]` are the `n` low-order bytes of `|a|`, low-order byte first. -/
def bytesFromZZ (z : ℤ) (n : ℕ) : Bytes :=
  (List.range n).map fun i => ⟨z.natAbs / 256 ^ i % 256, Nat.mod_lt _ (by decide)⟩

/-- NTL `ZZFromBytes(p, n)`: `sum p[i] * 256^i`. -/
def zzFromBytes (b : Bytes) (n : ℕ) : ℤ :=
  (((List.range n).map fun i => ((b.getD i 0).val * 256 ^ i)).sum : ℕ)

/-- GMP `mpz_import(rop, count, order = -1, size = 1, endian = 1, nails = 0, data)`: `count` words of one byte,
least significant first; the result is non-negative. -/
def mpzImport (count : ℕ) (b : Bytes) : ℤ :=
  (((List.range count).map fun i => ((b.getD i 0).val * 256 ^ i)).sum : ℕ)

/-- GMP `mpz_sizeinbase(op, 2)`: number of bits of `|op|`; the result is `1` for `op = 0`. -/
def mpzSizeInBase2 (z : ℤ) : ℕ := if z = 0 then 1 else z.natAbs.size

/-- GMP `mpz_export(rop, countp, order = -1, size = 1, endian = 1, nails = 0, op)`: the bytes written, least
significant first, of `|op|` (the sign is ignored); `*countp` is their number, the most significant one is not
zero, and nothing is written for `op = 0`. -/
def mpzExport (z : ℤ) : Bytes :=
  (Nat.digits 256 z.natAbs).map fun d => Fin.ofNat 256 d

/-- latte_gmp.cpp:24-43 `convert_ZZ_to_mpz` (both forms). -/
def convertZZToMpz (zz : ℤ) : ℤ :=
  let size := numBytes zz
  let sig := zz.sign
  let data := bytesFromZZ zz size
  let mpz := mpzImport size data
  if sig = -1 then -mpz else mpz

/-- Result of a conversion that writes into a buffer: `none` if the buffer is too small. -/
def writeBuffer (capacity : ℕ) (b : Bytes) : Option Bytes :=
  if b.length ≤ capacity then some b else none

/-- latte_gmp.cpp:45-64 `convert_mpz_to_ZZ`: the buffer has `count` bytes; `none` would be a buffer overflow. -/
def convertMpzToZZ (mpz : ℤ) : Option ℤ :=
  let sig := mpz.sign
  let size := 1
  let nail := 0
  let numb := 8 * size - nail
  let count := (mpzSizeInBase2 mpz + numb - 1) / numb
  (writeBuffer (count * size) (mpzExport mpz)).map fun data =>
    let result := zzFromBytes data data.length
    if sig = -1 then -result else result

/-- latte_gmp.cpp:72-85 `convert_mpq_to_ZZ`: numerator and denominator; `none` is a failed assertion. -/
def convertMpqToZZ (num : ℤ) (den : ℕ) : Option ℤ :=
  if den = 1 then convertMpzToZZ num else none

/-- latte_gmp.cpp:66-70 `convert_ZZ_to_mpq`: `mpq_class` of an integer has denominator one. -/
def convertZZToMpq (zz : ℤ) : ℤ × ℕ := (convertZZToMpz zz, 1)

/-- latte_gmp.cpp:95-102 loop of `convert_vec_ZZ_to_mpz_vector`: `result[j] = …` for all `j < vec.length()`; writing
behind the end of `result` is undefined (`none`). -/
def convertVecLoop : List ℤ → ℕ → List ℤ → Option (List ℤ)
  | [], _, result => some result
  | v :: vs, j, result =>
    if j < result.length then convertVecLoop vs (j + 1) (result.set j (convertZZToMpz v)) else none

/-- latte_gmp.cpp:87-93 `convert_vec_ZZ_to_mpz_vector`: a result of `vec.length()` zeros is filled. -/
def convertVec (vec : List ℤ) : Option (List ℤ) := convertVecLoop vec 0 (List.replicate vec.length 0)

end Verif.Gmp

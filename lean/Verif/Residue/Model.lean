import Verif.Residue.Helpers

/-! Model of `computeResidue` (code/latte/integration/residue.cpp:70-267), `update` and `integrateLinFormSum`
(code/latte/integration/newIntegration.cpp:133-277). `ZZ` is `Int`. Univariate polynomials held in burst tries are lists
of coefficients indexed by the exponent (properties C21-C23 relate the tries to such finite maps); all coefficients
occurring in `computeResidue` are integers. Writing outside `counter[d]`/`index`, `repeat[1000]` or `bi[20]` is `none`. -/

namespace Latte.Residue

/-- residue.cpp:99-115 search of the difference among those seen, or a new entry. -/
def bump (x : Int) : List (Int × Nat) → List (Int × Nat)
  | [] => [(x, 1)]
  | (y, c) :: r => if x = y then (y, c + 1) :: r else (y, c) :: bump x r

/-- residue.cpp:92-116 the loop collecting distinct differences with multiplicity; the arrays have `d` entries. -/
def collect (d : Nat) : List Int → List (Int × Nat) → Option (List (Int × Nat))
  | [], t => some t
  | x :: xs, t =>
    let t' := bump x t
    if t'.length ≤ d then collect d xs t' else none

/-- multiply.h `multiply` with degree window `[0, c0]` on univariate polynomials. -/
def mulTrunc (c0 : Nat) (p q : List Int) : List Int :=
  (List.range (c0 + 1)).map fun n => ((List.range (n + 1)).map fun i => p.getD i 0 * q.getD (n - i) 0).sum

/-- residue.cpp:142-147 truncated `(z+p)^(M+d)`. -/
def numSeries (Md : Nat) (p : Int) (c0 : Nat) : Option (List Int) :=
  (List.range (c0 + 1)).mapM fun (i : Nat) => (powerZZ p ((Md : Int) - i)).map fun w => aChooseB Md i * w

/-- residue.cpp:150-163 the series of `index^(counter+c0) / (z+index)^counter`. -/
def facSeries (x : Int) (c c0 : Nat) : Option (List Int) :=
  (List.range (c0 + 1)).mapM fun (j : Nat) => (powerZZ x ((c0 : Int) - j)).map fun w =>
    if j % 2 = 1 then aChooseB ((c : Int) + j - 1) j * w * (-1) else aChooseB ((c : Int) + j - 1) j * w

/-- residue.cpp:132-133 -/
def denLoop (c0 : Nat) : List (Int × Nat) → Int → Option Int
  | [], de => some de
  | (x, c) :: r, de => (powerZZ x ((c : Int) + c0)).bind fun w => denLoop c0 r (de * w)

/-- residue.cpp:148-188 the alternating multiplications. -/
def mulLoop (c0 : Nat) : List (Int × Nat) → List Int → Option (List Int)
  | [], m1 => some m1
  | (x, c) :: r, m1 => (facSeries x c c0).bind fun m2 => mulLoop c0 r (mulTrunc c0 m1 m2)

/-- residue.cpp:252-257 reduction by the gcd (also newIntegration.cpp:231-236). -/
def reduceFrac (a b : Int) : Int × Int :=
  let g : Int := Int.gcd a b
  if g ≠ 0 then (a.fdiv g, b.fdiv g) else (a, b)

/-- residue.cpp:70-267 `computeResidue`. -/
def computeResidue (d M : Nat) (diffs : List Int) (p : Int) : Option (Int × Int) :=
  if p = 0 then some (0, 1)
  else
    match collect d diffs [(0, 0)] with
    | none => none
    | some [] => none
    | some ((_, n0) :: rest) =>
      let c0 := n0 - 1
      (denLoop c0 rest 1).bind fun de =>
      (numSeries (M + d) p c0).bind fun m1 =>
      (mulLoop c0 rest m1).map fun pr => reduceFrac (pr.getD c0 0) de

/-- newIntegration.h `simplexZZ`. -/
structure Simplex where
  d : Nat
  s : List (List Int)
  v : Int

/-- newIntegration.cpp:150-154 inner product loop. -/
def innerPro (d : Nat) (l s : List Int) : Int := (List.range d).foldl (fun sum j => sum + l.getD j 0 * s.getD j 0) 0

/-- newIntegration.cpp:155-161 `repeat[i]`. -/
def isRepeat (xs : List Int) (i : Nat) : Bool := (xs.take i).contains (xs.getD i 0)

/-- newIntegration.cpp:165-195 the fraction for index `i` (not a repetition). -/
def fracAt (d m : Nat) (xs : List Int) (i : Nat) : Option (Int × Int) :=
  let x := xs.getD i 0
  let nu := (List.range (m + d)).foldl (fun n _ => n * x) 1
  let de := (List.range (d + 1)).foldl (fun p j => if i ≠ j then p * (x - xs.getD j 0) else p) 1
  let (nu, de) := if nu < 0 ∧ de < 0 then (-nu, -de) else (nu, de)
  if de = 0 then computeResidue d m ((List.range (d + 1)).map fun j => x - xs.getD j 0) x
  else some (nu, de)

/-- newIntegration.cpp:196-199 -/
def lcmStep (lcm : Int) (f : Int × Int) : Int := if f.2 ≠ 0 then (lcm * f.2).fdiv (Int.gcd lcm f.2 : Int) else lcm

/-- newIntegration.cpp:207-211 -/
def totalStep (lcm total : Int) (f : Int × Int) : Int := if f.2 ≠ 0 then total + f.1 * (lcm.fdiv f.2) else total

/-- newIntegration.cpp:133-237 `update`; `coe` is a fraction in lowest terms given by numerator and denominator. -/
def update (ab : Int × Int) (l : List Int) (S : Simplex) (m : Nat) (coeN coeD : Int) (de : Int) : Option (Int × Int) :=
  if S.d ≥ 1000 then none
  else
    let xs := (List.range (S.d + 1)).map fun i => innerPro S.d l (S.s.getD i [])
    (((List.range (S.d + 1)).filter fun i => !isRepeat xs i).mapM fun i => fracAt S.d m xs i).map fun fs =>
      let lcm := fs.foldl lcmStep 1
      let total := fs.foldl (totalStep lcm) 0
      let lcm := lcm * de * coeD
      let total := total * S.v * coeN
      let (a, b) :=
        if ab.1 = 0 then (total, lcm)
        else if lcm ≠ 0 ∧ ab.2 ≠ 0 then
          let tem := (ab.2 * lcm).fdiv (Int.gcd ab.2 lcm : Int)
          ((ab.1 * tem).fdiv ab.2 + (total * tem).fdiv lcm, tem)
        else ab
      reduceFrac a b

/-- one stored power of a linear form: coefficient (already multiplied by `m!`), power `m`, the form -/
structure LForm where
  coeN : Int
  coeD : Int
  deg : Nat
  l : List Int

/-- newIntegration.cpp:251-271 the loop over the forms. -/
def formLoop (S : Simplex) : List LForm → Int × Int → Option (Int × Int)
  | [], ab => some ab
  | f :: fs, ab =>
    let de := (List.range (S.d + f.deg)).foldl (fun (de : Int) (i : Nat) => de * ((i : Int) + 1)) 1
    (update ab f.l S f.deg f.coeN f.coeD de).bind fun ab' => formLoop S fs ab'

/-- newIntegration.cpp:242-277 `integrateLinFormSum`. -/
def integrateLinFormSum (S : Simplex) (fs : List LForm) : Option (Int × Int) :=
  (formLoop S fs (0, 0)).map fun ab => if ab.2 < 0 then (ab.1 * -1, ab.2 * -1) else ab

end Latte.Residue

import Verif.Valuation.Model
import Verif.Residue.Helpers
import Verif.Trie.MulModel

/-!
# Model: integrals of products of powers of linear forms

Models `integrateLinFormProducts` (code/latte/integration/newIntegration.cpp:279–496), the loading of products
(`FormProductLoadConsumer`, code/latte/integration/consumers.h:68–95), `findIntegralProductsUsingTriangulation` and
`findIntegral(linFormProductSum)` (code/latte/valuation/PolytopeValuation.cpp:511–575, 1025–1085).

The stored sums, iteration and windowed multiplication are those of `Verif.Trie`, the dilation functions, the class and the two
drivers those of `Verif.Valuation.Model`. `int` and `ZZ` are unbounded integers; a failed assertion, an exception, a null pointer or
an access out of bounds is `none`. The text of an integrand is not parsed here: an integrand is a list of products.
-/

namespace Verif.Products

open Verif.Trie Verif.Valuation Latte.Residue

/-! ## Loading -/

/-- PolyTrie.cpp:338–440 `parseLinFormProducts`, with consumers.h:72–78 `ConsumeLinForm`: the terms inserted for one product
`[c, [[d₁, l₁], [d₂, l₂], …]]`. The first factor gets the coefficient `c`, the others `1` (line 419); each is multiplied by `d!`
(`for (i = 2; i <= degree; ++i)`). -/
def loadTerms : ℚ → List (ℤ × List ℤ) → List (Term ℚ)
  | _, [] => []
  | c, (d, l) :: fs =>
    ⟨(List.range (d.toNat - 1)).foldl (fun (a : ℚ) (i : ℕ) => a * ((i + 2 : ℕ) : ℚ)) c, l, d⟩ :: loadTerms 1 fs

/-- consumers.h:72–91: one product of the loaded integrand. -/
def loadProduct (n : ℕ) (c : ℚ) (fs : List (ℤ × List ℤ)) : Option (Sum ℚ) := insertAll ⟨0, n, none⟩ (loadTerms c fs)

/-! ## One simplex -/

/-- newIntegration.cpp:410–415: one step of the counter with carries; running off the array is `none`. -/
def bumpC : List ℕ → List ℕ → Option (List ℕ)
  | m :: ms, c :: cs => if c + 1 > m then (bumpC ms cs).map (0 :: ·) else some ((c + 1) :: cs)
  | _, _ => none

/-- newIntegration.cpp:426–431: the product over `k` of `AChooseB(lenC, counter[k])` and `power(tVector[k], counter[k])`, with `lenC`
decreasing. -/
def coefLoop : ℕ → List ℤ → List ℕ → ℚ → ℚ
  | len, t :: ts, c :: cs, a => coefLoop (len - c) ts cs (a * (aChooseB len c : ℚ) * ((t ^ c : ℤ) : ℚ))
  | _, _, _, a => a

/-- newIntegration.cpp:419–434: the coefficient of the monomial with exponents `counter`. -/
def coefOf (tv : List ℤ) (counter : List ℕ) : ℚ :=
  let len := counter.foldl (fun a c => a + c) 0
  let c := coefLoop len tv counter 1
  if len % 2 = 1 then -c else c

/-- newIntegration.cpp:408–442: the loop over the monomials up to `M`; each is inserted. -/
def expandLoop (M : List ℕ) (tv : List ℤ) : ℕ → List ℕ → Sum ℚ → Option (Sum ℚ)
  | 0, _, s => some s
  | k + 1, counter, s =>
    match bumpC M counter with
    | none => none
    | some counter =>
      match insertSum s ⟨coefOf tv counter, counter.map fun c : ℕ => (c : ℤ), -1⟩ with
      | none => none
      | some s => expandLoop M tv k counter s

/-- newIntegration.cpp:397–442: `thePolynomial`, starting with the monomial 1; `monomialCount - 1` rounds. -/
def expand (M : List ℕ) (tv : List ℤ) : Option (Sum ℚ) :=
  (insertSum ⟨0, M.length, none⟩ ⟨1, M.map fun _ => 0, -1⟩).bind fun s =>
    expandLoop M tv (M.foldl (fun a m => a * (m + 1)) 1 - 1) (M.map fun _ => 0) s

/-- newIntegration.cpp:378–393: `tVector` for the vertex `s`: minus the inner products with the forms. -/
def tVector (s : List ℤ) (fs : List (Term ℚ)) : List ℤ := fs.map fun t => -innerPro t.exps.length s t.exps

/-- newIntegration.cpp:375–466: the loop over the vertices; `polynomialProduct` is replaced by its product with the expansion, cut off at
`M` in every variable. -/
def vertexLoop (fuel rounds : ℕ) (M : List ℕ) (fs : List (Term ℚ)) : List (List ℤ) → Option (Root ℚ) → Option (Option (Root ℚ))
  | [], r => some r
  | s :: ss, r =>
    match expand M (tVector s fs) with
    | none => none
    | some p =>
      match multiply fuel rounds M.length (windowAdd (M.map fun _ => 0) (M.map fun m : ℕ => (m : ℤ))) p.trie r with
      | none => none
      | some r => vertexLoop fuel rounds M fs ss r

/-- newIntegration.cpp:474–492: the search for the exponents `M`; not found is the failed assertion. -/
def findCoef (M : List ℤ) : List (Term ℚ) → Option ℚ
  | [] => none
  | t :: ts => if t.exps = M then some t.coef else findCoef M ts

/-- newIntegration.cpp:355–359 `factorialDim`. -/
def factorialDim (k : ℕ) : ℤ := (List.range (k - 1)).foldl (fun (a : ℤ) (i : ℕ) => a * ((i + 2 : ℕ) : ℤ)) 1

/-- newIntegration.cpp:324–496 `integrateLinFormProducts` for the terms `fs` delivered by the iterator and `count` factors. The vertices of
the simplex are `S.s`, of which the first `d + 1` are used. -/
def integrateProducts (fuel rounds : ℕ) (S : Simplex) (count : ℕ) (fs : List (Term ℚ)) : Option ℚ :=
  let M := fs.map fun t => t.degree.toNat
  let lenM := M.foldl (fun a m => a + m) 0
  let coef := fs.foldl (fun a t => a * t.coef) (1 : ℚ)
  if fs.length ≠ count then none
  else
    let answer := coef * (S.v : ℚ) / (factorialDim (lenM + S.d) : ℚ)
    (insertSum (⟨0, M.length, none⟩ : Sum ℚ) ⟨1, M.map fun _ => 0, -1⟩).bind fun one =>
    (vertexLoop fuel rounds M fs ((List.range (S.d + 1)).map fun i => S.s.getD i []) one.trie).bind fun r =>
    (drain fuel rounds (begin' r M.length)).bind fun out =>
    (findCoef (M.map fun m : ℕ => (m : ℤ)) out).map fun c => answer * c

/-! ## The valuation -/

/-- PolytopeValuation.cpp:1043–1080: the loop over the simplices. -/
def simplexLoopP (fuel rounds n k count : ℕ) (fs : List (Term ℚ)) : List VCone → ℚ → Option ℚ
  | [], a => some a
  | c :: cs, a =>
    (simplexOf n k c.rays).bind fun S =>
    (integrateProducts fuel rounds S count fs).bind fun q => simplexLoopP fuel rounds n k count fs cs (a + q)

/-- PolytopeValuation.cpp:1025–1085 `findIntegralProductsUsingTriangulation`. -/
def productTriangulation (fuel rounds : ℕ) (p : PV) (forms : Sum ℚ) : Option ℚ :=
  if forms.termCount = 0 then some 0
  else (drain fuel rounds (begin' forms.trie forms.varCount)).bind fun fs =>
    simplexLoopP fuel rounds (p.numOfVarsOneCone - 1) p.numOfVarsOneCone forms.termCount fs (p.tri.getD []) 0

/-- PolytopeValuation.cpp:538–556: the loop over the products; the products with their constants split off, and the sum of the constants. A
constant next to another factor raises an exception. -/
def dilateProducts (fuel rounds : ℕ) (D : ℤ) : List (Sum ℚ) → ℚ → Option (List (Sum ℚ) × ℚ)
  | [], c => some ([], c)
  | f :: fs, c =>
    (dilateLinearForms fuel rounds f D).bind fun l =>
    if 0 < l.1.termCount ∧ l.2 ≠ 0 then none
    else if l.2 ≠ 0 then dilateProducts fuel rounds D fs (c + l.2)
    else (dilateProducts fuel rounds D fs c).map fun r => (l.1 :: r.1, r.2)

/-- PolytopeValuation.cpp:563–564: the loop over the products. -/
def sumProducts (fuel rounds : ℕ) (p : PV) : List (Sum ℚ) → ℚ → Option ℚ
  | [], a => some a
  | f :: fs, a => (productTriangulation fuel rounds p f).bind fun v => sumProducts fuel rounds p fs (a + v)

/-- PolytopeValuation.cpp:511–575 `findIntegral(linFormProductSum)`; `varCount` is `n`. -/
def findIntegralProducts (T : ℕ → VCone → List VCone) (fuel rounds n : ℕ) (products : List (Sum ℚ)) (p : PV) : Option (ℚ × PV) :=
  (dilatePV p).bind fun q =>
  (dilateProducts fuel rounds q.1 products 0).bind fun l =>
  (convertToOneCone q.2).bind fun p =>
  (triangulateOneCone T p).bind fun p =>
  (sumProducts fuel rounds p l.1 0).bind fun a =>
  let a := a / (q.1 : ℚ) ^ n
  if l.2 ≠ 0 then
    (findVolume T .triangulation [] p).map fun v =>
      (a + (if p.numOfVars ≠ p.numOfVarsOneCone then v.1 * l.2 / (q.1 : ℚ) ^ n else v.1 * l.2), v.2)
  else some (a, p)

end Verif.Products

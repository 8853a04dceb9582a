import Verif.Ti2.Model
import Verif.Regular.Count
import Verif.Trie.TextModel
import Verif.Trie.DecModel

/-!
# The Maple script for the top coefficients of the Ehrhart quasi-polynomial

Models `code/latte/top-ehrhart/TopEhrhart.cpp`: what is written to `compute-top-ehrhart.mpl`.  The run of Maple (line 234) is not modelled.
-/

namespace Verif.TopScript

open Verif.Barvinok Verif.Barvinok.Spec Verif.Ti2
open Verif.ExpSubst (Fail)
open Verif.Trie (Term)
open Verif.Trie.Text (printRat)
open Latte.Decimal (printInt)

variable {n : ℕ}

/-- The loops that print items with something between them (TopEhrhart.cpp:113–118, 128–140, 131–136, 146–147, 150–151, 164–184). -/
def sepBy (sep : List Char) : List (List Char) → List Char
  | [] => []
  | [x] => x
  | x :: y :: r => x ++ sep ++ sepBy sep (y :: r)

/-- TopEhrhart.cpp:130–137: a ray. -/
def rayText (r : Vec n) : List Char := "\n\t[".toList ++ sepBy ", ".toList (List.ofFn fun i : Fin n => printInt (r i)) ++ "]".toList

/-- TopEhrhart.cpp:109–145: a cone. The entries of the vertex are printed as `RationalNTL`, that is, reduced (C01, C03). -/
def coneText (C : GCone n) : List Char :=
  "\n[".toList ++ "[".toList ++ sepBy ", ".toList (List.ofFn fun i : Fin n => printRat (C.vertex i)) ++ "], ".toList ++
    "[".toList ++ sepBy ",".toList (C.rays.map rayText) ++ "]".toList ++ "]".toList

/-- TopEhrhart.cpp:103–106: the parts are dualized back. -/
def dualizeBack (dual : GCone n → Except Fail (GCone n)) (vertex : Fin n → ℚ) : List (List (Vec n)) → Except Fail (List (GCone n))
  | [] => .ok []
  | p :: ps =>
    match dual ⟨vertex, p, [], [], []⟩ with
    | .error e => .error e
    | .ok D =>
      match dualizeBack dual vertex ps with
      | .error e => .error e
      | .ok Ds => .ok (D :: Ds)

/-- TopEhrhart.cpp:86–97, 103–106: the simplicial cones for a vertex cone. `tri i` is call number `i` of `triangulateCone`; the parts are collected in a list (C75) and have no facets.
`triangulateCone` returns a cone with as many rays as coordinates as it is; a pointed cone with that many facets has that many rays, so it is not called for such a cone. -/
def simplicialCones (dual : GCone n → Except Fail (GCone n)) (tri : ℕ → List (Vec n) → ℕ → Except Fail (List (List (Vec n)) × ℕ)) (i : ℕ) (C : GCone n) :
    Except Fail (List (GCone n)) :=
  if C.rays.length ≠ n then
    match dual C with
    | .error e => .error e
    | .ok D =>
      match tri i D.rays 0 with
      | .error e => .error e
      | .ok (parts, _) =>
        match dual D with
        | .error e => .error e
        | .ok _ => dualizeBack dual D.vertex (Regular.collect parts)
  else .ok [C]

/-- TopEhrhart.cpp:80–152: the loop over the vertex cones, with the assertion in line 123. -/
def listedCones (dual : GCone n → Except Fail (GCone n)) (tri : ℕ → List (Vec n) → ℕ → Except Fail (List (List (Vec n)) × ℕ)) :
    ℕ → List (GCone n) → Except Fail (List (List (GCone n)))
  | _, [] => .ok []
  | i, C :: cs =>
    match simplicialCones dual tri i C with
    | .error e => .error e
    | .ok S =>
      if ∀ c ∈ S, c.rays.length = n then
        match listedCones dual tri (i + 1) cs with
        | .error e => .error e
        | .ok Ss => .ok (S :: Ss)
      else .error .abort

/-- TopEhrhart.cpp:79–153: the list of cones. -/
def conesText (Ss : List (List (GCone n))) : List Char := "[".toList ++ sepBy ",".toList (Ss.map fun S => sepBy ",".toList (S.map coneText)) ++ "]".toList

/-- TopEhrhart.cpp:166–169: the loop for the factorial. -/
def degFactorial (d : ℤ) : ℤ := (List.range (d.toNat - 1)).foldl (fun (a : ℤ) (i : ℕ) => a * (d - i)) 1

/-- TopEhrhart.cpp:171–180: a power of a linear form. -/
def formText (t : Term ℚ) : List Char :=
  "[".toList ++ printRat (t.coef / (degFactorial t.degree : ℚ)) ++ ", [".toList ++ printInt t.degree ++ ", [".toList ++
    sepBy ", ".toList (t.exps.map printInt) ++ "]]]".toList

/-- TopEhrhart.cpp:163–185: the list of powers of linear forms. -/
def formsText (ts : List (Term ℚ)) : List Char := "[".toList ++ sepBy ", \n\t".toList (ts.map formText) ++ "]".toList

/-- The parameters of the constructor, TopEhrhart.cpp:11–12. -/
structure Options where
  coefficients : ℤ
  realDilations : Bool
  save : List Char

/-- TopEhrhart.cpp:203–224: the call. -/
def callText (o : Options) (n : ℕ) : List Char :=
  "epoly:=".toList ++
  (if o.coefficients ≥ 0 then "findEhrhartPolynomial".toList ++ "(t, T, simpleCones, linearForms,".toList ++ printInt n
    else "printIncrementalEhrhartPolynomial".toList ++ "(t, T, simpleCones, linearForms,".toList ++ printInt n) ++
  ", ".toList ++ (if o.realDilations then "true" else "false").toList ++
  (if o.coefficients ≥ 0 then ", ".toList ++ printInt o.coefficients else ", ".toList ++ "-1".toList) ++
  (if o.save = "-1".toList then ", ".toList ++ printInt (-1) ++ "):".toList else ", ".toList ++ "\"".toList ++ o.save ++ "\"".toList ++ "):".toList) ++ "\n".toList

/-- TopEhrhart.cpp:64–232: the file; `dir` is the directory of the Maple scripts. -/
def script (dir : List Char) (o : Options) (n : ℕ) (Ss : List (List (GCone n))) (ts : List (Term ℚ)) : List Char :=
  "read(\"".toList ++ dir ++ "/Conebyconeapproximations_08_11_2010.mpl\"):\n\n\n seed:=randomize():\n".toList ++ "\n simpleCones := ".toList ++
  conesText Ss ++ ": #end of the vertex-cones\nlinearForms:= ".toList ++ formsText ts ++
  ": #end of the linear forms. \n\n".toList ++ "printf(\"Starting to compute the Ehrhart polynomial\\n\");\nt1:=time():\n".toList ++
  callText o n ++
  "t2:=time()-t1:\n\n\nprintf(\"\\n\\n\\nThe Ehrhart polynomial=%a\\n\", epoly);\n\n".toList ++
  "printf(\"Evaluation at 1 is %a\\n\", eval(subs({T=1,t=1, MOD=latteMod},epoly)));\n\nprintf(\"Total Maple time %a\\n\", t2);\n\n".toList

/-- The weight function: a polynomial, a sum of powers of linear forms, or nothing. -/
inductive Weight where
  | polynomial (p : Verif.Trie.Sum ℚ)
  | forms (f : Verif.Trie.Sum ℚ)
  | one

/-- The sum of powers of linear forms that is written: TopEhrhart.cpp:38–50 (`decompose`), 60, 242–257. -/
def weightForms (fuel rounds n : ℕ) : Weight → Option (Verif.Trie.Sum ℚ)
  | .polynomial p => Verif.Trie.decompose fuel rounds n p.trie
  | .forms f => some f
  | .one => Verif.Trie.insertAll ⟨0, n, none⟩ [⟨1, List.replicate n 0, 0⟩]

/-- How it ends: with the exception for a bad number of coefficients; with a failed assertion or bad access; with the file written. -/
inductive Result where
  | badOption
  | failed (e : Fail)
  | written (s : List Char)

/-- The assertions on the number of variables, TopEhrhart.cpp:36, 62. -/
def Weight.fits (n : ℕ) : Weight → Bool
  | .polynomial p => p.varCount = n
  | .forms f => f.varCount = n
  | .one => true

/-- The constructor (TopEhrhart.cpp:11–22) and `computeTopEhrhartPolynomial`: the file that is written. -/
def computeTop (dual : GCone n → Except Fail (GCone n)) (tri : ℕ → List (Vec n) → ℕ → Except Fail (List (List (Vec n)) × ℕ)) (fuel rounds : ℕ) (dir : List Char) (o : Options)
    (cones : List (GCone n)) (w : Weight) : Result :=
  if o.coefficients ≠ -1 ∧ o.coefficients ≤ 0 then .badOption
  else if !w.fits n then .failed .abort
  else
    match weightForms fuel rounds n w with
    | none => .failed .abort
    | some f =>
      match listedCones dual tri 0 cones with
      | .error e => .failed e
      | .ok Ss =>
        match Verif.Trie.drain fuel rounds (Verif.Trie.begin' f.trie n) with
        | none => .failed .abort
        | some ts => .written (script dir o n Ss ts)

end Verif.TopScript

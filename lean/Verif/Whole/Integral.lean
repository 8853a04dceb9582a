import Verif.Whole.Volume
import Verif.Products.Props
import Verif.Valuation.ConeMethod
import Verif.Trie.Text

/-!
# C94: integrals over the polytope in a file, end to end

`integrate --valuation=integrate --monomials=INTEGRAND FILE` and `--linear-forms=INTEGRAND`, with the options `--cone-decompose`, `--polynomial-as-plf` or none:
`mainValuationDriver`, `computeIntegral`, `computeIntegralPolynomial`, `computeIntegralLinearForm`, `processUserInput` (`code/latte/valuation/valuation.cpp`) and
`findIntegralPolynomialToPLF` (`code/latte/valuation/PolytopeValuation.cpp`), put together from the models of the parts: the way from the file to the vertex cones (C93), the text of
integrands (C25, C47), integration by triangulation (C50), by cone decomposition (C56) and of products of linear forms (C80).
-/

namespace Verif.Whole

open MeasureTheory Verif.Barvinok Verif.Barvinok.Spec Verif.Ti2 Verif.Brion Verif.Files Verif.Preprocess Verif.Valuation Latte.RatVec
open Verif.ExpSubst (Fail)
open Verif.Trie (Term insertAll emptySum drain begin' monoPoly formsPoly linFormPoly)
open Verif.Trie.Text (loadMonomials loadLinForms printTerms printMono printForm rescale)
open Verif.Products (loadProduct findIntegralProducts Prod' productPoly)

variable {n m d : ℕ}

/-! ## Model -/

/-- The integrand types with a file (valuation.cpp:630–643). -/
inductive IntegrandType where
  | monomials
  | linearForms
  deriving DecidableEq

/-- The method options (valuation.cpp:1146–1180): none, `--cone-decompose`, `--polynomial-as-plf`. -/
inductive IntegralOption where
  | all
  | coneDecompose
  | polynomialAsPlf
  deriving DecidableEq

/-- `getline`, valuation.cpp:817: the integrand is the first line of its file. -/
def firstLine (s : List Char) : List Char := s.takeWhile (· ≠ '\n')

/-- `dilatePolytopeVertexRays` (PolytopeValuation.cpp:183–197) with the factor of `findDilationFactorVertexRays` (364–378). -/
def dilated (vs : List VCone) : List VCone := dilCones (dilationFactorVertexRays vs) vs

/-- PolytopeValuation.cpp:919–1010 `findIntegralPolynomialToPLF`: the product made of a monomial: a factor `x_i ^ e_i` for each variable that occurs; for a constant the factor
`(x_1 + … + x_n) ^ 0`. The coefficient goes to the first factor (`loadProduct`). -/
def monomialProduct (n : ℕ) (t : Term ℚ) : Prod' :=
  match ((List.range n).filter fun i => t.exps.getD i 0 ≠ 0).map fun i => (t.exps.getD i 0, (List.replicate n (0 : ℤ)).set i 1) with
  | [] => (t.coef, [(0, List.replicate n 1)])
  | f :: fs => (t.coef, f :: fs)

/-- PolytopeValuation.cpp:919–1012 `findIntegralPolynomialToPLF`. -/
def findIntegralPlf (T : ℕ → VCone → List VCone) (fuel rounds : ℕ) (poly : Verif.Trie.Sum ℚ) (p : PV) : Option (ℚ × PV) :=
  (drain fuel rounds (begin' poly.trie poly.varCount)).bind fun ts =>
  ((ts.map (monomialProduct poly.varCount)).mapM fun q => loadProduct poly.varCount q.1 q.2).bind fun products =>
  findIntegralProducts T fuel rounds poly.varCount products p

/-- An integration on the triangulated cone over the dilated polytope, with what can go wrong in the triangulation. -/
def onLifted (T : Tools) (d : ℕ) (vs : List VCone) (f : (ℕ → VCone → List VCone) → PV → Option (ℚ × PV)) : Except Fail ℚ :=
  match callsFail (d + 2) (T.triangulate (d + 1)) 0 [liftedCone (d + 1) (dilated vs)] with
  | some e => .error e
  | none =>
    match f (engine (d + 2) (T.triangulate (d + 1))) (ofCones (d + 1) vs) with
    | none => .error .abort
    | some (v, _) => .ok v

/-- An integration on the triangulated vertex cones; if the values of `rand()` do not suffice a loop has not ended. -/
def onCones (T : Tools) (d : ℕ) (vs : List VCone) (f : (ℕ → VCone → List VCone) → PV → Option (ℚ × PV)) : Except Fail ℚ :=
  match callsFail (d + 1) (T.triangulate d) 0 vs with
  | some e => .error e
  | none =>
    match f (engine (d + 1) (T.triangulate d)) (ofCones (d + 1) vs) with
    | none => .error .fuel
    | some (v, _) => .ok v

/-- The methods run one after the other; an error ends the program; at the end the answers are compared (valuation.cpp:215–225, 275–282). -/
def conclude : List (Except Fail ℚ) → List ℚ → VolumeEnding
  | [], as => if ∀ a ∈ as, ∀ b ∈ as, a = b then .answers as else .differ
  | .error e :: _, _ => .ended (.failed e)
  | .ok v :: rest, as => conclude rest (as ++ [v])

/-- What the loops need: bounds for the iteration over stored sums, the values of `rand()` for the perturbation and for the volume. -/
structure IntegralLimits where
  fuel : ℕ
  rounds : ℕ
  draws : List ℕ
  draws' : List ℕ

/-- valuation.cpp:98–228 `computeIntegralPolynomial`, with the methods chosen in 1161–1175; `garbage` is the content of uninitialised memory (C25). Each method has its own copy of the
polytope and loads the integrand again. -/
def computePolynomial (T : Tools) (o : IntegralOption) (L : IntegralLimits) (garbage : ℕ → ℤ) (line : List Char) (d : ℕ) (vs : List VCone) : VolumeEnding :=
  match loadMonomials garbage line with
  | none => .ended (.failed .abort)
  | some poly =>
    let tri := onLifted T d vs fun E p => findIntegralPoly E L.fuel L.rounds .triangulation [] [] poly p
    let cone := onCones T d vs fun E p => findIntegralPoly E L.fuel L.rounds .cone L.draws L.draws' poly p
    let plf := onLifted T d vs fun E p => findIntegralPlf E L.fuel L.rounds poly p
    match o with
    | .all => conclude [tri, cone, plf] []
    | .coneDecompose => conclude [cone] []
    | .polynomialAsPlf => conclude [plf] []

/-- valuation.cpp:231–288 `computeIntegralLinearForm`, with the methods chosen in 1148–1156: `--polynomial-as-plf` means nothing here. -/
def computeLinearForms (T : Tools) (o : IntegralOption) (L : IntegralLimits) (line : List Char) (d : ℕ) (vs : List VCone) : VolumeEnding :=
  match loadLinForms line with
  | none => .ended (.failed .abort)
  | some forms =>
    let tri := onLifted T d vs fun E p => findIntegralForms E L.fuel L.rounds .triangulation [] [] forms p
    let cone := onCones T d vs fun E p => findIntegralForms E L.fuel L.rounds .cone L.draws L.draws' forms p
    match o with
    | .coneDecompose => conclude [cone] []
    | _ => conclude [tri, cone] []

/-- valuation.cpp:79–97 `computeIntegral`. -/
def computeIntegral (T : Tools) (ty : IntegrandType) (o : IntegralOption) (L : IntegralLimits) (garbage : ℕ → ℤ) (line : List Char) (d : ℕ) (vs : List VCone) : VolumeEnding :=
  match ty with
  | .monomials => computePolynomial T o L garbage line d vs
  | .linearForms => computeLinearForms T o L line d vs

/-- As `volumeRows` (C93), with the integral instead of the volume. -/
def integralRows (T : Tools) (ty : IntegrandType) (o : IntegralOption) (L : IntegralLimits) (garbage : ℕ → ℤ) (line : List Char) : ∀ d, List (Row d) → VolumeEnding
  | 0, _ => .ended .undefined
  | d + 1, rows =>
    let ineqs : List (ℤ × Vec (d + 1)) := rows.map fun r => (r.b, r.a)
    match (CddV.computeVertexCones (T.vertices (d + 1) ineqs).1 (T.vertices (d + 1) ineqs).2 : CddV.Outcome (d + 1)) with
    | .done (some k) => .ended (.number k)
    | .done none => .ended .noNumber
    | .stop => .ended .stop
    | .undefined => .ended .undefined
    | .cones cones => computeIntegral T ty o L garbage line d (cones.map toVCone)

/-- **`integrate --valuation=integrate --monomials=INTEGRAND FILE`** and `--linear-forms=INTEGRAND`, valuation.cpp:379–944; `s` is the text of `FILE`, `t` that of `INTEGRAND`. -/
def integralFile (T : Tools) (ty : IntegrandType) (o : IntegralOption) (L : IntegralLimits) (garbage : ℕ → ℤ) (hermite : ℕ) (s t : List Char) : VolumeEnding :=
  match fileRows T hermite s with
  | .ended e => .ended e
  | .rows d l => integralRows T ty o L garbage (firstLine t) d l

/-! ## Specification -/

/-- **Specification.** The value at `x` of the polynomial with the monomials `xs`. -/
noncomputable def monomialsAt (xs : List (Term ℚ)) (x : Fin n → ℝ) : ℝ := (xs.map fun t : Term ℚ => (t.coef : ℝ) * ∏ j : Fin n, x j ^ (t.exps.getD j 0).toNat).sum

/-- **Specification.** The value at `x` of a sum of powers of linear forms. -/
noncomputable def powersAt (xs : List (Term ℚ)) (x : Fin n → ℝ) : ℝ :=
  (xs.map fun t : Term ℚ => (t.coef : ℝ) * (∑ j : Fin n, (t.exps.getD j 0 : ℝ) * x j) ^ t.degree.toNat).sum

/-- **Specification.** The text of the file with the polynomial: `[[c, [e_1, …, e_n]], …]` and a line end. -/
def monomialsText (xs : List (Term ℚ)) : List Char := (printTerms printMono xs).getD [] ++ ['\n']

/-- **Specification.** The text of the file with a sum of powers of linear forms: `[[c, [k, [l_1, …, l_n]]], …]` and a line end. -/
def formsText (xs : List (Term ℚ)) : List Char := (printTerms printForm xs).getD [] ++ ['\n']

/-- **Contract of the triangulation**, second part: the parts use only the rays of the cone (C75 proves it for the methods modelled). -/
def TriangulationUses (T : Tools) : Prop :=
  ∀ d t (l : List (Vec (d + 1))) k parts k', Regular.Spans l → T.triangulate d t l k = .ok (parts, k') → ∀ p ∈ parts, ∀ r ∈ p, r ∈ l

/-! ## The triangulation of the cone over the dilated polytope -/

theorem spans_of_hull (rs : List (List ℤ)) (hg : GoodRays n rs) (hi : (interior (hull n rs)).Nonempty) : Regular.Spans (rs.map (ofList (n + 1))) := by
  have hlist : (rs.map (ofList (n + 1))).map toList = rs := by
    rw [List.map_map]
    conv_rhs => rw [← List.map_id rs]
    exact List.map_congr_left fun r hr => toList_ofList r (hg r hr).1
  have hpos : ∀ r ∈ rs.map (ofList (n + 1)), 0 < r (Fin.last n) := by
    intro r hr
    obtain ⟨q, hq, rfl⟩ := List.mem_map.1 hr
    exact (hg q hq).2
  set L := rs.map (ofList (n + 1)) with hL
  intro z hz
  have key : ∀ x ∈ hull n rs, ∑ k : Fin n, x k * z k.castSucc = -z (Fin.last n) := by
    intro x hx
    rw [← hlist, mem_hull_toList L hpos, Regular.generated_iff] at hx
    have h1 := hx z fun r hr => (hz r hr).le
    have h2 := hx (-z) fun r hr => by rw [Regular.dot_neg, hz r hr, neg_zero]
    have e1 : ∑ k, atOne x k * z k = ∑ k : Fin n, x k * z k.castSucc + z (Fin.last n) := by
      rw [Fin.sum_univ_castSucc]
      simp [atOne]
    have e2 : ∑ k, atOne x k * (-z) k = -∑ k, atOne x k * z k := by
      rw [← Finset.sum_neg_distrib]
      exact Finset.sum_congr rfl fun k _ => by simp
    rw [e2] at h2
    rw [e1] at h1 h2
    linarith
  have h0 := full_dot hi (fun k => z k.castSucc) _ key
  have hk : ∀ k : Fin n, z k.castSucc = 0 := fun k => congrFun h0 k
  obtain ⟨x, hx⟩ := hi
  have hlast := key x (interior_subset hx)
  simp only [hk, mul_zero, Finset.sum_const_zero] at hlast
  funext k
  refine Fin.lastCases ?_ (fun k => ?_) k
  · change z (Fin.last n) = 0
    linarith
  · exact hk k

theorem chart_injective (r r' : List ℤ) (h : r.length = n + 1 ∧ r.getD n 0 = 1) (h' : r'.length = n + 1 ∧ r'.getD n 0 = 1) (e : chart n r = chart n r') : r = r' := by
  apply List.ext_getElem (by omega)
  intro i h1 h2
  rcases Nat.lt_or_ge i n with hi | hi
  · have := congrFun e ⟨i, hi⟩
    unfold chart at this
    rw [h.2, h'.2, Int.cast_one, div_one, div_one] at this
    have e' : r.getD i 0 = r'.getD i 0 := by exact_mod_cast this
    rwa [List.getD_eq_getElem _ _ h1, List.getD_eq_getElem _ _ h2] at e'
  · have hin : i = n := by omega
    subst hin
    have e' : r.getD i 0 = r'.getD i 0 := by rw [h.2, h'.2]
    rwa [List.getD_eq_getElem _ _ h1, List.getD_eq_getElem _ _ h2] at e'

theorem rays_unique : ∀ (rs rs' : List (List ℤ)), (∀ r ∈ rs, r.length = n + 1 ∧ r.getD n 0 = 1) → (∀ r ∈ rs', r.length = n + 1 ∧ r.getD n 0 = 1) →
    rs.map (chart n) = rs'.map (chart n) → rs = rs'
  | [], [], _, _, _ => rfl
  | [], _ :: _, _, _, h => by simp at h
  | _ :: _, [], _, _, h => by simp at h
  | r :: rs, r' :: rs', h1, h2, h => by
    rw [List.map_cons, List.map_cons, List.cons.injEq] at h
    rw [chart_injective r r' (h1 r (by simp)) (h2 r' (by simp)) h.1,
      rays_unique rs rs' (fun q hq => h1 q (by simp [hq])) (fun q hq => h2 q (by simp [hq])) h.2]

theorem dilated_rays (vs : List VCone) (hv : ∀ c ∈ vs, VertexOk n c.vertex) :
    (∀ r ∈ (liftedCone n (dilated vs)).rays, r.length = n + 1 ∧ r.getD n 0 = 1) ∧
      (liftedCone n (dilated vs)).rays.map (chart n) = (vs.map fun c => (dilationFactorVertexRays vs : ℝ) • pointR n c.vertex).reverse := by
  obtain ⟨hD, hdvd⟩ := dilationFactorVertexRays_spec n vs hv
  unfold liftedCone dilated dilCones
  constructor
  · intro r hr
    rw [List.mem_reverse, List.map_map] at hr
    obtain ⟨k, hk, rfl⟩ := List.mem_map.1 hr
    obtain ⟨s1, s2, s3⟩ := scalarMul_spec n k.vertex (hv k hk) _ hD (hdvd k hk)
    obtain ⟨l1, l2, l3, l4⟩ := liftVertex_spec n _ s1
    exact ⟨l1, by simp only [Function.comp]; rw [l2, s3]⟩
  · rw [List.map_reverse, List.map_map, List.map_map]
    congr 1
    apply List.map_congr_left
    intro k hk
    obtain ⟨s1, s2, s3⟩ := scalarMul_spec n k.vertex (hv k hk) _ hD (hdvd k hk)
    obtain ⟨l1, l2, l3, l4⟩ := liftVertex_spec n _ s1
    simp only [Function.comp]
    rw [l4, s2]

/-- What the triangulation of the cone over the dilated polytope returns. -/
theorem engine_dilate {T : Tools} (hT : ∀ d t, Regular.TriangulationOk (T.triangulate d t)) (hu : TriangulationUses T) (vs : List VCone)
    (hv : ∀ c ∈ vs, VertexOk (d + 1) c.vertex) (hi : (interior (polytope (d + 1) vs)).Nonempty)
    (hcalls : callsFail (d + 2) (T.triangulate (d + 1)) 0 [liftedCone (d + 1) (dilated vs)] = none) :
    ∃ parts : List (List (Vec (d + 2))), engine (d + 2) (T.triangulate (d + 1)) 0 (liftedCone (d + 1) (dilated vs)) =
        (parts.map fun p => ⟨ofDim (d + 1 + 1), p.map toList, 1⟩) ∧ (∀ p ∈ parts, Regular.Spans p ∧ p.length = d + 2 ∧ ∀ r ∈ p, 0 < r (Fin.last (d + 1))) ∧
      Triangulates (d + 1) (liftedCone (d + 1) (dilated vs)).rays (parts.map (List.map toList)) := by
  obtain ⟨hD, -⟩ := dilationFactorVertexRays_spec (d + 1) vs hv
  have hDR : (0:ℝ) < dilationFactorVertexRays vs := by exact_mod_cast hD
  obtain ⟨h1, h2⟩ := dilated_rays vs hv
  obtain ⟨parts, k, e, hlen⟩ := (callsFail_none _ _ 0).1 hcalls 0 _ rfl
  rw [zero_add] at e
  set rs := (liftedCone (d + 1) (dilated vs)).rays with hrs
  have hg : GoodRays (d + 1) rs := fun r hr => ⟨(h1 r hr).1, by rw [(h1 r hr).2]; exact one_pos⟩
  have hhull := hull_eq_smul (d + 1) rs vs _ h2
  have hi' : (interior (hull (d + 1) rs)).Nonempty := by
    rw [hhull, interior_smul₀ hDR.ne']
    exact hi.smul_set
  have hspans := spans_of_hull rs hg hi'
  have hsub := hT _ _ _ _ _ _ hspans e
  have huse := hu _ _ _ _ _ _ hspans e
  have hlist : (rs.map (ofList (d + 2))).map toList = rs := by
    rw [List.map_map]
    conv_rhs => rw [← List.map_id rs]
    exact List.map_congr_left fun r hr => toList_ofList r (hg r hr).1
  have hpos : ∀ r ∈ rs.map (ofList (d + 2)), 0 < r (Fin.last (d + 1)) := by
    intro r hr
    obtain ⟨q, hq, rfl⟩ := List.mem_map.1 hr
    exact (hg q hq).2
  obtain ⟨a1, a2, a3⟩ := hull_of_subdivides (rs.map (ofList (d + 2))) hpos parts.reverse hsub.reverse fun p hp => hlen p (List.mem_reverse.1 hp)
  rw [hlist] at a2
  refine ⟨parts.reverse, ?_, fun p hp => ⟨hsub.reverse.spans p hp, hlen p (List.mem_reverse.1 hp), a1 p hp⟩, ⟨?_, ?_, a2, a3⟩⟩
  · unfold engine
    rw [e]
    dsimp only
    rw [Regular.collect_eq]
    rfl
  · intro c hc
    obtain ⟨p, hp, rfl⟩ := List.mem_map.1 hc
    simpa using hlen p (List.mem_reverse.1 hp)
  · intro c hc r hr
    obtain ⟨p, hp, rfl⟩ := List.mem_map.1 hc
    obtain ⟨q, hq, rfl⟩ := List.mem_map.1 hr
    obtain ⟨r', hr', rfl⟩ := List.mem_map.1 (huse p (List.mem_reverse.1 hp) q hq)
    rw [toList_ofList r' (hg r' hr').1]
    exact hr'

theorem triangulatesDilate {T : Tools} (hT : ∀ d t, Regular.TriangulationOk (T.triangulate d t)) (hu : TriangulationUses T) (vs : List VCone)
    (hv : ∀ c ∈ vs, VertexOk (d + 1) c.vertex) (hi : (interior (polytope (d + 1) vs)).Nonempty)
    (hcalls : callsFail (d + 2) (T.triangulate (d + 1)) 0 [liftedCone (d + 1) (dilated vs)] = none) :
    TriangulatesDilate (engine (d + 2) (T.triangulate (d + 1))) (d + 1) vs := by
  obtain ⟨parts, e1, -, e2⟩ := engine_dilate hT hu vs hv hi hcalls
  obtain ⟨h1, h2⟩ := dilated_rays vs hv
  intro rs g1 g2
  have : rs = (liftedCone (d + 1) (dilated vs)).rays := rays_unique rs _ g1 h1 (by rw [g2, h2])
  subst this
  have e3 : engine (d + 2) (T.triangulate (d + 1)) 0 ⟨ofDim (d + 1 + 1), (liftedCone (d + 1) (dilated vs)).rays, 1⟩ = _ := e1
  rw [e3, List.map_map]
  exact e2

end Verif.Whole

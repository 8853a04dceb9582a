import Verif.Products.Props
import Verif.Trie.Text

/-!
# The text of sums of products of powers of linear forms

`loadLinFormProducts` and `parseLinFormProducts` (code/latte/integration/PolyTrie.cpp:326–441).
-/

namespace Verif.Products

open Verif.Trie Verif.Trie.Text Latte.Decimal

/-! ## Model -/

/-- `flag` (PolyTrie.cpp:344): expecting a coefficient, the start of a product, the start of a power, a vector. -/
inductive Flag where
  | coef
  | product
  | power
  | vec
  deriving DecidableEq

/-- consumers.h:72–78 `ConsumeLinForm`: the term inserted. -/
def formTerm (q : ℚ) (d : ℤ) (l : List ℤ) : Term ℚ := ⟨(List.range (d.toNat - 1)).foldl (fun (a : ℚ) (i : ℕ) => a * ((i + 2 : ℕ) : ℚ)) q, l, d⟩

/-- `insertLinForm(…, (*formProductSum)[index])`: `productIndex` is always the index of the last product. -/
def addLast : List (List (Term ℚ)) → Term ℚ → List (List (Term ℚ))
  | [], _ => []
  | [p], t => [p ++ [t]]
  | p :: q :: ps, t => p :: addLast (q :: ps) t

/-- The main loop, PolyTrie.cpp:369–440. `q`, `d`, `arr` are the variables `coefficient`, `degree`, `coefs`, `acc` the products so far; reading past the end of the text is `none`. -/
def prodLoop : (fuel : ℕ) → Flag → ℚ → ℤ → List ℤ → List (List (Term ℚ)) → List Char → Option (List (List (Term ℚ)))
  | 0, _, _, _, _, _, _ => none
  | f + 1, flag, q, d, arr, acc, line =>
    if line.length < 2 then some acc
    else
      match line with
      | [] => none
      | c :: cs =>
        if c = '[' then
          match flag with
          | .coef =>
            match scanTo (· == ',') cs with
            | none => none
            | some (tok, rest) => (parseRat tok).bind fun q => prodLoop f .product q d arr acc rest.tail
          | .product => prodLoop f .power q d arr (acc ++ [[]]) cs
          | .power =>
            match scanTo (· == ',') cs with
            | none => none
            | some (tok, rest) => prodLoop f .vec q (atoi tok) arr acc rest.tail
          | .vec =>
            match parseVec parseInt f 0 arr cs with
            | none => none
            | some (arr, rest) =>
              match scanTo (fun x => x == ',' || x == ']') rest.tail with
              | none => none
              | some (_, rest) => prodLoop f (if rest.head? = some ',' then .power else .coef) 1 d arr (addLast acc (formTerm q d arr)) rest.tail
        else prodLoop f flag q d arr acc cs

/-- PolyTrie.cpp:338–441 `parseLinFormProducts`: `some none` is the exit for fewer than one variable. -/
def parseLinFormProducts (line : List Char) : Option (Option (ℕ × List (List (Term ℚ)))) :=
  match commas line with
  | none => none
  | some (n + 2) => (prodLoop (line.length + 1) .coef 0 0 (List.replicate (n + 1) 0) [] line.tail).map fun r => some (n + 1, r)
  | some _ => some none

/-- PolyTrie.cpp:326–334 `loadLinFormProducts`. -/
def loadLinFormProducts (line : List Char) : Option (ℕ × List (Sum ℚ)) :=
  match parseLinFormProducts line with
  | some (some (n, ps)) => (ps.mapM fun ts => insertAll ⟨0, n, none⟩ ts).map fun l => (n, l)
  | _ => none

/-! ## Specification -/

/-- **Specification.** `[d, [l_1, …, l_n]]`. -/
def factorText (f : ℤ × List ℤ) : List Char := '[' :: (printInt f.1 ++ (',' :: ' ' :: '[' :: (printVec f.2 ++ [']', ']'])))

/-- **Specification.** The factors, separated by `, `. -/
def factorsText : List (ℤ × List ℤ) → List Char
  | [] => []
  | [f] => factorText f
  | f :: g :: fs => factorText f ++ ',' :: ' ' :: factorsText (g :: fs)

/-- **Specification.** `[c, [factors]]`. -/
def productText (p : Prod') : List Char := '[' :: (printRat p.1 ++ (',' :: ' ' :: '[' :: (factorsText p.2 ++ [']', ']'])))

/-- **Specification.** The products, separated by `, `. -/
def sumText : List Prod' → List Char
  | [] => []
  | [p] => productText p
  | p :: q :: ps => productText p ++ ',' :: ' ' :: sumText (q :: ps)

/-- **Specification.** The text of a sum of products: `[[c, [[d, [l_1, …, l_n]], …]], …]`. -/
def productsText (ps : List Prod') : List Char := '[' :: (sumText ps ++ [']'])

/-! ## Proofs -/

theorem addLast_append (acc : List (List (Term ℚ))) (p : List (Term ℚ)) (t : Term ℚ) : addLast (acc ++ [p]) t = acc ++ [p ++ [t]] := by
  induction acc with
  | nil => rfl
  | cons a acc ih =>
    cases acc with
    | nil => rfl
    | cons b acc =>
      show a :: addLast (b :: acc ++ [p]) t = _
      rw [ih]
      rfl

theorem prodLoop_skip (f : ℕ) (flag : Flag) (q : ℚ) (d : ℤ) (arr : List ℤ) (acc : List (List (Term ℚ))) (c : Char) (rest : List Char) (hc : c ≠ '[') (hr : rest ≠ []) :
    prodLoop (f + 1) flag q d arr acc (c :: rest) = prodLoop f flag q d arr acc rest := by
  rw [prodLoop.eq_def]
  simp only
  rw [if_neg]
  · simp only [if_neg hc]
  · have := List.length_pos_iff.mpr hr
    simp only [List.length_cons]; omega

theorem prodLoop_factor {n : ℕ} (x : ℤ × List ℤ) (hx : x.2.length = n) (hn : 0 < n) (f : ℕ) (q : ℚ) (d : ℤ) (arr : List ℤ) (ha : arr.length = n)
    (acc : List (List (Term ℚ))) (pre : List (Term ℚ)) (s : Char) (hs : s = ',' ∨ s = ']') (rest : List Char)
    (hf : (factorText x ++ s :: rest).length + 2 ≤ f) :
    ∃ g, rest.length + 2 ≤ g ∧ prodLoop f .power q d arr (acc ++ [pre]) (factorText x ++ s :: rest) =
      prodLoop g (if s = ',' then .power else .coef) 1 x.1 x.2 (acc ++ [pre ++ [formTerm q x.1 x.2]]) rest := by
  unfold factorText at hf ⊢
  simp only [List.length_cons, List.length_append, List.cons_append, List.append_assoc, List.nil_append] at hf ⊢
  obtain ⟨g, rfl⟩ : ∃ g, f = g + 3 := ⟨f - 3, by omega⟩
  have hne : x.2 ≠ [] := by
    intro h
    rw [h] at hx
    simp at hx
    omega
  refine ⟨g, by omega, ?_⟩
  rw [prodLoop, if_neg (by simp)]
  simp only [if_true]
  rw [scanTo_append _ _ _ _ _ (by decide)]
  · simp only [List.tail_cons]
    rw [atoi_printInt, prodLoop, if_neg (by simp)]
    simp only [Char.reduceEq, if_false]
    rw [prodLoop, if_neg (by simp)]
    simp only [if_true]
    rw [parseVec_print parseInt parseInt_printInt x.2 g 0 arr _ hne (by omega) (by omega)]
    simp only [List.take_zero, List.nil_append, List.tail_cons]
    have hsc : scanTo (fun x => x == ',' || x == ']') (s :: rest) = some ([], s :: rest) := by
      rcases hs with rfl | rfl <;> simp [scanTo]
    rw [hsc]
    simp only [List.head?_cons, Option.some.injEq, List.tail_cons]
    rw [addLast_append]
  · intro y hy
    have : y ≠ ',' := by
      rintro rfl; exact printInt_no x.1 ',' (by decide) (by decide) hy
    simpa using this

theorem prodLoop_factors {n : ℕ} (hn : 0 < n) : ∀ (fs : List (ℤ × List ℤ)) (x : ℤ × List ℤ) (f : ℕ) (q : ℚ) (d : ℤ) (arr : List ℤ) (acc : List (List (Term ℚ)))
    (pre : List (Term ℚ)) (rest : List Char), (∀ y ∈ x :: fs, y.2.length = n) → arr.length = n → (factorsText (x :: fs) ++ ']' :: rest).length + 2 ≤ f →
    ∃ g d' arr', rest.length + 2 ≤ g ∧ arr'.length = n ∧ prodLoop f .power q d arr (acc ++ [pre]) (factorsText (x :: fs) ++ ']' :: rest) =
      prodLoop g .coef 1 d' arr' (acc ++ [pre ++ loadTerms q (x :: fs)]) rest
  | [], x, f, q, d, arr, acc, pre, rest, hl, ha, hf => by
    obtain ⟨g, h1, h2⟩ := prodLoop_factor x (hl x (by simp)) hn f q d arr ha acc pre ']' (Or.inr rfl) rest hf
    refine ⟨g, x.1, x.2, h1, hl x (by simp), ?_⟩
    rw [show factorsText [x] = factorText x from rfl, h2, if_neg (by decide)]
    rfl
  | y :: fs, x, f, q, d, arr, acc, pre, rest, hl, ha, hf => by
    have e : factorsText (x :: y :: fs) ++ ']' :: rest = factorText x ++ ',' :: (' ' :: (factorsText (y :: fs) ++ ']' :: rest)) := by
      simp [factorsText]
    rw [e] at hf ⊢
    obtain ⟨g, h1, h2⟩ := prodLoop_factor x (hl x (by simp)) hn f q d arr ha acc pre ',' (Or.inl rfl) _ hf
    rw [h2, if_pos rfl]
    obtain ⟨g, rfl⟩ : ∃ g', g = g' + 1 := ⟨g - 1, by simp at h1; omega⟩
    rw [prodLoop_skip _ _ _ _ _ _ _ _ (by decide) (by simp)]
    obtain ⟨g', d', arr', k1, k2, k3⟩ := prodLoop_factors hn fs y g 1 x.1 x.2 acc (pre ++ [formTerm q x.1 x.2]) rest (fun z hz => hl z (List.mem_cons_of_mem _ hz))
      (hl x (by simp)) (by simp only [List.length_cons] at h1; omega)
    refine ⟨g', d', arr', k1, k2, ?_⟩
    rw [k3]
    congr 2
    rw [List.append_assoc]
    rfl

theorem prodLoop_product {n : ℕ} (hn : 0 < n) (p : Prod') (hp : p.2 ≠ []) (hl : ∀ y ∈ p.2, y.2.length = n) (f : ℕ) (q : ℚ) (d : ℤ) (arr : List ℤ) (ha : arr.length = n)
    (acc : List (List (Term ℚ))) (rest : List Char) (hr : rest ≠ []) (hf : (productText p ++ rest).length + 2 ≤ f) :
    ∃ g q' d' arr', rest.length + 2 ≤ g ∧ arr'.length = n ∧ prodLoop f .coef q d arr acc (productText p ++ rest) =
      prodLoop g .coef q' d' arr' (acc ++ [loadTerms p.1 p.2]) rest := by
  obtain ⟨c, fs⟩ := p
  obtain ⟨x, fs, rfl⟩ := List.exists_cons_of_ne_nil hp
  unfold productText at hf ⊢
  simp only [List.length_cons, List.length_append, List.cons_append, List.append_assoc, List.nil_append] at hf ⊢
  have hpos := List.length_pos_iff.2 hr
  obtain ⟨f, rfl⟩ : ∃ g, f = g + 3 := ⟨f - 3, by omega⟩
  rw [prodLoop, if_neg (by simp)]
  simp only [if_true]
  rw [scanTo_append _ _ _ _ _ (by decide)]
  · simp only [List.tail_cons]
    rw [parseRat_printRat, Option.bind_some, prodLoop_skip _ _ _ _ _ _ _ _ (by decide) (by simp), prodLoop, if_neg (by simp)]
    simp only [if_true]
    obtain ⟨g, d', arr', k1, k2, k3⟩ := prodLoop_factors hn fs x f c d arr acc [] (']' :: rest) hl ha (by
      simp only [List.length_cons, List.length_append]; omega)
    rw [k3]
    simp only [List.length_cons] at k1
    obtain ⟨g, rfl⟩ : ∃ g', g = g' + 1 := ⟨g - 1, by omega⟩
    rw [prodLoop_skip _ _ _ _ _ _ _ _ (by decide) hr]
    exact ⟨g, _, _, _, by omega, k2, rfl⟩
  · intro y hy
    have : y ≠ ',' := by
      rintro rfl; exact printRat_no c ',' (by decide) (by decide) (by decide) hy
    simpa using this

theorem prodLoop_sum {n : ℕ} (hn : 0 < n) : ∀ (ps : List Prod') (p : Prod') (f : ℕ) (q : ℚ) (d : ℤ) (arr : List ℤ) (acc : List (List (Term ℚ))),
    (∀ y ∈ p :: ps, y.2 ≠ [] ∧ ∀ z ∈ y.2, z.2.length = n) → arr.length = n → (sumText (p :: ps) ++ [']']).length + 2 ≤ f →
    prodLoop f .coef q d arr acc (sumText (p :: ps) ++ [']']) = some (acc ++ (p :: ps).map fun y => loadTerms y.1 y.2)
  | [], p, f, q, d, arr, acc, hl, ha, hf => by
    obtain ⟨g, q', d', arr', k1, k2, k3⟩ := prodLoop_product hn p (hl p (by simp)).1 (hl p (by simp)).2 f q d arr ha acc [']'] (by simp) hf
    rw [show sumText [p] = productText p from rfl, k3]
    obtain ⟨g, rfl⟩ : ∃ g', g = g' + 1 := ⟨g - 1, by simp at k1; omega⟩
    rw [prodLoop, if_pos (by simp)]
    rfl
  | r :: ps, p, f, q, d, arr, acc, hl, ha, hf => by
    have e : sumText (p :: r :: ps) ++ [']'] = productText p ++ ',' :: ' ' :: (sumText (r :: ps) ++ [']']) := by simp [sumText]
    rw [e] at hf ⊢
    obtain ⟨g, q', d', arr', k1, k2, k3⟩ := prodLoop_product hn p (hl p (by simp)).1 (hl p (by simp)).2 f q d arr ha acc _ (by simp) hf
    rw [k3]
    simp only [List.length_cons] at k1
    obtain ⟨g, rfl⟩ : ∃ g', g = g' + 2 := ⟨g - 2, by omega⟩
    rw [prodLoop_skip _ _ _ _ _ _ _ _ (by decide) (by simp), prodLoop_skip _ _ _ _ _ _ _ _ (by decide) (by simp),
      prodLoop_sum hn ps r g q' d' arr' _ (fun z hz => hl z (List.mem_cons_of_mem _ hz)) k2 (by omega)]
    simp

theorem factorsText_first (x : ℤ × List ℤ) (fs : List (ℤ × List ℤ)) : ∃ rest, factorsText (x :: fs) = factorText x ++ rest := by
  cases fs with
  | nil => exact ⟨[], by simp [factorsText]⟩
  | cons y fs => exact ⟨_, rfl⟩

theorem sumText_first (p : Prod') (ps : List Prod') : ∃ rest, sumText (p :: ps) = productText p ++ rest := by
  cases ps with
  | nil => exact ⟨[], by simp [sumText]⟩
  | cons y fs => exact ⟨_, rfl⟩

/-- **The text of a sum of products is read as it stands**: the number of variables, and for each product the factors, the first with the coefficient of the product, each times the factorial
of its degree. -/
theorem c80_parse {n : ℕ} (hn : 0 < n) (ps : List Prod') (hne : ps ≠ []) (hl : ∀ p ∈ ps, p.2 ≠ [] ∧ ∀ f ∈ p.2, f.2.length = n) :
    parseLinFormProducts (productsText ps) = some (some (n, ps.map fun p => loadTerms p.1 p.2)) := by
  obtain ⟨p, ps, rfl⟩ := List.exists_cons_of_ne_nil hne
  obtain ⟨⟨c, fs⟩, hpeq⟩ : ∃ p' : Prod', p' = p := ⟨p, rfl⟩
  obtain ⟨x, fs', hfs⟩ := List.exists_cons_of_ne_nil (hl p (by simp)).1
  have hx : x.2.length = n := (hl p (by simp)).2 x (by rw [hfs]; simp)
  have hc : commas (productsText (p :: ps)) = some (n + 1) := by
    obtain ⟨r1, e1⟩ := sumText_first p ps
    obtain ⟨r2, e2⟩ := factorsText_first x fs'
    have e : productsText (p :: ps) = ('[' :: '[' :: (printRat p.1 ++ (',' :: ' ' :: '[' :: '[' :: (printInt x.1 ++ (',' :: ' ' :: '[' :: printVec x.2))))) ++
        ']' :: (']' :: (r2 ++ ']' :: ']' :: (r1 ++ [']']))) := by
      unfold productsText
      rw [e1]
      unfold productText
      rw [hfs, e2]
      simp [factorText]
    rw [e, count_take_bracket]
    · have h1 : (printRat p.1).count ',' = 0 := List.count_eq_zero.mpr (printRat_no _ ',' (by decide) (by decide) (by decide))
      have h2 : (printInt x.1).count ',' = 0 := List.count_eq_zero.mpr (printInt_no _ ',' (by decide) (by decide))
      simp only [List.count_cons, List.count_append, h1, h2, printVec_commas, hx]
      simp
      omega
    · simp only [List.mem_cons, List.mem_append, not_or]
      exact ⟨by decide, by decide, printRat_no _ _ (by decide) (by decide) (by decide), by decide, by decide, by decide, by decide,
        printInt_no _ _ (by decide) (by decide), by decide, by decide, by decide, printVec_no _ _ (by decide) (by decide) (by decide) (by decide)⟩
  unfold parseLinFormProducts
  rw [hc]
  obtain ⟨m, rfl⟩ : ∃ m, n = m + 1 := ⟨n - 1, by omega⟩
  unfold productsText
  simp only [List.tail_cons]
  rw [prodLoop_sum hn ps p _ 0 0 _ [] hl (by simp) (by simp)]
  simp

/-- The integrand is loaded as the products one by one. -/
theorem load_products {n : ℕ} (hn : 0 < n) (ps : List Prod') (hne : ps ≠ []) (hl : ∀ p ∈ ps, p.2 ≠ [] ∧ ∀ f ∈ p.2, f.2.length = n) :
    loadLinFormProducts (productsText ps) = (ps.mapM fun p => loadProduct n p.1 p.2).map fun l => (n, l) := by
  unfold loadLinFormProducts
  rw [c80_parse hn ps hne hl]
  dsimp only
  congr 1
  rw [List.mapM_map]
  rfl

/-- `2/3 (x + y)^2 (x - y) - 1`. -/
example : productsText [(2 / 3, [(2, [1, 1]), (1, [1, -1])]), (-1, [(0, [1, 1])])] = "[[2/3, [[2, [1, 1]], [1, [1, -1]]]], [-1, [[0, [1, 1]]]]]".toList := by decide +kernel

end Verif.Products

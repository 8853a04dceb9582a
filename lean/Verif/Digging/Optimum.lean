import Verif.Digging.Pipeline

/-!
# C79: `latte-maximize` and `latte-minimize` print an optimum

All vertices (no option `single`), no equations.
-/

namespace Verif.Digging

open Verif.Barvinok
open Verif.Barvinok.Spec
open Verif.ExpSubst
open Verif.PolySubst
open Verif.Brion

variable {m n : ℕ}

/-- The cost that is maximized. -/
def signed (mini : Bool) (cost : Vec n) : Vec n := if mini then -cost else cost

theorem signed_isOptimal {mini : Bool} {cost : Vec n} {S : List (Vec n)} {x : Vec n} (hx : x ∈ S)
    (h : ∀ y ∈ S, inner (signed mini cost) y ≤ inner (signed mini cost) x) : IsOptimal mini cost S x := by
  refine ⟨hx, fun y hy => ?_⟩
  have := h y hy
  unfold signed at this
  cases mini
  · exact this
  · simp only [↓reduceIte, inner_neg_left] at this ⊢
    omega

/-- What a run with all vertices reports. -/
theorem optimize_run (N : Ntl (m + 1)) (hN : N.Ok) (X : Smith.Xgcd) (irr : Cone (m + 1) → Fin (m + 1) → ℚ) (pfuel : ℕ) (hfuel : 1 < pfuel)
    (matrix : List (ℤ × Vec (m + 1))) (S : List (Vec (m + 1))) (hS : LatticePoints (normals matrix) (sides matrix) S)
    (cones : List ((Fin (m + 1) → ℚ) × List (Mat (m + 1)))) (hne : cones ≠ []) (hvs : IsVertexList (normals matrix) (sides matrix) (cones.map (·.1)))
    (hT : ∀ c ∈ cones, Triangulation c.2 (normal (normals matrix) (sides matrix) c.1))
    (mini : Bool) (cost : Vec (m + 1)) (tries : ℕ) (guesses : ℕ → Vec (m + 1)) (H : Hashing) (ptries : ℕ) (draws : ℕ → List (ℕ × ℕ)) (innerFuel fuel : ℕ)
    (r : Report (m + 1)) (h : optimize N X irr pfuel cones matrix mini false cost tries guesses H ptries draws innerFuel fuel = .ok r) :
    ∃ P, conesFor N X irr pfuel cones = .ok P ∧ ((r = .empty ∧ residue P tries guesses = .ok 0) ∨
      ∃ x k i cost', r = .optimum x (inner cost x) (if i = 0 then some k else none) ∧ Used P (signed mini cost) draws i cost' ∧
        x ∈ S ∧ (∀ y ∈ S, inner cost' y ≤ inner cost' x) ∧ k = ((S.filter fun z => inner cost' z = inner cost' x).length : ℤ)) := by
  unfold optimize at h
  dsimp only at h
  cases hP : conesFor N X irr pfuel cones with
  | error e => rw [hP] at h; cases h
  | ok P =>
    refine ⟨P, rfl, ?_⟩
    rw [hP] at h
    dsimp only at h
    rw [if_neg Bool.false_ne_true] at h
    cases hr : residue P tries guesses with
    | error e => rw [hr] at h; cases h
    | ok s =>
      rw [hr] at h
      dsimp only at h
      by_cases hs : s = 0
      · rw [if_pos hs] at h
        cases h
        exact Or.inl ⟨rfl, by rw [hs]⟩
      · rw [if_neg hs] at h
        obtain ⟨hrep, D, hD, hgen, hlen⟩ := polytope_represents N hN X irr pfuel hfuel matrix S hS cones hvs hT P hP
        have hDne := delivered_nonempty N hN .dual irr 1 cones (input_nonempty _ _ cones hne hT) D hD
        have hPne : P ≠ [] := by
          intro hc
          rw [hc] at hlen
          exact hDne (List.length_eq_zero_iff.1 hlen.symm)
        obtain ⟨x, k, i, cost', h1, h2, h3, h4, h5⟩ := report_all hrep hPne matrix (fun z => (feasible_iff matrix z).trans (hS.mem z).symm) mini
          (signed mini cost) H ptries draws innerFuel fuel r h
        refine Or.inr ⟨x, k, i, cost', ?_, h2, h3, h4, ?_⟩
        · rw [h1]
          unfold signed
          rw [inner_flip]
        · rw [h5, count_filter S hS.nodup]

/-- **C79.** A reported number of optimal solutions: the reported point is an optimal lattice point, the reported value is its cost, and the number is the
number of optimal lattice points. -/
theorem c79_optimal (N : Ntl (m + 1)) (hN : N.Ok) (X : Smith.Xgcd) (irr : Cone (m + 1) → Fin (m + 1) → ℚ) (pfuel : ℕ) (hfuel : 1 < pfuel)
    (matrix : List (ℤ × Vec (m + 1))) (S : List (Vec (m + 1))) (hS : LatticePoints (normals matrix) (sides matrix) S)
    (cones : List ((Fin (m + 1) → ℚ) × List (Mat (m + 1)))) (hne : cones ≠ []) (hvs : IsVertexList (normals matrix) (sides matrix) (cones.map (·.1)))
    (hT : ∀ c ∈ cones, Triangulation c.2 (normal (normals matrix) (sides matrix) c.1))
    (mini : Bool) (cost : Vec (m + 1)) (tries : ℕ) (guesses : ℕ → Vec (m + 1)) (H : Hashing) (ptries : ℕ) (draws : ℕ → List (ℕ × ℕ)) (innerFuel fuel : ℕ)
    (x : Vec (m + 1)) (v k : ℤ)
    (h : optimize N X irr pfuel cones matrix mini false cost tries guesses H ptries draws innerFuel fuel = .ok (.optimum x v (some k))) :
    IsOptimal mini cost S x ∧ v = inner cost x ∧ k = ((S.filter fun z => inner cost z = inner cost x).length : ℤ) := by
  obtain ⟨P, -, ⟨h1, -⟩ | ⟨x', k', i, cost', h1, h2, h3, h4, h5⟩⟩ := optimize_run N hN X irr pfuel hfuel matrix S hS cones hne hvs hT mini cost tries guesses H
    ptries draws innerFuel fuel _ h
  · cases h1
  · by_cases hi : i = 0
    · rw [if_pos hi] at h1
      cases h1
      have hc : cost' = signed mini cost := by rw [h2.1, hi]; rfl
      rw [hc] at h4 h5
      refine ⟨signed_isOptimal h3 h4, rfl, h5.trans ?_⟩
      congr 2
      refine List.filter_congr fun z _ => ?_
      unfold signed
      cases mini
      · rfl
      · simp [inner_neg_left]
    · rw [if_neg hi] at h1
      cases h1

/-- **C79, no lattice points.** The message "Integrally empty polytope" is printed only if there is none. -/
theorem c79_empty (N : Ntl (m + 1)) (hN : N.Ok) (X : Smith.Xgcd) (irr : Cone (m + 1) → Fin (m + 1) → ℚ) (pfuel : ℕ) (hfuel : 1 < pfuel)
    (matrix : List (ℤ × Vec (m + 1))) (S : List (Vec (m + 1))) (hS : LatticePoints (normals matrix) (sides matrix) S)
    (cones : List ((Fin (m + 1) → ℚ) × List (Mat (m + 1)))) (hne : cones ≠ []) (hvs : IsVertexList (normals matrix) (sides matrix) (cones.map (·.1)))
    (hT : ∀ c ∈ cones, Triangulation c.2 (normal (normals matrix) (sides matrix) c.1))
    (hint : ∀ P, conesFor N X irr pfuel cones = .ok P → ((m + 1 : ℕ) : ℤ) * P.length ≤ Piped.intMax)
    (mini : Bool) (cost : Vec (m + 1)) (tries : ℕ) (guesses : ℕ → Vec (m + 1)) (H : Hashing) (ptries : ℕ) (draws : ℕ → List (ℕ × ℕ)) (innerFuel fuel : ℕ)
    (h : optimize N X irr pfuel cones matrix mini false cost tries guesses H ptries draws innerFuel fuel = .ok .empty) : S = [] := by
  obtain ⟨P, hP, ⟨-, h1⟩ | ⟨x', k', i, cost', h1, -⟩⟩ := optimize_run N hN X irr pfuel hfuel matrix S hS cones hne hvs hT mini cost tries guesses H
    ptries draws innerFuel fuel _ h
  · obtain ⟨-, D, hD, -, hlen⟩ := polytope_represents N hN X irr pfuel hfuel matrix S hS cones hvs hT P hP
    obtain ⟨g, hg, hind⟩ := dual_indicators _ _ cones hvs hT S hS .dual (by decide)
    have hcount : countInMemory N X .dual irr 1 pfuel cones tries guesses = .ok 0 := by
      unfold conesFor at hP
      unfold countInMemory
      cases hdec : decomposeCones N .dual irr 1 cones with
      | error e => rw [hdec] at hP; cases hP
      | ok L =>
        rw [hdec] at hP
        change computePoints X pfuel L = .ok P at hP
        show (computePoints X pfuel L >>= fun P => residue P tries guesses) = _
        rw [hP]
        exact h1
    rcases c72_run N hN X .dual irr (by intro h; cases h) pfuel hfuel cones D hD
      (delivered_nonempty N hN .dual irr 1 cones (input_nonempty _ _ cones hne hT) D hD) (by rw [← hlen]; exact hint P hP) S hS.nodup g hg hind tries guesses with h2 | ⟨h2, -⟩
    · rw [hcount] at h2
      injection h2 with h3
      exact List.length_eq_zero_iff.1 (by exact_mod_cast h3.symm)
    · rw [hcount] at h2; cases h2
  · cases h1

/-- The perturbed cost. -/
theorem perturb_apply (cones : List (OffCone n)) (cost : Vec n) (draws : List (ℕ × ℕ)) (hd : draws.length = n) (k : Fin n) :
    perturb cones cost draws k = Perturb.mValue (cones.map fun C => C.rays.map fun r => List.ofFn r) 10 n * cost k +
      Perturb.noise 10 (draws[k]'(by rw [hd]; exact k.2)) := by
  unfold perturb Perturb.calculatePertubation
  have hl : k.1 < (List.zipWith (fun c d => Perturb.mValue (cones.map fun C => C.rays.map fun r => List.ofFn r) 10 n * c + Perturb.noise 10 d)
      (List.ofFn cost) draws).length := by simp [hd]
  rw [getD_lt _ _ hl, List.getElem_zipWith, List.getElem_ofFn]
  rfl

theorem noise_abs (d : ℕ × ℕ) : |Perturb.noise 10 d| ≤ 9 := by
  unfold Perturb.noise
  have h1 : d.1 % 10 < 10 := Nat.mod_lt _ (by norm_num)
  have h2 : d.2 % 2 < 2 := Nat.mod_lt _ (by norm_num)
  rw [abs_le]
  have : d.2 % 2 = 0 ∨ d.2 % 2 = 1 := by omega
  rcases this with h | h <;> rw [h] <;> constructor <;> push_cast <;> omega

theorem inner_perturb (cones : List (OffCone n)) (cost : Vec n) (draws : List (ℕ × ℕ)) (hd : draws.length = n) (z : Vec n) :
    |inner (perturb cones cost draws) z - Perturb.mValue (cones.map fun C => C.rays.map fun r => List.ofFn r) 10 n * inner cost z| ≤ 9 * ∑ k, |z k| := by
  have e : inner (perturb cones cost draws) z - Perturb.mValue (cones.map fun C => C.rays.map fun r => List.ofFn r) 10 n * inner cost z =
      ∑ k : Fin n, Perturb.noise 10 (draws[k]'(by rw [hd]; exact k.2)) * z k := by
    unfold ExpSubst.inner
    rw [Finset.mul_sum, ← Finset.sum_sub_distrib]
    refine Finset.sum_congr rfl fun k _ => ?_
    rw [perturb_apply _ _ _ hd]
    ring
  rw [e, Finset.mul_sum]
  refine (Finset.abs_sum_le_sum_abs _ _).trans (Finset.sum_le_sum fun k _ => ?_)
  rw [abs_mul]
  exact mul_le_mul_of_nonneg_right (noise_abs _) (abs_nonneg _)

/-- The factor with which the cost is multiplied when it is perturbed. -/
def factor (P : List (OffCone n)) : ℤ := Perturb.mValue (P.map fun C => C.rays.map fun r => List.ofFn r) 10 n

theorem perturbed_core (N : Ntl (m + 1)) (hN : N.Ok) (X : Smith.Xgcd) (irr : Cone (m + 1) → Fin (m + 1) → ℚ) (pfuel : ℕ) (hfuel : 1 < pfuel)
    (matrix : List (ℤ × Vec (m + 1))) (S : List (Vec (m + 1))) (hS : LatticePoints (normals matrix) (sides matrix) S)
    (cones : List ((Fin (m + 1) → ℚ) × List (Mat (m + 1)))) (hne : cones ≠ []) (hvs : IsVertexList (normals matrix) (sides matrix) (cones.map (·.1)))
    (hT : ∀ c ∈ cones, Triangulation c.2 (normal (normals matrix) (sides matrix) c.1))
    (mini : Bool) (cost : Vec (m + 1)) (tries : ℕ) (guesses : ℕ → Vec (m + 1)) (H : Hashing) (ptries : ℕ) (draws : ℕ → List (ℕ × ℕ))
    (hd : ∀ i, (draws i).length = m + 1) (innerFuel fuel : ℕ) (x : Vec (m + 1)) (v : ℤ) (number : Option ℤ)
    (h : optimize N X irr pfuel cones matrix mini false cost tries guesses H ptries draws innerFuel fuel = .ok (.optimum x v number)) :
    ∃ P, conesFor N X irr pfuel cones = .ok P ∧ x ∈ S ∧ v = inner cost x ∧
      ((∀ y ∈ S, 9 * ∑ k, |y k - x k| < factor P) → IsOptimal mini cost S x) ∧
      (number = none → (∀ y ∈ S, 9 * ∑ k, |y k - x k| < -factor P) → IsOptimal (!mini) cost S x) := by
  obtain ⟨P, hP, ⟨h1, -⟩ | ⟨x', k', i, cost', h1, h2, h3, h4, h5⟩⟩ := optimize_run N hN X irr pfuel hfuel matrix S hS cones hne hvs hT mini cost tries guesses H
    ptries draws innerFuel fuel _ h
  · cases h1
  · have e1 : x = x' := by injection h1
    have e2 : v = inner cost x' := by injection h1
    have e3 : number = if i = 0 then some k' else none := by injection h1
    subst e1
    have hdiff : ∀ y, inner cost' y ≤ inner cost' x → inner cost' (y - x) ≤ 0 := by
      intro y hy
      rw [inner_sub]; omega
    refine ⟨P, hP, h3, e2, fun hbound => ?_, fun hnone hbound => ?_⟩
    · cases i with
      | zero =>
        have hc : cost' = signed mini cost := h2.1
        rw [hc] at h4
        exact signed_isOptimal h3 h4
      | succ i =>
        have hc : cost' = perturb P (signed mini cost) (draws i) := h2.1
        refine signed_isOptimal h3 fun y hy => ?_
        by_contra hcon
        have hpos : 1 ≤ inner (signed mini cost) (y - x) := by rw [inner_sub]; omega
        have h6 := hdiff y (h4 y hy)
        rw [hc] at h6
        have h7 := abs_le.1 (inner_perturb P (signed mini cost) (draws i) (hd i) (y - x))
        have h8 := hbound y hy
        have h9 : 0 ≤ 9 * ∑ k, |y k - x k| := mul_nonneg (by norm_num) (Finset.sum_nonneg fun k _ => abs_nonneg _)
        simp only [Pi.sub_apply] at h7
        unfold factor at h8
        nlinarith [h7.1]
    · cases i with
      | zero => rw [hnone] at e3; cases e3
      | succ i =>
        have hc : cost' = perturb P (signed mini cost) (draws i) := h2.1
        have key : ∀ y ∈ S, inner (signed mini cost) x ≤ inner (signed mini cost) y := by
          intro y hy
          by_contra hcon
          have hneg : inner (signed mini cost) (y - x) ≤ -1 := by rw [inner_sub]; omega
          have h6 := hdiff y (h4 y hy)
          rw [hc] at h6
          have h7 := abs_le.1 (inner_perturb P (signed mini cost) (draws i) (hd i) (y - x))
          have h8 := hbound y hy
          have h9 : 0 ≤ 9 * ∑ k, |y k - x k| := mul_nonneg (by norm_num) (Finset.sum_nonneg fun k _ => abs_nonneg _)
          simp only [Pi.sub_apply] at h7
          unfold factor at h8
          nlinarith [h7.1]
        refine ⟨h3, fun y hy => ?_⟩
        have := key y hy
        unfold signed at this
        cases mini
        · exact this
        · simp only [↓reduceIte, inner_neg_left, Bool.not_true, Bool.false_eq_true] at this ⊢
          omega

/-- **C79, after perturbations** (part).  If the cost had to be perturbed (no number is reported), the reported point is a lattice point of the polytope, the
reported value is its cost, and it is optimal if the factor exceeds nine times the distance (sum of the differences of the coordinates) to every lattice point.
Missing: the other polytopes; the claim is false for them, see `c79_reversed` and `c79_reversed_example`. -/
theorem c79_perturbed_partial (N : Ntl (m + 1)) (hN : N.Ok) (X : Smith.Xgcd) (irr : Cone (m + 1) → Fin (m + 1) → ℚ) (pfuel : ℕ) (hfuel : 1 < pfuel)
    (matrix : List (ℤ × Vec (m + 1))) (S : List (Vec (m + 1))) (hS : LatticePoints (normals matrix) (sides matrix) S)
    (cones : List ((Fin (m + 1) → ℚ) × List (Mat (m + 1)))) (hne : cones ≠ []) (hvs : IsVertexList (normals matrix) (sides matrix) (cones.map (·.1)))
    (hT : ∀ c ∈ cones, Triangulation c.2 (normal (normals matrix) (sides matrix) c.1))
    (mini : Bool) (cost : Vec (m + 1)) (tries : ℕ) (guesses : ℕ → Vec (m + 1)) (H : Hashing) (ptries : ℕ) (draws : ℕ → List (ℕ × ℕ))
    (hd : ∀ i, (draws i).length = m + 1) (innerFuel fuel : ℕ) (x : Vec (m + 1)) (v : ℤ)
    (h : optimize N X irr pfuel cones matrix mini false cost tries guesses H ptries draws innerFuel fuel = .ok (.optimum x v none)) :
    ∃ P, conesFor N X irr pfuel cones = .ok P ∧ x ∈ S ∧ v = inner cost x ∧
      ((∀ y ∈ S, 9 * ∑ k, |y k - x k| < factor P) → IsOptimal mini cost S x) := by
  obtain ⟨P, h1, h2, h3, h4, -⟩ := perturbed_core N hN X irr pfuel hfuel matrix S hS cones hne hvs hT mini cost tries guesses H ptries draws hd innerFuel fuel x v none h
  exact ⟨P, h1, h2, h3, h4⟩

/-- **C79, violated.** If the cost had to be perturbed and the factor (computed from the coordinates of the rays) is negative and large, the reported point is
the worst lattice point instead of the best one. -/
theorem c79_reversed (N : Ntl (m + 1)) (hN : N.Ok) (X : Smith.Xgcd) (irr : Cone (m + 1) → Fin (m + 1) → ℚ) (pfuel : ℕ) (hfuel : 1 < pfuel)
    (matrix : List (ℤ × Vec (m + 1))) (S : List (Vec (m + 1))) (hS : LatticePoints (normals matrix) (sides matrix) S)
    (cones : List ((Fin (m + 1) → ℚ) × List (Mat (m + 1)))) (hne : cones ≠ []) (hvs : IsVertexList (normals matrix) (sides matrix) (cones.map (·.1)))
    (hT : ∀ c ∈ cones, Triangulation c.2 (normal (normals matrix) (sides matrix) c.1))
    (mini : Bool) (cost : Vec (m + 1)) (tries : ℕ) (guesses : ℕ → Vec (m + 1)) (H : Hashing) (ptries : ℕ) (draws : ℕ → List (ℕ × ℕ))
    (hd : ∀ i, (draws i).length = m + 1) (innerFuel fuel : ℕ) (x : Vec (m + 1)) (v : ℤ)
    (h : optimize N X irr pfuel cones matrix mini false cost tries guesses H ptries draws innerFuel fuel = .ok (.optimum x v none)) :
    ∃ P, conesFor N X irr pfuel cones = .ok P ∧ ((∀ y ∈ S, 9 * ∑ k, |y k - x k| < -factor P) → IsOptimal (!mini) cost S x) := by
  obtain ⟨P, h1, -, -, -, h5⟩ := perturbed_core N hN X irr pfuel hfuel matrix S hS cones hne hvs hT mini cost tries guesses H ptries draws hd innerFuel fuel x v none h
  exact ⟨P, h1, h5 rfl⟩

/-- **C79, the end.** If the lattice reduction always finds short vectors, the cones are found; with every generic vector for the number of lattice points and
every sequence of draws that leads to a cost orthogonal to no ray, the program ends with a report as in `c79_optimal`, unless the hash table is too small; and
some size of it suffices. -/
theorem c79_ends (N : Ntl (m + 1)) (hN : N.Ok) (hs : ShortVectors N) (X : Smith.Xgcd) (irr : Cone (m + 1) → Fin (m + 1) → ℚ) (pfuel : ℕ) (hfuel : 1 < pfuel)
    (matrix : List (ℤ × Vec (m + 1))) (S : List (Vec (m + 1))) (hS : LatticePoints (normals matrix) (sides matrix) S)
    (cones : List ((Fin (m + 1) → ℚ) × List (Mat (m + 1)))) (hne : cones ≠ []) (hvs : IsVertexList (normals matrix) (sides matrix) (cones.map (·.1)))
    (hT : ∀ c ∈ cones, Triangulation c.2 (normal (normals matrix) (sides matrix) c.1)) (mini : Bool) (cost : Vec (m + 1)) :
    ∃ P, conesFor N X irr pfuel cones = .ok P ∧ (∃ lam, Generic P lam) ∧
      (((m + 1 : ℕ) : ℤ) * P.length ≤ Piped.intMax → ∀ (guesses : ℕ → Vec (m + 1)) (t : ℕ), Generic P (guesses t) → ∀ tries, t < tries →
        (S = [] → ∀ H ptries draws innerFuel fuel,
          optimize N X irr pfuel cones matrix mini false cost tries guesses H ptries draws innerFuel fuel = .ok .empty) ∧
        (S ≠ [] → ∀ (draws : ℕ → List (ℕ × ℕ)) (i : ℕ) (cost' : Vec (m + 1)), Used P (signed mini cost) draws i cost' →
          (∃ size, ∀ H : Hashing, size ≤ H.size → ¬ TooSmall H P cost' matrix) ∧ ∀ H : Hashing, ∃ K F, ∀ ptries innerFuel fuel, i < ptries → K ≤ innerFuel → F ≤ fuel →
            (∃ x v number, optimize N X irr pfuel cones matrix mini false cost tries guesses H ptries draws innerFuel fuel = .ok (.optimum x v number) ∧
              (number = none ↔ i ≠ 0)) ∨
            (optimize N X irr pfuel cones matrix mini false cost tries guesses H ptries draws innerFuel fuel = .error (.inr .hang) ∧ TooSmall H P cost' matrix))) := by
  obtain ⟨D, hD⟩ := delivered_dual N hs irr 1 le_rfl cones fun c hc => (hT c hc).simplicial
  have hdec := decomposeCones_eq N .dual irr 1 cones D hD
  have hready := delivered_ready N hN .dual irr 1 one_ne_zero (by decide) pfuel (by exact_mod_cast hfuel) cones D hD
  obtain ⟨P, h1⟩ : ∃ P, computePoints X pfuel D.reverse = .ok P := by
    obtain ⟨pt, h1, -⟩ := computePoints_ok X pfuel D.reverse (fun C hC => hready C (List.mem_reverse.1 hC))
      (fun C hC => delivered_unimodular N hN .dual irr cones D hD C (List.mem_reverse.1 hC))
    exact ⟨_, h1⟩
  have hP : conesFor N X irr pfuel cones = .ok P := by
    unfold conesFor
    rw [hdec]
    exact h1
  obtain ⟨hrep, D', hD', hgen, hlen⟩ := polytope_represents N hN X irr pfuel hfuel matrix S hS cones hvs hT P hP
  rw [hD] at hD'
  cases hD'
  have hDne := delivered_nonempty N hN .dual irr 1 cones (input_nonempty _ _ cones hne hT) D hD
  have hPne : P ≠ [] := by
    intro hc
    rw [hc] at hlen
    exact hDne (List.length_eq_zero_iff.1 hlen.symm)
  obtain ⟨lam, hlam⟩ := c42_generic_vector_exists N hN .dual irr 1 one_ne_zero (by decide) cones D hD
  refine ⟨P, hP, ⟨lam, (hgen lam).2 hlam⟩, fun hint guesses t hgt tries ht => ?_⟩
  obtain ⟨g, hg, hind⟩ := dual_indicators _ _ cones hvs hT S hS .dual (by decide)
  have hcount : countInMemory N X .dual irr 1 pfuel cones tries guesses = .ok (S.length : ℤ) :=
    run_ends (c72_run N hN X .dual irr (by intro h; cases h) pfuel hfuel cones D hD hDne (by rw [← hlen]; exact hint) S hS.nodup g hg hind tries guesses) t ht
      ((hgen _).1 hgt)
  have hres : residue P tries guesses = .ok (S.length : ℤ) := by
    unfold countInMemory at hcount
    rw [hdec] at hcount
    change (computePoints X pfuel D.reverse >>= fun P => residue P tries guesses) = _ at hcount
    rw [h1] at hcount
    exact hcount
  have hopt : ∀ H ptries draws innerFuel fuel, optimize N X irr pfuel cones matrix mini false cost tries guesses H ptries draws innerFuel fuel =
      if (S.length : ℤ) = 0 then .ok .empty else report H P matrix mini false (signed mini cost) ptries draws innerFuel fuel := by
    intro H ptries draws innerFuel fuel
    unfold optimize
    dsimp only
    rw [hP]
    dsimp only
    rw [if_neg Bool.false_ne_true, hres]
    rfl
  refine ⟨fun h0 H ptries draws innerFuel fuel => ?_, fun h0 draws i cost' hu => ?_⟩
  · rw [hopt, if_pos (by rw [h0]; rfl)]
  · obtain ⟨x, hx⟩ := List.exists_mem_of_ne_nil S h0
    have hfeas : ∀ z, feasible matrix z = true ↔ z ∈ S := fun z => (feasible_iff matrix z).trans (hS.mem z).symm
    refine ⟨table_suffices P hrep.rays cost' hu.2.1 matrix x ((hfeas x).2 hx), fun H => ?_⟩
    obtain ⟨K, F, hKF⟩ := solveIP_ends hrep hPne H matrix false (fun z hz => (hfeas z).1 hz) (fun _ z hz => (hfeas z).2 hz) (signed mini cost) draws
      (fun cost' _ _ => descending_finite (List.finite_toSet S) cost') x ((hfeas x).2 hx) i cost' hu (fun hc => by cases hc)
    refine ⟨K, F, fun ptries innerFuel fuel h3 h4 h5 => ?_⟩
    have hlen0 : ¬ (S.length : ℤ) = 0 := fun hc => h0 (List.length_eq_zero_iff.1 (by exact_mod_cast hc))
    rw [hopt, if_neg hlen0]
    unfold report
    rcases hKF ptries innerFuel fuel h3 h4 h5 with ⟨a, e, -⟩ | ⟨e, e2⟩
    · rw [e]
      refine Or.inl ⟨_, _, _, rfl, ?_⟩
      by_cases hi : i = 0
      · rw [if_pos hi]
        exact ⟨fun hc => (by cases hc), fun hc => absurd hi hc⟩
      · rw [if_neg hi]
        exact ⟨fun _ => hi, fun _ => rfl⟩
    · rw [e]
      exact Or.inr ⟨rfl, e2⟩

end Verif.Digging

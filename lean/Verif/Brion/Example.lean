import Verif.Brion.Total
import Verif.Brion.Ehrhart
import Mathlib.Tactic.FinCases
import Mathlib.Tactic.NormNum
import Mathlib.Tactic.IntervalCases

/-!
# C65: a triangle meets the hypotheses

`x ≥ 0`, `y ≥ 0`, `x + 2 y ≤ 2`: vertices (0,0), (2,0), (0,1), one of them with a cone of index 2, four lattice points.
-/

namespace Verif.Brion

open Verif.Barvinok Verif.Barvinok.Spec Verif.ExpSubst Verif.Irrational Filter Topology

variable {n N : ℕ}

namespace Triangle

def a : Fin 3 → Vec 2 := ![![-1, 0], ![0, -1], ![1, 2]]
def b : Fin 3 → ℚ := ![0, 0, 2]

theorem dot0 (x : Fin 2 → ℝ) : dot (a 0) x = -x 0 := by simp [dot, a]
theorem dot1 (x : Fin 2 → ℝ) : dot (a 1) x = -x 1 := by simp [dot, a]
theorem dot2 (x : Fin 2 → ℝ) : dot (a 2) x = x 0 + 2 * x 1 := by simp [dot, a]

def S : List (Vec 2) := [![0, 0], ![1, 0], ![2, 0], ![0, 1]]

theorem lattice : LatticePoints a b S := by
  refine ⟨by decide, fun z => ?_⟩
  have h3 : (∀ i : Fin 3, ∑ k, (a i k : ℚ) * (z k : ℚ) ≤ b i) ↔ 0 ≤ z 0 ∧ 0 ≤ z 1 ∧ z 0 + 2 * z 1 ≤ 2 := by
    rw [Fin.forall_fin_succ, Fin.forall_fin_succ, Fin.forall_fin_one]
    simp only [a, b, Fin.sum_univ_two]
    simp
    intro _ _
    constructor
    · intro h
      have : ((z 0 + 2 * z 1 : ℤ) : ℚ) ≤ ((2 : ℤ) : ℚ) := by push_cast; linarith
      exact Int.cast_le.1 this
    · intro h
      have : ((z 0 + 2 * z 1 : ℤ) : ℚ) ≤ ((2 : ℤ) : ℚ) := Int.cast_le.2 h
      push_cast at this
      linarith
  rw [h3]
  have hz : z = ![z 0, z 1] := by
    funext k; fin_cases k <;> rfl
  constructor
  · intro h
    simp only [S, List.mem_cons, List.not_mem_nil, or_false] at h
    rcases h with rfl | rfl | rfl | rfl <;> simp
  · rintro ⟨h1, h2, h4⟩
    have h5 : z 0 ≤ 2 := by linarith
    have h6 : z 1 ≤ 1 := by linarith
    rw [hz]
    interval_cases z 0 <;> interval_cases z 1 <;> simp_all [S]

def cones : List ((Fin 2 → ℚ) × List (Mat 2)) :=
  [(![0, 0], [!![-1, 0; 0, -1]]), (![2, 0], [!![0, -1; 1, 2]]), (![0, 1], [!![-1, 0; 1, 2]])]

theorem vertices : IsVertexList a b (cones.map (·.1)) := by
  refine ⟨by decide, fun x => ?_⟩
  have hb : ∀ i, ((b i : ℚ) : ℝ) = (![0, 0, 2] : Fin 3 → ℝ) i := by
    intro i; fin_cases i <;> simp [b]
  rw [extreme_iff]
  simp only [hb]
  have hP : (x ∈ Poly a fun i => (![0, 0, 2] : Fin 3 → ℝ) i) ↔ 0 ≤ x 0 ∧ 0 ≤ x 1 ∧ x 0 + 2 * x 1 ≤ 2 := by
    show (∀ i, _) ↔ _
    rw [Fin.forall_fin_succ, Fin.forall_fin_succ, Fin.forall_fin_one]
    show dot (a 0) x ≤ 0 ∧ dot (a 1) x ≤ 0 ∧ dot (a 2) x ≤ 2 ↔ _
    rw [dot0, dot1, dot2, neg_nonpos, neg_nonpos]
  have hA : ∀ l : Fin 2 → ℝ, (∀ i, dot (a i) x = (![0, 0, 2] : Fin 3 → ℝ) i → dot (a i) l = 0) ↔
      (x 0 = 0 → l 0 = 0) ∧ (x 1 = 0 → l 1 = 0) ∧ (x 0 + 2 * x 1 = 2 → l 0 + 2 * l 1 = 0) := by
    intro l
    rw [Fin.forall_fin_succ, Fin.forall_fin_succ, Fin.forall_fin_one]
    show (dot (a 0) x = 0 → dot (a 0) l = 0) ∧ (dot (a 1) x = 0 → dot (a 1) l = 0) ∧ (dot (a 2) x = 2 → dot (a 2) l = 0) ↔ _
    rw [dot0, dot1, dot2, dot0, dot1, dot2, neg_eq_zero, neg_eq_zero, neg_eq_zero, neg_eq_zero]
  rw [hP]
  simp only [hA]
  have hx : ∀ p q : ℝ, (x = ![p, q] ↔ x 0 = p ∧ x 1 = q) := by
    intro p q
    constructor
    · rintro rfl; simp
    · rintro ⟨h1, h2⟩; funext k; fin_cases k
      · exact h1
      · exact h2
  have hl : (∃ v ∈ cones.map (·.1), x = fun k => (v k : ℝ)) ↔ x = ![0, 0] ∨ x = ![2, 0] ∨ x = ![0, 1] := by
    have e : ∀ p q : ℚ, (fun k => ((![p, q] : Fin 2 → ℚ) k : ℝ)) = ![(p : ℝ), (q : ℝ)] := by
      intro p q; funext k; fin_cases k <;> simp
    simp [cones, e]
  rw [hl, hx, hx, hx]
  constructor
  · intro h
    refine ⟨?_, fun l hl => ?_⟩
    · rcases h with ⟨h1, h2⟩ | ⟨h1, h2⟩ | ⟨h1, h2⟩ <;> rw [h1, h2] <;> norm_num
    · have h2 : l 0 = 0 ∧ l 1 = 0 := by
        rcases h with ⟨h1, h2⟩ | ⟨h1, h2⟩ | ⟨h1, h2⟩ <;> rw [h1, h2] at hl <;> norm_num at hl
        · exact hl
        · exact ⟨by linarith [hl.1, hl.2], hl.1⟩
        · exact ⟨hl.1, by linarith [hl.1, hl.2]⟩
      funext k; fin_cases k
      · exact h2.1
      · exact h2.2
  · rintro ⟨⟨h1, h2, h3⟩, h⟩
    by_cases c0 : x 0 = 0
    · by_cases c1 : x 1 = 0
      · exact Or.inl ⟨c0, c1⟩
      · by_cases c2 : x 0 + 2 * x 1 = 2
        · exact Or.inr (Or.inr ⟨c0, by linarith⟩)
        · have := congrFun (h ![0, 1] (by simp [c0, c1]; intro h; exact absurd (by rw [c0]; linarith) c2)) 1
          simp at this
    · by_cases c1 : x 1 = 0
      · by_cases c2 : x 0 + 2 * x 1 = 2
        · exact Or.inr (Or.inl ⟨by linarith, c1⟩)
        · have := congrFun (h ![1, 0] (by simp [c0, c1]; intro h; exact absurd (by rw [c1]; linarith) c2)) 0
          simp at this
      · have := congrFun (h ![2, -1] (by simp [c0, c1])) 1
        simp at this

/-- A simplex spanned by exactly the active normals is a triangulation of the normal cone. -/
theorem simple_vertex {n N : ℕ} (a : Fin N → Vec n) (b : Fin N → ℚ) (v : Fin n → ℚ) (B : Mat n) (hB : B.det ≠ 0) (e : Fin n → Fin N)
    (he : Function.Injective e) (hr : ∀ k, B k = a (e k)) (hact : ∀ i, i ∈ active a b v ↔ i ∈ Set.range e) :
    Triangulation [B] (normal a b v) := by
  classical
  refine ⟨by simpa using hB, fun p => ?_, by simp⟩
  simp only [List.mem_singleton, exists_eq_left]
  constructor
  · rintro ⟨c, hc, h0, hp⟩
    refine ⟨fun k => c (e k), fun k => hc _, ?_⟩
    funext k
    rw [hp k]
    unfold comb
    have : ∑ i, c (e i) * (B i k : ℝ) = ∑ i ∈ Finset.univ.image e, c i * (a i k : ℝ) := by
      rw [Finset.sum_image fun x _ y _ h => he h]
      exact Finset.sum_congr rfl fun i _ => by rw [hr]
    rw [this]
    refine (Finset.sum_subset (Finset.subset_univ _) fun i _ hi => ?_).symm
    rw [h0 i (by rw [hact]; rintro ⟨j, rfl⟩; exact hi (Finset.mem_image_of_mem e (Finset.mem_univ j))), zero_mul]
  · rintro ⟨c, hc, rfl⟩
    refine ⟨fun i => ∑ k, if e k = i then c k else 0, fun i => Finset.sum_nonneg fun k _ => ?_, fun i hi => ?_, fun k => ?_⟩
    · split_ifs
      · exact hc k
      · exact le_rfl
    · refine Finset.sum_eq_zero fun k _ => if_neg ?_
      rintro rfl
      exact hi ((hact _).2 ⟨k, rfl⟩)
    · unfold comb
      simp only [Finset.sum_mul]
      rw [Finset.sum_comm]
      refine Finset.sum_congr rfl fun j _ => ?_
      rw [Finset.sum_eq_single (e j)]
      · rw [if_pos rfl, hr]
      · intro i _ hi; rw [if_neg (Ne.symm hi), zero_mul]
      · simp

theorem triangulations : ∀ c ∈ cones, Triangulation c.2 (normal a b c.1) := by
  intro c hc
  simp only [cones, List.mem_cons, List.not_mem_nil, or_false] at hc
  have hact : ∀ (p q : ℚ) i, i ∈ active a b ![p, q] ↔ (i = 0 ∧ p = 0) ∨ (i = 1 ∧ q = 0) ∨ (i = 2 ∧ p + 2 * q = 2) := by
    intro p q i
    fin_cases i <;> simp [active, a, b]
  rcases hc with rfl | rfl | rfl
  · refine simple_vertex a b _ _ (by decide) ![0, 1] (by decide) (by intro k; fin_cases k <;> rfl) fun i => ?_
    rw [hact]
    fin_cases i <;> simp
  · refine simple_vertex a b _ _ (by decide) ![1, 2] (by decide) (by intro k; fin_cases k <;> rfl) fun i => ?_
    rw [hact]
    fin_cases i <;> simp
  · refine simple_vertex a b _ _ (by decide) ![0, 2] (by decide) (by intro k; fin_cases k <;> rfl) fun i => ?_
    rw [hact]
    fin_cases i <;> simp

/-- Every finishing run counts four lattice points in the triangle. -/
example (N' : Ntl 2) (hN : N'.Ok) (X : Smith.Xgcd) (irr : Cone 2 → Fin 2 → ℚ) (maxDet : ℤ) (h0 : maxDet ≠ 0)
    (hmax : maxDet ≤ Piped.intMax) (fuel : ℕ) (hfuel : maxDet < fuel) (tries : ℕ) (guesses : ℕ → Vec 2) (r : ℤ)
    (h : decomposeAndCount N' X .dual irr maxDet fuel cones tries guesses = .ok r) : r = 4 :=
  c65_count_dual N' hN X irr maxDet h0 hmax fuel hfuel a b S lattice cones vertices triangulations tries guesses r h

/-- There are runs that finish: some lattice reduction keeps the contract, and with it some vector makes the first round succeed with four. -/
example (X : Smith.Xgcd) : ∃ (N' : Ntl 2) (lam : Vec 2), N'.Ok ∧ N'.Reduces ∧
    decomposeAndCount N' X .dual (fun C => C.vertex) 1 2 cones 1 (fun _ => lam) = .ok 4 := by
  obtain ⟨N', hN, hR⟩ := reduces_satisfiable 2
  obtain ⟨D, ⟨lam, hlam⟩, h⟩ := c65_total_dual_dim_le_four (by norm_num) N' hN hR X (fun C => C.vertex) 1 le_rfl (by decide) 2 (by norm_num)
    a b S lattice cones vertices triangulations
  exact ⟨N', lam, hN, hR, h 0 (fun _ => lam) (by intro s hs; omega) hlam 1 (by norm_num)⟩

/-- The same for the irrational primal variant. -/
example (X : Smith.Xgcd) : ∃ (N' : Ntl 2) (lam : Vec 2) (depth : Cone 2 → ℕ), N'.Ok ∧ N'.ShortestRow ∧ (∀ C, EstimateOk depth C) ∧
    decomposeAndCount N' X .irrationalPrimal (irrVertex depth) 1 2 cones 1 (fun _ => lam) = .ok 4 := by
  obtain ⟨N', hN, hR⟩ := shortestRow_satisfiable 2
  obtain ⟨⟨depth, hd⟩, -⟩ := estimate_satisfiable (n := 2)
  obtain ⟨D, ⟨lam, hlam⟩, h⟩ := c65_total_irrationalPrimal N' hN hR X depth (fun C _ => hd C) 1 le_rfl (by decide) 2 (by norm_num)
    a b S lattice cones vertices triangulations
  exact ⟨N', lam, depth, hN, hR, hd, h 0 (fun _ => lam) (by intro s hs; omega) hlam 1 (by norm_num)⟩

/-- Ehrhart polynomial of the triangle: some run ends, and its polynomial counts the points of every dilation, four for the triangle itself. -/
example (X : Smith.Xgcd) : ∃ (N' : Ntl 2) (lam : Vec 2) (moved : List (EhrhartCone 2)) (coeffs : ℕ → ℚ), toOrigin cones = some moved ∧
    decomposeAndEhrhart N' X .dual (fun C => C.vertex) 1 2 moved 1 (fun _ => lam) = .ok coeffs ∧ IsEhrhart a b coeffs ∧
    coeffs 0 + coeffs 1 + coeffs 2 = 4 := by
  obtain ⟨N', hN, hR⟩ := reduces_satisfiable 2
  obtain ⟨moved, hm, D, ⟨lam, hlam⟩, h⟩ := c69_total_dual N' hN (shortVectors_dim_le_four (by norm_num) N' hN hR) X (fun C => C.vertex) 1 le_rfl
    (by decide) 2 (by norm_num) a b cones vertices (by
      intro c hc
      simp only [cones, List.mem_cons, List.not_mem_nil, or_false] at hc
      rcases hc with rfl | rfl | rfl
      · exact ⟨![0, 0], by intro k; fin_cases k <;> rfl⟩
      · exact ⟨![2, 0], by intro k; fin_cases k <;> rfl⟩
      · exact ⟨![0, 1], by intro k; fin_cases k <;> rfl⟩) triangulations
  obtain ⟨coeffs, hc, hE⟩ := h 0 (fun _ => lam) (by intro s hs; omega) hlam 1 (by norm_num)
  refine ⟨N', lam, moved, coeffs, hm, hc, hE, ?_⟩
  have := hE 1 le_rfl S (by
    have : dilate 1 b = b := by funext i; simp [dilate]
    rw [this]; exact lattice)
  simpa [Finset.sum_range_succ, S] using this

/-- A segment with a vertex at one half is rejected. -/
example : toOrigin [((fun _ => 0 : Fin 1 → ℚ), []), ((fun _ => 1 / 2 : Fin 1 → ℚ), [])] = none :=
  (c69_rejects _).2 ⟨_, List.mem_cons_of_mem _ List.mem_cons_self, by
    rintro ⟨z, hz⟩
    have h : (z 0 : ℚ) = 1 / 2 := hz 0
    have : (2 : ℚ) * z 0 = 1 := by rw [h]; norm_num
    have : 2 * z 0 = 1 := by exact_mod_cast this
    omega⟩

/-- The tight inequalities at a corner of the triangle. -/
example : computeTight [(0, ![1, 0]), (0, ![0, 1]), (2, ![-1, -2])] (![2, 0] : Fin 2 → ℚ) [] = [![1, 2], ![0, -1]] := by decide +kernel

end Triangle

end Verif.Brion

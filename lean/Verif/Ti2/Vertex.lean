import Verif.Ti2.Exists
import Verif.Ti2.Model
import Verif.Regular.VertexList

/-!
# Vertex cones with 4ti2 (C83)
-/

namespace Verif.Ti2

open Verif.Barvinok Verif.Barvinok.Spec Verif.Brion Verif.Regular Verif.ExpSubst

variable {n : ℕ}

/-! ## The homogenization -/

/-- The homogenizing coordinate. -/
def tOf {N n : ℕ} (x : Fin (N + (n + 1)) → ℝ) : ℝ := x (Fin.natAdd N 0)

/-- The coordinates of the polyhedron. -/
def yOf {N n : ℕ} (x : Fin (N + (n + 1)) → ℝ) : Fin n → ℝ := fun k => x (Fin.natAdd N k.succ)

/-- The slack of an inequality at `(t, y)`. -/
noncomputable def slack (ineqs : List (ℤ × Vec n)) (j : Fin ineqs.length) (t : ℝ) (y : Fin n → ℝ) : ℝ := (sides ineqs j : ℝ) * t - dot (normals ineqs j) y

/-- The point of the homogenization given by `t` and `y`. -/
noncomputable def hom (ineqs : List (ℤ × Vec n)) (t : ℝ) (y : Fin n → ℝ) : Fin (ineqs.length + (n + 1)) → ℝ :=
  Fin.append (fun j => slack ineqs j t y) (Fin.cons t y : Fin (n + 1) → ℝ)

/-- The cone given to 4ti2. -/
def Hom (ineqs : List (ℤ × Vec n)) : Set (Fin (ineqs.length + (n + 1)) → ℝ) := ConeOf (vertexMatrix ineqs) (vertexBits ineqs.length n)

variable {ineqs : List (ℤ × Vec n)}

theorem tOf_hom (t : ℝ) (y : Fin n → ℝ) : tOf (hom ineqs t y) = t := by simp [tOf, hom]

theorem yOf_hom (t : ℝ) (y : Fin n → ℝ) : yOf (hom ineqs t y) = y := by funext k; simp [yOf, hom]

theorem hom_slack (t : ℝ) (y : Fin n → ℝ) (j : Fin ineqs.length) : hom ineqs t y (Fin.castAdd (n + 1) j) = slack ineqs j t y := by simp [hom]

theorem vertexMatrix_slack (i j : Fin ineqs.length) : vertexMatrix ineqs i (Fin.castAdd (n + 1) j) = if j = i then -1 else 0 := by
  unfold vertexMatrix setDiagonal
  by_cases h : j = i
  · rw [if_pos h, if_pos (by rw [h])]
  · rw [if_neg h, if_neg (by rwa [Fin.castAdd_inj])]
    simp [rayArray]

theorem vertexMatrix_rest (i : Fin ineqs.length) (k : Fin (n + 1)) : vertexMatrix ineqs i (Fin.natAdd ineqs.length k) = rowVec (ineqs.get i) k := by
  unfold vertexMatrix setDiagonal
  rw [if_neg (by
    intro h
    have := congrArg Fin.val h
    rw [Fin.val_natAdd, Fin.val_castAdd] at this
    omega)]
  simp [rayArray]

theorem row_sum (x : Fin (ineqs.length + (n + 1)) → ℝ) (i : Fin ineqs.length) :
    ∑ j, (vertexMatrix ineqs i j : ℝ) * x j = slack ineqs i (tOf x) (yOf x) - x (Fin.castAdd (n + 1) i) := by
  rw [Fin.sum_univ_add, Fin.sum_univ_succ]
  have h1 : ∑ j, (vertexMatrix ineqs i (Fin.castAdd (n + 1) j) : ℝ) * x (Fin.castAdd (n + 1) j) = -x (Fin.castAdd (n + 1) i) := by
    rw [Finset.sum_eq_single i]
    · rw [vertexMatrix_slack, if_pos rfl]; simp
    · intro j _ hj
      rw [vertexMatrix_slack, if_neg hj]; simp
    · intro h; exact absurd (Finset.mem_univ _) h
  rw [h1]
  simp only [vertexMatrix_rest]
  unfold slack dot tOf yOf normals sides rowVec
  simp only [Fin.cons_zero, Fin.cons_succ]
  push_cast
  have : ∑ k, -((ineqs.get i).2 k : ℝ) * x (Fin.natAdd ineqs.length k.succ) = -∑ k, ((ineqs.get i).2 k : ℝ) * x (Fin.natAdd ineqs.length k.succ) := by
    rw [← Finset.sum_neg_distrib]
    exact Finset.sum_congr rfl fun k _ => by ring
  rw [this]
  ring

theorem bits_slack (N : ℕ) (j : Fin N) : vertexBits N n (Fin.castAdd (n + 1) j) = true := by simp [vertexBits, slackBits]

theorem bits_hom (N : ℕ) : vertexBits N n (Fin.natAdd N 0) = true := by simp [vertexBits]

theorem bits_rest (N : ℕ) (k : Fin n) : vertexBits N n (Fin.natAdd N k.succ) = false := by simp [vertexBits, slackBits]

theorem kernel_iff (x : Fin (ineqs.length + (n + 1)) → ℝ) : (∀ i, ∑ j, (vertexMatrix ineqs i j : ℝ) * x j = 0) ↔ x = hom ineqs (tOf x) (yOf x) := by
  constructor
  · intro h
    funext j
    refine Fin.addCases (fun j => ?_) (fun k => ?_) j
    · have := h j
      rw [row_sum] at this
      rw [hom_slack]
      linarith
    · unfold hom
      rw [Fin.append_right]
      refine Fin.cases ?_ (fun k => ?_) k
      · rfl
      · rfl
  · intro h i
    rw [row_sum, h, hom_slack, tOf_hom, yOf_hom, sub_self]

theorem mem_hom_iff (x : Fin (ineqs.length + (n + 1)) → ℝ) :
    x ∈ Hom ineqs ↔ x = hom ineqs (tOf x) (yOf x) ∧ 0 ≤ tOf x ∧ ∀ j, 0 ≤ slack ineqs j (tOf x) (yOf x) := by
  show (_ ∧ _) ↔ _
  rw [kernel_iff]
  refine and_congr_right fun h => ⟨fun hb => ⟨hb _ (bits_hom _), fun j => ?_⟩, fun hb j hj => ?_⟩
  · have := hb _ (bits_slack _ j)
    rw [h, hom_slack] at this
    exact this
  · revert hj
    refine Fin.addCases (fun j _ => ?_) (fun k => ?_) j
    · rw [h, hom_slack]; exact hb.2 j
    · refine Fin.cases (fun _ => hb.1) (fun k hk => ?_) k
      rw [bits_rest] at hk
      cases hk

theorem hom_mem (t : ℝ) (y : Fin n → ℝ) (ht : 0 ≤ t) (h : ∀ j, 0 ≤ slack ineqs j t y) : hom ineqs t y ∈ Hom ineqs := by
  rw [mem_hom_iff, tOf_hom, yOf_hom]
  exact ⟨rfl, ht, h⟩

theorem hom_smul (c t : ℝ) (y : Fin n → ℝ) : c • hom ineqs t y = hom ineqs (c * t) (c • y) := by
  funext j
  refine Fin.addCases (fun j => ?_) (fun k => ?_) j
  · rw [Pi.smul_apply, hom_slack, hom_slack, smul_eq_mul]
    unfold slack
    rw [dot_smul']
    ring
  · unfold hom
    rw [Pi.smul_apply, Fin.append_right, Fin.append_right, smul_eq_mul]
    refine Fin.cases rfl (fun k => ?_) k
    rfl

theorem hom_zero : hom ineqs 0 (0 : Fin n → ℝ) = 0 := by
  have := hom_smul (ineqs := ineqs) 0 1 (0 : Fin n → ℝ)
  rw [zero_smul, zero_mul, zero_smul] at this
  exact this.symm

/-- The normals of the inequalities span the space: the polyhedron contains no line. -/
def NoLine (ineqs : List (ℤ × Vec n)) : Prop := ∀ y : Fin n → ℝ, (∀ q ∈ ineqs, dot q.2 y = 0) → y = 0

theorem dot_normals (j : Fin ineqs.length) (y : Fin n → ℝ) : dot (normals ineqs j) y = -dot (ineqs.get j).2 y := by
  unfold dot normals
  rw [← Finset.sum_neg_distrib]
  exact Finset.sum_congr rfl fun k _ => by push_cast; ring

/-- The homogenization is pointed exactly if the polyhedron contains no line. -/
theorem pointed_iff : (∀ x ∈ Lineality (Hom ineqs), x = 0) ↔ NoLine ineqs := by
  constructor
  · intro h y hy
    have hs : ∀ j, slack ineqs j 0 y = 0 := by
      intro j
      unfold slack
      rw [dot_normals, hy _ (List.get_mem _ _)]
      ring
    have hm : hom ineqs 0 y ∈ Lineality (Hom ineqs) := by
      refine ⟨hom_mem 0 y le_rfl fun j => (hs j).ge, ?_⟩
      rw [← neg_one_smul ℝ, hom_smul, mul_zero]
      refine hom_mem _ _ le_rfl fun j => ?_
      have : slack ineqs j 0 ((-1 : ℝ) • y) = -slack ineqs j 0 y := by
        unfold slack
        rw [dot_smul']
        ring
      rw [this, hs j, neg_zero]
    have := congrArg yOf (h _ hm)
    rw [yOf_hom] at this
    rw [this]
    rfl
  · intro h x hx
    obtain ⟨hk, hz⟩ := (lin_iff x).1 hx
    rw [kernel_iff] at hk
    have ht : tOf x = 0 := hz _ (bits_hom _)
    have hy : yOf x = 0 := by
      refine h _ fun q hq => ?_
      obtain ⟨j, rfl⟩ := List.get_of_mem hq
      have := hz _ (bits_slack _ j)
      rw [hk, hom_slack, ht] at this
      unfold slack at this
      rw [dot_normals] at this
      linarith
    rw [hk, ht, hy, hom_zero]

/-- The polyhedron described by the rows. -/
def Polyhedron (ineqs : List (ℤ × Vec n)) : Set (Fin n → ℝ) := {x | ∀ q ∈ ineqs, 0 ≤ (q.1 : ℝ) + dot q.2 x}

theorem polyhedron_eq (ineqs : List (ℤ × Vec n)) : Polyhedron ineqs = Poly (normals ineqs) fun i => (sides ineqs i : ℝ) := by
  ext x
  have key : ∀ j : Fin ineqs.length, dot (normals ineqs j) x ≤ (sides ineqs j : ℝ) ↔ 0 ≤ ((ineqs.get j).1 : ℝ) + dot (ineqs.get j).2 x := by
    intro j
    rw [dot_normals]
    have : ((sides ineqs j : ℚ) : ℝ) = ((ineqs.get j).1 : ℝ) := by unfold sides; push_cast; rfl
    rw [this]
    constructor <;> intro h <;> linarith
  constructor
  · intro h j
    exact (key j).2 (h _ (List.get_mem _ _))
  · intro h q hq
    obtain ⟨j, rfl⟩ := List.get_of_mem hq
    exact (key j).1 (h j)

/-- A vertex gives an extreme ray. -/
theorem vertex_ray (v : Fin n → ℝ) (hv : v ∈ (Poly (normals ineqs) fun i => (sides ineqs i : ℝ)).extremePoints ℝ) : IsExtremeRay (Hom ineqs) (hom ineqs 1 v) := by
  rw [extreme_iff] at hv
  refine ⟨hom_mem 1 v zero_le_one fun j => ?_, fun h => ?_, fun u hu w hw e => ?_⟩
  · have := hv.1 j
    unfold slack
    linarith
  · rw [mem_hom_iff] at h
    have h1 := h.2.1
    rw [← neg_one_smul ℝ, hom_smul, tOf_hom] at h1
    linarith
  · rw [mem_hom_iff] at hu hw
    obtain ⟨eu, ut, us⟩ := hu
    obtain ⟨ew, wt, ws⟩ := hw
    have hl := hv.2 (yOf u + (-tOf u) • v) fun j hj => by
      have h1 := congrFun e (Fin.castAdd (n + 1) j)
      rw [Pi.add_apply, hom_slack, eu, ew, hom_slack, hom_slack] at h1
      have h2 : slack ineqs j 1 v = 0 := by unfold slack; rw [hj]; ring
      rw [h2] at h1
      have h3 : slack ineqs j (tOf u) (yOf u) = 0 := le_antisymm (by have := ws j; linarith) (us j)
      unfold slack at h3
      rw [dot_move, hj]
      linarith
    refine ⟨tOf u, ut, ?_⟩
    have : u - tOf u • hom ineqs 1 v = 0 := by
      rw [hom_smul, mul_one, sub_eq_zero]
      conv_lhs => rw [eu]
      congr 1
      funext k
      have := congrFun hl k
      simp only [Pi.add_apply, Pi.smul_apply, smul_eq_mul, Pi.zero_apply] at this
      rw [Pi.smul_apply, smul_eq_mul]
      linarith
    rw [this]
    exact (lin_iff _).2 ⟨fun i => by simp, fun j _ => rfl⟩

/-- An extreme ray with positive homogenizing coordinate gives a vertex. -/
theorem ray_vertex (hnl : NoLine ineqs) (x : Fin (ineqs.length + (n + 1)) → ℝ) (hx : IsExtremeRay (Hom ineqs) x) (ht : 0 < tOf x) :
    (tOf x)⁻¹ • yOf x ∈ (Poly (normals ineqs) fun i => (sides ineqs i : ℝ)).extremePoints ℝ := by
  have hm := hx.1
  rw [mem_hom_iff] at hm
  obtain ⟨ex, -, hs⟩ := hm
  have hsl : ∀ j, slack ineqs j (tOf x) (yOf x) = tOf x * ((sides ineqs j : ℝ) - dot (normals ineqs j) ((tOf x)⁻¹ • yOf x)) := by
    intro j
    unfold slack
    rw [dot_smul']
    field_simp
  rw [extreme_iff]
  refine ⟨fun j => ?_, fun l hl => ?_⟩
  · have h1 := hs j
    rw [hsl] at h1
    have := nonneg_of_mul_nonneg_right h1 ht
    linarith
  · obtain ⟨c, hc⟩ := kernel_multiple hx.minimal (z := hom ineqs 0 l) ((kernel_iff _).2 (by rw [tOf_hom, yOf_hom])) (by
      intro j
      refine Fin.addCases (fun j _ hj => ?_) (fun k => ?_) j
      · rw [hom_slack]
        rw [ex, hom_slack, hsl, mul_eq_zero] at hj
        have h0 : (sides ineqs j : ℝ) - dot (normals ineqs j) ((tOf x)⁻¹ • yOf x) = 0 := hj.resolve_left ht.ne'
        unfold slack
        rw [hl j (by linarith)]
        ring
      · refine Fin.cases (fun _ _ => tOf_hom 0 l) (fun k hk => ?_) k
        rw [bits_rest] at hk
        cases hk)
    have h0 := pointed_iff.2 hnl _ hc
    have h1 := congrArg tOf h0
    have h2 : tOf (hom ineqs 0 l - c • x) = 0 - c * tOf x := by
      show hom ineqs 0 l (Fin.natAdd _ 0) - c * x (Fin.natAdd _ 0) = _
      have := tOf_hom (ineqs := ineqs) 0 l
      unfold tOf at this ⊢
      rw [this]
    rw [h2] at h1
    have hc0 : c = 0 := by
      have h3 : 0 - c * tOf x = 0 := h1
      have : c * tOf x = 0 := by linarith
      exact (mul_eq_zero.1 this).resolve_right ht.ne'
    rw [hc0, zero_smul, sub_zero] at h0
    have := congrArg yOf h0
    rw [yOf_hom] at this
    rw [this]
    rfl

end Verif.Ti2

import Verif.Ti2.Vertex

/-!
# Vertex cones with 4ti2: the run (C83)
-/

namespace Verif.Ti2

open Verif.Barvinok Verif.Barvinok.Spec Verif.Brion Verif.Regular Verif.ExpSubst

variable {n : ℕ}

/-- **Specification.** `f` is the primitive vector in the direction of `w`; the zero vector stays as it is. -/
def IsPrimitiveOf (f w : Vec n) : Prop := (w = 0 ∧ f = 0) ∨ ((∃ g : ℤ, 0 < g ∧ ∀ k, g * f k = w k) ∧ ∀ d : ℤ, (∀ k, d ∣ f k) → IsUnit d)

theorem rowGcd_zero_iff (v : Vec n) : rowGcd v = 0 ↔ v = 0 := by
  constructor
  · intro h
    funext k
    exact zero_dvd_iff.1 (h ▸ rowGcd_dvd v k)
  · rintro rfl
    exact zero_dvd_iff.1 (dvd_rowGcd 0 0 fun j => dvd_refl _)

theorem reduceRow_isPrimitive (w f : Vec n) : f = reduceRow w ↔ IsPrimitiveOf f w := by
  by_cases hw : w = 0
  · subst hw
    have h0 : rowGcd (0 : Vec n) = 0 := (rowGcd_zero_iff _).2 rfl
    have h1 : reduceRow (0 : Vec n) = 0 := by unfold reduceRow; rw [h0]; simp
    rw [h1]
    constructor
    · intro h; exact Or.inl ⟨rfl, h⟩
    · rintro (h | ⟨⟨g, hg, h⟩, -⟩)
      · exact h.2
      · funext k
        exact (mul_eq_zero.1 (h k)).resolve_left hg.ne'
  · have hne : rowGcd w ≠ 0 := fun h => hw ((rowGcd_zero_iff w).1 h)
    have hpos : 0 < rowGcd w := lt_of_le_of_ne (rowGcd_nonneg w) hne.symm
    constructor
    · rintro rfl
      exact Or.inr ⟨⟨_, hpos, fun k => reduceRow_mul w hne k⟩, fun d hd => reduceRow_primitive w hne d hd⟩
    · rintro (h | ⟨⟨g, hg, h⟩, hp⟩)
      · exact absurd h.1 hw
      · have hd : g ∣ rowGcd w := dvd_rowGcd w g fun j => ⟨f j, (h j).symm⟩
        obtain ⟨e, he⟩ := hd
        have heu : IsUnit e := hp e fun k => by
          have h1 := rowGcd_dvd w k
          rw [he, ← h k] at h1
          exact (mul_dvd_mul_iff_left hg.ne').1 h1
        have he1 : e = 1 := by
          rcases Int.isUnit_iff.1 heu with h1 | h1
          · exact h1
          · rw [h1] at he; nlinarith
        rw [he1, mul_one] at he
        funext k
        have h1 := reduceRow_mul w hne k
        rw [he, ← h k] at h1
        exact (mul_left_cancel₀ hg.ne' h1).symm

theorem dot_reduceRow (w : Vec n) (y : Fin n → ℝ) : dot (reduceRow w) y ≤ 0 ↔ dot w y ≤ 0 := by
  rcases (reduceRow_isPrimitive w _).1 rfl with ⟨h1, h2⟩ | ⟨⟨g, hg, h⟩, -⟩
  · rw [h2, h1]
  · have : dot w y = (g : ℝ) * dot (reduceRow w) y := by
      unfold dot
      rw [Finset.mul_sum]
      refine Finset.sum_congr rfl fun k _ => ?_
      rw [← h k]
      push_cast
      ring
    rw [this]
    have hg' : (0 : ℝ) < g := by exact_mod_cast hg
    constructor
    · intro h; exact mul_nonpos_of_nonneg_of_nonpos hg'.le h
    · intro h; exact nonpos_of_mul_nonpos_right h hg'

variable {ineqs : List (ℤ × Vec n)}

theorem mem_foldl_incident (r : Fin (ineqs.length + (n + 1)) → ℤ) (f : Vec n) : ∀ (l : List (Fin ineqs.length)) (acc : List (Vec n)),
    f ∈ l.foldl (fun acc j => if r (Fin.castAdd (n + 1) j) = 0 then reduceRow (fun k => -(ineqs.get j).2 k) :: acc else acc) acc ↔
      f ∈ acc ∨ ∃ j ∈ l, r (Fin.castAdd (n + 1) j) = 0 ∧ f = reduceRow (normals ineqs j) := by
  intro l
  induction l with
  | nil => intro acc; simp
  | cons j l ih =>
    intro acc
    rw [List.foldl_cons, ih]
    by_cases h : r (Fin.castAdd (n + 1) j) = 0
    · rw [if_pos h]
      simp only [List.mem_cons, exists_eq_or_imp, h, true_and]
      show (f = reduceRow (normals ineqs j) ∨ f ∈ acc) ∨ _ ↔ _
      tauto
    · rw [if_neg h]
      simp only [List.mem_cons, exists_eq_or_imp, h, false_and, false_or]

theorem mem_incident (r : Fin (ineqs.length + (n + 1)) → ℤ) (f : Vec n) :
    f ∈ incident ineqs r ↔ ∃ j, r (Fin.castAdd (n + 1) j) = 0 ∧ f = reduceRow (normals ineqs j) := by
  unfold incident
  rw [mem_foldl_incident]
  simp

/-- The cone made from a ray. -/
def coneAt (ineqs : List (ℤ × Vec n)) (r : Fin (ineqs.length + (n + 1)) → ℤ) : GCone n :=
  ⟨fun j => (r (Fin.natAdd ineqs.length j.succ) : ℚ) / r (Fin.natAdd ineqs.length 0), [], incident ineqs r, [], []⟩

theorem foldl_vertexStep : ∀ (rays : List (Fin (ineqs.length + (n + 1)) → ℤ)) (s : Bool × List (GCone n)),
    rays.foldl (vertexStep ineqs) s = (s.1 || rays.any fun r => decide (r (Fin.natAdd ineqs.length 0) = 0),
      ((rays.filter fun r => decide (r (Fin.natAdd ineqs.length 0) ≠ 0)).map (coneAt ineqs)).reverse ++ s.2) := by
  intro rays
  induction rays with
  | nil => intro s; simp
  | cons r rays ih =>
    intro s
    rw [List.foldl_cons, ih]
    by_cases h : r (Fin.natAdd ineqs.length 0) = 0
    · simp [vertexStep, h]
    · simp [vertexStep, h, coneAt]

/-- The ray as a point of the homogenization. -/
theorem ray_facts {r : Fin (ineqs.length + (n + 1)) → ℤ} (hr : toR r ∈ Hom ineqs) (h0 : r (Fin.natAdd ineqs.length 0) ≠ 0) :
    0 < tOf (toR r) ∧ toR r = tOf (toR r) • hom ineqs 1 (fun k => ((coneAt ineqs r).vertex k : ℝ)) := by
  have hm := hr
  rw [mem_hom_iff] at hm
  have hne : tOf (toR r) ≠ 0 := by
    unfold tOf toR
    exact_mod_cast h0
  refine ⟨lt_of_le_of_ne hm.2.1 hne.symm, ?_⟩
  rw [hom_smul, mul_one]
  conv_lhs => rw [hm.1]
  congr 1
  funext k
  rw [Pi.smul_apply, smul_eq_mul]
  have : ((coneAt ineqs r).vertex k : ℝ) = yOf (toR r) k / tOf (toR r) := by
    unfold coneAt yOf tOf toR
    push_cast
    rfl
  rw [this]
  field_simp

theorem vertex_eq {r : Fin (ineqs.length + (n + 1)) → ℤ} (hr : toR r ∈ Hom ineqs) (h0 : r (Fin.natAdd ineqs.length 0) ≠ 0) :
    (tOf (toR r))⁻¹ • yOf (toR r) = fun k => ((coneAt ineqs r).vertex k : ℝ) := by
  obtain ⟨ht, h⟩ := ray_facts hr h0
  have h1 := congrArg yOf h
  rw [hom_smul, yOf_hom] at h1
  rw [h1, smul_smul, inv_mul_cancel₀ ht.ne', one_smul]

theorem zero_mem_lin : (0 : Fin (ineqs.length + (n + 1)) → ℝ) ∈ Lineality (Hom ineqs) := (lin_iff _).2 ⟨fun i => by simp, fun j _ => rfl⟩

/-- The vertices of the cones. -/
theorem vertexList_rays (hnl : NoLine ineqs) {rays sub : List (Fin (ineqs.length + (n + 1)) → ℤ)} (h : IsRayList (Hom ineqs) rays sub) :
    IsVertexList (normals ineqs) (sides ineqs)
      ((((rays.filter fun r => decide (r (Fin.natAdd ineqs.length 0) ≠ 0)).map (coneAt ineqs)).reverse).map (·.vertex)) := by
  constructor
  · rw [List.map_reverse, List.nodup_reverse, List.map_map]
    refine List.Pairwise.map _ (fun r r' hrr => hrr) ?_
    have hp : (rays.filter fun r => decide (r (Fin.natAdd ineqs.length 0) ≠ 0)).Pairwise
        fun r r' => ∀ c : ℝ, 0 < c → toR r - c • toR r' ∉ Lineality (Hom ineqs) := h.once.filter _
    refine (List.Pairwise.imp_of_mem ?_ hp)
    intro r r' hr hr' hc he
    rw [List.mem_filter, decide_eq_true_eq] at hr hr'
    obtain ⟨t1, e1⟩ := ray_facts (h.extreme r hr.1).1 hr.2
    obtain ⟨t2, e2⟩ := ray_facts (h.extreme r' hr'.1).1 hr'.2
    refine hc (tOf (toR r) / tOf (toR r')) (div_pos t1 t2) ?_
    have he' : (coneAt ineqs r).vertex = (coneAt ineqs r').vertex := he
    have : toR r - (tOf (toR r) / tOf (toR r')) • toR r' = 0 := by
      rw [he'] at e1
      have e3 : (tOf (toR r) / tOf (toR r')) • toR r' = tOf (toR r) • hom ineqs 1 (fun k => ((coneAt ineqs r').vertex k : ℝ)) := by
        have e4 := congrArg (fun z => (tOf (toR r) / tOf (toR r')) • z) e2
        beta_reduce at e4
        rw [e4, smul_smul, div_mul_cancel₀ _ t2.ne']
      rw [e3, ← e1, sub_self]
    rw [this]
    exact zero_mem_lin
  · intro x
    constructor
    · rintro ⟨v, hv, rfl⟩
      rw [List.mem_map] at hv
      obtain ⟨C, hC, rfl⟩ := hv
      rw [List.mem_reverse, List.mem_map] at hC
      obtain ⟨r, hr, rfl⟩ := hC
      rw [List.mem_filter, decide_eq_true_eq] at hr
      have hx := h.extreme r hr.1
      rw [← vertex_eq hx.1 hr.2]
      exact ray_vertex hnl _ hx (ray_facts hx.1 hr.2).1
    · intro hx
      obtain ⟨r, hr, c, hc, hl⟩ := h.all _ (vertex_ray x hx)
      have hz := pointed_iff.2 hnl _ hl
      rw [sub_eq_zero] at hz
      have ht := congrArg tOf hz
      rw [tOf_hom] at ht
      have ht' : (1 : ℝ) = c * (r (Fin.natAdd ineqs.length 0) : ℝ) := ht
      have h0 : r (Fin.natAdd ineqs.length 0) ≠ 0 := by
        intro h0
        rw [h0] at ht'
        norm_num at ht'
      refine ⟨(coneAt ineqs r).vertex, ?_, ?_⟩
      · rw [List.mem_map]
        refine ⟨coneAt ineqs r, ?_, rfl⟩
        rw [List.mem_reverse]
        exact List.mem_map_of_mem (List.mem_filter.2 ⟨hr, by simpa using h0⟩)
      · rw [← vertex_eq (h.extreme r hr).1 h0]
        have hy := congrArg yOf hz
        rw [yOf_hom] at hy
        rw [hy]
        have hy' : yOf (c • toR r) = c • yOf (toR r) := rfl
        have hc' : c = (tOf (toR r))⁻¹ := eq_inv_of_mul_eq_one_left ht'.symm
        rw [hy', hc']

/-- The slack is zero exactly if the inequality is an equation at the vertex. -/
theorem slack_zero_iff {r : Fin (ineqs.length + (n + 1)) → ℤ} (hr : toR r ∈ Hom ineqs) (h0 : r (Fin.natAdd ineqs.length 0) ≠ 0) (j : Fin ineqs.length) :
    r (Fin.castAdd (n + 1) j) = 0 ↔ j ∈ active (normals ineqs) (sides ineqs) (coneAt ineqs r).vertex := by
  obtain ⟨ht, h⟩ := ray_facts hr h0
  have h1 := congrFun h (Fin.castAdd (n + 1) j)
  rw [Pi.smul_apply, hom_slack, smul_eq_mul] at h1
  have h2 : (r (Fin.castAdd (n + 1) j) : ℝ) = tOf (toR r) * slack ineqs j 1 (fun k => ((coneAt ineqs r).vertex k : ℝ)) := h1
  have h3 : r (Fin.castAdd (n + 1) j) = 0 ↔ (r (Fin.castAdd (n + 1) j) : ℝ) = 0 := by exact_mod_cast Iff.rfl
  rw [h3, h2, mul_eq_zero, or_iff_right ht.ne']
  unfold slack
  rw [dot_cast, mul_one, sub_eq_zero]
  show _ ↔ ∑ k, (normals ineqs j k : ℚ) * (coneAt ineqs r).vertex k = sides ineqs j
  rw [eq_comm]
  exact_mod_cast Iff.rfl

/-- The facets generate the normal cone. -/
theorem incident_normal {r : Fin (ineqs.length + (n + 1)) → ℤ} (hr : toR r ∈ Hom ineqs) (h0 : r (Fin.natAdd ineqs.length 0) ≠ 0) :
    generated (incident ineqs r) = normal (normals ineqs) (sides ineqs) (coneAt ineqs r).vertex := by
  ext x
  unfold normal
  rw [generated_iff, mem_coneOf_iff]
  refine forall_congr' fun y => imp_congr_left ?_
  constructor
  · intro h i hi
    exact (dot_reduceRow _ y).1 (h _ ((mem_incident r _).2 ⟨i, (slack_zero_iff hr h0 i).2 hi, rfl⟩))
  · intro h f hf
    obtain ⟨j, hj, rfl⟩ := (mem_incident r f).1 hf
    exact (dot_reduceRow _ y).2 (h j ((slack_zero_iff hr h0 j).1 hj))

/-- **Specification.** A direction in which the inequalities can be left for ever. -/
def Recession (ineqs : List (ℤ × Vec n)) (y : Fin n → ℝ) : Prop := y ≠ 0 ∧ ∀ q ∈ ineqs, 0 ≤ dot q.2 y

theorem recession_slack {y : Fin n → ℝ} : (∀ j, 0 ≤ slack ineqs j 0 y) ↔ ∀ q ∈ ineqs, 0 ≤ dot q.2 y := by
  have hs : ∀ j, slack ineqs j 0 y = dot (ineqs.get j).2 y := by
    intro j
    unfold slack
    rw [dot_normals]
    ring
  constructor
  · intro h q hq
    obtain ⟨j, rfl⟩ := List.get_of_mem hq
    rw [← hs]
    exact h j
  · intro h j
    rw [hs]
    exact h _ (List.get_mem _ _)

theorem combine_apply {L : ℕ} (rays : List (Fin L → ℤ)) (c : Fin rays.length → ℝ) (j : Fin L) : combine rays c j = ∑ i, c i * (rays.get i j : ℝ) := by
  unfold combine
  rw [Finset.sum_apply]
  rfl

/-- Every point of the homogenization is a non-negative combination of the rays. -/
theorem hom_combine (hnl : NoLine ineqs) {rays sub : List (Fin (ineqs.length + (n + 1)) → ℤ)} (h : IsRayList (Hom ineqs) rays sub)
    {x : Fin (ineqs.length + (n + 1)) → ℝ} (hx : x ∈ Hom ineqs) : ∃ c : Fin rays.length → ℝ, (∀ i, 0 ≤ c i) ∧ x = combine rays c := by
  obtain ⟨c, hc, hl⟩ := generates h hx
  exact ⟨c, hc, sub_eq_zero.1 (pointed_iff.2 hnl _ hl)⟩

/-- The flag. -/
theorem flag_iff (hnl : NoLine ineqs) {rays sub : List (Fin (ineqs.length + (n + 1)) → ℤ)} (h : IsRayList (Hom ineqs) rays sub) :
    (∃ r ∈ rays, r (Fin.natAdd ineqs.length 0) = 0) ↔ ∃ y, Recession ineqs y := by
  constructor
  · rintro ⟨r, hr, h0⟩
    have hx := h.extreme r hr
    have hm := hx.1
    rw [mem_hom_iff] at hm
    have ht : tOf (toR r) = 0 := by unfold tOf toR; exact_mod_cast h0
    rw [ht] at hm
    refine ⟨yOf (toR r), fun hy => ?_, recession_slack.1 hm.2.2⟩
    rw [hy, hom_zero] at hm
    apply hx.2.1
    rw [hm.1, neg_zero]
    exact zero_mem_lin.1
  · rintro ⟨y, hy, hr⟩
    obtain ⟨c, hc, e⟩ := hom_combine hnl h (hom_mem 0 y le_rfl (recession_slack.2 hr))
    by_contra hn
    have hn' : ∀ r ∈ rays, r (Fin.natAdd ineqs.length 0) ≠ 0 := fun r hr h0 => hn ⟨r, hr, h0⟩
    have ht := congrFun e (Fin.natAdd ineqs.length 0)
    have hnn : ∀ i ∈ Finset.univ, (0 : ℝ) ≤ c i * (rays.get i (Fin.natAdd ineqs.length 0) : ℝ) := fun i _ =>
      mul_nonneg (hc i) ((h.extreme _ (List.get_mem _ _)).1.2 _ (bits_hom _))
    rw [combine_apply, show hom ineqs 0 y (Fin.natAdd ineqs.length 0) = 0 from tOf_hom 0 y, eq_comm, Finset.sum_eq_zero_iff_of_nonneg hnn] at ht
    have hc0 : c = 0 := by
      funext i
      have h1 := ht i (Finset.mem_univ i)
      refine (mul_eq_zero.1 h1).resolve_right ?_
      exact_mod_cast hn' _ (List.get_mem _ _)
    apply hy
    rw [← yOf_hom (ineqs := ineqs) 0 y, e, hc0]
    funext k
    show combine rays 0 _ = 0
    rw [combine_apply]
    simp

/-- Without the flag the polyhedron is bounded. -/
theorem bounded_of_flag (hnl : NoLine ineqs) {rays sub : List (Fin (ineqs.length + (n + 1)) → ℤ)} (h : IsRayList (Hom ineqs) rays sub)
    (hf : ¬ ∃ r ∈ rays, r (Fin.natAdd ineqs.length 0) = 0) : Bornology.IsBounded (Polyhedron ineqs) := by
  rw [isBounded_iff_forall_norm_le]
  refine ⟨∑ k : Fin n, ∑ i : Fin rays.length, |(rays.get i (Fin.natAdd ineqs.length k.succ) : ℝ)|, fun x hx => ?_⟩
  rw [polyhedron_eq] at hx
  obtain ⟨c, hc, e⟩ := hom_combine hnl h (hom_mem 1 x zero_le_one fun j => by have := hx j; unfold slack; linarith)
  have ht := congrFun e (Fin.natAdd ineqs.length 0)
  rw [combine_apply, show hom ineqs 1 x (Fin.natAdd ineqs.length 0) = 1 from tOf_hom 1 x] at ht
  have hpos : ∀ i, (1 : ℝ) ≤ (rays.get i (Fin.natAdd ineqs.length 0) : ℝ) := by
    intro i
    have h1 : (0 : ℝ) ≤ (rays.get i (Fin.natAdd ineqs.length 0) : ℝ) := (h.extreme _ (List.get_mem _ _)).1.2 _ (bits_hom _)
    have h2 : rays.get i (Fin.natAdd ineqs.length 0) ≠ 0 := fun h0 => hf ⟨_, List.get_mem _ _, h0⟩
    have h3 : (0 : ℤ) ≤ rays.get i (Fin.natAdd ineqs.length 0) := by exact_mod_cast h1
    have h4 : (1 : ℤ) ≤ rays.get i (Fin.natAdd ineqs.length 0) := by omega
    exact_mod_cast h4
  have hc1 : ∀ i, c i ≤ 1 := by
    intro i
    rw [ht]
    refine le_trans ?_ (Finset.single_le_sum (f := fun i => c i * (rays.get i (Fin.natAdd ineqs.length 0) : ℝ))
      (fun i _ => mul_nonneg (hc i) (zero_le_one.trans (hpos i))) (Finset.mem_univ i))
    exact le_mul_of_one_le_right (hc i) (hpos i)
  refine (pi_norm_le_iff_of_nonneg (Finset.sum_nonneg fun k _ => Finset.sum_nonneg fun i _ => abs_nonneg _)).2 fun k => ?_
  have hk := congrFun e (Fin.natAdd ineqs.length k.succ)
  rw [combine_apply, show hom ineqs 1 x (Fin.natAdd ineqs.length k.succ) = x k from congrFun (yOf_hom 1 x) k] at hk
  rw [Real.norm_eq_abs, hk]
  refine le_trans (Finset.abs_sum_le_sum_abs _ _) (le_trans (Finset.sum_le_sum fun i _ => ?_) (Finset.single_le_sum
    (f := fun k : Fin n => ∑ i : Fin rays.length, |(rays.get i (Fin.natAdd ineqs.length k.succ) : ℝ)|)
    (fun k _ => Finset.sum_nonneg fun i _ => abs_nonneg _) (Finset.mem_univ k)))
  rw [abs_mul, abs_of_nonneg (hc i)]
  exact mul_le_of_le_one_left (abs_nonneg _) (hc1 i)

/-- With a direction of recession a non-empty polyhedron is unbounded. -/
theorem unbounded_of_recession {y : Fin n → ℝ} (hy : Recession ineqs y) {x : Fin n → ℝ} (hx : x ∈ Polyhedron ineqs) : ¬ Bornology.IsBounded (Polyhedron ineqs) := by
  intro hb
  rw [isBounded_iff_forall_norm_le] at hb
  obtain ⟨C, hC⟩ := hb
  have hk : ∃ k, y k ≠ 0 := by
    by_contra hn
    push Not at hn
    exact hy.1 (funext hn)
  obtain ⟨k, hk⟩ := hk
  have hm : ∀ s : ℝ, 0 ≤ s → x + s • y ∈ Polyhedron ineqs := by
    intro s hs q hq
    rw [dot_move]
    have h1 := hx q hq
    have h2 := mul_nonneg hs (hy.2 q hq)
    linarith
  have hb : ∀ s : ℝ, 0 ≤ s → s * |y k| ≤ C + |x k| := by
    intro s hs
    have h1 := (norm_le_pi_norm _ k).trans (hC _ (hm s hs))
    rw [Pi.add_apply, Pi.smul_apply, smul_eq_mul, Real.norm_eq_abs] at h1
    have h2 : |s * y k| ≤ |x k + s * y k| + |x k| := by
      have := abs_sub (x k + s * y k) (x k)
      rwa [add_sub_cancel_left] at this
    rw [abs_mul, abs_of_nonneg hs] at h2
    linarith
  have hp : 0 < |y k| := abs_pos.2 hk
  have hC0 : 0 ≤ C + |x k| := by simpa using hb 0 le_rfl
  have := hb ((C + |x k| + 1) / |y k|) (div_nonneg (by linarith) hp.le)
  rw [div_mul_cancel₀ _ hp.ne'] at this
  linarith

/-! ## The theorems -/

theorem vertexCones_eq (alg : Rays) (ha : RaysOk alg) (ineqs : List (ℤ × Vec n)) :
    (NoLine ineqs ∧ ∃ rays sub, IsRayList (Hom ineqs) rays sub ∧ vertexCones alg ineqs =
      .ok (rays.any fun r => decide (r (Fin.natAdd ineqs.length 0) = 0),
        ((rays.filter fun r => decide (r (Fin.natAdd ineqs.length 0) ≠ 0)).map (coneAt ineqs)).reverse)) ∨
      (¬ NoLine ineqs ∧ vertexCones alg ineqs = .error .abort) := by
  have h := ha _ _ (vertexMatrix ineqs) (vertexBits ineqs.length n)
  have hs := sub_nil_iff h
  rw [show (∀ x ∈ Lineality (ConeOf (vertexMatrix ineqs) (vertexBits ineqs.length n)), x = 0) ↔ NoLine ineqs from pointed_iff] at hs
  unfold vertexCones
  by_cases hn : NoLine ineqs
  · left
    refine ⟨hn, _, _, h, ?_⟩
    rw [if_neg (not_not.2 (hs.2 hn)), foldl_vertexStep]
    simp
  · right
    exact ⟨hn, if_pos fun h0 => hn (hs.1 h0)⟩

/-- **C83, termination.** The assertion fails exactly if the inequalities leave a line: the directions on which all of them are constant are not only zero. -/
theorem c83_assert (alg : Rays) (ha : RaysOk alg) (ineqs : List (ℤ × Vec n)) :
    (∃ r, vertexCones alg ineqs = .ok r) ↔ ∀ y : Fin n → ℝ, (∀ q ∈ ineqs, dot q.2 y = 0) → y = 0 := by
  show _ ↔ NoLine ineqs
  rcases vertexCones_eq alg ha ineqs with ⟨hn, rays, sub, -, e⟩ | ⟨hn, e⟩
  · exact ⟨fun _ => hn, fun _ => ⟨_, e⟩⟩
  · refine ⟨fun ⟨r, h⟩ => ?_, fun h => absurd h hn⟩
    rw [e] at h
    cases h

/-- **C83, the cones.** One cone for every vertex of the polyhedron `{x | β + α · x ≥ 0}`; its facets are the primitive outer normals of the inequalities that
are equations at the vertex, and they generate the normal cone.  The cones come without rays, subspace and equations. -/
theorem c83_cones (alg : Rays) (ha : RaysOk alg) (ineqs : List (ℤ × Vec n)) (unbounded : Bool) (cones : List (GCone n))
    (h : vertexCones alg ineqs = .ok (unbounded, cones)) :
    (cones.map (·.vertex)).Nodup ∧
    (∀ x : Fin n → ℝ, (∃ C ∈ cones, x = fun k => (C.vertex k : ℝ)) ↔ x ∈ (Polyhedron ineqs).extremePoints ℝ) ∧
    ∀ C ∈ cones, (∀ f, f ∈ C.facets ↔ ∃ q ∈ ineqs, (q.1 : ℚ) + ∑ k, (q.2 k : ℚ) * C.vertex k = 0 ∧ IsPrimitiveOf f (-q.2)) ∧
      generated C.facets = normal (normals ineqs) (sides ineqs) C.vertex ∧ C.rays = [] ∧ C.subspace = [] ∧ C.equalities = [] := by
  rcases vertexCones_eq alg ha ineqs with ⟨hn, rays, sub, hr, e⟩ | ⟨hn, e⟩
  · rw [e] at h
    obtain ⟨-, rfl⟩ := Prod.mk.injEq .. ▸ Except.ok.inj h
    have hv := vertexList_rays hn hr
    refine ⟨hv.nodup, fun x => ?_, fun C hC => ?_⟩
    · rw [polyhedron_eq, ← hv.mem]
      simp only [List.mem_map]
      constructor
      · rintro ⟨C, hC, rfl⟩; exact ⟨_, ⟨C, hC, rfl⟩, rfl⟩
      · rintro ⟨v, ⟨C, hC, rfl⟩, rfl⟩; exact ⟨C, hC, rfl⟩
    · rw [List.mem_reverse, List.mem_map] at hC
      obtain ⟨r, hr', rfl⟩ := hC
      rw [List.mem_filter, decide_eq_true_eq] at hr'
      have hm := (hr.extreme r hr'.1).1
      refine ⟨fun f => ?_, incident_normal hm hr'.2, rfl, rfl, rfl⟩
      show f ∈ incident ineqs r ↔ _
      rw [mem_incident]
      have hact : ∀ i : Fin ineqs.length, i ∈ active (normals ineqs) (sides ineqs) (coneAt ineqs r).vertex ↔
          ((ineqs.get i).1 : ℚ) + ∑ k, ((ineqs.get i).2 k : ℚ) * (coneAt ineqs r).vertex k = 0 := by
        intro i
        show ∑ k, ((-(ineqs.get i).2 k : ℤ) : ℚ) * (coneAt ineqs r).vertex k = ((ineqs.get i).1 : ℚ) ↔ _
        have : ∑ k, ((-(ineqs.get i).2 k : ℤ) : ℚ) * (coneAt ineqs r).vertex k = - ∑ k, ((ineqs.get i).2 k : ℚ) * (coneAt ineqs r).vertex k := by
          rw [← Finset.sum_neg_distrib]
          exact Finset.sum_congr rfl fun k _ => by push_cast; ring
        rw [this]
        constructor <;> intro h <;> linarith
      constructor
      · rintro ⟨j, hj, hf⟩
        exact ⟨_, List.get_mem _ _, (hact j).1 ((slack_zero_iff hm hr'.2 j).1 hj), (reduceRow_isPrimitive _ f).1 hf⟩
      · rintro ⟨q, hq, ht, hp⟩
        obtain ⟨j, rfl⟩ := List.get_of_mem hq
        exact ⟨j, (slack_zero_iff hm hr'.2 j).2 ((hact j).2 ht), (reduceRow_isPrimitive _ f).2 hp⟩
  · rw [e] at h; cases h

/-- **C83, the flag.** It is set exactly if there is a direction of recession. -/
theorem c83_flag (alg : Rays) (ha : RaysOk alg) (ineqs : List (ℤ × Vec n)) (unbounded : Bool) (cones : List (GCone n))
    (h : vertexCones alg ineqs = .ok (unbounded, cones)) : unbounded = true ↔ ∃ y : Fin n → ℝ, y ≠ 0 ∧ ∀ q ∈ ineqs, 0 ≤ dot q.2 y := by
  rcases vertexCones_eq alg ha ineqs with ⟨hn, rays, sub, hr, e⟩ | ⟨hn, e⟩
  · rw [e] at h
    obtain ⟨rfl, -⟩ := Prod.mk.injEq .. ▸ Except.ok.inj h
    rw [List.any_eq_true]
    simp only [decide_eq_true_eq]
    exact flag_iff hn hr
  · rw [e] at h; cases h

/-- **C83, boundedness.** For a non-empty polyhedron the flag says whether it is unbounded. -/
theorem c83_unbounded_partial (alg : Rays) (ha : RaysOk alg) (ineqs : List (ℤ × Vec n)) (unbounded : Bool) (cones : List (GCone n))
    (h : vertexCones alg ineqs = .ok (unbounded, cones)) (hne : (Polyhedron ineqs).Nonempty) :
    unbounded = true ↔ ¬ Bornology.IsBounded (Polyhedron ineqs) := by
  constructor
  · intro hu
    obtain ⟨y, hy⟩ := (c83_flag alg ha ineqs unbounded cones h).1 hu
    obtain ⟨x, hx⟩ := hne
    exact unbounded_of_recession hy hx
  · intro hb
    rcases vertexCones_eq alg ha ineqs with ⟨hn, rays, sub, hr, e⟩ | ⟨hn, e⟩
    · rw [e] at h
      obtain ⟨rfl, -⟩ := Prod.mk.injEq .. ▸ Except.ok.inj h
      by_contra hu
      apply hb
      refine bounded_of_flag hn hr fun ⟨r, hr, h0⟩ => hu ?_
      rw [List.any_eq_true]
      exact ⟨r, hr, by simpa using h0⟩
    · rw [e] at h; cases h

end Verif.Ti2

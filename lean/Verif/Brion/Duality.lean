import Mathlib.Topology.LocallyConstant.Basic
import Mathlib.Topology.Instances.Real.Lemmas
import Mathlib.Topology.Order.LeftRightNhds
import Mathlib.Algebra.BigOperators.Fin
import Mathlib.LinearAlgebra.Pi
import Mathlib.Tactic.Linarith
import Mathlib.Tactic.FieldSimp
import Mathlib.Topology.Connected.LocallyConnected

/-!
# Signed decompositions of a cone and of its dual

Purely mathematical; nothing here depends on the program.  If simplicial cones decompose a dual cone away from finitely
many hyperplanes, then the polars of these cones, each flipped along a generic vector, add up to the cone exactly.
-/

namespace Verif.Brion

open Filter Topology

variable {V : Type} [AddCommGroup V] [Module ℝ V]

/-! ### Generic points -/

/-- A number of the form `a + ε b` keeps the sign of `a ≠ 0` for small `ε > 0`. -/
theorem ev_pos_iff (a b : ℝ) (h : a ≠ 0) : ∀ᶠ ε in 𝓝[>] (0 : ℝ), (0 < a + ε * b ↔ 0 < a) ∧ a + ε * b ≠ 0 := by
  have hc : Tendsto (fun ε : ℝ => a + ε * b) (𝓝[>] 0) (𝓝 a) := by
    have : Tendsto (fun ε : ℝ => a + ε * b) (𝓝 0) (𝓝 (a + 0 * b)) := by
      apply Continuous.tendsto; fun_prop
    rw [zero_mul, add_zero] at this
    exact this.mono_left nhdsWithin_le_nhds
  rcases lt_or_gt_of_ne h with h | h
  · filter_upwards [hc.eventually (eventually_lt_nhds h)] with ε hε
    exact ⟨⟨fun h1 => absurd h1 (not_lt.2 hε.le), fun h1 => absurd h1 (not_lt.2 h.le)⟩, hε.ne⟩
  · filter_upwards [hc.eventually (eventually_gt_nhds h)] with ε hε
    exact ⟨⟨fun _ => h, fun _ => hε⟩, hε.ne'⟩

theorem ev_ne (a b : ℝ) (h : a ≠ 0 ∨ b ≠ 0) : ∀ᶠ ε in 𝓝[>] (0 : ℝ), a + ε * b ≠ 0 := by
  by_cases ha : a = 0
  · have hb : b ≠ 0 := by tauto
    filter_upwards [self_mem_nhdsWithin] with ε hε
    rw [ha, zero_add]
    exact mul_ne_zero (ne_of_gt hε) hb
  · exact (ev_pos_iff a b ha).mono fun _ h => h.2

/-- Finitely many non-zero functionals have a common non-zero point near every point. -/
theorem avoid_near (G : Finset (V →ₗ[ℝ] ℝ)) (w q : V) (hq : ∀ g ∈ G, g w ≠ 0 ∨ g q ≠ 0) :
    ∀ᶠ ε in 𝓝[>] (0 : ℝ), ∀ g ∈ G, g (w + ε • q) ≠ 0 := by
  rw [Filter.eventually_all_finset]
  intro g hg
  filter_upwards [ev_ne (g w) (g q) (hq g hg)] with ε hε
  simpa using hε

theorem exists_avoid (G : Finset (V →ₗ[ℝ] ℝ)) (hG : ∀ g ∈ G, g ≠ 0) : ∃ w : V, ∀ g ∈ G, g w ≠ 0 := by
  classical
  induction G using Finset.induction_on with
  | empty => exact ⟨0, by simp⟩
  | insert g G _ ih =>
    obtain ⟨w, hw⟩ := ih fun g hg => hG g (Finset.mem_insert_of_mem hg)
    obtain ⟨q, hq⟩ : ∃ q, g q ≠ 0 := by
      by_contra hc
      push Not at hc
      exact hG g (Finset.mem_insert_self ..) (LinearMap.ext hc)
    obtain ⟨ε, hε⟩ := (avoid_near (insert g G) w q (by
      intro g' hg'
      rcases Finset.mem_insert.1 hg' with rfl | h
      · exact Or.inr hq
      · exact Or.inl (hw g' h))).exists
    exact ⟨_, hε⟩

/-! ### Simplicial cones with their coordinates -/

/-- A simplicial cone: generators and coordinate functions. -/
structure Simp (d : ℕ) (V : Type) [AddCommGroup V] [Module ℝ V] where
  v : Fin d → V
  co : Fin d → V →ₗ[ℝ] ℝ
  sum_co : ∀ w, ∑ k, co k w • v k = w
  co_v : ∀ k l, co k (v l) = if k = l then 1 else 0

/-- One factor: the half-line `t ≤ 0`, flipped to minus its complement if `s` is not positive. -/
noncomputable def fl (s t : ℝ) : ℤ := (if t ≤ 0 then 1 else 0) - (if 0 < s then 0 else 1)

/-- The indicator of the polar, evaluated at the functional `y`, of the cone flipped along `w`, with sign. -/
noncomputable def flip {d : ℕ} (b : Simp d V) (y : V →ₗ[ℝ] ℝ) (w : V) : ℤ := ∏ k, fl (b.co k w) (y (b.v k))

theorem fl_congr {s s' t : ℝ} (h : 0 < s ↔ 0 < s') : fl s t = fl s' t := by
  unfold fl; simp only [h]

theorem fl_sub (p t : ℝ) (hp : p ≠ 0) : fl p t - fl (-p) t = if 0 < p then 1 else -1 := by
  unfold fl
  rcases lt_or_gt_of_ne hp with h | h
  · rw [if_neg (not_lt.2 h.le), if_pos (show 0 < -p by linarith), if_neg (not_lt.2 h.le)]; ring
  · rw [if_pos h, if_neg (show ¬ 0 < -p by linarith), if_pos h]; ring

/-- If the flipped indicator does not vanish then the functional is not positive at `w`. -/
theorem flip_ne_zero {d : ℕ} (b : Simp d V) (y : V →ₗ[ℝ] ℝ) (w : V) (h : flip b y w ≠ 0) : y w ≤ 0 := by
  have h1 : ∀ k, fl (b.co k w) (y (b.v k)) ≠ 0 := fun k hk => h (Finset.prod_eq_zero (Finset.mem_univ k) hk)
  rw [← b.sum_co w, map_sum]
  apply Finset.sum_nonpos
  intro k _
  rw [map_smul, smul_eq_mul]
  have := h1 k
  unfold fl at this
  by_cases hs : 0 < b.co k w
  · by_cases ht : y (b.v k) ≤ 0
    · exact mul_nonpos_of_nonneg_of_nonpos hs.le ht
    · rw [if_neg ht, if_pos hs] at this; simp at this
  · by_cases ht : y (b.v k) ≤ 0
    · rw [if_pos ht, if_neg hs] at this; simp at this
    · exact mul_nonpos_of_nonpos_of_nonneg (not_lt.1 hs) (not_le.1 ht).le

theorem co_ne_zero {d : ℕ} (b : Simp d V) (k : Fin d) : b.co k ≠ 0 := by
  intro h
  have := b.co_v k k
  rw [h] at this
  simp at this

/-! ### Facets in a hyperplane -/

/-- The coordinate `k` vanishes on the hyperplane of `g`. -/
def Wall {d : ℕ} (b : Simp d V) (g : V →ₗ[ℝ] ℝ) (k : Fin d) : Prop := ∀ w, g w = 0 → b.co k w = 0

theorem Wall.g_ne {d : ℕ} {b : Simp d V} {g : V →ₗ[ℝ] ℝ} {k : Fin d} (h : Wall b g k) : g (b.v k) ≠ 0 := by
  intro h0
  have := h _ h0
  rw [b.co_v] at this
  simp at this

theorem Wall.g_other {d : ℕ} {b : Simp d V} {g : V →ₗ[ℝ] ℝ} {k : Fin d} (h : Wall b g k) (l : Fin d) (hl : l ≠ k) :
    g (b.v l) = 0 := by
  have h1 := h.g_ne
  have h2 : g (b.v l - (g (b.v l) / g (b.v k)) • b.v k) = 0 := by
    rw [map_sub, map_smul, smul_eq_mul]; field_simp; ring
  have h3 := h _ h2
  rw [map_sub, map_smul, b.co_v, b.co_v, if_neg (Ne.symm hl), if_pos rfl, smul_eq_mul, mul_one, zero_sub, neg_eq_zero,
    div_eq_zero_iff] at h3
  tauto

theorem Wall.unique {d : ℕ} {b : Simp d V} {g : V →ₗ[ℝ] ℝ} {k l : Fin d} (hk : Wall b g k) (hl : Wall b g l) : l = k := by
  by_contra hne
  exact hl.g_ne (hk.g_other l hne)

/-- The coordinate is a multiple of `g`. -/
theorem Wall.eq_smul {d : ℕ} {b : Simp d V} {g : V →ₗ[ℝ] ℝ} {k : Fin d} (h : Wall b g k) (w : V) :
    b.co k w = g w / g (b.v k) := by
  have h1 := h.g_ne
  have h2 : g (w - (g w / g (b.v k)) • b.v k) = 0 := by
    rw [map_sub, map_smul, smul_eq_mul]; field_simp; ring
  have h3 := h _ h2
  rw [map_sub, map_smul, b.co_v, if_pos rfl, smul_eq_mul, mul_one] at h3
  linarith

/-- The facet opposite to generator `k`, as a simplicial cone in the hyperplane of `g`. -/
def facet {d : ℕ} (b : Simp (d + 1) V) (g : V →ₗ[ℝ] ℝ) (k : Fin (d + 1)) (h : Wall b g k) :
    Simp d (LinearMap.ker g) where
  v l := ⟨b.v (k.succAbove l), by
    rw [LinearMap.mem_ker]; exact h.g_other _ (Fin.succAbove_ne k l)⟩
  co l := (b.co (k.succAbove l)).comp (LinearMap.ker g).subtype
  sum_co w := by
    apply Subtype.ext
    have := b.sum_co w.1
    rw [Fin.sum_univ_succAbove _ k, h w.1 w.2, zero_smul, zero_add] at this
    rw [AddSubmonoidClass.coe_finsetSum]
    exact this
  co_v l l' := by
    show b.co (k.succAbove l) (b.v (k.succAbove l')) = _
    rw [b.co_v]
    simp

/-- **Jump.** Crossing the hyperplane of `g` at the point `u`, which lies on no other wall, changes the flipped
indicator by that of the facet in the hyperplane. -/
theorem flip_jump {d : ℕ} (b : Simp (d + 1) V) (g : V →ₗ[ℝ] ℝ) (y : V →ₗ[ℝ] ℝ) (u : LinearMap.ker g) (p : V) (hp : g p ≠ 0)
    (hu : ∀ k, b.co k u ≠ 0 ∨ Wall b g k) :
    ∀ᶠ ε in 𝓝[>] (0 : ℝ), flip b y (u + ε • p) - flip b y (u - ε • p) =
      open Classical in ∑ k, if h : Wall b g k then
        (if 0 < b.co k p then 1 else -1) * flip (facet b g k h) (y.comp (LinearMap.ker g).subtype) u else 0 := by
  classical
  have key : ∀ᶠ ε in 𝓝[>] (0 : ℝ), 0 < ε ∧ ∀ k ∈ (Finset.univ : Finset (Fin (d + 1))), b.co k u ≠ 0 →
      (0 < b.co k (u + ε • p) ↔ 0 < b.co k u) ∧ (0 < b.co k (u - ε • p) ↔ 0 < b.co k u) := by
    refine Filter.Eventually.and self_mem_nhdsWithin ?_
    rw [Filter.eventually_all_finset]
    intro k _
    by_cases h : b.co k u = 0
    · exact Filter.Eventually.of_forall fun _ h' => absurd h h'
    filter_upwards [ev_pos_iff (b.co k u) (b.co k p) h, ev_pos_iff (b.co k u) (-(b.co k p)) h] with ε h1 h2 _
    refine ⟨?_, ?_⟩
    · rw [map_add, map_smul, smul_eq_mul]; exact h1.1
    · rw [map_sub, map_smul, smul_eq_mul, sub_eq_add_neg, ← mul_neg]; exact h2.1
  filter_upwards [key] with ε ⟨hε, hk⟩
  by_cases hw : ∃ k, Wall b g k
  · obtain ⟨k, hwk⟩ := hw
    rw [Finset.sum_eq_single k (fun l _ hl => dif_neg fun h => hl (hwk.unique h)) (fun h => absurd (Finset.mem_univ k) h),
      dif_pos hwk]
    have hcp : b.co k p ≠ 0 := by
      rw [hwk.eq_smul]; exact div_ne_zero hp hwk.g_ne
    have hrest : ∀ l, fl (b.co (k.succAbove l) (u + ε • p)) (y (b.v (k.succAbove l))) =
        fl (b.co (k.succAbove l) u) (y (b.v (k.succAbove l))) ∧
        fl (b.co (k.succAbove l) (u - ε • p)) (y (b.v (k.succAbove l))) =
        fl (b.co (k.succAbove l) u) (y (b.v (k.succAbove l))) := by
      intro l
      have hne : b.co (k.succAbove l) u ≠ 0 := by
        rcases hu (k.succAbove l) with h | h
        · exact h
        · exact absurd (hwk.unique h) (Fin.succAbove_ne k l)
      obtain ⟨h1, h2⟩ := hk _ (Finset.mem_univ (k.succAbove l)) hne
      exact ⟨fl_congr h1, fl_congr h2⟩
    have e1 : b.co k (u + ε • p) = ε * b.co k p := by
      rw [map_add, map_smul, hwk _ u.2, zero_add, smul_eq_mul]
    have e2 : b.co k (u - ε • p) = -(ε * b.co k p) := by
      rw [map_sub, map_smul, hwk _ u.2, zero_sub, smul_eq_mul]
    unfold flip
    rw [Fin.prod_univ_succAbove _ k, Fin.prod_univ_succAbove (fun l => fl (b.co l (u - ε • p)) (y (b.v l))) k,
      Finset.prod_congr rfl (fun l _ => (hrest l).1), Finset.prod_congr rfl (fun l _ => (hrest l).2), ← sub_mul, e1, e2,
      fl_sub _ _ (mul_ne_zero hε.ne' hcp)]
    simp only [mul_pos_iff_of_pos_left hε]
    rfl
  · push Not at hw
    rw [Finset.sum_eq_zero (fun k _ => dif_neg (hw k))]
    rw [sub_eq_zero]
    unfold flip
    refine Finset.prod_congr rfl fun k _ => ?_
    have hne : b.co k u ≠ 0 := by
      rcases hu k with h | h
      · exact h
      · exact absurd h (hw k)
    obtain ⟨h1, h2⟩ := hk _ (Finset.mem_univ k) hne
    exact (fl_congr h1).trans (fl_congr h2).symm

/-! ### Signed sums -/

/-- The signed sum of the flipped indicators. -/
noncomputable def total {d : ℕ} {ι : Type} [Fintype ι] (c : ι → ℤ) (b : ι → Simp d V) (y : V →ₗ[ℝ] ℝ) (w : V) : ℤ :=
  ∑ i, c i * flip (b i) y w

theorem sum_dite_subtype {α : Type} [Fintype α] (P : α → Prop) [DecidablePred P] [Fintype {x // P x}]
    (f : ∀ x, P x → ℤ) : (∑ x, if h : P x then f x h else 0) = ∑ x : {x // P x}, f x.1 x.2 := by
  rw [← Finset.sum_filter_of_ne (p := P) (fun x _ hx => by
    by_contra hc
    exact hx (dif_neg hc))]
  rw [Finset.sum_subtype (p := P) _ (by simp)]
  exact Finset.sum_congr rfl fun x _ => dif_pos x.2

/-- The facets in the hyperplane of `g`. -/
abbrev Facets {d : ℕ} {ι : Type} (b : ι → Simp d V) (g : V →ₗ[ℝ] ℝ) : Type := {x : ι × Fin d // Wall (b x.1) g x.2}

theorem total_jump {d : ℕ} {ι : Type} [Fintype ι] (c : ι → ℤ) (b : ι → Simp (d + 1) V) (g : V →ₗ[ℝ] ℝ) [Fintype (Facets b g)]
    (y : V →ₗ[ℝ] ℝ) (u : LinearMap.ker g) (p : V) (hp : g p ≠ 0) (hu : ∀ i k, (b i).co k u ≠ 0 ∨ Wall (b i) g k) :
    ∀ᶠ ε in 𝓝[>] (0 : ℝ), total c b y (u + ε • p) - total c b y (u - ε • p) =
      total (fun x : Facets b g => c x.1.1 * (if 0 < (b x.1.1).co x.1.2 p then 1 else -1))
        (fun x => facet (b x.1.1) g x.1.2 x.2) (y.comp (LinearMap.ker g).subtype) u := by
  classical
  have h : ∀ᶠ ε in 𝓝[>] (0 : ℝ), ∀ i ∈ (Finset.univ : Finset ι), flip (b i) y (u + ε • p) - flip (b i) y (u - ε • p) =
      ∑ k, if h : Wall (b i) g k then
        (if 0 < (b i).co k p then 1 else -1) * flip (facet (b i) g k h) (y.comp (LinearMap.ker g).subtype) u else 0 := by
    rw [Filter.eventually_all_finset]
    intro i _
    exact flip_jump (b i) g y u p hp (hu i)
  filter_upwards [h] with ε hε
  unfold total
  rw [← Finset.sum_sub_distrib]
  have e1 : ∀ i, c i * flip (b i) y (u + ε • p) - c i * flip (b i) y (u - ε • p) = ∑ k, if h : Wall (b i) g k then
        c i * (if 0 < (b i).co k p then 1 else -1) * flip (facet (b i) g k h) (y.comp (LinearMap.ker g).subtype) u else 0 := by
    intro i
    rw [← mul_sub, hε i (Finset.mem_univ i), Finset.mul_sum]
    refine Finset.sum_congr rfl fun k _ => ?_
    split_ifs <;> ring
  rw [Finset.sum_congr rfl fun i _ => e1 i, ← Finset.sum_product', Finset.univ_product_univ]
  exact sum_dite_subtype (fun x : ι × Fin (d + 1) => Wall (b x.1) g x.2) (fun x h =>
    c x.1 * (if 0 < (b x.1).co x.2 p then 1 else -1) *
      flip (facet (b x.1) g x.2 h) (y.comp (LinearMap.ker g).subtype) u)

/-- All coordinates are non-zero at `w`. -/
def Gen {d : ℕ} {ι : Type} (b : ι → Simp d V) (w : V) : Prop := ∀ i k, (b i).co k w ≠ 0

theorem total_congr {d : ℕ} {ι : Type} [Fintype ι] (c : ι → ℤ) (b : ι → Simp d V) (y : V →ₗ[ℝ] ℝ) (w w' : V)
    (h : ∀ i k, 0 < (b i).co k w ↔ 0 < (b i).co k w') : total c b y w = total c b y w' := by
  unfold total flip
  refine Finset.sum_congr rfl fun i _ => ?_
  congr 1
  exact Finset.prod_congr rfl fun k _ => fl_congr (h i k)

/-- The value on the side of `p` of the point `u`. -/
noncomputable def rightVal {d : ℕ} {ι : Type} [Fintype ι] (c : ι → ℤ) (b : ι → Simp d V) (y : V →ₗ[ℝ] ℝ) (p u : V) : ℤ :=
  open Classical in
  ∑ i, c i * ∏ k, fl (if (b i).co k u = 0 then (b i).co k p else (b i).co k u) (y ((b i).v k))

theorem total_ev {d : ℕ} {ι : Type} [Fintype ι] (c : ι → ℤ) (b : ι → Simp d V) (y : V →ₗ[ℝ] ℝ) (p u : V) :
    ∀ᶠ ε in 𝓝[>] (0 : ℝ), total c b y (u + ε • p) = rightVal c b y p u := by
  have h : ∀ᶠ ε in 𝓝[>] (0 : ℝ), ∀ i ∈ (Finset.univ : Finset ι), ∀ k ∈ (Finset.univ : Finset (Fin d)),
      (open Classical in (0 < (b i).co k (u + ε • p) ↔ 0 < if (b i).co k u = 0 then (b i).co k p else (b i).co k u)) := by
    rw [Filter.eventually_all_finset]
    intro i _
    rw [Filter.eventually_all_finset]
    intro k _
    by_cases hz : (b i).co k u = 0
    · filter_upwards [self_mem_nhdsWithin] with ε hε
      rw [if_pos hz, map_add, hz, zero_add, map_smul, smul_eq_mul]
      exact mul_pos_iff_of_pos_left hε
    · filter_upwards [ev_pos_iff ((b i).co k u) ((b i).co k p) hz] with ε hε
      rw [if_neg hz, map_add, map_smul, smul_eq_mul]
      exact hε.1
  filter_upwards [h] with ε hε
  unfold total flip rightVal
  refine Finset.sum_congr rfl fun i _ => ?_
  congr 1
  exact Finset.prod_congr rfl fun k _ => fl_congr (hε i (Finset.mem_univ i) k (Finset.mem_univ k))

theorem rightVal_gen {d : ℕ} {ι : Type} [Fintype ι] (c : ι → ℤ) (b : ι → Simp d V) (y : V →ₗ[ℝ] ℝ) (p u : V) (h : Gen b u) :
    rightVal c b y p u = total c b y u := by
  unfold total flip rightVal
  refine Finset.sum_congr rfl fun i _ => ?_
  congr 1
  exact Finset.prod_congr rfl fun k _ => by rw [if_neg (h i k)]

theorem gen_ev {d : ℕ} {ι : Type} [Fintype ι] (b : ι → Simp d V) (u p : V)
    (h : ∀ i k, (b i).co k u ≠ 0 ∨ (b i).co k p ≠ 0) : ∀ᶠ ε in 𝓝[>] (0 : ℝ), Gen b (u + ε • p) := by
  unfold Gen
  rw [Filter.eventually_all]
  intro i
  rw [Filter.eventually_all]
  intro k
  filter_upwards [ev_ne _ _ (h i k)] with ε hε
  simpa using hε

theorem ev_both (P : ℝ → Prop) (t : ℝ) (h0 : P t) (h1 : ∀ᶠ ε in 𝓝[>] (0 : ℝ), P (t + ε))
    (h2 : ∀ᶠ ε in 𝓝[>] (0 : ℝ), P (t - ε)) : ∀ᶠ s in 𝓝 t, P s := by
  obtain ⟨a, ha, h⟩ := (mem_nhdsGT_iff_exists_Ioo_subset).1 (h1.and h2)
  have ha' : (0 : ℝ) < a := ha
  filter_upwards [Ioo_mem_nhds (show t - a < t by linarith) (show t < t + a by linarith)] with s hs
  rcases lt_trichotomy s t with hl | rfl | hl
  · have := (h (show t - s ∈ Set.Ioo 0 a from ⟨by linarith, by linarith [hs.1]⟩)).2
    simpa using this
  · exact h0
  · have := (h (show s - t ∈ Set.Ioo 0 a from ⟨by linarith, by linarith [hs.2]⟩)).1
    simpa using this

/-- A function with no jump along a segment has the same value at its ends. -/
theorem segment_const {d : ℕ} {ι : Type} [Fintype ι] (c : ι → ℤ) (b : ι → Simp d V) (y : V →ₗ[ℝ] ℝ) (w p : V)
    (hw : Gen b w) (hw' : Gen b (w + p))
    (hj : ∀ t ∈ Set.Icc (0 : ℝ) 1, ∀ᶠ ε in 𝓝[>] (0 : ℝ),
      total c b y (w + t • p + ε • p) = total c b y (w + t • p - ε • p)) :
    total c b y w = total c b y (w + p) := by
  have hgen : ∀ t : ℝ, ∀ i k, (b i).co k (w + t • p) ≠ 0 ∨ (b i).co k p ≠ 0 := by
    intro t i k
    by_contra hc
    push Not at hc
    rw [map_add, map_smul, hc.2, smul_zero, add_zero] at hc
    exact hw i k hc.1
  set R : ℝ → ℤ := fun t => rightVal c b y p (w + t • p) with hR
  have hcont : ContinuousOn R (Set.Icc 0 1) := by
    intro t ht
    apply ContinuousAt.continuousWithinAt
    have : ∀ᶠ s in 𝓝 t, R s = R t := by
      apply ev_both (fun s => R s = R t) t rfl
      · filter_upwards [total_ev c b y p (w + t • p), gen_ev b (w + t • p) p (hgen t)] with ε h1 h2
        have e : w + (t + ε) • p = w + t • p + ε • p := by rw [add_smul, add_assoc]
        show rightVal c b y p (w + (t + ε) • p) = _
        rw [e, rightVal_gen c b y p _ h2, h1]
      · filter_upwards [total_ev c b y p (w + t • p), hj t ht,
          gen_ev b (w + t • p) (-p) (fun i k => (hgen t i k).imp id (by simp))] with ε h1 h3 h2
        have e : w + (t - ε) • p = w + t • p - ε • p := by rw [sub_smul]; abel
        have e' : w + t • p + ε • -p = w + t • p - ε • p := by rw [smul_neg, sub_eq_add_neg]
        show rightVal c b y p (w + (t - ε) • p) = _
        rw [e'] at h2
        rw [e, rightVal_gen c b y p _ h2, ← h3, h1]
    exact tendsto_nhds_of_eventually_eq this
  have := isPreconnected_Icc.constant hcont (Set.left_mem_Icc.2 zero_le_one) (Set.right_mem_Icc.2 zero_le_one)
  rw [hR] at this
  simp only [zero_smul, add_zero, one_smul] at this
  rwa [rightVal_gen c b y p _ hw, rightVal_gen c b y p _ hw'] at this

/-- The statement for dimension `d`: a signed sum of simplicial cones that vanishes at generic points vanishes after
dualizing and flipping. -/
def Hom (d : ℕ) : Prop :=
  ∀ (V : Type) [AddCommGroup V] [Module ℝ V] (ι : Type) [Fintype ι] (c : ι → ℤ) (b : ι → Simp d V)
    (G : Finset (V →ₗ[ℝ] ℝ)), (∀ g ∈ G, g ≠ 0) → (∀ w, (∀ g ∈ G, g w ≠ 0) → total c b 0 w = 0) →
    ∀ y w, Gen b w → total c b y w = 0

/-- A region in which one can move: convex and open along lines. -/
structure Region (D : Set V) : Prop where
  convex : ∀ u ∈ D, ∀ p, u + p ∈ D → ∀ t ∈ Set.Icc (0 : ℝ) 1, u + t • p ∈ D
  opens : ∀ u ∈ D, ∀ q, ∀ᶠ ε in 𝓝[>] (0 : ℝ), u + ε • q ∈ D

/-- The sum does not jump at generic points of the hyperplane of `g` when crossed in direction `p`. -/
def NoJump {d : ℕ} {ι : Type} [Fintype ι] (c : ι → ℤ) (b : ι → Simp d V) (g : V →ₗ[ℝ] ℝ) (p : V) : Prop :=
  ∃ G : Finset (V →ₗ[ℝ] ℝ), (∀ h ∈ G, ∃ u, g u = 0 ∧ h u ≠ 0) ∧ ∀ u, g u = 0 → (∀ h ∈ G, h u ≠ 0) →
    (∀ i k, (b i).co k u ≠ 0 ∨ Wall (b i) g k) →
    ∀ᶠ ε in 𝓝[>] (0 : ℝ), total c b 0 (u + ε • p) = total c b 0 (u - ε • p)

theorem no_jump_at {d : ℕ} (hom : Hom d) {ι : Type} [Fintype ι] (c : ι → ℤ) (b : ι → Simp (d + 1) V) (g : V →ₗ[ℝ] ℝ)
    (p : V) (hp : g p ≠ 0) (hnj : NoJump c b g p) (y : V →ₗ[ℝ] ℝ) (u : V) (hu : g u = 0)
    (hu' : ∀ i k, (b i).co k u ≠ 0 ∨ Wall (b i) g k) :
    ∀ᶠ ε in 𝓝[>] (0 : ℝ), total c b y (u + ε • p) = total c b y (u - ε • p) := by
  classical
  obtain ⟨G, hG, hnj⟩ := hnj
  have hz : total (fun x : Facets b g => c x.1.1 * (if 0 < (b x.1.1).co x.1.2 p then 1 else -1))
      (fun x => facet (b x.1.1) g x.1.2 x.2) (y.comp (LinearMap.ker g).subtype) (⟨u, hu⟩ : LinearMap.ker g) = 0 := by
    refine hom (LinearMap.ker g) (Facets b g) _ _
      ((G.image fun h => h.comp (LinearMap.ker g).subtype) ∪
        ((Finset.univ.filter fun x : ι × Fin (d + 1) => ¬ Wall (b x.1) g x.2).image fun x =>
          ((b x.1).co x.2).comp (LinearMap.ker g).subtype)) ?_ ?_ _ _ ?_
    · intro f hf h0
      rcases Finset.mem_union.1 hf with hf | hf
      · obtain ⟨h, hh, rfl⟩ := Finset.mem_image.1 hf
        obtain ⟨x, hx, hx'⟩ := hG h hh
        exact hx' (LinearMap.congr_fun h0 (⟨x, hx⟩ : LinearMap.ker g))
      · obtain ⟨x, hx, rfl⟩ := Finset.mem_image.1 hf
        refine (Finset.mem_filter.1 hx).2 fun w hw => ?_
        exact LinearMap.congr_fun h0 (⟨w, hw⟩ : LinearMap.ker g)
    · intro w hw
      have hw' : ∀ i k, (b i).co k w ≠ 0 ∨ Wall (b i) g k := by
        intro i k
        by_cases h : Wall (b i) g k
        · exact Or.inr h
        · left
          exact hw _ (Finset.mem_union_right _ (Finset.mem_image.2 ⟨(i, k), Finset.mem_filter.2 ⟨Finset.mem_univ _, h⟩, rfl⟩))
      have h1 := hnj w.1 w.2 (fun h hh => hw _ (Finset.mem_union_left _ (Finset.mem_image.2 ⟨h, hh, rfl⟩))) hw'
      obtain ⟨ε, e1, e2⟩ := (h1.and (total_jump c b g 0 w p hp hw')).exists
      rw [e1, sub_self] at e2
      rw [LinearMap.zero_comp] at e2
      exact e2.symm
    · intro x l
      show (b x.1.1).co (x.1.2.succAbove l) u ≠ 0
      rcases hu' x.1.1 (x.1.2.succAbove l) with h | h
      · exact h
      · exact absurd (x.2.unique h) (Fin.succAbove_ne _ l)
  filter_upwards [total_jump c b g y ⟨u, hu⟩ p hp hu'] with ε h
  rw [hz] at h
  exact sub_eq_zero.1 h

/-- **Constancy.** In a region whose walls are crossed without jumps the flipped sums are constant. -/
theorem region_const {d : ℕ} (hom : Hom d) {ι : Type} [Fintype ι] (c : ι → ℤ) (b : ι → Simp (d + 1) V) (D : Set V)
    (hD : Region D) (hnj : ∀ g p, g p ≠ 0 → (∃ u ∈ D, g u = 0) → NoJump c b g p) (y : V →ₗ[ℝ] ℝ) (w w' : V) (hw : w ∈ D)
    (hw' : w' ∈ D) (gw : Gen b w) (gw' : Gen b w') : total c b y w = total c b y w' := by
  classical
  set Co : Finset (V →ₗ[ℝ] ℝ) := Finset.univ.image fun x : ι × Fin (d + 1) => (b x.1).co x.2 with hCo
  set Q : Finset (V →ₗ[ℝ] ℝ) := ((Co ×ˢ Co).image fun x => (x.2 w) • x.1 - (x.1 w) • x.2).filter (· ≠ 0) with hQ
  obtain ⟨q, hq⟩ := exists_avoid Q fun g hg => (Finset.mem_filter.1 hg).2
  obtain ⟨ε, h1, h2, h3, h4⟩ := ((avoid_near Q w' q fun g hg => Or.inr (hq g hg)).and ((hD.opens w' hw' q).and
    ((total_ev c b y q w').and (gen_ev b w' q fun i k => Or.inl (gw' i k))))).exists
  rw [rightVal_gen c b y q w' gw'] at h3
  rw [← h3]
  set w2 := w' + ε • q with hw2
  have e : w2 = w + (w2 - w) := by abel
  set p := w2 - w with hp
  rw [e] at h1 h2 h4 ⊢
  refine segment_const c b y w p gw h4 fun t ht => ?_
  have huD := hD.convex w hw p h2 t ht
  set u := w + t • p with hu
  by_cases hg : Gen b u
  · filter_upwards [total_ev c b y p u, total_ev c b y (-p) u] with δ e1 e2
    rw [e1, sub_eq_add_neg, ← smul_neg, e2, rightVal_gen c b y _ u hg, rightVal_gen c b y _ u hg]
  · unfold Gen at hg
    push Not at hg
    obtain ⟨i0, k0, hz⟩ := hg
    set g := (b i0).co k0 with hgdef
    have ht0 : t ≠ 0 := by
      rintro rfl
      rw [hu, zero_smul, add_zero] at hz
      exact gw i0 k0 hz
    have hgp : g p ≠ 0 := by
      intro h0
      rw [hu, map_add, map_smul, h0, smul_zero, add_zero] at hz
      exact gw i0 k0 hz
    refine no_jump_at hom c b g p hgp (hnj g p hgp ⟨u, huD, hz⟩) y u hz fun i k => ?_
    by_cases hik : (b i).co k u = 0
    · right
      set h := (b i).co k with hh
      set f : V →ₗ[ℝ] ℝ := (h w) • g - (g w) • h with hf
      have hfu : f u = 0 := by
        simp only [hf, LinearMap.sub_apply, LinearMap.smul_apply, hz, hik, smul_zero, sub_zero]
      have hfw : f w = 0 := by
        simp only [hf, LinearMap.sub_apply, LinearMap.smul_apply, smul_eq_mul]; ring
      have hfp : f p = 0 := by
        rw [hu, map_add, hfw, zero_add, map_smul, smul_eq_mul] at hfu
        exact (mul_eq_zero.1 hfu).resolve_left ht0
      have hf0 : f = 0 := by
        by_contra hne
        have : f ∈ Q := by
          rw [hQ, Finset.mem_filter]
          refine ⟨Finset.mem_image.2 ⟨(g, h), Finset.mem_product.2 ⟨?_, ?_⟩, rfl⟩, hne⟩
          · exact Finset.mem_image.2 ⟨(i0, k0), Finset.mem_univ _, rfl⟩
          · exact Finset.mem_image.2 ⟨(i, k), Finset.mem_univ _, rfl⟩
        exact h1 f this (by rw [map_add, hfw, hfp, add_zero])
      intro x hx
      have := LinearMap.congr_fun hf0 x
      simp only [hf, LinearMap.sub_apply, LinearMap.smul_apply, hx, smul_eq_mul, mul_zero, zero_sub, LinearMap.zero_apply,
        neg_eq_zero, mul_eq_zero] at this
      exact this.resolve_left (gw i0 k0)
    · exact Or.inl hik

theorem total_zero_of_pos {d : ℕ} {ι : Type} [Fintype ι] (c : ι → ℤ) (b : ι → Simp d V) (y : V →ₗ[ℝ] ℝ) (w : V)
    (h : 0 < y w) : total c b y w = 0 := by
  unfold total
  refine Finset.sum_eq_zero fun i _ => ?_
  by_cases h0 : flip (b i) y w = 0
  · rw [h0, mul_zero]
  · exact absurd (flip_ne_zero (b i) y w h0) (not_le.2 h)

theorem region_univ : Region (Set.univ : Set V) := ⟨by simp, by simp⟩

/-- A functional that vanishes on the hyperplane of `g` and at `p` is zero. -/
theorem vanish_eq_zero (g h : V →ₗ[ℝ] ℝ) (p : V) (hp : g p ≠ 0) (hv : ∀ w, g w = 0 → h w = 0) (h0 : h p = 0) : h = 0 := by
  apply LinearMap.ext
  intro x
  have h1 : g (x - (g x / g p) • p) = 0 := by
    rw [map_sub, map_smul, smul_eq_mul]; field_simp; ring
  have h2 := hv _ h1
  rw [map_sub, map_smul, h0, smul_zero, sub_zero] at h2
  exact h2

theorem avoid_wall (G : Finset (V →ₗ[ℝ] ℝ)) (hG : ∀ h ∈ G, h ≠ 0) (g : V →ₗ[ℝ] ℝ) (p : V) (hp : g p ≠ 0) (u : V)
    (hu : ∀ h ∈ G, (∃ x, g x = 0 ∧ h x ≠ 0) → h u ≠ 0) : ∀ᶠ ε in 𝓝[>] (0 : ℝ), ∀ h ∈ G, h (u + ε • p) ≠ 0 := by
  apply avoid_near
  intro h hh
  by_cases hx : ∃ x, g x = 0 ∧ h x ≠ 0
  · exact Or.inl (hu h hh hx)
  · right
    push Not at hx
    exact fun h0 => hG h hh (vanish_eq_zero g h p hp hx h0)

/-- Generic points near a point, in a region. -/
theorem near_gen {d : ℕ} {ι : Type} [Fintype ι] (b : ι → Simp d V) (G : Finset (V →ₗ[ℝ] ℝ)) (hG : ∀ h ∈ G, h ≠ 0) (w : V) :
    ∃ q : V, ∀ᶠ ε in 𝓝[>] (0 : ℝ), Gen b (w + ε • q) ∧ ∀ h ∈ G, h (w + ε • q) ≠ 0 := by
  classical
  set Co : Finset (V →ₗ[ℝ] ℝ) := Finset.univ.image fun x : ι × Fin d => (b x.1).co x.2 with hCo
  obtain ⟨q, hq⟩ := exists_avoid (G ∪ Co) (by
    intro g hg
    rcases Finset.mem_union.1 hg with h | h
    · exact hG g h
    · obtain ⟨x, -, rfl⟩ := Finset.mem_image.1 h
      exact co_ne_zero _ _)
  refine ⟨q, ?_⟩
  refine (gen_ev b w q fun i k => Or.inr ?_).and (avoid_near G w q fun g hg => Or.inr (hq g (Finset.mem_union_left _ hg)))
  exact hq _ (Finset.mem_union_right _ (Finset.mem_image.2 ⟨(i, k), Finset.mem_univ _, rfl⟩))

/-- **Dualization of relations.** In every dimension. -/
theorem hom (d : ℕ) : Hom d := by
  classical
  induction d with
  | zero =>
    intro V _ _ ι _ c b G hG h y w _
    by_cases hι : Nonempty ι
    · obtain ⟨i⟩ := hι
      have hall : ∀ x : V, x = 0 := fun x => by simpa using ((b i).sum_co x).symm
      have h1 := h w fun g hg => absurd (LinearMap.ext fun x => by rw [hall x, map_zero]; rfl) (hG g hg)
      unfold total flip at h1 ⊢
      simpa using h1
    · have : IsEmpty ι := not_nonempty_iff.1 hι
      simp [total]
  | succ d ih =>
    intro V _ _ ι _ c b G hG h y w hw
    have hconst := region_const ih c b Set.univ region_univ (fun g p hp _ => by
      refine ⟨G.filter fun h => ∃ x, g x = 0 ∧ h x ≠ 0, fun h hh => (Finset.mem_filter.1 hh).2, fun u hu hG' _ => ?_⟩
      have hu' : ∀ h ∈ G, (∃ x, g x = 0 ∧ h x ≠ 0) → h u ≠ 0 := fun h hh hx => hG' h (Finset.mem_filter.2 ⟨hh, hx⟩)
      filter_upwards [avoid_wall G hG g p hp u hu', avoid_wall G hG g (-p) (by simpa using hp) u hu'] with ε h1 h2
      rw [h _ h1, sub_eq_add_neg, ← smul_neg, h _ h2]) y
    by_cases hy : ∃ q, 0 < y q
    · obtain ⟨q, hq⟩ := hy
      obtain ⟨r, hr⟩ := near_gen b G hG q
      obtain ⟨ε, h1, h2⟩ := (hr.and (ev_pos_iff (y q) (y r) hq.ne')).exists
      rw [hconst w (q + ε • r) trivial trivial hw h1.1]
      apply total_zero_of_pos
      rw [map_add, map_smul, smul_eq_mul]
      exact h2.1.2 hq
    · push Not at hy
      have hy0 : y = 0 := by
        apply LinearMap.ext
        intro x
        have h1 := hy x
        have h2 := hy (-x)
        rw [map_neg] at h2
        show y x = 0
        exact le_antisymm h1 (by linarith)
      obtain ⟨r, hr⟩ := near_gen b G hG w
      obtain ⟨ε, h1⟩ := hr.exists
      rw [hconst w (w + ε • r) trivial trivial hw h1.1, hy0]
      exact h _ h1.2

/-! ### Decompositions of a dual cone -/

/-- The algebraic interior. -/
def core (D : Set V) : Set V := {u | ∀ q, ∀ᶠ ε in 𝓝[>] (0 : ℝ), u + ε • q ∈ D}

/-- The set of points at which all functionals of `K` are non-positive. -/
def dualOf (K : Set (V →ₗ[ℝ] ℝ)) : Set V := {w | ∀ y ∈ K, y w ≤ 0}

theorem dualOf_mix (K : Set (V →ₗ[ℝ] ℝ)) (u x : V) (hu : u ∈ dualOf K) (hx : x ∈ dualOf K) (s : ℝ) (hs : s ∈ Set.Icc (0 : ℝ) 1) :
    x + s • (u - x) ∈ dualOf K := by
  intro y hy
  have h1 := hu y hy
  have h2 := hx y hy
  have e : y (x + s • (u - x)) = s * y u + (1 - s) * y x := by
    rw [map_add, map_smul, map_sub, smul_eq_mul]; ring
  rw [e]
  have := mul_nonpos_of_nonneg_of_nonpos hs.1 h1
  have := mul_nonpos_of_nonneg_of_nonpos (show 0 ≤ 1 - s by linarith [hs.2]) h2
  linarith

theorem core_mix (K : Set (V →ₗ[ℝ] ℝ)) (u x : V) (hu : u ∈ core (dualOf K)) (hx : x ∈ dualOf K) (s : ℝ) (hs : s ∈ Set.Ioc (0 : ℝ) 1) :
    x + s • (u - x) ∈ core (dualOf K) := by
  intro q
  filter_upwards [hu (s⁻¹ • q)] with ε hε
  have := dualOf_mix K _ x hε hx s ⟨hs.1.le, hs.2⟩
  have e : x + s • (u + ε • s⁻¹ • q - x) = x + s • (u - x) + ε • q := by
    have : s • ε • s⁻¹ • q = ε • q := by
      rw [smul_smul, smul_smul]
      congr 1
      have := hs.1.ne'
      field_simp
    rw [smul_sub, smul_add, this, smul_sub]; abel
  rwa [e] at this

theorem core_sub (K : Set (V →ₗ[ℝ] ℝ)) : core (dualOf K) ⊆ dualOf K := by
  intro u hu
  obtain ⟨ε, h⟩ := (hu 0).exists
  simpa using h

theorem region_core (K : Set (V →ₗ[ℝ] ℝ)) : Region (core (dualOf K)) := by
  refine ⟨fun u hu p hp t ht => ?_, fun u hu q => ?_⟩
  · rcases eq_or_lt_of_le ht.1 with h | h
    · rw [← h, zero_smul, add_zero]; exact hu
    · have := core_mix K (u + p) u hp (core_sub K hu) t ⟨h, ht.2⟩
      rwa [add_sub_cancel_left] at this
  · obtain ⟨a, ha, h⟩ := (mem_nhdsGT_iff_exists_Ioo_subset).1 (hu q)
    have ha' : (0 : ℝ) < a := ha
    filter_upwards [Ioo_mem_nhdsGT (show (0 : ℝ) < a / 2 by linarith)] with ε hε
    have h1 : u + (2 * ε) • q ∈ dualOf K := h ⟨by linarith [hε.1], by linarith [hε.2]⟩
    have := core_mix K u _ hu h1 (1 / 2) ⟨by norm_num, by norm_num⟩
    have e : u + (2 * ε) • q + (1 / 2 : ℝ) • (u - (u + (2 * ε) • q)) = u + ε • q := by
      rw [sub_add_cancel_left, smul_neg, smul_smul, add_assoc, ← sub_eq_add_neg, ← sub_smul]
      congr 2; ring
    rwa [e] at this

theorem dualOf_closed (K : Set (V →ₗ[ℝ] ℝ)) (u p : V) (h : ∃ᶠ ε in 𝓝[>] (0 : ℝ), u + ε • p ∈ dualOf K) : u ∈ dualOf K := by
  intro y hy
  by_contra hc
  push Not at hc
  obtain ⟨ε, h1, h2⟩ := (h.and_eventually (ev_pos_iff (y u) (y p) hc.ne')).exists
  have := h1 y hy
  rw [map_add, map_smul, smul_eq_mul] at this
  exact absurd (h2.1.2 hc) (not_lt.2 this)

theorem flip_zero_nonneg {d : ℕ} (b : Simp d V) (w : V) : 0 ≤ flip b 0 w := by
  unfold flip
  apply Finset.prod_nonneg
  intro k _
  unfold fl
  rw [LinearMap.zero_apply, if_pos le_rfl]
  split_ifs <;> norm_num

section Dual

variable {d : ℕ} {ι : Type} [Fintype ι] (b : ι → Simp (d + 1) V) (K : Set (V →ₗ[ℝ] ℝ)) (G : Finset (V →ₗ[ℝ] ℝ))
  (hG : ∀ g ∈ G, g ≠ 0)
  (h : open Classical in ∀ w, (∀ g ∈ G, g w ≠ 0) → total 1 b 0 w = if w ∈ dualOf K then 1 else 0)

include hG h

/-- The generators lie in the dual cone. -/
theorem gen_mem_dual (i : ι) (k : Fin (d + 1)) : (b i).v k ∈ dualOf K := by
  classical
  set s0 : V := ∑ l, (b i).v l with hs0
  have hco : ∀ l, (b i).co l s0 = 1 := by
    intro l
    rw [hs0, map_sum]
    simp [(b i).co_v]
  obtain ⟨q, hq⟩ := near_gen b G hG s0
  have hpos : ∀ᶠ ε in 𝓝[>] (0 : ℝ), ∀ l, 0 < (b i).co l (s0 + ε • q) := by
    rw [Filter.eventually_all]
    intro l
    filter_upwards [ev_pos_iff ((b i).co l s0) ((b i).co l q) (by rw [hco]; norm_num)] with ε hε
    rw [map_add, map_smul, smul_eq_mul]
    exact hε.1.2 (by rw [hco]; norm_num)
  obtain ⟨η, h1, h2⟩ := (hq.and hpos).exists
  set s := s0 + η • q with hs
  apply dualOf_closed K _ s
  apply Filter.Eventually.frequently
  filter_upwards [avoid_near G ((b i).v k) s fun g hg => Or.inr (h1.2 g hg), self_mem_nhdsWithin] with ε h3 hε
  have hε' : (0 : ℝ) < ε := hε
  have h4 := h _ h3
  by_contra hc
  rw [if_neg hc] at h4
  unfold total at h4
  simp only [Pi.one_apply, one_mul] at h4
  have h5 := (Finset.sum_eq_zero_iff_of_nonneg fun j _ => flip_zero_nonneg (b j) _).1 h4 i (Finset.mem_univ i)
  have h6 : flip (b i) 0 ((b i).v k + ε • s) = 1 := by
    unfold flip
    apply Finset.prod_eq_one
    intro l _
    unfold fl
    rw [LinearMap.zero_apply, if_pos le_rfl, if_pos]
    · norm_num
    · rw [map_add, map_smul, smul_eq_mul, (b i).co_v]
      have := mul_pos hε' (h2 l)
      split_ifs <;> linarith
  rw [h6] at h5
  exact one_ne_zero h5

/-- One side of a wall. -/
theorem side (g : V →ₗ[ℝ] ℝ) (p : V) (hp : g p ≠ 0) (u0 : V) (hu0 : u0 ∈ core (dualOf K)) (hg0 : g u0 = 0) (u : V) (hu : g u = 0)
    (hG' : ∀ f ∈ G, (∃ x, g x = 0 ∧ f x ≠ 0) → f u ≠ 0) (hw : ∀ i k, (b i).co k u ≠ 0 ∨ Wall (b i) g k)
    (hin : ∃ᶠ ε in 𝓝[>] (0 : ℝ), u + ε • p ∈ dualOf K) : ∀ᶠ ε in 𝓝[>] (0 : ℝ), total 1 b 0 (u - ε • p) = 1 := by
  classical
  have hu' := dualOf_closed K u p hin
  have h1 : ∀ᶠ δ in 𝓝[>] (0 : ℝ), (∀ i k, (b i).co k u ≠ 0 →
      (0 < (b i).co k (u + δ • (u0 - u)) ↔ 0 < (b i).co k u) ∧ (b i).co k (u + δ • (u0 - u)) ≠ 0) := by
    rw [Filter.eventually_all]
    intro i
    rw [Filter.eventually_all]
    intro k
    by_cases hz : (b i).co k u = 0
    · exact Filter.Eventually.of_forall fun _ hc => absurd hz hc
    · filter_upwards [ev_pos_iff ((b i).co k u) ((b i).co k (u0 - u)) hz] with δ hδ _
      rw [map_add, map_smul, smul_eq_mul]
      exact hδ
  have h2 := avoid_near (G.filter fun f => ∃ x, g x = 0 ∧ f x ≠ 0) u (u0 - u) fun f hf =>
    Or.inl (hG' f (Finset.mem_filter.1 hf).1 (Finset.mem_filter.1 hf).2)
  obtain ⟨δ, h1, h2, hδ⟩ := (h1.and (h2.and (Ioo_mem_nhdsGT (show (0 : ℝ) < 1 by norm_num)))).exists
  set x := u + δ • (u0 - u) with hx
  have hgx : g x = 0 := by rw [hx, map_add, map_smul, map_sub, hu, hg0]; simp
  have hxc : x ∈ core (dualOf K) := core_mix K u0 u hu0 hu' δ ⟨hδ.1, hδ.2.le⟩
  have hval : rightVal 1 b 0 (-p) x = rightVal 1 b 0 (-p) u := by
    unfold rightVal
    refine Finset.sum_congr rfl fun i _ => ?_
    congr 1
    refine Finset.prod_congr rfl fun k _ => ?_
    apply fl_congr
    by_cases hz : (b i).co k u = 0
    · have hwk := (hw i k).resolve_left (by simpa using hz)
      rw [if_pos hz, if_pos (hwk x hgx)]
    · rw [if_neg hz, if_neg (h1 i k hz).2]
      exact (h1 i k hz).1
  have hone : rightVal 1 b 0 (-p) x = 1 := by
    obtain ⟨ε, e1, e2, e3⟩ := ((total_ev 1 b 0 (-p) x).and ((avoid_wall G hG g (-p) (by simpa using hp) x fun f hf hfx =>
      h2 f (Finset.mem_filter.2 ⟨hf, hfx⟩)).and (hxc (-p)))).exists
    rw [← e1, h _ e2, if_pos e3]
  filter_upwards [total_ev 1 b 0 (-p) u] with ε e1
  rw [sub_eq_add_neg, ← smul_neg, e1, ← hval, hone]

theorem noJump_core (g : V →ₗ[ℝ] ℝ) (p : V) (hp : g p ≠ 0) (hu : ∃ u ∈ core (dualOf K), g u = 0) : NoJump 1 b g p := by
  classical
  obtain ⟨u0, hu0, hg0⟩ := hu
  refine ⟨G.filter fun f => ∃ x, g x = 0 ∧ f x ≠ 0, fun f hf => (Finset.mem_filter.1 hf).2, fun u hu hG' hw => ?_⟩
  have hGu : ∀ f ∈ G, (∃ x, g x = 0 ∧ f x ≠ 0) → f u ≠ 0 := fun f hf hx => hG' f (Finset.mem_filter.2 ⟨hf, hx⟩)
  have hp' : g (-p) ≠ 0 := by simpa using hp
  have a1 := avoid_wall G hG g p hp u hGu
  have a2 := avoid_wall G hG g (-p) hp' u hGu
  have c1 := total_ev 1 b 0 p u
  have c2 := total_ev 1 b 0 (-p) u
  -- the two values
  have key : ∀ q : V, g q ≠ 0 → (∀ᶠ ε in 𝓝[>] (0 : ℝ), ∀ f ∈ G, f (u + ε • q) ≠ 0) →
      rightVal 1 b 0 q u = 1 ∧ rightVal 1 b 0 (-q) u = 1 ∨ rightVal 1 b 0 q u = 0 := by
    intro q hq ha
    by_cases hin : ∃ᶠ ε in 𝓝[>] (0 : ℝ), u + ε • q ∈ dualOf K
    · left
      constructor
      · obtain ⟨ε, e1, e2, e3⟩ := (hin.and_eventually (ha.and (total_ev 1 b 0 q u))).exists
        rw [← e3, h _ e2, if_pos e1]
      · obtain ⟨ε, e1, e2⟩ := ((side b K G hG h g q hq u0 hu0 hg0 u hu hGu hw hin).and (total_ev 1 b 0 (-q) u)).exists
        rw [← e2, smul_neg, ← sub_eq_add_neg, e1]
    · right
      rw [Filter.not_frequently] at hin
      obtain ⟨ε, e1, e2, e3⟩ := (hin.and (ha.and (total_ev 1 b 0 q u))).exists
      rw [← e3, h _ e2, if_neg e1]
  have hval : rightVal 1 b 0 p u = rightVal 1 b 0 (-p) u := by
    rcases key p hp a1 with ⟨h1, h2⟩ | h1
    · rw [h1, h2]
    · rcases key (-p) hp' a2 with ⟨h2, h3⟩ | h2
      · rw [neg_neg] at h3
        rw [h1] at h3
        exact absurd h3 (by norm_num)
      · rw [h1, h2]
  filter_upwards [c1, c2] with ε e1 e2
  rw [e1, sub_eq_add_neg, ← smul_neg, e2, hval]

/-- **Main theorem.** If simplicial cones decompose the dual of the cone `K` at generic points, then their polars, flipped
along any generic interior vector `w` of the dual cone, add up to `K` at every point. -/
theorem dual_sum (F : Set V) (hK : K = {y | ∀ f ∈ F, y f ≤ 0}) (w : V) (hw : w ∈ core (dualOf K)) (gw : Gen b w)
    (y : V →ₗ[ℝ] ℝ) : open Classical in total 1 b y w = if y ∈ K then 1 else 0 := by
  classical
  by_cases hy : y ∈ K
  · rw [if_pos hy]
    have e : ∀ x, total 1 b y x = total 1 b 0 x := by
      intro x
      unfold total flip
      refine Finset.sum_congr rfl fun i _ => ?_
      congr 1
      refine Finset.prod_congr rfl fun k _ => ?_
      unfold fl
      rw [if_pos (gen_mem_dual b K G hG h i k y hy), LinearMap.zero_apply, if_pos le_rfl]
    rw [e]
    obtain ⟨q, hq⟩ := near_gen b G hG w
    obtain ⟨ε, e1, e2, e3⟩ := (hq.and ((hw q).and (total_ev 1 b 0 q w))).exists
    rw [← rightVal_gen 1 b 0 q w gw, ← e3, h _ e1.2, if_pos e2]
  · rw [if_neg hy]
    have hy' : ∃ f ∈ F, 0 < y f := by
      rw [hK] at hy
      simp only [Set.mem_ofPred_eq, not_forall, not_le] at hy
      obtain ⟨f, hf, h⟩ := hy
      exact ⟨f, hf, h⟩
    obtain ⟨f, hf, hyf⟩ := hy'
    have hfd : f ∈ dualOf K := by
      intro z hz
      rw [hK] at hz
      exact hz f hf
    obtain ⟨s, hs1, hs2⟩ := ((ev_pos_iff (y f) (y (w - f)) hyf.ne').and
      (Ioo_mem_nhdsGT (show (0 : ℝ) < 1 by norm_num))).exists
    set x := f + s • (w - f) with hx
    have hxc : x ∈ core (dualOf K) := core_mix K w f hw hfd s ⟨hs2.1, hs2.2.le⟩
    have hyx : 0 < y x := by
      rw [hx, map_add, map_smul, smul_eq_mul]; exact hs1.1.2 hyf
    obtain ⟨q, hq⟩ := near_gen b G hG x
    obtain ⟨ε, e1, e2, e3⟩ := (hq.and (((region_core K).opens x hxc q).and (ev_pos_iff (y x) (y q) hyx.ne'))).exists
    rw [region_const (hom d) 1 b _ (region_core K) (noJump_core b K G hG h) y w (x + ε • q) hw e2 gw e1.1]
    apply total_zero_of_pos
    rw [map_add, map_smul, smul_eq_mul]
    exact e3.1.2 hyx

end Dual

end Verif.Brion

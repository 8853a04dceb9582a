import Verif.Digging.Formal
import Mathlib.Data.Multiset.ZeroCons

/-!
# The coefficients of a level count points

If cones represent a set of lattice points, the signed numbers of exponent vectors of all cones for one value of the cost add up to the number of points
of the set with this cost.
-/

namespace Verif.Digging

open Verif.Barvinok (Vec)
open Verif.ExpSubst
open Verif.PolySubst (den' OffCone)

variable {n : ℕ}

theorem act_list_sum {β : Type*} (L : LP n) (F : β → Lat n → ℚ) (l : List β) : act L (l.map F).sum = (l.map fun b => act L (F b)).sum := by
  induction l with
  | nil => exact map_zero _
  | cons b l ih => rw [List.map_cons, List.sum_cons, map_add, ih, List.map_cons, List.sum_cons]

theorem list_sum_apply {β : Type*} (F : β → Lat n → ℚ) (l : List β) (z : Lat n) : (l.map F).sum z = (l.map fun b => F b z).sum := by
  induction l with
  | nil => rfl
  | cons b l ih => rw [List.map_cons, List.sum_cons, Pi.add_apply, ih, List.map_cons, List.sum_cons]

/-- **Expansions.** Cones that add up to `χ` up to a function killed by a Laurent polynomial have decreasing expansions that add up to `χ`. -/
theorem formal_identity {β : Type*} (cost : Vec n) (l : List β) (eps : β → ℚ) (rays : β → List (Vec n)) (num : β → LP n)
    (hr : ∀ b ∈ l, ∀ r ∈ rays b, r ≠ 0) (K E : β → Lat n → ℚ)
    (hK : ∀ b ∈ l, act (den' (rays b)) (K b) = emb (num b)) (hE : ∀ b ∈ l, act (den' (rays b)) (E b) = emb (num b))
    (hd : ∀ b ∈ l, Descending cost (E b)) (χ : Lat n → ℚ) (hχ : Descending cost χ) (g : Lat n → ℚ) (hg : ∃ L : LP n, L ≠ 0 ∧ act L g = 0)
    (h : ∀ z, (l.map fun b => eps b * K b z).sum = χ z + g z) (z : Vec n) : (l.map fun b => eps b * E b z).sum = χ z := by
  obtain ⟨L, hL, hLg⟩ := hg
  set D : LP n := (l.map fun b => den' (rays b)).prod with hD
  have hDne : D ≠ 0 := by
    rw [hD, Ne, List.prod_eq_zero_iff]
    intro hc
    obtain ⟨b, hb, h0⟩ := List.mem_map.1 hc
    exact den'_ne_zero (hr b hb) h0
  have hsame : ∀ b ∈ l, act D (E b) = act D (K b) := by
    intro b hb
    obtain ⟨D', hD'⟩ : den' (rays b) ∣ D := List.dvd_prod (List.mem_map.2 ⟨b, hb, rfl⟩)
    rw [hD', mul_comm, map_mul]
    show act D' (act (den' (rays b)) (E b)) = act D' (act (den' (rays b)) (K b))
    rw [hK b hb, hE b hb]
  have hsumE : act D (l.map fun b => eps b • E b).sum = act D (l.map fun b => eps b • K b).sum := by
    rw [act_list_sum, act_list_sum]
    congr 1
    apply List.map_congr_left
    intro b hb
    rw [map_smul, map_smul, hsame b hb]
  have hKsum : (l.map fun b => eps b • K b).sum = χ + g := by
    funext p
    rw [list_sum_apply]
    exact h p
  have hkill : act (D * L) ((l.map fun b => eps b • E b).sum + (-1 : ℚ) • χ) = 0 := by
    rw [map_add, map_smul, mul_comm, map_mul]
    show act L (act D _) + (-1 : ℚ) • act L (act D χ) = 0
    rw [hsumE, hKsum, map_add, map_add]
    have : act L (act D g) = 0 := by
      have h1 : act (L * D) g = act (D * L) g := by rw [mul_comm]
      rw [map_mul, map_mul] at h1
      show (act L * act D) g = 0
      rw [h1]
      show act D (act L g) = 0
      rw [hLg, map_zero]
    rw [this, add_zero, neg_one_smul, add_neg_cancel]
  have hzero := killed_zero (cost := cost) ((Descending.list_sum _ l fun b hb => (hd b hb).smul (eps b)).add (hχ.smul (-1)))
    (mul_ne_zero hDne hL) hkill
  have := congrFun hzero z
  rw [Pi.add_apply, list_sum_apply, Pi.smul_apply, smul_eq_mul] at this
  simp only [Pi.smul_apply, smul_eq_mul, Pi.zero_apply] at this
  linarith

/-- A turned cone: sign, vertex and generators. -/
structure Datum (n : ℕ) where
  sg : ℤ
  p : Vec n
  fs : List (Vec n)

/-- The exponent vectors of a turned cone for the cost `t`. -/
def Datum.at (cost : Vec n) (d : Datum n) (t : ℤ) : Set (List ℕ) := {e | e.length = d.fs.length ∧ inner cost (d.p + lincomb e d.fs) = t}

theorem Datum.at_eq (cost : Vec n) (d : Datum n) (t : ℤ) : d.at cost t = level (d.fs.map (inner cost)) (t - inner cost d.p) := by
  ext e
  unfold Datum.at level
  rw [Set.mem_ofPred_eq, Set.mem_ofPred_eq, List.length_map, inner_add, inner_lincomb]
  constructor
  · rintro ⟨h1, h2⟩; exact ⟨h1, by omega⟩
  · rintro ⟨h1, h2⟩; exact ⟨h1, by omega⟩

theorem Datum.at_finite {cost : Vec n} {d : Datum n} (h : ∀ f ∈ d.fs, inner cost f < 0) (t : ℤ) : (d.at cost t).Finite := by
  rw [Datum.at_eq]
  refine level_finite ?_ _
  intro y hy
  obtain ⟨f, hf, rfl⟩ := List.mem_map.1 hy
  exact h f hf

/-- The number of exponent vectors of cost `t`, as a sum over points. -/
theorem count_by_points {cost : Vec n} {d : Datum n} (h : ∀ f ∈ d.fs, inner cost f < 0) (t : ℤ) (W : Finset (Vec n))
    (hW : ∀ e ∈ d.at cost t, d.p + lincomb e d.fs ∈ W) (hW2 : ∀ z ∈ W, inner cost z = t) :
    ((d.sg * ((d.at cost t).ncard : ℤ) : ℤ) : ℚ) = ∑ z ∈ W, expand d.sg d.p d.fs z := by
  classical
  have hfin := Datum.at_finite h t
  have h1 : (d.at cost t).ncard = ∑ z ∈ W, (fiber d.fs (z - d.p)).ncard := by
    rw [Set.ncard_eq_toFinset_card _ hfin,
      Finset.card_eq_sum_card_fiberwise (f := fun e => d.p + lincomb e d.fs) (t := W) (by
        intro e he
        exact hW e (hfin.mem_toFinset.1 he))]
    refine Finset.sum_congr rfl fun z hz => ?_
    rw [← Set.ncard_coe_finset]
    congr 1
    ext e
    simp only [Finset.coe_filter, Set.Finite.mem_toFinset, Set.mem_ofPred_eq]
    constructor
    · rintro ⟨h2, h3⟩
      exact ⟨h2.1, by rw [← h3]; abel⟩
    · rintro ⟨h2, h3⟩
      have h4 : d.p + lincomb e d.fs = z := by rw [h3]; abel
      exact ⟨⟨h2, by rw [h4]; exact hW2 z hz⟩, h4⟩
  rw [h1]
  unfold expand mult
  push_cast
  rw [Finset.mul_sum]

/-- **A level.** If the turned cones add up to the indicator of `A`, the signed numbers of exponent vectors of cost `t` add up to the number of points of
`A` of cost `t`. -/
theorem level_count {cost : Vec n} (ds : List (Datum n)) (hneg : ∀ d ∈ ds, ∀ f ∈ d.fs, inner cost f < 0) (A : Set (Vec n))
    (hA : ∀ z, (z ∈ A → (ds.map fun d => expand d.sg d.p d.fs z).sum = 1) ∧ (z ∉ A → (ds.map fun d => expand d.sg d.p d.fs z).sum = 0)) (t : ℤ) :
    {z | z ∈ A ∧ inner cost z = t}.Finite ∧ (ds.map fun d => d.sg * ((d.at cost t).ncard : ℤ)).sum = ({z | z ∈ A ∧ inner cost z = t}.ncard : ℤ) := by
  classical
  have hcover : ∀ z ∈ A, ∃ d ∈ ds, ∃ e, e.length = d.fs.length ∧ d.p + lincomb e d.fs = z := by
    intro z hz
    by_contra hcon
    push Not at hcon
    have h1 := (hA z).1 hz
    have h2 : (ds.map fun d => expand d.sg d.p d.fs z).sum = 0 := by
      apply List.sum_eq_zero
      intro x hx
      obtain ⟨d, hd, rfl⟩ := List.mem_map.1 hx
      unfold expand mult
      have : fiber d.fs (z - d.p) = ∅ := by
        ext e
        refine ⟨?_, fun h => h.elim⟩
        rintro ⟨h3, h4⟩
        exact hcon d hd e h3 (by rw [h4]; abel)
      rw [this, Set.ncard_empty]
      simp
    rw [h2] at h1
    exact zero_ne_one h1
  set W0 : Set (Vec n) := ⋃ d ∈ {d | d ∈ ds}, (fun e => d.p + lincomb e d.fs) '' d.at cost t with hW0
  have hfin0 : W0.Finite := Set.Finite.biUnion (List.finite_toSet ds) fun d hd => (Datum.at_finite (hneg d hd) t).image _
  have hsub : {z | z ∈ A ∧ inner cost z = t} ⊆ W0 := by
    rintro z ⟨h1, h2⟩
    obtain ⟨d, hd, e, he, hz⟩ := hcover z h1
    exact Set.mem_biUnion (show d ∈ {d | d ∈ ds} from hd) ⟨e, ⟨he, by rw [hz]; exact h2⟩, hz⟩
  refine ⟨hfin0.subset hsub, ?_⟩
  set W := hfin0.toFinset with hW
  have hWt : ∀ z ∈ W, inner cost z = t := by
    intro z hz
    obtain ⟨d, hd, e, he, rfl⟩ := Set.mem_iUnion₂.1 (hfin0.mem_toFinset.1 hz)
    exact he.2
  have hsum : ((ds.map fun d => d.sg * ((d.at cost t).ncard : ℤ)).sum : ℚ) = ∑ z ∈ W, (ds.map fun d => expand d.sg d.p d.fs z).sum := by
    have key : ∀ l : List (Datum n), (∀ d ∈ l, d ∈ ds) →
        (((l.map fun d => d.sg * ((d.at cost t).ncard : ℤ)).sum : ℤ) : ℚ) = ∑ z ∈ W, (l.map fun d => expand d.sg d.p d.fs z).sum := by
      intro l
      induction l with
      | nil => intro _; simp
      | cons d l ih =>
        intro hl
        have hd := hl d List.mem_cons_self
        rw [List.map_cons, List.sum_cons, Int.cast_add, ih fun d' hd' => hl d' (List.mem_cons_of_mem _ hd'),
          count_by_points (hneg d hd) t W (fun e he => hfin0.mem_toFinset.2
            (Set.mem_biUnion (show d ∈ {d | d ∈ ds} from hd) ⟨e, he, rfl⟩)) hWt, ← Finset.sum_add_distrib]
        exact Finset.sum_congr rfl fun z _ => by rw [List.map_cons, List.sum_cons]
    exact key ds fun d hd => hd
  have hcard : ∑ z ∈ W, (ds.map fun d => expand d.sg d.p d.fs z).sum = (({z | z ∈ A ∧ inner cost z = t}.ncard : ℤ) : ℚ) := by
    have h1 : ∀ z ∈ W, (ds.map fun d => expand d.sg d.p d.fs z).sum = if z ∈ A then (1 : ℚ) else 0 := by
      intro z _
      by_cases hz : z ∈ A
      · rw [if_pos hz, (hA z).1 hz]
      · rw [if_neg hz, (hA z).2 hz]
    rw [Finset.sum_congr rfl h1, Finset.sum_boole]
    have h2 : {z | z ∈ A ∧ inner cost z = t} = ((W.filter fun z => z ∈ A : Finset (Vec n)) : Set (Vec n)) := by
      ext z
      simp only [Finset.coe_filter, Set.mem_ofPred_eq]
      constructor
      · intro hz
        exact ⟨hfin0.mem_toFinset.2 (hsub hz), hz.1⟩
      · rintro ⟨h3, h4⟩
        exact ⟨h4, hWt z h3⟩
    rw [h2, Set.ncard_coe_finset]
    rfl
  exact_mod_cast hsum.trans hcard

/-- Every point of the set is listed by some cone. -/
theorem covered {cost : Vec n} (ds : List (Datum n)) (A : Set (Vec n))
    (hA : ∀ z ∈ A, (ds.map fun d => expand d.sg d.p d.fs z).sum = 1) (z : Vec n) (hz : z ∈ A) :
    ∃ d ∈ ds, ∃ e ∈ d.at cost (inner cost z), d.p + lincomb e d.fs = z := by
  by_contra hcon
  push Not at hcon
  have h1 := hA z hz
  have h2 : (ds.map fun d => expand d.sg d.p d.fs z).sum = 0 := by
    apply List.sum_eq_zero
    intro x hx
    obtain ⟨d, hd, rfl⟩ := List.mem_map.1 hx
    unfold expand mult
    have : fiber d.fs (z - d.p) = ∅ := by
      ext e
      refine ⟨?_, fun h => h.elim⟩
      rintro ⟨h3, h4⟩
      have h5 : d.p + lincomb e d.fs = z := by rw [h4]; abel
      exact hcon d hd e ⟨h3, by rw [h5]⟩ h5
    rw [this, Set.ncard_empty]
    simp
  rw [h2] at h1
  exact zero_ne_one h1

end Verif.Digging

import Verif.RatVec.Model
import Mathlib.Data.Rat.Lemmas
import Mathlib.Tactic.FieldSimp
import Mathlib.Tactic.Ring
import Mathlib.Tactic.Linarith
import Mathlib.Algebra.GCDMonoid.Nat
import Mathlib.Algebra.Order.Field.Rat

namespace Latte.RatVec

/-- value of an entry -/
def val (e : Int × Int) : ℚ := (e.1 : ℚ) / e.2

theorem fdiv_dvd {a b : Int} (h : b ∣ a) : a.fdiv b = a / b := Int.fdiv_eq_ediv_of_dvd h

theorem lcmZ_eq (a b : Int) : lcmZ a b = a * (b / (Int.gcd a b : Int)) := by
  unfold lcmZ; rw [fdiv_dvd (Int.gcd_dvd_right ..)]

theorem lcmZ_natAbs (a b : Int) : (lcmZ a b).natAbs = Int.lcm a b := by
  rw [lcmZ_eq, Int.natAbs_mul, Int.natAbs_ediv_of_dvd (Int.gcd_dvd_right ..), Int.lcm, Nat.lcm]
  simp only [Int.natAbs_natCast, Int.gcd]
  rw [Nat.mul_div_assoc _ (Nat.gcd_dvd_right ..)]

theorem dvd_lcmZ_left (a b : Int) : a ∣ lcmZ a b := by
  rw [lcmZ_eq]; exact dvd_mul_right _ _

theorem dvd_lcmZ_right (a b : Int) : b ∣ lcmZ a b := by
  rw [← Int.natAbs_dvd_natAbs, lcmZ_natAbs]
  exact Nat.dvd_lcm_right _ _

theorem lcmZ_dvd {a b c : Int} (h1 : a ∣ c) (h2 : b ∣ c) : lcmZ a b ∣ c := by
  rw [← Int.natAbs_dvd_natAbs, lcmZ_natAbs]
  exact Nat.lcm_dvd (Int.natAbs_dvd_natAbs.2 h1) (Int.natAbs_dvd_natAbs.2 h2)

theorem lcmZ_ne_zero {a b : Int} (ha : a ≠ 0) (hb : b ≠ 0) : lcmZ a b ≠ 0 := by
  rw [← Int.natAbs_ne_zero, lcmZ_natAbs]
  exact Nat.lcm_ne_zero (Int.natAbs_ne_zero.2 ha) (Int.natAbs_ne_zero.2 hb)

theorem lcmZ_pos {a b : Int} (ha : 0 < a) (hb : 0 < b) : 0 < lcmZ a b := by
  rw [lcmZ_eq]
  apply mul_pos ha
  apply Int.ediv_pos_of_pos_of_dvd hb (by positivity) (Int.gcd_dvd_right ..)

/-- the factor loop -/
def factorOf (es : List (Int × Int)) : Int := es.foldl (fun f e => lcmZ f e.2) 1

theorem factor_aux (es : List (Int × Int)) (h : ∀ e ∈ es, e.2 ≠ 0) (f0 : Int) (hf : f0 ≠ 0) :
    let f := es.foldl (fun f e => lcmZ f e.2) f0
    f ≠ 0 ∧ f0 ∣ f ∧ (∀ e ∈ es, e.2 ∣ f) ∧ (∀ t, f0 ∣ t → (∀ e ∈ es, e.2 ∣ t) → f ∣ t) ∧
    (0 < f0 → (∀ e ∈ es, 0 < e.2) → 0 < f) := by
  induction es generalizing f0 with
  | nil => exact ⟨hf, dvd_rfl, by simp, fun t h1 _ => h1, fun h _ => h⟩
  | cons e es ih =>
    have he := h e (List.mem_cons_self ..)
    obtain ⟨h1, h2, h3, h4, h5⟩ := ih (fun x hx => h x (List.mem_cons_of_mem _ hx)) (lcmZ f0 e.2) (lcmZ_ne_zero hf he)
    refine ⟨h1, (dvd_lcmZ_left _ _).trans h2, ?_, ?_, ?_⟩
    · intro x hx
      rcases List.mem_cons.1 hx with rfl | hx
      · exact (dvd_lcmZ_right _ _).trans h2
      · exact h3 x hx
    · intro t ht hall
      exact h4 t (lcmZ_dvd ht (hall e (List.mem_cons_self ..))) (fun x hx => hall x (List.mem_cons_of_mem _ hx))
    · intro hp hall
      exact h5 (lcmZ_pos hp (hall e (List.mem_cons_self ..))) (fun x hx => hall x (List.mem_cons_of_mem _ hx))

theorem factorOf_spec (es : List (Int × Int)) (h : ∀ e ∈ es, e.2 ≠ 0) :
    factorOf es ≠ 0 ∧ (∀ e ∈ es, e.2 ∣ factorOf es) ∧ (∀ t, (∀ e ∈ es, e.2 ∣ t) → factorOf es ∣ t) ∧
    ((∀ e ∈ es, 0 < e.2) → 0 < factorOf es) := by
  obtain ⟨h1, _, h3, h4, h5⟩ := factor_aux es h 1 one_ne_zero
  exact ⟨h1, h3, fun t ht => h4 t (one_dvd _) ht, fun hp => h5 one_pos hp⟩

/-- the cache is consistent with the entries -/
def CacheOk (v : RVec) : Prop :=
  v.computed = true → v.factor ≠ 0 ∧ v.iscale.map (fun (u : Int) => (u : ℚ) / v.factor) = v.ents.map val

/-- all denominators non-zero -/
def DenOk (v : RVec) : Prop := ∀ e ∈ v.ents, e.2 ≠ 0

theorem compute_ok (v : RVec) (h : DenOk v) : CacheOk (compute v) ∧ (compute v).ents = v.ents ∧
    (compute v).computed = true ∧ (compute v).factor = factorOf v.ents := by
  obtain ⟨h1, h2, _, _⟩ := factorOf_spec v.ents h
  refine ⟨fun _ => ⟨h1, ?_⟩, rfl, rfl, rfl⟩
  unfold compute
  simp only [List.map_map]
  apply List.map_congr_left
  intro e he
  have hd := h e he
  have hdv := h2 e he
  simp only [Function.comp]
  change ((e.1 * (factorOf v.ents).fdiv e.2 : Int) : ℚ) / (factorOf v.ents) = val e
  rw [fdiv_dvd hdv]
  have hq : (e.2 : ℚ) ≠ 0 := by exact_mod_cast hd
  have hf : ((factorOf v.ents : Int) : ℚ) ≠ 0 := by exact_mod_cast h1
  rw [Int.cast_mul, Int.cast_div hdv hq]
  unfold val
  field_simp

theorem canonEntry_spec (e : Int × Int) (h : e.2 ≠ 0) :
    (canonEntry e).2 ≠ 0 ∧ val (canonEntry e) = val e ∧ Int.gcd (canonEntry e).1 (canonEntry e).2 = 1 ∧
    (0 < e.2 → 0 < (canonEntry e).2) := by
  have hg : 0 < Int.gcd e.1 e.2 := Int.gcd_pos_of_ne_zero_right _ h
  unfold canonEntry
  simp only
  by_cases hg1 : (Int.gcd e.1 e.2 : Int) = 1
  · rw [if_neg (by simpa using hg1)]
    exact ⟨h, rfl, by exact_mod_cast hg1, id⟩
  · rw [if_pos hg1, fdiv_dvd (Int.gcd_dvd_left ..), fdiv_dvd (Int.gcd_dvd_right ..)]
    have hgz : ((Int.gcd e.1 e.2 : Nat) : Int) ≠ 0 := by exact_mod_cast hg.ne'
    have hgq : ((Int.gcd e.1 e.2 : Nat) : ℚ) ≠ 0 := by exact_mod_cast hg.ne'
    have hq : (e.2 : ℚ) ≠ 0 := by exact_mod_cast h
    refine ⟨?_, ?_, Int.gcd_ediv_gcd_ediv_gcd hg, ?_⟩
    · intro h0
      exact h (Int.eq_zero_of_ediv_eq_zero (Int.gcd_dvd_right ..) h0)
    · unfold val
      simp only
      rw [Int.cast_div (Int.gcd_dvd_left ..) (by exact_mod_cast hg.ne'),
        Int.cast_div (Int.gcd_dvd_right ..) (by exact_mod_cast hg.ne')]
      push_cast
      field_simp
    · intro hp
      exact Int.ediv_pos_of_pos_of_dvd hp (by positivity) (Int.gcd_dvd_right ..)

theorem canonicalize_spec (v : RVec) (h : DenOk v) (hc : CacheOk v) :
    DenOk (canonicalize v) ∧ CacheOk (canonicalize v) ∧ (canonicalize v).ents = v.ents.map canonEntry ∧
    (canonicalize v).ents.map val = v.ents.map val ∧ (canonicalize v).computed = true := by
  have hval : (v.ents.map canonEntry).map val = v.ents.map val := by
    rw [List.map_map]
    apply List.map_congr_left
    intro e he
    exact (canonEntry_spec e (h e he)).2.1
  have hden : ∀ e ∈ v.ents.map canonEntry, e.2 ≠ 0 := by
    intro e he
    obtain ⟨x, hx, rfl⟩ := List.mem_map.1 he
    exact (canonEntry_spec x (h x hx)).1
  unfold canonicalize
  simp only
  split_ifs with hcomp
  · simp only [Bool.and_eq_true] at hcomp
    refine ⟨hden, ?_, rfl, hval, by simp only [Bool.and_eq_true]; exact hcomp⟩
    intro _
    obtain ⟨h1, h2⟩ := hc hcomp.1
    exact ⟨h1, h2.trans hval.symm⟩
  · have := compute_ok { v with ents := v.ents.map canonEntry, computed := v.computed && !(v.ents.any (fun e => (Int.gcd e.1 e.2 : Int) ≠ 1)) } hden
    exact ⟨hden, this.1, rfl, hval, rfl⟩

end Latte.RatVec
